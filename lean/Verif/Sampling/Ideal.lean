import Mathlib.MeasureTheory.Constructions.Pi
import Mathlib.Probability.Distributions.Gaussian.Real
import Mathlib.Probability.ProductMeasure
import Verif.Sampling.Rejection

/-!
# Ideal random generators

What is assumed of a random generator when the laws of its results are of interest: the numbers of
a request are independent, with the requested laws, and independent of the generator afterwards,
which is as good as the one before.
-/

namespace Glass.Sampling

open Glass Glass.Shapes MeasureTheory ProbabilityTheory
open scoped ENNReal

section Ideal

variable {σ α Θ : Type} [MeasurableSpace σ] [MeasurableSpace α] [Inhabited α]

/-- The values of a request as a vector, and the generator afterwards. -/
def outcome (draw : σ → List Θ → List α × σ) (θs : List Θ) (s : σ) : (Fin θs.length → α) × σ :=
  (fun i => (draw s θs).1.getD i default, (draw s θs).2)

/-- An ideal source of random numbers: `draw s θs` returns one number for each parameter; the
numbers are independent with the laws `ν`, and independent of the new state of the generator, which
has the law `μ` of the old one. -/
structure Ideal (μ : Measure σ) (ν : Θ → Measure α) (draw : σ → List Θ → List α × σ) : Prop where
  length : ∀ s θs, (draw s θs).1.length = θs.length
  measurable : ∀ θs, Measurable (outcome draw θs)
  law : ∀ θs, μ.map (outcome draw θs) = (Measure.pi fun i => ν (θs.get i)).prod μ

omit [MeasurableSpace α] in
theorem inBox_iff_getD : ∀ {x : List α} {As : List (Set α)}, x.length = As.length →
    (InBox x As ↔ ∀ i : Fin As.length, x.getD i default ∈ As.get i)
  | [], [], _ => by simp
  | [], _ :: _, h => by simp at h
  | _ :: _, [], h => by simp at h
  | a :: x, A :: As, h => by
    rw [inBox_cons, inBox_iff_getD (by simpa using h)]
    constructor
    · rintro ⟨h1, h2⟩ i
      refine Fin.cases ?_ (fun j => ?_) i
      · simpa using h1
      · simpa using h2 j
    · intro h
      refine ⟨by simpa using h ⟨0, by simp⟩, fun i => ?_⟩
      simpa using h i.succ

theorem getD_get {β : Type} {l : List β} {i : ℕ} {d : β} (h : i < l.length) :
    l.getD i d = l[i] := by
  simp [h]

omit [Inhabited α] in
theorem prod_pairs (ν : Θ → Measure α) : ∀ (θs : List Θ) (As : List (Set α)),
    θs.length = As.length →
    ∏ i : Fin θs.length, ν (θs.get i) (As.getD i Set.univ) =
      (List.zipWith (fun θ A => ν θ A) θs As).prod
  | [], [], _ => by simp
  | [], _ :: _, h => by simp at h
  | _ :: _, [], h => by simp at h
  | θ :: θs, A :: As, h => by
    have ih := prod_pairs ν θs As (by simpa using h)
    rw [List.zipWith_cons_cons, List.prod_cons, ← ih]
    exact Fin.prod_univ_succ (n := θs.length)
      fun i : Fin (θs.length + 1) => ν ((θ :: θs).get i) ((A :: As).getD i Set.univ)

omit [MeasurableSpace σ] [MeasurableSpace α] in
theorem outcome_preimage {draw : σ → List Θ → List α × σ} {θs : List Θ} {As : List (Set α)}
    (F : Set σ) (hl : ∀ s, (draw s θs).1.length = θs.length) (h : θs.length = As.length) :
    {s | InBox (draw s θs).1 As ∧ (draw s θs).2 ∈ F} = outcome draw θs ⁻¹'
      ((Set.univ.pi fun i : Fin θs.length => As.getD i Set.univ) ×ˢ F) := by
  ext s
  rw [Set.mem_ofPred_eq, inBox_iff_getD ((hl s).trans h), Set.mem_preimage, Set.mem_prod]
  refine and_congr ?_ Iff.rfl
  simp only [Set.mem_pi, Set.mem_univ, forall_true_left, outcome]
  constructor
  · intro h' i
    have := h' (i.cast h)
    simp only [List.get_eq_getElem, Fin.val_cast] at this
    rwa [getD_get (h ▸ i.2)]
  · intro h' i
    have := h' (i.cast h.symm)
    simp only [Fin.val_cast] at this
    rwa [getD_get i.2] at this

/-- The probability of a box. -/
theorem Ideal.box {μ : Measure σ} [SFinite μ] {ν : Θ → Measure α}
    [∀ θ, IsProbabilityMeasure (ν θ)] {draw : σ → List Θ → List α × σ} (hd : Ideal μ ν draw)
    {θs : List Θ} {As : List (Set α)} {F : Set σ}
    (h : θs.length = As.length) (hA : ∀ A ∈ As, MeasurableSet A) (hF : MeasurableSet F) :
    MeasurableSet {s | InBox (draw s θs).1 As ∧ (draw s θs).2 ∈ F} ∧
    μ {s | InBox (draw s θs).1 As ∧ (draw s θs).2 ∈ F} =
      (List.zipWith (fun θ A => ν θ A) θs As).prod * μ F := by
  rw [outcome_preimage F (fun s => hd.length s θs) h]
  have hm : MeasurableSet ((Set.univ.pi fun i : Fin θs.length => As.getD i Set.univ) ×ˢ F) := by
    refine MeasurableSet.prod (MeasurableSet.univ_pi fun i => ?_) hF
    rw [getD_get (h ▸ i.2)]
    exact hA _ (List.getElem_mem _)
  refine ⟨hd.measurable θs hm, ?_⟩
  rw [← Measure.map_apply (hd.measurable θs) hm, hd.law, Measure.prod_prod, Measure.pi_pi,
    prod_pairs ν θs As h]

/-- Drawing for the selected entries only. -/
theorem Ideal.maskLaw {μ : Measure σ} [SFinite μ] {ν : Θ → Measure α}
    [∀ θ, IsProbabilityMeasure (ν θ)] {draw : σ → List Θ → List α × σ} (hd : Ideal μ ν draw)
    (js : List Θ) : MaskLaw μ ν js fun s m => draw s (select m js) where
  length s m hm := by rw [hd.length, select_length hm]
  measurable m As F hm hl hA hF := (hd.box (by rw [select_length hm, hl]) hA hF).1
  law m As F hm hl hA hF := (hd.box (by rw [select_length hm, hl]) hA hF).2

/-- The sets of the selected entries; anything for the others. -/
def fill : List Bool → List (Set α) → List (Set α)
  | true :: m, A :: As => A :: fill m As
  | true :: m, [] => Set.univ :: fill m []
  | false :: m, As => Set.univ :: fill m As
  | [], _ => []

omit [MeasurableSpace α] [Inhabited α] in
theorem inBox_fill : ∀ {m : List Bool} {As : List (Set α)} {x : List α}, x.length = m.length →
    As.length = m.count true → (InBox x (fill m As) ↔ InBox (select m x) As)
  | [], As, [], _, h => by
    have : As = [] := by simpa using h
    subst this
    simp [fill, select]
  | [], _, _ :: _, h, _ => by simp at h
  | _ :: _, _, [], h, _ => by simp at h
  | true :: m, [], _, _, h => by simp at h
  | true :: m, A :: As, a :: x, h, h' => by
    simp only [fill, select, inBox_cons]
    rw [inBox_fill (by simpa using h) (by simpa using h')]
  | false :: m, As, a :: x, h, h' => by
    simp only [fill, select, inBox_cons, Set.mem_univ, true_and]
    rw [inBox_fill (by simpa using h) (by simpa using h')]

omit [MeasurableSpace α] [Inhabited α] in
theorem fill_length : ∀ {m : List Bool} {As : List (Set α)}, (fill m As).length = m.length
  | [], _ => by simp [fill]
  | true :: m, [] => by simp [fill, fill_length (m := m)]
  | true :: m, A :: As => by simp [fill, fill_length (m := m)]
  | false :: m, As => by simp [fill, fill_length (m := m)]

omit [Inhabited α] in
theorem fill_measurable : ∀ {m : List Bool} {As : List (Set α)}, (∀ A ∈ As, MeasurableSet A) →
    ∀ A ∈ fill m As, MeasurableSet A
  | [], _, _, _, h => by simp [fill] at h
  | true :: m, [], h, A, h' => by
    simp only [fill, List.mem_cons] at h'
    rcases h' with rfl | h'
    · exact MeasurableSet.univ
    · exact fill_measurable h A h'
  | true :: m, B :: As, h, A, h' => by
    simp only [fill, List.mem_cons] at h'
    rcases h' with rfl | h'
    · exact h _ (List.mem_cons_self ..)
    · exact fill_measurable (fun C hC => h C (List.mem_cons_of_mem _ hC)) A h'
  | false :: m, As, h, A, h' => by
    simp only [fill, List.mem_cons] at h'
    rcases h' with rfl | h'
    · exact MeasurableSet.univ
    · exact fill_measurable h A h'

omit [Inhabited α] in
theorem fill_prod (ν : Θ → Measure α) [∀ θ, IsProbabilityMeasure (ν θ)] :
    ∀ {m : List Bool} {js : List Θ} {As : List (Set α)}, m.length = js.length →
    As.length = m.count true →
    (List.zipWith (fun θ A => ν θ A) js (fill m As)).prod =
      (List.zipWith (fun θ A => ν θ A) (select m js) As).prod
  | [], [], As, _, h => by simp [select]
  | [], _ :: _, _, h, _ => by simp at h
  | _ :: _, [], _, h, _ => by simp at h
  | true :: m, _, [], _, h => by simp at h
  | true :: m, j :: js, A :: As, h, h' => by
    simp only [fill, select, List.zipWith_cons_cons, List.prod_cons]
    rw [fill_prod ν (by simpa using h) (by simpa using h')]
  | false :: m, j :: js, As, h, h' => by
    simp only [fill, select, List.zipWith_cons_cons, List.prod_cons, measure_univ, one_mul]
    rw [fill_prod ν (by simpa using h) (by simpa using h')]

/-- Drawing for all entries; those that are not selected are discarded. -/
theorem Ideal.maskLaw_all {μ : Measure σ} [SFinite μ] {ν : Θ → Measure α}
    [∀ θ, IsProbabilityMeasure (ν θ)] {draw : σ → List Θ → List α × σ} (hd : Ideal μ ν draw)
    (js : List Θ) : MaskLaw μ ν js fun s m => (select m (draw s js).1, (draw s js).2) := by
  have he : ∀ (m : List Bool) (As : List (Set α)) (F : Set σ), m.length = js.length →
      As.length = m.count true → {s | InBox (select m (draw s js).1) As ∧ (draw s js).2 ∈ F} =
        {s | InBox (draw s js).1 (fill m As) ∧ (draw s js).2 ∈ F} := by
    intro m As F hm hl
    ext s
    simp only [Set.mem_ofPred_eq]
    rw [inBox_fill (by rw [hd.length, hm]) hl]
  refine ⟨fun s m hm => ?_, fun m As F hm hl hA hF => ?_, fun m As F hm hl hA hF => ?_⟩
  · rw [select_length (by rw [hd.length, hm])]
  · have := (hd.box (θs := js) (As := fill m As) (by rw [fill_length, hm]) (fill_measurable hA)
      hF).1
    rw [← he m As F hm hl] at this
    exact this
  · have := (hd.box (θs := js) (As := fill m As) (by rw [fill_length, hm]) (fill_measurable hA)
      hF).2
    rw [← he m As F hm hl, fill_prod ν hm hl] at this
    exact this

omit [Inhabited α] in
/-- The values of a request after a function has been applied to each one. -/
theorem MaskLaw.map {ι β : Type} [MeasurableSpace β] {μ : Measure σ} {ν : ι → Measure α}
    {js : List ι} {draw : σ → List Bool → List α × σ} (hd : MaskLaw μ ν js draw) {f : α → β}
    (hf : Measurable f) :
    MaskLaw μ (fun j => (ν j).map f) js fun s m => ((draw s m).1.map f, (draw s m).2) := by
  have he : ∀ (x : List α) (As : List (Set β)),
      InBox (x.map f) As ↔ InBox x (As.map fun A => f ⁻¹' A) := by
    intro x
    induction x with
    | nil => intro As; cases As <;> simp
    | cons a x ih =>
      intro As
      cases As with
      | nil => simp
      | cons A As => simp [ih]
  have hA' : ∀ {As : List (Set β)}, (∀ A ∈ As, MeasurableSet A) →
      ∀ A ∈ As.map fun A => f ⁻¹' A, MeasurableSet A := by
    intro As hA B hB
    obtain ⟨A, hA1, rfl⟩ := List.mem_map.1 hB
    exact hf (hA A hA1)
  refine ⟨fun s m hm => by simpa using hd.length s m hm, fun m As F hm hl hA hF => ?_,
    fun m As F hm hl hA hF => ?_⟩
  · simp only [he]
    exact hd.measurable m _ F hm (by simpa using hl) (hA' hA) hF
  · simp only [he]
    rw [hd.law m _ F hm (by simpa using hl) (hA' hA) hF]
    congr 2
    have : ∀ (l : List ι) (As : List (Set β)), (∀ A ∈ As, MeasurableSet A) →
        List.zipWith (fun j A => ν j A) l (As.map fun A => f ⁻¹' A) =
          List.zipWith (fun j A => (ν j).map f A) l As := by
      intro l
      induction l with
      | nil => simp
      | cons j l ih =>
        intro As hA
        cases As with
        | nil => simp
        | cons A As =>
          simp only [List.map_cons, List.zipWith_cons_cons]
          rw [ih As fun B hB => hA B (List.mem_cons_of_mem _ hB),
            Measure.map_apply hf (hA A (List.mem_cons_self ..))]
    exact this _ _ hA

end Ideal

/-! ## Normal numbers -/

section Normal

variable {σ : Type} [MeasurableSpace σ]

/-- What is assumed of `rng.standard_normal((n,))`: an ideal source of numbers with the standard
normal distribution. -/
def IdealNormal (μ : Measure σ) (normal : σ → ℕ → List ℝ × σ) : Prop :=
  Ideal μ (fun _ : Unit => gaussianReal 0 1) fun s l => normal s l.length

/-- The standard normal distribution of the complex plane: independent standard normal real and
imaginary parts. -/
noncomputable def complexNormal : Measure ℂ :=
  ((gaussianReal 0 1).prod (gaussianReal 0 1)).map fun p : ℝ × ℝ => (p.1 : ℂ) + Complex.I * p.2

theorem measurable_complex :
    Measurable fun p : ℝ × ℝ => (p.1 : ℂ) + Complex.I * p.2 := by
  fun_prop

instance : IsProbabilityMeasure complexNormal :=
  Measure.isProbabilityMeasure_map measurable_complex.aemeasurable

/-- The complex numbers made from two requests for normal numbers are an ideal source of numbers
with the standard normal distribution of the complex plane. -/
theorem populate_ideal {μ : Measure σ} [IsProbabilityMeasure μ] {normal : σ → ℕ → List ℝ × σ}
    (hn : IdealNormal μ normal) :
    Ideal μ (fun _ : Unit => complexNormal) fun s l => populate normal s l.length := by
  have hlen : ∀ s n, (normal s n).1.length = n := fun s n => by
    have := hn.length s (List.replicate n ())
    simpa using this
  set real := fun (s : σ) (l : List Unit) => normal s l.length with hreal
  have hout : ∀ l : List Unit, outcome (fun s l => populate normal s l.length) l =
      Prod.map (fun (f : Fin l.length → ℝ × ℝ) i => ((f i).1 : ℂ) + Complex.I * (f i).2) id ∘
      Prod.map (MeasurableEquiv.arrowProdEquivProdArrow ℝ ℝ (Fin l.length)).symm id ∘
      MeasurableEquiv.prodAssoc.symm ∘ Prod.map id (outcome real l) ∘ outcome real l := by
    intro l
    funext s
    refine Prod.ext ?_ rfl
    funext i
    have h1 := hlen s l.length
    have h2 := hlen (normal s l.length).2 l.length
    simp [outcome, populate, real, MeasurableEquiv.arrowProdEquivProdArrow,
      Equiv.arrowProdEquivProdArrow, MeasurableEquiv.prodAssoc, h1, h2]
  have hgm : ∀ l : List Unit,
      Measurable fun (f : Fin l.length → ℝ × ℝ) i => ((f i).1 : ℂ) + Complex.I * (f i).2 := by
    intro l
    refine measurable_pi_lambda _ fun i => measurable_complex.comp (measurable_pi_apply i)
  refine ⟨fun s l => ?_, fun l => ?_, fun l => ?_⟩
  · simp [populate, hlen]
  · rw [hout]
    exact ((hgm l).prodMap measurable_id).comp
      (((MeasurableEquiv.measurable _).prodMap measurable_id).comp
      ((MeasurableEquiv.measurable _).comp
      ((measurable_id.prodMap (hn.measurable l)).comp (hn.measurable l))))
  · have hm0 : Measurable (outcome real l) := hn.measurable l
    have hm1 : Measurable (Prod.map (id : (Fin l.length → ℝ) → Fin l.length → ℝ)
      (outcome real l)) := measurable_id.prodMap hm0
    have hl : μ.map (outcome real l) =
      (Measure.pi fun _ : Fin l.length => gaussianReal 0 1).prod μ := hn.law l
    rw [hout]
    rw [← Measure.map_map ((hgm l).prodMap measurable_id)
      (((MeasurableEquiv.measurable _).prodMap measurable_id).comp
      ((MeasurableEquiv.measurable _).comp (hm1.comp hm0)))]
    rw [← Measure.map_map ((MeasurableEquiv.measurable _).prodMap measurable_id)
      ((MeasurableEquiv.measurable _).comp (hm1.comp hm0))]
    rw [← Measure.map_map (MeasurableEquiv.measurable _) (hm1.comp hm0)]
    rw [← Measure.map_map hm1 hm0, hl, ← Measure.map_prod_map _ _ measurable_id hm0, hl,
      Measure.map_id]
    have h1 : Measure.map (MeasurableEquiv.prodAssoc.symm)
        ((Measure.pi fun _ : Fin l.length => gaussianReal 0 1).prod
          ((Measure.pi fun _ : Fin l.length => gaussianReal 0 1).prod μ)) =
        ((Measure.pi fun _ : Fin l.length => gaussianReal 0 1).prod
          (Measure.pi fun _ : Fin l.length => gaussianReal 0 1)).prod μ :=
      (measurePreserving_prodAssoc _ _ _).symm.map_eq
    rw [h1, ← Measure.map_prod_map _ _ (MeasurableEquiv.measurable _) measurable_id]
    have h2 : Measure.map (MeasurableEquiv.arrowProdEquivProdArrow ℝ ℝ (Fin l.length)).symm
        ((Measure.pi fun _ : Fin l.length => gaussianReal 0 1).prod
          (Measure.pi fun _ : Fin l.length => gaussianReal 0 1)) =
        Measure.pi fun _ : Fin l.length => (gaussianReal 0 1).prod (gaussianReal 0 1) :=
      ((measurePreserving_arrowProdEquivProdArrow ℝ ℝ (Fin l.length)
        (fun _ => gaussianReal 0 1) (fun _ => gaussianReal 0 1)).symm).map_eq
    rw [h2, ← Measure.map_prod_map _ _ (hgm l) measurable_id, Measure.map_id, Measure.map_id]
    congr 1
    exact Measure.pi_map_pi fun _ => measurable_complex.aemeasurable

end Normal

/-! ## Ideal sources exist -/

section Stream

variable {α β Θ : Type} [MeasurableSpace α] [MeasurableSpace β]

/-- An infinite supply of numbers: a request takes as many of them as there are parameters, and
leaves the rest. -/
def stream (f : Θ → β → α) (s : ℕ → β) (θs : List Θ) : List α × (ℕ → β) :=
  (List.ofFn fun i : Fin θs.length => f (θs.get i) (s i), fun k => s (θs.length + k))

/-- A finite sequence followed by an infinite one. -/
def glue {n : ℕ} (p : (Fin n → β) × (ℕ → β)) (k : ℕ) : β :=
  if h : k < n then p.1 ⟨k, h⟩ else p.2 (k - n)

theorem measurable_glue {n : ℕ} : Measurable (glue (n := n) (β := β)) := by
  refine measurable_pi_lambda _ fun k => ?_
  unfold glue
  by_cases h : k < n
  · simp only [h, dite_true]
    exact (measurable_pi_apply _).comp measurable_fst
  · simp only [h, dite_false]
    exact (measurable_pi_apply _).comp measurable_snd

theorem map_glue (γ : Measure β) [IsProbabilityMeasure γ] (n : ℕ) :
    ((Measure.pi fun _ : Fin n => γ).prod (Measure.infinitePi fun _ : ℕ => γ)).map glue =
      Measure.infinitePi fun _ : ℕ => γ := by
  refine Measure.eq_infinitePi _ fun s t ht => ?_
  have hm : MeasurableSet (Set.pi (s : Set ℕ) t) :=
    MeasurableSet.pi s.countable_toSet fun i _ => ht i
  rw [Measure.map_apply measurable_glue hm]
  have hpre : glue (n := n) ⁻¹' (Set.pi (s : Set ℕ) t) =
      (Set.univ.pi fun i : Fin n => if (i : ℕ) ∈ s then t i else Set.univ) ×ˢ
        (Set.pi ((s.filter (n ≤ ·)).image (· - n) : Finset ℕ) fun k => t (n + k)) := by
    ext p
    simp only [Set.mem_preimage, Set.mem_pi, Finset.mem_coe, Set.mem_prod, Set.mem_univ,
      forall_true_left, Finset.mem_image, Finset.mem_filter, forall_exists_index, and_imp]
    constructor
    · intro h
      refine ⟨fun i => ?_, ?_⟩
      · split_ifs with hi
        · have := h i hi
          simpa [glue] using this
        · trivial
      · rintro k j hj hnj rfl
        have := h j hj
        simp only [glue, not_lt.2 hnj, dite_false] at this
        rwa [Nat.add_sub_cancel' hnj]
    · rintro ⟨h1, h2⟩ i hi
      by_cases hin : i < n
      · have := h1 ⟨i, hin⟩
        simp only [hi, if_true] at this
        simpa [glue, hin] using this
      · have := h2 (i - n) i hi (not_lt.1 hin) rfl
        rw [Nat.add_sub_cancel' (not_lt.1 hin)] at this
        simpa [glue, hin] using this
  rw [hpre, Measure.prod_prod, Measure.pi_pi, Measure.infinitePi_pi _ fun i _ => ht _,
    Finset.prod_image (by
      intro a ha b hb hab
      have ha := (Finset.mem_filter.1 ha).2
      have hb := (Finset.mem_filter.1 hb).2
      simp only at hab
      omega)]
  have h1 : ∏ i : Fin n, γ (if (i : ℕ) ∈ s then t i else Set.univ) =
      ∏ i ∈ s.filter (· < n), γ (t i) := by
    have : ∀ i : Fin n, γ (if (i : ℕ) ∈ s then t i else Set.univ) =
        if (i : ℕ) ∈ s then γ (t i) else 1 := by
      intro i
      split_ifs <;> simp
    rw [Finset.prod_congr rfl fun i _ => this i,
      Fin.prod_univ_eq_prod_range (fun i => if i ∈ s then γ (t i) else 1) n, ← Finset.prod_filter]
    refine Finset.prod_congr ?_ fun _ _ => rfl
    ext i
    simp [and_comm]
  have h2 : ∏ i ∈ s.filter (n ≤ ·), γ (t (n + (i - n))) = ∏ i ∈ s.filter (¬ · < n), γ (t i) := by
    refine Finset.prod_congr (by ext i; simp) fun i hi => ?_
    rw [Nat.add_sub_cancel' (by simpa using (Finset.mem_filter.1 hi).2)]
  rw [h1, h2, Finset.prod_filter_mul_prod_filter_not]

/-- An infinite supply of independent numbers is an ideal source. -/
theorem stream_ideal [Inhabited α] (γ : Measure β) [IsProbabilityMeasure γ] {f : Θ → β → α}
    (hf : ∀ θ, Measurable (f θ)) :
    Ideal (Measure.infinitePi fun _ : ℕ => γ) (fun θ => γ.map (f θ)) (stream f) := by
  have hout : ∀ θs : List Θ, outcome (stream f) θs ∘ glue =
      Prod.map (fun (x : Fin θs.length → β) i => f (θs.get i) (x i)) id := by
    intro θs
    funext p
    refine Prod.ext ?_ ?_
    · funext i
      simp [outcome, stream, glue]
    · funext k
      simp [outcome, stream, glue]
  have hm : ∀ θs : List Θ, Measurable (outcome (stream f) θs) := by
    intro θs
    refine Measurable.prodMk (measurable_pi_lambda _ fun i => ?_)
      (measurable_pi_lambda _ fun k => measurable_pi_apply _)
    have : (fun s : ℕ → β => (stream f s θs).1.getD i default) =
        fun s => f (θs.get i) (s i) := by
      funext s
      simp [stream]
    exact this ▸ (hf _).comp (measurable_pi_apply _)
  refine ⟨fun s θs => by simp [stream], hm, fun θs => ?_⟩
  have hp : ∀ θ, IsProbabilityMeasure (γ.map (f θ)) := fun θ =>
    Measure.isProbabilityMeasure_map (hf θ).aemeasurable
  conv_lhs => rw [← map_glue γ θs.length]
  rw [Measure.map_map (hm θs) measurable_glue, hout, ← Measure.map_prod_map _ _ _ measurable_id,
    Measure.map_id]
  · congr 1
    exact Measure.pi_map_pi fun i => (hf _).aemeasurable
  · exact measurable_pi_lambda _ fun i => (hf _).comp (measurable_pi_apply i)

end Stream

/-- There is an ideal source of normal numbers. -/
theorem idealNormal_exists : ∃ normal : (ℕ → ℝ) → ℕ → List ℝ × (ℕ → ℝ),
    IdealNormal (Measure.infinitePi fun _ : ℕ => gaussianReal 0 1) normal := by
  refine ⟨fun s n => stream (fun (_ : Unit) (x : ℝ) => x) s (List.replicate n ()), ?_⟩
  have := stream_ideal (gaussianReal 0 1) (f := fun (_ : Unit) (x : ℝ) => x)
    fun _ => measurable_id
  have h2 : (gaussianReal 0 1).map (fun x : ℝ => x) = gaussianReal 0 1 := Measure.map_id
  rw [h2] at this
  unfold IdealNormal
  have h3 : (fun (s : ℕ → ℝ) (l : List Unit) =>
      stream (fun (_ : Unit) (x : ℝ) => x) s (List.replicate l.length ())) =
      stream fun (_ : Unit) (x : ℝ) => x := by
    funext s l
    congr
    exact (List.eq_replicate_iff.2 ⟨rfl, fun _ _ => rfl⟩).symm
  rw [h3]
  exact this

end Glass.Sampling
