import Verif.Sampling.Disc
import Verif.Shapes.GaussianProps

/-!
# The law of the sampled ellipticities (C102)
-/

namespace Glass.Shapes

open Glass Glass.Arrays Glass.Galaxies NdArray Glass.Sampling MeasureTheory ProbabilityTheory
open scoped ENNReal

/-! ## Specification -/

/-- The law of one ellipticity: the normal distribution of the complex plane with standard deviation
`sigma` in each direction, conditioned on the unit disc. -/
noncomputable def truncatedNormal (sigma : ℝ) : Measure ℂ :=
  (complexNormal.map fun x => x * (sigma : ℂ))[| {e : ℂ | ‖e‖ ≤ 1}]

/-- The probability that a draw is outside the unit disc. -/
noncomputable def rejection (sigma : ℝ) : ℝ :=
  if sigma = 0 then 0 else Real.exp (-1 / (2 * sigma ^ 2))

/-- The standard deviations of the single objects. -/
def objects (ps : List (ℕ × ℝ)) : List ℝ := ps.flatMap fun p => List.replicate p.1 p.2

/-! ## One population -/

section

variable {σ : Type}

/-- Outside the unit disc. -/
noncomputable def offDisc (_ : Unit) (x : ℂ) : Bool := !inDisc x

/-- The scaled draws for the flagged ones of `n` objects. -/
def scaledDraw (normal : σ → ℕ → List ℝ × σ) (sigma : ℝ) (n : ℕ) (s : σ) (m : List Bool) :
    List ℂ × σ :=
  ((populate normal s (select m (List.replicate n ())).length).1.map fun x => x * (sigma : ℂ),
    (populate normal s (select m (List.replicate n ())).length).2)

theorem maskScale_merge (sigma : ℝ) : ∀ {m : List Bool} {e v : List ℂ}, m.length = e.length →
    v.length = m.count true →
    maskScale sigma m (maskMerge m e v) = maskMerge m e (v.map fun x => x * (sigma : ℂ))
  | [], _, _, _, _ => by simp [maskScale, maskMerge]
  | _ :: _, [], _, h, _ => by simp at h
  | true :: m, a :: e, [], _, h => by simp at h
  | true :: m, a :: e, b :: v, h, h' => by
    have ih := maskScale_merge sigma (m := m) (e := e) (v := v) (by simpa using h) (by simpa using h')
    simp only [maskScale] at ih
    simp [maskScale, maskMerge, ih]
  | false :: m, a :: e, v, h, h' => by
    have ih := maskScale_merge sigma (m := m) (e := e) (v := v) (by simpa using h) (by simpa using h')
    simp only [maskScale] at ih
    simp [maskScale, maskMerge, ih]

theorem offDisc_mask (e : List ℂ) :
    List.zipWith offDisc (List.replicate e.length ()) e = e.map fun x => !inDisc x := by
  induction e with
  | nil => rfl
  | cons a e ih => simp [List.replicate_succ, ih, offDisc]

theorem any_iff_count (m : List Bool) : m.any id = true ↔ 0 < m.count true := by
  rw [List.count_pos_iff]
  simp

theorem rejectLoop_loop {normal : σ → ℕ → List ℝ × σ} (hc : CountLaw normal) (sigma : ℝ) (n : ℕ) :
    ∀ {k : ℕ} {e : List ℂ} {s : σ}, e.length = n →
    rejectLoop normal sigma k e s =
      (loop offDisc (List.replicate n ()) (scaledDraw normal sigma n) k e s).map .ok
  | 0, _, _, _ => rfl
  | k + 1, e, s, he => by
    have hm : List.zipWith offDisc (List.replicate n ()) e = e.map fun x => !inDisc x := by
      rw [← he]
      exact offDisc_mask e
    rw [loop, hm]
    by_cases hpos : 0 < (e.map fun x => !inDisc x).count true
    · rw [rejectLoop_step hc sigma k e s hpos, if_pos ((any_iff_count _).2 hpos)]
      have hl : (select (e.map fun x => !inDisc x) (List.replicate n ())).length =
          (e.map fun x => !inDisc x).count true := select_length (by simp [he])
      have hp := (populate_batch hc s ((e.map fun x => !inDisc x).count true)).2
      rw [maskScale_merge sigma (by simp) hp]
      have hlen : (maskMerge (e.map fun x => !inDisc x) e ((populate normal s
          ((e.map fun x => !inDisc x).count true)).1.map fun x => x * (sigma : ℂ))).length = n := by
        rw [maskMerge_length (by simp) (by simpa using hp), he]
      rw [rejectLoop_loop hc sigma n hlen]
      simp only [scaledDraw, hl]
    · rw [rejectLoop]
      simp only [mask_eq]
      rw [if_neg hpos, if_neg (by rwa [any_iff_count])]
      rfl

/-- The sampling of one population. -/
theorem population_sampler {normal : σ → ℕ → List ℝ × σ} (hc : CountLaw normal) (sigma : ℝ)
    (n k : ℕ) (s : σ) :
    rejectLoop normal sigma k ((populate normal s n).1.map fun x => x * (sigma : ℂ))
      (populate normal s n).2 =
      (sampler offDisc (List.replicate n ()) (scaledDraw normal sigma n) k s).map .ok := by
  rw [rejectLoop_loop hc sigma n (by rw [List.length_map, (populate_batch hc s n).2])]
  have hl : (select (List.replicate n true) (List.replicate n ())).length = n := by
    rw [select_length (by simp)]
    simp
  simp only [sampler, List.length_replicate, scaledDraw, hl]

/-! ## All populations -/

/-- One population after the other. -/
noncomputable def chain (normal : σ → ℕ → List ℝ × σ) (k : ℕ) :
    List (ℕ × ℝ) → σ → Option (List ℂ × σ)
  | [], s => some ([], s)
  | p :: ps, s =>
    (sampler offDisc (List.replicate p.1 ()) (scaledDraw normal p.2 p.1) k s).bind fun r =>
      (chain normal k ps r.2).map fun r' => (r.1 ++ r'.1, r'.2)

theorem scaledDraw_length {normal : σ → ℕ → List ℝ × σ} (hc : CountLaw normal) (sigma : ℝ) (n : ℕ)
    (s : σ) (m : List Bool) (hm : m.length = (List.replicate n ()).length) :
    (scaledDraw normal sigma n s m).1.length = m.count true := by
  rw [scaledDraw, List.length_map, (populate_batch hc s _).2, select_length hm]

theorem sampler_length {normal : σ → ℕ → List ℝ × σ} (hc : CountLaw normal) {sigma : ℝ} {n k : ℕ}
    {s : σ} {r : List ℂ × σ}
    (h : sampler offDisc (List.replicate n ()) (scaledDraw normal sigma n) k s = some r) :
    r.1.length = n := by
  have hd := scaledDraw_length hc sigma n
  have := loop_length hd (by rw [hd _ _ (by simp)]; simp) h
  simpa using this

theorem gaussianLoop_chain {normal : σ → ℕ → List ℝ × σ} (hc : CountLaw normal) (k : ℕ) :
    ∀ {ps : List (ℕ × ℝ)} {eps : List ℂ} {i : ℕ} {s : σ}, eps.length = i + (ps.map Prod.fst).sum →
    gaussianLoop normal k ps eps i s =
      (chain normal k ps s).map fun r => .ok (eps.take i ++ r.1, r.2)
  | [], eps, i, s, hl => by
    simp only [List.map_nil, List.sum_nil, add_zero] at hl
    simp [gaussianLoop, chain, ← hl]
  | (n, sigma) :: ps, eps, i, s, hl => by
    simp only [List.map_cons, List.sum_cons] at hl
    rw [gaussianLoop, chain]
    simp only
    rw [population_sampler hc]
    rcases h1 : sampler offDisc (List.replicate n ()) (scaledDraw normal sigma n) k s with _ | r
    · rfl
    · have h2 := sampler_length hc h1
      simp only [Option.map_some, Option.bind_some]
      rw [setSlice_ok (by omega) (by omega)]
      simp only
      have hA : (eps.take i ++ r.1).length = i + n := by
        rw [List.length_append, List.length_take, h2]; omega
      rw [gaussianLoop_chain hc k (by rw [List.length_append, hA, List.length_drop]; omega),
        Option.map_map]
      congr 1
      funext r'
      simp only [Function.comp]
      rw [List.take_append_of_le_length (by omega), List.take_of_length_le (by omega),
        List.append_assoc]

theorem chain_mono {normal : σ → ℕ → List ℝ × σ} {k l : ℕ} (hkl : k ≤ l) :
    ∀ {ps : List (ℕ × ℝ)} {s : σ} {r : List ℂ × σ}, chain normal k ps s = some r →
    chain normal l ps s = some r
  | [], _, _, h => h
  | p :: ps, s, r, h => by
    simp only [chain, Option.bind_eq_some_iff, Option.map_eq_some_iff] at h ⊢
    obtain ⟨r1, h1, r2, h2, h3⟩ := h
    exact ⟨r1, loop_mono hkl h1, r2, chain_mono hkl h2, h3⟩

theorem inBox_append {α : Type} : ∀ {x y : List α} {As Bs : List (Set α)}, x.length = As.length →
    (InBox (x ++ y) (As ++ Bs) ↔ InBox x As ∧ InBox y Bs)
  | [], _, [], _, _ => by simp
  | [], _, _ :: _, _, h => by simp at h
  | _ :: _, _, [], _, h => by simp at h
  | a :: x, y, A :: As, Bs, h => by
    simp only [List.cons_append, inBox_cons]
    rw [inBox_append (by simpa using h), and_assoc]

end

/-! ## The law -/

section

variable {σ : Type} [MeasurableSpace σ]

theorem IdealNormal.count {μ : Measure σ} {normal : σ → ℕ → List ℝ × σ} (hn : IdealNormal μ normal) :
    CountLaw normal := fun s n => by
  have := hn.length s (List.replicate n ())
  simpa using this

theorem measurable_offDisc (j : Unit) : MeasurableSet {a | offDisc j a = true} := by
  have : {a | offDisc j a = true} = {a : ℂ | ‖a‖ ≤ 1}ᶜ := by
    ext a
    simp [offDisc, inDisc]
  rw [this]
  exact (measurableSet_le measurable_norm measurable_const).compl

theorem good_offDisc (j : Unit) : good offDisc j = {e : ℂ | ‖e‖ ≤ 1} := by
  ext a
  simp [good, offDisc, inDisc]

theorem scaledDraw_law {μ : Measure σ} [IsProbabilityMeasure μ] {normal : σ → ℕ → List ℝ × σ}
    (hn : IdealNormal μ normal) (sigma : ℝ) (n : ℕ) :
    MaskLaw μ (fun _ : Unit => complexNormal.map fun x => x * (sigma : ℂ)) (List.replicate n ())
      (scaledDraw normal sigma n) :=
  ((populate_ideal hn).maskLaw (List.replicate n ())).map (f := fun x => x * (sigma : ℂ))
    (by fun_prop)

instance (sigma : ℝ) : IsProbabilityMeasure (complexNormal.map fun x => x * (sigma : ℂ)) :=
  Measure.isProbabilityMeasure_map (by fun_prop)

theorem chain_law {μ : Measure σ} [IsProbabilityMeasure μ] {normal : σ → ℕ → List ℝ × σ}
    (hn : IdealNormal μ normal) {F : Set σ} (hF : MeasurableSet F) :
    ∀ (ps : List (ℕ × ℝ)) {As : List (Set ℂ)}, As.length = (ps.map Prod.fst).sum →
    (∀ A ∈ As, MeasurableSet A) →
    MeasurableSet {s | ∃ k r, chain normal k ps s = some r ∧ InBox r.1 As ∧ r.2 ∈ F} ∧
    μ {s | ∃ k r, chain normal k ps s = some r ∧ InBox r.1 As ∧ r.2 ∈ F} =
      (List.zipWith (fun v A => truncatedNormal v A) (objects ps) As).prod * μ F
  | [], As, hl, _ => by
    have : As = [] := by simpa using hl
    subst this
    have : {s | ∃ k r, chain normal k [] s = some r ∧ InBox r.1 [] ∧ r.2 ∈ F} = F := by
      ext s
      simp [chain]
    rw [this]
    simp [objects, hF]
  | (n, sigma) :: ps, As, hl, hA => by
    simp only [List.map_cons, List.sum_cons] at hl
    obtain ⟨h1, h2⟩ := chain_law hn hF ps (As := As.drop n) (by rw [List.length_drop]; omega)
      fun A h => hA A (List.mem_of_mem_drop h)
    set G := {s | ∃ k r, chain normal k ps s = some r ∧ InBox r.1 (As.drop n) ∧ r.2 ∈ F} with hG
    have htl : (As.take n).length = n := by rw [List.length_take]; omega
    have hfst : ((As.take n).map fun A => ((), A)).map Prod.fst = List.replicate n () := by
      rw [List.map_map]
      refine List.eq_replicate_iff.2 ⟨by rw [List.length_map, htl], fun _ _ => rfl⟩
    have hsnd : ((As.take n).map fun A => ((), A)).map Prod.snd = As.take n := by
      rw [List.map_map]
      exact List.map_id _
    have key := sampler_limit (ps := (As.take n).map fun A => ((), A)) (F := G)
      (by rw [hfst]; exact scaledDraw_law hn sigma n) measurable_offDisc
      (by
        intro p hp
        obtain ⟨A, hA', rfl⟩ := List.mem_map.1 hp
        exact hA A (List.mem_of_mem_take hA')) h1
    rw [hfst, hsnd] at key
    have he : {s | ∃ k r, chain normal k ((n, sigma) :: ps) s = some r ∧ InBox r.1 As ∧ r.2 ∈ F} =
        {s | ∃ k r, sampler offDisc (List.replicate n ()) (scaledDraw normal sigma n) k s = some r ∧
          InBox r.1 (As.take n) ∧ r.2 ∈ G} := by
      ext s
      simp only [Set.mem_ofPred_eq, hG, chain, Option.bind_eq_some_iff, Option.map_eq_some_iff]
      constructor
      · rintro ⟨k, r, ⟨r1, h1, r2, h2, rfl⟩, h3, h4⟩
        have hr1 := sampler_length (IdealNormal.count hn) h1
        simp only at h3 h4
        rw [← List.take_append_drop n As, inBox_append (by rw [hr1, htl])] at h3
        exact ⟨k, r1, h1, h3.1, k, r2, h2, h3.2, h4⟩
      · rintro ⟨k, r1, h1, h3, l, r2, h2, h4, h5⟩
        have hr1 := sampler_length (IdealNormal.count hn) h1
        refine ⟨max k l, (r1.1 ++ r2.1, r2.2), ⟨r1, loop_mono (le_max_left _ _) h1, r2,
          chain_mono (le_max_right _ _) h2, rfl⟩, ?_, h5⟩
        simp only
        rw [← List.take_append_drop n As, inBox_append (by rw [hr1, htl])]
        exact ⟨h3, h4⟩
    rw [he]
    refine ⟨key.1, key.2.trans ?_⟩
    rw [h2, ← mul_assoc]
    congr 1
    have ho : objects ((n, sigma) :: ps) = List.replicate n sigma ++ objects ps := by
      simp [objects]
    rw [ho]
    conv_rhs => rw [← List.take_append_drop n As]
    rw [List.zipWith_append (by rw [List.length_replicate, htl]), List.prod_append, List.map_map]
    congr 2
    have : ∀ (Bs : List (Set ℂ)), Bs.map ((fun p : Unit × Set ℂ =>
        (complexNormal.map fun x => x * (sigma : ℂ))[p.2 | good offDisc p.1]) ∘ fun A => ((), A)) =
        List.zipWith (fun v A => truncatedNormal v A) (List.replicate Bs.length sigma) Bs := by
      intro Bs
      induction Bs with
      | nil => rfl
      | cons A Bs ih =>
        rw [List.map_cons, ih, List.length_cons, List.replicate_succ, List.zipWith_cons_cons]
        simp only [Function.comp, good_offDisc, truncatedNormal]
    rw [this, htl]

theorem offDisc_measure (sigma : ℝ) :
    (complexNormal.map fun x => x * (sigma : ℂ)) {a | offDisc () a = true} =
      ENNReal.ofReal (rejection sigma) := by
  have : {a | offDisc () a = true} = {a : ℂ | 1 < ‖a‖} := by
    ext a
    simp [offDisc, inDisc]
  rw [this, scaled_tail, rejection]
  split_ifs <;> simp

theorem rejection_bounds (sigma : ℝ) : 0 ≤ rejection sigma ∧ rejection sigma < 1 := by
  unfold rejection
  split_ifs with h
  · simp
  · refine ⟨Real.exp_nonneg _, ?_⟩
    rw [Real.exp_lt_one_iff]
    have : 0 < sigma ^ 2 := by positivity
    rw [neg_div, neg_lt_zero]
    positivity

theorem disc_measure (sigma : ℝ) :
    (complexNormal.map fun x => x * (sigma : ℂ)) {e : ℂ | ‖e‖ ≤ 1} =
      ENNReal.ofReal (1 - rejection sigma) := by
  have h := bad_add_good (ν := complexNormal.map fun x => x * (sigma : ℂ)) (measurable_offDisc ())
  rw [offDisc_measure] at h
  have hg : {a | offDisc () a = false} = {e : ℂ | ‖e‖ ≤ 1} := good_offDisc ()
  rw [hg] at h
  have hb := rejection_bounds sigma
  rw [ENNReal.ofReal_sub _ hb.1, ENNReal.ofReal_one]
  exact ENNReal.eq_sub_of_add_eq ENNReal.ofReal_ne_top ((add_comm _ _).trans h)

theorem disc_measure_ne_zero (sigma : ℝ) :
    (complexNormal.map fun x => x * (sigma : ℂ)) {e : ℂ | ‖e‖ ≤ 1} ≠ 0 := by
  rw [disc_measure, Ne, ENNReal.ofReal_eq_zero, not_le, sub_pos]
  exact (rejection_bounds sigma).2

instance (sigma : ℝ) : IsProbabilityMeasure (truncatedNormal sigma) :=
  cond_isProbabilityMeasure (disc_measure_ne_zero sigma)

theorem chain_within {μ : Measure σ} [IsProbabilityMeasure μ] {normal : σ → ℕ → List ℝ × σ}
    (hn : IdealNormal μ normal) {F : Set σ} (hF : MeasurableSet F) (k : ℕ) :
    ∀ (ps : List (ℕ × ℝ)),
    MeasurableSet {s | ∃ r, chain normal (k + 1) ps s = some r ∧ r.2 ∈ F} ∧
    μ {s | ∃ r, chain normal (k + 1) ps s = some r ∧ r.2 ∈ F} =
      ((objects ps).map fun v => 1 - ENNReal.ofReal (rejection v) ^ (k + 1)).prod * μ F
  | [] => by
    have : {s | ∃ r, chain normal (k + 1) [] s = some r ∧ r.2 ∈ F} = F := by
      ext s
      simp [chain]
    rw [this]
    simp [objects, hF]
  | (n, sigma) :: ps => by
    obtain ⟨h1, h2⟩ := chain_within hn hF k ps
    set G := {s | ∃ r, chain normal (k + 1) ps s = some r ∧ r.2 ∈ F} with hG
    have hfst : (List.replicate n ((), (Set.univ : Set ℂ))).map Prod.fst = List.replicate n () := by
      simp
    have hsnd : (List.replicate n ((), (Set.univ : Set ℂ))).map Prod.snd =
        List.replicate n Set.univ := by
      simp
    have key := sampler_law (ps := List.replicate n ((), (Set.univ : Set ℂ))) (F := G)
      (by rw [hfst]; exact scaledDraw_law hn sigma n) measurable_offDisc
      (by
        intro p hp
        rw [List.eq_of_mem_replicate hp]
        exact MeasurableSet.univ) h1 k
    rw [hfst, hsnd] at key
    have he : {s | ∃ r, chain normal (k + 1) ((n, sigma) :: ps) s = some r ∧ r.2 ∈ F} =
        {s | ∃ r, sampler offDisc (List.replicate n ()) (scaledDraw normal sigma n) (k + 1) s =
          some r ∧ InBox r.1 (List.replicate n Set.univ) ∧ r.2 ∈ G} := by
      ext s
      simp only [Set.mem_ofPred_eq, hG, chain, Option.bind_eq_some_iff, Option.map_eq_some_iff,
        inBox_univ]
      constructor
      · rintro ⟨r, ⟨r1, h1, r2, h2, rfl⟩, h4⟩
        exact ⟨r1, h1, sampler_length (IdealNormal.count hn) h1, r2, h2, h4⟩
      · rintro ⟨r1, h1, -, r2, h2, h5⟩
        exact ⟨(r1.1 ++ r2.1, r2.2), ⟨r1, h1, r2, h2, rfl⟩, h5⟩
    rw [he]
    refine ⟨key.1, key.2.trans ?_⟩
    rw [h2, ← mul_assoc]
    congr 1
    have ho : objects ((n, sigma) :: ps) = List.replicate n sigma ++ objects ps := by
      simp [objects]
    rw [ho, List.map_append, List.prod_append, List.map_replicate, List.map_replicate,
      weight_univ measurable_offDisc, offDisc_measure]

/-! ## Theorems -/

omit [MeasurableSpace σ] in
theorem gaussian_chain {normal : σ → ℕ → List ℝ × σ} (hc : CountLaw normal) (junk : ℕ → ℂ)
    (fuel : ℕ) (s : σ) (count : NdArray ℕ) (sigma : NdArray ℝ) {dims : List ℕ}
    (hd : IsBroadcast [count.shape, sigma.shape] dims) :
    ellipticityGaussian normal junk fuel s count sigma =
      (chain normal fuel (populations count sigma dims) s).map .ok := by
  unfold ellipticityGaussian
  obtain ⟨cs, h1, -⟩ := map₂_total (fun (c : ℕ) (v : ℝ) => (c, v)) hd
  rw [h1]
  simp only
  rw [map₂_populations h1 hd, gaussianLoop_chain hc fuel (by simp)]
  simp

/-- **C102.** The results of `ellipticity_gaussian` with an ideal generator are independent, the one
of each object has the normal distribution with the standard deviation of its population conditioned
on the unit disc, and they are independent of the generator afterwards, which is as good as the one
before: the probability that the function returns, that the ellipticities lie in given sets, and that
the generator is afterwards in a given set, is the product of the single ones. -/
theorem ellipticity_gaussian_law {μ : Measure σ} [IsProbabilityMeasure μ]
    {normal : σ → ℕ → List ℝ × σ} (hn : IdealNormal μ normal) (junk : ℕ → ℂ) (count : NdArray ℕ)
    (sigma : NdArray ℝ) {dims : List ℕ} (hd : IsBroadcast [count.shape, sigma.shape] dims)
    {As : List (Set ℂ)} (hl : As.length = ((populations count sigma dims).map Prod.fst).sum)
    (hA : ∀ A ∈ As, MeasurableSet A) {F : Set σ} (hF : MeasurableSet F) :
    μ {s | ∃ fuel es s', ellipticityGaussian normal junk fuel s count sigma = some (.ok (es, s')) ∧
      List.Forall₂ (fun e A => e ∈ A) es As ∧ s' ∈ F} =
      (List.zipWith (fun v A => truncatedNormal v A)
        (objects (populations count sigma dims)) As).prod * μ F := by
  rw [← (chain_law hn hF (populations count sigma dims) hl hA).2]
  congr 1
  ext s
  simp only [Set.mem_ofPred_eq]
  refine exists_congr fun fuel => ?_
  rw [gaussian_chain (IdealNormal.count hn) junk fuel s count sigma hd]
  constructor
  · rintro ⟨es, s', h1, h2, h3⟩
    obtain ⟨r, h4, h5⟩ := Option.map_eq_some_iff.1 h1
    cases h5
    exact ⟨_, h4, h2, h3⟩
  · rintro ⟨r, h1, h2, h3⟩
    exact ⟨r.1, r.2, by rw [h1]; rfl, h2, h3⟩

/-- **C102.** The probability that all objects are accepted within a given number of rounds: one
factor for each object, where the probability that a draw is rejected is `exp(-1 / (2 sigma^2))`. -/
theorem ellipticity_gaussian_rounds {μ : Measure σ} [IsProbabilityMeasure μ]
    {normal : σ → ℕ → List ℝ × σ} (hn : IdealNormal μ normal) (junk : ℕ → ℂ) (count : NdArray ℕ)
    (sigma : NdArray ℝ) {dims : List ℕ} (hd : IsBroadcast [count.shape, sigma.shape] dims)
    (fuel : ℕ) :
    μ {s | ∃ r, ellipticityGaussian normal junk (fuel + 1) s count sigma = some r} =
      ((objects (populations count sigma dims)).map fun v =>
        ENNReal.ofReal (1 - rejection v ^ (fuel + 1))).prod := by
  have h := (chain_within hn MeasurableSet.univ fuel (populations count sigma dims)).2
  rw [measure_univ, mul_one] at h
  have h2 : (fun v => ENNReal.ofReal (1 - rejection v ^ (fuel + 1))) =
      fun v => 1 - ENNReal.ofReal (rejection v) ^ (fuel + 1) := by
    funext v
    have hb := rejection_bounds v
    rw [ENNReal.ofReal_sub _ (pow_nonneg hb.1 _), ENNReal.ofReal_one, ENNReal.ofReal_pow hb.1]
  rw [h2, ← h]
  congr 1
  ext s
  simp only [Set.mem_ofPred_eq, Set.mem_univ, and_true]
  rw [gaussian_chain (IdealNormal.count hn) junk (fuel + 1) s count sigma hd]
  constructor
  · rintro ⟨r, h⟩
    obtain ⟨r', h4, -⟩ := Option.map_eq_some_iff.1 h
    exact ⟨r', h4⟩
  · rintro ⟨r, h⟩
    exact ⟨.ok r, by rw [h]; rfl⟩

/-- **C102.** With an ideal generator the function returns almost surely, for all counts and
standard deviations that can be broadcast. -/
theorem ellipticity_gaussian_ends {μ : Measure σ} [IsProbabilityMeasure μ]
    {normal : σ → ℕ → List ℝ × σ} (hn : IdealNormal μ normal) (junk : ℕ → ℂ) (count : NdArray ℕ)
    (sigma : NdArray ℝ) {dims : List ℕ} (hd : IsBroadcast [count.shape, sigma.shape] dims) :
    ∀ᵐ s ∂μ, ∃ fuel es s',
      ellipticityGaussian normal junk fuel s count sigma = some (.ok (es, s')) := by
  set n := ((populations count sigma dims).map Prod.fst).sum with hnn
  have hl : (List.replicate n (Set.univ : Set ℂ)).length = n := by simp
  have hA : ∀ A ∈ List.replicate n (Set.univ : Set ℂ), MeasurableSet A := fun A h => by
    rw [List.eq_of_mem_replicate h]
    exact MeasurableSet.univ
  obtain ⟨h1, h2⟩ := chain_law hn MeasurableSet.univ (populations count sigma dims) hl hA
  have h3 : (List.zipWith (fun v A => truncatedNormal v A)
      (objects (populations count sigma dims)) (List.replicate n Set.univ)).prod = 1 := by
    refine List.prod_eq_one fun x hx => ?_
    obtain ⟨i, hi, rfl⟩ := List.getElem_of_mem hx
    simp
  rw [h3, measure_univ, mul_one] at h2
  filter_upwards [(mem_ae_iff_prob_eq_one h1).2 h2] with s hs
  obtain ⟨fuel, r, hr, -⟩ := hs
  refine ⟨fuel, r.1, r.2, ?_⟩
  rw [gaussian_chain (IdealNormal.count hn) junk fuel s count sigma hd, hr]
  rfl

/-- The conditioned law in terms of two independent standard normal numbers. -/
theorem truncatedNormal_apply (sigma : ℝ) {A : Set ℂ} (hA : MeasurableSet A) :
    truncatedNormal sigma A = (gaussianReal 0 1).prod (gaussianReal 0 1)
      {p | ‖((sigma * p.1 : ℝ) : ℂ) + Complex.I * (sigma * p.2 : ℝ)‖ ≤ 1 ∧
        ((sigma * p.1 : ℝ) : ℂ) + Complex.I * (sigma * p.2 : ℝ) ∈ A} /
      ENNReal.ofReal (1 - rejection sigma) := by
  have hD : MeasurableSet {e : ℂ | ‖e‖ ≤ 1} := measurableSet_le measurable_norm measurable_const
  rw [truncatedNormal, cond_apply hD, disc_measure, mul_comm, ← div_eq_mul_inv,
    Measure.map_apply (by fun_prop) (hD.inter hA), complexNormal,
    Measure.map_apply measurable_complex ((by fun_prop : Measurable fun x : ℂ => x * (sigma : ℂ))
      (hD.inter hA))]
  congr 2
  ext p
  have : ((p.1 : ℂ) + Complex.I * p.2) * (sigma : ℂ) =
      ((sigma * p.1 : ℝ) : ℂ) + Complex.I * (sigma * p.2 : ℝ) := by
    push_cast
    ring
  simp only [Set.mem_preimage, Set.mem_inter_iff, Set.mem_ofPred_eq, this]

/-- Concrete case: an ideal generator exists, and two populations with three objects of standard
deviation 1/2 and one of standard deviation 1/4 are sampled. -/
example : (∃ normal : (ℕ → ℝ) → ℕ → List ℝ × (ℕ → ℝ),
      IdealNormal (Measure.infinitePi fun _ : ℕ => gaussianReal 0 1) normal) ∧
    IsBroadcast [[2], [2]] [2] ∧ objects [(3, 1 / 2), (1, 1 / 4)] = [1 / 2, 1 / 2, 1 / 2, 1 / 4] ∧
    rejection (1 / 2) = Real.exp (-2) :=
  ⟨idealNormal_exists, isBroadcast_pair.1 (by rfl), by simp [objects, List.replicate], by
    rw [rejection, if_neg (by norm_num)]
    norm_num⟩

end

end Glass.Shapes
