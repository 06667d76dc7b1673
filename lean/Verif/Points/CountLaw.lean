import Mathlib.Probability.Distributions.Poisson.Basic
import Mathlib.Probability.Independence.Basic
import Verif.Points.SampleProps
import Verif.Sampling.Combine

/-!
# The law of the numbers of points (C109)
-/

namespace Glass.Points

open Glass Glass.Sampling MeasureTheory ProbabilityTheory
open scoped ENNReal NNReal

/-! ## Specification -/

/-- What is assumed of `rng.poisson(lam)` with means that are not negative: an ideal source of
numbers with the Poisson distributions of the given means. -/
def IdealPoisson {σ : Type} [MeasurableSpace σ] (μ : Measure σ)
    (poisson : σ → List ℝ → List ℕ × σ) : Prop :=
  Ideal μ (fun r : ℝ≥0 => poissonMeasure r) fun s rs => poisson s (rs.map NNReal.toReal)

/-- The number of points of population `k` in pixel `i`. -/
def numberIn {ι : Type} [DecidableEq ι] (bs : List (Batch ι)) (k : ι) (i : ℕ) : ℕ :=
  ((bs.filter fun b => b.pop = k).flatMap Batch.ipix).count i

/-! ## One population after the other -/

section

variable {σ ι : Type} [DecidableEq ι] (poisson : σ → List ℝ → List ℕ × σ)
  (ngal : ι → ℝ) (delta : ι → List ℝ) (bias : Option (ι → ℝ)) (vis : Option (ι → List ℝ))
  (biasModel : List ℝ → ℝ → List ℝ) (removeMonopole : Bool) (batch : ℤ)

/-- The batches of one population, from the numbers of points in the pixels. -/
def group (batch : ℤ) (k : ι) (n : List ℕ) : List (Batch ι) :=
  (sampleGalaxiesPerPixel n batch).1.map fun ipix =>
    { pop := k, ipix := ipix, count := fun j => ipix.length * if j = k then 1 else 0 }

theorem group_pop {k : ι} {n : List ℕ} : ∀ b ∈ group batch k n, b.pop = k := by
  intro b hb
  obtain ⟨ipix, -, rfl⟩ := List.mem_map.1 hb
  rfl

theorem group_count (k : ι) (n : List ℕ) (i : ℕ) :
    ((group batch k n).flatMap Batch.ipix).count i = n[i]?.getD 0 := by
  have hg : (group batch k n).flatMap Batch.ipix =
      (sampleGalaxiesPerPixel n batch).1.flatten := by
    simp only [group, List.flatMap_def, List.map_map]
    congr 1
    exact List.map_id _
  rw [hg]
  exact (batches_exact n batch).2.2 i

theorem positions_cons (k : ι) (ks : List ι) (s : σ) :
    (positionsFromDelta poisson ngal delta bias vis biasModel removeMonopole batch (k :: ks) s).1 =
      group batch k (poisson s (meansOf ngal delta bias vis biasModel removeMonopole k)).1 ++
      (positionsFromDelta poisson ngal delta bias vis biasModel removeMonopole batch ks
        (poisson s (meansOf ngal delta bias vis biasModel removeMonopole k)).2).1 := by
  set n := (poisson s (meansOf ngal delta bias vis biasModel removeMonopole k)).1 with hn
  obtain ⟨b1, -⟩ := batches_exact n batch
  rw [positionsFromDelta]
  simp only [sampleNumberGalaxies]
  change (match (sampleGalaxiesPerPixel n batch).2 with
    | some e => _
    | none => _ : _ × _).1 = _
  rw [b1]
  rfl

theorem positions_pop : ∀ (ks : List ι) (s : σ), ∀ b ∈ (positionsFromDelta poisson ngal delta bias
    vis biasModel removeMonopole batch ks s).1, b.pop ∈ ks
  | [], _, b, hb => by simp [positionsFromDelta] at hb
  | k :: ks, s, b, hb => by
    rw [positions_cons, List.mem_append] at hb
    rcases hb with hb | hb
    · rw [group_pop batch b hb]; exact List.mem_cons_self ..
    · exact List.mem_cons_of_mem _ (positions_pop ks _ b hb)

theorem numberIn_head {k : ι} {ks : List ι} (hk : k ∉ ks) (s : σ) (i : ℕ) :
    numberIn (positionsFromDelta poisson ngal delta bias vis biasModel removeMonopole batch
      (k :: ks) s).1 k i =
      (poisson s (meansOf ngal delta bias vis biasModel removeMonopole k)).1[i]?.getD 0 := by
  rw [positions_cons, numberIn, List.filter_append, List.filter_eq_self.2 (by
    intro b hb; simpa using group_pop batch b hb), List.filter_eq_nil_iff.2 (by
    intro b hb h
    have := positions_pop poisson ngal delta bias vis biasModel removeMonopole batch ks _ b hb
    simp only [decide_eq_true_eq] at h
    exact hk (h ▸ this)), List.append_nil, group_count]

theorem numberIn_tail {k j : ι} {ks : List ι} (hj : j ≠ k) (s : σ) (i : ℕ) :
    numberIn (positionsFromDelta poisson ngal delta bias vis biasModel removeMonopole batch
      (k :: ks) s).1 j i =
    numberIn (positionsFromDelta poisson ngal delta bias vis biasModel removeMonopole batch ks
      (poisson s (meansOf ngal delta bias vis biasModel removeMonopole k)).2).1 j i := by
  rw [positions_cons, numberIn, List.filter_append, List.filter_eq_nil_iff.2 (by
    intro b hb h
    have := group_pop batch b hb
    simp only [decide_eq_true_eq] at h
    exact hj (h.symm.trans this)), List.nil_append]
  rfl

theorem inBox_range {n : ℕ} {x : List ℕ} (A : ℕ → Set ℕ) (hx : x.length = n) :
    InBox x ((List.range n).map A) ↔ ∀ i < n, x[i]?.getD 0 ∈ A i := by
  rw [inBox_iff_getD (by simp [hx])]
  constructor
  · intro h i hi
    have := h ⟨i, by simpa using hi⟩
    simpa [List.getD] using this
  · rintro h ⟨i, hi⟩
    have := h i (by simpa using hi)
    simpa [List.getD] using this

end

theorem prod_range (f : ℕ → ℝ≥0∞) : ∀ n : ℕ,
    ((List.range n).map f).prod = ∏ i ∈ Finset.range n, f i
  | 0 => by simp
  | n + 1 => by
    rw [List.range_succ, List.map_append, List.prod_append, prod_range f n,
      Finset.prod_range_succ]
    simp

theorem sum_range' (f : ℕ → ℝ) : ∀ n : ℕ,
    ((List.range n).map f).sum = ∑ i ∈ Finset.range n, f i
  | 0 => by simp
  | n + 1 => by
    rw [List.range_succ, List.map_append, List.sum_append, sum_range' f n,
      Finset.sum_range_succ]
    simp

/-! ## C109 -/

section

variable {σ ι : Type} [MeasurableSpace σ] [DecidableEq ι] (poisson : σ → List ℝ → List ℕ × σ)
  (ngal : ι → ℝ) (delta : ι → List ℝ) (bias : Option (ι → ℝ)) (vis : Option (ι → List ℝ))
  (biasModel : List ℝ → ℝ → List ℝ) (removeMonopole : Bool) (batch : ℤ)

/-- **C109**: the numbers of points of all populations in all pixels are independent Poisson
numbers; the means are the expected numbers, cut off at zero. -/
theorem counts_law {μ : Measure σ} [IsProbabilityMeasure μ] (hp : IdealPoisson μ poisson)
    (hvis : ∀ v k, vis = some v → (v k).length = (contrast delta bias biasModel k).length)
    (pops : List ι) (hn : pops.Nodup) (A : ι → ℕ → Set ℕ) :
    MeasurableSet {s | ∀ k ∈ pops, ∀ i < (contrast delta bias biasModel k).length,
      numberIn (positionsFromDelta poisson ngal delta bias vis biasModel removeMonopole batch
        pops s).1 k i ∈ A k i} ∧
    μ {s | ∀ k ∈ pops, ∀ i < (contrast delta bias biasModel k).length,
      numberIn (positionsFromDelta poisson ngal delta bias vis biasModel removeMonopole batch
        pops s).1 k i ∈ A k i} =
    (pops.map fun k => ∏ i ∈ Finset.range (contrast delta bias biasModel k).length,
      poissonMeasure (expected ngal delta bias vis biasModel removeMonopole k i).toNNReal
        (A k i)).prod := by
  induction pops with
  | nil => simp
  | cons k ks ih =>
    obtain ⟨hk, hks⟩ := List.nodup_cons.1 hn
    obtain ⟨ih1, ih2⟩ := ih hks
    set len := (contrast delta bias biasModel k).length with hlen
    set rs : List ℝ≥0 := (List.range len).map fun i =>
      (expected ngal delta bias vis biasModel removeMonopole k i).toNNReal with hrs
    have hmeans : meansOf ngal delta bias vis biasModel removeMonopole k =
        rs.map NNReal.toReal := by
      rw [meansOf_spec ngal delta bias vis biasModel removeMonopole k fun v hv => hvis v k hv, hrs,
        List.map_map]
      rfl
    have hbox := hp.box (θs := rs) (As := (List.range len).map (A k)) (by simp [hrs])
      (fun B _ => MeasurableSet.of_discrete) ih1
    have hset : {s | ∀ j ∈ k :: ks, ∀ i < (contrast delta bias biasModel j).length,
        numberIn (positionsFromDelta poisson ngal delta bias vis biasModel removeMonopole batch
          (k :: ks) s).1 j i ∈ A j i} =
        {s | InBox (poisson s (rs.map NNReal.toReal)).1 ((List.range len).map (A k)) ∧
          (poisson s (rs.map NNReal.toReal)).2 ∈ {s | ∀ k ∈ ks,
            ∀ i < (contrast delta bias biasModel k).length,
            numberIn (positionsFromDelta poisson ngal delta bias vis biasModel removeMonopole batch
              ks s).1 k i ∈ A k i}} := by
      ext s
      have hl : (poisson s (rs.map NNReal.toReal)).1.length = len := by
        rw [hp.length]; simp [hrs]
      simp only [Set.mem_ofPred_eq, List.forall_mem_cons]
      rw [inBox_range (A k) hl]
      refine and_congr ?_ ?_
      · simp only [numberIn_head poisson ngal delta bias vis biasModel removeMonopole batch hk,
          hmeans, ← hlen]
      · refine forall_congr' fun j => forall_congr' fun hj => ?_
        have hne : j ≠ k := fun h => hk (h ▸ hj)
        simp only [numberIn_tail poisson ngal delta bias vis biasModel removeMonopole batch hne,
          hmeans]
    rw [hset]
    refine ⟨hbox.1, ?_⟩
    rw [hbox.2, ih2, List.map_cons, List.prod_cons, hrs, List.zipWith_map, List.zipWith_self,
      prod_range]

theorem measurable_number {μ : Measure σ} [IsProbabilityMeasure μ] (hp : IdealPoisson μ poisson)
    (hvis : ∀ v k, vis = some v → (v k).length = (contrast delta bias biasModel k).length)
    (pops : List ι) (hn : pops.Nodup) (k : ι) (hk : k ∈ pops) (i : ℕ)
    (hi : i < (contrast delta bias biasModel k).length) :
    Measurable fun s => numberIn (positionsFromDelta poisson ngal delta bias vis biasModel
      removeMonopole batch pops s).1 k i := by
  intro B _
  have h := (counts_law poisson ngal delta bias vis biasModel removeMonopole batch hp hvis pops hn
    fun j l => if j = k ∧ l = i then B else Set.univ).1
  convert h using 1
  ext s
  simp only [Set.mem_preimage, Set.mem_ofPred_eq]
  constructor
  · intro h j _ l _
    split_ifs with hjl
    · rw [hjl.1, hjl.2]; exact h
    · trivial
  · intro h
    simpa using h k hk i hi

/-- The joint law of the numbers of one population. -/
theorem counts_pi {μ : Measure σ} [IsProbabilityMeasure μ] (hp : IdealPoisson μ poisson)
    (hvis : ∀ v k, vis = some v → (v k).length = (contrast delta bias biasModel k).length)
    (pops : List ι) (hn : pops.Nodup) (k : ι) (hk : k ∈ pops) :
    μ.map (fun s (i : Fin (contrast delta bias biasModel k).length) =>
      numberIn (positionsFromDelta poisson ngal delta bias vis biasModel removeMonopole batch
        pops s).1 k i) =
    Measure.pi fun i : Fin (contrast delta bias biasModel k).length =>
      poissonMeasure (expected ngal delta bias vis biasModel removeMonopole k i).toNNReal := by
  symm
  refine Measure.pi_eq fun B hB => ?_
  have hm : Measurable (fun s (i : Fin (contrast delta bias biasModel k).length) =>
      numberIn (positionsFromDelta poisson ngal delta bias vis biasModel removeMonopole batch
        pops s).1 k i) :=
    measurable_pi_lambda _ fun i => measurable_number poisson ngal delta bias vis biasModel
      removeMonopole batch hp hvis pops hn k hk i i.2
  rw [Measure.map_apply hm (MeasurableSet.univ_pi hB)]
  have h := (counts_law poisson ngal delta bias vis biasModel removeMonopole batch hp hvis pops hn
    fun j l => if h : j = k ∧ l < (contrast delta bias biasModel k).length then B ⟨l, h.2⟩
      else Set.univ).2
  have hset : {s | ∀ j ∈ pops, ∀ i < (contrast delta bias biasModel j).length,
      numberIn (positionsFromDelta poisson ngal delta bias vis biasModel removeMonopole batch
        pops s).1 j i ∈ (if h : j = k ∧ i < (contrast delta bias biasModel k).length
          then B ⟨i, h.2⟩ else Set.univ)} =
      (fun s (i : Fin (contrast delta bias biasModel k).length) =>
        numberIn (positionsFromDelta poisson ngal delta bias vis biasModel removeMonopole batch
          pops s).1 k i) ⁻¹' Set.univ.pi B := by
    ext s
    simp only [Set.mem_preimage, Set.mem_ofPred_eq, Set.mem_pi, Set.mem_univ, forall_true_left]
    constructor
    · intro h i
      simpa using h k hk i i.2
    · intro h j _ l hl
      split_ifs with hjl
      · obtain ⟨rfl, hl'⟩ := hjl
        exact h ⟨l, hl'⟩
      · trivial
  rw [hset] at h
  rw [h]
  have hone : ∀ j, j ≠ k → (∏ i ∈ Finset.range (contrast delta bias biasModel j).length,
      poissonMeasure (expected ngal delta bias vis biasModel removeMonopole j i).toNNReal
        (if h : j = k ∧ i < (contrast delta bias biasModel k).length then B ⟨i, h.2⟩
          else Set.univ)) = 1 := by
    intro j hj
    refine Finset.prod_eq_one fun i _ => ?_
    rw [dif_neg (fun h => hj h.1), measure_univ]
  have hk1 : (∏ i ∈ Finset.range (contrast delta bias biasModel k).length,
      poissonMeasure (expected ngal delta bias vis biasModel removeMonopole k i).toNNReal
        (if h : k = k ∧ i < (contrast delta bias biasModel k).length then B ⟨i, h.2⟩
          else Set.univ)) = ∏ i : Fin (contrast delta bias biasModel k).length,
      poissonMeasure (expected ngal delta bias vis biasModel removeMonopole k i).toNNReal
        (B i) := by
    rw [Finset.prod_range]
    refine Finset.prod_congr rfl fun i _ => ?_
    rw [dif_pos ⟨rfl, i.2⟩]
  rw [← hk1]
  clear hset h hm
  induction pops with
  | nil => simp at hk
  | cons j ks ih =>
    obtain ⟨h1, h2⟩ := List.nodup_cons.1 hn
    rw [List.map_cons, List.prod_cons]
    rcases List.mem_cons.1 hk with rfl | hk'
    · rw [List.prod_eq_one, mul_one]
      intro x hx
      obtain ⟨l, hl, rfl⟩ := List.mem_map.1 hx
      exact hone l fun h => h1 (h ▸ hl)
    · rw [hone j fun h => h1 (h ▸ hk'), one_mul]
      exact ih h2 hk'

theorem poisson_zero : poissonMeasure 0 = Measure.dirac 0 := by
  refine Measure.ext_of_singleton fun n => ?_
  rw [poissonMeasure_singleton, Measure.dirac_apply' _ (measurableSet_singleton n)]
  rcases n with _ | n <;> simp

/-- The sum of independent Poisson numbers. -/
theorem poisson_sum {n : ℕ} (r : Fin n → ℝ≥0) (S : Finset (Fin n)) :
    (Measure.pi fun i => poissonMeasure (r i)).map (fun f => ∑ i ∈ S, f i) =
      poissonMeasure (∑ i ∈ S, r i) := by
  have hind : iIndepFun (fun (i : Fin n) (f : Fin n → ℕ) => f i)
      (Measure.pi fun i => poissonMeasure (r i)) :=
    iIndepFun_pi (X := fun _ => id) fun i => measurable_id.aemeasurable
  have hmeas : ∀ i : Fin n, Measurable fun f : Fin n → ℕ => f i := fun i => measurable_pi_apply i
  induction S using Finset.induction_on with
  | empty =>
    simp only [Finset.sum_empty]
    rw [Measure.map_const, measure_univ, one_smul, poisson_zero]
  | insert a S ha ih =>
    have h1 : HasLaw (fun f : Fin n → ℕ => f a) (poissonMeasure (r a))
        (Measure.pi fun i => poissonMeasure (r i)) :=
      ⟨(hmeas a).aemeasurable, (measurePreserving_eval _ a).map_eq⟩
    have h2 : HasLaw (fun f : Fin n → ℕ => ∑ i ∈ S, f i) (poissonMeasure (∑ i ∈ S, r i))
        (Measure.pi fun i => poissonMeasure (r i)) :=
      ⟨(by fun_prop), ih⟩
    have h3 := (hind.indepFun_finsetSum_of_notMem hmeas ha).symm
    have h4 := IndepFun.hasLaw_add_poissonMeasure (by
      convert h3 using 1
      funext f
      simp) h1 h2
    rw [Finset.sum_insert ha, ← h4.map_eq]
    congr 1
    funext f
    rw [Finset.sum_insert ha]
    rfl

/-- **C109**, the number of points of a population in a region is a Poisson number with the mean
of the region. -/
theorem region_law {μ : Measure σ} [IsProbabilityMeasure μ] (hp : IdealPoisson μ poisson)
    (hvis : ∀ v k, vis = some v → (v k).length = (contrast delta bias biasModel k).length)
    (pops : List ι) (hn : pops.Nodup) (k : ι) (hk : k ∈ pops)
    (S : Finset (Fin (contrast delta bias biasModel k).length)) :
    μ.map (fun s => ∑ i ∈ S, numberIn (positionsFromDelta poisson ngal delta bias vis biasModel
      removeMonopole batch pops s).1 k i) =
    poissonMeasure (∑ i ∈ S,
      (expected ngal delta bias vis biasModel removeMonopole k i).toNNReal) := by
  rw [← poisson_sum, ← counts_pi poisson ngal delta bias vis biasModel removeMonopole batch hp hvis
    pops hn k hk, Measure.map_map (by fun_prop)]
  · rfl
  · exact measurable_pi_lambda _ fun i => measurable_number poisson ngal delta bias vis biasModel
      removeMonopole batch hp hvis pops hn k hk i i.2

/-- **C109**, with the monopole removed and nothing masked or cut off, the number of points on the
sphere is a Poisson number with the given mean density times the area of the sphere. -/
theorem total_law {μ : Measure σ} [IsProbabilityMeasure μ] (hp : IdealPoisson μ poisson)
    (pops : List ι) (hn : pops.Nodup) (k : ι) (hk : k ∈ pops)
    (hne : contrast delta bias biasModel k ≠ [])
    (hpos : ∀ i < (contrast delta bias biasModel k).length,
      0 ≤ expected ngal delta bias none biasModel true k i) :
    μ.map (fun s => ∑ i : Fin (contrast delta bias biasModel k).length,
      numberIn (positionsFromDelta poisson ngal delta bias none biasModel true batch pops s).1
        k i) =
    poissonMeasure (ngal k * (4 * Real.pi * (180 * 60 / Real.pi) ^ 2)).toNNReal := by
  rw [region_law poisson ngal delta bias none biasModel true batch hp (by simp) pops hn k hk]
  congr 1
  rw [← expected_total ngal delta bias biasModel k hne, sum_range',
    ← Finset.sum_range fun i => expected ngal delta bias none biasModel true k i |>.toNNReal,
    Real.toNNReal_sum_of_nonneg fun i hi => hpos i (Finset.mem_range.1 hi)]

end

/-! ## Ideal Poisson generators exist -/

theorem idealPoisson_exists : ∃ (σ : Type) (_ : MeasurableSpace σ) (μ : Measure σ)
    (_ : IsProbabilityMeasure μ) (poisson : σ → List ℝ → List ℕ × σ), IdealPoisson μ poisson := by
  let γ : Measure (ℝ≥0 → ℕ) := Measure.infinitePi fun r => poissonMeasure r
  have h := stream_ideal γ (f := fun (r : ℝ≥0) (b : ℝ≥0 → ℕ) => b r) fun r => measurable_pi_apply r
  refine ⟨_, _, Measure.infinitePi fun _ : ℕ => γ, inferInstance,
    fun s rs => stream (fun (r : ℝ≥0) (b : ℝ≥0 → ℕ) => b r) s (rs.map Real.toNNReal), ?_⟩
  unfold IdealPoisson
  have e : (fun r : ℝ≥0 => γ.map fun b => b r) = fun r => poissonMeasure r := by
    funext r
    exact (measurePreserving_eval_infinitePi (fun r => poissonMeasure r) r).map_eq
  rw [e] at h
  convert h using 3 with s rs
  dsimp only
  rw [List.map_map]
  have : Real.toNNReal ∘ NNReal.toReal = id := by
    funext r
    simp
  rw [this, List.map_id]

/-- A map of four pixels, one of them invisible and one of them below the cut-off. -/
example {σ : Type} [MeasurableSpace σ] {μ : Measure σ} [IsProbabilityMeasure μ]
    {poisson : σ → List ℝ → List ℕ × σ} (hp : IdealPoisson μ poisson) :
    μ {s | numberIn (positionsFromDelta poisson (fun _ : Unit => 1) (fun _ => [-3, 1, 1, 1]) none
      (some fun _ => [1, 0, 1, 1 / 2]) (fun d _ => d) false 1000 [()] s).1 () 1 = 0} = 1 := by
  have hm := measurable_number poisson (fun _ : Unit => 1) (fun _ => [-3, 1, 1, 1]) none
    (some fun _ => [1, 0, 1, 1 / 2]) (fun d _ => d) false 1000 hp
    (by intro v k h; injection h with h; rw [← h]; rfl) [()] (by simp) () (by simp) 1
    (by simp [contrast])
  have h := region_law poisson (fun _ : Unit => 1) (fun _ => [-3, 1, 1, 1]) none
    (some fun _ => [1, 0, 1, 1 / 2]) (fun d _ => d) false 1000 hp
    (by intro v k h; injection h with h; rw [← h]; rfl) [()] (by simp) () (by simp)
    {⟨1, by simp [contrast]⟩}
  simp only [Finset.sum_singleton] at h
  have he : expected (fun _ : Unit => 1) (fun _ => [-3, 1, 1, 1]) none
      (some fun _ => [1, 0, 1, 1 / 2]) (fun d _ => d) false () 1 = 0 := by
    simp [expected]
  rw [he, Real.toNNReal_zero, poisson_zero] at h
  have := congrArg (fun m : Measure ℕ => m {0}) h
  simp only [Measure.dirac_apply' _ (measurableSet_singleton 0)] at this
  rw [Measure.map_apply hm (measurableSet_singleton 0), Set.indicator_of_mem (by simp)] at this
  exact this

end Glass.Points
