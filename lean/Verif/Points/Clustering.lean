import Mathlib.MeasureTheory.Integral.Prod
import Verif.Points.CountLaw
import Verif.Grf.RequestedStatistics

/-!
# Clustering of the sampled points (C113)
-/

namespace Glass.Points

open Glass Glass.Sampling Glass.Grf Glass.Spectra MeasureTheory ProbabilityTheory
open scoped ENNReal NNReal

/-! ## Specification -/

/-- The random number `f`, which depends on a random field and on a later random generator that is
independent of it, has an expectation, and its value is `m`: the expectation over the generator
exists for every field, and the expectation of that over the fields is `m`. -/
def HasMeanMean {Ω σ : Type*} [MeasurableSpace Ω] [MeasurableSpace σ] (P : Measure Ω)
    (μ : Measure σ) (f : Ω → σ → ℝ) (m : ℝ) : Prop :=
  (∀ ω, Integrable (f ω) μ) ∧ HasMean P (fun ω => ∫ s, f ω s ∂μ) m

/-- Linear bias of a map (`points.py:115-134`). -/
def linearBiasMap (d : List ℝ) (b : ℝ) : List ℝ := d.map fun x => linearBias x b

/-- The mean number of points in a pixel without clustering. -/
noncomputable def meanNumber (ngal vis : ℝ) (npix : ℕ) : ℝ :=
  ngal * (4 * Real.pi * (180 * 60 / Real.pi) ^ 2 / npix) * vis

/-! ## Moments of Poisson numbers -/

theorem hasSum_poisson (r : ℝ≥0) :
    HasSum (fun n : ℕ => Real.exp (-r) * r ^ n / n.factorial * (n : ℝ)) r ∧
    HasSum (fun n : ℕ => Real.exp (-r) * r ^ n / n.factorial * ((n : ℝ) * n))
      (r * r + r) := by
  have h0 := hasSum_one_poissonMeasure r
  have hstep : ∀ n : ℕ, Real.exp (-r) * (r : ℝ) ^ (n + 1) / (n + 1).factorial * ((n + 1 : ℕ) : ℝ) =
      r * (Real.exp (-r) * r ^ n / n.factorial) := by
    intro n
    rw [Nat.factorial_succ]
    have : (n.factorial : ℝ) ≠ 0 := by positivity
    have : ((n + 1 : ℕ) : ℝ) ≠ 0 := by positivity
    push_cast at *
    field_simp
    ring
  have h1 : HasSum (fun n : ℕ => Real.exp (-r) * (r : ℝ) ^ n / n.factorial * (n : ℝ)) r := by
    rw [← hasSum_nat_add_iff' 1]
    simp only [hstep, Finset.range_one, Finset.sum_singleton, Nat.cast_zero, mul_zero, sub_zero]
    simpa using h0.mul_left (r : ℝ)
  refine ⟨h1, ?_⟩
  rw [← hasSum_nat_add_iff' 1]
  simp only [Finset.range_one, Finset.sum_singleton, Nat.cast_zero, mul_zero, sub_zero]
  have h2 := (h1.mul_left (r : ℝ)).add (h0.mul_left (r : ℝ))
  rw [mul_one] at h2
  have e : (fun n : ℕ => Real.exp (-r) * (r : ℝ) ^ (n + 1) / (n + 1).factorial *
      (((n + 1 : ℕ) : ℝ) * ((n + 1 : ℕ) : ℝ))) = fun n : ℕ =>
      r * (Real.exp (-r) * r ^ n / n.factorial * (n : ℝ)) +
        r * (Real.exp (-r) * r ^ n / n.factorial) := by
    funext n
    rw [← mul_assoc, hstep]
    push_cast
    ring
  rw [e]
  exact h2

theorem poisson_moments (r : ℝ≥0) :
    HasMean (poissonMeasure r) (fun n => (n : ℝ)) r ∧
    HasMean (poissonMeasure r) (fun n => (n : ℝ) * n) (r * r + r) := by
  obtain ⟨h1, h2⟩ := hasSum_poisson r
  refine ⟨⟨?_, ?_⟩, ?_, ?_⟩
  · rw [integrable_poissonMeasure_iff]
    simpa using h1.summable
  · rw [integral_poissonMeasure]
    simpa using h1.tsum_eq
  · rw [integrable_poissonMeasure_iff]
    simpa using h2.summable
  · rw [integral_poissonMeasure]
    simpa using h2.tsum_eq

/-! ## Moments of the numbers for given maps -/

section

variable {σ ι : Type} [MeasurableSpace σ] [DecidableEq ι] (poisson : σ → List ℝ → List ℕ × σ)
  (ngal : ι → ℝ) (delta : ι → List ℝ) (bias : Option (ι → ℝ)) (vis : Option (ι → List ℝ))
  (biasModel : List ℝ → ℝ → List ℝ) (removeMonopole : Bool) (batch : ℤ)

theorem prod_single {pops : List ι} (hn : pops.Nodup) {k : ι} (hk : k ∈ pops) (len : ι → ℕ) {i : ℕ}
    (hi : i < len k) (c : ℝ≥0∞) :
    (pops.map fun j => ∏ l ∈ Finset.range (len j), if j = k ∧ l = i then c else 1).prod = c := by
  have h1 : (fun j => ∏ l ∈ Finset.range (len j), if j = k ∧ l = i then c else 1) =
      fun j => if j = k then c else 1 := by
    funext j
    by_cases hj : j = k
    · subst hj
      simp only [true_and, if_true]
      rw [Finset.prod_ite_eq' (Finset.range (len j)) i fun _ => c, if_pos (Finset.mem_range.2 hi)]
    · simp [hj]
  rw [h1]
  induction pops with
  | nil => simp at hk
  | cons j ks ih =>
    obtain ⟨h2, h3⟩ := List.nodup_cons.1 hn
    rw [List.map_cons, List.prod_cons]
    rcases List.mem_cons.1 hk with rfl | hk'
    · rw [if_pos rfl, List.prod_eq_one, mul_one]
      intro x hx
      obtain ⟨l, hl, rfl⟩ := List.mem_map.1 hx
      exact if_neg (by rintro rfl; exact h2 hl)
    · rw [if_neg (by rintro rfl; exact h2 hk'), one_mul]
      exact ih h3 hk'

/-- The law of one number, and the joint law of two. -/
theorem number_laws {μ : Measure σ} [IsProbabilityMeasure μ] (hp : IdealPoisson μ poisson)
    (hvis : ∀ v k, vis = some v → (v k).length = (contrast delta bias biasModel k).length)
    {pops : List ι} (hn : pops.Nodup) {k l : ι} (hk : k ∈ pops) (hl : l ∈ pops) {i j : ℕ}
    (hi : i < (contrast delta bias biasModel k).length)
    (hj : j < (contrast delta bias biasModel l).length) (hne : ¬ (k = l ∧ i = j)) :
    μ.map (fun s => (numberIn (positionsFromDelta poisson ngal delta bias vis biasModel
      removeMonopole batch pops s).1 k i, numberIn (positionsFromDelta poisson ngal delta bias vis
      biasModel removeMonopole batch pops s).1 l j)) =
    (poissonMeasure (expected ngal delta bias vis biasModel removeMonopole k i).toNNReal).prod
      (poissonMeasure (expected ngal delta bias vis biasModel removeMonopole l j).toNNReal) := by
  symm
  refine Measure.prod_eq fun B C hB hC => ?_
  rw [Measure.map_apply ((measurable_number poisson ngal delta bias vis biasModel removeMonopole
    batch hp hvis pops hn k hk i hi).prodMk (measurable_number poisson ngal delta bias vis biasModel
    removeMonopole batch hp hvis pops hn l hl j hj)) (hB.prod hC)]
  have h := (counts_law poisson ngal delta bias vis biasModel removeMonopole batch hp hvis pops hn
    fun j' i' => if j' = k ∧ i' = i then B else if j' = l ∧ i' = j then C else Set.univ).2
  have hset : {s | ∀ j' ∈ pops, ∀ i' < (contrast delta bias biasModel j').length,
      numberIn (positionsFromDelta poisson ngal delta bias vis biasModel removeMonopole batch
        pops s).1 j' i' ∈ (if j' = k ∧ i' = i then B else
          if j' = l ∧ i' = j then C else Set.univ)} =
      (fun s => (numberIn (positionsFromDelta poisson ngal delta bias vis biasModel
        removeMonopole batch pops s).1 k i, numberIn (positionsFromDelta poisson ngal delta bias
        vis biasModel removeMonopole batch pops s).1 l j)) ⁻¹' (B ×ˢ C) := by
    ext s
    simp only [Set.mem_preimage, Set.mem_ofPred_eq, Set.mem_prod]
    constructor
    · intro h'
      refine ⟨by simpa using h' k hk i hi, ?_⟩
      have := h' l hl j hj
      rwa [if_neg (fun h => hne ⟨h.1.symm, h.2.symm⟩), if_pos ⟨rfl, rfl⟩] at this
    · rintro ⟨h1, h2⟩ j' _ i' _
      split_ifs with e1 e2
      · rw [e1.1, e1.2]; exact h1
      · rw [e2.1, e2.2]; exact h2
      · trivial
  rw [hset] at h
  rw [h]
  have hfac : ∀ j' i', poissonMeasure
      (expected ngal delta bias vis biasModel removeMonopole j' i').toNNReal
        (if j' = k ∧ i' = i then B else if j' = l ∧ i' = j then C else Set.univ) =
      (if j' = k ∧ i' = i then poissonMeasure
        (expected ngal delta bias vis biasModel removeMonopole k i).toNNReal B else 1) *
      (if j' = l ∧ i' = j then poissonMeasure
        (expected ngal delta bias vis biasModel removeMonopole l j).toNNReal C else 1) := by
    intro j' i'
    by_cases h1 : j' = k ∧ i' = i
    · rw [if_pos h1, if_pos h1, if_neg (fun h => hne ⟨h1.1.symm.trans h.1, h1.2.symm.trans h.2⟩),
        mul_one, h1.1, h1.2]
    · rw [if_neg h1, if_neg h1, one_mul]
      by_cases h2 : j' = l ∧ i' = j
      · rw [if_pos h2, if_pos h2, h2.1, h2.2]
      · rw [if_neg h2, if_neg h2, measure_univ]
  simp only [hfac, Finset.prod_mul_distrib, List.prod_map_mul]
  rw [prod_single hn hk _ hi, prod_single hn hl _ hj]

theorem number_law {μ : Measure σ} [IsProbabilityMeasure μ] (hp : IdealPoisson μ poisson)
    (hvis : ∀ v k, vis = some v → (v k).length = (contrast delta bias biasModel k).length)
    {pops : List ι} (hn : pops.Nodup) {k : ι} (hk : k ∈ pops) {i : ℕ}
    (hi : i < (contrast delta bias biasModel k).length) :
    μ.map (fun s => numberIn (positionsFromDelta poisson ngal delta bias vis biasModel
      removeMonopole batch pops s).1 k i) =
    poissonMeasure (expected ngal delta bias vis biasModel removeMonopole k i).toNNReal := by
  have h := region_law poisson ngal delta bias vis biasModel removeMonopole batch hp hvis pops hn k
    hk {⟨i, hi⟩}
  simpa using h

/-- The mean of a number, and the mean of the product of two. -/
theorem number_moments {μ : Measure σ} [IsProbabilityMeasure μ] (hp : IdealPoisson μ poisson)
    (hvis : ∀ v k, vis = some v → (v k).length = (contrast delta bias biasModel k).length)
    {pops : List ι} (hn : pops.Nodup) {k l : ι} (hk : k ∈ pops) (hl : l ∈ pops) {i j : ℕ}
    (hi : i < (contrast delta bias biasModel k).length)
    (hj : j < (contrast delta bias biasModel l).length) :
    HasMean μ (fun s => (numberIn (positionsFromDelta poisson ngal delta bias vis biasModel
      removeMonopole batch pops s).1 k i : ℝ))
      (max (expected ngal delta bias vis biasModel removeMonopole k i) 0) ∧
    HasMean μ (fun s => (numberIn (positionsFromDelta poisson ngal delta bias vis biasModel
      removeMonopole batch pops s).1 k i : ℝ) * numberIn (positionsFromDelta poisson ngal delta bias
      vis biasModel removeMonopole batch pops s).1 l j)
      (max (expected ngal delta bias vis biasModel removeMonopole k i) 0 *
        max (expected ngal delta bias vis biasModel removeMonopole l j) 0 +
        if k = l ∧ i = j then max (expected ngal delta bias vis biasModel removeMonopole k i) 0
          else 0) := by
  have hmk := measurable_number poisson ngal delta bias vis biasModel removeMonopole
    batch hp hvis pops hn k hk i hi
  have hml := measurable_number poisson ngal delta bias vis biasModel removeMonopole
    batch hp hvis pops hn l hl j hj
  have hlk := number_law poisson ngal delta bias vis biasModel removeMonopole batch hp hvis hn hk hi
  have transfer : ∀ {α : Type} [MeasurableSpace α] [DiscreteMeasurableSpace α] [Countable α]
      {g : σ → α} {m : ℝ} {f : α → ℝ}, Measurable g → HasMean (μ.map g) f m →
        HasMean μ (fun s => f (g s)) m := by
    intro α _ _ _ g m f hg h
    have hf : AEStronglyMeasurable f (μ.map g) := (measurable_of_countable f).aestronglyMeasurable
    exact ⟨(integrable_map_measure hf hg.aemeasurable).1 h.1,
      by rw [← integral_map hg.aemeasurable hf, h.2]⟩
  refine ⟨?_, ?_⟩
  · refine transfer (f := fun n : ℕ => (n : ℝ)) hmk ?_
    rw [hlk]
    have := (poisson_moments
      (expected ngal delta bias vis biasModel removeMonopole k i).toNNReal).1
    rwa [Real.coe_toNNReal'] at this
  · by_cases he : k = l ∧ i = j
    · obtain ⟨rfl, rfl⟩ := he
      rw [if_pos ⟨rfl, rfl⟩]
      refine transfer (f := fun n : ℕ => (n : ℝ) * n) hmk ?_
      rw [hlk]
      have := (poisson_moments
        (expected ngal delta bias vis biasModel removeMonopole k i).toNNReal).2
      rwa [Real.coe_toNNReal'] at this
    · rw [if_neg he, add_zero]
      have hlaw := number_laws poisson ngal delta bias vis biasModel removeMonopole batch hp hvis
        hn hk hl hi hj he
      have h3 := transfer (g := fun s => (numberIn (positionsFromDelta poisson ngal delta bias vis
        biasModel removeMonopole batch pops s).1 k i, numberIn (positionsFromDelta poisson ngal
        delta bias vis biasModel removeMonopole batch pops s).1 l j))
        (f := fun p : ℕ × ℕ => (p.1 : ℝ) * p.2)
        (m := max (expected ngal delta bias vis biasModel removeMonopole k i) 0 *
          max (expected ngal delta bias vis biasModel removeMonopole l j) 0) (hmk.prodMk hml)
      refine h3 ?_
      rw [hlaw]
      have h1 := (poisson_moments
        (expected ngal delta bias vis biasModel removeMonopole k i).toNNReal).1
      have h2 := (poisson_moments
        (expected ngal delta bias vis biasModel removeMonopole l j).toNNReal).1
      refine ⟨h1.1.mul_prod h2.1, ?_⟩
      rw [integral_prod_mul (fun n : ℕ => (n : ℝ)) (fun n : ℕ => (n : ℝ)), h1.2, h2.2,
        Real.coe_toNNReal', Real.coe_toNNReal']

end

/-! ## Random maps -/

section

variable {Ω σ : Type} [MeasurableSpace Ω] [MeasurableSpace σ] {ι : Type} [DecidableEq ι]

/-- The map of a population from its pixel values. -/
def pixelMap (npix : ℕ) (d : ℕ → ℝ) : List ℝ := (List.range npix).map d

omit [DecidableEq ι] in
theorem expected_linear {npix : ℕ} {ngal b : ι → ℝ} {d : ι → ℕ → ℝ} {vis : ι → List ℝ} {k : ι}
    {i : ℕ} (hi : i < npix) :
    expected ngal (fun k => pixelMap npix (d k)) (some b) (some vis) linearBiasMap false k i =
      meanNumber (ngal k) (vis k)[i]! npix * (1 + b k * d k i) := by
  have hl : (contrast (fun k => pixelMap npix (d k)) (some b) linearBiasMap k).length = npix := by
    simp [contrast, linearBiasMap, pixelMap]
  have hg : (contrast (fun k => pixelMap npix (d k)) (some b) linearBiasMap k)[i]! =
      b k * d k i := by
    rw [getElem!_pos _ i (by rw [hl]; exact hi)]
    simp [contrast, linearBiasMap, pixelMap, linearBias]
  unfold expected meanNumber
  simp only [hl, hg]
  simp
  ring

omit [MeasurableSpace Ω] [DecidableEq ι] in
/-- The means, if nothing is cut off. -/
theorem max_expected {npix : ℕ} {ngal b : ι → ℝ} {vis : ι → List ℝ} {D : ι → ℕ → Ω → ℝ} {k : ι}
    (hvis : ∀ k, (vis k).length = npix) (hngal : 0 ≤ ngal k) (hvis0 : ∀ x ∈ vis k, 0 ≤ x) {i : ℕ}
    (hi : i < npix) {ω : Ω} (hpos : -1 ≤ b k * D k i ω) :
    max (expected ngal (fun k => pixelMap npix fun i => D k i ω) (some b) (some vis) linearBiasMap
      false k i) 0 = meanNumber (ngal k) (vis k)[i]! npix * (1 + b k * D k i ω) := by
  have hi' : i < (vis k).length := by rw [hvis]; exact hi
  have h2 := hvis0 _ (List.getElem_mem hi')
  have h0 : 0 ≤ meanNumber (ngal k) (vis k)[i]! npix := by
    unfold meanNumber
    rw [getElem!_pos (vis k) i hi']
    positivity
  rw [expected_linear hi, max_eq_left]
  exact mul_nonneg h0 (by linarith)

/-- **C113.** Let the maps be random with mean zero, and let points be sampled from them with a
linear bias such that the biased contrast does not fall below -1, and with a visibility.  Then the
mean number of points in a pixel is the given density times the area times the visibility. -/
theorem cox_mean {P : Measure Ω} [IsProbabilityMeasure P] {μ : Measure σ}
    [IsProbabilityMeasure μ] {poisson : σ → List ℝ → List ℕ × σ} (hp : IdealPoisson μ poisson)
    {npix : ℕ} {ngal b : ι → ℝ} {vis : ι → List ℝ} {D : ι → ℕ → Ω → ℝ} {pops : List ι} (batch : ℤ)
    (hn : pops.Nodup) (hvis : ∀ k, (vis k).length = npix) {k : ι} (hk : k ∈ pops)
    (hngal : 0 ≤ ngal k) (hvis0 : ∀ x ∈ vis k, 0 ≤ x) {i : ℕ} (hi : i < npix)
    (hpos : ∀ ω, -1 ≤ b k * D k i ω) (hmean : HasMean P (D k i) 0) :
    HasMeanMean P μ (fun ω s => (numberIn (positionsFromDelta poisson ngal
      (fun k => pixelMap npix fun i => D k i ω) (some b) (some vis) linearBiasMap false batch
      pops s).1 k i : ℝ)) (meanNumber (ngal k) (vis k)[i]! npix) := by
  have hlen : ∀ ω k, (contrast (fun k => pixelMap npix fun i => D k i ω) (some b) linearBiasMap
      k).length = npix := fun ω k => by simp [contrast, linearBiasMap, pixelMap]
  have key := fun ω => (number_moments poisson ngal (fun k => pixelMap npix fun i => D k i ω)
    (some b) (some vis) linearBiasMap false batch hp
    (fun v k hv => by injection hv with hv; rw [← hv, hvis, hlen]) hn hk hk
    (by rw [hlen]; exact hi) (by rw [hlen]; exact hi)).1
  simp only [max_expected hvis hngal hvis0 hi (hpos _)] at key
  refine ⟨fun ω => (key ω).1, ?_⟩
  rw [funext fun ω => (key ω).2]
  exact (((HasMean.const 1).add (hmean.const_mul (b k))).const_mul _).congr
    (fun ω => rfl) (by ring)

/-- **C113.** In the same setting, the numbers of points in two pixels have the covariance of the
biased maps, times the mean numbers, and in addition the variance of a Poisson number if the pixel
and the population are the same. -/
theorem cox_product {P : Measure Ω} [IsProbabilityMeasure P] {μ : Measure σ}
    [IsProbabilityMeasure μ] {poisson : σ → List ℝ → List ℕ × σ} (hp : IdealPoisson μ poisson)
    {npix : ℕ} {ngal b : ι → ℝ} {vis : ι → List ℝ} {D : ι → ℕ → Ω → ℝ} {pops : List ι} (batch : ℤ)
    (hn : pops.Nodup) (hvis : ∀ k, (vis k).length = npix) (hngal : ∀ k ∈ pops, 0 ≤ ngal k)
    (hvis0 : ∀ k ∈ pops, ∀ x ∈ vis k, 0 ≤ x)
    (hpos : ∀ k ∈ pops, ∀ i < npix, ∀ ω, -1 ≤ b k * D k i ω)
    (hmean : ∀ k ∈ pops, ∀ i < npix, HasMean P (D k i) 0)
    {k l : ι} (hk : k ∈ pops) (hl : l ∈ pops) {i j : ℕ} (hi : i < npix) (hj : j < npix) {c : ℝ}
    (hcov : HasMean P (fun ω => D k i ω * D l j ω) c) :
    let N := fun ω s k i => (numberIn (positionsFromDelta poisson ngal
      (fun k => pixelMap npix fun i => D k i ω) (some b) (some vis) linearBiasMap false batch
      pops s).1 k i : ℝ)
    let n := fun k i => meanNumber (ngal k) (vis k)[i]! npix
    HasMeanMean P μ (fun ω s => N ω s k i * N ω s l j)
      (n k i * n l j * (1 + b k * b l * c) + if k = l ∧ i = j then n k i else 0) := by
  intro N n
  have hlen : ∀ ω k, (contrast (fun k => pixelMap npix fun i => D k i ω) (some b) linearBiasMap
      k).length = npix := fun ω k => by simp [contrast, linearBiasMap, pixelMap]
  have key := fun ω => (number_moments poisson ngal (fun k => pixelMap npix fun i => D k i ω)
    (some b) (some vis) linearBiasMap false batch hp
    (fun v k hv => by injection hv with hv; rw [← hv, hvis, hlen]) hn hk hl
    (by rw [hlen]; exact hi) (by rw [hlen]; exact hj)).2
  simp only [max_expected hvis (hngal k hk) (hvis0 k hk) hi (hpos k hk i hi _),
    max_expected hvis (hngal l hl) (hvis0 l hl) hj (hpos l hl j hj _)] at key
  have hmk := hmean k hk i hi
  have hml := hmean l hl j hj
  refine ⟨fun ω => (key ω).1, ?_⟩
  have e : (fun ω => ∫ s, N ω s k i * N ω s l j ∂μ) = fun ω =>
      n k i * (1 + b k * D k i ω) * (n l j * (1 + b l * D l j ω)) +
        if k = l ∧ i = j then n k i * (1 + b k * D k i ω) else 0 :=
    funext fun ω => (key ω).2
  rw [e]
  have h1 : HasMean P (fun ω => n k i * (1 + b k * D k i ω) * (n l j * (1 + b l * D l j ω)))
      (n k i * n l j * (1 + b k * b l * c)) :=
    (((((HasMean.const 1).add (hmk.const_mul (b k))).add (hml.const_mul (b l))).add
      (hcov.const_mul (b k * b l))).const_mul (n k i * n l j)).congr (fun ω => by ring) (by ring)
  refine h1.add ?_
  split_ifs with he
  · exact (((HasMean.const 1).add (hmk.const_mul (b k))).const_mul (n k i)).congr
      (fun ω => rfl) (by ring)
  · exact HasMean.const 0

/-- The bound is needed: with a normal map, whose values below -1 are cut off, the mean number of
points is too large. -/
theorem clipping_raises_mean {P : Measure Ω} [IsProbabilityMeasure P] {μ : Measure σ}
    [IsProbabilityMeasure μ] {poisson : σ → List ℝ → List ℕ × σ} (hp : IdealPoisson μ poisson)
    {npix : ℕ} {ngal b : ι → ℝ} {vis : ι → List ℝ} {D : ι → ℕ → Ω → ℝ} {pops : List ι} (batch : ℤ)
    (hn : pops.Nodup) (hvis : ∀ k, (vis k).length = npix) {k : ι} (hk : k ∈ pops) {i : ℕ}
    (hi : i < npix) (hngal : 0 < ngal k) (hvis0 : 0 < (vis k)[i]!) (hb : b k ≠ 0) {v : ℝ≥0}
    (hv : v ≠ 0) (hD : Measurable (D k i)) (hlaw : P.map (D k i) = gaussianReal 0 v) :
    ∃ m > meanNumber (ngal k) (vis k)[i]! npix,
      HasMeanMean P μ (fun ω s => (numberIn (positionsFromDelta poisson ngal
        (fun k => pixelMap npix fun i => D k i ω) (some b) (some vis) linearBiasMap false batch
        pops s).1 k i : ℝ)) m := by
  set n := meanNumber (ngal k) (vis k)[i]! npix with hndef
  have hn0 : 0 < n := by
    have : (0 : ℝ) < npix := by exact_mod_cast (by omega : 0 < npix)
    rw [hndef]
    unfold meanNumber
    positivity
  have hlen : ∀ ω k, (contrast (fun k => pixelMap npix fun i => D k i ω) (some b) linearBiasMap
      k).length = npix := fun ω k => by simp [contrast, linearBiasMap, pixelMap]
  have key := fun ω => (number_moments poisson ngal (fun k => pixelMap npix fun i => D k i ω)
    (some b) (some vis) linearBiasMap false batch hp
    (fun v k hv => by injection hv with hv; rw [← hv, hvis, hlen]) hn hk hk
    (by rw [hlen]; exact hi) (by rw [hlen]; exact hi)).1
  simp only [expected_linear hi, ← hndef] at key
  have hid : Integrable (fun x : ℝ => x) (gaussianReal 0 v) := by
    have := memLp_id_gaussianReal (μ := 0) (v := v) 1
    rw [ENNReal.coe_one] at this
    exact memLp_one_iff_integrable.1 this
  have h1 : Integrable (fun x : ℝ => n * (1 + b k * x)) (gaussianReal 0 v) :=
    ((integrable_const 1).add (hid.const_mul (b k))).const_mul n
  have h2 : Integrable (fun x : ℝ => max (n * (1 + b k * x)) 0) (gaussianReal 0 v) :=
    h1.pos_part
  have hm2 : Measurable fun x : ℝ => max (n * (1 + b k * x)) 0 := by fun_prop
  refine ⟨∫ x, max (n * (1 + b k * x)) 0 ∂gaussianReal 0 v, ?_, fun ω => (key ω).1, ?_, ?_⟩
  · have h3 : ∫ x, n * (1 + b k * x) ∂gaussianReal 0 v = n := by
      rw [integral_const_mul, integral_add (integrable_const 1) (hid.const_mul (b k)),
        integral_const_mul, integral_id_gaussianReal]
      simp
    have h4 : 0 < ∫ x, (max (n * (1 + b k * x)) 0 - n * (1 + b k * x)) ∂gaussianReal 0 v := by
      have h5 : Integrable (fun x : ℝ => max (n * (1 + b k * x)) 0 - n * (1 + b k * x))
        (gaussianReal 0 v) := h2.sub h1
      rw [integral_pos_iff_support_of_nonneg (fun x => by
        simp only [Pi.zero_apply]; linarith [le_max_left (n * (1 + b k * x)) 0]) h5]
      have hsub : {x : ℝ | 1 + b k * x < 0} ⊆ Function.support
          fun x : ℝ => max (n * (1 + b k * x)) 0 - n * (1 + b k * x) := by
        intro x hx
        simp only [Set.mem_ofPred_eq] at hx
        have : n * (1 + b k * x) < 0 := mul_neg_of_pos_of_neg hn0 hx
        rw [Function.mem_support, max_eq_right this.le]
        linarith
      refine lt_of_lt_of_le ?_ (measure_mono hsub)
      rw [pos_iff_ne_zero]
      intro hz
      have hvol := gaussianReal_absolutelyContinuous' 0 hv hz
      have hopen : IsOpen {x : ℝ | 1 + b k * x < 0} := isOpen_lt (by fun_prop) (by fun_prop)
      have hne : {x : ℝ | 1 + b k * x < 0}.Nonempty :=
        ⟨-2 / b k, by simp only [Set.mem_ofPred_eq]; rw [mul_div_cancel₀ _ hb]; norm_num⟩
      exact (hopen.measure_pos volume hne).ne' hvol
    rw [integral_sub h2 h1, h3] at h4
    linarith
  · rw [funext fun ω => (key ω).2]
    rw [← hlaw] at h2
    exact (integrable_map_measure hm2.aestronglyMeasurable hD.aemeasurable).1 h2
  · rw [funext fun ω => (key ω).2, ← hlaw,
      integral_map hD.aemeasurable hm2.aestronglyMeasurable]

end

/-! ## From requested spectra to the points -/

/-- A lognormal field with a shift `l` is physical for every bias up to `1 / l`. -/
theorem lognormal_bounded {b l : ℝ} (hb : 0 ≤ b) (hl : 0 < l) (h : b * l ≤ 1) (x v : ℝ) :
    -1 ≤ b * Transformation.call (.lognormal l) x v := by
  have := (lognormal_lower l v hl).1 x
  nlinarith

/-- A squared normal field with a scale `l` is physical for every bias up to `1 / l`. -/
theorem squared_bounded {a b l : ℝ} (hb : 0 ≤ b) (hl : 0 ≤ l) (h : b * l ≤ 1) (x v : ℝ) :
    -1 ≤ b * Transformation.call (.squared a l) x v := by
  have := (squared_lower a l v hl).1 x
  nlinarith

/-- **C113.** Points sampled from maps that `generate` returns for the Gaussian spectra of requested
spectra: the mean number in a pixel is the given density times the area and the visibility, and
for centres of pixels with a separation of the correlation transform, the covariance of the numbers
is that of the requested spectrum, times the biases and the mean numbers (and the variance of a
Poisson number for the same pixel). -/
theorem generated_clustering {Ω σ : Type} [MeasurableSpace Ω] [MeasurableSpace σ] {S : Type}
    (back : Backend) {Y : ℕ → ℕ → S → ℂ} {leg : ℕ → S → S → ℝ} {alm2map : List ℂ → S → ℝ}
    (hsyn : IsSynthesis Y alm2map) {cltovar : List ℝ → ℝ} (hvar : IsVariance cltovar)
    {cltocorr corrtocl : List ℝ → List ℝ} (ht : TransformLaw cltocorr corrtocl)
    {sep : ℕ → ℕ → S → S → Prop} (hcorr : IsCorrelation leg sep cltocorr)
    {fields : List Transformation} {spectra gls : List (List ℝ)}
    (hr : Realisable cltocorr fields spectra)
    (hg : computeGaussianSpectra (fun cl t1 t2 => compute cltocorr corrtocl cl t1 (some t2))
      fields spectra = .ok gls)
    (hL : 0 < maxLength gls) (hY : Harmonics (maxLength gls) Y leg) (ncorr : Option ℕ)
    (hadm : ∀ l < maxLength gls,
      Admissible fields.length (modeCov gls (ncorr.getD (fields.length - 1)) l))
    (hfit : ∀ i (hi : i < fields.length), VarianceFits fields[i]
      (cltovar ((gls[i * (i + 1) / 2]?).getD [])))
    {P : Measure Ω} [IsProbabilityMeasure P] {X : Ω → Normals} (hX : StandardNormals P X)
    {μ : Measure σ} [IsProbabilityMeasure μ] {poisson : σ → List ℝ → List ℕ × σ}
    (hp : IdealPoisson μ poisson) {npix : ℕ} (centre : ℕ → S) {ngal b : ℕ → ℝ} {vis : ℕ → List ℝ}
    (batch : ℤ) (hvis : ∀ k, (vis k).length = npix) (hngal : ∀ k < fields.length, 0 ≤ ngal k)
    (hvis0 : ∀ k < fields.length, ∀ x ∈ vis k, 0 ≤ x)
    (hlow : ∀ k (hk : k < fields.length) x v, -1 ≤ b k * Transformation.call fields[k] x v) :
    ∃ M : ℕ → S → Ω → ℝ,
      (∀ ω, ∃ out, generate back alm2map cltovar (fun t x v p => Transformation.call t (x p) v) (X ω)
          fields gls ncorr = (out, none) ∧ out.length = fields.length ∧
        ∀ k < fields.length, out[k]? = some fun p => M k p ω) ∧
      let N := fun ω s k i => (numberIn (positionsFromDelta poisson ngal
        (fun k => pixelMap npix fun i => M k (centre i) ω) (some b) (some vis) linearBiasMap false
        batch (List.range fields.length) s).1 k i : ℝ)
      let n := fun k i => meanNumber (ngal k) (vis k)[i]! npix
      ∀ k < fields.length, ∀ i < npix, HasMeanMean P μ (fun ω s => N ω s k i) (n k i) ∧
        ∀ l ≤ k, k - l ≤ ncorr.getD (fields.length - 1) →
        ∃ cl, spectra[k * (k + 1) / 2 + (k - l)]? = some cl ∧ ∀ j < npix, ∀ q < cl.length,
          sep cl.length q (centre i) (centre j) →
          HasMeanMean P μ (fun ω s => N ω s k i * N ω s l j)
            (n k i * n l j * (1 + b k * b l * correlation leg cl (centre i) (centre j)) +
              if k = l ∧ i = j then n k i else 0) := by
  obtain ⟨M, h1, h2, h3, h4⟩ := generate_requested back hsyn hvar ht hcorr hr hg hL hY ncorr hadm
    hfit hX
  refine ⟨M, h1, ?_⟩
  intro N n k hk i hi
  have hpos : ∀ k ∈ List.range fields.length, ∀ i < npix, ∀ ω, -1 ≤ b k * M k (centre i) ω := by
    intro k hk i _ ω
    have hk' := List.mem_range.1 hk
    obtain ⟨x, v, e⟩ := h2 k hk' (centre i) ω
    rw [e]
    exact hlow k hk' x v
  have hm : ∀ k ∈ List.range fields.length, ∀ i < npix, HasMean P (M k (centre i)) 0 :=
    fun k hk i _ => h3 k (List.mem_range.1 hk) (centre i)
  refine ⟨cox_mean hp (D := fun k i => M k (centre i)) batch List.nodup_range hvis
    (List.mem_range.2 hk) (hngal k hk) (hvis0 k hk) hi (hpos k (List.mem_range.2 hk) i hi)
    (h3 k hk _), fun l hl hn => ?_⟩
  obtain ⟨cl, e1, e2⟩ := h4 k hk l hl hn
  refine ⟨cl, e1, fun j hj q hq hs => ?_⟩
  exact cox_product hp (D := fun k i => M k (centre i)) batch List.nodup_range hvis
    (fun k hk => hngal k (List.mem_range.1 hk)) (fun k hk => hvis0 k (List.mem_range.1 hk))
    hpos hm (List.mem_range.2 hk) (List.mem_range.2 (lt_of_le_of_lt hl hk)) hi hj
    (e2 q hq _ _ hs)

/-- Concrete case: a lognormal field with the correlation `e² - 1` between the centres of two
pixels.  With density `ν` per pixel, the mean of the product of the numbers is `ν² e²`. -/
example : ∃ (Ω σ : Type) (_ : MeasurableSpace Ω) (_ : MeasurableSpace σ) (P : Measure Ω)
    (μ : Measure σ) (poisson : σ → List ℝ → List ℕ × σ) (D : ℕ → ℕ → Ω → ℝ),
    HasMeanMean P μ (fun ω s => (numberIn (positionsFromDelta poisson (fun _ => 1)
      (fun k => pixelMap 2 fun i => D k i ω) (some fun _ => 1) (some fun _ => [1, 1])
      linearBiasMap false 1000 [0] s).1 0 0 : ℝ) * numberIn (positionsFromDelta poisson
      (fun _ => 1) (fun k => pixelMap 2 fun i => D k i ω) (some fun _ => 1)
      (some fun _ => [1, 1]) linearBiasMap false 1000 [0] s).1 0 1)
      (meanNumber 1 1 2 * meanNumber 1 1 2 * Real.exp 2) := by
  obtain ⟨Ω, mΩ, P, X, hX⟩ := exists_standardNormals
  have := hX.indep.isProbabilityMeasure
  obtain ⟨σ, mσ, μ, hμ, poisson, hp⟩ := idealPoisson_exists
  obtain ⟨alm2map, hsyn⟩ := exists_synthesis dipoleY
  obtain ⟨hr, hg, hmax, hadm⟩ := dipole_lognormal
  obtain ⟨p, q, hs⟩ : ∃ p q, dipoleSep 2 0 p q := by
    refine ⟨⟨(1, 0, 0), by norm_num⟩, ⟨(1 / 2, Real.sqrt 3 / 2, 0), ?_⟩, .inr ⟨rfl, .inl ⟨rfl, ?_⟩⟩⟩
    · simp only
      rw [div_pow, div_pow, Real.sq_sqrt (by norm_num)]
      norm_num
    · simp
  obtain ⟨M, -, h⟩ := generated_clustering .inplace hsyn (cltovar := fun cl =>
    ∑ l ∈ Finset.range cl.length, (2 * l + 1) / (4 * Real.pi) * cl[l]?.getD 0) (fun _ => rfl)
    dipole_transform dipole_correlation hr hg (by rw [hmax]; norm_num)
    (by rw [hmax]; exact dipole_harmonics) none hadm (by
      intro i hi
      obtain rfl : i = 0 := by simpa using hi
      trivial) hX hp (npix := 2) (fun i => if i = 0 then p else q) (ngal := fun _ => 1)
    (b := fun _ => 1) (vis := fun _ => [1, 1]) 1000 (fun _ => rfl) (by simp) (by simp)
    (fun k hk x v => by
      obtain rfl : k = 0 := by simpa using hk
      exact lognormal_bounded (by norm_num) (by norm_num) (by norm_num) x v)
  obtain ⟨-, h⟩ := h 0 (by simp) 0 (by norm_num)
  obtain ⟨cl, e1, e2⟩ := h 0 le_rfl (by simp)
  simp only [Nat.zero_mul, Nat.zero_div, Nat.sub_self, Nat.add_zero, List.getElem?_cons_zero,
    Option.some.injEq] at e1
  subst e1
  have h3 := e2 1 (by norm_num) 0 (by simp [dipoleCl]) (by simpa [dipoleCl] using hs)
  have h4 := dipole_correlation.value (dipoleCl [Real.exp 2 - 1, Real.exp 1 - 1]) 0
    (by simp [dipoleCl]) p q (by simpa [dipoleCl] using hs)
  rw [dipole_transform.right] at h4
  simp only [List.getElem?_cons_zero, Option.some.injEq] at h4
  refine ⟨Ω, σ, mΩ, mσ, P, μ, poisson, fun k i => M k (if i = 0 then p else q), ?_⟩
  simp only [if_true, one_ne_zero, if_false] at h3
  rw [← h4] at h3
  simpa using h3

end Glass.Points
