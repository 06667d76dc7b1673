import Verif.Points.Clustering
import Verif.Lensing.Statistics

/-!
# Property C145: the number of points with the monopole removed

`positions_from_delta` with `remove_monopole=True` subtracts the mean of the biased contrast, and only
afterwards cuts off negative numbers.  A contrast that is nowhere below -1 can be below it afterwards;
then too many points are sampled.
-/

namespace Glass.Points

open Finset MeasureTheory ProbabilityTheory Glass.Sampling Glass.Grf Glass.Lensing

variable {σ : Type} [MeasurableSpace σ] {ι : Type} [DecidableEq ι]

/-! ## Specification -/

/-- The contrast that is cut off in pixel `i` when the mean of `c` is removed. -/
noncomputable def cutOff (c : List ℝ) (i : ℕ) : ℝ := max (c.sum / c.length - c[i]! - 1) 0

/-- The number of points on the whole sphere. -/
noncomputable def fullNumber (ngal : ℝ) : ℝ := ngal * (4 * Real.pi * (180 * 60 / Real.pi) ^ 2)

/-! ## The mean number -/

omit [DecidableEq ι] in
theorem sum_max_expected (ngal : ι → ℝ) (delta : ι → List ℝ) (bias : Option (ι → ℝ))
    (biasModel : List ℝ → ℝ → List ℝ) (k : ι) (hngal : 0 ≤ ngal k)
    (hne : contrast delta bias biasModel k ≠ []) :
    ∑ i ∈ range (contrast delta bias biasModel k).length,
      max (expected ngal delta bias none biasModel true k i) 0 =
    fullNumber (ngal k) * (1 + (∑ i ∈ range (contrast delta bias biasModel k).length,
      cutOff (contrast delta bias biasModel k) i) / (contrast delta bias biasModel k).length) := by
  have htot := expected_total ngal delta bias biasModel k hne
  rw [sum_range'] at htot
  set c := contrast delta bias biasModel k with hc
  have hl : (c.length : ℝ) ≠ 0 := by
    have : c.length ≠ 0 := by simpa using hne
    exact_mod_cast this
  have h1 : ∀ i, max (expected ngal delta bias none biasModel true k i) 0 =
      expected ngal delta bias none biasModel true k i + fullNumber (ngal k) / c.length * cutOff c i := by
    intro i
    have h0 : 0 ≤ fullNumber (ngal k) / c.length := by unfold fullNumber; positivity
    have e : expected ngal delta bias none biasModel true k i =
        fullNumber (ngal k) / c.length * (1 + c[i]! - c.sum / c.length) := by
      unfold expected fullNumber
      simp only [if_true, ← hc]
      ring
    rw [e]
    unfold cutOff
    rcases le_total 0 (1 + c[i]! - c.sum / c.length) with h | h
    · rw [max_eq_left (mul_nonneg h0 h), max_eq_right (by linarith)]; ring
    · rw [max_eq_right (mul_nonpos_of_nonneg_of_nonpos h0 h), max_eq_left (by linarith)]; ring
  rw [sum_congr rfl fun i _ => h1 i, sum_add_distrib, htot, ← mul_sum]
  unfold fullNumber
  field_simp

variable (poisson : σ → List ℝ → List ℕ × σ) (ngal : ι → ℝ) (delta : ι → List ℝ)
  (bias : Option (ι → ℝ)) (biasModel : List ℝ → ℝ → List ℝ) (batch : ℤ)

/-- **C145** The mean total number of points with the monopole removed: density times area of the
sphere, raised by the mean of what was cut off. -/
theorem monopole_number {μ : Measure σ} [IsProbabilityMeasure μ] (hp : IdealPoisson μ poisson)
    {pops : List ι} (hn : pops.Nodup) {k : ι} (hk : k ∈ pops) (hngal : 0 ≤ ngal k)
    (hne : contrast delta bias biasModel k ≠ []) :
    HasMean μ (fun s => ∑ i ∈ range (contrast delta bias biasModel k).length,
      (numberIn (positionsFromDelta poisson ngal delta bias none biasModel true batch pops s).1
        k i : ℝ))
      (fullNumber (ngal k) * (1 + (∑ i ∈ range (contrast delta bias biasModel k).length,
        cutOff (contrast delta bias biasModel k) i) /
          (contrast delta bias biasModel k).length)) := by
  rw [← sum_max_expected ngal delta bias biasModel k hngal hne]
  refine hasMean_sum _ fun i hi => ?_
  rw [mem_range] at hi
  exact (number_moments poisson ngal delta bias none biasModel true batch hp (by simp) hn hk hk hi
    hi).1

/-- **C145** The mean total number is never below density times area, and it is equal to it if and
only if the contrast without its mean is nowhere below -1. -/
theorem monopole_number_partial {μ : Measure σ} [IsProbabilityMeasure μ]
    (hp : IdealPoisson μ poisson) {pops : List ι} (hn : pops.Nodup) {k : ι} (hk : k ∈ pops)
    (hngal : 0 < ngal k) (hne : contrast delta bias biasModel k ≠ []) :
    ∃ m, HasMean μ (fun s => ∑ i ∈ range (contrast delta bias biasModel k).length,
      (numberIn (positionsFromDelta poisson ngal delta bias none biasModel true batch pops s).1
        k i : ℝ)) m ∧ fullNumber (ngal k) ≤ m ∧
      (m = fullNumber (ngal k) ↔ ∀ x ∈ contrast delta bias biasModel k,
        -1 ≤ x - (contrast delta bias biasModel k).sum /
          (contrast delta bias biasModel k).length) := by
  refine ⟨_, monopole_number poisson ngal delta bias biasModel batch hp hn hk hngal.le hne, ?_, ?_⟩
  all_goals set c := contrast delta bias biasModel k with hc
  all_goals have hl : (0 : ℝ) < c.length := by exact_mod_cast List.length_pos_iff.2 hne
  all_goals have hf : 0 < fullNumber (ngal k) := by unfold fullNumber; positivity
  all_goals have h0 : ∀ i ∈ range c.length, 0 ≤ cutOff c i := fun i _ => le_max_right _ _
  · have := div_nonneg (sum_nonneg h0) hl.le
    nlinarith
  · have e : fullNumber (ngal k) * (1 + (∑ i ∈ range c.length, cutOff c i) / c.length) =
        fullNumber (ngal k) ↔ ∑ i ∈ range c.length, cutOff c i = 0 := by
      rw [mul_eq_left₀ hf.ne', add_eq_left, div_eq_zero_iff]
      simp [hl.ne']
    rw [e, sum_eq_zero_iff_of_nonneg h0]
    constructor
    · intro h x hx
      obtain ⟨i, hi, rfl⟩ := List.mem_iff_getElem.1 hx
      have := max_eq_right_iff.1 (h i (mem_range.2 hi))
      rw [getElem!_pos c i hi] at this
      linarith
    · intro h i hi
      rw [mem_range] at hi
      refine max_eq_right ?_
      rw [getElem!_pos c i hi]
      linarith [h _ (List.getElem_mem hi)]

/-- Without removing the monopole, a contrast that is nowhere below -1 is never cut off: the mean
total number is density times area times one plus the mean of the contrast. -/
theorem number_with_monopole {μ : Measure σ} [IsProbabilityMeasure μ] (hp : IdealPoisson μ poisson)
    {pops : List ι} (hn : pops.Nodup) {k : ι} (hk : k ∈ pops) (hngal : 0 ≤ ngal k)
    (hne : contrast delta bias biasModel k ≠ [])
    (hphys : ∀ x ∈ contrast delta bias biasModel k, -1 ≤ x) :
    HasMean μ (fun s => ∑ i ∈ range (contrast delta bias biasModel k).length,
      (numberIn (positionsFromDelta poisson ngal delta bias none biasModel false batch pops s).1
        k i : ℝ))
      (fullNumber (ngal k) * (1 + (contrast delta bias biasModel k).sum /
          (contrast delta bias biasModel k).length)) := by
  have h1 := hasMean_sum (range (contrast delta bias biasModel k).length) fun i hi =>
    (number_moments poisson ngal delta bias none biasModel false batch hp (by simp) hn hk hk
      (mem_range.1 hi) (mem_range.1 hi)).1
  refine h1.congr (fun _ => rfl) ?_
  set c := contrast delta bias biasModel k with hc
  have hl : (0 : ℝ) < c.length := by exact_mod_cast List.length_pos_iff.2 hne
  have e : ∀ i ∈ range c.length, max (expected ngal delta bias none biasModel false k i) 0 =
      fullNumber (ngal k) / c.length * (1 + c[i]!) := by
    intro i hi
    rw [mem_range] at hi
    have e' : expected ngal delta bias none biasModel false k i =
        fullNumber (ngal k) / c.length * (1 + c[i]!) := by
      unfold expected fullNumber
      simp only [← hc, Bool.false_eq_true, if_false]
      ring
    rw [e', max_eq_left]
    rw [getElem!_pos c i hi]
    have := hphys _ (List.getElem_mem hi)
    refine mul_nonneg ?_ (by linarith)
    unfold fullNumber
    positivity
  rw [sum_congr rfl e, ← mul_sum, sum_add_distrib]
  have hs : ∑ i ∈ range c.length, c[i]! = c.sum := by
    rw [sum_range, ← List.sum_ofFn]
    congr 1
    refine List.ext_getElem (by simp) fun i h1 h2 => ?_
    simp only [List.getElem_ofFn]
    rw [getElem!_pos c i h2]
  rw [hs]
  simp only [sum_const, card_range, nsmul_eq_mul, mul_one]
  field_simp

/-! ## Counterexample -/

/-- **C145 refuted.** A map of twelve pixels with the contrast -1 in the first and 1 in all others,
which is physical: with the monopole removed, the mean number of points is 5/72 too large. -/
theorem monopole_raises_number {μ : Measure σ} [IsProbabilityMeasure μ] (hp : IdealPoisson μ poisson) :
    let d : List ℝ := -1 :: List.replicate 11 1
    (∀ x ∈ d, -1 ≤ x) ∧
    HasMean μ (fun s => ∑ i ∈ range 12, (numberIn (positionsFromDelta poisson (fun _ : Unit => 1)
      (fun _ => d) none none linearBiasMap true batch [()] s).1 () i : ℝ))
        (fullNumber 1 * (1 + 5 / 72)) := by
  intro d
  refine ⟨by simp [d], ?_⟩
  have h := monopole_number poisson (fun _ : Unit => (1 : ℝ)) (fun _ => d) none linearBiasMap batch
    hp (pops := [()]) (by simp) (k := ()) (by simp) (by norm_num) (by simp [contrast, d])
  have hl : (contrast (fun _ : Unit => d) none linearBiasMap ()).length = 12 := by
    simp [contrast, d]
  rw [hl] at h
  refine h.congr (fun _ => rfl) ?_
  congr 2
  have hc : contrast (fun _ : Unit => d) none linearBiasMap () = d := rfl
  rw [hc]
  have hs : d.sum / d.length = 10 / 12 := by simp [d]; norm_num
  simp only [cutOff, hs, sum_range_succ, sum_range_zero]
  simp [d, List.replicate_succ]
  norm_num

end Glass.Points
