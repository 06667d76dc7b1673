import Mathlib.Probability.Distributions.Gaussian.Real
import Mathlib.Tactic.Linarith
import Mathlib.Tactic.Ring
import Mathlib.Tactic.FieldSimp
import Verif.Observations.Model

/-!
# Tomographic redshift distributions (C72)

The weight with which `tomo_nz_gausserr` puts a galaxy of redshift `z` into a bin is the conditional
probability that an observed redshift with a Gaussian error lies in the bin, given that it is not
negative.
-/

namespace Glass.Obs

open Glass Glass.Shapes MeasureTheory ProbabilityTheory Set
open scoped NNReal

/-! ## Specification -/

/-- The distribution of the observed redshift of a galaxy at redshift `z`: Gaussian with standard
deviation `sigma_0 (1 + z)`. -/
noncomputable def observedRedshift (sigma_0 z : ℝ) : Measure ℝ :=
  gaussianReal z ⟨(sigma_0 * (1 + z)) ^ 2, sq_nonneg _⟩

/-- The probability that the observed redshift lies in the bin, given that it is not negative. -/
noncomputable def binProbability (sigma_0 z : ℝ) (bin : ℝ × ℝ) : ℝ :=
  (observedRedshift sigma_0 z).real (Ico bin.1 bin.2) / (observedRedshift sigma_0 z).real (Ici 0)

/-! ## The error function -/

theorem integrable_exp_sq : Integrable fun t : ℝ => Real.exp (-t ^ 2) := by
  have := integrable_exp_neg_mul_sq (b := 1) one_pos
  simpa using this

/-- The normal distribution of variance one half. -/
theorem halfNormal_pdf (t : ℝ) :
    gaussianPDFReal 0 (1 / 2) t = (Real.sqrt Real.pi)⁻¹ * Real.exp (-t ^ 2) := by
  rw [gaussianPDFReal]
  have h : ((1 / 2 : ℝ≥0) : ℝ) = 1 / 2 := by simp
  rw [h]
  congr 2
  · congr 1; ring
  · ring

theorem half_ne : (1 / 2 : ℝ≥0) ≠ 0 := by simp

theorem halfNormal_real (s : Set ℝ) : (gaussianReal 0 (1 / 2)).real s =
    (Real.sqrt Real.pi)⁻¹ * ∫ t in s, Real.exp (-t ^ 2) := by
  rw [Measure.real, gaussianReal_apply_eq_integral _ half_ne, ENNReal.toReal_ofReal]
  · rw [← integral_const_mul]
    simp only [halfNormal_pdf]
  · exact integral_nonneg fun t => gaussianPDFReal_nonneg _ _ _

/-- The error function in terms of the normal distribution of variance one half. -/
theorem halfNormal_Ioi (c : ℝ) : (gaussianReal 0 (1 / 2)).real (Ioi c) = (1 - erf c) / 2 := by
  rw [halfNormal_real]
  have h1 := intervalIntegral.integral_interval_add_Ioi (a := 0) (b := c)
    (integrable_exp_sq.integrableOn) (integrable_exp_sq.integrableOn)
  have h2 := integral_gaussian_Ioi 1
  simp only [neg_mul, one_mul, div_one] at h2
  rw [h2] at h1
  have hpi : 0 < Real.sqrt Real.pi := Real.sqrt_pos.2 Real.pi_pos
  rw [show (∫ t in Ioi c, Real.exp (-t ^ 2)) = Real.sqrt Real.pi / 2 -
    ∫ t in (0 : ℝ)..c, Real.exp (-t ^ 2) by linarith, erf]
  field_simp

theorem halfNormal_Iic (c : ℝ) : (gaussianReal 0 (1 / 2)).real (Iic c) = (1 + erf c) / 2 := by
  have h := probReal_add_probReal_compl (μ := gaussianReal 0 (1 / 2)) (measurableSet_Ioi (a := c))
  rw [halfNormal_Ioi, compl_Ioi] at h
  linarith

theorem halfNormal_Ioc {c d : ℝ} (h : c ≤ d) :
    (gaussianReal 0 (1 / 2)).real (Ioc c d) = (erf d - erf c) / 2 := by
  have h1 := measureReal_union (μ := gaussianReal 0 (1 / 2)) (Iic_disjoint_Ioc (le_refl c))
    (measurableSet_Ioc (b := d))
  rw [Iic_union_Ioc_eq_Iic h, halfNormal_Iic, halfNormal_Iic] at h1
  linarith

/-- The error function does not decrease. -/
theorem erf_mono {c d : ℝ} (h : c ≤ d) : erf c ≤ erf d := by
  have := measureReal_nonneg (μ := gaussianReal 0 (1 / 2)) (s := Ioc c d)
  rw [halfNormal_Ioc h] at this
  linarith

/-- The error function is larger than -1. -/
theorem erf_gt (c : ℝ) : -1 < erf c := by
  have h0 := measureReal_nonneg (μ := gaussianReal 0 (1 / 2)) (s := Iic (c - 1))
  rw [halfNormal_Iic] at h0
  have h1 : erf (c - 1) < erf c := by
    have hpi : 0 < Real.sqrt Real.pi := Real.sqrt_pos.2 Real.pi_pos
    have hint : ∀ a b : ℝ, IntervalIntegrable (fun t : ℝ => Real.exp (-t ^ 2)) volume a b :=
      fun a b => integrable_exp_sq.intervalIntegrable
    have h2 := intervalIntegral.integral_add_adjacent_intervals (hint 0 (c - 1)) (hint (c - 1) c)
    have h3 : 0 < ∫ t in (c - 1)..c, Real.exp (-t ^ 2) :=
      intervalIntegral.intervalIntegral_pos_of_pos (hint _ _) (fun t => Real.exp_pos _) (by linarith)
    rw [erf, erf]
    exact mul_lt_mul_of_pos_left (by linarith) (by positivity)
  linarith

/-! ## The observed redshift -/

/-- The observed redshift is the redshift minus a scaled normal variate of variance one half. -/
theorem observedRedshift_map (sigma_0 z : ℝ) : observedRedshift sigma_0 z =
    (gaussianReal 0 (1 / 2)).map fun t => z - (Real.sqrt 2 * sigma_0 * (1 + z)) * t := by
  have h1 := gaussianReal_map_const_mul (μ := 0) (v := 1 / 2) (-(Real.sqrt 2 * sigma_0 * (1 + z)))
  have h2 := gaussianReal_map_const_add (μ := 0)
    (v := ⟨(sigma_0 * (1 + z)) ^ 2, sq_nonneg _⟩) z
  have hv : (.mk ((-(Real.sqrt 2 * sigma_0 * (1 + z))) ^ 2) (sq_nonneg _) : ℝ≥0) * (1 / 2) =
      ⟨(sigma_0 * (1 + z)) ^ 2, sq_nonneg _⟩ := by
    apply NNReal.eq
    push_cast
    have : Real.sqrt 2 ^ 2 = 2 := Real.sq_sqrt (by norm_num)
    show (-(Real.sqrt 2 * sigma_0 * (1 + z))) ^ 2 * (1 / 2) = (sigma_0 * (1 + z)) ^ 2
    linear_combination (sigma_0 * (1 + z)) ^ 2 / 2 * this
  rw [mul_zero, hv] at h1
  rw [zero_add, ← h1, Measure.map_map (by fun_prop) (by fun_prop)] at h2
  rw [observedRedshift, ← h2]
  congr 1
  ext t
  simp only [Function.comp_apply]
  ring

theorem observed_Ico {sigma_0 z : ℝ} (hs : 0 < Real.sqrt 2 * sigma_0 * (1 + z)) {a b : ℝ}
    (hab : a ≤ b) : (observedRedshift sigma_0 z).real (Ico a b) =
      (erf ((z - a) / (Real.sqrt 2 * sigma_0 * (1 + z))) -
        erf ((z - b) / (Real.sqrt 2 * sigma_0 * (1 + z)))) / 2 := by
  rw [observedRedshift_map, map_measureReal_apply (by fun_prop) measurableSet_Ico]
  generalize Real.sqrt 2 * sigma_0 * (1 + z) = s at hs
  rw [← halfNormal_Ioc (div_le_div_of_nonneg_right (by linarith) hs.le)]
  congr 1
  ext t
  simp only [mem_preimage, mem_Ico, mem_Ioc, div_lt_iff₀ hs, le_div_iff₀ hs]
  constructor
  · rintro ⟨h1, h2⟩; constructor <;> linarith
  · rintro ⟨h1, h2⟩; constructor <;> linarith

theorem observed_Ici {sigma_0 z : ℝ} (hs : 0 < Real.sqrt 2 * sigma_0 * (1 + z)) (a : ℝ) :
    (observedRedshift sigma_0 z).real (Ici a) =
      (1 + erf ((z - a) / (Real.sqrt 2 * sigma_0 * (1 + z)))) / 2 := by
  rw [observedRedshift_map, map_measureReal_apply (by fun_prop) measurableSet_Ici]
  generalize Real.sqrt 2 * sigma_0 * (1 + z) = s at hs
  rw [← halfNormal_Iic]
  congr 1
  ext t
  simp only [mem_preimage, mem_Ici, mem_Iic, le_div_iff₀ hs]
  constructor <;> intro h <;> linarith

theorem scale_pos {sigma_0 z : ℝ} (hs : 0 < sigma_0) (hz : -1 < z) :
    0 < Real.sqrt 2 * sigma_0 * (1 + z) := by
  have : 0 < Real.sqrt 2 := Real.sqrt_pos.2 two_pos
  have : 0 < 1 + z := by linarith
  positivity

/-- One entry is the density times the conditional probability. -/
theorem binnedNz_probability {sigma_0 z nz : ℝ} (hs : 0 < sigma_0) (hz : -1 < z) {bin : ℝ × ℝ}
    (hb : bin.1 ≤ bin.2) : binnedNz sigma_0 z nz bin = some (binProbability sigma_0 z bin * nz) := by
  have hp := scale_pos hs hz
  have h1 := erf_gt (z / (Real.sqrt 2 * sigma_0 * (1 + z)))
  simp only [binnedNz, erfQuot, if_neg hp.ne', Option.bind_some]
  rw [nanDiv, if_neg (by linarith), Option.map_some, binProbability, observed_Ico hp hb,
    observed_Ici hp, sub_zero]
  congr 2
  have : 1 + erf (z / (Real.sqrt 2 * sigma_0 * (1 + z))) ≠ 0 := by linarith
  field_simp

theorem observed_pos {sigma_0 z : ℝ} (hs : 0 < sigma_0) (hz : -1 < z) :
    0 < (observedRedshift sigma_0 z).real (Ici 0) := by
  have h1 := erf_gt ((z - 0) / (Real.sqrt 2 * sigma_0 * (1 + z)))
  rw [observed_Ici (scale_pos hs hz)]
  linarith

/-- The rows of the result. -/
theorem tomo_rows {z nz : List ℝ} (hl : nz.length = z.length) (sigma_0 : ℝ)
    {zbins : List (ℝ × ℝ)} (hne : zbins ≠ []) :
    tomoNzGausserr z nz sigma_0 zbins =
      .ok (zbins.map fun b => List.zipWith (fun z nz => binnedNz sigma_0 z nz b) z nz) := by
  rcases nz with _ | ⟨c, _ | ⟨d, nz⟩⟩
  · simp only [tomoNzGausserr, if_neg hne, hl, if_true]
  · simp only [tomoNzGausserr, if_neg hne, List.length_replicate, if_true, ← hl]
    rfl
  · simp only [tomoNzGausserr, if_neg hne, hl, if_true]

/-! ## Property theorems -/

/-- C72: the entry of bin `j` at redshift `i` is the density at that redshift times the conditional
probability that the observed redshift lies in the bin. -/
theorem tomo_nz_spec {z nz : List ℝ} (hl : nz.length = z.length) {sigma_0 : ℝ} (hs : 0 < sigma_0)
    (hz : ∀ t ∈ z, -1 < t) {zbins : List (ℝ × ℝ)} (hne : zbins ≠ [])
    (hb : ∀ b ∈ zbins, b.1 ≤ b.2) :
    ∃ rows : List (List (Option ℝ)), tomoNzGausserr z nz sigma_0 zbins = .ok rows ∧
      rows.length = zbins.length ∧
      ∀ (j : ℕ) (b : ℝ × ℝ), zbins[j]? = some b → ∃ r, rows[j]? = some r ∧ r.length = z.length ∧
        ∀ (i : ℕ) (t n : ℝ), z[i]? = some t → nz[i]? = some n →
          r[i]? = some (some (binProbability sigma_0 t b * n)) := by
  refine ⟨_, tomo_rows hl sigma_0 hne, by simp, ?_⟩
  intro j b hj
  refine ⟨List.zipWith (fun z nz => binnedNz sigma_0 z nz b) z nz, by simp [hj], by simp [hl], ?_⟩
  intro i t n ht hn
  rw [List.getElem?_zipWith, ht, hn]
  simp only [Option.some.injEq]
  exact binnedNz_probability hs (hz t (List.mem_of_getElem? ht)) (hb b (List.mem_of_getElem? hj))

/-- C72: the probabilities are not negative and add up over adjacent bins. -/
theorem bin_probability_facts {sigma_0 z : ℝ} (hs : 0 < sigma_0) (hz : -1 < z) :
    (∀ b, 0 ≤ binProbability sigma_0 z b) ∧
    (∀ a b c, a ≤ b → b ≤ c → binProbability sigma_0 z (a, b) + binProbability sigma_0 z (b, c) =
      binProbability sigma_0 z (a, c)) := by
  refine ⟨fun b => div_nonneg measureReal_nonneg measureReal_nonneg, fun a b c h1 h2 => ?_⟩
  have hp := scale_pos hs hz
  simp only [binProbability]
  rw [observed_Ico hp h1, observed_Ico hp h2, observed_Ico hp (h1.trans h2)]
  ring

/-- C72: contiguous bins that begin at a redshift that is not negative split the density: the
entries are not negative, and together they do not exceed the density. -/
theorem tomo_nz_partition {z nz : List ℝ} (hl : nz.length = z.length) {sigma_0 : ℝ}
    (hs : 0 < sigma_0) (hz : ∀ t ∈ z, -1 < t) (hnz : ∀ n ∈ nz, 0 ≤ n) {e : ℕ → ℝ} {m : ℕ}
    (hm : 0 < m) (h0 : 0 ≤ e 0) (hmono : ∀ j, e j ≤ e (j + 1)) :
    ∃ rows : List (List (Option ℝ)),
      tomoNzGausserr z nz sigma_0 ((List.range m).map fun j => (e j, e (j + 1))) = .ok rows ∧
      ∀ (i : ℕ) (n : ℝ), nz[i]? = some n → ∃ v : ℕ → ℝ,
        (∀ j, j < m → ∃ r, rows[j]? = some r ∧ r[i]? = some (some (v j))) ∧
        (∀ j, 0 ≤ v j) ∧ ((List.range m).map v).sum ≤ n := by
  have hbins : ∀ b ∈ (List.range m).map fun j => (e j, e (j + 1)), b.1 ≤ b.2 := by
    intro b hb
    obtain ⟨j, -, rfl⟩ := List.mem_map.1 hb
    exact hmono j
  obtain ⟨rows, hrun, -, hrows⟩ := tomo_nz_spec hl hs hz (by simp; omega) hbins
  refine ⟨rows, hrun, fun i n hn => ?_⟩
  have hi : i < z.length := by rw [← hl]; exact (List.getElem?_eq_some_iff.1 hn).1
  have ht : z[i]? = some z[i] := List.getElem?_eq_getElem hi
  have hzi := hz z[i] (List.getElem_mem hi)
  have hn0 := hnz n (List.mem_of_getElem? hn)
  refine ⟨fun j => binProbability sigma_0 z[i] (e j, e (j + 1)) * n, ?_, ?_, ?_⟩
  · intro j hj
    obtain ⟨r, hr, -, hv⟩ := hrows j (e j, e (j + 1)) (by
      rw [List.getElem?_map, List.getElem?_range hj]; rfl)
    exact ⟨r, hr, hv i _ n ht hn⟩
  · intro j
    exact mul_nonneg ((bin_probability_facts hs hzi).1 _) hn0
  · have htel : ∀ k : ℕ, e 0 ≤ e k ∧
        ((List.range k).map fun j => binProbability sigma_0 z[i] (e j, e (j + 1))).sum =
          binProbability sigma_0 z[i] (e 0, e k) := by
      intro k
      induction k with
      | zero => simp [binProbability]
      | succ k ih =>
        refine ⟨ih.1.trans (hmono k), ?_⟩
        rw [List.range_succ, List.map_append, List.sum_append, ih.2]
        simp only [List.map_cons, List.map_nil, List.sum_cons, List.sum_nil, add_zero]
        exact (bin_probability_facts hs hzi).2 _ _ _ ih.1 (hmono k)
    rw [List.sum_map_mul_right, (htel m).2]
    have h1 : binProbability sigma_0 z[i] (e 0, e m) ≤ 1 := by
      rw [binProbability, div_le_one (observed_pos hs hzi)]
      have : IsProbabilityMeasure (observedRedshift sigma_0 z[i]) :=
        instIsProbabilityMeasureGaussianReal _ _
      refine measureReal_mono ?_ (measure_ne_top _ _)
      exact fun x hx => h0.trans hx.1
    nlinarith

/-- C72: without an error, a galaxy is in the bin that contains its redshift. -/
theorem tomo_nz_sharp {z nz : ℝ} (hz : 0 < z) {a b : ℝ} (hab : a ≤ b) (ha : z ≠ a) (hb : z ≠ b) :
    tomoNzGausserr [z] [nz] 0 [(a, b)] = .ok [[some (if a < z ∧ z < b then nz else 0)]] := by
  rw [tomo_rows (z := [z]) (nz := [nz]) rfl 0 (by simp)]
  simp only [List.map_cons, List.map_nil, List.zipWith_cons_cons, List.zipWith_nil_left,
    binnedNz, mul_zero, zero_mul, erfQuot, if_true, if_pos hz]
  rcases lt_or_gt_of_ne ha with h1 | h1 <;> rcases lt_or_gt_of_ne hb with h2 | h2
  · have e1 : ¬ 0 < z - a := by linarith
    have e2 : z - a < 0 := by linarith
    have e3 : ¬ 0 < z - b := by linarith
    have e4 : z - b < 0 := by linarith
    have e5 : ¬ (a < z ∧ z < b) := fun h => by linarith [h.1]
    simp only [if_neg e1, if_pos e2, if_neg e3, if_pos e4, if_neg e5, Option.bind_some]
    norm_num [nanDiv]
  · linarith
  · have e1 : 0 < z - a := by linarith
    have e3 : ¬ 0 < z - b := by linarith
    have e4 : z - b < 0 := by linarith
    have e5 : a < z ∧ z < b := ⟨h1, h2⟩
    simp only [if_pos e1, if_neg e3, if_pos e4, if_pos e5, Option.bind_some]
    norm_num [nanDiv]
  · have e1 : 0 < z - a := by linarith
    have e3 : 0 < z - b := by linarith
    have e5 : ¬ (a < z ∧ z < b) := fun h => by linarith [h.2]
    simp only [if_pos e1, if_pos e3, if_neg e5, Option.bind_some]
    norm_num [nanDiv]

/-- C72 (finding): without an error, the density at a bin edge, and at redshift zero, is not a
number (0/0). -/
theorem tomo_nz_sharp_edge (nz a b : ℝ) :
    tomoNzGausserr [a] [nz] 0 [(a, b)] = .ok [[none]] ∧
    tomoNzGausserr [b] [nz] 0 [(a, b)] = .ok [[none]] ∧
    tomoNzGausserr [0] [nz] 0 [(a, b)] = .ok [[none]] := by
  refine ⟨?_, ?_, ?_⟩ <;> rw [tomo_rows (by simp) 0 (by simp)]
  · simp [binnedNz, erfQuot]
  · simp [binnedNz, erfQuot]
  · simp [binnedNz, erfQuot]

/-- C72: without bins, or with a density of another length, there is an error. -/
theorem tomo_nz_rejects (z nz : List ℝ) (sigma_0 : ℝ) :
    tomoNzGausserr z nz sigma_0 [] = .error .index ∧
    (nz.length ≠ z.length → nz.length ≠ 1 → ∀ zbins, zbins ≠ [] →
      ∃ msg, tomoNzGausserr z nz sigma_0 zbins = .error (.value msg)) := by
  refine ⟨by simp [tomoNzGausserr], fun h h1 zbins hne => ⟨"operands could not be broadcast together", ?_⟩⟩
  rcases nz with _ | ⟨c, _ | ⟨d, nz⟩⟩
  · simp only [tomoNzGausserr, if_neg hne, if_neg h]
  · simp at h1
  · simp only [tomoNzGausserr, if_neg hne, if_neg h]

/-! ## A concrete case -/

/-- Two galaxies and two bins. -/
example : (0 : ℝ) < 1 / 20 ∧ (∀ t ∈ [(1 / 2 : ℝ), 1], -1 < t) ∧ (∀ n ∈ [(2 : ℝ), 1], 0 ≤ n) ∧
    (0 : ℝ) ≤ (fun j : ℕ => (j : ℝ)) 0 ∧
    ∀ j : ℕ, (fun j : ℕ => (j : ℝ)) j ≤ (fun j : ℕ => (j : ℝ)) (j + 1) := by
  refine ⟨by norm_num, ?_, by simp, by simp, by simp⟩
  intro t ht
  simp only [List.mem_cons, List.not_mem_nil, or_false] at ht
  rcases ht with rfl | rfl <;> norm_num

end Glass.Obs
