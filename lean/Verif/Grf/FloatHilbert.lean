import Verif.Grf.TransformationsProps
import Verif.Shells.FloatAverages

/-!
# The lognormal shift of Hilbert et al. in floating point (C169)
-/

namespace Glass.Grf

open Glass.Spectra

/-! ## Model -/

/-- `fields.py:965-982` `lognormal_shift_hilbert2011` with every operation and every literal rounded. -/
noncomputable def hilbertShiftFl (fl : ℝ → ℝ) (z : ℝ) : ℝ :=
  fl (z * fl (fl 8e-3 + fl (z * fl (fl 2.9e-2 + fl (z * fl (-fl 7.9e-3 + fl (z * fl 6.5e-4)))))))

/-- **C169**: without rounding the model is the exact one. -/
theorem hilbert_fl_real (z : ℝ) : hilbertShiftFl id z = lognormalShiftHilbert2011 z := by
  rfl

/-! ## Error -/

/-- The error of a rounded product. -/
theorem horner_mul (R : Rounding) {p p' P z d : ℝ} (hz : 0 ≤ z) (hp : |p| ≤ P) (h : |p' - p| ≤ d * P) (hd : d ≤ 1) :
    |R.fl (z * p') - z * p| ≤ (d + 2 / 2 ^ 53) * (z * P) := by
  have hP : 0 ≤ P := (abs_nonneg _).trans hp
  have h1 : |z * p' - z * p| ≤ d * (z * P) := by
    rw [← mul_sub, abs_mul, abs_of_nonneg hz]
    have := mul_le_mul_of_nonneg_left h hz
    linarith
  have h2 := R.error (z * p')
  have h3 : |z * p'| ≤ 2 * (z * P) := by
    have h4 := abs_sub_abs_le_abs_sub (z * p') (z * p)
    have h5 : |z * p| ≤ z * P := by
      rw [abs_mul, abs_of_nonneg hz]
      exact mul_le_mul_of_nonneg_left hp hz
    have h6 : d * (z * P) ≤ 1 * (z * P) := mul_le_mul_of_nonneg_right hd (mul_nonneg hz hP)
    linarith
  have h4 := abs_sub_le (R.fl (z * p')) (z * p') (z * p)
  have h5 : |z * p'| / 2 ^ 53 ≤ 2 * (z * P) / 2 ^ 53 := div_le_div_of_nonneg_right h3 (by positivity)
  have h6 : (d + 2 / 2 ^ 53) * (z * P) = d * (z * P) + 2 * (z * P) / 2 ^ 53 := by ring
  linarith

/-- The error of one step of the method of Horner. -/
theorem horner_step (R : Rounding) {p p' P z d c c' : ℝ} (hz : 0 ≤ z) (hp : |p| ≤ P) (h : |p' - p| ≤ d * P)
    (hd0 : 0 ≤ d) (hd : d ≤ 1 / 2) (hc : |c' - c| ≤ |c| / 2 ^ 53) :
    |R.fl (c' + R.fl (z * p')) - (c + z * p)| ≤ (d + 4 / 2 ^ 53) * (|c| + z * P) ∧ |c + z * p| ≤ |c| + z * P := by
  have hP : 0 ≤ P := (abs_nonneg _).trans hp
  have hzP : 0 ≤ z * P := mul_nonneg hz hP
  have h1 := horner_mul R hz hp h (by linarith)
  have h0 : |c + z * p| ≤ |c| + z * P := by
    refine (abs_add_le _ _).trans ?_
    rw [abs_mul, abs_of_nonneg hz]
    have := mul_le_mul_of_nonneg_left hp hz
    linarith
  refine ⟨?_, h0⟩
  generalize R.fl (z * p') = q at *
  have hcc := abs_nonneg c
  have h2 : |c' + q - (c + z * p)| ≤ (d + 2 / 2 ^ 53) * (|c| + z * P) := by
    have h3 := abs_add_le (c' - c) (q - z * p)
    rw [show c' - c + (q - z * p) = c' + q - (c + z * p) by ring] at h3
    have h4 : |c| / 2 ^ 53 ≤ (d + 2 / 2 ^ 53) * |c| := by
      have : (d + 2 / 2 ^ 53) * |c| = d * |c| + 2 * (|c| / 2 ^ 53) := by ring
      have := mul_nonneg hd0 hcc
      have : 0 ≤ |c| / 2 ^ 53 := by positivity
      linarith
    have h5 : (d + 2 / 2 ^ 53) * (|c| + z * P) = (d + 2 / 2 ^ 53) * |c| + (d + 2 / 2 ^ 53) * (z * P) := by ring
    linarith
  have hQ : 0 ≤ |c| + z * P := by linarith
  generalize |c| + z * P = Q at *
  have h3 : |c' + q| ≤ 2 * Q := by
    have h4 := abs_sub_abs_le_abs_sub (c' + q) (c + z * p)
    have h5 : (d + 2 / 2 ^ 53) * Q ≤ 1 * Q := mul_le_mul_of_nonneg_right (by norm_num; linarith) hQ
    linarith
  have h4 := R.error (c' + q)
  have h5 : |c' + q| / 2 ^ 53 ≤ 2 * Q / 2 ^ 53 := div_le_div_of_nonneg_right h3 (by positivity)
  have h6 := abs_sub_le (R.fl (c' + q)) (c' + q) (c + z * p)
  have h7 : (d + 4 / 2 ^ 53) * Q = (d + 2 / 2 ^ 53) * Q + 2 * Q / 2 ^ 53 := by ring
  linarith

/-- **C169**: the relative error of the shift. -/
theorem hilbert_fl_error (R : Rounding) {z : ℝ} (hz : 0 ≤ z) :
    |hilbertShiftFl R.fl z - lognormalShiftHilbert2011 z| ≤ 330 / 2 ^ 53 * lognormalShiftHilbert2011 z := by
  have lit : ∀ c : ℝ, |R.fl c - c| ≤ |c| / 2 ^ 53 := R.error
  have s0 : |R.fl 6.5e-4 - 6.5e-4| ≤ 1 / 2 ^ 53 * (6.5e-4 : ℝ) := by
    have := lit 6.5e-4
    rw [abs_of_pos (by norm_num : (0 : ℝ) < 6.5e-4)] at this
    linarith
  have n2 : |-R.fl 7.9e-3 - -7.9e-3| ≤ |(-7.9e-3 : ℝ)| / 2 ^ 53 := by
    have := lit 7.9e-3
    rw [abs_neg, ← abs_neg]
    rwa [show -(-R.fl 7.9e-3 - -7.9e-3) = R.fl 7.9e-3 - 7.9e-3 by ring]
  obtain ⟨e1, b1⟩ := horner_step R hz (le_of_eq (abs_of_pos (by norm_num : (0 : ℝ) < 6.5e-4))) s0 (by norm_num)
    (by norm_num) n2
  obtain ⟨e2, b2⟩ := horner_step R hz b1 e1 (by norm_num) (by norm_num) (lit 2.9e-2)
  obtain ⟨e3, b3⟩ := horner_step R hz b2 e2 (by norm_num) (by norm_num) (lit 8e-3)
  have e4 := horner_mul R hz b3 e3 (by norm_num)
  rw [abs_of_pos (by norm_num : (0 : ℝ) < 8e-3), abs_of_pos (by norm_num : (0 : ℝ) < 2.9e-2), abs_neg,
    abs_of_pos (by norm_num : (0 : ℝ) < 7.9e-3)] at e4
  change |hilbertShiftFl R.fl z - lognormalShiftHilbert2011 z| ≤ _ at e4
  refine e4.trans ?_
  have h1 : 8e-3 + z * (2.9e-2 + z * (7.9e-3 + z * 6.5e-4)) ≤
      22 * (8e-3 + z * (2.9e-2 + z * (-7.9e-3 + z * 6.5e-4)) : ℝ) := by
    have h2 : (0 : ℝ) ≤ 21 * 2.9e-2 - 23 * 7.9e-3 * z + 21 * 6.5e-4 * z ^ 2 := by
      nlinarith [sq_nonneg (z - 23 * 7.9e-3 / (42 * 6.5e-4))]
    have h3 := mul_nonneg hz h2
    nlinarith
  have h2 := mul_le_mul_of_nonneg_left h1 hz
  unfold lognormalShiftHilbert2011
  have h3 := mul_le_mul_of_nonneg_left h2 (by norm_num : (0 : ℝ) ≤ 15 / 2 ^ 53)
  refine le_trans (le_of_eq ?_) (h3.trans (le_of_eq ?_))
  · ring
  · ring

/-- **C169**: the shift is positive for every positive redshift. -/
theorem hilbert_fl_pos (R : Rounding) {z : ℝ} (hz : 0 < z) : 0 < hilbertShiftFl R.fl z := by
  have h1 := hilbert_fl_error R hz.le
  have h2 := hilbert_shift_pos.2 z hz
  have h3 := (abs_le.1 h1).1
  have h4 : 330 / 2 ^ 53 * lognormalShiftHilbert2011 z ≤ 1 / 2 * lognormalShiftHilbert2011 z :=
    mul_le_mul_of_nonneg_right (by norm_num) h2.le
  linarith

/-- Concrete case. -/
example : 0 < hilbertShiftFl double.fl 1 ∧ hilbertShiftFl double.fl 0 = 0 :=
  ⟨hilbert_fl_pos double one_pos, by simp [hilbertShiftFl, double.zero]⟩

end Glass.Grf
