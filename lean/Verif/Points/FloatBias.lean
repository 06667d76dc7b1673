import Verif.Grf.FloatFields
import Verif.Points.Model

/-!
# Log-linear bias in floating point (C168)

The biased density contrast is computed with a small relative error, although `log1p` and `expm1` are combined, and it
is never below -1.
-/

namespace Glass.Points

open Glass Glass.Spectra Glass.Lensing Glass.Shells Glass.Grf

/-! ## Model -/

/-- `points.py:137-160` `loglinear_bias` for one value, with every operation rounded; `L` is `log1p` and `E` is
`expm1`. -/
noncomputable def loglinearBiasFl (fl E L : ℝ → ℝ) (delta b : ℝ) : ℝ :=
  let deltaG := L delta
  let deltaG := fl (deltaG * b)
  E deltaG

/-- **C168**: without rounding the model is the exact one. -/
theorem loglinear_fl_real (delta b : ℝ) : loglinearBiasFl id expm1 log1p delta b = loglinearBias delta b := by
  rfl

/-! ## Bounds -/

/-- **C168**: the biased density is not negative. -/
theorem loglinear_fl_floor (R : Rounding) {E : ℝ → ℝ} (hE : ∀ x, -1 ≤ E x) (L : ℝ → ℝ) (delta b : ℝ) :
    -1 ≤ loglinearBiasFl R.fl E L delta b ∧ 0 ≤ R.fl (1 + loglinearBiasFl R.fl E L delta b) := by
  have h : -1 ≤ loglinearBiasFl R.fl E L delta b := hE _
  exact ⟨h, R.nonneg (by linarith)⟩

/-- **C168**: a larger density gives a biased density that is not smaller. -/
theorem loglinear_fl_mono (R : Rounding) {E L : ℝ → ℝ} (hE : Monotone E) (hL : MonotoneOn L (Set.Ioi (-1))) {b : ℝ}
    (hb : 0 ≤ b) {d d' : ℝ} (hd : -1 < d) (h : d ≤ d') :
    loglinearBiasFl R.fl E L d b ≤ loglinearBiasFl R.fl E L d' b :=
  hE (R.mono (mul_le_mul_of_nonneg_right (hL hd (hd.trans_le h) h) hb))

theorem rel_nonneg {k : ℕ} {x y : ℝ} (h : Rel k x y) (hx : 0 ≤ x) : 0 ≤ y := by
  obtain ⟨a, rfl, h1, -⟩ := h
  exact mul_nonneg hx ((pow_pos (by norm_num) k).le.trans h1)

theorem rel_nonpos {k : ℕ} {x y : ℝ} (h : Rel k x y) (hx : x ≤ 0) : y ≤ 0 := by
  obtain ⟨a, rfl, h1, -⟩ := h
  exact mul_nonpos_of_nonpos_of_nonneg hx ((pow_pos (by norm_num) k).le.trans h1)

theorem exponent_rel (R : Rounding) {E L : ℝ → ℝ} (hA : Accurate E L) {d : ℝ} (hd : -1 < d) (b : ℝ) :
    Rel 3 (log1p d * b) (R.fl (L d * b)) := by
  have := ((hA.log d hd).mul (Rel.refl b)).round R
  exact this

/-- **C168**: overdense regions stay overdense, and underdense ones underdense. -/
theorem loglinear_fl_sign (R : Rounding) {E L : ℝ → ℝ} (hA : Accurate E L) {d : ℝ} (hd : -1 < d) {b : ℝ}
    (hb : 0 ≤ b) : (0 ≤ d → 0 ≤ loglinearBiasFl R.fl E L d b) ∧ (d ≤ 0 → loglinearBiasFl R.fl E L d b ≤ 0) := by
  have h := exponent_rel R hA hd b
  constructor
  · intro h0
    have h1 : 0 ≤ log1p d := Real.log_nonneg (by linarith)
    exact rel_nonneg (hA.exp _) (expm1_nonneg (rel_nonneg h (mul_nonneg h1 hb)))
  · intro h0
    have h1 : log1p d ≤ 0 := Real.log_nonpos (by linarith) (by linarith)
    refine rel_nonpos (hA.exp _) ?_
    have h2 := rel_nonpos h (mul_nonpos_of_nonpos_of_nonneg h1 hb)
    have := Real.exp_le_one_iff.2 h2
    unfold expm1
    linarith

/-! ## Errors -/

theorem abs_mul_exp_le (t : ℝ) : |t| * Real.exp t ≤ max 1 (Real.exp t) * |expm1 t| := by
  have hp := Real.exp_pos t
  rcases le_total 0 t with h | h
  · have h1 := Real.add_one_le_exp t
    have h2 : t ≤ |expm1 t| := by
      unfold expm1
      exact le_trans (by linarith) (le_abs_self _)
    rw [abs_of_nonneg h, mul_comm]
    exact mul_le_mul (le_max_right _ _) h2 h (by positivity)
  · have h1 := Real.add_one_le_exp (-t)
    have h2 : Real.exp t * Real.exp (-t) = 1 := by rw [← Real.exp_add]; simp
    have h3 : Real.exp t ≤ 1 := Real.exp_le_one_iff.2 h
    have h4 : |expm1 t| = 1 - Real.exp t := by
      unfold expm1
      rw [abs_of_nonpos (by linarith)]; ring
    have h5 := mul_le_mul_of_nonneg_left h1 hp.le
    rw [h2] at h5
    rw [h4, abs_of_nonpos h, max_eq_left h3, one_mul]
    linarith

/-- A relative error of the argument of `expm1`. -/
theorem expm1_close {t t' : ℝ} (h : |t' - t| ≤ 4 / 2 ^ 53 * |t|) (ht : 4 / 2 ^ 53 * |t| ≤ 1) :
    |expm1 t' - expm1 t| ≤ 8 / 2 ^ 53 * (max 1 (Real.exp t) * |expm1 t|) := by
  have hp := Real.exp_pos t
  have e : expm1 t' - expm1 t = Real.exp t * (Real.exp (t' - t) - 1) := by
    unfold expm1
    rw [mul_sub, ← Real.exp_add, add_sub_cancel]
    ring
  have h1 := Real.abs_exp_sub_one_le (h.trans ht)
  have h2 := mul_le_mul_of_nonneg_left (h1.trans (mul_le_mul_of_nonneg_left h (by norm_num : (0 : ℝ) ≤ 2))) hp.le
  rw [e, abs_mul, abs_of_pos hp]
  have h3 := mul_le_mul_of_nonneg_left (abs_mul_exp_le t) (by norm_num : (0 : ℝ) ≤ 8 / 2 ^ 53)
  calc _ ≤ _ := h2
    _ = 8 / 2 ^ 53 * (|t| * Real.exp t) := by ring
    _ ≤ _ := h3

/-- **C168**: the relative error of the biased contrast. -/
theorem loglinear_fl_error (R : Rounding) {E L : ℝ → ℝ} (hA : Accurate E L) {d : ℝ} (hd : -1 < d) (b : ℝ)
    (ht : 4 / 2 ^ 53 * |Real.log (1 + d) * b| ≤ 1) :
    |loglinearBiasFl R.fl E L d b - loglinearBias d b| ≤
      12 / 2 ^ 53 * (max 1 ((1 + d) ^ b) * |loglinearBias d b|) := by
  have h1 := (exponent_rel R hA hd b).error (e := 4 / 2 ^ 53) (by norm_num) (by norm_num)
  have h2 := expm1_close h1 ht
  have h3 := (hA.exp (R.fl (L d * b))).error (e := 3 / 2 ^ 53) (by norm_num) (by norm_num)
  have e1 : loglinearBias d b = expm1 (log1p d * b) := rfl
  have e2 : loglinearBiasFl R.fl E L d b = E (R.fl (L d * b)) := rfl
  have e3 : (1 + d) ^ b = Real.exp (log1p d * b) := Real.rpow_def_of_pos (by linarith) b
  rw [e1, e2, e3]
  generalize R.fl (L d * b) = t' at *
  generalize log1p d * b = t at *
  have hM : 1 ≤ max 1 (Real.exp t) := le_max_left _ _
  generalize max 1 (Real.exp t) = M at *
  have hg := abs_nonneg (expm1 t)
  have h4 := abs_sub_abs_le_abs_sub (expm1 t') (expm1 t)
  have h5 := abs_sub_le (E t') (expm1 t') (expm1 t)
  generalize |expm1 t| = g at *
  have h6 : g ≤ M * g := le_mul_of_one_le_left hg hM
  have h7 : |expm1 t'| ≤ M * g + 8 / 2 ^ 53 * (M * g) := by linarith
  have h8 : 0 ≤ M * g := hg.trans h6
  generalize M * g = k at *
  have h9 : (3 / 2 ^ 53 : ℝ) * |expm1 t'| ≤ 3 / 2 ^ 53 * (k + 8 / 2 ^ 53 * k) :=
    mul_le_mul_of_nonneg_left h7 (by norm_num)
  have h10 : (3 / 2 ^ 53 : ℝ) * (k + 8 / 2 ^ 53 * k) ≤ 4 / 2 ^ 53 * k := by
    have : (3 / 2 ^ 53 : ℝ) * (k + 8 / 2 ^ 53 * k) = (3 / 2 ^ 53 * (1 + 8 / 2 ^ 53)) * k := by ring
    rw [this]
    exact mul_le_mul_of_nonneg_right (by norm_num) h8
  have h11 : (8 / 2 ^ 53 : ℝ) * k + 4 / 2 ^ 53 * k = 12 / 2 ^ 53 * k := by ring
  linarith

/-- **C168**: without bias, the contrast comes back. -/
theorem loglinear_fl_unbiased (R : Rounding) {E L : ℝ → ℝ} (hA : Accurate E L) {d : ℝ} (hd : -1 < d)
    (ht : 4 / 2 ^ 53 * |Real.log (1 + d)| ≤ 1) :
    |loglinearBiasFl R.fl E L d 1 - d| ≤ 12 / 2 ^ 53 * (max 1 (1 + d) * |d|) := by
  have h := loglinear_fl_error R hA hd 1 (by rwa [mul_one])
  have e : loglinearBias d 1 = d := by
    simp only [loglinearBias, mul_one]
    rw [Real.exp_log (by linarith)]; ring
  rwa [e, Real.rpow_one] at h

/-- Concrete case: contrast one, functions rounded correctly. -/
example : |loglinearBiasFl double.fl (fun x => double.fl (expm1 x)) (fun x => double.fl (log1p x)) 1 1 - 1| ≤
    24 / 2 ^ 53 := by
  have h := loglinear_fl_unbiased double (E := fun x => double.fl (expm1 x)) (L := fun x => double.fl (log1p x))
    ⟨fun x => rel_mono (by norm_num) (Rel.fl double _), fun y _ => rel_mono (by norm_num) (Rel.fl double _)⟩
    (d := 1) (by norm_num) (by
      have h1 := Real.log_le_sub_one_of_pos (show (0 : ℝ) < 1 + 1 by norm_num)
      have h2 := Real.log_nonneg (show (1 : ℝ) ≤ 1 + 1 by norm_num)
      rw [abs_of_nonneg h2]
      norm_num at h1 h2 ⊢
      linarith)
  refine h.trans (le_of_eq ?_)
  norm_num

end Glass.Points
