import Mathlib.Tactic.Linarith
import Mathlib.Tactic.Positivity
import Mathlib.Tactic.NormNum
import Mathlib.Analysis.Complex.ExponentialBounds
import Verif.Shapes.Model
import Verif.Shapes.FloatTriaxial

/-!
# Ellipticities with intrinsic normal distribution in floating point (C151)

The transformation of `ellipticity_intnorm` for one galaxy, with every operation rounded.
-/

namespace Glass.Shapes

open Glass.Spectra Glass.Shells

/-! ## Model -/

/-- `shapes.py:338-342` with every operation rounded. -/
noncomputable def sigmaEtaFl (fl : ℝ → ℝ) (sigma : ℝ) : Option ℝ :=
  let s2 := fl (sigma ^ 2)
  (nanDiv (fl (8 + fl (5 * s2))) (fl (2 - fl (4 * s2)))).bind fun t =>
    (nanSqrt (fl t)).map fun r => fl (sigma * fl r)

/-- `shapes.py:351-357` for one object, with every operation rounded; the modulus and the hyperbolic
tangent are the rounded exact ones. -/
noncomputable def intnormFl (fl : ℝ → ℝ) (sigma_eta : ℝ) (e : ℂ) : ℂ :=
  let x := fl (e.re * sigma_eta)
  let y := fl (e.im * sigma_eta)
  let r := fl (Real.sqrt (x ^ 2 + y ^ 2))
  open Classical in
  let t := if 0 < r then fl (fl (Real.tanh (fl (r / 2))) / r) else 1
  ⟨fl (x * t), fl (y * t)⟩

/-! ## Results -/

/-- **C151** Without rounding, this is the model of the function. -/
theorem intnorm_fl_real (sigma : ℝ) (h0 : 0 ≤ sigma) (h1 : sigma < Real.sqrt 0.5) (e : ℂ) :
    sigmaEtaFl id sigma = some (sigmaEta sigma) ∧
    intnormFl id (sigmaEta sigma) e = intnorm (sigmaEta sigma) e := by
  have h2 : sigma ^ 2 < 1 / 2 := by
    have := (Real.lt_sqrt h0).1 h1
    norm_num at this ⊢; linarith
  constructor
  · have h3 : 0 ≤ (8 + 5 * sigma ^ 2) / (2 - 4 * sigma ^ 2) :=
      div_nonneg (by positivity) (by linarith)
    simp only [sigmaEtaFl, id_eq, nanDiv, sigmaEta]
    rw [if_neg (by linarith : ¬ (2 - 4 * sigma ^ 2 = 0))]
    simp only [Option.bind_some, nanSqrt]
    rw [if_neg (not_lt.2 h3)]
    rfl
  · unfold intnormFl intnorm
    simp only [id_eq]
    apply Complex.ext <;> simp

/-- Rounding changes a number by its relative precision. -/
theorem abs_fl_le (R : Rounding) (x : ℝ) : |R.fl x| ≤ (1 + 1 / 2 ^ 53) * |x| := by
  have h := R.error x
  have h2 : R.fl x = (R.fl x - x) + x := by ring
  rw [h2]
  refine (abs_add_le _ _).trans ?_
  have : (1 + 1 / 2 ^ 53) * |x| = |x| / 2 ^ 53 + |x| := by ring
  rw [this]; linarith

theorem le_abs_fl (R : Rounding) (x : ℝ) : (1 - 1 / 2 ^ 53) * |x| ≤ |R.fl x| := by
  have h := R.error x
  have h2 : |x| ≤ |R.fl x - x| + |R.fl x| := by
    have := abs_sub_abs_le_abs_sub x (R.fl x)
    rw [abs_sub_comm x] at this; linarith
  have : (1 - 1 / 2 ^ 53) * |x| = |x| - |x| / 2 ^ 53 := by ring
  rw [this]; linarith

theorem norm_mk_le {x y a b k : ℝ} (hk : 0 ≤ k) (hx : |x| ≤ k * |a|) (hy : |y| ≤ k * |b|) :
    ‖(⟨x, y⟩ : ℂ)‖ ≤ k * Real.sqrt (a ^ 2 + b ^ 2) := by
  have h1 := pow_le_pow_left₀ (abs_nonneg x) hx 2
  have h2 := pow_le_pow_left₀ (abs_nonneg y) hy 2
  rw [mul_pow, sq_abs, sq_abs] at h1 h2
  rw [← abs_of_nonneg (norm_nonneg (⟨x, y⟩ : ℂ))]
  apply abs_le_of_sq_le_sq _ (by positivity)
  rw [Complex.sq_norm, Complex.normSq_apply, mul_pow, Real.sq_sqrt (by positivity)]
  simp only
  nlinarith

theorem le_norm_mk {x y a b k : ℝ} (hk : 0 ≤ k) (hx : k * |a| ≤ |x|) (hy : k * |b| ≤ |y|) :
    k * Real.sqrt (a ^ 2 + b ^ 2) ≤ ‖(⟨x, y⟩ : ℂ)‖ := by
  have h1 := pow_le_pow_left₀ (by positivity) hx 2
  have h2 := pow_le_pow_left₀ (by positivity) hy 2
  rw [mul_pow, sq_abs, sq_abs] at h1 h2
  rw [← abs_of_nonneg (show 0 ≤ k * Real.sqrt (a ^ 2 + b ^ 2) by positivity)]
  apply abs_le_of_sq_le_sq _ (norm_nonneg _)
  rw [Complex.sq_norm, Complex.normSq_apply, mul_pow, Real.sq_sqrt (by positivity)]
  simp only
  nlinarith

/-- The modulus of the scaled number, up to rounding. -/
theorem scaled_norm (R : Rounding) (se : ℝ) (e : ℂ) :
    Real.sqrt (R.fl (e.re * se) ^ 2 + R.fl (e.im * se) ^ 2) ≤ (1 + 1 / 2 ^ 53) * (‖e‖ * |se|) ∧
    (1 - 1 / 2 ^ 53) * (‖e‖ * |se|) ≤ Real.sqrt (R.fl (e.re * se) ^ 2 + R.fl (e.im * se) ^ 2) := by
  have hs : Real.sqrt ((e.re * se) ^ 2 + (e.im * se) ^ 2) = ‖e‖ * |se| := by
    rw [Complex.norm_def, Complex.normSq_apply, ← Real.sqrt_sq_eq_abs,
      ← Real.sqrt_mul (add_nonneg (mul_self_nonneg _) (mul_self_nonneg _))]
    congr 1; ring
  have hn : ‖(⟨R.fl (e.re * se), R.fl (e.im * se)⟩ : ℂ)‖ =
      Real.sqrt (R.fl (e.re * se) ^ 2 + R.fl (e.im * se) ^ 2) := by
    rw [Complex.norm_def, Complex.normSq_apply]; congr 1; ring
  rw [← hs, ← hn]
  exact ⟨norm_mk_le (by norm_num) (abs_fl_le R _) (abs_fl_le R _),
    le_norm_mk (by norm_num) (le_abs_fl R _) (le_abs_fl R _)⟩

/-- The modulus of the result, up to rounding. -/
theorem intnormFl_norm (R : Rounding) (se : ℝ) (e : ℂ) (r th : ℝ)
    (hr : r = R.fl (Real.sqrt (R.fl (e.re * se) ^ 2 + R.fl (e.im * se) ^ 2)))
    (hth : th = R.fl (Real.tanh (R.fl (r / 2)))) (h : 0 < r) (h0 : 0 ≤ th) :
    ‖intnormFl R.fl se e‖ ≤ (1 + 4 / 2 ^ 53) * th ∧
    (1 - 4 / 2 ^ 53) * th ≤ ‖intnormFl R.fl se e‖ := by
  unfold intnormFl
  simp only
  rw [← hr, if_pos h, ← hth]
  set x := R.fl (e.re * se)
  set y := R.fl (e.im * se)
  set s := Real.sqrt (x ^ 2 + y ^ 2) with hs
  set t := R.fl (th / r) with ht
  have hs0 : 0 ≤ s := Real.sqrt_nonneg _
  have e1 : Real.sqrt ((x * t) ^ 2 + (y * t) ^ 2) = s * |t| := by
    rw [hs, ← Real.sqrt_sq_eq_abs, ← Real.sqrt_mul (by positivity)]
    congr 1; ring
  have b1 := norm_mk_le (by norm_num) (abs_fl_le R (x * t)) (abs_fl_le R (y * t))
  have b2 := le_norm_mk (by norm_num) (le_abs_fl R (x * t)) (le_abs_fl R (y * t))
  rw [e1] at b1 b2
  have c1 := abs_fl_le R (th / r)
  have c2 := le_abs_fl R (th / r)
  rw [← ht, abs_of_nonneg (div_nonneg h0 h.le)] at c1 c2
  have d1 := abs_fl_le R s
  have d2 := le_abs_fl R s
  rw [← hr, abs_of_pos h, abs_of_nonneg hs0] at d1 d2
  have q0 : 0 ≤ th / r := div_nonneg h0 h.le
  have qr : th / r * r = th := div_mul_cancel₀ _ h.ne'
  set q := th / r
  rw [← qr]
  constructor
  · refine b1.trans ?_
    have k1 : s ≤ (1 + 3 / 2 * (1 / 2 ^ 53)) * r := by
      have : s * (1 - 1 / 2 ^ 53) * (1 + 3 / 2 * (1 / 2 ^ 53)) ≤ (1 + 3 / 2 * (1 / 2 ^ 53)) * r := by
        nlinarith
      refine le_trans ?_ this
      have : 1 ≤ (1 - 1 / 2 ^ 53 : ℝ) * (1 + 3 / 2 * (1 / 2 ^ 53)) := by norm_num
      nlinarith
    have k2 : s * |t| ≤ ((1 + 3 / 2 * (1 / 2 ^ 53)) * r) * ((1 + 1 / 2 ^ 53) * q) := by gcongr
    have k3 : (1 + 1 / 2 ^ 53) * ((1 + 3 / 2 * (1 / 2 ^ 53)) * (1 + 1 / 2 ^ 53)) ≤
        (1 + 4 / 2 ^ 53 : ℝ) := by norm_num
    have k4 : 0 ≤ q * r := by positivity
    nlinarith
  · refine le_trans ?_ b2
    have k1 : (1 - 1 / 2 ^ 53) * r ≤ s := by
      have : (1 - 1 / 2 ^ 53) * ((1 + 1 / 2 ^ 53) * s) ≤ s := by
        have : (1 - 1 / 2 ^ 53) * (1 + 1 / 2 ^ 53) ≤ (1 : ℝ) := by norm_num
        nlinarith
      refine le_trans ?_ this
      have : (0 : ℝ) ≤ 1 - 1 / 2 ^ 53 := by norm_num
      gcongr
    have k0 : (0 : ℝ) ≤ 1 - 1 / 2 ^ 53 := by norm_num
    have k2 : ((1 - 1 / 2 ^ 53) * r) * ((1 - 1 / 2 ^ 53) * q) ≤ s * |t| := by gcongr
    have k3 : (1 - 4 / 2 ^ 53 : ℝ) ≤ (1 - 1 / 2 ^ 53) * ((1 - 1 / 2 ^ 53) * (1 - 1 / 2 ^ 53)) := by
      norm_num
    have k4 : 0 ≤ q * r := by positivity
    nlinarith

theorem tanh_eq_sub (x : ℝ) : Real.tanh x = 1 - 2 / (Real.exp (2 * x) + 1) := by
  have h := Real.exp_pos x
  rw [Real.tanh_eq, Real.exp_neg, two_mul, Real.exp_add]
  field_simp
  ring

theorem tanh_mono {x y : ℝ} (h : x ≤ y) : Real.tanh x ≤ Real.tanh y := by
  rw [tanh_eq_sub, tanh_eq_sub]
  have := Real.exp_pos (2 * x)
  gcongr

/-- The rounded hyperbolic tangent of a number that is not negative. -/
theorem tanh_fl_range (R : Rounding) {r : ℝ} (h : 0 ≤ r) :
    0 ≤ R.fl (Real.tanh (R.fl (r / 2))) ∧ R.fl (Real.tanh (R.fl (r / 2))) ≤ 1 := by
  have h1 : 0 ≤ R.fl (r / 2) := R.nonneg (by linarith)
  have h2 := tanh_mono h1
  rw [Real.tanh_zero] at h2
  exact fl_unit R h2 (Real.tanh_lt_one _).le

/-- If the modulus is rounded to zero, the result is zero. -/
theorem intnormFl_zero (R : Rounding) (se : ℝ) (e : ℂ)
    (h : ¬ 0 < R.fl (Real.sqrt (R.fl (e.re * se) ^ 2 + R.fl (e.im * se) ^ 2))) :
    intnormFl R.fl se e = 0 := by
  unfold intnormFl
  simp only
  rw [if_neg h]
  have h1 : Real.sqrt (R.fl (e.re * se) ^ 2 + R.fl (e.im * se) ^ 2) = 0 := by
    by_contra h2
    exact h (R.pos (lt_of_le_of_ne (Real.sqrt_nonneg _) (Ne.symm h2)))
  rw [Real.sqrt_eq_zero (by positivity)] at h1
  have h2 : R.fl (e.re * se) = 0 := by
    apply pow_eq_zero_iff (two_ne_zero) |>.1
    nlinarith [sq_nonneg (R.fl (e.re * se)), sq_nonneg (R.fl (e.im * se))]
  have h3 : R.fl (e.im * se) = 0 := by
    apply pow_eq_zero_iff (two_ne_zero) |>.1
    nlinarith [sq_nonneg (R.fl (e.re * se)), sq_nonneg (R.fl (e.im * se))]
  rw [h2, h3, zero_mul, R.zero]
  rfl

/-- **C151** The modulus is at most one, up to four units of rounding. -/
theorem float_intnorm_le (R : Rounding) (se : ℝ) (e : ℂ) :
    ‖intnormFl R.fl se e‖ ≤ 1 + 4 / 2 ^ 53 := by
  by_cases h : 0 < R.fl (Real.sqrt (R.fl (e.re * se) ^ 2 + R.fl (e.im * se) ^ 2))
  · have h1 := tanh_fl_range R h.le
    refine (intnormFl_norm R se e _ _ rfl rfl h h1.1).1.trans ?_
    have : (0 : ℝ) ≤ 1 + 4 / 2 ^ 53 := by norm_num
    nlinarith [h1.2]
  · rw [intnormFl_zero R se e h, norm_zero]; norm_num

theorem exp_34 : Real.exp 34 ≤ 6 * 10 ^ 14 := by
  have h := Real.exp_one_lt_d9
  have : Real.exp 34 = Real.exp 1 ^ 34 := by rw [← Real.exp_nat_mul]; norm_num
  rw [this]
  refine (pow_le_pow_left₀ (Real.exp_pos 1).le h.le 34).trans ?_
  norm_num

theorem exp_38 : 481 * 10 ^ 14 ≤ Real.exp 38.5 := by
  have h := Real.exp_one_gt_d9
  have h1 : Real.exp 38.5 ^ 2 = Real.exp 1 ^ 77 := by
    rw [← Real.exp_nat_mul, ← Real.exp_nat_mul]; norm_num
  rw [← abs_of_pos (Real.exp_pos 38.5)]
  rw [← abs_of_pos (show (0 : ℝ) < 481 * 10 ^ 14 by norm_num)]
  apply sq_le_sq.1
  rw [h1]
  refine le_trans ?_ (pow_le_pow_left₀ (by norm_num) h.le 77)
  norm_num

/-- **C151** The modulus is less than one if that of the normal variables is at most
`33 / sigma_eta`. -/
theorem float_intnorm_lt (R : Rounding) (se : ℝ) (e : ℂ) (h : ‖e‖ * |se| ≤ 33) :
    ‖intnormFl R.fl se e‖ < 1 := by
  by_cases h0 : 0 < R.fl (Real.sqrt (R.fl (e.re * se) ^ 2 + R.fl (e.im * se) ^ 2))
  · have h1 := tanh_fl_range R h0.le
    refine (intnormFl_norm R se e _ _ rfl rfl h0 h1.1).1.trans_lt ?_
    have hs := (scaled_norm R se e).1
    set s := Real.sqrt (R.fl (e.re * se) ^ 2 + R.fl (e.im * se) ^ 2)
    have s0 : 0 ≤ s := Real.sqrt_nonneg _
    have s1 : s ≤ 34 := by
      have : (1 + 1 / 2 ^ 53 : ℝ) * 33 ≤ 34 := by norm_num
      have : (1 + 1 / 2 ^ 53 : ℝ) * (‖e‖ * |se|) ≤ (1 + 1 / 2 ^ 53 : ℝ) * 33 := by gcongr
      linarith
    have r1 : R.fl s ≤ 34 := by
      have := (unit_range R (m := 0) (n := 34) (by norm_num) (by norm_num)
        (by push_cast; exact s0) (by push_cast; exact s1)).2
      push_cast at this; exact this
    have r2 : R.fl (R.fl s / 2) ≤ 17 := by
      have := (unit_range R (x := R.fl s / 2) (m := 0) (n := 17) (by norm_num) (by norm_num)
        (by push_cast; linarith) (by push_cast; linarith)).2
      push_cast at this; exact this
    have t1 := tanh_mono r2
    have t2 : Real.tanh 17 ≤ 1 - 6 / 2 ^ 53 := by
      rw [tanh_eq_sub]
      have := exp_34
      have : (6 / 2 ^ 53 : ℝ) ≤ 2 / (Real.exp (2 * 17) + 1) := by
        rw [le_div_iff₀ (by positivity)]
        norm_num at this ⊢
        linarith
      linarith
    have t3 : R.fl (Real.tanh (R.fl (R.fl s / 2))) ≤ (1 + 1 / 2 ^ 53) * (1 - 6 / 2 ^ 53) := by
      have h2 : 0 ≤ Real.tanh (R.fl (R.fl s / 2)) := by
        have := tanh_mono (R.nonneg (show 0 ≤ R.fl s / 2 by linarith))
        rwa [Real.tanh_zero] at this
      have := abs_fl_le R (Real.tanh (R.fl (R.fl s / 2)))
      rw [abs_of_nonneg h1.1, abs_of_nonneg h2] at this
      refine this.trans ?_
      gcongr
      linarith
    calc (1 + 4 / 2 ^ 53) * R.fl (Real.tanh (R.fl (R.fl s / 2)))
        ≤ (1 + 4 / 2 ^ 53) * ((1 + 1 / 2 ^ 53) * (1 - 6 / 2 ^ 53)) := by gcongr
      _ < 1 := by norm_num
  · rw [intnormFl_zero R se e h0, norm_zero]; norm_num

/-- Non-vacuity: such numbers exist. -/
example : ∃ e : ℂ, 0 < ‖e‖ ∧ ‖e‖ * |(11 : ℝ)| ≤ 33 := ⟨3, by simp, by norm_num⟩

/-- The hyperbolic tangent of large numbers is rounded to one. -/
theorem tanh_fl_one {x : ℝ} (h : 19.25 ≤ x) : roundDouble (Real.tanh x) = 1 := by
  have h1 : 1 - 3 / 4 / 2 ^ 54 ≤ Real.tanh x := by
    rw [tanh_eq_sub]
    have h2 : Real.exp 38.5 ≤ Real.exp (2 * x) := Real.exp_le_exp.2 (by norm_num at h ⊢; linarith)
    have h3 := exp_38
    have : 2 / (Real.exp (2 * x) + 1) ≤ (3 / 4 / 2 ^ 54 : ℝ) := by
      rw [div_le_iff₀ (by positivity)]
      have h9 := h3.trans h2
      norm_num at h9 ⊢
      linarith
    linarith
  have h4 : roundDouble (1 - 3 / 4 / 2 ^ 54) = 1 := by
    rw [roundDouble_of _ (-1) (2 ^ 53) (by norm_num) (by norm_num)
      (by rw [abs_lt]; constructor <;> norm_num)]
    norm_num
  apply le_antisymm
  · have := double.mono (Real.tanh_lt_one x).le
    rwa [double.one] at this
  · rw [← h4]; exact double.mono h1

/-- **C151** In double precision, the modulus is one up to four units of rounding if that of the normal
variables is at least `39 / sigma_eta`. -/
theorem float_intnorm_saturates (se : ℝ) (e : ℂ) (h : 39 ≤ ‖e‖ * |se|) :
    1 - 4 / 2 ^ 53 ≤ ‖intnormFl roundDouble se e‖ := by
  have hs := (scaled_norm double se e).2
  set s := Real.sqrt (double.fl (e.re * se) ^ 2 + double.fl (e.im * se) ^ 2) with hsd
  have s1 : 38.5 ≤ s := by
    have h1 : (38.5 : ℝ) ≤ (1 - 1 / 2 ^ 53 : ℝ) * 39 := by norm_num
    have h2 : (1 - 1 / 2 ^ 53 : ℝ) * 39 ≤ (1 - 1 / 2 ^ 53 : ℝ) * (‖e‖ * |se|) := by
      have : (0 : ℝ) ≤ 1 - 1 / 2 ^ 53 := by norm_num
      gcongr
    linarith
  have e1 : double.fl 38.5 = 38.5 := by
    have := double.exact 154 (by norm_num)
    norm_num at this ⊢; exact this
  have e2 : double.fl 19.25 = 19.25 := by
    have := double.exact 77 (by norm_num)
    norm_num at this ⊢; exact this
  have r1 : 38.5 ≤ double.fl s := by rw [← e1]; exact double.mono s1
  have r2 : 19.25 ≤ double.fl (double.fl s / 2) := by
    rw [← e2]; exact double.mono (by norm_num at r1 ⊢; linarith)
  have r0 : 0 < double.fl s := lt_of_lt_of_le (by norm_num) r1
  have key := (intnormFl_norm double se e _ _ rfl rfl r0 (tanh_fl_range double r0.le).1).2
  have e3 : double.fl (Real.tanh (double.fl (double.fl s / 2))) = 1 := tanh_fl_one r2
  rw [← hsd, e3, mul_one] at key
  exact key

/-- Non-vacuity: such numbers exist. -/
example : ∃ e : ℂ, 39 ≤ ‖e‖ * |(13 : ℝ)| := ⟨3, by norm_num⟩

/-- `shapes.py:274` and `shapes.py:280` with a rounded modulus: whether an ellipticity is drawn again. -/
noncomputable def rejectedFl (fl : ℝ → ℝ) (e : ℂ) : Prop := 1 < fl ‖e‖

/-- **C151** The comparison of `ellipticity_gaussian` with a rounded modulus: ellipticities in the unit
disc are kept, and ellipticities that are kept are in the unit disc up to two units of rounding. -/
theorem float_rejection (R : Rounding) (e : ℂ) :
    (‖e‖ ≤ 1 → ¬ rejectedFl R.fl e) ∧ (¬ rejectedFl R.fl e → ‖e‖ ≤ 1 + 2 / 2 ^ 53) := by
  constructor
  · intro h
    exact not_lt.2 (fl_unit R (norm_nonneg e) h).2
  · intro h
    have h1 := not_lt.1 h
    have h2 := le_abs_fl R ‖e‖
    rw [abs_of_nonneg (norm_nonneg e), abs_of_nonneg (R.nonneg (norm_nonneg e))] at h2
    have h3 : (1 - 1 / 2 ^ 53) * ‖e‖ ≤ 1 := h2.trans h1
    have h4 : (1 : ℝ) ≤ (1 - 1 / 2 ^ 53) * (1 + 2 / 2 ^ 53) := by norm_num
    by_contra hcon
    push Not at hcon
    have : (1 - 1 / 2 ^ 53) * (1 + 2 / 2 ^ 53) < (1 - 1 / 2 ^ 53) * ‖e‖ :=
      mul_lt_mul_of_pos_left hcon (by norm_num)
    linarith

/-! ## The standard deviation -/

theorem root_half : roundDouble (Real.sqrt 0.5) = 6369051672525773 / 2 ^ 53 := by
  have b1 : (12738103345051545 / 2 ^ 54 : ℝ) < Real.sqrt 0.5 := Real.lt_sqrt_of_sq_lt (by norm_num)
  have b2 : Real.sqrt 0.5 < 12738103345051547 / 2 ^ 54 := by
    rw [Real.sqrt_lt' (by norm_num)]; norm_num
  rw [roundDouble_of _ (-1) 6369051672525773 (by norm_num at b1 ⊢; linarith)
    (by norm_num at b2 ⊢; linarith) (by
      rw [abs_lt]; norm_num at b1 b2 ⊢; constructor <;> linarith)]
  norm_num

/-- **C151** For every number that passes the check of `sigma` in double precision, the denominator
is positive, and the standard deviation before the transformation is a number that is not
negative. -/
theorem float_sigma_eta (sigma : ℝ) (hd : roundDouble sigma = sigma) (h0 : 0 ≤ sigma)
    (h1 : sigma < roundDouble (Real.sqrt 0.5)) :
    0 < roundDouble (2 - roundDouble (4 * roundDouble (sigma ^ 2))) ∧
    ∃ se, sigmaEtaFl roundDouble sigma = some se ∧ 0 ≤ se := by
  have hp := isPrevious_double 6369051672525772 (-1) (by norm_num) (by norm_num)
  have h2 : sigma ≤ 6369051672525772 / 2 ^ 53 := by
    have := hp.2.2 sigma hd (by rw [root_half] at h1; norm_num at h1 ⊢; linarith)
    norm_num at this ⊢; linarith
  have h3 : roundDouble (sigma ^ 2) ≤ 9007199254740990 / 2 ^ 54 := by
    have e1 : roundDouble ((6369051672525772 / 2 ^ 53) ^ 2) = 9007199254740990 / 2 ^ 54 := by
      rw [roundDouble_of _ (-2) 9007199254740990 (by norm_num) (by norm_num)
        (by rw [abs_lt]; constructor <;> norm_num)]
      norm_num
    rw [← e1]
    apply double.mono
    gcongr
  have h4 : roundDouble (4 * roundDouble (sigma ^ 2)) ≤ 9007199254740990 / 2 ^ 52 := by
    have e1 : roundDouble (4 * (9007199254740990 / 2 ^ 54)) = 9007199254740990 / 2 ^ 52 := by
      rw [roundDouble_of _ 0 9007199254740990 (by norm_num) (by norm_num)
        (by rw [abs_lt]; constructor <;> norm_num)]
      norm_num
    rw [← e1]
    apply double.mono
    gcongr
  have h5 : 0 < roundDouble (2 - roundDouble (4 * roundDouble (sigma ^ 2))) := by
    apply double.pos
    norm_num at h4 ⊢
    linarith
  refine ⟨h5, ?_⟩
  unfold sigmaEtaFl
  simp only [nanDiv]
  rw [if_neg h5.ne']
  simp only [Option.bind_some, nanSqrt]
  have h6 : 0 ≤ roundDouble (sigma ^ 2) := double.nonneg (sq_nonneg _)
  have h7 : 0 ≤ roundDouble (5 * roundDouble (sigma ^ 2)) := double.nonneg (by linarith)
  have h8 : 0 ≤ roundDouble (8 + roundDouble (5 * roundDouble (sigma ^ 2))) :=
    double.nonneg (by linarith)
  have h9 : 0 ≤ roundDouble (roundDouble (8 + roundDouble (5 * roundDouble (sigma ^ 2))) /
      roundDouble (2 - roundDouble (4 * roundDouble (sigma ^ 2)))) :=
    double.nonneg (div_nonneg h8 h5.le)
  rw [if_neg (not_lt.2 h9)]
  refine ⟨_, rfl, double.nonneg (mul_nonneg h0 (double.nonneg (Real.sqrt_nonneg _)))⟩

/-- Non-vacuity: 1/2 is such a number. -/
example : roundDouble (1 / 2) = 1 / 2 ∧ (1 / 2 : ℝ) < roundDouble (Real.sqrt 0.5) := by
  constructor
  · rw [roundDouble_of _ (-1) (2 ^ 52) (by norm_num) (by norm_num) (by norm_num)]; norm_num
  · rw [root_half]; norm_num

/-! ## Counterexample -/

/-- The standard deviation before the transformation for `sigma = 45/64`. -/
theorem float_sigma_eta_example :
    sigmaEtaFl roundDouble (45 / 64) = some (8546762285154641 / 2 ^ 49) := by
  have r1 : roundDouble ((45 / 64) ^ 2) = 2025 / 4096 := by
    rw [roundDouble_of _ (-2) 8906044184985600 (by norm_num) (by norm_num) (by norm_num)]; norm_num
  have r2 : roundDouble (5 * (2025 / 4096)) = 10125 / 4096 := by
    rw [roundDouble_of _ 1 5566277615616000 (by norm_num) (by norm_num) (by norm_num)]; norm_num
  have r3 : roundDouble (8 + 10125 / 4096) = 42893 / 4096 := by
    rw [roundDouble_of _ 3 5895169031274496 (by norm_num) (by norm_num) (by norm_num)]; norm_num
  have r4 : roundDouble (4 * (2025 / 4096)) = 2025 / 1024 := by
    rw [roundDouble_of _ 0 8906044184985600 (by norm_num) (by norm_num) (by norm_num)]; norm_num
  have r5 : roundDouble (2 - 2025 / 1024) = 23 / 1024 := by
    rw [roundDouble_of _ (-6) 6473924464345088 (by norm_num) (by norm_num) (by norm_num)]; norm_num
  have r6 : roundDouble (42893 / 4096 / (23 / 1024)) = 8201974304381907 / 2 ^ 44 := by
    rw [roundDouble_of _ 8 8201974304381907 (by norm_num) (by norm_num)
      (by rw [abs_lt]; constructor <;> norm_num)]; norm_num
  have r7 : roundDouble (Real.sqrt (8201974304381907 / 2 ^ 44)) = 6077697624998856 / 2 ^ 48 := by
    have b1 : (12155395249997711 / 2 ^ 49 : ℝ) < Real.sqrt (8201974304381907 / 2 ^ 44) :=
      Real.lt_sqrt_of_sq_lt (by norm_num)
    have b2 : Real.sqrt (8201974304381907 / 2 ^ 44) < 12155395249997713 / 2 ^ 49 := by
      rw [Real.sqrt_lt' (by norm_num)]; norm_num
    rw [roundDouble_of _ 4 6077697624998856 (by norm_num at b1 ⊢; linarith)
      (by norm_num at b2 ⊢; linarith) (by
        rw [abs_lt]; norm_num at b1 b2 ⊢; constructor <;> linarith)]
    norm_num
  have r8 : roundDouble (45 / 64 * (6077697624998856 / 2 ^ 48)) = 8546762285154641 / 2 ^ 49 := by
    rw [roundDouble_of _ 3 8546762285154641 (by norm_num) (by norm_num)
      (by rw [abs_lt]; constructor <;> norm_num)]; norm_num
  unfold sigmaEtaFl
  simp only [nanDiv, r1, r2, r3, r4, r5]
  rw [if_neg (by norm_num)]
  simp only [Option.bind_some, r6, nanSqrt]
  rw [if_neg (by norm_num)]
  simp only [Option.map_some, r7, r8]

/-- **C151**, counterexample: with `sigma = 45/64`, a galaxy with the normal variables 0.5 and 2.5 has an
ellipticity with a modulus greater than one in double precision. -/
theorem float_intnorm_beyond : ∃ se, sigmaEtaFl roundDouble (45 / 64) = some se ∧
    1 < ‖intnormFl roundDouble se ⟨1 / 2, 5 / 2⟩‖ := by
  refine ⟨_, float_sigma_eta_example, ?_⟩
  have r1 : roundDouble (1 / 2 * (8546762285154641 / 2 ^ 49)) = 8546762285154641 / 2 ^ 50 := by
    rw [roundDouble_of _ 2 8546762285154641 (by norm_num) (by norm_num) (by norm_num)]; norm_num
  have r2 : roundDouble (5 / 2 * (8546762285154641 / 2 ^ 49)) = 5341726428221651 / 2 ^ 47 := by
    rw [roundDouble_of _ 5 5341726428221651 (by norm_num) (by norm_num)
      (by rw [abs_lt]; constructor <;> norm_num)]; norm_num
  have r3 : roundDouble (Real.sqrt ((8546762285154641 / 2 ^ 50) ^ 2 + (5341726428221651 / 2 ^ 47) ^ 2)) =
      5447513458755297 / 2 ^ 47 := by
    have b1 : (10895026917510593 / 2 ^ 48 : ℝ) <
        Real.sqrt ((8546762285154641 / 2 ^ 50) ^ 2 + (5341726428221651 / 2 ^ 47) ^ 2) :=
      Real.lt_sqrt_of_sq_lt (by norm_num)
    have b2 : Real.sqrt ((8546762285154641 / 2 ^ 50) ^ 2 + (5341726428221651 / 2 ^ 47) ^ 2) <
        10895026917510595 / 2 ^ 48 := by
      rw [Real.sqrt_lt' (by norm_num)]; norm_num
    generalize Real.sqrt ((8546762285154641 / 2 ^ 50) ^ 2 + (5341726428221651 / 2 ^ 47) ^ 2) = s at b1 b2
    rw [roundDouble_of _ 5 5447513458755297 (by norm_num at b1 ⊢; linarith)
      (by norm_num at b2 ⊢; linarith) (by
        rw [abs_lt]; norm_num at b1 b2 ⊢; constructor <;> linarith)]
    norm_num
  have r4 : roundDouble (5447513458755297 / 2 ^ 47 / 2) = 5447513458755297 / 2 ^ 48 := by
    rw [roundDouble_of _ 4 5447513458755297 (by norm_num) (by norm_num) (by norm_num)]; norm_num
  have r5 : roundDouble (Real.tanh (5447513458755297 / 2 ^ 48)) = 1 := tanh_fl_one (by norm_num)
  have r6 : roundDouble (1 / (5447513458755297 / 2 ^ 47)) = 7446483522148471 / 2 ^ 58 := by
    rw [roundDouble_of _ (-6) 7446483522148471 (by norm_num) (by norm_num)
      (by rw [abs_lt]; constructor <;> norm_num)]; norm_num
  have r7 : roundDouble (8546762285154641 / 2 ^ 50 * (7446483522148471 / 2 ^ 58)) =
      1766457106259335 / 2 ^ 53 := by
    rw [roundDouble_of _ (-3) 7065828425037340 (by norm_num) (by norm_num)
      (by rw [abs_lt]; constructor <;> norm_num)]; norm_num
  have r8 : roundDouble (5341726428221651 / 2 ^ 47 * (7446483522148471 / 2 ^ 58)) =
      2208071382824169 / 2 ^ 51 := by
    rw [roundDouble_of _ (-1) 8832285531296676 (by norm_num) (by norm_num)
      (by rw [abs_lt]; constructor <;> norm_num)]; norm_num
  unfold intnormFl
  simp only [r1, r2, r3]
  rw [if_pos (by norm_num)]
  simp only [r4, r5, r6, r7, r8]
  rw [Complex.norm_def, Complex.normSq_apply]
  apply Real.lt_sqrt_of_sq_lt
  norm_num

end Glass.Shapes
