import Mathlib.Analysis.Complex.ExponentialBounds
import Mathlib.Analysis.Convex.SpecificFunctions.Basic
import Verif.Grf.TransformationsProps
import Verif.Lensing.ModeFactors
import Verif.Shells.FloatAverages
import Verif.Shells.FloatGrid

/-!
# Transformed correlation functions in floating point (C166)

For lognormal fields, `icorr` undoes `corr` up to a small relative error if the correlation is not negative. For
squared normal fields, small correlations are lost.
-/

namespace Glass.Grf

open Glass.Spectra Glass.Lensing Glass.Shells Transformation

/-! ## Model -/

/-- The methods `corr`, `grf/_transformations.py:30-38, 91-105, 177-188`, with every operation rounded; `E` is
`expm1`. -/
noncomputable def corrMFl (fl E : ℝ → ℝ) : Transformation → Transformation → ℝ → Option ℝ
  | .normal, .normal, x => some x
  | .normal, _, _ => none
  | .lognormal l, .lognormal l', x => some (fl (fl (l * l') * E x))
  | .lognormal l, .normal, x => some (fl (l * x))
  | .lognormal _, .squared _ _, _ => none
  | .squared a l, .squared a' l', x =>
      let aa := fl (a * a')
      let ll := fl (l * l')
      some (fl (fl (fl (2 * ll) * x) * fl (x + fl (2 * aa))))
  | .squared _ _, _, _ => none

/-- The methods `icorr`, `grf/_transformations.py:40-48, 107-121, 190-203`, with every operation rounded; `L` is
`log1p`. -/
noncomputable def icorrMFl (fl L : ℝ → ℝ) : Transformation → Transformation → ℝ → Option ℝ
  | .normal, .normal, x => some x
  | .normal, _, _ => none
  | .lognormal l, .lognormal l', x => some (L (fl (x / fl (l * l'))))
  | .lognormal l, .normal, x => some (fl (x / l))
  | .lognormal _, .squared _ _, _ => none
  | .squared a l, .squared a' l', x =>
      let aa := fl (a * a')
      let ll := fl (l * l')
      some (fl (fl (Real.sqrt (fl (fl (x / fl (2 * ll)) + fl (aa * aa)))) - aa))
  | .squared _ _, _, _ => none

/-- `grf/_core.py:63-86` `corr`. -/
noncomputable def corrFl (fl E : ℝ → ℝ) := dispatch (corrMFl fl E)

/-- `grf/_core.py:89-112` `icorr`. -/
noncomputable def icorrFl (fl L : ℝ → ℝ) := dispatch (icorrMFl fl L)

/-- **C166**: without rounding the model is the exact one. -/
theorem corr_fl_real (t1 t2 : Transformation) (x : ℝ) :
    corrFl id expm1 t1 t2 x = corr t1 t2 x ∧ icorrFl id log1p t1 t2 x = icorr t1 t2 x := by
  rcases t1 with _ | l | ⟨a, l⟩ <;> rcases t2 with _ | l' | ⟨a', l'⟩ <;>
    simp [corrFl, icorrFl, corr, icorr, dispatch, corrMFl, icorrMFl, corrM, icorrM, sq]

/-- **C166**: the order of the transformations does not matter, whatever the rounding. -/
theorem corr_fl_symm (fl E L : ℝ → ℝ) (t1 t2 : Transformation) (x : ℝ) :
    corrFl fl E t1 t2 x = corrFl fl E t2 t1 x ∧ icorrFl fl L t1 t2 x = icorrFl fl L t2 t1 x := by
  rcases t1 with _ | l | ⟨a, l⟩ <;> rcases t2 with _ | l' | ⟨a', l'⟩ <;>
    simp only [corrFl, icorrFl, dispatch, corrMFl, icorrMFl, and_self] <;>
    (refine ⟨?_, ?_⟩ <;> first
      | simp only [mul_comm l l', mul_comm a a']
      | simp only [mul_comm l l'])

/-! ## Lognormal fields -/

/-- A relative error of a positive argument of `log1p` is no larger in the result. -/
theorem log1p_rel {k : ℕ} {y u : ℝ} (h : Rel k y u) (hy : 0 ≤ y) : Rel k (log1p y) (log1p u) := by
  obtain ⟨a, rfl, h1, h2⟩ := h
  have hq : (1 - 1 / 2 ^ 53 : ℝ) ^ k ≤ 1 := pow_le_one₀ (by norm_num) (by norm_num)
  have hq0 : (0 : ℝ) < (1 - 1 / 2 ^ 53) ^ k := pow_pos (by norm_num) _
  have hq1 : (1 : ℝ) ≤ ((1 - 1 / 2 ^ 53) ^ k)⁻¹ := (one_le_inv₀ hq0).2 hq
  have ha : 0 < a := hq0.trans_le h1
  unfold log1p
  have hl : 0 ≤ Real.log (1 + y) := Real.log_nonneg (by linarith)
  have hya : 0 ≤ y * a := mul_nonneg hy ha.le
  rcases eq_or_lt_of_le hy with rfl | hy0
  · exact ⟨1, by simp, hq, hq1⟩
  have hl0 : 0 < Real.log (1 + y) := Real.log_pos (by linarith)
  refine ⟨Real.log (1 + y * a) / Real.log (1 + y), by field_simp, ?_, ?_⟩
  · rw [le_div_iff₀ hl0]
    rcases le_total a 1 with ha1 | ha1
    · have hb := rpow_one_add_le_one_add_mul_self (s := y) (p := a) (by linarith) ha.le ha1
      have := Real.log_le_log (Real.rpow_pos_of_pos (by linarith) _) hb
      rw [Real.log_rpow (by linarith), mul_comm a y] at this
      exact (mul_le_mul_of_nonneg_right h1 hl).trans this
    · have : Real.log (1 + y) ≤ Real.log (1 + y * a) :=
        Real.log_le_log (by linarith) (by nlinarith)
      have := mul_le_mul_of_nonneg_right hq hl
      linarith
  · rw [div_le_iff₀ hl0]
    rcases le_total a 1 with ha1 | ha1
    · have : Real.log (1 + y * a) ≤ Real.log (1 + y) :=
        Real.log_le_log (by linarith) (by nlinarith)
      have := mul_le_mul_of_nonneg_right hq1 hl
      linarith
    · have hb := one_add_mul_self_le_rpow_one_add (s := y) (p := a) (by linarith) ha1
      have := Real.log_le_log (by nlinarith) hb
      rw [Real.log_rpow (by linarith), mul_comm a y] at this
      exact this.trans (mul_le_mul_of_nonneg_right h2 hl)

/-- The functions `expm1` and `log1p` are computed with a relative error of two units. -/
structure Accurate (E L : ℝ → ℝ) : Prop where
  exp : ∀ x, Rel 2 (expm1 x) (E x)
  log : ∀ y, -1 < y → Rel 2 (log1p y) (L y)

theorem product_ne (R : Rounding) {l l' : ℝ} (hl : l ≠ 0) (hl' : l' ≠ 0) : R.fl (l * l') ≠ 0 := by
  intro h0
  have h := R.error (l * l')
  rw [h0, zero_sub, abs_neg] at h
  have : 0 < |l * l'| := abs_pos.2 (mul_ne_zero hl hl')
  linarith

/-- The shifts cancel. -/
theorem quotient_rel (R : Rounding) {E L : ℝ → ℝ} (hA : Accurate E L) {l l' : ℝ} (hl : l ≠ 0) (hl' : l' ≠ 0)
    (x : ℝ) : Rel 4 (expm1 x) (R.fl (R.fl (R.fl (l * l') * E x) / R.fl (l * l'))) := by
  have h := (((((Rel.refl (R.fl (l * l'))).mul (hA.exp x)).round R).div
    (Rel.refl (R.fl (l * l')))).round R)
  rw [mul_div_assoc, mul_comm, div_mul_cancel₀ _ (product_ne R hl hl')] at h
  exact h

theorem expm1_nonneg {x : ℝ} (h : 0 ≤ x) : 0 ≤ expm1 x := by
  have := Real.add_one_le_exp x
  unfold expm1; linarith

/-- **C166**: two lognormal fields and a correlation that is not negative. -/
theorem lognormal_fl_round_trip (R : Rounding) {E L : ℝ → ℝ} (hA : Accurate E L) {l l' : ℝ} (hl : l ≠ 0)
    (hl' : l' ≠ 0) {x : ℝ} (hx : 0 ≤ x) :
    ∃ y x', corrFl R.fl E (.lognormal l) (.lognormal l') x = .ok y ∧
      icorrFl R.fl L (.lognormal l) (.lognormal l') y = .ok x' ∧ |x' - x| ≤ 7 / 2 ^ 53 * x := by
  refine ⟨_, _, rfl, rfl, ?_⟩
  have h := quotient_rel R hA hl hl' x
  have h1 := log1p_rel h (expm1_nonneg hx)
  rw [log1p_expm1] at h1
  have hu : -1 < R.fl (R.fl (R.fl (l * l') * E x) / R.fl (l * l')) := by
    obtain ⟨a, ha, ha1, -⟩ := h
    have : 0 < a := lt_of_lt_of_le (by norm_num) ha1
    have := mul_nonneg (expm1_nonneg hx) this.le
    linarith
  obtain ⟨b, hb, b1, b2⟩ := hA.log _ hu
  have h2 := h1.mul (show Rel 2 1 b from ⟨b, by simp, b1, b2⟩)
  rw [← hb, mul_one] at h2
  have := h2.error (e := 7 / 2 ^ 53) (by norm_num) (by norm_num)
  rwa [abs_of_nonneg hx] at this

/-- **C166**: two lognormal fields and a negative correlation, where the error grows exponentially. -/
theorem lognormal_fl_negative (R : Rounding) {E L : ℝ → ℝ} (hA : Accurate E L) {l l' : ℝ} (hl : l ≠ 0)
    (hl' : l' ≠ 0) {x : ℝ} (hx : x ≤ 0) (hs : 10 / 2 ^ 53 * (Real.exp (-x) - 1) ≤ 1) :
    ∃ y x', corrFl R.fl E (.lognormal l) (.lognormal l') x = .ok y ∧
      icorrFl R.fl L (.lognormal l) (.lognormal l') y = .ok x' ∧
      |x' - x| ≤ 14 / 2 ^ 53 * (Real.exp (-x) - 1) := by
  refine ⟨_, _, rfl, rfl, ?_⟩
  have h := quotient_rel R hA hl hl' x
  have h1 := h.error (e := 5 / 2 ^ 53) (by norm_num) (by norm_num)
  generalize R.fl (R.fl (R.fl (l * l') * E x) / R.fl (l * l')) = u at *
  have hp := Real.exp_pos x
  have hc : |expm1 x| = Real.exp x * (Real.exp (-x) - 1) := by
    have : Real.exp x * Real.exp (-x) = 1 := by rw [← Real.exp_add]; simp
    have h3 : Real.exp x ≤ 1 := Real.exp_le_one_iff.2 hx
    unfold expm1
    rw [abs_of_nonpos (by linarith)]
    linarith
  have hx1 : |x| ≤ Real.exp (-x) - 1 := by
    rw [abs_of_nonpos hx]
    have := Real.add_one_le_exp (-x)
    linarith
  have hx0 := abs_nonneg x
  generalize Real.exp (-x) - 1 = c at *
  -- the argument of the logarithm
  obtain ⟨w, hw⟩ : ∃ w, 1 + u = Real.exp x * (1 + w) := ⟨(1 + u) / Real.exp x - 1, by field_simp; ring⟩
  have hw1 : |w| ≤ 5 / 2 ^ 53 * c := by
    have e : u - expm1 x = Real.exp x * w := by unfold expm1; linarith
    rw [e, hc, abs_mul, abs_of_pos hp] at h1
    have h4 : Real.exp x * |w| ≤ Real.exp x * (5 / 2 ^ 53 * c) := by linarith
    exact le_of_mul_le_mul_left h4 hp
  have hw2 : |w| ≤ 1 / 2 := by linarith
  have hwp : 0 < 1 + w := by linarith [neg_abs_le w]
  have hlog : log1p u = x + Real.log (1 + w) := by
    unfold log1p
    rw [hw, Real.log_mul hp.ne' hwp.ne', Real.log_exp]
  have hl1 : |Real.log (1 + w)| ≤ 2 * |w| := by
    rw [abs_le]
    constructor
    · have h5 := Real.one_sub_inv_le_log_of_pos hwp
      have h6 : 1 - (1 + w)⁻¹ = w / (1 + w) := by field_simp; ring
      have h7 : |w / (1 + w)| ≤ 2 * |w| := by
        rw [abs_div, abs_of_pos hwp, div_le_iff₀ hwp]
        have := neg_abs_le w
        nlinarith [abs_nonneg w]
      have := neg_abs_le (w / (1 + w))
      linarith
    · have h5 := Real.log_le_sub_one_of_pos hwp
      have := le_abs_self w
      have := abs_nonneg w
      linarith
  have hu : -1 < u := by
    have := mul_pos hp hwp
    linarith
  have h8 := (hA.log u hu).error (e := 3 / 2 ^ 53) (by norm_num) (by norm_num)
  have h9 : |log1p u - x| ≤ 10 / 2 ^ 53 * c := by
    rw [hlog, add_sub_cancel_left]; linarith
  have h10 : |log1p u| ≤ c + 10 / 2 ^ 53 * c := by
    have := abs_sub_abs_le_abs_sub (log1p u) x
    linarith
  have h11 := abs_sub_le (L u) (log1p u) x
  have hc0 : 0 ≤ c := hx0.trans hx1
  have h12 : (3 / 2 ^ 53 : ℝ) * |log1p u| ≤ 3 / 2 ^ 53 * (c + 10 / 2 ^ 53 * c) :=
    mul_le_mul_of_nonneg_left h10 (by norm_num)
  have h13 : (3 / 2 ^ 53 : ℝ) * (c + 10 / 2 ^ 53 * c) ≤ 4 / 2 ^ 53 * c := by
    have : (3 / 2 ^ 53 : ℝ) * (c + 10 / 2 ^ 53 * c) = (3 / 2 ^ 53 * (1 + 10 / 2 ^ 53)) * c := by ring
    rw [this]
    exact mul_le_mul_of_nonneg_right (by norm_num) hc0
  have h14 : (10 / 2 ^ 53 : ℝ) * c + 4 / 2 ^ 53 * c = 14 / 2 ^ 53 * c := by ring
  linarith

/-- **C166**, counterexample: for the correlation -40 the argument of `log1p` is -1, where its value is minus
infinity, although `expm1` is rounded correctly. -/
theorem lognormal_fl_infinite (L : ℝ → ℝ) :
    corrFl double.fl (fun x => double.fl (expm1 x)) (.lognormal 1) (.lognormal 1) (-40) = .ok (-1) ∧
    icorrFl double.fl L (.lognormal 1) (.lognormal 1) (-1) = .ok (L (-1)) := by
  have r1 : double.fl 1 = 1 := double.one
  have rn : double.fl (-1) = -1 := by
    have := double.exact (-4) (by norm_num); norm_num at this ⊢; exact this
  have he : Real.exp (-40) < 1 / 2 ^ 54 := by
    have h1 := Real.exp_one_gt_d9
    have h2 : (2 : ℝ) ^ 54 < Real.exp 40 := by
      have h3 : Real.exp 40 = Real.exp 1 ^ 40 := by rw [← Real.exp_nat_mul]; norm_num
      rw [h3]
      calc (2 : ℝ) ^ 54 < 2.7 ^ 40 := by norm_num
        _ ≤ Real.exp 1 ^ 40 := pow_le_pow_left₀ (by norm_num) (by linarith) 40
    rw [Real.exp_neg, ← one_div]
    exact one_div_lt_one_div_of_lt (by positivity) h2
  have hp := Real.exp_pos (-40)
  have re : double.fl (expm1 (-40)) = -1 := by
    change roundDouble _ = _
    rw [show expm1 (-40) = -(1 - Real.exp (-40)) by unfold expm1; ring, roundDouble_neg]
    generalize Real.exp (-40) = d at *
    rw [roundDouble_of (1 - d) (-1) (2 ^ 53) (by norm_num at he ⊢; linarith) (by norm_num; exact hp) (by
      rw [abs_lt]; norm_num at he ⊢; constructor <;> linarith)]
    norm_num
  constructor
  · simp only [corrFl, dispatch, corrMFl, mul_one, r1, one_mul, re, rn]
  · simp only [icorrFl, dispatch, icorrMFl, mul_one, r1, div_one, rn]

/-- **C166**: a lognormal and a normal field. -/
theorem mixed_fl_round_trip (R : Rounding) (E L : ℝ → ℝ) {l : ℝ} (hl : l ≠ 0) (x : ℝ) :
    ∃ y x', corrFl R.fl E (.lognormal l) .normal x = .ok y ∧
      icorrFl R.fl L (.lognormal l) .normal y = .ok x' ∧ |x' - x| ≤ 3 / 2 ^ 53 * |x| := by
  refine ⟨_, _, rfl, rfl, ?_⟩
  have h := (((Rel.fl R (l * x)).div (Rel.refl l)).round R)
  rw [mul_comm l x, mul_div_assoc, div_self hl, mul_one] at h
  have := h.error (e := 3 / 2 ^ 53) (by norm_num) (by norm_num)
  rwa [mul_comm x l] at this

/-! ## Squared normal fields -/

/-- **C166**: two squared normal fields; the error is not relative to the correlation. -/
theorem squared_fl_round_trip_partial (R : Rounding) (E L : ℝ → ℝ) {a a' l l' : ℝ} (ha : 0 ≤ a * a')
    (hl : l ≠ 0) (hl' : l' ≠ 0) {x : ℝ} (hx : 0 ≤ x) :
    ∃ y x', corrFl R.fl E (.squared a l) (.squared a' l') x = .ok y ∧
      icorrFl R.fl L (.squared a l) (.squared a' l') y = .ok x' ∧
      |x' - x| ≤ 10 / 2 ^ 53 * (x + R.fl (a * a')) := by
  refine ⟨_, _, rfl, rfl, ?_⟩
  have hA := R.nonneg ha
  have hT : R.fl (2 * R.fl (l * l')) ≠ 0 := product_ne R two_ne_zero (product_ne R hl hl')
  generalize R.fl (2 * R.fl (l * l')) = T at *
  generalize R.fl (a * a') = A at *
  have h1 := ((rel_add (rel_mono (Nat.zero_le 1) (Rel.refl x)) (Rel.fl R (2 * A)) hx (by linarith)).round R)
  have h2 := ((((Rel.fl R (T * x)).mul h1).round R).div (Rel.refl T)).round R
  have e1 : T * x * (x + 2 * A) / T = x * (x + 2 * A) := by field_simp
  rw [e1] at h2
  have h3 := ((rel_add h2 (rel_mono (by norm_num) (Rel.fl R (A * A))) (by positivity) (by positivity)).round R).sqrt.round R
  have e2 : Real.sqrt (x * (x + 2 * A) + A * A) = x + A := by
    rw [show x * (x + 2 * A) + A * A = (x + A) ^ 2 by ring, Real.sqrt_sq (by linarith)]
  rw [e2] at h3
  have h4 := h3.error (e := 8 / 2 ^ 53) (by norm_num) (by norm_num)
  generalize R.fl (Real.sqrt _) = s at *
  rw [abs_of_nonneg (by linarith : 0 ≤ x + A)] at h4
  have h5 := R.error (s - A)
  have h6 : |s - A - x| ≤ 8 / 2 ^ 53 * (x + A) := by
    rwa [show s - A - x = s - (x + A) by ring]
  have h7 : |s - A| ≤ (x + A) + 8 / 2 ^ 53 * (x + A) := by
    have := abs_sub_abs_le_abs_sub (s - A) x
    rw [abs_of_nonneg hx] at this
    linarith
  have h8 := abs_sub_le (R.fl (s - A)) (s - A) x
  have h9 : |s - A| / 2 ^ 53 ≤ ((x + A) + 8 / 2 ^ 53 * (x + A)) / 2 ^ 53 :=
    div_le_div_of_nonneg_right h7 (by positivity)
  have h10 : ((x + A) + 8 / 2 ^ 53 * (x + A)) / 2 ^ 53 ≤ 2 / 2 ^ 53 * (x + A) := by
    have : ((x + A) + 8 / 2 ^ 53 * (x + A)) / 2 ^ 53 = (1 + 8 / 2 ^ 53) / 2 ^ 53 * (x + A) := by ring
    rw [this]
    exact mul_le_mul_of_nonneg_right (by norm_num) (by linarith)
  have h11 : (2 / 2 ^ 53 : ℝ) * (x + A) + 8 / 2 ^ 53 * (x + A) = 10 / 2 ^ 53 * (x + A) := by ring
  linarith

/-- **C166**, counterexample: in double precision a small correlation of squared normal fields is lost. -/
theorem squared_fl_lost (E L : ℝ → ℝ) : ∃ y,
    corrFl double.fl E (.squared (1 / 2) 1) (.squared (1 / 2) 1) (1 / 2 ^ 60) = .ok y ∧
    icorrFl double.fl L (.squared (1 / 2) 1) (.squared (1 / 2) 1) y = .ok 0 := by
  have r0 : double.fl 0 = 0 := double.zero
  have r1 : double.fl 1 = 1 := double.one
  have r2 : double.fl 2 = 2 := by
    have := double.exact 8 (by norm_num); norm_num at this ⊢; exact this
  have rh : double.fl (1 / 2) = 1 / 2 := by
    have := double.exact 2 (by norm_num); norm_num at this ⊢; exact this
  have rq : double.fl (1 / 4) = 1 / 4 := by
    have := double.exact 1 (by norm_num); norm_num at this ⊢; exact this
  have r59 : double.fl (1 / 2 ^ 59) = 1 / 2 ^ 59 := by
    change roundDouble _ = _
    rw [roundDouble_of _ (-59) (2 ^ 52) (by norm_num) (by norm_num) (by norm_num)]; norm_num
  have r60 : double.fl (1 / 2 ^ 60) = 1 / 2 ^ 60 := by
    change roundDouble _ = _
    rw [roundDouble_of _ (-60) (2 ^ 52) (by norm_num) (by norm_num) (by norm_num)]; norm_num
  have r61 : double.fl (1 / 2 ^ 61) = 1 / 2 ^ 61 := by
    change roundDouble _ = _
    rw [roundDouble_of _ (-61) (2 ^ 52) (by norm_num) (by norm_num) (by norm_num)]; norm_num
  have rs : double.fl (1 / 2 ^ 60 + 1 / 2) = 1 / 2 := by
    change roundDouble _ = _
    rw [roundDouble_of _ (-1) (2 ^ 52) (by norm_num) (by norm_num) (by norm_num [abs_of_pos])]; norm_num
  have rt : double.fl (1 / 2 ^ 61 + 1 / 16) = 1 / 16 := by
    change roundDouble _ = _
    rw [roundDouble_of _ (-4) (2 ^ 52) (by norm_num) (by norm_num) (by norm_num [abs_of_pos])]; norm_num
  have r16 : double.fl (1 / 16) = 1 / 16 := by
    change roundDouble _ = _
    rw [roundDouble_of _ (-4) (2 ^ 52) (by norm_num) (by norm_num) (by norm_num)]; norm_num
  have hsq : Real.sqrt (1 / 16) = 1 / 4 := by
    rw [show (1 / 16 : ℝ) = (1 / 4) ^ 2 by norm_num, Real.sqrt_sq (by norm_num)]
  refine ⟨1 / 2 ^ 60, ?_, ?_⟩
  · simp only [corrFl, dispatch, corrMFl]
    rw [mul_one, r1, mul_one, r2, show (1 / 2 * (1 / 2) : ℝ) = 1 / 4 by norm_num, rq,
      show (2 * (1 / 4) : ℝ) = 1 / 2 by norm_num, rh, rs,
      show (2 * (1 / 2 ^ 60) : ℝ) = 1 / 2 ^ 59 by norm_num, r59,
      show (1 / 2 ^ 59 * (1 / 2) : ℝ) = 1 / 2 ^ 60 by norm_num, r60]
  · simp only [icorrFl, dispatch, icorrMFl]
    rw [mul_one, r1, mul_one, r2, show (1 / 2 * (1 / 2) : ℝ) = 1 / 4 by norm_num, rq,
      show (1 / 4 * (1 / 4) : ℝ) = 1 / 16 by norm_num, r16,
      show (1 / 2 ^ 60 / 2 : ℝ) = 1 / 2 ^ 61 by norm_num, r61, rt, hsq, rq, sub_self, r0]

/-- Concrete case: `expm1` and `log1p` rounded correctly, and correlation 1. -/
example : ∃ y x', corrFl double.fl (fun x => double.fl (expm1 x)) (.lognormal 1) (.lognormal 2) 1 = .ok y ∧
    icorrFl double.fl (fun x => double.fl (log1p x)) (.lognormal 1) (.lognormal 2) y = .ok x' ∧
    |x' - 1| ≤ 7 / 2 ^ 53 * 1 :=
  lognormal_fl_round_trip double ⟨fun x => rel_mono (by norm_num) (Rel.fl double _),
    fun y _ => rel_mono (by norm_num) (Rel.fl double _)⟩ one_ne_zero two_ne_zero zero_le_one

end Glass.Grf
