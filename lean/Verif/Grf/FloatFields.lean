import Verif.Grf.FloatCorr

/-!
# Transformed fields in floating point (C167)

Transformed fields are never below minus the shift parameter, also in floating point.
-/

namespace Glass.Grf

open Glass.Spectra Glass.Lensing Glass.Shells Transformation

/-! ## Model -/

/-- `__call__`, `grf/_transformations.py:26-28, 83-89, 170-175`, with every operation rounded; `E` is `expm1`. -/
noncomputable def callFl (fl E : ℝ → ℝ) : Transformation → ℝ → ℝ → ℝ
  | .normal, x, _ => x
  | .lognormal lam, x, var =>
      let y := E (fl (x - fl (var / 2)))
      if lam ≠ 1 then fl (lam * y) else y
  | .squared a lam, x, _ =>
      let d := fl (x - a)
      let y := fl (fl (d * d) - 1)
      if lam ≠ 1 then fl (lam * y) else y

/-- **C167**: without rounding the model is the exact one. -/
theorem call_fl_real (t : Transformation) (x var : ℝ) : callFl id expm1 t x var = t.call x var := by
  rcases t with _ | l | ⟨a, l⟩ <;> simp [callFl, call, sq]

theorem fl_neg_one (R : Rounding) : R.fl (-1) = -1 := by
  have := R.exact (-4) (by norm_num)
  norm_num at this ⊢
  exact this

theorem scaled_floor (R : Rounding) {lam y : ℝ} (hl : 0 ≤ lam) (hf : R.fl (-lam) = -lam) (hy : -1 ≤ y) :
    -lam ≤ if lam ≠ 1 then R.fl (lam * y) else y := by
  split_ifs with h
  · rw [← hf]
    exact R.mono (by nlinarith)
  · push Not at h
    rw [h]; exact hy

/-! ## Bounds -/

/-- **C167**: a lognormal field is not below minus the shift. -/
theorem lognormal_fl_floor (R : Rounding) {E : ℝ → ℝ} (hE : ∀ x, -1 ≤ E x) {lam : ℝ} (hl : 0 ≤ lam)
    (hf : R.fl (-lam) = -lam) (x var : ℝ) : -lam ≤ callFl R.fl E (.lognormal lam) x var :=
  scaled_floor R hl hf (hE _)

/-- **C167**: a squared normal field is not below minus the shift. -/
theorem squared_fl_floor (R : Rounding) (E : ℝ → ℝ) {lam : ℝ} (hl : 0 ≤ lam) (hf : R.fl (-lam) = -lam)
    (a x var : ℝ) : -lam ≤ callFl R.fl E (.squared a lam) x var := by
  refine scaled_floor R hl hf ?_
  have h1 := R.nonneg (mul_self_nonneg (R.fl (x - a)))
  have h2 := R.mono (show -1 ≤ R.fl (R.fl (x - a) * R.fl (x - a)) - 1 by linarith)
  rwa [fl_neg_one] at h2

/-- **C167**: if the shift is at most one, the density is not negative. -/
theorem density_fl_nonneg (R : Rounding) {E : ℝ → ℝ} (hE : ∀ x, -1 ≤ E x) {lam : ℝ} (hl : 0 ≤ lam)
    (hl1 : lam ≤ 1) (hf : R.fl (-lam) = -lam) (a x var : ℝ) :
    0 ≤ R.fl (1 + callFl R.fl E (.lognormal lam) x var) ∧
    0 ≤ R.fl (1 + callFl R.fl E (.squared a lam) x var) := by
  have h1 := lognormal_fl_floor R hE hl hf x var
  have h2 := squared_fl_floor R E hl hf a x var
  exact ⟨R.nonneg (by linarith), R.nonneg (by linarith)⟩

theorem scaled_mono (R : Rounding) {lam y y' : ℝ} (hl : 0 ≤ lam) (hy : y ≤ y') :
    (if lam ≠ 1 then R.fl (lam * y) else y) ≤ if lam ≠ 1 then R.fl (lam * y') else y' := by
  split_ifs
  · exact R.mono (mul_le_mul_of_nonneg_left hy hl)
  · exact hy

/-- **C167**: larger values of the Gaussian field give values of the transformed field that are not smaller. -/
theorem call_fl_mono (R : Rounding) {E : ℝ → ℝ} (hE : Monotone E) {lam : ℝ} (hl : 0 ≤ lam) (a var : ℝ) {x x' : ℝ}
    (h : x ≤ x') : callFl R.fl E (.lognormal lam) x var ≤ callFl R.fl E (.lognormal lam) x' var ∧
    (a ≤ x → callFl R.fl E (.squared a lam) x var ≤ callFl R.fl E (.squared a lam) x' var) := by
  refine ⟨scaled_mono R hl (hE (R.mono (by linarith))), fun ha => scaled_mono R hl (R.mono ?_)⟩
  have h1 := R.nonneg (show 0 ≤ x - a by linarith)
  have h2 := R.mono (show x - a ≤ x' - a by linarith)
  have := R.mono (mul_le_mul h2 h2 h1 (h1.trans h2))
  linarith

/-- **C167**: the smallest value is reached, although the exact field is larger. -/
theorem lognormal_fl_empty : callFl double.fl (fun x => double.fl (expm1 x)) (.lognormal 1) (-40) 0 = -1 ∧
    -1 < (lognormal 1).call (-40) 0 := by
  have r40 : double.fl (-40) = -40 := by
    have := double.exact (-160) (by norm_num); norm_num at this ⊢; exact this
  have h := (lognormal_fl_infinite id).1
  simp only [corrFl, dispatch, corrMFl, mul_one, double.one, one_mul, Except.ok.injEq] at h
  constructor
  · have hle : double.fl (expm1 (-40)) = -1 := by
      rw [← h]
      change roundDouble _ = roundDouble (roundDouble _)
      rw [Glass.Galaxies.roundDouble_idem]
    simp only [callFl, zero_div, double.zero, sub_zero, r40, ne_eq, not_true_eq_false, if_false]
    exact hle
  · have := Real.exp_pos (-40)
    simp only [call, expm1, ne_eq, not_true_eq_false, if_false, zero_div, sub_zero]
    linarith

/-! ## Errors -/

theorem scaled_rel (R : Rounding) (lam : ℝ) {k : ℕ} {y y' : ℝ} (h : Rel k y y') :
    Rel (k + 1) (lam * y) (if lam ≠ 1 then R.fl (lam * y') else y') := by
  split_ifs with h1
  · have := ((Rel.refl lam).mul h).round R
    rwa [zero_add] at this
  · push Not at h1
    rw [h1, one_mul]
    exact rel_mono (Nat.le_succ _) h

/-- **C167**: the error of a lognormal field. -/
theorem lognormal_fl_error (R : Rounding) {E : ℝ → ℝ} (hE : ∀ x, Rel 2 (expm1 x) (E x)) {lam : ℝ} (hl : 0 ≤ lam)
    (x var : ℝ) (hx : |x| + 2 * |var| ≤ 2 ^ 53) :
    |callFl R.fl E (.lognormal lam) x var - (lognormal lam).call x var| ≤
      lam * ((2 * |x| + 4 * |var| + 12) * Real.exp (x - var / 2) + 4) / 2 ^ 53 := by
  have hcall : (lognormal lam).call x var = lam * expm1 (x - var / 2) := by
    simp only [call]
    split_ifs with h1
    · rfl
    · push Not at h1; rw [h1, one_mul]
  have h := (scaled_rel R lam (hE (R.fl (x - R.fl (var / 2))))).error (e := 4 / 2 ^ 53) (by norm_num)
    (by norm_num)
  change |callFl R.fl E (.lognormal lam) x var - _| ≤ _ at h
  have e1 := R.error (var / 2)
  have e2 := R.error (x - R.fl (var / 2))
  rw [hcall]
  generalize callFl R.fl E (.lognormal lam) x var = c at *
  generalize R.fl (x - R.fl (var / 2)) = d' at *
  generalize R.fl (var / 2) = v at *
  have hv2 : |var / 2| = |var| / 2 := by rw [abs_div]; norm_num
  rw [hv2] at e1
  have a0 := abs_nonneg var
  have a1 : |x - v| ≤ |x| + |var| := by
    have h1 := abs_sub x v
    have h2 := abs_sub_abs_le_abs_sub v (var / 2)
    rw [hv2] at h2
    have h3 : |var| / 2 / 2 ^ 53 ≤ |var| / 2 := div_le_self (by positivity) (by norm_num)
    linarith
  have hd : |d' - (x - var / 2)| ≤ (|x| + 2 * |var|) / 2 ^ 53 := by
    have h3 : d' - (x - var / 2) = (d' - (x - v)) - (v - var / 2) := by ring
    have h4 := abs_sub (d' - (x - v)) (v - var / 2)
    rw [h3]
    have h5 : |x - v| / 2 ^ 53 ≤ (|x| + |var|) / 2 ^ 53 := div_le_div_of_nonneg_right a1 (by positivity)
    have h6 : (|x| + 2 * |var|) / 2 ^ 53 = (|x| + |var|) / 2 ^ 53 + |var| / 2 ^ 53 := by ring
    have h7 : |var| / 2 / 2 ^ 53 ≤ |var| / 2 ^ 53 := div_le_div_of_nonneg_right (by linarith) (by positivity)
    linarith
  generalize x - var / 2 = d at *
  have hp := Real.exp_pos d
  set η := (|x| + 2 * |var|) / 2 ^ 53 with hη
  have hη1 : η ≤ 1 := by rw [hη, div_le_one (by positivity)]; exact hx
  have hη0 : 0 ≤ η := by rw [hη]; positivity
  have h3 : |expm1 d' - expm1 d| ≤ 2 * η * Real.exp d := by
    have e3 : expm1 d' - expm1 d = Real.exp d * (Real.exp (d' - d) - 1) := by
      unfold expm1
      rw [mul_sub, ← Real.exp_add, add_sub_cancel]
      ring
    rw [e3, abs_mul, abs_of_pos hp]
    have := Real.abs_exp_sub_one_le (hd.trans hη1)
    have h4 : |Real.exp (d' - d) - 1| ≤ 2 * η := by linarith
    have := mul_le_mul_of_nonneg_left h4 hp.le
    linarith
  have h5 : |expm1 d| ≤ Real.exp d + 1 := by
    unfold expm1
    rw [abs_le]; constructor <;> linarith
  have h6 : |expm1 d'| ≤ 3 * Real.exp d + 1 := by
    have h7 := abs_sub_abs_le_abs_sub (expm1 d') (expm1 d)
    have h8 : 2 * η * Real.exp d ≤ 2 * Real.exp d := mul_le_mul_of_nonneg_right (by linarith) hp.le
    linarith
  have h9 := abs_sub_le c (lam * expm1 d') (lam * expm1 d)
  rw [← mul_sub, abs_mul lam, abs_of_nonneg hl] at h9
  rw [abs_mul, abs_of_nonneg hl] at h
  have h10 := mul_le_mul_of_nonneg_left h3 hl
  have h11 : (4 / 2 ^ 53 : ℝ) * (lam * |expm1 d'|) ≤ 4 / 2 ^ 53 * (lam * (3 * Real.exp d + 1)) :=
    mul_le_mul_of_nonneg_left (mul_le_mul_of_nonneg_left h6 hl) (by norm_num)
  calc |c - lam * expm1 d| ≤ 4 / 2 ^ 53 * (lam * (3 * Real.exp d + 1)) + lam * (2 * η * Real.exp d) := by
        linarith
    _ = _ := by rw [hη]; ring

/-- **C167**: the error of a squared normal field. -/
theorem squared_fl_error (R : Rounding) (E : ℝ → ℝ) {lam : ℝ} (hl : 0 ≤ lam) (a x var : ℝ) :
    |callFl R.fl E (.squared a lam) x var - (squared a lam).call x var| ≤
      lam * (8 * ((x - a) ^ 2 + 1)) / 2 ^ 53 := by
  have hcall : (squared a lam).call x var = lam * ((x - a) ^ 2 - 1) := by
    simp only [call]
    split_ifs with h1
    · rfl
    · push Not at h1; rw [h1, one_mul]
  have h1 := (((Rel.fl R (x - a)).mul (Rel.fl R (x - a))).round R).error (e := 4 / 2 ^ 53) (by norm_num)
    (by norm_num)
  have h2 := (scaled_rel R lam (Rel.fl R (R.fl (R.fl (x - a) * R.fl (x - a)) - 1))).error (e := 3 / 2 ^ 53)
    (by norm_num) (by norm_num)
  change |callFl R.fl E (.squared a lam) x var - _| ≤ _ at h2
  rw [hcall]
  generalize callFl R.fl E (.squared a lam) x var = c at *
  generalize R.fl (R.fl (x - a) * R.fl (x - a)) = s' at *
  rw [← sq] at h1
  have hs := sq_nonneg (x - a)
  generalize (x - a) ^ 2 = s at *
  rw [abs_of_nonneg hs] at h1
  rw [abs_mul, abs_of_nonneg hl] at h2
  have h3 : |s' - 1| ≤ s + 1 + 4 / 2 ^ 53 * s := by
    rw [abs_le] at h1 ⊢
    constructor <;> linarith [h1.1, h1.2]
  have h4 : |lam * (s' - 1) - lam * (s - 1)| ≤ lam * (4 / 2 ^ 53 * s) := by
    rw [← mul_sub, abs_mul, abs_of_nonneg hl]
    refine mul_le_mul_of_nonneg_left ?_ hl
    rwa [show s' - 1 - (s - 1) = s' - s by ring]
  have h5 := abs_sub_le c (lam * (s' - 1)) (lam * (s - 1))
  have h6 : (3 / 2 ^ 53 : ℝ) * (lam * |s' - 1|) ≤ 3 / 2 ^ 53 * (lam * (s + 1 + 4 / 2 ^ 53 * s)) :=
    mul_le_mul_of_nonneg_left (mul_le_mul_of_nonneg_left h3 hl) (by norm_num)
  have h7 : (3 / 2 ^ 53 : ℝ) * (s + 1 + 4 / 2 ^ 53 * s) + 4 / 2 ^ 53 * s ≤ 8 * (s + 1) / 2 ^ 53 := by
    norm_num; linarith
  have h8 := mul_le_mul_of_nonneg_left h7 hl
  calc |c - lam * (s - 1)| ≤ lam * ((3 / 2 ^ 53 : ℝ) * (s + 1 + 4 / 2 ^ 53 * s) + 4 / 2 ^ 53 * s) := by
        linarith
    _ ≤ lam * (8 * (s + 1) / 2 ^ 53) := h8
    _ = _ := by ring

/-- Concrete case: the shift one half. -/
example (x var : ℝ) : -(1 / 2) ≤ callFl double.fl (fun x => double.fl (expm1 x)) (.lognormal (1 / 2)) x var := by
  refine lognormal_fl_floor double (fun x => ?_) (by norm_num) ?_ x var
  · have h := double.mono (show -1 ≤ expm1 x by unfold expm1; linarith [Real.exp_pos x])
    rwa [fl_neg_one] at h
  · have := double.exact (-2) (by norm_num)
    norm_num at this ⊢
    exact this

end Glass.Grf
