import Verif.Shells.WeightsProps
import Verif.Shells.FloatAverages
import Verif.Lensing.FloatPlanes

/-!
# Intrinsic alignments in floating point (C172)

The convergence of the non-linear alignment model with every operation rounded.
-/

namespace Glass.Shells

open Glass Glass.Spectra Glass.Lensing

/-! ## Model -/

/-- `galaxies.py:532-544` with every operation rounded; `pw` is the power. -/
noncomputable def kappaIaNlaFl (fl : ℝ → ℝ) (pw : ℝ → ℝ → ℝ) (c : Cosmology)
    (delta zeff aIa z0 eta lbar l0 beta : ℝ) : ℝ :=
  let c1 := fl (fl 5e-14 / fl (c.h * c.h))
  let rhoC1 := fl (c1 * c.criticalDensity0)
  let prefactor := fl (fl (-aIa * rhoC1) * c.omegaM0)
  let inverseLinearGrowth := fl (1 / c.growth zeff)
  let redshiftDependence := pw (fl (fl (1 + zeff) / fl (1 + z0))) eta
  let luminosityDependence := pw (fl (lbar / l0)) beta
  let fNla := fl (fl (fl (prefactor * inverseLinearGrowth) * redshiftDependence) * luminosityDependence)
  fl (delta * fNla)

/-- The power has a relative error of two units. -/
def PowerAccurate (pw : ℝ → ℝ → ℝ) : Prop := ∀ x y, 0 ≤ x → Rel 2 (x ^ y) (pw x y)

/-- **C172**: without rounding this is the exact model. -/
theorem kappa_ia_fl_real (c : Cosmology) (delta zeff a z0 eta lbar l0 beta : ℝ) :
    kappaIaNlaFl id (· ^ ·) c delta zeff a z0 eta lbar l0 beta =
      kappaIaNla c delta zeff a z0 eta lbar l0 beta := by
  simp only [kappaIaNlaFl, kappaIaNla, id, sq]

/-! ## Powers -/

/-- A power multiplies the number of relative errors by its exponent. -/
theorem rel_rpow {k : ℕ} {x y : ℝ} (h : Rel k x y) (hx : 0 ≤ x) (e : ℝ) :
    Rel ⌈(k : ℝ) * |e|⌉₊ (x ^ e) (y ^ e) := by
  obtain ⟨a, rfl, h1, h2⟩ := h
  have p0 : (0 : ℝ) < 1 - 1 / 2 ^ 53 := by norm_num
  have p1 : (1 - 1 / 2 ^ 53 : ℝ) < 1 := by norm_num
  unfold Lensing.Rel
  generalize (1 - 1 / 2 ^ 53 : ℝ) = q at *
  have q1 : 0 < q ^ k := by positivity
  have a0 : 0 < a := q1.trans_le h1
  have hq : Real.log q < 0 := Real.log_neg p0 p1
  have l1 : k * Real.log q ≤ Real.log a := by
    rw [← Real.log_pow]; exact Real.log_le_log q1 h1
  have l2 : Real.log a ≤ -(k * Real.log q) := by
    rw [← Real.log_pow, ← Real.log_inv]; exact Real.log_le_log a0 h2
  have hm : |Real.log a * e| ≤ -(⌈(k : ℝ) * |e|⌉₊ * Real.log q) := by
    rw [abs_mul]
    have h3 : |Real.log a| ≤ -(k * Real.log q) := abs_le.2 ⟨by linarith, l2⟩
    calc |Real.log a| * |e| ≤ -(k * Real.log q) * |e| := mul_le_mul_of_nonneg_right h3 (abs_nonneg e)
      _ = (k * |e|) * -Real.log q := by ring
      _ ≤ ⌈(k : ℝ) * |e|⌉₊ * -Real.log q := mul_le_mul_of_nonneg_right (Nat.le_ceil _) (by linarith)
      _ = _ := by ring
  generalize ⌈(k : ℝ) * |e|⌉₊ = m at *
  have hqm : q ^ m = Real.exp (m * Real.log q) := by
    rw [← Real.log_pow, Real.exp_log (by positivity)]
  rw [abs_le] at hm
  refine ⟨a ^ e, Real.mul_rpow hx a0.le, ?_, ?_⟩
  · rw [hqm, Real.rpow_def_of_pos a0]
    exact Real.exp_le_exp.2 (by linarith)
  · rw [hqm, ← Real.exp_neg, Real.rpow_def_of_pos a0]
    exact Real.exp_le_exp.2 hm.2

theorem rel_trans {j k : ℕ} {x y z : ℝ} (h : Rel j x y) (h' : Rel k y z) : Rel (j + k) x z := by
  obtain ⟨a, rfl, h1, h2⟩ := h
  obtain ⟨b, rfl, h3, h4⟩ := h'
  obtain ⟨d, hd, h5, h6⟩ := (show Rel j 1 a from ⟨a, by simp, h1, h2⟩).mul
    (show Rel k 1 b from ⟨b, by simp, h3, h4⟩)
  exact ⟨d, by rw [mul_assoc, hd]; ring, h5, h6⟩

/-! ## The convergence -/

/-- The number of relative errors for powers `eta` and `beta`. -/
noncomputable def alignmentErrors (eta beta : ℝ) : ℕ := 15 + ⌈3 * |eta|⌉₊ + ⌈|beta|⌉₊

theorem kappa_ia_fl_rel (R : Rounding) {pw : ℝ → ℝ → ℝ} (hp : PowerAccurate pw) (c : Cosmology)
    {delta zeff a z0 eta lbar l0 beta : ℝ} (hz : 0 ≤ 1 + zeff) (hz0 : 0 ≤ 1 + z0) (hl : 0 ≤ lbar) (hl0 : 0 ≤ l0) :
    Rel (alignmentErrors eta beta) (kappaIaNla c delta zeff a z0 eta lbar l0 beta)
      (kappaIaNlaFl R.fl pw c delta zeff a z0 eta lbar l0 beta) := by
  have h1 : Rel 3 (5e-14 / (c.h * c.h)) (R.fl (R.fl 5e-14 / R.fl (c.h * c.h))) :=
    ((Rel.fl R _).div (Rel.fl R _)).round R
  have h2 := (h1.mul (Rel.refl c.criticalDensity0)).round R
  have h3 := ((((Rel.refl (-a)).mul h2).round R).mul (Rel.refl c.omegaM0)).round R
  have h4 := Rel.fl R (1 / c.growth zeff)
  have h5 : Rel 3 ((1 + zeff) / (1 + z0)) (R.fl (R.fl (1 + zeff) / R.fl (1 + z0))) :=
    ((Rel.fl R _).div (Rel.fl R _)).round R
  have h6 := Rel.fl R (lbar / l0)
  have h7 := rel_trans (rel_rpow h5 (by positivity) eta)
    (hp _ eta (R.nonneg (div_nonneg (R.nonneg hz) (R.nonneg hz0))))
  have h8 := rel_trans (rel_rpow h6 (by positivity) beta) (hp _ beta (R.nonneg (by positivity)))
  have h9 := ((Rel.refl delta).mul ((((((h3.mul h4).round R).mul h7).round R).mul h8).round R)).round R
  simp only [kappaIaNlaFl, kappaIaNla, sq]
  refine rel_mono ?_ h9
  simp only [alignmentErrors, Nat.cast_one, one_mul, Nat.cast_ofNat]
  omega

/-- **C172**: the relative error of the convergence. -/
theorem kappa_ia_fl_error (R : Rounding) {pw : ℝ → ℝ → ℝ} (hp : PowerAccurate pw) (c : Cosmology)
    {delta zeff a z0 eta lbar l0 beta : ℝ} (hz : 0 ≤ 1 + zeff) (hz0 : 0 ≤ 1 + z0) (hl : 0 ≤ lbar) (hl0 : 0 ≤ l0)
    (hk : 2 * alignmentErrors eta beta ≤ 2 ^ 53) :
    |kappaIaNlaFl R.fl pw c delta zeff a z0 eta lbar l0 beta - kappaIaNla c delta zeff a z0 eta lbar l0 beta| ≤
      2 * alignmentErrors eta beta / 2 ^ 53 * |kappaIaNla c delta zeff a z0 eta lbar l0 beta| :=
  rel_error (kappa_ia_fl_rel R hp c hz hz0 hl hl0) hk

/-- **C172**: with the default powers the relative error is at most `30 / 2 ^ 53`. -/
theorem kappa_ia_fl_default (R : Rounding) {pw : ℝ → ℝ → ℝ} (hp : PowerAccurate pw) (c : Cosmology)
    {delta zeff a : ℝ} (hz : 0 ≤ 1 + zeff) :
    |kappaIaNlaFl R.fl pw c delta zeff a 0 0 0 1e-9 0 - kappaIaNla c delta zeff a| ≤
      30 / 2 ^ 53 * |kappaIaNla c delta zeff a| := by
  have h := kappa_ia_fl_error R hp c (delta := delta) (a := a) (eta := 0) (beta := 0) (z0 := 0) (lbar := 0)
    (l0 := 1e-9) hz (by norm_num) le_rfl (by norm_num) (by norm_num [alignmentErrors])
  norm_num [alignmentErrors] at h ⊢
  exact h

/-- **C172**: the sign of the convergence is that of the exact one. -/
theorem kappa_ia_fl_sign (R : Rounding) {pw : ℝ → ℝ → ℝ} (hp : PowerAccurate pw) (c : Cosmology)
    {delta zeff a z0 eta lbar l0 beta : ℝ} (hz : 0 ≤ 1 + zeff) (hz0 : 0 ≤ 1 + z0) (hl : 0 ≤ lbar) (hl0 : 0 ≤ l0) :
    SignType.sign (kappaIaNlaFl R.fl pw c delta zeff a z0 eta lbar l0 beta) =
      SignType.sign (kappaIaNla c delta zeff a z0 eta lbar l0 beta) := by
  obtain ⟨d, hd, h1, -⟩ := kappa_ia_fl_rel R hp c (delta := delta) (a := a) (eta := eta) (beta := beta) hz hz0 hl hl0
  have d0 : 0 < d := lt_of_lt_of_le (pow_pos (by norm_num) _) h1
  rw [hd, sign_mul, sign_pos d0, mul_one]

/-- The correctly rounded power is accurate. -/
theorem double_power : PowerAccurate fun x y => double.fl (x ^ y) := fun _ _ _ =>
  rel_mono (by norm_num) (Rel.fl double _)

example (c : Cosmology) : |kappaIaNlaFl double.fl (fun x y => double.fl (x ^ y)) c 1 1 1 0 0 0 1e-9 0 -
    kappaIaNla c 1 1 1| ≤ 30 / 2 ^ 53 * |kappaIaNla c 1 1 1| :=
  kappa_ia_fl_default double double_power c (by norm_num)

end Glass.Shells
