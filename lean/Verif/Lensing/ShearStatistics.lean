import Mathlib.MeasureTheory.Integral.Bochner.Basic
import Mathlib.MeasureTheory.Measure.Dirac
import Mathlib.Analysis.Complex.Basic
import Mathlib.MeasureTheory.Integral.DominatedConvergence
import Mathlib.Tactic.Positivity
import Mathlib.Tactic.FieldSimp
import Verif.Lensing.ConvergenceProps

/-!
# Spectra of lensing maps (C132)

The spectra of the potential, deflection and shear that `from_convergence` computes, given those of
the convergence.
-/

namespace Glass.Lensing

open MeasureTheory

/-! ## Factors -/

/-- The factor of the potential at angular mode number `l`. -/
noncomputable def potentialFactor (l : ℕ) : ℝ := -2 / ((l : ℝ) * (l + 1))

/-- The factor of the deflection. -/
noncomputable def deflectionFactor (l : ℕ) : ℝ := -2 / Real.sqrt ((l : ℝ) * (l + 1))

/-- The factor of the shear. -/
noncomputable def shearFactor (l : ℕ) : ℝ :=
  -Real.sqrt (((l : ℝ) + 2) * (l - 1) / ((l : ℝ) * (l + 1)))

/-- The ratio of the pixel window functions if requested. -/
noncomputable def windowRatio {M : Type} (hp : Healpix M) (nside L : ℕ) (discretized : Bool)
    (l : ℕ) : ℝ :=
  if discretized then (hp.pixwin nside L).2 l / (hp.pixwin nside L).1 l else 1

/-- **C132**: the shear has no monopole and dipole, and its power is below that of the convergence,
with a difference of `2 / (l (l + 1))`. -/
theorem shear_factor_sq (l : ℕ) :
    shearFactor 0 = 0 ∧ shearFactor 1 = 0 ∧
    (1 ≤ l → shearFactor l ^ 2 = 1 - 2 / ((l : ℝ) * (l + 1))) := by
  refine ⟨by simp [shearFactor], by simp [shearFactor], fun hl => ?_⟩
  have h1 : (1 : ℝ) ≤ l := by exact_mod_cast hl
  have h2 : 0 ≤ ((l : ℝ) + 2) * (l - 1) / ((l : ℝ) * (l + 1)) :=
    div_nonneg (mul_nonneg (by linarith) (by linarith)) (by positivity)
  rw [shearFactor, neg_sq, Real.sq_sqrt h2]
  field_simp
  ring

/-- The squares of the other factors. -/
theorem potential_factor_sq (l : ℕ) :
    potentialFactor l ^ 2 = 4 / ((l : ℝ) * (l + 1)) ^ 2 ∧
    deflectionFactor l ^ 2 = 4 / ((l : ℝ) * (l + 1)) := by
  constructor
  · rw [potentialFactor, div_pow]; norm_num
  · rw [deflectionFactor, div_pow, Real.sq_sqrt (by positivity)]; norm_num

/-- **C132**: the modes of the three maps are the modes of the convergence times the factors, and
there are no B modes. -/
theorem from_convergence_modes {M : Type} (hp : Healpix M) (kappa : M) (lmax : Option ℕ)
    (potential deflection shear discretized : Bool) :
    let nside := hp.getNside kappa
    let L := lmax.getD (3 * nside - 1)
    let klm := hp.map2alm kappa L
    fromConvergence hp kappa lmax potential deflection shear discretized =
      (if potential then [LensMap.real (hp.alm2map (almxfl klm potentialFactor) nside L)] else []) ++
      (if deflection then
        [LensMap.complex (hp.alm2mapSpin (almxfl klm deflectionFactor) (fun _ _ => 0) nside 1 L).1
        (hp.alm2mapSpin (almxfl klm deflectionFactor) (fun _ _ => 0) nside 1 L).2] else []) ++
      (if shear then
        [LensMap.complex (hp.alm2mapSpin (almxfl klm fun l => shearFactor l *
          windowRatio hp nside L discretized l) (fun _ _ => 0) nside 2 L).1
        (hp.alm2mapSpin (almxfl klm fun l => shearFactor l *
          windowRatio hp nside L discretized l) (fun _ _ => 0) nside 2 L).2] else []) := by
  intro nside L klm
  obtain ⟨psi, alpha, gamma, h0, h1, h2, h3, h4⟩ := from_convergence_spec hp kappa lmax discretized
  have e1 : psi = almxfl klm potentialFactor := by
    funext l m
    unfold almxfl potentialFactor
    rcases Nat.eq_zero_or_pos l with rfl | hl
    · simp [h0]
    · have h := h1 l m hl
      have hl0 : (l : ℂ) ≠ 0 := by exact_mod_cast hl.ne'
      have hl1 : (l : ℂ) + 1 ≠ 0 := by exact_mod_cast Nat.succ_ne_zero l
      push_cast
      field_simp
      linear_combination h
  have hs : ∀ l : ℕ, Real.sqrt ((l : ℝ) * (l + 1)) * potentialFactor l = deflectionFactor l := by
    intro l
    unfold potentialFactor deflectionFactor
    rcases Nat.eq_zero_or_pos l with rfl | hl
    · simp
    · have h1 : (0 : ℝ) < (l : ℝ) := by exact_mod_cast hl
      have h2 : 0 < Real.sqrt ((l : ℝ) * (l + 1)) := Real.sqrt_pos.2 (by positivity)
      have h3 : Real.sqrt ((l : ℝ) * (l + 1)) ^ 2 = (l : ℝ) * (l + 1) := Real.sq_sqrt (by positivity)
      rw [eq_div_iff h2.ne', mul_right_comm, ← sq, h3]
      field_simp
  have e2 : alpha = almxfl klm deflectionFactor := by
    funext l m
    rw [h2, e1]
    unfold almxfl
    rw [← hs l]
    push_cast
    ring
  have ht : ∀ l : ℕ, Real.sqrt (((l : ℝ) + 2) * (l + 1) * l * (l - 1)) * potentialFactor l =
      2 * shearFactor l := by
    intro l
    unfold potentialFactor shearFactor
    rcases Nat.eq_zero_or_pos l with rfl | hl
    · simp
    · have h1 : (1 : ℝ) ≤ (l : ℝ) := by exact_mod_cast hl
      have hp0 : (0 : ℝ) < (l : ℝ) * (l + 1) := by positivity
      have e : ((l : ℝ) + 2) * (l - 1) / ((l : ℝ) * (l + 1)) =
          ((l : ℝ) + 2) * (l + 1) * l * (l - 1) / ((l : ℝ) * (l + 1)) ^ 2 := by
        field_simp
      rw [e, Real.sqrt_div (mul_nonneg (by positivity) (by linarith)), Real.sqrt_sq hp0.le]
      ring
  have e3 : gamma = almxfl klm fun l => shearFactor l * windowRatio hp nside L discretized l := by
    funext l m
    have h := h3 l m
    rw [e1] at h
    unfold almxfl windowRatio at *
    have h2 : (2 : ℂ) ≠ 0 := two_ne_zero
    have ht' : ((Real.sqrt (((l : ℝ) + 2) * (l + 1) * l * (l - 1)) : ℝ) : ℂ) * (potentialFactor l : ℂ) =
        2 * (shearFactor l : ℂ) := by
      rw [← Complex.ofReal_mul, ht]
      push_cast
      rfl
    apply mul_left_cancel₀ h2
    rw [h]
    cases discretized
    · simp only [Bool.false_eq_true, if_false, mul_one]
      linear_combination klm l m * ht'
    · simp only [if_true]
      rw [Complex.ofReal_mul]
      linear_combination
        klm l m * (((hp.pixwin nside L).2 l / (hp.pixwin nside L).1 l : ℝ) : ℂ) * ht'
  rw [h4, e1, e2, e3]

/-! ## Spectra -/

variable {Ω : Type*} [MeasurableSpace Ω] {μ : Measure Ω}

/-- The covariance of two random modes. -/
noncomputable def modeCovariance (μ : Measure Ω) (a b : Ω → ℂ) : ℂ := ∫ ω, a ω * (starRingEnd ℂ) (b ω) ∂μ

theorem modeCovariance_scale (a b : Ω → ℂ) (s t : ℝ) :
    modeCovariance μ (fun ω => a ω * (s : ℂ)) (fun ω => b ω * (t : ℂ)) =
      ((s * t : ℝ) : ℂ) * modeCovariance μ a b := by
  unfold modeCovariance
  rw [← integral_const_mul]
  congr 1
  funext ω
  rw [map_mul, Complex.conj_ofReal]
  push_cast
  ring

/-- **C132**: the spectra of lensing maps.  Let convergence maps be random, for two sources say, and
let their modes have the covariance of a spectrum `C`.  Then the modes of the shear maps have the
covariance of the spectrum `(1 - 2 / (l (l + 1))) C_l` (times the square of the ratio of the pixel
window functions, if requested), those of the deflection `4 / (l (l + 1)) C_l` and those of the
potential `4 / (l (l + 1))² C_l`. -/
theorem lensing_spectra {M : Type} (hp : Healpix M) (nside L : ℕ) (discretized : Bool)
    (kappa kappa' : Ω → M) (C : ℕ → ℂ)
    (hC : ∀ l m l' m', modeCovariance μ (fun ω => hp.map2alm (kappa ω) L l m)
      (fun ω => hp.map2alm (kappa' ω) L l' m') = if l = l' ∧ m = m' then C l else 0) :
    let modes := fun (f : ℕ → ℝ) (k : Ω → M) (l m : ℕ) (ω : Ω) => almxfl (hp.map2alm (k ω) L) f l m
    let shear := fun l => shearFactor l * windowRatio hp nside L discretized l
    ∀ l m l' m',
      modeCovariance μ (modes shear kappa l m) (modes shear kappa' l' m') =
        (if l = l' ∧ m = m' then (((if l = 0 then 0 else 1 - 2 / ((l : ℝ) * (l + 1))) *
          windowRatio hp nside L discretized l ^ 2 : ℝ) : ℂ) * C l else 0) ∧
      modeCovariance μ (modes deflectionFactor kappa l m) (modes deflectionFactor kappa' l' m') =
        (if l = l' ∧ m = m' then ((4 / ((l : ℝ) * (l + 1)) : ℝ) : ℂ) * C l else 0) ∧
      modeCovariance μ (modes potentialFactor kappa l m) (modes potentialFactor kappa' l' m') =
        (if l = l' ∧ m = m' then ((4 / ((l : ℝ) * (l + 1)) ^ 2 : ℝ) : ℂ) * C l else 0) ∧
      modeCovariance μ (modes (fun _ => 1) kappa l m) (modes shear kappa' l' m') =
        (if l = l' ∧ m = m' then
          ((shearFactor l * windowRatio hp nside L discretized l : ℝ) : ℂ) * C l else 0) := by
  intro modes shear l m l' m'
  have key : ∀ f g : ℕ → ℝ, modeCovariance μ (modes f kappa l m) (modes g kappa' l' m') =
      if l = l' ∧ m = m' then ((f l * g l : ℝ) : ℂ) * C l else 0 := by
    intro f g
    show modeCovariance μ (fun ω => hp.map2alm (kappa ω) L l m * ((f l : ℝ) : ℂ))
      (fun ω => hp.map2alm (kappa' ω) L l' m' * ((g l' : ℝ) : ℂ)) = _
    rw [modeCovariance_scale, hC]
    split_ifs with h
    · rw [h.1]
    · simp
  refine ⟨?_, ?_, ?_, ?_⟩
  · rw [key]
    split_ifs with h h0
    · simp [shear, h0, (shear_factor_sq 0).1]
    · congr 2
      have := (shear_factor_sq l).2.2 (by omega)
      simp only [shear]
      rw [← this]
      ring
    · rfl
  · rw [key, ← sq, (potential_factor_sq l).2]
  · rw [key, ← sq, (potential_factor_sq l).1]
  · rw [key]
    simp only [one_mul, shear]

/-- A quadrupole has two thirds of its power in the shear. -/
example : shearFactor 2 ^ 2 = 2 / 3 := by
  rw [(shear_factor_sq 2).2.2 (by norm_num)]
  norm_num

end Glass.Lensing
