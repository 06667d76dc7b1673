import Mathlib.Tactic.LinearCombination
import Mathlib.Tactic.Positivity
import Verif.Lensing.Model

/-! # Properties C53 and C54: lensing maps from the convergence -/

namespace Glass.Lensing

/-- **C53**: there are modes `psi`, `alpha`, `gamma` that obey the spin-harmonic relations, and that
do not depend on which maps are requested, such that the result is exactly the list of the requested
maps in the order potential, deflection, shear. -/
theorem from_convergence_spec {M : Type} (hp : Healpix M) (kappa : M) (lmax : Option ℕ)
    (discretized : Bool) :
    let nside := hp.getNside kappa
    let L := lmax.getD (3 * nside - 1)
    let klm := hp.map2alm kappa L
    ∃ psi alpha gamma : Alm,
      (∀ m, psi 0 m = 0) ∧
      (∀ l m, 0 < l → 2 * klm l m = -((l : ℂ) * (l + 1)) * psi l m) ∧
      (∀ l m, alpha l m = (Real.sqrt ((l : ℝ) * (l + 1)) : ℂ) * psi l m) ∧
      (∀ l m, 2 * gamma l m =
        (Real.sqrt (((l : ℝ) + 2) * (l + 1) * l * (l - 1)) : ℂ) * psi l m *
          (if discretized then
            (((hp.pixwin nside L).2 l / (hp.pixwin nside L).1 l : ℝ) : ℂ) else 1)) ∧
      ∀ potential deflection shear : Bool,
        fromConvergence hp kappa lmax potential deflection shear discretized =
          (if potential then [LensMap.real (hp.alm2map psi nside L)] else []) ++
          (if deflection then [LensMap.complex (hp.alm2mapSpin alpha (fun _ _ => 0) nside 1 L).1
            (hp.alm2mapSpin alpha (fun _ _ => 0) nside 1 L).2] else []) ++
          (if shear then [LensMap.complex (hp.alm2mapSpin gamma (fun _ _ => 0) nside 2 L).1
            (hp.alm2mapSpin gamma (fun _ _ => 0) nside 2 L).2] else []) := by
  intro nside L klm
  let psi : Alm := almxfl klm fun l : ℕ =>
    if (0 : ℝ) < (l : ℝ) then -2 / ((l : ℝ) * ((l : ℝ) + 1)) else 0
  let alpha : Alm := almxfl psi fun l : ℕ => Real.sqrt ((l : ℝ) * ((l : ℝ) + 1))
  let fl : ℕ → ℝ := fun l =>
    (if (0 : ℝ) < (l : ℝ) then Real.sqrt (((l : ℝ) - 1) * ((l : ℝ) + 2)) else 0) / 2
  let gamma : Alm := almxfl alpha (if discretized then
    fun l => fl l * ((hp.pixwin nside L).2 l / (hp.pixwin nside L).1 l) else fl)
  refine ⟨psi, alpha, gamma, ?_, ?_, ?_, ?_, ?_⟩
  · intro m; simp [psi, almxfl]
  · intro l m hl
    have h1 : (0 : ℝ) < (l : ℝ) := by exact_mod_cast hl
    have h2 : (l : ℂ) ≠ 0 := by exact_mod_cast hl.ne'
    have h3 : (l : ℂ) + 1 ≠ 0 := by exact_mod_cast Nat.succ_ne_zero l
    simp only [psi, almxfl, if_pos h1]
    push_cast
    field_simp
  · intro l m
    simp only [alpha, almxfl]
    ring
  · intro l m
    have hfl : 2 * (((Real.sqrt ((l : ℝ) * ((l : ℝ) + 1)) : ℝ) : ℂ) * ((fl l : ℝ) : ℂ)) =
        ((Real.sqrt (((l : ℝ) + 2) * (l + 1) * l * (l - 1)) : ℝ) : ℂ) := by
      rw [← Complex.ofReal_mul, ← Complex.ofReal_ofNat, ← Complex.ofReal_mul]
      congr 1
      simp only [fl]
      rcases Nat.eq_zero_or_pos l with rfl | hl
      · simp
      · have h1 : (0 : ℝ) < (l : ℝ) := by exact_mod_cast hl
        have h2 : (0 : ℝ) ≤ (l : ℝ) - 1 := by
          have : (1 : ℝ) ≤ l := by exact_mod_cast hl
          linarith
        rw [if_pos h1]
        have : ((l : ℝ) + 2) * (l + 1) * l * (l - 1) =
            ((l : ℝ) * (l + 1)) * ((l - 1) * (l + 2)) := by ring
        rw [this, Real.sqrt_mul (x := (l : ℝ) * (l + 1)) (by positivity) ((l - 1) * (l + 2))]
        ring
    cases discretized with
    | false =>
      simp only [gamma, alpha, almxfl, Bool.false_eq_true, if_false]
      linear_combination psi l m * hfl
    | true =>
      simp only [gamma, alpha, almxfl, if_true]
      rw [Complex.ofReal_mul]
      linear_combination
        psi l m * (((hp.pixwin nside L).2 l / (hp.pixwin nside L).1 l : ℝ) : ℂ) * hfl
  · intro potential deflection shear
    cases potential <;> cases deflection <;> cases shear <;> rfl

/-- The maps do not depend on which others are requested: asking for everything and for one map
gives the same map. -/
theorem from_convergence_independent {M : Type} (hp : Healpix M) (kappa : M) (lmax : Option ℕ)
    (discretized : Bool) :
    fromConvergence hp kappa lmax true true true discretized =
      fromConvergence hp kappa lmax true false false discretized ++
      fromConvergence hp kappa lmax false true false discretized ++
      fromConvergence hp kappa lmax false false true discretized := by
  obtain ⟨psi, alpha, gamma, -, -, -, -, h⟩ := from_convergence_spec hp kappa lmax discretized
  rw [h, h, h, h]
  rfl

/-- The factor by which `shear_from_convergence` multiplies a mode. -/
theorem shear_factor (l : ℕ) :
    Real.sqrt (((((l : ℤ) + 2) * ((l : ℤ) + 1) * (l : ℤ) * ((l : ℤ) - 1) : ℤ) : ℝ)) /
        ((max ((l : ℤ) * ((l : ℤ) + 1)) 1 : ℤ) : ℝ) * (-1) =
      (if (0 : ℝ) < (l : ℝ) then -2 / ((l : ℝ) * ((l : ℝ) + 1)) else 0) *
        Real.sqrt ((l : ℝ) * ((l : ℝ) + 1)) *
        ((if (0 : ℝ) < (l : ℝ) then Real.sqrt (((l : ℝ) - 1) * ((l : ℝ) + 2)) else 0) / 2) := by
  rcases Nat.eq_zero_or_pos l with rfl | hl
  · simp
  · have h1 : (0 : ℝ) < (l : ℝ) := by exact_mod_cast hl
    have hm : max ((l : ℤ) * ((l : ℤ) + 1)) 1 = (l : ℤ) * ((l : ℤ) + 1) := by
      apply max_eq_left
      have : (1 : ℤ) ≤ l := by exact_mod_cast hl
      nlinarith
    rw [hm, if_pos h1, if_pos h1]
    push_cast
    have : ((l : ℝ) + 2) * (l + 1) * l * (l - 1) =
        ((l : ℝ) * (l + 1)) * ((l - 1) * (l + 2)) := by ring
    rw [this, Real.sqrt_mul (by positivity)]
    field_simp

/-- **C54**: `shear_from_convergence` returns the real and imaginary part of the shear map of
`from_convergence`. -/
theorem shear_from_convergence_agrees {M : Type} (hp : Healpix M) (kappa : M) (lmax : Option ℕ)
    (discretized : Bool) :
    fromConvergence hp kappa lmax false false true discretized =
      [LensMap.complex (shearFromConvergence hp kappa lmax discretized).1
        (shearFromConvergence hp kappa lmax discretized).2] := by
  have key : ∀ (alm : Alm) (f g h k : ℕ → ℝ), (∀ l, k l = f l * g l * h l) →
      almxfl (almxfl (almxfl alm f) g) h = almxfl alm k := by
    intro alm f g h k hk
    funext l m
    simp only [almxfl]
    rw [hk]
    push_cast
    ring
  simp only [fromConvergence, shearFromConvergence, Bool.or_self, Bool.or_true, Bool.not_true,
    Bool.false_eq_true, if_false, List.nil_append]
  cases discretized with
  | false =>
    simp only [Bool.false_eq_true, if_false]
    rw [key _ _ _ _ _ shear_factor]
  | true =>
    simp only [if_true]
    rw [key _ _ _ _ _ fun l => ?_]
    rw [shear_factor]
    ring

/-- The order of the result, with modes that are multiplied up: a toy `healpy` whose maps are
functions of one mode. -/
example : fromConvergence (M := ℂ) ⟨fun _ => 1, fun k _ => fun _ _ => k, fun a _ _ => a 1 0,
    fun a _ _ _ _ => (a 1 0, 0), fun _ _ => (fun _ => 1, fun _ => 1)⟩ 3 none true false false false =
    [LensMap.real (-3)] := by
  simp [fromConvergence, almxfl]
  norm_num

end Glass.Lensing
