import Mathlib.Analysis.SpecialFunctions.Pow.Real
import Mathlib.Tactic.NormNum
import Verif.Lensing.ConvergenceProps
import Verif.Lensing.FloatPlanes

/-!
# Conversion of the convergence with integers of 64 bits and in floating point (C155)

`shear_from_convergence` multiplies mode numbers as integers of 64 bits, `from_convergence` as
floating-point numbers.
-/

namespace Glass.Lensing

open Glass.Spectra

/-! ## Model -/

/-- Integers of 64 bits: arithmetic is modulo `2⁶⁴`. -/
def wrap64 (n : ℤ) : ℤ := (n + 2 ^ 63) % 2 ^ 64 - 2 ^ 63

/-- `lensing.py:414-417` for one mode number: the factor, `none` for NaN.  The integers are converted
to floating point by the square root and the division. -/
noncomputable def shearFactorInt (fl : ℝ → ℝ) (l : ℕ) : Option ℝ :=
  let ell := wrap64 l
  let n := wrap64 (wrap64 (wrap64 (wrap64 (ell + 2) * wrap64 (ell + 1)) * ell) * wrap64 (ell - 1))
  if n < 0 then none
  else
    let f := fl (Real.sqrt (fl n))
    let f := fl (f / fl (max (wrap64 (ell * wrap64 (ell + 1))) 1 : ℤ))
    some (fl (f * (-1)))

/-- `lensing.py:316-321` for one mode number with rounded operations. -/
noncomputable def potentialFactorFl (fl : ℝ → ℝ) (l : ℕ) : ℝ :=
  if (0 : ℝ) < (l : ℝ) then fl (-2 / fl ((l : ℝ) * fl ((l : ℝ) + 1))) else 0

/-- `lensing.py:337` for one mode number with rounded operations. -/
noncomputable def deflectionFactorFl (fl : ℝ → ℝ) (l : ℕ) : ℝ :=
  fl (Real.sqrt (fl ((l : ℝ) * fl ((l : ℝ) + 1))))

/-- `lensing.py:353-359` for one mode number with rounded operations. -/
noncomputable def shearFactorFl (fl : ℝ → ℝ) (l : ℕ) : ℝ :=
  fl ((if (0 : ℝ) < (l : ℝ) then fl (Real.sqrt (fl (fl ((l : ℝ) - 1) * fl ((l : ℝ) + 2)))) else 0) / 2)

/-! ## Specification -/

/-- The factor from convergence to shear. -/
noncomputable def modeFactor (l : ℕ) : ℝ :=
  Real.sqrt (((((l : ℤ) + 2) * ((l : ℤ) + 1) * (l : ℤ) * ((l : ℤ) - 1) : ℤ) : ℝ)) /
    ((max ((l : ℤ) * ((l : ℤ) + 1)) 1 : ℤ) : ℝ) * (-1)

/-! ## Results -/

theorem wrap64_of {n : ℤ} (h1 : -2 ^ 63 ≤ n) (h2 : n < 2 ^ 63) : wrap64 n = n := by
  unfold wrap64
  rw [Int.emod_eq_of_lt (by linarith) (by linarith)]; ring

theorem wrap64_modEq (n : ℤ) : wrap64 n ≡ n [ZMOD 2 ^ 64] := by
  unfold wrap64
  have h := Int.mod_modEq (n + 2 ^ 63) (2 ^ 64)
  have h2 := h.sub_right (2 ^ 63)
  rwa [add_sub_cancel_right] at h2

theorem wrap64_congr {m n : ℤ} (h : m ≡ n [ZMOD 2 ^ 64]) : wrap64 m = wrap64 n := by
  unfold wrap64
  have := h.add_right (2 ^ 63)
  rw [this]

/-- The product of the mode numbers, as computed. -/
theorem wrapped_product (l : ℕ) :
    wrap64 (wrap64 (wrap64 (wrap64 (wrap64 l + 2) * wrap64 (wrap64 l + 1)) * wrap64 l) *
      wrap64 (wrap64 l - 1)) = wrap64 (((l : ℤ) + 2) * (l + 1) * l * (l - 1)) := by
  apply wrap64_congr
  have h0 := wrap64_modEq l
  have h2 := (wrap64_modEq (wrap64 l + 2)).trans (h0.add_right 2)
  have h1 := (wrap64_modEq (wrap64 l + 1)).trans (h0.add_right 1)
  have h3 := (wrap64_modEq (wrap64 l - 1)).trans (h0.sub_right 1)
  have a := (wrap64_modEq _).trans (h2.mul h1)
  have b := (wrap64_modEq _).trans (a.mul h0)
  exact b.mul h3

theorem wrapped_square (l : ℕ) :
    wrap64 (wrap64 l * wrap64 (wrap64 l + 1)) = wrap64 ((l : ℤ) * (l + 1)) := by
  apply wrap64_congr
  have h0 := wrap64_modEq l
  exact h0.mul ((wrap64_modEq (wrap64 l + 1)).trans (h0.add_right 1))

theorem product_bounds {l : ℕ} (hl : l ≤ 55108) :
    0 ≤ ((l : ℤ) + 2) * (l + 1) * l * (l - 1) ∧ ((l : ℤ) + 2) * (l + 1) * l * (l - 1) < 2 ^ 63 := by
  have h : (l : ℤ) ≤ 55108 := by exact_mod_cast hl
  have h0 : (0 : ℤ) ≤ l := by positivity
  rcases Nat.eq_zero_or_pos l with rfl | hp
  · norm_num
  have h1 : (1 : ℤ) ≤ l := by exact_mod_cast hp
  have e : ((l : ℤ) + 2) * (l + 1) * l * (l - 1) = (((l : ℤ) + 2) * (l - 1)) * ((l + 1) * l) := by ring
  rw [e]
  have a0 : (0 : ℤ) ≤ ((l : ℤ) + 2) * (l - 1) := mul_nonneg (by linarith) (by linarith)
  have b0 : (0 : ℤ) ≤ ((l : ℤ) + 1) * l := by positivity
  have a1 : ((l : ℤ) + 2) * (l - 1) ≤ (55108 + 2) * (55108 - 1) := by nlinarith
  have b1 : ((l : ℤ) + 1) * l ≤ (55108 + 1) * 55108 := by nlinarith
  refine ⟨mul_nonneg a0 b0, lt_of_le_of_lt (mul_le_mul a1 b1 b0 (by norm_num)) (by norm_num)⟩

theorem product_overflow {l : ℕ} (h1 : 55109 ≤ l) (h2 : l ≤ 65534) :
    2 ^ 63 ≤ ((l : ℤ) + 2) * (l + 1) * l * (l - 1) ∧ ((l : ℤ) + 2) * (l + 1) * l * (l - 1) < 2 ^ 64 := by
  have h : (l : ℤ) ≤ 65534 := by exact_mod_cast h2
  have h' : (55109 : ℤ) ≤ l := by exact_mod_cast h1
  have e : ((l : ℤ) + 2) * (l + 1) * l * (l - 1) = (((l : ℤ) + 2) * (l - 1)) * ((l + 1) * l) := by ring
  rw [e]
  have b0 : (0 : ℤ) ≤ ((l : ℤ) + 1) * l := by positivity
  have a0 : (0 : ℤ) ≤ ((l : ℤ) + 2) * (l - 1) := mul_nonneg (by linarith) (by linarith)
  have a1 : ((l : ℤ) + 2) * (l - 1) ≤ (65534 + 2) * (65534 - 1) := by nlinarith
  have b1 : ((l : ℤ) + 1) * l ≤ (65534 + 1) * 65534 := by nlinarith
  have a2 : ((55109 : ℤ) + 2) * (55109 - 1) ≤ ((l : ℤ) + 2) * (l - 1) := by nlinarith
  have b2 : ((55109 : ℤ) + 1) * 55109 ≤ ((l : ℤ) + 1) * l := by nlinarith
  exact ⟨le_trans (by norm_num) (mul_le_mul a2 b2 (by norm_num) a0),
    lt_of_le_of_lt (mul_le_mul a1 b1 b0 (by norm_num)) (by norm_num)⟩

theorem square_bounds {l : ℕ} (hl : l ≤ 55108) : wrap64 ((l : ℤ) * (l + 1)) = (l : ℤ) * (l + 1) := by
  have h : (l : ℤ) ≤ 55108 := by exact_mod_cast hl
  have h0 : (0 : ℤ) ≤ l := by positivity
  refine wrap64_of ?_ ?_ <;> nlinarith

/-- **C155** Without rounding and up to mode number 55108, the factor is that of the model of
`shear_from_convergence`. -/
theorem shear_factor_int_real {l : ℕ} (hl : l ≤ 55108) : shearFactorInt id l = some (modeFactor l) := by
  obtain ⟨h0, h1⟩ := product_bounds hl
  have e := wrap64_of (le_trans (by norm_num) h0) h1
  unfold shearFactorInt modeFactor
  simp only [wrapped_product, wrapped_square, e, square_bounds hl, if_neg (not_lt.2 h0), id_eq]

/-- **C155** Without rounding, the factors are those of the model of `from_convergence`. -/
theorem factors_fl_real (l : ℕ) :
    potentialFactorFl id l = (if (0 : ℝ) < (l : ℝ) then -2 / ((l : ℝ) * ((l : ℝ) + 1)) else 0) ∧
    deflectionFactorFl id l = Real.sqrt ((l : ℝ) * ((l : ℝ) + 1)) ∧
    shearFactorFl id l =
      (if (0 : ℝ) < (l : ℝ) then Real.sqrt (((l : ℝ) - 1) * ((l : ℝ) + 2)) else 0) / 2 :=
  ⟨by unfold potentialFactorFl; rfl, by unfold deflectionFactorFl; rfl, by unfold shearFactorFl; rfl⟩

theorem Rel.sqrt {k : ℕ} {x y : ℝ} (h : Rel k x y) : Rel k (Real.sqrt x) (Real.sqrt y) := by
  obtain ⟨a, rfl, h1, h2⟩ := h
  unfold Rel
  have p0 : (0 : ℝ) < 1 - 1 / 2 ^ 53 := by norm_num
  have p1 : (1 - 1 / 2 ^ 53 : ℝ) ≤ 1 := by norm_num
  generalize (1 - 1 / 2 ^ 53 : ℝ) = q at *
  have q1 : 0 < q ^ k := by positivity
  have q2 : q ^ k ≤ 1 := pow_le_one₀ p0.le p1
  have a0 : 0 < a := q1.trans_le h1
  refine ⟨Real.sqrt a, Real.sqrt_mul' x a0.le, ?_, ?_⟩
  · refine Real.le_sqrt_of_sq_le (le_trans ?_ h1)
    nlinarith
  · rw [Real.sqrt_le_left (by positivity)]
    refine h2.trans ?_
    have : 1 ≤ (q ^ k)⁻¹ := (one_le_inv₀ q1).2 q2
    nlinarith

/-- **C155** Up to mode number 55108, the factor of `shear_from_convergence` is exact up to five
roundings. -/
theorem shear_factor_int (R : Rounding) {l : ℕ} (hl : l ≤ 55108) :
    ∃ v, shearFactorInt R.fl l = some v ∧ Rel 5 (modeFactor l) v := by
  obtain ⟨h0, h1⟩ := product_bounds hl
  have e := wrap64_of (le_trans (by norm_num) h0) h1
  unfold shearFactorInt modeFactor
  simp only [wrapped_product, wrapped_square, e, square_bounds hl, if_neg (not_lt.2 h0),
    Option.some.injEq, exists_eq_left']
  have a := (Rel.sqrt (Rel.fl R (((((l : ℤ) + 2) * (l + 1) * l * (l - 1) : ℤ)) : ℝ))).round R
  have b := ((a.div (Rel.fl R (((max ((l : ℤ) * (l + 1)) 1 : ℤ)) : ℝ))).round R).mul (Rel.refl (-1))
  exact b.round R

/-- **C155** The product of the factors of `from_convergence` is exact up to eleven roundings, for all
mode numbers. -/
theorem shear_factor_fl (R : Rounding) (l : ℕ) :
    Rel 11 (modeFactor l) (potentialFactorFl R.fl l * deflectionFactorFl R.fl l * shearFactorFl R.fl l) := by
  have hf : modeFactor l = _ := shear_factor l
  rw [hf]
  have a := (Rel.refl (l : ℝ)).mul (Rel.fl R ((l : ℝ) + 1))
  have b := ((Rel.refl (-2)).div (a.round R)).round R
  have c := (Rel.sqrt (a.round R)).round R
  have d := (Rel.sqrt (((Rel.fl R ((l : ℝ) - 1)).mul (Rel.fl R ((l : ℝ) + 2))).round R)).round R
  have e := (d.div (Rel.refl 2)).round R
  unfold potentialFactorFl deflectionFactorFl shearFactorFl
  by_cases h : (0 : ℝ) < (l : ℝ)
  · simp only [if_pos h]
    exact (b.mul c).mul e
  · simp only [if_neg h, zero_mul]
    exact ⟨1, by simp, by norm_num, by norm_num⟩

/-- **C155** Up to mode number 55108, both functions use the same factor up to `17/2⁵³`; this includes
the default `lmax` for all `nside` up to 16384. -/
theorem shear_factors_agree_partial (R : Rounding) {l : ℕ} (hl : l ≤ 55108) :
    ∃ v, shearFactorInt R.fl l = some v ∧
      |v - potentialFactorFl R.fl l * deflectionFactorFl R.fl l * shearFactorFl R.fl l| ≤
        17 / 2 ^ 53 * |modeFactor l| := by
  obtain ⟨v, hv, h⟩ := shear_factor_int R hl
  refine ⟨v, hv, ?_⟩
  have h1 : |v - modeFactor l| ≤ 5.5 / 2 ^ 53 * |modeFactor l| := h.error (by norm_num) (by norm_num)
  have h2 := (shear_factor_fl R l).error (e := 11.5 / 2 ^ 53) (by norm_num) (by norm_num)
  rw [abs_sub_comm] at h2
  have := abs_sub_le v (modeFactor l)
    (potentialFactorFl R.fl l * deflectionFactorFl R.fl l * shearFactorFl R.fl l)
  norm_num at *
  linarith

theorem default_lmax {nside l : ℕ} (hn : nside ≤ 16384) (hl : l ≤ 3 * nside - 1) : l ≤ 55108 := by omega

/-- **C155**, counterexample: for mode numbers 55109 to 65534, the product of the mode numbers
overflows, and the factor is not a number. -/
theorem shear_factor_overflow (fl : ℝ → ℝ) {l : ℕ} (h1 : 55109 ≤ l) (h2 : l ≤ 65534) :
    shearFactorInt fl l = none := by
  obtain ⟨a, b⟩ := product_overflow h1 h2
  unfold shearFactorInt
  simp only [wrapped_product]
  rw [if_pos]
  unfold wrap64
  generalize ((l : ℤ) + 2) * (l + 1) * l * (l - 1) = n at *
  norm_num at *
  omega

/-- The default `lmax` for `nside = 32768` includes these mode numbers. -/
theorem shear_default_overflow (fl : ℝ → ℝ) :
    ∃ l ≤ 3 * 32768 - 1, shearFactorInt fl l = none :=
  ⟨55109, by norm_num, shear_factor_overflow fl le_rfl (by norm_num)⟩

/-- The quadrupole: the factor is `-√24/6`. -/
example : shearFactorInt id 2 = some (-(Real.sqrt 24 / 6)) := by
  rw [shear_factor_int_real (by norm_num)]
  norm_num [modeFactor]

end Glass.Lensing
