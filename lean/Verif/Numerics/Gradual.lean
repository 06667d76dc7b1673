import Mathlib.Analysis.SpecialFunctions.Log.Basic
import Mathlib.Analysis.Complex.ExponentialBounds
import Verif.Galaxies.FloatSampling

/-!
# Double precision with underflow

Rounding to 53 binary digits for numbers from `2⁻¹⁰²²`, and to multiples of `2⁻¹⁰⁷⁴` below.
-/

namespace Glass.Spectra

/-- Numbers below this one are rounded to zero. -/
noncomputable def tiny : ℝ := 2 ^ (-1075 : ℤ)

theorem tiny_pos : 0 < tiny := by unfold tiny; positivity

/-- What is used of double precision rounding with gradual underflow. -/
structure Gradual where
  fl : ℝ → ℝ
  mono : Monotone fl
  idem : ∀ x, fl (fl x) = fl x
  error : ∀ x, |fl x - x| ≤ |x| / 2 ^ 53 + tiny
  zero : ∀ x, |x| < tiny → fl x = 0

/-! ## Double precision -/

/-- Rounding to double precision, apart from overflow. -/
noncomputable def roundGradual (x : ℝ) : ℝ :=
  open Classical in
  if (2 : ℝ) ^ (-1022 : ℤ) ≤ |x| then roundDouble x
  else roundEven (x * 2 ^ (1074 : ℤ)) * 2 ^ (-1074 : ℤ)

theorem zpow_cancel (n : ℤ) : (2 : ℝ) ^ n * 2 ^ (-n) = 1 := by
  rw [← zpow_add₀ (by norm_num)]; simp

theorem roundDouble_min : roundDouble ((2 : ℝ) ^ (-1022 : ℤ)) = 2 ^ (-1022 : ℤ) := by
  have h : (0 : ℝ) < 2 ^ (-1022 : ℤ) := by positivity
  unfold roundDouble
  rw [if_pos h]
  refine roundPos_exact (2 ^ 52) ?_
  have : Int.log 2 ((2 : ℝ) ^ (-1022 : ℤ)) = -1022 := by
    exact_mod_cast Int.log_zpow (R := ℝ) (b := 2) (by norm_num) (-1022)
  rw [this]
  have e : ((2 ^ 52 : ℤ) : ℝ) = (2 : ℝ) ^ (52 : ℤ) := by norm_num
  rw [e, ← zpow_add₀ (by norm_num)]
  rfl

theorem small_min : (roundEven ((2 : ℝ) ^ (-1022 : ℤ) * 2 ^ (1074 : ℤ)) : ℝ) * 2 ^ (-1074 : ℤ) =
    2 ^ (-1022 : ℤ) := by
  have e : (2 : ℝ) ^ (-1022 : ℤ) * 2 ^ (1074 : ℤ) = ((2 ^ 52 : ℤ) : ℝ) := by
    rw [← zpow_add₀ (by norm_num)]; norm_num
  rw [e, roundEven_intCast, ← e, mul_assoc, zpow_cancel, mul_one]

theorem small_neg_min : (roundEven (-(2 : ℝ) ^ (-1022 : ℤ) * 2 ^ (1074 : ℤ)) : ℝ) * 2 ^ (-1074 : ℤ) =
    -2 ^ (-1022 : ℤ) := by
  have e : -(2 : ℝ) ^ (-1022 : ℤ) * 2 ^ (1074 : ℤ) = ((-2 ^ 52 : ℤ) : ℝ) := by
    rw [neg_mul, ← zpow_add₀ (by norm_num)]; norm_num
  rw [e, roundEven_intCast, ← e, mul_assoc, zpow_cancel, mul_one]

theorem small_mono {x y : ℝ} (h : x ≤ y) :
    (roundEven (x * 2 ^ (1074 : ℤ)) : ℝ) * 2 ^ (-1074 : ℤ) ≤
      roundEven (y * 2 ^ (1074 : ℤ)) * 2 ^ (-1074 : ℤ) := by
  have : roundEven (x * 2 ^ (1074 : ℤ)) ≤ roundEven (y * 2 ^ (1074 : ℤ)) :=
    roundEven_le (by gcongr)
  have : (roundEven (x * 2 ^ (1074 : ℤ)) : ℝ) ≤ roundEven (y * 2 ^ (1074 : ℤ)) := by exact_mod_cast this
  gcongr

/-- Double precision rounding, apart from overflow. -/
noncomputable def gradual : Gradual where
  fl := roundGradual
  mono := by
    intro x y h
    show roundGradual x ≤ roundGradual y
    unfold roundGradual
    have hm : (0 : ℝ) < 2 ^ (-1022 : ℤ) := by positivity
    split_ifs with hx hy hy
    · exact double.mono h
    · push Not at hy
      rw [abs_lt] at hy
      have hx' : x ≤ -2 ^ (-1022 : ℤ) := by
        rcases le_abs.1 hx with h' | h' <;> linarith
      have h1 : roundDouble x ≤ roundDouble (-2 ^ (-1022 : ℤ)) := double.mono hx'
      rw [roundDouble_neg, roundDouble_min] at h1
      refine h1.trans ?_
      rw [← small_neg_min]
      exact small_mono hy.1.le
    · push Not at hx
      rw [abs_lt] at hx
      have hy' : 2 ^ (-1022 : ℤ) ≤ y := by
        rcases le_abs.1 hy with h' | h' <;> linarith
      have h1 : roundDouble (2 ^ (-1022 : ℤ)) ≤ roundDouble y := double.mono hy'
      rw [roundDouble_min] at h1
      refine le_trans ?_ h1
      rw [← small_min]
      exact small_mono hx.2.le
    · exact small_mono h
  idem := by
    intro x
    have hm : (0 : ℝ) < 2 ^ (-1022 : ℤ) := by positivity
    by_cases hx : (2 : ℝ) ^ (-1022 : ℤ) ≤ |x|
    · have e : roundGradual x = roundDouble x := by unfold roundGradual; rw [if_pos hx]
      rw [e]
      have h1 : (2 : ℝ) ^ (-1022 : ℤ) ≤ |roundDouble x| := by
        rcases le_abs.1 hx with h' | h'
        · have := double.mono h'
          change roundDouble _ ≤ roundDouble _ at this
          rw [roundDouble_min] at this
          exact this.trans (le_abs_self _)
        · have := double.mono h'
          change roundDouble _ ≤ roundDouble _ at this
          rw [roundDouble_min, roundDouble_neg] at this
          exact this.trans (neg_le_abs _)
      unfold roundGradual
      rw [if_pos h1, Glass.Galaxies.roundDouble_idem]
    · have e : roundGradual x = roundEven (x * 2 ^ (1074 : ℤ)) * 2 ^ (-1074 : ℤ) := by
        unfold roundGradual; rw [if_neg hx]
      set n := roundEven (x * 2 ^ (1074 : ℤ)) with hn
      rw [e]
      unfold roundGradual
      split_ifs with h1
      · push Not at hx
        rw [abs_lt] at hx
        have u1 : (n : ℝ) * 2 ^ (-1074 : ℤ) ≤ 2 ^ (-1022 : ℤ) := by
          rw [← small_min]; exact small_mono hx.2.le
        have u2 : -(2 : ℝ) ^ (-1022 : ℤ) ≤ (n : ℝ) * 2 ^ (-1074 : ℤ) := by
          rw [← small_neg_min]; exact small_mono hx.1.le
        rcases le_abs.1 h1 with h' | h'
        · rw [le_antisymm u1 h', roundDouble_min]
        · have : (n : ℝ) * 2 ^ (-1074 : ℤ) = -2 ^ (-1022 : ℤ) := by linarith
          rw [this, roundDouble_neg, roundDouble_min]
      · have : (n : ℝ) * 2 ^ (-1074 : ℤ) * 2 ^ (1074 : ℤ) = n := by
          rw [mul_assoc, mul_comm ((2 : ℝ) ^ (-1074 : ℤ)), zpow_cancel, mul_one]
        rw [this, roundEven_intCast]
  error := by
    intro x
    show |roundGradual x - x| ≤ _
    unfold roundGradual
    split_ifs with h
    · have := double.error x
      have h0 := tiny_pos
      exact this.trans (by linarith)
    · have h1 := abs_sub_roundEven (x * 2 ^ (1074 : ℤ))
      have e : (roundEven (x * 2 ^ (1074 : ℤ)) : ℝ) * 2 ^ (-1074 : ℤ) - x =
          -((x * 2 ^ (1074 : ℤ) - roundEven (x * 2 ^ (1074 : ℤ))) * 2 ^ (-1074 : ℤ)) := by
        rw [sub_mul, mul_assoc x, zpow_cancel]; ring
      rw [e, abs_neg, abs_mul, abs_of_pos (show (0 : ℝ) < 2 ^ (-1074 : ℤ) by positivity)]
      have e2 : tiny = 1 / 2 * (2 : ℝ) ^ (-1074 : ℤ) := by
        unfold tiny
        rw [show (-1075 : ℤ) = -1 + -1074 by norm_num, zpow_add₀ (by norm_num)]
        norm_num
      rw [e2]
      have h3 : |x * 2 ^ (1074 : ℤ) - (roundEven (x * 2 ^ (1074 : ℤ)) : ℝ)| * 2 ^ (-1074 : ℤ) ≤
          1 / 2 * 2 ^ (-1074 : ℤ) := by gcongr
      have : 0 ≤ |x| / 2 ^ 53 := by positivity
      linarith
  zero := by
    intro x hx
    show roundGradual x = 0
    have h1 : tiny < (2 : ℝ) ^ (-1022 : ℤ) := by
      unfold tiny; exact zpow_lt_zpow_right₀ (by norm_num) (by norm_num)
    unfold roundGradual
    rw [if_neg (not_le.2 (hx.trans h1))]
    have h2 : |x * 2 ^ (1074 : ℤ)| < 1 / 2 := by
      rw [abs_mul, abs_of_pos (show (0 : ℝ) < 2 ^ (1074 : ℤ) by positivity)]
      have : |x| * 2 ^ (1074 : ℤ) < tiny * 2 ^ (1074 : ℤ) := by gcongr
      refine this.trans_le ?_
      unfold tiny
      rw [← zpow_add₀ (by norm_num)]
      norm_num
    have h3 := abs_sub_roundEven (x * 2 ^ (1074 : ℤ))
    have h4 : roundEven (x * 2 ^ (1074 : ℤ)) = 0 := by
      rw [abs_lt] at h2
      rw [abs_le] at h3
      have a1 : (roundEven (x * 2 ^ (1074 : ℤ)) : ℝ) < 1 := by linarith [h3.1, h2.2]
      have a2 : (-1 : ℝ) < (roundEven (x * 2 ^ (1074 : ℤ)) : ℝ) := by linarith [h3.2, h2.1]
      have b1 : roundEven (x * 2 ^ (1074 : ℤ)) < 1 := by exact_mod_cast a1
      have b2 : -1 < roundEven (x * 2 ^ (1074 : ℤ)) := by exact_mod_cast a2
      omega
    rw [h4]; simp

end Glass.Spectra
