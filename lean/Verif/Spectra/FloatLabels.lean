import Mathlib.Data.Int.Log
import Mathlib.Algebra.Order.Round
import Mathlib.Algebra.Order.Field.Power
import Mathlib.Tactic.LinearCombination
import Verif.Spectra.Lemmas

/-!
# Labels of spectra in floating point (C129)

`enumerate_spectra` and `_inv_triangle_number` take square roots in floating point and truncate.
-/

namespace Glass.Spectra

/-! ## Model -/

/-- What is used of the rounding of double precision numbers: it is monotone, has a relative error of
at most `2⁻⁵³`, and leaves multiples of a quarter below `2⁵¹` as they are. -/
structure Rounding where
  fl : ℝ → ℝ
  mono : Monotone fl
  error : ∀ x, |fl x - x| ≤ |x| / 2 ^ 53
  exact : ∀ m : ℤ, |m| ≤ 2 ^ 53 → fl (m / 4) = m / 4

/-- `fields.py:579-580` with every operation rounded: `int((2 * k + 0.25) ** 0.5 - 0.5)`. -/
noncomputable def labelFl (fl : ℝ → ℝ) (k : ℕ) : ℤ × ℤ :=
  let i : ℤ := pyInt (fl (fl (Real.sqrt (fl (2 * (k : ℝ) + 1 / 4))) - 1 / 2))
  let j : ℤ := Int.fdiv (i * (i + 3)) 2 - k
  (i, j)

/-! ## Double precision is such a rounding -/

/-- The nearest integer, and the even one of two. -/
noncomputable def roundEven (x : ℝ) : ℤ :=
  open Classical in if Int.fract x = 1 / 2 ∧ Even ⌊x⌋ then ⌊x⌋ else round x

theorem floor_le_roundEven (x : ℝ) : ⌊x⌋ ≤ roundEven x := by
  unfold roundEven
  split_ifs with h
  · exact le_rfl
  · rw [round_eq]
    exact Int.floor_le_floor (by linarith)

theorem roundEven_le {x y : ℝ} (h : x ≤ y) : roundEven x ≤ roundEven y := by
  by_cases hx : Int.fract x = 1 / 2 ∧ Even ⌊x⌋
  · rw [roundEven, if_pos hx]
    exact (Int.floor_le_floor h).trans (floor_le_roundEven y)
  · by_cases hy : Int.fract y = 1 / 2 ∧ Even ⌊y⌋
    · have hne : x ≠ y := fun e => hx (e ▸ hy)
      have hlt := lt_of_le_of_ne h hne
      have h1 := Int.floor_add_fract y
      rw [roundEven, roundEven, if_neg hx, if_pos hy, round_eq, ← Int.lt_add_one_iff, Int.floor_lt]
      push_cast
      linarith [hy.1]
    · rw [roundEven, roundEven, if_neg hx, if_neg hy, round_eq, round_eq]
      exact Int.floor_le_floor (by linarith)

theorem abs_sub_roundEven (x : ℝ) : |x - roundEven x| ≤ 1 / 2 := by
  unfold roundEven
  split_ifs with h
  · rw [Int.self_sub_floor, h.1, abs_of_pos (by norm_num)]
  · exact abs_sub_round x

theorem roundEven_intCast (n : ℤ) : roundEven n = n := by
  rw [roundEven, if_neg (by simp), round_intCast]

/-- Rounding to 53 significant binary digits, to the nearest number or to the even one of two,
with an unlimited exponent. -/
noncomputable def roundPos (x : ℝ) : ℝ :=
  (roundEven (x / (2 : ℝ) ^ (Int.log 2 x - 52)) : ℝ) * (2 : ℝ) ^ (Int.log 2 x - 52)

theorem roundPos_error {x : ℝ} (hx : 0 < x) : |roundPos x - x| ≤ x / 2 ^ 53 := by
  set u : ℝ := (2 : ℝ) ^ (Int.log 2 x - 52) with hu
  have hup : 0 < u := by positivity
  have h1 := abs_sub_roundEven (x / u)
  have h2 : (2 : ℝ) ^ Int.log 2 x ≤ x := by exact_mod_cast Int.zpow_log_le_self (b := 2) (by norm_num) hx
  have h3 : u * 2 ^ 52 = (2 : ℝ) ^ Int.log 2 x := by
    rw [hu, zpow_sub₀ (by norm_num)]
    norm_num
  have h4 : roundPos x - x = -((x / u - roundEven (x / u)) * u) := by
    unfold roundPos
    rw [← hu]
    field_simp
    ring
  rw [h4, abs_neg, abs_mul, abs_of_pos hup]
  calc |x / u - roundEven (x / u)| * u ≤ 1 / 2 * u := by gcongr
    _ = (u * 2 ^ 52) / 2 ^ 53 := by ring
    _ ≤ x / 2 ^ 53 := by rw [h3]; gcongr

/-- A number with at most 53 digits is not changed. -/
theorem roundPos_exact {x : ℝ} (n : ℤ) (h : x = n * (2 : ℝ) ^ (Int.log 2 x - 52)) :
    roundPos x = x := by
  set u : ℝ := (2 : ℝ) ^ (Int.log 2 x - 52) with hu
  have hup : u ≠ 0 := by positivity
  have e : x / u = n := by rw [h]; field_simp
  unfold roundPos
  rw [← hu, e, roundEven_intCast]
  exact h.symm

theorem roundPos_bounds {x : ℝ} (hx : 0 < x) :
    (2 : ℝ) ^ Int.log 2 x ≤ roundPos x ∧ roundPos x ≤ (2 : ℝ) ^ (Int.log 2 x + 1) := by
  set u : ℝ := (2 : ℝ) ^ (Int.log 2 x - 52) with hu
  have hup : 0 < u := by positivity
  have h2 : (2 : ℝ) ^ Int.log 2 x ≤ x := by exact_mod_cast Int.zpow_log_le_self (b := 2) (by norm_num) hx
  have h3 : x < (2 : ℝ) ^ (Int.log 2 x + 1) := by
    exact_mod_cast Int.lt_zpow_succ_log_self (b := 2) (by norm_num) x
  have e1 : (2 : ℝ) ^ Int.log 2 x = ((2 ^ 52 : ℤ) : ℝ) * u := by
    rw [hu, zpow_sub₀ (by norm_num)]
    push_cast
    norm_num
    ring
  have e2 : (2 : ℝ) ^ (Int.log 2 x + 1) = ((2 ^ 53 : ℤ) : ℝ) * u := by
    rw [zpow_add₀ (by norm_num), e1]
    push_cast
    ring
  have m1 : roundEven (((2 ^ 52 : ℤ) : ℝ)) ≤ roundEven (x / u) := by
    apply roundEven_le
    rw [le_div_iff₀ hup, ← e1]; exact h2
  have m2 : roundEven (x / u) ≤ roundEven (((2 ^ 53 : ℤ) : ℝ)) := by
    apply roundEven_le
    rw [div_le_iff₀ hup, ← e2]; exact h3.le
  rw [roundEven_intCast] at m1 m2
  unfold roundPos
  rw [← hu, e1, e2]
  constructor
  · have : (((2 ^ 52 : ℤ)) : ℝ) ≤ (roundEven (x / u) : ℝ) := by exact_mod_cast m1
    gcongr
  · have : (roundEven (x / u) : ℝ) ≤ (((2 ^ 53 : ℤ)) : ℝ) := by exact_mod_cast m2
    gcongr

theorem roundPos_mono {x y : ℝ} (hx : 0 < x) (h : x ≤ y) : roundPos x ≤ roundPos y := by
  have hy := hx.trans_le h
  rcases (Int.log_mono_right (b := 2) hx h).eq_or_lt with e | e
  · unfold roundPos
    rw [e]
    have : roundEven (x / (2 : ℝ) ^ (Int.log 2 y - 52)) ≤ roundEven (y / (2 : ℝ) ^ (Int.log 2 y - 52)) :=
      roundEven_le (by gcongr)
    have : (roundEven (x / (2 : ℝ) ^ (Int.log 2 y - 52)) : ℝ) ≤ roundEven (y / (2 : ℝ) ^ (Int.log 2 y - 52)) := by
      exact_mod_cast this
    gcongr
  · calc roundPos x ≤ (2 : ℝ) ^ (Int.log 2 x + 1) := (roundPos_bounds hx).2
      _ ≤ (2 : ℝ) ^ Int.log 2 y := zpow_le_zpow_right₀ (by norm_num) (by omega)
      _ ≤ roundPos y := (roundPos_bounds hy).1

theorem roundPos_pos {x : ℝ} (hx : 0 < x) : 0 < roundPos x :=
  lt_of_lt_of_le (by positivity) (roundPos_bounds hx).1

/-- Rounding to 53 digits for all real numbers. -/
noncomputable def roundDouble (x : ℝ) : ℝ :=
  if 0 < x then roundPos x else if x < 0 then -roundPos (-x) else 0

theorem roundDouble_neg (x : ℝ) : roundDouble (-x) = -roundDouble x := by
  unfold roundDouble
  rcases lt_trichotomy x 0 with h | h | h
  · simp [h, h.not_gt]
  · simp [h]
  · simp [h, h.not_gt]

/-- Double precision rounding, apart from overflow and underflow. -/
noncomputable def double : Rounding where
  fl := roundDouble
  mono := by
    intro x y h
    show roundDouble x ≤ roundDouble y
    rcases lt_trichotomy x 0 with hx | hx | hx
    · rcases lt_trichotomy y 0 with hy | hy | hy
      · simp only [roundDouble, hx, hy, hx.not_gt, hy.not_gt, if_true, if_false]
        exact neg_le_neg (roundPos_mono (by linarith) (by linarith))
      · have := roundPos_pos (show 0 < -x by linarith)
        simp only [roundDouble, hx, hx.not_gt, hy, lt_irrefl, if_true, if_false]
        linarith
      · have := roundPos_pos (show 0 < -x by linarith)
        have := roundPos_pos hy
        simp only [roundDouble, hx, hx.not_gt, hy, if_true, if_false]
        linarith
    · subst hx
      rcases h.eq_or_lt with hy | hy
      · rw [hy]
      · have := roundPos_pos hy
        simp only [roundDouble, lt_irrefl, hy, if_true, if_false]
        exact this.le
    · have hy := hx.trans_le h
      simp only [roundDouble, hx, hy, if_true]
      exact roundPos_mono hx h
  error := by
    have key : ∀ x : ℝ, 0 < x → |roundDouble x - x| ≤ |x| / 2 ^ 53 := by
      intro x hx
      rw [abs_of_pos hx]
      simp only [roundDouble, hx, if_true]
      exact roundPos_error hx
    intro x
    rcases lt_trichotomy x 0 with hx | hx | hx
    · have := key (-x) (by linarith)
      rw [roundDouble_neg, abs_neg, show -roundDouble x - -x = -(roundDouble x - x) by ring,
        abs_neg] at this
      exact this
    · simp [hx, roundDouble]
    · exact key x hx
  exact := by
    have key : ∀ m : ℕ, 0 < m → m ≤ 2 ^ 53 → roundDouble ((m : ℝ) / 4) = (m : ℝ) / 4 := by
      intro m hm hb
      have hx : (0 : ℝ) < (m : ℝ) / 4 := by positivity
      simp only [roundDouble, hx, if_true]
      set L := Int.log 2 ((m : ℝ) / 4) with hL
      by_cases h51 : L ≤ 50
      · have e : (4 : ℝ)⁻¹ = (2 : ℝ) ^ (50 - L) * (2 : ℝ) ^ (L - 52) := by
          rw [← zpow_add₀ (by norm_num)]
          norm_num
        obtain ⟨a, ha⟩ : ∃ a : ℕ, 50 - L = a := ⟨(50 - L).toNat, by omega⟩
        refine roundPos_exact ((m : ℤ) * 2 ^ a) ?_
        rw [← hL, div_eq_mul_inv, e, ha]
        push_cast
        rw [zpow_natCast]
        ring
      · have h1 : (2 : ℝ) ^ L ≤ (m : ℝ) / 4 := by
          exact_mod_cast Int.zpow_log_le_self (b := 2) (by norm_num) hx
        have h2 : (m : ℝ) / 4 ≤ 2 ^ (51 : ℤ) := by
          have : (m : ℝ) ≤ 2 ^ 53 := by exact_mod_cast hb
          rw [div_le_iff₀ (by norm_num)]
          calc (m : ℝ) ≤ 2 ^ 53 := this
            _ = 2 ^ (51 : ℤ) * 4 := by norm_num
        have h3 : (2 : ℝ) ^ (51 : ℤ) ≤ 2 ^ L := zpow_le_zpow_right₀ (by norm_num) (by omega)
        have h4 : (m : ℝ) / 4 = 2 ^ (51 : ℤ) := le_antisymm h2 (h3.trans h1)
        have h5 : L = 51 := by
          rw [hL, h4]
          exact_mod_cast Int.log_zpow (R := ℝ) (b := 2) (by norm_num) 51
        refine roundPos_exact (2 ^ 52) ?_
        rw [← hL, h5, h4]
        norm_num
    intro m hm
    show roundDouble _ = _
    rcases lt_trichotomy m 0 with h | h | h
    · have := key m.natAbs (by omega) (by have := Int.natCast_natAbs m; omega)
      have e : ((m.natAbs : ℕ) : ℝ) = -(m : ℝ) := by
        rw [Nat.cast_natAbs, abs_of_neg h]
        push_cast
        ring
      rw [e, neg_div, roundDouble_neg] at this
      linarith
    · simp [h, roundDouble]
    · have := key m.natAbs (by omega) (by have := Int.natCast_natAbs m; omega)
      have e : ((m.natAbs : ℕ) : ℝ) = (m : ℝ) := by
        rw [Nat.cast_natAbs, abs_of_pos h]
      rwa [e] at this

/-! ## Properties -/

/-- **C129**: in floating point, the entry in row `i` and place `c` of the standard order gets the
label `(i, i - c)`, for the first `2²⁴` fields. -/
theorem label_float (R : Rounding) (i c : ℕ) (hc : c ≤ i) (hi : i < 2 ^ 24) :
    labelFl R.fl (tri i + c) = ((i : ℤ), (i : ℤ) - c) := by
  have htri : 2 * tri i = i * (i + 1) := by
    unfold tri
    exact Nat.mul_div_cancel' (Nat.even_mul_succ_self i).two_dvd
  have htriR : 2 * (tri i : ℝ) = i * (i + 1) := by exact_mod_cast htri
  have hiR : (i : ℝ) + 1 ≤ 2 ^ 24 := by exact_mod_cast hi
  have hcR : (c : ℝ) ≤ i := by exact_mod_cast hc
  have hi0 : (0 : ℝ) ≤ i := by positivity
  have hc0 : (0 : ℝ) ≤ c := by positivity
  -- the argument of the square root is exact
  have hx : R.fl (2 * ((tri i + c : ℕ) : ℝ) + 1 / 4) = (i + 1 / 2) ^ 2 + 2 * c := by
    have e : 2 * ((tri i + c : ℕ) : ℝ) + 1 / 4 = ((8 * ((tri i + c : ℕ) : ℤ) + 1 : ℤ) : ℝ) / 4 := by
      push_cast; ring
    rw [e, R.exact]
    · push_cast
      linear_combination htriR
    · have h1 : tri i + c ≤ 2 ^ 49 := by
        have : i * (i + 1) ≤ 2 ^ 24 * 2 ^ 24 := Nat.mul_le_mul (by omega) (by omega)
        omega
      rw [abs_of_nonneg (by positivity)]
      have : ((tri i + c : ℕ) : ℤ) ≤ 2 ^ 49 := by exact_mod_cast h1
      omega
  set x : ℝ := (i + 1 / 2) ^ 2 + 2 * c with hxd
  set s := Real.sqrt x with hs
  set a : ℝ := i + 3 / 2 with ha
  have ha1 : 1 ≤ a := by rw [ha]; linarith
  have hlo : (i : ℝ) + 1 / 2 ≤ s := Real.le_sqrt_of_sq_le (by rw [hxd]; linarith)
  have hainv : 0 < 1 / a ∧ 1 / a ≤ 1 := ⟨by positivity, by rw [div_le_one (by linarith)]; exact ha1⟩
  have hhi : s ≤ a - 1 / a := by
    apply Real.sqrt_le_iff.2 ⟨by linarith, ?_⟩
    have e : (a - 1 / a) ^ 2 = a ^ 2 - 2 + (1 / a) ^ 2 := by field_simp; ring
    rw [e, hxd, ha]
    nlinarith [sq_nonneg (1 / a)]
  -- the square root
  have hs0 : 0 ≤ s := Real.sqrt_nonneg _
  have f1 : (i : ℝ) + 1 / 2 ≤ R.fl s := by
    have := R.mono hlo
    have e : (i : ℝ) + 1 / 2 = ((4 * (i : ℤ) + 2 : ℤ) : ℝ) / 4 := by push_cast; ring
    rw [e, R.exact _ (by rw [abs_of_nonneg (by positivity)]; omega), ← e] at this
    exact this
  have hsmall : s ≤ 2 ^ 25 := by linarith [hainv.1]
  have f2 : R.fl s ≤ a - 1 / a + 1 / 2 ^ 28 := by
    have h1 := (abs_le.1 (R.error s)).2
    rw [abs_of_nonneg hs0] at h1
    have : s / 2 ^ 53 ≤ 1 / 2 ^ 28 := by
      rw [div_le_div_iff₀ (by positivity) (by positivity)]
      have : (2 : ℝ) ^ 25 * 2 ^ 28 = 2 ^ 53 := by norm_num
      nlinarith
    linarith
  have hgap : 1 / 2 ^ 25 ≤ 1 / a := by
    apply one_div_le_one_div_of_le (by linarith)
    rw [ha]
    norm_num at hiR ⊢
    linarith
  -- the difference
  set y := R.fl s - 1 / 2 with hy
  have g1 : (i : ℝ) ≤ R.fl y := by
    have hy0 : (i : ℝ) ≤ y := by rw [hy]; linarith
    have := R.mono hy0
    have e : (i : ℝ) = ((4 * (i : ℤ) : ℤ) : ℝ) / 4 := by push_cast; ring
    rw [e, R.exact _ (by rw [abs_of_nonneg (by positivity)]; omega), ← e] at this
    exact this
  have g2 : R.fl y < i + 1 := by
    have hy0 : 0 ≤ y := by rw [hy]; linarith
    have h1 := (abs_le.1 (R.error y)).2
    rw [abs_of_nonneg hy0] at h1
    have hyb : y ≤ 2 ^ 25 := by
      have : y ≤ a - 1 / a + 1 / 2 ^ 28 - 1 / 2 := by rw [hy]; linarith
      norm_num at this hiR ⊢
      linarith [hainv.1]
    have : y / 2 ^ 53 ≤ 1 / 2 ^ 28 := by
      rw [div_le_div_iff₀ (by positivity) (by positivity)]
      have : (2 : ℝ) ^ 25 * 2 ^ 28 = 2 ^ 53 := by norm_num
      nlinarith
    have h28 : (1 : ℝ) / 2 ^ 28 + 1 / 2 ^ 28 < 1 / 2 ^ 25 := by norm_num
    have : y = R.fl s - 1 / 2 := hy
    have : a = i + 3 / 2 := ha
    linarith
  have hfl : pyInt (R.fl y) = i := by
    unfold pyInt
    rw [if_pos (hi0.trans g1), Int.floor_eq_iff]
    exact ⟨by exact_mod_cast g1, by exact_mod_cast g2⟩
  unfold labelFl
  simp only
  rw [hx, ← hs, ← hy, hfl]
  refine Prod.ext rfl ?_
  show Int.fdiv ((i : ℤ) * (i + 3)) 2 - ((tri i + c : ℕ) : ℤ) = i - c
  have e : (i : ℤ) * (i + 3) = 2 * (tri i + i) := by
    have : (2 * tri i : ℤ) = i * (i + 1) := by exact_mod_cast htri
    linear_combination -this
  rw [e, Int.mul_fdiv_cancel_left _ (by norm_num)]
  push_cast
  ring

/-- **C129**: the labels in double precision are those with the exact square root (C02). -/
theorem label_float_eq (R : Rounding) (k : ℕ) (hk : k < 2 ^ 47) :
    labelFl R.fl k = label Real.sqrt k := by
  obtain ⟨i, c, hc, rfl⟩ := exists_row k
  have hi : i < 2 ^ 24 := by
    by_contra h
    have h1 : 2 ^ 24 * (2 ^ 24 + 1) ≤ i * (i + 1) := Nat.mul_le_mul (by omega) (by omega)
    have h2 : 2 * tri i = i * (i + 1) := by
      unfold tri
      exact Nat.mul_div_cancel' (Nat.even_mul_succ_self i).two_dvd
    omega
  rw [label_float R i c hc hi, label_sqrt i c hc]

/-- A relative error alone is not enough: if the square root of `2.25` came out slightly too small,
the second spectrum would be labelled `(0, -1)`. -/
theorem label_needs_exact {rt : ℝ → ℝ} (h : 1 / 2 ≤ rt (9 / 4)) (h' : rt (9 / 4) < 3 / 2) :
    label rt 1 = (0, -1) := by
  have e : (2 * ((1 : ℕ) : ℝ) + 1 / 4) = 9 / 4 := by norm_num
  have hi : pyInt (rt (9 / 4) - 1 / 2) = 0 := by
    unfold pyInt
    rw [if_pos (by linarith), Int.floor_eq_iff]
    constructor
    · push_cast; linarith
    · push_cast; linarith
  unfold label
  rw [e, hi]
  rfl

/-- The fourth entry belongs to fields 2 and 2, in double precision. -/
example : labelFl double.fl 3 = (2, 2) := label_float double 2 0 (by norm_num) (by norm_num)

end Glass.Spectra
