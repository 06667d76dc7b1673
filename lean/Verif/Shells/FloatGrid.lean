import Mathlib.Tactic.Linarith
import Mathlib.Tactic.Positivity
import Mathlib.Tactic.FieldSimp
import Mathlib.Tactic.NormNum
import Verif.Spectra.FloatLabels
import Verif.Shells.Model
import Verif.Observations.Model

/-!
# Grids with a step in floating point (C134)

`redshift_grid`, `distance_grid` and `fixed_zbins` take the length of the grid from a rounded
quotient.
-/

namespace Glass.Shells

open Glass.Spectra

/-- The number of points of `xp.arange` for floating point numbers. -/
noncomputable def arangeSize (fl : ℝ → ℝ) (start stop step : ℝ) : ℕ :=
  ⌈fl (fl (stop - start) / step)⌉₊

/-- `xp.arange` of NumPy for floating point numbers: the length is the rounded up quotient, the
first two points are `start` and `start + step`, all others follow from their difference. -/
noncomputable def arangeFl (fl : ℝ → ℝ) (start stop step : ℝ) : List ℝ :=
  let delta := fl (fl (start + step) - start)
  (List.range (arangeSize fl start stop step)).map fun k : ℕ =>
    if k = 0 then start else if k = 1 then fl (start + step) else fl (start + fl (k * delta))

/-- `shells.py:879-880`, `_uniform_grid` with a step, with every operation rounded. -/
noncomputable def stepGridFl (fl : ℝ → ℝ) (start stop step : ℝ) : List ℝ :=
  arangeFl fl start (fl (stop + step)) step

/-- `observations.py:260-264`: the edges of `fixed_zbins` with a step, with every operation
rounded. -/
noncomputable def zbinEdgesFl (fl : ℝ → ℝ) (nextafter : ℝ → ℝ → ℝ) (zmin zmax dz : ℝ) : List ℝ :=
  arangeFl fl zmin (nextafter (fl (zmax + dz)) zmax) dz

theorem length_stepGridFl (fl : ℝ → ℝ) (start stop step : ℝ) :
    (stepGridFl fl start stop step).length = arangeSize fl start (fl (stop + step)) step := by
  simp [stepGridFl, arangeFl]

theorem length_zbinEdgesFl (fl : ℝ → ℝ) (nextafter : ℝ → ℝ → ℝ) (zmin zmax dz : ℝ) :
    (zbinEdgesFl fl nextafter zmin zmax dz).length =
      arangeSize fl zmin (nextafter (fl (zmax + dz)) zmax) dz := by
  simp [zbinEdgesFl, arangeFl]

/-- Specification: the largest error of the quotient. -/
noncomputable def quotientError (stop step : ℝ) : ℝ := (stop + step) / step / 2 ^ 50

theorem quotient_error (R : Rounding) (start stop step s : ℝ) (h0 : 0 ≤ start) (h1 : start ≤ stop)
    (hs : 0 < step) (h : |s - (stop + step)| ≤ 4 * (stop + step) / 2 ^ 53) :
    |R.fl (R.fl (s - start) / step) - ((stop - start) / step + 1)| ≤ quotientError stop step := by
  have hS : 0 < stop + step := by linarith
  set S := stop + step with hSd
  have e2 := R.error (s - start)
  have e3 := R.error (R.fl (s - start) / step)
  set d := R.fl (s - start) with hd
  have hb : |s - start| ≤ S + 4 * S / 2 ^ 53 := by
    rw [abs_le] at h ⊢
    constructor <;> linarith [h.1, h.2]
  have hb' : |s - start| ≤ 2 * S := by linarith
  have hd1 : |d - (S - start)| ≤ 6 * S / 2 ^ 53 := by
    have : d - (S - start) = (d - (s - start)) + (s - S) := by ring
    rw [this]
    refine (abs_add_le _ _).trans ?_
    linarith
  have hd2 : |d| ≤ 2 * S := by
    have : d = (d - (S - start)) + (S - start) := by ring
    rw [this]
    refine (abs_add_le _ _).trans ?_
    have : |S - start| ≤ S := by rw [abs_le]; constructor <;> linarith
    linarith
  have e3' : |R.fl (d / step) - d / step| ≤ 2 * S / step / 2 ^ 53 := by
    refine e3.trans ?_
    rw [abs_div, abs_of_pos hs]
    gcongr
  have e4 : |d / step - ((stop - start) / step + 1)| ≤ 6 * S / 2 ^ 53 / step := by
    have : d / step - ((stop - start) / step + 1) = (d - (S - start)) / step := by
      rw [hSd]; field_simp; ring
    rw [this, abs_div, abs_of_pos hs]
    gcongr
  have : R.fl (d / step) - ((stop - start) / step + 1) =
      (R.fl (d / step) - d / step) + (d / step - ((stop - start) / step + 1)) := by ring
  rw [this]
  refine (abs_add_le _ _).trans ((add_le_add e3' e4).trans (le_of_eq ?_))
  unfold quotientError
  rw [← hSd]
  field_simp
  norm_num

theorem natCeil_two (r : ℝ) (k : ℕ) (h : |r - (k + 1)| < 1) :
    (⌈r⌉₊ = k + 1 ∨ ⌈r⌉₊ = k + 2) ∧ (⌈r⌉₊ = k + 1 ↔ r ≤ k + 1) := by
  rw [abs_lt] at h
  have h1 : k < ⌈r⌉₊ := Nat.lt_ceil.2 (by linarith)
  have h2 : ⌈r⌉₊ ≤ k + 2 := Nat.ceil_le.2 (by push_cast; linarith)
  refine ⟨by omega, ?_⟩
  have h3 : ⌈r⌉₊ ≤ k + 1 ↔ r ≤ k + 1 := by
    rw [Nat.ceil_le]; push_cast; rfl
  rw [← h3]
  omega

/-- **C134**, the part that holds: in floating point, a grid over `k` steps, up to rounding, has
`k + 1` points or one more; it never has too few. -/
theorem step_grid_length_partial (R : Rounding) (start stop step : ℝ) (k : ℕ) (h0 : 0 ≤ start)
    (h1 : start ≤ stop) (hs : 0 < step)
    (hk : |(stop - start) / step - k| + quotientError stop step < 1) :
    (stepGridFl R.fl start stop step).length = k + 1 ∨
      (stepGridFl R.fl start stop step).length = k + 2 := by
  rw [length_stepGridFl]
  refine (natCeil_two _ k ?_).1
  have hS : 0 < stop + step := by linarith
  have h := quotient_error R start stop step (R.fl (stop + step)) h0 h1 hs (by
    refine (R.error _).trans ?_
    rw [abs_of_pos hS]
    gcongr
    linarith)
  set r := R.fl (R.fl (R.fl (stop + step) - start) / step)
  have : r - (k + 1) = (r - ((stop - start) / step + 1)) + ((stop - start) / step - k) := by ring
  rw [this]
  exact (abs_add_le _ _).trans_lt (by linarith)

/-- **C134**: the grid has `k + 1` points if the range is short of `k` steps by more than the
rounding error, but less than a step. -/
theorem step_grid_length_below (R : Rounding) (start stop step : ℝ) (k : ℕ) (h0 : 0 ≤ start)
    (h1 : start ≤ stop) (hs : 0 < step)
    (hk : (stop - start) / step + quotientError stop step ≤ k)
    (hk' : (k : ℝ) - 1 < (stop - start) / step - quotientError stop step) :
    (stepGridFl R.fl start stop step).length = k + 1 := by
  rw [length_stepGridFl]
  have hS : 0 < stop + step := by linarith
  have h := quotient_error R start stop step (R.fl (stop + step)) h0 h1 hs (by
    refine (R.error _).trans ?_
    rw [abs_of_pos hS]
    gcongr
    linarith)
  unfold arangeSize
  set r := R.fl (R.fl (R.fl (stop + step) - start) / step)
  rw [abs_le] at h
  apply le_antisymm
  · exact Nat.ceil_le.2 (by push_cast; linarith [h.2])
  · have : k < ⌈r⌉₊ := Nat.lt_ceil.2 (by linarith [h.1])
    omega

/-- **C134**, the part that holds for `fixed_zbins`: with a neighbouring number as the end, there are
`k` bins over `k` steps, up to rounding, or one more. -/
theorem zbin_edges_length_partial (R : Rounding) (nextafter : ℝ → ℝ → ℝ)
    (hn : ∀ x y, |nextafter x y - x| ≤ |x| / 2 ^ 52) (zmin zmax dz : ℝ) (k : ℕ) (h0 : 0 ≤ zmin)
    (h1 : zmin ≤ zmax) (hs : 0 < dz)
    (hk : |(zmax - zmin) / dz - k| + quotientError zmax dz < 1) :
    (zbinEdgesFl R.fl nextafter zmin zmax dz).length = k + 1 ∨
      (zbinEdgesFl R.fl nextafter zmin zmax dz).length = k + 2 := by
  rw [length_zbinEdgesFl]
  refine (natCeil_two _ k ?_).1
  have hS : 0 < zmax + dz := by linarith
  have e1 := R.error (zmax + dz)
  have e2 := hn (R.fl (zmax + dz)) zmax
  rw [abs_of_pos hS] at e1
  have e3 : |R.fl (zmax + dz)| ≤ (zmax + dz) + (zmax + dz) / 2 ^ 53 := by
    rw [abs_le] at e1 ⊢
    have : 0 < (zmax + dz) / 2 ^ 53 := by positivity
    constructor <;> linarith [e1.1, e1.2]
  have h := quotient_error R zmin zmax dz (nextafter (R.fl (zmax + dz)) zmax) h0 h1 hs (by
    have : nextafter (R.fl (zmax + dz)) zmax - (zmax + dz) =
        (nextafter (R.fl (zmax + dz)) zmax - R.fl (zmax + dz)) + (R.fl (zmax + dz) - (zmax + dz)) := by
      ring
    rw [this]
    refine (abs_add_le _ _).trans ?_
    linarith)
  set r := R.fl (R.fl (nextafter (R.fl (zmax + dz)) zmax - zmin) / dz)
  have : r - (k + 1) = (r - ((zmax - zmin) / dz + 1)) + ((zmax - zmin) / dz - k) := by ring
  rw [this]
  exact (abs_add_le _ _).trans_lt (by linarith)

/-! ## Counterexamples in double precision -/

theorem roundDouble_of (x : ℝ) (e : ℤ) (m : ℤ) (h1 : (2 : ℝ) ^ e ≤ x) (h2 : x < (2 : ℝ) ^ (e + 1))
    (h3 : |x / (2 : ℝ) ^ (e - 52) - m| < 1 / 2) : roundDouble x = m * (2 : ℝ) ^ (e - 52) := by
  have hx : 0 < x := lt_of_lt_of_le (by positivity) h1
  have hlog : Int.log 2 x = e := by
    apply le_antisymm
    · have : Int.log 2 x < e + 1 := by
        rw [← Int.lt_zpow_iff_log_lt (by norm_num) hx]
        exact_mod_cast h2
      omega
    · rw [← Int.zpow_le_iff_le_log (by norm_num) hx]
      exact_mod_cast h1
  unfold roundDouble roundPos
  rw [if_pos hx, hlog]
  congr 2
  rw [abs_lt] at h3
  have hr : round (x / (2 : ℝ) ^ (e - 52)) = m := by
    rw [round_eq, Int.floor_eq_iff]
    constructor <;> linarith [h3.1, h3.2]
  rw [roundEven, if_neg, hr]
  rintro ⟨h4, -⟩
  have h5 := Int.floor_add_fract (x / (2 : ℝ) ^ (e - 52))
  rw [h4] at h5
  rw [← h5] at h3
  have h6 : ⌊x / (2 : ℝ) ^ (e - 52)⌋ < m := by
    have : (⌊x / (2 : ℝ) ^ (e - 52)⌋ : ℝ) < m := by linarith [h3.2]
    exact_mod_cast this
  have h7 : m < ⌊x / (2 : ℝ) ^ (e - 52)⌋ + 1 := by
    have : (m : ℝ) < ⌊x / (2 : ℝ) ^ (e - 52)⌋ + 1 := by linarith [h3.1]
    exact_mod_cast this
  omega

/-- A number in the middle is rounded to the even neighbour. -/
theorem roundDouble_tie (x : ℝ) (e : ℤ) (m : ℤ) (h1 : (2 : ℝ) ^ e ≤ x) (h2 : x < (2 : ℝ) ^ (e + 1))
    (hm : Even m) (h3 : |x / (2 : ℝ) ^ (e - 52) - m| = 1 / 2) :
    roundDouble x = m * (2 : ℝ) ^ (e - 52) := by
  have hx : 0 < x := lt_of_lt_of_le (by positivity) h1
  have hlog : Int.log 2 x = e := by
    apply le_antisymm
    · have : Int.log 2 x < e + 1 := by
        rw [← Int.lt_zpow_iff_log_lt (by norm_num) hx]
        exact_mod_cast h2
      omega
    · rw [← Int.zpow_le_iff_le_log (by norm_num) hx]
      exact_mod_cast h1
  unfold roundDouble roundPos
  rw [if_pos hx, hlog]
  congr 2
  rcases (abs_eq (by norm_num)).1 h3 with h4 | h4
  · have e1 : ⌊x / (2 : ℝ) ^ (e - 52)⌋ = m := by
      rw [Int.floor_eq_iff]
      constructor <;> linarith
    rw [roundEven, if_pos ⟨by rw [Int.fract, e1]; linarith, by rw [e1]; exact hm⟩, e1]
  · have e1 : ⌊x / (2 : ℝ) ^ (e - 52)⌋ = m - 1 := by
      rw [Int.floor_eq_iff]
      push_cast
      constructor <;> linarith
    rw [roundEven, if_neg, round_eq, Int.floor_eq_iff]
    · constructor <;> linarith
    · rw [e1]
      rintro ⟨-, h5⟩
      exact (Int.even_sub_one.1 h5) hm

/-- The double `0.1`. -/
noncomputable def tenth : ℝ := roundDouble (1 / 10)

theorem tenth_eq : tenth = 7205759403792794 / 2 ^ 56 := by
  unfold tenth
  rw [roundDouble_of (1 / 10) (-4) 7205759403792794 (by norm_num) (by norm_num)
    (by rw [abs_lt]; constructor <;> norm_num)]
  norm_num

/-- **C134**, counterexample: `redshift_grid(0.5, 1.0, dz=0.1)` has seven points in double precision,
and ends above 1.09. -/
theorem redshift_grid_beyond :
    (stepGridFl roundDouble (1 / 2) 1 tenth).length = 7 ∧
    ∃ z ∈ stepGridFl roundDouble (1 / 2) 1 tenth, 1.09 < z := by
  have s1 : roundDouble (1 + tenth) = 4953959590107546 / 2 ^ 52 := by
    rw [tenth_eq, roundDouble_of _ 0 4953959590107546 (by norm_num) (by norm_num)
      (by rw [abs_lt]; constructor <;> norm_num)]
    norm_num
  have s2 : roundDouble (4953959590107546 / 2 ^ 52 - 1 / 2) = 5404319552844596 / 2 ^ 53 := by
    rw [roundDouble_of _ (-1) 5404319552844596 (by norm_num) (by norm_num)
      (by rw [abs_lt]; constructor <;> norm_num)]
    norm_num
  have s3 : roundDouble (5404319552844596 / 2 ^ 53 / tenth) = 6755399441055745 / 2 ^ 50 := by
    rw [tenth_eq, roundDouble_of _ 2 6755399441055745 (by norm_num) (by norm_num)
      (by rw [abs_lt]; constructor <;> norm_num)]
    norm_num
  have hn : arangeSize roundDouble (1 / 2) (roundDouble (1 + tenth)) tenth = 7 := by
    unfold arangeSize
    rw [s1, s2, s3, Nat.ceil_eq_iff (by norm_num)]
    constructor <;> norm_num
  refine ⟨by rw [length_stepGridFl, hn], ?_⟩
  have hdelta : 0.0999 < roundDouble (roundDouble (1 / 2 + tenth) - 1 / 2) := by
    have q1 := double.error (1 / 2 + tenth)
    have q2 := double.error (roundDouble (1 / 2 + tenth) - 1 / 2)
    simp only [double] at q1 q2
    rw [abs_of_pos (show 0 < 1 / 2 + tenth by rw [tenth_eq]; norm_num), abs_le] at q1
    set a := roundDouble (1 / 2 + tenth)
    rw [tenth_eq] at q1
    have q0 : 0 < a - 1 / 2 := by norm_num at q1 ⊢; linarith [q1.1]
    rw [abs_of_pos q0, abs_le] at q2
    norm_num at q1 q2 ⊢
    linarith [q1.1, q1.2, q2.1]
  set delta := roundDouble (roundDouble (1 / 2 + tenth) - 1 / 2) with hd
  refine ⟨roundDouble (1 / 2 + roundDouble (6 * delta)), ?_, ?_⟩
  · unfold stepGridFl arangeFl
    simp only
    rw [hn, List.mem_map]
    refine ⟨6, by simp, ?_⟩
    rw [if_neg (by norm_num), if_neg (by norm_num), ← hd]
    norm_num
  · have q1 := double.error (6 * delta)
    have q2 := double.error (1 / 2 + roundDouble (6 * delta))
    simp only [double] at q1 q2
    rw [abs_of_pos (show 0 < 6 * delta by norm_num at hdelta; linarith), abs_le] at q1
    set a := roundDouble (6 * delta)
    have q0 : 0 < 1 / 2 + a := by norm_num at q1 hdelta; linarith [q1.1]
    rw [abs_of_pos q0, abs_le] at q2
    norm_num at q1 q2 hdelta ⊢
    linarith [q1.1, q2.1]

/-- In real numbers, the same grid has six points and ends at 1. -/
theorem redshift_grid_real :
    redshiftGrid (1 / 2) 1 (some (1 / 10)) none = .ok ((List.range 6).map fun k : ℕ => 1 / 2 + (k : ℝ) * (1 / 10)) := by
  have h : ⌈((1 : ℝ) + 1 / 10 - 1 / 2) / (1 / 10)⌉₊ = 6 := by
    rw [show ((1 : ℝ) + 1 / 10 - 1 / 2) / (1 / 10) = ((6 : ℕ) : ℝ) by norm_num, Nat.ceil_natCast]
  unfold redshiftGrid uniformGrid arange
  simp only [h]

/-- Specification: `p` is the largest floating point number below `s`. -/
def IsPrevious (fl : ℝ → ℝ) (p s : ℝ) : Prop :=
  fl p = p ∧ p < s ∧ ∀ y, fl y = y → y < s → y ≤ p

theorem isPrevious_double (m : ℤ) (e : ℤ) (h1 : (2 : ℝ) ^ e ≤ m * (2 : ℝ) ^ (e - 52))
    (h2 : ((m : ℝ) + 1) * (2 : ℝ) ^ (e - 52) < (2 : ℝ) ^ (e + 1)) :
    IsPrevious roundDouble (m * (2 : ℝ) ^ (e - 52)) (((m : ℝ) + 1) * (2 : ℝ) ^ (e - 52)) := by
  have hu : (0 : ℝ) < (2 : ℝ) ^ (e - 52) := by positivity
  have hlt : (m : ℝ) * (2 : ℝ) ^ (e - 52) < ((m : ℝ) + 1) * (2 : ℝ) ^ (e - 52) := by
    rw [add_mul]; linarith
  refine ⟨?_, hlt, ?_⟩
  · apply roundDouble_of _ e m h1 (hlt.trans h2)
    rw [mul_div_assoc, div_self hu.ne', mul_one, sub_self, abs_zero]
    norm_num
  · intro y hy hys
    by_contra hcon
    push Not at hcon
    have hy0 : (2 : ℝ) ^ e ≤ y := h1.trans hcon.le
    have hy1 : y < (2 : ℝ) ^ (e + 1) := hys.trans h2
    have hyp : 0 < y := lt_of_lt_of_le (by positivity) hy0
    have hlog : Int.log 2 y = e := by
      apply le_antisymm
      · have : Int.log 2 y < e + 1 := by
          rw [← Int.lt_zpow_iff_log_lt (by norm_num) hyp]
          exact_mod_cast hy1
        omega
      · rw [← Int.zpow_le_iff_le_log (by norm_num) hyp]
        exact_mod_cast hy0
    unfold roundDouble roundPos at hy
    rw [if_pos hyp, hlog] at hy
    set n := roundEven (y / (2 : ℝ) ^ (e - 52))
    rw [← hy] at hcon hys
    have c1 : (m : ℝ) < n := lt_of_mul_lt_mul_right hcon hu.le
    have c2 : (n : ℝ) < m + 1 := lt_of_mul_lt_mul_right hys hu.le
    have c1' : m < n := by exact_mod_cast c1
    have c2' : n < m + 1 := by exact_mod_cast c2
    omega

/-- **C134**, counterexample: `fixed_zbins(1.4, 1.6, dz=0.1)` has three bins in double precision, in
spite of the end being lowered to the previous number. -/
theorem fixed_zbins_beyond (nextafter : ℝ → ℝ → ℝ)
    (hn : ∀ x y, y < x → IsPrevious roundDouble (nextafter x y) x) :
    (zbinEdgesFl roundDouble nextafter (roundDouble 1.4) (roundDouble 1.6) tenth).length = 4 := by
  have z1 : roundDouble 1.4 = 6305039478318694 / 2 ^ 52 := by
    rw [roundDouble_of _ 0 6305039478318694 (by norm_num) (by norm_num)
      (by rw [abs_lt]; constructor <;> norm_num)]
    norm_num
  have z2 : roundDouble 1.6 = 7205759403792794 / 2 ^ 52 := by
    rw [roundDouble_of _ 0 7205759403792794 (by norm_num) (by norm_num)
      (by rw [abs_lt]; constructor <;> norm_num)]
    norm_num
  have s1 : roundDouble (7205759403792794 / 2 ^ 52 + tenth) = 7656119366529844 / 2 ^ 52 := by
    rw [tenth_eq, roundDouble_of _ 0 7656119366529844 (by norm_num) (by norm_num)
      (by rw [abs_lt]; constructor <;> norm_num)]
    norm_num
  have hp : nextafter (7656119366529844 / 2 ^ 52) (7205759403792794 / 2 ^ 52) =
      7656119366529843 / 2 ^ 52 := by
    have a1 := hn (7656119366529844 / 2 ^ 52) (7205759403792794 / 2 ^ 52) (by norm_num)
    have a2 := isPrevious_double 7656119366529843 0 (by norm_num) (by norm_num)
    rw [show (((7656119366529843 : ℤ) : ℝ) + 1) * (2 : ℝ) ^ ((0 : ℤ) - 52) = 7656119366529844 / 2 ^ 52 by
      norm_num, show ((7656119366529843 : ℤ) : ℝ) * (2 : ℝ) ^ ((0 : ℤ) - 52) =
      7656119366529843 / 2 ^ 52 by norm_num] at a2
    exact le_antisymm (a2.2.2 _ a1.1 a1.2.1) (a1.2.2 _ a2.1 a2.2.1)
  have s2 : roundDouble (7656119366529843 / 2 ^ 52 - 6305039478318694 / 2 ^ 52) =
      5404319552844596 / 2 ^ 54 := by
    rw [roundDouble_of _ (-2) 5404319552844596 (by norm_num) (by norm_num)
      (by rw [abs_lt]; constructor <;> norm_num)]
    norm_num
  have s3 : roundDouble (5404319552844596 / 2 ^ 54 / tenth) = 6755399441055745 / 2 ^ 51 := by
    rw [tenth_eq, roundDouble_of _ 1 6755399441055745 (by norm_num) (by norm_num)
      (by rw [abs_lt]; constructor <;> norm_num)]
    norm_num
  rw [length_zbinEdgesFl, z1, z2, s1, hp]
  unfold arangeSize
  rw [s2, s3, Nat.ceil_eq_iff (by norm_num)]
  constructor <;> norm_num

/-- The lengths of the counterexamples are the larger of the two possible. -/
example : (stepGridFl double.fl (1 / 2) 1 tenth).length = 5 + 1 ∨
    (stepGridFl double.fl (1 / 2) 1 tenth).length = 5 + 2 := by
  apply step_grid_length_partial double (1 / 2) 1 tenth 5 (by norm_num) (by norm_num)
    (by rw [tenth_eq]; norm_num)
  rw [tenth_eq, quotientError, ← lt_sub_iff_add_lt, abs_lt]
  constructor <;> norm_num

/-- A range that is short of five steps. -/
example : (stepGridFl double.fl 0 (499 / 1000) (1 / 10)).length = 6 := by
  apply step_grid_length_below double 0 (499 / 1000) (1 / 10) 5 le_rfl (by norm_num) (by norm_num)
  · rw [quotientError]; norm_num
  · rw [quotientError]; norm_num

end Glass.Shells
