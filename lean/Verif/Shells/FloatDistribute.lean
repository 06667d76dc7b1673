import Mathlib.Tactic.Linarith
import Mathlib.Tactic.Positivity
import Mathlib.Tactic.NormNum
import Mathlib.Algebra.Order.Ring.Pow
import Verif.Shells.ShellProps
import Verif.Shells.FloatGrid
import Verif.Galaxies.FloatSampling
import Verif.Grf.FloatIternorm

/-!
# Probabilities of shells in floating point (C152)

`distribute` passes the normalised weights of the shells to `multinomial`, which rejects
probabilities below zero or above one, and probabilities with a sum above `1 + 1e-12`.  The sum of
the weights is computed in an arbitrary order.
-/

namespace Glass.Shells

open Glass.Spectra Glass.Num

/-! ## Model -/

/-- `xp.sum` with every addition rounded, in an arbitrary order: `IsSum fl l a` if `a` is a sum of the
numbers `l`. -/
inductive IsSum (fl : ℝ → ℝ) : List ℝ → ℝ → Prop
  | nil : IsSum fl [] 0
  | single (x : ℝ) : IsSum fl [x] x
  | append {l l' : List ℝ} {a a' : ℝ} : IsSum fl l a → IsSum fl l' a' → IsSum fl (l ++ l') (fl (a + a'))
  | perm {l l' : List ℝ} {a : ℝ} : l.Perm l' → IsSum fl l a → IsSum fl l' a

/-- `shells.py:1069-1084` for one redshift with rounded operations: the probabilities for the given
weights of the shells and their sum. -/
noncomputable def probsFl (fl : ℝ → ℝ) (weights : List ℝ) (wnorm : ℝ) : List ℝ :=
  open Classical in
  let outside : Prop := wnorm = 0
  let weights := weights.map fun w => fl (w / (if outside then 1 else wnorm))
  let pout := if outside then 1 else 0
  pout :: weights

/-! ## Sums -/

/-- Without rounding, the order does not matter. -/
theorem isSum_real {l : List ℝ} {a : ℝ} (h : IsSum id l a) : a = l.sum := by
  induction h with
  | nil => rfl
  | single x => simp
  | append _ _ h1 h2 => rw [h1, h2, List.sum_append]; rfl
  | perm hp _ h => rw [h, hp.sum_eq]

/-- Sums of numbers that are not negative: a number, not less than any of the terms, and close to the
exact sum. -/
theorem isSum_bounds (R : Rounding) (hid : ∀ x, R.fl (R.fl x) = R.fl x) {l : List ℝ} {a : ℝ}
    (h : IsSum R.fl l a) (hl : ∀ x ∈ l, 0 ≤ x ∧ R.fl x = x) :
    R.fl a = a ∧ 0 ≤ a ∧ (∀ x ∈ l, x ≤ a) ∧
      (1 - 1 / 2 ^ 53 : ℝ) ^ l.length * l.sum ≤ a ∧ a ≤ (1 + 1 / 2 ^ 53 : ℝ) ^ l.length * l.sum := by
  induction h with
  | nil => simp [R.zero]
  | single x =>
    obtain ⟨h0, h1⟩ := hl x (by simp)
    refine ⟨h1, h0, by simp, ?_, ?_⟩ <;> simp only [List.length_singleton, pow_one, List.sum_singleton]
    · have : (1 - 1 / 2 ^ 53 : ℝ) ≤ 1 := by norm_num
      nlinarith
    · have : 1 ≤ (1 + 1 / 2 ^ 53 : ℝ) := by norm_num
      nlinarith
  | @append l l' a a' hla hla' ih ih' =>
    obtain ⟨f1, n1, m1, b1, c1⟩ := ih fun x hx => hl x (by simp [hx])
    obtain ⟨f2, n2, m2, b2, c2⟩ := ih' fun x hx => hl x (by simp [hx])
    have s1 : 0 ≤ l.sum := List.sum_nonneg fun x hx => (hl x (by simp [hx])).1
    have s2 : 0 ≤ l'.sum := List.sum_nonneg fun x hx => (hl x (by simp [hx])).1
    have g1 : a ≤ R.fl (a + a') := by
      have := R.mono (show a ≤ a + a' by linarith)
      rwa [f1] at this
    have g2 : a' ≤ R.fl (a + a') := by
      have := R.mono (show a' ≤ a + a' by linarith)
      rwa [f2] at this
    refine ⟨hid _, R.nonneg (by linarith), ?_, ?_⟩
    · intro x hx
      rcases List.mem_append.1 hx with h | h
      · exact (m1 x h).trans g1
      · exact (m2 x h).trans g2
    · rcases eq_or_ne l [] with rfl | hne
      · have ha : a = 0 := by simp at c1; linarith
        rw [ha, zero_add, f2]
        simp only [List.nil_append]
        exact ⟨b2, c2⟩
      rcases eq_or_ne l' [] with rfl | hne'
      · have ha : a' = 0 := by simp at c2; linarith
        rw [ha, add_zero, f1]
        simp only [List.append_nil]
        exact ⟨b1, c1⟩
      have p1 : 1 ≤ l.length := List.length_pos_of_ne_nil hne
      have p2 : 1 ≤ l'.length := List.length_pos_of_ne_nil hne'
      have hb := R.bounds (show 0 ≤ a + a' by linarith)
      rw [List.length_append, List.sum_append]
      have k0 : (0 : ℝ) ≤ 1 - 1 / 2 ^ 53 := by norm_num
      have k1 : (1 - 1 / 2 ^ 53 : ℝ) ≤ 1 := by norm_num
      have k2 : (1 : ℝ) ≤ 1 + 1 / 2 ^ 53 := by norm_num
      constructor
      · have d1 : (1 - 1 / 2 ^ 53 : ℝ) ^ (l.length + l'.length) ≤
            (1 - 1 / 2 ^ 53) * (1 - 1 / 2 ^ 53) ^ l.length := by
          rw [← pow_succ']; exact pow_le_pow_of_le_one k0 k1 (by omega)
        have d2 : (1 - 1 / 2 ^ 53 : ℝ) ^ (l.length + l'.length) ≤
            (1 - 1 / 2 ^ 53) * (1 - 1 / 2 ^ 53) ^ l'.length := by
          rw [← pow_succ']; exact pow_le_pow_of_le_one k0 k1 (by omega)
        refine le_trans ?_ hb.1
        have e1 := mul_le_mul_of_nonneg_right d1 s1
        have e2 := mul_le_mul_of_nonneg_right d2 s2
        have e3 := mul_le_mul_of_nonneg_left b1 k0
        have e4 := mul_le_mul_of_nonneg_left b2 k0
        rw [mul_add, mul_add]
        rw [mul_assoc] at e1 e2
        exact add_le_add (e1.trans e3) (e2.trans e4)
      · have d1 : (1 + 1 / 2 ^ 53 : ℝ) * (1 + 1 / 2 ^ 53) ^ l.length ≤
            (1 + 1 / 2 ^ 53 : ℝ) ^ (l.length + l'.length) := by
          rw [← pow_succ']; exact pow_le_pow_right₀ k2 (by omega)
        have d2 : (1 + 1 / 2 ^ 53 : ℝ) * (1 + 1 / 2 ^ 53) ^ l'.length ≤
            (1 + 1 / 2 ^ 53 : ℝ) ^ (l.length + l'.length) := by
          rw [← pow_succ']; exact pow_le_pow_right₀ k2 (by omega)
        refine hb.2.trans ?_
        have k3 : (0 : ℝ) ≤ 1 + 1 / 2 ^ 53 := by norm_num
        have e1 := mul_le_mul_of_nonneg_right d1 s1
        have e2 := mul_le_mul_of_nonneg_right d2 s2
        have e3 := mul_le_mul_of_nonneg_left c1 k3
        have e4 := mul_le_mul_of_nonneg_left c2 k3
        rw [mul_add, mul_add]
        rw [mul_assoc] at e1 e2
        exact add_le_add (e3.trans e1) (e4.trans e2)
  | perm hp _ ih =>
    obtain ⟨h1, h2, h3, h4⟩ := ih fun x hx => hl x (hp.mem_iff.1 hx)
    refine ⟨h1, h2, fun x hx => h3 x (hp.mem_iff.2 hx), ?_⟩
    rwa [hp.length_eq, hp.sum_eq] at h4

/-! ## Results -/

/-- **C152** Without rounding, these are the probabilities of the model. -/
theorem probs_fl_real (shells : List RadialWindow) (z : ℝ) {wnorm : ℝ}
    (h : IsSum id (shells.map fun w => interp (some 0) (some 0) w.knots z) wnorm) :
    probsFl id (shells.map fun w => interp (some 0) (some 0) w.knots z) wnorm =
      shellProbs shells z := by
  rw [isSum_real h]
  rfl

/-- **C152** A redshift is recognised to be outside of the shells exactly if all weights vanish, for
every order of summation. -/
theorem float_outside (R : Rounding) (hid : ∀ x, R.fl (R.fl x) = R.fl x) {weights : List ℝ}
    (hw : ∀ w ∈ weights, 0 ≤ w ∧ R.fl w = w) {wnorm : ℝ} (h : IsSum R.fl weights wnorm) :
    wnorm = 0 ↔ ∀ w ∈ weights, w = 0 := by
  obtain ⟨-, -, h3, -, h5⟩ := isSum_bounds R hid h hw
  constructor
  · intro h0 w hm
    exact le_antisymm ((h3 w hm).trans h0.le) (hw w hm).1
  · intro h0
    have : weights.sum = 0 := List.sum_eq_zero h0
    rw [this, mul_zero] at h5
    exact le_antisymm h5 (isSum_bounds R hid h hw).2.1

theorem sum_div (R : Rounding) {n : ℝ} (hn : 0 < n) : ∀ (l : List ℝ), (∀ w ∈ l, 0 ≤ w) →
    (1 - 1 / 2 ^ 53) * (l.sum / n) ≤ (l.map fun w => R.fl (w / n)).sum ∧
    (l.map fun w => R.fl (w / n)).sum ≤ (1 + 1 / 2 ^ 53) * (l.sum / n)
  | [], _ => by simp
  | w :: l, h => by
    obtain ⟨h1, h2⟩ := sum_div R hn l fun x hx => h x (by simp [hx])
    obtain ⟨b1, b2⟩ := R.bounds (div_nonneg (h w (by simp)) hn.le)
    simp only [List.map_cons, List.sum_cons]
    rw [add_div, mul_add, mul_add]
    exact ⟨add_le_add b1 h1, add_le_add b2 h2⟩

/-- **C152** The probabilities are between zero and one, and with up to 8000 shells, their sum is one up to
`9e-13`, so that they pass the check of `multinomial`. -/
theorem float_probs (R : Rounding) (hid : ∀ x, R.fl (R.fl x) = R.fl x) {weights : List ℝ}
    (hw : ∀ w ∈ weights, 0 ≤ w ∧ R.fl w = w) (hn : weights.length ≤ 8000) {wnorm : ℝ}
    (h : IsSum R.fl weights wnorm) :
    (∀ p ∈ probsFl R.fl weights wnorm, 0 ≤ p ∧ p ≤ 1) ∧
    |(probsFl R.fl weights wnorm).sum - 1| ≤ 9 / 10 ^ 13 := by
  obtain ⟨-, h2, h3, h4, h5⟩ := isSum_bounds R hid h hw
  unfold probsFl
  by_cases h0 : wnorm = 0
  · have hz := (float_outside R hid hw h).1 h0
    have hmap : (weights.map fun w => R.fl (w / 1)) = weights.map fun _ => (0 : ℝ) := by
      apply List.map_congr_left
      intro w hm
      rw [hz w hm, zero_div, R.zero]
    simp only [h0, if_true]
    rw [hmap]
    constructor
    · intro p hp
      rcases List.mem_cons.1 hp with rfl | hp
      · norm_num
      · obtain ⟨-, -, rfl⟩ := List.mem_map.1 hp
        norm_num
    · simp
      norm_num
  · have hpos : 0 < wnorm := lt_of_le_of_ne h2 (Ne.symm h0)
    simp only [h0, if_false]
    constructor
    · intro p hp
      rcases List.mem_cons.1 hp with rfl | hp
      · norm_num
      · obtain ⟨w, hm, rfl⟩ := List.mem_map.1 hp
        refine ⟨R.nonneg (div_nonneg (hw w hm).1 hpos.le), ?_⟩
        rw [← R.one]
        exact R.mono (div_le_one_of_le₀ (h3 w hm) hpos.le)
    · rw [List.sum_cons, zero_add]
      obtain ⟨d1, d2⟩ := sum_div R hpos weights fun w hm => (hw w hm).1
      have s0 : 0 ≤ weights.sum := List.sum_nonneg fun w hm => (hw w hm).1
      have q1 : (1 - 8000 / 2 ^ 53 : ℝ) ≤ (1 - 1 / 2 ^ 53) ^ weights.length := by
        have hb := one_add_mul_le_pow (a := (-(1 / 2 ^ 53) : ℝ)) (by norm_num) weights.length
        have hc : (weights.length : ℝ) ≤ 8000 := by exact_mod_cast hn
        have e : (1 + -(1 / 2 ^ 53) : ℝ) = 1 - 1 / 2 ^ 53 := by ring
        rw [e] at hb
        refine le_trans ?_ hb
        have : (weights.length : ℝ) * (1 / 2 ^ 53) ≤ 8000 * (1 / 2 ^ 53) := by gcongr
        norm_num at this ⊢
        linarith
      have q2 : (1 + 1 / 2 ^ 53 : ℝ) ^ weights.length ≤ 1 + 8050 / 2 ^ 53 := by
        have hx : (1 + 1 / 2 ^ 53 : ℝ) ^ weights.length * (1 - 1 / 2 ^ 53) ^ weights.length ≤ 1 := by
          rw [← mul_pow]
          exact pow_le_one₀ (by norm_num) (by norm_num)
        set x := (1 + 1 / 2 ^ 53 : ℝ) ^ weights.length
        have hx0 : 0 ≤ x := by positivity
        have hx1 : x * (1 - 8000 / 2 ^ 53) ≤ 1 := (mul_le_mul_of_nonneg_left q1 hx0).trans hx
        have : (1 : ℝ) ≤ (1 + 8050 / 2 ^ 53) * (1 - 8000 / 2 ^ 53) := by norm_num
        by_contra hcon
        push Not at hcon
        have : (1 + 8050 / 2 ^ 53) * (1 - 8000 / 2 ^ 53) < x * (1 - 8000 / 2 ^ 53) :=
          mul_lt_mul_of_pos_right hcon (by norm_num)
        linarith
      have t1 : weights.sum / wnorm ≤ 1 + 8050 / 2 ^ 53 := by
        rw [div_le_iff₀ hpos]
        have : (1 - 8000 / 2 ^ 53 : ℝ) * weights.sum ≤ wnorm :=
          (mul_le_mul_of_nonneg_right q1 s0).trans h4
        have : (1 + 8050 / 2 ^ 53) * ((1 - 8000 / 2 ^ 53 : ℝ) * weights.sum) ≤
            (1 + 8050 / 2 ^ 53) * wnorm := by gcongr
        refine le_trans ?_ this
        rw [← mul_assoc]
        have : (1 : ℝ) ≤ (1 + 8050 / 2 ^ 53) * (1 - 8000 / 2 ^ 53) := by norm_num
        nlinarith
      have t2 : 1 - 8050 / 2 ^ 53 ≤ weights.sum / wnorm := by
        rw [le_div_iff₀ hpos]
        have h6 : wnorm ≤ (1 + 8050 / 2 ^ 53 : ℝ) * weights.sum :=
          h5.trans (mul_le_mul_of_nonneg_right q2 s0)
        have k : (0 : ℝ) ≤ 1 - 8050 / 2 ^ 53 := by norm_num
        refine (mul_le_mul_of_nonneg_left h6 k).trans ?_
        rw [← mul_assoc]
        have : (1 - 8050 / 2 ^ 53) * (1 + 8050 / 2 ^ 53) ≤ (1 : ℝ) := by norm_num
        nlinarith
      rw [abs_le]
      constructor
      · have : (1 - 1 / 2 ^ 53) * (1 - 8050 / 2 ^ 53) ≤ (1 - 1 / 2 ^ 53) * (weights.sum / wnorm) := by
          have : (0 : ℝ) ≤ 1 - 1 / 2 ^ 53 := by norm_num
          gcongr
        norm_num at this d1 ⊢
        linarith
      · have : (1 + 1 / 2 ^ 53) * (weights.sum / wnorm) ≤ (1 + 1 / 2 ^ 53) * (1 + 8050 / 2 ^ 53) := by
          gcongr
        norm_num at this d2 ⊢
        linarith

/-- Non-vacuity: double precision, three shells. -/
example : (∀ x, double.fl (double.fl x) = double.fl x) ∧
    (∀ w ∈ [(1 : ℝ), 1 / 2, 0], 0 ≤ w ∧ double.fl w = w) ∧
    ∃ wnorm, IsSum double.fl [1, 1 / 2, 0] wnorm := by
  refine ⟨Glass.Galaxies.roundDouble_idem, ?_, _,
    .append (l := [1]) (.single _) (.append (l := [1 / 2]) (.single _) (.single 0))⟩
  intro w hw
  simp only [List.mem_cons, List.not_mem_nil, or_false] at hw
  rcases hw with rfl | rfl | rfl
  · exact ⟨by norm_num, double.one⟩
  · refine ⟨by norm_num, ?_⟩
    have := double.exact 2 (by norm_num)
    norm_num at this ⊢
    exact this
  · exact ⟨le_rfl, double.zero⟩

/-- **C152**, observation: with the weights 1, 2 and 0, the probabilities before the last one have a sum
of `1 - 2⁻⁵⁴` in double precision.  NumPy gives what is left to the last shell, although its weight is
zero. -/
theorem float_remainder : ∃ wnorm, IsSum roundDouble [1, 2, 0] wnorm ∧
    (probsFl roundDouble [1, 2, 0] wnorm).dropLast.sum = 1 - 1 / 2 ^ 54 ∧
    (probsFl roundDouble [1, 2, 0] wnorm).getLast? = some 0 := by
  have r1 : roundDouble (2 + 0) = 2 := by
    rw [roundDouble_of _ 1 (2 ^ 52) (by norm_num) (by norm_num) (by norm_num)]; norm_num
  have r2 : roundDouble (1 + 2) = 3 := by
    rw [roundDouble_of _ 1 6755399441055744 (by norm_num) (by norm_num) (by norm_num)]; norm_num
  have r3 : roundDouble (1 / 3) = 6004799503160661 / 2 ^ 54 := by
    rw [roundDouble_of _ (-2) 6004799503160661 (by norm_num) (by norm_num)
      (by rw [abs_lt]; constructor <;> norm_num)]; norm_num
  have r4 : roundDouble (2 / 3) = 6004799503160661 / 2 ^ 53 := by
    rw [roundDouble_of _ (-1) 6004799503160661 (by norm_num) (by norm_num)
      (by rw [abs_lt]; constructor <;> norm_num)]; norm_num
  have r5 : roundDouble 0 = 0 := double.zero
  have hsum : IsSum roundDouble [1, 2, 0] 3 := by
    have := IsSum.append (fl := roundDouble) (.single 1) (.append (.single 2) (.single 0))
    rw [r1, r2] at this
    exact this
  refine ⟨3, hsum, ?_, ?_⟩
  · simp [probsFl]
    rw [← one_div, r3, r4]
    norm_num
  · simp [probsFl, r5]

end Glass.Shells
