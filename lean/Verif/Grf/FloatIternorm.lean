import Mathlib.Tactic.Linarith
import Mathlib.Tactic.Positivity
import Mathlib.Tactic.FieldSimp
import Mathlib.Tactic.NormNum
import Verif.Grf.Iternorm
import Verif.Shells.FloatGrid

/-!
# Two correlated fields in floating point (C135)

`iternorm` for two fields and one mode, with every operation rounded.
-/

namespace Glass.Grf

open Glass.Spectra

/-- `fields.py:122-184` for two rows `(c00, 0)` and `(c11, c01)`, with every operation rounded: the
standard deviation of the first field, the weight of the first in the second, and the standard
deviation of the second.  (Sums have a single term, and `a` and `m` of the first pass are zero.) -/
noncomputable def twoRows (fl : ℝ → ℝ) (c00 c11 c01 : ℝ) : Except Err (ℝ × ℝ × ℝ) :=
  open Classical in
  if c00 < 0 then .error (.value "covariance matrix is not positive definite")
  else
    let s := fl (Real.sqrt c00)
    let u : ℝ := if 0 < s then 1 else 0
    let t : ℝ := if 0 < s then s else 1
    let m := fl (u / t)
    let a := fl (m * c01)
    let v := fl (c11 - fl (a * a))
    if v < 0 then .error (.value "covariance matrix is not positive definite")
    else .ok (s, a, fl (Real.sqrt v))

/-- The two rows as they come from `cls2cov`, for arrays of shape `(1, 2)`. -/
noncomputable def rowsOfTwo (c00 c11 c01 : ℝ) : List Row :=
  [⟨[1], 2, fun _ d => if d = 0 then c00 else 0⟩, ⟨[1], 2, fun _ d => if d = 0 then c11 else c01⟩]

/-- **C135**: without rounding, these are the results of the model of `iternorm`. -/
theorem two_rows_real (c00 c11 c01 : ℝ) :
    (∀ s a v, twoRows id c00 c11 c01 = .ok (s, a, v) → ∃ w0 w1 : Weight,
      iternorm (rowsOfTwo c00 c11 c01) none = ([w0, w1], none) ∧ w0.k = 1 ∧ w1.k = 1 ∧
      w0.w [0] 0 = 0 ∧ w0.w [0] 1 = s ∧ w1.w [0] 0 = a ∧ w1.w [0] 1 = v) ∧
    (∀ e, twoRows id c00 c11 c01 = .error e → (iternorm (rowsOfTwo c00 c11 c01) none).2 = some e) := by
  have hx : ∀ p : List ℕ → Prop, (∃ x ∈ ndindex [1], p x) ↔ p [0] := by
    intro p
    simp [ndindex]
  set row0 : Row := ⟨[1], 2, fun _ d => if d = 0 then c00 else 0⟩ with hr0
  set row1 : Row := ⟨[1], 2, fun _ d => if d = 0 then c11 else c01⟩ with hr1
  have h0 : c00 < 0 → step none row0 = .error (.value "covariance matrix is not positive definite") := by
    intro h
    unfold step cutAndSolve
    rw [if_neg (by simp [hr0])]
    simp only [hr0]
    rw [if_neg (by norm_num), if_pos]
    rw [hx]
    simpa using h
  have h1 : ¬ c00 < 0 → ∃ st, step none row0 = .ok st ∧ st.shape = [1] ∧ st.k = 1 ∧
      (∀ x i j, st.m x i j = 0) ∧ (∀ x i, st.a x i = 0) ∧ ∀ x, st.s x = Real.sqrt c00 := by
    intro h
    refine ⟨⟨[1], 1, fun _ _ _ => 0, fun _ _ => 0, fun _ => Real.sqrt c00⟩, ?_, ?_⟩
    · unfold step cutAndSolve
      rw [if_neg (by simp [hr0])]
      simp only [hr0]
      rw [if_neg (by norm_num), if_neg]
      · simp
      · rw [hx]
        simpa using h
    · simp
  have h2 : ∀ st : State, st.shape = [1] → st.k = 1 → (∀ x i j, st.m x i j = 0) →
      (∀ x i, st.a x i = 0) → (∀ x, st.s x = Real.sqrt c00) →
      let u : ℝ := if 0 < Real.sqrt c00 then 1 else 0
      let t : ℝ := if 0 < Real.sqrt c00 then Real.sqrt c00 else 1
      let a := u / t * c01
      (c11 - a * a < 0 →
        step (some st) row1 = .error (.value "covariance matrix is not positive definite")) ∧
      (¬ c11 - a * a < 0 → ∃ st', step (some st) row1 = .ok st' ∧ st'.k = 1 ∧ st'.a [0] 0 = a ∧
        st'.s [0] = Real.sqrt (c11 - a * a)) := by
    intro st e1 e2 e3 e4 e5 u t a
    have hext : ∀ x, extend st x 1 1 = u / t := by
      intro x
      unfold extend
      simp [e2, e5, u, t]
    constructor
    · intro h
      unfold step cutAndSolve
      rw [if_neg (by simp [hr1])]
      simp only [hr1, e1, e2]
      rw [if_neg (by simp), if_neg (by norm_num), if_pos]
      rw [hx]
      simpa [hext, a] using h
    · intro h
      refine ⟨⟨[1], 1, fun x i j => extend st x (1 + i) (1 + j), fun x i =>
        ∑ j ∈ Finset.range 1, extend st x (1 + i) (1 + j) * (if 1 - j = 0 then c11 else c01), fun x =>
        Real.sqrt (c11 - ∑ i ∈ Finset.range 1,
          (∑ j ∈ Finset.range 1, extend st x (1 + i) (1 + j) * (if 1 - j = 0 then c11 else c01)) *
          (∑ j ∈ Finset.range 1, extend st x (1 + i) (1 + j) * (if 1 - j = 0 then c11 else c01)))⟩,
        ?_, rfl, by simp [hext, a], by simp [hext, a]⟩
      unfold step cutAndSolve
      rw [if_neg (by simp [hr1])]
      simp only [hr1, e1, e2]
      rw [if_neg (by simp), if_neg (by norm_num), if_neg]
      · simp
      · rw [hx]
        simpa [hext, a] using h
  have hrows : rowsOfTwo c00 c11 c01 = [row0, row1] := rfl
  rw [hrows]
  unfold twoRows iternorm iterate
  simp only [id_eq]
  by_cases hc : c00 < 0
  · rw [if_pos hc, h0 hc]
    simp
  · rw [if_neg hc]
    obtain ⟨st, q1, q2, q3, q4, q5, q6⟩ := h1 hc
    obtain ⟨p1, p2⟩ := h2 st q2 q3 q4 q5 q6
    rw [q1]
    simp only
    unfold iterate
    set u : ℝ := if 0 < Real.sqrt c00 then 1 else 0
    set t : ℝ := if 0 < Real.sqrt c00 then Real.sqrt c00 else 1
    by_cases hv : c11 - u / t * c01 * (u / t * c01) < 0
    · rw [if_pos hv, p1 hv]
      simp
    · rw [if_neg hv]
      obtain ⟨st', r1, r2, r3, r4⟩ := p2 hv
      rw [r1]
      constructor
      · intro s a v h
        cases h
        refine ⟨st.weight, st'.weight, by simp [iterate], q3, r2, ?_, ?_, ?_, ?_⟩
        · simp [State.weight, q3, q5]
        · simp [State.weight, q3, q6]
        · simp [State.weight, r2, r3]
        · simp [State.weight, r2, r4]
      · intro e h
        cases h

/-- **C135**: without rounding, two fields that are the same are accepted, with nothing new in the
second. -/
theorem same_fields_real (c : ℝ) (hc : 0 < c) :
    twoRows id c c c = .ok (Real.sqrt c, Real.sqrt c, 0) := by
  have hs : 0 < Real.sqrt c := Real.sqrt_pos.2 hc
  have ha : 1 / Real.sqrt c * c = Real.sqrt c := by
    rw [div_mul_eq_mul_div, one_mul, div_eq_iff hs.ne', Real.mul_self_sqrt hc.le]
  unfold twoRows
  simp only [id_eq, hs, if_true, ha, Real.mul_self_sqrt hc.le, sub_self, lt_irrefl, if_false,
    Real.sqrt_zero, not_lt.2 hc.le]

theorem _root_.Glass.Spectra.Rounding.zero (R : Rounding) : R.fl 0 = 0 := by
  have := R.exact 0 (by norm_num)
  simpa using this

theorem _root_.Glass.Spectra.Rounding.neg (R : Rounding) {x : ℝ} (hx : x < 0) : R.fl x < 0 := by
  have := R.error x
  rw [abs_of_neg hx, abs_le] at this
  have h2 : -x / 2 ^ 53 ≤ -x / 2 := by
    apply div_le_div_of_nonneg_left (by linarith) (by norm_num) (by norm_num)
  linarith [this.2]

/-- Bounds of a rounded non-negative number. -/
theorem _root_.Glass.Spectra.Rounding.bounds (R : Rounding) {x : ℝ} (hx : 0 ≤ x) :
    (1 - 1 / 2 ^ 53) * x ≤ R.fl x ∧ R.fl x ≤ (1 + 1 / 2 ^ 53) * x := by
  have := R.error x
  rw [abs_of_nonneg hx, abs_le] at this
  constructor
  · have h := this.1; ring_nf at h ⊢; linarith
  · have h := this.2; ring_nf at h ⊢; linarith

/-- The square of the rounded weight is that of the exact one, up to a few units of the last
digit. -/
theorem weight_square (R : Rounding) (c00 c01 : ℝ) (h0 : 0 < c00) :
    let s := R.fl (Real.sqrt c00)
    let a := R.fl (R.fl (1 / s) * c01)
    0 < s ∧ (1 - 1 / 2 ^ 49) * (c01 ^ 2 / c00) ≤ R.fl (a * a) ∧
      R.fl (a * a) ≤ (1 + 1 / 2 ^ 49) * (c01 ^ 2 / c00) := by
  intro s a
  set q := Real.sqrt c00 with hq
  have hq0 : 0 < q := Real.sqrt_pos.2 h0
  have hq2 : q ^ 2 = c00 := Real.sq_sqrt h0.le
  obtain ⟨s1, s2⟩ := R.bounds hq0.le
  have hs : 0 < s := lt_of_lt_of_le (by have : (0:ℝ) < 1 - 1 / 2 ^ 53 := by norm_num
                                        positivity) s1
  have hm0 : 0 ≤ 1 / s := by positivity
  obtain ⟨m1, m2⟩ := R.bounds hm0
  set m := R.fl (1 / s) with hm
  have hmp : 0 < m := lt_of_lt_of_le (by have : (0:ℝ) < 1 - 1 / 2 ^ 53 := by norm_num
                                         positivity) m1
  -- bounds of `m q`
  have mq1 : (1 - 1 / 2 ^ 53) / (1 + 1 / 2 ^ 53) ≤ m * q := by
    rw [div_le_iff₀ (by norm_num)]
    have e1 : (1 - 1 / 2 ^ 53) ≤ m * s := by
      have := mul_le_mul_of_nonneg_right m1 hs.le
      rwa [mul_assoc, one_div_mul_cancel hs.ne', mul_one] at this
    calc (1 - 1 / 2 ^ 53 : ℝ) ≤ m * s := e1
      _ ≤ m * ((1 + 1 / 2 ^ 53) * q) := by gcongr
      _ = m * q * (1 + 1 / 2 ^ 53) := by ring
  have mq2 : m * q ≤ (1 + 1 / 2 ^ 53) / (1 - 1 / 2 ^ 53) := by
    rw [le_div_iff₀ (by norm_num)]
    have e1 : m * s ≤ 1 + 1 / 2 ^ 53 := by
      have := mul_le_mul_of_nonneg_right m2 hs.le
      rwa [mul_assoc, one_div_mul_cancel hs.ne', mul_one] at this
    calc m * q * (1 - 1 / 2 ^ 53) = m * ((1 - 1 / 2 ^ 53) * q) := by ring
      _ ≤ m * s := by gcongr
      _ ≤ _ := e1
  -- the square of `a`
  have ea := R.error (m * c01)
  have hab : (1 - 1 / 2 ^ 53) * |m * c01| ≤ |a| ∧ |a| ≤ (1 + 1 / 2 ^ 53) * |m * c01| := by
    have t1 := abs_sub_abs_le_abs_sub a (m * c01)
    have t2 := abs_sub_abs_le_abs_sub (m * c01) a
    rw [abs_sub_comm] at t2
    have ea' : |a - m * c01| ≤ |m * c01| / 2 ^ 53 := ea
    constructor
    · ring_nf at t2 ea' ⊢; linarith
    · ring_nf at t1 ea' ⊢; linarith
  obtain ⟨f1, f2⟩ := R.bounds (mul_self_nonneg a)
  have hX : (m * c01) ^ 2 = (m * q) ^ 2 * (c01 ^ 2 / c00) := by
    rw [← hq2]; field_simp
  have hX0 : 0 ≤ c01 ^ 2 / c00 := by positivity
  set X := c01 ^ 2 / c00
  have haa : a * a = |a| ^ 2 := by rw [sq_abs]; ring
  have habs : |m * c01| ^ 2 = (m * q) ^ 2 * X := by rw [sq_abs, hX]
  refine ⟨hs, ?_, ?_⟩
  · calc (1 - 1 / 2 ^ 49) * X
        ≤ ((1 - 1 / 2 ^ 53) * ((1 - 1 / 2 ^ 53) ^ 2 * ((1 - 1 / 2 ^ 53) / (1 + 1 / 2 ^ 53)) ^ 2)) * X := by
          apply mul_le_mul_of_nonneg_right _ hX0
          norm_num
      _ ≤ ((1 - 1 / 2 ^ 53) * ((1 - 1 / 2 ^ 53) ^ 2 * (m * q) ^ 2)) * X := by
          gcongr
      _ = (1 - 1 / 2 ^ 53) * ((1 - 1 / 2 ^ 53) * |m * c01|) ^ 2 := by
          rw [mul_pow _ |m * c01|, habs]; ring
      _ ≤ (1 - 1 / 2 ^ 53) * |a| ^ 2 := by
          have : (0 : ℝ) ≤ (1 - 1 / 2 ^ 53) := by norm_num
          gcongr
          exact hab.1
      _ ≤ R.fl (a * a) := by rw [← haa]; exact f1
  · calc R.fl (a * a) ≤ (1 + 1 / 2 ^ 53) * |a| ^ 2 := by rw [← haa]; exact f2
      _ ≤ (1 + 1 / 2 ^ 53) * ((1 + 1 / 2 ^ 53) * |m * c01|) ^ 2 := by
          gcongr
          exact hab.2
      _ = ((1 + 1 / 2 ^ 53) * ((1 + 1 / 2 ^ 53) ^ 2 * (m * q) ^ 2)) * X := by
          rw [mul_pow _ |m * c01|, habs]; ring
      _ ≤ ((1 + 1 / 2 ^ 53) * ((1 + 1 / 2 ^ 53) ^ 2 * ((1 + 1 / 2 ^ 53) / (1 - 1 / 2 ^ 53)) ^ 2)) * X := by
          gcongr
      _ ≤ (1 + 1 / 2 ^ 49) * X := by
          apply mul_le_mul_of_nonneg_right _ hX0
          norm_num

/-- **C135**, the part that holds: in floating point, two fields are accepted if their correlation is
below one by more than the rounding errors. -/
theorem two_fields_accepted_partial (R : Rounding) (c00 c11 c01 : ℝ) (h0 : 0 < c00)
    (h : (1 + 1 / 2 ^ 49) * (c01 ^ 2 / c00) ≤ c11) :
    ∃ s a v, twoRows R.fl c00 c11 c01 = .ok (s, a, v) := by
  obtain ⟨hs, -, h2⟩ := weight_square R c00 c01 h0
  unfold twoRows
  simp only [if_neg (not_lt.2 h0.le), hs, if_true]
  rw [if_neg]
  · exact ⟨_, _, _, rfl⟩
  · rw [not_lt, ← R.zero]
    exact R.mono (by linarith)

/-- **C135**: in floating point, two fields are rejected if their correlation is above one by more
than the rounding errors. -/
theorem two_fields_rejected (R : Rounding) (c00 c11 c01 : ℝ) (h0 : 0 < c00)
    (h : c11 < (1 - 1 / 2 ^ 49) * (c01 ^ 2 / c00)) :
    twoRows R.fl c00 c11 c01 = .error (.value "covariance matrix is not positive definite") := by
  obtain ⟨hs, h1, -⟩ := weight_square R c00 c01 h0
  unfold twoRows
  simp only [if_neg (not_lt.2 h0.le), hs, if_true]
  rw [if_pos]
  exact R.neg (by linarith)

/-- **C135**, counterexample: two fields that are the same are rejected in double precision, for a
spectrum of 3 (whose half is the covariance). -/
theorem same_fields_rejected :
    twoRows roundDouble (3 / 2) (3 / 2) (3 / 2) =
      .error (.value "covariance matrix is not positive definite") := by
  have s1 : roundDouble (Real.sqrt (3 / 2)) = 5515760546423086 / 2 ^ 52 := by
    have b1 : (11031521092846171 / 2 ^ 53 : ℝ) < Real.sqrt (3 / 2) := Real.lt_sqrt_of_sq_lt (by norm_num)
    have b2 : Real.sqrt (3 / 2) < 11031521092846173 / 2 ^ 53 := by
      rw [Real.sqrt_lt' (by norm_num)]; norm_num
    rw [Shells.roundDouble_of _ 0 5515760546423086 (by norm_num at b1 ⊢; linarith)
      (by norm_num at b2 ⊢; linarith) (by
        rw [abs_lt]; norm_num at b1 b2 ⊢; constructor <;> linarith)]
    norm_num
  have s2 : roundDouble (1 / (5515760546423086 / 2 ^ 52)) = 7354347395230783 / 2 ^ 53 := by
    rw [Shells.roundDouble_of _ (-1) 7354347395230783 (by norm_num) (by norm_num)
      (by rw [abs_lt]; constructor <;> norm_num)]
    norm_num
  have s3 : roundDouble (7354347395230783 / 2 ^ 53 * (3 / 2)) = 5515760546423087 / 2 ^ 52 := by
    rw [Shells.roundDouble_of _ 0 5515760546423087 (by norm_num) (by norm_num)
      (by rw [abs_lt]; constructor <;> norm_num)]
    norm_num
  have s4 : roundDouble (5515760546423087 / 2 ^ 52 * (5515760546423087 / 2 ^ 52)) =
      6755399441055745 / 2 ^ 52 := by
    rw [Shells.roundDouble_of _ 0 6755399441055745 (by norm_num) (by norm_num)
      (by rw [abs_lt]; constructor <;> norm_num)]
    norm_num
  have hs : (0 : ℝ) < 5515760546423086 / 2 ^ 52 := by norm_num
  have hv : roundDouble (3 / 2 - 6755399441055745 / 2 ^ 52) < 0 :=
    Rounding.neg double (by norm_num)
  unfold twoRows
  rw [if_neg (by norm_num)]
  simp only
  rw [s1, if_pos hs, if_pos hs, s2, s3, s4, if_pos hv]

/-- Fields with correlation one half. -/
example : ∃ s a v, twoRows double.fl 1 1 (1 / 2) = .ok (s, a, v) :=
  two_fields_accepted_partial double 1 1 (1 / 2) (by norm_num) (by norm_num)

/-- Fields with correlation two. -/
example : twoRows double.fl 1 1 2 = .error (.value "covariance matrix is not positive definite") :=
  two_fields_rejected double 1 1 2 (by norm_num) (by norm_num)

end Glass.Grf
