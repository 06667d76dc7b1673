import Mathlib.Tactic.IntervalCases
import Mathlib.Tactic.NormNum
import Verif.Grf.IternormLemmas

/-! # Properties of `iternorm` (C13, C14, C15)

The sampled fields are `x_i = Σ_q W(i, q) z_q` for independent unit normals `z_q`, where `W(i, q)`
is read off the yielded scaling vectors: the last entry belongs to `z_i`, the one before to
`z_{i-1}`, and so on.  Their covariance is `Σ_q W(i, q) W(j, q)`. -/

namespace Glass.Grf

open Finset Glass.Spectra

/-- Specification: the weight of field `i` on the normal variate `q`. -/
noncomputable def weightOn (ws : List Weight) (x : List ℕ) (i q : ℕ) : ℝ :=
  if q ≤ i ∧ i - q ≤ ws[i]!.k then ws[i]!.w x (ws[i]!.k - (i - q)) else 0

/-- Specification: the covariance of fields `i` and `j` built from independent unit normals. -/
noncomputable def fieldCov (ws : List Weight) (x : List ℕ) (i j : ℕ) : ℝ :=
  ∑ q ∈ range ws.length, weightOn ws x i q * weightOn ws x j q

/-- Specification: the standard deviation of the part of field `i` that is independent of all
earlier fields: the last entry of the scaling vector. -/
noncomputable def sdev (ws : List Weight) (x : List ℕ) (i : ℕ) : ℝ := ws[i]!.w x ws[i]!.k

theorem iternorm_states (rows : List Row) (tail : Option Err) (ws : List Weight)
    (err : Option Err) (h : iternorm rows tail = (ws, err)) :
    ∃ S : ℕ → State, Chain ws.length (fun i => rows[i]!) S ∧ ws.length ≤ rows.length ∧
      ∀ i < ws.length, ws[i]! = (S i).weight := by
  unfold iternorm at h
  simp only [Prod.mk.injEq] at h
  obtain ⟨rfl, -⟩ := h
  refine ⟨_, by simpa using iterate_to_chain rows tail, ?_, ?_⟩
  · simpa using (iterate_chain none rows tail _ _ rfl).1
  · intro i hi
    have hi' : i < (iterate none rows tail).1.length := by simpa using hi
    rw [getElem!_pos _ i hi, List.getElem_map]
    simp [hi']

/-- Without an error, there is one scaling vector for each row. -/
theorem iternorm_complete (rows : List Row) (ws : List Weight)
    (h : iternorm rows none = (ws, none)) : ws.length = rows.length := by
  unfold iternorm at h
  simp only [Prod.mk.injEq] at h
  obtain ⟨rfl, herr⟩ := h
  obtain ⟨h1, -, -, h4⟩ := iterate_chain none rows none _ _ rfl
  rw [List.length_map]
  by_contra hcon
  obtain ⟨e, he, -⟩ := h4 (by omega)
  rw [herr] at he
  cases he

theorem weightOn_lag {ws : List Weight} {S : ℕ → State} {x : List ℕ} {i q : ℕ}
    (h : ws[i]! = (S i).weight) (hq : q ≤ i) : weightOn ws x i q = (S i).lag x (i - q) := by
  unfold weightOn State.lag
  rw [h]
  simp only [hq, true_and]
  rfl

theorem weightOn_of_lt {ws : List Weight} {x : List ℕ} {i q : ℕ} (hq : i < q) :
    weightOn ws x i q = 0 := by
  unfold weightOn; rw [if_neg (by omega)]

theorem fieldCov_comm (ws : List Weight) (x : List ℕ) (i j : ℕ) :
    fieldCov ws x i j = fieldCov ws x j i := by
  unfold fieldCov
  exact Finset.sum_congr rfl fun q _ => mul_comm _ _

theorem fieldCov_lag {ws : List Weight} {S : ℕ → State} {x : List ℕ} {j d : ℕ}
    (h : ∀ i < ws.length, ws[i]! = (S i).weight) (hi : j + d < ws.length) :
    fieldCov ws x (j + d) j = ∑ e ∈ range (j + 1), (S (j + d)).lag x (e + d) * (S j).lag x e := by
  unfold fieldCov
  have h1 : ∑ q ∈ range ws.length, weightOn ws x (j + d) q * weightOn ws x j q =
      ∑ q ∈ range (j + 1), weightOn ws x (j + d) q * weightOn ws x j q := by
    symm
    apply Finset.sum_subset (Finset.range_subset_range.2 (by omega))
    intro q _ hq
    rw [Finset.mem_range] at hq
    rw [weightOn_of_lt (i := j) (by omega), mul_zero]
  rw [h1, ← Finset.sum_range_reflect]
  apply Finset.sum_congr rfl
  intro e he
  rw [Finset.mem_range] at he
  rw [weightOn_lag (h _ hi) (by omega), weightOn_lag (h j (by omega)) (by omega)]
  congr 2 <;> omega

theorem sdev_eq {ws : List Weight} {S : ℕ → State} {x : List ℕ} {i : ℕ}
    (h : ws[i]! = (S i).weight) : sdev ws x i = (S i).s x := by
  unfold sdev; rw [h]; simp [State.weight]

theorem regular_of {ws : List Weight} {S : ℕ → State} {x : List ℕ} {i : ℕ}
    (h : ws[i]! = (S i).weight)
    (hr : 0 < sdev ws x i ∨ ∀ t ≤ ws[i]!.k, ws[i]!.w x t = 0) : Regular (S i) x := by
  rcases hr with hr | hr
  · left; rwa [sdev_eq h] at hr
  · right
    rw [h] at hr
    constructor
    · have := hr (S i).k le_rfl
      simpa [State.weight] using this
    · intro r hr'
      have := hr r (le_of_lt hr')
      simpa [State.weight, hr'] using this

/-- C13. As long as every earlier field has a positive standard deviation or is identically zero,
the fields have exactly the requested variances, the requested covariances with those of the `k`
previous fields that are not identically zero, and no covariance with all others. -/
theorem iternorm_reproduces (rows : List Row) (tail : Option Err) (ws : List Weight)
    (err : Option Err) (h : iternorm rows tail = (ws, err)) (x : List ℕ)
    (hx : x ∈ ndindex rows[0]!.shape) (i : ℕ) (hi : i < ws.length)
    (hreg : ∀ q < i, 0 < sdev ws x q ∨ ∀ t ≤ ws[q]!.k, ws[q]!.w x t = 0) :
    rows[i]!.len = ws[i]!.k + 1 ∧ fieldCov ws x i i = rows[i]!.val x 0 ∧
      ∀ j < i, fieldCov ws x i j =
        if i - j ≤ ws[i]!.k ∧ 0 < sdev ws x j then rows[i]!.val x (i - j) else 0 := by
  obtain ⟨S, hC, hlen, hS⟩ := iternorm_states rows tail ws err h
  have hreg' : ∀ q < i, Regular (S q) x := fun q hq => regular_of (hS q (by omega)) (hreg q hq)
  refine ⟨?_, ?_, ?_⟩
  · rw [hS i hi]
    obtain ⟨P, E, -, hsol⟩ := hC.invariant x i hi hreg'
    have hne : rows[i]!.len ≠ 0 := by
      rcases i with _ | i
      · exact (step_none_ok (hC.first (by omega))).1
      · exact (step_some_ok (hC.next i hi)).1
    have := hsol.hk
    simp only [State.weight]
    omega
  · have := fieldCov_lag (x := x) (j := i) (d := 0) hS hi
    simp only [Nat.add_zero] at this
    rw [this]
    exact hC.var_lag x hx i hi hreg'
  · intro j hj
    obtain ⟨d, hd, rfl⟩ : ∃ d, 0 < d ∧ i = j + d := ⟨i - j, by omega, by omega⟩
    rw [fieldCov_lag hS hi, hC.cov_lag x j d hd hi hreg', sdev_eq (hS j (by omega)), hS _ hi,
      Nat.add_sub_cancel_left]
    rfl

/-- C13, in the case where all standard deviations are positive. -/
theorem iternorm_reproduces_pos (rows : List Row) (tail : Option Err) (ws : List Weight)
    (err : Option Err) (h : iternorm rows tail = (ws, err)) (x : List ℕ)
    (hx : x ∈ ndindex rows[0]!.shape) (hs : ∀ i < ws.length, 0 < sdev ws x i) (i j : ℕ)
    (hj : j ≤ i) (hi : i < ws.length) :
    fieldCov ws x i j = if i - j < rows[i]!.len then rows[i]!.val x (i - j) else 0 := by
  obtain ⟨h1, h2, h3⟩ := iternorm_reproduces rows tail ws err h x hx i hi
    (fun q hq => Or.inl (hs q (by omega)))
  rcases Nat.lt_or_ge j i with hlt | hge
  · rw [h3 j hlt, h1]
    simp only [hs j (by omega), and_true, Nat.lt_succ_iff]
  · have : i = j := by omega
    subst this
    rw [h2, Nat.sub_self, if_pos (by omega)]

/-- C13. No weight is put on variates before the first field, so fields only depend on variates
that were drawn. -/
theorem iternorm_no_missing (rows : List Row) (tail : Option Err) (ws : List Weight)
    (err : Option Err) (h : iternorm rows tail = (ws, err)) (x : List ℕ) (i : ℕ)
    (hi : i < ws.length)
    (hreg : ∀ q < i, 0 < sdev ws x q ∨ ∀ t ≤ ws[q]!.k, ws[q]!.w x t = 0) (d : ℕ)
    (hd : i < d) (hk : d ≤ ws[i]!.k) : ws[i]!.w x (ws[i]!.k - d) = 0 := by
  obtain ⟨S, hC, hlen, hS⟩ := iternorm_states rows tail ws err h
  have hreg' : ∀ q < i, Regular (S q) x := fun q hq => regular_of (hS q (by omega)) (hreg q hq)
  obtain ⟨P, E, hE, hsol⟩ := hC.invariant x i hi hreg'
  have := hsol.lag_missing hE hd
  rw [hS i hi] at hk ⊢
  unfold State.lag at this
  rwa [if_pos (by simpa [State.weight] using hk)] at this

/-! ## C14: positive definiteness -/

/-- Specification: the quadratic form of the leading `n × n` block. -/
noncomputable def quad (n : ℕ) (A : ℕ → ℕ → ℝ) (v : ℕ → ℝ) : ℝ :=
  ∑ i ∈ range n, ∑ j ∈ range n, v i * A i j * v j

/-- Specification: positive definite. -/
def PosDef (n : ℕ) (A : ℕ → ℕ → ℝ) : Prop :=
  ∀ v : ℕ → ℝ, (∃ i < n, v i ≠ 0) → 0 < quad n A v

/-- Specification: positive semi-definite. -/
def PosSemidef (n : ℕ) (A : ℕ → ℕ → ℝ) : Prop := ∀ v : ℕ → ℝ, 0 ≤ quad n A v

/-- Specification: `rows` is the symmetric matrix `A` of size `n` (one for each multi-index of the
leading axes), row by row with the diagonal first, in band storage with `b i` off-diagonal entries
in row `i`; entries that would fall outside of the matrix are arbitrary. -/
structure IsMatrix (rows : List Row) (shape : List ℕ) (n : ℕ) (b : ℕ → ℕ)
    (A : List ℕ → ℕ → ℕ → ℝ) : Prop where
  length : rows.length = n
  shapes : ∀ i < n, rows[i]!.shape = shape
  len : ∀ i < n, rows[i]!.len = b i + 1
  val : ∀ i < n, ∀ x ∈ ndindex shape, ∀ d ≤ i, d ≤ b i → rows[i]!.val x d = A x i (i - d)
  symm : ∀ x ∈ ndindex shape, ∀ i < n, ∀ j < n, A x i j = A x j i
  band : ∀ x ∈ ndindex shape, ∀ i < n, ∀ j < i, b i < i - j → A x i j = 0

theorem quad_of_factor (n : ℕ) (A W : ℕ → ℕ → ℝ) (N : ℕ)
    (h : ∀ i < n, ∀ j < n, A i j = ∑ q ∈ range N, W i q * W j q) (v : ℕ → ℝ) :
    quad n A v = ∑ q ∈ range N, (∑ i ∈ range n, v i * W i q) ^ 2 := by
  unfold quad
  calc _ = ∑ i ∈ range n, ∑ j ∈ range n, ∑ q ∈ range N, (v i * W i q) * (v j * W j q) := by
        apply Finset.sum_congr rfl; intro i hi
        apply Finset.sum_congr rfl; intro j hj
        rw [h i (Finset.mem_range.1 hi) j (Finset.mem_range.1 hj), Finset.mul_sum, Finset.sum_mul]
        apply Finset.sum_congr rfl; intro q _
        ring
    _ = ∑ q ∈ range N, ∑ i ∈ range n, ∑ j ∈ range n, (v i * W i q) * (v j * W j q) := by
        rw [Finset.sum_congr rfl (fun i _ => Finset.sum_comm), Finset.sum_comm]
    _ = _ := by
        apply Finset.sum_congr rfl; intro q _
        rw [sq, Finset.sum_mul_sum]

theorem solve_upper (n : ℕ) (W : ℕ → ℕ → ℝ) (a : ℕ → ℝ)
    (hd : ∀ q < n, W q q ≠ 0 ∨ (a q = 0 ∧ ∀ i < n, W i q = 0))
    (ht : ∀ i q, i < q → W i q = 0) :
    ∃ y : ℕ → ℝ, ∀ q < n, ∑ i ∈ range n, y i * W i q = a q := by
  induction n generalizing a with
  | zero => exact ⟨fun _ => 0, fun q hq => by omega⟩
  | succ n ih =>
    set c := a n / W n n with hc
    obtain ⟨y, hy⟩ := ih (fun q => a q - c * W n q) (fun q hq => by
      rcases hd q (by omega) with h | ⟨h1, h2⟩
      · exact Or.inl h
      · right
        refine ⟨?_, fun i hi => h2 i (by omega)⟩
        rw [h1, h2 n (by omega), mul_zero, sub_zero])
    refine ⟨fun i => if i < n then y i else c, ?_⟩
    intro q hq
    rw [Finset.sum_range_succ]
    have h1 : ∑ i ∈ range n, (if i < n then y i else c) * W i q = ∑ i ∈ range n, y i * W i q := by
      apply Finset.sum_congr rfl; intro i hi
      rw [if_pos (Finset.mem_range.1 hi)]
    rw [h1]
    simp only [lt_irrefl, if_false]
    rcases Nat.lt_or_ge q n with h | h
    · rw [hy q h]; ring
    · have : q = n := by omega
      subst this
      rw [Finset.sum_eq_zero, zero_add, hc]
      · rcases hd q (by omega) with h | ⟨h1, h2⟩
        · rw [div_mul_cancel₀ _ h]
        · rw [h1, h2 q (by omega), mul_zero]
      · intro i hi
        rw [ht i q (Finset.mem_range.1 hi), mul_zero]

/-- The matrix of weights of the states. -/
noncomputable def stateWeight (S : ℕ → State) (x : List ℕ) (i q : ℕ) : ℝ :=
  if q ≤ i then (S i).lag x (i - q) else 0

theorem stateWeight_sum {S : ℕ → State} {x : List ℕ} (st : State) (j d N : ℕ) (hN : j < N) :
    ∑ q ∈ range N, st.lag x (j + d - q) * stateWeight S x j q =
      ∑ e ∈ range (j + 1), st.lag x (e + d) * (S j).lag x e := by
  have h1 : ∑ q ∈ range N, st.lag x (j + d - q) * stateWeight S x j q =
      ∑ q ∈ range (j + 1), st.lag x (j + d - q) * stateWeight S x j q := by
    symm
    apply Finset.sum_subset (Finset.range_subset_range.2 (by omega))
    intro q _ hq
    rw [Finset.mem_range] at hq
    unfold stateWeight
    rw [if_neg (by omega), mul_zero]
  rw [h1, ← Finset.sum_range_reflect]
  apply Finset.sum_congr rfl
  intro e he
  rw [Finset.mem_range] at he
  unfold stateWeight
  rw [if_pos (by omega)]
  congr 2 <;> omega

/-- The factorisation of the leading block by the weights of the states. -/
theorem Chain.factor {rows : List Row} {shape : List ℕ} {N n : ℕ} {b : ℕ → ℕ}
    {A : List ℕ → ℕ → ℕ → ℝ} (hA : IsMatrix rows shape N b A) {S : ℕ → State}
    (hC : Chain n (fun i => rows[i]!) S) (hn : n ≤ N) (x : List ℕ) (hx : x ∈ ndindex shape)
    (hs : ∀ i < n, Regular (S i) x)
    (hdeg : ∀ j < n, ¬ 0 < (S j).s x → ∀ i < N, A x i j = 0) (i j : ℕ) (hi : i < n) (hj : j < n)
    (M : ℕ) (hM : n ≤ M) :
    A x i j = ∑ q ∈ range M, stateWeight S x i q * stateWeight S x j q := by
  have key : ∀ j d, j + d < n → A x (j + d) j =
      ∑ q ∈ range M, stateWeight S x (j + d) q * stateWeight S x j q := by
    intro j d hjd
    have hreg : ∀ q < j + d, Regular (S q) x := fun q hq => hs q (by omega)
    have h1 : ∑ q ∈ range M, stateWeight S x (j + d) q * stateWeight S x j q =
        ∑ q ∈ range M, (S (j + d)).lag x (j + d - q) * stateWeight S x j q := by
      apply Finset.sum_congr rfl
      intro q _
      by_cases hq : q ≤ j
      · congr 1; unfold stateWeight; rw [if_pos (by omega)]
      · have : stateWeight S x j q = 0 := by unfold stateWeight; rw [if_neg hq]
        rw [this, mul_zero, mul_zero]
    have hk : (S (j + d)).k = b (j + d) := by
      obtain ⟨P, E, -, hsol⟩ := hC.invariant x (j + d) hjd hreg
      have := hsol.hk
      rw [hA.len _ (by omega)] at this
      omega
    rw [h1, stateWeight_sum (S (j + d)) j d M (by omega)]
    rcases Nat.eq_zero_or_pos d with rfl | hd
    · simp only [Nat.add_zero] at *
      rw [hC.var_lag x (by rw [hA.shapes 0 (by omega)]; exact hx) j hjd hreg,
        hA.val j (by omega) x hx 0 (by omega) (by omega), Nat.sub_zero]
    · rw [hC.cov_lag x j d hd hjd hreg, hk]
      by_cases hb : d ≤ b (j + d)
      · by_cases hsj : 0 < (S j).s x
        · rw [if_pos ⟨hb, hsj⟩, hA.val _ (by omega) x hx d (by omega) hb, Nat.add_sub_cancel]
        · rw [if_neg (fun hh => hsj hh.2)]
          exact hdeg j (by omega) hsj _ (by omega)
      · rw [if_neg (fun hh => hb hh.1)]
        exact hA.band x hx _ (by omega) j (by omega) (by omega)
  rcases Nat.le_total j i with h | h
  · obtain ⟨d, rfl⟩ : ∃ d, i = j + d := ⟨i - j, by omega⟩
    exact key j d hi
  · obtain ⟨d, rfl⟩ : ∃ d, j = i + d := ⟨j - i, by omega⟩
    rw [hA.symm x hx i (by omega) (i + d) (by omega), key i d hj]
    apply Finset.sum_congr rfl; intro q _
    ring

/-- What is left of the variance of a new field is a value of the quadratic form, at a vector with
last component one. -/
theorem schur {rows : List Row} {shape : List ℕ} {N n : ℕ} {b : ℕ → ℕ}
    {A : List ℕ → ℕ → ℕ → ℝ} (hA : IsMatrix rows shape N b A) {S : ℕ → State}
    (hC : Chain n (fun i => rows[i]!) S) (hn : n < N) (x : List ℕ) (hx : x ∈ ndindex shape)
    (hs : ∀ i < n, Regular (S i) x)
    (hdeg : ∀ j < n, ¬ 0 < (S j).s x → ∀ i < N, A x i j = 0) {P : ℕ} {E : ℕ → ℕ → ℝ} {st : State}
    (hE : Inv S x n P E)
    (hS : Solved x P E rows[n]! st) :
    ∃ v : ℕ → ℝ, v n = 1 ∧
      quad (n + 1) (A x) v = rows[n]!.val x 0 - ∑ r ∈ range st.k, st.a x r * st.a x r := by
  have hk : st.k = b n := by
    have := hS.hk
    rw [hA.len n hn] at this
    omega
  -- weights of the new field on the earlier variates
  set a : ℕ → ℝ := fun q => st.lag x (n - q) with ha
  have hWd : ∀ q < n, stateWeight S x q q ≠ 0 ∨
      (a q = 0 ∧ ∀ i < n, stateWeight S x i q = 0) := by
    intro q hq
    have hdiag : stateWeight S x q q = (S q).s x := by
      unfold stateWeight
      rw [if_pos le_rfl, Nat.sub_self, State.lag_zero]
    by_cases hsq : 0 < (S q).s x
    · left; rw [hdiag]; exact hsq.ne'
    · right
      refine ⟨hS.lag_deg hE (by omega) (by omega) (by rwa [show n - (n - q) = q by omega]), ?_⟩
      intro i hi
      rcases Nat.lt_trichotomy i q with h | h | h
      · unfold stateWeight; rw [if_neg (by omega)]
      · rw [h, hdiag]
        rcases hs q hq with h | h
        · exact absurd h hsq
        · exact h.1
      · obtain ⟨P', E', hE', hS'⟩ := hC.invariant x i hi (fun q hq => hs q (by omega))
        unfold stateWeight
        rw [if_pos (by omega)]
        exact hS'.lag_deg hE' (by omega) (by omega) (by rwa [show i - (i - q) = q by omega])
  have hWt : ∀ i q, i < q → stateWeight S x i q = 0 := by
    intro i q hq; unfold stateWeight; rw [if_neg (by omega)]
  obtain ⟨y, hy⟩ := solve_upper n (stateWeight S x) a hWd hWt
  have hcross : ∀ j < n, A x n j = ∑ q ∈ range n, a q * stateWeight S x j q := by
    intro j hj
    obtain ⟨d, hd, rfl⟩ : ∃ d, 0 < d ∧ n = j + d := ⟨n - j, by omega, by omega⟩
    rw [ha, stateWeight_sum st j d (j + d) (by omega), hS.cov_lag hE hd, hk]
    by_cases hb : d ≤ b (j + d)
    · by_cases hsj : 0 < (S j).s x
      · rw [if_pos ⟨hb, hsj⟩, hA.val _ hn x hx d (by omega) hb, Nat.add_sub_cancel]
      · rw [if_neg (fun hh => hsj hh.2)]
        exact hdeg j (by omega) hsj _ (by omega)
    · rw [if_neg (fun hh => hb hh.1)]
      exact hA.band x hx _ hn j (by omega) (by omega)
  have hnorm : ∑ r ∈ range st.k, st.a x r * st.a x r = ∑ q ∈ range n, a q ^ 2 := by
    have h1 : ∑ q ∈ range n, a q ^ 2 = ∑ e ∈ range n, st.lag x (e + 1) ^ 2 := by
      rw [← Finset.sum_range_reflect]
      apply Finset.sum_congr rfl
      intro e he
      rw [Finset.mem_range] at he
      simp only [ha]
      congr 2
      omega
    have h2 : ∑ r ∈ range st.k, st.a x r * st.a x r = ∑ e ∈ range st.k, st.lag x (e + 1) ^ 2 := by
      rw [← Finset.sum_range_reflect (fun r => st.a x r * st.a x r)]
      apply Finset.sum_congr rfl
      intro e he
      rw [Finset.mem_range] at he
      rw [st.lag_pos x (by omega) (by omega), show st.k - (e + 1) = st.k - 1 - e by omega, sq]
    rw [h1, h2]
    rcases Nat.le_total n st.k with hle | hle
    · symm
      apply Finset.sum_subset (Finset.range_subset_range.2 hle)
      intro e _ he
      rw [Finset.mem_range] at he
      rw [hS.lag_missing hE (by omega)]
      norm_num
    · apply Finset.sum_subset (Finset.range_subset_range.2 hle)
      intro e _ he
      rw [Finset.mem_range] at he
      rw [st.lag_of_lt x (by omega)]
      norm_num
  refine ⟨fun i => if i < n then -y i else 1, by simp, ?_⟩
  have hAnn : A x n n = rows[n]!.val x 0 := by
    rw [hA.val n hn x hx 0 (by omega) (by omega), Nat.sub_zero]
  set v : ℕ → ℝ := fun i => if i < n then -y i else 1 with hv
  have hvn : v n = 1 := by simp [hv]
  have hvl : ∀ i, i < n → v i = -y i := by intro i hi; simp [hv, hi]
  have hexp : quad (n + 1) (A x) v = quad n (A x) v + 2 * ∑ j ∈ range n, v j * A x n j + A x n n := by
    unfold quad
    rw [Finset.sum_range_succ, Finset.sum_range_succ, hvn]
    have h1 : ∑ i ∈ range n, ∑ j ∈ range (n + 1), v i * A x i j * v j =
        ∑ i ∈ range n, ∑ j ∈ range n, v i * A x i j * v j + ∑ i ∈ range n, v i * A x n i := by
      rw [← Finset.sum_add_distrib]
      apply Finset.sum_congr rfl; intro i hi
      rw [Finset.sum_range_succ, hvn, hA.symm x hx i (by have := Finset.mem_range.1 hi; omega) n hn,
        mul_one]
    rw [h1]
    have h2 : ∑ j ∈ range n, 1 * A x n j * v j = ∑ j ∈ range n, v j * A x n j := by
      apply Finset.sum_congr rfl; intro j _; ring
    rw [h2]; ring
  have hq : quad n (A x) v = ∑ q ∈ range n, a q ^ 2 := by
    rw [quad_of_factor n (A x) (stateWeight S x) n]
    · apply Finset.sum_congr rfl
      intro q hq
      rw [Finset.mem_range] at hq
      have : ∑ i ∈ range n, v i * stateWeight S x i q = -a q := by
        rw [← hy q hq, ← Finset.sum_neg_distrib]
        apply Finset.sum_congr rfl; intro i hi
        rw [hvl i (Finset.mem_range.1 hi)]; ring
      rw [this]; ring
    · intro i hi j hj
      exact hC.factor hA hn.le x hx hs hdeg i j hi hj n le_rfl
  have hc : ∑ j ∈ range n, v j * A x n j = -∑ q ∈ range n, a q ^ 2 := by
    calc _ = ∑ j ∈ range n, ∑ q ∈ range n, -(a q * (y j * stateWeight S x j q)) := by
          apply Finset.sum_congr rfl; intro j hj
          rw [hvl j (Finset.mem_range.1 hj), hcross j (Finset.mem_range.1 hj), Finset.mul_sum]
          apply Finset.sum_congr rfl; intro q _; ring
      _ = ∑ q ∈ range n, -(a q * ∑ j ∈ range n, y j * stateWeight S x j q) := by
          rw [Finset.sum_comm]
          apply Finset.sum_congr rfl; intro q _
          rw [Finset.sum_neg_distrib, ← Finset.mul_sum]
      _ = _ := by
          rw [← Finset.sum_neg_distrib]
          apply Finset.sum_congr rfl; intro q hq
          rw [hy q (Finset.mem_range.1 hq)]; ring
  rw [hexp, hq, hc, hAnn, hnorm]
  ring

theorem quad_extend (n N : ℕ) (hn : n ≤ N) (A : ℕ → ℕ → ℝ) (v : ℕ → ℝ) :
    quad N A (fun i => if i < n then v i else 0) = quad n A v := by
  unfold quad
  have h1 : ∀ (f : ℕ → ℝ), (∀ i, n ≤ i → f i = 0) → ∑ i ∈ range N, f i = ∑ i ∈ range n, f i := by
    intro f hf
    symm
    apply Finset.sum_subset (Finset.range_subset_range.2 hn)
    intro i _ hi
    exact hf i (by simpa using hi)
  rw [h1]
  · apply Finset.sum_congr rfl
    intro i hi
    rw [h1]
    · apply Finset.sum_congr rfl
      intro j hj
      dsimp only
      rw [if_pos (Finset.mem_range.1 hi), if_pos (Finset.mem_range.1 hj)]
    · intro j hj
      dsimp only
      rw [if_neg (by omega : ¬ j < n), mul_zero]
  · intro i hi
    apply Finset.sum_eq_zero
    intro j _
    dsimp only
    rw [if_neg (by omega), zero_mul, zero_mul]

/-- The state that one pass would compute, whether or not it is accepted. -/
theorem cutAndSolve_cases (shape : List ℕ) (P : ℕ) (E : List ℕ → ℕ → ℕ → ℝ) (row : Row)
    (hP : row.len - 1 ≤ P) :
    ∃ st : State, (∀ x, Solved x P (E x) row st) ∧
      ((∀ x ∈ ndindex shape, 0 ≤ row.val x 0 - ∑ r ∈ range st.k, st.a x r * st.a x r) →
        cutAndSolve shape P E row = .ok st) ∧
      ((∃ x ∈ ndindex shape, row.val x 0 - ∑ r ∈ range st.k, st.a x r * st.a x r < 0) →
        cutAndSolve shape P E row =
          .error (.value "covariance matrix is not positive definite")) := by
  refine ⟨⟨shape, row.len - 1,
    fun x i j => E x (P - (row.len - 1) + i) (P - (row.len - 1) + j),
    fun x i => ∑ j ∈ range (row.len - 1),
      E x (P - (row.len - 1) + i) (P - (row.len - 1) + j) * row.val x (row.len - 1 - j),
    fun x => Real.sqrt (row.val x 0 - ∑ i ∈ range (row.len - 1),
      (∑ j ∈ range (row.len - 1),
        E x (P - (row.len - 1) + i) (P - (row.len - 1) + j) * row.val x (row.len - 1 - j)) *
      (∑ j ∈ range (row.len - 1),
        E x (P - (row.len - 1) + i) (P - (row.len - 1) + j) * row.val x (row.len - 1 - j)))⟩,
    ?_, ?_, ?_⟩
  · intro x
    constructor <;> first | rfl | exact hP | (intros; rfl)
  · intro h
    unfold cutAndSolve
    simp only
    rw [if_neg (by omega), if_neg]
    rintro ⟨x, hx, hlt⟩
    exact absurd (h x hx) (not_le.2 hlt)
  · intro h
    unfold cutAndSolve
    simp only
    rw [if_neg (by omega), if_pos h]

/-- One pass after `n` successful ones, on the rows of a matrix. -/
theorem step_cases {rows : List Row} {shape : List ℕ} {N n : ℕ} {b : ℕ → ℕ}
    (hb : ∀ i, b (i + 1) ≤ b i + 1) {A : List ℕ → ℕ → ℕ → ℝ} (hA : IsMatrix rows shape N b A)
    {S : ℕ → State} (hC : Chain n (fun i => rows[i]!) S) (hn : n < N)
    (hs : ∀ i < n, ∀ x ∈ ndindex shape, Regular (S i) x)
    (hdeg : ∀ j < n, ∀ x ∈ ndindex shape, ¬ 0 < (S j).s x → ∀ i < N, A x i j = 0) :
    ∃ st : State, (∀ x ∈ ndindex shape, ∃ P E, Inv S x n P E ∧ Solved x P E rows[n]! st) ∧
      (∀ x ∈ ndindex shape, ∃ v : ℕ → ℝ, v n = 1 ∧
        quad (n + 1) (A x) v = rows[n]!.val x 0 - ∑ r ∈ range st.k, st.a x r * st.a x r ∧
        st.s x = Real.sqrt (quad (n + 1) (A x) v)) ∧
      ((∀ x ∈ ndindex shape, 0 ≤ rows[n]!.val x 0 - ∑ r ∈ range st.k, st.a x r * st.a x r) →
        step (if n = 0 then none else some (S (n - 1))) rows[n]! = .ok st) ∧
      ((∃ x ∈ ndindex shape, rows[n]!.val x 0 - ∑ r ∈ range st.k, st.a x r * st.a x r < 0) →
        step (if n = 0 then none else some (S (n - 1))) rows[n]! =
          .error (.value "covariance matrix is not positive definite")) := by
  have hlen := hA.len n hn
  have hshape := hA.shapes n hn
  rcases n with _ | n
  · obtain ⟨st, h1, h2, h3⟩ := cutAndSolve_cases shape (rows[0]!.len - 1) (fun _ _ _ => 0) rows[0]!
      le_rfl
    refine ⟨st, fun x _ => ⟨_, _, Inv.zero S x _, h1 x⟩, ?_, ?_, ?_⟩
    · intro x hx
      obtain ⟨v, hv, hq⟩ := schur hA hC hn x hx (fun i hi => by omega) (fun i hi => by omega)
        (Inv.zero S x _) (h1 x)
      exact ⟨v, hv, hq, by rw [hq]; exact (h1 x).hs⟩
    · intro h
      simp only [if_true]
      unfold step
      rw [if_neg (by omega)]
      simp only
      rw [hshape]; exact h2 h
    · intro h
      simp only [if_true]
      unfold step
      rw [if_neg (by omega)]
      simp only
      rw [hshape]; exact h3 h
  · have hk : (S n).k = b n := by
      obtain ⟨P, E, -, hsol⟩ : ∃ P E, True ∧ Solved [] P E rows[n]! (S n) := by
        rcases n with _ | n
        · obtain ⟨-, h2⟩ := step_none_ok (hC.first (by omega))
          exact ⟨_, _, trivial, (cutAndSolve_ok h2 []).1⟩
        · obtain ⟨-, -, h2⟩ := step_some_ok (hC.next n (by omega))
          exact ⟨_, _, trivial, (cutAndSolve_ok h2 []).1⟩
      have := hsol.hk
      rw [hA.len n (by omega)] at this
      omega
    have hSshape : (S n).shape = shape := by
      rw [(hC.shape n (by omega)).1, hA.shapes 0 (by omega)]
    have hP : rows[n + 1]!.len - 1 ≤ (S n).k + 1 := by
      rw [hlen, hk]; have := hb n; omega
    obtain ⟨st, h1, h2, h3⟩ := cutAndSolve_cases shape ((S n).k + 1) (extend (S n)) rows[n + 1]! hP
    have hInv : ∀ x ∈ ndindex shape, Inv S x (n + 1) ((S n).k + 1) (extend (S n) x) := by
      intro x hx
      obtain ⟨P, E, hE, hsol⟩ := hC.invariant x n (by omega) (fun q hq => hs q (by omega) x hx)
      exact hsol.extend hE (hs n (by omega) x hx)
    refine ⟨st, fun x hx => ⟨_, _, hInv x hx, h1 x⟩, ?_, ?_, ?_⟩
    · intro x hx
      obtain ⟨v, hv, hq⟩ := schur hA hC hn x hx (fun i hi => hs i hi x hx)
        (fun i hi => hdeg i hi x hx) (hInv x hx) (h1 x)
      exact ⟨v, hv, hq, by rw [hq]; exact (h1 x).hs⟩
    · intro h
      simp only [Nat.add_eq_zero_iff, one_ne_zero, and_false, if_false, Nat.add_sub_cancel]
      unfold step
      rw [if_neg (by omega)]
      simp only
      rw [hSshape, if_neg (not_not.2 hshape)]; exact h2 h
    · intro h
      simp only [Nat.add_eq_zero_iff, one_ne_zero, and_false, if_false, Nat.add_sub_cancel]
      unfold step
      rw [if_neg (by omega)]
      simp only
      rw [hSshape, if_neg (not_not.2 hshape)]; exact h3 h

theorem Chain.congr {n : ℕ} {rows : ℕ → Row} {S S' : ℕ → State} (h : Chain n rows S)
    (hS : ∀ i < n, S' i = S i) : Chain n rows S' where
  first := fun hn => by rw [hS 0 hn]; exact h.first hn
  next := fun i hi => by rw [hS i (by omega), hS (i + 1) hi]; exact h.next i hi

theorem Chain.snoc {n : ℕ} {rows : ℕ → Row} {S : ℕ → State} (h : Chain n rows S) {st : State}
    (hst : step (if n = 0 then none else some (S (n - 1))) (rows n) = .ok st) :
    Chain (n + 1) rows (fun i => if i < n then S i else st) := by
  constructor
  · intro _
    rcases n with _ | n
    · simpa using hst
    · simpa using h.first (by omega)
  · intro i hi
    rcases Nat.lt_or_ge (i + 1) n with hlt | hge
    · simp only [hlt, show i < n by omega, if_true]
      exact h.next i hlt
    · have : n = i + 1 := by omega
      subst this
      simpa using hst

/-- A chain determines what the generator yields. -/
theorem iterate_of_chain (prev : Option State) (rows : List Row) (tail : Option Err)
    (S : ℕ → State) (h0 : ∀ (h : 0 < rows.length), step prev rows[0] = .ok (S 0))
    (h1 : ∀ i (h : i + 1 < rows.length), step (some (S i)) rows[i + 1] = .ok (S (i + 1))) :
    iterate prev rows tail = ((List.range rows.length).map S, tail) := by
  induction rows generalizing prev S with
  | nil => rfl
  | cons row rows ih =>
    unfold iterate
    have := h0 (by simp)
    simp only [List.getElem_cons_zero] at this
    rw [this]
    simp only
    rw [ih (some (S 0)) (fun i => S (i + 1))]
    · simp [List.range_succ_eq_map, Function.comp_def]
    · intro h
      have := h1 0 (by simpa using h)
      simpa using this
    · intro i h
      have := h1 (i + 1) (by simpa using h)
      simpa using this

theorem posdef_of_states {rows : List Row} {shape : List ℕ} {N : ℕ} {b : ℕ → ℕ}
    {A : List ℕ → ℕ → ℕ → ℝ} (hA : IsMatrix rows shape N b A) {S : ℕ → State}
    (hC : Chain N (fun i => rows[i]!) S) (x : List ℕ) (hx : x ∈ ndindex shape)
    (hs : ∀ i < N, 0 < (S i).s x) : PosDef N (A x) := by
  intro v ⟨i0, hi0, hv0⟩
  rw [quad_of_factor N (A x) (stateWeight S x) N
    (fun i hi j hj => hC.factor hA le_rfl x hx (fun i hi => Or.inl (hs i hi))
      (fun j hj h => absurd (hs j hj) h) i j hi hj N le_rfl)]
  -- the largest index with a nonzero component
  obtain ⟨i, hi, hvi, hmax⟩ : ∃ i < N, v i ≠ 0 ∧ ∀ j, i < j → j < N → v j = 0 := by
    classical
    have hne : ((Finset.range N).filter fun i => v i ≠ 0).Nonempty :=
      ⟨i0, by simp [hi0, hv0]⟩
    refine ⟨((Finset.range N).filter fun i => v i ≠ 0).max' hne, ?_, ?_, ?_⟩
    · have := Finset.max'_mem _ hne
      simp only [Finset.mem_filter, Finset.mem_range] at this
      exact this.1
    · have := Finset.max'_mem _ hne
      simp only [Finset.mem_filter, Finset.mem_range] at this
      exact this.2
    · intro j hj hjN
      by_contra hcon
      have := Finset.le_max' ((Finset.range N).filter fun i => v i ≠ 0) j (by simp [hjN, hcon])
      omega
  apply Finset.sum_pos'
  · intro q _; positivity
  · refine ⟨i, Finset.mem_range.2 hi, ?_⟩
    have : ∑ k ∈ range N, v k * stateWeight S x k i = v i * (S i).s x := by
      rw [Finset.sum_eq_single i]
      · unfold stateWeight
        rw [if_pos le_rfl, Nat.sub_self, State.lag_zero]
      · intro k hk hne
        rcases Nat.lt_or_ge k i with h | h
        · unfold stateWeight; rw [if_neg (by omega), mul_zero]
        · rw [hmax k (by omega) (Finset.mem_range.1 hk), zero_mul]
      · intro h; exact absurd (Finset.mem_range.2 hi) h
    rw [this]
    have := (hs i hi).ne'
    positivity

/-- Specification: the matrix is positive definite on the fields with nonzero variance, and all
other fields vanish identically. -/
def Admissible (n : ℕ) (A : ℕ → ℕ → ℝ) : Prop :=
  (∀ i < n, A i i = 0 → ∀ j < n, A i j = 0) ∧
    ∀ v : ℕ → ℝ, (∃ i < n, A i i ≠ 0 ∧ v i ≠ 0) → 0 < quad n A v

theorem quad_single (n i : ℕ) (hi : i < n) (A : ℕ → ℕ → ℝ) :
    quad n A (fun j => if j = i then 1 else 0) = A i i := by
  unfold quad
  rw [Finset.sum_eq_single i]
  · rw [Finset.sum_eq_single i]
    · simp
    · intro j _ hj; simp [hj]
    · intro h; exact absurd (Finset.mem_range.2 hi) h
  · intro j _ hj; simp [hj]
  · intro h; exact absurd (Finset.mem_range.2 hi) h

theorem PosDef.admissible {n : ℕ} {A : ℕ → ℕ → ℝ} (h : PosDef n A) : Admissible n A := by
  constructor
  · intro i hi h0
    have := h (fun j => if j = i then 1 else 0) ⟨i, hi, by simp⟩
    rw [quad_single n i hi, h0] at this
    exact absurd this (lt_irrefl _)
  · rintro v ⟨i, hi, -, hv⟩
    exact h v ⟨i, hi, hv⟩

/-- The run on admissible matrices. -/
theorem run_admissible {rows : List Row} {shape : List ℕ} {N : ℕ} {b : ℕ → ℕ}
    (hb : ∀ i, b (i + 1) ≤ b i + 1) {A : List ℕ → ℕ → ℕ → ℝ} (hA : IsMatrix rows shape N b A)
    (hadm : ∀ x ∈ ndindex shape, Admissible N (A x)) (n : ℕ) (hn : n ≤ N) :
    ∃ S : ℕ → State, Chain n (fun i => rows[i]!) S ∧
      ∀ i < n, ∀ x ∈ ndindex shape, (S i).k = b i ∧
        (A x i i ≠ 0 → 0 < (S i).s x) ∧
        (A x i i = 0 → (S i).s x = 0 ∧ ∀ r < (S i).k, (S i).a x r = 0) := by
  induction n with
  | zero =>
    exact ⟨fun _ => default, ⟨fun h => by omega, fun i hi => by omega⟩, fun i hi => by omega⟩
  | succ n ih =>
    obtain ⟨S, hC, hs⟩ := ih (by omega)
    have hreg : ∀ i < n, ∀ x ∈ ndindex shape, Regular (S i) x := by
      intro i hi x hx
      obtain ⟨-, h1, h2⟩ := hs i hi x hx
      by_cases h0 : A x i i = 0
      · exact Or.inr (h2 h0)
      · exact Or.inl (h1 h0)
    have hdeg : ∀ j < n, ∀ x ∈ ndindex shape, ¬ 0 < (S j).s x → ∀ i < N, A x i j = 0 := by
      intro j hj x hx hns i hi
      rw [hA.symm x hx i hi j (by omega)]
      refine (hadm x hx).1 j (by omega) ?_ i hi
      by_contra h0
      exact hns ((hs j hj x hx).2.1 h0)
    obtain ⟨st, h0, h1, h2, -⟩ := step_cases hb hA hC hn hreg hdeg
    have hk : ∀ x ∈ ndindex shape, st.k = b n := by
      intro x hx
      obtain ⟨P, E, -, hsol⟩ := h0 x hx
      have := hsol.hk
      rw [hA.len n (by omega)] at this
      omega
    have hAnn : ∀ x ∈ ndindex shape, rows[n]!.val x 0 = A x n n := by
      intro x hx
      rw [hA.val n (by omega) x hx 0 (by omega) (by omega), Nat.sub_zero]
    have hzero : ∀ x ∈ ndindex shape, A x n n = 0 → ∀ r < st.k, st.a x r = 0 := by
      intro x hx h0' r hr
      obtain ⟨P, E, hE, hsol⟩ := h0 x hx
      rw [hsol.ha]
      apply Finset.sum_eq_zero
      intro c hc
      rw [Finset.mem_range] at hc
      rcases Nat.lt_or_ge (n + c) st.k with hlt | hge
      · rw [(hsol.inv_m hE).missC r c hr hc hlt, zero_mul]
      · rw [hA.val n (by omega) x hx (st.k - c) (by omega) (by rw [← hk x hx]; omega),
          (hadm x hx).1 n (by omega) h0' _ (by omega), mul_zero]
    have hpos : ∀ x ∈ ndindex shape, A x n n ≠ 0 →
        0 < rows[n]!.val x 0 - ∑ r ∈ range st.k, st.a x r * st.a x r := by
      intro x hx h0'
      obtain ⟨v, hv, hq, -⟩ := h1 x hx
      rw [← hq, ← quad_extend (n + 1) N hn]
      exact (hadm x hx).2 _ ⟨n, by omega, h0', by simp [hv]⟩
    have hz2 : ∀ x ∈ ndindex shape, A x n n = 0 →
        rows[n]!.val x 0 - ∑ r ∈ range st.k, st.a x r * st.a x r = 0 := by
      intro x hx h0'
      rw [hAnn x hx, h0', Finset.sum_eq_zero, sub_zero]
      intro r hr
      rw [hzero x hx h0' r (Finset.mem_range.1 hr), zero_mul]
    have hst := h2 fun x hx => by
      by_cases h0' : A x n n = 0
      · exact (hz2 x hx h0').ge
      · exact (hpos x hx h0').le
    refine ⟨_, hC.snoc hst, ?_⟩
    intro i hi x hx
    by_cases hlt : i < n
    · simp only [hlt, if_true]; exact hs i hlt x hx
    · have hin : i = n := by omega
      subst hin
      simp only [hlt, if_false]
      obtain ⟨v, hv, hq, hss⟩ := h1 x hx
      refine ⟨hk x hx, ?_, ?_⟩
      · intro h0'
        rw [hss, hq]
        exact Real.sqrt_pos.2 (hpos x hx h0')
      · intro h0'
        refine ⟨?_, hzero x hx h0'⟩
        rw [hss, hq, hz2 x hx h0', Real.sqrt_zero]

theorem iternorm_of_chain {rows : List Row} {N : ℕ} (hN : rows.length = N) {S : ℕ → State}
    (hC : Chain N (fun i => rows[i]!) S) :
    ∃ ws, iternorm rows none = (ws, none) ∧ ws.length = N ∧
      ∀ i < N, ws[i]! = (S i).weight := by
  have hrun : iterate none rows none = ((List.range rows.length).map S, none) := by
    apply iterate_of_chain
    · intro h
      have := hC.first (by omega)
      simpa [getElem!_pos rows 0 h] using this
    · intro i h
      have := hC.next i (by omega)
      simpa [getElem!_pos rows (i + 1) h] using this
  refine ⟨((List.range rows.length).map S).map State.weight, ?_, by simp [hN], ?_⟩
  · unfold iternorm
    rw [hrun]
  · intro i hi
    have hi' : i < rows.length := by omega
    rw [getElem!_pos _ i (by simpa using hi')]
    simp

/-- C13 and C14, on admissible matrices: the run completes, the standard deviation is positive
exactly for the fields with nonzero variance, and the fields have the requested covariance. -/
theorem iternorm_admissible (rows : List Row) (shape : List ℕ) (N : ℕ) (b : ℕ → ℕ)
    (hb : ∀ i, b (i + 1) ≤ b i + 1) (A : List ℕ → ℕ → ℕ → ℝ) (hA : IsMatrix rows shape N b A)
    (hadm : ∀ x ∈ ndindex shape, Admissible N (A x)) :
    ∃ ws, iternorm rows none = (ws, none) ∧ ws.length = N ∧
      ∀ x ∈ ndindex shape, ∀ i < N, ws[i]!.k = b i ∧ (0 < sdev ws x i ↔ A x i i ≠ 0) ∧
        (∀ d, i < d → d ≤ b i → ws[i]!.w x (b i - d) = 0) ∧
        ∀ j < N, fieldCov ws x i j = A x i j := by
  obtain ⟨S, hC, hS⟩ := run_admissible hb hA hadm N le_rfl
  obtain ⟨ws, hrun, hlen, hws⟩ := iternorm_of_chain hA.length hC
  refine ⟨ws, hrun, hlen, ?_⟩
  intro x hx i hi
  have hreg : ∀ i < N, Regular (S i) x := by
    intro i hi
    obtain ⟨-, h1, h2⟩ := hS i hi x hx
    by_cases h0 : A x i i = 0
    · exact Or.inr (h2 h0)
    · exact Or.inl (h1 h0)
  have hsd : ∀ i < N, (0 < sdev ws x i ↔ A x i i ≠ 0) := by
    intro i hi
    obtain ⟨-, h1, h2⟩ := hS i hi x hx
    rw [sdev_eq (hws i hi)]
    refine ⟨fun h h0 => ?_, h1⟩
    rw [(h2 h0).1] at h
    exact lt_irrefl _ h
  have hk : ws[i]!.k = b i := by rw [hws i hi]; exact (hS i hi x hx).1
  refine ⟨hk, hsd i hi, ?_, ?_⟩
  · intro d hd hdb
    obtain ⟨P, E, hE, hsol⟩ := hC.invariant x i hi (fun q hq => hreg q (by omega))
    have := hsol.lag_missing hE hd
    unfold State.lag at this
    rw [(hS i hi x hx).1, if_pos hdb] at this
    rw [hws i hi]; exact this
  · intro j hj
    rw [hC.factor hA le_rfl x hx hreg (by
      intro j hj hns i hi
      rw [hA.symm x hx i hi j hj]
      refine (hadm x hx).1 j hj ?_ i hi
      by_contra h0
      exact hns ((hS j hj x hx).2.1 h0)) i j hi hj N le_rfl]
    unfold fieldCov
    rw [hlen]
    apply Finset.sum_congr rfl
    intro q _
    have : ∀ i < N, weightOn ws x i q = stateWeight S x i q := by
      intro i hi
      unfold stateWeight
      split_ifs with h
      · exact weightOn_lag (hws i hi) h
      · exact weightOn_of_lt (by omega)
    rw [this i hi, this j hj]

/-- C14. On the rows of a banded symmetric matrix (or a stack of them), `iternorm` runs to the end
with all standard deviations positive if and only if the matrix (every one of the stack) is
positive definite. The number of off-diagonal entries may be constant or grow by at most one from
row to row. -/
theorem iternorm_posdef_iff (rows : List Row) (shape : List ℕ) (N : ℕ) (b : ℕ → ℕ)
    (hb : ∀ i, b (i + 1) ≤ b i + 1) (A : List ℕ → ℕ → ℕ → ℝ) (hA : IsMatrix rows shape N b A) :
    (∃ ws, iternorm rows none = (ws, none) ∧
      ∀ i < N, ∀ x ∈ ndindex shape, 0 < sdev ws x i) ↔
    ∀ x ∈ ndindex shape, PosDef N (A x) := by
  constructor
  · rintro ⟨ws, hws, hpos⟩ x hx
    have hfull : ws.length = N := by rw [iternorm_complete rows ws hws, hA.length]
    obtain ⟨S, hC, hlen, hS⟩ := iternorm_states rows none ws none hws
    rw [hfull] at hC hS
    apply posdef_of_states hA hC x hx
    intro i hi
    rw [← sdev_eq (hS i hi)]
    exact hpos i hi x hx
  · intro hpd
    obtain ⟨ws, hrun, -, hws⟩ := iternorm_admissible rows shape N b hb A hA
      (fun x hx => (hpd x hx).admissible)
    refine ⟨ws, hrun, ?_⟩
    intro i hi x hx
    rw [(hws x hx i hi).2.1]
    intro h0
    have := hpd x hx (fun j => if j = i then 1 else 0) ⟨i, hi, by simp⟩
    rw [quad_single N i hi, h0] at this
    exact absurd this (lt_irrefl _)

/-- C15, the part that holds: when all standard deviations yielded before the error are positive,
the rejected matrix (some one of the stack) is indeed not positive semi-definite. Missing: the case
of a vanishing standard deviation, where the claim is false (see `iternorm_rejects_semidefinite`). -/
theorem iternorm_rejection_partial (rows : List Row) (shape : List ℕ) (N : ℕ) (b : ℕ → ℕ)
    (hb : ∀ i, b (i + 1) ≤ b i + 1) (A : List ℕ → ℕ → ℕ → ℝ) (hA : IsMatrix rows shape N b A)
    (ws : List Weight) (e : Err) (h : iternorm rows none = (ws, some e))
    (hs : ∀ i < ws.length, ∀ x ∈ ndindex shape, 0 < sdev ws x i) :
    e = .value "covariance matrix is not positive definite" ∧
      ∃ x ∈ ndindex shape, ¬ PosSemidef N (A x) := by
  obtain ⟨S, hC, hlen, hS⟩ := iternorm_states rows none ws (some e) h
  have h2 := h
  unfold iternorm at h2
  simp only [Prod.mk.injEq] at h2
  obtain ⟨rfl, herr⟩ := h2
  obtain ⟨h1, hsteps, h3, h4⟩ := iterate_chain none rows none _ _ rfl
  rw [List.length_map] at hlen hC hS hs
  have hlt : (iterate none rows none).1.length < rows.length := by
    rcases Nat.lt_or_ge (iterate none rows none).1.length rows.length with h | h
    · exact h
    · have := h3 (by omega)
      rw [herr] at this
      cases this
  obtain ⟨e', he', hstep⟩ := h4 hlt
  rw [herr] at he'
  cases he'
  set n := (iterate none rows none).1.length with hn
  have hnN : n < N := by rw [← hA.length]; exact hlt
  have hs' : ∀ i < n, ∀ x ∈ ndindex shape, 0 < (S i).s x := by
    intro i hi x hx
    rw [← sdev_eq (hS i hi)]; exact hs i hi x hx
  obtain ⟨st, -, hv, hok, herr'⟩ := step_cases hb hA hC hnN
    (fun i hi x hx => Or.inl (hs' i hi x hx)) (fun j hj x hx h => absurd (hs' j hj x hx) h)
  -- the previous state of the generator is `S (n - 1)`
  have hprev : (if n = 0 then none else (iterate none rows none).1[n - 1]?) =
      (if n = 0 then none else some (S (n - 1))) := by
    have huniq : ∀ i, i < n → (iterate none rows none).1[i]? = some (S i) := by
      intro i
      induction i with
      | zero =>
        intro hi
        have h5 := hsteps 0 hi (by omega)
        have h6 := hC.first hi
        simp only [if_true] at h5
        simp only [getElem!_pos rows 0 (show 0 < rows.length by omega)] at h6
        rw [h5] at h6
        rw [List.getElem?_eq_getElem hi]
        simpa using h6
      | succ i ih =>
        intro hi
        have h5 := hsteps (i + 1) hi (by omega)
        have h6 := hC.next i hi
        rw [if_neg (by omega), Nat.add_sub_cancel, ih (by omega)] at h5
        simp only [getElem!_pos rows (i + 1) (show i + 1 < rows.length by omega)] at h6
        rw [h5] at h6
        rw [List.getElem?_eq_getElem hi]
        simpa using h6
    by_cases h0 : n = 0
    · simp [h0]
    · rw [if_neg h0, if_neg h0]; exact huniq (n - 1) (by omega)
  rw [hprev, ← getElem!_pos rows n hlt] at hstep
  by_cases hall : ∀ x ∈ ndindex shape,
      0 ≤ rows[n]!.val x 0 - ∑ r ∈ range st.k, st.a x r * st.a x r
  · rw [hok hall] at hstep; cases hstep
  · push Not at hall
    obtain ⟨x, hx, hneg⟩ := hall
    rw [herr' ⟨x, hx, hneg⟩] at hstep
    refine ⟨by simpa using hstep.symm, x, hx, ?_⟩
    intro hpsd
    obtain ⟨v, -, hq, -⟩ := hv x hx
    have := hpsd (fun i => if i < n + 1 then v i else 0)
    rw [quad_extend (n + 1) N hnN, hq] at this
    linarith

/-! ## A concrete matrix, and C15 -/

/-- Rows of length `3` (two off-diagonal entries) for three fields with unit variances and all
covariances equal to `c`; entries outside of the matrix are zero. -/
def exampleRows (c : ℝ) : List Row :=
  (List.range 3).map fun i => ⟨[], 3, fun _ d => if d = 0 then 1 else if d ≤ i then c else 0⟩

theorem exampleRows_isMatrix (c : ℝ) :
    IsMatrix (exampleRows c) [] 3 (fun _ => 2) (fun _ i j => if i = j then 1 else c) where
  length := by simp [exampleRows]
  shapes := by
    intro i hi
    rw [getElem!_pos _ i (by simpa [exampleRows] using hi)]
    simp [exampleRows]
  len := by
    intro i hi
    rw [getElem!_pos _ i (by simpa [exampleRows] using hi)]
    simp [exampleRows]
  val := by
    intro i hi x _ d hd hd2
    rw [getElem!_pos _ i (by simpa [exampleRows] using hi)]
    simp only [exampleRows, List.getElem_map, List.getElem_range]
    by_cases h : d = 0
    · simp [h]
    · rw [if_neg h, if_pos hd, if_neg (by omega)]
  symm := by
    intro x _ i _ j _
    simp only [eq_comm]
  band := by
    intro x _ i hi j hj hb
    exact absurd hb (by show ¬ (2 < i - j); omega)

/-- A case meeting the hypotheses of C13 and C14: correlation one half. -/
example : ∃ ws, iternorm (exampleRows (1 / 2)) none = (ws, none) ∧
    (∀ i < 3, ∀ x ∈ ndindex [], 0 < sdev ws x i) ∧ fieldCov ws [] 2 0 = 1 / 2 := by
  obtain ⟨ws, h1, h2⟩ := (iternorm_posdef_iff (exampleRows (1 / 2)) [] 3 (fun _ => 2)
    (fun _ => by norm_num) _ (exampleRows_isMatrix _)).2 (by
      intro x _ v ⟨i, hi, hv⟩
      unfold quad
      simp only [Finset.sum_range_succ, Finset.sum_range_zero]
      norm_num
      have h : 0 < v 0 ^ 2 + v 1 ^ 2 + v 2 ^ 2 := by
        interval_cases i <;> positivity
      nlinarith [sq_nonneg (v 0 + v 1 + v 2)])
  refine ⟨ws, h1, h2, ?_⟩
  have hlen : ws.length = 3 := by rw [iternorm_complete _ ws h1]; simp [exampleRows]
  have := iternorm_reproduces_pos (exampleRows (1 / 2)) none ws none h1 []
    (by simp [exampleRows, ndindex]) (fun i hi => h2 i (by omega) [] (by simp [ndindex])) 2 0
    (by norm_num) (by omega)
  rw [this]
  simp [exampleRows]

/-- Three fully correlated fields of unit variance are rejected.  After the second field, whose
standard deviation vanishes, the new row of the matrix keeps its off-diagonal entry. -/
theorem iternorm_ones :
    (iternorm (exampleRows 1) none).2 =
      some (.value "covariance matrix is not positive definite") := by
  set row : ℕ → Row := fun i =>
    ⟨[], 3, fun _ d => if d = 0 then 1 else if d ≤ i then 1 else 0⟩ with hrow
  set st0 : State := ⟨[], 2, fun _ _ _ => 0, fun _ _ => 0, fun _ => 1⟩ with hst0
  set st1 : State := ⟨[], 2, fun _ i j => if i = 0 then 0 else if j = 0 then 0 else 1,
    fun _ i => if i = 0 then 0 else 1, fun _ => 0⟩ with hst1
  have h0 : step none (row 0) = .ok st0 := by
    simp [hrow, hst0, step, cutAndSolve]
  have h1 : step (some st0) (row 1) = .ok st1 := by
    simp [hrow, hst0, hst1, step, cutAndSolve, extend, Finset.sum_range_succ]
  have h2 : step (some st1) (row 2) =
      .error (.value "covariance matrix is not positive definite") := by
    unfold step
    rw [if_neg (by simp [hrow])]
    simp only
    rw [if_neg (by simp [hrow, hst1])]
    unfold cutAndSolve
    simp only
    rw [if_neg (by simp [hrow, hst1]), if_pos]
    refine ⟨[], by simp [hst1, ndindex], ?_⟩
    simp [hrow, hst1, extend, Finset.sum_range_succ]
  have hrows : exampleRows 1 = [row 0, row 1, row 2] := by
    simp [exampleRows, hrow, List.range_succ]
  rw [hrows]
  simp [iternorm, iterate, h0, h1, h2]

/-- C15 is false: the positive semi-definite matrix of ones is rejected as not positive
definite. -/
theorem iternorm_rejects_semidefinite :
    ¬ ∀ (rows : List Row) (shape : List ℕ) (N : ℕ) (b : ℕ → ℕ) (A : List ℕ → ℕ → ℕ → ℝ),
      (∀ i, b (i + 1) ≤ b i + 1) → IsMatrix rows shape N b A →
      (∀ x ∈ ndindex shape, PosSemidef N (A x)) → (iternorm rows none).2 = none := by
  intro h
  have h1 := h _ _ _ _ _ (by norm_num) (exampleRows_isMatrix 1) (by
    intro x _ v
    have : quad 3 (fun i j => if i = j then 1 else 1) v = (v 0 + v 1 + v 2) ^ 2 := by
      unfold quad
      simp only [Finset.sum_range_succ, Finset.sum_range_zero]
      simp
      ring
    rw [this]; positivity)
  rw [iternorm_ones] at h1
  cases h1

/-! ## Exceptions -/

theorem cutAndSolve_error {shape size mat row e} (h : cutAndSolve shape size mat row = .error e) :
    ∃ msg, e = .value msg := by
  unfold cutAndSolve at h
  simp only at h
  split_ifs at h
  · exact ⟨_, (Except.error.inj h).symm⟩
  · exact ⟨_, (Except.error.inj h).symm⟩

theorem cutAndSolve_shape {shape size mat row st} (h : cutAndSolve shape size mat row = .ok st) :
    st.shape = shape := by
  unfold cutAndSolve at h
  simp only at h
  split_ifs at h
  rw [Except.ok.injEq] at h
  rw [← h]

theorem step_error {prev row e} (h : step prev row = .error e) : ∃ msg, e = .value msg := by
  unfold step at h
  split_ifs at h
  · exact ⟨_, (Except.error.inj h).symm⟩
  · split at h
    · exact cutAndSolve_error h
    · split_ifs at h
      · exact ⟨_, (Except.error.inj h).symm⟩
      · exact cutAndSolve_error h

theorem step_ok {prev row st} (h : step prev row = .ok st) :
    row.len ≠ 0 ∧ row.shape = st.shape ∧ ∀ p, prev = some p → p.shape = st.shape := by
  unfold step at h
  split_ifs at h with h0
  refine ⟨h0, ?_⟩
  split at h
  · exact ⟨(cutAndSolve_shape h).symm, by simp⟩
  · rename_i p
    split_ifs at h with h1
    have := cutAndSolve_shape h
    refine ⟨(not_not.1 h1).trans this.symm, fun q hq => ?_⟩
    cases hq
    exact this.symm

theorem iterate_error (prev rows) : ∀ {S e}, iterate prev rows none = (S, some e) →
    ∃ msg, e = .value msg := by
  induction rows generalizing prev with
  | nil => intro S e h; simp [iterate] at h
  | cons row rows ih =>
    intro S e h
    rw [iterate] at h
    split at h
    · rename_i e' he
      simp only [Prod.mk.injEq, Option.some.injEq] at h
      rw [← h.2]
      exact step_error he
    · rename_i st hst
      rcases hr : iterate (some st) rows none with ⟨S', e'⟩
      rw [hr] at h
      simp only [Prod.mk.injEq] at h
      exact ih _ (hr.trans (by rw [h.2]))

theorem iterate_ok (rows) : ∀ {prev S}, iterate prev rows none = (S, none) →
    (∀ row ∈ rows, row.len ≠ 0) ∧ (∀ p, prev = some p → ∀ row ∈ rows, row.shape = p.shape) ∧
      ∀ row ∈ rows, ∀ row' ∈ rows, row.shape = row'.shape := by
  induction rows with
  | nil => intro prev S _; simp
  | cons row rows ih =>
    intro prev S h
    rw [iterate] at h
    split at h
    · simp at h
    · rename_i st hst
      rcases hr : iterate (some st) rows none with ⟨S', e'⟩
      rw [hr] at h
      simp only [Prod.mk.injEq] at h
      rw [h.2] at hr
      obtain ⟨h1, h2, -⟩ := ih hr
      obtain ⟨g1, g2, g3⟩ := step_ok hst
      have hall : ∀ r ∈ row :: rows, r.shape = st.shape := by
        intro r hr
        rcases List.mem_cons.1 hr with rfl | hr
        · exact g2
        · exact h2 st rfl r hr
      refine ⟨fun r hr => ?_, fun p hp r hr => ?_, fun r hr r' hr' => ?_⟩
      · rcases List.mem_cons.1 hr with rfl | hr
        · exact g1
        · exact h1 r hr
      · rw [hall r hr, g3 p hp]
      · rw [hall r hr, hall r' hr']

/-- **C15**: the exceptions of `iternorm` are `ValueError`; they are raised whenever a row is empty or
two rows differ in their leading axes. -/
theorem iternorm_value_error (rows : List Row) :
    (∀ ws e, iternorm rows none = (ws, some e) → ∃ msg, e = .value msg) ∧
    (((∃ row ∈ rows, row.len = 0) ∨ ∃ row ∈ rows, ∃ row' ∈ rows, row.shape ≠ row'.shape) →
      ∃ msg, (iternorm rows none).2 = some (.value msg)) := by
  have key : ∀ ws e, iternorm rows none = (ws, some e) → ∃ msg, e = .value msg := by
    intro ws e h
    unfold iternorm at h
    rcases hr : iterate none rows none with ⟨S, e'⟩
    rw [hr] at h
    simp only [Prod.mk.injEq] at h
    exact iterate_error none rows (hr.trans (by rw [h.2]))
  refine ⟨key, fun h => ?_⟩
  rcases hi : iternorm rows none with ⟨ws, _ | e⟩
  · exfalso
    unfold iternorm at hi
    rcases hr : iterate none rows none with ⟨S, e'⟩
    rw [hr] at hi
    simp only [Prod.mk.injEq] at hi
    rw [hi.2] at hr
    obtain ⟨h1, -, h2⟩ := iterate_ok rows hr
    rcases h with ⟨r, hr, h0⟩ | ⟨r, hr, r', hr', hne⟩
    · exact h1 r hr h0
    · exact hne (h2 r hr r' hr')
  · obtain ⟨msg, rfl⟩ := key _ _ hi
    exact ⟨msg, rfl⟩

/-- Rows of different shapes exist. -/
example : ∃ msg, (iternorm [⟨[2], 1, fun _ _ => 1⟩, ⟨[3], 2, fun _ _ => 1⟩] none).2 =
    some (.value msg) :=
  (iternorm_value_error _).2 (.inr ⟨_, List.mem_cons_self, _,
    List.mem_cons_of_mem _ List.mem_cons_self, by simp⟩)

end Glass.Grf
