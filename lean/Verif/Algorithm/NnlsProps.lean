import Mathlib.Tactic.Linarith
import Mathlib.Tactic.Ring
import Mathlib.Tactic.NormNum
import Mathlib.Tactic.LinearCombination
import Mathlib.Algebra.Order.BigOperators.Ring.Finset
import Mathlib.Algebra.BigOperators.Fin
import Mathlib.Tactic.FinCases
import Mathlib.LinearAlgebra.Matrix.Notation
import Mathlib.LinearAlgebra.Matrix.DotProduct
import Mathlib.LinearAlgebra.Matrix.ToLin
import Mathlib.LinearAlgebra.FiniteDimensional.Lemmas
import Verif.Algorithm.Model

/-! # Properties C55 and C56: non-negative least squares -/

namespace Glass.Algorithm

open Glass Matrix

/-! ## C55: the result is not negative -/

theorem innerLoop_pos {m n : ℕ} (solve : Solver) (a : Matrix (Fin m) (Fin n) ℝ) (b : Fin m → ℝ) :
    ∀ (fuel : ℕ) (q : Fin n → Bool) (x : Fin n → ℝ) (q' : Fin n → Bool) (x' s : Fin n → ℝ),
      innerLoop solve a b fuel q x = some (.ok (q', x', s)) →
      (∀ i, q' i = true → 0 < s i) ∧ solveSubset solve a b q' = .ok s := by
  intro fuel
  induction fuel with
  | zero => intro q x q' x' s h; simp [innerLoop] at h
  | succ fuel ih =>
    intro q x q' x' s h
    simp only [innerLoop] at h
    rcases hs : solveSubset solve a b q with e | s0
    · rw [hs] at h; simp at h
    · rw [hs] at h
      dsimp only at h
      split_ifs at h with h1 h2
      · simp only [Option.some.injEq, Except.ok.injEq, Prod.mk.injEq] at h
        obtain ⟨rfl, rfl, rfl⟩ := h
        refine ⟨fun i hi => ?_, hs⟩
        by_contra hc
        rw [List.isEmpty_iff, List.filter_eq_nil_iff] at h1
        exact h1 i (List.mem_finRange i) (by simp [hi, not_lt.1 hc])
      · exact ih _ _ _ _ _ h

theorem outerLoop_nonneg {m n : ℕ} (solve : Solver) (fuel : ℕ) (a : Matrix (Fin m) (Fin n) ℝ)
    (b : Fin m → ℝ) (tol : ℝ) :
    ∀ (k : ℕ) (q : Fin n → Bool) (x y : Fin n → ℝ) (stopped : Bool), (∀ i, 0 ≤ x i) →
      outerLoop solve fuel a b tol k q x = some (.ok (y, stopped)) → ∀ i, 0 ≤ y i := by
  intro k
  induction k with
  | zero =>
    intro q x y stopped hx h
    simp only [outerLoop, Option.some.injEq, Except.ok.injEq, Prod.mk.injEq] at h
    obtain ⟨rfl, -⟩ := h
    exact hx
  | succ k ih =>
    intro q x y stopped hx h
    rw [outerLoop] at h
    split_ifs at h with h1
    · simp only [Option.some.injEq, Except.ok.injEq, Prod.mk.injEq] at h
      obtain ⟨rfl, -⟩ := h
      exact hx
    · dsimp only at h
      split at h
      · simp at h
      · rename_i mm hm
        split_ifs at h with h2
        · simp only [Option.some.injEq, Except.ok.injEq, Prod.mk.injEq] at h
          obtain ⟨rfl, -⟩ := h
          exact hx
        · split at h
          · simp at h
          · simp at h
          · rename_i q' x' s hin
            refine ih _ _ _ _ ?_ h
            intro i
            have := (innerLoop_pos solve a b _ _ _ _ _ _ hin).1 i
            cases hq : q' i
            · simp
            · simpa using (this hq).le

/-- **C55**: whatever the linear solver does, no component of the result is negative. -/
theorem nnls_nonneg (solve : Solver) (fuel : ℕ) (a b : NdArray ℝ) (tol : ℝ) (maxiter : Option ℕ)
    (x : NdArray ℝ) (h : nnls solve fuel a b tol maxiter = some (.ok x)) (i : List ℕ) :
    0 ≤ x.get i := by
  unfold nnls at h
  split at h
  · rename_i m n hm
    split at h
    · rename_i k hk
      split_ifs at h with h1
      · simp at h
      · rcases hr : nnlsRun (m := m) (n := n) solve fuel (fun i j => a.get [i, j])
          (fun i => b.get [i]) tol maxiter with _ | (e | ⟨y, st⟩)
        · rw [hr] at h; simp at h
        · rw [hr] at h; simp [Except.map] at h
        · rw [hr] at h
          simp only [Except.map, Option.map_some, Option.some.injEq, Except.ok.injEq] at h
          subst h
          have := outerLoop_nonneg solve fuel _ _ tol _ _ _ _ _ (fun _ => le_rfl) hr
          dsimp only
          split
          · split_ifs
            · exact this _
            · exact le_rfl
          · exact le_rfl
    · simp at h
  · simp at h

/-- The shape of a result, and the rejection of wrong shapes. -/
theorem nnls_shapes (solve : Solver) (fuel : ℕ) (a b : NdArray ℝ) (tol : ℝ)
    (maxiter : Option ℕ) :
    (a.shape.length ≠ 2 → nnls solve fuel a b tol maxiter =
      some (.error (.value "input `a` is not a matrix"))) ∧
    (a.shape.length = 2 → b.shape.length ≠ 1 → nnls solve fuel a b tol maxiter =
      some (.error (.value "input `b` is not a vector"))) ∧
    (∀ m n k, a.shape = [m, n] → b.shape = [k] → m ≠ k → nnls solve fuel a b tol maxiter =
      some (.error (.value "the shapes of `a` and `b` do not match"))) ∧
    (∀ m n k x, a.shape = [m, n] → b.shape = [k] →
      nnls solve fuel a b tol maxiter = some (.ok x) → x.shape = [n]) := by
  refine ⟨?_, ?_, ?_, ?_⟩
  · intro h
    unfold nnls
    split
    · rename_i hm; rw [hm] at h; simp at h
    · rfl
  · intro h1 h2
    unfold nnls
    split
    · split
      · rename_i hk; rw [hk] at h2; simp at h2
      · rfl
    · rename_i hm
      exfalso
      match hs : a.shape, h1 with
      | [m, n], _ => exact hm _ _ hs
  · intro m n k ha hb hk
    unfold nnls
    rw [ha, hb]
    simp [hk]
  · intro m n k x ha hb h
    unfold nnls at h
    rw [ha, hb] at h
    dsimp only at h
    split_ifs at h
    · simp at h
    rcases hr : nnlsRun (m := m) (n := n) solve fuel (fun i j => a.get [i, j])
      (fun i => b.get [i]) tol maxiter with _ | (e | y)
    · rw [hr] at h; simp at h
    · rw [hr] at h; simp [Except.map] at h
    · rw [hr] at h
      simp only [Except.map, Option.map_some, Option.some.injEq, Except.ok.injEq] at h
      subst h
      rfl

/-! ## C56: optimality -/

/-- What `solve` returns solves the system. -/
def SolverSound (solve : Solver) : Prop :=
  ∀ (ι : Type) [Fintype ι] [DecidableEq ι] (M : Matrix ι ι ℝ) (v s : ι → ℝ),
    solve ι M v = .ok s → M *ᵥ s = v

/-- A regular matrix does not raise. -/
def SolverTotal (solve : Solver) : Prop :=
  ∀ (ι : Type) [Fintype ι] [DecidableEq ι] (M : Matrix ι ι ℝ) (v : ι → ℝ),
    (∀ u, M *ᵥ u = 0 → u = 0) → ∃ s, solve ι M v = .ok s

/-- The gradient of the least squares problem: correlation of column `j` with the residual. -/
def grad {m n : ℕ} (a : Matrix (Fin m) (Fin n) ℝ) (b : Fin m → ℝ) (x : Fin n → ℝ) (j : Fin n) : ℝ :=
  ∑ i, (b i - ∑ k, a i k * x k) * a i j

/-- The sum of squares. -/
def sumSq {m n : ℕ} (a : Matrix (Fin m) (Fin n) ℝ) (b : Fin m → ℝ) (x : Fin n → ℝ) : ℝ :=
  ∑ i, (b i - ∑ k, a i k * x k) ^ 2

/-- The Karush-Kuhn-Tucker conditions up to a tolerance. -/
structure KKT {m n : ℕ} (tol : ℝ) (a : Matrix (Fin m) (Fin n) ℝ) (b : Fin m → ℝ)
    (x : Fin n → ℝ) : Prop where
  nonneg : ∀ j, 0 ≤ x j
  stationary : ∀ j, 0 < x j → grad a b x j = 0
  bound : ∀ j, grad a b x j ≤ tol

/-- The conditions are sufficient: no non-negative vector has a smaller sum of squares (up to the
tolerance). -/
theorem KKT.minimal {m n : ℕ} {tol : ℝ} {a : Matrix (Fin m) (Fin n) ℝ} {b : Fin m → ℝ}
    {x : Fin n → ℝ} (h : KKT tol a b x) (y : Fin n → ℝ) (hy : ∀ j, 0 ≤ y j) :
    sumSq a b x ≤ sumSq a b y + 2 * tol * ∑ j, y j := by
  have e1 : ∑ j, (y j - x j) * grad a b x j ≤ tol * ∑ j, y j := by
    rw [Finset.mul_sum]
    apply Finset.sum_le_sum
    intro j _
    rcases (h.nonneg j).lt_or_eq with hx | hx
    · rw [h.stationary j hx, mul_zero]
      have h0 := h.bound j
      rw [h.stationary j hx] at h0
      exact mul_nonneg h0 (hy j)
    · rw [← hx, sub_zero]
      nlinarith [h.bound j, hy j]
  have e2 : ∑ j, (y j - x j) * grad a b x j =
      ∑ i, (b i - ∑ k, a i k * x k) * (∑ k, a i k * y k - ∑ k, a i k * x k) := by
    simp only [grad, Finset.mul_sum]
    rw [Finset.sum_comm]
    apply Finset.sum_congr rfl
    intro i _
    rw [← Finset.sum_sub_distrib, Finset.mul_sum]
    apply Finset.sum_congr rfl
    intro j _
    ring
  have e3 : sumSq a b y = sumSq a b x - 2 * (∑ i, (b i - ∑ k, a i k * x k) *
      (∑ k, a i k * y k - ∑ k, a i k * x k)) +
      ∑ i, (∑ k, a i k * y k - ∑ k, a i k * x k) ^ 2 := by
    simp only [sumSq]
    rw [Finset.mul_sum, ← Finset.sum_sub_distrib, ← Finset.sum_add_distrib]
    apply Finset.sum_congr rfl
    intro i _
    ring
  have e4 : 0 ≤ ∑ i, (∑ k, a i k * y k - ∑ k, a i k * x k) ^ 2 :=
    Finset.sum_nonneg fun i _ => sq_nonneg _
  rw [e3, ← e2]
  linarith

/-- The solution for a subset of columns solves the normal equations of these columns. -/
theorem solveSubset_sound {m n : ℕ} {solve : Solver} (hs : SolverSound solve)
    (a : Matrix (Fin m) (Fin n) ℝ) (b : Fin m → ℝ) (q : Fin n → Bool) (s : Fin n → ℝ)
    (h : solveSubset solve a b q = .ok s) :
    (∀ i, q i = false → s i = 0) ∧ ∀ j, q j = true → grad a b s j = 0 := by
  unfold solveSubset at h
  rcases hr : solve {i : Fin n // q i = true}
    ((a.submatrix id Subtype.val : Matrix (Fin m) {i : Fin n // q i = true} ℝ)ᵀ *
      a.submatrix id Subtype.val) (b ᵥ* a.submatrix id Subtype.val) with e | sq
  · simp only [hr] at h; cases h
  · simp only [hr] at h
    injection h with h
    subst h
    refine ⟨fun i hi => by simp [hi], fun j hj => ?_⟩
    have key := congrFun (hs _ _ _ _ hr) ⟨j, hj⟩
    have hfull : ∀ i, ∑ k, a i k * (if h : q k = true then sq ⟨k, h⟩ else 0) =
        ∑ k : {i : Fin n // q i = true}, a i k * sq k := by
      intro i
      rw [← Finset.sum_filter_add_sum_filter_not Finset.univ (fun k => q k = true)]
      rw [Finset.sum_eq_zero (s := Finset.univ.filter fun k => ¬ q k = true), add_zero]
      · rw [Finset.sum_subtype (Finset.univ.filter fun k => q k = true) (p := fun k => q k = true)
          (by simp)]
        apply Finset.sum_congr rfl
        intro k _
        rw [dif_pos k.2]
      · intro k hk
        simp only [Finset.mem_filter, Finset.mem_univ, true_and] at hk
        rw [dif_neg hk, mul_zero]
    simp only [grad, hfull]
    simp only [mulVec, vecMul, dotProduct, mul_apply, transpose_apply, submatrix_apply, id_eq] at key
    have e : ∑ i, (b i - ∑ k : {i : Fin n // q i = true}, a i k * sq k) * a i j =
        ∑ i, b i * a i j -
          ∑ k : {i : Fin n // q i = true}, (∑ i, a i j * a i k) * sq k := by
      simp only [sub_mul, Finset.sum_sub_distrib, Finset.sum_mul]
      congr 1
      rw [Finset.sum_comm]
      apply Finset.sum_congr rfl
      intro k _
      apply Finset.sum_congr rfl
      intro i _
      ring
    rw [e, key, sub_self]

/-- With independent columns the least squares solution of every subset exists. -/
theorem solveSubset_total {m n : ℕ} {solve : Solver} (hs : SolverTotal solve)
    (a : Matrix (Fin m) (Fin n) ℝ) (b : Fin m → ℝ) (q : Fin n → Bool)
    (ha : ∀ u, a *ᵥ u = 0 → u = 0) : ∃ s, solveSubset solve a b q = .ok s := by
  let aq : Matrix (Fin m) {i : Fin n // q i = true} ℝ := a.submatrix id Subtype.val
  obtain ⟨s, h⟩ := hs {i : Fin n // q i = true} (aqᵀ * aq) (b ᵥ* aq) (by
    intro u hu
    have h1 : (aq *ᵥ u) ⬝ᵥ (aq *ᵥ u) = 0 := by
      rw [← vecMul_transpose aq u, ← dotProduct_mulVec, vecMul_transpose, mulVec_mulVec, hu]
      simp
    rw [dotProduct_self_eq_zero] at h1
    have h2 := ha (fun i => if h : q i = true then u ⟨i, h⟩ else 0) (by
      funext i
      have := congrFun h1 i
      simp only [mulVec, dotProduct, Pi.zero_apply] at this ⊢
      refine Eq.trans ?_ this
      rw [← Finset.sum_filter_add_sum_filter_not Finset.univ (fun k => q k = true)]
      rw [Finset.sum_eq_zero (s := Finset.univ.filter fun k => ¬ q k = true), add_zero]
      · rw [Finset.sum_subtype (Finset.univ.filter fun k => q k = true) (p := fun k => q k = true)
          (by simp)]
        apply Finset.sum_congr rfl
        intro k _
        rw [dif_pos k.2]
        rfl
      · intro k hk
        simp only [Finset.mem_filter, Finset.mem_univ, true_and] at hk
        rw [dif_neg hk, mul_zero])
    funext k
    have := congrFun h2 k.1
    rw [dif_pos k.2] at this
    exact this)
  refine ⟨fun i => if h : q i = true then s ⟨i, h⟩ else 0, ?_⟩
  unfold solveSubset
  change (do let sq ← solve {i : Fin n // q i = true} (aqᵀ * aq) (b ᵥ* aq); _) = _
  rw [h]
  rfl

theorem outer_grad {m n : ℕ} (a : Matrix (Fin m) (Fin n) ℝ) (b : Fin m → ℝ) (x : Fin n → ℝ) :
    (fun j => ∑ i, (b - a *ᵥ x) i * a i j) = grad a b x := by
  funext j
  simp [grad, mulVec, dotProduct]

theorem outerLoop_kkt {m n : ℕ} {solve : Solver} (hs : SolverSound solve) (fuel : ℕ)
    (a : Matrix (Fin m) (Fin n) ℝ) (b : Fin m → ℝ) (tol : ℝ) (htol : 0 ≤ tol) :
    ∀ (k : ℕ) (q : Fin n → Bool) (x y : Fin n → ℝ), (∀ i, 0 ≤ x i) →
      (∀ i, q i = false → x i = 0) → (∀ j, q j = true → grad a b x j = 0) →
      outerLoop solve fuel a b tol k q x = some (.ok (y, true)) → KKT tol a b y := by
  intro k
  induction k with
  | zero =>
    intro q x y hx hq hg h
    simp [outerLoop] at h
  | succ k ih =>
    intro q x y hx hq hg h
    rw [outerLoop] at h
    split_ifs at h with h1
    · simp only [Option.some.injEq, Except.ok.injEq, Prod.mk.injEq] at h
      obtain ⟨rfl, -⟩ := h
      have hall : ∀ i, q i = true := fun i => List.all_eq_true.1 h1 i (List.mem_finRange i)
      exact ⟨hx, fun j _ => hg j (hall j), fun j => by rw [hg j (hall j)]; exact htol⟩
    · rw [outer_grad] at h
      dsimp only at h
      split at h
      · simp at h
      · rename_i mm hm
        split_ifs at h with h2
        · simp only [Option.some.injEq, Except.ok.injEq, Prod.mk.injEq] at h
          obtain ⟨rfl, -⟩ := h
          refine ⟨hx, fun j hj => ?_, fun j => ?_⟩
          · cases hqj : q j
            · rw [hq j hqj] at hj
              exact absurd hj (lt_irrefl _)
            · exact hg j hqj
          · cases hqj : q j
            · refine le_trans (List.le_of_mem_argmax (f := grad a b x) (a := j) ?_ hm) h2
              simp [hqj]
            · rw [hg j hqj]; exact htol
        · split at h
          · simp at h
          · simp at h
          · rename_i q' x' s hin
            obtain ⟨hpos, hsub⟩ := innerLoop_pos solve a b _ _ _ _ _ _ hin
            obtain ⟨hz, hgs⟩ := solveSubset_sound hs a b q' s hsub
            have hx' : (fun i => if (!q' i) = true then (0 : ℝ) else if q' i = true then s i else x' i)
                = s := by
              funext i
              cases hqi : q' i
              · simp [hz i hqi]
              · simp
            rw [hx'] at h
            refine ih q' s y ?_ hz hgs h
            intro i
            cases hqi : q' i
            · rw [hz i hqi]
            · exact (hpos i hqi).le

/-- **C56**, first part (holds): if `nnls` stops before its iteration limit, the result satisfies
the Karush-Kuhn-Tucker conditions up to the tolerance, so that with tolerance zero it is a
minimiser. -/
theorem nnls_stopped_kkt {m n : ℕ} {solve : Solver} (hs : SolverSound solve) (fuel : ℕ)
    (a : Matrix (Fin m) (Fin n) ℝ) (b : Fin m → ℝ) (tol : ℝ) (htol : 0 ≤ tol) (maxiter : Option ℕ)
    (x : Fin n → ℝ) (h : nnlsRun solve fuel a b tol maxiter = some (.ok (x, true))) :
    KKT tol a b x :=
  outerLoop_kkt hs fuel a b tol htol _ _ _ _ (fun _ => le_rfl) (fun _ _ => rfl)
    (fun _ h => by simp at h) h

/-- The same in terms of the sum of squares: **C56** for the runs that stop by themselves. -/
theorem nnls_stopped_minimal_partial {m n : ℕ} {solve : Solver} (hs : SolverSound solve) (fuel : ℕ)
    (a : Matrix (Fin m) (Fin n) ℝ) (b : Fin m → ℝ) (maxiter : Option ℕ)
    (x : Fin n → ℝ) (h : nnlsRun solve fuel a b 0 maxiter = some (.ok (x, true)))
    (y : Fin n → ℝ) (hy : ∀ j, 0 ≤ y j) : sumSq a b x ≤ sumSq a b y := by
  have := (nnls_stopped_kkt hs fuel a b 0 le_rfl maxiter x h).minimal y hy
  simpa using this

/-- A problem with two columns, of full rank. -/
def badMatrix : Matrix (Fin 2) (Fin 2) ℝ := !![10, 1; 0, 1]

/-- The right-hand side. -/
def badVector : Fin 2 → ℝ := ![1, 2]

theorem badMatrix_regular (u : Fin 2 → ℝ) (h : badMatrix *ᵥ u = 0) : u = 0 := by
  have h0 := congrFun h 0
  have h1 := congrFun h 1
  simp [badMatrix, mulVec, dotProduct, Fin.sum_univ_two] at h0 h1
  funext i
  fin_cases i
  · simp; linarith
  · simpa using h1

theorem bad_first {solve : Solver} (hs : SolverSound solve) (ht : SolverTotal solve) :
    solveSubset solve badMatrix badVector ![true, false] = .ok ![1 / 10, 0] := by
  obtain ⟨s, h⟩ := solveSubset_total ht badMatrix badVector ![true, false] badMatrix_regular
  obtain ⟨hz, hg⟩ := solveSubset_sound hs _ _ _ _ h
  have h1 : s 1 = 0 := hz 1 rfl
  have h0 := hg 0 rfl
  simp [grad, badMatrix, badVector, Fin.sum_univ_two, h1] at h0
  rw [h]
  congr 1
  funext i
  fin_cases i
  · simp; linarith
  · simpa using h1

theorem bad_both {solve : Solver} (hs : SolverSound solve) (ht : SolverTotal solve) :
    solveSubset solve badMatrix badVector ![true, true] = .ok ![-1 / 10, 2] := by
  obtain ⟨s, h⟩ := solveSubset_total ht badMatrix badVector ![true, true] badMatrix_regular
  obtain ⟨-, hg⟩ := solveSubset_sound hs _ _ _ _ h
  have h0 := hg 0 rfl
  have h1 := hg 1 rfl
  simp [grad, badMatrix, badVector, Fin.sum_univ_two] at h0 h1
  rw [h]
  congr 1
  funext i
  fin_cases i
  · simp; linarith
  · simp; linarith

theorem bad_step {solve : Solver} (hs : SolverSound solve) (ht : SolverTotal solve) (fuel : ℕ) :
    innerLoop solve badMatrix badVector (fuel + 2) ![true, true] ![1 / 10, 0] =
      some (.ok (![true, false], ![1 / 5, -1], ![1 / 10, 0])) := by
  have ht1 : (List.finRange 2).filter (fun i => (![true, true] : Fin 2 → Bool) i &&
      decide ((![-1 / 10, 2] : Fin 2 → ℝ) i ≤ 0)) = [0] := by
    have : List.finRange 2 = [0, 1] := rfl
    rw [this]
    rw [List.filter_cons_of_pos (by simp; norm_num), List.filter_cons_of_neg (by simp)]
    rfl
  have hx : (fun i : Fin 2 => if (![true, true] : Fin 2 → Bool) i then
      (![1 / 10, 0] : Fin 2 → ℝ) i + -(1 / 2 : ℝ) * ((![-1 / 10, 2] : Fin 2 → ℝ) i -
        (![1 / 10, 0] : Fin 2 → ℝ) i) else (![1 / 10, 0] : Fin 2 → ℝ) i) = ![1 / 5, -1] := by
    funext i
    fin_cases i
    · simp; norm_num
    · simp
  have hq : (fun i : Fin 2 => if (if (![true, true] : Fin 2 → Bool) i then
      (![1 / 10, 0] : Fin 2 → ℝ) i + -(1 / 2 : ℝ) * ((![-1 / 10, 2] : Fin 2 → ℝ) i -
        (![1 / 10, 0] : Fin 2 → ℝ) i) else (![1 / 10, 0] : Fin 2 → ℝ) i) ≤ 0 then false else
      (![true, true] : Fin 2 → Bool) i) = ![true, false] := by
    funext i
    fin_cases i
    · simp; norm_num
    · simp
  have ht2 : (List.finRange 2).filter (fun i => (![true, false] : Fin 2 → Bool) i &&
      decide ((![1 / 10, 0] : Fin 2 → ℝ) i ≤ 0)) = [] := by
    have : List.finRange 2 = [0, 1] := rfl
    rw [this]
    have h1 : decide ((10 : ℝ) ≤ 0) = false := by norm_num
    simp [List.filter, h1]
  rw [innerLoop, bad_both hs ht]
  dsimp only
  rw [ht1]
  have hany : ([(0 : Fin 2)].any fun i => decide ((![1 / 10, 0] : Fin 2 → ℝ) i -
      (![-1 / 10, 2] : Fin 2 → ℝ) i = 0)) = false := by
    simp; norm_num
  have hmin : -((([(0 : Fin 2)].map fun i => (![1 / 10, 0] : Fin 2 → ℝ) i /
      ((![1 / 10, 0] : Fin 2 → ℝ) i - (![-1 / 10, 2] : Fin 2 → ℝ) i)).min?).getD 0) =
      -(1 / 2 : ℝ) := by
    simp; norm_num
  rw [if_neg (by simp), hany, if_neg (by simp), hmin, hq, hx, innerLoop, bad_first hs ht]
  dsimp only
  rw [ht2]
  rfl

theorem bad_loop {solve : Solver} (hs : SolverSound solve) (ht : SolverTotal solve) (fuel : ℕ) :
    ∀ k, outerLoop solve (fuel + 2) badMatrix badVector 0 k ![true, false] ![1 / 10, 0] =
      some (.ok (![1 / 10, 0], false)) := by
  intro k
  induction k with
  | zero => rfl
  | succ k ih =>
    rw [outerLoop]
    have h1 : ¬ ((List.finRange 2).all (![true, false] : Fin 2 → Bool) = true) := by decide
    have h2 : (List.finRange 2).filter (fun i => !(![true, false] : Fin 2 → Bool) i) = [1] := by
      decide
    have h3 : grad badMatrix badVector ![1 / 10, 0] 1 = 2 := by
      simp [grad, badMatrix, badVector, Fin.sum_univ_two]
    rw [if_neg h1, outer_grad, h2]
    dsimp only
    rw [List.argmax_singleton]
    dsimp only
    rw [h3, if_neg (by norm_num)]
    have h4 : Function.update (![true, false] : Fin 2 → Bool) 1 true = ![true, true] := by
      decide
    rw [h4, bad_step hs ht]
    dsimp only
    have h5 : (fun i : Fin 2 => if (!(![true, false] : Fin 2 → Bool) i) = true then (0 : ℝ) else
        if (![true, false] : Fin 2 → Bool) i = true then (![1 / 10, 0] : Fin 2 → ℝ) i else
          (![1 / 5, -1] : Fin 2 → ℝ) i) = ![1 / 10, 0] := by
      funext i
      fin_cases i <;> simp
    rw [h5]
    exact ih

/-- **C56**, second part is **false**: for a regular problem with two unknowns, and for every
iteration limit (the default one included), `nnls` returns a vector whose sum of squares is 4 while
that of another non-negative vector is 1/2.  The step of line 103 has the wrong sign, so
that a column that turns negative never leaves the set. -/
theorem nnls_not_minimal {solve : Solver} (hs : SolverSound solve) (ht : SolverTotal solve)
    (fuel : ℕ) (maxiter : Option ℕ) (hm : maxiter ≠ some 0) :
    nnlsRun solve (fuel + 2) badMatrix badVector 0 maxiter = some (.ok (![1 / 10, 0], false)) ∧
    sumSq badMatrix badVector ![1 / 10, 0] = 4 ∧
    sumSq badMatrix badVector ![0, 3 / 2] = 1 / 2 ∧ KKT 0 badMatrix badVector ![0, 3 / 2] := by
  refine ⟨?_, ?_, ?_, ?_⟩
  · have hk : ∃ k, maxiter.getD (3 * 2) = k + 1 := by
      cases maxiter with
      | none => exact ⟨5, rfl⟩
      | some k =>
        cases k with
        | zero => exact absurd rfl hm
        | succ k => exact ⟨k, rfl⟩
    obtain ⟨k, hk⟩ := hk
    unfold nnlsRun
    rw [hk, outerLoop]
    have h1 : ¬ ((List.finRange 2).all (fun _ => false) = true) := by decide
    have h2 : (List.finRange 2).filter (fun _ => !false) = [0, 1] := by decide
    have h30 : grad badMatrix badVector (fun _ => 0) 0 = 10 := by
      simp [grad, badMatrix, badVector, Fin.sum_univ_two]
    have h31 : grad badMatrix badVector (fun _ => 0) 1 = 3 := by
      simp [grad, badMatrix, badVector, Fin.sum_univ_two]; norm_num
    rw [if_neg h1, outer_grad, h2]
    dsimp only
    have ham : List.argmax (grad badMatrix badVector fun _ => 0) [0, 1] = some 0 := by
      have : List.argmax (grad badMatrix badVector fun _ => 0) ([0] ++ [1]) = some 0 := by
        rw [List.argmax_concat, List.argmax_singleton]
        simp only
        rw [h30, h31, if_neg (by norm_num)]
      exact this
    rw [ham]
    dsimp only
    rw [h30, if_neg (by norm_num)]
    have h4 : Function.update (fun _ => false : Fin 2 → Bool) 0 true = ![true, false] := by
      decide
    have ht2 : (List.finRange 2).filter (fun i => (![true, false] : Fin 2 → Bool) i &&
        decide ((![1 / 10, 0] : Fin 2 → ℝ) i ≤ 0)) = [] := by
      have : List.finRange 2 = [0, 1] := rfl
      rw [this]
      have h1 : decide ((10 : ℝ) ≤ 0) = false := by norm_num
      simp [List.filter, h1]
    rw [h4, innerLoop, bad_first hs ht]
    dsimp only
    rw [ht2]
    simp only [List.isEmpty_nil, if_true]
    have h5 : (fun i : Fin 2 => if (!(![true, false] : Fin 2 → Bool) i) = true then (0 : ℝ) else
        if (![true, false] : Fin 2 → Bool) i = true then (![1 / 10, 0] : Fin 2 → ℝ) i else 0) =
        ![1 / 10, 0] := by
      funext i
      fin_cases i <;> simp
    rw [h5]
    exact bad_loop hs ht fuel k
  · simp [sumSq, badMatrix, badVector, Fin.sum_univ_two]; norm_num
  · simp [sumSq, badMatrix, badVector, Fin.sum_univ_two]; norm_num
  · refine ⟨?_, ?_, ?_⟩
    · intro j; fin_cases j <;> norm_num
    · intro j; fin_cases j <;>
        simp [grad, badMatrix, badVector, Fin.sum_univ_two] ; norm_num
    · intro j; fin_cases j <;>
        simp [grad, badMatrix, badVector, Fin.sum_univ_two] <;> norm_num

/-- The laws of the solver can be met. -/
theorem exists_solver : ∃ solve : Solver, SolverSound solve ∧ SolverTotal solve := by
  classical
  refine ⟨fun ι _ _ M v => if h : ∃ s, M *ᵥ s = v then .ok h.choose else
    .error (.value "Singular matrix"), ?_, ?_⟩
  · intro ι _ _ M v s h
    dsimp only at h
    split_ifs at h with h1
    cases h
    exact h1.choose_spec
  · intro ι _ _ M v h
    have hinj : Function.Injective M.mulVecLin := by
      rw [← LinearMap.ker_eq_bot, LinearMap.ker_eq_bot']
      exact h
    obtain ⟨s, hs⟩ := LinearMap.injective_iff_surjective.1 hinj v
    have h1 : ∃ s, M *ᵥ s = v := ⟨s, hs⟩
    exact ⟨h1.choose, dif_pos h1⟩

/-- A problem with one column, where the loop stops by itself. -/
example {solve : Solver} (hs : SolverSound solve) (ht : SolverTotal solve) :
    nnlsRun solve 1 !![1; 1] ![2, 4] 0 none = some (.ok (![3], true)) := by
  have ha : ∀ u : Fin 1 → ℝ, !![(1 : ℝ); 1] *ᵥ u = 0 → u = 0 := by
    intro u hu
    have := congrFun hu 0
    funext i
    fin_cases i
    simpa [mulVec, dotProduct] using this
  have hsub : solveSubset solve !![(1 : ℝ); 1] ![2, 4] ![true] = .ok ![3] := by
    obtain ⟨s, h⟩ := solveSubset_total ht !![(1 : ℝ); 1] ![2, 4] ![true] ha
    have h0 := (solveSubset_sound hs _ _ _ _ h).2 0 rfl
    simp [grad, Fin.sum_univ_two] at h0
    rw [h]
    congr 1
    funext i
    fin_cases i
    simp
    linarith
  have hg : grad !![(1 : ℝ); 1] ![2, 4] (fun _ => 0) 0 = 6 := by
    simp [grad, Fin.sum_univ_two]; norm_num
  have e : nnlsRun solve 1 !![(1 : ℝ); 1] ![2, 4] 0 none =
      outerLoop solve 1 !![(1 : ℝ); 1] ![2, 4] 0 (2 + 1) (fun _ => false) fun _ => 0 := rfl
  rw [e, outerLoop, if_neg (by decide), outer_grad]
  have h2 : (List.finRange 1).filter (fun _ => !false) = [0] := by decide
  rw [h2]
  dsimp only
  rw [List.argmax_singleton]
  dsimp only
  rw [hg, if_neg (by norm_num)]
  have h4 : Function.update (fun _ => false : Fin 1 → Bool) 0 true = ![true] := by decide
  rw [h4, innerLoop, hsub]
  have h5 : (List.finRange 1).filter (fun i => (![true] : Fin 1 → Bool) i &&
      decide ((![3] : Fin 1 → ℝ) i ≤ 0)) = [] := by
    have h6 : List.finRange 1 = [0] := rfl
    rw [h6, List.filter_cons_of_neg (by simp)]
    rfl
  dsimp only
  rw [h5]
  simp only [List.isEmpty_nil, if_true]
  rw [outerLoop, if_pos (by decide)]
  congr 3
  funext i
  fin_cases i
  simp

/-- **C56.** If no column of `a` has a positive product with `b` (up to the tolerance), the zero
vector is a solution, and `nnls` stops there by `break` in its first iteration. -/
theorem nnls_zero {m n : ℕ} (solve : Solver) (fuel : ℕ) (a : Matrix (Fin m) (Fin n) ℝ)
    (b : Fin m → ℝ) {tol : ℝ} {maxiter : Option ℕ} (hit : maxiter ≠ some 0) (hn : 0 < n)
    (h : ∀ j, ∑ i, b i * a i j ≤ tol) :
    nnlsRun solve fuel a b tol maxiter = some (.ok (fun _ => 0, true)) := by
  have hk : ∃ k, maxiter.getD (3 * n) = k + 1 := by
    refine ⟨maxiter.getD (3 * n) - 1, ?_⟩
    cases maxiter with
    | none => simp only [Option.getD_none]; omega
    | some k =>
      have : k ≠ 0 := fun e => hit (by rw [e])
      simp only [Option.getD_some]; omega
  obtain ⟨k, hk⟩ := hk
  unfold nnlsRun
  rw [hk, outerLoop, if_neg (by
    rw [List.all_eq_true]
    intro hall
    exact absurd (hall ⟨0, hn⟩ (List.mem_finRange _)) (by simp))]
  have e : ∀ j, ∑ i, (b - a *ᵥ fun _ => 0) i * a i j = ∑ i, b i * a i j := by
    intro j
    simp [mulVec, dotProduct]
  simp only [e]
  split
  · rename_i hm
    rw [List.argmax_eq_none] at hm
    have : (⟨0, hn⟩ : Fin n) ∈ (List.finRange n).filter fun _ => !false := by simp
    rw [hm] at this
    simp at this
  · rw [if_pos (h _)]

/-- Concrete case: `b` points away from both columns. -/
example (solve : Solver) : nnlsRun solve 1 !![(1 : ℝ), 2; 0, 1] ![-1, 0] 0 none =
    some (.ok (fun _ => 0, true)) :=
  nnls_zero solve 1 _ _ (by simp) (by simp) (by
    intro j; fin_cases j <;> simp [Fin.sum_univ_two])
end Glass.Algorithm
