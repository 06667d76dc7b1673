import Verif.Algorithm.NnlsProps

/-!
# Non-negative least squares depends on the normal equations only (C56, C85)
-/

namespace Glass.Algorithm

open Glass Matrix

/-- The gradient in terms of the normal equations. -/
theorem grad_normal {m n : ℕ} (a : Matrix (Fin m) (Fin n) ℝ) (b : Fin m → ℝ) (x : Fin n → ℝ)
    (j : Fin n) : grad a b x j = (b ᵥ* a) j - ∑ k, (aᵀ * a) j k * x k := by
  simp only [grad, vecMul, dotProduct, mul_apply, transpose_apply, sub_mul, Finset.sum_sub_distrib,
    Finset.sum_mul]
  congr 1
  rw [Finset.sum_comm]
  apply Finset.sum_congr rfl
  intro k _
  apply Finset.sum_congr rfl
  intro i _
  ring

section Congr

variable {m m' n : ℕ} {a : Matrix (Fin m) (Fin n) ℝ} {a' : Matrix (Fin m') (Fin n) ℝ}
  {b : Fin m → ℝ} {b' : Fin m' → ℝ}

theorem grad_congr (ha : aᵀ * a = a'ᵀ * a') (hb : b ᵥ* a = b' ᵥ* a') : grad a b = grad a' b' := by
  funext x j
  rw [grad_normal, grad_normal, ha, hb]

theorem solveSubset_congr (solve : Solver) (ha : aᵀ * a = a'ᵀ * a') (hb : b ᵥ* a = b' ᵥ* a')
    (q : Fin n → Bool) : solveSubset solve a b q = solveSubset solve a' b' q := by
  unfold solveSubset
  have h1 : (a.submatrix id Subtype.val : Matrix (Fin m) {i : Fin n // q i = true} ℝ)ᵀ *
      (a.submatrix id Subtype.val : Matrix (Fin m) {i : Fin n // q i = true} ℝ) =
      (a'.submatrix id Subtype.val : Matrix (Fin m') {i : Fin n // q i = true} ℝ)ᵀ *
      (a'.submatrix id Subtype.val : Matrix (Fin m') {i : Fin n // q i = true} ℝ) := by
    ext i j
    have := congrFun (congrFun ha i.val) j.val
    simpa [mul_apply] using this
  have h2 : b ᵥ* (a.submatrix id Subtype.val : Matrix (Fin m) {i : Fin n // q i = true} ℝ) =
      b' ᵥ* (a'.submatrix id Subtype.val : Matrix (Fin m') {i : Fin n // q i = true} ℝ) := by
    ext i
    have := congrFun hb i.val
    simpa [vecMul, dotProduct] using this
  simp only [h1, h2]

theorem innerLoop_congr (solve : Solver) (ha : aᵀ * a = a'ᵀ * a') (hb : b ᵥ* a = b' ᵥ* a') :
    ∀ (fuel : ℕ) (q : Fin n → Bool) (x : Fin n → ℝ),
      innerLoop solve a b fuel q x = innerLoop solve a' b' fuel q x := by
  intro fuel
  induction fuel with
  | zero => intro q x; rfl
  | succ fuel ih =>
    intro q x
    simp only [innerLoop, solveSubset_congr solve ha hb q, ih]

theorem outerLoop_congr (solve : Solver) (fuel : ℕ) (tol : ℝ) (ha : aᵀ * a = a'ᵀ * a')
    (hb : b ᵥ* a = b' ᵥ* a') : ∀ (k : ℕ) (q : Fin n → Bool) (x : Fin n → ℝ),
      outerLoop solve fuel a b tol k q x = outerLoop solve fuel a' b' tol k q x := by
  intro k
  induction k with
  | zero => intro q x; rfl
  | succ k ih =>
    intro q x
    have h : ∀ j, ∑ i, (b - a *ᵥ x) i * a i j = ∑ i, (b' - a' *ᵥ x) i * a' i j := fun j => by
      have h1 := congrFun (outer_grad a b x) j
      have h2 := congrFun (outer_grad a' b' x) j
      exact h1.trans ((congrFun (congrFun (grad_congr ha hb) x) j).trans h2.symm)
    simp only [outerLoop, h, innerLoop_congr solve ha hb, ih]

/-- Two problems with the same normal equations have the same run: the same iterations, the same
result, the same failures. -/
theorem nnlsRun_congr (solve : Solver) (fuel : ℕ) (tol : ℝ) (maxiter : Option ℕ)
    (ha : aᵀ * a = a'ᵀ * a') (hb : b ᵥ* a = b' ᵥ* a') :
    nnlsRun solve fuel a b tol maxiter = nnlsRun solve fuel a' b' tol maxiter :=
  outerLoop_congr solve fuel tol ha hb _ _ _

end Congr

/-! ## What holds of every result -/

theorem outerLoop_stationary {m n : ℕ} {solve : Solver} (hs : SolverSound solve) (fuel : ℕ)
    (a : Matrix (Fin m) (Fin n) ℝ) (b : Fin m → ℝ) (tol : ℝ) :
    ∀ (k : ℕ) (q : Fin n → Bool) (x y : Fin n → ℝ) (stopped : Bool),
      (∀ i, q i = false → x i = 0) → (∀ j, q j = true → grad a b x j = 0) →
      outerLoop solve fuel a b tol k q x = some (.ok (y, stopped)) →
      ∀ j, y j ≠ 0 → grad a b y j = 0 := by
  intro k
  induction k with
  | zero =>
    intro q x y stopped hq hg h j hj
    simp only [outerLoop, Option.some.injEq, Except.ok.injEq, Prod.mk.injEq] at h
    obtain ⟨rfl, -⟩ := h
    cases hqj : q j
    · exact absurd (hq j hqj) hj
    · exact hg j hqj
  | succ k ih =>
    intro q x y stopped hq hg h j hj
    have hret : y = x → grad a b y j = 0 := by
      rintro rfl
      cases hqj : q j
      · exact absurd (hq j hqj) hj
      · exact hg j hqj
    rw [outerLoop] at h
    split_ifs at h with h1
    · simp only [Option.some.injEq, Except.ok.injEq, Prod.mk.injEq] at h
      exact hret h.1.symm
    · rw [outer_grad] at h
      dsimp only at h
      split at h
      · simp at h
      · rename_i mm hm
        split_ifs at h with h2
        · simp only [Option.some.injEq, Except.ok.injEq, Prod.mk.injEq] at h
          exact hret h.1.symm
        · split at h
          · simp at h
          · simp at h
          · rename_i q' x' s hin
            obtain ⟨-, hsub⟩ := innerLoop_pos solve a b _ _ _ _ _ _ hin
            obtain ⟨hz, hgs⟩ := solveSubset_sound hs a b q' s hsub
            have hx' : (fun i => if (!q' i) = true then (0 : ℝ) else if q' i = true then s i else x' i)
                = s := by
              funext i
              cases hqi : q' i
              · simp [hz i hqi]
              · simp
            rw [hx'] at h
            exact ih q' s y stopped hz hgs h j hj

/-- The sum of squares about a point. -/
theorem sumSq_expand {m n : ℕ} (a : Matrix (Fin m) (Fin n) ℝ) (b : Fin m → ℝ) (x y : Fin n → ℝ) :
    sumSq a b y = sumSq a b x - 2 * (∑ j, (y j - x j) * grad a b x j) +
      ∑ i, (∑ k, a i k * y k - ∑ k, a i k * x k) ^ 2 := by
  have e2 : ∑ j, (y j - x j) * grad a b x j =
      ∑ i, (b i - ∑ k, a i k * x k) * (∑ k, a i k * y k - ∑ k, a i k * x k) := by
    simp only [grad, Finset.mul_sum]
    rw [Finset.sum_comm]
    apply Finset.sum_congr rfl
    intro i _
    rw [← Finset.sum_sub_distrib, Finset.mul_sum]
    apply Finset.sum_congr rfl
    intro j _
    ring
  rw [e2]
  simp only [sumSq]
  rw [Finset.mul_sum, ← Finset.sum_sub_distrib, ← Finset.sum_add_distrib]
  apply Finset.sum_congr rfl
  intro i _
  ring

/-- **C56**: every result of `nnls`, whether it stopped by itself or not, has the smallest sum of
squares of all vectors, negative ones included, that vanish where the result vanishes. -/
theorem nnls_minimal_on_support {m n : ℕ} {solve : Solver} (hs : SolverSound solve) (fuel : ℕ)
    (a : Matrix (Fin m) (Fin n) ℝ) (b : Fin m → ℝ) (tol : ℝ) (maxiter : Option ℕ)
    (x : Fin n → ℝ) (stopped : Bool)
    (h : nnlsRun solve fuel a b tol maxiter = some (.ok (x, stopped)))
    (y : Fin n → ℝ) (hy : ∀ j, x j = 0 → y j = 0) : sumSq a b x ≤ sumSq a b y := by
  have hst := outerLoop_stationary hs fuel a b tol _ _ _ _ _ (fun _ _ => rfl)
    (fun _ h => by simp at h) h
  have h0 : ∑ j, (y j - x j) * grad a b x j = 0 := by
    apply Finset.sum_eq_zero
    intro j _
    by_cases hj : x j = 0
    · rw [hj, hy j hj]; simp
    · rw [hst j hj, mul_zero]
  rw [sumSq_expand a b x y, h0]
  have : 0 ≤ ∑ i, (∑ k, a i k * y k - ∑ k, a i k * x k) ^ 2 :=
    Finset.sum_nonneg fun i _ => sq_nonneg _
  linarith

/-! ## Two columns -/

/-- The situation in which `nnls` is stuck: the first column is the better one to start with, but
its weight in the unconstrained solution is negative.  `g` is the matrix of the normal equations
and `v` their right-hand side. -/
structure Stuck {m : ℕ} (a : Matrix (Fin m) (Fin 2) ℝ) (b : Fin m → ℝ) (g00 g01 g11 v0 v1 : ℝ) :
    Prop where
  grad0 : ∀ x, grad a b x 0 = v0 - g00 * x 0 - g01 * x 1
  grad1 : ∀ x, grad a b x 1 = v1 - g01 * x 0 - g11 * x 1
  pos : 0 < g00
  det : 0 < g00 * g11 - g01 * g01
  first : v1 ≤ v0
  start : 0 < v0
  second : 0 < v1 * g00 - g01 * v0
  neg : v0 * g11 - v1 * g01 < 0

namespace Stuck

variable {m : ℕ} {a : Matrix (Fin m) (Fin 2) ℝ} {b : Fin m → ℝ} {g00 g01 g11 v0 v1 : ℝ}

theorem regular (h : Stuck a b g00 g01 g11 v0 v1) (u : Fin 2 → ℝ) (hu : a *ᵥ u = 0) : u = 0 := by
  have e : ∀ j, grad a b u j = grad a b 0 j := by
    intro j
    rw [← outer_grad, ← outer_grad, hu]
    simp
  have e0 := e 0
  have e1 := e 1
  rw [h.grad0, h.grad0] at e0
  rw [h.grad1, h.grad1] at e1
  simp at e0 e1
  have d := h.det
  have f0 : (g00 * g11 - g01 * g01) * u 0 = 0 := by linear_combination (-g11) * e0 + g01 * e1
  have f1 : (g00 * g11 - g01 * g01) * u 1 = 0 := by linear_combination g01 * e0 - g00 * e1
  funext i
  fin_cases i
  · exact (mul_eq_zero.1 f0).resolve_left d.ne'
  · exact (mul_eq_zero.1 f1).resolve_left d.ne'

theorem only {solve : Solver} (hs : SolverSound solve) (ht : SolverTotal solve)
    (h : Stuck a b g00 g01 g11 v0 v1) :
    solveSubset solve a b ![true, false] = .ok ![v0 / g00, 0] := by
  obtain ⟨s, hh⟩ := solveSubset_total ht a b ![true, false] h.regular
  obtain ⟨hz, hg⟩ := solveSubset_sound hs _ _ _ _ hh
  have h1 : s 1 = 0 := hz 1 rfl
  have h0 := hg 0 rfl
  rw [h.grad0, h1] at h0
  rw [hh]
  congr 1
  funext i
  have := h.pos
  fin_cases i
  · show s 0 = v0 / g00
    rw [eq_div_iff this.ne']; linarith
  · exact h1

theorem both {solve : Solver} (hs : SolverSound solve) (ht : SolverTotal solve)
    (h : Stuck a b g00 g01 g11 v0 v1) :
    ∃ s0 s1, s0 < 0 ∧ 0 < s1 ∧ solveSubset solve a b ![true, true] = .ok ![s0, s1] := by
  obtain ⟨s, hh⟩ := solveSubset_total ht a b ![true, true] h.regular
  obtain ⟨-, hg⟩ := solveSubset_sound hs _ _ _ _ hh
  have h0 := hg 0 rfl
  have h1 := hg 1 rfl
  rw [h.grad0] at h0
  rw [h.grad1] at h1
  have d := h.det
  have f0 : (g00 * g11 - g01 * g01) * s 0 = v0 * g11 - v1 * g01 := by
    linear_combination (-g11) * h0 + g01 * h1
  have f1 : (g00 * g11 - g01 * g01) * s 1 = v1 * g00 - g01 * v0 := by
    linear_combination g01 * h0 - g00 * h1
  refine ⟨s 0, s 1, ?_, ?_, ?_⟩
  · by_contra hc
    have := mul_nonneg d.le (not_lt.1 hc)
    linarith [h.neg]
  · by_contra hc
    have := mul_nonpos_of_nonneg_of_nonpos d.le (not_lt.1 hc)
    linarith [h.second]
  · rw [hh]
    congr 1
    funext i
    fin_cases i <;> rfl

theorem filter_only {y : ℝ} (hy : 0 < y) :
    (List.finRange 2).filter (fun i => (![true, false] : Fin 2 → Bool) i &&
      decide ((![y, 0] : Fin 2 → ℝ) i ≤ 0)) = [] := by
  have : List.finRange 2 = [0, 1] := rfl
  rw [this]
  rw [List.filter_cons_of_neg (by simp; exact decide_eq_false (not_le.2 hy)), List.filter_cons_of_neg (by simp)]
  rfl

theorem step {solve : Solver} (hs : SolverSound solve) (ht : SolverTotal solve)
    (h : Stuck a b g00 g01 g11 v0 v1) (fuel : ℕ) : ∃ x,
    innerLoop solve a b (fuel + 2) ![true, true] ![v0 / g00, 0] =
      some (.ok (![true, false], x, ![v0 / g00, 0])) := by
  obtain ⟨s0, s1, h0, h1, hb⟩ := h.both hs ht
  obtain ⟨y, hyd⟩ : ∃ y, y = v0 / g00 := ⟨_, rfl⟩
  have hy : 0 < y := by rw [hyd]; exact div_pos h.start h.pos
  rw [← hyd]
  have ht1 : (List.finRange 2).filter (fun i => (![true, true] : Fin 2 → Bool) i &&
      decide ((![s0, s1] : Fin 2 → ℝ) i ≤ 0)) = [0] := by
    have : List.finRange 2 = [0, 1] := rfl
    rw [this]
    rw [List.filter_cons_of_pos (by simp; exact decide_eq_true h0.le),
      List.filter_cons_of_neg (by simp; exact h1)]
    rfl
  have hd : 0 < y - s0 := by linarith
  have hq : (fun i : Fin 2 => if (if (![true, true] : Fin 2 → Bool) i then
      (![y, 0] : Fin 2 → ℝ) i + -(y / (y - s0)) * ((![s0, s1] : Fin 2 → ℝ) i -
        (![y, 0] : Fin 2 → ℝ) i) else (![y, 0] : Fin 2 → ℝ) i) ≤ 0 then false else
      (![true, true] : Fin 2 → Bool) i) = ![true, false] := by
    funext i
    fin_cases i
    · have : y + -(y / (y - s0)) * (s0 - y) = 2 * y := by field_simp; ring
      simp only [Fin.zero_eta, cons_val_zero, if_true]
      rw [this, if_neg (by linarith)]
    · have : 0 + -(y / (y - s0)) * (s1 - 0) ≤ 0 := by
        have := mul_pos (div_pos hy hd) h1
        linarith
      simp only [Fin.mk_one, cons_val_one, cons_val_fin_one, if_true]
      rw [if_pos this]
  rw [innerLoop, hb]
  dsimp only
  rw [ht1]
  have hany : ([(0 : Fin 2)].any fun i => decide ((![y, 0] : Fin 2 → ℝ) i -
      (![s0, s1] : Fin 2 → ℝ) i = 0)) = false := by
    simp; exact decide_eq_false hd.ne'
  have hmin : -((([(0 : Fin 2)].map fun i => (![y, 0] : Fin 2 → ℝ) i /
      ((![y, 0] : Fin 2 → ℝ) i - (![s0, s1] : Fin 2 → ℝ) i)).min?).getD 0) =
      -(y / (y - s0)) := by
    simp
  rw [if_neg (by simp), hany, if_neg (by simp), hmin, hq, innerLoop, h.only hs ht, ← hyd]
  dsimp only
  rw [filter_only hy]
  exact ⟨_, rfl⟩

theorem loop {solve : Solver} (hs : SolverSound solve) (ht : SolverTotal solve)
    (h : Stuck a b g00 g01 g11 v0 v1) (fuel : ℕ) :
    ∀ k, outerLoop solve (fuel + 2) a b 0 k ![true, false] ![v0 / g00, 0] =
      some (.ok (![v0 / g00, 0], false)) := by
  intro k
  induction k with
  | zero => rfl
  | succ k ih =>
    rw [outerLoop]
    have h1 : ¬ ((List.finRange 2).all (![true, false] : Fin 2 → Bool) = true) := by decide
    have h2 : (List.finRange 2).filter (fun i => !(![true, false] : Fin 2 → Bool) i) = [1] := by
      decide
    have h3 : 0 < grad a b ![v0 / g00, 0] 1 := by
      rw [h.grad1]
      have := h.second
      have hp := h.pos
      have e : v1 - g01 * (![v0 / g00, 0] : Fin 2 → ℝ) 0 - g11 * (![v0 / g00, 0] : Fin 2 → ℝ) 1 =
          (v1 * g00 - g01 * v0) / g00 := by
        simp; field_simp
      rw [e]
      exact div_pos this hp
    rw [if_neg h1, outer_grad, h2]
    dsimp only
    rw [List.argmax_singleton]
    dsimp only
    rw [if_neg (not_le.2 h3)]
    have h4 : Function.update (![true, false] : Fin 2 → Bool) 1 true = ![true, true] := by
      decide
    obtain ⟨x, hx⟩ := h.step hs ht fuel
    rw [h4, hx]
    dsimp only
    have h5 : (fun i : Fin 2 => if (!(![true, false] : Fin 2 → Bool) i) = true then (0 : ℝ) else
        if (![true, false] : Fin 2 → Bool) i = true then (![v0 / g00, 0] : Fin 2 → ℝ) i else
          x i) = ![v0 / g00, 0] := by
      funext i
      fin_cases i <;> simp
    rw [h5]
    exact ih

/-- In this situation `nnls` returns the solution for the first column alone, whatever the
iteration limit. -/
theorem run {solve : Solver} (hs : SolverSound solve) (ht : SolverTotal solve)
    (h : Stuck a b g00 g01 g11 v0 v1) (fuel : ℕ) (maxiter : Option ℕ) (hm : maxiter ≠ some 0) :
    nnlsRun solve (fuel + 2) a b 0 maxiter = some (.ok (![v0 / g00, 0], false)) := by
  have hk : ∃ k, maxiter.getD (3 * 2) = k + 1 := by
    cases maxiter with
    | none => exact ⟨5, rfl⟩
    | some k =>
      cases k with
      | zero => exact absurd rfl hm
      | succ k => exact ⟨k, rfl⟩
  obtain ⟨k, hk⟩ := hk
  unfold nnlsRun
  rw [hk, outerLoop]
  have h1 : ¬ ((List.finRange 2).all (fun _ => false) = true) := by decide
  have h2 : (List.finRange 2).filter (fun _ => !false) = [0, 1] := by decide
  have h30 : grad a b (fun _ => 0) 0 = v0 := by rw [h.grad0]; simp
  have h31 : grad a b (fun _ => 0) 1 = v1 := by rw [h.grad1]; simp
  rw [if_neg h1, outer_grad, h2]
  dsimp only
  have ham : List.argmax (grad a b fun _ => 0) [0, 1] = some 0 := by
    have : List.argmax (grad a b fun _ => 0) ([0] ++ [1]) = some 0 := by
      rw [List.argmax_concat, List.argmax_singleton]
      simp only
      rw [h30, h31, if_neg (not_lt.2 h.first)]
    exact this
  rw [ham]
  dsimp only
  rw [h30, if_neg (not_le.2 h.start)]
  have h4 : Function.update (fun _ => false : Fin 2 → Bool) 0 true = ![true, false] := by
    decide
  rw [h4, innerLoop, h.only hs ht]
  dsimp only
  rw [filter_only (div_pos h.start h.pos)]
  simp only [List.isEmpty_nil, if_true]
  have h5 : (fun i : Fin 2 => if (!(![true, false] : Fin 2 → Bool) i) = true then (0 : ℝ) else
      if (![true, false] : Fin 2 → Bool) i = true then (![v0 / g00, 0] : Fin 2 → ℝ) i else 0) =
      ![v0 / g00, 0] := by
    funext i
    fin_cases i <;> simp
  rw [h5]
  exact h.loop hs ht fuel k

end Stuck

end Glass.Algorithm
