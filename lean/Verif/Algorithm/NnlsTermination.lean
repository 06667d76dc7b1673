import Mathlib.Data.List.MinMax
import Verif.Algorithm.NnlsGram

/-!
# Property C105: does `nnls` end?

The outer loop of `nnls` is bounded by `maxiter`, the inner one (`algorithm.py:92-105`) is not.
-/

namespace Glass.Algorithm

open Glass Matrix

/-! ## The least squares solution of a set of columns -/

/-- The gradient is monotone. -/
theorem grad_sub {m n : ℕ} (a : Matrix (Fin m) (Fin n) ℝ) (b : Fin m → ℝ) (x y : Fin n → ℝ) :
    ∑ j, (x j - y j) * (grad a b y j - grad a b x j) = ∑ i, ((a *ᵥ (x - y)) i) ^ 2 := by
  have e : ∀ j, grad a b y j - grad a b x j = ∑ i, (a *ᵥ (x - y)) i * a i j := by
    intro j
    simp only [grad, mulVec, dotProduct, Pi.sub_apply, mul_sub, Finset.sum_sub_distrib]
    rw [← Finset.sum_sub_distrib]
    apply Finset.sum_congr rfl
    intro i _
    ring
  simp only [e, Finset.mul_sum]
  rw [Finset.sum_comm]
  apply Finset.sum_congr rfl
  intro i _
  have : (a *ᵥ (x - y)) i = ∑ j, a i j * (x j - y j) := by simp [mulVec, dotProduct]
  rw [sq]
  conv_rhs => rw [this]
  rw [this, Finset.mul_sum]
  apply Finset.sum_congr rfl
  intro j _
  ring

/-- The solution of the normal equations of a set of independent columns is unique. -/
theorem solveSubset_eq {m n : ℕ} {solve : Solver} (hs : SolverSound solve) (ht : SolverTotal solve)
    {a : Matrix (Fin m) (Fin n) ℝ} {b : Fin m → ℝ} (ha : ∀ u, a *ᵥ u = 0 → u = 0)
    {q : Fin n → Bool} {x : Fin n → ℝ} (hq : ∀ i, q i = false → x i = 0)
    (hg : ∀ j, q j = true → grad a b x j = 0) : solveSubset solve a b q = .ok x := by
  obtain ⟨s, h⟩ := solveSubset_total ht a b q ha
  obtain ⟨hz, hgs⟩ := solveSubset_sound hs _ _ _ _ h
  rw [h]
  congr 1
  have h0 : ∑ i, ((a *ᵥ (s - x)) i) ^ 2 = 0 := by
    rw [← grad_sub a b]
    apply Finset.sum_eq_zero
    intro j _
    cases hj : q j
    · rw [hz j hj, hq j hj]; simp
    · rw [hgs j hj, hg j hj]; simp
  have h1 : a *ᵥ (s - x) = 0 := by
    funext i
    have := (Finset.sum_eq_zero_iff_of_nonneg (fun i _ => sq_nonneg _)).1 h0 i (Finset.mem_univ i)
    simpa using this
  have := ha _ h1
  exact sub_eq_zero.1 this

/-- A column with a positive gradient has a positive weight in the solution it is added to. -/
theorem added_pos {m n : ℕ} {a : Matrix (Fin m) (Fin n) ℝ} {b : Fin m → ℝ}
    {q : Fin n → Bool} {x s : Fin n → ℝ} {k : Fin n} (hq : ∀ i, q i = false → x i = 0)
    (hk : q k = false)
    (hg : ∀ j, q j = true → grad a b x j = 0) (hw : 0 < grad a b x k)
    (hz : ∀ i, Function.update q k true i = false → s i = 0)
    (hgs : ∀ j, Function.update q k true j = true → grad a b s j = 0) : 0 < s k := by
  have e : ∑ j, (s j - x j) * (grad a b x j - grad a b s j) = s k * grad a b x k := by
    rw [Finset.sum_eq_single k]
    · rw [hgs k (by simp), hq k hk]; ring
    · intro j _ hj
      cases hqj : q j
      · rw [hz j (by rw [Function.update_of_ne hj]; exact hqj), hq j hqj]; simp
      · rw [hgs j (by rw [Function.update_of_ne hj]; exact hqj), hg j hqj]; simp
    · intro h; exact absurd (Finset.mem_univ _) h
  rw [grad_sub] at e
  have h0 : 0 ≤ s k * grad a b x k := by
    rw [← e]; exact Finset.sum_nonneg fun i _ => sq_nonneg _
  rcases (nonneg_of_mul_nonneg_left h0 hw).lt_or_eq with h | h
  · exact h
  · exfalso
    rw [← h, zero_mul] at e
    have h1 : a *ᵥ (s - x) = 0 := by
      funext i
      have := (Finset.sum_eq_zero_iff_of_nonneg (fun i _ => sq_nonneg _)).1 e i (Finset.mem_univ i)
      simpa using this
    have h2 : grad a b x k = grad a b s k := by
      have : a *ᵥ s = a *ᵥ x := by
        rw [mulVec_sub] at h1; exact sub_eq_zero.1 h1
      rw [← outer_grad, ← outer_grad, this]
    rw [h2, hgs k (by simp)] at hw
    exact lt_irrefl _ hw

/-! ## Problems on which it does not end -/

/-- A regular problem with three columns. -/
def endlessMatrix : Matrix (Fin 3) (Fin 3) ℝ := !![3, -1, -2; 2, -1, -3; 0, 0, -2]

/-- The right-hand side. -/
def endlessVector : Fin 3 → ℝ := ![2, -1, 1]

theorem endless_grad (x : Fin 3 → ℝ) :
    grad endlessMatrix endlessVector x 0 = 4 - 13 * x 0 + 5 * x 1 + 12 * x 2 ∧
    grad endlessMatrix endlessVector x 1 = -1 + 5 * x 0 - 2 * x 1 - 5 * x 2 ∧
    grad endlessMatrix endlessVector x 2 = -3 + 12 * x 0 - 5 * x 1 - 17 * x 2 := by
  refine ⟨?_, ?_, ?_⟩ <;>
    simp [grad, endlessMatrix, endlessVector, Fin.sum_univ_three] <;> ring

theorem endless_regular (u : Fin 3 → ℝ) (h : endlessMatrix *ᵥ u = 0) : u = 0 := by
  have h0 := congrFun h 0
  have h1 := congrFun h 1
  have h2 := congrFun h 2
  simp [endlessMatrix, mulVec, dotProduct, Fin.sum_univ_three] at h0 h1 h2
  funext i
  fin_cases i <;> simp [h2] at h0 h1 ⊢ <;> linarith

theorem endless_solve {solve : Solver} (hs : SolverSound solve) (ht : SolverTotal solve) :
    solveSubset solve endlessMatrix endlessVector ![true, false, false] = .ok ![4 / 13, 0, 0] ∧
    solveSubset solve endlessMatrix endlessVector ![true, false, true] =
      .ok ![32 / 77, 0, 9 / 77] ∧
    solveSubset solve endlessMatrix endlessVector ![true, true, true] =
      .ok ![7 / 2, 19 / 2, -1 / 2] ∧
    solveSubset solve endlessMatrix endlessVector ![false, false, true] =
      .ok ![0, 0, -3 / 17] := by
  refine ⟨?_, ?_, ?_, ?_⟩ <;> refine solveSubset_eq hs ht endless_regular ?_ ?_
  all_goals
    intro i hi
    fin_cases i <;> simp at hi ⊢
  · rw [(endless_grad _).1]; simp; norm_num
  · rw [(endless_grad _).1]; simp; norm_num
  · rw [(endless_grad _).2.2]; simp; norm_num
  · rw [(endless_grad _).1]; simp; norm_num
  · rw [(endless_grad _).2.1]; simp; norm_num
  · rw [(endless_grad _).2.2]; simp; norm_num
  · rw [(endless_grad _).2.2]; simp; norm_num

/-- One pass of the inner loop once only the last column is left: its weight in the least squares
solution is negative, but the step doubles `x` and the set of columns stays the same.  (No
quotient is undefined, so `none` does not come from a NaN.) -/
theorem endless_pass {solve : Solver} (hs : SolverSound solve) (ht : SolverTotal solve)
    (fuel : ℕ) (x : Fin 3 → ℝ) (h2 : 0 < x 2) :
    innerLoop solve endlessMatrix endlessVector (fuel + 1) ![false, false, true] x =
      innerLoop solve endlessMatrix endlessVector fuel ![false, false, true]
        ![x 0, x 1, 2 * x 2] := by
  rw [innerLoop, (endless_solve hs ht).2.2.2]
  have hf : List.finRange 3 = [0, 1, 2] := rfl
  have ht1 : (List.finRange 3).filter (fun i => (![false, false, true] : Fin 3 → Bool) i &&
      decide ((![0, 0, -3 / 17] : Fin 3 → ℝ) i ≤ 0)) = [2] := by
    rw [hf, List.filter_cons_of_neg (by simp), List.filter_cons_of_neg (by simp),
      List.filter_cons_of_pos (by simp; norm_num)]
    rfl
  have hd : (0 : ℝ) < x 2 + 3 / 17 := by linarith
  dsimp only
  rw [ht1, if_neg (by simp), if_neg (by simp; exact decide_eq_false (by linarith))]
  have hmin : -((([(2 : Fin 3)].map fun i => x i /
      (x i - (![0, 0, -3 / 17] : Fin 3 → ℝ) i)).min?).getD 0) = -(x 2 / (x 2 + 3 / 17)) := by
    simp; ring
  rw [hmin]
  have hx : (fun i : Fin 3 => if (![false, false, true] : Fin 3 → Bool) i then
      x i + -(x 2 / (x 2 + 3 / 17)) * ((![0, 0, -3 / 17] : Fin 3 → ℝ) i - x i) else x i) =
      ![x 0, x 1, 2 * x 2] := by
    funext i
    fin_cases i
    · simp
    · simp
    · have : x 2 + -(x 2 / (x 2 + 3 / 17)) * (-3 / 17 - x 2) = 2 * x 2 := by
        field_simp; ring
      simpa using this
  have hxi : ∀ i : Fin 3, (if (![false, false, true] : Fin 3 → Bool) i then
      x i + -(x 2 / (x 2 + 3 / 17)) * ((![0, 0, -3 / 17] : Fin 3 → ℝ) i - x i) else x i) =
      (![x 0, x 1, 2 * x 2] : Fin 3 → ℝ) i := fun i => congrFun hx i
  simp only [hxi]
  congr 1
  funext i
  fin_cases i
  · simp; exact ite_self _
  · simp; exact ite_self _
  · exact if_neg (show ¬ (2 * x 2 ≤ 0) by linarith)

theorem endless_inner {solve : Solver} (hs : SolverSound solve) (ht : SolverTotal solve) :
    ∀ (fuel : ℕ) (x : Fin 3 → ℝ), 0 < x 2 →
      innerLoop solve endlessMatrix endlessVector fuel ![false, false, true] x = none := by
  intro fuel
  induction fuel with
  | zero => intro x _; rfl
  | succ fuel ih =>
    intro x h2
    rw [endless_pass hs ht fuel x h2]
    exact ih _ (by simpa using h2)

/-- The third round: the first pass of the inner loop drops two columns. -/
theorem endless_third {solve : Solver} (hs : SolverSound solve) (ht : SolverTotal solve)
    (fuel : ℕ) :
    innerLoop solve endlessMatrix endlessVector (fuel + 1) ![true, true, true]
      ![32 / 77, 0, 9 / 77] =
    innerLoop solve endlessMatrix endlessVector fuel ![false, false, true]
      ![-13 / 77, -9 / 5, 18 / 77] := by
  rw [innerLoop, (endless_solve hs ht).2.2.1]
  have hf : List.finRange 3 = [0, 1, 2] := rfl
  have ht1 : (List.finRange 3).filter (fun i => (![true, true, true] : Fin 3 → Bool) i &&
      decide ((![7 / 2, 19 / 2, -1 / 2] : Fin 3 → ℝ) i ≤ 0)) = [2] := by
    rw [hf, List.filter_cons_of_neg (by simp; norm_num), List.filter_cons_of_neg (by simp; norm_num),
      List.filter_cons_of_pos (by simp; norm_num)]
    rfl
  dsimp only
  rw [ht1, if_neg (by simp), if_neg (by simp; norm_num)]
  have hmin : -((([(2 : Fin 3)].map fun i => (![32 / 77, 0, 9 / 77] : Fin 3 → ℝ) i /
      ((![32 / 77, 0, 9 / 77] : Fin 3 → ℝ) i - (![7 / 2, 19 / 2, -1 / 2] : Fin 3 → ℝ) i)).min?).getD 0)
      = -(18 / 95 : ℝ) := by
    simp; norm_num
  rw [hmin]
  have hx : (fun i : Fin 3 => if (![true, true, true] : Fin 3 → Bool) i then
      (![32 / 77, 0, 9 / 77] : Fin 3 → ℝ) i + -(18 / 95 : ℝ) *
        ((![7 / 2, 19 / 2, -1 / 2] : Fin 3 → ℝ) i - (![32 / 77, 0, 9 / 77] : Fin 3 → ℝ) i) else
      (![32 / 77, 0, 9 / 77] : Fin 3 → ℝ) i) = ![-13 / 77, -9 / 5, 18 / 77] := by
    funext i
    fin_cases i <;> simp <;> norm_num
  have hxi : ∀ i : Fin 3, (if (![true, true, true] : Fin 3 → Bool) i then
      (![32 / 77, 0, 9 / 77] : Fin 3 → ℝ) i + -(18 / 95 : ℝ) *
        ((![7 / 2, 19 / 2, -1 / 2] : Fin 3 → ℝ) i - (![32 / 77, 0, 9 / 77] : Fin 3 → ℝ) i) else
      (![32 / 77, 0, 9 / 77] : Fin 3 → ℝ) i) = (![-13 / 77, -9 / 5, 18 / 77] : Fin 3 → ℝ) i :=
    fun i => congrFun hx i
  simp only [hxi]
  congr 1
  funext i
  fin_cases i <;> simp <;> norm_num

theorem filter_none {n : ℕ} {q : Fin n → Bool} {s : Fin n → ℝ} (h : ∀ i, q i = true → 0 < s i) :
    (List.finRange n).filter (fun i => q i && decide (s i ≤ 0)) = [] := by
  rw [List.filter_eq_nil_iff]
  intro i _
  simp only [Bool.and_eq_true, decide_eq_true_eq, not_and, not_le]
  exact h i

theorem endless_argmax (w : Fin 3 → ℝ) :
    (w 1 < w 0 → w 2 < w 0 → List.argmax w [0, 1, 2] = some 0) ∧
    (w 1 < w 2 → List.argmax w [1, 2] = some 2) := by
  constructor
  · intro h1 h2
    rw [List.argmax_eq_some_iff]
    refine ⟨by simp, ?_, ?_⟩
    · intro a ha
      fin_cases a
      · exact le_rfl
      · exact h1.le
      · exact h2.le
    · intro a ha _
      fin_cases a <;> decide
  · intro h1
    rw [List.argmax_eq_some_iff]
    refine ⟨by simp, ?_, ?_⟩
    · intro a ha
      fin_cases a
      · simp at ha
      · exact h1.le
      · exact le_rfl
    · intro a ha h
      fin_cases a
      · simp at ha
      · exact absurd h (not_le.2 h1)
      · exact le_rfl

/-- **C105** is **false**: on a regular problem with three columns the inner loop never ends,
with the default iteration limit or any limit above two (and with every tolerance below 38/77, the
default zero included). -/
theorem nnls_endless {solve : Solver} (hs : SolverSound solve) (ht : SolverTotal solve)
    (fuel : ℕ) (tol : ℝ) (htol : tol < 38 / 77) (maxiter : Option ℕ)
    (hm : 3 ≤ maxiter.getD 9) :
    nnlsRun solve fuel endlessMatrix endlessVector tol maxiter = none := by
  obtain ⟨k, hk⟩ : ∃ k, maxiter.getD (3 * 3) = k + 1 + 1 + 1 := by
    obtain ⟨k, hk⟩ := Nat.exists_eq_add_of_le hm
    exact ⟨k, by rw [show 3 * 3 = 9 from rfl, hk]; omega⟩
  obtain ⟨s1, s2, s3, s4⟩ := endless_solve hs ht
  cases fuel with
  | zero =>
    unfold nnlsRun
    rw [hk, outerLoop, if_neg (by decide), outer_grad]
    have h2 : (List.finRange 3).filter (fun _ => !false) = [0, 1, 2] := by decide
    rw [h2]
    dsimp only
    obtain ⟨g0, g1, g2⟩ := endless_grad (fun _ => 0)
    rw [(endless_argmax _).1 (by rw [g0, g1]; norm_num) (by rw [g0, g2]; norm_num)]
    dsimp only
    rw [g0, if_neg (by linarith)]
    rfl
  | succ fuel =>
    unfold nnlsRun
    rw [hk, outerLoop, if_neg (by decide), outer_grad]
    have h2 : (List.finRange 3).filter (fun _ => !false) = [0, 1, 2] := by decide
    rw [h2]
    dsimp only
    obtain ⟨g0, g1, g2⟩ := endless_grad (fun _ => 0)
    rw [(endless_argmax _).1 (by rw [g0, g1]; norm_num) (by rw [g0, g2]; norm_num)]
    dsimp only
    rw [g0, if_neg (by linarith)]
    have h4 : Function.update (fun _ => false : Fin 3 → Bool) 0 true = ![true, false, false] := by
      decide
    rw [h4, innerLoop, s1]
    dsimp only
    rw [filter_none (by intro i hi; fin_cases i <;> simp at hi ⊢)]
    simp only [List.isEmpty_nil, if_true]
    have h5 : (fun i : Fin 3 => if (!(![true, false, false] : Fin 3 → Bool) i) = true then (0 : ℝ)
        else if (![true, false, false] : Fin 3 → Bool) i = true then
          (![4 / 13, 0, 0] : Fin 3 → ℝ) i else 0) = ![4 / 13, 0, 0] := by
      funext i
      fin_cases i <;> simp
    rw [h5, outerLoop, if_neg (by decide), outer_grad]
    have h2 : (List.finRange 3).filter (fun i => !(![true, false, false] : Fin 3 → Bool) i) =
        [1, 2] := by decide
    rw [h2]
    dsimp only
    obtain ⟨g0, g1, g2⟩ := endless_grad ![4 / 13, 0, 0]
    simp at g1 g2
    rw [(endless_argmax _).2 (by rw [g1, g2]; norm_num)]
    dsimp only
    rw [g2, if_neg (by norm_num; linarith)]
    have h4 : Function.update (![true, false, false] : Fin 3 → Bool) 2 true =
        ![true, false, true] := by decide
    rw [h4, innerLoop, s2]
    dsimp only
    rw [filter_none (by intro i hi; fin_cases i <;> simp at hi ⊢)]
    simp only [List.isEmpty_nil, if_true]
    have h5 : (fun i : Fin 3 => if (!(![true, false, true] : Fin 3 → Bool) i) = true then (0 : ℝ)
        else if (![true, false, true] : Fin 3 → Bool) i = true then
          (![32 / 77, 0, 9 / 77] : Fin 3 → ℝ) i else (![4 / 13, 0, 0] : Fin 3 → ℝ) i) =
        ![32 / 77, 0, 9 / 77] := by
      funext i
      fin_cases i <;> simp
    rw [h5, outerLoop, if_neg (by decide), outer_grad]
    have h2 : (List.finRange 3).filter (fun i => !(![true, false, true] : Fin 3 → Bool) i) =
        [1] := by decide
    rw [h2]
    dsimp only
    obtain ⟨g0, g1, g2⟩ := endless_grad ![32 / 77, 0, 9 / 77]
    simp at g1
    rw [List.argmax_singleton]
    dsimp only
    rw [g1, if_neg (by norm_num; linarith)]
    have h4 : Function.update (![true, false, true] : Fin 3 → Bool) 1 true =
        ![true, true, true] := by decide
    rw [h4, endless_third hs ht, endless_inner hs ht fuel _ (by simp)]

/-- The same for the function with its checks of the arguments, and the default arguments. -/
theorem nnls_call_endless {solve : Solver} (hs : SolverSound solve) (ht : SolverTotal solve)
    (fuel : ℕ) (a b : NdArray ℝ) (ha : a.shape = [3, 3]) (hb : b.shape = [3])
    (hav : ∀ i j : Fin 3, a.get [i, j] = endlessMatrix i j)
    (hbv : ∀ i : Fin 3, b.get [i] = endlessVector i) : nnls solve fuel a b 0 none = none := by
  unfold nnls
  rw [ha, hb]
  dsimp only
  rw [if_neg (by simp)]
  have h1 : (fun i j : Fin 3 => a.get [i.val, j.val]) = endlessMatrix := by
    funext i j; exact hav i j
  have h2 : (fun i : Fin 3 => b.get [i.val]) = endlessVector := by
    funext i; exact hbv i
  rw [h1, h2, nnls_endless hs ht fuel 0 (by norm_num) none (by simp)]
  rfl

/-! ## One or two columns -/

/-- What the outer loop has before each round: the least squares solution for the columns in `q`,
all of them with positive weights. -/
structure Feasible {m n : ℕ} (a : Matrix (Fin m) (Fin n) ℝ) (b : Fin m → ℝ) (q : Fin n → Bool)
    (x : Fin n → ℝ) : Prop where
  zero : ∀ i, q i = false → x i = 0
  pos : ∀ i, q i = true → 0 < x i
  stationary : ∀ j, q j = true → grad a b x j = 0

/-- The inner loop ends after at most two passes if there are at most two columns. -/
theorem inner_two {m n : ℕ} (hn : n ≤ 2) {solve : Solver} (hs : SolverSound solve)
    (ht : SolverTotal solve) {a : Matrix (Fin m) (Fin n) ℝ} {b : Fin m → ℝ}
    (ha : ∀ u, a *ᵥ u = 0 → u = 0) (fuel : ℕ) {q : Fin n → Bool} {x : Fin n → ℝ}
    (hf : Feasible a b q x) {k : Fin n} (hk : q k = false) (hw : 0 < grad a b x k) :
    ∃ r, innerLoop solve a b (fuel + 2) (Function.update q k true) x = some (.ok r) := by
  obtain ⟨s, h⟩ := solveSubset_total ht a b (Function.update q k true) ha
  obtain ⟨hz, hgs⟩ := solveSubset_sound hs _ _ _ _ h
  have hsk : 0 < s k := added_pos hf.zero hk hf.stationary hw hz hgs
  rw [innerLoop, h]
  dsimp only
  obtain ⟨t, htd⟩ : ∃ t, t = (List.finRange n).filter (fun i => Function.update q k true i &&
    decide (s i ≤ 0)) := ⟨_, rfl⟩
  rw [← htd]
  have hmem : ∀ i ∈ t, i ≠ k ∧ q i = true ∧ s i ≤ 0 ∧ 0 < x i := by
    intro i hi
    rw [htd] at hi
    simp only [List.mem_filter, List.mem_finRange, true_and, Bool.and_eq_true,
      decide_eq_true_eq] at hi
    have hik : i ≠ k := by
      rintro rfl
      exact absurd hi.2 (not_le.2 hsk)
    rw [Function.update_of_ne hik] at hi
    exact ⟨hik, hi.1, hi.2, hf.pos i hi.1⟩
  split_ifs with h1 h2
  · exact ⟨_, rfl⟩
  · exfalso
    rw [List.any_eq_true] at h2
    obtain ⟨i, hi, h3⟩ := h2
    have := hmem i hi
    rw [decide_eq_true_eq] at h3
    linarith [this.2.2.1, this.2.2.2]
  · -- the step
    have hne : t.map (fun i => x i / (x i - s i)) ≠ [] := by
      simpa using h1
    obtain ⟨v, hv⟩ : ∃ v, (t.map fun i => x i / (x i - s i)).min? = some v := by
      cases hmm : (t.map fun i => x i / (x i - s i)).min? with
      | none => rw [List.min?_eq_none_iff] at hmm; exact absurd hmm hne
      | some v => exact ⟨v, rfl⟩
    have hvpos : 0 < v := by
      have := List.min?_mem hv
      rw [List.mem_map] at this
      obtain ⟨i, hi, rfl⟩ := this
      obtain ⟨-, -, h4, h5⟩ := hmem i hi
      exact div_pos h5 (by linarith)
    rw [hv]
    simp only [Option.getD_some]
    -- the other column stays, the new one goes
    have hq : (fun i => if (if Function.update q k true i = true then x i + -v * (s i - x i) else
        x i) ≤ 0 then false else Function.update q k true i) = q := by
      funext i
      by_cases hik : i = k
      · subst hik
        rw [Function.update_self, if_pos rfl, hf.zero i hk, if_pos, hk]
        nlinarith
      · rw [Function.update_of_ne hik]
        cases hqi : q i
        · simp
        · obtain ⟨i', hi'⟩ : ∃ i', i' ∈ t := by
            cases t with
            | nil => simp at h1
            | cons i' t => exact ⟨i', by simp⟩
          have hii : i = i' := by
            have h6 := (hmem i' hi').1
            apply Fin.ext
            have h7 : i.val ≠ k.val := fun h => hik (Fin.ext h)
            have h8 : i'.val ≠ k.val := fun h => h6 (Fin.ext h)
            have := i.isLt
            have := i'.isLt
            have := k.isLt
            omega
          rw [← hii] at hi'
          obtain ⟨-, -, h4, h5⟩ := hmem i hi'
          rw [if_pos rfl, if_neg]
          nlinarith
    rw [hq, innerLoop, solveSubset_eq hs ht ha hf.zero hf.stationary]
    dsimp only
    rw [filter_none hf.pos]
    exact ⟨_, rfl⟩

theorem outer_two {m n : ℕ} (hn : n ≤ 2) {solve : Solver} (hs : SolverSound solve)
    (ht : SolverTotal solve) {a : Matrix (Fin m) (Fin n) ℝ} {b : Fin m → ℝ}
    (ha : ∀ u, a *ᵥ u = 0 → u = 0) (fuel : ℕ) (tol : ℝ) (htol : 0 ≤ tol) :
    ∀ (k : ℕ) (q : Fin n → Bool) (x : Fin n → ℝ), Feasible a b q x →
      ∃ r, outerLoop solve (fuel + 2) a b tol k q x = some (.ok r) := by
  intro k
  induction k with
  | zero => intro q x _; exact ⟨_, rfl⟩
  | succ k ih =>
    intro q x hf
    rw [outerLoop, outer_grad]
    dsimp only
    split_ifs with h1
    · exact ⟨_, rfl⟩
    · split
      · rename_i hm
        exfalso
        rw [List.argmax_eq_none, List.filter_eq_nil_iff] at hm
        apply h1
        rw [List.all_eq_true]
        intro i hi
        simpa using hm i hi
      · rename_i mm hm
        split_ifs with h2
        · exact ⟨_, rfl⟩
        · have hmq : q mm = false := by
            have := List.argmax_mem hm
            simpa using this
          obtain ⟨⟨q', x', s⟩, hr⟩ := inner_two hn hs ht ha fuel hf hmq
            (lt_of_le_of_lt htol (not_le.1 h2))
          rw [hr]
          dsimp only
          obtain ⟨hpos, hsub⟩ := innerLoop_pos solve a b _ _ _ _ _ _ hr
          obtain ⟨hz, hgs⟩ := solveSubset_sound hs a b q' s hsub
          have hx' : (fun i => if (!q' i) = true then (0 : ℝ) else if q' i = true then s i else x' i)
              = s := by
            funext i
            cases hqi : q' i
            · simp [hz i hqi]
            · simp
          rw [hx']
          exact ih q' s ⟨hz, hpos, hgs⟩

/-- **C105** for at most two independent columns: `nnls` ends, and each run of the inner loop takes
at most two passes. -/
theorem nnls_ends_partial {m n : ℕ} (hn : n ≤ 2) {solve : Solver} (hs : SolverSound solve)
    (ht : SolverTotal solve) (a : Matrix (Fin m) (Fin n) ℝ) (b : Fin m → ℝ)
    (ha : ∀ u, a *ᵥ u = 0 → u = 0) (fuel : ℕ) (tol : ℝ) (htol : 0 ≤ tol) (maxiter : Option ℕ) :
    ∃ x stopped, nnlsRun solve (fuel + 2) a b tol maxiter = some (.ok (x, stopped)) := by
  obtain ⟨⟨x, st⟩, h⟩ := outer_two hn hs ht ha fuel tol htol (maxiter.getD (3 * n)) (fun _ => false)
    (fun _ => 0) ⟨fun _ _ => rfl, fun _ h => by simp at h, fun _ h => by simp at h⟩
  exact ⟨x, st, h⟩

/-- The problem on which `nnls` is not optimal is one of these; here it ends after its six
rounds. -/
example {solve : Solver} (hs : SolverSound solve) (ht : SolverTotal solve) :
    ∃ x stopped, nnlsRun solve 2 badMatrix badVector 0 none = some (.ok (x, stopped)) :=
  nnls_ends_partial le_rfl hs ht _ _ badMatrix_regular 0 0 le_rfl none

end Glass.Algorithm
