import Verif.Shells.PartitionLemmas
import Verif.Shells.RestrictProps

/-!
# Least-squares partition (C84)
-/

namespace Glass.Shells

open Glass Glass.Num Glass.NdArray Matrix

/-! ## Specification -/

/-- The common grid: all points of the function and of the windows, in increasing order. -/
structure IsGrid (z : List ℝ) (shells : List RadialWindow) (zp : List ℝ) : Prop where
  sorted : zp.Pairwise (· < ·)
  mem : ∀ t, t ∈ zp ↔ t ∈ z ∨ ∃ w ∈ shells, t ∈ w.za

/-- The grid spacing at a point: distance of its neighbours per step, where the outermost points
are their own neighbours. -/
noncomputable def spacing (zp : List ℝ) (k : ℕ) : ℝ :=
  (zp.getD (min (k + 1) (zp.length - 1)) 0 - zp.getD (k - 1) 0) /
    ((min (k + 1) (zp.length - 1) : ℕ) - (k - 1 : ℕ) : ℝ)

/-- A window function divided by its integral over the grid. -/
noncomputable def normalised (zp : List ℝ) (w : RadialWindow) (t : ℝ) : ℝ :=
  w.eval t / trapezoid (sample w.eval zp)

/-- Deviation of a weighted sum of normalised windows from the function: the sum of squares over
the grid, each point weighted by the grid spacing. -/
noncomputable def shapeCost (zp : List ℝ) (shells : List RadialWindow) (f : ℝ → ℝ)
    (x : Fin shells.length → ℝ) : ℝ :=
  ∑ k : Fin zp.length,
    (spacing zp k * (∑ i : Fin shells.length, x i * normalised zp shells[i] zp[k] - f zp[k])) ^ 2

/-- The quantity that the partition makes small. -/
noncomputable def cost (zp : List ℝ) (shells : List RadialWindow) (f : ℝ → ℝ) (total tol : ℝ)
    (x : Fin shells.length → ℝ) : ℝ :=
  shapeCost zp shells f x + ((∑ i, x i - total) / tol) ^ 2

/-- The function given by a slice of the array `fz`: linear interpolation, zero outside. -/
noncomputable def target (z : List ℝ) (fz : NdArray ℝ) (i : List ℕ) (t : ℝ) : ℝ :=
  interp (some 0) (some 0) (z.zip (slice fz z.length i)) t

/-- The integral of the slice. -/
noncomputable def total (z : List ℝ) (fz : NdArray ℝ) (i : List ℕ) : ℝ :=
  trapezoid (z.zip (slice fz z.length i))

/-- `lstsq` solves the normal equations. -/
def LstsqLaw (lstsq : Lstsq) : Prop :=
  ∀ (m k : ℕ) (a : Matrix (Fin m) (Fin k) ℝ) (b : Fin m → ℝ) (j : Fin k),
    ∑ i, (b i - ∑ l, a i l * lstsq m k a b l) * a i j = 0

/-! ## The problem -/

theorem getD_lt {l : List ℝ} {k : ℕ} (h : k < l.length) : l.getD k 0 = l[k] := by
  simp [h]

theorem gradient_error_iff (f : List ℝ) : (∃ e, gradient f = .error e) ↔ f.length < 2 := by
  unfold gradient
  split_ifs with h <;> simp [h]

theorem gradient_spec {f d : List ℝ} (h : gradient f = .ok d) :
    2 ≤ f.length ∧ d.length = f.length ∧ ∀ k < f.length, d.getD k 0 = spacing f k := by
  unfold gradient at h
  split_ifs at h with hl
  simp only [Except.ok.injEq] at h
  subst h
  refine ⟨by omega, by simp, fun k hk => ?_⟩
  rw [List.getD_eq_getElem?_getD, List.getElem?_map, List.getElem?_range hk]
  simp only [Option.map_some, Option.getD_some, spacing]
  by_cases h0 : k = 0
  · subst h0
    rw [if_pos rfl, show min (0 + 1) (f.length - 1) = 1 by omega]
    simp
  · rw [if_neg h0]
    by_cases h1 : k + 1 = f.length
    · rw [if_pos h1, show min (k + 1) (f.length - 1) = k by omega]
      obtain ⟨p, rfl⟩ : ∃ p, k = p + 1 := ⟨k - 1, by omega⟩
      simp
    · rw [if_neg h1, show min (k + 1) (f.length - 1) = k + 1 by omega]
      obtain ⟨p, rfl⟩ : ∃ p, k = p + 1 := ⟨k - 1, by omega⟩
      simp only [Nat.add_sub_cancel]
      push_cast
      norm_num
      congr 1
      ring

theorem spacing_pos {zp : List ℝ} (hs : zp.Pairwise (· < ·)) (h2 : 2 ≤ zp.length) {k : ℕ}
    (hk : k < zp.length) : 0 < spacing zp k := by
  have h1 : min (k + 1) (zp.length - 1) < zp.length := by omega
  have h3 : k - 1 < zp.length := by omega
  have hlt : k - 1 < min (k + 1) (zp.length - 1) := by omega
  unfold spacing
  apply div_pos
  · rw [getD_lt h1, getD_lt h3]
    have := List.pairwise_iff_getElem.1 hs _ _ h3 h1 hlt
    linarith
  · have : ((k - 1 : ℕ) : ℝ) < (min (k + 1) (zp.length - 1) : ℕ) := by exact_mod_cast hlt
    linarith

theorem ndinterp_ok {x xq : List ℝ} {fq b : NdArray ℝ} {l r : Option ℝ}
    (h : ndinterp x xq fq l r = .ok b) : ∃ dims, fq.shape = dims ++ [xq.length] ∧ 0 ∉ dims ∧
      xq ≠ [] ∧ b.shape = dims ++ [x.length] ∧ ∀ i ∈ indices dims, ∀ k < x.length,
        b.get (i ++ [k]) = interp l r (xq.zip (slice fq xq.length i)) (x.getD k 0) := by
  unfold ndinterp at h
  rcases List.eq_nil_or_concat fq.shape with hs | ⟨dims, n, hs⟩
  · rw [hs] at h; simp at h
  · rw [List.concat_eq_append] at hs
    rw [hs] at h
    simp only [List.getLast?_append, List.getLast?_singleton, Option.some_or,
      List.dropLast_concat] at h
    split_ifs at h with h1 h2 h3
    simp only [not_not] at h3
    simp only [Except.ok.injEq] at h
    subst h
    subst h3
    refine ⟨dims, hs, h1, fun h => h2 (Or.inr h), rfl, ?_⟩
    intro i _ k _
    simp

/-- What `partition_lstsq` and `partition_nnls` set up: the failures. -/
theorem problem_error_iff (z : List ℝ) (fz : NdArray ℝ) (shells : List RadialWindow) (sumtol : ℝ) :
    (∃ e, partitionProblem z fz shells sumtol = .error e) ↔
      shells = [] ∨ (∃ w ∈ shells, w.knots = []) ∨ z = [] ∨ (unionGrid z shells).length < 2 ∨
        ¬ ∃ dims, fz.shape = dims ++ [z.length] ∧ 0 ∉ dims := by
  unfold partitionProblem
  simp only
  rcases List.eq_nil_or_concat fz.shape with hs | ⟨dims, n, hs⟩
  · rw [hs]
    simp
  rw [List.concat_eq_append] at hs
  rw [hs]
  simp only [List.getLast?_append, List.getLast?_singleton, Option.some_or]
  rcases hg : gradient (unionGrid z shells) with e | dz
  · have := (gradient_error_iff _).1 ⟨e, hg⟩
    simp [this]
  have hl : ¬ (unionGrid z shells).length < 2 := by
    have := (gradient_spec hg).1
    omega
  simp only
  by_cases h1 : shells = []
  · simp [h1]
  rw [if_neg h1]
  by_cases h2 : ∃ w ∈ shells, w.knots = []
  · rw [if_pos h2]; simp [h2]
  rw [if_neg h2]
  rcases hn : ndinterp (unionGrid z shells) z fz (some 0) (some 0) with e | b
  · simp only [Except.error.injEq, exists_eq', true_iff]
    right; right
    by_contra hc
    push Not at hc
    obtain ⟨h3, -, ds, hd, h0⟩ := hc
    obtain ⟨rfl, hn'⟩ := List.append_inj' hd (by simp)
    simp only [List.cons.injEq, and_true] at hn'
    subst hn'
    unfold ndinterp at hn
    rw [hs] at hn
    simp [h0, h3] at hn
  · simp only [reduceCtorEq, exists_false, false_iff]
    obtain ⟨ds, hd, h0, hz, -⟩ := ndinterp_ok hn
    rintro (h | h | h | h | h)
    · exact h1 h
    · exact h2 h
    · exact hz h
    · exact hl h
    · exact h ⟨ds, by rw [← hs, hd], h0⟩

/-- What `partition_lstsq` and `partition_nnls` set up: the sum of squares of the linear problem is
the cost. -/
theorem problem_spec {z : List ℝ} {fz : NdArray ℝ} {shells : List RadialWindow} {sumtol : ℝ}
    {zp : List ℝ} {b : NdArray ℝ} {a : Option (Matrix (Fin shells.length) (Fin (zp.length + 1)) ℝ)}
    (h : partitionProblem z fz shells sumtol = .ok ⟨zp, b, a⟩) :
    IsGrid z shells zp ∧ 2 ≤ zp.length ∧ (a = none ↔ ∃ w ∈ shells, trapezoid (sample w.eval zp) = 0) ∧
      ∃ dims, fz.shape = dims ++ [z.length] ∧ b.shape = dims ++ [zp.length + 1] ∧
        ∀ a', a = some a' → ∀ i ∈ indices dims, ∀ x,
          Algorithm.sumSq a'ᵀ (rowOf (zp.length + 1) b i) x =
            cost zp shells (target z fz i) (total z fz i) (max sumtol 1e-4) x := by
  unfold partitionProblem at h
  simp only at h
  rcases List.eq_nil_or_concat fz.shape with hs | ⟨dims, n, hs⟩
  · rw [hs] at h
    simp at h
  rw [List.concat_eq_append] at hs
  rw [hs] at h
  simp only [List.getLast?_append, List.getLast?_singleton, Option.some_or,
    List.dropLast_concat] at h
  rcases hg : gradient (unionGrid z shells) with e | dz
  · rw [hg] at h; simp at h
  rw [hg] at h
  simp only at h
  obtain ⟨hl, -, hdz⟩ := gradient_spec hg
  by_cases h1 : shells = []
  · rw [if_pos h1] at h; simp at h
  rw [if_neg h1] at h
  by_cases h2 : ∃ w ∈ shells, w.knots = []
  · rw [if_pos h2] at h; simp at h
  rw [if_neg h2] at h
  rcases hn : ndinterp (unionGrid z shells) z fz (some 0) (some 0) with e | bz
  · rw [hn] at h; simp at h
  rw [hn] at h
  simp only [Except.ok.injEq, Sigma.mk.injEq] at h
  obtain ⟨hzp, h⟩ := h
  subst hzp
  simp only [heq_eq_eq, Prod.mk.injEq] at h
  obtain ⟨hb, ha⟩ := h
  obtain ⟨ds, hd, h0, hz, hbs, hbz⟩ := ndinterp_ok hn
  rw [hs] at hd
  obtain ⟨rfl, hn'⟩ := List.append_inj' hd (by simp)
  simp only [List.cons.injEq, and_true] at hn'
  subst hn'
  subst hb
  have hrow : ∀ w : RadialWindow, (unionGrid z shells).zip (windowRow (unionGrid z shells) w) =
      sample w.eval (unionGrid z shells) := fun w => zip_map_sample _ _
  refine ⟨⟨unionGrid_sorted h1, fun t => unionGrid_mem⟩, hl, ?_, dims, hs, rfl, ?_⟩
  · rw [← ha]
    unfold windowMatrix
    simp only [hrow]
    by_cases hc : ∃ w ∈ shells, trapezoid (sample w.eval (unionGrid z shells)) = 0
    · simp [hc]
    · rw [if_neg hc]; simp [hc]
  · intro a' ha' i hi x
    rw [ha'] at ha
    unfold windowMatrix at ha
    simp only [hrow] at ha
    split_ifs at ha with hc
    simp only [Option.some.injEq] at ha
    subst ha
    unfold Algorithm.sumSq cost shapeCost
    rw [Fin.sum_univ_castSucc]
    congr 1
    · apply Finset.sum_congr rfl
      intro k _
      have hk : k.val < (unionGrid z shells).length := k.2
      simp only [rowOf, targetArray, List.getLast?_append, List.getLast?_singleton,
        Option.some_or, Option.getD_some, List.dropLast_concat, Fin.val_castSucc, hk, if_true,
        Matrix.transpose_apply, Matrix.of_apply, hdz k hk]
      rw [hbz i hi k hk, getD_lt hk]
      rw [show (spacing (unionGrid z shells) k * (∑ i : Fin shells.length, x i *
          normalised (unionGrid z shells) shells[i] (unionGrid z shells)[k] -
          target z fz i (unionGrid z shells)[k])) ^ 2 =
        (spacing (unionGrid z shells) k * (target z fz i (unionGrid z shells)[k] -
          ∑ i : Fin shells.length, x i *
          normalised (unionGrid z shells) shells[i] (unionGrid z shells)[k])) ^ 2 by ring]
      congr 1
      rw [mul_sub, Finset.mul_sum]
      congr 1
      · simp only [target]; rw [mul_comm]; rfl
      · apply Finset.sum_congr rfl
        intro c _
        have : (windowRow (unionGrid z shells) shells[c]).getD k 0 =
            shells[c].eval (unionGrid z shells)[k] := by
          rw [getD_lt (by simp [windowRow])]
          simp only [windowRow, List.getElem_map]
          rfl
        rw [this]
        simp only [normalised]
        ring
    · simp only [rowOf, targetArray, List.getLast?_append, List.getLast?_singleton,
        Option.some_or, Option.getD_some, List.dropLast_concat, Fin.val_last, lt_irrefl, if_false,
        Matrix.transpose_apply, Matrix.of_apply, total]
      rw [← Finset.mul_sum]
      simp only [mul_one]
      ring

/-! ## Least squares -/

/-- The normal equations are sufficient for a minimum. -/
theorem lstsq_minimal {lstsq : Lstsq} (hl : LstsqLaw lstsq) {m k : ℕ}
    (a : Matrix (Fin m) (Fin k) ℝ) (b : Fin m → ℝ) (y : Fin k → ℝ) :
    Algorithm.sumSq a b (lstsq m k a b) ≤ Algorithm.sumSq a b y := by
  set x := lstsq m k a b
  have h : ∀ j, ∑ i, (b i - ∑ l, a i l * x l) * a i j = 0 := fun j => hl m k a b j
  have e2 : ∑ j, (y j - x j) * ∑ i, (b i - ∑ l, a i l * x l) * a i j =
      ∑ i, (b i - ∑ l, a i l * x l) * (∑ l, a i l * y l - ∑ l, a i l * x l) := by
    simp only [Finset.mul_sum]
    rw [Finset.sum_comm]
    apply Finset.sum_congr rfl
    intro i _
    rw [← Finset.sum_sub_distrib, Finset.mul_sum]
    apply Finset.sum_congr rfl
    intro j _
    ring
  have e3 : Algorithm.sumSq a b y = Algorithm.sumSq a b x -
      2 * (∑ i, (b i - ∑ l, a i l * x l) * (∑ l, a i l * y l - ∑ l, a i l * x l)) +
      ∑ i, (∑ l, a i l * y l - ∑ l, a i l * x l) ^ 2 := by
    simp only [Algorithm.sumSq]
    rw [Finset.mul_sum, ← Finset.sum_sub_distrib, ← Finset.sum_add_distrib]
    apply Finset.sum_congr rfl
    intro i _
    ring
  have e4 : 0 ≤ ∑ i, (∑ l, a i l * y l - ∑ l, a i l * x l) ^ 2 :=
    Finset.sum_nonneg fun i _ => sq_nonneg _
  rw [e3, ← e2]
  simp only [h, mul_zero, Finset.sum_const_zero]
  linarith

/-- **C84.** `partition_lstsq` raises exactly for: no windows, an empty window, no points, fewer
than two grid points, an array whose last axis does not match the redshifts, an empty leading
axis. -/
theorem partition_lstsq_error_iff (lstsq : Lstsq) (z : List ℝ) (fz : NdArray ℝ)
    (shells : List RadialWindow) (sumtol : ℝ) :
    (∃ e, partitionLstsq lstsq z fz shells sumtol = .error e) ↔
      shells = [] ∨ (∃ w ∈ shells, w.knots = []) ∨ z = [] ∨ (unionGrid z shells).length < 2 ∨
        ¬ ∃ dims, fz.shape = dims ++ [z.length] ∧ 0 ∉ dims := by
  rw [← problem_error_iff z fz shells sumtol]
  unfold partitionLstsq
  rcases h : partitionProblem z fz shells sumtol with e | ⟨zp, b, a⟩
  · simp
  · rcases a with _ | a
    · simp
    · obtain ⟨-, -, -, dims, -, hb, -⟩ := problem_spec h
      obtain ⟨x, hx, -⟩ := lstsqRows_spec lstsq a hb
      simp [hx, Except.map]

/-- **C84.** The result of `partition_lstsq` is an array with one leading entry for each window,
followed by the leading axes of the function.  For each position along these axes, the weights
minimise, among all weights, the squared deviation of the weighted sum of normalised windows from
the function, together with the squared deviation of the sum of the weights from the integral of
the function divided by the tolerance (at least 1e-4). -/
theorem partition_lstsq_minimal {lstsq : Lstsq} (hl : LstsqLaw lstsq) {z : List ℝ}
    {fz r : NdArray ℝ} {shells : List RadialWindow} {sumtol : ℝ}
    (h : partitionLstsq lstsq z fz shells sumtol = .ok (some r)) :
    ∃ zp dims, IsGrid z shells zp ∧ fz.shape = dims ++ [z.length] ∧
      r.shape = shells.length :: dims ∧ ∀ i ∈ indices dims, ∀ y : Fin shells.length → ℝ,
        cost zp shells (target z fz i) (total z fz i) (max sumtol 1e-4)
            (fun j => r.get (j.val :: i)) ≤
          cost zp shells (target z fz i) (total z fz i) (max sumtol 1e-4) y := by
  unfold partitionLstsq at h
  rcases hp : partitionProblem z fz shells sumtol with e | ⟨zp, b, a⟩
  · rw [hp] at h; simp at h
  rw [hp] at h
  rcases a with _ | a
  · simp at h
  obtain ⟨hg, -, -, dims, hf, hb, hc⟩ := problem_spec hp
  obtain ⟨x, hx, hxs, hxg⟩ := lstsqRows_spec lstsq a hb
  simp only [hx, Except.map, Except.ok.injEq, Option.some.injEq] at h
  subst h
  refine ⟨zp, dims, hg, hf, hxs, fun i hi y => ?_⟩
  rw [← hc a rfl i hi, ← hc a rfl i hi]
  have : (fun j : Fin shells.length => x.get (j.val :: i)) =
      lstsq (zp.length + 1) shells.length aᵀ (rowOf (zp.length + 1) b i) := by
    funext j
    exact hxg i j hi
  rw [this]
  exact lstsq_minimal hl _ _ _

/-- **C84.** NaN results come exactly from windows whose integral over the grid vanishes. -/
theorem partition_lstsq_nan_iff (lstsq : Lstsq) {z : List ℝ} {fz : NdArray ℝ}
    {shells : List RadialWindow} {sumtol : ℝ} {o : Option (NdArray ℝ)}
    (h : partitionLstsq lstsq z fz shells sumtol = .ok o) {zp : List ℝ} (hg : IsGrid z shells zp) :
    o = none ↔ ∃ w ∈ shells, trapezoid (sample w.eval zp) = 0 := by
  unfold partitionLstsq at h
  rcases hp : partitionProblem z fz shells sumtol with e | ⟨zp', b, a⟩
  · rw [hp] at h; simp at h
  rw [hp] at h
  obtain ⟨hg', -, ha, dims, -, hb, -⟩ := problem_spec hp
  have e : zp' = zp := sorted_unique hg'.sorted hg.sorted fun t => by rw [hg'.mem, hg.mem]
  subst e
  rw [← ha]
  rcases a with _ | a
  · simp only [Except.ok.injEq] at h
    simp [← h]
  · obtain ⟨x, hx, -⟩ := lstsqRows_spec lstsq a hb
    simp only [hx, Except.map, Except.ok.injEq] at h
    simp [← h]

/-- A minimum of the cost keeps the integral: the sum of the weights deviates from the integral of
the function by no more than the tolerance times the deviation in shape of *any* weights with the
right sum. -/
theorem sum_of_minimal {zp : List ℝ} {shells : List RadialWindow} {f : ℝ → ℝ} {tot tol : ℝ}
    (ht : 0 < tol) {x y : Fin shells.length → ℝ}
    (hm : cost zp shells f tot tol x ≤ cost zp shells f tot tol y) (hy : ∑ i, y i = tot) :
    |∑ i, x i - tot| ≤ tol * Real.sqrt (shapeCost zp shells f y) := by
  unfold cost at hm
  rw [hy, sub_self, zero_div] at hm
  have h0 : 0 ≤ shapeCost zp shells f x := Finset.sum_nonneg fun _ _ => sq_nonneg _
  have h1 : ((∑ i, x i - tot) / tol) ^ 2 ≤ shapeCost zp shells f y := by
    have : (0 : ℝ) ^ 2 = 0 := by norm_num
    linarith
  have h2 := Real.abs_le_sqrt h1
  rw [abs_div, abs_of_pos ht, div_le_iff₀ ht] at h2
  linarith

/-- **C84.** The sum of the weights of `partition_lstsq` is the integral of the function up to the
tolerance times the best possible deviation in shape. -/
theorem partition_lstsq_sum {lstsq : Lstsq} (hl : LstsqLaw lstsq) {z : List ℝ}
    {fz r : NdArray ℝ} {shells : List RadialWindow} {sumtol : ℝ}
    (h : partitionLstsq lstsq z fz shells sumtol = .ok (some r)) :
    ∃ zp dims, IsGrid z shells zp ∧ fz.shape = dims ++ [z.length] ∧
      ∀ i ∈ indices dims, ∀ y : Fin shells.length → ℝ, ∑ j, y j = total z fz i →
        |∑ j : Fin shells.length, r.get (j.val :: i) - total z fz i| ≤
          max sumtol 1e-4 * Real.sqrt (shapeCost zp shells (target z fz i) y) := by
  obtain ⟨zp, dims, hg, hf, -, hm⟩ := partition_lstsq_minimal hl h
  refine ⟨zp, dims, hg, hf, fun i hi y hy => ?_⟩
  exact sum_of_minimal (lt_of_lt_of_le (by norm_num) (le_max_right _ _)) (hm i hi y) hy

end Glass.Shells
