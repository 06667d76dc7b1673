import Verif.Arrays.Reduce
import Verif.Lensing.MatrixProps

/-!
# Lensing weights of several populations (C119)

`multi_plane_weights` for arrays of weights with any number of axes.  The documentation asks only
for a first axis that matches the shells, so the other axes should number populations.
-/

namespace Glass.Lensing

open Glass Glass.Arrays Glass.Shells NdArray

/-- `lensing.py:638-684` `multi_plane_weights` for an array of weights.  `mat.T` has the entry
`mat[k, i]` in row `i` and column `k`. -/
noncomputable def multiPlaneWeightsNd (cosmo : Cosmology) (weights : NdArray ℝ)
    (shells : List RadialWindow) : Except Err (NdArray ℝ) :=
  if weights.shape = [] ∨ weights.shape.head? ≠ some shells.length then
    .error (.value "shape mismatch between weights and shells")
  else do
    let weights ← normaliseFirst weights
    let mat ← multiPlaneMatrix cosmo shells
    matmul shells.length shells.length (fun i k => mat[k]! i) weights

/-- The weights of one population. -/
def column (weights : NdArray ℝ) (n : ℕ) (j : List ℕ) : List ℝ :=
  (List.range n).map fun k => weights.get (k :: j)

theorem sum_range_list (n : ℕ) (f : ℕ → ℝ) :
    ((List.range n).map f).sum = ∑ k ∈ Finset.range n, f k := by
  induction n with
  | zero => simp
  | succ n ih => rw [List.range_succ, List.map_append, List.sum_append, ih, Finset.sum_range_succ]; simp

theorem matrix_length {c : Cosmology} {shells : List RadialWindow} {rows : List (ℕ → ℝ)}
    (h : multiPlaneMatrix c shells = .ok rows) : rows.length = shells.length := by
  exact (matrix_strictly_lower c shells rows h).1

/-- The weights of one population as sums over the shells. -/
theorem weights_column {c : Cosmology} {shells : List RadialWindow} {rows : List (ℕ → ℝ)}
    (h : multiPlaneMatrix c shells = .ok rows) (w : ℕ → ℝ) :
    multiPlaneWeights c ((List.range shells.length).map w) shells =
      .ok ((List.range shells.length).map fun i => ∑ k ∈ Finset.range shells.length,
        rows[k]! i * (w k / ∑ k' ∈ Finset.range shells.length, w k')) := by
  have hl := matrix_length h
  simp only [multiPlaneWeights, List.length_map, List.length_range, ne_eq, not_true_eq_false,
    if_false, h, bind, Except.bind]
  congr 1
  refine List.map_congr_left fun i _ => ?_
  rw [sum_range_list, ← sum_range_list shells.length]
  congr 1
  refine List.ext_getElem (by simp [hl]) fun k h1 h2 => ?_
  simp only [List.length_map, List.length_range] at h2
  simp only [List.getElem_zipWith, List.getElem_map, List.getElem_range]
  rw [getElem!_pos rows k (by omega)]

/-- **C119** where it holds: for weights with one axis or two axes every population has the lensing
weights that it has on its own. -/
theorem weights_populations_partial (c : Cosmology) (weights : NdArray ℝ)
    (shells : List RadialWindow) {s : List ℕ} (hs : s.length ≤ 1)
    (hw : weights.shape = shells.length :: s) {rows : List (ℕ → ℝ)}
    (h : multiPlaneMatrix c shells = .ok rows) :
    ∃ lw, multiPlaneWeightsNd c weights shells = .ok lw ∧ lw.shape = weights.shape ∧
      ∀ j ∈ indices s, multiPlaneWeights c (column weights shells.length j) shells =
        .ok (column lw shells.length j) := by
  obtain ⟨w, h1, h2, h3⟩ := normaliseFirst_spec hw
  have e : multiPlaneWeightsNd c weights shells =
      matmul shells.length shells.length (fun i k => rows[k]! i) w := by
    simp only [multiPlaneWeightsNd, hw, List.head?_cons, reduceCtorEq, ne_eq, not_true_eq_false,
      or_self, if_false, h1, h, bind, Except.bind]
  rcases s with _ | ⟨p, _ | ⟨q, s⟩⟩
  · refine ⟨_, by rw [e]; simp only [matmul, h2, List.reverse_cons, List.reverse_nil,
      List.nil_append, if_true]; rfl, by rw [hw], ?_⟩
    intro j hj
    obtain rfl : j = [] := by simpa [indices] using hj
    rw [column, weights_column h]
    congr 1
    refine List.map_congr_left fun i _ => Finset.sum_congr rfl fun k hk => ?_
    rw [h3 k (Finset.mem_range.1 hk) [] (by simp [indices])]
    rfl
  · refine ⟨_, by rw [e]; simp only [matmul, h2, List.reverse_cons, List.reverse_nil,
      List.nil_append, List.cons_append, if_true]; rfl, by rw [hw], ?_⟩
    intro j hj
    rw [column, weights_column h]
    congr 1
    obtain ⟨a, rfl⟩ : ∃ a, j = [a] := by
      have := mem_indices_length hj
      exact List.length_eq_one_iff.1 this
    refine List.map_congr_left fun i _ => Finset.sum_congr rfl fun k hk => ?_
    rw [← h3 k (Finset.mem_range.1 hk) [a] hj]
    rfl
  · simp at hs

/-- Weights whose first axis does not number the shells are rejected with a
`ValueError`, for any cosmology. -/
theorem weights_count_rejected (c : Cosmology) (weights : NdArray ℝ) (shells : List RadialWindow)
    (h : weights.shape.head? ≠ some shells.length) :
    ∃ e, multiPlaneWeightsNd c weights shells = .error (.value e) :=
  ⟨_, if_pos (Or.inr h)⟩

/-- With three or more axes the second-to-last axis is taken for the shells: if it does not have
the length of the shells, `ValueError` is raised. -/
theorem weights_axes_rejected (c : Cosmology) (weights : NdArray ℝ) (shells : List RadialWindow)
    {s : List ℕ} {a p : ℕ} (hw : weights.shape = shells.length :: (s ++ [a, p]))
    (ha : a ≠ shells.length) {rows : List (ℕ → ℝ)} (h : multiPlaneMatrix c shells = .ok rows) :
    ∃ e, multiPlaneWeightsNd c weights shells = .error (.value e) := by
  obtain ⟨w, h1, h2, h3⟩ := normaliseFirst_spec hw
  refine ⟨"matmul: input operand has a mismatch in its core dimension", ?_⟩
  simp only [multiPlaneWeightsNd, hw, List.head?_cons, reduceCtorEq, ne_eq, not_true_eq_false,
    or_self, if_false, h1, h, bind, Except.bind]
  simp [matmul, h2, ha]

/-- Otherwise it is contracted, although the weights have been normalised along the first axis. -/
theorem weights_axes_contracted (c : Cosmology) (weights : NdArray ℝ) (shells : List RadialWindow)
    {s : List ℕ} {p : ℕ} (hw : weights.shape = shells.length :: (s ++ [shells.length, p]))
    {rows : List (ℕ → ℝ)} (h : multiPlaneMatrix c shells = .ok rows) :
    ∃ lw, multiPlaneWeightsNd c weights shells = .ok lw ∧ lw.shape = weights.shape ∧
      ∀ k < shells.length, ∀ j ∈ indices s, ∀ i < shells.length, ∀ q < p,
        lw.get (k :: (j ++ [i, q])) = ∑ k' ∈ Finset.range shells.length, rows[k']! i *
          (weights.get (k :: (j ++ [k', q])) /
            ∑ k'' ∈ Finset.range shells.length, weights.get (k'' :: (j ++ [k', q]))) := by
  obtain ⟨w, h1, h2, h3⟩ := normaliseFirst_spec hw
  have e : multiPlaneWeightsNd c weights shells =
      matmul shells.length shells.length (fun i k => rows[k]! i) w := by
    simp only [multiPlaneWeightsNd, hw, List.head?_cons, reduceCtorEq, ne_eq, not_true_eq_false,
      or_self, if_false, h1, h, bind, Except.bind]
  refine ⟨_, by rw [e]; simp only [matmul, h2, List.reverse_cons, List.reverse_append,
      List.reverse_nil, List.nil_append, List.cons_append, List.append_assoc, if_true]; rfl, ?_, ?_⟩
  · simp [hw]
  intro k hk j hj i hi q hq
  show ∑ k' ∈ Finset.range shells.length, rows[k']! ((k :: (j ++ [i, q])).dropLast.getLast?.getD 0) *
    w.get ((k :: (j ++ [i, q])).dropLast.dropLast ++ k' :: (k :: (j ++ [i, q])).getLast?.toList) = _
  refine Finset.sum_congr rfl fun k' hk' => ?_
  have hk' := Finset.mem_range.1 hk'
  have hm : j ++ [k', q] ∈ indices (s ++ [shells.length, p]) := by
    rw [mem_indices] at hj ⊢
    exact List.rel_append hj (by simp [hk', hq])
  rw [← h3 k hk _ hm]
  have e1 : (k :: (j ++ [i, q])).dropLast = k :: (j ++ [i]) := by
    rw [show k :: (j ++ [i, q]) = (k :: (j ++ [i])) ++ [q] by simp, List.dropLast_concat]
  have e2 : (k :: (j ++ [i, q])).getLast? = some q := by
    rw [show k :: (j ++ [i, q]) = (k :: (j ++ [i])) ++ [q] by simp, List.getLast?_concat]
  have e3 : (k :: (j ++ [i])).dropLast = k :: j := by
    rw [show k :: (j ++ [i]) = (k :: j) ++ [i] by simp, List.dropLast_concat]
  have e4 : (k :: (j ++ [i])).getLast? = some i := by
    rw [show k :: (j ++ [i]) = (k :: j) ++ [i] by simp, List.getLast?_concat]
  rw [e1, e2, e3, e4]
  simp

/-- Weights of two shells for populations numbered by two axes, of lengths two and one. -/
def twoAxes : NdArray ℝ := ⟨[2, 2, 1], fun i => if i = [1, 1, 0] then 3 else 1⟩

/-- **C119** refuted: with three axes, the lensing weights of a population are not those that it has
on its own, and nothing is raised. -/
theorem weights_axes_wrong : ∃ (c : Cosmology) (shells : List RadialWindow) (lw : NdArray ℝ),
    shells.length = 2 ∧ multiPlaneWeightsNd c twoAxes shells = .ok lw ∧
    lw.shape = twoAxes.shape ∧ column twoAxes 2 [1, 0] = [1, 3] ∧
    multiPlaneWeights c (column twoAxes 2 [1, 0]) shells = .ok [9 / 16, 0] ∧
    column lw 2 [1, 0] = [0, 0] := by
  obtain ⟨rows, hr, r10, r00, r11⟩ := two_shells
  have hlen := matrix_length hr
  set c := flatCosmology 1 1 (fun z => z) fun z => 1 + z
  set shells : List RadialWindow :=
    [⟨[(0, 0), (1, 1), (2, 0)], 1⟩, ⟨[(1, 0), (2, 1), (3, 0)], 2⟩] with hshells
  have hn : shells.length = 2 := rfl
  have r01 : rows[0]! 1 = 0 := by
    rw [getElem!_pos rows 0 (by rw [hlen, hn]; norm_num)]
    exact (matrix_strictly_lower c shells rows hr).2 0 _ 1 (by norm_num)
  obtain ⟨lw, h1, h2, h3⟩ := weights_axes_contracted c twoAxes shells (s := []) (p := 1) rfl hr
  have hcol : column twoAxes 2 [1, 0] = [1, 3] := by
    simp [column, twoAxes, List.range_succ]
  refine ⟨c, shells, lw, hn, h1, h2, hcol, ?_, ?_⟩
  · have := weights_column hr fun k => twoAxes.get (k :: [1, 0])
    rw [show column twoAxes 2 [1, 0] = (List.range shells.length).map fun k =>
      twoAxes.get (k :: [1, 0]) from rfl, this]
    simp only [hn, List.range_succ, List.range_zero, List.nil_append, List.cons_append,
      List.map_cons, List.map_nil, Finset.sum_range_succ, Finset.sum_range_zero, zero_add,
      r10, r00, r11, r01]
    simp [twoAxes]
    norm_num
  · have e : ∀ k < 2, lw.get [k, 1, 0] = 0 := by
      intro k hk
      have := h3 k (by rw [hn]; exact hk) [] (by simp [indices]) 1 (by rw [hn]; norm_num) 0
        (by norm_num)
      simp only [hn, Finset.sum_range_succ, Finset.sum_range_zero, zero_add, r11, r01, zero_mul,
        add_zero, List.nil_append] at this
      exact this
    simp [column, List.range_succ, e 0 (by norm_num), e 1 (by norm_num)]

end Glass.Lensing
