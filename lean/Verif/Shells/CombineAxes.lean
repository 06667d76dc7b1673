import Verif.Arrays.Reduce
import Verif.Shells.ShellProps

/-!
# Combinations of windows for arrays of all shapes (C123)

`combine` for redshifts and weights of any shape.  The axes of the weights after the first one, and
the axes of the redshifts, ought to be the axes of the result.
-/

namespace Glass.Shells

open Glass Glass.Num Glass.Arrays NdArray

/-- The term of one shell in `shells.py:997-1007`, with `weight = weights[l]`. -/
noncomputable def combineTerm (z weights : NdArray ℝ) (dims : List ℕ) (shell : RadialWindow)
    (l : ℕ) : Except Err (NdArray ℝ) :=
  let norm := trapezoid shell.knots
  if shell.knots = [] then .error (.value "array of sample points is empty")
  else NdArray.map₂ (· * ·) (⟨dims ++ [1], fun i => weights.get (l :: i.dropLast)⟩ : NdArray ℝ)
    (NdArray.map (interp (some 0) (some 0) (shell.knots.map fun k => (k.1, k.2 / norm))) z)

/-- `shells.py:954-1012` `combine` for arrays.  Iterating over an array without axes raises
`TypeError`, and `xp.stack` of no arrays raises `ValueError`. -/
noncomputable def combineNd (z weights : NdArray ℝ) (shells : List RadialWindow) :
    Except Err (NdArray ℝ) :=
  match weights.shape with
  | [] => .error (.type "iteration over a 0-d array")
  | n :: dims => do
    let terms ← (shells.zip (List.range n)).mapM fun p => combineTerm z weights dims p.1 p.2
    match terms with
    | [] => .error (.value "need at least one array to stack")
    | t :: _ => .ok ⟨t.shape, fun i => (terms.map fun a => a.get i).sum⟩

/-- The weights of all shells for one of the functions that are to be combined. -/
def column (weights : NdArray ℝ) (n : ℕ) (j : List ℕ) : List ℝ :=
  (List.range n).map fun l => weights.get (l :: j)

/-- What `combine` computes: the weights, with an axis of length one appended, and the redshifts
are broadcast. -/
theorem combineNd_spec {z weights : NdArray ℝ} {shells : List RadialWindow} {n : ℕ}
    {dims d : List ℕ} (hw : weights.shape = n :: dims) (hd : IsBroadcast [dims ++ [1], z.shape] d)
    (hn : 0 < n) (hne : shells ≠ []) (hk : ∀ w ∈ shells, w.knots ≠ []) :
    ∃ out, combineNd z weights shells = .ok out ∧ out.shape = d ∧ ∀ i,
      combine (entry z i) (column weights n (broadcastIndex (dims ++ [1]) i).dropLast) shells =
        .ok (out.get i) := by
  have hterm : ∀ p ∈ shells.zip (List.range n), combineTerm z weights dims p.1 p.2 =
      .ok ⟨d, fun i => weights.get (p.2 :: (broadcastIndex (dims ++ [1]) i).dropLast) *
        interp (some 0) (some 0) (p.1.knots.map fun k => (k.1, k.2 / trapezoid p.1.knots))
          (entry z i)⟩ := by
    intro p hp
    unfold combineTerm
    rw [if_neg (hk _ (List.of_mem_zip hp).1)]
    unfold NdArray.map₂
    have hs : broadcastShapes (dims ++ [1]) z.shape = some d := isBroadcast_pair.2 hd
    simp only [NdArray.map, hs]
    rfl
  have hzip : shells.zip (List.range n) ≠ [] := by
    intro h
    rcases List.zip_eq_nil_iff.1 h with h | h
    · exact hne h
    · simp at h; omega
  have hm := Glass.Arrays.mapM_ok (l := shells.zip (List.range n)) hterm
  refine ⟨⟨d, fun i => (((shells.zip (List.range n)).map fun p => (⟨d, fun i =>
    weights.get (p.2 :: (broadcastIndex (dims ++ [1]) i).dropLast) *
        interp (some 0) (some 0) (p.1.knots.map fun k => (k.1, k.2 / trapezoid p.1.knots))
          (entry z i)⟩ : NdArray ℝ)).map fun a => a.get i).sum⟩, ?_, rfl, fun i => ?_⟩
  · simp only [combineNd, hw, hm, bind, Except.bind]
    obtain ⟨p, ps, hps⟩ := List.exists_cons_of_ne_nil hzip
    rw [hps]
    rfl
  · unfold combine column
    rw [if_neg, if_neg]
    · simp only [List.map_map, List.zip_map_right, Function.comp_def, Prod.map]
      rfl
    · rintro ⟨p, hp, h⟩
      exact hk _ (List.of_mem_zip hp).1 h
    · rw [List.zip_map_right]
      simpa using hzip

theorem isBroadcast_expand (dims : List ℕ) (m : ℕ) :
    IsBroadcast [dims ++ [1], [m]] (dims ++ [m]) := by
  refine ⟨by simp, ?_, ?_⟩
  · intro s hs j k hj
    simp only [List.mem_cons, List.not_mem_nil, or_false] at hs
    rcases hs with rfl | rfl
    · rw [List.reverse_append] at hj ⊢
      cases j with
      | zero => left; simpa using hj.symm
      | succ j => right; simpa using hj
    · rw [List.reverse_append]
      cases j with
      | zero => right; simpa using hj
      | succ j => simp at hj
  · intro j k hj
    rw [List.reverse_append] at hj
    cases j with
    | zero => exact ⟨[m], by simp, by simpa using hj⟩
    | succ j => exact ⟨dims ++ [1], by simp, by simpa using hj⟩

/-- **C123** for redshifts in one axis: the axes of the weights are followed by the axis of the
redshifts, and every entry is the combination of `combine` with its weights and redshift. -/
theorem combine_vector_partial {z weights : NdArray ℝ} {shells : List RadialWindow} {n m : ℕ}
    {dims : List ℕ} (hw : weights.shape = n :: dims) (hz : z.shape = [m]) (hn : 0 < n)
    (hne : shells ≠ []) (hk : ∀ w ∈ shells, w.knots ≠ []) :
    ∃ out, combineNd z weights shells = .ok out ∧ out.shape = dims ++ z.shape ∧
      ∀ j ∈ indices dims, ∀ k < m,
        combine (z.get [k]) (column weights n j) shells = .ok (out.get (j ++ [k])) := by
  obtain ⟨out, h1, h2, h3⟩ := combineNd_spec (d := dims ++ [m]) hw
    (by rw [hz]; exact isBroadcast_expand dims m) hn hne hk
  refine ⟨out, h1, by rw [h2, hz], fun j hj k hk => ?_⟩
  have hi := h3 (j ++ [k])
  have hlen := mem_indices_length hj
  have e1 : entry z (j ++ [k]) = z.get [k] := by
    unfold entry
    congr 1
    rw [hz]
    unfold broadcastIndex
    simp
    omega
  have e2 : (broadcastIndex (dims ++ [1]) (j ++ [k])).dropLast = j := by
    have h := broadcastIndex_self hj
    unfold broadcastIndex at h ⊢
    rw [hlen, Nat.sub_self, List.drop_zero] at h
    rw [List.length_append, List.length_append, hlen]
    simp only [List.length_singleton, Nat.sub_self, List.drop_zero]
    rw [List.zipWith_append hlen.symm, h]
    simp
  rw [e1, e2] at hi
  exact hi

theorem isBroadcast_one {s : List ℕ} (hs : s ≠ []) : IsBroadcast [[] ++ [1], s] s := by
  refine ⟨?_, ?_, fun j k h => ⟨s, by simp, h⟩⟩
  · intro t ht
    simp only [List.nil_append, List.mem_cons, List.not_mem_nil, or_false] at ht
    rcases ht with rfl | rfl
    · exact List.length_pos_of_ne_nil hs
    · exact le_rfl
  · intro t ht j k hj
    simp only [List.nil_append, List.mem_cons, List.not_mem_nil, or_false] at ht
    rcases ht with rfl | rfl
    · left
      cases j with
      | zero => simpa using hj.symm
      | succ j => simp at hj
    · exact .inr hj

/-- **C123** for one weight per shell: the result has the shape of the redshifts, which can have
any number of axes, but not none. -/
theorem combine_scalar_partial {z weights : NdArray ℝ} {shells : List RadialWindow} {n : ℕ}
    (hw : weights.shape = [n]) (hz : z.shape ≠ []) (hn : 0 < n)
    (hne : shells ≠ []) (hk : ∀ w ∈ shells, w.knots ≠ []) :
    ∃ out, combineNd z weights shells = .ok out ∧ out.shape = z.shape ∧ ∀ i ∈ indices z.shape,
      combine (z.get i) (column weights n []) shells = .ok (out.get i) := by
  obtain ⟨out, h1, h2, h3⟩ := combineNd_spec (d := z.shape) hw (isBroadcast_one hz) hn hne hk
  refine ⟨out, h1, h2, fun i hi => ?_⟩
  have h := h3 i
  rw [entry_self hi] at h
  have e : (broadcastIndex ([] ++ [1]) i).dropLast = [] := by
    rw [← List.length_eq_zero_iff]
    simp [broadcastIndex]
  rw [e] at h
  exact h

/-- **C123**, a redshift without axes: the result has one axis too many. -/
theorem combine_number {z weights : NdArray ℝ} {shells : List RadialWindow} {n : ℕ}
    {dims : List ℕ} (hw : weights.shape = n :: dims) (hz : z.shape = []) (hn : 0 < n)
    (hne : shells ≠ []) (hk : ∀ w ∈ shells, w.knots ≠ []) :
    ∃ out, combineNd z weights shells = .ok out ∧ out.shape = dims ++ [1] := by
  obtain ⟨out, h1, h2, -⟩ := combineNd_spec (d := dims ++ [1]) hw (by
    rw [hz]
    refine ⟨by simp, ?_, fun j k h => ⟨dims ++ [1], by simp, h⟩⟩
    intro t ht j k hj
    simp only [List.mem_cons, List.not_mem_nil, or_false] at ht
    rcases ht with rfl | rfl
    · exact .inr hj
    · simp at hj) hn hne hk
  exact ⟨out, h1, h2⟩

/-- **C123** is false for redshifts with two axes: for `m` functions and `m` rows of redshifts, the
function `i` is evaluated in the redshifts of row `i` only, without a warning. -/
theorem combine_axes_wrong {z weights : NdArray ℝ} {shells : List RadialWindow} {n m p : ℕ}
    (hw : weights.shape = [n, m]) (hz : z.shape = [m, p]) (hm : m ≠ 1) (hp : p ≠ 1) (hn : 0 < n)
    (hne : shells ≠ []) (hk : ∀ w ∈ shells, w.knots ≠ []) :
    ∃ out, combineNd z weights shells = .ok out ∧ out.shape = [m, p] ∧
      out.shape ≠ [m] ++ z.shape ∧ ∀ i k,
        combine (z.get [i, k]) (column weights n [i]) shells = .ok (out.get [i, k]) := by
  obtain ⟨out, h1, h2, h3⟩ := combineNd_spec (dims := [m]) (d := [m, p]) hw (by
    rw [hz]
    refine ⟨by simp, ?_, fun j k h => ⟨[m, p], by simp, h⟩⟩
    intro t ht j k hj
    simp only [List.mem_cons, List.not_mem_nil, or_false] at ht
    rcases ht with rfl | rfl
    · rcases j with _ | _ | j
      · left; simpa using hj.symm
      · right; simpa using hj
      · simp at hj
    · exact .inr hj) hn hne hk
  refine ⟨out, h1, h2, by rw [h2, hz]; simp, fun i k => ?_⟩
  have h := h3 [i, k]
  have e1 : entry z [i, k] = z.get [i, k] := by
    unfold entry
    simp [hz, broadcastIndex, hm, hp]
  have e2 : (broadcastIndex ([m] ++ [1]) [i, k]).dropLast = [i] := by
    simp [broadcastIndex, hm]
  rw [e1, e2] at h
  exact h

/-- **C123**, other numbers of rows: `ValueError`. -/
theorem combine_axes_rejected {z weights : NdArray ℝ} {shells : List RadialWindow} {n m q p : ℕ}
    (hw : weights.shape = [n, m]) (hz : z.shape = [q, p]) (hm : m ≠ 1) (hq : q ≠ 1) (hmq : m ≠ q)
    (hn : 0 < n) (hne : shells ≠ []) (hk : ∀ w ∈ shells, w.knots ≠ []) :
    ∃ r, combineNd z weights shells = .error (.value r) := by
  obtain ⟨w, ws, rfl⟩ := List.exists_cons_of_ne_nil hne
  obtain ⟨n', rfl⟩ : ∃ n', n = n' + 1 := ⟨n - 1, by omega⟩
  have hbs : broadcastShapes ([m] ++ [1]) [q, p] = none := by
    simp [broadcastShapes, broadcastRev, broadcastDim, hm, hq, hmq]
  have ht : combineTerm z weights [m] w 0 =
      .error (.value "operands could not be broadcast together") := by
    unfold combineTerm
    rw [if_neg (hk w (List.mem_cons_self ..))]
    unfold NdArray.map₂
    simp only [NdArray.map, hz, hbs]
  refine ⟨"operands could not be broadcast together", ?_⟩
  simp only [combineNd, hw]
  rw [List.range_succ_eq_map, List.zip_cons_cons, List.mapM_cons, ht]
  rfl

/-- Concrete case: two functions in three redshifts. -/
example : ∃ out, combineNd ⟨[3], fun i => (i.headD 0 : ℝ) / 2⟩ ⟨[1, 2], fun _ => 1⟩
    [⟨[(0, 0), (1, 1), (2, 0)], 1⟩] = .ok out ∧ out.shape = [2, 3] := by
  obtain ⟨out, h1, h2, -⟩ := combine_vector_partial (z := ⟨[3], fun i => (i.headD 0 : ℝ) / 2⟩)
    (weights := ⟨[1, 2], fun _ => 1⟩) (shells := [⟨[(0, 0), (1, 1), (2, 0)], 1⟩]) (n := 1) (m := 3)
    (dims := [2]) rfl rfl (by norm_num) (by simp) (by simp)
  exact ⟨out, h1, h2⟩

end Glass.Shells
