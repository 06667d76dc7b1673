import Verif.Arrays.Reduce
import Verif.Points.SampleProps

/-!
# Weights of several populations for clustering (C120)

`position_weights` for arrays of all shapes, and for the kinds of numbers that can be given as bias.
-/

namespace Glass.Points

open Glass Glass.Arrays NdArray

/-- The argument `bias` of `position_weights`. -/
inductive Bias where
  | none
  | int (n : ℤ)
  | float (x : ℝ)
  | array (b : NdArray ℝ)

/-- `points.py:640`: only `float` is turned into an array; the result is the object that is used in
the following. -/
def convertBias : Bias → Bias
  | .float x => .array ⟨[], fun _ => x⟩
  | b => b

/-- `points.py:610-651` `position_weights` for arrays.  `broadcast_first` (`arraytools.py:42`) reads
`ndim` of its arguments, which Python numbers do not have. -/
noncomputable def positionWeightsNd (densities : NdArray ℝ) (bias : Bias) :
    Except Err (NdArray ℝ) :=
  match convertBias bias with
  | .none => normaliseFirst densities
  | .array b => do
    match ← broadcastFirst [densities, b] with
    | [densities, b] => do
      let densities ← normaliseFirst densities
      NdArray.map₂ (· * ·) densities b
    | _ => .error (.value "not enough values to unpack")
  | _ => .error .attribute

/-- The value for shell `k` and population `j`, of an array whose first axis numbers the shells and
whose other axes number the populations.  Axes that are missing or have length one count as
repeated. -/
def value (a : NdArray ℝ) (k : ℕ) (j : List ℕ) : ℝ := entry (firstToLast a) (j ++ [k])

theorem value_self {a : NdArray ℝ} {n : ℕ} {s : List ℕ} (h : a.shape = n :: s) {k : ℕ} {j : List ℕ}
    (hk : k < n) (hj : j ∈ indices s) : value a k j = a.get (k :: j) := by
  have hs : (firstToLast a).shape = s ++ [n] := by rw [firstToLast_shape, h]; rfl
  have hm : j ++ [k] ∈ indices (s ++ [n]) := by
    rw [mem_indices] at hj ⊢
    exact List.rel_append hj (by simp [hk])
  rw [value, entry_self (by rw [hs]; exact hm), firstToLast_get _ (by rw [h]; exact hm)]
  simp [unrotate]

/-- A number counts for every shell and every population. -/
theorem value_scalar (x : ℝ) (k : ℕ) (j : List ℕ) : value ⟨[], fun _ => x⟩ k j = x := rfl

/-- One number per shell counts for every population. -/
theorem value_shells {n : ℕ} (g : List ℕ → ℝ) (hn : n ≠ 1) (k : ℕ) (j : List ℕ) :
    value ⟨[n], g⟩ k j = g [k] := by
  show g _ = _
  congr 1
  simp [broadcastIndex, firstToLast, hn]

/-- `broadcast_first` of two arrays, with the entries as values. -/
theorem broadcastFirst_pair (d b : NdArray ℝ) {n : ℕ} {s : List ℕ}
    (h : IsBroadcast [rotate d.shape, rotate b.shape] (s ++ [n])) :
    ∃ d' b', broadcastFirst [d, b] = .ok [d', b'] ∧ d'.shape = n :: s ∧ b'.shape = n :: s ∧
      ∀ k < n, ∀ j ∈ indices s, d'.get (k :: j) = value d k j ∧ b'.get (k :: j) = value b k j := by
  have hto : ∀ a : NdArray ℝ, rotate a.shape ∈ [rotate d.shape, rotate b.shape] →
      broadcastTo (firstToLast a) (s ++ [n]) = .ok ⟨s ++ [n], entry (firstToLast a)⟩ := by
    intro a ha
    rw [← firstToLast_shape a] at ha
    exact broadcastTo_ok (h.1 _ ha) (h.2.1 _ ha)
  have hall : broadcastAll [(firstToLast d).shape, (firstToLast b).shape] = .ok (s ++ [n]) := by
    rw [firstToLast_shape, firstToLast_shape]
    exact ((broadcastAll_spec _).1 _).2 h
  refine ⟨lastToFirst ⟨s ++ [n], entry (firstToLast d)⟩, lastToFirst ⟨s ++ [n], entry (firstToLast b)⟩,
    ?_, by simp [lastToFirst], by simp [lastToFirst], ?_⟩
  · simp only [broadcastFirst, List.map_cons, List.map_nil, hall, bind, Except.bind, List.mapM_cons,
      List.mapM_nil, hto d (by simp), hto b (by simp), pure, Except.pure]
  · intro k hk j hj
    have e : ∀ a : NdArray ℝ, (lastToFirst ⟨s ++ [n], entry (firstToLast a)⟩).get (k :: j) =
        value a k j := by
      intro a
      simp [lastToFirst, value]
    exact ⟨e d, e b⟩

/-- **C120** with bias: the shapes are broadcast with the shells as a common first axis, and every
population has its normalised density times its bias. -/
theorem position_weights_array_partial (d b : NdArray ℝ) {n : ℕ} {s : List ℕ}
    (h : IsBroadcast [rotate d.shape, rotate b.shape] (s ++ [n])) :
    ∃ w, positionWeightsNd d (.array b) = .ok w ∧ w.shape = n :: s ∧
      ∀ k < n, ∀ j ∈ indices s, w.get (k :: j) =
        value d k j / (∑ k' ∈ Finset.range n, value d k' j) * value b k j := by
  obtain ⟨d', b', h1, h2, h3, h4⟩ := broadcastFirst_pair d b h
  obtain ⟨m, h5, h6, h7⟩ := normaliseFirst_spec h2
  obtain ⟨w, h8, h9⟩ := map₂_total (· * ·) (a := m) (b := b') (d := n :: s)
    (by rw [h6, h3]; exact isBroadcast_same _)
  refine ⟨w, ?_, h9, ?_⟩
  · simp only [positionWeightsNd, convertBias, h1, bind, Except.bind, h5]
    exact h8
  · intro k hk j hj
    have hi : k :: j ∈ indices (n :: s) := mem_indices_cons.2 ⟨hk, hj⟩
    have := (map₂_ok h8).2 (n :: s) (by rw [h9]; exact Fits.refl _) _ hi
    rw [entry_self (by rw [h9]; exact hi), entry_self (by rw [h6]; exact hi),
      entry_self (by rw [h3]; exact hi)] at this
    rw [this, h7 k hk j hj, (h4 k hk j hj).1, (h4 k hk j hj).2]
    congr 2
    exact Finset.sum_congr rfl fun k' hk' => (h4 k' (Finset.mem_range.1 hk') j hj).1

/-- **C120** for a floating point number as bias: the densities keep their shape. -/
theorem position_weights_float_partial (d : NdArray ℝ) (x : ℝ) {n : ℕ} {s : List ℕ}
    (h : d.shape = n :: s) :
    ∃ w, positionWeightsNd d (.float x) = .ok w ∧ w.shape = n :: s ∧
      ∀ k < n, ∀ j ∈ indices s, w.get (k :: j) =
        d.get (k :: j) / (∑ k' ∈ Finset.range n, d.get (k' :: j)) * x := by
  have hb : IsBroadcast [rotate d.shape, rotate (⟨[], fun _ => x⟩ : NdArray ℝ).shape] (s ++ [n]) := by
    rw [h]
    refine ⟨by simp [rotate], ?_, fun j m hm => ⟨s ++ [n], by simp [rotate], hm⟩⟩
    intro t ht j m hm
    simp only [rotate, List.mem_cons, List.not_mem_nil, or_false] at ht
    rcases ht with rfl | rfl
    · exact .inr hm
    · simp at hm
  obtain ⟨w, h1, h2, h3⟩ := position_weights_array_partial d ⟨[], fun _ => x⟩ hb
  refine ⟨w, h1, h2, fun k hk j hj => ?_⟩
  rw [h3 k hk j hj, value_scalar, value_self h hk hj]
  congr 2
  exact Finset.sum_congr rfl fun k' hk' => value_self h (Finset.mem_range.1 hk') hj

/-- **C120** without bias. -/
theorem position_weights_nobias_partial (d : NdArray ℝ) {n : ℕ} {s : List ℕ} (h : d.shape = n :: s) :
    ∃ w, positionWeightsNd d .none = .ok w ∧ w.shape = n :: s ∧
      ∀ k < n, ∀ j ∈ indices s, w.get (k :: j) =
        d.get (k :: j) / ∑ k' ∈ Finset.range n, d.get (k' :: j) := normaliseFirst_spec h

/-- **C120** refuted: an integer is not accepted as bias, whatever the densities, although the
floating point number of the same value is. -/
theorem position_weights_int (d : NdArray ℝ) (m : ℤ) :
    positionWeightsNd d (.int m) = .error .attribute := rfl

/-- A single number as density is rejected without bias and with a number as bias. -/
theorem position_weights_scalar (d : NdArray ℝ) (h : d.shape = []) (x : ℝ) :
    (∃ e, positionWeightsNd d .none = .error (.value e)) ∧
    ∃ e, positionWeightsNd d (.float x) = .error (.value e) := by
  rcases d with ⟨s, g⟩
  simp only at h
  subst h
  exact ⟨⟨_, rfl⟩, ⟨_, rfl⟩⟩

/-- Shapes that do not broadcast raise `ValueError`. -/
theorem position_weights_rejected (d b : NdArray ℝ)
    (h : ¬ ∃ dims, IsBroadcast [rotate d.shape, rotate b.shape] dims) :
    ∃ e, positionWeightsNd d (.array b) = .error (.value e) := by
  obtain ⟨r, hr⟩ := (broadcast_first_spec [d, b]).2 (by simpa using h)
  exact ⟨r, by simp only [positionWeightsNd, convertBias, hr, bind, Except.bind]⟩

/-- Every population is treated as if it were the only one (`positionWeights` of C43). -/
theorem position_weights_populations (d b : NdArray ℝ) {n : ℕ} {s : List ℕ}
    (h : IsBroadcast [rotate d.shape, rotate b.shape] (s ++ [n])) :
    ∃ w, positionWeightsNd d (.array b) = .ok w ∧ w.shape = n :: s ∧ ∀ j ∈ indices s,
      positionWeights ((List.range n).map fun k => value d k j)
        (some ((List.range n).map fun k => value b k j)) =
        .ok ((List.range n).map fun k => w.get (k :: j)) := by
  obtain ⟨w, h1, h2, h3⟩ := position_weights_array_partial d b h
  refine ⟨w, h1, h2, fun j hj => ?_⟩
  have hsum : ∀ f : ℕ → ℝ, ((List.range n).map f).sum = ∑ k ∈ Finset.range n, f k := by
    intro f
    rw [← List.sum_toFinset _ List.nodup_range, List.toFinset_range]
  simp only [positionWeights, broadcastArrays, List.length_map, List.length_range, if_true, bind,
    Except.bind]
  congr 1
  refine List.ext_getElem (by simp) fun k hk1 hk2 => ?_
  have hk : k < n := by simpa using hk2
  simp only [List.getElem_zipWith, List.getElem_map, List.getElem_range]
  rw [h3 k hk j hj, hsum]

/-- Concrete case: densities of three shells for two populations, and one bias for each shell. -/
example : IsBroadcast [rotate [3, 2], rotate [3]] ([2] ++ [3]) :=
  ((broadcastAll_spec _).1 _).1 (by rfl)

end Glass.Points
