import Mathlib.Algebra.BigOperators.Group.Finset.Basic
import Mathlib.Analysis.Real.Sqrt
import Verif.Arrays.FitLemmas

/-!
# Sums and products of arrays along axes

The parts of the array API that are used to normalise and to combine weights of shells: sums along
the first axis, and the product of a matrix and an array.
-/

namespace Glass.Arrays

open Glass NdArray

/-- `xp.sum(a, axis=0)`. -/
noncomputable def sumFirst (a : NdArray ℝ) : Except Err (NdArray ℝ) :=
  match a.shape with
  | [] => .error (.value "axis 0 is out of bounds for array of dimension 0")
  | n :: s => .ok ⟨s, fun j => ∑ k ∈ Finset.range n, a.get (k :: j)⟩

/-- `a / xp.sum(a, axis=0)`. -/
noncomputable def normaliseFirst (a : NdArray ℝ) : Except Err (NdArray ℝ) := do
  let total ← sumFirst a
  NdArray.map₂ (· / ·) a total

/-- `xp.matmul(m, b)` for a matrix of `rows` rows and `cols` columns and an array `b`.  The
second-to-last axis of `b` is contracted (the only axis if there is one), and the axes in front of it
are kept in front of the rows of the matrix. -/
noncomputable def matmul (rows cols : ℕ) (m : ℕ → ℕ → ℝ) (b : NdArray ℝ) :
    Except Err (NdArray ℝ) :=
  match b.shape.reverse with
  | [] => .error (.value "matmul: input operand does not have enough dimensions")
  | [d] =>
    if d = cols then
      .ok ⟨[rows], fun i => ∑ k ∈ Finset.range cols, m (i.headD 0) k * b.get [k]⟩
    else .error (.value "matmul: input operand has a mismatch in its core dimension")
  | p :: d :: batch =>
    if d = cols then
      .ok ⟨batch.reverse ++ [rows, p], fun i => ∑ k ∈ Finset.range cols,
        m (i.dropLast.getLast?.getD 0) k * b.get (i.dropLast.dropLast ++ [k] ++ i.getLast?.toList)⟩
    else .error (.value "matmul: input operand has a mismatch in its core dimension")

theorem broadcastIndex_cons {s j : List ℕ} (hj : j ∈ indices s) (k : ℕ) :
    broadcastIndex s (k :: j) = j := by
  have hl := mem_indices_length hj
  have h := broadcastIndex_self hj
  unfold broadcastIndex at h ⊢
  rw [List.length_cons, hl, show s.length + 1 - s.length = 1 by omega, List.drop_one, List.tail_cons]
  rwa [hl, Nat.sub_self, List.drop_zero] at h

theorem isBroadcast_cons (n : ℕ) (s : List ℕ) : IsBroadcast [n :: s, s] (n :: s) := by
  refine ⟨by simp, ?_, fun j d h => ⟨n :: s, by simp, h⟩⟩
  intro t ht j d hd
  simp only [List.mem_cons, List.not_mem_nil, or_false] at ht
  rcases ht with rfl | rfl
  · exact .inr hd
  · right
    rw [List.reverse_cons, List.getElem?_append_left (List.getElem?_eq_some_iff.1 hd).1]
    exact hd

theorem mem_indices_cons {n k : ℕ} {s j : List ℕ} :
    k :: j ∈ indices (n :: s) ↔ k < n ∧ j ∈ indices s := by
  rw [mem_indices, mem_indices]; simp

/-- A number has no first axis. -/
theorem normaliseFirst_scalar {a : NdArray ℝ} (h : a.shape = []) :
    normaliseFirst a = .error (.value "axis 0 is out of bounds for array of dimension 0") := by
  simp only [normaliseFirst, sumFirst, h]
  rfl

/-- Normalisation along the first axis acts on the remaining axes entry by entry. -/
theorem normaliseFirst_spec {a : NdArray ℝ} {n : ℕ} {s : List ℕ} (h : a.shape = n :: s) :
    ∃ w, normaliseFirst a = .ok w ∧ w.shape = n :: s ∧ ∀ k < n, ∀ j ∈ indices s,
      w.get (k :: j) = a.get (k :: j) / ∑ k' ∈ Finset.range n, a.get (k' :: j) := by
  have hs : sumFirst a = .ok ⟨s, fun j => ∑ k ∈ Finset.range n, a.get (k :: j)⟩ := by
    simp only [sumFirst, h]
  obtain ⟨w, hw, hws⟩ := map₂_total (· / ·) (a := a)
    (b := (⟨s, fun j => ∑ k ∈ Finset.range n, a.get (k :: j)⟩ : NdArray ℝ)) (d := n :: s)
    (by rw [h]; exact isBroadcast_cons n s)
  refine ⟨w, by simp only [normaliseFirst, hs, bind, Except.bind]; exact hw, hws, ?_⟩
  intro k hk j hj
  have hi : k :: j ∈ indices (n :: s) := mem_indices_cons.2 ⟨hk, hj⟩
  have := (map₂_ok hw).2 (n :: s) (by rw [hws]; exact Fits.refl _) _ hi
  rw [entry_self (by rw [hws]; exact hi), entry_self (by rw [h]; exact hi)] at this
  rw [this]
  simp only [entry, broadcastIndex_cons hj]

/-- A matrix that need not be square is applied to arrays with as many entries along the contracted
axis as the matrix has columns; other arrays are rejected. -/
theorem matmul_rectangular (rows cols : ℕ) (m : ℕ → ℕ → ℝ) (b : NdArray ℝ) (s : List ℕ) (d p : ℕ) :
    (b.shape = [d] → ((∃ w, matmul rows cols m b = .ok w ∧ w.shape = [rows]) ↔ d = cols)) ∧
    (b.shape = s ++ [d, p] →
      ((∃ w, matmul rows cols m b = .ok w ∧ w.shape = s ++ [rows, p]) ↔ d = cols)) := by
  constructor
  · intro h
    unfold matmul
    rw [h]
    by_cases hd : d = cols <;> simp [hd]
  · intro h
    unfold matmul
    rw [h]
    by_cases hd : d = cols <;> simp [hd]

end Glass.Arrays
