import Mathlib.Data.List.Forall2
import Mathlib.Data.List.Nodup
import Mathlib.Algebra.Order.BigOperators.Group.List
import Mathlib.Tactic.Ring
import Mathlib.Tactic.Linarith
import Verif.Common.NdArray

/-!
# Lemmas about shapes and indices
-/

namespace Glass.NdArray

/-- The indices of a shape are the lists of the same length with smaller entries. -/
theorem mem_indices {s idx : List ℕ} : idx ∈ indices s ↔ List.Forall₂ (· < ·) idx s := by
  induction s generalizing idx with
  | nil => simp [indices]
  | cons d s ih =>
    rw [indices, List.mem_flatMap]
    constructor
    · rintro ⟨i, hi, h⟩
      obtain ⟨l, hl, rfl⟩ := List.mem_map.1 h
      exact List.Forall₂.cons (List.mem_range.1 hi) (ih.1 hl)
    · intro h
      cases h with
      | cons h1 h2 => exact ⟨_, List.mem_range.2 h1, List.mem_map.2 ⟨_, ih.2 h2, rfl⟩⟩

theorem mem_indices_length {s idx : List ℕ} (h : idx ∈ indices s) : idx.length = s.length :=
  (mem_indices.1 h).length_eq

theorem mem_indices_append {s t idx : List ℕ} :
    idx ∈ indices (s ++ t) ↔ ∃ i ∈ indices s, ∃ j ∈ indices t, idx = i ++ j := by
  simp only [mem_indices]
  constructor
  · intro h
    obtain ⟨h1, h2⟩ : List.Forall₂ (· < ·) (idx.take s.length) s ∧
        List.Forall₂ (· < ·) (idx.drop s.length) t := by
      have h1 := List.forall₂_take s.length h
      have h2 := List.forall₂_drop s.length h
      rw [List.take_left'  rfl] at h1
      rw [List.drop_left'  rfl] at h2
      exact ⟨h1, h2⟩
    exact ⟨_, h1, _, h2, (List.take_append_drop _ _).symm⟩
  · rintro ⟨i, hi, j, hj, rfl⟩
    exact List.rel_append hi hj

theorem indices_nodup (s : List ℕ) : (indices s).Nodup := by
  induction s with
  | nil => simp [indices]
  | cons d s ih =>
    rw [indices, List.nodup_flatMap]
    refine ⟨fun i _ => ih.map fun a b h => by simpa using h, ?_⟩
    refine List.nodup_range.imp fun {a b} hab => ?_
    intro l h1 h2
    obtain ⟨l1, -, rfl⟩ := List.mem_map.1 h1
    obtain ⟨l2, -, h⟩ := List.mem_map.1 h2
    exact hab (List.cons.inj h).1.symm

theorem indices_length (s : List ℕ) : (indices s).length = s.prod := by
  induction s with
  | nil => simp [indices]
  | cons d s ih => simp [indices, List.length_flatMap, ih]

/-- An index of the shape itself is not changed by broadcasting. -/
theorem broadcastIndex_self {s idx : List ℕ} (h : idx ∈ indices s) :
    broadcastIndex s idx = idx := by
  replace h := mem_indices.1 h
  rw [broadcastIndex, h.length_eq, Nat.sub_self, List.drop_zero]
  induction h with
  | nil => rfl
  | @cons a b l₁ l₂ hab _ ih =>
    rw [List.zipWith_cons_cons, ih]
    split
    · congr 1; omega
    · rfl

theorem broadcastIndex_nil (idx : List ℕ) : broadcastIndex [] idx = [] := by
  simp [broadcastIndex]

theorem broadcastIndex_append {s t i j : List ℕ} (hj : j ∈ indices t)
    (hs : s.length ≤ i.length) :
    broadcastIndex (s ++ t) (i ++ j) = broadcastIndex s i ++ j := by
  have hl := mem_indices_length hj
  have e1 : (i ++ j).drop ((i ++ j).length - (s ++ t).length) =
      i.drop (i.length - s.length) ++ j := by
    rw [List.length_append, List.length_append, hl, Nat.add_sub_add_right,
      List.drop_append_of_le_length (by omega)]
  have e2 := broadcastIndex_self hj
  rw [broadcastIndex, hl, Nat.sub_self, List.drop_zero] at e2
  rw [broadcastIndex, e1, List.zipWith_append (by simp; omega), e2]
  rfl

/-! ## Broadcasting of shapes, with the axes listed from the last one -/

theorem broadcastDim_some {d e f : ℕ} (h : broadcastDim d e = some f) :
    (d = 1 ∨ d = f) ∧ (e = 1 ∨ e = f) ∧ (f = d ∨ f = e) := by
  unfold broadcastDim at h
  split_ifs at h <;> simp_all

theorem broadcastDim_none {d e : ℕ} (h : broadcastDim d e = none) : d ≠ e ∧ d ≠ 1 ∧ e ≠ 1 := by
  unfold broadcastDim at h
  split_ifs at h
  simp_all

theorem broadcastRev_nil (s : List ℕ) : broadcastRev s [] = some s := by
  cases s <;> rfl

theorem broadcastRev_some : ∀ {a b d : List ℕ}, broadcastRev a b = some d →
    d.length = max a.length b.length ∧
    (∀ (j n : ℕ), a[j]? = some n → n = 1 ∨ d[j]? = some n) ∧
    (∀ (j n : ℕ), b[j]? = some n → n = 1 ∨ d[j]? = some n) ∧
    ∀ (j n : ℕ), d[j]? = some n → a[j]? = some n ∨ b[j]? = some n
  | [], b, d, h => by
    obtain rfl : b = d := by simpa [broadcastRev] using h
    exact ⟨by simp, by simp, fun j n h => .inr h, fun j n h => .inr h⟩
  | x :: a, [], d, h => by
    obtain rfl : x :: a = d := by simpa [broadcastRev] using h
    exact ⟨by simp, fun j n h => .inr h, by simp, fun j n h => .inl h⟩
  | x :: a, y :: b, d, h => by
    rw [broadcastRev] at h
    rcases hf : broadcastDim x y with _ | f
    · simp [hf] at h
    rcases hu : broadcastRev a b with _ | u
    · simp [hf, hu] at h
    obtain rfl : f :: u = d := by simpa [hf, hu] using h
    obtain ⟨h1, h2, h3, h4⟩ := broadcastRev_some hu
    obtain ⟨g1, g2, g3⟩ := broadcastDim_some hf
    refine ⟨by simp [h1, Nat.succ_max_succ], ?_, ?_, ?_⟩
    · rintro (_ | j) n hn
      · simp only [List.getElem?_cons_zero, Option.some.injEq] at hn ⊢; omega
      · simpa using h2 j n (by simpa using hn)
    · rintro (_ | j) n hn
      · simp only [List.getElem?_cons_zero, Option.some.injEq] at hn ⊢; omega
      · simpa using h3 j n (by simpa using hn)
    · rintro (_ | j) n hn
      · simp only [List.getElem?_cons_zero, Option.some.injEq] at hn ⊢; omega
      · simpa using h4 j n (by simpa using hn)

theorem broadcastRev_none : ∀ {a b : List ℕ}, broadcastRev a b = none →
    ∃ j m n : ℕ, a[j]? = some m ∧ b[j]? = some n ∧ m ≠ n ∧ m ≠ 1 ∧ n ≠ 1
  | [], b, h => by simp [broadcastRev] at h
  | x :: a, [], h => by simp [broadcastRev] at h
  | x :: a, y :: b, h => by
    rw [broadcastRev] at h
    rcases hf : broadcastDim x y with _ | f
    · exact ⟨0, x, y, rfl, rfl, broadcastDim_none hf⟩
    rcases hu : broadcastRev a b with _ | u
    · obtain ⟨j, m, n, h1, h2, h3⟩ := broadcastRev_none hu
      exact ⟨j + 1, m, n, by simpa using h1, by simpa using h2, h3⟩
    · simp [hf, hu] at h

theorem broadcastRev_to : ∀ {a d : List ℕ}, a.length ≤ d.length →
    (∀ (j n : ℕ), a[j]? = some n → n = 1 ∨ d[j]? = some n) → broadcastRev a d = some d
  | [], d, _, _ => rfl
  | x :: a, [], h, _ => by simp at h
  | x :: a, y :: d, hl, h => by
    have ih := broadcastRev_to (a := a) (d := d) (by simpa using hl)
      fun j n hn => by simpa using h (j + 1) n (by simpa using hn)
    have h0 := h 0 x rfl
    simp only [List.getElem?_cons_zero, Option.some.injEq] at h0
    have : broadcastDim x y = some y := by
      unfold broadcastDim
      split_ifs
      all_goals simp_all
    rw [broadcastRev, this, ih]

/-! ## C order -/

/-- The position of an index among all indices. -/
theorem indices_flatIndex {s idx : List ℕ} (h : idx ∈ indices s) :
    (indices s)[flatIndex s idx]? = some idx ∧ flatIndex s idx < s.prod := by
  induction s generalizing idx with
  | nil => simp [indices] at h; subst h; simp [indices, flatIndex]
  | cons d s ih =>
    rw [indices, List.mem_flatMap] at h
    obtain ⟨i, hi, h⟩ := h
    obtain ⟨l, hl, rfl⟩ := List.mem_map.1 h
    obtain ⟨h1, h2⟩ := ih hl
    have hi := List.mem_range.1 hi
    have key : ∀ (n : ℕ) (r : List ℕ) (j : ℕ), r[j]? = some n →
        (r.flatMap fun i => (indices s).map (i :: ·))[j * s.prod + flatIndex s l]? =
          some (n :: l) := by
      intro n r
      induction r with
      | nil => intro j hj; simp at hj
      | cons a r ihr =>
        intro j hj
        rw [List.flatMap_cons]
        rcases j with _ | j
        · simp only [List.getElem?_cons_zero, Option.some.injEq] at hj
          subst hj
          rw [List.getElem?_append_left (by simpa [indices_length] using h2)]
          simp [h1]
        · simp only [List.getElem?_cons_succ] at hj
          rw [List.getElem?_append_right (by simp [indices_length]; nlinarith)]
          rw [← ihr j hj]
          congr 1
          simp only [List.length_map, indices_length]
          rw [Nat.succ_mul]; omega
    refine ⟨?_, ?_⟩
    · rw [flatIndex, indices]
      exact key i _ i (by simp [hi])
    · rw [flatIndex, List.prod_cons]
      calc i * s.prod + flatIndex s l < i * s.prod + s.prod := by omega
        _ = (i + 1) * s.prod := by ring
        _ ≤ d * s.prod := Nat.mul_le_mul_right _ hi

/-- The index of a position. -/
theorem unflatIndex_flatIndex {s idx : List ℕ} (h : idx ∈ indices s) :
    unflatIndex s (flatIndex s idx) = idx := by
  induction s generalizing idx with
  | nil => simp [indices] at h; subst h; rfl
  | cons d s ih =>
    rw [indices, List.mem_flatMap] at h
    obtain ⟨i, hi, h⟩ := h
    obtain ⟨l, hl, rfl⟩ := List.mem_map.1 h
    have h2 := (indices_flatIndex hl).2
    have hi := List.mem_range.1 hi
    rw [flatIndex, unflatIndex]
    have hp : 0 < s.prod := by omega
    rw [Nat.add_comm, Nat.add_mul_div_right _ _ hp, Nat.div_eq_of_lt h2, zero_add,
      Nat.mod_eq_of_lt hi, Nat.add_mul_mod_self_right, Nat.mod_eq_of_lt h2, ih hl]

/-- Every position has an index. -/
theorem exists_flatIndex {s : List ℕ} {k : ℕ} (h : k < s.prod) :
    ∃ idx ∈ indices s, flatIndex s idx = k ∧ unflatIndex s k = idx := by
  have hl : k < (indices s).length := by rw [indices_length]; exact h
  refine ⟨(indices s)[k], List.getElem_mem _, ?_⟩
  have h1 := indices_flatIndex (List.getElem_mem hl)
  have hlt : flatIndex s (indices s)[k] < (indices s).length := by
    rw [indices_length]; exact h1.2
  have e : flatIndex s (indices s)[k] = k := by
    have := h1.1
    rw [List.getElem?_eq_getElem hlt, Option.some.injEq] at this
    exact (List.Nodup.getElem_inj_iff (indices_nodup s)).1 this
  refine ⟨e, ?_⟩
  have := unflatIndex_flatIndex (List.getElem_mem hl)
  rwa [e] at this

/-- Reshaping keeps the entries in C order. -/
theorem reshape_ravel {α : Type} {a b : NdArray α} {shape : List ℕ}
    (h : reshape a shape = .ok b) : b.shape = shape ∧ b.ravel = a.ravel := by
  unfold reshape at h
  split_ifs at h with hs
  cases h
  refine ⟨rfl, ?_⟩
  have hs' : shape.prod = a.shape.prod := hs
  unfold ravel
  refine List.ext_getElem (by simp [indices_length, hs']) fun k h1 h2 => ?_
  simp only [List.getElem_map]
  have hk : k < shape.prod := by simpa [indices_length] using h1
  obtain ⟨idx, hi, e1, e2⟩ := exists_flatIndex hk
  obtain ⟨idx', hi', e1', e2'⟩ := exists_flatIndex (s := a.shape) (hs' ▸ hk)
  have g1 := (indices_flatIndex hi).1
  have g2 := (indices_flatIndex hi').1
  rw [e1, List.getElem?_eq_getElem (by rw [indices_length]; exact hk), Option.some.injEq] at g1
  rw [e1', List.getElem?_eq_getElem (by rw [indices_length, ← hs']; exact hk),
    Option.some.injEq] at g2
  rw [g1, g2, e1, e2']

/-- Concrete case: reshaping `(2, 3)` to `(3, 2)`. -/
example : ∃ b, reshape (⟨[2, 3], fun i => i⟩ : NdArray (List ℕ)) [3, 2] = .ok b ∧
    b.ravel = [[0, 0], [0, 1], [0, 2], [1, 0], [1, 1], [1, 2]] := ⟨_, rfl, by decide⟩

end Glass.NdArray
