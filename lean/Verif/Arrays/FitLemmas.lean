import Verif.Arrays.BroadcastProps

/-!
# Shapes that fit into others
-/

namespace Glass.Arrays

open Glass NdArray

/-- The shape `s` can be stretched to the shape `d`. -/
def Fits (s d : List ℕ) : Prop :=
  s.length ≤ d.length ∧ ∀ j n : ℕ, s.reverse[j]? = some n → n = 1 ∨ d.reverse[j]? = some n

/-- The entry of an array that belongs to an index of a larger shape. -/
def entry {α : Type} (a : NdArray α) (idx : List ℕ) : α := a.get (broadcastIndex a.shape idx)

theorem Fits.refl (s : List ℕ) : Fits s s := ⟨le_rfl, fun _ _ h => .inr h⟩

theorem Fits.nil (s : List ℕ) : Fits [] s := ⟨by simp, by simp⟩

theorem Fits.trans {s t u : List ℕ} (h : Fits s t) (h' : Fits t u) : Fits s u :=
  ⟨h.1.trans h'.1, fun j n hn => (h.2 j n hn).elim .inl fun ht => h'.2 j n ht⟩

theorem Fits.antisymm {s t : List ℕ} (h : Fits s t) (h' : Fits t s) : s = t := by
  have hl := le_antisymm h.1 h'.1
  rw [← List.reverse_inj]
  refine List.ext_getElem? fun j => ?_
  rcases hs : s.reverse[j]? with _ | n
  · symm
    rw [List.getElem?_eq_none_iff] at hs ⊢
    simpa [← hl] using hs
  · rcases h.2 j n hs with h1 | h1
    · obtain ⟨hlt, -⟩ := List.getElem?_eq_some_iff.1 hs
      have ht : t.reverse[j]? = some (t.reverse[j]'(by simp at hlt ⊢; omega)) :=
        List.getElem?_eq_getElem _
      rcases h'.2 j _ ht with h2 | h2
      · rw [ht, h2, h1]
      · rw [ht, ← h2, hs]
    · exact h1.symm

theorem IsBroadcast.fits {ss : List (List ℕ)} {d s : List ℕ} (h : IsBroadcast ss d) (hs : s ∈ ss) :
    Fits s d := ⟨h.1 s hs, h.2.1 s hs⟩

/-- The broadcast shape is the smallest one into which all shapes fit. -/
theorem IsBroadcast.least {ss : List (List ℕ)} {d e : List ℕ} (h : IsBroadcast ss d)
    (he : ∀ s ∈ ss, Fits s e) : Fits d e := by
  refine ⟨?_, ?_⟩
  · by_contra hc
    have hlt : d.length - 1 < d.reverse.length := by simp; omega
    obtain ⟨s, hs, hj⟩ := h.2.2 (d.length - 1) _ (List.getElem?_eq_getElem hlt)
    obtain ⟨hlt', -⟩ := List.getElem?_eq_some_iff.1 hj
    have := (he s hs).1
    simp at hlt'
    omega
  · intro j n hn
    obtain ⟨s, hs, hj⟩ := h.2.2 j n hn
    exact (he s hs).2 j n hj

theorem fits_mem_indices {s d idx : List ℕ} (h : Fits s d) (hi : idx ∈ indices d) :
    broadcastIndex s idx ∈ indices s := (broadcastIndex_spec h.1 h.2 hi).1

/-- Stretching in two steps. -/
theorem broadcastIndex_trans {s t d idx : List ℕ} (h : Fits s t) (h' : Fits t d)
    (hi : idx ∈ indices d) : broadcastIndex s (broadcastIndex t idx) = broadcastIndex s idx := by
  obtain ⟨h1, h2⟩ := broadcastIndex_spec h'.1 h'.2 hi
  obtain ⟨h3, h4⟩ := broadcastIndex_spec h.1 h.2 h1
  obtain ⟨h5, h6⟩ := broadcastIndex_spec (h.trans h').1 (h.trans h').2 hi
  have l1 := mem_indices_length h1
  have l3 := mem_indices_length h3
  have l5 := mem_indices_length h5
  have li := mem_indices_length hi
  have hst := h.1
  have htd := h'.1
  rw [← List.reverse_inj]
  refine List.ext_getElem (by simp [l3, l5]) fun j hj1 hj2 => ?_
  have hjs : j < s.length := by simpa [l3] using hj1
  have es : s.reverse[j]? = some (s.reverse[j]'(by simpa using hjs)) := List.getElem?_eq_getElem _
  have et : t.reverse[j]? = some (t.reverse[j]'(by simp; omega)) := List.getElem?_eq_getElem _
  have ei : idx.reverse[j]? = some (idx.reverse[j]'(by simp; omega)) := List.getElem?_eq_getElem _
  have e1 := h2 j _ _ et ei
  have e2 := h4 j _ _ es e1
  have e3 := h6 j _ _ es ei
  have : (broadcastIndex s (broadcastIndex t idx)).reverse[j]? =
      (broadcastIndex s idx).reverse[j]? := by
    rw [e2, e3]
    congr 1
    split_ifs with c1 c2
    · rfl
    · rcases h.2 j _ es with h7 | h7
      · exact absurd h7 c1
      · rw [et] at h7
        exact absurd (by rw [← Option.some.inj h7]; exact c2) c1
    · rfl
  rw [List.getElem?_eq_getElem hj1, List.getElem?_eq_getElem hj2] at this
  exact Option.some.inj this

theorem isBroadcast_pair {a b c : List ℕ} : broadcastShapes a b = some c ↔ IsBroadcast [a, b] c := by
  have h0 : IsBroadcast [a] a := ⟨by simp, fun s hs j n hn => by
    have : s = a := by simpa using hs
    subst this; exact .inr hn, fun j n hn => ⟨a, by simp, hn⟩⟩
  obtain ⟨h1, h2⟩ := isBroadcast_snoc (s := b) h0
  refine ⟨fun h => by simpa using h1 c h, fun h => ?_⟩
  rcases hc : broadcastShapes a b with _ | d
  · exact absurd h (by simpa using h2 hc [] c)
  · have := h1 d hc
    have e : d = c := IsBroadcast.unique (ss := [a, b]) (by simpa using this) h
    rw [e]

/-- An elementwise operation stretches the arrays. -/
theorem map₂_ok {α β γ : Type} {f : α → β → γ} {a : NdArray α} {b : NdArray β} {c : NdArray γ}
    (h : NdArray.map₂ f a b = .ok c) : IsBroadcast [a.shape, b.shape] c.shape ∧
    ∀ d, Fits c.shape d → ∀ idx ∈ indices d, entry c idx = f (entry a idx) (entry b idx) := by
  unfold NdArray.map₂ at h
  rcases hs : broadcastShapes a.shape b.shape with _ | s
  · rw [hs] at h; cases h
  · rw [hs] at h
    cases h
    have hb := isBroadcast_pair.1 hs
    refine ⟨hb, fun d hd idx hi => ?_⟩
    have e1 := broadcastIndex_trans (hb.fits (s := a.shape) (by simp)) hd hi
    have e2 := broadcastIndex_trans (hb.fits (s := b.shape) (by simp)) hd hi
    show f _ _ = _
    rw [entry, entry, ← e1, ← e2]

/-- An elementwise operation raises `ValueError` exactly if the shapes do not fit. -/
theorem map₂_error {α β γ : Type} {f : α → β → γ} {a : NdArray α} {b : NdArray β} {e : Err}
    (h : NdArray.map₂ f a b = .error e) : (∃ r, e = .value r) ∧
      ¬ ∃ d, IsBroadcast [a.shape, b.shape] d := by
  unfold NdArray.map₂ at h
  rcases hs : broadcastShapes a.shape b.shape with _ | s
  · rw [hs] at h
    cases h
    refine ⟨⟨_, rfl⟩, fun ⟨d, hd⟩ => ?_⟩
    rw [isBroadcast_pair.2 hd] at hs
    cases hs
  · rw [hs] at h; cases h

/-- The entry at an index of the shape itself. -/
theorem entry_self {α : Type} {a : NdArray α} {idx : List ℕ} (h : idx ∈ indices a.shape) :
    entry a idx = a.get idx := by rw [entry, broadcastIndex_self h]

/-- A broadcast is not changed by replacing two shapes by their broadcast. -/
theorem IsBroadcast.merge {a b c d e : List ℕ} (h1 : IsBroadcast [a, b] d)
    (h2 : IsBroadcast [d, c] e) : IsBroadcast [a, b, c] e := by
  refine ⟨?_, ?_, ?_⟩
  · intro s hs
    simp only [List.mem_cons, List.not_mem_nil, or_false] at hs
    rcases hs with rfl | rfl | rfl
    · exact ((h1.fits (by simp)).trans (h2.fits (by simp))).1
    · exact ((h1.fits (by simp)).trans (h2.fits (by simp))).1
    · exact (h2.fits (by simp)).1
  · intro s hs
    simp only [List.mem_cons, List.not_mem_nil, or_false] at hs
    rcases hs with rfl | rfl | rfl
    · exact ((h1.fits (by simp)).trans (h2.fits (by simp))).2
    · exact ((h1.fits (by simp)).trans (h2.fits (by simp))).2
    · exact (h2.fits (by simp)).2
  · intro j n hn
    obtain ⟨s, hs, hj⟩ := h2.2.2 j n hn
    simp only [List.mem_cons, List.not_mem_nil, or_false] at hs
    rcases hs with rfl | rfl
    · obtain ⟨s, hs, hj⟩ := h1.2.2 j n hj
      simp only [List.mem_cons, List.not_mem_nil, or_false] at hs
      rcases hs with rfl | rfl
      · exact ⟨_, by simp, hj⟩
      · exact ⟨_, by simp, hj⟩
    · exact ⟨_, by simp, hj⟩

theorem map₂_total {α β γ : Type} (f : α → β → γ) {a : NdArray α} {b : NdArray β} {d : List ℕ}
    (h : IsBroadcast [a.shape, b.shape] d) : ∃ c, NdArray.map₂ f a b = .ok c ∧ c.shape = d := by
  unfold NdArray.map₂
  rw [isBroadcast_pair.2 h]
  exact ⟨_, rfl, rfl⟩

/-- Shapes that fit into a common shape have a broadcast. -/
theorem exists_isBroadcast {a b d : List ℕ} (ha : Fits a d) (hb : Fits b d) :
    ∃ c, IsBroadcast [a, b] c := by
  rcases hc : broadcastShapes a b with _ | c
  · have hn : broadcastRev a.reverse b.reverse = none := by simpa [broadcastShapes] using hc
    obtain ⟨j, m, n, h1, h2, h3, h4, h5⟩ := broadcastRev_none hn
    have e1 := (ha.2 j m h1).resolve_left h4
    have e2 := (hb.2 j n h2).resolve_left h5
    rw [e1] at e2
    exact absurd (Option.some.inj e2) h3
  · exact ⟨c, isBroadcast_pair.1 hc⟩

/-- A shape is its own broadcast. -/
theorem isBroadcast_same (s : List ℕ) : IsBroadcast [s, s] s :=
  ⟨by simp, fun t ht _ _ hn => by
    have : t = s := by simpa using ht
    exact .inr (this ▸ hn), fun _ _ hn => ⟨s, by simp, hn⟩⟩

end Glass.Arrays
