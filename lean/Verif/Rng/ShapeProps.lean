import Verif.Arrays.FitLemmas
import Verif.Rng.Model

/-!
# Sample shapes (C77) and positions in pixels (C79)
-/

namespace Glass.Rng

open Glass Glass.Arrays

/-! ## Specification -/

/-- The shape that a size stands for. -/
def Size.toShape : Size → List ℕ
  | .int n => [n]
  | .tuple s => s

/-- The shape of the samples for inputs that broadcast to `b`: that of the inputs, if no size is
given, and otherwise the size, which must be that of the inputs unless they are scalar. -/
def IsSampleShape (size : Option Size) (b s : List ℕ) : Prop :=
  match size with
  | none => s = b
  | some t => s = t.toShape ∧ (b = [] ∨ b = t.toShape)

/-! ## Lemmas -/

theorem isBroadcast_nil {ss : List (List ℕ)} (h : ∀ s ∈ ss, s = []) : IsBroadcast ss [] :=
  ⟨fun s hs => by simp [h s hs], fun s hs j n hn => by simp [h s hs] at hn, by simp⟩

theorem shape_eq {bcast : List (List ℕ)} {b : List ℕ} (hb : IsBroadcast bcast b)
    (size : Option Size) : shape size bcast = match size with
      | none => .ok b
      | some t => if b ≠ [] ∧ t.toShape ≠ b then
          .error (.value "shape is incompatible with input shapes") else .ok t.toShape := by
  have h : (if bcast = [] then (.ok [] : Except Err (List ℕ)) else broadcastAll bcast) = .ok b := by
    split_ifs with he
    · subst he
      rw [IsBroadcast.unique hb (isBroadcast_nil (by simp))]
    · exact ((broadcastAll_spec bcast).1 b).2 hb
  unfold shape
  rw [h]
  rcases size with _ | t
  · rfl
  · cases t <;> rfl

/-! ## Property theorems: shapes -/

/-- **C77**: the shape is the one specified; if there is none, `ValueError` is raised. -/
theorem shape_spec {bcast : List (List ℕ)} {b : List ℕ} (hb : IsBroadcast bcast b)
    (size : Option Size) :
    (∀ s, shape size bcast = .ok s ↔ IsSampleShape size b s) ∧
    ((∃ msg, shape size bcast = .error (.value msg)) ↔ ¬ ∃ s, IsSampleShape size b s) := by
  rw [shape_eq hb]
  rcases size with _ | t
  · simp [IsSampleShape, eq_comm]
  · simp only [IsSampleShape]
    by_cases h : b ≠ [] ∧ t.toShape ≠ b
    · rw [if_pos h]
      refine ⟨fun s => ⟨fun h' => by simp at h', ?_⟩, ⟨fun _ => ?_, fun _ => ⟨_, rfl⟩⟩⟩
      · rintro ⟨rfl, h1 | h1⟩
        · exact absurd h1 h.1
        · exact absurd h1.symm h.2
      · rintro ⟨s, rfl, h1 | h1⟩
        · exact h.1 h1
        · exact h.2 h1.symm
    · rw [if_neg h]
      have h' : b = [] ∨ b = t.toShape := by
        by_cases hb : b = []
        · exact .inl hb
        · right
          by_contra hc
          exact h ⟨hb, fun e => hc e.symm⟩
      refine ⟨fun s => ⟨fun e => ⟨by simpa using e.symm, h'⟩, fun e => by simp [e.1]⟩, ?_⟩
      refine ⟨?_, fun hn => absurd ⟨t.toShape, rfl, h'⟩ hn⟩
      rintro ⟨msg, hm⟩
      cases hm

/-- **C77**: inputs that do not broadcast raise `ValueError`, whatever the size. -/
theorem shape_incompatible {bcast : List (List ℕ)} (hb : ¬ ∃ b, IsBroadcast bcast b)
    (size : Option Size) : ∃ msg, shape size bcast = .error (.value msg) := by
  have hne : bcast ≠ [] := by
    rintro rfl
    exact hb ⟨[], isBroadcast_nil (by simp)⟩
  obtain ⟨r, hr⟩ := (broadcastAll_spec bcast).2.2 hb
  exact ⟨r, by simp [shape, hne, hr]⟩

theorem shape_error {size : Option Size} {bcast : List (List ℕ)} {e : Err}
    (h : shape size bcast = .error e) : ∃ msg, e = .value msg := by
  by_cases hb : ∃ b, IsBroadcast bcast b
  · obtain ⟨b, hb⟩ := hb
    by_cases hs : ∃ s, IsSampleShape size b s
    · obtain ⟨s, hs⟩ := hs
      rw [((shape_spec hb size).1 s).2 hs] at h
      cases h
    · obtain ⟨msg, hm⟩ := (shape_spec hb size).2.2 hs
      rw [hm] at h
      exact ⟨msg, by cases h; rfl⟩
  · obtain ⟨msg, hm⟩ := shape_incompatible hb size
    rw [hm] at h
    exact ⟨msg, by cases h; rfl⟩

/-- The shapes that are broadcast by a sampling method other than `multinomial`. -/
def Call.inputs : Call → Option (List (List ℕ))
  | .random => some []
  | .standardNormal => some []
  | .normal loc scale => some [loc, scale]
  | .poisson lam => some [lam]
  | .uniform low high => some [low, high]
  | .multinomial _ _ => none

/-- `loc + scale * x` has the shape of `x`. -/
theorem normal_shape {size : Option Size} {b s loc scale : List ℕ}
    (hb : IsBroadcast [loc, scale] b) (hs : IsSampleShape size b s) :
    broadcastAll [loc, scale, s] = .ok s := by
  refine ((broadcastAll_spec _).1 s).2 ?_
  have hbs : Fits b s := by
    rcases size with _ | t
    · rw [show s = b from hs]; exact Fits.refl _
    · obtain ⟨h1, h2 | h2⟩ := hs
      · rw [h2]; exact Fits.nil _
      · rw [h1, h2]; exact Fits.refl _
  have h1 := (hb.fits (s := loc) (by simp)).trans hbs
  have h2 := (hb.fits (s := scale) (by simp)).trans hbs
  refine ⟨?_, ?_, fun j n hn => ⟨s, by simp, hn⟩⟩
  · intro u hu
    simp only [List.mem_cons, List.not_mem_nil, or_false] at hu
    rcases hu with rfl | rfl | rfl
    · exact h1.1
    · exact h2.1
    · exact le_rfl
  · intro u hu
    simp only [List.mem_cons, List.not_mem_nil, or_false] at hu
    rcases hu with rfl | rfl | rfl
    · exact h1.2
    · exact h2.2
    · exact (Fits.refl _).2

/-- **C77**: the samples have the specified shape, and are drawn with a key that was split off the
key of the generator, which changes. -/
theorem call_spec (k : Key) {c : Call} {ins : List (List ℕ)} (hc : c.inputs = some ins)
    {b : List ℕ} (hb : IsBroadcast ins b) {size : Option Size} {s : List ℕ}
    (hs : IsSampleShape size b s) : call k size c = (k ++ [0], .ok (k ++ [1], s)) := by
  have h := ((shape_spec hb size).1 s).2 hs
  cases c with
  | multinomial n p => simp [Call.inputs] at hc
  | normal loc scale =>
    obtain rfl : [loc, scale] = ins := by simpa [Call.inputs] using hc
    simp [call, advance, splitKey, List.range_succ_eq_map, h, Except.bind, normal_shape hb hs,
      Except.map]
  | _ =>
    simp only [Call.inputs, Option.some.injEq] at hc
    subst hc
    simp [call, advance, splitKey, List.range_succ_eq_map, h, Except.map]

/-- **C77**: a size that does not match raises `ValueError`; the key of the generator changes
nevertheless. -/
theorem call_rejects (k : Key) {c : Call} {ins : List (List ℕ)} (hc : c.inputs = some ins)
    {size : Option Size}
    (hs : ¬ ∃ b s, IsBroadcast ins b ∧ IsSampleShape size b s) :
    ∃ msg, call k size c = (k ++ [0], .error (.value msg)) := by
  have h : ∃ msg, shape size ins = .error (.value msg) := by
    by_cases hb : ∃ b, IsBroadcast ins b
    · obtain ⟨b, hb⟩ := hb
      exact (shape_spec hb size).2.2 fun ⟨s, h⟩ => hs ⟨b, s, hb, h⟩
    · exact shape_incompatible hb size
  obtain ⟨msg, h⟩ := h
  refine ⟨msg, ?_⟩
  cases c with
  | multinomial n p => simp [Call.inputs] at hc
  | _ =>
    simp only [Call.inputs, Option.some.injEq] at hc
    subst hc
    simp [call, advance, splitKey, List.range_succ_eq_map, h, Except.map, Except.bind]

/-- **C77**: `multinomial` of scalar probabilities, or of batch dimensions that do not broadcast,
raises and leaves the key as it is. -/
theorem multinomial_rejects (k : Key) (n : List ℕ) (size : Option Size) :
    call k size (.multinomial n []) = (k, .error .index) ∧
    ∀ (batch : List ℕ) (p : ℕ), (¬ ∃ b, IsBroadcast [n, batch] b) →
      ∃ msg, call k size (.multinomial n (batch ++ [p])) = (k, .error (.value msg)) := by
  refine ⟨rfl, fun batch p hb => ?_⟩
  obtain ⟨msg, h⟩ := shape_incompatible hb size
  refine ⟨msg, ?_⟩
  simp only [call, List.getLast?_append, List.getLast?_singleton, List.dropLast_concat, h]
  rfl

/-- **C77**: for `multinomial`, the rule is for the batch dimensions, and the axis of the categories
comes last.  A rejected call does not change the key. -/
theorem multinomial_spec (k : Key) {n batch : List ℕ} (p : ℕ) {b : List ℕ}
    (hb : IsBroadcast [n, batch] b) (size : Option Size) :
    (∀ s, IsSampleShape size b s →
      call k size (.multinomial n (batch ++ [p])) = (k ++ [0], .ok (k ++ [1], s ++ [p]))) ∧
    ((¬ ∃ s, IsSampleShape size b s) →
      ∃ msg, call k size (.multinomial n (batch ++ [p])) = (k, .error (.value msg))) := by
  constructor
  · intro s hs
    have h := ((shape_spec hb size).1 s).2 hs
    simp only [call, List.getLast?_append, List.getLast?_singleton, List.dropLast_concat, h]
    by_cases hs0 : s = []
    · have hb0 : b = [] := by
        rcases size with _ | t
        · rw [← hs0]; exact Eq.symm hs
        · rcases hs.2 with h2 | h2
          · exact h2
          · rw [h2, ← hs.1, hs0]
      have hl := hb.1 batch (by simp)
      rw [hb0] at hl
      have hbatch : batch = [] := by simpa using hl
      simp [hs0, hbatch, advance, splitKey, List.range_succ_eq_map]
    · simp [hs0, advance, splitKey, List.range_succ_eq_map]
  · intro hs
    obtain ⟨msg, h⟩ := (shape_spec hb size).2.2 hs
    refine ⟨msg, ?_⟩
    simp only [call, List.getLast?_append, List.getLast?_singleton, List.dropLast_concat, h]
    rfl

/-- Concrete cases: a size for scalar inputs, and one that does not match. -/
example : IsSampleShape (some (.int 5)) [] [5] ∧
    ¬ ∃ s, IsSampleShape (some (.tuple [5, 3])) [3] s := by
  refine ⟨⟨rfl, .inl rfl⟩, ?_⟩
  rintro ⟨s, -, h | h⟩
  · simp at h
  · simp [Size.toShape] at h

/-! ## Property theorems: positions -/

/-- C79 is false: the positions do not depend on the generator that the user passes, beyond the
pixels that were drawn.  Two batches of points with the same pixels are at the same positions,
whatever generators, populations and runs they come from. -/
theorem positions_ignore_generator {σ π ι ι' : Type} (seeded : ℕ → σ)
    (external : σ → ℕ → List ℕ → List π × σ) (nside : ℕ)
    {run : List (Points.Batch ι)} {run' : List (Points.Batch ι')} {i j : ℕ}
    {b : Points.Batch ι} {b' : Points.Batch ι'} (hi : run[i]? = some b) (hj : run'[j]? = some b')
    (h : b.ipix = b'.ipix) :
    ∃ x, (batchPositions seeded external nside run)[i]? = some x ∧
      (batchPositions seeded external nside run')[j]? = some x := by
  refine ⟨randang seeded external nside b.ipix, ?_, ?_⟩
  · simp [batchPositions, hi]
  · simp [batchPositions, hj, h]

/-- What `healpix.randang` does: it draws two numbers for each point, and places the point in its
pixel with them. -/
def Places {σ π : Type} (draw : σ → ℕ → List (ℝ × ℝ)) (place : ℕ → ℕ → ℝ × ℝ → π)
    (external : σ → ℕ → List ℕ → List π × σ) : Prop :=
  ∀ s nside ipix, (external s nside ipix).1 =
    List.zipWith (place nside) ipix (draw s ipix.length)

/-- C79 is false: the places inside the pixels are the same in all batches of the same size. -/
theorem offsets_repeat {σ π : Type} (seeded : ℕ → σ) {external : σ → ℕ → List ℕ → List π × σ}
    {draw : σ → ℕ → List (ℝ × ℝ)} {place : ℕ → ℕ → ℝ × ℝ → π} (h : Places draw place external)
    (n : ℕ) : ∃ uv : List (ℝ × ℝ), ∀ (nside : ℕ) (ipix : List ℕ), ipix.length = n →
      randang seeded external nside ipix = List.zipWith (place nside) ipix uv :=
  ⟨draw (seeded 42) n, fun nside ipix hl => by rw [randang, h, hl]⟩

/-- C79 is false, concretely: two populations with the same numbers of points in all pixels have all
their points at the same positions. -/
theorem populations_coincide {σ π τ : Type} (seeded : ℕ → σ)
    (external : σ → ℕ → List ℕ → List π × σ) (nside : ℕ) (s : τ) :
    ∃ (poisson : τ → List ℝ → List ℕ × τ) (run : List (Points.Batch Bool)),
      Points.positionsFromDelta poisson (fun _ : Bool => 1) (fun _ => [0]) none none
        (fun d b => d.map (b * ·)) false 1 [false, true] s = (run, none) ∧
      (∃ x, batchPositions seeded external nside run = [x, x]) ∧
      run.map Points.Batch.pop = [false, true] := by
  refine ⟨fun s _ => ([1], s), [⟨false, [0], fun j => if j = false then 1 else 0⟩,
    ⟨true, [0], fun j => if j = true then 1 else 0⟩], ?_, ⟨_, rfl⟩, rfl⟩
  have h1 : Points.sampleGalaxiesPerPixel [1] 1 = ([[0]], none) := by decide
  simp [Points.positionsFromDelta, Points.sampleNumberGalaxies, h1]

end Glass.Rng
