import Verif.Arrays.Model
import Verif.Common.NdLemmas

/-!
# Broadcasting of leading axes (C78)
-/

namespace Glass.Arrays

open Glass NdArray

/-! ## Specification -/

/-- `d` is the broadcast of the shapes `ss`: it is as long as the longest of them; counting axes
from the last one, every shape has either length 1 or the same length as `d` along its axes; and
every length of `d` is that of some shape. -/
def IsBroadcast (ss : List (List ℕ)) (d : List ℕ) : Prop :=
  (∀ s ∈ ss, s.length ≤ d.length) ∧
  (∀ s ∈ ss, ∀ j n : ℕ, s.reverse[j]? = some n → n = 1 ∨ d.reverse[j]? = some n) ∧
  ∀ j n : ℕ, d.reverse[j]? = some n → ∃ s ∈ ss, s.reverse[j]? = some n

/-- The broadcast shape is unique. -/
theorem IsBroadcast.unique {ss : List (List ℕ)} {d d' : List ℕ} (h : IsBroadcast ss d)
    (h' : IsBroadcast ss d') : d = d' := by
  have key : ∀ {e e' : List ℕ}, IsBroadcast ss e → IsBroadcast ss e' → ∀ j n : ℕ,
      e.reverse[j]? = some n → n ≠ 1 → e'.reverse[j]? = some n := by
    intro e e' he he' j n hn h1
    obtain ⟨s, hs, hsn⟩ := he.2.2 j n hn
    exact (he'.2.1 s hs j n hsn).resolve_left h1
  have len : ∀ {e e' : List ℕ}, IsBroadcast ss e → IsBroadcast ss e' → e.length ≤ e'.length := by
    intro e e' he he'
    by_contra hc
    obtain ⟨s, hs, hsn⟩ := he.2.2 e'.length (e.reverse[e'.length]'(by simp; omega))
      (List.getElem?_eq_getElem (by simp; omega))
    obtain ⟨hlt, -⟩ := List.getElem?_eq_some_iff.1 hsn
    have := he'.1 s hs
    simp at hlt; omega
  have hl : d.length = d'.length := le_antisymm (len h h') (len h' h)
  rw [← List.reverse_inj]
  refine List.ext_getElem? fun j => ?_
  rcases hj : d.reverse[j]? with _ | n
  · symm
    rw [List.getElem?_eq_none_iff] at hj ⊢
    simpa [← hl] using hj
  · by_cases h1 : n = 1
    · rcases hj' : d'.reverse[j]? with _ | m
      · rw [List.getElem?_eq_none_iff] at hj'
        obtain ⟨hlt, -⟩ := List.getElem?_eq_some_iff.1 hj
        simp at hj' hlt; omega
      · by_cases h2 : m = 1
        · rw [h1, h2]
        · have := key h' h j m hj' h2
          rw [hj] at this; rw [this]
    · exact (key h h' j n hj h1).symm

/-- One step of broadcasting. -/
theorem isBroadcast_snoc {ss : List (List ℕ)} {acc s : List ℕ} (h : IsBroadcast ss acc) :
    (∀ d, broadcastShapes acc s = some d → IsBroadcast (ss ++ [s]) d) ∧
    (broadcastShapes acc s = none → ∀ ts d, ¬ IsBroadcast (ss ++ s :: ts) d) := by
  constructor
  · intro d hd
    obtain ⟨u, hu, rfl⟩ : ∃ u, broadcastRev acc.reverse s.reverse = some u ∧ u.reverse = d := by
      simpa [broadcastShapes] using hd
    obtain ⟨h1, h2, h3, h4⟩ := broadcastRev_some hu
    simp only [List.length_reverse] at h1
    refine ⟨?_, ?_, ?_⟩
    · intro t ht
      simp only [List.length_reverse]
      rcases List.mem_append.1 ht with ht | ht
      · have := h.1 t ht; omega
      · have : t = s := by simpa using ht
        subst this; omega
    · intro t ht j n hn
      rw [List.reverse_reverse]
      rcases List.mem_append.1 ht with ht | ht
      · rcases h.2.1 t ht j n hn with h5 | h5
        · exact .inl h5
        · exact h2 j n h5
      · have : t = s := by simpa using ht
        subst this
        exact h3 j n hn
    · intro j n hn
      rw [List.reverse_reverse] at hn
      rcases h4 j n hn with h5 | h5
      · obtain ⟨t, ht, ht'⟩ := h.2.2 j n h5
        exact ⟨t, List.mem_append_left _ ht, ht'⟩
      · exact ⟨s, by simp, h5⟩
  · intro hn ts d hd
    have hn' : broadcastRev acc.reverse s.reverse = none := by simpa [broadcastShapes] using hn
    obtain ⟨j, m, n, h1, h2, h3, h4, h5⟩ := broadcastRev_none hn'
    obtain ⟨t, ht, ht'⟩ := h.2.2 j m h1
    have e1 := (hd.2.1 t (List.mem_append_left _ ht) j m ht').resolve_left h4
    have e2 := (hd.2.1 s (by simp) j n h2).resolve_left h5
    rw [e1] at e2
    exact h3 (by simpa using e2)

/-- Broadcasting of a list of shapes computes the broadcast shape, and fails exactly if there is
none. -/
theorem broadcastAll_spec (ss : List (List ℕ)) :
    (∀ d, broadcastAll ss = .ok d ↔ IsBroadcast ss d) ∧
    ((∃ r, broadcastAll ss = .error (.value r)) ↔ ¬ ∃ d, IsBroadcast ss d) := by
  have key : ∀ (ts ss : List (List ℕ)) (acc : List ℕ), IsBroadcast ss acc →
      (∀ d, ts.foldlM broadcastShapes acc = some d → IsBroadcast (ss ++ ts) d) ∧
      (ts.foldlM broadcastShapes acc = none → ∀ d, ¬ IsBroadcast (ss ++ ts) d) := by
    intro ts
    induction ts with
    | nil =>
      intro ss acc h
      simp only [List.foldlM_nil, List.append_nil]
      exact ⟨fun d hd => by cases hd; exact h, fun hd => by cases hd⟩
    | cons s ts ih =>
      intro ss acc h
      obtain ⟨h1, h2⟩ := isBroadcast_snoc (s := s) h
      rw [List.foldlM_cons]
      rcases hs : broadcastShapes acc s with _ | u
      · exact ⟨fun d hd => by simp at hd, fun _ d => h2 hs ts d⟩
      · have := ih (ss ++ [s]) u (h1 u hs)
        rw [List.append_assoc, List.singleton_append] at this
        exact this
  have h0 : IsBroadcast [] [] := ⟨by simp, by simp, by simp⟩
  obtain ⟨k1, k2⟩ := key ss [] [] h0
  rw [List.nil_append] at k1 k2
  unfold broadcastAll
  rcases hr : ss.foldlM broadcastShapes [] with _ | d
  · have hno := k2 hr
    refine ⟨fun d => ⟨fun h => (by cases h), fun h => absurd h (hno d)⟩, ?_⟩
    exact ⟨fun _ h => (by obtain ⟨d, hd⟩ := h; exact hno d hd), fun _ => ⟨"shape mismatch", rfl⟩⟩
  · have hd := k1 d hr
    refine ⟨fun e => ⟨fun h => (by cases h; exact hd), fun h => (by rw [hd.unique h])⟩, ?_⟩
    exact ⟨fun h => (by obtain ⟨_, h⟩ := h; cases h), fun h => absurd ⟨d, hd⟩ h⟩

theorem mapM_ok {α β : Type} {f : α → Except Err β} {g : α → β} :
    ∀ {l : List α}, (∀ x ∈ l, f x = .ok (g x)) → l.mapM f = .ok (l.map g)
  | [], _ => rfl
  | x :: l, h => by
    rw [List.mapM_cons, h x (by simp), mapM_ok fun y hy => h y (List.mem_cons_of_mem _ hy)]
    rfl

theorem broadcastTo_ok {α : Type} {a : NdArray α} {d : List ℕ} (hl : a.shape.length ≤ d.length)
    (h : ∀ j n : ℕ, a.shape.reverse[j]? = some n → n = 1 ∨ d.reverse[j]? = some n) :
    broadcastTo a d = .ok ⟨d, fun i => a.get (broadcastIndex a.shape i)⟩ := by
  have : broadcastShapes a.shape d = some d := by
    rw [broadcastShapes, broadcastRev_to (by simpa using hl) h]; simp
  rw [broadcastTo, if_pos this]

/-- The broadcast index is an index of the original shape, and it is the given index along the
axes that are not of length one, counted from the last axis. -/
theorem broadcastIndex_spec {s d : List ℕ} (hl : s.length ≤ d.length)
    (h : ∀ j n : ℕ, s.reverse[j]? = some n → n = 1 ∨ d.reverse[j]? = some n)
    {idx : List ℕ} (hi : idx ∈ indices d) :
    broadcastIndex s idx ∈ indices s ∧
    ∀ j n k : ℕ, s.reverse[j]? = some n → idx.reverse[j]? = some k →
      (broadcastIndex s idx).reverse[j]? = some (if n = 1 then 0 else k) := by
  have hlen := mem_indices_length hi
  have hd : (idx.drop (idx.length - s.length)).length = s.length := by simp; omega
  have e : (broadcastIndex s idx).reverse = List.zipWith (fun d k => if d = 1 then 0 else k)
      s.reverse (idx.reverse.take s.length) := by
    rw [broadcastIndex, List.reverse_zipWith (by rw [hd])]
    congr 1
    rw [List.reverse_drop]
    congr 1
    omega
  have hval : ∀ j n k : ℕ, s.reverse[j]? = some n → idx.reverse[j]? = some k →
      (broadcastIndex s idx).reverse[j]? = some (if n = 1 then 0 else k) := by
    intro j n k hn hk
    obtain ⟨hlt, -⟩ := List.getElem?_eq_some_iff.1 hn
    rw [e, List.getElem?_zipWith, hn, List.getElem?_take, if_pos (by simpa using hlt), hk]
  refine ⟨?_, hval⟩
  rw [mem_indices, ← List.forall₂_reverse_iff, List.forall₂_iff_get]
  have hbl : (broadcastIndex s idx).length = s.length := by simp [broadcastIndex]; omega
  refine ⟨by simp [hbl], fun j h1 h2 => ?_⟩
  have hj : j < s.length := by simpa using h2
  have hn : s.reverse[j]? = some (s.reverse[j]'h2) := List.getElem?_eq_getElem _
  have hk : idx.reverse[j]? = some (idx.reverse[j]'(by simp; omega)) := List.getElem?_eq_getElem _
  have := hval j _ _ hn hk
  rw [List.getElem?_eq_getElem h1] at this
  simp only [List.get_eq_getElem]
  rw [Option.some.inj this]
  split_ifs with h1'
  · rw [h1']; exact Nat.one_pos
  · have hdn := (h j _ hn).resolve_left h1'
    have hf := List.forall₂_reverse_iff.2 (mem_indices.1 hi)
    rw [List.forall₂_iff_get] at hf
    have hjd : j < d.reverse.length := by simp; omega
    have := hf.2 j (by simp; omega) hjd
    rw [List.getElem?_eq_getElem hjd] at hdn
    simp only [List.get_eq_getElem] at this
    rw [← Option.some.inj hdn]
    exact this

/-- The leading axes of an argument. -/
def lead {α : Type} (p : NdArray α × ℕ) : List ℕ := p.1.shape.take (p.1.shape.length - p.2)

/-- The trailing axes of an argument, of which there are `p.2`. -/
def trail {α : Type} (p : NdArray α × ℕ) : List ℕ := p.1.shape.drop (p.1.shape.length - p.2)

/-- `out` is the array `a` with entries repeated: counting axes from the last one, the entry is
that of the same index, or of index 0 along axes of `a` that have length one. -/
def IsStretched {α : Type} (a out : NdArray α) : Prop :=
  ∀ idx ∈ indices out.shape, ∃ idx' ∈ indices a.shape, out.get idx = a.get idx' ∧
    ∀ j n k : ℕ, a.shape.reverse[j]? = some n → idx.reverse[j]? = some k →
      idx'.reverse[j]? = some (if n = 1 then 0 else k)

/-- The shape is split as intended: there are enough axes, or so few that none counts as leading.
(In between, the negative index of `arraytools.py:102-104` counts from the end.) -/
def SplitsWell {α : Type} (p : NdArray α × ℕ) : Prop :=
  p.2 ≤ p.1.shape.length ∨ 2 * p.1.shape.length ≤ p.2

theorem splitShape_well {α : Type} {p : NdArray α × ℕ} (h : SplitsWell p) :
    splitShape p.1.shape p.2 = (lead p, trail p) := by
  unfold splitShape lead trail
  rcases h with h | h
  · rw [if_pos h]
  · split_ifs with h1
    · rfl
    · rw [show 2 * p.1.shape.length - p.2 = 0 by omega, show p.1.shape.length - p.2 = 0 by omega]

/-- **C78** The condition is sharp: in all other cases axes that were to be kept count as leading. -/
theorem splitsWell_iff {α : Type} {p : NdArray α × ℕ} :
    SplitsWell p ↔ splitShape p.1.shape p.2 = (lead p, trail p) := by
  refine ⟨splitShape_well, fun h => ?_⟩
  unfold splitShape lead trail at h
  unfold SplitsWell
  by_contra hc
  push Not at hc
  rw [if_neg (by omega), Prod.mk.injEq] at h
  have := congrArg List.length h.1
  simp only [List.length_take] at this
  omega

/-- The closed form of the function. -/
theorem broadcastLeadingAxes_split {α : Type} {args : List (NdArray α × ℕ)}
    (hn : ∀ p ∈ args, SplitsWell p) {dims : List ℕ}
    (hd : IsBroadcast (args.map lead) dims) :
    broadcastLeadingAxes args = .ok (dims, args.map fun p =>
      ⟨dims ++ trail p, fun i => p.1.get (broadcastIndex p.1.shape i)⟩) ∧
    ∀ p ∈ args, p.1.shape.length ≤ (dims ++ trail p).length ∧
      ∀ j n : ℕ, p.1.shape.reverse[j]? = some n →
        n = 1 ∨ (dims ++ trail p).reverse[j]? = some n := by
  have hs : ∀ p ∈ args, splitShape p.1.shape p.2 = (lead p, trail p) := fun p hp =>
    splitShape_well (hn p hp)
  have hmap : (args.map fun p => (splitShape p.1.shape p.2).1) = args.map lead :=
    List.map_congr_left fun p hp => by rw [hs p hp]
  have hcomp : ∀ p ∈ args, p.1.shape.length ≤ (dims ++ trail p).length ∧
      ∀ j n : ℕ, p.1.shape.reverse[j]? = some n →
        n = 1 ∨ (dims ++ trail p).reverse[j]? = some n := by
    intro p hp
    have hm : lead p ∈ args.map lead := List.mem_map_of_mem hp
    have e : p.1.shape = lead p ++ trail p := (List.take_append_drop _ _).symm
    refine ⟨?_, ?_⟩
    · have := hd.1 _ hm
      rw [e, List.length_append, List.length_append]; omega
    · intro j n hj
      rw [e, List.reverse_append, List.getElem?_append] at hj
      rw [List.reverse_append, List.getElem?_append]
      split_ifs at hj ⊢ with hlt
      · exact .inr hj
      · exact hd.2.1 _ hm _ n hj
  refine ⟨?_, hcomp⟩
  unfold broadcastLeadingAxes
  rw [hmap, ((broadcastAll_spec _).1 dims).2 hd]
  simp only [bind, Except.bind]
  rw [mapM_ok (g := fun p : NdArray α × ℕ =>
    (⟨dims ++ trail p, fun i => p.1.get (broadcastIndex p.1.shape i)⟩ : NdArray α))]
  intro p hp
  rw [hs p hp]
  exact broadcastTo_ok (hcomp p hp).1 (hcomp p hp).2

/-- The closed form for arrays with enough axes. -/
theorem broadcastLeadingAxes_ok {α : Type} {args : List (NdArray α × ℕ)}
    (hn : ∀ p ∈ args, p.2 ≤ p.1.shape.length) {dims : List ℕ}
    (hd : IsBroadcast (args.map lead) dims) :
    broadcastLeadingAxes args = .ok (dims, args.map fun p =>
      ⟨dims ++ trail p, fun i => p.1.get (broadcastIndex p.1.shape i)⟩) ∧
    ∀ p ∈ args, p.1.shape.length ≤ (dims ++ trail p).length ∧
      ∀ j n : ℕ, p.1.shape.reverse[j]? = some n →
        n = 1 ∨ (dims ++ trail p).reverse[j]? = some n :=
  broadcastLeadingAxes_split (fun p hp => .inl (hn p hp)) hd

/-- **C78** also for arrays with so few axes that none counts as leading, in particular for numbers:
these are repeated along all leading axes.  If the leading shapes have a broadcast, it is the shape that is returned, and every
array is returned with that leading shape followed by its own trailing axes, with entries taken
from the corresponding entries of the input.  If they have none, `ValueError` is raised. -/
theorem broadcast_leading_axes_few {α : Type} (args : List (NdArray α × ℕ))
    (hn : ∀ p ∈ args, SplitsWell p) :
    (∀ dims, IsBroadcast (args.map lead) dims → ∃ outs,
      broadcastLeadingAxes args = .ok (dims, outs) ∧ outs.length = args.length ∧
      ∀ (i : ℕ) (p : NdArray α × ℕ) (out : NdArray α), args[i]? = some p → outs[i]? = some out →
        out.shape = dims ++ trail p ∧ IsStretched p.1 out) ∧
    ((¬ ∃ dims, IsBroadcast (args.map lead) dims) →
      ∃ r, broadcastLeadingAxes args = .error (.value r)) := by
  constructor
  · intro dims hd
    obtain ⟨e, hc⟩ := broadcastLeadingAxes_split hn hd
    refine ⟨_, e, by simp, ?_⟩
    intro i p out hp ho
    rw [List.getElem?_map, hp, Option.map_some, Option.some.injEq] at ho
    subst ho
    refine ⟨rfl, fun idx hi => ?_⟩
    obtain ⟨c1, c2⟩ := hc p (List.mem_of_getElem? hp)
    obtain ⟨h1, h2⟩ := broadcastIndex_spec c1 c2 hi
    exact ⟨_, h1, rfl, h2⟩
  · intro h
    obtain ⟨r, hr⟩ := (broadcastAll_spec (args.map lead)).2.2 h
    have hmap : (args.map fun p => (splitShape p.1.shape p.2).1) = args.map lead :=
      List.map_congr_left fun p hp => by rw [splitShape_well (hn p hp)]
    refine ⟨r, ?_⟩
    unfold broadcastLeadingAxes
    rw [hmap, hr]
    rfl

/-- **C78.** If the leading shapes have a broadcast, it is the shape that is returned, and every
array is returned with that leading shape followed by its own trailing axes, with entries taken
from the corresponding entries of the input.  If they have none, `ValueError` is raised. -/
theorem broadcast_leading_axes_spec {α : Type} (args : List (NdArray α × ℕ))
    (hn : ∀ p ∈ args, p.2 ≤ p.1.shape.length) :
    (∀ dims, IsBroadcast (args.map lead) dims → ∃ outs,
      broadcastLeadingAxes args = .ok (dims, outs) ∧ outs.length = args.length ∧
      ∀ (i : ℕ) (p : NdArray α × ℕ) (out : NdArray α), args[i]? = some p → outs[i]? = some out →
        out.shape = dims ++ trail p ∧ IsStretched p.1 out) ∧
    ((¬ ∃ dims, IsBroadcast (args.map lead) dims) →
      ∃ r, broadcastLeadingAxes args = .error (.value r)) :=
  broadcast_leading_axes_few args fun p hp => .inl (hn p hp)

/-- An array with two axes of which three are to be kept has a leading axis nevertheless: the
negative index counts from the end. -/
theorem broadcast_leading_axes_negative {α : Type} (g : List ℕ → α) (a b : ℕ) :
    ∃ out, broadcastLeadingAxes [(⟨[a, b], g⟩, 3)] = .ok ([a], [out]) ∧ out.shape = [a, b] := by
  refine ⟨⟨[a, b], fun i => g (broadcastIndex [a, b] i)⟩, ?_, rfl⟩
  have e : broadcastTo (⟨[a, b], g⟩ : NdArray α) [a, b] =
      .ok ⟨[a, b], fun i => g (broadcastIndex [a, b] i)⟩ :=
    broadcastTo_ok le_rfl fun _ _ h => .inr h
  simp only [broadcastLeadingAxes, splitShape, List.map_cons, List.map_nil, List.mapM_cons,
    List.mapM_nil, List.length_cons, List.length_nil]
  simp [broadcastAll, broadcastShapes, broadcastRev, bind, Except.bind, pure, Except.pure, e]

/-- Concrete case: a number of which one axis is to be kept is split well, as is an array with one
axis of which two are to be kept. -/
example : SplitsWell ((⟨[], fun _ => 0⟩, 1) : NdArray ℕ × ℕ) ∧
    SplitsWell ((⟨[3], fun _ => 0⟩, 2) : NdArray ℕ × ℕ) := ⟨.inr (by simp), .inr (by simp)⟩

/-- Concrete case: the example of the documentation, shapes `()`, `(4, 10)` and `(3, 1, 5, 6)`
with 0, 1 and 2 trailing axes have the leading shape `(3, 4)`. -/
example : IsBroadcast
    ([(⟨[], fun _ => 0⟩, 0), (⟨[4, 10], fun _ => 0⟩, 1), (⟨[3, 1, 5, 6], fun _ => 0⟩, 2)].map
      (lead (α := ℕ))) [3, 4] :=
  ((broadcastAll_spec _).1 _).1 (by rfl)

/-- Concrete case: leading shapes `(3,)` and `(2,)` cannot be broadcast. -/
example : ¬ ∃ d, IsBroadcast
    ([(⟨[3], fun _ => 0⟩, 0), (⟨[2, 10], fun _ => 0⟩, 1)].map (lead (α := ℕ))) d :=
  (broadcastAll_spec _).2.1 ⟨_, by rfl⟩

/-! ## `broadcast_first` -/

/-- The first axis moved to the end. -/
def rotate : List ℕ → List ℕ
  | [] => []
  | d :: ds => ds ++ [d]

/-- The last axis moved to the front. -/
def unrotate (s : List ℕ) : List ℕ := s.getLast?.toList ++ s.dropLast

theorem unrotate_rotate (s : List ℕ) : unrotate (rotate s) = s := by
  cases s <;> simp [unrotate, rotate]

theorem firstToLast_shape {α : Type} (a : NdArray α) : (firstToLast a).shape = rotate a.shape := by
  rcases a with ⟨_ | ⟨d, ds⟩, g⟩ <;> rfl

theorem firstToLast_get {α : Type} (a : NdArray α) {idx : List ℕ}
    (h : idx ∈ indices (rotate a.shape)) : (firstToLast a).get idx = a.get (unrotate idx) := by
  rcases a with ⟨_ | ⟨d, ds⟩, g⟩
  · have : idx = [] := by simpa [rotate, indices] using h
    subst this; rfl
  · rfl

/-- **C81.** `broadcast_first` broadcasts the shapes with the first axis counted as the last one:
if these have a broadcast then the results have that shape with the last axis in front, and the
entries are those of the inputs at the same index of the first axis (or 0) and at the stretched
index of the other axes.  If they have none, `ValueError` is raised. -/
theorem broadcast_first_spec {α : Type} (arrays : List (NdArray α)) :
    (∀ dims, IsBroadcast (arrays.map fun a => rotate a.shape) dims → ∃ outs,
      broadcastFirst arrays = .ok outs ∧ outs.length = arrays.length ∧
      ∀ (i : ℕ) (a out : NdArray α), arrays[i]? = some a → outs[i]? = some out →
        out.shape = unrotate dims ∧ IsStretched ⟨rotate a.shape, fun idx => a.get (unrotate idx)⟩
          ⟨dims, fun idx => out.get (unrotate idx)⟩) ∧
    ((¬ ∃ dims, IsBroadcast (arrays.map fun a => rotate a.shape) dims) →
      ∃ r, broadcastFirst arrays = .error (.value r)) := by
  have hmap : (arrays.map firstToLast).map NdArray.shape = arrays.map fun a => rotate a.shape := by
    rw [List.map_map]; exact List.map_congr_left fun a _ => firstToLast_shape a
  constructor
  · intro dims hd
    have hc : ∀ a ∈ arrays, (firstToLast a).shape.length ≤ dims.length ∧
        ∀ j n : ℕ, (firstToLast a).shape.reverse[j]? = some n →
          n = 1 ∨ dims.reverse[j]? = some n := by
      intro a ha
      have hm : rotate a.shape ∈ arrays.map fun a => rotate a.shape :=
        List.mem_map_of_mem (f := fun a : NdArray α => rotate a.shape) ha
      rw [firstToLast_shape]
      exact ⟨hd.1 _ hm, hd.2.1 _ hm⟩
    refine ⟨arrays.map fun a => lastToFirst
      ⟨dims, fun i => (firstToLast a).get (broadcastIndex (firstToLast a).shape i)⟩, ?_, by simp, ?_⟩
    · unfold broadcastFirst
      simp only
      rw [hmap, ((broadcastAll_spec _).1 dims).2 hd]
      simp only [bind, Except.bind]
      rw [mapM_ok (g := fun a : NdArray α =>
        (⟨dims, fun i => a.get (broadcastIndex a.shape i)⟩ : NdArray α))]
      · simp [Function.comp_def]
      · intro b hb
        obtain ⟨a, ha, rfl⟩ := List.mem_map.1 hb
        exact broadcastTo_ok (hc a ha).1 (hc a ha).2
    · intro i a out hp ho
      rw [List.getElem?_map, hp, Option.map_some, Option.some.injEq] at ho
      subst ho
      obtain ⟨c1, c2⟩ := hc a (List.mem_of_getElem? hp)
      refine ⟨?_, fun idx hi => ?_⟩
      · unfold lastToFirst unrotate
        split_ifs with h0
        · simp only at h0; rw [h0]; rfl
        · rfl
      · obtain ⟨h1, h2⟩ := broadcastIndex_spec c1 c2 hi
        rw [firstToLast_shape] at h1 h2
        refine ⟨_, h1, ?_, h2⟩
        have hl := mem_indices_length hi
        simp only at hl
        rw [← firstToLast_get a h1, ← firstToLast_shape]
        unfold lastToFirst unrotate
        split_ifs with h0
        · simp only at h0
          subst h0
          rw [List.eq_nil_of_length_eq_zero hl]; rfl
        · have hne : idx ≠ [] := by
            rintro rfl
            exact h0 (List.eq_nil_of_length_eq_zero hl.symm)
          have : (idx.getLast?.toList ++ idx.dropLast).tail ++
              (idx.getLast?.toList ++ idx.dropLast).head?.toList = idx := by
            rw [List.getLast?_eq_some_getLast hne]
            simp [List.dropLast_append_getLast]
          simp only [this]
  · intro h
    obtain ⟨r, hr⟩ := (broadcastAll_spec (arrays.map fun a => rotate a.shape)).2.2 h
    refine ⟨r, ?_⟩
    unfold broadcastFirst
    simp only
    rw [hmap, hr]
    rfl

/-- Concrete case: shapes `(3,)` and `(3, 2)` become `(3, 2)`. -/
example : IsBroadcast ([⟨[3], fun _ => 0⟩, ⟨[3, 2], fun _ => 0⟩].map
    fun a : NdArray ℕ => rotate a.shape) [2, 3] ∧ unrotate [2, 3] = [3, 2] :=
  ⟨((broadcastAll_spec _).1 _).1 (by rfl), rfl⟩

end Glass.Arrays
