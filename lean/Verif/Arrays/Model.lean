import Verif.Common.NdArray

/-!
# Broadcasting helpers

Model of `broadcast_first` and `broadcast_leading_axes` of `/repo/glass/arraytools.py`.
-/

namespace Glass.Arrays

open Glass

/-- `xp.broadcast_shapes` of any number of shapes. -/
def broadcastAll (ss : List (List ℕ)) : Except Err (List ℕ) :=
  match ss.foldlM NdArray.broadcastShapes [] with
  | some d => .ok d
  | none => .error (.value "shape mismatch")

/-- `xp.broadcast_to(a, shape)`. -/
def broadcastTo {α : Type} (a : NdArray α) (shape : List ℕ) : Except Err (NdArray α) :=
  if NdArray.broadcastShapes a.shape shape = some shape then
    .ok ⟨shape, fun i => a.get (NdArray.broadcastIndex a.shape i)⟩
  else .error (.value "could not broadcast")

/-- `arraytools.py:102-104`: `i = len(s) - n`, and then `s[:i]` and `s[i:]`.  If `n` is larger than
`len(s)`, then `i` is negative and counts from the end. -/
def splitShape (s : List ℕ) (n : ℕ) : List ℕ × List ℕ :=
  if n ≤ s.length then (s.take (s.length - n), s.drop (s.length - n))
  else (s.take (2 * s.length - n), s.drop (2 * s.length - n))

/-- `arraytools.py:47-110` `broadcast_leading_axes`.  The arrays are given the same type of
entries, which does not matter for the function. -/
def broadcastLeadingAxes {α : Type} (args : List (NdArray α × ℕ)) :
    Except Err (List ℕ × List (NdArray α)) := do
  let dims ← broadcastAll (args.map fun p => (splitShape p.1.shape p.2).1)
  let arrs ← args.mapM fun p => broadcastTo p.1 (dims ++ (splitShape p.1.shape p.2).2)
  .ok (dims, arrs)

/-- `xp.moveaxis(a, 0, -1)` if the array has an axis. -/
def firstToLast {α : Type} (a : NdArray α) : NdArray α :=
  match a.shape with
  | [] => a
  | d :: ds => ⟨ds ++ [d], fun i => a.get (i.getLast?.toList ++ i.dropLast)⟩

/-- `xp.moveaxis(a, -1, 0)` if the array has an axis. -/
def lastToFirst {α : Type} (a : NdArray α) : NdArray α :=
  if a.shape = [] then a
  else ⟨a.shape.getLast?.toList ++ a.shape.dropLast, fun i => a.get (i.tail ++ i.head?.toList)⟩

/-- `arraytools.py:24-44` `broadcast_first`. -/
def broadcastFirst {α : Type} (arrays : List (NdArray α)) : Except Err (List (NdArray α)) := do
  let arrays := arrays.map firstToLast
  let dims ← broadcastAll (arrays.map NdArray.shape)
  let arrays ← arrays.mapM fun a => broadcastTo a dims
  .ok (arrays.map lastToFirst)

end Glass.Arrays
