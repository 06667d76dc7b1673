import Verif.Common.Err
import Mathlib.Algebra.BigOperators.Group.List.Basic

/-!
# Arrays with a shape

The parts of the array API that concern shapes: broadcasting and reshaping (C order).  An array is
its shape together with a function of the multi-index; only indices within the shape occur.
-/

namespace Glass

/-- An array: its shape and its entries. -/
structure NdArray (α : Type) where
  shape : List ℕ
  get : List ℕ → α

namespace NdArray

/-- All multi-indices of a shape, in C order (last index fastest). -/
def indices : List ℕ → List (List ℕ)
  | [] => [[]]
  | d :: ds => (List.range d).flatMap fun i => (indices ds).map (i :: ·)

/-- Number of entries. -/
def size (shape : List ℕ) : ℕ := shape.prod

/-- Position of a multi-index in C order. -/
def flatIndex : List ℕ → List ℕ → ℕ
  | _ :: ds, i :: is => i * ds.prod + flatIndex ds is
  | _, _ => 0

/-- Multi-index of a position in C order. -/
def unflatIndex : List ℕ → ℕ → List ℕ
  | [], _ => []
  | d :: ds, k => (k / ds.prod) % d :: unflatIndex ds (k % ds.prod)

/-- The entries in C order. -/
def ravel {α : Type} (a : NdArray α) : List α := (indices a.shape).map a.get

/-- `xp.reshape(a, shape)` for a shape without `-1`. -/
def reshape {α : Type} (a : NdArray α) (shape : List ℕ) : Except Err (NdArray α) :=
  if size shape = size a.shape then
    .ok ⟨shape, fun i => a.get (unflatIndex a.shape (flatIndex shape i))⟩
  else .error (.value "cannot reshape array")

/-- Broadcasting of two dimensions. -/
def broadcastDim (d e : ℕ) : Option ℕ :=
  if d = e then some d else if d = 1 then some e else if e = 1 then some d else none

/-- Broadcasting of two shapes whose axes are listed from the last to the first. -/
def broadcastRev : List ℕ → List ℕ → Option (List ℕ)
  | [], t => some t
  | s, [] => some s
  | d :: s, e :: t =>
    match broadcastDim d e, broadcastRev s t with
    | some f, some u => some (f :: u)
    | _, _ => none

/-- `xp.broadcast_shapes` of two shapes. -/
def broadcastShapes (s t : List ℕ) : Option (List ℕ) :=
  (broadcastRev s.reverse t.reverse).map List.reverse

/-- The entry of an array of shape `shape` that a multi-index of the broadcast shape refers to:
extra leading indices are dropped, and the index along an axis of length 1 is 0. -/
def broadcastIndex (shape : List ℕ) (i : List ℕ) : List ℕ :=
  List.zipWith (fun d k => if d = 1 then 0 else k) shape (i.drop (i.length - shape.length))

/-- An elementwise operation of two arrays with broadcasting. -/
def map₂ {α β γ : Type} (f : α → β → γ) (a : NdArray α) (b : NdArray β) :
    Except Err (NdArray γ) :=
  match broadcastShapes a.shape b.shape with
  | none => .error (.value "operands could not be broadcast together")
  | some s => .ok ⟨s, fun i =>
      f (a.get (broadcastIndex a.shape i)) (b.get (broadcastIndex b.shape i))⟩

/-- An elementwise operation on one array. -/
def map {α β : Type} (f : α → β) (a : NdArray α) : NdArray β := ⟨a.shape, fun i => f (a.get i)⟩

end NdArray

end Glass
