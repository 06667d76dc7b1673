import Mathlib.Algebra.BigOperators.Group.Finset.Basic
import Mathlib.Analysis.Real.Sqrt
import Verif.Spectra.Model

/-!
# Model of `iternorm` and `cls2cov` in `glass/fields.py`

A generator is modelled by the list of everything it yields together with the exception, if any,
that ends it.
-/

namespace Glass.Grf

open Glass.Spectra

/-- One array yielded by the covariance iterator: shape `(*shape, len)`; `val x d` is entry
`[x, d]` for a multi-index `x` of the leading axes. -/
structure Row where
  /-- Leading axes. -/
  shape : List ℕ
  /-- Length of the last axis. -/
  len : ℕ
  /-- The entries. -/
  val : List ℕ → ℕ → ℝ

/-- The local variables of `iternorm` (`fields.py:127-176`) after one pass of the loop: the `k × k`
matrices `m`, the vectors `a` of length `k`, and the standard deviations `s`. -/
structure State where
  /-- Leading axes (variable `n` in the code). -/
  shape : List ℕ
  /-- Number of correlations `k`. -/
  k : ℕ
  /-- The matrix `m`. -/
  m : List ℕ → ℕ → ℕ → ℝ
  /-- The vector `a`. -/
  a : List ℕ → ℕ → ℝ
  /-- The standard deviation `s`. -/
  s : List ℕ → ℝ

/-- `fields.py:146-167`: append a zero column and the new row to `m`. -/
noncomputable def extend (st : State) (x : List ℕ) (i j : ℕ) : ℝ :=
  let atm : ℕ → ℝ := fun j => ∑ i ∈ Finset.range st.k, st.a x i * st.m x i j
  let u : ℝ := if 0 < st.s x then 1 else 0
  let s : ℝ := if 0 < st.s x then st.s x else 1
  if i < st.k then (if j < st.k then st.m x i j else 0)
  else if j < st.k then -atm j / s else u / s

/-- `fields.py:169-184`: cut the `size × size` matrix down to the last `k × k` block, then compute
`a` and `s`.  If `k > size` the slices start from the end of the axes, the block does not have `k`
columns and the matrix product with a vector of length `k` raises `ValueError`. -/
noncomputable def cutAndSolve (shape : List ℕ) (size : ℕ) (mat : List ℕ → ℕ → ℕ → ℝ) (row : Row) :
    Except Err State :=
  open Classical in
  let k := row.len - 1
  if size < k then .error (.value "matmul: mismatch in core dimension")
  else
    let m : List ℕ → ℕ → ℕ → ℝ := fun x i j => mat x (size - k + i) (size - k + j)
    let c : List ℕ → ℕ → ℝ := fun x i => row.val x (k - i)
    let a : List ℕ → ℕ → ℝ := fun x i => ∑ j ∈ Finset.range k, m x i j * c x j
    let s2 : List ℕ → ℝ := fun x => row.val x 0 - ∑ i ∈ Finset.range k, a x i * a x i
    if ∃ x ∈ ndindex shape, s2 x < 0 then
      .error (.value "covariance matrix is not positive definite")
    else .ok ⟨shape, k, m, a, fun x => Real.sqrt (s2 x)⟩

/-- One pass of the loop of `iternorm`, `fields.py:122-184`; `none` is the first iteration. -/
noncomputable def step (prev : Option State) (row : Row) : Except Err State :=
  if row.len = 0 then .error (.value "empty covariance matrix")
  else match prev with
    | none => cutAndSolve row.shape (row.len - 1) (fun _ _ _ => 0) row
    | some st =>
      if row.shape ≠ st.shape then .error (.value "shape mismatch in covariance")
      else cutAndSolve st.shape (st.k + 1) (extend st) row

/-- A yielded scaling vector (`fields.py:187-188`): `w x t` is entry `[x, t]`, `t ≤ k`; the last
entry is the standard deviation. -/
structure Weight where
  /-- The array has `k + 1` entries in the last axis. -/
  k : ℕ
  /-- The entries. -/
  w : List ℕ → ℕ → ℝ

/-- `fields.py:187`: concatenate `a` and `s`. -/
def State.weight (st : State) : Weight :=
  ⟨st.k, fun x t => if t < st.k then st.a x t else st.s x⟩

/-- The loop of `iternorm` from a given state. `tail` is the exception that ends the covariance
iterator after its last row, if any. -/
noncomputable def iterate (prev : Option State) : List Row → Option Err → List State × Option Err
  | [], tail => ([], tail)
  | row :: rows, tail => match step prev row with
    | .error e => ([], some e)
    | .ok st => let r := iterate (some st) rows tail; (st :: r.1, r.2)

/-- `fields.py:101-188` `iternorm`.  The rows are read when they are yielded; no row is used after
the pass of the loop in which it was received. -/
noncomputable def iternorm (rows : List Row) (tail : Option Err) : List Weight × Option Err :=
  let r := iterate none rows tail
  (r.1.map State.weight, r.2)

/-! ## `cls2cov`, with the arrays it yields -/

/-- How an array library treats `xpx.at(...).set(...)` and `/=`: NumPy arrays are changed in place
and the same object is returned, JAX arrays are never changed and a new object is returned. -/
inductive Backend
  | inplace
  | immutable
  deriving DecidableEq

/-- Memory: the contents of the arrays allocated so far; `arr r l i` is entry `[l, i]` of the array
object `r`. -/
structure Heap where
  /-- Number of arrays allocated. -/
  next : ℕ
  /-- Contents. -/
  arr : ℕ → ℕ → ℕ → ℝ

/-- Store `v` as the new value of array `r`, in place or as a new object. -/
def Heap.update (b : Backend) (h : Heap) (r : ℕ) (v : ℕ → ℕ → ℝ) : Heap × ℕ :=
  match b with
  | .inplace => (⟨h.next, fun q => if q = r then v else h.arr q⟩, r)
  | .immutable => (⟨h.next + 1, fun q => if q = h.next then v else h.arr q⟩, h.next)

/-- `fields.py:226-234`: the inner loop of `cls2cov` over the enumerated spectra of one field.
A spectrum longer than the array cannot be assigned (unless it is a single number, which is
broadcast to nothing). -/
noncomputable def setColumns (b : Backend) (nl : ℕ) :
    List (List ℝ × ℕ) → Heap → ℕ → Except Err (Heap × ℕ)
  | [], h, r => .ok (h, r)
  | (cl, i) :: rest, h, r =>
    open Classical in
    if i = 0 ∧ ∃ c ∈ cl, c < 0 then .error (.value "negative values in cl")
    else if cl.length > nl ∧ cl.length ≠ 1 then .error (.value "could not broadcast input array")
    else
      let n := cl.length
      let (h, r) := h.update b r fun l c => if l < n ∧ c = i then (cl[l]?).getD 0 else h.arr r l c
      let (h, r) := h.update b r fun l c => if n ≤ l ∧ c = i then 0 else h.arr r l c
      setColumns b nl rest h r

/-- `fields.py:224-236`: the outer loop of `cls2cov` for the fields `j, j + 1, …` (`fuel` of them),
with the position `end` in the list of spectra.  Yields array objects together with the state of
the memory at that time. -/
noncomputable def covLoop (b : Backend) (cls : List (List ℝ)) (nl nc : ℕ) :
    ℕ → ℕ → ℕ → Heap → ℕ → List (ℕ × Heap) × Option Err × Heap
  | 0, _, _, h, _ => ([], none, h)
  | fuel + 1, j, stop, h, r =>
    let start := stop
    let stop := stop + j + 1
    let part := (((cls.take stop).drop start).take (nc + 1)).zipIdx
    match setColumns b nl part h r with
    | .error e => ([], some e, h)
    | .ok (h, r) =>
      let (h, r) := h.update b r fun l c => h.arr r l c / 2
      let rest := covLoop b cls nl nc fuel (j + 1) stop h r
      ((r, h) :: rest.1, rest.2.1, rest.2.2)

/-- `fields.py:191-236` `cls2cov`: the yielded array objects with the memory at that time, the
exception that ends the iteration, and the memory at the end. -/
noncomputable def cls2cov (b : Backend) (cls : List (List ℝ)) (nl nf nc : ℕ) :
    List (ℕ × Heap) × Option Err × Heap :=
  covLoop b cls nl nc nf 0 0 ⟨1, fun _ _ _ => 0⟩ 0

/-- What a consumer sees that reads every array when it is yielded. -/
noncomputable def cls2covRows (b : Backend) (cls : List (List ℝ)) (nl nf nc : ℕ) :
    List Row × Option Err :=
  let r := cls2cov b cls nl nf nc
  (r.1.map fun y => ⟨[nl], nc + 1, fun x d => y.2.arr y.1 (x.headD 0) d⟩, r.2.1)

end Glass.Grf
