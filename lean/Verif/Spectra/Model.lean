import Mathlib.Analysis.Real.Sqrt
import Mathlib.Algebra.Order.Floor.Ring
import Verif.Common.Err

/-!
# Model of the two-point function bookkeeping in `glass/fields.py`

Covers `_inv_triangle_number`, `nfields_from_nspectra`, `discretized_cls`, `getcl`,
`enumerate_spectra`, `spectra_indices`, `effective_cls`, `compute_gaussian_spectra` (loop only),
`glass_to_healpix_spectra`, `healpix_to_glass_spectra`, `_glass_to_healpix_alm`,
`cov_from_spectra`, `regularized_spectra`, and `multalm` of `glass/harmonics.py`.

A set of spectra is a list; an individual spectrum is a list of values.
-/

namespace Glass.Spectra

/-- `fields.py:70-81` `_inv_triangle_number`.

`rt` is `math.sqrt` applied to a number that is not negative; for a negative argument
`math.sqrt` raises `ValueError`.  `//` on integers is floor division (`Int.fdiv`). -/
noncomputable def invTriangleNumber (rt : ℝ → ℝ) (t : ℤ) : Except Err ℤ :=
  if 2 * t < 0 then .error (.value "math domain error")
  else
    let n : ℤ := ⌊rt ((2 * t : ℤ) : ℝ)⌋
    if Int.fdiv (n * (n + 1)) 2 ≠ t then .error (.value "not a triangle number")
    else .ok n

/-- `fields.py:84-98` `nfields_from_nspectra`: any `ValueError` is replaced by one with a new
message. -/
noncomputable def nfieldsFromNspectra (rt : ℝ → ℝ) (t : ℤ) : Except Err ℤ :=
  match invTriangleNumber rt t with
  | .ok n => .ok n
  | .error (.value _) => .error (.value "invalid number of spectra")
  | .error e => .error e

/-- The number of fields for a list of spectra, with the exact square root, as a natural number
(the result of `nfieldsFromNspectra` is never negative, see `nfields_spec`). -/
noncomputable def nfields {α : Type*} (s : List α) : Except Err ℕ :=
  (nfieldsFromNspectra Real.sqrt (s.length : ℤ)).map Int.toNat

/-- Python's `int()` on a float: truncation toward zero. -/
noncomputable def pyInt (x : ℝ) : ℤ := if 0 ≤ x then ⌊x⌋ else ⌈x⌉

/-- `fields.py:579-580`: the label of entry `k` in `enumerate_spectra`.
`rt x` stands for `x ** 0.5`. -/
noncomputable def label (rt : ℝ → ℝ) (k : ℕ) : ℤ × ℤ :=
  let i : ℤ := pyInt (rt (2 * (k : ℝ) + 1 / 4) - 1 / 2)
  let j : ℤ := Int.fdiv (i * (i + 3)) 2 - k
  (i, j)

/-- `fields.py:563-581` `enumerate_spectra`, as the list of everything it yields. -/
noncomputable def enumerateSpectra {α : Type*} (rt : ℝ → ℝ) (entries : List α) :
    List (ℤ × ℤ × α) :=
  entries.zipIdx.map fun ck => ((label rt ck.2).1, (label rt ck.2).2, ck.1)

/-- `numpy.tril_indices(n)` (called in `fields.py:602`) as a list of pairs: rows in order, columns
increasing within a row, on and below the diagonal. -/
def trilIndices (n : ℕ) : List (ℕ × ℕ) :=
  (List.range n).flatMap fun i => (List.range (i + 1)).map fun j => (i, j)

/-- `fields.py:584-604` `spectra_indices`: `stack([i, i - j]).T`. The subtraction never goes
below zero because `tril_indices` has `j ≤ i`. -/
def spectraIndices (n : ℕ) : List (ℕ × ℕ) :=
  (trilIndices n).map fun p => (p.1, p.1 - p.2)

/-- `fields.py:555-560`: truncate or zero-pad to `len = lmax + 1` entries.
Simplification: `lmax + 1` is a natural number (a value below zero would slice from the end). -/
def fitLength {K : Type*} [Zero K] (len : Option ℕ) (cl : List K) : List K :=
  match len with
  | none => cl
  | some m => if cl.length > m then cl.take m else cl ++ List.replicate (m - cl.length) 0

/-- `fields.py:525-560` `getcl` for non-negative indices; `len = lmax + 1`. -/
def getcl {K : Type*} [Zero K] (cls : List (List K)) (i j : ℕ) (len : Option ℕ) :
    Except Err (List K) :=
  let (i, j) := if j > i then (j, i) else (i, j)
  match pyGet cls (i * (i + 1) / 2 + i - j) with
  | .ok cl => .ok (fitLength len cl)
  | .error e => .error e

/-- `fields.py:281-287`: the `ncorr` selection of `discretized_cls`. -/
def selectCorr {K : Type*} (cls : List (List K)) (n ncorr : ℕ) : Except Err (List (List K)) :=
  ((List.range n).flatMap fun i => (List.range (i + 1)).map fun j => (i, j)).mapM fun p =>
    if p.2 ≤ ncorr then pyGet cls (p.1 * (p.1 + 1) / 2 + p.2) else .ok []

/-- `fields.py:293-299`: the treatment of one spectrum in `discretized_cls`.
`len = lmax + 1`; `pw` is the pixel window function for the given `nside`. -/
def discretizeOne {K : Type*} [Mul K] (len : Option ℕ) (pw : Option (List K)) (cl : List K) :
    List K :=
  if cl.length > 0 then
    let cl := match len with
      | none => cl
      | some m => cl.take m
    match pw with
    | none => cl
    | some pw =>
      let n := min cl.length pw.length
      List.zipWith (fun c p => c * (p * p)) (cl.take n) (pw.take n)
  else cl

/-- `fields.py:239-300` `discretized_cls`. -/
noncomputable def discretizedCls {K : Type*} [Mul K] (cls : List (List K)) (len : Option ℕ)
    (ncorr : Option ℕ) (pw : Option (List K)) : Except Err (List (List K)) :=
  if cls.length = 0 then .ok []
  else
    let sel : Except Err (List (List K)) := match ncorr with
      | none => .ok cls
      | some nc => match nfields cls with
        | .ok n => selectCorr cls n nc
        | .error e => .error e
    match sel with
    | .ok cls => .ok (cls.map (discretizeOne len pw))
    | .error e => .error e

/-- A Python dictionary built from a sequence of key/value pairs: the last pair with a key wins;
`KeyError` when the key is missing. -/
def dictGet {α β : Type*} [DecidableEq α] (pairs : List (α × β)) (a : α) : Except Err β :=
  match pairs.reverse.find? (fun p => p.1 = a) with
  | some p => .ok p.2
  | none => .error .key

/-- `fields.py:915`: `list.index` raises `ValueError` when the element is missing. -/
def pyIndex {α : Type*} [BEq α] (s : List α) (a : α) : Except Err ℕ :=
  if s.contains a then .ok (s.idxOf a) else .error (.value "not in list")

/-- The comprehension `[(i + k, i) for k in range(n) for i in range(n - k)]` of
`fields.py:917` and `fields.py:939`. -/
def diagIndices (n : ℕ) : List (ℕ × ℕ) :=
  (List.range n).flatMap fun k => (List.range (n - k)).map fun i => (i + k, i)

/-- `fields.py:897-917` `glass_to_healpix_spectra`. -/
noncomputable def glassToHealpix {α : Type*} (spectra : List α) : Except Err (List α) :=
  match nfields spectra with
  | .error e => .error e
  | .ok n =>
    let comb := (spectraIndices n).zipIdx
    (diagIndices n).mapM fun p => match dictGet comb p with
      | .error e => .error e
      | .ok pos => pyGet spectra pos

/-- `fields.py:920-940` `healpix_to_glass_spectra`. -/
noncomputable def healpixToGlass {α : Type*} (spectra : List α) : Except Err (List α) :=
  match nfields spectra with
  | .error e => .error e
  | .ok n =>
    let comb := diagIndices n
    (spectraIndices n).mapM fun p => match pyIndex comb p with
      | .error e => .error e
      | .ok pos => pyGet spectra pos

/-- `fields.py:943-962` `_glass_to_healpix_alm`.  `ell[m:]` is the list `m, ..., n-1`;
`xp.concat` of an empty list of arrays raises `ValueError`. -/
noncomputable def glassToHealpixAlm {α : Type*} (alm : List α) : Except Err (List α) :=
  match invTriangleNumber Real.sqrt (alm.length : ℤ) with
  | .error e => .error e
  | .ok n =>
    let n := n.toNat
    if n = 0 then .error (.value "need at least one array to concatenate")
    else ((List.range n).flatMap fun m =>
      ((List.range n).drop m).map fun l => l * (l + 1) / 2 + m).mapM (pyGet alm)

/-- `xp.repeat(bl, xp.arange(bl.size) + 1)` of `harmonics.py:47`. -/
def repeatModes {K : Type*} (bl : List K) : List K :=
  bl.zipIdx.flatMap fun bi => List.replicate (bi.2 + 1) bi.1

/-- `harmonics.py:17-47` `multalm`.  Elementwise product of one-dimensional arrays with
broadcasting: equal lengths, or one of them of length one; anything else is an error. -/
def multalm {K : Type*} [Mul K] (alm bl : List K) : Except Err (List K) :=
  let r := repeatModes bl
  if alm.length = r.length then .ok (List.zipWith (· * ·) alm r)
  else match alm, r with
    | [a], r => .ok (r.map (a * ·))
    | alm, [b] => .ok (alm.map (· * b))
    | _, _ => .error (.value "operands could not be broadcast together")

/-- `numpy.ndindex(shape)` (used in `fields.py:664-668`): all multi-indices, last axis fastest. -/
def ndindex : List ℕ → List (List ℕ)
  | [] => [[]]
  | d :: ds => (List.range d).flatMap fun i => (ndindex ds).map fun js => i :: js

/-- `itertools.combinations_with_replacement(s, 2)`. -/
def combWithRepl {α : Type*} : List α → List (α × α)
  | [] => []
  | a :: s => ((a :: s).map fun b => (a, b)) ++ combWithRepl s

/-- `itertools.product(s, t)`. -/
def prodPairs {α β : Type*} (s : List α) (t : List β) : List (α × β) :=
  s.flatMap fun a => t.map fun b => (a, b)

/-- Sum of arrays of length `m`, starting from zero (Python's `sum`). -/
def vsum {K : Type*} [Zero K] [Add K] (m : ℕ) (ls : List (List K)) : List K :=
  ls.foldl (List.zipWith (· + ·)) (List.replicate m 0)

/-- A weight array of shape `(n, *shape)`: entry `[i, j]` for a multi-index `j`. -/
structure Weights (K : Type*) where
  /-- Length of the first axis, `none` for a zero-dimensional array. -/
  n : Option ℕ
  /-- The remaining axes. -/
  shape : List ℕ
  /-- The entries. -/
  val : ℕ → List ℕ → K

/-- `fields.py:683-689`: the combined spectrum of one pair of weight columns. -/
def combined {K : Type*} [Zero K] [Add K] [Mul K] (cls : List (List K)) (n m : ℕ)
    (w1 w2 : ℕ → K) : Except Err (List K) :=
  match ((List.range n).flatMap fun i1 => (List.range n).map fun i2 => (i1, i2)).mapM
      (fun p => (getcl cls p.1 p.2 (some m)).map fun cl => cl.map (w1 p.1 * w2 p.2 * ·)) with
  | .ok ls => .ok (vsum m ls)
  | .error e => .error e

/-- The output array of `effective_cls`: allocated with `xp.empty`, so an entry that was never
written is `none`. -/
abbrev Out (K : Type*) := List ℕ → Option (List K)

/-- Writing one row of the output array. -/
def Out.set {K : Type*} (o : Out K) (j : List ℕ) (v : List K) : Out K :=
  fun j' => if j' = j then some v else o j'

/-- `fields.py:607-694` `effective_cls`.  `len` is `lmax + 1` if `lmax` is given.
`weights2 = none` also stands for a call that passes the same array object twice, which is what
`weights2 is weights1` tests. -/
noncomputable def effectiveCls {K : Type*} [Zero K] [Add K] [Mul K] (cls : List (List K))
    (weights1 : Weights K) (weights2 : Option (Weights K)) (len : Option ℕ) :
    Except Err (Out K) :=
  match nfields cls with
  | .error e => .error e
  | .ok n =>
    -- lmax + 1
    let m := len.getD ((cls.map List.length).foldl max 0)
    let w2 := weights2.getD weights1
    if weights1.n ≠ some n then .error (.value "shape mismatch between fields and weights1")
    else if w2.n ≠ some n then .error (.value "shape mismatch between fields and weights2")
    else
      let pairs := if weights2.isNone then combWithRepl (ndindex weights1.shape)
        else prodPairs (ndindex weights1.shape) (ndindex w2.shape)
      pairs.foldlM (fun (out : Out K) (j : List ℕ × List ℕ) =>
        match combined cls n m (fun i => weights1.val i j.1) (fun i => w2.val i j.2) with
        | .error e => .error e
        | .ok cl =>
          let out := out.set (j.1 ++ j.2) cl
          .ok (if weights2.isNone ∧ j.1 ≠ j.2 then out.set (j.2 ++ j.1) cl else out))
        (fun _ => none)

/-- A three-dimensional array of shape `(k, n, n)`. -/
structure Cov (K : Type*) where
  /-- Length of the leading axis. -/
  k : ℕ
  /-- Size of the matrices. -/
  n : ℕ
  /-- The entries `[l, i, j]`. -/
  val : ℕ → ℤ → ℤ → K

/-- `cov[:size, i, j] = cl[:size]` of `fields.py:1028-1030`. -/
def setColumn {K : Type*} (v : ℕ → ℤ → ℤ → K) (size : ℕ) (i j : ℤ) (cl : List K) :
    ℕ → ℤ → ℤ → K :=
  fun l a b => if h : l < size ∧ l < cl.length ∧ a = i ∧ b = j then cl[l]'h.2.1 else v l a b

/-- `fields.py:985-1032` `cov_from_spectra`; `len = lmax + 1`.  `array_namespace()` without arguments
raises `TypeError`, so an empty list does. -/
noncomputable def covFromSpectra {K : Type*} [Zero K] (spectra : List (List K))
    (len : Option ℕ) : Except Err (Cov K) :=
  if spectra.length = 0 then .error (.type "no array namespace")
  else match nfields spectra with
  | .error e => .error e
  | .ok n =>
    let k := len.getD ((spectra.map List.length).foldl max 0)
    .ok ⟨k, n, (enumerateSpectra Real.sqrt spectra).foldl (fun v e =>
      let size := min k e.2.2.length
      setColumn (setColumn v size e.1 e.2.1 e.2.2) size e.2.1 e.1 e.2.2) (fun _ _ _ => 0)⟩

/-- `fields.py:1055-1110` `regularized_spectra`; `reg` is the chosen regularisation method applied
to the stack of matrices, `none` an unknown method name.  The Boolean is a warning of the method.
The entries may become NaN, so the type of the result is another one.  For the methods of the code
see `Verif.Spectra.Regularise`. -/
noncomputable def regularizedSpectra {K K' : Type*} [Zero K] (spectra : List (List K))
    (len : Option ℕ) (reg : Option (Cov K → Except Err (Cov K' × Bool))) :
    Except Err (List (List K') × Bool) :=
  match reg with
  | none => .error (.value "unknown method")
  | some reg =>
    match covFromSpectra spectra len with
    | .error e => .error e
    | .ok cov => match reg cov with
      | .error e => .error e
      | .ok (cov, warn) => .ok ((spectraIndices cov.n).map fun p =>
          (List.range cov.k).map fun l => cov.val l p.1 p.2, warn)

/-- The values of a list without `None`; reading `None.shape` raises `AttributeError`. -/
def allGiven {α : Type*} : List (Option α) → Except Err (List α)
  | [] => .ok []
  | none :: _ => .error .attribute
  | some a :: s => match allGiven s with
    | .error e => .error e
    | .ok r => .ok (a :: r)

/-- `fields.py:985-1032` `cov_from_spectra` for spectra that may be `None`.  `array_namespace` skips
`None`, and raises `TypeError` if nothing else is left.  The number of fields is checked next.
Without `lmax` line 1015 reads the shapes; with `lmax`, `spectra[0].dtype` and the loop do. -/
noncomputable def covFromOptional {K : Type*} [Zero K] (spectra : List (Option (List K)))
    (len : Option ℕ) : Except Err (Cov K) :=
  if spectra.reduceOption = [] then .error (.type "no array namespace")
  else match nfields spectra with
  | .error e => .error e
  | .ok _ => match allGiven spectra with
    | .error e => .error e
    | .ok s => covFromSpectra s len

/-- `fields.py:743-775` `compute_gaussian_spectra`; `compute cl t1 t2` stands for
`glass.grf.compute`. Negative list indices cannot occur (see `enumerate_labels`). -/
noncomputable def computeGaussianSpectra {T K : Type*} [Zero K] [Mul K]
    (compute : List K → T → T → Except Err (List K)) (fields : List T)
    (spectra : List (List K)) : Except Err (List (List K)) :=
  let n := fields.length
  if spectra.length ≠ n * (n + 1) / 2 then .error (.value "mismatch between fields and spectra")
  else (enumerateSpectra Real.sqrt spectra).mapM fun e =>
    if e.2.2.length > 0 then
      match pyGet fields e.1.toNat, pyGet fields e.2.1.toNat with
      | .ok t1, .ok t2 => compute e.2.2 t1 t2
      | .error e, _ => .error e
      | _, .error e => .error e
    else .ok (e.2.2.map (0 * ·))

end Glass.Spectra
