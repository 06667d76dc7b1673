import Verif.Shells.Model
import Verif.Algorithm.Model
import Verif.Arrays.Model

/-!
# Partition of a function by windows

Model of `partition`, `partition_lstsq` and `partition_nnls` in `/repo/glass/shells.py`, of
`ndinterp` in `/repo/glass/arraytools.py` and of `gradient` in `/repo/glass/_array_api_utils.py`.

Numbers are exact reals.  Functions may have leading axes.  The linear algebra routines (`lstsq`,
`qr`, `solve`) are parameters.
-/

namespace Glass.Shells

open Glass Glass.Num Matrix

/-- `uxpx.gradient(f)`, `_array_api_utils.py:219-251`, i.e. `numpy.gradient` of a one-dimensional
array with unit spacing: one-sided differences at the ends, central differences between. -/
noncomputable def gradient (f : List ℝ) : Except Err (List ℝ) :=
  if f.length < 2 then .error (.value "array too small to calculate a numerical gradient")
  else .ok ((List.range f.length).map fun k =>
    if k = 0 then f.getD 1 0 - f.getD 0 0
    else if k + 1 = f.length then f.getD k 0 - f.getD (k - 1) 0
    else (f.getD (k + 1) 0 - f.getD (k - 1) 0) / 2)

/-- The values of an array along its last axis, of length `n`. -/
def slice (f : NdArray ℝ) (n : ℕ) (i : List ℕ) : List ℝ :=
  (List.range n).map fun k => f.get (i ++ [k])

/-- `arraytools.py:113-155` `ndinterp` for `axis=-1` and one-dimensional `x`, without `period`.
`numpy.apply_along_axis` calls `numpy.interp` for each one-dimensional slice, and raises
`ValueError` for arrays without axes or with an empty leading axis; `numpy.interp` raises
`ValueError` if there are no points or if the lengths differ. -/
noncomputable def ndinterp (x xq : List ℝ) (fq : NdArray ℝ) (left right : Option ℝ) :
    Except Err (NdArray ℝ) :=
  match fq.shape.getLast? with
  | none => .error (.value "cannot apply_along_axis to an array without axes")
  | some n =>
    if 0 ∈ fq.shape.dropLast then
      .error (.value "cannot apply_along_axis when any iteration dimensions are 0")
    else if n = 0 ∨ xq = [] then .error (.value "array of sample points is empty")
    else if xq.length ≠ n then .error (.value "fp and xp are not of the same length")
    else .ok ⟨fq.shape.dropLast ++ [x.length], fun i =>
      interp left right (xq.zip (slice fq n i.dropLast)) (x.getD (i.getLast?.getD 0) 0)⟩

/-- The grid of `shells.py:696-698` and `766-768`. -/
noncomputable def unionGrid (z : List ℝ) (shells : List RadialWindow) : List ℝ :=
  shells.foldl (fun zp w => union1d zp w.za) z

/-- One row of `xp.stack([uxpx.interp(zp, za, wa, left=0.0, right=0.0) ...])`. -/
noncomputable def windowRow (zp : List ℝ) (w : RadialWindow) : List ℝ :=
  zp.map (interp (some 0) (some 0) w.knots)

/-- The matrix `a` of `shells.py:707-709`, `717` and `777-781`, `789`: window functions
divided by their integrals over the grid, times the grid spacing, and the column of the constraint.
A vanishing integral gives NaN (or infinities), written `none`. -/
noncomputable def windowMatrix (zp dz : List ℝ) (shells : List RadialWindow) (mult : ℝ) :
    Option (Matrix (Fin shells.length) (Fin (zp.length + 1)) ℝ) :=
  open Classical in
  if ∃ w ∈ shells, trapezoid (zp.zip (windowRow zp w)) = 0 then none
  else some (Matrix.of fun i j =>
    if j.val < zp.length then
      (windowRow zp shells[i]).getD j 0 / trapezoid (zp.zip (windowRow zp shells[i])) * dz.getD j 0
    else mult * 1)

/-- The array `b` of `shells.py:712-713`, `718` and `784-785`, `790`; `(*dims, n)` is the shape of
`fz`, and `bz` is the result of `ndinterp`. -/
noncomputable def targetArray (z zp dz : List ℝ) (fz bz : NdArray ℝ) (dims : List ℕ) (n : ℕ)
    (mult : ℝ) : NdArray ℝ :=
  ⟨dims ++ [zp.length + 1], fun i =>
    let j := i.getLast?.getD 0
    if j < zp.length then bz.get (i.dropLast ++ [j]) * dz.getD j 0
    else mult * trapezoid (z.zip (slice fz n i.dropLast))⟩

/-- A vector as function of its index. -/
def rowOf (m : ℕ) (b : NdArray ℝ) (i : List ℕ) : Fin m → ℝ := fun j => b.get (i ++ [j.val])

/-- The linear problem that `partition_lstsq` and `partition_nnls` build: grid, matrix and
right-hand side.  The lines are the same in both functions (`shells.py:693-718`, `763-790`).
`xp.stack` of no arrays and `numpy.interp` for an empty window raise `ValueError`. -/
noncomputable def partitionProblem (z : List ℝ) (fz : NdArray ℝ) (shells : List RadialWindow)
    (sumtol : ℝ) : Except Err ((zp : List ℝ) × NdArray ℝ ×
      Option (Matrix (Fin shells.length) (Fin (zp.length + 1)) ℝ)) :=
  open Classical in
  let sumtol := max sumtol 1e-4
  let zp := unionGrid z shells
  match fz.shape.getLast? with
  | none => .error (.value "not enough values to unpack")
  | some n =>
    match gradient zp with
    | .error e => .error e
    | .ok dz =>
      if shells = [] then .error (.value "need at least one array to stack")
      else if ∃ w ∈ shells, w.knots = [] then .error (.value "array of sample points is empty")
      else
        match ndinterp zp z fz (some 0) (some 0) with
        | .error e => .error e
        | .ok bz =>
          let mult := 1 / sumtol
          .ok ⟨zp, targetArray z zp dz fz bz fz.shape.dropLast n mult,
            windowMatrix zp dz shells mult⟩

/-- `uxpx.linalg_lstsq(a, b)[0]` for one right-hand side (`_array_api_utils.py:254-308`); several
right-hand sides are the columns of a matrix and do not influence each other. -/
abbrev Lstsq := ∀ (m k : ℕ), Matrix (Fin m) (Fin k) ℝ → (Fin m → ℝ) → Fin k → ℝ

/-- `shells.py:724-731`: the right-hand sides as rows of a matrix, the solutions as rows of a
matrix, back to the leading axes, and the last axis to the front. -/
noncomputable def lstsqRows (lstsq : Lstsq) (m k : ℕ) (a : Matrix (Fin k) (Fin m) ℝ)
    (b : NdArray ℝ) : Except Err (NdArray ℝ) := do
  let dims := b.shape.dropLast
  let b' ← b.reshape [dims.prod, m]
  let x : NdArray ℝ := ⟨[dims.prod, k], fun
    | [r, i] => if h : i < k then lstsq m k aᵀ (rowOf m b' [r]) ⟨i, h⟩ else 0
    | _ => 0⟩
  let x ← x.reshape (dims ++ [k])
  .ok (Arrays.lastToFirst x)

/-- `shells.py:664-731` `partition_lstsq`.  A matrix with NaN gives NaN or `LinAlgError`, written
`.ok none`. -/
noncomputable def partitionLstsq (lstsq : Lstsq) (z : List ℝ) (fz : NdArray ℝ)
    (shells : List RadialWindow) (sumtol : ℝ) : Except Err (Option (NdArray ℝ)) :=
  match partitionProblem z fz shells sumtol with
  | .error e => .error e
  | .ok ⟨_, _, none⟩ => .ok none
  | .ok ⟨zp, b, some a⟩ => (lstsqRows lstsq (zp.length + 1) shells.length a b).map some

/-- `xp.linalg.qr` of a matrix with `m` rows and `k` columns (reduced form). -/
abbrev Qr := ∀ (m k : ℕ), Matrix (Fin m) (Fin k) ℝ →
  Matrix (Fin m) (Fin (min m k)) ℝ × Matrix (Fin (min m k)) (Fin k) ℝ

/-- `xp.stack` of the results of `nnls` (`shells.py:800-806`): the solution of each multi-index, or
the first failure. -/
noncomputable def nnlsAll {k : ℕ} (run : List ℕ → Option (Except Err ((Fin k → ℝ) × Bool))) :
    List (List ℕ) → Option (Except Err (List (Fin k → ℝ)))
  | [] => some (.ok [])
  | i :: is =>
    match run i with
    | none => none
    | some (.error e) => some (.error e)
    | some (.ok x) =>
      match nnlsAll run is with
      | none => none
      | some (.error e) => some (.error e)
      | some (.ok xs) => some (.ok (x.1 :: xs))

/-- `shells.py:797-809`: reduction by `qr`, `einsum("ji,...j", q, b)`, one call of `nnls` for each
multi-index of the leading axes in C order, and the stack of the solutions moved to the first
axis.  The dimensions are at least one here. -/
noncomputable def nnlsRows (qr : Qr) (solve : Algorithm.Solver) (fuel : ℕ) (m k : ℕ)
    (a : Matrix (Fin k) (Fin m) ℝ) (b : NdArray ℝ) : Option (Except Err (NdArray ℝ)) :=
  let dims := b.shape.dropLast
  let q := (qr m k aᵀ).1
  let r := (qr m k aᵀ).2
  let y := fun i : List ℕ => fun p => ∑ j, q j p * rowOf m b i j
  match nnlsAll (fun i => Algorithm.nnlsRun solve fuel r (y i) 0 none) (NdArray.indices dims) with
  | none => none
  | some (.error e) => some (.error e)
  | some (.ok xs) =>
    let x : NdArray ℝ := ⟨[xs.length, k], fun
      | [p, i] => if h : i < k then (xs.getD p 0) ⟨i, h⟩ else 0
      | _ => 0⟩
    some ((Arrays.firstToLast x).reshape (k :: dims))

/-- `shells.py:734-809` `partition_nnls`; `none` means that the inner loop of `nnls` does not
end within `fuel` iterations. -/
noncomputable def partitionNnls (qr : Qr) (solve : Algorithm.Solver) (fuel : ℕ) (z : List ℝ)
    (fz : NdArray ℝ) (shells : List RadialWindow) (sumtol : ℝ) :
    Option (Except Err (Option (NdArray ℝ))) :=
  match partitionProblem z fz shells sumtol with
  | .error e => some (.error e)
  | .ok ⟨_, _, none⟩ => some (.ok none)
  | .ok ⟨zp, b, some a⟩ =>
    (nnlsRows qr solve fuel (zp.length + 1) shells.length a b).map fun r => r.map some

/-! ## Restriction, and the choice of the method -/

/-- `shells.py:490-541` `restrict` for a function with leading axes: the grid, and the values. -/
noncomputable def restrictNd (z : List ℝ) (fz : NdArray ℝ) (w : RadialWindow) :
    Except Err (List ℝ × NdArray ℝ) :=
  open Classical in
  match w.za.head?, w.za.getLast? with
  | some za0, some za1 =>
    let z_ := z.filter fun t => za0 < t ∧ t < za1
    let zr := union1d w.za z_
    match ndinterp zr z fz (some 0) (some 0) with
    | .error e => .error e
    | .ok f => .ok (zr, ⟨f.shape, fun i =>
        f.get i * interp none none w.knots (zr.getD (i.getLast?.getD 0) 0)⟩)
  | _, _ => .error .index

/-- `uxpx.trapezoid(fr, zr, axis=-1)`. -/
noncomputable def trapezoidLast (x : List ℝ) (f : NdArray ℝ) : NdArray ℝ :=
  ⟨f.shape.dropLast, fun i => trapezoid (x.zip (slice f x.length i))⟩

/-- `xp.stack(parts)`: a new first axis.  All arrays have the same shape here. -/
noncomputable def stack (parts : List (NdArray ℝ)) : Except Err (NdArray ℝ) :=
  match parts with
  | [] => .error (.value "need at least one array to stack")
  | p :: ps => .ok ⟨(ps.length + 1) :: p.shape, fun
    | j :: i => match (p :: ps)[j]? with
      | some a => a.get i
      | none => 0
    | [] => 0⟩

/-- `shells.py:812-840` `partition_restrict` for a function with leading axes. -/
noncomputable def partitionRestrictNd (z : List ℝ) (fz : NdArray ℝ) (shells : List RadialWindow) :
    Except Err (NdArray ℝ) :=
  match shells.mapM fun w => (restrictNd z fz w).map fun r => trapezoidLast r.1 r.2 with
  | .error e => .error e
  | .ok parts => stack parts

/-- The names that `globals()` has in the module `shells.py`: those of the imports (lines 47-68),
of `__lazy_modules__`, of the classes and functions, and the ones that every module has. -/
def shellsNames : List String :=
  ["__name__", "__doc__", "__package__", "__loader__", "__spec__", "__file__", "__cached__",
   "__builtins__", "annotations", "__lazy_modules__", "dataclasses", "itertools", "math", "typing",
   "warnings", "TYPE_CHECKING", "array_api_compat", "xpx", "_utils", "glass", "uxpx",
   "DistanceWeight", "VolumeWeight", "DensityWeight", "RadialWindow", "tophat_windows",
   "linear_windows", "cubic_windows", "restrict", "partition", "partition_lstsq", "partition_nnls",
   "partition_restrict", "_uniform_grid", "redshift_grid", "distance_grid", "combine",
   "distribute"]

/-- `shells.py:544-661` `partition`: the function `partition_{method}` is looked up among the names
of the module, and called with the default sum tolerance 0.01.  The outer option and the inner one
are those of `partitionNnls`. -/
noncomputable def partition (lstsq : Lstsq) (qr : Qr) (solve : Algorithm.Solver) (fuel : ℕ)
    (z : List ℝ) (fz : NdArray ℝ) (shells : List RadialWindow) (method : Option String) :
    Option (Except Err (Option (NdArray ℝ))) :=
  let method := method.getD "nnls"
  let name := "partition_" ++ method
  if name ∈ shellsNames then
    if name = "partition_lstsq" then some (partitionLstsq lstsq z fz shells 0.01)
    else if name = "partition_nnls" then partitionNnls qr solve fuel z fz shells 0.01
    else if name = "partition_restrict" then some ((partitionRestrictNd z fz shells).map some)
    else some (.error (.type "object is not callable"))
  else some (.error (.value ("invalid method: " ++ method)))

end Glass.Shells
