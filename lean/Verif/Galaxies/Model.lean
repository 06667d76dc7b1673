import Mathlib.Data.Complex.Basic
import Mathlib.Data.EReal.Basic
import Mathlib.Data.List.Dedup
import Mathlib.Algebra.Order.Floor.Defs
import Mathlib.Algebra.Order.Archimedean.Real.Basic
import Verif.Numerics.Model
import Verif.Arrays.Model

/-!
# Galaxies

Model of `/repo/glass/galaxies.py`: sampling of redshifts, lensed ellipticities and photometric
redshifts.

Numbers are exact reals.  Random generators are a state `σ` together with the functions that are
called.
-/

namespace Glass.Galaxies

open Glass Glass.Num Glass.Arrays

/-! ## Redshifts -/

/-- `galaxies.py:81-82`: the normalised cumulative distribution.  If the integral is zero, the code
divides 0 by 0; then the value here is meaningless. -/
noncomputable def cdf (ks : List (ℝ × ℝ)) : List ℝ :=
  let c := cumulativeTrapezoid ks
  c.map fun x => x / c.getLast?.getD 0

/-- `galaxies.py:85-89`: the redshift for one uniform variate. -/
noncomputable def inverseCdf (ks : List (ℝ × ℝ)) (u : ℝ) : ℝ :=
  interp none none (List.zip (cdf ks) (ks.map Prod.fst)) u

/-- The values as the trapezoidal rule of `galaxies.py:81` uses them: the sums of neighbouring
values are multiplied with the steps of `z`, so that two values, whose one sum is used for all steps,
act like a constant; with any other number of values the arrays must have the same length. -/
noncomputable def matchNz (z nz : List ℝ) : Except Err (List ℝ) :=
  if z.length = nz.length then .ok nz
  else match nz with
    | [a, b] => .ok (List.replicate z.length ((a + b) / 2))
    | _ => .error (.value "shapes do not match")

/-- `galaxies.py:51-89` `_draw_nz`.  `uniform s n` is `rng.uniform(0, 1, size=n)`; `interp` raises
`ValueError` if there are no points. -/
noncomputable def drawNz {σ : Type} (uniform : σ → ℕ → List ℝ × σ) (s : σ) (count : ℕ)
    (z nz : List ℝ) : Except Err (List ℝ × σ) := do
  let nz ← matchNz z nz
  if z = [] then .error (.value "array of sample points is empty")
  else
    let (us, s) := uniform s count
    .ok (us.map (inverseCdf (z.zip nz)), s)

/-- `xpx.at(arr)[start:stop].set(v)`; the number of values must be that of the slice (a single value
for a longer slice would be repeated, which is not modelled). -/
def setSlice {α : Type} (arr : List α) (start stop : ℕ) (v : List α) : Except Err (List α) :=
  if v.length = min stop arr.length - start then
    .ok (arr.take start ++ v ++ arr.drop (start + v.length))
  else .error (.value "could not broadcast input array")

/-- `a[(*k, ...)]` for an array with one axis more than `k` has indices. -/
def slice1 {α : Type} (a : NdArray α) (k : List ℕ) : Except Err (List α) :=
  match a.shape.drop k.length with
  | [m] => .ok ((List.range m).map fun j => a.get (k ++ [j]))
  | _ => .error .index

/-- The loop of `galaxies.py:251-264`, over the remaining multi-indices. -/
noncomputable def nzLoop {σ : Type} (uniform : σ → ℕ → List ℝ × σ) (count z nz : NdArray ℝ) :
    List (List ℕ) → List ℝ → ℕ → σ → Except Err (List ℝ × ℕ × σ)
  | [], redshifts, total, s => .ok (redshifts, total, s)
  | k :: ks, redshifts, total, s => do
    let nzSlice ← slice1 nz k
    let zSlice ← slice1 z k
    let c := ⌊count.get k⌋₊
    let (v, s) ← drawNz uniform s c zSlice nzSlice
    let redshifts ← setSlice redshifts total (total + c) v
    nzLoop uniform count z nz ks redshifts (total + c) s

/-- `galaxies.py:188-268` `redshifts_from_nz` without the warning.  `junk` are the values in fresh
memory (`xp.empty`).  The counts are integers; they are embedded in the reals so that the three
arrays have one type. -/
noncomputable def redshiftsFromNz {σ : Type} (uniform : σ → ℕ → List ℝ × σ) (junk : ℕ → ℝ) (s : σ)
    (count : NdArray ℕ) (z nz : NdArray ℝ) : Except Err (List ℝ × σ) := do
  let (dims, rest) ← broadcastLeadingAxes [(count.map fun n : ℕ => (n : ℝ), 0), (z, 1), (nz, 1)]
  match rest with
  | [countOut, zOut, nzOut] =>
    let redshifts := (List.range ((countOut.ravel.map fun x => ⌊x⌋₊).sum)).map junk
    let (redshifts, total, s) ←
      nzLoop uniform countOut zOut nzOut (NdArray.indices dims) redshifts 0 s
    if total ≠ redshifts.length then .error .assertion else .ok (redshifts, s)
  | _ => .error .assertion

/-- `galaxies.py:92-119` `redshifts`: the samples of the window are the distribution. -/
noncomputable def redshifts {σ : Type} (uniform : σ → ℕ → List ℝ × σ) (junk : ℕ → ℝ) (s : σ)
    (n : NdArray ℕ) (w : List (ℝ × ℝ)) : Except Err (List ℝ × σ) :=
  redshiftsFromNz uniform junk s n ⟨[w.length], fun i => (w[i.headD 0]?.getD (0, 0)).1⟩
    ⟨[w.length], fun i => (w[i.headD 0]?.getD (0, 0)).2⟩

/-- `xp.unique_all(bins)`, the first result: sorted labels. -/
def uniqueLabels {α : Type} [LinearOrder α] (l : List α) : List α :=
  l.dedup.mergeSort fun a b => decide (a ≤ b)

/-- `nz_values[nz_keys.index(x)]`; `ValueError` if the label is not a key. -/
def lookupNz {α : Type} [DecidableEq α] (dict : List (α × List ℝ)) (x : α) :
    Except Err (List ℝ) :=
  match dict.find? fun p => decide (p.1 = x) with
  | some p => .ok p.2
  | none => .error (.value "not in list")

/-- The list of `galaxies.py:169-172`: the draws for each label. -/
noncomputable def drawRuns {α σ : Type} [DecidableEq α] (uniform : σ → ℕ → List ℝ × σ) (z : List ℝ)
    (dict : List (α × List ℝ)) : List (α × ℕ) → σ → Except Err (List (List ℝ) × σ)
  | [], s => .ok ([], s)
  | (x, k) :: rest, s => do
    let nz ← lookupNz dict x
    let (run, s) ← drawNz uniform s k z nz
    let (runs, s) ← drawRuns uniform z dict rest s
    .ok (run :: runs, s)

/-- `xp.argsort(a)`: along the last axis; `argsort` sorts one row.  (A zero-dimensional array is
taken to raise.) -/
def argsortLast (argsort : List ℕ → List ℕ) (a : NdArray ℕ) : Except Err (NdArray ℕ) :=
  match a.shape.getLast? with
  | none => .error .index
  | some n => .ok ⟨a.shape, fun idx =>
      (argsort ((List.range n).map fun j => a.get (idx.dropLast ++ [j])))[idx.getLast?.getD 0]!⟩

/-- `galaxies.py:122-185` `redshifts_from_bins`.  `unique_all` returns the index of the label of
each object as an array of the same shape as `bins`.  `xp.concat` of no arrays raises
`ValueError`. -/
noncomputable def redshiftsFromBins {α σ : Type} [LinearOrder α]
    (uniform : σ → ℕ → List ℝ × σ) (argsort : List ℕ → List ℕ) (s : σ) (bins : NdArray α)
    (z : List ℝ) (dict : List (α × List ℝ)) : Except Err (NdArray ℝ × σ) :=
  let binLabel := uniqueLabels bins.ravel
  let binIndex : NdArray ℕ := bins.map fun x => binLabel.idxOf x
  let binCount := binLabel.map fun x => bins.ravel.count x
  do
    let (runs, s) ← drawRuns uniform z dict (binLabel.zip binCount) s
    if runs.isEmpty then .error (.value "need at least one array to concatenate")
    else
      let redshifts := runs.flatten
      let binIndex ← argsortLast argsort binIndex
      let binIndex ← argsortLast argsort binIndex
      if binIndex.ravel.any fun i => decide (redshifts.length ≤ i) then .error .index
      else
        let r ← NdArray.reshape (binIndex.map fun i => redshifts[i]!) bins.shape
        .ok (r, s)

/-! ## Lensed ellipticities -/

/-- The loop of `galaxies.py:330-335` over the first indices of the chunks.  The maps are functions
of the pixel index, `pix` is `ang2pix` of a position. -/
def shearLoop {npix : ℕ} (chunk : ℕ) (pix : ℝ × ℝ → Fin npix) (lonlat : List (ℝ × ℝ))
    (kappa gamma1 gamma2 : Fin npix → ℝ) (size : ℕ) :
    List ℕ → List ℝ → List ℂ → Except Err (List ℝ × List ℂ)
  | [], k, g => .ok (k, g)
  | i :: is, k, g => do
    let upper := min size (i + chunk)
    let ipix := ((lonlat.take upper).drop i).map pix
    let k ← setSlice k i upper (ipix.map kappa)
    let g ← setSlice g i upper (ipix.map fun p => (gamma1 p : ℂ) + Complex.I * gamma2 p)
    shearLoop chunk pix lonlat kappa gamma1 gamma2 size is k g

/-- `galaxies.py:271-347` `galaxy_shear` for a catalogue of positions with as many ellipticities;
`chunk` is 10 000 in the code.  The maps have the same number of pixels, for which `npix2nside` has
been successful.  Positions and ellipticities of different lengths are in `galaxyShearVec`. -/
noncomputable def galaxyShear {npix : ℕ} (chunk : ℕ) (junk : ℕ → ℝ) (pix : ℝ × ℝ → Fin npix)
    (lonlat : List (ℝ × ℝ)) (eps : List ℂ) (kappa gamma1 gamma2 : Fin npix → ℝ)
    (reducedShear : Bool) : Except Err (List ℂ) :=
  if lonlat.length ≠ eps.length then .error (.value "shape mismatch")
  else
    let size := lonlat.length
    let k := (List.range size).map junk
    let g : List ℂ := (List.range size).map fun i => (junk i : ℂ)
    let starts := (List.range ((size + (chunk - 1)) / chunk)).map (· * chunk)
    do
      let (k, g) ← shearLoop chunk pix lonlat kappa gamma1 gamma2 size starts k g
      if reducedShear then
        let g := List.zipWith (fun g k : ℂ => g / (1 - k)) g (k.map Complex.ofReal)
        .ok (List.zipWith (fun e g : ℂ => (e + g) / (1 + (starRingEnd ℂ) g * e)) eps g)
      else
        .ok (List.zipWith (· + ·) g eps)

/-! ## Photometric redshifts -/

/-- `rng.normal(loc, scale)` with arrays. -/
abbrev Normal (σ : Type) := σ → NdArray ℝ → NdArray ℝ → Except Err (NdArray ℝ × σ)

/-- The truth value of an array; ambiguous unless there is a single entry. -/
def truth (a : NdArray Bool) : Except Err Bool :=
  match a.ravel with
  | [b] => .ok b
  | _ => .error (.value "the truth value of an array is ambiguous")

/-- `galaxies.py:446`: `zphot < lower_arr or zphot > upper_arr`; the second operand is only
evaluated if the first one is false. -/
noncomputable def outside (zphot : NdArray ℝ) (lower upper : NdArray EReal) : Except Err Bool :=
  open Classical in do
  let a ← NdArray.map₂ (fun (z : ℝ) (l : EReal) => decide ((z : EReal) < l)) zphot lower
  let b ← truth a
  if b then .ok true
  else
    let c ← NdArray.map₂ (fun (z : ℝ) (u : EReal) => decide (u < (z : EReal))) zphot upper
    truth c

/-- `galaxies.py:446-447`: the loop for a single object.  `none` if `fuel` iterations do not
suffice. -/
noncomputable def scalarLoop {σ : Type} (normal : Normal σ) (z sigma : NdArray ℝ)
    (lower upper : NdArray EReal) : ℕ → NdArray ℝ → σ → Option (Except Err (NdArray ℝ × σ))
  | 0, _, _ => none
  | fuel + 1, zphot, s =>
    match outside zphot lower upper with
    | .error e => some (.error e)
    | .ok false => some (.ok (zphot, s))
    | .ok true =>
      match normal s z sigma with
      | .error e => some (.error e)
      | .ok (zphot, s) => scalarLoop normal z sigma lower upper fuel zphot s

/-- `galaxies.py:450`, `453`: `(zphot < lower_arr) | (zphot > upper_arr)`. -/
noncomputable def truncMask (zphot : NdArray ℝ) (lower upper : NdArray EReal) :
    Except Err (NdArray Bool) :=
  open Classical in do
  let a ← NdArray.map₂ (fun (z : ℝ) (l : EReal) => decide ((z : EReal) < l)) zphot lower
  let b ← NdArray.map₂ (fun (z : ℝ) (u : EReal) => decide (u < (z : EReal))) zphot upper
  NdArray.map₂ (· || ·) a b

/-- `xp.where(trunc, new, old)`. -/
def where3 (trunc : NdArray Bool) (new old : NdArray ℝ) : Except Err (NdArray ℝ) := do
  let p ← NdArray.map₂ (fun (t : Bool) (x : ℝ) => (t, x)) trunc new
  NdArray.map₂ (fun (p : Bool × ℝ) (y : ℝ) => if p.1 then p.2 else y) p old

/-- `galaxies.py:450-453`: the loop for an array. -/
noncomputable def arrayLoop {σ : Type} (normal : Normal σ) (z sigma : NdArray ℝ)
    (lower upper : NdArray EReal) : ℕ → NdArray ℝ → σ → Option (Except Err (NdArray ℝ × σ))
  | 0, _, _ => none
  | fuel + 1, zphot, s =>
    match truncMask zphot lower upper with
    | .error e => some (.error e)
    | .ok trunc =>
      if trunc.ravel.count true > 0 then
        match normal s z sigma with
        | .error e => some (.error e)
        | .ok (new, s) =>
          match where3 trunc new zphot with
          | .error e => some (.error e)
          | .ok zphot => arrayLoop normal z sigma lower upper fuel zphot s
      else some (.ok (zphot, s))

/-- `galaxies.py:424-429`: the bounds as arrays. -/
noncomputable def boundArrays (lower upper : Option (NdArray EReal)) : NdArray EReal × NdArray EReal :=
  match lower, upper with
  | none, none => (⟨[], fun _ => 0⟩, ⟨[], fun _ => ⊤⟩)
  | none, some u => (⟨u.shape, fun _ => 0⟩, u)
  | some l, none => (l, ⟨l.shape, fun _ => ⊤⟩)
  | some l, some u => (l, u)

/-- `galaxies.py:350-455` `gaussian_phz`.  Bounds may be infinite, NaN is not modelled. -/
noncomputable def gaussianPhz {σ : Type} (normal : Normal σ) (fuel : ℕ) (s : σ)
    (z sigma0 : NdArray ℝ) (lower upper : Option (NdArray EReal)) :
    Option (Except Err (NdArray ℝ × σ)) :=
  let (lo, up) := boundArrays lower upper
  match NdArray.map₂ (fun z s0 : ℝ => (1 + z) * s0) z sigma0 with
  | .error e => some (.error e)
  | .ok sigma =>
    let dims := sigma.shape
    match normal s z sigma with
    | .error e => some (.error e)
    | .ok (zphot, s) =>
      if lo.shape.length = up.shape.length ∧ up.shape.length ≠ 0 ∧
          ¬ (lo.shape = up.shape ∧ up.shape = zphot.shape) then
        some (.error (.value "lower and upper must best scalars or have the same shape as z"))
      else
        open Classical in
        match NdArray.map₂ (fun l u : EReal => decide (l < u)) lo up with
        | .error e => some (.error e)
        | .ok ordered =>
          if ¬ (ordered.ravel.all id) then some (.error (.value "requires lower < upper"))
          else if dims = [] then scalarLoop normal z sigma lo up fuel zphot s
          else
            match broadcastTo z dims with
            | .error e => some (.error e)
            | .ok z => arrayLoop normal z sigma lo up fuel zphot s

end Glass.Galaxies
