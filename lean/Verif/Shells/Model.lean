import Mathlib.Data.Int.Basic
import Mathlib.Algebra.Order.Archimedean.Real.Basic
import Verif.Numerics.Model

/-!
# Radial windows

Model of `/repo/glass/shells.py` (window functions, restriction, partition by restriction, grids,
`combine`, `distribute`) and of `effective_bias` and `linear_bias` in `/repo/glass/points.py`.

Numbers are exact reals.  One-dimensional arrays are lists; the two arrays `za`, `wa` of a window
are a list of knots.  Warnings are left out.
-/

namespace Glass.Shells

open Glass.Num

/-- `shells.py:184-280` `RadialWindow`; the dataclass does not check that the arrays have the same
length, the functions below only build windows for which they have. -/
structure RadialWindow where
  knots : List (ℝ × ℝ)
  zeff : ℝ

/-- `za` of a window. -/
def RadialWindow.za (w : RadialWindow) : List ℝ := w.knots.map Prod.fst

/-- `shells.py:266-280` `_calculate_zeff`; `none` is NaN.  A vanishing normalisation gives NaN or
an infinity in the code and `none` here. -/
noncomputable def calculateZeff (ks : List (ℝ × ℝ)) : Option ℝ :=
  open Classical in
  if ks.length > 0 then
    if trapezoid ks = 0 then none
    else some (trapezoid (ks.map fun k => (k.1, k.1 * k.2)) / trapezoid ks)
  else none

/-- `int(max(xp.round((b - a) / dz), 2))`, `shells.py:343`, `406-407`, `476-477`.  `rnd` stands for
the rounding of the array library. -/
noncomputable def gridSize (rnd : ℝ → ℤ) (dz a b : ℝ) : ℕ := (max (rnd ((b - a) / dz)) 2).toNat

/-- `itertools.pairwise`. -/
def pairs {α : Type*} (l : List α) : List (α × α) := l.zip l.tail

/-- `zip(zgrid, zgrid[1:], zgrid[2:], strict=False)`. -/
def triples {α : Type*} (l : List α) : List (α × α × α) := l.zip (l.tail.zip l.tail.tail)

/-- Values of an optional weight function that acts on each point. -/
def applyWeight (weight : Option (ℝ → ℝ)) (ks : List (ℝ × ℝ)) : List (ℝ × ℝ) :=
  match weight with
  | none => ks
  | some wht => ks.map fun k => (k.1, k.2 * wht k.1)

/-- One window of `tophat_windows`, `shells.py:343-347`. -/
noncomputable def tophatWindow (rnd : ℝ → ℤ) (dz : ℝ) (weight : Option (ℝ → ℝ)) (zmin zmax : ℝ) :
    RadialWindow :=
  let n := gridSize rnd dz zmin zmax
  let z := linspace zmin zmax n
  let wht := weight.getD fun _ => 1
  let w := z.map wht
  let zeff := trapezoid (z.zip (List.zipWith (· * ·) w z)) / trapezoid (z.zip w)
  ⟨z.zip w, zeff⟩

/-- `shells.py:283-348` `tophat_windows` for a one-dimensional array. -/
noncomputable def tophatWindows (rnd : ℝ → ℤ) (zbins : List ℝ) (dz : ℝ)
    (weight : Option (ℝ → ℝ)) : Except Err (List RadialWindow) :=
  if zbins.length < 2 then .error (.value "zbins must have at least two entries")
  else .ok ((pairs zbins).map fun p => tophatWindow rnd dz weight p.1 p.2)

/-- One window of `linear_windows`, `shells.py:406-416`. -/
noncomputable def linearWindow (rnd : ℝ → ℤ) (dz : ℝ) (weight : Option (ℝ → ℝ))
    (zmin zmid zmax : ℝ) : RadialWindow :=
  let n := gridSize rnd dz zmin zmid - 1
  let m := gridSize rnd dz zmid zmax
  let z := linspaceOpen zmin zmid n ++ linspace zmid zmax m
  let w := linspaceOpen 0 1 n ++ linspace 1 0 m
  ⟨applyWeight weight (z.zip w), zmid⟩

/-- `shells.py:351-417` `linear_windows` for a one-dimensional array. -/
noncomputable def linearWindows (rnd : ℝ → ℤ) (zgrid : List ℝ) (dz : ℝ)
    (weight : Option (ℝ → ℝ)) : Except Err (List RadialWindow) :=
  if zgrid.length < 3 then .error (.value "nodes must have at least 3 entries")
  else .ok ((triples zgrid).map fun t => linearWindow rnd dz weight t.1 t.2.1 t.2.2)

/-- One window of `cubic_windows`, `shells.py:476-486`. -/
noncomputable def cubicWindow (rnd : ℝ → ℤ) (dz : ℝ) (weight : Option (ℝ → ℝ))
    (zmin zmid zmax : ℝ) : RadialWindow :=
  let n := gridSize rnd dz zmin zmid - 1
  let m := gridSize rnd dz zmid zmax
  let z := linspaceOpen zmin zmid n ++ linspace zmid zmax m
  let u := linspaceOpen 0 1 n
  let v := linspace 1 0 m
  let w := (u.map fun u => u ^ 2 * (3 - 2 * u)) ++ (v.map fun v => v ^ 2 * (3 - 2 * v))
  ⟨applyWeight weight (z.zip w), zmid⟩

/-- `shells.py:420-487` `cubic_windows` for a one-dimensional array. -/
noncomputable def cubicWindows (rnd : ℝ → ℤ) (zgrid : List ℝ) (dz : ℝ)
    (weight : Option (ℝ → ℝ)) : Except Err (List RadialWindow) :=
  if zgrid.length < 3 then .error (.value "nodes must have at least 3 entries")
  else .ok ((triples zgrid).map fun t => cubicWindow rnd dz weight t.1 t.2.1 t.2.2)

/-- `shells.py:490-541` `restrict` for one slice of the function.  `w.za[0]` raises `IndexError`
for an empty window; `numpy.interp` raises `ValueError` for a function without points. -/
noncomputable def restrict (f : List (ℝ × ℝ)) (w : RadialWindow) :
    Except Err (List (ℝ × ℝ)) :=
  open Classical in
  match w.za.head?, w.za.getLast? with
  | some za0, some za1 =>
    let z := f.map Prod.fst
    let z_ := z.filter fun t => za0 < t ∧ t < za1
    let zr := union1d w.za z_
    if f = [] then .error (.value "array of sample points is empty")
    else .ok (zr.map fun t => (t, interp (some 0) (some 0) f t * interp none none w.knots t))
  | _, _ => .error .index

/-- The loop of `shells.py:836-839` for one slice of the function. -/
noncomputable def restrictParts (f : List (ℝ × ℝ)) (shells : List RadialWindow) :
    Except Err (List ℝ) :=
  shells.mapM fun w => (restrict f w).map trapezoid

/-- `shells.py:812-840` `partition_restrict` for one slice of the function.  `xp.stack` of no
arrays raises `ValueError`. -/
noncomputable def partitionRestrict (f : List (ℝ × ℝ)) (shells : List RadialWindow) :
    Except Err (List ℝ) :=
  match restrictParts f shells with
  | .error e => .error e
  | .ok [] => .error (.value "need at least one array to stack")
  | .ok parts => .ok parts

/-- `xp.arange(start, stop, step)` for a positive step. -/
noncomputable def arange (start stop step : ℝ) : List ℝ :=
  (List.range ⌈(stop - start) / step⌉₊).map fun k : ℕ => start + (k : ℝ) * step

/-- `shells.py:843-884` `_uniform_grid`; a step that is not positive is not modelled. -/
noncomputable def uniformGrid (start stop : ℝ) (step : Option ℝ) (num : Option ℕ) :
    Except Err (List ℝ) :=
  match step, num with
  | some step, none => .ok (arange start (stop + step) step)
  | none, some num => .ok (linspace start stop (num + 1))
  | _, _ =>
    .error (.value "exactly one of grid step size or number of steps must be given")

/-- `shells.py:887-916` `redshift_grid`. -/
noncomputable def redshiftGrid (zmin zmax : ℝ) (dz : Option ℝ) (num : Option ℕ) :
    Except Err (List ℝ) := uniformGrid zmin zmax dz num

/-- `shells.py:919-951` `distance_grid`; the two cosmological functions are parameters. -/
noncomputable def distanceGrid (comovingDistance invComovingDistance : ℝ → ℝ) (zmin zmax : ℝ)
    (dx : Option ℝ) (num : Option ℕ) : Except Err (List ℝ) :=
  let xmin := comovingDistance zmin
  let xmax := comovingDistance zmax
  (uniformGrid xmin xmax dx num).map fun x => x.map invComovingDistance

/-- `shells.py:954-1012` `combine` in one redshift and for weights without trailing axes.
`xp.stack` of no arrays raises `ValueError`, as does the interpolation of an empty window. -/
noncomputable def combine (z : ℝ) (weights : List ℝ) (shells : List RadialWindow) :
    Except Err ℝ :=
  let parts := shells.zip weights
  if parts = [] then .error (.value "need at least one array to stack")
  else if ∃ p ∈ parts, p.1.knots = [] then .error (.value "array of sample points is empty")
  else .ok (parts.map fun p =>
    let norm := trapezoid p.1.knots
    p.2 * interp (some 0) (some 0) (p.1.knots.map fun k => (k.1, k.2 / norm)) z).sum

/-- `points.py:75-112` `effective_bias`. -/
noncomputable def effectiveBias (b : List (ℝ × ℝ)) (w : RadialWindow) : Except Err ℝ :=
  let norm := trapezoid w.knots
  (trapezoidProduct b [w.knots]).map fun t => t / norm

/-- `xp.argmax` of a list of counts: the first position of the largest entry. -/
def argmax (l : List ℕ) : ℕ := l.idxOf (l.foldl max 0)

/-- The row of probabilities that `shells.py:1064-1084` builds for one redshift. -/
noncomputable def shellProbs (shells : List RadialWindow) (z : ℝ) : List ℝ :=
  open Classical in
  let weights := shells.map fun w => interp (some 0) (some 0) w.knots z
  let wnorm := weights.sum
  let outside : Prop := wnorm = 0
  let weights := weights.map fun w => w / (if outside then 1 else wnorm)
  let pout := if outside then 1 else 0
  pout :: weights

/-- The loop of `shells.py:1059-1100` over `range(0, size, batch)`: the redshifts of one batch,
then the rest.  The random generator is a state `σ` together with `multinomial`, which draws one
event from each row of probabilities.  `fuel` bounds the number of batches. -/
noncomputable def distributeLoop {σ : Type} (multinomial : σ → List (List ℝ) → List (List ℕ) × σ)
    (shells : List RadialWindow) (batch : ℕ) : ℕ → σ → List ℝ → List ℤ × σ
  | 0, s, _ => ([], s)
  | fuel + 1, s, redshifts =>
    if redshifts = [] then ([], s)
    else
      let z := redshifts.take batch
      let weights := z.map (shellProbs shells)
      let (counts, s) := multinomial s weights
      let index := counts.map fun c => ((argmax c : ℕ) : ℤ) - 1
      let (out, s) := distributeLoop multinomial shells batch fuel s (redshifts.drop batch)
      (index ++ out, s)

/-- An array: its shape and its entries in order. -/
structure Arr (α : Type) where
  shape : List ℕ
  data : List α

/-- `shells.py:1015-1106` `distribute`.  With redshifts but without shells `xp.stack` raises
`ValueError`, as does the interpolation of an empty window. -/
noncomputable def distribute {σ : Type} (multinomial : σ → List (List ℝ) → List (List ℕ) × σ)
    (redshifts : Arr ℝ) (shells : List RadialWindow) (s : σ) : Except Err (Arr ℤ × σ) :=
  if redshifts.data = [] then .ok (⟨redshifts.shape, []⟩, s)
  else if shells = [] then .error (.value "need at least one array to stack")
  else if ∃ w ∈ shells, w.knots = [] then .error (.value "array of sample points is empty")
  else
    let (out, s) := distributeLoop multinomial shells 1000 redshifts.data.length s redshifts.data
    .ok (⟨redshifts.shape, out⟩, s)

end Glass.Shells
