import Mathlib.Analysis.SpecialFunctions.Complex.Arg
import Mathlib.Analysis.SpecialFunctions.Trigonometric.Inverse
import Mathlib.Analysis.SpecialFunctions.Log.Basic
import Verif.Common.Err

/-!
# Positions of points

Model of `/repo/glass/points.py` (sampling of positions, bias models, weights, displacements) and
of `deflect` in `/repo/glass/lensing.py`.

Numbers are exact reals.  Random generators are a state `σ` together with the functions that are
called.  Maps are lists of pixel values.
-/

namespace Glass.Points

/-- `points.py:72` `ARCMIN2_SPHERE = 60**6 // 100 / math.pi`. -/
noncomputable def arcmin2Sphere : ℝ := ((60 ^ 6 / 100 : ℕ) : ℝ) / Real.pi

/-- `points.py:115-134` `linear_bias` for one value. -/
def linearBias (delta b : ℝ) : ℝ := b * delta

/-- `points.py:137-160` `loglinear_bias` for one value. -/
noncomputable def loglinearBias (delta b : ℝ) : ℝ :=
  let deltaG := Real.log (1 + delta)
  let deltaG := deltaG * b
  Real.exp deltaG - 1

/-- `points.py:214-249` `_compute_density_contrast` for one population: the indexing by `k` has
been done. -/
def computeDensityContrast (bias : Option ℝ) (biasModel : List ℝ → ℝ → List ℝ)
    (delta : List ℝ) : List ℝ :=
  match bias with
  | none => delta
  | some b => biasModel delta b

/-- `xp.mean`. -/
noncomputable def mean (n : List ℝ) : ℝ := n.sum / n.length

/-- `points.py:252-288` `_compute_expected_count` for one population. -/
noncomputable def computeExpectedCount (n : List ℝ) (ngal : ℝ) (removeMonopole : Bool) :
    List ℝ :=
  let n := if removeMonopole then n.map (· - mean n) else n
  let n := n.map (· + 1)
  n.map (· * (arcmin2Sphere / n.length * ngal))

/-- `points.py:291-316` `_apply_visibility` for one population; the visibility has as many pixels
as the map. -/
def applyVisibility (n : List ℝ) (vis : Option (List ℝ)) : List ℝ :=
  match vis with
  | none => n
  | some v => List.zipWith (· * ·) n v

/-- `points.py:319-348` `_sample_number_galaxies`. -/
noncomputable def sampleNumberGalaxies {σ : Type} (poisson : σ → List ℝ → List ℕ × σ) (s : σ)
    (n : List ℝ) : List ℕ × σ :=
  let n := n.map (max · 0)
  poisson s n

/-- `xp.cumulative_sum`. -/
def cumsum (l : List ℕ) : List ℕ := (l.scanl (· + ·) 0).tail

/-- `xp.searchsorted(q, v, side="right")` for a sorted array: the number of entries that are not
larger than `v`. -/
def searchsortedRight (q : List ℕ) (v : ℤ) : ℕ := q.countP fun x : ℕ => decide ((x : ℤ) ≤ v)

/-- `xp.repeat(xp.arange(start, stop), n[start:stop])`. -/
def repeatPix (n : List ℕ) (start stop : ℕ) : List ℕ :=
  (List.range' start (stop - start)).flatMap fun i => List.replicate n[i]! i

/-- How the loop ends. -/
inductive Outcome where
  | finished (stop : ℕ)
  | raised (e : Err)
  | unfinished

/-- The loop of `points.py:408-437`.  `fuel` bounds the number of iterations.  The positions are
drawn from the list of pixel indices `ipix`, which is what is yielded here.  `q[-1]` of an empty
array raises `IndexError`, and `xp.repeat` raises `ValueError` if the arrays have different
lengths. -/
def pixelLoop (n : List ℕ) (batch : ℤ) (step : ℕ) :
    ℕ → ℕ → ℕ → ℕ → ℤ → List (List ℕ) × Outcome
  | 0, _, stop, _, count => if count = 0 then ([], .finished stop) else ([], .unfinished)
  | fuel + 1, start, stop, size, count =>
    if count = 0 then ([], .finished stop)
    else
      let npix := n.length
      let q := cumsum ((n.drop stop).take (min npix (stop + step) - stop))
      match q.getLast? with
      | none => ([], .raised .index)
      | some qLast =>
        if (size : ℤ) + qLast < min batch count then
          pixelLoop n batch step fuel start (stop + step) (size + qLast) count
        else
          let stop := stop + searchsortedRight q (batch - size)
          let stop := if stop = start then stop + 1 else stop
          if npix < stop then
            ([], .raised (.value "operands could not be broadcast together"))
          else
            let ipix := repeatPix n start stop
            let r := pixelLoop n batch step fuel stop stop 0 (count - ipix.length)
            (ipix :: r.1, r.2)

/-- `points.py:351-440` `_sample_galaxies_per_pixel`: the lists of pixel indices of the batches,
and the exception if there is one.  The number of pixels is assumed to be valid for
`npix2nside`. -/
def sampleGalaxiesPerPixel (n : List ℕ) (batch : ℤ) : List (List ℕ) × Option Err :=
  let count : ℤ := (n.sum : ℕ)
  if count = 0 then ([], none)
  else
    let r := pixelLoop n batch 1000 (2 * n.length) 0 0 0 count
    match r.2 with
    | .finished stop => if (n.drop stop).sum = 0 then (r.1, none) else (r.1, some .assertion)
    | .raised e => (r.1, some e)
    | .unfinished => (r.1, some .assertion)

/-- One yielded batch: the population, the pixel of each point, and the count reported for each
population (`ipix.size * cmask`, `points.py:401-406`, `437`). -/
structure Batch (ι : Type) where
  pop : ι
  ipix : List ℕ
  count : ι → ℕ

/-- `points.py:443-540` `positions_from_delta` after broadcasting: `pops` are the indices
of the populations in order, and the maps and numbers are functions of the population.
An exception ends the generator. -/
noncomputable def positionsFromDelta {σ ι : Type} [DecidableEq ι]
    (poisson : σ → List ℝ → List ℕ × σ) (ngal : ι → ℝ) (delta : ι → List ℝ)
    (bias : Option (ι → ℝ)) (vis : Option (ι → List ℝ)) (biasModel : List ℝ → ℝ → List ℝ)
    (removeMonopole : Bool) (batch : ℤ) : List ι → σ → List (Batch ι) × Option Err
  | [], _ => ([], none)
  | k :: ks, s =>
    let n := computeDensityContrast (bias.map fun b => b k) biasModel (delta k)
    let n := computeExpectedCount n (ngal k) removeMonopole
    let n := applyVisibility n (vis.map fun v => v k)
    let (n, s) := sampleNumberGalaxies poisson s n
    let (ipixs, e) := sampleGalaxiesPerPixel n batch
    let bs := ipixs.map fun ipix =>
      { pop := k, ipix := ipix, count := fun j => ipix.length * if j = k then 1 else 0 }
    match e with
    | some e => (bs, some e)
    | none =>
      let r := positionsFromDelta poisson ngal delta bias vis biasModel removeMonopole batch ks s
      (bs ++ r.1, r.2)

/-- `_array_api_utils.py:476-502` `degrees`. -/
noncomputable def degrees (x : ℝ) : ℝ := x * 180 / Real.pi

/-- `_array_api_utils.py:447-473` `radians`. -/
noncomputable def radians (x : ℝ) : ℝ := x * Real.pi / 180

/-- One yield of `uniform_positions`. -/
structure UniformBatch (ι : Type) where
  lon : List ℝ
  lat : List ℝ
  count : ι → ℕ

/-- `points.py:543-607` `uniform_positions`: `ks` are the indices of the array `ngal` in order.
`uniform s a b size` is `rng.uniform(a, b, size=size)`. -/
noncomputable def uniformPositions {σ ι : Type} [DecidableEq ι]
    (poisson : σ → List ℝ → List ℕ × σ) (uniform : σ → ℝ → ℝ → ℕ → List ℝ × σ) (ks : List ι)
    (ngal : ι → ℝ) (s : σ) : List (UniformBatch ι) :=
  let (ngalSphere, s) := poisson s (ks.map fun k => arcmin2Sphere * ngal k)
  let rec go : List (ι × ℕ) → σ → List (UniformBatch ι)
    | [], _ => []
    | (k, size) :: rest, s =>
      let (lon, s) := uniform s (-180) 180 size
      let (u, s) := uniform s (-1) 1 size
      let lat := u.map fun x => degrees (Real.arcsin x)
      { lon := lon, lat := lat, count := fun j => if j = k then size else 0 } :: go rest s
  go (ks.zip ngalSphere) s

/-- `xp.broadcast_arrays` for one-dimensional arrays. -/
def broadcastArrays (a b : List ℝ) : Except Err (List ℝ × List ℝ) :=
  if a.length = b.length then .ok (a, b)
  else if a.length = 1 then .ok (List.replicate b.length a[0]!, b)
  else if b.length = 1 then .ok (a, List.replicate a.length b[0]!)
  else .error (.value "shape mismatch")

/-- `points.py:610-651` `position_weights` for one population: the first axis (shells) of the
densities, and the first axis of the bias if it is given.  `broadcast_first`
(`arraytools.py:24-44`) brings the two to the same length; the remaining axes only select the
population. -/
noncomputable def positionWeights (densities : List ℝ) (bias : Option (List ℝ)) :
    Except Err (List ℝ) :=
  match bias with
  | none => .ok (densities.map (· / densities.sum))
  | some b => do
    let (densities, b) ← broadcastArrays densities b
    let densities := densities.map (· / densities.sum)
    .ok (List.zipWith (· * ·) densities b)

/-- `xp.atan2(y, x)`. -/
noncomputable def atan2 (y x : ℝ) : ℝ := Complex.arg ⟨x, y⟩

/-- `xp.hypot`. -/
noncomputable def hypot (x y : ℝ) : ℝ := Real.sqrt (x ^ 2 + y ^ 2)

/-- `points.py:654-716` `displace` for one point, with the displacement `alpha1 + i alpha2`;
returns longitude and latitude in degrees. -/
noncomputable def displace (lon lat alpha1 alpha2 : ℝ) : ℝ × ℝ :=
  let t := lat / 180 * Real.pi
  let ct := Real.sin t
  let st := Real.cos t
  let a := hypot alpha1 alpha2
  let g := atan2 alpha2 alpha1
  let ca := Real.cos a
  let sa := Real.sin a
  let cg := Real.cos g
  let sg := Real.sin g
  let tp := atan2 (ct * ca + st * sa * cg) (hypot (ct * sa - st * ca * cg) (st * sg))
  let d := atan2 (sa * sg) (st * ca - ct * sa * cg)
  (lon + d / Real.pi * 180, tp / Real.pi * 180)

/-- `points.py:719-770` `displacement` for one pair of points. -/
noncomputable def displacement (fromLon fromLat toLon toLat : ℝ) : ℂ :=
  let a := radians fromLat
  let b := radians toLat
  let g := radians (toLon - fromLon)
  let sa := Real.sin a
  let ca := Real.cos a
  let sb := Real.sin b
  let cb := Real.cos b
  let sg := Real.sin g
  let cg := Real.cos g
  let r := atan2 (hypot (cb * sg) (ca * sb - sa * cb * cg)) (sa * sb + ca * cb * cg)
  let x := atan2 (cb * sg) (ca * sb - sa * cb * cg)
  r * Complex.exp (Complex.I * x)

/-- `lensing.py:687-765` `deflect` for one point. -/
noncomputable def deflect (lon lat alpha1 alpha2 : ℝ) : ℝ × ℝ :=
  let t := radians lat
  let ct := Real.sin t
  let st := Real.cos t
  let a := hypot alpha1 alpha2
  let g := atan2 alpha2 alpha1
  let ca := Real.cos a
  let sa := Real.sin a
  let cg := Real.cos g
  let sg := Real.sin g
  let tp := atan2 (ct * ca + st * sa * cg) (hypot (ct * sa - st * ca * cg) (st * sg))
  let d := atan2 (sa * sg) (st * ca - ct * sa * cg)
  (lon - degrees d, degrees tp)

end Glass.Points
