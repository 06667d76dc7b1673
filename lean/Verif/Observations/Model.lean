import Mathlib.Analysis.SpecialFunctions.Gaussian.GaussianIntegral
import Mathlib.Analysis.SpecialFunctions.Pow.Real
import Verif.Galaxies.Model
import Verif.Shapes.Model

/-!
# Observations

Model of `/repo/glass/observations.py`.

Numbers are exact reals; `none` stands for a floating-point result that is not a finite number.
Redshifts are a one-dimensional array, as documented.
-/

namespace Glass.Obs

open Glass Glass.Num Glass.Arrays Glass.Galaxies Glass.Shapes

/-! ## Visibility -/

/-- `healpix.py:359-395` `query_strip`: one in the pixels that `healpy.query_strip` returns. -/
noncomputable def queryStrip (npix : ℕ) (strip : ℝ → ℝ → List ℕ) (thetas : ℝ × ℝ) : List ℝ :=
  open Classical in
  (List.range npix).map fun i => if i ∈ strip thetas.1 thetas.2 then 1 else 0

/-- A pair of numbers from a sequence, `observations.py:90-95`. -/
def pair (what : String) : List ℝ → Except Err (ℝ × ℝ)
  | [a, b] => .ok (a, b)
  | _ => .error (.type what)

/-- `observations.py:51-101` `vmap_galactic_ecliptic`.  `strip` is `healpy.query_strip` and
`rotate coord` is `healpy.Rotator(coord=coord).rotate_map_pixel`. -/
noncomputable def vmapGalacticEcliptic (npix : ℕ) (strip : ℝ → ℝ → List ℕ)
    (rotate : String → List ℝ → List ℝ) (galactic ecliptic : List ℝ) : Except Err (List ℝ) := do
  let galactic ← pair "galactic stripe must be a pair of numbers" galactic
  let ecliptic ← pair "ecliptic stripe must be a pair of numbers" ecliptic
  let m := List.replicate npix (1 : ℝ)
  let m := List.zipWith (fun m q => m * (1 - q)) m (queryStrip npix strip galactic)
  let m := rotate "GC" m
  let m := List.zipWith (fun m q => m * (1 - q)) m (queryStrip npix strip ecliptic)
  .ok (rotate "CE" m)

/-- The default arguments `galactic=(30, 90)` and `ecliptic=(20, 80)`, `observations.py:53-54`. -/
def defaultStrips : List (ℝ × ℝ) := [(30, 90), (20, 80)]

/-! ## Redshift distributions -/

/-- A one-dimensional array. -/
def vector (z : List ℝ) : NdArray ℝ := ⟨[z.length], fun i => z[i.headD 0]?.getD 0⟩

/-- `a[..., xp.newaxis]`, and `xp.reshape(a, a.shape + (1,) * z.ndim)` for one-dimensional `z`. -/
def addAxis (a : NdArray ℝ) : NdArray ℝ := ⟨a.shape ++ [1], fun i => a.get i.dropLast⟩

/-- The entries along the last axis at the leading index `i`, with their redshifts; not a number if
one of them is not. -/
def row (z : List ℝ) (y : NdArray (Option ℝ)) (i : List ℕ) : Option (List (ℝ × ℝ)) :=
  (List.range z.length).mapM fun k => (y.get (i ++ [k])).map fun v => (z[k]?.getD 0, v)

/-- `observations.py:145-150` and `observations.py:210-215`: division by the integral along the last
axis, and multiplication with `norm` in place, so that the shape must not change. -/
noncomputable def normalise (z : List ℝ) (y : NdArray (Option ℝ)) (norm : Option (NdArray ℝ)) :
    Except Err (NdArray (Option ℝ)) :=
  let y : NdArray (Option ℝ) := ⟨y.shape, fun i => (y.get i).bind fun v =>
    ((row z y i.dropLast).map trapezoid).bind fun t => nanDiv v t⟩
  match norm with
  | none => .ok y
  | some c =>
    match NdArray.map₂ (fun (v : Option ℝ) (c : ℝ) => v.map (· * c)) y c with
    | .error e => .error e
    | .ok p =>
      if p.shape = y.shape then .ok p
      else .error (.value "non-broadcastable output operand")

/-- `observations.py:104-150` `gaussian_nz`.  A division by `sigma = 0` gives a row without a finite
number in it. -/
noncomputable def gaussianNz (z : List ℝ) (mean sigma : NdArray ℝ) (norm : Option (NdArray ℝ)) :
    Except Err (NdArray (Option ℝ)) := do
  let d ← NdArray.map₂ (fun z m : ℝ => z - m) (vector z) (addAxis mean)
  let nz ← NdArray.map₂ (fun d s : ℝ => (nanDiv d s).map fun t => Real.exp (-(t ^ 2) / 2)) d
    (addAxis sigma)
  normalise z nz norm

/-- `x ** a`.  Powers of negative numbers are taken to be NaN, which is not so for integer
exponents. -/
noncomputable def nanPow (x a : ℝ) : Option ℝ :=
  open Classical in if x < 0 ∨ (x = 0 ∧ a < 0) then none else some (x ^ a)

/-- `observations.py:153-215` `smail_nz`. -/
noncomputable def smailNz (z : List ℝ) (z_mode alpha beta : NdArray ℝ)
    (norm : Option (NdArray ℝ)) : Except Err (NdArray (Option ℝ)) := do
  let p ← NdArray.map₂ nanPow (vector z) (addAxis alpha)
  let c ← NdArray.map₂ (fun a b : ℝ => nanDiv (-a) b) (addAxis alpha) (addAxis beta)
  let q ← NdArray.map₂ nanDiv (vector z) (addAxis z_mode)
  let w ← NdArray.map₂ (fun (q : Option ℝ) (b : ℝ) => q.bind fun q => nanPow q b) q (addAxis beta)
  let e ← NdArray.map₂ (fun c w : Option ℝ => c.bind fun c => w.map fun w => Real.exp (c * w)) c w
  let pz ← NdArray.map₂ (fun p e : Option ℝ => p.bind fun p => e.map fun e => p * e) p e
  normalise z pz norm

/-! ## Tomographic bins -/

/-- `itertools.pairwise`. -/
def pairwise {α : Type} (l : List α) : List (α × α) := l.zip l.tail

/-- `xp.arange(start, stop, step)`. -/
noncomputable def arange (start stop step : ℝ) : Except Err (List ℝ) :=
  if step = 0 then .error .zeroDivision
  else .ok ((List.range ⌈(stop - start) / step⌉.toNat).map fun k : ℕ => start + k * step)

/-- `observations.py:218-269` `fixed_zbins`.  `nextafter` is `xp.nextafter`; `nbins` is not
negative. -/
noncomputable def fixedZbins (nextafter : ℝ → ℝ → ℝ) (zmin zmax : ℝ) (nbins : Option ℕ)
    (dz : Option ℝ) : Except Err (List (ℝ × ℝ)) :=
  match nbins, dz with
  | some n, none => .ok (pairwise (linspace zmin zmax (n + 1)))
  | none, some d =>
    match arange zmin (nextafter (zmax + d) zmax) d with
    | .error e => .error e
    | .ok edges => .ok (pairwise edges)
  | _, _ => .error (.value "exactly one of nbins and dz must be given")

/-- `observations.py:272-306` `equal_dens_zbins`.  If the integral is zero, the code divides 0 by 0;
then the values here are meaningless. -/
noncomputable def equalDensZbins (z nz : List ℝ) (nbins : ℕ) : Except Err (List (ℝ × ℝ)) := do
  let nz ← matchNz z nz
  if z = [] then .error (.value "fp and xp are not of the same length")
  else .ok (pairwise ((linspace 0 1 (nbins + 1)).map (inverseCdf (z.zip nz))))

/-- The error function `math.erf`. -/
noncomputable def erf (x : ℝ) : ℝ := 2 / Real.sqrt Real.pi * ∫ t in (0 : ℝ)..x, Real.exp (-t ^ 2)

/-- `erf(x / y)`, where the quotient by zero is infinite or, for `x = 0`, NaN. -/
noncomputable def erfQuot (x y : ℝ) : Option ℝ :=
  if y = 0 then if 0 < x then some 1 else if x < 0 then some (-1) else none
  else some (erf (x / y))

/-- `observations.py:363-370` for one redshift, density and bin. -/
noncomputable def binnedNz (sigma_0 z nz : ℝ) (bin : ℝ × ℝ) : Option ℝ :=
  let sz := Real.sqrt 2 * sigma_0 * (1 + z)
  (erfQuot (z - bin.1) sz).bind fun a => (erfQuot (z - bin.2) sz).bind fun b =>
    (erfQuot z sz).bind fun c => (nanDiv (a - b) (1 + c)).map fun t => t * nz

/-- `observations.py:309-372` `tomo_nz_gausserr`: one row for each bin.  A density with a single
value is repeated. -/
noncomputable def tomoNzGausserr (z nz : List ℝ) (sigma_0 : ℝ) (zbins : List (ℝ × ℝ)) :
    Except Err (List (List (Option ℝ))) :=
  if zbins = [] then .error .index
  else
    let nz := match nz with
      | [c] => List.replicate z.length c
      | _ => nz
    if nz.length = z.length then
      .ok (zbins.map fun b => List.zipWith (fun z nz => binnedNz sigma_0 z nz b) z nz)
    else .error (.value "operands could not be broadcast together")

end Glass.Obs
