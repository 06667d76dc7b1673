import Mathlib.Analysis.SpecialFunctions.Trigonometric.Basic
import Mathlib.Analysis.SpecialFunctions.Sqrt
import Mathlib.Analysis.Complex.Norm
import Verif.Galaxies.Model

/-!
# Galaxy shapes

Model of `/repo/glass/shapes.py`.

Numbers are exact reals; `none` stands for a floating-point result that is not a finite number
(division by zero, square root of a negative number).  Random generators are a state `σ` together
with the functions that are called.
-/

namespace Glass.Shapes

open Glass Glass.Arrays Glass.Galaxies

/-- `xp.sqrt`: NaN for negative numbers. -/
noncomputable def nanSqrt (x : ℝ) : Option ℝ := if x < 0 then none else some (Real.sqrt x)

/-- Division: not a finite number if the denominator is zero. -/
noncomputable def nanDiv (x y : ℝ) : Option ℝ := if y = 0 then none else some (x / y)

/-- `rng.uniform(low, high, size=shape)`. -/
abbrev Uniform (σ : Type) := σ → ℝ → ℝ → List ℕ → NdArray ℝ × σ

/-! ## Projected axis ratios -/

/-- `shapes.py:105-126` for one ellipsoid: the axis ratio seen from the direction with the cosine
of the polar angle `u` and the azimuth `phi`. -/
noncomputable def axisRatio (zeta xi u phi : ℝ) : Option ℝ :=
  let cos2_theta := u * u
  let sin2_theta := 1 - cos2_theta
  let cos2_phi := Real.cos phi * Real.cos phi
  let sin2_phi := 1 - cos2_phi
  let z2m1 := zeta ^ 2 - 1
  let x2 := xi ^ 2
  let a := (1 + z2m1 * sin2_phi) * cos2_theta + x2 * sin2_theta
  let b2 := 4 * z2m1 ^ 2 * cos2_theta * sin2_phi * cos2_phi
  let c := 1 + z2m1 * cos2_phi
  (nanSqrt ((a - c) ^ 2 + b2)).bind fun r => (nanDiv (a + c - r) (a + c + r)).bind nanSqrt

/-- `shapes.py:56-126` `triaxial_axis_ratio`. -/
noncomputable def triaxialAxisRatio {σ : Type} (uniform : Uniform σ) (s : σ)
    (zeta xi : NdArray ℝ) (size : Option (List ℕ)) :
    Except Err (NdArray (Option ℝ) × σ) := do
  let zx ← NdArray.map₂ (fun z x : ℝ => (z, x)) zeta xi
  let size := size.getD zx.shape
  let (u, s) := uniform s (-1) 1 size
  let (phi, s) := uniform s 0 (2 * Real.pi) size
  let angles ← NdArray.map₂ (fun u phi : ℝ => (u, phi)) u phi
  let q ← NdArray.map₂ (fun (p v : ℝ × ℝ) => axisRatio p.1 p.2 v.1 v.2) zx angles
  .ok (q, s)

/-! ## Rejection sampling -/

/-- The entries after those with a set flag have been replaced by the values, one after the
other. -/
def maskMerge {α : Type} : List Bool → List α → List α → List α
  | true :: m, _ :: x, v :: vs => v :: maskMerge m x vs
  | false :: m, a :: x, vs => a :: maskMerge m x vs
  | _, _, _ => []

/-- `xpx.at(x)[mask].set(v)` in C order; the number of values must be that of the flags (a single
value for several flags would be repeated, which is not modelled). -/
def maskSet {α : Type} (mask : List Bool) (x v : List α) : Except Err (List α) :=
  if v.length = mask.count true then .ok (maskMerge mask x v)
  else .error (.value "could not assign values to the mask")

/-- `shapes.py:48-53` `_populate_random_complex_array`; `normal s n` is
`rng.standard_normal((n,))`. -/
def populate {σ : Type} (normal : σ → ℕ → List ℝ × σ) (s : σ) (length : ℕ) : List ℂ × σ :=
  let (x, s) := normal s length
  let (y, s) := normal s length
  (List.zipWith (fun a b : ℝ => (a : ℂ) + Complex.I * b) x y, s)

/-- `xpx.at(e)[r].multiply(v)`. -/
def maskScale (v : ℝ) : List Bool → List ℂ → List ℂ :=
  List.zipWith fun r e => if r then e * v else e

/-- The loop of `shapes.py:275-281`.  `none` if `fuel` iterations do not suffice. -/
noncomputable def rejectLoop {σ : Type} (normal : σ → ℕ → List ℝ × σ) (sigma : ℝ) :
    ℕ → List ℂ → σ → Option (Except Err (List ℂ × σ))
  | 0, _, _ => none
  | fuel + 1, e, s =>
    open Classical in
    let r := e.map fun x => decide (1 < ‖x‖)
    if 0 < r.count true then
      let (new, s) := populate normal s (r.count true)
      match maskSet r e new with
      | .error err => some (.error err)
      | .ok e => rejectLoop normal sigma fuel (maskScale sigma r e) s
    else some (.ok (e, s))

/-- The loop of `shapes.py:271-283` over the populations. -/
noncomputable def gaussianLoop {σ : Type} (normal : σ → ℕ → List ℝ × σ) (fuel : ℕ) :
    List (ℕ × ℝ) → List ℂ → ℕ → σ → Option (Except Err (List ℂ × σ))
  | [], eps, _, s => some (.ok (eps, s))
  | (count, sigma) :: ks, eps, i, s =>
    let (e, s) := populate normal s count
    match rejectLoop normal sigma fuel (e.map fun x => x * sigma) s with
    | none => none
    | some (.error err) => some (.error err)
    | some (.ok (e, s)) =>
      match setSlice eps i (i + count) e with
      | .error err => some (.error err)
      | .ok eps => gaussianLoop normal fuel ks eps (i + count) s

/-- `shapes.py:223-285` `ellipticity_gaussian`.  `junk` are the values in fresh memory. -/
noncomputable def ellipticityGaussian {σ : Type} (normal : σ → ℕ → List ℝ × σ) (junk : ℕ → ℂ)
    (fuel : ℕ) (s : σ) (count : NdArray ℕ) (sigma : NdArray ℝ) :
    Option (Except Err (List ℂ × σ)) :=
  match NdArray.map₂ (fun (c : ℕ) (v : ℝ) => (c, v)) count sigma with
  | .error err => some (.error err)
  | .ok cs =>
    let eps := (List.range ((cs.ravel.map Prod.fst).sum)).map junk
    gaussianLoop normal fuel cs.ravel eps 0 s

/-! ## Intrinsic normal distribution -/

/-- `shapes.py:338-342`: the standard deviation before the transformation. -/
noncomputable def sigmaEta (sigma : ℝ) : ℝ :=
  sigma * Real.sqrt ((8 + 5 * sigma ^ 2) / (2 - 4 * sigma ^ 2))

/-- `shapes.py:351-357` for one object. -/
noncomputable def intnorm (sigma_eta : ℝ) (e : ℂ) : ℂ :=
  let e := e * sigma_eta
  let r := Real.sqrt (e.re ^ 2 + e.im ^ 2)
  open Classical in e * (if 0 < r then Real.tanh (r / 2) / r else 1 : ℝ)

/-- The loop of `shapes.py:348-360` over the populations. -/
noncomputable def intnormLoop {σ : Type} (normal : σ → ℕ → List ℝ × σ) :
    List (ℕ × ℝ) → List ℂ → ℕ → σ → Except Err (List ℂ × σ)
  | [], eps, _, s => .ok (eps, s)
  | (count, sigma) :: ks, eps, i, s => do
    let (e, s) := populate normal s count
    let eps ← setSlice eps i (i + count) (e.map (intnorm (sigmaEta sigma)))
    intnormLoop normal ks eps (i + count) s

/-- `shapes.py:288-362` `ellipticity_intnorm`. -/
noncomputable def ellipticityIntnorm {σ : Type} (normal : σ → ℕ → List ℝ × σ) (junk : ℕ → ℂ)
    (s : σ) (count : NdArray ℕ) (sigma : NdArray ℝ) : Except Err (List ℂ × σ) :=
  open Classical in do
  let cs ← NdArray.map₂ (fun (c : ℕ) (v : ℝ) => (c, v)) count sigma
  if ¬ (cs.ravel.all fun p => decide (0 ≤ p.2 ∧ p.2 < Real.sqrt 0.5)) then
    .error (.value "sigma must be between 0 and sqrt(0.5)")
  else
    let eps := (List.range ((cs.ravel.map Prod.fst).sum)).map junk
    intnormLoop normal cs.ravel eps 0 s

/-! ## Projected triaxial ellipsoids -/

/-- The loops of `shapes.py:202-203` and `shapes.py:205-206`: redraw the bad entries.  The
parameters are the mean and the standard deviation of each entry; `normal s ps` draws one number
for each pair of parameters. -/
def redraw {σ : Type} (normal : σ → List (ℝ × ℝ) → List ℝ × σ) (bad : ℝ → Bool)
    (params : List (ℝ × ℝ)) : ℕ → List ℝ → σ → Option (Except Err (List ℝ × σ))
  | 0, _, _ => none
  | fuel + 1, x, s =>
    if x.any bad then
      let (new, s) := normal s (((params.zip x).filter fun p => bad p.2).map Prod.fst)
      match maskSet (x.map bad) x new with
      | .error err => some (.error err)
      | .ok x => redraw normal bad params fuel x s
    else some (.ok (x, s))

/-- An array with the given entries in C order. -/
def ofList {α : Type} [Inhabited α] (shape : List ℕ) (l : List α) : NdArray α :=
  ⟨shape, fun i => l[NdArray.flatIndex shape i]!⟩

/-- `shapes.py:208-220`: from the two truncated normal samples to the ellipticities. -/
noncomputable def assemble {σ : Type} (uniform : Uniform σ) (s : σ) (size : List ℕ)
    (eps gam : List ℝ) : Except Err (NdArray (Option ℂ) × σ) := do
  let zeta := eps.map fun e => -(Real.exp e - 1)
  let xi := List.zipWith (fun g z : ℝ => (1 - g) * z) gam zeta
  let (q, s) ← triaxialAxisRatio uniform s (ofList size zeta) (ofList size xi) none
  let (angle, s) := uniform s 0 (2 * Real.pi) q.shape
  .ok (⟨q.shape, fun i => (q.get i).bind fun x =>
    (nanDiv (1 - x) (1 + x)).map fun t : ℝ => Complex.exp (Complex.I * angle.get i) * (t : ℂ)⟩, s)

/-- `shapes.py:188-190`: the shape of the result. -/
def rydenSize (shapes : List (List ℕ)) : Option (List ℕ) → Except Err (List ℕ)
  | some d => .ok d
  | none => broadcastAll shapes

/-- `shapes.py:188-197`: the shape and the parameters of all objects in C order. -/
def rydenSetup (mu sigma gamma sigma_gamma : NdArray ℝ) (size : Option (List ℕ)) :
    Except Err (List ℕ × List (ℝ × ℝ) × List (ℝ × ℝ)) := do
  let size ← rydenSize [mu.shape, sigma.shape, gamma.shape, sigma_gamma.shape] size
  let mu ← broadcastTo mu size
  let sigma ← broadcastTo sigma size
  let gamma ← broadcastTo gamma size
  let sigma_gamma ← broadcastTo sigma_gamma size
  .ok (size, mu.ravel.zip sigma.ravel, gamma.ravel.zip sigma_gamma.ravel)

/-- `shapes.py:129-220` `ellipticity_ryden04`; the fuel is for each of the two loops. -/
noncomputable def ellipticityRyden04 {σ : Type} (normal : σ → List (ℝ × ℝ) → List ℝ × σ)
    (uniform : Uniform σ) (fuel : ℕ) (s : σ) (mu sigma gamma sigma_gamma : NdArray ℝ)
    (size : Option (List ℕ)) : Option (Except Err (NdArray (Option ℂ) × σ)) :=
  open Classical in
  match rydenSetup mu sigma gamma sigma_gamma size with
  | .error err => some (.error err)
  | .ok (size, p, p') =>
    let (eps, s) := normal s p
    match redraw normal (fun x => decide (0 < x)) p fuel eps s with
    | none => none
    | some (.error err) => some (.error err)
    | some (.ok (eps, s)) =>
      let (gam, s) := normal s p'
      match redraw normal (fun x => decide (x < 0) || decide (1 < x)) p' fuel gam s with
      | none => none
      | some (.error err) => some (.error err)
      | some (.ok (gam, s)) => some (assemble uniform s size eps gam)

/-! ## Resampling -/

/-- `xp.mean`: NaN for no values. -/
noncomputable def mean (l : List ℝ) : Option ℝ := nanDiv l.sum l.length

/-- `shapes.py:400-401` for one entry: `hypot(real, imag)`. -/
noncomputable def modulus (e : ℂ) : ℝ := Real.sqrt (e.re ^ 2 + e.im ^ 2)

/-- `shapes.py:393-394` and `403-420`: the factor of the moduli `r`.  Comparisons with NaN are
false. -/
noncomputable def shapeFactor (r : List ℝ) (varg vargamma : Option ℝ) :
    Except Err (Option ℝ) :=
  open Classical in
  match varg, vargamma with
  | some _, some _ => .error (.value "only one of varg or vargamma can be given")
  | _, some v =>
    let vare := mean (r.map (· ^ 2))
    if ∃ m ∈ vare, m < v then .error (.value "vargamma too large for epsilon")
    else .ok (vare.bind fun m => (nanDiv v m).bind fun t => nanSqrt (1 - t))
  | some g, none =>
    let vare := mean (r.map (· ^ 2))
    if ∃ m ∈ vare, m < g then .error (.value "varg too large for epsilon")
    else
      let eve4 := mean (r.map (· ^ 4))
      .ok (vare.bind fun m => eve4.bind fun m4 =>
        (nanSqrt (((1 - 2 * g) * m) ^ 2 + 4 * g * m4 * (m - g))).bind fun w =>
          (nanDiv (w - (1 - 2 * g) * m) (2 * g * m4)).bind nanSqrt)
  | none, none => .ok (some 1)

/-- `shapes.py:365-423` `resample_shapes`; the entries in C order.  `uniform s n` draws `n` angles
between 0 and 2π. -/
noncomputable def resampleShapes {σ : Type} (uniform : σ → ℕ → List ℝ × σ) (s : σ)
    (epsilon : List ℂ) (varg vargamma : Option ℝ) : Except Err (List (Option ℂ) × σ) := do
  let r := epsilon.map modulus
  let f ← shapeFactor r varg vargamma
  let (angles, s) := uniform s r.length
  .ok (List.zipWith (fun (r t : ℝ) => f.map fun f : ℝ =>
    ((r * f : ℝ) : ℂ) * Complex.exp (Complex.I * t)) r angles, s)

end Glass.Shapes
