import Mathlib.Algebra.BigOperators.Group.Finset.Basic
import Mathlib.Data.Complex.Basic
import Mathlib.Analysis.Real.Sqrt
import Verif.Shells.Model

/-!
# Lensing

Model of `/repo/glass/lensing.py`: the multi-plane computation of the convergence, its matrix and
weights, and the conversion of convergence to other lensing maps.

Numbers are exact reals, maps are functions on the set `P` of pixels (all maps of one computation
have the same shape).  The cosmology is a record of the functions that are called.
-/

namespace Glass.Lensing

open Glass.Num Glass.Shells

/-- The parts of the `Cosmology` protocol that are used (`glass/cosmology.py`). -/
structure Cosmology where
  OmegaM0 : ℝ
  hubbleDistance : ℝ
  /-- `transverse_comoving_distance(z)` -/
  distance : ℝ → ℝ
  /-- `transverse_comoving_distance(z1, z2)` -/
  distance2 : ℝ → ℝ → ℝ
  HoverH0 : ℝ → ℝ

/-- The two convergence planes.  The arrays are changed in place, so there are two buffers; `cur`
says which of them is `kappa3`, the other one is `kappa2`. -/
structure Planes (P : Type) where
  buf : Bool → P → ℝ
  cur : Bool

/-- State of a `MultiPlaneConvergence` object (`lensing.py:434-454`). -/
structure MPC (P : Type) where
  z2 : ℝ
  z3 : ℝ
  x3 : ℝ
  w3 : ℝ
  r23 : ℝ
  delta3 : Option (P → ℝ)
  planes : Option (Planes P)

/-- `lensing.py:434-454` `__init__`. -/
def MPC.init (P : Type) : MPC P :=
  { z2 := 0, z3 := 0, x3 := 0, w3 := 0, r23 := 1, delta3 := none, planes := none }

/-- `lensing.py:474-487` `_initialise_inputs`. -/
def MPC.initialiseInputs {P : Type} (s : MPC P) : MPC P :=
  match s.delta3 with
  | none => { s with delta3 := some fun _ => 0 }
  | some _ => s

/-- `lensing.py:511-586` `add_plane`: the exception, if any, and the state afterwards. -/
noncomputable def MPC.addPlane {P : Type} (cosmo : Cosmology) (s : MPC P) (delta : P → ℝ)
    (zsrc wlens : ℝ) : Option Err × MPC P :=
  let s := s.initialiseInputs
  if zsrc ≤ s.z3 then (some (.value "source redshift must be increasing"), s)
  else
    let delta2 := s.delta3.getD fun _ => 0
    let z1 := s.z2
    let z2 := s.z3
    let z3 := zsrc
    let w2 := s.w3
    let x2 := s.x3
    let x3 := cosmo.distance z3 / cosmo.hubbleDistance
    let r12 := s.r23
    let r13 := cosmo.distance2 z1 z3 / (cosmo.hubbleDistance * x3)
    let r23 := cosmo.distance2 z2 z3 / (cosmo.hubbleDistance * x3)
    let t := r13 / r12
    let f := 3 * cosmo.OmegaM0 / 2
    let f := f * (x2 * r23)
    let f := f * ((1 + z2) / cosmo.HoverH0 z2)
    let f := f * w2
    let planes := match s.planes with
      | none => ({ buf := fun _ _ => 0, cur := true } : Planes P)
      | some p => p
    -- kappa2, kappa3 = kappa3, kappa2
    let cur := !planes.cur
    let kappa2 := planes.buf planes.cur
    let kappa3 := planes.buf cur
    let kappa3 := fun p => kappa3 p * (1 - t)
    let kappa3 := fun p => kappa3 p + t * kappa2 p
    let kappa3 := fun p => kappa3 p + f * delta2 p
    (none, { z2 := z2, z3 := z3, x3 := x3, w3 := wlens, r23 := r23, delta3 := some delta,
             planes := some { buf := fun b => if b = cur then kappa3 else kappa2, cur := cur } })

/-- `lensing.py:489-509` `add_window`. -/
noncomputable def MPC.addWindow {P : Type} (cosmo : Cosmology) (s : MPC P) (delta : P → ℝ)
    (w : RadialWindow) : Option Err × MPC P :=
  let s := s.initialiseInputs
  let zsrc := w.zeff
  let lensWeight := trapezoid w.knots / interp none none w.knots zsrc
  s.addPlane cosmo delta zsrc lensWeight

/-- `lensing.py:588-591` property `zsrc`. -/
def MPC.zsrc {P : Type} (s : MPC P) : ℝ := s.z3

/-- `lensing.py:593-596` property `kappa`; the returned array is the buffer itself, named here by
its index. -/
def MPC.kappaRef {P : Type} (s : MPC P) : Option Bool := s.planes.map Planes.cur

/-- Contents of a buffer in a given state. -/
def MPC.deref {P : Type} (s : MPC P) (r : Bool) : Option (P → ℝ) := s.planes.map fun p => p.buf r

/-- `lensing.py:593-596` property `kappa`, the values at the time of the call. -/
def MPC.kappa {P : Type} (s : MPC P) : Option (P → ℝ) := s.planes.map fun p => p.buf p.cur

/-- `lensing.py:598-601` property `delta`. -/
def MPC.delta {P : Type} (s : MPC P) : Option (P → ℝ) := s.delta3

/-- `lensing.py:603-606` property `wlens`. -/
def MPC.wlens {P : Type} (s : MPC P) : ℝ := s.w3

/-- The loop of `lensing.py:628-634`: the row of index `i` of the unit matrix is added as a matter
plane (the rows before `i` have been overwritten, the others have not), and the row is set to the
convergence.  Columns are numbered by `ℕ`; the entries beyond the number of shells do not
occur in the code. -/
noncomputable def matrixRows (cosmo : Cosmology) :
    List RadialWindow → ℕ → MPC ℕ → Except Err (List (ℕ → ℝ))
  | [], _, _ => .ok []
  | w :: ws, i, s =>
    match s.addWindow cosmo (fun k => if k = i then 1 else 0) w with
    | (some e, _) => .error e
    | (none, s) => do
      let rows ← matrixRows cosmo ws (i + 1) s
      .ok ((s.kappa.getD fun _ => 0) :: rows)

/-- `lensing.py:609-635` `multi_plane_matrix`: the rows of the matrix.  (The namespace of no
shells cannot be determined, so an empty list of shells raises `TypeError`.) -/
noncomputable def multiPlaneMatrix (cosmo : Cosmology) (shells : List RadialWindow) :
    Except Err (List (ℕ → ℝ)) :=
  if shells = [] then .error (.type "Unrecognized array input")
  else matrixRows cosmo shells 0 (MPC.init ℕ)

/-- `lensing.py:638-684` `multi_plane_weights` for weights of one population (arrays with
further axes are in `WeightAxes.lean`).  `mat.T @ weights` is the list of the sums over the rows. -/
noncomputable def multiPlaneWeights (cosmo : Cosmology) (weights : List ℝ)
    (shells : List RadialWindow) : Except Err (List ℝ) :=
  if weights.length ≠ shells.length then
    .error (.value "shape mismatch between weights and shells")
  else do
    let weights := weights.map (· / weights.sum)
    let mat ← multiPlaneMatrix cosmo shells
    .ok ((List.range shells.length).map fun k =>
      (List.zipWith (fun (row : ℕ → ℝ) (w : ℝ) => row k * w) mat weights).sum)

/-! ## Conversion of the convergence -/

/-- Spherical harmonic modes, numbered by `l` and `m`. -/
abbrev Alm := ℕ → ℕ → ℂ

/-- The parts of `healpy` that are used; `lmax` is passed on. -/
structure Healpix (M : Type) where
  getNside : M → ℕ
  /-- `map2alm(kappa, lmax=lmax, pol=False, use_pixel_weights=True)` -/
  map2alm : M → ℕ → Alm
  /-- `alm2map(alm, nside, lmax=lmax)` -/
  alm2map : Alm → ℕ → ℕ → M
  /-- `alm2map_spin([alm, blm], nside, spin, lmax)` -/
  alm2mapSpin : Alm → Alm → ℕ → ℕ → ℕ → M × M
  /-- `pixwin(nside, lmax=lmax, pol=True)` -/
  pixwin : ℕ → ℕ → (ℕ → ℝ) × (ℕ → ℝ)

/-- `hp.almxfl`. -/
noncomputable def almxfl (alm : Alm) (fl : ℕ → ℝ) : Alm := fun l m => alm l m * (fl l : ℂ)

/-- A returned map. -/
inductive LensMap (M : Type) where
  | real (m : M)
  | complex (re im : M)

/-- `lensing.py:185-371` `from_convergence`. -/
noncomputable def fromConvergence {M : Type} (hp : Healpix M) (kappa : M) (lmax : Option ℕ)
    (potential deflection shear discretized : Bool) : List (LensMap M) :=
  if !(potential || deflection || shear) then []
  else
    let nside := hp.getNside kappa
    let lmax := lmax.getD (3 * nside - 1)
    let alm := hp.map2alm kappa lmax
    let fl := fun l : ℕ => if (0 : ℝ) < (l : ℝ) then -2 / ((l : ℝ) * ((l : ℝ) + 1)) else 0
    let alm := almxfl alm fl
    let results := if potential then [LensMap.real (hp.alm2map alm nside lmax)] else []
    if !(deflection || shear) then results
    else
      let blm : Alm := fun _ _ => 0
      let fl := fun l : ℕ => Real.sqrt ((l : ℝ) * ((l : ℝ) + 1))
      let alm := almxfl alm fl
      let results := if deflection then
          let alpha := hp.alm2mapSpin alm blm nside 1 lmax
          results ++ [LensMap.complex alpha.1 alpha.2]
        else results
      if !shear then results
      else
        let fl := fun l : ℕ =>
          if (0 : ℝ) < (l : ℝ) then Real.sqrt (((l : ℝ) - 1) * ((l : ℝ) + 2)) else 0
        let fl := fun l => fl l / 2
        let pw := hp.pixwin nside lmax
        let fl := if discretized then fun l => fl l * (pw.2 l / pw.1 l) else fl
        let alm := almxfl alm fl
        let gamma := hp.alm2mapSpin alm blm nside 2 lmax
        results ++ [LensMap.complex gamma.1 gamma.2]

/-- `lensing.py:374-428` `shear_from_convergence`.  The products of mode numbers are integers in
the code. -/
noncomputable def shearFromConvergence {M : Type} (hp : Healpix M) (kappa : M) (lmax : Option ℕ)
    (discretized : Bool) : M × M :=
  let nside := hp.getNside kappa
  let lmax := lmax.getD (3 * nside - 1)
  let alm := hp.map2alm kappa lmax
  let blm : Alm := fun _ _ => 0
  let fl := fun l : ℕ =>
    Real.sqrt (((((l : ℤ) + 2) * ((l : ℤ) + 1) * (l : ℤ) * ((l : ℤ) - 1) : ℤ) : ℝ))
  let fl := fun l : ℕ => fl l / ((max ((l : ℤ) * ((l : ℤ) + 1)) 1 : ℤ) : ℝ)
  let fl := fun l : ℕ => fl l * (-1)
  let pw := hp.pixwin nside lmax
  let fl := if discretized then fun l => fl l * (pw.2 l / pw.1 l) else fl
  let alm := almxfl alm fl
  hp.alm2mapSpin alm blm nside 2 lmax

end Glass.Lensing
