import Verif.Spectra.Model
import Verif.Grf.Solver

/-!
# Gaussian angular power spectra of a set of fields

Model of `gaussian_fields`, `lognormal_fields`, `solve_gaussian_spectra` and `lognormal_gls` in
`/repo/glass/fields.py`.  (`compute_gaussian_spectra` is in `Verif.Spectra.Model`.)

The arithmetic, the correlation transforms and the functions `corr`, `icorr` and `dcorr` for a type
`T` of transformations are parameters, as in `Verif.Grf.Solver`.
-/

namespace Glass.Grf

open Glass.Spectra

/-- `fields.py:697-713` `gaussian_fields`. -/
def gaussianFields {W : Type*} (shells : List W) : List Transformation :=
  shells.map fun _ => .normal

/-- `fields.py:716-740` `lognormal_fields`; `zeff` is the attribute of a shell. -/
noncomputable def lognormalFields {W : Type*} (zeff : W → ℝ) (shells : List W)
    (shift : Option (ℝ → ℝ)) : List Transformation :=
  let shift := shift.getD fun _ => 1
  shells.map fun w => .lognormal (shift (zeff w))

/-- What the solver needs to know about numbers and transformations. -/
structure Numerics (F T : Type*) where
  arith : Arith F
  /-- The defaults of `cltol` and `gltol`, `1e-5`. -/
  tol : F
  cltocorr : List F → List F
  corrtocl : List F → List F
  corr : T → T → List F → Except Err (List F)
  icorr : T → T → List F → Except Err (List F)
  dcorr : T → T → List F → Except Err (List F)

variable {F T : Type*} (E : Numerics F T)

/-- The problem of a call `glass.grf.solve(cl, t1, t2, pad=..., monopole=monopole)`. -/
def Numerics.problem (cl : List F) (t1 t2 : T) (pad : ℕ) (monopole : Option F) : Problem F where
  cl := cl
  pad := pad
  monopole := monopole
  cltocorr := E.cltocorr
  corrtocl := E.corrtocl
  corr := E.corr t1 t2
  icorr := E.icorr t1 t2
  dcorr := E.dcorr t1 t2

/-- `fields.py:813-818`: the fixed monopole for a spectrum that is not empty. -/
def fixedMonopole : List F → Option F
  | [] => none
  | c :: _ => if E.arith.nonzero c then none else some E.arith.zero

/-- `fields.py:803-836`: the loop body for one spectrum; the spectrum, and whether there is a
warning.  `none` is a run of the solver that does not end within `fuel` halvings. -/
def solveOne (fuel : ℕ) (fields : List T) (i j : ℤ) (cl : List F) :
    Option (Except Err (List F × Bool)) :=
  if cl.length > 0 then
    match pyGet fields i.toNat, pyGet fields j.toNat with
    | .error e, _ => some (.error e)
    | _, .error e => some (.error e)
    | .ok t1, .ok t2 =>
      let pad := 2 * cl.length
      let monopole := fixedMonopole E cl
      match solvePy E.arith (E.problem cl t1 t2 0 monopole) (pad : ℤ) fuel none E.tol E.tol 20 with
      | none => none
      | some (.error e) => some (.error e)
      | some (.ok run) => some (.ok (run.gl, decide (run.info = 0)))
  else some (.ok (cl, false))

/-- The loop of `solve_gaussian_spectra`: the spectra, and the pairs with a warning.  Warnings before
an exception are not recorded. -/
def solveAll (fuel : ℕ) (fields : List T) :
    List (ℤ × ℤ × List F) → Option (Except Err (List (List F) × List (ℤ × ℤ)))
  | [] => some (.ok ([], []))
  | (i, j, cl) :: rest =>
    match solveOne E fuel fields i j cl with
    | none => none
    | some (.error e) => some (.error e)
    | some (.ok (gl, warn)) =>
      match solveAll fuel fields rest with
      | none => none
      | some (.error e) => some (.error e)
      | some (.ok (gls, warns)) =>
        some (.ok (gl :: gls, if warn then (i, j) :: warns else warns))

/-- `fields.py:778-836` `solve_gaussian_spectra`. -/
noncomputable def solveGaussianSpectra (fuel : ℕ) (fields : List T) (spectra : List (List F)) :
    Option (Except Err (List (List F) × List (ℤ × ℤ))) :=
  let n := fields.length
  if spectra.length ≠ n * (n + 1) / 2 then
    some (.error (.value "mismatch between number of fields and spectra"))
  else if spectra.length = 0 then some (.ok ([], []))
  else solveAll E fuel fields (enumerateSpectra Real.sqrt spectra)

/-- `fields.py:303-331` `lognormal_gls`. -/
noncomputable def lognormalGls (E : Numerics F Transformation) (fuel : ℕ)
    (cls : List (List F)) (shift : ℝ) :
    Option (Except Err (List (List F) × List (ℤ × ℤ))) :=
  match nfields cls with
  | .error e => some (.error e)
  | .ok n => solveGaussianSpectra E fuel (List.replicate n (.lognormal shift)) cls

end Glass.Grf
