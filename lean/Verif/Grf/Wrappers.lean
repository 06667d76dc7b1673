import Verif.Grf.Generate
import Verif.Grf.Transformations

/-!
# Sampling fields of one kind

Model of the deprecated functions `generate_gaussian` and `generate_lognormal` in
`/repo/glass/fields.py`.
-/

namespace Glass.Grf

open Glass.Spectra

/-- The call `t(x, var)` of a transformation on a map, pixel by pixel. -/
noncomputable def applyMap {S : Type*} (t : Transformation) (x : S → ℝ) (var : ℝ) : S → ℝ :=
  fun p => t.call (x p) var

/-- `fields.py:432-482` `generate_gaussian`.  The count of fields is taken when the iteration
starts, so its exception ends the iteration before anything is yielded. -/
noncomputable def generateGaussian {S : Type*} (b : Backend) (alm2map : List ℂ → S → ℝ)
    (cltovar : List ℝ → ℝ) (nrm : Normals) (gls : List (List ℝ)) (ncorr : Option ℕ) :
    List (S → ℝ) × Option Err :=
  match nfields gls with
  | .error e => ([], some e)
  | .ok n =>
    generate b alm2map cltovar applyMap nrm ((List.range n).map fun _ => .normal) gls ncorr

/-- `fields.py:485-522` `generate_lognormal`. -/
noncomputable def generateLognormal {S : Type*} (b : Backend) (alm2map : List ℂ → S → ℝ)
    (cltovar : List ℝ → ℝ) (nrm : Normals) (gls : List (List ℝ)) (shift : ℝ := 1)
    (ncorr : Option ℕ := none) : List (S → ℝ) × Option Err :=
  match nfields gls with
  | .error e => ([], some e)
  | .ok n =>
    generate b alm2map cltovar applyMap nrm ((List.range n).map fun _ => .lognormal shift) gls ncorr

end Glass.Grf
