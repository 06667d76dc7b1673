import Mathlib.Analysis.SpecialFunctions.Log.Basic
import Mathlib.Analysis.SpecialFunctions.Sqrt
import Verif.Common.Err

/-!
# Transformations of Gaussian random fields

Model of `/repo/glass/grf/_transformations.py`, of the dispatching functions in
`/repo/glass/grf/_core.py` and of `lognormal_shift_hilbert2011` in `/repo/glass/fields.py`.

Numbers are exact reals.  `expm1`, `log1p`, `exp` and `sqrt` are the mathematical functions.
Array arguments are treated elementwise: a method of a transformation gives a function of one
number, and the array result is obtained by mapping it (see `corrList` and friends).
`NotImplemented` is `none`.
-/

namespace Glass.Grf

/-- `expm1` of the array namespace. -/
noncomputable def expm1 (x : ℝ) : ℝ := Real.exp x - 1

/-- `log1p` of the array namespace; only meaningful for `x > -1`. -/
noncomputable def log1p (x : ℝ) : ℝ := Real.log (1 + x)

/-- The three transformation classes, `grf/_transformations.py:14, 62, 141`. -/
inductive Transformation where
  /-- `Normal()` -/
  | normal
  /-- `Lognormal(lamda)` -/
  | lognormal (lamda : ℝ)
  /-- `SquaredNormal(a, lamda)` -/
  | squared (a lamda : ℝ)

namespace Transformation

/-- `__call__`, `grf/_transformations.py:26-28` (normal), `83-89` (lognormal, where the
multiplication is skipped for `lamda == 1`) and `170-175` (squared normal, likewise). -/
noncomputable def call : Transformation → ℝ → ℝ → ℝ
  | .normal, x, _ => x
  | .lognormal lam, x, var =>
      let y := expm1 (x - var / 2)
      if lam ≠ 1 then lam * y else y
  | .squared a lam, x, _ =>
      let y := (x - a) ^ 2 - 1
      if lam ≠ 1 then lam * y else y

/-- The methods `corr`, `grf/_transformations.py:30-38, 91-105, 177-188`. -/
noncomputable def corrM : Transformation → Transformation → ℝ → Option ℝ
  | .normal, .normal, x => some x
  | .normal, _, _ => none
  | .lognormal l, .lognormal l', x => some (l * l' * expm1 x)
  | .lognormal l, .normal, x => some (l * x)
  | .lognormal _, .squared _ _, _ => none
  | .squared a l, .squared a' l', x =>
      let aa := a * a'
      let ll := l * l'
      some (2 * ll * x * (x + 2 * aa))
  | .squared _ _, _, _ => none

/-- The methods `icorr`, `grf/_transformations.py:40-48, 107-121, 190-203`. -/
noncomputable def icorrM : Transformation → Transformation → ℝ → Option ℝ
  | .normal, .normal, x => some x
  | .normal, _, _ => none
  | .lognormal l, .lognormal l', x => some (log1p (x / (l * l')))
  | .lognormal l, .normal, x => some (x / l)
  | .lognormal _, .squared _ _, _ => none
  | .squared a l, .squared a' l', x =>
      let aa := a * a'
      let ll := l * l'
      some (Real.sqrt (x / (2 * ll) + aa ^ 2) - aa)
  | .squared _ _, _, _ => none

/-- The methods `dcorr`, `grf/_transformations.py:50-58, 123-137, 205-216`. -/
noncomputable def dcorrM : Transformation → Transformation → ℝ → Option ℝ
  | .normal, .normal, x => some (1 + 0 * x)
  | .normal, _, _ => none
  | .lognormal l, .lognormal l', x => some (l * l' * Real.exp x)
  | .lognormal l, .normal, x => some (l + 0 * x)
  | .lognormal _, .squared _ _, _ => none
  | .squared a l, .squared a' l', x =>
      let aa := a * a'
      let ll := l * l'
      some (4 * ll * (x + aa))
  | .squared _ _, _, _ => none

end Transformation

/-- The double dispatch shared by `grf/_core.py:79-86` (`corr`), `105-112` (`icorr`) and
`131-138` (`dcorr`): ask the first transformation, then the second one with the roles
exchanged, else raise `NotImplementedError`. -/
def dispatch {T R X : Type*} (method : T → T → X → Option R) (t1 t2 : T) (x : X) :
    Except Err R :=
  match method t1 t2 x with
  | some r => .ok r
  | none =>
    match method t2 t1 x with
    | some r => .ok r
    | none => .error .notImplemented

/-- `grf/_core.py:63-86` `corr`, for one value of the correlation function. -/
noncomputable def corr := dispatch Transformation.corrM

/-- `grf/_core.py:89-112` `icorr`, for one value. -/
noncomputable def icorr := dispatch Transformation.icorrM

/-- `grf/_core.py:115-138` `dcorr`, for one value. -/
noncomputable def dcorr := dispatch Transformation.dcorrM

/-- Array version of a method: `NotImplemented` depends on the classes only, so an array
argument gives `NotImplemented` as a whole (also when it is empty), otherwise the elementwise
results. -/
noncomputable def arrayM (method : Transformation → Transformation → ℝ → Option ℝ)
    (t1 t2 : Transformation) (x : List ℝ) : Option (List ℝ) :=
  match method t1 t2 0 with
  | none => none
  | some _ => some (x.map fun v => (method t1 t2 v).getD 0)

/-- `corr` on an array. -/
noncomputable def corrList := dispatch (arrayM Transformation.corrM)

/-- `icorr` on an array. -/
noncomputable def icorrList := dispatch (arrayM Transformation.icorrM)

/-- `dcorr` on an array. -/
noncomputable def dcorrList := dispatch (arrayM Transformation.dcorrM)

/-- `grf/_core.py:141-179` `compute`.  `cltocorr` and `corrtocl` are the functions of the
package `transformcl`, kept as parameters. -/
noncomputable def compute (cltocorr corrtocl : List ℝ → List ℝ) (cl : List ℝ)
    (t1 : Transformation) (t2 : Option Transformation := none) : Except Err (List ℝ) :=
  let t2 := t2.getD t1
  match icorrList t1 t2 (cltocorr cl) with
  | .ok g => .ok (corrtocl g)
  | .error e => .error e

/-- `fields.py:965-982` `lognormal_shift_hilbert2011`, with the decimal literals read as
exact rationals. -/
noncomputable def lognormalShiftHilbert2011 (z : ℝ) : ℝ :=
  z * (8e-3 + z * (2.9e-2 + z * (-7.9e-3 + z * 6.5e-4)))

end Glass.Grf
