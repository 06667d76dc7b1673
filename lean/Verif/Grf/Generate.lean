import Mathlib.Data.Complex.Basic
import Verif.Grf.Iternorm

/-!
# Model of `_generate_grf` and `generate` in `glass/fields.py`

Not modelled: the spherical harmonic transform `hp.alm2map` and `transformcl.cltovar`, which are
parameters; the random numbers, which are an arbitrary stream.
-/

namespace Glass.Grf

open Glass.Spectra

/-- The numbers returned by the `q`-th call `standard_normal((z_size, 2))`. -/
abbrev Normals := ℕ → ℕ → Fin 2 → ℝ

/-- `fields.py:402`: real and imaginary parts are combined into complex numbers. -/
noncomputable def draw (nrm : Normals) (size q : ℕ) : List ℂ :=
  (List.range size).map fun k => (nrm q k 0 : ℂ) * 1 + (nrm q k 1 : ℂ) * Complex.I

/-- `fields.py:405-409`: append the new variates, then forget the oldest ones while there are more
than the length `k + 1` of the scaling vector. -/
def push {α : Type*} (y : List α) (z : α) (k : ℕ) : List α :=
  let y := y ++ [z]
  y.drop (y.length - (k + 1))

/-- Column `t` of a scaling vector of shape `(n, k + 1)`. -/
noncomputable def Weight.column (w : Weight) (n t : ℕ) : List ℂ :=
  (List.range n).map fun l => (w.w [l] t : ℂ)

/-- `fields.py:411-415`: `sum(multalm(z, w[..., i + mis]) for i, z in enumerate(y))`. -/
noncomputable def combine (n : ℕ) (y : List (List ℂ)) (w : Weight) : Except Err (List ℂ) :=
  let mis := w.k + 1 - y.length
  match y.zipIdx.mapM fun zi => multalm zi.1 (w.column n (zi.2 + mis)) with
  | .error e => .error e
  | .ok ts => match ts with
    | [] => .ok []
    | t :: ts => .ok (ts.foldl (fun a b => List.zipWith (· + ·) a b) t)

/-- `fields.py:411-420`: the coefficients of one field, in HEALPix order, as they are passed to
`alm2map`. -/
noncomputable def fieldAlm (n : ℕ) (y : List (List ℂ)) (w : Weight) : Except Err (List ℂ) :=
  match combine n y w with
  | .error e => .error e
  | .ok alm => match glassToHealpixAlm alm with
    | .error e => .error e
    | .ok alm => .ok (alm.mapIdx fun p a => if p < n then ((a.re + a.im : ℝ) : ℂ) else a)

/-- The loop of `_generate_grf`, `fields.py:399-424`; `q` counts the draws. -/
noncomputable def grfLoop (nrm : Normals) (n : ℕ) :
    List (List ℂ) → ℕ → List Weight → Option Err → List (List ℂ) × Option Err
  | _, _, [], tail => ([], tail)
  | y, q, w :: ws, tail =>
    let y := push y (draw nrm (n * (n + 1) / 2) q) w.k
    match fieldAlm n y w with
    | .error e => ([], some e)
    | .ok alm => let r := grfLoop nrm n y (q + 1) ws tail; (alm :: r.1, r.2)

/-- `fields.py:384`: the largest length. -/
def maxLength (gls : List (List ℝ)) : ℕ := gls.foldl (fun a gl => max a gl.length) 0

/-- `fields.py:334-424` `_generate_grf`, up to the call of `alm2map`: the coefficients of the
fields.  An empty list of spectra has no array namespace: `array_namespace()` raises `TypeError`. -/
noncomputable def generateAlm (b : Backend) (nrm : Normals) (gls : List (List ℝ))
    (ncorr : Option ℕ) : List (List ℂ) × Option Err :=
  if gls.length = 0 then ([], some (.type "no array namespace"))
  else match nfields gls with
    | .error e => ([], some e)
    | .ok ngrf =>
      let nc := ncorr.getD (ngrf - 1)
      let n := maxLength gls
      if n = 0 then ([], some (.value "all gls are empty"))
      else
        let cov := cls2covRows b gls n ngrf nc
        let w := iternorm cov.1 cov.2
        grfLoop nrm n [] 0 w.1 w.2

/-- `zip(fields, grf, variances, strict=True)` followed by `t(x, var)`, `fields.py:893-894`: the
iterators are advanced in this order.  The field list runs out last or together with the maps: a
map that is missing or one too many is a `ValueError`; an error while computing a map or a variance
is passed on. -/
noncomputable def zipStrict {T X : Type*} (apply : T → X → ℝ → X) (variance : ℕ → Except Err ℝ) :
    ℕ → List T → List X → Option Err → List X × Option Err
  | _, [], [], none => ([], none)
  | _, [], [], some e => ([], some e)
  | _, [], _ :: _, _ => ([], some (.value "zip() argument 2 is longer than argument 1"))
  | _, _ :: _, [], none => ([], some (.value "zip() argument 2 is shorter than argument 1"))
  | _, _ :: _, [], some e => ([], some e)
  | i, t :: ts, x :: xs, tail => match variance i with
    | .error e => ([], some e)
    | .ok v => let r := zipStrict apply variance (i + 1) ts xs tail; (apply t x v :: r.1, r.2)

/-- `fields.py:839-894` `generate`.  `alm2map` and `cltovar` are parameters; `apply t x var` is
`t(x, var)`. -/
noncomputable def generate {T X : Type*} (b : Backend) (alm2map : List ℂ → X)
    (cltovar : List ℝ → ℝ) (apply : T → X → ℝ → X) (nrm : Normals) (fields : List T)
    (gls : List (List ℝ)) (ncorr : Option ℕ) : List X × Option Err :=
  let n := fields.length
  if gls.length ≠ n * (n + 1) / 2 then
    ([], some (.value "mismatch between number of fields and gls"))
  else
    let grf := generateAlm b nrm gls ncorr
    zipStrict apply (fun i => (getcl gls i i none).map cltovar) 0 fields (grf.1.map alm2map) grf.2

end Glass.Grf
