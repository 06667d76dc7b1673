import Mathlib.Algebra.Order.Field.Basic
import Mathlib.Data.Real.Basic
import Verif.Grf.Transformations

/-!
# The Gauss-Newton solver

Model of `/repo/glass/grf/_solver.py`.

The solver is modelled over an arbitrary arithmetic (`Arith`), so that the theorems about all
runs also cover floating point numbers with rounding, infinities and NaN.  The correlation
transforms of `transformcl` and the functions `corr`, `icorr` and `dcorr` (already applied to
the two transformations, which may be user-defined) are parameters.

`for _ in range(maxiter)` is recursion on `maxiter`.  The inner `while True` has no bound in the
code; the model takes a number of allowed halvings, `none` is "not finished within this number".
The loop also records the accepted iterates, which the code does not keep.
Array operations need equal lengths; broadcasting of length-one arrays is not modelled.
-/

namespace Glass.Grf

/-- The operations on numbers that the solver uses. -/
structure Arith (F : Type*) where
  zero : F
  add : F → F → F
  sub : F → F → F
  neg : F → F
  div : F → F → F
  /-- `x / 2` -/
  half : F → F
  /-- `np.fabs` -/
  abs : F → F
  /-- pairwise maximum as used by `ndarray.max` -/
  max : F → F → F
  /-- `x <= y`; false when one of them is NaN -/
  le : F → F → Bool
  /-- `x != 0`; true for NaN -/
  nonzero : F → Bool

/-- The exact real numbers. -/
noncomputable def Arith.real : Arith ℝ where
  zero := 0
  add := (· + ·)
  sub := (· - ·)
  neg := (- ·)
  div := (· / ·)
  half := (· / 2)
  abs := (|·|)
  max := Max.max
  le := fun x y => open Classical in decide (x ≤ y)
  nonzero := fun x => open Classical in decide (x ≠ 0)

/-- What a call of `solve` works with. -/
structure Problem (F : Type*) where
  cl : List F
  pad : ℕ
  monopole : Option F
  cltocorr : List F → List F
  corrtocl : List F → List F
  corr : List F → Except Err (List F)
  icorr : List F → Except Err (List F)
  dcorr : List F → Except Err (List F)

/-- The local variables `gl, gt, rl, fl, clerr`. -/
structure Iterate (F : Type*) where
  gl : List F
  gt : List F
  rl : List F
  fl : List F
  clerr : F

variable {F : Type*} (A : Arith F) (p : Problem F)

/-- Elementwise binary operation; `ValueError` if the shapes differ. -/
def elementwise (f : F → F → F) (x y : List F) : Except Err (List F) :=
  if x.length = y.length then .ok (List.zipWith f x y) else .error (.value "broadcast")

/-- `grf/_solver.py:20-23` `_relerr`; `max` of an empty array raises `ValueError`. -/
def relerr (dx x : List F) : Except Err F :=
  match List.zipWith (fun d v => A.abs (if A.nonzero d then A.div d v else A.zero)) dx x with
  | [] => .error (.value "zero-size array")
  | q :: qs => .ok (qs.foldl A.max q)

/-- `x[0] = v`; `IndexError` for an empty array. -/
def setFirst (x : List F) (v : F) : Except Err (List F) :=
  if x.length = 0 then .error .index else .ok (x.set 0 v)

/-- `if monopole is not None: x[0] = 0`, lines 110-111, 126-127, 136-137. -/
def mask (x : List F) : Except Err (List F) :=
  match p.monopole with
  | none => .ok x
  | some _ => setFirst x A.zero

/-- `np.pad(x, (0, pad))`. -/
def padded (x : List F) : List F := x ++ List.replicate p.pad A.zero

/-- `grf/_solver.py:107-112` and again `133-138`. -/
def evaluate (gl : List F) : Except Err (Iterate F) :=
  let gt := p.cltocorr (padded A p gl)
  match p.corr gt with
  | .error e => .error e
  | .ok ct =>
    let rl := p.corrtocl ct
    match elementwise A.sub (rl.take p.cl.length) p.cl with
    | .error e => .error e
    | .ok d =>
      match mask A p d with
      | .error e => .error e
      | .ok fl =>
        match relerr A fl p.cl with
        | .error e => .error e
        | .ok clerr => .ok ⟨gl, gt, rl, fl, clerr⟩

/-- `grf/_solver.py:98-105`: the initial solution. -/
def initialGl (initial : Option (List F)) : Except Err (List F) :=
  let n := p.cl.length
  let gl : Except Err (List F) :=
    match initial with
    | none =>
      match p.icorr (p.cltocorr p.cl) with
      | .ok g => .ok (p.corrtocl g)
      | .error e => .error e
    | some x => .ok (x.take n ++ List.replicate (n - x.length) A.zero)
  match gl with
  | .error e => .error e
  | .ok gl =>
    match p.monopole with
    | none => .ok gl
    | some m => setFirst gl m

/-- `grf/_solver.py:123-127`: the direction of the step. -/
def direction (st : Iterate F) : Except Err (List F) :=
  let ft := p.cltocorr (padded A p st.fl)
  match p.dcorr st.gt with
  | .error e => .error e
  | .ok dt =>
    match elementwise A.div ft dt with
    | .error e => .error e
    | .ok q => mask A p (((p.corrtocl q).map A.neg).take p.cl.length)

/-- `grf/_solver.py:131-141`: halve the step until the error does not grow.  Returns the step
taken and the new iterate. -/
def inner (st : Iterate F) : ℕ → List F → Option (Except Err (List F × Iterate F))
  | 0, _ => none
  | fuel + 1, xl =>
    match elementwise A.add st.gl xl with
    | .error e => some (.error e)
    | .ok gl' =>
      match evaluate A p gl' with
      | .error e => some (.error e)
      | .ok st' =>
        if A.le st'.clerr st.clerr then some (.ok (xl, st'))
        else inner st fuel (xl.map A.half)

/-- `grf/_solver.py:117-146`: the main loop, with the accepted iterates so far (latest first,
each with the step that led to it). -/
def loop (fuel : ℕ) (cltol gltol : F) :
    ℕ → Iterate F → List (List F × Iterate F) → ℕ →
      Option (Except Err (Iterate F × List (List F × Iterate F) × ℕ))
  | 0, st, tr, info => some (.ok (st, tr, info))
  | k + 1, st, tr, info =>
    let info := if A.le st.clerr cltol then info ||| 1 else info
    if info > 0 then some (.ok (st, tr, info))
    else
      match direction A p st with
      | .error e => some (.error e)
      | .ok xl =>
        match inner A p st fuel xl with
        | none => none
        | some (.error e) => some (.error e)
        | some (.ok (xl, st')) =>
          match relerr A xl st.gl with
          | .error e => some (.error e)
          | .ok r =>
            let info := if A.le r gltol then info ||| 2 else info
            loop fuel cltol gltol k st' ((xl, st') :: tr) info

/-- Result of `solve` together with the first iterate and the accepted ones. -/
structure Run (F : Type*) where
  gl : List F
  rl : List F
  info : ℕ
  first : Iterate F
  last : Iterate F
  accepted : List (List F × Iterate F)

/-- `grf/_solver.py:26-148` `solve`, for non-negative `pad`; see `solvePy` for the check. -/
def solve (fuel : ℕ) (initial : Option (List F)) (cltol gltol : F) (maxiter : ℕ) :
    Option (Except Err (Run F)) :=
  match initialGl A p initial with
  | .error e => some (.error e)
  | .ok gl =>
    match evaluate A p gl with
    | .error e => some (.error e)
    | .ok st =>
      match loop A p fuel cltol gltol maxiter st [] 0 with
      | none => none
      | some (.error e) => some (.error e)
      | some (.ok (st', tr, info)) => some (.ok ⟨st'.gl, st'.rl, info, st, st', tr⟩)

/-- `grf/_solver.py:90-96` and the rest: the check of `pad`, which may be any integer. -/
def solvePy (pad : ℤ) (fuel : ℕ) (initial : Option (List F)) (cltol gltol : F) (maxiter : ℕ) :
    Option (Except Err (Run F)) :=
  if pad < 0 then some (.error (.value "pad must be a positive integer"))
  else solve A { p with pad := pad.toNat } fuel initial cltol gltol maxiter

end Glass.Grf
