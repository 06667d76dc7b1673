import Mathlib.Data.Real.Basic
import Verif.Common.Err

/-!
# The wrapper of random number generators

Model of `/repo/glass/rng.py`: `default_rng` and the class `Generator`, which passes the calls of its
methods on to another generator and converts the results to arrays of a back end.

The types are those of arguments (`A`), sizes (`Z`), data types (`D`) and results (`V`).  A generator
is a function of a request and of a state; a request is a call of a method with all of its
arguments.
-/

namespace Glass.Rng

/-- The calls that `rng.Generator` makes to the generator that it wraps (`rng.py:127`, `152`, `174`,
`197`, `222`, `247`). -/
inductive Request (A Z : Type) where
  | random (size : Option Z)
  | normal (loc scale : A) (size : Option Z)
  | poisson (lam : A) (size : Option Z)
  | standardNormal (size : Option Z)
  | uniform (low high : A) (size : Option Z)
  | multinomial (n pvals : A) (size : Option Z)

/-- The calls of the methods of `rng.Generator`; arguments that are left out are `none`, and a size
of `None` is the same as no size. -/
inductive Method (A Z D : Type) where
  | random (size : Option Z) (dtype : Option D)
  | normal (loc scale : Option A) (size : Option Z)
  | poisson (lam : A) (size : Option Z)
  | standardNormal (size : Option Z) (dtype : Option D)
  | uniform (low high : Option A) (size : Option Z)
  | multinomial (n pvals : A) (size : Option Z)

/-- A generator: the answer to a request, or the exception, and the next state. -/
abbrev Source (A Z V σ : Type) := Request A Z → σ → Except Err V × σ

/-- An array back end: its name, `xp.float64` and `xp.asarray(v, dtype=dtype)`. -/
structure Xp (V D : Type) where
  name : String
  float64 : D
  asarray : V → Option D → Except Err V

section
variable {A Z D V σ : Type}

/-- `self.xp.asarray(<call>, dtype=dtype)`. -/
def convert (xp : Xp V D) (dtype : Option D) (r : Except Err V × σ) : Except Err V × σ :=
  match r with
  | (.error e, s) => (.error e, s)
  | (.ok v, s) => (xp.asarray v dtype, s)

/-- The methods of `rng.Generator` (`rng.py:106-247`), with the attributes `rng` and `xp`;
`default_dtype` is `xp.float64` (`rng.py:92`). -/
def generate [Zero A] [One A] (rng : Source A Z V σ) (xp : Xp V D) :
    Method A Z D → σ → Except Err V × σ
  | .random size dtype, s =>
    let dtype := match dtype with
      | some d => d
      | none => xp.float64
    convert xp (some dtype) (rng (.random size) s)
  | .normal loc scale size, s =>
    convert xp none (rng (.normal (loc.getD 0) (scale.getD 1) size) s)
  | .poisson lam size, s => convert xp none (rng (.poisson lam size) s)
  | .standardNormal size dtype, s =>
    let dtype := match dtype with
      | some d => d
      | none => xp.float64
    convert xp (some dtype) (rng (.standardNormal size) s)
  | .uniform low high size, s =>
    convert xp none (rng (.uniform (low.getD 0) (high.getD 1) size) s)
  | .multinomial n pvals size, s => convert xp none (rng (.multinomial n pvals size) s)

/-- A request as a call of a method, for a wrapped generator that is itself a `rng.Generator`. -/
def Request.toMethod : Request A Z → Method A Z D
  | .random size => .random size none
  | .normal loc scale size => .normal (some loc) (some scale) size
  | .poisson lam size => .poisson lam size
  | .standardNormal size => .standardNormal size none
  | .uniform low high size => .uniform (some low) (some high) size
  | .multinomial n pvals size => .multinomial n pvals size

/-- A `rng.Generator` as the generator that another one wraps. -/
def asSource [Zero A] [One A] (rng : Source A Z V σ) (xp : Xp V D) : Source A Z V σ :=
  fun r s => generate rng xp r.toMethod s

/-- A sequence of calls. -/
def callAll {M : Type} (f : M → σ → Except Err V × σ) : List M → σ → List (Except Err V) × σ
  | [], s => ([], s)
  | m :: ms, s =>
    let (r, s) := f m s
    let (rs, s) := callAll f ms s
    (r :: rs, s)

/-! ## Creation -/

/-- Generators with the seed that they were created from. -/
inductive Made (V D : Type) where
  /-- `glass.jax.Generator(seed=seed)`. -/
  | jax (seed : ℕ)
  /-- `numpy.random.default_rng(seed=seed)`. -/
  | numpy (seed : ℕ)
  /-- `rng.Generator` with the attributes `rng` and `xp`. -/
  | wrapper (rng : Made V D) (xp : Xp V D)

/-- `rng.py:18` `SEED`. -/
def defaultSeed : ℕ := 42

/-- `rng.py:73-104` `Generator.__init__`. -/
def makeGenerator (rng : Option (Made V D)) (seed : ℕ := defaultSeed) (xp : Xp V D) : Made V D :=
  match rng with
  | none => .wrapper (if xp.name = "jax.numpy" then .jax seed else .numpy seed) xp
  | some rng => .wrapper rng xp

/-- `rng.py:21-55` `default_rng`. -/
def defaultRng (seed : ℕ := defaultSeed) (xp : Xp V D) : Made V D :=
  if xp.name = "jax.numpy" then .jax seed
  else if xp.name = "numpy" then .numpy seed
  else makeGenerator (some (.numpy seed)) defaultSeed xp

/-- The generators that are not modelled: those of JAX (see `Verif/Rng/Model.lean` for their keys)
and of NumPy, with the states that belong to the seeds. -/
structure Library (A Z V σ : Type) where
  jax : Source A Z V σ
  jaxSeed : ℕ → σ
  numpy : Source A Z V σ
  numpySeed : ℕ → σ

/-- The answers of a generator to requests. -/
def Made.source [Zero A] [One A] (lib : Library A Z V σ) : Made V D → Source A Z V σ
  | .jax _ => lib.jax
  | .numpy _ => lib.numpy
  | .wrapper rng xp => asSource (rng.source lib) xp

/-- The first state of a generator. -/
def Made.state (lib : Library A Z V σ) : Made V D → σ
  | .jax seed => lib.jaxSeed seed
  | .numpy seed => lib.numpySeed seed
  | .wrapper rng _ => rng.state lib

end

end Glass.Rng
