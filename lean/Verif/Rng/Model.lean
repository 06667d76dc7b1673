import Verif.Arrays.Model
import Verif.Points.Model

/-!
# Random number generators

Model of `/repo/glass/jax.py`, of `/repo/glass/rng.py`, and of `randang` in `/repo/glass/healpix.py`.

The keys of JAX are modelled as paths: child `i` of the key `k` is `k ++ [i]`, whatever the number of
children that are asked for.  That different paths are different keys is the usual assumption about
the generator, not a fact about its finite keys.
-/

namespace Glass.Rng

open Glass Glass.Arrays

/-! ## Keys -/

/-- A key: the path by which it was split off the key of a seed. -/
abbrev Key := List ℕ

/-- `jax.random.split(key, num)`. -/
def splitKey (k : Key) (num : ℕ) : List Key := (List.range num).map fun i => k ++ [i]

/-- The calls that use the key of a generator, with the sizes that matter for keys. -/
inductive Op where
  /-- Sampling: `jax.py:105-110`. -/
  | sample
  /-- `split(size)` with the product of the sizes: `jax.py:112-118`. -/
  | split (size : ℕ)
  /-- `spawn(n_children)`: `jax.py:120-124`. -/
  | spawn (n : ℕ)

/-- The keys that are computed in the `with` statement of a call: the new key of the generator and
the others.
- `__key`: `self.key, key = jax.random.split(self.key)`
- `split`: `keys = jax.random.split(self.key, 1 + math.prod(shape))`, `keys[0]` and `keys[1:]`
- `spawn`: `self.key, *keys = jax.random.split(self.key, num=n_children + 1)` -/
def advance (k : Key) : Op → Key × List Key
  | .sample => ((splitKey k 2).headD k, (splitKey k 2).tail)
  | .split size => ((splitKey k (1 + size)).headD k, (splitKey k (1 + size)).tail)
  | .spawn n => ((splitKey k (n + 1)).headD k, (splitKey k (n + 1)).tail)

/-! ## Threads -/

/-- A generator: its key and the thread that holds its lock. -/
structure Gen where
  key : Key
  lock : Option ℕ

/-- Where a thread is. -/
inductive Pc where
  /-- Between calls. -/
  | idle
  /-- In the `with` statement, before the key is read. -/
  | inside (g : ℕ) (op : Op)
  /-- In the `with` statement, with the new keys computed and not yet stored. -/
  | computed (g : ℕ) (op : Op) (new : Key) (keys : List Key)

/-- The generators, the keys that were handed out (used for sampling or returned by `split`), and
the threads. -/
structure World where
  gens : List Gen
  handed : List Key
  pc : ℕ → Pc

/-- Thread `t` moves to `p`. -/
def setPc (pc : ℕ → Pc) (t : ℕ) (p : Pc) : ℕ → Pc := fun u => if u = t then p else pc u

/-- One step of one thread.  Leaving the `with` statement and handing out the keys (or making
generators of them, `jax.py:124`) is one step with the store, since the keys are local to the
thread. -/
inductive Step : World → World → Prop
  /-- A call begins: the lock is taken, if it is free. -/
  | acquire {w : World} {t g : ℕ} {k : Key} (op : Op) (hpc : w.pc t = .idle)
      (hg : w.gens[g]? = some ⟨k, none⟩) :
      Step w { w with gens := w.gens.set g ⟨k, some t⟩, pc := setPc w.pc t (.inside g op) }
  /-- The key is read and split. -/
  | compute {w : World} {t g : ℕ} {op : Op} {a : Gen} (hpc : w.pc t = .inside g op)
      (hg : w.gens[g]? = some a) :
      Step w { w with pc := setPc w.pc t (.computed g op (advance a.key op).1 (advance a.key op).2) }
  /-- The new key is stored, the lock is released, and the keys are handed out. -/
  | store {w : World} {t g : ℕ} {op : Op} {new : Key} {keys : List Key}
      (hpc : w.pc t = .computed g op new keys) (hop : ∀ n, op ≠ .spawn n) :
      Step w { gens := w.gens.set g ⟨new, none⟩, handed := w.handed ++ keys,
               pc := setPc w.pc t .idle }
  /-- The same for `spawn`. -/
  | storeSpawn {w : World} {t g n : ℕ} {new : Key} {keys : List Key}
      (hpc : w.pc t = .computed g (.spawn n) new keys) :
      Step w { gens := w.gens.set g ⟨new, none⟩ ++ keys.map fun k => ⟨k, none⟩,
               handed := w.handed, pc := setPc w.pc t .idle }

/-- The worlds that can be reached. -/
inductive Reach (w : World) : World → Prop
  | refl : Reach w w
  | step {v u : World} (h : Reach w v) (hs : Step v u) : Reach w u

/-- A generator for a new seed, and no calls. -/
def start : World := ⟨[⟨[], none⟩], [], fun _ => .idle⟩

/-! ## Shapes -/

/-- The `size` argument. -/
inductive Size where
  | int (n : ℕ)
  | tuple (s : List ℕ)

/-- `jax.py:27-65` `_shape`. -/
def shape (size : Option Size) (bcast : List (List ℕ)) : Except Err (List ℕ) :=
  match (if bcast = [] then .ok [] else broadcastAll bcast) with
  | .error e => .error e
  | .ok b =>
    match size with
    | none => .ok b
    | some size =>
      let explicit := match size with
        | .int n => [n]
        | .tuple s => s
      if b ≠ [] ∧ explicit ≠ b then .error (.value "shape is incompatible with input shapes")
      else .ok explicit

/-- The sampling methods, with the shapes of their arguments. -/
inductive Call where
  | random
  | normal (loc scale : List ℕ)
  | poisson (lam : List ℕ)
  | standardNormal
  | uniform (low high : List ℕ)
  | multinomial (n pvals : List ℕ)

/-- The sampling methods, `jax.py:126-224`: the new key of the generator, and the key that is used
with the shape of the result, or the exception.  `multinomial` computes the shape before it takes a
key, the others after that.  `loc + scale * x` has the broadcast shape.  `pvals[..., 0]` of a scalar
raises `IndexError`; if there are no batch dimensions, the shape is that of `pvals`. -/
def call (k : Key) (size : Option Size) : Call → Key × Except Err (Key × List ℕ)
  | .multinomial n pvals =>
    match pvals.getLast? with
    | none => (k, .error .index)
    | some p =>
      match shape size [n, pvals.dropLast] with
      | .error e => (k, .error e)
      | .ok batch =>
        let s := if batch ≠ [] then batch ++ [p] else pvals
        ((advance k .sample).1, .ok ((advance k .sample).2.headD k, s))
  | c =>
    let (k', keys) := advance k .sample
    let used := keys.headD k
    match c with
    | .random => (k', (shape size []).map fun s => (used, s))
    | .standardNormal => (k', (shape size []).map fun s => (used, s))
    | .normal loc scale => (k', (shape size [loc, scale]).bind fun s =>
        (broadcastAll [loc, scale, s]).map fun s => (used, s))
    | .poisson lam => (k', (shape size [lam]).map fun s => (used, s))
    | .uniform low high => (k', (shape size [low, high]).map fun s => (used, s))
    | .multinomial _ _ => (k', .error .notImplemented)

/-! ## Positions in pixels -/

/-- `healpix.py:398-432` `randang`: a new generator with the default seed for every call
(`rng.py:20-55`, `SEED = 42`).  `seeded` is `np.random.default_rng` and `external` is
`healpix.randang`. -/
def randang {σ π : Type} (seeded : ℕ → σ) (external : σ → ℕ → List ℕ → List π × σ) (nside : ℕ)
    (ipix : List ℕ) : List π := (external (seeded 42) nside ipix).1

/-- `points.py:426-437`: the positions of a run of `positions_from_delta`, batch by batch. -/
def batchPositions {σ π ι : Type} (seeded : ℕ → σ) (external : σ → ℕ → List ℕ → List π × σ)
    (nside : ℕ) (batches : List (Glass.Points.Batch ι)) : List (List π) :=
  batches.map fun b => randang seeded external nside b.ipix

end Glass.Rng
