import Verif.Arrays.Model
import Verif.Galaxies.Model
import Verif.Points.Model

/-!
# Positions for several populations

Model of `positions_from_delta` in `/repo/glass/points.py` for arrays with extra dimensions: the
broadcasting of the inputs, the loop over the populations, and the exceptions.
-/

namespace Glass.Points

open Glass.Arrays Glass.Galaxies

/-- The inputs of `positions_from_delta` after `_broadcast_inputs`. -/
structure Inputs where
  bias : Option (NdArray ℝ)
  delta : NdArray ℝ
  dims : List ℕ
  ngal : NdArray ℝ
  vis : Option (NdArray ℝ)

/-- `dims, *rest = ...; ngal, delta, *rest = rest; ...` of `points.py:203-211`: the values are
taken from the list in the order in which they were put in. -/
def unpackInputs (bias vis : Option (NdArray ℝ)) (dims : List ℕ) :
    List (NdArray ℝ) → Except Err Inputs
  | ngal :: delta :: rest =>
    match bias, vis, rest with
    | none, none, _ => .ok ⟨none, delta, dims, ngal, none⟩
    | some _, none, b :: _ => .ok ⟨some b, delta, dims, ngal, none⟩
    | none, some _, v :: _ => .ok ⟨none, delta, dims, ngal, some v⟩
    | some _, some _, b :: v :: _ => .ok ⟨some b, delta, dims, ngal, some v⟩
    | _, _, _ => .error (.value "not enough values to unpack")
  | _ => .error (.value "not enough values to unpack")

/-- `points.py:163-211` `_broadcast_inputs`. -/
def broadcastInputs (bias : Option (NdArray ℝ)) (delta ngal : NdArray ℝ)
    (vis : Option (NdArray ℝ)) : Except Err Inputs := do
  let inputs := [(ngal, 0), (delta, 1)]
  let inputs := match bias with
    | none => inputs
    | some b => inputs ++ [(b, 0)]
  let inputs := match vis with
    | none => inputs
    | some v => inputs ++ [(v, 1)]
  let (dims, rest) ← broadcastLeadingAxes inputs
  unpackInputs bias vis dims rest

/-- `n *= v` for two one-dimensional arrays (`points.py:315`): the right-hand side may have length
one, the left-hand side cannot grow. -/
def imul (n v : List ℝ) : Except Err (List ℝ) :=
  if v.length = n.length then .ok (List.zipWith (· * ·) n v)
  else if v.length = 1 then .ok (n.map (· * v[0]!))
  else .error (.value "non-broadcastable output operand")

/-- `points.py:291-316` `_apply_visibility`, with the indexing by `k`. -/
def applyVisibilityAt (k : List ℕ) (n : List ℝ) (vis : Option (NdArray ℝ)) :
    Except Err (List ℝ) :=
  match vis with
  | none => .ok n
  | some v =>
    match slice1 v k with
    | .error e => .error e
    | .ok v => imul n v

/-- The number of pixels of population `k` before sampling: `points.py:531-536`. -/
noncomputable def expectedAt (inp : Inputs) (biasModel : List ℝ → ℝ → List ℝ)
    (removeMonopole : Bool) (k : List ℕ) : Except Err (List ℝ) :=
  match slice1 inp.delta k with
  | .error e => .error e
  | .ok d =>
    let n := computeDensityContrast (inp.bias.map fun b => b.get k) biasModel d
    let n := computeExpectedCount n (inp.ngal.get k) removeMonopole
    applyVisibilityAt k n inp.vis

/-- `points.py:351-440` `_sample_galaxies_per_pixel` with the check of the number of pixels by
`npix2nside` (`points.py:396-398`), which is made only if there are points. -/
def samplePixels (validNpix : ℕ → Bool) (n : List ℕ) (batch : ℤ) : List (List ℕ) × Option Err :=
  if n.sum ≠ 0 ∧ validNpix n.length = false then ([], some (.value "invalid number of pixels"))
  else sampleGalaxiesPerPixel n batch

/-- The loop of `points.py:530-540` over the remaining populations.  An exception ends the
generator.  The count is the array `ipix.size * cmask` (`points.py:401-406`, `437`). -/
noncomputable def populationLoop {σ : Type} (poisson : σ → List ℝ → List ℕ × σ)
    (validNpix : ℕ → Bool) (inp : Inputs) (biasModel : List ℝ → ℝ → List ℝ)
    (removeMonopole : Bool) (batch : ℤ) :
    List (List ℕ) → σ → List (Batch (List ℕ)) × Option Err
  | [], _ => ([], none)
  | k :: ks, s =>
    match expectedAt inp biasModel removeMonopole k with
    | .error e => ([], some e)
    | .ok n =>
      let (n, s) := sampleNumberGalaxies poisson s n
      let (ipixs, e) := samplePixels validNpix n batch
      let bs := ipixs.map fun ipix =>
        { pop := k, ipix := ipix, count := fun j => ipix.length * if j = k then 1 else 0 }
      match e with
      | some e => (bs, some e)
      | none =>
        let r := populationLoop poisson validNpix inp biasModel removeMonopole batch ks s
        (bs ++ r.1, r.2)

/-- `points.py:443-540` `positions_from_delta` for arrays: the batches that are yielded, and the
exception that ends the generator if there is one.  `itertools.product(*map(range, dims))` gives
the indices in C order.  The bias model is a function of a map and a number; the check
`callable(bias_model)` is not modelled. -/
noncomputable def positionsFromDeltaNd {σ : Type} (poisson : σ → List ℝ → List ℕ × σ)
    (validNpix : ℕ → Bool) (ngal delta : NdArray ℝ) (bias vis : Option (NdArray ℝ))
    (biasModel : List ℝ → ℝ → List ℝ) (removeMonopole : Bool) (batch : ℤ) (s : σ) :
    List (Batch (List ℕ)) × Option Err :=
  match broadcastInputs bias delta ngal vis with
  | .error e => ([], some e)
  | .ok inp =>
    populationLoop poisson validNpix inp biasModel removeMonopole batch
      (NdArray.indices inp.dims) s

end Glass.Points
