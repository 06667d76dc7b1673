import Mathlib.Analysis.Real.Sqrt
import Mathlib.Data.List.MinMax
import Mathlib.Data.Matrix.Mul
import Mathlib.Data.Matrix.Diagonal
import Mathlib.Data.Finset.Lattice.Fold
import Verif.Common.NdArray

/-!
# Algorithms

Model of `/repo/glass/algorithm.py`: non-negative least squares, clipping of eigenvalues, the
nearest correlation matrix and the nearest covariance matrix.

Numbers are exact reals.  The linear algebra routines (`solve`, `eigh`) are parameters.
-/

namespace Glass.Algorithm

open Glass Matrix

/-! ## Non-negative least squares -/

/-- `xp.linalg.solve` for square matrices of every size; a singular matrix may raise. -/
abbrev Solver := ∀ (ι : Type) [Fintype ι] [DecidableEq ι], Matrix ι ι ℝ → (ι → ℝ) →
  Except Err (ι → ℝ)

/-- `algorithm.py:97-99`: the least squares solution for the columns in `q`.  The result is
written as a vector of all columns that is zero outside `q`. -/
def solveSubset {m n : ℕ} (solve : Solver) (a : Matrix (Fin m) (Fin n) ℝ) (b : Fin m → ℝ)
    (q : Fin n → Bool) : Except Err (Fin n → ℝ) := do
  let aq : Matrix (Fin m) {i : Fin n // q i = true} ℝ := a.submatrix id Subtype.val
  let sq ← solve {i : Fin n // q i = true} (aqᵀ * aq) (b ᵥ* aq)
  .ok fun i => if h : q i = true then sq ⟨i, h⟩ else 0

/-- `algorithm.py:92-105`: the inner loop; returns the mask, the vector and the last solution.
The loop has no bound in the code, so the model is given a number `fuel` of iterations, and returns
`none` if these do not suffice.  A quotient 0/0 gives NaN for `alpha`, after which `x` is NaN at all
columns in `q` and no comparison succeeds any more, so that the loop never ends: also `none`. -/
noncomputable def innerLoop {m n : ℕ} (solve : Solver) (a : Matrix (Fin m) (Fin n) ℝ)
    (b : Fin m → ℝ) : ℕ → (Fin n → Bool) → (Fin n → ℝ) →
      Option (Except Err ((Fin n → Bool) × (Fin n → ℝ) × (Fin n → ℝ)))
  | 0, _, _ => none
  | fuel + 1, q, x =>
    match solveSubset solve a b q with
    | .error e => some (.error e)
    | .ok s =>
      let t := (List.finRange n).filter fun i => q i && decide (s i ≤ 0)
      if t.isEmpty then some (.ok (q, x, s))
      else if (t.any fun i => decide (x i - s i = 0)) then none
      else
        let alpha := -((t.map fun i => x i / (x i - s i)).min?.getD 0)
        let x := fun i => if q i then x i + alpha * (s i - x i) else x i
        let q := fun i => if x i ≤ 0 then false else q i
        innerLoop solve a b fuel q x

/-- `algorithm.py:82-107`: the outer loop.  The flag tells whether the loop was left by `break`. -/
noncomputable def outerLoop {m n : ℕ} (solve : Solver) (fuel : ℕ) (a : Matrix (Fin m) (Fin n) ℝ)
    (b : Fin m → ℝ) (tol : ℝ) : ℕ → (Fin n → Bool) → (Fin n → ℝ) →
      Option (Except Err ((Fin n → ℝ) × Bool))
  | 0, _, x => some (.ok (x, false))
  | k + 1, q, x =>
    if (List.finRange n).all q then some (.ok (x, true))
    else
      let w := fun j => ∑ i, (b - a *ᵥ x) i * a i j
      match List.argmax w ((List.finRange n).filter fun i => !q i) with
      | none => some (.error .index)
      | some mm =>
        if w mm ≤ tol then some (.ok (x, true))
        else
          let q := Function.update q mm true
          match innerLoop solve a b fuel q x with
          | none => none
          | some (.error e) => some (.error e)
          | some (.ok (q, x, s)) =>
            let x := fun i => if q i then s i else x i
            let x := fun i => if !q i then 0 else x i
            outerLoop solve fuel a b tol k q x

/-- `algorithm.py:74-108`: `nnls` after the checks, with the flag of `outerLoop`.  (A negative
`maxiter` acts as 0.) -/
noncomputable def nnlsRun {m n : ℕ} (solve : Solver) (fuel : ℕ) (a : Matrix (Fin m) (Fin n) ℝ)
    (b : Fin m → ℝ) (tol : ℝ) (maxiter : Option ℕ) : Option (Except Err ((Fin n → ℝ) × Bool)) :=
  outerLoop solve fuel a b tol (maxiter.getD (3 * n)) (fun _ => false) (fun _ => 0)

/-- `algorithm.py:21-108` `nnls`, with the checks of the shapes. -/
noncomputable def nnls (solve : Solver) (fuel : ℕ) (a b : NdArray ℝ) (tol : ℝ)
    (maxiter : Option ℕ) : Option (Except Err (NdArray ℝ)) :=
  match a.shape with
  | [m, n] =>
    match b.shape with
    | [k] =>
      if m ≠ k then some (.error (.value "the shapes of `a` and `b` do not match"))
      else
        (nnlsRun (m := m) (n := n) solve fuel (fun i j => a.get [i, j]) (fun i => b.get [i]) tol
          maxiter).map fun r => r.map fun x =>
            ⟨[n], fun | [i] => if h : i < n then x.1 ⟨i, h⟩ else 0 | _ => 0⟩
    | _ => some (.error (.value "input `b` is not a vector"))
  | _ => some (.error (.value "input `a` is not a matrix"))

/-! ## Clipping -/

/-- `xp.linalg.eigh` of a matrix: eigenvalues and matrix of eigenvectors. -/
abbrev Eigh (n : ℕ) := Matrix (Fin n) (Fin n) ℝ → (Fin n → ℝ) × Matrix (Fin n) (Fin n) ℝ

/-- `algorithm.py:111-149` `cov_clip` for one matrix (a stack is treated matrix by matrix).  `eps`
is `finfo(dtype).eps`.  The root of a negative number is NaN, and then every entry of the
result is NaN, written `.ok none`.  The maximum of no eigenvalues raises. -/
noncomputable def covClip {n : ℕ} (eigh : Eigh n) (eps : ℝ) (cov : Matrix (Fin n) (Fin n) ℝ)
    (rtol : Option ℝ) : Except Err (Option (Matrix (Fin n) (Fin n) ℝ)) :=
  let (w, v) := eigh cov
  let rtol := rtol.getD (max (n : ℝ) (n : ℝ) * eps)
  if h : (Finset.univ : Finset (Fin n)).Nonempty then
    let w := fun i => max (w i) (rtol * Finset.univ.sup' h w)
    if ∃ i, w i < 0 then .ok none
    else
      let v : Matrix (Fin n) (Fin n) ℝ := Matrix.of fun i j => Real.sqrt (w j) * v i j
      .ok (some (v * vᵀ))
  else .error (.value "zero-size array to reduction operation maximum")

/-! ## Nearest correlation matrix -/

/-- Frobenius norm (`xp.linalg.matrix_norm`). -/
noncomputable def frob {n : ℕ} (a : Matrix (Fin n) (Fin n) ℝ) : ℝ :=
  Real.sqrt (∑ i, ∑ j, a i j ^ 2)

/-- A matrix of a stack in the middle of the computation; `none` is a matrix of NaN. -/
abbrev NanMatrix (n : ℕ) := Option (Matrix (Fin n) (Fin n) ℝ)

/-- Difference of two matrices; NaN is propagated. -/
def nanSub {n : ℕ} : NanMatrix n → NanMatrix n → NanMatrix n
  | some a, some b => some (a - b)
  | _, _ => none

/-- `cov_clip(r)` of one matrix of a stack (`n > 0`).  The eigenvalues of a matrix of NaN are
taken to be NaN; LAPACK may raise instead. -/
noncomputable def nanClip {n : ℕ} (eigh : Eigh n) (eps : ℝ) : NanMatrix n → NanMatrix n
  | none => none
  | some r => (covClip eigh eps r none).toOption.getD none

/-- `algorithm.py:215`: `(1 - diag) * x + diag`. -/
def unitDiag {n : ℕ} : NanMatrix n → NanMatrix n
  | none => none
  | some x => some (Matrix.of fun i j => (1 - (1 : Matrix (Fin n) (Fin n) ℝ) i j) * x i j +
      (1 : Matrix (Fin n) (Fin n) ℝ) i j)

/-- `algorithm.py:218`: one element of the convergence test; false for NaN. -/
noncomputable def converged {n : ℕ} (tol : ℝ) : NanMatrix n → NanMatrix n → Bool
  | some y, some x => decide (frob (y - x) ≤ tol * frob y)
  | _, _ => false

/-- `algorithm.py:204-228`: the loop, over stacks of matrices; `y` and `ds` may have stacks of
different shapes, then the difference broadcasts.  The Boolean tells whether the loop ended with
the warning. -/
noncomputable def nearcorrLoop {n : ℕ} (eigh : Eigh n) (eps tol : ℝ) :
    ℕ → NdArray (NanMatrix n) → NdArray (NanMatrix n) → Except Err (NdArray (NanMatrix n) × Bool)
  | 0, y, _ => .ok (y, true)
  | k + 1, y, ds => do
    let r ← NdArray.map₂ nanSub y ds
    let x := r.map (nanClip eigh eps)
    let ds ← NdArray.map₂ nanSub x r
    let y := x.map unitDiag
    let c ← NdArray.map₂ (converged tol) y x
    if c.ravel.all id then .ok (y, false) else nearcorrLoop eigh eps tol k y ds

/-- `algorithm.py:152-231` `nearcorr`, for a stack of square `n`-by-`n` matrices of leading shape
`dim` (a non-square matrix raises).  For `n = 0` the `-1` in the reshape cannot be inferred. -/
noncomputable def nearcorr {n : ℕ} (eigh : Eigh n) (eps : ℝ)
    (a : NdArray (Matrix (Fin n) (Fin n) ℝ)) (tol : Option ℝ) (niter : ℕ) :
    Except Err (NdArray (NanMatrix n) × Bool) :=
  let tol := tol.getD (n * eps)
  if n = 0 then .error (.value "cannot reshape array of size 0")
  else do
    let y ← NdArray.reshape (a.map some) [NdArray.size a.shape]
    let ds : NdArray (NanMatrix n) := a.map fun _ => some 0
    let (y, warn) ← nearcorrLoop eigh eps tol niter y ds
    let y ← NdArray.reshape y a.shape
    .ok (y, warn)

/-- `algorithm.py:268-270`: the normalisation of one matrix. -/
noncomputable def normOf {n : ℕ} (c : Matrix (Fin n) (Fin n) ℝ) : Matrix (Fin n) (Fin n) ℝ :=
  Matrix.of fun i j => Real.sqrt (c j j) * Real.sqrt (c i i)

/-- `algorithm.py:273`: `cov / xp.where(norm > 0, norm, 1.0)`. -/
noncomputable def corrOf {n : ℕ} (c d : Matrix (Fin n) (Fin n) ℝ) : Matrix (Fin n) (Fin n) ℝ :=
  Matrix.of fun i j => c i j / (if d i j > 0 then d i j else 1)

/-- `algorithm.py:274`: elementwise product of a result with the normalisation. -/
def scaleBack {n : ℕ} : NanMatrix n → Matrix (Fin n) (Fin n) ℝ → NanMatrix n
  | none, _ => none
  | some y, d => some (Matrix.of fun i j => y i j * d i j)

/-- `algorithm.py:234-274` `cov_nearest`. -/
noncomputable def covNearest {n : ℕ} (eigh : Eigh n) (eps : ℝ)
    (cov : NdArray (Matrix (Fin n) (Fin n) ℝ)) (tol : Option ℝ) (niter : ℕ) :
    Except Err (NdArray (NanMatrix n) × Bool) :=
  open Classical in
  if ∃ idx ∈ NdArray.indices cov.shape, ∃ i, cov.get idx i i < 0 then
    .error (.value "negative values on the diagonal")
  else do
    let norm := cov.map normOf
    let corr ← NdArray.map₂ corrOf cov norm
    let (y, warn) ← nearcorr eigh eps corr tol niter
    let res ← NdArray.map₂ scaleBack y norm
    .ok (res, warn)

end Glass.Algorithm
