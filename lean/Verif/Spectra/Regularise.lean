import Verif.Algorithm.Model
import Verif.Spectra.Model

/-!
# Positive semi-definite spectra

Model of `check_posdef_spectra` and `regularized_spectra` in `/repo/glass/fields.py`, with the
regularisation methods of `/repo/glass/algorithm.py`.  `eigvalsh` and `eigh` are parameters.
-/

namespace Glass.Spectra

open Glass Glass.Algorithm

/-- The matrix `cov[l]`. -/
def covMatrix (cov : Cov ℝ) (l : ℕ) : Matrix (Fin cov.n) (Fin cov.n) ℝ :=
  Matrix.of fun i j => cov.val l (i : ℕ) (j : ℕ)

/-- The array as a stack of matrices. -/
def covStack (cov : Cov ℝ) : NdArray (Matrix (Fin cov.n) (Fin cov.n) ℝ) where
  shape := [cov.k]
  get := fun
    | [l] => covMatrix cov l
    | _ => 0

/-- `fields.py:1035-1052` `check_posdef_spectra`; `eigvalsh n` returns the eigenvalues of a symmetric
matrix. -/
noncomputable def checkPosdefSpectra
    (eigvalsh : ∀ n, Matrix (Fin n) (Fin n) ℝ → Fin n → ℝ) (spectra : List (List ℝ)) :
    Except Err Bool :=
  match covFromSpectra spectra none with
  | .error e => .error e
  | .ok cov => open Classical in
    .ok (decide (∀ l < cov.k, ∀ i, 0 ≤ eigvalsh cov.n (covMatrix cov l) i))

/-- The regularisation methods with their keyword arguments. -/
inductive Method
  | clip (rtol : Option ℝ)
  | nearest (tol : Option ℝ) (niter : ℕ)

/-- `fields.py:1091-1098`: the method of a name.  Only keyword arguments of the method can be
given; others raise `TypeError` and are not modelled. -/
def methodNamed (rtol tol : Option ℝ) (niter : Option ℕ) : Option String → Option Method
  | none => some (.nearest tol (niter.getD 100))
  | some name =>
    if name = "clip" then some (.clip rtol)
    else if name = "nearest" then some (.nearest tol (niter.getD 100))
    else none

/-- A stack of matrices as an array of its entries; the entries of a matrix of NaN are `none`. -/
def stackEntries {n : ℕ} (k : ℕ) (a : NdArray (NanMatrix n)) : Cov (Option ℝ) where
  k := k
  n := n
  val := fun l i j =>
    match a.get [l] with
    | none => none
    | some m => if h : i.toNat < n ∧ j.toNat < n then some (m ⟨i.toNat, h.1⟩ ⟨j.toNat, h.2⟩) else none

/-- `fields.py:1104`: the method applied to the stack; the Boolean is a warning.  The stack for
`cov_clip` is not empty in the last axes, so that the maximum does not raise. -/
noncomputable def covMethod (eigh : ∀ n, Eigh n) (eps : ℝ) (cov : Cov ℝ) :
    Method → Except Err (Cov (Option ℝ) × Bool)
  | .clip rtol =>
    if cov.n = 0 then .error (.value "zero-size array to reduction operation maximum")
    else .ok (stackEntries cov.k ((covStack cov).map fun c =>
      (covClip (eigh cov.n) eps c rtol).toOption.getD none), false)
  | .nearest tol niter =>
    match covNearest (eigh cov.n) eps (covStack cov) tol niter with
    | .error e => .error e
    | .ok (res, warn) => .ok (stackEntries cov.k res, warn)

/-- `fields.py:1055-1110` `regularized_spectra` with the methods of the code. -/
noncomputable def regularized (eigh : ∀ n, Eigh n) (eps : ℝ) (spectra : List (List ℝ))
    (len : Option ℕ) (method : Option Method) : Except Err (List (List (Option ℝ)) × Bool) :=
  regularizedSpectra spectra len (method.map fun m cov => covMethod eigh eps cov m)

end Glass.Spectra
