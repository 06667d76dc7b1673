import Mathlib.Data.Real.Basic
import Mathlib.Data.List.Sort
import Verif.Common.Err

/-!
# Numerical building blocks

Model of the array functions that `glass` takes from the array library through
`/repo/glass/_array_api_utils.py` (`trapezoid`, `interp`), of `linspace`, `union1d`, and of
`/repo/glass/arraytools.py` for one-dimensional arrays.

A sampled function is a list of knots `(x, y)`; the code keeps the two coordinates in two arrays
of the same length.  Numbers are exact reals.  Functions with leading axes act on each
one-dimensional slice, so one slice is modelled.
-/

namespace Glass.Num

/-- Linear interpolation to the right of the first knot: find the last knot that is not to the
right of `x` and follow the segment that starts there (`numpy.interp`, called in
`_array_api_utils.py:183-193`).  The value for an empty list is arbitrary, `numpy.interp` raises
`ValueError` for it. -/
noncomputable def interpIn : List (ℝ × ℝ) → ℝ → ℝ
  | [], _ => 0
  | [k], _ => k.2
  | k :: k' :: ks, x =>
    if x < k'.1 then k.2 + (k'.2 - k.2) / (k'.1 - k.1) * (x - k.1)
    else interpIn (k' :: ks) x

/-- `uxpx.interp(x, x_points, y_points, left, right)`, `_array_api_utils.py:151-216`, without
`period`: `left` and `right` replace the values outside the range of the knots and default to
the outermost values. -/
noncomputable def interp (left right : Option ℝ) (ks : List (ℝ × ℝ)) (x : ℝ) : ℝ :=
  match ks.head?, ks.getLast? with
  | some a, some b =>
    if x < a.1 then left.getD a.2
    else if b.1 < x then right.getD b.2
    else interpIn ks x
  | _, _ => 0

/-- `uxpx.trapezoid(y, x)`, `_array_api_utils.py:104-148`. -/
noncomputable def trapezoid : List (ℝ × ℝ) → ℝ
  | k :: k' :: ks => (k'.1 - k.1) * (k'.2 + k.2) / 2 + trapezoid (k' :: ks)
  | _ => 0

/-- `xp.linspace(a, b, n)`, for `n ≥ 1`. -/
noncomputable def linspace (a b : ℝ) (n : ℕ) : List ℝ :=
  (List.range n).map fun k : ℕ => a + (k : ℝ) * ((b - a) / ((n - 1 : ℕ) : ℝ))

/-- `xp.linspace(a, b, n, endpoint=False)`. -/
noncomputable def linspaceOpen (a b : ℝ) (n : ℕ) : List ℝ :=
  (List.range n).map fun k : ℕ => a + (k : ℝ) * ((b - a) / (n : ℝ))

/-- `xpx.union1d`: the sorted list of the distinct elements of both arrays. -/
noncomputable def union1d (x y : List ℝ) : List ℝ :=
  open Classical in ((x ++ y).dedup).mergeSort (fun a b => decide (a ≤ b))

/-- Samples of a function on a grid. -/
def sample (f : ℝ → ℝ) (g : List ℝ) : List (ℝ × ℝ) := g.map fun x => (x, f x)

/-- `arraytools.py:197-234` `cumulative_trapezoid`: running sums of the panel areas, with the
initial zero; the result has one entry more than there are panels (also for an empty array). -/
noncomputable def cumulativeTrapezoid (ks : List (ℝ × ℝ)) : List ℝ :=
  let panels := List.zipWith (fun k k' : ℝ × ℝ => (k'.2 + k.2) * 0.5 * (k'.1 - k.1)) ks ks.tail
  panels.scanl (· + ·) 0

/-- The grid of `arraytools.py:181-190`: the points of each grid that lie in the range of the
other one, sorted and without repetitions.  `x[0]` of an empty array raises `IndexError`. -/
noncomputable def overlapGrid (x y : List ℝ) : Except Err (List ℝ) :=
  open Classical in
  match x.head?, x.getLast?, y.head?, y.getLast? with
  | some x0, some x1, some y0, some y1 =>
    .ok (union1d (x.filter fun t => y0 ≤ t ∧ t ≤ y1) (y.filter fun t => x0 ≤ t ∧ t ≤ x1))
  | _, _, _, _ => .error .index

/-- `arraytools.py:158-194` `trapezoid_product` for any number of functions: the grid is reduced
by one function after the other. -/
noncomputable def trapezoidProduct (f : List (ℝ × ℝ)) (fs : List (List (ℝ × ℝ))) :
    Except Err ℝ :=
  match fs.foldlM (fun x g => overlapGrid x (g.map Prod.fst)) (f.map Prod.fst) with
  | .error e => .error e
  | .ok x => .ok (trapezoid (sample
      (fun t => fs.foldl (fun y g => y * interp none none g t) (interp none none f t)) x))

end Glass.Num
