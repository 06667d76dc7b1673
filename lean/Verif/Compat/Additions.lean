import Verif.Arrays.TrapezoidAxis
import Verif.Compat.FallbackProps
import Verif.Shells.Partition

/-!
# Functions that array libraries lack (C131)

The methods of `xp_additions` in `/repo/glass/_array_api_utils.py`, for arrays of any library.
-/

namespace Glass.Compat

open Glass NdArray Glass.Arrays

/-! ## Model -/

/-- An array of a library. -/
structure XArray where
  xp : String
  data : NdArray ℝ

/-- The libraries whose own functions are called. -/
def native (xp : String) : Bool := xp == "numpy" || xp == "jax.numpy"

/-- `dxp.asarray(None, copy=True)`: an array of objects without axes.  Its entry is never used. -/
def asarrayNone : NdArray ℝ := ⟨[], fun _ => 0⟩

/-- `_array_api_utils.py:104-148` `xp_additions.trapezoid`.  The function of JAX is taken to be that
of NumPy. -/
noncomputable def trapezoid (y : XArray) (x : Option XArray) (dx : ℝ) (axis : ℤ) :
    Except Err XArray := do
  let xp ← arrayNamespace (y.xp :: x.toList.map XArray.xp)
  if native xp then
    let result ← trapezoidAxis y.data (x.map XArray.data) dx axis
    .ok ⟨xp, result⟩
  else
    let xDxp := match x with
      | some x => x.data
      | none => asarrayNone
    let result ← trapezoidAxis y.data (some xDxp) dx axis
    .ok ⟨xp, result⟩

/-- Results of functions: one array, or a tuple of arrays. -/
inductive Result
  | array (a : XArray)
  | tuple (as : List XArray)

/-- One component of `numpy.gradient`: differences along the axis `a`. -/
noncomputable def gradientAxis (f : NdArray ℝ) (a : ℕ) : NdArray ℝ :=
  ⟨f.shape, fun i =>
    let n := f.shape.getD a 0
    let k := i.getD a 0
    let at' := fun q => f.get (i.set a q)
    if k = 0 then at' 1 - at' 0
    else if k = n - 1 then at' (n - 1) - at' (n - 2)
    else (at' (k + 1) - at' (k - 1)) / 2⟩

/-- `dxp.asarray` of a tuple of arrays of the same shape. -/
def stack (shape : List ℕ) (as : List (NdArray ℝ)) : NdArray ℝ :=
  if as = [] then ⟨[0], fun _ => 0⟩
  else ⟨as.length :: shape, fun i => ((as[i.headD 0]?).map fun a => a.get i.tail).getD 0⟩

/-- `_array_api_utils.py:219-251` `xp_additions.gradient`. -/
noncomputable def gradient (f : XArray) : Except Err Result :=
  if f.data.shape.any (· < 2) then
    .error (.value "array too small to calculate a numerical gradient")
  else
    match (List.range f.data.shape.length).map (gradientAxis f.data) with
    | [g] => .ok (.array ⟨f.xp, g⟩)
    | gs =>
      if native f.xp then .ok (.tuple (gs.map (⟨f.xp, ·⟩)))
      else .ok (.array ⟨f.xp, stack f.data.shape gs⟩)

/-- The common form of `interp` (`_array_api_utils.py:181-216`), `linalg_lstsq` (299-312), `einsum`
(336-345), `apply_along_axis` (391-404), `radians` (464-472) and `degrees` (494-502), where `func` is
the function of NumPy: arguments are arrays, the result is one array or several. -/
def addition (func : List (NdArray ℝ) → Except Err (List (NdArray ℝ))) (args : List XArray) :
    Except Err (List XArray) := do
  let xp ← arrayNamespace (args.map XArray.xp)
  if native xp then
    let results ← func (args.map XArray.data)
    .ok (results.map (⟨xp, ·⟩))
  else
    let argsDxp := args.map fun a => (⟨"numpy", a.data⟩ : XArray)
    let results ← func (argsDxp.map XArray.data)
    .ok (results.map (⟨xp, ·⟩))

/-- `_array_api_utils.py:439-444` `xp_additions.vectorize` for a function of one argument, applied to
an array: whatever the library, `numpy.vectorize` returns an array of NumPy. -/
def vectorize (f : ℝ → ℝ) (_xp : String) (a : XArray) : XArray := ⟨"numpy", a.data.map f⟩

/-! ## Properties -/

theorem native_iff (xp : String) : native xp = true ↔ xp = "numpy" ∨ xp = "jax.numpy" := by
  simp [native]

/-- **C131**: with points, `trapezoid` gives the integral of NumPy as an array of the same library. -/
theorem trapezoid_points {y x : XArray} (h : y.xp = x.xp) (dx : ℝ) (axis : ℤ) :
    trapezoid y (some x) dx axis =
      (trapezoidAxis y.data (some x.data) dx axis).map (⟨y.xp, ·⟩) := by
  have hn : arrayNamespace (y.xp :: (some x).toList.map XArray.xp) = .ok y.xp :=
    arrayNamespace_ok (by simp) (by simp [h])
  unfold trapezoid
  simp only [hn, bind, Except.bind, Option.map_some]
  split_ifs <;> rcases trapezoidAxis y.data (some x.data) dx axis <;> rfl

/-- **C131**: without points, `trapezoid` uses the spacing for arrays of NumPy and JAX. -/
theorem trapezoid_spacing_partial {y : XArray} (h : y.xp = "numpy" ∨ y.xp = "jax.numpy") (dx : ℝ)
    (axis : ℤ) :
    trapezoid y none dx axis = (trapezoidAxis y.data none dx axis).map (⟨y.xp, ·⟩) := by
  rw [← native_iff] at h
  have hn : arrayNamespace (y.xp :: (none : Option XArray).toList.map XArray.xp) = .ok y.xp :=
    arrayNamespace_ok (by simp) (by simp)
  unfold trapezoid
  simp only [hn, bind, Except.bind, h, if_true, Option.map_none]
  rcases trapezoidAxis y.data none dx axis <;> rfl

/-- **C131** (refuted): without points, `trapezoid` always fails for arrays of any other library:
`None` is converted to an array, which is not `None` any more. -/
theorem trapezoid_spacing_fails {y : XArray} (h : ¬ (y.xp = "numpy" ∨ y.xp = "jax.numpy")) (dx : ℝ)
    (axis : ℤ) : ∃ r, trapezoid y none dx axis = .error (.value r) := by
  rw [← native_iff, Bool.not_eq_true] at h
  have hn : arrayNamespace (y.xp :: (none : Option XArray).toList.map XArray.xp) = .ok y.xp :=
    arrayNamespace_ok (by simp) (by simp)
  unfold trapezoid
  simp only [hn, bind, Except.bind, h]
  exact ⟨_, rfl⟩

/-- **C131**: arrays of different libraries are rejected. -/
theorem trapezoid_mixed {y x : XArray} (h : y.xp ≠ x.xp) (dx : ℝ) (axis : ℤ) :
    ∃ r, trapezoid y (some x) dx axis = .error (.type r) := by
  have hn : arrayNamespace (y.xp :: (some x).toList.map XArray.xp) =
      .error (.type "multiple namespaces") :=
    arrayNamespace_mixed (x := y.xp) (y := x.xp) (by simp) (by simp) h
  unfold trapezoid
  simp only [hn]
  exact ⟨_, rfl⟩

/-- **C131**: the result of any of the other functions is what NumPy computes from the same data, as
arrays of the library of the arguments; arrays of several libraries, or none, are rejected. -/
theorem addition_spec (func : List (NdArray ℝ) → Except Err (List (NdArray ℝ)))
    (args : List XArray) :
    (∀ xp, args ≠ [] → (∀ a ∈ args, a.xp = xp) →
      addition func args = (func (args.map XArray.data)).map fun rs => rs.map (⟨xp, ·⟩)) ∧
    ((args = [] ∨ ∃ a ∈ args, ∃ b ∈ args, a.xp ≠ b.xp) →
      ∃ r, addition func args = .error (.type r)) := by
  constructor
  · intro xp hne hx
    have hn : arrayNamespace (args.map XArray.xp) = .ok xp :=
      arrayNamespace_ok (by simpa using hne) (by simpa using hx)
    have e : (args.map fun a => (⟨"numpy", a.data⟩ : XArray)).map XArray.data =
        args.map XArray.data := by simp
    unfold addition
    simp only [hn, bind, Except.bind, e]
    split_ifs <;> rcases func (args.map XArray.data) <;> rfl
  · rintro (rfl | ⟨a, ha, b, hb, hab⟩)
    · exact ⟨_, rfl⟩
    · have hn := arrayNamespace_mixed (List.mem_map_of_mem (f := XArray.xp) ha)
        (List.mem_map_of_mem (f := XArray.xp) hb) hab
      unfold addition
      simp only [hn]
      exact ⟨_, rfl⟩

/-- **C131**: the gradient of an array with one axis, for every library. -/
theorem gradient_one {f : XArray} {n : ℕ} (hs : f.data.shape = [n]) (hn : 2 ≤ n) :
    ∃ g, gradient f = .ok (.array ⟨f.xp, g⟩) ∧ g.shape = [n] ∧
      Glass.Shells.gradient f.data.ravel = .ok g.ravel := by
  have h1 : ¬ (f.data.shape.any (· < 2)) = true := by simp [hs]; omega
  refine ⟨gradientAxis f.data 0, ?_, hs, ?_⟩
  · unfold gradient
    rw [if_neg h1, hs]
    rfl
  · have hr : ∀ a : NdArray ℝ, a.shape = [n] → a.ravel = (List.range n).map fun k => a.get [k] := by
      intro a ha
      simp only [ravel, ha, indices]
      simp [List.map_map, ← List.map_eq_flatMap, Function.comp_def]
    rw [hr _ hs, hr _ (show (gradientAxis f.data 0).shape = [n] from hs)]
    have hg : ∀ k, k < n → ((List.range n).map fun k => f.data.get [k]).getD k 0 = f.data.get [k] := by
      intro k hk
      rw [List.getD_eq_getElem?_getD, List.getElem?_map, List.getElem?_range hk]
      rfl
    unfold Glass.Shells.gradient
    rw [if_neg (by simp; omega)]
    congr 1
    rw [List.length_map, List.length_range]
    refine List.map_congr_left fun k hk => ?_
    have hk : k < n := List.mem_range.1 hk
    simp only [gradientAxis, hs, List.getD_cons_zero, List.set_cons_zero]
    by_cases h0 : k = 0
    · rw [if_pos h0, if_pos h0, hg 1 (by omega), hg 0 (by omega)]
    · rw [if_neg h0, if_neg h0]
      by_cases h2 : k = n - 1
      · rw [if_pos (by omega), if_pos h2, hg k hk, hg (k - 1) (by omega), h2]
        rfl
      · rw [if_neg (by omega), if_neg h2, hg _ (by omega), hg _ (by omega)]

/-- **C131**: the gradient raises `ValueError` exactly if an axis has fewer than two points, for every
library. -/
theorem gradient_rejects (f : XArray) :
    ((∃ e, gradient f = .error (.value e)) ↔ ∃ n ∈ f.data.shape, n < 2) ∧
    ∀ e, gradient f = .error e → ∃ r, e = .value r := by
  unfold gradient
  by_cases h : f.data.shape.any (· < 2) = true
  · rw [if_pos h]
    refine ⟨⟨fun _ => by simpa using h, fun _ => ⟨_, rfl⟩⟩, fun e he => ?_⟩
    cases he
    exact ⟨_, rfl⟩
  · rw [if_neg h]
    have hn : ¬ ∃ n ∈ f.data.shape, n < 2 := by simpa using h
    have hok : ∀ e, (match (List.range f.data.shape.length).map (gradientAxis f.data) with
        | [g] => (.ok (.array ⟨f.xp, g⟩) : Except Err Result)
        | gs => if native f.xp then .ok (.tuple (gs.map (⟨f.xp, ·⟩)))
          else .ok (.array ⟨f.xp, stack f.data.shape gs⟩)) ≠ .error e := by
      intro e
      split
      · simp
      · split_ifs <;> simp
    exact ⟨⟨fun ⟨e, he⟩ => absurd he (hok _), fun h => absurd h hn⟩, fun e he => absurd he (hok e)⟩

/-- **C131** (refuted): the gradient of an array with several axes is a tuple of arrays for NumPy and
JAX, but one array for all other libraries. -/
theorem gradient_several {f : XArray} (hd : 2 ≤ f.data.shape.length) (hs : ∀ n ∈ f.data.shape, 2 ≤ n) :
    (f.xp = "numpy" ∨ f.xp = "jax.numpy" → ∃ gs, gradient f = .ok (.tuple gs) ∧
      gs = (List.range f.data.shape.length).map fun a => ⟨f.xp, gradientAxis f.data a⟩) ∧
    (¬ (f.xp = "numpy" ∨ f.xp = "jax.numpy") → ∃ g, gradient f = .ok (.array ⟨f.xp, g⟩) ∧
      g.shape = f.data.shape.length :: f.data.shape ∧
      ∀ a < f.data.shape.length, ∀ i, g.get (a :: i) = (gradientAxis f.data a).get i) := by
  have h1 : ¬ (f.data.shape.any (· < 2)) = true := by
    simp only [List.any_eq_true, decide_eq_true_eq, not_exists, not_and, not_lt]
    exact hs
  obtain ⟨d, hd'⟩ : ∃ d, f.data.shape.length = d + 2 := ⟨_, (Nat.sub_add_cancel hd).symm⟩
  set gs := (List.range f.data.shape.length).map (gradientAxis f.data) with hgs
  have hl : gs.length = d + 2 := by rw [hgs]; simp [hd']
  obtain ⟨g₁, g₂, gr, hg⟩ : ∃ g₁ g₂ gr, gs = g₁ :: g₂ :: gr := by
    clear_value gs
    rcases gs with _ | ⟨g₁, _ | ⟨g₂, gr⟩⟩
    · simp at hl
    · simp at hl
    · exact ⟨_, _, _, rfl⟩
  unfold gradient
  rw [if_neg h1, ← native_iff, Bool.not_eq_true]
  constructor
  · intro hx
    refine ⟨gs.map (⟨f.xp, ·⟩), ?_, by rw [hgs, List.map_map]; rfl⟩
    rw [← hgs, hg]
    simp only [hx, if_true]
  · intro hx
    refine ⟨stack f.data.shape gs, ?_, ?_, ?_⟩
    · rw [← hgs, hg]
      simp only [hx]
      rfl
    · unfold stack
      rw [if_neg (by intro h; rw [h] at hl; simp at hl), hl, hd']
    · intro a ha i
      unfold stack
      rw [if_neg (by intro h; rw [h] at hl; simp at hl)]
      simp only [List.headD_cons, List.tail_cons]
      rw [hgs, List.getElem?_map, List.getElem?_range ha]
      rfl

/-- **C131** (refuted): functions made by `vectorize` return arrays of NumPy for every library.
(`tomo_nz_gausserr` converts its result for that reason.) -/
theorem vectorize_numpy (f : ℝ → ℝ) (xp : String) (a : XArray) :
    (vectorize f xp a).xp = "numpy" ∧ (vectorize f xp a).data.shape = a.data.shape ∧
      ∀ i, (vectorize f xp a).data.get i = f (a.data.get i) := ⟨rfl, rfl, fun _ => rfl⟩

/-- The default arguments fail for the strict library. -/
example : ∃ r, trapezoid ⟨"array_api_strict", ⟨[3], fun _ => 1⟩⟩ none 1 (-1) = .error (.value r) :=
  trapezoid_spacing_fails (by decide) 1 (-1)

end Glass.Compat
