import Verif.Compat.Fallback
import Mathlib.Data.List.Forall2
import Mathlib.Data.List.Basic

/-!
# What `numpy_fallback` promises

The specification looks at objects along paths: the entry at a path, and what can be seen there.
Conversion changes the namespace of the arrays at all paths and nothing else.
-/

namespace Glass.Compat

open Glass

variable {D A : Type}

/-! ### Specification -/

/-- The items of a tuple, a list or a dictionary. -/
def Obj.children : Obj D A → List (Obj D A)
  | .tuple items => items
  | .list items => items
  | .dict _ values => values
  | _ => []

/-- The object at a path through tuples, lists and dictionaries. -/
def Obj.at : Obj D A → List ℕ → Option (Obj D A)
  | o, [] => .some o
  | o, i :: p => match o.children[i]? with
    | .none => .none
    | .some c => c.at p

/-- What can be seen of an object without its items. -/
inductive Label (D A : Type)
  | array (xp : String) (data : D)
  | none
  | backend (xp : String)
  | other (a : A)
  | tuple (n : ℕ)
  | list (n : ℕ)
  | dict (keys : List String) (n : ℕ)
  | seq (items : List (Obj D A))

/-- The label of an object. -/
def Obj.label : Obj D A → Label D A
  | .array xp data => .array xp data
  | .none => .none
  | .backend xp => .backend xp
  | .other a => .other a
  | .tuple items => .tuple items.length
  | .list items => .list items.length
  | .dict keys values => .dict keys values.length
  | .seq items => .seq items

/-- Moving arrays to another namespace. -/
def Label.move (f : String → String) : Label D A → Label D A
  | .array xp data => .array (f xp) data
  | l => l

/-- `o'` is `o` with the arrays at all paths moved to other namespaces, and equal otherwise. -/
def Moved (f : String → String) (o o' : Obj D A) : Prop :=
  ∀ p, (o'.at p).map Obj.label = (o.at p).map fun c => c.label.move f

/-- There is an array of namespace `xp` somewhere in the object. -/
inductive HasArray : Obj D A → String → Prop
  | array (xp : String) (data : D) : HasArray (.array xp data) xp
  | tuple {items : List (Obj D A)} {o xp} : o ∈ items → HasArray o xp → HasArray (.tuple items) xp
  | list {items : List (Obj D A)} {o xp} : o ∈ items → HasArray o xp → HasArray (.list items) xp
  | dict {keys} {values : List (Obj D A)} {o xp} : o ∈ values → HasArray o xp →
      HasArray (.dict keys values) xp
  | seq {items : List (Obj D A)} {o xp} : o ∈ items → HasArray o xp → HasArray (.seq items) xp

/-- An array of namespace `xp` is among the arguments. -/
def Passed (args : List (Obj D A)) (kwargs : List (String × Obj D A)) (xp : String) : Prop :=
  (∃ o ∈ args, HasArray o xp) ∨ ∃ kv ∈ kwargs, HasArray kv.2 xp

/-- The arguments that the wrapped function gets: NumPy arrays for arrays, without `xp`. -/
structure NumpyArgs (args : List (Obj D A)) (kwargs : List (String × Obj D A))
    (npArgs : List (Obj D A)) (npKwargs : List (String × Obj D A)) : Prop where
  args : List.Forall₂ (Moved fun _ => "numpy") args npArgs
  kwargs : List.Forall₂ (fun kv kv' => kv'.1 = kv.1 ∧ Moved (fun _ => "numpy") kv.2 kv'.2)
    (kwargs.filter fun kv => kv.1 ≠ "xp") npKwargs
  no_xp : ∀ kv ∈ npKwargs, kv.1 ≠ "xp"

/-- The namespace of a NumPy array in the result. -/
def backTo (xp ns : String) : String := if ns = "numpy" then xp else ns

/-! ### Lemmas -/

theorem toNumpyAll_map (l : List (Obj D A)) : toNumpyAll l = l.map toNumpy := by
  induction l with
  | nil => rfl
  | cons o os ih => simp [toNumpyAll, ih]

theorem convertBackAll_map (xp : String) (l : List (Obj D A)) :
    convertBackAll xp l = l.map (convertBack xp) := by
  induction l with
  | nil => rfl
  | cons o os ih => simp [convertBackAll, ih]

theorem mem_collectAll {xp : String} {l : List (Obj D A)} :
    xp ∈ collectAll l ↔ ∃ o ∈ l, xp ∈ collectArrays o := by
  induction l with
  | nil => simp [collectAll]
  | cons o os ih => simp [collectAll, ih]

theorem moved_of (f : String → String) (g : Obj D A → Obj D A)
    (hl : ∀ o, (g o).label = o.label.move f) (hc : ∀ o, (g o).children = o.children.map g)
    (o : Obj D A) : Moved f o (g o) := by
  intro p
  induction p generalizing o with
  | nil => simp [Obj.at, hl]
  | cons i p ih =>
    simp only [Obj.at, hc, List.getElem?_map]
    cases h : o.children[i]? with
    | none => rfl
    | some c => exact ih c

theorem moved_toNumpy (o : Obj D A) : Moved (fun _ => "numpy") o (toNumpy o) := by
  refine moved_of _ _ (fun o => ?_) (fun o => ?_) o <;>
    cases o <;> simp [toNumpy, Obj.label, Label.move, Obj.children, toNumpyAll_map]

theorem moved_convertBack (xp : String) (o : Obj D A) : Moved (backTo xp) o (convertBack xp o) := by
  refine moved_of _ _ (fun o => ?_) (fun o => ?_) o <;>
    cases o <;> simp only [convertBack, Obj.label, Label.move, Obj.children, convertBackAll_map,
      List.length_map, backTo, List.map_nil]
  all_goals split_ifs <;> rfl

mutual

theorem hasArray_collect (o : Obj D A) (xp : String) : xp ∈ collectArrays o ↔ HasArray o xp := by
  cases o with
  | array ns d =>
    simp only [collectArrays, List.mem_singleton]
    constructor
    · rintro rfl; exact .array _ _
    · rintro ⟨⟩; rfl
  | none => simp only [collectArrays, List.not_mem_nil, false_iff]; rintro ⟨⟩
  | backend ns => simp only [collectArrays, List.not_mem_nil, false_iff]; rintro ⟨⟩
  | other a => simp only [collectArrays, List.not_mem_nil, false_iff]; rintro ⟨⟩
  | tuple items =>
    rw [collectArrays, hasArray_collectAll items xp]
    constructor
    · rintro ⟨o, ho, h⟩; exact .tuple ho h
    · rintro ⟨⟩; exact ⟨_, ‹_›, ‹_›⟩
  | list items =>
    rw [collectArrays, hasArray_collectAll items xp]
    constructor
    · rintro ⟨o, ho, h⟩; exact .list ho h
    · rintro ⟨⟩; exact ⟨_, ‹_›, ‹_›⟩
  | dict keys items =>
    rw [collectArrays, hasArray_collectAll items xp]
    constructor
    · rintro ⟨o, ho, h⟩; exact .dict ho h
    · rintro ⟨⟩; exact ⟨_, ‹_›, ‹_›⟩
  | seq items =>
    rw [collectArrays, hasArray_collectAll items xp]
    constructor
    · rintro ⟨o, ho, h⟩; exact .seq ho h
    · rintro ⟨⟩; exact ⟨_, ‹_›, ‹_›⟩

theorem hasArray_collectAll (l : List (Obj D A)) (xp : String) :
    xp ∈ collectAll l ↔ ∃ o ∈ l, HasArray o xp := by
  cases l with
  | nil => simp [collectAll]
  | cons o os =>
    rw [collectAll, List.mem_append, hasArray_collect o xp, hasArray_collectAll os xp]
    simp

end

/-- An object is determined by the labels at all paths, so `Moved` determines the result. -/
theorem labels_determine : ∀ (o o' : Obj D A),
    (∀ p, (o.at p).map Obj.label = (o'.at p).map Obj.label) → o = o' := by
  have key : ∀ (n : ℕ) (o o' : Obj D A), sizeOf o < n →
      (∀ p, (o.at p).map Obj.label = (o'.at p).map Obj.label) → o = o' := by
    intro n
    induction n with
    | zero => intro o o' h; omega
    | succ n ih =>
      intro o o' hn h
      have h0 := h []
      simp only [Obj.at, Option.map_some, Option.some.injEq] at h0
      have items : ∀ {l l' : List (Obj D A)}, o.children = l → o'.children = l' →
          l.length = l'.length → (∀ c ∈ l, sizeOf c < n) → l = l' := by
        intro l l' hl hl' hlen hs
        refine List.ext_getElem hlen fun i h1 h2 => ih _ _ (hs _ (List.getElem_mem h1)) fun p => ?_
        have := h (i :: p)
        simpa only [Obj.at, hl, hl', List.getElem?_eq_getElem h1, List.getElem?_eq_getElem h2]
          using this
      have small : ∀ {l : List (Obj D A)}, sizeOf l < n → ∀ c ∈ l, sizeOf c < n := by
        intro l hl c hc
        have := List.sizeOf_lt_of_mem hc
        omega
      cases o <;> cases o' <;> simp only [Obj.label, reduceCtorEq, Label.array.injEq,
        Label.backend.injEq, Label.other.injEq, Label.tuple.injEq, Label.list.injEq,
        Label.dict.injEq, Label.seq.injEq] at h0
      · rw [h0.1, h0.2]
      · rfl
      · rw [h0]
      · rw [h0]
      · exact congrArg Obj.tuple (items (l := _) (l' := _) rfl rfl h0 (small (by
          simp only [Obj.tuple.sizeOf_spec] at hn; omega)))
      · exact congrArg Obj.list (items rfl rfl h0 (small (by
          simp only [Obj.list.sizeOf_spec] at hn; omega)))
      · exact congrArg₂ Obj.dict h0.1 (items rfl rfl h0.2 (small (by
          simp only [Obj.dict.sizeOf_spec] at hn; omega)))
      · rw [h0]
  exact fun o o' => key _ o o' (Nat.lt_succ_self _)

theorem arrayNamespace_ok {l : List String} {xp : String} (h : l ≠ []) (hl : ∀ x ∈ l, x = xp) :
    arrayNamespace l = .ok xp := by
  cases l with
  | nil => exact absurd rfl h
  | cons a l =>
    have ha : a = xp := hl a (by simp)
    subst ha
    rw [arrayNamespace, if_pos]
    simp only [List.all_eq_true, beq_iff_eq]
    exact fun x hx => hl x (by simp [hx])

theorem arrayNamespace_mixed {l : List String} {x y : String} (hx : x ∈ l) (hy : y ∈ l)
    (h : x ≠ y) : arrayNamespace l = .error (.type "multiple namespaces") := by
  cases l with
  | nil => simp at hx
  | cons a l =>
    rw [arrayNamespace, if_neg]
    simp only [List.all_eq_true, beq_iff_eq]
    intro hall
    have : ∀ z ∈ a :: l, z = a := by
      intro z hz
      rcases List.mem_cons.1 hz with rfl | hz
      · rfl
      · exact hall z hz
    exact h ((this x hx).trans (this y hy).symm)

theorem passed_iff (args : List (Obj D A)) (kwargs : List (String × Obj D A)) (xp : String) :
    xp ∈ collectAll args ++ collectAll (kwargs.map Prod.snd) ↔ Passed args kwargs xp := by
  rw [List.mem_append, hasArray_collectAll, hasArray_collectAll, Passed]
  simp only [List.mem_map, exists_exists_and_eq_and]

theorem forall₂_map {α β : Type} {R : α → β → Prop} {f : α → β} (h : ∀ a, R a (f a)) (l : List α) :
    List.Forall₂ R l (l.map f) := by
  induction l with
  | nil => exact .nil
  | cons a l ih => exact .cons (h a) ih

theorem numpyArgs_of (args : List (Obj D A)) (kwargs : List (String × Obj D A)) :
    NumpyArgs args kwargs (toNumpyAll args)
      ((kwargs.filter fun kv => kv.1 ≠ "xp").map fun kv => (kv.1, toNumpy kv.2)) where
  args := by rw [toNumpyAll_map]; exact forall₂_map moved_toNumpy args
  kwargs := forall₂_map (fun kv => ⟨rfl, moved_toNumpy kv.2⟩) _
  no_xp := by
    intro kv hkv
    obtain ⟨kv', h, rfl⟩ := List.mem_map.1 hkv
    simpa using (List.mem_filter.1 h).2

/-- `Moved` has only one solution. -/
theorem moved_unique {f : String → String} {o a b : Obj D A} (ha : Moved f o a) (hb : Moved f o b) :
    a = b := labels_determine a b fun p => (ha p).trans (hb p).symm

/-! ### Properties -/

/-- How a call went, given how the function went on NumPy arrays. -/
def Outcome (xp : String) (inner outer : Except Err (Obj D A)) : Prop :=
  (∀ e, inner = .error e → outer = .error e) ∧
  ∀ r, inner = .ok r → ∃ r', outer = .ok r' ∧ Moved (backTo xp) r r'

theorem outcome_run (xp : String) (inner : Except Err (Obj D A)) :
    Outcome xp inner (match inner with
      | .error e => .error e
      | .ok result => .ok (convertBack xp result)) := by
  refine ⟨fun e h => by rw [h], fun r h => ⟨convertBack xp r, by rw [h], moved_convertBack xp r⟩⟩

/-- **C91**: with arrays of one namespace among the arguments the function is called with the same
arguments, in which NumPy arrays with the same contents replace the arrays at every path through
tuples, lists and dictionaries; the keyword `xp` is not passed on.  An exception is passed on, and
NumPy arrays in the result are moved to the namespace of the arguments. -/
theorem fallback_call (func : Func D A) (args : List (Obj D A)) (kwargs : List (String × Obj D A))
    (xp : String) (h1 : ∃ ns, Passed args kwargs ns) (h2 : ∀ ns, Passed args kwargs ns → ns = xp)
    (h3 : kwargs.lookup "xp" = none ∨ kwargs.lookup "xp" = some .none) :
    ∃ npArgs npKwargs, NumpyArgs args kwargs npArgs npKwargs ∧
      Outcome xp (func npArgs npKwargs) (numpyFallback func args kwargs) := by
  refine ⟨_, _, numpyArgs_of args kwargs, ?_⟩
  obtain ⟨ns, hns⟩ := h1
  have hne : collectAll args ++ collectAll (kwargs.map Prod.snd) ≠ [] :=
    List.ne_nil_of_mem ((passed_iff _ _ _).2 hns)
  have hok : fallbackNamespace (collectAll args ++ collectAll (kwargs.map Prod.snd)) kwargs
      = .ok xp := by
    have := arrayNamespace_ok hne fun x hx => h2 x ((passed_iff _ _ _).1 hx)
    rcases h3 with h3 | h3 <;> simp only [fallbackNamespace, h3, this]
  unfold numpyFallback
  simp only [if_neg hne, hok]
  exact outcome_run _ _

/-- **C91**: an explicit backend decides the namespace of the result; the arguments may then come
from any namespaces. -/
theorem fallback_backend (func : Func D A) (args : List (Obj D A))
    (kwargs : List (String × Obj D A)) (xp : String) (h1 : ∃ ns, Passed args kwargs ns)
    (h3 : kwargs.lookup "xp" = some (.backend xp)) :
    ∃ npArgs npKwargs, NumpyArgs args kwargs npArgs npKwargs ∧
      Outcome xp (func npArgs npKwargs) (numpyFallback func args kwargs) := by
  refine ⟨_, _, numpyArgs_of args kwargs, ?_⟩
  obtain ⟨ns, hns⟩ := h1
  have hne : collectAll args ++ collectAll (kwargs.map Prod.snd) ≠ [] :=
    List.ne_nil_of_mem ((passed_iff _ _ _).2 hns)
  have hok : fallbackNamespace (collectAll args ++ collectAll (kwargs.map Prod.snd)) kwargs
      = .ok xp := by simp only [fallbackNamespace, h3]
  unfold numpyFallback
  simp only [if_neg hne, hok]
  exact outcome_run _ _

/-- **C91**: without arrays the function is called with exactly the arguments given. -/
theorem fallback_no_arrays (func : Func D A) (args : List (Obj D A))
    (kwargs : List (String × Obj D A)) (h : ∀ ns, ¬ Passed args kwargs ns) :
    numpyFallback func args kwargs = func args kwargs := by
  have : collectAll args ++ collectAll (kwargs.map Prod.snd) = [] :=
    List.eq_nil_iff_forall_not_mem.2 fun ns hns => h ns ((passed_iff _ _ _).1 hns)
  unfold numpyFallback
  simp only [if_pos this]

/-- **C91**: arrays of different namespaces raise `TypeError`, whatever the function. -/
theorem fallback_mixed (func : Func D A) (args : List (Obj D A)) (kwargs : List (String × Obj D A))
    (x y : String) (hx : Passed args kwargs x) (hy : Passed args kwargs y) (hxy : x ≠ y)
    (h3 : kwargs.lookup "xp" = none ∨ kwargs.lookup "xp" = some .none) :
    numpyFallback func args kwargs = .error (.type "multiple namespaces") := by
  have hne : collectAll args ++ collectAll (kwargs.map Prod.snd) ≠ [] :=
    List.ne_nil_of_mem ((passed_iff _ _ _).2 hx)
  have := arrayNamespace_mixed ((passed_iff _ _ _).2 hx) ((passed_iff _ _ _).2 hy) hxy
  unfold numpyFallback
  rcases h3 with h3 | h3 <;> simp only [if_neg hne, fallbackNamespace, h3, this]

/-- **C91**: a function that treats all namespaces alike is not changed by the wrapper.  If on the
NumPy arguments it returns the NumPy form of `r`, then the wrapper returns `r`, for every `r` whose
arrays are in the namespace of the arguments. -/
theorem fallback_transparent (func : Func D A) (args : List (Obj D A))
    (kwargs : List (String × Obj D A)) (xp : String) (r : Obj D A)
    (h1 : ∃ ns, Passed args kwargs ns) (h2 : ∀ ns, Passed args kwargs ns → ns = xp)
    (h3 : kwargs.lookup "xp" = none ∨ kwargs.lookup "xp" = some .none)
    (hr : ∀ p ns d, r.at p = some (.array ns d) → ns = xp)
    (hf : ∀ npArgs npKwargs, NumpyArgs args kwargs npArgs npKwargs →
      ∃ r', func npArgs npKwargs = .ok r' ∧ Moved (fun _ => "numpy") r r') :
    numpyFallback func args kwargs = .ok r := by
  obtain ⟨npArgs, npKwargs, hn, -, ho⟩ := fallback_call func args kwargs xp h1 h2 h3
  obtain ⟨r', hr', hm⟩ := hf _ _ hn
  obtain ⟨r'', hr'', hm'⟩ := ho r' hr'
  rw [hr'']
  congr 1
  refine labels_determine _ _ fun p => ?_
  rw [hm' p]
  have h1 := hm p
  cases hp : r.at p with
  | none => simpa [hp] using h1
  | some c =>
    cases hp' : r'.at p with
    | none => simp [hp, hp'] at h1
    | some c' =>
      simp only [hp, hp', Option.map_some, Option.some.injEq] at h1 ⊢
      rw [h1]
      cases c with
      | array ns d =>
        have := hr p ns d hp
        simp [Obj.label, Label.move, backTo, this]
      | _ => rfl

/-- The hypotheses of `fallback_transparent` hold for the function that returns its arguments as a
tuple, here with two arrays, one of them in a list in a dictionary. -/
example : numpyFallback (D := ℕ) (A := ℕ) (fun args _ => .ok (.tuple args))
      [.array "jax" 1, .dict ["a"] [.list [.other 5, .array "jax" 2]]] [("flag", .other 0)]
    = .ok (.tuple [.array "jax" 1, .dict ["a"] [.list [.other 5, .array "jax" 2]]]) := by
  simp [numpyFallback, collectAll, collectArrays, fallbackNamespace, arrayNamespace, toNumpyAll,
    toNumpy, convertBack, convertBackAll, List.lookup]

/-- Arrays in other sequences are looked at for the namespace, but reach the function as they are;
without the wrapper looking at them they could have been left alone. -/
theorem fallback_sequence (func : Func D A) (xp : String) (d : D) :
    numpyFallback func [.seq [.array xp d]] [] = match func [.seq [.array xp d]] [] with
      | .error e => .error e
      | .ok r => .ok (convertBack xp r) := by
  simp only [numpyFallback, collectAll, collectArrays, fallbackNamespace, arrayNamespace, toNumpyAll,
    toNumpy, List.lookup, List.map_nil, List.append_nil, List.filter_nil, List.all_nil, if_true,
    reduceCtorEq, if_false]
  cases func [.seq [.array xp d]] [] <;> rfl

/-! ### The documented parameter `xp` of the wrapped functions -/

/-- **C92** is false: the docstrings of `ang2pix` and `ang2vec` document `xp`, but with numbers for
the angles it raises `TypeError`, whatever the backend and whatever HEALPix does. -/
theorem ang2pix_xp_raises (body : Func D A) (nside theta phi : A) (xp : String) :
    ang2pix body [.other nside, .other theta, .other phi] [("xp", .backend xp)]
      = .error (.type "unexpected keyword argument") ∧
    ang2vec body [.other theta, .other phi] [("xp", .backend xp)]
      = .error (.type "unexpected keyword argument") := by
  constructor <;> simp [ang2pix, ang2vec, numpyFallback, collectAll, collectArrays, withParameters]

/-- **C92** in general: no call without arrays accepts `xp`. -/
theorem ang2pix_xp_no_arrays (body : Func D A) (args : List (Obj D A))
    (kwargs : List (String × Obj D A)) (h : ∀ ns, ¬ Passed args kwargs ns)
    (hxp : ∃ v, ("xp", v) ∈ kwargs) :
    ang2pix body args kwargs = .error (.type "unexpected keyword argument") ∧
    ang2vec body args kwargs = .error (.type "unexpected keyword argument") := by
  obtain ⟨v, hv⟩ := hxp
  constructor
  · rw [ang2pix, fallback_no_arrays _ _ _ h, withParameters, if_neg]
    intro hall
    have := List.all_eq_true.1 hall _ hv
    simp at this
  · rw [ang2vec, fallback_no_arrays _ _ _ h, withParameters, if_neg]
    intro hall
    have := List.all_eq_true.1 hall _ hv
    simp at this

/-- **C92**, the part that holds: with an array among the angles `xp` is accepted, HEALPix gets NumPy
arrays, and the pixels come back in the namespace `xp`. -/
theorem ang2pix_xp_partial (body : Func D A) (args : List (Obj D A))
    (kwargs : List (String × Obj D A)) (xp : String) (h1 : ∃ ns, Passed args kwargs ns)
    (h3 : kwargs.lookup "xp" = some (.backend xp))
    (hk : ∀ kv ∈ kwargs, kv.1 ∈ ["nside", "theta", "phi", "lonlat", "xp"]) :
    ∃ npArgs npKwargs, NumpyArgs args kwargs npArgs npKwargs ∧
      Outcome xp (body npArgs npKwargs) (ang2pix body args kwargs) := by
  obtain ⟨npArgs, npKwargs, hn, ho⟩ := fallback_backend
    (withParameters ["nside", "theta", "phi", "lonlat"] body) args kwargs xp h1 h3
  refine ⟨npArgs, npKwargs, hn, ?_⟩
  rw [withParameters, if_pos] at ho
  · exact ho
  · have hall : ∀ kv ∈ npKwargs, kv.1 ∈ ["nside", "theta", "phi", "lonlat"] := by
      intro kv hkv
      obtain ⟨kv', hkv', hr⟩ : ∃ kv' ∈ kwargs.filter fun kv => kv.1 ≠ "xp", kv.1 = kv'.1 := by
        have := hn.kwargs
        clear hk h3 h1 hn ho
        revert hkv
        generalize (kwargs.filter fun kv => kv.1 ≠ "xp") = kw at this ⊢
        induction this with
        | nil => simp
        | cons h _ ih =>
          intro hkv
          rcases List.mem_cons.1 hkv with rfl | hkv
          · exact ⟨_, by simp, h.1⟩
          · obtain ⟨kv', h', e⟩ := ih hkv
            exact ⟨kv', by simp [h'], e⟩
      obtain ⟨hmem, hne⟩ := List.mem_filter.1 hkv'
      have := hk kv' hmem
      rw [hr]
      simp only [ne_eq, decide_not, Bool.not_eq_eq_eq_not, Bool.not_true,
        decide_eq_false_iff_not] at hne
      simp only [List.mem_cons, List.not_mem_nil, or_false] at this ⊢
      tauto
    simpa [List.all_eq_true] using hall

/-- The call of `galaxy_shear` (`galaxies.py:333`): arrays of angles, and `xp`. -/
example (body : Func ℕ ℕ) : ∃ npArgs npKwargs,
    NumpyArgs [.other 4, .array "jax" 1, .array "jax" 2] [("lonlat", .other 1), ("xp", .backend "jax")]
      npArgs npKwargs ∧
    Outcome "jax" (body npArgs npKwargs) (ang2pix body [.other 4, .array "jax" 1, .array "jax" 2]
      [("lonlat", .other 1), ("xp", .backend "jax")]) :=
  ang2pix_xp_partial body _ _ "jax" ⟨"jax", .inl ⟨.array "jax" 1, by simp, .array _ _⟩⟩
    (by simp [List.lookup]) (by simp)

end Glass.Compat
