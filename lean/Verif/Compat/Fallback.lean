import Verif.Common.Err

/-!
# Functions that fall back to NumPy

Model of `numpy_fallback` in `/repo/glass/_array_api_utils.py` and of the calls of the wrapped
functions in `/repo/glass/healpix.py`.
-/

namespace Glass.Compat

open Glass

/-- Python objects as `numpy_fallback` tells them apart.  `D` are the contents of arrays, `A` all
objects without structure (numbers, strings, bytes, ...).  A dictionary is given by its keys and its
values in order.  `seq` is a `Sequence` that is neither a tuple, a list, a string nor bytes, for
example a `collections.deque`.  Subclasses of tuple, list and dict, which lose their class in the
conversion, are not modelled. -/
inductive Obj (D A : Type)
  | array (xp : String) (data : D)
  | none
  | backend (xp : String)
  | other (a : A)
  | tuple (items : List (Obj D A))
  | list (items : List (Obj D A))
  | dict (keys : List String) (values : List (Obj D A))
  | seq (items : List (Obj D A))

variable {D A : Type}

mutual

/-- `_array_api_utils.py:595-604` `collect_arrays`; only the namespaces of the arrays matter. -/
def collectArrays : Obj D A → List String
  | .array xp _ => [xp]
  | .dict _ values => collectAll values
  | .tuple items => collectAll items
  | .list items => collectAll items
  | .seq items => collectAll items
  | .none => []
  | .backend _ => []
  | .other _ => []

/-- The loop over the items. -/
def collectAll : List (Obj D A) → List String
  | [] => []
  | o :: os => collectArrays o ++ collectAll os

end

mutual

/-- `_array_api_utils.py:621-631` `to_numpy`. -/
def toNumpy : Obj D A → Obj D A
  | .array _ data => .array "numpy" data
  | .tuple items => .tuple (toNumpyAll items)
  | .list items => .list (toNumpyAll items)
  | .dict keys values => .dict keys (toNumpyAll values)
  | .seq items => .seq items
  | .none => .none
  | .backend xp => .backend xp
  | .other a => .other a

/-- The loop over the items. -/
def toNumpyAll : List (Obj D A) → List (Obj D A)
  | [] => []
  | o :: os => toNumpy o :: toNumpyAll os

end

mutual

/-- `_array_api_utils.py:638-648` `convert_back`; only NumPy arrays are converted. -/
def convertBack (xp : String) : Obj D A → Obj D A
  | .array ns data => if ns = "numpy" then .array xp data else .array ns data
  | .tuple items => .tuple (convertBackAll xp items)
  | .list items => .list (convertBackAll xp items)
  | .dict keys values => .dict keys (convertBackAll xp values)
  | .seq items => .seq items
  | .none => .none
  | .backend xp => .backend xp
  | .other a => .other a

/-- The loop over the items. -/
def convertBackAll (xp : String) : List (Obj D A) → List (Obj D A)
  | [] => []
  | o :: os => convertBack xp o :: convertBackAll xp os

end

/-- `array_api_compat.array_namespace` of arrays, given by their namespaces. -/
def arrayNamespace : List String → Except Err String
  | [] => .error (.type "unrecognized array input")
  | xp :: xps => if xps.all (· == xp) then .ok xp else .error (.type "multiple namespaces")

/-- A function with positional and keyword arguments. -/
abbrev Func (D A : Type) := List (Obj D A) → List (String × Obj D A) → Except Err (Obj D A)

/-- `_array_api_utils.py:612-618`: the namespace of the result.  A keyword `xp` that is neither a
backend nor `None` fails when the first array is converted back; the model lets it fail at once. -/
def fallbackNamespace (xps : List String) (kwargs : List (String × Obj D A)) : Except Err String :=
  match kwargs.lookup "xp" with
  | some (.backend xp) => .ok xp
  | some .none => arrayNamespace xps
  | some _ => .error .attribute
  | none => arrayNamespace xps

/-- `_array_api_utils.py:569-652` `numpy_fallback`: the wrapper of `func`. -/
def numpyFallback (func : Func D A) : Func D A := fun args kwargs =>
  let xps := collectAll args ++ collectAll (kwargs.map Prod.snd)
  if xps = [] then func args kwargs
  else match fallbackNamespace xps kwargs with
  | .error e => .error e
  | .ok xp =>
    let npArgs := toNumpyAll args
    let npKwargs := (kwargs.filter fun kv => kv.1 ≠ "xp").map fun kv => (kv.1, toNumpy kv.2)
    match func npArgs npKwargs with
    | .error e => .error e
    | .ok result => .ok (convertBack xp result)

/-- A Python function without `**kwargs`: keyword arguments other than the parameters `names` raise
`TypeError` at the call. -/
def withParameters (names : List String) (body : Func D A) : Func D A := fun args kwargs =>
  if kwargs.all fun kv => names.contains kv.1 then body args kwargs
  else .error (.type "unexpected keyword argument")

/-- `healpix.py:143-177` `ang2pix`: the positional parameters may be given by keyword too; `body` is
`healpix.ang2pix`. -/
def ang2pix (body : Func D A) : Func D A :=
  numpyFallback (withParameters ["nside", "theta", "phi", "lonlat"] body)

/-- `healpix.py:180-211` `ang2vec`; `body` is `healpix.ang2vec` and packing into a tuple. -/
def ang2vec (body : Func D A) : Func D A :=
  numpyFallback (withParameters ["theta", "phi", "lonlat"] body)

end Glass.Compat
