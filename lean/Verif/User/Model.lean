import Mathlib.Data.Real.Basic
import Verif.Common.Err

/-!
# Input and output

Model of `/repo/glass/user.py`.
-/

namespace Glass.User

open Glass

/-! ## Spectra -/

/-- Running sums, `np.cumulative_sum`. -/
def cumulativeSum (start : ℕ) : List ℕ → List ℕ
  | [] => []
  | n :: ns => (start + n) :: cumulativeSum (start + n) ns

/-- `np.split(values, split)`: the slices between successive positions, from `start`. -/
def splitAt' {α : Type} (values : List α) (start : ℕ) : List ℕ → List (List α)
  | [] => [values.drop start]
  | i :: is => (values.take i).drop start :: splitAt' values i is

/-- The contents of an `.npz` file of spectra. -/
structure Npz (α : Type) where
  values : List α
  split : List ℕ

/-- The files, by name.  Only `.npz` files of spectra are modelled. -/
abbrev Files (α : Type) := String → Option (Npz α)

/-- The name under which `np.savez` stores. -/
def npzName (filename : String) : String :=
  if filename.endsWith ".npz" then filename else filename ++ ".npz"

/-- `user.py:42-64` `save_cls`.  The spectra are one-dimensional.  `np.concatenate` rejects an empty
list. -/
def saveCls {α : Type} (files : Files α) (filename : String) (cls : List (List α)) :
    Except Err (Files α) :=
  let split := cumulativeSum 0 (cls.dropLast.map List.length)
  if cls = [] then .error (.value "need at least one array to concatenate")
  else
    let values := cls.flatten
    .ok fun name => if name = npzName filename then some ⟨values, split⟩ else files name

/-- `user.py:67-88` `load_cls`.  `none` is `FileNotFoundError`. -/
def loadCls {α : Type} (files : Files α) (filename : String) : Option (List (List α)) :=
  (files filename).map fun npz => splitAt' npz.values 0 npz.split

/-! ## Catalogues -/

/-- One extension of a FITS file.  A row of a table is an abstract value: all writes to a table are
assumed to give all of its columns, with equal lengths. -/
structure Hdu (ρ : Type) where
  name : Option String
  rows : List ρ

/-- An extension is named or numbered. -/
inductive Ext where
  | name (s : String)
  | num (n : ℕ)

/-- The state of the writer, `user.py:91-116`. -/
structure Writer (ρ : Type) where
  fits : List (Hdu ρ)
  ext : Option Ext

/-- `fits[ext]`: the position of an extension, if it exists.  Names are compared exactly. -/
def find {ρ : Type} (fits : List (Hdu ρ)) : Ext → Option ℕ
  | .name s => fits.findIdx? fun h => h.name = some s
  | .num n => if n < fits.length then some n else none

/-- `fits.write_table(data, extname=ext)`: a new extension at the end. -/
def writeTable {ρ : Type} (fits : List (Hdu ρ)) (data : List ρ) (ext : Option String) :
    List (Hdu ρ) := fits ++ [⟨ext, data⟩]

/-- `hdu.write(data, firstrow=n)`: rows from `n` on are overwritten, and added at the end. -/
def writeRows {ρ : Type} (rows : List ρ) (data : List ρ) (n : ℕ) : List ρ :=
  rows.take n ++ data ++ rows.drop (n + data.length)

/-- `user.py:118-143` `_FitsWriter._append`. -/
def append {ρ : Type} (w : Writer ρ) (data : List ρ) : Writer ρ :=
  match w.ext with
  | none =>
    let fits := writeTable w.fits data none
    ⟨fits, some (.num (fits.length - 1))⟩
  | some e =>
    match find w.fits e with
    | none =>
      let name := match e with
        | .name s => some s
        | .num _ => none
      ⟨writeTable w.fits data name, w.ext⟩
    | some i => ⟨w.fits.modify i fun h => ⟨h.name, writeRows h.rows data h.rows.length⟩, w.ext⟩

/-- `user.py:145-173` `_FitsWriter.write`: the positional argument, if given, and the keyword
arguments, if there are any. -/
def write {ρ : Type} (w : Writer ρ) (data columns : Option (List ρ)) : Writer ρ :=
  let w := match data with
    | some d => append w d
    | none => w
  match columns with
  | some c => append w c
  | none => w

/-- What the body of the `with` statement does. -/
inductive Action (ρ : Type) where
  /-- A call of the writer. -/
  | write (data columns : Option (List ρ))
  /-- An exception that the body does not handle. -/
  | fail (e : Err)

/-- The body of the `with` statement: the actions up to the first exception. -/
def body {ρ : Type} (w : Writer ρ) : List (Action ρ) → Writer ρ × Option Err
  | [] => (w, none)
  | .write d c :: as => body (write w d c) as
  | .fail e :: _ => (w, some e)

/-- `user.py:176-213` `write_catalog` as a context manager around the body: the extensions of the
file after it is closed, and the exception that leaves the `with` statement.  The old contents are
removed (`clobber=True`), and `fits.write(None)` makes an empty first extension. -/
def writeCatalog {ρ : Type} (_old : List (Hdu ρ)) (ext : Option String) (actions : List (Action ρ)) :
    List (Hdu ρ) × Option Err :=
  let fits : List (Hdu ρ) := []
  let fits := fits ++ [⟨none, []⟩]
  let (w, e) := body ⟨fits, ext.map Ext.name⟩ actions
  (w.fits, e)

end Glass.User
