import Mathlib.Data.List.Basic
import Verif.User.Model

/-!
# Input and output (C74, C75)
-/

namespace Glass.User

open Glass

/-! ## Spectra -/

theorem splitAt'_cons {α : Type} (pre : List α) : ∀ (cls : List (List α)), cls ≠ [] →
    splitAt' (pre ++ cls.flatten) pre.length
      (cumulativeSum pre.length (cls.dropLast.map List.length)) = cls := by
  intro cls
  induction cls generalizing pre with
  | nil => intro h; exact absurd rfl h
  | cons c cls ih =>
    intro _
    rcases cls with _ | ⟨c', cls⟩
    · simp [cumulativeSum, splitAt']
    · have h := ih (pre ++ c) (by simp)
      rw [List.dropLast_cons_cons, List.map_cons, cumulativeSum, splitAt']
      rw [List.length_append] at h
      rw [List.flatten_cons, ← List.append_assoc, h]
      congr 1
      rw [List.take_append_of_le_length (by simp), ← List.length_append, List.take_length]
      simp

/-- **C74**: what was stored is loaded again, for every list of spectra that is not empty.  The name
of the file ends in `.npz`. -/
theorem load_save_cls {α : Type} (files : Files α) {filename : String}
    (hf : filename.endsWith ".npz" = true) {cls : List (List α)} (hne : cls ≠ []) :
    ∃ files', saveCls files filename cls = .ok files' ∧ loadCls files' filename = some cls := by
  refine ⟨_, if_neg hne, ?_⟩
  have h := splitAt'_cons ([] : List α) cls hne
  simp only [List.nil_append, List.length_nil] at h
  simp only [loadCls, npzName, hf, if_true, Option.map_some, h]

/-- **C74**: if the name does not end in `.npz`, the spectra are loaded from the completed name. -/
theorem load_save_cls_suffix {α : Type} (files : Files α) {filename : String}
    (hf : filename.endsWith ".npz" = false) {cls : List (List α)} (hne : cls ≠ []) :
    ∃ files', saveCls files filename cls = .ok files' ∧
      loadCls files' (filename ++ ".npz") = some cls ∧
      (files filename = none → filename ++ ".npz" ≠ filename → loadCls files' filename = none) := by
  refine ⟨_, if_neg hne, ?_, fun h1 h2 => ?_⟩
  · have h := splitAt'_cons ([] : List α) cls hne
    simp only [List.nil_append, List.length_nil] at h
    simp only [loadCls, npzName, hf, Bool.false_eq_true, if_false, if_true, Option.map_some, h]
  · simp [loadCls, npzName, hf, h1, h2.symm]

/-- **C74**: other files are left alone. -/
theorem save_cls_other {α : Type} {files files' : Files α} {filename : String}
    {cls : List (List α)} (h : saveCls files filename cls = .ok files') {name : String}
    (hn : name ≠ filename) (hn' : name ≠ filename ++ ".npz") : files' name = files name := by
  simp only [saveCls] at h
  split_ifs at h
  cases h
  have : name ≠ npzName filename := by
    unfold npzName
    split_ifs
    · exact hn
    · exact hn'
  simp [this]

/-- **C74**: an empty list cannot be stored. -/
theorem save_cls_empty {α : Type} (files : Files α) (filename : String) :
    ∃ msg, saveCls files filename [] = .error (.value msg) :=
  ⟨"need at least one array to concatenate", by simp [saveCls]⟩

/-- Concrete case with a spectrum of length zero. -/
example : splitAt' [1, 2, 3] 0 (cumulativeSum 0 [2, 0]) = [[1, 2], [], [3]] := by decide

/-! ## Catalogues -/

/-- The rows of a call of `write`. -/
def rowsOf {ρ : Type} : Action ρ → List (List ρ)
  | .write d c => d.toList ++ c.toList
  | .fail _ => []

/-- The actions before the first exception. -/
def before {ρ : Type} (actions : List (Action ρ)) : List (Action ρ) :=
  actions.takeWhile fun a => match a with
    | .write _ _ => true
    | .fail _ => false

/-- The file that holds the given tables of rows, in order, in one extension after the first. -/
def catalogue {ρ : Type} (ext : Option String) : List (List ρ) → List (Hdu ρ)
  | [] => [⟨none, []⟩]
  | d :: ds => [⟨none, []⟩, ⟨ext, (d :: ds).flatten⟩]

theorem takeWhile_all {α : Type} {p : α → Bool} : ∀ {l : List α}, (∀ a ∈ l, p a = true) →
    l.takeWhile p = l
  | [], _ => rfl
  | a :: l, h => by
    rw [List.takeWhile_cons_of_pos (h a (by simp)),
      takeWhile_all fun b hb => h b (List.mem_cons_of_mem _ hb)]

/-- The state of the writer after the given tables. -/
def WriterAt {ρ : Type} (ext : Option String) (ds : List (List ρ)) (w : Writer ρ) : Prop :=
  w.fits = catalogue ext ds ∧
    w.ext = match ext with
      | some s => some (.name s)
      | none => if ds = [] then none else some (.num 1)

theorem writeRows_end {ρ : Type} (rows data : List ρ) :
    writeRows rows data rows.length = rows ++ data := by
  simp [writeRows]

theorem append_at {ρ : Type} {ext : Option String} {ds : List (List ρ)} {w : Writer ρ}
    (h : WriterAt ext ds w) (d : List ρ) : WriterAt ext (ds ++ [d]) (append w d) := by
  obtain ⟨fits, e⟩ := w
  obtain ⟨h1, h2⟩ := h
  simp only at h1 h2
  subst h1
  rcases ext with _ | s
  · rcases ds with _ | ⟨d', ds⟩
    · simp only [if_true] at h2
      subst h2
      exact ⟨by simp [append, writeTable, catalogue], by simp [append, writeTable, catalogue]⟩
    · have h3 : e = some (.num 1) := by simpa using h2
      subst h3
      simp only [append, find, catalogue]
      refine ⟨?_, ?_⟩
      · show [_, (⟨none, writeRows (d' :: ds).flatten d (d' :: ds).flatten.length⟩ : Hdu ρ)] = _
        rw [writeRows_end]
        simp [catalogue]
      · simp
  · subst h2
    rcases ds with _ | ⟨d', ds⟩
    · simp [append, find, catalogue, WriterAt, writeTable]
    · have hf : find (catalogue (some s) (d' :: ds)) (.name s) = some 1 := by
        simp [find, catalogue, List.findIdx?_cons]
      simp only [append, hf]
      refine ⟨?_, rfl⟩
      show [_, (⟨some s, writeRows (d' :: ds).flatten d (d' :: ds).flatten.length⟩ : Hdu ρ)] = _
      rw [writeRows_end]
      simp [catalogue]

theorem write_at {ρ : Type} {ext : Option String} {ds : List (List ρ)} {w : Writer ρ}
    (h : WriterAt ext ds w) (d c : Option (List ρ)) :
    WriterAt ext (ds ++ rowsOf (.write d c)) (write w d c) := by
  rcases d with _ | d <;> rcases c with _ | c
  · simpa [rowsOf, write] using h
  · exact append_at h c
  · exact append_at h d
  · have := append_at (append_at h d) c
    simpa [rowsOf, write] using this

theorem body_at {ρ : Type} {ext : Option String} (actions : List (Action ρ)) :
    ∀ {ds : List (List ρ)} {w : Writer ρ}, WriterAt ext ds w →
      WriterAt ext (ds ++ ((before actions).map rowsOf).flatten) (body w actions).1 ∧
      (body w actions).2 = (actions.filterMap fun a => match a with
        | .write _ _ => none
        | .fail e => some e).head? := by
  induction actions with
  | nil => intro ds w h; exact ⟨by simpa [before, body] using h, rfl⟩
  | cons a as ih =>
    intro ds w h
    rcases a with ⟨d, c⟩ | e
    · obtain ⟨h1, h2⟩ := ih (write_at h d c)
      refine ⟨?_, ?_⟩
      · simpa [before, body] using h1
      · simpa [body] using h2
    · refine ⟨by simpa [before, body] using h, by simp [body]⟩

/-- **C75**: after any sequence of writes the file has one table with the rows of all writes in
order.  If there is an exception, the rows written before it are kept, and it is passed on.  What the
file contained before is gone. -/
theorem write_catalog_spec {ρ : Type} (old : List (Hdu ρ)) (ext : Option String)
    (actions : List (Action ρ)) :
    writeCatalog old ext actions =
      (catalogue ext ((before actions).map rowsOf).flatten,
        (actions.filterMap fun a => match a with
          | .write _ _ => none
          | .fail e => some e).head?) := by
  have h0 : WriterAt (ρ := ρ) ext [] ⟨[⟨none, []⟩], ext.map Ext.name⟩ := by
    rcases ext with _ | s <;> exact ⟨rfl, rfl⟩
  obtain ⟨h1, h2⟩ := body_at actions h0
  simp only [List.nil_append] at h1
  simp only [writeCatalog, List.nil_append]
  rw [← h1.1, ← h2]

/-- The rows of the table of a file, if there is one. -/
def tableRows {ρ : Type} (fits : List (Hdu ρ)) : List ρ := ((fits[1]?).map Hdu.rows).getD []

/-- **C75**: the table holds all rows, and nothing else. -/
theorem write_catalog_rows {ρ : Type} (old : List (Hdu ρ)) (ext : Option String)
    (calls : List (Option (List ρ) × Option (List ρ))) :
    tableRows (writeCatalog old ext (calls.map fun c => .write c.1 c.2)).1 =
      (calls.map fun c => c.1.getD [] ++ c.2.getD []).flatten ∧
    (writeCatalog old ext (calls.map fun c => .write c.1 c.2)).2 = none := by
  rw [write_catalog_spec]
  have hb : before (calls.map fun c => (Action.write c.1 c.2 : Action ρ)) =
      calls.map fun c => .write c.1 c.2 := by
    refine takeWhile_all fun a ha => ?_
    obtain ⟨c, -, rfl⟩ := List.mem_map.1 ha
    rfl
  have hrows : ∀ l : List (List ρ), tableRows (catalogue ext l) = l.flatten := by
    intro l
    rcases l with _ | ⟨d, l⟩ <;> simp [tableRows, catalogue]
  refine ⟨?_, ?_⟩
  · simp only [hb, hrows]
    clear hb
    induction calls with
    | nil => rfl
    | cons c calls ih =>
      simp only [List.map_cons, List.flatten_cons, List.flatten_append]
      rw [ih]
      rcases c with ⟨d | d, c | c⟩ <;> simp [rowsOf]
  · simp [List.filterMap_map]

/-- **C75**: rows that were written earlier are never changed: later writes only add rows. -/
theorem write_catalog_prefix {ρ : Type} (old : List (Hdu ρ)) (ext : Option String)
    (first second : List (Action ρ)) (h : (writeCatalog old ext first).2 = none) :
    tableRows (writeCatalog old ext first).1 <+:
      tableRows (writeCatalog old ext (first ++ second)).1 := by
  have hrows : ∀ l : List (List ρ), tableRows (catalogue ext l) = l.flatten := by
    intro l
    rcases l with _ | ⟨d, l⟩ <;> simp [tableRows, catalogue]
  rw [write_catalog_spec] at h ⊢
  rw [write_catalog_spec, hrows, hrows]
  have hall : ∀ a ∈ first, (match a with
      | .write _ _ => true
      | .fail _ => false) = true := by
    intro a ha
    rcases a with ⟨d, c⟩ | e
    · rfl
    · exfalso
      simp only [List.head?_eq_none_iff] at h
      rw [List.filterMap_eq_nil_iff] at h
      exact absurd (h _ ha) (by simp)
  rw [before, before, List.takeWhile_append_of_pos hall, takeWhile_all hall,
    List.map_append, List.flatten_append, List.flatten_append]
  exact List.prefix_append _ _

/-- Two calls, the second with both kinds of argument, and an exception after them. -/
example : writeCatalog ([] : List (Hdu ℕ)) (some "CAT")
    [.write none (some [1, 2]), .write (some [3]) (some [4]), .fail .index, .write (some [5]) none] =
    ([⟨none, []⟩, ⟨some "CAT", [1, 2, 3, 4]⟩], some .index) := by
  rw [write_catalog_spec]
  simp [before, rowsOf, catalogue]

end Glass.User
