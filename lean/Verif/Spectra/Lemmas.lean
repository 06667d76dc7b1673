import Mathlib.Tactic.Linarith
import Mathlib.Tactic.Ring
import Mathlib.Tactic.NormNum
import Mathlib.Tactic.Positivity
import Mathlib.Tactic.FieldSimp
import Mathlib.Tactic.IntervalCases
import Mathlib.Data.List.Nodup
import Mathlib.Data.List.Range
import Verif.Spectra.Model

/-! # Helper lemmas for the two-point bookkeeping -/

namespace Glass.Spectra

/-! ## Triangle numbers -/

/-- The triangle number as used in index arithmetic. -/
def tri (n : ℕ) : ℕ := n * (n + 1) / 2

theorem two_mul_tri (n : ℕ) : 2 * tri n = n * (n + 1) := by
  unfold tri
  have h : 2 ∣ n * (n + 1) := (Nat.even_mul_succ_self n).two_dvd
  omega

theorem tri_zero : tri 0 = 0 := rfl

theorem tri_succ (n : ℕ) : tri (n + 1) = tri n + (n + 1) := by
  have h1 := two_mul_tri n
  have h2 := two_mul_tri (n + 1)
  nlinarith

theorem tri_mono {a b : ℕ} (h : a ≤ b) : tri a ≤ tri b := by
  have h1 := two_mul_tri a
  have h2 := two_mul_tri b
  nlinarith

theorem tri_lt {a b : ℕ} (h : a < b) : tri a + a < tri b := by
  have := tri_mono (show a + 1 ≤ b from h)
  rw [tri_succ] at this
  omega

theorem tri_row_unique {a b c d : ℕ} (hc : c ≤ a) (hd : d ≤ b) (h : tri a + c = tri b + d) :
    a = b ∧ c = d := by
  rcases lt_trichotomy a b with hab | hab | hab
  · have := tri_lt hab; omega
  · subst hab; omega
  · have := tri_lt hab; omega

/-- Every number lies in exactly one row of the triangle. -/
theorem exists_row (k : ℕ) : ∃ i c, c ≤ i ∧ k = tri i + c := by
  induction k with
  | zero => exact ⟨0, 0, le_rfl, rfl⟩
  | succ k ih =>
    obtain ⟨i, c, hc, rfl⟩ := ih
    by_cases h : c = i
    · subst h
      exact ⟨c + 1, 0, Nat.zero_le _, by rw [tri_succ]; omega⟩
    · exact ⟨i, c + 1, by omega, by omega⟩

theorem tri_inj {a b : ℕ} (h : tri a = tri b) : a = b :=
  (tri_row_unique (Nat.zero_le a) (Nat.zero_le b) (by simpa using h)).1

theorem int_fdiv_two (m t : ℤ) (hm : 2 ∣ m) : Int.fdiv m 2 = t ↔ m = 2 * t := by
  obtain ⟨c, rfl⟩ := hm
  rw [Int.mul_fdiv_cancel_left _ (by norm_num)]
  constructor
  · rintro rfl; rfl
  · intro h; omega

theorem two_dvd_mul_succ (n : ℤ) : 2 ∣ n * (n + 1) := (Int.even_mul_succ_self n).two_dvd

/-- What is needed of the square root at triangle numbers. -/
theorem floor_sqrt_tri (n : ℤ) (hn : 0 ≤ n) : ⌊Real.sqrt ((n * (n + 1) : ℤ) : ℝ)⌋ = n := by
  rw [Int.floor_eq_iff]
  have hn' : (0 : ℝ) ≤ n := by exact_mod_cast hn
  push_cast
  constructor
  · apply Real.le_sqrt_of_sq_le; nlinarith
  · rw [Real.sqrt_lt' (by linarith)]; nlinarith

theorem invTriangleNumber_ok_iff (rt : ℝ → ℝ) (hrt : ∀ x, 0 ≤ x → 0 ≤ rt x) (t n : ℤ)
    (hfl : 0 ≤ n → n * (n + 1) = 2 * t → ⌊rt ((n * (n + 1) : ℤ) : ℝ)⌋ = n) :
    invTriangleNumber rt t = .ok n ↔ 0 ≤ n ∧ n * (n + 1) = 2 * t := by
  unfold invTriangleNumber
  by_cases h0 : 2 * t < 0
  · simp only [h0, if_true]
    constructor
    · intro h; cases h
    · rintro ⟨h1, h2⟩
      have : 0 ≤ n * (n + 1) := by positivity
      omega
  · simp only [h0, if_false]
    set m : ℤ := ⌊rt ((2 * t : ℤ) : ℝ)⌋ with hm
    have hm0 : 0 ≤ m := by
      rw [hm]
      apply Int.floor_nonneg.2
      apply hrt
      exact_mod_cast (not_lt.1 h0)
    constructor
    · intro h
      split_ifs at h with h1
      rw [not_not, int_fdiv_two _ _ (two_dvd_mul_succ m)] at h1
      have hmn : m = n := by simpa using h
      rw [← hmn]
      exact ⟨hm0, h1⟩
    · rintro ⟨h1, h2⟩
      have hmn : m = n := by
        rw [hm, ← h2]
        exact hfl h1 h2
      rw [if_neg]
      · rw [hmn]
      · rw [not_not, int_fdiv_two _ _ (two_dvd_mul_succ m), hmn]
        exact h2

theorem invTriangleNumber_cases (rt : ℝ → ℝ) (t : ℤ) :
    (∃ n, invTriangleNumber rt t = .ok n) ∨ (∃ s, invTriangleNumber rt t = .error (.value s)) := by
  unfold invTriangleNumber
  split_ifs with h
  · right; exact ⟨_, rfl⟩
  · dsimp only
    split_ifs with h1
    · right; exact ⟨_, rfl⟩
    · left; exact ⟨_, rfl⟩

theorem nfieldsFromNspectra_ok_iff' (rt : ℝ → ℝ) (t n : ℤ) :
    nfieldsFromNspectra rt t = .ok n ↔ invTriangleNumber rt t = .ok n := by
  unfold nfieldsFromNspectra
  rcases invTriangleNumber_cases rt t with ⟨m, hm⟩ | ⟨s, hs⟩
  · simp [hm]
  · simp [hs]

theorem nfieldsFromNspectra_sqrt (t n : ℤ) :
    nfieldsFromNspectra Real.sqrt t = .ok n ↔ 0 ≤ n ∧ n * (n + 1) = 2 * t := by
  rw [nfieldsFromNspectra_ok_iff']
  exact invTriangleNumber_ok_iff _ (fun _ _ => Real.sqrt_nonneg _) _ _
    (fun h _ => floor_sqrt_tri n h)

theorem nfieldsFromNspectra_error (rt : ℝ → ℝ) (t : ℤ)
    (h : ∀ n, nfieldsFromNspectra rt t ≠ .ok n) :
    nfieldsFromNspectra rt t = .error (.value "invalid number of spectra") := by
  unfold nfieldsFromNspectra at *
  rcases invTriangleNumber_cases rt t with ⟨m, hm⟩ | ⟨s, hs⟩
  · exfalso; apply h m; simp [hm]
  · simp [hs]

theorem nfields_tri {α : Type*} (s : List α) (n : ℕ) (h : s.length = tri n) :
    nfields s = .ok n := by
  unfold nfields
  have : nfieldsFromNspectra Real.sqrt (s.length : ℤ) = .ok (n : ℤ) := by
    rw [nfieldsFromNspectra_sqrt]
    refine ⟨by positivity, ?_⟩
    rw [h]
    have := two_mul_tri n
    exact_mod_cast this.symm
  rw [this]
  simp [Except.map]

theorem nfields_ok {α : Type*} {s : List α} {n : ℕ} (h : nfields s = .ok n) :
    s.length = tri n := by
  unfold nfields at h
  rcases hx : nfieldsFromNspectra Real.sqrt (s.length : ℤ) with e | m
  · rw [hx] at h; simp [Except.map] at h
  · rw [hx] at h
    simp only [Except.map, Except.ok.injEq] at h
    rw [nfieldsFromNspectra_sqrt] at hx
    obtain ⟨h1, h2⟩ := hx
    obtain ⟨m', rfl⟩ := Int.eq_ofNat_of_zero_le h1
    have : m' = n := by simpa using h
    subst this
    have h3 := two_mul_tri m'
    have : m' * (m' + 1) = 2 * s.length := by exact_mod_cast h2
    omega

theorem nfields_error {α : Type*} (s : List α) (h : ∀ n, s.length ≠ tri n) :
    nfields s = .error (.value "invalid number of spectra") := by
  unfold nfields
  rw [nfieldsFromNspectra_error]
  · rfl
  · intro m hm
    rw [nfieldsFromNspectra_sqrt] at hm
    obtain ⟨h1, h2⟩ := hm
    obtain ⟨m', rfl⟩ := Int.eq_ofNat_of_zero_le h1
    apply h m'
    have h3 := two_mul_tri m'
    have : m' * (m' + 1) = 2 * s.length := by exact_mod_cast h2
    omega

/-! ## Labels -/

/-- What `label` needs of the root function in row `i` of the triangle. -/
theorem label_of_bounds (rt : ℝ → ℝ) (i c : ℕ)
    (h1 : (i : ℝ) + 1 / 2 ≤ rt (2 * ((tri i + c : ℕ) : ℝ) + 1 / 4))
    (h2 : rt (2 * ((tri i + c : ℕ) : ℝ) + 1 / 4) < (i : ℝ) + 3 / 2) :
    label rt (tri i + c) = ((i : ℤ), (i : ℤ) - c) := by
  have hi : pyInt (rt (2 * ((tri i + c : ℕ) : ℝ) + 1 / 4) - 1 / 2) = (i : ℤ) := by
    unfold pyInt
    have hi0 : (0 : ℝ) ≤ i := Nat.cast_nonneg i
    rw [if_pos (by linarith), Int.floor_eq_iff]
    rw [Int.cast_natCast]
    constructor <;> linarith
  unfold label
  simp only [hi]
  congr 1
  have h3 := two_mul_tri i
  have h3' : (2 : ℤ) * tri i = i * (i + 1) := by exact_mod_cast h3
  have : Int.fdiv ((i : ℤ) * (i + 3)) 2 = tri i + i := by
    rw [int_fdiv_two]
    · linarith
    · exact ⟨(tri i : ℤ) + i, by linarith⟩
  rw [this]
  push_cast
  ring

theorem label_sqrt (i c : ℕ) (hc : c ≤ i) :
    label Real.sqrt (tri i + c) = ((i : ℤ), (i : ℤ) - c) := by
  have h3 : (2 : ℝ) * tri i = i * (i + 1) := by exact_mod_cast two_mul_tri i
  have hc' : (c : ℝ) ≤ i := by exact_mod_cast hc
  have hc0 : (0 : ℝ) ≤ c := Nat.cast_nonneg c
  have hi0 : (0 : ℝ) ≤ i := Nat.cast_nonneg i
  apply label_of_bounds
  · apply Real.le_sqrt_of_sq_le
    push_cast; nlinarith
  · rw [Real.sqrt_lt' (by linarith)]
    push_cast; nlinarith

/-! ## The two index lists -/

theorem mem_trilIndices {n i j : ℕ} : (i, j) ∈ trilIndices n ↔ j ≤ i ∧ i < n := by
  unfold trilIndices
  simp only [List.mem_flatMap, List.mem_range, List.mem_map, Prod.mk.injEq]
  constructor
  · rintro ⟨a, ha, b, hb, rfl, rfl⟩; omega
  · rintro ⟨h1, h2⟩; exact ⟨i, h2, j, by omega, rfl, rfl⟩

theorem mem_spectraIndices {n i j : ℕ} : (i, j) ∈ spectraIndices n ↔ j ≤ i ∧ i < n := by
  unfold spectraIndices
  simp only [List.mem_map, Prod.mk.injEq, Prod.exists]
  constructor
  · rintro ⟨a, b, hab, rfl, rfl⟩
    rw [mem_trilIndices] at hab; omega
  · rintro ⟨h1, h2⟩
    exact ⟨i, i - j, mem_trilIndices.2 ⟨by omega, h2⟩, rfl, by omega⟩

theorem mem_diagIndices {n i j : ℕ} : (i, j) ∈ diagIndices n ↔ j ≤ i ∧ i < n := by
  unfold diagIndices
  simp only [List.mem_flatMap, List.mem_range, List.mem_map, Prod.mk.injEq]
  constructor
  · rintro ⟨a, ha, b, hb, rfl, rfl⟩; omega
  · rintro ⟨h1, h2⟩; exact ⟨i - j, by omega, j, by omega, by omega, rfl⟩

theorem trilIndices_succ (n : ℕ) :
    trilIndices (n + 1) = trilIndices n ++ (List.range (n + 1)).map fun j => (n, j) := by
  unfold trilIndices
  rw [List.range_succ (n := n), List.flatMap_append, ← List.range_succ (n := n)]
  simp only [List.flatMap_cons, List.flatMap_nil, List.append_nil]

theorem length_trilIndices (n : ℕ) : (trilIndices n).length = tri n := by
  induction n with
  | zero => rfl
  | succ n ih => rw [trilIndices_succ, List.length_append, ih, tri_succ]; simp

theorem spectraIndices_succ (n : ℕ) :
    spectraIndices (n + 1) = spectraIndices n ++ (List.range (n + 1)).map fun j => (n, n - j) := by
  unfold spectraIndices
  rw [trilIndices_succ, List.map_append, List.map_map]
  rfl

theorem length_spectraIndices (n : ℕ) : (spectraIndices n).length = tri n := by
  unfold spectraIndices
  rw [List.length_map, length_trilIndices]

/-- Position `tri i + c` of `tril_indices(n)` is `(i, c)`. -/
theorem getElem?_trilIndices (n i c : ℕ) (hc : c ≤ i) (hi : i < n) :
    (trilIndices n)[tri i + c]? = some (i, c) := by
  induction n with
  | zero => omega
  | succ n ih =>
    rw [trilIndices_succ]
    rcases Nat.lt_or_ge i n with h | h
    · rw [List.getElem?_append_left]
      · exact ih h
      · rw [length_trilIndices]; have := tri_lt h; omega
    · have : i = n := by omega
      subst this
      rw [List.getElem?_append_right (by rw [length_trilIndices]; omega), length_trilIndices]
      simp only [List.getElem?_map]
      rw [List.getElem?_range (by omega)]
      simp

theorem getElem?_spectraIndices (n i c : ℕ) (hc : c ≤ i) (hi : i < n) :
    (spectraIndices n)[tri i + c]? = some (i, i - c) := by
  unfold spectraIndices
  rw [List.getElem?_map, getElem?_trilIndices n i c hc hi]
  rfl

theorem nodup_trilIndices (n : ℕ) : (trilIndices n).Nodup := by
  induction n with
  | zero => exact List.nodup_nil
  | succ n ih =>
    rw [trilIndices_succ, List.nodup_append']
    refine ⟨ih, ?_, ?_⟩
    · apply List.Nodup.map _ List.nodup_range
      intro a b h; simpa using h
    · rintro ⟨a, b⟩ h1 h2
      rw [mem_trilIndices] at h1
      simp at h2
      omega

theorem nodup_spectraIndices (n : ℕ) : (spectraIndices n).Nodup := by
  unfold spectraIndices
  apply List.Nodup.map_on _ (nodup_trilIndices n)
  rintro ⟨a, b⟩ h1 ⟨c, d⟩ h2 h
  rw [mem_trilIndices] at h1 h2
  simp only [Prod.mk.injEq] at h ⊢
  omega

theorem nodup_diagIndices (n : ℕ) : (diagIndices n).Nodup := by
  unfold diagIndices
  rw [List.nodup_flatMap]
  constructor
  · intro k _
    apply List.Nodup.map _ List.nodup_range
    intro a b h
    simp at h; exact h
  · apply List.Pairwise.imp _ List.nodup_range
    intro a b hab
    rintro ⟨x, y⟩ h1 h2
    simp only [List.mem_map, Prod.mk.injEq] at h1 h2
    omega

theorem perm_diag_spectra (n : ℕ) : List.Perm (diagIndices n) (spectraIndices n) := by
  rw [List.perm_ext_iff_of_nodup (nodup_diagIndices n) (nodup_spectraIndices n)]
  rintro ⟨a, b⟩
  rw [mem_diagIndices, mem_spectraIndices]

theorem length_diagIndices (n : ℕ) : (diagIndices n).length = tri n := by
  rw [(perm_diag_spectra n).length_eq, length_spectraIndices]

/-! ## `mapM` in `Except` -/

theorem mapM_ok {α β : Type*} (f : α → Except Err β) (g : α → β) (l : List α)
    (h : ∀ a ∈ l, f a = .ok (g a)) : l.mapM f = .ok (l.map g) := by
  induction l with
  | nil => rfl
  | cons a l ih =>
    rw [List.mapM_cons, h a (by simp), ih (fun b hb => h b (by simp [hb]))]
    rfl

theorem mapM_ok_length {α β : Type*} {f : α → Except Err β} {l : List α} {r : List β}
    (h : l.mapM f = .ok r) : r.length = l.length := by
  induction l generalizing r with
  | nil => cases h; rfl
  | cons a l ih =>
    rw [List.mapM_cons] at h
    cases hf : f a with
    | error e => rw [hf] at h; cases h
    | ok b =>
      rw [hf] at h
      cases hl : l.mapM f with
      | error e => rw [hl] at h; cases h
      | ok r' =>
        rw [hl] at h
        cases h
        simp [ih hl]

theorem pyGet_of_lt {α : Type*} (s : List α) (i : ℕ) (h : i < s.length) :
    pyGet s i = .ok s[i] := by
  unfold pyGet
  rw [List.getElem?_eq_getElem h]

theorem pyGet_of_getElem? {α : Type*} {s : List α} {i : ℕ} {a : α} (h : s[i]? = some a) :
    pyGet s i = .ok a := by
  unfold pyGet
  rw [h]

/-! ## Maximum of a list -/

theorem le_foldl_max (L : List ℕ) (a x : ℕ) (hx : x ∈ L ∨ x ≤ a) : x ≤ L.foldl max a := by
  induction L generalizing a with
  | nil => simpa using hx
  | cons y L ih =>
    rw [List.foldl_cons]
    apply ih
    rcases hx with hx | hx
    · rcases List.mem_cons.1 hx with rfl | hx
      · right; exact le_max_right _ _
      · left; exact hx
    · right; exact hx.trans (le_max_left _ _)

theorem foldl_max_mem (L : List ℕ) (a : ℕ) : L.foldl max a = a ∨ L.foldl max a ∈ L := by
  induction L generalizing a with
  | nil => simp
  | cons y L ih =>
    rw [List.foldl_cons]
    rcases ih (max a y) with h | h
    · rw [h]
      rcases max_choice a y with h' | h'
      · left; exact h'
      · right; rw [h']; simp
    · right; exact List.mem_cons_of_mem _ h

theorem longest_spec {K : Type*} (cls : List (List K)) :
    (∀ cl ∈ cls, cl.length ≤ (cls.map List.length).foldl max 0) ∧
    ((cls.map List.length).foldl max 0 = 0 ∨
      ∃ cl ∈ cls, cl.length = (cls.map List.length).foldl max 0) := by
  constructor
  · intro cl hcl
    exact le_foldl_max _ _ _ (Or.inl (List.mem_map_of_mem hcl))
  · rcases foldl_max_mem (cls.map List.length) 0 with h | h
    · left; exact h
    · right
      obtain ⟨cl, hcl, hl⟩ := List.mem_map.1 h
      exact ⟨cl, hcl, hl⟩

/-! ## Index dictionaries -/

theorem dictGet_zipIdx {α : Type*} [DecidableEq α] [BEq α] [LawfulBEq α] (l : List α) (hl : l.Nodup) (a : α)
    (ha : a ∈ l) : dictGet l.zipIdx a = .ok (l.idxOf a) := by
  unfold dictGet
  have hlt : l.idxOf a < l.length := List.idxOf_lt_length_iff.2 ha
  have hmem : (a, l.idxOf a) ∈ l.zipIdx := by
    rw [List.mem_zipIdx_iff_getElem?]
    simp [hlt]
  have huniq : ∀ p ∈ l.zipIdx.reverse, p.1 = a → p = (a, l.idxOf a) := by
    rintro ⟨b, i⟩ hp rfl
    rw [List.mem_reverse, List.mem_zipIdx_iff_getElem?] at hp
    simp only [Prod.mk.injEq, true_and]
    have hi : i < l.length := by
      by_contra hcon
      rw [List.getElem?_eq_none (by simpa using hcon)] at hp
      cases hp
    have hp' : l[i] = b := by
      rw [List.getElem?_eq_getElem hi] at hp
      simpa using hp
    have := hl.idxOf_getElem i hi
    rw [hp'] at this
    exact this.symm
  cases hf : l.zipIdx.reverse.find? (fun p => decide (p.1 = a)) with
  | none =>
    rw [List.find?_eq_none] at hf
    exact absurd (by simp) (hf (a, l.idxOf a) (by simpa using hmem))
  | some p =>
    have h1 := List.find?_some hf
    have h2 := List.mem_of_find?_eq_some hf
    have := huniq p h2 (by simpa using h1)
    simp [this]

theorem pyIndex_mem {α : Type*} [BEq α] [LawfulBEq α] (l : List α) (a : α) (ha : a ∈ l) :
    pyIndex l a = .ok (l.idxOf a) := by
  unfold pyIndex
  rw [if_pos (by simpa using ha)]

end Glass.Spectra
