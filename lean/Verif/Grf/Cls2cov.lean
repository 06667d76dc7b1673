import Mathlib.Tactic.NormNum
import Mathlib.Tactic.Linarith
import Verif.Grf.Iternorm
import Verif.Spectra.Props2

/-! # Properties of `cls2cov` (C11, C12) -/

namespace Glass.Grf

open Glass.Spectra

/-- What later operations leave alone: with immutable arrays, everything that exists. -/
def Frame (b : Backend) (h h' : Heap) : Prop :=
  h.next ≤ h'.next ∧ (b = .immutable → ∀ q < h.next, h'.arr q = h.arr q)

theorem Frame.refl (b : Backend) (h : Heap) : Frame b h h := ⟨le_rfl, fun _ _ _ => rfl⟩

theorem Frame.trans {b : Backend} {h h' h'' : Heap} (h1 : Frame b h h') (h2 : Frame b h' h'') :
    Frame b h h'' :=
  ⟨h1.1.trans h2.1, fun hb q hq => by
    rw [h2.2 hb q (lt_of_lt_of_le hq h1.1), h1.2 hb q hq]⟩

theorem update_arr (b : Backend) (h : Heap) (r : ℕ) (v : ℕ → ℕ → ℝ) :
    (h.update b r v).1.arr (h.update b r v).2 = v := by
  cases b <;> simp [Heap.update]

theorem update_frame (b : Backend) (h : Heap) (r : ℕ) (v : ℕ → ℕ → ℝ) :
    Frame b h (h.update b r v).1 := by
  cases b
  · exact ⟨le_rfl, fun h => by cases h⟩
  · refine ⟨Nat.le_succ _, fun _ q hq => ?_⟩
    simp only [Heap.update]
    rw [if_neg (by omega)]

theorem update_inplace (h : Heap) (r : ℕ) (v : ℕ → ℕ → ℝ) : (h.update .inplace r v).2 = r := rfl

theorem update_lt (b : Backend) (h : Heap) (r : ℕ) (v : ℕ → ℕ → ℝ) (hr : r < h.next) :
    (h.update b r v).2 < (h.update b r v).1.next := by
  cases b <;> simp [Heap.update, hr]

theorem setColumns_ok (b : Backend) (nl : ℕ) (part : List (List ℝ)) (s : ℕ) (h : Heap) (r : ℕ)
    (hr : r < h.next) (hlen : ∀ cl ∈ part, cl.length ≤ nl)
    (hneg : s = 0 → ∀ cl ∈ part.head?, ∀ c ∈ cl, 0 ≤ c) :
    ∃ h' r', setColumns b nl (part.zipIdx s) h r = .ok (h', r') ∧ Frame b h h' ∧ r' < h'.next ∧
      (b = .inplace → r' = r) ∧
      ∀ l c, h'.arr r' l c =
        if s ≤ c ∧ c < s + part.length then ((part[c - s]?).getD [])[l]?.getD 0
        else h.arr r l c := by
  induction part generalizing s h r with
  | nil =>
    refine ⟨h, r, rfl, Frame.refl _ _, hr, fun _ => rfl, ?_⟩
    intro l c
    rw [if_neg (by simp only [List.length_nil]; omega)]
  | cons cl part ih =>
    rw [List.zipIdx_cons]
    unfold setColumns
    have h1 : ¬ (s = 0 ∧ ∃ c ∈ cl, c < 0) := by
      rintro ⟨hs, c, hc, hlt⟩
      exact absurd (hneg hs cl (by simp) c hc) (not_le.2 hlt)
    have h2 : ¬ (cl.length > nl ∧ cl.length ≠ 1) := by
      have := hlen cl (by simp); omega
    rw [if_neg h1, if_neg h2]
    simp only
    set u1 := h.update b r fun l c => if l < cl.length ∧ c = s then (cl[l]?).getD 0 else h.arr r l c
      with hu1
    set u2 := u1.1.update b u1.2 fun l c => if cl.length ≤ l ∧ c = s then 0 else u1.1.arr u1.2 l c
      with hu2
    have hr1 : u1.2 < u1.1.next := update_lt b h r _ hr
    have hr2 : u2.2 < u2.1.next := update_lt b u1.1 u1.2 _ hr1
    obtain ⟨h', r', hok, hf, hr', hin, hval⟩ := ih (s + 1) u2.1 u2.2 hr2
      (fun c hc => hlen c (by simp [hc])) (fun h => by omega)
    refine ⟨h', r', hok, ((update_frame b h r _).trans (update_frame b u1.1 u1.2 _)).trans hf,
      hr', ?_, ?_⟩
    · intro hb
      rw [hin hb]
      subst hb
      rfl
    · intro l c
      rw [hval l c]
      have hu2v : u2.1.arr u2.2 l c =
          if c = s then (cl[l]?).getD 0 else h.arr r l c := by
        rw [hu2, update_arr, hu1, update_arr]
        by_cases hc : c = s
        · by_cases hl : l < cl.length
          · simp [hc, hl, not_le.2 hl]
          · have hl' : cl.length ≤ l := by omega
            simp [hc, hl', List.getElem?_eq_none hl']
        · simp [hc]
      rw [hu2v]
      by_cases hc : s + 1 ≤ c ∧ c < s + 1 + part.length
      · rw [if_pos hc, if_pos (by simp only [List.length_cons]; omega)]
        rw [show c - s = (c - (s + 1)) + 1 by omega, List.getElem?_cons_succ]
      · rw [if_neg hc]
        by_cases hcs : c = s
        · rw [if_pos hcs, if_pos (by simp only [List.length_cons]; omega)]
          simp [hcs]
        · rw [if_neg hcs, if_neg (by simp only [List.length_cons]; omega)]

theorem setColumns_negative (b : Backend) (nl : ℕ) (part : List (List ℝ)) (h : Heap) (r : ℕ)
    (cl : List ℝ) (hcl : part.head? = some cl) (c : ℝ) (hc : c ∈ cl) (hneg : c < 0) :
    setColumns b nl part.zipIdx h r = .error (.value "negative values in cl") := by
  cases part with
  | nil => simp at hcl
  | cons cl' part =>
    simp only [List.head?_cons, Option.some.injEq] at hcl
    subst hcl
    rw [List.zipIdx_cons]
    unfold setColumns
    rw [if_pos ⟨rfl, c, hc, hneg⟩]

/-- The spectra used for field `j`. -/
def fieldPart (cls : List (List ℝ)) (nc j : ℕ) : List (List ℝ) :=
  (((cls.take (tri j + j + 1)).drop (tri j)).take (nc + 1))

theorem fieldPart_length (cls : List (List ℝ)) (nc j nf : ℕ) (h : cls.length = tri nf)
    (hj : j < nf) : (fieldPart cls nc j).length = min (j + 1) (nc + 1) := by
  have := tri_lt hj
  unfold fieldPart
  simp only [List.length_take, List.length_drop]
  omega

theorem fieldPart_get (cls : List (List ℝ)) (nc j i : ℕ) (hi : i ≤ j) (hn : i ≤ nc) :
    (fieldPart cls nc j)[i]? = cls[tri j + i]? := by
  unfold fieldPart
  rw [List.getElem?_take, if_pos (by omega), List.getElem?_drop, List.getElem?_take,
    if_pos (by omega)]

theorem fieldPart_value (cls : List (List ℝ)) (nc j i l : ℕ) (hi : i ≤ j) (hn : i ≤ nc) :
    (((fieldPart cls nc j)[i]?).getD [])[l]?.getD 0 = clValue cls j (j - i) l := by
  rw [fieldPart_get cls nc j i hi hn]
  unfold clValue tri
  rw [max_eq_left (by omega), min_eq_right (by omega), show j - (j - i) = i by omega]

/-- The loop from field `j` on, with `m` fields before the first with a negative auto-spectrum. -/
theorem covLoop_spec (b : Backend) (cls : List (List ℝ)) (nl nf nc : ℕ)
    (h : cls.length = tri nf) (hl : ∀ cl ∈ cls, cl.length ≤ nl) (m : ℕ) (hm : m ≤ nf)
    (hpos : ∀ i < m, ∀ l, 0 ≤ clValue cls i i l)
    (hneg : m < nf → ∃ l, clValue cls m m l < 0) (fuel j : ℕ) (hj : j ≤ m) (hf : j + fuel = nf)
    (hp : Heap) (r : ℕ) (hr : r < hp.next) (hzero : ∀ l c, j ≤ c → hp.arr r l c = 0) :
    let out := covLoop b cls nl nc fuel j (tri j) hp r
    out.1.length = m - j ∧
    out.2.1 = (if m = nf then none else some (.value "negative values in cl")) ∧
    Frame b hp out.2.2 ∧
    (∀ (t : ℕ) (y : ℕ × Heap), out.1[t]? = some y →
      (b = .inplace → y.1 = r) ∧ (b = .immutable → hp.next ≤ y.1) ∧ y.1 < y.2.next ∧
      Frame b y.2 out.2.2 ∧
      ∀ l i, i ≤ nc → y.2.arr y.1 l i =
        if i ≤ j + t then clValue cls (j + t) (j + t - i) l / 2 else 0) ∧
    (b = .immutable → (out.1.map Prod.fst).Nodup) := by
  induction fuel generalizing j hp r with
  | zero =>
    simp only [covLoop]
    have hmj : m = j := by omega
    have hmn : m = nf := by omega
    refine ⟨by simp [hmj], by rw [if_pos hmn], Frame.refl _ _, by simp, by simp⟩
  | succ fuel ih =>
    have hjn : j < nf := by omega
    have htl := tri_lt hjn
    have hpart : ((cls.take (tri j + j + 1)).drop (tri j)).take (nc + 1) = fieldPart cls nc j := rfl
    have hplen := fieldPart_length cls nc j nf h hjn
    have hhead : (fieldPart cls nc j)[0]? = some cls[tri j] := by
      rw [fieldPart_get cls nc j 0 (by omega) (by omega), Nat.add_zero,
        List.getElem?_eq_getElem (by omega)]
    have hauto : ∀ l, clValue cls j j l = (cls[tri j])[l]?.getD 0 := by
      intro l
      have := fieldPart_value cls nc j 0 l (by omega) (by omega)
      rw [hhead] at this
      simpa using this.symm
    simp only [covLoop, hpart]
    by_cases hjm : j = m
    · -- negative auto-spectrum
      obtain ⟨l, hlneg⟩ := hneg (by omega)
      rw [← hjm, hauto] at hlneg
      have hmem : ∃ c ∈ cls[tri j], c < 0 := by
        rcases Nat.lt_or_ge l (cls[tri j]).length with hll | hll
        · rw [List.getElem?_eq_getElem hll] at hlneg
          exact ⟨_, List.getElem_mem hll, by simpa using hlneg⟩
        · rw [List.getElem?_eq_none hll] at hlneg
          simp at hlneg
      obtain ⟨c, hc, hcneg⟩ := hmem
      rw [setColumns_negative b nl (fieldPart cls nc j) hp r cls[tri j]
        (by rw [List.head?_eq_getElem?]; exact hhead) c hc hcneg]
      simp only
      refine ⟨by simp [hjm], by rw [if_neg (by omega)], Frame.refl _ _, by simp, by simp⟩
    · have hjm' : j < m := by omega
      obtain ⟨h1, r1, hok, hfr, hr1, hin, hval⟩ := setColumns_ok b nl (fieldPart cls nc j) 0 hp r hr
        (by
          intro cl hcl
          exact hl cl (List.mem_of_mem_take (List.mem_of_mem_drop (List.mem_of_mem_take hcl))))
        (by
          intro _ cl hcl c hc
          rw [List.head?_eq_getElem?, hhead] at hcl
          simp only [Option.mem_def, Option.some.injEq] at hcl
          subst hcl
          obtain ⟨l, hll, rfl⟩ := List.mem_iff_getElem.1 hc
          have := hpos j hjm' l
          rw [hauto, List.getElem?_eq_getElem hll] at this
          simpa using this)
      rw [hok]
      simp only
      set u := h1.update b r1 fun l c => h1.arr r1 l c / 2 with hu
      have hru : u.2 < u.1.next := update_lt b h1 r1 _ hr1
      have huv : ∀ l c, u.1.arr u.2 l c =
          (if c ≤ min j nc then clValue cls j (j - c) l else hp.arr r l c) / 2 := by
        intro l c
        rw [hu, update_arr, hval l c, hplen]
        by_cases hc : c ≤ min j nc
        · rw [if_pos (by omega), if_pos hc, Nat.sub_zero,
            fieldPart_value cls nc j c l (by omega) (by omega)]
        · rw [if_neg (by omega), if_neg hc]
      have hrec := ih (j + 1) (by omega) (by omega) u.1 u.2 hru (by
        intro l c hc
        rw [huv l c, if_neg (by omega), hzero l c (by omega), zero_div])
      rw [show tri (j + 1) = tri j + j + 1 by rw [tri_succ]; omega] at hrec
      obtain ⟨k1, k2, k3, k4, k5⟩ := hrec
      have hfu : Frame b hp u.1 := hfr.trans (update_frame b h1 r1 _)
      refine ⟨?_, k2, hfu.trans k3, ?_, ?_⟩
      · rw [List.length_cons, k1]; omega
      · intro t y hy
        rcases t with _ | t
        · simp only [List.getElem?_cons_zero, Option.some.injEq] at hy
          subst hy
          refine ⟨?_, ?_, hru, k3, ?_⟩
          · intro hb
            rw [← hin hb]; subst hb; rfl
          · intro hb
            have : u.2 = h1.next := by rw [hu]; subst hb; rfl
            simp only [this]; exact hfr.1
          · intro l i hi
            simp only
            rw [huv l i, Nat.add_zero]
            by_cases hij : i ≤ j
            · rw [if_pos (by omega), if_pos hij]
            · rw [if_neg (by omega), if_neg hij, hzero l i (by omega), zero_div]
        · rw [List.getElem?_cons_succ] at hy
          obtain ⟨q1, q2, q3, q4, q5⟩ := k4 t y hy
          refine ⟨?_, ?_, q3, q4, ?_⟩
          · intro hb
            rw [q1 hb, ← hin hb]; subst hb; rfl
          · intro hb
            exact hfu.1.trans (q2 hb)
          · intro l i hi
            rw [q5 l i hi, show j + 1 + t = j + (t + 1) by omega]
      · intro hb
        rw [List.map_cons, List.nodup_cons]
        refine ⟨?_, k5 hb⟩
        intro hmem
        rw [List.mem_map] at hmem
        obtain ⟨y, hy, hy1⟩ := hmem
        obtain ⟨t, ht⟩ := List.mem_iff_getElem?.1 hy
        have := (k4 t y ht).2.1 hb
        omega

theorem cls2cov_spec (b : Backend) (cls : List (List ℝ)) (nl nf nc : ℕ)
    (h : cls.length = tri nf) (hl : ∀ cl ∈ cls, cl.length ≤ nl) (m : ℕ) (hm : m ≤ nf)
    (hpos : ∀ i < m, ∀ l, 0 ≤ clValue cls i i l)
    (hneg : m < nf → ∃ l, clValue cls m m l < 0) :
    let out := cls2cov b cls nl nf nc
    out.1.length = m ∧
    out.2.1 = (if m = nf then none else some (.value "negative values in cl")) ∧
    (∀ (t : ℕ) (y : ℕ × Heap), out.1[t]? = some y →
      (b = .inplace → y.1 = 0) ∧ y.1 < y.2.next ∧ Frame b y.2 out.2.2 ∧
      ∀ l i, i ≤ nc → y.2.arr y.1 l i =
        if i ≤ t then clValue cls t (t - i) l / 2 else 0) ∧
    (b = .immutable → (out.1.map Prod.fst).Nodup) := by
  have := covLoop_spec b cls nl nf nc h hl m hm hpos hneg nf 0 (by omega) (by omega)
    ⟨1, fun _ _ _ => 0⟩ 0 (by simp) (by simp)
  simp only [Nat.zero_add] at this
  obtain ⟨k1, k2, k3, k4, k5⟩ := this
  refine ⟨k1, k2, ?_, k5⟩
  intro t y hy
  obtain ⟨q1, q2, q3, q4, q5⟩ := k4 t y hy
  exact ⟨q1, q3, q4, q5⟩

/-- C11. For a complete list of spectra with at most `nl` values each, `cls2cov` yields, for every
field before the first one with a negative auto-spectrum, one array of `nl × (nc + 1)` values.
Entry `[l, d]` for field `j` is half the value at `l` of the spectrum of fields `j` and `j - d`
(zero beyond the end of the spectrum), and zero where there is no field `j - d`. If there is a
negative auto-spectrum, the iteration then ends with a `ValueError`; otherwise there are `nf`
arrays. -/
theorem cls2cov_rows (b : Backend) (cls : List (List ℝ)) (nl nf nc : ℕ)
    (h : cls.length = nf * (nf + 1) / 2) (hl : ∀ cl ∈ cls, cl.length ≤ nl) (m : ℕ) (hm : m ≤ nf)
    (hpos : ∀ i < m, ∀ l, 0 ≤ clValue cls i i l)
    (hneg : m < nf → ∃ l, clValue cls m m l < 0) :
    ∃ rows, cls2covRows b cls nl nf nc =
        (rows, if m = nf then none else some (.value "negative values in cl")) ∧
      rows.length = m ∧
      ∀ (j : ℕ) (row : Row), rows[j]? = some row →
        row.shape = [nl] ∧ row.len = nc + 1 ∧
        ∀ l d, d ≤ nc → row.val [l] d = if d ≤ j then clValue cls j (j - d) l / 2 else 0 := by
  obtain ⟨k1, k2, k3, -⟩ := cls2cov_spec b cls nl nf nc h hl m hm hpos hneg
  refine ⟨(cls2covRows b cls nl nf nc).1, ?_, ?_, ?_⟩
  · unfold cls2covRows
    simp only
    rw [k2]
  · simp [cls2covRows, k1]
  · intro j row hrow
    simp only [cls2covRows, List.getElem?_map, Option.map_eq_some_iff] at hrow
    obtain ⟨y, hy, rfl⟩ := hrow
    refine ⟨rfl, rfl, ?_⟩
    intro l d hd
    exact (k3 j y hy).2.2.2 l d hd

/-- C11. A spectrum with more values than the array has rows cannot be stored: the iteration ends
with a `ValueError` (here for the first field). -/
theorem cls2cov_too_long (b : Backend) (cl : List ℝ) (cls : List (List ℝ)) (nl nf nc : ℕ)
    (hf : 0 < nf) (hl : nl < cl.length) (h1 : cl.length ≠ 1) :
    ∃ s, cls2covRows b (cl :: cls) nl nf nc = ([], some (.value s)) := by
  obtain ⟨nf, rfl⟩ : ∃ k, nf = k + 1 := ⟨nf - 1, by omega⟩
  unfold cls2covRows cls2cov
  simp only [covLoop, Nat.zero_add, List.drop_zero, List.take_succ_cons, List.take_zero,
    List.take_nil, List.zipIdx_cons, List.zipIdx_nil]
  unfold setColumns
  split_ifs with h2 h3
  · exact ⟨_, rfl⟩
  · exact ⟨_, rfl⟩
  · exact absurd ⟨hl, h1⟩ h3

/-- C12, for arrays that are never changed in place: the yielded arrays are different objects, and
reading them after the iteration has ended gives the values they had when they were yielded. -/
theorem cls2cov_immutable (cls : List (List ℝ)) (nl nf nc : ℕ)
    (h : cls.length = nf * (nf + 1) / 2) (hl : ∀ cl ∈ cls, cl.length ≤ nl)
    (hpos : ∀ i < nf, ∀ l, 0 ≤ clValue cls i i l) :
    let out := cls2cov .immutable cls nl nf nc
    out.1.length = nf ∧ (out.1.map Prod.fst).Nodup ∧
      ∀ (j : ℕ) (y : ℕ × Heap), out.1[j]? = some y → out.2.2.arr y.1 = y.2.arr y.1 ∧
        ∀ l d, d ≤ nc → out.2.2.arr y.1 l d = if d ≤ j then clValue cls j (j - d) l / 2 else 0 := by
  obtain ⟨k1, -, k3, k4⟩ := cls2cov_spec .immutable cls nl nf nc h hl nf le_rfl hpos
    (fun h => absurd h (lt_irrefl _))
  refine ⟨k1, k4 rfl, ?_⟩
  intro j y hy
  obtain ⟨-, q1, q2, q3⟩ := k3 j y hy
  have := q2.2 rfl y.1 q1
  refine ⟨this, ?_⟩
  intro l d hd
  rw [this]
  exact q3 l d hd

/-- C12, for arrays that are changed in place: every yielded array is the same object. -/
theorem cls2cov_inplace_same (cls : List (List ℝ)) (nl nf nc : ℕ)
    (h : cls.length = nf * (nf + 1) / 2) (hl : ∀ cl ∈ cls, cl.length ≤ nl)
    (hpos : ∀ i < nf, ∀ l, 0 ≤ clValue cls i i l) (j : ℕ) (y : ℕ × Heap)
    (hy : (cls2cov .inplace cls nl nf nc).1[j]? = some y) : y.1 = 0 := by
  obtain ⟨-, -, k3, -⟩ := cls2cov_spec .inplace cls nl nf nc h hl nf le_rfl hpos
    (fun h => absurd h (lt_irrefl _))
  exact (k3 j y hy).1 rfl

/-- A complete list of spectra for two fields, with one mode. -/
def exampleCls : List (List ℝ) := [[2], [4], [0]]

theorem exampleCls_pos (i : ℕ) (hi : i < 2) (l : ℕ) : 0 ≤ clValue exampleCls i i l := by
  have : i = 0 ∨ i = 1 := by omega
  rcases this with rfl | rfl <;> rcases l with _ | l <;> simp [clValue, exampleCls]

/-- A case meeting the hypotheses of C11. -/
example : ∃ rows, cls2covRows .inplace exampleCls 1 2 1 = (rows, none) ∧ rows.length = 2 := by
  obtain ⟨rows, h1, h2, -⟩ := cls2cov_rows .inplace exampleCls 1 2 1 rfl (by simp [exampleCls]) 2
    le_rfl exampleCls_pos (fun h => absurd h (lt_irrefl _))
  exact ⟨rows, by simpa using h1, h2⟩

/-- C12 is false for arrays that are changed in place: the first array of the list
`list(cls2cov(cls, 1, 2, 1))` does not have the values it had when it was yielded. -/
theorem cls2cov_not_independent :
    ¬ ∀ (b : Backend) (cls : List (List ℝ)) (nl nf nc : ℕ), cls.length = nf * (nf + 1) / 2 →
      (∀ cl ∈ cls, cl.length ≤ nl) → (∀ i < nf, ∀ l, 0 ≤ clValue cls i i l) →
      ∀ (j : ℕ) (y : ℕ × Heap), (cls2cov b cls nl nf nc).1[j]? = some y →
        ∀ l < nl, ∀ d ≤ nc, (cls2cov b cls nl nf nc).2.2.arr y.1 l d = y.2.arr y.1 l d := by
  intro hall
  have hl : ∀ cl ∈ exampleCls, cl.length ≤ 1 := by simp [exampleCls]
  obtain ⟨k1, -, k3, -⟩ := cls2cov_spec .inplace exampleCls 1 2 1 rfl hl 2 le_rfl exampleCls_pos
    (fun h => absurd h (lt_irrefl _))
  set out := cls2cov .inplace exampleCls 1 2 1 with hout
  have h0 : out.1[0]? = some out.1[0] := List.getElem?_eq_getElem (by omega)
  have h1 : out.1[1]? = some out.1[1] := List.getElem?_eq_getElem (by omega)
  have e0 := hall .inplace exampleCls 1 2 1 rfl hl exampleCls_pos 0 _ h0 0 (by omega) 0 (by omega)
  have e1 := hall .inplace exampleCls 1 2 1 rfl hl exampleCls_pos 1 _ h1 0 (by omega) 0 (by omega)
  rw [(k3 0 _ h0).2.2.2 0 0 (by omega), (k3 0 _ h0).1 rfl] at e0
  rw [(k3 1 _ h1).2.2.2 0 0 (by omega), (k3 1 _ h1).1 rfl] at e1
  rw [e0] at e1
  norm_num [clValue, exampleCls] at e1

end Glass.Grf
