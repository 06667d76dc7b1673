import Verif.Grf.GenerateProps

/-!
# Adding fields (C133)

Maps do not change when further fields are added after them.  A run of a generator is the list of
its results with the exception that ended it.
-/

namespace Glass.Grf

open Glass.Spectra Finset

/-! ## Extension of runs -/

/-- Specification: the run `r'` repeats the run `r` and then goes on, unless `r` ended with an
exception, which then also ends `r'`. -/
def Extends {α : Type*} (r r' : List α × Option Err) : Prop :=
  (r.2 = none ∧ r.1 <+: r'.1) ∨ (r.2 ≠ none ∧ r' = r)

theorem Extends.map {α β : Type*} (f : α → β) {r r' : List α × Option Err} (h : Extends r r') :
    Extends (r.1.map f, r.2) (r'.1.map f, r'.2) := by
  rcases h with ⟨h1, h2⟩ | ⟨h1, h2⟩
  · exact Or.inl ⟨h1, h2.map f⟩
  · right
    rw [h2]
    exact ⟨h1, rfl⟩

theorem Extends.cons {α : Type*} (a : α) {r r' : List α × Option Err} (h : Extends r r') :
    Extends (a :: r.1, r.2) (a :: r'.1, r'.2) := by
  rcases h with ⟨h1, h2⟩ | ⟨h1, h2⟩
  · exact Or.inl ⟨h1, List.cons_prefix_cons.2 ⟨rfl, h2⟩⟩
  · right
    rw [h2]
    exact ⟨h1, rfl⟩

theorem extends_error {α : Type*} (e : Err) (l : List α) : Extends (l, some e) (l, some e) :=
  Or.inr ⟨by simp, rfl⟩

theorem extends_nil {α : Type*} (r : List α × Option Err) : Extends ([], none) r :=
  Or.inl ⟨rfl, List.nil_prefix⟩

/-! ## Rows of the covariance matrix -/

theorem covLoop_extends (b : Backend) (cls extra : List (List ℝ)) (nl nc : ℕ) (fuel d j stop : ℕ)
    (h : Heap) (r : ℕ) (hs : stop = tri j) (hl : cls.length = tri (j + fuel)) :
    Extends ((covLoop b cls nl nc fuel j stop h r).1, (covLoop b cls nl nc fuel j stop h r).2.1)
      ((covLoop b (cls ++ extra) nl nc (fuel + d) j stop h r).1,
        (covLoop b (cls ++ extra) nl nc (fuel + d) j stop h r).2.1) := by
  induction fuel generalizing j stop h r with
  | zero => exact extends_nil _
  | succ fuel ih =>
    have hle : stop + j + 1 ≤ cls.length := by
      have := tri_mono (show j + 1 ≤ j + (fuel + 1) by omega)
      rw [hl, hs]
      have h2 := tri_succ j
      omega
    rw [show fuel + 1 + d = (fuel + d) + 1 by omega]
    unfold covLoop
    simp only
    rw [List.take_append_of_le_length hle]
    split
    · exact extends_error _ _
    · rename_i h' r' _
      exact (ih (j + 1) (stop + j + 1) _ _ (by rw [hs, tri_succ]; omega)
        (by rw [hl]; congr 1; omega)).cons _

theorem iterate_extends (prev : Option State) {rows rows' : List Row × Option Err}
    (h : Extends rows rows') :
    Extends (iterate prev rows.1 rows.2) (iterate prev rows'.1 rows'.2) := by
  rcases h with ⟨h1, t, h2⟩ | ⟨h1, h2⟩
  · obtain ⟨rows, e⟩ := rows
    obtain ⟨rows', e'⟩ := rows'
    simp only at h1 h2 ⊢
    subst h1
    rw [← h2]
    clear h2
    induction rows generalizing prev with
    | nil => exact extends_nil _
    | cons row rows ih =>
      rw [List.cons_append]
      unfold iterate
      split
      · exact extends_error _ _
      · exact (ih _).cons _
  · rw [h2]
    cases hi : (iterate prev rows.1 rows.2).2 with
    | none => exact Or.inl ⟨hi, List.prefix_rfl⟩
    | some e => exact Or.inr ⟨by rw [hi]; simp, rfl⟩

theorem grfLoop_extends (nrm : Normals) (n : ℕ) (y : List (List ℂ)) (q : ℕ)
    {ws ws' : List Weight × Option Err} (h : Extends ws ws') :
    Extends (grfLoop nrm n y q ws.1 ws.2) (grfLoop nrm n y q ws'.1 ws'.2) := by
  rcases h with ⟨h1, t, h2⟩ | ⟨h1, h2⟩
  · obtain ⟨ws, e⟩ := ws
    obtain ⟨ws', e'⟩ := ws'
    simp only at h1 h2 ⊢
    subst h1
    rw [← h2]
    clear h2
    induction ws generalizing y q with
    | nil => exact extends_nil _
    | cons w ws ih =>
      rw [List.cons_append]
      unfold grfLoop
      simp only
      split
      · exact extends_error _ _
      · exact (ih _ _).cons _
  · rw [h2]
    cases hi : (grfLoop nrm n y q ws.1 ws.2).2 with
    | none => exact Or.inl ⟨hi, List.prefix_rfl⟩
    | some e => exact Or.inr ⟨by rw [hi]; simp, rfl⟩

/-- The loop of `_generate_grf` for `N` fields and given numbers of modes and correlations. -/
noncomputable def grfRun (b : Backend) (nrm : Normals) (gls : List (List ℝ)) (n N nc : ℕ) :
    List (List ℂ) × Option Err :=
  let cov := cls2covRows b gls n N nc
  let w := iternorm cov.1 cov.2
  grfLoop nrm n [] 0 w.1 w.2

theorem generateAlm_eq (b : Backend) (nrm : Normals) (gls : List (List ℝ)) (ncorr : Option ℕ)
    (N : ℕ) (h : gls.length = tri N) (hL : 0 < maxLength gls) :
    generateAlm b nrm gls ncorr = grfRun b nrm gls (maxLength gls) N (ncorr.getD (N - 1)) := by
  have hne : gls.length ≠ 0 := by
    intro h0
    rw [List.length_eq_zero_iff] at h0
    rw [h0] at hL
    simp [maxLength] at hL
  unfold generateAlm
  rw [if_neg hne, nfields_tri gls N h]
  simp only
  rw [if_neg (by omega)]
  rfl

theorem grfRun_extends (b : Backend) (nrm : Normals) (gls extra : List (List ℝ)) (n N d nc : ℕ)
    (h : gls.length = tri N) :
    Extends (grfRun b nrm gls n N nc) (grfRun b nrm (gls ++ extra) n (N + d) nc) := by
  unfold grfRun
  apply grfLoop_extends
  have h1 := covLoop_extends b gls extra n nc N d 0 0 ⟨1, fun _ _ _ => 0⟩ 0 rfl
    (by rw [Nat.zero_add]; exact h)
  have h2 := iterate_extends none (h1.map fun y : ℕ × Heap =>
    (⟨[n], nc + 1, fun x d => y.2.arr y.1 (x.headD 0) d⟩ : Row))
  exact h2.map State.weight

/-! ## The number of correlations beyond the number of fields -/

/-- The same row with `d` more entries. -/
def RowShift (nc d : ℕ) (row row' : Row) : Prop :=
  row'.shape = row.shape ∧ row.len = nc + 1 ∧ row'.len = nc + d + 1 ∧
    ∀ x e, e ≤ nc → row'.val x e = row.val x e

/-- The state with `d` more rows and columns of zeros, after `i` previous fields. -/
structure StateShift (nc d i : ℕ) (st st' : State) : Prop where
  shape : st'.shape = st.shape
  k : st.k = nc
  k' : st'.k = nc + d
  m : ∀ x r c, r < nc → c < nc → st'.m x (r + d) (c + d) = st.m x r c
  m0 : ∀ x r c, r < nc + d → c < nc + d → (r < nc + d - i ∨ c < nc + d - i) → st'.m x r c = 0
  a : ∀ x r, r < nc → st'.a x (r + d) = st.a x r
  a0 : ∀ x r, r < nc + d - i → st'.a x r = 0
  s : ∀ x, st'.s x = st.s x

theorem sum_shift (nc d : ℕ) (f g : ℕ → ℝ) (h0 : ∀ i < d, f i = 0)
    (h : ∀ i < nc, f (i + d) = g i) : ∑ i ∈ range (nc + d), f i = ∑ i ∈ range nc, g i := by
  rw [add_comm nc d, Finset.sum_range_add]
  rw [Finset.sum_eq_zero fun i hi => h0 i (Finset.mem_range.1 hi), zero_add]
  refine Finset.sum_congr rfl fun i hi => ?_
  rw [add_comm d i, h i (Finset.mem_range.1 hi)]

theorem cut_shift (nc d i : ℕ) (hi : i ≤ nc) (shape : List ℕ) (e : ℕ) (mat mat' : List ℕ → ℕ → ℕ → ℝ)
    (row row' : Row) (hr : RowShift nc d row row')
    (hM : ∀ x r c, r < nc → c < nc → mat' x (e + (r + d)) (e + (c + d)) = mat x (e + r) (e + c))
    (hZ : ∀ x r c, r < nc + d → c < nc + d → (r < nc + d - i ∨ c < nc + d - i) →
      mat' x (e + r) (e + c) = 0) :
    (∃ er, cutAndSolve shape (nc + e) mat row = .error er ∧
      cutAndSolve shape (nc + d + e) mat' row' = .error er) ∨
    ∃ st st', cutAndSolve shape (nc + e) mat row = .ok st ∧
      cutAndSolve shape (nc + d + e) mat' row' = .ok st' ∧ StateShift nc d i st st' := by
  obtain ⟨-, hl, hl', hv⟩ := hr
  have ha : ∀ x r, r < nc →
      ∑ j ∈ range (nc + d), mat' x (e + (r + d)) (e + j) * row'.val x (nc + d - j) =
        ∑ j ∈ range nc, mat x (e + r) (e + j) * row.val x (nc - j) := by
    intro x r hrn
    apply sum_shift
    · intro j hj
      rw [hZ x (r + d) j (by omega) (by omega) (Or.inr (by omega)), zero_mul]
    · intro j hj
      rw [hM x r j hrn hj, show nc + d - (j + d) = nc - j by omega, hv x _ (by omega)]
  have ha0 : ∀ x r, r < nc + d - i →
      ∑ j ∈ range (nc + d), mat' x (e + r) (e + j) * row'.val x (nc + d - j) = 0 := by
    intro x r hrn
    apply Finset.sum_eq_zero
    intro j hj
    rw [hZ x r j (by omega) (Finset.mem_range.1 hj) (Or.inl hrn), zero_mul]
  have hs : ∀ x, row'.val x 0 - ∑ r ∈ range (nc + d),
      (∑ j ∈ range (nc + d), mat' x (e + r) (e + j) * row'.val x (nc + d - j)) *
      (∑ j ∈ range (nc + d), mat' x (e + r) (e + j) * row'.val x (nc + d - j)) =
      row.val x 0 - ∑ r ∈ range nc, (∑ j ∈ range nc, mat x (e + r) (e + j) * row.val x (nc - j)) *
      (∑ j ∈ range nc, mat x (e + r) (e + j) * row.val x (nc - j)) := by
    intro x
    rw [hv x 0 (by omega)]
    congr 1
    apply sum_shift
    · intro r hrd
      rw [ha0 x r (by omega), zero_mul]
    · intro r hrn
      rw [ha x r hrn]
  unfold cutAndSolve
  simp only [hl, hl', Nat.add_sub_cancel]
  rw [if_neg (show ¬ nc + e < nc by omega), if_neg (show ¬ nc + d + e < nc + d by omega)]
  simp only [show nc + e - nc = e by omega, show nc + d + e - (nc + d) = e by omega, hs]
  split_ifs with hneg
  · exact Or.inl ⟨_, rfl, rfl⟩
  · refine Or.inr ⟨_, _, rfl, rfl, ⟨rfl, rfl, rfl, hM, hZ, ?_, ?_, ?_⟩⟩
    · intro x r hrn
      exact ha x r hrn
    · intro x r hrn
      exact ha0 x r hrn
    · intro x
      rfl

/-- Specification: two steps with the same exception, or related states. -/
def SameStep (nc d i : ℕ) (r r' : Except Err State) : Prop :=
  (∃ er, r = .error er ∧ r' = .error er) ∨ ∃ st st', r = .ok st ∧ r' = .ok st' ∧ StateShift nc d i st st'

theorem step_first (nc d : ℕ) (row row' : Row) (hr : RowShift nc d row row') :
    SameStep nc d 0 (step none row) (step none row') := by
  have hl := hr.2.1
  have hl' := hr.2.2.1
  unfold step
  rw [if_neg (by omega), if_neg (by omega)]
  simp only
  rw [hr.1, hl, hl', Nat.add_sub_cancel, Nat.add_sub_cancel]
  exact cut_shift nc d 0 (by omega) row.shape 0 _ _ row row' hr (fun _ _ _ _ _ => rfl)
    (fun _ _ _ _ _ _ => rfl)

theorem step_next (nc d i : ℕ) (hi : i + 1 ≤ nc) (st st' : State) (h : StateShift nc d i st st')
    (row row' : Row) (hr : RowShift nc d row row') :
    SameStep nc d (i + 1) (step (some st) row) (step (some st') row') := by
  have hl := hr.2.1
  have hl' := hr.2.2.1
  unfold step
  rw [if_neg (by omega), if_neg (by omega)]
  simp only
  rw [hr.1, h.shape]
  by_cases hsh : row.shape ≠ st.shape
  · rw [if_pos hsh, if_pos hsh]
    exact Or.inl ⟨_, rfl, rfl⟩
  rw [if_neg hsh, if_neg hsh, h.k, h.k']
  have hatm : ∀ x c, c < nc → ∑ r ∈ range (nc + d), st'.a x r * st'.m x r (c + d) =
      ∑ r ∈ range nc, st.a x r * st.m x r c := by
    intro x c hc
    apply sum_shift
    · intro r hrd
      rw [h.a0 x r (by omega), zero_mul]
    · intro r hrn
      rw [h.a x r hrn, h.m x r c hrn hc]
  have hatm0 : ∀ x c, c < nc + d - i → ∑ r ∈ range (nc + d), st'.a x r * st'.m x r c = 0 := by
    intro x c hc
    apply Finset.sum_eq_zero
    intro r hrn
    rw [h.m0 x r c (Finset.mem_range.1 hrn) (by omega) (Or.inr hc), mul_zero]
  apply cut_shift nc d (i + 1) hi st.shape 1 _ _ row row' hr
  · intro x r c hrn hcn
    unfold extend
    simp only [h.k, h.k', h.s]
    by_cases h1 : 1 + r < nc
    · rw [if_pos (show 1 + (r + d) < nc + d by omega), if_pos h1]
      by_cases h2 : 1 + c < nc
      · rw [if_pos (show 1 + (c + d) < nc + d by omega), if_pos h2, ← add_assoc, ← add_assoc,
          h.m x _ _ h1 h2]
      · rw [if_neg (show ¬ 1 + (c + d) < nc + d by omega), if_neg h2]
    · rw [if_neg (show ¬ 1 + (r + d) < nc + d by omega), if_neg h1]
      by_cases h2 : 1 + c < nc
      · rw [if_pos (show 1 + (c + d) < nc + d by omega), if_pos h2, ← add_assoc, hatm x _ h2]
      · rw [if_neg (show ¬ 1 + (c + d) < nc + d by omega), if_neg h2]
  · intro x r c hrn hcn hor
    unfold extend
    simp only [h.k']
    by_cases h1 : 1 + r < nc + d
    · rw [if_pos h1]
      by_cases h2 : 1 + c < nc + d
      · rw [if_pos h2]
        exact h.m0 x _ _ h1 h2 (by omega)
      · rw [if_neg h2]
    · rw [if_neg h1]
      have h3 : c < nc + d - (i + 1) := by omega
      rw [if_pos (by omega), hatm0 x (1 + c) (by omega)]
      simp

/-- Specification: the same scaling vector with `d` more entries in front. -/
def Shifted (d : ℕ) (w w' : Weight) : Prop :=
  w'.k = w.k + d ∧ ∀ x t, w'.w x (t + d) = w.w x t

theorem StateShift.weight {nc d i : ℕ} {st st' : State} (h : StateShift nc d i st st') :
    Shifted d st.weight st'.weight := by
  refine ⟨by simp [State.weight, h.k, h.k'], fun x t => ?_⟩
  simp only [State.weight, h.k, h.k', h.s]
  by_cases ht : t < nc
  · rw [if_pos ht, if_pos (by omega), h.a x t ht]
  · rw [if_neg ht, if_neg (by omega)]

theorem iterate_shift (nc d i : ℕ) (st st' : State) (h : StateShift nc d i st st')
    (rows rows' : List Row) (hr : List.Forall₂ (RowShift nc d) rows rows') (tail : Option Err)
    (hi : i + rows.length ≤ nc) :
    List.Forall₂ (Shifted d) ((iterate (some st) rows tail).1.map State.weight)
      ((iterate (some st') rows' tail).1.map State.weight) ∧
    (iterate (some st) rows tail).2 = (iterate (some st') rows' tail).2 ∧
    (iterate (some st) rows tail).1.length ≤ rows.length := by
  induction hr generalizing i st st' with
  | nil => simp [iterate]
  | cons hrow hrest ih =>
    rename_i row row' rows rows'
    simp only [List.length_cons] at hi
    unfold iterate
    rcases step_next nc d i (by omega) st st' h row row' hrow with ⟨er, h1, h2⟩ | ⟨s, s', h1, h2, h3⟩
    · rw [h1, h2]
      simp
    · rw [h1, h2]
      simp only
      obtain ⟨q1, q2, q3⟩ := ih (i + 1) s s' h3 (by omega)
      refine ⟨?_, q2, by simpa using q3⟩
      rw [List.map_cons, List.map_cons]
      exact List.Forall₂.cons h3.weight q1

theorem iternorm_shift (nc d : ℕ) (rows rows' : List Row)
    (hr : List.Forall₂ (RowShift nc d) rows rows') (tail : Option Err) (hi : rows.length ≤ nc + 1) :
    List.Forall₂ (Shifted d) (iternorm rows tail).1 (iternorm rows' tail).1 ∧
      (iternorm rows tail).2 = (iternorm rows' tail).2 ∧ (iternorm rows tail).1.length ≤ rows.length := by
  unfold iternorm
  cases hr with
  | nil => simp [iterate]
  | cons hrow hrest =>
    rename_i row row' rows rows'
    simp only [List.length_cons] at hi
    unfold iterate
    rcases step_first nc d row row' hrow with ⟨er, h1, h2⟩ | ⟨s, s', h1, h2, h3⟩
    · rw [h1, h2]
      simp
    · rw [h1, h2]
      simp only
      obtain ⟨q1, q2, q3⟩ := iterate_shift nc d 0 s s' h3 rows rows' hrest tail (by omega)
      refine ⟨?_, q2, by simpa using q3⟩
      rw [List.map_cons, List.map_cons]
      exact List.Forall₂.cons h3.weight q1

theorem grfLoop_shift (nrm : Normals) (n d k : ℕ) (y : List (List ℂ)) (q : ℕ) (ws ws' : List Weight)
    (h : List.Forall₂ (Shifted d) ws ws') (hk : ∀ w ∈ ws, w.k = k) (hy : y.length + ws.length ≤ k + 1)
    (tail : Option Err) : grfLoop nrm n y q ws tail = grfLoop nrm n y q ws' tail := by
  induction h generalizing y q with
  | nil => rfl
  | cons hw hrest ih =>
    rename_i w w' ws ws'
    simp only [List.length_cons] at hy
    have hwk := hk w (by simp)
    set z := draw nrm (n * (n + 1) / 2) q with hz
    have hp : push y z w.k = y ++ [z] := by
      unfold push
      simp only [List.length_append, List.length_cons, List.length_nil]
      rw [show y.length + (0 + 1) - (w.k + 1) = 0 by omega, List.drop_zero]
    have hp' : push y z w'.k = y ++ [z] := by
      unfold push
      simp only [List.length_append, List.length_cons, List.length_nil]
      rw [hw.1, show y.length + (0 + 1) - (w.k + d + 1) = 0 by omega, List.drop_zero]
    have hf : fieldAlm n (y ++ [z]) w = fieldAlm n (y ++ [z]) w' := by
      have hc : combine n (y ++ [z]) w = combine n (y ++ [z]) w' := by
        unfold combine
        simp only
        have hcol : (fun zi : List ℂ × ℕ =>
            multalm zi.1 (w.column n (zi.2 + (w.k + 1 - (y ++ [z]).length)))) =
            fun zi : List ℂ × ℕ =>
              multalm zi.1 (w'.column n (zi.2 + (w'.k + 1 - (y ++ [z]).length))) := by
          funext zi
          congr 1
          unfold Weight.column
          apply List.map_congr_left
          intro l _
          have hlen : (y ++ [z]).length = y.length + 1 := by simp
          rw [hlen, hw.1, show zi.2 + (w.k + d + 1 - (y.length + 1)) =
            zi.2 + (w.k + 1 - (y.length + 1)) + d by omega, hw.2]
        rw [hcol]
      unfold fieldAlm
      rw [hc]
    unfold grfLoop
    simp only
    rw [← hz, hp, hp', hf]
    split
    · rfl
    · rw [ih (y ++ [z]) (q + 1) (fun v hv => hk v (by simp [hv]))
        (by simp only [List.length_append, List.length_cons, List.length_nil]; omega)]

theorem covLoop_ncorr (b : Backend) (cls : List (List ℝ)) (nl nc d : ℕ) (fuel j stop : ℕ)
    (h : Heap) (r : ℕ) (hj : j + fuel ≤ nc + 1) :
    covLoop b cls nl nc fuel j stop h r = covLoop b cls nl (nc + d) fuel j stop h r := by
  induction fuel generalizing j stop h r with
  | zero => rfl
  | succ fuel ih =>
    have ht : (((cls.take (stop + j + 1)).drop stop).take (nc + 1)) =
        (((cls.take (stop + j + 1)).drop stop).take (nc + d + 1)) := by
      have hl : ((cls.take (stop + j + 1)).drop stop).length ≤ nc + 1 := by
        simp only [List.length_drop, List.length_take]
        omega
      exact (List.take_of_length_le hl).trans
        (List.take_of_length_le (hl.trans (by omega))).symm
    unfold covLoop
    simp only
    rw [ht]
    split
    · rfl
    · rw [ih (j + 1) (stop + j + 1) _ _ (by omega)]

theorem weights_k (rows : List Row) (tail : Option Err) (nc : ℕ) (h : ∀ row ∈ rows, row.len = nc + 1) :
    ∀ w ∈ (iternorm rows tail).1, w.k = nc := by
  have key : ∀ (prev : Option State) (st : State) (row : Row), row.len = nc + 1 →
      step prev row = .ok st → st.k = nc := by
    intro prev st row hl hs
    have hc : ∀ shape size mat, cutAndSolve shape size mat row = .ok st → st.k = nc := by
      intro shape size mat hcs
      unfold cutAndSolve at hcs
      simp only at hcs
      split_ifs at hcs
      cases hcs
      simp [hl]
    unfold step at hs
    split_ifs at hs
    cases prev with
    | none => exact hc _ _ _ hs
    | some p =>
      simp only at hs
      split_ifs at hs
      exact hc _ _ _ hs
  have h2 : ∀ (rows : List Row) (prev : Option State), (∀ row ∈ rows, row.len = nc + 1) →
      ∀ st ∈ (iterate prev rows tail).1, st.k = nc := by
    intro rows
    induction rows with
    | nil => intro prev _ st hst; simp [iterate] at hst
    | cons row rows ih =>
      intro prev hl st hst
      unfold iterate at hst
      split at hst
      · simp at hst
      · rename_i s hs
        rcases List.mem_cons.1 hst with rfl | hm
        · exact key prev _ row (hl row (by simp)) hs
        · exact ih _ (fun r hr => hl r (by simp [hr])) st hm
  intro w hw
  unfold iternorm at hw
  obtain ⟨st, hst, rfl⟩ := List.mem_map.1 hw
  exact h2 rows none h st hst

theorem grfRun_ncorr (b : Backend) (nrm : Normals) (gls : List (List ℝ)) (n N nc d : ℕ)
    (hN : N ≤ nc + 1) : grfRun b nrm gls n N nc = grfRun b nrm gls n N (nc + d) := by
  have hcov : cls2cov b gls n N nc = cls2cov b gls n N (nc + d) :=
    covLoop_ncorr b gls n nc d N 0 0 _ _ (by omega)
  have hlen : (cls2cov b gls n N nc).1.length ≤ N :=
    (covLoop_complete b gls n nc N 0 0 ⟨1, fun _ _ _ => 0⟩ 0).1
  have hrows : List.Forall₂ (RowShift nc d) (cls2covRows b gls n N nc).1
      (cls2covRows b gls n N (nc + d)).1 := by
    unfold cls2covRows
    simp only
    rw [← hcov, List.forall₂_map_left_iff, List.forall₂_map_right_iff, List.forall₂_same]
    intro y _
    exact ⟨rfl, rfl, rfl, fun _ _ _ => rfl⟩
  have htail : (cls2covRows b gls n N nc).2 = (cls2covRows b gls n N (nc + d)).2 := by
    unfold cls2covRows
    rw [hcov]
  have hl : (cls2covRows b gls n N nc).1.length ≤ N := by
    simpa [cls2covRows] using hlen
  obtain ⟨h1, h2, h3⟩ := iternorm_shift nc d _ _ hrows (cls2covRows b gls n N nc).2 (by omega)
  unfold grfRun
  simp only
  rw [← htail, ← h2]
  refine grfLoop_shift nrm n d nc [] 0 _ _ h1 ?_ (by simp only [List.length_nil]; omega) _
  apply weights_k
  intro row hrow
  unfold cls2covRows at hrow
  simp only [List.mem_map] at hrow
  obtain ⟨y, -, rfl⟩ := hrow
  rfl

/-! ## Properties -/

/-- **C133**: keeping more correlations than there are other fields changes nothing. -/
theorem ncorr_beyond (b : Backend) (nrm : Normals) (gls : List (List ℝ)) (N : ℕ)
    (h : gls.length = tri N) (hL : 0 < maxLength gls) (nc : ℕ) (hnc : N - 1 ≤ nc) :
    generateAlm b nrm gls (some nc) = generateAlm b nrm gls none := by
  rw [generateAlm_eq b nrm gls _ N h hL, generateAlm_eq b nrm gls _ N h hL]
  simp only [Option.getD_some, Option.getD_none]
  obtain ⟨d, rfl⟩ := Nat.exists_eq_add_of_le hnc
  exact (grfRun_ncorr b nrm gls (maxLength gls) N (N - 1) d (by omega)).symm

/-- **C133**: adding fields after the given ones leaves the coefficients of the given ones
unchanged, and an exception is the same, as long as no spectrum of the added fields is longer than
all the given spectra. -/
theorem generate_alm_prefix (b : Backend) (nrm : Normals) (gls extra : List (List ℝ)) (N d : ℕ)
    (h : gls.length = tri N) (h' : (gls ++ extra).length = tri (N + d)) (hL : 0 < maxLength gls)
    (hmax : maxLength (gls ++ extra) = maxLength gls) (ncorr : Option ℕ) :
    Extends (generateAlm b nrm gls ncorr) (generateAlm b nrm (gls ++ extra) ncorr) := by
  rw [generateAlm_eq b nrm (gls ++ extra) _ (N + d) h' (by omega), hmax]
  cases ncorr with
  | some nc =>
    rw [generateAlm_eq b nrm gls _ N h hL]
    exact grfRun_extends b nrm gls extra (maxLength gls) N d nc h
  | none =>
    rw [← ncorr_beyond b nrm gls N h hL (N + d - 1) (by omega), generateAlm_eq b nrm gls _ N h hL]
    exact grfRun_extends b nrm gls extra (maxLength gls) N d (N + d - 1) h

theorem zipStrict_extends {T X : Type*} (apply : T → X → ℝ → X) (var var' : ℕ → Except Err ℝ)
    (i : ℕ) (ts more : List T) (xs xs' : List X × Option Err) (h : Extends xs xs')
    (hvar : ∀ j < i + ts.length, var j = var' j) (hlen : xs.1.length ≤ ts.length)
    (hfull : xs.2 = none → xs.1.length = ts.length) :
    Extends (zipStrict apply var i ts xs.1 xs.2) (zipStrict apply var' i (ts ++ more) xs'.1 xs'.2) := by
  obtain ⟨xs, e⟩ := xs
  obtain ⟨xs', e'⟩ := xs'
  simp only at hlen hfull ⊢
  induction ts generalizing i xs xs' with
  | nil =>
    have hx : xs = [] := List.length_eq_zero_iff.1 (by simpa using hlen)
    subst hx
    rcases h with ⟨h1, -⟩ | ⟨h1, h2⟩
    · simp only at h1
      subst h1
      exact extends_nil _
    · simp only [Prod.mk.injEq] at h1 h2
      obtain ⟨rfl, rfl⟩ := h2
      cases e' with
      | none => exact absurd rfl h1
      | some e => cases more <;> exact extends_error _ _
  | cons t ts ih =>
    cases xs with
    | nil =>
      cases e with
      | none => simp at hfull
      | some e =>
        rcases h with ⟨h1, -⟩ | ⟨-, h2⟩
        · simp at h1
        · simp only [Prod.mk.injEq] at h2
          obtain ⟨rfl, rfl⟩ := h2
          exact extends_error _ _
    | cons x xs =>
      have hx' : ∃ ys, xs' = x :: ys ∧ Extends (xs, e) (ys, e') := by
        rcases h with ⟨h1, t', h2⟩ | ⟨h1, h2⟩
        · exact ⟨xs ++ t', by simpa using h2.symm, Or.inl ⟨h1, ⟨t', rfl⟩⟩⟩
        · simp only [Prod.mk.injEq] at h2
          obtain ⟨rfl, rfl⟩ := h2
          exact ⟨xs, rfl, Or.inr ⟨h1, rfl⟩⟩
      obtain ⟨ys, rfl, hext⟩ := hx'
      rw [List.cons_append]
      unfold zipStrict
      rw [← hvar i (by simp)]
      split
      · exact extends_error _ _
      · apply Extends.cons
        refine ih (i + 1) (fun j hj => hvar j (by simp only [List.length_cons]; omega)) xs
          (by simpa using hlen) (fun he => by simpa using hfull he) ys hext

/-- **C133**: the maps of `generate` do not change when fields are added after them, and an
exception is the same, as long as no spectrum of the added fields is longer than all the given
spectra. -/
theorem generate_prefix {T X : Type*} (b : Backend) (alm2map : List ℂ → X) (cltovar : List ℝ → ℝ)
    (apply : T → X → ℝ → X) (nrm : Normals) (fields more : List T) (gls extra : List (List ℝ))
    (h : gls.length = tri fields.length)
    (h' : (gls ++ extra).length = tri (fields.length + more.length)) (hL : 0 < maxLength gls)
    (hmax : maxLength (gls ++ extra) = maxLength gls) (ncorr : Option ℕ) :
    Extends (generate b alm2map cltovar apply nrm fields gls ncorr)
      (generate b alm2map cltovar apply nrm (fields ++ more) (gls ++ extra) ncorr) := by
  unfold generate
  simp only
  rw [if_neg (by rw [h]; simp [tri]), if_neg (by rw [h']; simp [tri])]
  obtain ⟨c1, c2⟩ := generateAlm_complete b nrm gls ncorr fields.length h
  refine zipStrict_extends apply _ _ 0 fields more _ _
    ((generate_alm_prefix b nrm gls extra fields.length more.length h h' hL hmax ncorr).map alm2map)
    ?_ (by simpa using c1) (fun he => by simpa using c2 he)
  intro j hj
  have hlt := tri_lt (show j < fields.length by omega)
  unfold getcl pyGet
  simp only [gt_iff_lt, lt_irrefl, if_false]
  rw [List.getElem?_append_left (by rw [h]; unfold tri at *; omega)]

/-! ## Longer spectra -/

/-- The numbers of the calls `standard_normal((size, 2))` of a generator with one stream of
numbers (NumPy). -/
def streamNormals (s : ℕ → ℝ) (size : ℕ) : Normals := fun q k c => s (q * (2 * size) + 2 * k + c)

/-- The spectra of two uncorrelated fields with one mode, then those of a third without power but
with spectra of length two. -/
noncomputable def twoFields : List (List ℝ) := [[1], [1], [0]]

/-- The spectra of the third field. -/
noncomputable def thirdField : List (List ℝ) := [[0, 0], [0], [0]]

theorem admissible_diagonal (N : ℕ) (D : ℕ → ℝ) (A : ℕ → ℕ → ℝ) (hD : ∀ i < N, 0 ≤ D i)
    (hA : ∀ i < N, ∀ j < N, A i j = if i = j then D i else 0) : Admissible N A := by
  constructor
  · intro i hi h0 j hj
    rw [hA i hi i hi, if_pos rfl] at h0
    rw [hA i hi j hj]
    split_ifs
    · exact h0
    · rfl
  · rintro v ⟨i, hi, h1, h2⟩
    rw [hA i hi i hi, if_pos rfl] at h1
    have hq : quad N A v = ∑ i ∈ range N, D i * v i ^ 2 := by
      unfold quad
      refine Finset.sum_congr rfl fun i hi => ?_
      rw [Finset.sum_eq_single i]
      · rw [hA i (Finset.mem_range.1 hi) i (Finset.mem_range.1 hi), if_pos rfl]
        ring
      · intro j hj hji
        rw [hA i (Finset.mem_range.1 hi) j (Finset.mem_range.1 hj), if_neg (Ne.symm hji)]
        ring
      · intro h
        exact absurd hi h
    rw [hq]
    refine Finset.sum_pos' (fun j hj => mul_nonneg (hD j (Finset.mem_range.1 hj)) (sq_nonneg _))
      ⟨i, Finset.mem_range.2 hi, ?_⟩
    exact mul_pos (lt_of_le_of_ne (hD i hi) (Ne.symm h1)) (by positivity)

/-- **C133**, where it ends: a longer spectrum of a later field moves the draws of the earlier
fields, since every field draws numbers for the longest spectrum. Here the second field changes. -/
theorem prefix_needs_length (b : Backend) : ∃ s : ℕ → ℝ, ∃ alms alms' : List (List ℂ),
    generateAlm b (streamNormals s 1) twoFields none = (alms, none) ∧
    generateAlm b (streamNormals s 3) (twoFields ++ thirdField) none = (alms', none) ∧
    coefficient 1 alms 1 0 0 ≠ coefficient 2 alms' 1 0 0 := by
  have m1 : maxLength twoFields = 1 := by simp [maxLength, twoFields]
  have m2 : maxLength (twoFields ++ thirdField) = 2 := by simp [maxLength, twoFields, thirdField]
  have c1 : ∀ l < 1, ∀ i < 2, ∀ j < 2, modeCov twoFields 1 l i j = if i = j then 1 / 2 else 0 := by
    intro l hl i hi j hj
    interval_cases l
    interval_cases i <;> interval_cases j <;> simp [modeCov, clValue, twoFields]
  have c2 : ∀ l < 2, ∀ i < 3, ∀ j < 3, modeCov (twoFields ++ thirdField) 2 l i j =
      if i = j then (if l = 0 ∧ i < 2 then 1 / 2 else 0) else 0 := by
    intro l hl i hi j hj
    interval_cases l <;> interval_cases i <;> interval_cases j <;>
      simp [modeCov, clValue, twoFields, thirdField]
  obtain ⟨W, w1, w2, w3⟩ := grf_linear b twoFields 2 rfl none (by omega) (by
    intro l hl
    exact admissible_diagonal 2 (fun _ => 1 / 2) _ (fun _ _ => by norm_num) (c1 l (by omega)))
  obtain ⟨W', w1', w2', w3'⟩ := grf_linear b (twoFields ++ thirdField) 3 rfl none (by omega) (by
    intro l hl
    exact admissible_diagonal 3 (fun i => if l = 0 ∧ i < 2 then 1 / 2 else 0) _
      (fun i _ => by split_ifs <;> norm_num) (c2 l (by omega)))
  refine ⟨fun p => if p = 2 then 1 else 0, ?_⟩
  obtain ⟨alms, h1, -, h2⟩ := w3 (streamNormals (fun p => if p = 2 then 1 else 0) 1)
  obtain ⟨alms', h1', -, h2'⟩ := w3' (streamNormals (fun p => if p = 2 then 1 else 0) 3)
  refine ⟨alms, alms', h1, h1', ?_⟩
  obtain ⟨alm, a1, -, a3⟩ := h2 1 (by norm_num)
  obtain ⟨alm', a1', -, a3'⟩ := h2' 1 (by norm_num)
  have e1 := a3 0 0 le_rfl (by omega)
  have e2 := a3' 0 0 le_rfl (by omega)
  rw [m1] at e1
  rw [m2] at e2
  unfold coefficient
  rw [a1, a1', Option.getD_some, Option.getD_some, e1, e2]
  have hz : ∀ q : ℕ, zValue (streamNormals (fun p => if p = 2 then 1 else 0) 1) q 0 0 =
      if q = 1 then 1 else 0 := by
    intro q
    by_cases hq : q = 1
    · subst hq; simp [zValue, streamNormals]
    · have h2 : ¬ q * 2 = 2 := by omega
      have h3 : ¬ q * 2 + 1 = 2 := by omega
      simp [zValue, streamNormals, hq, h2, h3]
  have hz' : ∀ q : ℕ, zValue (streamNormals (fun p => if p = 2 then 1 else 0) 3) q 0 0 = 0 := by
    intro q
    have h2 : ¬ q * 6 = 2 := by omega
    have h3 : ¬ q * 6 + 1 = 2 := by omega
    simp [zValue, streamNormals, h2, h3]
  have hW : W 0 1 1 ≠ 0 := by
    intro h0
    have q00 := w2 0 (by omega) 0 (by norm_num) 0 (by norm_num)
    have q01 := w2 0 (by omega) 0 (by norm_num) 1 (by norm_num)
    have q11 := w2 0 (by omega) 1 (by norm_num) 1 (by norm_num)
    rw [Option.getD_none, c1 0 (by norm_num) _ (by norm_num) _ (by norm_num)] at q00 q01 q11
    simp [Finset.sum_range_succ, w1 0 0 1 (by norm_num), h0] at q00 q01 q11
    rcases q01 with h | h
    · rw [h] at q00; norm_num at q00
    · rw [h] at q11; norm_num at q11
  simp [hz, hz', realised, hW]

/-- With spectra that are not longer, the first two fields stay. -/
example (b : Backend) (nrm : Normals) :
    Extends (generateAlm b nrm twoFields none) (generateAlm b nrm (twoFields ++ [[0], [0], [0]]) none) :=
  generate_alm_prefix b nrm twoFields [[0], [0], [0]] 2 1 rfl rfl (by simp [maxLength, twoFields])
    (by simp [maxLength, twoFields]) none

end Glass.Grf
