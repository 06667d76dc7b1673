import Verif.Grf.IternormProps
import Verif.Shells.FloatAverages

/-!
# Covariance rows in floating point (C175)

`cls2cov` divides by two, which double precision does without error.
-/

namespace Glass.Grf

open Glass Glass.Spectra

/-! ## Model -/

/-- `fields.py:224-236` with every operation rounded, see `covLoop`. -/
noncomputable def covLoopFl (fl : ℝ → ℝ) (b : Backend) (cls : List (List ℝ)) (nl nc : ℕ) :
    ℕ → ℕ → ℕ → Heap → ℕ → List (ℕ × Heap) × Option Err × Heap
  | 0, _, _, h, _ => ([], none, h)
  | fuel + 1, j, stop, h, r =>
    let start := stop
    let stop := stop + j + 1
    let part := (((cls.take stop).drop start).take (nc + 1)).zipIdx
    match setColumns b nl part h r with
    | .error e => ([], some e, h)
    | .ok (h, r) =>
      let (h, r) := h.update b r fun l c => fl (h.arr r l c / 2)
      let rest := covLoopFl fl b cls nl nc fuel (j + 1) stop h r
      ((r, h) :: rest.1, rest.2.1, rest.2.2)

/-- `fields.py:191-236` `cls2cov` with every operation rounded. -/
noncomputable def cls2covFl (fl : ℝ → ℝ) (b : Backend) (cls : List (List ℝ)) (nl nf nc : ℕ) :
    List (ℕ × Heap) × Option Err × Heap :=
  covLoopFl fl b cls nl nc nf 0 0 ⟨1, fun _ _ _ => 0⟩ 0

/-! ## Halves -/

theorem log_half {x : ℝ} (hx : 0 < x) : Int.log 2 (x / 2) = Int.log 2 x - 1 := by
  have h1 : (2 : ℝ) ^ Int.log 2 x ≤ x := by exact_mod_cast Int.zpow_log_le_self (b := 2) (by norm_num) hx
  have h2 : x < (2 : ℝ) ^ (Int.log 2 x + 1) := by
    exact_mod_cast Int.lt_zpow_succ_log_self (b := 2) (by norm_num) x
  have hp : 0 < x / 2 := by positivity
  generalize Int.log 2 x = e at *
  apply le_antisymm
  · have : Int.log 2 (x / 2) < e := by
      rw [← Int.lt_zpow_iff_log_lt (by norm_num) hp]
      rw [zpow_add_one₀ (by norm_num)] at h2
      push_cast
      linarith
    omega
  · rw [← Int.zpow_le_iff_le_log (by norm_num) hp]
    push_cast
    rw [zpow_sub_one₀ (by norm_num)]
    linarith

theorem roundPos_half {x : ℝ} (hx : 0 < x) : roundPos (x / 2) = roundPos x / 2 := by
  unfold roundPos
  rw [log_half hx]
  have : (2 : ℝ) ^ (Int.log 2 x - 1 - 52) = (2 : ℝ) ^ (Int.log 2 x - 52) / 2 := by
    rw [show Int.log 2 x - 1 - 52 = (Int.log 2 x - 52) - 1 by ring, zpow_sub_one₀ (by norm_num)]
    ring
  rw [this, div_div_div_cancel_right₀ (by norm_num)]
  ring

/-- Division by two commutes with rounding to double precision. -/
theorem double_half (x : ℝ) : double.fl (x / 2) = double.fl x / 2 := by
  change roundDouble (x / 2) = roundDouble x / 2
  unfold roundDouble
  rcases lt_trichotomy x 0 with h | h | h
  · rw [if_neg (by linarith), if_pos (by linarith), if_neg (by linarith), if_pos h, ← neg_div,
      roundPos_half (by linarith)]
    ring
  · simp [h]
  · rw [if_pos (by linarith), if_pos h, roundPos_half h]

/-! ## All rows -/

/-- All numbers in the memory are stored numbers. -/
def Stored (h : Heap) : Prop := ∀ r l c, double.fl (h.arr r l c) = h.arr r l c

theorem stored_update {h : Heap} (hs : Stored h) (b : Backend) (r : ℕ) {v : ℕ → ℕ → ℝ}
    (hv : ∀ l c, double.fl (v l c) = v l c) : Stored (h.update b r v).1 := by
  intro q l c
  cases b <;> simp only [Heap.update] <;> split_ifs
  · exact hv l c
  · exact hs q l c
  · exact hv l c
  · exact hs q l c

theorem stored_setColumns (b : Backend) (nl : ℕ) (part : List (List ℝ × ℕ))
    (hp : ∀ p ∈ part, ∀ c ∈ p.1, double.fl c = c) {h : Heap} (hs : Stored h) {r : ℕ} {h' : Heap} {r' : ℕ}
    (he : setColumns b nl part h r = .ok (h', r')) : Stored h' := by
  induction part generalizing h r with
  | nil =>
    simp only [setColumns, Except.ok.injEq, Prod.mk.injEq] at he
    rw [← he.1]; exact hs
  | cons p part ih =>
    obtain ⟨cl, i⟩ := p
    simp only [setColumns] at he
    split_ifs at he
    refine ih (fun p hm => hp p (List.mem_cons_of_mem _ hm)) ?_ he
    have hcl : ∀ c ∈ cl, double.fl c = c := hp (cl, i) (List.mem_cons_self ..)
    have h1 : Stored (h.update b r fun l c => if l < cl.length ∧ c = i then (cl[l]?).getD 0 else h.arr r l c).1 := by
      refine stored_update hs b r fun l c => ?_
      split_ifs with hlc
      · rw [List.getElem?_eq_getElem hlc.1]
        exact hcl _ (List.getElem_mem _)
      · exact hs r l c
    refine stored_update h1 b _ fun l c => ?_
    split_ifs
    · exact double.zero
    · exact h1 _ l c

theorem covLoop_fl (b : Backend) (cls : List (List ℝ)) (hc : ∀ cl ∈ cls, ∀ c ∈ cl, double.fl c = c) (nl nc : ℕ)
    (fuel j stop : ℕ) {h : Heap} (hs : Stored h) (r : ℕ) :
    covLoopFl double.fl b cls nl nc fuel j stop h r = covLoop b cls nl nc fuel j stop h r := by
  induction fuel generalizing j stop h r with
  | zero => rfl
  | succ fuel ih =>
    simp only [covLoopFl, covLoop]
    cases he : setColumns b nl (((cls.take (stop + j + 1)).drop stop).take (nc + 1)).zipIdx h r with
    | error e => rfl
    | ok hr =>
      obtain ⟨h', r'⟩ := hr
      have hs' : Stored h' := by
        refine stored_setColumns b nl _ (fun p hp c hcp => ?_) hs he
        have h1 := List.fst_mem_of_mem_zipIdx hp
        exact hc p.1 (List.mem_of_mem_take (List.mem_of_mem_drop (List.mem_of_mem_take h1))) c hcp
      have hhalf : (fun l c => double.fl (h'.arr r' l c / 2)) = fun l c => h'.arr r' l c / 2 := by
        funext l c
        rw [double_half, hs' r' l c]
      simp only [hhalf]
      have hs'' : Stored (h'.update b r' fun l c => h'.arr r' l c / 2).1 :=
        stored_update hs' b r' fun l c => by rw [double_half, hs' r' l c]
      rw [ih _ _ hs'']

/-- **C175**: for stored spectra, the covariance rows in double precision are the exact ones. -/
theorem cls2cov_fl_exact (b : Backend) (cls : List (List ℝ)) (hc : ∀ cl ∈ cls, ∀ c ∈ cl, double.fl c = c)
    (nl nf nc : ℕ) : cls2covFl double.fl b cls nl nf nc = cls2cov b cls nl nf nc :=
  covLoop_fl b cls hc nl nc nf 0 0 (fun _ _ _ => double.zero) 0

/-- **C175**: without rounding this is the exact model, for all spectra. -/
theorem cls2cov_fl_real (b : Backend) (cls : List (List ℝ)) (nl nf nc : ℕ) :
    cls2covFl id b cls nl nf nc = cls2cov b cls nl nf nc := by
  have key : ∀ fuel j stop (h : Heap) r,
      covLoopFl id b cls nl nc fuel j stop h r = covLoop b cls nl nc fuel j stop h r := by
    intro fuel
    induction fuel with
    | zero => intros; rfl
    | succ fuel ih =>
      intro j stop h r
      simp only [covLoopFl, covLoop, id, ih]
      cases setColumns b nl (((cls.take (stop + j + 1)).drop stop).take (nc + 1)).zipIdx h r <;> rfl
  exact key ..

/-- One spectrum with the values 1 and 3. -/
example (b : Backend) : cls2covFl double.fl b [[1, 3]] 2 1 0 = cls2cov b [[1, 3]] 2 1 0 := by
  apply cls2cov_fl_exact
  intro cl hcl c hc
  have h1 := double.exact 4 (by norm_num)
  have h3 := double.exact 12 (by norm_num)
  norm_num at h1 h3
  simp only [List.mem_cons, List.not_mem_nil, or_false] at hcl
  subst hcl
  simp only [List.mem_cons, List.not_mem_nil, or_false] at hc
  rcases hc with rfl | rfl
  · exact h1
  · exact h3

end Glass.Grf
