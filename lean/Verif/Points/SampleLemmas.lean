import Mathlib.Tactic.Linarith
import Mathlib.Algebra.Order.BigOperators.Group.List
import Verif.Points.Model

/-! # Lemmas about the batched emission of points -/

namespace Glass.Points

/-- Number of points in the pixels before `k`. -/
def pre (n : List ℕ) (k : ℕ) : ℕ := (n.take k).sum

theorem pre_zero (n : List ℕ) : pre n 0 = 0 := by simp [pre]

theorem pre_succ (n : List ℕ) (k : ℕ) (h : k < n.length) : pre n (k + 1) = pre n k + n[k] := by
  unfold pre
  rw [List.take_add_one, List.sum_append, List.getElem?_eq_getElem h]
  simp

theorem pre_mono (n : List ℕ) {i j : ℕ} (h : i ≤ j) : pre n i ≤ pre n j := by
  unfold pre
  obtain ⟨k, rfl⟩ := Nat.exists_eq_add_of_le h
  rw [List.take_add]
  simp

theorem pre_length (n : List ℕ) : pre n n.length = n.sum := by simp [pre]

theorem sum_drop (n : List ℕ) (k : ℕ) : (n.drop k).sum + pre n k = n.sum := by
  unfold pre
  conv_rhs => rw [← List.take_append_drop k n]
  rw [List.sum_append]; omega

theorem cumsum_length (l : List ℕ) : (cumsum l).length = l.length := by simp [cumsum]

theorem scanl_get (l : List ℕ) : ∀ (a j : ℕ) (h : j < (l.scanl (· + ·) a).length),
    (l.scanl (· + ·) a)[j] = a + (l.take j).sum := by
  induction l with
  | nil => intro a j h; simp
  | cons x l ih =>
    intro a j h
    cases j with
    | zero => simp
    | succ j => simp [ih, add_assoc]

theorem cumsum_get (l : List ℕ) (j : ℕ) (h : j < (cumsum l).length) :
    (cumsum l)[j] = (l.take (j + 1)).sum := by
  have h' : j + 1 < (l.scanl (· + ·) 0).length := by
    have := h
    rw [cumsum_length] at this
    simp; omega
  refine Eq.trans (b := (l.scanl (· + ·) 0)[j + 1]) ?_ ?_
  · exact List.getElem_tail _
  · rw [scanl_get, zero_add]

theorem cumsum_sorted (l : List ℕ) : (cumsum l).Pairwise (· ≤ ·) := by
  rw [List.pairwise_iff_getElem]
  intro i j hi hj hij
  rw [cumsum_get, cumsum_get]
  exact pre_mono l (by omega)

theorem searchsorted_le (q : List ℕ) (v : ℤ) : searchsortedRight q v ≤ q.length :=
  List.countP_le_length

theorem searchsorted_get (q : List ℕ) (v : ℤ) (hq : q.Pairwise (· ≤ ·)) :
    ∀ (j : ℕ) (h : j < q.length), j < searchsortedRight q v → (q[j] : ℤ) ≤ v := by
  induction q with
  | nil => intro j h; simp at h
  | cons a q ih =>
    intro j h hj
    rw [List.pairwise_cons] at hq
    by_cases ha : (a : ℤ) ≤ v
    · cases j with
      | zero => simpa using ha
      | succ j =>
        have : j < searchsortedRight q v := by
          simp only [searchsortedRight, List.countP_cons, ha, decide_true, if_true] at hj ⊢
          omega
        simpa using ih hq.2 j (by simpa using h) this
    · exfalso
      have : searchsortedRight (a :: q) v = 0 := by
        unfold searchsortedRight
        rw [List.countP_eq_zero]
        intro x hx
        rcases List.mem_cons.1 hx with rfl | hx
        · simpa using ha
        · have := hq.1 x hx
          simp only [decide_eq_true_eq]
          omega
      omega

/-- The window of the cumulative sum in terms of the prefix sums. -/
theorem window_sum (n : List ℕ) (stop w j : ℕ) (hj : j ≤ w) :
    (((n.drop stop).take w).take j).sum + pre n stop = pre n (stop + j) := by
  unfold pre
  rw [List.take_take, min_eq_left hj, List.take_add, List.sum_append]
  omega

theorem repeatPix_length (n : List ℕ) (s e : ℕ) (h : s ≤ e) (he : e ≤ n.length) :
    (repeatPix n s e).length + pre n s = pre n e := by
  obtain ⟨k, rfl⟩ := Nat.exists_eq_add_of_le h
  clear h
  induction k with
  | zero => simp [repeatPix]
  | succ k ih =>
    have h1 : s + k < n.length := by omega
    have := ih (by omega)
    have h2 : repeatPix n s (s + (k + 1)) = repeatPix n s (s + k) ++
        List.replicate n[s + k]! (s + k) := by
      unfold repeatPix
      have e1 : s + (k + 1) - s = k + 1 := by omega
      have e2 : s + k - s = k := by omega
      rw [e1, e2, List.range'_concat, List.flatMap_append]
      simp
    rw [h2, List.length_append, List.length_replicate, getElem!_pos n (s + k) h1,
      ← add_assoc s k 1, pre_succ n (s + k) h1]
    omega

theorem repeatPix_append (n : List ℕ) (s e f : ℕ) (h : s ≤ e) (hf : e ≤ f) :
    repeatPix n s e ++ repeatPix n e f = repeatPix n s f := by
  unfold repeatPix
  rw [← List.flatMap_append]
  congr 1
  have h1 : e = s + 1 * (e - s) := by omega
  have h2 : f - s = (e - s) + (f - e) := by omega
  rw [h2]
  conv_lhs => rw [show List.range' e (f - e) = List.range' (s + 1 * (e - s)) (f - e) by rw [← h1]]
  exact List.range'_append

theorem repeatPix_self (n : List ℕ) (s : ℕ) : repeatPix n s s = [] := by simp [repeatPix]

/-- What one batch is. -/
def GoodBatch (n : List ℕ) (batch : ℤ) (b : List ℕ) : Prop :=
  ∃ s e : ℕ, s < e ∧ e ≤ n.length ∧ b = repeatPix n s e ∧ ((b.length : ℤ) ≤ batch ∨ e = s + 1)

/-- The invariant of the loop and what it gives. -/
theorem pixelLoop_spec (n : List ℕ) (batch : ℤ) (step : ℕ) (hstep : 0 < step) :
    ∀ (fuel start stop size : ℕ) (count : ℤ), start ≤ stop → stop ≤ n.length →
      size + pre n start = pre n stop → count = (n.sum : ℕ) - (pre n start : ℕ) →
      (count = 0 ∨ (size : ℤ) < count) → (stop = start ∨ (size : ℤ) < batch) →
      (count = 0 → stop = start) → 2 * (n.length - stop) ≤ fuel →
      (start < stop → 2 * (n.length - stop) + 1 ≤ fuel) →
      ∃ (bs : List (List ℕ)) (stop' : ℕ),
        pixelLoop n batch step fuel start stop size count = (bs, .finished stop') ∧
        (n.drop stop').sum = 0 ∧ bs.flatten = repeatPix n start n.length ∧
        ∀ b ∈ bs, GoodBatch n batch b := by
  have hend : ∀ start : ℕ, start ≤ n.length → (n.sum : ℤ) - (pre n start : ℕ) = 0 →
      (n.drop start).sum = 0 ∧ repeatPix n start n.length = [] := by
    intro start hs h
    have h1 := sum_drop n start
    have h2 := repeatPix_length n start n.length hs le_rfl
    rw [pre_length] at h2
    refine ⟨by omega, List.eq_nil_iff_length_eq_zero.2 (by omega)⟩
  intro fuel
  induction fuel with
  | zero =>
    intro start stop size count h1 h2 h3 h4 h5 h6 h7 h8 h8'
    have hc : count = 0 := by
      rcases h5 with h5 | h5
      · exact h5
      · exfalso
        have h9 : stop = n.length := by omega
        rw [h9, pre_length] at h3
        omega
    obtain ⟨e1, e2⟩ := hend start (by omega) (by omega)
    refine ⟨[], stop, by simp [pixelLoop, hc], ?_, by simp [e2], by simp⟩
    rw [h7 hc]; exact e1
  | succ fuel ih =>
    intro start stop size count h1 h2 h3 h4 h5 h6 h7 h8 h8'
    by_cases hc : count = 0
    · obtain ⟨e1, e2⟩ := hend start (by omega) (by omega)
      refine ⟨[], stop, by simp [pixelLoop, hc], ?_, by simp [e2], by simp⟩
      rw [h7 hc]; exact e1
    · have hsz : (size : ℤ) < count := h5.resolve_left hc
      have hlt : stop < n.length := by
        by_contra h
        have h9 : stop = n.length := by omega
        rw [h9, pre_length] at h3
        omega
      set w := min n.length (stop + step) - stop with hw
      have hwpos : 0 < w := by omega
      have hwle : stop + w ≤ n.length := by omega
      set q := cumsum ((n.drop stop).take w) with hq
      have hql : q.length = w := by
        rw [hq, cumsum_length, List.length_take, List.length_drop]; omega
      have hqget : ∀ (j : ℕ) (h : j < q.length), q[j] + pre n stop = pre n (stop + (j + 1)) := by
        intro j h
        have : q[j] = (((n.drop stop).take w).take (j + 1)).sum := cumsum_get _ j h
        rw [this]
        exact window_sum n stop w (j + 1) (by omega)
      have hlast : q.getLast? = some (q[w - 1]'(by omega)) := by
        have := List.getElem?_eq_getElem (l := q) (i := w - 1) (by omega)
        rw [← this, List.getLast?_eq_getElem?, hql]
      have hlastv := hqget (w - 1) (by omega)
      rw [show stop + (w - 1 + 1) = stop + w by omega] at hlastv
      set ql := q[w - 1]'(by omega) with hqldef
      by_cases hskip : (size : ℤ) + ql < min batch count
      · have hlt' : stop + step < n.length := by
          by_contra h
          have h9 : stop + w = n.length := by omega
          rw [h9, pre_length] at hlastv
          have := lt_of_lt_of_le hskip (min_le_right _ _)
          omega
        have hw' : w = step := by omega
        rw [hw'] at hlastv
        have hb := lt_of_lt_of_le hskip (min_le_left _ _)
        have hcnt := lt_of_lt_of_le hskip (min_le_right _ _)
        obtain ⟨bs, stop', e1, e2, e3, e4⟩ := ih start (stop + step) (size + ql) count (by omega)
          hlt'.le (by omega) h4 (Or.inr (by push_cast; omega)) (Or.inr (by push_cast; omega))
          (fun h => absurd h hc) (by omega) (by omega)
        refine ⟨bs, stop', ?_, e2, e3, e4⟩
        rw [← e1]
        simp only [pixelLoop, hc, if_false, ← hw, ← hq, hlast, if_pos hskip]
      · have hss := searchsorted_le q (batch - size)
        have hsg := searchsorted_get q (batch - size) (cumsum_sorted _)
        set j := searchsortedRight q (batch - size) with hj
        set e := if stop + j = start then stop + j + 1 else stop + j with he
        have he1 : start < e := by
          rw [he]; split_ifs <;> omega
        have he2 : e ≤ n.length := by
          rw [he]; split_ifs <;> omega
        have he3 : stop < e ∨ (e = stop ∧ start < stop) := by
          rw [he]; split_ifs <;> omega
        have hlen := repeatPix_length n start e he1.le he2
        have hle : pre n e ≤ n.sum := by
          rw [← pre_length]; exact pre_mono n he2
        have hgood : ((repeatPix n start e).length : ℤ) ≤ batch ∨ e = start + 1 := by
          by_cases hj0 : j = 0
          · by_cases hst : stop = start
            · right; rw [he, hj0, hst]; simp
            · left
              have : e = stop := by
                rw [he, hj0, add_zero, if_neg hst]
              rw [this] at hlen ⊢
              have := h6.resolve_left hst
              omega
          · left
            have hne : stop + j ≠ start := by omega
            have : e = stop + j := by rw [he, if_neg hne]
            have g1 := hsg (j - 1) (by omega) (by omega)
            have g2 := hqget (j - 1) (by omega)
            rw [show stop + (j - 1 + 1) = stop + j by omega, ← this] at g2
            omega
        obtain ⟨bs, stop', e1, e2, e3, e4⟩ := ih e e 0
          (count - (repeatPix n start e).length) le_rfl he2 (by omega) (by omega)
          (by omega) (Or.inl rfl) (fun _ => rfl) (by omega) (by omega)
        refine ⟨repeatPix n start e :: bs, stop', ?_, e2, ?_, ?_⟩
        · have hnl : ¬ n.length < e := by omega
          simp only [pixelLoop, hc, if_false, ← hw, ← hq, hlast, if_neg hskip, ← hj, ← he,
            if_neg hnl, e1]
        · rw [List.flatten_cons, e3, repeatPix_append n start e _ he1.le he2]
        · intro b hb
          rcases List.mem_cons.1 hb with rfl | hb
          · exact ⟨start, e, he1, he2, rfl, hgood⟩
          · exact e4 b hb

end Glass.Points
