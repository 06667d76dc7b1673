import Mathlib.Algebra.BigOperators.Ring.Finset
import Mathlib.Algebra.BigOperators.Intervals
import Mathlib.Algebra.Order.BigOperators.Ring.Finset
import Mathlib.Algebra.BigOperators.Field
import Mathlib.Tactic.Linarith
import Mathlib.Tactic.Ring
import Mathlib.Tactic.FieldSimp
import Mathlib.Tactic.Positivity
import Mathlib.Tactic.LinearCombination
import Verif.Grf.Iternorm

/-! # Invariants of `iternorm` -/

namespace Glass.Grf

open Finset Glass.Spectra

/-- The weight of field `st` on the normal variate `d` fields earlier. -/
noncomputable def State.lag (st : State) (x : List ℕ) (d : ℕ) : ℝ :=
  if d ≤ st.k then st.weight.w x (st.k - d) else 0

theorem State.lag_zero (st : State) (x : List ℕ) : st.lag x 0 = st.s x := by
  simp [State.lag, State.weight]

theorem State.lag_sub (st : State) (x : List ℕ) {t : ℕ} (ht : t < st.k) :
    st.lag x (st.k - t) = st.a x t := by
  unfold State.lag State.weight
  rw [if_pos (by omega)]
  simp only [show st.k - (st.k - t) = t by omega, ht, if_true]

theorem State.lag_pos (st : State) (x : List ℕ) {d : ℕ} (hd : 0 < d) (hk : d ≤ st.k) :
    st.lag x d = st.a x (st.k - d) := by
  have := st.lag_sub x (t := st.k - d) (by omega)
  rwa [show st.k - (st.k - d) = d by omega] at this

theorem State.lag_of_lt (st : State) (x : List ℕ) {d : ℕ} (hd : st.k < d) : st.lag x d = 0 := by
  unfold State.lag; rw [if_neg (by omega)]

/-- The loop invariant: `E` is, on the fields that exist, the inverse of the last `P` rows and
columns of the lower triangular matrix of weights of the first `i` fields `S 0, …, S (i - 1)`. -/
structure Inv (S : ℕ → State) (x : List ℕ) (i P : ℕ) (E : ℕ → ℕ → ℝ) : Prop where
  tri : ∀ r c, r < P → c < P → r < c → E r c = 0
  missR : ∀ r c, r < P → c < P → i + r < P → E r c = 0
  missC : ∀ r c, r < P → c < P → i + c < P → E r c = 0
  degR : ∀ r c, r < P → c < P → P ≤ i + r → ¬ 0 < (S (i + r - P)).s x → E r c = 0
  inv : ∀ r c, r < P → c < P → P ≤ i + r →
    ∑ t ∈ range (r + 1), (S (i + r - P)).lag x (r - t) * E t c
      = if r = c ∧ 0 < (S (i + r - P)).s x then 1 else 0

theorem Inv.zero (S : ℕ → State) (x : List ℕ) (P : ℕ) : Inv S x 0 P (fun _ _ => 0) where
  tri := fun _ _ _ _ _ => rfl
  missR := fun _ _ _ _ _ => rfl
  missC := fun _ _ _ _ _ => rfl
  degR := fun _ _ _ _ _ _ => rfl
  inv := fun r c hr _ h => by omega

theorem Inv.cut {S : ℕ → State} {x : List ℕ} {i P : ℕ} {E : ℕ → ℕ → ℝ} (h : Inv S x i P E) {k : ℕ}
    (hk : k ≤ P) : Inv S x i k (fun r c => E (P - k + r) (P - k + c)) where
  tri := fun r c hr hc hrc => h.tri _ _ (by omega) (by omega) (by omega)
  missR := fun r c hr hc hm => h.missR _ _ (by omega) (by omega) (by omega)
  missC := fun r c hr hc hm => h.missC _ _ (by omega) (by omega) (by omega)
  degR := fun r c hr hc hm hs => h.degR _ _ (by omega) (by omega) (by omega) (by
    rwa [show i + (P - k + r) - P = i + r - k by omega])
  inv := fun r c hr hc hm => by
    have := h.inv (P - k + r) (P - k + c) (by omega) (by omega) (by omega)
    rw [show i + (P - k + r) - P = i + r - k by omega, show P - k + r + 1 = P - k + (r + 1) by omega,
      Finset.sum_range_add] at this
    rw [Finset.sum_eq_zero (s := range (P - k))] at this
    · rw [zero_add] at this
      simp only [Nat.add_right_inj, Nat.add_sub_add_left] at this
      exact this
    · intro t ht
      rw [Finset.mem_range] at ht
      rw [h.tri t _ (by omega) (by omega) (by omega), mul_zero]

/-- How a new state arises from the matrix before the cut. -/
structure Solved (x : List ℕ) (P : ℕ) (E : ℕ → ℕ → ℝ) (row : Row) (st : State) : Prop where
  hk : st.k = row.len - 1
  hP : st.k ≤ P
  hm : st.m x = fun r c => E (P - st.k + r) (P - st.k + c)
  ha : ∀ r, st.a x r = ∑ c ∈ range st.k, st.m x r c * row.val x (st.k - c)
  hs : st.s x = Real.sqrt (row.val x 0 - ∑ r ∈ range st.k, st.a x r * st.a x r)

theorem cutAndSolve_ok {shape : List ℕ} {P : ℕ} {E : List ℕ → ℕ → ℕ → ℝ} {row : Row} {st : State}
    (h : cutAndSolve shape P E row = .ok st) (x : List ℕ) :
    Solved x P (E x) row st ∧ st.shape = shape ∧
      (x ∈ ndindex shape →
        0 ≤ row.val x 0 - ∑ r ∈ range st.k, st.a x r * st.a x r) := by
  unfold cutAndSolve at h
  simp only at h
  split_ifs at h with h1 h2
  simp only [Except.ok.injEq] at h
  subst h
  refine ⟨⟨rfl, by simpa using h1, rfl, fun r => rfl, rfl⟩, rfl, ?_⟩
  intro hx
  by_contra hcon
  exact h2 ⟨x, hx, by push Not at hcon; exact hcon⟩

theorem Solved.inv_m {S : ℕ → State} {x : List ℕ} {i P : ℕ} {E : ℕ → ℕ → ℝ} {row : Row} {st : State}
    (h : Solved x P E row st) (hE : Inv S x i P E) : Inv S x i st.k (st.m x) := by
  rw [h.hm]; exact hE.cut h.hP

/-- No weight is put on variates that do not exist. -/
theorem Solved.a_missing {S : ℕ → State} {x : List ℕ} {i P : ℕ} {E : ℕ → ℕ → ℝ} {row : Row}
    {st : State} (h : Solved x P E row st) (hE : Inv S x i P E) {r : ℕ} (hr : r < st.k)
    (hm : i + r < st.k) : st.a x r = 0 := by
  rw [h.ha]
  apply Finset.sum_eq_zero
  intro c hc
  rw [(h.inv_m hE).missR r c hr (Finset.mem_range.1 hc) hm, zero_mul]

theorem Solved.lag_missing {S : ℕ → State} {x : List ℕ} {i P : ℕ} {E : ℕ → ℕ → ℝ} {row : Row}
    {st : State} (h : Solved x P E row st) (hE : Inv S x i P E) {d : ℕ} (hd : i < d) :
    st.lag x d = 0 := by
  by_cases hk : d ≤ st.k
  · rw [st.lag_pos x (by omega) hk]
    exact h.a_missing hE (by omega) (by omega)
  · exact st.lag_of_lt x (by omega)

/-- No weight is put on the variates of degenerate fields. -/
theorem Solved.lag_deg {S : ℕ → State} {x : List ℕ} {i P : ℕ} {E : ℕ → ℕ → ℝ} {row : Row}
    {st : State} (h : Solved x P E row st) (hE : Inv S x i P E) {d : ℕ} (hd : 0 < d) (hi : d ≤ i)
    (hs : ¬ 0 < (S (i - d)).s x) : st.lag x d = 0 := by
  by_cases hk : d ≤ st.k
  · rw [st.lag_pos x hd hk, h.ha]
    apply Finset.sum_eq_zero
    intro c hc
    rw [(h.inv_m hE).degR (st.k - d) c (by omega) (Finset.mem_range.1 hc) (by omega)
      (by rwa [show i + (st.k - d) - st.k = i - d by omega]), zero_mul]
  · exact st.lag_of_lt x (by omega)

/-- Weights times the window of weights of an earlier field give the requested covariance. -/
theorem Solved.reproduce {S : ℕ → State} {x : List ℕ} {i P : ℕ} {E : ℕ → ℕ → ℝ} {row : Row}
    {st : State} (h : Solved x P E row st) (hE : Inv S x i P E) {r : ℕ} (hr : r < st.k)
    (hm : st.k ≤ i + r) :
    ∑ t ∈ range (r + 1), (S (i + r - st.k)).lag x (r - t) * st.a x t
      = if 0 < (S (i + r - st.k)).s x then row.val x (st.k - r) else 0 := by
  have hI := h.inv_m hE
  calc ∑ t ∈ range (r + 1), (S (i + r - st.k)).lag x (r - t) * st.a x t
      = ∑ t ∈ range (r + 1), ∑ c ∈ range st.k,
          (S (i + r - st.k)).lag x (r - t) * st.m x t c * row.val x (st.k - c) := by
        apply Finset.sum_congr rfl; intro t _
        rw [h.ha, Finset.mul_sum]
        apply Finset.sum_congr rfl; intro c _
        ring
    _ = ∑ c ∈ range st.k, (∑ t ∈ range (r + 1), (S (i + r - st.k)).lag x (r - t) * st.m x t c)
          * row.val x (st.k - c) := by
        rw [Finset.sum_comm]
        apply Finset.sum_congr rfl; intro c _
        rw [Finset.sum_mul]
    _ = ∑ c ∈ range st.k, (if r = c ∧ 0 < (S (i + r - st.k)).s x then 1 else 0)
          * row.val x (st.k - c) := by
        apply Finset.sum_congr rfl; intro c hc
        rw [hI.inv r c hr (Finset.mem_range.1 hc) hm]
    _ = _ := by
        rw [Finset.sum_eq_single r]
        · by_cases hs : 0 < (S (i + r - st.k)).s x <;> simp [hs]
        · intro c _ hne
          rw [if_neg (fun hh => hne hh.1.symm), zero_mul]
        · intro hn
          exact absurd (Finset.mem_range.2 hr) hn

/-- The invariant is carried over to the next pass. -/
theorem Solved.extend {S : ℕ → State} {x : List ℕ} {i P : ℕ} {E : ℕ → ℕ → ℝ} {row : Row}
    (h : Solved x P E row (S i)) (hE : Inv S x i P E)
    (hs : 0 < (S i).s x ∨ ((S i).s x = 0 ∧ ∀ r < (S i).k, (S i).a x r = 0)) :
    Inv S x (i + 1) ((S i).k + 1) (Glass.Grf.extend (S i) x) := by
  have hI := h.inv_m hE
  set st := S i with hst
  have hold : ∀ r c, r < st.k → c < st.k → Glass.Grf.extend st x r c = st.m x r c := by
    intro r c hr hc; simp [Glass.Grf.extend, hr, hc]
  have hcol : ∀ r, r < st.k → Glass.Grf.extend st x r st.k = 0 := by
    intro r hr; simp [Glass.Grf.extend, hr]
  have hrow : ∀ c, c < st.k → Glass.Grf.extend st x st.k c =
      -(∑ r ∈ range st.k, st.a x r * st.m x r c) / (if 0 < st.s x then st.s x else 1) := by
    intro c hc; simp [Glass.Grf.extend, hc]
  have hcorner : Glass.Grf.extend st x st.k st.k =
      (if 0 < st.s x then 1 else 0) / (if 0 < st.s x then st.s x else 1) := by
    simp [Glass.Grf.extend]
  constructor
  · intro r c hr hc hrc
    have hr' : r < st.k := by omega
    by_cases hc' : c < st.k
    · rw [hold r c hr' hc']; exact hI.tri r c hr' hc' hrc
    · have : c = st.k := by omega
      rw [this]; exact hcol r hr'
  · intro r c hr hc hm
    have hr' : r < st.k := by omega
    by_cases hc' : c < st.k
    · rw [hold r c hr' hc']; exact hI.missR r c hr' hc' (by omega)
    · have : c = st.k := by omega
      rw [this]; exact hcol r hr'
  · intro r c hr hc hm
    have hc' : c < st.k := by omega
    by_cases hr' : r < st.k
    · rw [hold r c hr' hc']; exact hI.missC r c hr' hc' (by omega)
    · have : r = st.k := by omega
      rw [this, hrow c hc', Finset.sum_eq_zero, neg_zero, zero_div]
      intro t ht
      rw [hI.missC t c (Finset.mem_range.1 ht) hc' (by omega), mul_zero]
  · intro r c hr hc hm hns
    rw [show i + 1 + r - (st.k + 1) = i + r - st.k by omega] at hns
    by_cases hr' : r < st.k
    · by_cases hc' : c < st.k
      · rw [hold r c hr' hc']; exact hI.degR r c hr' hc' (by omega) hns
      · have hck : c = st.k := by omega
        rw [hck]; exact hcol r hr'
    · have hrk : r = st.k := by omega
      rw [hrk, show i + st.k - st.k = i by omega, ← hst] at hns
      have ha := (hs.resolve_left hns).2
      rw [hrk]
      by_cases hc' : c < st.k
      · rw [hrow c hc', Finset.sum_eq_zero, neg_zero, zero_div]
        intro t ht
        rw [ha t (Finset.mem_range.1 ht), zero_mul]
      · have hck : c = st.k := by omega
        rw [hck, hcorner, if_neg hns, zero_div]
  · intro r c hr hc hm
    rw [show i + 1 + r - (st.k + 1) = i + r - st.k by omega]
    by_cases hr' : r < st.k
    · by_cases hc' : c < st.k
      · rw [← hI.inv r c hr' hc' (by omega)]
        apply Finset.sum_congr rfl
        intro t ht
        rw [Finset.mem_range] at ht
        rw [hold t c (by omega) hc']
      · have hck : c = st.k := by omega
        rw [hck, if_neg (by omega)]
        apply Finset.sum_eq_zero
        intro t ht
        rw [Finset.mem_range] at ht
        rw [hcol t (by omega), mul_zero]
    · have hrk : r = st.k := by omega
      rw [hrk, show i + st.k - st.k = i by omega, ← hst, Finset.sum_range_succ, Nat.sub_self,
        st.lag_zero]
      have hsum : ∑ t ∈ range st.k, st.lag x (st.k - t) * Glass.Grf.extend st x t c =
          ∑ t ∈ range st.k, st.a x t * Glass.Grf.extend st x t c := by
        apply Finset.sum_congr rfl; intro t ht
        rw [st.lag_sub x (Finset.mem_range.1 ht)]
      rw [hsum]
      by_cases hc' : c < st.k
      · rw [if_neg (by omega), hrow c hc']
        have h2 : ∑ t ∈ range st.k, st.a x t * Glass.Grf.extend st x t c
            = ∑ t ∈ range st.k, st.a x t * st.m x t c := by
          apply Finset.sum_congr rfl; intro t ht
          rw [hold t c (Finset.mem_range.1 ht) hc']
        rw [h2]
        rcases hs with hs | ⟨hs, ha⟩
        · rw [if_pos hs]; field_simp; ring
        · rw [hs, zero_mul, add_zero]
          apply Finset.sum_eq_zero
          intro t ht
          rw [ha t (Finset.mem_range.1 ht), zero_mul]
      · have hck : c = st.k := by omega
        rw [hck, hcorner, Finset.sum_eq_zero, zero_add]
        · rcases hs with hs | ⟨hs, ha⟩
          · rw [if_pos hs, if_pos hs, if_pos ⟨rfl, hs⟩]; field_simp
          · rw [hs]; simp
        · intro t ht
          rw [hcol t (Finset.mem_range.1 ht), mul_zero]

/-! ## Whole runs -/

/-- A successful run of `n` passes. -/
structure Chain (n : ℕ) (rows : ℕ → Row) (S : ℕ → State) : Prop where
  first : 0 < n → step none (rows 0) = .ok (S 0)
  next : ∀ i, i + 1 < n → step (some (S i)) (rows (i + 1)) = .ok (S (i + 1))

theorem step_none_ok {row : Row} {st : State} (h : step none row = .ok st) :
    row.len ≠ 0 ∧ cutAndSolve row.shape (row.len - 1) (fun _ _ _ => 0) row = .ok st := by
  unfold step at h
  split_ifs at h with h1
  exact ⟨h1, h⟩

theorem step_some_ok {row : Row} {prev st : State} (h : step (some prev) row = .ok st) :
    row.len ≠ 0 ∧ row.shape = prev.shape ∧
      cutAndSolve prev.shape (prev.k + 1) (Glass.Grf.extend prev) row = .ok st := by
  unfold step at h
  split_ifs at h with h1
  simp only at h
  split_ifs at h with h2
  exact ⟨h1, by simpa using h2, h⟩

/-- Degenerate fields must be identically zero. -/
def Regular (st : State) (x : List ℕ) : Prop :=
  0 < st.s x ∨ (st.s x = 0 ∧ ∀ r < st.k, st.a x r = 0)

theorem Chain.invariant {n : ℕ} {rows : ℕ → Row} {S : ℕ → State} (h : Chain n rows S) (x : List ℕ)
    (i : ℕ) (hi : i < n) (hreg : ∀ q < i, Regular (S q) x) :
    ∃ P E, Inv S x i P E ∧ Solved x P E (rows i) (S i) := by
  induction i with
  | zero =>
    obtain ⟨h1, h2⟩ := step_none_ok (h.first hi)
    exact ⟨_, _, Inv.zero S x _, (cutAndSolve_ok h2 x).1⟩
  | succ i ih =>
    obtain ⟨P, E, hE, hS⟩ := ih (by omega) (fun q hq => hreg q (by omega))
    obtain ⟨h1, h2, h3⟩ := step_some_ok (h.next i hi)
    exact ⟨_, _, hS.extend hE (hreg i (by omega)), (cutAndSolve_ok h3 x).1⟩

theorem Chain.shape {n : ℕ} {rows : ℕ → Row} {S : ℕ → State} (h : Chain n rows S) (i : ℕ)
    (hi : i < n) : (S i).shape = (rows 0).shape ∧ (rows i).shape = (rows 0).shape := by
  induction i with
  | zero =>
    obtain ⟨h1, h2⟩ := step_none_ok (h.first hi)
    exact ⟨(cutAndSolve_ok h2 []).2.1, rfl⟩
  | succ i ih =>
    obtain ⟨h1, h2, h3⟩ := step_some_ok (h.next i hi)
    have := ih (by omega)
    exact ⟨(cutAndSolve_ok h3 []).2.1.trans this.1, h2.trans this.1⟩

theorem Chain.var_nonneg {n : ℕ} {rows : ℕ → Row} {S : ℕ → State} (h : Chain n rows S)
    (x : List ℕ) (hx : x ∈ ndindex (rows 0).shape) (i : ℕ) (hi : i < n) :
    0 ≤ (rows i).val x 0 - ∑ r ∈ range (S i).k, (S i).a x r * (S i).a x r := by
  rcases i with _ | i
  · obtain ⟨h1, h2⟩ := step_none_ok (h.first hi)
    exact (cutAndSolve_ok h2 x).2.2 hx
  · obtain ⟨h1, h2, h3⟩ := step_some_ok (h.next i hi)
    apply (cutAndSolve_ok h3 x).2.2
    rw [(h.shape i (by omega)).1]; exact hx

/-- The covariance of a new field `j + d` and an earlier field `j`, in lag form. -/
theorem Solved.cov_lag {S : ℕ → State} {x : List ℕ} {P : ℕ} {E : ℕ → ℕ → ℝ} {row : Row}
    {st : State} {j d : ℕ} (hS : Solved x P E row st) (hE : Inv S x (j + d) P E) (hd : 0 < d) :
    ∑ e ∈ range (j + 1), st.lag x (e + d) * (S j).lag x e =
      if d ≤ st.k ∧ 0 < (S j).s x then row.val x d else 0 := by
  by_cases hk : d ≤ st.k
  · have hrep := hS.reproduce hE (r := st.k - d) (by omega) (by omega)
    rw [show j + d + (st.k - d) - st.k = j by omega, show st.k - (st.k - d) = d by omega] at hrep
    -- bring the sum to lag form
    have hsum : ∑ t ∈ range (st.k - d + 1), (S j).lag x (st.k - d - t) * st.a x t =
        ∑ e ∈ range (st.k - d + 1), st.lag x (e + d) * (S j).lag x e := by
      rw [← Finset.sum_range_reflect]
      apply Finset.sum_congr rfl
      intro e he
      rw [Finset.mem_range] at he
      rw [show st.k - d + 1 - 1 - e = st.k - d - e by omega, mul_comm,
        show st.k - d - (st.k - d - e) = e by omega]
      congr 1
      rw [st.lag_pos x (by omega) (by omega)]
      congr 1
      omega
    rw [hsum] at hrep
    have hcommon : ∑ e ∈ range (j + 1), st.lag x (e + d) * (S j).lag x e =
        ∑ e ∈ range (st.k - d + 1), st.lag x (e + d) * (S j).lag x e := by
      rcases Nat.le_total (j + 1) (st.k - d + 1) with hle | hle
      · apply Finset.sum_subset (Finset.range_subset_range.2 hle)
        intro e _ he
        rw [Finset.mem_range] at he
        rw [hS.lag_missing hE (by omega), zero_mul]
      · symm
        apply Finset.sum_subset (Finset.range_subset_range.2 hle)
        intro e _ he
        rw [Finset.mem_range] at he
        rw [st.lag_of_lt x (by omega), zero_mul]
    rw [hcommon, hrep]
    simp [hk]
  · rw [if_neg (fun hh => hk hh.1)]
    apply Finset.sum_eq_zero
    intro e _
    rw [st.lag_of_lt x (by omega), zero_mul]

/-- The covariance of fields `j + d` and `j`, in lag form. -/
theorem Chain.cov_lag {n : ℕ} {rows : ℕ → Row} {S : ℕ → State} (h : Chain n rows S) (x : List ℕ)
    (j d : ℕ) (hd : 0 < d) (hi : j + d < n) (hreg : ∀ q < j + d, Regular (S q) x) :
    ∑ e ∈ range (j + 1), (S (j + d)).lag x (e + d) * (S j).lag x e =
      if d ≤ (S (j + d)).k ∧ 0 < (S j).s x then (rows (j + d)).val x d else 0 := by
  obtain ⟨P, E, hE, hS⟩ := h.invariant x (j + d) hi hreg
  exact hS.cov_lag hE hd

/-- The variance of field `i`, in lag form. -/
theorem Chain.var_lag {n : ℕ} {rows : ℕ → Row} {S : ℕ → State} (h : Chain n rows S) (x : List ℕ)
    (hx : x ∈ ndindex (rows 0).shape) (i : ℕ) (hi : i < n) (hreg : ∀ q < i, Regular (S q) x) :
    ∑ e ∈ range (i + 1), (S i).lag x e * (S i).lag x e = (rows i).val x 0 := by
  obtain ⟨P, E, hE, hS⟩ := h.invariant x i hi hreg
  have hv := h.var_nonneg x hx i hi
  set st := S i with hst
  have hall : ∑ e ∈ range (i + 1), st.lag x e * st.lag x e =
      ∑ e ∈ range (st.k + 1), st.lag x e * st.lag x e := by
    rcases Nat.le_total (i + 1) (st.k + 1) with hle | hle
    · apply Finset.sum_subset (Finset.range_subset_range.2 hle)
      intro e _ he
      rw [Finset.mem_range] at he
      rw [hS.lag_missing hE (by omega), zero_mul]
    · symm
      apply Finset.sum_subset (Finset.range_subset_range.2 hle)
      intro e _ he
      rw [Finset.mem_range] at he
      rw [st.lag_of_lt x (by omega), zero_mul]
  rw [hall, Finset.sum_range_succ', st.lag_zero]
  have hsum : ∑ e ∈ range st.k, st.lag x (e + 1) * st.lag x (e + 1) =
      ∑ r ∈ range st.k, st.a x r * st.a x r := by
    rw [← Finset.sum_range_reflect (fun r => st.a x r * st.a x r)]
    apply Finset.sum_congr rfl
    intro e he
    rw [Finset.mem_range] at he
    rw [st.lag_pos x (by omega) (by omega), show st.k - (e + 1) = st.k - 1 - e by omega]
  rw [hsum, hS.hs, Real.mul_self_sqrt hv]
  ring

/-! ## Connection with the generator -/

theorem iterate_chain (prev : Option State) (rows : List Row) (tail : Option Err)
    (L : List State) (err : Option Err) (h : iterate prev rows tail = (L, err)) :
    L.length ≤ rows.length ∧
    (∀ i (hi : i < L.length) (hr : i < rows.length),
      step (if i = 0 then prev else L[i - 1]?) rows[i] = .ok L[i]) ∧
    (L.length = rows.length → err = tail) ∧
    (∀ (hl : L.length < rows.length), ∃ e, err = some e ∧
      step (if L.length = 0 then prev else L[L.length - 1]?) rows[L.length] = .error e) := by
  induction rows generalizing prev L err with
  | nil =>
    simp only [iterate, Prod.mk.injEq] at h
    obtain ⟨rfl, rfl⟩ := h
    simp
  | cons row rows ih =>
    unfold iterate at h
    cases hs : step prev row with
    | error e =>
      rw [hs] at h
      simp only [Prod.mk.injEq] at h
      obtain ⟨rfl, rfl⟩ := h
      refine ⟨by simp, by simp, by simp, ?_⟩
      intro _
      exact ⟨e, rfl, by simpa using hs⟩
    | ok st =>
      rw [hs] at h
      simp only [Prod.mk.injEq] at h
      obtain ⟨rfl, rfl⟩ := h
      obtain ⟨h1, h2, h3, h4⟩ := ih (some st) _ _ rfl
      refine ⟨by simpa using h1, ?_, ?_, ?_⟩
      · intro i hi hr
        rcases i with _ | i
        · simpa using hs
        · have := h2 i (by simpa using hi) (by simpa using hr)
          simp only [List.getElem_cons_succ, Nat.add_eq_zero_iff, one_ne_zero, and_false, if_false,
            Nat.add_sub_cancel]
          rw [← this]
          congr 1
          rcases i with _ | i
          · simp
          · simp
      · intro hl
        exact h3 (by simpa using hl)
      · intro hl
        obtain ⟨e, he, hstep⟩ := h4 (by simpa using hl)
        refine ⟨e, he, ?_⟩
        simp only [List.length_cons, List.getElem_cons_succ, Nat.add_eq_zero_iff, one_ne_zero,
          and_false, if_false, Nat.add_sub_cancel]
        rw [← hstep]
        congr 1
        rcases hL : (iterate (some st) rows tail).1 with _ | ⟨a, b⟩
        · simp
        · simp

instance : Inhabited State := ⟨⟨[], 0, fun _ _ _ => 0, fun _ _ => 0, fun _ => 0⟩⟩
instance : Inhabited Row := ⟨⟨[], 0, fun _ _ => 0⟩⟩
instance : Inhabited Weight := ⟨⟨0, fun _ _ => 0⟩⟩

theorem iterate_to_chain (rows : List Row) (tail : Option Err) :
    Chain (iterate none rows tail).1.length (fun i => rows[i]!)
      (fun i => (iterate none rows tail).1[i]!) := by
  obtain ⟨h1, h2, -, -⟩ := iterate_chain none rows tail _ _ rfl
  constructor
  · intro h
    have := h2 0 h (by omega)
    rw [getElem!_pos rows 0 (by omega), getElem!_pos _ 0 h]
    simpa using this
  · intro i hi
    have := h2 (i + 1) hi (by omega)
    rw [getElem!_pos rows (i + 1) (by omega), getElem!_pos _ (i + 1) hi,
      getElem!_pos _ i (by omega)]
    rw [if_neg (by omega), Nat.add_sub_cancel, List.getElem?_eq_getElem (by omega)] at this
    exact this

end Glass.Grf
