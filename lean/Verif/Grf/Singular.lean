import Verif.Grf.IternormProps

/-! # `iternorm` with vanishing standard deviations (C117)

What the scaling vectors of an arbitrary run of `iternorm` mean, without any condition on the
standard deviations. -/

namespace Glass.Grf

open Finset Glass.Spectra

/-! ## The invariant of all runs -/

/-- The loop invariant without conditions: a row of `E` inverts the weights of a field with positive
standard deviation; for other fields it is the negative of the combination of the rows before. -/
structure AnyInv (S : ℕ → State) (x : List ℕ) (i P : ℕ) (E : ℕ → ℕ → ℝ) : Prop where
  tri : ∀ r c, r < P → c < P → r < c → E r c = 0
  missR : ∀ r c, r < P → c < P → i + r < P → E r c = 0
  missC : ∀ r c, r < P → c < P → i + c < P → E r c = 0
  inv : ∀ r c, r < P → c < P → P ≤ i + r →
    ∑ t ∈ range (r + 1), (S (i + r - P)).lag x (r - t) * E t c
      = if 0 < (S (i + r - P)).s x then (if r = c then 1 else 0) else -E r c

theorem AnyInv.zero (S : ℕ → State) (x : List ℕ) (P : ℕ) : AnyInv S x 0 P (fun _ _ => 0) where
  tri := fun _ _ _ _ _ => rfl
  missR := fun _ _ _ _ _ => rfl
  missC := fun _ _ _ _ _ => rfl
  inv := fun r c hr _ h => by omega

theorem AnyInv.cut {S : ℕ → State} {x : List ℕ} {i P : ℕ} {E : ℕ → ℕ → ℝ} (h : AnyInv S x i P E)
    {k : ℕ} (hk : k ≤ P) : AnyInv S x i k (fun r c => E (P - k + r) (P - k + c)) where
  tri := fun r c hr hc hrc => h.tri _ _ (by omega) (by omega) (by omega)
  missR := fun r c hr hc hm => h.missR _ _ (by omega) (by omega) (by omega)
  missC := fun r c hr hc hm => h.missC _ _ (by omega) (by omega) (by omega)
  inv := fun r c hr hc hm => by
    have := h.inv (P - k + r) (P - k + c) (by omega) (by omega) (by omega)
    rw [show i + (P - k + r) - P = i + r - k by omega, show P - k + r + 1 = P - k + (r + 1) by omega,
      Finset.sum_range_add] at this
    rw [Finset.sum_eq_zero (s := range (P - k))] at this
    · rw [zero_add] at this
      simp only [Nat.add_right_inj, Nat.add_sub_add_left] at this
      exact this
    · intro t ht
      rw [Finset.mem_range] at ht
      rw [h.tri t _ (by omega) (by omega) (by omega), mul_zero]

theorem Solved.any_m {S : ℕ → State} {x : List ℕ} {i P : ℕ} {E : ℕ → ℕ → ℝ} {row : Row} {st : State}
    (h : Solved x P E row st) (hE : AnyInv S x i P E) : AnyInv S x i st.k (st.m x) := by
  rw [h.hm]; exact hE.cut h.hP

/-- No weight is put on variates that do not exist. -/
theorem Solved.any_missing {S : ℕ → State} {x : List ℕ} {i P : ℕ} {E : ℕ → ℕ → ℝ} {row : Row}
    {st : State} (h : Solved x P E row st) (hE : AnyInv S x i P E) {d : ℕ} (hd : i < d) :
    st.lag x d = 0 := by
  by_cases hk : d ≤ st.k
  · rw [st.lag_pos x (by omega) hk, h.ha]
    apply Finset.sum_eq_zero
    intro c hc
    rw [(h.any_m hE).missR _ c (by omega) (Finset.mem_range.1 hc) (by omega), zero_mul]
  · exact st.lag_of_lt x (by omega)

theorem Solved.any_reproduce {S : ℕ → State} {x : List ℕ} {i P : ℕ} {E : ℕ → ℕ → ℝ} {row : Row}
    {st : State} (h : Solved x P E row st) (hE : AnyInv S x i P E) {r : ℕ} (hr : r < st.k)
    (hm : st.k ≤ i + r) :
    ∑ t ∈ range (r + 1), (S (i + r - st.k)).lag x (r - t) * st.a x t
      = if 0 < (S (i + r - st.k)).s x then row.val x (st.k - r) else -st.a x r := by
  have hI := h.any_m hE
  calc ∑ t ∈ range (r + 1), (S (i + r - st.k)).lag x (r - t) * st.a x t
      = ∑ t ∈ range (r + 1), ∑ c ∈ range st.k,
          (S (i + r - st.k)).lag x (r - t) * st.m x t c * row.val x (st.k - c) := by
        apply Finset.sum_congr rfl; intro t _
        rw [h.ha, Finset.mul_sum]
        apply Finset.sum_congr rfl; intro c _
        ring
    _ = ∑ c ∈ range st.k, (∑ t ∈ range (r + 1), (S (i + r - st.k)).lag x (r - t) * st.m x t c)
          * row.val x (st.k - c) := by
        rw [Finset.sum_comm]
        apply Finset.sum_congr rfl; intro c _
        rw [Finset.sum_mul]
    _ = ∑ c ∈ range st.k, (if 0 < (S (i + r - st.k)).s x then (if r = c then 1 else 0)
          else -st.m x r c) * row.val x (st.k - c) := by
        apply Finset.sum_congr rfl; intro c hc
        rw [hI.inv r c hr (Finset.mem_range.1 hc) hm]
    _ = _ := by
        split_ifs with hs
        · rw [Finset.sum_eq_single r]
          · simp
          · intro c _ hne
            rw [if_neg (fun hh => hne hh.symm), zero_mul]
          · intro hn
            exact absurd (Finset.mem_range.2 hr) hn
        · rw [h.ha, ← Finset.sum_neg_distrib]
          exact Finset.sum_congr rfl fun c _ => by ring

/-- The invariant is carried over to the next pass. -/
theorem Solved.any_extend {S : ℕ → State} {x : List ℕ} {i P : ℕ} {E : ℕ → ℕ → ℝ} {row : Row}
    (h : Solved x P E row (S i)) (hE : AnyInv S x i P E) :
    AnyInv S x (i + 1) ((S i).k + 1) (Glass.Grf.extend (S i) x) := by
  have hI := h.any_m hE
  have hs0 : 0 ≤ (S i).s x := by rw [h.hs]; exact Real.sqrt_nonneg _
  set st := S i with hst
  have hold : ∀ r c, r < st.k → c < st.k → Glass.Grf.extend st x r c = st.m x r c := by
    intro r c hr hc; simp [Glass.Grf.extend, hr, hc]
  have hcol : ∀ r, r < st.k → Glass.Grf.extend st x r st.k = 0 := by
    intro r hr; simp [Glass.Grf.extend, hr]
  have hrow : ∀ c, c < st.k → Glass.Grf.extend st x st.k c =
      -(∑ r ∈ range st.k, st.a x r * st.m x r c) / (if 0 < st.s x then st.s x else 1) := by
    intro c hc; simp [Glass.Grf.extend, hc]
  have hcorner : Glass.Grf.extend st x st.k st.k =
      (if 0 < st.s x then 1 else 0) / (if 0 < st.s x then st.s x else 1) := by
    simp [Glass.Grf.extend]
  constructor
  · intro r c hr hc hrc
    have hr' : r < st.k := by omega
    by_cases hc' : c < st.k
    · rw [hold r c hr' hc']; exact hI.tri r c hr' hc' hrc
    · have : c = st.k := by omega
      rw [this]; exact hcol r hr'
  · intro r c hr hc hm
    have hr' : r < st.k := by omega
    by_cases hc' : c < st.k
    · rw [hold r c hr' hc']; exact hI.missR r c hr' hc' (by omega)
    · have : c = st.k := by omega
      rw [this]; exact hcol r hr'
  · intro r c hr hc hm
    have hc' : c < st.k := by omega
    by_cases hr' : r < st.k
    · rw [hold r c hr' hc']; exact hI.missC r c hr' hc' (by omega)
    · have : r = st.k := by omega
      rw [this, hrow c hc', Finset.sum_eq_zero, neg_zero, zero_div]
      intro t ht
      rw [hI.missC t c (Finset.mem_range.1 ht) hc' (by omega), mul_zero]
  · intro r c hr hc hm
    rw [show i + 1 + r - (st.k + 1) = i + r - st.k by omega]
    by_cases hr' : r < st.k
    · by_cases hc' : c < st.k
      · rw [hold r c hr' hc', ← hI.inv r c hr' hc' (by omega)]
        apply Finset.sum_congr rfl
        intro t ht
        rw [Finset.mem_range] at ht
        rw [hold t c (by omega) hc']
      · have hck : c = st.k := by omega
        rw [hck, hcol r hr', if_neg (show ¬ r = st.k by omega), neg_zero, ite_self]
        apply Finset.sum_eq_zero
        intro t ht
        rw [Finset.mem_range] at ht
        rw [hcol t (by omega), mul_zero]
    · have hrk : r = st.k := by omega
      rw [hrk, show i + st.k - st.k = i by omega, ← hst, Finset.sum_range_succ, Nat.sub_self,
        st.lag_zero]
      have hsum : ∑ t ∈ range st.k, st.lag x (st.k - t) * Glass.Grf.extend st x t c =
          ∑ t ∈ range st.k, st.a x t * Glass.Grf.extend st x t c := by
        apply Finset.sum_congr rfl; intro t ht
        rw [st.lag_sub x (Finset.mem_range.1 ht)]
      rw [hsum]
      by_cases hc' : c < st.k
      · rw [if_neg (show ¬ st.k = c by omega), hrow c hc']
        have h2 : ∑ t ∈ range st.k, st.a x t * Glass.Grf.extend st x t c
            = ∑ t ∈ range st.k, st.a x t * st.m x t c := by
          apply Finset.sum_congr rfl; intro t ht
          rw [hold t c (Finset.mem_range.1 ht) hc']
        rw [h2]
        by_cases hs : 0 < st.s x
        · rw [if_pos hs, if_pos hs]; field_simp; ring
        · have : st.s x = 0 := le_antisymm (not_lt.1 hs) hs0
          rw [if_neg hs, if_neg hs, this]; ring
      · have hck : c = st.k := by omega
        rw [hck, hcorner, Finset.sum_eq_zero, zero_add, if_pos rfl]
        · by_cases hs : 0 < st.s x
          · rw [if_pos hs, if_pos hs, if_pos hs]; field_simp
          · rw [if_neg hs, if_neg hs, if_neg hs]; simp
        · intro t ht
          rw [hcol t (Finset.mem_range.1 ht), mul_zero]

theorem Chain.any_invariant {n : ℕ} {rows : ℕ → Row} {S : ℕ → State} (h : Chain n rows S)
    (x : List ℕ) (i : ℕ) (hi : i < n) : ∃ P E, AnyInv S x i P E ∧ Solved x P E (rows i) (S i) := by
  induction i with
  | zero =>
    obtain ⟨h1, h2⟩ := step_none_ok (h.first hi)
    exact ⟨_, _, AnyInv.zero S x _, (cutAndSolve_ok h2 x).1⟩
  | succ i ih =>
    obtain ⟨P, E, hE, hS⟩ := ih (by omega)
    obtain ⟨h1, h2, h3⟩ := step_some_ok (h.next i hi)
    exact ⟨_, _, hS.any_extend hE, (cutAndSolve_ok h3 x).1⟩

/-- The covariance of fields `j + d` and `j`, in lag form. -/
theorem Chain.any_cov {n : ℕ} {rows : ℕ → Row} {S : ℕ → State} (h : Chain n rows S) (x : List ℕ)
    (j d : ℕ) (hd : 0 < d) (hi : j + d < n) :
    ∑ e ∈ range (j + 1), (S (j + d)).lag x (e + d) * (S j).lag x e =
      if 0 < (S j).s x then (if d ≤ (S (j + d)).k then (rows (j + d)).val x d else 0)
      else -(S (j + d)).lag x d := by
  obtain ⟨P, E, hE, hS⟩ := h.any_invariant x (j + d) hi
  set st := S (j + d) with hst
  by_cases hk : d ≤ st.k
  · have hrep := hS.any_reproduce hE (r := st.k - d) (by omega) (by omega)
    rw [show j + d + (st.k - d) - st.k = j by omega, show st.k - (st.k - d) = d by omega] at hrep
    have hsum : ∑ t ∈ range (st.k - d + 1), (S j).lag x (st.k - d - t) * st.a x t =
        ∑ e ∈ range (st.k - d + 1), st.lag x (e + d) * (S j).lag x e := by
      rw [← Finset.sum_range_reflect]
      apply Finset.sum_congr rfl
      intro e he
      rw [Finset.mem_range] at he
      rw [show st.k - d + 1 - 1 - e = st.k - d - e by omega, mul_comm,
        show st.k - d - (st.k - d - e) = e by omega]
      congr 1
      rw [st.lag_pos x (by omega) (by omega)]
      congr 1
      omega
    rw [hsum] at hrep
    have hcommon : ∑ e ∈ range (j + 1), st.lag x (e + d) * (S j).lag x e =
        ∑ e ∈ range (st.k - d + 1), st.lag x (e + d) * (S j).lag x e := by
      rcases Nat.le_total (j + 1) (st.k - d + 1) with hle | hle
      · apply Finset.sum_subset (Finset.range_subset_range.2 hle)
        intro e _ he
        rw [Finset.mem_range] at he
        rw [hS.any_missing hE (by omega), zero_mul]
      · symm
        apply Finset.sum_subset (Finset.range_subset_range.2 hle)
        intro e _ he
        rw [Finset.mem_range] at he
        rw [st.lag_of_lt x (by omega), zero_mul]
    rw [hcommon, hrep, if_pos hk, st.lag_pos x hd hk]
  · rw [if_neg hk, st.lag_of_lt x (by omega), neg_zero, ite_self]
    apply Finset.sum_eq_zero
    intro e _
    rw [st.lag_of_lt x (by omega), zero_mul]

/-- The variance of field `i`, in lag form. -/
theorem Chain.any_var {n : ℕ} {rows : ℕ → Row} {S : ℕ → State} (h : Chain n rows S) (x : List ℕ)
    (hx : x ∈ ndindex (rows 0).shape) (i : ℕ) (hi : i < n) :
    ∑ e ∈ range (i + 1), (S i).lag x e * (S i).lag x e = (rows i).val x 0 := by
  obtain ⟨P, E, hE, hS⟩ := h.any_invariant x i hi
  have hv := h.var_nonneg x hx i hi
  set st := S i with hst
  have hall : ∑ e ∈ range (i + 1), st.lag x e * st.lag x e =
      ∑ e ∈ range (st.k + 1), st.lag x e * st.lag x e := by
    rcases Nat.le_total (i + 1) (st.k + 1) with hle | hle
    · apply Finset.sum_subset (Finset.range_subset_range.2 hle)
      intro e _ he
      rw [Finset.mem_range] at he
      rw [hS.any_missing hE (by omega), zero_mul]
    · symm
      apply Finset.sum_subset (Finset.range_subset_range.2 hle)
      intro e _ he
      rw [Finset.mem_range] at he
      rw [st.lag_of_lt x (by omega), zero_mul]
  rw [hall, Finset.sum_range_succ', st.lag_zero]
  have hsum : ∑ e ∈ range st.k, st.lag x (e + 1) * st.lag x (e + 1) =
      ∑ r ∈ range st.k, st.a x r * st.a x r := by
    rw [← Finset.sum_range_reflect (fun r => st.a x r * st.a x r)]
    apply Finset.sum_congr rfl
    intro e he
    rw [Finset.mem_range] at he
    rw [st.lag_pos x (by omega) (by omega), show st.k - (e + 1) = st.k - 1 - e by omega]
  rw [hsum, hS.hs, Real.mul_self_sqrt hv]
  ring

/-! ## C117 -/

/-- **C117**, the part that holds of every run, whether it ends with an exception or not, and whatever
the standard deviations: the fields have the requested variances, and the requested covariances with
all earlier fields of positive standard deviation.  The covariance with a field whose standard
deviation vanishes is the negative of the weight on its variate. -/
theorem iternorm_covariances_partial (rows : List Row) (tail : Option Err) (ws : List Weight)
    (err : Option Err) (h : iternorm rows tail = (ws, err)) (x : List ℕ)
    (hx : x ∈ ndindex rows[0]!.shape) (i : ℕ) (hi : i < ws.length) :
    fieldCov ws x i i = rows[i]!.val x 0 ∧
    ∀ j < i, fieldCov ws x i j =
      if 0 < sdev ws x j then (if i - j ≤ ws[i]!.k then rows[i]!.val x (i - j) else 0)
      else -weightOn ws x i j := by
  obtain ⟨S, hC, hlen, hS⟩ := iternorm_states rows tail ws err h
  refine ⟨?_, fun j hj => ?_⟩
  · have := fieldCov_lag (x := x) (j := i) (d := 0) hS hi
    simp only [Nat.add_zero] at this
    rw [this]
    exact hC.any_var x hx i hi
  · obtain ⟨d, rfl⟩ : ∃ d, i = j + d := ⟨i - j, by omega⟩
    rw [fieldCov_lag hS hi, hC.any_cov x j d (by omega) hi, sdev_eq (hS j (by omega)),
      weightOn_lag (hS _ hi) (by omega), show j + d - j = d by omega, hS _ hi]
    rfl

/-! ### Semi-definite matrices -/

theorem quad_add_single (n i : ℕ) (hi : i < n) (A : ℕ → ℕ → ℝ)
    (hs : ∀ p < n, ∀ q < n, A p q = A q p) (v : ℕ → ℝ) (t : ℝ) :
    quad n A (fun p => v p + if p = i then t else 0) =
      quad n A v + 2 * t * ∑ p ∈ range n, A i p * v p + t ^ 2 * A i i := by
  have h1 : ∀ (f : ℕ → ℝ), ∑ p ∈ range n, (if p = i then t else 0) * f p = t * f i := by
    intro f
    rw [Finset.sum_eq_single i]
    · simp
    · intro p _ hp; simp [hp]
    · intro h; exact absurd (Finset.mem_range.2 hi) h
  have e : quad n A (fun p => v p + if p = i then t else 0) = quad n A v +
      (∑ p ∈ range n, v p * ∑ q ∈ range n, (if q = i then t else 0) * A p q) +
      (∑ p ∈ range n, (if p = i then t else 0) * ∑ q ∈ range n, A p q * v q) +
      ∑ p ∈ range n, (if p = i then t else 0) * ∑ q ∈ range n, (if q = i then t else 0) * A p q := by
    unfold quad
    rw [← Finset.sum_add_distrib, ← Finset.sum_add_distrib, ← Finset.sum_add_distrib]
    apply Finset.sum_congr rfl; intro p _
    rw [Finset.mul_sum, Finset.mul_sum, Finset.mul_sum, ← Finset.sum_add_distrib,
      ← Finset.sum_add_distrib, ← Finset.sum_add_distrib]
    apply Finset.sum_congr rfl; intro q _
    ring
  rw [e, h1, h1]
  simp only [h1]
  have h2 : ∑ p ∈ range n, v p * (t * A p i) = t * ∑ p ∈ range n, A i p * v p := by
    rw [Finset.mul_sum]
    apply Finset.sum_congr rfl; intro p hp
    rw [hs p (Finset.mem_range.1 hp) i hi]; ring
  rw [h2]
  ring

/-- A vector with vanishing quadratic form is in the kernel of a positive semi-definite matrix. -/
theorem PosSemidef.kernel {n : ℕ} {A : ℕ → ℕ → ℝ} (h : PosSemidef n A)
    (hs : ∀ p < n, ∀ q < n, A p q = A q p) (v : ℕ → ℝ) (hv : quad n A v = 0) (i : ℕ) (hi : i < n) :
    ∑ p ∈ range n, A i p * v p = 0 := by
  by_contra hne
  set g := ∑ p ∈ range n, A i p * v p with hg
  have hA : 0 ≤ A i i := by
    have := h fun j => if j = i then 1 else 0
    rwa [quad_single n i hi] at this
  have := h fun p => v p + if p = i then -g / (A i i + 1) else 0
  rw [quad_add_single n i hi A hs, hv, ← hg] at this
  have h1 : 0 < A i i + 1 := by linarith
  have h2 : 0 < g ^ 2 := by positivity
  have h3 : 0 + 2 * (-g / (A i i + 1)) * g + (-g / (A i i + 1)) ^ 2 * A i i =
      -(g ^ 2) * (A i i + 2) / (A i i + 1) ^ 2 := by
    field_simp
    ring
  rw [h3] at this
  have : 0 < g ^ 2 * (A i i + 2) / (A i i + 1) ^ 2 := by positivity
  have h4 : -(g ^ 2) * (A i i + 2) / (A i i + 1) ^ 2 = -(g ^ 2 * (A i i + 2) / (A i i + 1) ^ 2) := by
    ring
  linarith

theorem quad_restrict {n N : ℕ} (hn : n ≤ N) (A : ℕ → ℕ → ℝ) (v : ℕ → ℝ)
    (hv : ∀ i, n ≤ i → v i = 0) : quad N A v = quad n A v := by
  have : v = fun i => if i < n then v i else 0 := by
    funext i
    split_ifs with h
    · rfl
    · exact hv i (by omega)
  conv_lhs => rw [this]
  exact quad_extend n N hn A v

/-- **C117**, the part that holds of accepted semi-definite matrices: if at most one field has
vanishing standard deviation without being identically zero, all fields have the requested
covariances. -/
theorem iternorm_semidefinite_partial (rows : List Row) (shape : List ℕ) (N : ℕ) (b : ℕ → ℕ)
    (A : List ℕ → ℕ → ℕ → ℝ) (hA : IsMatrix rows shape N b A) (ws : List Weight)
    (h : iternorm rows none = (ws, none)) (x : List ℕ) (hx : x ∈ ndindex shape)
    (hpsd : PosSemidef N (A x)) (n : ℕ)
    (hreg : ∀ q < N, q ≠ n → 0 < sdev ws x q ∨ ∀ t ≤ ws[q]!.k, ws[q]!.w x t = 0) (i j : ℕ)
    (hi : i < N) (hj : j < N) : fieldCov ws x i j = A x i j := by
  have hlen : ws.length = N := by rw [iternorm_complete rows ws h, hA.length]
  obtain ⟨S, hC, -, hS⟩ := iternorm_states rows none ws none h
  have hsymm := hA.symm x hx
  have hk : ∀ i < N, ws[i]!.k = b i := by
    intro i hi
    obtain ⟨P, E, -, hsol⟩ := hC.any_invariant x i (by omega)
    have h1 := hsol.hk
    rw [hA.len i hi] at h1
    rw [hS i (by omega)]
    show (S i).k = b i
    omega
  have hx0 : 0 < N → x ∈ ndindex rows[0]!.shape := fun h0 => by rw [hA.shapes 0 h0]; exact hx
  have hvar : ∀ i < N, fieldCov ws x i i = A x i i := by
    intro i hi
    rw [(iternorm_covariances_partial rows none ws none h x (hx0 (by omega)) i (by omega)).1,
      hA.val i hi x hx 0 (by omega) (by omega), Nat.sub_zero]
  have hcov := fun i (hi : i < N) =>
    (iternorm_covariances_partial rows none ws none h x (hx0 (by omega)) i (by omega)).2
  have hzero : ∀ q < N, (∀ t ≤ ws[q]!.k, ws[q]!.w x t = 0) → ∀ p, weightOn ws x q p = 0 := by
    intro q _ h0 p
    unfold weightOn
    split_ifs
    · exact h0 _ (by omega)
    · rfl
  -- covariances with all fields but `n`
  have hmost : ∀ i < N, ∀ j < i, j ≠ n → fieldCov ws x i j = A x i j := by
    intro i hi j hj hjn
    rcases hreg j (by omega) hjn with hs | hs
    · rw [hcov i hi j hj, if_pos hs, hk i hi]
      split_ifs with hb
      · rw [hA.val i hi x hx (i - j) (by omega) hb, show i - (i - j) = j by omega]
      · exact (hA.band x hx i hi j hj (by omega)).symm
    · have h1 : ∀ i, fieldCov ws x i j = 0 := by
        intro i
        unfold fieldCov
        apply Finset.sum_eq_zero
        intro q _
        rw [hzero j (by omega) hs q, mul_zero]
      rw [h1]
      have h2 : A x j j = 0 := by rw [← hvar j (by omega), h1]
      have h3 := hpsd.kernel hsymm (fun p => if p = j then 1 else 0)
        (by rw [quad_single N j (by omega), h2]) i hi
      simpa [Finset.mem_range, show j < N by omega] using h3.symm
  -- covariances with field `n`
  have hlast : ∀ i < N, n < i → fieldCov ws x i n = A x i n := by
    intro i hi hni
    by_cases hs : 0 < sdev ws x n
    · rw [hcov i hi n hni, if_pos hs, hk i hi]
      split_ifs with hb
      · rw [hA.val i hi x hx (i - n) (by omega) hb, show i - (i - n) = n by omega]
      · exact (hA.band x hx i hi n hni (by omega)).symm
    have hsn : weightOn ws x n n = 0 := by
      have h1 : weightOn ws x n n = sdev ws x n := by unfold weightOn sdev; simp
      have h2 : 0 ≤ sdev ws x n := by
        rw [sdev_eq (hS n (by omega))]
        obtain ⟨P, E, -, hsol⟩ := hC.any_invariant x n (by omega)
        rw [hsol.hs]
        exact Real.sqrt_nonneg _
      rw [h1]
      exact le_antisymm (not_lt.1 hs) h2
    -- the weights of field `n` are a combination of those of the fields before
    obtain ⟨y, hy⟩ := solve_upper n (weightOn ws x) (fun q => weightOn ws x n q) (by
      intro q hq
      rcases hreg q (by omega) (by omega) with hs' | hs'
      · left
        have h1 : weightOn ws x q q = sdev ws x q := by unfold weightOn sdev; simp
        rw [h1]
        exact hs'.ne'
      · right
        have h0 : ¬ 0 < sdev ws x q := by
          unfold sdev; rw [hs' _ le_rfl]; exact lt_irrefl _
        have h1 : ∀ i < N, q < i → weightOn ws x i q = 0 := by
          intro i hi hqi
          have h2 := hcov i hi q hqi
          rw [if_neg h0] at h2
          have h3 : fieldCov ws x i q = 0 := by
            unfold fieldCov
            apply Finset.sum_eq_zero
            intro p _
            rw [hzero q (by omega) hs' p, mul_zero]
          linarith
        refine ⟨h1 n (by omega) hq, fun i hi' => ?_⟩
        rcases Nat.lt_trichotomy i q with hlt | heq | hgt
        · exact weightOn_of_lt hlt
        · rw [heq]; exact hzero q (by omega) hs' q
        · exact h1 i (by omega) hgt) (fun i q hq => weightOn_of_lt hq)
    have hcomb : ∀ q, weightOn ws x n q = ∑ p ∈ range n, y p * weightOn ws x p q := by
      intro q
      rcases Nat.lt_trichotomy q n with hlt | heq | hgt
      · exact (hy q hlt).symm
      · rw [heq, hsn, Finset.sum_eq_zero]
        intro p hp
        rw [weightOn_of_lt (Finset.mem_range.1 hp), mul_zero]
      · rw [weightOn_of_lt hgt, Finset.sum_eq_zero]
        intro p hp
        rw [Finset.mem_range] at hp
        rw [weightOn_of_lt (by omega), mul_zero]
    have hf : ∀ i, fieldCov ws x i n = ∑ p ∈ range n, y p * fieldCov ws x i p := by
      intro i
      unfold fieldCov
      simp only [hcomb, Finset.mul_sum]
      rw [Finset.sum_comm]
      apply Finset.sum_congr rfl; intro p _
      apply Finset.sum_congr rfl; intro q _
      ring
    -- a vector in the kernel
    set v : ℕ → ℝ := fun p => if p < n then -y p else if p = n then 1 else 0 with hv
    have hsum : ∀ i, ∑ p ∈ range N, A x i p * v p = A x i n - ∑ p ∈ range n, y p * A x i p := by
      intro i
      have h1 : ∑ p ∈ range N, A x i p * v p = ∑ p ∈ range (n + 1), A x i p * v p := by
        symm
        apply Finset.sum_subset (Finset.range_subset_range.2 (by omega))
        intro p _ hp
        rw [Finset.mem_range] at hp
        simp [hv, show ¬ p < n by omega, show ¬ p = n by omega]
      rw [h1, Finset.sum_range_succ]
      have h2 : ∑ p ∈ range n, A x i p * v p = -∑ p ∈ range n, y p * A x i p := by
        rw [← Finset.sum_neg_distrib]
        apply Finset.sum_congr rfl; intro p hp
        simp only [hv, Finset.mem_range.1 hp, if_true]
        ring
      rw [h2]
      simp [hv]
      ring
    -- on the first fields the matrix is that of the weights
    have hfirst : ∀ p ≤ n, ∀ q < n, fieldCov ws x p q = A x p q := by
      intro p hp q hq
      rcases Nat.lt_trichotomy q p with hlt | heq | hgt
      · exact hmost p (by omega) q hlt (by omega)
      · rw [heq]; exact hvar p (by omega)
      · rw [fieldCov_comm, hmost q (by omega) p hgt (by omega), hsymm q (by omega) p (by omega)]
    have hker : ∀ p ≤ n, ∑ q ∈ range N, A x p q * v q = 0 := by
      intro p hp
      rw [hsum]
      have h1 : fieldCov ws x p n = A x p n := by
        rcases Nat.lt_or_ge p n with hlt | hge
        · rw [fieldCov_comm, hfirst n le_rfl p hlt, hsymm n (by omega) p (by omega)]
        · rw [show p = n by omega]; exact hvar n (by omega)
      rw [← h1, hf p, Finset.sum_congr rfl fun q hq => by
        rw [hfirst p hp q (Finset.mem_range.1 hq)], sub_self]
    have hquad : quad N (A x) v = 0 := by
      unfold quad
      apply Finset.sum_eq_zero
      intro p hp
      have h1 : ∑ q ∈ range N, v p * A x p q * v q = v p * ∑ q ∈ range N, A x p q * v q := by
        rw [Finset.mul_sum]
        exact Finset.sum_congr rfl fun q _ => by ring
      rw [h1]
      rcases Nat.lt_or_ge n p with hlt | hge
      · simp [hv, show ¬ p < n by omega, show ¬ p = n by omega]
      · rw [hker p hge, mul_zero]
    have h1 := hpsd.kernel hsymm v hquad i hi
    rw [hsum] at h1
    rw [hf i, Finset.sum_congr rfl fun p hp => by
      rw [hmost i hi p (by rw [Finset.mem_range] at hp; omega)
        (by rw [Finset.mem_range] at hp; omega)]]
    linarith
  rcases Nat.lt_trichotomy j i with hlt | heq | hgt
  · by_cases hjn : j = n
    · rw [hjn] at hlt ⊢; exact hlast i hi hlt
    · exact hmost i hi j hlt hjn
  · rw [heq]; exact hvar i hi
  · rw [fieldCov_comm, hsymm i hi j hj]
    by_cases hin : i = n
    · rw [hin] at hgt ⊢; exact hlast j hj hgt
    · exact hmost j hj i hgt hin

/-- Concrete case: two fully correlated fields of unit variance, of which the second has vanishing
standard deviation. -/
example : ∃ (rows : List Row) (ws : List Weight), IsMatrix rows [] 2 (fun _ => 1) (fun _ _ _ => 1) ∧
    iternorm rows none = (ws, none) ∧ PosSemidef 2 (fun _ _ => 1) ∧ ¬ 0 < sdev ws [] 1 ∧
    ∀ q < 2, q ≠ 1 → 0 < sdev ws [] q ∨ ∀ t ≤ ws[q]!.k, ws[q]!.w [] t = 0 := by
  set row : Row := ⟨[], 2, fun _ _ => 1⟩ with hrow
  set st0 : State := ⟨[], 1, fun _ _ _ => 0, fun _ _ => 0, fun _ => 1⟩ with hst0
  set st1 : State := ⟨[], 1, fun _ _ _ => 1, fun _ _ => 1, fun _ => 0⟩ with hst1
  have h0 : step none row = .ok st0 := by simp [hrow, hst0, step, cutAndSolve]
  have h1 : step (some st0) row = .ok st1 := by
    simp [hrow, hst0, hst1, step, cutAndSolve, extend]
  refine ⟨[row, row], [st0.weight, st1.weight], ⟨rfl, ?_, ?_, ?_, fun _ _ _ _ _ _ => rfl, ?_⟩,
    by simp [iternorm, iterate, h0, h1], fun v => ?_, by simp [sdev, State.weight, hst1], ?_⟩
  · intro i hi; interval_cases i <;> rfl
  · intro i hi; interval_cases i <;> rfl
  · intro i hi _ _ d _ _; interval_cases i <;> rfl
  · intro _ _ i hi j hj hb
    exact absurd hb (by show ¬ (1 < i - j); omega)
  · have : quad 2 (fun _ _ => 1) v = (v 0 + v 1) ^ 2 := by
      unfold quad
      simp only [Finset.sum_range_succ, Finset.sum_range_zero]
      ring
    rw [this]; positivity
  · intro q hq hq1
    obtain rfl : q = 0 := by omega
    left
    simp [sdev, State.weight, hst0]

/-! ### Refutation -/

/-- Four fields: the second is a copy of the first, of unit variance; the third is the first plus
something independent, of variance two; the fourth has unit variance and is correlated with the
independent part of the third only. -/
noncomputable def copiedField (i j : ℕ) : ℝ :=
  if i = 3 ∧ j = 3 then 1 else if i = 3 ∨ j = 3 then (if i = 2 ∨ j = 2 then 1 / 2 else 0)
  else if i = 2 ∧ j = 2 then 2 else 1

/-- Its rows, with three off-diagonal entries each. -/
noncomputable def copiedRows : List Row :=
  (List.range 4).map fun i => ⟨[], 4, fun _ d => if d ≤ i then copiedField i (i - d) else 0⟩

theorem copiedRows_isMatrix :
    IsMatrix copiedRows [] 4 (fun _ => 3) (fun _ => copiedField) where
  length := by simp [copiedRows]
  shapes := by
    intro i hi
    rw [getElem!_pos _ i (by simpa [copiedRows] using hi)]
    simp [copiedRows]
  len := by
    intro i hi
    rw [getElem!_pos _ i (by simpa [copiedRows] using hi)]
    simp [copiedRows]
  val := by
    intro i hi x _ d hd hd2
    rw [getElem!_pos _ i (by simpa [copiedRows] using hi)]
    simp [copiedRows, hd]
  symm := by
    intro x _ i _ j _
    simp only [copiedField, and_comm, or_comm]
  band := by
    intro x _ i hi j hj hb
    exact absurd hb (by show ¬ (3 < i - j); omega)

theorem copied_semidefinite : PosSemidef 4 copiedField := by
  intro v
  have : quad 4 copiedField v =
      (v 0 + v 1 + v 2) ^ 2 + (v 2 + v 3 / 2) ^ 2 + 3 / 4 * v 3 ^ 2 := by
    unfold quad copiedField
    simp only [Finset.sum_range_succ, Finset.sum_range_zero]
    norm_num
    ring
  rw [this]
  positivity

/-- The scaling vectors of the four fields: the third one has a weight on the variate of the second,
and vanishing standard deviation; the fourth has no weight on the variate of the third. -/
theorem copied_run : ∃ ws, iternorm copiedRows none = (ws, none) ∧ ws.length = 4 ∧
    fieldCov ws [] 3 2 = 0 := by
  set row : ℕ → Row := fun i =>
    ⟨[], 4, fun _ d => if d ≤ i then copiedField i (i - d) else 0⟩ with hrow
  -- the first field
  obtain ⟨s0, h0, ok0, -⟩ := cutAndSolve_cases [] 3 (fun _ _ _ => 0) (row 0) (by simp [hrow])
  have k0 : s0.k = 3 := (h0 []).hk
  have m0 : ∀ r c, s0.m [] r c = 0 := fun r c => by rw [(h0 []).hm]
  have a0 : ∀ r, s0.a [] r = 0 := fun r => by rw [(h0 []).ha]; simp [m0]
  have v0 : s0.s [] = 1 := by rw [(h0 []).hs]; simp [a0, hrow, copiedField]
  have step0 : step none (row 0) = .ok s0 := by
    refine ok0 fun x hx => ?_
    obtain rfl : x = [] := by simpa [ndindex] using hx
    simp [a0, hrow, copiedField]
  have sh0 : s0.shape = [] := (cutAndSolve_ok (step_none_ok step0).2 []).2.1
  -- the second field, a copy
  obtain ⟨s1, h1, ok1, -⟩ := cutAndSolve_cases [] 4 (extend s0) (row 1) (by simp [hrow])
  have k1 : s1.k = 3 := (h1 []).hk
  have m1 : ∀ r c, s1.m [] r c = extend s0 [] (1 + r) (1 + c) := fun r c => by
    rw [(h1 []).hm, k1]
  have a1 : ∀ r < 3, s1.a [] r = if r = 2 then 1 else 0 := fun r hr => by
    rw [(h1 []).ha, k1]
    interval_cases r <;>
      norm_num [Finset.sum_range_succ, m1, extend, k0, m0, a0, v0, hrow, copiedField]
  have v1 : s1.s [] = 0 := by
    rw [(h1 []).hs, k1]
    norm_num [Finset.sum_range_succ, a1, hrow, copiedField]
  have step1 : step (some s0) (row 1) = .ok s1 := by
    unfold step
    rw [if_neg (by simp [hrow])]
    simp only
    rw [if_neg (by simp [hrow, sh0]), sh0, k0]
    refine ok1 fun x hx => ?_
    obtain rfl : x = [] := by simpa [ndindex] using hx
    rw [k1]
    norm_num [Finset.sum_range_succ, a1, hrow, copiedField]
  have sh1 : s1.shape = [] := by
    rw [(cutAndSolve_ok (step_some_ok step1).2.2 []).2.1, sh0]
  -- the third field
  obtain ⟨s2, h2, ok2, -⟩ := cutAndSolve_cases [] 4 (extend s1) (row 2) (by simp [hrow])
  have k2 : s2.k = 3 := (h2 []).hk
  have m2 : ∀ r c, s2.m [] r c = extend s1 [] (1 + r) (1 + c) := fun r c => by
    rw [(h2 []).hm, k2]
  have a2 : ∀ r < 3, s2.a [] r = if r = 0 then 0 else if r = 1 then 1 else -1 := fun r hr => by
    rw [(h2 []).ha, k2]
    interval_cases r <;>
      norm_num [Finset.sum_range_succ, m2, extend, k1, m1, k0, m0, a0, v0, a1, v1, hrow, copiedField]
  have v2 : s2.s [] = 0 := by
    rw [(h2 []).hs, k2]
    norm_num [Finset.sum_range_succ, a2, hrow, copiedField]
  have step2 : step (some s1) (row 2) = .ok s2 := by
    unfold step
    rw [if_neg (by simp [hrow])]
    simp only
    rw [if_neg (by simp [hrow, sh1]), sh1, k1]
    refine ok2 fun x hx => ?_
    obtain rfl : x = [] := by simpa [ndindex] using hx
    rw [k2]
    norm_num [Finset.sum_range_succ, a2, hrow, copiedField]
  have sh2 : s2.shape = [] := by
    rw [(cutAndSolve_ok (step_some_ok step2).2.2 []).2.1, sh1]
  -- the fourth field
  obtain ⟨s3, h3, ok3, -⟩ := cutAndSolve_cases [] 4 (extend s2) (row 3) (by simp [hrow])
  have k3 : s3.k = 3 := (h3 []).hk
  have m3 : ∀ r c, s3.m [] r c = extend s2 [] (1 + r) (1 + c) := fun r c => by
    rw [(h3 []).hm, k3]
  have a3 : ∀ r < 3, s3.a [] r = 0 := fun r hr => by
    rw [(h3 []).ha, k3]
    interval_cases r <;>
      norm_num [Finset.sum_range_succ, m3, extend, k2, m2, k1, m1, k0, m0, a0, v0, a1, v1, a2, v2,
        hrow, copiedField]
  have step3 : step (some s2) (row 3) = .ok s3 := by
    unfold step
    rw [if_neg (by simp [hrow])]
    simp only
    rw [if_neg (by simp [hrow, sh2]), sh2, k2]
    refine ok3 fun x hx => ?_
    obtain rfl : x = [] := by simpa [ndindex] using hx
    rw [k3]
    norm_num [Finset.sum_range_succ, a3, hrow, copiedField]
  have hrows : copiedRows = [row 0, row 1, row 2, row 3] := by
    simp [copiedRows, hrow, List.range_succ]
  refine ⟨[s0.weight, s1.weight, s2.weight, s3.weight], ?_, rfl, ?_⟩
  · rw [hrows]
    simp [iternorm, iterate, step0, step1, step2, step3]
  · unfold fieldCov
    apply Finset.sum_eq_zero
    intro q hq
    have hq4 : q < 4 := by simpa using hq
    have w3 : ∀ q < 3, weightOn [s0.weight, s1.weight, s2.weight, s3.weight] [] 3 q = 0 := by
      intro q hq
      interval_cases q <;> simp [weightOn, State.weight, k3, a3]
    rcases Nat.lt_or_ge q 3 with hlt | hge
    · rw [w3 q hlt, zero_mul]
    · rw [weightOn_of_lt (i := 2) (by omega), mul_zero]

/-- **C117 refuted**: a positive semi-definite matrix is accepted, and the fields do not have the
requested covariance. -/
theorem iternorm_wrong_covariance :
    ¬ ∀ (rows : List Row) (shape : List ℕ) (N : ℕ) (b : ℕ → ℕ) (A : List ℕ → ℕ → ℕ → ℝ)
      (ws : List Weight), (∀ i, b (i + 1) ≤ b i + 1) → IsMatrix rows shape N b A →
      (∀ x ∈ ndindex shape, PosSemidef N (A x)) → iternorm rows none = (ws, none) →
      ∀ x ∈ ndindex shape, ∀ i < N, ∀ j < N, fieldCov ws x i j = A x i j := by
  intro h
  obtain ⟨ws, h1, -, h2⟩ := copied_run
  have := h copiedRows [] 4 (fun _ => 3) (fun _ => copiedField) ws (fun _ => by norm_num)
    copiedRows_isMatrix (fun _ _ => copied_semidefinite) h1 [] (by simp [ndindex]) 3 (by norm_num)
    2 (by norm_num)
  rw [h2] at this
  norm_num [copiedField] at this

end Glass.Grf
