import Verif.Algorithm.NearcorrProps

/-!
# Properties C107 and C108: nearest matrices

`cov_clip` returns the nearest positive semi-definite matrix, `nearcorr` the nearest correlation
matrix, both in the Frobenius norm and up to the tolerances.
-/

namespace Glass.Algorithm

open Glass Matrix NdArray

/-- The inner product of matrices that belongs to the Frobenius norm. -/
def ip {n : ℕ} (a b : Matrix (Fin n) (Fin n) ℝ) : ℝ := ∑ i, ∑ j, a i j * b i j

section ip
variable {n : ℕ} (a b c : Matrix (Fin n) (Fin n) ℝ)

theorem frob_sq : frob a ^ 2 = ip a a := by
  have h : 0 ≤ ∑ i, ∑ j, a i j ^ 2 :=
    Finset.sum_nonneg fun i _ => Finset.sum_nonneg fun j _ => sq_nonneg _
  have h2 : frob a ^ 2 = ∑ i, ∑ j, a i j ^ 2 := Real.sq_sqrt h
  rw [h2]
  unfold ip
  simp only [sq]

theorem frob_nonneg : 0 ≤ frob a := Real.sqrt_nonneg _

theorem ip_comm : ip a b = ip b a := by
  unfold ip
  exact Finset.sum_congr rfl fun i _ => Finset.sum_congr rfl fun j _ => mul_comm _ _

theorem ip_sub_right : ip a (b - c) = ip a b - ip a c := by
  simp only [ip, Matrix.sub_apply, mul_sub, Finset.sum_sub_distrib]

theorem ip_sub_left : ip (a - b) c = ip a c - ip b c := by
  simp only [ip, Matrix.sub_apply, sub_mul, Finset.sum_sub_distrib]

/-- Cauchy-Schwarz. -/
theorem ip_le : ip a b ≤ frob a * frob b := by
  have h : ip a b = ∑ p : Fin n × Fin n, a p.1 p.2 * b p.1 p.2 := by
    rw [Fintype.sum_prod_type]; rfl
  have ha : ∑ i, ∑ j, a i j ^ 2 = ∑ p : Fin n × Fin n, a p.1 p.2 ^ 2 := by
    rw [Fintype.sum_prod_type]
  have hb : ∑ i, ∑ j, b i j ^ 2 = ∑ p : Fin n × Fin n, b p.1 p.2 ^ 2 := by
    rw [Fintype.sum_prod_type]
  unfold frob
  rw [h, ha, hb]
  exact Real.sum_mul_le_sqrt_mul_sqrt _ _ _

/-- The law of cosines. -/
theorem frob_sub_sq (y : Matrix (Fin n) (Fin n) ℝ) :
    frob (c - a) ^ 2 = frob (y - a) ^ 2 + frob (y - c) ^ 2 - 2 * ip (a - y) (c - y) := by
  simp only [frob_sq, ip_sub_right, ip_sub_left, ip_comm c a, ip_comm y a, ip_comm y c]
  ring

theorem ip_spec_left (w : Fin n → ℝ) (v : Matrix (Fin n) (Fin n) ℝ) :
    ip (spec w v) b = ∑ k, w k * quad b (fun i => v i k) := by
  unfold ip spec quad
  simp only [Finset.sum_mul, Finset.mul_sum]
  rw [Finset.sum_congr rfl fun i _ => Finset.sum_comm, Finset.sum_comm]
  refine Finset.sum_congr rfl fun k _ => Finset.sum_congr rfl fun i _ =>
    Finset.sum_congr rfl fun j _ => ?_
  ring

end ip

theorem trace_spec {n : ℕ} {w : Fin n → ℝ} {v : Matrix (Fin n) (Fin n) ℝ}
    (ho : ∀ i j, ∑ k, v i k * v j k = if i = j then 1 else 0) :
    ∑ i, spec w v i i = ∑ k, w k := by
  unfold spec
  rw [Finset.sum_comm]
  refine Finset.sum_congr rfl fun k _ => ?_
  rw [← Finset.mul_sum]
  have := orth_cols ho k k
  simp only [if_true] at this
  rw [this, mul_one]

theorem ip_spec_spec {n : ℕ} {w w' : Fin n → ℝ} {v : Matrix (Fin n) (Fin n) ℝ}
    (ho : ∀ i j, ∑ k, v i k * v j k = if i = j then 1 else 0) :
    ip (spec w v) (spec w' v) = ∑ k, w k * w' k := by
  rw [ip_spec_left]
  exact Finset.sum_congr rfl fun k _ => by rw [quad_col ho]

/-- What clipping does, in terms of the inner product: the correction `x - r` is positive
semi-definite, almost orthogonal to the result, and bounded by its trace.  Only the lower triangle
of the input matters. -/
theorem clip_geometry_lower {n : ℕ} {eigh : Eigh n} (hl : EighLaw eigh) (eps : ℝ)
    (r0 r x : Matrix (Fin n) (Fin n) ℝ) (hs : symLower r0 = r) (rtol : Option ℝ)
    (hr : 0 ≤ rtol.getD (n * eps)) (h : covClip eigh eps r0 rtol = .ok (some x)) :
    (∀ i j, x i j = x j i) ∧ (∀ c, PSD c → 0 ≤ ip (x - r) c) ∧
    ip (x - r) x ≤ rtol.getD (n * eps) * frob x * ∑ i, (x - r) i i ∧
    frob (x - r) ≤ ∑ i, (x - r) i i ∧ PSD x := by
  have h' := h
  unfold covClip at h'
  dsimp only at h'
  split_ifs at h' with hne hneg
  · simp at h'
  rw [max_self] at hneg
  push Not at hneg
  rw [covClip_eq eigh eps r0 rtol hne hneg] at h
  simp only [Except.ok.injEq, Option.some.injEq] at h
  obtain ⟨w, hw⟩ : ∃ w, w = (eigh r0).1 := ⟨_, rfl⟩
  obtain ⟨v, hv⟩ : ∃ v, v = (eigh r0).2 := ⟨_, rfl⟩
  obtain ⟨t, ht⟩ : ∃ t, t = rtol.getD (n * eps) * Finset.univ.sup' hne (eigh r0).1 := ⟨_, rfl⟩
  rw [← hw, ← hv] at h
  have ho : ∀ i j, ∑ k, v i k * v j k = if i = j then 1 else 0 := by rw [hv]; exact hl.orth r0
  have er : r = spec w v := by
    funext i j
    have := (hl.decomp r0 i j).symm
    rw [hs] at this
    rw [hw, hv]
    exact this
  obtain ⟨w', hw'⟩ : ∃ w' : Fin n → ℝ, w' = fun i => max (w i) t := ⟨_, rfl⟩
  have ex : x = spec w' v := by rw [← h, hw', ht, hw]
  have hpos : ∀ i, 0 ≤ w' i := by intro i; rw [hw', hw, ht]; exact hneg i
  have hge : ∀ i, w i ≤ w' i := by intro i; rw [hw']; exact le_max_left _ _
  have ed : x - r = spec (fun k => w' k - w k) v := by
    rw [ex, er]
    funext i j
    simp only [Matrix.sub_apply, spec, sub_mul, Finset.sum_sub_distrib]
  have htr : ∑ i, (x - r) i i = ∑ k, (w' k - w k) := by rw [ed]; exact trace_spec ho
  have hdn : ∀ k, 0 ≤ w' k - w k := fun k => sub_nonneg.2 (hge k)
  have htr0 : 0 ≤ ∑ k, (w' k - w k) := Finset.sum_nonneg fun k _ => hdn k
  -- the largest eigenvalue is bounded by the norm
  have hmax : Finset.univ.sup' hne (eigh r0).1 ≤ frob x := by
    apply Finset.sup'_le
    intro k _
    have h1 : w' k ^ 2 ≤ frob x ^ 2 := by
      rw [frob_sq, ex, ip_spec_spec ho]
      simp only [← sq]
      exact Finset.single_le_sum (f := fun k => w' k ^ 2) (fun i _ => sq_nonneg _) (Finset.mem_univ k)
    have h2 : w' k ≤ frob x := by
      exact (pow_le_pow_iff_left₀ (hpos k) (frob_nonneg x) two_ne_zero).1 h1
    rw [← hw]
    exact (hge k).trans h2
  refine ⟨?_, ?_, ?_, ?_, ?_⟩
  · intro i j; rw [ex]; exact spec_symm w' v i j
  · intro c hc
    rw [ed, ip_spec_left]
    exact Finset.sum_nonneg fun k _ => mul_nonneg (hdn k) (hc _)
  · rw [htr]
    have e : ip (x - r) x = t * ∑ k, (w' k - w k) := by
      rw [ed]
      conv_lhs => rw [ex]
      rw [ip_spec_spec ho, Finset.mul_sum]
      refine Finset.sum_congr rfl fun k _ => ?_
      rcases le_total (w k) t with h1 | h1
      · have : w' k = t := by rw [hw']; exact max_eq_right h1
        rw [this]; ring
      · have : w' k = w k := by rw [hw']; exact max_eq_left h1
        rw [this]; ring
    rw [e]
    refine mul_le_mul_of_nonneg_right ?_ htr0
    rw [ht]
    exact mul_le_mul_of_nonneg_left hmax hr
  · rw [htr]
    refine (pow_le_pow_iff_left₀ (frob_nonneg _) htr0 two_ne_zero).1 ?_
    rw [frob_sq, ed, ip_spec_spec ho]
    simp only [← sq]
    exact Finset.sum_sq_le_sq_sum_of_nonneg fun k _ => hdn k
  · intro u
    rw [ex, quad_spec]
    exact Finset.sum_nonneg fun k _ => mul_nonneg (hpos k) (sq_nonneg _)

theorem clip_geometry {n : ℕ} {eigh : Eigh n} (hl : EighLaw eigh) (eps : ℝ)
    (r x : Matrix (Fin n) (Fin n) ℝ) (hs : ∀ i j, r i j = r j i) (rtol : Option ℝ)
    (hr : 0 ≤ rtol.getD (n * eps)) (h : covClip eigh eps r rtol = .ok (some x)) :
    (∀ i j, x i j = x j i) ∧ (∀ c, PSD c → 0 ≤ ip (x - r) c) ∧
    ip (x - r) x ≤ rtol.getD (n * eps) * frob x * ∑ i, (x - r) i i ∧
    frob (x - r) ≤ ∑ i, (x - r) i i ∧ PSD x :=
  clip_geometry_lower hl eps r r x (symLower_of_symm hs) rtol hr h

/-- **C107**: no positive semi-definite matrix `c` is nearer to the input than the result of
`cov_clip`, up to the relative tolerance; and those that are nearly as near are near the
result. -/
theorem clip_nearest {n : ℕ} {eigh : Eigh n} (hl : EighLaw eigh) (eps : ℝ)
    (a x : Matrix (Fin n) (Fin n) ℝ) (hs : ∀ i j, a i j = a j i) (rtol : Option ℝ)
    (hr : 0 ≤ rtol.getD (n * eps)) (h : covClip eigh eps a rtol = .ok (some x))
    (c : Matrix (Fin n) (Fin n) ℝ) (hc : PSD c) :
    frob (x - a) ^ 2 + frob (x - c) ^ 2 ≤ frob (c - a) ^ 2 +
      2 * (rtol.getD (n * eps) * frob x * ∑ i, (x - a) i i) := by
  obtain ⟨-, h1, h2, -⟩ := clip_geometry hl eps a x hs rtol hr h
  rw [frob_sub_sq a c x]
  have h3 := h1 c hc
  have h4 : ip (a - x) (c - x) = -ip (x - a) c + ip (x - a) x := by
    simp only [ip_sub_left, ip_sub_right]; ring
  rw [h4]
  linarith

/-- With tolerance zero the result is the nearest positive semi-definite matrix, and the only
one. -/
theorem clip_nearest_exact {n : ℕ} {eigh : Eigh n} (hl : EighLaw eigh) (eps : ℝ)
    (a x : Matrix (Fin n) (Fin n) ℝ) (hs : ∀ i j, a i j = a j i)
    (h : covClip eigh eps a (some 0) = .ok (some x)) :
    PSD x ∧ ∀ c, PSD c → frob (x - a) ≤ frob (c - a) ∧ (frob (c - a) ≤ frob (x - a) → c = x) := by
  refine ⟨(clip_geometry hl eps a x hs (some 0) (by simp) h).2.2.2.2, fun c hc => ?_⟩
  have h1 := clip_nearest hl eps a x hs (some 0) (by simp) h c hc
  simp only [Option.getD_some, zero_mul, mul_zero, add_zero] at h1
  constructor
  · exact (pow_le_pow_iff_left₀ (frob_nonneg _) (frob_nonneg _) two_ne_zero).1
      (by nlinarith [sq_nonneg (frob (x - c))])
  · intro h2
    have h3 := pow_le_pow_left₀ (frob_nonneg _) h2 2
    have h4 : frob (x - c) ^ 2 = 0 := le_antisymm (by linarith) (sq_nonneg _)
    rw [frob_sq] at h4
    funext i j
    unfold ip at h4
    have h5 := (Finset.sum_eq_zero_iff_of_nonneg (fun i _ => Finset.sum_nonneg fun j _ =>
      mul_self_nonneg _)).1 h4 i (Finset.mem_univ i)
    have h6 := (Finset.sum_eq_zero_iff_of_nonneg (fun j _ => mul_self_nonneg _)).1 h5 j
      (Finset.mem_univ j)
    have h7 := mul_self_eq_zero.1 h6
    rw [Matrix.sub_apply] at h7
    linarith

/-! ## The loop of `nearcorr` -/

/-- What holds of a matrix and its Dykstra correction throughout the loop: off the diagonal the
matrix is the input plus the correction. -/
structure Dykstra {n : ℕ} (a y ds : Matrix (Fin n) (Fin n) ℝ) : Prop where
  symm : ∀ i j, (y - ds) i j = (y - ds) j i
  off : ∀ i j, i ≠ j → y i j = a i j + ds i j
  good : Good (y - ds)

theorem loop_dykstra {n : ℕ} {eigh : Eigh n} (hl : EighLaw eigh) (eps : ℝ) (h0 : 0 ≤ eps)
    (h1 : n * eps ≤ 1) (tol : ℝ) (K : ℕ) (a : ℕ → Matrix (Fin n) (Fin n) ℝ) :
    ∀ (k : ℕ) (y ds y' : NdArray (NanMatrix n)), y.shape = [K] →
      broadcastShapes y.shape ds.shape = some [K] →
      (∀ i < K, ∃ Y D, y.get [i] = some Y ∧ ds.get (broadcastIndex ds.shape [i]) = some D ∧
        Dykstra (a i) Y D) →
      nearcorrLoop eigh eps tol k y ds = .ok (y', false) →
        y'.shape = [K] ∧ ∀ i < K, ∃ Y D X, Dykstra (a i) Y D ∧
          covClip eigh eps (Y - D) none = .ok (some X) ∧ y'.get [i] = some (setDiag X) ∧
          frob (setDiag X - X) ≤ tol * frob (setDiag X) := by
  intro k
  induction k with
  | zero =>
    intro y ds y' hy hb hg h
    rw [nearcorrLoop] at h
    simp at h
  | succ k ih =>
    intro y ds y' hy hb hg h
    rw [nearcorrLoop] at h
    have hr : NdArray.map₂ nanSub y ds = .ok ⟨[K], fun i =>
        nanSub (y.get (broadcastIndex y.shape i)) (ds.get (broadcastIndex ds.shape i))⟩ := by
      unfold NdArray.map₂
      rw [hb]
    rw [hr] at h
    simp only [NdArray.map, NdArray.map₂, broadcastShapes_self] at h
    rw [hy] at hb h
    have hv : ∀ i < K, ∃ Y D X, nanSub (y.get (broadcastIndex [K] [i]))
        (ds.get (broadcastIndex ds.shape [i])) = some (Y - D) ∧ Dykstra (a i) Y D ∧
        nanClip eigh eps (some (Y - D)) = some X ∧ covClip eigh eps (Y - D) none = .ok (some X) ∧
        Dykstra (a i) (setDiag X) (X - (Y - D)) := by
      intro i hi
      obtain ⟨Y, D, hY, hD, hdyk⟩ := hg i hi
      obtain ⟨X, hX, -, hsym, hgood⟩ := step_good hl eps h0 h1 (Y - D) hdyk.good
      have hclip : covClip eigh eps (Y - D) none = .ok (some X) := by
        have hX' : (covClip eigh eps (Y - D) none).toOption.getD none = some X := hX
        rcases hc : covClip eigh eps (Y - D) none with e | o
        · rw [hc] at hX'; simp [Except.toOption] at hX'
        · rw [hc] at hX'
          have : o = some X := hX'
          rw [this]
      refine ⟨Y, D, X, ?_, hdyk, hX, hclip, ⟨?_, ?_, hgood⟩⟩
      · rw [broadcastIndex_self K i hi, hY, hD]; rfl
      · intro p q
        have := hdyk.symm p q
        simp only [Matrix.sub_apply, setDiag, Matrix.of_apply] at this ⊢
        rw [hsym p q, this]
        by_cases hpq : p = q
        · rw [if_pos hpq, if_pos hpq.symm]
        · rw [if_neg hpq, if_neg (Ne.symm hpq)]
      · intro p q hpq
        have := hdyk.off p q hpq
        simp only [Matrix.sub_apply, setDiag, Matrix.of_apply, if_neg hpq]
        linarith
    simp only [bind, Except.bind] at h
    split_ifs at h with hc
    · simp only [Except.ok.injEq, Prod.mk.injEq, and_true] at h
      subst h
      refine ⟨rfl, fun i hi => ?_⟩
      obtain ⟨Y, D, X, hR, hdyk, hX, hclip, -⟩ := hv i hi
      refine ⟨Y, D, X, hdyk, hclip, ?_, ?_⟩
      · dsimp only
        rw [hR, hX, unitDiag_some]
      · rw [NdArray.ravel, List.all_map, List.all_eq_true] at hc
        have hmem : [i] ∈ NdArray.indices [K] := by
          simp [NdArray.indices, hi]
        have := hc [i] hmem
        simp only [Function.comp_apply, id_eq] at this
        rw [broadcastIndex_self K i hi] at this
        rw [hR, hX, unitDiag_some] at this
        simpa [converged] using this
    · refine ih _ _ y' ?_ ?_ ?_ h
      · rfl
      · exact broadcastShapes_self [K]
      · intro i hi
        obtain ⟨Y, D, X, hR, hdyk, hX, hclip, hnew⟩ := hv i hi
        refine ⟨setDiag X, X - (Y - D), ?_, ?_, hnew⟩
        · dsimp only
          rw [hR, hX, unitDiag_some]
        · dsimp only
          simp only [broadcastIndex_self K i hi] at hR ⊢
          rw [hR, hX]
          rfl

/-- A correlation matrix: positive semi-definite with unit diagonal. -/
structure IsCorr {n : ℕ} (c : Matrix (Fin n) (Fin n) ℝ) : Prop where
  psd : PSD c
  diag : ∀ i, c i i = 1

theorem frob_triangle {n : ℕ} (x y : Matrix (Fin n) (Fin n) ℝ) :
    frob x ≤ frob y + frob (y - x) := by
  refine (pow_le_pow_iff_left₀ (frob_nonneg x)
    (add_nonneg (frob_nonneg y) (frob_nonneg (y - x))) two_ne_zero).1 ?_
  have h1 : frob x ^ 2 = frob y ^ 2 + frob (y - x) ^ 2 - 2 * ip y (y - x) := by
    simp only [frob_sq, ip_sub_right, ip_sub_left, ip_comm x y]
    ring
  have h2 : ip y (y - x) = - ip y (x - y) := by
    simp only [ip_sub_right]; ring
  have h3 := ip_le y (x - y)
  have h4 : frob (x - y) = frob (y - x) := by
    unfold frob
    congr 1
    refine Finset.sum_congr rfl fun i _ => Finset.sum_congr rfl fun j _ => ?_
    rw [Matrix.sub_apply, Matrix.sub_apply]
    ring
  rw [h4] at h3
  nlinarith

/-- A matrix that vanishes on the diagonal has the same inner product with matrices that agree
off the diagonal. -/
theorem ip_congr_off {n : ℕ} {a b c : Matrix (Fin n) (Fin n) ℝ} (hc : ∀ i, c i i = 0)
    (h : ∀ i j, i ≠ j → a i j = b i j) : ip a c = ip b c := by
  unfold ip
  refine Finset.sum_congr rfl fun i _ => Finset.sum_congr rfl fun j _ => ?_
  by_cases hij : i = j
  · rw [hij, hc, mul_zero, mul_zero]
  · rw [h i j hij]

theorem frob_setDiag_le {n : ℕ} (y a : Matrix (Fin n) (Fin n) ℝ) (hy : ∀ i, y i i = 1) :
    frob (y - setDiag a) ≤ frob (y - a) := by
  unfold frob
  refine Real.sqrt_le_sqrt (Finset.sum_le_sum fun i _ => Finset.sum_le_sum fun j _ => ?_)
  simp only [Matrix.sub_apply, setDiag, Matrix.of_apply]
  by_cases hij : i = j
  · subst hij
    rw [if_pos rfl, hy, sub_self, zero_pow two_ne_zero]
    exact sq_nonneg _
  · rw [if_neg hij]

/-- The estimate behind C108, for one matrix. -/
theorem dykstra_nearest {n : ℕ} {eigh : Eigh n} (hl : EighLaw eigh) (eps : ℝ) (h0 : 0 ≤ eps)
    {a Y D X : Matrix (Fin n) (Fin n) ℝ} (hd : Dykstra a Y D)
    (hclip : covClip eigh eps (Y - D) none = .ok (some X)) (tol : ℝ) (htol : 0 ≤ tol)
    (hconv : frob (setDiag X - X) ≤ tol * frob (setDiag X))
    (c : Matrix (Fin n) (Fin n) ℝ) (hc : IsCorr c) (g : ℝ)
    (hg : (tol + n * eps * (1 + tol)) * frob (setDiag X) ≤ g) (hg1 : g < 1) :
    frob (setDiag X - a) ^ 2 + frob (setDiag X - c) ^ 2 ≤ frob (c - a) ^ 2 +
      2 * (g / (1 - g)) * (frob (setDiag X) * frob (setDiag X - a)) := by
  have hr : (0 : ℝ) ≤ (none : Option ℝ).getD (n * eps) :=
    mul_nonneg (Nat.cast_nonneg n) h0
  obtain ⟨-, h1, h2, h3, -⟩ := clip_geometry hl eps (Y - D) X hd.symm none hr hclip
  obtain ⟨y, hy⟩ : ∃ y, y = setDiag X := ⟨_, rfl⟩
  obtain ⟨e, he⟩ : ∃ e, e = X - (Y - D) := ⟨_, rfl⟩
  obtain ⟨t, ht⟩ : ∃ t, t = ∑ i, e i i := ⟨_, rfl⟩
  rw [← hy] at hconv hg ⊢
  rw [← he] at h1 h2 h3
  rw [← ht] at h2 h3
  have hr' : 0 ≤ (n : ℝ) * eps := hr
  have h2' : ip e X ≤ n * eps * frob X * t := h2
  have hy1 : ∀ i, y i i = 1 := by intro i; rw [hy]; simp [setDiag]
  have hoff : ∀ i j, i ≠ j → (y - a) i j = e i j := by
    intro i j hij
    have := hd.off i j hij
    rw [hy, he]
    simp only [Matrix.sub_apply, setDiag, Matrix.of_apply, if_neg hij]
    linarith
  have ht0 : 0 ≤ t := (frob_nonneg e).trans h3
  have hy0 := frob_nonneg y
  have hX : frob X ≤ (1 + tol) * frob y := by
    have := frob_triangle X y
    linarith
  have hey : ip e y ≤ t * g := by
    have e1 : ip e y = ip e X + ip e (y - X) := by rw [ip_sub_right]; ring
    have e2 : ip e (y - X) ≤ t * (tol * frob y) :=
      (ip_le e (y - X)).trans (mul_le_mul h3 hconv (frob_nonneg _) ht0)
    have e3 : n * eps * frob X * t ≤ n * eps * ((1 + tol) * frob y) * t :=
      mul_le_mul_of_nonneg_right (mul_le_mul_of_nonneg_left hX hr') ht0
    have e4 := mul_le_mul_of_nonneg_left hg ht0
    rw [e1]
    linarith
  -- the bound on the trace
  have htr : ip e y = t + ip (y - setDiag a) y := by
    rw [ht]
    unfold ip
    rw [← Finset.sum_add_distrib]
    refine Finset.sum_congr rfl fun i _ => ?_
    have : e i i = ∑ j, if i = j then e i j else 0 := by
      rw [Finset.sum_ite_eq]; simp
    rw [this, ← Finset.sum_add_distrib]
    refine Finset.sum_congr rfl fun j _ => ?_
    by_cases hij : i = j
    · subst hij
      simp [setDiag, hy1]
    · have := hoff i j hij
      simp only [Matrix.sub_apply, setDiag, Matrix.of_apply, if_neg hij] at this ⊢
      rw [this]; ring
  have htb : t * (1 - g) ≤ frob y * frob (y - a) := by
    have e1 : - ip (y - setDiag a) y = ip (y - setDiag a) (0 - y) := by
      rw [ip_sub_right]
      have : ip (y - setDiag a) 0 = 0 := by simp [ip]
      rw [this]; ring
    have e2 := ip_le (y - setDiag a) (0 - y)
    have e3 : frob (0 - y) = frob y := by
      unfold frob
      simp
    rw [e3] at e2
    have e4 := mul_le_mul_of_nonneg_right (frob_setDiag_le y a hy1) hy0
    linarith
  have hg0 : 0 ≤ g := le_trans (mul_nonneg (add_nonneg htol (mul_nonneg hr' (by linarith))) hy0) hg
  have hmain : ip (a - y) (c - y) ≤ t * g := by
    have e1 : ip (y - a) (c - y) = ip e (c - y) := by
      refine ip_congr_off (fun i => ?_) hoff
      rw [Matrix.sub_apply, hc.diag, hy1, sub_self]
    have e2 : ip (a - y) (c - y) = - ip (y - a) (c - y) := by
      simp only [ip_sub_left]; ring
    have e3 := h1 c hc.psd
    rw [e2, e1, ip_sub_right]
    linarith
  have hfin : t * g ≤ g / (1 - g) * (frob y * frob (y - a)) := by
    have hpos : 0 < 1 - g := by linarith
    rw [div_mul_eq_mul_div, le_div_iff₀ hpos]
    calc t * g * (1 - g) = g * (t * (1 - g)) := by ring
      _ ≤ g * (frob y * frob (y - a)) := mul_le_mul_of_nonneg_left htb hg0
  rw [frob_sub_sq a c y]
  linarith

/-- **C108**: when `nearcorr` converges (no warning), no correlation matrix `c` is nearer to the
input than the result, up to a margin given by the tolerance and the norms of the result and of the
change; and those that are nearly as near are near the result.  For symmetric matrices, or stacks of
them with one leading axis, with a non-negative value of their quadratic form. -/
theorem nearcorr_nearest_partial {n : ℕ} {eigh : Eigh n} (hl : EighLaw eigh) (eps : ℝ)
    (h0 : 0 ≤ eps) (h1 : n * eps ≤ 1) (a : NdArray (Matrix (Fin n) (Fin n) ℝ))
    (hd : a.shape.length ≤ 1) (hs : ∀ idx ∈ indices a.shape, ∀ i j, a.get idx i j = a.get idx j i)
    (hg : ∀ idx ∈ indices a.shape, Good (a.get idx)) (tol : Option ℝ)
    (htol : 0 ≤ tol.getD (n * eps)) (niter : ℕ) (y : NdArray (NanMatrix n))
    (h : nearcorr eigh eps a tol niter = .ok (y, false)) :
    ∀ idx ∈ indices a.shape, ∃ Y, y.get idx = some Y ∧ ∀ c, IsCorr c → ∀ g,
      (tol.getD (n * eps) + n * eps * (1 + tol.getD (n * eps))) * frob Y ≤ g → g < 1 →
      frob (Y - a.get idx) ^ 2 + frob (Y - c) ^ 2 ≤ frob (c - a.get idx) ^ 2 +
        2 * (g / (1 - g)) * (frob Y * frob (Y - a.get idx)) := by
  unfold nearcorr at h
  dsimp only at h
  split_ifs at h with hn
  have hre : NdArray.reshape (a.map some) [NdArray.size a.shape] =
      .ok ⟨[a.shape.prod], fun i => some (a.get (unflatIndex a.shape
        (flatIndex [a.shape.prod] i)))⟩ := by
    unfold NdArray.reshape
    rw [if_pos (by simp [NdArray.size, NdArray.map])]
    rfl
  rw [hre] at h
  simp only [bind, Except.bind] at h
  rcases hloop : nearcorrLoop eigh eps (tol.getD (n * eps)) niter
    ⟨[a.shape.prod], fun i => some (a.get (unflatIndex a.shape
        (flatIndex [a.shape.prod] i)))⟩ (a.map fun _ => some 0) with e | ⟨y', warn⟩
  · rw [hloop] at h; cases h
  rw [hloop] at h
  dsimp only at h
  rcases hre2 : NdArray.reshape y' a.shape with e | y2
  · rw [hre2] at h; cases h
  rw [hre2] at h
  simp only [Except.ok.injEq, Prod.mk.injEq] at h
  obtain ⟨rfl, rfl⟩ := h
  obtain ⟨hsh, hval⟩ := loop_dykstra hl eps h0 h1 (tol.getD (n * eps)) a.shape.prod
    (fun i => a.get (unflatIndex a.shape i)) niter _ _ y' rfl (broadcast_dim a.shape hd) (by
      intro i hi
      obtain ⟨idx, hidx, rfl⟩ := exists_index a.shape hd i hi
      obtain ⟨-, -, h3, -, -, -, h7⟩ := flat_facts a.shape hd idx hidx
      refine ⟨a.get idx, 0, ?_, rfl, ?_⟩
      · dsimp only
        rw [h7, h3]
      · rw [h3]
        refine ⟨?_, ?_, ?_⟩
        · rw [sub_zero]; exact hs idx hidx
        · intro i j _; simp
        · rw [sub_zero]; exact hg idx hidx) hloop
  intro idx hidx
  obtain ⟨h2, h3, h4, -, -, h6, h7⟩ := flat_facts a.shape hd idx hidx
  obtain ⟨Y, D, X, hdyk, hclip, hY, hconv⟩ := hval (pos idx) h2
  rw [h4] at hdyk
  refine ⟨setDiag X, ?_, fun c hc g hg hg1 =>
    dykstra_nearest hl eps h0 hdyk hclip _ htol hconv c hc g hg hg1⟩
  unfold NdArray.reshape at hre2
  rw [if_pos (by simp [NdArray.size, hsh])] at hre2
  simp only [Except.ok.injEq] at hre2
  rw [← hre2]
  dsimp only
  rw [hsh, h3, h6]
  exact hY

/-! ## Examples -/

/-- The clipped matrix is determined by orthogonality. -/
theorem clip_unique {n : ℕ} {eigh : Eigh n} (hl : EighLaw eigh)
    (r0 r x z : Matrix (Fin n) (Fin n) ℝ) (hs : symLower r0 = r)
    (h : covClip eigh 0 r0 none = .ok (some x)) (hz : PSD z)
    (hz1 : ∀ c, PSD c → 0 ≤ ip (z - r) c) (hz2 : ip (z - r) z = 0) : x = z := by
  obtain ⟨-, h1, h2, -, h3⟩ := clip_geometry_lower hl 0 r0 r x hs none (by simp) h
  have h4 := h1 z hz
  have h5 := hz1 x h3
  simp only [Option.getD_none, mul_zero, zero_mul] at h2
  have h6 : ip (x - z) (x - z) = ip (x - r) x - ip (x - r) z - ip (z - r) x + ip (z - r) z := by
    simp only [ip_sub_left, ip_sub_right, ip_comm z x]
    ring
  have h7 : frob (x - z) ^ 2 = 0 := by
    refine le_antisymm ?_ (sq_nonneg _)
    rw [frob_sq, h6]
    linarith
  have h8 : frob (x - z) = 0 := by simpa using h7
  rw [frob_sq] at h7
  unfold ip at h7
  funext i j
  have h9 := (Finset.sum_eq_zero_iff_of_nonneg (fun i _ => Finset.sum_nonneg fun j _ =>
    mul_self_nonneg _)).1 h7 i (Finset.mem_univ i)
  have h10 := (Finset.sum_eq_zero_iff_of_nonneg (fun j _ => mul_self_nonneg _)).1 h9 j
    (Finset.mem_univ j)
  have h11 := mul_self_eq_zero.1 h10
  rw [Matrix.sub_apply] at h11
  linarith

/-- The matrix with rows `1, 2` and `2, 1` is not a correlation matrix; clipping gives `3/2`
everywhere. -/
theorem clip_example {eigh : Eigh 2} (hl : EighLaw eigh) :
    covClip eigh 0 !![1, 2; 2, 1] none = .ok (some !![3 / 2, 3 / 2; 3 / 2, 3 / 2]) := by
  obtain ⟨x, hx, -⟩ := step_good hl 0 le_rfl (by norm_num) !![1, 2; 2, 1]
    (good_of_diag _ 0 (by simp))
  have hclip : covClip eigh 0 !![1, 2; 2, 1] none = .ok (some x) := by
    have hX' : (covClip eigh 0 !![1, 2; 2, 1] none).toOption.getD none = some x := hx
    rcases hc : covClip eigh 0 !![1, 2; 2, 1] none with e | o
    · rw [hc] at hX'; simp [Except.toOption] at hX'
    · rw [hc] at hX'
      have : o = some x := hX'
      rw [this]
  rw [hclip, clip_unique hl _ !![1, 2; 2, 1] x !![3 / 2, 3 / 2; 3 / 2, 3 / 2] ?_ hclip ?_ ?_ ?_]
  · funext i j; fin_cases i <;> fin_cases j <;> simp [symLower]
  · intro u
    simp [quad, Fin.sum_univ_two]
    nlinarith [sq_nonneg (u 0 + u 1)]
  · intro c hc
    have := hc ![1, -1]
    simp [quad, ip, Fin.sum_univ_two] at this ⊢
    linarith
  · simp [ip, Fin.sum_univ_two]
    norm_num

/-- **C108** is **false** for matrices that are not symmetric: the eigenvalue decomposition reads the
lower triangle only, so that the matrix with rows `1, 1` and `0, 1` gives the identity, at distance
1, while the correlation matrix with `1/2` off the diagonal is at distance `sqrt (1/2)`. -/
theorem nearcorr_not_nearest {eigh : Eigh 2} (hl : EighLaw eigh) (k : ℕ) :
    ∃ y, nearcorr eigh 0 ⟨[], fun _ => !![1, 1; 0, 1]⟩ none (k + 1) = .ok (y, false) ∧
      y.get [] = some 1 ∧ ∃ c : Matrix (Fin 2) (Fin 2) ℝ, IsCorr c ∧
        frob (c - !![1, 1; 0, 1]) < frob (1 - !![1, 1; 0, 1]) := by
  have hone : PSD (1 : Matrix (Fin 2) (Fin 2) ℝ) := by
    intro u
    simp [quad, Fin.sum_univ_two, Matrix.one_apply]
    nlinarith [sq_nonneg (u 0), sq_nonneg (u 1)]
  have hclip : nanClip eigh 0 (some !![1, 1; 0, 1]) = some 1 := by
    obtain ⟨x, hx, -⟩ := step_good hl 0 le_rfl (by norm_num) !![1, 1; 0, 1]
      (good_of_diag _ 0 (by simp))
    rw [hx]
    have hX' : (covClip eigh 0 !![1, 1; 0, 1] none).toOption.getD none = some x := hx
    have hc : covClip eigh 0 !![1, 1; 0, 1] none = .ok (some x) := by
      rcases hc : covClip eigh 0 !![1, 1; 0, 1] none with e | o
      · rw [hc] at hX'; simp [Except.toOption] at hX'
      · rw [hc] at hX'
        have : o = some x := hX'
        rw [this]
    rw [clip_unique hl _ 1 x 1 ?_ hc hone ?_ ?_]
    · funext i j; fin_cases i <;> fin_cases j <;> simp [symLower]
    · intro c _; rw [sub_self]; simp [ip]
    · rw [sub_self]; simp [ip]
  have hset : setDiag (1 : Matrix (Fin 2) (Fin 2) ℝ) = 1 := by
    funext i j
    fin_cases i <;> fin_cases j <;> simp [setDiag, Matrix.one_apply]
  have hval : nanSub (some !![1, 1; 0, 1]) (some (0 : Matrix (Fin 2) (Fin 2) ℝ)) =
      some !![1, 1; 0, 1] := by
    unfold nanSub
    dsimp only
    rw [sub_zero]
  have hsh : broadcastShapes [1] [] = some [1] := rfl
  have hconv : converged ((2 : ℕ) * 0) (some (1 : Matrix (Fin 2) (Fin 2) ℝ)) (some 1) = true := by
    simp [converged, frob]
  unfold nearcorr
  dsimp only
  rw [if_neg (by norm_num)]
  have hre : NdArray.reshape (NdArray.map some (⟨[], fun _ => !![1, 1; 0, 1]⟩ :
      NdArray (Matrix (Fin 2) (Fin 2) ℝ))) [NdArray.size []] =
      .ok ⟨[1], fun _ => some !![1, 1; 0, 1]⟩ := by
    unfold NdArray.reshape
    rw [if_pos (by simp [NdArray.size, NdArray.map])]
    rfl
  rw [hre]
  simp only [bind, Except.bind]
  rw [nearcorrLoop]
  simp only [NdArray.map₂, hsh, broadcastShapes_self, NdArray.map, bind, Except.bind, hval, hclip,
    unitDiag_some, hset, Option.getD_none, hconv]
  rw [if_pos (by simp [NdArray.ravel, NdArray.indices])]
  refine ⟨_, rfl, rfl, !![1, 1 / 2; 1 / 2, 1], ⟨?_, ?_⟩, ?_⟩
  · intro u
    simp [quad, Fin.sum_univ_two]
    nlinarith [sq_nonneg (u 0 + u 1), sq_nonneg (u 0), sq_nonneg (u 1)]
  · intro i; fin_cases i <;> rfl
  · unfold frob
    refine Real.sqrt_lt_sqrt (by positivity) ?_
    simp [Fin.sum_univ_two, Matrix.one_apply]
    norm_num

/-- C107 at work: `3/2` everywhere is the nearest positive semi-definite matrix. -/
example {eigh : Eigh 2} (hl : EighLaw eigh) (c : Matrix (Fin 2) (Fin 2) ℝ) (hc : PSD c) :
    frob (!![3 / 2, 3 / 2; 3 / 2, 3 / 2] - !![1, 2; 2, 1]) ^ 2 ≤ frob (c - !![1, 2; 2, 1]) ^ 2 := by
  have h := clip_nearest hl 0 _ _ (by intro i j; fin_cases i <;> fin_cases j <;> rfl) none
    (by simp) (clip_example hl) c hc
  simp only [Option.getD_none, mul_zero, zero_mul, add_zero] at h
  linarith [sq_nonneg (frob (!![3 / 2, 3 / 2; 3 / 2, 3 / 2] - c))]

/-- C108 at work: with tolerance `3/10` the same matrix converges in one iteration, and the
tolerance is small enough for the estimate. -/
example {eigh : Eigh 2} (hl : EighLaw eigh) (k : ℕ) :
    ∃ y, nearcorr eigh 0 ⟨[], fun _ => !![1, 2; 2, 1]⟩ (some (3 / 10)) (k + 1) = .ok (y, false) ∧
      y.get [] = some !![1, 3 / 2; 3 / 2, 1] ∧
      (3 / 10 + 2 * 0 * (1 + 3 / 10)) * frob !![1, 3 / 2; 3 / 2, 1] < 1 := by
  have hset : setDiag !![3 / 2, 3 / 2; 3 / 2, 3 / 2] = !![(1 : ℝ), 3 / 2; 3 / 2, 1] := by
    funext i j
    fin_cases i <;> fin_cases j <;> simp [setDiag]
  have hf : frob !![(1 : ℝ), 3 / 2; 3 / 2, 1] = Real.sqrt (13 / 2) := by
    unfold frob
    congr 1
    simp [Fin.sum_univ_two]
    norm_num
  have hf2 : frob (!![(1 : ℝ), 3 / 2; 3 / 2, 1] - !![3 / 2, 3 / 2; 3 / 2, 3 / 2]) =
      Real.sqrt (1 / 2) := by
    unfold frob
    congr 1
    simp [Fin.sum_univ_two]
    norm_num
  have hclip : nanClip eigh 0 (some !![1, 2; 2, 1]) = some !![3 / 2, 3 / 2; 3 / 2, 3 / 2] := by
    change (covClip eigh 0 _ none).toOption.getD none = _
    rw [clip_example hl]
    rfl
  have hval : nanSub (some !![1, 2; 2, 1]) (some (0 : Matrix (Fin 2) (Fin 2) ℝ)) =
      some !![1, 2; 2, 1] := by
    unfold nanSub
    dsimp only
    rw [sub_zero]
  have hsh : broadcastShapes [1] [] = some [1] := rfl
  have hconv : converged (3 / 10) (some !![1, 3 / 2; 3 / 2, 1])
      (some !![3 / 2, 3 / 2; 3 / 2, 3 / 2]) = true := by
    simp only [converged, hf, hf2, decide_eq_true_eq]
    rw [Real.sqrt_le_left (by positivity), mul_pow, Real.sq_sqrt (by norm_num)]
    norm_num
  unfold nearcorr
  dsimp only
  rw [if_neg (by norm_num)]
  have hre : NdArray.reshape (NdArray.map some (⟨[], fun _ => !![1, 2; 2, 1]⟩ :
      NdArray (Matrix (Fin 2) (Fin 2) ℝ))) [NdArray.size []] =
      .ok ⟨[1], fun _ => some !![1, 2; 2, 1]⟩ := by
    unfold NdArray.reshape
    rw [if_pos (by simp [NdArray.size, NdArray.map])]
    rfl
  rw [hre]
  simp only [bind, Except.bind]
  rw [nearcorrLoop]
  simp only [NdArray.map₂, hsh, broadcastShapes_self, NdArray.map, bind, Except.bind, hval, hclip,
    unitDiag_some, hset, Option.getD_some, hconv]
  rw [if_pos (by simp [NdArray.ravel, NdArray.indices])]
  refine ⟨_, rfl, rfl, ?_⟩
  rw [hf, mul_zero, zero_mul, add_zero]
  have : Real.sqrt (13 / 2) < 10 / 3 := by
    rw [Real.sqrt_lt' (by norm_num)]
    norm_num
  linarith

end Glass.Algorithm
