import Mathlib.Tactic.Positivity
import Mathlib.Tactic.IntervalCases
import Verif.Algorithm.ClipProps

/-! # Properties C58, C59, C60: nearest correlation and covariance matrices -/

namespace Glass.Algorithm

open Glass Matrix

/-! ## One iteration -/

/-- The condition under which the projection of `r` exists. -/
def Good {n : ℕ} (r : Matrix (Fin n) (Fin n) ℝ) : Prop :=
  ∃ u : Fin n → ℝ, 0 < ∑ i, u i ^ 2 ∧ 0 ≤ quad (symLower r) u

theorem symLower_add {n : ℕ} (a b : Matrix (Fin n) (Fin n) ℝ) :
    symLower (a + b) = symLower a + symLower b := by
  funext i j
  simp only [symLower, Matrix.add_apply]
  split_ifs <;> rfl

theorem symLower_sub {n : ℕ} (a b : Matrix (Fin n) (Fin n) ℝ) :
    symLower (a - b) = symLower a - symLower b := by
  funext i j
  simp only [symLower, Matrix.sub_apply]
  split_ifs <;> rfl

/-- `(1 - diag) * x + diag`: the entries off the diagonal are kept, those on it are 1. -/
def setDiag {n : ℕ} (x : Matrix (Fin n) (Fin n) ℝ) : Matrix (Fin n) (Fin n) ℝ :=
  Matrix.of fun i j => if i = j then 1 else x i j

theorem unitDiag_some {n : ℕ} (x : Matrix (Fin n) (Fin n) ℝ) :
    unitDiag (some x) = some (setDiag x) := by
  unfold unitDiag setDiag
  dsimp only
  congr 1
  ext i j
  rw [Matrix.of_apply, Matrix.of_apply, Matrix.one_apply]
  split_ifs <;> ring

theorem quad_setDiag {n : ℕ} (x : Matrix (Fin n) (Fin n) ℝ) (u : Fin n → ℝ) :
    quad (setDiag x) u = quad x u + ∑ i, (1 - x i i) * u i ^ 2 := by
  unfold quad setDiag
  simp only [Matrix.of_apply]
  rw [← Finset.sum_add_distrib]
  apply Finset.sum_congr rfl
  intro i _
  have : ∀ j, u i * (if i = j then 1 else x i j) * u j =
      u i * x i j * u j + if i = j then (1 - x i i) * u i ^ 2 else 0 := by
    intro j
    split_ifs with h
    · subst h; ring
    · ring
  simp_rw [this]
  rw [Finset.sum_add_distrib, Finset.sum_ite_eq]
  simp

/-- One iteration: if the projection exists, the result has unit diagonal, the projection is
positive semi-definite, and the projection of the next iteration exists as well. -/
theorem step_good {n : ℕ} {eigh : Eigh n} (hl : EighLaw eigh) (eps : ℝ) (h0 : 0 ≤ eps)
    (h1 : n * eps ≤ 1) (r : Matrix (Fin n) (Fin n) ℝ) (hg : Good r) :
    ∃ x, nanClip eigh eps (some r) = some x ∧ PSD x ∧ (∀ i j, x i j = x j i) ∧
      Good (setDiag x - (x - r)) := by
  obtain ⟨u, hu, hq⟩ := hg
  have hr : (0 : ℝ) ≤ n * eps := by positivity
  have hne : (Finset.univ : Finset (Fin n)).Nonempty := by
    by_contra hc
    rw [Finset.not_nonempty_iff_eq_empty] at hc
    rw [hc] at hu
    simp at hu
  have hM := sup_nonneg hl r hne u hu hq
  have hpos : ∀ i, 0 ≤ max ((eigh r).1 i)
      ((none : Option ℝ).getD (n * eps) * Finset.univ.sup' hne (eigh r).1) :=
    fun i => le_max_of_le_right (mul_nonneg hr hM)
  have hx := covClip_eq eigh eps r none hne hpos
  have hw : ∀ k, (eigh r).1 k ≤ Finset.univ.sup' hne (eigh r).1 :=
    fun k => Finset.le_sup' (eigh r).1 (Finset.mem_univ k)
  obtain ⟨k, -, hk⟩ := Finset.exists_mem_eq_sup' hne (eigh r).1
  simp only [Option.getD_none] at hx hpos
  generalize hMM : Finset.univ.sup' hne (eigh r).1 = M at hx hpos hw hk hM
  refine ⟨_, by rw [nanClip, hx]; rfl, ?_, spec_symm _ _, ?_⟩
  · intro v
    have := le_quad (hl.orth r) 0 hpos v
    simpa using this
  · set d := fun i => max ((eigh r).1 i) (n * eps * M) with hd
    have hdM : ∀ i, d i ≤ M := fun i => max_le (hw i) (by nlinarith)
    have hdk : d k = M := by
      rw [hd]
      dsimp only
      rw [← hk]
      apply max_eq_left
      nlinarith
    refine ⟨fun i => (eigh r).2 i k, ?_, ?_⟩
    · rw [col_norm (hl.orth r)]; norm_num
    · have hs1 : symLower (setDiag (spec d (eigh r).2)) = setDiag (spec d (eigh r).2) := by
        apply symLower_of_symm
        intro i j
        simp only [setDiag, Matrix.of_apply, spec_symm d (eigh r).2 i j, eq_comm]
      have e : symLower r = spec (eigh r).1 (eigh r).2 := by
        funext i j; exact (hl.decomp r i j).symm
      rw [symLower_sub, symLower_sub, hs1, symLower_of_symm (spec_symm d _), quad_sub, quad_sub, e,
        quad_setDiag, quad_col (hl.orth r), quad_col (hl.orth r), hdk, ← hk]
      have hdiag : ∀ i, spec d (eigh r).2 i i ≤ M := by
        intro i
        have := quad_le (hl.orth r) M hdM (Pi.single i 1)
        rwa [quad_single, single_norm, mul_one] at this
      have h2 : ∑ i, (1 - spec d (eigh r).2 i i) * (eigh r).2 i k ^ 2 ≥
          ∑ i, (1 - M) * (eigh r).2 i k ^ 2 :=
        Finset.sum_le_sum fun i _ =>
          mul_le_mul_of_nonneg_right (by linarith [hdiag i]) (sq_nonneg _)
      rw [← Finset.mul_sum, col_norm (hl.orth r)] at h2
      linarith

/-! ## The loop over a stack of `K` matrices -/

open NdArray

theorem broadcastIndex_self (K i : ℕ) (hi : i < K) : broadcastIndex [K] [i] = [i] := by
  simp only [broadcastIndex, List.length_singleton, Nat.sub_self, List.drop_zero,
    List.zipWith_cons_cons, List.zipWith_nil_right]
  split_ifs with h
  · subst h; simp; omega
  · rfl

theorem broadcastShapes_self (s : List ℕ) : broadcastShapes s s = some s := by
  have : ∀ l : List ℕ, broadcastRev l l = some l := by
    intro l
    induction l with
    | nil => rfl
    | cons d l ih => simp [broadcastRev, broadcastDim, ih]
  simp [broadcastShapes, this]

/-- The spread of a matrix off the positive semi-definite ones. -/
theorem frob_bound {n : ℕ} (e : Matrix (Fin n) (Fin n) ℝ) (u : Fin n → ℝ) :
    |quad e u| ≤ frob e * ∑ i, u i ^ 2 := by
  have h1 : quad e u = ∑ p : Fin n × Fin n, e p.1 p.2 * (u p.1 * u p.2) := by
    rw [Fintype.sum_prod_type]
    unfold quad
    apply Finset.sum_congr rfl
    intro i _
    apply Finset.sum_congr rfl
    intro j _
    ring
  have h2 : ∑ i, ∑ j, e i j ^ 2 = ∑ p : Fin n × Fin n, e p.1 p.2 ^ 2 := by
    rw [Fintype.sum_prod_type]
  have h3 : (∑ i, u i ^ 2) ^ 2 = ∑ p : Fin n × Fin n, (u p.1 * u p.2) ^ 2 := by
    rw [Fintype.sum_prod_type, sq, Finset.sum_mul_sum]
    apply Finset.sum_congr rfl
    intro i _
    apply Finset.sum_congr rfl
    intro j _
    ring
  have h4 := Finset.sum_mul_sq_le_sq_mul_sq Finset.univ (fun p : Fin n × Fin n => e p.1 p.2)
    (fun p => u p.1 * u p.2)
  have h5 : 0 ≤ ∑ i, u i ^ 2 := Finset.sum_nonneg fun i _ => sq_nonneg _
  apply abs_le_of_sq_le_sq
  · have h6 : frob e ^ 2 = ∑ i, ∑ j, e i j ^ 2 :=
      Real.sq_sqrt (Finset.sum_nonneg fun i _ => Finset.sum_nonneg fun j _ => sq_nonneg _)
    rw [mul_pow, h6, h1, h2, h3]
    exact h4
  · exact mul_nonneg (Real.sqrt_nonneg _) h5

/-- The loop on a stack of `K` matrices, all of which can be projected at first. -/
theorem loop_spec {n : ℕ} {eigh : Eigh n} (hl : EighLaw eigh) (eps : ℝ) (h0 : 0 ≤ eps)
    (h1 : n * eps ≤ 1) (tol : ℝ) (K : ℕ) :
    ∀ (k : ℕ) (y ds : NdArray (NanMatrix n)), y.shape = [K] →
      broadcastShapes y.shape ds.shape = some [K] →
      (∀ i < K, ∃ Y R, y.get [i] = some Y ∧
        nanSub (y.get [i]) (ds.get (broadcastIndex ds.shape [i])) = some R ∧ Good R) →
      ∃ y' warn, nearcorrLoop eigh eps tol k y ds = .ok (y', warn) ∧ y'.shape = [K] ∧
        ∀ i < K, ∃ Y, y'.get [i] = some Y ∧ (k = 0 → y.get [i] = some Y) ∧
          (0 < k → (∀ j, Y j j = 1) ∧ (∀ j l, Y j l = Y l j) ∧
            (warn = false → ∃ X, PSD X ∧ frob (Y - X) ≤ tol * frob Y)) := by
  intro k
  induction k with
  | zero =>
    intro y ds hy hb hg
    refine ⟨y, true, rfl, hy, fun i hi => ?_⟩
    obtain ⟨Y, -, hY, -⟩ := hg i hi
    exact ⟨Y, hY, fun _ => hY, fun h => absurd h (lt_irrefl 0)⟩
  | succ k ih =>
    intro y ds hy hb hg
    rw [nearcorrLoop]
    have hr : NdArray.map₂ nanSub y ds = .ok ⟨[K], fun i =>
        nanSub (y.get (broadcastIndex y.shape i)) (ds.get (broadcastIndex ds.shape i))⟩ := by
      unfold NdArray.map₂
      rw [hb]
    rw [hr]
    simp only [NdArray.map, NdArray.map₂, broadcastShapes_self]
    rw [hy] at hb ⊢
    -- the values
    have hv : ∀ i < K, ∃ R X, nanSub (y.get (broadcastIndex [K] [i]))
        (ds.get (broadcastIndex ds.shape [i])) = some R ∧ nanClip eigh eps (some R) = some X ∧
        PSD X ∧ (∀ j l, X j l = X l j) ∧ Good (setDiag X - (X - R)) := by
      intro i hi
      obtain ⟨Y, R, hY, hR, hgR⟩ := hg i hi
      obtain ⟨X, hX⟩ := step_good hl eps h0 h1 R hgR
      exact ⟨R, X, by rw [broadcastIndex_self K i hi]; exact hR, hX⟩
    simp only [bind, Except.bind]
    split_ifs with hc
    · refine ⟨_, false, rfl, rfl, fun i hi => ?_⟩
      obtain ⟨R, X, hR, hX, hpsd, hsym, -⟩ := hv i hi
      refine ⟨setDiag X, ?_, fun h => absurd h (by simp), fun _ => ⟨?_, ?_, fun _ => ?_⟩⟩
      · dsimp only
        rw [hR, hX, unitDiag_some]
      · intro j; simp [setDiag]
      · intro j l; simp only [setDiag, Matrix.of_apply, hsym j l, eq_comm]
      · refine ⟨X, hpsd, ?_⟩
        rw [NdArray.ravel, List.all_map, List.all_eq_true] at hc
        have hmem : [i] ∈ NdArray.indices [K] := by
          simp [NdArray.indices, hi]
        have := hc [i] hmem
        simp only [Function.comp_apply, id_eq] at this
        rw [broadcastIndex_self K i hi] at this
        rw [hR, hX, unitDiag_some] at this
        simpa [converged] using this
    · obtain ⟨y', warn, hres, hsh, hval⟩ := ih ⟨[K], fun i => unitDiag (nanClip eigh eps
          (nanSub (y.get (broadcastIndex [K] i)) (ds.get (broadcastIndex ds.shape i))))⟩
        ⟨[K], fun i => nanSub (nanClip eigh eps (nanSub
            (y.get (broadcastIndex [K] (broadcastIndex [K] i)))
            (ds.get (broadcastIndex ds.shape (broadcastIndex [K] i)))))
          (nanSub (y.get (broadcastIndex [K] (broadcastIndex [K] i)))
            (ds.get (broadcastIndex ds.shape (broadcastIndex [K] i))))⟩ rfl
        (broadcastShapes_self [K]) (by
          intro i hi
          obtain ⟨R, X, hR, hX, hpsd, hsym, hgood⟩ := hv i hi
          refine ⟨setDiag X, setDiag X - (X - R), ?_, ?_, hgood⟩
          · dsimp only
            rw [hR, hX, unitDiag_some]
          · dsimp only
            simp only [broadcastIndex_self K i hi] at hR ⊢
            rw [hR, hX, unitDiag_some]
            rfl)
      refine ⟨y', warn, hres, hsh, fun i hi => ?_⟩
      obtain ⟨Y, hY, hk0, hk1⟩ := hval i hi
      refine ⟨Y, hY, fun h => absurd h (by simp), fun _ => ?_⟩
      rcases Nat.eq_zero_or_pos k with hk | hk
      · subst hk
        have := hk0 rfl
        obtain ⟨R, X, hR, hX, hpsd, hsym, -⟩ := hv i hi
        dsimp only at this
        rw [hR, hX, unitDiag_some] at this
        injection this with this
        subst this
        refine ⟨?_, ?_, fun hw => ?_⟩
        · intro j; simp [setDiag]
        · intro j l; simp only [setDiag, Matrix.of_apply, hsym j l, eq_comm]
        · rw [nearcorrLoop] at hres
          injection hres with hres
          injection hres with h2 h3
          rw [hw] at h3
          cases h3
      · exact hk1 hk

/-! ## Shapes with at most one leading axis -/

/-- The index within the flattened stack. -/
def pos : List ℕ → ℕ
  | [i] => i
  | _ => 0

theorem flat_facts (dim : List ℕ) (hd : dim.length ≤ 1) (idx : List ℕ)
    (hi : idx ∈ NdArray.indices dim) :
    pos idx < dim.prod ∧ flatIndex dim idx = pos idx ∧ unflatIndex dim (pos idx) = idx ∧
      broadcastIndex dim [pos idx] = idx ∧ broadcastIndex dim idx = idx ∧
      unflatIndex [dim.prod] (pos idx) = [pos idx] ∧ flatIndex [dim.prod] [pos idx] = pos idx := by
  match dim, hd with
  | [], _ =>
    simp only [NdArray.indices, List.mem_singleton] at hi
    subst hi
    simp [pos, flatIndex, unflatIndex, broadcastIndex]
  | [d], _ =>
    simp only [NdArray.indices, List.mem_flatMap, List.mem_range, List.map_cons, List.map_nil,
      List.mem_singleton] at hi
    obtain ⟨i, hi, rfl⟩ := hi
    have := broadcastIndex_self d i hi
    simp [pos, flatIndex, unflatIndex, this, hi, Nat.mod_eq_of_lt hi]

theorem exists_index (dim : List ℕ) (hd : dim.length ≤ 1) (i : ℕ) (hi : i < dim.prod) :
    ∃ idx ∈ NdArray.indices dim, pos idx = i := by
  match dim, hd with
  | [], _ =>
    simp at hi
    exact ⟨[], by simp [NdArray.indices], by simp [pos, hi]⟩
  | [d], _ =>
    simp at hi
    exact ⟨[i], by simp [NdArray.indices, hi], rfl⟩

theorem broadcast_dim (dim : List ℕ) (hd : dim.length ≤ 1) :
    broadcastShapes [dim.prod] dim = some [dim.prod] := by
  match dim, hd with
  | [], _ => rfl
  | [d], _ => simpa using broadcastShapes_self [d]

/-- The core statement for a stack with at most one leading axis (`C58` and `C59` follow). -/
theorem nearcorr_stack {n : ℕ} {eigh : Eigh n} (hl : EighLaw eigh) (eps : ℝ) (h0 : 0 ≤ eps)
    (h1 : n * eps ≤ 1) (hn : 0 < n) (a : NdArray (Matrix (Fin n) (Fin n) ℝ))
    (hd : a.shape.length ≤ 1) (hg : ∀ idx ∈ indices a.shape, Good (a.get idx))
    (tol : Option ℝ) (niter : ℕ) :
    ∃ y warn, nearcorr eigh eps a tol niter = .ok (y, warn) ∧ y.shape = a.shape ∧
      ∀ idx ∈ indices a.shape, ∃ Y, y.get idx = some Y ∧ (niter = 0 → Y = a.get idx) ∧
        (0 < niter → (∀ j, Y j j = 1) ∧ (∀ j l, Y j l = Y l j) ∧
          (warn = false → ∃ X, PSD X ∧ frob (Y - X) ≤ tol.getD (n * eps) * frob Y)) := by
  unfold nearcorr
  dsimp only
  rw [if_neg hn.ne']
  have hre : NdArray.reshape (a.map some) [NdArray.size a.shape] =
      .ok ⟨[a.shape.prod], fun i => some (a.get (unflatIndex a.shape
        (flatIndex [a.shape.prod] i)))⟩ := by
    unfold NdArray.reshape
    rw [if_pos (by simp [NdArray.size, NdArray.map])]
    rfl
  rw [hre]
  simp only [bind, Except.bind]
  obtain ⟨y', warn, hloop, hsh, hval⟩ := loop_spec hl eps h0 h1 (tol.getD (n * eps)) a.shape.prod
    niter ⟨[a.shape.prod], fun i => some (a.get (unflatIndex a.shape
        (flatIndex [a.shape.prod] i)))⟩ (a.map fun _ => some 0) rfl (broadcast_dim a.shape hd) (by
      intro i hi
      obtain ⟨idx, hidx, rfl⟩ := exists_index a.shape hd i hi
      obtain ⟨-, -, h3, -, -, -, h7⟩ := flat_facts a.shape hd idx hidx
      refine ⟨a.get idx, a.get idx - 0, ?_, ?_, ?_⟩
      · dsimp only
        rw [h7, h3]
      · dsimp only
        rw [h7, h3]
        rfl
      · rw [sub_zero]; exact hg idx hidx)
  rw [hloop]
  dsimp only
  have hre2 : NdArray.reshape y' a.shape = .ok ⟨a.shape, fun i =>
      y'.get (unflatIndex y'.shape (flatIndex a.shape i))⟩ := by
    unfold NdArray.reshape
    rw [if_pos (by simp [NdArray.size, hsh])]
  rw [hre2]
  refine ⟨_, warn, rfl, rfl, fun idx hidx => ?_⟩
  obtain ⟨h2, h3, h4, -, -, h6, h7⟩ := flat_facts a.shape hd idx hidx
  obtain ⟨Y, hY, hk0, hk1⟩ := hval (pos idx) h2
  refine ⟨Y, ?_, fun hz => ?_, hk1⟩
  · dsimp only
    rw [hsh, h3, h6]
    exact hY
  · have := hk0 hz
    dsimp only at this
    rw [h7, h4] at this
    injection this with this
    exact this.symm

/-- A matrix with a non-negative diagonal entry can be projected. -/
theorem good_of_diag {n : ℕ} (r : Matrix (Fin n) (Fin n) ℝ) (i : Fin n) (h : 0 ≤ r i i) :
    Good r :=
  ⟨Pi.single i 1, by rw [single_norm]; norm_num, by rw [quad_single]; simpa [symLower] using h⟩

/-- **C58** (and **C59** for one leading axis): for a matrix, or a stack of matrices with one
leading axis, each with a non-negative value of its quadratic form, `nearcorr` returns an array of the
same shape; after at least one iteration every matrix is symmetric with exact unit diagonal, and on
convergence its quadratic form is not below `-tol * norm`. -/
theorem nearcorr_unit_diagonal_partial {n : ℕ} {eigh : Eigh n} (hl : EighLaw eigh) (eps : ℝ)
    (h0 : 0 ≤ eps) (h1 : n * eps ≤ 1) (hn : 0 < n) (a : NdArray (Matrix (Fin n) (Fin n) ℝ))
    (hd : a.shape.length ≤ 1) (hg : ∀ idx ∈ indices a.shape, Good (a.get idx))
    (tol : Option ℝ) (niter : ℕ) (hi : 0 < niter) :
    ∃ y warn, nearcorr eigh eps a tol niter = .ok (y, warn) ∧ y.shape = a.shape ∧
      ∀ idx ∈ indices a.shape, ∃ Y, y.get idx = some Y ∧ (∀ j, Y j j = 1) ∧
        (∀ j l, Y j l = Y l j) ∧
        (warn = false → ∀ u, -(tol.getD (n * eps) * frob Y) * ∑ i, u i ^ 2 ≤ quad Y u) := by
  obtain ⟨y, warn, h, hs, hv⟩ := nearcorr_stack hl eps h0 h1 hn a hd hg tol niter
  refine ⟨y, warn, h, hs, fun idx hidx => ?_⟩
  obtain ⟨Y, hY, -, hk⟩ := hv idx hidx
  obtain ⟨hdiag, hsym, hconv⟩ := hk hi
  refine ⟨Y, hY, hdiag, hsym, fun hw u => ?_⟩
  obtain ⟨X, hX, hf⟩ := hconv hw
  have h2 := frob_bound (Y - X) u
  rw [quad_sub] at h2
  have h3 := (abs_le.1 h2).1
  have h4 : 0 ≤ ∑ i, u i ^ 2 := Finset.sum_nonneg fun i _ => sq_nonneg _
  have h5 := hX u
  nlinarith [mul_le_mul_of_nonneg_right hf h4]

/-- **C58** is **false** for the matrix `-1`: the result is NaN, for every number of iterations. -/
theorem nearcorr_nan {eigh : Eigh 1} (hl : EighLaw eigh) (eps : ℝ) (heps : 0 < eps)
    (tol : Option ℝ) (niter : ℕ) (hi : 0 < niter) :
    ∃ y, nearcorr eigh eps ⟨[], fun _ => !![-1]⟩ tol niter = .ok (y, true) ∧
      y.get [] = none := by
  have hclip : nanClip eigh eps (some !![-1]) = none := by
    change (covClip eigh eps _ none).toOption.getD none = none
    rw [clip_negative_nan hl eps heps none (by simp)]
    rfl
  have hloop : ∀ (k : ℕ) (y ds : NdArray (NanMatrix 1)), y.shape = [1] → ds.shape = [1] →
      y.get [0] = none → ∃ y', nearcorrLoop eigh eps (tol.getD ((1 : ℕ) * eps)) k y ds =
        .ok (y', true) ∧ y'.shape = [1] ∧ y'.get [0] = none := by
    intro k
    induction k with
    | zero => intro y ds hy _ hv; exact ⟨y, rfl, hy, hv⟩
    | succ k ih =>
      intro y ds hy hds hv
      have hb : broadcastIndex [1] [0] = [0] := broadcastIndex_self 1 0 (by norm_num)
      rw [nearcorrLoop]
      simp only [NdArray.map₂, hy, hds, broadcastShapes_self, NdArray.map, bind, Except.bind]
      have hno : nanSub (y.get [0]) (ds.get [0]) = none := by rw [hv]; rfl
      rw [if_neg]
      · exact ih _ _ rfl rfl (by
          dsimp only
          rw [hb, hno]
          rfl)
      · rw [NdArray.ravel, List.all_map, List.all_eq_true]
        intro hc
        have := hc [0] (by simp [NdArray.indices])
        simp only [Function.comp_apply, id_eq] at this
        rw [hb, hb, hno] at this
        simp [nanClip, unitDiag, converged] at this
  obtain ⟨k, rfl⟩ : ∃ k, niter = k + 1 := ⟨niter - 1, by omega⟩
  have hb : broadcastIndex [1] [0] = [0] := broadcastIndex_self 1 0 (by norm_num)
  have hb2 : broadcastIndex [] [0] = [] := rfl
  have hsh : broadcastShapes [1] [] = some [1] := rfl
  have hval : nanSub (some !![-1]) (some (0 : Matrix (Fin 1) (Fin 1) ℝ)) =
      some !![-1] := by
    unfold nanSub
    dsimp only
    rw [sub_zero]
  unfold nearcorr
  dsimp only
  rw [if_neg (by norm_num)]
  have hre : NdArray.reshape (NdArray.map some (⟨[], fun _ => !![-1]⟩ :
      NdArray (Matrix (Fin 1) (Fin 1) ℝ))) [NdArray.size []] =
      .ok ⟨[1], fun _ => some !![-1]⟩ := by
    unfold NdArray.reshape
    rw [if_pos (by simp [NdArray.size, NdArray.map])]
    rfl
  rw [hre]
  simp only [bind, Except.bind]
  rw [nearcorrLoop]
  simp only [NdArray.map₂, hsh, broadcastShapes_self, NdArray.map, bind, Except.bind, hval, hclip]
  rw [if_neg]
  · obtain ⟨y', h1, h2, h3⟩ := hloop k ⟨[1], fun _ => unitDiag none⟩
      ⟨[1], fun _ => nanSub none (some !![-1])⟩ rfl rfl rfl
    rw [h1]
    dsimp only
    unfold NdArray.reshape
    rw [h2, if_pos (by simp [NdArray.size])]
    exact ⟨_, rfl, h3⟩
  · simp [NdArray.ravel, NdArray.indices, unitDiag, converged]

/-- **C58**, a correlation matrix is returned unchanged, provided that its eigenvalues are not
below `n * eps` times the largest one (so that the clipping does not touch it). -/
theorem nearcorr_fixed {n : ℕ} {eigh : Eigh n} (hl : EighLaw eigh) (eps : ℝ) (h0 : 0 ≤ eps)
    (hn : 0 < n) (a : NdArray (Matrix (Fin n) (Fin n) ℝ)) (hd : a.shape.length ≤ 1)
    (hs : ∀ idx ∈ indices a.shape, (∀ i j, a.get idx i j = a.get idx j i) ∧
      (∀ i, a.get idx i i = 1) ∧ ∃ lo hi, 0 ≤ lo ∧ n * eps * hi ≤ lo ∧
        (∀ v, lo * ∑ i, v i ^ 2 ≤ quad (a.get idx) v) ∧
        (∀ v, quad (a.get idx) v ≤ hi * ∑ i, v i ^ 2))
    (tol : Option ℝ) (htol : 0 ≤ tol.getD (n * eps)) (niter : ℕ) :
    ∃ y warn, nearcorr eigh eps a tol niter = .ok (y, warn) ∧ y.shape = a.shape ∧
      (0 < niter → warn = false) ∧
      ∀ idx ∈ indices a.shape, y.get idx = some (a.get idx) := by
  have hclip : ∀ idx ∈ indices a.shape, nanClip eigh eps (some (a.get idx)) =
      some (a.get idx) := by
    intro idx hidx
    obtain ⟨h1, h2, lo, hi, hlo, hc, hq1, hq2⟩ := hs idx hidx
    change (covClip eigh eps _ none).toOption.getD none = _
    rw [clip_identity hl eps (a.get idx) h1 none (by simpa using by positivity) hn lo hi hlo
      (by simpa using hc) hq1 hq2]
    rfl
  have hset : ∀ idx ∈ indices a.shape, setDiag (a.get idx) = a.get idx := by
    intro idx hidx
    ext i j
    simp only [setDiag, Matrix.of_apply]
    split_ifs with h
    · subst h; exact ((hs idx hidx).2.1 i).symm
    · rfl
  unfold nearcorr
  dsimp only
  rw [if_neg hn.ne']
  have hre : NdArray.reshape (a.map some) [NdArray.size a.shape] =
      .ok ⟨[a.shape.prod], fun i => some (a.get (unflatIndex a.shape
        (flatIndex [a.shape.prod] i)))⟩ := by
    unfold NdArray.reshape
    rw [if_pos (by simp [NdArray.size, NdArray.map])]
    rfl
  rw [hre]
  simp only [bind, Except.bind]
  have hloop : ∃ y' warn, nearcorrLoop eigh eps (tol.getD (n * eps)) niter
      ⟨[a.shape.prod], fun i => some (a.get (unflatIndex a.shape
        (flatIndex [a.shape.prod] i)))⟩ (a.map fun _ => some 0) = .ok (y', warn) ∧
      (0 < niter → warn = false) ∧ y'.shape = [a.shape.prod] ∧
      ∀ idx ∈ indices a.shape, y'.get [pos idx] = some (a.get idx) := by
    cases niter with
    | zero =>
      refine ⟨_, true, rfl, fun h => absurd h (lt_irrefl 0), rfl, fun idx hidx => ?_⟩
      obtain ⟨-, -, h3, -, -, -, h7⟩ := flat_facts a.shape hd idx hidx
      dsimp only
      rw [h7, h3]
    | succ k =>
      rw [nearcorrLoop]
      simp only [NdArray.map₂, NdArray.map, broadcast_dim a.shape hd, broadcastShapes_self, bind,
        Except.bind]
      have hval : ∀ idx ∈ indices a.shape, nanSub (some (a.get (unflatIndex a.shape
          (flatIndex [a.shape.prod] (broadcastIndex [a.shape.prod] [pos idx])))))
          (some (0 : Matrix (Fin n) (Fin n) ℝ)) = some (a.get idx) := by
        intro idx hidx
        obtain ⟨h2, -, h3, -, -, -, h7⟩ := flat_facts a.shape hd idx hidx
        rw [broadcastIndex_self _ _ h2, h7, h3]
        unfold nanSub
        dsimp only
        rw [sub_zero]
      rw [if_pos]
      · refine ⟨_, false, rfl, fun _ => rfl, rfl, fun idx hidx => ?_⟩
        dsimp only
        rw [hval idx hidx, hclip idx hidx, unitDiag_some, hset idx hidx]
      · rw [NdArray.ravel, List.all_map, List.all_eq_true]
        intro i hi
        simp only [NdArray.indices, List.mem_flatMap, List.mem_range, List.map_cons, List.map_nil,
          List.mem_singleton] at hi
        obtain ⟨i, hi, rfl⟩ := hi
        obtain ⟨idx, hidx, rfl⟩ := exists_index a.shape hd i hi
        simp only [Function.comp_apply, id_eq]
        rw [broadcastIndex_self _ _ hi, hval idx hidx, hclip idx hidx, unitDiag_some,
          hset idx hidx]
        simp only [converged, sub_self, decide_eq_true_eq]
        have : frob (0 : Matrix (Fin n) (Fin n) ℝ) = 0 := by simp [frob]
        rw [this]
        exact mul_nonneg htol (Real.sqrt_nonneg _)
  obtain ⟨y', warn, h1, h2, h3, h4⟩ := hloop
  rw [h1]
  dsimp only
  have hre2 : NdArray.reshape y' a.shape = .ok ⟨a.shape, fun i =>
      y'.get (unflatIndex y'.shape (flatIndex a.shape i))⟩ := by
    unfold NdArray.reshape
    rw [if_pos (by simp [NdArray.size, h3])]
  rw [hre2]
  refine ⟨_, warn, rfl, rfl, h2, fun idx hidx => ?_⟩
  obtain ⟨-, h5, -, -, -, h6, -⟩ := flat_facts a.shape hd idx hidx
  dsimp only
  rw [h3, h5, h6]
  exact h4 idx hidx

/-! ## C59: stacks with more axes -/

theorem loop_shape {n : ℕ} (eigh : Eigh n) (eps tol : ℝ) :
    ∀ (k : ℕ) (y ds y' : NdArray (NanMatrix n)) (S : List ℕ) (warn : Bool),
      broadcastShapes y.shape ds.shape = some S → 0 < k →
      nearcorrLoop eigh eps tol k y ds = .ok (y', warn) → y'.shape = S := by
  intro k
  induction k with
  | zero => intro y ds y' S warn _ h; exact absurd h (lt_irrefl 0)
  | succ k ih =>
    intro y ds y' S warn hb _ h
    rw [nearcorrLoop] at h
    simp only [NdArray.map₂, hb, NdArray.map, broadcastShapes_self, bind, Except.bind] at h
    split_ifs at h with hc
    · injection h with h
      injection h with h1 h2
      rw [← h1]
    · rcases Nat.eq_zero_or_pos k with hk | hk
      · subst hk
        rw [nearcorrLoop] at h
        injection h with h
        injection h with h1 h2
        rw [← h1]
      · exact ih _ _ _ S _ (broadcastShapes_self S) hk h

/-- **C59** is **false**: a stack with two leading axes `(d1, d2)` raises an exception whenever
`d1 ≥ 2` and `d2 ≥ 1`, whatever the matrices, because the correction `ds` keeps the unflattened
shape. -/
theorem nearcorr_stack_raises {n : ℕ} (eigh : Eigh n) (eps : ℝ)
    (a : NdArray (Matrix (Fin n) (Fin n) ℝ)) (d1 d2 : ℕ) (h1 : 2 ≤ d1) (h2 : 1 ≤ d2)
    (hs : a.shape = [d1, d2]) (tol : Option ℝ) (niter : ℕ) (hi : 0 < niter) :
    ∃ e, nearcorr eigh eps a tol niter = .error e := by
  unfold nearcorr
  dsimp only
  split_ifs with hn
  · exact ⟨_, rfl⟩
  have hre : NdArray.reshape (a.map some) [NdArray.size a.shape] =
      .ok ⟨[d1 * d2], fun i => some (a.get (unflatIndex a.shape (flatIndex [d1 * d2] i)))⟩ := by
    unfold NdArray.reshape
    rw [if_pos (by simp [NdArray.size, NdArray.map])]
    simp [NdArray.size, hs, NdArray.map]
  rw [hre]
  simp only [bind, Except.bind]
  have hK : 2 ≤ d1 * d2 := le_trans h1 (Nat.le_mul_of_pos_right d1 h2)
  have hne : d1 * d2 ≠ d2 := by
    intro h
    have : d1 = 1 := Nat.eq_of_mul_eq_mul_right h2 (by rw [h, one_mul])
    omega
  by_cases h3 : d2 = 1
  · subst h3
    have hb : broadcastShapes [d1 * 1] [d1, 1] = some [d1, d1 * 1] := by
      simp only [broadcastShapes, List.reverse_cons, List.reverse_nil, List.nil_append,
        List.singleton_append, broadcastRev, broadcastDim]
      rw [if_neg (by omega), if_neg (by omega), if_pos trivial]
      rfl
    rcases hl : nearcorrLoop eigh eps (tol.getD (n * eps)) niter
      ⟨[d1 * 1], fun i => some (a.get (unflatIndex a.shape (flatIndex [d1 * 1] i)))⟩
      (a.map fun _ => some 0) with e | ⟨y', warn⟩
    · exact ⟨e, rfl⟩
    · have := loop_shape eigh eps _ niter _ _ y' [d1, d1 * 1] warn (by
        simp only [NdArray.map, hs]; exact hb) hi hl
      dsimp only
      unfold NdArray.reshape
      rw [this, hs, if_neg]
      · exact ⟨_, rfl⟩
      · simp only [NdArray.size, List.prod_cons, List.prod_nil, mul_one]
        intro h
        nlinarith
  · obtain ⟨k, rfl⟩ : ∃ k, niter = k + 1 := ⟨niter - 1, by omega⟩
    rw [nearcorrLoop]
    have hb : broadcastShapes [d1 * d2] [d1, d2] = none := by
      simp only [broadcastShapes, List.reverse_cons, List.reverse_nil, List.nil_append,
        List.singleton_append, broadcastRev, broadcastDim]
      rw [if_neg hne, if_neg (by omega), if_neg h3]
      rfl
    simp only [NdArray.map₂, NdArray.map, hs, hb]
    exact ⟨_, rfl⟩

/-! ## C60: the nearest covariance matrix -/

/-- **C60**, a negative diagonal entry raises `ValueError`. -/
theorem cov_nearest_negative {n : ℕ} (eigh : Eigh n) (eps : ℝ)
    (cov : NdArray (Matrix (Fin n) (Fin n) ℝ)) (tol : Option ℝ) (niter : ℕ) (idx : List ℕ)
    (hidx : idx ∈ indices cov.shape) (i : Fin n) (h : cov.get idx i i < 0) :
    covNearest eigh eps cov tol niter = .error (.value "negative values on the diagonal") := by
  unfold covNearest
  rw [if_pos ⟨idx, hidx, i, h⟩]

theorem corr_diag {n : ℕ} (c : Matrix (Fin n) (Fin n) ℝ) (i : Fin n) (hc : 0 ≤ c i i) :
    corrOf c (normOf c) i i = if c i i = 0 then 0 else 1 := by
  have hn : normOf c i i = c i i := by
    simp only [normOf, Matrix.of_apply]
    exact Real.mul_self_sqrt hc
  simp only [corrOf, Matrix.of_apply, hn]
  rcases hc.lt_or_eq with h | h
  · rw [if_pos h, if_neg h.ne', div_self h.ne']
  · rw [← h]; simp

/-- **C60**: for a matrix or a stack with one leading axis without negative diagonal entries, and
for every tolerance and iteration limit, `cov_nearest` returns an array of the same shape with the
same diagonals. -/
theorem cov_nearest_diagonal {n : ℕ} {eigh : Eigh n} (hl : EighLaw eigh) (eps : ℝ) (h0 : 0 ≤ eps)
    (h1 : n * eps ≤ 1) (hn : 0 < n) (cov : NdArray (Matrix (Fin n) (Fin n) ℝ))
    (hd : cov.shape.length ≤ 1)
    (hpos : ∀ idx ∈ indices cov.shape, ∀ i, 0 ≤ cov.get idx i i)
    (tol : Option ℝ) (niter : ℕ) :
    ∃ res warn, covNearest eigh eps cov tol niter = .ok (res, warn) ∧ res.shape = cov.shape ∧
      ∀ idx ∈ indices cov.shape, ∃ R, res.get idx = some R ∧
        ∀ i, R i i = cov.get idx i i := by
  unfold covNearest
  rw [if_neg (by push Not; exact hpos)]
  simp only [NdArray.map, NdArray.map₂, broadcastShapes_self, bind, Except.bind]
  set corr : NdArray (Matrix (Fin n) (Fin n) ℝ) := ⟨cov.shape, fun i =>
    corrOf (cov.get (broadcastIndex cov.shape i))
      (normOf (cov.get (broadcastIndex cov.shape i)))⟩ with hcorr
  have hcd : ∀ idx ∈ indices cov.shape, ∀ j, corr.get idx j j =
      if cov.get idx j j = 0 then 0 else 1 := by
    intro idx hidx j
    obtain ⟨-, -, -, -, h5, -, -⟩ := flat_facts cov.shape hd idx hidx
    rw [hcorr]
    dsimp only
    rw [h5]
    exact corr_diag _ j (hpos idx hidx j)
  obtain ⟨y, warn, hy, hsh, hval⟩ := nearcorr_stack hl eps h0 h1 hn corr hd (by
    intro idx hidx
    apply good_of_diag _ ⟨0, hn⟩
    rw [hcd idx hidx]
    split_ifs <;> norm_num) tol niter
  rw [hy]
  dsimp only
  have hsh' : y.shape = cov.shape := hsh
  rw [hsh', broadcastShapes_self]
  refine ⟨_, warn, rfl, rfl, fun idx hidx => ?_⟩
  obtain ⟨Y, hY, hk0, hk1⟩ := hval idx hidx
  obtain ⟨-, -, -, -, h5, -, -⟩ := flat_facts cov.shape hd idx hidx
  dsimp only
  rw [h5, hY]
  refine ⟨_, rfl, fun i => ?_⟩
  simp only [normOf, Matrix.of_apply]
  rw [Real.mul_self_sqrt (hpos idx hidx i)]
  rcases Nat.eq_zero_or_pos niter with hz | hz
  · rw [hk0 hz, hcd idx hidx]
    split_ifs with h
    · rw [h]; ring
    · ring
  · rw [(hk1 hz).1 i, one_mul]

theorem index_length (s : List ℕ) : ∀ idx ∈ indices s, idx.length = s.length := by
  induction s with
  | nil => intro idx h; simp [indices] at h; simp [h]
  | cons d s ih =>
    intro idx h
    simp only [indices, List.mem_flatMap, List.mem_range, List.mem_map] at h
    obtain ⟨i, -, l, hl, rfl⟩ := h
    simp [ih l hl]

theorem broadcastIndex_mem (s : List ℕ) : ∀ idx ∈ indices s, broadcastIndex s idx = idx := by
  intro idx h
  rw [broadcastIndex, index_length s idx h, Nat.sub_self, List.drop_zero]
  induction s generalizing idx with
  | nil => simp [indices] at h; simp [h]
  | cons d s ih =>
    simp only [indices, List.mem_flatMap, List.mem_range, List.mem_map] at h
    obtain ⟨i, hi, l, hl, rfl⟩ := h
    rw [List.zipWith_cons_cons, ih l hl]
    congr 1
    split_ifs with h1
    · omega
    · rfl

theorem loop_unit {n : ℕ} (eigh : Eigh n) (eps tol : ℝ) :
    ∀ (k : ℕ) (y ds y' : NdArray (NanMatrix n)) (warn : Bool), 0 < k →
      nearcorrLoop eigh eps tol k y ds = .ok (y', warn) →
      ∀ idx Y, y'.get idx = some Y → ∀ j, Y j j = 1 := by
  intro k
  induction k with
  | zero => intro y ds y' warn h; exact absurd h (lt_irrefl 0)
  | succ k ih =>
    intro y ds y' warn _ h
    have hu : ∀ (o : NanMatrix n) Y, unitDiag o = some Y → ∀ j, Y j j = 1 := by
      intro o Y ho j
      cases o with
      | none => simp [unitDiag] at ho
      | some x =>
        rw [unitDiag_some] at ho
        injection ho with ho
        rw [← ho]
        simp [setDiag]
    rw [nearcorrLoop] at h
    rcases hr : NdArray.map₂ nanSub y ds with e | r
    · rw [hr] at h; cases h
    rw [hr] at h
    simp only [NdArray.map₂, NdArray.map, broadcastShapes_self, bind, Except.bind] at h
    split_ifs at h with hc
    · injection h with h
      injection h with h1 h2
      intro idx Y hY
      rw [← h1] at hY
      exact hu _ _ hY
    · rcases Nat.eq_zero_or_pos k with hk | hk
      · subst hk
        rw [nearcorrLoop] at h
        injection h with h
        injection h with h1 h2
        intro idx Y hY
        rw [← h1] at hY
        exact hu _ _ hY
      · exact ih _ _ _ _ hk h

/-- **C60** for stacks of every shape: whenever `cov_nearest` returns (at least one iteration), every
matrix of the stack that is not NaN has the diagonal of the input.  No assumption on `eigh` is
needed. -/
theorem cov_nearest_any_shape {n : ℕ} (eigh : Eigh n) (eps : ℝ)
    (cov : NdArray (Matrix (Fin n) (Fin n) ℝ)) (tol : Option ℝ) (niter : ℕ) (hi : 0 < niter)
    (res : NdArray (NanMatrix n)) (warn : Bool)
    (h : covNearest eigh eps cov tol niter = .ok (res, warn)) :
    res.shape = cov.shape ∧ ∀ idx ∈ indices cov.shape, ∀ R, res.get idx = some R →
      ∀ i, R i i = cov.get idx i i := by
  unfold covNearest at h
  split_ifs at h with hneg
  push Not at hneg
  simp only [NdArray.map, NdArray.map₂, broadcastShapes_self, bind, Except.bind] at h
  rcases hn : nearcorr eigh eps ⟨cov.shape, fun i =>
    corrOf (cov.get (broadcastIndex cov.shape i))
      (normOf (cov.get (broadcastIndex cov.shape i)))⟩ tol niter with e | ⟨y, w⟩
  · rw [hn] at h; cases h
  rw [hn] at h
  dsimp only at h
  have hy : y.shape = cov.shape ∧ ∀ idx Y, y.get idx = some Y → ∀ j, Y j j = 1 := by
    unfold nearcorr at hn
    dsimp only at hn
    split_ifs at hn with h0
    rcases hre : NdArray.reshape (NdArray.map some ⟨cov.shape, fun i =>
      corrOf (cov.get (broadcastIndex cov.shape i))
        (normOf (cov.get (broadcastIndex cov.shape i)))⟩) [NdArray.size cov.shape] with e | y0
    · rw [hre] at hn; cases hn
    rw [hre] at hn
    simp only [bind, Except.bind] at hn
    rcases hl : nearcorrLoop eigh eps (tol.getD (n * eps)) niter y0 (NdArray.map (fun _ => some 0)
      (⟨cov.shape, fun i => corrOf (cov.get (broadcastIndex cov.shape i))
        (normOf (cov.get (broadcastIndex cov.shape i)))⟩ :
          NdArray (Matrix (Fin n) (Fin n) ℝ))) with e | ⟨y1, w1⟩
    · rw [hl] at hn; cases hn
    rw [hl] at hn
    simp only [NdArray.reshape] at hn
    split_ifs at hn with h1
    · injection hn with hn
      injection hn with h2 h3
      rw [← h2]
      refine ⟨rfl, fun idx Y hY => ?_⟩
      exact loop_unit eigh eps _ niter _ _ _ _ hi hl _ _ hY
  rw [hy.1, broadcastShapes_self] at h
  injection h with h
  injection h with h1 h2
  rw [← h1]
  refine ⟨rfl, fun idx hidx R hR i => ?_⟩
  dsimp only at hR
  rw [broadcastIndex_mem cov.shape idx hidx] at hR
  rcases hyy : y.get idx with _ | Y
  · rw [hyy] at hR; simp [scaleBack] at hR
  · rw [hyy] at hR
    simp only [scaleBack, Option.some.injEq] at hR
    rw [← hR]
    simp only [normOf, Matrix.of_apply]
    rw [hy.2 idx Y hyy i, one_mul, Real.mul_self_sqrt (hneg idx hidx i)]

theorem nearcorr_shape {n : ℕ} {eigh : Eigh n} {eps : ℝ}
    {a : NdArray (Matrix (Fin n) (Fin n) ℝ)} {tol : Option ℝ} {niter : ℕ}
    {y : NdArray (NanMatrix n)} {w : Bool} (hn : nearcorr eigh eps a tol niter = .ok (y, w)) :
    y.shape = a.shape := by
  unfold nearcorr at hn
  dsimp only at hn
  split_ifs at hn with h0
  rcases hre : NdArray.reshape (NdArray.map some a) [NdArray.size a.shape] with e | y0
  · rw [hre] at hn; cases hn
  rw [hre] at hn
  simp only [bind, Except.bind] at hn
  rcases hl : nearcorrLoop eigh eps (tol.getD (n * eps)) niter y0
    (NdArray.map (fun _ => some 0) a) with e | ⟨y1, w1⟩
  · rw [hl] at hn; cases hn
  rw [hl] at hn
  simp only [NdArray.reshape] at hn
  split_ifs at hn with h1
  · injection hn with hn
    injection hn with h2 h3
    rw [← h2]

/-- **C60**, the whole result: it is the result of `nearcorr` for the correlation matrix, scaled
back with the standard deviations.  The correlation matrix is the covariance matrix divided by the
standard deviations, where these are both positive. -/
theorem cov_nearest_scaling {n : ℕ} (eigh : Eigh n) (eps : ℝ)
    (cov : NdArray (Matrix (Fin n) (Fin n) ℝ)) (tol : Option ℝ) (niter : ℕ)
    (res : NdArray (NanMatrix n)) (warn : Bool)
    (h : covNearest eigh eps cov tol niter = .ok (res, warn)) :
    ∃ corr y, nearcorr eigh eps corr tol niter = .ok (y, warn) ∧ corr.shape = cov.shape ∧
      (∀ idx ∈ indices cov.shape, ∀ i j,
        corr.get idx i j * (if 0 < cov.get idx i i ∧ 0 < cov.get idx j j then
          Real.sqrt (cov.get idx i i) * Real.sqrt (cov.get idx j j) else 1) = cov.get idx i j) ∧
      ∀ idx ∈ indices cov.shape, ∀ R, res.get idx = some R → ∃ Y, y.get idx = some Y ∧
        ∀ i j, R i j =
          Real.sqrt (cov.get idx i i) * Y i j * Real.sqrt (cov.get idx j j) := by
  unfold covNearest at h
  split_ifs at h with hneg
  push Not at hneg
  simp only [NdArray.map, NdArray.map₂, broadcastShapes_self, bind, Except.bind] at h
  rcases hn : nearcorr eigh eps ⟨cov.shape, fun i =>
    corrOf (cov.get (broadcastIndex cov.shape i))
      (normOf (cov.get (broadcastIndex cov.shape i)))⟩ tol niter with e | ⟨y, w⟩
  · rw [hn] at h; cases h
  rw [hn] at h
  dsimp only at h
  have hy := nearcorr_shape hn
  dsimp only at hy
  rw [hy, broadcastShapes_self] at h
  injection h with h
  injection h with h1 h2
  subst h2
  refine ⟨_, y, hn, rfl, ?_, ?_⟩
  · intro idx hidx i j
    dsimp only
    rw [broadcastIndex_mem cov.shape idx hidx]
    generalize cov.get idx = c
    have hN : normOf c i j = Real.sqrt (c j j) * Real.sqrt (c i i) := rfl
    show c i j / (if normOf c i j > 0 then normOf c i j else 1) * _ = _
    by_cases hc : 0 < c i i ∧ 0 < c j j
    · have a := Real.sqrt_pos.2 hc.1
      have b := Real.sqrt_pos.2 hc.2
      rw [if_pos hc, if_pos (by rw [hN]; exact mul_pos b a), hN, mul_comm (Real.sqrt (c j j)),
        div_mul_cancel₀ _ (mul_pos a b).ne']
    · have : normOf c i j = 0 := by
        rw [hN]
        rw [not_and_or, not_lt, not_lt] at hc
        rcases hc with hc | hc
        · rw [Real.sqrt_eq_zero_of_nonpos hc, mul_zero]
        · rw [Real.sqrt_eq_zero_of_nonpos hc, zero_mul]
      rw [if_neg hc, if_neg (by rw [this]; exact lt_irrefl _), div_one, mul_one]
  · intro idx hidx R hR
    rw [← h1] at hR
    dsimp only at hR
    rw [broadcastIndex_mem cov.shape idx hidx] at hR
    rcases hyy : y.get idx with _ | Y
    · rw [hyy] at hR; simp [scaleBack] at hR
    · rw [hyy] at hR
      simp only [scaleBack, Option.some.injEq] at hR
      refine ⟨Y, rfl, fun i j => ?_⟩
      rw [← hR]
      simp only [normOf, Matrix.of_apply]
      ring

/-- A covariance matrix that is not positive definite, to which C60 applies. -/
example {eigh : Eigh 2} (hl : EighLaw eigh) (niter : ℕ) :
    ∃ res warn, covNearest eigh (1 / 1000) ⟨[], fun _ => !![4, 9; 9, 0]⟩ none niter =
      .ok (res, warn) ∧ ∃ R, res.get [] = some R ∧ R 0 0 = 4 ∧ R 1 1 = 0 := by
  obtain ⟨res, warn, h, -, hv⟩ := cov_nearest_diagonal hl (1 / 1000) (by norm_num) (by norm_num)
    (by norm_num) ⟨[], fun _ => !![4, 9; 9, 0]⟩ (by simp)
    (by intro idx _ i; fin_cases i <;> simp) none niter
  obtain ⟨R, hR, hd⟩ := hv [] (by simp [NdArray.indices])
  exact ⟨res, warn, h, R, hR, by simpa using hd 0, by simpa using hd 1⟩

end Glass.Algorithm
