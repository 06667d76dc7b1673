import Mathlib.Analysis.InnerProductSpace.GramSchmidtOrtho
import Verif.Algorithm.NnlsGram
import Verif.Shells.RecoverProps

/-!
# Non-negative least-squares partition (C85)
-/

namespace Glass.Shells

open Glass Glass.Num Glass.NdArray Matrix

/-- `qr` returns a factorisation with orthonormal columns. -/
def QrLaw (qr : Qr) : Prop :=
  ∀ (m k : ℕ) (a : Matrix (Fin m) (Fin k) ℝ),
    (qr m k a).1 * (qr m k a).2 = a ∧ (qr m k a).1ᵀ * (qr m k a).1 = 1

/-- A routine with this law exists. -/
theorem exists_qr : ∃ qr : Qr, QrLaw qr := by
  have key : ∀ (m k : ℕ) (a : Matrix (Fin m) (Fin k) ℝ),
      ∃ p : Matrix (Fin m) (Fin (min m k)) ℝ × Matrix (Fin (min m k)) (Fin k) ℝ,
        p.1 * p.2 = a ∧ p.1ᵀ * p.1 = 1 := by
    intro m k a
    rcases le_total m k with h | h
    · have e : min m k = m := min_eq_left h
      rw [e]
      exact ⟨(1, a), by simp, by simp⟩
    · obtain ⟨d, rfl⟩ := Nat.exists_eq_add_of_le h
      have e : min (k + d) k = k := min_eq_right h
      rw [e]
      let f : Fin (k + d) → EuclideanSpace ℝ (Fin (k + d)) := fun i =>
        if hi : i.val < k then WithLp.toLp 2 (fun r => a r ⟨i, hi⟩) else 0
      let g := InnerProductSpace.gramSchmidtOrthonormalBasis (𝕜 := ℝ) (by simp) f
      have hcol : ∀ j : Fin k, ∀ r, f (Fin.castAdd d j) r = a r j := by
        intro j r
        simp [f]
      let q : Matrix (Fin (k + d)) (Fin k) ℝ := Matrix.of fun r j => g (Fin.castAdd d j) r
      refine ⟨(q, qᵀ * a), ?_, ?_⟩
      · ext r j
        have h1 := g.sum_repr (f (Fin.castAdd d j))
        have h2 := congrArg (fun v : EuclideanSpace ℝ (Fin (k + d)) => v r) h1
        simp only at h2
        rw [← hcol j r, ← h2, Fin.sum_univ_add]
        have h3 : ∀ i : Fin d, g.repr (f (Fin.castAdd d j)) (Fin.natAdd k i) = 0 := by
          intro i
          apply InnerProductSpace.gramSchmidtOrthonormalBasis_inv_triangular'
          simp only [Fin.lt_def, Fin.val_castAdd, Fin.val_natAdd]
          omega
        simp only [h3, zero_smul, Finset.sum_const_zero, add_zero]
        rw [mul_apply, WithLp.ofLp_sum, Finset.sum_apply]
        apply Finset.sum_congr rfl
        intro l _
        rw [g.repr_apply_apply, PiLp.inner_apply, PiLp.smul_apply, mul_apply]
        simp only [q, of_apply, transpose_apply, smul_eq_mul, hcol, RCLike.inner_apply, conj_trivial]
        rw [mul_comm]
        congr 1
        exact Finset.sum_congr rfl fun s _ => mul_comm _ _
      · ext i j
        have h1 := g.orthonormal
        rw [orthonormal_iff_ite] at h1
        have h2 := h1 (Fin.castAdd d i) (Fin.castAdd d j)
        rw [PiLp.inner_apply] at h2
        simp only [RCLike.inner_apply, conj_trivial] at h2
        rw [mul_apply, one_apply]
        simp only [q, of_apply, transpose_apply]
        rw [Finset.sum_congr rfl fun s _ => mul_comm _ _, h2]
        simp
  choose f hf using key
  exact ⟨f, fun m k a => hf m k a⟩

/-- The reduced problem has the same run as the full one. -/
theorem reduced_run {qr : Qr} (hq : QrLaw qr) (solve : Algorithm.Solver) (fuel : ℕ) {m k : ℕ}
    (a : Matrix (Fin m) (Fin k) ℝ) (b : Fin m → ℝ) (tol : ℝ) (maxiter : Option ℕ) :
    Algorithm.nnlsRun solve fuel (qr m k a).2 (fun p => ∑ j, (qr m k a).1 j p * b j) tol maxiter =
      Algorithm.nnlsRun solve fuel a b tol maxiter := by
  obtain ⟨h1, h2⟩ := hq m k a
  apply Algorithm.nnlsRun_congr
  · have : aᵀ * a = ((qr m k a).1 * (qr m k a).2)ᵀ * ((qr m k a).1 * (qr m k a).2) := by rw [h1]
    rw [this, transpose_mul, Matrix.mul_assoc, ← Matrix.mul_assoc _ _ (qr m k a).2, h2,
      Matrix.one_mul]
  · have : (fun p => ∑ j, (qr m k a).1 j p * b j) = b ᵥ* (qr m k a).1 := by
      funext p
      simp [vecMul, dotProduct, mul_comm]
    rw [this, vecMul_vecMul, h1]

/-- Failures of the set-up are failures of `partition_nnls`. -/
theorem partition_nnls_rejects (qr : Qr) (solve : Algorithm.Solver) (fuel : ℕ) (z : List ℝ)
    (fz : NdArray ℝ) (shells : List RadialWindow) (sumtol : ℝ)
    (h : shells = [] ∨ (∃ w ∈ shells, w.knots = []) ∨ z = [] ∨ (unionGrid z shells).length < 2 ∨
      ¬ ∃ dims, fz.shape = dims ++ [z.length] ∧ 0 ∉ dims) :
    ∃ e, partitionNnls qr solve fuel z fz shells sumtol = some (.error e) := by
  rw [← problem_error_iff z fz shells sumtol] at h
  obtain ⟨e, h⟩ := h
  exact ⟨e, by rw [partitionNnls, h]⟩

/-- What `partition_nnls` computes: for each position of the leading axes, the run of `nnls` for
the problem whose sum of squares is the cost. -/
theorem partition_nnls_spec {qr : Qr} (hq : QrLaw qr) {solve : Algorithm.Solver} {fuel : ℕ}
    {z : List ℝ} {fz r : NdArray ℝ} {shells : List RadialWindow} {sumtol : ℝ}
    (h : partitionNnls qr solve fuel z fz shells sumtol = some (.ok (some r))) :
    ∃ zp dims, IsGrid z shells zp ∧ fz.shape = dims ++ [z.length] ∧
      r.shape = shells.length :: dims ∧ ∀ i ∈ indices dims,
        ∃ (a : Matrix (Fin (zp.length + 1)) (Fin shells.length) ℝ) (b : Fin (zp.length + 1) → ℝ)
          (stopped : Bool),
          (∀ x, Algorithm.sumSq a b x =
            cost zp shells (target z fz i) (total z fz i) (max sumtol 1e-4) x) ∧
          Algorithm.nnlsRun solve fuel a b 0 none =
            some (.ok (fun j => r.get (j.val :: i), stopped)) := by
  unfold partitionNnls at h
  rcases hp : partitionProblem z fz shells sumtol with e | ⟨zp, b, _ | a⟩
  · rw [hp] at h; simp at h
  · rw [hp] at h; simp at h
  rw [hp] at h
  obtain ⟨hg, -, -, dims, hf, hb, hc⟩ := problem_spec hp
  simp only at h
  rcases hr : nnlsRows qr solve fuel (zp.length + 1) shells.length a b with _ | (e | x)
  · rw [hr] at h; simp at h
  · rw [hr] at h; simp [Except.map] at h
  rw [hr] at h
  simp only [Option.map_some, Except.map, Option.some.injEq, Except.ok.injEq] at h
  subst h
  obtain ⟨hs, hi⟩ := nnlsRows_spec qr solve fuel a hb hr
  refine ⟨zp, dims, hg, hf, hs, fun i hmi => ?_⟩
  obtain ⟨s, hrun⟩ := hi i hmi
  rw [reduced_run hq solve fuel aᵀ] at hrun
  exact ⟨aᵀ, rowOf _ b i, s, hc a rfl i hmi, hrun⟩

/-- **C85.** The weights of `partition_nnls` are not negative. -/
theorem partition_nnls_nonneg (qr : Qr) (solve : Algorithm.Solver) (fuel : ℕ) {z : List ℝ}
    {fz r : NdArray ℝ} {shells : List RadialWindow} {sumtol : ℝ}
    (h : partitionNnls qr solve fuel z fz shells sumtol = some (.ok (some r))) :
    ∃ dims, fz.shape = dims ++ [z.length] ∧ r.shape = shells.length :: dims ∧
      ∀ i ∈ indices dims, ∀ j < shells.length, 0 ≤ r.get (j :: i) := by
  unfold partitionNnls at h
  rcases hp : partitionProblem z fz shells sumtol with e | ⟨zp, b, _ | a⟩
  · rw [hp] at h; simp at h
  · rw [hp] at h; simp at h
  rw [hp] at h
  obtain ⟨-, -, -, dims, hf, hb, -⟩ := problem_spec hp
  simp only at h
  rcases hr : nnlsRows qr solve fuel (zp.length + 1) shells.length a b with _ | (e | x)
  · rw [hr] at h; simp at h
  · rw [hr] at h; simp [Except.map] at h
  rw [hr] at h
  simp only [Option.map_some, Except.map, Option.some.injEq, Except.ok.injEq] at h
  subst h
  obtain ⟨hs, hi⟩ := nnlsRows_spec qr solve fuel a hb hr
  refine ⟨dims, hf, hs, fun i hmi j hj => ?_⟩
  obtain ⟨s, hrun⟩ := hi i hmi
  exact Algorithm.outerLoop_nonneg solve fuel _ _ 0 _ _ _ _ _ (fun _ => le_rfl) hrun ⟨j, hj⟩

/-- **C85**, what holds of every result: the weights have the smallest cost of all weights,
negative ones included, that use no other windows than the result does. -/
theorem partition_nnls_minimal_on_support {qr : Qr} (hq : QrLaw qr) {solve : Algorithm.Solver}
    (hs : Algorithm.SolverSound solve) {fuel : ℕ}
    {z : List ℝ} {fz r : NdArray ℝ} {shells : List RadialWindow} {sumtol : ℝ}
    (h : partitionNnls qr solve fuel z fz shells sumtol = some (.ok (some r))) :
    ∃ zp dims, IsGrid z shells zp ∧ fz.shape = dims ++ [z.length] ∧
      ∀ i ∈ indices dims, ∀ y : Fin shells.length → ℝ,
        (∀ j : Fin shells.length, r.get (j.val :: i) = 0 → y j = 0) →
        cost zp shells (target z fz i) (total z fz i) (max sumtol 1e-4)
            (fun j => r.get (j.val :: i)) ≤
          cost zp shells (target z fz i) (total z fz i) (max sumtol 1e-4) y := by
  obtain ⟨zp, dims, hg, hf, -, hi⟩ := partition_nnls_spec hq h
  refine ⟨zp, dims, hg, hf, fun i hmi y hy => ?_⟩
  obtain ⟨a, b, s, hc, hrun⟩ := hi i hmi
  rw [← hc, ← hc]
  exact Algorithm.nnls_minimal_on_support hs fuel a b 0 none _ s hrun y hy

/-- **C85**, minimality for the runs of `nnls` that stop by themselves: then the weights have the
smallest cost of all non-negative weights.  (The full statement, for all runs, is false:
`partition_nnls_not_minimal`.) -/
theorem partition_nnls_minimal_partial {qr : Qr} (hq : QrLaw qr) {solve : Algorithm.Solver}
    (hs : Algorithm.SolverSound solve) {fuel : ℕ}
    {z : List ℝ} {fz r : NdArray ℝ} {shells : List RadialWindow} {sumtol : ℝ}
    (h : partitionNnls qr solve fuel z fz shells sumtol = some (.ok (some r))) :
    ∃ zp dims, IsGrid z shells zp ∧ fz.shape = dims ++ [z.length] ∧ ∀ i ∈ indices dims,
      ∃ (a : Matrix (Fin (zp.length + 1)) (Fin shells.length) ℝ) (b : Fin (zp.length + 1) → ℝ)
        (stopped : Bool),
        (∀ x, Algorithm.sumSq a b x =
          cost zp shells (target z fz i) (total z fz i) (max sumtol 1e-4) x) ∧
        Algorithm.nnlsRun solve fuel a b 0 none =
          some (.ok (fun j => r.get (j.val :: i), stopped)) ∧
        (stopped = true → ∀ y : Fin shells.length → ℝ, (∀ j, 0 ≤ y j) →
          cost zp shells (target z fz i) (total z fz i) (max sumtol 1e-4)
              (fun j => r.get (j.val :: i)) ≤
            cost zp shells (target z fz i) (total z fz i) (max sumtol 1e-4) y) := by
  obtain ⟨zp, dims, hg, hf, -, hi⟩ := partition_nnls_spec hq h
  refine ⟨zp, dims, hg, hf, fun i hmi => ?_⟩
  obtain ⟨a, b, s, hc, hrun⟩ := hi i hmi
  refine ⟨a, b, s, hc, hrun, ?_⟩
  rintro rfl y hy
  rw [← hc, ← hc]
  exact Algorithm.nnls_stopped_minimal_partial hs fuel a b none _ hrun y hy

/-- **C85**, recovery: a combination of windows that vanish at their ends is recovered exactly if
every window that has a non-zero weight is used by the result. -/
theorem partition_nnls_recovers_partial {qr : Qr} (hq : QrLaw qr) {solve : Algorithm.Solver}
    (hs : Algorithm.SolverSound solve) {fuel : ℕ} {z : List ℝ} {fz r : NdArray ℝ}
    {shells : List RadialWindow} {sumtol : ℝ} (hr : Recoverable z shells)
    (h : partitionNnls qr solve fuel z fz shells sumtol = some (.ok (some r)))
    {dims : List ℕ} (hf : fz.shape = dims ++ [z.length]) {i : List ℕ} (hi : i ∈ indices dims)
    {c : List ℝ} (hc : IsCombination z shells fz i c)
    (hu : ∀ j < shells.length, c[j]! ≠ 0 → r.get (j :: i) ≠ 0) :
    ∀ j < shells.length, r.get (j :: i) = c[j]! := by
  obtain ⟨zp, dims', hg', hf', hm⟩ := partition_nnls_minimal_on_support hq hs h
  obtain rfl := grid_unique hr hg'
  rw [hf] at hf'
  obtain ⟨rfl, -⟩ := List.append_inj' hf' (by simp)
  have h1 := hm i hi (fun j => c[j.val]!) (fun j hj => by
    by_contra hne
    exact hu j j.2 hne hj)
  rw [(cost_zero_iff hr hc _).2 fun j => rfl] at h1
  have h2 : 0 ≤ cost zp shells (target zp fz i) (total zp fz i) (max sumtol 1e-4)
      (fun j => r.get (j.val :: i)) :=
    add_nonneg (Finset.sum_nonneg fun _ _ => sq_nonneg _) (sq_nonneg _)
  intro j hj
  exact (cost_zero_iff hr hc _).1 (le_antisymm h1 h2) ⟨j, hj⟩

end Glass.Shells
