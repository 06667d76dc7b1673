import Verif.Algorithm.NearcorrProps
import Verif.Arrays.InterpAxis
import Verif.Grf.GaussianProps
import Verif.Shells.DispatchProps
import Verif.Shells.PartitionNnlsProps
import Verif.Shells.RestrictProps
import Verif.Shells.ShellProps
import Verif.Shells.WindowProps

/-!
# The kinds of exceptions of `glass/shells.py` (C126)

The theorems about failures elsewhere say when a function raises; these say what it raises.
-/

namespace Glass.Shells

open Glass Glass.Num NdArray

/-- **C126.** The three functions that make windows raise `ValueError` for too few edges or nodes. -/
theorem windows_raise (rnd : ℝ → ℤ) (z : List ℝ) (dz : ℝ) (weight : Option (ℝ → ℝ)) :
    ((∃ r, tophatWindows rnd z dz weight = .error (.value r)) ↔ z.length < 2) ∧
    ((∃ r, linearWindows rnd z dz weight = .error (.value r)) ↔ z.length < 3) ∧
    ((∃ r, cubicWindows rnd z dz weight = .error (.value r)) ↔ z.length < 3) := by
  refine ⟨?_, ?_, ?_⟩
  · unfold tophatWindows; split_ifs with h <;> simp [h]
  · unfold linearWindows; split_ifs with h <;> simp [h]
  · unfold cubicWindows; split_ifs with h <;> simp [h]

/-- **C126.** The grids raise `ValueError` unless exactly one of step and number is given. -/
theorem grids_raise (dc inv : ℝ → ℝ) (zmin zmax : ℝ) (step : Option ℝ) (num : Option ℕ) :
    ((∃ r, redshiftGrid zmin zmax step num = .error (.value r)) ↔ step.isSome = num.isSome) ∧
    ((∃ r, distanceGrid dc inv zmin zmax step num = .error (.value r)) ↔
      step.isSome = num.isSome) := by
  cases step <;> cases num <;> simp [redshiftGrid, distanceGrid, uniformGrid, Except.map]

/-- **C126.** `combine` raises `ValueError` if there is nothing to combine, or a window without
points. -/
theorem combine_raises (z : ℝ) (weights : List ℝ) (shells : List RadialWindow) :
    (∃ r, combine z weights shells = .error (.value r)) ↔
      shells = [] ∨ weights = [] ∨ ∃ p ∈ shells.zip weights, p.1.knots = [] := by
  have h : (∃ r, combine z weights shells = .error (.value r)) ↔
      ∃ e, combine z weights shells = .error e := by
    unfold combine
    simp only
    split_ifs <;> simp
  rw [h]
  unfold combine
  simp only
  split_ifs with h1 h2
  · simp only [Except.error.injEq, exists_eq', true_iff]
    rcases List.zip_eq_nil_iff.1 h1 with h | h
    · exact .inl h
    · exact .inr (.inl h)
  · simp only [Except.error.injEq, exists_eq', true_iff]
    exact .inr (.inr h2)
  · simp only [exists_false, false_iff]
    rintro (rfl | rfl | h)
    · simp at h1
    · simp at h1
    · exact h2 h

/-- **C126.** `restrict` raises `IndexError` exactly for a window without points, and `ValueError`
for a function without points. -/
theorem restrict_raises (f : List (ℝ × ℝ)) (w : RadialWindow) :
    (restrict f w = .error .index ↔ w.knots = []) ∧
    ((∃ r, restrict f w = .error (.value r)) ↔ w.knots ≠ [] ∧ f = []) := by
  unfold restrict
  rcases hk : w.knots with _ | ⟨k, ks⟩
  · simp [RadialWindow.za, hk]
  obtain ⟨l, hl⟩ : ∃ l, w.za.getLast? = some l :=
    ⟨_, List.getLast?_eq_getLast_of_ne_nil (by simp [RadialWindow.za, hk])⟩
  have hh : w.za.head? = some k.1 := by simp [RadialWindow.za, hk]
  rw [hh, hl]
  simp only
  split_ifs with h <;> simp [h]

/-- **C126.** The same for functions with leading axes. -/
theorem restrictNd_raises (z : List ℝ) (fz : NdArray ℝ) (w : RadialWindow) :
    (restrictNd z fz w = .error .index ↔ w.knots = []) ∧
    ((∃ r, restrictNd z fz w = .error (.value r)) ↔ w.knots ≠ [] ∧
      (z = [] ∨ ¬ ∃ dims, fz.shape = dims ++ [z.length] ∧ 0 ∉ dims)) := by
  have hiff := restrictNd_error_iff z fz w
  unfold restrictNd at hiff ⊢
  rcases hk : w.knots with _ | ⟨k, ks⟩
  · simp [RadialWindow.za, hk]
  obtain ⟨l, hl⟩ : ∃ l, w.za.getLast? = some l :=
    ⟨_, List.getLast?_eq_getLast_of_ne_nil (by simp [RadialWindow.za, hk])⟩
  have hh : w.za.head? = some k.1 := by simp [RadialWindow.za, hk]
  rw [hk] at hiff
  rw [hh, hl] at hiff ⊢
  simp only [reduceCtorEq, false_or, iff_false, ne_eq, not_false_eq_true, true_and] at hiff ⊢
  rw [← hiff]
  split
  · rename_i e hn
    obtain ⟨⟨r, rfl⟩, -⟩ := Arrays.ndinterp_last_error hn
    simp
  · simp

/-- **C126.** `partition_restrict` raises `IndexError` only if a window has no points, and otherwise
`ValueError`. -/
theorem partition_restrict_raises {z : List ℝ} {fz : NdArray ℝ} {shells : List RadialWindow} {e : Err}
    (h : partitionRestrictNd z fz shells = .error e) :
    (∃ r, e = .value r) ∨ (e = .index ∧ ∃ w ∈ shells, w.knots = []) := by
  unfold partitionRestrictNd at h
  rcases hm : (shells.mapM fun w => (restrictNd z fz w).map fun r => trapezoidLast r.1 r.2)
    with e' | parts
  · rw [hm] at h
    simp only [Except.error.injEq] at h
    subst h
    obtain ⟨k, w, hw, he⟩ := Grf.mapM_eq_error hm
    have hmem : w ∈ shells := List.mem_of_getElem? hw
    rcases hr : restrictNd z fz w with e'' | r
    · rw [hr] at he
      simp only [Except.map, Except.error.injEq] at he
      subst he
      by_cases hk : w.knots = []
      · rw [(restrictNd_raises z fz w).1.2 hk] at hr
        simp only [Except.error.injEq] at hr
        exact .inr ⟨hr.symm, w, hmem, hk⟩
      · left
        have := (restrictNd_error_iff z fz w).1 ⟨_, hr⟩
        obtain ⟨r, hr'⟩ := (restrictNd_raises z fz w).2.2 ⟨hk, this.resolve_left hk⟩
        rw [hr] at hr'
        simp only [Except.error.injEq] at hr'
        exact ⟨r, hr'⟩
    · rw [hr] at he
      simp [Except.map] at he
  · rw [hm] at h
    simp only at h
    cases parts with
    | nil => simp only [stack, Except.error.injEq] at h; exact .inl ⟨_, h.symm⟩
    | cons p ps => simp [stack] at h

theorem problem_raises {z : List ℝ} {fz : NdArray ℝ} {shells : List RadialWindow} {sumtol : ℝ} {e : Err}
    (h : partitionProblem z fz shells sumtol = .error e) : ∃ r, e = .value r := by
  unfold partitionProblem at h
  simp only at h
  split at h
  · cases h; exact ⟨_, rfl⟩
  · split at h
    · rename_i e' hg
      unfold gradient at hg
      split_ifs at hg
      cases hg
      cases h
      exact ⟨_, rfl⟩
    · split_ifs at h
      · cases h; exact ⟨_, rfl⟩
      · cases h; exact ⟨_, rfl⟩
      · split at h
        · rename_i hn
          obtain ⟨⟨r, rfl⟩, -⟩ := Arrays.ndinterp_last_error hn
          cases h
          exact ⟨_, rfl⟩
        · cases h

/-- **C126.** `partition_lstsq` raises `ValueError` for everything that it rejects. -/
theorem partition_lstsq_raises (lstsq : Lstsq) {z : List ℝ} {fz : NdArray ℝ}
    {shells : List RadialWindow} {sumtol : ℝ} {e : Err}
    (h : partitionLstsq lstsq z fz shells sumtol = .error e) : ∃ r, e = .value r := by
  obtain ⟨e', h'⟩ := (problem_error_iff z fz shells sumtol).2
    ((partition_lstsq_error_iff lstsq z fz shells sumtol).1 ⟨e, h⟩)
  unfold partitionLstsq at h
  rw [h'] at h
  cases h
  exact problem_raises h'

/-- **C126.** `partition_nnls` raises `ValueError` for everything that it rejects before it solves the
problem. -/
theorem partition_nnls_raises (qr : Qr) (solve : Algorithm.Solver) (fuel : ℕ) {z : List ℝ}
    {fz : NdArray ℝ} {shells : List RadialWindow} {sumtol : ℝ}
    (h : shells = [] ∨ (∃ w ∈ shells, w.knots = []) ∨ z = [] ∨ (unionGrid z shells).length < 2 ∨
      ¬ ∃ dims, fz.shape = dims ++ [z.length] ∧ 0 ∉ dims) :
    ∃ r, partitionNnls qr solve fuel z fz shells sumtol = some (.error (.value r)) := by
  obtain ⟨e, h'⟩ := (problem_error_iff z fz shells sumtol).2 h
  obtain ⟨r, rfl⟩ := problem_raises h'
  exact ⟨r, by rw [partitionNnls, h']⟩

example (lstsq : Lstsq) (fz : NdArray ℝ) :
    ∃ r, partitionLstsq lstsq [0, 1] fz [] (1 / 100) = .error (.value r) := by
  obtain ⟨e, h⟩ := (partition_lstsq_error_iff lstsq [0, 1] fz [] (1 / 100)).2 (.inl rfl)
  obtain ⟨r, rfl⟩ := partition_lstsq_raises lstsq h
  exact ⟨r, h⟩

example (fz : NdArray ℝ) : partitionRestrictNd [0, 1] fz [⟨[], 0⟩] = .error .index := by
  simp [partitionRestrictNd, restrictNd, RadialWindow.za, Except.map, bind, Except.bind]

end Glass.Shells

namespace Glass.Algorithm

open NdArray

theorem reshape_raises {α : Type} {a : NdArray α} {s : List ℕ} {e : Err} (h : a.reshape s = .error e) :
    ∃ r, e = .value r := by
  unfold NdArray.reshape at h
  split_ifs at h
  cases h
  exact ⟨_, rfl⟩

theorem nearcorrLoop_raises {n : ℕ} (eigh : Eigh n) (eps tol : ℝ) {e : Err} :
    ∀ {k : ℕ} {y ds : NdArray (NanMatrix n)}, nearcorrLoop eigh eps tol k y ds = .error e →
      ∃ r, e = .value r
  | 0, _, _, h => by simp [nearcorrLoop] at h
  | k + 1, y, ds, h => by
    unfold nearcorrLoop at h
    rcases h1 : NdArray.map₂ nanSub y ds with e1 | r
    · rw [h1] at h
      cases h
      exact (Arrays.map₂_error h1).1
    rw [h1] at h
    rcases h2 : NdArray.map₂ nanSub (r.map (nanClip eigh eps)) r with e2 | ds'
    · simp only [h2, bind, Except.bind] at h
      cases h
      exact (Arrays.map₂_error h2).1
    rcases h3 : NdArray.map₂ (converged tol) ((r.map (nanClip eigh eps)).map unitDiag)
        (r.map (nanClip eigh eps)) with e3 | c
    · simp only [h2, h3, bind, Except.bind] at h
      cases h
      exact (Arrays.map₂_error h3).1
    simp only [h2, h3, bind, Except.bind] at h
    split_ifs at h
    exact nearcorrLoop_raises eigh eps tol h

/-- **C126.** Whatever `nearcorr` rejects, matrices without entries for one, raises `ValueError`. -/
theorem nearcorr_raises {n : ℕ} (eigh : Eigh n) (eps : ℝ) {a : NdArray (Matrix (Fin n) (Fin n) ℝ)}
    {tol : Option ℝ} {niter : ℕ} :
    (∀ e, nearcorr eigh eps a tol niter = .error e → ∃ r, e = .value r) ∧
      (n = 0 → ∃ r, nearcorr eigh eps a tol niter = .error (.value r)) := by
  constructor
  · intro e h
    unfold nearcorr at h
    simp only at h
    split_ifs at h
    · cases h; exact ⟨_, rfl⟩
    rcases h1 : NdArray.reshape (a.map some) [NdArray.size a.shape] with e1 | y
    · rw [h1] at h
      cases h
      exact reshape_raises h1
    rw [h1] at h
    rcases h2 : nearcorrLoop eigh eps (tol.getD (n * eps)) niter y (a.map fun _ => some 0)
      with e2 | ⟨y', warn⟩
    · simp only [h2, bind, Except.bind] at h
      cases h
      exact nearcorrLoop_raises eigh eps _ h2
    rcases h3 : NdArray.reshape y' a.shape with e3 | y''
    · simp only [h2, h3, bind, Except.bind] at h
      cases h
      exact reshape_raises h3
    · simp [h2, h3, bind, Except.bind] at h
  · rintro rfl
    exact ⟨"cannot reshape array of size 0", by simp [nearcorr]⟩

end Glass.Algorithm
