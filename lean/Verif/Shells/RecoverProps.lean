import Mathlib.Analysis.InnerProductSpace.PiL2
import Mathlib.Analysis.InnerProductSpace.Projection.Basic
import Verif.Shells.PartitionProps

/-!
# Partition recovers combined windows (C84, C85)
-/

namespace Glass.Shells

open Glass Glass.Num Glass.NdArray Matrix MeasureTheory

/-- A routine that solves the normal equations exists, so the assumption `LstsqLaw` can be met. -/
theorem exists_lstsq : ∃ lstsq : Lstsq, LstsqLaw lstsq := by
  have key : ∀ (m k : ℕ) (a : Matrix (Fin m) (Fin k) ℝ) (b : Fin m → ℝ), ∃ x : Fin k → ℝ,
      ∀ j, ∑ i, (b i - ∑ l, a i l * x l) * a i j = 0 := by
    intro m k a b
    let T := Matrix.toEuclideanLin a
    let K := LinearMap.range T
    let v : EuclideanSpace ℝ (Fin m) := WithLp.toLp 2 b
    obtain ⟨x, hx⟩ : ∃ x, T x = K.starProjection v :=
      LinearMap.mem_range.1 (Submodule.starProjection_apply_mem K v)
    refine ⟨WithLp.ofLp x, fun j => ?_⟩
    have h1 : v - K.starProjection v ∈ Kᗮ := Submodule.sub_starProjection_mem_orthogonal v
    have h2 := (Submodule.mem_orthogonal' K _).1 h1
      (T (WithLp.toLp 2 (Pi.single j 1))) (LinearMap.mem_range_self _ _)
    rw [← hx] at h2
    rw [PiLp.inner_apply] at h2
    rw [← h2]
    apply Finset.sum_congr rfl
    intro i _
    simp [T, v, Matrix.toLpLin_apply, Matrix.mulVec, dotProduct, mul_comm]
  choose f hf using key
  exact ⟨f, hf⟩

/-- A window that vanishes at its ends has the same integral over every grid that contains its
points. -/
theorem trapezoid_extend {f : List (ℝ × ℝ)} (hf : Inc f) {p q : ℝ × ℝ} (hp : f.head? = some p)
    (hq : f.getLast? = some q) (hp0 : p.2 = 0) (hq0 : q.2 = 0) {zs : List ℝ}
    (hs : zs.Pairwise (· < ·)) (hsub : ∀ k ∈ f, k.1 ∈ zs) :
    trapezoid (sample (interp (some 0) (some 0) f) zs) = trapezoid f := by
  have hpm : p ∈ f := List.mem_of_head? hp
  have hqm : q ∈ f := List.mem_of_getLast? hq
  obtain ⟨i2, s2⟩ := trapezoid_self hf hp hq
  have hA : AffineBetween (interp (some 0) (some 0) f) zs := by
    apply affineBetween_of hs
    intro c d _ _ hcd hno
    exact zeroInterp_affine hf hp hq hcd (Or.inl hp0) (Or.inl hq0)
      (fun k hk => hno k.1 (hsub k hk))
  have hzero : ∀ (c d : ℝ), c ≤ d → (∀ x, c ≤ x → x ≤ d → interp (some 0) (some 0) f x = 0) →
      IntervalIntegrable (interp (some 0) (some 0) f) volume c d ∧
        ∫ x in c..d, interp (some 0) (some 0) f x = 0 := by
    intro c d hcd h0
    have := affine_integral (f := interp (some 0) (some 0) f) (p := 0) (q := 0) hcd
      (by intro x hx hx'; rw [h0 x hx hx']; ring)
    rw [this.2, h0 c le_rfl hcd, h0 d hcd le_rfl]
    exact ⟨this.1, by ring⟩
  have hout : ∀ x, x ≤ p.1 ∨ q.1 ≤ x → interp (some 0) (some 0) f x = 0 := by
    intro x hx
    rcases hx with hx | hx
    · rcases hx.lt_or_eq with hlt | rfl
      · apply interp_zero
        rintro ⟨a, b, ha, -, h3, -⟩
        rw [hp] at ha
        simp only [Option.some.injEq] at ha
        subst ha
        linarith
      · rw [interp_knot hf hpm, hp0]
    · rcases hx.lt_or_eq with hlt | rfl
      · apply interp_zero
        rintro ⟨a, b, -, hb, -, h3⟩
        rw [hq] at hb
        simp only [Option.some.injEq] at hb
        subst hb
        linarith
      · rw [interp_knot hf hqm, hq0]
  rcases zs with _ | ⟨z0, zs⟩
  · simpa using hsub p hpm
  · obtain ⟨zl, hzl⟩ : ∃ zl, (z0 :: zs).getLast? = some zl :=
      ⟨_, List.getLast?_eq_getLast_of_ne_nil (by simp)⟩
    obtain ⟨-, e⟩ := trapezoid_integral _ zs z0 (hs.imp fun h => h.le) hA zl hzl
    rw [e, s2]
    have h1 : z0 ≤ p.1 := head_le hs rfl (hsub p hpm)
    have h2 : q.1 ≤ zl := le_last hs hzl (hsub q hqm)
    obtain ⟨j1, t1⟩ := hzero z0 p.1 h1 fun x _ hx => hout x (Or.inl hx)
    obtain ⟨j2, t2⟩ := hzero q.1 zl h2 fun x hx _ => hout x (Or.inr hx)
    rw [← intervalIntegral.integral_add_adjacent_intervals (j1.trans i2) j2,
      ← intervalIntegral.integral_add_adjacent_intervals j1 i2, t1, t2]
    ring

/-- The windows and the function to which the recovery applies: increasing windows that vanish at
their ends, with points on the grid `z` and non-vanishing integral, linearly independent on
the grid; and values of the function that are a combination of the normalised windows. -/
structure Recoverable (z : List ℝ) (shells : List RadialWindow) : Prop where
  sorted : z.Pairwise (· < ·)
  two : 2 ≤ z.length
  nonempty : shells ≠ []
  inc : ∀ w ∈ shells, Inc w.knots
  ends : ∀ w ∈ shells, ∃ p q, w.knots.head? = some p ∧ w.knots.getLast? = some q ∧
    p.2 = 0 ∧ q.2 = 0
  onGrid : ∀ w ∈ shells, ∀ t ∈ w.za, t ∈ z
  integral : ∀ w ∈ shells, trapezoid w.knots ≠ 0
  independent : ∀ x : Fin shells.length → ℝ,
    (∀ t ∈ z, ∑ i : Fin shells.length, x i * shells[i].eval t = 0) → x = 0

/-- The values of `fz` along the last axis are those of `combine` with weights `c`. -/
def IsCombination (z : List ℝ) (shells : List RadialWindow) (fz : NdArray ℝ) (i : List ℕ)
    (c : List ℝ) : Prop :=
  c.length = shells.length ∧ ∀ k (hk : k < z.length), combine z[k] c shells = .ok (fz.get (i ++ [k]))

theorem combine_sum {t : ℝ} {c : List ℝ} {shells : List RadialWindow} {r : ℝ}
    (hc : c.length = shells.length) (h : combine t c shells = .ok r) :
    r = ∑ i : Fin shells.length, c[i.val]! * (shells[i].eval t / trapezoid shells[i].knots) := by
  rw [combine_eq h]
  clear h
  induction shells generalizing c with
  | nil => simp
  | cons w ws ih =>
    rcases c with _ | ⟨d, c⟩
    · simp at hc
    · simp only [List.zip_cons_cons, List.map_cons, List.sum_cons]
      rw [ih (by simpa using hc)]
      simp only [List.length_cons]
      rw [Fin.sum_univ_succ]
      simp

theorem grid_unique {z : List ℝ} {shells : List RadialWindow} (hr : Recoverable z shells)
    {zp : List ℝ} (hg : IsGrid z shells zp) : zp = z := by
  apply sorted_unique hg.sorted hr.sorted
  intro t
  rw [hg.mem]
  constructor
  · rintro (h | ⟨w, hw, h⟩)
    · exact h
    · exact hr.onGrid w hw t h
  · exact Or.inl

theorem window_integral {z : List ℝ} {shells : List RadialWindow} (hr : Recoverable z shells)
    {w : RadialWindow} (hw : w ∈ shells) : trapezoid (sample w.eval z) = trapezoid w.knots := by
  obtain ⟨p, q, hp, hq, hp0, hq0⟩ := hr.ends w hw
  exact trapezoid_extend (hr.inc w hw) hp hq hp0 hq0 hr.sorted fun k hk =>
    hr.onGrid w hw k.1 (List.mem_map_of_mem hk)

theorem slice_sample {z : List ℝ} {fz : NdArray ℝ} {i : List ℕ} {g : ℝ → ℝ}
    (h : ∀ k (hk : k < z.length), fz.get (i ++ [k]) = g z[k]) :
    z.zip (slice fz z.length i) = sample g z := by
  rw [← zip_map_sample]
  congr 1
  apply List.ext_getElem
  · simp [slice]
  · intro k h1 h2
    have hk : k < z.length := by simpa using h2
    simp [slice, h k hk]

theorem trapezoid_sum {n : ℕ} (c : Fin n → ℝ) (g : Fin n → ℝ → ℝ) (z : List ℝ) :
    trapezoid (sample (fun t => ∑ i, c i * g i t) z) = ∑ i, c i * trapezoid (sample (g i) z) := by
  induction n with
  | zero =>
    have : sample (fun t => ∑ i : Fin 0, c i * g i t) z = sample (fun t => 0 * (0 : ℝ)) z :=
      sample_congr fun t _ => by simp
    rw [this, trapezoid_sample_mul]
    simp
  | succ n ih =>
    simp only [Fin.sum_univ_castSucc]
    rw [trapezoid_sample_add, ih, trapezoid_sample_mul]

/-- For a combination of the windows, the combination's weights have no deviation, and they are the
only ones. -/
theorem cost_zero_iff {z : List ℝ} {shells : List RadialWindow} (hr : Recoverable z shells)
    {fz : NdArray ℝ} {i : List ℕ} {c : List ℝ} (hc : IsCombination z shells fz i c) {tol : ℝ}
    (x : Fin shells.length → ℝ) :
    cost z shells (target z fz i) (total z fz i) tol x = 0 ↔ ∀ j, x j = c[j.val]! := by
  obtain ⟨g, hgd⟩ : ∃ g : ℝ → ℝ, g = fun t => ∑ j : Fin shells.length,
      c[j.val]! / trapezoid shells[j].knots * shells[j].eval t := ⟨_, rfl⟩
  have hval : ∀ k (hk : k < z.length), fz.get (i ++ [k]) = g z[k] := by
    intro k hk
    rw [hgd]
    simp only
    rw [combine_sum hc.1 (hc.2 k hk)]
    apply Finset.sum_congr rfl
    intro j _
    ring
  have hmem : ∀ j : Fin shells.length, shells[j] ∈ shells := fun j => List.getElem_mem j.2
  have htot : total z fz i = ∑ j : Fin shells.length, c[j.val]! := by
    rw [total, slice_sample hval, hgd, trapezoid_sum]
    apply Finset.sum_congr rfl
    intro j _
    have h1 := window_integral hr (hmem j)
    have h2 := hr.integral _ (hmem j)
    rw [h1]
    field_simp
  have htar : ∀ k : Fin z.length, target z fz i z[k] =
      ∑ j : Fin shells.length, c[j.val]! * normalised z shells[j] z[k] := by
    intro k
    have hi : Inc (z.zip (slice fz z.length i)) := by
      rw [slice_sample hval]; exact inc_sample.2 hr.sorted
    have hm : ((z[k], fz.get (i ++ [k.val])) : ℝ × ℝ) ∈ z.zip (slice fz z.length i) := by
      rw [slice_sample hval, hval k.val k.2]
      exact List.mem_map_of_mem (List.getElem_mem k.2)
    rw [target, interp_knot hi hm]
    simp only
    rw [hval k.val k.2, hgd]
    apply Finset.sum_congr rfl
    intro j _
    rw [normalised, window_integral hr (hmem j)]
    simp only [Fin.getElem_fin]
    ring
  constructor
  · intro h0
    unfold cost at h0
    have h1 : 0 ≤ shapeCost z shells (target z fz i) x := Finset.sum_nonneg fun _ _ => sq_nonneg _
    have h2 := sq_nonneg ((∑ j, x j - total z fz i) / tol)
    have h3 : shapeCost z shells (target z fz i) x = 0 := by linarith
    unfold shapeCost at h3
    rw [Finset.sum_eq_zero_iff_of_nonneg fun _ _ => sq_nonneg _] at h3
    have h4 : (fun j : Fin shells.length => (x j - c[j.val]!) / trapezoid shells[j].knots) = 0 := by
      apply hr.independent
      intro t ht'
      obtain ⟨k, hk, rfl⟩ := List.getElem_of_mem ht'
      have h5 := h3 ⟨k, hk⟩ (Finset.mem_univ _)
      have h6 := spacing_pos hr.sorted hr.two hk
      have h7 := pow_eq_zero_iff (two_ne_zero) |>.1 h5
      rcases mul_eq_zero.1 h7 with h8 | h8
      · exact absurd h8 h6.ne'
      · rw [htar ⟨k, hk⟩, ← Finset.sum_sub_distrib] at h8
        rw [← h8]
        apply Finset.sum_congr rfl
        intro j _
        rw [normalised, window_integral hr (hmem j)]
        simp only [Fin.getElem_fin]
        ring
    intro j
    have h5 := congrFun h4 j
    simp only [Pi.zero_apply] at h5
    rcases div_eq_zero_iff.1 h5 with h | h
    · linarith
    · exact absurd h (hr.integral _ (hmem j))
  · intro h
    unfold cost shapeCost
    have e : ∑ j, x j - total z fz i = 0 := by
      rw [htot, sub_eq_zero]
      exact Finset.sum_congr rfl fun j _ => h j
    rw [e, Finset.sum_eq_zero]
    · simp
    · intro k _
      rw [htar k, ← Finset.sum_sub_distrib, Finset.sum_eq_zero]
      · simp
      · intro j _
        rw [h j]; ring

/-- **C84.** `partition_lstsq` inverts `combine`: for windows that vanish at their ends and are
linearly independent, on a grid with all their points, the partition of a combination of the
windows returns the weights of the combination, for every position of the leading axes. -/
theorem partition_lstsq_recovers {lstsq : Lstsq} (hl : LstsqLaw lstsq) {z : List ℝ}
    {fz : NdArray ℝ} {shells : List RadialWindow} {sumtol : ℝ} (hr : Recoverable z shells)
    {dims : List ℕ} (hf : fz.shape = dims ++ [z.length]) (hd : 0 ∉ dims) {c : List ℕ → List ℝ}
    (hc : ∀ i ∈ indices dims, IsCombination z shells fz i (c i)) :
    ∃ r, partitionLstsq lstsq z fz shells sumtol = .ok (some r) ∧
      r.shape = shells.length :: dims ∧ ∀ i ∈ indices dims, ∀ j < shells.length,
        r.get (j :: i) = (c i)[j]! := by
  have hne : ¬ ∃ e, partitionLstsq lstsq z fz shells sumtol = .error e := by
    rw [partition_lstsq_error_iff]
    rintro (h | ⟨w, hw, h⟩ | h | h | h)
    · exact hr.nonempty h
    · obtain ⟨p, q, hp, -⟩ := hr.ends w hw
      rw [h] at hp; simp at hp
    · have := hr.two; rw [h] at this; simp at this
    · have : unionGrid z shells = z := grid_unique hr
        ⟨unionGrid_sorted hr.nonempty, fun t => unionGrid_mem⟩
      rw [this] at h
      have := hr.two
      omega
    · exact h ⟨dims, hf, hd⟩
  rcases h : partitionLstsq lstsq z fz shells sumtol with e | o
  · exact absurd ⟨e, h⟩ hne
  have hg : IsGrid z shells z := ⟨hr.sorted, fun t => by
    constructor
    · exact Or.inl
    · rintro (h | ⟨w, hw, h⟩)
      · exact h
      · exact hr.onGrid w hw t h⟩
  rcases o with _ | r
  · obtain ⟨w, hw, h0⟩ := (partition_lstsq_nan_iff lstsq h hg).1 rfl
    rw [window_integral hr hw] at h0
    exact absurd h0 (hr.integral w hw)
  obtain ⟨zp, dims', hg', hf', hrs, hm⟩ := partition_lstsq_minimal hl h
  obtain rfl := grid_unique hr hg'
  rw [hf] at hf'
  obtain ⟨rfl, -⟩ := List.append_inj' hf' (by simp)
  refine ⟨r, rfl, hrs, fun i hi j hj => ?_⟩
  have h1 := hm i hi (fun j => (c i)[j.val]!)
  rw [(cost_zero_iff hr (hc i hi) _).2 fun j => rfl] at h1
  have h2 : 0 ≤ cost zp shells (target zp fz i) (total zp fz i) (max sumtol 1e-4)
      (fun j => r.get (j.val :: i)) :=
    add_nonneg (Finset.sum_nonneg fun _ _ => sq_nonneg _) (sq_nonneg _)
  exact (cost_zero_iff hr (hc i hi) _).1 (le_antisymm h1 h2) ⟨j, hj⟩

end Glass.Shells
