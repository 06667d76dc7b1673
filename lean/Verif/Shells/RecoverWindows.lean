import Verif.Shells.RecoverProps
import Verif.Shells.WindowProps

/-!
# Partition recovers combinations of linear and cubic windows, but not of top hats (C84)
-/

namespace Glass.Shells

open Glass Glass.Num Glass.NdArray

/-- A non-negative function with a positive point has a positive integral. -/
theorem trapezoid_pos_of_mem : ∀ {ks : List (ℝ × ℝ)}, Inc ks → (∀ k ∈ ks, 0 ≤ k.2) →
    2 ≤ ks.length → (∃ k ∈ ks, 0 < k.2) → 0 < trapezoid ks
  | [], _, _, h, _ => by simp at h
  | [_], _, _, h, _ => by simp at h
  | [k, k'], hi, h0, _, hp => by
    have h1 : k.1 < k'.1 := (List.pairwise_cons.1 hi).1 k' (by simp)
    have h2 := h0 k (by simp)
    have h3 := h0 k' (by simp)
    have h4 : 0 < k'.2 + k.2 := by
      obtain ⟨j, hj, hjp⟩ := hp
      simp at hj
      rcases hj with rfl | rfl <;> linarith
    simp only [trapezoid, add_zero]
    have : 0 < (k'.1 - k.1) * (k'.2 + k.2) := mul_pos (by linarith) h4
    linarith
  | k :: k' :: k'' :: ks, hi, h0, _, hp => by
    have h1 : k.1 < k'.1 := (List.pairwise_cons.1 hi).1 k' (by simp)
    have h2 := h0 k (by simp)
    have h3 := h0 k' (by simp)
    have hi' : Inc (k' :: k'' :: ks) := hi.tail
    have h0' : ∀ j ∈ k' :: k'' :: ks, 0 ≤ j.2 := fun j hj => h0 j (List.mem_cons_of_mem _ hj)
    have hnn : 0 ≤ trapezoid (k' :: k'' :: ks) :=
      trapezoid_nonneg (hi'.imp fun h => le_of_lt h) h0'
    have hm : 0 ≤ (k'.1 - k.1) * (k'.2 + k.2) := mul_nonneg (by linarith) (by linarith)
    rw [trapezoid]
    obtain ⟨j, hj, hjp⟩ := hp
    rcases List.mem_cons.1 hj with rfl | hj
    · have : 0 < (k'.1 - j.1) * (k'.2 + j.2) := mul_pos (by linarith) (by linarith)
      linarith
    · have := trapezoid_pos_of_mem hi' h0' (by simp) ⟨j, hj, hjp⟩
      linarith

/-- Windows of one shape between neighbouring nodes satisfy the conditions of the recovery. -/
theorem profile_recoverable {p : ℝ → ℝ} (p0 : p 0 = 0) (p1 : p 1 = 1)
    (hp : ∀ u, p u + p (1 - u) = 1) (hb : ∀ u, 0 ≤ u → u ≤ 1 → 0 ≤ p u ∧ p u ≤ 1)
    {rnd : ℝ → ℤ} {dz : ℝ} {win : ℝ → ℝ → ℝ → RadialWindow}
    (hwin : ∀ a b c, a < b → b < c → (win a b c).knots = windowKnots p rnd dz a b c)
    {zgrid : List ℝ} (hz : zgrid.Pairwise (· < ·)) (h3 : 3 ≤ zgrid.length) {z : List ℝ}
    (hs : z.Pairwise (· < ·))
    (hon : ∀ w ∈ (triples zgrid).map fun t => win t.1 t.2.1 t.2.2, ∀ t ∈ w.za, t ∈ z) :
    Recoverable z ((triples zgrid).map fun t => win t.1 t.2.1 t.2.2) := by
  obtain ⟨z0, z1, z2, l, rfl⟩ : ∃ z0 z1 z2 l, zgrid = z0 :: z1 :: z2 :: l := by
    rcases zgrid with _ | ⟨z0, _ | ⟨z1, _ | ⟨z2, l⟩⟩⟩
    · simp at h3
    · simp at h3
    · simp at h3
    · exact ⟨_, _, _, _, rfl⟩
  have hne : triples (z0 :: z1 :: z2 :: l) ≠ [] := by simp [triples]
  -- the point at the node
  have hmid : ∀ a b c, a < b → b < c → (b, (1 : ℝ)) ∈ windowKnots p rnd dz a b c := by
    intro a b c hab hbc
    obtain ⟨m, hm⟩ := linspace_cons (a := b) (b := c) (gridSize_ge rnd dz b c)
    unfold windowKnots
    rw [hm]
    have : fall p b c b = 1 := by
      unfold fall
      rw [sub_self, zero_div, sub_zero, p1]
    simp [sample, this]
  have hnn : ∀ a b c, a < b → b < c → ∀ x, 0 ≤ (win a b c).eval x := by
    intro a b c hab hbc x
    rw [RadialWindow.eval, hwin a b c hab hbc, window_step p0 p1 hp hab hbc]
    rcases le_total x b with hx | hx
    · rw [step_eq_zero (a := b) p0 hbc hx]
      linarith [(step_bounds (rnd := rnd) (dz := dz) (x := x) hb hab).1]
    · rw [step_eq_one (b := b) p1 hab hx]
      linarith [(step_bounds (rnd := rnd) (dz := dz) (x := x) hb hbc).2]
  have hsum : ∀ x, (((triples (z0 :: z1 :: z2 :: l)).map fun t => win t.1 t.2.1 t.2.2).map
      fun w => w.eval x).sum ≤ 1 := by
    intro x
    obtain ⟨y, y', -, -, g3, g4, g5⟩ := dropLast_last (z0 :: z1 :: z2 :: l) (by simp)
    rw [sum_windows p0 p1 hp hwin hz x rfl, ← g4, ← g5]
    have b1 := step_bounds (rnd := rnd) (dz := dz) (x := x) hb
      ((List.pairwise_cons.1 hz).1 z1 (by simp))
    have b2 := step_bounds (rnd := rnd) (dz := dz) (x := x) hb (g3 hz)
    linarith [b1.2, b2.1]
  have hall : ∀ w ∈ (triples (z0 :: z1 :: z2 :: l)).map fun t => win t.1 t.2.1 t.2.2,
      ∃ a b c, a < b ∧ b < c ∧ w = win a b c := by
    intro w hw
    obtain ⟨t, ht, rfl⟩ := List.mem_map.1 hw
    obtain ⟨h1, h2⟩ := triples_lt hz t ht
    exact ⟨_, _, _, h1, h2, rfl⟩
  constructor
  · exact hs
  · obtain ⟨w, hw⟩ := List.exists_mem_of_ne_nil ((triples (z0 :: z1 :: z2 :: l)).map
      fun t => win t.1 t.2.1 t.2.2) (by simpa using hne)
    obtain ⟨a, b, c, hab, hbc, rfl⟩ := hall w hw
    have h1 := hon _ hw a (by
      rw [RadialWindow.za, hwin a b c hab hbc]
      exact List.mem_map.2 ⟨_, List.mem_of_head? windowKnots_head, rfl⟩)
    have h2 := hon _ hw c (by
      rw [RadialWindow.za, hwin a b c hab hbc]
      exact List.mem_map.2 ⟨_, List.mem_of_getLast? windowKnots_last, rfl⟩)
    rcases z with _ | ⟨u, _ | ⟨v, z⟩⟩
    · simp at h1
    · simp at h1 h2; linarith
    · simp
  · simpa using hne
  · intro w hw
    obtain ⟨a, b, c, hab, hbc, rfl⟩ := hall w hw
    rw [hwin a b c hab hbc]
    exact windowKnots_inc hab hbc
  · intro w hw
    obtain ⟨a, b, c, hab, hbc, rfl⟩ := hall w hw
    rw [hwin a b c hab hbc]
    refine ⟨_, _, windowKnots_head, windowKnots_last, ?_, ?_⟩
    · simp [rise, p0]
    · have : c - b ≠ 0 := by linarith
      simp [fall, div_self this, p0]
  · exact hon
  · intro w hw
    obtain ⟨a, b, c, hab, hbc, rfl⟩ := hall w hw
    have hi : Inc (windowKnots p rnd dz a b c) := windowKnots_inc hab hbc
    rw [hwin a b c hab hbc]
    refine (trapezoid_pos_of_mem hi ?_ ?_ ⟨_, hmid a b c hab hbc, by norm_num⟩).ne'
    · intro k hk
      have := hnn a b c hab hbc k.1
      rwa [RadialWindow.eval, hwin a b c hab hbc, interp_knot hi hk] at this
    · have h1 : (windowKnots p rnd dz a b c).head? = some (a, rise p a b a) := windowKnots_head
      have h2 := hmid a b c hab hbc
      rcases h : windowKnots p rnd dz a b c with _ | ⟨u, _ | ⟨v, ks⟩⟩
      · rw [h] at h1; simp at h1
      · rw [h] at h1 h2
        simp at h1 h2
        rw [h1] at h2
        simp at h2
        linarith [h2.1]
      · simp
  · intro x hx
    funext j
    have hw := List.getElem_mem j.2
    obtain ⟨a, b, c, hab, hbc, e⟩ := hall _ hw
    have hb1 : (win a b c).eval b = 1 := by
      rw [RadialWindow.eval, hwin a b c hab hbc,
        interp_knot (windowKnots_inc hab hbc) (hmid a b c hab hbc)]
    have hbz : b ∈ z := hon _ hw b (by
      rw [e, RadialWindow.za, hwin a b c hab hbc]
      exact List.mem_map.2 ⟨_, hmid a b c hab hbc, rfl⟩)
    have h1 := hx b hbz
    have h2 := hsum b
    rw [← Fin.sum_univ_fun_getElem] at h2
    have hnn' : ∀ i : Fin ((triples (z0 :: z1 :: z2 :: l)).map
        fun t => win t.1 t.2.1 t.2.2).length,
        0 ≤ (((triples (z0 :: z1 :: z2 :: l)).map fun t => win t.1 t.2.1 t.2.2)[i.1]).eval b := by
      intro i
      obtain ⟨a', b', c', hab', hbc', e'⟩ := hall _ (List.getElem_mem i.2)
      rw [e']
      exact hnn a' b' c' hab' hbc' b
    have hj1 : (((triples (z0 :: z1 :: z2 :: l)).map fun t => win t.1 t.2.1 t.2.2)[j.1]).eval b
        = 1 := by rw [e, hb1]
    have hoth : ∀ i, i ≠ j →
        (((triples (z0 :: z1 :: z2 :: l)).map fun t => win t.1 t.2.1 t.2.2)[i.1]).eval b = 0 := by
      intro i hij
      have h3 := Finset.sum_le_sum_of_subset_of_nonneg (Finset.subset_univ {i, j})
        fun k _ _ => hnn' k
      rw [Finset.sum_pair hij, hj1] at h3
      linarith [hnn' i]
    rw [Finset.sum_eq_single j] at h1
    · simp only [Fin.getElem_fin] at h1
      rw [hj1, mul_one] at h1
      exact h1
    · intro i _ hij
      simp only [Fin.getElem_fin]
      rw [hoth i hij, mul_zero]
    · intro h; exact absurd (Finset.mem_univ _) h

theorem linear_windows_recoverable {rnd : ℝ → ℤ} {zgrid : List ℝ} {dz : ℝ}
    {ws : List RadialWindow} (hz : zgrid.Pairwise (· < ·))
    (h : linearWindows rnd zgrid dz none = .ok ws) {z : List ℝ} (hs : z.Pairwise (· < ·))
    (hon : ∀ w ∈ ws, ∀ t ∈ w.za, t ∈ z) : Recoverable z ws := by
  unfold linearWindows at h
  split_ifs at h with hl
  simp only [Except.ok.injEq] at h
  subst h
  exact profile_recoverable (p := id) rfl rfl linear_profile.1 linear_profile.2
    (fun a b c hab hbc => linearWindow_knots hab hbc) hz (by omega) hs hon

theorem cubic_windows_recoverable {rnd : ℝ → ℤ} {zgrid : List ℝ} {dz : ℝ}
    {ws : List RadialWindow} (hz : zgrid.Pairwise (· < ·))
    (h : cubicWindows rnd zgrid dz none = .ok ws) {z : List ℝ} (hs : z.Pairwise (· < ·))
    (hon : ∀ w ∈ ws, ∀ t ∈ w.za, t ∈ z) : Recoverable z ws := by
  unfold cubicWindows at h
  split_ifs at h with hl
  simp only [Except.ok.injEq] at h
  subst h
  exact profile_recoverable (p := fun u => u ^ 2 * (3 - 2 * u)) (by norm_num) (by norm_num)
    cubic_profile.1 cubic_profile.2
    (fun a b c hab hbc => cubicWindow_knots hab hbc) hz (by omega) hs hon

/-- **C84**, linear windows: least-squares partition is a left inverse of `combine`. -/
theorem partition_lstsq_recovers_linear {lstsq : Lstsq} (hl : LstsqLaw lstsq) {rnd : ℝ → ℤ}
    {zgrid : List ℝ} {dz : ℝ} {ws : List RadialWindow} (hz : zgrid.Pairwise (· < ·))
    (h : linearWindows rnd zgrid dz none = .ok ws) {z : List ℝ} (hs : z.Pairwise (· < ·))
    (hon : ∀ w ∈ ws, ∀ t ∈ w.za, t ∈ z) {fz : NdArray ℝ} {sumtol : ℝ}
    {dims : List ℕ} (hf : fz.shape = dims ++ [z.length]) (hd : 0 ∉ dims) {c : List ℕ → List ℝ}
    (hc : ∀ i ∈ indices dims, IsCombination z ws fz i (c i)) :
    ∃ r, partitionLstsq lstsq z fz ws sumtol = .ok (some r) ∧
      r.shape = ws.length :: dims ∧ ∀ i ∈ indices dims, ∀ j < ws.length,
        r.get (j :: i) = (c i)[j]! :=
  partition_lstsq_recovers hl (linear_windows_recoverable hz h hs hon) hf hd hc

/-- **C84**, cubic windows: least-squares partition is a left inverse of `combine`. -/
theorem partition_lstsq_recovers_cubic {lstsq : Lstsq} (hl : LstsqLaw lstsq) {rnd : ℝ → ℤ}
    {zgrid : List ℝ} {dz : ℝ} {ws : List RadialWindow} (hz : zgrid.Pairwise (· < ·))
    (h : cubicWindows rnd zgrid dz none = .ok ws) {z : List ℝ} (hs : z.Pairwise (· < ·))
    (hon : ∀ w ∈ ws, ∀ t ∈ w.za, t ∈ z) {fz : NdArray ℝ} {sumtol : ℝ}
    {dims : List ℕ} (hf : fz.shape = dims ++ [z.length]) (hd : 0 ∉ dims) {c : List ℕ → List ℝ}
    (hc : ∀ i ∈ indices dims, IsCombination z ws fz i (c i)) :
    ∃ r, partitionLstsq lstsq z fz ws sumtol = .ok (some r) ∧
      r.shape = ws.length :: dims ∧ ∀ i ∈ indices dims, ∀ j < ws.length,
        r.get (j :: i) = (c i)[j]! :=
  partition_lstsq_recovers hl (cubic_windows_recoverable hz h hs hon) hf hd hc

/-- Concrete case: the linear windows of the nodes 0, 1, 2, 3 with spacing 1, on the grid
`[0, 1, 2, 3]`. -/
example : ∃ ws, linearWindows (fun _ => 0) [0, 1, 2, 3] 1 none = .ok ws ∧ ws.length = 2 ∧
    Recoverable [0, 1, 2, 3] ws := by
  refine ⟨_, rfl, rfl, linear_windows_recoverable (zgrid := [0, 1, 2, 3]) (by norm_num) rfl
    (by norm_num) ?_⟩
  intro w hw t ht
  simp [triples] at hw
  rcases hw with rfl | rfl <;>
    · simp [RadialWindow.za, linearWindow, gridSize, applyWeight, linspace, linspaceOpen,
        List.range_succ] at ht
      rcases ht with rfl | rfl | rfl <;> norm_num

/-! ## Top hats -/

/-- A top hat window between 1 and 2. -/
noncomputable def hat : RadialWindow := ⟨[(1, 1), (2, 1)], 3 / 2⟩

/-- The function 0, 1, 1, 0 at the points 0, 1, 2, 3. -/
noncomputable def hatValues : NdArray ℝ := ⟨[4], fun i => if i = [1] ∨ i = [2] then 1 else 0⟩

theorem hat_combination : IsCombination [0, 1, 2, 3] [hat] hatValues [] [1] := by
  refine ⟨rfl, fun k hk => ?_⟩
  have : k = 0 ∨ k = 1 ∨ k = 2 ∨ k = 3 := by simp at hk; omega
  rcases this with rfl | rfl | rfl | rfl <;>
    · simp [combine, hat, hatValues, interp, interpIn, trapezoid]
      try norm_num

/-- **C84**, negation for top hats: `partition_lstsq` does not invert `combine` for a window that
does not vanish at its ends.  The function is the combination with weight one, and the result is
two, for every sum tolerance and every least-squares routine. -/
theorem partition_lstsq_tophat {lstsq : Lstsq} (hl : LstsqLaw lstsq) (sumtol : ℝ) :
    ∃ r, partitionLstsq lstsq [0, 1, 2, 3] hatValues [hat] sumtol = .ok (some r) ∧
      r.shape = [1] ∧ r.get [0] = 2 := by
  have hg : IsGrid [0, 1, 2, 3] [hat] [0, 1, 2, 3] := by
    refine ⟨by norm_num, fun t => ?_⟩
    simp [hat, RadialWindow.za]
    tauto
  have hu : unionGrid [0, 1, 2, 3] [hat] = [0, 1, 2, 3] :=
    sorted_unique (unionGrid_sorted (by simp)) hg.sorted fun t => by
      rw [unionGrid_mem, hg.mem, or_assoc, or_self]
  have he : ∀ t : ℝ, t ∈ [(0 : ℝ), 1, 2, 3] → hat.eval t = if t = 1 ∨ t = 2 then 1 else 0 := by
    intro t ht
    simp at ht
    rcases ht with rfl | rfl | rfl | rfl <;>
      norm_num [hat, RadialWindow.eval, interp, interpIn]
  have hsam : trapezoid (sample hat.eval [0, 1, 2, 3]) = 2 := by
    simp only [sample, List.map_cons, List.map_nil]
    rw [he 0 (by simp), he 1 (by simp), he 2 (by simp), he 3 (by simp)]
    norm_num [trapezoid]
  rcases h : partitionLstsq lstsq [0, 1, 2, 3] hatValues [hat] sumtol with e | o
  · have := (partition_lstsq_error_iff lstsq [0, 1, 2, 3] hatValues [hat] sumtol).1 ⟨e, h⟩
    rw [hu] at this
    simp [hat, hatValues] at this
  rcases o with _ | r
  · obtain ⟨w, hw, h0⟩ := (partition_lstsq_nan_iff lstsq h hg).1 rfl
    simp at hw
    subst hw
    rw [hsam] at h0
    norm_num at h0
  obtain ⟨zp, dims, hg', hf, hrs, hm⟩ := partition_lstsq_minimal hl h
  obtain rfl : zp = [0, 1, 2, 3] := sorted_unique hg'.sorted hg.sorted fun t => by
    rw [hg'.mem, hg.mem, or_assoc, or_self]
  have hd : dims = [] := by
    have : dims ++ [4] = [] ++ [4] := by simpa [hatValues] using hf.symm
    exact (List.append_inj' this rfl).1
  subst hd
  refine ⟨r, rfl, hrs, ?_⟩
  have h1 := hm [] (by simp [mem_indices]) (fun _ => 2)
  have hcost : ∀ x : Fin [hat].length → ℝ, cost [0, 1, 2, 3] [hat]
      (target [0, 1, 2, 3] hatValues []) (total [0, 1, 2, 3] hatValues []) (max sumtol 1e-4) x =
      2 * (x 0 / 2 - 1) ^ 2 + ((x 0 - 2) / max sumtol 1e-4) ^ 2 := by
    intro x
    have hsl : slice hatValues [(0 : ℝ), 1, 2, 3].length [] = [0, 1, 1, 0] := by
      simp [slice, hatValues, List.range_succ]
    have htar : ∀ t : ℝ, t ∈ [(0 : ℝ), 1, 2, 3] →
        target [0, 1, 2, 3] hatValues [] t = if t = 1 ∨ t = 2 then 1 else 0 := by
      intro t ht
      rw [target, hsl]
      simp at ht
      rcases ht with rfl | rfl | rfl | rfl <;> norm_num [interp, interpIn]
    have htot : total [0, 1, 2, 3] hatValues [] = 2 := by
      rw [total, hsl]; norm_num [trapezoid]
    have hsp : ∀ k : Fin [(0 : ℝ), 1, 2, 3].length, spacing [0, 1, 2, 3] k = 1 := by
      intro k
      fin_cases k <;> norm_num [spacing]
    have hk : ∀ k : Fin [(0 : ℝ), 1, 2, 3].length, [(0 : ℝ), 1, 2, 3][k] ∈ [(0 : ℝ), 1, 2, 3] :=
      fun k => List.getElem_mem k.2
    unfold cost shapeCost
    simp only [hsp, htar _ (hk _), normalised]
    rw [htot]
    simp only [List.length_cons, List.length_nil, Nat.reduceAdd, Fin.sum_univ_one, Fin.sum_univ_four]
    simp only [Fin.getElem_fin, Fin.val_zero, List.getElem_cons_zero, hsam]
    norm_num
    rw [he 0 (by simp), he 1 (by simp), he 2 (by simp), he 3 (by simp)]
    norm_num
    ring
  rw [hcost, hcost] at h1
  norm_num at h1
  have h2 : 0 ≤ ((r.get [0] - 2) / max sumtol (1 / 10000)) ^ 2 := sq_nonneg _
  have h3 : 0 ≤ (r.get [0] / 2 - 1) ^ 2 := sq_nonneg _
  have h4 : (r.get [0] / 2 - 1) ^ 2 = 0 := by linarith
  have h5 := pow_eq_zero_iff two_ne_zero |>.1 h4
  linarith

end Glass.Shells
