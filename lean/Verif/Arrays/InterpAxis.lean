import Mathlib.Algebra.Order.Floor.Ring
import Mathlib.Algebra.Order.Archimedean.Basic
import Mathlib.Tactic.FieldSimp
import Verif.Arrays.Reduce
import Verif.Numerics.Spec
import Verif.Shells.Partition
import Verif.Shells.PartitionProps

/-!
# Interpolation along any axis, and of periodic functions (C125)

`ndinterp` of `/repo/glass/arraytools.py` with all of its arguments.
-/

namespace Glass.Num

/-- `x % period` for a positive period. -/
noncomputable def pmod (p x : ℝ) : ℝ := x - p * (⌊x / p⌋ : ℤ)

/-- The data points of `numpy.interp` with `period`: they are moved into one period and sorted
(`argsort`; points that coincide are sorted in an order that is not modelled), and the last and the
first one are repeated one period earlier and later. -/
noncomputable def periodicKnots (p : ℝ) (ks : List (ℝ × ℝ)) : List (ℝ × ℝ) :=
  open Classical in
  let ks := ks.map fun k => (pmod p k.1, k.2)
  let ks := ks.mergeSort fun a b => decide (a.1 ≤ b.1)
  (ks.getLast?.toList.map fun k => (k.1 - p, k.2)) ++ ks ++
    ks.head?.toList.map fun k => (k.1 + p, k.2)

/-- `numpy.interp` (called in `_array_api_utils.py:193-201`) with all of its arguments.  With
`period`, the arguments `left` and `right` are ignored. -/
noncomputable def interp1 (left right period : Option ℝ) (ks : List (ℝ × ℝ)) (x : ℝ) : ℝ :=
  match period with
  | none => interp left right ks x
  | some p => interp none none (periodicKnots |p| ks) (pmod |p| x)

theorem pmod_mem {p : ℝ} (hp : 0 < p) (x : ℝ) : 0 ≤ pmod p x ∧ pmod p x < p := by
  have h1 := Int.floor_le (x / p)
  have h2 := Int.lt_floor_add_one (x / p)
  rw [le_div_iff₀ hp] at h1
  rw [div_lt_iff₀ hp] at h2
  unfold pmod
  constructor <;> linarith

theorem pmod_add {p : ℝ} (hp : 0 < p) (x : ℝ) (m : ℤ) : pmod p (x + m * p) = pmod p x := by
  unfold pmod
  rw [show (x + m * p) / p = x / p + m by field_simp, Int.floor_add_intCast]
  push_cast
  ring

/-- The points of one period. -/
noncomputable def oncePeriod (p : ℝ) (ks : List (ℝ × ℝ)) : List (ℝ × ℝ) :=
  open Classical in
  (ks.map fun k => (pmod p k.1, k.2)).mergeSort fun a b => decide (a.1 ≤ b.1)

/-- The points are different modulo the period. -/
def Distinct (p : ℝ) (ks : List (ℝ × ℝ)) : Prop := (ks.map fun k => pmod p k.1).Nodup

theorem mem_oncePeriod {p : ℝ} {ks : List (ℝ × ℝ)} {q : ℝ × ℝ} :
    q ∈ oncePeriod p ks ↔ ∃ k ∈ ks, q = (pmod p k.1, k.2) := by
  unfold oncePeriod
  rw [(List.mergeSort_perm _ _).mem_iff, List.mem_map]
  constructor
  · rintro ⟨k, hk, rfl⟩; exact ⟨k, hk, rfl⟩
  · rintro ⟨k, hk, rfl⟩; exact ⟨k, hk, rfl⟩

theorem oncePeriod_inc {p : ℝ} {ks : List (ℝ × ℝ)} (hd : Distinct p ks) :
    Inc (oncePeriod p ks) := by
  classical
  have h1 : (oncePeriod p ks).Pairwise fun a b => a.1 ≤ b.1 := by
    have := List.pairwise_mergeSort (le := fun a b : ℝ × ℝ => decide (a.1 ≤ b.1))
      (fun a b c h1 h2 => by
        simp only [decide_eq_true_eq] at h1 h2 ⊢
        exact h1.trans h2)
      (fun a b => by simpa using le_total a.1 b.1) (ks.map fun k => (pmod p k.1, k.2))
    unfold oncePeriod
    refine List.Pairwise.imp (fun h => ?_) this
    simpa using h
  have h2 : ((oncePeriod p ks).map Prod.fst).Nodup := by
    have hp : (oncePeriod p ks).Perm (ks.map fun k => (pmod p k.1, k.2)) := List.mergeSort_perm _ _
    rw [(hp.map Prod.fst).nodup_iff, List.map_map]
    exact hd
  have h3 : (oncePeriod p ks).Pairwise fun a b => a.1 ≠ b.1 := List.pairwise_map.1 h2
  exact (h1.and h3).imp fun h => lt_of_le_of_ne h.1 h.2

theorem periodicKnots_eq (p : ℝ) (ks : List (ℝ × ℝ)) : periodicKnots p ks =
    ((oncePeriod p ks).getLast?.toList.map fun k => (k.1 - p, k.2)) ++ oncePeriod p ks ++
      (oncePeriod p ks).head?.toList.map fun k => (k.1 + p, k.2) := rfl

theorem periodicKnots_inc {p : ℝ} (hp : 0 < p) {ks : List (ℝ × ℝ)} (hd : Distinct p ks) :
    Inc (periodicKnots p ks) := by
  have hmem : ∀ q ∈ oncePeriod p ks, 0 ≤ q.1 ∧ q.1 < p := by
    intro q hq
    obtain ⟨k, -, rfl⟩ := mem_oncePeriod.1 hq
    exact pmod_mem hp k.1
  have hinc := oncePeriod_inc hd
  rw [periodicKnots_eq]
  have hl : ∀ a ∈ (oncePeriod p ks).getLast?.toList.map (fun k => (k.1 - p, k.2)), a.1 < 0 := by
    intro a ha
    obtain ⟨k, hk, rfl⟩ := List.mem_map.1 ha
    have := hmem k (List.mem_of_getLast? (Option.mem_toList.1 hk))
    show k.1 - p < 0
    linarith
  have hr : ∀ a ∈ (oncePeriod p ks).head?.toList.map (fun k => (k.1 + p, k.2)), p ≤ a.1 := by
    intro a ha
    obtain ⟨k, hk, rfl⟩ := List.mem_map.1 ha
    have := hmem k (List.mem_of_head? (Option.mem_toList.1 hk))
    show p ≤ k.1 + p
    linarith
  refine List.pairwise_append.2 ⟨List.pairwise_append.2 ⟨?_, hinc, ?_⟩, ?_, ?_⟩
  · cases (oncePeriod p ks).getLast? <;> simp
  · intro a ha b hb
    have := hl a ha
    have := (hmem b hb).1
    linarith
  · cases (oncePeriod p ks).head? <;> simp
  · intro a ha b hb
    have h2 := hr b hb
    rcases List.mem_append.1 ha with ha | ha
    · have := hl a ha
      linarith
    · have := (hmem a ha).2
      linarith

/-- **C125.** Interpolation with a period is periodic. -/
theorem interp_periodic {p : ℝ} (hp : p ≠ 0) (l r : Option ℝ) (ks : List (ℝ × ℝ)) (x : ℝ) (m : ℤ) :
    interp1 l r (some p) ks (x + m * p) = interp1 l r (some p) ks x := by
  unfold interp1
  simp only
  congr 1
  have hp' : 0 < |p| := abs_pos.2 hp
  rcases abs_choice p with h | h
  · rw [h] at hp' ⊢
    exact pmod_add hp' x m
  · rw [h] at hp' ⊢
    have := pmod_add hp' x (-m)
    rw [← this]
    congr 1
    push_cast
    ring

/-- **C125.** Interpolation with a period passes through all points, in whatever order they are
given. -/
theorem interp_period_knot {p : ℝ} (hp : p ≠ 0) (l r : Option ℝ) {ks : List (ℝ × ℝ)}
    (hd : Distinct |p| ks) {k : ℝ × ℝ} (hk : k ∈ ks) : interp1 l r (some p) ks k.1 = k.2 := by
  have hp' : 0 < |p| := abs_pos.2 hp
  have h : (pmod |p| k.1, k.2) ∈ periodicKnots |p| ks := by
    rw [periodicKnots_eq]
    exact List.mem_append_left _ (List.mem_append_right _ (mem_oncePeriod.2 ⟨k, hk, rfl⟩))
  exact interp_knot (l := none) (r := none) (periodicKnots_inc hp' hd) h

/-- **C125.** Every argument lies in the range of the points, and the interpolation is the straight
line between neighbouring points, also from the last one to the first one of the next period. -/
theorem interp_period_linear {p : ℝ} (hp : p ≠ 0) (l r : Option ℝ) {ks : List (ℝ × ℝ)}
    (hd : Distinct |p| ks) (hne : ks ≠ []) (x : ℝ) :
    InRange (periodicKnots |p| ks) (pmod |p| x) ∧ ∃ g, Interpolates (periodicKnots |p| ks) g ∧
      interp1 l r (some p) ks x = g (pmod |p| x) := by
  have hp' : 0 < |p| := abs_pos.2 hp
  refine ⟨?_, _, interp_interpolates (periodicKnots_inc hp' hd) none none, rfl⟩
  have hne' : oncePeriod |p| ks ≠ [] := by
    obtain ⟨k, ks, rfl⟩ := List.exists_cons_of_ne_nil hne
    exact List.ne_nil_of_mem (mem_oncePeriod.2 ⟨k, by simp, rfl⟩)
  have hmem : ∀ q ∈ oncePeriod |p| ks, 0 ≤ q.1 ∧ q.1 < |p| := by
    intro q hq
    obtain ⟨k, -, rfl⟩ := mem_oncePeriod.1 hq
    exact pmod_mem hp' k.1
  obtain ⟨h1, h2⟩ := pmod_mem hp' x
  have ha : (oncePeriod |p| ks).getLast? = some ((oncePeriod |p| ks).getLast hne') :=
    List.getLast?_eq_getLast_of_ne_nil hne'
  have hb : (oncePeriod |p| ks).head? = some ((oncePeriod |p| ks).head hne') :=
    List.head?_eq_some_head hne'
  have m1 := hmem _ (List.getLast_mem hne')
  have m2 := hmem _ (List.head_mem hne')
  refine ⟨(((oncePeriod |p| ks).getLast hne').1 - |p|, ((oncePeriod |p| ks).getLast hne').2),
    (((oncePeriod |p| ks).head hne').1 + |p|, ((oncePeriod |p| ks).head hne').2), ?_, ?_, ?_, ?_⟩
  · rw [periodicKnots_eq, ha]
    rfl
  · rw [periodicKnots_eq, hb]
    simp
  · dsimp only
    linarith
  · dsimp only
    linarith

theorem adjacent_mem : ∀ {ks : List (ℝ × ℝ)} {a b : ℝ × ℝ}, Inc ks → a ∈ ks → b ∈ ks → a.1 < b.1 →
    (∀ q ∈ ks, q.1 ≤ a.1 ∨ b.1 ≤ q.1) → (a, b) ∈ ks.zip ks.tail
  | [], _, _, _, ha, _, _, _ => by simp at ha
  | [k], a, b, _, ha, hb, hlt, _ => by
    simp only [List.mem_singleton] at ha hb
    rw [ha, hb] at hlt
    exact absurd hlt (lt_irrefl _)
  | k :: k' :: ks, a, b, hi, ha, hb, hlt, hn => by
    have hi' : Inc (k' :: ks) := List.Pairwise.of_cons hi
    have hk : ∀ q ∈ k' :: ks, k.1 < q.1 := (List.pairwise_cons.1 hi).1
    have hb' : b ∈ k' :: ks := by
      rcases List.mem_cons.1 hb with rfl | h
      · rcases List.mem_cons.1 ha with rfl | h
        · exact absurd hlt (lt_irrefl _)
        · exact absurd hlt (lt_asymm (hk a h))
      · exact h
    simp only [List.tail_cons, List.zip_cons_cons, List.mem_cons, Prod.mk.injEq]
    rcases List.mem_cons.1 ha with rfl | ha'
    · left
      refine ⟨rfl, ?_⟩
      rcases List.mem_cons.1 hb' with rfl | h
      · rfl
      · have h1 := (List.pairwise_cons.1 hi').1 b h
        rcases hn k' (by simp) with h2 | h2
        · exact absurd (hk k' (by simp)) (not_lt.2 h2)
        · exact absurd h1 (not_lt.2 h2)
    · right
      exact adjacent_mem hi' ha' hb' hlt fun q hq => hn q (List.mem_cons_of_mem _ hq)

theorem pmod_eq {p : ℝ} (hp : 0 < p) {x : ℝ} {m : ℤ} (h0 : 0 ≤ x + m * p) (h1 : x + m * p < p) :
    pmod p x = x + m * p := by
  rw [← pmod_add hp x m]
  have : ⌊(x + m * p) / p⌋ = 0 :=
    Int.floor_eq_iff.2 ⟨by simpa using div_nonneg h0 hp.le, by simpa using (div_lt_one hp).2 h1⟩
  simp [pmod, this]

theorem inc_lt_getLast {ks : List (ℝ × ℝ)} {q : ℝ × ℝ} (hi : Inc ks) (hq : q ∈ ks) (hne : ks ≠ [])
    (h : q ≠ ks.getLast hne) : q.1 < (ks.getLast hne).1 := by
  have hi' := hi
  rw [← List.dropLast_append_getLast hne] at hi' hq
  rcases List.mem_append.1 hq with h' | h'
  · exact (List.pairwise_append.1 hi').2.2 q h' _ (by simp)
  · exact absurd (by simpa using h') h

theorem inc_head_lt {ks : List (ℝ × ℝ)} {q : ℝ × ℝ} (hi : Inc ks) (hq : q ∈ ks) (hne : ks ≠ [])
    (h : q ≠ ks.head hne) : (ks.head hne).1 < q.1 := by
  cases ks with
  | nil => simp at hq
  | cons a ks =>
    rcases List.mem_cons.1 hq with rfl | h'
    · simp at h
    · exact (List.pairwise_cons.1 hi).1 q h'

/-- **C125.** Between two neighbouring points of the periodic continuation of the data the
interpolation is the straight line.  The points may be one and the same point a period apart. -/
theorem interp_period_between {p : ℝ} (hp : p ≠ 0) (l r : Option ℝ) {ks : List (ℝ × ℝ)}
    (hd : Distinct |p| ks) {k k' : ℝ × ℝ} (hk : k ∈ ks) (hk' : k' ∈ ks) {m m' : ℤ}
    (hlt : k.1 + m * p < k'.1 + m' * p)
    (hn : ∀ q ∈ ks, ∀ n : ℤ, q.1 + n * p ≤ k.1 + m * p ∨ k'.1 + m' * p ≤ q.1 + n * p)
    {x : ℝ} (h1 : k.1 + m * p ≤ x) (h2 : x ≤ k'.1 + m' * p) :
    interp1 l r (some p) ks x = k.2 + (k'.2 - k.2) / ((k'.1 + m' * p) - (k.1 + m * p)) *
      (x - (k.1 + m * p)) := by
  wlog hpos : 0 < p generalizing p m m'
  · have := @this (-p) (neg_ne_zero.2 hp) (by rwa [abs_neg]) (-m) (-m') (by push_cast; linarith)
      (fun q hq n => by
        have := hn q hq (-n)
        push_cast at this ⊢
        rcases this with h | h
        · left; linarith
        · right; linarith) (by push_cast; linarith) (by push_cast; linarith)
      (by have := lt_of_le_of_ne (not_lt.1 hpos) hp; linarith)
    have e : interp1 l r (some (-p)) ks x = interp1 l r (some p) ks x := by
      simp [interp1]
    rw [← e, this]
    push_cast
    simp only [neg_mul_neg]
  rw [abs_of_pos hpos] at hd
  obtain ⟨n, hx⟩ : ∃ n : ℤ, pmod p x = x + n * p := ⟨-⌊x / p⌋, by unfold pmod; push_cast; ring⟩
  obtain ⟨x0, x1⟩ := pmod_mem hpos x
  have hinc := periodicKnots_inc hpos hd
  set b := k.1 + (m + n : ℤ) * p with hb
  set b' := k'.1 + (m' + n : ℤ) * p with hb'
  have hbb : b < b' := by rw [hb, hb']; push_cast; linarith
  have hbx : b ≤ pmod p x := by rw [hb, hx]; push_cast; linarith
  have hxb : pmod p x ≤ b' := by rw [hb', hx]; push_cast; linarith
  have hn' : ∀ q ∈ ks, ∀ j : ℤ, q.1 + j * p ≤ b ∨ b' ≤ q.1 + j * p := by
    intro q hq j
    have := hn q hq (j - n)
    rw [hb, hb']
    push_cast at this ⊢
    rcases this with h | h
    · left; linarith
    · right; linarith
  have hle : b' ≤ b + p := by
    rcases hn' k hk (m + n + 1) with h | h
    · rw [hb] at h; push_cast at h; linarith
    · rw [hb]; push_cast at h ⊢; linarith
  have honce : ∀ q ∈ oncePeriod p ks, ∃ u ∈ ks, ∃ j : ℤ, q.1 = u.1 + j * p := by
    intro q hq
    obtain ⟨u, hu, rfl⟩ := mem_oncePeriod.1 hq
    exact ⟨u, hu, -⌊u.1 / p⌋, by simp only [pmod]; push_cast; ring⟩
  have hoinc := oncePeriod_inc hd
  have mem1 : (b, k.2) ∈ periodicKnots p ks := by
    rw [periodicKnots_eq]
    refine List.mem_append_left _ ?_
    by_cases hb0 : 0 ≤ b
    · refine List.mem_append_right _ (mem_oncePeriod.2 ⟨k, hk, ?_⟩)
      rw [pmod_eq hpos (m := m + n) hb0 (hbx.trans_lt x1)]
    · push Not at hb0
      refine List.mem_append_left _ ?_
      have hmem : (b + p, k.2) ∈ oncePeriod p ks := by
        refine mem_oncePeriod.2 ⟨k, hk, ?_⟩
        have e : b + p = k.1 + (m + n + 1 : ℤ) * p := by rw [hb]; push_cast; ring
        rw [pmod_eq hpos (m := m + n + 1) (by rw [← e]; linarith) (by rw [← e]; linarith), ← e]
      have hne := List.ne_nil_of_mem hmem
      have hlast : (oncePeriod p ks).getLast hne = (b + p, k.2) := by
        by_contra hc
        have hlt' : b + p < ((oncePeriod p ks).getLast hne).1 :=
          inc_lt_getLast hoinc hmem hne (fun h => hc h.symm)
        obtain ⟨u, hu, j, hj⟩ := honce _ (List.getLast_mem hne)
        obtain ⟨v, hv, hv'⟩ := mem_oncePeriod.1 (List.getLast_mem hne)
        have hlt2 := (pmod_mem hpos v.1).2
        rw [hv'] at hj hlt'
        simp only at hj hlt'
        have h3 := hn' u hu (j - 1)
        push_cast at h3
        rcases h3 with h | h <;> linarith
      rw [List.getLast?_eq_getLast_of_ne_nil hne, hlast]
      simp
  have mem2 : (b', k'.2) ∈ periodicKnots p ks := by
    rw [periodicKnots_eq]
    by_cases hb0 : b' < p
    · refine List.mem_append_left _ (List.mem_append_right _ (mem_oncePeriod.2 ⟨k', hk', ?_⟩))
      rw [pmod_eq hpos (m := m' + n) (x0.trans hxb) hb0]
    · push Not at hb0
      refine List.mem_append_right _ ?_
      have hmem : (b' - p, k'.2) ∈ oncePeriod p ks := by
        refine mem_oncePeriod.2 ⟨k', hk', ?_⟩
        have e : b' - p = k'.1 + (m' + n - 1 : ℤ) * p := by rw [hb']; push_cast; ring
        rw [pmod_eq hpos (m := m' + n - 1) (by rw [← e]; linarith) (by rw [← e]; linarith), ← e]
      have hne := List.ne_nil_of_mem hmem
      have hhead : (oncePeriod p ks).head hne = (b' - p, k'.2) := by
        by_contra hc
        have hlt' : ((oncePeriod p ks).head hne).1 < b' - p :=
          inc_head_lt hoinc hmem hne (fun h => hc h.symm)
        obtain ⟨u, hu, j, hj⟩ := honce _ (List.head_mem hne)
        obtain ⟨v, hv, hv'⟩ := mem_oncePeriod.1 (List.head_mem hne)
        have hlt2 := (pmod_mem hpos v.1).1
        rw [hv'] at hj hlt'
        simp only at hj hlt'
        have h3 := hn' u hu (j + 1)
        push_cast at h3
        rcases h3 with h | h <;> linarith
      rw [List.head?_eq_some_head hne, hhead]
      simp
  have hadj : ((b, k.2), (b', k'.2)) ∈ (periodicKnots p ks).zip (periodicKnots p ks).tail := by
    refine adjacent_mem hinc mem1 mem2 hbb ?_
    intro q hq
    obtain ⟨u, hu, j, hj⟩ : ∃ u ∈ ks, ∃ j : ℤ, q.1 = u.1 + j * p := by
      rw [periodicKnots_eq] at hq
      rcases List.mem_append.1 hq with hq | hq
      · rcases List.mem_append.1 hq with hq | hq
        · obtain ⟨w, hw, rfl⟩ := List.mem_map.1 hq
          obtain ⟨u, hu, j, hj⟩ := honce w (List.mem_of_getLast? (Option.mem_toList.1 hw))
          exact ⟨u, hu, j - 1, by push_cast; linarith⟩
        · exact honce q hq
      · obtain ⟨w, hw, rfl⟩ := List.mem_map.1 hq
        obtain ⟨u, hu, j, hj⟩ := honce w (List.mem_of_head? (Option.mem_toList.1 hw))
        exact ⟨u, hu, j + 1, by push_cast; linarith⟩
    rw [hj]
    exact hn' u hu j
  have key := (interp_interpolates hinc none none).2 _ _ hadj (pmod p x) hbx hxb
  have e1 : interp1 l r (some p) ks x = interp none none (periodicKnots p ks) (pmod p x) := by
    simp [interp1, abs_of_pos hpos]
  rw [e1]
  have hne : (k'.1 + m' * p) - (k.1 + m * p) ≠ 0 := by linarith
  have d1 : b' - b = (k'.1 + m' * p) - (k.1 + m * p) := by rw [hb, hb']; push_cast; ring
  have d2 : pmod p x - b = x - (k.1 + m * p) := by rw [hb, hx]; push_cast; ring
  simp only [d1, d2] at key
  rw [div_mul_eq_mul_div, ← sub_eq_iff_eq_add', eq_div_iff hne]
  linarith

/-- **C125.** The values with a period stay between the bounds of the data, and the order of the
points does not matter. -/
theorem interp_period_bounds {p : ℝ} (hp : p ≠ 0) (l r : Option ℝ) {ks : List (ℝ × ℝ)}
    (hd : Distinct |p| ks) (hne : ks ≠ []) {m M : ℝ} (hb : ∀ k ∈ ks, m ≤ k.2 ∧ k.2 ≤ M) (x : ℝ) :
    m ≤ interp1 l r (some p) ks x ∧ interp1 l r (some p) ks x ≤ M := by
  have hp' : 0 < |p| := abs_pos.2 hp
  refine interp_bounds (periodicKnots_inc hp' hd) ?_ ?_
  · exact (interp_period_linear hp l r hd hne x).1.ne_nil
  · intro q hq
    have ho : ∀ q ∈ oncePeriod |p| ks, m ≤ q.2 ∧ q.2 ≤ M := by
      intro q hq
      obtain ⟨k, hk, rfl⟩ := mem_oncePeriod.1 hq
      exact hb k hk
    rw [periodicKnots_eq] at hq
    rcases List.mem_append.1 hq with hq | hq
    · rcases List.mem_append.1 hq with hq | hq
      · obtain ⟨k, hk, rfl⟩ := List.mem_map.1 hq
        exact ho k (List.mem_of_getLast? (Option.mem_toList.1 hk))
      · exact ho q hq
    · obtain ⟨k, hk, rfl⟩ := List.mem_map.1 hq
      exact ho k (List.mem_of_head? (Option.mem_toList.1 hk))

theorem inc_perm_eq {a b : List (ℝ × ℝ)} (ha : Inc a) (hb : Inc b) (h : a.Perm b) : a = b :=
  h.eq_of_pairwise (fun _ _ _ _ h1 h2 => absurd h1 (lt_asymm h2)) ha hb

theorem interp_period_perm {p : ℝ} (l r : Option ℝ) {ks ks' : List (ℝ × ℝ)}
    (hd : Distinct |p| ks) (h : ks.Perm ks') (x : ℝ) :
    interp1 l r (some p) ks x = interp1 l r (some p) ks' x := by
  have hd' : Distinct |p| ks' := ((h.map fun k : ℝ × ℝ => pmod |p| k.1).nodup_iff).1 hd
  have hperm : (oncePeriod |p| ks).Perm (oncePeriod |p| ks') :=
    (List.mergeSort_perm _ _).trans ((h.map _).trans (List.mergeSort_perm _ _).symm)
  have e := inc_perm_eq (oncePeriod_inc hd) (oncePeriod_inc hd') hperm
  unfold interp1
  simp only [periodicKnots_eq, e]

/-- Directions given in any order, with period 360: halfway between 350 and 10 lies 0 (and 720). -/
example : interp1 none none (some 360) [(350, 1), (10, 2)] 720 = 3 / 2 := by
  have f1 : pmod 360 (350 : ℝ) = 350 := by
    have : ⌊(350 : ℝ) / 360⌋ = 0 := Int.floor_eq_iff.2 (by norm_num)
    simp [pmod, this]
  have f2 : pmod 360 (10 : ℝ) = 10 := by
    have : ⌊(10 : ℝ) / 360⌋ = 0 := Int.floor_eq_iff.2 (by norm_num)
    simp [pmod, this]
  have f3 : pmod 360 (720 : ℝ) = 0 := by
    have : ⌊(720 : ℝ) / 360⌋ = 2 := Int.floor_eq_iff.2 (by norm_num)
    rw [pmod, this]
    norm_num
  have hd : Distinct 360 [((350 : ℝ), (1 : ℝ)), (10, 2)] := by
    simp [Distinct, f1, f2]
  have h1 : oncePeriod 360 [((350 : ℝ), (1 : ℝ)), (10, 2)] = [(10, 2), (350, 1)] := by
    refine inc_perm_eq (oncePeriod_inc hd) (by simp [Inc]; norm_num) ?_
    refine (List.mergeSort_perm _ _).trans ?_
    simp only [List.map_cons, List.map_nil, f1, f2]
    exact List.Perm.swap _ _ _
  simp only [interp1, periodicKnots_eq]
  rw [show |(360 : ℝ)| = 360 by norm_num, h1, f3]
  simp only [List.getLast?_cons_cons, List.getLast?_singleton, Option.toList, List.map_cons,
    List.map_nil, List.head?_cons, List.cons_append, List.nil_append, interp, interpIn]
  norm_num

end Glass.Num

namespace Glass.Arrays

open Glass Glass.Num NdArray

/-- The position of `axis` among `nd` axes; negative numbers count from the end. -/
def normAxis (axis : ℤ) (nd : ℕ) : Option ℕ :=
  if 0 ≤ axis ∧ axis < nd then some axis.toNat
  else if axis < 0 ∧ 0 ≤ axis + nd then some (axis + nd).toNat
  else none

/-- `arraytools.py:113-155` `ndinterp`.  `numpy.apply_along_axis` puts the axes of `x` in the place
of the axis.  It raises `AxisError`, a `ValueError`, if there is no such axis, and `ValueError` if
another axis has length zero; `numpy.interp` raises `ValueError` for a period of zero, for no
points, and if the lengths differ. -/
noncomputable def ndinterpAxis (x : NdArray ℝ) (xq : List ℝ) (fq : NdArray ℝ) (axis : ℤ)
    (left right period : Option ℝ) : Except Err (NdArray ℝ) :=
  match normAxis axis fq.shape.length with
  | none => .error (.value "axis is out of bounds")
  | some a =>
    let n := fq.shape.getD a 0
    if 0 ∈ fq.shape.take a ++ fq.shape.drop (a + 1) then
      .error (.value "cannot apply_along_axis when any iteration dimensions are 0")
    else if period = some 0 then .error (.value "period must be a non-zero value")
    else if n = 0 ∨ xq = [] then .error (.value "array of sample points is empty")
    else if xq.length ≠ n then .error (.value "fp and xp are not of the same length")
    else .ok ⟨fq.shape.take a ++ x.shape ++ fq.shape.drop (a + 1), fun i =>
      interp1 left right period
        (xq.zip ((List.range n).map fun k =>
          fq.get (i.take a ++ [k] ++ i.drop (a + x.shape.length))))
        (x.get ((i.drop a).take x.shape.length))⟩

theorem normAxis_of (pre post : ℕ) :
    normAxis pre (pre + (1 + post)) = some pre ∧ normAxis (-1 - post) (pre + (1 + post)) = some pre := by
  unfold normAxis
  constructor
  · rw [if_pos (by omega)]
    simp
  · rw [if_neg (by omega), if_pos (by omega)]
    congr 1
    omega

/-- **C125.** Interpolation along any axis: the axes of `x` take the place of the axis, and every
entry interpolates the values along that axis at its own argument.  Negative numbers of axes count
from the end. -/
theorem ndinterp_axis {x : NdArray ℝ} {xq : List ℝ} {fq : NdArray ℝ} {pre post : List ℕ}
    (hs : fq.shape = pre ++ xq.length :: post) {axis : ℤ}
    (ha : axis = pre.length ∨ axis = -1 - post.length) (hpre : 0 ∉ pre) (hpost : 0 ∉ post)
    (hx : xq ≠ []) (left right : Option ℝ) {period : Option ℝ} (hp : period ≠ some 0) :
    ∃ out, ndinterpAxis x xq fq axis left right period = .ok out ∧
      out.shape = pre ++ x.shape ++ post ∧
      ∀ i ∈ indices pre, ∀ j ∈ indices x.shape, ∀ k ∈ indices post,
        out.get (i ++ j ++ k) = interp1 left right period
          (xq.zip ((List.range xq.length).map fun q => fq.get (i ++ [q] ++ k))) (x.get j) := by
  have hax : normAxis axis fq.shape.length = some pre.length := by
    have := normAxis_of pre.length post.length
    rw [hs, List.length_append, List.length_cons, add_comm post.length 1]
    rcases ha with rfl | rfl
    · exact this.1
    · exact this.2
  have h1 : fq.shape.take pre.length = pre := by rw [hs]; simp
  have h2 : fq.shape.drop (pre.length + 1) = post := by
    rw [hs, List.drop_append]
    simp
  have h3 : fq.shape.getD pre.length 0 = xq.length := by rw [hs]; simp
  unfold ndinterpAxis
  simp only [hax, h1, h2, h3]
  rw [if_neg (by simp [hpre, hpost]), if_neg hp, if_neg (by simp [hx]), if_neg (by simp)]
  refine ⟨_, rfl, rfl, ?_⟩
  intro i hi j hj k hk
  have li := mem_indices_length hi
  have lj := mem_indices_length hj
  have e1 : (i ++ j ++ k).take pre.length = i := by
    rw [← li, List.append_assoc, List.take_left']
    rfl
  have e2 : (i ++ j ++ k).drop (pre.length + x.shape.length) = k := by
    rw [← li, ← lj, ← List.length_append, List.drop_left']
    rfl
  have e3 : ((i ++ j ++ k).drop pre.length).take x.shape.length = j := by
    rw [← li, ← lj, List.append_assoc, List.drop_left' rfl, List.take_left' rfl]
  simp only [e1, e2, e3]

/-- **C125.** What is rejected, always with `ValueError`. -/
theorem ndinterp_axis_error {x : NdArray ℝ} {xq : List ℝ} {fq : NdArray ℝ} {axis : ℤ}
    {left right period : Option ℝ} {e : Err}
    (h : ndinterpAxis x xq fq axis left right period = .error e) : ∃ r, e = .value r := by
  unfold ndinterpAxis at h
  split at h
  · cases h; exact ⟨_, rfl⟩
  · simp only at h
    split_ifs at h <;> (cases h; exact ⟨_, rfl⟩)

/-- **C125.** What is accepted: there is such an axis, it has as many entries as there are points,
at least one, no other axis is empty, and the period is not zero. -/
theorem ndinterp_axis_ok_iff {x : NdArray ℝ} {xq : List ℝ} {fq : NdArray ℝ} {axis : ℤ}
    {left right period : Option ℝ} :
    (∃ out, ndinterpAxis x xq fq axis left right period = .ok out) ↔
      xq ≠ [] ∧ period ≠ some 0 ∧ ∃ pre post, fq.shape = pre ++ xq.length :: post ∧ 0 ∉ pre ∧
        0 ∉ post ∧ (axis = pre.length ∨ axis = -1 - post.length) := by
  constructor
  · rintro ⟨out, h⟩
    unfold ndinterpAxis at h
    split at h
    · cases h
    · rename_i a ha
      simp only at h
      split_ifs at h with h1 h2 h3 h4
      rw [not_not] at h4
      push Not at h3
      have hlt : a < fq.shape.length := by
        unfold normAxis at ha
        split_ifs at ha with g1 g2 <;> simp only [Option.some.injEq] at ha <;> omega
      simp only [List.mem_append, not_or] at h1
      refine ⟨h3.2, h2, fq.shape.take a, fq.shape.drop (a + 1), ?_, h1.1, h1.2, ?_⟩
      · rw [h4]
        conv_lhs => rw [← List.take_append_drop a fq.shape, List.drop_eq_getElem_cons hlt]
        simp [hlt]
      · rw [List.length_take, List.length_drop]
        unfold normAxis at ha
        split_ifs at ha with g1 g2 <;> simp only [Option.some.injEq] at ha <;> omega
  · rintro ⟨h1, h2, pre, post, hs, h3, h4, ha⟩
    obtain ⟨out, h, -⟩ := ndinterp_axis (x := x) hs ha h3 h4 h1 left right h2
    exact ⟨out, h⟩

/-- Along the last axis, for arguments in one axis and without a period, this is the model that is
used for `partition` and `restrict`. -/
theorem ndinterp_axis_last {x xq : List ℝ} {fq b : NdArray ℝ} {left right : Option ℝ}
    (h : Glass.Shells.ndinterp x xq fq left right = .ok b) :
    ∃ out, ndinterpAxis ⟨[x.length], fun i => x.getD (i.headD 0) 0⟩ xq fq (-1) left right none =
      .ok out ∧ out.shape = b.shape ∧ ∀ i ∈ indices out.shape, out.get i = b.get i := by
  obtain ⟨dims, hd, h0, hne, hs, hv⟩ := Glass.Shells.ndinterp_ok h
  obtain ⟨out, h1, h2, h3⟩ := ndinterp_axis
    (x := (⟨[x.length], fun i => x.getD (i.headD 0) 0⟩ : NdArray ℝ)) (pre := dims) (post := [])
    hd (axis := -1) (by simp) h0 (by simp) hne left right (period := none) (by simp)
  refine ⟨out, h1, by rw [h2, hs]; simp, ?_⟩
  intro i hi
  rw [h2, List.append_nil] at hi
  obtain ⟨i', k, rfl, hi', hk⟩ : ∃ i' k, i = i' ++ [k] ∧ i' ∈ indices dims ∧ k < x.length := by
    obtain ⟨i', hi', j, hj, rfl⟩ := mem_indices_append.1 hi
    rw [mem_indices] at hj
    obtain ⟨k, rfl⟩ : ∃ k, j = [k] := List.length_eq_one_iff.1 hj.length_eq
    exact ⟨i', k, rfl, hi', by simpa using hj⟩
  have := h3 i' hi' [k] (by rw [mem_indices]; simpa using hk) [] (by simp [mem_indices])
  rw [List.append_nil] at this
  rw [this, hv i' hi' k hk]
  simp [interp1, Glass.Shells.slice]

/-- The same for what is rejected: the model along the last axis fails exactly if this one does, and
with the same kind of error. -/
theorem ndinterp_last_error {x xq : List ℝ} {fq : NdArray ℝ} {left right : Option ℝ} {e : Err}
    (h : Glass.Shells.ndinterp x xq fq left right = .error e) : (∃ r, e = .value r) ∧
      ∃ e', ndinterpAxis ⟨[x.length], fun i => x.getD (i.headD 0) 0⟩ xq fq (-1) left right none =
        .error e' := by
  refine ⟨?_, ?_⟩
  · unfold Glass.Shells.ndinterp at h
    split at h
    · cases h; exact ⟨_, rfl⟩
    · split_ifs at h <;> (cases h; exact ⟨_, rfl⟩)
  · rcases hr : ndinterpAxis ⟨[x.length], fun i => x.getD (i.headD 0) 0⟩ xq fq (-1) left right none
      with e' | out
    · exact ⟨e', rfl⟩
    · obtain ⟨hx, -, pre, post, hs, h1, h2, ha⟩ := ndinterp_axis_ok_iff.1 ⟨out, hr⟩
      obtain rfl : post = [] := List.length_eq_zero_iff.1 (by omega)
      unfold Glass.Shells.ndinterp at h
      rw [hs] at h
      simp [h1, hx] at h

/-- Interpolation along the middle one of three axes. -/
example (f : List ℕ → ℝ) : ∃ out,
    ndinterpAxis ⟨[4], fun i => i.headD 0⟩ [0, 1] ⟨[3, 2, 5], f⟩ (-2) none none none = .ok out ∧
      out.shape = [3, 4, 5] := by
  obtain ⟨out, h, hs, -⟩ := ndinterp_axis (x := ⟨[4], fun i => i.headD 0⟩) (xq := [0, 1])
    (fq := ⟨[3, 2, 5], f⟩) (pre := [3]) (post := [5]) rfl (axis := -2) (by simp) (by simp) (by simp)
    (by simp) none none (period := none) (by simp)
  exact ⟨out, h, hs⟩

end Glass.Arrays
