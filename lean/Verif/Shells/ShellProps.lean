import Mathlib.Algebra.BigOperators.Group.List.Basic
import Verif.Numerics.IntegralProps
import Verif.Shells.WindowProps

/-!
# Grids, combination and distribution over shells, effective bias (C32, C33, C34, C37)
-/

namespace Glass.Shells

open Glass.Num

/-! ## C33: grids -/

/-- **C33.** `redshift_grid` needs exactly one of `dz` and `num`. -/
theorem redshift_grid_error_iff (zmin zmax : ℝ) (dz : Option ℝ) (num : Option ℕ) :
    (∃ e, redshiftGrid zmin zmax dz num = .error e) ↔ (dz.isSome = num.isSome) := by
  unfold redshiftGrid uniformGrid
  rcases dz with _ | dz <;> rcases num with _ | num <;> simp

/-- **C33.** With `num` the grid has `num + 1` points with constant spacing, starts at `zmin` and
ends at `zmax`. -/
theorem redshift_grid_num {zmin zmax : ℝ} {num : ℕ} {z : List ℝ}
    (h : redshiftGrid zmin zmax none (some num) = .ok z) :
    z.length = num + 1 ∧ z[0]! = zmin ∧ (1 ≤ num → z[num]! = zmax) ∧
      ∀ i, i + 1 < z.length → z[i + 1]! - z[i]! = (zmax - zmin) / num := by
  unfold redshiftGrid uniformGrid at h
  simp only [Except.ok.injEq] at h
  subst h
  have hl := linspace_length zmin zmax (num + 1)
  have hi : ∀ i, i < num + 1 → (linspace zmin zmax (num + 1))[i]! =
      zmin + i * ((zmax - zmin) / num) := by
    intro i hi
    rw [getElem!_pos _ i (by omega)]
    simp [linspace]
  refine ⟨hl, ?_, ?_, ?_⟩
  · rw [hi 0 (by omega)]; simp
  · intro h1
    rw [hi num (by omega)]
    have : (num : ℝ) ≠ 0 := by exact_mod_cast (by omega : num ≠ 0)
    field_simp; ring
  · intro i h
    rw [hi (i + 1) (by omega), hi i (by omega)]
    push_cast
    ring

/-- **C33.** With `dz` the grid starts at `zmin`, has spacing `dz`, and its last point is the first
one that is not below `zmax`: the end of the range is reached within one step. -/
theorem redshift_grid_step {zmin zmax dz : ℝ} {z : List ℝ} (hdz : 0 < dz) (hz : zmin ≤ zmax)
    (h : redshiftGrid zmin zmax (some dz) none = .ok z) :
    z[0]! = zmin ∧ (∀ i, i + 1 < z.length → z[i + 1]! - z[i]! = dz) ∧
      1 ≤ z.length ∧ zmax ≤ z[z.length - 1]! ∧ z[z.length - 1]! < zmax + dz := by
  unfold redshiftGrid uniformGrid at h
  simp only [Except.ok.injEq] at h
  subst h
  have e : (zmax + dz - zmin) / dz = (zmax - zmin) / dz + 1 := by
    field_simp; ring
  have hq : 0 ≤ (zmax - zmin) / dz := div_nonneg (by linarith) hdz.le
  have hlen : (arange zmin (zmax + dz) dz).length = ⌈(zmax - zmin) / dz⌉₊ + 1 := by
    simp only [arange, List.length_map, List.length_range]
    rw [e, Nat.ceil_add_one hq]
  have hi : ∀ i, i < (arange zmin (zmax + dz) dz).length →
      (arange zmin (zmax + dz) dz)[i]! = zmin + i * dz := by
    intro i hi
    rw [getElem!_pos _ i hi]
    simp [arange]
  refine ⟨?_, ?_, by omega, ?_, ?_⟩
  · rw [hi 0 (by omega)]; simp
  · intro i h
    rw [hi (i + 1) h, hi i (by omega)]
    push_cast
    ring
  · rw [hi _ (by omega), hlen, Nat.add_sub_cancel]
    have := Nat.le_ceil ((zmax - zmin) / dz)
    rw [div_le_iff₀ hdz] at this
    linarith
  · rw [hi _ (by omega), hlen, Nat.add_sub_cancel]
    have := Nat.ceil_lt_add_one hq
    have h2 : (⌈(zmax - zmin) / dz⌉₊ : ℝ) * dz < ((zmax - zmin) / dz + 1) * dz :=
      mul_lt_mul_of_pos_right this hdz
    have h3 : ((zmax - zmin) / dz + 1) * dz = zmax - zmin + dz := by field_simp
    linarith

/-- **C33.** `distance_grid` with `num`: starts at `zmin`, ends at `zmax`, and the comoving
distances of its points have constant spacing, if the two functions of the cosmology are inverse
to each other. -/
theorem distance_grid_num {dc inv : ℝ → ℝ} (hinv : ∀ z, inv (dc z) = z) (hdc : ∀ x, dc (inv x) = x)
    {zmin zmax : ℝ} {num : ℕ} (hnum : 1 ≤ num) {z : List ℝ}
    (h : distanceGrid dc inv zmin zmax none (some num) = .ok z) :
    z.length = num + 1 ∧ z[0]! = zmin ∧ z[num]! = zmax ∧
      ∀ i, i + 1 < z.length → dc z[i + 1]! - dc z[i]! = (dc zmax - dc zmin) / num := by
  unfold distanceGrid at h
  rcases hg : uniformGrid (dc zmin) (dc zmax) none (some num) with e | x
  · simp [hg, Except.map] at h
  · simp only [hg, Except.map, Except.ok.injEq] at h
    subst h
    obtain ⟨h1, h2, h3, h4⟩ := redshift_grid_num (zmin := dc zmin) (zmax := dc zmax) hg
    have hi : ∀ i, i < x.length → (x.map inv)[i]! = inv x[i]! := by
      intro i hi
      rw [getElem!_pos _ i (by simpa using hi), getElem!_pos x i hi]
      simp
    refine ⟨by simpa using h1, ?_, ?_, ?_⟩
    · rw [hi 0 (by omega), h2, hinv]
    · rw [hi num (by omega), h3 hnum, hinv]
    · intro i hlt
      simp only [List.length_map] at hlt
      rw [hi (i + 1) hlt, hi i (by omega), hdc, hdc]
      exact h4 i hlt

/-- Concrete case: from 0 to 1 in steps of 0.3 the grid ends at 1.2. -/
example : ∃ z, redshiftGrid 0 1 (some 0.3) none = .ok z ∧ z[0]! = 0 ∧ 1 ≤ z[z.length - 1]! := by
  refine ⟨_, rfl, ?_⟩
  obtain ⟨h1, -, -, h2, -⟩ := redshift_grid_step (zmin := 0) (zmax := 1) (dz := 0.3) (by norm_num)
    (by norm_num) rfl
  exact ⟨h1, h2⟩

/-! ## C34: combine -/

/-- `interp` with `left=0, right=0` is linear in the values. -/
theorem interp_div (ks : List (ℝ × ℝ)) (c x : ℝ) :
    interp (some 0) (some 0) (ks.map fun k => (k.1, k.2 / c)) x =
      interp (some 0) (some 0) ks x / c := by
  have key : ∀ ks : List (ℝ × ℝ),
      interpIn (ks.map fun k => (k.1, k.2 / c)) x = interpIn ks x / c := by
    intro ks
    induction ks with
    | nil => simp [interpIn]
    | cons k ks ih =>
      rcases ks with _ | ⟨k', ks⟩
      · simp [interpIn]
      · simp only [List.map_cons] at ih ⊢
        by_cases hx : x < k'.1
        · rw [interpIn_cons_lt (k' := (k'.1, k'.2 / c)) hx, interpIn_cons_lt hx]
          ring
        · rw [interpIn_cons_ge (k' := (k'.1, k'.2 / c)) (not_lt.1 hx),
            interpIn_cons_ge (not_lt.1 hx), ih]
  unfold interp
  rw [List.head?_map, List.getLast?_map, key]
  rcases ks.head? with _ | a
  · simp
  · rcases ks.getLast? with _ | b
    · simp
    · simp only [Option.map_some]
      split_ifs <;> simp

theorem combine_eq {z : ℝ} {weights : List ℝ} {shells : List RadialWindow} {r : ℝ}
    (h : combine z weights shells = .ok r) :
    r = ((shells.zip weights).map fun p => p.2 * (p.1.eval z / trapezoid p.1.knots)).sum := by
  unfold combine at h
  simp only at h
  split_ifs at h
  simp only [Except.ok.injEq] at h
  subst h
  simp only [interp_div, RadialWindow.eval]

/-- **C34.** `combine` is the sum over shells of weight times normalised window function. -/
theorem combine_spec {z : ℝ} {weights : List ℝ} {shells : List RadialWindow} {r : ℝ}
    (_hn : ∀ w ∈ shells, InRange w.knots z → trapezoid w.knots ≠ 0)
    (h : combine z weights shells = .ok r) :
    r = ((shells.zip weights).map fun p => p.2 * (p.1.eval z / trapezoid p.1.knots)).sum :=
  combine_eq h

/-- `combine` fails exactly without shells or weights, or for an empty window. -/
theorem combine_error_iff (z : ℝ) (weights : List ℝ) (shells : List RadialWindow) :
    (∃ e, combine z weights shells = .error e) ↔
      shells = [] ∨ weights = [] ∨ ∃ p ∈ shells.zip weights, p.1.knots = [] := by
  unfold combine
  simp only
  split_ifs with h1 h2
  · have : shells = [] ∨ weights = [] := by
      rcases shells with _ | ⟨s, shells⟩
      · exact Or.inl rfl
      · rcases weights with _ | ⟨w, weights⟩
        · exact Or.inr rfl
        · simp at h1
    simp only [Except.error.injEq, exists_eq', true_iff]
    rcases this with h | h
    · exact Or.inl h
    · exact Or.inr (Or.inl h)
  · simp only [Except.error.injEq, exists_eq', true_iff]
    exact Or.inr (Or.inr h2)
  · simp only [exists_false, false_iff]
    rintro (h | h | h)
    · exact h1 (by simp [h])
    · exact h1 (by simp [h])
    · exact h2 h

/-- **C34.** The normalised window integrates to one. -/
theorem combine_normalised {w : RadialWindow} (h : trapezoid w.knots ≠ 0) :
    trapezoid (w.knots.map fun k => (k.1, k.2 / trapezoid w.knots)) = 1 := by
  have scale : ∀ (c : ℝ) (l : List (ℝ × ℝ)),
      trapezoid (l.map fun k => (k.1, k.2 / c)) = trapezoid l / c := by
    intro c l
    induction l with
    | nil => simp [trapezoid]
    | cons k l ih =>
      rcases l with _ | ⟨k', l⟩
      · simp [trapezoid]
      · simp only [List.map_cons] at ih ⊢
        rw [trapezoid_cons, trapezoid_cons, ih]; ring
  rw [scale, div_self h]

/-- **C34.** `combine` is linear in the weights. -/
theorem combine_linear {z c d : ℝ} {u v : List ℝ} {shells : List RadialWindow} {r s t : ℝ}
    (_hn : ∀ w ∈ shells, InRange w.knots z → trapezoid w.knots ≠ 0)
    (huv : u.length = v.length) (hu : combine z u shells = .ok r) (hv : combine z v shells = .ok s)
    (h : combine z (List.zipWith (fun a b => c * a + d * b) u v) shells = .ok t) :
    t = c * r + d * s := by
  rw [combine_eq hu, combine_eq hv, combine_eq h]
  clear hu hv h _hn
  induction shells generalizing u v with
  | nil => simp
  | cons w shells ih =>
    rcases u with _ | ⟨a, u⟩
    · simp at huv
      rw [List.length_eq_zero_iff.1 huv.symm]; simp
    · rcases v with _ | ⟨b, v⟩
      · simp at huv
      · simp only [List.zipWith_cons_cons, List.zip_cons_cons, List.map_cons, List.sum_cons]
        rw [ih (by simpa using huv)]
        ring

/-- **C34.** `combine` vanishes outside all windows. -/
theorem combine_outside {z : ℝ} {weights : List ℝ} {shells : List RadialWindow} {r : ℝ}
    (h : combine z weights shells = .ok r) (hz : ∀ w ∈ shells, ¬ InRange w.knots z) : r = 0 := by
  rw [combine_eq h]
  apply List.sum_eq_zero
  intro x hx
  obtain ⟨p, hp, rfl⟩ := List.mem_map.1 hx
  have := interp_zero (hz p.1 (List.of_mem_zip (a := p.1) (b := p.2) hp).1)
  rw [RadialWindow.eval, this]; simp

/-- **C34.** Nonnegative weights and windows give a nonnegative combination. -/
theorem combine_nonneg {z : ℝ} {weights : List ℝ} {shells : List RadialWindow} {r : ℝ}
    (_hn : ∀ w ∈ shells, InRange w.knots z → trapezoid w.knots ≠ 0)
    (h : combine z weights shells = .ok r) (hw : ∀ x ∈ weights, 0 ≤ x)
    (hs : ∀ w ∈ shells, Inc w.knots ∧ ∀ k ∈ w.knots, 0 ≤ k.2) : 0 ≤ r := by
  rw [combine_eq h]
  apply List.sum_nonneg
  intro x hx
  obtain ⟨p, hp, rfl⟩ := List.mem_map.1 hx
  have hm := List.of_mem_zip (a := p.1) (b := p.2) hp
  obtain ⟨h1, h2⟩ := hs p.1 hm.1
  exact mul_nonneg (hw _ hm.2) (div_nonneg (interp_zero_nonneg h1 h2)
    (trapezoid_nonneg (h1.imp fun h => h.le) h2))

/-- Concrete case: two overlapping triangles. -/
example : ∃ r, combine 1 [2, 3] [⟨[(0, 0), (1, 1), (2, 0)], 1⟩, ⟨[(1, 0), (2, 1), (3, 0)], 2⟩] = .ok r ∧
    r = 2 := by
  rcases h : combine 1 [2, 3] [⟨[(0, 0), (1, 1), (2, 0)], 1⟩, ⟨[(1, 0), (2, 1), (3, 0)], 2⟩] with e | r
  · have := (combine_error_iff _ _ _).1 ⟨e, h⟩
    simp at this
  · refine ⟨r, rfl, ?_⟩
    rw [combine_eq h]
    norm_num [RadialWindow.eval, interp, interpIn, trapezoid]

/-! ## C37: effective bias -/

/-- **C37.** For a window inside the range of the bias function, with nonnegative values and
positive integral, the effective bias lies between bounds of the bias values. -/
theorem effective_bias_bounds {b : List (ℝ × ℝ)} {w : RadialWindow} {p q : ℝ × ℝ} {m M : ℝ}
    (hb : Inc b) (hw : Inc w.knots) (hp : w.knots.head? = some p) (hq : w.knots.getLast? = some q)
    (h1 : InRange b p.1) (h2 : InRange b q.1) (hpos : ∀ k ∈ w.knots, 0 ≤ k.2)
    (hint : 0 < trapezoid w.knots) (hbd : ∀ k ∈ b, m ≤ k.2 ∧ k.2 ≤ M) :
    ∃ r, effectiveBias b w = .ok r ∧ m ≤ r ∧ r ≤ M := by
  obtain ⟨z, hzs, hsub, hr, e⟩ := trapezoid_product_within hw hb hp hq h1 h2
  unfold effectiveBias
  rw [trapezoid_product_symm, e]
  refine ⟨_, rfl, ?_⟩
  have href := trapezoid_refine hw hp hq hzs hsub hr
  have hwne : w.knots ≠ [] := by intro h; rw [h] at hp; simp at hp
  have hv : ∀ t ∈ z, 0 ≤ interp none none w.knots t := by
    intro t ht
    have hrt : InRange w.knots t := ⟨p, q, hp, hq, (hr t ht).1, (hr t ht).2⟩
    have := interp_zero_nonneg (x := t) hw hpos
    rw [interp_inRange hrt] at this ⊢
    exact this
  have hzs' : z.Pairwise (· ≤ ·) := hzs.imp fun h => h.le
  constructor
  · rw [le_div_iff₀ hint, ← href, ← trapezoid_sample_mul]
    apply trapezoid_sample_mono hzs'
    intro t ht
    have := interp_bounds (x := t) hb h1.ne_nil hbd
    rw [mul_comm m]
    exact mul_le_mul_of_nonneg_left this.1 (hv t ht)
  · rw [div_le_iff₀ hint, ← href, ← trapezoid_sample_mul]
    apply trapezoid_sample_mono hzs'
    intro t ht
    have := interp_bounds (x := t) hb h1.ne_nil hbd
    rw [mul_comm M]
    exact mul_le_mul_of_nonneg_left this.2 (hv t ht)

/-- **C37.** A constant bias is returned unchanged. -/
theorem effective_bias_const {b : List (ℝ × ℝ)} {w : RadialWindow} {p q : ℝ × ℝ} {c : ℝ}
    (hb : Inc b) (hw : Inc w.knots) (hp : w.knots.head? = some p) (hq : w.knots.getLast? = some q)
    (h1 : InRange b p.1) (h2 : InRange b q.1) (hint : trapezoid w.knots ≠ 0)
    (hc : ∀ k ∈ b, k.2 = c) : effectiveBias b w = .ok c := by
  unfold effectiveBias
  rw [trapezoid_product_symm, trapezoid_product_const hw hb hp hq h1 h2 hc]
  simp only [Except.map]
  rw [mul_div_assoc, div_self hint, mul_one]

/-- Concrete case: the bias rises from 1 to 2 over a triangular window. -/
example : ∃ r, effectiveBias [(0, 1), (3, 2)] ⟨[(1, 0), (3 / 2, 1), (2, 0)], 1⟩ = .ok r ∧
    1 ≤ r ∧ r ≤ 2 := by
  apply effective_bias_bounds (p := (1, 0)) (q := (2, 0))
  · simp [Inc]
  · simp only [Inc]; norm_num
  · rfl
  · rfl
  · exact ⟨_, _, rfl, rfl, by norm_num, by norm_num⟩
  · exact ⟨_, _, rfl, rfl, by norm_num, by norm_num⟩
  · simp
  · norm_num [trapezoid]
  · simp

/-! ## C32: distribute -/

/-- A row of probabilities. -/
def IsProb (p : List ℝ) : Prop := (∀ x ∈ p, 0 ≤ x) ∧ p.sum = 1

/-- A row of counts of one event that fell into bin `i`. -/
def OneHot (c : List ℕ) (i : ℕ) (n : ℕ) : Prop :=
  c = (List.range n).map fun j => if j = i then 1 else 0

/-- What is assumed of `rng.multinomial(1, weights)`: for rows of probabilities there is one row
of counts each, with a single event in a bin of positive probability. -/
def DrawsEvents {σ : Type} (mult : σ → List (List ℝ) → List (List ℕ) × σ) : Prop :=
  ∀ s ps, (∀ p ∈ ps, IsProb p) →
    List.Forall₂ (fun (p : List ℝ) c => ∃ i : ℕ, i < p.length ∧ (0 : ℝ) < p[i]! ∧ OneHot c i p.length) ps (mult s ps).1

/-- What is assumed in addition of a sequential generator (NumPy): rows are drawn one after the
other, so that two calls draw what one call draws. -/
def Sequential {σ : Type} (mult : σ → List (List ℝ) → List (List ℕ) × σ) : Prop :=
  (∀ s, mult s [] = ([], s)) ∧
  ∀ s xs ys, mult s (xs ++ ys) =
    ((mult s xs).1 ++ (mult (mult s xs).2 ys).1, (mult (mult s xs).2 ys).2)

theorem argmax_oneHot {c : List ℕ} {i n : ℕ} (hi : i < n) (h : OneHot c i n) : argmax c = i := by
  unfold OneHot at h
  have hm : ∀ (l : List ℕ) (m : ℕ), (∀ x ∈ l, x ≤ 1) → (1 ∈ l ∨ m = 1) → m ≤ 1 →
      l.foldl max m = 1 := by
    intro l
    induction l with
    | nil => intro m _ h _; simpa using h
    | cons a l ih =>
      intro m hl h hm
      have ha := hl a (by simp)
      apply ih _ (fun x hx => hl x (List.mem_cons_of_mem _ hx))
      · rcases h with h | h
        · rcases List.mem_cons.1 h with rfl | h
          · exact Or.inr (by omega)
          · exact Or.inl h
        · exact Or.inr (by omega)
      · omega
  have hmax : c.foldl max 0 = 1 := by
    apply hm _ _ _ _ (by omega)
    · rw [h]; intro x hx
      obtain ⟨j, -, rfl⟩ := List.mem_map.1 hx
      split_ifs <;> omega
    · left; rw [h]; exact List.mem_map.2 ⟨i, by simpa using hi, by simp⟩
  unfold argmax
  rw [hmax]
  have hlen : c.length = n := by rw [h]; simp
  have hci : c[i]'(by omega) = 1 := by simp [h]
  have hlt : c.idxOf 1 < c.length := List.idxOf_lt_length_of_mem (by
    rw [← hci]; exact List.getElem_mem _)
  have hget : c[c.idxOf 1]'hlt = 1 := List.getElem_idxOf hlt
  by_contra hne
  have : c[c.idxOf 1]'hlt = 0 := by
    simp only [h, List.getElem_map, List.getElem_range] at hne ⊢
    rw [if_neg hne]
  omega

/-- The windows of the shells are increasing and not negative. -/
def GoodShells (shells : List RadialWindow) : Prop :=
  ∀ w ∈ shells, Inc w.knots ∧ ∀ k ∈ w.knots, 0 ≤ k.2

theorem eval_nonneg {shells : List RadialWindow} (hs : GoodShells shells) {w : RadialWindow}
    (hw : w ∈ shells) (z : ℝ) : 0 ≤ w.eval z := interp_zero_nonneg (hs w hw).1 (hs w hw).2

theorem sum_eq_zero_iff' {l : List ℝ} (h : ∀ x ∈ l, 0 ≤ x) : l.sum = 0 ↔ ∀ x ∈ l, x = 0 := by
  constructor
  · intro hs x hx
    have := List.single_le_sum h x hx
    exact le_antisymm (hs ▸ this) (h x hx)
  · intro h0
    exact List.sum_eq_zero h0

/-- **C32.** The probabilities of the shells: in proportion to the windows if one of them does not
vanish; the extra "outside" bin has probability one if all vanish and zero otherwise. -/
theorem shell_probs_spec {shells : List RadialWindow} (hs : GoodShells shells) (z : ℝ) :
    IsProb (shellProbs shells z) ∧ (shellProbs shells z).length = shells.length + 1 ∧
    ((∀ w ∈ shells, w.eval z = 0) →
      (shellProbs shells z)[0]! = 1 ∧ ∀ i < shells.length, (shellProbs shells z)[i + 1]! = 0) ∧
    (¬ (∀ w ∈ shells, w.eval z = 0) → (shellProbs shells z)[0]! = 0 ∧
      ∀ i (hi : i < shells.length), (shellProbs shells z)[i + 1]! =
        shells[i].eval z / (shells.map fun w => w.eval z).sum) := by
  set ws := shells.map fun w => interp (some 0) (some 0) w.knots z with hws
  have hnn : ∀ x ∈ ws, 0 ≤ x := by
    intro x hx
    obtain ⟨w, hw, rfl⟩ := List.mem_map.1 hx
    exact eval_nonneg hs hw z
  have hzero : ws.sum = 0 ↔ ∀ w ∈ shells, w.eval z = 0 := by
    rw [sum_eq_zero_iff' hnn, hws]
    simp [RadialWindow.eval]
  have hdiv : ∀ (l : List ℝ) (c : ℝ), (l.map fun w => w / c).sum = l.sum / c := by
    intro l c
    induction l with
    | nil => simp
    | cons a l ih => simp [ih, add_div]
  by_cases h0 : ws.sum = 0
  · have hall := hzero.1 h0
    have e : shellProbs shells z = 1 :: ws := by
      unfold shellProbs
      simp [← hws, h0]
    refine ⟨⟨?_, ?_⟩, by rw [e]; simp [hws], fun _ => ⟨by rw [e]; simp, ?_⟩, fun h => absurd hall h⟩
    · rw [e]; intro x hx
      rcases List.mem_cons.1 hx with rfl | hx
      · exact zero_le_one
      · exact hnn x hx
    · rw [e, List.sum_cons, h0, add_zero]
    · intro i hi
      rw [e]
      have hi' : i < ws.length := by simp [hws, hi]
      rw [List.getElem!_cons_succ, getElem!_pos ws i hi']
      exact (sum_eq_zero_iff' hnn).1 h0 _ (List.getElem_mem _)
  · have hall := mt hzero.2 h0
    have e : shellProbs shells z = 0 :: ws.map fun w => w / ws.sum := by
      unfold shellProbs
      simp [← hws, h0]
    have hpos : 0 < ws.sum := lt_of_le_of_ne (List.sum_nonneg hnn) (Ne.symm h0)
    refine ⟨⟨?_, ?_⟩, by rw [e]; simp [hws], fun h => absurd h hall, fun _ => ⟨by rw [e]; simp, ?_⟩⟩
    · rw [e]; intro x hx
      rcases List.mem_cons.1 hx with rfl | hx
      · exact le_rfl
      · obtain ⟨y, hy, rfl⟩ := List.mem_map.1 hx
        exact div_nonneg (hnn y hy) hpos.le
    · rw [e, List.sum_cons, hdiv, div_self h0, zero_add]
    · intro i hi
      rw [e]
      have hi' : i < (ws.map fun w => w / ws.sum).length := by simp [hws, hi]
      rw [List.getElem!_cons_succ, getElem!_pos _ i hi']
      simp [hws, RadialWindow.eval]

/-- What is claimed of the index of one redshift. -/
def IndexOk (shells : List RadialWindow) (z : ℝ) (k : ℤ) : Prop :=
  (k = -1 ↔ ∀ w ∈ shells, w.eval z = 0) ∧
  (k ≠ -1 → ∃ (i : ℕ) (hi : i < shells.length), k = i ∧ 0 < shells[i].eval z)

theorem index_ok {shells : List RadialWindow} (hs : GoodShells shells) {z : ℝ} {c : List ℕ} {i : ℕ}
    (hi : i < (shellProbs shells z).length) (hp : 0 < (shellProbs shells z)[i]!)
    (hc : OneHot c i (shellProbs shells z).length) :
    IndexOk shells z (((argmax c : ℕ) : ℤ) - 1) := by
  rw [argmax_oneHot hi hc]
  obtain ⟨-, hlen, h0, h1⟩ := shell_probs_spec hs z
  by_cases hall : ∀ w ∈ shells, w.eval z = 0
  · obtain ⟨-, hz⟩ := h0 hall
    have : i = 0 := by
      rcases i with _ | i
      · rfl
      · rw [hz i (by omega)] at hp; exact absurd hp (lt_irrefl _)
    subst this
    exact ⟨⟨fun _ => hall, fun _ => by simp⟩, fun h => absurd rfl h⟩
  · obtain ⟨hz, hw⟩ := h1 hall
    rcases i with _ | i
    · rw [hz] at hp; exact absurd hp (lt_irrefl _)
    · have hi' : i < shells.length := by omega
      rw [hw i hi'] at hp
      refine ⟨⟨fun h => ?_, fun h => absurd h hall⟩, fun _ => ⟨i, hi', by push_cast; ring, ?_⟩⟩
      · exfalso; push_cast at h; omega
      · have hn := eval_nonneg hs (List.getElem_mem hi') z
        rcases hn.lt_or_eq with h | h
        · exact h
        · rw [← h, zero_div] at hp; exact absurd hp (lt_irrefl _)

theorem loop_ok {σ : Type} {mult : σ → List (List ℝ) → List (List ℕ) × σ} (hm : DrawsEvents mult)
    {shells : List RadialWindow} (hs : GoodShells shells) {batch : ℕ} (hb : 0 < batch) :
    ∀ (fuel : ℕ) (s : σ) (zs : List ℝ), zs.length ≤ fuel →
      List.Forall₂ (IndexOk shells) zs (distributeLoop mult shells batch fuel s zs).1
  | 0, s, zs, h => by
    have : zs = [] := List.length_eq_zero_iff.1 (by omega)
    subst this
    exact List.Forall₂.nil
  | fuel + 1, s, zs, h => by
    rw [distributeLoop]
    by_cases hz : zs = []
    · simp [hz]
    · simp only [hz, if_false]
      have hpos : 0 < zs.length := List.length_pos_of_ne_nil hz
      have ih := loop_ok hm hs hb fuel (mult s ((zs.take batch).map (shellProbs shells))).2
        (zs.drop batch) (by simp; omega)
      have hrow := hm s ((zs.take batch).map (shellProbs shells)) (by
        intro p hp
        obtain ⟨z, -, rfl⟩ := List.mem_map.1 hp
        exact (shell_probs_spec hs z).1)
      have h1 : List.Forall₂ (IndexOk shells) (zs.take batch)
          ((mult s ((zs.take batch).map (shellProbs shells))).1.map
            fun c => ((argmax c : ℕ) : ℤ) - 1) := by
        rw [List.forall₂_map_left_iff] at hrow
        rw [List.forall₂_map_right_iff]
        refine hrow.imp ?_
        rintro z c ⟨i, hi, hp, hc⟩
        exact index_ok hs hi hp hc
      have h2 := List.rel_append h1 ih
      simp only [List.take_append_drop] at h2
      exact h2

/-- **C32.** `distribute` keeps the shape; the index of each redshift is -1 exactly if all windows
vanish there, and otherwise belongs to a shell whose window is positive there. -/
theorem distribute_spec {σ : Type} {mult : σ → List (List ℝ) → List (List ℕ) × σ}
    (hm : DrawsEvents mult) {shells : List RadialWindow} (hs : GoodShells shells)
    {redshifts : Arr ℝ} {s s' : σ} {out : Arr ℤ}
    (h : distribute mult redshifts shells s = .ok (out, s')) :
    out.shape = redshifts.shape ∧ List.Forall₂ (IndexOk shells) redshifts.data out.data := by
  unfold distribute at h
  split_ifs at h with h1 h2 h3
  · simp only [Except.ok.injEq, Prod.mk.injEq] at h
    obtain ⟨rfl, -⟩ := h
    exact ⟨rfl, by rw [h1]; exact List.Forall₂.nil⟩
  · simp only [Except.ok.injEq, Prod.mk.injEq] at h
    obtain ⟨rfl, -⟩ := h
    exact ⟨rfl, loop_ok hm hs (by norm_num) _ _ _ le_rfl⟩

/-- `distribute` succeeds whenever there are shells and all windows have points. -/
theorem distribute_ok {σ : Type} (mult : σ → List (List ℝ) → List (List ℕ) × σ)
    {shells : List RadialWindow} (hne : shells ≠ []) (hk : ∀ w ∈ shells, w.knots ≠ [])
    (redshifts : Arr ℝ) (s : σ) : ∃ r, distribute mult redshifts shells s = .ok r := by
  unfold distribute
  by_cases h1 : redshifts.data = []
  · exact ⟨_, by rw [if_pos h1]⟩
  · rw [if_neg h1, if_neg hne, if_neg (by push Not; exact hk)]
    exact ⟨_, rfl⟩

/-- **C32.** `distribute` raises an error exactly if there are redshifts but no shells, or a window
has no points, and then the error is `ValueError`. -/
theorem distribute_error_iff {σ : Type} (mult : σ → List (List ℝ) → List (List ℕ) × σ)
    (shells : List RadialWindow) (redshifts : Arr ℝ) (s : σ) :
    (∃ r, distribute mult redshifts shells s = .error (.value r)) ↔
      redshifts.data ≠ [] ∧ (shells = [] ∨ ∃ w ∈ shells, w.knots = []) := by
  unfold distribute
  split_ifs with h1 h2 h3
  · simp [h1]
  · simp [h1, h2]
  · simp only [ne_eq, h1, not_false_eq_true, h3, or_true, and_self, iff_true]
    exact ⟨_, rfl⟩
  · simp [h2, h3]

/-- **C32.** With a sequential generator the result does not depend on the size of the batches: it
is what a single draw for all redshifts gives, whatever the batch size. -/
theorem distribute_batch {σ : Type} {mult : σ → List (List ℝ) → List (List ℕ) × σ}
    (hm : Sequential mult) (shells : List RadialWindow) {batch : ℕ} (hb : 0 < batch) :
    ∀ (fuel : ℕ) (s : σ) (zs : List ℝ), zs.length ≤ fuel →
      distributeLoop mult shells batch fuel s zs =
        ((mult s (zs.map (shellProbs shells))).1.map fun c => ((argmax c : ℕ) : ℤ) - 1,
          (mult s (zs.map (shellProbs shells))).2)
  | 0, s, zs, h => by
    have : zs = [] := List.length_eq_zero_iff.1 (by omega)
    subst this
    simp [distributeLoop, hm.1]
  | fuel + 1, s, zs, h => by
    rw [distributeLoop]
    by_cases hz : zs = []
    · simp [hz, hm.1]
    · simp only [hz, if_false]
      have hpos : 0 < zs.length := List.length_pos_of_ne_nil hz
      rw [distribute_batch hm shells hb fuel _ (zs.drop batch) (by simp; omega)]
      have e : zs.map (shellProbs shells) =
          (zs.take batch).map (shellProbs shells) ++ (zs.drop batch).map (shellProbs shells) := by
        rw [← List.map_append, List.take_append_drop]
      rw [e, hm.2]
      simp

/-- A generator that puts every event into the first bin of positive probability. -/
noncomputable def firstBin (s : Unit) (ps : List (List ℝ)) : List (List ℕ) × Unit :=
  open Classical in
  (ps.map fun p => (List.range p.length).map fun j =>
    if j = p.findIdx (fun x => decide (0 < x)) then 1 else 0, s)

/-- The assumptions about the generator can be met. -/
theorem firstBin_lawful : DrawsEvents firstBin ∧ Sequential firstBin := by
  classical
  refine ⟨?_, fun s => rfl, fun s xs ys => by simp [firstBin]⟩
  intro s ps hps
  unfold firstBin
  rw [List.forall₂_map_right_iff, List.forall₂_same]
  intro p hp
  obtain ⟨h1, h2⟩ := hps p hp
  have hex : ∃ x ∈ p, 0 < x := by
    by_contra hno
    push Not at hno
    have : p.sum = 0 := List.sum_eq_zero fun x hx => le_antisymm (hno x hx) (h1 x hx)
    linarith
  have hlt : p.findIdx (fun x => decide (0 < x)) < p.length := by
    rw [List.findIdx_lt_length]
    simpa using hex
  refine ⟨_, hlt, ?_, by unfold OneHot; rfl⟩
  rw [getElem!_pos p _ hlt]
  have := List.findIdx_getElem (w := hlt)
  simpa using this

/-- Concrete case: three redshifts over two windows. -/
example : ∃ r, distribute firstBin ⟨[3], [1 / 2, 3 / 2, 5]⟩
      [⟨[(0, 1), (1, 1)], 1⟩, ⟨[(1, 1), (2, 1)], 1⟩] () = .ok r ∧ r.1.shape = [3] ∧
    List.Forall₂ (IndexOk [⟨[(0, 1), (1, 1)], 1⟩, ⟨[(1, 1), (2, 1)], 1⟩]) [1 / 2, 3 / 2, 5] r.1.data := by
  obtain ⟨r, hr⟩ := distribute_ok firstBin
    (shells := [⟨[(0, 1), (1, 1)], 1⟩, ⟨[(1, 1), (2, 1)], 1⟩]) (by simp) (by simp)
    ⟨[3], [1 / 2, 3 / 2, 5]⟩ ()
  have hs : GoodShells [⟨[(0, 1), (1, 1)], 1⟩, ⟨[(1, 1), (2, 1)], 1⟩] := by
    intro w hw
    simp only [List.mem_cons, List.not_mem_nil, or_false] at hw
    rcases hw with rfl | rfl <;> simp [Inc]
  obtain ⟨r1, r2⟩ := r
  exact ⟨(r1, r2), hr, distribute_spec firstBin_lawful.1 hs hr⟩

end Glass.Shells
