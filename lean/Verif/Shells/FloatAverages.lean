import Verif.Shells.WindowProps
import Verif.Points.Model
import Verif.Lensing.FloatPlanes

/-!
# Sums, effective redshifts and position weights in floating point

Array libraries add numbers in different orders (NumPy in blocks and in pairs).  The theorems hold
for every order, with errors that grow with the depth of the tree of additions.
-/

namespace Glass.Shells

open Glass Glass.Num Glass.Spectra Glass.Lensing

/-! ## Model -/

/-- An order in which the entries of an array are added. -/
inductive Order where
  | zero : Order
  | leaf : ℕ → Order
  | node : Order → Order → Order

/-- The sum, with a rounding after every addition. -/
noncomputable def Order.sum (fl : ℝ → ℝ) (x : ℕ → ℝ) : Order → ℝ
  | .zero => 0
  | .leaf i => x i
  | .node l r => fl (l.sum fl x + r.sum fl x)

/-- The entries that are added. -/
def Order.indices : Order → List ℕ
  | .zero => []
  | .leaf i => [i]
  | .node l r => l.indices ++ r.indices

/-- The largest number of additions that an entry undergoes. -/
def Order.depth : Order → ℕ
  | .zero => 0
  | .leaf _ => 0
  | .node l r => max l.depth r.depth + 1

/-- Every entry of an array of size `n` is added once. -/
def Order.For (o : Order) (n : ℕ) : Prop := o.indices.Perm (List.range n)

/-- One entry after the other. -/
def Order.sequential : ℕ → Order
  | 0 => .zero
  | 1 => .leaf 0
  | n + 2 => .node (sequential (n + 1)) (.leaf (n + 1))

/-- In pairs, for `2 ^ k` entries from `a`. -/
def Order.pairs (a : ℕ) : ℕ → Order
  | 0 => .leaf a
  | k + 1 => .node (pairs a k) (pairs (a + 2 ^ k) k)

/-- The terms of the trapezoidal rule: `d * (y[1:] + y[:-1]) / 2` with `d = diff(x)`. -/
noncomputable def panelsFl (fl : ℝ → ℝ) : List (ℝ × ℝ) → List ℝ
  | k :: k' :: ks => fl (fl (fl (k'.1 - k.1) * fl (k'.2 + k.2)) / 2) :: panelsFl fl (k' :: ks)
  | _ => []

/-- `uxpx.trapezoid(y, x)`, `_array_api_utils.py:104-148`. -/
noncomputable def trapezoidFl (fl : ℝ → ℝ) (o : Order) (ks : List (ℝ × ℝ)) : ℝ :=
  o.sum fl fun i => (panelsFl fl ks).getD i 0

/-- `shells.py:266-280` `_calculate_zeff`, for an array that is not empty. -/
noncomputable def zeffFl (fl : ℝ → ℝ) (o : Order) (ks : List (ℝ × ℝ)) : ℝ :=
  fl (trapezoidFl fl o (ks.map fun k => (k.1, fl (k.1 * k.2))) / trapezoidFl fl o ks)

/-- `points.py:640-651` `position_weights` for one population; densities and bias have the same
length. -/
noncomputable def positionWeightsFl (fl : ℝ → ℝ) (o : Order) (densities : List ℝ)
    (bias : Option (List ℝ)) : List ℝ :=
  let total := o.sum fl fun i => densities.getD i 0
  let densities := densities.map fun d => fl (d / total)
  match bias with
  | none => densities
  | some b => List.zipWith (fun d b => fl (d * b)) densities b

/-- `points.py:280-287` `_compute_expected_count` for one population.  `area` is the constant
`ARCMIN2_SPHERE`. -/
noncomputable def expectedCountFl (fl : ℝ → ℝ) (o : Order) (area : ℝ) (n : List ℝ) (ngal : ℝ)
    (removeMonopole : Bool) : List ℝ :=
  let mean := fl ((o.sum fl fun i => n.getD i 0) / n.length)
  let n := if removeMonopole then n.map fun v => fl (v - mean) else n
  let n := n.map fun v => fl (v + 1)
  n.map fun v => fl (v * fl (fl (area / n.length) * ngal))

/-! ## Orders -/

theorem Order.sequential_for (n : ℕ) : (Order.sequential n).For n := by
  have : ∀ n, (Order.sequential n).indices = List.range n := by
    intro n
    induction n using Order.sequential.induct with
    | case1 => rfl
    | case2 => rfl
    | case3 n ih => simp only [Order.sequential, Order.indices, ih, List.range_succ]
  rw [Order.For, this]

theorem Order.sequential_depth (n : ℕ) : (Order.sequential n).depth = n - 1 := by
  induction n using Order.sequential.induct with
  | case1 => rfl
  | case2 => rfl
  | case3 n ih => simp only [Order.sequential, Order.depth, ih]; omega

theorem Order.pairs_for (k : ℕ) : (Order.pairs 0 k).For (2 ^ k) := by
  have : ∀ k a, (Order.pairs a k).indices = List.range' a (2 ^ k) := by
    intro k
    induction k with
    | zero => intro a; simp [Order.pairs, Order.indices]
    | succ k ih =>
      intro a
      simp only [Order.pairs, Order.indices, ih]
      rw [pow_succ, Nat.mul_two, ← List.range'_append_1]
  rw [Order.For, this, List.range_eq_range']

theorem Order.pairs_depth (a k : ℕ) : (Order.pairs a k).depth = k := by
  induction k generalizing a with
  | zero => rfl
  | succ k ih => simp [Order.pairs, Order.depth, ih]

/-- Without rounding, the order does not matter. -/
theorem Order.sum_id (o : Order) (x : ℕ → ℝ) : o.sum id x = (o.indices.map x).sum := by
  induction o with
  | zero => rfl
  | leaf i => simp [Order.sum, Order.indices]
  | node l r hl hr => simp [Order.sum, Order.indices, hl, hr]

theorem Order.For.sum {o : Order} {n : ℕ} (h : o.For n) (x : ℕ → ℝ) :
    (o.indices.map x).sum = ∑ i ∈ Finset.range n, x i := by
  rw [(h.map x).sum_eq]
  rfl

theorem Order.For.list {o : Order} {l : List ℝ} (h : o.For l.length) :
    (o.indices.map fun i => l.getD i 0).sum = l.sum := by
  rw [(h.map _).sum_eq]
  congr 1
  apply List.ext_getElem
  · simp
  · intro i h1 h2
    simp [h2]

/-! ## Relative errors -/

theorem rel_mono {j k : ℕ} (hjk : j ≤ k) {x y : ℝ} (h : Rel j x y) : Rel k x y := by
  obtain ⟨a, rfl, h1, h2⟩ := h
  have p : ((1 - 1 / 2 ^ 53 : ℝ)) ^ k ≤ (1 - 1 / 2 ^ 53) ^ j :=
    pow_le_pow_of_le_one (by norm_num) (by norm_num) hjk
  have q : (0 : ℝ) < (1 - 1 / 2 ^ 53) ^ k := pow_pos (by norm_num) _
  exact ⟨a, rfl, p.trans h1, h2.trans (inv_anti₀ q p)⟩

theorem rel_add {k : ℕ} {x y x' y' : ℝ} (h : Rel k x x') (h' : Rel k y y') (hx : 0 ≤ x)
    (hy : 0 ≤ y) : Rel k (x + y) (x' + y') := by
  obtain ⟨a, rfl, h1, h2⟩ := h
  obtain ⟨b, rfl, h3, h4⟩ := h'
  unfold Glass.Lensing.Rel
  have hq : (1 - 1 / 2 ^ 53 : ℝ) ^ k ≤ 1 := pow_le_one₀ (by norm_num) (by norm_num)
  have hq0 : (0 : ℝ) < (1 - 1 / 2 ^ 53) ^ k := pow_pos (by norm_num) _
  have hq1 : 1 ≤ ((1 - 1 / 2 ^ 53 : ℝ) ^ k)⁻¹ := (one_le_inv₀ hq0).2 hq
  generalize ((1 - 1 / 2 ^ 53 : ℝ) ^ k)⁻¹ = hi at *
  generalize (1 - 1 / 2 ^ 53 : ℝ) ^ k = lo at *
  rcases eq_or_lt_of_le (add_nonneg hx hy) with h0 | h0
  · have e1 : x = 0 := by linarith
    have e2 : y = 0 := by linarith
    exact ⟨1, by simp [e1, e2], hq, hq1⟩
  · refine ⟨(x * a + y * b) / (x + y), by field_simp, ?_, ?_⟩
    · rw [le_div_iff₀ h0]; nlinarith
    · rw [div_le_iff₀ h0]; nlinarith

/-- Sums of numbers of the same sign, in any order. -/
theorem rel_order (R : Rounding) (o : Order) {k : ℕ} {x x' : ℕ → ℝ} (h0 : ∀ i, 0 ≤ x i)
    (h : ∀ i, Rel k (x i) (x' i)) : Rel (k + o.depth) ((o.indices.map x).sum) (o.sum R.fl x') := by
  induction o with
  | zero => exact rel_mono (Nat.zero_le _) (Rel.refl 0)
  | leaf i => simpa [Order.indices, Order.sum, Order.depth] using h i
  | node l r hl hr =>
    simp only [Order.indices, Order.sum, Order.depth, List.map_append, List.sum_append, ← add_assoc]
    have nn : ∀ o : Order, 0 ≤ (o.indices.map x).sum := fun o => List.sum_nonneg (by
      intro v hv
      obtain ⟨i, _, rfl⟩ := List.mem_map.1 hv
      exact h0 i)
    refine Rel.round R (rel_add (rel_mono ?_ hl) (rel_mono ?_ hr) (nn l) (nn r))
    · exact Nat.add_le_add_left (le_max_left _ _) _
    · exact Nat.add_le_add_left (le_max_right _ _) _

/-- The size of the error. -/
theorem rel_error {k : ℕ} {x y : ℝ} (h : Rel k x y) (hk : 2 * k ≤ 2 ^ 53) :
    |y - x| ≤ 2 * k / 2 ^ 53 * |x| := by
  have hk' : 2 * (k : ℝ) ≤ 2 ^ 53 := by exact_mod_cast hk
  have b : 1 - k / 2 ^ 53 ≤ (1 - 1 / 2 ^ 53 : ℝ) ^ k := by
    have := one_add_mul_le_pow (a := (-(1 / 2 ^ 53) : ℝ)) (by norm_num) k
    rw [← sub_eq_add_neg] at this
    refine le_trans (le_of_eq ?_) this
    ring
  have hk0 : (0 : ℝ) ≤ k / 2 ^ 53 := by positivity
  have hk1 : (k : ℝ) / 2 ^ 53 ≤ 1 / 2 := by
    rw [div_le_iff₀ (by norm_num)]; linarith
  have e : 2 * (k : ℝ) / 2 ^ 53 = 2 * (k / 2 ^ 53) := by ring
  rw [e]
  generalize (k : ℝ) / 2 ^ 53 = v at *
  refine h.error (by linarith) ?_
  rw [inv_le_comm₀ (by linarith) (by linarith)]
  refine le_trans ?_ b
  rw [inv_le_iff_one_le_mul₀ (by linarith)]
  nlinarith

/-! ## Integrals -/

theorem trapezoid_panels (ks : List (ℝ × ℝ)) : trapezoid ks = (panelsFl id ks).sum := by
  induction ks using trapezoid.induct with
  | case1 k k' ks ih => simp [trapezoid, panelsFl, ih]
  | case2 ks h =>
    rcases ks with _ | ⟨k, _ | ⟨k', ks⟩⟩
    · rfl
    · rfl
    · exact absurd rfl (h k k' ks)

theorem panelsFl_length (fl : ℝ → ℝ) (ks : List (ℝ × ℝ)) :
    (panelsFl fl ks).length = ks.length - 1 := by
  induction ks using trapezoid.induct with
  | case1 k k' ks ih => simp only [panelsFl, List.length_cons, ih]; omega
  | case2 ks h =>
    rcases ks with _ | ⟨k, _ | ⟨k', ks⟩⟩
    · rfl
    · rfl
    · exact absurd rfl (h k k' ks)

/-- Knots with the same redshifts and weights that are not negative. -/
def Near (j : ℕ) (k k' : ℝ × ℝ) : Prop := k'.1 = k.1 ∧ 0 ≤ k.2 ∧ Rel j k.2 k'.2

theorem panels_rel (R : Rounding) {j : ℕ} {ks ks' : List (ℝ × ℝ)} (hi : Inc ks)
    (h : List.Forall₂ (Near j) ks ks') :
    List.Forall₂ (fun p p' => 0 ≤ p ∧ Rel (j + 4) p p') (panelsFl id ks) (panelsFl R.fl ks') := by
  induction ks using trapezoid.induct generalizing ks' with
  | case1 k k' ks ih =>
    rcases h with _ | ⟨h1, _ | ⟨h2, h3⟩⟩
    rename_i l l' ls
    simp only [panelsFl, id]
    have hlt : k.1 ≤ k'.1 := ((List.pairwise_cons.1 hi).1 k' (by simp)).le
    refine .cons ⟨?_, ?_⟩ (ih hi.tail (.cons h2 h3))
    · have := h1.2.1
      have := h2.2.1
      have : 0 ≤ k'.1 - k.1 := by linarith
      positivity
    · rw [h1.1, h2.1]
      have a1 := Rel.round R (rel_add h2.2.2 h1.2.2 h2.2.1 h1.2.1)
      have a2 := Rel.round R ((Rel.fl R (k'.1 - k.1)).mul a1)
      have a3 := Rel.round R (a2.div (Rel.refl 2))
      exact rel_mono (by omega) a3
  | case2 ks hks =>
    rcases ks with _ | ⟨k, _ | ⟨k', ks⟩⟩
    · cases h; exact .nil
    · rcases h with _ | ⟨h1, _ | _⟩
      exact .nil
    · exact absurd rfl (hks k k' ks)

theorem trapezoid_rel (R : Rounding) {j : ℕ} {ks ks' : List (ℝ × ℝ)} {o : Order}
    (ho : o.For (ks.length - 1)) (hi : Inc ks) (h : List.Forall₂ (Near j) ks ks') :
    Rel (j + 4 + o.depth) (trapezoid ks) (trapezoidFl R.fl o ks') := by
  have hp := panels_rel R hi h
  rw [trapezoid_panels, ← Order.For.list (o := o) (by rw [panelsFl_length]; exact ho)]
  have hall : ∀ i, 0 ≤ (panelsFl id ks).getD i 0 ∧
      Rel (j + 4) ((panelsFl id ks).getD i 0) ((panelsFl R.fl ks').getD i 0) := by
    intro i
    rcases lt_or_ge i (panelsFl id ks).length with h1 | h1
    · have h2 : i < (panelsFl R.fl ks').length := by rw [← hp.length_eq]; exact h1
      have := hp.get h1 h2
      simpa [h1, h2] using this
    · have h2 : (panelsFl R.fl ks').length ≤ i := by rw [← hp.length_eq]; exact h1
      rw [List.getD_eq_getElem?_getD, List.getD_eq_getElem?_getD, List.getElem?_eq_none h1,
        List.getElem?_eq_none h2]
      exact ⟨le_rfl, rel_mono (Nat.zero_le _) (Rel.refl 0)⟩
  exact rel_order R o (fun i => (hall i).1) fun i => (hall i).2

/-! ## Sums of numbers of both signs -/

theorem order_error (R : Rounding) (o : Order) (x : ℕ → ℝ) :
    |o.sum R.fl x - (o.indices.map x).sum| ≤
      ((1 + 1 / 2 ^ 53) ^ o.depth - 1) * (o.indices.map fun i => |x i|).sum := by
  have hmono : ∀ {a b : ℕ}, a ≤ b → (1 + 1 / 2 ^ 53 : ℝ) ^ a ≤ (1 + 1 / 2 ^ 53) ^ b :=
    fun h => pow_le_pow_right₀ (by norm_num) h
  induction o with
  | zero => simp [Order.sum, Order.indices]
  | leaf i => simp [Order.sum, Order.indices, Order.depth]
  | node l r hl hr =>
    simp only [Order.indices, Order.sum, Order.depth, List.map_append, List.sum_append]
    have nn : ∀ o : Order, 0 ≤ (o.indices.map fun i => |x i|).sum := fun o => List.sum_nonneg (by
      intro v hv
      obtain ⟨i, _, rfl⟩ := List.mem_map.1 hv
      exact abs_nonneg _)
    have ab : ∀ o : Order, |(o.indices.map x).sum| ≤ (o.indices.map fun i => |x i|).sum := by
      intro o
      induction o.indices with
      | nil => simp
      | cons i l ih =>
        simp only [List.map_cons, List.sum_cons]
        exact (abs_add_le _ _).trans (by linarith)
    have e1 := R.error (l.sum R.fl x + r.sum R.fl x)
    have m1 := hmono (le_max_left l.depth r.depth)
    have m2 := hmono (le_max_right l.depth r.depth)
    have m0 : (1 : ℝ) ≤ (1 + 1 / 2 ^ 53) ^ max l.depth r.depth := one_le_pow₀ (by norm_num)
    have n1 := nn l
    have n2 := nn r
    have a1 := ab l
    have a2 := ab r
    rw [pow_succ]
    generalize R.fl (l.sum R.fl x + r.sum R.fl x) = s at *
    generalize l.sum R.fl x = sl at *
    generalize r.sum R.fl x = sr at *
    generalize (l.indices.map x).sum = xl at *
    generalize (r.indices.map x).sum = xr at *
    generalize (l.indices.map fun i => |x i|).sum = al at *
    generalize (r.indices.map fun i => |x i|).sum = ar at *
    generalize (1 + 1 / 2 ^ 53 : ℝ) ^ l.depth = ql at *
    generalize (1 + 1 / 2 ^ 53 : ℝ) ^ r.depth = qr at *
    generalize (1 + 1 / 2 ^ 53 : ℝ) ^ max l.depth r.depth = q at *
    have b1 : |sl - xl| ≤ (q - 1) * al := hl.trans (by gcongr)
    have b2 : |sr - xr| ≤ (q - 1) * ar := hr.trans (by gcongr)
    have b3 : |sl + sr - (xl + xr)| ≤ (q - 1) * (al + ar) := by
      have e2 : sl + sr - (xl + xr) = (sl - xl) + (sr - xr) := by ring
      rw [e2]
      exact (abs_add_le _ _).trans (by linarith)
    have b4 : |sl + sr| ≤ q * (al + ar) := by
      have e2 : sl + sr = (sl + sr - (xl + xr)) + (xl + xr) := by ring
      rw [e2]
      have := abs_add_le xl xr
      exact (abs_add_le _ _).trans (by linarith)
    have e2 : s - (xl + xr) = (s - (sl + sr)) + (sl + sr - (xl + xr)) := by ring
    rw [e2]
    refine (abs_add_le _ _).trans ?_
    have b5 : |sl + sr| / 2 ^ 53 ≤ q * (al + ar) / 2 ^ 53 := by gcongr
    calc |s - (sl + sr)| + |sl + sr - (xl + xr)| ≤ q * (al + ar) / 2 ^ 53 + (q - 1) * (al + ar) := by
          linarith
      _ = _ := by ring

/-! ## C159 -/

/-- **C159**, effective redshifts: for windows that are not negative, the calculated effective
redshift has a small relative error, for every order of summation. -/
theorem zeff_fl_accurate (R : Rounding) {ks : List (ℝ × ℝ)} {o : Order}
    (ho : o.For (ks.length - 1)) (hi : Inc ks) (hz : ∀ k ∈ ks, 0 ≤ k.1) (hw : ∀ k ∈ ks, 0 ≤ k.2)
    {z : ℝ} (h : calculateZeff ks = some z) (hd : 4 * o.depth + 20 ≤ 2 ^ 53) :
    Rel (2 * o.depth + 10) z (zeffFl R.fl o ks) ∧
      |zeffFl R.fl o ks - z| ≤ (4 * o.depth + 20) / 2 ^ 53 * z := by
  have hself : List.Forall₂ (Near 0) ks ks := by
    rw [List.forall₂_same]
    exact fun k hk => ⟨rfl, hw k hk, Rel.refl _⟩
  have hprod : List.Forall₂ (Near 1) (ks.map fun k => (k.1, k.1 * k.2))
      (ks.map fun k => (k.1, R.fl (k.1 * k.2))) := by
    rw [List.forall₂_map_left_iff, List.forall₂_map_right_iff, List.forall₂_same]
    exact fun k hk => ⟨rfl, mul_nonneg (hz k hk) (hw k hk), Rel.fl R _⟩
  have h1 := trapezoid_rel R (ks := ks.map fun k => (k.1, k.1 * k.2)) (o := o)
    (by rwa [List.length_map]) (by unfold Inc at *; rw [List.pairwise_map]; exact hi) hprod
  have h2 := trapezoid_rel R ho hi hself
  have h3 := Rel.round R (h1.div h2)
  have hz' : z = trapezoid (ks.map fun k => (k.1, k.1 * k.2)) / trapezoid ks := by
    unfold calculateZeff at h
    split_ifs at h
    simpa using h.symm
  rw [← hz'] at h3
  have h4 : Rel (2 * o.depth + 10) z (zeffFl R.fl o ks) := rel_mono (by omega) h3
  refine ⟨h4, ?_⟩
  obtain ⟨a, b, ha, -, ha', -⟩ := calculateZeff_mem hi hw h
  have hz0 : 0 ≤ z := (hz a (List.mem_of_mem_head? ha)).trans ha'
  have h5 := rel_error h4 (by omega)
  rw [abs_of_nonneg hz0] at h5
  refine h5.trans (le_of_eq ?_)
  push_cast
  ring

/-- **C159**, range: the effective redshift is in the range of the window, up to rounding. -/
theorem zeff_fl_range (R : Rounding) {ks : List (ℝ × ℝ)} {o : Order}
    (ho : o.For (ks.length - 1)) (hi : Inc ks) (hz : ∀ k ∈ ks, 0 ≤ k.1) (hw : ∀ k ∈ ks, 0 ≤ k.2)
    {z : ℝ} (h : calculateZeff ks = some z) (hd : 4 * o.depth + 20 ≤ 2 ^ 53) :
    ∃ a b, ks.head? = some a ∧ ks.getLast? = some b ∧
      a.1 * (1 - (4 * o.depth + 20) / 2 ^ 53) ≤ zeffFl R.fl o ks ∧
      zeffFl R.fl o ks ≤ b.1 * (1 + (4 * o.depth + 20) / 2 ^ 53) := by
  obtain ⟨a, b, ha, hb, ha', hb'⟩ := calculateZeff_mem hi hw h
  refine ⟨a, b, ha, hb, ?_⟩
  have h1 := abs_le.1 (zeff_fl_accurate R ho hi hz hw h hd).2
  have he : (4 * (o.depth : ℝ) + 20) / 2 ^ 53 ≤ 1 := by
    rw [div_le_one (by norm_num)]
    exact_mod_cast hd
  have he0 : 0 ≤ (4 * (o.depth : ℝ) + 20) / 2 ^ 53 := by positivity
  generalize (4 * (o.depth : ℝ) + 20) / 2 ^ 53 = e at *
  constructor
  · have := mul_le_mul_of_nonneg_right ha' (show 0 ≤ 1 - e by linarith)
    linarith [h1.1]
  · have := mul_le_mul_of_nonneg_right hb' (show 0 ≤ 1 + e by linarith)
    linarith [h1.2]

/-- Without rounding, the definitions are those of the other modules. -/
theorem averages_fl_real (o o' : Order) (ks : List (ℝ × ℝ)) (d : List ℝ) (b : List ℝ)
    (ho : o.For (ks.length - 1)) (ho' : o'.For d.length) (hb : b.length = d.length)
    (h : trapezoid ks ≠ 0) :
    calculateZeff ks = some (zeffFl id o ks) ∧
    Glass.Points.positionWeights d none = .ok (positionWeightsFl id o' d none) ∧
    Glass.Points.positionWeights d (some b) = .ok (positionWeightsFl id o' d (some b)) := by
  have ht : ∀ ks : List (ℝ × ℝ), o.For (ks.length - 1) → trapezoidFl id o ks = trapezoid ks := by
    intro ks ho
    unfold trapezoidFl
    rw [Order.sum_id, Order.For.list (by rw [panelsFl_length]; exact ho), trapezoid_panels]
  refine ⟨?_, ?_, ?_⟩
  · have hk : 0 < ks.length := by
      rcases ks with _ | ⟨k, ks⟩
      · exact absurd rfl h
      · simp
    unfold calculateZeff zeffFl
    rw [if_pos hk, if_neg h, ht _ ho, ht _ (by rwa [List.length_map])]
    rfl
  · unfold Glass.Points.positionWeights positionWeightsFl
    simp only [Order.sum_id, Order.For.list ho', id]
  · unfold Glass.Points.positionWeights positionWeightsFl
    simp only [Order.sum_id, Order.For.list ho', id, Glass.Points.broadcastArrays, if_pos hb.symm,
      bind, Except.bind]

/-- **C159**, position weights: every weight has a small relative error. -/
theorem position_weights_fl_accurate (R : Rounding) {o : Order} {d b : List ℝ}
    (ho : o.For d.length) (h0 : ∀ v ∈ d, 0 ≤ v) :
    List.Forall₂ (Rel (o.depth + 1)) (d.map (· / d.sum)) (positionWeightsFl R.fl o d none) ∧
    (b.length = d.length → List.Forall₂ (Rel (o.depth + 2))
      (List.zipWith (· * ·) (d.map (· / d.sum)) b) (positionWeightsFl R.fl o d (some b))) := by
  have hs : Rel o.depth d.sum (o.sum R.fl fun i => d.getD i 0) := by
    have := rel_order R o (k := 0) (x := fun i => d.getD i 0) (x' := fun i => d.getD i 0)
      (fun i => by
        rw [List.getD_eq_getElem?_getD]
        rcases lt_or_ge i d.length with hi | hi
        · rw [List.getElem?_eq_getElem hi]
          exact h0 _ (List.getElem_mem hi)
        · rw [List.getElem?_eq_none hi]
          exact le_rfl) fun i => Rel.refl _
    rwa [Order.For.list ho, zero_add] at this
  have h1 : ∀ v, Rel (o.depth + 1) (v / d.sum) (R.fl (v / o.sum R.fl fun i => d.getD i 0)) := by
    intro v
    have := Rel.round R ((Rel.refl v).div hs)
    rwa [zero_add] at this
  unfold positionWeightsFl
  constructor
  · simp only
    rw [List.forall₂_map_left_iff, List.forall₂_map_right_iff, List.forall₂_same]
    exact fun v _ => h1 v
  · intro hb
    simp only
    rw [List.zipWith_map_left, List.zipWith_map_left]
    have : ∀ d' b' : List ℝ, List.Forall₂ (Rel (o.depth + 2))
        (List.zipWith (fun v b => v / d.sum * b) d' b')
        (List.zipWith (fun v b => R.fl (R.fl (v / o.sum R.fl fun i => d.getD i 0) * b)) d' b') := by
      intro d'
      induction d' with
      | nil => intro b'; exact .nil
      | cons v d' ih =>
        intro b'
        rcases b' with _ | ⟨c, b'⟩
        · exact .nil
        · refine .cons ?_ (ih b')
          have := Rel.round R ((h1 v).mul (Rel.refl c))
          exact this
    exact this d b

/-- **C159**, normalisation: the weights without bias add up to one, up to rounding. -/
theorem position_weights_fl_sum (R : Rounding) {o : Order} {d : List ℝ}
    (ho : o.For d.length) (h0 : ∀ v ∈ d, 0 ≤ v) (hd : d.sum ≠ 0)
    (hk : 2 * (o.depth + 1) ≤ 2 ^ 53) :
    |(positionWeightsFl R.fl o d none).sum - 1| ≤ 2 * (o.depth + 1) / 2 ^ 53 := by
  have h := (position_weights_fl_accurate R (b := []) ho h0).1
  have hsum : ∀ {l l' : List ℝ} {k : ℕ}, List.Forall₂ (Rel k) l l' → (∀ v ∈ l, 0 ≤ v) →
      Rel k l.sum l'.sum := by
    intro l l' k h
    induction h with
    | nil => intro _; exact rel_mono (Nat.zero_le _) (Rel.refl 0)
    | cons h1 h2 ih =>
      intro hv
      rw [List.sum_cons, List.sum_cons]
      refine rel_add h1 (ih fun v hv' => hv v (by simp [hv'])) (hv _ (by simp))
        (List.sum_nonneg fun v hv' => hv v (by simp [hv']))
  have hs0 : 0 ≤ d.sum := List.sum_nonneg h0
  have h1 := hsum h (by
    intro v hv
    obtain ⟨w, hw, rfl⟩ := List.mem_map.1 hv
    exact div_nonneg (h0 w hw) hs0)
  have e : (d.map (· / d.sum)).sum = 1 := by
    have := List.sum_map_mul_right (l := d) (f := id) (r := d.sum⁻¹)
    simp only [List.map_id, id] at this
    simp only [div_eq_mul_inv]
    rw [this, mul_inv_cancel₀ hd]
  rw [e] at h1
  have := rel_error h1 hk
  rw [abs_one, mul_one] at this
  refine this.trans (le_of_eq ?_)
  push_cast
  rfl

theorem expected_count_fl_real (o : Order) (n : List ℝ) (ngal : ℝ) (ho : o.For n.length)
    (removeMonopole : Bool) :
    expectedCountFl id o Glass.Points.arcmin2Sphere n ngal removeMonopole =
      Glass.Points.computeExpectedCount n ngal removeMonopole := by
  unfold expectedCountFl Glass.Points.computeExpectedCount
  simp only [Order.sum_id, Order.For.list ho, id]
  rfl

theorem sum_map_error {l : List ℝ} {f g h : ℝ → ℝ} (H : ∀ v ∈ l, |f v - g v| ≤ h v) :
    |(l.map f).sum - (l.map g).sum| ≤ (l.map h).sum := by
  induction l with
  | nil => simp
  | cons v l ih =>
    simp only [List.map_cons, List.sum_cons]
    have e : f v + (l.map f).sum - (g v + (l.map g).sum) =
      (f v - g v) + ((l.map f).sum - (l.map g).sum) := by ring
    rw [e]
    exact (abs_add_le _ _).trans (add_le_add (H v (by simp)) (ih fun w hw => H w (by simp [hw])))

theorem power_bound {D : ℕ} (hD : 2 * D ≤ 2 ^ 53) :
    (1 + 1 / 2 ^ 53 : ℝ) ^ D - 1 ≤ 2 * D / 2 ^ 53 := by
  have h : Rel D 1 ((1 + 1 / 2 ^ 53) ^ D) := by
    refine ⟨(1 + 1 / 2 ^ 53) ^ D, by simp, ?_, ?_⟩
    · exact pow_le_pow_left₀ (by norm_num) (by norm_num) _
    · rw [← inv_pow]
      exact pow_le_pow_left₀ (by norm_num) (by norm_num) _
  have := rel_error h hD
  rw [abs_one, mul_one] at this
  exact (le_abs_self _).trans this

/-- One pixel. -/
theorem pixel_error (R : Rounding) {v m m' c c' M E : ℝ} (hm : |m| ≤ M) (hE : |m' - m| ≤ E)
    (hEM : E ≤ M) (hc : 0 ≤ c) (hcc : Rel 2 c c') :
    |R.fl (R.fl (R.fl (v - m') + 1) * c') - (v - m + 1) * c| ≤
      c * (E + (15 * |v| + 30 * M + 13) / 2 ^ 53) := by
  have hM : 0 ≤ M := (abs_nonneg m).trans hm
  have hv := abs_nonneg v
  have e0 : |c' - c| ≤ 4 / 2 ^ 53 * c := by
    have := rel_error hcc (by norm_num)
    rw [abs_of_nonneg hc] at this
    refine this.trans (le_of_eq (by norm_num))
  have m2 : |m'| ≤ 2 * M := by
    have e : m' = m + (m' - m) := by ring
    rw [e]
    exact (abs_add_le _ _).trans (by linarith)
  have w1 : |v - m'| ≤ |v| + 2 * M := (abs_sub _ _).trans (by linarith)
  have e1 := R.error (v - m')
  generalize R.fl (v - m') = a at *
  have e1' : |a - (v - m')| ≤ (|v| + 2 * M) / 2 ^ 53 := e1.trans (by gcongr)
  have w2 : |a + 1| ≤ 2 * |v| + 4 * M + 1 := by
    have e : a + 1 = (a - (v - m')) + (v - m') + 1 := by ring
    rw [e]
    refine (abs_add_le _ _).trans ?_
    have := abs_add_le (a - (v - m')) (v - m')
    have h1 : (|v| + 2 * M) / 2 ^ 53 ≤ |v| + 2 * M := div_le_self (by positivity) (by norm_num)
    rw [abs_one]; linarith
  have e2 := R.error (a + 1)
  generalize R.fl (a + 1) = b at *
  have e2' : |b - (a + 1)| ≤ (2 * |v| + 4 * M + 1) / 2 ^ 53 := e2.trans (by gcongr)
  have e3 : |b - (v - m + 1)| ≤ E + (3 * |v| + 6 * M + 1) / 2 ^ 53 := by
    have e : b - (v - m + 1) = (b - (a + 1)) + (a - (v - m')) + (-(m' - m)) := by ring
    rw [e]
    refine (abs_add_le _ _).trans ?_
    have := abs_add_le (b - (a + 1)) (a - (v - m'))
    rw [abs_neg]
    have h1 : (3 * |v| + 6 * M + 1) / 2 ^ 53 =
      (2 * |v| + 4 * M + 1) / 2 ^ 53 + (|v| + 2 * M) / 2 ^ 53 := by ring
    linarith
  have w3 : |b| ≤ 2 * |v| + 4 * M + 2 := by
    have e : b = (b - (v - m + 1)) + (v - m + 1) := by ring
    rw [e]
    refine (abs_add_le _ _).trans ?_
    have h1 : |v - m + 1| ≤ |v| + M + 1 := by
      refine (abs_add_le _ _).trans ?_
      have := abs_sub v m
      rw [abs_one]; linarith
    have h2 : (3 * |v| + 6 * M + 1) / 2 ^ 53 ≤ |v| + M + 1 := by
      rw [div_le_iff₀ (by norm_num)]
      norm_num
      linarith
    linarith
  have w4 : |b * c'| ≤ 2 * (|b| * c) := by
    rw [abs_mul]
    have h1 : |c'| ≤ 2 * c := by
      have e : c' = c + (c' - c) := by ring
      rw [e]
      refine (abs_add_le _ _).trans ?_
      rw [abs_of_nonneg hc]
      have : 4 / 2 ^ 53 * c ≤ 1 * c := by gcongr; norm_num
      linarith
    nlinarith [abs_nonneg b]
  have e4 := R.error (b * c')
  generalize R.fl (b * c') = r at *
  have e : r - (v - m + 1) * c = (r - b * c') + b * (c' - c) + (b - (v - m + 1)) * c := by ring
  rw [e]
  refine (abs_add_le _ _).trans ?_
  have h1 := abs_add_le (r - b * c') (b * (c' - c))
  have h2 : |b * (c' - c)| ≤ |b| * (4 / 2 ^ 53 * c) := by
    rw [abs_mul]; gcongr
  have h3 : |(b - (v - m + 1)) * c| ≤ (E + (3 * |v| + 6 * M + 1) / 2 ^ 53) * c := by
    rw [abs_mul, abs_of_nonneg hc]; gcongr
  have h4 : |b * c'| / 2 ^ 53 ≤ 2 * (|b| * c) / 2 ^ 53 := by gcongr
  have h5 : |b| * (6 / 2 ^ 53 * c) ≤ (2 * |v| + 4 * M + 2) * (6 / 2 ^ 53 * c) := by gcongr
  have h6 : 2 * (|b| * c) / 2 ^ 53 + |b| * (4 / 2 ^ 53 * c) = |b| * (6 / 2 ^ 53 * c) := by ring
  have h7 : (E + (3 * |v| + 6 * M + 1) / 2 ^ 53) * c + (2 * |v| + 4 * M + 2) * (6 / 2 ^ 53 * c) =
    c * (E + (15 * |v| + 30 * M + 13) / 2 ^ 53) := by ring
  linarith

/-- **C159**, numbers of points: with the monopole removed, the expected numbers of all pixels add up
to the requested number for the sphere, up to rounding errors times one plus the mean of the moduli
of the contrast. -/
theorem expected_total_fl (R : Rounding) {o : Order} {n : List ℝ} {area ngal : ℝ}
    (ho : o.For n.length) (hn : n ≠ []) (ha : 0 ≤ area) (hg : 0 ≤ ngal)
    (hD : o.depth ≤ 2 ^ 50) :
    |(expectedCountFl R.fl o area n ngal true).sum - area * ngal| ≤
      (2 * o.depth + 50) / 2 ^ 53 * (1 + (n.map fun v => |v|).sum / n.length) * (area * ngal) := by
  have hN : (0 : ℝ) < n.length := by
    have := List.length_pos_iff.2 hn
    exact_mod_cast this
  set N : ℝ := (n.length : ℝ) with hNdef
  set M := (n.map fun v => |v|).sum / N with hM
  set m := n.sum / N with hm
  set m' := R.fl ((o.sum R.fl fun i => n.getD i 0) / N) with hm'
  set c := area / N * ngal with hc
  set c' := R.fl (R.fl (area / N) * ngal) with hc'
  have hM0 : 0 ≤ M := div_nonneg (List.sum_nonneg (by
    intro v hv
    obtain ⟨w, _, rfl⟩ := List.mem_map.1 hv
    exact abs_nonneg _)) hN.le
  have habs : |n.sum| ≤ (n.map fun v => |v|).sum := by
    have := sum_map_error (l := n) (f := id) (g := fun _ => 0) (h := fun v => |v|)
      fun v _ => by simp
    simpa using this
  have hmM : |m| ≤ M := by
    rw [hm, abs_div, abs_of_pos hN]
    exact div_le_div_of_nonneg_right habs hN.le
  have hc0 : 0 ≤ c := by positivity
  have hcc : Rel 2 c c' := by
    have := Rel.round R ((Rel.fl R (area / N)).mul (Rel.refl ngal))
    exact this
  -- the mean
  have hsum : |(o.sum R.fl fun i => n.getD i 0) / N - m| ≤ 2 * o.depth / 2 ^ 53 * M := by
    have h1 := order_error R o fun i => n.getD i 0
    have h2 : (o.indices.map fun i => |n.getD i 0|).sum = (n.map fun v => |v|).sum := by
      have := Order.For.list (o := o) (l := n.map fun v => |v|) (by rwa [List.length_map])
      rw [← this]
      congr 2
      funext i
      simp only [List.getD_eq_getElem?_getD, List.getElem?_map]
      cases n[i]? <;> simp
    rw [Order.For.list ho, h2] at h1
    rw [hm, ← sub_div, abs_div, abs_of_pos hN, div_le_iff₀ hN]
    refine h1.trans ?_
    have h3 : 2 * o.depth / 2 ^ 53 * M * N = 2 * o.depth / 2 ^ 53 * (n.map fun v => |v|).sum := by
      rw [hM, mul_assoc, div_mul_cancel₀ _ hN.ne']
    rw [h3]
    have h4 : 0 ≤ (n.map fun v => |v|).sum := (abs_nonneg _).trans habs
    exact mul_le_mul_of_nonneg_right (power_bound (by omega)) h4
  have hD' : (o.depth : ℝ) ≤ 2 ^ 50 := by exact_mod_cast hD
  have hmean : |m' - m| ≤ (2 * o.depth + 2) / 2 ^ 53 * M := by
    have h1 := R.error ((o.sum R.fl fun i => n.getD i 0) / N)
    rw [← hm'] at h1
    generalize (o.sum R.fl fun i => n.getD i 0) / N = s at *
    have h2 : |s| ≤ 2 * M := by
      have e : s = m + (s - m) := by ring
      rw [e]
      refine (abs_add_le _ _).trans ?_
      have : 2 * (o.depth : ℝ) / 2 ^ 53 * M ≤ 1 * M := by
        gcongr
        rw [div_le_one (by norm_num)]
        linarith
      linarith
    have e : m' - m = (m' - s) + (s - m) := by ring
    rw [e]
    refine (abs_add_le _ _).trans ?_
    have h3 : |s| / 2 ^ 53 ≤ 2 * M / 2 ^ 53 := by gcongr
    have h4 : (2 * o.depth + 2) / 2 ^ 53 * M = 2 * M / 2 ^ 53 + 2 * o.depth / 2 ^ 53 * M := by ring
    linarith
  have hEM : (2 * (o.depth : ℝ) + 2) / 2 ^ 53 * M ≤ M := by
    refine mul_le_of_le_one_left hM0 ?_
    rw [div_le_one (by norm_num)]
    linarith
  have hex : (expectedCountFl R.fl o area n ngal true) =
      n.map fun v => R.fl (R.fl (R.fl (v - m') + 1) * c') := by
    unfold expectedCountFl
    simp [Function.comp_def, hm', hc', hNdef]
  have htot : (n.map fun v => (v - m + 1) * c).sum = area * ngal := by
    rw [List.sum_map_mul_right]
    have h1 : (n.map fun v => v - m + 1).sum = N := by
      have : ∀ l : List ℝ, (l.map fun v => v - m + 1).sum = l.sum - l.length * m + l.length := by
        intro l
        induction l with
        | nil => simp
        | cons v l ih => simp only [List.map_cons, List.sum_cons, ih, List.length_cons]; push_cast; ring
      rw [this, hm, ← hNdef]
      field_simp
      ring
    rw [h1, hc]
    field_simp
  have hE := sum_map_error (l := n) (f := fun v => R.fl (R.fl (R.fl (v - m') + 1) * c'))
    (g := fun v => (v - m + 1) * c)
    (h := fun v => c * ((2 * o.depth + 2) / 2 ^ 53 * M + (15 * |v| + 30 * M + 13) / 2 ^ 53))
    fun v _ => pixel_error R hmM hmean hEM hc0 hcc
  rw [hex, ← htot]
  refine hE.trans ?_
  rw [htot]
  have hs : (n.map fun v => c * ((2 * o.depth + 2) / 2 ^ 53 * M +
      (15 * |v| + 30 * M + 13) / 2 ^ 53)).sum =
      c * N * ((2 * o.depth + 47) / 2 ^ 53 * M + 13 / 2 ^ 53) := by
    have : ∀ l : List ℝ, (l.map fun v => c * ((2 * o.depth + 2) / 2 ^ 53 * M +
        (15 * |v| + 30 * M + 13) / 2 ^ 53)).sum = c * (l.length * ((2 * o.depth + 2) / 2 ^ 53 * M +
        (30 * M + 13) / 2 ^ 53) + 15 / 2 ^ 53 * (l.map fun v => |v|).sum) := by
      intro l
      induction l with
      | nil => simp
      | cons v l ih => simp only [List.map_cons, List.sum_cons, ih, List.length_cons]; push_cast; ring
    rw [this, ← hNdef]
    have e : (n.map fun v => |v|).sum = M * N := by rw [hM]; field_simp
    rw [e]
    ring
  rw [hs]
  have e : c * N = area * ngal := by rw [hc]; field_simp
  rw [e]
  have h0 : 0 ≤ area * ngal := by positivity
  rw [mul_comm (area * ngal)]
  refine mul_le_mul_of_nonneg_right ?_ h0
  have h1 : (0 : ℝ) ≤ o.depth := Nat.cast_nonneg _
  have h2 : (2 * o.depth + 50) / 2 ^ 53 * (1 + M) = (2 * o.depth + 47) / 2 ^ 53 * M + 13 / 2 ^ 53 +
    (3 / 2 ^ 53 * M + (2 * o.depth + 37) / 2 ^ 53) := by ring
  rw [h2]
  have : 0 ≤ 3 / 2 ^ 53 * M + (2 * (o.depth : ℝ) + 37) / 2 ^ 53 := by positivity
  linarith

/-- Maps of 2 ^ 20 pixels, added in pairs. -/
example : (Order.pairs 0 20).For (2 ^ 20) ∧ (Order.pairs 0 20).depth ≤ 2 ^ 50 :=
  ⟨Order.pairs_for 20, by rw [Order.pairs_depth]; norm_num⟩

/-- A window of three points meets the hypotheses of `zeff_fl_accurate`. -/
example : ∃ z, Inc [((0 : ℝ), (0 : ℝ)), (1, 1), (2, 0)] ∧
    calculateZeff [((0 : ℝ), (0 : ℝ)), (1, 1), (2, 0)] = some z ∧
    (Order.sequential 2).For 2 ∧ 4 * (Order.sequential 2).depth + 20 ≤ 2 ^ 53 := by
  refine ⟨1, by simp [Inc], ?_, Order.sequential_for 2, by rw [Order.sequential_depth]; norm_num⟩
  norm_num [calculateZeff, trapezoid]

end Glass.Shells
