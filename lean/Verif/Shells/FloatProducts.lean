import Verif.Shells.FloatWindows
import Verif.Shells.ShellProps
import Verif.Lensing.Model

/-!
# Effective bias and lensing weights in floating point (C162)

Products of interpolated functions, integrated with every operation rounded and for every order of the
additions.
-/

namespace Glass.Shells

open Glass Glass.Num Glass.Spectra Glass.Lensing Glass.Galaxies

/-! ## Model -/

/-- `points.py:75-112` `effective_bias` with `arraytools.py:158-194` `trapezoid_product`, every operation
rounded.  The order `o` is that of the sum over the common grid, `o'` that of the window. -/
noncomputable def effectiveBiasFl (fl : ℝ → ℝ) (o o' : Order) (b w : List (ℝ × ℝ)) : Except Err ℝ :=
  match overlapGrid (b.map Prod.fst) (w.map Prod.fst) with
  | .error e => .error e
  | .ok z => .ok (fl (trapezoidFl fl o (sample (fun t => fl (interpFl fl b t * interpFl fl w t)) z) /
      trapezoidFl fl o' w))

/-- The weight of a plane in `lensing.py:505-507`, every operation rounded. -/
noncomputable def lensWeightFl (fl : ℝ → ℝ) (o : Order) (w : List (ℝ × ℝ)) (zeff : ℝ) : ℝ :=
  fl (trapezoidFl fl o w / interpFl fl w zeff)

/-! ## Without rounding -/

theorem interpFl_real (ks : List (ℝ × ℝ)) (x : ℝ) : interpFl id ks x = interp none none ks x := by
  unfold interpFl interp
  rw [interpInFl_real]
  rfl

theorem trapezoidFl_real {o : Order} {ks : List (ℝ × ℝ)} (ho : o.For (ks.length - 1)) :
    trapezoidFl id o ks = trapezoid ks := by
  unfold trapezoidFl
  rw [Order.sum_id, Order.For.list (by rw [panelsFl_length]; exact ho), trapezoid_panels]

/-- **C162**: without rounding, this is the effective bias and the weight of a plane. -/
theorem products_fl_real {o o' : Order} {b : List (ℝ × ℝ)} {w : RadialWindow}
    (ho : ∀ z, overlapGrid (b.map Prod.fst) (w.knots.map Prod.fst) = .ok z → o.For (z.length - 1))
    (ho' : o'.For (w.knots.length - 1)) :
    effectiveBiasFl id o o' b w.knots = effectiveBias b w ∧
    (∀ {P : Type} (c : Cosmology) (s : MPC P) (delta : P → ℝ), s.addWindow c delta w =
      s.initialiseInputs.addPlane c delta w.zeff (lensWeightFl id o' w.knots w.zeff)) := by
  constructor
  · unfold effectiveBiasFl effectiveBias trapezoidProduct
    simp only [List.foldlM_cons, List.foldlM_nil, List.foldl_cons, List.foldl_nil]
    rcases h : overlapGrid (b.map Prod.fst) (w.knots.map Prod.fst) with e | z
    · rfl
    · simp only [id, interpFl_real, trapezoidFl_real ho']
      rw [trapezoidFl_real (by simpa [sample] using ho z h)]
      rfl
  · intro P c s delta
    unfold lensWeightFl
    rw [trapezoidFl_real ho', interpFl_real]
    rfl

/-! ## Interpolation -/

theorem interpIn_error (R : Rounding) {Y : ℝ} (hY : 0 ≤ Y) : ∀ {ks : List (ℝ × ℝ)} {x : ℝ}, Inc ks →
    (∀ k ∈ ks, 0 ≤ k.2 ∧ k.2 ≤ Y) → (∀ k, ks.head? = some k → k.1 ≤ x) →
    |interpInFl R.fl ks x - interpIn ks x| ≤ 13 / 2 ^ 53 * Y
  | [], _, _, _, _ => by simp only [interpInFl, interpIn, sub_self, abs_zero]; positivity
  | [k], _, _, _, _ => by simp only [interpInFl, interpIn, sub_self, abs_zero]; positivity
  | k :: k' :: ks, x, hi, hb, hx => by
    have hlt : k.1 < k'.1 := hi.lt (by simp)
    have hkx : k.1 ≤ x := hx k rfl
    have h1 := hb k (by simp)
    have h2 := hb k' (by simp)
    simp only [interpInFl, interpIn]
    split_ifs with c1 c2
    · subst c2
      rw [sub_self, mul_zero, add_zero, sub_self, abs_zero]; positivity
    · exact cell_error R hlt hkx c1.le h1.1 h2.1 h1.2 h2.2
    · exact interpIn_error R hY hi.tail (fun j hj => hb j (by simp [hj])) (by
        intro j hj
        simp only [List.head?_cons, Option.some.injEq] at hj
        subst hj
        exact not_lt.1 c1)

/-- The error of interpolation of values that are not negative. -/
theorem interp_error (R : Rounding) {Y : ℝ} (hY : 0 ≤ Y) {ks : List (ℝ × ℝ)} (hi : Inc ks)
    (hb : ∀ k ∈ ks, 0 ≤ k.2 ∧ k.2 ≤ Y) (x : ℝ) :
    |interpFl R.fl ks x - interp none none ks x| ≤ 13 / 2 ^ 53 * Y := by
  have h0 : 0 ≤ 13 / 2 ^ 53 * Y := by positivity
  unfold interpFl interp
  rcases hh : ks.head? with _ | a
  · simpa using h0
  rcases hl : ks.getLast? with _ | b
  · simpa using h0
  simp only [Option.getD_none]
  split_ifs with c1 c2
  · simpa using h0
  · simpa using h0
  · refine interpIn_error R hY hi hb ?_
    intro k hk
    rw [hh, Option.some.injEq] at hk
    subst hk
    exact not_lt.1 c1

/-- The error of the product of two interpolated values. -/
theorem product_error (R : Rounding) {b b' w w' B W : ℝ} (hb : |b' - b| ≤ 13 / 2 ^ 53 * B)
    (hw : |w' - w| ≤ 13 / 2 ^ 53 * W) (hb0 : 0 ≤ b) (hbB : b ≤ B) (hw0 : 0 ≤ w) (hwW : w ≤ W) :
    |R.fl (b' * w') - b * w| ≤ 28 / 2 ^ 53 * (B * W) := by
  have hB : 0 ≤ B := hb0.trans hbB
  have hW : 0 ≤ W := hw0.trans hwW
  have hBW : 0 ≤ B * W := mul_nonneg hB hW
  have e := R.error (b' * w')
  have h1 : |b' - b| * |w' - w| ≤ 1 / 2 ^ 53 / 8 * (B * W) := by
    calc |b' - b| * |w' - w| ≤ (13 / 2 ^ 53 * B) * (13 / 2 ^ 53 * W) :=
          mul_le_mul hb hw (abs_nonneg _) (by positivity)
      _ = (13 * 13 / 2 ^ 53) / 2 ^ 53 * (B * W) := by ring
      _ ≤ 1 / 2 ^ 53 / 8 * (B * W) := mul_le_mul_of_nonneg_right (by norm_num) hBW
  have h2 : |b' - b| * w ≤ 13 / 2 ^ 53 * (B * W) := by
    calc |b' - b| * w ≤ (13 / 2 ^ 53 * B) * W := mul_le_mul hb hwW hw0 (by positivity)
      _ = _ := by ring
  have h3 : b * |w' - w| ≤ 13 / 2 ^ 53 * (B * W) := by
    calc b * |w' - w| ≤ B * (13 / 2 ^ 53 * W) := mul_le_mul hbB hw (abs_nonneg _) hB
      _ = _ := by ring
  have h4 : |b' * w' - b * w| ≤ 26 / 2 ^ 53 * (B * W) + 1 / 2 ^ 53 / 8 * (B * W) := by
    have e : b' * w' - b * w = (b' - b) * (w' - w) + (b' - b) * w + b * (w' - w) := by ring
    rw [e]
    refine (abs_add_le _ _).trans ?_
    have h5 := abs_add_le ((b' - b) * (w' - w)) ((b' - b) * w)
    rw [abs_mul, abs_mul, abs_of_nonneg hw0] at h5
    rw [abs_mul, abs_of_nonneg hb0]
    have e2 : 26 / 2 ^ 53 * (B * W) = 13 / 2 ^ 53 * (B * W) + 13 / 2 ^ 53 * (B * W) := by ring
    linarith
  have h5 : b * w ≤ B * W := mul_le_mul hbB hwW hw0 hB
  have h6 : |b' * w'| ≤ |b' * w' - b * w| + B * W := by
    have := abs_sub_abs_le_abs_sub (b' * w') (b * w)
    rw [abs_of_nonneg (mul_nonneg hb0 hw0)] at this
    linarith
  have h7 := abs_add_le (R.fl (b' * w') - b' * w') (b' * w' - b * w)
  rw [sub_add_sub_cancel] at h7
  generalize B * W = V at *
  generalize |b' * w'| = p at *
  generalize |b' * w' - b * w| = q at *
  generalize |R.fl (b' * w') - b' * w'| = s at *
  have h8 : p / 2 ^ 53 ≤ 3 / 2 * (1 / 2 ^ 53) * V := by
    rw [div_le_iff₀ (by norm_num)]
    have : (26 / 2 ^ 53 + 1 / 2 ^ 53 / 8 : ℝ) * V ≤ 1 / 2 * V :=
      mul_le_mul_of_nonneg_right (by norm_num) hBW
    have e3 : 3 / 2 * (1 / 2 ^ 53) * V * 2 ^ 53 = 3 / 2 * V := by ring
    rw [e3]
    linarith
  have e4 : 28 / 2 ^ 53 * V = 26 / 2 ^ 53 * V + 1 / 2 ^ 53 / 8 * V + 15 / 8 * (1 / 2 ^ 53) * V := by ring
  have h9 : 3 / 2 * (1 / 2 ^ 53) * V ≤ 15 / 8 * (1 / 2 ^ 53) * V :=
    mul_le_mul_of_nonneg_right (by norm_num) hBW
  linarith

/-! ## Integration -/

/-- The length of a grid. -/
noncomputable def extent (z : List ℝ) : ℝ := trapezoid (sample (fun _ => 1) z)

theorem extent_cons (a b : ℝ) (z : List ℝ) : extent (a :: b :: z) = (b - a) + extent (b :: z) := by
  unfold extent sample
  simp only [List.map_cons, trapezoid]
  ring

theorem extent_nonneg : ∀ {z : List ℝ}, z.Pairwise (· < ·) → 0 ≤ extent z
  | [], _ => by simp [extent, sample, trapezoid]
  | [_], _ => by simp [extent, sample, trapezoid]
  | a :: b :: z, h => by
    rw [extent_cons]
    have := extent_nonneg (List.pairwise_cons.1 h).2
    have h1 : a < b := (List.pairwise_cons.1 h).1 b (by simp)
    linarith

theorem extent_le {q : ℝ} : ∀ {z : List ℝ} {p : ℝ}, z.Pairwise (· < ·) → p ≤ q →
    (∀ t ∈ z, p ≤ t ∧ t ≤ q) → extent z ≤ q - p
  | [], p, _, h, _ => by simpa [extent, sample, trapezoid] using h
  | [_], p, _, h, _ => by simpa [extent, sample, trapezoid] using h
  | a :: b :: z, p, hs, _, hz => by
    rw [extent_cons]
    have h1 := hz a (by simp)
    have h2 := hz b (by simp)
    have hs' := (List.pairwise_cons.1 hs).2
    have := extent_le (z := b :: z) (p := b) hs' h2.2 (fun t ht => by
      rcases List.mem_cons.1 ht with rfl | ht'
      · exact ⟨le_rfl, h2.2⟩
      · exact ⟨((List.pairwise_cons.1 hs').1 t ht').le, (hz t (by simp [ht'])).2⟩)
    linarith

/-- The error of one panel. -/
theorem panel_error (R : Rounding) {a b y y' v v' E V : ℝ} (hab : a < b) (hE : 0 ≤ E) (hEV : E ≤ V / 8)
    (h : |v - y| ≤ E) (h' : |v' - y'| ≤ E) (hy : 0 ≤ y) (hyV : y ≤ V) (hy' : 0 ≤ y') (hyV' : y' ≤ V) :
    |R.fl (R.fl (R.fl (b - a) * R.fl (v' + v)) / 2) - (b - a) * (y' + y) / 2| ≤
      (E + 9 / 2 ^ 53 * V) * (b - a) ∧
    |R.fl (R.fl (R.fl (b - a) * R.fl (v' + v)) / 2)| ≤ 5 / 4 * V * (b - a) := by
  have hd : 0 < b - a := sub_pos.2 hab
  have hr := rel_error ((((Rel.fl R (b - a)).mul (Rel.fl R (v' + v))).round R).div (Rel.refl 2) |>.round R)
    (by norm_num)
  generalize R.fl (R.fl (R.fl (b - a) * R.fl (v' + v)) / 2) = p at *
  have hV : 0 ≤ V := hy.trans hyV
  have s1 : |v' + v| ≤ 2 * (V + E) := by
    rw [abs_le] at h h' ⊢
    constructor <;> linarith
  have s2 : |(b - a) * (v' + v) / 2| ≤ 9 / 8 * V * (b - a) := by
    rw [abs_div, abs_mul, abs_of_pos hd, abs_two, div_le_iff₀ (by norm_num)]
    have := mul_le_mul_of_nonneg_left (s1.trans (show 2 * (V + E) ≤ 9 / 4 * V by linarith)) hd.le
    linarith
  have s3 : |(b - a) * (v' + v) / 2 - (b - a) * (y' + y) / 2| ≤ E * (b - a) := by
    have e : (b - a) * (v' + v) / 2 - (b - a) * (y' + y) / 2 =
      (b - a) * (((v' - y') + (v - y)) / 2) := by ring
    rw [e, abs_mul, abs_of_pos hd, mul_comm]
    refine mul_le_mul_of_nonneg_right ?_ hd.le
    rw [abs_le] at h h' ⊢
    constructor <;> linarith
  have s4 : |p - (b - a) * (v' + v) / 2| ≤ 9 / 2 ^ 53 * V * (b - a) := by
    refine hr.trans ?_
    calc _ ≤ 2 * ((1 + 1 + 1 + 0 + 1 : ℕ) : ℝ) / 2 ^ 53 * (9 / 8 * V * (b - a)) :=
          mul_le_mul_of_nonneg_left s2 (by positivity)
      _ = _ := by push_cast; ring
  constructor
  · have := abs_add_le (p - (b - a) * (v' + v) / 2) ((b - a) * (v' + v) / 2 - (b - a) * (y' + y) / 2)
    rw [sub_add_sub_cancel] at this
    have e : (E + 9 / 2 ^ 53 * V) * (b - a) = E * (b - a) + 9 / 2 ^ 53 * V * (b - a) := by ring
    linarith
  · have := abs_sub_abs_le_abs_sub p ((b - a) * (v' + v) / 2)
    have e : 9 / 2 ^ 53 * V * (b - a) ≤ 1 / 8 * V * (b - a) := by
      rw [mul_assoc, mul_assoc]
      exact mul_le_mul_of_nonneg_right (by norm_num) (mul_nonneg hV hd.le)
    have e2 : 5 / 4 * V * (b - a) = 9 / 8 * V * (b - a) + 1 / 8 * V * (b - a) := by ring
    linarith

theorem panels_error (R : Rounding) {f g : ℝ → ℝ} {E V : ℝ} (hE : 0 ≤ E) (hEV : E ≤ V / 8) :
    ∀ {z : List ℝ}, z.Pairwise (· < ·) → (∀ t ∈ z, |g t - f t| ≤ E ∧ 0 ≤ f t ∧ f t ≤ V) →
    |(panelsFl R.fl (sample g z)).sum - trapezoid (sample f z)| ≤ (E + 9 / 2 ^ 53 * V) * extent z ∧
    ((panelsFl R.fl (sample g z)).map fun v => |v|).sum ≤ 5 / 4 * V * extent z
  | [], _, _ => by simp [sample, panelsFl, trapezoid, extent]
  | [_], _, _ => by simp [sample, panelsFl, trapezoid, extent]
  | a :: b :: z, hs, h => by
    have h1 := h a (by simp)
    have h2 := h b (by simp)
    obtain ⟨p1, p2⟩ := panel_error R ((List.pairwise_cons.1 hs).1 b (by simp)) hE hEV h1.1 h2.1 h1.2.1
      h1.2.2 h2.2.1 h2.2.2
    obtain ⟨i1, i2⟩ := panels_error R hE hEV (z := b :: z) (List.pairwise_cons.1 hs).2
      (fun t ht => h t (List.mem_cons_of_mem _ ht))
    rw [extent_cons]
    simp only [sample, List.map_cons, panelsFl, trapezoid, List.sum_cons] at i1 i2 ⊢
    generalize R.fl (R.fl (R.fl (b - a) * R.fl (g b + g a)) / 2) = p at *
    generalize (panelsFl R.fl ((b, g b) :: z.map fun x => (x, g x))) = l at *
    constructor
    · have e : p + l.sum - ((b - a) * (f b + f a) / 2 + trapezoid ((b, f b) :: z.map fun x => (x, f x))) =
        (p - (b - a) * (f b + f a) / 2) +
          (l.sum - trapezoid ((b, f b) :: z.map fun x => (x, f x))) := by ring
      rw [e]
      refine ((abs_add_le _ _).trans (add_le_add p1 i1)).trans (le_of_eq ?_)
      ring
    · rw [mul_add]
      exact add_le_add p2 i2

/-- The integral of a function with errors, in any order. -/
theorem integral_error (R : Rounding) {f g : ℝ → ℝ} {E V : ℝ} (hE : 0 ≤ E) (hEV : E ≤ V / 8)
    {z : List ℝ} (hs : z.Pairwise (· < ·)) (h : ∀ t ∈ z, |g t - f t| ≤ E ∧ 0 ≤ f t ∧ f t ≤ V)
    {o : Order} (ho : o.For (z.length - 1)) (hD : 2 * o.depth ≤ 2 ^ 53) :
    |trapezoidFl R.fl o (sample g z) - trapezoid (sample f z)| ≤
      (E + (9 + 5 / 2 * o.depth) / 2 ^ 53 * V) * extent z := by
  obtain ⟨h1, h2⟩ := panels_error R hE hEV hs h
  have hlen : (panelsFl R.fl (sample g z)).length = z.length - 1 := by
    rw [panelsFl_length]; simp [sample]
  have h3 := order_error R o fun i => (panelsFl R.fl (sample g z)).getD i 0
  have e1 : (o.indices.map fun i => |(panelsFl R.fl (sample g z)).getD i 0|).sum =
      ((panelsFl R.fl (sample g z)).map fun v => |v|).sum := by
    rw [← Order.For.list (o := o) (l := (panelsFl R.fl (sample g z)).map fun v => |v|)
      (by rw [List.length_map, hlen]; exact ho)]
    congr 1
    apply List.map_congr_left
    intro i _
    simp only [List.getD_eq_getElem?_getD, List.getElem?_map]
    cases (panelsFl R.fl (sample g z))[i]? <;> simp
  rw [e1, Order.For.list (by rw [hlen]; exact ho)] at h3
  change |trapezoidFl R.fl o (sample g z) - _| ≤ _ at h3
  have h4 := power_bound hD
  have hx := extent_nonneg hs
  have hV : 0 ≤ V := by linarith
  have h5 : ((1 + 1 / 2 ^ 53 : ℝ) ^ o.depth - 1) * ((panelsFl R.fl (sample g z)).map fun v => |v|).sum ≤
      2 * o.depth / 2 ^ 53 * (5 / 4 * V * extent z) := by
    refine mul_le_mul h4 h2 (List.sum_nonneg ?_) (by positivity)
    intro v hv
    obtain ⟨y, -, rfl⟩ := List.mem_map.1 hv
    exact abs_nonneg y
  have h6 := abs_add_le (trapezoidFl R.fl o (sample g z) - (panelsFl R.fl (sample g z)).sum)
    ((panelsFl R.fl (sample g z)).sum - trapezoid (sample f z))
  rw [sub_add_sub_cancel] at h6
  have e2 : (E + (9 + 5 / 2 * o.depth) / 2 ^ 53 * V) * extent z = (E + 9 / 2 ^ 53 * V) * extent z +
      2 * o.depth / 2 ^ 53 * (5 / 4 * V * extent z) := by ring
  linarith

/-! ## C162 -/

theorem self_near {w : List (ℝ × ℝ)} (hw : ∀ k ∈ w, 0 ≤ k.2) : List.Forall₂ (Near 0) w w := by
  rw [List.forall₂_same]
  exact fun k hk => ⟨rfl, hw k hk, Rel.refl _⟩

/-- The window is not larger than its maximum times its length. -/
theorem window_integral_le {w : List (ℝ × ℝ)} {W : ℝ} (hi : Inc w) (hW : ∀ k ∈ w, k.2 ≤ W)
    {p q : ℝ × ℝ} (hp : w.head? = some p) (hq : w.getLast? = some q) :
    trapezoid w ≤ W * (q.1 - p.1) := by
  induction w using trapezoid.induct generalizing p with
  | case1 k k' ks ih =>
    simp only [List.head?_cons, Option.some.injEq] at hp
    subst hp
    have := ih hi.tail (fun j hj => hW j (by simp [hj])) (p := k') (by simp) (by
      simpa [List.getLast?_cons_cons] using hq)
    have h1 : k.1 < k'.1 := hi.lt (by simp)
    have h2 := hW k (by simp)
    have h3 := hW k' (by simp)
    simp only [trapezoid]
    nlinarith
  | case2 ks h =>
    rcases ks with _ | ⟨k, _ | ⟨k', ks⟩⟩
    · simp at hp
    · simp only [List.head?_cons, Option.some.injEq] at hp
      simp only [List.getLast?_singleton, Option.some.injEq] at hq
      subst hp
      subst hq
      simp [trapezoid]
    · exact absurd rfl (h k k' ks)

/-- **C162**: the effective bias of a window in the range of the bias function. -/
theorem effective_bias_fl (R : Rounding) {b : List (ℝ × ℝ)} {w : RadialWindow} {p q : ℝ × ℝ} {B W : ℝ}
    (hb : Inc b) (hw : Inc w.knots) (hp : w.knots.head? = some p) (hq : w.knots.getLast? = some q)
    (h1 : InRange b p.1) (h2 : InRange b q.1) (hB : ∀ k ∈ b, 0 ≤ k.2 ∧ k.2 ≤ B)
    (hW : ∀ k ∈ w.knots, 0 ≤ k.2 ∧ k.2 ≤ W) (hint : 0 < trapezoid w.knots) {o o' : Order}
    (ho : ∀ z, overlapGrid (b.map Prod.fst) (w.knots.map Prod.fst) = .ok z → o.For (z.length - 1))
    (ho' : o'.For (w.knots.length - 1)) (hD : o.depth ≤ 2 ^ 40) (hD' : o'.depth ≤ 2 ^ 40) :
    ∃ r r', effectiveBias b w = .ok r ∧ effectiveBiasFl R.fl o o' b w.knots = .ok r' ∧
      |r' - r| ≤ (57 + 5 / 2 * o.depth + 4 * o'.depth) / 2 ^ 53 *
        (B * (W * (q.1 - p.1) / trapezoid w.knots)) := by
  obtain ⟨b0, b1, hb0, hb1, h3, -⟩ := id h1
  obtain ⟨c0, c1, hc0, hc1, -, h4⟩ := id h2
  rw [hb0] at hc0
  rw [hb1] at hc1
  cases hc0
  cases hc1
  obtain ⟨z, ez, hzs, hmem⟩ := overlapGrid_spec (x := b.map Prod.fst) (y := w.knots.map Prod.fst)
    (x0 := b0.1) (x1 := b1.1) (y0 := p.1) (y1 := q.1) (by simp [hb0]) (by simp [hb1]) (by simp [hp])
    (by simp [hq]) (List.pairwise_map.2 hb) (List.pairwise_map.2 hw)
  have hbne : b ≠ [] := h1.ne_nil
  have hwne : w.knots ≠ [] := by intro h; rw [h] at hp; simp at hp
  have hpq : p.1 ≤ q.1 := by
    by_contra hlt
    have hT := window_integral_le hw (fun k hk => (hW k hk).2) hp hq
    have hW0 : 0 ≤ W := by
      have := hW p (List.mem_of_mem_head? hp)
      linarith
    nlinarith
  obtain ⟨r, er, hr0, hrB⟩ := effective_bias_bounds hb hw hp hq h1 h2 (fun k hk => (hW k hk).1) hint hB
  have hB0 : 0 ≤ B := hr0.trans hrB
  have hW0 : 0 ≤ W := by
    have := hW p (List.mem_of_mem_head? hp)
    linarith
  have hTW := window_integral_le hw (fun k hk => (hW k hk).2) hp hq
  have hext : extent z ≤ q.1 - p.1 := extent_le hzs hpq fun t ht => ((hmem t).1 ht).2.2
  have er' : r = trapezoid (sample (fun t => interp none none b t * interp none none w.knots t) z) /
      trapezoid w.knots := by
    unfold effectiveBias trapezoidProduct at er
    simp only [List.foldlM_cons, List.foldlM_nil, List.foldl_cons, List.foldl_nil, ez] at er
    exact (Except.ok.inj er).symm
  have hD1 : (o.depth : ℝ) ≤ 2 ^ 40 := by exact_mod_cast hD
  have hN := integral_error R (E := 28 / 2 ^ 53 * (B * W)) (V := B * W)
    (f := fun t => interp none none b t * interp none none w.knots t)
    (g := fun t => R.fl (interpFl R.fl b t * interpFl R.fl w.knots t)) (by positivity)
    (by have : 0 ≤ B * W := by positivity
        rw [div_eq_inv_mul (B * W) 8]
        exact mul_le_mul_of_nonneg_right (by norm_num) this) hzs (fun t ht => by
      have i1 := interp_bounds (x := t) hb hbne hB
      have i2 := interp_bounds (x := t) hw hwne hW
      exact ⟨product_error R (interp_error R hB0 hb hB t) (interp_error R hW0 hw hW t) i1.1 i1.2 i2.1 i2.2,
        mul_nonneg i1.1 i2.1, mul_le_mul i1.2 i2.2 i2.1 hB0⟩) (ho z ez) (by omega)
  have hT := trapezoid_rel R ho' hw (self_near fun k hk => (hW k hk).1)
  refine ⟨r, R.fl (trapezoidFl R.fl o (sample (fun t => R.fl (interpFl R.fl b t *
    interpFl R.fl w.knots t)) z) / trapezoidFl R.fl o' w.knots), er, ?_, ?_⟩
  · unfold effectiveBiasFl
    rw [ez]
  generalize trapezoidFl R.fl o (sample (fun t => R.fl (interpFl R.fl b t * interpFl R.fl w.knots t)) z) =
    N' at *
  generalize trapezoid (sample (fun t => interp none none b t * interp none none w.knots t) z) = N at *
  have hL := rel_error (((Rel.refl N').div hT).round R) (by omega)
  generalize R.fl (N' / trapezoidFl R.fl o' w.knots) = r' at *
  generalize trapezoid w.knots = T at *
  generalize q.1 - p.1 = X at *
  have hX : 0 ≤ X := (extent_nonneg hzs).trans hext
  set ε : ℝ := (37 + 5 / 2 * o.depth) / 2 ^ 53 with hε
  set K := B * (W * X / T) with hK
  have hε0 : 0 ≤ ε := by positivity
  have hε1 : ε ≤ 1 := by
    rw [hε, div_le_one (by norm_num)]
    have : (37 + 5 / 2 * 2 ^ 40 : ℝ) ≤ 2 ^ 53 := by norm_num
    linarith
  have hBK : B ≤ K := by
    rw [hK]
    have : 1 ≤ W * X / T := by rw [le_div_iff₀ hint]; linarith
    nlinarith
  have a1 : |N' - N| ≤ ε * (B * W * X) := by
    refine hN.trans ?_
    have e : (28 / 2 ^ 53 * (B * W) + (9 + 5 / 2 * (o.depth : ℝ)) / 2 ^ 53 * (B * W)) = ε * (B * W) := by
      rw [hε]; ring
    rw [e, mul_assoc]
    exact mul_le_mul_of_nonneg_left (mul_le_mul_of_nonneg_left hext (by positivity)) hε0
  have a2 : |N' / T - r| ≤ ε * K := by
    rw [er', ← sub_div, abs_div, abs_of_pos hint, div_le_iff₀ hint]
    refine a1.trans (le_of_eq ?_)
    rw [hK]
    field_simp
  have a3 : |N' / T| ≤ 2 * K := by
    have := abs_sub_abs_le_abs_sub (N' / T) r
    rw [abs_of_nonneg hr0] at this
    have : ε * K ≤ K := by nlinarith
    linarith
  have a4 : |r' - N' / T| ≤ (20 + 4 * o'.depth) / 2 ^ 53 * K := by
    refine hL.trans ?_
    calc _ ≤ 2 * ((0 + (0 + 4 + o'.depth) + 1 : ℕ) : ℝ) / 2 ^ 53 * (2 * K) :=
          mul_le_mul_of_nonneg_left a3 (by positivity)
      _ = _ := by push_cast; ring
  have := abs_add_le (r' - N' / T) (N' / T - r)
  rw [sub_add_sub_cancel] at this
  have e : (57 + 5 / 2 * (o.depth : ℝ) + 4 * o'.depth) / 2 ^ 53 * K =
      (20 + 4 * o'.depth) / 2 ^ 53 * K + ε * K := by rw [hε]; ring
  linarith

/-- **C162**: the weight of a plane, with the division by the value of the window at its redshift. -/
theorem lens_weight_fl (R : Rounding) {w : List (ℝ × ℝ)} {W z : ℝ} (hw : Inc w)
    (hW : ∀ k ∈ w, 0 ≤ k.2 ∧ k.2 ≤ W) (hz : 26 / 2 ^ 53 * W ≤ interp none none w z)
    (hpos : 0 < interp none none w z) {o : Order} (ho : o.For (w.length - 1))
    (hD : 2 * (o.depth + 5) ≤ 2 ^ 53) :
    |lensWeightFl R.fl o w z - trapezoid w / interp none none w z| ≤
      (46 + 4 * o.depth) / 2 ^ 53 * (W / interp none none w z) *
        (trapezoid w / interp none none w z) := by
  have hne : w ≠ [] := by
    rintro rfl
    simp [interp] at hpos
  have hb := interp_bounds (x := z) hw hne hW
  have hW0 : 0 ≤ W := hb.1.trans hb.2
  have hv := interp_error R hW0 hw hW z
  have hT0 : 0 ≤ trapezoid w := by
    exact trapezoid_nonneg (hw.imp fun h => h.le) fun k hk => (hW k hk).1
  have hT := trapezoid_rel R ho hw (self_near fun k hk => (hW k hk).1)
  unfold lensWeightFl
  generalize interpFl R.fl w z = v' at *
  generalize interp none none w z = v at *
  have hL := rel_error ((hT.div (Rel.refl v')).round R) (by omega)
  generalize R.fl (trapezoidFl R.fl o w / v') = r at *
  generalize trapezoid w = T at *
  have hv' : v / 2 ≤ v' := by
    have := (abs_le.1 hv).1
    have e : 26 / 2 ^ 53 * W = 2 * (13 / 2 ^ 53 * W) := by ring
    linarith
  have hvp : 0 < v' := by linarith
  have a0 : T / v' ≤ 2 * (T / v) := by
    rw [div_le_iff₀ hvp]
    have : 2 * (T / v) * (v / 2) = T := by field_simp
    have h2 : 0 ≤ 2 * (T / v) := by positivity
    nlinarith [mul_le_mul_of_nonneg_left hv' h2]
  have a1 : |r - T / v'| ≤ (20 + 4 * o.depth) / 2 ^ 53 * (T / v) := by
    rw [abs_of_nonneg (by positivity : 0 ≤ T / v')] at hL
    refine hL.trans ?_
    calc _ ≤ 2 * ((0 + 4 + o.depth + 0 + 1 : ℕ) : ℝ) / 2 ^ 53 * (2 * (T / v)) :=
          mul_le_mul_of_nonneg_left a0 (by positivity)
      _ = _ := by push_cast; ring
  have a2 : |T / v' - T / v| ≤ 26 / 2 ^ 53 * (W / v) * (T / v) := by
    have e : T / v' - T / v = T / v' * ((v - v') / v) := by field_simp
    rw [e, abs_mul, abs_of_nonneg (by positivity : 0 ≤ T / v'), abs_div, abs_of_pos hpos, abs_sub_comm v v']
    calc T / v' * (|v' - v| / v) ≤ 2 * (T / v) * (13 / 2 ^ 53 * W / v) := by
          exact mul_le_mul a0 (div_le_div_of_nonneg_right hv hpos.le) (by positivity) (by positivity)
      _ = _ := by ring
  have a3 : (20 + 4 * (o.depth : ℝ)) / 2 ^ 53 * (T / v) ≤
      (20 + 4 * o.depth) / 2 ^ 53 * (W / v) * (T / v) := by
    refine mul_le_mul_of_nonneg_right ?_ (by positivity)
    refine le_mul_of_one_le_right (by positivity) ?_
    rw [le_div_iff₀ hpos, one_mul]
    exact hb.2
  have := abs_add_le (r - T / v') (T / v' - T / v)
  rw [sub_add_sub_cancel] at this
  have e : (46 + 4 * (o.depth : ℝ)) / 2 ^ 53 * (W / v) * (T / v) =
      (20 + 4 * o.depth) / 2 ^ 53 * (W / v) * (T / v) + 26 / 2 ^ 53 * (W / v) * (T / v) := by ring
  linarith

/-- Concrete case: a bias that rises from 1 to 2, and a triangular window. -/
example (R : Rounding) {o : Order}
    (ho : ∀ z, overlapGrid ([(0, 1), (3, 2)].map Prod.fst)
      ([(1, 0), (3 / 2, 1), (2, 0)].map Prod.fst) = .ok z → o.For (z.length - 1)) (hD : o.depth ≤ 3) :
    ∃ r r', effectiveBias [(0, 1), (3, 2)] ⟨[(1, 0), (3 / 2, 1), (2, 0)], 3 / 2⟩ = .ok r ∧
      effectiveBiasFl R.fl o (Order.sequential 2) [(0, 1), (3, 2)] [(1, 0), (3 / 2, 1), (2, 0)] = .ok r' ∧
      |r' - r| ≤ 320 / 2 ^ 53 := by
  obtain ⟨r, r', e, e', h⟩ := effective_bias_fl R (p := (1, 0)) (q := (2, 0)) (B := 2) (W := 1)
    (w := ⟨[(1, 0), (3 / 2, 1), (2, 0)], 3 / 2⟩) (b := [(0, 1), (3, 2)]) (o := o) (o' := Order.sequential 2)
    (by simp [Inc]) (by simp only [Inc]; norm_num) rfl rfl ⟨_, _, rfl, rfl, by norm_num, by norm_num⟩
    ⟨_, _, rfl, rfl, by norm_num, by norm_num⟩ (by simp) (by simp) (by norm_num [trapezoid]) ho
    (by simpa using Order.sequential_for 2) (by omega) (by
      have : (Order.sequential 2).depth = 1 := Order.sequential_depth 2
      rw [this]; norm_num)
  refine ⟨r, r', e, e', h.trans ?_⟩
  have e2 : (Order.sequential 2).depth = 1 := Order.sequential_depth 2
  have e3 : trapezoid [((1 : ℝ), (0 : ℝ)), (3 / 2, 1), (2, 0)] = 1 / 2 := by norm_num [trapezoid]
  have hd : (o.depth : ℝ) ≤ 3 := by exact_mod_cast hD
  simp only [e2, e3]
  have : (57 + 5 / 2 * (o.depth : ℝ) + 4 * (1 : ℕ)) / 2 ^ 53 ≤ 80 / 2 ^ 53 := by
    push_cast
    exact div_le_div_of_nonneg_right (by linarith) (by norm_num)
  calc _ ≤ (80 / 2 ^ 53 : ℝ) * (2 * (1 * (2 - 1) / (1 / 2))) :=
        mul_le_mul_of_nonneg_right this (by norm_num)
    _ = 320 / 2 ^ 53 := by ring

end Glass.Shells
