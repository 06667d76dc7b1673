import Verif.Galaxies.NzProps
import Verif.Grf.FloatIternorm

/-!
# Sampled redshifts in floating point (C141)

The inverse transform of `_draw_nz` with every operation rounded.
-/

namespace Glass.Galaxies

open Glass Glass.Num Glass.Spectra Glass.Shells

/-! ## Model -/

/-- `arraytools.py:197-226` `cumulative_trapezoid` with every operation rounded. -/
noncomputable def cumulativeFl (fl : ℝ → ℝ) (ks : List (ℝ × ℝ)) : List ℝ :=
  let panels := List.zipWith
    (fun k k' : ℝ × ℝ => fl (fl (fl (k'.2 + k.2) * 0.5) * fl (k'.1 - k.1))) ks ks.tail
  panels.scanl (fun a b => fl (a + b)) 0

/-- `galaxies.py:81-82` with every operation rounded. -/
noncomputable def cdfFl (fl : ℝ → ℝ) (ks : List (ℝ × ℝ)) : List ℝ :=
  let c := cumulativeFl fl ks
  c.map fun x => fl (x / c.getLast?.getD 0)

/-- `numpy.interp` between the outermost points, with every operation rounded: the value of a point
that is hit, or the slope times the distance from the point on the left, plus the value there. -/
noncomputable def interpInFl (fl : ℝ → ℝ) : List (ℝ × ℝ) → ℝ → ℝ
  | [], _ => 0
  | [k], _ => k.2
  | k :: k' :: ks, x =>
    if x < k'.1 then
      open Classical in if x = k.1 then k.2
      else fl (fl (fl (fl (k'.2 - k.2) / fl (k'.1 - k.1)) * fl (x - k.1)) + k.2)
    else interpInFl fl (k' :: ks) x

/-- `numpy.interp(x, x_points, y_points)` with every operation rounded. -/
noncomputable def interpFl (fl : ℝ → ℝ) (ks : List (ℝ × ℝ)) (x : ℝ) : ℝ :=
  match ks.head?, ks.getLast? with
  | some a, some b => if x < a.1 then a.2 else if b.1 < x then b.2 else interpInFl fl ks x
  | _, _ => 0

/-- `galaxies.py:85-89` with every operation rounded. -/
noncomputable def inverseCdfFl (fl : ℝ → ℝ) (ks : List (ℝ × ℝ)) (u : ℝ) : ℝ :=
  interpFl fl (List.zip (cdfFl fl ks) (ks.map Prod.fst)) u

/-! ## Without rounding -/

theorem interpInFl_real : ∀ (ks : List (ℝ × ℝ)) (x : ℝ), interpInFl id ks x = interpIn ks x
  | [], _ => rfl
  | [_], _ => rfl
  | k :: k' :: ks, x => by
    rw [interpInFl, interpIn, interpInFl_real (k' :: ks) x]
    congr 1
    split_ifs with h
    · rw [h]; ring
    · simp only [id_eq]; ring

/-- **C141**: without rounding, this is the model of `_draw_nz`. -/
theorem inverse_cdf_real (ks : List (ℝ × ℝ)) (u : ℝ) : inverseCdfFl id ks u = inverseCdf ks u := by
  have h : ∀ (l : List (ℝ × ℝ)), interpFl id l u = interp none none l u := by
    intro l
    unfold interpFl interp
    rw [interpInFl_real]
    rfl
  rw [inverseCdfFl, h]
  rfl

/-! ## With rounding -/

theorem _root_.Glass.Spectra.Rounding.nonneg (R : Rounding) {x : ℝ} (hx : 0 ≤ x) : 0 ≤ R.fl x := by
  rw [← R.zero]
  exact R.mono hx

theorem _root_.Glass.Spectra.Rounding.pos (R : Rounding) {x : ℝ} (hx : 0 < x) : 0 < R.fl x := by
  have := (R.bounds hx.le).1
  have h : (0 : ℝ) < (1 - 1 / 2 ^ 53) * x := mul_pos (by norm_num) hx
  linarith

theorem _root_.Glass.Spectra.Rounding.one (R : Rounding) : R.fl 1 = 1 := by
  have := R.exact 4 (by norm_num)
  norm_num at this
  exact this

/-- Rounded numbers are not changed by rounding. -/
theorem roundDouble_idem (x : ℝ) : roundDouble (roundDouble x) = roundDouble x := by
  have key : ∀ x : ℝ, 0 < x → roundPos (roundPos x) = roundPos x := by
    intro x hx
    obtain ⟨h1, h2⟩ := roundPos_bounds hx
    rcases h2.lt_or_eq with h2 | h2
    · have hlog : Int.log 2 (roundPos x) = Int.log 2 x := by
        apply le_antisymm
        · have : Int.log 2 (roundPos x) < Int.log 2 x + 1 := by
            rw [← Int.lt_zpow_iff_log_lt (by norm_num) (roundPos_pos hx)]
            exact_mod_cast h2
          omega
        · rw [← Int.zpow_le_iff_le_log (by norm_num) (roundPos_pos hx)]
          exact_mod_cast h1
      refine roundPos_exact (roundEven (x / (2 : ℝ) ^ (Int.log 2 x - 52))) ?_
      rw [hlog]
      rfl
    · refine roundPos_exact (2 ^ 52) ?_
      rw [h2]
      have : Int.log 2 ((2 : ℝ) ^ (Int.log 2 x + 1)) = Int.log 2 x + 1 := by
        exact_mod_cast Int.log_zpow (R := ℝ) (b := 2) (by norm_num) (Int.log 2 x + 1)
      rw [this, zpow_sub₀ (by norm_num)]
      push_cast
      norm_num
      ring
  rcases lt_trichotomy x 0 with h | h | h
  · have h' : 0 < -x := by linarith
    have e : roundDouble x = -roundPos (-x) := by simp [roundDouble, h, h.not_gt]
    have hp := roundPos_pos h'
    rw [e, roundDouble_neg]
    simp only [roundDouble, hp, if_true]
    rw [key _ h']
  · simp [roundDouble, h]
  · have hp := roundPos_pos h
    simp only [roundDouble, h, hp, if_true]
    exact key x h

/-- One cell of the interpolation. -/
theorem cell_bounds (R : Rounding) {a b c d x : ℝ} (hab : a < x) (hxb : x < b) (hc : 0 ≤ c)
    (hcd : c ≤ d) (hfc : R.fl c = c) :
    c ≤ R.fl (R.fl (R.fl (R.fl (d - c) / R.fl (b - a)) * R.fl (x - a)) + c) ∧
    R.fl (R.fl (R.fl (R.fl (d - c) / R.fl (b - a)) * R.fl (x - a)) + c) ≤
      d * (1 + 5 / 2 ^ 53) := by
  have h1 : 0 ≤ R.fl (d - c) := R.nonneg (by linarith)
  have h2 : 0 < R.fl (b - a) := R.pos (by linarith)
  have h3 : 0 ≤ R.fl (x - a) := R.nonneg (by linarith)
  have h4 : R.fl (x - a) ≤ R.fl (b - a) := R.mono (by linarith)
  have h5 : 0 ≤ R.fl (d - c) / R.fl (b - a) := div_nonneg h1 h2.le
  have h6 := R.nonneg h5
  have h7 : 0 ≤ R.fl (R.fl (d - c) / R.fl (b - a)) * R.fl (x - a) := mul_nonneg h6 h3
  have h8 := R.nonneg h7
  constructor
  · calc c = R.fl c := hfc.symm
      _ ≤ _ := R.mono (by linarith)
  · have b1 := (R.bounds (show 0 ≤ d - c by linarith)).2
    have b2 := (R.bounds h5).2
    have b3 := (R.bounds h7).2
    have b4 := (R.bounds (show 0 ≤ R.fl (R.fl (R.fl (d - c) / R.fl (b - a)) * R.fl (x - a)) + c by
      linarith)).2
    have m1 : R.fl (R.fl (d - c) / R.fl (b - a)) * R.fl (x - a) ≤ (1 + 1 / 2 ^ 53) * R.fl (d - c) := by
      calc R.fl (R.fl (d - c) / R.fl (b - a)) * R.fl (x - a)
          ≤ (1 + 1 / 2 ^ 53) * (R.fl (d - c) / R.fl (b - a)) * R.fl (b - a) := by gcongr
        _ = (1 + 1 / 2 ^ 53) * R.fl (d - c) := by field_simp
    have m2 : R.fl (R.fl (R.fl (d - c) / R.fl (b - a)) * R.fl (x - a)) ≤
        (1 + 1 / 2 ^ 53) * ((1 + 1 / 2 ^ 53) * ((1 + 1 / 2 ^ 53) * (d - c))) := by
      refine b3.trans (mul_le_mul_of_nonneg_left (m1.trans ?_) (by norm_num))
      gcongr
    have hdc : 0 ≤ d - c := by linarith
    norm_num at m2 b4 ⊢
    linarith

/-- Interpolation between increasing values with rounding. -/
theorem interpInFl_bounds (R : Rounding) : ∀ (ks : List (ℝ × ℝ)) (a b : ℝ × ℝ) (x : ℝ),
    ks.head? = some a → ks.getLast? = some b → a.1 ≤ x → (∀ k ∈ ks, 0 ≤ k.2 ∧ R.fl k.2 = k.2) →
    ks.Pairwise (fun k k' => k.2 ≤ k'.2) →
    a.2 ≤ interpInFl R.fl ks x ∧ interpInFl R.fl ks x ≤ b.2 * (1 + 5 / 2 ^ 53)
  | [], _, _, _, h, _, _, _, _ => by simp at h
  | [k], a, b, x, ha, hb, _, h0, _ => by
    simp only [List.head?_cons, List.getLast?_singleton, Option.some.injEq] at ha hb
    subst ha
    subst hb
    have := (h0 k (by simp)).1
    refine ⟨le_rfl, ?_⟩
    rw [interpInFl]
    nlinarith
  | k :: k' :: ks, a, b, x, ha, hb, hx, h0, hs => by
    simp only [List.head?_cons, Option.some.injEq] at ha
    subst ha
    have hb' : (k' :: ks).getLast? = some b := by simpa using hb
    have hs' := List.pairwise_cons.1 hs
    have hk := h0 k (by simp)
    have hkk : k.2 ≤ k'.2 := hs'.1 k' (by simp)
    have hkb : k'.2 ≤ b.2 := by
      have hm := List.mem_of_getLast? hb'
      rcases List.mem_cons.1 hm with rfl | hm
      · exact le_rfl
      · exact (List.pairwise_cons.1 hs'.2).1 b hm
    rw [interpInFl]
    by_cases hx' : x < k'.1
    · rw [if_pos hx']
      by_cases he : x = k.1
      · rw [if_pos he]
        refine ⟨le_rfl, ?_⟩
        nlinarith [hk.1]
      · rw [if_neg he]
        obtain ⟨h1, h2⟩ := cell_bounds R (lt_of_le_of_ne hx (Ne.symm he)) hx' hk.1 hkk hk.2
        refine ⟨h1, h2.trans ?_⟩
        gcongr
    · rw [if_neg hx']
      obtain ⟨h1, h2⟩ := interpInFl_bounds R (k' :: ks) k' b x rfl hb' (not_lt.1 hx')
        (fun m hm => h0 m (List.mem_cons_of_mem _ hm)) hs'.2
      exact ⟨hkk.trans h1, h2⟩

theorem scanl_sorted (R : Rounding) (hid : ∀ x, R.fl (R.fl x) = R.fl x) : ∀ (l : List ℝ) (c : ℝ),
    R.fl c = c → (∀ x ∈ l, 0 ≤ x) →
      (l.scanl (fun a b => R.fl (a + b)) c).Pairwise (· ≤ ·) ∧
      ∀ x ∈ l.scanl (fun a b => R.fl (a + b)) c, c ≤ x
  | [], c, _, _ => by simp
  | y :: l, c, hc, h0 => by
    have hle : c ≤ R.fl (c + y) := by
      calc c = R.fl c := hc.symm
        _ ≤ _ := R.mono (by linarith [h0 y (by simp)])
    obtain ⟨h1, h2⟩ := scanl_sorted R hid l (R.fl (c + y)) (hid _)
      fun x hx => h0 x (List.mem_cons_of_mem _ hx)
    rw [List.scanl_cons]
    refine ⟨List.pairwise_cons.2 ⟨fun x hx => hle.trans (h2 x hx), h1⟩, fun x hx => ?_⟩
    rcases List.mem_cons.1 hx with rfl | hx
    · exact le_rfl
    · exact hle.trans (h2 x hx)

theorem scanl_last_pos (R : Rounding) (hid : ∀ x, R.fl (R.fl x) = R.fl x) : ∀ (l : List ℝ) (c : ℝ),
    R.fl c = c → 0 ≤ c → (∀ x ∈ l, 0 ≤ x) → 0 < c ∨ (∃ x ∈ l, 0 < x) →
      ∃ L, (l.scanl (fun a b => R.fl (a + b)) c).getLast? = some L ∧ 0 < L
  | [], c, _, _, _, h => by
    refine ⟨c, by simp, ?_⟩
    rcases h with h | ⟨x, hx, -⟩
    · exact h
    · simp at hx
  | y :: l, c, hc, hc0, h0, h => by
    have hy := h0 y (by simp)
    have hp : 0 < R.fl (c + y) ∨ ∃ x ∈ l, 0 < x := by
      rcases h with h | ⟨x, hx, hx0⟩
      · exact .inl (R.pos (by linarith))
      · rcases List.mem_cons.1 hx with rfl | hx
        · exact .inl (R.pos (by linarith))
        · exact .inr ⟨x, hx, hx0⟩
    obtain ⟨L, h1, h2⟩ := scanl_last_pos R hid l (R.fl (c + y)) (hid _) (R.nonneg (by linarith))
      (fun x hx => h0 x (List.mem_cons_of_mem _ hx)) hp
    refine ⟨L, ?_, h2⟩
    rw [List.scanl_cons, List.getLast?_cons, h1]
    rfl

/-- The areas below the parts of a distribution are not negative, and one is positive. -/
theorem panels_pos (R : Rounding) : ∀ {ks : List (ℝ × ℝ)}, ks.Pairwise (fun k k' => k.1 < k'.1) →
    (∀ k ∈ ks, 0 ≤ k.2) →
    (∀ x ∈ List.zipWith (fun k k' : ℝ × ℝ =>
      R.fl (R.fl (R.fl (k'.2 + k.2) * 0.5) * R.fl (k'.1 - k.1))) ks ks.tail, 0 ≤ x) ∧
    (0 < trapezoid ks → ∃ x ∈ List.zipWith (fun k k' : ℝ × ℝ =>
      R.fl (R.fl (R.fl (k'.2 + k.2) * 0.5) * R.fl (k'.1 - k.1))) ks ks.tail, 0 < x)
  | [], _, _ => by simp [trapezoid]
  | [_], _, _ => by simp [trapezoid]
  | k :: k' :: ks, hi, h0 => by
    obtain ⟨h1, h2⟩ := panels_pos R (List.pairwise_cons.1 hi).2
      fun m hm => h0 m (List.mem_cons_of_mem _ hm)
    have hlt : k.1 < k'.1 := (List.pairwise_cons.1 hi).1 k' (by simp)
    have a1 := h0 k (by simp)
    have a2 := h0 k' (by simp)
    simp only [List.tail_cons, List.zipWith_cons_cons] at h1 h2 ⊢
    have hd := R.nonneg (show 0 ≤ k'.1 - k.1 by linarith)
    constructor
    · intro x hx
      rcases List.mem_cons.1 hx with rfl | hx
      · exact R.nonneg (mul_nonneg (R.nonneg (mul_nonneg (R.nonneg (by linarith)) (by norm_num))) hd)
      · exact h1 x hx
    · intro hT
      by_cases hs : 0 < k'.2 + k.2
      · exact ⟨_, List.mem_cons_self, R.pos (mul_pos (R.pos (mul_pos (R.pos hs) (by norm_num)))
          (R.pos (by linarith)))⟩
      · have e : k'.2 + k.2 = 0 := by linarith
        obtain ⟨x, hx, hx0⟩ := h2 (by rw [trapezoid, e] at hT; simpa using hT)
        exact ⟨x, List.mem_cons_of_mem _ hx, hx0⟩

/-- **C141**: in floating point, the cumulative distribution increases from zero to one. -/
theorem float_cdf (R : Rounding) (hid : ∀ x, R.fl (R.fl x) = R.fl x) {ks : List (ℝ × ℝ)}
    (h : IsDistribution ks) :
    (cdfFl R.fl ks).Pairwise (· ≤ ·) ∧ (cdfFl R.fl ks).head? = some 0 ∧
      (cdfFl R.fl ks).getLast? = some 1 ∧ (cdfFl R.fl ks).length = ks.length := by
  obtain ⟨p0, p1⟩ := panels_pos R h.1 h.2.1
  obtain ⟨s1, -⟩ := scanl_sorted R hid _ 0 R.zero p0
  obtain ⟨L, l1, l2⟩ := scanl_last_pos R hid _ 0 R.zero le_rfl p0 (.inr (p1 h.2.2))
  have hL : (cumulativeFl R.fl ks).getLast? = some L := l1
  have h2 := h.two_le
  unfold cdfFl
  simp only [hL, Option.getD_some]
  refine ⟨?_, ?_, ?_, ?_⟩
  · rw [List.pairwise_map]
    exact s1.imp fun {x y} hxy => R.mono (by gcongr)
  · rw [List.head?_map, cumulativeFl, List.head?_scanl]
    simp [R.zero]
  · rw [List.getLast?_map, hL]
    simp [div_self l2.ne', R.one]
  · rw [List.length_map, cumulativeFl, List.length_scanl, List.length_zipWith, List.length_tail]
    omega

/-- **C141**, the part that holds: in floating point, redshifts are not below the distribution, and
above its last redshift by at most five units in the last digit. -/
theorem float_redshift_partial (R : Rounding) (hid : ∀ x, R.fl (R.fl x) = R.fl x)
    {ks : List (ℝ × ℝ)} {a b : ℝ × ℝ} (h : IsDistribution ks) (ha : ks.head? = some a)
    (hb : ks.getLast? = some b) (hz : ∀ k ∈ ks, 0 ≤ k.1 ∧ R.fl k.1 = k.1) {u : ℝ} :
    a.1 ≤ inverseCdfFl R.fl ks u ∧ inverseCdfFl R.fl ks u ≤ b.1 * (1 + 5 / 2 ^ 53) := by
  obtain ⟨-, c1, c2, c3⟩ := float_cdf R hid h
  have hab : a.1 ≤ b.1 := by
    rcases ks with _ | ⟨k, ks⟩
    · simp at ha
    · obtain rfl : k = a := by simpa using ha
      rcases List.mem_cons.1 (List.mem_of_getLast? hb) with rfl | hm
      · exact le_rfl
      · exact ((List.pairwise_cons.1 h.1).1 b hm).le
  have hb0 := (hz b (List.mem_of_getLast? hb)).1
  have hbb : b.1 ≤ b.1 * (1 + 5 / 2 ^ 53) := by nlinarith
  set l := List.zip (cdfFl R.fl ks) (ks.map Prod.fst) with hl
  have hhead : l.head? = some (0, a.1) := by
    rw [hl, List.head?_eq_getElem?, List.getElem?_zip_eq_some, ← List.head?_eq_getElem?,
      ← List.head?_eq_getElem?, c1, List.head?_map, ha]
    exact ⟨rfl, rfl⟩
  have hlast : l.getLast? = some (1, b.1) := by
    have hlen : l.length = (cdfFl R.fl ks).length := by simp [hl, c3]
    have hlen' : l.length = (ks.map Prod.fst).length := by simp [hl, c3]
    rw [List.getLast?_eq_getElem?, hl, List.getElem?_zip_eq_some, ← hl]
    nth_rewrite 1 [hlen]
    rw [hlen', ← List.getLast?_eq_getElem?, ← List.getLast?_eq_getElem?, c2, List.getLast?_map, hb]
    exact ⟨rfl, rfl⟩
  have hsnd : l.map Prod.snd = ks.map Prod.fst := by
    rw [hl, List.map_snd_zip]
    simp [c3]
  unfold inverseCdfFl interpFl
  rw [← hl, hhead, hlast]
  simp only
  split_ifs with h1 h2
  · exact ⟨le_rfl, hab.trans hbb⟩
  · exact ⟨hab, hbb⟩
  · refine interpInFl_bounds R l (0, a.1) (1, b.1) u hhead hlast (not_lt.1 h1) ?_ ?_
    · intro k hk
      have : k.2 ∈ ks.map Prod.fst := hsnd ▸ List.mem_map_of_mem hk
      obtain ⟨k0, hk0, e⟩ := List.mem_map.1 this
      rw [← e]
      exact hz k0 hk0
    · have : (l.map Prod.snd).Pairwise (· ≤ ·) := by
        rw [hsnd, List.pairwise_map]
        exact h.1.imp fun h => h.le
      rwa [List.pairwise_map] at this

/-- **C141**, counterexample: the distribution that is constant between 0 and 3 and falls to zero at
14 has a redshift above 14 for the largest number below one. -/
theorem float_redshift_beyond :
    14 < inverseCdfFl roundDouble [(0, 1), (3, 1), (14, 0)] (1 - 1 / 2 ^ 53) := by
  have ex : ∀ m : ℤ, |m| ≤ 2 ^ 53 → roundDouble (m / 4) = m / 4 := double.exact
  have n0 : roundDouble 0 = 0 := by have := ex 0 (by norm_num); norm_num at this; exact this
  have nh : roundDouble (1 / 2) = 1 / 2 := by have := ex 2 (by norm_num); norm_num at this ⊢; exact this
  have n1 : roundDouble 1 = 1 := by have := ex 4 (by norm_num); norm_num at this ⊢; exact this
  have n2 : roundDouble 2 = 2 := by have := ex 8 (by norm_num); norm_num at this ⊢; exact this
  have n3 : roundDouble 3 = 3 := by have := ex 12 (by norm_num); norm_num at this ⊢; exact this
  have n11 : roundDouble 11 = 11 := by have := ex 44 (by norm_num); norm_num at this ⊢; exact this
  have n5 : roundDouble (11 / 2) = 11 / 2 := by
    have := ex 22 (by norm_num); norm_num at this ⊢; exact this
  have n8 : roundDouble (17 / 2) = 17 / 2 := by
    have := ex 34 (by norm_num); norm_num at this ⊢; exact this
  have hc : cumulativeFl roundDouble [(0, 1), (3, 1), (14, 0)] = [0, 3, 17 / 2] := by
    simp only [cumulativeFl, List.tail_cons, List.zipWith_cons_cons, List.zipWith_nil_right,
      List.scanl_cons, List.scanl_nil]
    norm_num [n0, nh, n1, n2, n3, n11, n5, n8]
  have c1 : roundDouble (6 / 17) = 6358023003346583 / 2 ^ 54 := by
    rw [roundDouble_of _ (-2) 6358023003346583 (by norm_num) (by norm_num)
      (by rw [abs_lt]; constructor <;> norm_num)]
    norm_num
  have hcdf : cdfFl roundDouble [(0, 1), (3, 1), (14, 0)] = [0, 6358023003346583 / 2 ^ 54, 1] := by
    rw [cdfFl]
    simp only [hc]
    norm_num [n0, n1, c1]
  have s1 : roundDouble (1 - 6358023003346583 / 2 ^ 54) = 5828187753067700 / 2 ^ 53 := by
    rw [roundDouble_tie _ (-1) 5828187753067700 (by norm_num) (by norm_num) ⟨2914093876533850, rfl⟩
      (by rw [abs_eq (by norm_num)]; norm_num)]
    norm_num
  have s2 : roundDouble (11 / (5828187753067700 / 2 ^ 53)) = 4785074604081153 / 2 ^ 48 := by
    rw [roundDouble_of _ 4 4785074604081153 (by norm_num) (by norm_num)
      (by rw [abs_lt]; constructor <;> norm_num)]
    norm_num
  have s3 : roundDouble (1 - 1 / 2 ^ 53 - 6358023003346583 / 2 ^ 54) = 5828187753067700 / 2 ^ 53 := by
    rw [roundDouble_tie _ (-1) 5828187753067700 (by norm_num) (by norm_num) ⟨2914093876533850, rfl⟩
      (by rw [abs_eq (by norm_num)]; norm_num)]
    norm_num
  have s4 : roundDouble (4785074604081153 / 2 ^ 48 * (5828187753067700 / 2 ^ 53)) =
      6192449487634433 / 2 ^ 49 := by
    rw [roundDouble_of _ 3 6192449487634433 (by norm_num) (by norm_num)
      (by rw [abs_lt]; constructor <;> norm_num)]
    norm_num
  have s5 : roundDouble (6192449487634433 / 2 ^ 49 + 3) = 7881299347898369 / 2 ^ 49 := by
    rw [roundDouble_of _ 3 7881299347898369 (by norm_num) (by norm_num)
      (by rw [abs_lt]; constructor <;> norm_num)]
    norm_num
  have hr : inverseCdfFl roundDouble [(0, 1), (3, 1), (14, 0)] (1 - 1 / 2 ^ 53) =
      7881299347898369 / 2 ^ 49 := by
    rw [inverseCdfFl, hcdf]
    simp only [List.map_cons, List.map_nil, List.zip_cons_cons, List.zip_nil_right, interpFl,
      List.head?_cons, List.getLast?_cons_cons, List.getLast?_singleton, interpInFl]
    rw [if_neg (by norm_num), if_neg (by norm_num), if_neg (by norm_num), if_pos (by norm_num),
      if_neg (by norm_num), s1, show (14 : ℝ) - 3 = 11 by norm_num, n11, s2, s3, s4, s5]
  rw [hr]
  norm_num

/-- Concrete case: the same distribution has redshifts up to 14, apart from rounding. -/
example (u : ℝ) : 0 ≤ inverseCdfFl roundDouble [(0, 1), (3, 1), (14, 0)] u ∧
    inverseCdfFl roundDouble [(0, 1), (3, 1), (14, 0)] u ≤ 14 * (1 + 5 / 2 ^ 53) := by
  have ex : ∀ m : ℤ, |m| ≤ 2 ^ 53 → roundDouble (m / 4) = m / 4 := double.exact
  have n0 : roundDouble 0 = 0 := by have := ex 0 (by norm_num); norm_num at this; exact this
  have n3 : roundDouble 3 = 3 := by have := ex 12 (by norm_num); norm_num at this ⊢; exact this
  have n14 : roundDouble 14 = 14 := by have := ex 56 (by norm_num); norm_num at this ⊢; exact this
  refine float_redshift_partial double roundDouble_idem (a := (0, 1)) (b := (14, 0))
    ⟨by norm_num, by simp, by norm_num [trapezoid]⟩ rfl rfl ?_
  simp [double, n0, n3, n14]

end Glass.Galaxies
