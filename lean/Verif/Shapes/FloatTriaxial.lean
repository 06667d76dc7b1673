import Mathlib.Tactic.Linarith
import Mathlib.Tactic.Positivity
import Mathlib.Tactic.NormNum
import Verif.Shapes.Model
import Verif.Shells.FloatGrid
import Verif.Galaxies.FloatSampling
import Verif.Grf.FloatIternorm

/-!
# Projected axis ratios in floating point (C149)

`triaxial_axis_ratio` for one ellipsoid, with every operation rounded.
-/

namespace Glass.Shapes

open Glass.Spectra

/-! ## Model -/

/-- `shapes.py:105-126` for one ellipsoid, with every operation rounded; the cosine and the square
root are the rounded exact ones. -/
noncomputable def axisRatioFl (fl : ℝ → ℝ) (zeta xi u phi : ℝ) : Option ℝ :=
  let cos2_theta := fl (u * u)
  let sin2_theta := fl (1 - cos2_theta)
  let cos_phi := fl (Real.cos phi)
  let cos2_phi := fl (cos_phi * cos_phi)
  let sin2_phi := fl (1 - cos2_phi)
  let z2m1 := fl (fl (zeta ^ 2) - 1)
  let x2 := fl (xi ^ 2)
  let a := fl (fl (fl (1 + fl (z2m1 * sin2_phi)) * cos2_theta) + fl (x2 * sin2_theta))
  let b2 := fl (fl (fl (fl (4 * fl (z2m1 ^ 2)) * cos2_theta) * sin2_phi) * cos2_phi)
  let c := fl (1 + fl (z2m1 * cos2_phi))
  (nanSqrt (fl (fl (fl (a - c) ^ 2) + b2))).bind fun r =>
    (nanDiv (fl (fl (a + c) - fl r)) (fl (fl (a + c) + fl r))).bind fun q =>
      (nanSqrt (fl q)).map fl

/-! ## Results -/

/-- **C149** Without rounding, this is the model of the function. -/
theorem axis_ratio_real (zeta xi u phi : ℝ) : axisRatioFl id zeta xi u phi = axisRatio zeta xi u phi := by
  simp only [axisRatioFl, axisRatio, id_eq, Option.map_id_fun]

/-- A rounded number between two integers that are not rounded. -/
theorem unit_range (R : Rounding) {x : ℝ} {m n : ℤ} (hm : |m| ≤ 2 ^ 50) (hn : |n| ≤ 2 ^ 50)
    (h1 : (m : ℝ) ≤ x) (h2 : x ≤ n) : (m : ℝ) ≤ R.fl x ∧ R.fl x ≤ n := by
  have key : ∀ k : ℤ, |k| ≤ 2 ^ 50 → R.fl k = k := by
    intro k hk
    have := R.exact (4 * k) (by rw [abs_mul]; norm_num; linarith)
    push_cast at this
    rw [mul_div_cancel_left₀ _ (by norm_num : (4 : ℝ) ≠ 0)] at this
    exact this
  constructor
  · rw [← key m hm]; exact R.mono h1
  · rw [← key n hn]; exact R.mono h2

/-- The rounding error of a number of known size. -/
theorem fl_error (R : Rounding) {x B : ℝ} (h : |x| ≤ B) : |R.fl x - x| ≤ B / 2 ^ 53 :=
  (R.error x).trans (by gcongr)

/-- The rounded square root, quotient and square root of the last line. -/
theorem last_line (R : Rounding) {s r : ℝ} (hr : 0 ≤ r) {q : ℝ}
    (h : ((nanDiv (R.fl (s - r)) (R.fl (s + r))).bind fun q => (nanSqrt (R.fl q)).map R.fl) = some q)
    (hs : 0 ≤ s) : 0 ≤ q ∧ q ≤ 1 := by
  have h1 : R.fl (s - r) ≤ R.fl (s + r) := R.mono (by linarith)
  have h2 : 0 ≤ R.fl (s + r) := R.nonneg (by linarith)
  unfold nanDiv nanSqrt at h
  split_ifs at h with h3
  · simp at h
  · simp only [Option.bind_some] at h
    split_ifs at h with h4
    · simp at h
    · simp only [Option.map_some, Option.some.injEq] at h
      subst h
      have h5 : R.fl (R.fl (s - r) / R.fl (s + r)) ≤ 1 := by
        have : R.fl (s - r) / R.fl (s + r) ≤ 1 := div_le_one_of_le₀ h1 h2
        rw [← R.one]; exact R.mono this
      refine ⟨R.nonneg (Real.sqrt_nonneg _), ?_⟩
      rw [← R.one]
      refine R.mono ?_
      rw [← Real.sqrt_one]
      exact Real.sqrt_le_sqrt h5

/-- The error of a product. -/
theorem product_error {x x' y y' X Y e f : ℝ} (hx : |x| ≤ X) (hy : |y'| ≤ Y) (he : |x - x'| ≤ e)
    (hf : |y - y'| ≤ f) : |x * y - x' * y'| ≤ X * f + e * Y := by
  have h : x * y - x' * y' = x * (y - y') + (x - x') * y' := by ring
  rw [h]
  refine (abs_add_le _ _).trans ?_
  rw [abs_mul, abs_mul]
  have := abs_nonneg x
  have := abs_nonneg (x - x')
  have := abs_nonneg y'
  have := abs_nonneg (y - y')
  have hX : 0 ≤ X := by linarith
  have he0 : 0 ≤ e := by linarith
  gcongr

/-- The rounding error of a number that is known up to an error. -/
theorem next_error (R : Rounding) {x x' B e E : ℝ} (h : |x| ≤ B) (he : |x - x'| ≤ e)
    (hE : B / 2 ^ 53 + e ≤ E) : |R.fl x - x'| ≤ E := by
  have h1 := fl_error R h
  have h2 : R.fl x - x' = (R.fl x - x) + (x - x') := by ring
  rw [h2]
  exact ((abs_add_le _ _).trans (add_le_add h1 he)).trans hE

theorem abs_le_of {x B : ℝ} (h0 : 0 ≤ x) (h1 : x ≤ B) : |x| ≤ B := by rwa [abs_of_nonneg h0]

/-- Rounding keeps a number between 0 and a small integer. -/
theorem fl_range (R : Rounding) {x : ℝ} (n : ℕ) (hn : n ≤ 8) (h1 : 0 ≤ x) (h2 : x ≤ n) :
    0 ≤ R.fl x ∧ R.fl x ≤ n := by
  have := unit_range R (x := x) (m := 0) (n := n) (by norm_num)
    (by rw [abs_of_nonneg (by positivity)]; norm_num; omega) (by simpa using h1) (by simpa using h2)
  simpa using this

theorem fl_unit (R : Rounding) {x : ℝ} (h1 : 0 ≤ x) (h2 : x ≤ 1) : 0 ≤ R.fl x ∧ R.fl x ≤ 1 := by
  have := fl_range R 1 (by norm_num) h1 (by simpa using h2)
  simpa using this

theorem fl_neg_unit (R : Rounding) {x : ℝ} (h1 : -1 ≤ x) (h2 : x ≤ 0) :
    -1 ≤ R.fl x ∧ R.fl x ≤ 0 := by
  have := unit_range R (x := x) (m := -1) (n := 0) (by norm_num) (by norm_num) (by simpa using h1)
    (by simpa using h2)
  simpa using this

/-- The rounded first coefficient. -/
theorem first_coefficient (R : Rounding) {ct cp z2 x2 st sp z p w y t a : ℝ}
    (ct0 : 0 ≤ ct) (ct1 : ct ≤ 1) (cp0 : 0 ≤ cp) (cp1 : cp ≤ 1) (z0 : 0 ≤ z2) (z1 : z2 ≤ 1)
    (x0 : 0 ≤ x2) (x1 : x2 ≤ 1) (hst : st = R.fl (1 - ct)) (hsp : sp = R.fl (1 - cp))
    (hz : z = R.fl (z2 - 1)) (hp : p = R.fl (z * sp)) (hw : w = R.fl (1 + p))
    (hy : y = R.fl (w * ct)) (ht : t = R.fl (x2 * st)) (ha : a = R.fl (y + t)) :
    (0 ≤ a ∧ a ≤ 2) ∧ |a - ((1 + (z2 - 1) * (1 - cp)) * ct + x2 * (1 - ct))| ≤ 9 / 2 ^ 53 := by
  have self : ∀ x : ℝ, |x - x| ≤ 0 := by intro x; simp
  have st_r : 0 ≤ st ∧ st ≤ 1 := hst ▸ fl_unit R (by linarith) (by linarith)
  have st_e : |st - (1 - ct)| ≤ 1 / 2 ^ 53 :=
    hst ▸ fl_error R (abs_le_of (by linarith) (by linarith))
  have sp_r : 0 ≤ sp ∧ sp ≤ 1 := hsp ▸ fl_unit R (by linarith) (by linarith)
  have sp_e : |sp - (1 - cp)| ≤ 1 / 2 ^ 53 :=
    hsp ▸ fl_error R (abs_le_of (by linarith) (by linarith))
  have z_r : -1 ≤ z ∧ z ≤ 0 := hz ▸ fl_neg_unit R (by linarith) (by linarith)
  have z_e : |z - (z2 - 1)| ≤ 1 / 2 ^ 53 :=
    hz ▸ fl_error R (by rw [abs_le]; constructor <;> linarith)
  have p1 : -1 ≤ z * sp := by nlinarith [z_r.1, z_r.2, sp_r.1, sp_r.2]
  have p2 : z * sp ≤ 0 := by nlinarith [z_r.1, z_r.2, sp_r.1, sp_r.2]
  have p_r : -1 ≤ p ∧ p ≤ 0 := hp ▸ fl_neg_unit R p1 p2
  have p_e : |p - (z2 - 1) * (1 - cp)| ≤ 3 / 2 ^ 53 := by
    rw [hp]
    exact next_error R (B := 1) (abs_le.2 ⟨p1, by linarith⟩)
      (product_error (X := 1) (Y := 1) (abs_le.2 ⟨z_r.1, by linarith [z_r.2]⟩)
        (abs_le_of (by linarith) (by linarith)) z_e sp_e) (by norm_num)
  have w_r : 0 ≤ w ∧ w ≤ 1 := hw ▸ fl_unit R (by linarith [p_r.1]) (by linarith [p_r.2])
  have w_e : |w - (1 + (z2 - 1) * (1 - cp))| ≤ 4 / 2 ^ 53 := by
    rw [hw]
    refine next_error R (B := 1) (e := 3 / 2 ^ 53)
      (abs_le_of (by linarith [p_r.1]) (by linarith [p_r.2])) ?_ (by norm_num)
    rw [add_sub_add_left_eq_sub]
    exact p_e
  have y0 : 0 ≤ w * ct := mul_nonneg w_r.1 ct0
  have y1 : w * ct ≤ 1 := mul_le_one₀ w_r.2 ct0 ct1
  have y_r : 0 ≤ y ∧ y ≤ 1 := hy ▸ fl_unit R y0 y1
  have y_e : |y - (1 + (z2 - 1) * (1 - cp)) * ct| ≤ 5 / 2 ^ 53 := by
    rw [hy]
    exact next_error R (abs_le_of y0 y1)
      (product_error (abs_le_of w_r.1 w_r.2) (abs_le_of ct0 ct1) w_e (self ct)) (by norm_num)
  have t0 : 0 ≤ x2 * st := mul_nonneg x0 st_r.1
  have t1 : x2 * st ≤ 1 := mul_le_one₀ x1 st_r.1 st_r.2
  have t_r : 0 ≤ t ∧ t ≤ 1 := ht ▸ fl_unit R t0 t1
  have t_e : |t - x2 * (1 - ct)| ≤ 2 / 2 ^ 53 := by
    rw [ht]
    exact next_error R (abs_le_of t0 t1) (product_error (abs_le_of x0 x1)
      (abs_le_of (B := 1) (by linarith) (by linarith)) (self x2) st_e) (by norm_num)
  have s0 : 0 ≤ y + t := by linarith [y_r.1, t_r.1]
  have s1 : y + t ≤ 2 := by linarith [y_r.2, t_r.2]
  constructor
  · have := fl_range R 2 (by norm_num) s0 (by exact_mod_cast s1)
    rw [ha]
    exact_mod_cast this
  · rw [ha]
    refine next_error R (e := 7 / 2 ^ 53) (abs_le_of s0 s1) ?_ (by norm_num)
    have : y + t - ((1 + (z2 - 1) * (1 - cp)) * ct + x2 * (1 - ct)) =
      (y - (1 + (z2 - 1) * (1 - cp)) * ct) + (t - x2 * (1 - ct)) := by ring
    rw [this]
    refine (abs_add_le _ _).trans ((add_le_add y_e t_e).trans (by norm_num))

/-- The rounded last coefficient. -/
theorem last_coefficient (R : Rounding) {cp z2 z m c : ℝ} (cp0 : 0 ≤ cp) (cp1 : cp ≤ 1)
    (z0 : 0 ≤ z2) (z1 : z2 ≤ 1) (hz : z = R.fl (z2 - 1)) (hm : m = R.fl (z * cp))
    (hc : c = R.fl (1 + m)) : (0 ≤ c ∧ c ≤ 1) ∧ |c - (1 + (z2 - 1) * cp)| ≤ 3 / 2 ^ 53 := by
  have self : ∀ x : ℝ, |x - x| ≤ 0 := by intro x; simp
  have z_r : -1 ≤ z ∧ z ≤ 0 := hz ▸ fl_neg_unit R (by linarith) (by linarith)
  have z_e : |z - (z2 - 1)| ≤ 1 / 2 ^ 53 :=
    hz ▸ fl_error R (by rw [abs_le]; constructor <;> linarith)
  have p1 : -1 ≤ z * cp := by nlinarith [z_r.1, z_r.2]
  have p2 : z * cp ≤ 0 := by nlinarith [z_r.1, z_r.2]
  have m_r : -1 ≤ m ∧ m ≤ 0 := hm ▸ fl_neg_unit R p1 p2
  have m_e : |m - (z2 - 1) * cp| ≤ 2 / 2 ^ 53 := by
    rw [hm]
    exact next_error R (B := 1) (abs_le.2 ⟨p1, by linarith⟩)
      (product_error (X := 1) (Y := 1) (abs_le.2 ⟨z_r.1, by linarith [z_r.2]⟩)
        (abs_le_of cp0 cp1) z_e (self cp)) (by norm_num)
  constructor
  · rw [hc]
    exact fl_unit R (by linarith [m_r.1]) (by linarith [m_r.2])
  · rw [hc]
    refine next_error R (B := 1) (e := 2 / 2 ^ 53)
      (abs_le_of (by linarith [m_r.1]) (by linarith [m_r.2])) ?_ (by norm_num)
    rw [add_sub_add_left_eq_sub]
    exact m_e

/-- The rounded square of the mixed coefficient. -/
theorem mixed_coefficient (R : Rounding) {ct cp z2 sp z s f1 f2 f3 b2 : ℝ}
    (ct0 : 0 ≤ ct) (ct1 : ct ≤ 1) (cp0 : 0 ≤ cp) (cp1 : cp ≤ 1) (z0 : 0 ≤ z2) (z1 : z2 ≤ 1)
    (hsp : sp = R.fl (1 - cp)) (hz : z = R.fl (z2 - 1)) (hs : s = R.fl (z ^ 2))
    (hf1 : f1 = R.fl (4 * s)) (hf2 : f2 = R.fl (f1 * ct)) (hf3 : f3 = R.fl (f2 * sp))
    (hb : b2 = R.fl (f3 * cp)) :
    (0 ≤ b2 ∧ b2 ≤ 4) ∧ |b2 - 4 * (z2 - 1) ^ 2 * ct * (1 - cp) * cp| ≤ 32 / 2 ^ 53 := by
  have self : ∀ x : ℝ, |x - x| ≤ 0 := by intro x; simp
  have h04 : ∀ {x : ℝ}, 0 ≤ x → x ≤ 4 → 0 ≤ R.fl x ∧ R.fl x ≤ 4 := by
    intro x h1 h2
    have := fl_range R 4 (by norm_num) h1 (by exact_mod_cast h2)
    exact_mod_cast this
  have sp_r : 0 ≤ sp ∧ sp ≤ 1 := hsp ▸ fl_unit R (by linarith) (by linarith)
  have sp_e : |sp - (1 - cp)| ≤ 1 / 2 ^ 53 :=
    hsp ▸ fl_error R (abs_le_of (by linarith) (by linarith))
  have z_r : -1 ≤ z ∧ z ≤ 0 := hz ▸ fl_neg_unit R (by linarith) (by linarith)
  have z_e : |z - (z2 - 1)| ≤ 1 / 2 ^ 53 :=
    hz ▸ fl_error R (by rw [abs_le]; constructor <;> linarith)
  have az : |z| ≤ 1 := abs_le.2 ⟨z_r.1, by linarith [z_r.2]⟩
  have azz : |z2 - 1| ≤ 1 := abs_le.2 ⟨by linarith, by linarith⟩
  have s0 : 0 ≤ z ^ 2 := sq_nonneg z
  have s1 : z ^ 2 ≤ 1 := by nlinarith [z_r.1, z_r.2]
  have s_r : 0 ≤ s ∧ s ≤ 1 := hs ▸ fl_unit R s0 s1
  have s_e : |s - (z2 - 1) ^ 2| ≤ 3 / 2 ^ 53 := by
    rw [hs]
    refine next_error R (e := 2 / 2 ^ 53) (abs_le_of s0 s1) ?_ (by norm_num)
    rw [pow_two, pow_two]
    exact (product_error az azz z_e z_e).trans (by norm_num)
  have f1_r : 0 ≤ f1 ∧ f1 ≤ 4 := hf1 ▸ h04 (by linarith [s_r.1]) (by linarith [s_r.2])
  have f1_e : |f1 - 4 * (z2 - 1) ^ 2| ≤ 16 / 2 ^ 53 := by
    rw [hf1]
    exact next_error R (B := 4) (abs_le_of (by linarith [s_r.1]) (by linarith [s_r.2]))
      (product_error (X := 4) (Y := 1) (by norm_num) (by
        rw [abs_pow]; exact pow_le_one₀ (abs_nonneg _) azz) (self 4) s_e) (by norm_num)
  have four : ∀ {f y : ℝ}, 0 ≤ f ∧ f ≤ 4 → 0 ≤ y → y ≤ 1 → 0 ≤ f * y ∧ f * y ≤ 4 := by
    intro f y hf h1 h2
    exact ⟨mul_nonneg hf.1 h1, by nlinarith [hf.1, hf.2]⟩
  obtain ⟨f20, f21⟩ := four f1_r ct0 ct1
  have f2_r : 0 ≤ f2 ∧ f2 ≤ 4 := hf2 ▸ h04 f20 f21
  have f2_e : |f2 - 4 * (z2 - 1) ^ 2 * ct| ≤ 20 / 2 ^ 53 := by
    rw [hf2]
    exact next_error R (abs_le_of f20 f21)
      (product_error (abs_le_of f1_r.1 f1_r.2) (abs_le_of ct0 ct1) f1_e (self ct)) (by norm_num)
  obtain ⟨f30, f31⟩ := four f2_r sp_r.1 sp_r.2
  have f3_r : 0 ≤ f3 ∧ f3 ≤ 4 := hf3 ▸ h04 f30 f31
  have f3_e : |f3 - 4 * (z2 - 1) ^ 2 * ct * (1 - cp)| ≤ 28 / 2 ^ 53 := by
    rw [hf3]
    exact next_error R (abs_le_of f30 f31) (product_error (Y := 1) (abs_le_of f2_r.1 f2_r.2)
      (abs_le_of (by linarith) (by linarith)) f2_e sp_e) (by norm_num)
  obtain ⟨b0, b1⟩ := four f3_r cp0 cp1
  constructor
  · rw [hb]
    exact h04 b0 b1
  · rw [hb]
    exact next_error R (abs_le_of b0 b1)
      (product_error (abs_le_of f3_r.1 f3_r.2) (abs_le_of cp0 cp1) f3_e (self cp)) (by norm_num)

/-- The sum of the coefficients is at least the rounded root. -/
theorem root_le (R : Rounding) {ct cp z2 x2 a b2 c d v0 v : ℝ}
    (hct : 0 ≤ ct ∧ ct ≤ 1) (hcp : 0 ≤ cp ∧ cp ≤ 1) (hz2 : 0 ≤ z2 ∧ z2 ≤ 1) (hx2 : 0 ≤ x2 ∧ x2 ≤ 1)
    (hprod : 1 / 2 ^ 48 ≤ z2 * x2) (ha : 0 ≤ a ∧ a ≤ 2) (hb : 0 ≤ b2 ∧ b2 ≤ 4) (hc : 0 ≤ c ∧ c ≤ 1)
    (ea : |a - ((1 + (z2 - 1) * (1 - cp)) * ct + x2 * (1 - ct))| ≤ 9 / 2 ^ 53)
    (eb : |b2 - 4 * (z2 - 1) ^ 2 * ct * (1 - cp) * cp| ≤ 32 / 2 ^ 53)
    (ec : |c - (1 + (z2 - 1) * cp)| ≤ 3 / 2 ^ 53) (hd : d = R.fl (a - c)) (hv0 : v0 = R.fl (d ^ 2))
    (hv : v = R.fl (v0 + b2)) : 0 < a + c ∧ 0 ≤ v ∧ v ≤ (a + c) ^ 2 := by
  have margin : 4 * (z2 * x2) ≤ 4 * (((1 + (z2 - 1) * (1 - cp)) * ct + x2 * (1 - ct)) *
      (1 + (z2 - 1) * cp)) - 4 * (z2 - 1) ^ 2 * ct * (1 - cp) * cp := by
    have e : 4 * (((1 + (z2 - 1) * (1 - cp)) * ct + x2 * (1 - ct)) *
        (1 + (z2 - 1) * cp)) - 4 * (z2 - 1) ^ 2 * ct * (1 - cp) * cp =
        4 * (z2 * ct + x2 * ((1 - ct) * (1 + (z2 - 1) * cp))) := by ring
    have g1 : z2 ≤ 1 + (z2 - 1) * cp := by nlinarith [hz2.1, hz2.2, hcp.1, hcp.2]
    have g2 : z2 * (x2 * ct) ≤ z2 * ct := by
      apply mul_le_mul_of_nonneg_left _ hz2.1
      nlinarith [hct.1, hx2.2]
    have g3 : x2 * ((1 - ct) * z2) ≤ x2 * ((1 - ct) * (1 + (z2 - 1) * cp)) := by
      apply mul_le_mul_of_nonneg_left _ hx2.1
      apply mul_le_mul_of_nonneg_left g1 (by linarith [hct.2])
    have g4 : z2 * (x2 * ct) + x2 * ((1 - ct) * z2) = z2 * x2 := by ring
    rw [e]
    linarith
  have hac : b2 + 20 / 2 ^ 53 ≤ 4 * (a * c) := by
    have g1 := product_error (Y := 1) (abs_le_of ha.1 ha.2) (by
      rw [abs_le]; constructor <;> nlinarith [hz2.1, hz2.2, hcp.1, hcp.2]) ea ec
    rw [abs_le] at g1 eb
    have q1 := g1.1
    have q2 := eb.2
    norm_num at q1 q2 hprod ⊢
    linarith
  have d_e : |d - (a - c)| ≤ 2 / 2 ^ 53 := by
    rw [hd]
    exact fl_error R (by rw [abs_le]; constructor <;> linarith [ha.1, ha.2, hc.1, hc.2])
  have d_r : -2 ≤ d ∧ d ≤ 2 := by
    have := unit_range R (x := a - c) (m := -2) (n := 2) (by norm_num) (by norm_num)
      (by push_cast; linarith [ha.1, hc.2]) (by push_cast; linarith [ha.2, hc.1])
    push_cast at this
    rw [hd]
    exact this
  have d2 : d ^ 2 ≤ 4 := by nlinarith [d_r.1, d_r.2]
  have d2_e : |d ^ 2 - (a - c) ^ 2| ≤ 8 / 2 ^ 53 := by
    have := product_error (x := d) (y := d) (x' := a - c) (y' := a - c) (X := 2) (Y := 2)
      (by rw [abs_le]; exact d_r) (by
        rw [abs_le]; constructor <;> linarith [ha.1, ha.2, hc.1, hc.2]) d_e d_e
    rw [pow_two, pow_two]
    exact this.trans (by norm_num)
  have v0_e : |v0 - (a - c) ^ 2| ≤ 12 / 2 ^ 53 := by
    rw [hv0]
    exact next_error R (abs_le_of (sq_nonneg d) d2) d2_e (by norm_num)
  have v0_r : 0 ≤ v0 ∧ v0 ≤ 4 := by
    have := fl_range R 4 (by norm_num) (sq_nonneg d) (by exact_mod_cast d2)
    rw [hv0]
    exact_mod_cast this
  have v_e : |v - (v0 + b2)| ≤ 8 / 2 ^ 53 := by
    rw [hv]
    exact fl_error R (abs_le_of (by linarith [v0_r.1, hb.1]) (by linarith [v0_r.2, hb.2]))
  refine ⟨?_, hv ▸ R.nonneg (by linarith [v0_r.1, hb.1]), ?_⟩
  · by_contra hcon
    have h0 : a = 0 := by linarith [ha.1, hc.1]
    rw [h0] at hac
    norm_num at hac
    linarith [hb.1]
  · have : (a + c) ^ 2 = (a - c) ^ 2 + 4 * (a * c) := by ring
    rw [this]
    have q1 := (abs_le.1 v0_e).2
    have q2 := (abs_le.1 v_e).2
    norm_num at q1 q2 hac ⊢
    linarith

/-- **C149** If the product of the two axis ratios is at least `2⁻²³`, the axis ratio is a number
from 0 to 1 in double precision, for every viewing angle. -/
theorem float_axis_ratio_partial (R : Rounding) {zeta xi u phi : ℝ} (hz0 : 0 ≤ zeta) (hz : zeta ≤ 1)
    (hx0 : 0 ≤ xi) (hx : xi ≤ 1) (hu : |u| ≤ 1) (hp : 1 / 2 ^ 23 ≤ zeta * xi) :
    ∃ q, axisRatioFl R.fl zeta xi u phi = some q ∧ 0 ≤ q ∧ q ≤ 1 := by
  have hu2 : u * u ≤ 1 := by rw [← abs_mul_abs_self u]; exact mul_le_one₀ hu (abs_nonneg u) hu
  have hct := fl_unit R (mul_self_nonneg u) hu2
  have hk := unit_range R (x := Real.cos phi) (m := -1) (n := 1) (by norm_num) (by norm_num)
    (by simpa using Real.neg_one_le_cos phi) (by simpa using Real.cos_le_one phi)
  push_cast at hk
  have hcp := fl_unit R (mul_self_nonneg (R.fl (Real.cos phi))) (by nlinarith [hk.1, hk.2])
  have hz2 := fl_unit R (sq_nonneg zeta) (pow_le_one₀ hz0 hz)
  have hx2 := fl_unit R (sq_nonneg xi) (pow_le_one₀ hx0 hx)
  have hprod : 1 / 2 ^ 48 ≤ R.fl (zeta ^ 2) * R.fl (xi ^ 2) := by
    have e1 := (R.bounds (sq_nonneg zeta)).1
    have e2 := (R.bounds (sq_nonneg xi)).1
    have g1 : zeta ^ 2 / 2 ≤ R.fl (zeta ^ 2) := by
      refine le_trans ?_ e1
      have := sq_nonneg zeta
      norm_num; nlinarith
    have g2 : xi ^ 2 / 2 ≤ R.fl (xi ^ 2) := by
      refine le_trans ?_ e2
      have := sq_nonneg xi
      norm_num; nlinarith
    have g3 : zeta ^ 2 / 2 * (xi ^ 2 / 2) ≤ R.fl (zeta ^ 2) * R.fl (xi ^ 2) :=
      mul_le_mul g1 g2 (by positivity) hz2.1
    have g4 : (1 / 2 ^ 23 : ℝ) ^ 2 ≤ (zeta * xi) ^ 2 := pow_le_pow_left₀ (by norm_num) hp 2
    have g5 : zeta ^ 2 / 2 * (xi ^ 2 / 2) = (zeta * xi) ^ 2 / 4 := by ring
    rw [g5] at g3
    norm_num at g4 ⊢
    linarith
  obtain ⟨ha, ea⟩ := first_coefficient R hct.1 hct.2 hcp.1 hcp.2 hz2.1 hz2.2 hx2.1 hx2.2 rfl rfl rfl
    rfl rfl rfl rfl rfl
  obtain ⟨hc, ec⟩ := last_coefficient R hcp.1 hcp.2 hz2.1 hz2.2 rfl rfl rfl
  obtain ⟨hb, eb⟩ := mixed_coefficient R hct.1 hct.2 hcp.1 hcp.2 hz2.1 hz2.2 rfl rfl rfl rfl rfl rfl
    rfl
  obtain ⟨hpos, v0', hv⟩ := root_le R hct hcp hz2 hx2 hprod ha hb hc ea eb ec rfl rfl rfl
  unfold axisRatioFl
  simp only
  clear ea eb ec hb hprod hct hcp hz2 hx2
  revert ha hc hpos v0' hv
  generalize R.fl (R.fl (R.fl (1 + R.fl (R.fl (R.fl (zeta ^ 2) - 1) *
    R.fl (1 - R.fl (R.fl (Real.cos phi) * R.fl (Real.cos phi))))) * R.fl (u * u)) +
    R.fl (R.fl (xi ^ 2) * R.fl (1 - R.fl (u * u)))) = a
  generalize R.fl (1 + R.fl (R.fl (R.fl (zeta ^ 2) - 1) *
    R.fl (R.fl (Real.cos phi) * R.fl (Real.cos phi)))) = c
  generalize R.fl (R.fl (R.fl (a - c) ^ 2) + _) = v
  intro ha hc hpos v0' hv
  have hs : R.fl (Real.sqrt v) ≤ R.fl (a + c) := by
    apply R.mono
    rw [Real.sqrt_le_left (by linarith [ha.1, hc.1])]
    exact hv
  have hspos := R.pos hpos
  have hr := R.nonneg (Real.sqrt_nonneg v)
  have hden := R.pos (show 0 < R.fl (a + c) + R.fl (Real.sqrt v) by linarith)
  have hnum := R.nonneg (show 0 ≤ R.fl (a + c) - R.fl (Real.sqrt v) by linarith)
  rw [show nanSqrt v = some (Real.sqrt v) from if_neg (not_lt.2 v0'), Option.bind_some]
  obtain ⟨q, hq⟩ : ∃ q, ((nanDiv (R.fl (R.fl (a + c) - R.fl (Real.sqrt v)))
      (R.fl (R.fl (a + c) + R.fl (Real.sqrt v)))).bind fun q => (nanSqrt (R.fl q)).map R.fl) =
      some q := by
    rw [nanDiv, if_neg hden.ne', Option.bind_some, nanSqrt,
      if_neg (not_lt.2 (R.nonneg (div_nonneg hnum hden.le)))]
    exact ⟨_, rfl⟩
  exact ⟨q, hq, last_line R hr hq hspos.le⟩

/-- **C149** An axis ratio that is a number is from 0 to 1, whatever the rounding. -/
theorem float_axis_ratio_range (R : Rounding) {zeta xi u phi q : ℝ} (hz0 : 0 ≤ zeta) (hz : zeta ≤ 1)
    (hx0 : 0 ≤ xi) (hx : xi ≤ 1) (hu : |u| ≤ 1) (h : axisRatioFl R.fl zeta xi u phi = some q) :
    0 ≤ q ∧ q ≤ 1 := by
  have hu2 : u * u ≤ 1 := by rw [← abs_mul_abs_self u]; exact mul_le_one₀ hu (abs_nonneg u) hu
  have hct := fl_unit R (mul_self_nonneg u) hu2
  have hk := unit_range R (x := Real.cos phi) (m := -1) (n := 1) (by norm_num) (by norm_num)
    (by simpa using Real.neg_one_le_cos phi) (by simpa using Real.cos_le_one phi)
  push_cast at hk
  have hcp := fl_unit R (mul_self_nonneg (R.fl (Real.cos phi))) (by nlinarith [hk.1, hk.2])
  have hz2 := fl_unit R (sq_nonneg zeta) (pow_le_one₀ hz0 hz)
  have hx2 := fl_unit R (sq_nonneg xi) (pow_le_one₀ hx0 hx)
  have ha := (first_coefficient R hct.1 hct.2 hcp.1 hcp.2 hz2.1 hz2.2 hx2.1 hx2.2 rfl rfl rfl
    rfl rfl rfl rfl rfl).1.1
  have hc := (last_coefficient R hcp.1 hcp.2 hz2.1 hz2.2 rfl rfl rfl).1.1
  unfold axisRatioFl at h
  simp only at h
  rw [Option.bind_eq_some_iff] at h
  obtain ⟨r, hr, h⟩ := h
  have hr0 : 0 ≤ r := by
    unfold nanSqrt at hr
    split_ifs at hr
    · simp only [Option.some.injEq] at hr
      rw [← hr]
      exact Real.sqrt_nonneg _
  exact last_line R (R.nonneg hr0) h (R.nonneg (by linarith))

/-! ## Counterexample in double precision -/

open Glass.Shells

/-- The double that is nearest to the angle with the cosine 5/8. -/
noncomputable def azimuth : ℝ := roundDouble (Real.arccos (5 / 8))

theorem azimuth_error : |azimuth - Real.arccos (5 / 8)| ≤ 1 / 2 ^ 54 := by
  have hc : Real.cos (Real.arccos (5 / 8)) = 5 / 8 := Real.cos_arccos (by norm_num) (by norm_num)
  have hp := Real.arccos_le_pi (5 / 8)
  have h0 := Real.arccos_nonneg (5 / 8)
  have h1 : 1 / 2 ≤ Real.arccos (5 / 8) := by
    by_contra h
    have := Real.one_sub_sq_div_two_le_cos (x := Real.arccos (5 / 8))
    rw [hc] at this
    nlinarith
  have h2 : Real.arccos (5 / 8) < 1 := by
    by_contra h
    have := Real.cos_le_cos_of_nonneg_of_le_pi (by norm_num) hp (not_lt.1 h)
    rw [hc] at this
    have := Real.cos_one_le
    linarith
  have hlog : Int.log 2 (Real.arccos (5 / 8)) = -1 := by
    apply le_antisymm
    · have : Int.log 2 (Real.arccos (5 / 8)) < 0 := by
        rw [← Int.lt_zpow_iff_log_lt (by norm_num) (by linarith)]
        simpa using h2
      omega
    · rw [← Int.zpow_le_iff_le_log (by norm_num) (by linarith)]
      norm_num
      linarith
  have h3 := abs_sub_roundEven (Real.arccos (5 / 8) / 2 ^ ((-1 : ℤ) - 52))
  unfold azimuth roundDouble roundPos
  rw [if_pos (by linarith), hlog]
  rw [abs_le] at h3 ⊢
  norm_num at h3 ⊢
  constructor <;> linarith [h3.1, h3.2]

/-- The rounded cosine of this angle is 5/8. -/
theorem cos_azimuth : roundDouble (Real.cos azimuth) = 5 / 8 := by
  have hc : Real.cos (Real.arccos (5 / 8)) = 5 / 8 := Real.cos_arccos (by norm_num) (by norm_num)
  have h1 : |Real.cos azimuth - 5 / 8| ≤ 1 / 2 ^ 54 := by
    have := Real.abs_cos_sub_cos_le azimuth (Real.arccos (5 / 8))
    rw [hc] at this
    exact this.trans azimuth_error
  have h2 := abs_le.1 h1
  have e : |Real.cos azimuth / (2 : ℝ) ^ ((-1 : ℤ) - 52) - (5629499534213120 : ℤ)| =
      2 ^ 53 * |Real.cos azimuth - 5 / 8| := by
    rw [← abs_of_pos (show (0 : ℝ) < 2 ^ 53 by norm_num), ← abs_mul]
    congr 1
    norm_num
    ring
  have lo : (2 : ℝ) ^ (-1 : ℤ) ≤ Real.cos azimuth := by
    norm_num at h2 ⊢; linarith [h2.1]
  have hi : Real.cos azimuth < (2 : ℝ) ^ ((-1 : ℤ) + 1) := by
    norm_num at h2 ⊢; linarith [h2.2]
  rcases h1.lt_or_eq with h | h
  · rw [roundDouble_of _ (-1) 5629499534213120 lo hi (by rw [e]; norm_num at h ⊢; linarith)]
    norm_num
  · rw [roundDouble_tie _ (-1) 5629499534213120 lo hi (by decide) (by rw [e, h]; norm_num)]
    norm_num

/-- **C149**, counterexample: for a thin needle with axis ratios `2⁻³⁰`, seen from the direction with
the cosine 2059/4096 of the polar angle and this azimuth, the radicand is negative in double
precision, and the axis ratio is not a number. -/
theorem float_axis_ratio_nan :
    axisRatioFl roundDouble (1 / 2 ^ 30) (1 / 2 ^ 30) (2059 / 4096) azimuth = none := by
  have r1 : roundDouble (2059 / 4096 * (2059 / 4096)) = 4239481 / 16777216 := by
    rw [roundDouble_of _ (-2) 4552108061753344 (by norm_num) (by norm_num) (by norm_num)]; norm_num
  have r2 : roundDouble (1 - 4239481 / 16777216) = 12537735 / 16777216 := by
    rw [roundDouble_of _ (-1) 6731145223864320 (by norm_num) (by norm_num) (by norm_num)]; norm_num
  have r3 : roundDouble (5 / 8 * (5 / 8)) = 25 / 64 := by
    rw [roundDouble_of _ (-2) 7036874417766400 (by norm_num) (by norm_num) (by norm_num)]; norm_num
  have r4 : roundDouble (1 - 25 / 64) = 39 / 64 := by
    rw [roundDouble_of _ (-1) 5488762045857792 (by norm_num) (by norm_num) (by norm_num)]; norm_num
  have r5 : roundDouble ((1 / 2 ^ 30) ^ 2) = 1 / 2 ^ 60 := by
    rw [roundDouble_of _ (-60) (2 ^ 52) (by norm_num) (by norm_num) (by norm_num)]; norm_num
  have r6 : roundDouble (1 / 2 ^ 60 - 1) = -1 := by
    rw [show (1 / 2 ^ 60 - 1 : ℝ) = -(1 - 1 / 2 ^ 60) by ring, roundDouble_neg,
      roundDouble_of _ (-1) (2 ^ 53) (by norm_num) (by norm_num)
        (by rw [abs_lt]; constructor <;> norm_num)]
    norm_num
  have r7 : roundDouble (-1 * (39 / 64)) = -(39 / 64) := by
    rw [neg_one_mul, roundDouble_neg,
      roundDouble_of _ (-1) 5488762045857792 (by norm_num) (by norm_num) (by norm_num)]; norm_num
  have r8 : roundDouble (1 + -(39 / 64)) = 25 / 64 := by
    rw [roundDouble_of _ (-2) 7036874417766400 (by norm_num) (by norm_num) (by norm_num)]; norm_num
  have r9 : roundDouble (25 / 64 * (4239481 / 16777216)) = 105987025 / 1073741824 := by
    rw [roundDouble_of _ (-4) 7112668846489600 (by norm_num) (by norm_num) (by norm_num)]; norm_num
  have r10 : roundDouble (1 / 2 ^ 60 * (12537735 / 16777216)) = 12537735 / 2 ^ 84 := by
    rw [roundDouble_of _ (-61) 6731145223864320 (by norm_num) (by norm_num) (by norm_num)]; norm_num
  have r11 : roundDouble (105987025 / 1073741824 + 12537735 / 2 ^ 84) = 105987025 / 1073741824 := by
    rw [roundDouble_of _ (-4) 7112668846489600 (by norm_num) (by norm_num)
      (by rw [abs_lt]; constructor <;> norm_num)]; norm_num
  have r12 : roundDouble (-1 * (25 / 64)) = -(25 / 64) := by
    rw [neg_one_mul, roundDouble_neg,
      roundDouble_of _ (-2) 7036874417766400 (by norm_num) (by norm_num) (by norm_num)]; norm_num
  have r13 : roundDouble (1 + -(25 / 64)) = 39 / 64 := by
    rw [roundDouble_of _ (-1) 5488762045857792 (by norm_num) (by norm_num) (by norm_num)]; norm_num
  have r14 : roundDouble ((-1) ^ 2) = 1 := by
    rw [roundDouble_of _ 0 (2 ^ 52) (by norm_num) (by norm_num) (by norm_num)]; norm_num
  have r15 : roundDouble (4 * 1) = 4 := by
    rw [roundDouble_of _ 2 (2 ^ 52) (by norm_num) (by norm_num) (by norm_num)]; norm_num
  have r16 : roundDouble (4 * (4239481 / 16777216)) = 4239481 / 4194304 := by
    rw [roundDouble_of _ 0 4552108061753344 (by norm_num) (by norm_num) (by norm_num)]; norm_num
  have r17 : roundDouble (4239481 / 4194304 * (39 / 64)) = 165339759 / 268435456 := by
    rw [roundDouble_of _ (-1) (165339759 * 2 ^ 25) (by norm_num) (by norm_num) (by norm_num)]; norm_num
  have r18 : roundDouble (165339759 / 268435456 * (25 / 64)) = 4133493975 / 17179869184 := by
    rw [roundDouble_of _ (-3) 8668565156659200 (by norm_num) (by norm_num) (by norm_num)]; norm_num
  have r19 : roundDouble (105987025 / 1073741824 - 39 / 64) = -(548324399 / 1073741824) := by
    rw [show (105987025 / 1073741824 - 39 / 64 : ℝ) = -(548324399 / 1073741824) by norm_num,
      roundDouble_neg,
      roundDouble_of _ (-1) 4599678440046592 (by norm_num) (by norm_num) (by norm_num)]; norm_num
  have r20 : roundDouble ((-(548324399 / 1073741824)) ^ 2) = 4697806977167363 / 18014398509481984 := by
    rw [roundDouble_of _ (-2) 4697806977167363 (by norm_num) (by norm_num)
      (by rw [abs_lt]; constructor <;> norm_num)]; norm_num
  have r21 : roundDouble (4697806977167363 / 18014398509481984 + 4133493975 / 17179869184) =
      2258022388874241 / 4503599627370496 := by
    rw [roundDouble_tie _ (-1) 4516044777748482 (by norm_num) (by norm_num) (by decide)
      (by norm_num [abs_div])]; norm_num
  have r22 : roundDouble (Real.sqrt (2258022388874241 / 4503599627370496)) =
      6377845651668993 / 9007199254740992 := by
    have b1 : (12755691303337985 / 2 ^ 54 : ℝ) < Real.sqrt (2258022388874241 / 4503599627370496) :=
      Real.lt_sqrt_of_sq_lt (by norm_num)
    have b2 : Real.sqrt (2258022388874241 / 4503599627370496) < 12755691303337987 / 2 ^ 54 := by
      rw [Real.sqrt_lt' (by norm_num)]; norm_num
    rw [roundDouble_of _ (-1) 6377845651668993 (by norm_num at b1 ⊢; linarith)
      (by norm_num at b2 ⊢; linarith) (by
        rw [abs_lt]; norm_num at b1 b2 ⊢; constructor <;> linarith)]
    norm_num
  have r23 : roundDouble (105987025 / 1073741824 + 39 / 64) = 760298449 / 1073741824 := by
    rw [roundDouble_of _ (-1) 6377845651668992 (by norm_num) (by norm_num) (by norm_num)]; norm_num
  have n1 : roundDouble (760298449 / 1073741824 - 6377845651668993 / 9007199254740992) < 0 :=
    double.neg (by norm_num)
  have n2 : 0 < roundDouble (760298449 / 1073741824 + 6377845651668993 / 9007199254740992) :=
    double.pos (by norm_num)
  have n3 := double.neg (div_neg_of_neg_of_pos n1 n2)
  simp only [double] at n3
  unfold axisRatioFl
  simp only [cos_azimuth, r1, r2, r3, r4, r5, r6, r7, r8, r9, r10, r11, r12, r13, r14, r15, r16, r17,
    r18, r19, r20, r21]
  rw [nanSqrt, if_neg (by norm_num), Option.bind_some, r22, r23, nanDiv, if_neg n2.ne',
    Option.bind_some, nanSqrt, if_pos n3, Option.map_none]

/-- A galaxy with axis ratios 1/2 and 1/4. -/
example (u phi : ℝ) (hu : |u| ≤ 1) :
    ∃ q, axisRatioFl double.fl (1 / 2) (1 / 4) u phi = some q ∧ 0 ≤ q ∧ q ≤ 1 :=
  float_axis_ratio_partial double (by norm_num) (by norm_num) (by norm_num) (by norm_num) hu
    (by norm_num)

end Glass.Shapes
