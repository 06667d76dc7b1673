import Verif.Points.FloatSphere

/-!
# The displacement between two points in floating point

`displacement` with every operation rounded and with inexact elementary functions.
-/

namespace Glass.Points

open Glass.Spectra Glass.Shapes Glass.Lensing

/-! ## Model -/

/-- `points.py:719-770` `displacement` with every operation rounded: the real and the imaginary
part.  The exponential of an imaginary number is made of the cosine and the sine. -/
noncomputable def displacementFl (fl : ℝ → ℝ) (m : Libm) (fromLon fromLat toLon toLat : ℝ) :
    ℝ × ℝ :=
  let a := radiansFl fl fromLat
  let b := radiansFl fl toLat
  let g := radiansFl fl (fl (toLon - fromLon))
  let sa := m.sin a
  let ca := m.cos a
  let sb := m.sin b
  let cb := m.cos b
  let sg := m.sin g
  let cg := m.cos g
  let east := fl (cb * sg)
  let north := fl (fl (ca * sb) - fl (fl (sa * cb) * cg))
  let r := m.atan2 (m.hypot east north) (fl (fl (sa * sb) + fl (fl (ca * cb) * cg)))
  let x := m.atan2 east north
  (fl (r * m.cos x), fl (r * m.sin x))

/-- Without rounding, this is the function of the model. -/
theorem displacement_fl_real (fromLon fromLat toLon toLat : ℝ) :
    displacementFl id Libm.real fromLon fromLat toLon toLat =
      ((displacement fromLon fromLat toLon toLat).re,
        (displacement fromLon fromLat toLon toLat).im) := by
  have h1 : ∀ x, radiansFl id x = radians x := fun x => by simp [radiansFl, radians]; ring
  unfold displacementFl displacement Libm.real
  simp only [h1, id]
  rw [mul_comm Complex.I, Complex.re_ofReal_mul, Complex.im_ofReal_mul,
    Complex.exp_ofReal_mul_I_re, Complex.exp_ofReal_mul_I_im]

/-! ## A point and itself -/

/-- What is asked of the elementary functions at zero. -/
structure Libm.AtZero (m : Libm) : Prop where
  sin : m.sin 0 = 0
  cos : m.cos 0 = 1
  atan2 : ∀ x, 0 ≤ x → m.atan2 0 x = 0
  hypot : m.hypot 0 0 = 0

theorem Libm.rounded_at_zero (R : Rounding) : (Libm.rounded R.fl).AtZero := by
  refine ⟨?_, ?_, fun x hx => ?_, ?_⟩
  · change R.fl (Real.sin 0) = 0
    rw [Real.sin_zero, R.zero]
  · change R.fl (Real.cos 0) = 1
    rw [Real.cos_zero, R.one]
  · change R.fl (Points.atan2 0 x) = 0
    have : Points.atan2 0 x = 0 := Complex.arg_ofReal_of_nonneg hx
    rw [this, R.zero]
  · change R.fl (Points.hypot 0 0) = 0
    have : Points.hypot 0 0 = 0 := by unfold Points.hypot; simp
    rw [this, R.zero]

/-- **C157**, a point and itself: in double precision the displacement of a point to itself is
exactly zero, although it is computed with differences of rounded products. -/
theorem displacement_self {m : Libm} (hm : m.AtZero) (lon lat : ℝ) :
    displacementFl double.fl m lon lat lon lat = (0, 0) := by
  have hg : radiansFl double.fl (double.fl (lon - lon)) = 0 := by
    unfold radiansFl
    rw [sub_self, double.zero, zero_mul, double.zero]
  unfold displacementFl
  simp only [hg, hm.sin, hm.cos, mul_zero, mul_one]
  generalize m.sin (radiansFl double.fl lat) = sa
  generalize m.cos (radiansFl double.fl lat) = ca
  have idem : ∀ x, double.fl (double.fl x) = double.fl x := Glass.Galaxies.roundDouble_idem
  rw [idem, idem, mul_comm ca sa, sub_self, double.zero, hm.hypot, hm.atan2, zero_mul, zero_mul,
    double.zero]
  exact double.nonneg (add_nonneg (double.nonneg (mul_self_nonneg _))
    (double.nonneg (mul_self_nonneg _)))

/-! ## Accuracy -/

/-- Angles from their sines and cosines. -/
theorem angle_of_chord {a b e : ℝ} (ha0 : 0 ≤ a) (ha1 : a ≤ Real.pi) (hb0 : 0 ≤ b)
    (hb1 : b ≤ Real.pi) (hc : |Real.cos a - Real.cos b| ≤ e) (hs : |Real.sin a - Real.sin b| ≤ e) :
    |a - b| ≤ Real.pi * e := by
  have hp := Real.pi_pos
  have he : 0 ≤ e := (abs_nonneg _).trans hc
  have key : |Real.sin ((a - b) / 2)| ≤ e := by
    have h1 := Real.sin_sq_add_cos_sq ((a + b) / 2)
    have e1 : 2 * Real.sin ((a - b) / 2) = -(Real.cos a - Real.cos b) * Real.sin ((a + b) / 2) +
        (Real.sin a - Real.sin b) * Real.cos ((a + b) / 2) := by
      rw [Real.cos_sub_cos, Real.sin_sub_sin]
      linear_combination -2 * Real.sin ((a - b) / 2) * h1
    have h2 : |2 * Real.sin ((a - b) / 2)| ≤ e + e := by
      rw [e1]
      refine (abs_add_le _ _).trans (add_le_add ?_ ?_)
      · rw [abs_mul, abs_neg]
        exact (mul_le_of_le_one_right (abs_nonneg _) (Real.abs_sin_le_one _)).trans hc
      · rw [abs_mul]
        exact (mul_le_of_le_one_right (abs_nonneg _) (Real.abs_cos_le_one _)).trans hs
    rw [abs_mul, abs_two] at h2
    linarith
  have main : ∀ y : ℝ, 0 ≤ y → y ≤ Real.pi → |Real.sin (y / 2)| ≤ e → y ≤ Real.pi * e := by
    intro y h0 h1 h2
    have h3 := Real.mul_le_sin (x := y / 2) (by linarith) (by linarith)
    have h4 := h3.trans ((le_abs_self _).trans h2)
    have e2 : 2 / Real.pi * (y / 2) = y / Real.pi := by ring
    rw [e2, div_le_iff₀ hp] at h4
    linarith
  rcases le_total 0 (a - b) with h | h
  · rw [abs_of_nonneg h]
    exact main _ h (by linarith) key
  · rw [abs_of_nonpos h]
    refine main _ (by linarith) (by linarith) ?_
    rw [show -(a - b) / 2 = -((a - b) / 2) by ring, Real.sin_neg, abs_neg]
    exact key

/-- `radians` of a latitude. -/
theorem radians_error (R : Rounding) {lat : ℝ} (hlat : |lat| ≤ 90) :
    |radiansFl R.fl lat - rad lat| ≤ 8 / 2 ^ 53 := by
  have h : Rel 3 (lat * (Real.pi / 180)) (R.fl (lat * R.fl (R.fl Real.pi / 180))) :=
    ((Rel.refl lat).mul (((Rel.fl R Real.pi).div (Rel.refl 180)).round R)).round R
  refine (Rel.three h).trans ?_
  have : |lat * (Real.pi / 180)| ≤ 2 := latitude_rad hlat
  rw [div_mul_eq_mul_div]
  gcongr
  linarith

/-- `radians` of a difference of longitudes. -/
theorem radians_error_long (R : Rounding) {x : ℝ} (hx : |x| ≤ 360) :
    |radiansFl R.fl (R.fl x) - rad x| ≤ 32 / 2 ^ 53 := by
  have h : Rel 4 (x * (Real.pi / 180)) (R.fl (R.fl x * R.fl (R.fl Real.pi / 180))) :=
    ((Rel.fl R x).mul (((Rel.fl R Real.pi).div (Rel.refl 180)).round R)).round R
  have h' := h.error (e := 5 / 2 ^ 53) (by norm_num) (by norm_num)
  refine h'.trans ?_
  have hp := Real.pi_pos
  have hp' := Real.pi_lt_d2
  have : |x * (Real.pi / 180)| ≤ 6.3 := by
    rw [abs_mul, abs_of_pos (show 0 < Real.pi / 180 by positivity)]
    have h0 := abs_nonneg x
    norm_num at hp' ⊢
    nlinarith
  rw [div_mul_eq_mul_div]
  gcongr
  norm_num at this ⊢
  linarith

/-- The displacement from the components of the vector. -/
theorem displacement_core (R : Rounding) {m : Libm} (hm : m.Accurate) {E N C E' N' C' : ℝ}
    (hsq : C ^ 2 + (E ^ 2 + N ^ 2) = 1) (hC0 : 0 ≤ C) (hE' : |E' - E| ≤ 50 / 2 ^ 53)
    (hN' : |N' - N| ≤ 92 / 2 ^ 53) (hC' : |C' - C| ≤ 92 / 2 ^ 53) :
    |R.fl (m.atan2 (m.hypot E' N') C' * m.cos (m.atan2 E' N')) -
      atan2 (hypot E N) C * Real.cos (atan2 E N)| ≤ 2000 / 2 ^ 53 ∧
    |R.fl (m.atan2 (m.hypot E' N') C' * m.sin (m.atan2 E' N')) -
      atan2 (hypot E N) C * Real.sin (atan2 E N)| ≤ 2000 / 2 ^ 53 := by
  have hp := Real.pi_pos
  have hp' := Real.pi_lt_d4
  have hH0 : 0 ≤ hypot E N := hypot_nonneg _ _
  have hun : C ^ 2 + hypot E N ^ 2 = 1 := by rw [hypot_sq]; exact hsq
  have hunit : hypot C (hypot E N) = 1 := hypot_eq_one hun
  have hH1 : hypot E N ≤ 1 := by nlinarith [sq_nonneg C]
  have hcomm : hypot N E = hypot E N := by unfold hypot; rw [add_comm]
  -- the length of the vector
  have hh : |hypot E' N' - hypot E N| ≤ 142 / 2 ^ 53 := by
    refine (hypot_lipschitz _ _ _ _).trans ((add_le_add hE' hN').trans ?_)
    rw [← add_div]; norm_num
  have hX : |m.hypot E' N' - hypot E N| ≤ 147 / 2 ^ 53 := by
    have h1 := hm.hypot E' N'
    have h2 : hypot E' N' ≤ 5 / 4 := by
      have := (abs_le.1 hh).2
      have : (142 / 2 ^ 53 : ℝ) ≤ 1 / 4 := by norm_num
      linarith
    have e : m.hypot E' N' - hypot E N =
        (m.hypot E' N' - hypot E' N') + (hypot E' N' - hypot E N) := by ring
    rw [e]
    refine (abs_add_le _ _).trans ((add_le_add h1 hh).trans ?_)
    rw [div_mul_eq_mul_div, ← add_div]
    gcongr
    linarith
  have hX0 : 0 ≤ m.hypot E' N' := by
    have h1 := (abs_le.1 (hm.hypot E' N')).1
    have h2 := hypot_nonneg E' N'
    have : (4 / 2 ^ 53 : ℝ) ≤ 1 := by norm_num
    nlinarith
  -- the angle between the points
  obtain ⟨er, es⟩ := atan2_unit hun
  have r0 : 0 ≤ atan2 (hypot E N) C :=
    Complex.arg_nonneg_iff.2 (show 0 ≤ (⟨C, hypot E N⟩ : ℂ).im from hH0)
  have r1 : atan2 (hypot E N) C ≤ Real.pi / 2 :=
    (abs_le.1 (Complex.abs_arg_le_pi_div_two_iff.2
      (show 0 ≤ (⟨C, hypot E N⟩ : ℂ).re from hC0))).2
  have r0' : 0 ≤ atan2 (m.hypot E' N') C' :=
    Complex.arg_nonneg_iff.2 (show 0 ≤ (⟨C', m.hypot E' N'⟩ : ℂ).im from hX0)
  have r1' : atan2 (m.hypot E' N') C' ≤ Real.pi := Complex.arg_le_pi _
  obtain ⟨d1, d2⟩ := direction_error 0 (m.hypot E' N') C' (hypot E N) C
  have hq : 2 * (|C' - C| + |m.hypot E' N' - hypot E N|) ≤ 478 / 2 ^ 53 := by
    have : (478 / 2 ^ 53 : ℝ) = 2 * (92 / 2 ^ 53 + 147 / 2 ^ 53) := by norm_num
    rw [this]
    gcongr
  rw [hunit, one_mul, one_mul, zero_add, zero_add] at d1 d2
  have hang := angle_of_chord r0' r1' r0 (r1.trans (by linarith)) (d1.trans hq) (d2.trans hq)
  have hat := machine_atan2 hm (m.hypot E' N') C'
  have hr : |m.atan2 (m.hypot E' N') C' - atan2 (hypot E N) C| ≤ 1515 / 2 ^ 53 := by
    have e : m.atan2 (m.hypot E' N') C' - atan2 (hypot E N) C =
      (m.atan2 (m.hypot E' N') C' - atan2 (m.hypot E' N') C') +
        (atan2 (m.hypot E' N') C' - atan2 (hypot E N) C) := by ring
    rw [e]
    refine (abs_add_le _ _).trans ((add_le_add hat hang).trans ?_)
    have : Real.pi * (478 / 2 ^ 53) ≤ 3.1416 * (478 / 2 ^ 53) := by gcongr
    norm_num at this ⊢
    linarith
  -- the direction
  obtain ⟨c1, c2⟩ := direction_error 0 E' N' E N
  have hw : 2 * (|N' - N| + |E' - E|) ≤ 284 / 2 ^ 53 := by
    have : (284 / 2 ^ 53 : ℝ) = 2 * (92 / 2 ^ 53 + 50 / 2 ^ 53) := by norm_num
    rw [this]
    gcongr
  rw [hcomm, zero_add, zero_add] at c1 c2
  have hrH : atan2 (hypot E N) C ≤ 1.58 * hypot E N := by
    have h1 := Real.mul_le_sin r0 r1
    rw [es, div_mul_eq_mul_div, div_le_iff₀ hp] at h1
    norm_num at hp' ⊢
    nlinarith
  have hr2 : atan2 (hypot E N) C ≤ 1.58 := hrH.trans (by norm_num; linarith)
  have hx := machine_atan2 hm E' N'
  generalize atan2 (hypot E N) C = r at *
  generalize m.atan2 (m.hypot E' N') C' = rho at *
  have step : ∀ f F G : ℝ, |f - F| ≤ 17 / 2 ^ 53 → |F| ≤ 1 →
      |hypot E N * F - hypot E N * G| ≤ 284 / 2 ^ 53 →
      |R.fl (rho * f) - r * G| ≤ 2000 / 2 ^ 53 := by
    intro f F G hf hF hG
    have hfb : |f| ≤ 1.001 := by
      have e : f = F + (f - F) := by ring
      rw [e]
      refine (abs_add_le _ _).trans ((add_le_add hF hf).trans (by norm_num))
    have b1 : |(rho - r) * f| ≤ 1515 / 2 ^ 53 * 1.001 := by
      rw [abs_mul]; gcongr
    have b2 : |r * (f - F)| ≤ 1.58 * (17 / 2 ^ 53) := by
      rw [abs_mul, abs_of_nonneg r0]; gcongr
    have b3 : |r * F - r * G| ≤ 1.58 * (284 / 2 ^ 53) := by
      rw [← mul_sub, abs_mul, abs_of_nonneg r0]
      rw [← mul_sub, abs_mul, abs_of_nonneg hH0] at hG
      calc r * |F - G| ≤ (1.58 * hypot E N) * |F - G| := by gcongr
        _ = 1.58 * (hypot E N * |F - G|) := by ring
        _ ≤ _ := by gcongr
    have b4 : |rho * f - r * G| ≤ 1998 / 2 ^ 53 := by
      have e : rho * f - r * G = (rho - r) * f + r * (f - F) + (r * F - r * G) := by ring
      rw [e]
      refine (abs_add_le _ _).trans ((add_le_add ((abs_add_le _ _).trans (add_le_add b1 b2))
        b3).trans ?_)
      norm_num
    have b5 : |rho * f| ≤ 2 := by
      have hrho : |rho| ≤ 1.59 := by
        have h1 := abs_le.1 hr
        rw [abs_le]
        norm_num at h1 hr2 ⊢
        constructor <;> linarith
      rw [abs_mul]
      exact (mul_le_mul hrho hfb (abs_nonneg _) (by norm_num)).trans (by norm_num)
    exact next_error R b5 b4 (by norm_num)
  exact ⟨step _ _ _ (machine_cos hm hx (by norm_num)) (Real.abs_cos_le_one _) (c1.trans hw),
    step _ _ _ (machine_sin hm hx (by norm_num)) (Real.abs_sin_le_one _) (c2.trans hw)⟩

/-- **C157**, accuracy: for points at most 90 degrees apart, the real and the imaginary part of the
computed displacement are within `2000 * 2 ^ -53` (less than `2.3e-13`) of the exact ones. -/
theorem displacement_accurate (R : Rounding) {m : Libm} (hm : m.Accurate)
    {lon lat lon' lat' : ℝ} (hlat : |lat| ≤ 90) (hlat' : |lat'| ≤ 90) (hlon : |lon' - lon| ≤ 360)
    (hsep : 0 ≤ dot (unitVec lon lat) (unitVec lon' lat')) :
    |(displacementFl R.fl m lon lat lon' lat').1 - (displacement lon lat lon' lat').re| ≤
      2000 / 2 ^ 53 ∧
    |(displacementFl R.fl m lon lat lon' lat').2 - (displacement lon lat lon' lat').im| ≤
      2000 / 2 ^ 53 := by
  have hdot : dot (unitVec lon lat) (unitVec lon' lat') =
      Real.sin (rad lat) * Real.sin (rad lat') +
        Real.cos (rad lat) * Real.cos (rad lat') * Real.cos (rad (lon' - lon)) := by
    rw [← (dot_frame lon lat lon' lat').1]
    unfold dot; ring
  rw [hdot] at hsep
  have hsa := machine_sin hm (K := 12) (radians_error R hlat) (by norm_num)
  have hca := machine_cos hm (K := 12) (radians_error R hlat) (by norm_num)
  have hsb := machine_sin hm (K := 12) (radians_error R hlat') (by norm_num)
  have hcb := machine_cos hm (K := 12) (radians_error R hlat') (by norm_num)
  have hsg := machine_sin hm (K := 36) (radians_error_long R hlon) (by norm_num)
  have hcg := machine_cos hm (K := 36) (radians_error_long R hlon) (by norm_num)
  have hexact := displacement_fl_real lon lat lon' lat'
  have hre : (displacement lon lat lon' lat').re =
      (displacementFl id Libm.real lon lat lon' lat').1 := by rw [hexact]
  have him : (displacement lon lat lon' lat').im =
      (displacementFl id Libm.real lon lat lon' lat').2 := by rw [hexact]
  rw [hre, him]
  have hrad : ∀ x, radiansFl id x = rad x := fun x => by simp [radiansFl, rad]
  unfold displacementFl Libm.real
  simp only [hrad, id]
  generalize m.sin (radiansFl R.fl lat) = sa at *
  generalize m.cos (radiansFl R.fl lat) = ca at *
  generalize m.sin (radiansFl R.fl lat') = sb at *
  generalize m.cos (radiansFl R.fl lat') = cb at *
  generalize m.sin (radiansFl R.fl (R.fl (lon' - lon))) = sg at *
  generalize m.cos (radiansFl R.fl (R.fl (lon' - lon))) = cg at *
  have q1 := Real.sin_sq_add_cos_sq (rad lat)
  have q2 := Real.sin_sq_add_cos_sq (rad lat')
  have q3 := Real.sin_sq_add_cos_sq (rad (lon' - lon))
  have ba := And.intro (Real.abs_sin_le_one (rad lat)) (Real.abs_cos_le_one (rad lat))
  have bb := And.intro (Real.abs_sin_le_one (rad lat')) (Real.abs_cos_le_one (rad lat'))
  have bg := And.intro (Real.abs_sin_le_one (rad (lon' - lon)))
    (Real.abs_cos_le_one (rad (lon' - lon)))
  generalize Real.sin (rad lat) = sA at *
  generalize Real.cos (rad lat) = cA at *
  generalize Real.sin (rad lat') = sB at *
  generalize Real.cos (rad lat') = cB at *
  generalize Real.sin (rad (lon' - lon)) = sG at *
  generalize Real.cos (rad (lon' - lon)) = cG at *
  have pone : ∀ x y : ℝ, |x| ≤ 1 → |y| ≤ 1 → |x * y| ≤ 1 := by
    intro x y hx hy
    rw [abs_mul]; exact mul_le_one₀ hx (abs_nonneg _) hy
  -- the exact vector
  set E := cB * sG with hE
  set N := cA * sB - sA * cB * cG with hN
  set C := sA * sB + cA * cB * cG with hC
  have hsq : C ^ 2 + (E ^ 2 + N ^ 2) = 1 := by
    rw [hC, hE, hN]
    linear_combination (sB ^ 2 + cB ^ 2 * cG ^ 2) * q1 + cB ^ 2 * q3 + q2
  have hH0 : 0 ≤ hypot E N := hypot_nonneg _ _
  have hunit : hypot C (hypot E N) = 1 := hypot_eq_one (by rw [hypot_sq]; exact hsq)
  have hN1 : |N| ≤ 1 := (sq_le_one_iff_abs_le_one _).1 (by nlinarith [sq_nonneg C, sq_nonneg E])
  have hC1 : |C| ≤ 1 := (sq_le_one_iff_abs_le_one _).1 (by nlinarith [sq_nonneg N, sq_nonneg E])
  -- the rounded vector
  have hE' := prod_error R (K := 50) bb.2 bg.1 hcb hsg (by norm_num) (by norm_num) (by norm_num)
    (by norm_num) (by norm_num)
  have p1 := prod_error R (K := 26) ba.2 bb.1 hca hsb (by norm_num) (by norm_num) (by norm_num)
    (by norm_num) (by norm_num)
  have p2 := prod_error R (K := 26) ba.1 bb.2 hsa hcb (by norm_num) (by norm_num) (by norm_num)
    (by norm_num) (by norm_num)
  have p3 := prod_error R (K := 64) (pone _ _ ba.1 bb.2) bg.2 p2 hcg (by norm_num) (by norm_num)
    (by norm_num) (by norm_num) (by norm_num)
  have hN' := diff_error R (K := 92) hN1 p1 p3 (by norm_num) (by norm_num) (by norm_num)
  have p4 := prod_error R (K := 26) ba.1 bb.1 hsa hsb (by norm_num) (by norm_num) (by norm_num)
    (by norm_num) (by norm_num)
  have p5 := prod_error R (K := 26) ba.2 bb.2 hca hcb (by norm_num) (by norm_num) (by norm_num)
    (by norm_num) (by norm_num)
  have p6 := prod_error R (K := 64) (pone _ _ ba.2 bb.2) bg.2 p5 hcg (by norm_num) (by norm_num)
    (by norm_num) (by norm_num) (by norm_num)
  have hC' := sum_error R (K := 92) hC1 p4 p6 (by norm_num) (by norm_num) (by norm_num)
  change |_ - E| ≤ _ at hE'
  change |_ - N| ≤ _ at hN'
  change |_ - C| ≤ _ at hC'
  generalize R.fl (cb * sg) = E' at *
  generalize R.fl (R.fl (ca * sb) - R.fl (R.fl (sa * cb) * cg)) = N' at *
  generalize R.fl (R.fl (sa * sb) + R.fl (R.fl (ca * cb) * cg)) = C' at *
  clear_value E N C
  exact displacement_core R hm hsq hsep hE' hN' hC'

/-- The hypotheses are met by two points on the meridian zero. -/
theorem displacement_accurate_example :
    |(displacementFl double.fl (Libm.rounded double.fl) 0 0 0 60).1 - (displacement 0 0 0 60).re| ≤
      2000 / 2 ^ 53 := by
  refine (displacement_accurate double (Libm.rounded_accurate double) (by norm_num) (by norm_num)
    (by norm_num) ?_).1
  have e : rad 60 = Real.pi / 3 := by unfold rad; ring
  have e0 : rad 0 = 0 := by unfold rad; ring
  unfold dot unitVec
  simp only [Matrix.cons_val_zero, Matrix.cons_val_one, Matrix.cons_val, e, e0, Real.cos_zero,
    Real.sin_zero, Real.cos_pi_div_three]
  norm_num

end Glass.Points
