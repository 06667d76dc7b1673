import Mathlib.Analysis.Real.Pi.Bounds
import Verif.Points.SphereProps
import Verif.Shells.FloatGrid
import Verif.Galaxies.FloatSampling
import Verif.Shapes.FloatTriaxial
import Verif.Lensing.FloatPlanes

/-!
# Points on the sphere in floating point

`displace` and `deflect` with every operation rounded, and with elementary functions (sine, cosine,
`atan2`, `hypot`) that are themselves only accurate to a few units of rounding.
-/

namespace Glass.Points

open Glass.Spectra Glass.Shapes Glass.Lensing

/-! ## Model -/

/-- The elementary functions of the machine. -/
structure Libm where
  sin : ℝ → ℝ
  cos : ℝ → ℝ
  atan2 : ℝ → ℝ → ℝ
  hypot : ℝ → ℝ → ℝ

/-- The exact functions. -/
noncomputable def Libm.real : Libm := ⟨Real.sin, Real.cos, Points.atan2, Points.hypot⟩

/-- Correctly rounded functions. -/
noncomputable def Libm.rounded (fl : ℝ → ℝ) : Libm :=
  ⟨fun x => fl (Real.sin x), fun x => fl (Real.cos x), fun y x => fl (Points.atan2 y x),
    fun x y => fl (Points.hypot x y)⟩

/-- The common part of `displace` and `deflect` (`points.py:704-714`, `lensing.py:753-763`), with
every operation rounded: the pair of `d` and `tp`. -/
noncomputable def stepFl (fl : ℝ → ℝ) (m : Libm) (t alpha1 alpha2 : ℝ) : ℝ × ℝ :=
  let ct := m.sin t
  let st := m.cos t
  let a := m.hypot alpha1 alpha2
  let g := m.atan2 alpha2 alpha1
  let ca := m.cos a
  let sa := m.sin a
  let cg := m.cos g
  let sg := m.sin g
  let tp := m.atan2 (fl (fl (ct * ca) + fl (fl (st * sa) * cg)))
    (m.hypot (fl (fl (ct * sa) - fl (fl (st * ca) * cg))) (fl (st * sg)))
  let d := m.atan2 (fl (sa * sg)) (fl (fl (st * ca) - fl (fl (ct * sa) * cg)))
  (d, tp)

/-- `points.py:654-716` `displace` with every operation rounded; `math.pi` is `fl π`. -/
noncomputable def displaceFl (fl : ℝ → ℝ) (m : Libm) (lon lat alpha1 alpha2 : ℝ) : ℝ × ℝ :=
  let t := fl (fl (lat / 180) * fl Real.pi)
  let (d, tp) := stepFl fl m t alpha1 alpha2
  (fl (lon + fl (fl (d / fl Real.pi) * 180)), fl (fl (tp / fl Real.pi) * 180))

/-- `numpy.radians`: the product with the constant `π / 180`. -/
noncomputable def radiansFl (fl : ℝ → ℝ) (x : ℝ) : ℝ := fl (x * fl (fl Real.pi / 180))

/-- `numpy.degrees`: the product with the constant `180 / π`. -/
noncomputable def degreesFl (fl : ℝ → ℝ) (x : ℝ) : ℝ := fl (x * fl (180 / fl Real.pi))

/-- `lensing.py:687-765` `deflect` with every operation rounded. -/
noncomputable def deflectFl (fl : ℝ → ℝ) (m : Libm) (lon lat alpha1 alpha2 : ℝ) : ℝ × ℝ :=
  let (d, tp) := stepFl fl m (radiansFl fl lat) alpha1 alpha2
  (fl (lon - degreesFl fl d), degreesFl fl tp)

/-- Without rounding, these are the functions of the model. -/
theorem displace_fl_real (lon lat alpha1 alpha2 : ℝ) :
    displaceFl id Libm.real lon lat alpha1 alpha2 = displace lon lat alpha1 alpha2 := by rfl

theorem deflect_fl_real (lon lat alpha1 alpha2 : ℝ) :
    deflectFl id Libm.real lon lat alpha1 alpha2 = deflect lon lat alpha1 alpha2 := by
  have h1 : ∀ x, radiansFl id x = radians x := fun x => by simp [radiansFl, radians]; ring
  have h2 : ∀ x, degreesFl id x = degrees x := fun x => by simp [degreesFl, degrees]; ring
  unfold deflectFl deflect
  simp only [h1, h2]
  rfl

/-- The accuracy asked of the elementary functions: four units of rounding. -/
structure Libm.Accurate (m : Libm) : Prop where
  sin : ∀ x, |m.sin x - Real.sin x| ≤ 4 / 2 ^ 53
  cos : ∀ x, |m.cos x - Real.cos x| ≤ 4 / 2 ^ 53
  atan2 : ∀ y x, |m.atan2 y x - Points.atan2 y x| ≤ 4 / 2 ^ 53 * |Points.atan2 y x|
  hypot : ∀ x y, |m.hypot x y - Points.hypot x y| ≤ 4 / 2 ^ 53 * Points.hypot x y

theorem Libm.rounded_accurate (R : Rounding) : (Libm.rounded R.fl).Accurate := by
  have key : ∀ x : ℝ, |x| / 2 ^ 53 ≤ 4 / 2 ^ 53 * |x| := by
    intro x
    have := abs_nonneg x
    have : (0 : ℝ) ≤ |x| / 2 ^ 53 := by positivity
    have e : 4 / 2 ^ 53 * |x| = 4 * (|x| / 2 ^ 53) := by ring
    linarith
  refine ⟨fun x => ?_, fun x => ?_, fun y x => (R.error _).trans (key _), fun x y => ?_⟩
  · refine (R.error _).trans ?_
    have := Real.abs_sin_le_one x
    gcongr; linarith
  · refine (R.error _).trans ?_
    have := Real.abs_cos_le_one x
    gcongr; linarith
  · refine (R.error _).trans ((key _).trans ?_)
    rw [abs_of_nonneg (hypot_nonneg x y)]

/-! ## Helpers -/

theorem abs_sin_le (x : ℝ) : |Real.sin x| ≤ |x| := Real.abs_sin_le_abs

theorem cos_lipschitz (x y : ℝ) : |Real.cos x - Real.cos y| ≤ |x - y| := by
  rw [Real.cos_sub_cos, abs_mul, abs_mul]
  have h1 := Real.abs_sin_le_one ((x + y) / 2)
  have h2 := abs_sin_le ((x - y) / 2)
  rw [abs_div, abs_two] at h2
  have h3 := abs_nonneg (Real.sin ((x - y) / 2))
  have h4 := abs_nonneg (Real.sin ((x + y) / 2))
  rw [abs_neg, abs_two]
  nlinarith

theorem sin_lipschitz (x y : ℝ) : |Real.sin x - Real.sin y| ≤ |x - y| := by
  rw [Real.sin_sub_sin, abs_mul, abs_mul]
  have h1 := Real.abs_cos_le_one ((x + y) / 2)
  have h2 := abs_sin_le ((x - y) / 2)
  rw [abs_div, abs_two] at h2
  have h3 := abs_nonneg (Real.sin ((x - y) / 2))
  have h4 := abs_nonneg (Real.cos ((x + y) / 2))
  rw [abs_two]
  nlinarith

theorem hypot_lipschitz (x y x' y' : ℝ) :
    |hypot x y - hypot x' y'| ≤ |x - x'| + |y - y'| := by
  rw [hypot_eq_norm, hypot_eq_norm]
  refine (abs_norm_sub_norm_le _ _).trans ((Complex.norm_le_abs_re_add_abs_im _).trans ?_)
  simp

/-- A product of numbers with small errors. -/
theorem prod_error (R : Rounding) {p p' q q' k m K : ℝ} (hp' : |p'| ≤ 1) (hq' : |q'| ≤ 1)
    (hp : |p - p'| ≤ k / 2 ^ 53) (hq : |q - q'| ≤ m / 2 ^ 53) (hk : 0 ≤ k) (hm : 0 ≤ m)
    (hk1 : k ≤ 1000) (hm1 : m ≤ 1000) (hK : k + m + 2 ≤ K) :
    |R.fl (p * q) - p' * q'| ≤ K / 2 ^ 53 := by
  have hpb : |p| ≤ 1 + k / 2 ^ 53 := by
    have : p = p' + (p - p') := by ring
    rw [this]; exact (abs_add_le _ _).trans (add_le_add hp' hp)
  have hqb : |q| ≤ 1 + m / 2 ^ 53 := by
    have : q = q' + (q - q') := by ring
    rw [this]; exact (abs_add_le _ _).trans (add_le_add hq' hq)
  have h1 := product_error hpb hq' hp hq
  have h2 : |p * q| ≤ (1 + k / 2 ^ 53) * (1 + m / 2 ^ 53) := by
    rw [abs_mul]
    exact mul_le_mul hpb hqb (abs_nonneg _) (by positivity)
  refine next_error R h2 h1 ?_
  have hkm : k * m ≤ 1000000 := by nlinarith
  have hkm0 : 0 ≤ k * m := by positivity
  refine le_trans ?_ (div_le_div_of_nonneg_right hK (by positivity))
  rw [← sub_nonneg]
  have e : (k + m + 2) / 2 ^ 53 - ((1 + k / 2 ^ 53) * (1 + m / 2 ^ 53) / 2 ^ 53 +
      ((1 + k / 2 ^ 53) * (m / 2 ^ 53) + k / 2 ^ 53 * 1)) =
      (1 - (k + m + k * m) / 2 ^ 53 - k * m / 2 ^ 53 / 2 ^ 53) / 2 ^ 53 := by ring
  rw [e]
  have h3 : (k + m + k * m) / 2 ^ 53 ≤ 1 / 4 := by
    rw [div_le_iff₀ (by positivity)]; norm_num; linarith
  have h4 : k * m / 2 ^ 53 / 2 ^ 53 ≤ 1 / 4 := by
    rw [div_le_iff₀ (by positivity), div_le_iff₀ (by positivity)]; norm_num; linarith
  apply div_nonneg _ (by positivity)
  linarith

/-- A sum of numbers with small errors. -/
theorem sum_error (R : Rounding) {p p' q q' k m K : ℝ} (h' : |p' + q'| ≤ 1)
    (hp : |p - p'| ≤ k / 2 ^ 53) (hq : |q - q'| ≤ m / 2 ^ 53)
    (hk1 : k ≤ 1000) (hm1 : m ≤ 1000) (hK : k + m + 2 ≤ K) :
    |R.fl (p + q) - (p' + q')| ≤ K / 2 ^ 53 := by
  have h1 : |p + q - (p' + q')| ≤ (k + m) / 2 ^ 53 := by
    have e : p + q - (p' + q') = (p - p') + (q - q') := by ring
    rw [e, add_div]
    exact (abs_add_le _ _).trans (add_le_add hp hq)
  have h2 : |p + q| ≤ 2 := by
    have e : p + q = (p' + q') + (p + q - (p' + q')) := by ring
    rw [e]
    refine (abs_add_le _ _).trans ?_
    have : (k + m) / 2 ^ 53 ≤ 1 := by
      rw [div_le_iff₀ (by positivity)]; norm_num; linarith
    linarith
  refine next_error R h2 h1 ?_
  rw [← add_div]
  gcongr
  linarith

theorem diff_error (R : Rounding) {p p' q q' k m K : ℝ} (h' : |p' - q'| ≤ 1)
    (hp : |p - p'| ≤ k / 2 ^ 53) (hq : |q - q'| ≤ m / 2 ^ 53)
    (hk1 : k ≤ 1000) (hm1 : m ≤ 1000) (hK : k + m + 2 ≤ K) :
    |R.fl (p - q) - (p' - q')| ≤ K / 2 ^ 53 := by
  rw [sub_eq_add_neg p q, sub_eq_add_neg p' q'] at *
  refine sum_error R h' hp ?_ hk1 hm1 hK
  rwa [show -q - -q' = -(q - q') by ring, abs_neg]

/-- Two directions in the plane: the error of the angle, weighted with the length. -/
theorem direction_error (L : ℝ) (y x y' x' : ℝ) :
    |hypot x' y' * Real.cos (L + atan2 y x) - hypot x' y' * Real.cos (L + atan2 y' x')| ≤
        2 * (|x - x'| + |y - y'|) ∧
      |hypot x' y' * Real.sin (L + atan2 y x) - hypot x' y' * Real.sin (L + atan2 y' x')| ≤
        2 * (|x - x'| + |y - y'|) := by
  set v : ℂ := ⟨x, y⟩ with hv
  set w : ℂ := ⟨x', y'⟩ with hw
  have hd : ‖v - w‖ ≤ |x - x'| + |y - y'| := by
    refine (Complex.norm_le_abs_re_add_abs_im _).trans ?_
    simp [hv, hw]
  have hE : ∀ z : ℂ, (‖z‖ : ℂ) * Complex.exp (z.arg * Complex.I) = z := Complex.norm_mul_exp_arg_mul_I
  have key : ‖(‖w‖ : ℂ) * Complex.exp (((L + v.arg : ℝ) : ℂ) * Complex.I) -
      (‖w‖ : ℂ) * Complex.exp (((L + w.arg : ℝ) : ℂ) * Complex.I)‖ ≤ 2 * ‖v - w‖ := by
    have e : (‖w‖ : ℂ) * Complex.exp (((L + v.arg : ℝ) : ℂ) * Complex.I) -
        (‖w‖ : ℂ) * Complex.exp (((L + w.arg : ℝ) : ℂ) * Complex.I) =
        Complex.exp ((L : ℂ) * Complex.I) * ((((‖w‖ - ‖v‖ : ℝ) : ℂ)) *
          Complex.exp ((v.arg : ℂ) * Complex.I) + (v - w)) := by
      have h1 := hE v
      have h2 := hE w
      push_cast
      rw [add_mul, add_mul, Complex.exp_add, Complex.exp_add]
      linear_combination Complex.exp ((L : ℂ) * Complex.I) * h1 -
        Complex.exp ((L : ℂ) * Complex.I) * h2
    rw [e, norm_mul, Complex.norm_exp_ofReal_mul_I, one_mul]
    refine (norm_add_le _ _).trans ?_
    rw [norm_mul, Complex.norm_exp_ofReal_mul_I, mul_one, Complex.norm_real, Real.norm_eq_abs]
    have := abs_norm_sub_norm_le w v
    rw [norm_sub_rev w v] at this
    linarith
  rw [hypot_eq_norm]
  have r1 := (Complex.abs_re_le_norm _).trans (key.trans (mul_le_mul_of_nonneg_left hd (by norm_num)))
  have r2 := (Complex.abs_im_le_norm _).trans (key.trans (mul_le_mul_of_nonneg_left hd (by norm_num)))
  rw [Complex.sub_re, Complex.re_ofReal_mul, Complex.re_ofReal_mul, Complex.exp_ofReal_mul_I_re,
    Complex.exp_ofReal_mul_I_re] at r1
  rw [Complex.sub_im, Complex.im_ofReal_mul, Complex.im_ofReal_mul, Complex.exp_ofReal_mul_I_im,
    Complex.exp_ofReal_mul_I_im] at r2
  exact ⟨r1, r2⟩

theorem machine_sin {m : Libm} (hm : m.Accurate) {x x' k K : ℝ} (h : |x - x'| ≤ k / 2 ^ 53)
    (hK : k + 4 ≤ K) : |m.sin x - Real.sin x'| ≤ K / 2 ^ 53 := by
  have e : m.sin x - Real.sin x' = (m.sin x - Real.sin x) + (Real.sin x - Real.sin x') := by ring
  rw [e]
  refine (abs_add_le _ _).trans ((add_le_add (hm.sin x) ((sin_lipschitz _ _).trans h)).trans ?_)
  rw [← add_div]; gcongr; linarith

theorem machine_cos {m : Libm} (hm : m.Accurate) {x x' k K : ℝ} (h : |x - x'| ≤ k / 2 ^ 53)
    (hK : k + 4 ≤ K) : |m.cos x - Real.cos x'| ≤ K / 2 ^ 53 := by
  have e : m.cos x - Real.cos x' = (m.cos x - Real.cos x) + (Real.cos x - Real.cos x') := by ring
  rw [e]
  refine (abs_add_le _ _).trans ((add_le_add (hm.cos x) ((cos_lipschitz _ _).trans h)).trans ?_)
  rw [← add_div]; gcongr; linarith

theorem machine_atan2 {m : Libm} (hm : m.Accurate) (y x : ℝ) :
    |m.atan2 y x - atan2 y x| ≤ 13 / 2 ^ 53 := by
  refine (hm.atan2 y x).trans ?_
  have h : |atan2 y x| ≤ Real.pi := Complex.abs_arg_le_pi _
  have := Real.pi_lt_d2
  rw [div_mul_eq_mul_div]
  gcongr
  linarith

theorem abs_le_hypot (x y : ℝ) : |x| ≤ hypot x y := by
  rw [hypot_eq_norm]; exact Complex.abs_re_le_norm ⟨x, y⟩

/-- The angles of the common part against the exact ones. -/
theorem step_error (R : Rounding) {m : Libm} (hm : m.Accurate) {t T alpha1 alpha2 : ℝ}
    (ht : |t - T| ≤ 8 / 2 ^ 53) (ha : hypot alpha1 alpha2 ≤ 4) :
    let a := hypot alpha1 alpha2
    let g := atan2 alpha2 alpha1
    let S := Real.sin T * Real.cos a + Real.cos T * Real.sin a * Real.cos g
    let H := hypot (Real.sin T * Real.sin a - Real.cos T * Real.cos a * Real.cos g)
      (Real.cos T * Real.sin g)
    let d := atan2 (Real.sin a * Real.sin g)
      (Real.cos T * Real.cos a - Real.sin T * Real.sin a * Real.cos g)
    |Real.cos (stepFl R.fl m t alpha1 alpha2).2 - H| ≤ 441 / 2 ^ 53 ∧
    |Real.sin (stepFl R.fl m t alpha1 alpha2).2 - S| ≤ 441 / 2 ^ 53 ∧
    (∀ L, |H * Real.cos (L + (stepFl R.fl m t alpha1 alpha2).1) - H * Real.cos (L + d)| ≤
      269 / 2 ^ 53 ∧
      |H * Real.sin (L + (stepFl R.fl m t alpha1 alpha2).1) - H * Real.sin (L + d)| ≤
      269 / 2 ^ 53) ∧
    |(stepFl R.fl m t alpha1 alpha2).1| ≤ 3.15 ∧ |(stepFl R.fl m t alpha1 alpha2).2| ≤ 3.15 := by
  intro a g S H d
  obtain ⟨e1, e2, e3, e4⟩ := spherical_step T a g
  change Real.sin (atan2 S H) = S at e1
  change Real.cos (atan2 S H) = H at e2
  have hH0 : 0 ≤ H := hypot_nonneg _ _
  have hH1 : H ≤ 1 := e2 ▸ Real.cos_le_one _
  have hS1 : |S| ≤ 1 := e1 ▸ Real.abs_sin_le_one _
  have hSH : hypot H S = 1 := hypot_eq_one (by
    have := Real.cos_sq_add_sin_sq (atan2 S H)
    rwa [e1, e2] at this)
  have one : ∀ x y : ℝ, |Real.sin x| ≤ 1 ∧ |Real.cos y| ≤ 1 :=
    fun x y => ⟨Real.abs_sin_le_one x, Real.abs_cos_le_one y⟩
  have pone : ∀ x y : ℝ, |x| ≤ 1 → |y| ≤ 1 → |x * y| ≤ 1 := by
    intro x y hx hy
    rw [abs_mul]; exact mul_le_one₀ hx (abs_nonneg _) hy
  have hct : |m.sin t - Real.sin T| ≤ 12 / 2 ^ 53 := machine_sin hm ht (by norm_num)
  have hst : |m.cos t - Real.cos T| ≤ 12 / 2 ^ 53 := machine_cos hm ht (by norm_num)
  have ha' : |m.hypot alpha1 alpha2 - a| ≤ 16 / 2 ^ 53 := by
    refine (hm.hypot _ _).trans ?_
    rw [div_mul_eq_mul_div]
    gcongr
    linarith
  have hg' := machine_atan2 hm alpha2 alpha1
  have hca := machine_cos hm (K := 20) ha' (by norm_num)
  have hsa := machine_sin hm (K := 20) ha' (by norm_num)
  have hcg := machine_cos hm (K := 17) hg' (by norm_num)
  have hsg := machine_sin hm (K := 17) hg' (by norm_num)
  unfold stepFl
  dsimp only
  change |m.cos (m.atan2 alpha2 alpha1) - Real.cos g| ≤ _ at hcg
  change |m.sin (m.atan2 alpha2 alpha1) - Real.sin g| ≤ _ at hsg
  generalize m.sin t = ct at *
  generalize m.cos t = st at *
  generalize m.cos (m.hypot alpha1 alpha2) = ca at *
  generalize m.sin (m.hypot alpha1 alpha2) = sa at *
  generalize m.cos (m.atan2 alpha2 alpha1) = cg at *
  generalize m.sin (m.atan2 alpha2 alpha1) = sg at *
  have bT := one T T
  have ba := one a a
  have bg := one g g
  -- the rounded arguments
  have p1 := prod_error R (K := 34) bT.1 ba.2 hct hca (by norm_num) (by norm_num) (by norm_num)
    (by norm_num) (by norm_num)
  have p2 := prod_error R (K := 34) bT.2 ba.1 hst hsa (by norm_num) (by norm_num) (by norm_num)
    (by norm_num) (by norm_num)
  have p3 := prod_error R (K := 53) (pone _ _ bT.2 ba.1) bg.2 p2 hcg (by norm_num) (by norm_num)
    (by norm_num) (by norm_num) (by norm_num)
  have hY := sum_error R (K := 89) hS1 p1 p3 (by norm_num) (by norm_num) (by norm_num)
  have p4 := prod_error R (K := 34) bT.1 ba.1 hct hsa (by norm_num) (by norm_num) (by norm_num)
    (by norm_num) (by norm_num)
  have p5 := prod_error R (K := 34) bT.2 ba.2 hst hca (by norm_num) (by norm_num) (by norm_num)
    (by norm_num) (by norm_num)
  have p6 := prod_error R (K := 53) (pone _ _ bT.2 ba.2) bg.2 p5 hcg (by norm_num) (by norm_num)
    (by norm_num) (by norm_num) (by norm_num)
  have hX1 := diff_error R (K := 89) ((abs_le_hypot _ _).trans hH1) p4 p6 (by norm_num)
    (by norm_num) (by norm_num)
  have hX2 := prod_error R (K := 31) bT.2 bg.1 hst hsg (by norm_num) (by norm_num) (by norm_num)
    (by norm_num) (by norm_num)
  have p7 := prod_error R (K := 53) (pone _ _ bT.1 ba.1) bg.2 p4 hcg (by norm_num) (by norm_num)
    (by norm_num) (by norm_num) (by norm_num)
  have hw1 : |Real.cos T * Real.cos a - Real.sin T * Real.sin a * Real.cos g| ≤ 1 := by
    rw [← e3]
    exact pone _ _ (by rw [abs_of_nonneg (hypot_nonneg _ _)]; exact hH1) (Real.abs_cos_le_one _)
  have hW := diff_error R (K := 89) hw1 p5 p7 (by norm_num) (by norm_num) (by norm_num)
  have hV := prod_error R (K := 39) ba.1 bg.1 hsa hsg (by norm_num) (by norm_num) (by norm_num)
    (by norm_num) (by norm_num)
  generalize R.fl (R.fl (ct * ca) + R.fl (R.fl (st * sa) * cg)) = Y at *
  generalize R.fl (R.fl (ct * sa) - R.fl (R.fl (st * ca) * cg)) = X1 at *
  generalize R.fl (st * sg) = X2 at *
  generalize R.fl (R.fl (st * ca) - R.fl (R.fl (ct * sa) * cg)) = W at *
  generalize R.fl (sa * sg) = V at *
  have hh : |hypot X1 X2 - H| ≤ 120 / 2 ^ 53 := by
    refine (hypot_lipschitz _ _ _ _).trans ((add_le_add hX1 hX2).trans ?_)
    rw [← add_div]; norm_num
  have hX : |m.hypot X1 X2 - H| ≤ 125 / 2 ^ 53 := by
    have h1 := hm.hypot X1 X2
    have h2 : hypot X1 X2 ≤ 5 / 4 := by
      have := (abs_le.1 hh).2
      have : (120 / 2 ^ 53 : ℝ) ≤ 1 / 4 := by norm_num
      linarith
    have e : m.hypot X1 X2 - H = (m.hypot X1 X2 - hypot X1 X2) + (hypot X1 X2 - H) := by ring
    rw [e]
    refine (abs_add_le _ _).trans ((add_le_add h1 hh).trans ?_)
    rw [div_mul_eq_mul_div, ← add_div]
    gcongr
    linarith
  have hpi : ∀ y x, |m.atan2 y x| ≤ 3.15 := by
    intro y x
    have h1 := machine_atan2 hm y x
    have h2 : |atan2 y x| ≤ Real.pi := Complex.abs_arg_le_pi _
    have h3 := Real.pi_lt_d4
    have e : m.atan2 y x = atan2 y x + (m.atan2 y x - atan2 y x) := by ring
    rw [e]
    refine (abs_add_le _ _).trans ((add_le_add h2 h1).trans ?_)
    have : (13 / 2 ^ 53 : ℝ) ≤ 1 / 1000 := by norm_num
    norm_num at h3 ⊢
    linarith
  obtain ⟨q1, q2⟩ := direction_error 0 Y (m.hypot X1 X2) S H
  rw [hSH, one_mul, one_mul, zero_add, zero_add, e2] at q1
  rw [hSH, one_mul, one_mul, zero_add, zero_add, e1] at q2
  have hq : 2 * (|m.hypot X1 X2 - H| + |Y - S|) ≤ 428 / 2 ^ 53 := by
    have : (428 / 2 ^ 53 : ℝ) = 2 * (125 / 2 ^ 53 + 89 / 2 ^ 53) := by norm_num
    rw [this]
    gcongr
  have hr : 2 * (|W - (Real.cos T * Real.cos a - Real.sin T * Real.sin a * Real.cos g)| +
      |V - Real.sin a * Real.sin g|) ≤ 256 / 2 ^ 53 := by
    have : (256 / 2 ^ 53 : ℝ) = 2 * (89 / 2 ^ 53 + 39 / 2 ^ 53) := by norm_num
    rw [this]
    gcongr
  have a1 := machine_atan2 hm Y (m.hypot X1 X2)
  have a2 := machine_atan2 hm V W
  have add3 : ∀ {x y z p q r : ℝ}, |x - y| ≤ p → |y - z| ≤ q → p + q ≤ r → |x - z| ≤ r := by
    intro x y z p q r h1 h2 h3
    have e : x - z = (x - y) + (y - z) := by ring
    rw [e]
    exact (abs_add_le _ _).trans ((add_le_add h1 h2).trans h3)
  have hwH : hypot (Real.cos T * Real.cos a - Real.sin T * Real.sin a * Real.cos g)
      (Real.sin a * Real.sin g) = H := by
    have h1 := Real.cos_sq_add_sin_sq d
    change H * Real.cos d = _ at e3
    change H * Real.sin d = _ at e4
    have h2 : (Real.cos T * Real.cos a - Real.sin T * Real.sin a * Real.cos g) ^ 2 +
        (Real.sin a * Real.sin g) ^ 2 = H ^ 2 := by
      rw [← e3, ← e4]
      linear_combination H ^ 2 * h1
    change Real.sqrt _ = _
    rw [h2]
    exact Real.sqrt_sq hH0
  refine ⟨add3 ((cos_lipschitz _ _).trans a1) (q1.trans hq) (by rw [← add_div]; norm_num),
    add3 ((sin_lipschitz _ _).trans a1) (q2.trans hq) (by rw [← add_div]; norm_num),
    fun L => ?_, hpi _ _, hpi _ _⟩
  obtain ⟨r1, r2⟩ := direction_error L V W (Real.sin a * Real.sin g)
    (Real.cos T * Real.cos a - Real.sin T * Real.sin a * Real.cos g)
  rw [hwH] at r1 r2
  have hscale : ∀ x y : ℝ, |x - y| ≤ 13 / 2 ^ 53 → |H * x - H * y| ≤ 13 / 2 ^ 53 := by
    intro x y h
    rw [← mul_sub, abs_mul, abs_of_nonneg hH0]
    exact (mul_le_of_le_one_left (abs_nonneg _) hH1).trans h
  constructor
  · refine add3 (hscale _ (Real.cos (L + atan2 V W)) ((cos_lipschitz _ _).trans ?_)) (r1.trans hr)
      (by rw [← add_div]; norm_num)
    rwa [add_sub_add_left_eq_sub]
  · refine add3 (hscale _ (Real.sin (L + atan2 V W)) ((sin_lipschitz _ _).trans ?_)) (r2.trans hr)
      (by rw [← add_div]; norm_num)
    rwa [add_sub_add_left_eq_sub]

/-- Three relative errors are less than four units of rounding. -/
theorem Rel.three {x y : ℝ} (h : Rel 3 x y) : |y - x| ≤ 4 / 2 ^ 53 * |x| :=
  h.error (by norm_num) (by norm_num)

theorem rad_error {D x : ℝ} (h : |D - x / Real.pi * 180| ≤ 4 / 2 ^ 53 * |x / Real.pi * 180|) :
    |rad D - x| ≤ 4 / 2 ^ 53 * |x| := by
  have hp := Real.pi_pos
  have e : rad D - x = (D - x / Real.pi * 180) * (Real.pi / 180) := by
    unfold rad; field_simp
  have e' : |x| = |x / Real.pi * 180| * (Real.pi / 180) := by
    rw [abs_mul, abs_div, abs_of_pos hp]; norm_num; field_simp
  rw [e, abs_mul, abs_of_pos (show 0 < Real.pi / 180 by positivity), e', ← mul_assoc]
  gcongr

/-- The latitude and the change of the longitude, in radians. -/
theorem angle_error {D x : ℝ} (h : |D - x / Real.pi * 180| ≤ 4 / 2 ^ 53 * |x / Real.pi * 180|)
    (hx : |x| ≤ 3.15) : |rad D - x| ≤ 13 / 2 ^ 53 ∧ |D| ≤ 181 := by
  constructor
  · refine (rad_error h).trans ?_
    rw [div_mul_eq_mul_div]
    gcongr
    norm_num at hx ⊢
    linarith
  · have h1 : |x / Real.pi * 180| ≤ 180.6 := by
      rw [abs_mul, abs_div, abs_of_pos Real.pi_pos, abs_of_pos (by norm_num : (0:ℝ) < 180),
        div_mul_eq_mul_div, div_le_iff₀ Real.pi_pos]
      have := Real.pi_gt_d4
      norm_num at this hx ⊢
      linarith
    have e : D = x / Real.pi * 180 + (D - x / Real.pi * 180) := by ring
    rw [e]
    refine (abs_add_le _ _).trans ((add_le_add h1 h).trans ?_)
    have : 4 / 2 ^ 53 * |x / Real.pi * 180| ≤ 4 / 2 ^ 53 * 180.6 := by gcongr
    norm_num at this ⊢
    linarith

/-- The new longitude, in radians. -/
theorem longitude_error (R : Rounding) {lon D x : ℝ} (hlon : |lon| ≤ 360)
    (h1 : |rad D - x| ≤ 13 / 2 ^ 53) (h2 : |D| ≤ 181) :
    |rad (R.fl (lon + D)) - (rad lon + x)| ≤ 23 / 2 ^ 53 := by
  have h3 : |lon + D| ≤ 541 := (abs_add_le _ _).trans (by linarith)
  have h4 := fl_error R h3
  have e : rad (R.fl (lon + D)) - (rad lon + x) =
      (R.fl (lon + D) - (lon + D)) * (Real.pi / 180) + (rad D - x) := by
    unfold rad; ring
  have hp := Real.pi_pos
  have hp' := Real.pi_lt_d2
  rw [e]
  refine (abs_add_le _ _).trans ?_
  rw [abs_mul, abs_of_pos (show 0 < Real.pi / 180 by positivity)]
  have h5 : |R.fl (lon + D) - (lon + D)| * (Real.pi / 180) ≤ 541 / 2 ^ 53 * (3.15 / 180) := by
    gcongr
  norm_num at h5 h1 ⊢
  linarith

theorem latitude_rad {lat : ℝ} (h : |lat| ≤ 90) : |rad lat| ≤ 2 := by
  unfold rad
  have hp := Real.pi_pos
  have hp' := Real.pi_lt_d2
  rw [abs_mul, abs_of_pos (show 0 < Real.pi / 180 by positivity)]
  have := abs_nonneg lat
  norm_num at hp'
  nlinarith

/-- The unit vector from the errors of the angles. -/
theorem assemble {c phi lam H S L e d : ℝ} (hH0 : 0 ≤ H) (hH1 : H ≤ 1)
    (h1 : |Real.cos e - H| ≤ 441 / 2 ^ 53) (h2 : |Real.sin e - S| ≤ 441 / 2 ^ 53)
    (h3 : |H * Real.cos (L + c) - H * Real.cos (L + d)| ≤ 269 / 2 ^ 53)
    (h4 : |H * Real.sin (L + c) - H * Real.sin (L + d)| ≤ 269 / 2 ^ 53)
    (hphi : |phi - e| ≤ 13 / 2 ^ 53) (hlam : |lam - (L + c)| ≤ 23 / 2 ^ 53) :
    |Real.cos phi * Real.cos lam - H * Real.cos (L + d)| ≤ 750 / 2 ^ 53 ∧
    |Real.cos phi * Real.sin lam - H * Real.sin (L + d)| ≤ 750 / 2 ^ 53 ∧
    |Real.sin phi - S| ≤ 750 / 2 ^ 53 := by
  have g1 : |Real.cos phi - H| ≤ 454 / 2 ^ 53 := by
    have a1 := abs_le.1 ((cos_lipschitz phi e).trans hphi)
    have a2 := abs_le.1 h1
    rw [abs_le]; norm_num at a1 a2 ⊢
    constructor <;> linarith
  have step : ∀ f F G : ℝ, |f| ≤ 1 → |f - F| ≤ 23 / 2 ^ 53 → |H * F - H * G| ≤ 269 / 2 ^ 53 →
      |Real.cos phi * f - H * G| ≤ 750 / 2 ^ 53 := by
    intro f F G hf hF hG
    have e' : Real.cos phi * f - H * G =
        (Real.cos phi - H) * f + H * (f - F) + (H * F - H * G) := by ring
    rw [e']
    have b1 : |(Real.cos phi - H) * f| ≤ 454 / 2 ^ 53 := by
      rw [abs_mul]; exact (mul_le_of_le_one_right (abs_nonneg _) hf).trans g1
    have b2 : |H * (f - F)| ≤ 23 / 2 ^ 53 := by
      rw [abs_mul, abs_of_nonneg hH0]; exact (mul_le_of_le_one_left (abs_nonneg _) hH1).trans hF
    refine (abs_add_le _ _).trans ((add_le_add ((abs_add_le _ _).trans (add_le_add b1 b2)) hG).trans ?_)
    norm_num
  refine ⟨step _ _ _ (Real.abs_cos_le_one _) ((cos_lipschitz _ _).trans hlam) h3,
    step _ _ _ (Real.abs_sin_le_one _) ((sin_lipschitz _ _).trans hlam) h4, ?_⟩
  have a1 := abs_le.1 ((sin_lipschitz phi e).trans hphi)
  have a2 := abs_le.1 h2
  rw [abs_le]; norm_num at a1 a2 ⊢
  constructor <;> linarith

/-! ## C156: accuracy -/

/-- **C156**, accuracy of `displace`: the computed position is within `750 * 2 ^ -53` (less than
`1e-13`) of the exact position in every coordinate of the unit vector, everywhere on the sphere,
the neighbourhood of the poles included. -/
theorem displace_accurate (R : Rounding) {m : Libm} (hm : m.Accurate) {lon lat alpha1 alpha2 : ℝ}
    (hlon : |lon| ≤ 360) (hlat : |lat| ≤ 90) (ha : hypot alpha1 alpha2 ≤ 4) (i : Fin 3) :
    |unitVec (displaceFl R.fl m lon lat alpha1 alpha2).1
        (displaceFl R.fl m lon lat alpha1 alpha2).2 i -
      unitVec (displace lon lat alpha1 alpha2).1 (displace lon lat alpha1 alpha2).2 i| ≤
      750 / 2 ^ 53 := by
  have ht : |R.fl (R.fl (lat / 180) * R.fl Real.pi) - rad lat| ≤ 8 / 2 ^ 53 := by
    have h : Rel 3 (lat / 180 * Real.pi) (R.fl (R.fl (lat / 180) * R.fl Real.pi)) :=
      ((Rel.fl R _).mul (Rel.fl R _)).round R
    rw [rad_lat] at h
    refine (Rel.three h).trans ?_
    have := latitude_rad hlat
    rw [div_mul_eq_mul_div]
    gcongr
    linarith
  have conv : ∀ x, |R.fl (R.fl (x / R.fl Real.pi) * 180) - x / Real.pi * 180| ≤
      4 / 2 ^ 53 * |x / Real.pi * 180| := fun x =>
    Rel.three ((((Rel.refl x).div (Rel.fl R Real.pi)).round R).mul (Rel.refl 180) |>.round R)
  obtain ⟨s1, s2, s3, s4, s5⟩ := step_error R hm ht ha
  obtain ⟨e1, e2, e3, e4⟩ := spherical_step (rad lat) (hypot alpha1 alpha2) (atan2 alpha2 alpha1)
  have hd := angle_error (conv _) s4
  have htp := angle_error (conv _) s5
  have hl := longitude_error R hlon hd.1 hd.2
  have hH0 := hypot_nonneg (Real.sin (rad lat) * Real.sin (hypot alpha1 alpha2) -
    Real.cos (rad lat) * Real.cos (hypot alpha1 alpha2) * Real.cos (atan2 alpha2 alpha1))
    (Real.cos (rad lat) * Real.sin (atan2 alpha2 alpha1))
  have hH1 := e2 ▸ Real.cos_le_one _
  obtain ⟨r1, r2, r3⟩ := assemble hH0 hH1 s1 s2 (s3 (rad lon)).1 (s3 (rad lon)).2 htp.1 hl
  have hlat' : rad (displace lon lat alpha1 alpha2).2 = atan2
      (Real.sin (rad lat) * Real.cos (hypot alpha1 alpha2) + Real.cos (rad lat) *
        Real.sin (hypot alpha1 alpha2) * Real.cos (atan2 alpha2 alpha1))
      (hypot (Real.sin (rad lat) * Real.sin (hypot alpha1 alpha2) -
        Real.cos (rad lat) * Real.cos (hypot alpha1 alpha2) * Real.cos (atan2 alpha2 alpha1))
        (Real.cos (rad lat) * Real.sin (atan2 alpha2 alpha1))) := by
    simp only [displace, rad_back, rad_lat]
  have hlon' : rad (displace lon lat alpha1 alpha2).1 = rad lon + atan2
      (Real.sin (hypot alpha1 alpha2) * Real.sin (atan2 alpha2 alpha1))
      (Real.cos (rad lat) * Real.cos (hypot alpha1 alpha2) - Real.sin (rad lat) *
        Real.sin (hypot alpha1 alpha2) * Real.cos (atan2 alpha2 alpha1)) := by
    have : ∀ x y, rad (x + y) = rad x + rad y := fun x y => by unfold rad; ring
    simp only [displace, this, rad_back, rad_lat]
  unfold unitVec
  rw [hlat', hlon', e1, e2]
  fin_cases i
  · exact r1
  · exact r2
  · exact r3

/-- **C156**, accuracy of `deflect`. -/
theorem deflect_accurate (R : Rounding) {m : Libm} (hm : m.Accurate) {lon lat alpha1 alpha2 : ℝ}
    (hlon : |lon| ≤ 360) (hlat : |lat| ≤ 90) (ha : hypot alpha1 alpha2 ≤ 4) (i : Fin 3) :
    |unitVec (deflectFl R.fl m lon lat alpha1 alpha2).1
        (deflectFl R.fl m lon lat alpha1 alpha2).2 i -
      unitVec (deflect lon lat alpha1 alpha2).1 (deflect lon lat alpha1 alpha2).2 i| ≤
      750 / 2 ^ 53 := by
  have ht : |radiansFl R.fl lat - rad lat| ≤ 8 / 2 ^ 53 := by
    have h : Rel 3 (lat * (Real.pi / 180)) (R.fl (lat * R.fl (R.fl Real.pi / 180))) :=
      ((Rel.refl lat).mul (((Rel.fl R Real.pi).div (Rel.refl 180)).round R)).round R
    refine (Rel.three h).trans ?_
    have : |lat * (Real.pi / 180)| ≤ 2 := latitude_rad hlat
    rw [div_mul_eq_mul_div]
    gcongr
    linarith
  have conv : ∀ x, |degreesFl R.fl x - x / Real.pi * 180| ≤
      4 / 2 ^ 53 * |x / Real.pi * 180| := by
    intro x
    have h : Rel 3 (x * (180 / Real.pi)) (R.fl (x * R.fl (180 / R.fl Real.pi))) :=
      ((Rel.refl x).mul (((Rel.refl 180).div (Rel.fl R Real.pi)).round R)).round R
    have e : x * (180 / Real.pi) = x / Real.pi * 180 := by ring
    rw [e] at h
    exact Rel.three h
  obtain ⟨s1, s2, s3, s4, s5⟩ := step_error R hm ht ha
  obtain ⟨e1, e2, e3, e4⟩ := spherical_step (rad lat) (hypot alpha1 alpha2) (atan2 alpha2 alpha1)
  have hd := angle_error (conv _) s4
  have htp := angle_error (conv _) s5
  have hneg : ∀ x, rad (-x) = -rad x := fun x => by unfold rad; ring
  have hd' : |rad (-degreesFl R.fl (stepFl R.fl m (radiansFl R.fl lat) alpha1 alpha2).1) -
      -(stepFl R.fl m (radiansFl R.fl lat) alpha1 alpha2).1| ≤ 13 / 2 ^ 53 := by
    rw [hneg, ← abs_neg]
    convert hd.1 using 2
    ring
  have hl := longitude_error R hlon hd' (by rw [abs_neg]; exact hd.2)
  rw [← sub_eq_add_neg] at hl
  have hl' : |-rad (R.fl (lon - degreesFl R.fl (stepFl R.fl m (radiansFl R.fl lat) alpha1 alpha2).1)) -
      (-rad lon + (stepFl R.fl m (radiansFl R.fl lat) alpha1 alpha2).1)| ≤ 23 / 2 ^ 53 := by
    rw [← abs_neg]
    convert hl using 2
    ring
  have hH0 := hypot_nonneg (Real.sin (rad lat) * Real.sin (hypot alpha1 alpha2) -
    Real.cos (rad lat) * Real.cos (hypot alpha1 alpha2) * Real.cos (atan2 alpha2 alpha1))
    (Real.cos (rad lat) * Real.sin (atan2 alpha2 alpha1))
  have hH1 := e2 ▸ Real.cos_le_one _
  obtain ⟨r1, r2, r3⟩ := assemble hH0 hH1 s1 s2 (s3 (-rad lon)).1 (s3 (-rad lon)).2 htp.1 hl'
  have hdeg : ∀ x, rad (degrees x) = x := fun x => by
    have : degrees x = x / Real.pi * 180 := by unfold degrees; ring
    rw [this, rad_back]
  have hlat' : rad (deflect lon lat alpha1 alpha2).2 = atan2
      (Real.sin (rad lat) * Real.cos (hypot alpha1 alpha2) + Real.cos (rad lat) *
        Real.sin (hypot alpha1 alpha2) * Real.cos (atan2 alpha2 alpha1))
      (hypot (Real.sin (rad lat) * Real.sin (hypot alpha1 alpha2) -
        Real.cos (rad lat) * Real.cos (hypot alpha1 alpha2) * Real.cos (atan2 alpha2 alpha1))
        (Real.cos (rad lat) * Real.sin (atan2 alpha2 alpha1))) := by
    simp only [deflect, hdeg, radians_rad]
  have hlon' : rad (deflect lon lat alpha1 alpha2).1 = -(-rad lon + atan2
      (Real.sin (hypot alpha1 alpha2) * Real.sin (atan2 alpha2 alpha1))
      (Real.cos (rad lat) * Real.cos (hypot alpha1 alpha2) - Real.sin (rad lat) *
        Real.sin (hypot alpha1 alpha2) * Real.cos (atan2 alpha2 alpha1))) := by
    have : ∀ x y, rad (x - y) = rad x - rad y := fun x y => by unfold rad; ring
    simp only [deflect, this, hdeg, radians_rad]
    ring
  unfold unitVec
  rw [hlat', hlon', e1, e2, Real.cos_neg, Real.sin_neg]
  rw [Real.cos_neg, Real.sin_neg] at *
  fin_cases i
  · exact r1
  · change |Real.cos _ * Real.sin _ - _ * -Real.sin _| ≤ _
    rw [← abs_neg]
    convert r2 using 2
    unfold deflectFl
    dsimp only
    ring
  · exact r3

/-- **C156**, the distance: the computed point is at the distance `|alpha|` from the old one. -/
theorem displace_distance_accurate (R : Rounding) {m : Libm} (hm : m.Accurate)
    {lon lat alpha1 alpha2 : ℝ} (hlon : |lon| ≤ 360) (hlat : |lat| ≤ 90)
    (ha : hypot alpha1 alpha2 ≤ 4) :
    |dot (unitVec lon lat) (unitVec (displaceFl R.fl m lon lat alpha1 alpha2).1
        (displaceFl R.fl m lon lat alpha1 alpha2).2) -
      Real.cos (Real.sqrt (alpha1 ^ 2 + alpha2 ^ 2))| ≤ 2250 / 2 ^ 53 := by
  rw [← displace_distance lon lat alpha1 alpha2]
  have h := displace_accurate R hm hlon hlat ha
  have hu := unitVec_dot lon lat
  generalize unitVec (displaceFl R.fl m lon lat alpha1 alpha2).1
    (displaceFl R.fl m lon lat alpha1 alpha2).2 = x at *
  generalize unitVec (displace lon lat alpha1 alpha2).1 (displace lon lat alpha1 alpha2).2 = y at *
  generalize unitVec lon lat = w at *
  have hw : ∀ i, |w i| ≤ 1 := by
    intro i
    unfold dot at hu
    have h0 := sq_nonneg (w 0)
    have h1 := sq_nonneg (w 1)
    have h2 := sq_nonneg (w 2)
    have key : w i ^ 2 ≤ 1 := by
      fin_cases i
      · change w 0 ^ 2 ≤ 1; linarith
      · change w 1 ^ 2 ≤ 1; linarith
      · change w 2 ^ 2 ≤ 1; linarith
    exact (sq_le_one_iff_abs_le_one _).1 key
  have hp : ∀ i, |w i * (x i - y i)| ≤ 750 / 2 ^ 53 := fun i => by
    rw [abs_mul]; exact (mul_le_of_le_one_left (abs_nonneg _) (hw i)).trans (h i)
  have e : dot w x - dot w y = w 0 * (x 0 - y 0) + w 1 * (x 1 - y 1) + w 2 * (x 2 - y 2) := by
    unfold dot; ring
  rw [e]
  refine (abs_add_le _ _).trans ((add_le_add ((abs_add_le _ _).trans
    (add_le_add (hp 0) (hp 1))) (hp 2)).trans ?_)
  norm_num

/-! ## C156: ranges in double precision -/

theorem double_pi : double.fl Real.pi = 884279719003555 / 2 ^ 48 := by
  have h1 := Real.pi_gt_d20
  have h2 := Real.pi_lt_d20
  have := Glass.Shells.roundDouble_of Real.pi 1 7074237752028440 (by norm_num; linarith)
    (by norm_num; linarith) (by
      rw [abs_lt]; norm_num at h1 h2 ⊢
      constructor <;> linarith)
  change roundDouble Real.pi = _
  rw [this]
  norm_num

theorem double_half_pi : double.fl (Real.pi / 2) = 884279719003555 / 2 ^ 49 := by
  have h1 := Real.pi_gt_d20
  have h2 := Real.pi_lt_d20
  have := Glass.Shells.roundDouble_of (Real.pi / 2) 0 7074237752028440 (by norm_num; linarith)
    (by norm_num; linarith) (by
      rw [abs_lt]; norm_num at h1 h2 ⊢
      constructor <;> linarith)
  change roundDouble (Real.pi / 2) = _
  rw [this]
  norm_num

theorem double_degree : double.fl (180 / double.fl Real.pi) = 8063664102031864 / 2 ^ 47 := by
  rw [double_pi]
  have := Glass.Shells.roundDouble_of (180 / (884279719003555 / 2 ^ 48)) 5 8063664102031864
    (by norm_num) (by norm_num) (by rw [abs_lt]; norm_num)
  change roundDouble _ = _
  rw [this]
  norm_num

theorem double_neg (x : ℝ) : double.fl (-x) = -double.fl x := roundDouble_neg x

/-- A rounded angle of at most a right angle. -/
theorem half_turn {x : ℝ} (h : |x| ≤ Real.pi / 2) :
    |double.fl x| ≤ 884279719003555 / 2 ^ 49 := by
  obtain ⟨h1, h2⟩ := abs_le.1 h
  have h3 := double.mono h2
  have h4 := double.mono h1
  rw [double_neg] at h4
  rw [double_half_pi] at h3 h4
  exact abs_le.2 ⟨h4, h3⟩

theorem full_turn {x : ℝ} (h : |x| ≤ Real.pi) : |double.fl x| ≤ 884279719003555 / 2 ^ 48 := by
  obtain ⟨h1, h2⟩ := abs_le.1 h
  have h3 := double.mono h2
  have h4 := double.mono h1
  rw [double_neg] at h4
  rw [double_pi] at h3 h4
  exact abs_le.2 ⟨h4, h3⟩

/-- Rounding keeps a bound that is a multiple of a quarter. -/
theorem quarter_bound (R : Rounding) {x : ℝ} (k : ℤ) (hk : |k| ≤ 2 ^ 53) (h : |x| ≤ k / 4) :
    |R.fl x| ≤ k / 4 := by
  obtain ⟨h1, h2⟩ := abs_le.1 h
  have h3 := R.mono h2
  have h4 := R.mono h1
  rw [R.exact k hk] at h3
  have : (-(k / 4 : ℝ)) = ((-k : ℤ) : ℝ) / 4 := by push_cast; ring
  rw [this, R.exact (-k) (by rwa [abs_neg]), ← this] at h4
  exact abs_le.2 ⟨h4, h3⟩

/-- The conversion of `displace` to degrees. -/
theorem convert_bound {y : ℝ} (k : ℤ) (hk : |k| ≤ 2 ^ 40)
    (h : |y| ≤ k / 4 * (884279719003555 / 2 ^ 48)) :
    |double.fl (double.fl (y / double.fl Real.pi) * 180)| ≤ k / 4 * 180 := by
  rw [double_pi]
  have h1 : |y / (884279719003555 / 2 ^ 48)| ≤ (k : ℝ) / 4 := by
    rw [abs_div, abs_of_pos (by norm_num : (0 : ℝ) < 884279719003555 / 2 ^ 48),
      div_le_iff₀ (by norm_num)]
    exact h
  have h2 := quarter_bound double k (hk.trans (by norm_num)) h1
  have h3 := quarter_bound double (k * 180) (x := double.fl (y / (884279719003555 / 2 ^ 48)) * 180)
    (by rw [abs_mul]; norm_num; omega) (by
      rw [abs_mul, abs_of_pos (by norm_num : (0 : ℝ) < 180)]
      push_cast
      linarith)
  push_cast at h3
  linarith

theorem degrees_bound {y : ℝ} (h : |y| ≤ 884279719003555 / 2 ^ 49) :
    |degreesFl double.fl y| ≤ 90 := by
  unfold degreesFl
  rw [double_degree]
  have := quarter_bound double 360 (x := y * (8063664102031864 / 2 ^ 47)) (by norm_num) (by
    rw [abs_mul, abs_of_pos (by norm_num : (0 : ℝ) < 8063664102031864 / 2 ^ 47)]
    refine (mul_le_mul_of_nonneg_right h (by norm_num)).trans ?_
    norm_num)
  norm_num at this ⊢
  exact this

theorem degrees_bound_full {y : ℝ} (h : |y| ≤ 884279719003555 / 2 ^ 48) :
    |degreesFl double.fl y| ≤ 180 := by
  unfold degreesFl
  rw [double_degree]
  have := quarter_bound double 720 (x := y * (8063664102031864 / 2 ^ 47)) (by norm_num) (by
    rw [abs_mul, abs_of_pos (by norm_num : (0 : ℝ) < 8063664102031864 / 2 ^ 47)]
    refine (mul_le_mul_of_nonneg_right h (by norm_num)).trans ?_
    norm_num)
  norm_num at this ⊢
  exact this

/-- The angles of the common part in double precision. -/
theorem step_bounds (t alpha1 alpha2 : ℝ) :
    |(stepFl double.fl (Libm.rounded double.fl) t alpha1 alpha2).1| ≤ 884279719003555 / 2 ^ 48 ∧
    |(stepFl double.fl (Libm.rounded double.fl) t alpha1 alpha2).2| ≤ 884279719003555 / 2 ^ 49 := by
  unfold stepFl Libm.rounded
  dsimp only
  refine ⟨full_turn (Complex.abs_arg_le_pi _), half_turn ?_⟩
  exact Complex.abs_arg_le_pi_div_two_iff.2 (double.nonneg (hypot_nonneg _ _))

/-- **C156**, latitudes: in double precision `displace` returns a latitude between -90 and 90
degrees for every input, and moves the longitude by at most 180 degrees before the last rounding. -/
theorem displace_range (lon lat alpha1 alpha2 : ℝ) :
    |(displaceFl double.fl (Libm.rounded double.fl) lon lat alpha1 alpha2).2| ≤ 90 ∧
    double.fl (lon - 180) ≤ (displaceFl double.fl (Libm.rounded double.fl) lon lat alpha1 alpha2).1 ∧
    (displaceFl double.fl (Libm.rounded double.fl) lon lat alpha1 alpha2).1 ≤ double.fl (lon + 180) := by
  obtain ⟨h1, h2⟩ := step_bounds (double.fl (double.fl (lat / 180) * double.fl Real.pi)) alpha1 alpha2
  have h3 := abs_le.1 (convert_bound 4 (by norm_num) (by norm_num at h1 ⊢; exact h1))
  have h4 := convert_bound 2 (by norm_num) (by norm_num at h2 ⊢; exact h2)
  norm_num at h3 h4
  unfold displaceFl
  dsimp only
  exact ⟨h4, double.mono (by linarith), double.mono (by linarith)⟩

/-- **C156**, the same for `deflect`. -/
theorem deflect_range (lon lat alpha1 alpha2 : ℝ) :
    |(deflectFl double.fl (Libm.rounded double.fl) lon lat alpha1 alpha2).2| ≤ 90 ∧
    double.fl (lon - 180) ≤ (deflectFl double.fl (Libm.rounded double.fl) lon lat alpha1 alpha2).1 ∧
    (deflectFl double.fl (Libm.rounded double.fl) lon lat alpha1 alpha2).1 ≤ double.fl (lon + 180) := by
  obtain ⟨h1, h2⟩ := step_bounds (radiansFl double.fl lat) alpha1 alpha2
  have h3 := abs_le.1 (degrees_bound_full h1)
  unfold deflectFl
  dsimp only
  exact ⟨degrees_bound h2, double.mono (by linarith), double.mono (by linarith)⟩

/-- One position of `uniform_positions` (`points.py:596-598`) with every operation rounded: `u` and
`v` are two random numbers between 0 and 1, and NumPy's `uniform(low, high)` is
`low + (high - low) * u`. -/
noncomputable def uniformFl (fl : ℝ → ℝ) (u v : ℝ) : ℝ × ℝ :=
  (fl (-180 + fl (360 * u)), degreesFl fl (fl (Real.arcsin (fl (-1 + fl (2 * v))))))

theorem uniform_fl_real (u v : ℝ) :
    uniformFl id u v = (-180 + (180 - -180) * u, degrees (Real.arcsin (-1 + (1 - -1) * v))) := by
  unfold uniformFl degreesFl degrees
  norm_num
  ring

/-- **C156**, random positions: with NumPy's random numbers (at most `1 - 2 ^ -53`) the longitude
is in `[-180, 180)` as documented, the argument of the inverse sine is in `[-1, 1)`, and the
latitude is between -90 and 90 degrees. -/
theorem uniform_range {u v : ℝ} (hu0 : 0 ≤ u) (hu1 : u ≤ 1 - 1 / 2 ^ 53) (hv0 : 0 ≤ v)
    (hv1 : v ≤ 1 - 1 / 2 ^ 53) :
    -180 ≤ (uniformFl double.fl u v).1 ∧ (uniformFl double.fl u v).1 < 180 ∧
    -1 ≤ double.fl (-1 + double.fl (2 * v)) ∧ double.fl (-1 + double.fl (2 * v)) < 1 ∧
    |(uniformFl double.fl u v).2| ≤ 90 := by
  have top : double.fl (360 * (1 - 1 / 2 ^ 53)) = 360 - 1 / 2 ^ 44 := by
    have := Glass.Shells.roundDouble_of (360 * (1 - 1 / 2 ^ 53)) 8 (360 * 2 ^ 44 - 1)
      (by norm_num) (by norm_num) (by rw [abs_lt]; norm_num)
    change roundDouble _ = _
    rw [this]; norm_num
  have top' : double.fl (180 - 1 / 2 ^ 44) = 180 - 1 / 2 ^ 44 := by
    have := Glass.Shells.roundDouble_of (180 - 1 / 2 ^ 44) 7 (180 * 2 ^ 45 - 2)
      (by norm_num) (by norm_num) (by rw [abs_lt]; norm_num)
    change roundDouble _ = _
    rw [this]; norm_num
  have two : double.fl (2 * (1 - 1 / 2 ^ 53)) = 2 - 1 / 2 ^ 52 := by
    have := Glass.Shells.roundDouble_of (2 * (1 - 1 / 2 ^ 53)) 0 (2 ^ 53 - 1)
      (by norm_num) (by norm_num) (by rw [abs_lt]; norm_num)
    change roundDouble _ = _
    rw [this]; norm_num
  have two' : double.fl (1 - 1 / 2 ^ 52) = 1 - 1 / 2 ^ 52 := by
    have := Glass.Shells.roundDouble_of (1 - 1 / 2 ^ 52) (-1) (2 ^ 53 - 2)
      (by norm_num) (by norm_num) (by rw [abs_lt]; norm_num)
    change roundDouble _ = _
    rw [this]; norm_num
  have int : ∀ k : ℤ, |k| ≤ 2 ^ 40 → double.fl k = k := by
    intro k hk
    have := double.exact (4 * k) (by rw [abs_mul]; norm_num; omega)
    push_cast at this
    rwa [mul_div_cancel_left₀ _ (by norm_num : (4 : ℝ) ≠ 0)] at this
  have h1 : double.fl (360 * u) ≤ 360 - 1 / 2 ^ 44 := by
    rw [← top]; exact double.mono (by gcongr)
  have h2 : 0 ≤ double.fl (360 * u) := double.nonneg (by positivity)
  have h3 : double.fl (2 * v) ≤ 2 - 1 / 2 ^ 52 := by
    rw [← two]; exact double.mono (by gcongr)
  have h4 : 0 ≤ double.fl (2 * v) := double.nonneg (by positivity)
  have e180 := int (-180) (by norm_num)
  have e1 := int (-1) (by norm_num)
  push_cast at e180 e1
  unfold uniformFl
  dsimp only
  refine ⟨?_, ?_, ?_, ?_, ?_⟩
  · calc (-180 : ℝ) = double.fl (-180) := e180.symm
      _ ≤ _ := double.mono (by linarith)
  · refine lt_of_le_of_lt (b := double.fl (180 - 1 / 2 ^ 44)) (double.mono (by linarith)) ?_
    rw [top']; norm_num
  · calc (-1 : ℝ) = double.fl (-1) := e1.symm
      _ ≤ _ := double.mono (by linarith)
  · refine lt_of_le_of_lt (b := double.fl (1 - 1 / 2 ^ 52)) (double.mono (by linarith)) ?_
    rw [two']; norm_num
  · exact degrees_bound (half_turn (abs_le.2 ⟨Real.neg_pi_div_two_le_arcsin _,
      Real.arcsin_le_pi_div_two _⟩))

/-- The hypotheses of the accuracy are met at the north pole. -/
theorem displace_accurate_example (i : Fin 3) :
    |unitVec (displaceFl double.fl (Libm.rounded double.fl) 30 90 (1 / 1000) (1 / 500)).1
        (displaceFl double.fl (Libm.rounded double.fl) 30 90 (1 / 1000) (1 / 500)).2 i -
      unitVec (displace 30 90 (1 / 1000) (1 / 500)).1 (displace 30 90 (1 / 1000) (1 / 500)).2 i| ≤
      750 / 2 ^ 53 := by
  refine displace_accurate double (Libm.rounded_accurate double) (by norm_num) (by norm_num) ?_ i
  unfold hypot
  rw [Real.sqrt_le_left (by norm_num)]
  norm_num

end Glass.Points
