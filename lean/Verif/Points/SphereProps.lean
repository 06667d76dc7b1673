import Mathlib.Analysis.SpecialFunctions.Trigonometric.Sinc
import Verif.Points.Model

/-! # Properties C45–C47: displacements on the sphere -/

namespace Glass.Points

/-! ## Specification: unit vectors -/

/-- Angle in degrees to radians, for the specification. -/
noncomputable def rad (x : ℝ) : ℝ := x * (Real.pi / 180)

/-- The unit vector of a point with longitude and latitude in degrees. -/
noncomputable def unitVec (lon lat : ℝ) : Fin 3 → ℝ :=
  ![Real.cos (rad lat) * Real.cos (rad lon), Real.cos (rad lat) * Real.sin (rad lon),
    Real.sin (rad lat)]

/-- The unit vector towards north. -/
noncomputable def northVec (lon lat : ℝ) : Fin 3 → ℝ :=
  ![-Real.sin (rad lat) * Real.cos (rad lon), -Real.sin (rad lat) * Real.sin (rad lon),
    Real.cos (rad lat)]

/-- The unit vector towards east. -/
noncomputable def eastVec (lon : ℝ) : Fin 3 → ℝ := ![-Real.sin (rad lon), Real.cos (rad lon), 0]

/-- Scalar product. -/
def dot (u v : Fin 3 → ℝ) : ℝ := u 0 * v 0 + u 1 * v 1 + u 2 * v 2

theorem unitVec_dot (lon lat : ℝ) : dot (unitVec lon lat) (unitVec lon lat) = 1 := by
  have h1 := Real.sin_sq_add_cos_sq (rad lon)
  have h2 := Real.sin_sq_add_cos_sq (rad lat)
  simp only [dot, unitVec, Matrix.cons_val_zero, Matrix.cons_val_one, Matrix.cons_val]
  linear_combination (Real.cos (rad lat)) ^ 2 * h1 + h2

/-! ## `atan2` -/

theorem hypot_eq_norm (x y : ℝ) : hypot x y = ‖(⟨x, y⟩ : ℂ)‖ := by
  rw [Complex.norm_eq_sqrt_sq_add_sq]; rfl

theorem hypot_nonneg (x y : ℝ) : 0 ≤ hypot x y := Real.sqrt_nonneg _

theorem hypot_sq (x y : ℝ) : hypot x y ^ 2 = x ^ 2 + y ^ 2 :=
  Real.sq_sqrt (by positivity)

theorem hypot_cos_atan2 (y x : ℝ) : hypot x y * Real.cos (atan2 y x) = x := by
  rw [hypot_eq_norm]; exact Complex.norm_mul_cos_arg _

theorem hypot_sin_atan2 (y x : ℝ) : hypot x y * Real.sin (atan2 y x) = y := by
  rw [hypot_eq_norm]; exact Complex.norm_mul_sin_arg _

theorem hypot_eq_one {x y : ℝ} (h : x ^ 2 + y ^ 2 = 1) : hypot x y = 1 := by
  unfold hypot; rw [h, Real.sqrt_one]

theorem atan2_unit {y x : ℝ} (h : x ^ 2 + y ^ 2 = 1) :
    Real.cos (atan2 y x) = x ∧ Real.sin (atan2 y x) = y := by
  have h1 := hypot_cos_atan2 y x
  have h2 := hypot_sin_atan2 y x
  rw [hypot_eq_one h, one_mul] at h1 h2
  exact ⟨h1, h2⟩

/-- The angles used by `displace` and `deflect`: the new point in the frame in which the old
point has longitude zero. -/
theorem spherical_step (t a g : ℝ) :
    let ct := Real.sin t
    let st := Real.cos t
    let S := ct * Real.cos a + st * Real.sin a * Real.cos g
    let H := hypot (ct * Real.sin a - st * Real.cos a * Real.cos g) (st * Real.sin g)
    let d := atan2 (Real.sin a * Real.sin g) (st * Real.cos a - ct * Real.sin a * Real.cos g)
    Real.sin (atan2 S H) = S ∧ Real.cos (atan2 S H) = H ∧
    H * Real.cos d = st * Real.cos a - ct * Real.sin a * Real.cos g ∧
    H * Real.sin d = Real.sin a * Real.sin g := by
  intro ct st S H d
  have h1 := Real.sin_sq_add_cos_sq t
  have h2 := Real.sin_sq_add_cos_sq a
  have h3 := Real.sin_sq_add_cos_sq g
  have hH : H ^ 2 = (ct * Real.sin a - st * Real.cos a * Real.cos g) ^ 2 +
    (st * Real.sin g) ^ 2 := hypot_sq _ _
  have hS : H ^ 2 + S ^ 2 = 1 := by
    rw [hH]
    simp only [S, ct, st]
    linear_combination h1 + (Real.sin t ^ 2 + Real.cos t ^ 2 * Real.cos g ^ 2) * h2 +
      Real.cos t ^ 2 * h3
  have hR : hypot (st * Real.cos a - ct * Real.sin a * Real.cos g) (Real.sin a * Real.sin g)
      = H := by
    have e : (st * Real.cos a - ct * Real.sin a * Real.cos g) ^ 2 +
        (Real.sin a * Real.sin g) ^ 2 = H ^ 2 := by
      have : H ^ 2 = 1 - S ^ 2 := by linarith
      rw [this]
      simp only [S, ct, st]
      linear_combination (Real.cos a ^ 2 + Real.sin a ^ 2 * Real.cos g ^ 2) * h1 + h2 +
        Real.sin a ^ 2 * h3
    show Real.sqrt _ = _
    rw [e]
    exact Real.sqrt_sq (hypot_nonneg _ _)
  obtain ⟨e1, e2⟩ := atan2_unit (y := S) (x := H) hS
  refine ⟨e2, e1, ?_, ?_⟩
  · rw [← hR]; exact hypot_cos_atan2 _ _
  · rw [← hR]; exact hypot_sin_atan2 _ _

theorem sin_hypot_cos (x y : ℝ) :
    Real.sin (hypot x y) * Real.cos (atan2 y x) = Real.sinc (hypot x y) * x ∧
    Real.sin (hypot x y) * Real.sin (atan2 y x) = Real.sinc (hypot x y) * y := by
  have h1 := hypot_cos_atan2 y x
  have h2 := hypot_sin_atan2 y x
  by_cases h0 : hypot x y = 0
  · rw [h0, zero_mul] at h1 h2
    rw [h0, ← h1, ← h2]
    simp
  · rw [Real.sinc_of_ne_zero h0]
    constructor
    · rw [div_mul_eq_mul_div, eq_div_iff h0]
      linear_combination Real.sin (hypot x y) * h1
    · rw [div_mul_eq_mul_div, eq_div_iff h0]
      linear_combination Real.sin (hypot x y) * h2

theorem rad_lat (lat : ℝ) : lat / 180 * Real.pi = rad lat := by unfold rad; ring

theorem rad_back (x : ℝ) : rad (x / Real.pi * 180) = x := by
  have := Real.pi_ne_zero
  unfold rad; field_simp

/-! ## C45 -/

/-- **C45**, the point reached: `displace` follows the great circle that starts in the direction
`alpha1` north and `alpha2` east, over the angle `|alpha|` (the exponential map of the sphere). -/
theorem displace_exponential (lon lat alpha1 alpha2 : ℝ) (i : Fin 3) :
    unitVec (displace lon lat alpha1 alpha2).1 (displace lon lat alpha1 alpha2).2 i =
      Real.cos (hypot alpha1 alpha2) * unitVec lon lat i +
      Real.sinc (hypot alpha1 alpha2) *
        (alpha1 * northVec lon lat i + alpha2 * eastVec lon i) := by
  obtain ⟨e1, e2, e3, e4⟩ := spherical_step (rad lat) (hypot alpha1 alpha2) (atan2 alpha2 alpha1)
  obtain ⟨s1, s2⟩ := sin_hypot_cos alpha1 alpha2
  set a := hypot alpha1 alpha2
  set g := atan2 alpha2 alpha1
  set t := rad lat with ht
  set S := Real.sin t * Real.cos a + Real.cos t * Real.sin a * Real.cos g with hS
  set H := hypot (Real.sin t * Real.sin a - Real.cos t * Real.cos a * Real.cos g)
    (Real.cos t * Real.sin g) with hH
  set d := atan2 (Real.sin a * Real.sin g)
    (Real.cos t * Real.cos a - Real.sin t * Real.sin a * Real.cos g) with hd
  have hlat : rad (displace lon lat alpha1 alpha2).2 = atan2 S H := by
    simp only [displace, rad_lat, rad_back, ← ht]
    rfl
  have hlon : rad (displace lon lat alpha1 alpha2).1 = rad lon + d := by
    have : rad (displace lon lat alpha1 alpha2).1 = rad lon + rad (d / Real.pi * 180) := by
      simp only [displace, rad_lat, ← ht]
      simp only [rad]
      rw [add_mul]
    rw [this, rad_back]
  have hv : unitVec (displace lon lat alpha1 alpha2).1 (displace lon lat alpha1 alpha2).2 =
      ![H * Real.cos (rad lon + d), H * Real.sin (rad lon + d), S] := by
    unfold unitVec
    rw [hlat, hlon, e1, e2]
  rw [hv, Real.cos_add, Real.sin_add]
  fin_cases i
  · simp only [unitVec, northVec, eastVec, Fin.zero_eta, Matrix.cons_val_zero, ← ht]
    linear_combination Real.cos (rad lon) * e3 - Real.sin (rad lon) * e4 -
      Real.cos (rad lon) * Real.sin t * s1 - Real.sin (rad lon) * s2
  · simp only [unitVec, northVec, eastVec, Fin.mk_one, Matrix.cons_val_one, ← ht,
      Matrix.cons_val_zero]
    linear_combination Real.sin (rad lon) * e3 + Real.cos (rad lon) * e4 -
      Real.sin (rad lon) * Real.sin t * s1 + Real.cos (rad lon) * s2
  · simp only [unitVec, northVec, eastVec, Fin.reduceFinMk, Matrix.cons_val, ← ht]
    rw [hS]
    linear_combination Real.cos t * s1

/-- **C45**: the angular distance is `|alpha|`. -/
theorem displace_distance (lon lat alpha1 alpha2 : ℝ) :
    dot (unitVec lon lat)
      (unitVec (displace lon lat alpha1 alpha2).1 (displace lon lat alpha1 alpha2).2) =
      Real.cos (Real.sqrt (alpha1 ^ 2 + alpha2 ^ 2)) := by
  have h1 := Real.sin_sq_add_cos_sq (rad lon)
  have h2 := Real.sin_sq_add_cos_sq (rad lat)
  unfold dot
  rw [displace_exponential, displace_exponential, displace_exponential]
  change _ = Real.cos (hypot alpha1 alpha2)
  have hu := unitVec_dot lon lat
  have hn : unitVec lon lat 0 * northVec lon lat 0 + unitVec lon lat 1 * northVec lon lat 1 +
      unitVec lon lat 2 * northVec lon lat 2 = 0 := by
    simp only [unitVec, northVec, Matrix.cons_val_zero, Matrix.cons_val_one, Matrix.cons_val]
    linear_combination (-Real.cos (rad lat) * Real.sin (rad lat)) * h1
  have he : unitVec lon lat 0 * eastVec lon 0 + unitVec lon lat 1 * eastVec lon 1 +
      unitVec lon lat 2 * eastVec lon 2 = 0 := by
    simp only [unitVec, eastVec, Matrix.cons_val_zero, Matrix.cons_val_one, Matrix.cons_val]
    ring
  unfold dot at hu
  linear_combination Real.cos (hypot alpha1 alpha2) * hu +
    Real.sinc (hypot alpha1 alpha2) * (alpha1 * hn + alpha2 * he)

/-- **C45**: the new latitude is in the range of latitudes. -/
theorem displace_latitude (lon lat alpha1 alpha2 : ℝ) :
    -90 ≤ (displace lon lat alpha1 alpha2).2 ∧ (displace lon lat alpha1 alpha2).2 ≤ 90 := by
  have key : ∀ y x : ℝ, 0 ≤ x →
      -90 ≤ atan2 y x / Real.pi * 180 ∧ atan2 y x / Real.pi * 180 ≤ 90 := by
    intro y x hx
    have h := abs_le.1 (Complex.abs_arg_le_pi_div_two_iff.2 (show 0 ≤ (⟨x, y⟩ : ℂ).re from hx))
    have hp := Real.pi_pos
    have e : atan2 y x / Real.pi * 180 = atan2 y x * 180 / Real.pi := by ring
    rw [e]
    unfold atan2
    constructor
    · rw [le_div_iff₀ hp]; linarith [h.1]
    · rw [div_le_iff₀ hp]; linarith [h.2]
  exact key _ _ (hypot_nonneg _ _)

/-- No displacement, no change of the point. -/
example : unitVec (displace 10 20 0 0).1 (displace 10 20 0 0).2 = unitVec 10 20 := by
  funext i
  rw [displace_exponential]
  simp [hypot]

/-- A displacement by a right angle towards the east from the equator. -/
example : dot (unitVec 0 0) (unitVec (displace 0 0 0 (Real.pi / 2)).1
    (displace 0 0 0 (Real.pi / 2)).2) = 0 := by
  rw [displace_distance]
  have : Real.sqrt (0 ^ 2 + (Real.pi / 2) ^ 2) = Real.pi / 2 := by
    rw [zero_pow (by norm_num), zero_add]
    exact Real.sqrt_sq (by positivity)
  rw [this, Real.cos_pi_div_two]

/-! ## C46 -/

theorem radians_rad (x : ℝ) : radians x = rad x := by unfold radians rad; ring

/-- **C46**: displacing the first point by the displacement gives the second point. -/
theorem displace_displacement (lon lat lon' lat' : ℝ) :
    unitVec (displace lon lat (displacement lon lat lon' lat').re
        (displacement lon lat lon' lat').im).1
      (displace lon lat (displacement lon lat lon' lat').re
        (displacement lon lat lon' lat').im).2 = unitVec lon' lat' := by
  have hg : rad (lon' - lon) = rad lon' - rad lon := by unfold rad; ring
  have h1 := Real.sin_sq_add_cos_sq (rad lat)
  have h2 := Real.sin_sq_add_cos_sq (rad lat')
  have h3 := Real.sin_sq_add_cos_sq (rad (lon' - lon))
  have h4 := Real.sin_sq_add_cos_sq (rad lon)
  set sa := Real.sin (rad lat) with hsa
  set ca := Real.cos (rad lat) with hca
  set sb := Real.sin (rad lat') with hsb
  set cb := Real.cos (rad lat') with hcb
  set sg := Real.sin (rad (lon' - lon)) with hsg
  set cg := Real.cos (rad (lon' - lon)) with hcg
  set h := hypot (cb * sg) (ca * sb - sa * cb * cg) with hh
  set c := sa * sb + ca * cb * cg with hc
  set r := atan2 h c with hr
  set x := atan2 (cb * sg) (ca * sb - sa * cb * cg) with hx
  have hdis : displacement lon lat lon' lat' = r * Complex.exp (Complex.I * x) := by
    simp only [displacement, radians_rad]
    rfl
  have hre : (displacement lon lat lon' lat').re = r * Real.cos x := by
    rw [hdis, mul_comm Complex.I, Complex.exp_mul_I, ← Complex.ofReal_cos, ← Complex.ofReal_sin]
    simp only [Complex.re_ofReal_mul, Complex.add_re, Complex.ofReal_re, Complex.I_re]
    ring
  have him : (displacement lon lat lon' lat').im = r * Real.sin x := by
    rw [hdis, mul_comm Complex.I, Complex.exp_mul_I, ← Complex.ofReal_cos, ← Complex.ofReal_sin]
    simp only [Complex.im_ofReal_mul, Complex.add_im, Complex.ofReal_im, Complex.I_im]
    ring
  have hr0 : 0 ≤ r := by
    rw [hr]
    exact Complex.arg_nonneg_iff.2 (show 0 ≤ (⟨c, h⟩ : ℂ).im from hypot_nonneg _ _)
  have hhyp : hypot (r * Real.cos x) (r * Real.sin x) = r := by
    unfold hypot
    have : (r * Real.cos x) ^ 2 + (r * Real.sin x) ^ 2 = r ^ 2 := by
      linear_combination r ^ 2 * Real.sin_sq_add_cos_sq x
    rw [this, Real.sqrt_sq hr0]
  have hsq : c ^ 2 + h ^ 2 = 1 := by
    rw [hh, hypot_sq, hc]
    linear_combination (sb ^ 2 + cb ^ 2 * cg ^ 2) * h1 + cb ^ 2 * h3 + h2
  obtain ⟨er, es⟩ := atan2_unit hsq
  rw [← hr] at er es
  have hcomm : hypot (ca * sb - sa * cb * cg) (cb * sg) = h := by
    rw [hh]; unfold hypot; rw [add_comm]
  have ex1 : h * Real.cos x = ca * sb - sa * cb * cg := by
    rw [← hcomm]; exact hypot_cos_atan2 _ _
  have ex2 : h * Real.sin x = cb * sg := by
    rw [← hcomm]; exact hypot_sin_atan2 _ _
  have hsinc : Real.sinc r * r = h := by
    rw [← es]
    by_cases h0 : r = 0
    · rw [h0]; simp
    · rw [Real.sinc_of_ne_zero h0]; field_simp
  have hlon : rad lon' = rad lon + rad (lon' - lon) := by rw [hg]; ring
  funext i
  rw [displace_exponential, hre, him, hhyp, er]
  have hN : Real.sinc r * (r * Real.cos x * northVec lon lat i + r * Real.sin x * eastVec lon i)
      = (ca * sb - sa * cb * cg) * northVec lon lat i + cb * sg * eastVec lon i := by
    rw [← ex1, ← ex2, ← hsinc]; ring
  rw [hN, hc]
  fin_cases i
  · simp only [unitVec, northVec, eastVec, Fin.zero_eta, Matrix.cons_val_zero, ← hsa, ← hca,
      ← hcb]
    rw [hlon, Real.cos_add, ← hsg, ← hcg]
    linear_combination (Real.cos (rad lon) * cb * cg) * h1
  · simp only [unitVec, northVec, eastVec, Fin.mk_one, Matrix.cons_val_one, Matrix.cons_val_zero,
      ← hsa, ← hca, ← hcb]
    rw [hlon, Real.sin_add, ← hsg, ← hcg]
    linear_combination (Real.sin (rad lon) * cb * cg) * h1
  · simp only [unitVec, northVec, eastVec, Fin.reduceFinMk, Matrix.cons_val, ← hsa, ← hca,
      ← hsb]
    linear_combination sb * h1

/-- **C46**: the length of the displacement is the angular distance, at most half a circle. -/
theorem displacement_distance (lon lat lon' lat' : ℝ) :
    Real.cos ‖displacement lon lat lon' lat'‖ = dot (unitVec lon lat) (unitVec lon' lat') ∧
    ‖displacement lon lat lon' lat'‖ ≤ Real.pi := by
  constructor
  · rw [← displace_displacement lon lat lon' lat', displace_distance,
      Complex.norm_eq_sqrt_sq_add_sq]
  · unfold displacement
    dsimp only
    rw [norm_mul, mul_comm Complex.I, Complex.norm_exp_ofReal_mul_I, mul_one, Complex.norm_real]
    exact Complex.abs_arg_le_pi _

/-- Between antipodes the displacement has length pi. -/
example : ‖displacement 0 0 180 0‖ = Real.pi := by
  have h := displacement_distance 0 0 180 0
  have e : dot (unitVec 0 0) (unitVec 180 0) = -1 := by
    have : rad 180 = Real.pi := by unfold rad; ring
    have h0 : rad 0 = 0 := by unfold rad; ring
    simp [dot, unitVec, this, h0]
  rw [e, ← Real.cos_pi] at h
  exact Real.injOn_cos ⟨norm_nonneg _, h.2⟩ ⟨Real.pi_pos.le, le_rfl⟩ h.1

theorem dot_frame (lon lat lon' lat' : ℝ) :
    dot (unitVec lon' lat') (unitVec lon lat) = Real.sin (rad lat) * Real.sin (rad lat') +
      Real.cos (rad lat) * Real.cos (rad lat') * Real.cos (rad (lon' - lon)) ∧
    dot (unitVec lon' lat') (northVec lon lat) = Real.cos (rad lat) * Real.sin (rad lat') -
      Real.sin (rad lat) * Real.cos (rad lat') * Real.cos (rad (lon' - lon)) ∧
    dot (unitVec lon' lat') (eastVec lon) = Real.cos (rad lat') * Real.sin (rad (lon' - lon)) := by
  have hg : rad (lon' - lon) = rad lon' - rad lon := by unfold rad; ring
  rw [hg, Real.cos_sub, Real.sin_sub]
  simp only [dot, unitVec, northVec, eastVec, Matrix.cons_val_zero, Matrix.cons_val_one,
    Matrix.cons_val]
  refine ⟨by ring, by ring, by ring⟩

/-- **C46**, the other way round: the displacement from a point to the displaced point is the
displacement that was applied, if it is shorter than half a circle. -/
theorem displacement_displace (lon lat alpha1 alpha2 : ℝ)
    (h : Real.sqrt (alpha1 ^ 2 + alpha2 ^ 2) < Real.pi) :
    displacement lon lat (displace lon lat alpha1 alpha2).1 (displace lon lat alpha1 alpha2).2 =
      ⟨alpha1, alpha2⟩ := by
  change hypot alpha1 alpha2 < Real.pi at h
  have h1 := Real.sin_sq_add_cos_sq (rad lon)
  have h2 := Real.sin_sq_add_cos_sq (rad lat)
  obtain ⟨f1, f2, f3⟩ := dot_frame lon lat (displace lon lat alpha1 alpha2).1
    (displace lon lat alpha1 alpha2).2
  have e1 : dot (unitVec (displace lon lat alpha1 alpha2).1 (displace lon lat alpha1 alpha2).2)
      (unitVec lon lat) = Real.cos (hypot alpha1 alpha2) := by
    rw [← show _ = Real.cos (hypot alpha1 alpha2) from displace_distance lon lat alpha1 alpha2]
    unfold dot; ring
  have e2 : dot (unitVec (displace lon lat alpha1 alpha2).1 (displace lon lat alpha1 alpha2).2)
      (northVec lon lat) = Real.sinc (hypot alpha1 alpha2) * alpha1 := by
    unfold dot
    rw [displace_exponential, displace_exponential, displace_exponential]
    simp only [unitVec, northVec, eastVec, Matrix.cons_val_zero, Matrix.cons_val_one,
      Matrix.cons_val]
    linear_combination (-Real.cos (hypot alpha1 alpha2) * Real.cos (rad lat) * Real.sin (rad lat) +
      Real.sinc (hypot alpha1 alpha2) * alpha1 * Real.sin (rad lat) ^ 2) * h1 +
      Real.sinc (hypot alpha1 alpha2) * alpha1 * h2
  have e3 : dot (unitVec (displace lon lat alpha1 alpha2).1 (displace lon lat alpha1 alpha2).2)
      (eastVec lon) = Real.sinc (hypot alpha1 alpha2) * alpha2 := by
    unfold dot
    rw [displace_exponential, displace_exponential, displace_exponential]
    simp only [unitVec, northVec, eastVec, Matrix.cons_val_zero, Matrix.cons_val_one,
      Matrix.cons_val]
    linear_combination Real.sinc (hypot alpha1 alpha2) * alpha2 * h1
  rw [e1] at f1
  rw [e2] at f2
  rw [e3] at f3
  set r := hypot alpha1 alpha2 with hr
  have hr0 : 0 ≤ r := hypot_nonneg _ _
  have hsinc : 0 < Real.sinc r := by
    rcases hr0.eq_or_lt with h0 | h0
    · rw [← h0]; simp
    · rw [Real.sinc_of_ne_zero h0.ne']
      exact div_pos (Real.sin_pos_of_pos_of_lt_pi h0 h) h0
  have hsin : Real.sinc r * r = Real.sin r := by
    rcases hr0.eq_or_lt with h0 | h0
    · rw [← h0]; simp
    · rw [Real.sinc_of_ne_zero h0.ne']; field_simp
  have hh : hypot (Real.sinc r * alpha2) (Real.sinc r * alpha1) = Real.sin r := by
    have key : ∀ s : ℝ, 0 ≤ s → hypot (s * alpha2) (s * alpha1) = s * hypot alpha1 alpha2 := by
      intro s hs
      unfold hypot
      rw [show (s * alpha2) ^ 2 + (s * alpha1) ^ 2 = s ^ 2 * (alpha1 ^ 2 + alpha2 ^ 2) by ring,
        Real.sqrt_mul (by positivity), Real.sqrt_sq hs]
    rw [← hsin, key _ hsinc.le]
  have ha : atan2 (Real.sin r) (Real.cos r) = r := by
    unfold atan2
    rw [Complex.mk_eq_add_mul_I, Complex.ofReal_cos, Complex.ofReal_sin,
      Complex.arg_cos_add_sin_mul_I ⟨by linarith [Real.pi_pos], h.le⟩]
  have hx : atan2 (Real.sinc r * alpha2) (Real.sinc r * alpha1) = atan2 alpha2 alpha1 := by
    unfold atan2
    rw [← Complex.arg_real_mul ⟨alpha1, alpha2⟩ hsinc]
    congr 1
    exact Complex.ext (by simp) (by simp)
  unfold displacement
  simp only [radians_rad]
  rw [← f1, ← f2, ← f3, hh, ha, hx, mul_comm Complex.I, Complex.exp_mul_I, ← Complex.ofReal_cos,
    ← Complex.ofReal_sin]
  have c1 := hypot_cos_atan2 alpha2 alpha1
  have c2 := hypot_sin_atan2 alpha2 alpha1
  refine Complex.ext ?_ ?_
  · simp only [Complex.add_re, Complex.ofReal_re, Complex.I_re, Complex.I_im,
      Complex.mul_re, Complex.ofReal_im]
    rw [← hr] at c1
    linarith
  · simp only [Complex.add_im, Complex.ofReal_im, Complex.I_im, Complex.I_re,
      Complex.mul_im, Complex.ofReal_re]
    rw [← hr] at c2
    linarith
/-! ## C47 -/

/-- **C47**: `deflect` has the latitude of `displace` and the opposite change of longitude. -/
theorem deflect_mirrors (lon lat alpha1 alpha2 : ℝ) :
    (deflect lon lat alpha1 alpha2).2 = (displace lon lat alpha1 alpha2).2 ∧
    (deflect lon lat alpha1 alpha2).1 - lon = -((displace lon lat alpha1 alpha2).1 - lon) := by
  have e : radians lat = lat / 180 * Real.pi := by unfold radians; ring
  have e' : ∀ x, degrees x = x / Real.pi * 180 := fun x => by unfold degrees; ring
  constructor
  · simp only [deflect, displace, e, e']
  · simp only [deflect, displace, e, e']
    ring

/-- **C47**: as for `displace`, the angular distance is `|alpha|`. -/
theorem deflect_distance (lon lat alpha1 alpha2 : ℝ) :
    dot (unitVec lon lat)
      (unitVec (deflect lon lat alpha1 alpha2).1 (deflect lon lat alpha1 alpha2).2) =
      Real.cos (Real.sqrt (alpha1 ^ 2 + alpha2 ^ 2)) := by
  obtain ⟨h1, h2⟩ := deflect_mirrors lon lat alpha1 alpha2
  rw [← displace_distance lon lat alpha1 alpha2, h1]
  have key : ∀ l l' b b' : ℝ, dot (unitVec l b) (unitVec l' b') =
      Real.cos (rad b) * Real.cos (rad b') * Real.cos (rad (l' - l)) +
        Real.sin (rad b) * Real.sin (rad b') := by
    intro l l' b b'
    have : rad (l' - l) = rad l' - rad l := by unfold rad; ring
    rw [this, Real.cos_sub]
    simp only [dot, unitVec, Matrix.cons_val_zero, Matrix.cons_val_one, Matrix.cons_val]
    ring
  rw [key, key, h2]
  have : rad (-((displace lon lat alpha1 alpha2).1 - lon)) =
      -rad ((displace lon lat alpha1 alpha2).1 - lon) := by unfold rad; ring
  rw [this, Real.cos_neg]

/-- A deflection towards positive `alpha2` decreases the longitude. -/
example : (deflect 10 0 0 (Real.pi / 2)).1 = -80 := by
  have h1 : hypot 0 (Real.pi / 2) = Real.pi / 2 := by
    unfold hypot
    rw [zero_pow (by norm_num), zero_add]
    exact Real.sqrt_sq (by positivity)
  have h2 : atan2 (Real.pi / 2) 0 = Real.pi / 2 := by
    unfold atan2
    have : (⟨0, Real.pi / 2⟩ : ℂ) = ((Real.pi / 2 : ℝ) : ℂ) * Complex.I := by
      apply Complex.ext <;> simp
    rw [this, Complex.arg_real_mul _ (by positivity), Complex.arg_I]
  have h3 : atan2 1 0 = Real.pi / 2 := by
    unfold atan2
    have : (⟨0, 1⟩ : ℂ) = Complex.I := by apply Complex.ext <;> simp
    rw [this, Complex.arg_I]
  have hp := Real.pi_ne_zero
  simp only [deflect, h1, h2, Real.cos_pi_div_two, Real.sin_pi_div_two, mul_zero, sub_zero,
    mul_one]
  rw [h3]
  unfold degrees
  field_simp
  norm_num

end Glass.Points
