import Verif.Points.SphereProps

/-!
# The direction of deflections (C127)

The documentation defines deflections and displacements in one entry (`docs/user/definitions.rst`):
`arg alpha = 0` is north and `arg alpha = 90°` is east.
-/

namespace Glass.Points

/-- The point that the documentation defines for the deflection or displacement
`alpha1 + i alpha2`: the great circle that starts towards `alpha1` north and `alpha2` east, followed
over the angle `|alpha|`. -/
noncomputable def documentedPoint (lon lat alpha1 alpha2 : ℝ) (i : Fin 3) : ℝ :=
  Real.cos (hypot alpha1 alpha2) * unitVec lon lat i +
    Real.sinc (hypot alpha1 alpha2) * (alpha1 * northVec lon lat i + alpha2 * eastVec lon i)

theorem unitVec_mirror (lon d lat : ℝ) (i : Fin 3) : unitVec (lon - d) lat i =
    unitVec (lon + d) lat i - 2 * dot (unitVec (lon + d) lat) (eastVec lon) * eastVec lon i := by
  have h := Real.sin_sq_add_cos_sq (rad lon)
  have e1 : rad (lon - d) = rad lon - rad d := by unfold rad; ring
  have e2 : rad (lon + d) = rad lon + rad d := by unfold rad; ring
  have e3 : dot (unitVec (lon + d) lat) (eastVec lon) = Real.cos (rad lat) * Real.sin (rad d) := by
    simp only [dot, unitVec, eastVec, Matrix.cons_val_zero, Matrix.cons_val_one, Matrix.cons_val, e2,
      Real.cos_add, Real.sin_add]
    linear_combination Real.cos (rad lat) * Real.sin (rad d) * h
  rw [e3]
  fin_cases i
  · simp only [unitVec, eastVec, Fin.zero_eta, Matrix.cons_val_zero, e1, e2, Real.cos_add,
      Real.cos_sub]
    ring
  · simp only [unitVec, eastVec, Fin.mk_one, Matrix.cons_val_one, Matrix.cons_val_zero, e1, e2,
      Real.sin_add, Real.sin_sub]
    ring
  · simp only [unitVec, eastVec, Fin.reduceFinMk, Matrix.cons_val]
    ring

/-- **C127**, what `deflect` computes: the great circle that starts towards `alpha1` north and
`alpha2` *west*. -/
theorem deflect_exponential (lon lat alpha1 alpha2 : ℝ) (i : Fin 3) :
    unitVec (deflect lon lat alpha1 alpha2).1 (deflect lon lat alpha1 alpha2).2 i =
      documentedPoint lon lat alpha1 (-alpha2) i := by
  obtain ⟨h1, h2⟩ := deflect_mirrors lon lat alpha1 alpha2
  set d := (displace lon lat alpha1 alpha2).1 - lon with hd
  have e1 : (deflect lon lat alpha1 alpha2).1 = lon - d := by linarith
  have e2 : lon + d = (displace lon lat alpha1 alpha2).1 := by rw [hd]; ring
  have hh : hypot alpha1 (-alpha2) = hypot alpha1 alpha2 := by unfold hypot; rw [neg_sq]
  have hdot : dot (unitVec (displace lon lat alpha1 alpha2).1 (displace lon lat alpha1 alpha2).2)
      (eastVec lon) = Real.sinc (hypot alpha1 alpha2) * alpha2 := by
    have h := Real.sin_sq_add_cos_sq (rad lon)
    unfold dot
    rw [displace_exponential, displace_exponential, displace_exponential]
    simp only [unitVec, northVec, eastVec, Matrix.cons_val_zero, Matrix.cons_val_one,
      Matrix.cons_val]
    linear_combination Real.sinc (hypot alpha1 alpha2) * alpha2 * h
  rw [e1, h1, unitVec_mirror, e2, hdot, displace_exponential]
  unfold documentedPoint
  rw [hh]
  ring

/-- `displace` reaches the documented point (C45). -/
theorem displace_documented (lon lat alpha1 alpha2 : ℝ) (i : Fin 3) :
    unitVec (displace lon lat alpha1 alpha2).1 (displace lon lat alpha1 alpha2).2 i =
      documentedPoint lon lat alpha1 alpha2 i := displace_exponential lon lat alpha1 alpha2 i

/-- **C127** is **false** for almost all deflections: `deflect` reaches the documented point exactly
if the deflection has no component along the parallel, or its length is a multiple of `π`. -/
theorem deflect_documented_iff (lon lat alpha1 alpha2 : ℝ) :
    unitVec (deflect lon lat alpha1 alpha2).1 (deflect lon lat alpha1 alpha2).2 =
      documentedPoint lon lat alpha1 alpha2 ↔ alpha2 = 0 ∨ Real.sin (hypot alpha1 alpha2) = 0 := by
  have hh : hypot alpha1 (-alpha2) = hypot alpha1 alpha2 := by unfold hypot; rw [neg_sq]
  have hsin : alpha2 = 0 ∨ Real.sin (hypot alpha1 alpha2) = 0 ↔
      Real.sinc (hypot alpha1 alpha2) * alpha2 = 0 := by
    by_cases h0 : alpha2 = 0
    · simp [h0]
    · have hp : 0 < hypot alpha1 alpha2 := Real.sqrt_pos.2 (by positivity)
      rw [Real.sinc_of_ne_zero hp.ne']
      simp [h0, hp.ne']
  rw [hsin]
  constructor
  · intro h
    have h' : ∀ i, documentedPoint lon lat alpha1 (-alpha2) i =
        documentedPoint lon lat alpha1 alpha2 i := fun i => by
      rw [← deflect_exponential, h]
    have hd : ∀ i, Real.sinc (hypot alpha1 alpha2) * alpha2 * eastVec lon i = 0 := by
      intro i
      have := h' i
      unfold documentedPoint at this
      rw [hh] at this
      linarith
    have h1 := hd 0
    have h2 := hd 1
    simp only [eastVec, Matrix.cons_val_zero, Matrix.cons_val_one] at h1 h2
    have h3 := Real.sin_sq_add_cos_sq (rad lon)
    linear_combination (-Real.sin (rad lon)) * h1 + Real.cos (rad lon) * h2 -
      Real.sinc (hypot alpha1 alpha2) * alpha2 * h3
  · intro h
    funext i
    rw [deflect_exponential]
    unfold documentedPoint
    rw [hh]
    linear_combination (-2 * eastVec lon i) * h

/-- **C127** for deflections along the meridian. -/
theorem deflect_documented_partial (lon lat alpha1 : ℝ) :
    unitVec (deflect lon lat alpha1 0).1 (deflect lon lat alpha1 0).2 =
      documentedPoint lon lat alpha1 0 := (deflect_documented_iff lon lat alpha1 0).2 (.inl rfl)

/-- A deflection of a right angle, documented as towards east, goes west. -/
theorem deflect_east_wrong : unitVec (deflect 0 0 0 (Real.pi / 2)).1 (deflect 0 0 0 (Real.pi / 2)).2 ≠
    documentedPoint 0 0 0 (Real.pi / 2) := by
  rw [ne_eq, deflect_documented_iff]
  have h : hypot 0 (Real.pi / 2) = Real.pi / 2 := by
    unfold hypot
    rw [zero_pow (by norm_num), zero_add]
    exact Real.sqrt_sq (by positivity)
  rw [h, Real.sin_pi_div_two]
  have := Real.pi_pos
  rintro (h | h)
  · linarith
  · norm_num at h

end Glass.Points
