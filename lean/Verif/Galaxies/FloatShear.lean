import Verif.Galaxies.ShearMean
import Verif.Shapes.FloatTriaxial
import Verif.Shells.FloatGrid
import Verif.Lensing.FloatPlanes
import Verif.Lensing.ModeFactors

/-!
# Lensed ellipticities in floating point

`galaxy_shear` for one galaxy with every operation rounded.  Complex numbers are multiplied and
divided as in NumPy.
-/

namespace Glass.Galaxies

open Glass.Spectra Glass.Shapes Glass.Lensing

/-! ## Model -/

/-- The sum of complex numbers. -/
noncomputable def caddFl (fl : ℝ → ℝ) (z w : ℂ) : ℂ := ⟨fl (z.re + w.re), fl (z.im + w.im)⟩

/-- The product of complex numbers. -/
noncomputable def cmulFl (fl : ℝ → ℝ) (z w : ℂ) : ℂ :=
  ⟨fl (fl (z.re * w.re) - fl (z.im * w.im)), fl (fl (z.re * w.im) + fl (z.im * w.re))⟩

/-- NumPy's quotient of complex numbers (Smith's algorithm): the smaller part of the divisor is
divided by the larger one.  `none` is NaN or an infinity. -/
noncomputable def cdivFl (fl : ℝ → ℝ) (z w : ℂ) : Option ℂ :=
  if |w.im| ≤ |w.re| then
    if w.re = 0 then none
    else
      let rat := fl (w.im / w.re)
      let scl := fl (1 / fl (w.re + fl (w.im * rat)))
      some ⟨fl (fl (z.re + fl (z.im * rat)) * scl), fl (fl (z.im - fl (z.re * rat)) * scl)⟩
  else
    let rat := fl (w.re / w.im)
    let scl := fl (1 / fl (w.im + fl (w.re * rat)))
    some ⟨fl (fl (fl (z.re * rat) + z.im) * scl), fl (fl (fl (z.im * rat) - z.re) * scl)⟩

/-- `galaxies.py:342`: the lensed ellipticity. -/
noncomputable def lensedFl (fl : ℝ → ℝ) (e g : ℂ) : Option ℂ :=
  cdivFl fl (caddFl fl e g) (caddFl fl 1 (cmulFl fl ((starRingEnd ℂ) g) e))

/-- `galaxies.py:337-345` for one galaxy. -/
noncomputable def galaxyShearFl (fl : ℝ → ℝ) (reducedShear : Bool) (kappa : ℝ) (gamma e : ℂ) :
    Option ℂ :=
  if reducedShear then do
    let g ← cdivFl fl gamma ⟨fl (1 - kappa), 0⟩
    lensedFl fl e g
  else some (caddFl fl gamma e)

/-- Without rounding, the quotient is the quotient. -/
theorem cdiv_fl_real (z w : ℂ) : cdivFl id z w = if w = 0 then none else some (z / w) := by
  have hpos : ∀ {c d : ℝ}, c ≠ 0 → c ^ 2 + d ^ 2 ≠ 0 := by
    intro c d h; positivity
  by_cases hw : w = 0
  · subst hw; simp [cdivFl]
  rw [if_neg hw]
  unfold cdivFl
  simp only [id]
  split_ifs with h1 h2
  · exfalso
    rw [h2, abs_zero] at h1
    exact hw (Complex.ext h2 (abs_eq_zero.1 (le_antisymm h1 (abs_nonneg _))))
  · have := hpos (d := w.im) h2
    have e1 : w.re + w.im * (w.im / w.re) = (w.re ^ 2 + w.im ^ 2) / w.re := by field_simp
    rw [e1]
    congr 1
    apply Complex.ext
    · rw [Complex.div_re, Complex.normSq_apply]
      simp only [← sq]
      field_simp
    · rw [Complex.div_im, Complex.normSq_apply]
      simp only [← sq]
      field_simp
  · have h2 : w.im ≠ 0 := by
      intro h; rw [h, abs_zero] at h1; exact h1 (abs_nonneg _)
    have := hpos (d := w.re) h2
    have h4 : w.re ^ 2 + w.im ^ 2 ≠ 0 := by rw [add_comm]; exact this
    have e1 : w.im + w.re * (w.re / w.im) = (w.re ^ 2 + w.im ^ 2) / w.im := by field_simp; ring
    rw [e1]
    congr 1
    apply Complex.ext
    · rw [Complex.div_re, Complex.normSq_apply]
      simp only [← sq]
      field_simp
    · rw [Complex.div_im, Complex.normSq_apply]
      simp only [← sq]
      field_simp

/-- Without rounding, this is the value of the model. -/
theorem galaxy_shear_fl_real {kappa : ℝ} {gamma e : ℂ} (hk : kappa ≠ 1)
    (h : 1 + (starRingEnd ℂ) (gamma / (1 - kappa)) * e ≠ 0) :
    galaxyShearFl id true kappa gamma e = some (lensed e (gamma / (1 - kappa))) ∧
    galaxyShearFl id false kappa gamma e = some (gamma + e) := by
  have hadd : ∀ z w : ℂ, caddFl id z w = z + w := fun z w => Complex.ext (by simp [caddFl]) (by simp [caddFl])
  have hmul : ∀ z w : ℂ, cmulFl id z w = z * w := fun z w =>
    Complex.ext (by simp [cmulFl]) (by simp [cmulFl])
  have h1 : (⟨id (1 - kappa), 0⟩ : ℂ) = 1 - kappa := Complex.ext (by simp) (by simp)
  have h2 : (1 - (kappa : ℂ)) ≠ 0 := by
    intro h
    apply hk
    have : (kappa : ℂ) = 1 := by linear_combination -h
    exact_mod_cast this
  constructor
  · unfold galaxyShearFl lensedFl
    rw [if_pos rfl, h1, cdiv_fl_real, if_neg h2]
    change cdivFl id _ _ = _
    rw [hadd, hadd, hmul, cdiv_fl_real, if_neg h]
    rfl
  · unfold galaxyShearFl
    rw [if_neg (by simp), hadd]

/-! ## The error of a quotient -/

/-- Adding a number of the same sign. -/
theorem Rel.add_same {k : ℕ} {x y y' : ℝ} (h : Rel k y y') (hxy : 0 ≤ x * y) :
    Rel k (x + y) (x + y') := by
  obtain ⟨a, rfl, h1, h2⟩ := h
  unfold Glass.Lensing.Rel
  have hq : (1 - 1 / 2 ^ 53 : ℝ) ^ k ≤ 1 := pow_le_one₀ (by norm_num) (by norm_num)
  have hq0 : (0 : ℝ) < (1 - 1 / 2 ^ 53) ^ k := pow_pos (by norm_num) _
  have hq1 : 1 ≤ ((1 - 1 / 2 ^ 53 : ℝ) ^ k)⁻¹ := (one_le_inv₀ hq0).2 hq
  generalize ((1 - 1 / 2 ^ 53 : ℝ) ^ k)⁻¹ = hi at *
  generalize (1 - 1 / 2 ^ 53 : ℝ) ^ k = lo at *
  rcases eq_or_ne (x + y) 0 with h0 | h0
  · have hx : x = 0 := by nlinarith [sq_nonneg x, sq_nonneg y]
    have hy : y = 0 := by linarith
    exact ⟨1, by simp [hx, hy], hq, hq1⟩
  · have hs : 0 < (x + y) ^ 2 := by positivity
    have hyt : 0 ≤ y * (x + y) := by nlinarith [sq_nonneg y]
    have hxt : 0 ≤ x * (x + y) := by nlinarith [sq_nonneg x]
    refine ⟨(x + y * a) / (x + y), by field_simp, ?_, ?_⟩
    · have e : (x + y * a) / (x + y) = (x * (x + y) + y * (x + y) * a) / (x + y) ^ 2 := by
        field_simp
      rw [e, le_div_iff₀ hs]
      nlinarith
    · have e : (x + y * a) / (x + y) = (x * (x + y) + y * (x + y) * a) / (x + y) ^ 2 := by
        field_simp
      rw [e, div_le_iff₀ hs]
      nlinarith

/-- The scale of Smith's algorithm. -/
theorem scale_error (R : Rounding) {c d : ℝ} (hc : c ≠ 0) :
    |R.fl (1 / R.fl (c + R.fl (d * R.fl (d / c)))) - c / (c ^ 2 + d ^ 2)| ≤
      5 / 2 ^ 53 * |c / (c ^ 2 + d ^ 2)| := by
  have h1 : Rel 2 (d * (d / c)) (R.fl (d * R.fl (d / c))) := ((Rel.refl d).mul (Rel.fl R _)).round R
  have h2 : 0 ≤ c * (d * (d / c)) := by
    have : c * (d * (d / c)) = d ^ 2 := by field_simp
    rw [this]; positivity
  have h3 : Rel 4 (1 / (c + d * (d / c))) (R.fl (1 / R.fl (c + R.fl (d * R.fl (d / c))))) :=
    ((Rel.refl 1).div ((Rel.add_same h1 h2).round R)).round R
  have e : 1 / (c + d * (d / c)) = c / (c ^ 2 + d ^ 2) := by
    have : c ^ 2 + d ^ 2 ≠ 0 := by positivity
    field_simp
  rw [e] at h3
  exact h3.error (by norm_num) (by norm_num)

/-- The product with the ratio. -/
theorem ratio_error (R : Rounding) {q c d : ℝ} (h : |d| ≤ |c|) :
    |R.fl (q * R.fl (d / c)) - q * (d / c)| ≤ 3 / 2 ^ 53 * |q| ∧ |q * (d / c)| ≤ |q| := by
  have h1 : |d / c| ≤ 1 := by
    rw [abs_div]; exact div_le_one_of_le₀ h (abs_nonneg _)
  have h2 : |q * (d / c)| ≤ |q| := by
    rw [abs_mul]; exact mul_le_of_le_one_right (abs_nonneg _) h1
  have h3 : Rel 2 (q * (d / c)) (R.fl (q * R.fl (d / c))) := ((Rel.refl q).mul (Rel.fl R _)).round R
  refine ⟨(h3.error (e := 3 / 2 ^ 53) (by norm_num) (by norm_num)).trans ?_, h2⟩
  gcongr

/-- The numerators. -/
theorem numerator_error (R : Rounding) {p q t x s : ℝ} (hs : |s| = 1)
    (ht : |t - x| ≤ 3 / 2 ^ 53 * |q|) (hx : |x| ≤ |q|) :
    |R.fl (p + s * t) - (p + s * x)| ≤ 5 / 2 ^ 53 * (|p| + |q|) ∧
      |p + s * x| ≤ |p| + |q| := by
  have hp := abs_nonneg p
  have hq := abs_nonneg q
  have h1 : |p + s * t - (p + s * x)| ≤ 3 / 2 ^ 53 * |q| := by
    have e : p + s * t - (p + s * x) = s * (t - x) := by ring
    rw [e, abs_mul, hs, one_mul]; exact ht
  have h2 : |p + s * x| ≤ |p| + |q| := by
    refine (abs_add_le _ _).trans ?_
    rw [abs_mul, hs, one_mul]; linarith
  have h3 : |p + s * t| ≤ |p| + 5 / 4 * |q| := by
    have e : p + s * t = (p + s * x) + (p + s * t - (p + s * x)) := by ring
    rw [e]
    refine (abs_add_le _ _).trans ((add_le_add h2 h1).trans ?_)
    have : (3 / 2 ^ 53 : ℝ) * |q| ≤ 1 / 4 * |q| :=
      mul_le_mul_of_nonneg_right (by norm_num) hq
    linarith
  refine ⟨next_error R h3 h1 ?_, h2⟩
  have e : 5 / 2 ^ 53 * (|p| + |q|) - ((|p| + 5 / 4 * |q|) / 2 ^ 53 + 3 / 2 ^ 53 * |q|) =
      (4 * |p| + 3 / 4 * |q|) / 2 ^ 53 := by ring
  have : 0 ≤ (4 * |p| + 3 / 4 * |q|) / 2 ^ 53 := by positivity
  linarith

/-- One component of the quotient. -/
theorem component_error (R : Rounding) {n n' s sigma M : ℝ} (hn : |n' - n| ≤ 5 / 2 ^ 53 * M)
    (hM : |n| ≤ M) (hs : |s - sigma| ≤ 5 / 2 ^ 53 * |sigma|) :
    |R.fl (n' * s) - n * sigma| ≤ 12 / 2 ^ 53 * (M * |sigma|) := by
  have hM0 : 0 ≤ M := (abs_nonneg _).trans hM
  have hs0 := abs_nonneg sigma
  have h1 : |n'| ≤ (1 + 5 / 2 ^ 53) * M := by
    have e : n' = n + (n' - n) := by ring
    rw [e]
    refine (abs_add_le _ _).trans ((add_le_add hM hn).trans (by linarith))
  have h2 : |s| ≤ (1 + 5 / 2 ^ 53) * |sigma| := by
    have e : s = sigma + (s - sigma) := by ring
    rw [e]
    refine (abs_add_le _ _).trans ((add_le_add le_rfl hs).trans (by linarith))
  have h3 := product_error h1 (le_refl |sigma|) hn hs
  have h4 : |n' * s| ≤ (1 + 5 / 2 ^ 53) * M * ((1 + 5 / 2 ^ 53) * |sigma|) := by
    rw [abs_mul]; exact mul_le_mul h1 h2 (abs_nonneg _) (by positivity)
  refine next_error R h4 h3 ?_
  have h5 : 0 ≤ M * |sigma| := by positivity
  have e : 12 / 2 ^ 53 * (M * |sigma|) - ((1 + 5 / 2 ^ 53) * M * ((1 + 5 / 2 ^ 53) * |sigma|) / 2 ^ 53 +
      ((1 + 5 / 2 ^ 53) * M * (5 / 2 ^ 53 * |sigma|) + 5 / 2 ^ 53 * M * |sigma|)) =
      (12 / 2 ^ 53 - ((1 + 5 / 2 ^ 53) * (1 + 5 / 2 ^ 53) / 2 ^ 53 +
        ((1 + 5 / 2 ^ 53) * (5 / 2 ^ 53) + 5 / 2 ^ 53))) * (M * |sigma|) := by ring
  have h6 : 0 ≤ (12 / 2 ^ 53 - ((1 + 5 / 2 ^ 53) * (1 + 5 / 2 ^ 53) / 2 ^ 53 +
        ((1 + 5 / 2 ^ 53) * (5 / 2 ^ 53) + 5 / 2 ^ 53)) : ℝ) := by norm_num
  have := mul_nonneg h6 h5
  linarith

theorem sum_abs_le (z : ℂ) : |z.re| + |z.im| ≤ 3 / 2 * ‖z‖ := by
  have h : ‖z‖ ^ 2 = |z.re| ^ 2 + |z.im| ^ 2 := by
    rw [sq_abs, sq_abs, ← Complex.normSq_eq_norm_sq, Complex.normSq_apply]; ring
  have := norm_nonneg z
  have := abs_nonneg z.re
  have := abs_nonneg z.im
  nlinarith [sq_nonneg (|z.re| - |z.im|)]

theorem sigma_bound {c d : ℝ} (hc : c ≠ 0) :
    |c / (c ^ 2 + d ^ 2)| ≤ 1 / Real.sqrt (c ^ 2 + d ^ 2) := by
  have hpos : 0 < c ^ 2 + d ^ 2 := by positivity
  have hs := Real.sqrt_pos.2 hpos
  rw [abs_div, abs_of_pos hpos, div_le_div_iff₀ hpos hs, one_mul]
  nth_rewrite 2 [← Real.mul_self_sqrt hpos.le]
  gcongr
  rw [← Real.sqrt_sq_eq_abs]
  exact Real.sqrt_le_sqrt (by nlinarith [sq_nonneg d])

/-- The error of NumPy's quotient of complex numbers. -/
theorem cdiv_error (R : Rounding) (z : ℂ) {w : ℂ} (hw : w ≠ 0) :
    ∃ q, cdivFl R.fl z w = some q ∧ ‖q - z / w‖ ≤ 36 / 2 ^ 53 * ‖z / w‖ := by
  have fin : ∀ q : ℂ, |q.re - (z / w).re| ≤ 12 / 2 ^ 53 * ((|z.re| + |z.im|) * (1 / ‖w‖)) →
      |q.im - (z / w).im| ≤ 12 / 2 ^ 53 * ((|z.re| + |z.im|) * (1 / ‖w‖)) →
      ‖q - z / w‖ ≤ 36 / 2 ^ 53 * ‖z / w‖ := by
    intro q h1 h2
    refine (Complex.norm_le_abs_re_add_abs_im _).trans ((add_le_add h1 h2).trans ?_)
    have h3 := sum_abs_le z
    have hn := norm_pos_iff.2 hw
    have h4 : (|z.re| + |z.im|) * (1 / ‖w‖) ≤ 3 / 2 * ‖z‖ * (1 / ‖w‖) := by gcongr
    rw [norm_div]
    have e : 36 / 2 ^ 53 * (‖z‖ / ‖w‖) = 2 * (12 / 2 ^ 53 * (3 / 2 * ‖z‖ * (1 / ‖w‖))) := by ring
    rw [e]
    have h5 : 12 / 2 ^ 53 * ((|z.re| + |z.im|) * (1 / ‖w‖)) ≤
        12 / 2 ^ 53 * (3 / 2 * ‖z‖ * (1 / ‖w‖)) := by gcongr
    linarith
  have hnorm : ‖w‖ = Real.sqrt (w.re ^ 2 + w.im ^ 2) := Complex.norm_eq_sqrt_sq_add_sq w
  unfold cdivFl
  dsimp only
  by_cases h1 : |w.im| ≤ |w.re|
  · have h2 : w.re ≠ 0 := by
      intro h; rw [h, abs_zero] at h1
      exact hw (Complex.ext h (abs_eq_zero.1 (le_antisymm h1 (abs_nonneg _))))
    rw [if_pos h1, if_neg h2]
    refine ⟨_, rfl, fin _ ?_ ?_⟩
    · obtain ⟨r1, r2⟩ := ratio_error R (q := z.im) h1
      obtain ⟨n1, n2⟩ := numerator_error R (p := z.re) (s := 1) (by simp) r1 r2
      rw [one_mul, one_mul] at n1
      rw [one_mul] at n2
      have := component_error R n1 n2 (scale_error R (d := w.im) h2)
      have e : (z / w).re = (z.re + z.im * (w.im / w.re)) * (w.re / (w.re ^ 2 + w.im ^ 2)) := by
        have := (show w.re ^ 2 + w.im ^ 2 ≠ 0 by positivity)
        rw [Complex.div_re, Complex.normSq_apply]
        simp only [← sq]
        field_simp
      rw [e]
      refine this.trans ?_
      rw [hnorm]
      have := sigma_bound (d := w.im) h2
      gcongr
    · obtain ⟨r1, r2⟩ := ratio_error R (q := z.re) h1
      obtain ⟨n1, n2⟩ := numerator_error R (p := z.im) (s := -1) (by simp) r1 r2
      rw [neg_one_mul, neg_one_mul, ← sub_eq_add_neg, ← sub_eq_add_neg] at n1
      rw [neg_one_mul, ← sub_eq_add_neg] at n2
      have := component_error R n1 n2 (scale_error R (d := w.im) h2)
      have e : (z / w).im = (z.im - z.re * (w.im / w.re)) * (w.re / (w.re ^ 2 + w.im ^ 2)) := by
        have := (show w.re ^ 2 + w.im ^ 2 ≠ 0 by positivity)
        rw [Complex.div_im, Complex.normSq_apply]
        simp only [← sq]
        field_simp
      rw [e]
      refine this.trans ?_
      rw [hnorm, add_comm |z.im|]
      have := sigma_bound (d := w.im) h2
      gcongr
  · have h2 : w.im ≠ 0 := by
      intro h; rw [h, abs_zero] at h1; exact h1 (abs_nonneg _)
    have h3 : |w.re| ≤ |w.im| := (not_le.1 h1).le
    have h4 : w.re ^ 2 + w.im ^ 2 ≠ 0 := by positivity
    rw [if_neg h1]
    refine ⟨_, rfl, fin _ ?_ ?_⟩
    · obtain ⟨r1, r2⟩ := ratio_error R (q := z.re) h3
      obtain ⟨n1, n2⟩ := numerator_error R (p := z.im) (s := 1) (by simp) r1 r2
      rw [one_mul, one_mul, add_comm z.im (R.fl _)] at n1
      rw [one_mul] at n2
      have := component_error R n1 n2 (scale_error R (d := w.re) h2)
      have e : (z / w).re = (z.im + z.re * (w.re / w.im)) * (w.im / (w.im ^ 2 + w.re ^ 2)) := by
        rw [add_comm (w.im ^ 2), Complex.div_re, Complex.normSq_apply]
        simp only [← sq]
        field_simp
        ring
      rw [e]
      refine this.trans ?_
      rw [hnorm, add_comm |z.im|, add_comm (w.re ^ 2)]
      have := sigma_bound (d := w.re) h2
      gcongr
    · obtain ⟨r1, r2⟩ := ratio_error R (q := z.im) h3
      have n1 : |R.fl (R.fl (z.im * R.fl (w.re / w.im)) - z.re) -
          (z.im * (w.re / w.im) - z.re)| ≤ 5 / 2 ^ 53 * (|z.re| + |z.im|) ∧
          |z.im * (w.re / w.im) - z.re| ≤ |z.re| + |z.im| := by
        obtain ⟨m1, m2⟩ := numerator_error R (p := -z.re) (s := 1) (by simp) r1 r2
        rw [one_mul, one_mul, abs_neg, neg_add_eq_sub, neg_add_eq_sub] at m1
        rw [one_mul, abs_neg, neg_add_eq_sub] at m2
        exact ⟨m1, m2⟩
      have := component_error R n1.1 n1.2 (scale_error R (d := w.re) h2)
      have e : (z / w).im = (z.im * (w.re / w.im) - z.re) * (w.im / (w.im ^ 2 + w.re ^ 2)) := by
        rw [add_comm (w.im ^ 2), Complex.div_im, Complex.normSq_apply]
        simp only [← sq]
        field_simp
      rw [e]
      refine this.trans ?_
      rw [hnorm, add_comm (w.re ^ 2)]
      have := sigma_bound (d := w.re) h2
      gcongr

/-! ## C158 -/

/-- A rounded product of two numbers of the unit disc, and one. -/
theorem denominator_error (R : Rounding) {e g : ℂ} (he : ‖e‖ ≤ 1) (hg : ‖g‖ ≤ 1) :
    ‖caddFl R.fl 1 (cmulFl R.fl ((starRingEnd ℂ) g) e) - (1 + (starRingEnd ℂ) g * e)‖ ≤
      11 / 2 ^ 53 := by
  have key : ∀ a b c d : ℝ, a ^ 2 + b ^ 2 ≤ 1 → c ^ 2 + d ^ 2 ≤ 1 → |a * c| + |b * d| ≤ 1 := by
    intro a b c d h1 h2
    rw [abs_mul, abs_mul]
    nlinarith [sq_nonneg (|a| - |c|), sq_nonneg (|b| - |d|), sq_abs a, sq_abs b, sq_abs c, sq_abs d]
  have hsq : ∀ z : ℂ, ‖z‖ ≤ 1 → z.re ^ 2 + z.im ^ 2 ≤ 1 := by
    intro z h
    have h1 := Complex.normSq_apply z
    rw [Complex.normSq_eq_norm_sq] at h1
    nlinarith [norm_nonneg z]
  have hg2 := hsq g hg
  have he2 := hsq e he
  -- a rounded sum of two rounded products
  have two : ∀ x y s : ℝ, |x| + |y| ≤ 1 → |s| = 1 → |R.fl (R.fl x + s * R.fl y) - (x + s * y)| ≤
      3 / 2 ^ 53 ∧ |R.fl (R.fl x + s * R.fl y)| ≤ 2 := by
    intro x y s h hs
    have h1 : |R.fl x + s * R.fl y - (x + s * y)| ≤ 1 / 2 ^ 53 := by
      have e' : R.fl x + s * R.fl y - (x + s * y) = (R.fl x - x) + s * (R.fl y - y) := by ring
      rw [e']
      refine (abs_add_le _ _).trans ?_
      rw [abs_mul, hs, one_mul]
      refine (add_le_add (R.error x) (R.error y)).trans ?_
      rw [← add_div]; gcongr
    have h0 : |x + s * y| ≤ 1 := by
      refine (abs_add_le _ _).trans ?_
      rw [abs_mul, hs, one_mul]; exact h
    have h2 : |R.fl x + s * R.fl y| ≤ 2 := by
      have e' : R.fl x + s * R.fl y = (x + s * y) + (R.fl x + s * R.fl y - (x + s * y)) := by ring
      rw [e']
      refine (abs_add_le _ _).trans ((add_le_add h0 h1).trans (by norm_num))
    have h3 := next_error R h2 h1 (E := 3 / 2 ^ 53) (by norm_num)
    refine ⟨h3, ?_⟩
    have e' : R.fl (R.fl x + s * R.fl y) = (x + s * y) +
      (R.fl (R.fl x + s * R.fl y) - (x + s * y)) := by ring
    rw [e']
    refine (abs_add_le _ _).trans ((add_le_add h0 h3).trans (by norm_num))
  obtain ⟨a1, a2⟩ := two (g.re * e.re) (-g.im * e.im) (-1)
    (by rw [neg_mul, abs_neg]; exact key _ _ _ _ hg2 he2) (by simp)
  obtain ⟨b1, b2⟩ := two (g.re * e.im) (-g.im * e.re) 1
    (by rw [neg_mul, abs_neg]; exact key _ _ _ _ hg2 (by linarith)) (by simp)
  rw [neg_one_mul, ← sub_eq_add_neg] at a1 a2
  rw [one_mul] at b1 b2
  unfold caddFl cmulFl
  simp only [Complex.conj_re, Complex.conj_im, Complex.one_re, Complex.one_im, zero_add]
  generalize R.fl (R.fl (g.re * e.re) - R.fl (-g.im * e.im)) = p at *
  generalize R.fl (R.fl (g.re * e.im) + R.fl (-g.im * e.re)) = q at *
  have c1 : |R.fl (1 + p) - (1 + (g.re * e.re + -1 * (-g.im * e.im)))| ≤ 6 / 2 ^ 53 := by
    refine next_error R (B := 3) ?_ (e := 3 / 2 ^ 53) ?_ (by norm_num)
    · refine (abs_add_le _ _).trans ?_
      rw [abs_one]; linarith
    · rw [add_sub_add_left_eq_sub]; exact a1
  have c2 : |R.fl q - (g.re * e.im + 1 * (-g.im * e.re))| ≤ 5 / 2 ^ 53 :=
    next_error R b2 (e := 3 / 2 ^ 53) b1 (by norm_num)
  refine (Complex.norm_le_abs_re_add_abs_im _).trans ?_
  have e1 : (⟨R.fl (1 + p), R.fl q⟩ - (1 + (starRingEnd ℂ) g * e) : ℂ).re =
      R.fl (1 + p) - (1 + (g.re * e.re + -1 * (-g.im * e.im))) := by
    simp
  have e2 : (⟨R.fl (1 + p), R.fl q⟩ - (1 + (starRingEnd ℂ) g * e) : ℂ).im =
      R.fl q - (g.re * e.im + 1 * (-g.im * e.re)) := by
    simp
  rw [e1, e2]
  refine (add_le_add c1 c2).trans (by norm_num)

theorem numerator_sum_error (R : Rounding) {e g : ℂ} (he : ‖e‖ ≤ 1) (hg : ‖g‖ ≤ 1) :
    ‖caddFl R.fl e g - (e + g)‖ ≤ 4 / 2 ^ 53 := by
  have h1 : |e.re + g.re| ≤ 2 := (abs_add_le _ _).trans
    (by linarith [Complex.abs_re_le_norm e, Complex.abs_re_le_norm g])
  have h2 : |e.im + g.im| ≤ 2 := (abs_add_le _ _).trans
    (by linarith [Complex.abs_im_le_norm e, Complex.abs_im_le_norm g])
  refine (Complex.norm_le_abs_re_add_abs_im _).trans ?_
  refine (add_le_add (fl_error R h1) (fl_error R h2)).trans (by norm_num)

/-- **C158**, accuracy: the computed ellipticity is within `60 * 2 ^ -53 / (1 - |g|)` of the exact
one, for every ellipticity of the closed unit disc and every reduced shear below one. -/
theorem lensed_fl_accurate (R : Rounding) {e g : ℂ} (he : ‖e‖ ≤ 1) (hg : ‖g‖ ≤ 1 - 1 / 2 ^ 40) :
    ∃ q, lensedFl R.fl e g = some q ∧ ‖q - lensed e g‖ ≤ 60 / 2 ^ 53 / (1 - ‖g‖) := by
  have hg1 : ‖g‖ < 1 := hg.trans_lt (by norm_num)
  set D := 1 + (starRingEnd ℂ) g * e with hD
  set N := e + g with hN
  set D' := caddFl R.fl 1 (cmulFl R.fl ((starRingEnd ℂ) g) e) with hD'
  set N' := caddFl R.fl e g with hN'
  have dD : ‖D' - D‖ ≤ 11 / 2 ^ 53 := denominator_error R he hg1.le
  have dN : ‖N' - N‖ ≤ 4 / 2 ^ 53 := numerator_sum_error R he hg1.le
  have hη : 0 < 1 - ‖g‖ := by linarith
  have hDη : 1 - ‖g‖ ≤ ‖D‖ := by
    have h1 : ‖(starRingEnd ℂ) g * e‖ ≤ ‖g‖ := by
      rw [norm_mul, Complex.norm_conj]
      exact mul_le_of_le_one_right (norm_nonneg _) he
    have h2 := norm_sub_norm_le (1 : ℂ) (-((starRingEnd ℂ) g * e))
    rw [sub_neg_eq_add, norm_neg, norm_one] at h2
    linarith
  have hsmall : (15 / 2 ^ 53 : ℝ) ≤ 1 / 100 * (1 - ‖g‖) := by
    have : (15 / 2 ^ 53 : ℝ) ≤ 1 / 100 * (1 / 2 ^ 40) := by norm_num
    linarith
  have hD'η : 99 / 100 * (1 - ‖g‖) ≤ ‖D'‖ := by
    have h1 := norm_sub_norm_le D D'
    rw [norm_sub_rev] at h1
    have : (11 / 2 ^ 53 : ℝ) ≤ 15 / 2 ^ 53 := by norm_num
    linarith
  have hD'0 : D' ≠ 0 := norm_pos_iff.1 (lt_of_lt_of_le (by positivity) hD'η)
  have hD0 : D ≠ 0 := norm_pos_iff.1 (hη.trans_le hDη)
  have hl : ‖N / D‖ ≤ 1 := lensed_norm_le he hg1
  have hquot : ‖N' / D' - N / D‖ ≤ 16 / 2 ^ 53 / (1 - ‖g‖) := by
    have e1 : N' / D' - N / D = ((N' - N) - N / D * (D' - D)) / D' := by
      field_simp
      ring
    rw [e1, norm_div]
    have h1 : ‖(N' - N) - N / D * (D' - D)‖ ≤ 15 / 2 ^ 53 := by
      refine (norm_sub_le _ _).trans ?_
      rw [norm_mul]
      have : ‖N / D‖ * ‖D' - D‖ ≤ 1 * (11 / 2 ^ 53) := by gcongr
      have e2 : (15 / 2 ^ 53 : ℝ) = 4 / 2 ^ 53 + 1 * (11 / 2 ^ 53) := by norm_num
      rw [e2]
      exact add_le_add dN this
    calc ‖(N' - N) - N / D * (D' - D)‖ / ‖D'‖ ≤ 15 / 2 ^ 53 / (99 / 100 * (1 - ‖g‖)) := by gcongr
      _ = (15 / (99 / 100)) / 2 ^ 53 / (1 - ‖g‖) := by field_simp
      _ ≤ _ := by gcongr; norm_num
  obtain ⟨q, hq1, hq2⟩ := cdiv_error R N' hD'0
  refine ⟨q, hq1, ?_⟩
  have hN'D' : ‖N' / D'‖ ≤ 51 / 50 := by
    have e1 : N' / D' = N / D + (N' / D' - N / D) := by ring
    rw [e1]
    refine (norm_add_le _ _).trans ?_
    have : 16 / 2 ^ 53 / (1 - ‖g‖) ≤ 1 / 50 := by
      rw [div_le_iff₀ hη]
      norm_num at hsmall ⊢
      linarith
    linarith
  have hq3 : ‖q - N' / D'‖ ≤ 37 / 2 ^ 53 / (1 - ‖g‖) := by
    refine hq2.trans ?_
    have h1 : 36 / 2 ^ 53 * ‖N' / D'‖ ≤ 36 / 2 ^ 53 * (51 / 50) := by gcongr
    refine h1.trans ?_
    rw [le_div_iff₀ hη]
    have h2 : (36 / 2 ^ 53 * (51 / 50) : ℝ) ≤ 37 / 2 ^ 53 := by norm_num
    have h3 := norm_nonneg g
    have h4 : (36 / 2 ^ 53 * (51 / 50) : ℝ) * (1 - ‖g‖) ≤ 36 / 2 ^ 53 * (51 / 50) * 1 := by
      gcongr; linarith
    linarith
  have e1 : q - lensed e g = (q - N' / D') + (N' / D' - N / D) := by
    unfold lensed; ring
  rw [e1]
  refine (norm_add_le _ _).trans ((add_le_add hq3 hquot).trans ?_)
  rw [← add_div, ← add_div]
  gcongr
  norm_num

/-- **C158**, modulus: lensed ellipticities exceed the unit disc by rounding errors at most. -/
theorem lensed_fl_le (R : Rounding) {e g : ℂ} (he : ‖e‖ ≤ 1) (hg : ‖g‖ ≤ 1 - 1 / 2 ^ 40) :
    ∃ q, lensedFl R.fl e g = some q ∧ ‖q‖ ≤ 1 + 60 / 2 ^ 53 / (1 - ‖g‖) := by
  obtain ⟨q, h1, h2⟩ := lensed_fl_accurate R he hg
  refine ⟨q, h1, ?_⟩
  have h3 := lensed_norm_le he (hg.trans_lt (by norm_num))
  have e1 : q = lensed e g + (q - lensed e g) := by ring
  rw [e1]
  exact (norm_add_le _ _).trans (add_le_add h3 h2)

/-- **C158**, the part that holds: ellipticities stay inside the unit disc if they are not within
rounding errors of its boundary. -/
theorem lensed_fl_inside_partial (R : Rounding) {e g : ℂ} (he : ‖e‖ ≤ 1)
    (hg : ‖g‖ ≤ 1 - 1 / 2 ^ 40) (h : 480 / 2 ^ 53 < (1 - ‖e‖) * (1 - ‖g‖) ^ 2) :
    ∃ q, lensedFl R.fl e g = some q ∧ ‖q‖ < 1 := by
  obtain ⟨q, h1, h2⟩ := lensed_fl_accurate R he hg
  refine ⟨q, h1, ?_⟩
  have hg1 : ‖g‖ < 1 := hg.trans_lt (by norm_num)
  have hη : 0 < 1 - ‖g‖ := by linarith
  have hD0 := one_add_ne_zero he hg1
  have hDpos := norm_pos_iff.2 hD0
  have hl : ‖lensed e g‖ ≤ 1 - (1 - ‖e‖) * (1 - ‖g‖) / 8 := by
    have h3 := normSq_lensed e g
    rw [Complex.normSq_eq_norm_sq, Complex.normSq_eq_norm_sq, Complex.normSq_eq_norm_sq,
      Complex.normSq_eq_norm_sq] at h3
    have hD2 : ‖1 + (starRingEnd ℂ) g * e‖ ≤ 2 := by
      refine (norm_add_le _ _).trans ?_
      rw [norm_one, norm_mul, Complex.norm_conj]
      have : ‖g‖ * ‖e‖ ≤ 1 := mul_le_one₀ hg1.le (norm_nonneg _) he
      linarith
    have hx : ‖lensed e g‖ * ‖1 + (starRingEnd ℂ) g * e‖ = ‖e + g‖ := by
      unfold lensed
      rw [norm_div, div_mul_cancel₀ _ hDpos.ne']
    rw [← hx] at h3
    have hlow := lensed_norm_le he hg1
    generalize ‖lensed e g‖ = x at *
    generalize ‖1 + (starRingEnd ℂ) g * e‖ = D at *
    have hen := norm_nonneg e
    have hgn := norm_nonneg g
    generalize ‖e‖ = a at *
    generalize ‖g‖ = b at *
    have k1 : D ^ 2 * (1 - x ^ 2) = (1 - a ^ 2) * (1 - b ^ 2) := by linarith
    have k2 : (1 - a) * (1 - b) ≤ (1 - a ^ 2) * (1 - b ^ 2) := by
      have : (1 - a ^ 2) * (1 - b ^ 2) = (1 - a) * (1 - b) * ((1 + a) * (1 + b)) := by ring
      rw [this]
      refine le_mul_of_one_le_right (mul_nonneg (by linarith) hη.le) ?_
      nlinarith
    rcases le_total 0 (1 - x) with hx1 | hx1
    · rcases lt_or_ge x (-1) with hx2 | hx2
      · have : (1 - a) * (1 - b) ≤ 1 := mul_le_one₀ (by linarith) hη.le (by linarith)
        linarith
      · have k3 : (1 - x) * (1 + x) ≤ (1 - x) * 2 := by gcongr; linarith
        have k4 : D ^ 2 ≤ 4 := by nlinarith
        have k5 : 0 ≤ 1 - x ^ 2 := by nlinarith
        have k6 : D ^ 2 * (1 - x ^ 2) ≤ 4 * (1 - x ^ 2) := by gcongr
        nlinarith
    · have hx2 : x = 1 := by linarith
      rw [hx2] at k1
      linarith
  have e1 : q = lensed e g + (q - lensed e g) := by ring
  rw [e1]
  refine lt_of_le_of_lt ((norm_add_le _ _).trans (add_le_add hl h2)) ?_
  have h5 : 60 / 2 ^ 53 / (1 - ‖g‖) < (1 - ‖e‖) * (1 - ‖g‖) / 8 := by
    rw [div_lt_iff₀ hη]
    have e2 : (480 / 2 ^ 53 : ℝ) = 8 * (60 / 2 ^ 53) := by norm_num
    rw [e2] at h
    nlinarith
  linarith

/-- **C158**, the whole function: with a convergence, and a reduced shear computed with rounding
errors as well. -/
theorem galaxy_shear_fl_le (R : Rounding) {kappa : ℝ} {gamma e : ℂ} (he : ‖e‖ ≤ 1)
    (hk : kappa ≠ 1) (hg : ‖gamma / (1 - kappa)‖ ≤ 1 - 1 / 2 ^ 39) :
    ∃ q, galaxyShearFl R.fl true kappa gamma e = some q ∧
      ‖q‖ ≤ 1 + 61 / 2 ^ 53 / (1 - ‖gamma / (1 - kappa)‖) := by
  set g := gamma / (1 - (kappa : ℂ)) with hgdef
  have hk' : 1 - kappa ≠ 0 := sub_ne_zero.2 hk.symm
  have hkpos : 0 < |1 - kappa| := abs_pos.2 hk'
  have hd := R.error (1 - kappa)
  have hd' : |R.fl (1 - kappa)| ≥ (1 - 1 / 2 ^ 53) * |1 - kappa| := by
    have h1 := abs_sub_abs_le_abs_sub (1 - kappa) (R.fl (1 - kappa))
    rw [abs_sub_comm (1 - kappa) (R.fl (1 - kappa))] at h1
    have h2 : |1 - kappa| / 2 ^ 53 = 1 / 2 ^ 53 * |1 - kappa| := by ring
    nlinarith
  have hfl0 : R.fl (1 - kappa) ≠ 0 := by
    intro h
    rw [h, abs_zero] at hd'
    have : 0 < (1 - 1 / 2 ^ 53) * |1 - kappa| := mul_pos (by norm_num) hkpos
    linarith
  have hw : (⟨R.fl (1 - kappa), 0⟩ : ℂ) = ((R.fl (1 - kappa) : ℝ) : ℂ) := rfl
  have hw0 : (⟨R.fl (1 - kappa), 0⟩ : ℂ) ≠ 0 := by
    rw [hw]; exact_mod_cast hfl0
  obtain ⟨g', hg1, hg2⟩ := cdiv_error R gamma hw0
  have hgn := norm_nonneg g
  have hquot : ‖gamma / (⟨R.fl (1 - kappa), 0⟩ : ℂ)‖ ≤ (1 + 2 / 2 ^ 53) * ‖g‖ := by
    rw [hw, hgdef, norm_div, norm_div, Complex.norm_real, Real.norm_eq_abs]
    have e1 : ‖(1 : ℂ) - kappa‖ = |1 - kappa| := by
      rw [← Complex.ofReal_one, ← Complex.ofReal_sub, Complex.norm_real, Real.norm_eq_abs]
    rw [e1, div_le_iff₀ (abs_pos.2 hfl0)]
    have h3 : (1 + 2 / 2 ^ 53) * (‖gamma‖ / |1 - kappa|) * ((1 - 1 / 2 ^ 53) * |1 - kappa|) ≤
        (1 + 2 / 2 ^ 53) * (‖gamma‖ / |1 - kappa|) * |R.fl (1 - kappa)| := by
      gcongr
    refine le_trans ?_ h3
    have e2 : (1 + 2 / 2 ^ 53) * (‖gamma‖ / |1 - kappa|) * ((1 - 1 / 2 ^ 53) * |1 - kappa|) =
        ((1 + 2 / 2 ^ 53) * (1 - 1 / 2 ^ 53)) * ‖gamma‖ := by
      field_simp
    rw [e2]
    exact le_mul_of_one_le_left (norm_nonneg _) (by norm_num)
  have hg' : ‖g'‖ ≤ ‖g‖ + 39 / 2 ^ 53 := by
    have e1 : g' = gamma / (⟨R.fl (1 - kappa), 0⟩ : ℂ) +
      (g' - gamma / (⟨R.fl (1 - kappa), 0⟩ : ℂ)) := by ring
    rw [e1]
    refine (norm_add_le _ _).trans ?_
    have h4 : ‖g‖ ≤ 1 := hg.trans (by norm_num)
    have h5 : (1 + 36 / 2 ^ 53) * ‖gamma / (⟨R.fl (1 - kappa), 0⟩ : ℂ)‖ ≤
        (1 + 36 / 2 ^ 53) * ((1 + 2 / 2 ^ 53) * ‖g‖) := by gcongr
    have h6 : (1 + 36 / 2 ^ 53) * ((1 + 2 / 2 ^ 53) * ‖g‖) =
        ‖g‖ + ((1 + 36 / 2 ^ 53) * (1 + 2 / 2 ^ 53) - 1) * ‖g‖ := by ring
    have h7 : ((1 + 36 / 2 ^ 53) * (1 + 2 / 2 ^ 53) - 1) * ‖g‖ ≤ 39 / 2 ^ 53 * 1 :=
      mul_le_mul (by norm_num) h4 hgn (by norm_num)
    linarith
  have hbig : (61 * 39 / 2 ^ 53 : ℝ) ≤ 1 / 2 ^ 39 := by norm_num
  obtain ⟨q, hq1, hq2⟩ := lensed_fl_le R he (g := g') (by
    have : (39 / 2 ^ 53 : ℝ) ≤ 1 / 2 ^ 39 - 1 / 2 ^ 40 := by norm_num
    linarith)
  refine ⟨q, ?_, hq2.trans ?_⟩
  · unfold galaxyShearFl
    rw [if_pos rfl, hg1]
    exact hq1
  · have hη : 0 < 1 - ‖g‖ := by
      have : (0 : ℝ) < 1 / 2 ^ 39 := by norm_num
      linarith
    have h8 : 60 / 61 * (1 - ‖g‖) ≤ 1 - ‖g'‖ := by
      have e1 : (61 * 39 / 2 ^ 53 : ℝ) = 61 * (39 / 2 ^ 53) := by ring
      linarith
    have h9 : 60 / 2 ^ 53 / (1 - ‖g'‖) ≤ 60 / 2 ^ 53 / (60 / 61 * (1 - ‖g‖)) := by gcongr
    have e2 : 60 / 2 ^ 53 / (60 / 61 * (1 - ‖g‖)) = 61 / 2 ^ 53 / (1 - ‖g‖) := by
      field_simp
    linarith

/-- **C158**, refuted in general: an ellipticity inside the unit disc and a shear of 0.18, without
convergence, give an ellipticity outside the unit disc in double precision. -/
theorem float_lensed_outside :
    ‖(⟨1 - 1 / 2 ^ 53, 0⟩ : ℂ)‖ < 1 ∧ ‖(⟨1 / 8, 1 / 8⟩ : ℂ)‖ < 1 / 5 ∧
    ∃ q, galaxyShearFl roundDouble true 0 ⟨1 / 8, 1 / 8⟩ ⟨1 - 1 / 2 ^ 53, 0⟩ = some q ∧ 1 < ‖q‖ := by
  have h0 : roundDouble 0 = 0 := double.zero
  have h00 : roundDouble 1 = 1 := double.one
  have h1 : roundDouble (1 / 8 * (1 - 1 / 2 ^ 53)) = 9007199254740991 / 2 ^ 56 := by
    rw [Glass.Shells.roundDouble_of _ (-4) 9007199254740991 (by norm_num) (by norm_num) (by rw [abs_lt]; norm_num)]
    norm_num
  have h2 : roundDouble (-(1 / 8) * (1 - 1 / 2 ^ 53)) = -9007199254740991 / 2 ^ 56 := by
    rw [show (-(1 / 8) * (1 - 1 / 2 ^ 53) : ℝ) = -(9007199254740991 / 2 ^ 56) by norm_num, roundDouble_neg,
      Glass.Shells.roundDouble_of _ (-4) 9007199254740991 (by norm_num) (by norm_num) (by rw [abs_lt]; norm_num)]
    norm_num
  have h3 : roundDouble (9007199254740991 / 2 ^ 56) = 9007199254740991 / 2 ^ 56 := by
    rw [Glass.Shells.roundDouble_of _ (-4) 9007199254740991 (by norm_num) (by norm_num) (by rw [abs_lt]; norm_num)]
    norm_num
  have h4 : roundDouble (-9007199254740991 / 2 ^ 56) = -9007199254740991 / 2 ^ 56 := by
    rw [show (-9007199254740991 / 2 ^ 56 : ℝ) = -(9007199254740991 / 2 ^ 56) by norm_num, roundDouble_neg,
      Glass.Shells.roundDouble_of _ (-4) 9007199254740991 (by norm_num) (by norm_num) (by rw [abs_lt]; norm_num)]
    norm_num
  have h5 : roundDouble (1 + 9007199254740991 / 2 ^ 56) = 9 / 2 ^ 3 := by
    rw [Glass.Shells.roundDouble_of _ 0 5066549580791808 (by norm_num) (by norm_num) (by rw [abs_lt]; norm_num)]
    norm_num
  have h6 : roundDouble (1 - 1 / 2 ^ 53 + 1 / 8) = 9 / 2 ^ 3 := by
    rw [Glass.Shells.roundDouble_tie _ 0 5066549580791808 (by norm_num) (by norm_num) (by decide) (by norm_num [abs_of_neg, abs_of_pos])]
    norm_num
  have h7 : roundDouble (1 / 8) = 1 / 2 ^ 3 := by
    rw [Glass.Shells.roundDouble_of _ (-3) 4503599627370496 (by norm_num) (by norm_num) (by rw [abs_lt]; norm_num)]
    norm_num
  have h8 : roundDouble (-9007199254740991 / 2 ^ 56 / (9 / 2 ^ 3)) = -2001599834386887 / 2 ^ 54 := by
    rw [show (-9007199254740991 / 2 ^ 56 / (9 / 2 ^ 3) : ℝ) = -(9007199254740991 / 81064793292668928) by norm_num, roundDouble_neg,
      Glass.Shells.roundDouble_of _ (-4) 8006399337547548 (by norm_num) (by norm_num) (by rw [abs_lt]; norm_num)]
    norm_num
  have h9 : roundDouble (-9007199254740991 / 2 ^ 56 * (-2001599834386887 / 2 ^ 54)) = 8006399337547547 / 2 ^ 59 := by
    rw [Glass.Shells.roundDouble_of _ (-7) 8006399337547547 (by norm_num) (by norm_num) (by rw [abs_lt]; norm_num)]
    norm_num
  have h10 : roundDouble (9 / 2 ^ 3 + 8006399337547547 / 2 ^ 59) = 2564549787808199 / 2 ^ 51 := by
    rw [Glass.Shells.roundDouble_of _ 0 5129099575616398 (by norm_num) (by norm_num) (by rw [abs_lt]; norm_num)]
    norm_num
  have h11 : roundDouble (1 / (2564549787808199 / 2 ^ 51)) = 7908760321235993 / 2 ^ 53 := by
    rw [Glass.Shells.roundDouble_of _ (-1) 7908760321235993 (by norm_num) (by norm_num) (by rw [abs_lt]; norm_num)]
    norm_num
  have h12 : roundDouble (1 / 8 * (-2001599834386887 / 2 ^ 54)) = -2001599834386887 / 2 ^ 57 := by
    rw [show (1 / 8 * (-2001599834386887 / 2 ^ 54) : ℝ) = -(2001599834386887 / 2 ^ 57) by norm_num, roundDouble_neg,
      Glass.Shells.roundDouble_of _ (-7) 8006399337547548 (by norm_num) (by norm_num) (by rw [abs_lt]; norm_num)]
    norm_num
  have h13 : roundDouble (9 / 2 ^ 3 + -2001599834386887 / 2 ^ 57) = 2501999792983609 / 2 ^ 51 := by
    rw [Glass.Shells.roundDouble_of _ 0 5003999585967218 (by norm_num) (by norm_num) (by rw [abs_lt]; norm_num)]
    norm_num
  have h14 : roundDouble (2501999792983609 / 2 ^ 51 * (7908760321235993 / 2 ^ 53)) = 8787511468039993 / 2 ^ 53 := by
    rw [Glass.Shells.roundDouble_of _ (-1) 8787511468039993 (by norm_num) (by norm_num) (by rw [abs_lt]; norm_num)]
    norm_num
  have h15 : roundDouble (9 / 2 ^ 3 * (-2001599834386887 / 2 ^ 54)) = -1 / 2 ^ 3 := by
    rw [show (9 / 2 ^ 3 * (-2001599834386887 / 2 ^ 54) : ℝ) = -(18014398509481983 / 2 ^ 57) by norm_num, roundDouble_neg,
      Glass.Shells.roundDouble_tie _ (-4) 9007199254740992 (by norm_num) (by norm_num) (by decide) (by norm_num [abs_of_neg, abs_of_pos])]
    norm_num
  have h16 : roundDouble (1 / 8 - -1 / 2 ^ 3) = 1 / 2 ^ 2 := by
    rw [Glass.Shells.roundDouble_of _ (-2) 4503599627370496 (by norm_num) (by norm_num) (by rw [abs_lt]; norm_num)]
    norm_num
  have h17 : roundDouble (1 / 2 ^ 2 * (7908760321235993 / 2 ^ 53)) = 7908760321235993 / 2 ^ 55 := by
    rw [Glass.Shells.roundDouble_of _ (-3) 7908760321235993 (by norm_num) (by norm_num) (by rw [abs_lt]; norm_num)]
    norm_num
  have h8' : roundDouble (8⁻¹ : ℝ) = 8⁻¹ := by rw [← one_div, h7]; norm_num
  have hdiv : cdivFl roundDouble ⟨1 / 8, 1 / 8⟩ ⟨roundDouble (1 - 0), 0⟩ =
      some ⟨1 / 8, 1 / 8⟩ := by
    unfold cdivFl
    simp [h0, h00, h8']
  have hmul : cmulFl roundDouble ((starRingEnd ℂ) ⟨1 / 8, 1 / 8⟩) ⟨1 - 1 / 2 ^ 53, 0⟩ =
      ⟨9007199254740991 / 2 ^ 56, -9007199254740991 / 2 ^ 56⟩ := by
    unfold cmulFl
    simp only [Complex.conj_re, Complex.conj_im, mul_zero, h0, sub_zero, zero_add, h1, h2, h3, h4]
  have hden : caddFl roundDouble 1 ⟨9007199254740991 / 2 ^ 56, -9007199254740991 / 2 ^ 56⟩ =
      ⟨9 / 2 ^ 3, -9007199254740991 / 2 ^ 56⟩ := by
    unfold caddFl
    simp only [Complex.one_re, Complex.one_im, zero_add, h4, h5]
  have hnum : caddFl roundDouble ⟨1 - 1 / 2 ^ 53, 0⟩ ⟨1 / 8, 1 / 8⟩ = ⟨9 / 2 ^ 3, 1 / 8⟩ := by
    unfold caddFl
    simp only [zero_add, h6]
    rw [h7]; norm_num
  have hsq : ∀ a b : ℝ, ‖(⟨a, b⟩ : ℂ)‖ ^ 2 = a * a + b * b := by
    intro a b
    rw [← Complex.normSq_eq_norm_sq, Complex.normSq_apply]
  refine ⟨?_, ?_, ⟨8787511468039993 / 2 ^ 53, 7908760321235993 / 2 ^ 55⟩, ?_, ?_⟩
  · have := hsq (1 - 1 / 2 ^ 53) 0
    refine lt_of_pow_lt_pow_left₀ 2 (by norm_num) ?_
    rw [this]; norm_num
  · have := hsq (1 / 8) (1 / 8)
    refine lt_of_pow_lt_pow_left₀ 2 (by norm_num) ?_
    rw [this]; norm_num
  · unfold galaxyShearFl
    rw [if_pos rfl, hdiv]
    change lensedFl roundDouble ⟨1 - 1 / 2 ^ 53, 0⟩ ⟨1 / 8, 1 / 8⟩ = _
    unfold lensedFl
    rw [hmul, hden, hnum]
    unfold cdivFl
    rw [if_pos (by norm_num [abs_of_pos, abs_of_neg]), if_neg (by norm_num)]
    simp only [h8, h9, h10, h11, h12, h13, h14, h15, h16, h17]
  · refine lt_of_pow_lt_pow_left₀ 2 (norm_nonneg _) ?_
    rw [hsq]; norm_num

/-- The hypotheses of `lensed_fl_accurate` and `lensed_fl_inside_partial` hold for instance here. -/
example : ‖(1 / 2 : ℂ)‖ ≤ 1 ∧ ‖(1 / 4 : ℂ)‖ ≤ 1 - 1 / 2 ^ 40 ∧
    480 / 2 ^ 53 < (1 - ‖(1 / 2 : ℂ)‖) * (1 - ‖(1 / 4 : ℂ)‖) ^ 2 := by
  norm_num

end Glass.Galaxies
