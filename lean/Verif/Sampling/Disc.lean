import Mathlib.Analysis.SpecialFunctions.PolarCoord
import Mathlib.MeasureTheory.Integral.IntegralEqImproper
import Verif.Sampling.Ideal

/-!
# The normal distribution outside a disc
-/

namespace Glass.Sampling

open MeasureTheory ProbabilityTheory Filter
open scoped ENNReal

theorem hasDerivAt_gauss (x : ℝ) :
    HasDerivAt (fun x : ℝ => -Real.exp (-x ^ 2 / 2)) (x * Real.exp (-x ^ 2 / 2)) x := by
  have h1 : HasDerivAt (fun x : ℝ => -x ^ 2 / 2) (-x) x := by
    refine (((hasDerivAt_pow 2 x).neg).div_const 2).congr_deriv ?_
    norm_num
    ring
  refine h1.exp.neg.congr_deriv ?_
  ring

theorem tendsto_gauss : Tendsto (fun x : ℝ => -Real.exp (-x ^ 2 / 2)) atTop (nhds 0) := by
  have h1 : Tendsto (fun x : ℝ => x ^ 2 / 2) atTop atTop :=
    (tendsto_pow_atTop two_ne_zero).atTop_div_const two_pos
  have h2 : Tendsto (fun x : ℝ => Real.exp (-x ^ 2 / 2)) atTop (nhds 0) := by
    have := Real.tendsto_exp_neg_atTop_nhds_zero.comp h1
    refine this.congr fun x => ?_
    simp [neg_div]
  simpa using h2.neg

/-- The radial integral. -/
theorem lintegral_radius {r : ℝ} (hr : 0 ≤ r) :
    ∫⁻ x in Set.Ioi r, ENNReal.ofReal (x * Real.exp (-x ^ 2 / 2)) =
      ENNReal.ofReal (Real.exp (-r ^ 2 / 2)) := by
  have hpos : ∀ x ∈ Set.Ioi r, 0 ≤ x * Real.exp (-x ^ 2 / 2) := fun x hx =>
    mul_nonneg (hr.trans (le_of_lt hx)) (Real.exp_nonneg _)
  have hint : IntegrableOn (fun x : ℝ => x * Real.exp (-x ^ 2 / 2)) (Set.Ioi r) :=
    integrableOn_Ioi_deriv_of_nonneg' (fun x _ => hasDerivAt_gauss x) hpos tendsto_gauss
  rw [← ofReal_integral_eq_lintegral_ofReal hint
    ((ae_restrict_iff' measurableSet_Ioi).2 (ae_of_all _ hpos)),
    integral_Ioi_of_hasDerivAt_of_tendsto' (fun x _ => hasDerivAt_gauss x) hint tendsto_gauss]
  simp

theorem norm_pair (p : ℝ × ℝ) : ‖(p.1 : ℂ) + Complex.I * p.2‖ = Real.sqrt (p.1 ^ 2 + p.2 ^ 2) := by
  rw [Complex.norm_def, mul_comm, Complex.normSq_add_mul_I]

/-- The probability that a standard normal complex number is outside the disc of radius `r`. -/
theorem complexNormal_tail {r : ℝ} (hr : 0 ≤ r) :
    complexNormal {z | r < ‖z‖} = ENNReal.ofReal (Real.exp (-r ^ 2 / 2)) := by
  have hS : MeasurableSet {z : ℂ | r < ‖z‖} := measurableSet_lt measurable_const measurable_norm
  rw [complexNormal, Measure.map_apply measurable_complex hS,
    gaussianReal_of_var_ne_zero 0 one_ne_zero,
    prod_withDensity (measurable_gaussianPDF _ _) (measurable_gaussianPDF _ _),
    withDensity_apply _ (measurable_complex hS), ← lintegral_indicator (measurable_complex hS)]
  have hv : (volume : Measure ℝ).prod volume = (volume : Measure (ℝ × ℝ)) := rfl
  rw [hv, ← lintegral_comp_polarCoord_symm]
  have hcongr : ∀ p ∈ polarCoord.target, ENNReal.ofReal p.1 •
      ((fun p : ℝ × ℝ => (p.1 : ℂ) + Complex.I * p.2) ⁻¹' {z | r < ‖z‖}).indicator
        (fun z : ℝ × ℝ => gaussianPDF 0 1 z.1 * gaussianPDF 0 1 z.2) (polarCoord.symm p) =
      (Set.Ioi r).indicator (fun x => ENNReal.ofReal (x * Real.exp (-x ^ 2 / 2))) p.1 *
        ENNReal.ofReal (1 / (2 * Real.pi)) := by
    rintro ⟨x, t⟩ ⟨hx, -⟩
    have hx : 0 < x := hx
    have hsq : (x * Real.cos t) ^ 2 + (x * Real.sin t) ^ 2 = x ^ 2 := by
      have := Real.sin_sq_add_cos_sq t
      linear_combination x ^ 2 * this
    have hmem : (x * Real.cos t, x * Real.sin t) ∈
        ((fun p : ℝ × ℝ => (p.1 : ℂ) + Complex.I * p.2) ⁻¹' {z | r < ‖z‖}) ↔ x ∈ Set.Ioi r := by
      simp only [Set.mem_preimage, Set.mem_ofPred_eq, Set.mem_Ioi]
      have := norm_pair (x * Real.cos t, x * Real.sin t)
      simp only at this
      rw [this, hsq, Real.sqrt_sq hx.le]
    simp only [polarCoord_symm_apply]
    by_cases h : x ∈ Set.Ioi r
    · rw [Set.indicator_of_mem (hmem.2 h), Set.indicator_of_mem h, smul_eq_mul]
      simp only [gaussianPDF, gaussianPDFReal]
      rw [← ENNReal.ofReal_mul (by positivity), ← ENNReal.ofReal_mul hx.le,
        ← ENNReal.ofReal_mul (by positivity)]
      congr 1
      have h2 : Real.sqrt (2 * Real.pi * ((1 : NNReal) : ℝ)) ^ 2 = 2 * Real.pi := by
        rw [Real.sq_sqrt (by positivity)]
        simp
      have h3 : Real.exp (-(x * Real.cos t - 0) ^ 2 / (2 * ((1 : NNReal) : ℝ))) *
          Real.exp (-(x * Real.sin t - 0) ^ 2 / (2 * ((1 : NNReal) : ℝ))) =
          Real.exp (-x ^ 2 / 2) := by
        rw [← Real.exp_add]
        congr 1
        rw [← hsq]
        simp
        ring
      have h4 : (Real.sqrt (2 * Real.pi * ((1 : NNReal) : ℝ)))⁻¹ *
          (Real.sqrt (2 * Real.pi * ((1 : NNReal) : ℝ)))⁻¹ = 1 / (2 * Real.pi) := by
        rw [← mul_inv, ← sq, h2, one_div]
      calc _ = x * (((Real.sqrt (2 * Real.pi * ((1 : NNReal) : ℝ)))⁻¹ *
          (Real.sqrt (2 * Real.pi * ((1 : NNReal) : ℝ)))⁻¹) *
          (Real.exp (-(x * Real.cos t - 0) ^ 2 / (2 * ((1 : NNReal) : ℝ))) *
          Real.exp (-(x * Real.sin t - 0) ^ 2 / (2 * ((1 : NNReal) : ℝ))))) := by ring
        _ = _ := by rw [h3, h4]; ring
    · rw [Set.indicator_of_notMem (fun h' => h (hmem.1 h')), Set.indicator_of_notMem h]
      simp
  rw [setLIntegral_congr_fun polarCoord.open_target.measurableSet hcongr, polarCoord_target,
    ← hv, ← Measure.prod_restrict]
  have hm : Measurable fun x : ℝ => ENNReal.ofReal (x * Real.exp (-x ^ 2 / 2)) := by fun_prop
  rw [lintegral_prod_mul (f := (Set.Ioi r).indicator
      fun x : ℝ => ENNReal.ofReal (x * Real.exp (-x ^ 2 / 2)))
    (g := fun _ => ENNReal.ofReal (1 / (2 * Real.pi)))
    (hm.indicator measurableSet_Ioi).aemeasurable aemeasurable_const]
  rw [lintegral_indicator measurableSet_Ioi, Measure.restrict_restrict measurableSet_Ioi]
  have hsub : Set.Ioi r ∩ Set.Ioi 0 = Set.Ioi r :=
    Set.inter_eq_left.2 fun x hx => lt_of_le_of_lt hr hx
  rw [hsub, lintegral_radius hr, lintegral_const, Measure.restrict_apply MeasurableSet.univ,
    Set.univ_inter, Real.volume_Ioo, ← ENNReal.ofReal_mul (by positivity)]
  have : 1 / (2 * Real.pi) * (Real.pi - -Real.pi) = 1 := by
    have := Real.pi_ne_zero
    field_simp
    ring
  rw [this, ENNReal.ofReal_one, mul_one]

/-- The probability that a normal complex number with standard deviation `sigma` in each direction
is outside the unit disc. -/
theorem scaled_tail (sigma : ℝ) :
    (complexNormal.map fun x => x * (sigma : ℂ)) {z | 1 < ‖z‖} =
      if sigma = 0 then 0 else ENNReal.ofReal (Real.exp (-1 / (2 * sigma ^ 2))) := by
  rw [Measure.map_apply (by fun_prop) (measurableSet_lt measurable_const measurable_norm)]
  split_ifs with h
  · subst h
    have : (fun x : ℂ => x * ((0 : ℝ) : ℂ)) ⁻¹' {z | 1 < ‖z‖} = ∅ := by
      ext z
      simp
    rw [this, measure_empty]
  · have hs : 0 < |sigma| := abs_pos.2 h
    have : (fun x : ℂ => x * (sigma : ℂ)) ⁻¹' {z | 1 < ‖z‖} = {z | 1 / |sigma| < ‖z‖} := by
      ext z
      simp only [Set.mem_preimage, Set.mem_ofPred_eq, norm_mul, Complex.norm_real, Real.norm_eq_abs]
      rw [div_lt_iff₀ hs]
    rw [this, complexNormal_tail (by positivity)]
    congr 2
    rw [div_pow, sq_abs, one_pow]
    field_simp

end Glass.Sampling
