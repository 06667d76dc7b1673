import Mathlib.MeasureTheory.Integral.Layercake
import Mathlib.Analysis.SpecialFunctions.Gamma.Basic
import Mathlib.Analysis.SpecialFunctions.Trigonometric.DerivHyp
import Verif.Galaxies.ShearMean

/-!
# The standard deviations of the sampled ellipticities (C137)
-/

namespace Glass.Galaxies

open Glass Glass.Arrays NdArray Glass.Sampling Glass.Shapes MeasureTheory ProbabilityTheory
open scoped ENNReal NNReal

/-! ## The radius of a pair of normal numbers -/

theorem normal_tail {t : ℝ} (ht : 0 < t) :
    complexNormal {z | t < ‖z‖ ^ 2} = ENNReal.ofReal (Real.exp (-(t / 2))) := by
  have h := scaled_tail (Real.sqrt t)⁻¹
  rw [if_neg (by positivity), Measure.map_apply (by fun_prop)
    (measurableSet_lt measurable_const measurable_norm)] at h
  have hs : (fun x : ℂ => x * ((Real.sqrt t)⁻¹ : ℝ)) ⁻¹' {z | 1 < ‖z‖} = {z | t < ‖z‖ ^ 2} := by
    ext z
    simp only [Set.mem_preimage, Set.mem_ofPred_eq, norm_mul, Complex.norm_real, norm_inv,
      Real.norm_eq_abs, abs_of_nonneg (Real.sqrt_nonneg t)]
    rw [← div_eq_mul_inv, one_lt_div (by positivity)]
    refine ⟨Real.lt_sq_of_sqrt_lt, fun h => ?_⟩
    rw [← Real.sqrt_sq (norm_nonneg z)]
    exact Real.sqrt_lt_sqrt ht.le h
  rw [hs] at h
  rw [h, inv_pow, Real.sq_sqrt ht.le]
  congr 2
  field_simp

theorem normal_moment (k : ℕ) (hk : 0 < k) :
    Integrable (fun z : ℂ => ‖z‖ ^ (2 * k)) complexNormal ∧
    ∫ z, ‖z‖ ^ (2 * k) ∂complexNormal = 2 ^ k * k.factorial := by
  have hG : ∫ t in Set.Ioi (0 : ℝ), k * t ^ (k - 1) * Real.exp (-(t / 2)) = 2 ^ k * k.factorial := by
    have h := Real.integral_rpow_mul_exp_neg_mul_Ioi (a := k) (r := 1 / 2) (by positivity) (by norm_num)
    have e : ∀ t ∈ Set.Ioi (0 : ℝ), k * t ^ (k - 1) * Real.exp (-(t / 2)) =
        k * (t ^ ((k : ℝ) - 1) * Real.exp (-(1 / 2 * t))) := by
      intro t ht
      rw [← Real.rpow_natCast, Nat.cast_sub hk, Nat.cast_one, mul_assoc]
      congr 3
      ring
    rw [setIntegral_congr_fun measurableSet_Ioi e, integral_const_mul, h, one_div_one_div,
      Real.rpow_natCast]
    have : (k : ℝ) * Real.Gamma k = k.factorial := by
      rw [← Real.Gamma_add_one (by positivity), Real.Gamma_nat_eq_factorial]
    linear_combination (2 : ℝ) ^ k * this
  have hl := lintegral_comp_eq_lintegral_meas_lt_mul complexNormal (f := fun z : ℂ => ‖z‖ ^ 2)
    (g := fun t => k * t ^ (k - 1)) (ae_of_all _ fun z => by positivity) (by fun_prop)
    (fun t _ => (by fun_prop : Continuous fun t : ℝ => k * t ^ (k - 1)).intervalIntegrable _ _)
    (by
      filter_upwards [ae_restrict_mem measurableSet_Ioi] with t ht
      have : (0 : ℝ) < t := ht
      positivity)
  have hint : ∀ z : ℂ, ∫ t in (0)..‖z‖ ^ 2, (k : ℝ) * t ^ (k - 1) = ‖z‖ ^ (2 * k) := by
    intro z
    rw [intervalIntegral.integral_const_mul, integral_pow, Nat.sub_add_cancel hk, zero_pow hk.ne',
      ← pow_mul]
    have : ((k - 1 : ℕ) : ℝ) + 1 = k := by exact_mod_cast Nat.sub_add_cancel hk
    rw [this]
    field_simp
    ring
  simp only [hint] at hl
  have hr : ∫⁻ t in Set.Ioi (0 : ℝ), complexNormal {z : ℂ | t < ‖z‖ ^ 2} *
      ENNReal.ofReal (k * t ^ (k - 1)) = ENNReal.ofReal (2 ^ k * k.factorial) := by
    rw [← hG, ofReal_integral_eq_lintegral_ofReal]
    · refine setLIntegral_congr_fun measurableSet_Ioi fun t ht => ?_
      have ht' : (0 : ℝ) < t := ht
      rw [normal_tail ht', ← ENNReal.ofReal_mul (Real.exp_nonneg _), mul_comm]
    · refine Integrable.of_integral_ne_zero ?_
      rw [hG]
      positivity
    · filter_upwards [ae_restrict_mem measurableSet_Ioi] with t ht
      have : (0 : ℝ) < t := ht
      positivity
  rw [hr] at hl
  have hI : Integrable (fun z : ℂ => ‖z‖ ^ (2 * k)) complexNormal := by
    refine ⟨by fun_prop, ?_⟩
    rw [hasFiniteIntegral_iff_ofReal (ae_of_all _ fun z => by positivity), hl]
    exact ENNReal.ofReal_lt_top
  refine ⟨hI, ?_⟩
  rw [integral_eq_lintegral_of_nonneg_ae (ae_of_all _ fun z => by positivity) hI.1, hl,
    ENNReal.toReal_ofReal (by positivity)]

/-! ## Components -/

/-- The second moments of a law without preferred direction follow from the mean square modulus. -/
theorem component_moments {ν : Measure ℂ} (h : DiscPhase ν) :
    ∫ z, z ∂ν = 0 ∧ ∫ z, z.re ^ 2 ∂ν = (∫ z, ‖z‖ ^ 2 ∂ν) / 2 ∧
    ∫ z, z.im ^ 2 ∂ν = (∫ z, ‖z‖ ^ 2 ∂ν) / 2 ∧ ∫ z, z.re * z.im ∂ν = 0 := by
  have hp := h.probability
  obtain ⟨ρ, hρ, hle, rfl⟩ := h
  have h1 := randomPhase_mean hle (fun z => z) differentiable_id.diffContOnCl measurable_id 1
    fun z hz => hz
  have h2 := randomPhase_mean hle (fun z => z ^ 2) (differentiable_id.pow 2).diffContOnCl
    (by fun_prop) 1 fun z hz => by
      rw [norm_pow]
      exact pow_le_one₀ (norm_nonneg z) hz
  have hb : ∀ᵐ z ∂(randomPhase ρ), ‖z‖ ≤ 1 := by
    rw [randomPhase, ae_map_iff measurable_turn.aemeasurable
      (measurableSet_le measurable_norm measurable_const)]
    filter_upwards [Measure.quasiMeasurePreserving_fst.ae hle] with p hp
    rw [norm_mul, mul_comm Complex.I, Complex.norm_exp_ofReal_mul_I, one_mul]
    exact hp
  have hre : Integrable (fun z : ℂ => z.re ^ 2) (randomPhase ρ) := by
    refine Integrable.of_bound (by fun_prop) 1 ?_
    filter_upwards [hb] with z hz
    rw [Real.norm_eq_abs, abs_pow]
    exact pow_le_one₀ (abs_nonneg _) ((Complex.abs_re_le_norm z).trans hz)
  have him : Integrable (fun z : ℂ => z.im ^ 2) (randomPhase ρ) := by
    refine Integrable.of_bound (by fun_prop) 1 ?_
    filter_upwards [hb] with z hz
    rw [Real.norm_eq_abs, abs_pow]
    exact pow_le_one₀ (abs_nonneg _) ((Complex.abs_im_le_norm z).trans hz)
  have hR : ∫ z, z.re ^ 2 ∂(randomPhase ρ) = ∫ z, z.im ^ 2 ∂(randomPhase ρ) := by
    have := congrArg Complex.re h2.2
    rw [← RCLike.re_eq_complex_re, ← integral_re h2.1] at this
    have e : ∀ z : ℂ, RCLike.re (z ^ 2) = z.re ^ 2 - z.im ^ 2 := by
      intro z
      simp [sq]
    simp only [e] at this
    rw [integral_sub hre him] at this
    simp at this
    linarith
  have hI : ∫ z, z.re * z.im ∂(randomPhase ρ) = 0 := by
    have := congrArg Complex.im h2.2
    rw [← RCLike.im_eq_complex_im, ← integral_im h2.1] at this
    have e : ∀ z : ℂ, RCLike.im (z ^ 2) = 2 * (z.re * z.im) := by
      intro z
      simp [sq]
      ring
    simp only [e] at this
    rw [integral_const_mul] at this
    simp at this
    linarith
  have hS : ∫ z, ‖z‖ ^ 2 ∂(randomPhase ρ) =
      ∫ z, z.re ^ 2 ∂(randomPhase ρ) + ∫ z, z.im ^ 2 ∂(randomPhase ρ) := by
    rw [← integral_add hre him]
    refine integral_congr_ae (ae_of_all _ fun z => ?_)
    simp only
    rw [← Complex.normSq_eq_norm_sq, Complex.normSq_apply]
    ring
  exact ⟨by simpa using h1.2, by rw [hS, hR]; ring, by rw [hS, hR]; ring, hI⟩

/-! ## Truncated normal ellipticities -/

theorem truncated_tail {sigma t : ℝ} (hs : sigma ≠ 0) (h0 : 0 < t) (h1 : t ≤ 1) :
    (truncatedNormal sigma).real {e | t < ‖e‖ ^ 2} =
      (Real.exp (-(t / (2 * sigma ^ 2))) - rejection sigma) / (1 - rejection sigma) := by
  have hs2 : 0 < sigma ^ 2 := by positivity
  have hD : MeasurableSet {e : ℂ | ‖e‖ ≤ 1} := measurableSet_le measurable_norm measurable_const
  have hT : MeasurableSet {e : ℂ | t < ‖e‖ ^ 2} := measurableSet_lt measurable_const (by fun_prop)
  have tail : ∀ {u : ℝ}, 0 < u → (complexNormal.map fun x => x * (sigma : ℂ)) {e | u < ‖e‖ ^ 2} =
      ENNReal.ofReal (Real.exp (-(u / (2 * sigma ^ 2)))) := by
    intro u hu
    rw [Measure.map_apply (by fun_prop) (measurableSet_lt measurable_const (by fun_prop))]
    have e : (fun x : ℂ => x * (sigma : ℂ)) ⁻¹' {e | u < ‖e‖ ^ 2} = {z | u / sigma ^ 2 < ‖z‖ ^ 2} := by
      ext z
      simp only [Set.mem_preimage, Set.mem_ofPred_eq, norm_mul, Complex.norm_real, Real.norm_eq_abs,
        mul_pow, sq_abs]
      rw [div_lt_iff₀ hs2]
    rw [e, normal_tail (by positivity)]
    congr 3
    field_simp
  have hq := rejection_bounds sigma
  have hsub : {e : ℂ | 1 < ‖e‖ ^ 2} ⊆ {e | t < ‖e‖ ^ 2} := fun e he => lt_of_le_of_lt h1 he
  have hset : {e : ℂ | ‖e‖ ≤ 1} ∩ {e | t < ‖e‖ ^ 2} = {e | t < ‖e‖ ^ 2} \ {e | 1 < ‖e‖ ^ 2} := by
    ext e
    simp only [Set.mem_inter_iff, Set.mem_ofPred_eq, Set.mem_sdiff, not_lt, sq_le_one_iff₀ (norm_nonneg e)]
    exact and_comm
  have hm := measure_sdiff (μ := complexNormal.map fun x => x * (sigma : ℂ)) hsub
    (measurableSet_lt measurable_const (by fun_prop)).nullMeasurableSet (measure_ne_top _ _)
  rw [tail h0, tail one_pos] at hm
  have hr : Real.exp (-(1 / (2 * sigma ^ 2))) = rejection sigma := by
    rw [rejection, if_neg hs]
    congr 1
    ring
  rw [hr] at hm
  rw [Measure.real, truncatedNormal, cond_apply hD, hset, hm, disc_measure,
    ← ENNReal.ofReal_sub _ hq.1, ENNReal.toReal_mul, ENNReal.toReal_inv,
    ENNReal.toReal_ofReal (by linarith), ENNReal.toReal_ofReal]
  · rw [inv_mul_eq_div]
  · rw [← hr, sub_nonneg]
    refine Real.exp_le_exp.2 (neg_le_neg ?_)
    gcongr

/-- The mean square modulus of a truncated normal ellipticity. -/
theorem truncated_square {sigma : ℝ} (hs : sigma ≠ 0) :
    ∫ e, ‖e‖ ^ 2 ∂(truncatedNormal sigma) =
      2 * sigma ^ 2 - 1 / (Real.exp (1 / (2 * sigma ^ 2)) - 1) := by
  have hs2 : 0 < sigma ^ 2 := by positivity
  have hD : MeasurableSet {e : ℂ | ‖e‖ ≤ 1} := measurableSet_le measurable_norm measurable_const
  have hb : ∀ᵐ e ∂(truncatedNormal sigma), ‖e‖ ≤ 1 := ae_cond_mem hD
  have hI : Integrable (fun e : ℂ => ‖e‖ ^ 2) (truncatedNormal sigma) := by
    refine Integrable.of_bound (by fun_prop) 1 ?_
    filter_upwards [hb] with e he
    rw [norm_pow, norm_norm]
    exact pow_le_one₀ (norm_nonneg _) he
  rw [hI.integral_eq_integral_meas_lt (ae_of_all _ fun e => by positivity)]
  have hout : ∀ t ∈ Set.Ioi (0 : ℝ) \ Set.Ioc 0 1, (truncatedNormal sigma).real {e | t < ‖e‖ ^ 2} = 0 := by
    intro t ht
    have ht1 : 1 < t := by
      by_contra h
      exact ht.2 ⟨ht.1, not_lt.1 h⟩
    rw [measureReal_eq_zero_iff]
    refine measure_mono_null ?_ hb
    intro e he
    simp only [Set.mem_ofPred_eq, Set.mem_compl_iff] at he ⊢
    intro h
    have := pow_le_one₀ (n := 2) (norm_nonneg e) h
    linarith
  rw [setIntegral_eq_of_subset_of_forall_sdiff_eq_zero measurableSet_Ioi
    (fun t ht => ht.1) hout,
    setIntegral_congr_fun measurableSet_Ioc fun t ht => truncated_tail hs ht.1 ht.2,
    ← intervalIntegral.integral_of_le zero_le_one, intervalIntegral.integral_div]
  have hF : ∫ t in (0 : ℝ)..1, (Real.exp (-(t / (2 * sigma ^ 2))) - rejection sigma) =
      2 * sigma ^ 2 * (1 - rejection sigma) - rejection sigma := by
    have hd : ∀ t ∈ Set.uIcc (0 : ℝ) 1, HasDerivAt
        (fun t => -(2 * sigma ^ 2) * Real.exp (-(t / (2 * sigma ^ 2))) - rejection sigma * t)
        (Real.exp (-(t / (2 * sigma ^ 2))) - rejection sigma) t := by
      intro t _
      have h1 : HasDerivAt (fun t : ℝ => -(t / (2 * sigma ^ 2))) (-(1 / (2 * sigma ^ 2))) t :=
        ((hasDerivAt_id t).div_const _).neg
      have h2 := (h1.exp.const_mul (-(2 * sigma ^ 2))).sub ((hasDerivAt_id t).const_mul (rejection sigma))
      refine h2.congr_deriv ?_
      field_simp
    rw [intervalIntegral.integral_eq_sub_of_hasDerivAt hd
      ((by fun_prop : Continuous _).intervalIntegrable _ _)]
    have hr : Real.exp (-(1 / (2 * sigma ^ 2))) = rejection sigma := by
      rw [rejection, if_neg hs]
      congr 1
      ring
    rw [hr]
    simp
    ring
  rw [hF]
  have hq := rejection_bounds sigma
  have hr : Real.exp (1 / (2 * sigma ^ 2)) = (rejection sigma)⁻¹ := by
    rw [rejection, if_neg hs, ← Real.exp_neg]
    congr 1
    ring
  have hq0 : 0 < rejection sigma := by
    rw [rejection, if_neg hs]
    exact Real.exp_pos _
  rw [hr]
  have h1 : 1 - rejection sigma ≠ 0 := by linarith
  have h2 : (rejection sigma)⁻¹ - 1 ≠ 0 := by
    rw [inv_eq_one_div, div_sub_one hq0.ne']
    exact div_ne_zero h1 hq0.ne'
  field_simp

/-! ## Intrinsic normal ellipticities -/

/-- The derivative of the difference of a function and the hyperbolic tangent, with an integrating
factor. -/
theorem tanh_factor {P p p' : ℝ → ℝ} (hP : ∀ y, HasDerivAt P (p y) y)
    (hp : ∀ y, HasDerivAt p (p' y) y) (y : ℝ) :
    HasDerivAt (fun y => (p y * Real.cosh y - Real.sinh y) * Real.exp (P y))
      (Real.exp (P y) * Real.cosh y * (p' y + p y ^ 2 - 1)) y := by
  have h := (((hp y).mul (Real.hasDerivAt_cosh y)).sub (Real.hasDerivAt_sinh y)).mul (hP y).exp
  refine h.congr_deriv ?_
  simp only [Pi.mul_apply, Pi.sub_apply]
  ring

theorem tanh_le_of {P p p' : ℝ → ℝ} (hP : ∀ y, HasDerivAt P (p y) y)
    (hp : ∀ y, HasDerivAt p (p' y) y) (h0 : p 0 = 0) {x : ℝ} (hx : 0 ≤ x)
    (h : ∀ y, 0 ≤ y → y ≤ x → 1 ≤ p' y + p y ^ 2) : Real.tanh x ≤ p x := by
  have hd := tanh_factor hP hp
  have hm : MonotoneOn (fun y => (p y * Real.cosh y - Real.sinh y) * Real.exp (P y)) (Set.Icc 0 x) := by
    refine monotoneOn_of_deriv_nonneg (convex_Icc 0 x)
      (fun y _ => (hd y).continuousAt.continuousWithinAt)
      (fun y _ => (hd y).differentiableAt.differentiableWithinAt) fun y hy => ?_
    rw [interior_Icc] at hy
    rw [(hd y).deriv]
    have := h y hy.1.le hy.2.le
    have hc := Real.cosh_pos y
    exact mul_nonneg (by positivity) (by linarith)
  have := hm (Set.left_mem_Icc.2 hx) (Set.right_mem_Icc.2 hx) hx
  simp only [h0, Real.sinh_zero, zero_mul, sub_zero] at this
  have h2 := nonneg_of_mul_nonneg_left this (Real.exp_pos _)
  rw [Real.tanh_eq_sinh_div_cosh, div_le_iff₀ (Real.cosh_pos x)]
  linarith

theorem le_tanh_of {P p p' : ℝ → ℝ} (hP : ∀ y, HasDerivAt P (p y) y)
    (hp : ∀ y, HasDerivAt p (p' y) y) (h0 : p 0 = 0) {x : ℝ} (hx : 0 ≤ x)
    (h : ∀ y, 0 ≤ y → y ≤ x → p' y + p y ^ 2 ≤ 1) : p x ≤ Real.tanh x := by
  have hd := tanh_factor hP hp
  have hm : AntitoneOn (fun y => (p y * Real.cosh y - Real.sinh y) * Real.exp (P y)) (Set.Icc 0 x) := by
    refine antitoneOn_of_deriv_nonpos (convex_Icc 0 x)
      (fun y _ => (hd y).continuousAt.continuousWithinAt)
      (fun y _ => (hd y).differentiableAt.differentiableWithinAt) fun y hy => ?_
    rw [interior_Icc] at hy
    rw [(hd y).deriv]
    have := h y hy.1.le hy.2.le
    have hc := Real.cosh_pos y
    exact mul_nonpos_of_nonneg_of_nonpos (by positivity) (by linarith)
  have := hm (Set.left_mem_Icc.2 hx) (Set.right_mem_Icc.2 hx) hx
  simp only [h0, Real.sinh_zero, zero_mul, sub_zero] at this
  have h2 : p x * Real.cosh x - Real.sinh x ≤ 0 := by
    by_contra hn
    have := mul_pos (not_le.1 hn) (Real.exp_pos (P x))
    linarith
  rw [Real.tanh_eq_sinh_div_cosh, le_div_iff₀ (Real.cosh_pos x)]
  linarith

theorem tanh_sq_le {x : ℝ} (hx : 0 ≤ x) :
    Real.tanh x ^ 2 ≤ x ^ 2 - 2 / 3 * x ^ 4 + 17 / 45 * x ^ 6 := by
  have ht0 : 0 ≤ Real.tanh x := by
    rw [Real.tanh_eq_sinh_div_cosh]
    exact div_nonneg (Real.sinh_nonneg_iff.2 hx) (Real.cosh_pos x).le
  by_cases h5 : x ^ 2 ≤ 5
  · have h := tanh_le_of (P := fun y => y ^ 2 / 2 - y ^ 4 / 12 + y ^ 6 / 45)
      (p := fun y => y - y ^ 3 / 3 + 2 * y ^ 5 / 15) (p' := fun y => 1 - y ^ 2 + 2 * y ^ 4 / 3)
      (fun y => by
        have h := (((hasDerivAt_pow 2 y).div_const 2).sub ((hasDerivAt_pow 4 y).div_const 12)).add
          ((hasDerivAt_pow 6 y).div_const 45)
        refine h.congr_deriv ?_
        norm_num
        ring)
      (fun y => by
        have h := ((hasDerivAt_id y).sub ((hasDerivAt_pow 3 y).div_const 3)).add
          (((hasDerivAt_pow 5 y).const_mul 2).div_const 15)
        refine h.congr_deriv ?_
        norm_num
        ring)
      (by norm_num) hx fun y _ _ => by
        nlinarith [sq_nonneg (y ^ 3), sq_nonneg (y ^ 5 - 5 / 2 * y ^ 3)]
    have h2 := pow_le_pow_left₀ ht0 h 2
    refine h2.trans ?_
    nlinarith [mul_nonneg (sq_nonneg (x ^ 4)) (sub_nonneg.2 h5)]
  · have h1 : Real.tanh x ^ 2 ≤ 1 := by
      have := (Real.abs_tanh_lt_one x).le
      rw [← sq_abs]
      exact pow_le_one₀ (abs_nonneg _) this
    have : 5 < x ^ 2 := not_le.1 h5
    nlinarith [mul_pos (sub_pos.2 this) (sub_pos.2 this), mul_pos (mul_pos (sub_pos.2 this) (sub_pos.2 this)) (sub_pos.2 this)]

theorem le_tanh_sq {x : ℝ} (hx : 0 ≤ x) : x ^ 2 - 2 / 3 * x ^ 4 ≤ Real.tanh x ^ 2 := by
  by_cases h3 : x ^ 2 ≤ 3
  · have h := le_tanh_of (P := fun y => y ^ 2 / 2 - y ^ 4 / 12)
      (p := fun y => y - y ^ 3 / 3) (p' := fun y => 1 - y ^ 2)
      (fun y => by
        have h := (((hasDerivAt_pow 2 y).div_const 2).sub ((hasDerivAt_pow 4 y).div_const 12))
        refine h.congr_deriv ?_
        norm_num
        ring)
      (fun y => by
        have h := ((hasDerivAt_id y).sub ((hasDerivAt_pow 3 y).div_const 3))
        refine h.congr_deriv ?_
        norm_num)
      (by norm_num) hx fun y hy hyx => by
        have : y ^ 2 ≤ 3 := (pow_le_pow_left₀ hy hyx 2).trans h3
        nlinarith [mul_nonneg (sq_nonneg (y ^ 2)) (sub_nonneg.2 this)]
    have hl : 0 ≤ x - x ^ 3 / 3 := by
      have : x - x ^ 3 / 3 = x * (3 - x ^ 2) / 3 := by ring
      rw [this]
      exact div_nonneg (mul_nonneg hx (by linarith)) (by norm_num)
    have h2 := pow_le_pow_left₀ hl h 2
    refine le_trans ?_ h2
    nlinarith [sq_nonneg (x ^ 3)]
  · have : 3 < x ^ 2 := not_le.1 h3
    nlinarith [sq_nonneg (Real.tanh x), mul_pos (sub_pos.2 this) (sub_pos.2 this)]

theorem intrinsic_norm (sd : ℝ) (z : ℂ) : ‖intnorm sd z‖ = Real.tanh (‖z‖ * |sd| / 2) := by
  rw [intnorm_eq, norm_mul, Complex.norm_real, norm_mul, Complex.norm_real, Real.norm_eq_abs,
    Real.norm_eq_abs]
  have h0 : 0 ≤ ‖z‖ * |sd| := by positivity
  have ht : 0 ≤ Real.tanh (‖z‖ * |sd| / 2) := by
    rw [Real.tanh_eq_sinh_div_cosh]
    exact div_nonneg (Real.sinh_nonneg_iff.2 (by positivity)) (Real.cosh_pos _).le
  rw [abs_of_nonneg (div_nonneg ht h0)]
  rcases h0.eq_or_lt with h | h
  · rw [← h]
    simp
  · rw [div_mul_cancel₀ _ h.ne']

/-- Bounds for the mean square modulus of an intrinsic normal ellipticity. -/
theorem intrinsic_square (sd : ℝ) :
    sd ^ 2 / 2 - sd ^ 4 / 3 ≤ ∫ e, ‖e‖ ^ 2 ∂(intrinsicNormal sd) ∧
    ∫ e, ‖e‖ ^ 2 ∂(intrinsicNormal sd) ≤ sd ^ 2 / 2 - sd ^ 4 / 3 + 17 / 60 * sd ^ 6 := by
  obtain ⟨i1, m1⟩ := normal_moment 1 one_pos
  obtain ⟨i2, m2⟩ := normal_moment 2 two_pos
  obtain ⟨i3, m3⟩ := normal_moment 3 three_pos
  norm_num [Nat.factorial] at i1 i2 i3 m1 m2 m3
  have hx : ∀ z : ℂ, (‖z‖ * |sd| / 2) ^ 2 = sd ^ 2 / 4 * ‖z‖ ^ 2 ∧
      (‖z‖ * |sd| / 2) ^ 4 = sd ^ 4 / 16 * ‖z‖ ^ 4 ∧
      (‖z‖ * |sd| / 2) ^ 6 = sd ^ 6 / 64 * ‖z‖ ^ 6 := by
    intro z
    have h2 : |sd| ^ 2 = sd ^ 2 := sq_abs sd
    have h4 : |sd| ^ 4 = sd ^ 4 := by rw [show 4 = 2 * 2 by rfl, pow_mul, h2, ← pow_mul]
    have h6 : |sd| ^ 6 = sd ^ 6 := by rw [show 6 = 2 * 3 by rfl, pow_mul, h2, ← pow_mul]
    refine ⟨?_, ?_, ?_⟩
    · rw [← h2]; ring
    · rw [← h4]; ring
    · rw [← h6]; ring
  have hm : Measurable fun z : ℂ => ‖intnorm sd z‖ ^ 2 := (measurable_intnorm sd).norm.pow_const 2
  have hb : ∀ z : ℂ, ‖intnorm sd z‖ ^ 2 ≤ 1 := fun z => by
    rw [intrinsic_norm, ← sq_abs]
    exact pow_le_one₀ (abs_nonneg _) (Real.abs_tanh_lt_one _).le
  have hI : Integrable (fun z : ℂ => ‖intnorm sd z‖ ^ 2) complexNormal := by
    refine Integrable.of_bound hm.aestronglyMeasurable 1 (ae_of_all _ fun z => ?_)
    rw [norm_pow, norm_norm]
    exact hb z
  have hint : ∫ e, ‖e‖ ^ 2 ∂(intrinsicNormal sd) = ∫ z, ‖intnorm sd z‖ ^ 2 ∂complexNormal := by
    rw [← intnorm_law, integral_map (measurable_intnorm sd).aemeasurable (by fun_prop)]
  rw [hint]
  have j1 := i1.const_mul (sd ^ 2 / 4)
  have j2 := i2.const_mul (2 / 3 * (sd ^ 4 / 16))
  have j3 := i3.const_mul (17 / 45 * (sd ^ 6 / 64))
  constructor
  · have := integral_mono (j1.sub j2) hI fun z => by
      have h := le_tanh_sq (x := ‖z‖ * |sd| / 2) (by positivity)
      rw [(hx z).1, (hx z).2.1] at h
      simp only [Pi.sub_apply]
      rw [intrinsic_norm]
      linarith
    rw [integral_sub' j1 j2, integral_const_mul, integral_const_mul, m1, m2] at this
    linarith
  · have := integral_mono hI ((j1.sub j2).add j3) fun z => by
      have h := tanh_sq_le (x := ‖z‖ * |sd| / 2) (by positivity)
      rw [(hx z).1, (hx z).2.1, (hx z).2.2] at h
      simp only [Pi.sub_apply, Pi.add_apply]
      rw [intrinsic_norm]
      linarith
    rw [integral_add' (j1.sub j2) j3, integral_sub' j1 j2, integral_const_mul, integral_const_mul,
      integral_const_mul, m1, m2, m3] at this
    linarith

/-- The standard deviation of the normal numbers behind the intrinsic normal ellipticities. -/
noncomputable def fitted (v : ℝ) : ℝ := v * Real.sqrt ((8 + 5 * v ^ 2) / (2 - 4 * v ^ 2))

theorem fitted_sq {v : ℝ} (hv : v ^ 2 < 1 / 2) :
    fitted v ^ 2 = v ^ 2 * (8 + 5 * v ^ 2) / (2 - 4 * v ^ 2) := by
  rw [fitted, mul_pow, Real.sq_sqrt (div_nonneg (by positivity) (by linarith)), mul_div_assoc]

/-- For small standard deviations the variance is smaller than requested. -/
theorem fitted_below {v : ℝ} (h0 : 0 < v) (h1 : v ≤ 1 / 8) :
    (∫ e, ‖e‖ ^ 2 ∂(intrinsicNormal (fitted v))) / 2 < v ^ 2 := by
  have hw : v ^ 2 ≤ 1 / 64 := by nlinarith
  have hw0 : 0 < v ^ 2 := by positivity
  have h := (intrinsic_square (fitted v)).2
  have h4 : fitted v ^ 4 = (fitted v ^ 2) ^ 2 := by ring
  have h6 : fitted v ^ 6 = (fitted v ^ 2) ^ 3 := by ring
  rw [h4, h6, fitted_sq (by linarith)] at h
  generalize v ^ 2 = w at h hw hw0
  have hd : 0 < 2 - 4 * w := by linarith
  have key : w * (8 + 5 * w) / (2 - 4 * w) / 2 - (w * (8 + 5 * w) / (2 - 4 * w)) ^ 2 / 3 +
      17 / 60 * (w * (8 + 5 * w) / (2 - 4 * w)) ^ 3 < 2 * w := by
    have e : 2 * w - (w * (8 + 5 * w) / (2 - 4 * w) / 2 - (w * (8 + 5 * w) / (2 - 4 * w)) ^ 2 / 3 +
        17 / 60 * (w * (8 + 5 * w) / (2 - 4 * w)) ^ 3) =
        w ^ 2 * (-(21 : ℝ) / 2 * (2 - 4 * w) ^ 2 + (8 + 5 * w) ^ 2 * (2 - 4 * w) / 3 -
          17 / 60 * w * (8 + 5 * w) ^ 3) / (2 - 4 * w) ^ 3 := by
      have hd' : 2 - w * 4 ≠ 0 := by linarith
      field_simp
      ring
    have hpos : 0 < -(21 : ℝ) / 2 * (2 - 4 * w) ^ 2 + (8 + 5 * w) ^ 2 * (2 - 4 * w) / 3 -
          17 / 60 * w * (8 + 5 * w) ^ 3 := by
      nlinarith [mul_nonneg hw0.le hw0.le, mul_nonneg hw0.le (sub_nonneg.2 hw)]
    have := div_pos (mul_pos (pow_pos hw0 2) hpos) (pow_pos hd 3)
    rw [← e] at this
    linarith
  linarith

/-- For small standard deviations the variance is close to the requested one. -/
theorem fitted_close {v : ℝ} (h0 : 0 ≤ v) (h1 : v ≤ 1 / 10) :
    (1 - 1 / 500) * v ^ 2 ≤ (∫ e, ‖e‖ ^ 2 ∂(intrinsicNormal (fitted v))) / 2 := by
  have hw : v ^ 2 ≤ 1 / 100 := by nlinarith
  have hw0 : 0 ≤ v ^ 2 := by positivity
  have h := (intrinsic_square (fitted v)).1
  have h4 : fitted v ^ 4 = (fitted v ^ 2) ^ 2 := by ring
  rw [h4, fitted_sq (by linarith)] at h
  generalize v ^ 2 = w at h hw hw0
  have hd : 0 < 2 - 4 * w := by linarith
  have key : 2 * (1 - 1 / 500) * w ≤
      w * (8 + 5 * w) / (2 - 4 * w) / 2 - (w * (8 + 5 * w) / (2 - 4 * w)) ^ 2 / 3 := by
    have e : w * (8 + 5 * w) / (2 - 4 * w) / 2 - (w * (8 + 5 * w) / (2 - 4 * w)) ^ 2 / 3 -
        2 * (1 - 1 / 500) * w =
        w * ((8 + 5 * w) * (2 - 4 * w) / 2 - w * (8 + 5 * w) ^ 2 / 3 -
          2 * (1 - 1 / 500) * (2 - 4 * w) ^ 2) / (2 - 4 * w) ^ 2 := by
      have hd' : 2 - w * 4 ≠ 0 := by linarith
      field_simp
    have hpos : 0 ≤ (8 + 5 * w) * (2 - 4 * w) / 2 - w * (8 + 5 * w) ^ 2 / 3 -
          2 * (1 - 1 / 500) * (2 - 4 * w) ^ 2 := by
      nlinarith [mul_nonneg hw0 hw0, mul_nonneg hw0 (sub_nonneg.2 hw)]
    have := div_nonneg (mul_nonneg hw0 hpos) (pow_pos hd 2).le
    rw [← e] at this
    linarith
  linarith

/-! ## The theorems -/

section

variable {σ : Type} [MeasurableSpace σ]

theorem gaussian_entry {μ : Measure σ} [IsProbabilityMeasure μ]
    {normal : σ → ℕ → List ℝ × σ} (hn : IdealNormal μ normal) (junk : ℕ → ℂ) (count : NdArray ℕ)
    (sigma : NdArray ℝ) {dims : List ℕ} (hd : IsBroadcast [count.shape, sigma.shape] dims)
    {i : ℕ} {v : ℝ} (hi : (objects (populations count sigma dims))[i]? = some v) :
    ∃ X : σ → ℂ, AEMeasurable X μ ∧ μ.map X = truncatedNormal v ∧ ∀ᵐ s ∂μ, ∃ fuel es s',
        ellipticityGaussian normal junk fuel s count sigma = some (.ok (es, s')) ∧
        es[i]? = some (X s) := by
  have hsum := objects_length (populations count sigma dims)
  obtain ⟨hi', hv⟩ := List.getElem?_eq_some_iff.1 hi
  obtain ⟨X, h1, h2, h3⟩ := entry_law (μ := μ)
    (R := fun s es => ∃ fuel s', ellipticityGaussian normal junk fuel s count sigma = some (.ok (es, s')))
    (νs := (objects (populations count sigma dims)).map truncatedNormal)
    (fun ν h => by
      obtain ⟨v, -, rfl⟩ := List.mem_map.1 h
      infer_instance)
    (by
      filter_upwards [ellipticity_gaussian_ends hn junk count sigma hd] with s hs
      obtain ⟨fuel, es, s', h⟩ := hs
      refine ⟨es, ⟨fuel, s', h⟩, ?_⟩
      rw [(ellipticity_gaussian_disc (IdealNormal.count hn) junk fuel s s' count sigma hd h).2,
        List.length_map, hsum, populations_count])
    (fun As hAl hA => by
      have h := ellipticity_gaussian_law hn junk count sigma hd (As := As)
        (by rw [hAl, List.length_map, hsum]) hA MeasurableSet.univ
      rw [measure_univ, mul_one] at h
      rw [List.zipWith_map_left, ← h]
      congr 1
      ext s
      constructor
      · rintro ⟨es, ⟨fuel, s', h1⟩, h2⟩
        exact ⟨fuel, es, s', h1, h2, trivial⟩
      · rintro ⟨fuel, es, s', h1, h2, -⟩
        exact ⟨es, ⟨fuel, s', h1⟩, h2⟩) i (by rwa [List.length_map])
  refine ⟨X, h1, by rw [h2, List.getElem_map, hv], ?_⟩
  filter_upwards [h3] with s hs
  obtain ⟨es, ⟨fuel, s', h4⟩, -, h5⟩ := hs
  exact ⟨fuel, es, s', h4, h5⟩

theorem intnorm_entry {μ : Measure σ} [IsProbabilityMeasure μ]
    {normal : σ → ℕ → List ℝ × σ} (hn : IdealNormal μ normal) (junk : ℕ → ℂ) (count : NdArray ℕ)
    (sigma : NdArray ℝ) {dims : List ℕ} (hd : IsBroadcast [count.shape, sigma.shape] dims)
    (hs : ∀ idx ∈ indices dims, 0 ≤ entry sigma idx ∧ entry sigma idx < Real.sqrt 0.5)
    {i : ℕ} {v : ℝ} (hi : (objects (populations count sigma dims))[i]? = some v) :
    ∃ X : σ → ℂ, AEMeasurable X μ ∧ μ.map X = intrinsicNormal (fitted v) ∧ ∀ᵐ s ∂μ, ∃ es s',
        ellipticityIntnorm normal junk s count sigma = .ok (es, s') ∧ es[i]? = some (X s) := by
  have hsum := objects_length (populations count sigma dims)
  obtain ⟨hi', hv⟩ := List.getElem?_eq_some_iff.1 hi
  obtain ⟨X, h1, h2, h3⟩ := entry_law (μ := μ)
    (R := fun s es => ∃ s', ellipticityIntnorm normal junk s count sigma = .ok (es, s'))
    (νs := (objects (populations count sigma dims)).map fun v => intrinsicNormal (fitted v))
    (fun ν h => by
      obtain ⟨v, -, rfl⟩ := List.mem_map.1 h
      infer_instance)
    (by
      refine ae_of_all _ fun s => ?_
      obtain ⟨es, s', h, -, hlen⟩ := ellipticity_intnorm_disc (IdealNormal.count hn) junk s count
        sigma hd hs
      exact ⟨es, ⟨s', h⟩, by rw [hlen, List.length_map, hsum, populations_count]⟩)
    (fun As hAl hA => by
      have h := ellipticity_intnorm_law hn junk count sigma hd hs (As := As)
        (by rw [hAl, List.length_map, hsum]) hA MeasurableSet.univ
      rw [measure_univ, mul_one] at h
      rw [List.zipWith_map_left]
      refine Eq.trans ?_ h
      congr 1
      ext s
      constructor
      · rintro ⟨es, ⟨s', h1⟩, h2⟩
        exact ⟨es, s', h1, h2, trivial⟩
      · rintro ⟨es, s', h1, h2, -⟩
        exact ⟨es, ⟨s', h1⟩, h2⟩) i (by rwa [List.length_map])
  refine ⟨X, h1, by rw [h2, List.getElem_map, hv], ?_⟩
  filter_upwards [h3] with s hs
  obtain ⟨es, ⟨s', h4⟩, -, h5⟩ := hs
  exact ⟨es, s', h4, h5⟩

/-- **C137.** The ellipticities of `ellipticity_gaussian` have mean zero, uncorrelated components, and
the variance of each component is smaller than the square of the given standard deviation by
`1 / (2 (exp(1 / (2 σ²)) - 1))`, because draws outside the unit disc are replaced. -/
theorem gaussian_moments_partial {μ : Measure σ} [IsProbabilityMeasure μ]
    {normal : σ → ℕ → List ℝ × σ} (hn : IdealNormal μ normal) (junk : ℕ → ℂ) (count : NdArray ℕ)
    (sigma : NdArray ℝ) {dims : List ℕ} (hd : IsBroadcast [count.shape, sigma.shape] dims)
    {i : ℕ} {v : ℝ} (hi : (objects (populations count sigma dims))[i]? = some v) (hv : v ≠ 0) :
    ∃ X : σ → ℂ, AEMeasurable X μ ∧ (∀ᵐ s ∂μ, ∃ fuel es s',
        ellipticityGaussian normal junk fuel s count sigma = some (.ok (es, s')) ∧
        es[i]? = some (X s)) ∧
      ∫ s, X s ∂μ = 0 ∧
      ∫ s, (X s).re ^ 2 ∂μ = v ^ 2 - 1 / (2 * (Real.exp (1 / (2 * v ^ 2)) - 1)) ∧
      ∫ s, (X s).im ^ 2 ∂μ = v ^ 2 - 1 / (2 * (Real.exp (1 / (2 * v ^ 2)) - 1)) ∧
      ∫ s, (X s).re * (X s).im ∂μ = 0 := by
  obtain ⟨X, hX, hmap, hes⟩ := gaussian_entry hn junk count sigma hd hi
  obtain ⟨h1, h2, h3, h4⟩ := component_moments (discPhase_truncatedNormal v)
  rw [truncated_square hv] at h2 h3
  have he : (2 * v ^ 2 - 1 / (Real.exp (1 / (2 * v ^ 2)) - 1)) / 2 =
      v ^ 2 - 1 / (2 * (Real.exp (1 / (2 * v ^ 2)) - 1)) := by
    rw [sub_div, div_div, mul_comm _ (2 : ℝ)]
    ring
  rw [he] at h2 h3
  rw [← hmap] at h1 h2 h3 h4
  rw [integral_map hX (by fun_prop)] at h1 h2 h3 h4
  exact ⟨X, hX, hes, h1, h2, h3, h4⟩

/-- **C137.** For every positive standard deviation, the variance is not the requested one. -/
theorem gaussian_variance_below {v : ℝ} (hv : v ≠ 0) :
    v ^ 2 - 1 / (2 * (Real.exp (1 / (2 * v ^ 2)) - 1)) < v ^ 2 := by
  have : 1 < Real.exp (1 / (2 * v ^ 2)) := Real.one_lt_exp_iff.2 (by positivity)
  have : 0 < 1 / (2 * (Real.exp (1 / (2 * v ^ 2)) - 1)) := by
    apply one_div_pos.2
    linarith
  linarith

/-- **C137.** The ellipticities of `ellipticity_intnorm` have mean zero and uncorrelated components of
equal variance `V`.  The fit for the width of the normal numbers makes `V` close to the square of
the given standard deviation: within 0.2 per cent up to 0.1; it is smaller than the square up to
0.125. -/
theorem intnorm_moments_partial {μ : Measure σ} [IsProbabilityMeasure μ]
    {normal : σ → ℕ → List ℝ × σ} (hn : IdealNormal μ normal) (junk : ℕ → ℂ) (count : NdArray ℕ)
    (sigma : NdArray ℝ) {dims : List ℕ} (hd : IsBroadcast [count.shape, sigma.shape] dims)
    (hs : ∀ idx ∈ indices dims, 0 ≤ entry sigma idx ∧ entry sigma idx < Real.sqrt 0.5)
    {i : ℕ} {v : ℝ} (hi : (objects (populations count sigma dims))[i]? = some v) :
    ∃ (X : σ → ℂ) (V : ℝ), AEMeasurable X μ ∧ (∀ᵐ s ∂μ, ∃ es s',
        ellipticityIntnorm normal junk s count sigma = .ok (es, s') ∧ es[i]? = some (X s)) ∧
      ∫ s, X s ∂μ = 0 ∧ ∫ s, (X s).re ^ 2 ∂μ = V ∧ ∫ s, (X s).im ^ 2 ∂μ = V ∧
      ∫ s, (X s).re * (X s).im ∂μ = 0 ∧
      fitted v ^ 2 / 4 - fitted v ^ 4 / 6 ≤ V ∧
      V ≤ fitted v ^ 2 / 4 - fitted v ^ 4 / 6 + 17 / 120 * fitted v ^ 6 ∧
      (0 ≤ v → v ≤ 1 / 10 → (1 - 1 / 500) * v ^ 2 ≤ V) ∧ (0 < v → v ≤ 1 / 8 → V < v ^ 2) := by
  obtain ⟨X, hX, hmap, hes⟩ := intnorm_entry hn junk count sigma hd hs hi
  obtain ⟨h1, h2, h3, h4⟩ := component_moments (discPhase_intrinsicNormal (fitted v))
  have hb := intrinsic_square (fitted v)
  refine ⟨X, (∫ e, ‖e‖ ^ 2 ∂(intrinsicNormal (fitted v))) / 2, hX, hes, ?_, ?_, ?_, ?_, ?_, ?_,
    fun h h' => fitted_close h h', fun h h' => fitted_below h h'⟩
  · rw [← hmap, integral_map hX (by fun_prop)] at h1
    exact h1
  · rw [← h2, ← hmap, integral_map hX (by fun_prop)]
  · rw [← h3, ← hmap, integral_map hX (by fun_prop)]
  · rw [← hmap, integral_map hX (by fun_prop)] at h4
    exact h4
  · linarith [hb.1]
  · linarith [hb.2]

/-- The hypotheses can be met: one galaxy of standard deviation 1/10. -/
example : (∃ normal : (ℕ → ℝ) → ℕ → List ℝ × (ℕ → ℝ),
      IdealNormal (Measure.infinitePi fun _ : ℕ => gaussianReal 0 1) normal) ∧
    IsBroadcast [[], []] [] ∧ (objects [(1, 1 / 10)])[0]? = some (1 / 10) ∧
    (1 / 10 : ℝ) < Real.sqrt 0.5 := by
  refine ⟨idealNormal_exists, isBroadcast_pair.1 (by rfl), by simp [objects], ?_⟩
  rw [Real.lt_sqrt (by norm_num)]
  norm_num

end

end Glass.Galaxies
