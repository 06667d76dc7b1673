import Mathlib.Analysis.Complex.MeanValue
import Mathlib.Probability.Distributions.Gaussian.Fernique
import Verif.Galaxies.ShearProps
import Verif.Shapes.IntnormLaw
import Verif.Shapes.RydenLaw

/-!
# The mean of lensed ellipticities (C136)

The intrinsic ellipticities have no preferred direction.  The transformation by the reduced shear is
holomorphic in the ellipticity, so its mean over the directions is its value at zero ellipticity,
the reduced shear itself.
-/

namespace Glass.Galaxies

open Glass Glass.Arrays NdArray Glass.Sampling Glass.Shapes MeasureTheory ProbabilityTheory
open scoped ENNReal NNReal

/-! ## Specification -/

/-- The law of a complex number that is turned by a uniform angle. -/
noncomputable def randomPhase (ρ : Measure ℂ) : Measure ℂ :=
  (ρ.prod (uniformLaw 0 (2 * Real.pi))).map fun p => Complex.exp (Complex.I * p.2) * p.1

/-- A law without preferred direction. -/
def Isotropic (ν : Measure ℂ) : Prop :=
  ∀ θ : ℝ, ν.map (fun z => Complex.exp (Complex.I * θ) * z) = ν

/-! ## Averages over the phase -/

theorem measurable_turn : Measurable fun p : ℂ × ℝ => Complex.exp (Complex.I * p.2) * p.1 := by
  fun_prop

/-- A law without preferred direction is not changed by another random phase. -/
theorem Isotropic.randomPhase {ν : Measure ℂ} [IsProbabilityMeasure ν] (h : Isotropic ν) :
    randomPhase ν = ν := by
  ext A hA
  rw [Galaxies.randomPhase, Measure.map_apply measurable_turn hA,
    Measure.prod_apply_symm (measurable_turn hA)]
  have : ∀ θ : ℝ, ν ((fun z : ℂ => (z, θ)) ⁻¹' ((fun p : ℂ × ℝ =>
      Complex.exp (Complex.I * p.2) * p.1) ⁻¹' A)) = ν A := by
    intro θ
    conv_rhs => rw [← h θ, Measure.map_apply (by fun_prop) hA]
    rfl
  simp [this]

/-- The mean of a function over a uniform angle. -/
theorem integral_uniform (f : ℝ → ℂ) :
    ∫ θ, f θ ∂(uniformLaw 0 (2 * Real.pi)) = (2 * Real.pi)⁻¹ • ∫ θ in (0)..(2 * Real.pi), f θ := by
  have hpi := Real.pi_pos
  have hlaw : uniformLaw 0 (2 * Real.pi) =
      ENNReal.ofReal (1 / (2 * Real.pi)) • volume.restrict (Set.Ioc 0 (2 * Real.pi)) := by
    ext A hA
    rw [uniformLaw_apply (by positivity) hA, sub_zero, Measure.smul_apply, smul_eq_mul,
      Measure.restrict_apply hA]
    congr 1
    exact measure_congr (Filter.EventuallyEq.inter (Filter.EventuallyEq.refl _ _) Ico_ae_eq_Ioc)
  rw [hlaw, integral_smul_measure, intervalIntegral.integral_of_le (by positivity),
    ENNReal.toReal_ofReal (by positivity), one_div]

/-- The mean over the phase of a function that is holomorphic in the unit disc. -/
theorem phase_mean (f : ℂ → ℂ) (hf : DiffContOnCl ℂ f (Metric.ball 0 1)) (z : ℂ) (hz : ‖z‖ ≤ 1) :
    ∫ θ : ℝ, f (Complex.exp (Complex.I * θ) * z) ∂(uniformLaw 0 (2 * Real.pi)) = f 0 := by
  rw [integral_uniform]
  have hsub : Metric.ball (0 : ℂ) |‖z‖| ⊆ Metric.ball 0 1 :=
    Metric.ball_subset_ball (by rwa [abs_norm])
  have h := (hf.mono hsub).circleAverage
  rw [Real.circleAverage_def] at h
  rw [← h]
  congr 1
  -- shift of the angle by the argument of `z`
  have hper : Function.Periodic (fun θ : ℝ => f (circleMap 0 ‖z‖ θ)) (2 * Real.pi) := by
    intro θ
    simp only [periodic_circleMap 0 ‖z‖ θ]
  have h2 := hper.intervalIntegral_add_eq z.arg 0
  rw [zero_add] at h2
  rw [← h2]
  have h3 := intervalIntegral.integral_comp_add_right (a := 0) (b := 2 * Real.pi)
    (fun θ : ℝ => f (circleMap 0 ‖z‖ θ)) z.arg
  rw [zero_add, add_comm (2 * Real.pi)] at h3
  rw [← h3]
  congr 1
  funext θ
  congr 1
  conv_lhs => rw [← Complex.norm_mul_exp_arg_mul_I z]
  simp only [circleMap, zero_add]
  rw [mul_left_comm, ← Complex.exp_add]
  congr 2
  push_cast
  ring

/-- The mean of a function that is holomorphic in the unit disc, for a law with random phase. -/
theorem randomPhase_mean {ρ : Measure ℂ} [IsProbabilityMeasure ρ] (hρ : ∀ᵐ z ∂ρ, ‖z‖ ≤ 1)
    (f : ℂ → ℂ) (hf : DiffContOnCl ℂ f (Metric.ball 0 1)) (hm : Measurable f) (c : ℝ)
    (hc : ∀ z, ‖z‖ ≤ 1 → ‖f z‖ ≤ c) :
    Integrable f (randomPhase ρ) ∧ ∫ z, f z ∂(randomPhase ρ) = f 0 := by
  have hae : ∀ᵐ p ∂(ρ.prod (uniformLaw 0 (2 * Real.pi))), ‖p.1‖ ≤ 1 :=
    Measure.quasiMeasurePreserving_fst.ae hρ
  have hint : Integrable (fun p : ℂ × ℝ => f (Complex.exp (Complex.I * p.2) * p.1))
      (ρ.prod (uniformLaw 0 (2 * Real.pi))) := by
    refine Integrable.of_bound (hm.comp measurable_turn).aestronglyMeasurable c ?_
    filter_upwards [hae] with p hp
    refine hc _ ?_
    rw [norm_mul, mul_comm Complex.I, Complex.norm_exp_ofReal_mul_I, one_mul]
    exact hp
  constructor
  · rw [Galaxies.randomPhase, integrable_map_measure hm.aestronglyMeasurable measurable_turn.aemeasurable]
    exact hint
  · rw [Galaxies.randomPhase, integral_map measurable_turn.aemeasurable hm.aestronglyMeasurable,
      integral_prod _ hint]
    have : ∀ᵐ z ∂ρ, (∫ θ : ℝ, f (Complex.exp (Complex.I * θ) * z) ∂(uniformLaw 0 (2 * Real.pi))) =
        f 0 := by
      filter_upwards [hρ] with z hz
      exact phase_mean f hf z hz
    rw [integral_congr_ae this]
    simp

/-! ## The lensed ellipticity -/

theorem one_add_ne_zero {e g : ℂ} (he : ‖e‖ ≤ 1) (hg : ‖g‖ < 1) :
    1 + (starRingEnd ℂ) g * e ≠ 0 := by
  intro h
  have h1 : (starRingEnd ℂ) g * e = -1 := by linear_combination h
  have h2 : ‖g‖ * ‖e‖ = 1 := by
    rw [← Complex.norm_conj g, ← norm_mul, h1, norm_neg, norm_one]
  have : ‖g‖ * ‖e‖ ≤ ‖g‖ * 1 := mul_le_mul_of_nonneg_left he (norm_nonneg g)
  linarith

theorem lensed_norm_le {e g : ℂ} (he : ‖e‖ ≤ 1) (hg : ‖g‖ < 1) : ‖lensed e g‖ ≤ 1 := by
  unfold lensed
  rw [norm_div, div_le_one (norm_pos_iff.2 (one_add_ne_zero he hg))]
  have h := normSq_lensed e g
  have he2 : Complex.normSq e ≤ 1 := by
    rw [Complex.normSq_eq_norm_sq]; nlinarith [norm_nonneg e]
  have hg2 : Complex.normSq g ≤ 1 := by
    rw [Complex.normSq_eq_norm_sq]; nlinarith [norm_nonneg g]
  rw [Complex.normSq_eq_norm_sq, Complex.normSq_eq_norm_sq] at h
  refine le_of_pow_le_pow_left₀ two_ne_zero (norm_nonneg _) ?_
  nlinarith

/-- The lensed ellipticity is a holomorphic function of the intrinsic one. -/
theorem lensed_diff {g : ℂ} (hg : ‖g‖ < 1) :
    DiffContOnCl ℂ (fun e => lensed e g) (Metric.ball 0 1) := by
  have hd : ∀ e ∈ Metric.closedBall (0 : ℂ) 1, DifferentiableAt ℂ (fun e => lensed e g) e := by
    intro e he
    have he' : ‖e‖ ≤ 1 := by simpa using he
    unfold lensed
    exact ((differentiableAt_id.add_const g).div ((differentiableAt_id.const_mul _).const_add 1)
      (one_add_ne_zero he' hg))
  refine ⟨fun e he => (hd e (Metric.ball_subset_closedBall he)).differentiableWithinAt, ?_⟩
  rw [closure_ball _ one_ne_zero]
  exact fun e he => (hd e he).continuousAt.continuousWithinAt

/-- **C136**: ellipticities with a random phase have a mean of zero, and after lensing, the reduced
shear as their mean. -/
theorem lensed_mean {ρ : Measure ℂ} [IsProbabilityMeasure ρ] (hρ : ∀ᵐ z ∂ρ, ‖z‖ ≤ 1) {g : ℂ}
    (hg : ‖g‖ < 1) :
    Integrable (fun e => lensed e g) (randomPhase ρ) ∧
    ∫ e, lensed e g ∂(randomPhase ρ) = g := by
  have hm : Measurable fun e => lensed e g := by
    unfold lensed
    fun_prop
  have h := randomPhase_mean hρ (fun e => lensed e g) (lensed_diff hg) hm 1
    fun z hz => lensed_norm_le hz hg
  exact ⟨h.1, by rw [h.2, lensed_round]⟩

/-- **C136**: a reduced shear above one moves every ellipticity out of the unit disc. -/
theorem lensed_norm_gt {e g : ℂ} (he : ‖e‖ < 1) (hg : 1 < ‖g‖)
    (h0 : 1 + (starRingEnd ℂ) g * e ≠ 0) : 1 < ‖lensed e g‖ := by
  rw [lensed, norm_div, one_lt_div (norm_pos_iff.2 h0)]
  have hsq := normSq_lensed e g
  simp only [Complex.normSq_eq_norm_sq] at hsq
  have he2 : ‖e‖ ^ 2 < 1 := by nlinarith [norm_nonneg e]
  have hg2 : 1 < ‖g‖ ^ 2 := by nlinarith [norm_nonneg g]
  have : 0 < (1 - ‖e‖ ^ 2) * (‖g‖ ^ 2 - 1) := mul_pos (by linarith) (by linarith)
  exact lt_of_pow_lt_pow_left₀ 2 (norm_nonneg _) (by nlinarith)

/-! ## The laws of the samplers -/

theorem complexNormal_isotropic : Isotropic complexNormal := by
  intro θ
  have h0 : ∀ L : StrongDual ℝ ℝ, (gaussianReal 0 1)[L] = 0 := by
    intro L
    have : ∀ x : ℝ, L x = x * L 1 := fun x => by
      have := L.map_smul x 1
      simpa using this
    rw [integral_congr_ae (ae_of_all _ this), integral_mul_const, integral_id_gaussianReal, zero_mul]
  have h := IsGaussian.map_rotation_eq_self_of_forall_strongDual_eq_zero h0 (-θ)
  rw [complexNormal, Measure.map_map (by fun_prop) measurable_complex]
  conv_rhs => rw [← h, Measure.map_map measurable_complex (by fun_prop)]
  congr 1
  funext p
  simp only [Function.comp, ContinuousLinearMap.rotation_apply, Real.cos_neg, Real.sin_neg, neg_neg,
    smul_eq_mul]
  rw [mul_comm Complex.I (θ : ℂ), Complex.exp_mul_I]
  push_cast
  linear_combination (-(Complex.sin θ * p.2) : ℂ) * Complex.I_mul_I.symm

/-- Multiplication by a function of the modulus keeps the law without preferred direction. -/
theorem Isotropic.radial {ν : Measure ℂ} (h : Isotropic ν) (t : ℝ → ℂ) (ht : Measurable t) :
    Isotropic (ν.map fun z => t ‖z‖ * z) := by
  intro θ
  rw [Measure.map_map (by fun_prop) (by fun_prop)]
  conv_rhs => rw [← h θ, Measure.map_map (by fun_prop) (by fun_prop)]
  congr 1
  funext z
  simp only [Function.comp]
  rw [norm_mul, mul_comm Complex.I (θ : ℂ), Complex.norm_exp_ofReal_mul_I, one_mul]
  ring

/-- So does a condition on the modulus. -/
theorem Isotropic.cond {ν : Measure ℂ} (h : Isotropic ν) (B : Set ℝ) (hB : MeasurableSet B) :
    Isotropic (ν[|{z | ‖z‖ ∈ B}]) := by
  intro θ
  have hS : MeasurableSet {z : ℂ | ‖z‖ ∈ B} := measurable_norm hB
  ext A hA
  rw [Measure.map_apply (by fun_prop) hA, cond_apply hS, cond_apply hS]
  congr 1
  conv_rhs => rw [← h θ, Measure.map_apply (by fun_prop) (hS.inter hA)]
  congr 1
  ext z
  simp only [Set.mem_inter_iff, Set.mem_preimage, Set.mem_ofPred_eq, norm_mul]
  rw [mul_comm Complex.I (θ : ℂ), Complex.norm_exp_ofReal_mul_I, one_mul]

/-- The laws of the samplers are those of numbers in the unit disc with a random phase. -/
def DiscPhase (ν : Measure ℂ) : Prop :=
  ∃ ρ : Measure ℂ, IsProbabilityMeasure ρ ∧ (∀ᵐ z ∂ρ, ‖z‖ ≤ 1) ∧ randomPhase ρ = ν

theorem discPhase_truncatedNormal (sigma : ℝ) : DiscPhase (truncatedNormal sigma) := by
  refine ⟨truncatedNormal sigma, inferInstance, ?_, Isotropic.randomPhase ?_⟩
  · have hS : MeasurableSet {e : ℂ | ‖e‖ ≤ 1} := measurableSet_le measurable_norm measurable_const
    exact ae_cond_mem hS
  · have h := (complexNormal_isotropic.radial (fun _ => (sigma : ℂ)) measurable_const).cond
      (Set.Iic 1) measurableSet_Iic
    rw [show (fun z : ℂ => (sigma : ℂ) * z) = fun z => z * (sigma : ℂ) from
      funext fun z => mul_comm _ _] at h
    exact h

theorem discPhase_intrinsicNormal (sd : ℝ) : DiscPhase (intrinsicNormal sd) := by
  refine ⟨intrinsicNormal sd, inferInstance, ?_, Isotropic.randomPhase ?_⟩
  · rw [← intnorm_law, ae_map_iff (measurable_intnorm sd).aemeasurable
      (measurableSet_le measurable_norm measurable_const)]
    refine ae_of_all _ fun z => ?_
    rw [intnorm_eq, norm_mul, Complex.norm_real, Real.norm_eq_abs, abs_div, abs_norm]
    by_cases h : ‖z * (sd : ℂ)‖ = 0
    · rw [h]; simp
    · rw [div_mul_cancel₀ _ h]
      exact (Real.abs_tanh_lt_one _).le
  · rw [← intnorm_law]
    have h := complexNormal_isotropic.radial
      (fun r => ((Real.tanh (r * |sd| / 2) / (r * |sd|) : ℝ) : ℂ) * (sd : ℂ))
      (by
        have h1 : Measurable fun r : ℝ => Real.tanh (r * |sd| / 2) :=
          measurable_tanh.comp (by fun_prop)
        fun_prop)
    have e : (intnorm sd) = fun z : ℂ =>
        ((Real.tanh (‖z‖ * |sd| / 2) / (‖z‖ * |sd|) : ℝ) : ℂ) * (sd : ℂ) * z := by
      funext z
      rw [intnorm_eq, norm_mul, Complex.norm_real, Real.norm_eq_abs]
      ring
    rw [e]
    exact h

theorem truncated_probability {m sd : ℝ} {S : Set ℝ} (hS : 0 < volume S) (hm : MeasurableSet S)
    (h0 : 0 ≤ sd) (h : sd = 0 → m ∈ S) : IsProbabilityMeasure (truncated m sd S) := by
  refine cond_isProbabilityMeasure ?_
  refine gaussian_pos (θ := (m, sd.toNNReal)) hS (fun hz => h ?_) hm
  exact le_antisymm (Real.toNNReal_eq_zero.1 hz) h0

theorem discPhase_ryden (p : (ℝ × ℝ) × (ℝ × ℝ)) (h1 : 0 ≤ p.1.2 ∧ (p.1.2 = 0 → p.1.1 ∈ Set.Iic (0 : ℝ)))
    (h2 : 0 ≤ p.2.2 ∧ (p.2.2 = 0 → p.2.1 ∈ Set.Icc (0 : ℝ) 1)) : DiscPhase (rydenLaw p) := by
  have i1 : IsProbabilityMeasure (truncated p.1.1 p.1.2 (Set.Iic 0)) :=
    truncated_probability (by simp) measurableSet_Iic h1.1 h1.2
  have i2 : IsProbabilityMeasure (truncated p.2.1 p.2.2 (Set.Icc 0 1)) :=
    truncated_probability (by simp) measurableSet_Icc h2.1 h2.2
  set M := (((truncated p.1.1 p.1.2 (Set.Iic 0)).prod (truncated p.2.1 p.2.2 (Set.Icc 0 1))).prod
    (uniformLaw (-1) 1)).prod (uniformLaw 0 (2 * Real.pi)) with hM
  set w : ((ℝ × ℝ) × ℝ) × ℝ → ℂ := fun v =>
    let q := ratio (1 - Real.exp v.1.1.1) ((1 - v.1.1.2) * (1 - Real.exp v.1.1.1)) v.1.2 v.2
    (((1 - q) / (1 + q) : ℝ) : ℂ) with hw
  have hwm : Measurable w := by
    rw [hw]
    unfold ratio
    fun_prop
  refine ⟨M.map w, Measure.isProbabilityMeasure_map hwm.aemeasurable, ?_, ?_⟩
  · rw [ae_map_iff hwm.aemeasurable (measurableSet_le measurable_norm measurable_const)]
    refine ae_of_all _ fun v => ?_
    simp only [hw, Complex.norm_real, Real.norm_eq_abs]
    set q := ratio (1 - Real.exp v.1.1.1) ((1 - v.1.1.2) * (1 - Real.exp v.1.1.1)) v.1.2 v.2
    have hq : 0 ≤ q := Real.sqrt_nonneg _
    rw [abs_le, le_div_iff₀ (by linarith), div_le_iff₀ (by linarith)]
    constructor <;> linarith
  · rw [randomPhase, ← Measure.map_id (μ := uniformLaw 0 (2 * Real.pi)),
      Measure.map_prod_map _ _ hwm measurable_id,
      Measure.map_map measurable_turn (hwm.prodMap measurable_id), rydenLaw]
    refine Measure.map_congr ?_
    filter_upwards [project_ae ((truncated p.1.1 p.1.2 (Set.Iic 0)).prod
      (truncated p.2.1 p.2.2 (Set.Icc 0 1)))] with v hv
    rw [← hv.2]
    rfl

/-! ## Entries of the results -/

section Entries

variable {σ : Type} [MeasurableSpace σ]

/-- The box that restricts one entry. -/
def oneOf (n i : ℕ) (A : Set ℂ) : List (Set ℂ) := (List.replicate n Set.univ).set i A

theorem oneOf_prod : ∀ (νs : List (Measure ℂ)) (i : ℕ) (hi : i < νs.length) (A : Set ℂ),
    (∀ ν ∈ νs, IsProbabilityMeasure ν) →
    (List.zipWith (fun (ν : Measure ℂ) A => ν A) νs (oneOf νs.length i A)).prod = νs[i] A
  | ν :: νs, 0, _, A, h => by
    have : ∀ l : List (Measure ℂ), (∀ ν ∈ l, IsProbabilityMeasure ν) →
        (List.zipWith (fun (ν : Measure ℂ) A => ν A) l (List.replicate l.length Set.univ)).prod = 1 := by
      intro l
      induction l with
      | nil => simp
      | cons ν l ih =>
        intro h
        have := h ν (by simp)
        simp [List.replicate_succ, ih fun ν' h' => h ν' (by simp [h'])]
    simp [oneOf, List.replicate_succ, this νs fun ν' h' => h ν' (by simp [h'])]
  | ν :: νs, i + 1, hi, A, h => by
    have := h ν (by simp)
    have ih := oneOf_prod νs i (by simpa using hi) A fun ν' h' => h ν' (by simp [h'])
    simp only [oneOf] at ih
    simp [oneOf, List.replicate_succ, ih]

theorem inBox_oneOf : ∀ (es : List ℂ) (n i : ℕ) (_ : i < n) (A : Set ℂ),
    InBox es (oneOf n i A) ↔ es.length = n ∧ es.getD i 0 ∈ A
  | [], n + 1, i, _, A => by
    cases i <;> simp [oneOf, List.replicate_succ]
  | e :: es, n + 1, 0, _, A => by
    simp only [oneOf, List.replicate_succ, List.set_cons_zero, inBox_cons, inBox_univ,
      List.length_cons, List.getD_cons_zero]
    constructor
    · rintro ⟨h1, h2⟩; exact ⟨by rw [h2], h1⟩
    · rintro ⟨h1, h2⟩; exact ⟨h2, by omega⟩
  | e :: es, n + 1, i + 1, hi, A => by
    have ih := inBox_oneOf es n i (by omega) A
    simp only [oneOf] at ih
    simp only [oneOf, List.replicate_succ, List.set_cons_succ, inBox_cons, Set.mem_univ, true_and, ih,
      List.length_cons, List.getD_cons_succ, Nat.add_right_cancel_iff]

/-- If the results of a sampler are independent and have given laws, an entry is a random number with
its law. -/
theorem choice_law {μ : Measure σ} [IsProbabilityMeasure μ] {R : σ → List ℂ → Prop}
    {νs : List (Measure ℂ)} (hν : ∀ ν ∈ νs, IsProbabilityMeasure ν) {L : σ → List ℂ}
    (hL : ∀ᵐ s ∂μ, R s (L s) ∧ (L s).length = νs.length)
    (hlaw : ∀ As : List (Set ℂ), As.length = νs.length → (∀ A ∈ As, MeasurableSet A) →
      μ {s | ∃ es, R s es ∧ InBox es As} = (List.zipWith (fun (ν : Measure ℂ) A => ν A) νs As).prod)
    (i : ℕ) (hi : i < νs.length) :
    AEMeasurable (fun s => (L s).getD i 0) μ ∧ μ.map (fun s => (L s).getD i 0) = νs[i] := by
  classical
  have : IsProbabilityMeasure νs[i] := hν _ (List.getElem_mem hi)
  set n := νs.length with hn
  set X : σ → ℂ := fun s => (L s).getD i 0 with hX
  have hXs : ∀ᵐ s ∂μ, ∃ es, R s es ∧ es.length = n ∧ es.getD i 0 = X s := by
    filter_upwards [hL] with s hs
    exact ⟨L s, hs.1, hs.2, rfl⟩
  set S : Set ℂ → Set σ := fun A => {s | ∃ es, R s es ∧ InBox es (oneOf n i A)} with hS
  have hSA : ∀ A, MeasurableSet A → μ (S A) = νs[i] A := by
    intro A hA
    rw [hS]
    simp only
    rw [hlaw _ (by simp [oneOf, hn]), oneOf_prod νs i hi A hν]
    intro B hB
    rcases List.mem_or_eq_of_mem_set hB with h | h
    · rw [List.eq_of_mem_replicate h]; exact MeasurableSet.univ
    · rw [h]; exact hA
  have key : ∀ A, MeasurableSet A → X ⁻¹' A =ᵐ[μ] toMeasurable μ (S A) := by
    intro A hA
    have hcov : ∀ᵐ s ∂μ, s ∈ toMeasurable μ (S A) ∪ toMeasurable μ (S Aᶜ) := by
      filter_upwards [hXs] with s hs
      obtain ⟨es, h1, h2, h3⟩ := hs
      by_cases hx : X s ∈ A
      · exact Or.inl (subset_toMeasurable _ _ ⟨es, h1, (inBox_oneOf es n i hi A).2 ⟨h2, h3 ▸ hx⟩⟩)
      · exact Or.inr (subset_toMeasurable _ _ ⟨es, h1, (inBox_oneOf es n i hi Aᶜ).2 ⟨h2, h3 ▸ hx⟩⟩)
    have hun : μ (toMeasurable μ (S A) ∪ toMeasurable μ (S Aᶜ)) = 1 := by
      have hu : (toMeasurable μ (S A) ∪ toMeasurable μ (S Aᶜ) : Set σ) =ᵐ[μ] Set.univ :=
        Filter.eventuallyEq_univ.2 hcov
      rw [measure_congr hu, measure_univ]
    have hadd := measure_union_add_inter (μ := μ) (toMeasurable μ (S A))
      (measurableSet_toMeasurable μ (S Aᶜ))
    rw [hun, measure_toMeasurable, measure_toMeasurable, hSA A hA, hSA _ hA.compl,
      prob_add_prob_compl hA] at hadd
    have h0 : μ (toMeasurable μ (S A) ∩ toMeasurable μ (S Aᶜ)) = 0 := by
      have : (1 : ℝ≥0∞) + μ (toMeasurable μ (S A) ∩ toMeasurable μ (S Aᶜ)) = 1 + 0 := by
        rw [hadd, add_zero]
      exact (ENNReal.add_right_inj ENNReal.one_ne_top).1 this
    have hnot : ∀ᵐ s ∂μ, s ∉ toMeasurable μ (S A) ∩ toMeasurable μ (S Aᶜ) := measure_eq_zero_iff_ae_notMem.1 h0
    filter_upwards [hXs, hnot] with s hs hs'
    obtain ⟨es, h1, h2, h3⟩ := hs
    refine propext ⟨fun hx => ?_, fun hx => ?_⟩
    · exact subset_toMeasurable _ _ ⟨es, h1, (inBox_oneOf es n i hi A).2 ⟨h2, h3 ▸ hx⟩⟩
    · by_contra hx'
      exact hs' ⟨hx, subset_toMeasurable _ _
        ⟨es, h1, (inBox_oneOf es n i hi Aᶜ).2 ⟨h2, h3 ▸ hx'⟩⟩⟩
  have hnull : NullMeasurable X μ := fun A hA =>
    (measurableSet_toMeasurable μ (S A)).nullMeasurableSet.congr (key A hA).symm
  have haem := hnull.aemeasurable
  refine ⟨haem, ?_⟩
  ext A hA
  rw [Measure.map_apply_of_aemeasurable haem hA, measure_congr (key A hA), measure_toMeasurable,
    hSA A hA]

/-- The results of a sampler, chosen for every state. -/
theorem exists_choice {μ : Measure σ} {R : σ → List ℂ → Prop} {n : ℕ}
    (hends : ∀ᵐ s ∂μ, ∃ es, R s es ∧ es.length = n) :
    ∃ L : σ → List ℂ, ∀ᵐ s ∂μ, R s (L s) ∧ (L s).length = n := by
  classical
  refine ⟨fun s => if h : ∃ es, R s es ∧ es.length = n then h.choose else [], ?_⟩
  filter_upwards [hends] with s hs
  simp only [dif_pos hs]
  exact hs.choose_spec

theorem entry_law {μ : Measure σ} [IsProbabilityMeasure μ] {R : σ → List ℂ → Prop}
    {νs : List (Measure ℂ)} (hν : ∀ ν ∈ νs, IsProbabilityMeasure ν)
    (hends : ∀ᵐ s ∂μ, ∃ es, R s es ∧ es.length = νs.length)
    (hlaw : ∀ As : List (Set ℂ), As.length = νs.length → (∀ A ∈ As, MeasurableSet A) →
      μ {s | ∃ es, R s es ∧ InBox es As} = (List.zipWith (fun (ν : Measure ℂ) A => ν A) νs As).prod)
    (i : ℕ) (hi : i < νs.length) :
    ∃ X : σ → ℂ, AEMeasurable X μ ∧ μ.map X = νs[i] ∧
      ∀ᵐ s ∂μ, ∃ es, R s es ∧ es.length = νs.length ∧ es[i]? = some (X s) := by
  obtain ⟨L, hL⟩ := exists_choice hends
  obtain ⟨h1, h2⟩ := choice_law hν hL hlaw i hi
  refine ⟨_, h1, h2, ?_⟩
  filter_upwards [hL] with s hs
  refine ⟨L s, hs.1, hs.2, ?_⟩
  rw [getD_get (by omega), List.getElem?_eq_getElem (by omega)]

theorem DiscPhase.probability {ν : Measure ℂ} (h : DiscPhase ν) : IsProbabilityMeasure ν := by
  obtain ⟨ρ, hρ, -, rfl⟩ := h
  have : IsProbabilityMeasure (uniformLaw 0 (2 * Real.pi)) := inferInstance
  exact Measure.isProbabilityMeasure_map measurable_turn.aemeasurable

/-- The ellipticities of a sampler are independent and have the given laws, which have random
phases; `R s es` says that the sampler returns `es` in the state `s`. -/
structure Samples (μ : Measure σ) (R : σ → List ℂ → Prop) (νs : List (Measure ℂ)) : Prop where
  phase : ∀ ν ∈ νs, DiscPhase ν
  ends : ∀ᵐ s ∂μ, ∃ es, R s es ∧ es.length = νs.length
  law : ∀ As : List (Set ℂ), As.length = νs.length → (∀ A ∈ As, MeasurableSet A) →
    μ {s | ∃ es, R s es ∧ InBox es As} = (List.zipWith (fun (ν : Measure ℂ) A => ν A) νs As).prod

/-- The mean of a sheared ellipticity for any sampler whose ellipticities have random phases. -/
theorem sheared_mean {μ : Measure σ} [IsProbabilityMeasure μ] {R : σ → List ℂ → Prop}
    {νs : List (Measure ℂ)} (hR : Samples μ R νs) {npix chunk : ℕ} (hc : 0 < chunk) (junk : ℕ → ℝ) (pix : ℝ × ℝ → Fin npix)
    {lonlat : List (ℝ × ℝ)} (hl : lonlat.length = νs.length) (kappa gamma1 gamma2 : Fin npix → ℝ)
    (red : Bool) {i : ℕ} {p : ℝ × ℝ} (hp : lonlat[i]? = some p)
    (hg : red = true → WeakAt pix kappa gamma1 gamma2 p) :
    ∃ X : σ → ℂ, (∀ᵐ s ∂μ, ∃ es out, R s es ∧
        galaxyShear chunk junk pix lonlat es kappa gamma1 gamma2 red = .ok out ∧
        out[i]? = some (X s)) ∧
      Integrable X μ ∧
      ∫ s, X s ∂μ = if red then reducedShearAt pix kappa gamma1 gamma2 p
        else shearAt pix gamma1 gamma2 p := by
  obtain ⟨hi, hpi⟩ := List.getElem?_eq_some_iff.1 hp
  have hi' : i < νs.length := by omega
  obtain ⟨hν, hends, hlaw⟩ := hR
  obtain ⟨E, hE, hmap, hes⟩ := entry_law (fun ν h => (hν ν h).probability) hends hlaw i hi'
  obtain ⟨ρ, hρ, hle, hph⟩ := hν _ (List.getElem_mem hi')
  have mean : ∀ g : ℂ, ‖g‖ < 1 → Integrable (fun s => lensed (E s) g) μ ∧
      ∫ s, lensed (E s) g ∂μ = g := by
    intro g hg
    have h := lensed_mean hle hg
    rw [hph, ← hmap] at h
    have hm : Measurable fun e => lensed e g := by
      unfold lensed
      fun_prop
    exact ⟨h.1.comp_aemeasurable hE, by
      rw [integral_map hE hm.aestronglyMeasurable] at h
      exact h.2⟩
  have hzip : ∀ (f : ℂ → ℝ × ℝ → ℂ) (es : List ℂ) (e : ℂ), es[i]? = some e →
      (List.zipWith f es lonlat)[i]? = some (f e p) := by
    intro f es e he
    rw [List.getElem?_zipWith, he, hp]
  cases red with
  | true =>
    have hg := (hg rfl).lt_one
    refine ⟨fun s => lensed (E s) (reducedShearAt pix kappa gamma1 gamma2 p), ?_, (mean _ hg).1,
      (mean _ hg).2⟩
    filter_upwards [hes] with s hs
    obtain ⟨es, h1, h2, h3⟩ := hs
    exact ⟨es, _, h1, (galaxyShear_eq hc junk pix (hl.trans h2.symm) kappa gamma1 gamma2).1,
      hzip _ es _ h3⟩
  | false =>
    have h0 := mean 0 (by simp)
    have he : (fun s => lensed (E s) 0) = E := by
      funext s
      simp [lensed]
    have h0' : Integrable E μ ∧ ∫ s, E s ∂μ = 0 := by
      refine ⟨?_, ?_⟩
      · rw [← he]; exact h0.1
      · conv_lhs => rw [← he]
        exact h0.2
    refine ⟨fun s => E s + shearAt pix gamma1 gamma2 p, ?_, h0'.1.add (integrable_const _), ?_⟩
    · filter_upwards [hes] with s hs
      obtain ⟨es, h1, h2, h3⟩ := hs
      exact ⟨es, _, h1, (galaxyShear_eq hc junk pix (hl.trans h2.symm) kappa gamma1 gamma2).2,
        hzip (fun e p => e + shearAt pix gamma1 gamma2 p) es _ h3⟩
    · rw [integral_add h0'.1 (integrable_const _), h0'.2]
      simp

theorem objects_length (ps : List (ℕ × ℝ)) : (objects ps).length = (ps.map Prod.fst).sum := by
  induction ps with
  | nil => rfl
  | cons p ps ih => simp only [objects, List.flatMap_cons, List.length_append, List.length_replicate,
      List.map_cons, List.sum_cons] at ih ⊢; rw [ih]

theorem populations_count (count : NdArray ℕ) (sigma : NdArray ℝ) (dims : List ℕ) :
    (populations count sigma dims).map Prod.fst = (indices dims).map (entry count) := by
  simp [populations, Function.comp_def]

/-! ## The theorems -/

/-- The sampler `ellipticity_gaussian`. -/
theorem gaussian_samples {μ : Measure σ} [IsProbabilityMeasure μ]
    {normal : σ → ℕ → List ℝ × σ} (hn : IdealNormal μ normal) (junk : ℕ → ℂ) (count : NdArray ℕ)
    (sigma : NdArray ℝ) {dims : List ℕ} (hd : IsBroadcast [count.shape, sigma.shape] dims) :
    Samples μ
      (fun s es => ∃ fuel s', ellipticityGaussian normal junk fuel s count sigma = some (.ok (es, s')))
      ((objects (populations count sigma dims)).map truncatedNormal) := by
  have hsum := objects_length (populations count sigma dims)
  exact ⟨(fun ν h => by
      obtain ⟨v, -, rfl⟩ := List.mem_map.1 h
      exact discPhase_truncatedNormal v),
    (by
      filter_upwards [ellipticity_gaussian_ends hn junk count sigma hd] with s hs
      obtain ⟨fuel, es, s', h⟩ := hs
      refine ⟨es, ⟨fuel, s', h⟩, ?_⟩
      rw [(ellipticity_gaussian_disc (IdealNormal.count hn) junk fuel s s' count sigma hd h).2,
        List.length_map, hsum, populations_count]),
    (fun As hAl hA => by
      have h := ellipticity_gaussian_law hn junk count sigma hd (As := As)
        (by rw [hAl, List.length_map, hsum]) hA MeasurableSet.univ
      rw [measure_univ, mul_one] at h
      rw [List.zipWith_map_left, ← h]
      congr 1
      ext s
      constructor
      · rintro ⟨es, ⟨fuel, s', h1⟩, h2⟩
        exact ⟨fuel, es, s', h1, h2, trivial⟩
      · rintro ⟨fuel, es, s', h1, h2, -⟩
        exact ⟨es, ⟨fuel, s', h1⟩, h2⟩)⟩

/-- **C136.** For ellipticities of `ellipticity_gaussian`, the mean of every result of
`galaxy_shear` is the reduced shear at the position of the galaxy, for all standard deviations; the
mean is the shear if the reduced shear is not requested. -/
theorem gaussian_shear_mean {μ : Measure σ} [IsProbabilityMeasure μ]
    {normal : σ → ℕ → List ℝ × σ} (hn : IdealNormal μ normal) (junk : ℕ → ℂ) (count : NdArray ℕ)
    (sigma : NdArray ℝ) {dims : List ℕ} (hd : IsBroadcast [count.shape, sigma.shape] dims)
    {npix chunk : ℕ} (hc : 0 < chunk) (junk' : ℕ → ℝ) (pix : ℝ × ℝ → Fin npix)
    {lonlat : List (ℝ × ℝ)} (hl : lonlat.length = ((indices dims).map (entry count)).sum)
    (kappa gamma1 gamma2 : Fin npix → ℝ) (red : Bool) {i : ℕ} {p : ℝ × ℝ}
    (hp : lonlat[i]? = some p)
    (hg : red = true → WeakAt pix kappa gamma1 gamma2 p) :
    ∃ X : σ → ℂ, (∀ᵐ s ∂μ, ∃ fuel es s' out,
        ellipticityGaussian normal junk fuel s count sigma = some (.ok (es, s')) ∧
        galaxyShear chunk junk' pix lonlat es kappa gamma1 gamma2 red = .ok out ∧
        out[i]? = some (X s)) ∧
      Integrable X μ ∧
      ∫ s, X s ∂μ = if red then reducedShearAt pix kappa gamma1 gamma2 p
        else shearAt pix gamma1 gamma2 p := by
  have hsum := objects_length (populations count sigma dims)
  obtain ⟨X, h1, h2, h3⟩ := sheared_mean (μ := μ)
    (gaussian_samples hn junk count sigma hd)
    hc junk' pix (by rw [hl, List.length_map, hsum, populations_count]) kappa gamma1 gamma2 red hp hg
  refine ⟨X, ?_, h2, h3⟩
  filter_upwards [h1] with s hs
  obtain ⟨es, out, ⟨fuel, s', h4⟩, h5, h6⟩ := hs
  exact ⟨fuel, es, s', out, h4, h5, h6⟩

/-- The sampler `ellipticity_intnorm`. -/
theorem intnorm_samples {μ : Measure σ} [IsProbabilityMeasure μ]
    {normal : σ → ℕ → List ℝ × σ} (hn : IdealNormal μ normal) (junk : ℕ → ℂ) (count : NdArray ℕ)
    (sigma : NdArray ℝ) {dims : List ℕ} (hd : IsBroadcast [count.shape, sigma.shape] dims)
    (hs : ∀ idx ∈ indices dims, 0 ≤ entry sigma idx ∧ entry sigma idx < Real.sqrt 0.5) :
    Samples μ (fun s es => ∃ s', ellipticityIntnorm normal junk s count sigma = .ok (es, s'))
      ((objects (populations count sigma dims)).map fun v =>
        intrinsicNormal (v * Real.sqrt ((8 + 5 * v ^ 2) / (2 - 4 * v ^ 2)))) := by
  have hsum := objects_length (populations count sigma dims)
  exact ⟨(fun ν h => by
      obtain ⟨v, -, rfl⟩ := List.mem_map.1 h
      exact discPhase_intrinsicNormal _),
    (by
      refine ae_of_all _ fun s => ?_
      obtain ⟨es, s', h, -, hlen⟩ := ellipticity_intnorm_disc (IdealNormal.count hn) junk s count
        sigma hd hs
      exact ⟨es, ⟨s', h⟩, by rw [hlen, List.length_map, hsum, populations_count]⟩),
    (fun As hAl hA => by
      have h := ellipticity_intnorm_law hn junk count sigma hd hs (As := As)
        (by rw [hAl, List.length_map, hsum]) hA MeasurableSet.univ
      rw [measure_univ, mul_one] at h
      rw [List.zipWith_map_left, ← h]
      congr 1
      ext s
      constructor
      · rintro ⟨es, ⟨s', h1⟩, h2⟩
        exact ⟨es, s', h1, h2, trivial⟩
      · rintro ⟨es, s', h1, h2, -⟩
        exact ⟨es, ⟨s', h1⟩, h2⟩)⟩

/-- **C136.** The same for the ellipticities of `ellipticity_intnorm`. -/
theorem intnorm_shear_mean {μ : Measure σ} [IsProbabilityMeasure μ]
    {normal : σ → ℕ → List ℝ × σ} (hn : IdealNormal μ normal) (junk : ℕ → ℂ) (count : NdArray ℕ)
    (sigma : NdArray ℝ) {dims : List ℕ} (hd : IsBroadcast [count.shape, sigma.shape] dims)
    (hs : ∀ idx ∈ indices dims, 0 ≤ entry sigma idx ∧ entry sigma idx < Real.sqrt 0.5)
    {npix chunk : ℕ} (hc : 0 < chunk) (junk' : ℕ → ℝ) (pix : ℝ × ℝ → Fin npix)
    {lonlat : List (ℝ × ℝ)} (hl : lonlat.length = ((indices dims).map (entry count)).sum)
    (kappa gamma1 gamma2 : Fin npix → ℝ) (red : Bool) {i : ℕ} {p : ℝ × ℝ}
    (hp : lonlat[i]? = some p)
    (hg : red = true → WeakAt pix kappa gamma1 gamma2 p) :
    ∃ X : σ → ℂ, (∀ᵐ s ∂μ, ∃ es s' out,
        ellipticityIntnorm normal junk s count sigma = .ok (es, s') ∧
        galaxyShear chunk junk' pix lonlat es kappa gamma1 gamma2 red = .ok out ∧
        out[i]? = some (X s)) ∧
      Integrable X μ ∧
      ∫ s, X s ∂μ = if red then reducedShearAt pix kappa gamma1 gamma2 p
        else shearAt pix gamma1 gamma2 p := by
  have hsum := objects_length (populations count sigma dims)
  obtain ⟨X, h1, h2, h3⟩ := sheared_mean (μ := μ)
    (intnorm_samples hn junk count sigma hd hs)
    hc junk' pix (by rw [hl, List.length_map, hsum, populations_count]) kappa gamma1 gamma2 red hp hg
  refine ⟨X, ?_, h2, h3⟩
  filter_upwards [h1] with s hs
  obtain ⟨es, out, ⟨s', h4⟩, h5, h6⟩ := hs
  exact ⟨es, s', out, h4, h5, h6⟩

theorem forall₂_some {As : List (Set ℂ)} : ∀ {es : List ℂ},
    List.Forall₂ (fun (e : Option ℂ) A => ∃ z ∈ A, e = some z) (es.map some) As ↔ InBox es As := by
  intro es
  unfold InBox
  rw [List.forall₂_map_left_iff]
  constructor <;> intro h <;> refine h.imp fun e A h => ?_
  · obtain ⟨z, hz, he⟩ := h
    cases he
    exact hz
  · exact ⟨e, h, rfl⟩

theorem forall₂_map_some {l : List (Option ℂ)} (h : ∀ e ∈ l, ∃ z, e = some z) :
    ∃ es : List ℂ, l = es.map some := by
  induction l with
  | nil => exact ⟨[], rfl⟩
  | cons e l ih =>
    obtain ⟨z, rfl⟩ := h e (by simp)
    obtain ⟨es, rfl⟩ := ih fun e he => h e (by simp [he])
    exact ⟨z :: es, rfl⟩

/-- The sampler `ellipticity_ryden04`. -/
theorem ryden04_samples {μ : Measure σ} [IsProbabilityMeasure μ]
    {normal : σ → List (ℝ × ℝ) → List ℝ × σ} (hn : IdealNormals μ normal) {uniform : Uniform σ}
    (hu : IdealUniform μ uniform) (mu sigma gamma sigma_gamma : NdArray ℝ)
    (size : Option (List ℕ)) {dims : List ℕ}
    (hd : IsResultShape [mu.shape, sigma.shape, gamma.shape, sigma_gamma.shape] size dims)
    (h1 : ∀ p ∈ parameters mu sigma dims, 0 ≤ p.2 ∧ (p.2 = 0 → p.1 ∈ Set.Iic (0 : ℝ)))
    (h2 : ∀ p ∈ parameters gamma sigma_gamma dims, 0 ≤ p.2 ∧ (p.2 = 0 → p.1 ∈ Set.Icc (0 : ℝ) 1)) :
    Samples μ (fun s es => ∃ fuel arr s',
        ellipticityRyden04 normal uniform fuel s mu sigma gamma sigma_gamma size =
          some (.ok (arr, s')) ∧ arr.ravel = es.map some)
      (((parameters mu sigma dims).zip (parameters gamma sigma_gamma dims)).map rydenLaw) := by
  have hlen : ((parameters mu sigma dims).zip (parameters gamma sigma_gamma dims)).length =
      dims.prod := by
    simp [parameters, indices_length]
  exact ⟨(fun ν h => by
      obtain ⟨v, hv, rfl⟩ := List.mem_map.1 h
      exact discPhase_ryden v (h1 _ (List.of_mem_zip hv).1) (h2 _ (List.of_mem_zip hv).2)),
    (by
      have hbox := ellipticity_ryden04_ends hn hu mu sigma gamma sigma_gamma size hd h1 h2
      filter_upwards [hbox] with s hs
      obtain ⟨fuel, arr, s', h, hsh, hsome⟩ := hs
      obtain ⟨es, he⟩ := forall₂_map_some hsome
      refine ⟨es, ⟨fuel, arr, s', h, he⟩, ?_⟩
      have hr : arr.ravel.length = dims.prod := by
        rw [NdArray.ravel, List.length_map, indices_length, hsh]
      rw [List.length_map, hlen, ← hr, he, List.length_map]),
    (fun As hAl hA => by
      have h := ellipticity_ryden04_law hn hu mu sigma gamma sigma_gamma size hd h1 h2 (As := As)
        (by rw [hAl, List.length_map, hlen]) hA MeasurableSet.univ
      rw [measure_univ, mul_one] at h
      rw [List.zipWith_map_left, ← h]
      congr 1
      ext s
      constructor
      · rintro ⟨es, ⟨fuel, arr, s', h1, he⟩, h2⟩
        exact ⟨fuel, arr, s', h1, by rw [he]; exact forall₂_some.2 h2, trivial⟩
      · rintro ⟨fuel, arr, s', h1, h2, -⟩
        obtain ⟨es, he⟩ := forall₂_map_some (l := arr.ravel) fun e he => by
          obtain ⟨i, hi, rfl⟩ := List.getElem_of_mem he
          obtain ⟨z, -, hz⟩ := h2.get hi (h2.length_eq ▸ hi)
          exact ⟨z, hz⟩
        exact ⟨es, ⟨fuel, arr, s', h1, he⟩, forall₂_some.1 (by rw [← he]; exact h2)⟩)⟩

/-- **C136.** The same for the ellipticities of `ellipticity_ryden04`. -/
theorem ryden04_shear_mean {μ : Measure σ} [IsProbabilityMeasure μ]
    {normal : σ → List (ℝ × ℝ) → List ℝ × σ} (hn : IdealNormals μ normal) {uniform : Uniform σ}
    (hu : IdealUniform μ uniform) (mu sigma gamma sigma_gamma : NdArray ℝ)
    (size : Option (List ℕ)) {dims : List ℕ}
    (hd : IsResultShape [mu.shape, sigma.shape, gamma.shape, sigma_gamma.shape] size dims)
    (h1 : ∀ p ∈ parameters mu sigma dims, 0 ≤ p.2 ∧ (p.2 = 0 → p.1 ∈ Set.Iic (0 : ℝ)))
    (h2 : ∀ p ∈ parameters gamma sigma_gamma dims, 0 ≤ p.2 ∧ (p.2 = 0 → p.1 ∈ Set.Icc (0 : ℝ) 1))
    {npix chunk : ℕ} (hc : 0 < chunk) (junk : ℕ → ℝ) (pix : ℝ × ℝ → Fin npix)
    {lonlat : List (ℝ × ℝ)} (hl : lonlat.length = dims.prod)
    (kappa gamma1 gamma2 : Fin npix → ℝ) (red : Bool) {i : ℕ} {p : ℝ × ℝ}
    (hp : lonlat[i]? = some p)
    (hg : red = true → WeakAt pix kappa gamma1 gamma2 p) :
    ∃ X : σ → ℂ, (∀ᵐ s ∂μ, ∃ fuel arr s' es out,
        ellipticityRyden04 normal uniform fuel s mu sigma gamma sigma_gamma size =
          some (.ok (arr, s')) ∧ arr.ravel = es.map some ∧
        galaxyShear chunk junk pix lonlat es kappa gamma1 gamma2 red = .ok out ∧
        out[i]? = some (X s)) ∧
      Integrable X μ ∧
      ∫ s, X s ∂μ = if red then reducedShearAt pix kappa gamma1 gamma2 p
        else shearAt pix gamma1 gamma2 p := by
  have hlen : ((parameters mu sigma dims).zip (parameters gamma sigma_gamma dims)).length =
      dims.prod := by
    simp [parameters, indices_length]
  obtain ⟨X, h3, h4, h5⟩ := sheared_mean (μ := μ)
    (ryden04_samples hn hu mu sigma gamma sigma_gamma size hd h1 h2)
    hc junk pix (by rw [hl, List.length_map, hlen]) kappa gamma1 gamma2 red hp hg
  refine ⟨X, ?_, h4, h5⟩
  filter_upwards [h3] with s hs
  obtain ⟨es, out, ⟨fuel, arr, s', h6, h7⟩, h8, h9⟩ := hs
  exact ⟨fuel, arr, s', es, out, h6, h7, h8, h9⟩

/-- **C136.** A reduced shear above one moves every ellipticity outside the unit disc. -/
theorem strong_shear_outside {npix chunk : ℕ} (hc : 0 < chunk) (junk : ℕ → ℝ)
    (pix : ℝ × ℝ → Fin npix) {lonlat : List (ℝ × ℝ)} {eps : List ℂ}
    (hl : lonlat.length = eps.length) (kappa gamma1 gamma2 : Fin npix → ℝ) {i : ℕ} {p : ℝ × ℝ} {e : ℂ}
    (hp : lonlat[i]? = some p) (he : eps[i]? = some e) (he1 : ‖e‖ < 1)
    (hg : 1 < ‖reducedShearAt pix kappa gamma1 gamma2 p‖)
    (h0 : 1 + (starRingEnd ℂ) (reducedShearAt pix kappa gamma1 gamma2 p) * e ≠ 0) :
    ∃ out z, galaxyShear chunk junk pix lonlat eps kappa gamma1 gamma2 true = .ok out ∧
      out[i]? = some z ∧ 1 < ‖z‖ := by
  refine ⟨_, lensed e (reducedShearAt pix kappa gamma1 gamma2 p),
    (galaxyShear_eq hc junk pix hl kappa gamma1 gamma2).1, ?_, lensed_norm_gt he1 hg h0⟩
  rw [List.getElem?_zipWith, he, hp]

end Entries

/-- The hypotheses can be met: two populations of sources, and a convergence of 1/2 with a shear of
1/4, so the reduced shear is 1/2. -/
example : (∃ normal : (ℕ → ℝ) → ℕ → List ℝ × (ℕ → ℝ),
      IdealNormal (Measure.infinitePi fun _ : ℕ => gaussianReal 0 1) normal) ∧
    IsBroadcast [[2], []] [2] ∧
    reducedShearAt (fun _ => (0 : Fin 1)) (fun _ => 1 / 2) (fun _ => 1 / 4) (fun _ => 0) (0, 0) = 1 / 2 ∧
    ‖(1 / 2 : ℂ)‖ < 1 := by
  refine ⟨idealNormal_exists, isBroadcast_pair.1 (by rfl), ?_, by norm_num⟩
  apply Complex.ext
  · simp [reducedShearAt, shearAt, Complex.div_re, Complex.normSq]
    norm_num
  · simp [reducedShearAt, shearAt, Complex.div_im, Complex.normSq]

end Glass.Galaxies
