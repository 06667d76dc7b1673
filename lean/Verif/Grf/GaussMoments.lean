import Mathlib.Probability.Distributions.Gaussian.Real
import Mathlib.Probability.Moments.MGFAnalytic
import Mathlib.MeasureTheory.Measure.Tilted
import Verif.Grf.Transformations

/-!
# Moments of jointly normal random variables

Helper lemmas for C22 and C23: exponential moments, mixed moments up to fourth order.
-/

namespace Glass.Grf

open MeasureTheory ProbabilityTheory

variable {Ω : Type*} [MeasurableSpace Ω]

/-- `X` and `Y` are jointly normal with mean zero, variances `v1` and `v2` and covariance `c`:
every linear combination is normal with mean zero and the variance that goes with these
numbers. -/
structure JointNormal (P : Measure Ω) (X Y : Ω → ℝ) (v1 v2 c : ℝ) : Prop where
  nonneg : ∀ s t : ℝ, 0 ≤ s ^ 2 * v1 + 2 * s * t * c + t ^ 2 * v2
  law : ∀ s t : ℝ, P.map (fun ω => s * X ω + t * Y ω) =
    gaussianReal 0 (s ^ 2 * v1 + 2 * s * t * c + t ^ 2 * v2).toNNReal

namespace JointNormal

variable {P : Measure Ω} {X Y : Ω → ℝ} {v1 v2 c : ℝ}

theorem swap (h : JointNormal P X Y v1 v2 c) : JointNormal P Y X v2 v1 c where
  nonneg s t := by have := h.nonneg t s; linarith
  law s t := by
    have := h.law t s
    rw [show (fun ω => s * Y ω + t * X ω) = fun ω => t * X ω + s * Y ω by funext ω; ring, this]
    congr 2; ring

theorem self (h : JointNormal P X Y v1 v2 c) : JointNormal P X X v1 v1 v1 where
  nonneg s t := by have := h.nonneg (s + t) 0; nlinarith
  law s t := by
    have := h.law (s + t) 0
    rw [show (fun ω => s * X ω + t * X ω) = fun ω => (s + t) * X ω + 0 * Y ω by
      funext ω; ring, this]
    congr 2; ring

theorem aemeas (h : JointNormal P X Y v1 v2 c) (s t : ℝ) :
    AEMeasurable (fun ω => s * X ω + t * Y ω) P :=
  aemeasurable_of_map_neZero (by rw [h.law]; infer_instance)

theorem aemeas_left (h : JointNormal P X Y v1 v2 c) : AEMeasurable X P := by
  simpa using h.aemeas 1 0

theorem prob (h : JointNormal P X Y v1 v2 c) : IsProbabilityMeasure P := by
  constructor
  have h1 := h.law 1 0
  have h2 : (P.map (fun ω => 1 * X ω + 0 * Y ω)) Set.univ = 1 := by rw [h1]; exact measure_univ
  rwa [Measure.map_apply_of_aemeasurable (h.aemeas 1 0) MeasurableSet.univ,
    Set.preimage_univ] at h2

theorem integrable_exp (h : JointNormal P X Y v1 v2 c) (s t : ℝ) :
    Integrable (fun ω => Real.exp (s * X ω + t * Y ω)) P := by
  have h1 : Integrable (fun x => Real.exp (1 * x))
      (P.map (fun ω => s * X ω + t * Y ω)) := by
    rw [h.law]; exact integrable_exp_mul_gaussianReal 1
  have h2 := h1.comp_aemeasurable (h.aemeas s t)
  simpa [Function.comp_def] using h2

theorem integral_exp (h : JointNormal P X Y v1 v2 c) (s t : ℝ) :
    ∫ ω, Real.exp (s * X ω + t * Y ω) ∂P =
      Real.exp ((s ^ 2 * v1 + 2 * s * t * c + t ^ 2 * v2) / 2) := by
  have h1 := mgf_gaussianReal (h.law s t) 1
  simp only [mgf, one_mul, one_pow, mul_one, zero_add] at h1
  rw [h1, Real.coe_toNNReal _ (h.nonneg s t)]

theorem memLp (h : JointNormal P X Y v1 v2 c) (s t : ℝ) (p : NNReal) :
    MemLp (fun ω => s * X ω + t * Y ω) p P := by
  have h1 : MemLp id p (P.map (fun ω => s * X ω + t * Y ω)) := by
    rw [h.law]; exact memLp_id_gaussianReal p
  exact h1.comp_of_map (h.aemeas s t)

theorem integrable_pow (h : JointNormal P X Y v1 v2 c) (s t : ℝ) (n : ℕ) :
    Integrable (fun ω => (s * X ω + t * Y ω) ^ n) P := by
  have := h.prob
  have h1 := (h.memLp s t n)
  rcases Nat.eq_zero_or_pos n with rfl | hn
  · simp
  · have h2 := h1.integrable_norm_pow (by omega)
    have h3 : Integrable (fun ω => ‖(s * X ω + t * Y ω) ^ n‖) P := by
      simpa [norm_pow] using h2
    exact (integrable_norm_iff ((h.aemeas s t).pow_const n).aestronglyMeasurable).1 h3

end JointNormal

/-- Second to fourth moments of the centred normal law. -/
theorem gauss_moments (v : NNReal) :
    ∫ x, x ∂gaussianReal 0 v = 0 ∧ ∫ x, x ^ 2 ∂gaussianReal 0 v = v ∧
      ∫ x, x ^ 3 ∂gaussianReal 0 v = 0 ∧ ∫ x, x ^ 4 ∂gaussianReal 0 v = 3 * (v : ℝ) ^ 2 := by
  have hmem : ∀ t : ℝ, t ∈ interior (integrableExpSet id (gaussianReal 0 v)) := by
    intro t; simp
  have hd := fun (n : ℕ) (t : ℝ) => hasDerivAt_integral_pow_mul_exp_real (hmem t) n
  simp only [id] at hd
  have he : ∀ t : ℝ, HasDerivAt (fun t : ℝ => Real.exp ((v : ℝ) * t ^ 2 / 2))
      (Real.exp ((v : ℝ) * t ^ 2 / 2) * (v * t)) t := by
    intro t
    have h1 : HasDerivAt (fun t : ℝ => (v : ℝ) * t ^ 2 / 2) (v * t) t := by
      have := ((hasDerivAt_pow 2 t).const_mul (v : ℝ)).div_const 2
      refine this.congr_deriv ?_
      simp; ring
    exact h1.exp
  have m0 : (fun t : ℝ => ∫ x, x ^ 0 * Real.exp (t * x) ∂gaussianReal 0 v) =
      fun t => Real.exp ((v : ℝ) * t ^ 2 / 2) := by
    have := mgf_fun_id_gaussianReal (μ := 0) (v := v)
    funext t
    have := congrFun this t
    simpa [mgf] using this
  have step : ∀ (n : ℕ) (p q : ℝ → ℝ),
      (fun t : ℝ => ∫ x, x ^ n * Real.exp (t * x) ∂gaussianReal 0 v) =
        (fun t => p t * Real.exp ((v : ℝ) * t ^ 2 / 2)) →
      (∀ t, HasDerivAt p (q t) t) →
      (fun t : ℝ => ∫ x, x ^ (n + 1) * Real.exp (t * x) ∂gaussianReal 0 v) =
        fun t => (q t + p t * (v * t)) * Real.exp ((v : ℝ) * t ^ 2 / 2) := by
    intro n p q h hp
    funext t
    have h1 := hd n t
    rw [h] at h1
    have h2 := (hp t).mul (he t)
    rw [h1.unique h2]; ring
  have m1 := step 0 (fun _ => 1) (fun _ => 0) (by simpa using m0)
    (fun t => hasDerivAt_const t 1)
  have m2 := step 1 (fun t => v * t) (fun _ => v) (by simpa using m1)
    (fun t => by simpa using (hasDerivAt_id' t).const_mul (v : ℝ))
  have m3 := step 2 (fun t => v + (v : ℝ) ^ 2 * t ^ 2) (fun t => 2 * (v : ℝ) ^ 2 * t)
    (by rw [m2]; funext t; ring)
    (fun t => by
      refine ((hasDerivAt_pow 2 t).const_mul ((v : ℝ) ^ 2)).const_add (v : ℝ) |>.congr_deriv ?_
      simp; ring)
  have m4 := step 3 (fun t => 3 * (v : ℝ) ^ 2 * t + (v : ℝ) ^ 3 * t ^ 3)
    (fun t => 3 * (v : ℝ) ^ 2 + 3 * (v : ℝ) ^ 3 * t ^ 2)
    (by rw [m3]; funext t; ring)
    (fun t => by
      refine (((hasDerivAt_id' t).const_mul (3 * (v : ℝ) ^ 2)).add
        ((hasDerivAt_pow 3 t).const_mul ((v : ℝ) ^ 3))).congr_deriv ?_
      simp; ring)
  have z1 := congrFun m1 0
  have z2 := congrFun m2 0
  have z3 := congrFun m3 0
  have z4 := congrFun m4 0
  simp at z1 z2 z3 z4
  exact ⟨by simp, z2, z3, z4⟩

namespace JointNormal

variable {P : Measure Ω} {X Y : Ω → ℝ} {v1 v2 c : ℝ}

theorem integral_moment (h : JointNormal P X Y v1 v2 c) (s t : ℝ) (n : ℕ) :
    ∫ ω, (s * X ω + t * Y ω) ^ n ∂P =
      ∫ x, x ^ n ∂gaussianReal 0 (s ^ 2 * v1 + 2 * s * t * c + t ^ 2 * v2).toNNReal := by
  rw [← h.law, integral_map (h.aemeas s t)]
  exact (continuous_pow n).aestronglyMeasurable

theorem moments (h : JointNormal P X Y v1 v2 c) (s t : ℝ) :
    ∫ ω, (s * X ω + t * Y ω) ∂P = 0 ∧
    ∫ ω, (s * X ω + t * Y ω) ^ 2 ∂P = s ^ 2 * v1 + 2 * s * t * c + t ^ 2 * v2 ∧
    ∫ ω, (s * X ω + t * Y ω) ^ 3 ∂P = 0 ∧
    ∫ ω, (s * X ω + t * Y ω) ^ 4 ∂P = 3 * (s ^ 2 * v1 + 2 * s * t * c + t ^ 2 * v2) ^ 2 := by
  obtain ⟨a1, a2, a3, a4⟩ :=
    gauss_moments (s ^ 2 * v1 + 2 * s * t * c + t ^ 2 * v2).toNNReal
  have e := Real.coe_toNNReal _ (h.nonneg s t)
  refine ⟨?_, ?_, ?_, ?_⟩
  · have := h.integral_moment s t 1
    simp only [pow_one] at this
    rw [this, a1]
  · rw [h.integral_moment, a2, e]
  · rw [h.integral_moment, a3]
  · rw [h.integral_moment, a4, e]

/-- `E[Y exp(s X)] = s c exp(s² v1 / 2)`. -/
theorem integral_mul_exp (h : JointNormal P X Y v1 v2 c) (s : ℝ) :
    Integrable (fun ω => Real.exp (s * X ω) * Y ω) P ∧
    ∫ ω, Real.exp (s * X ω) * Y ω ∂P = s * c * Real.exp (s ^ 2 * v1 / 2) := by
  have := h.prob
  set f : Ω → ℝ := fun ω => s * X ω with hf
  have hi0 : Integrable (fun ω => Real.exp (f ω)) P := by
    simpa [hf] using h.integrable_exp s 0
  have hint : ∀ t : ℝ, Integrable (fun ω => Real.exp (t * Y ω)) (P.tilted f) := by
    intro t
    rw [integrable_tilted_iff hi0]
    have := h.integrable_exp s t
    refine this.congr (Filter.Eventually.of_forall fun ω => ?_)
    simp [hf, Real.exp_add]
  have hmem : (0 : ℝ) ∈ interior (integrableExpSet Y (P.tilted f)) := by
    have : integrableExpSet Y (P.tilted f) = Set.univ := by
      ext t; simpa [integrableExpSet] using hint t
    rw [this]; simp
  have hZ : ∫ ω, Real.exp (f ω) ∂P = Real.exp (s ^ 2 * v1 / 2) := by
    have := h.integral_exp s 0
    simpa [hf] using this
  have hmgf : ∀ t, mgf Y (P.tilted f) t =
      Real.exp ((2 * s * t * c + t ^ 2 * v2) / 2) := by
    intro t
    rw [mgf, integral_tilted, hZ]
    have h1 := h.integral_exp s t
    have h2 : ∀ ω, (Real.exp (f ω) / Real.exp (s ^ 2 * v1 / 2)) • Real.exp (t * Y ω) =
        Real.exp (s * X ω + t * Y ω) / Real.exp (s ^ 2 * v1 / 2) := by
      intro ω
      simp only [hf, smul_eq_mul, Real.exp_add]; ring
    simp_rw [h2]
    rw [integral_div, h1, ← Real.exp_sub]
    congr 1; ring
  have hderiv := hasDerivAt_mgf hmem
  have hderiv2 : HasDerivAt (mgf Y (P.tilted f)) (s * c) 0 := by
    rw [show mgf Y (P.tilted f) = fun t => Real.exp ((2 * s * t * c + t ^ 2 * v2) / 2) from
      funext hmgf]
    have h1 : HasDerivAt (fun t : ℝ => (2 * s * t * c + t ^ 2 * v2) / 2) (s * c) 0 := by
      have := ((((hasDerivAt_id' (0 : ℝ)).const_mul (2 * s)).mul_const c).add
        ((hasDerivAt_pow 2 (0 : ℝ)).mul_const v2)).div_const 2
      refine this.congr_deriv ?_
      simp; ring
    have := h1.exp
    simpa using this
  have hval := hderiv.unique hderiv2
  simp only [zero_mul, Real.exp_zero, mul_one] at hval
  rw [integral_tilted, hZ] at hval
  have hYi : Integrable Y (P.tilted f) := by
    have := integrable_pow_of_mem_interior_integrableExpSet hmem 1
    simpa using this
  constructor
  · have := (integrable_tilted_iff hi0 Y).1 hYi
    simpa [hf] using this
  · have h2 : ∀ ω, (Real.exp (f ω) / Real.exp (s ^ 2 * v1 / 2)) • Y ω =
        (Real.exp (s * X ω) * Y ω) / Real.exp (s ^ 2 * v1 / 2) := by
      intro ω
      simp only [hf, smul_eq_mul]; ring
    simp_rw [h2] at hval
    rw [integral_div, div_eq_iff (Real.exp_pos _).ne'] at hval
    exact hval

end JointNormal

end Glass.Grf
