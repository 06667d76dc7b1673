import Mathlib.Analysis.Complex.MeanValue
import Mathlib.Tactic.Linarith
import Mathlib.Tactic.Ring
import Mathlib.Tactic.FieldSimp
import Mathlib.Tactic.LinearCombination
import Verif.Galaxies.ShearProps
import Verif.Shapes.Model

/-!
# Resampling of shapes (C69)

`resample_shapes` gives every galaxy a new random orientation and shrinks all galaxies by a common
factor, such that shapes lensed by a field of the given variance have the variance of the input.
The variance of lensed shapes is computed here from the definition of lensing, averaged over all
orientations of the (reduced) shear.
-/

namespace Glass.Shapes

open Glass Glass.Galaxies

/-! ## Specification -/

/-- The variance of a sample of ellipticities. -/
noncomputable def variance (es : List ℂ) : ℝ := (es.map fun e => ‖e‖ ^ 2).sum / es.length

/-- The mean square modulus of an ellipticity after lensing by a reduced shear of modulus `R` and
random orientation. -/
noncomputable def lensedSquare (R : ℝ) (e : ℂ) : ℝ :=
  Real.circleAverage (fun z => ‖lensed e z‖ ^ 2) 0 R

/-- The mean square modulus of an ellipticity after a shear of modulus `R` and random orientation is
added. -/
noncomputable def shearedSquare (R : ℝ) (e : ℂ) : ℝ :=
  Real.circleAverage (fun z => ‖e + z‖ ^ 2) 0 R

/-- The ellipticities `es` with their moduli multiplied by `f` and with new orientations. -/
noncomputable def reoriented (f : ℝ) (es : List ℂ) (angles : List ℝ) : List ℂ :=
  List.zipWith (fun (e : ℂ) (t : ℝ) => ((f * ‖e‖ : ℝ) : ℂ) * Complex.exp (t * Complex.I)) es angles

/-! ## Averages over orientations -/

/-- C69: the mean square modulus after lensing with a random orientation, in closed form. -/
theorem lensedSquare_eval {R : ℝ} (hR0 : 0 ≤ R) (hR : R < 1) {e : ℂ} (he : ‖e‖ < 1) :
    lensedSquare R e =
      ‖e‖ ^ 2 + R ^ 2 * (1 - ‖e‖ ^ 2) ^ 2 / (1 - R ^ 2 * ‖e‖ ^ 2) := by
  have hK0 : 0 < 1 - R ^ 2 * ‖e‖ ^ 2 := by
    have h1 : R ^ 2 ≤ 1 := by nlinarith
    have h2 : ‖e‖ ^ 2 < 1 := by nlinarith [norm_nonneg e]
    nlinarith [sq_nonneg R, sq_nonneg ‖e‖]
  have hK1 : 1 - ‖e‖ ^ 2 * R ^ 2 ≠ 0 := by rw [mul_comm]; exact hK0.ne'
  set K : ℝ := (1 - ‖e‖ ^ 2) * (1 - R ^ 2) / (1 - R ^ 2 * ‖e‖ ^ 2) with hK
  let h : ℂ → ℂ := fun z =>
    1 - (K : ℂ) * ((1 - z * (starRingEnd ℂ) e) / (1 + z * (starRingEnd ℂ) e))
  have hden : ∀ z : ℂ, ‖z‖ ≤ R → 1 + z * (starRingEnd ℂ) e ≠ 0 := by
    intro z hz h0
    have h1 : z * (starRingEnd ℂ) e = -1 := by linear_combination h0
    have h2 : ‖z * (starRingEnd ℂ) e‖ = 1 := by rw [h1]; simp
    rw [norm_mul, Complex.norm_conj] at h2
    nlinarith [norm_nonneg e, norm_nonneg z]
  have hd : ∀ z : ℂ, ‖z‖ ≤ R → DifferentiableAt ℂ h z := by
    intro z hz
    have h1 : DifferentiableAt ℂ (fun z : ℂ => z * (starRingEnd ℂ) e) z :=
      differentiableAt_id.mul_const _
    have h2 : DifferentiableAt ℂ
        (fun z : ℂ => (1 - z * (starRingEnd ℂ) e) / (1 + z * (starRingEnd ℂ) e)) z :=
      (h1.const_sub 1).div (h1.const_add 1) (hden z hz)
    exact (h2.const_mul (K : ℂ)).const_sub 1
  have hc : ContinuousOn h (Metric.closedBall 0 |R|) := by
    intro z hz
    rw [mem_closedBall_zero_iff, abs_of_nonneg hR0] at hz
    exact (hd z hz).continuousAt.continuousWithinAt
  have hav : Real.circleAverage h 0 R = h 0 := by
    refine circleAverage_of_differentiable_on_off_countable Set.countable_empty hc ?_
    intro z hz
    have hz := hz.1
    rw [mem_ball_zero_iff, abs_of_nonneg hR0] at hz
    exact hd z hz.le
  have hint : CircleIntegrable h 0 R := by
    have : CircleIntegrable h 0 |R| := by
      refine ContinuousOn.circleIntegrable (abs_nonneg R) (hc.mono Metric.sphere_subset_closedBall)
    rwa [abs_of_nonneg hR0] at this
  have hre : lensedSquare R e = (Real.circleAverage h 0 R).re := by
    have h1 := ContinuousLinearMap.circleAverage_comp_comm Complex.reCLM hint
    rw [show (Real.circleAverage h 0 R).re = Complex.reCLM (Real.circleAverage h 0 R) from rfl,
      ← h1]
    refine Real.circleAverage_congr_sphere ?_
    intro z hz
    rw [mem_sphere_zero_iff_norm, abs_of_nonneg hR0] at hz
    show ‖lensed e z‖ ^ 2 = (h z).re
    have hz1 : ‖z‖ < 1 := by rw [hz]; exact hR
    have hne := one_add_conj_ne_zero he hz1
    have hsq := normSq_lensed e z
    have hn1 : Complex.normSq (1 + z * (starRingEnd ℂ) e) =
        Complex.normSq (1 + (starRingEnd ℂ) z * e) := by
      rw [← Complex.normSq_conj (1 + (starRingEnd ℂ) z * e)]
      simp
    have hD : 0 < Complex.normSq (1 + (starRingEnd ℂ) z * e) := Complex.normSq_pos.2 hne
    have hf : ((1 - z * (starRingEnd ℂ) e) / (1 + z * (starRingEnd ℂ) e)).re =
        (1 - R ^ 2 * ‖e‖ ^ 2) / Complex.normSq (1 + (starRingEnd ℂ) z * e) := by
      rw [Complex.div_re, hn1, ← add_div]
      congr 1
      rw [← hz, ← Complex.normSq_eq_norm_sq, ← Complex.normSq_eq_norm_sq]
      simp only [Complex.normSq_apply, Complex.add_re, Complex.add_im, Complex.mul_re,
        Complex.mul_im, Complex.sub_re, Complex.sub_im,
        Complex.conj_re, Complex.conj_im, Complex.one_re, Complex.one_im]
      ring
    have hh : (h z).re = 1 - K * ((1 - z * (starRingEnd ℂ) e) / (1 + z * (starRingEnd ℂ) e)).re := by
      simp only [h, Complex.sub_re, Complex.one_re, Complex.re_ofReal_mul]
    rw [hh, hf, lensed, norm_div, div_pow, ← Complex.normSq_eq_norm_sq,
      ← Complex.normSq_eq_norm_sq, hK]
    have hnum : Complex.normSq (e + z) = Complex.normSq (1 + (starRingEnd ℂ) z * e) -
        (1 - ‖e‖ ^ 2) * (1 - R ^ 2) := by
      rw [← hz, ← Complex.normSq_eq_norm_sq, ← Complex.normSq_eq_norm_sq]
      linarith
    rw [hnum]
    field_simp
  rw [hre, hav]
  have h0 : h 0 = ((1 - K : ℝ) : ℂ) := by simp [h]
  rw [h0, Complex.ofReal_re, hK]
  field_simp
  ring

/-- C69: adding a shear with a random orientation adds its square modulus. -/
theorem shearedSquare_eval {R : ℝ} (hR0 : 0 ≤ R) (e : ℂ) :
    shearedSquare R e = ‖e‖ ^ 2 + R ^ 2 := by
  let h : ℂ → ℂ := fun z => ((‖e‖ ^ 2 + R ^ 2 : ℝ) : ℂ) + 2 * ((starRingEnd ℂ) e * z)
  have hd : ∀ z, DifferentiableAt ℂ h z := fun z =>
    (((differentiableAt_id.const_mul _).const_mul _).const_add _)
  have hcont : Continuous h := continuous_iff_continuousAt.2 fun z => (hd z).continuousAt
  have hav : Real.circleAverage h 0 R = h 0 :=
    circleAverage_of_differentiable_on_off_countable Set.countable_empty hcont.continuousOn
      (fun z _ => hd z)
  have hint : CircleIntegrable h 0 R := ContinuousOn.circleIntegrable hR0 hcont.continuousOn
  have hre : shearedSquare R e = (Real.circleAverage h 0 R).re := by
    have h1 := ContinuousLinearMap.circleAverage_comp_comm Complex.reCLM hint
    rw [show (Real.circleAverage h 0 R).re = Complex.reCLM (Real.circleAverage h 0 R) from rfl,
      ← h1]
    refine Real.circleAverage_congr_sphere ?_
    intro z hz
    rw [mem_sphere_zero_iff_norm, abs_of_nonneg hR0] at hz
    show ‖e + z‖ ^ 2 = (h z).re
    simp only [h, ← hz, ← Complex.normSq_eq_norm_sq, Complex.normSq_apply, Complex.add_re,
      Complex.add_im, Complex.mul_re, Complex.mul_im, Complex.conj_re, Complex.conj_im,
      Complex.ofReal_re, Complex.re_ofNat, Complex.im_ofNat]
    ring
  rw [hre, hav]
  simp only [h, mul_zero, add_zero, Complex.ofReal_re]

/-! ## Lemmas -/

theorem modulus_norm (e : ℂ) : modulus e = ‖e‖ := by
  rw [modulus, Complex.norm_eq_sqrt_sq_add_sq]

theorem reoriented_length (f : ℝ) {es : List ℂ} {angles : List ℝ}
    (h : angles.length = es.length) : (reoriented f es angles).length = es.length := by
  simp [reoriented, h]

theorem reoriented_norms {f : ℝ} (hf : 0 ≤ f) {es : List ℂ} : ∀ {angles : List ℝ},
    angles.length = es.length →
    (reoriented f es angles).map (fun e => ‖e‖) = es.map fun e => f * ‖e‖ := by
  induction es with
  | nil => intro angles _; simp [reoriented]
  | cons e es ih =>
    rintro (_ | ⟨t, angles⟩) h
    · simp at h
    · have := ih (angles := angles) (by simpa using h)
      simp only [reoriented] at this ⊢
      simp only [List.zipWith_cons_cons, List.map_cons, this]
      congr 1
      rw [norm_mul, Complex.norm_exp_ofReal_mul_I, mul_one, Complex.norm_real, Real.norm_eq_abs,
        abs_of_nonneg (mul_nonneg hf (norm_nonneg e))]

theorem sum_pow_reoriented {f : ℝ} (hf : 0 ≤ f) {es : List ℂ} {angles : List ℝ}
    (h : angles.length = es.length) (k : ℕ) :
    ((reoriented f es angles).map fun e => ‖e‖ ^ k).sum =
      f ^ k * (es.map fun e => ‖e‖ ^ k).sum := by
  have h1 : (reoriented f es angles).map (fun e => ‖e‖ ^ k) =
      ((reoriented f es angles).map fun e => ‖e‖).map (· ^ k) := by simp
  rw [h1, reoriented_norms hf h, List.map_map, ← List.sum_map_mul_left]
  congr 1
  apply List.map_congr_left
  intro e _
  simp [mul_pow]

theorem reoriented_shrinks {f : ℝ} (hf : 0 ≤ f) (hf1 : f ≤ 1) {es : List ℂ} {angles : List ℝ}
    (h : angles.length = es.length) :
    List.Forall₂ (fun e e' => ‖e'‖ ≤ ‖e‖) es (reoriented f es angles) := by
  have h1 := reoriented_norms hf h
  rw [List.forall₂_iff_get]
  refine ⟨(reoriented_length f h).symm, fun i hi hi' => ?_⟩
  have h2 := List.getElem_of_eq h1 (i := i) (by simpa using hi')
  simp only [List.getElem_map] at h2
  simp only [List.get_eq_getElem]
  rw [h2]
  nlinarith [norm_nonneg es[i]]

theorem variance_reoriented {f : ℝ} (hf : 0 ≤ f) {es : List ℂ} {angles : List ℝ}
    (h : angles.length = es.length) :
    variance (reoriented f es angles) = f ^ 2 * variance es := by
  rw [variance, sum_pow_reoriented hf h, reoriented_length f h, variance]
  ring

/-- The result of the model in terms of the factor. -/
theorem resampleShapes_run {σ : Type} {uniform : σ → ℕ → List ℝ × σ}
    (hu : ∀ s n, (uniform s n).1.length = n) (s : σ) {eps : List ℂ} {varg vargamma : Option ℝ}
    {f : ℝ} (hf : shapeFactor (eps.map modulus) varg vargamma = .ok (some f)) :
    resampleShapes uniform s eps varg vargamma =
      .ok ((reoriented f eps (uniform s eps.length).1).map some, (uniform s eps.length).2) := by
  simp only [resampleShapes, hf, bind, Except.bind, List.length_map, Except.ok.injEq,
    Prod.mk.injEq, and_true]
  have hl := hu s eps.length
  generalize (uniform s eps.length).1 = angles at hl
  apply List.ext_getElem
  · simp [reoriented]
  · intro i h1 h2
    simp only [List.getElem_zipWith, List.getElem_map, reoriented, Option.map_some, modulus_norm]
    rw [mul_comm f, mul_comm Complex.I]

theorem mean_some {l : List ℝ} (h : l ≠ []) : mean l = some (l.sum / l.length) := by
  rw [mean, nanDiv, if_neg]
  simpa using h

theorem mean_moduli {eps : List ℂ} (h : eps ≠ []) (k : ℕ) :
    mean ((eps.map modulus).map (· ^ k)) =
      some ((eps.map fun e => ‖e‖ ^ k).sum / eps.length) := by
  rw [mean_some (by simpa using h)]
  simp [modulus_norm, Function.comp_def]

theorem variance_pos_ne {eps : List ℂ} (h : 0 < variance eps) : eps ≠ [] := by
  rintro rfl
  simp [variance] at h

/-! ## Property theorems -/

/-- C69: without a variance, the moduli are unchanged and the orientations are new. -/
theorem resample_shapes_plain {σ : Type} {uniform : σ → ℕ → List ℝ × σ}
    (hu : ∀ s n, (uniform s n).1.length = n) (s : σ) (eps : List ℂ) :
    ∃ angles es s', uniform s eps.length = (angles, s') ∧
      resampleShapes uniform s eps none none = .ok (es.map some, s') ∧
      List.Forall₂ (fun e e' => ‖e'‖ = ‖e‖) eps es ∧
      es = List.zipWith (fun (e : ℂ) (t : ℝ) => ‖e‖ * Complex.exp (t * Complex.I)) eps angles := by
  refine ⟨_, reoriented 1 eps (uniform s eps.length).1, _, rfl,
    resampleShapes_run hu s (by simp [shapeFactor]), ?_, by simp [reoriented]⟩
  have hl := hu s eps.length
  have h1 := reoriented_norms zero_le_one hl
  rw [List.forall₂_iff_get]
  refine ⟨(reoriented_length 1 hl).symm, fun i hi hi' => ?_⟩
  have h2 := List.getElem_of_eq h1 (i := i) (by simpa using hi')
  simpa using h2

/-- C69: with `vargamma`, adding a shear of that square modulus and of random orientation to every
shape restores the variance of the input, and no modulus grows. -/
theorem resample_shapes_vargamma {σ : Type} {uniform : σ → ℕ → List ℝ × σ}
    (hu : ∀ s n, (uniform s n).1.length = n) (s : σ) (eps : List ℂ) {v : ℝ} (hv0 : 0 ≤ v)
    (hpos : 0 < variance eps) (hv : v ≤ variance eps) :
    ∃ angles es s' f, uniform s eps.length = (angles, s') ∧ 0 ≤ f ∧ es = reoriented f eps angles ∧
      resampleShapes uniform s eps none (some v) = .ok (es.map some, s') ∧
      variance es = variance eps - v ∧
      (es.map (shearedSquare (Real.sqrt v))).sum / es.length = variance eps ∧
      List.Forall₂ (fun e e' => ‖e'‖ ≤ ‖e‖) eps es := by
  have hne := variance_pos_ne hpos
  have hl := hu s eps.length
  have hr : 0 ≤ 1 - v / variance eps := by
    rw [sub_nonneg, div_le_one hpos]; exact hv
  have hfac : shapeFactor (eps.map modulus) none (some v) =
      .ok (some (Real.sqrt (1 - v / variance eps))) := by
    simp only [shapeFactor, mean_moduli hne]
    rw [if_neg]
    · change Except.ok ((nanDiv v (variance eps)).bind fun t => nanSqrt (1 - t)) = _
      rw [nanDiv, if_neg hpos.ne']
      simp only [Option.bind_some]
      rw [nanSqrt, if_neg (not_lt.2 hr)]
    · rintro ⟨m, hm, hlt⟩
      simp only [Option.mem_def, Option.some.injEq] at hm
      subst hm
      exact absurd hv (not_le.2 hlt)
  have hs0 := Real.sqrt_nonneg (1 - v / variance eps)
  have hvar : variance (reoriented (Real.sqrt (1 - v / variance eps)) eps
      (uniform s eps.length).1) = variance eps - v := by
    rw [variance_reoriented hs0 hl, Real.sq_sqrt hr, sub_mul, div_mul_cancel₀ _ hpos.ne', one_mul]
  refine ⟨_, reoriented (Real.sqrt (1 - v / variance eps)) eps (uniform s eps.length).1, _, _, rfl,
    hs0, rfl, resampleShapes_run hu s hfac, hvar, ?_, ?_⟩
  · have hlen := reoriented_length (Real.sqrt (1 - v / variance eps)) hl
    generalize reoriented (Real.sqrt (1 - v / variance eps)) eps (uniform s eps.length).1 = es at *
    have hesne : (es.length : ℝ) ≠ 0 := by
      rw [hlen]; simpa using hne
    have : es.map (shearedSquare (Real.sqrt v)) = es.map fun e => ‖e‖ ^ 2 + v := by
      apply List.map_congr_left
      intro e _
      rw [shearedSquare_eval (Real.sqrt_nonneg v), Real.sq_sqrt hv0]
    rw [this, List.sum_map_add, add_div, show (es.map fun e => ‖e‖ ^ 2).sum / es.length =
      variance es from rfl, hvar]
    simp only [List.map_const', List.sum_replicate, nsmul_eq_mul]
    rw [mul_div_cancel_left₀ _ hesne]
    ring
  · refine reoriented_shrinks hs0 ?_ hl
    apply Real.sqrt_le_one.2
    have := div_nonneg hv0 hpos.le
    linarith

/-- The positive root of the quadratic equation. -/
theorem factor_root {g m m4 : ℝ} (hg0 : 0 < g) (hg : g ≤ m) (h4 : 0 < m4)
    (hsq : 0 ≤ 1 - 2 * m + m4) :
    ∃ q, nanSqrt (((1 - 2 * g) * m) ^ 2 + 4 * g * m4 * (m - g)) = some q ∧
      0 ≤ (q - (1 - 2 * g) * m) / (2 * g * m4) ∧ (q - (1 - 2 * g) * m) / (2 * g * m4) ≤ 1 ∧
      ((q - (1 - 2 * g) * m) / (2 * g * m4)) * m + g * (1 -
        2 * (((q - (1 - 2 * g) * m) / (2 * g * m4)) * m) +
        ((q - (1 - 2 * g) * m) / (2 * g * m4)) ^ 2 * m4) = m := by
  have hp : 0 ≤ 4 * g * m4 * (m - g) := by
    have : 0 ≤ m - g := by linarith
    positivity
  have hr : 0 ≤ ((1 - 2 * g) * m) ^ 2 + 4 * g * m4 * (m - g) := by positivity
  have hq0 := Real.sqrt_nonneg (((1 - 2 * g) * m) ^ 2 + 4 * g * m4 * (m - g))
  have hq2 := Real.sq_sqrt hr
  refine ⟨Real.sqrt (((1 - 2 * g) * m) ^ 2 + 4 * g * m4 * (m - g)), by
    rw [nanSqrt, if_neg (not_lt.2 hr)], ?_⟩
  generalize Real.sqrt (((1 - 2 * g) * m) ^ 2 + 4 * g * m4 * (m - g)) = q at hq0 hq2
  have hd : 0 < 2 * g * m4 := by positivity
  have hqb : (1 - 2 * g) * m ≤ q := by
    by_contra hc
    push Not at hc
    nlinarith
  have hs : ((q - (1 - 2 * g) * m) / (2 * g * m4)) * (2 * g * m4) = q - (1 - 2 * g) * m :=
    div_mul_cancel₀ _ hd.ne'
  have hs0 : 0 ≤ (q - (1 - 2 * g) * m) / (2 * g * m4) := div_nonneg (by linarith) hd.le
  generalize (q - (1 - 2 * g) * m) / (2 * g * m4) = t at hs hs0
  have hq : q = t * (2 * g * m4) + (1 - 2 * g) * m := by linarith
  have heq : g * m4 * t ^ 2 + (1 - 2 * g) * m * t + (g - m) = 0 := by
    have : 4 * g * m4 * (g * m4 * t ^ 2 + (1 - 2 * g) * m * t + (g - m)) = 0 := by
      rw [hq] at hq2
      linear_combination hq2
    rcases mul_eq_zero.1 this with h | h
    · exact absurd h (by positivity)
    · exact h
  refine ⟨hs0, ?_, by linear_combination heq⟩
  by_contra hc
  push Not at hc
  have h1 : 0 ≤ g * (1 - 2 * m + m4) := mul_nonneg hg0.le hsq
  have h2 : 0 < (t - 1) * (g * m4 * t + (m - g)) := by
    have : 0 < g * m4 * t := by positivity
    exact mul_pos (by linarith) (by linarith)
  have h3 : 0 ≤ t * (g * (1 - 2 * m + m4)) := mul_nonneg hs0 h1
  nlinarith

/-- C69: with `varg`, every shape is shrunk by a common factor such that the variance of the input
is the variance of the result plus `varg` times the mean of `(1 - |e|²)²`, the first-order effect
of reduced shear. -/
theorem resample_shapes_varg {σ : Type} {uniform : σ → ℕ → List ℝ × σ}
    (hu : ∀ s n, (uniform s n).1.length = n) (s : σ) (eps : List ℂ) {g : ℝ} (hg0 : 0 < g)
    (hg : g ≤ variance eps) :
    ∃ angles es s' f, uniform s eps.length = (angles, s') ∧ 0 ≤ f ∧ es = reoriented f eps angles ∧
      resampleShapes uniform s eps (some g) none = .ok (es.map some, s') ∧
      variance es + g * ((es.map fun e => (1 - ‖e‖ ^ 2) ^ 2).sum / es.length) = variance eps ∧
      List.Forall₂ (fun e e' => ‖e'‖ ≤ ‖e‖) eps es := by
  have hpos : 0 < variance eps := lt_of_lt_of_le hg0 hg
  have hne := variance_pos_ne hpos
  have hl := hu s eps.length
  have hn : (0 : ℝ) < eps.length := by
    have := List.length_pos_of_ne_nil hne
    exact_mod_cast this
  set m4 : ℝ := (eps.map fun e => ‖e‖ ^ 4).sum / eps.length with hm4
  have hexpand : ∀ l : List ℂ, (l.map fun e => (1 - ‖e‖ ^ 2) ^ 2).sum =
      l.length - 2 * (l.map fun e => ‖e‖ ^ 2).sum + (l.map fun e => ‖e‖ ^ 4).sum := by
    intro l
    induction l with
    | nil => simp
    | cons a l ih =>
      simp only [List.map_cons, List.sum_cons, ih, List.length_cons, Nat.cast_add, Nat.cast_one]
      ring
  have hsq : 0 ≤ 1 - 2 * variance eps + m4 := by
    have h1 : 0 ≤ (eps.map fun e => (1 - ‖e‖ ^ 2) ^ 2).sum := by
      apply List.sum_nonneg
      intro x hx
      obtain ⟨e, -, rfl⟩ := List.mem_map.1 hx
      positivity
    rw [hexpand] at h1
    have h2 := div_nonneg h1 hn.le
    have h3 : ((eps.length : ℝ) - 2 * (eps.map fun e => ‖e‖ ^ 2).sum +
        (eps.map fun e => ‖e‖ ^ 4).sum) / eps.length = 1 - 2 * variance eps + m4 := by
      rw [hm4, variance]
      field_simp
    rw [← h3]
    exact h2
  have h4 : 0 < m4 := by
    apply div_pos _ hn
    have h1 : 0 < (eps.map fun e => ‖e‖ ^ 2).sum := by
      by_contra hc
      push Not at hc
      exact absurd hpos (not_lt.2 (div_nonpos_of_nonpos_of_nonneg hc hn.le))
    have hnn : ∀ x ∈ eps.map (fun e => ‖e‖ ^ 4), (0 : ℝ) ≤ x := by
      intro x hx
      obtain ⟨e, -, rfl⟩ := List.mem_map.1 hx
      positivity
    by_contra hc
    have h0 : (eps.map fun e => ‖e‖ ^ 4).sum = 0 :=
      le_antisymm (not_lt.1 hc) (List.sum_nonneg hnn)
    have hall : ∀ e ∈ eps, ‖e‖ ^ 2 = 0 := by
      intro e he
      have h5 := List.single_le_sum hnn _ (List.mem_map_of_mem he)
      rw [h0] at h5
      have h6 : ‖e‖ ^ 4 = 0 := le_antisymm h5 (by positivity)
      have h7 : ‖e‖ = 0 := by simpa using h6
      rw [h7]; simp
    rw [List.map_congr_left hall] at h1
    simp at h1
  obtain ⟨q, hq, ht0, ht1, hid⟩ := factor_root hg0 hg h4 hsq
  have hfac : shapeFactor (eps.map modulus) (some g) none =
      .ok (some (Real.sqrt ((q - (1 - 2 * g) * variance eps) / (2 * g * m4)))) := by
    simp only [shapeFactor, mean_moduli hne]
    rw [if_neg]
    · change Except.ok ((nanSqrt (((1 - 2 * g) * variance eps) ^ 2 +
        4 * g * m4 * (variance eps - g))).bind fun w =>
          (nanDiv (w - (1 - 2 * g) * variance eps) (2 * g * m4)).bind nanSqrt) = _
      rw [hq]
      simp only [Option.bind_some]
      rw [nanDiv, if_neg (by positivity)]
      simp only [Option.bind_some]
      rw [nanSqrt, if_neg (not_lt.2 ht0)]
    · rintro ⟨m, hm, hlt⟩
      simp only [Option.mem_def, Option.some.injEq] at hm
      subst hm
      exact absurd hg (not_le.2 hlt)
  generalize (q - (1 - 2 * g) * variance eps) / (2 * g * m4) = t at *
  have hs0 := Real.sqrt_nonneg t
  have hst := Real.sq_sqrt ht0
  refine ⟨_, reoriented (Real.sqrt t) eps (uniform s eps.length).1, _, _, rfl, hs0, rfl,
    resampleShapes_run hu s hfac, ?_, reoriented_shrinks hs0 (Real.sqrt_le_one.2 ht1) hl⟩
  rw [hexpand, variance_reoriented hs0 hl, sum_pow_reoriented hs0 hl, sum_pow_reoriented hs0 hl,
    reoriented_length _ hl, hst, show Real.sqrt t ^ 4 = (Real.sqrt t ^ 2) ^ 2 by ring, hst]
  have h3 : ((eps.length : ℝ) - 2 * (t * (eps.map fun e => ‖e‖ ^ 2).sum) +
      t ^ 2 * (eps.map fun e => ‖e‖ ^ 4).sum) / eps.length =
      1 - 2 * (t * variance eps) + t ^ 2 * m4 := by
    rw [hm4, variance]
    field_simp
  rw [h3, hid]

/-- The effect of reduced shear beyond the first order. -/
theorem lensedSquare_order {g : ℝ} (hg0 : 0 ≤ g) (hg1 : g < 1) {e : ℂ} (he : ‖e‖ < 1) :
    ‖e‖ ^ 2 + g * (1 - ‖e‖ ^ 2) ^ 2 ≤ lensedSquare (Real.sqrt g) e ∧
      lensedSquare (Real.sqrt g) e ≤ ‖e‖ ^ 2 + g * (1 - ‖e‖ ^ 2) ^ 2 + g ^ 2 / 4 := by
  have hR1 : Real.sqrt g < 1 := by
    rw [Real.sqrt_lt' one_pos]; simpa using hg1
  rw [lensedSquare_eval (Real.sqrt_nonneg g) hR1 he, Real.sq_sqrt hg0]
  set x := ‖e‖ ^ 2 with hx
  have hx0 : 0 ≤ x := by positivity
  have hx1 : x < 1 := by nlinarith [norm_nonneg e]
  have hd : 0 < 1 - g * x := by nlinarith
  have hkey : g * (1 - x) ^ 2 / (1 - g * x) =
      g * (1 - x) ^ 2 + g ^ 2 * ((1 - x) ^ 2 * x / (1 - g * x)) := by
    field_simp
    ring
  have h1 : 0 ≤ (1 - x) ^ 2 * x / (1 - g * x) := by positivity
  have h2 : (1 - x) ^ 2 * x / (1 - g * x) ≤ 1 / 4 := by
    rw [div_le_iff₀ hd]
    have h3 : (1 - x) ≤ 1 - g * x := by nlinarith
    have h4 : (1 - x) * x ≤ 1 / 4 := by nlinarith [sq_nonneg (x - 1 / 2)]
    have h5 : (1 - x) * ((1 - x) * x) ≤ (1 - g * x) * (1 / 4) :=
      mul_le_mul h3 h4 (mul_nonneg (by linarith) hx0) hd.le
    nlinarith
  rw [hkey]
  have h6 := sq_nonneg g
  constructor
  · nlinarith
  · nlinarith

/-- C69: lensing the resampled shapes by reduced shears with square modulus `varg` and random
orientations gives the variance of the input up to at most `varg² / 4`. -/
theorem resample_shapes_lensed {σ : Type} {uniform : σ → ℕ → List ℝ × σ}
    (hu : ∀ s n, (uniform s n).1.length = n) (s : σ) {eps : List ℂ} (hdisc : ∀ e ∈ eps, ‖e‖ < 1)
    {g : ℝ} (hg0 : 0 < g) (hg : g ≤ variance eps) :
    ∃ (es : List ℂ) (s' : σ), resampleShapes uniform s eps (some g) none = .ok (es.map some, s') ∧
      es.length = eps.length ∧
      variance eps ≤ (es.map (lensedSquare (Real.sqrt g))).sum / es.length ∧
      (es.map (lensedSquare (Real.sqrt g))).sum / es.length ≤ variance eps + g ^ 2 / 4 := by
  obtain ⟨angles, es, s', f, hu', -, -, hrun, hid, hsh⟩ := resample_shapes_varg hu s eps hg0 hg
  have hlen := hsh.length_eq
  have hne := variance_pos_ne (lt_of_lt_of_le hg0 hg)
  have hn : (0 : ℝ) < es.length := by
    rw [← hlen]
    have := List.length_pos_of_ne_nil hne
    exact_mod_cast this
  have hdisc' : ∀ e ∈ es, ‖e‖ < 1 := by
    intro e he
    obtain ⟨i, hi, rfl⟩ := List.getElem_of_mem he
    have h1 := (List.forall₂_iff_get.1 hsh).2 i (by rw [hlen]; exact hi) hi
    exact lt_of_le_of_lt h1 (hdisc _ (List.getElem_mem _))
  have hg1 : g < 1 := by
    refine lt_of_le_of_lt hg ?_
    have hn' : (0 : ℝ) < eps.length := by rw [hlen]; exact hn
    rw [variance, div_lt_one hn']
    have : ∀ l : List ℂ, l ≠ [] → (∀ e ∈ l, ‖e‖ < 1) →
        (l.map fun e => ‖e‖ ^ 2).sum < (l.length : ℝ) := by
      intro l
      induction l with
      | nil => intro h; exact absurd rfl h
      | cons a l ih =>
        intro _ h
        have ha : ‖a‖ ^ 2 < 1 := by nlinarith [norm_nonneg a, h a (by simp)]
        simp only [List.map_cons, List.sum_cons, List.length_cons, Nat.cast_add, Nat.cast_one]
        by_cases hl : l = []
        · subst hl; simpa using ha
        · have := ih hl (fun e he => h e (by simp [he]))
          linarith
    exact this eps hne hdisc
  have hlow : (es.map fun e => ‖e‖ ^ 2 + g * (1 - ‖e‖ ^ 2) ^ 2).sum ≤
      (es.map (lensedSquare (Real.sqrt g))).sum :=
    List.sum_le_sum fun e he => (lensedSquare_order hg0.le hg1 (hdisc' e he)).1
  have hup : (es.map (lensedSquare (Real.sqrt g))).sum ≤
      (es.map fun e => ‖e‖ ^ 2 + g * (1 - ‖e‖ ^ 2) ^ 2 + g ^ 2 / 4).sum :=
    List.sum_le_sum fun e he => (lensedSquare_order hg0.le hg1 (hdisc' e he)).2
  have hsum : (es.map fun e => ‖e‖ ^ 2 + g * (1 - ‖e‖ ^ 2) ^ 2).sum = variance eps * es.length := by
    rw [List.sum_map_add, List.sum_map_mul_left, ← hid, variance]
    field_simp
  refine ⟨es, s', hrun, hlen.symm, ?_, ?_⟩
  · rw [le_div_iff₀ hn, ← hsum]
    exact hlow
  · rw [div_le_iff₀ hn]
    refine hup.trans (le_of_eq ?_)
    rw [List.sum_map_add, hsum]
    simp only [List.map_const', List.sum_replicate, nsmul_eq_mul]
    ring

/-- C69: two variances, or one larger than that of the input, are an error. -/
theorem resample_shapes_rejects {σ : Type} (uniform : σ → ℕ → List ℝ × σ) (s : σ)
    (eps : List ℂ) :
    (∀ g v, ∃ msg, resampleShapes uniform s eps (some g) (some v) = .error (.value msg)) ∧
    (eps ≠ [] → ∀ v, variance eps < v →
      (∃ msg, resampleShapes uniform s eps (some v) none = .error (.value msg)) ∧
      ∃ msg, resampleShapes uniform s eps none (some v) = .error (.value msg)) := by
  refine ⟨fun g v => ⟨_, rfl⟩, fun hne v hv => ⟨?_, ?_⟩⟩
  · refine ⟨"varg too large for epsilon", ?_⟩
    simp only [resampleShapes, shapeFactor, mean_moduli hne]
    rw [if_pos ⟨_, rfl, hv⟩]
    rfl
  · refine ⟨"vargamma too large for epsilon", ?_⟩
    simp only [resampleShapes, shapeFactor, mean_moduli hne]
    rw [if_pos ⟨_, rfl, hv⟩]
    rfl

/-- C69 (finding): a variance of exactly zero for the reduced shear, which asks for no compensation
at all, destroys every shape (0/0). -/
theorem resample_shapes_zero {σ : Type} {uniform : σ → ℕ → List ℝ × σ}
    (hu : ∀ s n, (uniform s n).1.length = n) (s : σ) (eps : List ℂ) :
    resampleShapes uniform s eps (some 0) none =
      .ok (List.replicate eps.length none, (uniform s eps.length).2) := by
  have hfac : shapeFactor (eps.map modulus) (some 0) none = .ok none := by
    rw [shapeFactor]
    simp only
    rw [if_neg]
    · congr 1
      rcases h2 : mean ((eps.map modulus).map (· ^ 2)) with _ | m
      · rfl
      · rcases h4 : mean ((eps.map modulus).map (· ^ 4)) with _ | m4
        · rfl
        · simp only [Option.bind_some]
          rcases nanSqrt (((1 - 2 * 0) * m) ^ 2 + 4 * 0 * m4 * (m - 0)) with _ | w
          · rfl
          · simp [nanDiv]
    · rintro ⟨m, hm, hlt⟩
      by_cases hne : eps = []
      · subst hne
        simp [mean, nanDiv] at hm
      · rw [mean_moduli hne] at hm
        simp only [Option.mem_def, Option.some.injEq] at hm
        rw [← hm] at hlt
        refine absurd hlt (not_lt.2 (div_nonneg (List.sum_nonneg ?_) (Nat.cast_nonneg _)))
        intro x hx
        obtain ⟨e, -, rfl⟩ := List.mem_map.1 hx
        positivity
  simp only [resampleShapes, hfac, bind, Except.bind, List.length_map, Except.ok.injEq,
    Prod.mk.injEq, and_true]
  have hl := hu s eps.length
  apply List.ext_getElem
  · simp [hl]
  · intro i h1 h2
    simp

/-- C69 (finding): round shapes cannot be resampled with `vargamma = 0` (0/0). -/
theorem resample_shapes_round {σ : Type} {uniform : σ → ℕ → List ℝ × σ}
    (hu : ∀ s n, (uniform s n).1.length = n) (s : σ) {n : ℕ} (hn : 0 < n) :
    resampleShapes uniform s (List.replicate n 0) none (some 0) =
      .ok (List.replicate n none, (uniform s n).2) := by
  have hfac : shapeFactor ((List.replicate n (0 : ℂ)).map modulus) none (some 0) = .ok none := by
    have hne : List.replicate n (0 : ℂ) ≠ [] := by
      simp; omega
    simp only [shapeFactor, mean_moduli hne]
    rw [if_neg]
    · simp [nanDiv]
    · rintro ⟨m, hm, hlt⟩
      simp at hm
      rw [← hm] at hlt
      exact lt_irrefl _ hlt
  simp only [resampleShapes, hfac, bind, Except.bind, List.length_map, Except.ok.injEq,
    Prod.mk.injEq, List.length_replicate, and_true]
  have hl := hu s n
  apply List.ext_getElem
  · simp [hl]
  · intro i h1 h2
    simp

/-! ## A concrete case -/

/-- A generator of angles that are all one. -/
def unitAngles : Unit → ℕ → List ℝ × Unit := fun s n => (List.replicate n 1, s)

/-- Two shapes of modulus one half and a shear of variance 1/8. -/
example : (∀ s n, (unitAngles s n).1.length = n) ∧
    (∀ e ∈ [(1 / 2 : ℂ), 1 / 2 * Complex.I], ‖e‖ < 1) ∧
    (0 : ℝ) < 1 / 8 ∧ 1 / 8 ≤ variance [(1 / 2 : ℂ), 1 / 2 * Complex.I] := by
  refine ⟨fun s n => by simp [unitAngles], ?_, by norm_num, ?_⟩
  · intro e he
    simp only [List.mem_cons, List.not_mem_nil, or_false] at he
    rcases he with rfl | rfl <;> norm_num
  · norm_num [variance]

end Glass.Shapes
