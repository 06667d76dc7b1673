import Verif.Galaxies.ShearMean

/-!
# Shape noise and correlations of lensed ellipticities (C147)

The ellipticities of different galaxies are independent, so the products of lensed ellipticities have
the products of the reduced shears as means.  The variance of a lensed ellipticity is that of the
intrinsic ones, reduced by lensing.
-/

namespace Glass.Galaxies

open Glass Glass.Arrays NdArray Glass.Sampling Glass.Shapes MeasureTheory ProbabilityTheory
open scoped ENNReal NNReal

variable {σ : Type} [MeasurableSpace σ]

/-! ## Entries of the results are independent -/

/-- If probabilities of boxes are at most the products, they are the products. -/
theorem box_eq {μ : Measure σ} [IsProbabilityMeasure μ] {n : ℕ} {X : Fin n → σ → ℂ}
    (hX : ∀ i, AEMeasurable (X i) μ) {ν : Fin n → Measure ℂ} [∀ i, IsProbabilityMeasure (ν i)]
    (hle : ∀ A : Fin n → Set ℂ, (∀ i, MeasurableSet (A i)) →
      μ {s | ∀ i, X i s ∈ A i} ≤ ∏ i, ν i (A i)) (A : Fin n → Set ℂ) (hA : ∀ i, MeasurableSet (A i)) :
    μ {s | ∀ i, X i s ∈ A i} = ∏ i, ν i (A i) := by
  have key : ∀ k ≤ n, ∀ A : Fin n → Set ℂ, (∀ i, MeasurableSet (A i)) →
      (∀ i : Fin n, k ≤ i.1 → A i = Set.univ) → μ {s | ∀ i, X i s ∈ A i} = ∏ i, ν i (A i) := by
    intro k
    induction k with
    | zero =>
      intro _ A _ hu
      have : A = fun _ => Set.univ := funext fun i => hu i (Nat.zero_le _)
      rw [this]
      simp
    | succ k ih =>
      intro hk A hA hu
      set j : Fin n := ⟨k, hk⟩ with hj
      have hB : ∀ B : Set ℂ, MeasurableSet B → ∀ i, MeasurableSet (Function.update A j B i) := by
        intro B hB i
        by_cases h : i = j
        · subst h; simpa using hB
        · simpa [Function.update_of_ne h] using hA i
      have h0 := ih (by omega) (Function.update A j Set.univ) (hB _ MeasurableSet.univ) fun i hi => by
        by_cases h : i = j
        · subst h; simp
        · rw [Function.update_of_ne h]
          refine hu i ?_
          have : i.1 ≠ k := fun e => h (Fin.ext e)
          omega
      have h1 := hle A hA
      have h2 := hle (Function.update A j (A j)ᶜ) (hB _ (hA j).compl)
      have prod : ∀ B : Set ℂ, ∏ i, ν i (Function.update A j B i) =
          ν j B * ∏ i ∈ Finset.univ.erase j, ν i (A i) := by
        intro B
        rw [← Finset.mul_prod_erase _ _ (Finset.mem_univ j), Function.update_self]
        congr 1
        refine Finset.prod_congr rfl fun i hi => ?_
        rw [Function.update_of_ne (Finset.ne_of_mem_erase hi)]
      have hA' : ∏ i, ν i (A i) = ν j (A j) * ∏ i ∈ Finset.univ.erase j, ν i (A i) := by
        rw [← prod, Function.update_eq_self]
      have hsplit : μ {s | ∀ i, X i s ∈ Function.update A j Set.univ i} =
          μ {s | ∀ i, X i s ∈ A i} + μ {s | ∀ i, X i s ∈ Function.update A j (A j)ᶜ i} := by
        have hm : NullMeasurableSet (X j ⁻¹' A j) μ := (hX j).nullMeasurableSet_preimage (hA j)
        rw [← measure_inter_add_sdiff₀ _ hm]
        congr 2
        · ext s
          simp only [Set.mem_inter_iff, Set.mem_ofPred_eq, Set.mem_preimage]
          constructor
          · rintro ⟨h, hj'⟩ i
            by_cases hi : i = j
            · subst hi; exact hj'
            · simpa [Function.update_of_ne hi] using h i
          · intro h
            refine ⟨fun i => ?_, h j⟩
            by_cases hi : i = j
            · subst hi; simp
            · simpa [Function.update_of_ne hi] using h i
        · ext s
          simp only [Set.mem_sdiff, Set.mem_ofPred_eq, Set.mem_preimage]
          constructor
          · rintro ⟨h, hj'⟩ i
            by_cases hi : i = j
            · subst hi; simpa using hj'
            · simpa [Function.update_of_ne hi] using h i
          · intro h
            refine ⟨fun i => ?_, by simpa using h j⟩
            by_cases hi : i = j
            · subst hi; simp
            · simpa [Function.update_of_ne hi] using h i
      refine le_antisymm h1 ?_
      rw [prod] at h0 h2
      rw [measure_univ, one_mul] at h0
      rw [h0] at hsplit
      rw [hA'] at h1 ⊢
      have hfin : ν j (A j)ᶜ * ∏ i ∈ Finset.univ.erase j, ν i (A i) ≠ ∞ := by
        refine ENNReal.mul_ne_top (measure_ne_top _ _) ?_
        exact (ENNReal.prod_lt_top fun i _ => measure_lt_top _ _).ne
      have hone : ∏ i ∈ Finset.univ.erase j, ν i (A i) =
          ν j (A j) * ∏ i ∈ Finset.univ.erase j, ν i (A i) +
          ν j (A j)ᶜ * ∏ i ∈ Finset.univ.erase j, ν i (A i) := by
        rw [← add_mul, prob_add_prob_compl (hA j), one_mul]
      refine (ENNReal.add_le_add_iff_right hfin).1 ?_
      rw [← hone]
      exact hsplit.le.trans (add_le_add le_rfl h2)
  exact key n le_rfl A hA fun i hi => absurd i.2 (by omega)

/-- **C147** The entries of the results of a sampler are independent random numbers. -/
theorem entries_law {μ : Measure σ} [IsProbabilityMeasure μ] {R : σ → List ℂ → Prop}
    {νs : List (Measure ℂ)} (hR : Samples μ R νs) :
    ∃ E : Fin νs.length → σ → ℂ, (∀ i, AEMeasurable (E i) μ) ∧ (∀ i, μ.map (E i) = νs[i]) ∧
      iIndepFun E μ ∧ ∀ᵐ s ∂μ, R s (List.ofFn fun i => E i s) := by
  obtain ⟨L, hL⟩ := exists_choice hR.ends
  have hν : ∀ ν ∈ νs, IsProbabilityMeasure ν := fun ν h => (hR.phase ν h).probability
  have h1 := fun i : Fin νs.length => choice_law hν hL hR.law i.1 i.2
  have hof : ∀ l : List ℂ, l.length = νs.length →
      l = List.ofFn fun i : Fin νs.length => l.getD i.1 0 := by
    intro l hl
    refine List.ext_getElem (by simp [hl]) fun i h2 h3 => ?_
    simp [h2]
  refine ⟨fun i s => (L s).getD i.1 0, fun i => (h1 i).1, fun i => (h1 i).2, ?_, ?_⟩
  · obtain ⟨ν, hdef⟩ : ∃ ν : Fin νs.length → Measure ℂ, ∀ i, ν i = νs[i] := ⟨_, fun _ => rfl⟩
    have hprob : ∀ i, IsProbabilityMeasure (ν i) := fun i => by
      rw [hdef]
      exact hν _ (List.getElem_mem i.2)
    rw [iIndepFun_iff_map_fun_eq_pi_map fun i => (h1 i).1]
    have hm : AEMeasurable (fun s (i : Fin νs.length) => (L s).getD i.1 0) μ :=
      aemeasurable_pi_iff.2 fun i => (h1 i).1
    have e : (fun i : Fin νs.length => μ.map fun s => (L s).getD i.1 0) = ν :=
      funext fun i => (h1 i).2.trans (hdef i).symm
    rw [e]
    refine (Measure.pi_eq fun A hA => ?_).symm
    rw [Measure.map_apply_of_aemeasurable hm (MeasurableSet.univ_pi hA)]
    have := box_eq (fun i => (h1 i).1) (ν := ν) (hle := ?_) A hA
    · rw [← this]
      congr 1
      ext s
      simp
    · intro A hA
      have hbox := hR.law (List.ofFn A) (by simp) (by
        intro B hB
        obtain ⟨i, rfl⟩ := (List.mem_ofFn' _ _).1 hB
        exact hA i)
      have hprod : (List.zipWith (fun (ν : Measure ℂ) A => ν A) νs (List.ofFn A)).prod =
          ∏ i, ν i (A i) := by
        simp only [hdef]
        rw [← List.prod_ofFn]
        congr 1
        refine List.ext_getElem (by simp) fun i h2 h3 => ?_
        simp
      rw [hprod] at hbox
      rw [← hbox]
      refine measure_mono_ae ?_
      filter_upwards [hL] with s hs hbx
      refine ⟨L s, hs.1, ?_⟩
      rw [InBox, List.forall₂_iff_get]
      refine ⟨by simp [hs.2], fun i h2 h3 => ?_⟩
      have := hbx ⟨i, by omega⟩
      simpa [h2] using this
  · filter_upwards [hL] with s hs
    rw [← hof _ hs.2]
    exact hs.1

/-! ## The variance of a lensed ellipticity -/

theorem lensed_sub {e g : ℂ} (h : 1 + (starRingEnd ℂ) g * e ≠ 0) :
    lensed e g - g = e * ((1 - ‖g‖ ^ 2 : ℝ) : ℂ) / (1 + (starRingEnd ℂ) g * e) := by
  have h2 : (starRingEnd ℂ) g * g = ((‖g‖ ^ 2 : ℝ) : ℂ) := by
    rw [mul_comm, Complex.mul_conj, Complex.normSq_eq_norm_sq]
  unfold lensed
  rw [eq_div_iff h, sub_mul, div_mul_cancel₀ _ h]
  push_cast at h2 ⊢
  linear_combination (-e) * h2

/-- The square of the change by lensing, with a harmonic function of the phase. -/
theorem lensed_sub_sq {e g : ℂ} (he : ‖e‖ ≤ 1) (hg : ‖g‖ < 1) :
    ‖lensed e g - g‖ ^ 2 = (1 - ‖g‖ ^ 2) ^ 2 * (‖e‖ ^ 2 / (1 - ‖g‖ ^ 2 * ‖e‖ ^ 2)) *
      ((1 - (starRingEnd ℂ) g * e) / (1 + (starRingEnd ℂ) g * e)).re := by
  have h0 := one_add_ne_zero he hg
  set w := (starRingEnd ℂ) g * e with hw
  have hwn : ‖w‖ ^ 2 = ‖g‖ ^ 2 * ‖e‖ ^ 2 := by
    rw [hw, norm_mul, Complex.norm_conj, mul_pow]
  have hwlt : ‖w‖ ^ 2 < 1 := by
    rw [hwn]
    have h1 : ‖e‖ ^ 2 ≤ 1 := pow_le_one₀ (norm_nonneg _) he
    have h2 : ‖g‖ ^ 2 < 1 := pow_lt_one₀ (norm_nonneg _) hg two_ne_zero
    nlinarith [sq_nonneg ‖g‖, sq_nonneg ‖e‖]
  have hre : ((1 - w) / (1 + w)).re = (1 - ‖w‖ ^ 2) / ‖1 + w‖ ^ 2 := by
    rw [Complex.div_re, ← Complex.normSq_eq_norm_sq (1 + w), ← Complex.normSq_eq_norm_sq w,
      ← add_div]
    congr 1
    simp [Complex.normSq_apply]
    ring
  have hn : 0 < ‖1 + w‖ ^ 2 := by
    have := norm_pos_iff.2 h0
    positivity
  have h1g : 0 ≤ 1 - ‖g‖ ^ 2 := by
    have : ‖g‖ ^ 2 < 1 := pow_lt_one₀ (norm_nonneg _) hg two_ne_zero
    linarith
  rw [lensed_sub h0, ← hw, hre, norm_div, norm_mul, Complex.norm_real, Real.norm_of_nonneg h1g, ← hwn]
  have : 1 - ‖w‖ ^ 2 ≠ 0 := by linarith
  field_simp

/-- **C147** The mean square of the deviation of a lensed ellipticity from the reduced shear, if the
intrinsic ellipticity has a random phase. -/
theorem lensed_noise {ν : Measure ℂ} (h : DiscPhase ν) {g : ℂ} (hg : ‖g‖ < 1) :
    ∫ e, ‖lensed e g - g‖ ^ 2 ∂ν =
      (1 - ‖g‖ ^ 2) ^ 2 * ∫ e, ‖e‖ ^ 2 / (1 - ‖g‖ ^ 2 * ‖e‖ ^ 2) ∂ν := by
  obtain ⟨ρ, hρ, hle, rfl⟩ := h
  have hg2 : ‖g‖ ^ 2 < 1 := pow_lt_one₀ (norm_nonneg _) hg two_ne_zero
  have hae : ∀ᵐ p ∂(ρ.prod (uniformLaw 0 (2 * Real.pi))), ‖p.1‖ ≤ 1 :=
    Measure.quasiMeasurePreserving_fst.ae hle
  have hturn : ∀ p : ℂ × ℝ, ‖Complex.exp (Complex.I * p.2) * p.1‖ = ‖p.1‖ := by
    intro p
    rw [norm_mul, mul_comm Complex.I, Complex.norm_exp_ofReal_mul_I, one_mul]
  have hml : Measurable fun e => lensed e g := by
    unfold lensed
    fun_prop
  have hm1 : Measurable fun e => ‖lensed e g - g‖ ^ 2 := by fun_prop
  have hm2 : Measurable fun e : ℂ => ‖e‖ ^ 2 / (1 - ‖g‖ ^ 2 * ‖e‖ ^ 2) := by fun_prop
  have hint : Integrable (fun p : ℂ × ℝ => ‖lensed (Complex.exp (Complex.I * p.2) * p.1) g - g‖ ^ 2)
      (ρ.prod (uniformLaw 0 (2 * Real.pi))) := by
    refine Integrable.of_bound (hm1.comp measurable_turn).aestronglyMeasurable 4 ?_
    filter_upwards [hae] with p hp
    have h1 : ‖lensed (Complex.exp (Complex.I * p.2) * p.1) g‖ ≤ 1 :=
      lensed_norm_le (by rw [hturn]; exact hp) hg
    have h2 := norm_sub_le (lensed (Complex.exp (Complex.I * p.2) * p.1) g) g
    rw [norm_pow, norm_norm]
    nlinarith [norm_nonneg (lensed (Complex.exp (Complex.I * p.2) * p.1) g - g)]
  rw [randomPhase, integral_map measurable_turn.aemeasurable hm1.aestronglyMeasurable,
    integral_map measurable_turn.aemeasurable hm2.aestronglyMeasurable, integral_prod _ hint]
  have e2 : ∫ p : ℂ × ℝ, ‖Complex.exp (Complex.I * p.2) * p.1‖ ^ 2 /
      (1 - ‖g‖ ^ 2 * ‖Complex.exp (Complex.I * p.2) * p.1‖ ^ 2)
        ∂(ρ.prod (uniformLaw 0 (2 * Real.pi))) = ∫ z, ‖z‖ ^ 2 / (1 - ‖g‖ ^ 2 * ‖z‖ ^ 2) ∂ρ := by
    have : IsProbabilityMeasure (uniformLaw 0 (2 * Real.pi)) := inferInstance
    simp only [hturn]
    rw [integral_fun_fst (fun z : ℂ => ‖z‖ ^ 2 / (1 - ‖g‖ ^ 2 * ‖z‖ ^ 2))]
    simp
  rw [e2, ← integral_const_mul]
  refine integral_congr_ae ?_
  filter_upwards [hle] with z hz
  have hP : ∀ e : ℂ, ‖e‖ ≤ 1 → DifferentiableAt ℂ
      (fun e => (1 - (starRingEnd ℂ) g * e) / (1 + (starRingEnd ℂ) g * e)) e := by
    intro e he
    exact ((differentiableAt_id.const_mul _).const_sub 1).div
      ((differentiableAt_id.const_mul _).const_add 1) (one_add_ne_zero he hg)
  have hPd : DiffContOnCl ℂ (fun e => (1 - (starRingEnd ℂ) g * e) / (1 + (starRingEnd ℂ) g * e))
      (Metric.ball 0 1) := by
    refine ⟨fun e he => (hP e ?_).differentiableWithinAt, ?_⟩
    · have := Metric.ball_subset_closedBall he
      simpa using this
    · rw [closure_ball _ one_ne_zero]
      exact fun e he => (hP e (by simpa using he)).continuousAt.continuousWithinAt
  have hmean := phase_mean _ hPd z hz
  have hcont : Continuous fun θ : ℝ => (1 - (starRingEnd ℂ) g * (Complex.exp (Complex.I * θ) * z)) /
      (1 + (starRingEnd ℂ) g * (Complex.exp (Complex.I * θ) * z)) := by
    refine Continuous.div (by fun_prop) (by fun_prop) fun θ => one_add_ne_zero ?_ hg
    exact (hturn (z, θ)).le.trans hz
  have hIθ : Integrable (fun θ : ℝ => (1 - (starRingEnd ℂ) g * (Complex.exp (Complex.I * θ) * z)) /
      (1 + (starRingEnd ℂ) g * (Complex.exp (Complex.I * θ) * z))) (uniformLaw 0 (2 * Real.pi)) := by
    refine Integrable.of_bound hcont.measurable.aestronglyMeasurable (2 / (1 - ‖g‖))
      (ae_of_all _ fun θ => ?_)
    have hw : ‖(starRingEnd ℂ) g * (Complex.exp (Complex.I * θ) * z)‖ ≤ ‖g‖ := by
      rw [norm_mul, Complex.norm_conj]
      have h1 := (hturn (z, θ)).le.trans hz
      exact mul_le_of_le_one_right (norm_nonneg _) h1
    have h1 := norm_sub_le 1 ((starRingEnd ℂ) g * (Complex.exp (Complex.I * θ) * z))
    have h2 := norm_sub_norm_le (1 : ℂ) (-((starRingEnd ℂ) g * (Complex.exp (Complex.I * θ) * z)))
    rw [norm_one] at h1 h2
    rw [norm_neg, sub_neg_eq_add] at h2
    rw [norm_div]
    exact div_le_div₀ (by norm_num) (by linarith) (by linarith) (by linarith)
  calc ∫ θ : ℝ, ‖lensed (Complex.exp (Complex.I * θ) * z) g - g‖ ^ 2 ∂(uniformLaw 0 (2 * Real.pi))
      = ∫ θ : ℝ, (1 - ‖g‖ ^ 2) ^ 2 * (‖z‖ ^ 2 / (1 - ‖g‖ ^ 2 * ‖z‖ ^ 2)) *
          ((1 - (starRingEnd ℂ) g * (Complex.exp (Complex.I * θ) * z)) /
      (1 + (starRingEnd ℂ) g * (Complex.exp (Complex.I * θ) * z))).re
          ∂(uniformLaw 0 (2 * Real.pi)) := by
        refine integral_congr_ae (ae_of_all _ fun θ => ?_)
        have h1 := hturn (z, θ)
        have := lensed_sub_sq (e := Complex.exp (Complex.I * θ) * z) (by rw [h1]; exact hz) hg
        simp only at h1 ⊢
        rw [this, h1]
    _ = (1 - ‖g‖ ^ 2) ^ 2 * (‖z‖ ^ 2 / (1 - ‖g‖ ^ 2 * ‖z‖ ^ 2)) := by
        rw [integral_const_mul]
        have := (Complex.reCLM.integral_comp_comm hIθ)
        simp only [Complex.reCLM_apply] at this
        rw [this, hmean]
        simp

/-- **C147** Lensing reduces the noise of the ellipticities, by a factor between `(1 - |g|²)²` and
`1 - |g|²`. -/
theorem lensed_noise_bounds {ν : Measure ℂ} (h : DiscPhase ν) {g : ℂ} (hg : ‖g‖ < 1) :
    (1 - ‖g‖ ^ 2) ^ 2 * ∫ e, ‖e‖ ^ 2 ∂ν ≤ ∫ e, ‖lensed e g - g‖ ^ 2 ∂ν ∧
    ∫ e, ‖lensed e g - g‖ ^ 2 ∂ν ≤ (1 - ‖g‖ ^ 2) * ∫ e, ‖e‖ ^ 2 ∂ν := by
  have hp := h.probability
  rw [lensed_noise h hg]
  have hg2 : ‖g‖ ^ 2 < 1 := pow_lt_one₀ (norm_nonneg _) hg two_ne_zero
  have hb : ∀ᵐ e ∂ν, ‖e‖ ≤ 1 := by
    obtain ⟨ρ, hρ, hle, rfl⟩ := h
    rw [randomPhase, ae_map_iff measurable_turn.aemeasurable
      (measurableSet_le measurable_norm measurable_const)]
    have hae : ∀ᵐ p ∂(ρ.prod (uniformLaw 0 (2 * Real.pi))), ‖p.1‖ ≤ 1 :=
      Measure.quasiMeasurePreserving_fst.ae hle
    filter_upwards [hae] with p hp
    rw [norm_mul, mul_comm Complex.I, Complex.norm_exp_ofReal_mul_I, one_mul]
    exact hp
  have hle : ∀ e : ℂ, ‖e‖ ≤ 1 → ‖e‖ ^ 2 ≤ ‖e‖ ^ 2 / (1 - ‖g‖ ^ 2 * ‖e‖ ^ 2) ∧
      ‖e‖ ^ 2 / (1 - ‖g‖ ^ 2 * ‖e‖ ^ 2) ≤ ‖e‖ ^ 2 / (1 - ‖g‖ ^ 2) := by
    intro e he
    have he2 : ‖e‖ ^ 2 ≤ 1 := pow_le_one₀ (norm_nonneg _) he
    have h1 : ‖g‖ ^ 2 * ‖e‖ ^ 2 ≤ ‖g‖ ^ 2 := mul_le_of_le_one_right (sq_nonneg _) he2
    have h0 : 0 ≤ ‖g‖ ^ 2 * ‖e‖ ^ 2 := by positivity
    constructor
    · rw [le_div_iff₀ (by linarith)]
      exact mul_le_of_le_one_right (sq_nonneg _) (by linarith)
    · exact div_le_div_of_nonneg_left (sq_nonneg _) (by linarith) (by linarith)
  have hI1 : Integrable (fun e : ℂ => ‖e‖ ^ 2) ν := by
    refine Integrable.of_bound (by fun_prop) 1 ?_
    filter_upwards [hb] with e he
    rw [norm_pow, norm_norm]
    exact pow_le_one₀ (norm_nonneg _) he
  have hI2 : Integrable (fun e : ℂ => ‖e‖ ^ 2 / (1 - ‖g‖ ^ 2 * ‖e‖ ^ 2)) ν := by
    refine Integrable.mono' (hI1.div_const (1 - ‖g‖ ^ 2)) (Measurable.aestronglyMeasurable
      (by fun_prop)) ?_
    filter_upwards [hb] with e he
    rw [Real.norm_of_nonneg ((sq_nonneg _).trans (hle e he).1)]
    exact (hle e he).2
  constructor
  · refine mul_le_mul_of_nonneg_left (integral_mono_ae hI1 hI2 ?_) (sq_nonneg _)
    filter_upwards [hb] with e he using (hle e he).1
  · have : ∫ e, ‖e‖ ^ 2 / (1 - ‖g‖ ^ 2 * ‖e‖ ^ 2) ∂ν ≤ (∫ e, ‖e‖ ^ 2 ∂ν) / (1 - ‖g‖ ^ 2) := by
      rw [← integral_div]
      refine integral_mono_ae hI2 (hI1.div_const _) ?_
      filter_upwards [hb] with e he using (hle e he).2
    have h2 := mul_le_mul_of_nonneg_left this (sq_nonneg (1 - ‖g‖ ^ 2))
    refine h2.trans (le_of_eq ?_)
    have : 1 - ‖g‖ ^ 2 ≠ 0 := by linarith
    field_simp

/-! ## Sums and products of independent numbers -/

/-- Products of different numbers. -/
theorem indep_products {μ : Measure σ} [IsProbabilityMeasure μ] {n : ℕ} {X : Fin n → σ → ℂ}
    (hX : ∀ i, AEMeasurable (X i) μ) (hind : iIndepFun X μ) {i j : Fin n} (hij : i ≠ j) :
    ∫ s, X i s * (starRingEnd ℂ) (X j s) ∂μ = (∫ s, X i s ∂μ) * (starRingEnd ℂ) (∫ s, X j s ∂μ) ∧
    ∫ s, X i s * X j s ∂μ = (∫ s, X i s ∂μ) * ∫ s, X j s ∂μ := by
  have h := hind.indepFun hij
  constructor
  · have h2 : IndepFun (X i) (fun s => (starRingEnd ℂ) (X j s)) μ :=
      h.comp (φ := fun z => z) (ψ := fun z => (starRingEnd ℂ) z) measurable_id
        Complex.continuous_conj.measurable
    rw [h2.integral_fun_mul_eq_mul_integral (hX i).aestronglyMeasurable
      (Complex.continuous_conj.measurable.comp_aemeasurable (hX j)).aestronglyMeasurable, integral_conj]
  · exact h.integral_fun_mul_eq_mul_integral (hX i).aestronglyMeasurable (hX j).aestronglyMeasurable

/-- The mean square of a weighted sum of independent numbers with a mean of zero. -/
theorem indep_sum {μ : Measure σ} [IsProbabilityMeasure μ] {n : ℕ} {X : Fin n → σ → ℂ}
    (hX : ∀ i, AEMeasurable (X i) μ) (hind : iIndepFun X μ) {c : ℝ}
    (hb : ∀ i, ∀ᵐ s ∂μ, ‖X i s‖ ≤ c) (m : Fin n → ℂ) (hm : ∀ i, ∫ s, X i s ∂μ = m i)
    (w : Fin n → ℂ) :
    ∫ s, ‖∑ i, w i * X i s - ∑ i, w i * m i‖ ^ 2 ∂μ =
      ∑ i, ‖w i‖ ^ 2 * ∫ s, ‖X i s - m i‖ ^ 2 ∂μ := by
  set D : Fin n → σ → ℂ := fun i s => X i s - m i with hD
  have hDm : ∀ i, AEMeasurable (D i) μ := fun i => (hX i).sub_const _
  have hDb : ∀ i, ∀ᵐ s ∂μ, ‖D i s‖ ≤ c + ‖m i‖ := by
    intro i
    filter_upwards [hb i] with s hs
    exact (norm_sub_le _ _).trans (by linarith)
  have hDind : iIndepFun D μ :=
    hind.comp (fun i z => z - m i) fun i => measurable_id.sub_const _
  have hXI : ∀ i, Integrable (X i) μ := fun i =>
    Integrable.of_bound (hX i).aestronglyMeasurable c (hb i)
  have hD0 : ∀ i, ∫ s, D i s ∂μ = 0 := by
    intro i
    rw [hD]
    simp only
    rw [integral_sub (hXI i) (integrable_const _), hm i]
    simp
  have hprod : ∀ i j, Integrable (fun s => D i s * (starRingEnd ℂ) (D j s)) μ := by
    intro i j
    refine Integrable.of_bound ((hDm i).mul (Complex.continuous_conj.measurable.comp_aemeasurable
      (hDm j))).aestronglyMeasurable ((c + ‖m i‖) * (c + ‖m j‖)) ?_
    filter_upwards [hDb i, hDb j] with s h1 h2
    rw [norm_mul, Complex.norm_conj]
    exact mul_le_mul h1 h2 (norm_nonneg _) ((norm_nonneg _).trans h1)
  have hsq : ∀ s, ((‖∑ i, w i * X i s - ∑ i, w i * m i‖ ^ 2 : ℝ) : ℂ) =
      ∑ i, ∑ j, w i * (starRingEnd ℂ) (w j) * (D i s * (starRingEnd ℂ) (D j s)) := by
    intro s
    rw [← Complex.normSq_eq_norm_sq, ← Complex.mul_conj, ← Finset.sum_sub_distrib, map_sum,
      Finset.sum_mul_sum]
    refine Finset.sum_congr rfl fun i _ => Finset.sum_congr rfl fun j _ => ?_
    rw [hD, map_sub, map_mul, map_mul, map_sub]
    ring
  have key : ((∫ s, ‖∑ i, w i * X i s - ∑ i, w i * m i‖ ^ 2 ∂μ : ℝ) : ℂ) =
      ((∑ i, ‖w i‖ ^ 2 * ∫ s, ‖X i s - m i‖ ^ 2 ∂μ : ℝ) : ℂ) := by
    rw [← integral_complex_ofReal]
    simp only [hsq]
    rw [integral_finsetSum _ fun i _ => integrable_finsetSum _ fun j _ => (hprod i j).const_mul _]
    push_cast
    refine Finset.sum_congr rfl fun i _ => ?_
    rw [integral_finsetSum _ fun j _ => (hprod i j).const_mul _, Finset.sum_eq_single i]
    · rw [integral_const_mul, Complex.mul_conj, Complex.normSq_eq_norm_sq, ← integral_complex_ofReal]
      push_cast
      congr 2
      funext s
      rw [Complex.mul_conj, Complex.normSq_eq_norm_sq]
      push_cast
      rfl
    · intro j _ hji
      rw [integral_const_mul, (indep_products hDm hDind hji.symm).1, hD0 i, zero_mul, mul_zero]
    · intro h
      exact absurd (Finset.mem_univ i) h
  exact_mod_cast key

/-! ## The catalogue -/

/-- The mean of a lensed ellipticity at a position. -/
noncomputable def meanShear {npix : ℕ} (pix : ℝ × ℝ → Fin npix) (kappa gamma1 gamma2 : Fin npix → ℝ)
    (red : Bool) (p : ℝ × ℝ) : ℂ :=
  if red then reducedShearAt pix kappa gamma1 gamma2 p else shearAt pix gamma1 gamma2 p

/-- The variance of a lensed ellipticity with mean `g`, if `ν` is the law of the intrinsic one. -/
noncomputable def shapeNoise (red : Bool) (g : ℂ) (ν : Measure ℂ) : ℝ :=
  if red then (1 - ‖g‖ ^ 2) ^ 2 * ∫ e, ‖e‖ ^ 2 / (1 - ‖g‖ ^ 2 * ‖e‖ ^ 2) ∂ν else ∫ e, ‖e‖ ^ 2 ∂ν

/-- **C147** The results of `galaxy_shear` for sampled ellipticities are independent; their means are
the reduced shears, their variances are the shape noise; the mean of the product of two of them is the
product of the reduced shears; the variance of a weighted sum is the sum of the shape noise with
squared weights. -/
theorem sheared_joint {μ : Measure σ} [IsProbabilityMeasure μ] {R : σ → List ℂ → Prop}
    {νs : List (Measure ℂ)} (hR : Samples μ R νs) {npix chunk : ℕ} (hc : 0 < chunk) (junk : ℕ → ℝ)
    (pix : ℝ × ℝ → Fin npix) {lonlat : List (ℝ × ℝ)} (hl : lonlat.length = νs.length)
    (kappa gamma1 gamma2 : Fin npix → ℝ) (red : Bool)
    (hg : ∀ p ∈ lonlat, red = true → WeakAt pix kappa gamma1 gamma2 p) :
    ∃ X : Fin νs.length → σ → ℂ,
      (∀ᵐ s ∂μ, ∃ es, R s es ∧ galaxyShear chunk junk pix lonlat es kappa gamma1 gamma2 red =
        .ok (List.ofFn fun i => X i s)) ∧
      iIndepFun X μ ∧
      (∀ i : Fin νs.length, AEMeasurable (X i) μ ∧ Integrable (X i) μ ∧
        ∫ s, X i s ∂μ = meanShear pix kappa gamma1 gamma2 red lonlat[i] ∧
        ∫ s, ‖X i s - meanShear pix kappa gamma1 gamma2 red lonlat[i]‖ ^ 2 ∂μ =
          shapeNoise red (meanShear pix kappa gamma1 gamma2 red lonlat[i]) νs[i]) ∧
      (∀ i j : Fin νs.length, i ≠ j →
        ∫ s, X i s * (starRingEnd ℂ) (X j s) ∂μ =
          meanShear pix kappa gamma1 gamma2 red lonlat[i] *
            (starRingEnd ℂ) (meanShear pix kappa gamma1 gamma2 red lonlat[j]) ∧
        ∫ s, X i s * X j s ∂μ = meanShear pix kappa gamma1 gamma2 red lonlat[i] *
          meanShear pix kappa gamma1 gamma2 red lonlat[j]) ∧
      ∀ w : Fin νs.length → ℂ, ∫ s, ‖∑ i, w i * X i s -
          ∑ i : Fin νs.length, w i * meanShear pix kappa gamma1 gamma2 red lonlat[i]‖ ^ 2 ∂μ =
        ∑ i : Fin νs.length, ‖w i‖ ^ 2 *
          shapeNoise red (meanShear pix kappa gamma1 gamma2 red lonlat[i]) νs[i] := by
  obtain ⟨E, hE, hmap, hind, hRE⟩ := entries_law hR
  set f : Fin νs.length → ℂ → ℂ := fun i e =>
    if red then lensed e (reducedShearAt pix kappa gamma1 gamma2 lonlat[i])
    else e + shearAt pix gamma1 gamma2 lonlat[i] with hf
  have hfm : ∀ i, Measurable (f i) := by
    intro i
    rw [hf]
    simp only
    split_ifs
    · unfold lensed
      fun_prop
    · fun_prop
  have hle : ∀ i, ∀ᵐ s ∂μ, ‖E i s‖ ≤ 1 := by
    intro i
    obtain ⟨ρ, hρ, hle, hph⟩ := hR.phase _ (List.getElem_mem i.2)
    have : ∀ᵐ e ∂(μ.map (E i)), ‖e‖ ≤ 1 := by
      rw [hmap i]
      simp only [Fin.getElem_fin]
      rw [← hph, randomPhase, ae_map_iff measurable_turn.aemeasurable
        (measurableSet_le measurable_norm measurable_const)]
      have hae : ∀ᵐ p ∂(ρ.prod (uniformLaw 0 (2 * Real.pi))), ‖p.1‖ ≤ 1 :=
        Measure.quasiMeasurePreserving_fst.ae hle
      filter_upwards [hae] with p hp
      rw [norm_mul, mul_comm Complex.I, Complex.norm_exp_ofReal_mul_I, one_mul]
      exact hp
    exact ae_of_ae_map (hE i) this
  have hXm : ∀ i, AEMeasurable (fun s => f i (E i s)) μ := fun i => (hfm i).comp_aemeasurable (hE i)
  have hXind : iIndepFun (fun i s => f i (E i s)) μ := hind.comp f hfm
  obtain ⟨c, hbound⟩ : ∃ c : ℝ, ∀ i, ∀ᵐ s ∂μ, ‖f i (E i s)‖ ≤ c := by
    refine ⟨1 + ∑ i : Fin νs.length, ‖shearAt pix gamma1 gamma2 lonlat[i]‖, fun i => ?_⟩
    filter_upwards [hle i] with s hs
    have hpos : ‖shearAt pix gamma1 gamma2 lonlat[i]‖ ≤
        ∑ i : Fin νs.length, ‖shearAt pix gamma1 gamma2 lonlat[i]‖ :=
      Finset.single_le_sum (f := fun i : Fin νs.length => ‖shearAt pix gamma1 gamma2 lonlat[i]‖)
        (fun _ _ => norm_nonneg _) (Finset.mem_univ i)
    rw [hf]
    simp only
    split_ifs with hr
    · have := lensed_norm_le hs (hg _ (List.getElem_mem (by rw [hl]; exact i.2)) hr).lt_one
      exact this.trans (le_add_of_nonneg_right (Finset.sum_nonneg fun _ _ => norm_nonneg _))
    · exact (norm_add_le _ _).trans (add_le_add hs hpos)
  have hint : ∀ i, Integrable (fun s => f i (E i s)) μ := fun i =>
    Integrable.of_bound (hXm i).aestronglyMeasurable c (hbound i)
  have hmean : ∀ i : Fin νs.length, ∫ s, f i (E i s) ∂μ =
      meanShear pix kappa gamma1 gamma2 red lonlat[i] := by
    intro i
    have hm := integral_map (hE i) (hfm i).aestronglyMeasurable
    rw [← hm, hmap i]
    obtain ⟨ρ, hρ, hle, hph⟩ := hR.phase _ (List.getElem_mem i.2)
    simp only [Fin.getElem_fin]
    rw [← hph, hf]
    simp only [Fin.getElem_fin, meanShear]
    split_ifs with hr
    · exact (lensed_mean hle (hg _ (List.getElem_mem (by rw [hl]; exact i.2)) hr).lt_one).2
    · have h0 := lensed_mean hle (g := 0) (by simp)
      have e0 : (fun e : ℂ => lensed e 0) = fun e => e := by
        funext e; simp [lensed]
      rw [e0] at h0
      have : IsProbabilityMeasure (randomPhase ρ) := by
        rw [hph]; exact (hR.phase _ (List.getElem_mem i.2)).probability
      rw [integral_add h0.1 (integrable_const _), h0.2]
      simp
  have hnoise : ∀ i : Fin νs.length,
      ∫ s, ‖f i (E i s) - meanShear pix kappa gamma1 gamma2 red lonlat[i]‖ ^ 2 ∂μ =
        shapeNoise red (meanShear pix kappa gamma1 gamma2 red lonlat[i]) νs[i] := by
    intro i
    have hm := integral_map (hE i) (f := fun e =>
      ‖f i e - meanShear pix kappa gamma1 gamma2 red lonlat[i]‖ ^ 2)
      (by have := hfm i; exact Measurable.aestronglyMeasurable (by fun_prop))
    rw [← hm, hmap i, hf]
    simp only [Fin.getElem_fin, meanShear, shapeNoise]
    split_ifs with hr
    · exact lensed_noise (hR.phase _ (List.getElem_mem i.2))
        (hg _ (List.getElem_mem (by rw [hl]; exact i.2)) hr).lt_one
    · simp
  refine ⟨fun i s => f i (E i s), ?_, hXind, fun i => ⟨hXm i, hint i, hmean i, hnoise i⟩,
    fun i j hij => ?_, fun w => ?_⟩
  · filter_upwards [hRE] with s hs
    refine ⟨_, hs, ?_⟩
    have hlen : lonlat.length = (List.ofFn fun i => E i s).length := by simp [hl]
    have hspec := galaxyShear_eq hc junk pix hlen kappa gamma1 gamma2
    cases red with
    | true =>
      rw [hspec.1]
      congr 1
      refine List.ext_getElem (by simp [hl]) fun k h1 h2 => ?_
      simp [hf]
    | false =>
      rw [hspec.2]
      congr 1
      refine List.ext_getElem (by simp [hl]) fun k h1 h2 => ?_
      simp [hf]
  · have := indep_products hXm hXind hij
    rw [hmean i, hmean j] at this
    exact this
  · have := indep_sum hXm hXind hbound _ hmean w
    rw [this]
    exact Finset.sum_congr rfl fun i _ => by rw [hnoise i]

/-- **C147** The shape noise of lensed ellipticities is below that of the intrinsic ones. -/
theorem shape_noise_bounds {ν : Measure ℂ} (h : DiscPhase ν) {g : ℂ} (hg : ‖g‖ < 1) :
    shapeNoise false g ν = ∫ e, ‖e‖ ^ 2 ∂ν ∧
    (1 - ‖g‖ ^ 2) ^ 2 * ∫ e, ‖e‖ ^ 2 ∂ν ≤ shapeNoise true g ν ∧
    shapeNoise true g ν ≤ (1 - ‖g‖ ^ 2) * ∫ e, ‖e‖ ^ 2 ∂ν := by
  have hb := lensed_noise_bounds h hg
  rw [lensed_noise h hg] at hb
  simp only [shapeNoise, Bool.false_eq_true, if_false, if_true]
  exact ⟨trivial, hb.1, hb.2⟩

/-- **C147** The mean of the lensed ellipticities of `n` galaxies of one population in one pixel
estimates the reduced shear with the `n`-th part of the shape noise of one galaxy. -/
theorem gaussian_mean_noise {μ : Measure σ} [IsProbabilityMeasure μ]
    {normal : σ → ℕ → List ℝ × σ} (hn : IdealNormal μ normal) (junk : ℕ → ℂ) (n : ℕ) (sigma : ℝ)
    {npix chunk : ℕ} (hc : 0 < chunk) (junk' : ℕ → ℝ) (pix : ℝ × ℝ → Fin npix)
    {lonlat : List (ℝ × ℝ)} (hl : lonlat.length = n) (h0 : 0 < n)
    (kappa gamma1 gamma2 : Fin npix → ℝ) {g : ℂ} (hg : ‖g‖ < 1)
    (hp : ∀ p ∈ lonlat, kappa (pix p) ≠ 1 ∧ reducedShearAt pix kappa gamma1 gamma2 p = g) :
    ∃ X : σ → List ℂ, (∀ᵐ s ∂μ, ∃ fuel es s', ellipticityGaussian normal junk fuel s
        ⟨[], fun _ => n⟩ ⟨[], fun _ => sigma⟩ = some (.ok (es, s')) ∧
        galaxyShear chunk junk' pix lonlat es kappa gamma1 gamma2 true = .ok (X s)) ∧
      ∫ s, (X s).sum / (n : ℂ) ∂μ = g ∧
      ∫ s, ‖(X s).sum / (n : ℂ) - g‖ ^ 2 ∂μ = shapeNoise true g (truncatedNormal sigma) / n := by
  have hd : IsBroadcast [[], []] [] := isBroadcast_pair.1 (by rfl)
  have hS := gaussian_samples hn junk ⟨[], fun _ => n⟩ ⟨[], fun _ => sigma⟩ hd
  have hobj : (objects (populations ⟨[], fun _ => n⟩ ⟨[], fun _ => sigma⟩ [])).map truncatedNormal =
      List.replicate n (truncatedNormal sigma) := by
    simp [objects, populations, indices, entry]
  rw [hobj] at hS
  obtain ⟨X, h1, -, h3, -, h5⟩ := sheared_joint hS hc junk' pix
    (lonlat := lonlat) (by simp [hl]) kappa gamma1 gamma2
    true (fun p h _ => (weakAt_iff ..).2 ⟨(hp p h).1, by rw [(hp p h).2]; exact hg⟩)
  have hn0 : (n : ℂ) ≠ 0 := by exact_mod_cast h0.ne'
  have hgm : ∀ i : Fin (List.replicate n (truncatedNormal sigma)).length,
      meanShear pix kappa gamma1 gamma2 true (lonlat[i]'(by have := i.2; simp at this; omega)) = g :=
    fun i => (hp _ (List.getElem_mem _)).2
  refine ⟨fun s => List.ofFn fun i => X i s, ?_, ?_, ?_⟩
  · filter_upwards [h1] with s hs
    obtain ⟨es, ⟨fuel, s', h6⟩, h7⟩ := hs
    exact ⟨fuel, es, s', h6, h7⟩
  · simp only [List.sum_ofFn]
    rw [integral_div, integral_finsetSum _ fun i _ => (h3 i).2.1]
    have : ∀ i ∈ (Finset.univ : Finset (Fin (List.replicate n (truncatedNormal sigma)).length)),
        ∫ s, X i s ∂μ = g := fun i _ => by rw [(h3 i).2.2.1, hgm i]
    rw [Finset.sum_congr rfl this, Finset.sum_const, Finset.card_univ, Fintype.card_fin,
      List.length_replicate, nsmul_eq_mul]
    field_simp
  · have := h5 fun _ => 1 / (n : ℂ)
    have e1 : ∀ s, ∑ i, 1 / (n : ℂ) * X i s = (List.ofFn fun i => X i s).sum / (n : ℂ) := by
      intro s
      rw [← Finset.mul_sum, List.sum_ofFn]
      ring
    have e2 : ∑ i : Fin (List.replicate n (truncatedNormal sigma)).length, 1 / (n : ℂ) *
        meanShear pix kappa gamma1 gamma2 true (lonlat[i]'(by have := i.2; simp at this; omega)) = g := by
      rw [Finset.sum_congr rfl fun i _ => by rw [hgm i], Finset.sum_const, Finset.card_univ,
        Fintype.card_fin, List.length_replicate, nsmul_eq_mul]
      field_simp
    simp only [e1] at this
    rw [e2] at this
    rw [this]
    have e3 : ∀ i ∈ (Finset.univ : Finset (Fin (List.replicate n (truncatedNormal sigma)).length)),
        ‖1 / (n : ℂ)‖ ^ 2 * shapeNoise true (meanShear pix kappa gamma1 gamma2 true
          (lonlat[i]'(by have := i.2; simp at this; omega)))
          (List.replicate n (truncatedNormal sigma))[i] =
        1 / (n : ℝ) ^ 2 * shapeNoise true g (truncatedNormal sigma) := by
      intro i _
      rw [hgm i]
      simp
    rw [Finset.sum_congr rfl e3, Finset.sum_const, Finset.card_univ, Fintype.card_fin,
      List.length_replicate, nsmul_eq_mul]
    have : (n : ℝ) ≠ 0 := by exact_mod_cast h0.ne'
    field_simp

/-- The hypotheses can be met: a convergence of 1/2 with a shear of 1/4, so the reduced shear is 1/2;
the variance of the mean of four galaxies is between 9/64 and 3/16 of the intrinsic variance. -/
theorem shape_noise_example (sigma : ℝ) :
    ∃ (normal : (ℕ → ℝ) → ℕ → List ℝ × (ℕ → ℝ)) (X : (ℕ → ℝ) → List ℂ),
      (∀ᵐ s ∂(Measure.infinitePi fun _ : ℕ => gaussianReal 0 1), ∃ fuel es s',
        ellipticityGaussian normal (fun _ => 0) fuel s ⟨[], fun _ => 4⟩ ⟨[], fun _ => sigma⟩
          = some (.ok (es, s')) ∧
        galaxyShear 1 (fun _ => 0) (fun _ => (0 : Fin 1)) [(0, 0), (1, 0), (2, 0), (3, 0)] es
          (fun _ => 1 / 2) (fun _ => 1 / 4) (fun _ => 0) true = .ok (X s)) ∧
      let V := ∫ s, ‖(X s).sum / 4 - 1 / 2‖ ^ 2 ∂(Measure.infinitePi fun _ : ℕ => gaussianReal 0 1)
      9 / 64 * ∫ e, ‖e‖ ^ 2 ∂(truncatedNormal sigma) ≤ V ∧
      V ≤ 3 / 16 * ∫ e, ‖e‖ ^ 2 ∂(truncatedNormal sigma) := by
  obtain ⟨normal, hn⟩ := idealNormal_exists
  have hg : reducedShearAt (fun _ => (0 : Fin 1)) (fun _ => 1 / 2) (fun _ => 1 / 4) (fun _ => 0) =
      fun _ => (1 / 2 : ℂ) := by
    funext p
    apply Complex.ext
    · simp [reducedShearAt, shearAt, Complex.div_re, Complex.normSq]
      norm_num
    · simp [reducedShearAt, shearAt, Complex.div_im, Complex.normSq]
  have hlt : ‖(1 / 2 : ℂ)‖ < 1 := by norm_num
  obtain ⟨X, h1, -, h3⟩ := gaussian_mean_noise hn (fun _ => 0) 4 sigma (chunk := 1) one_pos
    (fun _ => 0) (fun _ => (0 : Fin 1)) (lonlat := [(0, 0), (1, 0), (2, 0), (3, 0)]) rfl (by norm_num)
    (fun _ => 1 / 2) (fun _ => 1 / 4) (fun _ => 0) hlt (fun p _ => ⟨by norm_num, by rw [hg]⟩)
  refine ⟨normal, X, h1, ?_⟩
  obtain ⟨-, b1, b2⟩ := shape_noise_bounds (discPhase_truncatedNormal sigma) hlt
  intro V
  have hV : V = shapeNoise true (1 / 2) (truncatedNormal sigma) / 4 := by exact_mod_cast h3
  have h14 : ‖(1 / 2 : ℂ)‖ ^ 2 = 1 / 4 := by norm_num
  rw [h14] at b1 b2
  rw [hV]
  constructor <;> linarith

end Glass.Galaxies
