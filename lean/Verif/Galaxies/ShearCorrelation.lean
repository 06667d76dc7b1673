import Verif.Galaxies.ShapeNoise
import Verif.Lensing.ShearCorrelation
import Mathlib.MeasureTheory.Integral.Prod

/-!
# Property C148: correlations of the ellipticities of galaxies

Galaxies with random shapes are sheared by random maps.
-/

namespace Glass.Galaxies

open Glass Glass.Arrays NdArray Glass.Sampling Glass.Shapes MeasureTheory ProbabilityTheory

variable {σ Ω : Type} [MeasurableSpace σ] [MeasurableSpace Ω]

/-- The lensed ellipticity of a galaxy with intrinsic ellipticity `e` at a position. -/
noncomputable def shearedAt {npix : ℕ} (pix : ℝ × ℝ → Fin npix) (kappa gamma1 gamma2 : Fin npix → ℝ)
    (red : Bool) (p : ℝ × ℝ) (e : ℂ) : ℂ :=
  if red then lensed e (reducedShearAt pix kappa gamma1 gamma2 p) else e + shearAt pix gamma1 gamma2 p

theorem disc_le {ν : Measure ℂ} (h : DiscPhase ν) : ∀ᵐ e ∂ν, ‖e‖ ≤ 1 := by
  obtain ⟨ρ, hρ, hle, rfl⟩ := h
  rw [randomPhase, ae_map_iff measurable_turn.aemeasurable
    (measurableSet_le measurable_norm measurable_const)]
  have hae : ∀ᵐ p ∂(ρ.prod (uniformLaw 0 (2 * Real.pi))), ‖p.1‖ ≤ 1 :=
    Measure.quasiMeasurePreserving_fst.ae hle
  filter_upwards [hae] with p hp
  rw [norm_mul, mul_comm Complex.I, Complex.norm_exp_ofReal_mul_I, one_mul]
  exact hp

theorem measurable_lensed : Measurable fun q : ℂ × ℂ => lensed q.1 q.2 := by
  unfold lensed
  have : Measurable fun q : ℂ × ℂ => (starRingEnd ℂ) q.2 :=
    Complex.continuous_conj.measurable.comp measurable_snd
  fun_prop

/-- Mean and mean square of a lensed ellipticity in given maps. -/
theorem sheared_moments {ν : Measure ℂ} (h : DiscPhase ν) {npix : ℕ} (pix : ℝ × ℝ → Fin npix)
    (kappa gamma1 gamma2 : Fin npix → ℝ) (red : Bool) (p : ℝ × ℝ)
    (hg : red = true → WeakAt pix kappa gamma1 gamma2 p) :
    Integrable (shearedAt pix kappa gamma1 gamma2 red p) ν ∧
    ∫ e, shearedAt pix kappa gamma1 gamma2 red p e ∂ν = meanShear pix kappa gamma1 gamma2 red p ∧
    ∫ e, ‖shearedAt pix kappa gamma1 gamma2 red p e‖ ^ 2 ∂ν =
      ‖meanShear pix kappa gamma1 gamma2 red p‖ ^ 2 +
        shapeNoise red (meanShear pix kappa gamma1 gamma2 red p) ν := by
  have hprob := h.probability
  have hle := disc_le h
  set m := meanShear pix kappa gamma1 gamma2 red p with hm
  have hmeas : Measurable (shearedAt pix kappa gamma1 gamma2 red p) := by
    unfold shearedAt
    split_ifs
    · exact measurable_lensed.comp (measurable_id.prodMk measurable_const)
    · fun_prop
  have hb : ∀ᵐ e ∂ν, ‖shearedAt pix kappa gamma1 gamma2 red p e‖ ≤
      1 + ‖shearAt pix gamma1 gamma2 p‖ := by
    filter_upwards [hle] with e he
    unfold shearedAt
    split_ifs with hr
    · have := lensed_norm_le he (hg hr).lt_one
      have := norm_nonneg (shearAt pix gamma1 gamma2 p)
      linarith
    · exact (norm_add_le _ _).trans (by linarith)
  have hI : Integrable (shearedAt pix kappa gamma1 gamma2 red p) ν :=
    Integrable.of_bound hmeas.aestronglyMeasurable _ hb
  have hmean : ∫ e, shearedAt pix kappa gamma1 gamma2 red p e ∂ν = m := by
    obtain ⟨ρ, hρ, hle, hph⟩ := h
    rw [← hph, hm]
    unfold shearedAt meanShear
    split_ifs with hr
    · exact (lensed_mean hle (hg hr).lt_one).2
    · have h0 := lensed_mean hle (g := 0) (by simp)
      have e0 : (fun e : ℂ => lensed e 0) = fun e => e := by
        funext e; simp [lensed]
      rw [e0] at h0
      have : IsProbabilityMeasure (randomPhase ρ) := by rw [hph]; exact hprob
      rw [integral_add h0.1 (integrable_const _), h0.2]
      simp
  have hnoise : ∫ e, ‖shearedAt pix kappa gamma1 gamma2 red p e - m‖ ^ 2 ∂ν = shapeNoise red m ν := by
    rw [hm]
    unfold shearedAt meanShear shapeNoise
    split_ifs with hr
    · exact lensed_noise h (hg hr).lt_one
    · simp
  refine ⟨hI, hmean, ?_⟩
  rw [← hnoise]
  have hsq : ∀ e, ‖shearedAt pix kappa gamma1 gamma2 red p e - m‖ ^ 2 =
      ‖shearedAt pix kappa gamma1 gamma2 red p e‖ ^ 2 -
        2 * (shearedAt pix kappa gamma1 gamma2 red p e * (starRingEnd ℂ) m).re + ‖m‖ ^ 2 := by
    intro e
    simp only [← Complex.normSq_eq_norm_sq, Complex.normSq_sub]
    ring
  have hI2 : Integrable (fun e => ‖shearedAt pix kappa gamma1 gamma2 red p e‖ ^ 2) ν := by
    refine Integrable.of_bound (by fun_prop) ((1 + ‖shearAt pix gamma1 gamma2 p‖) ^ 2) ?_
    filter_upwards [hb] with e he
    rw [norm_pow, norm_norm]
    exact pow_le_pow_left₀ (norm_nonneg _) he 2
  have hI3 : Integrable (fun e => shearedAt pix kappa gamma1 gamma2 red p e * (starRingEnd ℂ) m) ν :=
    hI.mul_const _
  have hre : ∫ e, (shearedAt pix kappa gamma1 gamma2 red p e * (starRingEnd ℂ) m).re ∂ν = ‖m‖ ^ 2 := by
    have := Complex.reCLM.integral_comp_comm hI3
    simp only [Complex.reCLM_apply] at this
    rw [this, integral_mul_const, hmean, Complex.mul_conj, Complex.ofReal_re,
      Complex.normSq_eq_norm_sq]
  have hI4 : Integrable
      (fun e => 2 * (shearedAt pix kappa gamma1 gamma2 red p e * (starRingEnd ℂ) m).re) ν :=
    hI3.re.const_mul 2
  have hI5 : Integrable (fun e => ‖shearedAt pix kappa gamma1 gamma2 red p e‖ ^ 2 -
      2 * (shearedAt pix kappa gamma1 gamma2 red p e * (starRingEnd ℂ) m).re) ν := hI2.sub hI4
  simp only [hsq]
  rw [integral_add hI5 (integrable_const _), integral_sub hI2 hI4, integral_const_mul, hre]
  simp
  ring

/-- **C148** Galaxies with random shapes in random maps: the mean of an ellipticity is the mean of the
reduced shear, the means of products of two ellipticities are those of the reduced shears, and the
mean square is that of the reduced shear with the mean shape noise in addition. -/
theorem random_shear {μ : Measure σ} [IsProbabilityMeasure μ] {R : σ → List ℂ → Prop}
    {νs : List (Measure ℂ)} (hR : Samples μ R νs) (P : Measure Ω) [IsProbabilityMeasure P]
    {npix chunk : ℕ} (hc : 0 < chunk) (junk : ℕ → ℝ) (pix : ℝ × ℝ → Fin npix)
    {lonlat : List (ℝ × ℝ)} (hl : lonlat.length = νs.length) (kappa gamma1 gamma2 : Ω → Fin npix → ℝ)
    (hk : ∀ x, AEMeasurable (fun ω => kappa ω x) P) (h1 : ∀ x, AEMeasurable (fun ω => gamma1 ω x) P)
    (h2 : ∀ x, AEMeasurable (fun ω => gamma2 ω x) P) (red : Bool)
    (hg : red = true → ∀ p ∈ lonlat,
      ∀ᵐ ω ∂P, WeakAt pix (kappa ω) (gamma1 ω) (gamma2 ω) p)
    (hs : red = false → ∀ p ∈ lonlat, Integrable (fun ω => ‖shearAt pix (gamma1 ω) (gamma2 ω) p‖ ^ 2) P) :
    ∃ X : Fin νs.length → Ω × σ → ℂ,
      let g := fun (i : Fin νs.length) ω =>
        meanShear pix (kappa ω) (gamma1 ω) (gamma2 ω) red lonlat[i]
      (∀ᵐ z ∂(P.prod μ), ∃ es, R z.2 es ∧ galaxyShear chunk junk pix lonlat es (kappa z.1)
        (gamma1 z.1) (gamma2 z.1) red = .ok (List.ofFn fun i => X i z)) ∧
      (∀ i, Integrable (X i) (P.prod μ) ∧ ∫ z, X i z ∂(P.prod μ) = ∫ ω, g i ω ∂P) ∧
      (∀ i j, i ≠ j →
        ∫ z, X i z * (starRingEnd ℂ) (X j z) ∂(P.prod μ) =
          ∫ ω, g i ω * (starRingEnd ℂ) (g j ω) ∂P ∧
        ∫ z, X i z * X j z ∂(P.prod μ) = ∫ ω, g i ω * g j ω ∂P) ∧
      ∀ i : Fin νs.length, ∫ z, ‖X i z‖ ^ 2 ∂(P.prod μ) =
        ∫ ω, (‖g i ω‖ ^ 2 + shapeNoise red (g i ω) νs[i]) ∂P := by
  obtain ⟨E, hE, hmap, hind, hRE⟩ := entries_law hR
  have hmem : ∀ i : Fin νs.length, lonlat[i] ∈ lonlat := fun i => List.getElem_mem _
  have hph : ∀ i : Fin νs.length, DiscPhase (μ.map (E i)) := fun i => by
    rw [hmap i]; exact hR.phase _ (List.getElem_mem i.2)
  set X : Fin νs.length → Ω × σ → ℂ := fun i z =>
    shearedAt pix (kappa z.1) (gamma1 z.1) (gamma2 z.1) red lonlat[i] (E i z.2) with hX
  set g := fun (i : Fin νs.length) ω =>
        meanShear pix (kappa ω) (gamma1 ω) (gamma2 ω) red lonlat[i] with hgd
  have hle : ∀ i, ∀ᵐ s ∂μ, ‖E i s‖ ≤ 1 := fun i => ae_of_ae_map (hE i) (disc_le (hph i))
  have hsm : ∀ p, AEMeasurable (fun ω => shearAt pix (gamma1 ω) (gamma2 ω) p) P := by
    intro p
    have : (fun ω => shearAt pix (gamma1 ω) (gamma2 ω) p) = fun ω =>
        ((gamma1 ω (pix p) : ℝ) : ℂ) + ((gamma2 ω (pix p) : ℝ) : ℂ) * Complex.I := by
      funext ω
      apply Complex.ext <;> simp [shearAt]
    rw [this]
    exact (Complex.measurable_ofReal.comp_aemeasurable (h1 _)).add
      ((Complex.measurable_ofReal.comp_aemeasurable (h2 _)).mul_const _)
  have hrm : ∀ p, AEMeasurable (fun ω => reducedShearAt pix (kappa ω) (gamma1 ω) (gamma2 ω) p) P := by
    intro p
    unfold reducedShearAt
    exact (hsm p).div (Complex.measurable_ofReal.comp_aemeasurable ((hk _).const_sub 1))
  have hEs : ∀ i, AEMeasurable (fun z : Ω × σ => E i z.2) (P.prod μ) := fun i => (hE i).comp_snd
  have hXm : ∀ i, AEMeasurable (X i) (P.prod μ) := by
    intro i
    rw [hX]
    simp only [shearedAt]
    cases red with
    | true =>
      simp only [if_true]
      exact measurable_lensed.comp_aemeasurable ((hEs i).prodMk (hrm lonlat[i]).comp_fst)
    | false =>
      simp only [Bool.false_eq_true, if_false]
      exact (hEs i).add (hsm lonlat[i]).comp_fst
  -- bounds
  have hred : ∀ i : Fin νs.length, ∀ᵐ ω ∂P, red = true →
      WeakAt pix (kappa ω) (gamma1 ω) (gamma2 ω) lonlat[i] := by
    intro i
    cases red with
    | true =>
      filter_upwards [hg rfl _ (hmem i)] with ω hω _ using hω
    | false => exact ae_of_all _ (by simp)
  obtain ⟨b, hbI, hb⟩ : ∃ b : Fin νs.length → Ω → ℝ, (∀ i, Integrable (b i) P) ∧
      ∀ i, ∀ᵐ z ∂(P.prod μ), ‖X i z‖ ^ 2 ≤ b i z.1 := by
    cases red with
    | true =>
      refine ⟨fun _ _ => 1, fun _ => integrable_const _, fun i => ?_⟩
      filter_upwards [Measure.quasiMeasurePreserving_snd.ae (hle i),
        Measure.quasiMeasurePreserving_fst.ae (hred i)] with z hz hz'
      have := lensed_norm_le hz (hz' rfl).lt_one
      simp only [hX, shearedAt, if_true]
      exact pow_le_one₀ (norm_nonneg _) this
    | false =>
      refine ⟨fun (i : Fin νs.length) ω => 2 + 2 * ‖shearAt pix (gamma1 ω) (gamma2 ω) lonlat[i]‖ ^ 2,
        fun i => (integrable_const _).add ((hs rfl _ (hmem i)).const_mul 2), fun i => ?_⟩
      filter_upwards [Measure.quasiMeasurePreserving_snd.ae (hle i)] with z hz
      simp only [hX, shearedAt, Bool.false_eq_true, if_false]
      have h3 := norm_add_le (E i z.2) (shearAt pix (gamma1 z.1) (gamma2 z.1) lonlat[i])
      nlinarith [norm_nonneg (E i z.2 + shearAt pix (gamma1 z.1) (gamma2 z.1) lonlat[i]),
        norm_nonneg (E i z.2), norm_nonneg (shearAt pix (gamma1 z.1) (gamma2 z.1) lonlat[i]),
        sq_nonneg (‖E i z.2‖ - ‖shearAt pix (gamma1 z.1) (gamma2 z.1) lonlat[i]‖)]
  have hbP : ∀ i, Integrable (fun z : Ω × σ => b i z.1) (P.prod μ) := fun i => (hbI i).comp_fst μ
  have hI2 : ∀ i, Integrable (fun z => ‖X i z‖ ^ 2) (P.prod μ) := by
    intro i
    refine Integrable.mono' (hbP i) ((hXm i).norm.pow_const 2).aestronglyMeasurable ?_
    filter_upwards [hb i] with z hz
    rw [norm_pow, norm_norm]
    exact hz
  have hI1 : ∀ i, Integrable (X i) (P.prod μ) := by
    intro i
    refine Integrable.mono' ((integrable_const (1 : ℝ)).add (hI2 i)) (hXm i).aestronglyMeasurable
      (ae_of_all _ fun z => ?_)
    simp only [Pi.add_apply]
    nlinarith [sq_nonneg (‖X i z‖ - 1), norm_nonneg (X i z)]
  have hprod : ∀ i j (F : ℂ → ℂ), Measurable F → (∀ w, ‖F w‖ = ‖w‖) →
      Integrable (fun z => X i z * F (X j z)) (P.prod μ) := by
    intro i j F hF hn
    refine Integrable.mono' ((hI2 i).add (hI2 j))
      ((hXm i).mul (hF.comp_aemeasurable (hXm j))).aestronglyMeasurable (ae_of_all _ fun z => ?_)
    simp only [Pi.add_apply]
    rw [norm_mul, hn]
    nlinarith [sq_nonneg (‖X i z‖ - ‖X j z‖), sq_nonneg (‖X i z‖), sq_nonneg (‖X j z‖)]
  -- in given maps
  have hmeas1 : ∀ (i : Fin νs.length) ω, Measurable
      (shearedAt pix (kappa ω) (gamma1 ω) (gamma2 ω) red lonlat[i]) := by
    intro i ω
    unfold shearedAt
    split_ifs
    · exact measurable_lensed.comp (measurable_id.prodMk measurable_const)
    · fun_prop
  have hmean : ∀ i : Fin νs.length, ∀ᵐ ω ∂P, ∫ s, X i (ω, s) ∂μ = g i ω ∧
      ∫ s, ‖X i (ω, s)‖ ^ 2 ∂μ = ‖g i ω‖ ^ 2 + shapeNoise red (g i ω) νs[i] := by
    intro i
    filter_upwards [hred i] with ω hω
    have h3 := sheared_moments (hph i) pix (kappa ω) (gamma1 ω) (gamma2 ω) red lonlat[i] hω
    have h4 := integral_map (hE i) (hmeas1 i ω).aestronglyMeasurable
    have h5 := integral_map (hE i) (f := fun e =>
      ‖shearedAt pix (kappa ω) (gamma1 ω) (gamma2 ω) red lonlat[i] e‖ ^ 2)
      (by have := hmeas1 i ω; exact Measurable.aestronglyMeasurable (by fun_prop))
    refine ⟨h4.symm.trans h3.2.1, h5.symm.trans ?_⟩
    rw [h3.2.2]
    rw [hmap i]
  have hindω : ∀ ω, iIndepFun (fun i s => X i (ω, s)) μ := fun ω =>
    hind.comp (fun i => shearedAt pix (kappa ω) (gamma1 ω) (gamma2 ω) red lonlat[i])
      fun i => hmeas1 i ω
  have hXω : ∀ ω i, AEMeasurable (fun s => X i (ω, s)) μ := fun ω i =>
    (hmeas1 i ω).comp_aemeasurable (hE i)
  refine ⟨X, ?_, fun i => ⟨hI1 i, ?_⟩, fun i j hij => ⟨?_, ?_⟩, fun i => ?_⟩
  · filter_upwards [Measure.quasiMeasurePreserving_snd.ae hRE] with z hz
    refine ⟨_, hz, ?_⟩
    have hlen : lonlat.length = (List.ofFn fun i => E i z.2).length := by simp [hl]
    have hspec := galaxyShear_eq hc junk pix hlen (kappa z.1) (gamma1 z.1) (gamma2 z.1)
    cases red with
    | true =>
      rw [hspec.1]
      congr 1
      refine List.ext_getElem (by simp [hl]) fun k h1 h2 => ?_
      simp [hX, shearedAt]
    | false =>
      rw [hspec.2]
      congr 1
      refine List.ext_getElem (by simp [hl]) fun k h1 h2 => ?_
      simp [hX, shearedAt]
  · rw [integral_prod _ (hI1 i)]
    exact integral_congr_ae ((hmean i).mono fun ω h => h.1)
  · rw [integral_prod _ (hprod i j _ Complex.continuous_conj.measurable Complex.norm_conj)]
    refine integral_congr_ae ?_
    filter_upwards [hmean i, hmean j] with ω h3 h4
    have := (indep_products (hXω ω) (hindω ω) hij).1
    exact this.trans (by rw [h3.1, h4.1])
  · rw [integral_prod _ (hprod i j (fun w => w) measurable_id fun _ => rfl)]
    refine integral_congr_ae ?_
    filter_upwards [hmean i, hmean j] with ω h3 h4
    have := (indep_products (hXω ω) (hindω ω) hij).2
    exact this.trans (by rw [h3.1, h4.1])
  · rw [integral_prod _ (hI2 i)]
    exact integral_congr_ae ((hmean i).mono fun ω h => h.2)

open Glass.Lensing Glass.Grf Glass.Spectra Glass.Shells in
/-- **C148** From spectra of matter fields to the correlations of the ellipticities of galaxies: maps
of normal fields are generated for given spectra, one for each shell; the convergence is computed from
them, averaged over a population of sources; the shear is computed from the convergence; galaxies with
random shapes are sheared.  Their ellipticities have a mean of zero, the correlation functions `ξ₊`
and `ξ₋` of the spectrum that `effective_cls` computes with the weights of `multi_plane_weights`, times
`1 - 2 / (l (l + 1))`, and a variance to which the shape noise is added. -/
theorem ellipticity_correlations {npix : ℕ} (b : Backend) {Y : ℕ → ℕ → Fin npix → ℂ}
    {Q : ℕ → Fin npix → Fin npix → ℝ} {alm2map : List ℂ → Fin npix → ℝ} (hsyn : IsSynthesis Y alm2map)
    {cltovar : List ℝ → ℝ} (hvar : IsVariance cltovar) (hQ : ∀ l p p', Q l p p' = Q l p' p)
    {fields : List Transformation} (hn : ∀ t ∈ fields, t = .normal) {spectra : List (List ℝ)}
    (hcount : spectra.length = fields.length * (fields.length + 1) / 2)
    (hL : 0 < maxLength spectra) (hY : Harmonics (maxLength spectra) Y Q) (ncorr : Option ℕ)
    (hband : ∀ i < fields.length, ∀ j, ncorr.getD (fields.length - 1) + j < i →
      spectra[i * (i + 1) / 2 + (i - j)]? = some [])
    (hadm : ∀ l < maxLength spectra,
      Admissible fields.length (modeCov spectra (ncorr.getD (fields.length - 1)) l))
    {P : Measure Ω} [IsProbabilityMeasure P] {N : Ω → Normals} (hN : StandardNormals P N)
    -- the convergence
    (c : Cosmology) {shells : List RadialWindow} (hne : shells ≠ [])
    (hlen : shells.length = fields.length) {rows : List (ℕ → ℝ)}
    (hrows : multiPlaneMatrix c shells = .ok rows)
    (weights : List ℝ) (hw : Proper c weights shells)
    -- the shear
    (hp : Healpix (Fin npix → ℝ)) {nside : ℕ} (hside : ∀ k, hp.getNside k = nside) (lmax : Option ℕ)
    {dom : Finset (Fin npix)} {A : ℕ → ℕ → Fin npix → ℂ}
    (hA : IsAnalysis (maxLength spectra) Y hp.map2alm (lmax.getD (3 * nside - 1)) dom A)
    (discretized : Bool) {W : ℕ → ℤ → Fin npix → ℂ}
    (hW : IsSpinSynthesis W hp nside (lmax.getD (3 * nside - 1)))
    -- the galaxies
    {μ : Measure σ} [IsProbabilityMeasure μ] {R : σ → List ℂ → Prop}
    {νs : List (Measure ℂ)} (hR : Samples μ R νs) {chunk : ℕ} (hc : 0 < chunk) (junk : ℕ → ℝ)
    (pix : ℝ × ℝ → Fin npix) {lonlat : List (ℝ × ℝ)} (hl : lonlat.length = νs.length) :
    ∃ (M : ℕ → Fin npix → Ω → ℝ) (planes : Ω → List (Fin npix → ℝ)) (lw : ℕ → List ℝ) (out : Out ℝ)
      (cl : List ℝ) (gamma1 gamma2 : Ω → Fin npix → ℝ) (X : Fin νs.length → Ω × σ → ℂ),
      (∀ ω, ∃ maps, generate b alm2map cltovar (fun t x v p => Transformation.call t (x p) v) (N ω)
          fields spectra ncorr = (maps, none) ∧ maps.length = fields.length ∧
        ∀ i < fields.length, maps[i]? = some fun p => M i p ω) ∧
      (∀ ω, convergencePlanes c (fun i p => M i p ω) shells 0 (MPC.init _) = .ok (planes ω)) ∧
      multiPlaneWeights c weights shells = .ok (lw 0) ∧
      effectiveCls spectra (weightArray fields.length 1 lw) none none = .ok out ∧
      out [0, 0] = some cl ∧
      (∀ ω, fromConvergence hp (meanConvergence weights (planes ω)) lmax false false true discretized =
        [.complex (gamma1 ω) (gamma2 ω)]) ∧
      (∀ᵐ z ∂(P.prod μ), ∃ es, R z.2 es ∧ galaxyShear chunk junk pix lonlat es
        (meanConvergence weights (planes z.1)) (gamma1 z.1) (gamma2 z.1) false =
          .ok (List.ofFn fun i => X i z)) ∧
      let L := lmax.getD (3 * nside - 1)
      let cg := shearSpectrum cl (windowRatio hp nside L discretized)
      (∀ i, ∫ z, X i z ∂(P.prod μ) = 0) ∧
      (∀ i j : Fin νs.length, i ≠ j →
        ∫ z, X i z * (starRingEnd ℂ) (X j z) ∂(P.prod μ) =
          xiPlus W L cg (pix lonlat[i]) (pix lonlat[j]) ∧
        ∫ z, X i z * X j z ∂(P.prod μ) = xiMinus W L cg (pix lonlat[i]) (pix lonlat[j])) ∧
      ∀ i : Fin νs.length, ∫ z, ‖X i z‖ ^ 2 ∂(P.prod μ) =
        (xiPlus W L cg (pix lonlat[i]) (pix lonlat[i])).re + ∫ e, ‖e‖ ^ 2 ∂νs[i] := by
  obtain ⟨M, planes, lw, out, g1, g2, g3, g4, g5, g6⟩ := normal_convergence b hsyn hvar hQ hn hcount hL
    hY ncorr hband hadm hN c hne hlen hrows 1 (fun _ => weights) (fun _ _ => hw)
  obtain ⟨cl, k1, k2, k3⟩ := g6 0 one_pos 0 one_pos
  set K : Ω → Fin npix → ℝ := fun ω => meanConvergence weights (planes ω) with hK
  set L := lmax.getD (3 * nside - 1) with hLd
  set cg := shearSpectrum cl (windowRatio hp nside L discretized) with hcg
  set gamma : Ω → (Fin npix → ℝ) × (Fin npix → ℝ) := fun ω =>
    hp.alm2mapSpin (shearModes hp nside L discretized (K ω)) (fun _ _ => 0) nside 2 L with hgam
  have hlin : ∀ ω x, (⟨(gamma ω).1 x, (gamma ω).2 x⟩ : ℂ) = ∑ p ∈ dom, response W L A
      (fun l => shearFactor l * windowRatio hp nside L discretized l) x p * (K ω p : ℂ) := by
    intro ω x
    rw [← shear_linear W nside hA discretized (K ω) x, ← hW]
  have hKm : ∀ x, AEMeasurable (fun ω => K ω x) P := fun x => (g5 0 one_pos x).1.aemeasurable
  have hKI : ∀ x p, Integrable (fun ω => response W L A
      (fun l => shearFactor l * windowRatio hp nside L discretized l) x p * (K ω p : ℂ)) P :=
    fun x p => ((g5 0 one_pos p).1.ofReal).const_mul _
  have hgm : ∀ x, AEMeasurable (fun ω => (⟨(gamma ω).1 x, (gamma ω).2 x⟩ : ℂ)) P := by
    intro x
    simp only [hlin]
    exact (integrable_finsetSum _ fun p _ => hKI x p).aemeasurable
  have hcorr := fun x x' => shear_correlations hY (W := W) (nside := nside) hA discretized cl k2
    (K := K) (K' := K) (fun p _ p' _ => k3 p p') x x'
  have hfield : ∀ ω x, spinField W L (shearModes hp nside L discretized (K ω)) x =
      ⟨(gamma ω).1 x, (gamma ω).2 x⟩ := fun ω x => (hW _ x).symm
  have hsq : ∀ ω p, ((‖shearAt pix (gamma ω).1 (gamma ω).2 p‖ ^ 2 : ℝ) : ℂ) =
      spinField W L (shearModes hp nside L discretized (K ω)) (pix p) *
        (starRingEnd ℂ) (spinField W L (shearModes hp nside L discretized (K ω)) (pix p)) := by
    intro ω p
    rw [hfield, Complex.mul_conj, Complex.normSq_eq_norm_sq]
    rfl
  have hsI : ∀ p, Integrable (fun ω => ‖shearAt pix (gamma ω).1 (gamma ω).2 p‖ ^ 2) P := by
    intro p
    have h1 := (hcorr (pix p) (pix p)).1.re
    refine h1.congr (ae_of_all _ fun ω => ?_)
    simp only [RCLike.re_eq_complex_re]
    rw [← hsq, Complex.ofReal_re]
  obtain ⟨X, x1, x2, x3, x4⟩ := random_shear hR P hc junk pix hl K (fun ω => (gamma ω).1)
    (fun ω => (gamma ω).2) hKm (fun x => Complex.measurable_re.comp_aemeasurable (hgm x))
    (fun x => Complex.measurable_im.comp_aemeasurable (hgm x)) false (by simp) (fun _ p _ => hsI p)
  refine ⟨M, planes, lw, out, cl, fun ω => (gamma ω).1, fun ω => (gamma ω).2, X, g1, g2,
    g3 0 one_pos, g4, k1, fun ω => ?_, x1, fun i => ?_, fun i j hij => ⟨?_, ?_⟩, fun i => ?_⟩
  · rw [from_convergence_modes]
    simp only [Bool.false_eq_true, if_false, if_true, List.nil_append, hside]
    rfl
  · rw [(x2 i).2]
    have : ∀ ω, meanShear pix (K ω) (gamma ω).1 (gamma ω).2 false lonlat[i] =
        ∑ p ∈ dom, response W L A (fun l => shearFactor l * windowRatio hp nside L discretized l)
          (pix lonlat[i]) p * (K ω p : ℂ) := by
      intro ω
      rw [← hlin]
      rfl
    simp only [this]
    rw [integral_finsetSum _ fun p _ => hKI _ p]
    refine Finset.sum_eq_zero fun p _ => ?_
    rw [integral_const_mul, integral_complex_ofReal, (g5 0 one_pos p).2]
    simp
  · rw [(x3 i j hij).1, ← (hcorr (pix lonlat[i]) (pix lonlat[j])).2.1]
    refine integral_congr_ae (ae_of_all _ fun ω => ?_)
    simp only [hfield, meanShear, Bool.false_eq_true, if_false]
    rfl
  · rw [(x3 i j hij).2, ← (hcorr (pix lonlat[i]) (pix lonlat[j])).2.2.2]
    refine integral_congr_ae (ae_of_all _ fun ω => ?_)
    simp only [hfield, meanShear, Bool.false_eq_true, if_false]
    rfl
  · rw [x4 i]
    simp only [shapeNoise, Bool.false_eq_true, if_false, meanShear]
    rw [integral_add (hsI _) (integrable_const _), integral_const]
    simp only [probReal_univ, one_smul]
    congr 1
    rw [← (hcorr (pix lonlat[i]) (pix lonlat[i])).2.1]
    simp only [← hsq]
    rw [integral_complex_ofReal, Complex.ofReal_re]

/-! ### Galaxies in 14 pixels -/

section Example

open Glass.Lensing Glass.Grf Glass.Spectra Glass.Shells

/-- The phase of the longitude; zero longitude in the poles. -/
noncomputable def quadPhase (x : Fin 14) : ℂ :=
  Complex.exp (Complex.I * (Complex.arg ⟨(quadPoint x).1, (quadPoint x).2.1⟩ : ℝ))

/-- The spin-weighted harmonics of the quadrupole; the others are not needed. -/
noncomputable def quadW (l : ℕ) (m : ℤ) (x : Fin 14) : ℂ :=
  let z := (quadPoint x).2.2
  let s := Real.sqrt (1 - z ^ 2)
  if l = 2 then
    if m = 2 then (Real.sqrt (5 / (64 * Real.pi)) * (1 + z) ^ 2 : ℝ) * quadPhase x ^ 2
    else if m = 1 then (-(Real.sqrt (5 / (64 * Real.pi)) * (2 * s * (1 + z))) : ℝ) * quadPhase x
    else if m = 0 then (Real.sqrt (5 / (64 * Real.pi)) * (Real.sqrt 6 * s ^ 2) : ℝ)
    else if m = -1 then
      (-(Real.sqrt (5 / (64 * Real.pi)) * (2 * s * (1 - z))) : ℝ) * (starRingEnd ℂ) (quadPhase x)
    else if m = -2 then
      (Real.sqrt (5 / (64 * Real.pi)) * (1 - z) ^ 2 : ℝ) * (starRingEnd ℂ) (quadPhase x) ^ 2
    else 0
  else 0

/-- The transforms in 14 pixels, with the synthesis of the spin-2 field. -/
noncomputable def spinHealpix : Healpix (Fin 14 → ℝ) :=
  { quadHealpix with
    alm2mapSpin := fun a _ _ _ L =>
      (fun x => (spinField quadW L a x).re, fun x => (spinField quadW L a x).im) }

theorem quad_spin (x : Fin 14) :
    ∑ m ∈ Finset.Icc (-(2 : ℕ) : ℤ) (2 : ℕ), quadW 2 m x * (starRingEnd ℂ) (quadW 2 m x) =
      ((5 / (4 * Real.pi) : ℝ) : ℂ) := by
  have hz : (quadPoint x).2.2 ^ 2 ≤ 1 := by
    have := quad_unit x
    nlinarith [sq_nonneg (quadPoint x).1, sq_nonneg (quadPoint x).2.1]
  have hs : Real.sqrt (1 - (quadPoint x).2.2 ^ 2) ^ 2 = 1 - (quadPoint x).2.2 ^ 2 :=
    Real.sq_sqrt (by linarith)
  have h6 : Real.sqrt 6 ^ 2 = 6 := Real.sq_sqrt (by norm_num)
  have hpi := Real.pi_pos
  have h5 : Real.sqrt (5 / (64 * Real.pi)) ^ 2 = 5 / (64 * Real.pi) := Real.sq_sqrt (by positivity)
  have hph : Complex.normSq (quadPhase x) = 1 := by
    rw [Complex.normSq_eq_norm_sq, quadPhase, mul_comm, Complex.norm_exp_ofReal_mul_I, one_pow]
  rw [sum_symmetric]
  simp only [Complex.mul_conj, Finset.sum_range_succ, Finset.sum_range_zero]
  rw [← Complex.ofReal_add, zero_add]
  simp only [← Complex.ofReal_add]
  congr 1
  simp only [quadW]
  norm_num [Complex.normSq_mul, Complex.normSq_conj, hph, Complex.normSq_ofReal]
  set z := (quadPoint x).2.2
  set s := Real.sqrt (1 - z ^ 2)
  set q := Real.sqrt (5 / (64 * Real.pi))
  set r := Real.sqrt 6
  have e1 : (1 : ℂ) + (z : ℂ) = ((1 + z : ℝ) : ℂ) := by push_cast; rfl
  have e2 : (1 : ℂ) - (z : ℂ) = ((1 - z : ℝ) : ℂ) := by push_cast; rfl
  rw [e1, e2, Complex.normSq_ofReal, Complex.normSq_ofReal, Real.mul_self_sqrt hpi.le, ← sq s, hs]
  field_simp
  ring

/-- **C148** A case that meets all hypotheses: two shells, where the lensing weight of the first
shell for sources on the second one is `3/4`, and two galaxies in the same pixel.  The mean of the
product of their ellipticities is `5 / (4π) · 2/3 · 9/16 · 2 = 15 / (16π)`. -/
theorem ellipticity_quadrupole (sigma : ℝ) : ∃ (Ω σ : Type) (_ : MeasurableSpace Ω)
    (_ : MeasurableSpace σ) (P : Measure Ω) (μ : Measure σ) (N : Ω → Normals)
    (normal : σ → ℕ → List ℝ × σ)
    (alm2map : List ℂ → Fin 14 → ℝ) (cltovar : List ℝ → ℝ) (M : ℕ → Fin 14 → Ω → ℝ)
    (planes : Ω → List (Fin 14 → ℝ)) (gamma1 gamma2 : Ω → Fin 14 → ℝ) (e1 e2 : Ω × σ → ℂ),
    (∀ ω, ∃ maps, generate .inplace alm2map cltovar (fun t x v p => Transformation.call t (x p) v)
      (N ω) [.normal, .normal] quadSpectra none = (maps, none) ∧ maps.length = 2 ∧
      ∀ i < 2, maps[i]? = some fun p => M i p ω) ∧
    (∀ ω, convergencePlanes (flatCosmology 1 1 (fun z => z) fun z => 1 + z) (fun i p => M i p ω)
      [⟨[(0, 0), (1, 1), (2, 0)], 1⟩, ⟨[(1, 0), (2, 1), (3, 0)], 2⟩] 0 (MPC.init _)
        = .ok (planes ω)) ∧
    (∀ ω, fromConvergence spinHealpix (meanConvergence [0, 1] (planes ω)) none false false true false =
      [.complex (gamma1 ω) (gamma2 ω)]) ∧
    (∀ᵐ z ∂(P.prod μ), ∃ fuel es s', ellipticityGaussian normal (fun _ => 0) fuel z.2
        ⟨[], fun _ => 2⟩ ⟨[], fun _ => sigma⟩ = some (.ok (es, s')) ∧
      galaxyShear 1 (fun _ => 0) (fun _ => (3 : Fin 14)) [(0, 0), (1, 0)] es
        (meanConvergence [0, 1] (planes z.1)) (gamma1 z.1) (gamma2 z.1) false = .ok [e1 z, e2 z]) ∧
    ∫ z, e1 z ∂(P.prod μ) = 0 ∧
    ∫ z, e1 z * (starRingEnd ℂ) (e2 z) ∂(P.prod μ) = ((15 / (16 * Real.pi) : ℝ) : ℂ) ∧
    ∫ z, ‖e1 z‖ ^ 2 ∂(P.prod μ) = 15 / (16 * Real.pi) + ∫ e, ‖e‖ ^ 2 ∂(truncatedNormal sigma) := by
  obtain ⟨rows, hrows, e10, e00, e11⟩ := two_shells
  obtain ⟨Ω, _, P, N, hN⟩ := exists_standardNormals
  have : IsProbabilityMeasure P := hN.indep.isProbabilityMeasure
  obtain ⟨alm2map, hsyn⟩ := exists_synthesis quadY
  obtain ⟨hmax, hadm⟩ := quad_admissible
  obtain ⟨normal, hn⟩ := idealNormal_exists
  have hd : IsBroadcast [[], []] [] := isBroadcast_pair.1 (by rfl)
  have hS := gaussian_samples hn (fun _ => 0) ⟨[], fun _ => 2⟩ ⟨[], fun _ => sigma⟩ hd
  have hobj : (objects (populations ⟨[], fun _ => 2⟩ ⟨[], fun _ => sigma⟩ [])).map truncatedNormal =
      [truncatedNormal sigma, truncatedNormal sigma] := by
    simp [objects, populations, indices, entry, List.replicate]
  rw [hobj] at hS
  obtain ⟨M, planes, lw, out, cl, gamma1, gamma2, X, h1, h2, h3, h4, h5, h6, h7, h8, h9, h10⟩ :=
    ellipticity_correlations .inplace hsyn
    (cltovar := fun cl => ∑ l ∈ Finset.range cl.length, (2 * l + 1) / (4 * Real.pi) * cl[l]?.getD 0)
    (fun _ => rfl) (Q := quadP)
    (fun l p p' => by simp only [quadP]; split_ifs <;> ring)
    (fields := [.normal, .normal]) (by simp) (spectra := quadSpectra) rfl
    (by rw [hmax]; norm_num) (by rw [hmax]; exact quad_harmonics) none
    (by simp only [Option.getD_none, List.length_cons, List.length_nil]; omega) hadm hN
    (flatCosmology 1 1 (fun z => z) fun z => 1 + z)
    (shells := [⟨[(0, 0), (1, 1), (2, 0)], 1⟩, ⟨[(1, 0), (2, 1), (3, 0)], 2⟩]) (by simp) rfl hrows
    [0, 1] two_shells_proper spinHealpix (nside := 1) (fun _ => rfl) none
    (dom := Finset.univ) (A := quadA) (by rw [hmax]; exact quad_analysis) false (W := quadW)
    (fun a x => rfl) hS (chunk := 1) one_pos (fun _ => 0) (fun _ => (3 : Fin 14))
    (lonlat := [(0, 0), (1, 0)]) rfl
  have hlw : lw 0 = [3 / 4, 0] := by
    have hl := (matrix_strictly_lower _ _ _ hrows).1
    rw [List.length_cons, List.length_cons, List.length_nil] at hl
    obtain ⟨r0, r1, rfl⟩ : ∃ r0 r1, rows = [r0, r1] := by
      rcases rows with _ | ⟨r0, _ | ⟨r1, _ | ⟨r2, rest⟩⟩⟩ <;> simp at hl ⊢
    simp only [List.getElem!_cons_zero, List.getElem!_cons_succ] at e10 e00 e11
    simp only [multiPlaneWeights, hrows] at h3
    simp [bind, Except.bind, List.range_succ, e10, e11] at h3
    exact h3.symm
  have hcl : shearSpectrum cl (windowRatio spinHealpix 1 2 false) 2 = 3 / 4 := by
    obtain ⟨out', k1, k2⟩ := effective_auto quadSpectra 2 rfl (weightArray 2 1 lw) rfl 3
    have k3 : effectiveCls quadSpectra (weightArray 2 1 lw) none none =
        effectiveCls quadSpectra (weightArray 2 1 lw) none (some 3) := rfl
    rw [show [Transformation.normal, Transformation.normal].length = 2 from rfl, k3, k1,
      Except.ok.injEq] at h4
    subst h4
    have k4 := k2 [0] [0] ⟨by norm_num, trivial⟩ ⟨by norm_num, trivial⟩
    rw [show ([0] : List ℕ) ++ [0] = [0, 0] from rfl, h5, Option.some.injEq] at k4
    rw [k4]
    simp [shearSpectrum, weightArray, hlw, Finset.sum_range_succ, clValue, quadSpectra,
      List.range_succ, windowRatio]
    norm_num
  have hxi : xiPlus quadW 2 (shearSpectrum cl (windowRatio spinHealpix 1 2 false)) 3 3 =
      ((15 / (16 * Real.pi) : ℝ) : ℂ) := by
    unfold xiPlus
    have hs0 : shearSpectrum cl (windowRatio spinHealpix 1 2 false) 0 = 0 := by simp [shearSpectrum]
    have hs1 : shearSpectrum cl (windowRatio spinHealpix 1 2 false) 1 = 0 := by
      simp [shearSpectrum]; norm_num
    rw [Finset.sum_range_succ, Finset.sum_range_succ, Finset.sum_range_succ, hs0, hs1, hcl, quad_spin]
    have := Real.pi_ne_zero
    simp only [Finset.sum_range_zero, Complex.ofReal_zero, zero_mul, zero_add]
    rw [← Complex.ofReal_mul]
    congr 1
    field_simp
    norm_num
  refine ⟨Ω, _, _, _, P, _, N, normal, alm2map, _, M, planes, gamma1, gamma2, X 0, X 1, h1, h2, h6, ?_,
    h8 0, ?_, ?_⟩
  · filter_upwards [h7] with z hz
    obtain ⟨es, ⟨fuel, s', h11⟩, h12⟩ := hz
    exact ⟨fuel, es, s', h11, h12.trans (by rfl)⟩
  · exact ((h9 0 1 (fun h => absurd (congrArg Fin.val h) (by simp))).1).trans hxi
  · refine (h10 0).trans ?_
    congr 1
    exact (congrArg Complex.re hxi).trans (Complex.ofReal_re _)

end Example

end Glass.Galaxies
