import Verif.Points.Clustering
import Verif.Lensing.Statistics

/-!
# Galaxy-galaxy lensing and clustering of all sampled points (C138)

The numbers of points sampled from matter maps, and the convergence computed from the same maps, have
the spectra that `effective_cls` predicts for the weights of the points and of the convergence.
-/

namespace Glass.Lensing

open Finset MeasureTheory ProbabilityTheory Glass.Spectra Glass.Shells Glass.Grf Glass.Points
  Glass.Sampling

/-! ## Specification -/

/-- The weights of points that are sampled from one shell each, with the biases `b`. -/
def tracerWeights (n : ℕ) (b : ℕ → ℝ) : Weights ℝ :=
  ⟨some n, [n], fun i j => if i = j[0]! then b i else 0⟩

/-- The weights of all points together, with the densities `ngal` and the biases `b` of the
shells. -/
noncomputable def totalWeights (n : ℕ) (ngal b : ℕ → ℝ) : Weights ℝ :=
  ⟨some n, [], fun i _ => ngal i * b i / ∑ k ∈ range n, ngal k⟩

/-! ## Sums over fields -/

section

variable {Ω : Type*} [MeasurableSpace Ω] {P : Measure Ω}

/-- The correlation function of two different sets of weights, cf. `effective_correlation`. -/
theorem effective_correlation_cross {S : Type*} {leg : ℕ → S → S → ℝ} (cls : List (List ℝ)) {n : ℕ}
    (h : cls.length = n * (n + 1) / 2) (w w' : Weights ℝ) (hw : w.n = some n)
    (hw' : w'.n = some n) {M : ℕ → S → Ω → ℝ} :
    ∃ out, effectiveCls cls w (some w') none = .ok out ∧
      ∀ a b, ValidIndex w.shape a → ValidIndex w'.shape b → ∃ cl, out (a ++ b) = some cl ∧
        ∀ p p', (∀ i < n, ∀ j < n, HasMean P (fun ω => M i p ω * M j p' ω)
          (correlation leg ((cls[max i j * (max i j + 1) / 2 + (max i j - min i j)]?).getD [])
            p p')) →
        HasMean P (fun ω => (∑ i ∈ range n, w.val i a * M i p ω) *
          ∑ j ∈ range n, w'.val j b * M j p' ω) (correlation leg cl p p') := by
  obtain ⟨m, hm, hlong, -⟩ := effective_default_lmax cls w (some w')
  obtain ⟨out, h1, h2⟩ := effective_cross cls n h w w' hw hw' m
  refine ⟨out, hm.trans h1, fun a b ha hb => ⟨_, h2 a b ha hb, fun p p' hM => ?_⟩⟩
  rw [correlation_bilinear]
  refine combination_moments (fun i => w.val i a) (fun j => w'.val j b) fun i hi j hj => ?_
  have h3 := hM i hi j hj
  rw [correlation_padded leg _ (m := m)] at h3
  · exact h3
  · rcases hc : cls[max i j * (max i j + 1) / 2 + (max i j - min i j)]? with _ | cl
    · simp
    · exact hlong cl (List.mem_of_getElem? hc)

end

section

variable {Ω σ : Type} [MeasurableSpace Ω] [MeasurableSpace σ] {ι : Type} [DecidableEq ι]

theorem hasMeanMean_sum {κ : Type*} (t : Finset κ) {P : Measure Ω} {μ : Measure σ}
    {f : κ → Ω → σ → ℝ} {m : κ → ℝ} (h : ∀ i ∈ t, HasMeanMean P μ (f i) (m i)) :
    HasMeanMean P μ (fun ω s => ∑ i ∈ t, f i ω s) (∑ i ∈ t, m i) := by
  refine ⟨fun ω => integrable_finsetSum _ fun i hi => (h i hi).1 ω, ?_⟩
  have e : (fun ω => ∫ s, ∑ i ∈ t, f i ω s ∂μ) = fun ω => ∑ i ∈ t, ∫ s, f i ω s ∂μ :=
    funext fun ω => integral_finsetSum _ fun i hi => (h i hi).1 ω
  rw [e]
  exact hasMean_sum t fun i hi => (h i hi).2

/-- **C138.** The number of points that are sampled from random maps, times a random number with
mean zero that is computed from the maps: the mean is the covariance with the map, times the bias
and the mean number. -/
theorem cox_cross {P : Measure Ω} {μ : Measure σ}
    [IsProbabilityMeasure μ] {poisson : σ → List ℝ → List ℕ × σ} (hp : IdealPoisson μ poisson)
    {npix : ℕ} {ngal b : ι → ℝ} {vis : ι → List ℝ} {D : ι → ℕ → Ω → ℝ} {pops : List ι} (batch : ℤ)
    (hn : pops.Nodup) (hvis : ∀ k, (vis k).length = npix) {k : ι} (hk : k ∈ pops)
    (hngal : 0 ≤ ngal k) (hvis0 : ∀ x ∈ vis k, 0 ≤ x) {i : ℕ} (hi : i < npix)
    (hpos : ∀ ω, -1 ≤ b k * D k i ω) {K : Ω → ℝ} (hK : HasMean P K 0) {c : ℝ}
    (hcov : HasMean P (fun ω => D k i ω * K ω) c) :
    HasMeanMean P μ (fun ω s => (numberIn (positionsFromDelta poisson ngal
      (fun k => pixelMap npix fun i => D k i ω) (some b) (some vis) linearBiasMap false batch
      pops s).1 k i : ℝ) * K ω) (meanNumber (ngal k) (vis k)[i]! npix * (b k * c)) := by
  have hlen : ∀ ω k, (contrast (fun k => pixelMap npix fun i => D k i ω) (some b) linearBiasMap
      k).length = npix := fun ω k => by simp [contrast, linearBiasMap, pixelMap]
  have key := fun ω => (number_moments poisson ngal (fun k => pixelMap npix fun i => D k i ω)
    (some b) (some vis) linearBiasMap false batch hp
    (fun v k hv => by injection hv with hv; rw [← hv, hvis, hlen]) hn hk hk
    (by rw [hlen]; exact hi) (by rw [hlen]; exact hi)).1
  simp only [max_expected hvis hngal hvis0 hi (hpos _)] at key
  refine ⟨fun ω => (key ω).1.mul_const _, ?_⟩
  rw [funext fun ω => integral_mul_const _ _, funext fun ω => congrArg (· * K ω) (key ω).2]
  exact ((hK.add (hcov.const_mul (b k))).const_mul (meanNumber (ngal k) (vis k)[i]! npix)).congr
    (fun ω => by ring) (by ring)

end

/-! ## From requested spectra to points and convergence -/

/-- The weights of a mean convergence: it is a sum of the maps of all shells. -/
theorem lensing_weights (c : Cosmology) {shells : List RadialWindow} (hne : shells ≠ [])
    {rows : List (ℕ → ℝ)} (hrows : multiPlaneMatrix c shells = .ok rows) {weights : List ℝ}
    (hw : Proper c weights shells) :
    ∃ lw, multiPlaneWeights c weights shells = .ok lw ∧
      ∀ {S : Type} (delta : ℕ → S → ℝ), ∃ planes,
        convergencePlanes c delta shells 0 (MPC.init S) = .ok planes ∧
        ∀ p, meanConvergence weights planes p = ∑ k ∈ range shells.length, lw[k]! * delta k p := by
  have h1 : ∃ lw, multiPlaneWeights c weights shells = .ok lw :=
    ⟨_, by simp only [multiPlaneWeights, hw.length, ne_eq, not_true_eq_false, if_false, hrows]; rfl⟩
  obtain ⟨lw, hlw⟩ := h1
  refine ⟨lw, hlw, fun {S} delta => ?_⟩
  obtain ⟨planes, hplanes⟩ := planes_exist c hne hrows delta
  refine ⟨planes, hplanes, fun p => ?_⟩
  obtain ⟨lw', e1, -, e2⟩ := weights_adjoint c delta weights shells hne hw planes hplanes
  rw [hlw, Except.ok.injEq] at e1
  subst e1
  exact (e2 p).symm

/-- **C138.** Let maps be sampled for the Gaussian spectra of requested spectra, one for each shell.
Let points be sampled from the maps with linear biases such that the biased contrast does not fall
below -1, and let the mean convergence of a population of sources be computed from the same maps.

* The number of points of shell `k` in a pixel has as its covariance with the convergence at a
  point the mean number times the correlation function of the spectrum that `effective_cls` computes
  from the requested spectra, the bias, and the weights of `multi_plane_weights`.
* With the same visibility for all shells, the same holds for the number of all points, with the
  product of density and bias of each shell relative to the total density as the weights;
* and the covariance of the numbers of all points in two pixels is that of the spectrum for these
  weights, and in addition the mean number if the pixels are the same. -/
theorem galaxy_lensing {Ω σ : Type} [MeasurableSpace Ω] [MeasurableSpace σ] {S : Type}
    (back : Backend) {Y : ℕ → ℕ → S → ℂ} {leg : ℕ → S → S → ℝ} {alm2map : List ℂ → S → ℝ}
    (hsyn : IsSynthesis Y alm2map) {cltovar : List ℝ → ℝ} (hvar : IsVariance cltovar)
    {cltocorr corrtocl : List ℝ → List ℝ} (ht : TransformLaw cltocorr corrtocl)
    {sep : ℕ → ℕ → S → S → Prop} (hcorr : IsCorrelation leg sep cltocorr)
    (hleg : ∀ l p p', leg l p p' = leg l p' p)
    {fields : List Transformation} {spectra gls : List (List ℝ)}
    (hr : Realisable cltocorr fields spectra)
    (hg : computeGaussianSpectra (fun cl t1 t2 => compute cltocorr corrtocl cl t1 (some t2))
      fields spectra = .ok gls)
    (hL : 0 < maxLength gls) (hY : Harmonics (maxLength gls) Y leg)
    (ncorr : Option ℕ)
    (hband : ∀ i < fields.length, ∀ j, ncorr.getD (fields.length - 1) + j < i →
      spectra[i * (i + 1) / 2 + (i - j)]? = some [])
    (hadm : ∀ l < maxLength gls,
      Admissible fields.length (modeCov gls (ncorr.getD (fields.length - 1)) l))
    (hfit : ∀ i (hi : i < fields.length), VarianceFits fields[i]
      (cltovar ((gls[i * (i + 1) / 2]?).getD [])))
    {P : Measure Ω} [IsProbabilityMeasure P] {X : Ω → Normals} (hX : StandardNormals P X)
    -- the points
    {μ : Measure σ} [IsProbabilityMeasure μ] {poisson : σ → List ℝ → List ℕ × σ}
    (hp : IdealPoisson μ poisson) {npix : ℕ} (centre : ℕ → S) {ngal b : ℕ → ℝ} {vis : ℕ → List ℝ}
    (batch : ℤ) (hvis : ∀ k, (vis k).length = npix) (hngal : ∀ k < fields.length, 0 ≤ ngal k)
    (hvis0 : ∀ k < fields.length, ∀ x ∈ vis k, 0 ≤ x)
    (hlow : ∀ k (hk : k < fields.length) x v, -1 ≤ b k * Transformation.call fields[k] x v)
    -- the convergence
    (c : Cosmology) {shells : List RadialWindow} (hne : shells ≠ [])
    (hlen : shells.length = fields.length) {rows : List (ℕ → ℝ)}
    (hrows : multiPlaneMatrix c shells = .ok rows) {weights : List ℝ}
    (hw : Proper c weights shells) :
    ∃ (M : ℕ → S → Ω → ℝ) (planes : Ω → List (S → ℝ)) (lw : List ℝ) (cross total auto : Out ℝ),
      (∀ ω, ∃ maps, generate back alm2map cltovar (fun t x v p => Transformation.call t (x p) v)
          (X ω) fields gls ncorr = (maps, none) ∧ maps.length = fields.length ∧
        ∀ i < fields.length, maps[i]? = some fun p => M i p ω) ∧
      (∀ ω, convergencePlanes c (fun i p => M i p ω) shells 0 (MPC.init S) = .ok (planes ω)) ∧
      multiPlaneWeights c weights shells = .ok lw ∧
      effectiveCls spectra (tracerWeights fields.length b)
        (some (weightArray fields.length 1 fun _ => lw)) none = .ok cross ∧
      effectiveCls spectra (totalWeights fields.length ngal b)
        (some (weightArray fields.length 1 fun _ => lw)) none = .ok total ∧
      effectiveCls spectra (totalWeights fields.length ngal b) none none = .ok auto ∧
      let N := fun ω s k i => (numberIn (positionsFromDelta poisson ngal
        (fun k => pixelMap npix fun i => M k (centre i) ω) (some b) (some vis) linearBiasMap false
        batch (List.range fields.length) s).1 k i : ℝ)
      let n := fun k i => meanNumber (ngal k) (vis k)[i]! npix
      let kappa := fun ω p => meanConvergence weights (planes ω) p
      let separated := fun p p' => ∀ cl ∈ spectra, cl ≠ [] →
        (∃ q < cl.length, sep cl.length q p p') ∧
        ∃ q < cl.length, sep cl.length q p' p
      (∀ k < fields.length, ∃ cl, cross [k, 0] = some cl ∧
        ∀ i < npix, ∀ p, separated (centre i) p →
          HasMeanMean P μ (fun ω s => N ω s k i * kappa ω p)
            (n k i * correlation leg cl (centre i) p)) ∧
      ((∀ k, vis k = vis 0) → ∑ k ∈ range fields.length, ngal k ≠ 0 →
        let nt := fun i => meanNumber (∑ k ∈ range fields.length, ngal k) (vis 0)[i]! npix
        let Nt := fun ω s i => ∑ k ∈ range fields.length, N ω s k i
        (∃ cl, total [0] = some cl ∧ ∀ i < npix, ∀ p, separated (centre i) p →
          HasMeanMean P μ (fun ω s => Nt ω s i * kappa ω p)
            (nt i * correlation leg cl (centre i) p)) ∧
        ∃ cl, auto [] = some cl ∧ ∀ i < npix, HasMeanMean P μ (fun ω s => Nt ω s i) (nt i) ∧
          ∀ j < npix, separated (centre i) (centre j) →
            HasMeanMean P μ (fun ω s => Nt ω s i * Nt ω s j)
              (nt i * nt j * (1 + correlation leg cl (centre i) (centre j)) +
                if i = j then nt i else 0)) := by
  obtain ⟨M, h1, h2, h3, h4⟩ := generate_requested_all back hsyn hvar ht hcorr hr hg hL hY ncorr
    hband hadm hfit hX
  obtain ⟨lw, hlw, hpl⟩ := lensing_weights c hne hrows hw
  choose planes hplanes hkappa using fun ω => hpl (fun i p => M i p ω)
  have hcount : spectra.length = fields.length * (fields.length + 1) / 2 := hr.count
  obtain ⟨cross, c1, c2⟩ := effective_correlation_cross (P := P) (leg := leg) (M := M) spectra
    hcount (tracerWeights fields.length b) (weightArray fields.length 1 fun _ => lw) rfl rfl
  obtain ⟨total, t1, t2⟩ := effective_correlation_cross (P := P) (leg := leg) (M := M) spectra
    hcount (totalWeights fields.length ngal b) (weightArray fields.length 1 fun _ => lw) rfl rfl
  obtain ⟨m, hm, hlong, -⟩ := effective_default_lmax spectra (totalWeights fields.length ngal b)
    none
  obtain ⟨auto, a1, a2⟩ := effective_auto spectra fields.length hcount
    (totalWeights fields.length ngal b) rfl m
  refine ⟨M, planes, lw, cross, total, auto, h1, hplanes, hlw, c1, t1, hm.trans a1, ?_⟩
  intro N n kappa separated
  have key : ∀ p p', separated p p' → ∀ i < fields.length, ∀ j < fields.length,
      HasMean P (fun ω => M i p ω * M j p' ω) (correlation leg
        ((spectra[max i j * (max i j + 1) / 2 + (max i j - min i j)]?).getD []) p p') := by
    intro p p' hs i hi j hj
    rcases le_total j i with hji | hij
    · obtain ⟨cl, e1, e2⟩ := h4 i hi j hji
      rw [max_eq_left hji, min_eq_right hji, e1]
      exact e2 p p' fun hc => (hs cl (List.mem_of_getElem? e1) hc).1
    · obtain ⟨cl, e1, e2⟩ := h4 j hj i hij
      rw [max_eq_right hij, min_eq_left hij, e1]
      refine (e2 p' p fun hc => (hs cl (List.mem_of_getElem? e1) hc).2).congr
        (fun ω => mul_comm _ _) ?_
      exact correlation_symm hleg cl p' p
  have hpos : ∀ k ∈ List.range fields.length, ∀ i < npix, ∀ ω, -1 ≤ b k * M k (centre i) ω := by
    intro k hk i _ ω
    have hk' := List.mem_range.1 hk
    obtain ⟨x, v, e⟩ := h2 k hk' (centre i) ω
    rw [e]
    exact hlow k hk' x v
  have hmean : ∀ k ∈ List.range fields.length, ∀ i < npix, HasMean P (M k (centre i)) 0 :=
    fun k hk i _ => h3 k (List.mem_range.1 hk) (centre i)
  have hK : ∀ p, HasMean P (fun ω => kappa ω p) 0 := by
    intro p
    refine (hasMean_sum (range fields.length) fun k hk =>
      (h3 k (mem_range.1 hk) p).const_mul (lw[k]!)).congr (fun ω => ?_) (by simp)
    rw [← hlen]
    exact (hkappa ω p).symm
  -- one shell
  have one : ∀ k < fields.length, ∀ i < npix, ∀ p (c : ℝ),
      HasMean P (fun ω => M k (centre i) ω * kappa ω p) c →
      HasMeanMean P μ (fun ω s => N ω s k i * kappa ω p) (n k i * (b k * c)) :=
    fun k hk i hi p c hc => cox_cross hp (D := fun k i => M k (centre i)) batch List.nodup_range
      hvis (List.mem_range.2 hk) (hngal k hk) (hvis0 k hk) hi (hpos k (List.mem_range.2 hk) i hi)
      (hK p) hc
  have cov : ∀ p p', separated p p' → ∀ k < fields.length,
      ∃ c, HasMean P (fun ω => M k p ω * kappa ω p') c := by
    intro p p' hs k hk
    refine ⟨_, (hasMean_sum (range fields.length) fun j hj =>
      (key p p' hs k hk j (mem_range.1 hj)).const_mul (lw[j]!)).congr (fun ω => ?_) rfl⟩
    rw [show kappa ω p' = _ from hkappa ω p', hlen, mul_sum]
    exact sum_congr rfl fun j _ => by ring
  refine ⟨fun k hk => ?_, fun hv hsum => ?_⟩
  · obtain ⟨cl, e1, e2⟩ := c2 [k] [0] ⟨hk, trivial⟩ ⟨Nat.one_pos, trivial⟩
    refine ⟨cl, e1, fun i hi p hs => ?_⟩
    obtain ⟨x, hx⟩ := cov _ _ hs k hk
    have g := e2 _ _ (key _ _ hs)
    have g' : HasMean P (fun ω => b k * (M k (centre i) ω * kappa ω p))
        (correlation leg cl (centre i) p) := by
      refine g.congr (fun ω => ?_) rfl
      rw [show kappa ω p = _ from hkappa ω p, hlen, ← mul_assoc]
      congr 1
      rw [sum_eq_single k (fun j _ hj => by simp [tracerWeights, hj])
        (fun h => absurd (mem_range.2 hk) h)]
      simp [tracerWeights]
    rw [← g'.2, (hx.const_mul (b k)).2]
    exact one k hk i hi p x hx
  · intro nt Nt
    have hnt : ∀ k i, n k i = meanNumber (ngal k) (vis 0)[i]! npix := by
      intro k i
      simp only [n, hv k]
    have hfac : ∀ k i, n k i = nt i * (ngal k / ∑ k ∈ range fields.length, ngal k) := by
      intro k i
      rw [hnt]
      simp only [nt, meanNumber]
      field_simp
    refine ⟨?_, ?_⟩
    · obtain ⟨cl, e1, e2⟩ := t2 [] [0] trivial ⟨Nat.one_pos, trivial⟩
      refine ⟨cl, e1, fun i hi p hs => ?_⟩
      choose! x hx using cov _ _ hs
      have g := e2 _ _ (key _ _ hs)
      have g' := (hasMean_sum (range fields.length) fun k hk =>
        (hx k (mem_range.1 hk)).const_mul ((totalWeights fields.length ngal b).val k []))
      have e : correlation leg cl (centre i) p = ∑ k ∈ range fields.length,
          (totalWeights fields.length ngal b).val k [] * x k := by
        rw [← g.2, ← g'.2]
        congr 1
        funext ω
        dsimp only
        rw [show kappa ω p = _ from hkappa ω p, hlen, sum_mul]
        exact sum_congr rfl fun k _ => by rw [mul_assoc]; rfl
      rw [e, mul_sum]
      have := hasMeanMean_sum (range fields.length) fun k hk =>
        one k (mem_range.1 hk) i hi p (x k) (hx k (mem_range.1 hk))
      have e' : ∀ k, nt i * ((totalWeights fields.length ngal b).val k [] * x k) =
          n k i * (b k * x k) := by
        intro k
        rw [hfac]
        simp only [totalWeights]
        ring
      simp only [e']
      simpa only [Nt, sum_mul] using this
    · refine ⟨_, a2 [] [] trivial trivial, fun i hi => ⟨?_, fun j hj hs => ?_⟩⟩
      · have := hasMeanMean_sum (range fields.length) fun k hk =>
          cox_mean hp (D := fun k i => M k (centre i)) batch List.nodup_range hvis
            (List.mem_range.2 (mem_range.1 hk)) (hngal k (mem_range.1 hk))
            (hvis0 k (mem_range.1 hk)) hi
            (hpos k (List.mem_range.2 (mem_range.1 hk)) i hi) (h3 k (mem_range.1 hk) _)
        have e : nt i = ∑ k ∈ range fields.length, n k i := by
          rw [sum_congr rfl fun k _ => hfac k i, ← mul_sum, ← sum_div, div_self hsum, mul_one]
        rw [e]
        exact this
      · rw [correlation_bilinear]
        have e0 : ∀ k < fields.length, ∀ l < fields.length, HasMean P
            (fun ω => M k (centre i) ω * M l (centre j) ω) (∑ q ∈ range m, (2 * q + 1) /
              (4 * Real.pi) * clValue spectra k l q * leg q (centre i) (centre j)) := by
          intro k hk l hl
          have h5 := key _ _ hs k hk l hl
          rw [correlation_padded leg _ (m := m)] at h5
          · exact h5
          · rcases hc : spectra[max k l * (max k l + 1) / 2 + (max k l - min k l)]? with _ | cl
            · simp
            · exact hlong cl (List.mem_of_getElem? hc)
        have := hasMeanMean_sum (range fields.length) fun k hk =>
          hasMeanMean_sum (range fields.length) fun l hl =>
            cox_product hp (D := fun k i => M k (centre i)) batch List.nodup_range hvis
              (fun k hk => hngal k (List.mem_range.1 hk))
              (fun k hk => hvis0 k (List.mem_range.1 hk)) hpos hmean
              (List.mem_range.2 (mem_range.1 hk)) (List.mem_range.2 (mem_range.1 hl)) hi hj
              (e0 k (mem_range.1 hk) l (mem_range.1 hl))
        have hs1 : ∀ i, ∑ k ∈ range fields.length, n k i = nt i := by
          intro i
          rw [sum_congr rfl fun k _ => hfac k i, ← mul_sum, ← sum_div, div_self hsum, mul_one]
        have hite : ∑ k ∈ range fields.length, ∑ l ∈ range fields.length,
            (if k = l ∧ i = j then n k i else 0) = if i = j then nt i else 0 := by
          by_cases hij : i = j
          · simp only [hij, and_true, if_true]
            rw [← hs1 j]
            refine sum_congr rfl fun k hk => ?_
            rw [sum_ite_eq, if_pos hk]
          · simp [hij]
        have hval : nt i * nt j * (1 + ∑ k ∈ range fields.length, ∑ l ∈ range fields.length,
            (totalWeights fields.length ngal b).val k [] *
              (totalWeights fields.length ngal b).val l [] *
              ∑ q ∈ range m, (2 * q + 1) / (4 * Real.pi) * clValue spectra k l q *
                leg q (centre i) (centre j)) + (if i = j then nt i else 0) =
            ∑ k ∈ range fields.length, ∑ l ∈ range fields.length,
              (n k i * n l j * (1 + b k * b l * ∑ q ∈ range m, (2 * q + 1) / (4 * Real.pi) *
                clValue spectra k l q * leg q (centre i) (centre j)) +
                if k = l ∧ i = j then n k i else 0) := by
          simp only [sum_add_distrib, mul_add, mul_one]
          rw [hite, ← sum_mul_sum, hs1, hs1, mul_sum]
          congr 2
          refine sum_congr rfl fun k _ => ?_
          rw [mul_sum]
          refine sum_congr rfl fun l _ => ?_
          rw [hfac k i, hfac l j]
          simp only [totalWeights]
          ring
        rw [hval]
        simp only [Nt, sum_mul_sum]
        exact this

/-! ### A case that meets all hypotheses -/

/-- The spectra of two constant lognormal fields, the Gaussian spectra of which are
`constantSpectra`. -/
noncomputable def lognormalSpectra : List (List ℝ) :=
  [[4 * Real.pi * (Real.exp 1 - 1)], [4 * Real.pi * (Real.exp 1 - 1)],
    [4 * Real.pi * (Real.exp (1 / 2) - 1)]]

theorem constant_lognormal :
    Realisable dipoleCorr [.lognormal 1, .lognormal 1] lognormalSpectra ∧
    computeGaussianSpectra (fun cl t1 t2 => compute dipoleCorr dipoleCl cl t1 (some t2))
      [.lognormal 1, .lognormal 1] lognormalSpectra = .ok constantSpectra := by
  have hpi := Real.pi_ne_zero
  have hd : ∀ x : ℝ, dipoleCorr [4 * Real.pi * (Real.exp x - 1)] = [Real.exp x - 1] := by
    intro x
    simp only [dipoleCorr, List.cons.injEq, and_true]
    field_simp
  have hd1 := hd 1
  have hd2 := hd (1 / 2)
  refine ⟨⟨rfl, by simp [NonDegenerate], ?_⟩, ?_⟩
  · intro i j hi hj cl hcl hne
    have hi2 : i < 2 := hi
    have hcl' : ∃ x, cl = [4 * Real.pi * (Real.exp x - 1)] := by
      have := List.mem_of_getElem? hcl
      simp only [lognormalSpectra, List.mem_cons, List.not_mem_nil, or_false] at this
      rcases this with h | h | h
      · exact ⟨_, h⟩
      · exact ⟨_, h⟩
      · exact ⟨_, h⟩
    obtain ⟨x, rfl⟩ := hcl'
    have hall : ∀ k (hk : k < [Transformation.lognormal 1, .lognormal 1].length),
        [Transformation.lognormal 1, .lognormal 1][k] = .lognormal 1 := by
      intro k hk
      have hk2 : k < 2 := hk
      interval_cases k <;> rfl
    rw [hall, hall, hd]
    refine ⟨trivial, fun y hy => ?_⟩
    simp only [List.mem_cons, List.not_mem_nil, or_false] at hy
    rw [hy]
    simp [TargetDom]
    positivity
  · rw [compute_gaussian_spec]
    refine ⟨rfl, rfl, ?_⟩
    intro i j hi hj
    have hi2 : i < 2 := hi
    interval_cases i <;> interval_cases j <;>
      refine ⟨_, _, rfl, rfl, fun h => by simp at h, fun _ => ?_⟩ <;>
      · unfold compute
        simp only [hd1, hd2]
        simp [icorrList, dispatch, arrayM, Transformation.icorrM, log1p, dipoleCl]
        try ring

/-- Two shells with lognormal fields, where the lensing weight of the first shell for sources on the
second one is `3/4`: the points of the first shell have the covariance `3/4 (e - 1)` with the
convergence of these sources. -/
example : ∃ (Ω σ : Type) (_ : MeasurableSpace Ω) (_ : MeasurableSpace σ) (P : Measure Ω)
    (μ : Measure σ) (poisson : σ → List ℝ → List ℕ × σ)
    (M : ℕ → {v : ℝ × ℝ × ℝ // v.1 ^ 2 + v.2.1 ^ 2 + v.2.2 ^ 2 = 1} → Ω → ℝ)
    (planes : Ω → List (_ → ℝ)) (p : _),
    (∀ ω, convergencePlanes (flatCosmology 1 1 (fun z => z) fun z => 1 + z) (fun i p => M i p ω)
      [⟨[(0, 0), (1, 1), (2, 0)], 1⟩, ⟨[(1, 0), (2, 1), (3, 0)], 2⟩] 0 (MPC.init _)
        = .ok (planes ω)) ∧
    HasMeanMean P μ (fun ω s => (numberIn (positionsFromDelta poisson (fun _ => 1)
      (fun k => pixelMap 1 fun _ => M k p ω) (some fun _ => 1) (some fun _ => [1])
      linearBiasMap false 1000 [0, 1] s).1 0 0 : ℝ) * meanConvergence [0, 1] (planes ω) p)
      (meanNumber 1 1 1 * (3 / 4 * (Real.exp 1 - 1))) := by
  obtain ⟨rows, hrows, e10, e00, e11⟩ := two_shells
  obtain ⟨Ω, mΩ, P, X, hX⟩ := exists_standardNormals
  have := hX.indep.isProbabilityMeasure
  obtain ⟨σ, mσ, μ, hμ, poisson, hp⟩ := idealPoisson_exists
  obtain ⟨alm2map, hsyn⟩ := exists_synthesis dipoleY
  obtain ⟨hr, hg⟩ := constant_lognormal
  obtain ⟨-, -, hmax, hadm⟩ := constant_normal
  have hY : Harmonics 1 dipoleY fun l p q =>
      if l = 0 then 1 else p.1.1 * q.1.1 + p.1.2.1 * q.1.2.1 + p.1.2.2 * q.1.2.2 :=
    ⟨fun l hl => dipole_harmonics.real l (by omega),
      fun l hl => dipole_harmonics.addition l (by omega),
      fun l hl => dipole_harmonics.point l (by omega)⟩
  have hall : ∀ k (hk : k < [Transformation.lognormal 1, .lognormal 1].length),
      [Transformation.lognormal 1, .lognormal 1][k] = .lognormal 1 := by
    intro k hk
    have hk2 : k < 2 := hk
    interval_cases k <;> rfl
  obtain ⟨M, planes, lw, cross, total, auto, -, h2, h3, h4, -, -, h5, -⟩ := galaxy_lensing .inplace hsyn
    (cltovar := fun cl => ∑ l ∈ range cl.length, (2 * l + 1) / (4 * Real.pi) * cl[l]?.getD 0)
    (fun _ => rfl) dipole_transform dipole_correlation
    (fun l p p' => by split <;> ring) hr hg (by rw [hmax]; norm_num) (by rw [hmax]; exact hY) none
    (by simp only [Option.getD_none, List.length_cons, List.length_nil]; omega) hadm
    (by
      intro i hi
      rw [hall]
      trivial) hX hp (npix := 1) (fun _ => ⟨(1, 0, 0), by norm_num⟩) (ngal := fun _ => 1) (b := fun _ => 1)
    (vis := fun _ => [1]) 1000 (fun _ => rfl) (by simp) (by simp)
    (fun k hk x v => by
      rw [hall]
      exact lognormal_bounded (by norm_num) (by norm_num) (by norm_num) x v)
    (flatCosmology 1 1 (fun z => z) fun z => 1 + z)
    (shells := [⟨[(0, 0), (1, 1), (2, 0)], 1⟩, ⟨[(1, 0), (2, 1), (3, 0)], 2⟩]) (by simp) rfl hrows
    (weights := [0, 1]) two_shells_proper
  obtain ⟨cl, g1, g2⟩ := h5 0 (by norm_num)
  have g3 := g2 0 (by norm_num) ⟨(1, 0, 0), by norm_num⟩ (by
    intro cl hcl _
    have : cl.length = 1 := by
      simp only [lognormalSpectra, List.mem_cons, List.not_mem_nil, or_false] at hcl
      rcases hcl with rfl | rfl | rfl <;> rfl
    rw [this]
    exact ⟨⟨0, by norm_num, .inl rfl⟩, 0, by norm_num, .inl rfl⟩)
  have hlw : lw = [3 / 4, 0] := by
    have hl := (matrix_strictly_lower _ _ _ hrows).1
    rw [List.length_cons, List.length_cons, List.length_nil] at hl
    obtain ⟨r0, r1, rfl⟩ : ∃ r0 r1, rows = [r0, r1] := by
      rcases rows with _ | ⟨r0, _ | ⟨r1, _ | ⟨r2, rest⟩⟩⟩ <;> simp at hl ⊢
    simp only [List.getElem!_cons_zero, List.getElem!_cons_succ] at e10 e00 e11
    simp only [multiPlaneWeights, hrows] at h3
    simp [bind, Except.bind, List.range_succ, e10, e11] at h3
    exact h3.symm
  obtain ⟨out', k1, k2⟩ := effective_cross lognormalSpectra 2 rfl (tracerWeights 2 fun _ => 1)
    (weightArray 2 1 fun _ => lw) rfl rfl 1
  have k3 : effectiveCls lognormalSpectra (tracerWeights 2 fun _ => 1)
      (some (weightArray 2 1 fun _ => lw)) none = effectiveCls lognormalSpectra
        (tracerWeights 2 fun _ => 1) (some (weightArray 2 1 fun _ => lw)) (some 1) := rfl
  rw [show [Transformation.lognormal 1, Transformation.lognormal 1].length = 2 from rfl, k3, k1,
    Except.ok.injEq] at h4
  subst h4
  have k4 := k2 [0] [0] ⟨by norm_num, trivial⟩ ⟨by norm_num, trivial⟩
  rw [show ([0] : List ℕ) ++ [0] = [0, 0] from rfl, g1, Option.some.injEq] at k4
  refine ⟨Ω, σ, mΩ, mσ, P, μ, poisson, M, planes, ⟨(1, 0, 0), by norm_num⟩, h2, ?_⟩
  have k5 : correlation (fun l (p q : {v : ℝ × ℝ × ℝ // v.1 ^ 2 + v.2.1 ^ 2 + v.2.2 ^ 2 = 1}) =>
      if l = 0 then 1 else p.1.1 * q.1.1 + p.1.2.1 * q.1.2.1 + p.1.2.2 * q.1.2.2) cl
      ⟨(1, 0, 0), by norm_num⟩ ⟨(1, 0, 0), by norm_num⟩ = 3 / 4 * (Real.exp 1 - 1) := by
    rw [k4]
    have hpi := Real.pi_ne_zero
    simp [correlation, weightArray, tracerWeights, hlw, sum_range_succ, clValue, lognormalSpectra,
      List.range_succ]
    field_simp
  rw [k5] at g3
  simpa [List.range_succ] using g3

end Glass.Lensing
