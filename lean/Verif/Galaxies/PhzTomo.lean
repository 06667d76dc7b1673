import Verif.Galaxies.PhzLaw
import Verif.Observations.TomoProps

/-!
# Tomographic distributions of sampled photometric redshifts (C139)

The frequencies with which the photometric redshifts of `gaussian_phz` fall into redshift bins are
the weights of `tomo_nz_gausserr`.
-/

namespace Glass.Galaxies

open Glass Glass.Arrays NdArray Glass.Sampling Glass.Shapes Glass.Obs MeasureTheory ProbabilityTheory
open scoped ENNReal NNReal

/-! ## One galaxy -/

theorem allowed_default (idx : List ℕ) : allowed none none idx = Set.Ici 0 := by
  ext v
  simp [allowed, lowerOf, upperOf]

/-- **C139.** The law of a photometric redshift with the default bounds gives a bin the probability
of `tomo_nz_gausserr`. -/
theorem truncated_bin {sigma_0 z : ℝ} (hs : 0 < sigma_0) (hz : -1 < z) {bin : ℝ × ℝ}
    (h0 : 0 ≤ bin.1) (idx : List ℕ) :
    truncated z ((1 + z) * sigma_0) (allowed none none idx) (Set.Ico bin.1 bin.2) =
      ENNReal.ofReal (binProbability sigma_0 z bin) := by
  have hsd : 0 ≤ (1 + z) * sigma_0 := mul_nonneg (by linarith) hs.le
  have hv : ((1 + z) * sigma_0).toNNReal ^ 2 = ⟨(sigma_0 * (1 + z)) ^ 2, sq_nonneg _⟩ := by
    apply NNReal.eq
    rw [NNReal.coe_pow, Real.coe_toNNReal _ hsd]
    show ((1 + z) * sigma_0) ^ 2 = (sigma_0 * (1 + z)) ^ 2
    ring
  have : IsProbabilityMeasure (observedRedshift sigma_0 z) :=
    instIsProbabilityMeasureGaussianReal _ _
  have hobs : gaussianReal z (((1 + z) * sigma_0).toNNReal ^ 2) = observedRedshift sigma_0 z := by
    rw [hv, observedRedshift]
  have hsub : Set.Ici (0 : ℝ) ∩ Set.Ico bin.1 bin.2 = Set.Ico bin.1 bin.2 :=
    Set.inter_eq_right.2 fun x hx => h0.trans hx.1
  rw [truncated, allowed_default, hobs, cond_apply measurableSet_Ici, hsub, binProbability,
    ENNReal.ofReal_div_of_pos (observed_pos hs hz), ofReal_measureReal, ofReal_measureReal,
    div_eq_mul_inv, mul_comm]

/-! ## Catalogues -/

section

variable {σ : Type} [MeasurableSpace σ]

theorem isBroadcast_scalar (d : List ℕ) : IsBroadcast [d, []] d :=
  ⟨by simp, by simp +contextual, fun j n hn => ⟨d, by simp, hn⟩⟩

theorem forall₂_map_set {α β : Type} {f : β → Set α} {l : List α} {m : List β} :
    List.Forall₂ (fun v j => v ∈ f j) l m ↔ List.Forall₂ (fun v A => v ∈ A) l (m.map f) := by
  rw [List.forall₂_map_right_iff]

/-- **C139.** Let photometric redshifts be sampled for a catalogue of redshifts `z`, with the same
error `sigma_0` and the default bounds, and let `sel` assign a bin to each galaxy.  The probability
that all photometric redshifts are in the bins of `sel` is the product of the entries of
`tomo_nz_gausserr` for these bins, with the density one. -/
theorem photometric_bins {μ : Measure σ} [IsProbabilityMeasure μ] {normal : Normal σ}
    (hn : IdealNormalArrays μ normal) {z : NdArray ℝ} {sigma_0 : ℝ} (hs : 0 < sigma_0)
    (hz : ∀ t ∈ z.ravel, -1 < t) {zbins : List (ℝ × ℝ)} (hne : zbins ≠ [])
    (hb : ∀ b ∈ zbins, 0 ≤ b.1 ∧ b.1 ≤ b.2) {sel : List ℕ} (hsel : sel.length = z.ravel.length)
    (hsel' : ∀ j ∈ sel, j < zbins.length) :
    ∃ (rows : List (List (Option ℝ))) (w : List ℝ),
      tomoNzGausserr z.ravel (z.ravel.map fun _ => 1) sigma_0 zbins = .ok rows ∧
      w.length = z.ravel.length ∧
      (∀ i < z.ravel.length, ∃ r, rows[sel[i]!]? = some r ∧ r[i]? = some (some w[i]!)) ∧
      μ {s | ∃ fuel r s', gaussianPhz normal fuel s z ⟨[], fun _ => sigma_0⟩ none none =
          some (.ok (r, s')) ∧ List.Forall₂ (fun (v : ℝ) j => zbins[j]!.1 ≤ v ∧ v < zbins[j]!.2)
            r.ravel sel} = (w.map ENNReal.ofReal).prod := by
  obtain ⟨rows, h1, -, h3⟩ := tomo_nz_spec (z := z.ravel) (nz := z.ravel.map fun _ => 1) (by simp)
    hs hz hne fun b hb' => (hb b hb').2
  have hlen : z.ravel.length = z.shape.prod := by
    rw [ravel, List.length_map, indices_length]
  refine ⟨rows, List.zipWith (fun t j => binProbability sigma_0 t zbins[j]!) z.ravel sel, h1,
    by simp [hsel], fun i hi => ?_, ?_⟩
  · have hi' : i < sel.length := by rw [hsel]; exact hi
    have hj : sel[i] < zbins.length := hsel' _ (List.getElem_mem hi')
    rw [getElem!_pos sel i hi']
    obtain ⟨r, e1, -, e2⟩ := h3 sel[i] _ (List.getElem?_eq_getElem hj)
    refine ⟨r, e1, ?_⟩
    rw [e2 i z.ravel[i] 1 (List.getElem?_eq_getElem hi) (by simp [hi]), mul_one,
      getElem!_pos (List.zipWith _ _ _) i (by simp [hi, hi']), List.getElem_zipWith,
      getElem!_pos zbins _ hj]
  · have h := gaussian_phz_law hn (z := z) (sigma0 := ⟨[], fun _ => sigma_0⟩) (lower := none)
      (upper := none) (isBroadcast_scalar z.shape) (by simp [BoundsFit, boundShapes])
      (fun e he idx hi => EReal.coe_lt_top 0)
      (fun idx hi => by
        have h4 := hz (entry z idx) (by
          rw [entry_self hi]; exact List.mem_map_of_mem hi)
        exact mul_nonneg (by linarith) hs.le)
      (As := sel.map fun j => Set.Ico zbins[j]!.1 zbins[j]!.2) (by simp [hsel, hlen])
      (fun A hA => by
        obtain ⟨j, -, rfl⟩ := List.mem_map.1 hA
        exact measurableSet_Ico) MeasurableSet.univ
    rw [measure_univ, mul_one] at h
    simp only [← forall₂_map_set, Set.mem_univ, and_true] at h
    refine h.trans ?_
    congr 1
    rw [List.map_zipWith, List.zipWith_map_right, ravel, List.zipWith_map_left]
    refine List.ext_getElem? fun i => ?_
    rw [List.getElem?_zipWith, List.getElem?_zipWith]
    rcases hidx : (indices z.shape)[i]? with _ | idx
    · rfl
    rcases hj : sel[i]? with _ | j
    · rfl
    simp only [Option.some.injEq]
    have hm := List.mem_of_getElem? hidx
    have hjl := hsel' j (List.mem_of_getElem? hj)
    have hbin := hb zbins[j]! (by rw [getElem!_pos zbins j hjl]; exact List.getElem_mem hjl)
    have h4 := hz (z.get idx) (List.mem_map_of_mem hm)
    rw [entry_self hm]
    exact truncated_bin hs h4 hbin.1 idx

/-- **C139.** If the redshift of a galaxy has the density `nz`, then its redshift and the event that
its photometric redshift is in a bin together have the density that `tomo_nz_gausserr` computes
from `nz`. -/
theorem tomographic_density {μ : Measure σ} [IsProbabilityMeasure μ] {normal : Normal σ}
    (hn : IdealNormalArrays μ normal) {sigma_0 : ℝ} (hs : 0 < sigma_0) {bin : ℝ × ℝ}
    (h0 : 0 ≤ bin.1) (hb : bin.1 ≤ bin.2) {nz : ℝ → ℝ} (hm : Measurable nz) (hnz : ∀ t, 0 ≤ nz t)
    {B : Set ℝ} (hB : MeasurableSet B) (hB' : ∀ t ∈ B, -1 < t) :
    ∃ d : ℝ → ℝ, (∀ t ∈ B, tomoNzGausserr [t] [nz t] sigma_0 [bin] = .ok [[some (d t)]]) ∧
      ∫⁻ t in B, μ {s | ∃ fuel r s', gaussianPhz normal fuel s ⟨[], fun _ => t⟩
          ⟨[], fun _ => sigma_0⟩ none none = some (.ok (r, s')) ∧
          ∃ v, r.ravel = [v] ∧ bin.1 ≤ v ∧ v < bin.2}
        ∂(volume.withDensity fun t => ENNReal.ofReal (nz t)) =
      ∫⁻ t in B, ENNReal.ofReal (d t) := by
  refine ⟨fun t => binProbability sigma_0 t bin * nz t, fun t ht => ?_, ?_⟩
  · rw [tomo_rows (z := [t]) (nz := [nz t]) rfl sigma_0 (by simp)]
    simp [binnedNz_probability hs (hB' t ht) hb]
  · have key : ∀ t ∈ B, μ {s | ∃ fuel r s', gaussianPhz normal fuel s ⟨[], fun _ => t⟩
        ⟨[], fun _ => sigma_0⟩ none none = some (.ok (r, s')) ∧
          ∃ v, r.ravel = [v] ∧ bin.1 ≤ v ∧ v < bin.2} =
        ENNReal.ofReal (binProbability sigma_0 t bin) := by
      intro t ht
      have hrav : (⟨[], fun _ => t⟩ : NdArray ℝ).ravel = [t] := rfl
      obtain ⟨rows, w, h1, h2, h3, h4⟩ := photometric_bins hn (z := ⟨[], fun _ => t⟩) hs
        (by rw [hrav]; simpa using hB' t ht) (zbins := [bin]) (by simp) (by simpa using ⟨h0, hb⟩)
        (sel := [0]) (by rw [hrav]; rfl) (by simp)
      rw [hrav] at h1 h2 h3
      have hset : ∀ l : List ℝ, List.Forall₂ (fun (v : ℝ) j => [bin][j]!.1 ≤ v ∧ v < [bin][j]!.2)
          l [0] ↔ ∃ v, l = [v] ∧ bin.1 ≤ v ∧ v < bin.2 := by
        intro l
        rw [List.forall₂_cons_right_iff]
        constructor
        · rintro ⟨v, u, h, h', rfl⟩
          rw [List.forall₂_nil_right_iff] at h'
          exact ⟨v, by rw [h'], h⟩
        · rintro ⟨v, rfl, h⟩
          exact ⟨v, [], h, .nil, rfl⟩
      simp only [hset] at h4
      rw [h4]
      obtain ⟨x, rfl⟩ : ∃ x, w = [x] := List.length_eq_one_iff.1 h2
      obtain ⟨r, e1, e2⟩ := h3 0 (by simp)
      rw [tomo_rows (by simp) sigma_0 (by simp)] at h1
      simp only [Except.ok.injEq] at h1
      subst h1
      simp [binnedNz_probability hs (hB' t ht) hb] at e1
      subst e1
      simp at e2
      simp [← e2]
    rw [setLIntegral_congr_fun hB key]
    rw [restrict_withDensity hB, lintegral_withDensity_eq_lintegral_mul_non_measurable _
      hm.ennreal_ofReal (Filter.Eventually.of_forall fun t => ENNReal.ofReal_lt_top)]
    refine lintegral_congr fun t => ?_
    rw [Pi.mul_apply, ← ENNReal.ofReal_mul (hnz t), mul_comm]

/-- Concrete case: an ideal generator, and two galaxies in two bins. -/
example : (∃ (μ : Measure (ℕ → ℝ × ℝ)) (_ : IsProbabilityMeasure μ)
    (normal : Normal (ℕ → ℝ × ℝ)), IdealNormalArrays μ normal) ∧
    (0 : ℝ) < 1 / 20 ∧ (∀ t ∈ (ofList [2] [(1 / 2 : ℝ), 1]).ravel, -1 < t) ∧
    (∀ b ∈ [((0 : ℝ), (1 : ℝ)), (1, 2)], 0 ≤ b.1 ∧ b.1 ≤ b.2) ∧
    [0, 1].length = (ofList [2] [(1 / 2 : ℝ), 1]).ravel.length := by
  obtain ⟨μ, h1, normal, -, h2, -⟩ := idealSources_exist
  refine ⟨⟨μ, h1, _, arrayNormal_ideal h2⟩, by norm_num, ?_, by simp, ?_⟩
  · rw [ofList_ravel rfl]
    simp only [List.mem_cons, List.not_mem_nil, or_false]
    rintro t (rfl | rfl) <;> norm_num
  · rw [ofList_ravel rfl]
    rfl

end

end Glass.Galaxies
