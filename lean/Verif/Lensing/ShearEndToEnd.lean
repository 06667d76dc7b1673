import Verif.Lensing.Statistics
import Verif.Lensing.ShearStatistics

/-!
# Property C146: from spectra of matter fields to spectra of shear maps

Maps are generated for given spectra, the convergence is computed from the maps, and the shear from
the convergence.
-/

namespace Glass.Lensing

open Finset MeasureTheory ProbabilityTheory Glass.Spectra Glass.Shells Glass.Grf

/-! ## Specification -/

/-- `map2alm` is an exact analysis below the band limit `B`: the modes up to `L` are linear in the
values of the map in the pixels, and are recovered for every map with modes below `B`. -/
structure IsAnalysis {S : Type} (B : ℕ) (Y : ℕ → ℕ → S → ℂ)
    (map2alm : (S → ℝ) → ℕ → ℕ → ℕ → ℂ) (L : ℕ) (pix : Finset S) (A : ℕ → ℕ → S → ℂ) : Prop where
  linear : ∀ k l m, m ≤ l → l ≤ L → map2alm k L l m = ∑ p ∈ pix, A l m p * (k p : ℂ)
  zero : ∀ l m l' , m ≤ l → l ≤ L → l' < B →
    ∑ p ∈ pix, A l m p * ((Y l' 0 p).re : ℂ) = if l = l' ∧ m = 0 then 1 else 0
  re : ∀ l m l' m', m ≤ l → l ≤ L → l' < B → m' < l' →
    ∑ p ∈ pix, A l m p * ((Y l' (m' + 1) p).re : ℂ) = if l = l' ∧ m = m' + 1 then 1 / 2 else 0
  im : ∀ l m l' m', m ≤ l → l ≤ L → l' < B → m' < l' →
    ∑ p ∈ pix, A l m p * ((Y l' (m' + 1) p).im : ℂ) =
      if l = l' ∧ m = m' + 1 then -Complex.I / 2 else 0

/-- The hypothesis says that the modes of every synthesised map are recovered. -/
theorem IsAnalysis.recovers {S : Type} {B : ℕ} {Y : ℕ → ℕ → S → ℂ}
    {map2alm : (S → ℝ) → ℕ → ℕ → ℕ → ℂ} {L : ℕ} {pix : Finset S} {A : ℕ → ℕ → S → ℂ}
    (h : IsAnalysis B Y map2alm L pix A) (hreal : ∀ l < B, ∀ p, (Y l 0 p).im = 0)
    (a : ℕ → ℕ → ℂ) (ha : ∀ l, (a l 0).im = 0) (l m : ℕ) (hm : m ≤ l) (hl : l ≤ L) (hB : l < B) :
    map2alm (fun p => ∑ l ∈ range B, ((a l 0 * Y l 0 p).re
      + 2 * ∑ m ∈ range l, (a l (m + 1) * Y l (m + 1) p).re)) L l m = a l m := by
  rw [h.linear _ l m hm hl]
  have e : ∀ p ∈ pix, A l m p * ((∑ l ∈ range B, ((a l 0 * Y l 0 p).re
      + 2 * ∑ m ∈ range l, (a l (m + 1) * Y l (m + 1) p).re) : ℝ) : ℂ) =
      ∑ l' ∈ range B, (((a l' 0).re : ℂ) * (A l m p * ((Y l' 0 p).re : ℂ)) +
        2 * ∑ m' ∈ range l', (((a l' (m' + 1)).re : ℂ) * (A l m p * ((Y l' (m' + 1) p).re : ℂ)) -
          ((a l' (m' + 1)).im : ℂ) * (A l m p * ((Y l' (m' + 1) p).im : ℂ)))) := by
    intro p _
    push_cast
    rw [mul_sum]
    refine sum_congr rfl fun l' hl' => ?_
    rw [mul_add]
    congr 1
    · rw [Complex.mul_re, hreal l' (mem_range.1 hl') p, mul_zero, sub_zero]
      push_cast
      ring
    · rw [mul_left_comm, mul_sum]
      congr 1
      refine sum_congr rfl fun m' _ => ?_
      rw [Complex.mul_re]
      push_cast
      ring
  rw [sum_congr rfl e, sum_comm]
  have e2 : ∀ l' ∈ range B, ∑ p ∈ pix, (((a l' 0).re : ℂ) * (A l m p * ((Y l' 0 p).re : ℂ)) +
        2 * ∑ m' ∈ range l', (((a l' (m' + 1)).re : ℂ) * (A l m p * ((Y l' (m' + 1) p).re : ℂ)) -
          ((a l' (m' + 1)).im : ℂ) * (A l m p * ((Y l' (m' + 1) p).im : ℂ)))) =
      if l = l' then a l m else 0 := by
    intro l' hl'
    rw [mem_range] at hl'
    rw [sum_add_distrib, ← mul_sum, ← mul_sum, sum_comm, h.zero l m l' hm hl hl']
    have e3 : ∀ m' ∈ range l', ∑ p ∈ pix,
        (((a l' (m' + 1)).re : ℂ) * (A l m p * ((Y l' (m' + 1) p).re : ℂ)) -
          ((a l' (m' + 1)).im : ℂ) * (A l m p * ((Y l' (m' + 1) p).im : ℂ))) =
        if l = l' ∧ m = m' + 1 then a l m / 2 else 0 := by
      intro m' hm'
      rw [sum_sub_distrib, ← mul_sum, ← mul_sum, h.re l m l' m' hm hl hl' (mem_range.1 hm'),
        h.im l m l' m' hm hl hl' (mem_range.1 hm')]
      split_ifs with hc
      · rw [hc.1, hc.2]
        nth_rw 3 [← Complex.re_add_im (a l' (m' + 1))]
        ring
      · simp
    rw [sum_congr rfl e3]
    by_cases hll : l = l'
    · subst hll
      simp only [true_and, if_true]
      rcases m with _ | m
      · simp only [if_true]
        rw [sum_eq_zero fun m' _ => if_neg (by omega)]
        rw [mul_one, mul_zero, add_zero]
        apply Complex.ext <;> simp [ha]
      · rw [if_neg (by omega), sum_eq_single m]
        · rw [if_pos rfl]; ring
        · intro m' _ hne; exact if_neg (by omega)
        · intro hn; exact absurd (mem_range.2 (by omega)) hn
    · simp [hll]
  rw [sum_congr rfl e2, sum_ite_eq, if_pos (mem_range.2 hB)]

variable {Ω : Type*} [MeasurableSpace Ω] {μ : Measure Ω}

/-! ## Modes of maps with a correlation function -/

/-- **C146** If two random maps have the correlation function of a spectrum in all pairs of pixels,
then their modes have the covariance of the spectrum. -/
theorem mode_covariance {S : Type} {B : ℕ} {Y : ℕ → ℕ → S → ℂ} {P : ℕ → S → S → ℝ}
    (hY : Harmonics B Y P) {map2alm : (S → ℝ) → ℕ → ℕ → ℕ → ℂ} {L : ℕ} {pix : Finset S}
    {A : ℕ → ℕ → S → ℂ} (hA : IsAnalysis B Y map2alm L pix A) (cl : List ℝ) (hcl : cl.length ≤ B)
    {K K' : Ω → S → ℝ} (hK : ∀ p ∈ pix, ∀ p' ∈ pix,
      HasMean μ (fun ω => K ω p * K' ω p') (correlation P cl p p'))
    (l m l' m' : ℕ) (hm : m ≤ l) (hl : l ≤ L) (hm' : m' ≤ l') (hl' : l' ≤ L) :
    modeCovariance μ (fun ω => map2alm (K ω) L l m) (fun ω => map2alm (K' ω) L l' m') =
      if l = l' ∧ m = m' then ((cl[l]?.getD 0 : ℝ) : ℂ) else 0 := by
  unfold modeCovariance
  have e1 : (fun ω => map2alm (K ω) L l m * (starRingEnd ℂ) (map2alm (K' ω) L l' m')) =
      fun ω => ∑ p ∈ pix, ∑ p' ∈ pix,
        A l m p * (starRingEnd ℂ) (A l' m' p') * ((K ω p * K' ω p' : ℝ) : ℂ) := by
    funext ω
    rw [hA.linear _ l m hm hl, hA.linear _ l' m' hm' hl', map_sum, sum_mul_sum]
    refine sum_congr rfl fun p _ => sum_congr rfl fun p' _ => ?_
    rw [map_mul, Complex.conj_ofReal]
    push_cast
    ring
  have hint : ∀ p ∈ pix, ∀ p' ∈ pix, Integrable (fun ω =>
      A l m p * (starRingEnd ℂ) (A l' m' p') * ((K ω p * K' ω p' : ℝ) : ℂ)) μ :=
    fun p hp p' hp' => ((hK p hp p' hp').1.ofReal).const_mul _
  rw [e1, integral_finsetSum _ fun p hp => integrable_finsetSum _ fun p' hp' => hint p hp p' hp']
  have e2 : ∀ p ∈ pix, ∫ ω, ∑ p' ∈ pix, A l m p * (starRingEnd ℂ) (A l' m' p') *
      ((K ω p * K' ω p' : ℝ) : ℂ) ∂μ = ∑ p' ∈ pix, A l m p * (starRingEnd ℂ) (A l' m' p') *
        ((correlation P cl p p' : ℝ) : ℂ) := by
    intro p hp
    rw [integral_finsetSum _ fun p' hp' => hint p hp p' hp']
    refine sum_congr rfl fun p' hp' => ?_
    rw [integral_const_mul, integral_complex_ofReal, (hK p hp p' hp').2]
  rw [sum_congr rfl e2]
  -- the addition theorem
  have e3 : ∀ p p', ((correlation P cl p p' : ℝ) : ℂ) = ∑ j ∈ range cl.length,
      ((cl[j]?.getD 0 : ℝ) : ℂ) * (((Y j 0 p).re : ℂ) * ((Y j 0 p').re : ℂ) +
        2 * ∑ n ∈ range j, (((Y j (n + 1) p).re : ℂ) * ((Y j (n + 1) p').re : ℂ) +
          ((Y j (n + 1) p).im : ℂ) * ((Y j (n + 1) p').im : ℂ))) := by
    intro p p'
    unfold correlation
    push_cast
    refine sum_congr rfl fun j hj => ?_
    have := hY.addition j (lt_of_lt_of_le (mem_range.1 hj) hcl) p p'
    have hc : (((Y j 0 p).re * (Y j 0 p').re + 2 * ∑ m ∈ range j, ((Y j (m + 1) p).re *
      (Y j (m + 1) p').re + (Y j (m + 1) p).im * (Y j (m + 1) p').im) : ℝ) : ℂ) =
      (((2 * j + 1) / (4 * Real.pi) * P j p p' : ℝ) : ℂ) := by rw [this]
    push_cast at hc
    rw [hc]
    ring
  set a : (S → ℝ) → ℂ := fun f => ∑ p ∈ pix, A l m p * (f p : ℂ) with ha
  set a' : (S → ℝ) → ℂ := fun f => ∑ p ∈ pix, (starRingEnd ℂ) (A l' m' p) * (f p : ℂ) with ha'
  have hconj : ∀ f, a' f = (starRingEnd ℂ) (∑ p ∈ pix, A l' m' p * (f p : ℂ)) := by
    intro f
    rw [ha', map_sum]
    refine sum_congr rfl fun p _ => ?_
    rw [map_mul, Complex.conj_ofReal]
  have e4 : ∑ p ∈ pix, ∑ p' ∈ pix, A l m p * (starRingEnd ℂ) (A l' m' p') *
        ((correlation P cl p p' : ℝ) : ℂ) = ∑ j ∈ range cl.length, ((cl[j]?.getD 0 : ℝ) : ℂ) *
      (a (fun p => (Y j 0 p).re) * a' (fun p => (Y j 0 p).re) + 2 * ∑ n ∈ range j,
        (a (fun p => (Y j (n + 1) p).re) * a' (fun p => (Y j (n + 1) p).re) +
          a (fun p => (Y j (n + 1) p).im) * a' (fun p => (Y j (n + 1) p).im))) := by
    have e5 : ∀ p ∈ pix, ∀ p' ∈ pix, A l m p * (starRingEnd ℂ) (A l' m' p') *
        ((correlation P cl p p' : ℝ) : ℂ) = ∑ j ∈ range cl.length, ((cl[j]?.getD 0 : ℝ) : ℂ) *
          ((A l m p * ((Y j 0 p).re : ℂ)) * ((starRingEnd ℂ) (A l' m' p') * ((Y j 0 p').re : ℂ)) +
          2 * ∑ n ∈ range j, ((A l m p * ((Y j (n + 1) p).re : ℂ)) *
              ((starRingEnd ℂ) (A l' m' p') * ((Y j (n + 1) p').re : ℂ)) +
            (A l m p * ((Y j (n + 1) p).im : ℂ)) *
              ((starRingEnd ℂ) (A l' m' p') * ((Y j (n + 1) p').im : ℂ)))) := by
      intro p _ p' _
      rw [e3, mul_sum]
      refine sum_congr rfl fun j _ => ?_
      rw [mul_left_comm, mul_add]
      congr 2
      · ring
      · rw [mul_left_comm, mul_sum]
        congr 1
        exact sum_congr rfl fun n _ => by ring
    rw [sum_congr rfl fun p hp => sum_congr rfl fun p' hp' => e5 p hp p' hp']
    simp only [ha, ha', sum_mul_sum]
    have hcomm : ∀ (R : Finset ℕ) (F : ℕ → S → S → ℂ), ∑ p ∈ pix, ∑ p' ∈ pix, ∑ n ∈ R, F n p p' =
        ∑ n ∈ R, ∑ p ∈ pix, ∑ p' ∈ pix, F n p p' := by
      intro R F
      rw [sum_congr rfl fun p _ => sum_comm, sum_comm]
    rw [hcomm]
    refine sum_congr rfl fun j _ => ?_
    simp only [mul_add, mul_sum, sum_add_distrib, hcomm (range j)]
  rw [e4]
  have e6 : ∀ j ∈ range cl.length, ((cl[j]?.getD 0 : ℝ) : ℂ) *
      (a (fun p => (Y j 0 p).re) * a' (fun p => (Y j 0 p).re) + 2 * ∑ n ∈ range j,
        (a (fun p => (Y j (n + 1) p).re) * a' (fun p => (Y j (n + 1) p).re) +
          a (fun p => (Y j (n + 1) p).im) * a' (fun p => (Y j (n + 1) p).im))) =
      if l = j then (if l = l' ∧ m = m' then ((cl[l]?.getD 0 : ℝ) : ℂ) else 0) else 0 := by
    intro j hj
    have hjB := lt_of_lt_of_le (mem_range.1 hj) hcl
    have z1 : a (fun p => (Y j 0 p).re) = if l = j ∧ m = 0 then 1 else 0 :=
      hA.zero l m j hm hl hjB
    have z2 : a' (fun p => (Y j 0 p).re) = if l' = j ∧ m' = 0 then 1 else 0 := by
      rw [hconj, hA.zero l' m' j hm' hl' hjB]
      split_ifs <;> simp
    have z3 : ∀ n ∈ range j, a (fun p => (Y j (n + 1) p).re) * a' (fun p => (Y j (n + 1) p).re) +
          a (fun p => (Y j (n + 1) p).im) * a' (fun p => (Y j (n + 1) p).im) =
        if l = j ∧ m = n + 1 ∧ l' = j ∧ m' = n + 1 then 1 / 2 else 0 := by
      intro n hn
      have hn' := mem_range.1 hn
      rw [hconj, hconj, hA.re l' m' j n hm' hl' hjB hn', hA.im l' m' j n hm' hl' hjB hn',
        show a (fun p => (Y j (n + 1) p).re) = _ from hA.re l m j n hm hl hjB hn',
        show a (fun p => (Y j (n + 1) p).im) = _ from hA.im l m j n hm hl hjB hn']
      by_cases h1 : l = j ∧ m = n + 1
      · by_cases h2 : l' = j ∧ m' = n + 1
        · rw [if_pos h1, if_pos h2, if_pos h1, if_pos h2, if_pos ⟨h1.1, h1.2, h2⟩]
          simp only [map_div₀, map_neg, Complex.conj_I, map_one, map_ofNat]
          ring_nf
          rw [Complex.I_sq]
          norm_num
        · rw [if_neg h2, if_neg h2, 
            if_neg (fun h : l = j ∧ m = n + 1 ∧ l' = j ∧ m' = n + 1 => h2 h.2.2)]
          simp
      · rw [if_neg h1, if_neg h1, 
          if_neg (fun h : l = j ∧ m = n + 1 ∧ l' = j ∧ m' = n + 1 => h1 ⟨h.1, h.2.1⟩)]
        simp
    rw [z1, z2, sum_congr rfl z3]
    by_cases h1 : l = j
    · subst h1
      by_cases h2 : l' = l
      · subst h2
        simp only [true_and, if_true]
        rcases m with _ | m
        · rw [sum_eq_zero fun n _ => if_neg (by omega)]
          rcases m' with _ | m' <;> simp
        · rw [if_neg (show ¬ m + 1 = 0 by omega), zero_mul, zero_add]
          by_cases h3 : m + 1 = m'
          · subst h3
            rw [sum_eq_single m (fun n _ hn => if_neg (by omega))
              (fun hn => absurd (mem_range.2 (by omega)) hn)]
            simp
          · rw [sum_eq_zero fun n _ => if_neg (by omega), if_neg h3]
            simp
      · rw [if_neg (fun h : l' = l ∧ m' = 0 => h2 h.1), sum_eq_zero fun n _ =>
          if_neg (fun h : l = l ∧ m = n + 1 ∧ l' = l ∧ m' = n + 1 => h2 h.2.2.1)]
        rw [if_pos rfl, if_neg (fun h : l = l' ∧ m = m' => h2 h.1.symm)]
        simp
    · rw [if_neg (fun h : l = j ∧ m = 0 => h1 h.1), sum_eq_zero fun n _ =>
        if_neg (fun h : l = j ∧ m = n + 1 ∧ l' = j ∧ m' = n + 1 => h1 h.1), if_neg h1]
      simp
  rw [sum_congr rfl e6, sum_ite_eq]
  split_ifs with h1 h2 h2
  · rfl
  · rfl
  · rw [mem_range, not_lt] at h1
    rw [List.getElem?_eq_none h1]
    simp
  · rfl

/-! ## Normal matter fields -/

/-- The Gaussian spectra of normal fields are the spectra themselves. -/
theorem normal_gaussian_spectra {cltocorr corrtocl : List ℝ → List ℝ}
    (ht : TransformLaw cltocorr corrtocl) {fields : List Transformation}
    (hn : ∀ t ∈ fields, t = .normal) {spectra : List (List ℝ)}
    (hcount : spectra.length = fields.length * (fields.length + 1) / 2) :
    computeGaussianSpectra (fun cl t1 t2 => compute cltocorr corrtocl cl t1 (some t2))
      fields spectra = .ok spectra := by
  rw [compute_gaussian_spec]
  refine ⟨hcount, rfl, fun i j hi hj => ?_⟩
  have hlt : i * (i + 1) / 2 + (i - j) < spectra.length := by
    rw [hcount]
    have h1 := tri_lt hi
    simp only [tri] at h1
    omega
  refine ⟨_, _, List.getElem?_eq_getElem hlt, List.getElem?_eq_getElem hlt, id, fun _ => ?_⟩
  rw [hn _ (List.getElem_mem hi), hn _ (List.getElem_mem (show j < fields.length by omega))]
  simp [compute, icorrList, dispatch, arrayM, Transformation.icorrM, ht.left]

/-- **C146** Normal maps have the correlation functions of the spectra at all pairs of points. -/
theorem normal_maps {S : Type} (b : Backend) {Y : ℕ → ℕ → S → ℂ} {P : ℕ → S → S → ℝ}
    {alm2map : List ℂ → S → ℝ} (hsyn : IsSynthesis Y alm2map) {cltovar : List ℝ → ℝ}
    (hvar : IsVariance cltovar) (hP : ∀ l p p', P l p p' = P l p' p)
    {fields : List Transformation} (hn : ∀ t ∈ fields, t = .normal) {spectra : List (List ℝ)}
    (hcount : spectra.length = fields.length * (fields.length + 1) / 2)
    (hL : 0 < maxLength spectra) (hY : Harmonics (maxLength spectra) Y P) (ncorr : Option ℕ)
    (hband : ∀ i < fields.length, ∀ j, ncorr.getD (fields.length - 1) + j < i →
      spectra[i * (i + 1) / 2 + (i - j)]? = some [])
    (hadm : ∀ l < maxLength spectra,
      Admissible fields.length (modeCov spectra (ncorr.getD (fields.length - 1)) l))
    {X : Ω → Normals} (hX : StandardNormals μ X) :
    ∃ M : ℕ → S → Ω → ℝ,
      (∀ ω, ∃ maps, generate b alm2map cltovar (fun t x v p => Transformation.call t (x p) v) (X ω)
          fields spectra ncorr = (maps, none) ∧ maps.length = fields.length ∧
        ∀ i < fields.length, maps[i]? = some fun p => M i p ω) ∧
      (∀ i < fields.length, ∀ p, HasMean μ (M i p) 0) ∧
      ∀ p p', ∀ i < fields.length, ∀ j < fields.length, HasMean μ (fun ω => M i p ω * M j p' ω)
        (correlation P
          ((spectra[max i j * (max i j + 1) / 2 + (max i j - min i j)]?).getD []) p p') := by
  obtain ⟨G, g1, g2⟩ := generate_statistics b hsyn hvar fields spectra ncorr hcount hL hY hadm hX
  have hcov : ∀ p p', ∀ i < fields.length, ∀ j ≤ i, HasMean μ (fun ω => G i p ω * G j p' ω)
      (correlation P ((spectra[i * (i + 1) / 2 + (i - j)]?).getD []) p p') := by
    intro p p' i hi j hj
    have h1 := g2 i hi j (by omega) p p'
    obtain ⟨y, hy, hm⟩ := lognormal_cov h1 .normal .normal (by simp) (by simp)
    simp only [corr, dispatch, Transformation.corrM, Except.ok.injEq] at hy
    simp only [Transformation.call] at hm
    refine hm.congr (fun _ => rfl) (hy.symm.trans ?_)
    by_cases hb : i - j ≤ ncorr.getD (fields.length - 1)
    · have hlt : i * (i + 1) / 2 + (i - j) < spectra.length := by
        rw [hcount]
        have h1 := tri_lt hi
        simp only [tri] at h1
        omega
      rw [pointCov_correlation P spectra hj hb (List.getElem?_eq_getElem hlt),
        List.getElem?_eq_getElem hlt, Option.getD_some]
    · rw [hband i hi j (by omega), pointCov, if_neg (by omega)]
      simp [correlation]
  refine ⟨G, fun ω => ?_, fun i hi p => ?_, fun p p' i hi j hj => ?_⟩
  · obtain ⟨out, e1, e2, e3⟩ := g1 ω
    refine ⟨out, e1, e2, fun i hi => ?_⟩
    obtain ⟨x, q1, q2⟩ := e3 i _ (List.getElem?_eq_getElem hi)
    rw [q1, Option.some.injEq]
    funext p
    rw [q2 p, hn _ (List.getElem_mem hi)]
    rfl
  · exact (lognormal_mean (g2 i hi i hi p p) 1).2
  · rcases le_total j i with hji | hij
    · rw [max_eq_left hji, min_eq_right hji]
      exact hcov p p' i hi j hji
    · rw [max_eq_right hij, min_eq_left hij]
      refine (hcov p' p j hj i hij).congr (fun ω => mul_comm _ _) ?_
      exact correlation_symm hP _ p' p

/-- **C146** The convergence of populations of sources has the correlation functions of the spectra
that `effective_cls` computes with the weights of `multi_plane_weights`. -/
theorem normal_convergence {S : Type} (b : Backend) {Y : ℕ → ℕ → S → ℂ} {P : ℕ → S → S → ℝ}
    {alm2map : List ℂ → S → ℝ} (hsyn : IsSynthesis Y alm2map) {cltovar : List ℝ → ℝ}
    (hvar : IsVariance cltovar) (hP : ∀ l p p', P l p p' = P l p' p)
    {fields : List Transformation} (hn : ∀ t ∈ fields, t = .normal) {spectra : List (List ℝ)}
    (hcount : spectra.length = fields.length * (fields.length + 1) / 2)
    (hL : 0 < maxLength spectra) (hY : Harmonics (maxLength spectra) Y P) (ncorr : Option ℕ)
    (hband : ∀ i < fields.length, ∀ j, ncorr.getD (fields.length - 1) + j < i →
      spectra[i * (i + 1) / 2 + (i - j)]? = some [])
    (hadm : ∀ l < maxLength spectra,
      Admissible fields.length (modeCov spectra (ncorr.getD (fields.length - 1)) l))
    {X : Ω → Normals} (hX : StandardNormals μ X)
    (c : Cosmology) {shells : List RadialWindow} (hne : shells ≠ [])
    (hlen : shells.length = fields.length) {rows : List (ℕ → ℝ)}
    (hrows : multiPlaneMatrix c shells = .ok rows)
    (npop : ℕ) (weights : ℕ → List ℝ) (hw : ∀ a < npop, Proper c (weights a) shells) :
    ∃ (M : ℕ → S → Ω → ℝ) (planes : Ω → List (S → ℝ)) (lw : ℕ → List ℝ) (out : Out ℝ),
      (∀ ω, ∃ maps, generate b alm2map cltovar (fun t x v p => Transformation.call t (x p) v) (X ω)
          fields spectra ncorr = (maps, none) ∧ maps.length = fields.length ∧
        ∀ i < fields.length, maps[i]? = some fun p => M i p ω) ∧
      (∀ ω, convergencePlanes c (fun i p => M i p ω) shells 0 (MPC.init S) = .ok (planes ω)) ∧
      (∀ a < npop, multiPlaneWeights c (weights a) shells = .ok (lw a)) ∧
      effectiveCls spectra (weightArray fields.length npop lw) none none = .ok out ∧
      (∀ a < npop, ∀ p, HasMean μ (fun ω => meanConvergence (weights a) (planes ω) p) 0) ∧
      ∀ a < npop, ∀ a' < npop, ∃ cl, out [a, a'] = some cl ∧ cl.length ≤ maxLength spectra ∧
        ∀ p p', HasMean μ (fun ω => meanConvergence (weights a) (planes ω) p *
          meanConvergence (weights a') (planes ω) p') (correlation P cl p p') := by
  obtain ⟨M, h1, h3, h4⟩ := normal_maps b hsyn hvar hP hn hcount hL hY ncorr hband hadm hX
  choose planes hplanes using fun ω => planes_exist c hne hrows (fun i p => M i p ω)
  have hadj2 : ∀ a, ∃ lw : List ℝ, a < npop → multiPlaneWeights c (weights a) shells = .ok lw := by
    intro a
    by_cases ha : a < npop
    · exact ⟨_, fun _ => by
        simp only [multiPlaneWeights, (hw a ha).length, ne_eq, not_true_eq_false, if_false, hrows]
        rfl⟩
    · exact ⟨[], fun h => absurd h ha⟩
  choose lw hlw using hadj2
  have hkappa : ∀ a < npop, ∀ ω p, meanConvergence (weights a) (planes ω) p =
      ∑ k ∈ range fields.length, (lw a)[k]! * M k p ω := by
    intro a ha ω p
    obtain ⟨lw', e1, -, e2⟩ := weights_adjoint c (fun i p => M i p ω) (weights a) shells hne
      (hw a ha) (planes ω) (hplanes ω)
    rw [hlw a ha, Except.ok.injEq] at e1
    subst e1
    rw [← hlen]
    exact (e2 p).symm
  obtain ⟨m, hm, hlong, hshort⟩ :
      ∃ m, effectiveCls spectra (weightArray fields.length npop lw) none none
        = effectiveCls spectra (weightArray fields.length npop lw) none (some m) ∧
      (∀ cl ∈ spectra, cl.length ≤ m) ∧ (m = 0 ∨ ∃ cl ∈ spectra, cl.length = m) :=
    ⟨(spectra.map List.length).foldl max 0, rfl, longest_spec spectra⟩
  have hmB : m ≤ maxLength spectra := by
    rcases hshort with rfl | ⟨cl, hcl, rfl⟩
    · exact Nat.zero_le _
    · exact maxLength_le spectra cl hcl
  obtain ⟨out, g1, g2⟩ := effective_auto spectra fields.length hcount
    (weightArray fields.length npop lw) rfl m
  refine ⟨M, planes, lw, out, h1, hplanes, fun a ha => hlw a ha, hm.trans g1, fun a ha p => ?_,
    fun a ha a' ha' => ⟨_, g2 [a] [a'] ⟨ha, trivial⟩ ⟨ha', trivial⟩, by simpa using hmB,
      fun p p' => ?_⟩⟩
  · have hs : ∀ k ∈ range fields.length, HasMean μ (fun ω => (lw a)[k]! * M k p ω) ((lw a)[k]! * 0) :=
      fun k hk => (h3 k (mem_range.1 hk) p).const_mul _
    simp only [hkappa a ha]
    refine ⟨integrable_finsetSum _ fun k hk => (hs k hk).1, ?_⟩
    rw [integral_finsetSum _ fun k hk => (hs k hk).1]
    exact sum_eq_zero fun k hk => by rw [(hs k hk).2, mul_zero]
  obtain ⟨out', g3, g4⟩ := effective_correlation spectra hcount
    (weightArray fields.length npop lw) rfl (h4 p p')
  rw [hm.trans g1, Except.ok.injEq] at g3
  subst g3
  obtain ⟨cl, g5, g6⟩ := g4 [a] [a'] ⟨ha, trivial⟩ ⟨ha', trivial⟩
  rw [g2 [a] [a'] ⟨ha, trivial⟩ ⟨ha', trivial⟩, Option.some.injEq] at g5
  rw [g5]
  refine g6.congr (fun ω => ?_) rfl
  rw [hkappa a ha, hkappa a' ha']
  rfl

/-- The modes of the shear that `from_convergence` computes. -/
noncomputable def shearModes {S : Type} (hp : Healpix (S → ℝ)) (nside L : ℕ) (discretized : Bool)
    (kappa : S → ℝ) : Alm :=
  almxfl (hp.map2alm kappa L) fun l => shearFactor l * windowRatio hp nside L discretized l

/-- **C146** From spectra of matter fields to spectra of shear maps: maps of normal fields are
generated for given spectra, one for each shell; the convergence is computed from them, averaged over
populations of sources; the shear is computed from the convergence.  The modes of the shear have the
covariance of the spectrum that `effective_cls` computes with the weights of `multi_plane_weights`,
times `1 - 2 / (l (l + 1))`, and there are no B modes. -/
theorem shear_spectra {S : Type} (b : Backend) {Y : ℕ → ℕ → S → ℂ} {P : ℕ → S → S → ℝ}
    {alm2map : List ℂ → S → ℝ} (hsyn : IsSynthesis Y alm2map) {cltovar : List ℝ → ℝ}
    (hvar : IsVariance cltovar) (hP : ∀ l p p', P l p p' = P l p' p)
    {fields : List Transformation} (hn : ∀ t ∈ fields, t = .normal) {spectra : List (List ℝ)}
    (hcount : spectra.length = fields.length * (fields.length + 1) / 2)
    (hL : 0 < maxLength spectra) (hY : Harmonics (maxLength spectra) Y P) (ncorr : Option ℕ)
    (hband : ∀ i < fields.length, ∀ j, ncorr.getD (fields.length - 1) + j < i →
      spectra[i * (i + 1) / 2 + (i - j)]? = some [])
    (hadm : ∀ l < maxLength spectra,
      Admissible fields.length (modeCov spectra (ncorr.getD (fields.length - 1)) l))
    {X : Ω → Normals} (hX : StandardNormals μ X)
    -- the convergence
    (c : Cosmology) {shells : List RadialWindow} (hne : shells ≠ [])
    (hlen : shells.length = fields.length) {rows : List (ℕ → ℝ)}
    (hrows : multiPlaneMatrix c shells = .ok rows)
    (npop : ℕ) (weights : ℕ → List ℝ) (hw : ∀ a < npop, Proper c (weights a) shells)
    -- the shear
    (hp : Healpix (S → ℝ)) {nside : ℕ} (hside : ∀ k, hp.getNside k = nside) (lmax : Option ℕ)
    {pix : Finset S} {A : ℕ → ℕ → S → ℂ}
    (hA : IsAnalysis (maxLength spectra) Y hp.map2alm (lmax.getD (3 * nside - 1)) pix A)
    (discretized : Bool) :
    ∃ (M : ℕ → S → Ω → ℝ) (planes : Ω → List (S → ℝ)) (lw : ℕ → List ℝ) (out : Out ℝ),
      (∀ ω, ∃ maps, generate b alm2map cltovar (fun t x v p => Transformation.call t (x p) v) (X ω)
          fields spectra ncorr = (maps, none) ∧ maps.length = fields.length ∧
        ∀ i < fields.length, maps[i]? = some fun p => M i p ω) ∧
      (∀ ω, convergencePlanes c (fun i p => M i p ω) shells 0 (MPC.init S) = .ok (planes ω)) ∧
      (∀ a < npop, multiPlaneWeights c (weights a) shells = .ok (lw a)) ∧
      effectiveCls spectra (weightArray fields.length npop lw) none none = .ok out ∧
      let L := lmax.getD (3 * nside - 1)
      let modes := fun a ω => shearModes hp nside L discretized (meanConvergence (weights a) (planes ω))
      (∀ a < npop, ∀ ω, fromConvergence hp (meanConvergence (weights a) (planes ω)) lmax false false
        true discretized = [.complex (hp.alm2mapSpin (modes a ω) (fun _ _ => 0) nside 2 L).1
          (hp.alm2mapSpin (modes a ω) (fun _ _ => 0) nside 2 L).2]) ∧
      ∀ a < npop, ∀ a' < npop, ∃ cl, out [a, a'] = some cl ∧
        ∀ l m l' m', m ≤ l → l ≤ L → m' ≤ l' → l' ≤ L →
          modeCovariance μ (fun ω => modes a ω l m) (fun ω => modes a' ω l' m') =
            if l = l' ∧ m = m' then (((if l = 0 then 0 else 1 - 2 / ((l : ℝ) * (l + 1))) *
              windowRatio hp nside L discretized l ^ 2 * cl[l]?.getD 0 : ℝ) : ℂ) else 0 := by
  obtain ⟨M, planes, lw, out, h1, h2, h3, h4, -, h5⟩ := normal_convergence b hsyn hvar hP hn hcount hL
    hY ncorr hband hadm hX c hne hlen hrows npop weights hw
  refine ⟨M, planes, lw, out, h1, h2, h3, h4, ?_⟩
  intro L modes
  refine ⟨fun a _ ω => ?_, fun a ha a' ha' => ?_⟩
  · rw [from_convergence_modes]
    simp only [Bool.false_eq_true, if_false, if_true, List.nil_append, hside]
    rfl
  obtain ⟨cl, g1, g2, g3⟩ := h5 a ha a' ha'
  refine ⟨cl, g1, fun l n l' n' hn1 hl1 hn2 hl2 => ?_⟩
  have key := mode_covariance hY hA _ g2 (fun p _ p' _ => g3 p p') l n l' n' hn1 hl1 hn2 hl2
  show modeCovariance μ (fun ω => hp.map2alm (meanConvergence (weights a) (planes ω)) L l n *
    ((shearFactor l * windowRatio hp nside L discretized l : ℝ) : ℂ)) (fun ω =>
    hp.map2alm (meanConvergence (weights a') (planes ω)) L l' n' *
    ((shearFactor l' * windowRatio hp nside L discretized l' : ℝ) : ℂ)) = _
  rw [modeCovariance_scale, key]
  split_ifs with hc h0
  · rw [← hc.1]
    simp [h0, (shear_factor_sq 0).1]
  · rw [← hc.1, ← Complex.ofReal_mul, ← (shear_factor_sq l).2.2 (by omega)]
    congr 1
    ring
  · simp

/-! ### Harmonics up to the quadrupole in 14 pixels -/

/-- The pixels: the 6 corners of an octahedron and the 8 corners of a cube. -/
noncomputable def quadPoint : Fin 14 → ℝ × ℝ × ℝ :=
  let s := Real.sqrt (1 / 3)
  ![(1, 0, 0), (-1, 0, 0), (0, 1, 0), (0, -1, 0), (0, 0, 1), (0, 0, -1),
    (s, s, s), (s, s, -s), (s, -s, s), (s, -s, -s), (-s, s, s), (-s, s, -s), (-s, -s, s),
    (-s, -s, -s)]

/-- The area of the pixels, as a part of the sphere. -/
noncomputable def quadWeight : Fin 14 → ℝ := fun p => if p.1 < 6 then 1 / 15 else 3 / 40

/-- The square of the factor of the harmonic. -/
noncomputable def quadFactor : ℕ → ℕ → ℝ
  | 0, 0 => 1 / (4 * Real.pi)
  | 1, 0 => 3 / (4 * Real.pi)
  | 1, 1 => 3 / (8 * Real.pi)
  | 2, 0 => 5 / (16 * Real.pi)
  | 2, 1 => 15 / (8 * Real.pi)
  | 2, 2 => 15 / (32 * Real.pi)
  | _, _ => 0

/-- The harmonic without factor, real part. -/
def quadRe : ℕ → ℕ → ℝ × ℝ × ℝ → ℝ
  | 0, 0, _ => 1
  | 1, 0, v => v.2.2
  | 1, 1, v => -v.1
  | 2, 0, v => 3 * v.2.2 ^ 2 - 1
  | 2, 1, v => -(v.2.2 * v.1)
  | 2, 2, v => v.1 ^ 2 - v.2.1 ^ 2
  | _, _, _ => 0

/-- The harmonic without factor, imaginary part. -/
def quadIm : ℕ → ℕ → ℝ × ℝ × ℝ → ℝ
  | 1, 1, v => -v.2.1
  | 2, 1, v => -(v.2.2 * v.2.1)
  | 2, 2, v => 2 * v.1 * v.2.1
  | _, _, _ => 0

/-- The harmonics. -/
noncomputable def quadY (l m : ℕ) (p : Fin 14) : ℂ :=
  ⟨Real.sqrt (quadFactor l m) * quadRe l m (quadPoint p),
    Real.sqrt (quadFactor l m) * quadIm l m (quadPoint p)⟩

/-- The Legendre polynomials of the angle. -/
noncomputable def quadP (l : ℕ) (p q : Fin 14) : ℝ :=
  let c := (quadPoint p).1 * (quadPoint q).1 + (quadPoint p).2.1 * (quadPoint q).2.1
    + (quadPoint p).2.2 * (quadPoint q).2.2
  if l = 0 then 1 else if l = 1 then c else (3 * c ^ 2 - 1) / 2

/-- Mean over the pixels. -/
noncomputable def quadMean (F : ℝ × ℝ × ℝ → ℝ) : ℝ :=
  let s := Real.sqrt (1 / 3)
  1 / 15 * (F (1, 0, 0) + F (-1, 0, 0) + F (0, 1, 0) + F (0, -1, 0) + F (0, 0, 1) + F (0, 0, -1)) +
  3 / 40 * (F (s, s, s) + F (s, s, -s) + F (s, -s, s) + F (s, -s, -s) + F (-s, s, s) +
    F (-s, s, -s) + F (-s, -s, s) + F (-s, -s, -s))

theorem quad_sum (F : ℝ × ℝ × ℝ → ℝ) :
    ∑ p, quadWeight p * F (quadPoint p) = quadMean F := by
  simp only [Fin.sum_univ_succ, quadWeight, quadPoint, quadMean, Fin.sum_univ_zero]
  simp
  ring

theorem quad_unit (p : Fin 14) :
    (quadPoint p).1 ^ 2 + (quadPoint p).2.1 ^ 2 + (quadPoint p).2.2 ^ 2 = 1 := by
  fin_cases p <;> simp [quadPoint, -one_div] <;> norm_num

theorem quad_factor_sq (l m : ℕ) : Real.sqrt (quadFactor l m) ^ 2 = quadFactor l m := by
  refine Real.sq_sqrt ?_
  have := Real.pi_pos
  unfold quadFactor
  split <;> positivity

theorem quad_harmonics : Harmonics 3 quadY quadP := by
  have hpi := Real.pi_ne_zero
  have hre : ∀ l m p q, (quadY l m p).re * (quadY l m q).re =
      quadFactor l m * (quadRe l m (quadPoint p) * quadRe l m (quadPoint q)) := by
    intro l m p q
    rw [← quad_factor_sq]
    simp only [quadY]
    ring
  have him : ∀ l m p q, (quadY l m p).im * (quadY l m q).im =
      quadFactor l m * (quadIm l m (quadPoint p) * quadIm l m (quadPoint q)) := by
    intro l m p q
    rw [← quad_factor_sq]
    simp only [quadY]
    ring
  refine ⟨fun l hl p => ?_, fun l hl p q => ?_, fun l hl p => ?_⟩
  · interval_cases l <;> simp [quadY, quadIm]
  · have h1 := quad_unit p
    have h2 := quad_unit q
    simp only [hre, him]
    interval_cases l
    · simp [quadFactor, quadRe, quadP]
    · simp only [sum_range_succ, sum_range_zero, quadFactor, quadRe, quadIm, quadP]
      simp
      field_simp
      ring
    · simp only [sum_range_succ, sum_range_zero, quadFactor, quadRe, quadIm, quadP]
      simp
      field_simp
      generalize quadPoint p = u at *
      generalize quadPoint q = v at *
      obtain ⟨x, y, z⟩ := u
      obtain ⟨x', y', z'⟩ := v
      simp only at *
      have e1 : x ^ 2 = 1 - y ^ 2 - z ^ 2 := by linarith
      have e2 : x' ^ 2 = 1 - y' ^ 2 - z' ^ 2 := by linarith
      ring_nf
      simp only [e1, e2]
      ring
  · have h1 := quad_unit p
    have e : (quadPoint p).1 * (quadPoint p).1 + (quadPoint p).2.1 * (quadPoint p).2.1
      + (quadPoint p).2.2 * (quadPoint p).2.2 = 1 := by linarith
    simp only [quadP, e]
    split_ifs <;> norm_num

set_option maxHeartbeats 4000000 in
/-- The mean of products of two harmonics without factors. -/
theorem quad_products (l m l' m' : ℕ) (hm : m ≤ l) (hl : l < 3) (hm' : m' ≤ l') (hl' : l' < 3) :
    4 * Real.pi * quadFactor l m * quadMean (fun v => quadRe l m v * quadRe l' m' v) =
      (if l = l' ∧ m = m' then if m = 0 then 1 else 1 / 2 else 0) ∧
    quadMean (fun v => quadRe l m v * quadIm l' m' v) = 0 ∧
    quadMean (fun v => quadIm l m v * quadRe l' m' v) = 0 ∧
    4 * Real.pi * quadFactor l m * quadMean (fun v => quadIm l m v * quadIm l' m' v) =
      (if l = l' ∧ m = m' ∧ m ≠ 0 then 1 / 2 else 0) := by
  have hpi := Real.pi_ne_zero
  have hs : Real.sqrt (1 / 3) ^ 2 = 1 / 3 := Real.sq_sqrt (by norm_num)
  have hs4 : Real.sqrt (1 / 3) ^ 4 = 1 / 9 := by
    rw [show (4 : ℕ) = 2 * 2 from rfl, pow_mul, hs]; norm_num
  generalize hg : Real.sqrt (1 / 3) = s at hs hs4
  interval_cases l <;> interval_cases m <;> interval_cases l' <;> interval_cases m' <;>
    refine ⟨?_, ?_, ?_, ?_⟩ <;>
    simp only [quadMean, quadRe, quadIm, quadFactor, hg] <;> simp <;> (try field_simp) <;> ring_nf <;>
    (try simp only [hs, hs4]) <;> (try norm_num)

/-- The area of the pixels times the conjugate harmonics. -/
noncomputable def quadA (l m : ℕ) (p : Fin 14) : ℂ :=
  ((4 * Real.pi * quadWeight p : ℝ) : ℂ) * (starRingEnd ℂ) (quadY l m p)

/-- Analysis in the 14 pixels. -/
noncomputable def quadHealpix : Healpix (Fin 14 → ℝ) where
  getNside := fun _ => 1
  map2alm := fun k _ l m => ∑ p, quadA l m p * (k p : ℂ)
  alm2map := fun _ _ _ _ => 0
  alm2mapSpin := fun _ _ _ _ _ => (fun _ => 0, fun _ => 0)
  pixwin := fun _ _ => (fun _ => 1, fun _ => 1)

theorem quad_analysis : IsAnalysis 3 quadY quadHealpix.map2alm 2 univ quadA := by
  have key : ∀ (l m : ℕ) (c : ℝ) (F : ℝ × ℝ × ℝ → ℝ),
      ∑ p, quadA l m p * ((c * F (quadPoint p) : ℝ) : ℂ) =
      ⟨4 * Real.pi * Real.sqrt (quadFactor l m) * c * quadMean (fun v => quadRe l m v * F v),
        -(4 * Real.pi * Real.sqrt (quadFactor l m) * c *
          quadMean (fun v => quadIm l m v * F v))⟩ := by
    intro l m c F
    apply Complex.ext
    · dsimp only
      rw [Complex.re_sum, ← quad_sum, mul_sum]
      refine sum_congr rfl fun p _ => ?_
      simp only [quadA, quadY, Complex.mul_re, Complex.mul_im, Complex.conj_re, Complex.conj_im,
        Complex.ofReal_re, Complex.ofReal_im]
      ring
    · dsimp only
      rw [Complex.im_sum, ← quad_sum, mul_sum, ← sum_neg_distrib]
      refine sum_congr rfl fun p _ => ?_
      simp only [quadA, quadY, Complex.mul_re, Complex.mul_im, Complex.conj_re, Complex.conj_im,
        Complex.ofReal_re, Complex.ofReal_im]
      ring
  have scale : ∀ (l m l' m' : ℕ) (a : ℝ) (q : ℝ), l = l' ∧ m = m' →
      4 * Real.pi * quadFactor l m * q = a →
      4 * Real.pi * Real.sqrt (quadFactor l m) * Real.sqrt (quadFactor l' m') * q = a := by
    rintro l m l' m' a q ⟨rfl, rfl⟩ h
    rw [← h]
    nth_rw 3 [← quad_factor_sq]
    ring
  have zero : ∀ (l m l' m' : ℕ) (q : ℝ), m ≤ l → l < 3 → 4 * Real.pi * quadFactor l m * q = 0 →
      4 * Real.pi * Real.sqrt (quadFactor l m) * Real.sqrt (quadFactor l' m') * q = 0 := by
    intro l m l' m' q hm hl h
    have hpi := Real.pi_pos
    have hf : 0 < quadFactor l m := by
      interval_cases l <;> interval_cases m <;> simp only [quadFactor] <;> positivity
    have hq : q = 0 := by
      rcases mul_eq_zero.1 h with h | h
      · have : 0 < 4 * Real.pi * quadFactor l m := by positivity
        linarith
      · exact h
    rw [hq, mul_zero]
  refine ⟨fun k l m _ _ => rfl, fun l m l' hm hl hl' => ?_, fun l m l' m' hm hl hl' hm' => ?_,
    fun l m l' m' hm hl hl' hm' => ?_⟩
  · obtain ⟨h1, -, h3, -⟩ := quad_products l m l' 0 hm (by omega) (Nat.zero_le _) hl'
    have := key l m (Real.sqrt (quadFactor l' 0)) (quadRe l' 0)
    simp only [quadY] at this ⊢
    rw [this, h3]
    by_cases hc : l = l' ∧ m = 0
    · rw [if_pos hc, if_pos hc.2] at h1
      rw [if_pos hc, scale l m l' 0 _ _ hc h1]
      apply Complex.ext <;> simp
    · rw [if_neg hc] at h1
      rw [if_neg hc, zero l m l' 0 _ hm (by omega) h1]
      apply Complex.ext <;> simp
  · obtain ⟨h1, -, h3, -⟩ := quad_products l m l' (m' + 1) hm (by omega) hm' hl'
    have := key l m (Real.sqrt (quadFactor l' (m' + 1))) (quadRe l' (m' + 1))
    simp only [quadY] at this ⊢
    rw [this, h3]
    by_cases hc : l = l' ∧ m = m' + 1
    · rw [if_pos hc, if_neg (by omega)] at h1
      rw [if_pos hc, scale l m l' (m' + 1) _ _ hc h1]
      apply Complex.ext <;> simp
    · rw [if_neg hc] at h1
      rw [if_neg hc, zero l m l' (m' + 1) _ hm (by omega) h1]
      apply Complex.ext <;> simp
  · obtain ⟨-, h2, -, h4⟩ := quad_products l m l' (m' + 1) hm (by omega) hm' hl'
    have := key l m (Real.sqrt (quadFactor l' (m' + 1))) (quadIm l' (m' + 1))
    simp only [quadY] at this ⊢
    rw [this, h2]
    by_cases hc : l = l' ∧ m = m' + 1
    · rw [if_pos ⟨hc.1, hc.2, by omega⟩] at h4
      rw [if_pos hc, scale l m l' (m' + 1) _ _ hc h4]
      apply Complex.ext
      · simp
      · simp
        norm_num
    · rw [if_neg (fun h => hc ⟨h.1, h.2.1⟩)] at h4
      rw [if_neg hc, zero l m l' (m' + 1) _ hm (by omega) h4]
      apply Complex.ext <;> simp

/-- The spectra of two normal fields with modes up to the quadrupole. -/
noncomputable def quadSpectra : List (List ℝ) := [[2, 2, 2], [2, 2, 2], [1, 1, 1]]

theorem quad_admissible : maxLength quadSpectra = 3 ∧
    ∀ l < maxLength quadSpectra, Admissible 2 (modeCov quadSpectra 1 l) := by
  have hmax : maxLength quadSpectra = 3 := by simp [maxLength, quadSpectra]
  refine ⟨hmax, fun l hl => ?_⟩
  rw [hmax] at hl
  have h00 : modeCov quadSpectra 1 l 0 0 = 1 := by
    interval_cases l <;> simp [modeCov, clValue, quadSpectra]
  have h11 : modeCov quadSpectra 1 l 1 1 = 1 := by
    interval_cases l <;> simp [modeCov, clValue, quadSpectra]
  have h10 : modeCov quadSpectra 1 l 1 0 = 1 / 2 := by
    interval_cases l <;> simp [modeCov, clValue, quadSpectra]
  have h01 : modeCov quadSpectra 1 l 0 1 = 1 / 2 := by
    interval_cases l <;> simp [modeCov, clValue, quadSpectra]
  constructor
  · intro i hi h
    interval_cases i
    · rw [h00] at h; linarith
    · rw [h11] at h; linarith
  · rintro v ⟨i, hi, -, hv⟩
    simp only [quad, sum_range_succ, sum_range_zero, h00, h11, h10, h01]
    have hq : 0 < v 0 ^ 2 + v 1 ^ 2 := by
      interval_cases i
      · have := sq_pos_of_ne_zero hv
        nlinarith [sq_nonneg (v 1)]
      · have := sq_pos_of_ne_zero hv
        nlinarith [sq_nonneg (v 0)]
    nlinarith [sq_nonneg (v 0 + v 1)]

/-- **C146** A case that meets all hypotheses: two shells, where the lensing weight of the first
shell for sources on the second one is `3/4`.  The quadrupole of the shear of these sources has the
variance `2/3 · 9/16 · 2 = 3/4`. -/
theorem shear_quadrupole : ∃ (Ω : Type) (_ : MeasurableSpace Ω) (μ : Measure Ω) (X : Ω → Normals)
    (alm2map : List ℂ → Fin 14 → ℝ) (cltovar : List ℝ → ℝ) (M : ℕ → Fin 14 → Ω → ℝ)
    (planes : Ω → List (Fin 14 → ℝ)),
    (∀ ω, ∃ maps, generate .inplace alm2map cltovar (fun t x v p => Transformation.call t (x p) v)
      (X ω) [.normal, .normal] quadSpectra none = (maps, none) ∧ maps.length = 2 ∧
      ∀ i < 2, maps[i]? = some fun p => M i p ω) ∧
    (∀ ω, convergencePlanes (flatCosmology 1 1 (fun z => z) fun z => 1 + z) (fun i p => M i p ω)
      [⟨[(0, 0), (1, 1), (2, 0)], 1⟩, ⟨[(1, 0), (2, 1), (3, 0)], 2⟩] 0 (MPC.init _)
        = .ok (planes ω)) ∧
    ∀ m ≤ 2, modeCovariance μ
      (fun ω => shearModes quadHealpix 1 2 false (meanConvergence [0, 1] (planes ω)) 2 m)
      (fun ω => shearModes quadHealpix 1 2 false (meanConvergence [0, 1] (planes ω)) 2 m) = 3 / 4 := by
  obtain ⟨rows, hrows, e10, e00, e11⟩ := two_shells
  obtain ⟨Ω, _, μ, X, hX⟩ := exists_standardNormals
  obtain ⟨alm2map, hsyn⟩ := exists_synthesis quadY
  obtain ⟨hmax, hadm⟩ := quad_admissible
  obtain ⟨M, planes, lw, out, h1, h2, h3, h4, -, h5⟩ := shear_spectra .inplace hsyn
    (cltovar := fun cl => ∑ l ∈ range cl.length, (2 * l + 1) / (4 * Real.pi) * cl[l]?.getD 0)
    (fun _ => rfl) (P := quadP)
    (fun l p p' => by simp only [quadP]; split_ifs <;> ring)
    (fields := [.normal, .normal]) (by simp) (spectra := quadSpectra) rfl
    (by rw [hmax]; norm_num) (by rw [hmax]; exact quad_harmonics) none
    (by simp only [Option.getD_none, List.length_cons, List.length_nil]; omega) hadm hX
    (flatCosmology 1 1 (fun z => z) fun z => 1 + z)
    (shells := [⟨[(0, 0), (1, 1), (2, 0)], 1⟩, ⟨[(1, 0), (2, 1), (3, 0)], 2⟩]) (by simp) rfl hrows 1
    (fun _ => [0, 1]) (fun _ _ => two_shells_proper) quadHealpix (nside := 1) (fun _ => rfl) none
    (pix := univ) (A := quadA) (by rw [hmax]; exact quad_analysis) false
  refine ⟨Ω, _, μ, X, alm2map, _, M, planes, h1, h2, fun m hm => ?_⟩
  obtain ⟨cl, g1, g2⟩ := h5 0 (by norm_num) 0 (by norm_num)
  have g3 := g2 2 m 2 m hm (by norm_num) hm (by norm_num)
  refine g3.trans ?_
  have hlw : lw 0 = [3 / 4, 0] := by
    have := h3 0 (by norm_num)
    have hl := (matrix_strictly_lower _ _ _ hrows).1
    rw [List.length_cons, List.length_cons, List.length_nil] at hl
    obtain ⟨r0, r1, rfl⟩ : ∃ r0 r1, rows = [r0, r1] := by
      rcases rows with _ | ⟨r0, _ | ⟨r1, _ | ⟨r2, rest⟩⟩⟩ <;> simp at hl ⊢
    simp only [List.getElem!_cons_zero, List.getElem!_cons_succ] at e10 e00 e11
    simp only [multiPlaneWeights, hrows] at this
    simp [bind, Except.bind, List.range_succ, e10, e11] at this
    exact this.symm
  obtain ⟨out', k1, k2⟩ := effective_auto quadSpectra 2 rfl (weightArray 2 1 lw) rfl 3
  have k3 : effectiveCls quadSpectra (weightArray 2 1 lw) none none =
      effectiveCls quadSpectra (weightArray 2 1 lw) none (some 3) := rfl
  rw [show [Transformation.normal, Transformation.normal].length = 2 from rfl, k3, k1,
    Except.ok.injEq] at h4
  subst h4
  have k4 := k2 [0] [0] ⟨by norm_num, trivial⟩ ⟨by norm_num, trivial⟩
  rw [show ([0] : List ℕ) ++ [0] = [0, 0] from rfl, g1, Option.some.injEq] at k4
  rw [if_pos ⟨rfl, rfl⟩, k4]
  simp [weightArray, hlw, sum_range_succ, clValue, quadSpectra, List.range_succ, windowRatio]
  norm_num

end Glass.Lensing
