import Verif.Grf.MapStatistics
import Verif.Grf.GaussianProps

/-!
# From requested spectra to the sampled maps

The two steps of a simulation together: the Gaussian spectra computed for the requested spectra,
and the maps sampled from them.
-/

namespace Glass.Grf

open Finset MeasureTheory ProbabilityTheory Transformation Glass.Spectra

variable {Ω : Type*} [MeasurableSpace Ω]

/-- The correlation function of a spectrum between two points. -/
noncomputable def correlation {S : Type*} (P : ℕ → S → S → ℝ) (cl : List ℝ) (p p' : S) : ℝ :=
  ∑ l ∈ range cl.length, (2 * l + 1) / (4 * Real.pi) * cl[l]?.getD 0 * P l p p'

/-- `transformcl.cltocorr` returns the correlation function of a spectrum of `n` entries at `n`
separations; `sep n q p p'` says that `p` and `p'` have the separation number `q` of these. -/
structure IsCorrelation {S : Type*} (P : ℕ → S → S → ℝ) (sep : ℕ → ℕ → S → S → Prop)
    (cltocorr : List ℝ → List ℝ) : Prop where
  length : ∀ cl, (cltocorr cl).length = cl.length
  value : ∀ (cl : List ℝ) (q : ℕ), q < cl.length → ∀ p p', sep cl.length q p p' →
    (cltocorr cl)[q]? = some (correlation P cl p p')

theorem pointCov_correlation {S : Type*} (P : ℕ → S → S → ℝ) (gls : List (List ℝ)) {nc i j : ℕ}
    (hj : j ≤ i) (hn : i - j ≤ nc) {gl : List ℝ}
    (hgl : gls[i * (i + 1) / 2 + (i - j)]? = some gl) (p p' : S) :
    pointCov P gls nc i j p p' = correlation P gl p p' := by
  unfold pointCov correlation
  rw [if_pos (by omega)]
  have hcl : ∀ l, clValue gls i j l = gl[l]?.getD 0 := by
    intro l
    simp only [clValue]
    rw [max_eq_left hj, min_eq_right hj, hgl]
    rfl
  rw [sum_congr rfl fun l _ => by rw [hcl l]]
  symm
  refine sum_subset (range_subset_range.2 (maxLength_le gls gl (List.mem_of_getElem? hgl)))
    fun l _ hl => ?_
  rw [mem_range, not_lt] at hl
  rw [List.getElem?_eq_none hl]
  simp

/-- **C97** Let the Gaussian spectra be computed from realisable requested spectra, and let
`generate` sample them with independent standard normal numbers.  Then the maps consist of values
of the transformations and have mean zero,
and at any two points with a separation of the correlation transform, the covariance of the maps
`i` and `j` is the correlation function of the requested spectrum. -/
theorem generate_requested {S : Type*} (b : Backend) {Y : ℕ → ℕ → S → ℂ} {P : ℕ → S → S → ℝ}
    {alm2map : List ℂ → S → ℝ} (hsyn : IsSynthesis Y alm2map) {cltovar : List ℝ → ℝ}
    (hvar : IsVariance cltovar) {cltocorr corrtocl : List ℝ → List ℝ}
    (ht : TransformLaw cltocorr corrtocl) {sep : ℕ → ℕ → S → S → Prop}
    (hcorr : IsCorrelation P sep cltocorr) {fields : List Transformation}
    {spectra gls : List (List ℝ)} (hr : Realisable cltocorr fields spectra)
    (hg : computeGaussianSpectra (fun cl t1 t2 => compute cltocorr corrtocl cl t1 (some t2))
      fields spectra = .ok gls)
    (hL : 0 < maxLength gls) (hY : Harmonics (maxLength gls) Y P) (ncorr : Option ℕ)
    (hadm : ∀ l < maxLength gls,
      Admissible fields.length (modeCov gls (ncorr.getD (fields.length - 1)) l))
    (hfit : ∀ i (hi : i < fields.length), VarianceFits fields[i]
      (cltovar ((gls[i * (i + 1) / 2]?).getD [])))
    {μ : Measure Ω} {X : Ω → Normals} (hX : StandardNormals μ X) :
    ∃ M : ℕ → S → Ω → ℝ,
      (∀ ω, ∃ out, generate b alm2map cltovar (fun t x v p => call t (x p) v) (X ω) fields gls ncorr
          = (out, none) ∧ out.length = fields.length ∧
        ∀ i < fields.length, out[i]? = some fun p => M i p ω) ∧
      (∀ i (hi : i < fields.length) p ω, ∃ x v, M i p ω = call fields[i] x v) ∧
      (∀ i < fields.length, ∀ p, HasMean μ (M i p) 0) ∧
      ∀ i < fields.length, ∀ j ≤ i, i - j ≤ ncorr.getD (fields.length - 1) →
        ∃ cl, spectra[i * (i + 1) / 2 + (i - j)]? = some cl ∧
          ∀ q < cl.length, ∀ p p', sep cl.length q p p' →
            HasMean μ (fun ω => M i p ω * M j p' ω) (correlation P cl p p') := by
  have hspec := (compute_gaussian_spec _ _ _ _).1 hg
  obtain ⟨gls', hg', hlen, hrec⟩ := compute_gaussian_recovers ht hr
  rw [hg, Except.ok.injEq] at hg'
  subst hg'
  have hcount : gls.length = fields.length * (fields.length + 1) / 2 := hlen.trans hr.count
  obtain ⟨G, h1, h2⟩ := generate_statistics b hsyn hvar fields gls ncorr hcount hL hY hadm hX
  refine ⟨fun i p ω => call ((fields[i]?).getD .normal) (G i p ω)
    (cltovar ((gls[i * (i + 1) / 2]?).getD [])), fun ω => ?_, fun i hi p ω =>
    ⟨G i p ω, cltovar ((gls[i * (i + 1) / 2]?).getD []), by simp [List.getElem?_eq_getElem hi]⟩,
    ?_, ?_⟩
  · obtain ⟨out, q1, q2, q3⟩ := h1 ω
    refine ⟨out, q1, q2, fun i hi => ?_⟩
    obtain ⟨x, r1, r2⟩ := q3 i _ (List.getElem?_eq_getElem hi)
    rw [r1]
    congr 1
    funext p
    dsimp only
    rw [r2 p, List.getElem?_eq_getElem hi]
    rfl
  · intro i hi p
    have hjn := h2 i hi i hi p p
    have hv := hfit i hi
    simp only [List.getElem?_eq_getElem hi, Option.getD_some]
    have hm := lognormal_mean hjn
    rcases hf : fields[i] with _ | l | ⟨a, l⟩
    · exact (hm 1).2
    · exact (hm l).1
    · rw [hf] at hv
      exact squared_mean hjn a l hv
  · intro i hi j hj hn
    obtain ⟨cl, gl, e1, e2, e3, e4⟩ := hrec i j hi hj
    refine ⟨cl, e1, fun q hq p p' hs => ?_⟩
    have hne : cl ≠ [] := by rintro rfl; simp at hq
    have hj' : j < fields.length := lt_of_le_of_lt hj hi
    have hjn := h2 i hi j hj' p p'
    rw [pointCov_correlation P gls hj hn e2] at hjn
    have hglen : gl.length = cl.length := by
      have h5 := e4 hne
      rw [corrList_ok _ _ (hr.pair i j hi hj cl e1 hne).1, Except.ok.injEq] at h5
      have h6 := congrArg List.length h5
      rwa [List.length_map, hcorr.length, hcorr.length] at h6
    have hc : (cltocorr gl)[q]? = some (correlation P gl p p') :=
      hcorr.value gl q (by omega) p p' (by rw [hglen]; exact hs)
    obtain ⟨-, -, y, hy, hm⟩ := compute_gaussian_statistics ht hr hg hi hj e1 e2 hne hc hjn
      (hfit i hi) (hfit j hj')
    rw [hcorr.value cl q hq p p' hs, Option.some.injEq] at hy
    subst hy
    simp only [List.getElem?_eq_getElem hi, List.getElem?_eq_getElem hj', Option.getD_some]
    exact hm

/-! ### A case that meets all hypotheses -/

/-- The transform for up to two entries with the separations `cos θ = ±1/2`. -/
noncomputable def dipoleCorr : List ℝ → List ℝ
  | [a] => [a / (4 * Real.pi)]
  | [a, b] => [(a + 3 * b / 2) / (4 * Real.pi), (a - 3 * b / 2) / (4 * Real.pi)]
  | c => c

/-- Its inverse. -/
noncomputable def dipoleCl : List ℝ → List ℝ
  | [x] => [4 * Real.pi * x]
  | [x, y] => [2 * Real.pi * (x + y), 4 * Real.pi / 3 * (x - y)]
  | c => c

theorem dipole_transform : TransformLaw dipoleCorr dipoleCl := by
  have hpi : Real.pi ≠ 0 := Real.pi_ne_zero
  constructor
  · rintro (_ | ⟨a, _ | ⟨b, _ | ⟨c, l⟩⟩⟩) <;> simp only [dipoleCorr, dipoleCl, List.cons.injEq, and_true]
    · field_simp
    · constructor <;> field_simp <;> ring
  · rintro (_ | ⟨a, _ | ⟨b, _ | ⟨c, l⟩⟩⟩) <;> simp only [dipoleCorr, dipoleCl, List.cons.injEq, and_true]
    · field_simp
    · constructor <;> field_simp <;> ring

/-- The separations of `dipoleCorr`. -/
def dipoleSep (n q : ℕ) (p p' : {v : ℝ × ℝ × ℝ // v.1 ^ 2 + v.2.1 ^ 2 + v.2.2 ^ 2 = 1}) : Prop :=
  let x := p.1.1 * p'.1.1 + p.1.2.1 * p'.1.2.1 + p.1.2.2 * p'.1.2.2
  n = 1 ∨ n = 2 ∧ (q = 0 ∧ x = 1 / 2 ∨ q = 1 ∧ x = -1 / 2)

theorem dipole_correlation : IsCorrelation
    (fun l p q => if l = 0 then 1 else p.1.1 * q.1.1 + p.1.2.1 * q.1.2.1 + p.1.2.2 * q.1.2.2)
    dipoleSep dipoleCorr := by
  constructor
  · rintro (_ | ⟨a, _ | ⟨b, _ | ⟨c, l⟩⟩⟩) <;> simp [dipoleCorr]
  · rintro (_ | ⟨a, _ | ⟨b, _ | ⟨c, l⟩⟩⟩) q hq p p' hs
    · simp at hq
    · obtain rfl : q = 0 := by simpa using hq
      simp only [dipoleCorr, correlation, List.length_singleton, sum_range_one]
      simp
      ring
    · simp only [dipoleSep, List.length_cons, List.length_nil] at hs
      simp only [dipoleCorr, correlation, List.length_cons, List.length_nil, sum_range_succ,
        sum_range_zero]
      rcases hs with hs | ⟨-, ⟨rfl, hx⟩ | ⟨rfl, hx⟩⟩
      · simp at hs
      · simp only [zero_add, if_true, one_ne_zero, if_false, hx]
        simp
        ring
      · simp only [zero_add, if_true, one_ne_zero, if_false, hx]
        simp
        ring
    · simp only [dipoleSep, List.length_cons] at hs
      omega

/-- The requested spectrum of a lognormal field with the correlations `e² - 1` and `e - 1` at the two
separations meets the hypotheses; its Gaussian spectrum is `[6 π, 4 π / 3]`. -/
theorem dipole_lognormal :
    Realisable dipoleCorr [.lognormal 1] [dipoleCl [Real.exp 2 - 1, Real.exp 1 - 1]] ∧
    computeGaussianSpectra (fun cl t1 t2 => compute dipoleCorr dipoleCl cl t1 (some t2))
      [.lognormal 1] [dipoleCl [Real.exp 2 - 1, Real.exp 1 - 1]] = .ok [dipoleCl [2, 1]] ∧
    maxLength [dipoleCl [2, 1]] = 2 ∧
    ∀ l < maxLength [dipoleCl [2, 1]], Admissible 1 (modeCov [dipoleCl [2, 1]] 0 l) := by
  have hpi := Real.pi_pos
  have hr : Realisable dipoleCorr [.lognormal 1]
      [dipoleCl [Real.exp 2 - 1, Real.exp 1 - 1]] := by
    refine ⟨rfl, by simp [NonDegenerate], ?_⟩
    intro i j hi hj cl hcl hne
    obtain rfl : i = 0 := by simpa using hi
    obtain rfl : j = 0 := by omega
    simp only [Nat.zero_mul, Nat.zero_div, Nat.sub_self, Nat.add_zero, List.getElem?_cons_zero,
      Option.some.injEq] at hcl
    subst hcl
    refine ⟨trivial, ?_⟩
    rw [dipole_transform.right]
    intro y hy
    simp only [List.mem_cons, List.not_mem_nil, or_false] at hy
    rcases hy with rfl | rfl <;> simp [TargetDom] <;> positivity
  have hg : computeGaussianSpectra (fun cl t1 t2 => compute dipoleCorr dipoleCl cl t1 (some t2))
      [.lognormal 1] [dipoleCl [Real.exp 2 - 1, Real.exp 1 - 1]] = .ok [dipoleCl [2, 1]] := by
    rw [compute_gaussian_spec]
    refine ⟨rfl, rfl, ?_⟩
    intro i j hi hj
    obtain rfl : i = 0 := by simpa using hi
    obtain rfl : j = 0 := by omega
    refine ⟨_, _, rfl, rfl, fun h => by simp [dipoleCl] at h, fun _ => ?_⟩
    unfold compute
    rw [dipole_transform.right]
    simp [icorrList, dispatch, arrayM, icorrM, log1p]
  have hg2 : dipoleCl [2, 1] = [2 * Real.pi * (2 + 1), 4 * Real.pi / 3 * (2 - 1)] := rfl
  have hmax : maxLength [dipoleCl [2, 1]] = 2 := by rw [hg2]; simp [maxLength]
  have hcl : ∀ l < 2, (0 : ℝ) < clValue [dipoleCl [2, 1]] 0 0 l := by
    intro l hl
    rw [hg2]
    interval_cases l
    · simp [clValue]; linarith
    · simp [clValue]; linarith
  refine ⟨hr, hg, hmax, ?_⟩
  intro l hl
  rw [hmax] at hl
  have h0 : modeCov [dipoleCl [2, 1]] 0 l 0 0 = clValue [dipoleCl [2, 1]] 0 0 l / 2 := by
    simp [modeCov]
  have := hcl l hl
  refine ⟨?_, ?_⟩
  · intro i hi hz
    obtain rfl : i = 0 := by simpa using hi
    rw [h0] at hz
    linarith
  · rintro v ⟨i, hi, -, hv⟩
    obtain rfl : i = 0 := by simpa using hi
    simp only [quad, sum_range_one, h0]
    have := mul_self_pos.2 hv
    nlinarith

/-- A lognormal field with the correlations `e² - 1` and `e - 1` at the two separations: the sampled map has the requested correlations. -/
example : ∃ (Ω : Type) (_ : MeasurableSpace Ω) (μ : Measure Ω) (X : Ω → Normals)
    (alm2map : List ℂ → {v : ℝ × ℝ × ℝ // v.1 ^ 2 + v.2.1 ^ 2 + v.2.2 ^ 2 = 1} → ℝ)
    (cltovar : List ℝ → ℝ) (gls : List (List ℝ)) (M : ℕ → _ → Ω → ℝ),
    computeGaussianSpectra (fun cl t1 t2 => compute dipoleCorr dipoleCl cl t1 (some t2))
      [.lognormal 1] [dipoleCl [Real.exp 2 - 1, Real.exp 1 - 1]] = .ok gls ∧
    (∀ ω, ∃ out, generate .inplace alm2map cltovar (fun t x v p => call t (x p) v) (X ω)
      [.lognormal 1] gls none = (out, none) ∧ out[0]? = some fun p => M 0 p ω) ∧
    ∀ p q, dipoleSep 2 0 p q → HasMean μ (fun ω => M 0 p ω * M 0 q ω) (Real.exp 2 - 1) := by
  obtain ⟨Ω, _, μ, X, hX⟩ := exists_standardNormals
  obtain ⟨alm2map, hsyn⟩ := exists_synthesis dipoleY
  obtain ⟨hr, hg, hmax, hadm⟩ := dipole_lognormal
  obtain ⟨M, h1, -, -, h2⟩ := generate_requested .inplace hsyn (cltovar := fun cl =>
    ∑ l ∈ range cl.length, (2 * l + 1) / (4 * Real.pi) * cl[l]?.getD 0) (fun _ => rfl)
    dipole_transform dipole_correlation hr hg (by rw [hmax]; norm_num)
    (by rw [hmax]; exact dipole_harmonics) none hadm (by
      intro i hi
      obtain rfl : i = 0 := by simpa using hi
      trivial) hX
  refine ⟨Ω, _, μ, X, alm2map, fun cl => ∑ l ∈ range cl.length, (2 * l + 1) / (4 * Real.pi)
    * cl[l]?.getD 0, _, M, hg, fun ω => ?_, fun p q hs => ?_⟩
  · obtain ⟨out, q1, q2, q3⟩ := h1 ω
    exact ⟨out, q1, q3 0 (by simp)⟩
  · obtain ⟨cl, e1, e2⟩ := h2 0 (by simp) 0 le_rfl (by simp)
    simp only [Nat.zero_mul, Nat.zero_div, Nat.sub_self, Nat.add_zero, List.getElem?_cons_zero,
      Option.some.injEq] at e1
    subst e1
    have h3 := e2 0 (by simp [dipoleCl]) p q (by simpa [dipoleCl] using hs)
    have h4 := dipole_correlation.value (dipoleCl [Real.exp 2 - 1, Real.exp 1 - 1]) 0
      (by simp [dipoleCl]) p q (by simpa [dipoleCl] using hs)
    rw [dipole_transform.right] at h4
    simp only [List.getElem?_cons_zero, Option.some.injEq] at h4
    rw [← h4] at h3
    exact h3

end Glass.Grf
