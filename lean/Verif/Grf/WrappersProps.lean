import Verif.Grf.Wrappers
import Verif.Grf.MapStatistics

/-! # Properties of the samplers for fields of one kind (C98) -/

namespace Glass.Grf

open Finset MeasureTheory ProbabilityTheory Transformation Glass.Spectra

variable {S : Type*}

/-- **C98** `generate_gaussian` yields the Gaussian maps themselves, one for each field, in order,
until the first exception. -/
theorem generate_gaussian_maps (b : Backend) (alm2map : List ℂ → S → ℝ) (cltovar : List ℝ → ℝ)
    (nrm : Normals) (gls : List (List ℝ)) (ncorr : Option ℕ) (N : ℕ)
    (h : gls.length = N * (N + 1) / 2) :
    generateGaussian b alm2map cltovar nrm gls ncorr
      = ((generateAlm b nrm gls ncorr).1.map alm2map, (generateAlm b nrm gls ncorr).2) ∧
    ((generateAlm b nrm gls ncorr).2 = none → (generateAlm b nrm gls ncorr).1.length = N) := by
  unfold generateGaussian
  rw [nfields_tri gls N h]
  dsimp only
  set fields : List Transformation := (List.range N).map fun _ => .normal with hf
  have hlen : fields.length = N := by simp [hf]
  rcases hrun : generate b alm2map cltovar applyMap nrm fields gls ncorr with ⟨out, err⟩
  obtain ⟨k1, k2, k3, k4⟩ := generate_maps b alm2map cltovar applyMap nrm fields gls ncorr
    (by rw [hlen]; exact h) out err hrun
  refine ⟨?_, ?_⟩
  · rw [← k1]
    congr 1
    refine List.ext_getElem (by simp [k2]) fun i h1 h2 => ?_
    obtain ⟨t, alm, e1, e2, e3⟩ := k4 i out[i] (List.getElem?_eq_getElem h1)
    have ht : t = .normal := by
      rw [hf, List.getElem?_map] at e1
      rcases hx : (List.range N)[i]? with _ | x <;> rw [hx] at e1 <;> simp at e1
      exact e1.symm
    rw [e3, ht, List.getElem_map]
    rw [List.getElem?_eq_some_iff] at e2
    obtain ⟨e4, e5⟩ := e2
    rw [e5]
    rfl
  · intro he
    rw [← k1] at he
    have := k3 he
    omega

/-- **C98** `generate_lognormal` yields the shifted exponentials of the Gaussian maps, normalised
with the variance of the auto-spectra; one for each field, in order, until the first exception. -/
theorem generate_lognormal_maps (b : Backend) (alm2map : List ℂ → S → ℝ) (cltovar : List ℝ → ℝ)
    (nrm : Normals) (gls : List (List ℝ)) (shift : ℝ) (ncorr : Option ℕ) (N : ℕ)
    (h : gls.length = N * (N + 1) / 2) (out : List (S → ℝ)) (err : Option Err)
    (hrun : generateLognormal b alm2map cltovar nrm gls shift ncorr = (out, err)) :
    err = (generateAlm b nrm gls ncorr).2 ∧
    out.length = (generateAlm b nrm gls ncorr).1.length ∧ (err = none → out.length = N) ∧
    ∀ (i : ℕ) (x : S → ℝ), out[i]? = some x → ∃ alm, (generateAlm b nrm gls ncorr).1[i]? = some alm ∧
      ∀ p, x p = shift * (Real.exp (alm2map alm p
        - cltovar ((gls[i * (i + 1) / 2]?).getD []) / 2) - 1) := by
  unfold generateLognormal at hrun
  rw [nfields_tri gls N h] at hrun
  dsimp only at hrun
  set fields : List Transformation := (List.range N).map fun _ => .lognormal shift with hf
  have hlen : fields.length = N := by simp [hf]
  obtain ⟨k1, k2, k3, k4⟩ := generate_maps b alm2map cltovar applyMap nrm fields gls ncorr
    (by rw [hlen]; exact h) out err hrun
  refine ⟨k1, k2, fun he => by rw [k3 he, hlen], fun i x hx => ?_⟩
  obtain ⟨t, alm, e1, e2, e3⟩ := k4 i x hx
  have ht : t = .lognormal shift := by
    rw [hf, List.getElem?_map] at e1
    rcases hx : (List.range N)[i]? with _ | x <;> rw [hx] at e1 <;> simp at e1
    exact e1.symm
  refine ⟨alm, e2, fun p => ?_⟩
  rw [e3, ht]
  exact call_lognormal _ _ _

/-- Without further arguments, the fields are lognormal with shift 1 and all correlations are kept. -/
theorem generate_lognormal_default (b : Backend) (alm2map : List ℂ → S → ℝ) (cltovar : List ℝ → ℝ)
    (nrm : Normals) (gls : List (List ℝ)) :
    generateLognormal b alm2map cltovar nrm gls = generateLognormal b alm2map cltovar nrm gls 1 none :=
  rfl

/-- **C98** A number of spectra that is not triangular raises `ValueError` before any map. -/
theorem wrappers_reject (b : Backend) (alm2map : List ℂ → S → ℝ) (cltovar : List ℝ → ℝ)
    (nrm : Normals) (gls : List (List ℝ)) (shift : ℝ) (ncorr : Option ℕ)
    (h : ∀ N, gls.length ≠ N * (N + 1) / 2) :
    generateGaussian b alm2map cltovar nrm gls ncorr
      = ([], some (.value "invalid number of spectra")) ∧
    generateLognormal b alm2map cltovar nrm gls shift ncorr
      = ([], some (.value "invalid number of spectra")) := by
  unfold generateGaussian generateLognormal
  rw [nfields_error gls h]
  exact ⟨rfl, rfl⟩

/-- **C98** The documented exception: if all spectra are empty, `ValueError` is raised before any
map, provided that there is a spectrum at all. -/
theorem wrappers_all_empty (b : Backend) (alm2map : List ℂ → S → ℝ) (cltovar : List ℝ → ℝ)
    (nrm : Normals) (gls : List (List ℝ)) (shift : ℝ) (ncorr : Option ℕ) (hne : gls ≠ [])
    (h : ∀ gl ∈ gls, gl = []) :
    ∃ msg, generateGaussian b alm2map cltovar nrm gls ncorr = ([], some (.value msg)) ∧
      ∃ msg, generateLognormal b alm2map cltovar nrm gls shift ncorr = ([], some (.value msg)) := by
  by_cases hN : ∃ N, gls.length = N * (N + 1) / 2
  · obtain ⟨N, hN⟩ := hN
    have hL : maxLength gls = 0 := by
      unfold maxLength
      have : ∀ (s : List (List ℝ)), (∀ gl ∈ s, gl = []) →
          s.foldl (fun a gl => max a gl.length) 0 = 0 := by
        intro s
        induction s with
        | nil => intro _; rfl
        | cons g s ih =>
          intro hs
          rw [List.foldl_cons, hs g (by simp)]
          simpa using ih fun gl hgl => hs gl (by simp [hgl])
      exact this gls h
    have hlen : gls.length ≠ 0 := by simpa using hne
    have ha : ∃ msg, generateAlm b nrm gls ncorr = ([], some (.value msg)) := by
      unfold generateAlm
      rw [if_neg hlen, nfields_tri gls N hN]
      dsimp only
      rw [if_pos hL]
      exact ⟨_, rfl⟩
    obtain ⟨msg, ha⟩ := ha
    refine ⟨msg, ?_, msg, ?_⟩
    · rw [(generate_gaussian_maps b alm2map cltovar nrm gls ncorr N hN).1, ha]
      rfl
    · rcases hrun : generateLognormal b alm2map cltovar nrm gls shift ncorr with ⟨out, err⟩
      obtain ⟨k1, k2, -⟩ := generate_lognormal_maps b alm2map cltovar nrm gls shift ncorr N hN out err
        hrun
      rw [ha] at k1 k2
      rw [k1, List.length_eq_zero_iff.1 k2]
  · have hN' : ∀ N, gls.length ≠ N * (N + 1) / 2 := fun N hh => hN ⟨N, hh⟩
    obtain ⟨h1, h2⟩ := wrappers_reject b alm2map cltovar nrm gls shift ncorr hN'
    exact ⟨_, h1, _, h2⟩

/-- With no spectra at all, the failure is a `TypeError` instead. -/
theorem wrappers_no_spectra (b : Backend) (alm2map : List ℂ → S → ℝ) (cltovar : List ℝ → ℝ)
    (nrm : Normals) (shift : ℝ) (ncorr : Option ℕ) :
    ∃ msg, generateGaussian b alm2map cltovar nrm [] ncorr = ([], some (.type msg)) ∧
      ∃ msg, generateLognormal b alm2map cltovar nrm [] shift ncorr = ([], some (.type msg)) := by
  have ha : generateAlm b nrm [] ncorr = ([], some (.type "no array namespace")) := by
    simp [generateAlm]
  refine ⟨"no array namespace", ?_, "no array namespace", ?_⟩
  · rw [(generate_gaussian_maps b alm2map cltovar nrm [] ncorr 0 rfl).1, ha]
    rfl
  · rcases hrun : generateLognormal b alm2map cltovar nrm [] shift ncorr with ⟨out, err⟩
    obtain ⟨k1, k2, -⟩ := generate_lognormal_maps b alm2map cltovar nrm [] shift ncorr 0 rfl out err
      hrun
    rw [ha] at k1 k2
    rw [k1, List.length_eq_zero_iff.1 k2]

/-- **C98** For admissible spectra and independent standard normal numbers, both functions yield one
map per field; the Gaussian maps have the covariance `ξ` of the spectra, and the lognormal maps have
mean zero, values above `-shift` for positive shifts, and covariance `shift² (exp ξ - 1)`. -/
theorem wrappers_statistics {Ω : Type*} [MeasurableSpace Ω] (b : Backend) {Y : ℕ → ℕ → S → ℂ}
    {P : ℕ → S → S → ℝ} {alm2map : List ℂ → S → ℝ} (hsyn : IsSynthesis Y alm2map)
    {cltovar : List ℝ → ℝ} (hvar : IsVariance cltovar) (gls : List (List ℝ)) (shift : ℝ)
    (ncorr : Option ℕ) (N : ℕ) (h : gls.length = N * (N + 1) / 2) (hL : 0 < maxLength gls)
    (hY : Harmonics (maxLength gls) Y P)
    (hadm : ∀ l < maxLength gls, Admissible N (modeCov gls (ncorr.getD (N - 1)) l))
    {μ : Measure Ω} {X : Ω → Normals} (hX : StandardNormals μ X) :
    ∃ G M : ℕ → S → Ω → ℝ,
      (∀ ω, ∃ out, generateGaussian b alm2map cltovar (X ω) gls ncorr = (out, none) ∧
        out.length = N ∧ ∀ i < N, out[i]? = some fun p => G i p ω) ∧
      (∀ ω, ∃ out, generateLognormal b alm2map cltovar (X ω) gls shift ncorr = (out, none) ∧
        out.length = N ∧ ∀ i < N, out[i]? = some fun p => M i p ω) ∧
      (∀ i < N, ∀ p ω, 0 < shift → -shift < M i p ω) ∧
      ∀ i < N, ∀ j < N, ∀ p q,
        HasMean μ (G i p) 0 ∧ HasMean μ (M i p) 0 ∧
        HasMean μ (fun ω => G i p ω * G j q ω) (pointCov P gls (ncorr.getD (N - 1)) i j p q) ∧
        HasMean μ (fun ω => M i p ω * M j q ω)
          (shift ^ 2 * (Real.exp (pointCov P gls (ncorr.getD (N - 1)) i j p q) - 1)) := by
  have key : ∀ t : Transformation, (∀ a l, t ≠ .squared a l) → ∃ M : ℕ → S → Ω → ℝ,
      (∀ ω, ∃ out, generate b alm2map cltovar applyMap (X ω) ((List.range N).map fun _ => t) gls ncorr
          = (out, none) ∧ out.length = N ∧ ∀ i < N, out[i]? = some fun p => M i p ω) ∧
      ∀ i < N, ∀ j < N, ∀ p q, HasMean μ (M i p) 0 ∧
        ∃ y, corr t t (pointCov P gls (ncorr.getD (N - 1)) i j p q) = .ok y ∧
          HasMean μ (fun ω => M i p ω * M j q ω) y := by
    intro t hs
    set fields : List Transformation := (List.range N).map fun _ => t with hf
    have hlen : fields.length = N := by simp [hf]
    obtain ⟨M, h1, h2⟩ := generate_moments b hsyn hvar fields gls ncorr (by rw [hlen]; exact h) hL hY
      (by rw [hlen]; exact hadm) hX
    rw [hlen] at h1 h2
    have hget : ∀ i < N, fields[i]? = some t := by
      intro i hi
      rw [hf, List.getElem?_map, List.getElem?_range hi]
      rfl
    exact ⟨M, h1, fun i hi j hj p q => h2 i j t t (hget i hi) (hget j hj) hs hs p q⟩
  obtain ⟨G, g1, g2⟩ := key .normal (by simp)
  obtain ⟨M, m1, m2⟩ := key (.lognormal shift) (by simp)
  have e1 : ∀ ω, generateGaussian b alm2map cltovar (X ω) gls ncorr
      = generate b alm2map cltovar applyMap (X ω) ((List.range N).map fun _ => .normal) gls ncorr := by
    intro ω; unfold generateGaussian; rw [nfields_tri gls N h]
  have e2 : ∀ ω, generateLognormal b alm2map cltovar (X ω) gls shift ncorr
      = generate b alm2map cltovar applyMap (X ω) ((List.range N).map fun _ => .lognormal shift) gls
        ncorr := by
    intro ω; unfold generateLognormal; rw [nfields_tri gls N h]
  refine ⟨G, M, fun ω => by rw [e1]; exact g1 ω, fun ω => by rw [e2]; exact m1 ω, ?_, ?_⟩
  · intro i hi p ω hpos
    obtain ⟨out, q1, q2, q3⟩ := m1 ω
    rw [← e2] at q1
    obtain ⟨-, -, -, k⟩ := generate_lognormal_maps b alm2map cltovar (X ω) gls shift ncorr N h out none
      q1
    obtain ⟨alm, -, hx⟩ := k i _ (q3 i hi)
    rw [hx p]
    nlinarith [mul_pos hpos (Real.exp_pos (alm2map alm p
      - cltovar ((gls[i * (i + 1) / 2]?).getD []) / 2))]
  · intro i hi j hj p q
    obtain ⟨a1, y, a2, a3⟩ := g2 i hi j hj p q
    obtain ⟨b1, z, b2, b3⟩ := m2 i hi j hj p q
    simp only [corr, dispatch, corrM, Except.ok.injEq] at a2 b2
    refine ⟨a1, b1, ?_, ?_⟩
    · rw [a2]; exact a3
    · refine b3.congr (fun _ => rfl) ?_
      rw [← b2, expm1]
      ring

/-- A number of spectra that is not triangular. -/
example : ∀ N, ([[1], [2]] : List (List ℝ)).length ≠ N * (N + 1) / 2 := by
  intro N hN
  have hN : tri N = 2 := hN.symm
  rcases N with _ | _ | N
  · simp [tri] at hN
  · simp [tri] at hN
  · have := tri_mono (show 2 ≤ N + 1 + 1 by omega)
    rw [hN] at this
    simp [tri] at this

end Glass.Grf
