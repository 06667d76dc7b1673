import Verif.Grf.Prefix
import Verif.Grf.RequestedStatistics
import Mathlib.Probability.Distributions.Gaussian.HasGaussianLaw.Independence

/-!
# Property C144: a limited number of correlated fields

With the parameter `ncorr`, only the spectra of fields up to `ncorr` apart enter.  Here every run of
`generate`, whether it ends with an exception or not, is described by weights on the random numbers:
field `i` uses the numbers of the fields `i - ncorr`, …, `i` only.
-/

namespace Glass.Grf

open Finset MeasureTheory ProbabilityTheory Transformation Glass.Spectra

/-! ## Every run -/

theorem cutAndSolve_k {shape : List ℕ} {size : ℕ} {mat : List ℕ → ℕ → ℕ → ℝ} {row : Row}
    {st : State} (h : cutAndSolve shape size mat row = .ok st) : st.k = row.len - 1 := by
  unfold cutAndSolve at h
  simp only at h
  split_ifs at h
  simp only [Except.ok.injEq] at h
  rw [← h]

theorem step_k {prev : Option State} {row : Row} {st : State} (h : step prev row = .ok st) :
    st.k = row.len - 1 := by
  unfold step at h
  split_ifs at h
  split at h
  · exact cutAndSolve_k h
  · split_ifs at h
    exact cutAndSolve_k h

theorem iterate_k {k : ℕ} : ∀ (rows : List Row) (prev : Option State) (tail : Option Err),
    (∀ row ∈ rows, row.len = k + 1) → ∀ st ∈ (iterate prev rows tail).1, st.k = k := by
  intro rows
  induction rows with
  | nil => intro prev tail _ st hst; simp [iterate] at hst
  | cons row rows ih =>
    intro prev tail h st hst
    unfold iterate at hst
    split at hst
    · simp at hst
    · rename_i s hs
      simp only [List.mem_cons] at hst
      rcases hst with rfl | hst
      · rw [step_k hs, h row (by simp)]; rfl
      · exact ih _ _ (fun r hr => h r (by simp [hr])) st hst

/-- Every run of the sampling of Gaussian fields: the number of fields and the exception do not
depend on the random numbers, and the coefficients are linear in them, with weights that vanish
unless the number belongs to one of the fields `i - ncorr`, …, `i`. -/
theorem grf_runs (b : Backend) (gls : List (List ℝ)) (N : ℕ) (h : gls.length = N * (N + 1) / 2)
    (ncorr : Option ℕ) (hL : 0 < maxLength gls) :
    ∃ (n : ℕ) (err : Option Err) (W : ℕ → ℕ → ℕ → ℝ), n ≤ N ∧ (err = none → n = N) ∧
      (∀ l i q, ¬ (q ≤ i ∧ i - q ≤ ncorr.getD (N - 1)) → W l i q = 0) ∧
      ∀ nrm : Normals, ∃ alms : List (List ℂ), generateAlm b nrm gls ncorr = (alms, err) ∧
      alms.length = n ∧ ∀ i < n, ∃ alm, alms[i]? = some alm ∧
        alm.length = maxLength gls * (maxLength gls + 1) / 2 ∧
        ∀ l m, m ≤ l → l < maxLength gls → alm[m * (2 * maxLength gls - 1 - m) / 2 + l]? =
          some (realised m (∑ q ∈ range N, (W l i q : ℂ) * zValue nrm q l m)) := by
  set L := maxLength gls with hLd
  set nc := ncorr.getD (N - 1) with hnc
  set cov := cls2covRows b gls L N nc with hcov
  set ws := iternorm cov.1 cov.2 with hws
  have hk : ∀ w ∈ ws.1, w.k = nc := by
    intro w hw
    obtain ⟨st, hst, rfl⟩ := List.mem_map.1 hw
    refine iterate_k cov.1 none cov.2 (fun row hr => ?_) st hst
    obtain ⟨y, -, rfl⟩ := List.mem_map.1 hr
    rfl
  have hrun : ∀ nrm, generateAlm b nrm gls ncorr = grfLoop nrm L [] 0 ws.1 ws.2 := fun nrm =>
    generateAlm_eq b nrm gls ncorr N h hL
  have hkept : ∀ nrm, kept nrm (tri L) nc 0 = [] := fun nrm => by simp [kept]
  have hcomplete := generateAlm_complete b (fun _ _ _ => 0) gls ncorr N h
  rw [hrun] at hcomplete
  obtain ⟨alms0, e0, l0, -⟩ := grfLoop_kept (fun _ _ _ => 0) L hL nc ws.1 hk 0 ws.2
  rw [hkept] at e0
  rw [e0] at hcomplete
  simp only [l0] at hcomplete
  refine ⟨ws.1.length, ws.2, fun l i q => weightOn ws.1 [l] i q, hcomplete.1, hcomplete.2, ?_, ?_⟩
  · intro l i q hq
    simp only [weightOn]
    refine if_neg fun hc => hq ⟨hc.1, hc.2.trans ?_⟩
    by_cases hi : i < ws.1.length
    · rw [getElem!_pos ws.1 i hi, hk _ (List.getElem_mem hi)]
    · rw [getElem!_neg ws.1 i hi]; exact Nat.zero_le _
  intro nrm
  obtain ⟨alms, e, hl, halm⟩ := grfLoop_kept nrm L hL nc ws.1 hk 0 ws.2
  rw [hkept] at e
  refine ⟨alms, (hrun nrm).trans e, hl, fun i hi => ?_⟩
  obtain ⟨alm, h1, h2, h3⟩ := halm i _ (List.getElem?_eq_getElem hi)
  refine ⟨alm, h1, h2, fun l m hm hl' => ?_⟩
  rw [h3 l m hm hl', Nat.zero_add]
  congr 2
  have hsub : range (i + 1) ⊆ range N := range_subset_range.2 (by have := hcomplete.1; omega)
  rw [← sum_subset hsub (f := fun q => ((weightOn ws.1 [l] i q : ℝ) : ℂ) * zValue nrm q l m)]
  · refine sum_congr rfl fun q _ => ?_
    rw [mul_comm]
    simp only [weightOn, getElem!_pos ws.1 i hi]
  · intro q _ hq
    rw [mem_range, not_lt] at hq
    simp only [weightOn]
    rw [if_neg (by omega)]
    simp

/-- The value of a map in a point. -/
theorem synthesis_linear {S : Type*} {Y : ℕ → ℕ → S → ℂ} {alm2map : List ℂ → S → ℝ}
    (hsyn : IsSynthesis Y alm2map) (W : ℕ → ℕ → ℝ) (N L : ℕ) (nrm : Normals) {alm : List ℂ}
    (hlen : alm.length = L * (L + 1) / 2)
    (h : ∀ l m, m ≤ l → l < L → alm[m * (2 * L - 1 - m) / 2 + l]? =
      some (realised m (∑ q ∈ range N, (W l q : ℂ) * zValue nrm q l m))) (p : S) :
    alm2map alm p = ∑ d ∈ draws N L, W d.2.1.1 d.1 * basis Y d.2.1.1 d.2.1.2 p d.2.2
      * nrm d.1 (d.2.1.1 * (d.2.1.1 + 1) / 2 + (d.2.1.2 : ℕ)) d.2.2 := by
  rw [hsyn L alm hlen p, sum_draws N L fun k l m c => W l k * basis Y l m p c
    * nrm k (l * (l + 1) / 2 + m) c, sum_comm]
  refine sum_congr rfl fun l hl => ?_
  rw [mem_range] at hl
  have e0 := h l 0 (by omega) hl
  simp only [zero_mul, Nat.zero_div, zero_add] at e0
  rw [e0]
  rw [sum_comm, sum_range_succ', add_comm, mul_sum]
  congr 1
  · refine sum_congr rfl fun m hm => ?_
    rw [mem_range] at hm
    rw [h l (m + 1) (by omega) hl]
    simp only [Option.getD_some, realised, Nat.add_eq_zero_iff, one_ne_zero, and_false, if_false]
    rw [sum_mul, Complex.re_sum, mul_sum]
    refine sum_congr rfl fun k _ => ?_
    simp only [zValue, Fin.sum_univ_two, basis, Nat.add_eq_zero_iff, one_ne_zero, and_false,
      if_false, if_true, Complex.mul_re, Complex.mul_im, Complex.add_re, Complex.add_im,
      Complex.ofReal_re, Complex.ofReal_im, Complex.I_re, Complex.I_im]
    ring
  · simp only [Option.getD_some, realised, if_true]
    rw [Complex.re_ofReal_mul, Complex.re_sum, Complex.im_sum, ← sum_add_distrib, sum_mul]
    refine sum_congr rfl fun k _ => ?_
    simp only [zValue, Fin.sum_univ_two, basis, if_true, add_zero,
      Complex.mul_re, Complex.mul_im, Complex.add_re, Complex.add_im,
      Complex.ofReal_re, Complex.ofReal_im, Complex.I_re, Complex.I_im]
    ring

/-! ## Locality and independence -/

theorem healpix_surj (n k : ℕ) (hk : k < n * (n + 1) / 2) :
    ∃ l m, m ≤ l ∧ l < n ∧ k = m * (2 * n - 1 - m) / 2 + l := by
  have hlen : (almIndices n).length = tri n := by
    rw [(perm_almIndices n).length_eq, List.length_range]
  have hk' : k < (almIndices n).length := by rw [hlen]; exact hk
  obtain ⟨l, m, hm, e⟩ := exists_row (almIndices n)[k]
  have hl : l < n := by
    by_contra hcon
    have h1 : (almIndices n)[k] ∈ List.range (tri n) :=
      (perm_almIndices n).mem_iff.1 (List.getElem_mem hk')
    rw [List.mem_range, e] at h1
    have := tri_mono (show n ≤ l by omega)
    omega
  refine ⟨l, m, hm, hl, ?_⟩
  have h2 := almIndices_get n l m hm hl
  rw [← e, ← List.getElem?_eq_getElem hk'] at h2
  exact (List.getElem?_inj hk' (nodup_almIndices n)).1 h2.symm

/-- Fields that are more than `nc` apart. -/
def Apart (nc : ℕ) (A B : Set ℕ) : Prop := ∀ i ∈ A, ∀ j ∈ B, nc < i - j ∨ nc < j - i

/-- **C144** The exception, if any, and the number of maps do not depend on the random numbers; two
streams of random numbers that agree for the fields `i - ncorr`, …, `i` give the same map `i`. -/
theorem generate_local {T X : Type*} (b : Backend) (alm2map : List ℂ → X) (cltovar : List ℝ → ℝ)
    (apply : T → X → ℝ → X) (fields : List T) (gls : List (List ℝ)) (ncorr : Option ℕ)
    (nrm nrm' : Normals) :
    let r := generate b alm2map cltovar apply nrm fields gls ncorr
    let r' := generate b alm2map cltovar apply nrm' fields gls ncorr
    r.2 = r'.2 ∧ r.1.length = r'.1.length ∧
      ∀ i, (∀ q ≤ i, i - q ≤ ncorr.getD (fields.length - 1) → nrm q = nrm' q) →
        r.1[i]? = r'.1[i]? := by
  intro r r'
  by_cases hc : gls.length = fields.length * (fields.length + 1) / 2
  swap
  · have e : ∀ n, generate b alm2map cltovar apply n fields gls ncorr =
        ([], some (.value "mismatch between number of fields and gls")) := by
      intro n
      unfold generate
      simp only
      rw [if_pos hc]
    have e1 : r = _ := e nrm
    have e2 : r' = _ := e nrm'
    rw [e1, e2]
    exact ⟨rfl, rfl, fun _ _ => rfl⟩
  by_cases hL : 0 < maxLength gls
  swap
  · have e : ∀ n n', generateAlm b n gls ncorr = generateAlm b n' gls ncorr := by
      intro n n'
      unfold generateAlm
      split_ifs with h0
      · rfl
      · rw [nfields_tri gls fields.length hc]
        simp only
        rw [if_pos (by omega), if_pos (by omega)]
    have e1 : r = r' := by
      simp only [r, r', generate]
      rw [e nrm nrm']
    rw [e1]
    exact ⟨rfl, rfl, fun _ _ => rfl⟩
  obtain ⟨n, err, W, hn, -, hW, hrun⟩ := grf_runs b gls fields.length hc ncorr hL
  obtain ⟨alms, a1, a2, a3⟩ := hrun nrm
  obtain ⟨alms', b1, b2, b3⟩ := hrun nrm'
  obtain ⟨p1, p2, -, p4⟩ := generate_maps b alm2map cltovar apply nrm fields gls ncorr hc r.1 r.2 rfl
  obtain ⟨q1, q2, -, q4⟩ := generate_maps b alm2map cltovar apply nrm' fields gls ncorr hc r'.1 r'.2
    rfl
  simp only [a1, a2] at p1 p2 p4
  simp only [b1, b2] at q1 q2 q4
  refine ⟨p1.trans q1.symm, p2.trans q2.symm, fun i hi => ?_⟩
  rcases Nat.lt_or_ge i n with hlt | hge
  · obtain ⟨t, alm, e1, e2, e3⟩ := p4 i _ (List.getElem?_eq_getElem (by omega))
    obtain ⟨t', alm', f1, f2, f3⟩ := q4 i _ (List.getElem?_eq_getElem (by omega))
    rw [List.getElem?_eq_getElem (by omega), List.getElem?_eq_getElem (by omega), e3, f3]
    rw [e1, Option.some.injEq] at f1
    subst f1
    obtain ⟨x, x1, x2, x3⟩ := a3 i hlt
    obtain ⟨y, y1, y2, y3⟩ := b3 i hlt
    rw [e2, Option.some.injEq] at x1
    rw [f2, Option.some.injEq] at y1
    subst x1 y1
    have hsum : ∀ l m, ∑ q ∈ range fields.length, (W l i q : ℂ) * zValue nrm q l m =
        ∑ q ∈ range fields.length, (W l i q : ℂ) * zValue nrm' q l m := by
      intro l m
      refine sum_congr rfl fun q _ => ?_
      by_cases hq : q ≤ i ∧ i - q ≤ ncorr.getD (fields.length - 1)
      · simp only [zValue, hi q hq.1 hq.2]
      · rw [hW l i q hq]; simp
    have halm : alm = alm' := by
      apply List.ext_getElem?
      intro k
      rcases Nat.lt_or_ge k (maxLength gls * (maxLength gls + 1) / 2) with hk | hk
      · obtain ⟨l, m, hm, hl, rfl⟩ := healpix_surj (maxLength gls) k hk
        rw [x3 l m hm hl, y3 l m hm hl, hsum]
      · rw [List.getElem?_eq_none (by omega), List.getElem?_eq_none (by omega)]
    rw [halm]
  · rw [List.getElem?_eq_none (by omega), List.getElem?_eq_none (by omega)]

theorem call_measurable (t : Transformation) (v : ℝ) : Measurable fun x => call t x v := by
  rcases t with _ | l | ⟨a, l⟩
  · exact measurable_id
  · simp only [call, expm1]
    split_ifs <;> fun_prop
  · simp only [call]
    split_ifs <;> fun_prop

variable {Ω : Type*} [MeasurableSpace Ω]

theorem StandardNormals.aemeasurable {μ : Measure Ω} {X : Ω → Normals} (hX : StandardNormals μ X)
    (q k : ℕ) (c : Fin 2) : AEMeasurable (fun ω => X ω q k c) μ :=
  aemeasurable_of_map_neZero (by rw [hX.law]; infer_instance)

/-- **C144** In every run of `generate` with independent standard normal numbers, the maps of the
fields `A` are independent of the maps of the fields `B` if these are more than `ncorr` apart. -/
theorem generate_independent {S : Type*} (b : Backend) {Y : ℕ → ℕ → S → ℂ}
    {alm2map : List ℂ → S → ℝ} (hsyn : IsSynthesis Y alm2map) (cltovar : List ℝ → ℝ)
    (fields : List Transformation) (gls : List (List ℝ))
    (h : gls.length = fields.length * (fields.length + 1) / 2) (hL : 0 < maxLength gls)
    (ncorr : Option ℕ) {μ : Measure Ω} {X : Ω → Normals} (hX : StandardNormals μ X) :
    ∃ (n : ℕ) (err : Option Err) (M : ℕ → S → Ω → ℝ), (err = none → n = fields.length) ∧
      (∀ ω, ∃ out, generate b alm2map cltovar (fun t x v p => call t (x p) v) (X ω) fields gls ncorr
          = (out, err) ∧ out.length = n ∧ ∀ i < n, out[i]? = some fun p => M i p ω) ∧
      ∀ A B : Set ℕ, Apart (ncorr.getD (fields.length - 1)) A B →
        IndepFun (fun ω (x : A × S) => M x.1 x.2 ω) (fun ω (x : B × S) => M x.1 x.2 ω) μ := by
  obtain ⟨n, err, W, hn, herr, hW, hrun⟩ := grf_runs b gls fields.length h ncorr hL
  set L := maxLength gls with hLd
  set N := fields.length with hN
  set nc := ncorr.getD (N - 1) with hnc
  set Z : Draw → Ω → ℝ := fun d ω =>
    X ω d.1 (d.2.1.1 * (d.2.1.1 + 1) / 2 + (d.2.1.2 : ℕ)) d.2.2 with hZ
  set u : ℕ → S → Draw → ℝ := fun i p d => W d.2.1.1 i d.1 * basis Y d.2.1.1 d.2.1.2 p d.2.2 with hu
  have hi : iIndepFun Z μ := hX.indep.precomp draw_injective
  refine ⟨n, err, fun i p ω => call ((fields[i]?).getD .normal) (∑ d ∈ draws N L, u i p d * Z d ω)
    (cltovar ((gls[i * (i + 1) / 2]?).getD [])), herr, fun ω => ?_, fun A B hAB => ?_⟩
  · obtain ⟨alms, q1, q2, q3⟩ := hrun (X ω)
    set r := generate b alm2map cltovar (fun t x v p => call t (x p) v) (X ω) fields gls ncorr with hr
    obtain ⟨p1, p2, -, p4⟩ := generate_maps b alm2map cltovar
      (fun (t : Transformation) (x : S → ℝ) v p => call t (x p) v) (X ω) fields gls ncorr h r.1 r.2 rfl
    simp only [q1, q2] at p1 p2 p4
    refine ⟨r.1, by rw [← p1], p2, fun i hi => ?_⟩
    obtain ⟨t, alm, e1, e2, e3⟩ := p4 i _ (List.getElem?_eq_getElem (by omega))
    obtain ⟨alm', r1, r2, r3⟩ := q3 i hi
    rw [e2, Option.some.injEq] at r1
    subst r1
    rw [List.getElem?_eq_getElem (by omega), e3, Option.some.injEq]
    funext p
    dsimp only
    rw [e1, Option.getD_some, synthesis_linear hsyn (fun l q => W l i q) N L (X ω) r2 r3 p]
  · classical
    set used : Set ℕ → Finset Draw := fun C =>
      (draws N L).filter fun d => ∃ i ∈ C, d.1 ≤ i ∧ i - d.1 ≤ nc with hused
    have hdisj : Disjoint (used A) (used B) := by
      rw [Finset.disjoint_left]
      intro d ha hb
      obtain ⟨-, i, hiA, h1, h2⟩ := Finset.mem_filter.1 ha
      obtain ⟨-, j, hjB, h3, h4⟩ := Finset.mem_filter.1 hb
      rcases hAB i hiA j hjB with h5 | h5 <;> omega
    have hind := hi.indepFun_finset₀ (used A) (used B) hdisj fun d => hX.aemeasurable _ _ _
    have hform : ∀ (C : Set ℕ), (fun ω (x : C × S) => call ((fields[(x.1 : ℕ)]?).getD .normal)
        (∑ d ∈ draws N L, u x.1 x.2 d * Z d ω)
        (cltovar ((gls[(x.1 : ℕ) * ((x.1 : ℕ) + 1) / 2]?).getD []))) =
        (fun (z : used C → ℝ) (x : C × S) => call ((fields[(x.1 : ℕ)]?).getD .normal)
          (∑ d : used C, u x.1 x.2 d * z d)
          (cltovar ((gls[(x.1 : ℕ) * ((x.1 : ℕ) + 1) / 2]?).getD []))) ∘
          fun ω (d : used C) => Z d ω := by
      intro C
      funext ω x
      simp only [Function.comp]
      congr 1
      rw [Finset.sum_coe_sort (used C) fun d => u x.1 x.2 d * Z d ω]
      symm
      refine Finset.sum_subset (Finset.filter_subset _ _) fun d hd hd' => ?_
      have : W d.2.1.1 x.1 d.1 = 0 := hW _ _ _ fun hc => hd' (Finset.mem_filter.2
        ⟨hd, x.1, x.1.2, hc.1, hc.2⟩)
      simp [hu, this]
    have hmeas : ∀ (C : Set ℕ), Measurable (fun (z : used C → ℝ) (x : C × S) =>
        call ((fields[(x.1 : ℕ)]?).getD .normal) (∑ d : used C, u x.1 x.2 d * z d)
          (cltovar ((gls[(x.1 : ℕ) * ((x.1 : ℕ) + 1) / 2]?).getD []))) := by
      intro C
      refine measurable_pi_lambda _ fun x => (call_measurable _ _).comp ?_
      fun_prop
    rw [hform A, hform B]
    exact hind.comp (hmeas A) (hmeas B)

/-- **C144** If the maps of two fields have mean zero, and are more than `ncorr` apart, they are
uncorrelated. -/
theorem independent_uncorrelated {μ : Measure Ω} {F G : Ω → ℝ} (h : IndepFun F G μ)
    (hF : HasMean μ F 0) (hG : HasMean μ G 0) : HasMean μ (fun ω => F ω * G ω) 0 := by
  refine ⟨h.integrable_mul hF.1 hG.1, ?_⟩
  have := h.integral_mul_eq_mul_integral hF.1.aestronglyMeasurable hG.1.aestronglyMeasurable
  rw [hF.2, hG.2, mul_zero] at this
  exact this

/-- Jointly normal variables without covariance are independent. -/
theorem JointNormal.indep {μ : Measure Ω} {F G : Ω → ℝ} {v w : ℝ} (h : JointNormal μ F G v w 0) :
    IndepFun F G μ := by
  have hp := h.prob
  have hF := h.aemeas_left
  have hG := h.swap.aemeas_left
  have hgauss : HasGaussianLaw (fun ω => (F ω, G ω)) μ := by
    refine ⟨isGaussian_of_map_eq_gaussianReal fun L =>
      ⟨0, (L (1, 0) ^ 2 * v + 2 * L (1, 0) * L (0, 1) * 0 + L (0, 1) ^ 2 * w).toNNReal, ?_⟩⟩
    · rw [AEMeasurable.map_map_of_aemeasurable (by fun_prop) (hF.prodMk hG)]
      rw [show (L ∘ fun ω => (F ω, G ω)) = fun ω => L (1, 0) * F ω + L (0, 1) * G ω from ?_]
      · exact h.law _ _
      · funext ω
        have : ((F ω, G ω) : ℝ × ℝ) = F ω • (1, 0) + G ω • (0, 1) := by simp
        simp only [Function.comp]
        rw [this, map_add, map_smul, map_smul, smul_eq_mul, smul_eq_mul]
        ring
  refine hgauss.indepFun_of_covariance_eq_zero ?_
  obtain ⟨y, hy, hm⟩ := lognormal_cov h .normal .normal (by simp) (by simp)
  have h1 := (lognormal_mean h 1).2
  have h2 := (lognormal_mean h.swap 1).2
  simp only [corr, dispatch, corrM, Except.ok.injEq] at hy
  simp only [call] at hm h1 h2
  have h3 : MemLp F 2 μ := by simpa using h.memLp 1 0 2
  have h4 : MemLp G 2 μ := by simpa using h.memLp 0 1 2
  rw [covariance_eq_sub h3 h4]
  have e : ∫ ω, (F * G) ω ∂μ = y := hm.2
  rw [e, h1.2, h2.2, ← hy]
  ring

/-- **C144** with C97: let the spectra of fields more than `ncorr` apart be empty, as
`discretized_cls` makes them.  Then the covariances of *all* pairs of maps are the correlation
functions of the requested spectra. -/
theorem generate_requested_all {S : Type*} (b : Backend) {Y : ℕ → ℕ → S → ℂ} {P : ℕ → S → S → ℝ}
    {alm2map : List ℂ → S → ℝ} (hsyn : IsSynthesis Y alm2map) {cltovar : List ℝ → ℝ}
    (hvar : IsVariance cltovar) {cltocorr corrtocl : List ℝ → List ℝ}
    (ht : TransformLaw cltocorr corrtocl) {sep : ℕ → ℕ → S → S → Prop}
    (hcorr : IsCorrelation P sep cltocorr) {fields : List Transformation}
    {spectra gls : List (List ℝ)} (hr : Realisable cltocorr fields spectra)
    (hg : computeGaussianSpectra (fun cl t1 t2 => compute cltocorr corrtocl cl t1 (some t2))
      fields spectra = .ok gls)
    (hL : 0 < maxLength gls) (hY : Harmonics (maxLength gls) Y P) (ncorr : Option ℕ)
    (hband : ∀ i < fields.length, ∀ j, ncorr.getD (fields.length - 1) + j < i →
      spectra[i * (i + 1) / 2 + (i - j)]? = some [])
    (hadm : ∀ l < maxLength gls,
      Admissible fields.length (modeCov gls (ncorr.getD (fields.length - 1)) l))
    (hfit : ∀ i (hi : i < fields.length), VarianceFits fields[i]
      (cltovar ((gls[i * (i + 1) / 2]?).getD [])))
    {μ : Measure Ω} {X : Ω → Normals} (hX : StandardNormals μ X) :
    ∃ M : ℕ → S → Ω → ℝ,
      (∀ ω, ∃ out, generate b alm2map cltovar (fun t x v p => call t (x p) v) (X ω) fields gls ncorr
          = (out, none) ∧ out.length = fields.length ∧
        ∀ i < fields.length, out[i]? = some fun p => M i p ω) ∧
      (∀ i (hi : i < fields.length) p ω, ∃ x v, M i p ω = call fields[i] x v) ∧
      (∀ i < fields.length, ∀ p, HasMean μ (M i p) 0) ∧
      ∀ i < fields.length, ∀ j ≤ i,
        ∃ cl, spectra[i * (i + 1) / 2 + (i - j)]? = some cl ∧
          ∀ p p', (cl ≠ [] → ∃ q < cl.length, sep cl.length q p p') →
            HasMean μ (fun ω => M i p ω * M j p' ω) (correlation P cl p p') := by
  obtain ⟨M, h1, h2, h3, h4⟩ := generate_requested b hsyn hvar ht hcorr hr hg hL hY ncorr hadm hfit hX
  obtain ⟨gls', hg', hlen, hrec⟩ := compute_gaussian_recovers ht hr
  rw [hg, Except.ok.injEq] at hg'
  subst hg'
  have hcount : gls.length = fields.length * (fields.length + 1) / 2 := hlen.trans hr.count
  obtain ⟨G, g1, g2⟩ := generate_statistics b hsyn hvar fields gls ncorr hcount hL hY hadm hX
  have hsame : ∀ i (hi : i < fields.length) p ω, M i p ω = call fields[i] (G i p ω)
      (cltovar ((gls[i * (i + 1) / 2]?).getD [])) := by
    intro i hi p ω
    obtain ⟨out, e1, e2, e3⟩ := h1 ω
    obtain ⟨out', f1, f2, f3⟩ := g1 ω
    rw [e1, Prod.mk.injEq] at f1
    obtain ⟨rfl, -⟩ := f1
    obtain ⟨x, q1, q2⟩ := f3 i _ (List.getElem?_eq_getElem hi)
    rw [e3 i hi, Option.some.injEq] at q1
    rw [← q2 p, ← q1]
  have hzero : ∀ i < fields.length, ∀ j ≤ i, ∀ p p',
      pointCov P gls (ncorr.getD (fields.length - 1)) i j p p' = 0 →
      HasMean μ (fun ω => M i p ω * M j p' ω) 0 := by
    intro i hi j hj p p' h0
    have hj' : j < fields.length := by omega
    have hjn := g2 i hi j hj' p p'
    rw [h0] at hjn
    refine independent_uncorrelated ?_ (h3 i hi p) (h3 j hj' p')
    rw [show M i p = (fun x => call fields[i] x _) ∘ G i p from funext fun ω => hsame i hi p ω,
      show M j p' = (fun x => call fields[j] x _) ∘ G j p' from funext fun ω => hsame j hj' p' ω]
    exact hjn.indep.comp (call_measurable _ _) (call_measurable _ _)
  refine ⟨M, h1, h2, h3, fun i hi j hj => ?_⟩
  by_cases hn : i - j ≤ ncorr.getD (fields.length - 1)
  · obtain ⟨cl, e1, e2⟩ := h4 i hi j hj hn
    refine ⟨cl, e1, fun p p' hs => ?_⟩
    by_cases hne : cl = []
    · obtain ⟨cl', gl, r1, r2, r3, -⟩ := hrec i j hi hj
      rw [e1, Option.some.injEq] at r1
      subst r1
      refine (hzero i hi j hj p p' ?_).congr (fun _ => rfl) (by simp [correlation, hne])
      rw [pointCov_correlation P gls hj hn r2, r3 hne]
      simp [correlation]
    · obtain ⟨q, hq, hsep⟩ := hs hne
      exact e2 q hq p p' hsep
  · refine ⟨[], hband i hi j (by omega), fun p p' _ => ?_⟩
    refine (hzero i hi j hj p p' ?_).congr (fun _ => rfl) (by simp [correlation])
    rw [pointCov, if_neg (by omega)]

/-! ### A case that meets all hypotheses -/

/-- The spectra of three constant normal fields of variance 1, where neighbours have the covariance
1/2 and there is no spectrum of the first and the last field. -/
noncomputable def bandedSpectra : List (List ℝ) :=
  [[4 * Real.pi], [4 * Real.pi], [2 * Real.pi], [4 * Real.pi], [2 * Real.pi], []]

theorem banded_normal :
    Realisable dipoleCorr [.normal, .normal, .normal] bandedSpectra ∧
    computeGaussianSpectra (fun cl t1 t2 => compute dipoleCorr dipoleCl cl t1 (some t2))
      [.normal, .normal, .normal] bandedSpectra = .ok bandedSpectra ∧
    maxLength bandedSpectra = 1 ∧
    ∀ l < maxLength bandedSpectra, Admissible 3 (modeCov bandedSpectra 1 l) := by
  have hpi := Real.pi_pos
  have hmax : maxLength bandedSpectra = 1 := by simp [maxLength, bandedSpectra]
  refine ⟨⟨rfl, by simp [NonDegenerate], ?_⟩, ?_, hmax, ?_⟩
  · intro i j hi hj cl hcl hne
    have hi2 : i < 3 := hi
    interval_cases i <;> interval_cases j <;> exact ⟨trivial, fun _ _ => trivial⟩
  · rw [compute_gaussian_spec]
    refine ⟨rfl, rfl, ?_⟩
    intro i j hi hj
    have hi2 : i < 3 := hi
    have key : ∀ x : ℝ, compute dipoleCorr dipoleCl [x] .normal (some .normal) = .ok [x] := by
      intro x
      simp [compute, dipoleCorr, dipoleCl, icorrList, dispatch, arrayM, Transformation.icorrM]
      field_simp
    interval_cases i <;> interval_cases j <;>
      first
      | exact ⟨_, _, rfl, rfl, fun h => by simp at h, fun _ => key _⟩
      | exact ⟨_, _, rfl, rfl, fun _ => rfl, fun h => absurd rfl h⟩
  · intro l hl
    rw [hmax] at hl
    obtain rfl : l = 0 := by omega
    have hd : ∀ i < 3, modeCov bandedSpectra 1 0 i i = 2 * Real.pi := by
      intro i hi
      interval_cases i <;> simp [modeCov, clValue, bandedSpectra] <;> ring
    have h10 : modeCov bandedSpectra 1 0 1 0 = Real.pi := by
      simp [modeCov, clValue, bandedSpectra]
    have h01 : modeCov bandedSpectra 1 0 0 1 = Real.pi := by
      simp [modeCov, clValue, bandedSpectra]
    have h21 : modeCov bandedSpectra 1 0 2 1 = Real.pi := by
      simp [modeCov, clValue, bandedSpectra]
    have h12 : modeCov bandedSpectra 1 0 1 2 = Real.pi := by
      simp [modeCov, clValue, bandedSpectra]
    have h20 : modeCov bandedSpectra 1 0 2 0 = 0 := by simp [modeCov]
    have h02 : modeCov bandedSpectra 1 0 0 2 = 0 := by simp [modeCov]
    constructor
    · intro i hi h
      rw [hd i hi] at h
      linarith
    · rintro v ⟨i, hi, -, hv⟩
      simp only [quad, sum_range_succ, sum_range_zero, hd 0 (by omega), hd 1 (by omega),
        hd 2 (by omega), h10, h01, h21, h12, h20, h02]
      have hq : 0 < v 0 ^ 2 + (v 0 + v 1) ^ 2 + (v 1 + v 2) ^ 2 + v 2 ^ 2 := by
        rcases eq_or_ne (v 0) 0 with h0 | h0
        · rcases eq_or_ne (v 2) 0 with h2 | h2
          · have h1 : v 1 ≠ 0 := by
              interval_cases i
              · exact absurd h0 hv
              · exact hv
              · exact absurd h2 hv
            have := sq_pos_of_ne_zero h1
            rw [h0, h2]
            nlinarith
          · have := sq_pos_of_ne_zero h2
            positivity
        · have := sq_pos_of_ne_zero h0
          positivity
      nlinarith [mul_pos hpi hq]

/-- Three fields with `ncorr=1`: the first and the last map are independent, and neighbours have the
covariance `1/2`. -/
theorem banded_example : ∃ (Ω : Type) (_ : MeasurableSpace Ω) (μ : Measure Ω) (X : Ω → Normals)
    (alm2map : List ℂ → {v : ℝ × ℝ × ℝ // v.1 ^ 2 + v.2.1 ^ 2 + v.2.2 ^ 2 = 1} → ℝ)
    (cltovar : List ℝ → ℝ) (M : ℕ → _ → Ω → ℝ),
    (∀ ω, ∃ out, generate .inplace alm2map cltovar (fun t x v p => call t (x p) v) (X ω)
      [.normal, .normal, .normal] bandedSpectra (some 1) = (out, none) ∧
      ∀ i < 3, out[i]? = some fun p => M i p ω) ∧
    (∀ p p', HasMean μ (fun ω => M 1 p ω * M 0 p' ω) (1 / 2)) ∧
    (∀ p p', HasMean μ (fun ω => M 2 p ω * M 1 p' ω) (1 / 2)) ∧
    (∀ p p', HasMean μ (fun ω => M 2 p ω * M 0 p' ω) 0) ∧
    ∀ p p', IndepFun (M 2 p) (M 0 p') μ := by
  obtain ⟨Ω, _, μ, X, hX⟩ := exists_standardNormals
  obtain ⟨alm2map, hsyn⟩ := exists_synthesis dipoleY
  obtain ⟨hr, hg, hmax, hadm⟩ := banded_normal
  have hY : Harmonics 1 dipoleY fun l p q =>
      if l = 0 then 1 else p.1.1 * q.1.1 + p.1.2.1 * q.1.2.1 + p.1.2.2 * q.1.2.2 :=
    ⟨fun l hl => dipole_harmonics.real l (by omega),
      fun l hl => dipole_harmonics.addition l (by omega),
      fun l hl => dipole_harmonics.point l (by omega)⟩
  obtain ⟨M, h1, -, -, h4⟩ := generate_requested_all .inplace hsyn
    (cltovar := fun cl => ∑ l ∈ range cl.length, (2 * l + 1) / (4 * Real.pi) * cl[l]?.getD 0)
    (fun _ => rfl) dipole_transform dipole_correlation hr hg (by rw [hmax]; norm_num)
    (by rw [hmax]; exact hY) (some 1)
    (by
      intro i hi j hij
      have hi3 : i < 3 := hi
      simp only [Option.getD_some] at hij
      obtain ⟨rfl, rfl⟩ : i = 2 ∧ j = 0 := by omega
      rfl) hadm
    (by
      intro i hi
      have hi3 : i < 3 := hi
      interval_cases i <;> trivial) hX
  obtain ⟨n, err, M', -, g1, g2⟩ := generate_independent .inplace hsyn
    (fun cl => ∑ l ∈ range cl.length, (2 * l + 1) / (4 * Real.pi) * cl[l]?.getD 0)
    [.normal, .normal, .normal] bandedSpectra rfl (by rw [hmax]; norm_num) (some 1) hX
  have hsame : ∀ i < 3, ∀ p, M i p = M' i p := by
    intro i hi p
    funext ω
    obtain ⟨out, e1, e2, e3⟩ := h1 ω
    obtain ⟨out', f1, f2, f3⟩ := g1 ω
    rw [e1, Prod.mk.injEq] at f1
    obtain ⟨rfl, -⟩ := f1
    have h3 : out.length = 3 := e2
    have := f3 i (by omega)
    rw [e3 i hi, Option.some.injEq] at this
    exact congrFun this p
  have hcl : ∀ i < 3, ∀ j ≤ i, ∀ x : ℝ,
      bandedSpectra[i * (i + 1) / 2 + (i - j)]? = some [x] → ∀ p p',
        HasMean μ (fun ω => M i p ω * M j p' ω) (x / (4 * Real.pi)) := by
    intro i hi j hj x hx p p'
    obtain ⟨cl, e1, e2⟩ := h4 i hi j hj
    rw [hx, Option.some.injEq] at e1
    subst e1
    refine (e2 p p' fun _ => ⟨0, by simp, .inl rfl⟩).congr (fun _ => rfl) ?_
    simp [correlation]
    ring
  have hpi := Real.pi_ne_zero
  have hind : ∀ p p', IndepFun (M 2 p) (M 0 p') μ := by
    intro p p'
    have := g2 {2} {0} (by
      intro i hi j hj
      rw [Set.mem_singleton_iff] at hi hj
      subst hi hj
      exact .inl (by norm_num))
    rw [hsame 2 (by omega), hsame 0 (by omega)]
    exact this.comp (φ := fun z : ({2} : Set ℕ) × _ → ℝ => z (⟨2, rfl⟩, p))
      (ψ := fun z : ({0} : Set ℕ) × _ → ℝ => z (⟨0, rfl⟩, p'))
      (measurable_pi_apply _) (measurable_pi_apply _)
  refine ⟨Ω, _, μ, X, alm2map, fun cl => ∑ l ∈ range cl.length, (2 * l + 1) / (4 * Real.pi)
    * cl[l]?.getD 0, M, fun ω => ?_, fun p p' => ?_, fun p p' => ?_, fun p p' => ?_, hind⟩
  · obtain ⟨out, q1, -, q2⟩ := h1 ω
    exact ⟨out, q1, q2⟩
  · exact (hcl 1 (by omega) 0 (by omega) _ rfl p p').congr (fun _ => rfl) (by field_simp; norm_num)
  · exact (hcl 2 (by omega) 1 (by omega) _ rfl p p').congr (fun _ => rfl) (by field_simp; norm_num)
  · obtain ⟨cl, e1, e2⟩ := h4 2 (by simp) 0 (by omega)
    have : cl = [] := by
      have : some cl = some [] := e1.symm
      simpa using this
    subst this
    exact (e2 p p' fun h => absurd rfl h).congr (fun _ => rfl) (by simp [correlation])

end Glass.Grf
