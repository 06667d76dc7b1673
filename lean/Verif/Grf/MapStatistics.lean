import Mathlib.Probability.Independence.InfinitePi
import Verif.Grf.FieldMomentsProps
import Verif.Grf.GenerateProps

/-!
# Point statistics of the sampled maps

From independent standard normal numbers to the maps of `generate`: the values of the Gaussian maps
are jointly normal with the covariance of the given spectra, the variance passed to the
transformations is the variance of the map, and hence the transformed maps have mean zero and the
announced covariance.  The spherical harmonics enter through the synthesis formula and the addition
theorem only.
-/

namespace Glass.Grf

open Finset MeasureTheory ProbabilityTheory Transformation Glass.Spectra

variable {Ω : Type*} [MeasurableSpace Ω]

/-! ### Specification -/

/-- The numbers of the stream are independent standard normal numbers. -/
structure StandardNormals (μ : Measure Ω) (X : Ω → Normals) : Prop where
  indep : iIndepFun (fun (k : ℕ × ℕ × Fin 2) ω => X ω k.1 k.2.1 k.2.2) μ
  law : ∀ q k c, μ.map (fun ω => X ω q k c) = gaussianReal 0 1

/-- The addition theorem of spherical harmonics below `L`, with the Legendre polynomials `P` of the
angle between two points; harmonics with `m = 0` are real. -/
structure Harmonics {S : Type*} (L : ℕ) (Y : ℕ → ℕ → S → ℂ) (P : ℕ → S → S → ℝ) : Prop where
  real : ∀ l < L, ∀ p, (Y l 0 p).im = 0
  addition : ∀ l < L, ∀ p q, (Y l 0 p).re * (Y l 0 q).re
    + 2 * ∑ m ∈ range l, ((Y l (m + 1) p).re * (Y l (m + 1) q).re
      + (Y l (m + 1) p).im * (Y l (m + 1) q).im) = (2 * l + 1) / (4 * Real.pi) * P l p q
  point : ∀ l < L, ∀ p, P l p p = 1

/-- `alm2map` synthesises the real map of coefficients in HEALPix order, where modes with negative
`m` are the conjugates of those with positive `m`. -/
def IsSynthesis {S : Type*} (Y : ℕ → ℕ → S → ℂ) (alm2map : List ℂ → S → ℝ) : Prop :=
  ∀ (L : ℕ) (alm : List ℂ), alm.length = L * (L + 1) / 2 → ∀ p, alm2map alm p =
    ∑ l ∈ range L, ((alm[l]?.getD 0 * Y l 0 p).re
      + 2 * ∑ m ∈ range l, (alm[(m + 1) * (2 * L - 1 - (m + 1)) / 2 + l]?.getD 0
        * Y l (m + 1) p).re)

/-- The variance of a spectrum, `transformcl.cltovar`. -/
def IsVariance (cltovar : List ℝ → ℝ) : Prop :=
  ∀ cl : List ℝ, cltovar cl
    = ∑ l ∈ range cl.length, (2 * l + 1) / (4 * Real.pi) * cl[l]?.getD 0

/-- The covariance of the Gaussian fields `i` at `p` and `j` at `q`. -/
noncomputable def pointCov {S : Type*} (P : ℕ → S → S → ℝ) (gls : List (List ℝ)) (nc i j : ℕ)
    (p q : S) : ℝ :=
  if i - j ≤ nc ∧ j - i ≤ nc then
    ∑ l ∈ range (maxLength gls), (2 * l + 1) / (4 * Real.pi) * clValue gls i j l * P l p q
  else 0

/-! ### Linear combinations of independent normal numbers -/

theorem sum_normal {κ : Type*} {μ : Measure Ω} [IsProbabilityMeasure μ] {Z : κ → Ω → ℝ}
    (hi : iIndepFun Z μ)
    (hl : ∀ k, μ.map (Z k) = gaussianReal 0 1) (u : κ → ℝ) (s : Finset κ) :
    μ.map (fun ω => ∑ k ∈ s, u k * Z k ω) = gaussianReal 0 (∑ k ∈ s, u k ^ 2).toNNReal := by
  classical
  have hm : ∀ k, AEMeasurable (Z k) μ := fun k =>
    aemeasurable_of_map_neZero (by rw [hl]; infer_instance)
  induction s using Finset.induction_on with
  | empty =>
    simp only [sum_empty, Real.toNNReal_zero, gaussianReal_zero_var]
    rw [Measure.map_const, measure_univ, one_smul]
  | insert k s hk ih =>
    have hu : iIndepFun (fun k ω => u k * Z k ω) μ :=
      hi.comp (fun k x => u k * x) fun k => measurable_const_mul (u k)
    have h1 := hu.indepFun_finsetSum_of_notMem₀ (fun k => (hm k).const_mul (u k)) hk
    have h2 : μ.map (fun ω => u k * Z k ω) = gaussianReal 0 (u k ^ 2).toNNReal := by
      have := gaussianReal_map_const_mul (μ := 0) (v := 1) (u k)
      rw [← hl k, AEMeasurable.map_map_of_aemeasurable (by fun_prop) (hm k)] at this
      rw [show (fun ω => u k * Z k ω) = (fun x => u k * x) ∘ Z k from rfl, this]
      congr 1
      · simp
      · ext
        rw [Real.coe_toNNReal _ (sq_nonneg _)]
        simp
    have h3 : (∑ j ∈ s, fun ω => u j * Z j ω) = fun ω => ∑ j ∈ s, u j * Z j ω := by
      funext ω; simp
    rw [h3] at h1
    have h4 := gaussianReal_add_gaussianReal_of_indepFun h1.symm h2 ih
    have h5 : (fun ω => ∑ j ∈ insert k s, u j * Z j ω)
        = (fun ω => u k * Z k ω) + fun ω => ∑ j ∈ s, u j * Z j ω := by
      funext ω; simp [sum_insert hk]
    rw [h5, h4, sum_insert hk, Real.toNNReal_add (sq_nonneg _) (sum_nonneg fun _ _ => sq_nonneg _),
      add_zero]

theorem jointNormal_sums {κ : Type*} {μ : Measure Ω} [IsProbabilityMeasure μ] {Z : κ → Ω → ℝ}
    (hi : iIndepFun Z μ) (hl : ∀ k, μ.map (Z k) = gaussianReal 0 1) (u v : κ → ℝ) (s : Finset κ) :
    JointNormal μ (fun ω => ∑ k ∈ s, u k * Z k ω) (fun ω => ∑ k ∈ s, v k * Z k ω)
      (∑ k ∈ s, u k ^ 2) (∑ k ∈ s, v k ^ 2) (∑ k ∈ s, u k * v k) := by
  have e : ∀ a b : ℝ, ∑ k ∈ s, (a * u k + b * v k) ^ 2
      = a ^ 2 * ∑ k ∈ s, u k ^ 2 + 2 * a * b * ∑ k ∈ s, u k * v k + b ^ 2 * ∑ k ∈ s, v k ^ 2 := by
    intro a b
    simp only [mul_sum, ← sum_add_distrib]
    exact sum_congr rfl fun k _ => by ring
  refine ⟨fun a b => ?_, fun a b => ?_⟩
  · rw [← e]; exact sum_nonneg fun _ _ => sq_nonneg _
  · rw [← e, ← sum_normal hi hl]
    congr 1
    funext ω
    simp only [mul_sum, ← sum_add_distrib]
    exact sum_congr rfl fun k _ => by ring

/-! ### The Gaussian maps -/

/-- The contribution of the real (`c = 0`) and imaginary (`c = 1`) parts of a draw to a map. -/
noncomputable def basis {S : Type*} (Y : ℕ → ℕ → S → ℂ) (l m : ℕ) (p : S) (c : Fin 2) : ℝ :=
  if m = 0 then (Y l 0 p).re else if c = 0 then 2 * (Y l m p).re else -2 * (Y l m p).im

/-- The numbers used by the fields below `N` and the modes below `L`. -/
abbrev Draw := ℕ × (Σ l : ℕ, Fin (l + 1)) × Fin 2

/-- All of them. -/
def draws (N L : ℕ) : Finset Draw :=
  range N ×ˢ ((range L).sigma fun _ => univ) ×ˢ univ

theorem sum_draws (N L : ℕ) (f : ℕ → ℕ → ℕ → Fin 2 → ℝ) :
    ∑ d ∈ draws N L, f d.1 d.2.1.1 (d.2.1.2 : ℕ) d.2.2
      = ∑ q ∈ range N, ∑ l ∈ range L, ∑ m ∈ range (l + 1), ∑ c, f q l m c := by
  unfold draws
  rw [sum_product]
  refine sum_congr rfl fun q _ => ?_
  rw [sum_product, sum_sigma]
  refine sum_congr rfl fun l _ => ?_
  exact Fin.sum_univ_eq_sum_range (fun m => ∑ c, f q l m c) (l + 1)

theorem draw_injective : Function.Injective
    fun d : Draw => ((d.1, d.2.1.1 * (d.2.1.1 + 1) / 2 + (d.2.1.2 : ℕ), d.2.2) : ℕ × ℕ × Fin 2) := by
  rintro ⟨q, ⟨l, m⟩, c⟩ ⟨q', ⟨l', m'⟩, c'⟩ h
  simp only [Prod.mk.injEq] at h
  obtain ⟨rfl, h, rfl⟩ := h
  obtain ⟨rfl, h2⟩ := tri_row_unique (a := l) (b := l') (c := (m : ℕ)) (d := (m' : ℕ))
    (by omega) (by omega) h
  have : m = m' := Fin.ext h2
  subst this
  rfl

/-- The value of a Gaussian map is a fixed linear combination of the numbers. -/
theorem map_linear {S : Type*} (b : Backend) {Y : ℕ → ℕ → S → ℂ} {P : ℕ → S → S → ℝ}
    {alm2map : List ℂ → S → ℝ} (hsyn : IsSynthesis Y alm2map) (gls : List (List ℝ)) (N : ℕ)
    (h : gls.length = N * (N + 1) / 2) (ncorr : Option ℕ) (hL : 0 < maxLength gls)
    (hY : Harmonics (maxLength gls) Y P)
    (hadm : ∀ l < maxLength gls, Admissible N (modeCov gls (ncorr.getD (N - 1)) l)) :
    ∃ u : ℕ → S → Draw → ℝ,
      (∀ i < N, ∀ j < N, ∀ p q, ∑ d ∈ draws N (maxLength gls), u i p d * u j q d
        = pointCov P gls (ncorr.getD (N - 1)) i j p q) ∧
      ∀ nrm : Normals, ∃ alms : List (List ℂ), generateAlm b nrm gls ncorr = (alms, none) ∧
        alms.length = N ∧ ∀ i < N, ∃ alm, alms[i]? = some alm ∧ ∀ p, alm2map alm p
          = ∑ d ∈ draws N (maxLength gls), u i p d
            * nrm d.1 (d.2.1.1 * (d.2.1.1 + 1) / 2 + (d.2.1.2 : ℕ)) d.2.2 := by
  obtain ⟨W, -, hW, hrun⟩ := grf_linear b gls N h ncorr hL hadm
  set L := maxLength gls
  set nc := ncorr.getD (N - 1)
  refine ⟨fun i p d => W d.2.1.1 i d.1 * basis Y d.2.1.1 d.2.1.2 p d.2.2, ?_, ?_⟩
  · intro i hi j hj p q
    rw [sum_draws N L fun k l m c => W l i k * basis Y l m p c * (W l j k * basis Y l m q c),
      sum_comm]
    unfold pointCov
    have h1 : ∀ l ∈ range L, (∑ k ∈ range N, ∑ m ∈ range (l + 1), ∑ c : Fin 2,
        W l i k * basis Y l m p c * (W l j k * basis Y l m q c))
        = modeCov gls nc l i j * (2 * ((2 * l + 1) / (4 * Real.pi) * P l p q)) := by
      intro l hl
      rw [mem_range] at hl
      rw [← hW l hl i hi j hj, ← hY.addition l hl p q, sum_mul]
      refine sum_congr rfl fun k _ => ?_
      have h2 : ∑ m ∈ range (l + 1), ∑ c : Fin 2, basis Y l m p c * basis Y l m q c
          = 2 * ((Y l 0 p).re * (Y l 0 q).re + 2 * ∑ m ∈ range l,
            ((Y l (m + 1) p).re * (Y l (m + 1) q).re + (Y l (m + 1) p).im * (Y l (m + 1) q).im)) := by
        rw [sum_range_succ', mul_add, add_comm, mul_sum, mul_sum]
        congr 1
        · simp [basis, two_mul]
        · refine sum_congr rfl fun m _ => ?_
          simp only [Fin.sum_univ_two, basis, Nat.add_eq_zero_iff, one_ne_zero, and_false, if_false,
            if_true]
          ring
      rw [← h2, mul_sum]
      refine sum_congr rfl fun m _ => ?_
      rw [mul_sum]
      exact sum_congr rfl fun c _ => by ring
    rw [sum_congr rfl h1]
    unfold modeCov
    split_ifs
    · exact sum_congr rfl fun l _ => by ring
    · simp
  · intro nrm
    obtain ⟨alms, q1, q2, q3⟩ := hrun nrm
    refine ⟨alms, q1, q2, fun i hi => ?_⟩
    obtain ⟨alm, r1, r2, r3⟩ := q3 i hi
    refine ⟨alm, r1, fun p => ?_⟩
    rw [hsyn L alm r2 p, sum_draws N L fun k l m c => W l i k * basis Y l m p c
      * nrm k (l * (l + 1) / 2 + m) c, sum_comm]
    refine sum_congr rfl fun l hl => ?_
    rw [mem_range] at hl
    have e0 := r3 l 0 (by omega) hl
    simp only [zero_mul, Nat.zero_div, zero_add] at e0
    rw [e0]
    rw [sum_comm, sum_range_succ', add_comm, mul_sum]
    congr 1
    · refine sum_congr rfl fun m hm => ?_
      rw [mem_range] at hm
      rw [r3 l (m + 1) (by omega) hl]
      simp only [Option.getD_some, realised, Nat.add_eq_zero_iff, one_ne_zero, and_false, if_false]
      rw [sum_mul, Complex.re_sum, mul_sum]
      refine sum_congr rfl fun k _ => ?_
      simp only [zValue, Fin.sum_univ_two, basis, Nat.add_eq_zero_iff, one_ne_zero, and_false,
        if_false, if_true, Complex.mul_re, Complex.mul_im, Complex.add_re, Complex.add_im,
        Complex.ofReal_re, Complex.ofReal_im, Complex.I_re, Complex.I_im]
      ring
    · simp only [Option.getD_some, realised, if_true]
      rw [Complex.re_ofReal_mul, Complex.re_sum, Complex.im_sum, ← sum_add_distrib, sum_mul]
      refine sum_congr rfl fun k _ => ?_
      simp only [zValue, Fin.sum_univ_two, basis, if_true, add_zero,
        Complex.mul_re, Complex.mul_im, Complex.add_re, Complex.add_im,
        Complex.ofReal_re, Complex.ofReal_im, Complex.I_re, Complex.I_im]
      ring

theorem pointCov_variance {S : Type*} {L : ℕ} {Y : ℕ → ℕ → S → ℂ} {P : ℕ → S → S → ℝ}
    {cltovar : List ℝ → ℝ} (hvar : IsVariance cltovar) (gls : List (List ℝ)) (nc i : ℕ)
    (hL : L = maxLength gls) (hY : Harmonics L Y P) (p : S) :
    pointCov P gls nc i i p p = cltovar ((gls[i * (i + 1) / 2]?).getD []) := by
  subst hL
  rw [hvar]
  unfold pointCov
  rw [if_pos (by omega)]
  have hcl : ∀ l, clValue gls i i l = ((gls[i * (i + 1) / 2]?).getD [])[l]?.getD 0 := by
    intro l; simp [clValue]
  have hle : ((gls[i * (i + 1) / 2]?).getD []).length ≤ maxLength gls := by
    rcases hx : gls[i * (i + 1) / 2]? with _ | gl
    · simp
    · exact maxLength_le gls gl (List.mem_of_getElem? hx)
  rw [sum_congr rfl fun l hl => by rw [hY.point l (mem_range.1 hl) p, mul_one, hcl l]]
  symm
  refine sum_subset (range_subset_range.2 hle) fun l _ hl => ?_
  rw [mem_range, not_lt] at hl
  rw [List.getElem?_eq_none hl]
  simp

/-! ### C96 -/

/-- C96. From independent standard normal numbers, `generate` makes for every field the map of the
transformed values of a Gaussian map; the values of two Gaussian maps at any two points are jointly
normal with mean zero, with the variances that are passed to the transformations, and with the
covariance of the given spectra. -/
theorem generate_statistics {S : Type*} (b : Backend) {Y : ℕ → ℕ → S → ℂ} {P : ℕ → S → S → ℝ}
    {alm2map : List ℂ → S → ℝ} (hsyn : IsSynthesis Y alm2map) {cltovar : List ℝ → ℝ}
    (hvar : IsVariance cltovar) (fields : List Transformation) (gls : List (List ℝ))
    (ncorr : Option ℕ) (h : gls.length = fields.length * (fields.length + 1) / 2)
    (hL : 0 < maxLength gls) (hY : Harmonics (maxLength gls) Y P)
    (hadm : ∀ l < maxLength gls,
      Admissible fields.length (modeCov gls (ncorr.getD (fields.length - 1)) l))
    {μ : Measure Ω} {X : Ω → Normals} (hX : StandardNormals μ X) :
    ∃ G : ℕ → S → Ω → ℝ,
      (∀ ω, ∃ out, generate b alm2map cltovar (fun t x v p => call t (x p) v) (X ω) fields gls ncorr
          = (out, none) ∧ out.length = fields.length ∧
        ∀ (i : ℕ) (t : Transformation), fields[i]? = some t → ∃ x, out[i]? = some x ∧
          ∀ p, x p = call t (G i p ω) (cltovar ((gls[i * (i + 1) / 2]?).getD []))) ∧
      ∀ i < fields.length, ∀ j < fields.length, ∀ p q,
        JointNormal μ (G i p) (G j q) (cltovar ((gls[i * (i + 1) / 2]?).getD []))
          (cltovar ((gls[j * (j + 1) / 2]?).getD []))
          (pointCov P gls (ncorr.getD (fields.length - 1)) i j p q) := by
  obtain ⟨u, hu, hrun⟩ := map_linear b hsyn gls fields.length h ncorr hL hY hadm
  set L := maxLength gls with hLd
  set Z : Draw → Ω → ℝ := fun d ω =>
    X ω d.1 (d.2.1.1 * (d.2.1.1 + 1) / 2 + (d.2.1.2 : ℕ)) d.2.2 with hZ
  have hprob : IsProbabilityMeasure μ := by
    have hm : AEMeasurable (fun ω => X ω 0 0 0) μ :=
      aemeasurable_of_map_neZero (by rw [hX.law]; infer_instance)
    have : IsProbabilityMeasure (μ.map fun ω => X ω 0 0 0) := by rw [hX.law]; infer_instance
    refine ⟨?_⟩
    have h1 := this.measure_univ
    rwa [Measure.map_apply_of_aemeasurable hm MeasurableSet.univ, Set.preimage_univ] at h1
  have hi : iIndepFun Z μ := hX.indep.precomp draw_injective
  have hl : ∀ d, μ.map (Z d) = gaussianReal 0 1 := fun d => hX.law _ _ _
  refine ⟨fun i p ω => ∑ d ∈ draws fields.length L, u i p d * Z d ω, fun ω => ?_, ?_⟩
  · obtain ⟨alms, q1, q2, q3⟩ := hrun (X ω)
    obtain ⟨out, r1, r2⟩ := generate_complete b alm2map cltovar
      (fun (t : Transformation) (x : S → ℝ) v p => call t (x p) v) (X ω) fields gls ncorr h hL hadm
    refine ⟨out, r1, r2, fun i t ht => ?_⟩
    have hlt : i < fields.length := (List.getElem?_eq_some_iff.1 ht).1
    refine ⟨out[i]'(by omega), List.getElem?_eq_getElem (by omega), fun p => ?_⟩
    obtain ⟨-, -, -, k4⟩ := generate_maps b alm2map cltovar
      (fun (t : Transformation) (x : S → ℝ) v p => call t (x p) v) (X ω) fields gls ncorr h out none r1
    obtain ⟨t', alm, e1, e2, e3⟩ := k4 i _ (List.getElem?_eq_getElem (by omega))
    rw [ht, Option.some.injEq] at e1
    subst e1
    obtain ⟨alm', e4, e5⟩ := q3 i hlt
    rw [q1, e4, Option.some.injEq] at e2
    subst e2
    rw [e3]
    dsimp only
    rw [e5 p]
  · intro i hi' j hj p q
    have := jointNormal_sums hi hl (u i p) (u j q) (draws fields.length L)
    rw [hu i hi' j hj p q, sum_congr rfl fun d _ => pow_two (u i p d), hu i hi' i hi' p p,
      sum_congr rfl fun d _ => pow_two (u j q d), hu j hj j hj q q,
      pointCov_variance hvar gls _ i hLd hY, pointCov_variance hvar gls _ j hLd hY] at this
    exact this

/-- C96, the transformed maps. Any two maps of normal and lognormal fields have, at any two points,
mean zero and the covariance that `corr` announces for the covariance of the Gaussian spectra. -/
theorem generate_moments {S : Type*} (b : Backend) {Y : ℕ → ℕ → S → ℂ} {P : ℕ → S → S → ℝ}
    {alm2map : List ℂ → S → ℝ} (hsyn : IsSynthesis Y alm2map) {cltovar : List ℝ → ℝ}
    (hvar : IsVariance cltovar) (fields : List Transformation) (gls : List (List ℝ))
    (ncorr : Option ℕ) (h : gls.length = fields.length * (fields.length + 1) / 2)
    (hL : 0 < maxLength gls) (hY : Harmonics (maxLength gls) Y P)
    (hadm : ∀ l < maxLength gls,
      Admissible fields.length (modeCov gls (ncorr.getD (fields.length - 1)) l))
    {μ : Measure Ω} {X : Ω → Normals} (hX : StandardNormals μ X) :
    ∃ M : ℕ → S → Ω → ℝ,
      (∀ ω, ∃ out, generate b alm2map cltovar (fun t x v p => call t (x p) v) (X ω) fields gls ncorr
          = (out, none) ∧ out.length = fields.length ∧
        ∀ i < fields.length, out[i]? = some fun p => M i p ω) ∧
      ∀ (i j : ℕ) (t t' : Transformation), fields[i]? = some t → fields[j]? = some t' →
        (∀ a l, t ≠ .squared a l) → (∀ a l, t' ≠ .squared a l) → ∀ p q,
        HasMean μ (M i p) 0 ∧
        ∃ y, corr t t' (pointCov P gls (ncorr.getD (fields.length - 1)) i j p q) = .ok y ∧
          HasMean μ (fun ω => M i p ω * M j q ω) y := by
  obtain ⟨G, h1, h2⟩ := generate_statistics b hsyn hvar fields gls ncorr h hL hY hadm hX
  refine ⟨fun i p ω => call ((fields[i]?).getD .normal) (G i p ω)
    (cltovar ((gls[i * (i + 1) / 2]?).getD [])), fun ω => ?_, ?_⟩
  · obtain ⟨out, q1, q2, q3⟩ := h1 ω
    refine ⟨out, q1, q2, fun i hi => ?_⟩
    obtain ⟨x, r1, r2⟩ := q3 i _ (List.getElem?_eq_getElem hi)
    rw [r1]
    congr 1
    funext p
    dsimp only
    rw [r2 p, List.getElem?_eq_getElem hi]
    rfl
  · intro i j t t' ht ht' hs hs' p q
    have hi : i < fields.length := (List.getElem?_eq_some_iff.1 ht).1
    have hj : j < fields.length := (List.getElem?_eq_some_iff.1 ht').1
    have hjn := h2 i hi j hj p q
    simp only [ht, ht', Option.getD_some]
    refine ⟨?_, lognormal_cov hjn t t' hs hs'⟩
    have hm := lognormal_mean hjn
    rcases t with _ | l | ⟨a, l⟩
    · exact (hm 1).2
    · exact (hm l).1
    · exact absurd rfl (hs a l)

/-- C96, squared normal fields: with the variance that their parameter asks for, the maps have mean
zero and the announced covariance. -/
theorem generate_moments_squared {S : Type*} (b : Backend) {Y : ℕ → ℕ → S → ℂ}
    {P : ℕ → S → S → ℝ} {alm2map : List ℂ → S → ℝ} (hsyn : IsSynthesis Y alm2map)
    {cltovar : List ℝ → ℝ}
    (hvar : IsVariance cltovar) (fields : List Transformation) (gls : List (List ℝ))
    (ncorr : Option ℕ) (h : gls.length = fields.length * (fields.length + 1) / 2)
    (hL : 0 < maxLength gls) (hY : Harmonics (maxLength gls) Y P)
    (hadm : ∀ l < maxLength gls,
      Admissible fields.length (modeCov gls (ncorr.getD (fields.length - 1)) l))
    {μ : Measure Ω} {X : Ω → Normals} (hX : StandardNormals μ X) :
    ∃ M : ℕ → S → Ω → ℝ,
      (∀ ω, ∃ out, generate b alm2map cltovar (fun t x v p => call t (x p) v) (X ω) fields gls ncorr
          = (out, none) ∧ out.length = fields.length ∧
        ∀ i < fields.length, out[i]? = some fun p => M i p ω) ∧
      ∀ (i j : ℕ) (a l a' l' : ℝ), fields[i]? = some (.squared a l) →
        fields[j]? = some (.squared a' l') →
        cltovar ((gls[i * (i + 1) / 2]?).getD []) = 1 - a ^ 2 →
        cltovar ((gls[j * (j + 1) / 2]?).getD []) = 1 - a' ^ 2 → ∀ p q,
        HasMean μ (M i p) 0 ∧
        ∃ y, corr (.squared a l) (.squared a' l')
            (pointCov P gls (ncorr.getD (fields.length - 1)) i j p q) = .ok y ∧
          HasMean μ (fun ω => M i p ω * M j q ω) y := by
  obtain ⟨G, h1, h2⟩ := generate_statistics b hsyn hvar fields gls ncorr h hL hY hadm hX
  refine ⟨fun i p ω => call ((fields[i]?).getD .normal) (G i p ω)
    (cltovar ((gls[i * (i + 1) / 2]?).getD [])), fun ω => ?_, ?_⟩
  · obtain ⟨out, q1, q2, q3⟩ := h1 ω
    refine ⟨out, q1, q2, fun i hi => ?_⟩
    obtain ⟨x, r1, r2⟩ := q3 i _ (List.getElem?_eq_getElem hi)
    rw [r1]
    congr 1
    funext p
    dsimp only
    rw [r2 p, List.getElem?_eq_getElem hi]
    rfl
  · intro i j a l a' l' ht ht' hv hv' p q
    have hi : i < fields.length := (List.getElem?_eq_some_iff.1 ht).1
    have hj : j < fields.length := (List.getElem?_eq_some_iff.1 ht').1
    have hjn := h2 i hi j hj p q
    simp only [ht, ht', Option.getD_some]
    exact ⟨squared_mean hjn a l hv, squared_cov hjn a l a' l' hv hv'⟩

/-! ### The hypotheses can be met -/

/-- Streams of independent standard normal numbers exist. -/
theorem exists_standardNormals : ∃ (Ω : Type) (_ : MeasurableSpace Ω) (μ : Measure Ω)
    (X : Ω → Normals), StandardNormals μ X := by
  refine ⟨ℕ × ℕ × Fin 2 → ℝ, inferInstance, Measure.infinitePi fun _ => gaussianReal 0 1,
    fun ω q k c => ω (q, k, c), ?_, fun q k c => ?_⟩
  · exact iIndepFun_infinitePi (P := fun _ : ℕ × ℕ × Fin 2 => gaussianReal 0 1)
      (X := fun _ x => x) fun _ => measurable_id
  · exact Measure.infinitePi_map_eval _ (q, k, c)

/-- A synthesis exists for any functions: the length of the list determines `L`. -/
theorem exists_synthesis {S : Type*} (Y : ℕ → ℕ → S → ℂ) : ∃ alm2map, IsSynthesis Y alm2map := by
  classical
  let val : ℕ → List ℂ → S → ℝ := fun L alm p =>
    ∑ l ∈ range L, ((alm[l]?.getD 0 * Y l 0 p).re
      + 2 * ∑ m ∈ range l, (alm[(m + 1) * (2 * L - 1 - (m + 1)) / 2 + l]?.getD 0
        * Y l (m + 1) p).re)
  refine ⟨fun alm p => if h : ∃ L, alm.length = tri L then val h.choose alm p else 0, ?_⟩
  intro L alm hlen p
  have hex : ∃ L, alm.length = tri L := ⟨L, hlen⟩
  dsimp only
  rw [dif_pos hex, show hex.choose = L from tri_inj (hex.choose_spec.symm.trans hlen)]

/-- The harmonics of the monopole and the dipole on points `(x, y, z)` of the sphere. -/
noncomputable def dipoleY (l m : ℕ) (p : {v : ℝ × ℝ × ℝ // v.1 ^ 2 + v.2.1 ^ 2 + v.2.2 ^ 2 = 1}) : ℂ :=
  if l = 0 then ((Real.sqrt (1 / (4 * Real.pi)) : ℝ) : ℂ)
  else if m = 0 then ((Real.sqrt (3 / (4 * Real.pi)) * p.1.2.2 : ℝ) : ℂ)
  else ⟨-Real.sqrt (3 / (8 * Real.pi)) * p.1.1, -Real.sqrt (3 / (8 * Real.pi)) * p.1.2.1⟩

/-- They satisfy the addition theorem with the Legendre polynomials `1` and `cos θ`. -/
theorem dipole_harmonics : Harmonics 2 dipoleY
    fun l p q => if l = 0 then 1 else p.1.1 * q.1.1 + p.1.2.1 * q.1.2.1 + p.1.2.2 * q.1.2.2 := by
  have hpi := Real.pi_pos
  have s1 := Real.mul_self_sqrt (show 0 ≤ 1 / (4 * Real.pi) by positivity)
  have s2 := Real.mul_self_sqrt (show 0 ≤ 3 / (4 * Real.pi) by positivity)
  have s3 := Real.mul_self_sqrt (show 0 ≤ 3 / (8 * Real.pi) by positivity)
  have e : 3 / (4 * Real.pi) = 2 * (3 / (8 * Real.pi)) := by field_simp; ring
  refine ⟨?_, ?_, ?_⟩
  · intro l _ p
    by_cases h : l = 0 <;> simp only [dipoleY, h, if_true, if_false, Complex.ofReal_im]
  · intro l hl p q
    interval_cases l
    · simp only [dipoleY, if_true, Complex.ofReal_re, range_zero, sum_empty]
      rw [s1]; simp
    · simp only [dipoleY, one_ne_zero, if_false, if_true, Complex.ofReal_re, sum_range_one,
        zero_add]
      rw [show (2 * ((1 : ℕ) : ℝ) + 1) / (4 * Real.pi) = 3 / (4 * Real.pi) by norm_num]
      generalize Real.sqrt (3 / (4 * Real.pi)) = a at *
      generalize Real.sqrt (3 / (8 * Real.pi)) = b at *
      linear_combination (p.1.2.2 * q.1.2.2) * s2
        + 2 * (p.1.1 * q.1.1 + p.1.2.1 * q.1.2.1) * s3
        - (p.1.1 * q.1.1 + p.1.2.1 * q.1.2.1) * e
  · intro l hl p
    by_cases h : l = 0
    · simp [h]
    · simp only [h, if_false]; linarith [p.2]

/-- All hypotheses together: a lognormal field with a monopole and a dipole. Its map has the
covariance `l² (exp ξ - 1)` with `ξ` of the spectrum `[1, 2]`. -/
example : ∃ (Ω : Type) (_ : MeasurableSpace Ω) (μ : Measure Ω) (X : Ω → Normals)
    (alm2map : List ℂ → {v : ℝ × ℝ × ℝ // v.1 ^ 2 + v.2.1 ^ 2 + v.2.2 ^ 2 = 1} → ℝ)
    (cltovar : List ℝ → ℝ) (M : ℕ → _ → Ω → ℝ),
    (∀ ω, ∃ out, generate .inplace alm2map cltovar (fun t x v p => call t (x p) v) (X ω)
      [.lognormal 3] [[1, 2]] none = (out, none) ∧ out[0]? = some fun p => M 0 p ω) ∧
    ∀ p q, HasMean μ (fun ω => M 0 p ω * M 0 q ω)
      (9 * (Real.exp (1 / (4 * Real.pi) + 3 / (4 * Real.pi) * 2
        * (p.1.1 * q.1.1 + p.1.2.1 * q.1.2.1 + p.1.2.2 * q.1.2.2)) - 1)) := by
  obtain ⟨Ω, _, μ, X, hX⟩ := exists_standardNormals
  obtain ⟨alm2map, hsyn⟩ := exists_synthesis dipoleY
  have hmax : maxLength [[1, 2]] = 2 := by simp [maxLength]
  have hcl : ∀ l < 2, (0 : ℝ) < clValue [[1, 2]] 0 0 l := by
    intro l hl; interval_cases l <;> simp [clValue]
  obtain ⟨M, h1, h2⟩ := generate_moments .inplace hsyn (cltovar := fun cl =>
    ∑ l ∈ range cl.length, (2 * l + 1) / (4 * Real.pi) * cl[l]?.getD 0) (fun _ => rfl)
    [.lognormal 3] [[1, 2]] none (by simp) (by rw [hmax]; norm_num)
    (by rw [hmax]; exact dipole_harmonics) (by
      intro l hl
      rw [hmax] at hl
      have h0 : modeCov [[1, 2]] 0 l 0 0 = clValue [[1, 2]] 0 0 l / 2 := by simp [modeCov]
      have := hcl l hl
      refine ⟨?_, ?_⟩
      · intro i hi hz
        obtain rfl : i = 0 := by simpa using hi
        simp only [Option.getD_none, List.length_singleton, Nat.sub_self] at hz
        rw [h0] at hz
        linarith
      · rintro v ⟨i, hi, -, hv⟩
        obtain rfl : i = 0 := by simpa using hi
        simp only [quad, Option.getD_none, List.length_singleton, Nat.sub_self, sum_range_one, h0]
        have := mul_self_pos.2 hv
        nlinarith) hX
  refine ⟨Ω, _, μ, X, alm2map, fun cl => ∑ l ∈ range cl.length, (2 * l + 1) / (4 * Real.pi)
    * cl[l]?.getD 0, M, fun ω => ?_, fun p q => ?_⟩
  · obtain ⟨out, q1, q2, q3⟩ := h1 ω
    exact ⟨out, q1, q3 0 (by simp)⟩
  · obtain ⟨-, y, hy, hm⟩ := h2 0 0 (.lognormal 3) (.lognormal 3) rfl rfl (by simp) (by simp) p q
    have hc : pointCov (fun l (p q : {v : ℝ × ℝ × ℝ // v.1 ^ 2 + v.2.1 ^ 2 + v.2.2 ^ 2 = 1}) =>
        if l = 0 then (1 : ℝ) else p.1.1 * q.1.1 + p.1.2.1 * q.1.2.1 + p.1.2.2 * q.1.2.2)
        [[1, 2]] 0 0 0 p q = 1 / (4 * Real.pi) + 3 / (4 * Real.pi) * 2
        * (p.1.1 * q.1.1 + p.1.2.1 * q.1.2.1 + p.1.2.2 * q.1.2.2) := by
      unfold pointCov
      rw [if_pos (by omega), hmax]
      simp only [sum_range_succ, sum_range_zero, clValue]
      norm_num
    simp only [Option.getD_none, List.length_singleton, Nat.sub_self] at hy
    rw [hc] at hy
    simp only [corr, dispatch, corrM, Except.ok.injEq] at hy
    refine hm.congr (fun _ => rfl) ?_
    rw [← hy, expm1]
    ring

end Glass.Grf
