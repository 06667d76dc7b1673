import Verif.Grf.Local
import Verif.Grf.RequestedStatistics
import Verif.Lensing.MatrixProps

/-!
# Statistics of convergence maps (C114)

The convergence of sampled matter maps has the spectra that `effective_cls` predicts for the weights
of `multi_plane_weights`.
-/

namespace Glass.Lensing

open Finset MeasureTheory ProbabilityTheory Glass.Spectra Glass.Shells Glass.Grf

/-! ## Specification -/

/-- The mean convergence of sources with weight `weights[k]` on the plane of index `k`. -/
noncomputable def meanConvergence {S : Type} (weights : List ℝ) (planes : List (S → ℝ)) (p : S) : ℝ :=
  (List.zipWith (fun (k : S → ℝ) (w : ℝ) => w / weights.sum * k p) planes weights).sum

/-- The weights of `multi_plane_weights` for several populations, as one array. -/
noncomputable def weightArray (n m : ℕ) (lw : ℕ → List ℝ) : Weights ℝ :=
  ⟨some n, [m], fun i j => (lw j[0]!)[i]!⟩

/-! ## Linear combinations of fields -/

variable {Ω : Type*} [MeasurableSpace Ω] {μ : Measure Ω}

theorem hasMean_sum {ι : Type*} (s : Finset ι) {Z : ι → Ω → ℝ} {m : ι → ℝ}
    (h : ∀ i ∈ s, HasMean μ (Z i) (m i)) :
    HasMean μ (fun ω => ∑ i ∈ s, Z i ω) (∑ i ∈ s, m i) :=
  ⟨integrable_finsetSum _ fun i hi => (h i hi).1, by
    rw [integral_finsetSum _ fun i hi => (h i hi).1]
    exact sum_congr rfl fun i hi => (h i hi).2⟩

theorem combination_moments {n : ℕ} {A B : ℕ → Ω → ℝ} {c : ℕ → ℕ → ℝ} (u v : ℕ → ℝ)
    (h : ∀ i < n, ∀ j < n, HasMean μ (fun ω => A i ω * B j ω) (c i j)) :
    HasMean μ (fun ω => (∑ i ∈ range n, u i * A i ω) * ∑ j ∈ range n, v j * B j ω)
      (∑ i ∈ range n, ∑ j ∈ range n, u i * v j * c i j) := by
  refine (hasMean_sum (range n) fun i hi => hasMean_sum (range n) fun j hj =>
    (h i (mem_range.1 hi) j (mem_range.1 hj)).const_mul (u i * v j)).congr (fun ω => ?_) rfl
  rw [sum_mul_sum]
  exact sum_congr rfl fun i _ => sum_congr rfl fun j _ => by ring

theorem correlation_padded {S : Type*} (P : ℕ → S → S → ℝ) (cl : List ℝ) {m : ℕ}
    (h : cl.length ≤ m) (p p' : S) : correlation P cl p p' =
      ∑ l ∈ range m, (2 * l + 1) / (4 * Real.pi) * cl[l]?.getD 0 * P l p p' := by
  unfold correlation
  refine sum_subset (range_subset_range.2 h) fun l _ hl => ?_
  rw [mem_range, not_lt] at hl
  rw [List.getElem?_eq_none hl]
  simp

theorem correlation_symm {S : Type*} {P : ℕ → S → S → ℝ} (hP : ∀ l p p', P l p p' = P l p' p)
    (cl : List ℝ) (p p' : S) : correlation P cl p p' = correlation P cl p' p :=
  sum_congr rfl fun l _ => by rw [hP]

/-- The correlation function of the spectrum of a pair of weight columns. -/
theorem correlation_bilinear {S : Type*} (P : ℕ → S → S → ℝ) (cls : List (List ℝ)) (n m : ℕ)
    (u v : ℕ → ℝ) (p p' : S) :
    correlation P ((List.range m).map fun l => ∑ i ∈ range n, ∑ j ∈ range n,
      u i * v j * clValue cls i j l) p p' =
    ∑ i ∈ range n, ∑ j ∈ range n, u i * v j *
      ∑ l ∈ range m, (2 * l + 1) / (4 * Real.pi) * clValue cls i j l * P l p p' := by
  unfold correlation
  rw [List.length_map, List.length_range]
  have h1 : ∀ l ∈ range m, (2 * (l : ℝ) + 1) / (4 * Real.pi) *
      (((List.range m).map fun l => ∑ i ∈ range n, ∑ j ∈ range n,
        u i * v j * clValue cls i j l)[l]?.getD 0) * P l p p' =
      ∑ i ∈ range n, ∑ j ∈ range n, u i * v j *
        ((2 * l + 1) / (4 * Real.pi) * clValue cls i j l * P l p p') := by
    intro l hl
    rw [List.getElem?_map, List.getElem?_range (mem_range.1 hl)]
    simp only [Option.map_some, Option.getD_some, mul_sum, sum_mul]
    exact sum_congr rfl fun i _ => sum_congr rfl fun j _ => by ring
  rw [sum_congr rfl h1, sum_comm]
  refine sum_congr rfl fun i _ => ?_
  rw [sum_comm]
  exact sum_congr rfl fun j _ => by rw [mul_sum]

/-- **C114**: if the fields have the correlation functions of the spectra `cls` between `p` and
`p'`, then their linear combinations with two columns of the weights have the correlation function of
the spectrum that `effective_cls` computes for the columns. -/
theorem effective_correlation {S : Type*} {P : ℕ → S → S → ℝ} (cls : List (List ℝ)) {n : ℕ}
    (h : cls.length = n * (n + 1) / 2) (w : Weights ℝ) (hw : w.n = some n)
    {M : ℕ → S → Ω → ℝ} {p p' : S}
    (hM : ∀ i < n, ∀ j < n, HasMean μ (fun ω => M i p ω * M j p' ω)
      (correlation P ((cls[max i j * (max i j + 1) / 2 + (max i j - min i j)]?).getD []) p p')) :
    ∃ out, effectiveCls cls w none none = .ok out ∧
      ∀ a b, ValidIndex w.shape a → ValidIndex w.shape b → ∃ cl, out (a ++ b) = some cl ∧
        HasMean μ (fun ω => (∑ i ∈ range n, w.val i a * M i p ω) *
          ∑ j ∈ range n, w.val j b * M j p' ω) (correlation P cl p p') := by
  obtain ⟨m, hm, hlong, -⟩ : ∃ m, effectiveCls cls w none none = effectiveCls cls w none (some m) ∧
      (∀ cl ∈ cls, cl.length ≤ m) ∧ (m = 0 ∨ ∃ cl ∈ cls, cl.length = m) :=
    ⟨(cls.map List.length).foldl max 0, rfl, longest_spec cls⟩
  obtain ⟨out, h1, h2⟩ := effective_auto cls n h w hw m
  refine ⟨out, hm.trans h1, fun a b ha hb => ⟨_, h2 a b ha hb, ?_⟩⟩
  rw [correlation_bilinear]
  refine combination_moments (fun i => w.val i a) (fun j => w.val j b) fun i hi j hj => ?_
  have h3 := hM i hi j hj
  rw [correlation_padded P _ (m := m)] at h3
  · exact h3
  · rcases hc : cls[max i j * (max i j + 1) / 2 + (max i j - min i j)]? with _ | cl
    · simp
    · exact hlong cl (List.mem_of_getElem? hc)

/-! ## The convergence of sampled maps -/

/-- The effective spectra exist and can be computed whenever the shells can. -/
theorem planes_exist (c : Cosmology) {shells : List RadialWindow} (hne : shells ≠ [])
    {rows : List (ℕ → ℝ)} (hrows : multiPlaneMatrix c shells = .ok rows) {S : Type}
    (delta : ℕ → S → ℝ) :
    ∃ planes, convergencePlanes c delta shells 0 (MPC.init S) = .ok planes := by
  rcases matrix_applies c delta shells hne with ⟨e, h1, -⟩ | ⟨_, planes, -, h2, -⟩
  · rw [hrows] at h1; cases h1
  · exact ⟨planes, h2⟩

/-- **C114**: Let maps be sampled for the Gaussian spectra of requested spectra, one for each shell,
and let the convergence be computed from them.  The mean convergence of a population of sources has
mean zero, and the covariance of the mean convergences of two populations at two points is the
correlation function of the spectrum that `effective_cls` computes from the requested spectra and the
weights of `multi_plane_weights`. -/
theorem convergence_statistics {S : Type} (b : Backend) {Y : ℕ → ℕ → S → ℂ} {P : ℕ → S → S → ℝ}
    {alm2map : List ℂ → S → ℝ} (hsyn : IsSynthesis Y alm2map) {cltovar : List ℝ → ℝ}
    (hvar : IsVariance cltovar) {cltocorr corrtocl : List ℝ → List ℝ}
    (ht : TransformLaw cltocorr corrtocl) {sep : ℕ → ℕ → S → S → Prop}
    (hcorr : IsCorrelation P sep cltocorr) (hP : ∀ l p p', P l p p' = P l p' p)
    {fields : List Transformation} {spectra gls : List (List ℝ)}
    (hr : Realisable cltocorr fields spectra)
    (hg : computeGaussianSpectra (fun cl t1 t2 => compute cltocorr corrtocl cl t1 (some t2))
      fields spectra = .ok gls)
    (hL : 0 < maxLength gls) (hY : Harmonics (maxLength gls) Y P)
    (ncorr : Option ℕ)
    (hband : ∀ i < fields.length, ∀ j, ncorr.getD (fields.length - 1) + j < i →
      spectra[i * (i + 1) / 2 + (i - j)]? = some [])
    (hadm : ∀ l < maxLength gls,
      Admissible fields.length (modeCov gls (ncorr.getD (fields.length - 1)) l))
    (hfit : ∀ i (hi : i < fields.length), VarianceFits fields[i]
      (cltovar ((gls[i * (i + 1) / 2]?).getD [])))
    {X : Ω → Normals} (hX : StandardNormals μ X)
    (c : Cosmology) {shells : List RadialWindow} (hne : shells ≠ [])
    (hlen : shells.length = fields.length) {rows : List (ℕ → ℝ)}
    (hrows : multiPlaneMatrix c shells = .ok rows)
    (npop : ℕ) (weights : ℕ → List ℝ) (hw : ∀ a < npop, Proper c (weights a) shells) :
    ∃ (M : ℕ → S → Ω → ℝ) (planes : Ω → List (S → ℝ)) (lw : ℕ → List ℝ) (out : Out ℝ),
      (∀ ω, ∃ maps, generate b alm2map cltovar (fun t x v p => Transformation.call t (x p) v) (X ω)
          fields gls ncorr = (maps, none) ∧ maps.length = fields.length ∧
        ∀ i < fields.length, maps[i]? = some fun p => M i p ω) ∧
      (∀ ω, convergencePlanes c (fun i p => M i p ω) shells 0 (MPC.init S) = .ok (planes ω)) ∧
      (∀ a < npop, multiPlaneWeights c (weights a) shells = .ok (lw a)) ∧
      effectiveCls spectra (weightArray fields.length npop lw) none none = .ok out ∧
      ∀ a < npop, (∀ p, HasMean μ (fun ω => meanConvergence (weights a) (planes ω) p) 0) ∧
        ∀ a' < npop, ∃ cl, out [a, a'] = some cl ∧ ∀ p p',
          (∀ cl ∈ spectra, cl ≠ [] → (∃ q < cl.length, sep cl.length q p p') ∧
            ∃ q < cl.length, sep cl.length q p' p) →
          HasMean μ (fun ω => meanConvergence (weights a) (planes ω) p *
            meanConvergence (weights a') (planes ω) p') (correlation P cl p p') := by
  obtain ⟨M, h1, -, h3, h4⟩ := generate_requested_all b hsyn hvar ht hcorr hr hg hL hY ncorr hband
    hadm hfit hX
  choose planes hplanes using fun ω => planes_exist c hne hrows (fun i p => M i p ω)
  have hadj : ∀ a < npop, ∃ lw, multiPlaneWeights c (weights a) shells = .ok lw := by
    intro a ha
    refine ⟨_, by simp only [multiPlaneWeights, (hw a ha).length, ne_eq, not_true_eq_false, if_false, hrows]
                  rfl⟩
  have hadj2 : ∀ a, ∃ lw : List ℝ, a < npop → multiPlaneWeights c (weights a) shells = .ok lw := by
    intro a
    by_cases ha : a < npop
    · obtain ⟨lw, h⟩ := hadj a ha
      exact ⟨lw, fun _ => h⟩
    · exact ⟨[], fun h => absurd h ha⟩
  choose lw hlw using hadj2
  have hkappa : ∀ a < npop, ∀ ω p, meanConvergence (weights a) (planes ω) p =
      ∑ k ∈ range fields.length, (lw a)[k]! * M k p ω := by
    intro a ha ω p
    obtain ⟨lw', e1, -, e2⟩ := weights_adjoint c (fun i p => M i p ω) (weights a) shells hne
      (hw a ha) (planes ω) (hplanes ω)
    rw [hlw a ha, Except.ok.injEq] at e1
    subst e1
    rw [← hlen]
    exact (e2 p).symm
  have hcount : spectra.length = fields.length * (fields.length + 1) / 2 := hr.count
  obtain ⟨m, hm, hlong, -⟩ : ∃ m, effectiveCls spectra (weightArray fields.length npop lw) none none
        = effectiveCls spectra (weightArray fields.length npop lw) none (some m) ∧
      (∀ cl ∈ spectra, cl.length ≤ m) ∧ (m = 0 ∨ ∃ cl ∈ spectra, cl.length = m) :=
    ⟨(spectra.map List.length).foldl max 0, rfl, longest_spec spectra⟩
  obtain ⟨out, g1, g2⟩ := effective_auto spectra fields.length hcount
    (weightArray fields.length npop lw) rfl m
  refine ⟨M, planes, lw, out, h1, hplanes, fun a ha => hlw a ha, hm.trans g1, fun a ha =>
    ⟨fun p => ?_, fun a' ha' => ⟨_, g2 [a] [a'] ⟨ha, trivial⟩ ⟨ha', trivial⟩, fun p p' hs => ?_⟩⟩⟩
  · refine (hasMean_sum (range fields.length) fun k hk =>
      (h3 k (mem_range.1 hk) p).const_mul ((lw a)[k]!)).congr (fun ω => ?_) (by simp)
    exact (hkappa a ha ω p).symm
  · have key : ∀ i < fields.length, ∀ j < fields.length, HasMean μ (fun ω => M i p ω * M j p' ω)
        (correlation P
          ((spectra[max i j * (max i j + 1) / 2 + (max i j - min i j)]?).getD []) p p') := by
      intro i hi j hj
      rcases le_total j i with hji | hij
      · obtain ⟨cl, e1, e2⟩ := h4 i hi j hji
        rw [max_eq_left hji, min_eq_right hji, e1]
        exact e2 p p' fun hc => (hs cl (List.mem_of_getElem? e1) hc).1
      · obtain ⟨cl, e1, e2⟩ := h4 j hj i hij
        rw [max_eq_right hij, min_eq_left hij, e1]
        refine (e2 p' p fun hc => (hs cl (List.mem_of_getElem? e1) hc).2).congr
          (fun ω => mul_comm _ _) ?_
        exact correlation_symm hP cl p' p
    obtain ⟨out', g3, g4⟩ := effective_correlation spectra hcount
      (weightArray fields.length npop lw) rfl key
    rw [hm.trans g1, Except.ok.injEq] at g3
    subst g3
    obtain ⟨cl, g5, g6⟩ := g4 [a] [a'] ⟨ha, trivial⟩ ⟨ha', trivial⟩
    rw [g2 [a] [a'] ⟨ha, trivial⟩ ⟨ha', trivial⟩, Option.some.injEq] at g5
    rw [g5]
    refine g6.congr (fun ω => ?_) rfl
    rw [hkappa a ha, hkappa a' ha']
    rfl

/-! ### A case that meets all hypotheses -/

/-- The spectra of two constant normal fields of variance 1 with covariance 1/2. -/
noncomputable def constantSpectra : List (List ℝ) := [[4 * Real.pi], [4 * Real.pi], [2 * Real.pi]]

theorem constant_normal :
    Realisable dipoleCorr [.normal, .normal] constantSpectra ∧
    computeGaussianSpectra (fun cl t1 t2 => compute dipoleCorr dipoleCl cl t1 (some t2))
      [.normal, .normal] constantSpectra = .ok constantSpectra ∧
    maxLength constantSpectra = 1 ∧
    ∀ l < maxLength constantSpectra, Admissible 2 (modeCov constantSpectra 1 l) := by
  have hpi := Real.pi_pos
  have hmax : maxLength constantSpectra = 1 := by simp [maxLength, constantSpectra]
  refine ⟨⟨rfl, by simp [NonDegenerate], ?_⟩, ?_, hmax, ?_⟩
  · intro i j hi hj cl hcl hne
    have hi2 : i < 2 := hi
    interval_cases i <;> interval_cases j <;> exact ⟨trivial, fun _ _ => trivial⟩
  · rw [compute_gaussian_spec]
    refine ⟨rfl, rfl, ?_⟩
    intro i j hi hj
    have hi2 : i < 2 := hi
    interval_cases i <;> interval_cases j <;>
      refine ⟨_, _, rfl, rfl, fun h => by simp at h, fun _ => ?_⟩ <;>
      · simp [compute, dipoleCorr, dipoleCl, icorrList, dispatch, arrayM, Transformation.icorrM]
        try field_simp
  · intro l hl
    rw [hmax] at hl
    obtain rfl : l = 0 := by omega
    have h00 : modeCov constantSpectra 1 0 0 0 = 2 * Real.pi := by
      simp [modeCov, clValue, constantSpectra]; ring
    have h11 : modeCov constantSpectra 1 0 1 1 = 2 * Real.pi := by
      simp [modeCov, clValue, constantSpectra]; ring
    have h10 : modeCov constantSpectra 1 0 1 0 = Real.pi := by
      simp [modeCov, clValue, constantSpectra]
    have h01 : modeCov constantSpectra 1 0 0 1 = Real.pi := by
      simp [modeCov, clValue, constantSpectra]
    constructor
    · intro i hi h
      interval_cases i
      · rw [h00] at h; linarith
      · rw [h11] at h; linarith
    · rintro v ⟨i, hi, -, hv⟩
      simp only [quad, sum_range_succ, sum_range_zero, h00, h11, h10, h01]
      have hq : 0 < v 0 ^ 2 + v 1 ^ 2 := by
        interval_cases i
        · have := sq_pos_of_ne_zero hv
          nlinarith [sq_nonneg (v 1)]
        · have := sq_pos_of_ne_zero hv
          nlinarith [sq_nonneg (v 0)]
      nlinarith [mul_nonneg hpi.le (sq_nonneg (v 0 + v 1)), mul_pos hpi hq]

/-- Two shells, where the lensing weight of the first shell for sources on the second one is `3/4`:
the convergence of these sources has the covariance `9/16` times that of the first matter field. -/
example : ∃ (Ω : Type) (_ : MeasurableSpace Ω) (μ : Measure Ω) (X : Ω → Normals)
    (alm2map : List ℂ → {v : ℝ × ℝ × ℝ // v.1 ^ 2 + v.2.1 ^ 2 + v.2.2 ^ 2 = 1} → ℝ)
    (cltovar : List ℝ → ℝ) (M : ℕ → _ → Ω → ℝ) (planes : Ω → List (_ → ℝ)),
    (∀ ω, ∃ maps, generate .inplace alm2map cltovar (fun t x v p => Transformation.call t (x p) v)
      (X ω) [.normal, .normal] constantSpectra none = (maps, none) ∧
      ∀ i < 2, maps[i]? = some fun p => M i p ω) ∧
    (∀ ω, convergencePlanes (flatCosmology 1 1 (fun z => z) fun z => 1 + z) (fun i p => M i p ω)
      [⟨[(0, 0), (1, 1), (2, 0)], 1⟩, ⟨[(1, 0), (2, 1), (3, 0)], 2⟩] 0 (MPC.init _)
        = .ok (planes ω)) ∧
    ∀ p p', HasMean μ (fun ω => meanConvergence [0, 1] (planes ω) p *
      meanConvergence [0, 1] (planes ω) p') (9 / 16) := by
  obtain ⟨rows, hrows, e10, e00, e11⟩ := two_shells
  obtain ⟨Ω, _, μ, X, hX⟩ := exists_standardNormals
  obtain ⟨alm2map, hsyn⟩ := exists_synthesis dipoleY
  obtain ⟨hr, hg, hmax, hadm⟩ := constant_normal
  have hY : Harmonics 1 dipoleY fun l p q =>
      if l = 0 then 1 else p.1.1 * q.1.1 + p.1.2.1 * q.1.2.1 + p.1.2.2 * q.1.2.2 :=
    ⟨fun l hl => dipole_harmonics.real l (by omega),
      fun l hl => dipole_harmonics.addition l (by omega),
      fun l hl => dipole_harmonics.point l (by omega)⟩
  obtain ⟨M, planes, lw, out, h1, h2, h3, h4, h5⟩ := convergence_statistics .inplace hsyn
    (cltovar := fun cl => ∑ l ∈ range cl.length, (2 * l + 1) / (4 * Real.pi) * cl[l]?.getD 0)
    (fun _ => rfl) dipole_transform dipole_correlation
    (fun l p p' => by split <;> ring) hr hg (by rw [hmax]; norm_num) (by rw [hmax]; exact hY) none
    (by simp only [Option.getD_none, List.length_cons, List.length_nil]; omega) hadm
    (by
      intro i hi
      have hi2 : i < 2 := hi
      interval_cases i <;> trivial) hX (flatCosmology 1 1 (fun z => z) fun z => 1 + z)
    (shells := [⟨[(0, 0), (1, 1), (2, 0)], 1⟩, ⟨[(1, 0), (2, 1), (3, 0)], 2⟩]) (by simp) rfl hrows 1
    (fun _ => [0, 1]) (fun _ _ => two_shells_proper)
  refine ⟨Ω, _, μ, X, alm2map, fun cl => ∑ l ∈ range cl.length, (2 * l + 1) / (4 * Real.pi)
    * cl[l]?.getD 0, M, planes, fun ω => ?_, h2, fun p p' => ?_⟩
  · obtain ⟨maps, q1, -, q2⟩ := h1 ω
    exact ⟨maps, q1, q2⟩
  · obtain ⟨cl, g1, g2⟩ := (h5 0 (by norm_num)).2 0 (by norm_num)
    have g3 := g2 p p' (by
      intro cl hcl _
      have : cl.length = 1 := by
        simp only [constantSpectra, List.mem_cons, List.not_mem_nil, or_false] at hcl
        rcases hcl with rfl | rfl | rfl <;> rfl
      rw [this]
      exact ⟨⟨0, by norm_num, .inl rfl⟩, 0, by norm_num, .inl rfl⟩)
    have hlw : lw 0 = [3 / 4, 0] := by
      have := h3 0 (by norm_num)
      have hl := (matrix_strictly_lower _ _ _ hrows).1
      rw [List.length_cons, List.length_cons, List.length_nil] at hl
      obtain ⟨r0, r1, rfl⟩ : ∃ r0 r1, rows = [r0, r1] := by
        rcases rows with _ | ⟨r0, _ | ⟨r1, _ | ⟨r2, rest⟩⟩⟩ <;> simp at hl ⊢
      simp only [List.getElem!_cons_zero, List.getElem!_cons_succ] at e10 e00 e11
      simp only [multiPlaneWeights, hrows] at this
      simp [bind, Except.bind, List.range_succ, e10, e11] at this
      exact this.symm
    obtain ⟨out', k1, k2⟩ := effective_auto constantSpectra 2 rfl (weightArray 2 1 lw) rfl 1
    have k3 : effectiveCls constantSpectra (weightArray 2 1 lw) none none =
        effectiveCls constantSpectra (weightArray 2 1 lw) none (some 1) := rfl
    rw [show [Transformation.normal, Transformation.normal].length = 2 from rfl, k3, k1,
      Except.ok.injEq] at h4
    subst h4
    have k4 := k2 [0] [0] ⟨by norm_num, trivial⟩ ⟨by norm_num, trivial⟩
    rw [show ([0] : List ℕ) ++ [0] = [0, 0] from rfl, g1, Option.some.injEq] at k4
    have k5 : correlation (fun l (p q : {v : ℝ × ℝ × ℝ // v.1 ^ 2 + v.2.1 ^ 2 + v.2.2 ^ 2 = 1}) =>
        if l = 0 then 1 else p.1.1 * q.1.1 + p.1.2.1 * q.1.2.1 + p.1.2.2 * q.1.2.2) cl p p' =
        9 / 16 := by
      rw [k4]
      have hpi := Real.pi_ne_zero
      simp [correlation, weightArray, hlw, sum_range_succ, clValue, constantSpectra, List.range_succ]
      field_simp
      norm_num
    rwa [k5] at g3

end Glass.Lensing
