import Verif.Spectra.Props
import Verif.Grf.Gaussian
import Verif.Grf.SolverProps
import Verif.Grf.FieldMomentsProps

/-!
# Gaussian spectra of a set of fields (C86, C87)
-/

namespace Glass.Grf

open Glass.Spectra MeasureTheory

/-! ## Helper lemmas -/

theorem mapM_eq_ok_iff {α β : Type*} {f : α → Except Err β} : ∀ {l : List α} {r : List β},
    l.mapM f = .ok r ↔ r.length = l.length ∧
      ∀ (k : ℕ) (a : α), l[k]? = some a → ∃ b, r[k]? = some b ∧ f a = .ok b
  | [], r => by
    simp only [List.mapM_nil, pure, Except.pure, Except.ok.injEq, List.length_nil]
    constructor
    · rintro rfl; simp
    · rintro ⟨h, -⟩; exact (List.length_eq_zero_iff.1 h).symm
  | a :: l, r => by
    rw [List.mapM_cons]
    rcases ha : f a with e | b
    · simp only [bind, Except.bind, reduceCtorEq, false_iff]
      rintro ⟨-, h⟩
      obtain ⟨b, -, h⟩ := h 0 a rfl
      rw [ha] at h; simp at h
    · rcases hm : l.mapM f with e | bs
      · simp only [bind, Except.bind, reduceCtorEq, false_iff]
        rintro ⟨hl, h⟩
        rcases r with _ | ⟨b', r⟩
        · simp at hl
        · have : l.mapM f = .ok r := mapM_eq_ok_iff.2 ⟨by simpa using hl, fun k x hx => by
            simpa using h (k + 1) x (by simpa using hx)⟩
          rw [hm] at this; simp at this
      · simp only [bind, Except.bind, pure, Except.pure, Except.ok.injEq]
        obtain ⟨hl, hk⟩ := mapM_eq_ok_iff.1 hm
        constructor
        · rintro rfl
          refine ⟨by simp [hl], ?_⟩
          rintro (_ | k) x hx
          · simp only [List.getElem?_cons_zero, Option.some.injEq] at hx ⊢
            subst hx; exact ⟨b, rfl, ha⟩
          · simpa using hk k x (by simpa using hx)
        · rintro ⟨hl', h⟩
          rcases r with _ | ⟨b', r⟩
          · simp at hl'
          · obtain ⟨b2, hb2, hf⟩ := h 0 a rfl
            rw [ha] at hf
            simp only [List.getElem?_cons_zero, Option.some.injEq, Except.ok.injEq] at hb2 hf
            have : l.mapM f = .ok r := mapM_eq_ok_iff.2 ⟨by simpa using hl', fun k x hx => by
              simpa using h (k + 1) x (by simpa using hx)⟩
            rw [hm] at this
            simp only [Except.ok.injEq] at this
            rw [this, hf, hb2]

theorem mapM_eq_error {α β : Type*} {f : α → Except Err β} {e : Err} : ∀ {l : List α},
    l.mapM f = .error e → ∃ (k : ℕ) (a : α), l[k]? = some a ∧ f a = .error e
  | [], h => by simp [pure, Except.pure] at h
  | a :: l, h => by
    rw [List.mapM_cons] at h
    rcases ha : f a with e' | b
    · rw [ha] at h
      simp only [bind, Except.bind, Except.error.injEq] at h
      subst h
      exact ⟨0, a, rfl, ha⟩
    · rw [ha] at h
      rcases hm : l.mapM f with e' | bs
      · rw [hm] at h
        simp only [bind, Except.bind, Except.error.injEq] at h
        subst h
        obtain ⟨k, x, hx, hf⟩ := mapM_eq_error hm
        exact ⟨k + 1, x, by simpa using hx, hf⟩
      · rw [hm] at h
        simp [bind, Except.bind, pure, Except.pure] at h

/-- The entries of `enumerate_spectra` are the labelled spectra. -/
theorem enumerate_get {α : Type*} (entries : List α) (i j : ℕ) (hj : j ≤ i) :
    (enumerateSpectra Real.sqrt entries)[i * (i + 1) / 2 + (i - j)]? =
      entries[i * (i + 1) / 2 + (i - j)]?.map fun c => ((i : ℤ), (j : ℤ), c) := by
  by_cases hk : i * (i + 1) / 2 + (i - j) < entries.length
  · obtain ⟨i', j', hj', hpos, h⟩ := enumerate_labels entries _ hk
    change tri i' + i' - j' = tri i + (i - j) at hpos
    have hu := tri_row_unique (a := i') (b := i) (c := i' - j') (d := i - j) (by omega) (by omega)
      (by omega)
    obtain ⟨rfl, h2⟩ := hu
    obtain rfl : j' = j := by omega
    rw [h, List.getElem?_eq_getElem hk]; rfl
  · rw [List.getElem?_eq_none (by rw [enumerate_length]; omega),
      List.getElem?_eq_none (by omega)]; rfl

/-- Every position is that of a pair. -/
theorem exists_pair {n k : ℕ} (hk : k < n * (n + 1) / 2) :
    ∃ i j, j ≤ i ∧ i < n ∧ k = i * (i + 1) / 2 + (i - j) := by
  obtain ⟨i, c, hc, rfl⟩ := exists_row k
  refine ⟨i, i - c, by omega, ?_, ?_⟩
  · by_contra h
    have := tri_mono (not_lt.1 h)
    change tri i + c < tri n at hk
    omega
  · change tri i + c = tri i + (i - (i - c)); omega

theorem pair_lt {n i j : ℕ} (hj : j ≤ i) (hi : i < n) :
    i * (i + 1) / 2 + (i - j) < n * (n + 1) / 2 := by
  have := tri_lt hi
  change tri i + (i - j) < tri n
  omega

/-! ## C86: `compute_gaussian_spectra` -/

variable {T K : Type*}

/-- **C86** The result has one spectrum for each pair of fields, in the order of the input: the one
that `compute` gives for the labelled spectrum and the two fields of its label; empty spectra
stay empty.  Nothing else is returned. -/
theorem compute_gaussian_spec [MulZeroClass K] (compute : List K → T → T → Except Err (List K))
    (fields : List T) (spectra gls : List (List K)) :
    computeGaussianSpectra compute fields spectra = .ok gls ↔
      spectra.length = fields.length * (fields.length + 1) / 2 ∧
      gls.length = spectra.length ∧
      ∀ i j (hi : i < fields.length) (hj : j ≤ i), ∃ cl gl,
        spectra[i * (i + 1) / 2 + (i - j)]? = some cl ∧
        gls[i * (i + 1) / 2 + (i - j)]? = some gl ∧
        (cl = [] → gl = []) ∧ (cl ≠ [] → compute cl fields[i] fields[j] = .ok gl) := by
  unfold computeGaussianSpectra
  simp only
  split
  · rename_i h
    simp [h]
  · rename_i h
    rw [not_not] at h
    rw [mapM_eq_ok_iff, enumerate_length]
    simp only [h, true_and]
    refine and_congr_right fun hl => ?_
    constructor
    · intro hk i j hi hj
      have hlt := pair_lt hj hi
      have hs : i * (i + 1) / 2 + (i - j) < spectra.length := by omega
      obtain ⟨gl, hgl, hc⟩ := hk (i * (i + 1) / 2 + (i - j)) (i, j, spectra[i * (i + 1) / 2 + (i - j)])
        (by rw [enumerate_get _ _ _ hj, List.getElem?_eq_getElem hs]; rfl)
      refine ⟨_, gl, List.getElem?_eq_getElem hs, hgl, ?_, ?_⟩
      · intro he
        simp only [he, List.length_nil, gt_iff_lt, lt_self_iff_false, if_false, List.map_nil,
          Except.ok.injEq] at hc
        exact hc.symm
      · intro he
        have hp := List.length_pos_iff.2 he
        simpa [hp, pyGet_of_lt fields i hi, pyGet_of_lt fields j (by omega)] using hc
    · intro hp k a ha
      have hk : k < spectra.length := by
        by_contra hn
        rw [List.getElem?_eq_none (by rw [enumerate_length]; omega)] at ha
        simp at ha
      obtain ⟨i, j, hj, hi, rfl⟩ := exists_pair (by rw [← h]; exact hk)
      obtain ⟨cl, gl, hcl, hgl, h0, h1⟩ := hp i j hi hj
      rw [enumerate_get _ _ _ hj, hcl] at ha
      simp only [Option.map_some, Option.some.injEq] at ha
      subst ha
      refine ⟨gl, hgl, ?_⟩
      by_cases hc : cl = []
      · subst hc; simp [h0 rfl]
      · have hp := List.length_pos_iff.2 hc
        simp [hp, pyGet_of_lt fields i hi, pyGet_of_lt fields j (by omega), h1 hc]

/-- **C86** The exceptions: the wrong number of spectra, or what `compute` raises for one of the
pairs. -/
theorem compute_gaussian_error [MulZeroClass K] (compute : List K → T → T → Except Err (List K))
    (fields : List T) (spectra : List (List K)) (e : Err)
    (h : computeGaussianSpectra compute fields spectra = .error e) :
    (spectra.length ≠ fields.length * (fields.length + 1) / 2 ∧ ∃ msg, e = .value msg) ∨
    ∃ i j, ∃ (hi : i < fields.length) (hj : j ≤ i), ∃ cl,
      spectra[i * (i + 1) / 2 + (i - j)]? = some cl ∧ cl ≠ [] ∧
      compute cl fields[i] fields[j] = .error e := by
  unfold computeGaussianSpectra at h
  simp only at h
  split at h
  · rename_i hn
    simp only [Except.error.injEq] at h
    exact .inl ⟨hn, _, h.symm⟩
  · rename_i hn
    rw [not_not] at hn
    right
    obtain ⟨k, a, ha, hf⟩ := mapM_eq_error h
    have hk : k < spectra.length := by
      by_contra hn
      rw [List.getElem?_eq_none (by rw [enumerate_length]; omega)] at ha
      simp at ha
    obtain ⟨i, j, hj, hi, rfl⟩ := exists_pair (by rw [← hn]; exact hk)
    rw [enumerate_get _ _ _ hj, List.getElem?_eq_getElem hk] at ha
    simp only [Option.map_some, Option.some.injEq] at ha
    subst ha
    refine ⟨i, j, hi, hj, _, List.getElem?_eq_getElem hk, ?_⟩
    by_cases hp : (spectra[i * (i + 1) / 2 + (i - j)]).length > 0
    · refine ⟨List.length_pos_iff.1 hp, ?_⟩
      simpa [hp, pyGet_of_lt fields i hi, pyGet_of_lt fields j (by omega)] using hf
    · simp [hp] at hf

/-- The transforms between spectra and correlation functions are inverse to each other. -/
structure TransformLaw (cltocorr corrtocl : List ℝ → List ℝ) : Prop where
  left : ∀ c, corrtocl (cltocorr c) = c
  right : ∀ c, cltocorr (corrtocl c) = c

/-- What `compute_gaussian_spectra` needs from its input: the right number of spectra, and for
every pair with a spectrum, fields that support each other and a correlation function that they
can have. -/
structure Realisable (cltocorr : List ℝ → List ℝ) (fields : List Transformation)
    (spectra : List (List ℝ)) : Prop where
  count : spectra.length = fields.length * (fields.length + 1) / 2
  regular : ∀ t ∈ fields, NonDegenerate t
  pair : ∀ i j (hi : i < fields.length) (hj : j ≤ i) cl,
    spectra[i * (i + 1) / 2 + (i - j)]? = some cl → cl ≠ [] →
    Supported fields[i] fields[j] ∧ ∀ y ∈ cltocorr cl, TargetDom fields[i] fields[j] y

/-- **C86** For every realisable input the call succeeds, and the transformations map the
correlation function of each Gaussian spectrum to that of the requested spectrum. -/
theorem compute_gaussian_recovers {cltocorr corrtocl : List ℝ → List ℝ}
    (ht : TransformLaw cltocorr corrtocl) {fields : List Transformation}
    {spectra : List (List ℝ)} (hr : Realisable cltocorr fields spectra) :
    ∃ gls, computeGaussianSpectra (fun cl t1 t2 => compute cltocorr corrtocl cl t1 (some t2))
        fields spectra = .ok gls ∧ gls.length = spectra.length ∧
      ∀ i j (hi : i < fields.length) (hj : j ≤ i), ∃ cl gl,
        spectra[i * (i + 1) / 2 + (i - j)]? = some cl ∧
        gls[i * (i + 1) / 2 + (i - j)]? = some gl ∧ (cl = [] → gl = []) ∧
        (cl ≠ [] → corrList fields[i] fields[j] (cltocorr gl) = .ok (cltocorr cl)) := by
  have hc : ∀ i j (hi : i < fields.length) (hj : j ≤ i) cl,
      spectra[i * (i + 1) / 2 + (i - j)]? = some cl → cl ≠ [] →
      ∃ gl, compute cltocorr corrtocl cl fields[i] (some fields[j]) = .ok gl ∧
        corrList fields[i] fields[j] (cltocorr gl) = .ok (cltocorr cl) := by
    intro i j hi hj cl hcl hne
    obtain ⟨hs, hd⟩ := hr.pair i j hi hj cl hcl hne
    obtain ⟨gl, h1, ct, h2, h3⟩ := compute_inverts cltocorr corrtocl ht.left ht.right cl _ _ hs
      (hr.regular _ (List.getElem_mem _)) (hr.regular _ (List.getElem_mem _)) hd
    refine ⟨gl, h1, ?_⟩
    rw [h2, ← h3, ht.right]
  rcases h : computeGaussianSpectra (fun cl t1 t2 => compute cltocorr corrtocl cl t1 (some t2))
    fields spectra with e | gls
  · exfalso
    rcases compute_gaussian_error _ _ _ _ h with ⟨h, -⟩ | ⟨i, j, hi, hj, cl, hcl, hne, he⟩
    · exact h hr.count
    · obtain ⟨gl, hg, -⟩ := hc i j hi hj cl hcl hne
      rw [hg] at he
      simp at he
  · obtain ⟨-, hl, hp⟩ := (compute_gaussian_spec _ _ _ _).1 h
    refine ⟨gls, rfl, hl, fun i j hi hj => ?_⟩
    obtain ⟨cl, gl, hcl, hgl, h0, h1⟩ := hp i j hi hj
    refine ⟨cl, gl, hcl, hgl, h0, fun hne => ?_⟩
    obtain ⟨gl', hg, hs⟩ := hc i j hi hj cl hcl hne
    have := (h1 hne).symm.trans hg
    simp only [Except.ok.injEq] at this
    rw [this]; exact hs

/-- The variance that a squared normal field needs for mean zero. -/
def VarianceFits : Transformation → ℝ → Prop
  | .squared a _, v => v = 1 - a ^ 2
  | _, _ => True

/-- **C86** The statistics of the transformed fields.  Let two points have separation number `q`
of the correlation transform, and let the Gaussian fields `i` and `j` at these points be jointly
normal with the covariance that the computed Gaussian spectrum has there.  Then the transformed
fields have mean zero, and their covariance is that of the requested spectrum. -/
theorem compute_gaussian_statistics {cltocorr corrtocl : List ℝ → List ℝ}
    (ht : TransformLaw cltocorr corrtocl) {fields : List Transformation}
    {spectra gls : List (List ℝ)} (hr : Realisable cltocorr fields spectra)
    (hg : computeGaussianSpectra (fun cl t1 t2 => compute cltocorr corrtocl cl t1 (some t2))
      fields spectra = .ok gls)
    {i j : ℕ} (hi : i < fields.length) (hj : j ≤ i) {cl gl : List ℝ}
    (hcl : spectra[i * (i + 1) / 2 + (i - j)]? = some cl)
    (hgl : gls[i * (i + 1) / 2 + (i - j)]? = some gl) (hne : cl ≠ [])
    {Ω : Type*} [MeasurableSpace Ω] {P : Measure Ω} {X Y : Ω → ℝ} {v1 v2 c : ℝ} {q : ℕ}
    (hc : (cltocorr gl)[q]? = some c) (hn : JointNormal P X Y v1 v2 c)
    (hv1 : VarianceFits fields[i] v1) (hv2 : VarianceFits fields[j] v2) :
    HasMean P (fun ω => fields[i].call (X ω) v1) 0 ∧
    HasMean P (fun ω => fields[j].call (Y ω) v2) 0 ∧
    ∃ y, (cltocorr cl)[q]? = some y ∧
      HasMean P (fun ω => fields[i].call (X ω) v1 * fields[j].call (Y ω) v2) y := by
  obtain ⟨gls', hg', -, hp⟩ := compute_gaussian_recovers ht hr
  obtain rfl : gls = gls' := by rw [hg] at hg'; simpa using hg'
  obtain ⟨cl', gl', hcl', hgl', -, h1⟩ := hp i j hi hj
  obtain rfl : cl = cl' := by rw [hcl] at hcl'; simpa using hcl'
  obtain rfl : gl = gl' := by rw [hgl] at hgl'; simpa using hgl'
  have hcorr := h1 hne
  obtain ⟨hs, -⟩ := hr.pair i j hi hj cl hcl hne
  rw [corrList_ok _ _ hs] at hcorr
  simp only [Except.ok.injEq] at hcorr
  have hy : (cltocorr cl)[q]? = some (corrVal fields[i] fields[j] c) := by
    rw [← hcorr, List.getElem?_map, hc]; rfl
  generalize fields[i] = t1 at *
  generalize fields[j] = t2 at *
  have key : ∃ y, corr t1 t2 c = .ok y ∧
      HasMean P (fun ω => t1.call (X ω) v1 * t2.call (Y ω) v2) y := by
    rcases t1 with _ | l | ⟨a, l⟩ <;> rcases t2 with _ | l' | ⟨a', l'⟩ <;>
      first
      | exact False.elim hs
      | exact squared_cov hn _ _ _ _ hv1 hv2
      | exact lognormal_cov hn _ _ (by simp) (by simp)
  obtain ⟨y, hy1, hy2⟩ := key
  refine ⟨?_, ?_, y, ?_, hy2⟩
  · rcases t1 with _ | l | ⟨a, l⟩
    · exact (lognormal_mean hn 0).2
    · exact (lognormal_mean hn l).1
    · exact squared_mean hn a l hv1
  · rcases t2 with _ | l | ⟨a, l⟩
    · exact (lognormal_mean hn.swap 0).2
    · exact (lognormal_mean hn.swap l).1
    · exact squared_mean hn.swap a l hv2
  · rw [hy, corrVal, hy1]

/-- **C86** The call raises `NotImplementedError` if and only if the number of spectra is right and
a pair of fields with a spectrum is not supported, and no other exception occurs then. -/
theorem compute_gaussian_unsupported (cltocorr corrtocl : List ℝ → List ℝ)
    (fields : List Transformation) (spectra : List (List ℝ)) :
    computeGaussianSpectra (fun cl t1 t2 => compute cltocorr corrtocl cl t1 (some t2))
        fields spectra = .error .notImplemented ↔
      spectra.length = fields.length * (fields.length + 1) / 2 ∧
      ∃ i j, ∃ (hi : i < fields.length) (hj : j ≤ i), ∃ cl,
        spectra[i * (i + 1) / 2 + (i - j)]? = some cl ∧ cl ≠ [] ∧
        ¬ Supported fields[i] fields[j] := by
  have hcomp : ∀ cl t1 t2, (Supported t1 t2 →
      ∃ gl, compute cltocorr corrtocl cl t1 (some t2) = .ok gl) ∧ (¬ Supported t1 t2 →
      compute cltocorr corrtocl cl t1 (some t2) = .error .notImplemented) := by
    intro cl t1 t2
    constructor
    · intro hs
      exact ⟨corrtocl ((cltocorr cl).map (icorrVal t1 t2)), by
        simp [compute, icorrList_ok _ _ hs]⟩
    · intro hs
      have := ((dispatch_array_symm t1 t2 (cltocorr cl)).2.2 hs).2.1
      simp [compute, this]
  constructor
  · intro h
    rcases compute_gaussian_error _ _ _ _ h with ⟨-, msg, hm⟩ | ⟨i, j, hi, hj, cl, hcl, hne, he⟩
    · simp at hm
    · refine ⟨?_, i, j, hi, hj, cl, hcl, hne, fun hs => ?_⟩
      · by_contra hn
        unfold computeGaussianSpectra at h
        simp [hn] at h
      · obtain ⟨gl, hgl⟩ := (hcomp cl fields[i] fields[j]).1 hs
        rw [hgl] at he; simp at he
  · rintro ⟨hn, i, j, hi, hj, cl, hcl, hne, hs⟩
    rcases h : computeGaussianSpectra (fun cl t1 t2 => compute cltocorr corrtocl cl t1 (some t2))
      fields spectra with e | gls
    · rcases compute_gaussian_error _ _ _ _ h with ⟨h', -⟩ | ⟨i', j', hi', hj', cl', -, -, he⟩
      · exact absurd hn h'
      · by_cases hs' : Supported fields[i'] fields[j']
        · obtain ⟨gl, hgl⟩ := (hcomp cl' fields[i'] fields[j']).1 hs'
          rw [hgl] at he; simp at he
        · have he' := (hcomp cl' fields[i'] fields[j']).2 hs'
          rw [he] at he'
          simpa using he'
    · obtain ⟨-, -, hp⟩ := (compute_gaussian_spec _ _ _ _).1 h
      obtain ⟨cl', gl, hcl', -, -, h1⟩ := hp i j hi hj
      obtain rfl : cl = cl' := by rw [hcl] at hcl'; simpa using hcl'
      have := (hcomp cl fields[i] fields[j]).2 hs
      rw [h1 hne] at this
      simp at this

/-- A case for C86: a lognormal and a normal field, one spectrum missing, with the transforms that
double and halve. -/
example : Realisable (fun c => c.map (2 * ·)) [.lognormal 2, .normal] [[1, 3], [5], []] where
  count := rfl
  regular := by simp [NonDegenerate]
  pair := by
    intro i j hi hj cl hcl hne
    simp only [List.length_cons, List.length_nil] at hi
    have : i = 0 ∧ j = 0 ∨ i = 1 ∧ j = 0 ∨ i = 1 ∧ j = 1 := by omega
    rcases this with ⟨rfl, rfl⟩ | ⟨rfl, rfl⟩ | ⟨rfl, rfl⟩
    · simp at hcl; subst hcl
      simp [Supported, TargetDom]; norm_num
    · simp at hcl; exact absurd hcl hne
    · simp at hcl; subst hcl
      simp [Supported, TargetDom]

/-! ## C87: `solve_gaussian_spectra` -/

variable {F : Type*} (E : Numerics F T)

theorem solveAll_spec (fuel : ℕ) (fields : List T) : ∀ (L : List (ℤ × ℤ × List F))
    {gls : List (List F)} {warns : List (ℤ × ℤ)},
    solveAll E fuel fields L = some (.ok (gls, warns)) →
    gls.length = L.length ∧ warns.Sublist (L.map fun e => (e.1, e.2.1)) ∧
    ∀ (k : ℕ) (e : ℤ × ℤ × List F), L[k]? = some e → ∃ gl w, gls[k]? = some gl ∧
      solveOne E fuel fields e.1 e.2.1 e.2.2 = some (.ok (gl, w)) ∧
      (w = true → (e.1, e.2.1) ∈ warns) ∧
      ((L.map fun e => (e.1, e.2.1)).Nodup → (e.1, e.2.1) ∈ warns → w = true)
  | [], gls, warns, h => by
    simp only [solveAll, Option.some.injEq, Except.ok.injEq, Prod.mk.injEq] at h
    obtain ⟨rfl, rfl⟩ := h
    simp
  | (i, j, cl) :: rest, gls, warns, h => by
    unfold solveAll at h
    rcases h1 : solveOne E fuel fields i j cl with _ | (e | ⟨gl, w⟩)
    · rw [h1] at h; simp at h
    · rw [h1] at h; simp at h
    rcases h2 : solveAll E fuel fields rest with _ | (e | ⟨gls', warns'⟩)
    · rw [h1, h2] at h; simp at h
    · rw [h1, h2] at h; simp at h
    rw [h1, h2] at h
    simp only [Option.some.injEq, Except.ok.injEq, Prod.mk.injEq] at h
    obtain ⟨rfl, rfl⟩ := h
    obtain ⟨hl, hsub, hk⟩ := solveAll_spec fuel fields rest h2
    refine ⟨by simp [hl], ?_, ?_⟩
    · simp only [List.map_cons]
      cases w
      · simpa using hsub.cons _
      · simpa using hsub.cons_cons (i, j)
    · rintro (_ | k) e he
      · simp only [List.getElem?_cons_zero, Option.some.injEq] at he
        subst he
        refine ⟨gl, w, rfl, h1, ?_, ?_⟩
        · rintro rfl; simp
        · intro hn hm
          cases w
          · simp only [Bool.false_eq_true, if_false] at hm
            simp only [List.map_cons, List.nodup_cons] at hn
            exact absurd (hsub.subset hm) hn.1
          · rfl
      · simp only [List.getElem?_cons_succ] at he
        obtain ⟨gl', w', hg, hs, hw, hw'⟩ := hk k e he
        refine ⟨gl', w', by simpa using hg, hs, ?_, ?_⟩
        · intro h; have := hw h; cases w <;> simp [this]
        · intro hn hm
          simp only [List.map_cons, List.nodup_cons] at hn
          apply hw' hn.2
          cases w
          · simpa using hm
          · simp only [if_true, List.mem_cons] at hm
            rcases hm with hm | hm
            · exact absurd (hm ▸ List.mem_map.2 ⟨e, List.mem_of_getElem? he, rfl⟩) hn.1
            · exact hm

theorem enumerate_nodup {α : Type*} (entries : List α) :
    ((enumerateSpectra Real.sqrt entries).map fun e => (e.1, e.2.1)).Nodup := by
  rw [List.nodup_iff_getElem?_ne_getElem?]
  intro a b hab hb
  rw [List.length_map, enumerate_length] at hb
  obtain ⟨i, c, hc, rfl⟩ := exists_row a
  obtain ⟨i', c', hc', rfl⟩ := exists_row b
  have e1 := enumerate_get entries i (i - c) (by omega)
  have e2 := enumerate_get entries i' (i' - c') (by omega)
  rw [show i * (i + 1) / 2 + (i - (i - c)) = tri i + c by
    change tri i + _ = _; omega] at e1
  rw [show i' * (i' + 1) / 2 + (i' - (i' - c')) = tri i' + c' by
    change tri i' + _ = _; omega] at e2
  rw [List.getElem?_map, List.getElem?_map, e1, e2, List.getElem?_eq_getElem hb,
    List.getElem?_eq_getElem (by omega)]
  simp only [Option.map_some, ne_eq, Option.some.injEq, Prod.mk.injEq, Nat.cast_inj]
  rintro ⟨rfl, h⟩
  omega

/-- What `solve_gaussian_spectra` asks of the solver for one spectrum: padding with twice the
length, the monopole fixed to zero if and only if the requested one is zero, the default
tolerances and at most 20 iterations. -/
def PairSolved (fuel : ℕ) (t1 t2 : T) (cl : List F) (run : Run F) : Prop :=
  ∃ p : Problem F, p.cl = cl ∧ p.pad = 2 * cl.length ∧
    (∀ c, cl.head? = some c →
      p.monopole = if E.arith.nonzero c = true then none else some E.arith.zero) ∧
    p.cltocorr = E.cltocorr ∧ p.corrtocl = E.corrtocl ∧ p.corr = E.corr t1 t2 ∧
    p.icorr = E.icorr t1 t2 ∧ p.dcorr = E.dcorr t1 t2 ∧
    solve E.arith p fuel none E.tol E.tol 20 = some (.ok run)

/-- **C87** The contract of `solve_gaussian_spectra`, for every arithmetic and all transformations:
if it returns, there is one spectrum for each pair of fields in the order of the input, the
solution for that pair; empty spectra stay empty; and there is a warning for exactly the
pairs for which the solver reports no convergence, in the order of the input. -/
theorem solve_gaussian_spec (fuel : ℕ) (fields : List T) (spectra gls : List (List F))
    (warns : List (ℤ × ℤ))
    (h : solveGaussianSpectra E fuel fields spectra = some (.ok (gls, warns))) :
    spectra.length = fields.length * (fields.length + 1) / 2 ∧ gls.length = spectra.length ∧
    warns.Sublist ((enumerateSpectra Real.sqrt spectra).map fun e => (e.1, e.2.1)) ∧
    ∀ i j (hi : i < fields.length) (hj : j ≤ i), ∃ cl gl,
      spectra[i * (i + 1) / 2 + (i - j)]? = some cl ∧
      gls[i * (i + 1) / 2 + (i - j)]? = some gl ∧
      (cl = [] → gl = [] ∧ ((i : ℤ), (j : ℤ)) ∉ warns) ∧
      (cl ≠ [] → ∃ run, PairSolved E fuel fields[i] fields[j] cl run ∧ gl = run.gl ∧
        (((i : ℤ), (j : ℤ)) ∈ warns ↔ run.info = 0)) := by
  unfold solveGaussianSpectra at h
  simp only at h
  split at h
  · simp at h
  rename_i hn
  rw [not_not] at hn
  have h' : solveAll E fuel fields (enumerateSpectra Real.sqrt spectra) =
      some (.ok (gls, warns)) := by
    split at h
    · rename_i h0
      simp only [Option.some.injEq, Except.ok.injEq, Prod.mk.injEq] at h
      obtain ⟨rfl, rfl⟩ := h
      obtain rfl : spectra = [] := List.length_eq_zero_iff.1 h0
      simp [enumerateSpectra, solveAll]
    · exact h
  obtain ⟨hl, hsub, hk⟩ := solveAll_spec E fuel fields _ h'
  rw [enumerate_length] at hl
  refine ⟨hn, hl, hsub, fun i j hi hj => ?_⟩
  have hlt := pair_lt hj hi
  have hs : i * (i + 1) / 2 + (i - j) < spectra.length := by omega
  obtain ⟨gl, w, hgl, ho, hw, hw'⟩ := hk (i * (i + 1) / 2 + (i - j))
    (i, j, spectra[i * (i + 1) / 2 + (i - j)])
    (by rw [enumerate_get _ _ _ hj, List.getElem?_eq_getElem hs]; rfl)
  refine ⟨_, gl, List.getElem?_eq_getElem hs, hgl, ?_, ?_⟩
  · intro he
    simp only [solveOne, he, List.length_nil, gt_iff_lt, lt_self_iff_false, if_false,
      Option.some.injEq, Except.ok.injEq, Prod.mk.injEq] at ho
    refine ⟨ho.1.symm, fun hm => ?_⟩
    have := hw' (enumerate_nodup spectra) hm
    rw [← ho.2] at this
    simp at this
  · intro he
    have hp := List.length_pos_iff.2 he
    simp only [solveOne, gt_iff_lt, hp, if_true, Int.toNat_natCast, pyGet_of_lt fields i hi,
      pyGet_of_lt fields j (show j < fields.length by omega), solvePy] at ho
    rw [if_neg (by omega)] at ho
    split at ho
    · simp at ho
    · simp at ho
    · rename_i run hrun
      simp only [Option.some.injEq, Except.ok.injEq, Prod.mk.injEq] at ho
      refine ⟨run, ⟨_, rfl, ?_, ?_, rfl, rfl, rfl, rfl, rfl, hrun⟩, ho.1.symm, ?_⟩
      · simp
      · intro c hc
        rcases hsp : spectra[i * (i + 1) / 2 + (i - j)] with _ | ⟨c', t⟩
        · exact absurd hsp he
        · rw [hsp] at hc
          simp only [List.head?_cons, Option.some.injEq] at hc
          subst hc
          simp [Numerics.problem, fixedMonopole]
      · rw [show (((i : ℤ), (j : ℤ)) ∈ warns ↔ w = true) from
          ⟨hw' (enumerate_nodup spectra), hw⟩, ← ho.2]
        simp

/-- **C87** The wrong number of spectra raises `ValueError`; no fields and no spectra give an empty
list. -/
theorem solve_gaussian_rejects (fuel : ℕ) (fields : List T) (spectra : List (List F)) :
    (spectra.length ≠ fields.length * (fields.length + 1) / 2 →
      ∃ msg, solveGaussianSpectra E fuel fields spectra = some (.error (.value msg))) ∧
    solveGaussianSpectra E fuel ([] : List T) [] = some (.ok ([], [])) := by
  constructor
  · intro h
    exact ⟨_, by unfold solveGaussianSpectra; rw [if_pos h]⟩
  · simp [solveGaussianSpectra]

/-- **C87** A requested monopole of zero gives a Gaussian monopole of zero. -/
theorem solve_gaussian_monopole (hadd : ∀ x, E.arith.add x E.arith.zero = x)
    (hhalf : E.arith.half E.arith.zero = E.arith.zero) (fuel : ℕ) (fields : List T)
    (spectra gls : List (List F)) (warns : List (ℤ × ℤ))
    (h : solveGaussianSpectra E fuel fields spectra = some (.ok (gls, warns)))
    {i j : ℕ} (hi : i < fields.length) (hj : j ≤ i) {cl : List F} {c : F}
    (hcl : spectra[i * (i + 1) / 2 + (i - j)]? = some cl) (hc : cl.head? = some c)
    (h0 : E.arith.nonzero c = false) :
    ∃ gl, gls[i * (i + 1) / 2 + (i - j)]? = some gl ∧ gl[0]? = some E.arith.zero := by
  obtain ⟨-, -, -, hp⟩ := solve_gaussian_spec E fuel fields spectra gls warns h
  obtain ⟨cl', gl, hcl', hgl, -, h1⟩ := hp i j hi hj
  obtain rfl : cl = cl' := by rw [hcl] at hcl'; simpa using hcl'
  have hne : cl ≠ [] := by rintro rfl; simp at hc
  obtain ⟨run, ⟨p, -, -, hm, -, -, -, -, -, hrun⟩, rfl, -⟩ := h1 hne
  refine ⟨_, hgl, ?_⟩
  refine solve_monopole E.arith p hadd hhalf fuel none E.tol E.tol 20 run hrun _ ?_
  rw [hm c hc, h0]; rfl

/-- Whole numbers and fields that are not transformed, for the cases below. -/
def plainNumerics : Numerics ℤ Unit where
  arith := ⟨0, (· + ·), (· - ·), (- ·), (· / ·), (· / 2), (|·|), max, fun x y => decide (x ≤ y),
    fun x => decide (x ≠ 0)⟩
  tol := 0
  cltocorr := id
  corrtocl := id
  corr := fun _ _ => .ok
  icorr := fun _ _ => .ok
  dcorr := fun _ _ l => .ok (l.map fun _ => 1)

/-- A case for C87: two fields and three spectra, one with a vanishing monopole, one missing. -/
theorem solve_gaussian_example :
    solveGaussianSpectra plainNumerics 1 [(), ()] [[2, 3], [0, 5], []] =
      some (.ok ([[2, 3], [0, 5], []], [])) := by
  have h : enumerateSpectra Real.sqrt [[2, 3], [0, 5], ([] : List ℤ)] =
      [(0, 0, [2, 3]), (1, 1, [0, 5]), (1, 0, [])] := by
    have h0 := enumerate_get [[2, 3], [0, 5], ([] : List ℤ)] 0 0 le_rfl
    have h1 := enumerate_get [[2, 3], [0, 5], ([] : List ℤ)] 1 1 le_rfl
    have h2 := enumerate_get [[2, 3], [0, 5], ([] : List ℤ)] 1 0 (by simp)
    have hl := enumerate_length Real.sqrt [[2, 3], [0, 5], ([] : List ℤ)]
    generalize enumerateSpectra Real.sqrt [[2, 3], [0, 5], ([] : List ℤ)] = L at *
    match L, hl with
    | [a, b, c], _ =>
      simp at h0 h1 h2
      rw [h0, h1, h2]
  unfold solveGaussianSpectra
  rw [h]
  decide

/-- **C87** In exact arithmetic: for a pair without a warning, every multipole of the realised
spectrum (with the padded Gaussian spectrum and without a vanishing monopole) is within the
tolerance of the requested one, or the last step of the solver was within the tolerance. -/
theorem solve_gaussian_accuracy {T : Type*} (E : Numerics ℝ T) (hE : E.arith = Arith.real)
    (fuel : ℕ) (fields : List T) (spectra gls : List (List ℝ)) (warns : List (ℤ × ℤ))
    (h : solveGaussianSpectra E fuel fields spectra = some (.ok (gls, warns)))
    {i j : ℕ} (hi : i < fields.length) (hj : j ≤ i) {cl : List ℝ}
    (hcl : spectra[i * (i + 1) / 2 + (i - j)]? = some cl) (hne : cl ≠ [])
    (hw : ((i : ℤ), (j : ℤ)) ∉ warns) :
    ∃ gl ct, gls[i * (i + 1) / 2 + (i - j)]? = some gl ∧
      E.corr fields[i] fields[j] (E.cltocorr (gl ++ List.replicate (2 * cl.length) 0)) = .ok ct ∧
      ((∀ (l : ℕ) (c : ℝ), cl[l]? = some c → c ≠ 0 →
        ∃ r, (E.corrtocl ct)[l]? = some r ∧ |r - c| ≤ E.tol * |c|) ∨
      ∃ xl prev r, gl = List.zipWith (· + ·) prev xl ∧ relerr Arith.real xl prev = .ok r ∧
        r ≤ E.tol) := by
  obtain ⟨-, -, -, hp⟩ := solve_gaussian_spec E fuel fields spectra gls warns h
  obtain ⟨cl', gl, hcl', hgl, -, h1⟩ := hp i j hi hj
  obtain rfl : cl = cl' := by rw [hcl] at hcl'; simpa using hcl'
  obtain ⟨run, ⟨p, rfl, hpad, hm, hp1, hp2, hp3, -, -, hrun⟩, rfl, hwi⟩ := h1 hne
  rw [hE] at hrun
  obtain ⟨⟨ct, hct, hrl⟩, -, -, hb2, -, -, -, -, hlt, -⟩ :=
    solve_contract Arith.real p fuel none E.tol E.tol 20 run hrun
  have hi0 : run.info ≠ 0 := fun h => hw (hwi.2 h)
  refine ⟨run.gl, ct, hgl, ?_, ?_⟩
  · rw [← hp3, ← hp1, ← hpad]; exact hct
  · by_cases hbit : run.info.testBit 0 = true
    · left
      intro l c hl hc
      have := solve_accuracy p fuel none E.tol E.tol 20 run hrun hbit l c hl hc (by
        rcases l with _ | l
        · left
          have hh : p.cl.head? = some c := by rw [List.head?_eq_getElem?]; exact hl
          rw [hm c hh, hE]
          simp [Arith.real, hc]
        · right; omega)
      rw [hrl, hp2] at this
      exact this
    · right
      obtain ⟨xl, prev, r, e1, e2, e3⟩ := hb2 (by
        clear hwi hb2 hrun hrl hct hgl
        have : run.info < 4 := hlt
        generalize run.info = v at *
        interval_cases v <;> simp_all (config := { decide := true }))
      exact ⟨xl, prev, r, e1, e2, by simpa [Arith.real] using e3⟩

/-- **C87** `lognormal_gls` solves for lognormal fields that all have the given shift, and rejects
numbers of spectra that do not belong to a number of fields. -/
theorem lognormal_gls_spec (E : Numerics F Transformation) (fuel : ℕ) (cls : List (List F))
    (shift : ℝ) :
    (∀ n, cls.length = n * (n + 1) / 2 → ∃ fields : List Transformation, fields.length = n ∧
      (∀ t ∈ fields, t = .lognormal shift) ∧
      lognormalGls E fuel cls shift = solveGaussianSpectra E fuel fields cls) ∧
    ((∀ n, cls.length ≠ n * (n + 1) / 2) →
      ∃ msg, lognormalGls E fuel cls shift = some (.error (.value msg))) := by
  constructor
  · intro n hn
    refine ⟨List.replicate n (.lognormal shift), by simp, fun t ht => List.eq_of_mem_replicate ht, ?_⟩
    unfold lognormalGls
    rw [nfields_tri cls n hn]
  · intro hn
    unfold lognormalGls
    rw [nfields_error cls hn]
    exact ⟨_, rfl⟩

/-! ## Fields of shells -/

/-- **C86** `gaussian_fields` and `lognormal_fields` give one field for each shell, in order; the
shift of a lognormal field is the given function at the effective redshift, or one. -/
theorem shell_fields {W : Type*} (zeff : W → ℝ) (shells : List W) (shift : Option (ℝ → ℝ)) :
    (gaussianFields shells).length = shells.length ∧
    (∀ t ∈ gaussianFields shells, t = .normal) ∧
    (lognormalFields zeff shells shift).length = shells.length ∧
    ∀ (k : ℕ) (w : W), shells[k]? = some w → ∃ l, (lognormalFields zeff shells shift)[k]? =
      some (.lognormal l) ∧ (∀ f, shift = some f → l = f (zeff w)) ∧ (shift = none → l = 1) := by
  refine ⟨by simp [gaussianFields], ?_, by simp [lognormalFields], ?_⟩
  · intro t ht
    simp only [gaussianFields, List.mem_map] at ht
    obtain ⟨_, -, rfl⟩ := ht
    rfl
  · intro k w hk
    refine ⟨(shift.getD fun _ => 1) (zeff w), ?_, ?_, ?_⟩
    · simp [lognormalFields, hk]
    · rintro f rfl; rfl
    · rintro rfl; rfl

end Glass.Grf
