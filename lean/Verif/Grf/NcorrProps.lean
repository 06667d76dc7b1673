import Verif.Grf.GenerateProps
import Verif.Spectra.RegulariseProps

/-!
# Property C118: spectra with valid covariance matrices are accepted by `generate`

False if the number of correlated fields is limited: keeping the correlations of neighbouring fields
only does not keep a matrix positive definite.
-/

namespace Glass.Grf

open Glass.Spectra Finset

/-! ## From `iternorm` to `_generate_grf` -/

theorem mem_ndindex_one {L : ℕ} {x : List ℕ} : x ∈ ndindex [L] ↔ ∃ l < L, x = [l] := by
  simp only [ndindex, List.mem_flatMap, List.mem_range, List.map_cons, List.map_nil,
    List.mem_singleton]

/-- `_generate_grf` produces one set of coefficients for every scaling vector that `iternorm` yields
for the banded matrices, and ends with the same exception. -/
theorem generateAlm_iternorm (b : Backend) (gls : List (List ℝ)) (N : ℕ)
    (h : gls.length = N * (N + 1) / 2) (ncorr : Option ℕ) (hL : 0 < maxLength gls)
    (hpos : ∀ i < N, ∀ l, 0 ≤ clValue gls i i l) :
    ∃ rows, IsMatrix rows [maxLength gls] N (fun _ => ncorr.getD (N - 1))
        (fun x => modeCov gls (ncorr.getD (N - 1)) (x.headD 0)) ∧
      ∀ nrm : Normals, (generateAlm b nrm gls ncorr).2 = (iternorm rows none).2 ∧
        (generateAlm b nrm gls ncorr).1.length = (iternorm rows none).1.length := by
  set L := maxLength gls with hLdef
  set nc := ncorr.getD (N - 1) with hnc
  have hne : gls.length ≠ 0 := by
    intro h0
    rw [List.length_eq_zero_iff] at h0
    rw [hLdef, h0] at hL
    simp [maxLength] at hL
  obtain ⟨rows, hrows, hrlen, hrow⟩ := cls2cov_rows b gls L N nc h
    (fun gl hgl => maxLength_le gls gl hgl) N le_rfl hpos (fun h => absurd h (lt_irrefl _))
  rw [if_pos rfl] at hrows
  have hget : ∀ i < N, rows[i]? = some rows[i]! := by
    intro i hi
    rw [getElem!_pos rows i (by omega), List.getElem?_eq_getElem]
  have hmat : IsMatrix rows [L] N (fun _ => nc) (fun x => modeCov gls nc (x.headD 0)) := by
    constructor
    · exact hrlen
    · intro i hi; exact (hrow i _ (hget i hi)).1
    · intro i hi; exact (hrow i _ (hget i hi)).2.1
    · intro i hi x hx d hd hdn
      obtain ⟨l, hl, rfl⟩ := mem_ndindex_one.1 hx
      rw [(hrow i _ (hget i hi)).2.2 l d hdn, if_pos hd]
      simp only [List.headD_cons, modeCov]
      rw [if_pos (by omega)]
    · intro x _ i _ j _
      simp only [modeCov, and_comm, clValue_symm gls i j]
    · intro x _ i _ j _ hb
      simp only [modeCov]
      rw [if_neg (by omega)]
  refine ⟨rows, hmat, fun nrm => ?_⟩
  rcases hws : iternorm rows none with ⟨ws, err⟩
  obtain ⟨S, hC, hlen, hS⟩ := iternorm_states rows none ws err hws
  have hwk : ∀ w ∈ ws, w.k = nc := by
    intro w hw'
    obtain ⟨i, hi, rfl⟩ := List.mem_iff_getElem.1 hw'
    have h1 := hS i hi
    rw [getElem!_pos ws i hi] at h1
    rw [h1]
    have h2 : (S i).k = rows[i]!.len - 1 := by
      rcases i with _ | i
      · exact (cutAndSolve_ok (step_none_ok (hC.first hi)).2 []).1.hk
      · exact (cutAndSolve_ok (step_some_ok (hC.next i hi)).2.2 []).1.hk
    show (S i).k = nc
    rw [h2, hmat.len i (by omega)]
    rfl
  obtain ⟨alms, hloop, halen, -⟩ := grfLoop_kept nrm L hL nc ws hwk 0 err
  have : generateAlm b nrm gls ncorr = (alms, err) := by
    unfold generateAlm
    rw [if_neg hne, nfields_tri gls N h]
    simp only
    rw [← hnc, ← hLdef, if_neg (by omega), hrows, hws]
    simpa [kept] using hloop
  rw [this]
  exact ⟨rfl, halen⟩

/-! ## The counterexample -/

/-- Three fields with variance 2 and covariance 8/5 at the only multipole. -/
noncomputable def closeFields : List (List ℝ) := [[2], [2], [8 / 5], [2], [8 / 5], [8 / 5]]

theorem closeFields_value (i j : ℕ) (hi : i < 3) (hj : j < 3) :
    clValue closeFields i j 0 = if i = j then 2 else 8 / 5 := by
  interval_cases i <;> interval_cases j <;> simp [clValue, closeFields]

/-- The full matrix is positive definite. -/
theorem closeFields_posdef : PosDef 3 (modeCov closeFields 2 0) := by
  intro v hv
  have hq : quad 3 (modeCov closeFields 2 0) v =
      4 / 5 * (v 0 + v 1 + v 2) ^ 2 + 1 / 5 * (v 0 ^ 2 + v 1 ^ 2 + v 2 ^ 2) := by
    unfold quad modeCov
    simp only [Finset.sum_range_succ, Finset.sum_range_zero]
    norm_num [closeFields_value]
    ring
  rw [hq]
  obtain ⟨i, hi, hvi⟩ := hv
  have h1 : 0 < v 0 ^ 2 + v 1 ^ 2 + v 2 ^ 2 := by
    interval_cases i <;> positivity
  positivity

/-- With one correlated field, the third field is rejected. -/
theorem closeFields_run (rows : List Row)
    (hA : IsMatrix rows [1] 3 (fun _ => 1) (fun x => modeCov closeFields 1 (x.headD 0))) :
    (iternorm rows none).2 = some (.value "covariance matrix is not positive definite") ∧
      (iternorm rows none).1.length = 2 := by
  have hx : ∀ x, x ∈ ndindex [1] ↔ x = [0] := by
    intro x
    rw [mem_ndindex_one]
    constructor
    · rintro ⟨l, hl, rfl⟩; rw [show l = 0 by omega]
    · rintro rfl; exact ⟨0, by omega, rfl⟩
  have hval : ∀ i < 3, ∀ d ≤ i, d ≤ 1 → rows[i]!.val [0] d = if d = 0 then 1 else 4 / 5 := by
    intro i hi d hd hd1
    rw [hA.val i hi [0] ((hx _).2 rfl) d hd hd1]
    simp only [List.headD_cons, modeCov]
    rw [if_pos (by omega), closeFields_value i (i - d) hi (by omega)]
    by_cases h0 : d = 0
    · rw [if_pos (by omega), if_pos h0]; norm_num
    · rw [if_neg (by omega), if_neg h0]; norm_num
  obtain ⟨r0, r1, r2, rfl⟩ : ∃ r0 r1 r2, rows = [r0, r1, r2] :=
    List.length_eq_three.1 hA.length
  have l0 : r0.len = 2 := hA.len 0 (by omega)
  have l1 : r1.len = 2 := hA.len 1 (by omega)
  have l2 : r2.len = 2 := hA.len 2 (by omega)
  have p0 : r0.shape = [1] := hA.shapes 0 (by omega)
  have p1 : r1.shape = [1] := hA.shapes 1 (by omega)
  have p2 : r2.shape = [1] := hA.shapes 2 (by omega)
  have d0 : r0.val [0] 0 = 1 := by simpa using hval 0 (by omega) 0 (by omega) (by omega)
  have d1 : r1.val [0] 0 = 1 := by simpa using hval 1 (by omega) 0 (by omega) (by omega)
  have d2 : r2.val [0] 0 = 1 := by simpa using hval 2 (by omega) 0 (by omega) (by omega)
  have c1 : r1.val [0] 1 = 4 / 5 := by simpa using hval 1 (by omega) 1 (by omega) (by omega)
  have c2 : r2.val [0] 1 = 4 / 5 := by simpa using hval 2 (by omega) 1 (by omega) (by omega)
  -- the first field
  obtain ⟨s0, h0, ok0, -⟩ := cutAndSolve_cases [1] 1 (fun _ _ _ => 0) r0 (by simp [l0])
  have k0 : s0.k = 1 := by rw [(h0 []).hk, l0]
  have m0 : ∀ r c, s0.m [0] r c = 0 := fun r c => by rw [(h0 [0]).hm]
  have a0 : ∀ r, s0.a [0] r = 0 := fun r => by rw [(h0 [0]).ha]; simp [m0]
  have v0 : s0.s [0] = 1 := by rw [(h0 [0]).hs]; simp [a0, d0]
  have step0 : step none r0 = .ok s0 := by
    unfold step
    rw [if_neg (by omega)]
    simp only
    rw [p0, l0]
    refine ok0 fun x hx' => ?_
    rw [(hx x).1 hx']
    simp [a0, d0]
  have sh0 : s0.shape = [1] := by rw [(cutAndSolve_ok (step_none_ok step0).2 []).2.1, p0]
  -- the second field
  obtain ⟨s1, h1, ok1, -⟩ := cutAndSolve_cases [1] 2 (extend s0) r1 (by simp [l1])
  have k1 : s1.k = 1 := by rw [(h1 []).hk, l1]
  have m1 : ∀ r c, s1.m [0] r c = extend s0 [0] (1 + r) (1 + c) := fun r c => by
    rw [(h1 [0]).hm, k1]
  have a1 : s1.a [0] 0 = 4 / 5 := by
    rw [(h1 [0]).ha, k1]
    norm_num [m1, extend, k0, m0, a0, v0, c1]
  have v1 : s1.s [0] = 3 / 5 := by
    rw [(h1 [0]).hs, k1]
    rw [show r1.val [0] 0 - ∑ r ∈ range 1, s1.a [0] r * s1.a [0] r = (3 / 5) ^ 2 by
      norm_num [a1, d1]]
    exact Real.sqrt_sq (by norm_num)
  have step1 : step (some s0) r1 = .ok s1 := by
    unfold step
    rw [if_neg (by omega)]
    simp only
    rw [if_neg (by simp [p1, sh0]), sh0, k0]
    refine ok1 fun x hx' => ?_
    rw [(hx x).1 hx', k1]
    norm_num [a1, d1]
  have sh1 : s1.shape = [1] := by
    rw [(cutAndSolve_ok (step_some_ok step1).2.2 []).2.1, sh0]
  -- the third field
  obtain ⟨s2, h2, -, bad2⟩ := cutAndSolve_cases [1] 2 (extend s1) r2 (by simp [l2])
  have k2 : s2.k = 1 := by rw [(h2 []).hk, l2]
  have m2 : ∀ r c, s2.m [0] r c = extend s1 [0] (1 + r) (1 + c) := fun r c => by
    rw [(h2 [0]).hm, k2]
  have a2 : s2.a [0] 0 = 4 / 3 := by
    rw [(h2 [0]).ha, k2]
    norm_num [m2, extend, k1, v1, c2]
  have step2 : step (some s1) r2 =
      .error (.value "covariance matrix is not positive definite") := by
    unfold step
    rw [if_neg (by omega)]
    simp only
    rw [if_neg (by simp [p2, sh1]), sh1, k1]
    refine bad2 ⟨[0], (hx _).2 rfl, ?_⟩
    rw [k2]
    norm_num [a2, d2]
  simp [iternorm, iterate, step0, step1, step2]

/-- **C118 refuted**: spectra with a positive definite matrix are rejected after two maps if only
one correlated field is kept. -/
theorem generate_ncorr_rejects {T X : Type*} (b : Backend) (alm2map : List ℂ → X)
    (cltovar : List ℝ → ℝ) (apply : T → X → ℝ → X) (nrm : Normals) (t : T) :
    (∀ l < maxLength closeFields, PosDef 3 (modeCov closeFields 2 l)) ∧
    ∃ out, generate b alm2map cltovar apply nrm [t, t, t] closeFields (some 1) =
        (out, some (.value "covariance matrix is not positive definite")) ∧ out.length = 2 := by
  have hL : maxLength closeFields = 1 := by simp [maxLength, closeFields]
  refine ⟨?_, ?_⟩
  · intro l hl
    rw [show l = 0 by omega]
    exact closeFields_posdef
  obtain ⟨rows, hA, hrun⟩ := generateAlm_iternorm b closeFields 3 rfl (some 1) (by omega) (by
    intro i hi l
    rcases l with _ | l
    · rw [closeFields_value i i hi hi]; norm_num
    · interval_cases i <;> simp [clValue, closeFields])
  rw [hL] at hA
  obtain ⟨e1, e2⟩ := closeFields_run rows hA
  obtain ⟨r1, r2⟩ := hrun nrm
  rcases hg : generate b alm2map cltovar apply nrm [t, t, t] closeFields (some 1) with ⟨out, err⟩
  obtain ⟨g1, g2, -, -⟩ := generate_maps b alm2map cltovar apply nrm [t, t, t] closeFields (some 1)
    (by simp [closeFields]) out err hg
  refine ⟨out, ?_, by rw [g2, r2, e2]⟩
  rw [g1, r1, e1]

/-! ## What holds -/

open Glass.Algorithm in
/-- Clipping with a positive tolerance gives a positive definite matrix or zero. -/
theorem clip_definite {n : ℕ} {eigh : Eigh n} (hl : EighLaw eigh) (eps : ℝ)
    (a : Matrix (Fin n) (Fin n) ℝ) (rtol : Option ℝ) (hr : 0 < rtol.getD (n * eps))
    (i : Fin n) (hi : 0 ≤ a i i) :
    ∃ x, covClip eigh eps a rtol = .ok (some x) ∧ (∀ i j, x i j = x j i) ∧
      (x = 0 ∨ ∀ v, (∃ i, v i ≠ 0) → 0 < Algorithm.quad x v) := by
  have hne : (Finset.univ : Finset (Fin n)).Nonempty := ⟨i, Finset.mem_univ i⟩
  have hM := sup_nonneg hl a hne (Pi.single i 1) (by rw [single_norm]; norm_num) (by
    rw [Algorithm.quad_single]; simpa [symLower] using hi)
  set M := Finset.univ.sup' hne (eigh a).1 with hMdef
  set r := rtol.getD (n * eps) with hrdef
  have hpos : ∀ i, 0 ≤ max ((eigh a).1 i) (r * M) :=
    fun i => le_max_of_le_right (mul_nonneg hr.le hM)
  refine ⟨_, covClip_eq eigh eps a rtol hne hpos, spec_symm _ _, ?_⟩
  rcases hM.eq_or_lt with h0 | h0
  · left
    have : ∀ k, max ((eigh a).1 k) (r * M) = 0 := by
      intro k
      have : (eigh a).1 k ≤ M := Finset.le_sup' _ (Finset.mem_univ k)
      rw [← h0] at this ⊢
      rw [mul_zero]
      exact max_eq_right this
    funext p q
    show ∑ k, max ((eigh a).1 k) (r * M) * ((eigh a).2 p k * (eigh a).2 q k) = 0
    simp [this]
  · right
    rintro v ⟨p, hp⟩
    have h1 := le_quad (hl.orth a) (r * M) (fun k => le_max_right ((eigh a).1 k) (r * M)) v
    have h2 : 0 < ∑ i, v i ^ 2 := by
      apply Finset.sum_pos' (fun _ _ => sq_nonneg _)
      exact ⟨p, Finset.mem_univ p, by positivity⟩
    exact lt_of_lt_of_le (mul_pos (mul_pos hr h0) h2) h1

/-- A set of spectra without NaN is a list of lists of numbers. -/
theorem isSpectraOf_values {r : List (List (Option ℝ))} {n k : ℕ}
    {m : ℕ → Matrix (Fin n) (Fin n) ℝ} (h : IsSpectraOf r n k m)
    (hs : ∀ l < k, ∀ i j, m l i j = m l j i) :
    ∃ gls : List (List ℝ), r = gls.map (List.map some) ∧ gls.length = n * (n + 1) / 2 ∧
      (∀ gl ∈ gls, gl.length = k) ∧ ∀ l < k, spectraMatrix gls n l = m l := by
  obtain ⟨hlen, hent⟩ := h
  have hall : ∀ p < r.length, ∃ i j, ∃ (hi : i < n) (hj : j ≤ i), p = i * (i + 1) / 2 + (i - j) := by
    intro p hp
    obtain ⟨i, c, hc, rfl⟩ := exists_row p
    have hi : i < n := by
      by_contra hcon
      have := tri_mono (not_lt.1 hcon)
      rw [hlen] at hp
      change _ < tri n at hp
      omega
    exact ⟨i, i - c, hi, by omega, by unfold tri; omega⟩
  have hcl : ∀ cl ∈ r, cl.length = k ∧ ∃ gl : List ℝ, cl = gl.map some := by
    intro cl hcl
    obtain ⟨p, hp, rfl⟩ := List.mem_iff_getElem.1 hcl
    obtain ⟨i, j, hi, hj, rfl⟩ := hall p hp
    obtain ⟨cl, h1, h2, h3⟩ := hent i j hi hj
    rw [List.getElem?_eq_getElem hp, Option.some.injEq] at h1
    rw [h1]
    refine ⟨h2, (List.range k).map fun l => m l ⟨i, hi⟩ ⟨j, by omega⟩, ?_⟩
    apply List.ext_getElem?
    intro l
    rcases Nat.lt_or_ge l k with hl | hl
    · rw [h3 l hl]; simp [hl]
    · rw [List.getElem?_eq_none (by omega), List.getElem?_eq_none (by simpa using hl)]
  set gls : List (List ℝ) := r.map fun cl => cl.map fun o => o.getD 0 with hgls
  have hr : r = gls.map (List.map some) := by
    rw [hgls, List.map_map]
    symm
    rw [List.map_congr_left (g := id), List.map_id]
    intro cl hc
    obtain ⟨-, gl, rfl⟩ := hcl cl hc
    simp [Function.comp_def]
  refine ⟨gls, hr, by simp [hgls, hlen], ?_, ?_⟩
  · intro gl hgl
    obtain ⟨cl, hc, rfl⟩ := List.mem_map.1 hgl
    simp [(hcl cl hc).1]
  · intro l hl
    have hlow : ∀ i j (hi : i < n) (hj : j ≤ i),
        clValue gls i j l = m l ⟨i, hi⟩ ⟨j, by omega⟩ := by
      intro i j hi hj
      obtain ⟨cl, h1, h2, h3⟩ := hent i j hi hj
      unfold clValue
      rw [max_eq_left hj, min_eq_right hj, hgls, List.getElem?_map, h1]
      simp [h3 l hl]
    ext i j
    show clValue gls i j l = _
    rcases le_total (j : ℕ) i with hij | hij
    · exact hlow i j i.2 hij
    · rw [clValue_symm, hlow j i j.2 hij, hs l hl]

open Glass.Algorithm NdArray in
/-- `regularized_spectra` with method `"clip"` and a positive tolerance: the result has a positive
definite matrix or vanishes, at every multipole. -/
theorem regularized_clip_definite {eigh : ∀ n, Eigh n} (hl : ∀ n, EighLaw (eigh n)) (eps : ℝ)
    (spectra : List (List ℝ)) (n : ℕ) (hn : 0 < n) (h : spectra.length = n * (n + 1) / 2)
    (len : Option ℕ) (rtol : Option ℝ) (hr : 0 < rtol.getD (n * eps))
    (hpos : ∀ l, (∀ m, len = some m → l < m) → ∃ i < n, 0 ≤ clValue spectra i i l) :
    ∃ gls k, regularized eigh eps spectra len (some (.clip rtol)) =
        .ok (gls.map (List.map some), false) ∧ IsLength spectra len k ∧
      gls.length = n * (n + 1) / 2 ∧ (∀ gl ∈ gls, gl.length = k) ∧
      ∀ l < k, spectraMatrix gls n l = 0 ∨
        ∀ v, (∃ i, v i ≠ 0) → 0 < Algorithm.quad (spectraMatrix gls n l) v := by
  obtain ⟨cov, hcov, hcn, hk1, hk2, hval⟩ := cov_entries spectra n hn h len
  obtain ⟨cov', hcov', -, hord⟩ := regularized_order spectra n hn h len
    (fun c => covMethod eigh eps c (.clip rtol))
  rw [hcov] at hcov'
  cases hcov'
  subst hcn
  have hclip : ∀ l, ∃ x, l < cov.k → covClip (eigh cov.n) eps (covMatrix cov l) rtol =
      .ok (some x) ∧ (∀ i j, x i j = x j i) ∧
      (x = 0 ∨ ∀ v, (∃ i, v i ≠ 0) → 0 < Algorithm.quad x v) := by
    intro l
    by_cases hlk : l < cov.k
    · obtain ⟨i, hi, hii⟩ := hpos l (fun m hm => hk1 m hm ▸ hlk)
      rw [covMatrix_eq hval hlk]
      obtain ⟨x, hx⟩ := clip_definite (hl cov.n) eps (spectraMatrix spectra cov.n l) rtol hr
        ⟨i, hi⟩ hii
      exact ⟨x, fun _ => hx⟩
    · exact ⟨0, fun h => absurd h hlk⟩
  choose m hm using hclip
  obtain ⟨r, hr1, hr2, hr3⟩ := hord _ false (by
    unfold covMethod
    dsimp only
    rw [if_neg (by omega)]) rfl
  have hspec : IsSpectraOf r cov.n cov.k m := by
    refine isSpectraOf_of_order m (hr2.trans h) ?_ hr3
    intro l hlk
    simp only [NdArray.map, covStack]
    rw [(hm l hlk).1]
    rfl
  obtain ⟨gls, g1, g2, g3, g4⟩ := isSpectraOf_values hspec (fun l hlk => (hm l hlk).2.1)
  refine ⟨gls, cov.k, hr1.trans (by rw [g1]), ⟨hk1, hk2⟩, g2, g3, fun l hlk => ?_⟩
  rw [g4 l hlk]
  exact (hm l hlk).2.2

/-- The quadratic form of the leading block as one over `Fin n`. -/
theorem quad_fin (n : ℕ) (A : ℕ → ℕ → ℝ) (v : ℕ → ℝ) :
    quad n A v = Algorithm.quad (Matrix.of fun i j : Fin n => A i j) (fun i => v i) := by
  unfold quad Algorithm.quad
  rw [Finset.sum_range]
  apply Finset.sum_congr rfl
  intro i _
  rw [Finset.sum_range]
  rfl

/-- Keeping all correlations, or none, of spectra with a positive definite (or vanishing) matrix. -/
theorem admissible_ncorr (gls : List (List ℝ)) (n l nc : ℕ) (hnc : nc = 0 ∨ n ≤ nc + 1)
    (h : spectraMatrix gls n l = 0 ∨
      ∀ v, (∃ i, v i ≠ 0) → 0 < Algorithm.quad (spectraMatrix gls n l) v) :
    Admissible n (modeCov gls nc l) := by
  rcases h with h | h
  · have h0 : ∀ i < n, ∀ j < n, modeCov gls nc l i j = 0 := by
      intro i hi j hj
      have : clValue gls i j l = 0 := congrFun (congrFun h ⟨i, hi⟩) ⟨j, hj⟩
      unfold modeCov
      rw [this]; simp
    exact ⟨fun i hi _ j hj => h0 i hi j hj, fun v ⟨i, hi, hne, _⟩ => absurd (h0 i hi i hi) hne⟩
  · apply PosDef.admissible
    rintro v ⟨i, hi, hv⟩
    rcases hnc with rfl | hnc
    · have hd : ∀ i < n, 0 < clValue gls i i l := by
        intro i hi
        have := h (Pi.single ⟨i, hi⟩ 1) ⟨⟨i, hi⟩, by simp⟩
        rwa [Algorithm.quad_single] at this
      have : quad n (modeCov gls 0 l) v = ∑ p ∈ range n, v p ^ 2 * (clValue gls p p l / 2) := by
        unfold quad
        apply Finset.sum_congr rfl
        intro p hp
        rw [Finset.sum_eq_single p]
        · unfold modeCov; rw [if_pos (by omega)]; ring
        · intro q _ hq
          unfold modeCov; rw [if_neg (by omega)]; ring
        · intro hp'; exact absurd hp hp'
      rw [this]
      apply Finset.sum_pos'
      · intro p hp
        have := hd p (Finset.mem_range.1 hp)
        positivity
      · refine ⟨i, Finset.mem_range.2 hi, ?_⟩
        have := hd i hi
        positivity
    · have h1 := h (fun i => v i) ⟨⟨i, hi⟩, hv⟩
      rw [quad_fin]
      have : (Matrix.of fun i j : Fin n => modeCov gls nc l i j) =
          Matrix.of fun i j => spectraMatrix gls n l i j / 2 := by
        ext p q
        show modeCov gls nc l p q = clValue gls p q l / 2
        unfold modeCov
        rw [if_pos (by omega)]
      rw [this]
      have e : Algorithm.quad (Matrix.of fun i j => spectraMatrix gls n l i j / 2)
          (fun i : Fin n => v i) = Algorithm.quad (spectraMatrix gls n l) (fun i => v i) / 2 := by
        unfold Algorithm.quad
        rw [Finset.sum_div]
        apply Finset.sum_congr rfl; intro p _
        rw [Finset.sum_div]
        apply Finset.sum_congr rfl; intro q _
        rw [Matrix.of_apply]; ring
      rw [e]
      linarith

theorem maxLength_const {gls : List (List ℝ)} {k : ℕ} (hne : gls ≠ [])
    (h : ∀ gl ∈ gls, gl.length = k) : maxLength gls = k := by
  apply le_antisymm
  · have : ∀ (s : List (List ℝ)) (a : ℕ), a ≤ k → (∀ gl ∈ s, gl.length = k) →
        s.foldl (fun a gl => max a gl.length) a ≤ k := by
      intro s
      induction s with
      | nil => intro a ha _; exact ha
      | cons g s ih =>
        intro a ha hs
        exact ih _ (by show max a g.length ≤ k; rw [hs g (by simp)]; omega) (fun gl hgl => hs gl (by simp [hgl]))
    exact this gls 0 (Nat.zero_le _) h
  · obtain ⟨g, s, rfl⟩ := List.exists_cons_of_ne_nil hne
    rw [← h g (by simp)]
    exact maxLength_le _ g (by simp)

/-- **C118**, the part that holds: with all correlations kept (or none), `generate` accepts spectra
whose matrix is positive definite or zero at every multipole, and yields a map for every field. -/
theorem generate_ncorr_partial {T X : Type*} (b : Backend) (alm2map : List ℂ → X)
    (cltovar : List ℝ → ℝ) (apply : T → X → ℝ → X) (nrm : Normals) (fields : List T)
    (gls : List (List ℝ)) (h : gls.length = fields.length * (fields.length + 1) / 2)
    (hL : 0 < maxLength gls)
    (hpd : ∀ l < maxLength gls, spectraMatrix gls fields.length l = 0 ∨
      ∀ v, (∃ i, v i ≠ 0) → 0 < Algorithm.quad (spectraMatrix gls fields.length l) v)
    (ncorr : Option ℕ) (hnc : ∀ nc, ncorr = some nc → nc = 0 ∨ fields.length ≤ nc + 1) :
    ∃ out, generate b alm2map cltovar apply nrm fields gls ncorr = (out, none) ∧
      out.length = fields.length := by
  apply generate_complete b alm2map cltovar apply nrm fields gls ncorr h hL
  intro l hl
  apply admissible_ncorr _ _ _ _ _ (hpd l hl)
  rcases ncorr with _ | nc
  · right; simp only [Option.getD_none]; omega
  · exact hnc nc rfl

/-- A symmetric diagonally dominant matrix is positive definite. -/
theorem posdef_of_dominant {n : ℕ} {A : ℕ → ℕ → ℝ} (hs : ∀ i < n, ∀ j < n, A i j = A j i)
    (hd : ∀ i < n, ∑ j ∈ (range n).erase i, |A i j| < A i i) : PosDef n A := by
  rintro v ⟨i, hi, hv⟩
  have hrow : ∀ p ∈ range n, ∑ q ∈ range n, v p * A p q * v q =
      v p ^ 2 * A p p + ∑ q ∈ (range n).erase p, v p * A p q * v q := by
    intro p hp
    rw [← Finset.add_sum_erase _ _ hp]; ring
  have hle : ∀ p q, -(|A p q| * (v p ^ 2 + v q ^ 2) / 2) ≤ v p * A p q * v q := by
    intro p q
    have h1 : |v p * A p q * v q| ≤ |A p q| * (v p ^ 2 + v q ^ 2) / 2 := by
      rw [abs_mul, abs_mul]
      nlinarith [abs_nonneg (A p q), sq_nonneg (|v p| - |v q|), sq_abs (v p), sq_abs (v q),
        mul_nonneg (abs_nonneg (A p q)) (sq_nonneg (|v p| - |v q|))]
    linarith [neg_abs_le (v p * A p q * v q)]
  have hswap : ∑ p ∈ range n, ∑ q ∈ (range n).erase p, |A p q| * v q ^ 2 =
      ∑ p ∈ range n, ∑ q ∈ (range n).erase p, |A p q| * v p ^ 2 := by
    rw [Finset.sum_comm' (t' := range n) (s' := fun q => (range n).erase q)]
    · apply Finset.sum_congr rfl; intro q hq
      apply Finset.sum_congr rfl; intro p hp
      rw [hs p (Finset.mem_range.1 (Finset.mem_of_mem_erase hp)) q (Finset.mem_range.1 hq)]
    · intro p q
      simp only [Finset.mem_erase, Finset.mem_range]
      constructor
      · rintro ⟨h1, h2, h3⟩; exact ⟨⟨fun h => h2 h.symm, h1⟩, h3⟩
      · rintro ⟨⟨h1, h2⟩, h3⟩; exact ⟨h2, fun h => h1 h.symm, h3⟩
  have hq : ∑ p ∈ range n, v p ^ 2 * (A p p - ∑ q ∈ (range n).erase p, |A p q|) ≤ quad n A v := by
    unfold quad
    rw [Finset.sum_congr rfl hrow, Finset.sum_add_distrib]
    have h2 : ∑ p ∈ range n, ∑ q ∈ (range n).erase p, -(|A p q| * (v p ^ 2 + v q ^ 2) / 2) ≤
        ∑ p ∈ range n, ∑ q ∈ (range n).erase p, v p * A p q * v q :=
      Finset.sum_le_sum fun p _ => Finset.sum_le_sum fun q _ => hle p q
    have h3 : ∑ p ∈ range n, ∑ q ∈ (range n).erase p, -(|A p q| * (v p ^ 2 + v q ^ 2) / 2) =
        -(∑ p ∈ range n, ∑ q ∈ (range n).erase p, |A p q| * v p ^ 2) / 2 -
        (∑ p ∈ range n, ∑ q ∈ (range n).erase p, |A p q| * v q ^ 2) / 2 := by
      rw [neg_div, ← neg_add', ← add_div, ← Finset.sum_add_distrib, Finset.sum_div,
        ← Finset.sum_neg_distrib]
      apply Finset.sum_congr rfl; intro p _
      rw [← Finset.sum_add_distrib, Finset.sum_div, ← Finset.sum_neg_distrib]
      apply Finset.sum_congr rfl; intro q _
      ring
    have h4 : ∑ p ∈ range n, v p ^ 2 * (A p p - ∑ q ∈ (range n).erase p, |A p q|) =
        ∑ p ∈ range n, v p ^ 2 * A p p -
          ∑ p ∈ range n, ∑ q ∈ (range n).erase p, |A p q| * v p ^ 2 := by
      rw [← Finset.sum_sub_distrib]
      apply Finset.sum_congr rfl; intro p _
      rw [mul_sub, Finset.mul_sum]
      congr 1
      apply Finset.sum_congr rfl; intro q _
      ring
    rw [h4]
    rw [h3, hswap] at h2
    linarith
  refine lt_of_lt_of_le ?_ hq
  apply Finset.sum_pos'
  · intro p hp
    have := hd p (Finset.mem_range.1 hp)
    exact mul_nonneg (sq_nonneg _) (by linarith)
  · refine ⟨i, Finset.mem_range.2 hi, ?_⟩
    have := hd i hi
    exact mul_pos (by positivity) (by linarith)

/-- **C118**, for weakly correlated fields: if at every multipole every auto-spectrum is greater than
the sum of the absolute values of the cross-spectra, `generate` accepts the spectra whatever the
number of correlated fields. -/
theorem generate_dominant_partial {T X : Type*} (b : Backend) (alm2map : List ℂ → X)
    (cltovar : List ℝ → ℝ) (apply : T → X → ℝ → X) (nrm : Normals) (fields : List T)
    (gls : List (List ℝ)) (h : gls.length = fields.length * (fields.length + 1) / 2)
    (hL : 0 < maxLength gls)
    (hd : ∀ l < maxLength gls, ∀ i < fields.length,
      ∑ j ∈ (range fields.length).erase i, |clValue gls i j l| < clValue gls i i l)
    (ncorr : Option ℕ) :
    ∃ out, generate b alm2map cltovar apply nrm fields gls ncorr = (out, none) ∧
      out.length = fields.length := by
  apply generate_complete b alm2map cltovar apply nrm fields gls ncorr h hL
  intro l hl
  apply PosDef.admissible
  apply posdef_of_dominant
  · intro i _ j _
    simp only [modeCov, and_comm, clValue_symm gls i j]
  · intro i hi
    have h1 := hd l hl i hi
    have h2 : ∑ j ∈ (range fields.length).erase i,
        |modeCov gls (ncorr.getD (fields.length - 1)) l i j| ≤
        (∑ j ∈ (range fields.length).erase i, |clValue gls i j l|) / 2 := by
      rw [Finset.sum_div]
      apply Finset.sum_le_sum
      intro j _
      unfold modeCov
      split_ifs
      · rw [abs_div, abs_two]
      · rw [abs_zero]; positivity
    have h3 : modeCov gls (ncorr.getD (fields.length - 1)) l i i = clValue gls i i l / 2 := by
      simp [modeCov]
    rw [h3]
    linarith

open Glass.Algorithm in
/-- **C118**, for regularised spectra: whatever the spectra (with some auto-spectrum not negative at
every multipole), the result of `regularized_spectra` with method `"clip"` and a positive tolerance
is accepted by `generate` without a limit on the number of correlated fields. -/
theorem generate_regularised_partial {T X : Type*} {eigh : ∀ n, Eigh n}
    (hl : ∀ n, EighLaw (eigh n)) (eps : ℝ) (spectra : List (List ℝ)) (fields : List T)
    (hn : fields ≠ []) (h : spectra.length = fields.length * (fields.length + 1) / 2)
    (len : Option ℕ) (hlen : ∀ m, len = some m → 0 < m)
    (hne : len = none → ∃ cl ∈ spectra, cl ≠ []) (rtol : Option ℝ)
    (hr : 0 < rtol.getD (fields.length * eps))
    (hpos : ∀ l, (∀ m, len = some m → l < m) →
      ∃ i < fields.length, 0 ≤ clValue spectra i i l) :
    ∃ gls : List (List ℝ), regularized eigh eps spectra len (some (.clip rtol)) =
        .ok (gls.map (List.map some), false) ∧
      ∀ (b : Backend) (alm2map : List ℂ → X) (cltovar : List ℝ → ℝ) (apply : T → X → ℝ → X)
        (nrm : Normals), ∃ out, generate b alm2map cltovar apply nrm fields gls none =
          (out, none) ∧ out.length = fields.length := by
  have hn0 : 0 < fields.length := List.length_pos_iff.2 hn
  obtain ⟨gls, k, h1, ⟨k1, k2⟩, h3, h4, h5⟩ := regularized_clip_definite hl eps spectra
    fields.length hn0 h len rtol hr hpos
  refine ⟨gls, h1, fun b alm2map cltovar apply nrm => ?_⟩
  have hgne : gls ≠ [] := by
    rintro rfl
    have := tri_lt hn0
    simp only [List.length_nil] at h3
    unfold tri at this
    omega
  have hk : 0 < k := by
    rcases len with _ | m
    · obtain ⟨cl, hcl, hc⟩ := hne rfl
      exact lt_of_lt_of_le (List.length_pos_iff.2 hc) ((k2 rfl).1 cl hcl)
    · rw [k1 m rfl]; exact hlen m rfl
  rw [← maxLength_const hgne h4] at hk h5
  exact generate_ncorr_partial b alm2map cltovar apply nrm fields gls h3 hk h5 none (by simp)

open Glass.Algorithm in
/-- The hypotheses hold, for example, of two fields with a correlation of 2, which no matrix of
covariances has. -/
example : ∃ eigh : ∀ n, Eigh n, (∀ n, EighLaw (eigh n)) ∧
    ∃ gls : List (List ℝ), regularized eigh (1 / 1000) [[1], [1], [2]] none (some (.clip none)) =
        .ok (gls.map (List.map some), false) ∧
      ∀ (b : Backend) (nrm : Normals), ∃ out, generate b id (fun _ => 0) (fun () x _ => x) nrm
        [(), ()] gls none = (out, none) ∧ out.length = 2 := by
  choose eigh hl using exists_eigh
  obtain ⟨gls, h1, h2⟩ := generate_regularised_partial (T := Unit) (X := List ℂ) hl (1 / 1000)
    [[1], [1], [2]] [(), ()] (by simp) (by simp) none (by simp) (fun _ => ⟨[1], by simp⟩) none
    (by norm_num) (by
      intro l _
      refine ⟨0, by simp, ?_⟩
      rcases l with _ | l <;> simp [clValue])
  exact ⟨eigh, hl, gls, h1, fun b nrm => h2 b id (fun _ => 0) (fun () x _ => x) nrm⟩

end Glass.Grf
