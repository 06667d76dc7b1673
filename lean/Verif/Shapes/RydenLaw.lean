import Verif.Sampling.Sources

/-!
# The law of projected ellipsoids (C103)
-/

namespace Glass.Shapes

open Glass Glass.Arrays Glass.Galaxies NdArray Glass.Sampling MeasureTheory ProbabilityTheory
open scoped ENNReal NNReal

/-! ## Specification -/

/-- The normal distribution with the given mean and standard deviation, conditioned on a set. -/
noncomputable def truncated (m sd : ℝ) (S : Set ℝ) : Measure ℝ :=
  (gaussianReal m (sd.toNNReal ^ 2))[|S]

/-- The ellipticity of the ellipsoid with axis ratios `B/A = 1 - exp(eps)` and `C/B = 1 - gam`, seen
from the direction with polar cosine `u` and azimuth `phi` at the position angle that gives the
phase `alpha`: the modulus is `(1 - q) / (1 + q)` for the ratio `q` of the smallest and the largest
half-width in the plane of the sky. -/
noncomputable def seenEllipticity (eps gam u phi alpha : ℝ) : ℂ :=
  let zeta := 1 - Real.exp eps
  let widths := {w | HalfWidth zeta ((1 - gam) * zeta) u phi w}
  let q := sInf widths / sSup widths
  Complex.exp (Complex.I * alpha) * ((1 - q) / (1 + q) : ℝ)

/-- The law of one ellipticity: `eps` and `gam` are truncated normal numbers, the direction is
isotropic, the phase is uniform, and all are independent. -/
noncomputable def rydenLaw (p : (ℝ × ℝ) × (ℝ × ℝ)) : Measure ℂ :=
  (((((truncated p.1.1 p.1.2 (Set.Iic 0)).prod (truncated p.2.1 p.2.2 (Set.Icc 0 1))).prod
    (uniformLaw (-1) 1)).prod (uniformLaw 0 (2 * Real.pi))).prod (uniformLaw 0 (2 * Real.pi))).map
    fun v => seenEllipticity v.1.1.1.1 v.1.1.1.2 v.1.1.2 v.1.2 v.2

/-! ## Pointwise formulas -/

/-- The five numbers of one object. -/
abbrev Numbers := (((ℝ × ℝ) × ℝ) × ℝ) × ℝ

/-- The ellipticity as it is computed. -/
noncomputable def project (v : Numbers) : Option ℂ :=
  (axisRatio (1 - Real.exp v.1.1.1.1) ((1 - v.1.1.1.2) * (1 - Real.exp v.1.1.1.1)) v.1.1.2
    v.1.2).bind fun q => (nanDiv (1 - q) (1 + q)).map fun t : ℝ =>
      Complex.exp (Complex.I * v.2) * (t : ℂ)

/-- The axis ratio without its exceptional cases. -/
noncomputable def ratio (zeta xi u phi : ℝ) : ℝ :=
  let sin2_phi := 1 - Real.cos phi * Real.cos phi
  let z2m1 := zeta ^ 2 - 1
  let a := (1 + z2m1 * sin2_phi) * (u * u) + xi ^ 2 * (1 - u * u)
  let b2 := 4 * z2m1 ^ 2 * (u * u) * sin2_phi * (Real.cos phi * Real.cos phi)
  let c := 1 + z2m1 * (Real.cos phi * Real.cos phi)
  Real.sqrt ((a + c - Real.sqrt ((a - c) ^ 2 + b2)) / (a + c + Real.sqrt ((a - c) ^ 2 + b2)))

/-- The ellipticity without its exceptional cases. -/
noncomputable def plain (v : Numbers) : ℂ :=
  let q := ratio (1 - Real.exp v.1.1.1.1) ((1 - v.1.1.1.2) * (1 - Real.exp v.1.1.1.1)) v.1.1.2 v.1.2
  Complex.exp (Complex.I * v.2) * ((1 - q) / (1 + q) : ℝ)

theorem axisRatio_ratio {zeta xi u phi q : ℝ} (h : axisRatio zeta xi u phi = some q) :
    q = ratio zeta xi u phi := by
  unfold axisRatio nanSqrt nanDiv at h
  dsimp only at h
  split_ifs at h with h1
  · simp at h
  · simp only [Option.bind_some] at h
    split_ifs at h with h2
    · simp at h
    · simp only [Option.bind_some] at h
      split_ifs at h with h3
      exact (Option.some.inj h).symm

theorem measurable_plain : Measurable plain := by
  unfold plain ratio
  fun_prop

/-- Whenever the direction is not in the plane of the first two axes, the computed ellipticity is
that of the specification. -/
theorem project_eq {v : Numbers} (h1 : -1 ≤ v.1.1.2 ∧ v.1.1.2 ≤ 1) (h0 : v.1.1.2 ≠ 0) :
    project v = some (plain v) ∧
      plain v = seenEllipticity v.1.1.1.1 v.1.1.1.2 v.1.1.2 v.1.2 v.2 := by
  obtain ⟨q, lo, hi, hq, hl, hg, hpos, hqe⟩ := axis_ratio_projection (1 - Real.exp v.1.1.1.1)
    ((1 - v.1.1.1.2) * (1 - Real.exp v.1.1.1.1)) (phi := v.1.2) h1 fun h => h0 h.2.2.1
  have hlo : 0 ≤ lo := by
    obtain ⟨w, -, -, rfl⟩ := (halfWidth_iff ..).1 hl.1
    exact Real.sqrt_nonneg _
  have hq0 : 0 ≤ q := hqe ▸ div_nonneg hlo hpos.le
  have hr := axisRatio_ratio hq
  refine ⟨?_, ?_⟩
  · rw [project, hq, Option.bind_some, nanDiv, if_neg (by linarith), Option.map_some, plain, hr]
  · rw [plain, seenEllipticity]
    rw [hl.csInf_eq, hg.csSup_eq, ← hqe, ← hr]

theorem project_ae (ν : Measure (ℝ × ℝ)) [IsProbabilityMeasure ν] :
    ∀ᵐ v ∂((ν.prod (uniformLaw (-1) 1)).prod (uniformLaw 0 (2 * Real.pi))).prod
      (uniformLaw 0 (2 * Real.pi)), project v = some (plain v) ∧
      plain v = seenEllipticity v.1.1.1.1 v.1.1.1.2 v.1.1.2 v.1.2 v.2 := by
  have hu : ∀ᵐ u ∂uniformLaw (-1) 1, (-1 ≤ u ∧ u ≤ 1) ∧ u ≠ 0 := by
    filter_upwards [uniformLaw_range (lo := -1) (hi := 1) (by norm_num),
      uniformLaw_ne (lo := -1) (hi := 1) (by norm_num) 0] with u h1 h2
    exact ⟨⟨h1.1, h1.2.le⟩, h2⟩
  have h1 : ∀ᵐ v ∂ν.prod (uniformLaw (-1) 1), (-1 ≤ v.2 ∧ v.2 ≤ 1) ∧ v.2 ≠ 0 :=
    Measure.quasiMeasurePreserving_snd.ae hu
  have h2 := (Measure.quasiMeasurePreserving_fst (μ := ν.prod (uniformLaw (-1) 1))
    (ν := uniformLaw 0 (2 * Real.pi))).ae h1
  have h3 := (Measure.quasiMeasurePreserving_fst
    (μ := (ν.prod (uniformLaw (-1) 1)).prod (uniformLaw 0 (2 * Real.pi)))
    (ν := uniformLaw 0 (2 * Real.pi))).ae h2
  filter_upwards [h3] with v hv
  exact project_eq hv.1 hv.2

/-! ## The loops -/

section

variable {σ Θ : Type}

theorem badPart_select {β : Type} (bad : ℝ → Bool) : ∀ (x : List ℝ) (l : List β),
    badPart bad x l = select (x.map bad) l
  | [], l => by simp [badPart, select]
  | a :: x, [] => by
    rcases h : bad a with _ | _ <;> simp [badPart, select, h]
  | a :: x, b :: l => by
    rw [badPart_cons, badPart_select bad x l]
    rcases h : bad a with _ | _ <;> simp [select, h]

theorem zipWith_const {β γ : Type} (f : β → γ) : ∀ {js : List Θ} {x : List β},
    x.length = js.length → List.zipWith (fun _ => f) js x = x.map f
  | [], [], _ => rfl
  | [], _ :: _, h => by simp at h
  | _ :: _, [], h => by simp at h
  | _ :: js, a :: x, h => by
    simp [zipWith_const f (js := js) (x := x) (by simpa using h)]

/-- The redraw loop is the general rejection loop. -/
theorem redraw_loop {normal : σ → List (ℝ × ℝ) → List ℝ × σ} {c : Θ → ℝ × ℝ}
    (hl : ∀ s (l : List Θ), (normal s (l.map c)).1.length = l.length) (bad : ℝ → Bool)
    (js : List Θ) : ∀ (fuel : ℕ) (x : List ℝ) (s : σ), x.length = js.length →
    redraw normal bad (js.map c) fuel x s =
      (loop (fun _ => bad) js (fun s m => normal s ((select m js).map c)) fuel x s).map Except.ok
  | 0, _, _, _ => rfl
  | fuel + 1, x, s, hx => by
    have hz : List.zipWith (fun _ : Θ => bad) js x = x.map bad := zipWith_const bad hx
    rw [redraw, loop, hz]
    have hany : (x.map bad).any id = x.any bad := by simp [List.any_map]
    rw [hany]
    by_cases h : x.any bad = true
    · rw [if_pos h, if_pos h, badPart_eq, badPart_select, select_map]
      have hsl : (select (x.map bad) js).length = (x.map bad).count true :=
        select_length (by simpa using hx)
      have hnl := hl s (select (x.map bad) js)
      simp only [maskSet]
      rw [if_pos (by rw [hnl, hsl])]
      simp only
      exact redraw_loop hl bad js fuel _ _ (by
        rw [maskMerge_length (by simp) (by rw [hnl, hsl]), hx])
    · rw [if_neg h, if_neg h]
      rfl

/-- Drawing a list of numbers and redrawing the bad ones. -/
theorem redraw_sampler {normal : σ → List (ℝ × ℝ) → List ℝ × σ} {c : Θ → ℝ × ℝ}
    (hl : ∀ s (l : List Θ), (normal s (l.map c)).1.length = l.length) (bad : ℝ → Bool)
    (js : List Θ) (fuel : ℕ) (s : σ) :
    redraw normal bad (js.map c) fuel (normal s (js.map c)).1 (normal s (js.map c)).2 =
      (sampler (fun _ => bad) js (fun s m => normal s ((select m js).map c)) fuel s).map
        Except.ok := by
  rw [sampler, select_all]
  exact redraw_loop hl bad js fuel _ _ (hl s js)

end

/-! ## Assembling the ellipticities -/

theorem assemble_ravel {σ : Type} {uniform : Uniform σ} (hu : UniformNd uniform) (s : σ)
    {dims : List ℕ} {eps gam : List ℝ} (hel : eps.length = dims.prod)
    (hgl : gam.length = dims.prod) :
    ∃ out : NdArray (Option ℂ),
      let U := uniform s (-1) 1 dims
      let P := uniform U.2 0 (2 * Real.pi) dims
      let A := uniform P.2 0 (2 * Real.pi) dims
      assemble uniform s dims eps gam = .ok (out, A.2) ∧ out.shape = dims ∧
      out.ravel = (((((eps.zip gam).zip U.1.ravel).zip P.1.ravel).zip A.1.ravel).map project) := by
  set zeta := eps.map fun e => -(Real.exp e - 1) with hz
  set xi := List.zipWith (fun g z : ℝ => (1 - g) * z) gam zeta with hx
  obtain ⟨q, hq1, hq2, hq3⟩ := triaxial_axis_ratio_spec hu s (ofList dims zeta) (ofList dims xi)
    none (d := dims) (dims := dims) (isBroadcast_same dims) (isBroadcast_same dims)
  simp only [Option.getD_none] at hq1 hq3
  have hpi : (0 : ℝ) < 2 * Real.pi := by have := Real.pi_pos; linarith
  have hU := hu s (-1) 1 dims (by norm_num)
  have hP := hu (uniform s (-1) 1 dims).2 0 (2 * Real.pi) dims hpi
  have hA := hu (uniform (uniform s (-1) 1 dims).2 0 (2 * Real.pi) dims).2 0 (2 * Real.pi) dims hpi
  set U := uniform s (-1) 1 dims with hUdef
  set P := uniform U.2 0 (2 * Real.pi) dims with hPdef
  set A := uniform P.2 0 (2 * Real.pi) dims with hAdef
  refine ⟨⟨dims, fun i => (q.get i).bind fun x =>
    (nanDiv (1 - x) (1 + x)).map fun t : ℝ => Complex.exp (Complex.I * A.1.get i) * (t : ℂ)⟩,
    ?_, rfl, ?_⟩
  · unfold assemble
    simp only [bind, Except.bind]
    rw [← hz, ← hx, hq1]
    simp only
    rw [hq2]
  · have hUr : U.1.ravel = (indices dims).map U.1.get := by rw [ravel, hU.1]
    have hPr : P.1.ravel = (indices dims).map P.1.get := by rw [ravel, hP.1]
    have hAr : A.1.ravel = (indices dims).map A.1.get := by rw [ravel, hA.1]
    have her : eps = (indices dims).map (ofList dims eps).get := (ofList_ravel hel).symm
    have hgr : gam = (indices dims).map (ofList dims gam).get := (ofList_ravel hgl).symm
    have hzip : ((((eps.zip gam).zip U.1.ravel).zip P.1.ravel).zip A.1.ravel) =
        (indices dims).map fun i => (((((ofList dims eps).get i, (ofList dims gam).get i),
          U.1.get i), P.1.get i), A.1.get i) := by
      rw [hUr, hPr, hAr]
      conv_lhs => rw [her, hgr]
      simp only [List.zip_map']
    rw [hzip, ravel, List.map_map]
    refine List.map_congr_left fun idx hi => ?_
    have e0 := ofList_get hel hi
    have e1 := ofList_get hgl hi
    have e2 : (ofList dims zeta).get idx = 1 - Real.exp ((ofList dims eps).get idx) := by
      have := ofList_get (l := zeta) (by simp [hz, hel]) hi
      rw [hz, List.getElem?_map, e0, Option.map_some, Option.some.injEq] at this
      rw [hz, ← this]; ring
    have e3 : (ofList dims xi).get idx = (1 - (ofList dims gam).get idx) *
        (1 - Real.exp ((ofList dims eps).get idx)) := by
      have hzi := ofList_get (l := zeta) (by simp [hz, hel]) hi
      have := ofList_get (l := xi) (by simp [hx, hz, hel, hgl]) hi
      rw [hx, List.getElem?_zipWith, e1, hzi] at this
      simp only [Option.some.injEq] at this
      rw [hx, ← this, e2]
    have n1 : entry (ofList dims zeta) idx = (ofList dims zeta).get idx := entry_self hi
    have n2 : entry (ofList dims xi) idx = (ofList dims xi).get idx := entry_self hi
    simp only [Function.comp, project]
    rw [hq3 idx hi, n1, n2, e2, e3, entry_self (a := U.1) (by rw [hU.1]; exact hi),
      entry_self (a := P.1) (by rw [hP.1]; exact hi)]

theorem rydenSetup_ok {mu sigma gamma sigma_gamma : NdArray ℝ} {size : Option (List ℕ)}
    {dims : List ℕ}
    (hd : IsResultShape [mu.shape, sigma.shape, gamma.shape, sigma_gamma.shape] size dims) :
    rydenSetup mu sigma gamma sigma_gamma size =
      .ok (dims, parameters mu sigma dims, parameters gamma sigma_gamma dims) := by
  have hfit : ∀ a ∈ [mu.shape, sigma.shape, gamma.shape, sigma_gamma.shape], Fits a dims := by
    rcases hd with ⟨-, h⟩ | ⟨-, h⟩
    · exact h
    · exact fun a ha => h.fits ha
  have hsize : rydenSize [mu.shape, sigma.shape, gamma.shape, sigma_gamma.shape] size =
      .ok dims := by
    rcases hd with ⟨rfl, -⟩ | ⟨rfl, h'⟩
    · rfl
    · exact ((broadcastAll_spec _).1 dims).2 h'
  have hzip : ∀ a b : NdArray ℝ, List.zip (⟨dims, fun i => entry a i⟩ : NdArray ℝ).ravel
      (⟨dims, fun i => entry b i⟩ : NdArray ℝ).ravel = parameters a b dims := by
    intro a b
    simp only [ravel, parameters]
    rw [List.zip_map']
  unfold rydenSetup
  simp only [bind, Except.bind]
  rw [hsize]
  simp only
  rw [broadcastTo_fits (hfit mu.shape (by simp)), broadcastTo_fits (hfit sigma.shape (by simp)),
    broadcastTo_fits (hfit gamma.shape (by simp)),
    broadcastTo_fits (hfit sigma_gamma.shape (by simp))]
  simp only [hzip]

/-! ## The whole function -/

section

variable {σ : Type}

/-- The rejected values of `eps`. -/
noncomputable def badEps (x : ℝ) : Bool := open Classical in decide (0 < x)

/-- The rejected values of `gam`. -/
noncomputable def badGam (x : ℝ) : Bool := open Classical in decide (x < 0) || decide (1 < x)

theorem good_eps {Θ : Type} (θ : Θ) : good (fun _ => badEps) θ = Set.Iic 0 := by
  ext x
  simp [good, badEps]

theorem good_gam {Θ : Type} (θ : Θ) : good (fun _ => badGam) θ = Set.Icc 0 1 := by
  ext x
  simp [good, badGam]

theorem bad_measurable {Θ : Type} {bad : ℝ → Bool} {S : Set ℝ} (hS : MeasurableSet S)
    (h : ∀ θ : Θ, good (fun _ => bad) θ = S) (θ : Θ) :
    MeasurableSet {x | (fun _ : Θ => bad) θ x = true} := by
  have : {x | (fun _ : Θ => bad) θ x = true} = Sᶜ := by
    rw [← h θ]
    ext x
    simp [good]
  rw [this]
  exact hS.compl

/-- A pair of parameters. -/
def pair (θ : ℝ × ℝ≥0) : ℝ × ℝ := (θ.1, (θ.2 : ℝ))

theorem ryden_unfold {normal : σ → List (ℝ × ℝ) → List ℝ × σ}
    (hl : ∀ s (l : List (ℝ × ℝ≥0)), (normal s (l.map pair)).1.length = l.length)
    (uniform : Uniform σ) (fuel : ℕ) (s : σ)
    {mu sigma gamma sigma_gamma : NdArray ℝ} {size : Option (List ℕ)} {dims : List ℕ}
    (hd : IsResultShape [mu.shape, sigma.shape, gamma.shape, sigma_gamma.shape] size dims)
    {js ks : List (ℝ × ℝ≥0)} (hj : parameters mu sigma dims = js.map pair)
    (hk : parameters gamma sigma_gamma dims = ks.map pair) :
    ellipticityRyden04 normal uniform fuel s mu sigma gamma sigma_gamma size =
      (sampler (fun _ => badEps) js (fun s m => normal s ((select m js).map pair)) fuel s).bind
        fun e => (sampler (fun _ => badGam) ks (fun s m => normal s ((select m ks).map pair)) fuel
          e.2).bind fun g => some (assemble uniform g.2 dims e.1 g.1) := by
  unfold ellipticityRyden04
  rw [rydenSetup_ok hd, hj, hk]
  dsimp only
  have h1 : redraw normal (fun x => open Classical in decide (0 < x)) (js.map pair) fuel
      (normal s (js.map pair)).1 (normal s (js.map pair)).2 = _ := redraw_sampler hl badEps js fuel s
  have h2 : ∀ s, redraw normal (fun x => open Classical in decide (x < 0) || decide (1 < x))
      (ks.map pair) fuel (normal s (ks.map pair)).1 (normal s (ks.map pair)).2 = _ :=
    redraw_sampler hl badGam ks fuel
  rw [h1]
  rcases sampler (fun _ : ℝ × ℝ≥0 => badEps) js
    (fun s m => normal s ((select m js).map pair)) fuel s with _ | e
  · rfl
  · simp only [Option.map_some, Option.bind_some]
    rw [h2]
    rcases sampler (fun _ : ℝ × ℝ≥0 => badGam) ks
      (fun s m => normal s ((select m ks).map pair)) fuel e.2 with _ | g
    · rfl
    · rfl

theorem ryden_unique {normal : σ → List (ℝ × ℝ) → List ℝ × σ}
    (hl : ∀ s (l : List (ℝ × ℝ≥0)), (normal s (l.map pair)).1.length = l.length)
    {uniform : Uniform σ} {k l : ℕ} {s : σ}
    {mu sigma gamma sigma_gamma : NdArray ℝ} {size : Option (List ℕ)} {dims : List ℕ}
    (hd : IsResultShape [mu.shape, sigma.shape, gamma.shape, sigma_gamma.shape] size dims)
    {js ks : List (ℝ × ℝ≥0)} (hj : parameters mu sigma dims = js.map pair)
    (hk : parameters gamma sigma_gamma dims = ks.map pair)
    {r r' : Except Err (NdArray (Option ℂ) × σ)}
    (h : ellipticityRyden04 normal uniform k s mu sigma gamma sigma_gamma size = some r)
    (h' : ellipticityRyden04 normal uniform l s mu sigma gamma sigma_gamma size = some r') :
    r = r' := by
  have mono : ∀ {k l : ℕ} {r}, k ≤ l →
      ellipticityRyden04 normal uniform k s mu sigma gamma sigma_gamma size = some r →
      ellipticityRyden04 normal uniform l s mu sigma gamma sigma_gamma size = some r := by
    intro k l r hkl h
    rw [ryden_unfold hl uniform _ s hd hj hk] at h ⊢
    obtain ⟨e, he, h⟩ := Option.bind_eq_some_iff.1 h
    obtain ⟨g, hg, h⟩ := Option.bind_eq_some_iff.1 h
    have he' : sampler _ _ _ l s = some e := loop_mono hkl he
    have hg' : sampler _ _ _ l e.2 = some g := loop_mono hkl hg
    rw [he', Option.bind_some, hg', Option.bind_some]
    exact h
  rcases le_total k l with hkl | hkl
  · exact Option.some.inj ((mono hkl h).symm.trans h')
  · exact Option.some.inj (h.symm.trans (mono hkl h'))

variable [MeasurableSpace σ]

/-- Parameters for which `eps` can be accepted. -/
abbrev Eps := {θ : ℝ × ℝ≥0 //
  gaussianReal θ.1 (θ.2 ^ 2) (good (fun _ : ℝ × ℝ≥0 => badEps) θ) ≠ 0}

/-- Parameters for which `gam` can be accepted. -/
abbrev Gam := {θ : ℝ × ℝ≥0 //
  gaussianReal θ.1 (θ.2 ^ 2) (good (fun _ : ℝ × ℝ≥0 => badGam) θ) ≠ 0}

theorem gaussian_pos {θ : ℝ × ℝ≥0} {S : Set ℝ} (hS : 0 < volume S)
    (h : θ.2 = 0 → θ.1 ∈ S) (hm : MeasurableSet S) : gaussianReal θ.1 (θ.2 ^ 2) S ≠ 0 := by
  by_cases h0 : θ.2 = 0
  · rw [h0, zero_pow two_ne_zero, gaussianReal_zero_var, Measure.dirac_apply' _ hm,
      Set.indicator_of_mem (h h0)]
    simp
  · intro h1
    exact hS.ne' (gaussianReal_absolutelyContinuous' θ.1 (pow_ne_zero 2 h0) h1)

theorem lift_params {S : Set ℝ} {bad : ℝ → Bool} (hS : 0 < volume S) (hm : MeasurableSet S)
    (hg : ∀ θ : ℝ × ℝ≥0, good (fun _ => bad) θ = S) :
    ∀ {l : List (ℝ × ℝ)}, (∀ p ∈ l, 0 ≤ p.2 ∧ (p.2 = 0 → p.1 ∈ S)) →
    ∃ js : List {θ : ℝ × ℝ≥0 //
        gaussianReal θ.1 (θ.2 ^ 2) (good (fun _ : ℝ × ℝ≥0 => bad) θ) ≠ 0},
      l = (js.map Subtype.val).map pair
  | [], _ => ⟨[], rfl⟩
  | p :: l, h => by
    obtain ⟨js, rfl⟩ := lift_params hS hm hg fun q hq => h q (List.mem_cons_of_mem _ hq)
    obtain ⟨h1, h2⟩ := h p (List.mem_cons_self ..)
    refine ⟨⟨(p.1, ⟨p.2, h1⟩), ?_⟩ :: js, ?_⟩
    · rw [hg]
      refine gaussian_pos hS (fun h0 => h2 ?_) hm
      exact congrArg NNReal.toReal h0
    · rfl

/-- The numbers of all objects, and the generator afterwards, are an ideal source. -/
theorem numbers_ideal {μ : Measure σ} [IsProbabilityMeasure μ]
    {normal : σ → List (ℝ × ℝ) → List ℝ × σ} (hn : IdealNormals μ normal) {uniform : Uniform σ}
    (hu : IdealUniform μ uniform) :
    ∃ draw : σ → List (Eps × Gam) → List Numbers × σ,
      Ideal μ (fun p : Eps × Gam => (((((gaussianReal p.1.1.1 (p.1.1.2 ^ 2))[|Set.Iic 0]).prod
        ((gaussianReal p.2.1.1 (p.2.1.2 ^ 2))[|Set.Icc 0 1])).prod
        (uniformLaw (-1) 1)).prod (uniformLaw 0 (2 * Real.pi))).prod (uniformLaw 0 (2 * Real.pi)))
        draw ∧
      ∀ ps : List (Eps × Gam), ∀ᵐ s ∂μ, ∃ e g : List ℝ × σ,
        (∃ k, sampler (fun _ => badEps) ((ps.map Prod.fst).map Subtype.val) (fun s m => normal s
          ((select m ((ps.map Prod.fst).map Subtype.val)).map pair)) k s = some e) ∧
        (∃ k, sampler (fun _ => badGam) ((ps.map Prod.snd).map Subtype.val) (fun s m => normal s
          ((select m ((ps.map Prod.snd).map Subtype.val)).map pair)) k e.2 = some g) ∧
        e.1.length = ps.length ∧ g.1.length = ps.length ∧
        ∀ dims : List ℕ, dims.prod = ps.length →
          let U := uniform g.2 (-1) 1 dims
          let P := uniform U.2 0 (2 * Real.pi) dims
          let A := uniform P.2 0 (2 * Real.pi) dims
          draw s ps = ((((e.1.zip g.1).zip U.1.ravel).zip P.1.ravel).zip A.1.ravel, A.2) := by
  have hn' : Ideal μ (fun p : ℝ × ℝ≥0 => gaussianReal p.1 (p.2 ^ 2)) fun s ps =>
    normal s (ps.map pair) := hn
  have hb1 := bad_measurable (Θ := ℝ × ℝ≥0) measurableSet_Iic good_eps
  have hb2 := bad_measurable (Θ := ℝ × ℝ≥0) measurableSet_Icc good_gam
  have c1 := completed_ideal (bad := fun _ : ℝ × ℝ≥0 => badEps) hb1 fun js => hn'.maskLaw js
  have c2 := completed_ideal (bad := fun _ : ℝ × ℝ≥0 => badGam) hb2 fun js => hn'.maskLaw js
  have e1 : (fun θ : Eps => (gaussianReal θ.1.1 (θ.1.2 ^ 2))[|good (fun _ : ℝ × ℝ≥0 => badEps) θ.1]) =
      fun θ : Eps => (gaussianReal θ.1.1 (θ.1.2 ^ 2))[|Set.Iic 0] := by
    funext θ
    rw [good_eps]
  have e2 : (fun θ : Gam => (gaussianReal θ.1.1 (θ.1.2 ^ 2))[|good (fun _ : ℝ × ℝ≥0 => badGam) θ.1]) =
      fun θ : Gam => (gaussianReal θ.1.1 (θ.1.2 ^ 2))[|Set.Icc 0 1] := by
    funext θ
    rw [good_gam]
  rw [e1] at c1
  rw [e2] at c2
  have i1 : ∀ θ : Eps, IsProbabilityMeasure ((gaussianReal θ.1.1 (θ.1.2 ^ 2))[|Set.Iic 0]) := by
    intro θ
    rw [← good_eps θ.1]
    exact cond_isProbabilityMeasure θ.2
  have i2 : ∀ θ : Gam, IsProbabilityMeasure ((gaussianReal θ.1.1 (θ.1.2 ^ 2))[|Set.Icc 0 1]) := by
    intro θ
    rw [← good_gam θ.1]
    exact cond_isProbabilityMeasure θ.2
  have hpi : (0 : ℝ) < 2 * Real.pi := by have := Real.pi_pos; linarith
  obtain ⟨dU, hU, eU⟩ := hu.law (-1) 1 (by norm_num)
  obtain ⟨dP, hP, eP⟩ := hu.law 0 (2 * Real.pi) hpi
  have z := (((c1.zip c2).zip hU).zip hP).zip hP
  have z' := z.reindex fun p : Eps × Gam => (((p, ()), ()), ())
  refine ⟨_, z', fun ps => ?_⟩
  have n1 := sampler_ends (bad := fun _ : ℝ × ℝ≥0 => badEps)
    (hn'.maskLaw ((ps.map Prod.fst).map Subtype.val)) hb1 (by
      intro j hj
      obtain ⟨θ, -, rfl⟩ := List.mem_map.1 hj
      exact θ.2)
  have n2 := sampler_ends (bad := fun _ : ℝ × ℝ≥0 => badGam)
    (hn'.maskLaw ((ps.map Prod.snd).map Subtype.val)) hb2 (by
      intro j hj
      obtain ⟨θ, -, rfl⟩ := List.mem_map.1 hj
      exact θ.2)
  have n3 := c1.state (ps.map Prod.fst) n2
  have m1 := (hn'.maskLaw ((ps.map Prod.fst).map Subtype.val)).length
  have m2 := (hn'.maskLaw ((ps.map Prod.snd).map Subtype.val)).length
  filter_upwards [n1, n3] with s h1 h2
  obtain ⟨k, e, he⟩ := h1
  have hce := completed_eq he
  rw [hce] at h2
  obtain ⟨k', g, hg⟩ := h2
  have hcg := completed_eq hg
  refine ⟨e, g, ⟨k, he⟩, ⟨k', hg⟩, ?_, ?_, fun dims hdims => ?_⟩
  · have := loop_length m1 (by rw [m1 _ _ (by simp)]; simp) he
    simpa using this
  · have := loop_length m2 (by rw [m2 _ _ (by simp)]; simp) hg
    simpa using this
  · have hr : ps.map (fun _ => ()) = List.replicate dims.prod () := by
      rw [hdims, List.map_const']
    have f1 : ((((ps.map fun p : Eps × Gam => (((p, ()), ()), ())).map Prod.fst).map Prod.fst).map
        Prod.fst).map Prod.fst = ps.map Prod.fst := by
      simp only [List.map_map]
      rfl
    have f2 : ((((ps.map fun p : Eps × Gam => (((p, ()), ()), ())).map Prod.fst).map Prod.fst).map
        Prod.fst).map Prod.snd = ps.map Prod.snd := by
      simp only [List.map_map]
      rfl
    have f3 : (((ps.map fun p : Eps × Gam => (((p, ()), ()), ())).map Prod.fst).map Prod.fst).map
        Prod.snd = List.replicate dims.prod () := by
      rw [← hr]
      simp [List.map_map, Function.comp_def]
    have f4 : ((ps.map fun p : Eps × Gam => (((p, ()), ()), ())).map Prod.fst).map
        Prod.snd = List.replicate dims.prod () := by
      rw [← hr]
      simp [List.map_map, Function.comp_def]
    have f5 : (ps.map fun p : Eps × Gam => (((p, ()), ()), ())).map
        Prod.snd = List.replicate dims.prod () := by
      rw [← hr]
      simp [List.map_map, Function.comp_def]
    simp only [f1, f2, f3, f4, f5, hce, hcg, ← eU, ← eP]

/-- With probability one the function returns, with the ellipticities computed from an ideal source
of numbers. -/
theorem ryden_ae {μ : Measure σ} [IsProbabilityMeasure μ]
    {normal : σ → List (ℝ × ℝ) → List ℝ × σ} (hn : IdealNormals μ normal) {uniform : Uniform σ}
    (hu : IdealUniform μ uniform) (mu sigma gamma sigma_gamma : NdArray ℝ)
    (size : Option (List ℕ)) {dims : List ℕ}
    (hd : IsResultShape [mu.shape, sigma.shape, gamma.shape, sigma_gamma.shape] size dims)
    (h1 : ∀ p ∈ parameters mu sigma dims, 0 ≤ p.2 ∧ (p.2 = 0 → p.1 ∈ Set.Iic (0 : ℝ)))
    (h2 : ∀ p ∈ parameters gamma sigma_gamma dims, 0 ≤ p.2 ∧ (p.2 = 0 → p.1 ∈ Set.Icc (0 : ℝ) 1)) :
    ∃ draw : σ → List ((ℝ × ℝ) × (ℝ × ℝ)) → List ℂ × σ, 
      (∀ {As : List (Set ℂ)} {F : Set σ}, As.length = dims.prod → (∀ A ∈ As, MeasurableSet A) →
        MeasurableSet F →
        μ {s | InBox (draw s ((parameters mu sigma dims).zip (parameters gamma sigma_gamma dims))).1
          As ∧ (draw s ((parameters mu sigma dims).zip (parameters gamma sigma_gamma dims))).2 ∈ F} =
        (List.zipWith (fun p A => rydenLaw p A)
        ((parameters mu sigma dims).zip (parameters gamma sigma_gamma dims)) As).prod * μ F) ∧
      ∀ᵐ s ∂μ, ∃ fuel out, ellipticityRyden04 normal uniform fuel s mu sigma gamma sigma_gamma size =
        some (.ok (out, (draw s ((parameters mu sigma dims).zip
          (parameters gamma sigma_gamma dims))).2)) ∧ out.shape = dims ∧
        out.ravel = (draw s ((parameters mu sigma dims).zip
          (parameters gamma sigma_gamma dims))).1.map some := by
  obtain ⟨js, hj⟩ := lift_params (S := Set.Iic 0) (bad := badEps) (by simp) measurableSet_Iic
    good_eps h1
  obtain ⟨ks, hk⟩ := lift_params (S := Set.Icc 0 1) (bad := badGam) (by simp) measurableSet_Icc
    good_gam h2
  have hpl : ∀ a b : NdArray ℝ, (parameters a b dims).length = dims.prod := by
    intro a b; simp [parameters, indices_length]
  have hjl : js.length = dims.prod := by
    rw [← hpl mu sigma, hj]; simp
  have hkl : ks.length = dims.prod := by
    rw [← hpl gamma sigma_gamma, hk]; simp
  obtain ⟨draw, hdraw, hrun⟩ := numbers_ideal hn hu
  have hlen : ∀ s (l : List (ℝ × ℝ≥0)), (normal s (l.map pair)).1.length = l.length := hn.length
  have i1 : ∀ θ : Eps, IsProbabilityMeasure ((gaussianReal θ.1.1 (θ.1.2 ^ 2))[|Set.Iic 0]) := by
    intro θ
    rw [← good_eps θ.1]
    exact cond_isProbabilityMeasure θ.2
  have i2 : ∀ θ : Gam, IsProbabilityMeasure ((gaussianReal θ.1.1 (θ.1.2 ^ 2))[|Set.Icc 0 1]) := by
    intro θ
    rw [← good_gam θ.1]
    exact cond_isProbabilityMeasure θ.2
  have hfst : (js.zip ks).map Prod.fst = js := List.map_fst_zip (by omega)
  have hsnd : (js.zip ks).map Prod.snd = ks := List.map_snd_zip (by omega)
  have hzl : (js.zip ks).length = dims.prod := by simp [hjl, hkl]
  have hmap := hdraw.map (f := fun (_ : Eps × Gam) v => plain v) fun _ => measurable_plain
  have hlaw : ∀ p : Eps × Gam, Measure.map plain
      ((((((gaussianReal p.1.1.1 (p.1.1.2 ^ 2))[|Set.Iic 0]).prod
        ((gaussianReal p.2.1.1 (p.2.1.2 ^ 2))[|Set.Icc 0 1])).prod
        (uniformLaw (-1) 1)).prod (uniformLaw 0 (2 * Real.pi))).prod (uniformLaw 0 (2 * Real.pi))) =
      rydenLaw (pair p.1.1, pair p.2.1) := by
    intro p
    rw [rydenLaw]
    simp only [pair, truncated, Real.toNNReal_coe]
    refine Measure.map_congr ?_
    filter_upwards [project_ae (((gaussianReal p.1.1.1 (p.1.1.2 ^ 2))[|Set.Iic 0]).prod
        ((gaussianReal p.2.1.1 (p.2.1.2 ^ 2))[|Set.Icc 0 1]))] with v hv
    exact hv.2
  have hpairs : (parameters mu sigma dims).zip (parameters gamma sigma_gamma dims) =
      (js.zip ks).map fun p => (pair p.1.1, pair p.2.1) := by
    rw [hj, hk, List.map_map, List.map_map, List.zip_map]
    rfl
  have hconst : ∀ s, List.zipWith (fun (_ : Eps × Gam) v => plain v) (js.zip ks)
      (draw s (js.zip ks)).1 = (draw s (js.zip ks)).1.map plain := fun s =>
    zipWith_const plain (hdraw.length s _)
  refine ⟨fun s _ => ((draw s (js.zip ks)).1.map plain, (draw s (js.zip ks)).2), ?_, ?_⟩
  · intro As F hAl hA hF
    have i3 : ∀ p : Eps × Gam, IsProbabilityMeasure (Measure.map (fun v => plain v)
        ((((((gaussianReal p.1.1.1 (p.1.1.2 ^ 2))[|Set.Iic 0]).prod
        ((gaussianReal p.2.1.1 (p.2.1.2 ^ 2))[|Set.Icc 0 1])).prod
        (uniformLaw (-1) 1)).prod (uniformLaw 0 (2 * Real.pi))).prod
        (uniformLaw 0 (2 * Real.pi)))) := fun p =>
      Measure.isProbabilityMeasure_map measurable_plain.aemeasurable
    have hb := (hmap.box (θs := js.zip ks) (As := As) (F := F) (by rw [hzl, hAl]) hA hF).2
    simp only [hconst, hlaw] at hb
    rw [hb, hpairs, List.zipWith_map_left]
  · have hae := hdraw.ae_all (θs := js.zip ks) (P := fun v => project v = some (plain v)) (by
      intro p _
      filter_upwards [project_ae (((gaussianReal p.1.1.1 (p.1.1.2 ^ 2))[|Set.Iic 0]).prod
        ((gaussianReal p.2.1.1 (p.2.1.2 ^ 2))[|Set.Icc 0 1]))] with v hv
      exact hv.1)
    filter_upwards [hae, hrun (js.zip ks)] with s hs hr
    obtain ⟨e, g, ⟨k, he⟩, ⟨k', hg⟩, hel, hgl, hdims⟩ := hr
    rw [hfst] at he
    rw [hsnd] at hg
    have hdims := hdims dims hzl.symm
    obtain ⟨out, ha, hsh, hout⟩ := assemble_ravel hu.range g.2 (dims := dims) (eps := e.1)
      (gam := g.1) (by rw [hel, hzl]) (by rw [hgl, hzl])
    have he' : sampler _ _ _ (max k k') s = some e := loop_mono (le_max_left k k') he
    have hg' : sampler _ _ _ (max k k') e.2 = some g := loop_mono (le_max_right k k') hg
    refine ⟨max k k', out, ?_, hsh, ?_⟩
    · rw [ryden_unfold hlen uniform _ s hd hj hk, he', Option.bind_some, hg', Option.bind_some,
        ha, hdims]
    · simp only at hdims
      rw [hout, List.map_map]
      rw [hdims] at hs ⊢
      exact List.map_congr_left hs

/-! ## Theorems -/

/-- **C103.** With ideal sources of normal and uniform numbers the ellipticities returned by
`ellipticity_ryden04` are independent of each other and of the generator afterwards, and each has
the law of a randomly projected ellipsoid with the truncated normal parameters of its own object.
A standard deviation may be zero if the mean is admissible. -/
theorem ellipticity_ryden04_law {μ : Measure σ} [IsProbabilityMeasure μ]
    {normal : σ → List (ℝ × ℝ) → List ℝ × σ} (hn : IdealNormals μ normal) {uniform : Uniform σ}
    (hu : IdealUniform μ uniform) (mu sigma gamma sigma_gamma : NdArray ℝ)
    (size : Option (List ℕ)) {dims : List ℕ}
    (hd : IsResultShape [mu.shape, sigma.shape, gamma.shape, sigma_gamma.shape] size dims)
    (h1 : ∀ p ∈ parameters mu sigma dims, 0 ≤ p.2 ∧ (p.2 = 0 → p.1 ∈ Set.Iic (0 : ℝ)))
    (h2 : ∀ p ∈ parameters gamma sigma_gamma dims, 0 ≤ p.2 ∧ (p.2 = 0 → p.1 ∈ Set.Icc (0 : ℝ) 1))
    {As : List (Set ℂ)} (hl : As.length = dims.prod) (hA : ∀ A ∈ As, MeasurableSet A) {F : Set σ}
    (hF : MeasurableSet F) :
    μ {s | ∃ fuel out s',
      ellipticityRyden04 normal uniform fuel s mu sigma gamma sigma_gamma size =
        some (.ok (out, s')) ∧
      List.Forall₂ (fun e A => ∃ z ∈ A, e = some z) out.ravel As ∧ s' ∈ F} =
      (List.zipWith (fun p A => rydenLaw p A)
        ((parameters mu sigma dims).zip (parameters gamma sigma_gamma dims)) As).prod * μ F := by
  obtain ⟨draw, hb, hae⟩ := ryden_ae hn hu mu sigma gamma sigma_gamma size hd h1 h2
  rw [← hb hl hA hF]
  obtain ⟨js, hj⟩ := lift_params (S := Set.Iic 0) (bad := badEps) (by simp) measurableSet_Iic
    good_eps h1
  obtain ⟨ks, hk⟩ := lift_params (S := Set.Icc 0 1) (bad := badGam) (by simp) measurableSet_Icc
    good_gam h2
  have hlen : ∀ s (l : List (ℝ × ℝ≥0)), (normal s (l.map pair)).1.length = l.length := hn.length
  refine measure_congr ?_
  filter_upwards [hae] with s hs
  obtain ⟨fuel, out, hout, hsh, hrav⟩ := hs
  have hsome : ∀ (x : List ℂ) (As : List (Set ℂ)),
      List.Forall₂ (fun e A => ∃ z ∈ A, e = some z) (x.map some) As ↔ InBox x As := by
    intro x As
    rw [InBox, List.forall₂_map_left_iff]
    simp
  refine propext ⟨?_, ?_⟩
  · rintro ⟨fuel', out', s', h, h3, h4⟩
    have := ryden_unique hlen hd hj hk h hout
    simp only [Except.ok.injEq, Prod.mk.injEq] at this
    obtain ⟨rfl, rfl⟩ := this
    rw [hrav, hsome] at h3
    exact ⟨h3, h4⟩
  · rintro ⟨h3, h4⟩
    exact ⟨fuel, out, _, hout, by rw [hrav, hsome]; exact h3, h4⟩

/-- **C103.** The function returns with probability one, and all ellipticities are numbers. -/
theorem ellipticity_ryden04_ends {μ : Measure σ} [IsProbabilityMeasure μ]
    {normal : σ → List (ℝ × ℝ) → List ℝ × σ} (hn : IdealNormals μ normal) {uniform : Uniform σ}
    (hu : IdealUniform μ uniform) (mu sigma gamma sigma_gamma : NdArray ℝ)
    (size : Option (List ℕ)) {dims : List ℕ}
    (hd : IsResultShape [mu.shape, sigma.shape, gamma.shape, sigma_gamma.shape] size dims)
    (h1 : ∀ p ∈ parameters mu sigma dims, 0 ≤ p.2 ∧ (p.2 = 0 → p.1 ∈ Set.Iic (0 : ℝ)))
    (h2 : ∀ p ∈ parameters gamma sigma_gamma dims, 0 ≤ p.2 ∧ (p.2 = 0 → p.1 ∈ Set.Icc (0 : ℝ) 1)) :
    ∀ᵐ s ∂μ, ∃ fuel out s',
      ellipticityRyden04 normal uniform fuel s mu sigma gamma sigma_gamma size =
        some (.ok (out, s')) ∧ out.shape = dims ∧ ∀ e ∈ out.ravel, ∃ z, e = some z := by
  obtain ⟨draw, -, hae⟩ := ryden_ae hn hu mu sigma gamma sigma_gamma size hd h1 h2
  filter_upwards [hae] with s hs
  obtain ⟨fuel, out, hout, hsh, hrav⟩ := hs
  refine ⟨fuel, out, _, hout, hsh, fun e he => ?_⟩
  rw [hrav] at he
  obtain ⟨z, -, rfl⟩ := List.mem_map.1 he
  exact ⟨z, rfl⟩

/-- **C103.** If the standard deviation of some object is zero and the mean is not admissible, the
function does not return, with probability one. -/
theorem ellipticity_ryden04_stuck {μ : Measure σ} [IsProbabilityMeasure μ]
    {normal : σ → List (ℝ × ℝ) → List ℝ × σ} (hn : IdealNormals μ normal) (uniform : Uniform σ)
    (mu sigma gamma sigma_gamma : NdArray ℝ)
    (size : Option (List ℕ)) {dims : List ℕ}
    (hd : IsResultShape [mu.shape, sigma.shape, gamma.shape, sigma_gamma.shape] size dims)
    (h1 : ∀ p ∈ parameters mu sigma dims, 0 ≤ p.2)
    (h2 : ∀ p ∈ parameters gamma sigma_gamma dims, 0 ≤ p.2)
    (h : (∃ p ∈ parameters mu sigma dims, p.2 = 0 ∧ 0 < p.1) ∨
      ∃ p ∈ parameters gamma sigma_gamma dims, p.2 = 0 ∧ p.1 ∉ Set.Icc (0 : ℝ) 1) :
    ∀ᵐ s ∂μ, ∀ fuel,
      ellipticityRyden04 normal uniform fuel s mu sigma gamma sigma_gamma size = none := by
  have hlift : ∀ {l : List (ℝ × ℝ)}, (∀ p ∈ l, 0 ≤ p.2) → ∃ js : List (ℝ × ℝ≥0),
      l = js.map pair := by
    intro l
    induction l with
    | nil => exact fun _ => ⟨[], rfl⟩
    | cons p l ih =>
      intro h
      obtain ⟨js, rfl⟩ := ih fun q hq => h q (List.mem_cons_of_mem _ hq)
      exact ⟨(p.1, ⟨p.2, h p (List.mem_cons_self ..)⟩) :: js, rfl⟩
  obtain ⟨js, hj⟩ := hlift h1
  obtain ⟨ks, hk⟩ := hlift h2
  have hlen : ∀ s (l : List (ℝ × ℝ≥0)), (normal s (l.map pair)).1.length = l.length := hn.length
  have hn' : Ideal μ (fun p : ℝ × ℝ≥0 => gaussianReal p.1 (p.2 ^ 2)) fun s ps =>
    normal s (ps.map pair) := hn
  have hb1 := bad_measurable (Θ := ℝ × ℝ≥0) measurableSet_Iic good_eps
  have hb2 := bad_measurable (Θ := ℝ × ℝ≥0) measurableSet_Icc good_gam
  have hzero : ∀ {l : List (ℝ × ℝ≥0)} {S : Set ℝ}, MeasurableSet S →
      (∃ p ∈ l.map pair, p.2 = 0 ∧ p.1 ∉ S) →
      ∃ θ ∈ l, gaussianReal θ.1 (θ.2 ^ 2) S = 0 := by
    rintro l S hS ⟨p, hp, h0, h3⟩
    obtain ⟨θ, hθ, rfl⟩ := List.mem_map.1 hp
    refine ⟨θ, hθ, ?_⟩
    have h0 : θ.2 = 0 := NNReal.coe_injective h0
    have h3 : θ.1 ∉ S := h3
    rw [h0, zero_pow two_ne_zero, gaussianReal_zero_var, Measure.dirac_apply' _ hS,
      Set.indicator_of_notMem h3]
  rcases h with h | h
  · have hst := sampler_stuck (bad := fun _ : ℝ × ℝ≥0 => badEps) (hn'.maskLaw js) hb1 (by
      rw [hj] at h
      obtain ⟨θ, h3, h4⟩ := hzero (S := Set.Iic 0) measurableSet_Iic (by
        obtain ⟨p, hp, h5, h6⟩ := h
        exact ⟨p, hp, h5, by simpa using h6⟩)
      exact ⟨θ, h3, by rw [good_eps]; exact h4⟩)
    filter_upwards [hst] with s hs fuel
    rw [ryden_unfold hlen uniform _ s hd hj hk, hs fuel]
    rfl
  · have hst := sampler_stuck (bad := fun _ : ℝ × ℝ≥0 => badGam) (hn'.maskLaw ks) hb2 (by
      rw [hk] at h
      obtain ⟨θ, h3, h4⟩ := hzero (S := Set.Icc 0 1) measurableSet_Icc h
      exact ⟨θ, h3, by rw [good_gam]; exact h4⟩)
    obtain ⟨N, hN, hNm, hN0⟩ := exists_measurable_superset_of_null hst
    have hfst : (js.map fun j => (j, (Set.univ : Set ℝ))).map Prod.fst = js := by
      rw [List.map_map]
      exact List.map_id _
    have hlim := (sampler_limit (bad := fun _ : ℝ × ℝ≥0 => badEps)
      (ps := js.map fun j => (j, (Set.univ : Set ℝ))) (F := N)
      (by rw [hfst]; exact hn'.maskLaw js) hb1 (by
        intro p hp
        obtain ⟨j, -, rfl⟩ := List.mem_map.1 hp
        exact MeasurableSet.univ) hNm).2
    rw [hN0, mul_zero, hfst] at hlim
    have hlim' : ∀ᵐ s ∂μ, ¬ ∃ k r, sampler (fun _ : ℝ × ℝ≥0 => badEps) js
        (fun s m => normal s ((select m js).map pair)) k s = some r ∧ r.2 ∈ N := by
      refine measure_mono_null ?_ hlim
      intro s hs
      simp only [Set.mem_compl_iff, Set.mem_ofPred_eq, not_not] at hs
      obtain ⟨k, r, hr, hrN⟩ := hs
      refine ⟨k, r, hr, ?_, hrN⟩
      have m1 := (hn'.maskLaw js).length
      have hrl := loop_length m1 (by rw [m1 _ _ (by simp)]; simp) hr
      simp only [List.map_map]
      have : (Prod.snd ∘ fun j : ℝ × ℝ≥0 => (j, (Set.univ : Set ℝ))) = fun _ => Set.univ := rfl
      rw [this, List.map_const', inBox_univ]
      exact hrl
    filter_upwards [hlim'] with s hs fuel
    rw [ryden_unfold hlen uniform _ s hd hj hk]
    rcases he : sampler (fun _ : ℝ × ℝ≥0 => badEps) js
        (fun s m => normal s ((select m js).map pair)) fuel s with _ | e
    · rfl
    · rw [Option.bind_some]
      have : e.2 ∉ N := fun hN' => hs ⟨fuel, e, he, hN'⟩
      have h3 : ∀ k, sampler (fun _ : ℝ × ℝ≥0 => badGam) ks
          (fun s m => normal s ((select m ks).map pair)) k e.2 = none := by
        by_contra hne
        exact this (hN hne)
      rw [h3 fuel]
      rfl

/-- Concrete case: ideal sources exist; one object with the parameters of the documentation. -/
example : (∃ (μ : Measure (ℕ → ℝ × ℝ)) (_ : IsProbabilityMeasure μ)
    (normal : (ℕ → ℝ × ℝ) → List (ℝ × ℝ) → List ℝ × (ℕ → ℝ × ℝ)) (uniform : Uniform (ℕ → ℝ × ℝ)),
    IdealNormals μ normal ∧ IdealUniform μ uniform) ∧
    IsResultShape [[2], [], [1], [2]] none [2] ∧
    (∀ p ∈ parameters ⟨[2], fun _ => -1.85⟩ ⟨[], fun _ => 0.89⟩ [2], 0 ≤ p.2 ∧
      (p.2 = 0 → p.1 ∈ Set.Iic (0 : ℝ))) := by
  refine ⟨idealSources_exist, .inr ⟨rfl, ((broadcastAll_spec _).1 _).1 (by rfl)⟩, ?_⟩
  intro p hp
  obtain ⟨i, -, rfl⟩ := List.mem_map.1 hp
  have : entry (⟨[], fun _ => 0.89⟩ : NdArray ℝ) i = 0.89 := rfl
  simp only [this]
  norm_num

end

end Glass.Shapes
