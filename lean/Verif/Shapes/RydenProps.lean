import Verif.Shapes.GaussianProps

/-!
# Sampled ellipticities: projected ellipsoids (C68)
-/

namespace Glass.Shapes

open Glass Glass.Arrays Glass.Galaxies NdArray

/-! ## Specification -/

/-- What is assumed of `rng.normal(loc, scale)` with arrays of parameters: one number for each pair
of parameters. -/
def NormalLength {σ : Type} (normal : σ → List (ℝ × ℝ) → List ℝ × σ) : Prop :=
  ∀ s ps, (normal s ps).1.length = ps.length

/-- The part of a list that belongs to the bad entries of another list. -/
def badPart {β : Type} (bad : ℝ → Bool) (x : List ℝ) (l : List β) : List β :=
  ((x.zip l).filter fun p => bad p.1).map Prod.snd

/-- Entries that are not bad are kept. -/
def Keeps (bad : ℝ → Bool) (x out : List ℝ) : Prop :=
  List.Forall₂ (fun a b => bad a = false → b = a) x out

/-- Truncated sampling of objects with given parameters: as long as there are objects left, a number
is drawn for each of them; those with a good number keep it, and the others are the objects that
are left. -/
inductive Truncated {σ : Type} (normal : σ → List (ℝ × ℝ) → List ℝ × σ) (bad : ℝ → Bool) :
    List (ℝ × ℝ) → σ → List ℝ → σ → Prop
  | done (s : σ) : Truncated normal bad [] s [] s
  | draw {ps : List (ℝ × ℝ)} {s s' : σ} {out : List ℝ} : ps ≠ [] →
      Keeps bad (normal s ps).1 out →
      Truncated normal bad (badPart bad (normal s ps).1 ps) (normal s ps).2
        (badPart bad (normal s ps).1 out) s' →
      Truncated normal bad ps s out s'

/-- Truncated sampling with a first draw also for an empty list of objects. -/
def TruncatedSample {σ : Type} (normal : σ → List (ℝ × ℝ) → List ℝ × σ) (bad : ℝ → Bool)
    (ps : List (ℝ × ℝ)) (s : σ) (out : List ℝ) (s' : σ) : Prop :=
  Keeps bad (normal s ps).1 out ∧
  Truncated normal bad (badPart bad (normal s ps).1 ps) (normal s ps).2
    (badPart bad (normal s ps).1 out) s'

/-! ## The loop -/

theorem badPart_cons {β : Type} (bad : ℝ → Bool) (a : ℝ) (x : List ℝ) (b : β) (l : List β) :
    badPart bad (a :: x) (b :: l) = if bad a then b :: badPart bad x l else badPart bad x l := by
  simp only [badPart, List.zip_cons_cons, List.filter_cons]
  split_ifs <;> rfl

theorem badPart_length {β : Type} (bad : ℝ → Bool) : ∀ {x : List ℝ} {l : List β},
    x.length = l.length → (badPart bad x l).length = (x.map bad).count true
  | [], [], _ => rfl
  | [], _ :: _, h => by simp at h
  | _ :: _, [], h => by simp at h
  | a :: x, b :: l, h => by
    rw [badPart_cons]
    have := badPart_length bad (x := x) (l := l) (by simpa using h)
    rcases ha : bad a with _ | _ <;> simp [ha, this]

theorem badPart_eq (bad : ℝ → Bool) : ∀ (x : List ℝ) (ps : List (ℝ × ℝ)),
    ((ps.zip x).filter fun p => bad p.2).map Prod.fst = badPart bad x ps
  | [], ps => by simp [badPart]
  | _ :: _, [] => by simp [badPart]
  | a :: x, p :: ps => by
    rw [badPart_cons, List.zip_cons_cons, List.filter_cons]
    have := badPart_eq bad x ps
    rcases ha : bad a with _ | _ <;> simp [this]

/-- The objects that are bad after one round are the bad ones among the objects that were redrawn. -/
theorem badPart_merge {β : Type} (bad : ℝ → Bool) : ∀ {x new : List ℝ} {l : List β},
    x.length = l.length → new.length = (x.map bad).count true →
    badPart bad (maskMerge (x.map bad) x new) l = badPart bad new (badPart bad x l)
  | [], new, l, h, _ => by
    have : l = [] := by simpa using h.symm
    subst this
    simp [badPart, maskMerge]
  | _ :: _, _, [], h, _ => by simp at h
  | a :: x, new, b :: l, h, h' => by
    rcases ha : bad a with _ | _
    · have := badPart_merge bad (x := x) (new := new) (l := l) (by simpa using h)
        (by simpa [ha] using h')
      simp only [List.map_cons, ha, maskMerge, badPart_cons, Bool.false_eq_true, if_false]
      exact this
    · rcases new with _ | ⟨c, new⟩
      · simp [ha] at h'
      · have := badPart_merge bad (x := x) (new := new) (l := l) (by simpa using h)
          (by simpa [ha] using h')
        simp only [List.map_cons, ha, maskMerge, badPart_cons, if_true]
        rw [this]

theorem keeps_merge (bad : ℝ → Bool) : ∀ {x new out : List ℝ},
    new.length = (x.map bad).count true →
    Keeps bad (maskMerge (x.map bad) x new) out → x.length = out.length →
    Keeps bad x out ∧ Keeps bad new (badPart bad x out)
  | [], new, out, h, _, hl => by
    have : new = [] := by simpa using h
    subst this
    have : out = [] := by simpa using hl.symm
    subst this
    exact ⟨.nil, .nil⟩
  | _ :: _, _, [], _, _, hl => by simp at hl
  | a :: x, new, b :: out, h, hk, hl => by
    rcases ha : bad a with _ | _
    · simp only [List.map_cons, ha, maskMerge] at hk
      obtain ⟨h1, h2⟩ := List.forall₂_cons.1 hk
      obtain ⟨h3, h4⟩ := keeps_merge bad (by simpa [ha] using h) h2 (by simpa using hl)
      refine ⟨.cons h1 h3, ?_⟩
      rw [badPart_cons, ha]
      exact h4
    · rcases new with _ | ⟨c, new⟩
      · simp [ha] at h
      · simp only [List.map_cons, ha, maskMerge] at hk
        obtain ⟨h1, h2⟩ := List.forall₂_cons.1 hk
        obtain ⟨h3, h4⟩ := keeps_merge bad (by simpa [ha] using h) h2 (by simpa using hl)
        refine ⟨.cons (fun h => by rw [ha] at h; cases h) h3, ?_⟩
        rw [badPart_cons, ha]
        exact .cons h1 h4

theorem Keeps.length_eq {bad : ℝ → Bool} {x out : List ℝ} (h : Keeps bad x out) :
    x.length = out.length := List.Forall₂.length_eq h

theorem redraw_spec {σ : Type} {normal : σ → List (ℝ × ℝ) → List ℝ × σ} (hn : NormalLength normal)
    (bad : ℝ → Bool) {ps : List (ℝ × ℝ)} : ∀ {fuel : ℕ} {x : List ℝ} {s : σ}
      {r : Except Err (List ℝ × σ)}, x.length = ps.length →
    redraw normal bad ps fuel x s = some r → ∃ out s', r = .ok (out, s') ∧ Keeps bad x out ∧
      Truncated normal bad (badPart bad x ps) s (badPart bad x out) s'
  | 0, _, _, _, _, h => by simp [redraw] at h
  | fuel + 1, x, s, r, hl, h => by
    rw [redraw] at h
    by_cases hany : x.any bad
    · rw [if_pos hany, badPart_eq] at h
      simp only [maskSet] at h
      have hnl : (normal s (badPart bad x ps)).1.length = (x.map bad).count true := by
        rw [hn, badPart_length bad hl]
      rw [if_pos hnl] at h
      simp only at h
      have hml : (maskMerge (x.map bad) x (normal s (badPart bad x ps)).1).length = x.length :=
        maskMerge_length (by simp) hnl
      obtain ⟨out, s', h1, h2, h3⟩ := redraw_spec hn bad (by rw [hml, hl]) h
      have hol : x.length = out.length := by rw [← hml]; exact h2.length_eq
      obtain ⟨h4, h5⟩ := keeps_merge bad hnl h2 hol
      refine ⟨out, s', h1, h4, .draw ?_ h5 ?_⟩
      · intro h0
        have := badPart_length bad hl
        rw [h0] at this
        obtain ⟨a, ha, hb⟩ := List.any_eq_true.1 hany
        have : 0 < (x.map bad).count true :=
          List.count_pos_iff.2 (List.mem_map.2 ⟨a, ha, hb⟩)
        simp_all
      · rw [badPart_merge bad hl hnl, badPart_merge bad hol hnl] at h3
        exact h3
    · rw [if_neg hany] at h
      cases h
      have hgood : ∀ a ∈ x, bad a = false := by
        intro a ha
        by_contra hne
        exact hany (List.any_eq_true.2 ⟨a, ha, by simpa using hne⟩)
      have hz : ∀ {β : Type} (l : List β), badPart bad x l = [] := by
        intro β l
        simp only [badPart, List.map_eq_nil_iff, List.filter_eq_nil_iff]
        intro p hp
        rw [hgood p.1 (List.of_mem_zip hp).1]; simp
      refine ⟨x, s, rfl, List.forall₂_same.2 fun _ _ _ => rfl, ?_⟩
      rw [hz, hz]
      exact .done s

/-- The numbers that remain are not bad. -/
theorem Truncated.good {σ : Type} {normal : σ → List (ℝ × ℝ) → List ℝ × σ} {bad : ℝ → Bool}
    {ps : List (ℝ × ℝ)} {s s' : σ} {out : List ℝ} (h : Truncated normal bad ps s out s') :
    ∀ a ∈ out, bad a = false := by
  induction h with
  | done => simp
  | @draw ps s s' out _ hk _ ih =>
    generalize (normal s ps).1 = x at hk ih
    clear * - hk ih
    induction hk with
    | nil => simp
    | @cons a b x out h _ ih' =>
      rw [badPart_cons] at ih
      intro c hc
      rcases ha : bad a with _ | _
      · rw [ha] at ih
        rcases List.mem_cons.1 hc with rfl | hc
        · rw [h ha]; exact ha
        · exact ih' ih c hc
      · rw [ha] at ih
        simp only [if_true, List.mem_cons, forall_eq_or_imp] at ih
        rcases List.mem_cons.1 hc with rfl | hc
        · exact ih.1
        · exact ih' ih.2 c hc

theorem TruncatedSample.good {σ : Type} {normal : σ → List (ℝ × ℝ) → List ℝ × σ} {bad : ℝ → Bool}
    {ps : List (ℝ × ℝ)} {s s' : σ} {out : List ℝ} (h : TruncatedSample normal bad ps s out s') :
    ∀ a ∈ out, bad a = false := by
  rcases ps with _ | ⟨p, ps⟩
  · obtain ⟨hk, ht⟩ := h
    have hg := ht.good
    generalize (normal s []).1 = x at hk hg
    clear * - hk hg
    induction hk with
    | nil => simp
    | @cons a b x out h _ ih' =>
      rw [badPart_cons] at hg
      intro c hc
      rcases ha : bad a with _ | _
      · rw [ha] at hg
        rcases List.mem_cons.1 hc with rfl | hc
        · rw [h ha]; exact ha
        · exact ih' hg c hc
      · rw [ha] at hg
        simp only [if_true, List.mem_cons, forall_eq_or_imp] at hg
        rcases List.mem_cons.1 hc with rfl | hc
        · exact hg.1
        · exact ih' hg.2 c hc
  · exact (Truncated.draw (by simp) h.1 h.2).good

/-! ## The ellipticities -/

/-- The shape of the result: the requested one, if all parameters can be stretched to it, or the
common shape of the parameters. -/
def IsResultShape (shapes : List (List ℕ)) (size : Option (List ℕ)) (dims : List ℕ) : Prop :=
  (size = some dims ∧ ∀ a ∈ shapes, Fits a dims) ∨ (size = none ∧ IsBroadcast shapes dims)

/-- The parameters of the objects in C order. -/
def parameters (loc scale : NdArray ℝ) (dims : List ℕ) : List (ℝ × ℝ) :=
  (indices dims).map fun idx => (entry loc idx, entry scale idx)

theorem broadcastTo_fits {α : Type} {a : NdArray α} {d : List ℕ} (h : Fits a.shape d) :
    broadcastTo a d = .ok ⟨d, fun i => entry a i⟩ := broadcastTo_ok h.1 h.2

theorem ofList_get {α : Type} [Inhabited α] {dims idx : List ℕ} {l : List α}
    (hl : l.length = dims.prod) (hi : idx ∈ indices dims) :
    l[flatIndex dims idx]? = some ((ofList dims l).get idx) := by
  have h := (indices_flatIndex hi).2
  simp only [ofList]
  rw [getElem!_pos l _ (by omega), List.getElem?_eq_getElem (by omega)]

/-- **C68.** Whenever `ellipticity_ryden04` returns, the result has the requested shape, and each
object has its own ellipsoid and direction: the logarithm `eps` of one minus the first axis ratio and
the second parameter `gam` come from truncated sampling with the parameters of the object, the
modulus of the ellipticity is that of the projected axis ratio, and the phase is uniform. -/
theorem ellipticity_ryden04_spec {σ : Type} {normal : σ → List (ℝ × ℝ) → List ℝ × σ}
    (hn : NormalLength normal) {uniform : Uniform σ} (hu : UniformNd uniform) (fuel : ℕ) (s : σ)
    (mu sigma gamma sigma_gamma : NdArray ℝ) (size : Option (List ℕ)) {dims : List ℕ}
    (hd : IsResultShape [mu.shape, sigma.shape, gamma.shape, sigma_gamma.shape] size dims)
    {r : Except Err (NdArray (Option ℂ) × σ)}
    (h : ellipticityRyden04 normal uniform fuel s mu sigma gamma sigma_gamma size = some r) :
    ∃ (out : NdArray (Option ℂ)) (s₁ s₂ : σ) (eps gam : NdArray ℝ),
      let U := uniform s₂ (-1) 1 dims
      let P := uniform U.2 0 (2 * Real.pi) dims
      let A := uniform P.2 0 (2 * Real.pi) dims
      r = .ok (out, A.2) ∧ out.shape = dims ∧ eps.shape = dims ∧ gam.shape = dims ∧
      TruncatedSample normal (fun x => open Classical in decide (0 < x)) (parameters mu sigma dims)
        s eps.ravel s₁ ∧
      TruncatedSample normal (fun x => open Classical in decide (x < 0 ∨ 1 < x))
        (parameters gamma sigma_gamma dims) s₁ gam.ravel s₂ ∧
      ∀ idx ∈ indices dims, out.get idx =
        (axisRatio (1 - Real.exp (eps.get idx))
          ((1 - gam.get idx) * (1 - Real.exp (eps.get idx))) (U.1.get idx) (P.1.get idx)).bind
          fun q => (nanDiv (1 - q) (1 + q)).map fun t : ℝ =>
            Complex.exp (Complex.I * A.1.get idx) * (t : ℂ) := by
  have hfit : ∀ a ∈ [mu.shape, sigma.shape, gamma.shape, sigma_gamma.shape], Fits a dims := by
    rcases hd with ⟨-, h⟩ | ⟨-, h⟩
    · exact h
    · exact fun a ha => h.fits ha
  have hsize : rydenSize [mu.shape, sigma.shape, gamma.shape, sigma_gamma.shape] size =
      .ok dims := by
    rcases hd with ⟨rfl, -⟩ | ⟨rfl, h'⟩
    · rfl
    · exact ((broadcastAll_spec _).1 dims).2 h'
  have hzip : ∀ a b : NdArray ℝ, List.zip (⟨dims, fun i => entry a i⟩ : NdArray ℝ).ravel
      (⟨dims, fun i => entry b i⟩ : NdArray ℝ).ravel = parameters a b dims := by
    intro a b
    simp only [ravel, parameters]
    rw [List.zip_map']
  unfold ellipticityRyden04 rydenSetup at h
  simp only [bind, Except.bind] at h
  rw [hsize] at h
  simp only at h
  rw [broadcastTo_fits (hfit mu.shape (by simp)), broadcastTo_fits (hfit sigma.shape (by simp)),
    broadcastTo_fits (hfit gamma.shape (by simp)),
    broadcastTo_fits (hfit sigma_gamma.shape (by simp))] at h
  simp only [hzip] at h
  have hpl : ∀ a b : NdArray ℝ, (parameters a b dims).length = dims.prod := by
    intro a b; simp [parameters, indices_length]
  set p := parameters mu sigma dims with hp
  set p' := parameters gamma sigma_gamma dims with hp'
  rcases h1 : redraw normal (fun x => open Classical in decide (0 < x)) p fuel (normal s p).1
    (normal s p).2 with _ | r1
  · rw [h1] at h; cases h
  rw [h1] at h
  obtain ⟨eps, s₁, rfl, k1, t1⟩ := redraw_spec hn _ (hn s p) h1
  simp only at h
  rcases h2 : redraw normal (fun x => open Classical in decide (x < 0) || decide (1 < x)) p' fuel
    (normal s₁ p').1 (normal s₁ p').2 with _ | r2
  · rw [h2] at h; cases h
  rw [h2] at h
  obtain ⟨gam, s₂, rfl, k2, t2⟩ := redraw_spec hn _ (hn s₁ p') h2
  simp only [Option.some.injEq] at h
  have hel : eps.length = dims.prod := by rw [← k1.length_eq, hn, hpl]
  have hgl : gam.length = dims.prod := by rw [← k2.length_eq, hn, hpl]
  have hbad : (fun x : ℝ => open Classical in decide (x < 0) || decide (1 < x)) =
      fun x => open Classical in decide (x < 0 ∨ 1 < x) := by
    funext x; simp
  have hrav : ∀ l : List ℝ, l.length = dims.prod → (ofList dims l).ravel = l := by
    intro l hl
    refine List.ext_getElem? fun k => ?_
    by_cases hk : k < dims.prod
    · obtain ⟨idx, hi, hf, -⟩ := exists_flatIndex hk
      have h1 := (indices_flatIndex hi).1
      rw [hf] at h1
      have h2 := ofList_get hl hi
      rw [hf] at h2
      rw [ravel, List.getElem?_map, show (ofList dims l).shape = dims from rfl, h1, Option.map_some,
        h2]
    · rw [List.getElem?_eq_none (by
        rw [ravel, List.length_map, show (ofList dims l).shape = dims from rfl, indices_length]
        omega), List.getElem?_eq_none (by omega)]
  set zeta := eps.map fun e => -(Real.exp e - 1) with hz
  set xi := List.zipWith (fun g z : ℝ => (1 - g) * z) gam zeta with hx
  obtain ⟨q, hq1, hq2, hq3⟩ := triaxial_axis_ratio_spec hu s₂ (ofList dims zeta) (ofList dims xi)
    none (d := dims) (dims := dims) (isBroadcast_same dims) (isBroadcast_same dims)
  simp only [Option.getD_none] at hq1 hq3
  have hpi : (0 : ℝ) < 2 * Real.pi := by have := Real.pi_pos; linarith
  unfold assemble at h
  simp only [bind, Except.bind] at h
  rw [← hz, ← hx, hq1] at h
  simp only at h
  rw [hq2] at h
  refine ⟨_, s₁, s₂, ofList dims eps, ofList dims gam, h.symm, rfl, rfl, rfl, ?_, ?_, ?_⟩
  · rw [hrav eps hel]; exact ⟨k1, t1⟩
  · rw [hrav gam hgl, ← hbad]; exact ⟨k2, t2⟩
  · intro idx hi
    have e0 := ofList_get hel hi
    have e1 := ofList_get hgl hi
    have e2 : (ofList dims zeta).get idx = 1 - Real.exp ((ofList dims eps).get idx) := by
      have := ofList_get (l := zeta) (by simp [hz, hel]) hi
      rw [hz, List.getElem?_map, e0, Option.map_some, Option.some.injEq] at this
      rw [hz, ← this]; ring
    have e3 : (ofList dims xi).get idx = (1 - (ofList dims gam).get idx) *
        (1 - Real.exp ((ofList dims eps).get idx)) := by
      have hzi := ofList_get (l := zeta) (by simp [hz, hel]) hi
      have := ofList_get (l := xi) (by simp [hx, hz, hel, hgl]) hi
      rw [hx, List.getElem?_zipWith, e1, hzi] at this
      simp only [Option.some.injEq] at this
      rw [hx, ← this, e2]
    have hU := hu s₂ (-1) 1 dims (by norm_num)
    have hP := hu (uniform s₂ (-1) 1 dims).2 0 (2 * Real.pi) dims hpi
    have n1 : entry (ofList dims zeta) idx = (ofList dims zeta).get idx := entry_self hi
    have n2 : entry (ofList dims xi) idx = (ofList dims xi).get idx := entry_self hi
    simp only
    rw [hq3 idx hi, n1, n2, e2, e3, entry_self (a := (uniform s₂ (-1) 1 dims).1) (by rw [hU.1]; exact hi),
      entry_self (a := (uniform (uniform s₂ (-1) 1 dims).2 0 (2 * Real.pi) dims).1)
        (by rw [hP.1]; exact hi)]

/-- **C68.** Every ellipticity that `ellipticity_ryden04` returns is in the unit disc.  It is a
number, unless the truncated normal sample was exactly zero. -/
theorem ellipticity_ryden04_disc {σ : Type} {normal : σ → List (ℝ × ℝ) → List ℝ × σ}
    (hn : NormalLength normal) {uniform : Uniform σ} (hu : UniformNd uniform) (fuel : ℕ) (s : σ)
    (mu sigma gamma sigma_gamma : NdArray ℝ) (size : Option (List ℕ)) {dims : List ℕ}
    (hd : IsResultShape [mu.shape, sigma.shape, gamma.shape, sigma_gamma.shape] size dims)
    {r : Except Err (NdArray (Option ℂ) × σ)}
    (h : ellipticityRyden04 normal uniform fuel s mu sigma gamma sigma_gamma size = some r) :
    ∃ (out : NdArray (Option ℂ)) (s' s₁ : σ) (eps : NdArray ℝ), r = .ok (out, s') ∧ out.shape = dims ∧ eps.shape = dims ∧
      TruncatedSample normal (fun x => open Classical in decide (0 < x)) (parameters mu sigma dims)
        s eps.ravel s₁ ∧
      ∀ idx ∈ indices dims, (eps.get idx = 0 ∧ out.get idx = none) ∨
        ∃ e, out.get idx = some e ∧ ‖e‖ ≤ 1 := by
  obtain ⟨out, s₁, s₂, eps, gam, h1, h2, h3, h4, h5, h6, h7⟩ := ellipticity_ryden04_spec hn hu fuel s
    mu sigma gamma sigma_gamma size hd h
  refine ⟨out, _, s₁, eps, h1, h2, h3, h5, fun idx hi => ?_⟩
  have he : eps.get idx ≤ 0 := by
    have := h5.good (eps.get idx) (List.mem_map.2 ⟨idx, by rw [h3]; exact hi, rfl⟩)
    simpa using this
  have hg : 0 ≤ gam.get idx ∧ gam.get idx ≤ 1 := by
    have := h6.good (gam.get idx) (List.mem_map.2 ⟨idx, by rw [h4]; exact hi, rfl⟩)
    simpa using this
  rw [h7 idx hi]
  set z := 1 - Real.exp (eps.get idx) with hz
  have hz0 : 0 ≤ z := by have := Real.exp_le_one_iff.2 he; linarith
  have hz1 : z ≤ 1 := by have := Real.exp_pos (eps.get idx); linarith
  have hU := hu s₂ (-1) 1 dims (by norm_num)
  set u := (uniform s₂ (-1) 1 dims).1.get idx with hu'
  set phi := (uniform (uniform s₂ (-1) 1 dims).2 0 (2 * Real.pi) dims).1.get idx with hphi
  have hub : -1 ≤ u ∧ u ≤ 1 := ⟨(hU.2 idx hi).1, (hU.2 idx hi).2.le⟩
  by_cases hcase : 0 < z ∨ u ≠ 0 ∨ Real.sin phi ≠ 0
  · obtain ⟨q, hq1, hq2, hq3⟩ := axis_ratio_bounds (zeta := z) (xi := (1 - gam.get idx) * z)
      (phi := phi) (mul_nonneg (by linarith) hz0) (by nlinarith) hz1 hub hcase
    have hq0 : 0 ≤ q := le_trans (mul_nonneg (by linarith) hz0) hq2
    right
    rw [hq1, Option.bind_some, nanDiv, if_neg (by linarith), Option.map_some]
    refine ⟨_, rfl, ?_⟩
    rw [norm_mul, mul_comm Complex.I, Complex.norm_exp_ofReal_mul_I, one_mul,
      Complex.norm_of_nonneg (div_nonneg (by linarith) (by linarith)), div_le_one (by linarith)]
    linarith
  · push Not at hcase
    obtain ⟨c1, c2, c3⟩ := hcase
    have hzz : z = 0 := le_antisymm c1 hz0
    left
    refine ⟨?_, ?_⟩
    · have : Real.exp (eps.get idx) = 1 := by linarith
      exact Real.exp_eq_one_iff _ |>.1 this
    · rw [hzz, c2, mul_zero, axis_ratio_needle c3]; rfl

/-- **C68.** Parameters that cannot be stretched to the requested shape, or that have no common
shape, raise `ValueError`. -/
theorem ellipticity_ryden04_mismatch {σ : Type} (normal : σ → List (ℝ × ℝ) → List ℝ × σ)
    (uniform : Uniform σ) (fuel : ℕ) (s : σ)
    (mu sigma gamma sigma_gamma : NdArray ℝ) (size : Option (List ℕ))
    (hd : ¬ ∃ dims, IsResultShape [mu.shape, sigma.shape, gamma.shape, sigma_gamma.shape] size dims) :
    ∃ e, ellipticityRyden04 normal uniform fuel s mu sigma gamma sigma_gamma size =
      some (.error (.value e)) := by
  have hto : ∀ (a : NdArray ℝ) (d : List ℕ), (∃ r, broadcastTo a d = .error (.value r)) ∨
      (Fits a.shape d ∧ broadcastTo a d = .ok ⟨d, fun i => entry a i⟩) := by
    intro a d
    by_cases h : broadcastShapes a.shape d = some d
    · right
      have := (isBroadcast_pair.1 h).fits (s := a.shape) (by simp)
      exact ⟨this, broadcastTo_fits this⟩
    · left; exact ⟨_, by rw [broadcastTo, if_neg h]⟩
  have key : ∀ d : List ℕ, (∀ a ∈ [mu.shape, sigma.shape, gamma.shape, sigma_gamma.shape],
      Fits a d) → (size = some d ∨ (size = none ∧ IsBroadcast [mu.shape, sigma.shape, gamma.shape, sigma_gamma.shape] d)) → False := by
    rintro d hf (h | h)
    · exact hd ⟨d, .inl ⟨h, hf⟩⟩
    · exact hd ⟨d, .inr h⟩
  unfold ellipticityRyden04 rydenSetup
  simp only [bind, Except.bind]
  rcases hs : rydenSize [mu.shape, sigma.shape, gamma.shape, sigma_gamma.shape] size with e | d
  · have : ∃ r, e = .value r := by
      rcases size with _ | d
      · rw [rydenSize] at hs
        have hno : ¬ ∃ dims, IsBroadcast [mu.shape, sigma.shape, gamma.shape, sigma_gamma.shape] dims :=
          fun ⟨d, h⟩ => hd ⟨d, .inr ⟨rfl, h⟩⟩
        obtain ⟨r, hr⟩ := (broadcastAll_spec _).2.2 hno
        rw [hr] at hs
        cases hs
        exact ⟨r, rfl⟩
      · cases hs
    obtain ⟨r, rfl⟩ := this
    exact ⟨r, rfl⟩
  · simp only
    have hsd : size = some d ∨ (size = none ∧
        IsBroadcast [mu.shape, sigma.shape, gamma.shape, sigma_gamma.shape] d) := by
      rcases size with _ | d'
      · exact .inr ⟨rfl, ((broadcastAll_spec _).1 d).1 hs⟩
      · cases hs; exact .inl rfl
    rcases hto mu d with ⟨r, hr⟩ | ⟨f1, hr⟩
    · exact ⟨r, by rw [hr]⟩
    rw [hr]
    rcases hto sigma d with ⟨r, hr⟩ | ⟨f2, hr⟩
    · exact ⟨r, by rw [hr]⟩
    rw [hr]
    rcases hto gamma d with ⟨r, hr⟩ | ⟨f3, hr⟩
    · exact ⟨r, by rw [hr]⟩
    rw [hr]
    rcases hto sigma_gamma d with ⟨r, hr⟩ | ⟨f4, hr⟩
    · exact ⟨r, by rw [hr]⟩
    exact absurd (key d (by simp [f1, f2, f3, f4]) hsd) id

/-- A generator whose numbers are negative at first and 1/2 later. -/
noncomputable def stepNormal : ℕ → List (ℝ × ℝ) → List ℝ × ℕ := fun s ps =>
  (List.replicate ps.length (if s < 1 then -1 else 1 / 2), s + 1)

/-- Concrete case: with two objects, the function returns. -/
example : NormalLength stepNormal ∧ UniformNd middle ∧
    IsResultShape [[2], [], [1], [2]] none [2] ∧
    TruncatedSample stepNormal (fun x => open Classical in decide (x < 0 ∨ 1 < x))
      [(0, 1), (0, 1)] 0 [1 / 2, 1 / 2] 2 := by
  refine ⟨fun s ps => by simp [stepNormal], middle_law,
    .inr ⟨rfl, ((broadcastAll_spec _).1 _).1 (by rfl)⟩, ?_⟩
  have e0 : (stepNormal 0 [(0, 1), (0, 1)]).1 = [-1, -1] := by simp [stepNormal]
  have e1 : (stepNormal 1 [(0, 1), (0, 1)]).1 = [1 / 2, 1 / 2] := by simp [stepNormal]
  have d0 : ∀ {β : Type} (a b : β), badPart (fun x => open Classical in decide (x < 0 ∨ 1 < x))
      [-1, -1] [a, b] = [a, b] := fun a b => by simp [badPart]
  have d1 : ∀ {β : Type} (a b : β), badPart (fun x => open Classical in decide (x < 0 ∨ 1 < x))
      [1 / 2, 1 / 2] [a, b] = [] := fun a b => by
    have : ¬ ((1 / 2 : ℝ) < 0 ∨ (1 : ℝ) < 1 / 2) := by norm_num
    simp only [badPart, List.zip_cons_cons, List.filter_cons, this, decide_false]
    simp
  refine ⟨?_, ?_⟩
  · rw [e0]
    exact .cons (by simp) (.cons (by simp) .nil)
  · rw [e0, d0, d0]
    refine .draw (by simp) ?_ ?_
    · show Keeps _ (stepNormal 1 _).1 _
      rw [e1]
      exact .cons (by simp) (.cons (by simp) .nil)
    · show Truncated _ _ (badPart _ (stepNormal 1 _).1 _) 2 (badPart _ (stepNormal 1 _).1 _) 2
      rw [e1, d1, d1]
      exact .done 2

end Glass.Shapes
