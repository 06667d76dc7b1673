import Mathlib.Analysis.SpecialFunctions.Trigonometric.DerivHyp
import Verif.Galaxies.NzProps
import Verif.Shapes.TriaxialProps

/-!
# Sampled ellipticities: normal distributions (C68)
-/

namespace Glass.Shapes

open Glass Glass.Arrays Glass.Galaxies NdArray

/-! ## Specification -/

/-- What is assumed of `rng.standard_normal((n,))`: as many numbers as requested. -/
def CountLaw {σ : Type} (normal : σ → ℕ → List ℝ × σ) : Prop := ∀ s n, (normal s n).1.length = n

/-- One batch of complex numbers: the real parts are drawn before the imaginary parts. -/
def IsBatch {σ : Type} (normal : σ → ℕ → List ℝ × σ) (s : σ) (n : ℕ) (b : List ℂ) (s' : σ) :
    Prop :=
  b.map Complex.re = (normal s n).1 ∧ b.map Complex.im = (normal (normal s n).2 n).1 ∧
    s' = (normal (normal s n).2 n).2

/-- Rejection sampling of `n` objects: batches are drawn, each one of the number of objects that are
still missing, until none is missing; `kept` are all draws that are accepted, in the order in which
they were drawn. -/
inductive Rejection {σ : Type} (normal : σ → ℕ → List ℝ × σ) (accept : ℂ → Prop)
    [DecidablePred accept] : σ → ℕ → List ℂ → σ → Prop
  | done (s : σ) : Rejection normal accept s 0 [] s
  | draw {s s' s'' : σ} {n : ℕ} {b kept : List ℂ} : 0 < n → IsBatch normal s n b s' →
      Rejection normal accept s' (n - (b.filter fun e => decide (accept e)).length) kept s'' →
      Rejection normal accept s n ((b.filter fun e => decide (accept e)) ++ kept) s''

/-- Sampling one population after the other. -/
inductive Populations {σ : Type} (one : ℕ × ℝ → σ → List ℂ → σ → Prop) :
    List (ℕ × ℝ) → σ → List (List ℂ) → σ → Prop
  | nil (s : σ) : Populations one [] s [] s
  | cons {s s' s'' : σ} {p : ℕ × ℝ} {ps : List (ℕ × ℝ)} {e : List ℂ} {es : List (List ℂ)} :
      one p s e s' → Populations one ps s' es s'' → Populations one (p :: ps) s (e :: es) s''

/-! ## Batches -/

theorem populate_batch {σ : Type} {normal : σ → ℕ → List ℝ × σ} (hc : CountLaw normal) (s : σ)
    (n : ℕ) : IsBatch normal s n (populate normal s n).1 (populate normal s n).2 ∧
      (populate normal s n).1.length = n := by
  have h1 := hc s n
  have h2 := hc (normal s n).2 n
  refine ⟨⟨?_, ?_, rfl⟩, ?_⟩
  · simp only [populate]
    refine List.ext_getElem (by simp [h1, h2]) fun i a b => ?_
    simp
  · simp only [populate]
    refine List.ext_getElem (by simp [h1, h2]) fun i a b => ?_
    simp
  · simp [populate, h1, h2]

theorem IsBatch.unique {σ : Type} {normal : σ → ℕ → List ℝ × σ} {s s' s'' : σ} {n : ℕ}
    {b c : List ℂ} (h : IsBatch normal s n b s') (h' : IsBatch normal s n c s'') : b = c ∧ s' = s'' := by
  obtain ⟨h1, h2, h3⟩ := h
  obtain ⟨g1, g2, g3⟩ := h'
  refine ⟨?_, by rw [h3, g3]⟩
  have e1 := h1.trans g1.symm
  have e2 := h2.trans g2.symm
  have hl : b.length = c.length := by simpa using congrArg List.length e1
  refine List.ext_getElem hl fun i a b' => Complex.ext ?_ ?_
  · have := congrArg (fun l => l[i]?) e1
    simpa [a, b'] using this
  · have := congrArg (fun l => l[i]?) e2
    simpa [a, b'] using this

/-! ## The masked assignment -/

theorem maskMerge_length {α : Type} : ∀ {m : List Bool} {x v : List α}, m.length = x.length →
    v.length = m.count true → (maskMerge m x v).length = x.length
  | [], [], _, _, _ => rfl
  | [], _ :: _, _, h, _ => by simp at h
  | _ :: _, [], _, h, _ => by simp at h
  | true :: m, a :: x, [], _, h => by simp at h
  | true :: m, a :: x, v :: vs, h, h' => by
    simp only [maskMerge, List.length_cons]
    rw [maskMerge_length (by simpa using h) (by simpa using h')]
  | false :: m, a :: x, vs, h, h' => by
    simp only [maskMerge, List.length_cons]
    rw [maskMerge_length (by simpa using h) (by simpa using h')]

/-- One round: entries that are accepted stay, the others are replaced by the scaled draws; hence
the accepted entries afterwards are those before together with the accepted draws. -/
theorem round_perm (sigma : ℝ) (good : ℂ → Bool) : ∀ {e v : List ℂ},
    v.length = (e.map fun x => !good x).count true →
    ((maskScale sigma (e.map fun x => !good x) (maskMerge (e.map fun x => !good x) e v)).filter
      good).Perm (e.filter good ++ (v.map fun x => x * (sigma : ℂ)).filter good) ∧
    (maskScale sigma (e.map fun x => !good x)
      (maskMerge (e.map fun x => !good x) e v)).length = e.length
  | [], v, h => by
    have : v = [] := by simpa using h
    subst this
    simp [maskScale, maskMerge]
  | a :: e, v, h => by
    rcases ha : good a with _ | _
    · rcases v with _ | ⟨b, v⟩
      · simp [ha] at h
      · obtain ⟨h1, h2⟩ := round_perm sigma good (e := e) (v := v) (by simpa [ha] using h)
        simp only [maskScale] at h1 h2
        simp only [List.map_cons, ha, Bool.not_false, maskMerge, maskScale, List.zipWith_cons_cons,
          if_true, List.filter_cons, Bool.false_eq_true, if_false, List.length_cons, h2, and_true]
        split_ifs with hb
        · exact (h1.cons _).trans List.perm_middle.symm
        · exact h1
    · obtain ⟨h1, h2⟩ := round_perm sigma good (e := e) (v := v) (by simpa [ha] using h)
      simp only [maskScale] at h1 h2
      simp only [List.map_cons, ha, Bool.not_true, maskMerge, maskScale, List.zipWith_cons_cons,
          if_true, List.filter_cons, Bool.false_eq_true, if_false, List.length_cons, h2, and_true,
          List.cons_append]
      exact h1.cons a

/-! ## The loops -/

/-- Draws that are accepted: inside the unit disc after scaling. -/
def Inside (sigma : ℝ) (e : ℂ) : Prop := ‖e * (sigma : ℂ)‖ ≤ 1

noncomputable instance (sigma : ℝ) : DecidablePred (Inside sigma) := fun _ => Classical.dec _

/-- Inside the unit disc. -/
noncomputable def inDisc (e : ℂ) : Bool := open Classical in decide (‖e‖ ≤ 1)

theorem mask_eq (e : List ℂ) :
    (open Classical in e.map fun x => decide (1 < ‖x‖)) = e.map fun x => !inDisc x := by
  refine List.map_congr_left fun x _ => ?_
  simp only [inDisc]
  by_cases h : ‖x‖ ≤ 1
  · simp [h]
  · simp [h, not_le.1 h]

theorem filter_scale (sigma : ℝ) (l : List ℂ) :
    (l.map fun x => x * (sigma : ℂ)).filter inDisc =
      (l.filter fun e => decide (Inside sigma e)).map fun x => x * (sigma : ℂ) := by
  rw [List.filter_map]
  congr 1

theorem count_bad (e : List ℂ) :
    (e.map fun x => !inDisc x).count true + (e.filter inDisc).length = e.length := by
  induction e with
  | nil => rfl
  | cons a e ih => rcases h : inDisc a with _ | _ <;> simp [h] <;> omega

/-- One iteration of the loop. -/
theorem rejectLoop_step {σ : Type} {normal : σ → ℕ → List ℝ × σ} (hc : CountLaw normal)
    (sigma : ℝ) (fuel : ℕ) (e : List ℂ) (s : σ)
    (hpos : 0 < (e.map fun x => !inDisc x).count true) :
    rejectLoop normal sigma (fuel + 1) e s = rejectLoop normal sigma fuel
      (maskScale sigma (e.map fun x => !inDisc x) (maskMerge (e.map fun x => !inDisc x) e
        (populate normal s ((e.map fun x => !inDisc x).count true)).1))
      (populate normal s ((e.map fun x => !inDisc x).count true)).2 := by
  rw [rejectLoop]
  simp only [mask_eq]
  rw [if_pos hpos]
  simp only [maskSet]
  rw [if_pos (populate_batch hc s _).2]

/-- The loop of one population is rejection sampling of the entries outside the disc. -/
theorem rejectLoop_spec {σ : Type} {normal : σ → ℕ → List ℝ × σ} (hc : CountLaw normal)
    (sigma : ℝ) : ∀ {fuel : ℕ} {e : List ℂ} {s : σ} {r : Except Err (List ℂ × σ)},
    rejectLoop normal sigma fuel e s = some r → ∃ out s' kept, r = .ok (out, s') ∧
      out.length = e.length ∧ (∀ x ∈ out, ‖x‖ ≤ 1) ∧
      Rejection normal (Inside sigma) s (e.length - (e.filter inDisc).length) kept s' ∧
      out.Perm (e.filter inDisc ++ kept.map fun x => x * (sigma : ℂ))
  | 0, _, _, _, h => by simp [rejectLoop] at h
  | fuel + 1, e, s, r, h => by
    have hcb := count_bad e
    by_cases hpos : 0 < (e.map fun x => !inDisc x).count true
    · rw [rejectLoop_step hc sigma fuel e s hpos] at h
      obtain ⟨hb, hbl⟩ := populate_batch hc s ((e.map fun x => !inDisc x).count true)
      obtain ⟨hperm, hlen⟩ := round_perm sigma inDisc (e := e)
        (v := (populate normal s ((e.map fun x => !inDisc x).count true)).1) hbl
      obtain ⟨out, s', kept, h1, h2, h3, h4, h5⟩ := rejectLoop_spec hc sigma h
      have hn : e.length - (e.filter inDisc).length = (e.map fun x => !inDisc x).count true := by
        omega
      have hf := hperm.length_eq
      rw [filter_scale, List.length_append, List.length_map] at hf
      refine ⟨out, s', ((populate normal s ((e.map fun x => !inDisc x).count true)).1.filter
        fun e => decide (Inside sigma e)) ++ kept, h1, h2.trans hlen, h3, ?_, ?_⟩
      · rw [hn]
        refine .draw hpos hb ?_
        · rw [hlen, hf] at h4
          convert h4 using 1
          omega
      · refine h5.trans ?_
        rw [List.map_append, ← filter_scale, ← List.append_assoc]
        exact hperm.append_right _
    · rw [rejectLoop] at h
      simp only [mask_eq] at h
      rw [if_neg hpos] at h
      cases h
      have hall : e.filter inDisc = e := by
        refine List.filter_eq_self.2 fun x hx => ?_
        by_contra hne
        refine hpos (List.count_pos_iff.2 (List.mem_map.2 ⟨x, hx, ?_⟩))
        simpa using hne
      refine ⟨e, s, [], rfl, rfl, fun x hx => ?_, ?_, by simp [hall]⟩
      · have := List.filter_eq_self.1 hall x hx
        simpa [inDisc] using this
      · rw [hall, Nat.sub_self]; exact .done s

/-- The ellipticities of one population: the accepted draws, up to their order, scaled by the
standard deviation.  A first batch is drawn even if no object is requested. -/
def GaussianPopulation {σ : Type} (normal : σ → ℕ → List ℝ × σ) (p : ℕ × ℝ) (s : σ)
    (out : List ℂ) (s' : σ) : Prop :=
  out.length = p.1 ∧ (∀ x ∈ out, ‖x‖ ≤ 1) ∧
  ∃ b s₁ kept, IsBatch normal s p.1 b s₁ ∧
    Rejection normal (Inside p.2) s₁
      (p.1 - (b.filter fun e => decide (Inside p.2 e)).length) kept s' ∧
    out.Perm (((b.filter fun e => decide (Inside p.2 e)) ++ kept).map fun x => x * (p.2 : ℂ))

theorem gaussianLoop_spec {σ : Type} {normal : σ → ℕ → List ℝ × σ} (hc : CountLaw normal)
    {fuel : ℕ} : ∀ {ps : List (ℕ × ℝ)} {eps : List ℂ} {i : ℕ} {s : σ}
      {r : Except Err (List ℂ × σ)}, eps.length = i + (ps.map Prod.fst).sum →
    gaussianLoop normal fuel ps eps i s = some r → ∃ es s',
      r = .ok (eps.take i ++ es.flatten, s') ∧ Populations (GaussianPopulation normal) ps s es s'
  | [], eps, i, s, r, hl, h => by
    simp only [gaussianLoop, Option.some.injEq] at h
    subst h
    simp only [List.map_nil, List.sum_nil, add_zero] at hl
    exact ⟨[], s, by simp [← hl], .nil s⟩
  | (count, sigma) :: ps, eps, i, s, r, hl, h => by
    simp only [List.map_cons, List.sum_cons] at hl
    rw [gaussianLoop] at h
    simp only at h
    obtain ⟨hb, hbl⟩ := populate_batch hc s count
    rcases h1 : rejectLoop normal sigma fuel
      ((populate normal s count).1.map fun x => x * (sigma : ℂ)) (populate normal s count).2 with _ | r'
    · rw [h1] at h; cases h
    rw [h1] at h
    obtain ⟨out, s', kept, rfl, h2, h3, h4, h5⟩ := rejectLoop_spec hc sigma h1
    simp only at h
    rw [List.length_map, hbl] at h2
    rw [setSlice_ok (by omega) (by omega)] at h
    simp only at h
    have hA : (eps.take i ++ out).length = i + count := by
      rw [List.length_append, List.length_take, h2]; omega
    obtain ⟨es, s'', h6, h7⟩ := gaussianLoop_spec hc (by
      rw [List.length_append, hA, List.length_drop]; omega) h
    refine ⟨out :: es, s'', ?_, .cons ⟨h2, h3, _, _, kept, hb, ?_, ?_⟩ h7⟩
    · rw [h6, List.take_append_of_le_length (by omega), List.take_of_length_le (by omega)]
      simp
    · rw [filter_scale, List.length_map, List.length_map, hbl] at h4
      exact h4
    · rw [List.map_append, ← filter_scale]; exact h5

/-! ## Theorems -/

/-- The populations of a call: number and standard deviation for each index of the common shape, in
C order. -/
def populations (count : NdArray ℕ) (sigma : NdArray ℝ) (dims : List ℕ) : List (ℕ × ℝ) :=
  (indices dims).map fun idx => (entry count idx, entry sigma idx)

theorem map₂_populations {count : NdArray ℕ} {sigma : NdArray ℝ} {cs : NdArray (ℕ × ℝ)}
    (h : NdArray.map₂ (fun (c : ℕ) (v : ℝ) => (c, v)) count sigma = .ok cs) {dims : List ℕ}
    (hd : IsBroadcast [count.shape, sigma.shape] dims) :
    cs.ravel = populations count sigma dims := by
  obtain ⟨h1, h2⟩ := map₂_ok h
  have e := h1.unique hd
  unfold ravel populations
  rw [e]
  refine List.map_congr_left fun idx hi => ?_
  have hi' : idx ∈ indices cs.shape := by rw [e]; exact hi
  rw [← h2 _ (Fits.refl _) idx hi', entry_self hi']

/-- **C68.** Whenever `ellipticity_gaussian` returns, the result consists of the populations one
after the other in C order; each one has the requested number of ellipticities, all of them in the
unit disc, and they are exactly the draws for this population that lie in the disc. -/
theorem ellipticity_gaussian_spec {σ : Type} {normal : σ → ℕ → List ℝ × σ} (hc : CountLaw normal)
    (junk : ℕ → ℂ) (fuel : ℕ) (s : σ) (count : NdArray ℕ) (sigma : NdArray ℝ) {dims : List ℕ}
    (hd : IsBroadcast [count.shape, sigma.shape] dims) {r : Except Err (List ℂ × σ)}
    (h : ellipticityGaussian normal junk fuel s count sigma = some r) :
    ∃ es s', r = .ok (es.flatten, s') ∧
      Populations (GaussianPopulation normal) (populations count sigma dims) s es s' := by
  unfold ellipticityGaussian at h
  obtain ⟨cs, h1, -⟩ := map₂_total (fun (c : ℕ) (v : ℝ) => (c, v)) hd
  rw [h1] at h
  simp only at h
  rw [map₂_populations h1 hd] at h
  obtain ⟨es, s', h2, h3⟩ := gaussianLoop_spec hc (by simp) h
  exact ⟨es, s', by simpa using h2, h3⟩

theorem populations_forall {σ : Type} {one : ℕ × ℝ → σ → List ℂ → σ → Prop} {ps : List (ℕ × ℝ)}
    {s s' : σ} {es : List (List ℂ)} (h : Populations one ps s es s') {P : ℕ × ℝ → List ℂ → Prop}
    (hP : ∀ p s e s', one p s e s' → P p e) : List.Forall₂ P ps es := by
  induction h with
  | nil => exact .nil
  | cons h _ ih => exact .cons (hP _ _ _ _ h) ih

/-- **C68.** The number of ellipticities is the sum of the counts, and all are in the unit disc. -/
theorem ellipticity_gaussian_disc {σ : Type} {normal : σ → ℕ → List ℝ × σ} (hc : CountLaw normal)
    (junk : ℕ → ℂ) (fuel : ℕ) (s s' : σ) (count : NdArray ℕ) (sigma : NdArray ℝ) {dims : List ℕ}
    (hd : IsBroadcast [count.shape, sigma.shape] dims) {es : List ℂ}
    (h : ellipticityGaussian normal junk fuel s count sigma = some (.ok (es, s'))) :
    (∀ e ∈ es, ‖e‖ ≤ 1) ∧ es.length = ((indices dims).map (entry count)).sum := by
  obtain ⟨l, s'', h1, h2⟩ := ellipticity_gaussian_spec hc junk fuel s count sigma hd h
  cases h1
  have h3 := populations_forall h2 (P := fun p e => e.length = p.1 ∧ ∀ x ∈ e, ‖x‖ ≤ 1)
    fun p s e s' h => ⟨h.1, h.2.1⟩
  have e : (indices dims).map (entry count) = (populations count sigma dims).map Prod.fst := by
    simp [populations, Function.comp_def]
  rw [e]
  clear h h2 e
  generalize populations count sigma dims = ps at h3
  induction h3 with
  | nil => simp
  | cons h _ ih =>
    refine ⟨fun x hx => ?_, ?_⟩
    · rw [List.flatten_cons, List.mem_append] at hx
      exact hx.elim (h.2 x) (ih.1 x)
    · simp [ih.2, h.1]

/-- **C68.** Counts and standard deviations that do not match raise `ValueError`. -/
theorem ellipticity_gaussian_mismatch {σ : Type} (normal : σ → ℕ → List ℝ × σ)
    (junk : ℕ → ℂ) (fuel : ℕ) (s : σ) (count : NdArray ℕ) (sigma : NdArray ℝ)
    (hd : ¬ ∃ dims, IsBroadcast [count.shape, sigma.shape] dims) :
    ∃ r, ellipticityGaussian normal junk fuel s count sigma = some (.error (.value r)) := by
  unfold ellipticityGaussian
  rcases h1 : NdArray.map₂ (fun (c : ℕ) (v : ℝ) => (c, v)) count sigma with e | cs
  · obtain ⟨⟨r, rfl⟩, -⟩ := map₂_error h1
    exact ⟨r, rfl⟩
  · exact absurd ⟨_, (map₂_ok h1).1⟩ hd

/-! ## Termination -/

theorem rejectLoop_terminates {σ : Type} {normal : σ → ℕ → List ℝ × σ} (hc : CountLaw normal)
    {sigma : ℝ} {s s' : σ} {n : ℕ} {kept : List ℂ}
    (h : Rejection normal (Inside sigma) s n kept s') :
    ∃ N, ∀ fuel, N ≤ fuel → ∀ e : List ℂ, e.length - (e.filter inDisc).length = n →
      ∃ out, rejectLoop normal sigma fuel e s = some (.ok (out, s')) := by
  induction h with
  | done s =>
    refine ⟨1, fun fuel hf e he => ⟨e, ?_⟩⟩
    obtain ⟨fuel, rfl⟩ : ∃ k, fuel = k + 1 := ⟨fuel - 1, by omega⟩
    have hcb := count_bad e
    rw [rejectLoop]
    simp only [mask_eq]
    rw [if_neg (by omega)]
  | @draw s s₁ s₂ n b kept hpos hb _ ih =>
    obtain ⟨N, hN⟩ := ih
    refine ⟨N + 1, fun fuel hf e he => ?_⟩
    obtain ⟨fuel, rfl⟩ : ∃ k, fuel = k + 1 := ⟨fuel - 1, by omega⟩
    have hcb := count_bad e
    have hn : (e.map fun x => !inDisc x).count true = n := by omega
    rw [rejectLoop_step hc sigma fuel e s (by omega)]
    obtain ⟨hb', hbl⟩ := populate_batch hc s ((e.map fun x => !inDisc x).count true)
    rw [hn] at hb' hbl ⊢
    obtain ⟨e1, e2⟩ := hb.unique hb'
    obtain ⟨hperm, hlen⟩ := round_perm sigma inDisc (e := e)
      (v := (populate normal s n).1) (by rw [hbl, hn])
    rw [← e2]
    refine hN fuel (by omega) _ ?_
    have hf := hperm.length_eq
    rw [filter_scale, List.length_append, List.length_map] at hf
    have hbe := congrArg (fun l : List ℂ => (l.filter fun e => decide (Inside sigma e)).length) e1
    rw [hlen]
    omega

/-- **C68.** Conversely, if rejection sampling ends for every population, then the function
returns. -/
theorem ellipticity_gaussian_terminates {σ : Type} {normal : σ → ℕ → List ℝ × σ}
    (hc : CountLaw normal) (junk : ℕ → ℂ) (s : σ) (count : NdArray ℕ) (sigma : NdArray ℝ)
    {dims : List ℕ} (hd : IsBroadcast [count.shape, sigma.shape] dims) {es : List (List ℂ)} {s' : σ}
    (h : Populations (GaussianPopulation normal) (populations count sigma dims) s es s') :
    ∃ N, ∀ fuel, N ≤ fuel →
      ∃ out, ellipticityGaussian normal junk fuel s count sigma = some (.ok (out, s')) := by
  have key : ∀ {ps : List (ℕ × ℝ)} {s s' : σ} {es : List (List ℂ)},
      Populations (GaussianPopulation normal) ps s es s' → ∃ N, ∀ fuel, N ≤ fuel →
      ∀ (eps : List ℂ) (i : ℕ), eps.length = i + (ps.map Prod.fst).sum →
        ∃ out, gaussianLoop normal fuel ps eps i s = some (.ok (out, s')) := by
    intro ps s s' es h
    induction h with
    | nil s => exact ⟨0, fun fuel _ eps i _ => ⟨eps, rfl⟩⟩
    | @cons s s₁ s₂ p ps e es hp _ ih =>
      obtain ⟨N, hN⟩ := ih
      obtain ⟨-, -, b, s₀, kept, hb, hr, -⟩ := hp
      obtain ⟨M, hM⟩ := rejectLoop_terminates hc hr
      refine ⟨max N M, fun fuel hf eps i hl => ?_⟩
      obtain ⟨hb', hbl⟩ := populate_batch hc s p.1
      obtain ⟨e1, e2⟩ := hb.unique hb'
      obtain ⟨out, ho⟩ := hM fuel (le_trans (le_max_right _ _) hf)
        (b.map fun x => x * (p.2 : ℂ)) (by
          rw [filter_scale, List.length_map, List.length_map, e1, hbl])
      obtain ⟨out', s'', -, h1, h2, -⟩ := rejectLoop_spec hc p.2 ho
      cases h1
      rw [List.length_map, e1, hbl] at h2
      simp only [List.map_cons, List.sum_cons] at hl
      rw [gaussianLoop]
      simp only
      rw [← e1, ← e2, ho]
      simp only
      rw [setSlice_ok (by omega) (by omega)]
      simp only
      refine hN fuel (le_trans (le_max_left _ _) hf) _ _ ?_
      rw [List.length_append, List.length_append, List.length_take, List.length_drop, h2]
      omega
  obtain ⟨cs, h1, -⟩ := map₂_total (fun (c : ℕ) (v : ℝ) => (c, v)) hd
  obtain ⟨N, hN⟩ := key h
  refine ⟨N, fun fuel hf => ?_⟩
  unfold ellipticityGaussian
  rw [h1]
  simp only
  rw [map₂_populations h1 hd]
  exact hN fuel hf _ 0 (by simp)

/-- A generator whose first two batches lie outside the unit disc. -/
noncomputable def lateNormal : ℕ → ℕ → List ℝ × ℕ := fun s n =>
  (List.replicate n (if s < 2 then 2 else 1 / 4), s + 1)

/-- Concrete case: with the generator `lateNormal` the first draw is rejected, and the second one is
kept; counts of shape `(2, 1)` and standard deviations of shape `(3,)` have a common shape. -/
example : CountLaw lateNormal ∧ IsBroadcast [[2, 1], [3]] [2, 3] ∧
    Rejection lateNormal (Inside 1) 0 1 [⟨1 / 4, 1 / 4⟩] 4 := by
  refine ⟨fun s n => by simp [lateNormal], isBroadcast_pair.1 (by rfl), ?_⟩
  have n1 : ¬ Inside 1 (⟨2, 2⟩ : ℂ) := by
    intro h
    have h2 : (2 : ℝ) ≤ ‖(⟨2, 2⟩ : ℂ)‖ := by simpa using Complex.abs_re_le_norm (⟨2, 2⟩ : ℂ)
    have h3 : ‖(⟨2, 2⟩ : ℂ)‖ ≤ 1 := by simpa [Inside] using h
    linarith
  have n2 : Inside 1 (⟨1 / 4, 1 / 4⟩ : ℂ) := by
    have h2 := Complex.norm_le_abs_re_add_abs_im (⟨1 / 4, 1 / 4⟩ : ℂ)
    have h3 : ‖(⟨1 / 4, 1 / 4⟩ : ℂ)‖ ≤ 1 := h2.trans (by norm_num [abs_of_pos])
    simpa [Inside] using h3
  have b1 : IsBatch lateNormal 0 1 [⟨2, 2⟩] 2 := ⟨by simp [lateNormal], by simp [lateNormal], rfl⟩
  have b2 : IsBatch lateNormal 2 1 [⟨1 / 4, 1 / 4⟩] 4 :=
    ⟨by simp [lateNormal], by simp [lateNormal], rfl⟩
  have e1 : ([⟨2, 2⟩] : List ℂ).filter (fun e => decide (Inside 1 e)) = [] := by simp [n1]
  have e2 : ([⟨1 / 4, 1 / 4⟩] : List ℂ).filter (fun e => decide (Inside 1 e)) =
      [⟨1 / 4, 1 / 4⟩] := List.filter_eq_self.2 fun x hx => by
    rw [List.mem_singleton.1 hx]; simpa using n2
  have h2 : Rejection lateNormal (Inside 1) 2 1 ([⟨1 / 4, 1 / 4⟩] ++ []) 4 := by
    rw [← e2]
    refine .draw one_pos b2 ?_
    rw [e2]
    exact .done 4
  have h1 : Rejection lateNormal (Inside 1) 0 1 ([] ++ [⟨1 / 4, 1 / 4⟩]) 4 := by
    rw [← e1]
    refine .draw one_pos b1 ?_
    rw [e1]
    exact h2
  exact h1

/-! ## Intrinsic normal distribution -/

/-- What is asked of an ellipticity `e` for the complex normal draw `z` and the standard deviation
`sigma` of the ellipticities: it points in the same direction, and the modulus is the hyperbolic
tangent of half the modulus of the draw, scaled to the standard deviation before the
transformation. -/
def IsIntrinsic (sigma : ℝ) (z e : ℂ) : Prop :=
  (∃ t : ℝ, 0 ≤ t ∧ (0 < sigma → 0 < t) ∧ e = t * z) ∧
    ‖e‖ = Real.tanh (sigma * Real.sqrt ((8 + 5 * sigma ^ 2) / (2 - 4 * sigma ^ 2)) * ‖z‖ / 2)

theorem sqrt_re_im (e : ℂ) : Real.sqrt (e.re ^ 2 + e.im ^ 2) = ‖e‖ := by
  rw [Complex.norm_def, Complex.normSq_apply]; congr 1; ring

theorem tanh_pos {x : ℝ} (h : 0 < x) : 0 < Real.tanh x := by
  rw [Real.tanh_eq_sinh_div_cosh]
  exact div_pos (Real.sinh_pos_iff.2 h) (Real.cosh_pos x)

/-- The standard deviation is admissible: nonnegative and below the square root of one half. -/
theorem sigmaEta_facts {sigma : ℝ} (h0 : 0 ≤ sigma) (h1 : sigma < Real.sqrt 0.5) :
    0 ≤ sigmaEta sigma ∧ (0 < sigma → 0 < sigmaEta sigma) ∧ 0 < 2 - 4 * sigma ^ 2 := by
  have h2 : sigma ^ 2 < 0.5 := by
    have := Real.sq_sqrt (show (0 : ℝ) ≤ 0.5 by norm_num)
    nlinarith [Real.sqrt_nonneg (0.5 : ℝ)]
  have h3 : 0 < 2 - 4 * sigma ^ 2 := by norm_num at h2; linarith
  have h4 : 0 < Real.sqrt ((8 + 5 * sigma ^ 2) / (2 - 4 * sigma ^ 2)) :=
    Real.sqrt_pos.2 (div_pos (by positivity) h3)
  exact ⟨mul_nonneg h0 h4.le, fun h => mul_pos h h4, h3⟩

theorem intnorm_spec {sigma : ℝ} (h0 : 0 ≤ sigma) (h1 : sigma < Real.sqrt 0.5) (z : ℂ) :
    IsIntrinsic sigma z (intnorm (sigmaEta sigma) z) := by
  obtain ⟨hs, hp, -⟩ := sigmaEta_facts h0 h1
  have hn : ‖z * (sigmaEta sigma : ℂ)‖ = sigmaEta sigma * ‖z‖ := by
    rw [norm_mul, Complex.norm_of_nonneg hs, mul_comm]
  unfold IsIntrinsic intnorm
  simp only [sqrt_re_im, hn]
  rw [show sigma * Real.sqrt ((8 + 5 * sigma ^ 2) / (2 - 4 * sigma ^ 2)) = sigmaEta sigma from rfl]
  by_cases hr : 0 < sigmaEta sigma * ‖z‖
  · rw [if_pos hr]
    have ht : 0 < Real.tanh (sigmaEta sigma * ‖z‖ / 2) := tanh_pos (by linarith)
    refine ⟨⟨sigmaEta sigma * (Real.tanh (sigmaEta sigma * ‖z‖ / 2) / (sigmaEta sigma * ‖z‖)),
      mul_nonneg hs (div_pos ht hr).le, fun h => mul_pos (hp h) (div_pos ht hr), ?_⟩, ?_⟩
    · push_cast; ring
    · rw [norm_mul, hn, Complex.norm_of_nonneg (div_pos ht hr).le, mul_div_cancel₀ _ hr.ne']
  · have hz : sigmaEta sigma * ‖z‖ = 0 :=
      le_antisymm (not_lt.1 hr) (mul_nonneg hs (norm_nonneg z))
    rw [if_neg hr]
    refine ⟨⟨sigmaEta sigma, hs, hp, by push_cast; ring⟩, ?_⟩
    rw [norm_mul, hn, hz]; simp

/-- The ellipticities of one population. -/
def IntnormPopulation {σ : Type} (normal : σ → ℕ → List ℝ × σ) (p : ℕ × ℝ) (s : σ)
    (out : List ℂ) (s' : σ) : Prop :=
  ∃ b, IsBatch normal s p.1 b s' ∧ b.length = p.1 ∧ List.Forall₂ (IsIntrinsic p.2) b out

theorem intnormLoop_spec {σ : Type} {normal : σ → ℕ → List ℝ × σ} (hc : CountLaw normal) :
    ∀ {ps : List (ℕ × ℝ)} {eps : List ℂ} {i : ℕ} {s : σ},
      eps.length = i + (ps.map Prod.fst).sum →
      (∀ p ∈ ps, 0 ≤ p.2 ∧ p.2 < Real.sqrt 0.5) → ∃ es s',
      intnormLoop normal ps eps i s = .ok (eps.take i ++ es.flatten, s') ∧
        Populations (IntnormPopulation normal) ps s es s'
  | [], eps, i, s, hl, _ => by
    simp only [List.map_nil, List.sum_nil, add_zero] at hl
    exact ⟨[], s, by simp [intnormLoop, ← hl], .nil s⟩
  | (count, sigma) :: ps, eps, i, s, hl, hs => by
    simp only [List.map_cons, List.sum_cons] at hl
    obtain ⟨hb, hbl⟩ := populate_batch hc s count
    rw [intnormLoop]
    simp only [bind, Except.bind]
    rw [setSlice_ok (by omega) (by simp [hbl])]
    simp only
    set out := (populate normal s count).1.map (intnorm (sigmaEta sigma)) with hout
    have hol : out.length = count := by simp [hout, hbl]
    have hA : (eps.take i ++ out).length = i + count := by
      rw [List.length_append, List.length_take, hol]; omega
    obtain ⟨es, s', h1, h2⟩ := intnormLoop_spec hc (ps := ps)
      (eps := eps.take i ++ out ++ eps.drop (i + count)) (i := i + count)
      (s := (populate normal s count).2)
      (by rw [List.length_append, hA, List.length_drop]; omega)
      (fun p hp => hs p (List.mem_cons_of_mem _ hp))
    refine ⟨out :: es, s', ?_, .cons ⟨_, hb, hbl, ?_⟩ h2⟩
    · rw [h1, List.take_append_of_le_length (by omega), List.take_of_length_le (by omega)]
      simp
    · obtain ⟨c1, c2⟩ := hs (count, sigma) (by simp)
      rw [hout, List.forall₂_map_right_iff]
      exact List.forall₂_same.2 fun z _ => intnorm_spec c1 c2 z

/-- **C68.** If all standard deviations are admissible, `ellipticity_intnorm` returns the
populations one after the other in C order, each one with the requested number of ellipticities, and
each ellipticity is the transformed draw. -/
theorem ellipticity_intnorm_spec {σ : Type} {normal : σ → ℕ → List ℝ × σ} (hc : CountLaw normal)
    (junk : ℕ → ℂ) (s : σ) (count : NdArray ℕ) (sigma : NdArray ℝ) {dims : List ℕ}
    (hd : IsBroadcast [count.shape, sigma.shape] dims)
    (hs : ∀ idx ∈ indices dims, 0 ≤ entry sigma idx ∧ entry sigma idx < Real.sqrt 0.5) :
    ∃ es s', ellipticityIntnorm normal junk s count sigma = .ok (es.flatten, s') ∧
      Populations (IntnormPopulation normal) (populations count sigma dims) s es s' := by
  have hp : ∀ p ∈ populations count sigma dims, 0 ≤ p.2 ∧ p.2 < Real.sqrt 0.5 := by
    intro p hp
    obtain ⟨idx, hi, rfl⟩ := List.mem_map.1 hp
    exact hs idx hi
  obtain ⟨cs, h1, -⟩ := map₂_total (fun (c : ℕ) (v : ℝ) => (c, v)) hd
  obtain ⟨es, s', h2, h3⟩ := intnormLoop_spec hc (ps := populations count sigma dims)
    (eps := (List.range (((populations count sigma dims).map Prod.fst).sum)).map junk) (i := 0)
    (s := s) (by simp) hp
  refine ⟨es, s', ?_, h3⟩
  unfold ellipticityIntnorm
  simp only [bind, Except.bind]
  rw [h1]
  simp only
  rw [map₂_populations h1 hd, if_neg]
  · simpa using h2
  · rw [not_not, List.all_eq_true]
    intro p hp'
    simpa using hp p hp'

/-- **C68.** All ellipticities are inside the open unit disc, and there are as many as requested. -/
theorem ellipticity_intnorm_disc {σ : Type} {normal : σ → ℕ → List ℝ × σ} (hc : CountLaw normal)
    (junk : ℕ → ℂ) (s : σ) (count : NdArray ℕ) (sigma : NdArray ℝ) {dims : List ℕ}
    (hd : IsBroadcast [count.shape, sigma.shape] dims)
    (hs : ∀ idx ∈ indices dims, 0 ≤ entry sigma idx ∧ entry sigma idx < Real.sqrt 0.5) :
    ∃ es s', ellipticityIntnorm normal junk s count sigma = .ok (es, s') ∧
      (∀ e ∈ es, ‖e‖ < 1) ∧ es.length = ((indices dims).map (entry count)).sum := by
  obtain ⟨l, s', h1, h2⟩ := ellipticity_intnorm_spec hc junk s count sigma hd hs
  refine ⟨_, s', h1, ?_⟩
  have h3 := populations_forall h2 (P := fun p e => e.length = p.1 ∧ ∀ x ∈ e, ‖x‖ < 1)
    fun p s e s' h => by
      obtain ⟨b, -, hbl, hf⟩ := h
      refine ⟨by rw [← hf.length_eq, hbl], ?_⟩
      clear hbl
      induction hf with
      | nil => simp
      | cons h _ ih =>
        intro x hx
        rcases List.mem_cons.1 hx with rfl | hx
        · rw [h.2]; exact Real.tanh_lt_one _
        · exact ih x hx
  have e : (indices dims).map (entry count) = (populations count sigma dims).map Prod.fst := by
    simp [populations, Function.comp_def]
  rw [e]
  clear h1 h2 e
  generalize populations count sigma dims = ps at h3
  induction h3 with
  | nil => simp
  | cons h _ ih =>
    refine ⟨fun x hx => ?_, ?_⟩
    · rw [List.flatten_cons, List.mem_append] at hx
      exact hx.elim (h.2 x) (ih.1 x)
    · simp [ih.2, h.1]

/-- **C68.** A standard deviation that is not admissible raises `ValueError`, whatever the counts. -/
theorem ellipticity_intnorm_rejects {σ : Type} (normal : σ → ℕ → List ℝ × σ)
    (junk : ℕ → ℂ) (s : σ) (count : NdArray ℕ) (sigma : NdArray ℝ) {dims : List ℕ}
    (hd : IsBroadcast [count.shape, sigma.shape] dims) {idx : List ℕ} (hi : idx ∈ indices dims)
    (hs : entry sigma idx < 0 ∨ Real.sqrt 0.5 ≤ entry sigma idx) :
    ∃ r, ellipticityIntnorm normal junk s count sigma = .error (.value r) := by
  obtain ⟨cs, h1, -⟩ := map₂_total (fun (c : ℕ) (v : ℝ) => (c, v)) hd
  refine ⟨"sigma must be between 0 and sqrt(0.5)", ?_⟩
  unfold ellipticityIntnorm
  simp only [bind, Except.bind]
  rw [h1]
  simp only
  rw [map₂_populations h1 hd, if_pos]
  intro hall
  have := List.all_eq_true.1 hall (entry count idx, entry sigma idx) (List.mem_map.2 ⟨idx, hi, rfl⟩)
  simp only [decide_eq_true_eq] at this
  rcases hs with h | h
  · linarith [this.1]
  · linarith [this.2]

/-- Concrete case: a standard deviation of 1/4 is admissible. -/
example : (0 : ℝ) ≤ 1 / 4 ∧ (1 / 4 : ℝ) < Real.sqrt 0.5 :=
  ⟨by norm_num, Real.lt_sqrt_of_sq_lt (by norm_num)⟩

end Glass.Shapes
