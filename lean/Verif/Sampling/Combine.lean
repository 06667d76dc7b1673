import Verif.Sampling.Ideal

/-!
# Combinations of ideal sources

Ideal sources applied one after the other, functions of their results, and completed rejection
sampling are ideal sources again.
-/

namespace Glass.Sampling

open Glass Glass.Shapes MeasureTheory ProbabilityTheory
open scoped ENNReal

section

variable {σ α β Θ Φ : Type} [MeasurableSpace σ] [MeasurableSpace α] [MeasurableSpace β]

/-- It is enough to know the probabilities of boxes whose sides are from a generating system. -/
theorem Ideal.of_box [Inhabited α] {μ : Measure σ} [IsProbabilityMeasure μ] {ν : Θ → Measure α}
    [∀ θ, IsProbabilityMeasure (ν θ)] {draw : σ → List Θ → List α × σ} (C : Set (Set α))
    (hC : MeasurableSpace.generateFrom C = ‹MeasurableSpace α›) (hpi : IsPiSystem C)
    (hu : Set.univ ∈ C) (hlen : ∀ s θs, (draw s θs).1.length = θs.length)
    (hbox : ∀ (ps : List (Θ × Set α)) (F : Set σ), (∀ p ∈ ps, p.2 ∈ C) → MeasurableSet F →
      MeasurableSet {s | InBox (draw s (ps.map Prod.fst)).1 (ps.map Prod.snd) ∧
        (draw s (ps.map Prod.fst)).2 ∈ F} ∧
      μ {s | InBox (draw s (ps.map Prod.fst)).1 (ps.map Prod.snd) ∧
        (draw s (ps.map Prod.fst)).2 ∈ F} = (ps.map fun p => ν p.1 p.2).prod * μ F) :
    Ideal μ ν draw := by
  have key : ∀ (θs : List Θ) (t : Fin θs.length → Set α) (F : Set σ), (∀ i, t i ∈ C) →
      MeasurableSet F → MeasurableSet (outcome draw θs ⁻¹' (Set.univ.pi t ×ˢ F)) ∧
      μ (outcome draw θs ⁻¹' (Set.univ.pi t ×ˢ F)) = (∏ i, ν (θs.get i) (t i)) * μ F := by
    intro θs t F ht hF
    have hfst : (List.ofFn fun i => (θs.get i, t i)).map Prod.fst = θs := by
      rw [List.map_ofFn]
      exact List.ofFn_get θs
    have hsnd : (List.ofFn fun i => (θs.get i, t i)).map Prod.snd = List.ofFn t := by
      rw [List.map_ofFn]
      rfl
    have h := hbox (List.ofFn fun i => (θs.get i, t i)) F (by
      intro p hp
      obtain ⟨i, rfl⟩ := List.mem_ofFn.1 hp
      exact ht i) hF
    rw [hfst, hsnd, List.map_ofFn, List.prod_ofFn] at h
    rw [outcome_preimage F (fun s => hlen s θs) (by simp)] at h
    have e : (fun i : Fin θs.length => (List.ofFn t).getD i Set.univ) = t := by
      funext i
      simp
    rw [e] at h
    exact h
  have hm : ∀ θs, Measurable (outcome draw θs) := by
    intro θs
    refine Measurable.prodMk (measurable_pi_lambda _ fun i => ?_) fun F hF => ?_
    · have : Measurable[_, MeasurableSpace.generateFrom C]
          fun s => (draw s θs).1.getD i default := by
        refine measurable_generateFrom fun A hA => ?_
        have h := (key θs (Function.update (fun _ => Set.univ) i A) Set.univ (by
          intro j
          by_cases hj : j = i
          · subst hj
            simpa using hA
          · simpa [hj] using hu) MeasurableSet.univ).1
        convert h using 1
        ext s
        simp only [Set.mem_preimage, Set.mem_prod, Set.mem_univ, and_true, Set.mem_pi,
          forall_true_left, outcome]
        constructor
        · intro h' j
          by_cases hj : j = i
          · subst hj
            simpa using h'
          · simp [hj]
        · intro h'
          simpa using h' i
      rwa [hC] at this
    · have h := (key θs (fun _ => Set.univ) F (fun _ => hu) hF).1
      convert h using 1
      ext s
      simp [outcome]
  refine ⟨hlen, hm, fun θs => ?_⟩
  symm
  refine Measure.prod_eq_generateFrom (C := Set.univ.pi '' Set.univ.pi fun _ : Fin θs.length => C)
    (D := {F | MeasurableSet F}) ?_ MeasurableSpace.generateFrom_measurableSet
    (IsPiSystem.pi fun _ => hpi) MeasurableSpace.isPiSystem_measurableSet
    (Measure.FiniteSpanningSetsIn.pi fun i =>
      ⟨fun _ => Set.univ, fun _ => hu, fun _ => measure_lt_top _ _, Set.iUnion_const _⟩)
    (Measure.toFiniteSpanningSetsIn μ) ?_
  · exact generateFrom_eq_pi (fun _ => hC) fun _ => ⟨fun _ => Set.univ, fun _ => hu,
      Set.iUnion_const _⟩
  · rintro _ ⟨t, ht, rfl⟩ F hF
    have ht' : ∀ i, t i ∈ C := fun i => ht i (Set.mem_univ i)
    have hmt : MeasurableSet (Set.univ.pi t ×ˢ F) := by
      refine MeasurableSet.prod (MeasurableSet.univ_pi fun i => ?_) hF
      rw [← hC]
      exact MeasurableSpace.measurableSet_generateFrom (ht' i)
    rw [Measure.map_apply (hm θs) hmt, (key θs t F ht' hF).2, Measure.pi_pi]

/-- The probability of a box, with parameters and sets in one list. -/
theorem Ideal.box_pairs [Inhabited α] {μ : Measure σ} [SFinite μ] {ν : Θ → Measure α}
    [∀ θ, IsProbabilityMeasure (ν θ)] {draw : σ → List Θ → List α × σ} (hd : Ideal μ ν draw)
    {ps : List (Θ × Set α)} {F : Set σ} (hA : ∀ p ∈ ps, MeasurableSet p.2) (hF : MeasurableSet F) :
    MeasurableSet {s | InBox (draw s (ps.map Prod.fst)).1 (ps.map Prod.snd) ∧
        (draw s (ps.map Prod.fst)).2 ∈ F} ∧
      μ {s | InBox (draw s (ps.map Prod.fst)).1 (ps.map Prod.snd) ∧
        (draw s (ps.map Prod.fst)).2 ∈ F} = (ps.map fun p => ν p.1 p.2).prod * μ F := by
  have h := hd.box (θs := ps.map Prod.fst) (As := ps.map Prod.snd) (F := F) (by simp) (by
    intro A hA'
    obtain ⟨p, hp, rfl⟩ := List.mem_map.1 hA'
    exact hA p hp) hF
  rw [List.zipWith_map, List.zipWith_self] at h
  exact h

/-- A function of the results of an ideal source. -/
theorem Ideal.map [Inhabited α] [Inhabited β] {μ : Measure σ} [IsProbabilityMeasure μ]
    {ν : Θ → Measure α} [∀ θ, IsProbabilityMeasure (ν θ)] {draw : σ → List Θ → List α × σ}
    (hd : Ideal μ ν draw) {f : Θ → α → β} (hf : ∀ θ, Measurable (f θ)) :
    Ideal μ (fun θ => (ν θ).map (f θ)) fun s θs =>
      (List.zipWith f θs (draw s θs).1, (draw s θs).2) := by
  have : ∀ θ, IsProbabilityMeasure ((ν θ).map (f θ)) := fun θ =>
    Measure.isProbabilityMeasure_map (hf θ).aemeasurable
  refine Ideal.of_box {A | MeasurableSet A} MeasurableSpace.generateFrom_measurableSet
    MeasurableSpace.isPiSystem_measurableSet MeasurableSet.univ
    (fun s θs => by simp [hd.length]) fun ps F hps hF => ?_
  have h := hd.box_pairs (ps := ps.map fun p => (p.1, f p.1 ⁻¹' p.2)) (F := F) (by
    intro p hp
    obtain ⟨q, hq, rfl⟩ := List.mem_map.1 hp
    exact hf q.1 (hps q hq)) hF
  simp only [List.map_map] at h
  have h1 : (Prod.fst ∘ fun p : Θ × Set β => (p.1, f p.1 ⁻¹' p.2)) = Prod.fst := rfl
  rw [h1] at h
  have hbox : ∀ (ps : List (Θ × Set β)) (x : List α), x.length = ps.length →
      (InBox (List.zipWith f (ps.map Prod.fst) x) (ps.map Prod.snd) ↔
        InBox x (ps.map (Prod.snd ∘ fun p : Θ × Set β => (p.1, f p.1 ⁻¹' p.2)))) := by
    intro ps
    induction ps with
    | nil => intro x hx; cases x <;> simp_all
    | cons p ps ih =>
      intro x hx
      cases x with
      | nil => simp at hx
      | cons a x =>
        simp only [List.map_cons, List.zipWith_cons_cons, inBox_cons]
        rw [ih x (by simpa using hx)]
        rfl
  have hset : {s | InBox (List.zipWith f (ps.map Prod.fst) (draw s (ps.map Prod.fst)).1)
      (ps.map Prod.snd) ∧ (draw s (ps.map Prod.fst)).2 ∈ F} =
      {s | InBox (draw s (ps.map Prod.fst)).1
        (ps.map (Prod.snd ∘ fun p : Θ × Set β => (p.1, f p.1 ⁻¹' p.2))) ∧
        (draw s (ps.map Prod.fst)).2 ∈ F} := by
    ext s
    simp only [Set.mem_ofPred_eq]
    rw [hbox ps _ (by rw [hd.length, List.length_map])]
  rw [hset]
  refine ⟨h.1, h.2.trans ?_⟩
  congr 2
  refine List.map_congr_left fun p hp => ?_
  simp only [Function.comp]
  rw [Measure.map_apply (hf p.1) (hps p hp)]

/-- The same source with other names for the parameters. -/
theorem Ideal.reindex [Inhabited α] {μ : Measure σ} [IsProbabilityMeasure μ]
    {ν : Θ → Measure α} [∀ θ, IsProbabilityMeasure (ν θ)] {draw : σ → List Θ → List α × σ}
    (hd : Ideal μ ν draw) (g : Φ → Θ) :
    Ideal μ (fun φ => ν (g φ)) fun s φs => draw s (φs.map g) := by
  refine Ideal.of_box {A | MeasurableSet A} MeasurableSpace.generateFrom_measurableSet
    MeasurableSpace.isPiSystem_measurableSet MeasurableSet.univ
    (fun s θs => by simp [hd.length]) fun ps F hps hF => ?_
  have h := hd.box_pairs (ps := ps.map fun p => (g p.1, p.2)) (F := F) (by
    intro p hp
    obtain ⟨q, hq, rfl⟩ := List.mem_map.1 hp
    exact hps q hq) hF
  simp only [List.map_map] at h ⊢
  exact h

/-- Two ideal sources, one after the other. -/
theorem Ideal.zip [Inhabited α] [Inhabited β] {μ : Measure σ} [IsProbabilityMeasure μ]
    {ν : Θ → Measure α} [∀ θ, IsProbabilityMeasure (ν θ)] {draw : σ → List Θ → List α × σ}
    {ν' : Φ → Measure β} [∀ φ, IsProbabilityMeasure (ν' φ)] {draw' : σ → List Φ → List β × σ}
    (hd : Ideal μ ν draw) (hd' : Ideal μ ν' draw') :
    Ideal μ (fun p : Θ × Φ => (ν p.1).prod (ν' p.2)) fun s ps =>
      let r := draw s (ps.map Prod.fst)
      let r' := draw' r.2 (ps.map Prod.snd)
      (List.zip r.1 r'.1, r'.2) := by
  refine Ideal.of_box (Set.image2 (· ×ˢ ·) {A | MeasurableSet A} {B | MeasurableSet B})
    generateFrom_prod isPiSystem_prod
    ⟨Set.univ, MeasurableSet.univ, Set.univ, MeasurableSet.univ, Set.univ_prod_univ⟩
    (fun s θs => by simp [hd.length, hd'.length]) fun ps F hps hF => ?_
  have hex : ∀ {ps : List ((Θ × Φ) × Set (α × β))},
      (∀ p ∈ ps, p.2 ∈ Set.image2 (· ×ˢ ·) {A : Set α | MeasurableSet A} {B | MeasurableSet B}) →
      ∃ qs : List ((Θ × Set α) × (Φ × Set β)),
        ps = qs.map (fun q => ((q.1.1, q.2.1), q.1.2 ×ˢ q.2.2)) ∧
        ∀ q ∈ qs, MeasurableSet q.1.2 ∧ MeasurableSet q.2.2 := by
    intro ps
    induction ps with
    | nil => exact fun _ => ⟨[], by simp⟩
    | cons p ps ih =>
      intro h
      obtain ⟨qs, rfl, hq⟩ := ih fun p hp => h p (List.mem_cons_of_mem _ hp)
      obtain ⟨A, hA, B, hB, hAB⟩ := h p (List.mem_cons_self ..)
      refine ⟨((p.1.1, A), (p.1.2, B)) :: qs, ?_, ?_⟩
      · rw [List.map_cons, List.cons.injEq]
        exact ⟨Prod.ext rfl hAB.symm, rfl⟩
      · intro q hq'
        rcases List.mem_cons.1 hq' with rfl | hq'
        · exact ⟨hA, hB⟩
        · exact hq q hq'
  obtain ⟨qs, rfl, hq⟩ := hex hps
  have h' := hd'.box_pairs (ps := qs.map Prod.snd) (F := F) (by
    intro p hp
    obtain ⟨q, hq', rfl⟩ := List.mem_map.1 hp
    exact (hq q hq').2) hF
  have h := hd.box_pairs (ps := qs.map Prod.fst) (F := {s |
    InBox (draw' s ((qs.map Prod.snd).map Prod.fst)).1 ((qs.map Prod.snd).map Prod.snd) ∧
        (draw' s ((qs.map Prod.snd).map Prod.fst)).2 ∈ F}) (by
    intro p hp
    obtain ⟨q, hq', rfl⟩ := List.mem_map.1 hp
    exact (hq q hq').1) h'.1
  have hbox : ∀ (qs : List ((Θ × Set α) × (Φ × Set β))) (x : List α) (y : List β),
      x.length = qs.length → y.length = qs.length →
      (InBox (List.zip x y) ((qs.map (fun q => ((q.1.1, q.2.1), q.1.2 ×ˢ q.2.2))).map Prod.snd) ↔
        InBox x ((qs.map Prod.fst).map Prod.snd) ∧ InBox y ((qs.map Prod.snd).map Prod.snd)) := by
    intro qs
    induction qs with
    | nil =>
      intro x y hx hy
      cases x <;> cases y <;> simp_all
    | cons q qs ih =>
      intro x y hx hy
      rcases x with _ | ⟨a, x⟩
      · simp at hx
      rcases y with _ | ⟨b, y⟩
      · simp at hy
      simp only [List.map_cons, List.zip_cons_cons, inBox_cons]
      rw [ih x y (by simpa using hx) (by simpa using hy), Set.mem_prod]
      tauto
  have e1 : ((qs.map (fun q => ((q.1.1, q.2.1), q.1.2 ×ˢ q.2.2))).map Prod.fst).map Prod.fst =
      (qs.map Prod.fst).map Prod.fst := by
    simp only [List.map_map]
    rfl
  have e2 : ((qs.map (fun q => ((q.1.1, q.2.1), q.1.2 ×ˢ q.2.2))).map Prod.fst).map Prod.snd =
      (qs.map Prod.snd).map Prod.fst := by
    simp only [List.map_map]
    rfl
  simp only [e1, e2]
  have hset : {s | InBox (List.zip (draw s ((qs.map Prod.fst).map Prod.fst)).1
      (draw' (draw s ((qs.map Prod.fst).map Prod.fst)).2 ((qs.map Prod.snd).map Prod.fst)).1)
      ((qs.map (fun q => ((q.1.1, q.2.1), q.1.2 ×ˢ q.2.2))).map Prod.snd) ∧
      (draw' (draw s ((qs.map Prod.fst).map Prod.fst)).2 ((qs.map Prod.snd).map Prod.fst)).2 ∈ F} =
      {s | InBox (draw s ((qs.map Prod.fst).map Prod.fst)).1 ((qs.map Prod.fst).map Prod.snd) ∧
        (draw s ((qs.map Prod.fst).map Prod.fst)).2 ∈ {s |
    InBox (draw' s ((qs.map Prod.snd).map Prod.fst)).1 ((qs.map Prod.snd).map Prod.snd) ∧
        (draw' s ((qs.map Prod.snd).map Prod.fst)).2 ∈ F}} := by
    ext s
    simp only [Set.mem_ofPred_eq]
    rw [hbox qs _ _ (by simp [hd.length]) (by simp [hd'.length]), and_assoc]
  rw [hset]
  refine ⟨h.1, h.2.trans ?_⟩
  rw [h'.2, ← mul_assoc]
  congr 1
  simp only [List.map_map]
  rw [← List.prod_map_mul]
  congr 1
  refine List.map_congr_left fun q _ => ?_
  simp only [Function.comp, Measure.prod_prod]

/-! ## Completed rejection sampling -/

/-- The result of rejection sampling if it ends; otherwise anything. -/
noncomputable def completed [Inhabited α] {ι : Type} (bad : ι → α → Bool) (js : List ι)
    (draw : σ → List Bool → List α × σ) (s : σ) : List α × σ :=
  open Classical in
  if h : ∃ r, ∃ k, sampler bad js draw k s = some r then h.choose
  else (List.replicate js.length default, s)

omit [MeasurableSpace σ] [MeasurableSpace α] in
theorem completed_eq [Inhabited α] {ι : Type} {bad : ι → α → Bool} {js : List ι}
    {draw : σ → List Bool → List α × σ} {s : σ} {k : ℕ} {r : List α × σ}
    (h : sampler bad js draw k s = some r) : completed bad js draw s = r := by
  have hex : ∃ r, ∃ k, sampler bad js draw k s = some r := ⟨r, k, h⟩
  rw [completed, dif_pos hex]
  obtain ⟨l, hl⟩ := hex.choose_spec
  have h1 := loop_mono (le_max_left k l) h
  have h2 := loop_mono (le_max_right k l) hl
  exact Option.some.inj (h2.symm.trans h1)

/-- Completed rejection sampling is an ideal source for the conditional laws. -/
theorem completed_ideal [Inhabited α] {μ : Measure σ} [IsProbabilityMeasure μ]
    {ν : Θ → Measure α} [∀ θ, IsProbabilityMeasure (ν θ)] {bad : Θ → α → Bool}
    (hbad : ∀ θ, MeasurableSet {a | bad θ a = true})
    {draw : List Θ → σ → List Bool → List α × σ} (hd : ∀ js, MaskLaw μ ν js (draw js)) :
    Ideal μ (fun θ : {θ // ν θ (good bad θ) ≠ 0} => (ν θ)[|good bad θ.1])
      fun s js => completed bad (js.map Subtype.val) (draw (js.map Subtype.val)) s := by
  have : ∀ θ : {θ // ν θ (good bad θ) ≠ 0}, IsProbabilityMeasure ((ν θ)[|good bad θ.1]) :=
    fun θ => cond_isProbabilityMeasure θ.2
  have hsl : ∀ {js : List Θ} {k : ℕ} {s : σ} {r : List α × σ},
      sampler bad js (draw js) k s = some r → r.1.length = js.length := by
    intro js k s r h
    exact loop_length (hd js).length (by rw [(hd js).length _ _ (by simp)]; simp) h
  refine Ideal.of_box {A | MeasurableSet A} MeasurableSpace.generateFrom_measurableSet
    MeasurableSpace.isPiSystem_measurableSet MeasurableSet.univ (fun s js => ?_)
    fun ps F hps hF => ?_
  · unfold completed
    split_ifs with h
    · obtain ⟨k, hk⟩ := h.choose_spec
      rw [hsl hk, List.length_map]
    · simp
  · set js := (ps.map Prod.fst).map Subtype.val with hjs
    set qs : List (Θ × Set α) := ps.map fun p => (p.1.1, p.2) with hqs
    have hfst : qs.map Prod.fst = js := by
      rw [hqs, hjs]
      simp only [List.map_map]
      rfl
    have hsnd : qs.map Prod.snd = ps.map Prod.snd := by
      rw [hqs]
      simp only [List.map_map]
      rfl
    have hqm : ∀ q ∈ qs, MeasurableSet q.2 := by
      intro q hq
      obtain ⟨p, hp, rfl⟩ := List.mem_map.1 hq
      exact hps p hp
    have h := sampler_limit (ps := qs) (F := F) (by rw [hfst]; exact hd js) hbad hqm hF
    rw [hfst, hsnd] at h
    have hlu : MeasurableSet {s | ∃ k r, sampler bad js (draw js) k s = some r} := by
      have hfst' : (js.map fun j => (j, (Set.univ : Set α))).map Prod.fst = js := by
        rw [List.map_map]
        exact List.map_id _
      have h' := (sampler_limit (ps := js.map fun j => (j, (Set.univ : Set α))) (F := Set.univ)
        (by rw [hfst']; exact hd js) hbad (by simp) MeasurableSet.univ).1
      rw [hfst'] at h'
      convert h' using 1
      ext s
      simp only [Set.mem_ofPred_eq, Set.mem_univ, and_true]
      refine exists_congr fun k => exists_congr fun r => (and_iff_left_of_imp fun hr => ?_).symm
      have hl := hsl hr
      simp only [List.map_map]
      have : (Prod.snd ∘ fun j : Θ => (j, (Set.univ : Set α))) = fun _ => Set.univ := rfl
      rw [this, List.map_const', inBox_univ]
      exact hl
    have hends := sampler_ends (hd js) hbad (by
      intro j hj
      obtain ⟨p, -, rfl⟩ := List.mem_map.1 hj
      exact p.2)
    set S := {s | ∃ k r, sampler bad js (draw js) k s = some r ∧ InBox r.1 (ps.map Prod.snd) ∧
      r.2 ∈ F} with hS
    set T := {s | InBox (completed bad js (draw js) s).1 (ps.map Prod.snd) ∧
      (completed bad js (draw js) s).2 ∈ F} with hT
    have hST : T = S ∪ ({s | ∃ k r, sampler bad js (draw js) k s = some r}ᶜ ∩
        {s | InBox (List.replicate js.length (default : α)) (ps.map Prod.snd) ∧ s ∈ F}) := by
      ext s
      by_cases hex : ∃ k r, sampler bad js (draw js) k s = some r
      · obtain ⟨k, r, hr⟩ := hex
        have hc := completed_eq hr
        simp only [hT, hS, Set.mem_union, Set.mem_ofPred_eq, hc, Set.mem_inter_iff,
          Set.mem_compl_iff]
        constructor
        · exact fun h => Or.inl ⟨k, r, hr, h⟩
        · rintro (⟨l, r', hr', h⟩ | ⟨h, -⟩)
          · have := completed_eq hr'
            rw [hc] at this
            rwa [this]
          · exact absurd ⟨k, r, hr⟩ h
      · have hc : completed bad js (draw js) s = (List.replicate js.length default, s) := by
          rw [completed, dif_neg]
          rintro ⟨r, k, h⟩
          exact hex ⟨k, r, h⟩
        simp only [hT, hS, Set.mem_union, Set.mem_ofPred_eq, hc, Set.mem_inter_iff,
          Set.mem_compl_iff, hex, not_false_eq_true, true_and]
        constructor
        · exact Or.inr
        · rintro (⟨l, r', hr', -⟩ | h)
          · exact absurd ⟨l, r', hr'⟩ hex
          · exact h
    have hconst : MeasurableSet {s | InBox (List.replicate js.length (default : α))
        (ps.map Prod.snd) ∧ s ∈ F} := by
      by_cases hb : InBox (List.replicate js.length (default : α)) (ps.map Prod.snd)
      · simpa [hb] using hF
      · simp [hb]
    refine ⟨hST ▸ h.1.union (hlu.compl.inter hconst), ?_⟩
    have hae : T =ᵐ[μ] S := by
      filter_upwards [hends] with s hs
      rw [hST]
      refine propext ⟨?_, Or.inl⟩
      rintro (h | ⟨h, -⟩)
      · exact h
      · exact absurd hs h
    rw [measure_congr hae, h.2, hqs, List.map_map]
    rfl

end

end Glass.Sampling
