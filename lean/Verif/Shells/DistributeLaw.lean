import Verif.Sampling.Combine
import Verif.Shapes.SamplingProps
import Verif.Shells.ShellProps

/-!
# C122: the law of the shells that `distribute` assigns

If `rng.multinomial(1, weights)` draws independent events with the given probabilities, then the
indices returned by `distribute` are independent, and the index of a redshift `z` is `k` with
probability `w_k(z) / ∑ w_j(z)`: the relative frequencies promised by the documentation.
-/

namespace Glass.Shells

open Glass Glass.Num Glass.Sampling MeasureTheory ProbabilityTheory
open scoped ENNReal

/-- Rows of counts are discrete. -/
local instance : MeasurableSpace (List ℕ) := ⊤

/-- The row of counts of one event in bin `i` of `n`. -/
def eventRow (n i : ℕ) : List ℕ := (List.range n).map fun j => if j = i then 1 else 0

open Classical in
/-- The law of one event for a row of probabilities: bin `i` with probability `p_i`.  (Rows that
are no probabilities do not matter; for them the law is that of an empty row.) -/
noncomputable def eventLaw (p : List ℝ) : Measure (List ℕ) :=
  if IsProb p then ∑ i : Fin p.length, ENNReal.ofReal p[i] • Measure.dirac (eventRow p.length i)
  else Measure.dirac []

/-- What is assumed of `rng.multinomial(1, weights)`: the rows are independent, and each has one
event, in bin `i` with probability `p_i`. -/
def IdealEvents {σ : Type} [MeasurableSpace σ] (μ : Measure σ)
    (mult : σ → List (List ℝ) → List (List ℕ) × σ) : Prop := Ideal μ eventLaw mult

theorem ofReal_list_sum : ∀ {l : List ℝ}, (∀ x ∈ l, 0 ≤ x) →
    ∑ i : Fin l.length, ENNReal.ofReal l[i] = ENNReal.ofReal l.sum
  | [], _ => by simp
  | a :: l, h => by
    have ih := ofReal_list_sum (l := l) fun x hx => h x (List.mem_cons_of_mem _ hx)
    rw [List.sum_cons, ENNReal.ofReal_add (h a (List.mem_cons_self ..))
      (List.sum_nonneg fun x hx => h x (List.mem_cons_of_mem _ hx)), ← ih]
    exact Fin.sum_univ_succ (n := l.length)
      fun i : Fin (l.length + 1) => ENNReal.ofReal (a :: l)[i]

instance (p : List ℝ) : IsProbabilityMeasure (eventLaw p) := by
  unfold eventLaw
  split_ifs with h
  · constructor
    rw [Measure.finsetSum_apply]
    simp only [Measure.smul_apply, measure_univ, smul_eq_mul, mul_one]
    rw [ofReal_list_sum h.1, h.2, ENNReal.ofReal_one]
  · infer_instance

/-- The law of the index of a redshift. -/
noncomputable def shellLaw (shells : List RadialWindow) (z : ℝ) : Measure ℤ :=
  (eventLaw (shellProbs shells z)).map fun c => ((argmax c : ℕ) : ℤ) - 1

theorem measurable_index : Measurable fun c : List ℕ => ((argmax c : ℕ) : ℤ) - 1 :=
  fun _ _ => trivial

instance (shells : List RadialWindow) (z : ℝ) : IsProbabilityMeasure (shellLaw shells z) :=
  Measure.isProbabilityMeasure_map measurable_index.aemeasurable

theorem shellLaw_get {shells : List RadialWindow} (hs : GoodShells shells) (z : ℝ) {i : ℕ}
    (hi : i < (shellProbs shells z).length) :
    shellLaw shells z {(i : ℤ) - 1} = ENNReal.ofReal (shellProbs shells z)[i]! := by
  unfold shellLaw
  rw [Measure.map_apply measurable_index (MeasurableSet.singleton _), eventLaw,
    if_pos (shell_probs_spec hs z).1, Measure.finsetSum_apply, Finset.sum_eq_single ⟨i, hi⟩]
  · rw [Measure.smul_apply, Measure.dirac_apply' _ (measurable_index (MeasurableSet.singleton _)), Set.indicator_of_mem]
    · rw [getElem!_pos _ i hi]
      simp
    · rw [Set.mem_preimage, Set.mem_singleton_iff]
      simp only [argmax_oneHot hi (c := eventRow _ i) rfl]
  · intro j _ hj
    rw [Measure.smul_apply, Measure.dirac_apply' _ (measurable_index (MeasurableSet.singleton _)), Set.indicator_of_notMem, smul_zero]
    rw [Set.mem_preimage, Set.mem_singleton_iff]
    simp only [argmax_oneHot j.2 (c := eventRow _ j) rfl]
    intro h
    exact hj (Fin.ext (by show (j : ℕ) = i; omega))
  · intro h
    exact absurd (Finset.mem_univ _) h

/-- **C122.** The law of the index of a redshift `z`: outside of all shells it is -1 with
probability one; otherwise it is `k` with the probability `w_k(z) / ∑ w_j(z)`, and never -1. -/
theorem shell_law_spec {shells : List RadialWindow} (hs : GoodShells shells) (z : ℝ) :
    ((∀ w ∈ shells, w.eval z = 0) → shellLaw shells z {-1} = 1) ∧
    (¬ (∀ w ∈ shells, w.eval z = 0) → shellLaw shells z {-1} = 0 ∧
      ∀ k (hk : k < shells.length), shellLaw shells z {(k : ℤ)} =
        ENNReal.ofReal (shells[k].eval z / (shells.map fun w => w.eval z).sum)) := by
  obtain ⟨-, hlen, h0, h1⟩ := shell_probs_spec hs z
  have hz : shellLaw shells z {-1} = ENNReal.ofReal (shellProbs shells z)[0]! := by
    have := shellLaw_get hs z (i := 0) (by omega)
    simpa using this
  refine ⟨fun h => by rw [hz, (h0 h).1, ENNReal.ofReal_one], fun h => ⟨?_, fun k hk => ?_⟩⟩
  · rw [hz, (h1 h).1, ENNReal.ofReal_zero]
  · have := shellLaw_get hs z (i := k + 1) (by omega)
    rw [(h1 h).2 k hk] at this
    rw [← this]
    congr 2
    push_cast
    ring

section

variable {σ : Type} [MeasurableSpace σ] {μ : Measure σ} [IsProbabilityMeasure μ]
  {mult : σ → List (List ℝ) → List (List ℕ) × σ}

/-- One batch. -/
theorem batch_ideal (hm : IdealEvents μ mult) (shells : List RadialWindow) :
    Ideal μ (shellLaw shells) fun s zs =>
      ((mult s (zs.map (shellProbs shells))).1.map fun c => ((argmax c : ℕ) : ℤ) - 1,
        (mult s (zs.map (shellProbs shells))).2) := by
  have hm' : Ideal μ eventLaw mult := hm
  have : ∀ p : List ℝ, IsProbabilityMeasure
      ((eventLaw p).map fun c => ((argmax c : ℕ) : ℤ) - 1) := fun _ =>
    Measure.isProbabilityMeasure_map measurable_index.aemeasurable
  have h := (hm'.map (f := fun _ c => ((argmax c : ℕ) : ℤ) - 1)
    fun _ => measurable_index).reindex (shellProbs shells)
  have e : ∀ (l : List (List ℝ)) (x : List (List ℕ)), x.length = l.length →
      List.zipWith (fun (_ : List ℝ) c => ((argmax c : ℕ) : ℤ) - 1) l x =
        x.map fun c => ((argmax c : ℕ) : ℤ) - 1 := by
    intro l
    induction l with
    | nil => intro x hx; cases x <;> simp_all
    | cons a l ih =>
      intro x hx
      cases x with
      | nil => simp at hx
      | cons b x => simp [ih x (by simpa using hx)]
  have e2 : (fun (s : σ) (zs : List ℝ) =>
      ((mult s (zs.map (shellProbs shells))).1.map fun c => ((argmax c : ℕ) : ℤ) - 1,
        (mult s (zs.map (shellProbs shells))).2)) =
      fun s zs => (List.zipWith (fun (_ : List ℝ) c => ((argmax c : ℕ) : ℤ) - 1)
        (zs.map (shellProbs shells)) (mult s (zs.map (shellProbs shells))).1,
        (mult s (zs.map (shellProbs shells))).2) := by
    funext s zs
    rw [e _ _ (hm'.length _ _)]
  rw [e2]
  exact h

omit [IsProbabilityMeasure μ] in
theorem loop_length (hm : IdealEvents μ mult) (shells : List RadialWindow) {batch : ℕ}
    (hb : 0 < batch) : ∀ (fuel : ℕ) (s : σ) (zs : List ℝ), zs.length ≤ fuel →
      (distributeLoop mult shells batch fuel s zs).1.length = zs.length
  | 0, s, zs, h => by
    have : zs = [] := List.length_eq_zero_iff.1 (by omega)
    subst this
    rfl
  | fuel + 1, s, zs, h => by
    rw [distributeLoop]
    by_cases hz : zs = []
    · simp [hz]
    · have hpos : 0 < zs.length := List.length_pos_of_ne_nil hz
      have hl : Ideal μ eventLaw mult := hm
      simp only [hz, if_false, List.length_append, List.length_map, hl.length]
      rw [loop_length hm shells hb fuel _ _ (by simp; omega)]
      simp
      omega

theorem loop_box (hm : IdealEvents μ mult) (shells : List RadialWindow) {batch : ℕ}
    (hb : 0 < batch) : ∀ (fuel : ℕ) (ps : List (ℝ × Set ℤ)) (F : Set σ), ps.length ≤ fuel →
      MeasurableSet F →
      MeasurableSet {s | InBox (distributeLoop mult shells batch fuel s (ps.map Prod.fst)).1
          (ps.map Prod.snd) ∧ (distributeLoop mult shells batch fuel s (ps.map Prod.fst)).2 ∈ F} ∧
        μ {s | InBox (distributeLoop mult shells batch fuel s (ps.map Prod.fst)).1
          (ps.map Prod.snd) ∧ (distributeLoop mult shells batch fuel s (ps.map Prod.fst)).2 ∈ F} =
        (ps.map fun p => shellLaw shells p.1 p.2).prod * μ F
  | 0, ps, F, h, hF => by
    have : ps = [] := List.length_eq_zero_iff.1 (by omega)
    subst this
    simpa [distributeLoop, InBox] using hF
  | fuel + 1, ps, F, h, hF => by
    by_cases hz : ps = []
    · subst hz
      simpa [distributeLoop, InBox] using hF
    · have hpos : 0 < ps.length := List.length_pos_of_ne_nil hz
      have ih := loop_box hm shells hb fuel (ps.drop batch) F (by simp; omega) hF
      have hbatch := (batch_ideal hm shells).box_pairs (ps := ps.take batch)
        (fun _ _ => trivial) ih.1
      have hl : Ideal μ eventLaw mult := hm
      have hset : {s | InBox (distributeLoop mult shells batch (fuel + 1) s (ps.map Prod.fst)).1
          (ps.map Prod.snd) ∧
          (distributeLoop mult shells batch (fuel + 1) s (ps.map Prod.fst)).2 ∈ F} =
          {s | InBox ((mult s (((ps.take batch).map Prod.fst).map (shellProbs shells))).1.map
              fun c => ((argmax c : ℕ) : ℤ) - 1) ((ps.take batch).map Prod.snd) ∧
            (mult s (((ps.take batch).map Prod.fst).map (shellProbs shells))).2 ∈
              {s | InBox (distributeLoop mult shells batch fuel s ((ps.drop batch).map Prod.fst)).1
                ((ps.drop batch).map Prod.snd) ∧
              (distributeLoop mult shells batch fuel s ((ps.drop batch).map Prod.fst)).2 ∈ F}} := by
        ext s
        simp only [Set.mem_ofPred_eq]
        rw [distributeLoop]
        simp only [List.map_eq_nil_iff, hz, if_false, ← List.map_take, ← List.map_drop]
        have e : ps.map Prod.snd =
            (ps.take batch).map Prod.snd ++ (ps.drop batch).map Prod.snd := by
          rw [← List.map_append, List.take_append_drop]
        rw [e, Glass.Shapes.inBox_append (by simp [hl.length]), and_assoc]
      rw [hset]
      refine ⟨hbatch.1, hbatch.2.trans ?_⟩
      rw [ih.2, ← mul_assoc, ← List.prod_append, ← List.map_append, List.take_append_drop]

/-- **C122.** The indices that `distribute` finds are independent, each with the law
`shellLaw` of its redshift, and independent of what the generator draws afterwards — however the
redshifts are divided into batches. -/
theorem distribute_ideal (hm : IdealEvents μ mult) (shells : List RadialWindow) {batch : ℕ}
    (hb : 0 < batch) :
    Ideal μ (shellLaw shells) fun s zs => distributeLoop mult shells batch zs.length s zs := by
  refine Ideal.of_box {A | MeasurableSet A} MeasurableSpace.generateFrom_measurableSet
    MeasurableSpace.isPiSystem_measurableSet (by simp)
    (fun s zs => loop_length hm shells hb _ _ _ le_rfl) fun ps F _ hF => ?_
  have := loop_box hm shells hb ps.length ps F le_rfl hF
  simpa only [List.length_map] using this

/-- **C122.** The joint law of the indices returned by `distribute`. -/
theorem distribute_law (hm : IdealEvents μ mult) {shells : List RadialWindow} (hne : shells ≠ [])
    (hk : ∀ w ∈ shells, w.knots ≠ []) (redshifts : Arr ℝ) {ks : List ℤ}
    (hl : ks.length = redshifts.data.length) :
    μ {s | ∃ out s', distribute mult redshifts shells s = .ok (out, s') ∧ out.data = ks} =
      (List.zipWith (fun z k => shellLaw shells z {k}) redshifts.data ks).prod := by
  have hset : {s | ∃ out s', distribute mult redshifts shells s = .ok (out, s') ∧ out.data = ks} =
      {s | InBox (distributeLoop mult shells 1000 redshifts.data.length s redshifts.data).1
        (ks.map fun k => {k}) ∧
        (distributeLoop mult shells 1000 redshifts.data.length s redshifts.data).2 ∈
          (Set.univ : Set σ)} := by
    have hbox : ∀ (x ks : List ℤ), InBox x (ks.map fun k => {k}) ↔ x = ks := by
      intro x ks
      unfold InBox
      rw [List.forall₂_map_right_iff]
      simp only [Set.mem_singleton_iff]
      rw [List.forall₂_eq_eq_eq]
    ext s
    simp only [Set.mem_ofPred_eq, Set.mem_univ, and_true, hbox]
    unfold distribute
    by_cases h1 : redshifts.data = []
    · rw [if_pos h1, h1]
      constructor
      · rintro ⟨out, s', h, rfl⟩
        simp only [Except.ok.injEq, Prod.mk.injEq] at h
        rw [← h.1]
        rfl
      · intro h
        exact ⟨_, _, rfl, h⟩
    · rw [if_neg h1, if_neg hne, if_neg (by push Not; exact hk)]
      constructor
      · rintro ⟨out, s', h, rfl⟩
        simp only [Except.ok.injEq, Prod.mk.injEq] at h
        rw [← h.1]
      · intro h
        exact ⟨_, _, rfl, h⟩
  rw [hset, ((distribute_ideal hm shells (batch := 1000) (by norm_num)).box (F := Set.univ)
    (θs := redshifts.data) (As := ks.map fun k => {k}) (by simp [hl]) (fun _ _ => trivial)
    MeasurableSet.univ).2, measure_univ, mul_one, List.zipWith_map_right]

/-- **C122.** The relative frequencies of the shells: a single redshift `z` inside of some shell
is given the shell `k` with probability `w_k(z) / ∑ w_j(z)`. -/
theorem distribute_frequency (hm : IdealEvents μ mult) {shells : List RadialWindow}
    (hs : GoodShells shells) (hk : ∀ w ∈ shells, w.knots ≠ []) {shape : List ℕ} {z : ℝ} {k : ℕ}
    (hkl : k < shells.length) (hz : ¬ ∀ w ∈ shells, w.eval z = 0) :
    μ {s | ∃ out s', distribute mult ⟨shape, [z]⟩ shells s = .ok (out, s') ∧
        out.data = [(k : ℤ)]} =
      ENNReal.ofReal (shells[k].eval z / (shells.map fun w => w.eval z).sum) := by
  rw [distribute_law hm (by rintro rfl; simp at hkl) hk ⟨shape, [z]⟩ (by simp)]
  simp [((shell_law_spec hs z).2 hz).2 k hkl]

end

/-- Ideal sources of any laws exist. -/
theorem ideal_exists {Θ α : Type} [MeasurableSpace α] [Inhabited α] (ν : Θ → Measure α)
    [∀ θ, IsProbabilityMeasure (ν θ)] :
    Ideal (Measure.infinitePi fun _ : ℕ => Measure.infinitePi ν) ν
      (stream fun (θ : Θ) (b : Θ → α) => b θ) := by
  have h := stream_ideal (Measure.infinitePi ν) (f := fun (θ : Θ) (b : Θ → α) => b θ)
    fun θ => measurable_pi_apply θ
  simp only [Measure.infinitePi_map_eval] at h
  exact h

/-- The assumption can be met. -/
theorem idealEvents_exists : ∃ (μ : Measure (ℕ → List ℝ → List ℕ))
    (mult : (ℕ → List ℝ → List ℕ) → List (List ℝ) → List (List ℕ) × (ℕ → List ℝ → List ℕ)),
    IsProbabilityMeasure μ ∧ IdealEvents μ mult :=
  ⟨_, _, inferInstance, ideal_exists eventLaw⟩

/-- Concrete case: two overlapping windows with weights 1 and 3 at the redshift 1: a quarter of
the redshifts is given the first one. -/
example {σ : Type} [MeasurableSpace σ] {μ : Measure σ} [IsProbabilityMeasure μ]
    {mult : σ → List (List ℝ) → List (List ℕ) × σ} (hm : IdealEvents μ mult) :
    μ {s | ∃ out s', distribute mult ⟨[], [1]⟩
        [⟨[(0, 1), (1, 1)], 1⟩, ⟨[(1, 3), (2, 3)], 1⟩] s = .ok (out, s') ∧ out.data = [0]} =
      ENNReal.ofReal (1 / 4) := by
  have hs : GoodShells [⟨[(0, 1), (1, 1)], 1⟩, ⟨[(1, 3), (2, 3)], 1⟩] := by
    intro w hw
    simp only [List.mem_cons, List.not_mem_nil, or_false] at hw
    rcases hw with rfl | rfl <;> simp [Inc]
  have e1 : RadialWindow.eval ⟨[(0, 1), (1, 1)], 1⟩ 1 = 1 := by
    simp [RadialWindow.eval, interp, interpIn]
  have e2 : RadialWindow.eval ⟨[(1, 3), (2, 3)], 1⟩ 1 = 3 := by
    simp [RadialWindow.eval, interp, interpIn]
  have := distribute_frequency hm hs (by simp) (shape := []) (z := 1) (k := 0) (by simp) (by
    simp [e1])
  simp only [Nat.cast_zero, List.getElem_cons_zero, List.map_cons, List.map_nil, List.sum_cons,
    List.sum_nil, e1, e2] at this
  rw [this]
  norm_num

end Glass.Shells
