import Mathlib.MeasureTheory.Function.Floor
import Mathlib.MeasureTheory.Measure.Lebesgue.Basic
import Verif.Sampling.Combine
import Verif.Shapes.RydenProps

/-!
# Ideal sources of normal and uniform numbers with parameters
-/

namespace Glass.Sampling

open Glass Glass.Arrays Glass.Shapes NdArray MeasureTheory ProbabilityTheory
open scoped ENNReal NNReal

/-- The uniform distribution of the interval from `lo` to `hi`. -/
noncomputable def uniformLaw (lo hi : ℝ) : Measure ℝ :=
  (volume.restrict (Set.Ico (0 : ℝ) 1)).map fun u => lo + (hi - lo) * u

instance : IsProbabilityMeasure (volume.restrict (Set.Ico (0 : ℝ) 1)) :=
  ⟨by simp⟩

instance (lo hi : ℝ) : IsProbabilityMeasure (uniformLaw lo hi) :=
  Measure.isProbabilityMeasure_map (by fun_prop)

/-- The probability of a set is the length of its part inside the interval, relative to the length
of the interval. -/
theorem uniformLaw_apply {lo hi : ℝ} (h : lo < hi) {A : Set ℝ} (hA : MeasurableSet A) :
    uniformLaw lo hi A = ENNReal.ofReal (1 / (hi - lo)) * volume (A ∩ Set.Ico lo hi) := by
  have hd : 0 < hi - lo := sub_pos.2 h
  have hm : Measurable fun u : ℝ => lo + (hi - lo) * u := by fun_prop
  have hpre : (fun u : ℝ => lo + (hi - lo) * u) ⁻¹' A ∩ Set.Ico 0 1 =
      (fun u : ℝ => (hi - lo) * u) ⁻¹' ((fun u : ℝ => lo + u) ⁻¹' (A ∩ Set.Ico lo hi)) := by
    ext u
    simp only [Set.mem_inter_iff, Set.mem_preimage, Set.mem_Ico]
    refine and_congr Iff.rfl ?_
    constructor
    · rintro ⟨h1, h2⟩
      exact ⟨by nlinarith, by nlinarith⟩
    · rintro ⟨h1, h2⟩
      constructor
      · by_contra hneg
        nlinarith [not_le.1 hneg]
      · by_contra hneg
        nlinarith [not_lt.1 hneg]
  have hAI : MeasurableSet (A ∩ Set.Ico lo hi) := hA.inter measurableSet_Ico
  have hm1 : Measurable fun u : ℝ => (hi - lo) * u := by fun_prop
  have hm2 : Measurable fun u : ℝ => lo + u := by fun_prop
  rw [uniformLaw, Measure.map_apply hm hA, Measure.restrict_apply (hm hA), hpre,
    ← Measure.map_apply hm1 (hm2 hAI), Real.map_volume_mul_left hd.ne', Measure.smul_apply,
    measure_preimage_add, smul_eq_mul, abs_of_pos (inv_pos.2 hd), one_div]

theorem uniformLaw_range {lo hi : ℝ} (h : lo < hi) : ∀ᵐ x ∂uniformLaw lo hi, lo ≤ x ∧ x < hi := by
  have : uniformLaw lo hi (Set.Ico lo hi)ᶜ = 0 := by
    rw [uniformLaw_apply h measurableSet_Ico.compl, Set.compl_inter_self, measure_empty, mul_zero]
  exact this

theorem uniformLaw_ne {lo hi : ℝ} (h : lo < hi) (y : ℝ) : ∀ᵐ x ∂uniformLaw lo hi, x ≠ y := by
  have : uniformLaw lo hi {y} = 0 := by
    rw [uniformLaw_apply h (measurableSet_singleton y)]
    have : volume ({y} ∩ Set.Ico lo hi) = 0 :=
      measure_mono_null Set.inter_subset_left Real.volume_singleton
    rw [this, mul_zero]
  rw [ae_iff]
  simpa using this

section

variable {σ : Type} [MeasurableSpace σ]

/-- What is assumed of `rng.normal(loc, scale)` with scales that are not negative: an ideal source
of numbers with the normal distributions of the given means and standard deviations. -/
def IdealNormals (μ : Measure σ) (normal : σ → List (ℝ × ℝ) → List ℝ × σ) : Prop :=
  Ideal μ (fun p : ℝ × ℝ≥0 => gaussianReal p.1 (p.2 ^ 2)) fun s ps =>
    normal s (ps.map fun p => (p.1, (p.2 : ℝ)))

/-- What is assumed of `rng.uniform(lo, hi, size=shape)`: an array of that shape with values in the
half-open interval, made from an ideal source of numbers with the uniform distribution of the
interval. -/
structure IdealUniform (μ : Measure σ) (uniform : Uniform σ) : Prop where
  range : UniformNd uniform
  law : ∀ lo hi, lo < hi → ∃ draw : σ → List Unit → List ℝ × σ,
    Ideal μ (fun _ => uniformLaw lo hi) draw ∧ ∀ s shape,
      ((uniform s lo hi shape).1.ravel, (uniform s lo hi shape).2) =
        draw s (List.replicate shape.prod ())

variable {α Θ : Type} [MeasurableSpace α] [Inhabited α]

/-- The generator after a request is as good as before. -/
theorem Ideal.state {μ : Measure σ} [IsProbabilityMeasure μ] {ν : Θ → Measure α}
    [∀ θ, IsProbabilityMeasure (ν θ)] {draw : σ → List Θ → List α × σ} (hd : Ideal μ ν draw)
    (θs : List Θ) {P : σ → Prop} (h : ∀ᵐ s ∂μ, P s) : ∀ᵐ s ∂μ, P (draw s θs).2 := by
  have h1 : μ.map (fun s => (draw s θs).2) = μ := by
    have : (fun s => (draw s θs).2) = Prod.snd ∘ outcome draw θs := rfl
    rw [this, ← Measure.map_map measurable_snd (hd.measurable θs), hd.law, Measure.map_snd_prod,
      measure_univ, one_smul]
  have hm : Measurable fun s => (draw s θs).2 :=
    (measurable_snd.comp (hd.measurable θs) : Measurable (Prod.snd ∘ outcome draw θs))
  rw [← h1] at h
  exact ae_of_ae_map hm.aemeasurable h

/-- What holds with probability one for each number holds for all numbers. -/
theorem Ideal.ae_all {μ : Measure σ} [IsProbabilityMeasure μ] {ν : Θ → Measure α}
    [∀ θ, IsProbabilityMeasure (ν θ)] {draw : σ → List Θ → List α × σ} (hd : Ideal μ ν draw)
    {θs : List Θ} {P : α → Prop} (h : ∀ θ ∈ θs, ∀ᵐ a ∂ν θ, P a) :
    ∀ᵐ s ∂μ, ∀ a ∈ (draw s θs).1, P a := by
  have hex : ∀ θ, ∃ A, MeasurableSet A ∧ (θ ∈ θs → (∀ a ∈ A, P a) ∧ ν θ A = 1) := by
    intro θ
    by_cases hθ : θ ∈ θs
    · have := h θ hθ
      refine ⟨(toMeasurable (ν θ) {a | ¬ P a})ᶜ, (measurableSet_toMeasurable _ _).compl,
        fun _ => ⟨fun a ha => ?_, ?_⟩⟩
      · by_contra hP
        exact ha (subset_toMeasurable _ _ hP)
      · rw [prob_compl_eq_one_iff (measurableSet_toMeasurable _ _), measure_toMeasurable]
        exact this
    · exact ⟨Set.univ, MeasurableSet.univ, fun h => absurd h hθ⟩
  choose A hA hAP using hex
  have hb := hd.box (θs := θs) (As := θs.map A) (F := Set.univ) (by simp) (by
    intro B hB
    obtain ⟨θ, -, rfl⟩ := List.mem_map.1 hB
    exact hA θ) MeasurableSet.univ
  have h1 : (List.zipWith (fun θ A => ν θ A) θs (θs.map A)).prod = 1 := by
    rw [List.zipWith_map_right, List.zipWith_self]
    refine List.prod_eq_one fun x hx => ?_
    obtain ⟨θ, hθ, rfl⟩ := List.mem_map.1 hx
    exact (hAP θ hθ).2
  rw [h1, measure_univ, one_mul] at hb
  filter_upwards [(mem_ae_iff_prob_eq_one hb.1).2 hb.2] with s hs
  have hs := hs.1
  have hall : ∀ {l : List Θ} {x : List α}, (∀ θ ∈ l, θ ∈ θs) → InBox x (l.map A) →
      ∀ a ∈ x, P a := by
    intro l
    induction l with
    | nil =>
      intro x _ hx
      cases x with
      | nil => simp
      | cons a x => simp at hx
    | cons θ l ih =>
      intro x hl hx
      cases x with
      | nil => simp
      | cons a x =>
        rw [List.map_cons, inBox_cons] at hx
        intro b hb
        rcases List.mem_cons.1 hb with rfl | hb
        · exact (hAP θ (hl θ (List.mem_cons_self ..))).1 _ hx.1
        · exact ih (fun θ' h' => hl θ' (List.mem_cons_of_mem _ h')) hx.2 b hb
  exact hall (fun _ h => h) hs

end

/-! ## Existence -/

/-- The numbers from which the normal and uniform numbers of the witness are made. -/
noncomputable def seedLaw : Measure (ℝ × ℝ) :=
  (gaussianReal 0 1).prod (volume.restrict (Set.Ico 0 1))

instance : IsProbabilityMeasure seedLaw := by
  unfold seedLaw
  infer_instance

/-- Normal numbers from the first components. -/
noncomputable def streamNormal (s : ℕ → ℝ × ℝ) (ps : List (ℝ × ℝ)) : List ℝ × (ℕ → ℝ × ℝ) :=
  stream (fun (p : ℝ × ℝ) (x : ℝ × ℝ) => p.1 + p.2 * x.1) s ps

/-- Uniform numbers from the second components. -/
noncomputable def streamUniform : Uniform (ℕ → ℝ × ℝ) := fun s lo hi shape =>
  (ofList shape (stream (fun (_ : Unit) (x : ℝ × ℝ) => lo + (hi - lo) * Int.fract x.2) s
    (List.replicate shape.prod ())).1,
  (stream (fun (_ : Unit) (x : ℝ × ℝ) => lo + (hi - lo) * Int.fract x.2) s
    (List.replicate shape.prod ())).2)

theorem streamNormal_ideal :
    IdealNormals (Measure.infinitePi fun _ : ℕ => seedLaw) streamNormal := by
  have h := stream_ideal seedLaw
    (f := fun (p : ℝ × ℝ≥0) (x : ℝ × ℝ) => p.1 + (p.2 : ℝ) * x.1) (fun p => by fun_prop)
  have h2 : (fun p : ℝ × ℝ≥0 => seedLaw.map fun x : ℝ × ℝ => p.1 + (p.2 : ℝ) * x.1) =
      fun p => gaussianReal p.1 (p.2 ^ 2) := by
    funext p
    have : (fun x : ℝ × ℝ => p.1 + (p.2 : ℝ) * x.1) =
        (fun y => p.1 + y) ∘ (fun y => (p.2 : ℝ) * y) ∘ Prod.fst := rfl
    rw [this, ← Measure.map_map (by fun_prop) (by fun_prop),
      ← Measure.map_map (by fun_prop) measurable_fst, seedLaw, Measure.map_fst_prod, measure_univ,
      one_smul, gaussianReal_map_const_mul, gaussianReal_map_const_add]
    congr 1
    · simp
    · ext
      simp
  rw [h2] at h
  unfold IdealNormals
  convert h using 1
  funext s ps
  simp [streamNormal, stream]

theorem ofList_ravel {dims : List ℕ} {l : List ℝ} (hl : l.length = dims.prod) :
    (ofList dims l).ravel = l := by
  refine List.ext_getElem? fun k => ?_
  by_cases hk : k < dims.prod
  · obtain ⟨idx, hi, hf, -⟩ := exists_flatIndex hk
    have h1 := (indices_flatIndex hi).1
    rw [hf] at h1
    have h2 := ofList_get hl hi
    rw [hf] at h2
    rw [ravel, List.getElem?_map, show (ofList dims l).shape = dims from rfl, h1, Option.map_some,
      h2]
  · rw [List.getElem?_eq_none (by
      rw [ravel, List.length_map, show (ofList dims l).shape = dims from rfl, indices_length]
      omega), List.getElem?_eq_none (by omega)]

theorem fract_law : (volume.restrict (Set.Ico (0 : ℝ) 1)).map Int.fract =
    volume.restrict (Set.Ico (0 : ℝ) 1) := by
  have : (Int.fract : ℝ → ℝ) =ᵐ[volume.restrict (Set.Ico (0 : ℝ) 1)] id := by
    filter_upwards [ae_restrict_mem measurableSet_Ico] with x hx
    exact Int.fract_eq_self.2 hx
  rw [Measure.map_congr this, Measure.map_id]

theorem streamUniform_ideal :
    IdealUniform (Measure.infinitePi fun _ : ℕ => seedLaw) streamUniform := by
  refine ⟨fun s lo hi shape h => ⟨rfl, fun i hi' => ?_⟩, fun lo hi h => ?_⟩
  · have h1 := ofList_get (l := (stream (fun (_ : Unit) (x : ℝ × ℝ) =>
      lo + (hi - lo) * Int.fract x.2) s (List.replicate shape.prod ())).1) (by simp [stream]) hi'
    have h2 := List.mem_of_getElem? h1
    simp only [stream, List.mem_ofFn] at h2
    obtain ⟨j, hj⟩ := h2
    change lo ≤ (ofList shape _).get i ∧ (ofList shape _).get i < hi
    simp only [stream]
    rw [← hj]
    have hf0 := Int.fract_nonneg (s j).2
    have hf1 := Int.fract_lt_one (s j).2
    constructor <;> nlinarith
  · have hs := stream_ideal seedLaw
      (f := fun (_ : Unit) (x : ℝ × ℝ) => lo + (hi - lo) * Int.fract x.2)
      (fun _ => by
        have : Measurable (Int.fract : ℝ → ℝ) := measurable_fract
        fun_prop)
    have h2 : (fun _ : Unit => seedLaw.map fun x : ℝ × ℝ => lo + (hi - lo) * Int.fract x.2) =
        fun _ => uniformLaw lo hi := by
      funext _
      have : (fun x : ℝ × ℝ => lo + (hi - lo) * Int.fract x.2) =
          (fun y => lo + (hi - lo) * y) ∘ Int.fract ∘ Prod.snd := rfl
      rw [this, ← Measure.map_map (by fun_prop) (measurable_fract.comp measurable_snd),
        ← Measure.map_map measurable_fract measurable_snd, seedLaw, Measure.map_snd_prod,
        measure_univ, one_smul, fract_law, uniformLaw]
    rw [h2] at hs
    refine ⟨_, hs, fun s shape => Prod.ext ?_ rfl⟩
    exact ofList_ravel (by simp [stream])

/-- There are ideal sources of normal and of uniform numbers for the same generator. -/
theorem idealSources_exist : ∃ (μ : Measure (ℕ → ℝ × ℝ)) (_ : IsProbabilityMeasure μ)
    (normal : (ℕ → ℝ × ℝ) → List (ℝ × ℝ) → List ℝ × (ℕ → ℝ × ℝ)) (uniform : Uniform (ℕ → ℝ × ℝ)),
    IdealNormals μ normal ∧ IdealUniform μ uniform :=
  ⟨Measure.infinitePi fun _ : ℕ => seedLaw, inferInstance, streamNormal, streamUniform,
    streamNormal_ideal, streamUniform_ideal⟩

end Glass.Sampling
