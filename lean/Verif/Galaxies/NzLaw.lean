import Mathlib.Analysis.SpecialFunctions.Integrals.Basic
import Verif.Galaxies.BinsProps
import Verif.Sampling.Sources

/-!
# The law of sampled redshifts (C111, C112)
-/

namespace Glass.Galaxies

open Glass Glass.Num Glass.Arrays Glass.Sampling NdArray MeasureTheory
open scoped ENNReal

/-! ## Specification -/

/-- The measure with constant density between neighbouring redshifts: the mean of the two values. -/
noncomputable def stepMeasure : List (ℝ × ℝ) → Measure ℝ
  | k :: k' :: ks => ENNReal.ofReal ((k.2 + k'.2) / 2) • volume.restrict (Set.Ico k.1 k'.1) +
      stepMeasure (k' :: ks)
  | _ => 0

/-- The distribution with that density. -/
noncomputable def nzLaw (ks : List (ℝ × ℝ)) : Measure ℝ :=
  ENNReal.ofReal (1 / trapezoid ks) • stepMeasure ks

/-- The distribution with density proportional to the linear interpolation of the values. -/
noncomputable def linearLaw (ks : List (ℝ × ℝ)) : Measure ℝ :=
  volume.withDensity fun z => ENNReal.ofReal (interp (some 0) (some 0) ks z / trapezoid ks)

/-- What is assumed of `rng.uniform(0, 1, size=n)`: an ideal source of numbers with the uniform
distribution of the unit interval. -/
def IdealUnit {σ : Type} [MeasurableSpace σ] (μ : Measure σ) (uniform : σ → ℕ → List ℝ × σ) : Prop :=
  Ideal μ (fun _ : Unit => volume.restrict (Set.Ico (0 : ℝ) 1)) fun s l => uniform s l.length

/-! ## One redshift -/

theorem measurable_interpIn : ∀ ks : List (ℝ × ℝ), Measurable (interpIn ks)
  | [] => measurable_const
  | [k] => measurable_const
  | k :: k' :: ks => by
    have : interpIn (k :: k' :: ks) = fun x =>
        if x < k'.1 then k.2 + (k'.2 - k.2) / (k'.1 - k.1) * (x - k.1)
        else interpIn (k' :: ks) x := by
      funext x
      rw [interpIn]
    rw [this]
    exact Measurable.ite measurableSet_Iio (by fun_prop) (measurable_interpIn (k' :: ks))

theorem measurable_interp (l r : Option ℝ) (ks : List (ℝ × ℝ)) : Measurable (interp l r ks) := by
  unfold interp
  rcases ks.head? with _ | a
  · exact measurable_const
  · rcases ks.getLast? with _ | b
    · exact measurable_const
    · exact Measurable.ite measurableSet_Iio measurable_const
        (Measurable.ite measurableSet_Ioi measurable_const (measurable_interpIn ks))

theorem measurable_inverseCdf (ks : List (ℝ × ℝ)) : Measurable (inverseCdf ks) :=
  measurable_interp _ _ _

/-- An increasing affine map of an interval. -/
theorem map_affine {a b p q : ℝ} (ha : 0 < a) :
    (volume.restrict (Set.Ico p q)).map (fun u => b + a * u) =
      ENNReal.ofReal (1 / a) • volume.restrict (Set.Ico (b + a * p) (b + a * q)) := by
  have hm : Measurable fun u : ℝ => b + a * u := by fun_prop
  refine Measure.ext fun A hA => ?_
  have hpre : (fun u : ℝ => b + a * u) ⁻¹' A ∩ Set.Ico p q =
      (fun u : ℝ => a * u) ⁻¹' ((fun u : ℝ => b + u) ⁻¹'
        (A ∩ Set.Ico (b + a * p) (b + a * q))) := by
    ext u
    simp only [Set.mem_inter_iff, Set.mem_preimage, Set.mem_Ico]
    refine and_congr Iff.rfl ?_
    rw [add_le_add_iff_left, add_lt_add_iff_left, mul_le_mul_iff_right₀ ha, mul_lt_mul_iff_right₀ ha]
  rw [Measure.map_apply hm hA, Measure.restrict_apply (hm hA), hpre,
    Real.volume_preimage_mul_left ha.ne', measure_preimage_add, Measure.smul_apply,
    Measure.restrict_apply hA, smul_eq_mul, abs_of_pos (inv_pos.2 ha), one_div]

/-- The cumulative integral of the remaining values, with the redshifts. -/
noncomputable def accumulate (T : ℝ) : ℝ → List (ℝ × ℝ) → List (ℝ × ℝ)
  | _, [] => []
  | c, [k] => [(c, k.1)]
  | c, k :: k' :: ks => (c, k.1) :: accumulate T (c + (k'.1 - k.1) * (k'.2 + k.2) / 2 / T) (k' :: ks)

theorem accumulate_cons (T c : ℝ) (k : ℝ × ℝ) (ks : List (ℝ × ℝ)) :
    ∃ l, accumulate T c (k :: ks) = (c, k.1) :: l := by
  rcases ks with _ | ⟨k', ks⟩
  · exact ⟨_, rfl⟩
  · exact ⟨_, rfl⟩

theorem trapezoid_nonneg' : ∀ {ks : List (ℝ × ℝ)}, ks.Pairwise (fun a b => a.1 < b.1) →
    (∀ k ∈ ks, 0 ≤ k.2) → 0 ≤ trapezoid ks
  | [], _, _ => le_rfl
  | [_], _, _ => le_rfl
  | k :: k' :: ks, hx, hy => by
    have h1 := (List.pairwise_cons.1 hx).1 k' (by simp)
    have h2 := hy k (by simp)
    have h3 := hy k' (by simp)
    have ih := trapezoid_nonneg' (List.pairwise_cons.1 hx).2
      fun m hm => hy m (List.mem_cons_of_mem _ hm)
    rw [trapezoid]
    have : 0 ≤ (k'.1 - k.1) * (k'.2 + k.2) := mul_nonneg (by linarith) (by linarith)
    linarith

/-- The law of the interpolated redshift for a uniform number in the range of the cumulative
integral. -/
theorem map_accumulate {T : ℝ} (hT : 0 < T) : ∀ {ks : List (ℝ × ℝ)} (c : ℝ),
    ks.Pairwise (fun a b => a.1 < b.1) → (∀ k ∈ ks, 0 ≤ k.2) →
    (volume.restrict (Set.Ico c (c + trapezoid ks / T))).map (interpIn (accumulate T c ks)) =
      ENNReal.ofReal (1 / T) • stepMeasure ks
  | [], c, _, _ => by simp [trapezoid, stepMeasure]
  | [k], c, _, _ => by simp [trapezoid, stepMeasure]
  | k :: k' :: ks, c, hx, hy => by
    have hx' := List.pairwise_cons.1 hx
    have h1 := hx'.1 k' (by simp)
    have h2 := hy k (by simp)
    have h3 := hy k' (by simp)
    have hy' : ∀ m ∈ k' :: ks, 0 ≤ m.2 := fun m hm => hy m (List.mem_cons_of_mem _ hm)
    set d := (k'.1 - k.1) * (k'.2 + k.2) / 2 / T with hd
    have hd0 : 0 ≤ d := by
      rw [hd]
      have : 0 ≤ (k'.1 - k.1) * (k'.2 + k.2) := mul_nonneg (by linarith) (by linarith)
      positivity
    have ih := map_accumulate hT (ks := k' :: ks) (c + d) hx'.2 hy'
    have ht := trapezoid_nonneg' hx'.2 hy'
    have htot : c + trapezoid (k :: k' :: ks) / T = c + d + trapezoid (k' :: ks) / T := by
      rw [trapezoid, hd]; ring
    have hacc : accumulate T c (k :: k' :: ks) = (c, k.1) :: accumulate T (c + d) (k' :: ks) := rfl
    obtain ⟨l, hl⟩ := accumulate_cons T (c + d) k' ks
    have hsplit : Set.Ico c (c + trapezoid (k :: k' :: ks) / T) =
        Set.Ico c (c + d) ∪ Set.Ico (c + d) (c + d + trapezoid (k' :: ks) / T) := by
      rw [htot, Set.Ico_union_Ico_eq_Ico (by linarith)]
      have : 0 ≤ trapezoid (k' :: ks) / T := by positivity
      linarith
    have hdisj : Disjoint (Set.Ico c (c + d))
        (Set.Ico (c + d) (c + d + trapezoid (k' :: ks) / T)) := by
      rw [Set.disjoint_left]
      rintro x ⟨-, h⟩ ⟨h', -⟩
      linarith
    rw [hsplit, Measure.restrict_union hdisj measurableSet_Ico,
      Measure.map_add _ _ (measurable_interpIn _), stepMeasure, smul_add]
    congr 1
    · have hae : (interpIn (accumulate T c (k :: k' :: ks))) =ᵐ[volume.restrict (Set.Ico c (c + d))]
          fun u => (k.1 - (k'.1 - k.1) / d * c) + (k'.1 - k.1) / d * u := by
        filter_upwards [ae_restrict_mem measurableSet_Ico] with u hu
        rw [hacc, hl, interpIn_cons_lt (by simpa using hu.2)]
        simp only [add_sub_cancel_left]
        ring
      rw [Measure.map_congr hae]
      rcases hd0.eq_or_lt with h0 | h0
      · have hs : k.2 + k'.2 = 0 := by
          have : (k'.1 - k.1) * (k'.2 + k.2) = 0 := by
            have h4 := h0.symm
            rw [hd, div_div, div_eq_zero_iff] at h4
            rcases h4 with h4 | h4
            · exact h4
            · exact absurd h4 (by positivity)
          rcases mul_eq_zero.1 this with h | h
          · linarith
          · linarith
        rw [← h0, add_zero, Set.Ico_self, Measure.restrict_empty, Measure.map_zero, hs]
        simp
      · have hz : 0 < k'.1 - k.1 := by linarith
        rw [map_affine (div_pos hz h0), smul_smul, ← ENNReal.ofReal_mul (by positivity)]
        have e1 : k.1 - (k'.1 - k.1) / d * c + (k'.1 - k.1) / d * c = k.1 := by ring
        have e2 : k.1 - (k'.1 - k.1) / d * c + (k'.1 - k.1) / d * (c + d) = k'.1 := by
          field_simp
          ring
        rw [e1, e2]
        congr 2
        rw [one_div_div, hd]
        field_simp
        ring
    · rw [← ih]
      refine Measure.map_congr ?_
      filter_upwards [ae_restrict_mem measurableSet_Ico] with u hu
      rw [hacc, hl, interpIn_cons_ge (by simpa using hu.1)]

/-- The knots of the model. -/
theorem accumulate_eq (T : ℝ) : ∀ (ks : List (ℝ × ℝ)) (c : ℝ), accumulate T c ks =
    (ks.mapIdx fun i k => (c + trapezoid (ks.take (i + 1)) / T, k.1))
  | [], _ => rfl
  | [k], c => by simp [accumulate, trapezoid]
  | k :: k' :: ks, c => by
    rw [accumulate, accumulate_eq T (k' :: ks)]
    refine List.ext_getElem (by simp) fun i h1 h2 => ?_
    rcases i with _ | i
    · simp [trapezoid]
    · simp only [List.getElem_mapIdx, List.getElem_cons_succ, List.take_succ_cons, trapezoid]
      refine Prod.ext ?_ rfl
      simp only
      ring

/-- **C111.** For a uniform number, the redshift has the density that is constant between
neighbouring redshifts, with the mean of the two values, divided by the integral. -/
theorem inverse_cdf_law {ks : List (ℝ × ℝ)} (h : IsDistribution ks) :
    (volume.restrict (Set.Ico (0 : ℝ) 1)).map (inverseCdf ks) = nzLaw ks := by
  have hne : ks ≠ [] := by
    rintro rfl
    have := h.two_le
    simp at this
  have hK : List.zip (cdf ks) (ks.map Prod.fst) = accumulate (trapezoid ks) 0 ks := by
    rw [cdf_knots hne, accumulate_eq]
    refine List.ext_getElem (by simp [cumulativeKnots]) fun i h1 h2 => ?_
    simp [cumulativeKnots, cumulative]
  have key := map_accumulate h.2.2 0 h.1 h.2.1
  rw [zero_add, div_self h.2.2.ne'] at key
  rw [nzLaw, ← key]
  refine Measure.map_congr ?_
  filter_upwards [ae_restrict_mem measurableSet_Ico] with u hu
  obtain ⟨f1, f2, f3, f4⟩ := cumulativeKnots_facts h
  have hsw : accumulate (trapezoid ks) 0 ks = (cumulativeKnots ks).map Prod.swap := by
    rw [← hK, cdf_knots hne]
  have hKne : cumulativeKnots ks ≠ [] := by
    intro e
    have := congrArg List.length e
    simp [cumulativeKnots] at this
    exact hne this
  have a := List.head?_eq_some_head hKne
  have b := List.getLast?_eq_some_getLast hKne
  have a' := f3 _ a
  have b' := f4 _ b
  unfold inverseCdf interp
  rw [hK, hsw, List.head?_map, List.getLast?_map, a, b]
  simp only [Option.map_some, Prod.fst_swap]
  rw [if_neg (by rw [a']; exact not_lt.2 hu.1), if_neg (by rw [b']; exact not_lt.2 hu.2.le)]

instance {ks : List (ℝ × ℝ)} : SFinite (nzLaw ks) := by
  unfold nzLaw
  have : ∀ ks : List (ℝ × ℝ), SFinite (stepMeasure ks) := by
    intro ks
    induction ks with
    | nil => unfold stepMeasure; infer_instance
    | cons k ks ih =>
      rcases ks with _ | ⟨k', ks⟩
      · unfold stepMeasure; infer_instance
      · unfold stepMeasure; infer_instance
  infer_instance

theorem nzLaw_probability {ks : List (ℝ × ℝ)} (h : IsDistribution ks) :
    IsProbabilityMeasure (nzLaw ks) := by
  rw [← inverse_cdf_law h]
  exact Measure.isProbabilityMeasure_map (measurable_inverseCdf ks).aemeasurable

/-! ## Shares of the grid intervals -/

theorem stepMeasure_before : ∀ {ks : List (ℝ × ℝ)} {B : Set ℝ}, MeasurableSet B →
    (∀ k ∈ ks, ∀ x ∈ B, x < k.1) → stepMeasure ks B = 0
  | [], _, _, _ => by simp [stepMeasure]
  | [_], _, _, _ => by simp [stepMeasure]
  | k :: k' :: ks, B, hB, h => by
    rw [stepMeasure, Measure.add_apply, stepMeasure_before hB fun m hm =>
      h m (List.mem_cons_of_mem _ hm), Measure.smul_apply, Measure.restrict_apply hB]
    have : B ∩ Set.Ico k.1 k'.1 = ∅ := by
      ext x
      simp only [Set.mem_inter_iff, Set.mem_Ico, Set.mem_empty_iff_false, iff_false]
      rintro ⟨hx, h1, -⟩
      exact absurd (h k (by simp) x hx) (not_lt.2 h1)
    rw [this]
    simp

theorem stepMeasure_cell : ∀ {l r : List (ℝ × ℝ)} {k k' : ℝ × ℝ},
    (l ++ k :: k' :: r).Pairwise (fun a b => a.1 < b.1) →
    stepMeasure (l ++ k :: k' :: r) (Set.Ico k.1 k'.1) =
      ENNReal.ofReal ((k.2 + k'.2) / 2) * ENNReal.ofReal (k'.1 - k.1)
  | [], r, k, k', h => by
    have h' := List.pairwise_cons.1 h
    rw [List.nil_append, stepMeasure, Measure.add_apply, Measure.smul_apply,
      Measure.restrict_apply measurableSet_Ico, Set.inter_self, Real.volume_Ico, smul_eq_mul]
    have : stepMeasure (k' :: r) (Set.Ico k.1 k'.1) = 0 := by
      refine stepMeasure_before measurableSet_Ico fun m hm x hx => lt_of_lt_of_le hx.2 ?_
      rcases List.mem_cons.1 hm with rfl | hm
      · exact le_rfl
      · exact ((List.pairwise_cons.1 h'.2).1 m hm).le
    rw [this, add_zero]
  | [m], r, k, k', h => by
    have ih := stepMeasure_cell (l := []) (List.pairwise_cons.1 h).2
    rw [List.nil_append] at ih
    rw [List.singleton_append, stepMeasure, Measure.add_apply, ih, Measure.smul_apply,
      Measure.restrict_apply measurableSet_Ico]
    have : Set.Ico k.1 k'.1 ∩ Set.Ico m.1 k.1 = ∅ := by
      ext x
      simp only [Set.mem_inter_iff, Set.mem_Ico, Set.mem_empty_iff_false, iff_false]
      rintro ⟨⟨h1, -⟩, -, h2⟩
      linarith
    rw [this]
    simp
  | m :: m' :: l, r, k, k', h => by
    have h' := List.pairwise_cons.1 h
    have ih := stepMeasure_cell (l := m' :: l) h'.2
    rw [List.cons_append] at ih
    rw [List.cons_append, List.cons_append, stepMeasure, Measure.add_apply, ih,
      Measure.smul_apply, Measure.restrict_apply measurableSet_Ico]
    have hm : m'.1 < k.1 := (List.pairwise_cons.1 h'.2).1 k (by simp)
    have : Set.Ico k.1 k'.1 ∩ Set.Ico m.1 m'.1 = ∅ := by
      ext x
      simp only [Set.mem_inter_iff, Set.mem_Ico, Set.mem_empty_iff_false, iff_false]
      rintro ⟨⟨h1, -⟩, -, h2⟩
      linarith
    rw [this]
    simp

/-- Between two neighbouring knots. -/
theorem interpIn_cell : ∀ {l r : List (ℝ × ℝ)} {k k' : ℝ × ℝ} {x : ℝ},
    (l ++ k :: k' :: r).Pairwise (fun a b => a.1 < b.1) → k.1 ≤ x → x < k'.1 →
    interpIn (l ++ k :: k' :: r) x = k.2 + (k'.2 - k.2) / (k'.1 - k.1) * (x - k.1)
  | [], r, k, k', x, _, _, h2 => interpIn_cons_lt h2
  | [m], r, k, k', x, h, h1, h2 => by
    rw [List.singleton_append, interpIn_cons_ge h1]
    exact interpIn_cell (l := []) (List.pairwise_cons.1 h).2 h1 h2
  | m :: m' :: l, r, k, k', x, h, h1, h2 => by
    have h' := List.pairwise_cons.1 h
    have hm : m'.1 < k.1 := (List.pairwise_cons.1 h'.2).1 k (by simp)
    rw [List.cons_append, List.cons_append, interpIn_cons_ge (by linarith)]
    exact interpIn_cell (l := m' :: l) h'.2 h1 h2

/-- **C111.** The probability of an interval between neighbouring redshifts is the integral of the
linear interpolation over it, divided by the whole integral. -/
theorem nz_law_cells_partial {l r : List (ℝ × ℝ)} {k k' : ℝ × ℝ}
    (h : IsDistribution (l ++ k :: k' :: r)) :
    nzLaw (l ++ k :: k' :: r) (Set.Ico k.1 k'.1) =
      linearLaw (l ++ k :: k' :: r) (Set.Ico k.1 k'.1) := by
  have hk : k.1 < k'.1 :=
    (List.pairwise_cons.1 (List.pairwise_append.1 h.1).2.1).1 k' (by simp)
  have hy := h.2.1 k (by simp)
  have hy' := h.2.1 k' (by simp)
  have hT := h.2.2
  set ks := l ++ k :: k' :: r with hks
  have hd : 0 < k'.1 - k.1 := by linarith
  have hne : ks ≠ [] := by rw [hks]; simp
  have hin : ∀ x ∈ Set.Ico k.1 k'.1, interp (some 0) (some 0) ks x =
      k.2 + (k'.2 - k.2) / (k'.1 - k.1) * (x - k.1) := by
    intro x hx
    unfold interp
    rw [List.head?_eq_some_head hne, List.getLast?_eq_some_getLast hne]
    simp only
    have h1 : (ks.head hne).1 ≤ x := by
      have hm : k ∈ ks := by rw [hks]; simp
      refine le_trans ?_ hx.1
      obtain ⟨a, t, e⟩ := List.exists_cons_of_ne_nil hne
      have hp := h.1
      simp only [e] at hm hp ⊢
      rcases List.mem_cons.1 hm with rfl | hm
      · exact le_rfl
      · exact ((List.pairwise_cons.1 hp).1 _ hm).le
    have h2 : x ≤ (ks.getLast hne).1 := by
      refine hx.2.le.trans ?_
      have hp := (List.pairwise_append.1 h.1).2.1
      have hp' := (List.pairwise_cons.1 hp).2
      have : ks.getLast hne = (k' :: r).getLast (by simp) := by
        simp only [hks]
        rw [List.getLast_append_of_ne_nil _ (by simp), List.getLast_cons (by simp)]
      rw [this]
      rcases r.eq_nil_or_concat with rfl | ⟨r', b, rfl⟩
      · simp
      · rw [List.getLast_cons (by simp)]
        simp only [List.concat_eq_append, List.getLast_append_singleton]
        exact ((List.pairwise_cons.1 hp').1 b (by simp)).le
    rw [if_neg (not_lt.2 h1), if_neg (not_lt.2 h2), hks, interpIn_cell h.1 hx.1 hx.2]
  rw [nzLaw, Measure.smul_apply, hks, stepMeasure_cell h.1, ← hks, linearLaw,
    withDensity_apply _ measurableSet_Ico, smul_eq_mul]
  have h1 : ∫⁻ x in Set.Ico k.1 k'.1, ENNReal.ofReal (interp (some 0) (some 0) ks x / trapezoid ks) =
      ∫⁻ x in Set.Ico k.1 k'.1, ENNReal.ofReal
        ((k.2 + (k'.2 - k.2) / (k'.1 - k.1) * (x - k.1)) / trapezoid ks) :=
    setLIntegral_congr_fun measurableSet_Ico fun x hx => by rw [hin x hx]
  rw [h1, ← ofReal_integral_eq_lintegral_ofReal]
  · rw [← ENNReal.ofReal_mul (by linarith), ← ENNReal.ofReal_mul (by positivity),
      integral_Ico_eq_integral_Ioc, ← intervalIntegral.integral_of_le hk.le]
    congr 1
    have : (fun x : ℝ => (k.2 + (k'.2 - k.2) / (k'.1 - k.1) * (x - k.1)) / trapezoid ks) =
        fun x => (k.2 - (k'.2 - k.2) / (k'.1 - k.1) * k.1) / trapezoid ks +
          (k'.2 - k.2) / (k'.1 - k.1) / trapezoid ks * x := by
      funext x
      field_simp
      ring
    rw [this, intervalIntegral.integral_add (by simp) (Continuous.intervalIntegrable (by fun_prop) _ _),
      intervalIntegral.integral_const, intervalIntegral.integral_const_mul, integral_id,
      smul_eq_mul]
    field_simp
    ring
  · exact (ContinuousOn.integrableOn_Icc (by fun_prop)).mono_set Set.Ico_subset_Icc_self
  · filter_upwards [ae_restrict_mem measurableSet_Ico] with x hx
    have e : k.2 + (k'.2 - k.2) / (k'.1 - k.1) * (x - k.1) =
        (k.2 * (k'.1 - x) + k'.2 * (x - k.1)) / (k'.1 - k.1) := by
      field_simp
      ring
    have : 0 ≤ k.2 * (k'.1 - x) + k'.2 * (x - k.1) :=
      add_nonneg (mul_nonneg hy (by linarith [hx.2])) (mul_nonneg hy' (by linarith [hx.1]))
    simp only [Pi.zero_apply]
    rw [e]
    positivity

/-- **C111** fails between the grid points: for two grid points with values 0 and 1, half of the
redshifts are below 1/2, a quarter would be expected. -/
theorem nz_law_not_linear : IsDistribution [(0, 0), (1, 1)] ∧
    nzLaw [(0, 0), (1, 1)] (Set.Ico 0 (1 / 2)) = 1 / 2 ∧
    linearLaw [(0, 0), (1, 1)] (Set.Ico 0 (1 / 2)) = 1 / 4 := by
  have hT : trapezoid [((0 : ℝ), (0 : ℝ)), (1, 1)] = 1 / 2 := by norm_num [trapezoid]
  refine ⟨⟨by simp, by simp, by rw [hT]; norm_num⟩, ?_, ?_⟩
  · rw [nzLaw, hT, stepMeasure, Measure.smul_apply, Measure.add_apply, Measure.smul_apply,
      Measure.restrict_apply measurableSet_Ico]
    have : Set.Ico (0 : ℝ) (1 / 2) ∩ Set.Ico 0 1 = Set.Ico 0 (1 / 2) :=
      Set.inter_eq_left.2 (Set.Ico_subset_Ico le_rfl (by norm_num))
    simp only [stepMeasure, this, Real.volume_Ico, smul_eq_mul]
    simp only [Measure.coe_zero, Pi.zero_apply, add_zero]
    rw [← ENNReal.ofReal_mul (by norm_num), ← ENNReal.ofReal_mul (by norm_num)]
    norm_num
    rw [ENNReal.ofReal_div_of_pos (by norm_num)]
    simp
  · rw [linearLaw, withDensity_apply _ measurableSet_Ico]
    have h1 : ∫⁻ x in Set.Ico (0 : ℝ) (1 / 2), ENNReal.ofReal
        (interp (some 0) (some 0) [(0, 0), (1, 1)] x / trapezoid [(0, 0), (1, 1)]) =
        ∫⁻ x in Set.Ico (0 : ℝ) (1 / 2), ENNReal.ofReal (2 * x) :=
      setLIntegral_congr_fun measurableSet_Ico fun x hx => by
        rw [hT]
        have h2 := hx.1
        have h3 := hx.2
        simp only [interp, List.head?_cons, List.getLast?_cons_cons, List.getLast?_singleton]
        rw [if_neg (not_lt.2 h2), if_neg (by linarith), interpIn_cons_lt (by simp; linarith)]
        congr 1
        ring
    rw [h1, ← ofReal_integral_eq_lintegral_ofReal]
    · rw [integral_Ico_eq_integral_Ioc, ← intervalIntegral.integral_of_le (by norm_num),
        intervalIntegral.integral_const_mul, integral_id]
      norm_num
      rw [ENNReal.ofReal_div_of_pos (by norm_num)]
      simp
    · exact (ContinuousOn.integrableOn_Icc (by fun_prop)).mono_set Set.Ico_subset_Icc_self
    · filter_upwards [ae_restrict_mem measurableSet_Ico] with x hx
      have := hx.1
      simp only [Pi.zero_apply]
      linarith

/-! ## Many redshifts -/

section Joint

variable {σ : Type} [MeasurableSpace σ]

theorem inBox_map {α β : Type} {f : α → β} : ∀ {x : List α} {As : List (Set β)},
    InBox (x.map f) As ↔ InBox x (As.map fun A => f ⁻¹' A)
  | [], [] => by simp
  | [], _ :: _ => by simp
  | _ :: _, [] => by simp
  | a :: x, A :: As => by simp [inBox_map]

theorem inBox_append {α : Type} : ∀ {x y : List α} {As : List (Set α)}, x.length ≤ As.length →
    (InBox (x ++ y) As ↔ InBox x (As.take x.length) ∧ InBox y (As.drop x.length))
  | [], y, As, _ => by simp
  | a :: x, y, [], h => by simp at h
  | a :: x, y, A :: As, h => by
    simp [inBox_append (x := x) (As := As) (by simpa using h), and_assoc]

/-- One request. -/
theorem draw_law {μ : Measure σ} [IsProbabilityMeasure μ] {uniform : σ → ℕ → List ℝ × σ}
    (hi : IdealUnit μ uniform) {w : List (ℝ × ℝ)} (hw : IsDistribution w) {As : List (Set ℝ)}
    (hA : ∀ A ∈ As, MeasurableSet A) {F : Set σ} (hF : MeasurableSet F) :
    MeasurableSet {s | InBox ((uniform s As.length).1.map (inverseCdf w)) As ∧
        (uniform s As.length).2 ∈ F} ∧
      μ {s | InBox ((uniform s As.length).1.map (inverseCdf w)) As ∧
        (uniform s As.length).2 ∈ F} = (As.map fun A => nzLaw w A).prod * μ F := by
  have h := Ideal.box hi (θs := List.replicate As.length ())
    (As := As.map fun A => inverseCdf w ⁻¹' A) (by simp)
    (fun B hB => by
      obtain ⟨A, hA', rfl⟩ := List.mem_map.1 hB
      exact measurable_inverseCdf w (hA A hA')) hF
  simp only [List.length_replicate] at h
  simp only [inBox_map]
  refine ⟨h.1, h.2.trans ?_⟩
  congr 1
  have : ∀ l : List (Set ℝ), (∀ A ∈ l, MeasurableSet A) →
      (List.zipWith (fun (_ : Unit) A => volume.restrict (Set.Ico (0 : ℝ) 1) A)
        (List.replicate l.length ()) (l.map fun A => inverseCdf w ⁻¹' A)) =
      l.map fun A => nzLaw w A := by
    intro l
    induction l with
    | nil => intro _; rfl
    | cons A l ih =>
      intro h
      rw [List.length_cons, List.replicate_succ, List.map_cons, List.zipWith_cons_cons,
        ih fun B hB => h B (List.mem_cons_of_mem _ hB), List.map_cons, ← inverse_cdf_law hw,
        Measure.map_apply (measurable_inverseCdf w) (h A (by simp))]
  rw [this As hA]

/-- The draws of successive requests, each with its own distribution. -/
noncomputable def requests (uniform : σ → ℕ → List ℝ × σ) (ds : List (List (ℝ × ℝ) × ℕ)) (s : σ) :
    List ℝ :=
  (List.zipWith (fun d us => us.map (inverseCdf d.1)) ds
    (streams uniform s (ds.map Prod.snd)).1).flatten

/-- Successive requests: all redshifts are independent, each with the distribution of its
request. -/
theorem requests_law {μ : Measure σ} [IsProbabilityMeasure μ] {uniform : σ → ℕ → List ℝ × σ}
    (hu : UniformLaw uniform) (hi : IdealUnit μ uniform) :
    ∀ {ds : List (List (ℝ × ℝ) × ℕ)}, (∀ d ∈ ds, IsDistribution d.1) → ∀ {As : List (Set ℝ)},
      As.length = (ds.map Prod.snd).sum → (∀ A ∈ As, MeasurableSet A) →
      ∀ {F : Set σ}, MeasurableSet F →
      MeasurableSet {s | InBox (requests uniform ds s) As ∧
          (streams uniform s (ds.map Prod.snd)).2 ∈ F} ∧
        μ {s | InBox (requests uniform ds s) As ∧
          (streams uniform s (ds.map Prod.snd)).2 ∈ F} =
          (List.zipWith (fun w A => nzLaw w A)
            (ds.flatMap fun d => List.replicate d.2 d.1) As).prod * μ F
  | [], _, As, hl, _, F, hF => by
    obtain rfl : As = [] := List.eq_nil_of_length_eq_zero (by simpa using hl)
    simp [requests, streams, hF]
  | d :: ds, hd, As, hl, hA, F, hF => by
    rw [List.map_cons, List.sum_cons] at hl
    have hA1 : ∀ A ∈ As.take d.2, MeasurableSet A := fun A h => hA A (List.mem_of_mem_take h)
    have hA2 : ∀ A ∈ As.drop d.2, MeasurableSet A := fun A h => hA A (List.mem_of_mem_drop h)
    have hl1 : (As.take d.2).length = d.2 := by rw [List.length_take]; omega
    obtain ⟨hm, hμ⟩ := requests_law hu hi (ds := ds) (fun e he => hd e (List.mem_cons_of_mem _ he))
      (As := As.drop d.2) (by rw [List.length_drop]; omega) hA2 hF
    obtain ⟨hm', hμ'⟩ := draw_law hi (hd d (by simp)) hA1 hm
    have e : {s | InBox (requests uniform (d :: ds) s) As ∧
        (streams uniform s ((d :: ds).map Prod.snd)).2 ∈ F} =
        {s | InBox ((uniform s (As.take d.2).length).1.map (inverseCdf d.1)) (As.take d.2) ∧
          (uniform s (As.take d.2).length).2 ∈ {s | InBox (requests uniform ds s) (As.drop d.2) ∧
            (streams uniform s (ds.map Prod.snd)).2 ∈ F}} := by
      ext s
      rw [hl1]
      have hr : requests uniform (d :: ds) s = (uniform s d.2).1.map (inverseCdf d.1) ++
          requests uniform ds (uniform s d.2).2 := rfl
      have hs : (streams uniform s ((d :: ds).map Prod.snd)).2 =
          (streams uniform (uniform s d.2).2 (ds.map Prod.snd)).2 := rfl
      have hlen : ((uniform s d.2).1.map (inverseCdf d.1)).length = d.2 := by
        rw [List.length_map, (hu s d.2).1]
      simp only [Set.mem_ofPred_eq]
      rw [hr, hs, inBox_append (by rw [hlen]; omega), hlen, and_assoc]
    rw [e]
    refine ⟨hm', hμ'.trans ?_⟩
    rw [hμ, ← mul_assoc]
    congr 1
    conv_rhs => rw [← List.take_append_drop d.2 As]
    rw [List.flatMap_cons, List.zipWith_append (by simp [hl1]), List.prod_append]
    congr 1
    have : ∀ l : List (Set ℝ), l.map (fun A => nzLaw d.1 A) =
        List.zipWith (fun w A => nzLaw w A) (List.replicate l.length d.1) l := by
      intro l
      induction l with
      | nil => rfl
      | cons A l ih => rw [List.map_cons, ih, List.length_cons, List.replicate_succ,
          List.zipWith_cons_cons]
    rw [this, hl1]

/-- **C111.** All redshifts of `redshifts_from_nz` are independent of each other and of the later
state of the generator, and each has the distribution of its own population: `As` are any sets, one
for each redshift. -/
theorem redshifts_from_nz_law_partial {μ : Measure σ} [IsProbabilityMeasure μ]
    {uniform : σ → ℕ → List ℝ × σ} (hu : UniformLaw uniform) (hi : IdealUnit μ uniform)
    (junk : ℕ → ℝ) (count : NdArray ℕ) (z nz : NdArray ℝ) {zs ns : List ℕ} {m : ℕ}
    (hz : z.shape = zs ++ [m]) (hnz : nz.shape = ns ++ [m]) {dims : List ℕ}
    (hd : IsBroadcast [count.shape, zs, ns] dims)
    (hdist : ∀ idx ∈ indices dims, IsDistribution (population z nz zs ns m idx))
    {As : List (Set ℝ)} (hA : ∀ A ∈ As, MeasurableSet A)
    (hl : As.length = ((indices dims).map fun idx =>
      count.get (broadcastIndex count.shape idx)).sum) {F : Set σ} (hF : MeasurableSet F) :
    μ {s | ∃ r s', redshiftsFromNz uniform junk s count z nz = .ok (r, s') ∧ InBox r As ∧ s' ∈ F} =
      (List.zipWith (fun w A => nzLaw w A) ((indices dims).flatMap fun idx =>
        List.replicate (count.get (broadcastIndex count.shape idx)) (population z nz zs ns m idx))
        As).prod * μ F := by
  set ds := (indices dims).map fun idx =>
    (population z nz zs ns m idx, count.get (broadcastIndex count.shape idx)) with hds
  have h1 : ds.map Prod.snd = (indices dims).map fun idx =>
      count.get (broadcastIndex count.shape idx) := by
    rw [hds, List.map_map]; rfl
  have h2 := (requests_law hu hi (ds := ds)
    (fun d hd' => by
      obtain ⟨idx, hidx, rfl⟩ := List.mem_map.1 hd'
      exact hdist idx hidx) (by rw [h1]; exact hl) hA hF).2
  have h3 : (ds.flatMap fun d => List.replicate d.2 d.1) = (indices dims).flatMap fun idx =>
      List.replicate (count.get (broadcastIndex count.shape idx)) (population z nz zs ns m idx) := by
    rw [hds, List.flatMap_map]
  rw [h3] at h2
  rw [← h2]
  congr 1
  ext s
  obtain ⟨runs, us, s', hr, hs, hruns, -⟩ :=
    redshifts_from_nz_spec hu junk s count z nz hz hnz hd hdist
  have hq : runs.flatten = requests uniform ds s := by
    unfold requests
    rw [hruns, h1, ← hs, hds, List.zipWith_map_left]
  simp only [Set.mem_ofPred_eq]
  rw [hr, hq, h1, ← hs]
  simp

/-- **C111.** All redshifts of `redshifts` are independent, with the distribution of the window. -/
theorem redshifts_law_partial {μ : Measure σ} [IsProbabilityMeasure μ]
    {uniform : σ → ℕ → List ℝ × σ} (hu : UniformLaw uniform) (hi : IdealUnit μ uniform)
    (junk : ℕ → ℝ) (n : NdArray ℕ) {w : List (ℝ × ℝ)} (hw : IsDistribution w)
    {As : List (Set ℝ)} (hA : ∀ A ∈ As, MeasurableSet A) (hl : As.length = n.ravel.sum) :
    μ {s | ∃ r s', redshifts uniform junk s n w = .ok (r, s') ∧ InBox r As} =
      (As.map fun A => nzLaw w A).prod := by
  set ds := n.ravel.map fun c => (w, c) with hds
  have h1 : ds.map Prod.snd = n.ravel := by
    rw [hds, List.map_map]; exact List.map_id' n.ravel
  have h2 := (requests_law hu hi (ds := ds)
    (fun d hd' => by
      obtain ⟨c, -, rfl⟩ := List.mem_map.1 hd'
      exact hw) (by rw [h1]; exact hl) hA MeasurableSet.univ).2
  have h3 : (ds.flatMap fun d => List.replicate d.2 d.1) = List.replicate As.length w := by
    rw [hl, hds, List.flatMap_map]
    generalize n.ravel = l
    induction l with
    | nil => rfl
    | cons c l ih => rw [List.flatMap_cons, ih, List.sum_cons, List.replicate_add]
  have h4 : ∀ l : List (Set ℝ),
      List.zipWith (fun w A => nzLaw w A) (List.replicate l.length w) l =
        l.map (fun A => nzLaw w A) := by
    intro l
    induction l with
    | nil => rfl
    | cons A l ih => rw [List.map_cons, ← ih, List.length_cons, List.replicate_succ,
        List.zipWith_cons_cons]
  rw [h3, h4, measure_univ, mul_one] at h2
  rw [← h2]
  congr 1
  ext s
  obtain ⟨a, ha⟩ : ∃ a, w.head? = some a := by
    rcases w with _ | ⟨a, w⟩
    · have := hw.2.2
      simp [trapezoid] at this
    · exact ⟨a, rfl⟩
  obtain ⟨b, hb⟩ : ∃ b, w.getLast? = some b := by
    rcases h : w.getLast? with _ | b
    · rw [List.getLast?_eq_none_iff.1 h] at ha
      simp at ha
    · exact ⟨b, rfl⟩
  obtain ⟨r, s', hr, -, -, he⟩ := redshifts_spec hu junk s n hw ha hb
  have hq : r = requests uniform ds s := by
    unfold requests
    rw [he, h1, hds, List.zipWith_map_left]
    have : ∀ (l : List ℕ) (us : List (List ℝ)), l.length = us.length →
        us.flatten.map (inverseCdf w) =
          (List.zipWith (fun _ us => us.map (inverseCdf w)) l us).flatten := by
      intro l
      induction l with
      | nil => intro us h; rw [List.eq_nil_of_length_eq_zero h.symm]; rfl
      | cons c l ih =>
        intro us h
        rcases us with _ | ⟨u, us⟩
        · simp at h
        · rw [List.flatten_cons, List.map_append, ih us (by simpa using h)]
          rfl
    exact this _ _ (streams_length _ _ _).symm
  simp only [Set.mem_ofPred_eq, Set.mem_univ, and_true]
  rw [hr, hq]
  simp

/-- Positions may be moved from the values to the sets. -/
theorem inBox_perm {α : Type} [Inhabited α] {l p q : List ℕ} (hp : IsArgsort l p)
    (hq : IsArgsort p q) {x : List α} {As : List (Set α)} (hx : x.length = l.length)
    (hA : As.length = l.length) :
    InBox (q.map fun i => x[i]!) As ↔ InBox x (p.map fun i => As.getD i Set.univ) := by
  obtain ⟨hql, hqp, hinv⟩ := argsort_argsort hp hq
  have hpl : p.length = l.length := by simpa using hp.1.length_eq
  have hplt : ∀ j (h : j < p.length), p[j] < l.length := fun j h => by
    simpa using hp.1.subset (List.getElem_mem h)
  have hqlt : ∀ j (h : j < q.length), q[j] < l.length := fun j h => by
    simpa using hqp.subset (List.getElem_mem h)
  have h1 : ∀ i (h : i < q.length), p[q[i]]'(by rw [hpl]; exact hqlt i h) = i := by
    intro i h
    have := congrArg (fun l : List ℕ => l[i]?) hinv
    simp only [List.getElem?_map, List.getElem?_eq_getElem h, Option.map_some,
      List.getElem?_range (hql ▸ h), Option.some.injEq] at this
    rwa [getElem!_pos p _ (by rw [hpl]; exact hqlt i h)] at this
  have hnd : p.Nodup := hp.1.nodup_iff.2 List.nodup_range
  have h2 : ∀ j (h : j < p.length), q[p[j]]'(by rw [hql]; exact hplt j h) = j := by
    intro j h
    have := h1 p[j] (by rw [hql]; exact hplt j h)
    exact (List.Nodup.getElem_inj_iff hnd).1 this
  unfold InBox
  rw [List.forall₂_iff_get, List.forall₂_iff_get]
  simp only [List.length_map, List.get_eq_getElem, List.getElem_map]
  constructor
  · rintro ⟨-, h⟩
    refine ⟨by omega, fun j h3 h4 => ?_⟩
    have h5 := hplt j h4
    have := h p[j] (by omega) (by omega)
    simp only [h2 j h4] at this
    rw [getElem!_pos x j h3] at this
    rwa [getD_get (by omega)]
  · rintro ⟨-, h⟩
    refine ⟨by omega, fun i h3 h4 => ?_⟩
    have h5 := hqlt i h3
    have := h q[i] (by omega) (by omega)
    simp only [h1 i h3] at this
    rw [getD_get h4] at this
    rwa [getElem!_pos x _ (by omega)]

/-- **C112.** The redshifts of the objects of a catalogue are independent, and the redshift of each
object has the distribution of its bin, for every way of sorting equal values. -/
theorem redshifts_from_bins_law {α : Type} [LinearOrder α] [Inhabited α] {μ : Measure σ}
    [IsProbabilityMeasure μ] {uniform : σ → ℕ → List ℝ × σ} (hu : UniformLaw uniform)
    (hi : IdealUnit μ uniform) {argsort : List ℕ → List ℕ} (ha : ∀ l, IsArgsort l (argsort l))
    (bins : NdArray α) {n : ℕ} (hn : bins.shape = [n]) (h0 : 0 < n) {z : List ℝ}
    {dict : List (α × List ℝ)} (hk : (dict.map Prod.fst).Nodup) {nzOf : α → List ℝ}
    (hnz : ∀ x ∈ bins.ravel, (x, nzOf x) ∈ dict ∧ (nzOf x).length = z.length ∧
      IsDistribution (z.zip (nzOf x)))
    {As : List (Set ℝ)} (hA : ∀ A ∈ As, MeasurableSet A) (hl : As.length = n)
    {F : Set σ} (hF : MeasurableSet F) :
    μ {s | ∃ (r : NdArray ℝ) (s' : σ), redshiftsFromBins uniform argsort s bins z dict = .ok (r, s') ∧
        InBox r.ravel As ∧ s' ∈ F} =
      (List.zipWith (fun x A => nzLaw (z.zip (nzOf x)) A) bins.ravel As).prod * μ F := by
  set labels := uniqueLabels bins.ravel with hlab
  obtain ⟨hls, hlm⟩ := uniqueLabels_facts bins.ravel
  rw [← hlab] at hls hlm
  have hbl : bins.ravel.length = n := by rw [ravel_one _ hn]; simp
  have hz : z ≠ [] := by
    rintro rfl
    have hx : bins.ravel[0]'(by omega) ∈ bins.ravel := List.getElem_mem _
    have := (hnz _ hx).2.2.2.2
    simp [trapezoid] at this
  set p := argsort (bins.ravel.map fun x => labels.idxOf x) with hp
  have hpa : IsArgsort (bins.ravel.map fun x => labels.idxOf x) p := ha _
  have hqa : IsArgsort p (argsort p) := ha _
  have hpp : p.Perm (List.range n) := by simpa [hbl] using hpa.1
  have hplt : ∀ i ∈ p, i < n := fun i hi' => by simpa using hpp.subset hi'
  set Bs := p.map fun i => As.getD i Set.univ with hBs
  set ds := labels.map fun x => (z.zip (nzOf x), bins.ravel.count x) with hds
  have h1 : ds.map Prod.snd = labels.map fun x => bins.ravel.count x := by
    rw [hds, List.map_map]; rfl
  have hcnt : (labels.map fun x => bins.ravel.count x).sum = n := by
    have := (flatMap_count hls hlm).1.length_eq
    rw [List.length_flatMap, hbl] at this
    simpa using this
  have hBm : ∀ B ∈ Bs, MeasurableSet B := by
    intro B hB
    obtain ⟨i, hi', rfl⟩ := List.mem_map.1 hB
    have h3 := hplt i hi'
    rw [getD_get (by omega)]
    exact hA _ (List.getElem_mem _)
  have h2 := (requests_law hu hi (ds := ds)
    (fun d hd' => by
      obtain ⟨x, hx, rfl⟩ := List.mem_map.1 hd'
      exact (hnz x ((hlm x).1 hx)).2.2) (As := Bs)
    (by rw [h1, hcnt, hBs, List.length_map]; simpa using hpp.length_eq) hBm hF).2
  have h3 : (ds.flatMap fun d => List.replicate d.2 d.1) =
      p.map fun i => z.zip (nzOf bins.ravel[i]!) := by
    have h4 := sorted_labels (bins := bins.ravel) (key := fun x => labels.idxOf x)
      (fun x hx y hy h => idxOf_mono hls ((hlm x).2 hx) ((hlm y).2 hy) h)
      (flatMap_count hls hlm).2 (flatMap_count hls hlm).1 hpa
    have h5 : (p.map fun i => z.zip (nzOf bins.ravel[i]!)) =
        (p.map fun i => bins.ravel[i]!).map fun x => z.zip (nzOf x) := by
      rw [List.map_map]; rfl
    rw [h5, h4, hds, List.flatMap_map, List.map_flatMap]
    simp
  rw [h3, hBs, List.zipWith_map, List.zipWith_self, (hpp.map _).prod_eq] at h2
  have h6 : ((List.range n).map fun i => nzLaw (z.zip (nzOf bins.ravel[i]!)) (As.getD i Set.univ)) =
      List.zipWith (fun x A => nzLaw (z.zip (nzOf x)) A) bins.ravel As := by
    refine List.ext_getElem (by simp [hbl, hl]) fun i h7 h8 => ?_
    have h9 : i < n := by simpa using h7
    rw [List.getElem_map, List.getElem_range, List.getElem_zipWith, getD_get (by omega),
      getElem!_pos bins.ravel i (by omega)]
  rw [h6] at h2
  rw [← h2]
  congr 1
  ext s
  obtain ⟨-, r, hr, -, hrr⟩ := redshifts_from_bins_form hu ha s bins hn h0 hz hk
    (fun x hx => ⟨(hnz x hx).1, (hnz x hx).2.1⟩) hlab rfl rfl
  have hq : (List.zipWith (fun x us => us.map (inverseCdf (z.zip (nzOf x)))) labels
      (streams uniform s (labels.map fun x => bins.ravel.count x)).1).flatten =
        requests uniform ds s := by
    unfold requests
    rw [h1, hds, List.zipWith_map_left]
  rw [hq] at hrr
  have hlen : (requests uniform ds s).length = n := by
    have : ∀ (ds : List (List (ℝ × ℝ) × ℕ)) (s : σ),
        (requests uniform ds s).length = (ds.map Prod.snd).sum := by
      intro ds
      induction ds with
      | nil => intro s; rfl
      | cons d ds ih =>
        intro s
        have e : requests uniform (d :: ds) s = (uniform s d.2).1.map (inverseCdf d.1) ++
          requests uniform ds (uniform s d.2).2 := rfl
        rw [e, List.length_append, ih, List.length_map, (hu s d.2).1]
        rfl
    rw [this, h1, hcnt]
  have hbox := inBox_perm hpa hqa (x := requests uniform ds s) (As := As) (by simp [hlen, hbl])
    (by simp [hl, hbl])
  rw [← hrr] at hbox
  simp only [Set.mem_ofPred_eq]
  rw [hr, ← hbox, h1]
  simp

/-- An infinite supply of independent uniform numbers satisfies both assumptions. -/
theorem idealUnit_exists : ∃ (μ : Measure (ℕ → ℝ)) (_ : IsProbabilityMeasure μ)
    (uniform : (ℕ → ℝ) → ℕ → List ℝ × (ℕ → ℝ)), UniformLaw uniform ∧ IdealUnit μ uniform := by
  refine ⟨Measure.infinitePi fun _ : ℕ => volume.restrict (Set.Ico (0 : ℝ) 1), inferInstance,
    fun s n => stream (fun (_ : Unit) (x : ℝ) => Int.fract x) s (List.replicate n ()), ?_, ?_⟩
  · intro s n
    refine ⟨by simp [stream], fun u h => ?_⟩
    simp only [stream, List.mem_ofFn] at h
    obtain ⟨j, rfl⟩ := h
    exact ⟨Int.fract_nonneg _, Int.fract_lt_one _⟩
  · have hs := stream_ideal (volume.restrict (Set.Ico (0 : ℝ) 1))
      (f := fun (_ : Unit) (x : ℝ) => Int.fract x) (fun _ => measurable_fract)
    rw [fract_law] at hs
    unfold IdealUnit
    have h3 : (fun (s : ℕ → ℝ) (l : List Unit) =>
        stream (fun (_ : Unit) (x : ℝ) => Int.fract x) s (List.replicate l.length ())) =
        stream (fun (_ : Unit) (x : ℝ) => Int.fract x) := by
      funext s l
      have : l = List.replicate l.length () := List.eq_replicate_iff.2 ⟨rfl, fun _ _ => rfl⟩
      rw [← this]
    rw [h3]
    exact hs

/-- Concrete case: two objects in one bin, both below 1/2 with probability 1/4. -/
example : ∃ (μ : Measure (ℕ → ℝ)) (_ : IsProbabilityMeasure μ)
    (uniform : (ℕ → ℝ) → ℕ → List ℝ × (ℕ → ℝ)) (argsort : List ℕ → List ℕ),
    μ {s | ∃ (r : NdArray ℝ) (s' : ℕ → ℝ), redshiftsFromBins uniform argsort s
        (⟨[2], fun _ => 7⟩ : NdArray ℕ) [0, 1] [(7, [0, 1])] = .ok (r, s') ∧
        InBox r.ravel [Set.Ico 0 (1 / 2), Set.Ico 0 (1 / 2)] ∧ s' ∈ Set.univ} = 1 / 2 * (1 / 2) := by
  obtain ⟨μ, hμ, uniform, hu, hi⟩ := idealUnit_exists
  obtain ⟨argsort, ha⟩ := exists_argsort
  refine ⟨μ, hμ, uniform, argsort, ?_⟩
  obtain ⟨h1, h2, -⟩ := nz_law_not_linear
  rw [redshifts_from_bins_law hu hi ha (⟨[2], fun _ => 7⟩ : NdArray ℕ) (n := 2) rfl (by omega)
    (by simp) (nzOf := fun _ => [0, 1]) (fun x hx => by
      obtain ⟨i, -, rfl⟩ := List.mem_map.1 hx
      exact ⟨by simp, rfl, h1⟩) (by simp) rfl MeasurableSet.univ]
  have : (⟨[2], fun _ => 7⟩ : NdArray ℕ).ravel = [7, 7] := rfl
  rw [this]
  simp only [List.zipWith_cons_cons, List.zipWith_nil_left, List.zip_cons_cons, List.zip_nil_left,
    h2, List.prod_cons, List.prod_nil, measure_univ, mul_one]

end Joint

end Glass.Galaxies
