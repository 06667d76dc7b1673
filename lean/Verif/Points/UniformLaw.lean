import Mathlib.MeasureTheory.Function.JacobianOneDim
import Verif.Points.CountLaw
import Verif.Sampling.Sources

/-!
# The law of uniform positions (C110)
-/

namespace Glass.Points

open Glass Glass.Sampling MeasureTheory ProbabilityTheory
open scoped ENNReal NNReal

/-! ## Specification -/

/-- The uniform distribution on the sphere in degrees of longitude and latitude: the density is the
solid angle element `cos β dλ dβ` divided by the solid angle of the sphere. -/
noncomputable def sphereLaw : Measure (ℝ × ℝ) :=
  (volume.restrict (Set.Ico (-180 : ℝ) 180 ×ˢ Set.Ico (-90 : ℝ) 90)).withDensity fun p =>
    ENNReal.ofReal (Real.cos (radians p.2) * (Real.pi / 180) ^ 2 / (4 * Real.pi))

/-- What is assumed of `rng.uniform(lo, hi, size)`: an ideal source of numbers with the uniform
distribution. -/
def IdealUniforms {σ : Type} [MeasurableSpace σ] (μ : Measure σ)
    (uniform : σ → ℝ → ℝ → ℕ → List ℝ × σ) : Prop :=
  ∀ lo hi, lo < hi →
    Ideal μ (fun _ : Unit => uniformLaw lo hi) fun s l => uniform s lo hi l.length

/-! ## The latitude -/

theorem radians_mem {β : ℝ} (h : β ∈ Set.Ico (-90 : ℝ) 90) :
    -(Real.pi / 2) ≤ radians β ∧ radians β < Real.pi / 2 := by
  have hp := Real.pi_pos
  unfold radians
  constructor
  · rw [le_div_iff₀ (by norm_num)]; nlinarith [h.1]
  · rw [div_lt_iff₀ (by norm_num)]; nlinarith [h.2]

theorem degrees_radians (β : ℝ) : degrees (radians β) = β := by
  unfold degrees radians
  have := Real.pi_ne_zero
  field_simp

theorem radians_degrees (β : ℝ) : radians (degrees β) = β := by
  unfold degrees radians
  have := Real.pi_ne_zero
  field_simp

/-- The law of the latitude. -/
theorem latitude_law : (uniformLaw (-1) 1).map (fun u => degrees (Real.arcsin u)) =
    (volume.restrict (Set.Ico (-90 : ℝ) 90)).withDensity fun β =>
      ENNReal.ofReal (Real.cos (radians β) * Real.pi / 360) := by
  have hp := Real.pi_pos
  have hm : Measurable fun u : ℝ => degrees (Real.arcsin u) := by
    unfold degrees
    exact ((Real.continuous_arcsin.measurable.mul_const _).div_const _)
  ext A hA
  rw [Measure.map_apply hm hA, uniformLaw_apply (by norm_num) (hm hA),
    withDensity_apply _ hA, Measure.restrict_restrict hA]
  have himg : (fun u : ℝ => degrees (Real.arcsin u)) ⁻¹' A ∩ Set.Ico (-1) 1 =
      (fun β => Real.sin (radians β)) '' (A ∩ Set.Ico (-90) 90) := by
    ext u
    constructor
    · rintro ⟨h1, h2, h3⟩
      have e : Real.sin (radians (degrees (Real.arcsin u))) = u := by
        rw [radians_degrees, Real.sin_arcsin h2 h3.le]
      refine ⟨degrees (Real.arcsin u), ⟨h1, (degrees_arcsin u).1, ?_⟩, e⟩
      refine lt_of_le_of_ne (degrees_arcsin u).2 fun h => ?_
      rw [h] at e
      have : radians 90 = Real.pi / 2 := by unfold radians; ring
      rw [this, Real.sin_pi_div_two] at e
      linarith
    · rintro ⟨β, ⟨h1, h2⟩, rfl⟩
      have hr := radians_mem h2
      refine ⟨?_, Real.neg_one_le_sin _, ?_⟩
      · rw [Set.mem_preimage, Real.arcsin_sin hr.1 hr.2.le, degrees_radians]
        exact h1
      · rw [← Real.sin_pi_div_two]
        exact Real.sin_lt_sin_of_lt_of_le_pi_div_two hr.1 le_rfl hr.2
  have hS : MeasurableSet (A ∩ Set.Ico (-90 : ℝ) 90) := hA.inter measurableSet_Ico
  have hd : ∀ β ∈ A ∩ Set.Ico (-90 : ℝ) 90, HasDerivWithinAt (fun β => Real.sin (radians β))
      (Real.cos (radians β) * (Real.pi / 180)) (A ∩ Set.Ico (-90 : ℝ) 90) β := by
    intro β _
    have h1 : HasDerivAt radians (Real.pi / 180) β := by
      unfold radians
      have := ((hasDerivAt_id β).mul_const Real.pi).div_const 180
      simpa using this
    exact (h1.sin).hasDerivWithinAt
  have hinj : Set.InjOn (fun β => Real.sin (radians β)) (A ∩ Set.Ico (-90 : ℝ) 90) := by
    intro x hx y hy hxy
    have hx := radians_mem hx.2
    have hy := radians_mem hy.2
    have := Real.injOn_sin ⟨hx.1, hx.2.le⟩ ⟨hy.1, hy.2.le⟩ hxy
    rw [← degrees_radians x, this, degrees_radians]
  have h := lintegral_image_eq_lintegral_abs_deriv_mul hS hd hinj fun _ => 1
  simp only [lintegral_const, one_mul, mul_one, Measure.restrict_apply MeasurableSet.univ,
    Set.univ_inter] at h
  rw [himg, h, ← lintegral_const_mul' _ _ ENNReal.ofReal_ne_top]
  refine setLIntegral_congr_fun hS fun β hβ => ?_
  have hr := radians_mem hβ.2
  have hc : 0 ≤ Real.cos (radians β) := Real.cos_nonneg_of_mem_Icc ⟨hr.1, hr.2.le⟩
  rw [abs_of_nonneg (by positivity), ← ENNReal.ofReal_mul (by norm_num)]
  congr 1
  ring

theorem longitude_law : uniformLaw (-180) 180 =
    (volume.restrict (Set.Ico (-180 : ℝ) 180)).withDensity fun _ => ENNReal.ofReal (1 / 360) := by
  ext A hA
  rw [uniformLaw_apply (by norm_num) hA, withDensity_const, Measure.smul_apply, smul_eq_mul,
    Measure.restrict_apply hA]
  norm_num

/-- One point has the uniform distribution on the sphere. -/
theorem point_law : (((uniformLaw (-180) 180).prod (uniformLaw (-1) 1)).map fun p =>
    (p.1, degrees (Real.arcsin p.2))) = sphereLaw := by
  have hm : Measurable fun u : ℝ => degrees (Real.arcsin u) := by
    unfold degrees
    exact ((Real.continuous_arcsin.measurable.mul_const _).div_const _)
  have h1 : (fun p : ℝ × ℝ => (p.1, degrees (Real.arcsin p.2))) =
      Prod.map id fun u => degrees (Real.arcsin u) := rfl
  have hd : Measurable fun β : ℝ => ENNReal.ofReal (Real.cos (radians β) * Real.pi / 360) := by
    unfold radians
    fun_prop
  rw [h1, ← Measure.map_prod_map _ _ measurable_id hm, Measure.map_id, latitude_law,
    longitude_law, prod_withDensity measurable_const hd, Measure.prod_restrict, sphereLaw]
  rw [← Measure.volume_eq_prod]
  congr 1
  funext p
  rw [← ENNReal.ofReal_mul (by norm_num)]
  congr 1
  have := Real.pi_ne_zero
  field_simp
  ring

instance : IsProbabilityMeasure sphereLaw := by
  rw [← point_law]
  refine Measure.isProbabilityMeasure_map ?_
  have hm : Measurable fun u : ℝ => degrees (Real.arcsin u) := by
    unfold degrees
    exact ((Real.continuous_arcsin.measurable.mul_const _).div_const _)
  exact (measurable_fst.prodMk (hm.comp measurable_snd)).aemeasurable

/-! ## C110 -/

section

variable {σ ι : Type} [MeasurableSpace σ] [DecidableEq ι]

/-- The points of one request of `uniform_positions`. -/
noncomputable def drawPoints (uniform : σ → ℝ → ℝ → ℕ → List ℝ × σ) (s : σ) (n : ℕ) :
    List (ℝ × ℝ) × σ :=
  let (lon, s) := uniform s (-180) 180 n
  let (u, s) := uniform s (-1) 1 n
  (lon.zip (u.map fun x => degrees (Real.arcsin x)), s)

theorem drawPoints_ideal {μ : Measure σ} [IsProbabilityMeasure μ]
    {uniform : σ → ℝ → ℝ → ℕ → List ℝ × σ} (hu : IdealUniforms μ uniform) :
    Ideal μ (fun _ : Unit => sphereLaw) fun s l => drawPoints uniform s l.length := by
  have hm : Measurable fun u : ℝ => degrees (Real.arcsin u) := by
    unfold degrees
    exact ((Real.continuous_arcsin.measurable.mul_const _).div_const _)
  have h1 := ((hu (-180) 180 (by norm_num)).zip (hu (-1) 1 (by norm_num))).map
    (f := fun _ (p : ℝ × ℝ) => (p.1, degrees (Real.arcsin p.2)))
    (fun _ => measurable_fst.prodMk (hm.comp measurable_snd))
  simp only [point_law] at h1
  have h2 := h1.reindex fun _ : Unit => ((), ())
  convert h2 using 3 with s l
  have hl : (uniform s (-180) 180 l.length).1.length = l.length := by
    have := (hu (-180) 180 (by norm_num)).length s l
    exact this
  have hl2 : (uniform (uniform s (-180) 180 l.length).2 (-1) 1 l.length).1.length = l.length := by
    have := (hu (-1) 1 (by norm_num)).length (uniform s (-180) 180 l.length).2 l
    exact this
  simp only [drawPoints, List.length_map]
  refine Prod.ext ?_ rfl
  dsimp only
  refine List.ext_getElem (by simp [hl, hl2]) fun i h3 h4 => ?_
  simp

theorem go_law {μ : Measure σ} [IsProbabilityMeasure μ]
    {uniform : σ → ℝ → ℝ → ℕ → List ℝ × σ} (hu : IdealUniforms μ uniform) :
    ∀ (ps : List (ι × List (Set (ℝ × ℝ)))), (∀ p ∈ ps, ∀ A ∈ p.2, MeasurableSet A) →
    MeasurableSet {s | List.Forall₂ (fun (b : UniformBatch ι) p => InBox (b.lon.zip b.lat) p.2)
      (uniformPositions.go uniform (ps.map fun p => (p.1, p.2.length)) s) ps} ∧
    μ {s | List.Forall₂ (fun (b : UniformBatch ι) p => InBox (b.lon.zip b.lat) p.2)
      (uniformPositions.go uniform (ps.map fun p => (p.1, p.2.length)) s) ps} =
      (ps.map fun p => (p.2.map fun A => sphereLaw A).prod).prod := by
  intro ps
  induction ps with
  | nil => intro _; simp [uniformPositions.go]
  | cons p ps ih =>
    intro hA
    obtain ⟨ih1, ih2⟩ := ih fun q hq => hA q (List.mem_cons_of_mem _ hq)
    have hbox := (drawPoints_ideal hu).box (θs := List.replicate p.2.length ()) (As := p.2)
      (by simp) (hA p (List.mem_cons_self ..)) ih1
    simp only [List.length_replicate] at hbox
    have hset : {s | List.Forall₂ (fun (b : UniformBatch ι) p => InBox (b.lon.zip b.lat) p.2)
        (uniformPositions.go uniform ((p :: ps).map fun p => (p.1, p.2.length)) s) (p :: ps)} =
        {s | InBox (drawPoints uniform s p.2.length).1 p.2 ∧
          (drawPoints uniform s p.2.length).2 ∈ {s | List.Forall₂
            (fun (b : UniformBatch ι) p => InBox (b.lon.zip b.lat) p.2)
            (uniformPositions.go uniform (ps.map fun p => (p.1, p.2.length)) s) ps}} := by
      ext s
      simp only [List.map_cons, uniformPositions.go, Set.mem_ofPred_eq, List.forall₂_cons]
      rfl
    rw [hset]
    refine ⟨hbox.1, ?_⟩
    rw [hbox.2, ih2, List.map_cons, List.prod_cons]
    congr 2
    generalize p.2 = l
    induction l with
    | nil => simp
    | cons A l ih => simpa [List.replicate_succ] using ih

theorem forall₂_trans {α β γ : Type} {R : α → β → Prop} {S : β → γ → Prop} {T : α → γ → Prop}
    (hT : ∀ a b c, R a b → S b c → T a c) {as : List α} {bs : List β} {cs : List γ}
    (h1 : List.Forall₂ R as bs) (h2 : List.Forall₂ S bs cs) : List.Forall₂ T as cs := by
  induction h1 generalizing cs with
  | nil => cases h2; exact .nil
  | cons h _ ih =>
    cases h2 with
    | cons h' h2 => exact .cons (hT _ _ _ h h') (ih h2)

/-- **C110**: for every list of populations, the numbers of points are independent Poisson numbers
with mean density times area, and the points are independent with the uniform distribution on the
sphere: the probability that the populations have the given numbers of points, the first
point of each one in the first of the given sets and so on, is the product of all probabilities. -/
theorem uniform_positions_law {μ : Measure σ} [IsProbabilityMeasure μ]
    {poisson : σ → List ℝ → List ℕ × σ} (hp : IdealPoisson μ poisson)
    {uniform : σ → ℝ → ℝ → ℕ → List ℝ × σ} (hu : IdealUniforms μ uniform) (ngal : ι → ℝ)
    (hn : ∀ k, 0 ≤ ngal k) (ps : List (ι × List (Set (ℝ × ℝ))))
    (hA : ∀ p ∈ ps, ∀ A ∈ p.2, MeasurableSet A) :
    μ {s | List.Forall₂ (fun b p => InBox (b.lon.zip b.lat) p.2)
      (uniformPositions poisson uniform (ps.map Prod.fst) ngal s) ps} =
    (ps.map fun p => poissonMeasure (4 * Real.pi * (180 * 60 / Real.pi) ^ 2 * ngal p.1).toNNReal
      {p.2.length} * (p.2.map fun A => sphereLaw A).prod).prod := by
  obtain ⟨g1, g2⟩ := go_law hu ps hA
  set rs : List ℝ≥0 := ps.map fun p =>
    (4 * Real.pi * (180 * 60 / Real.pi) ^ 2 * ngal p.1).toNNReal with hrs
  have hmeans : (ps.map Prod.fst).map (fun k => arcmin2Sphere * ngal k) = rs.map NNReal.toReal := by
    rw [hrs, List.map_map, List.map_map, arcmin2Sphere_area]
    refine List.map_congr_left fun p _ => ?_
    have := hn p.1
    have hpi := Real.pi_pos
    simp only [Function.comp]
    rw [Real.coe_toNNReal _ (by positivity)]
  have hbox := hp.box (θs := rs) (As := ps.map fun p => {p.2.length}) (by simp [hrs])
    (fun B _ => MeasurableSet.of_discrete) g1
  have hgo : ∀ (qs : List (ι × ℕ)) (s : σ), List.Forall₂ (fun (q : ι × ℕ) (b : UniformBatch ι) =>
      (b.lon.zip b.lat).length = q.2) qs (uniformPositions.go uniform qs s) := by
    intro qs
    induction qs with
    | nil => intro s; exact List.Forall₂.nil
    | cons q qs ih =>
      intro s
      refine List.Forall₂.cons ?_ (ih _)
      have h1 := (hu (-180) 180 (by norm_num)).length s (List.replicate q.2 ())
      have h2 := (hu (-1) 1 (by norm_num)).length (uniform s (-180) 180 q.2).2
        (List.replicate q.2 ())
      simp only [List.length_replicate] at h1 h2
      simp [h1, h2]
  have hin : ∀ (ps : List (ι × List (Set (ℝ × ℝ)))) (x : List ℕ), x.length = ps.length →
      (InBox x (ps.map fun p => {p.2.length}) ↔ x = ps.map fun p => p.2.length) := by
    intro ps
    induction ps with
    | nil => intro x hx; cases x <;> simp_all
    | cons p ps ih =>
      intro x hx
      cases x with
      | nil => simp at hx
      | cons a x =>
        rw [List.map_cons, inBox_cons, ih x (by simpa using hx)]
        simp
  have hset : {s | List.Forall₂ (fun b p => InBox (b.lon.zip b.lat) p.2)
      (uniformPositions poisson uniform (ps.map Prod.fst) ngal s) ps} =
      {s | InBox (poisson s (rs.map NNReal.toReal)).1 (ps.map fun p => {p.2.length}) ∧
        (poisson s (rs.map NNReal.toReal)).2 ∈ {s | List.Forall₂
          (fun (b : UniformBatch ι) p => InBox (b.lon.zip b.lat) p.2)
          (uniformPositions.go uniform (ps.map fun p => (p.1, p.2.length)) s) ps}} := by
    ext s
    have hl : (poisson s (rs.map NNReal.toReal)).1.length = ps.length := by
      rw [hp.length]; simp [hrs]
    simp only [Set.mem_ofPred_eq, uniformPositions, hmeans]
    rw [hin ps _ hl]
    generalize (poisson s (rs.map NNReal.toReal)).1 = x at hl ⊢
    generalize (poisson s (rs.map NNReal.toReal)).2 = t
    have hz : (ps.map fun p => (p.1, p.2.length)) =
        (ps.map Prod.fst).zip (ps.map fun p => p.2.length) := (List.zip_map' ..).symm
    constructor
    · intro h
      have h1 := hgo ((ps.map Prod.fst).zip x) t
      have : x = ps.map fun p => p.2.length := by
        have h2 : List.Forall₂ (fun (q : ι × ℕ) (p : ι × List (Set (ℝ × ℝ))) => q.2 = p.2.length)
            ((ps.map Prod.fst).zip x) ps := by
          exact forall₂_trans (fun q b p h1 h2 => h1.symm.trans h2.length) h1 h
        have h3 : ((ps.map Prod.fst).zip x).map Prod.snd = ps.map fun p => p.2.length := by
          have : ∀ {qs : List (ι × ℕ)} {ps : List (ι × List (Set (ℝ × ℝ)))},
              List.Forall₂ (fun (q : ι × ℕ) (p : ι × List (Set (ℝ × ℝ))) => q.2 = p.2.length)
                qs ps → qs.map Prod.snd = ps.map fun p => p.2.length := by
            intro qs ps h
            induction h with
            | nil => rfl
            | cons h _ ih => simp [h, ih]
          exact this h2
        rw [← h3, List.map_snd_zip (by simp [hl])]
      refine ⟨this, ?_⟩
      rw [hz, ← this]
      exact h
    · rintro ⟨rfl, h⟩
      rw [← hz]
      exact h
  rw [hset, hbox.2, g2]
  clear hset hbox g1 g2 hA hmeans
  rw [hrs]
  induction ps with
  | nil => simp
  | cons p ps ih =>
    simp only [List.map_cons, List.zipWith_cons_cons, List.prod_cons]
    rw [← ih rfl]
    ring

end

/-- The probability of a rectangle of longitudes and latitudes is its share of the solid angle. -/
theorem sphereLaw_rectangle (a b c d : ℝ) (ha : -180 ≤ a) (hab : a ≤ b) (hb : b ≤ 180)
    (hc : -90 ≤ c) (hcd : c ≤ d) (hd : d ≤ 90) :
    sphereLaw (Set.Ico a b ×ˢ Set.Ico c d) = ENNReal.ofReal
      ((radians b - radians a) * (Real.sin (radians d) - Real.sin (radians c)) /
        (4 * Real.pi)) := by
  have hp := Real.pi_pos
  have hm : Measurable fun u : ℝ => degrees (Real.arcsin u) := by
    unfold degrees
    exact ((Real.continuous_arcsin.measurable.mul_const _).div_const _)
  have h1 : Set.Ico a b ∩ Set.Ico (-180) 180 = Set.Ico a b :=
    Set.inter_eq_left.2 (Set.Ico_subset_Ico ha hb)
  have hr : ∀ {x : ℝ}, -90 ≤ x → x ≤ 90 →
      -(Real.pi / 2) ≤ radians x ∧ radians x ≤ Real.pi / 2 := by
    intro x h1 h2
    unfold radians
    constructor
    · rw [le_div_iff₀ (by norm_num)]; nlinarith
    · rw [div_le_iff₀ (by norm_num)]; nlinarith
  have hrc := hr hc (hcd.trans hd)
  have hrd := hr (hc.trans hcd) hd
  have hcmp : ∀ x u : ℝ, -90 ≤ x → x ≤ 90 → u ∈ Set.Ico (-1 : ℝ) 1 →
      (degrees (Real.arcsin u) < x ↔ u < Real.sin (radians x)) := by
    intro x u h1 h2 hu
    rw [← Real.arcsin_lt_iff_lt_sin ⟨hu.1, hu.2.le⟩ (hr h1 h2)]
    unfold degrees radians
    rw [div_lt_iff₀ hp, lt_div_iff₀ (by norm_num)]
  have h2 : (fun u : ℝ => degrees (Real.arcsin u)) ⁻¹' Set.Ico c d ∩ Set.Ico (-1) 1 =
      Set.Ico (Real.sin (radians c)) (Real.sin (radians d)) := by
    ext u
    constructor
    · rintro ⟨⟨h3, h4⟩, h5⟩
      refine ⟨?_, (hcmp d u (hc.trans hcd) hd h5).1 h4⟩
      by_contra h
      exact not_lt.2 h3 ((hcmp c u hc (hcd.trans hd) h5).2 (not_le.1 h))
    · rintro ⟨h3, h4⟩
      have h5 : u ∈ Set.Ico (-1 : ℝ) 1 :=
        ⟨(Real.neg_one_le_sin _).trans h3, lt_of_lt_of_le h4 (Real.sin_le_one _)⟩
      refine ⟨⟨?_, (hcmp d u (hc.trans hcd) hd h5).2 h4⟩, h5⟩
      by_contra h
      exact not_lt.2 h3 ((hcmp c u hc (hcd.trans hd) h5).1 (not_le.1 h))
  have hpre : (fun p : ℝ × ℝ => (p.1, degrees (Real.arcsin p.2))) ⁻¹' (Set.Ico a b ×ˢ Set.Ico c d) =
      Set.Ico a b ×ˢ ((fun u : ℝ => degrees (Real.arcsin u)) ⁻¹' Set.Ico c d) := rfl
  have hm2 : Measurable fun p : ℝ × ℝ => (p.1, degrees (Real.arcsin p.2)) :=
    measurable_fst.prodMk (hm.comp measurable_snd)
  rw [← point_law, Measure.map_apply hm2 (measurableSet_Ico.prod measurableSet_Ico), hpre, Measure.prod_prod,
    uniformLaw_apply (by norm_num) measurableSet_Ico,
    uniformLaw_apply (by norm_num) (hm measurableSet_Ico), h1, h2, Real.volume_Ico,
    Real.volume_Ico, ← ENNReal.ofReal_mul (by norm_num), ← ENNReal.ofReal_mul (by norm_num),
    ← ENNReal.ofReal_mul (mul_nonneg (by norm_num) (by linarith))]
  congr 1
  unfold radians
  field_simp
  ring

/-- A quarter of the points is on the northern hemisphere at negative longitude. -/
example : sphereLaw (Set.Ico (-180) 0 ×ˢ Set.Ico 0 90) = ENNReal.ofReal (1 / 4) := by
  rw [sphereLaw_rectangle _ _ _ _ (by norm_num) (by norm_num) (by norm_num) (by norm_num)
    (by norm_num) (by norm_num)]
  congr 1
  have h1 : radians 90 = Real.pi / 2 := by unfold radians; ring
  have h2 : radians 0 = 0 := by unfold radians; ring
  have h3 : radians (-180) = -Real.pi := by unfold radians; ring
  rw [h1, h2, h3, Real.sin_pi_div_two, Real.sin_zero]
  have := Real.pi_ne_zero
  field_simp
  norm_num

/-! ## Ideal generators exist -/

theorem idealPositions_exists : ∃ (σ : Type) (_ : MeasurableSpace σ) (μ : Measure σ)
    (_ : IsProbabilityMeasure μ) (poisson : σ → List ℝ → List ℕ × σ)
    (uniform : σ → ℝ → ℝ → ℕ → List ℝ × σ), IdealPoisson μ poisson ∧ IdealUniforms μ uniform := by
  let π₁ : Measure (ℝ≥0 → ℕ) := Measure.infinitePi fun r => poissonMeasure r
  let γ : Measure ((ℝ≥0 → ℕ) × ℝ) := π₁.prod (volume.restrict (Set.Ico (0 : ℝ) 1))
  have h1 := stream_ideal γ (f := fun (r : ℝ≥0) (b : (ℝ≥0 → ℕ) × ℝ) => b.1 r)
    fun r => (measurable_pi_apply r).comp measurable_fst
  have h2 : ∀ lo hi : ℝ, Ideal (Measure.infinitePi fun _ : ℕ => γ)
      (fun _ : Unit => γ.map fun b => lo + (hi - lo) * b.2)
      (stream fun (_ : Unit) (b : (ℝ≥0 → ℕ) × ℝ) => lo + (hi - lo) * b.2) := fun lo hi =>
    stream_ideal γ (f := fun (_ : Unit) (b : (ℝ≥0 → ℕ) × ℝ) => lo + (hi - lo) * b.2)
      fun _ => by fun_prop
  refine ⟨_, _, Measure.infinitePi fun _ : ℕ => γ, inferInstance,
    fun s rs => stream (fun (r : ℝ≥0) (b : (ℝ≥0 → ℕ) × ℝ) => b.1 r) s (rs.map Real.toNNReal),
    fun s lo hi n => stream (fun (_ : Unit) (b : (ℝ≥0 → ℕ) × ℝ) => lo + (hi - lo) * b.2) s
      (List.replicate n ()), ?_, fun lo hi _ => ?_⟩
  · unfold IdealPoisson
    have e : (fun r : ℝ≥0 => γ.map fun b => b.1 r) = fun r => poissonMeasure r := by
      funext r
      have : (fun b : (ℝ≥0 → ℕ) × ℝ => b.1 r) = (fun b => b r) ∘ Prod.fst := rfl
      rw [this, ← Measure.map_map (measurable_pi_apply r) measurable_fst, Measure.map_fst_prod,
        measure_univ, one_smul]
      exact (measurePreserving_eval_infinitePi (fun r => poissonMeasure r) r).map_eq
    rw [e] at h1
    convert h1 using 3 with s rs
    dsimp only
    rw [List.map_map]
    have : Real.toNNReal ∘ NNReal.toReal = id := by
      funext r
      simp
    rw [this, List.map_id]
  · have h := h2 lo hi
    have e : γ.map (fun b => lo + (hi - lo) * b.2) = uniformLaw lo hi := by
      have : (fun b : (ℝ≥0 → ℕ) × ℝ => lo + (hi - lo) * b.2) =
          (fun u : ℝ => lo + (hi - lo) * u) ∘ Prod.snd := rfl
      rw [this, ← Measure.map_map (by fun_prop) measurable_snd, Measure.map_snd_prod,
        measure_univ, one_smul]
      rfl
    rw [e] at h
    convert h using 3 with s l
    exact congrArg _ (List.eq_replicate_iff.2 ⟨rfl, fun _ _ => rfl⟩).symm

end Glass.Points
