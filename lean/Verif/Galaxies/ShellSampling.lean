import Verif.Galaxies.NzLaw
import Verif.Shells.RestrictProps

/-!
# Redshifts sampled shell by shell (C140)

A redshift distribution can be sampled as a whole, or its part in each shell can be sampled, with the
numbers of `partition`.  Both have the distribution function of the linear interpolation at every
redshift of the grid and at every edge of a shell.
-/

namespace Glass.Galaxies

open Glass Glass.Num Glass.Shells MeasureTheory
open scoped ENNReal

/-! ## Specification -/

/-- The law of a redshift that is in shell `k` with the probability `parts[k] / sum(parts)`, and is
sampled from the distribution `rs[k]` there. -/
noncomputable def shellMixture (parts : List ℝ) (rs : List (List (ℝ × ℝ))) : Measure ℝ :=
  (List.zipWith (fun t r => ENNReal.ofReal (t / parts.sum) • nzLaw r) parts rs).sum

/-! ## Integrals up to a grid point -/

theorem cell_integral {g : ℝ → ℝ} (hg : ∀ x, 0 ≤ g x) {c d : ℝ} (hcd : c ≤ d)
    (hi : IntervalIntegrable g volume c d) :
    ∫⁻ t in Set.Ico c d, ENNReal.ofReal (g t) = ENNReal.ofReal (∫ t in c..d, g t) := by
  rw [← ofReal_integral_eq_lintegral_ofReal, intervalIntegral.integral_of_le hcd,
    integral_Ico_eq_integral_Ioc]
  · rw [← IntegrableOn, integrableOn_Ico_iff_integrableOn_Ioo, ← integrableOn_Ioc_iff_integrableOn_Ioo]
    exact (intervalIntegrable_iff_integrableOn_Ioc_of_le hcd).1 hi
  · exact Filter.Eventually.of_forall hg

/-- For a function that is linear between grid points, the steps have the integral of the function
below each grid point, and outside the grid. -/
theorem stepMeasure_sample {g : ℝ → ℝ} (hg : ∀ x, 0 ≤ g x) : ∀ (zs : List ℝ) (z0 b : ℝ),
    (z0 :: zs).Pairwise (· < ·) → AffineBetween g (z0 :: zs) → (z0 :: zs).getLast? = some b →
    ∀ x, x ∈ z0 :: zs ∨ x ≤ z0 ∨ b ≤ x →
      stepMeasure (sample g (z0 :: zs)) (Set.Iio x) =
        ∫⁻ t in Set.Ico z0 b ∩ Set.Iio x, ENNReal.ofReal (g t)
  | [], z0, b, _, _, hb, x, _ => by
    obtain rfl : z0 = b := by simpa using hb
    simp [sample, stepMeasure]
  | z1 :: zs, z0, b, hs, ⟨⟨m, n, hmn⟩, hA⟩, hb, x, hx => by
    have h01 : z0 < z1 := (List.pairwise_cons.1 hs).1 z1 (by simp)
    have hs' := (List.pairwise_cons.1 hs).2
    have hb' : (z1 :: zs).getLast? = some b := by simpa using hb
    have h1b : z1 ≤ b := le_last hs' hb' (by simp)
    by_cases hx0 : x ≤ z0
    · rw [stepMeasure_before measurableSet_Iio]
      · have : Set.Ico z0 b ∩ Set.Iio x = ∅ := by
          ext t
          simp only [Set.mem_inter_iff, Set.mem_Ico, Set.mem_Iio, Set.mem_empty_iff_false, iff_false]
          rintro ⟨⟨h1, -⟩, h2⟩
          linarith
        rw [this]
        simp
      · intro k hk t ht
        obtain ⟨y, hy, rfl⟩ := List.mem_map.1 hk
        have : z0 ≤ y := by
          rcases List.mem_cons.1 hy with rfl | hy
          · exact le_rfl
          · exact ((List.pairwise_cons.1 hs).1 y hy).le
        exact lt_of_lt_of_le (lt_of_lt_of_le ht hx0) this
    · have hx1 : z1 ≤ x := by
        rcases hx with h | h | h
        · rcases List.mem_cons.1 h with rfl | h
          · exact absurd le_rfl hx0
          · rcases List.mem_cons.1 h with rfl | h
            · exact le_rfl
            · exact ((List.pairwise_cons.1 hs').1 x h).le
        · exact absurd h hx0
        · linarith
      have ih := stepMeasure_sample hg zs z1 b hs' hA hb' x (by
        rcases hx with h | h | h
        · rcases List.mem_cons.1 h with rfl | h
          · exact absurd le_rfl hx0
          · exact .inl h
        · exact absurd h hx0
        · exact .inr (.inr h))
      obtain ⟨i1, e1⟩ := affine_integral h01.le hmn
      have hset : Set.Ico z0 b ∩ Set.Iio x = Set.Ico z0 z1 ∪ Set.Ico z1 b ∩ Set.Iio x := by
        ext t
        simp only [Set.mem_inter_iff, Set.mem_Ico, Set.mem_Iio, Set.mem_union]
        constructor
        · rintro ⟨⟨h1, h2⟩, h3⟩
          rcases lt_or_ge t z1 with h | h
          · exact .inl ⟨h1, h⟩
          · exact .inr ⟨⟨h, h2⟩, h3⟩
        · rintro (⟨h1, h2⟩ | ⟨⟨h1, h2⟩, h3⟩)
          · exact ⟨⟨h1, h2.trans_le h1b⟩, h2.trans_le hx1⟩
          · exact ⟨⟨h01.le.trans h1, h2⟩, h3⟩
      have hdis : Disjoint (Set.Ico z0 z1) (Set.Ico z1 b ∩ Set.Iio x) := by
        rw [Set.disjoint_left]
        rintro t ⟨-, h1⟩ ⟨⟨h2, -⟩, -⟩
        linarith
      rw [hset, lintegral_union (measurableSet_Ico.inter measurableSet_Iio) hdis, ← ih,
        cell_integral hg h01.le i1, e1]
      have hin : Set.Iio x ∩ Set.Ico z0 z1 = Set.Ico z0 z1 :=
        Set.inter_eq_right.2 fun t ht => ht.2.trans_le hx1
      show (ENNReal.ofReal ((g z0 + g z1) / 2) • volume.restrict (Set.Ico z0 z1) +
        stepMeasure (sample g (z1 :: zs))) (Set.Iio x) = _
      rw [Measure.add_apply, Measure.smul_apply, Measure.restrict_apply measurableSet_Iio, hin,
        Real.volume_Ico, smul_eq_mul, ← ENNReal.ofReal_mul (by linarith [hg z0, hg z1])]
      congr 2
      ring

theorem stepMeasure_total : ∀ {ks : List (ℝ × ℝ)}, Inc ks → (∀ k ∈ ks, 0 ≤ k.2) →
    stepMeasure ks Set.univ = ENNReal.ofReal (trapezoid ks)
  | [], _, _ => by simp [stepMeasure, trapezoid]
  | [_], _, _ => by simp [stepMeasure, trapezoid]
  | k :: k' :: ks, hi, h0 => by
    have hlt := hi.lt (k' := k') (by simp)
    have ih := stepMeasure_total hi.tail fun m hm => h0 m (List.mem_cons_of_mem _ hm)
    have h1 := h0 k (by simp)
    have h2 := h0 k' (by simp)
    rw [stepMeasure, Measure.add_apply, ih, Measure.smul_apply, Measure.restrict_apply_univ,
      Real.volume_Ico, smul_eq_mul, ← ENNReal.ofReal_mul (by linarith),
      ← ENNReal.ofReal_add (mul_nonneg (by linarith) (by linarith))
        (trapezoid_nonneg' hi.tail fun m hm => h0 m (List.mem_cons_of_mem _ hm))]
    congr 1
    show _ = (k'.1 - k.1) * (k'.2 + k.2) / 2 + trapezoid (k' :: ks)
    ring

/-- The law of one shell, times its share. -/
theorem share_law {ks : List (ℝ × ℝ)} (hi : Inc ks) (h0 : ∀ k ∈ ks, 0 ≤ k.2) {S : ℝ} (hS : 0 < S) :
    ENNReal.ofReal (trapezoid ks / S) • nzLaw ks = ENNReal.ofReal (1 / S) • stepMeasure ks := by
  have hT := trapezoid_nonneg' hi h0
  rcases hT.lt_or_eq with hT | hT
  · rw [nzLaw, smul_smul, ← ENNReal.ofReal_mul (by positivity)]
    congr 2
    field_simp
  · have : stepMeasure ks = 0 := by
      rw [← Measure.measure_univ_eq_zero, stepMeasure_total hi h0, ← hT]
      simp
    rw [nzLaw, this]
    simp

/-- One shell. -/
theorem shell_law {f : List (ℝ × ℝ)} (hf : Inc f) (h0 : ∀ k ∈ f, 0 ≤ k.2) {p q : ℝ × ℝ}
    (hp : f.head? = some p)
    (hq : f.getLast? = some q) {rnd : ℝ → ℤ} {dz a b : ℝ} (hab : a < b)
    (hL : p.2 = 0 ∨ p.1 ≤ a) (hR : q.2 = 0 ∨ b ≤ q.1) :
    ∃ r, restrict f (tophatWindow rnd dz none a b) = .ok r ∧ Inc r ∧ (∀ k ∈ r, 0 ≤ k.2) ∧
      ∀ x, (x ∈ f.map Prod.fst ∨ x ≤ a ∨ b ≤ x) → stepMeasure r (Set.Iio x) =
        ∫⁻ t in Set.Ico a b ∩ Set.Iio x, ENNReal.ofReal (interp (some 0) (some 0) f t) := by
  have hn := gridSize_ge rnd dz a b
  have hza := tophatWindow_za rnd dz none a b
  have ha : (tophatWindow rnd dz none a b).za.head? = some a := by
    rw [hza]; exact linspace_head (by omega)
  have hb : (tophatWindow rnd dz none a b).za.getLast? = some b := by
    rw [hza]; exact linspace_last hn
  have hws := linspace_sorted hab (gridSize rnd dz a b)
  rcases h : restrict f (tophatWindow rnd dz none a b) with e | r
  · have := (restrict_error_iff _ _).1 ⟨e, h⟩
    rcases this with h' | h'
    · rw [RadialWindow.za, h'] at ha; simp at ha
    · rw [h'] at hp; simp at hp
  · refine ⟨r, rfl, ?_⟩
    obtain ⟨zr, hs, hm, rfl, -⟩ := restrict_grid ha hb h
    rw [hza] at hm
    have ha' : a ∈ linspace a b (gridSize rnd dz a b) := List.mem_of_head? (hza ▸ ha)
    have hb' : b ∈ linspace a b (gridSize rnd dz a b) := List.mem_of_getLast? (hza ▸ hb)
    have hbd : ∀ t ∈ zr, a ≤ t ∧ t ≤ b := by
      intro t ht
      rcases (hm t).1 ht with ht | ht
      · exact last_gt hab hn ht
      · exact ⟨ht.2.1.le, ht.2.2.le⟩
    have hhl := sorted_head_last hs ((hm a).2 (Or.inl ha')) ((hm b).2 (Or.inl hb')) hbd
    have hone : ∀ t, interp none none (tophatWindow rnd dz none a b).knots t = 1 := by
      intro t
      have hinc : Inc (tophatWindow rnd dz none a b).knots := by
        rw [tophatWindow_knots]; exact inc_sample.2 hws
      have hne : (tophatWindow rnd dz none a b).knots ≠ [] := by
        intro h'; rw [RadialWindow.za, h'] at ha; simp at ha
      have := interp_bounds (x := t) (m := 1) (M := 1) hinc hne (by
        rw [tophatWindow_knots]; intro k hk
        obtain ⟨t, -, rfl⟩ := List.mem_map.1 hk
        simp)
      linarith [this.1, this.2]
    have hsamp : sample (fun t => interp (some 0) (some 0) f t *
        interp none none (tophatWindow rnd dz none a b).knots t) zr =
        sample (interp (some 0) (some 0) f) zr :=
      sample_congr fun t _ => by rw [hone, mul_one]
    rw [hsamp]
    have hA : AffineBetween (interp (some 0) (some 0) f) zr := by
      apply affineBetween_of hs
      intro c d hc hd hcd hno
      have hc' := hbd c hc
      have hd' := hbd d hd
      apply zeroInterp_affine hf hp hq hcd
      · rcases hL with h | h
        · exact Or.inl h
        · exact Or.inr (h.trans hc'.1)
      · rcases hR with h | h
        · exact Or.inl h
        · exact Or.inr (hd'.2.trans h)
      · intro k hk ⟨h1, h2⟩
        exact hno k.1 ((hm k.1).2 (Or.inr ⟨List.mem_map_of_mem hk, by linarith, by linarith⟩))
          ⟨h1, h2⟩
    refine ⟨inc_sample.2 hs, ?_, fun x hx => ?_⟩
    · intro k hk
      obtain ⟨t, -, rfl⟩ := List.mem_map.1 hk
      exact interp_zero_nonneg hf h0
    · rcases zr with _ | ⟨z0, zr⟩
      · simp at hhl
      · have hz0 : z0 = a := by simpa using hhl.1
        subst hz0
        refine stepMeasure_sample (fun t => interp_zero_nonneg hf h0) _ _ _ hs hA hhl.2 _ ?_
        rcases hx with hx | hx | hx
        · by_cases h1 : x ≤ z0
          · exact Or.inr (Or.inl h1)
          · by_cases h2 : b ≤ x
            · exact Or.inr (Or.inr h2)
            · push Not at h1 h2
              exact Or.inl ((hm x).2 (Or.inr ⟨hx, h1, h2⟩))
        · exact Or.inr (Or.inl hx)
        · exact Or.inr (Or.inr hx)

/-- All shells. -/
theorem shells_law {f : List (ℝ × ℝ)} (hf : Inc f) (h0 : ∀ k ∈ f, 0 ≤ k.2) {p q : ℝ × ℝ}
    (hp : f.head? = some p) (hq : f.getLast? = some q) {rnd : ℝ → ℤ} {dz : ℝ} :
    ∀ (es : List ℝ) (a b : ℝ), (a :: es).Pairwise (· < ·) → (a :: es).getLast? = some b →
      (p.2 = 0 ∨ p.1 ≤ a) → (q.2 = 0 ∨ b ≤ q.1) →
      ∃ rs, ((pairs (a :: es)).map fun e => tophatWindow rnd dz none e.1 e.2).mapM (restrict f) =
          .ok rs ∧
        restrictParts f ((pairs (a :: es)).map fun e => tophatWindow rnd dz none e.1 e.2)
          = .ok (rs.map trapezoid) ∧ (∀ r ∈ rs, Inc r ∧ ∀ k ∈ r, 0 ≤ k.2) ∧
        ∀ x, x ∈ f.map Prod.fst ∨ x ∈ a :: es ∨ x ≤ a ∨ b ≤ x →
          (rs.map stepMeasure).sum (Set.Iio x) =
            ∫⁻ t in Set.Ico a b ∩ Set.Iio x, ENNReal.ofReal (interp (some 0) (some 0) f t)
  | [], a, b, _, hb, _, _ => by
    simp at hb
    subst hb
    exact ⟨[], rfl, rfl, by simp, by simp⟩
  | e :: es, a, b, hs, hb, hL, hR => by
    have hae : a < e := (List.pairwise_cons.1 hs).1 e (by simp)
    have hs' := (List.pairwise_cons.1 hs).2
    have hb' : (e :: es).getLast? = some b := by simpa using hb
    have heb : e ≤ b := le_last hs' hb' (by simp)
    obtain ⟨rs, h1, h2, h3, h4⟩ := shells_law hf h0 hp hq (rnd := rnd) (dz := dz) es e b hs' hb'
      (by rcases hL with h | h
          · exact Or.inl h
          · exact Or.inr (by linarith)) hR
    obtain ⟨r, e1, e2, e3, e4⟩ := shell_law hf h0 hp hq (rnd := rnd) (dz := dz) hae hL
      (by rcases hR with h | h
          · exact Or.inl h
          · exact Or.inr (by linarith))
    refine ⟨r :: rs, ?_, ?_, ?_, fun x hx => ?_⟩
    · simp only [pairs, List.tail_cons, List.zip_cons_cons, List.map_cons, List.mapM_cons, e1,
        bind, Except.bind] at h1 ⊢
      rw [h1]
      rfl
    · unfold restrictParts at h2 ⊢
      simp only [pairs, List.tail_cons, List.zip_cons_cons, List.map_cons, List.mapM_cons, e1,
        Except.map, bind, Except.bind] at h2 ⊢
      rw [h2]
      rfl
    · intro r' hr'
      rcases List.mem_cons.1 hr' with rfl | hr'
      · exact ⟨e2, e3⟩
      · exact h3 r' hr'
    · have hx1 : x ∈ f.map Prod.fst ∨ x ≤ a ∨ e ≤ x := by
        rcases hx with h | h | h | h
        · exact .inl h
        · rcases List.mem_cons.1 h with rfl | h
          · exact .inr (.inl le_rfl)
          · rcases List.mem_cons.1 h with rfl | h
            · exact .inr (.inr le_rfl)
            · exact .inr (.inr ((List.pairwise_cons.1 hs').1 x h).le)
        · exact .inr (.inl h)
        · exact .inr (.inr (heb.trans h))
      have hx2 : x ∈ f.map Prod.fst ∨ x ∈ e :: es ∨ x ≤ e ∨ b ≤ x := by
        rcases hx with h | h | h | h
        · exact .inl h
        · rcases List.mem_cons.1 h with rfl | h
          · exact .inr (.inr (.inl hae.le))
          · exact .inr (.inl h)
        · exact .inr (.inr (.inl (h.trans hae.le)))
        · exact .inr (.inr (.inr h))
      have hset : Set.Ico a b ∩ Set.Iio x =
          (Set.Ico a e ∩ Set.Iio x) ∪ (Set.Ico e b ∩ Set.Iio x) := by
        rw [← Set.union_inter_distrib_right, Set.Ico_union_Ico_eq_Ico hae.le heb]
      have hdis : Disjoint (Set.Ico a e ∩ Set.Iio x) (Set.Ico e b ∩ Set.Iio x) := by
        rw [Set.disjoint_left]
        rintro t ⟨⟨-, h1⟩, -⟩ ⟨⟨h2, -⟩, -⟩
        linarith
      rw [List.map_cons, List.sum_cons, Measure.add_apply, e4 x hx1, h4 x hx2, hset,
        lintegral_union (measurableSet_Ico.inter measurableSet_Iio) hdis]

theorem linearLaw_below {f : List (ℝ × ℝ)} {p q : ℝ × ℝ}
    (hp : f.head? = some p) (hq : f.getLast? = some q) {a b : ℝ} (ha : a ≤ p.1) (hb : q.1 ≤ b)
    (x : ℝ) (hT : 0 < trapezoid f) :
    linearLaw f (Set.Iio x) = ENNReal.ofReal (1 / trapezoid f) *
      ∫⁻ t in Set.Ico a b ∩ Set.Iio x, ENNReal.ofReal (interp (some 0) (some 0) f t) := by
  rw [linearLaw, withDensity_apply _ measurableSet_Iio,
    ← lintegral_const_mul' _ _ ENNReal.ofReal_ne_top,
    ← lintegral_indicator measurableSet_Iio,
    ← lintegral_indicator (measurableSet_Ico.inter measurableSet_Iio)]
  apply lintegral_congr_ae
  have hb0 : ∀ᵐ t : ℝ, t ≠ b := by
    rw [ae_iff]
    simp
  filter_upwards [hb0] with t ht
  by_cases htx : t < x
  · rw [Set.indicator_of_mem (by exact htx)]
    by_cases hin : t ∈ Set.Ico a b
    · rw [Set.indicator_of_mem (show t ∈ Set.Ico a b ∩ Set.Iio x from ⟨hin, htx⟩), ← ENNReal.ofReal_mul (by positivity)]
      congr 1
      ring
    · rw [Set.indicator_of_notMem fun h => hin h.1, interp_zero]
      · simp
      · rintro ⟨c, d, hc, hd, h1, h2⟩
        rw [hp] at hc
        rw [hq] at hd
        cases hc
        cases hd
        exact hin ⟨ha.trans h1, lt_of_le_of_ne (h2.trans hb) ht⟩
  · rw [Set.indicator_of_notMem (by exact htx), Set.indicator_of_notMem fun h => htx h.2]

/-- **C140.** Sampled as a whole, the probability below a redshift of the grid is that of the linear
interpolation. -/
theorem direct_sampling {f : List (ℝ × ℝ)} (h : IsDistribution f) {x : ℝ}
    (hx : x ∈ f.map Prod.fst) : nzLaw f (Set.Iio x) = linearLaw f (Set.Iio x) := by
  have hf := h.1
  have hne : f ≠ [] := by
    rintro rfl
    simp at hx
  obtain ⟨p, hp⟩ : ∃ p, f.head? = some p := ⟨_, List.head?_eq_some_head hne⟩
  obtain ⟨q, hq⟩ : ∃ q, f.getLast? = some q := ⟨_, List.getLast?_eq_some_getLast hne⟩
  rw [linearLaw_below hp hq le_rfl le_rfl x h.2.2, nzLaw, Measure.smul_apply, smul_eq_mul]
  congr 1
  have e : f = sample (interp (some 0) (some 0) f) (f.map Prod.fst) := by
    unfold sample
    rw [List.map_map]
    nth_rewrite 1 [← List.map_id f]
    rw [List.map_inj_left]
    intro k hk
    simp only [Function.comp, id, interp_knot hf hk]
  have hs : (f.map Prod.fst).Pairwise (· < ·) := by rw [List.pairwise_map]; exact hf
  have hA : AffineBetween (interp (some 0) (some 0) f) (f.map Prod.fst) := by
    apply affineBetween_of hs
    intro c d hc hd hcd hno
    have hc' : p.1 ≤ c := head_le hs (by rw [List.head?_map, hp]; rfl) hc
    have hd' : d ≤ q.1 := le_last hs (by rw [List.getLast?_map, hq]; rfl) hd
    exact zeroInterp_affine hf hp hq hcd (Or.inr hc') (Or.inr hd')
      (fun k hk => hno k.1 (List.mem_map_of_mem hk))
  have hl : (f.map Prod.fst).getLast? = some q.1 := by rw [List.getLast?_map, hq]; rfl
  have hh : (f.map Prod.fst).head? = some p.1 := by rw [List.head?_map, hp]; rfl
  rcases hz : f.map Prod.fst with _ | ⟨z0, zs⟩
  · rw [hz] at hh; simp at hh
  · rw [hz] at hh hl hs hA hx
    simp at hh
    subst hh
    have := stepMeasure_sample (fun t => interp_zero_nonneg hf h.2.1) zs p.1 q.1 hs hA hl x
      (Or.inl hx)
    rw [← hz, ← e] at this
    exact this

/-- **C140.** Let the numbers of galaxies in contiguous tophat shells be those of
`partition(method="restrict")`, and let the redshifts in each shell be sampled from the distribution
restricted to the shell.  The shells cover the distribution, which ends where they end or vanishes at
its ends.  Then the probability of a galaxy below any redshift of the grid, and below any edge of a
shell, is that of the linear interpolation of the whole distribution. -/
theorem shell_sampling {f : List (ℝ × ℝ)} (hf : IsDistribution f) {p q : ℝ × ℝ}
    (hp : f.head? = some p) (hq : f.getLast? = some q) {rnd : ℝ → ℤ} {dz : ℝ} {zbins : List ℝ}
    {a b : ℝ} (hz : zbins.Pairwise (· < ·)) (ha : zbins.head? = some a)
    (hb : zbins.getLast? = some b) (hcov : a ≤ p.1 ∧ q.1 ≤ b) (hL : p.2 = 0 ∨ a = p.1)
    (hR : q.2 = 0 ∨ b = q.1) {ws : List RadialWindow}
    (h : tophatWindows rnd zbins dz none = .ok ws) :
    ∃ rs parts, ws.mapM (restrict f) = .ok rs ∧ partitionRestrict f ws = .ok parts ∧
      IsProbabilityMeasure (shellMixture parts rs) ∧
      ∀ x, x ∈ f.map Prod.fst ∨ x ∈ zbins →
        shellMixture parts rs (Set.Iio x) = linearLaw f (Set.Iio x) := by
  obtain ⟨parts, h1, -, h3⟩ := partition_restrict_conserves_partial hf.1 hp hq hz ha hb hcov hL hR h
  unfold tophatWindows at h
  split_ifs at h with hl
  simp only [Except.ok.injEq] at h
  subst h
  rcases zbins with _ | ⟨a', es⟩
  · simp at ha
  simp at ha
  subst ha
  obtain ⟨rs, e1, e2, e3, e4⟩ := shells_law hf.1 hf.2.1 hp hq (rnd := rnd) (dz := dz) es a' b
    hz hb (hL.imp id fun h => h.ge) (hR.imp id fun h => h.le)
  have hparts : parts = rs.map trapezoid := by
    rw [partitionRestrict, e2] at h1
    rcases hrs : rs with _ | ⟨r, rs'⟩
    · rw [hrs] at h1
      simp at h1
    · rw [hrs] at h1
      simpa using h1.symm
  have hT := hf.2.2
  have hmix : shellMixture parts rs = ENNReal.ofReal (1 / trapezoid f) •
      (rs.map stepMeasure).sum := by
    unfold shellMixture
    rw [h3, hparts, List.zipWith_map_left, List.zipWith_self, List.smul_sum, List.map_map]
    congr 1
    rw [List.map_inj_left]
    intro r hr
    exact share_law (e3 r hr).1 (e3 r hr).2 hT
  refine ⟨rs, parts, e1, h1, ⟨?_⟩, fun x hx => ?_⟩
  · rw [hmix, Measure.smul_apply, smul_eq_mul]
    have : (rs.map stepMeasure).sum Set.univ = ENNReal.ofReal (rs.map trapezoid).sum := by
      clear e1 e2 e4 hmix hparts
      induction rs with
      | nil => simp
      | cons r rs ih =>
        have hr := e3 r (by simp)
        have hrs : ∀ r ∈ rs, Inc r ∧ ∀ k ∈ r, 0 ≤ k.2 := fun r h => e3 r (List.mem_cons_of_mem _ h)
        rw [List.map_cons, List.sum_cons, Measure.add_apply, ih hrs,
          stepMeasure_total hr.1 hr.2, List.map_cons, List.sum_cons,
          ENNReal.ofReal_add (trapezoid_nonneg' hr.1 hr.2)]
        apply List.sum_nonneg
        intro t ht
        obtain ⟨r', hr', rfl⟩ := List.mem_map.1 ht
        exact trapezoid_nonneg' (hrs r' hr').1 (hrs r' hr').2
    rw [this, ← hparts, h3, ← ENNReal.ofReal_mul (by positivity)]
    rw [one_div_mul_cancel hT.ne', ENNReal.ofReal_one]
  · rw [hmix, Measure.smul_apply, smul_eq_mul, linearLaw_below hp hq hcov.1 hcov.2 x hT,
      e4 x (by tauto)]

/-- **C140.** Both ways of sampling agree on the redshifts of the grid. -/
theorem shell_sampling_direct {f : List (ℝ × ℝ)} (hf : IsDistribution f) {p q : ℝ × ℝ}
    (hp : f.head? = some p) (hq : f.getLast? = some q) {rnd : ℝ → ℤ} {dz : ℝ} {zbins : List ℝ}
    {a b : ℝ} (hz : zbins.Pairwise (· < ·)) (ha : zbins.head? = some a)
    (hb : zbins.getLast? = some b) (hcov : a ≤ p.1 ∧ q.1 ≤ b) (hL : p.2 = 0 ∨ a = p.1)
    (hR : q.2 = 0 ∨ b = q.1) {ws : List RadialWindow}
    (h : tophatWindows rnd zbins dz none = .ok ws) :
    ∃ rs parts, ws.mapM (restrict f) = .ok rs ∧ partitionRestrict f ws = .ok parts ∧
      ∀ x ∈ f.map Prod.fst, shellMixture parts rs (Set.Iio x) = nzLaw f (Set.Iio x) := by
  obtain ⟨rs, parts, h1, h2, -, h3⟩ := shell_sampling hf hp hq hz ha hb hcov hL hR h
  exact ⟨rs, parts, h1, h2, fun x hx => (h3 x (.inl hx)).trans (direct_sampling hf hx).symm⟩

/-- Concrete case: a triangle on [0, 2] with the shells from 0 to 1/2 and from 1/2 to 2.  An eighth of
the galaxies are below the edge 1/2, but a quarter if the distribution is sampled as a whole. -/
example : ∃ ws rs parts, tophatWindows (fun x => ⌊x⌋) [0, 1 / 2, 2] 1 none = .ok ws ∧
    ws.mapM (restrict [(0, 0), (1, 1), (2, 0)]) = .ok rs ∧
    partitionRestrict [(0, 0), (1, 1), (2, 0)] ws = .ok parts ∧
    shellMixture parts rs (Set.Iio (1 / 2)) = ENNReal.ofReal (1 / 8) ∧
    nzLaw [(0, 0), (1, 1), (2, 0)] (Set.Iio (1 / 2)) = ENNReal.ofReal (1 / 4) := by
  have hd : IsDistribution [((0 : ℝ), (0 : ℝ)), (1, 1), (2, 0)] :=
    ⟨by norm_num, by simp, by norm_num [trapezoid]⟩
  have hT : trapezoid [((0 : ℝ), (0 : ℝ)), (1, 1), (2, 0)] = 1 := by norm_num [trapezoid]
  obtain ⟨rs, parts, h1, h2, -, h3⟩ := shell_sampling hd rfl rfl (rnd := fun x => ⌊x⌋) (dz := 1)
    (zbins := [0, 1 / 2, 2]) (a := 0) (b := 2) (by norm_num) rfl rfl (by norm_num) (Or.inl rfl)
    (Or.inl rfl) rfl
  refine ⟨_, rs, parts, rfl, h1, h2, ?_, ?_⟩
  · rw [h3 _ (by simp), linearLaw_below rfl rfl le_rfl le_rfl _ hd.2.2, hT]
    have hset : Set.Ico (0 : ℝ) 2 ∩ Set.Iio (1 / 2) = Set.Ico 0 (1 / 2) := by
      ext t
      simp only [Set.mem_inter_iff, Set.mem_Ico, Set.mem_Iio]
      constructor
      · rintro ⟨⟨h1, -⟩, h2⟩
        exact ⟨h1, h2⟩
      · rintro ⟨h1, h2⟩
        exact ⟨⟨h1, by linarith⟩, h2⟩
    have hg : ∀ x : ℝ, 0 ≤ x → x ≤ 1 / 2 →
        interp (some 0) (some 0) [((0 : ℝ), (0 : ℝ)), (1, 1), (2, 0)] x = x := by
      intro x h0 h1
      have h2 : ¬ 2 < x := by linarith
      have h3 : x < 1 := by linarith
      simp [interp, interpIn, not_lt.2 h0, h2, h3]
    obtain ⟨i1, e1⟩ := affine_integral (f := interp (some 0) (some 0) [((0 : ℝ), (0 : ℝ)), (1, 1), (2, 0)])
      (a := 0) (b := 1 / 2) (p := 1) (q := 0) (by norm_num) (by
        intro x h0 h1
        rw [hg x h0 h1]
        ring)
    show _ * ∫⁻ t in Set.Ico (0 : ℝ) 2 ∩ Set.Iio (1 / 2), _ = _
    rw [hset, cell_integral (fun x => interp_zero_nonneg hd.1 hd.2.1) (by norm_num) i1, e1,
      hg _ (by norm_num) le_rfl, hg 0 le_rfl (by norm_num)]
    norm_num
  · rw [nzLaw, hT]
    have hin : Set.Iio (1 / 2 : ℝ) ∩ Set.Ico 0 1 = Set.Ico 0 (1 / 2) := by
      ext t
      simp only [Set.mem_inter_iff, Set.mem_Ico, Set.mem_Iio]
      constructor
      · rintro ⟨h1, h2, -⟩
        exact ⟨h2, h1⟩
      · rintro ⟨h1, h2⟩
        exact ⟨h2, h1, by linarith⟩
    have hin' : Set.Iio (1 / 2 : ℝ) ∩ Set.Ico 1 2 = ∅ := by
      ext t
      simp only [Set.mem_inter_iff, Set.mem_Ico, Set.mem_Iio, Set.mem_empty_iff_false, iff_false]
      rintro ⟨h1, h2, -⟩
      linarith
    simp only [stepMeasure, Measure.smul_apply, Measure.add_apply,
      Measure.restrict_apply measurableSet_Iio, hin, hin', measure_empty, Real.volume_Ico,
      smul_eq_mul, mul_zero, add_zero]
    rw [← ENNReal.ofReal_mul (by norm_num), ← ENNReal.ofReal_mul (by norm_num)]
    norm_num

end Glass.Galaxies
