import Mathlib.Algebra.Order.Floor.Ring
import Mathlib.Tactic.Linarith
import Mathlib.Tactic.Ring
import Mathlib.Tactic.FieldSimp
import Verif.Galaxies.NzProps
import Verif.Galaxies.RedshiftProps
import Verif.Observations.Model

/-!
# Redshift bins (C70, C71)
-/

namespace Glass.Obs

open Glass Glass.Num Glass.Arrays Glass.Galaxies

/-! ## Specification -/

/-- Contiguous bins given by the function of their edges: the bins are `[e 0, e 1]`, …,
`[e (n - 1), e n]`. -/
def Contiguous (n : ℕ) (e : ℕ → ℝ) (bins : List (ℝ × ℝ)) : Prop :=
  bins.length = n ∧ ∀ i : ℕ, i < n → bins[i]? = some (e i, e (i + 1))

/-- What is known about the neighbouring floating-point number: it is not beyond the target. -/
def NextafterLaw (nextafter : ℝ → ℝ → ℝ) : Prop :=
  ∀ x y : ℝ, y < x → y ≤ nextafter x y ∧ nextafter x y < x

/-! ## Lemmas -/

theorem pairwise_contiguous (n : ℕ) (e : ℕ → ℝ) :
    Contiguous n e (pairwise ((List.range (n + 1)).map e)) := by
  constructor
  · simp [pairwise]
  · intro i hi
    rw [pairwise, List.getElem?_eq_getElem (by simp; omega)]
    simp [List.getElem_zip, List.getElem_tail]

theorem pairwise_contiguous' (n : ℕ) (e : ℕ → ℝ) :
    Contiguous (n - 1) e (pairwise ((List.range n).map e)) := by
  rcases n with _ | n
  · exact ⟨by simp [pairwise], by simp⟩
  · exact pairwise_contiguous n e

theorem interpIn_mono : ∀ {ks : List (ℝ × ℝ)} {a b : ℝ}, Inc ks →
    ks.Pairwise (fun p q => p.2 ≤ q.2) → (∀ k ∈ ks.head?, k.1 ≤ a) → a ≤ b →
    interpIn ks a ≤ interpIn ks b
  | [], _, _, _, _, _, _ => le_rfl
  | [_], _, _, _, _, _, _ => le_rfl
  | k :: k' :: ks, a, b, hi, hy, h0, hab => by
    have hlt := hi.lt (k' := k') (by simp)
    have hyk : k.2 ≤ k'.2 := (List.pairwise_cons.1 hy).1 k' (by simp)
    have hka : k.1 ≤ a := h0 k (by simp)
    have hslope : 0 ≤ (k'.2 - k.2) / (k'.1 - k.1) := div_nonneg (by linarith) (by linarith)
    have hy' := (List.pairwise_cons.1 hy).2
    by_cases hb : b < k'.1
    · rw [interpIn_cons_lt hb, interpIn_cons_lt (lt_of_le_of_lt hab hb)]
      nlinarith
    · have hb := not_lt.1 hb
      rw [interpIn_cons_ge hb]
      by_cases ha : a < k'.1
      · have h1 := interpIn_mono (a := k'.1) hi.tail hy' (by simp) hb
        rw [interpIn_first hi.tail] at h1
        rw [interpIn_cons_lt ha]
        refine le_trans ?_ h1
        have : (k'.2 - k.2) / (k'.1 - k.1) * (k'.1 - k.1) = k'.2 - k.2 :=
          div_mul_cancel₀ _ (by linarith)
        nlinarith
      · have ha := not_lt.1 ha
        rw [interpIn_cons_ge ha]
        exact interpIn_mono hi.tail hy' (by simpa using ha) hab

/-- A positive density has a positive integral. -/
theorem isDistribution_positive {z nz : List ℝ} (hl : z.length = nz.length)
    (hz : z.Pairwise (· < ·)) (h2 : 2 ≤ z.length) (hpos : ∀ x ∈ nz, 0 < x) :
    IsDistribution (z.zip nz) := by
  have h1 : (z.zip nz).Pairwise fun a b => a.1 < b.1 := by
    have : ((z.zip nz).map Prod.fst).Pairwise (· < ·) := by
      rw [List.map_fst_zip (by omega)]; exact hz
    rwa [List.pairwise_map] at this
  have hp : ∀ k ∈ z.zip nz, 0 < k.2 := fun k hk => hpos _ (List.of_mem_zip hk).2
  have key : ∀ ks : List (ℝ × ℝ), ks.Pairwise (fun a b => a.1 < b.1) → (∀ k ∈ ks, 0 < k.2) →
      0 ≤ trapezoid ks ∧ (2 ≤ ks.length → 0 < trapezoid ks) := by
    intro ks
    induction ks with
    | nil => intro _ _; simp [trapezoid]
    | cons a ks ih =>
      intro hs hv
      rcases ks with _ | ⟨b, ks⟩
      · simp [trapezoid]
      · have h3 := (ih (List.pairwise_cons.1 hs).2 fun k hk => hv k (by simp [hk])).1
        have hab := (List.pairwise_cons.1 hs).1 b (by simp)
        have ha := hv a (by simp)
        have hb := hv b (by simp)
        have h4 : 0 < (b.1 - a.1) * (b.2 + a.2) / 2 :=
          div_pos (mul_pos (by linarith) (by linarith)) two_pos
        rw [trapezoid_cons]
        exact ⟨by linarith, fun _ => by linarith⟩
  exact ⟨h1, fun k hk => (hp k hk).le, (key _ h1 hp).2 (by simp; omega)⟩

/-! ## Property theorems -/

/-- C70: with a number of bins, the bins are contiguous, of equal size, start at `zmin` and end
exactly at `zmax`. -/
theorem fixed_zbins_nbins (nextafter : ℝ → ℝ → ℝ) (zmin zmax : ℝ) {n : ℕ} (hn : 0 < n) :
    ∃ (e : ℕ → ℝ) (bins : List (ℝ × ℝ)),
      fixedZbins nextafter zmin zmax (some n) none = .ok bins ∧ Contiguous n e bins ∧
      e 0 = zmin ∧ e n = zmax ∧ ∀ i, e (i + 1) - e i = (zmax - zmin) / n := by
  refine ⟨fun k => zmin + (k : ℝ) * ((zmax - zmin) / ((n + 1 - 1 : ℕ) : ℝ)), _, rfl,
    pairwise_contiguous n _, ?_, ?_, ?_⟩
  · simp
  · have : (n : ℝ) ≠ 0 := by positivity
    simp only [Nat.add_sub_cancel]
    field_simp
    ring
  · intro i
    simp only [Nat.add_sub_cancel, Nat.cast_add, Nat.cast_one]
    ring

/-- No bins. -/
theorem fixed_zbins_zero (nextafter : ℝ → ℝ → ℝ) (zmin zmax : ℝ) :
    fixedZbins nextafter zmin zmax (some 0) none = .ok [] := by
  simp [fixedZbins, pairwise, linspace]

/-- C70: with a size, the bins are contiguous, of that size, start at `zmin`, end before
`zmax + dz`, and fall short of `zmax` at most by the spacing of floating-point numbers at
`zmax + dz`. -/
theorem fixed_zbins_dz {nextafter : ℝ → ℝ → ℝ} (hna : NextafterLaw nextafter) {zmin zmax dz : ℝ}
    (hz : zmin ≤ zmax) (hd : 0 < dz) :
    ∃ (n : ℕ) (e : ℕ → ℝ) (bins : List (ℝ × ℝ)),
      fixedZbins nextafter zmin zmax none (some dz) = .ok bins ∧ Contiguous n e bins ∧
      e 0 = zmin ∧ (∀ i, e (i + 1) - e i = dz) ∧ e n < zmax + dz ∧
      zmax - e n ≤ zmax + dz - nextafter (zmax + dz) zmax := by
  obtain ⟨h1, h2⟩ := hna (zmax + dz) zmax (by linarith)
  set stop := nextafter (zmax + dz) zmax with hstop
  set N := ⌈(stop - zmin) / dz⌉.toNat with hN
  have hceil0 : 0 ≤ (stop - zmin) / dz := div_nonneg (by linarith) hd.le
  have hc0 : 0 ≤ ⌈(stop - zmin) / dz⌉ := Int.ceil_nonneg hceil0
  have hNr : ((N : ℕ) : ℝ) = (⌈(stop - zmin) / dz⌉ : ℝ) := by
    rw [hN]
    have : ((⌈(stop - zmin) / dz⌉.toNat : ℤ) : ℝ) = (⌈(stop - zmin) / dz⌉ : ℝ) := by
      rw [Int.toNat_of_nonneg hc0]
    exact_mod_cast this
  have hle : (stop - zmin) / dz ≤ N := by rw [hNr]; exact Int.le_ceil _
  have hlt : (N : ℝ) < (stop - zmin) / dz + 1 := by rw [hNr]; exact Int.ceil_lt_add_one _
  rw [div_le_iff₀ hd] at hle
  have hlt' : (N : ℝ) * dz < stop - zmin + dz := by
    have := mul_lt_mul_of_pos_right hlt hd
    rwa [add_mul, div_mul_cancel₀ _ hd.ne', one_mul] at this
  refine ⟨N - 1, fun k => zmin + (k : ℝ) * dz, pairwise ((List.range N).map fun k : ℕ =>
    zmin + (k : ℝ) * dz), ?_, pairwise_contiguous' N _, by simp, ?_, ?_, ?_⟩
  · simp only [fixedZbins, arange, ← hstop]
    rw [if_neg hd.ne']
  · intro i
    push_cast
    ring
  · rcases Nat.eq_zero_or_pos N with h0 | h0
    · rw [h0]; simp; linarith
    · have hs : ((N - 1 : ℕ) : ℝ) = (N : ℝ) - 1 := by rw [Nat.cast_sub h0]; simp
      simp only [hs]
      linarith
  · rcases Nat.eq_zero_or_pos N with h0 | h0
    · rw [h0] at hle ⊢
      simp at hle ⊢
      linarith
    · have hs : ((N - 1 : ℕ) : ℝ) = (N : ℝ) - 1 := by rw [Nat.cast_sub h0]; simp
      simp only [hs]
      linarith

/-- C70: if the range is a multiple of the size and the spacing of floating-point numbers is smaller
than the size, the bins end exactly at `zmax`. -/
theorem fixed_zbins_dz_exact {nextafter : ℝ → ℝ → ℝ} {zmin zmax dz : ℝ} {m : ℕ}
    (hd : 0 < dz) (hm : zmax = zmin + m * dz) (h1 : zmax < nextafter (zmax + dz) zmax)
    (h2 : nextafter (zmax + dz) zmax < zmax + dz) :
    ∃ (e : ℕ → ℝ) (bins : List (ℝ × ℝ)),
      fixedZbins nextafter zmin zmax none (some dz) = .ok bins ∧ Contiguous m e bins ∧
      e 0 = zmin ∧ e m = zmax ∧ ∀ i, e (i + 1) - e i = dz := by
  set stop := nextafter (zmax + dz) zmax with hstop
  have hc : ⌈(stop - zmin) / dz⌉ = (m : ℤ) + 1 := by
    rw [Int.ceil_eq_iff]
    push_cast
    constructor
    · rw [lt_div_iff₀ hd]; linarith
    · rw [div_le_iff₀ hd]; nlinarith
  refine ⟨fun k => zmin + (k : ℝ) * dz, pairwise ((List.range (m + 1)).map fun k : ℕ =>
    zmin + (k : ℝ) * dz), ?_, pairwise_contiguous m _, by simp, hm.symm, ?_⟩
  · simp only [fixedZbins, arange, ← hstop]
    rw [if_neg hd.ne', hc]
    rfl
  · intro i
    push_cast
    ring

/-- C70: exactly one of the number and the size must be given, and the size is not zero. -/
theorem fixed_zbins_rejects (nextafter : ℝ → ℝ → ℝ) (zmin zmax : ℝ) :
    (∀ n d, ∃ msg, fixedZbins nextafter zmin zmax (some n) (some d) = .error (.value msg)) ∧
    (∃ msg, fixedZbins nextafter zmin zmax none none = .error (.value msg)) ∧
    fixedZbins nextafter zmin zmax none (some 0) = .error .zeroDivision := by
  refine ⟨fun n d => ⟨_, rfl⟩, ⟨_, rfl⟩, ?_⟩
  simp [fixedZbins, arange]

/-- C70 (finding): with a size the bins need not reach `zmax`: if `zmax` is above a multiple of the
size by less than the spacing of floating-point numbers, the last bin ends below it. -/
theorem fixed_zbins_short : ∃ (nextafter : ℝ → ℝ → ℝ) (zmax : ℝ), NextafterLaw nextafter ∧
    fixedZbins nextafter 0 zmax none (some 1) = .ok [(0, 1)] ∧ 1 < zmax := by
  refine ⟨fun x y => x - min (1 / 1000) (x - y), 1 + 1 / 2000, ?_, ?_, by norm_num⟩
  · intro x y h
    have h1 := min_le_right (1 / 1000 : ℝ) (x - y)
    have h2 : 0 < min (1 / 1000 : ℝ) (x - y) := lt_min (by norm_num) (by linarith)
    simp only
    constructor <;> linarith
  · have hmin : min (1 / 1000 : ℝ) (1 + 1 / 2000 + 1 - (1 + 1 / 2000)) = 1 / 1000 := by
      rw [min_eq_left]; norm_num
    have hc : ⌈((1 + 1 / 2000 + 1 : ℝ) - 1 / 1000 - 0) / 1⌉ = 2 := by
      rw [Int.ceil_eq_iff]; norm_num
    simp only [fixedZbins, arange, hmin]
    rw [if_neg one_ne_zero, hc]
    have h2 : List.range (Int.toNat 2) = [0, 1] := rfl
    rw [h2]
    norm_num [pairwise]

/-- C71: the bins are contiguous, and the cumulative distribution increases by the same amount
`1 / nbins` from edge to edge, from 0 to 1.  The last edge is the last redshift. -/
theorem equal_dens_zbins_spec {z nz : List ℝ} (hl : z.length = nz.length)
    (h : IsDistribution (z.zip nz)) {n : ℕ} (hn : 0 < n) :
    ∃ (e : ℕ → ℝ) (bins : List (ℝ × ℝ)),
      equalDensZbins z nz n = .ok bins ∧ Contiguous n e bins ∧
      (∀ i, i ≤ n → interp none none (cumulativeKnots (z.zip nz)) (e i) = (i : ℝ) / n) ∧
      z.getLast? = some (e n) ∧ ∀ i, i < n → e i < e (i + 1) := by
  have h2 := h.two_le
  have hzne : z ≠ [] := by rintro rfl; simp at h2
  have hne : z.zip nz ≠ [] := by intro he; rw [he] at h2; simp at h2
  have hn' : (0 : ℝ) < n := by exact_mod_cast hn
  have hu : ∀ i : ℕ, (0 : ℝ) + (i : ℝ) * ((1 - 0) / ((n + 1 - 1 : ℕ) : ℝ)) = (i : ℝ) / n := by
    intro i
    simp only [Nat.add_sub_cancel]
    ring
  obtain ⟨f1, f2, f3, f4⟩ := cumulativeKnots_facts h
  have hKne : cumulativeKnots (z.zip nz) ≠ [] := by
    intro e; have := congrArg List.length e; simp [cumulativeKnots] at this
    rcases this with h | h
    · exact hzne h
    · rw [h] at hl; simp at hl; exact hzne hl
  -- the last edge
  have hlastz : ∀ k ∈ (z.zip nz).getLast?, z.getLast? = some k.1 := by
    intro k hk
    have h3 : z = (z.zip nz).map Prod.fst := by rw [List.map_fst_zip (by omega)]
    rw [h3, List.getLast?_map, Option.mem_def.1 hk]
    rfl
  obtain ⟨kl, hkl⟩ : ∃ k, (z.zip nz).getLast? = some k :=
    ⟨_, List.getLast?_eq_some_getLast hne⟩
  have hknots : (cumulativeKnots (z.zip nz)).getLast? = some (kl.1, 1) := by
    have h5 : (cumulativeKnots (z.zip nz)).getLast?.map Prod.fst = some kl.1 := by
      rw [cumulativeKnots, List.getLast?_mapIdx, hkl]; rfl
    obtain ⟨q, hq⟩ : ∃ k, (cumulativeKnots (z.zip nz)).getLast? = some k :=
      ⟨_, List.getLast?_eq_some_getLast hKne⟩
    have h6 := f4 q hq
    rw [hq] at h5 ⊢
    simp at h5
    rw [← h5, ← h6]
  have hone : inverseCdf (z.zip nz) 1 = kl.1 := by
    rw [inverseCdf, cdf_knots hne]
    have hlast : ((cumulativeKnots (z.zip nz)).map Prod.swap).getLast? = some (1, kl.1) := by
      rw [List.getLast?_map, hknots]; rfl
    have key : ∀ (l : List (ℝ × ℝ)) (u : ℝ) (k : ℝ × ℝ), (∀ q ∈ l, q.1 ≤ u) →
        l.getLast? = some k → interpIn l u = k.2 := by
      intro l
      induction l with
      | nil => intro u k _ hk; simp at hk
      | cons a l ih =>
        intro u k hle hk
        rcases l with _ | ⟨b, l⟩
        · simp at hk; rw [← hk]; rfl
        · rw [interpIn_cons_ge (hle b (by simp))]
          exact ih u k (fun q hq => hle q (by simp [hq])) (by simpa using hk)
    have hall : ∀ q ∈ (cumulativeKnots (z.zip nz)).map Prod.swap, q.1 ≤ 1 := by
      intro q hq
      obtain ⟨p, hp, rfl⟩ := List.mem_map.1 hq
      have b0 := f4 _ (List.getLast?_eq_some_getLast hKne)
      rw [← List.dropLast_append_getLast hKne] at hp f2
      rcases List.mem_append.1 hp with hp | hp
      · exact b0 ▸ (List.pairwise_append.1 f2).2.2 _ hp _ (by simp)
      · rw [List.mem_singleton] at hp
        rw [← hp] at b0; exact b0.le
    obtain ⟨a, l, he⟩ := List.exists_cons_of_ne_nil
      (show (cumulativeKnots (z.zip nz)).map Prod.swap ≠ [] by simpa using hKne)
    rw [he] at hlast hall ⊢
    rw [interp_mid hlast le_rfl (hall a (by simp))]
    exact key _ _ _ hall hlast
  have hval : ∀ i : ℕ, i < n → 0 ≤ (i : ℝ) / n ∧ (i : ℝ) / n < 1 := by
    intro i hi
    have : (i : ℝ) < n := by exact_mod_cast hi
    exact ⟨by positivity, by rw [div_lt_one hn']; exact this⟩
  have hcum : ∀ i, i ≤ n →
      interp none none (cumulativeKnots (z.zip nz)) (inverseCdf (z.zip nz) ((i : ℝ) / n)) =
        (i : ℝ) / n := by
    intro i hi
    rcases hi.lt_or_eq with hi | rfl
    · exact (inverse_cdf_spec h (hval i hi).1 (hval i hi).2).1
    · rw [div_self hn'.ne', hone]
      exact interp_knot f1 (List.mem_of_getLast? hknots)
  refine ⟨fun k => inverseCdf (z.zip nz) ((k : ℝ) / n), _, ?_, pairwise_contiguous n _, hcum, ?_, ?_⟩
  · simp only [equalDensZbins, matchNz, if_pos hl, bind, Except.bind]
    rw [if_neg hzne]
    simp only [linspace, List.map_map, Function.comp_def, hu]
  · simp only [div_self hn'.ne', hone]
    exact hlastz kl hkl
  · -- if the order were reversed, so would be the cumulative distribution
    intro i hi
    by_contra hc
    have hlt : (i : ℝ) / n < ((i + 1 : ℕ) : ℝ) / n := by
      apply div_lt_div_of_pos_right _ hn'
      push_cast
      linarith
    have hr : ∀ j, j ≤ n → InRange (cumulativeKnots (z.zip nz))
        (inverseCdf (z.zip nz) ((j : ℝ) / n)) := by
      intro j hj
      obtain ⟨a, ha⟩ : ∃ k, (z.zip nz).head? = some k := ⟨_, List.head?_eq_some_head hne⟩
      have hah : (cumulativeKnots (z.zip nz)).head? = some (a.1, cumulative (z.zip nz) 0) := by
        rw [cumulativeKnots, List.head?_mapIdx, ha]; rfl
      refine ⟨_, _, hah, hknots, ?_⟩
      rcases hj.lt_or_eq with hj | rfl
      · have := inverse_cdf_range h (hval j hj).1 (hval j hj).2 ha hkl
        exact ⟨this.1, this.2.le⟩
      · rw [div_self hn'.ne', hone]
        have h0 := inverse_cdf_range h le_rfl one_pos ha hkl
        exact ⟨h0.1.trans h0.2.le, le_rfl⟩
    have hi' := hr i hi.le
    have hj' := hr (i + 1) hi
    have e1 := hcum i hi.le
    have e2 := hcum (i + 1) hi
    rw [interp_inRange hi'] at e1
    rw [interp_inRange hj'] at e2
    obtain ⟨a, b, ha, -, hab, -⟩ := hj'
    have := interpIn_mono f1 f2 (fun k hk => by
      rw [ha] at hk
      rw [← Option.some.inj (Option.mem_def.1 hk)]
      exact hab) (not_lt.1 hc)
    rw [e1, e2] at this
    exact absurd hlt (not_lt.2 this)

/-- C71: if the density is positive, the first edge is the first redshift. -/
theorem equal_dens_zbins_first {z nz : List ℝ} (hl : z.length = nz.length)
    (hz : z.Pairwise (· < ·)) (h2 : 2 ≤ z.length) (hpos : ∀ x ∈ nz, 0 < x) {n : ℕ} (hn : 0 < n) :
    ∃ b bins, equalDensZbins z nz n = .ok (b :: bins) ∧ z.head? = some b.1 := by
  rcases z with _ | ⟨z0, _ | ⟨z1, z⟩⟩
  · simp at h2
  · simp at h2
  rcases nz with _ | ⟨n0, _ | ⟨n1, nz⟩⟩
  · simp at hl
  · simp at hl
  have hl' : z.length = nz.length := by simpa using hl
  have hd : IsDistribution ((z0 :: z1 :: z).zip (n0 :: n1 :: nz)) :=
    isDistribution_positive hl hz h2 hpos
  have hzero : inverseCdf ((z0 :: z1 :: z).zip (n0 :: n1 :: nz)) 0 = z0 := by
    have hp := hd.2.2
    have hz01 : z0 < z1 := (List.pairwise_cons.1 hz).1 z1 (by simp)
    have hc1 : 0 < cumulative ((z0 :: z1 :: z).zip (n0 :: n1 :: nz)) 1 := by
      apply div_pos _ hp
      have h0 := hpos n0 (by simp)
      have h1 := hpos n1 (by simp)
      simp only [List.zip_cons_cons, List.take_succ_cons, List.take_zero, trapezoid, add_zero]
      apply div_pos _ two_pos
      exact mul_pos (by linarith) (by linarith)
    have hc0 : cumulative ((z0 :: z1 :: z).zip (n0 :: n1 :: nz)) 0 = 0 := by
      simp [cumulative, trapezoid]
    obtain ⟨f1, f2, f3, f4⟩ := cumulativeKnots_facts hd
    rw [inverseCdf, cdf_knots (by simp)]
    set c := cumulative ((z0 :: z1 :: z).zip (n0 :: n1 :: nz)) with hcdef
    obtain ⟨t, ht⟩ : ∃ t, cumulativeKnots ((z0 :: z1 :: z).zip (n0 :: n1 :: nz)) =
        (z0, c 0) :: (z1, c 1) :: t := by
      simp [cumulativeKnots, hcdef]
    rw [ht] at f4 ⊢
    simp only [List.map_cons, Prod.swap_prod_mk, hc0]
    obtain ⟨q, hq⟩ : ∃ q, (((0 : ℝ), z0) :: (c 1, z1) :: t.map Prod.swap).getLast? = some q :=
      ⟨_, List.getLast?_eq_some_getLast (by simp)⟩
    have hq1 : q.1 = 1 := by
      have e : ((0 : ℝ), z0) :: (c 1, z1) :: t.map Prod.swap =
          ((z0, c 0) :: (z1, c 1) :: t).map Prod.swap := by simp [hc0]
      rw [e, List.getLast?_map] at hq
      obtain ⟨m, hm, rfl⟩ := Option.map_eq_some_iff.1 hq
      exact f4 m hm
    rw [interp_mid hq (by rw [hq1]; exact zero_le_one) le_rfl, interpIn_cons_lt (by simpa using hc1)]
    simp
  obtain ⟨n, rfl⟩ : ∃ m, n = m + 1 := ⟨n - 1, by omega⟩
  obtain ⟨a, l, hal⟩ : ∃ a l, linspace 0 1 (n + 1 + 1) = 0 :: a :: l := by
    simp [linspace, List.range_succ_eq_map]
  set f := inverseCdf ((z0 :: z1 :: z).zip (n0 :: n1 :: nz)) with hf
  refine ⟨(f 0, f a), pairwise (f a :: l.map f), ?_, by rw [hzero]; rfl⟩
  simp only [equalDensZbins, matchNz, if_pos hl, bind, Except.bind]
  rw [if_neg (by simp), ← hf, hal]
  simp [pairwise]

/-- C71: arrays that do not match are an error. -/
theorem equal_dens_zbins_mismatch {z nz : List ℝ} (h : z.length ≠ nz.length)
    (h2 : nz.length ≠ 2) (n : ℕ) : ∃ msg, equalDensZbins z nz n = .error (.value msg) := by
  refine ⟨"shapes do not match", ?_⟩
  rcases nz with _ | ⟨a, _ | ⟨b, _ | ⟨c, nz⟩⟩⟩
  · simp only [equalDensZbins, matchNz, if_neg h, bind, Except.bind]
  · simp only [equalDensZbins, matchNz, if_neg h, bind, Except.bind]
  · simp at h2
  · simp only [equalDensZbins, matchNz, if_neg h, bind, Except.bind]

/-! ## Concrete cases -/

/-- A law of floating-point spacing. -/
example : NextafterLaw fun x y => x - min (1 / 1000) (x - y) := by
  intro x y h
  have h1 := min_le_right (1 / 1000 : ℝ) (x - y)
  have h2 : 0 < min (1 / 1000 : ℝ) (x - y) := lt_min (by norm_num) (by linarith)
  simp only
  constructor <;> linarith

/-- A positive density on three redshifts. -/
example : [(0 : ℝ), 1, 3].Pairwise (· < ·) ∧ (∀ x ∈ [(1 : ℝ), 2, 1], 0 < x) ∧
    IsDistribution ([(0 : ℝ), 1, 3].zip [1, 2, 1]) := by
  refine ⟨by norm_num, by norm_num, by norm_num, by norm_num, by norm_num [trapezoid]⟩

end Glass.Obs
