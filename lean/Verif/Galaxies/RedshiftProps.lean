import Mathlib.MeasureTheory.Measure.Lebesgue.Basic
import Verif.Numerics.IntegralProps
import Verif.Arrays.BroadcastProps
import Verif.Galaxies.Model

/-!
# Sampling of redshifts (C61, C62)
-/

namespace Glass.Galaxies

open Glass Glass.Num Glass.Arrays NdArray MeasureTheory

/-! ## Interpolation of an inverse function -/

/-- Interpolation of knots whose abscissae may repeat and whose ordinates increase: the value is
below the ordinate of a knot exactly if the argument is below its abscissa, and interpolation of
the exchanged knots gives the argument back. -/
theorem interpIn_inverse : ∀ {K : List (ℝ × ℝ)} {u : ℝ}, K.Pairwise (fun a b => a.1 ≤ b.1) →
    K.Pairwise (fun a b => a.2 < b.2) → (∀ k ∈ K.head?, k.1 ≤ u) → (∀ k ∈ K.getLast?, u < k.1) →
    K ≠ [] →
    (∀ k ∈ K, (u < k.1 → interpIn K u < k.2) ∧ (k.1 ≤ u → k.2 ≤ interpIn K u)) ∧
    interpIn (K.map Prod.swap) (interpIn K u) = u
  | [], _, _, _, _, _, h => absurd rfl h
  | [k], u, _, _, h0, h1, _ => by
    have a := h0 k (by simp)
    have b := h1 k (by simp)
    linarith
  | k :: k' :: ks, u, hx, hy, h0, h1, _ => by
    have hx' := List.pairwise_cons.1 hx
    have hy' := List.pairwise_cons.1 hy
    have hk : k.1 ≤ u := h0 k (by simp)
    have hky : k.2 < k'.2 := hy'.1 k' (by simp)
    by_cases hu : u < k'.1
    · rw [interpIn_cons_lt hu]
      have hd : 0 < k'.1 - k.1 := by linarith
      have hs0 : 0 ≤ (u - k.1) / (k'.1 - k.1) := div_nonneg (by linarith) hd.le
      have hs1 : (u - k.1) / (k'.1 - k.1) < 1 := by rw [div_lt_one hd]; linarith
      have e : k.2 + (k'.2 - k.2) / (k'.1 - k.1) * (u - k.1) =
          k.2 + (k'.2 - k.2) * ((u - k.1) / (k'.1 - k.1)) := by ring
      have hlo : k.2 ≤ k.2 + (k'.2 - k.2) / (k'.1 - k.1) * (u - k.1) := by
        rw [e]; nlinarith
      have hhi : k.2 + (k'.2 - k.2) / (k'.1 - k.1) * (u - k.1) < k'.2 := by
        rw [e]; nlinarith
      refine ⟨fun m hm => ?_, ?_⟩
      · rcases List.mem_cons.1 hm with rfl | hm
        · exact ⟨fun h => absurd h (not_lt.2 hk), fun _ => hlo⟩
        · have hm1 : k'.1 ≤ m.1 ∧ k'.2 ≤ m.2 := by
            rcases List.mem_cons.1 hm with rfl | hm'
            · exact ⟨le_rfl, le_rfl⟩
            · exact ⟨(List.pairwise_cons.1 hx'.2).1 m hm', ((List.pairwise_cons.1 hy'.2).1 m hm').le⟩
          exact ⟨fun _ => lt_of_lt_of_le hhi hm1.2, fun h => by linarith [hm1.1]⟩
      · rw [List.map_cons, List.map_cons, interpIn_cons_lt (by simpa using hhi)]
        simp only [Prod.fst_swap, Prod.snd_swap]
        have : k'.2 - k.2 ≠ 0 := by linarith
        have : k'.1 - k.1 ≠ 0 := hd.ne'
        field_simp
        ring
    · have hu' := not_lt.1 hu
      rw [interpIn_cons_ge hu']
      obtain ⟨h2, h3⟩ := interpIn_inverse (K := k' :: ks) hx'.2 hy'.2 (by simpa using hu')
        (by simpa using h1) (by simp)
      have h4 := (h2 k' (by simp)).2 hu'
      refine ⟨fun m hm => ?_, ?_⟩
      · rcases List.mem_cons.1 hm with rfl | hm
        · exact ⟨fun h => absurd h (not_lt.2 hk), fun _ => by linarith⟩
        · exact h2 m hm
      · rw [List.map_cons, List.map_cons, interpIn_cons_ge (by simpa using h4)]
        exact h3

/-- Entries of the cumulative integral are the integrals of initial pieces. -/
theorem cumulativeTrapezoid_getElem (ks : List (ℝ × ℝ)) (i : ℕ)
    (h : i < (cumulativeTrapezoid ks).length) (hi : i < ks.length) :
    (cumulativeTrapezoid ks)[i] = trapezoid (ks.take (i + 1)) := by
  have key : ∀ (l : List ℝ) (a : ℝ) (i : ℕ) (h : i < (l.scanl (· + ·) a).length),
      (l.scanl (· + ·) a)[i] = a + (l.take i).sum := by
    intro l
    induction l with
    | nil => intro a i h; simp at h; subst h; simp
    | cons x l ih =>
      intro a i h
      rcases i with _ | i
      · simp
      · have h' : i < (l.scanl (· + ·) (a + x)).length := by simpa using h
        have := ih (a + x) i h'
        simp only [List.scanl_cons, List.getElem_cons_succ, List.take_succ_cons, List.sum_cons]
        rw [this]; ring
  rw [← panels_sum]
  refine (key _ _ _ h).trans ?_
  rw [zero_add]
  congr 1
  refine List.ext_getElem (by simp; omega) fun j h1 h2 => ?_
  simp [List.getElem_take, List.getElem_tail]

/-! ## Specification -/

/-- A distribution that can be sampled: at increasing redshifts, nonnegative values with a positive
integral. -/
def IsDistribution (ks : List (ℝ × ℝ)) : Prop :=
  ks.Pairwise (fun a b => a.1 < b.1) ∧ (∀ k ∈ ks, 0 ≤ k.2) ∧ 0 < trapezoid ks

/-- The normalised cumulative distribution at the grid points: the integral from the first grid
point, divided by the total. -/
noncomputable def cumulative (ks : List (ℝ × ℝ)) (i : ℕ) : ℝ :=
  trapezoid (ks.take (i + 1)) / trapezoid ks

/-- The cumulative distribution, linear between the grid points. -/
noncomputable def cumulativeKnots (ks : List (ℝ × ℝ)) : List (ℝ × ℝ) :=
  ks.mapIdx fun i k => (k.1, cumulative ks i)

theorem IsDistribution.two_le {ks : List (ℝ × ℝ)} (h : IsDistribution ks) : 2 ≤ ks.length := by
  rcases ks with _ | ⟨a, _ | ⟨b, l⟩⟩
  · have := h.2.2; simp [trapezoid] at this
  · have := h.2.2; simp [trapezoid] at this
  · simp

/-- The knots of the model. -/
theorem cdf_knots {ks : List (ℝ × ℝ)} (hne : ks ≠ []) :
    List.zip (cdf ks) (ks.map Prod.fst) = (cumulativeKnots ks).map Prod.swap := by
  obtain ⟨hl, -, hlast, -⟩ := cumulative_trapezoid_spec hne
  have e : cdf ks = (cumulativeTrapezoid ks).map (· / trapezoid ks) := by
    simp only [cdf, hlast, Option.getD_some]
  rw [e]
  refine List.ext_getElem (by simp [cumulativeKnots, hl]) fun i h1 h2 => ?_
  have hi : i < ks.length := by simpa [cumulativeKnots] using h2
  simp only [List.getElem_zip, List.getElem_map, cumulativeKnots, List.getElem_mapIdx,
    Prod.swap_prod_mk, cumulative]
  rw [cumulativeTrapezoid_getElem ks i (by omega) hi]

theorem cumulativeKnots_facts {ks : List (ℝ × ℝ)} (h : IsDistribution ks) :
    (cumulativeKnots ks).Pairwise (fun a b => a.1 < b.1) ∧
    (cumulativeKnots ks).Pairwise (fun a b => a.2 ≤ b.2) ∧
    (∀ k ∈ (cumulativeKnots ks).head?, k.2 = 0) ∧
    (∀ k ∈ (cumulativeKnots ks).getLast?, k.2 = 1) := by
  obtain ⟨hx, hy, hp⟩ := h
  have h2 := IsDistribution.two_le ⟨hx, hy, hp⟩
  have hne : ks ≠ [] := by rintro rfl; simp at h2
  obtain ⟨hl, hhead, hlast, -⟩ := cumulative_trapezoid_spec hne
  have hmono := cumulative_trapezoid_mono (hx.imp fun h => h.le) hy
  refine ⟨?_, ?_, ?_, ?_⟩
  · rw [List.pairwise_iff_getElem] at hx ⊢
    intro i j hi hj hij
    simpa [cumulativeKnots] using
      hx i j (by simpa [cumulativeKnots] using hi) (by simpa [cumulativeKnots] using hj) hij
  · rw [List.pairwise_iff_getElem] at hmono ⊢
    intro i j hi hj hij
    have hi' : i < ks.length := by simpa [cumulativeKnots] using hi
    have hj' : j < ks.length := by simpa [cumulativeKnots] using hj
    have := hmono i j (by omega) (by omega) hij
    rw [cumulativeTrapezoid_getElem ks i _ hi', cumulativeTrapezoid_getElem ks j _ hj'] at this
    simp only [cumulativeKnots, List.getElem_mapIdx, cumulative]
    exact div_le_div_of_nonneg_right this hp.le
  · intro k hk
    rw [cumulativeKnots, List.head?_mapIdx] at hk
    rcases ks with _ | ⟨a, l⟩
    · exact absurd rfl hne
    · simp at hk
      rw [← hk]
      simp [cumulative, trapezoid]
  · intro k hk
    rw [cumulativeKnots, List.getLast?_mapIdx] at hk
    rw [List.getLast?_eq_some_getLast hne] at hk
    simp at hk
    rw [← hk]
    simp only [cumulative]
    rw [List.take_of_length_le (by omega), div_self hp.ne']

/-- **C62.** For every variate, the redshift is the point at which the cumulative distribution
has the value of the variate, and it is below a grid point exactly if the variate is below the
cumulative distribution there. -/
theorem inverse_cdf_spec {ks : List (ℝ × ℝ)} (h : IsDistribution ks) {u : ℝ} (h0 : 0 ≤ u)
    (h1 : u < 1) :
    interp none none (cumulativeKnots ks) (inverseCdf ks u) = u ∧
    ∀ (i : ℕ) (k : ℝ × ℝ), ks[i]? = some k → (inverseCdf ks u < k.1 ↔ u < cumulative ks i) := by
  have h2 := h.two_le
  have hne : ks ≠ [] := by rintro rfl; simp at h2
  obtain ⟨f1, f2, f3, f4⟩ := cumulativeKnots_facts h
  have hKne : cumulativeKnots ks ≠ [] := by
    intro e; have := congrArg List.length e; simp [cumulativeKnots] at this; exact hne this
  set K := (cumulativeKnots ks).map Prod.swap with hK
  have g1 : K.Pairwise fun a b => a.1 ≤ b.1 := by
    rw [hK, List.pairwise_map]; exact f2
  have g2 : K.Pairwise fun a b => a.2 < b.2 := by
    rw [hK, List.pairwise_map]; exact f1
  have g3 : ∀ k ∈ K.head?, k.1 = 0 := by
    intro k hk
    rw [hK, List.head?_map] at hk
    obtain ⟨m, hm, rfl⟩ := Option.map_eq_some_iff.1 hk
    exact f3 m hm
  have g4 : ∀ k ∈ K.getLast?, k.1 = 1 := by
    intro k hk
    rw [hK, List.getLast?_map] at hk
    obtain ⟨m, hm, rfl⟩ := Option.map_eq_some_iff.1 hk
    exact f4 m hm
  have gne : K ≠ [] := by rw [hK]; simpa using hKne
  obtain ⟨p1, p2⟩ := interpIn_inverse (u := u) g1 g2 (fun k hk => by rw [g3 k hk]; exact h0)
    (fun k hk => by rw [g4 k hk]; exact h1) gne
  have e : inverseCdf ks u = interpIn K u := by
    unfold inverseCdf interp
    rw [cdf_knots hne, ← hK, List.head?_eq_some_head gne, List.getLast?_eq_some_getLast gne]
    simp only
    have a := g3 _ (List.head?_eq_some_head gne)
    have b := g4 _ (List.getLast?_eq_some_getLast gne)
    rw [if_neg (by rw [a]; exact not_lt.2 h0), if_neg (by rw [b]; exact not_lt.2 h1.le)]
  have hswap : K.map Prod.swap = cumulativeKnots ks := by
    rw [hK, List.map_map]
    simp
  constructor
  · rw [hswap] at p2
    rw [← e] at p2
    unfold interp
    rw [List.head?_eq_some_head hKne, List.getLast?_eq_some_getLast hKne]
    simp only
    have a := f3 _ (List.head?_eq_some_head hKne)
    have b := f4 _ (List.getLast?_eq_some_getLast hKne)
    have q1 := (p1 ((cumulativeKnots ks).head hKne).swap
      (List.mem_map_of_mem (List.head_mem hKne))).2 (by simpa [a] using h0)
    have q2 := (p1 ((cumulativeKnots ks).getLast hKne).swap
      (List.mem_map_of_mem (List.getLast_mem hKne))).1 (by simpa [b] using h1)
    rw [← e, Prod.snd_swap] at q1 q2
    rw [if_neg (not_lt.2 q1), if_neg (not_lt.2 q2.le), p2]
  · intro i k hk
    have hm : (cumulative ks i, k.1) ∈ K := by
      rw [hK]
      refine List.mem_map.2 ⟨(k.1, cumulative ks i), ?_, rfl⟩
      obtain ⟨hi, rfl⟩ := List.getElem?_eq_some_iff.1 hk
      rw [cumulativeKnots, List.mem_mapIdx]
      exact ⟨i, hi, rfl⟩
    obtain ⟨q1, q2⟩ := p1 _ hm
    rw [e]
    exact ⟨fun hlt => not_le.1 fun hc => absurd hlt (not_lt.2 (q2 hc)), q1⟩

/-- **C62.** For a uniform variate, the probability that the redshift is below a grid point is the
cumulative distribution there. -/
theorem inverse_cdf_probability {ks : List (ℝ × ℝ)} (h : IsDistribution ks) {i : ℕ} {k : ℝ × ℝ}
    (hk : ks[i]? = some k) :
    volume {u : ℝ | u ∈ Set.Ico 0 1 ∧ inverseCdf ks u < k.1} = ENNReal.ofReal (cumulative ks i) := by
  have hi := (List.getElem?_eq_some_iff.1 hk).1
  have hc : 0 ≤ cumulative ks i ∧ cumulative ks i ≤ 1 := by
    obtain ⟨f1, f2, f3, f4⟩ := cumulativeKnots_facts h
    have hne : ks ≠ [] := by rintro rfl; simp at hi
    have hKne : cumulativeKnots ks ≠ [] := by
      intro e; have := congrArg List.length e; simp [cumulativeKnots] at this; exact hne this
    have hm : (k.1, cumulative ks i) ∈ cumulativeKnots ks := by
      obtain ⟨hi, rfl⟩ := List.getElem?_eq_some_iff.1 hk
      rw [cumulativeKnots, List.mem_mapIdx]
      exact ⟨i, hi, rfl⟩
    constructor
    · obtain ⟨a, l, e⟩ := List.exists_cons_of_ne_nil hKne
      have a0 := f3 a (by rw [e]; rfl)
      rw [e] at f2 hm
      rcases List.mem_cons.1 hm with rfl | hm
      · exact a0.ge
      · exact a0 ▸ (List.pairwise_cons.1 f2).1 _ hm
    · have b0 := f4 _ (List.getLast?_eq_some_getLast hKne)
      rw [← List.dropLast_append_getLast hKne] at hm f2
      rcases List.mem_append.1 hm with hm | hm
      · exact b0 ▸ (List.pairwise_append.1 f2).2.2 _ hm _ (by simp)
      · rw [List.mem_singleton] at hm
        rw [← hm] at b0; exact b0.le
  have : {u : ℝ | u ∈ Set.Ico 0 1 ∧ inverseCdf ks u < k.1} = Set.Ico 0 (cumulative ks i) := by
    ext u
    constructor
    · rintro ⟨⟨h0, h1⟩, hlt⟩
      exact ⟨h0, ((inverse_cdf_spec h h0 h1).2 i k hk).1 hlt⟩
    · rintro ⟨h0, h1⟩
      have h1' : u < 1 := lt_of_lt_of_le h1 hc.2
      exact ⟨⟨h0, h1'⟩, ((inverse_cdf_spec h h0 h1').2 i k hk).2 h1⟩
  rw [this, Real.volume_Ico, sub_zero]

/-- Redshifts lie in the range of the grid. -/
theorem inverse_cdf_range {ks : List (ℝ × ℝ)} (h : IsDistribution ks) {u : ℝ} (h0 : 0 ≤ u)
    (h1 : u < 1) {a b : ℝ × ℝ} (ha : ks.head? = some a) (hb : ks.getLast? = some b) :
    a.1 ≤ inverseCdf ks u ∧ inverseCdf ks u < b.1 := by
  obtain ⟨-, hs⟩ := inverse_cdf_spec h h0 h1
  have h2 := h.two_le
  constructor
  · rw [List.head?_eq_getElem?] at ha
    rw [← not_lt, hs 0 a ha, not_lt]
    have : cumulative ks 0 = 0 := by
      rcases ks with _ | ⟨c, l⟩
      · simp at h2
      · simp [cumulative, trapezoid]
    rw [this]; exact h0
  · rw [List.getLast?_eq_getElem?] at hb
    rw [hs _ b hb, cumulative, List.take_of_length_le (by omega), div_self h.2.2.ne']
    exact h1

/-- Concrete case: a distribution with a stretch of zeros. -/
example : IsDistribution [(0, 2), (1, 0), (2, 0), (3, 4)] ∧
    cumulative [(0, 2), (1, 0), (2, 0), (3, 4)] 1 = 1 / 3 := by
  refine ⟨⟨?_, ?_, ?_⟩, ?_⟩
  · simp; norm_num
  · simp
  · norm_num [trapezoid]
  · norm_num [cumulative, trapezoid]

end Glass.Galaxies
