import Verif.Numerics.Lemmas
import Verif.Shells.Model

/-!
# Lemmas about the interpolation windows
-/

namespace Glass.Shells

open Glass.Num

theorem gridSize_ge (rnd : ℝ → ℤ) (dz a b : ℝ) : 2 ≤ gridSize rnd dz a b := by
  unfold gridSize
  have : (2 : ℤ) ≤ max (rnd ((b - a) / dz)) 2 := le_max_right _ _
  omega

/-- Rising profile over `[a, b]`. -/
noncomputable def rise (p : ℝ → ℝ) (a b t : ℝ) : ℝ := p ((t - a) / (b - a))

/-- Falling profile over `[a, b]`. -/
noncomputable def fall (p : ℝ → ℝ) (a b t : ℝ) : ℝ := p (1 - (t - a) / (b - a))

theorem zip_open (p : ℝ → ℝ) {a b : ℝ} (hab : a < b) (n : ℕ) :
    (linspaceOpen a b n).zip ((linspaceOpen 0 1 n).map p) =
      sample (rise p a b) (linspaceOpen a b n) := by
  unfold linspaceOpen sample
  rw [List.map_map, List.map_map, List.zip_map', List.map_inj_left]
  intro k _
  have : b - a ≠ 0 := by linarith
  simp only [Function.comp, rise]
  congr 2
  field_simp
  ring

theorem zip_down (p : ℝ → ℝ) {a b : ℝ} (hab : a < b) (n : ℕ) :
    (linspace a b n).zip ((linspace 1 0 n).map p) = sample (fall p a b) (linspace a b n) := by
  unfold linspace sample
  rw [List.map_map, List.map_map, List.zip_map', List.map_inj_left]
  intro k _
  have : b - a ≠ 0 := by linarith
  simp only [Function.comp, fall]
  congr 2
  field_simp
  ring

/-- The knots of one window, for the profile `p` (linear: `u`, cubic: `u ^ 2 * (3 - 2 * u)`). -/
noncomputable def windowKnots (p : ℝ → ℝ) (rnd : ℝ → ℤ) (dz a b c : ℝ) : List (ℝ × ℝ) :=
  sample (rise p a b) (linspaceOpen a b (gridSize rnd dz a b - 1)) ++
    sample (fall p b c) (linspace b c (gridSize rnd dz b c))

theorem linearWindow_knots {rnd : ℝ → ℤ} {dz a b c : ℝ} (hab : a < b) (hbc : b < c) :
    (linearWindow rnd dz none a b c).knots = windowKnots id rnd dz a b c := by
  unfold linearWindow windowKnots
  rw [← zip_open id hab, ← zip_down id hbc]
  simp only [applyWeight, List.map_id]
  rw [List.zip_append]
  simp [linspaceOpen]

theorem cubicWindow_knots {rnd : ℝ → ℤ} {dz a b c : ℝ} (hab : a < b) (hbc : b < c) :
    (cubicWindow rnd dz none a b c).knots =
      windowKnots (fun u => u ^ 2 * (3 - 2 * u)) rnd dz a b c := by
  unfold cubicWindow windowKnots
  rw [← zip_open (fun u => u ^ 2 * (3 - 2 * u)) hab, ← zip_down (fun u => u ^ 2 * (3 - 2 * u)) hbc]
  simp only [applyWeight]
  rw [List.zip_append]
  simp [linspaceOpen]

theorem linspace_cons {a b : ℝ} {n : ℕ} (hn : 2 ≤ n) : ∃ l, linspace a b n = a :: l := by
  have := linspace_head (a := a) (b := b) (n := n) (by omega)
  rcases h : linspace a b n with _ | ⟨x, l⟩
  · rw [h] at this; simp at this
  · rw [h] at this; simp at this; exact ⟨l, by rw [this]⟩

theorem last_gt {b c : ℝ} {n : ℕ} (hbc : b < c) (hn : 2 ≤ n) {t : ℝ} (ht : t ∈ linspace b c n) :
    b ≤ t ∧ t ≤ c := by
  exact ⟨head_le (linspace_sorted hbc n) (linspace_head (by omega)) ht,
    le_last (linspace_sorted hbc n) (linspace_last hn) ht⟩

theorem open_lt {a b : ℝ} {n : ℕ} (hab : a < b) {t : ℝ} (ht : t ∈ linspaceOpen a b n) :
    a ≤ t ∧ t < b := by
  rcases Nat.eq_zero_or_pos n with rfl | hn
  · simp [linspaceOpen] at ht
  have e := linspace_eq_open (a := a) (b := b) hn
  have h1 := linspace_sorted hab (n + 1)
  have h2 := linspace_head (a := a) (b := b) (n := n + 1) (by omega)
  constructor
  · exact head_le h1 h2 (by rw [e]; simp [ht])
  · rw [e] at h1
    exact (List.pairwise_append.1 h1).2.2 t ht b (by simp)

theorem windowGrid_sorted {a b c : ℝ} {n m : ℕ} (hab : a < b) (hbc : b < c) (hm : 2 ≤ m) :
    (linspaceOpen a b n ++ linspace b c m).Pairwise (· < ·) := by
  rw [List.pairwise_append]
  refine ⟨linspaceOpen_sorted hab n, linspace_sorted hbc m, ?_⟩
  intro s hs t ht
  exact lt_of_lt_of_le (open_lt hab hs).2 (last_gt hbc hm ht).1

theorem windowKnots_inc {p : ℝ → ℝ} {rnd : ℝ → ℤ} {dz a b c : ℝ} (hab : a < b) (hbc : b < c) :
    Inc (windowKnots p rnd dz a b c) := by
  have h := windowGrid_sorted (n := gridSize rnd dz a b - 1) hab hbc (gridSize_ge rnd dz b c)
  unfold windowKnots Inc sample
  rw [← List.pairwise_map (f := Prod.fst) (R := (· < ·))]
  simpa [List.map_append, List.map_map, Function.comp_def] using h

/-- The rising part on the closed grid. -/
noncomputable def ascending (p : ℝ → ℝ) (rnd : ℝ → ℤ) (dz a b x : ℝ) : ℝ :=
  interpIn (sample (rise p a b) (linspace a b (gridSize rnd dz a b))) x

theorem windowKnots_head {p : ℝ → ℝ} {rnd : ℝ → ℤ} {dz a b c : ℝ} :
    (windowKnots p rnd dz a b c).head? = some (a, rise p a b a) := by
  have h2 := gridSize_ge rnd dz a b
  obtain ⟨k, hk⟩ : ∃ k, gridSize rnd dz a b - 1 = k + 1 := ⟨gridSize rnd dz a b - 2, by omega⟩
  unfold windowKnots
  rw [hk]
  simp [linspaceOpen, List.range_succ_eq_map, sample]

theorem windowKnots_last {p : ℝ → ℝ} {rnd : ℝ → ℤ} {dz a b c : ℝ} :
    (windowKnots p rnd dz a b c).getLast? = some (c, fall p b c c) := by
  unfold windowKnots
  rw [List.getLast?_append]
  simp [sample, List.getLast?_map, linspace_last (gridSize_ge rnd dz b c)]

theorem window_left {p : ℝ → ℝ} (p1 : p 1 = 1) {rnd : ℝ → ℤ} {dz a b c x : ℝ} (hab : a < b)
    (hbc : b < c) (hx : x ≤ b) :
    interpIn (windowKnots p rnd dz a b c) x = ascending p rnd dz a b x := by
  have hi := windowKnots_inc (p := p) (rnd := rnd) (dz := dz) hab hbc
  have h2 := gridSize_ge rnd dz a b
  obtain ⟨l, hl⟩ := linspace_cons (a := b) (b := c) (gridSize_ge rnd dz b c)
  have e0 : fall p b c b = 1 := by simp [fall, p1]
  have e1 : rise p a b b = 1 := by
    have : b - a ≠ 0 := by linarith
    simp [rise, div_self this, p1]
  have ek : windowKnots p rnd dz a b c =
      sample (rise p a b) (linspaceOpen a b (gridSize rnd dz a b - 1)) ++
        (b, 1) :: sample (fall p b c) l := by
    unfold windowKnots
    rw [hl]; simp [sample, e0]
  rw [ek] at hi ⊢
  have hne : sample (rise p a b) (linspaceOpen a b (gridSize rnd dz a b - 1)) ≠ [] := by
    intro h
    have := congrArg List.length h
    simp [sample, linspaceOpen] at this
    omega
  rw [interpIn_append_left hi hne hx]
  unfold ascending
  have e2 := linspace_eq_open (a := a) (b := b) (n := gridSize rnd dz a b - 1) (by omega)
  rw [Nat.sub_add_cancel (by omega)] at e2
  rw [e2]
  simp [sample, e1]

theorem window_right {p : ℝ → ℝ} (hp : ∀ u, p u + p (1 - u) = 1) {rnd : ℝ → ℤ} {dz a b c x : ℝ}
    (hab : a < b) (hbc : b < c) (hx : b ≤ x) :
    interpIn (windowKnots p rnd dz a b c) x = 1 - ascending p rnd dz b c x := by
  have hi := windowKnots_inc (p := p) (rnd := rnd) (dz := dz) hab hbc
  obtain ⟨l, hl⟩ := linspace_cons (a := b) (b := c) (gridSize_ge rnd dz b c)
  have ek : windowKnots p rnd dz a b c =
      sample (rise p a b) (linspaceOpen a b (gridSize rnd dz a b - 1)) ++
        (b, fall p b c b) :: sample (fall p b c) l := by
    unfold windowKnots
    rw [hl]; simp [sample]
  rw [ek] at hi ⊢
  rw [interpIn_append_right hi hx]
  have e2 : (b, fall p b c b) :: sample (fall p b c) l =
      sample (fall p b c) (linspace b c (gridSize rnd dz b c)) := by
    rw [hl]; simp [sample]
  rw [e2]
  have := interpIn_sample_add (rise p b c) (fall p b c) (linspace b c (gridSize rnd dz b c)) x
  have e3 : sample (fun t => rise p b c t + fall p b c t) (linspace b c (gridSize rnd dz b c)) =
      sample (fun _ => 1) (linspace b c (gridSize rnd dz b c)) :=
    sample_congr fun t _ => hp _
  rw [e3, interpIn_sample_const 1 _ _ (by rw [hl]; simp)] at this
  unfold ascending
  linarith

/-- Step from zero to one over `[a, b]`. -/
noncomputable def step (p : ℝ → ℝ) (rnd : ℝ → ℤ) (dz a b x : ℝ) : ℝ :=
  open Classical in if x < a then 0 else if b < x then 1 else ascending p rnd dz a b x

theorem ascending_left {p : ℝ → ℝ} (p0 : p 0 = 0) {rnd : ℝ → ℤ} {dz a b : ℝ} (hab : a < b) :
    ascending p rnd dz a b a = 0 := by
  obtain ⟨l, hl⟩ := linspace_cons (a := a) (b := b) (gridSize_ge rnd dz a b)
  have hi : Inc (sample (rise p a b) (linspace a b (gridSize rnd dz a b))) :=
    inc_sample.2 (linspace_sorted hab _)
  have := interpIn_knot hi (a, rise p a b a) (by rw [hl]; simp [sample])
  unfold ascending
  rw [this]; simp [rise, p0]

theorem ascending_right {p : ℝ → ℝ} (p1 : p 1 = 1) {rnd : ℝ → ℤ} {dz a b : ℝ} (hab : a < b) :
    ascending p rnd dz a b b = 1 := by
  have h2 := gridSize_ge rnd dz a b
  have e2 := linspace_eq_open (a := a) (b := b) (n := gridSize rnd dz a b - 1) (by omega)
  rw [Nat.sub_add_cancel (by omega)] at e2
  have hi : Inc (sample (rise p a b) (linspace a b (gridSize rnd dz a b))) :=
    inc_sample.2 (linspace_sorted hab _)
  have := interpIn_knot hi (b, rise p a b b) (by rw [e2]; simp [sample])
  have hba : b - a ≠ 0 := by linarith
  unfold ascending
  rw [this]; simp [rise, div_self hba, p1]

/-- The profile only takes values between zero and one. -/
theorem ascending_bounds {p : ℝ → ℝ} (hb : ∀ u, 0 ≤ u → u ≤ 1 → 0 ≤ p u ∧ p u ≤ 1) {rnd : ℝ → ℤ}
    {dz a b x : ℝ} (hab : a < b) (hx : a ≤ x) :
    0 ≤ ascending p rnd dz a b x ∧ ascending p rnd dz a b x ≤ 1 := by
  obtain ⟨l, hl⟩ := linspace_cons (a := a) (b := b) (gridSize_ge rnd dz a b)
  apply interpIn_bounds (inc_sample.2 (linspace_sorted hab _))
  · rw [hl]; simp [sample]
  · rw [hl]; simpa [sample] using hx
  · intro k hk
    unfold sample at hk
    obtain ⟨t, ht, rfl⟩ := List.mem_map.1 hk
    have := last_gt hab (gridSize_ge rnd dz a b) ht
    apply hb
    · exact div_nonneg (by linarith) (by linarith)
    · rw [div_le_one (by linarith)]; linarith

/-- A window is the difference of two steps. -/
theorem window_step {p : ℝ → ℝ} (p0 : p 0 = 0) (p1 : p 1 = 1) (hp : ∀ u, p u + p (1 - u) = 1)
    {rnd : ℝ → ℤ} {dz a b c x : ℝ} (hab : a < b) (hbc : b < c) :
    interp (some 0) (some 0) (windowKnots p rnd dz a b c) x =
      step p rnd dz a b x - step p rnd dz b c x := by
  unfold interp
  rw [windowKnots_head, windowKnots_last]
  unfold step
  by_cases h1 : x < a
  · have h2 : x < b := by linarith
    simp [h1, h2]
  · by_cases h2 : c < x
    · have h3 : b < x := by linarith
      have h4 : ¬ x < b := by linarith
      simp [h1, h2, h3, h4]
    · by_cases h3 : x < b
      · have h4 : ¬ b < x := by linarith
        simp only [h1, h2, h3, h4, if_true, if_false, sub_zero]
        exact window_left p1 hab hbc h3.le
      · by_cases h4 : b < x
        · simp only [h1, h2, h3, h4, if_true, if_false]
          exact window_right hp hab hbc h4.le
        · have : x = b := le_antisymm (not_lt.1 h4) (not_lt.1 h3)
          subst this
          simp only [h1, h2, h3, if_false]
          rw [ascending_left p0 hbc, sub_zero]
          exact window_left p1 hab hbc le_rfl

theorem step_bounds {p : ℝ → ℝ} (hb : ∀ u, 0 ≤ u → u ≤ 1 → 0 ≤ p u ∧ p u ≤ 1) {rnd : ℝ → ℤ}
    {dz a b x : ℝ} (hab : a < b) : 0 ≤ step p rnd dz a b x ∧ step p rnd dz a b x ≤ 1 := by
  unfold step
  split_ifs with h1 h2
  · simp
  · simp
  · exact ascending_bounds hb hab (not_lt.1 h1)

theorem step_eq_one {p : ℝ → ℝ} (p1 : p 1 = 1) {rnd : ℝ → ℤ} {dz a b x : ℝ} (hab : a < b)
    (hx : b ≤ x) : step p rnd dz a b x = 1 := by
  unfold step
  have : ¬ x < a := by linarith
  rcases hx.lt_or_eq with h | rfl
  · simp [this, h]
  · simp [this, ascending_right p1 hab]

theorem step_eq_zero {p : ℝ → ℝ} (p0 : p 0 = 0) {rnd : ℝ → ℤ} {dz a b x : ℝ} (hab : a < b)
    (hx : x ≤ a) : step p rnd dz a b x = 0 := by
  unfold step
  rcases hx.lt_or_eq with h | rfl
  · simp [h]
  · simp [not_lt.2 hab.le, ascending_left p0 hab]

/-- Sums over triples of differences of steps telescope. -/
theorem telescope (s : ℝ → ℝ → ℝ) : ∀ (z0 z1 : ℝ) (l : List ℝ) (y y' : ℝ),
    (z0 :: z1 :: l).getLast? = some y' → (z0 :: z1 :: l).dropLast.getLast? = some y →
    ((triples (z0 :: z1 :: l)).map fun t => s t.1 t.2.1 - s t.2.1 t.2.2).sum = s z0 z1 - s y y'
  | z0, z1, [], y, y', h, h' => by
    simp at h h'
    subst h h'
    simp [triples]
  | z0, z1, z2 :: l, y, y', h, h' => by
    have ih := telescope s z1 z2 l y y' (by simpa using h) (by simpa using h')
    simp only [triples, List.tail_cons] at ih ⊢
    simp only [List.zip_cons_cons, List.map_cons, List.sum_cons]
    rw [ih]; ring

/-- Members of `triples` of a strictly increasing list increase. -/
theorem triples_lt : ∀ {l : List ℝ}, l.Pairwise (· < ·) → ∀ t ∈ triples l, t.1 < t.2.1 ∧ t.2.1 < t.2.2
  | [], _, t, ht => by simp [triples] at ht
  | [a], _, t, ht => by simp [triples] at ht
  | [a, b], _, t, ht => by simp [triples] at ht
  | a :: b :: c :: l, h, t, ht => by
    simp only [triples, List.tail_cons, List.zip_cons_cons, List.mem_cons] at ht
    rcases ht with rfl | ht
    · have h1 := (List.pairwise_cons.1 h).1 b (by simp)
      have h2 := (List.pairwise_cons.1 (List.pairwise_cons.1 h).2).1 c (by simp)
      exact ⟨h1, h2⟩
    · exact triples_lt (List.pairwise_cons.1 h).2 t (by simpa [triples] using ht)

theorem dropLast_last : ∀ (l : List ℝ), 2 ≤ l.length → ∃ y y', l.getLast? = some y' ∧
    l.dropLast.getLast? = some y ∧ (l.Pairwise (· < ·) → y < y') ∧ y = l[l.length - 2]! ∧
    y' = l[l.length - 1]!
  | [], h => by simp at h
  | [a], h => by simp at h
  | [a, b], _ => ⟨a, b, by simp⟩
  | a :: b :: c :: l, _ => by
    obtain ⟨y, y', h1, h2, h3, h4, h5⟩ := dropLast_last (b :: c :: l) (by simp)
    refine ⟨y, y', by simpa using h1, by simpa using h2, fun h => h3 (List.pairwise_cons.1 h).2,
      ?_, ?_⟩
    · rw [h4]; simp
    · rw [h5]; simp

end Glass.Shells
