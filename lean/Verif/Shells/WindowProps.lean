import Verif.Shells.WindowLemmas

/-!
# Properties of the window functions (C27, C28, C29)
-/

namespace Glass.Shells

open Glass.Num

/-- The window function at a redshift: linear interpolation, zero outside. -/
noncomputable def RadialWindow.eval (w : RadialWindow) (x : ℝ) : ℝ :=
  interp (some 0) (some 0) w.knots x

/-! ## Interpolation windows of any profile -/

section Profile

variable {p : ℝ → ℝ} {rnd : ℝ → ℤ} {dz : ℝ}

theorem sum_windows (p0 : p 0 = 0) (p1 : p 1 = 1) (hp : ∀ u, p u + p (1 - u) = 1)
    {win : ℝ → ℝ → ℝ → RadialWindow}
    (hwin : ∀ a b c, a < b → b < c → (win a b c).knots = windowKnots p rnd dz a b c)
    {zgrid : List ℝ} (hz : zgrid.Pairwise (· < ·)) (x : ℝ) {z0 z1 : ℝ} {l : List ℝ}
    (hl : zgrid = z0 :: z1 :: l) :
    (((triples zgrid).map fun t => win t.1 t.2.1 t.2.2).map fun w => w.eval x).sum =
      step p rnd dz z0 z1 x - step p rnd dz zgrid[zgrid.length - 2]! zgrid[zgrid.length - 1]! x := by
  obtain ⟨y, y', h1, h2, h3, h4, h5⟩ := dropLast_last zgrid (by rw [hl]; simp)
  have e : (((triples zgrid).map fun t => win t.1 t.2.1 t.2.2).map fun w => w.eval x) =
      (triples zgrid).map fun t => step p rnd dz t.1 t.2.1 x - step p rnd dz t.2.1 t.2.2 x := by
    rw [List.map_map, List.map_inj_left]
    intro t ht
    obtain ⟨ht1, ht2⟩ := triples_lt hz t ht
    simp only [Function.comp, RadialWindow.eval, hwin _ _ _ ht1 ht2]
    exact window_step p0 p1 hp ht1 ht2
  rw [e, ← h4, ← h5]
  subst hl
  exact telescope (fun a b => step p rnd dz a b x) z0 z1 l y y' h1 h2

end Profile

theorem linear_profile : (∀ u : ℝ, id u + id (1 - u) = 1) ∧
    (∀ u : ℝ, 0 ≤ u → u ≤ 1 → 0 ≤ id u ∧ id u ≤ 1) :=
  ⟨fun u => by simp, fun u h0 h1 => ⟨h0, h1⟩⟩

theorem cubic_profile : (∀ u : ℝ, u ^ 2 * (3 - 2 * u) + (1 - u) ^ 2 * (3 - 2 * (1 - u)) = 1) ∧
    (∀ u : ℝ, 0 ≤ u → u ≤ 1 → 0 ≤ u ^ 2 * (3 - 2 * u) ∧ u ^ 2 * (3 - 2 * u) ≤ 1) := by
  refine ⟨fun u => by ring, fun u h0 h1 => ⟨mul_nonneg (sq_nonneg u) (by linarith), ?_⟩⟩
  have : 0 ≤ (1 - u) ^ 2 * (1 + 2 * u) := mul_nonneg (sq_nonneg _) (by linarith)
  nlinarith

/-! ## C27: linear windows -/

/-- `linear_windows` fails exactly for fewer than three nodes. -/
theorem linear_windows_error_iff (rnd : ℝ → ℤ) (zgrid : List ℝ) (dz : ℝ)
    (weight : Option (ℝ → ℝ)) :
    (∃ e, linearWindows rnd zgrid dz weight = .error e) ↔ zgrid.length < 3 := by
  unfold linearWindows
  split_ifs with h <;> simp [h]

/-- **C27.** Between the second and the second-to-last node the linear windows sum to one. -/
theorem linear_windows_partition_of_unity {rnd : ℝ → ℤ} {zgrid : List ℝ} {dz : ℝ}
    {ws : List RadialWindow} (hz : zgrid.Pairwise (· < ·))
    (h : linearWindows rnd zgrid dz none = .ok ws) {x : ℝ} (h1 : zgrid[1]! ≤ x)
    (h2 : x ≤ zgrid[zgrid.length - 2]!) :
    (ws.map fun w => w.eval x).sum = 1 := by
  unfold linearWindows at h
  split_ifs at h with hl
  simp only [Except.ok.injEq] at h
  subst h
  obtain ⟨z0, z1, l, rfl⟩ : ∃ z0 z1 l, zgrid = z0 :: z1 :: l := by
    rcases zgrid with _ | ⟨z0, _ | ⟨z1, l⟩⟩
    · simp at hl
    · simp at hl
    · exact ⟨_, _, _, rfl⟩
  rw [sum_windows (p := id) rfl rfl linear_profile.1
    (fun a b c hab hbc => linearWindow_knots hab hbc) hz x rfl]
  obtain ⟨y, y', -, -, h3, h4, h5⟩ := dropLast_last (z0 :: z1 :: l) (by simp)
  rw [step_eq_one rfl ((List.pairwise_cons.1 hz).1 z1 (by simp)) (by simpa using h1),
    ← h4, ← h5, step_eq_zero rfl (h3 hz) (by rw [h4]; exact h2), sub_zero]

/-- Everywhere the linear windows sum to a number between zero and one; they sum to zero outside
the nodes. -/
theorem linear_windows_sum_bounds {rnd : ℝ → ℤ} {zgrid : List ℝ} {dz : ℝ}
    {ws : List RadialWindow} (hz : zgrid.Pairwise (· < ·))
    (h : linearWindows rnd zgrid dz none = .ok ws) (x : ℝ) :
    (ws.map fun w => w.eval x).sum ≤ 1 ∧
      ∀ w ∈ ws, 0 ≤ w.eval x ∧ ((x ≤ zgrid[0]! ∨ zgrid[zgrid.length - 1]! ≤ x) → w.eval x = 0) := by
  unfold linearWindows at h
  split_ifs at h with hl
  simp only [Except.ok.injEq] at h
  subst h
  obtain ⟨z0, z1, l, rfl⟩ : ∃ z0 z1 l, zgrid = z0 :: z1 :: l := by
    rcases zgrid with _ | ⟨z0, _ | ⟨z1, l⟩⟩
    · simp at hl
    · simp at hl
    · exact ⟨_, _, _, rfl⟩
  obtain ⟨y, y', hy1, hy2, h3, h4, h5⟩ := dropLast_last (z0 :: z1 :: l) (by simp)
  constructor
  · rw [sum_windows (p := id) rfl rfl linear_profile.1
      (fun a b c hab hbc => linearWindow_knots hab hbc) hz x rfl]
    have b1 := step_bounds (rnd := rnd) (dz := dz) (x := x) linear_profile.2
      ((List.pairwise_cons.1 hz).1 z1 (by simp))
    have b2 := step_bounds (rnd := rnd) (dz := dz) (x := x) linear_profile.2 (h3 hz)
    rw [← h4, ← h5]
    linarith [b1.2, b2.1]
  · intro w hw
    obtain ⟨t, ht, rfl⟩ := List.mem_map.1 hw
    obtain ⟨ht1, ht2⟩ := triples_lt hz t ht
    have e : (linearWindow rnd dz none t.1 t.2.1 t.2.2).eval x =
        step id rnd dz t.1 t.2.1 x - step id rnd dz t.2.1 t.2.2 x := by
      rw [RadialWindow.eval, linearWindow_knots ht1 ht2]
      exact window_step rfl rfl linear_profile.1 ht1 ht2
    have hm1 : t.1 ∈ (z0 :: z1 :: l) := (List.of_mem_zip (a := t.1) (b := t.2) ht).1
    have hm2 : t.2.2 ∈ (z0 :: z1 :: l) := by
      have := (List.of_mem_zip (a := t.1) (b := t.2) ht).2
      have := (List.of_mem_zip (a := t.2.1) (b := t.2.2) this).2
      exact List.mem_of_mem_tail (List.mem_of_mem_tail this)
    rw [e]
    constructor
    · rcases le_total x t.2.1 with hx | hx
      · rw [step_eq_zero (a := t.2.1) rfl ht2 hx]
        linarith [(step_bounds (rnd := rnd) (dz := dz) (x := x) linear_profile.2 ht1).1]
      · rw [step_eq_one (b := t.2.1) rfl ht1 hx]
        linarith [(step_bounds (rnd := rnd) (dz := dz) (x := x) linear_profile.2 ht2).2]
    · rintro (hx | hx)
      · have : z0 ≤ t.1 := head_le hz rfl hm1
        have hx' : x ≤ t.1 := by simp at hx; linarith
        rw [step_eq_zero rfl ht1 hx', step_eq_zero rfl ht2 (by linarith), sub_zero]
      · have : t.2.2 ≤ y' := le_last hz hy1 hm2
        have hx' : t.2.2 ≤ x := by rw [h5] at this; linarith
        rw [step_eq_one rfl ht1 (by linarith), step_eq_one rfl ht2 hx', sub_self]

/-- There is one linear window for each inner node, its effective redshift is the node, where the
window is one. -/
theorem linear_windows_nodes {rnd : ℝ → ℤ} {zgrid : List ℝ} {dz : ℝ} {ws : List RadialWindow}
    (hz : zgrid.Pairwise (· < ·)) (h : linearWindows rnd zgrid dz none = .ok ws) :
    ws.map RadialWindow.zeff = (zgrid.drop 1).dropLast ∧ ∀ w ∈ ws, w.eval w.zeff = 1 := by
  unfold linearWindows at h
  split_ifs at h with hl
  simp only [Except.ok.injEq] at h
  subst h
  constructor
  · apply List.ext_getElem
    · simp [triples]; omega
    · intro i h1 h2
      simp [triples, linearWindow]
  · intro w hw
    obtain ⟨t, ht, rfl⟩ := List.mem_map.1 hw
    obtain ⟨ht1, ht2⟩ := triples_lt hz t ht
    rw [RadialWindow.eval, linearWindow_knots ht1 ht2,
      window_step rfl rfl linear_profile.1 ht1 ht2]
    have : (linearWindow rnd dz none t.1 t.2.1 t.2.2).zeff = t.2.1 := rfl
    rw [this, step_eq_one rfl ht1 le_rfl, step_eq_zero rfl ht2 le_rfl, sub_zero]

/-- Concrete case: nodes 0, 1, 2, 4, 5 with spacing 1/2. -/
example : ∃ ws, linearWindows (fun x => ⌊x⌋) [0, 1, 2, 4, 5] (1 / 2) none = .ok ws ∧
    ws.length = 3 ∧ (ws.map fun w => w.eval 3).sum = 1 := by
  refine ⟨_, rfl, rfl, ?_⟩
  exact linear_windows_partition_of_unity (zgrid := [0, 1, 2, 4, 5]) (by norm_num) rfl
    (by norm_num) (by norm_num)

/-! ## C28: cubic windows -/

theorem cubic_windows_error_iff (rnd : ℝ → ℤ) (zgrid : List ℝ) (dz : ℝ)
    (weight : Option (ℝ → ℝ)) :
    (∃ e, cubicWindows rnd zgrid dz weight = .error e) ↔ zgrid.length < 3 := by
  unfold cubicWindows
  split_ifs with h <;> simp [h]

/-- **C28.** Between the second and the second-to-last node the cubic windows sum to one. -/
theorem cubic_windows_partition_of_unity {rnd : ℝ → ℤ} {zgrid : List ℝ} {dz : ℝ}
    {ws : List RadialWindow} (hz : zgrid.Pairwise (· < ·))
    (h : cubicWindows rnd zgrid dz none = .ok ws) {x : ℝ} (h1 : zgrid[1]! ≤ x)
    (h2 : x ≤ zgrid[zgrid.length - 2]!) :
    (ws.map fun w => w.eval x).sum = 1 := by
  unfold cubicWindows at h
  split_ifs at h with hl
  simp only [Except.ok.injEq] at h
  subst h
  obtain ⟨z0, z1, l, rfl⟩ : ∃ z0 z1 l, zgrid = z0 :: z1 :: l := by
    rcases zgrid with _ | ⟨z0, _ | ⟨z1, l⟩⟩
    · simp at hl
    · simp at hl
    · exact ⟨_, _, _, rfl⟩
  have p0 : (fun u : ℝ => u ^ 2 * (3 - 2 * u)) 0 = 0 := by norm_num
  have p1 : (fun u : ℝ => u ^ 2 * (3 - 2 * u)) 1 = 1 := by norm_num
  rw [sum_windows (p := fun u : ℝ => u ^ 2 * (3 - 2 * u)) p0 p1 cubic_profile.1
    (fun a b c hab hbc => cubicWindow_knots hab hbc) hz x rfl]
  obtain ⟨y, y', -, -, h3, h4, h5⟩ := dropLast_last (z0 :: z1 :: l) (by simp)
  rw [step_eq_one p1 ((List.pairwise_cons.1 hz).1 z1 (by simp)) (by simpa using h1),
    ← h4, ← h5, step_eq_zero p0 (h3 hz) (by rw [h4]; exact h2), sub_zero]

/-- Every cubic window is one at its effective redshift, the inner node, nonnegative, and zero
outside the two neighbouring nodes. -/
theorem cubic_windows_nodes {rnd : ℝ → ℤ} {zgrid : List ℝ} {dz : ℝ} {ws : List RadialWindow}
    (hz : zgrid.Pairwise (· < ·)) (h : cubicWindows rnd zgrid dz none = .ok ws) :
    ws.map RadialWindow.zeff = (zgrid.drop 1).dropLast ∧
      ∀ w ∈ ws, w.eval w.zeff = 1 ∧ ∀ x, 0 ≤ w.eval x := by
  unfold cubicWindows at h
  split_ifs at h with hl
  simp only [Except.ok.injEq] at h
  subst h
  have p0 : (fun u : ℝ => u ^ 2 * (3 - 2 * u)) 0 = 0 := by norm_num
  have p1 : (fun u : ℝ => u ^ 2 * (3 - 2 * u)) 1 = 1 := by norm_num
  constructor
  · apply List.ext_getElem
    · simp [triples]; omega
    · intro i h1 h2
      simp [triples, cubicWindow]
  · intro w hw
    obtain ⟨t, ht, rfl⟩ := List.mem_map.1 hw
    obtain ⟨ht1, ht2⟩ := triples_lt hz t ht
    have e : ∀ x, (cubicWindow rnd dz none t.1 t.2.1 t.2.2).eval x =
        step (fun u : ℝ => u ^ 2 * (3 - 2 * u)) rnd dz t.1 t.2.1 x -
          step (fun u : ℝ => u ^ 2 * (3 - 2 * u)) rnd dz t.2.1 t.2.2 x := by
      intro x
      rw [RadialWindow.eval, cubicWindow_knots ht1 ht2]
      exact window_step p0 p1 cubic_profile.1 ht1 ht2
    constructor
    · have : (cubicWindow rnd dz none t.1 t.2.1 t.2.2).zeff = t.2.1 := rfl
      rw [e, this, step_eq_one p1 ht1 le_rfl, step_eq_zero p0 ht2 le_rfl, sub_zero]
    · intro x
      rw [e]
      rcases le_total x t.2.1 with hx | hx
      · rw [step_eq_zero (a := t.2.1) p0 ht2 hx]
        linarith [(step_bounds (rnd := rnd) (dz := dz) (x := x) cubic_profile.2 ht1).1]
      · rw [step_eq_one (b := t.2.1) p1 ht1 hx]
        linarith [(step_bounds (rnd := rnd) (dz := dz) (x := x) cubic_profile.2 ht2).2]

/-- Concrete case. -/
example : ∃ ws, cubicWindows (fun x => ⌊x⌋) [0, 1, 2, 4, 5] (1 / 10) none = .ok ws ∧
    ws.length = 3 ∧ (ws.map fun w => w.eval 3).sum = 1 := by
  refine ⟨_, rfl, rfl, ?_⟩
  exact cubic_windows_partition_of_unity (zgrid := [0, 1, 2, 4, 5]) (by norm_num) rfl
    (by norm_num) (by norm_num)

/-! ## C29: tophat windows -/

theorem tophat_windows_error_iff (rnd : ℝ → ℤ) (zbins : List ℝ) (dz : ℝ)
    (weight : Option (ℝ → ℝ)) :
    (∃ e, tophatWindows rnd zbins dz weight = .error e) ↔ zbins.length < 2 := by
  unfold tophatWindows
  split_ifs with h <;> simp [h]

theorem zip_map_sample (f : ℝ → ℝ) (l : List ℝ) : l.zip (l.map f) = sample f l := by
  unfold sample
  induction l with
  | nil => rfl
  | cons t l ih => simp [ih]

theorem tophatWindow_knots (rnd : ℝ → ℤ) (dz : ℝ) (weight : Option (ℝ → ℝ)) (a b : ℝ) :
    (tophatWindow rnd dz weight a b).knots =
      sample (weight.getD fun _ => 1) (linspace a b (gridSize rnd dz a b)) := by
  exact zip_map_sample _ _

theorem tophatWindow_za (rnd : ℝ → ℤ) (dz : ℝ) (weight : Option (ℝ → ℝ)) (a b : ℝ) :
    (tophatWindow rnd dz weight a b).za = linspace a b (gridSize rnd dz a b) := by
  rw [RadialWindow.za, tophatWindow_knots]
  simp [sample, Function.comp_def]

/-- The trapezoidal rule of a positive function over at least two points is positive. -/
theorem trapezoid_pos {f : ℝ → ℝ} {a b : ℝ} {n : ℕ} (hab : a < b) (hn : 2 ≤ n)
    (hf : ∀ x, a ≤ x → x ≤ b → 0 < f x) : 0 < trapezoid (sample f (linspace a b n)) := by
  obtain ⟨l, hl⟩ := linspace_cons (a := a) (b := b) hn
  rcases l with _ | ⟨c, l⟩
  · have := congrArg List.length hl
    simp [linspace] at this; omega
  have hs := linspace_sorted hab n
  have hac : a < c := by
    rw [hl] at hs; exact (List.pairwise_cons.1 hs).1 c (by simp)
  have hc : c ≤ b := (last_gt hab hn (t := c) (by rw [hl]; simp)).2
  have hrest : 0 ≤ trapezoid (sample f (c :: l)) := by
    apply trapezoid_nonneg
    · rw [hl] at hs
      have : Inc (sample f (c :: l)) := inc_sample.2 (List.pairwise_cons.1 hs).2
      exact this.imp fun h => h.le
    · intro k hk
      obtain ⟨t, ht, rfl⟩ := List.mem_map.1 hk
      have := last_gt hab hn (t := t) (by rw [hl]; exact List.mem_cons_of_mem _ ht)
      exact (hf t this.1 this.2).le
  rw [hl]
  have : trapezoid (sample f (a :: c :: l)) =
      (c - a) * (f c + f a) / 2 + trapezoid (sample f (c :: l)) := rfl
  rw [this]
  have h1 := hf a le_rfl hab.le
  have h2 := hf c hac.le hc
  have : 0 < (c - a) * (f c + f a) := mul_pos (by linarith) (by linarith)
  linarith

theorem tophatWindow_zeff (rnd : ℝ → ℤ) (dz : ℝ) (weight : Option (ℝ → ℝ)) (a b : ℝ) :
    (tophatWindow rnd dz weight a b).zeff =
      trapezoid (sample (fun t => (weight.getD fun _ => 1) t * t)
        (linspace a b (gridSize rnd dz a b))) /
      trapezoid (sample (weight.getD fun _ => 1) (linspace a b (gridSize rnd dz a b))) := by
  unfold tophatWindow
  simp only [zip_map_sample]
  congr 2
  unfold sample
  generalize linspace a b (gridSize rnd dz a b) = z
  induction z with
  | nil => rfl
  | cons t z ih => simp [ih]

/-- The effective redshift of a tophat window lies inside the bin. -/
theorem tophatWindow_zeff_mem {rnd : ℝ → ℤ} {dz : ℝ} {weight : Option (ℝ → ℝ)} {a b : ℝ}
    (hab : a < b) (hw : ∀ wht, weight = some wht → ∀ x, a ≤ x → x ≤ b → 0 < wht x) :
    a < (tophatWindow rnd dz weight a b).zeff ∧ (tophatWindow rnd dz weight a b).zeff < b := by
  have hn := gridSize_ge rnd dz a b
  have hf : ∀ x, a ≤ x → x ≤ b → 0 < (weight.getD fun _ => 1) x := by
    intro x h1 h2
    rcases weight with _ | wht
    · simp
    · exact hw wht rfl x h1 h2
  rw [tophatWindow_zeff]
  generalize hfw : (weight.getD fun _ => 1) = f at hf
  clear hw hfw
  generalize gridSize rnd dz a b = n at hn
  have hpos := trapezoid_pos hab hn hf
  obtain ⟨l, hl⟩ := linspace_cons (a := a) (b := b) hn
  rcases l with _ | ⟨c, l⟩
  · have := congrArg List.length hl
    simp [linspace] at this; omega
  have hs := linspace_sorted hab n
  have hac : a < c := by
    rw [hl] at hs; exact (List.pairwise_cons.1 hs).1 c (by simp)
  have hc : c ≤ b := (last_gt hab hn (t := c) (by rw [hl]; simp)).2
  have hs' : (c :: l).Pairwise (· ≤ ·) := by
    rw [hl] at hs
    exact (List.pairwise_cons.1 hs).2.imp fun h => h.le
  have hr : ∀ t ∈ c :: l, a ≤ t ∧ t ≤ b := fun t ht =>
    last_gt hab hn (t := t) (by rw [hl]; exact List.mem_cons_of_mem _ ht)
  have hfa := hf a le_rfl hab.le
  have hfc := hf c hac.le hc
  have key : ∀ g : ℝ → ℝ, trapezoid (sample g (a :: c :: l)) =
      (c - a) * (g c + g a) / 2 + trapezoid (sample g (c :: l)) := fun g => rfl
  rw [hl] at hpos ⊢
  constructor
  · rw [lt_div_iff₀ hpos, ← trapezoid_sample_mul, key, key]
    have h1 : trapezoid (sample (fun t => a * f t) (c :: l)) ≤
        trapezoid (sample (fun t => f t * t) (c :: l)) := by
      apply trapezoid_sample_mono hs'
      intro t ht
      have := hr t ht
      nlinarith [hf t this.1 this.2]
    have h2 : (c - a) * (a * f c + a * f a) < (c - a) * (f c * c + f a * a) :=
      mul_lt_mul_of_pos_left (by nlinarith) (by linarith)
    linarith
  · rw [div_lt_iff₀ hpos, ← trapezoid_sample_mul, key, key]
    have h1 : trapezoid (sample (fun t => f t * t) (c :: l)) ≤
        trapezoid (sample (fun t => b * f t) (c :: l)) := by
      apply trapezoid_sample_mono hs'
      intro t ht
      have := hr t ht
      nlinarith [hf t this.1 this.2]
    have h2 : (c - a) * (f c * c + f a * a) < (c - a) * (b * f c + b * f a) :=
      mul_lt_mul_of_pos_left (by nlinarith) (by linarith)
    linarith

/-- The trapezoidal rule is exact for affine functions. -/
theorem trapezoid_affine {a b p q : ℝ} {n : ℕ} (hab : a < b) (hn : 2 ≤ n) :
    trapezoid (sample (fun t => p * t + q) (linspace a b n)) =
      p * (b ^ 2 - a ^ 2) / 2 + q * (b - a) := by
  obtain ⟨l, hl⟩ := linspace_cons (a := a) (b := b) hn
  have hs := linspace_sorted hab n
  have hlast := linspace_last (a := a) (b := b) hn
  rw [hl] at hs hlast ⊢
  have hA : AffineBetween (fun t => p * t + q) (a :: l) :=
    affineBetween_of hs fun _ _ _ _ _ _ => ⟨p, q, fun _ _ _ => rfl⟩
  rw [(trapezoid_integral _ l a (hs.imp fun h => h.le) hA b hlast).2]
  rw [(affine_integral (f := fun t => p * t + q) hab.le fun _ _ _ => rfl).2]
  ring

/-- Without weight the effective redshift is the centre of the bin. -/
theorem tophatWindow_zeff_centre {rnd : ℝ → ℤ} {dz a b : ℝ} (hab : a < b) :
    (tophatWindow rnd dz none a b).zeff = (a + b) / 2 := by
  rw [tophatWindow_zeff]
  have h1 := trapezoid_affine (p := 1) (q := 0) hab (gridSize_ge rnd dz a b)
  have h2 := trapezoid_affine (p := 0) (q := 1) hab (gridSize_ge rnd dz a b)
  simp only [one_mul, add_zero, zero_mul, zero_add] at h1 h2
  simp only [Option.getD_none, one_mul]
  rw [h1, h2]
  have : b - a ≠ 0 := by linarith
  field_simp
  ring

/-- **C29.** One window per bin; its grid has at least two points, is strictly increasing, starts
and ends at the edges of the bin; the effective redshift is inside the bin, and at its centre if
there is no weight. -/
theorem tophat_windows_spec {rnd : ℝ → ℤ} {zbins : List ℝ} {dz : ℝ} {weight : Option (ℝ → ℝ)}
    {ws : List RadialWindow} (hz : zbins.Pairwise (· < ·))
    (hw : ∀ wht, weight = some wht → ∀ x, 0 < wht x)
    (h : tophatWindows rnd zbins dz weight = .ok ws) :
    ws.length + 1 = zbins.length ∧ ∀ (i : ℕ) (hi : i < ws.length),
      2 ≤ ws[i].za.length ∧ ws[i].za.Pairwise (· < ·) ∧
      ws[i].za.head? = some zbins[i]! ∧ ws[i].za.getLast? = some zbins[i + 1]! ∧
      zbins[i]! < ws[i].zeff ∧ ws[i].zeff < zbins[i + 1]! ∧
      (weight = none → ws[i].zeff = (zbins[i]! + zbins[i + 1]!) / 2) := by
  unfold tophatWindows at h
  split_ifs at h with hl
  simp only [Except.ok.injEq] at h
  subst h
  refine ⟨by simp [pairs]; omega, ?_⟩
  intro i hi
  have hi' : i + 1 < zbins.length := by simp [pairs] at hi; omega
  have e : ((pairs zbins).map fun p => tophatWindow rnd dz weight p.1 p.2)[i] =
      tophatWindow rnd dz weight zbins[i] zbins[i + 1] := by
    simp [pairs]
  have hab : zbins[i] < zbins[i + 1] := List.pairwise_iff_getElem.1 hz i (i + 1) _ _ (by omega)
  rw [getElem!_pos zbins i (by omega), getElem!_pos zbins (i + 1) hi', e, tophatWindow_za]
  have hn := gridSize_ge rnd dz zbins[i] zbins[i + 1]
  have hm := tophatWindow_zeff_mem (rnd := rnd) (dz := dz) (weight := weight) hab
    (fun wht hwht x _ _ => hw wht hwht x)
  refine ⟨by rw [linspace_length]; exact hn, linspace_sorted hab _, linspace_head (by omega),
    linspace_last hn, hm.1, hm.2, ?_⟩
  rintro rfl
  exact tophatWindow_zeff_centre hab

/-- The value of a tophat window at a redshift of its bin is one, and it is zero outside. -/
theorem tophatWindow_eval {rnd : ℝ → ℤ} {dz a b x : ℝ} :
    (tophatWindow rnd dz none a b).eval x = if a ≤ x ∧ x ≤ b then 1 else 0 := by
  have hn := gridSize_ge rnd dz a b
  obtain ⟨l, hl⟩ := linspace_cons (a := a) (b := b) hn
  have hlast := linspace_last (a := a) (b := b) hn
  rw [RadialWindow.eval, tophatWindow_knots]
  unfold interp
  have e1 : (sample (none.getD fun _ => (1 : ℝ)) (linspace a b (gridSize rnd dz a b))).head? =
      some (a, 1) := by rw [hl]; simp [sample]
  have e2 : (sample (none.getD fun _ => (1 : ℝ)) (linspace a b (gridSize rnd dz a b))).getLast? =
      some (b, 1) := by simp [sample, List.getLast?_map, hlast]
  rw [e1, e2]
  by_cases h1 : x < a
  · simp [h1, not_le.2 h1]
  · by_cases h2 : b < x
    · simp [h1, h2, not_le.2 h2]
    · rw [if_pos ⟨not_lt.1 h1, not_lt.1 h2⟩]
      simp only [h1, h2, if_false]
      exact interpIn_sample_const 1 _ x (by rw [hl]; simp)

/-- Concrete case: bins [0, 1, 3] weighted by `1 + x ^ 2`. -/
example : ∃ ws, tophatWindows (fun x => ⌊x⌋) [0, 1, 3] (1 / 4) (some fun x => 1 + x ^ 2) = .ok ws ∧
    ws.length + 1 = 3 := by
  refine ⟨_, rfl, ?_⟩
  exact (tophat_windows_spec (zbins := [0, 1, 3]) (weight := some fun x => 1 + x ^ 2) (by norm_num)
    (by intro w hw x; cases hw; positivity) rfl).1

/-- The effective redshift of a window built without one is the weighted mean of its redshifts;
it lies in the range of the window if the weights are not negative. -/
theorem calculateZeff_mem {ks : List (ℝ × ℝ)} (hks : Inc ks) (hw : ∀ k ∈ ks, 0 ≤ k.2)
    {z : ℝ} (h : calculateZeff ks = some z) :
    ∃ a b, ks.head? = some a ∧ ks.getLast? = some b ∧ a.1 ≤ z ∧ z ≤ b.1 := by
  unfold calculateZeff at h
  split_ifs at h with h1 h2
  simp only [Option.some.injEq] at h
  rcases ks with _ | ⟨a, ks⟩
  · simp at h1
  refine ⟨a, (a :: ks).getLast (by simp), rfl, List.getLast?_eq_getLast_of_ne_nil _, ?_⟩
  have hpos : 0 < trapezoid (a :: ks) :=
    lt_of_le_of_ne (trapezoid_nonneg (hks.imp fun h => h.le) hw) (Ne.symm h2)
  have hr : ∀ k ∈ a :: ks, a.1 ≤ k.1 ∧ k.1 ≤ ((a :: ks).getLast (by simp)).1 := by
    intro k hk
    obtain ⟨a', b', ha', hb', r1, r2⟩ := inRange_of_mem hks hk
    rw [List.getLast?_eq_getLast_of_ne_nil (by simp)] at hb'
    simp only [List.head?_cons, Option.some.injEq] at ha' hb'
    subst ha' hb'
    exact ⟨r1, r2⟩
  generalize (a :: ks).getLast (by simp) = b at hr
  have mono : ∀ (l : List (ℝ × ℝ)) (f g : ℝ × ℝ → ℝ), Inc l → (∀ k ∈ l, f k ≤ g k) →
      trapezoid (l.map fun k => (k.1, f k)) ≤ trapezoid (l.map fun k => (k.1, g k)) := by
    intro l f g
    induction l with
    | nil => simp [trapezoid]
    | cons k l ih =>
      intro hi hfg
      rcases l with _ | ⟨k', l⟩
      · simp [trapezoid]
      · have := ih hi.tail (fun k hk => hfg k (List.mem_cons_of_mem _ hk))
        simp only [List.map_cons] at this ⊢
        rw [trapezoid_cons, trapezoid_cons]
        have hlt := hi.lt (k' := k') (by simp)
        have := hfg k (by simp)
        have := hfg k' (by simp)
        have : (k'.1 - k.1) * (f k' + f k) ≤ (k'.1 - k.1) * (g k' + g k) :=
          mul_le_mul_of_nonneg_left (by linarith) (by linarith)
        simp only at this ⊢
        linarith
  have scale : ∀ (c : ℝ) (l : List (ℝ × ℝ)),
      trapezoid (l.map fun k => (k.1, c * k.2)) = c * trapezoid l := by
    intro c l
    induction l with
    | nil => simp [trapezoid]
    | cons k l ih =>
      rcases l with _ | ⟨k', l⟩
      · simp [trapezoid]
      · simp only [List.map_cons] at ih ⊢
        rw [trapezoid_cons, trapezoid_cons, ih]; ring
  subst h
  constructor
  · rw [le_div_iff₀ hpos, ← scale]
    exact mono _ _ _ hks fun k hk => mul_le_mul_of_nonneg_right (hr k hk).1 (hw k hk)
  · rw [div_le_iff₀ hpos, ← scale]
    exact mono _ _ _ hks fun k hk => mul_le_mul_of_nonneg_right (hr k hk).2 (hw k hk)

/-- Concrete case: a triangle. -/
example : ∃ z, calculateZeff [(0, 0), (1, 1), (2, 0)] = some z ∧ (0 : ℝ) ≤ z ∧ z ≤ 2 := by
  have hks : Inc [((0 : ℝ), (0 : ℝ)), (1, 1), (2, 0)] := by simp [Inc]
  have ht : trapezoid [((0 : ℝ), (0 : ℝ)), (1, 1), (2, 0)] ≠ 0 := by norm_num [trapezoid]
  have e : ∃ z, calculateZeff [((0 : ℝ), (0 : ℝ)), (1, 1), (2, 0)] = some z := by
    unfold calculateZeff
    simp [ht]
  obtain ⟨z, hz⟩ := e
  obtain ⟨a, b, ha, hb, h1, h2⟩ := calculateZeff_mem hks (by simp) hz
  simp at ha hb
  subst ha hb
  exact ⟨z, hz, h1, h2⟩

end Glass.Shells
