import Verif.Shells.WindowProps
import Verif.Shells.WeightsProps
import Verif.Numerics.Spec

/-!
# Property C142: the windows meet the requirements of line-of-sight integrals

The documentation (`docs/user/how-glass-works.rst`, "Line-of-sight integrals") imposes requirements
on the windows of the shells: the effective redshift of each shell partitions the window functions
of all other shells.  "Functions that construct a list of windows for shells should ensure these
requirements are met."
-/

namespace Glass.Shells

open Glass.Num

/-! ## Specification -/

/-- The requirements 2 and 3 of the documentation: the window functions of the shells before shell
`i` vanish from its effective redshift on, and those of the shells after it vanish up to it. -/
def Separated (ws : List RadialWindow) : Prop :=
  ∀ (i j : ℕ) (hi : i < ws.length) (hj : j < ws.length) (z : ℝ),
    (j < i → ws[i].zeff ≤ z → ws[j].eval z = 0) ∧ (i < j → z ≤ ws[i].zeff → ws[j].eval z = 0)

/-- What the documentation infers: in the effective redshift of a shell all other window functions
vanish, so that the window functions sum to the one of the shell. -/
theorem separated_sum {ws : List RadialWindow} (h : Separated ws) {i : ℕ} (hi : i < ws.length) :
    (ws.map fun w => w.eval ws[i].zeff).sum = ws[i].eval ws[i].zeff := by
  rw [← Fin.sum_univ_fun_getElem]
  refine Finset.sum_eq_single (⟨i, hi⟩ : Fin ws.length) (fun j _ hj => ?_) (by simp)
  have hne : j.1 ≠ i := fun e => hj (Fin.ext e)
  rcases hne.lt_or_gt with hlt | hlt
  · exact (h i j hi j.2 _).1 hlt le_rfl
  · exact (h i j hi j.2 _).2 hlt le_rfl

/-! ## Linear and cubic windows -/

theorem eval_ends {w : RadialWindow} (hi : Inc w.knots) {a c : ℝ}
    (ha : w.knots.head? = some (a, 0)) (hc : w.knots.getLast? = some (c, 0)) {z : ℝ}
    (hz : z ≤ a ∨ c ≤ z) : w.eval z = 0 := by
  unfold RadialWindow.eval
  by_cases hr : InRange w.knots z
  · obtain ⟨p, q, hp, hq, h1, h2⟩ := id hr
    rw [ha] at hp; rw [hc] at hq
    simp only [Option.some.injEq] at hp hq
    subst hp hq
    rcases hz with hz | hz
    · have : z = a := le_antisymm hz h1
      subst this
      exact interp_knot (k := (z, 0)) hi (List.mem_of_head? ha)
    · have : z = c := le_antisymm h2 hz
      subst this
      exact interp_knot (k := (z, 0)) hi (List.mem_of_getLast? hc)
  · exact interp_zero hr

theorem applyWeight_inc {weight : Option (ℝ → ℝ)} {ks : List (ℝ × ℝ)} (h : Inc ks) :
    Inc (applyWeight weight ks) := by
  rcases weight with _ | g
  · exact h
  · unfold applyWeight Inc
    rw [List.pairwise_map]
    exact h

theorem applyWeight_head {weight : Option (ℝ → ℝ)} {ks : List (ℝ × ℝ)} {a : ℝ}
    (h : ks.head? = some (a, 0)) : (applyWeight weight ks).head? = some (a, 0) := by
  rcases weight with _ | g
  · exact h
  · simp [applyWeight, List.head?_map, h]

theorem applyWeight_last {weight : Option (ℝ → ℝ)} {ks : List (ℝ × ℝ)} {a : ℝ}
    (h : ks.getLast? = some (a, 0)) : (applyWeight weight ks).getLast? = some (a, 0) := by
  rcases weight with _ | g
  · exact h
  · simp [applyWeight, List.getLast?_map, h]

/-- A window of any profile and weight vanishes up to its first and from its last redshift. -/
theorem profile_outside {p : ℝ → ℝ} (p0 : p 0 = 0) {rnd : ℝ → ℤ} {dz a b c z zeff : ℝ}
    {weight : Option (ℝ → ℝ)} (hab : a < b) (hbc : b < c) (hz : z ≤ a ∨ c ≤ z) :
    (RadialWindow.mk (applyWeight weight (windowKnots p rnd dz a b c)) zeff).eval z = 0 := by
  have hne : c - b ≠ 0 := by linarith
  refine eval_ends (applyWeight_inc (windowKnots_inc hab hbc)) (applyWeight_head ?_)
    (applyWeight_last ?_) hz
  · rw [windowKnots_head]; simp [rise, p0]
  · rw [windowKnots_last]; simp [fall, p0, div_self hne]

theorem linearWindow_eq {rnd : ℝ → ℤ} {dz a b c : ℝ} {weight : Option (ℝ → ℝ)} (hab : a < b)
    (hbc : b < c) : linearWindow rnd dz weight a b c =
      ⟨applyWeight weight (windowKnots id rnd dz a b c), b⟩ := by
  have := linearWindow_knots (rnd := rnd) (dz := dz) hab hbc
  unfold linearWindow at this ⊢
  simp only [applyWeight] at this
  simp only [this]

theorem cubicWindow_eq {rnd : ℝ → ℤ} {dz a b c : ℝ} {weight : Option (ℝ → ℝ)} (hab : a < b)
    (hbc : b < c) : cubicWindow rnd dz weight a b c =
      ⟨applyWeight weight (windowKnots (fun u => u ^ 2 * (3 - 2 * u)) rnd dz a b c), b⟩ := by
  have := cubicWindow_knots (rnd := rnd) (dz := dz) hab hbc
  unfold cubicWindow at this ⊢
  simp only [applyWeight] at this
  simp only [this]

/-- Windows that belong to triples of nodes, with the middle node as effective redshift. -/
theorem triples_separated {win : ℝ → ℝ → ℝ → RadialWindow} {zgrid : List ℝ}
    (hz : zgrid.Pairwise (· < ·)) (heff : ∀ a b c, (win a b c).zeff = b)
    (hout : ∀ a b c z, a < b → b < c → z ≤ a ∨ c ≤ z → (win a b c).eval z = 0) :
    Separated ((triples zgrid).map fun t => win t.1 t.2.1 t.2.2) := by
  intro i j hi hj z
  simp only [triples, List.length_map, List.length_zip, List.length_tail] at hi hj
  simp only [triples, List.getElem_map, List.getElem_zip, List.getElem_tail, heff]
  have hlt := List.pairwise_iff_getElem.1 hz
  have hle : ∀ (m n : ℕ) (hm : m < zgrid.length) (hn : n < zgrid.length), m ≤ n →
      zgrid[m] ≤ zgrid[n] := by
    intro m n hm hn hmn
    rcases hmn.lt_or_eq with h | rfl
    · exact (hlt m n hm hn h).le
    · exact le_rfl
  have h1 : zgrid[j] < zgrid[j + 1] := hlt j (j + 1) _ _ (by omega)
  have h2 : zgrid[j + 1] < zgrid[j + 1 + 1] := hlt (j + 1) (j + 1 + 1) _ _ (by omega)
  constructor
  · intro hji hzi
    exact hout _ _ _ _ h1 h2 (Or.inr ((hle (j + 1 + 1) (i + 1) _ _ (by omega)).trans hzi))
  · intro hij hzi
    exact hout _ _ _ _ h1 h2 (Or.inl (hzi.trans (hle (i + 1) j _ _ (by omega))))

/-- **C142** for `linear_windows`: with increasing nodes and any weight the requirements are met. -/
theorem linear_windows_separated {rnd : ℝ → ℤ} {zgrid : List ℝ} {dz : ℝ}
    {weight : Option (ℝ → ℝ)} {ws : List RadialWindow} (hz : zgrid.Pairwise (· < ·))
    (h : linearWindows rnd zgrid dz weight = .ok ws) : Separated ws := by
  unfold linearWindows at h
  split_ifs at h with hl
  simp only [Except.ok.injEq] at h
  subst h
  refine triples_separated hz (fun _ _ _ => rfl) fun a b c z hab hbc hout => ?_
  rw [linearWindow_eq hab hbc]
  exact profile_outside rfl hab hbc hout

/-- **C142** for `cubic_windows`. -/
theorem cubic_windows_separated {rnd : ℝ → ℤ} {zgrid : List ℝ} {dz : ℝ}
    {weight : Option (ℝ → ℝ)} {ws : List RadialWindow} (hz : zgrid.Pairwise (· < ·))
    (h : cubicWindows rnd zgrid dz weight = .ok ws) : Separated ws := by
  unfold cubicWindows at h
  split_ifs at h with hl
  simp only [Except.ok.injEq] at h
  subst h
  refine triples_separated hz (fun _ _ _ => rfl) fun a b c z hab hbc hout => ?_
  rw [cubicWindow_eq hab hbc]
  exact profile_outside (by norm_num) hab hbc hout

/-- In the effective redshift the linear and cubic windows have the value of the weight. -/
theorem applyWeight_mid {weight : Option (ℝ → ℝ)} {p : ℝ → ℝ} (p1 : p 1 = 1) {rnd : ℝ → ℤ}
    {dz a b c : ℝ} (hab : a < b) (hbc : b < c) :
    (RadialWindow.mk (applyWeight weight (windowKnots p rnd dz a b c)) b).eval b =
      (weight.getD fun _ => 1) b := by
  obtain ⟨l, hl⟩ := linspace_cons (a := b) (b := c) (gridSize_ge rnd dz b c)
  have hm : (b, (1 : ℝ)) ∈ windowKnots p rnd dz a b c := by
    unfold windowKnots
    rw [hl]
    simp [sample, fall, p1]
  have hm' : (b, (weight.getD fun _ => 1) b) ∈ applyWeight weight (windowKnots p rnd dz a b c) := by
    rcases weight with _ | g
    · exact hm
    · exact List.mem_map.2 ⟨(b, 1), hm, by simp⟩
  exact interp_knot (l := some 0) (r := some 0) (applyWeight_inc (windowKnots_inc hab hbc)) hm'

theorem triples_own {win : ℝ → ℝ → ℝ → RadialWindow} {zgrid : List ℝ}
    (hz : zgrid.Pairwise (· < ·)) {v : ℝ → ℝ}
    (hmid : ∀ a b c, a < b → b < c → (win a b c).eval (win a b c).zeff = v b)
    (heff : ∀ a b c, (win a b c).zeff = b) :
    ∀ w ∈ (triples zgrid).map fun t => win t.1 t.2.1 t.2.2, w.eval w.zeff = v w.zeff := by
  intro w hw
  obtain ⟨t, ht, rfl⟩ := List.mem_map.1 hw
  obtain ⟨h1, h2⟩ := triples_lt hz t ht
  rw [hmid _ _ _ h1 h2, heff]

theorem linear_windows_own {rnd : ℝ → ℤ} {zgrid : List ℝ} {dz : ℝ}
    {weight : Option (ℝ → ℝ)} {ws : List RadialWindow} (hz : zgrid.Pairwise (· < ·))
    (h : linearWindows rnd zgrid dz weight = .ok ws) :
    ∀ w ∈ ws, w.eval w.zeff = (weight.getD fun _ => 1) w.zeff := by
  unfold linearWindows at h
  split_ifs at h with hl
  simp only [Except.ok.injEq] at h
  subst h
  refine triples_own hz (fun a b c hab hbc => ?_) fun _ _ _ => rfl
  rw [linearWindow_eq hab hbc]
  exact applyWeight_mid rfl hab hbc

theorem cubic_windows_own {rnd : ℝ → ℤ} {zgrid : List ℝ} {dz : ℝ}
    {weight : Option (ℝ → ℝ)} {ws : List RadialWindow} (hz : zgrid.Pairwise (· < ·))
    (h : cubicWindows rnd zgrid dz weight = .ok ws) :
    ∀ w ∈ ws, w.eval w.zeff = (weight.getD fun _ => 1) w.zeff := by
  unfold cubicWindows at h
  split_ifs at h with hl
  simp only [Except.ok.injEq] at h
  subst h
  refine triples_own hz (fun a b c hab hbc => ?_) fun _ _ _ => rfl
  rw [cubicWindow_eq hab hbc]
  exact applyWeight_mid (by norm_num) hab hbc

/-! ## Tophat windows -/

/-- The trapezoidal rule of values that are not negative and not all zero is positive. -/
theorem trapezoid_pos_of_point : ∀ {ks : List (ℝ × ℝ)}, Inc ks → 2 ≤ ks.length → (∀ k ∈ ks, 0 ≤ k.2) →
    (∃ k ∈ ks, 0 < k.2) → 0 < trapezoid ks
  | [], _, h, _, _ => by simp at h
  | [_], _, h, _, _ => by simp at h
  | [k, k'], hi, _, h0, hk => by
    have hlt := hi.lt (k' := k') (by simp)
    have h1 := h0 k (by simp)
    have h2 := h0 k' (by simp)
    have hs : 0 < k'.2 + k.2 := by
      obtain ⟨q, hq, hq0⟩ := hk
      simp only [List.mem_cons, List.not_mem_nil, or_false] at hq
      rcases hq with rfl | rfl <;> linarith
    rw [trapezoid_cons]
    have := mul_pos (sub_pos.2 hlt) hs
    simp only [trapezoid]
    linarith
  | k :: k' :: k'' :: ks, hi, _, h0, hk => by
    have hlt := hi.lt (k' := k') (by simp)
    have h1 := h0 k (by simp)
    have h2 := h0 k' (by simp)
    have hr : 0 ≤ trapezoid (k' :: k'' :: ks) :=
      trapezoid_nonneg (hi.tail.imp fun h => h.le) fun q hq => h0 q (List.mem_cons_of_mem _ hq)
    have hn : 0 ≤ (k'.1 - k.1) * (k'.2 + k.2) := mul_nonneg (by linarith) (by linarith)
    rw [trapezoid_cons]
    obtain ⟨q, hq, hq0⟩ := hk
    rcases List.mem_cons.1 hq with rfl | hq
    · have : 0 < (k'.1 - q.1) * (k'.2 + q.2) := mul_pos (by linarith) (by linarith)
      linarith
    · have := trapezoid_pos_of_point hi.tail (by simp) (fun q hq => h0 q (List.mem_cons_of_mem _ hq))
        ⟨q, hq, hq0⟩
      linarith

/-- The effective redshift of a tophat window lies inside the bin if the weight is positive inside
the bin, not negative at its edges, and the grid has a redshift inside the bin. -/
theorem tophatWindow_zeff_inside {rnd : ℝ → ℤ} {dz : ℝ} {weight : Option (ℝ → ℝ)} {a b : ℝ}
    (hab : a < b) (hn : 3 ≤ gridSize rnd dz a b)
    (hw : ∀ wht, weight = some wht → 0 ≤ wht a ∧ 0 ≤ wht b ∧ ∀ x, a < x → x < b → 0 < wht x) :
    a < (tophatWindow rnd dz weight a b).zeff ∧ (tophatWindow rnd dz weight a b).zeff < b := by
  have hf : ∀ x, a < x → x < b → 0 < (weight.getD fun _ => 1) x := by
    rcases weight with _ | wht
    · simp
    · exact (hw wht rfl).2.2
  have hf0 : ∀ x, a ≤ x → x ≤ b → 0 ≤ (weight.getD fun _ => 1) x := by
    intro x h1 h2
    rcases h1.lt_or_eq with h1 | rfl
    · rcases h2.lt_or_eq with h2 | rfl
      · exact (hf x h1 h2).le
      · rcases weight with _ | wht
        · simp
        · exact (hw wht rfl).2.1
    · rcases weight with _ | wht
      · simp
      · exact (hw wht rfl).1
  rw [tophatWindow_zeff]
  generalize (weight.getD fun _ => 1) = f at hf hf0
  clear hw
  generalize gridSize rnd dz a b = n at hn
  have hs := linspace_sorted hab n
  have hin : ∀ t ∈ linspace a b n, a ≤ t ∧ t ≤ b := fun t ht => last_gt hab (by omega) ht
  obtain ⟨c, hc, hc1, hc2⟩ : ∃ c ∈ linspace a b n, a < c ∧ c < b := by
    have hl : (linspace a b n).length = n := linspace_length a b n
    have h0 := linspace_head (a := a) (b := b) (n := n) (by omega)
    have h1 := linspace_last (a := a) (b := b) (n := n) (by omega)
    rw [List.head?_eq_getElem?, List.getElem?_eq_some_iff] at h0
    rw [List.getLast?_eq_getElem?, List.getElem?_eq_some_iff] at h1
    obtain ⟨_, h0⟩ := h0
    obtain ⟨_, h1⟩ := h1
    have hlt := List.pairwise_iff_getElem.1 hs
    refine ⟨(linspace a b n)[1]'(by omega), List.getElem_mem _, ?_, ?_⟩
    · have := hlt 0 1 (by omega) (by omega) (by omega)
      rwa [h0] at this
    · have := hlt 1 ((linspace a b n).length - 1) (by omega) (by omega) (by omega)
      rwa [h1] at this
  have hlen : ∀ g : ℝ → ℝ, 2 ≤ (sample g (linspace a b n)).length := by
    intro g; simp [sample, linspace_length]; omega
  have pos : ∀ g : ℝ → ℝ, (∀ t, a ≤ t → t ≤ b → 0 ≤ g t) → 0 < g c →
      0 < trapezoid (sample g (linspace a b n)) := by
    intro g hg hgc
    refine trapezoid_pos_of_point (inc_sample.2 hs) (hlen g) ?_ ⟨(c, g c), ?_, hgc⟩
    · intro k hk
      obtain ⟨t, ht, rfl⟩ := List.mem_map.1 hk
      exact hg t (hin t ht).1 (hin t ht).2
    · exact List.mem_map.2 ⟨c, hc, rfl⟩
  have hpos := pos f hf0 (hf c hc1 hc2)
  have key : ∀ s r : ℝ, trapezoid (sample (fun t => s * (f t * t) + r * f t) (linspace a b n)) =
      s * trapezoid (sample (fun t => f t * t) (linspace a b n)) +
        r * trapezoid (sample f (linspace a b n)) := by
    intro s r
    rw [← trapezoid_sample_mul, ← trapezoid_sample_mul, ← trapezoid_sample_add]
  constructor
  · rw [lt_div_iff₀ hpos]
    have := pos (fun t => 1 * (f t * t) + (-a) * f t)
      (fun t h1 h2 => by nlinarith [hf0 t h1 h2]) (by
        have := mul_pos (hf c hc1 hc2) (sub_pos.2 hc1)
        nlinarith)
    rw [key] at this
    linarith
  · rw [div_lt_iff₀ hpos]
    have := pos (fun t => (-1) * (f t * t) + b * f t)
      (fun t h1 h2 => by nlinarith [hf0 t h1 h2]) (by
        have := mul_pos (hf c hc1 hc2) (sub_pos.2 hc2)
        nlinarith)
    rw [key] at this
    linarith

theorem tophatWindow_outside {rnd : ℝ → ℤ} {dz a b z : ℝ} {weight : Option (ℝ → ℝ)}
    (hz : z < a ∨ b < z) : (tophatWindow rnd dz weight a b).eval z = 0 := by
  have hn := gridSize_ge rnd dz a b
  refine interp_zero fun hr => ?_
  obtain ⟨p, q, hp, hq, h1, h2⟩ := hr
  rw [tophatWindow_knots] at hp hq
  rw [sample, List.head?_map, linspace_head (by omega)] at hp
  rw [sample, List.getLast?_map, linspace_last hn] at hq
  simp only [Option.map_some, Option.some.injEq] at hp hq
  subst hp hq
  simp only at h1 h2
  rcases hz with hz | hz <;> linarith

/-- The weight is admissible for the bins: it is positive, or it is positive inside the bins and
not negative at the edges, and no bin is so narrow that its grid has no redshift inside. -/
def Admissible (rnd : ℝ → ℤ) (zbins : List ℝ) (dz : ℝ) (weight : Option (ℝ → ℝ)) : Prop :=
  ∀ wht, weight = some wht → ∀ p ∈ pairs zbins,
    (∀ x, p.1 ≤ x → x ≤ p.2 → 0 < wht x) ∨
    (3 ≤ gridSize rnd dz p.1 p.2 ∧ 0 ≤ wht p.1 ∧ 0 ≤ wht p.2 ∧ ∀ x, p.1 < x → x < p.2 → 0 < wht x)

/-- **C142** for `tophat_windows`, the part that holds: with increasing bins the requirements are
met without weight, with a positive weight, and with a weight that vanishes only at edges if every
bin has a redshift of the grid inside. -/
theorem tophat_windows_separated_partial {rnd : ℝ → ℤ} {zbins : List ℝ} {dz : ℝ}
    {weight : Option (ℝ → ℝ)} {ws : List RadialWindow} (hz : zbins.Pairwise (· < ·))
    (hw : Admissible rnd zbins dz weight) (h : tophatWindows rnd zbins dz weight = .ok ws) :
    Separated ws := by
  unfold tophatWindows at h
  split_ifs at h with hl
  simp only [Except.ok.injEq] at h
  subst h
  have hlt := List.pairwise_iff_getElem.1 hz
  have hle : ∀ (m n : ℕ) (hm : m < zbins.length) (hn : n < zbins.length), m ≤ n →
      zbins[m] ≤ zbins[n] := by
    intro m n hm hn hmn
    rcases hmn.lt_or_eq with h | rfl
    · exact (hlt m n hm hn h).le
    · exact le_rfl
  intro i j hi hj z
  have hp : (pairs zbins)[i]'(by simpa using hi) ∈ pairs zbins := List.getElem_mem _
  simp only [pairs, List.length_map, List.length_zip, List.length_tail] at hi hj
  simp only [pairs, List.getElem_map, List.getElem_zip, List.getElem_tail] at hp ⊢
  have hab : zbins[i] < zbins[i + 1] := hlt i (i + 1) _ _ (by omega)
  have hm : zbins[i] < (tophatWindow rnd dz weight zbins[i] zbins[i + 1]).zeff ∧
      (tophatWindow rnd dz weight zbins[i] zbins[i + 1]).zeff < zbins[i + 1] := by
    rcases weight with _ | wht
    · exact tophatWindow_zeff_mem hab (by simp)
    · rcases hw wht rfl _ hp with h1 | ⟨h1, h2, h3, h4⟩
      · exact tophatWindow_zeff_mem hab fun g hg => by
          simp only [Option.some.injEq] at hg; subst hg; exact h1
      · exact tophatWindow_zeff_inside hab h1 fun g hg => by
          simp only [Option.some.injEq] at hg; subst hg; exact ⟨h2, h3, h4⟩
  constructor
  · intro hji hzi
    exact tophatWindow_outside (Or.inr (lt_of_le_of_lt (hle (j + 1) i _ _ (by omega))
      (hm.1.trans_le hzi)))
  · intro hij hzi
    exact tophatWindow_outside (Or.inl (lt_of_le_of_lt hzi
      (hm.2.trans_le (hle (i + 1) j _ _ (by omega)))))

/-- Concrete case: two bins of which the first begins at redshift zero, where the weight vanishes. -/
example : ∃ ws, tophatWindows (fun x => ⌊x⌋) [0, 1, 3] (1 / 4) (some fun x => x ^ 2) = .ok ws ∧
    Separated ws := by
  refine ⟨_, rfl, tophat_windows_separated_partial (zbins := [0, 1, 3]) (weight := some fun x => x ^ 2)
    (by norm_num) ?_ rfl⟩
  intro wht hw p hp
  simp only [Option.some.injEq] at hw
  subst hw
  right
  simp only [pairs, List.tail_cons, List.zip_cons_cons, List.zip_nil_right, List.mem_cons,
    List.not_mem_nil, or_false] at hp
  rcases hp with rfl | rfl
  · refine ⟨by norm_num [gridSize], by norm_num, by norm_num, fun x h _ => by positivity⟩
  · refine ⟨by norm_num [gridSize], by norm_num, by norm_num, fun x h _ => ?_⟩
    have : (0 : ℝ) < x := by simp only at h; linarith
    positivity

/-- Concrete case: linear windows with a weight. -/
example : ∃ ws, linearWindows (fun x => ⌊x⌋) [0, 1, 2, 4] (1 / 4) (some fun x => 1 + x) = .ok ws ∧
    Separated ws ∧ ws.length = 2 :=
  ⟨_, rfl, linear_windows_separated (zgrid := [0, 1, 2, 4]) (by norm_num) rfl, rfl⟩

/-! ## Where the requirements are not met -/

/-- In a bin that begins where the weight vanishes, and whose grid consists of its edges only, the
effective redshift is the outer edge. -/
theorem tophatWindow_zeff_edge {rnd : ℝ → ℤ} {dz a b : ℝ} {g : ℝ → ℝ} (hab : a < b)
    (hn : gridSize rnd dz a b = 2) (ha : g a = 0) (hb : g b ≠ 0) :
    (tophatWindow rnd dz (some g) a b).zeff = b := by
  have hab' : b - a ≠ 0 := by linarith
  rw [tophatWindow_zeff, hn]
  have e : linspace a b 2 = [a, b] := by
    simp [linspace, List.range_succ]
  rw [e]
  simp only [Option.getD_some, sample, List.map_cons, List.map_nil, trapezoid, ha]
  field_simp
  ring

/-- **C142**, the part that fails: for every cosmology, tophat windows that are uniform in comoving
volume and begin at redshift zero break the requirements if the grid of the first bin consists of
its edges: the effective redshift of the first shell is its outer edge, where the window function of
the second shell does not vanish. -/
theorem volume_weight_not_separated {c : Cosmology} {curve : ℝ → ℝ} (hc : IsFlrw c curve)
    (h0 : c.transverse 0 = 0) {rnd : ℝ → ℤ} {dz b b' : ℝ} {rest : List ℝ} (hb : 0 < b)
    (hb' : b < b') (ht : c.transverse b ≠ 0) (hn : gridSize rnd dz 0 b = 2)
    {ws : List RadialWindow}
    (h : tophatWindows rnd (0 :: b :: b' :: rest) dz (some (volumeWeight c)) = .ok ws) :
    ∃ w w' ws', ws = w :: w' :: ws' ∧ w.zeff = b ∧ 0 < w'.eval w.zeff ∧ ¬ Separated ws := by
  have hpos : 0 < volumeWeight c b := (weights_pos hc hb.le).2.2 ht
  have hz : volumeWeight c 0 = 0 := by simp [volumeWeight, h0]
  unfold tophatWindows at h
  rw [if_neg (by simp)] at h
  simp only [Except.ok.injEq] at h
  have e := tophatWindow_zeff_edge (rnd := rnd) (dz := dz) hb hn hz hpos.ne'
  have hv : (tophatWindow rnd dz (some (volumeWeight c)) b b').eval b = volumeWeight c b := by
    obtain ⟨l, hl⟩ := linspace_cons (a := b) (b := b') (gridSize_ge rnd dz b b')
    refine interp_knot (l := some 0) (r := some 0) (k := (b, volumeWeight c b)) ?_ ?_
    · rw [tophatWindow_knots]; exact inc_sample.2 (linspace_sorted hb' _)
    · rw [tophatWindow_knots, hl]; simp [sample]
  refine ⟨_, _, _, h.symm, e, by rw [e]; exact hv ▸ hpos, fun hs => ?_⟩
  subst h
  have := (hs 0 1 (by simp [pairs]) (by simp [pairs]) b).2 (by omega) (by simpa [pairs] using e.ge)
  simp only [pairs, List.tail_cons, List.zip_cons_cons, List.map_cons, List.getElem_cons_succ,
    List.getElem_cons_zero] at this
  rw [hv] at this
  exact hpos.ne' this

/-- Concrete case with the default spacing `dz=1e-3`: bins with edges 0, 0.002, 0.004. -/
theorem requirements_fail : ∃ (c : Cosmology) (curve : ℝ → ℝ) (ws : List RadialWindow),
    IsFlrw c curve ∧
    tophatWindows (fun x => ⌊x⌋) [0, 1 / 500, 1 / 250] (1 / 1000) (some (volumeWeight c)) = .ok ws ∧
    ¬ Separated ws := by
  have hc : IsFlrw (flatUniverse (fun _ => 1) fun _ => 1) id :=
    flatUniverse_flrw (fun _ _ => one_pos) continuousOn_const
  refine ⟨_, _, _, hc, rfl, ?_⟩
  obtain ⟨_, _, _, _, _, _, h⟩ := volume_weight_not_separated (rnd := fun x => ⌊x⌋)
    (dz := 1 / 1000) (b := 1 / 500) (b' := 1 / 250) (rest := []) hc (by simp [flatUniverse])
    (by norm_num) (by norm_num) (by simp [flatUniverse]) (by norm_num [gridSize]; rfl) rfl
  exact h

end Glass.Shells
