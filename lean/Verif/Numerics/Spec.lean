import Verif.Numerics.Lemmas

/-!
# Specification of linear interpolation

A function is *the* linear interpolant of a list of knots on their range if it passes through the
knots and follows the straight line between neighbours.  The interpolation of the model has this
property, and it is determined by it.
-/

namespace Glass.Num

/-- `g` passes through all knots and is the straight line between neighbouring knots. -/
def Interpolates (ks : List (ℝ × ℝ)) (g : ℝ → ℝ) : Prop :=
  (∀ k ∈ ks, g k.1 = k.2) ∧ ∀ a b, (a, b) ∈ ks.zip ks.tail → ∀ x, a.1 ≤ x → x ≤ b.1 →
    (b.1 - a.1) * (g x - a.2) = (x - a.1) * (b.2 - a.2)

theorem interpolates_unique : ∀ {ks : List (ℝ × ℝ)} {g : ℝ → ℝ} {x : ℝ}, Inc ks →
    Interpolates ks g → InRange ks x → g x = interpIn ks x
  | [], _, _, _, _, h => absurd rfl h.ne_nil
  | [k], g, x, _, hg, h => by
    obtain ⟨a, b, ha, hb, h1, h2⟩ := h
    simp at ha hb
    subst ha hb
    have : x = k.1 := le_antisymm h2 h1
    rw [this, hg.1 k (by simp)]
    rfl
  | k :: k' :: ks, g, x, hi, hg, h => by
    obtain ⟨a, b, ha, hb, h1, h2⟩ := h
    simp only [List.head?_cons, Option.some.injEq] at ha
    subst ha
    by_cases hx : x ≤ k'.1
    · rw [interpIn_segment hi hx]
      have := hg.2 k k' (by simp) x h1 hx
      have hlt := hi.lt (k' := k') (by simp)
      have hne : k'.1 - k.1 ≠ 0 := by linarith
      field_simp
      linarith
    · have hx' := (not_le.1 hx).le
      rw [interpIn_cons_ge hx']
      refine interpolates_unique hi.tail ⟨fun q hq => hg.1 q (List.mem_cons_of_mem _ hq), ?_⟩
        ⟨k', b, rfl, by simpa using hb, hx', h2⟩
      intro c d hcd
      exact hg.2 c d (by simp only [List.tail_cons] at hcd ⊢; simp [hcd])

theorem interpIn_interpolates : ∀ {ks : List (ℝ × ℝ)}, Inc ks → Interpolates ks (interpIn ks)
  | [], _ => ⟨by simp, by simp⟩
  | [k], _ => ⟨by simp [interpIn], by simp⟩
  | k :: k' :: ks, hi => by
    refine ⟨fun q hq => interpIn_knot hi q hq, ?_⟩
    intro a b hab x h1 h2
    simp only [List.tail_cons, List.zip_cons_cons, List.mem_cons, Prod.mk.injEq] at hab
    rcases hab with ⟨rfl, rfl⟩ | hab
    · rw [interpIn_segment hi h2]
      have hlt := hi.lt (k' := b) (by simp)
      have hne : b.1 - a.1 ≠ 0 := by linarith
      field_simp
      ring
    · have ih := (interpIn_interpolates hi.tail).2 a b (by simpa using hab) x h1 h2
      have : k'.1 ≤ x := by
        have hm : a ∈ k' :: ks := (List.of_mem_zip hab).1
        rcases List.mem_cons.1 hm with rfl | hm
        · exact h1
        · exact (hi.tail.lt hm).le.trans h1
      rw [interpIn_cons_ge this]
      exact ih

/-- The modelled interpolation with any values for the outside interpolates. -/
theorem interp_interpolates {ks : List (ℝ × ℝ)} (hi : Inc ks) (l r : Option ℝ) :
    Interpolates ks (interp l r ks) := by
  have h := interpIn_interpolates hi
  refine ⟨fun k hk => interp_knot hi hk, ?_⟩
  intro a b hab x h1 h2
  have ha : a ∈ ks := (List.of_mem_zip hab).1
  have hb : b ∈ ks := List.mem_of_mem_tail (List.of_mem_zip hab).2
  obtain ⟨p, q, hp, hq, r1, r2⟩ := inRange_of_mem hi ha
  obtain ⟨p', q', hp', hq', r1', r2'⟩ := inRange_of_mem hi hb
  rw [hp] at hp'
  rw [hq] at hq'
  simp only [Option.some.injEq] at hp' hq'
  subst hp' hq'
  rw [interp_inRange ⟨p, q, hp, hq, r1.trans h1, h2.trans r2'⟩]
  exact h.2 a b hab x h1 h2

/-- Outside the range of the knots, `left=0, right=0` gives zero. -/
theorem interp_zero {ks : List (ℝ × ℝ)} {x : ℝ} (h : ¬ InRange ks x) :
    interp (some 0) (some 0) ks x = 0 := by
  unfold interp
  rcases ha : ks.head? with _ | a
  · simp
  · rcases hb : ks.getLast? with _ | b
    · simp
    · by_cases h1 : x < a.1
      · simp [h1]
      · by_cases h2 : b.1 < x
        · simp [h1, h2]
        · exact absurd ⟨a, b, ha, hb, not_lt.1 h1, not_lt.1 h2⟩ h

/-- Outside the range, without `left` and `right`, the outermost values are repeated. -/
theorem interp_none {ks : List (ℝ × ℝ)} {x : ℝ} (hi : Inc ks) (hne : ks ≠ []) :
    (∃ a, ks.head? = some a ∧ x < a.1 ∧ interp none none ks x = a.2) ∨
    (∃ b, ks.getLast? = some b ∧ b.1 < x ∧ interp none none ks x = b.2) ∨
    (InRange ks x ∧ interp none none ks x = interpIn ks x) := by
  rcases ks with _ | ⟨a, ks⟩
  · exact absurd rfl hne
  by_cases h1 : x < a.1
  · exact Or.inl ⟨a, rfl, h1, interp_left h1⟩
  · have hb : (a :: ks).getLast? = some ((a :: ks).getLast (by simp)) :=
      List.getLast?_eq_getLast_of_ne_nil _
    by_cases h2 : ((a :: ks).getLast (by simp)).1 < x
    · exact Or.inr (Or.inl ⟨_, hb, h2, interp_right hb h2 (not_lt.1 h1)⟩)
    · have hr : InRange (a :: ks) x := ⟨a, _, rfl, hb, not_lt.1 h1, not_lt.1 h2⟩
      exact Or.inr (Or.inr ⟨hr, interp_inRange hr⟩)

/-- The interpolant with the outermost values repeated stays between bounds of the values. -/
theorem interp_bounds {ks : List (ℝ × ℝ)} {x m M : ℝ} (hi : Inc ks) (hne : ks ≠ [])
    (hb : ∀ k ∈ ks, m ≤ k.2 ∧ k.2 ≤ M) :
    m ≤ interp none none ks x ∧ interp none none ks x ≤ M := by
  rcases interp_none (x := x) hi hne with ⟨a, ha, -, e⟩ | ⟨b, hb', -, e⟩ | ⟨⟨a, b, ha, -, h1, -⟩, e⟩
  · rw [e]; exact hb a (List.mem_of_head? ha)
  · rw [e]; exact hb b (List.mem_of_getLast? hb')
  · rw [e]
    refine interpIn_bounds hi hne ?_ hb
    rw [ha]; simpa using h1

/-- With `left=0, right=0` nonnegative values interpolate to a nonnegative function. -/
theorem interp_zero_nonneg {ks : List (ℝ × ℝ)} {x : ℝ} (hi : Inc ks) (hb : ∀ k ∈ ks, 0 ≤ k.2) :
    0 ≤ interp (some 0) (some 0) ks x := by
  by_cases h : InRange ks x
  · rw [interp_inRange h]
    obtain ⟨a, b, ha, hb', h1, h2⟩ := id h
    have hM : ∀ k ∈ ks, 0 ≤ k.2 ∧ k.2 ≤ (ks.map Prod.snd).foldl max 0 := by
      intro k hk
      refine ⟨hb k hk, ?_⟩
      have : ∀ (l : List ℝ) (m y : ℝ), (y ∈ l ∨ y ≤ m) → y ≤ l.foldl max m := by
        intro l
        induction l with
        | nil => intro m y h; simpa using h
        | cons c l ih =>
          intro m y h
          apply ih
          rcases h with h | h
          · rcases List.mem_cons.1 h with rfl | h
            · exact Or.inr (le_max_right _ _)
            · exact Or.inl h
          · exact Or.inr (h.trans (le_max_left _ _))
      exact this _ _ _ (Or.inl (List.mem_map_of_mem hk))
    refine (interpIn_bounds hi h.ne_nil ?_ hM).1
    rw [ha]; simpa using h1
  · rw [interp_zero h]

end Glass.Num
