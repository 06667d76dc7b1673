import Mathlib.MeasureTheory.Integral.IntervalIntegral.Basic
import Mathlib.Analysis.SpecialFunctions.Integrals.Basic
import Mathlib.Tactic.Linarith
import Mathlib.Tactic.FieldSimp
import Mathlib.Tactic.Ring
import Verif.Numerics.Model

/-!
# Lemmas about interpolation and the trapezoidal rule
-/

namespace Glass.Num

/-- The abscissae are strictly increasing. -/
def Inc (ks : List (ℝ × ℝ)) : Prop := ks.Pairwise fun a b => a.1 < b.1

theorem Inc.tail {k : ℝ × ℝ} {ks : List (ℝ × ℝ)} (h : Inc (k :: ks)) : Inc ks :=
  (List.pairwise_cons.1 h).2

theorem Inc.lt {k k' : ℝ × ℝ} {ks : List (ℝ × ℝ)} (h : Inc (k :: ks)) (h' : k' ∈ ks) :
    k.1 < k'.1 := (List.pairwise_cons.1 h).1 k' h'

theorem Inc.append_right {as bs : List (ℝ × ℝ)} (h : Inc (as ++ bs)) : Inc bs :=
  (List.pairwise_append.1 h).2.1

theorem Inc.append_left {as bs : List (ℝ × ℝ)} (h : Inc (as ++ bs)) : Inc as :=
  (List.pairwise_append.1 h).1

theorem interpIn_cons_lt {k k' : ℝ × ℝ} {ks : List (ℝ × ℝ)} {x : ℝ} (h : x < k'.1) :
    interpIn (k :: k' :: ks) x = k.2 + (k'.2 - k.2) / (k'.1 - k.1) * (x - k.1) := by
  rw [interpIn, if_pos h]

theorem interpIn_cons_ge {k k' : ℝ × ℝ} {ks : List (ℝ × ℝ)} {x : ℝ} (h : k'.1 ≤ x) :
    interpIn (k :: k' :: ks) x = interpIn (k' :: ks) x := by
  rw [interpIn, if_neg (not_lt.2 h)]

theorem interpIn_first {k : ℝ × ℝ} {ks : List (ℝ × ℝ)} (h : Inc (k :: ks)) :
    interpIn (k :: ks) k.1 = k.2 := by
  rcases ks with _ | ⟨k', ks⟩
  · rfl
  · rw [interpIn_cons_lt (h.lt (by simp))]; ring

/-- The segment formula also holds at its right end. -/
theorem interpIn_segment {k k' : ℝ × ℝ} {ks : List (ℝ × ℝ)} {x : ℝ} (h : Inc (k :: k' :: ks))
    (hx : x ≤ k'.1) :
    interpIn (k :: k' :: ks) x = k.2 + (k'.2 - k.2) / (k'.1 - k.1) * (x - k.1) := by
  rcases hx.lt_or_eq with hx | rfl
  · exact interpIn_cons_lt hx
  · rw [interpIn_cons_ge le_rfl, interpIn_first h.tail]
    have : k'.1 - k.1 ≠ 0 := by have := h.lt (k' := k') (by simp); linarith
    field_simp; ring

theorem interpIn_knot : ∀ {ks : List (ℝ × ℝ)}, Inc ks → ∀ k ∈ ks, interpIn ks k.1 = k.2
  | [], _, k, hk => by simp at hk
  | [a], _, k, hk => by simp at hk; simp [hk, interpIn]
  | a :: b :: ks, h, k, hk => by
    rcases List.mem_cons.1 hk with rfl | hk
    · exact interpIn_first h
    · have hb : b.1 ≤ k.1 := by
        rcases List.mem_cons.1 hk with rfl | hk'
        · exact le_rfl
        · exact (h.tail.lt hk').le
      rw [interpIn_cons_ge hb]
      exact interpIn_knot h.tail k hk

theorem interpIn_append_right : ∀ {as : List (ℝ × ℝ)} {b : ℝ × ℝ} {bs : List (ℝ × ℝ)} {x : ℝ},
    Inc (as ++ b :: bs) → b.1 ≤ x → interpIn (as ++ b :: bs) x = interpIn (b :: bs) x
  | [], _, _, _, _, _ => rfl
  | [a], b, bs, x, _, hx => interpIn_cons_ge hx
  | a :: a' :: as, b, bs, x, h, hx => by
    have : a'.1 ≤ x := by
      have : a'.1 < b.1 := h.tail.lt (by simp)
      linarith
    show interpIn (a :: a' :: (as ++ b :: bs)) x = _
    rw [interpIn_cons_ge this]
    exact interpIn_append_right (as := a' :: as) h.tail hx

theorem interpIn_append_left : ∀ {as : List (ℝ × ℝ)} {b : ℝ × ℝ} {bs : List (ℝ × ℝ)} {x : ℝ},
    Inc (as ++ b :: bs) → as ≠ [] → x ≤ b.1 →
      interpIn (as ++ b :: bs) x = interpIn (as ++ [b]) x
  | [], _, _, _, _, h, _ => absurd rfl h
  | [a], b, bs, x, h, _, hx => by
    have h2 : Inc [a, b] := by
      have := h.lt (k' := b) (by simp)
      simp [Inc, this]
    show interpIn (a :: b :: bs) x = interpIn (a :: b :: []) x
    rw [interpIn_segment h hx, interpIn_segment h2 hx]
  | a :: a' :: as, b, bs, x, h, _, hx => by
    show interpIn (a :: a' :: (as ++ b :: bs)) x = interpIn (a :: a' :: (as ++ [b])) x
    by_cases hx' : x < a'.1
    · rw [interpIn_cons_lt hx', interpIn_cons_lt hx']
    · rw [interpIn_cons_ge (not_lt.1 hx'), interpIn_cons_ge (not_lt.1 hx')]
      exact interpIn_append_left (as := a' :: as) h.tail (by simp) hx

/-- Between two points without a knot strictly between them the interpolant is affine. -/
theorem interpIn_affine : ∀ {ks : List (ℝ × ℝ)} {a b : ℝ}, Inc ks → ks ≠ [] → a ≤ b →
    (∀ k ∈ ks.head?, k.1 ≤ a) → (∀ k ∈ ks.getLast?, b ≤ k.1) →
    (∀ k ∈ ks, ¬ (a < k.1 ∧ k.1 < b)) →
    ∃ p q : ℝ, ∀ x, a ≤ x → x ≤ b → interpIn ks x = p * x + q
  | [], _, _, _, h, _, _, _, _ => absurd rfl h
  | [k], _, _, _, _, _, _, _, _ => ⟨0, k.2, fun x _ _ => by simp [interpIn]⟩
  | k :: k' :: ks, a, b, h, _, hab, h0, h1, hn => by
    by_cases hb : b ≤ k'.1
    · refine ⟨(k'.2 - k.2) / (k'.1 - k.1), k.2 - (k'.2 - k.2) / (k'.1 - k.1) * k.1,
        fun x _ hx => ?_⟩
      rw [interpIn_segment h (hx.trans hb)]; ring
    · have hk : k'.1 ≤ a := by
        by_contra hc
        exact hn k' (by simp) ⟨not_le.1 hc, not_le.1 hb⟩
      obtain ⟨p, q, hpq⟩ := interpIn_affine (a := a) (b := b) h.tail (by simp) hab
        (by simpa using hk) (by simpa using h1) (fun k hk => hn k (List.mem_cons_of_mem _ hk))
      refine ⟨p, q, fun x hx hx' => ?_⟩
      rw [interpIn_cons_ge (hk.trans hx)]
      exact hpq x hx hx'

/-- The interpolant stays between bounds of the values. -/
theorem interpIn_bounds {m M : ℝ} : ∀ {ks : List (ℝ × ℝ)} {x : ℝ}, Inc ks → ks ≠ [] →
    (∀ k ∈ ks.head?, k.1 ≤ x) → (∀ k ∈ ks, m ≤ k.2 ∧ k.2 ≤ M) →
    m ≤ interpIn ks x ∧ interpIn ks x ≤ M
  | [], _, _, h, _, _ => absurd rfl h
  | [k], _, _, _, _, hb => hb k (by simp)
  | k :: k' :: ks, x, h, _, h0, hb => by
    by_cases hx : x < k'.1
    · rw [interpIn_cons_lt hx]
      have hk := hb k (by simp)
      have hk' := hb k' (by simp)
      have hx0 : k.1 ≤ x := by simpa using h0
      have hd : 0 < k'.1 - k.1 := by linarith
      have hs0 : 0 ≤ (x - k.1) / (k'.1 - k.1) := div_nonneg (by linarith) hd.le
      have hs1 : (x - k.1) / (k'.1 - k.1) ≤ 1 := by
        rw [div_le_one hd]; linarith
      have e : k.2 + (k'.2 - k.2) / (k'.1 - k.1) * (x - k.1) =
          k.2 * (1 - (x - k.1) / (k'.1 - k.1)) + k'.2 * ((x - k.1) / (k'.1 - k.1)) := by
        ring
      rw [e]
      generalize (x - k.1) / (k'.1 - k.1) = s at hs0 hs1
      constructor <;> nlinarith
    · rw [interpIn_cons_ge (not_lt.1 hx)]
      exact interpIn_bounds h.tail (by simp) (by simpa using not_lt.1 hx)
        (fun k hk => hb k (List.mem_cons_of_mem _ hk))

/-- With positive values at all knots the interpolant is positive. -/
theorem interpIn_pos : ∀ {ks : List (ℝ × ℝ)} {x : ℝ}, Inc ks → ks ≠ [] →
    (∀ k ∈ ks.head?, k.1 ≤ x) → (∀ k ∈ ks, 0 < k.2) → 0 < interpIn ks x
  | [], _, _, h, _, _ => absurd rfl h
  | [k], _, _, _, _, hb => hb k (by simp)
  | k :: k' :: ks, x, h, _, h0, hb => by
    by_cases hx : x < k'.1
    · rw [interpIn_cons_lt hx]
      have hk := hb k (by simp)
      have hk' := hb k' (by simp)
      have hx0 : k.1 ≤ x := by simpa using h0
      have hd : 0 < k'.1 - k.1 := by linarith
      have hs0 : 0 ≤ (x - k.1) / (k'.1 - k.1) := div_nonneg (by linarith) hd.le
      have hs1 : (x - k.1) / (k'.1 - k.1) < 1 := by
        rw [div_lt_one hd]; linarith
      have e : k.2 + (k'.2 - k.2) / (k'.1 - k.1) * (x - k.1) =
          k.2 * (1 - (x - k.1) / (k'.1 - k.1)) + k'.2 * ((x - k.1) / (k'.1 - k.1)) := by
        ring
      rw [e]
      generalize (x - k.1) / (k'.1 - k.1) = s at hs0 hs1
      have := mul_pos hk (sub_pos.2 hs1)
      have := mul_nonneg hk'.le hs0
      linarith
    · rw [interpIn_cons_ge (not_lt.1 hx)]
      exact interpIn_pos h.tail (by simp) (by simpa using not_lt.1 hx)
        (fun k hk => hb k (List.mem_cons_of_mem _ hk))

/-! ## Values on a fixed grid -/

theorem interpIn_sample_add (f g : ℝ → ℝ) : ∀ (xs : List ℝ) (x : ℝ),
    interpIn (sample f xs) x + interpIn (sample g xs) x =
      interpIn (sample (fun t => f t + g t) xs) x
  | [], _ => by simp [sample, interpIn]
  | [a], _ => by simp [sample, interpIn]
  | a :: b :: xs, x => by
    have ih := interpIn_sample_add f g (b :: xs) x
    simp only [sample, List.map_cons] at ih ⊢
    by_cases hx : x < b
    · simp only [interpIn_cons_lt (k' := (b, _)) hx]; ring
    · simp only [interpIn_cons_ge (k' := (b, _)) (not_lt.1 hx)]; exact ih

theorem interpIn_sample_mul (c : ℝ) (f : ℝ → ℝ) : ∀ (xs : List ℝ) (x : ℝ),
    interpIn (sample (fun t => c * f t) xs) x = c * interpIn (sample f xs) x
  | [], _ => by simp [sample, interpIn]
  | [a], _ => by simp [sample, interpIn]
  | a :: b :: xs, x => by
    have ih := interpIn_sample_mul c f (b :: xs) x
    simp only [sample, List.map_cons] at ih ⊢
    by_cases hx : x < b
    · simp only [interpIn_cons_lt (k' := (b, _)) hx]; ring
    · simp only [interpIn_cons_ge (k' := (b, _)) (not_lt.1 hx)]; exact ih

/-- An affine function is its own interpolant. -/
theorem interpIn_sample_affine (p q : ℝ) : ∀ (xs : List ℝ) (x : ℝ), xs.Pairwise (· < ·) →
    (∀ l ∈ xs.getLast?, x ≤ l) → xs ≠ [] → xs.length ≠ 1 →
    interpIn (sample (fun t => p * t + q) xs) x = p * x + q
  | [], _, _, _, h, _ => absurd rfl h
  | [a], _, _, _, _, h => absurd rfl h
  | [a, b], x, hp, hl, _, _ => by
    have hab : a < b := by simpa using hp
    have hx : x ≤ b := by simpa using hl
    have hi : Inc [(a, p * a + q), (b, p * b + q)] := by simp [Inc, hab]
    have := interpIn_segment (x := x) hi hx
    simp only [sample, List.map_cons, List.map_nil] at this ⊢
    rw [this]
    have : b - a ≠ 0 := by linarith
    field_simp; ring
  | a :: b :: c :: xs, x, hp, hl, _, _ => by
    have hab : a < b := (List.pairwise_cons.1 hp).1 b (by simp)
    have ih := interpIn_sample_affine p q (b :: c :: xs) x (List.pairwise_cons.1 hp).2
      (by simpa using hl) (by simp) (by simp)
    simp only [sample, List.map_cons] at ih ⊢
    by_cases hx : x < b
    · simp only [interpIn_cons_lt (k' := (b, _)) hx]
      have : b - a ≠ 0 := by linarith
      field_simp; ring
    · simp only [interpIn_cons_ge (k' := (b, _)) (not_lt.1 hx)]; exact ih

theorem interpIn_sample_const (c : ℝ) : ∀ (xs : List ℝ) (x : ℝ), xs ≠ [] →
    interpIn (sample (fun _ => c) xs) x = c
  | [], _, h => absurd rfl h
  | [a], _, _ => by simp [sample, interpIn]
  | a :: b :: xs, x, _ => by
    have ih := interpIn_sample_const c (b :: xs) x (by simp)
    simp only [sample, List.map_cons] at ih ⊢
    by_cases hx : x < b
    · simp only [interpIn_cons_lt (k' := (b, _)) hx]; ring
    · simp only [interpIn_cons_ge (k' := (b, _)) (not_lt.1 hx)]; exact ih

theorem sample_congr {f g : ℝ → ℝ} {xs : List ℝ} (h : ∀ x ∈ xs, f x = g x) :
    sample f xs = sample g xs := by
  apply List.map_congr_left
  intro x hx
  rw [h x hx]

theorem inc_sample {f : ℝ → ℝ} {xs : List ℝ} : Inc (sample f xs) ↔ xs.Pairwise (· < ·) := by
  simp [Inc, sample, List.pairwise_map]

/-! ## `interp` -/

theorem interp_left {l r : Option ℝ} {k : ℝ × ℝ} {ks : List (ℝ × ℝ)} {x : ℝ} (h : x < k.1) :
    interp l r (k :: ks) x = l.getD k.2 := by
  rcases hl : (k :: ks).getLast? with _ | b
  · simp at hl
  · unfold interp
    rw [hl]; simp [h]

theorem interp_right {l r : Option ℝ} {k b : ℝ × ℝ} {ks : List (ℝ × ℝ)} {x : ℝ}
    (hb : (k :: ks).getLast? = some b) (h : b.1 < x) (h0 : k.1 ≤ x) :
    interp l r (k :: ks) x = r.getD b.2 := by
  unfold interp
  rw [hb]; simp [not_lt.2 h0, h]

theorem interp_mid {l r : Option ℝ} {k b : ℝ × ℝ} {ks : List (ℝ × ℝ)} {x : ℝ}
    (hb : (k :: ks).getLast? = some b) (h : x ≤ b.1) (h0 : k.1 ≤ x) :
    interp l r (k :: ks) x = interpIn (k :: ks) x := by
  unfold interp
  rw [hb]; simp [not_lt.2 h0, not_lt.2 h]

/-- In the range of the knots. -/
def InRange (ks : List (ℝ × ℝ)) (x : ℝ) : Prop :=
  ∃ a b, ks.head? = some a ∧ ks.getLast? = some b ∧ a.1 ≤ x ∧ x ≤ b.1

theorem interp_inRange {l r : Option ℝ} {ks : List (ℝ × ℝ)} {x : ℝ} (h : InRange ks x) :
    interp l r ks x = interpIn ks x := by
  obtain ⟨a, b, ha, hb, h0, h1⟩ := h
  unfold interp
  rw [ha, hb]; simp [not_lt.2 h0, not_lt.2 h1]

theorem InRange.ne_nil {ks : List (ℝ × ℝ)} {x : ℝ} (h : InRange ks x) : ks ≠ [] := by
  obtain ⟨a, b, ha, -⟩ := h
  rintro rfl; simp at ha

theorem inRange_of_mem {ks : List (ℝ × ℝ)} (h : Inc ks) {k : ℝ × ℝ} (hk : k ∈ ks) :
    InRange ks k.1 := by
  rcases ks with _ | ⟨a, ks⟩
  · simp at hk
  · refine ⟨a, (a :: ks).getLast (by simp), rfl, List.getLast?_eq_getLast_of_ne_nil _, ?_, ?_⟩
    · rcases List.mem_cons.1 hk with rfl | hk
      · exact le_rfl
      · exact (h.lt hk).le
    · have := List.dropLast_append_getLast (l := a :: ks) (by simp)
      by_cases he : k = (a :: ks).getLast (by simp)
      · rw [← he]
      · have hk' : k ∈ (a :: ks).dropLast ++ [(a :: ks).getLast (by simp)] := by
          rw [this]; exact hk
        rcases List.mem_append.1 hk' with hk'' | hk''
        · have h2 := h
          rw [← this] at h2
          exact ((List.pairwise_append.1 h2).2.2 k hk'' _ (by simp)).le
        · simp at hk''; exact absurd hk'' he

theorem interp_knot {l r : Option ℝ} {ks : List (ℝ × ℝ)} (h : Inc ks) {k : ℝ × ℝ}
    (hk : k ∈ ks) : interp l r ks k.1 = k.2 := by
  rw [interp_inRange (inRange_of_mem h hk), interpIn_knot h k hk]

/-! ## The trapezoidal rule -/

theorem trapezoid_cons {k k' : ℝ × ℝ} {ks : List (ℝ × ℝ)} :
    trapezoid (k :: k' :: ks) = (k'.1 - k.1) * (k'.2 + k.2) / 2 + trapezoid (k' :: ks) := rfl

theorem trapezoid_append : ∀ {as : List (ℝ × ℝ)} {b : ℝ × ℝ} {bs : List (ℝ × ℝ)},
    trapezoid (as ++ b :: bs) = trapezoid (as ++ [b]) + trapezoid (b :: bs)
  | [], b, bs => by simp [trapezoid]
  | [a], b, bs => by simp [trapezoid]
  | a :: a' :: as, b, bs => by
    have := trapezoid_append (as := a' :: as) (b := b) (bs := bs)
    simp only [List.cons_append] at this ⊢
    rw [trapezoid_cons, trapezoid_cons, this]; ring

theorem trapezoid_sample_add (f g : ℝ → ℝ) : ∀ xs : List ℝ,
    trapezoid (sample (fun t => f t + g t) xs) = trapezoid (sample f xs) + trapezoid (sample g xs)
  | [] => by simp [sample, trapezoid]
  | [a] => by simp [sample, trapezoid]
  | a :: b :: xs => by
    have ih := trapezoid_sample_add f g (b :: xs)
    simp only [sample, List.map_cons] at ih ⊢
    rw [trapezoid_cons, trapezoid_cons, trapezoid_cons, ih]; ring

theorem trapezoid_sample_mul (c : ℝ) (f : ℝ → ℝ) : ∀ xs : List ℝ,
    trapezoid (sample (fun t => c * f t) xs) = c * trapezoid (sample f xs)
  | [] => by simp [sample, trapezoid]
  | [a] => by simp [sample, trapezoid]
  | a :: b :: xs => by
    have ih := trapezoid_sample_mul c f (b :: xs)
    simp only [sample, List.map_cons] at ih ⊢
    rw [trapezoid_cons, trapezoid_cons, ih]; ring

theorem trapezoid_sample_mono {f g : ℝ → ℝ} : ∀ {xs : List ℝ}, xs.Pairwise (· ≤ ·) →
    (∀ x ∈ xs, f x ≤ g x) → trapezoid (sample f xs) ≤ trapezoid (sample g xs)
  | [], _, _ => by simp [sample, trapezoid]
  | [a], _, _ => by simp [sample, trapezoid]
  | a :: b :: xs, h, hfg => by
    have ih := trapezoid_sample_mono (List.pairwise_cons.1 h).2
      (fun x hx => hfg x (List.mem_cons_of_mem _ hx))
    have hab : a ≤ b := (List.pairwise_cons.1 h).1 b (by simp)
    simp only [sample, List.map_cons] at ih ⊢
    rw [trapezoid_cons, trapezoid_cons]
    have h1 := hfg a (by simp)
    have h2 := hfg b (by simp)
    have : (b - a) * (f b + f a) ≤ (b - a) * (g b + g a) :=
      mul_le_mul_of_nonneg_left (by linarith) (by linarith)
    simp only at this ⊢
    linarith

theorem trapezoid_nonneg : ∀ {ks : List (ℝ × ℝ)}, ks.Pairwise (fun a b => a.1 ≤ b.1) →
    (∀ k ∈ ks, 0 ≤ k.2) → 0 ≤ trapezoid ks
  | [], _, _ => by simp [trapezoid]
  | [a], _, _ => by simp [trapezoid]
  | a :: b :: ks, h, hp => by
    rw [trapezoid_cons]
    have ih := trapezoid_nonneg (List.pairwise_cons.1 h).2
      (fun x hx => hp x (List.mem_cons_of_mem _ hx))
    have hab := (List.pairwise_cons.1 h).1 b (by simp)
    have h1 := hp a (by simp)
    have h2 := hp b (by simp)
    have : 0 ≤ (b.1 - a.1) * (b.2 + a.2) := mul_nonneg (by linarith) (by linarith)
    linarith

/-- `f` is affine between any two neighbours of the grid. -/
def AffineBetween (f : ℝ → ℝ) : List ℝ → Prop
  | a :: b :: xs => (∃ p q : ℝ, ∀ x, a ≤ x → x ≤ b → f x = p * x + q) ∧ AffineBetween f (b :: xs)
  | _ => True

open MeasureTheory in
theorem affine_integral {f : ℝ → ℝ} {a b p q : ℝ} (hab : a ≤ b)
    (h : ∀ x, a ≤ x → x ≤ b → f x = p * x + q) :
    IntervalIntegrable f volume a b ∧ ∫ x in a..b, f x = (b - a) * (f b + f a) / 2 := by
  have hc : ∀ x ∈ Set.uIcc a b, f x = p * x + q := by
    intro x hx
    rw [Set.uIcc_of_le hab] at hx
    exact h x hx.1 hx.2
  have hint : IntervalIntegrable (fun x : ℝ => p * x + q) volume a b :=
    (by fun_prop : Continuous fun x : ℝ => p * x + q).intervalIntegrable a b
  constructor
  · refine hint.congr (fun x hx => (hc x ?_).symm)
    exact Set.uIoc_subset_uIcc hx
  · rw [intervalIntegral.integral_congr hc]
    have : ∫ x in a..b, (p * x + q) = p * ((b ^ 2 - a ^ 2) / 2) + q * (b - a) := by
      rw [intervalIntegral.integral_add, intervalIntegral.integral_const_mul, integral_id]
      · simp; ring
      · exact (by fun_prop : Continuous fun x : ℝ => p * x).intervalIntegrable a b
      · exact (by fun_prop : Continuous fun _ : ℝ => q).intervalIntegrable a b
    rw [this, h a le_rfl hab, h b hab le_rfl]; ring

open MeasureTheory in
/-- The trapezoidal rule is the exact integral of a function that is affine between the points
of the grid. -/
theorem trapezoid_integral (f : ℝ → ℝ) : ∀ (xs : List ℝ) (a : ℝ),
    (a :: xs).Pairwise (· ≤ ·) → AffineBetween f (a :: xs) →
    ∀ b, (a :: xs).getLast? = some b →
    IntervalIntegrable f volume a b ∧ trapezoid (sample f (a :: xs)) = ∫ x in a..b, f x
  | [], a, _, _, b, hb => by
    simp at hb
    subst hb
    simp [sample, trapezoid]
  | a' :: xs, a, hp, ⟨⟨p, q, hpq⟩, hf⟩, b, hb => by
    have hab : a ≤ a' := (List.pairwise_cons.1 hp).1 a' (by simp)
    obtain ⟨i1, e1⟩ := affine_integral hab hpq
    obtain ⟨i2, e2⟩ := trapezoid_integral f xs a' (List.pairwise_cons.1 hp).2 hf b
      (by simpa using hb)
    refine ⟨i1.trans i2, ?_⟩
    have : trapezoid (sample f (a :: a' :: xs)) =
        (a' - a) * (f a' + f a) / 2 + trapezoid (sample f (a' :: xs)) := rfl
    rw [this, e2, ← e1, intervalIntegral.integral_add_adjacent_intervals i1 i2]

/-! ## Grids -/

theorem mem_union1d {x y : List ℝ} {t : ℝ} : t ∈ union1d x y ↔ t ∈ x ∨ t ∈ y := by
  classical
  unfold union1d
  rw [(List.mergeSort_perm _ _).mem_iff, List.mem_dedup, List.mem_append]

theorem union1d_sorted (x y : List ℝ) : (union1d x y).Pairwise (· < ·) := by
  classical
  have h1 : (union1d x y).Pairwise (fun a b => decide (a ≤ b) = true) := by
    unfold union1d
    apply List.pairwise_mergeSort
    · intro a b c h1 h2; simp at *; linarith
    · intro a b
      rcases le_total a b with h | h <;> simp [h]
  have h2 : (union1d x y).Nodup := by
    unfold union1d
    exact (List.mergeSort_perm _ _).nodup_iff.2 (List.nodup_dedup _)
  have h1' : (union1d x y).Pairwise (· ≤ ·) := h1.imp (by simp)
  exact (h1'.and h2).imp fun ⟨h, h'⟩ => lt_of_le_of_ne h h'

/-- The union of two grids does not depend on their order. -/
theorem union1d_comm (x y : List ℝ) : union1d x y = union1d y x := by
  apply List.Perm.eq_of_pairwise (le := (· < ·))
  · intro a b _ _ h1 h2; exact absurd h1 (not_lt.2 h2.le)
  · exact union1d_sorted x y
  · exact union1d_sorted y x
  · rw [List.perm_ext_iff_of_nodup]
    · intro t; rw [mem_union1d, mem_union1d, or_comm]
    · exact (union1d_sorted x y).imp ne_of_lt
    · exact (union1d_sorted y x).imp ne_of_lt

/-- Two strictly increasing grids with the same points are equal. -/
theorem sorted_unique {x y : List ℝ} (hx : x.Pairwise (· < ·)) (hy : y.Pairwise (· < ·))
    (h : ∀ t, t ∈ x ↔ t ∈ y) : x = y := by
  apply List.Perm.eq_of_pairwise (le := (· < ·))
  · intro a b _ _ h1 h2; exact absurd h1 (not_lt.2 h2.le)
  · exact hx
  · exact hy
  · rw [List.perm_ext_iff_of_nodup (hx.imp ne_of_lt) (hy.imp ne_of_lt)]
    exact h

theorem head_le {xs : List ℝ} {a t : ℝ} (h : xs.Pairwise (· < ·)) (ha : xs.head? = some a)
    (ht : t ∈ xs) : a ≤ t := by
  rcases xs with _ | ⟨b, xs⟩
  · simp at ht
  · simp at ha
    subst ha
    rcases List.mem_cons.1 ht with rfl | ht
    · exact le_rfl
    · exact ((List.pairwise_cons.1 h).1 t ht).le

theorem le_last {xs : List ℝ} {b t : ℝ} (h : xs.Pairwise (· < ·)) (hb : xs.getLast? = some b)
    (ht : t ∈ xs) : t ≤ b := by
  have h' : (xs.map fun x => (x, (0 : ℝ))).Pairwise fun a b => a.1 < b.1 := by
    rw [List.pairwise_map]; exact h
  obtain ⟨a, b', -, hb', -, h1⟩ := inRange_of_mem h' (k := (t, 0)) (by simpa using ht)
  rw [List.getLast?_map, hb] at hb'
  simp at hb'
  rw [← hb'] at h1
  exact h1

/-- Two neighbours of a strictly increasing grid have no other point of it between them. -/
theorem affineBetween_of {f : ℝ → ℝ} : ∀ {xs : List ℝ}, xs.Pairwise (· < ·) →
    (∀ a b, a ∈ xs → b ∈ xs → a < b → (∀ t ∈ xs, ¬ (a < t ∧ t < b)) →
      ∃ p q : ℝ, ∀ x, a ≤ x → x ≤ b → f x = p * x + q) → AffineBetween f xs
  | [], _, _ => trivial
  | [a], _, _ => trivial
  | a :: b :: xs, h, hf => by
    have hab : a < b := (List.pairwise_cons.1 h).1 b (by simp)
    refine ⟨hf a b (by simp) (by simp) hab ?_, ?_⟩
    · intro t ht ⟨h1, h2⟩
      rcases List.mem_cons.1 ht with rfl | ht
      · exact lt_irrefl _ h1
      · rcases List.mem_cons.1 ht with rfl | ht
        · exact lt_irrefl _ h2
        · exact absurd h2 (not_lt.2 ((List.pairwise_cons.1 (List.pairwise_cons.1 h).2).1 t ht).le)
    · apply affineBetween_of (List.pairwise_cons.1 h).2
      intro c d hc hd hcd hn
      apply hf c d (List.mem_cons_of_mem _ hc) (List.mem_cons_of_mem _ hd) hcd
      intro t ht ⟨h1, h2⟩
      rcases List.mem_cons.1 ht with rfl | ht
      · have := (List.pairwise_cons.1 h).1 c hc
        linarith
      · exact hn t ht ⟨h1, h2⟩

/-! ## `linspace` -/

theorem linspace_length (a b : ℝ) (n : ℕ) : (linspace a b n).length = n := by simp [linspace]

theorem linspace_sorted {a b : ℝ} (h : a < b) (n : ℕ) : (linspace a b n).Pairwise (· < ·) := by
  unfold linspace
  rw [List.pairwise_map]
  rcases Nat.lt_or_ge n 2 with hn | hn
  · interval_cases n <;> simp
  have hd : 0 < (b - a) / ((n - 1 : ℕ) : ℝ) := by
    apply div_pos (by linarith)
    exact_mod_cast (by omega : 0 < n - 1)
  refine List.pairwise_lt_range.imp fun {k l} hkl => ?_
  have : (k : ℝ) < l := by exact_mod_cast hkl
  nlinarith

theorem linspaceOpen_sorted {a b : ℝ} (h : a < b) (n : ℕ) :
    (linspaceOpen a b n).Pairwise (· < ·) := by
  unfold linspaceOpen
  rw [List.pairwise_map]
  rcases Nat.eq_zero_or_pos n with rfl | hn
  · simp
  have hd : 0 < (b - a) / (n : ℝ) := by
    apply div_pos (by linarith)
    exact_mod_cast hn
  refine List.pairwise_lt_range.imp fun {k l} hkl => ?_
  have : (k : ℝ) < l := by exact_mod_cast hkl
  nlinarith

theorem linspace_head {a b : ℝ} {n : ℕ} (hn : 0 < n) : (linspace a b n).head? = some a := by
  obtain ⟨m, rfl⟩ := Nat.exists_eq_succ_of_ne_zero hn.ne'
  simp [linspace, List.range_succ_eq_map]

theorem linspace_last {a b : ℝ} {n : ℕ} (hn : 2 ≤ n) : (linspace a b n).getLast? = some b := by
  obtain ⟨m, rfl⟩ : ∃ m, n = m + 2 := ⟨n - 2, by omega⟩
  simp only [linspace, List.range_succ, List.map_append, List.map_cons, List.map_nil,
    List.getLast?_concat]
  congr 1
  have : ((m : ℝ) + 1) ≠ 0 := by positivity
  push_cast [Nat.add_sub_cancel, show m + 2 - 1 = m + 1 by omega]
  field_simp
  ring

/-- A closed grid is the open grid with one point less, followed by the end point. -/
theorem linspace_eq_open {a b : ℝ} {n : ℕ} (hn : 1 ≤ n) :
    linspace a b (n + 1) = linspaceOpen a b n ++ [b] := by
  have h0 : (n : ℝ) ≠ 0 := by exact_mod_cast (by omega : n ≠ 0)
  simp only [linspace, linspaceOpen, List.range_succ, List.map_append, List.map_cons,
    List.map_nil, Nat.add_sub_cancel]
  congr 2
  field_simp; ring

end Glass.Num
