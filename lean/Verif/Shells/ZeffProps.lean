import Verif.Shells.WindowProps
import Verif.Numerics.Spec
import Verif.Numerics.IntegralProps

/-!
# The effective redshift of a window (C115)
-/

namespace Glass.Shells

open Glass.Num MeasureTheory

/-! ## Model -/

/-- A window as an object; `zeff = none` is NaN. -/
structure Window where
  knots : List (ℝ × ℝ)
  zeff : Option ℝ

/-- `shells.py:222-255`: `RadialWindow(za, wa, zeff)` with the default NaN for `zeff`;
`__post_init__` replaces NaN by the calculated value. -/
noncomputable def Window.new (ks : List (ℝ × ℝ)) (zeff : Option ℝ := none) : Window :=
  match zeff with
  | none => ⟨ks, calculateZeff ks⟩
  | some z => ⟨ks, some z⟩

/-- `dataclasses.replace(w, za=…, wa=…, zeff=…)`, recommended in `shells.py:206-211`: a new object is
constructed, and fields that are not given are taken from the old one.  `zeff = some none` passes
NaN. -/
noncomputable def Window.replace (w : Window) (ks : Option (List (ℝ × ℝ)))
    (zeff : Option (Option ℝ)) : Window :=
  Window.new (ks.getD w.knots) (zeff.getD w.zeff)

/-- `shells.py:257-264` `__iter__`: redshifts, weights and effective redshift, in this order. -/
def Window.iter (w : Window) : List ℝ × List ℝ × Option ℝ :=
  (w.knots.map Prod.fst, w.knots.map Prod.snd, w.zeff)

/-! ## Specification -/

/-- The mean redshift of the function `g` between `a` and `b`. -/
noncomputable def meanRedshift (g : ℝ → ℝ) (a b : ℝ) : ℝ :=
  (∫ x in a..b, x * g x) / ∫ x in a..b, g x

/-! ## Mean redshift of the interpolated window -/

/-- The error of the trapezoidal rule for the redshift times the window. -/
noncomputable def momentError : List (ℝ × ℝ) → ℝ
  | k :: k' :: ks => (k'.1 - k.1) ^ 2 * (k'.2 - k.2) / 6 + momentError (k' :: ks)
  | _ => 0

theorem segment_moment {g : ℝ → ℝ} {a b p q : ℝ} (hab : a ≤ b)
    (h : ∀ x, a ≤ x → x ≤ b → g x = p * x + q) :
    IntervalIntegrable (fun x => x * g x) volume a b ∧ ∫ x in a..b, x * g x =
      (b - a) * (b * g b + a * g a) / 2 - (b - a) ^ 2 * (g b - g a) / 6 := by
  have hc : ∀ x ∈ Set.uIcc a b, x * g x = p * x ^ 2 + q * x := by
    intro x hx
    rw [Set.uIcc_of_le hab] at hx
    rw [h x hx.1 hx.2]; ring
  have hint : IntervalIntegrable (fun x : ℝ => p * x ^ 2 + q * x) volume a b :=
    (by fun_prop : Continuous fun x : ℝ => p * x ^ 2 + q * x).intervalIntegrable a b
  constructor
  · exact hint.congr fun x hx => (hc x (Set.uIoc_subset_uIcc hx)).symm
  · rw [intervalIntegral.integral_congr hc]
    have : ∫ x in a..b, (p * x ^ 2 + q * x) =
        p * ((b ^ 3 - a ^ 3) / 3) + q * ((b ^ 2 - a ^ 2) / 2) := by
      rw [intervalIntegral.integral_add, intervalIntegral.integral_const_mul,
        intervalIntegral.integral_const_mul, integral_id, integral_pow]
      · norm_num
      · exact (by fun_prop : Continuous fun x : ℝ => p * x ^ 2).intervalIntegrable a b
      · exact (by fun_prop : Continuous fun x : ℝ => q * x).intervalIntegrable a b
    rw [this, h a le_rfl hab, h b hab le_rfl]; ring

/-- The trapezoidal rule for the redshift times the window, and the integral of the redshift times
the interpolated window. -/
theorem moment_error (g : ℝ → ℝ) : ∀ (ks : List (ℝ × ℝ)) (a b : ℝ × ℝ), Inc ks →
    Interpolates ks g → ks.head? = some a → ks.getLast? = some b →
    IntervalIntegrable g volume a.1 b.1 ∧ IntervalIntegrable (fun x => x * g x) volume a.1 b.1 ∧
    trapezoid ks = ∫ x in a.1..b.1, g x ∧
    trapezoid (ks.map fun k => (k.1, k.1 * k.2)) = (∫ x in a.1..b.1, x * g x) + momentError ks
  | [], _, _, _, _, ha, _ => by simp at ha
  | [k], a, b, _, _, ha, hb => by
    simp at ha hb
    subst ha hb
    simp [trapezoid, momentError]
  | k :: k' :: ks, a, b, hi, hg, ha, hb => by
    obtain ⟨i1, i2, e1, e2⟩ := moment_error g (k' :: ks) k' b hi.tail
      ⟨fun q hq => hg.1 q (List.mem_cons_of_mem _ hq), fun c d hcd =>
        hg.2 c d (by simp only [List.tail_cons] at hcd ⊢; simp [hcd])⟩ rfl (by simpa using hb)
    simp only [List.head?_cons, Option.some.injEq] at ha
    subst ha
    have hlt := hi.lt (k' := k') (by simp)
    have haff : ∀ x, k.1 ≤ x → x ≤ k'.1 → g x = (k'.2 - k.2) / (k'.1 - k.1) * x +
        (k.2 - k.1 * ((k'.2 - k.2) / (k'.1 - k.1))) := by
      intro x h1 h2
      have hne : k'.1 - k.1 ≠ 0 := by linarith
      have := hg.2 k k' (by simp) x h1 h2
      field_simp
      linarith
    obtain ⟨j1, f1⟩ := affine_integral hlt.le haff
    obtain ⟨j2, f2⟩ := segment_moment hlt.le haff
    rw [hg.1 k (by simp), hg.1 k' (by simp)] at f1 f2
    refine ⟨j1.trans i1, j2.trans i2, ?_, ?_⟩
    · rw [← intervalIntegral.integral_add_adjacent_intervals j1 i1, f1, ← e1]
      rfl
    · rw [← intervalIntegral.integral_add_adjacent_intervals j2 i2, f2]
      simp only [List.map_cons] at e2 ⊢
      rw [trapezoid_cons, e2]
      simp only [momentError]
      ring

/-- **C115**: the calculated effective redshift is the mean redshift of the interpolated window, plus
the error of the trapezoidal rule. -/
theorem calculated_zeff_partial {ks : List (ℝ × ℝ)} {g : ℝ → ℝ} {a b : ℝ × ℝ} (hi : Inc ks)
    (hg : Interpolates ks g) (ha : ks.head? = some a) (hb : ks.getLast? = some b)
    (h0 : ∫ x in a.1..b.1, g x ≠ 0) :
    (Window.new ks).zeff = some (meanRedshift g a.1 b.1 +
      momentError ks / ∫ x in a.1..b.1, g x) := by
  obtain ⟨-, -, e1, e2⟩ := moment_error g ks a b hi hg ha hb
  have hne : ks ≠ [] := by rintro rfl; simp at ha
  simp only [Window.new, calculateZeff]
  rw [if_pos (List.length_pos_iff.2 hne), if_neg (by rwa [e1]), e1, e2, meanRedshift, add_div]

/-- On an equidistant grid the error depends on the outermost weights only. -/
theorem momentError_equidistant (h : ℝ) : ∀ (ks : List (ℝ × ℝ)) (a b : ℝ × ℝ),
    (∀ p ∈ ks.zip ks.tail, p.2.1 - p.1.1 = h) → ks.head? = some a → ks.getLast? = some b →
    momentError ks = h ^ 2 * (b.2 - a.2) / 6
  | [], _, _, _, ha, _ => by simp at ha
  | [k], a, b, _, ha, hb => by
    simp at ha hb
    subst ha hb
    simp [momentError]
  | k :: k' :: ks, a, b, hs, ha, hb => by
    have ih := momentError_equidistant h (k' :: ks) k' b (fun p hp => hs p (by
      simp only [List.tail_cons] at hp ⊢; simp [hp])) rfl (by simpa using hb)
    simp only [List.head?_cons, Option.some.injEq] at ha
    subst ha
    have := hs (k, k') (by simp)
    simp only at this
    rw [momentError, ih, this]
    ring

/-- **C115**: on an equidistant grid, the effective redshift is the mean redshift of the interpolated
window exactly if the window has the same value at both ends (for example, if it vanishes there). -/
theorem zeff_equidistant_partial {ks : List (ℝ × ℝ)} {g : ℝ → ℝ} {a b : ℝ × ℝ} {h : ℝ} (hi : Inc ks)
    (hg : Interpolates ks g) (ha : ks.head? = some a) (hb : ks.getLast? = some b)
    (hs : ∀ p ∈ ks.zip ks.tail, p.2.1 - p.1.1 = h) (hh : h ≠ 0)
    (h0 : ∫ x in a.1..b.1, g x ≠ 0) :
    (Window.new ks).zeff = some (meanRedshift g a.1 b.1) ↔ a.2 = b.2 := by
  rw [calculated_zeff_partial hi hg ha hb h0, momentError_equidistant h ks a b hs ha hb,
    Option.some.injEq, add_eq_left, div_eq_zero_iff, or_iff_left h0, div_eq_zero_iff,
    or_iff_left (by norm_num), mul_eq_zero, or_iff_right (pow_ne_zero 2 hh), sub_eq_zero]
  exact eq_comm

/-- **C115 refuted**: the window of the documentation, which falls linearly from 1 at redshift 0 to 0
at redshift 1, has the mean redshift 1/3 but the effective redshift 0, at the edge of the window. -/
theorem zeff_not_mean : ∃ (ks : List (ℝ × ℝ)) (g : ℝ → ℝ), Inc ks ∧ Interpolates ks g ∧
    ks.head? = some (0, 1) ∧ ks.getLast? = some (1, 0) ∧
    (Window.new ks).zeff = some 0 ∧ meanRedshift g 0 1 = 1 / 3 := by
  have hi : Inc [((0 : ℝ), (1 : ℝ)), (1, 0)] := by simp [Inc]
  have hg := interpIn_interpolates hi
  obtain ⟨-, -, e1, e2⟩ := moment_error _ _ (0, 1) (1, 0) hi hg rfl rfl
  norm_num [trapezoid, momentError] at e1 e2
  refine ⟨[(0, 1), (1, 0)], _, hi, hg, rfl, rfl, ?_, ?_⟩
  · norm_num [Window.new, calculateZeff, trapezoid]
  · unfold meanRedshift
    rw [← e1, show ∫ x in (0 : ℝ)..1, x * interpIn [(0, 1), (1, 0)] x = 1 / 6 by linarith]
    norm_num

/-! ## Replacing parts of a window -/

/-- **C115 refuted**: a window created without effective redshift keeps the calculated one when its
arrays are replaced; here it lies outside the new window. -/
theorem replace_keeps_zeff : ∃ ks ks' : List (ℝ × ℝ), Inc ks ∧ Inc ks' ∧
    (Window.new ks).zeff = some 1 ∧ (Window.new ks').zeff = some 3 ∧
    ((Window.new ks).replace (some ks') none).zeff = some 1 ∧
    ks'.head? = some (2, 0) := by
  have hz : (Window.new [(0, 0), (1, 1), (2, 0)]).zeff = some 1 := by
    norm_num [Window.new, calculateZeff, trapezoid]
  refine ⟨[(0, 0), (1, 1), (2, 0)], [(2, 0), (3, 1), (4, 0)], by simp [Inc],
    by norm_num [Inc], hz, ?_, ?_, rfl⟩
  · norm_num [Window.new, calculateZeff, trapezoid]
  · simp only [Window.replace, Option.getD_some, Option.getD_none]
    rw [hz]
    rfl

/-- **C115**: with NaN for the effective redshift, the window with replaced arrays is the one that
would be created from them; a number given for the effective redshift is kept. -/
theorem replace_partial (w : Window) (ks : List (ℝ × ℝ)) (z : ℝ) :
    w.replace (some ks) (some none) = Window.new ks ∧
    w.replace (some ks) (some (some z)) = Window.new ks (some z) ∧
    w.replace none (some (some z)) = ⟨w.knots, some z⟩ ∧
    (Window.new ks (some z)).iter = (ks.map Prod.fst, ks.map Prod.snd, some z) :=
  ⟨rfl, rfl, rfl, rfl⟩

/-- **C115**: the effective redshift is NaN only if the window is empty or its integral vanishes; if
the weights are not negative, it lies in the range of the window. -/
theorem zeff_range_partial {ks : List (ℝ × ℝ)} (hi : Inc ks) (hw : ∀ k ∈ ks, 0 ≤ k.2) :
    ((Window.new ks).zeff = none ↔ trapezoid ks = 0) ∧
    ∀ z, (Window.new ks).zeff = some z →
      ∃ a b, ks.head? = some a ∧ ks.getLast? = some b ∧ a.1 ≤ z ∧ z ≤ b.1 := by
  refine ⟨?_, fun z hz => calculateZeff_mem hi hw hz⟩
  simp only [Window.new, calculateZeff]
  rcases ks with _ | ⟨k, ks⟩
  · simp [trapezoid]
  · simp only [List.length_cons, Nat.zero_lt_succ, gt_iff_lt, if_true]
    split_ifs with h
    · simp [h]
    · simp [h]

/-- Concrete case: a triangle on an equidistant grid has the mean redshift 1. -/
example : (Window.new [(0, 0), (1, 1), (2, 0)]).zeff =
    some (meanRedshift (interpIn [(0, 0), (1, 1), (2, 0)]) 0 2) := by
  have hi : Inc [((0 : ℝ), (0 : ℝ)), (1, 1), (2, 0)] := by simp [Inc]
  have hg := interpIn_interpolates hi
  obtain ⟨-, -, e1, -⟩ := moment_error _ _ (0, 0) (2, 0) hi hg rfl rfl
  refine (zeff_equidistant_partial (a := (0, 0)) (b := (2, 0)) (h := 1) hi hg rfl rfl ?_ one_ne_zero
    ?_).2 rfl
  · intro p hp
    simp at hp
    rcases hp with rfl | rfl <;> norm_num
  · rw [← e1]
    norm_num [trapezoid]

end Glass.Shells
