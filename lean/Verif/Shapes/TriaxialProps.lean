import Mathlib.Analysis.SpecialFunctions.Complex.Arg
import Mathlib.Analysis.Real.Pi.Bounds
import Verif.Arrays.FitLemmas
import Verif.Shapes.Model

/-!
# Projected axis ratios (C67)
-/

namespace Glass.Shapes

open Glass Glass.Arrays NdArray

/-! ## Specification -/

/-- Inner product of two vectors. -/
def dot (v w : ℝ × ℝ × ℝ) : ℝ := v.1 * w.1 + v.2.1 * w.2.1 + v.2.2 * w.2.2

/-- The ellipsoid with semi-axes 1, `zeta`, `xi`: the image of the unit ball. -/
def ellipsoid (zeta xi : ℝ) : Set (ℝ × ℝ × ℝ) :=
  {p | ∃ w : ℝ × ℝ × ℝ, dot w w ≤ 1 ∧ p = (w.1, zeta * w.2.1, xi * w.2.2)}

/-- The direction towards the observer. -/
noncomputable def lineOfSight (u phi : ℝ) : ℝ × ℝ × ℝ :=
  (Real.sqrt (1 - u ^ 2) * Real.cos phi, Real.sqrt (1 - u ^ 2) * Real.sin phi, u)

/-- The half-widths of the ellipsoid as seen by the observer: `w` is one of them if it is the
largest extent of the ellipsoid along some unit vector in the plane of the sky. -/
def HalfWidth (zeta xi u phi w : ℝ) : Prop :=
  ∃ v : ℝ × ℝ × ℝ, dot v v = 1 ∧ dot v (lineOfSight u phi) = 0 ∧
    IsGreatest {x | ∃ p ∈ ellipsoid zeta xi, x = dot v p} w

/-! ## Half-widths are values of a quadratic form -/

/-- Square of the half-width along `v`. -/
def form (zeta xi : ℝ) (v : ℝ × ℝ × ℝ) : ℝ := v.1 ^ 2 + zeta ^ 2 * v.2.1 ^ 2 + xi ^ 2 * v.2.2 ^ 2

theorem form_nonneg (zeta xi : ℝ) (v : ℝ × ℝ × ℝ) : 0 ≤ form zeta xi v := by
  unfold form; positivity

theorem isGreatest_form (zeta xi : ℝ) (v : ℝ × ℝ × ℝ) :
    IsGreatest {x | ∃ p ∈ ellipsoid zeta xi, x = dot v p} (Real.sqrt (form zeta xi v)) := by
  have h0 := form_nonneg zeta xi v
  constructor
  · rcases eq_or_lt_of_le h0 with h | h
    · rw [← h, Real.sqrt_zero]
      exact ⟨(0, 0, 0), ⟨(0, 0, 0), by simp [dot], by simp⟩, by simp [dot]⟩
    · have hs : 0 < Real.sqrt (form zeta xi v) := Real.sqrt_pos.2 h
      have hsq : Real.sqrt (form zeta xi v) ^ 2 = form zeta xi v := Real.sq_sqrt h0
      set r := Real.sqrt (form zeta xi v) with hr
      refine ⟨_, ⟨(v.1 / r, zeta * v.2.1 / r, xi * v.2.2 / r), ?_, rfl⟩, ?_⟩
      · have : dot (v.1 / r, zeta * v.2.1 / r, xi * v.2.2 / r)
            (v.1 / r, zeta * v.2.1 / r, xi * v.2.2 / r) = form zeta xi v / r ^ 2 := by
          simp only [dot, form]; field_simp
        rw [this, hsq, div_self h.ne']
      · have : dot v (v.1 / r, zeta * (zeta * v.2.1 / r), xi * (xi * v.2.2 / r)) =
            form zeta xi v / r := by
          simp only [dot, form]; field_simp
        simp only
        rw [this, ← hsq, sq, mul_div_assoc, div_self hs.ne', mul_one]
  · rintro x ⟨p, ⟨w, hw, rfl⟩, rfl⟩
    refine Real.le_sqrt_of_sq_le ?_
    have hw' : w.1 ^ 2 + w.2.1 ^ 2 + w.2.2 ^ 2 ≤ 1 := by simpa [dot, sq] using hw
    have key : (dot v (w.1, zeta * w.2.1, xi * w.2.2)) ^ 2 ≤
        form zeta xi v * (w.1 ^ 2 + w.2.1 ^ 2 + w.2.2 ^ 2) := by
      simp only [dot, form]
      nlinarith [sq_nonneg (v.1 * w.2.1 - zeta * v.2.1 * w.1),
        sq_nonneg (v.1 * w.2.2 - xi * v.2.2 * w.1),
        sq_nonneg (zeta * v.2.1 * w.2.2 - xi * v.2.2 * w.2.1)]
    nlinarith

theorem halfWidth_iff (zeta xi u phi w : ℝ) : HalfWidth zeta xi u phi w ↔
    ∃ v, dot v v = 1 ∧ dot v (lineOfSight u phi) = 0 ∧ w = Real.sqrt (form zeta xi v) :=
  ⟨fun ⟨v, h1, h2, h3⟩ => ⟨v, h1, h2, h3.unique (isGreatest_form zeta xi v)⟩,
    fun ⟨v, h1, h2, h3⟩ => ⟨v, h1, h2, h3 ▸ isGreatest_form zeta xi v⟩⟩

/-- Every unit vector in the plane of the sky is a combination of the two tangent vectors, and the
form is a binary quadratic form there. -/
theorem sky_plane (zeta xi : ℝ) {u phi : ℝ} (hu : u ^ 2 ≤ 1) (f : ℝ) :
    (∃ v, dot v v = 1 ∧ dot v (lineOfSight u phi) = 0 ∧ f = form zeta xi v) ↔
    ∃ s t : ℝ, s ^ 2 + t ^ 2 = 1 ∧
      f = ((1 + (zeta ^ 2 - 1) * Real.sin phi ^ 2) * u ^ 2 + xi ^ 2 * (1 - u ^ 2)) * s ^ 2 +
        2 * ((zeta ^ 2 - 1) * u * Real.sin phi * Real.cos phi) * (s * t) +
        (1 + (zeta ^ 2 - 1) * Real.cos phi ^ 2) * t ^ 2 := by
  have hr : Real.sqrt (1 - u ^ 2) ^ 2 = 1 - u ^ 2 := Real.sq_sqrt (by linarith)
  have hcs := Real.sin_sq_add_cos_sq phi
  unfold lineOfSight
  set r := Real.sqrt (1 - u ^ 2) with hrd
  set S := Real.sin phi
  set C := Real.cos phi
  have hu2 : u ^ 2 = 1 - r ^ 2 := by linarith
  have hS : S ^ 2 = 1 - C ^ 2 := by linarith
  constructor
  · rintro ⟨⟨x, y, z⟩, h1, h2, rfl⟩
    simp only [dot] at h1 h2
    refine ⟨u * C * x + u * S * y - r * z, -S * x + C * y, ?_, ?_⟩
    · have hp : (u * C * x + u * S * y - r * z) ^ 2 + (-S * x + C * y) ^ 2 +
          (x * (r * C) + y * (r * S) + z * u) ^ 2 = x * x + y * y + z * z := by
        have : (u * C * x + u * S * y - r * z) ^ 2 + (x * (r * C) + y * (r * S) + z * u) ^ 2 =
            (u ^ 2 + r ^ 2) * ((C * x + S * y) ^ 2 + z ^ 2) := by ring
        have h3 : u ^ 2 + r ^ 2 = 1 := by linarith
        rw [h3] at this
        have h4 : (C * x + S * y) ^ 2 + (-S * x + C * y) ^ 2 = (S ^ 2 + C ^ 2) * (x ^ 2 + y ^ 2) := by
          ring
        rw [hcs] at h4
        linarith
      rw [h2] at hp
      linarith
    · -- coordinates of the vector
      set s := u * C * x + u * S * y - r * z with hs
      set t := -S * x + C * y with ht
      have e0 : r * (C * x + S * y) = -(u * z) := by linarith
      have ha : C * x + S * y = u * s := by
        rw [hs]
        have : u * (u * C * x + u * S * y - r * z) = u ^ 2 * (C * x + S * y) - r * (u * z) := by ring
        rw [this, show u * z = -(r * (C * x + S * y)) by linarith, hu2]; ring
      have hz : z = -(r * s) := by
        rw [hs]
        have : -(r * (u * C * x + u * S * y - r * z)) = -(u * (r * (C * x + S * y))) + r ^ 2 * z := by
          ring
        rw [this, e0, hr]; ring
      have hx : x = u * s * C - S * t := by
        have : x = C * (C * x + S * y) - S * (-S * x + C * y) := by
          linear_combination -x * hcs
        rw [this, ha, ← ht]; ring
      have hy : y = u * s * S + C * t := by
        have : y = S * (C * x + S * y) + C * (-S * x + C * y) := by
          linear_combination -y * hcs
        rw [this, ha, ← ht]; ring
      simp only [form]
      rw [hx, hy, hz]
      have : (-(r * s)) ^ 2 = (1 - u ^ 2) * s ^ 2 := by rw [← hr]; ring
      rw [this]
      linear_combination (u ^ 2 * s ^ 2 + t ^ 2) * hcs
  · rintro ⟨s, t, h1, rfl⟩
    refine ⟨(u * s * C - S * t, u * s * S + C * t, -(r * s)), ?_, ?_, ?_⟩
    · simp only [dot]
      linear_combination (u ^ 2 * s ^ 2 + t ^ 2) * hcs + s ^ 2 * hr + h1
    · simp only [dot]
      linear_combination u * s * r * hcs
    · simp only [form]
      linear_combination (-(u ^ 2 * s ^ 2) - t ^ 2) * hcs - xi ^ 2 * s ^ 2 * hr

/-- The extreme values of a binary quadratic form on the unit circle. -/
theorem binary_form (a h c : ℝ) :
    IsGreatest {f | ∃ s t : ℝ, s ^ 2 + t ^ 2 = 1 ∧ f = a * s ^ 2 + 2 * h * (s * t) + c * t ^ 2}
      ((a + c + Real.sqrt ((a - c) ^ 2 + (2 * h) ^ 2)) / 2) ∧
    IsLeast {f | ∃ s t : ℝ, s ^ 2 + t ^ 2 = 1 ∧ f = a * s ^ 2 + 2 * h * (s * t) + c * t ^ 2}
      ((a + c - Real.sqrt ((a - c) ^ 2 + (2 * h) ^ 2)) / 2) := by
  set R := Real.sqrt ((a - c) ^ 2 + (2 * h) ^ 2) with hR
  have hR2 : R ^ 2 = (a - c) ^ 2 + (2 * h) ^ 2 := Real.sq_sqrt (by positivity)
  have hR0 : 0 ≤ R := Real.sqrt_nonneg _
  -- bounds
  have hb : ∀ s t : ℝ, s ^ 2 + t ^ 2 = 1 →
      |(a - c) * (s ^ 2 - t ^ 2) + 2 * h * (2 * (s * t))| ≤ R := fun s t hst => by
    refine abs_le_of_sq_le_sq ?_ hR0
    rw [hR2]
    have : (s ^ 2 - t ^ 2) ^ 2 + (2 * (s * t)) ^ 2 = 1 := by
      have : (s ^ 2 - t ^ 2) ^ 2 + (2 * (s * t)) ^ 2 = (s ^ 2 + t ^ 2) ^ 2 := by ring
      rw [this, hst]; norm_num
    nlinarith [sq_nonneg ((a - c) * (2 * (s * t)) - 2 * h * (s ^ 2 - t ^ 2))]
  -- the angle of the extremum
  set z : ℂ := ⟨a - c, 2 * h⟩ with hz
  have hn : ‖z‖ = R := by
    rw [Complex.norm_def, Complex.normSq_apply, hR]; congr 1; simp only [hz]; ring
  have h1 : R * Real.cos z.arg = a - c := by rw [← hn]; exact Complex.norm_mul_cos_arg z
  have h2 : R * Real.sin z.arg = 2 * h := by rw [← hn]; exact Complex.norm_mul_sin_arg z
  set p := z.arg / 2 with hp
  have hpd : z.arg = 2 * p := by rw [hp]; ring
  rw [hpd, Real.cos_two_mul'] at h1
  rw [hpd, Real.sin_two_mul] at h2
  have hcs := Real.sin_sq_add_cos_sq p
  have hcs' : Real.cos p ^ 2 + Real.sin p ^ 2 = 1 := by linarith
  have key : (a - c) * (Real.cos p ^ 2 - Real.sin p ^ 2) +
      2 * h * (2 * (Real.sin p * Real.cos p)) = R := by
    rw [← h1, ← h2]
    have : R * (Real.cos p ^ 2 - Real.sin p ^ 2) * (Real.cos p ^ 2 - Real.sin p ^ 2) +
        R * (2 * Real.sin p * Real.cos p) * (2 * (Real.sin p * Real.cos p)) =
        R * (Real.cos p ^ 2 + Real.sin p ^ 2) ^ 2 := by ring
    rw [this, hcs']; ring
  refine ⟨⟨⟨Real.cos p, Real.sin p, hcs', ?_⟩, ?_⟩, ⟨⟨-Real.sin p, Real.cos p, by simp,
    ?_⟩, ?_⟩⟩
  · linear_combination (-1 / 2) * key - (a + c) / 2 * hcs'
  · rintro f ⟨s, t, hst, rfl⟩
    have := (abs_le.1 (hb s t hst)).2
    have e : a * s ^ 2 + 2 * h * (s * t) + c * t ^ 2 =
        (a + c) / 2 * (s ^ 2 + t ^ 2) + ((a - c) * (s ^ 2 - t ^ 2) + 2 * h * (2 * (s * t))) / 2 := by
      ring
    rw [e, hst]; linarith
  · linear_combination (1 / 2) * key - (a + c) / 2 * hcs'
  · rintro f ⟨s, t, hst, rfl⟩
    have := (abs_le.1 (hb s t hst)).1
    have e : a * s ^ 2 + 2 * h * (s * t) + c * t ^ 2 =
        (a + c) / 2 * (s ^ 2 + t ^ 2) + ((a - c) * (s ^ 2 - t ^ 2) + 2 * h * (2 * (s * t))) / 2 := by
      ring
    rw [e, hst]; linarith

/-! ## The axis ratio -/

/-- The quantities of the code: the roots are the extreme values of the form. -/
theorem axisRatio_extremes (zeta xi : ℝ) {u phi : ℝ} (hu : u ^ 2 ≤ 1) :
    ∃ lo hi : ℝ,
      IsLeast {f | ∃ v, dot v v = 1 ∧ dot v (lineOfSight u phi) = 0 ∧ f = form zeta xi v} lo ∧
      IsGreatest {f | ∃ v, dot v v = 1 ∧ dot v (lineOfSight u phi) = 0 ∧ f = form zeta xi v} hi ∧
      axisRatio zeta xi u phi = if hi = 0 then none else some (Real.sqrt (lo / hi)) := by
  set a := (1 + (zeta ^ 2 - 1) * Real.sin phi ^ 2) * u ^ 2 + xi ^ 2 * (1 - u ^ 2) with ha
  set h := (zeta ^ 2 - 1) * u * Real.sin phi * Real.cos phi with hh
  set c := 1 + (zeta ^ 2 - 1) * Real.cos phi ^ 2 with hc
  have hset : {f | ∃ v, dot v v = 1 ∧ dot v (lineOfSight u phi) = 0 ∧ f = form zeta xi v} =
      {f | ∃ s t : ℝ, s ^ 2 + t ^ 2 = 1 ∧ f = a * s ^ 2 + 2 * h * (s * t) + c * t ^ 2} :=
    Set.ext fun f => sky_plane zeta xi hu f
  obtain ⟨hg, hl⟩ := binary_form a h c
  set R := Real.sqrt ((a - c) ^ 2 + (2 * h) ^ 2) with hR
  have hlo : 0 ≤ (a + c - R) / 2 := by
    have := hl.1
    rw [← hset] at this
    obtain ⟨v, -, -, hv⟩ := this
    rw [hv]; exact form_nonneg zeta xi v
  have hR0 : 0 ≤ R := Real.sqrt_nonneg _
  refine ⟨(a + c - R) / 2, (a + c + R) / 2, hset ▸ hl, hset ▸ hg, ?_⟩
  have hs := Real.sin_sq_add_cos_sq phi
  have hsin : 1 - Real.cos phi * Real.cos phi = Real.sin phi ^ 2 := by rw [← hs]; ring
  have e1 : (1 + (zeta ^ 2 - 1) * (1 - Real.cos phi * Real.cos phi)) * (u * u) +
      xi ^ 2 * (1 - u * u) = a := by rw [hsin, ha]; ring
  have e2 : 4 * (zeta ^ 2 - 1) ^ 2 * (u * u) * (1 - Real.cos phi * Real.cos phi) *
      (Real.cos phi * Real.cos phi) = (2 * h) ^ 2 := by rw [hsin, hh]; ring
  have e3 : 1 + (zeta ^ 2 - 1) * (Real.cos phi * Real.cos phi) = c := by rw [hc]; ring
  have hnn : ¬ ((a - c) ^ 2 + (2 * h) ^ 2 < 0) := not_lt.2 (by positivity)
  simp only [axisRatio, e1, e2, e3]
  rw [nanSqrt, if_neg hnn, Option.bind_some, ← hR]
  by_cases h0 : (a + c + R) / 2 = 0
  · rw [if_pos h0, nanDiv, if_pos (by linarith), Option.bind_none]
  · have hpos : 0 < (a + c + R) / 2 := lt_of_le_of_ne (by linarith) (Ne.symm h0)
    rw [if_neg h0, nanDiv, if_neg (by linarith), Option.bind_some, nanSqrt]
    have e4 : (a + c - R) / (a + c + R) = (a + c - R) / 2 / ((a + c + R) / 2) := by
      rw [div_div_div_cancel_right₀ (by norm_num)]
    rw [e4, if_neg (not_lt.2 (div_nonneg hlo hpos.le))]

/-- **C67.** The result is the axis ratio of the projected ellipsoid: the smallest half-width in
the plane of the sky divided by the largest one.  This holds for any semi-axes, unless the
ellipsoid is a needle that is viewed along its axis. -/
theorem axis_ratio_projection (zeta xi : ℝ) {u phi : ℝ} (hu : -1 ≤ u ∧ u ≤ 1)
    (hn : ¬ (zeta = 0 ∧ xi = 0 ∧ u = 0 ∧ Real.sin phi = 0)) :
    ∃ q small large : ℝ, axisRatio zeta xi u phi = some q ∧
      IsLeast {w | HalfWidth zeta xi u phi w} small ∧
      IsGreatest {w | HalfWidth zeta xi u phi w} large ∧ 0 < large ∧ q = small / large := by
  have hu2 : u ^ 2 ≤ 1 := by nlinarith [hu.1, hu.2]
  obtain ⟨lo, hi, hl, hg, hq⟩ := axisRatio_extremes zeta xi (phi := phi) hu2
  have hlo : 0 ≤ lo := by obtain ⟨v, -, -, h⟩ := hl.1; rw [h]; exact form_nonneg _ _ _
  have hhi : 0 < hi := by
    by_contra hneg
    have hle := not_lt.1 hneg
    have hz : ∀ s t : ℝ, s ^ 2 + t ^ 2 = 1 →
        ((1 + (zeta ^ 2 - 1) * Real.sin phi ^ 2) * u ^ 2 + xi ^ 2 * (1 - u ^ 2)) * s ^ 2 +
        2 * ((zeta ^ 2 - 1) * u * Real.sin phi * Real.cos phi) * (s * t) +
        (1 + (zeta ^ 2 - 1) * Real.cos phi ^ 2) * t ^ 2 ≤ 0 := fun s t hst =>
      (hg.2 ((sky_plane zeta xi hu2 _).2 ⟨s, t, hst, rfl⟩)).trans hle
    have hs := Real.sin_sq_add_cos_sq phi
    have h1 := hz 0 1 (by norm_num)
    have h2 := hz 1 0 (by norm_num)
    simp only [ne_eq, OfNat.ofNat_ne_zero, not_false_eq_true, zero_pow, mul_zero,
      one_pow, mul_one, zero_add, add_zero] at h1 h2
    have e1 : 1 + (zeta ^ 2 - 1) * Real.cos phi ^ 2 =
        Real.sin phi ^ 2 + (zeta * Real.cos phi) ^ 2 := by linear_combination -hs
    rw [e1] at h1
    have hsin : Real.sin phi = 0 := by
      have : Real.sin phi ^ 2 = 0 := by nlinarith [sq_nonneg (Real.sin phi), sq_nonneg (zeta * Real.cos phi)]
      exact pow_eq_zero_iff (two_ne_zero) |>.1 this
    have hcos : Real.cos phi ^ 2 = 1 := by rw [hsin] at hs; linarith
    have hzeta : zeta = 0 := by
      have : (zeta * Real.cos phi) ^ 2 = 0 := by
        nlinarith [sq_nonneg (Real.sin phi), sq_nonneg (zeta * Real.cos phi)]
      rw [mul_pow, hcos, mul_one] at this
      exact pow_eq_zero_iff (two_ne_zero) |>.1 this
    rw [hsin] at h2
    have h2' : u ^ 2 + xi ^ 2 * (1 - u ^ 2) ≤ 0 := by linarith
    have h3 : 0 ≤ xi ^ 2 * (1 - u ^ 2) := mul_nonneg (sq_nonneg _) (by linarith)
    have hu0 : u = 0 := pow_eq_zero_iff (two_ne_zero) |>.1 (le_antisymm (by linarith) (sq_nonneg u))
    rw [hu0] at h2'
    have hxi : xi = 0 := pow_eq_zero_iff (two_ne_zero) |>.1
      (le_antisymm (by linarith) (sq_nonneg xi))
    exact hn ⟨hzeta, hxi, hu0, hsin⟩
  refine ⟨Real.sqrt (lo / hi), Real.sqrt lo, Real.sqrt hi, by rw [hq, if_neg hhi.ne'], ?_, ?_,
    Real.sqrt_pos.2 hhi, Real.sqrt_div hlo hi⟩
  · constructor
    · obtain ⟨v, h1, h2, h3⟩ := hl.1
      exact (halfWidth_iff ..).2 ⟨v, h1, h2, by rw [h3]⟩
    · intro w hw
      obtain ⟨v, h1, h2, rfl⟩ := (halfWidth_iff ..).1 hw
      exact Real.sqrt_le_sqrt (hl.2 ⟨v, h1, h2, rfl⟩)
  · constructor
    · obtain ⟨v, h1, h2, h3⟩ := hg.1
      exact (halfWidth_iff ..).2 ⟨v, h1, h2, by rw [h3]⟩
    · intro w hw
      obtain ⟨v, h1, h2, rfl⟩ := (halfWidth_iff ..).1 hw
      exact Real.sqrt_le_sqrt (hg.2 ⟨v, h1, h2, rfl⟩)

/-- **C67.** For axis ratios `1 ≥ zeta ≥ xi ≥ 0`, the projected axis ratio is a number between `xi`
and 1, for every direction, except for a needle viewed along its axis. -/
theorem axis_ratio_bounds {zeta xi u phi : ℝ} (hxi : 0 ≤ xi) (hzx : xi ≤ zeta) (hz : zeta ≤ 1)
    (hu : -1 ≤ u ∧ u ≤ 1) (hn : 0 < zeta ∨ u ≠ 0 ∨ Real.sin phi ≠ 0) :
    ∃ q, axisRatio zeta xi u phi = some q ∧ xi ≤ q ∧ q ≤ 1 := by
  obtain ⟨q, a, b, h1, h2, h3, h4, h5⟩ := axis_ratio_projection zeta xi (phi := phi) hu (by
    rintro ⟨c1, -, c2, c3⟩
    rcases hn with h | h | h
    · exact h.ne' c1
    · exact h c2
    · exact h c3)
  have hb : ∀ w, HalfWidth zeta xi u phi w → xi ≤ w ∧ w ≤ 1 := by
    intro w hw
    obtain ⟨v, e1, -, rfl⟩ := (halfWidth_iff ..).1 hw
    have e2 : v.1 ^ 2 + v.2.1 ^ 2 + v.2.2 ^ 2 = 1 := by simp only [dot] at e1; linarith
    have hz2 : zeta ^ 2 ≤ 1 := by nlinarith
    have hx2 : xi ^ 2 ≤ zeta ^ 2 := by nlinarith
    constructor
    · refine Real.le_sqrt_of_sq_le ?_
      simp only [form]
      nlinarith [sq_nonneg v.1, sq_nonneg v.2.1, sq_nonneg v.2.2]
    · refine Real.sqrt_le_one.2 ?_
      simp only [form]
      nlinarith [sq_nonneg v.1, sq_nonneg v.2.1, sq_nonneg v.2.2]
  refine ⟨q, h1, ?_, ?_⟩
  · rw [h5, le_div_iff₀ h4]
    nlinarith [(hb a h2.1).1, (hb b h3.1).2]
  · rw [h5, div_le_one h4]
    exact h2.2 h3.1

/-- **C67.** A needle viewed along its axis has no axis ratio: the code divides zero by zero. -/
theorem axis_ratio_needle {phi : ℝ} (h : Real.sin phi = 0) : axisRatio 0 0 0 phi = none := by
  have hs := Real.sin_sq_add_cos_sq phi
  rw [h] at hs
  have hc : Real.cos phi * Real.cos phi = 1 := by linarith
  simp [axisRatio, hc, nanSqrt, nanDiv]

/-! ## Arrays -/

/-- What is assumed of `rng.uniform(low, high, size=shape)`: an array of that shape with values in
the half-open interval. -/
def UniformNd {σ : Type} (uniform : Uniform σ) : Prop :=
  ∀ s lo hi shape, lo < hi → (uniform s lo hi shape).1.shape = shape ∧
    ∀ i ∈ indices shape, lo ≤ (uniform s lo hi shape).1.get i ∧
      (uniform s lo hi shape).1.get i < hi

/-- **C67.** `triaxial_axis_ratio` evaluates the axis ratio for each ellipsoid and its own random
direction; the shape of the result is the common shape of the arguments and of the directions, and
the directions have the requested shape or, by default, the common shape of the arguments. -/
theorem triaxial_axis_ratio_spec {σ : Type} {uniform : Uniform σ} (hu : UniformNd uniform) (s : σ)
    (zeta xi : NdArray ℝ) (size : Option (List ℕ)) {d dims : List ℕ}
    (hd : IsBroadcast [zeta.shape, xi.shape] d) (hdims : IsBroadcast [d, size.getD d] dims) :
    ∃ q, let U := uniform s (-1) 1 (size.getD d)
      let P := uniform U.2 0 (2 * Real.pi) (size.getD d)
      triaxialAxisRatio uniform s zeta xi size = .ok (q, P.2) ∧ q.shape = dims ∧
      ∀ idx ∈ indices dims, q.get idx =
        axisRatio (entry zeta idx) (entry xi idx) (entry U.1 idx) (entry P.1 idx) := by
  have hpi : (0 : ℝ) < 2 * Real.pi := by have := Real.pi_pos; linarith
  obtain ⟨zx, h1, h1s⟩ := map₂_total (fun z x : ℝ => (z, x)) hd
  set sz := size.getD d with hsz
  set U := uniform s (-1) 1 sz with hU
  set P := uniform U.2 0 (2 * Real.pi) sz with hP
  obtain ⟨hUs, -⟩ := hu s (-1) 1 sz (by norm_num)
  obtain ⟨hPs, -⟩ := hu U.2 0 (2 * Real.pi) sz hpi
  have hsame : IsBroadcast [U.1.shape, P.1.shape] sz := by
    rw [hUs, hPs]
    exact isBroadcast_same sz
  obtain ⟨ang, h2, h2s⟩ := map₂_total (fun u phi : ℝ => (u, phi)) hsame
  obtain ⟨q, h3, h3s⟩ := map₂_total (fun (p v : ℝ × ℝ) => axisRatio p.1 p.2 v.1 v.2)
    (a := zx) (b := ang) (d := dims) (by rw [h1s, h2s]; exact hdims)
  refine ⟨q, ?_, h3s, fun idx hi => ?_⟩
  · unfold triaxialAxisRatio
    simp only [bind, Except.bind]
    rw [h1]
    simp only
    rw [h1s, ← hsz, ← hU, ← hP, h2]
    simp only
    rw [h3]
  · have f1 : Fits d dims := hdims.fits (by simp)
    have f2 : Fits sz dims := hdims.fits (by simp)
    have e1 := (map₂_ok h1).2 dims (h1s ▸ f1) idx hi
    have e2 := (map₂_ok h2).2 dims (h2s ▸ f2) idx hi
    have e3 := (map₂_ok h3).2 dims (h3s ▸ Fits.refl _) idx hi
    rw [entry_self (h3s ▸ hi), e1, e2] at e3
    exact e3

/-- **C67.** Axis ratios and directions whose shapes do not match raise `ValueError`. -/
theorem triaxial_axis_ratio_mismatch {σ : Type} {uniform : Uniform σ} (hu : UniformNd uniform)
    (s : σ) (zeta xi : NdArray ℝ) (size : Option (List ℕ))
    (h : ¬ ∃ d dims, IsBroadcast [zeta.shape, xi.shape] d ∧ IsBroadcast [d, size.getD d] dims) :
    ∃ r, triaxialAxisRatio uniform s zeta xi size = .error (.value r) := by
  have hpi : (0 : ℝ) < 2 * Real.pi := by have := Real.pi_pos; linarith
  unfold triaxialAxisRatio
  simp only [bind, Except.bind]
  rcases h1 : NdArray.map₂ (fun z x : ℝ => (z, x)) zeta xi with e | zx
  · obtain ⟨⟨r, rfl⟩, -⟩ := map₂_error h1
    exact ⟨r, rfl⟩
  simp only
  obtain ⟨hb1, -⟩ := map₂_ok h1
  rcases h2 : NdArray.map₂ (fun u phi : ℝ => (u, phi)) (uniform s (-1) 1 (size.getD zx.shape)).1
    (uniform (uniform s (-1) 1 (size.getD zx.shape)).2 0 (2 * Real.pi)
      (size.getD zx.shape)).1 with e | ang
  · obtain ⟨⟨r, rfl⟩, -⟩ := map₂_error h2
    exact ⟨r, rfl⟩
  simp only
  rcases h3 : NdArray.map₂ (fun (p v : ℝ × ℝ) => axisRatio p.1 p.2 v.1 v.2) zx ang with e | q
  · obtain ⟨⟨r, rfl⟩, -⟩ := map₂_error h3
    exact ⟨r, rfl⟩
  exfalso
  obtain ⟨hb2, -⟩ := map₂_ok h2
  obtain ⟨hb3, -⟩ := map₂_ok h3
  rw [(hu _ _ _ _ (by norm_num)).1, (hu _ _ _ _ hpi).1] at hb2
  have := hb2.unique (isBroadcast_same _)
  rw [this] at hb3
  exact h ⟨_, _, hb1, hb3⟩

/-- **C67.** Every axis ratio that `triaxial_axis_ratio` returns is a number between `xi` and 1, if
the arguments are `1 ≥ zeta ≥ xi ≥ 0` with `zeta > 0`. -/
theorem triaxial_axis_ratio_bounds {σ : Type} {uniform : Uniform σ} (hu : UniformNd uniform) (s : σ)
    (zeta xi : NdArray ℝ) (size : Option (List ℕ)) {d dims : List ℕ}
    (hd : IsBroadcast [zeta.shape, xi.shape] d) (hdims : IsBroadcast [d, size.getD d] dims)
    (hzx : ∀ idx ∈ indices dims, 0 ≤ entry xi idx ∧ entry xi idx ≤ entry zeta idx ∧
      0 < entry zeta idx ∧ entry zeta idx ≤ 1) :
    ∃ q s', triaxialAxisRatio uniform s zeta xi size = .ok (q, s') ∧ q.shape = dims ∧
      ∀ idx ∈ indices dims, ∃ x, q.get idx = some x ∧ entry xi idx ≤ x ∧ x ≤ 1 := by
  obtain ⟨q, h1, h2, h3⟩ := triaxial_axis_ratio_spec hu s zeta xi size hd hdims
  refine ⟨q, _, h1, h2, fun idx hi => ?_⟩
  obtain ⟨c1, c2, c3, c4⟩ := hzx idx hi
  rw [h3 idx hi]
  have hU := hu s (-1) 1 (size.getD d) (by norm_num)
  have f2 : Fits (size.getD d) dims := hdims.fits (by simp)
  have hm := hU.2 _ (fits_mem_indices f2 hi)
  refine axis_ratio_bounds c1 c2 c4 ?_ (.inl c3)
  rw [entry, hU.1]
  exact ⟨hm.1, hm.2.le⟩

/-- A generator that obeys the law: the middle of the interval. -/
noncomputable def middle : Uniform Unit := fun _ lo hi shape => (⟨shape, fun _ => (lo + hi) / 2⟩, ())

theorem middle_law : UniformNd middle := fun _ lo hi shape h =>
  ⟨rfl, fun i _ => ⟨by simp only [middle]; linarith, by simp only [middle]; linarith⟩⟩

/-- Concrete case: an ellipsoid with axis ratios 1/2 and 1/4 that is viewed along the first axis
shows the ratio of the other two axes; and arrays of shape `(2, 1)` and `(3,)`. -/
example : axisRatio (1 / 2) (1 / 4) 0 Real.pi = some (1 / 2) ∧
    IsBroadcast [[2, 1], [3]] [2, 3] ∧ IsBroadcast [[2, 3], (none : Option (List ℕ)).getD [2, 3]] [2, 3] := by
  refine ⟨?_, isBroadcast_pair.1 (by rfl), isBroadcast_pair.1 (by rfl)⟩
  have h9 : Real.sqrt 9 = 3 := by
    rw [show (9 : ℝ) = 3 ^ 2 by norm_num, Real.sqrt_sq (by norm_num)]
  have h16 : Real.sqrt 256 = 16 := by
    rw [show (256 : ℝ) = 16 ^ 2 by norm_num, Real.sqrt_sq (by norm_num)]
  have h4 : Real.sqrt 4 = 2 := by
    rw [show (4 : ℝ) = 2 ^ 2 by norm_num, Real.sqrt_sq (by norm_num)]
  unfold axisRatio nanSqrt nanDiv
  norm_num [h9, h16, h4]

end Glass.Shapes
