import Verif.Grf.GaussMoments
import Verif.Grf.TransformationsProps

/-!
# Mean and covariance of the transformed fields (C22, C23)

The Gaussian fields at two points of the sky are two jointly normal random variables on an
arbitrary probability space.  Every statement about an expectation comes with the statement
that the expectation exists.
-/

namespace Glass.Grf

open MeasureTheory ProbabilityTheory Transformation

variable {Ω : Type*} [MeasurableSpace Ω] {P : Measure Ω} {X Y : Ω → ℝ} {v1 v2 c : ℝ}

/-- The random variable `Z` has an expectation, and its value is `m`. -/
def HasMean (P : Measure Ω) (Z : Ω → ℝ) (m : ℝ) : Prop :=
  Integrable Z P ∧ ∫ ω, Z ω ∂P = m

theorem HasMean.const_mul {Z : Ω → ℝ} {m : ℝ} (h : HasMean P Z m) (r : ℝ) :
    HasMean P (fun ω => r * Z ω) (r * m) :=
  ⟨h.1.const_mul r, by rw [integral_const_mul, h.2]⟩

theorem HasMean.add {Z W : Ω → ℝ} {m n : ℝ} (h : HasMean P Z m) (h' : HasMean P W n) :
    HasMean P (fun ω => Z ω + W ω) (m + n) :=
  ⟨h.1.add h'.1, by rw [integral_add h.1 h'.1, h.2, h'.2]⟩

theorem HasMean.sub {Z W : Ω → ℝ} {m n : ℝ} (h : HasMean P Z m) (h' : HasMean P W n) :
    HasMean P (fun ω => Z ω - W ω) (m - n) :=
  ⟨h.1.sub h'.1, by rw [integral_sub h.1 h'.1, h.2, h'.2]⟩

theorem HasMean.congr {Z W : Ω → ℝ} {m n : ℝ} (h : HasMean P Z m) (e : ∀ ω, Z ω = W ω)
    (e' : m = n) : HasMean P W n := by
  rw [← e', ← funext e]; exact h

theorem HasMean.const [IsProbabilityMeasure P] (r : ℝ) : HasMean P (fun _ => r) r :=
  ⟨integrable_const r, by simp⟩

theorem JointNormal.hasMean_pow (h : JointNormal P X Y v1 v2 c) (s t : ℝ) :
    HasMean P (fun ω => s * X ω + t * Y ω) 0 ∧
    HasMean P (fun ω => (s * X ω + t * Y ω) ^ 2) (s ^ 2 * v1 + 2 * s * t * c + t ^ 2 * v2) ∧
    HasMean P (fun ω => (s * X ω + t * Y ω) ^ 3) 0 ∧
    HasMean P (fun ω => (s * X ω + t * Y ω) ^ 4)
      (3 * (s ^ 2 * v1 + 2 * s * t * c + t ^ 2 * v2) ^ 2) := by
  obtain ⟨a1, a2, a3, a4⟩ := h.moments s t
  exact ⟨⟨by simpa using h.integrable_pow s t 1, a1⟩, ⟨h.integrable_pow s t 2, a2⟩,
    ⟨h.integrable_pow s t 3, a3⟩, ⟨h.integrable_pow s t 4, a4⟩⟩

/-- The value of `__call__` without the special case for a scale of one. -/
theorem call_lognormal (l x v : ℝ) :
    call (.lognormal l) x v = l * (Real.exp (x - v / 2) - 1) := by
  by_cases h : l = 1 <;> simp [call, expm1, h]

theorem call_squared (a l x v : ℝ) : call (.squared a l) x v = l * ((x - a) ^ 2 - 1) := by
  by_cases h : l = 1 <;> simp [call, h]

theorem exp_shift (h : JointNormal P X Y v1 v2 c) (s t : ℝ) :
    HasMean P (fun ω => Real.exp (s * X ω - s * v1 / 2) * Real.exp (t * Y ω - t * v2 / 2))
      (Real.exp ((s ^ 2 * v1 + 2 * s * t * c + t ^ 2 * v2) / 2 - s * v1 / 2 - t * v2 / 2)) := by
  have hh : HasMean P (fun ω => Real.exp (s * X ω + t * Y ω)) _ :=
    ⟨h.integrable_exp s t, h.integral_exp s t⟩
  refine (hh.const_mul (Real.exp (- (s * v1 / 2) - t * v2 / 2))).congr (fun ω => ?_) ?_
  · simp only [← Real.exp_add]; congr 1; ring
  · simp only [← Real.exp_add]; congr 1; ring

/-! ## C22 -/

/-- **C22** Normal and lognormal fields have mean zero after the transformation. -/
theorem lognormal_mean (h : JointNormal P X Y v1 v2 c) (l : ℝ) :
    HasMean P (fun ω => call (.lognormal l) (X ω) v1) 0 ∧
      HasMean P (fun ω => call .normal (X ω) v1) 0 := by
  have := h.prob
  constructor
  · have h1 := exp_shift h 1 0
    refine ((h1.sub (HasMean.const 1)).const_mul l).congr (fun ω => ?_) ?_
    · rw [call_lognormal]; simp
    · rw [show (1 ^ 2 * v1 + 2 * 1 * 0 * c + 0 ^ 2 * v2) / 2 - 1 * v1 / 2 - 0 * v2 / 2 = 0 by
        ring, Real.exp_zero]
      ring
  · exact (h.hasMean_pow 1 0).1.congr (fun ω => by simp [call]) rfl

/-- **C22** The covariance of two fields, each normal or lognormal, is what `corr` says for
the covariance of the Gaussian fields. -/
theorem lognormal_cov (h : JointNormal P X Y v1 v2 c) (t1 t2 : Transformation)
    (h1 : ∀ a l, t1 ≠ .squared a l) (h2 : ∀ a l, t2 ≠ .squared a l) :
    ∃ y, corr t1 t2 c = .ok y ∧ HasMean P (fun ω => call t1 (X ω) v1 * call t2 (Y ω) v2) y := by
  have := h.prob
  have mixed : ∀ {X Y : Ω → ℝ} {v1 v2 : ℝ} (_ : JointNormal P X Y v1 v2 c) (l : ℝ),
      HasMean P (fun ω => call (.lognormal l) (X ω) v1 * call .normal (Y ω) v2) (l * c) := by
    intro X Y v1 v2 h l
    have a : HasMean P _ _ := h.integral_mul_exp 1
    have b := (h.hasMean_pow 0 1).1
    refine (((a.const_mul (Real.exp (-(v1 / 2)))).sub b).const_mul l).congr (fun ω => ?_) ?_
    · rw [call_lognormal, sub_eq_add_neg (X ω), Real.exp_add]
      simp only [call]; ring_nf
    · have : Real.exp (-(v1 / 2)) * Real.exp (1 ^ 2 * v1 / 2) = 1 := by
        rw [← Real.exp_add, show -(v1 / 2) + 1 ^ 2 * v1 / 2 = 0 by ring, Real.exp_zero]
      linear_combination (l * c) * this
  rcases t1 with _ | l | ⟨a, l⟩ <;> rcases t2 with _ | l' | ⟨a', l'⟩
  · refine ⟨c, rfl, ?_⟩
    have e1 := (h.hasMean_pow 1 1).2.1
    have e2 := (h.hasMean_pow 1 0).2.1
    have e3 := (h.hasMean_pow 0 1).2.1
    refine (((e1.sub e2).sub e3).const_mul (1 / 2)).congr (fun ω => ?_) ?_
    · simp only [call]; ring
    · ring
  · refine ⟨l' * c, rfl, ?_⟩
    exact (mixed h.swap l').congr (fun ω => mul_comm _ _) rfl
  · exact absurd rfl (h2 _ _)
  · exact ⟨l * c, rfl, mixed h l⟩
  · refine ⟨l * l' * expm1 c, rfl, ?_⟩
    have e11 := exp_shift h 1 1
    have e10 := exp_shift h 1 0
    have e01 := exp_shift h 0 1
    refine ((((e11.sub e10).sub e01).add (HasMean.const 1)).const_mul (l * l')).congr
      (fun ω => ?_) ?_
    · rw [call_lognormal, call_lognormal]
      simp; ring
    · rw [show (1 ^ 2 * v1 + 2 * 1 * 0 * c + 0 ^ 2 * v2) / 2 - 1 * v1 / 2 - 0 * v2 / 2 = 0 by
        ring, show (0 ^ 2 * v1 + 2 * 0 * 1 * c + 1 ^ 2 * v2) / 2 - 0 * v1 / 2 - 1 * v2 / 2 = 0
        by ring, show (1 ^ 2 * v1 + 2 * 1 * 1 * c + 1 ^ 2 * v2) / 2 - 1 * v1 / 2 - 1 * v2 / 2 = c
        by ring, Real.exp_zero, expm1]
      ring
  · exact absurd rfl (h2 _ _)
  all_goals exact absurd rfl (h1 _ _)

/-- **C22** A lognormal field with a positive shift never reaches `-lamda`, and `-lamda` is the
greatest such bound. -/
theorem lognormal_lower (l v : ℝ) (hl : 0 < l) :
    (∀ x, -l < call (.lognormal l) x v) ∧
      ∀ b, -l < b → ∃ x, call (.lognormal l) x v < b := by
  constructor
  · intro x
    rw [call_lognormal]
    nlinarith [mul_pos hl (Real.exp_pos (x - v / 2))]
  · intro b hb
    have hp : 0 < (b + l) / (2 * l) := div_pos (by linarith) (by linarith)
    refine ⟨Real.log ((b + l) / (2 * l)) + v / 2, ?_⟩
    rw [call_lognormal, add_sub_cancel_right, Real.exp_log hp]
    have : l * ((b + l) / (2 * l) - 1) = (b - l) / 2 := by field_simp; ring
    rw [this]; linarith

/-- Concrete case for C22 and C23: on the real line with the normal law, the identity and its
double are jointly normal with variances 1 and 4 and covariance 2. -/
theorem jointNormal_example :
    JointNormal (gaussianReal 0 1) (fun x => x) (fun x => 2 * x) 1 4 2 where
  nonneg s t := by nlinarith [sq_nonneg (s + 2 * t)]
  law s t := by
    have h := gaussianReal_map_const_mul (μ := 0) (v := 1) (s + 2 * t)
    rw [show (fun x : ℝ => s * x + t * (2 * x)) = ((s + 2 * t) * ·) by funext x; ring, h]
    congr 1
    · simp
    · ext
      rw [Real.coe_toNNReal _ (by nlinarith [sq_nonneg (s + 2 * t)])]
      simp
      ring

/-- Concrete instance of the covariance statement. -/
theorem lognormal_cov_example :
    HasMean (gaussianReal 0 1)
      (fun x => call (.lognormal 3) x 1 * call (.lognormal 5) (2 * x) 4)
      (15 * (Real.exp 2 - 1)) := by
  obtain ⟨y, hy, h⟩ := lognormal_cov jointNormal_example (.lognormal 3) (.lognormal 5)
    (by simp) (by simp)
  simp only [corr, dispatch, corrM, Except.ok.injEq] at hy
  refine h.congr (fun _ => rfl) ?_
  rw [← hy, expm1]; ring

/-! ## C23 -/

/-- **C23** A squared normal field made from a Gaussian field of variance `1 - a²` has mean
zero. -/
theorem squared_mean (h : JointNormal P X Y v1 v2 c) (a l : ℝ) (hv : v1 = 1 - a ^ 2) :
    HasMean P (fun ω => call (.squared a l) (X ω) v1) 0 := by
  have := h.prob
  have e1 := (h.hasMean_pow 1 0).1
  have e2 := (h.hasMean_pow 1 0).2.1
  refine (((e2.sub (e1.const_mul (2 * a))).add (HasMean.const (a ^ 2 - 1))).const_mul l).congr
    (fun ω => ?_) ?_
  · rw [call_squared]; ring
  · rw [hv]; ring

/-- **C23** Two squared normal fields made from Gaussian fields of variances `1 - a²` and
`1 - b²` have the covariance that `corr` says. -/
theorem squared_cov (h : JointNormal P X Y v1 v2 c) (a l b l' : ℝ) (hv1 : v1 = 1 - a ^ 2)
    (hv2 : v2 = 1 - b ^ 2) :
    ∃ y, corr (.squared a l) (.squared b l') c = .ok y ∧
      HasMean P (fun ω => call (.squared a l) (X ω) v1 * call (.squared b l') (Y ω) v2) y := by
  have := h.prob
  refine ⟨_, rfl, ?_⟩
  obtain ⟨x1, x2, x3, x4⟩ := h.hasMean_pow 1 0
  obtain ⟨y1, y2, y3, y4⟩ := h.hasMean_pow 0 1
  obtain ⟨-, p2, p3, p4⟩ := h.hasMean_pow 1 1
  obtain ⟨-, -, m3, m4⟩ := h.hasMean_pow 1 (-1)
  -- mixed moments by polarisation
  have xy : HasMean P (fun ω => X ω * Y ω) c :=
    (((p2.sub x2).sub y2).const_mul (1 / 2)).congr (fun ω => by ring) (by ring)
  have x2y : HasMean P (fun ω => X ω ^ 2 * Y ω) 0 :=
    (((p3.sub m3).sub (y3.const_mul 2)).const_mul (1 / 6)).congr (fun ω => by ring) (by ring)
  have xy2 : HasMean P (fun ω => X ω * Y ω ^ 2) 0 :=
    (((p3.add m3).sub (x3.const_mul 2)).const_mul (1 / 6)).congr (fun ω => by ring) (by ring)
  have x2y2 : HasMean P (fun ω => X ω ^ 2 * Y ω ^ 2) (v1 * v2 + 2 * c ^ 2) :=
    ((((p4.add m4).sub (x4.const_mul 2)).sub (y4.const_mul 2)).const_mul (1 / 12)).congr
      (fun ω => by ring) (by ring)
  have A := x2.const_mul (b ^ 2 - 1)
  have B := y2.const_mul (a ^ 2 - 1)
  have C := xy.const_mul (4 * a * b)
  have D := x2y.const_mul (-2 * b)
  have E := xy2.const_mul (-2 * a)
  have F := x1.const_mul (-2 * a * (b ^ 2 - 1))
  have G := y1.const_mul (-2 * b * (a ^ 2 - 1))
  have H : HasMean P (fun _ => (a ^ 2 - 1) * (b ^ 2 - 1)) _ := HasMean.const _
  refine ((((((((x2y2.add A).add B).add C).add D).add E).add F).add G).add H).const_mul
    (l * l') |>.congr (fun ω => ?_) ?_
  · rw [call_squared, call_squared]; ring
  · rw [hv1, hv2]; ring

/-- **C23** A squared normal field with a non-negative scale is never below `-lamda`, and the
value is attained. -/
theorem squared_lower (a l v : ℝ) (hl : 0 ≤ l) :
    (∀ x, -l ≤ call (.squared a l) x v) ∧ call (.squared a l) a v = -l := by
  constructor
  · intro x
    rw [call_squared]
    nlinarith [mul_nonneg hl (sq_nonneg (x - a))]
  · rw [call_squared]; ring

/-- The variance matters: with another variance the mean of a squared normal field is
`lamda (v + a² - 1)`. -/
theorem squared_mean_general (h : JointNormal P X Y v1 v2 c) (a l : ℝ) :
    HasMean P (fun ω => call (.squared a l) (X ω) v1) (l * (v1 + a ^ 2 - 1)) := by
  have := h.prob
  have e1 := (h.hasMean_pow 1 0).1
  have e2 := (h.hasMean_pow 1 0).2.1
  refine (((e2.sub (e1.const_mul (2 * a))).add (HasMean.const (a ^ 2 - 1))).const_mul l).congr
    (fun ω => ?_) ?_
  · rw [call_squared]; ring
  · ring

/-- Concrete case for C23: the normal law of variance one (`a = 0`); the squared field has
variance `2 lamda²`. -/
theorem squared_cov_example :
    HasMean (gaussianReal 0 1) (fun x => call (.squared 0 3) x 1 * call (.squared 0 3) x 1)
      18 := by
  obtain ⟨y, hy, h⟩ := squared_cov jointNormal_example.self 0 3 0 3 (by norm_num) (by norm_num)
  simp only [corr, dispatch, corrM, Except.ok.injEq] at hy
  refine h.congr (fun _ => rfl) ?_
  rw [← hy]; norm_num

end Glass.Grf
