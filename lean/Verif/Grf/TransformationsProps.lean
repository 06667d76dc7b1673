import Mathlib.Analysis.SpecialFunctions.ExpDeriv
import Mathlib.Tactic.FieldSimp
import Mathlib.Tactic.LinearCombination
import Verif.Grf.Transformations

/-!
# Properties of the transformations (C18-C21, C24)
-/

namespace Glass.Grf

open Transformation

/-! ## C18 -/

/-- **C18** The lognormal shift of Hilbert et al. (2011) is positive for every positive
redshift and vanishes at redshift zero. -/
theorem hilbert_shift_pos : lognormalShiftHilbert2011 0 = 0 ∧
    ∀ z : ℝ, 0 < z → 0 < lognormalShiftHilbert2011 z := by
  refine ⟨by simp [lognormalShiftHilbert2011], fun z hz => ?_⟩
  unfold lognormalShiftHilbert2011
  apply mul_pos hz
  have h : (2.9e-2 + z * (-7.9e-3 + z * 6.5e-4) : ℝ) > 0 := by
    nlinarith [sq_nonneg (z - 79 / 13)]
  have := mul_pos hz h
  linarith

/-- C18, more precisely: below redshift 4 the shift lies between `8e-3 z` and `0.124 z`. -/
theorem hilbert_shift_bounds (z : ℝ) (hz : 0 < z) :
    8e-3 * z < lognormalShiftHilbert2011 z ∧
      (z ≤ 4 → lognormalShiftHilbert2011 z ≤ 0.124 * z) := by
  unfold lognormalShiftHilbert2011
  have h : (2.9e-2 + z * (-7.9e-3 + z * 6.5e-4) : ℝ) > 0 := by
    nlinarith [sq_nonneg (z - 79 / 13)]
  constructor
  · nlinarith [mul_pos hz (mul_pos hz h)]
  · intro h4
    have h2 : (z * (-7.9e-3 + z * 6.5e-4) : ℝ) ≤ 0 := by nlinarith
    have h3 : z * (2.9e-2 + z * (-7.9e-3 + z * 6.5e-4) : ℝ) ≤ 0.116 := by nlinarith
    nlinarith

/-! ## Specification of the supported pairs -/

/-- The pairs for which the documentation promises a relation between the correlation
functions: normal and lognormal fields in any combination, and two squared normal fields. -/
def Supported : Transformation → Transformation → Prop
  | .squared _ _, .squared _ _ => True
  | .squared _ _, _ => False
  | _, .squared _ _ => False
  | _, _ => True

/-- The scale parameter does not vanish. -/
def NonDegenerate : Transformation → Prop
  | .normal => True
  | .lognormal l => l ≠ 0
  | .squared _ l => l ≠ 0

/-- Covariances of the Gaussian fields on which the relation is one-to-one: no restriction
except for squared normal fields, where `x + a b` must not be negative. -/
def GaussDom : Transformation → Transformation → ℝ → Prop
  | .squared a _, .squared b _, x => 0 ≤ x + a * b
  | _, _, _ => True

/-- Covariances of the transformed fields that can be reached: above `-l l'` (in units of the
product of the shifts) for two lognormal fields, and with a real square root for two squared
normal fields. -/
def TargetDom : Transformation → Transformation → ℝ → Prop
  | .lognormal l, .lognormal l', y => -1 < y / (l * l')
  | .squared a l, .squared b l', y => -(a * b) ^ 2 ≤ y / (2 * (l * l'))
  | _, _, _ => True

theorem expm1_log1p {y : ℝ} (h : -1 < y) : expm1 (log1p y) = y := by
  unfold expm1 log1p
  rw [Real.exp_log (by linarith)]; ring

theorem log1p_expm1 (x : ℝ) : log1p (expm1 x) = x := by
  unfold expm1 log1p
  rw [show 1 + (Real.exp x - 1) = Real.exp x by ring, Real.log_exp]

/-! ## C19 -/

/-- **C19** `icorr` undoes `corr`. -/
theorem icorr_corr (t1 t2 : Transformation) (x : ℝ) (hs : Supported t1 t2)
    (h1 : NonDegenerate t1) (h2 : NonDegenerate t2) (hx : GaussDom t1 t2 x) :
    ∃ y, corr t1 t2 x = .ok y ∧ TargetDom t1 t2 y ∧ icorr t1 t2 y = .ok x := by
  rcases t1 with _ | l | ⟨a, l⟩ <;> rcases t2 with _ | l' | ⟨a', l'⟩ <;>
    simp only [Supported, NonDegenerate, GaussDom] at hs h1 h2 hx
  · exact ⟨x, rfl, trivial, rfl⟩
  · refine ⟨l' * x, rfl, trivial, ?_⟩
    simp only [icorr, dispatch, icorrM]
    congr 1; field_simp
  · refine ⟨l * x, rfl, trivial, ?_⟩
    simp only [icorr, dispatch, icorrM]
    congr 1; field_simp
  · have hd : l * l' * expm1 x / (l * l') = expm1 x := by field_simp
    refine ⟨l * l' * expm1 x, rfl, ?_, ?_⟩
    · simp only [TargetDom, hd]
      unfold expm1
      linarith [Real.exp_pos x]
    · simp only [icorr, dispatch, icorrM, hd, log1p_expm1]
  · have hd : 2 * (l * l') * x * (x + 2 * (a * a')) / (2 * (l * l')) + (a * a') ^ 2 =
        (x + a * a') ^ 2 := by
      field_simp; ring
    refine ⟨2 * (l * l') * x * (x + 2 * (a * a')), rfl, ?_, ?_⟩
    · simp only [TargetDom]
      linarith [sq_nonneg (x + a * a')]
    · simp only [icorr, dispatch, icorrM, hd, Real.sqrt_sq hx]
      congr 1; ring

/-- **C19** `corr` undoes `icorr`. -/
theorem corr_icorr (t1 t2 : Transformation) (y : ℝ) (hs : Supported t1 t2)
    (h1 : NonDegenerate t1) (h2 : NonDegenerate t2) (hy : TargetDom t1 t2 y) :
    ∃ x, icorr t1 t2 y = .ok x ∧ GaussDom t1 t2 x ∧ corr t1 t2 x = .ok y := by
  rcases t1 with _ | l | ⟨a, l⟩ <;> rcases t2 with _ | l' | ⟨a', l'⟩ <;>
    simp only [Supported, NonDegenerate, TargetDom] at hs h1 h2 hy
  · exact ⟨y, rfl, trivial, rfl⟩
  · refine ⟨y / l', rfl, trivial, ?_⟩
    simp only [corr, dispatch, corrM]
    congr 1; field_simp
  · refine ⟨y / l, rfl, trivial, ?_⟩
    simp only [corr, dispatch, corrM]
    congr 1; field_simp
  · refine ⟨log1p (y / (l * l')), rfl, trivial, ?_⟩
    simp only [corr, dispatch, corrM, expm1_log1p hy]
    congr 1; field_simp
  · have hr : 0 ≤ y / (2 * (l * l')) + (a * a') ^ 2 := by linarith
    refine ⟨Real.sqrt (y / (2 * (l * l')) + (a * a') ^ 2) - a * a', rfl, ?_, ?_⟩
    · simp only [GaussDom, sub_add_cancel]
      exact Real.sqrt_nonneg _
    · simp only [corr, dispatch, corrM]
      congr 1
      have h := Real.sq_sqrt hr
      have e : 2 * (l * l') * (y / (2 * (l * l'))) = y := by field_simp
      linear_combination (2 * (l * l')) * h + e

/-- C19: the domain cannot be enlarged; outside of it `icorr` returns a different covariance
than the one that was transformed. -/
theorem icorr_corr_outside (a a' l l' x : ℝ) (hl : l ≠ 0) (hl' : l' ≠ 0)
    (hx : x + a * a' < 0) (y : ℝ) (hy : corr (.squared a l) (.squared a' l') x = .ok y) :
    ∃ x', icorr (.squared a l) (.squared a' l') y = .ok x' ∧ x < x' := by
  simp only [corr, dispatch, corrM, Except.ok.injEq] at hy
  subst hy
  refine ⟨_, rfl, ?_⟩
  have hd : 2 * (l * l') * x * (x + 2 * (a * a')) / (2 * (l * l')) + (a * a') ^ 2 =
      (x + a * a') ^ 2 := by
    field_simp; ring
  rw [hd, Real.sqrt_sq_eq_abs, abs_of_neg hx]
  linarith

/-- Concrete case for C19: shifts 2 and 3, covariance 1; and two squared normal fields. -/
theorem icorr_corr_example :
    (∃ y, corr (.lognormal 2) (.lognormal 3) 1 = .ok y ∧
      icorr (.lognormal 2) (.lognormal 3) y = .ok 1) ∧
    corr (.squared 1 2) (.squared 3 5) (-1) = .ok (-100) ∧
    icorr (.squared 1 2) (.squared 3 5) (-100) = .ok (-1) := by
  refine ⟨?_, ?_, ?_⟩
  · obtain ⟨y, h, _, h'⟩ := icorr_corr (.lognormal 2) (.lognormal 3) 1 trivial
      (by simp [NonDegenerate]) (by simp [NonDegenerate]) trivial
    exact ⟨y, h, h'⟩
  · simp only [corr, dispatch, corrM]; norm_num
  · simp only [icorr, dispatch, icorrM]
    rw [show (-100 / (2 * (2 * 5)) + (1 * 3) ^ 2 : ℝ) = 2 ^ 2 by norm_num,
      Real.sqrt_sq (by norm_num)]
    norm_num

/-! ## C20 -/

/-- **C20** `dcorr` is the derivative of `corr`, for every supported pair and everywhere. -/
theorem dcorr_deriv (t1 t2 : Transformation) (hs : Supported t1 t2) :
    ∃ f f' : ℝ → ℝ, (∀ x, corr t1 t2 x = .ok (f x)) ∧ (∀ x, dcorr t1 t2 x = .ok (f' x)) ∧
      ∀ x, HasDerivAt f (f' x) x := by
  rcases t1 with _ | l | ⟨a, l⟩ <;> rcases t2 with _ | l' | ⟨a', l'⟩ <;>
    simp only [Supported] at hs
  · refine ⟨fun x => x, fun x => 1 + 0 * x, fun _ => rfl, fun _ => rfl, fun x => ?_⟩
    simpa using hasDerivAt_id' x
  · refine ⟨fun x => l' * x, fun x => l' + 0 * x, fun _ => rfl, fun _ => rfl, fun x => ?_⟩
    simpa using (hasDerivAt_id' x).const_mul l'
  · refine ⟨fun x => l * x, fun x => l + 0 * x, fun _ => rfl, fun _ => rfl, fun x => ?_⟩
    simpa using (hasDerivAt_id' x).const_mul l
  · refine ⟨fun x => l * l' * expm1 x, fun x => l * l' * Real.exp x, fun _ => rfl,
      fun _ => rfl, fun x => ?_⟩
    exact ((Real.hasDerivAt_exp x).sub_const 1).const_mul (l * l')
  · refine ⟨fun x => 2 * (l * l') * x * (x + 2 * (a * a')),
      fun x => 4 * (l * l') * (x + a * a'), fun _ => rfl, fun _ => rfl, fun x => ?_⟩
    have h1 := ((hasDerivAt_id' x).const_mul (2 * (l * l')))
    have h2 := ((hasDerivAt_id' x).add_const (2 * (a * a')))
    have h := h1.mul h2
    refine h.congr_deriv ?_
    ring

/-- Concrete case for C20: the slope at zero is the product of the shifts. -/
theorem dcorr_deriv_example : dcorr (.lognormal 2) (.lognormal 3) 0 = .ok 6 := by
  simp only [dcorr, dispatch, dcorrM, Real.exp_zero]; norm_num

/-! ## C21 -/

/-- **C21** The dispatching functions do not depend on the order of the transformations. -/
theorem dispatch_symm (t1 t2 : Transformation) (x : ℝ) :
    corr t1 t2 x = corr t2 t1 x ∧ icorr t1 t2 x = icorr t2 t1 x ∧
      dcorr t1 t2 x = dcorr t2 t1 x := by
  rcases t1 with _ | l | ⟨a, l⟩ <;> rcases t2 with _ | l' | ⟨a', l'⟩ <;>
    simp only [corr, icorr, dcorr, dispatch, corrM, icorrM, dcorrM, and_self] <;>
    (refine ⟨?_, ?_, ?_⟩ <;> first
      | simp only [mul_comm l l', mul_comm a a']
      | simp only [mul_comm l l'])

/-- **C21** `NotImplementedError` is raised for exactly the unsupported pairs, and no other
error is ever raised. -/
theorem dispatch_error_iff (t1 t2 : Transformation) (x : ℝ) :
    (corr t1 t2 x = .error .notImplemented ↔ ¬ Supported t1 t2) ∧
    (icorr t1 t2 x = .error .notImplemented ↔ ¬ Supported t1 t2) ∧
    (dcorr t1 t2 x = .error .notImplemented ↔ ¬ Supported t1 t2) ∧
    (Supported t1 t2 → (∃ y, corr t1 t2 x = .ok y) ∧ (∃ y, icorr t1 t2 x = .ok y) ∧
      ∃ y, dcorr t1 t2 x = .ok y) := by
  rcases t1 with _ | l | ⟨a, l⟩ <;> rcases t2 with _ | l' | ⟨a', l'⟩ <;>
    simp [corr, icorr, dcorr, dispatch, corrM, icorrM, dcorrM, Supported]

theorem dispatch_array (m : Transformation → Transformation → ℝ → Option ℝ)
    (hm : ∀ t1 t2 x y, m t1 t2 x = none → m t1 t2 y = none)
    (t1 t2 : Transformation) (x : List ℝ) (f : ℝ → ℝ)
    (hf : ∀ v, dispatch m t1 t2 v = .ok (f v)) :
    dispatch (arrayM m) t1 t2 x = .ok (x.map f) := by
  unfold dispatch arrayM
  rcases h1 : m t1 t2 0 with _ | r
  · have h1' : ∀ v, m t1 t2 v = none := fun v => hm _ _ _ _ h1
    rcases h2 : m t2 t1 0 with _ | r
    · have := hf 0
      simp [dispatch, h1, h2] at this
    · simp only [Except.ok.injEq]
      apply List.map_congr_left
      intro v _
      have := hf v
      simp only [dispatch, h1' v] at this
      rcases h3 : m t2 t1 v with _ | r'
      · rw [h3] at this; simp at this
      · rw [h3] at this; simpa using this
  · simp only [Except.ok.injEq]
    apply List.map_congr_left
    intro v _
    have := hf v
    simp only [dispatch] at this
    rcases h3 : m t1 t2 v with _ | r'
    · rw [hm _ _ _ 0 h3] at h1; simp at h1
    · rw [h3] at this; simpa using this

theorem corrM_none (t1 t2 : Transformation) (x y : ℝ) (h : corrM t1 t2 x = none) :
    corrM t1 t2 y = none := by
  rcases t1 with _ | l | ⟨a, l⟩ <;> rcases t2 with _ | l' | ⟨a', l'⟩ <;> simp_all [corrM]

theorem icorrM_none (t1 t2 : Transformation) (x y : ℝ) (h : icorrM t1 t2 x = none) :
    icorrM t1 t2 y = none := by
  rcases t1 with _ | l | ⟨a, l⟩ <;> rcases t2 with _ | l' | ⟨a', l'⟩ <;> simp_all [icorrM]

theorem dcorrM_none (t1 t2 : Transformation) (x y : ℝ) (h : dcorrM t1 t2 x = none) :
    dcorrM t1 t2 y = none := by
  rcases t1 with _ | l | ⟨a, l⟩ <;> rcases t2 with _ | l' | ⟨a', l'⟩ <;> simp_all [dcorrM]

/-- The value of `corr` on a supported pair, as a total function. -/
noncomputable def corrVal (t1 t2 : Transformation) (x : ℝ) : ℝ :=
  match corr t1 t2 x with
  | .ok y => y
  | .error _ => 0

/-- The value of `icorr` on a supported pair, as a total function. -/
noncomputable def icorrVal (t1 t2 : Transformation) (x : ℝ) : ℝ :=
  match icorr t1 t2 x with
  | .ok y => y
  | .error _ => 0

theorem corr_val (t1 t2 : Transformation) (h : Supported t1 t2) (x : ℝ) :
    corr t1 t2 x = .ok (corrVal t1 t2 x) := by
  obtain ⟨y, hy⟩ := ((dispatch_error_iff t1 t2 x).2.2.2 h).1
  simp [corrVal, hy]

theorem icorr_val (t1 t2 : Transformation) (h : Supported t1 t2) (x : ℝ) :
    icorr t1 t2 x = .ok (icorrVal t1 t2 x) := by
  obtain ⟨y, hy⟩ := ((dispatch_error_iff t1 t2 x).2.2.2 h).2.1
  simp [icorrVal, hy]

theorem corrList_ok (t1 t2 : Transformation) (h : Supported t1 t2) (x : List ℝ) :
    corrList t1 t2 x = .ok (x.map (corrVal t1 t2)) :=
  dispatch_array _ corrM_none _ _ _ _ (corr_val t1 t2 h)

theorem icorrList_ok (t1 t2 : Transformation) (h : Supported t1 t2) (x : List ℝ) :
    icorrList t1 t2 x = .ok (x.map (icorrVal t1 t2)) :=
  dispatch_array _ icorrM_none _ _ _ _ (icorr_val t1 t2 h)

theorem dispatch_array_error (m : Transformation → Transformation → ℝ → Option ℝ)
    (t1 t2 : Transformation) (x : List ℝ)
    (h : dispatch m t1 t2 0 = .error .notImplemented) :
    dispatch (arrayM m) t1 t2 x = .error .notImplemented := by
  unfold dispatch at h
  unfold dispatch arrayM
  rcases h1 : m t1 t2 0 with _ | r
  · rcases h2 : m t2 t1 0 with _ | r
    · simp
    · rw [h1, h2] at h; simp at h
  · rw [h1] at h; simp at h

/-- **C21** on arrays: swapping the transformations does not change the array result, and
unsupported pairs raise for every array, including the empty one. -/
theorem dispatch_array_symm (t1 t2 : Transformation) (x : List ℝ) :
    corrList t1 t2 x = corrList t2 t1 x ∧ icorrList t1 t2 x = icorrList t2 t1 x ∧
      (¬ Supported t1 t2 → corrList t1 t2 x = .error .notImplemented ∧
        icorrList t1 t2 x = .error .notImplemented ∧
        dcorrList t1 t2 x = .error .notImplemented) := by
  have hsym : Supported t1 t2 ↔ Supported t2 t1 := by
    rcases t1 with _ | l | ⟨a, l⟩ <;> rcases t2 with _ | l' | ⟨a', l'⟩ <;> simp [Supported]
  by_cases h : Supported t1 t2
  · have h' := hsym.1 h
    refine ⟨?_, ?_, fun hn => absurd h hn⟩
    · rw [corrList_ok _ _ h, corrList_ok _ _ h']
      congr 1
      apply List.map_congr_left
      intro v _
      simp only [corrVal, (dispatch_symm t1 t2 v).1]
    · rw [icorrList_ok _ _ h, icorrList_ok _ _ h']
      congr 1
      apply List.map_congr_left
      intro v _
      simp only [icorrVal, (dispatch_symm t1 t2 v).2.1]
  · have h' := fun hh => h (hsym.2 hh)
    have e := fun (t1 t2 : Transformation) (h : ¬ Supported t1 t2) =>
      dispatch_array_error corrM t1 t2 x ((dispatch_error_iff t1 t2 0).1.2 h)
    have e' := fun (t1 t2 : Transformation) (h : ¬ Supported t1 t2) =>
      dispatch_array_error icorrM t1 t2 x ((dispatch_error_iff t1 t2 0).2.1.2 h)
    have e'' := fun (t1 t2 : Transformation) (h : ¬ Supported t1 t2) =>
      dispatch_array_error dcorrM t1 t2 x ((dispatch_error_iff t1 t2 0).2.2.1.2 h)
    refine ⟨?_, ?_, fun _ => ⟨e _ _ h, e' _ _ h, e'' _ _ h⟩⟩
    · exact (e _ _ h).trans (e _ _ h').symm
    · exact (e' _ _ h).trans (e' _ _ h').symm

/-- Concrete cases for C21: a mixed pair that only the second transformation knows, and an
unsupported pair. -/
theorem dispatch_example : corr .normal (.lognormal 2) 3 = .ok 6 ∧
    corr .normal (.squared 1 1) 3 = .error .notImplemented := by
  constructor
  · simp only [corr, dispatch, corrM]; norm_num
  · rfl

/-! ## C24 -/

/-- **C24** `compute` inverts the band-limited transform.  For every pair of mutually inverse
spectrum transforms (of any length) and every target spectrum whose correlation function lies
in the domain of the transformations, the returned spectrum has a correlation function that
the transformations map back to the target spectrum. -/
theorem compute_inverts (cltocorr corrtocl : List ℝ → List ℝ)
    (h1 : ∀ c, corrtocl (cltocorr c) = c) (h2 : ∀ c, cltocorr (corrtocl c) = c)
    (cl : List ℝ) (t1 t2 : Transformation) (hs : Supported t1 t2)
    (hn1 : NonDegenerate t1) (hn2 : NonDegenerate t2)
    (hd : ∀ y ∈ cltocorr cl, TargetDom t1 t2 y) :
    ∃ gl, compute cltocorr corrtocl cl t1 (some t2) = .ok gl ∧
      ∃ ct, corrList t1 t2 (cltocorr gl) = .ok ct ∧ corrtocl ct = cl := by
  refine ⟨corrtocl ((cltocorr cl).map (icorrVal t1 t2)), ?_,
    ((cltocorr cl).map (icorrVal t1 t2)).map (corrVal t1 t2), ?_, ?_⟩
  · simp [compute, icorrList_ok _ _ hs]
  · rw [corrList_ok _ _ hs, h2]
  · rw [List.map_map]
    conv_rhs => rw [← h1 cl]
    congr 1
    conv_rhs => rw [← List.map_id (cltocorr cl)]
    apply List.map_congr_left
    intro y hy
    obtain ⟨x, hx, _, hx'⟩ := corr_icorr t1 t2 y hs hn1 hn2 (hd y hy)
    simp [icorrVal, hx, corrVal, hx']

/-- C24: leaving out the second transformation is the same as passing the first one twice. -/
theorem compute_default (cltocorr corrtocl : List ℝ → List ℝ) (cl : List ℝ)
    (t1 : Transformation) :
    compute cltocorr corrtocl cl t1 = compute cltocorr corrtocl cl t1 (some t1) := rfl

/-- Concrete case for C24: an invertible "transform" (reversal with a factor 2), target
correlation `[6, 12]`, lognormal with shifts 2 and 3. -/
theorem compute_example :
    ∃ gl, compute (fun c => (c.map (2 * ·)).reverse) (fun c => (c.map (· / 2)).reverse)
        [6, 3] (.lognormal 2) (some (.lognormal 3)) = .ok gl ∧
      ∃ ct, corrList (.lognormal 2) (.lognormal 3) (gl.map (2 * ·)).reverse = .ok ct ∧
        (ct.map (· / 2)).reverse = [6, 3] := by
  apply compute_inverts (fun c => (c.map (2 * ·)).reverse) (fun c => (c.map (· / 2)).reverse)
  · intro c
    simp only [List.map_reverse, List.reverse_reverse, List.map_map]
    conv_rhs => rw [← List.map_id c]
    apply List.map_congr_left
    intro v _
    simp only [Function.comp, id]; ring
  · intro c
    simp only [List.map_reverse, List.reverse_reverse, List.map_map]
    conv_rhs => rw [← List.map_id c]
    apply List.map_congr_left
    intro v _
    simp only [Function.comp, id]; ring
  · trivial
  · simp [NonDegenerate]
  · simp [NonDegenerate]
  · intro y hy
    simp at hy
    rcases hy with rfl | rfl <;> simp only [TargetDom] <;> norm_num

end Glass.Grf
