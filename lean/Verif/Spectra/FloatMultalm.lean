import Verif.Spectra.Props2
import Verif.Spectra.FloatLabels
import Verif.Lensing.FloatPlanes
import Verif.Shells.FloatGrid

/-!
# Scaled modes in floating point (C174)

The model of `multalm`, used with complex numbers whose products are computed with rounding.
-/

namespace Glass.Spectra

open Glass Glass.Lensing

/-! ## Model -/

/-- Complex numbers whose products are computed with rounding. -/
structure FlC (R : Rounding) where
  /-- The value. -/
  val : ℂ

/-- The product of complex numbers with every operation rounded. -/
noncomputable def mulFl (fl : ℝ → ℝ) (x y : ℂ) : ℂ :=
  ⟨fl (fl (x.re * y.re) - fl (x.im * y.im)), fl (fl (x.re * y.im) + fl (x.im * y.re))⟩

noncomputable instance (R : Rounding) : Mul (FlC R) := ⟨fun x y => ⟨mulFl R.fl x.val y.val⟩⟩

/-- `harmonics.py:17-47` `multalm` of complex modes and real factors, with every operation rounded. -/
noncomputable def multalmFl (R : Rounding) (alm : List ℂ) (bl : List ℝ) : Except Err (List (FlC R)) :=
  multalm (alm.map FlC.mk) (bl.map fun b : ℝ => ⟨((b : ℝ) : ℂ)⟩)

/-- Without rounding this is the product. -/
theorem mulFl_real (x y : ℂ) : mulFl id x y = x * y := by
  apply Complex.ext <;> simp [mulFl]

/-! ## One product -/

theorem mulFl_parts (R : Rounding) (x : ℂ) (b : ℝ) :
    mulFl R.fl x (b : ℂ) = ⟨R.fl (R.fl (x.re * b)), R.fl (R.fl (x.im * b))⟩ := by
  simp [mulFl, R.zero]

theorem twice_error (R : Rounding) (x : ℝ) : |R.fl (R.fl x) - x| ≤ 3 / 2 ^ 53 * |x| :=
  ((Rel.fl R x).round R).error (by norm_num) (by norm_num)

theorem mulFl_error (R : Rounding) (x : ℂ) (b : ℝ) : ‖mulFl R.fl x (b : ℂ) - x * b‖ ≤ 3 / 2 ^ 53 * ‖x * b‖ := by
  have h1 := twice_error R (x.re * b)
  have h2 := twice_error R (x.im * b)
  rw [mulFl_parts, Complex.norm_def, Complex.norm_def (x * b), ← Real.sqrt_sq (show (0 : ℝ) ≤ 3 / 2 ^ 53 by norm_num),
    ← Real.sqrt_mul (by positivity)]
  apply Real.sqrt_le_sqrt
  simp only [Complex.normSq_apply, Complex.sub_re, Complex.sub_im, Complex.re_mul_ofReal, Complex.im_mul_ofReal]
  have s1 := mul_self_le_mul_self (abs_nonneg _) h1
  have s2 := mul_self_le_mul_self (abs_nonneg _) h2
  rw [abs_mul_abs_self, mul_mul_mul_comm, abs_mul_abs_self] at s1 s2
  rw [sq]
  linarith

/-! ## All modes -/

/-- **C174**: every mode is scaled with a relative error of at most three units; modes that are real stay real,
and modes that vanish stay zero. -/
theorem multalm_fl_error (R : Rounding) (alm : List ℂ) (bl : List ℝ)
    (h : alm.length = bl.length * (bl.length + 1) / 2) :
    ∃ out, multalmFl R alm bl = .ok out ∧ out.length = alm.length ∧
      ∀ l m, m ≤ l → (hl : l < bl.length) → ∀ a, alm[l * (l + 1) / 2 + m]? = some a →
        ∃ v, out[l * (l + 1) / 2 + m]? = some v ∧ ‖v.val - a * bl[l]‖ ≤ 3 / 2 ^ 53 * ‖a * bl[l]‖ ∧
          (a.im = 0 → v.val.im = 0) ∧ (a = 0 → v.val = 0) ∧ (bl[l] = 1 → R.fl a.re = a.re → R.fl a.im = a.im →
            v.val = a) := by
  obtain ⟨out, ho, hlen, hv⟩ := multalm_modes (alm.map (FlC.mk (R := R))) (bl.map fun b : ℝ => ⟨((b : ℝ) : ℂ)⟩)
    (by simpa using h)
  refine ⟨out, ho, by simpa using hlen, ?_⟩
  intro l m hm hl a ha
  have := hv l m hm (by simpa using hl) ⟨a⟩ (by rw [List.getElem?_map, ha]; rfl)
  rw [List.getElem_map] at this
  have hval : ((⟨a⟩ : FlC R) * ⟨((bl[l] : ℝ) : ℂ)⟩).val = mulFl R.fl a (bl[l] : ℝ) := rfl
  refine ⟨_, this, ?_, ?_, ?_, ?_⟩
  · rw [hval]; exact mulFl_error R a _
  · intro h0
    rw [hval, mulFl_parts]
    simp [h0, R.zero]
  · intro h0
    rw [hval, mulFl_parts, h0]
    apply Complex.ext <;> simp [R.zero]
  · intro h1 hre him
    rw [hval, mulFl_parts, h1, mul_one, mul_one, hre, him, hre, him]

/-- **C174**: other numbers of modes are rejected as in exact arithmetic. -/
theorem multalm_fl_rejects (R : Rounding) (alm : List ℂ) (bl : List ℝ)
    (h : alm.length ≠ bl.length * (bl.length + 1) / 2) (h1 : alm.length ≠ 1) (h2 : bl.length ≠ 1) :
    ∃ s, multalmFl R alm bl = .error (.value s) :=
  multalm_rejects _ _ (by simpa using h) (by simpa using h1) (by simpa using h2)

/-- **C174**: a factor of modulus at most one increases no mode by more than three units. -/
theorem multalm_fl_bounded (R : Rounding) (x : ℂ) {b : ℝ} (hb : |b| ≤ 1) :
    ‖mulFl R.fl x (b : ℂ)‖ ≤ (1 + 3 / 2 ^ 53) * ‖x‖ := by
  have h1 := mulFl_error R x b
  have h2 : ‖x * (b : ℂ)‖ ≤ ‖x‖ := by
    rw [norm_mul, Complex.norm_real, Real.norm_eq_abs]
    exact mul_le_of_le_one_right (norm_nonneg x) hb
  have h3 := norm_le_norm_add_norm_sub' (mulFl R.fl x (b : ℂ)) (x * b)
  nlinarith [norm_nonneg (x * (b : ℂ))]

/-- The monopole `1` times `3`. -/
example : multalmFl double [1] [3] = .ok [⟨3⟩] := by
  have h3 : double.fl 3 = 3 := by
    have := double.exact 12 (by norm_num)
    norm_num at this
    exact this
  have hm : (⟨1⟩ : FlC double) * ⟨((3 : ℝ) : ℂ)⟩ = ⟨3⟩ := by
    change (⟨mulFl double.fl 1 ((3 : ℝ) : ℂ)⟩ : FlC double) = _
    rw [mulFl_parts]
    congr 1
    apply Complex.ext <;> simp [h3, double.zero]
  simp only [multalmFl, multalm, repeatModes, List.map_cons, List.map_nil]
  simp only [List.zipIdx_cons, List.zipIdx_nil, List.flatMap_cons, List.flatMap_nil, List.append_nil, zero_add,
    List.replicate_one, List.length_cons, List.length_nil, if_true, List.zipWith_cons_cons, List.zipWith_nil_left, hm]

end Glass.Spectra
