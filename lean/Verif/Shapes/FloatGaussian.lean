import Verif.Shapes.GaussianProps
import Verif.Lensing.FloatPlanes
import Verif.Shells.FloatGrid

/-!
# Gaussian ellipticities in floating point (C170)

The rejection of `ellipticity_gaussian` compares the rounded modulus with one.
-/

namespace Glass.Shapes

open Glass Glass.Spectra Glass.Shells

/-! ## Model -/

/-- A complex number times a real number, with every operation rounded. -/
noncomputable def scaleFl (fl : ℝ → ℝ) (v : ℝ) (e : ℂ) : ℂ := ⟨fl (e.re * v), fl (e.im * v)⟩

/-- `xpx.at(e)[r].multiply(v)` with every operation rounded. -/
noncomputable def maskScaleFl (fl : ℝ → ℝ) (v : ℝ) : List Bool → List ℂ → List ℂ :=
  List.zipWith fun r e => if r then scaleFl fl v e else e

/-- The loop of `shapes.py:275-281` with every operation rounded; `modulus` is `xp.abs`. -/
noncomputable def rejectLoopFl {σ : Type} (normal : σ → ℕ → List ℝ × σ) (fl : ℝ → ℝ) (modulus : ℂ → ℝ)
    (sigma : ℝ) : ℕ → List ℂ → σ → Option (Except Err (List ℂ × σ))
  | 0, _, _ => none
  | fuel + 1, e, s =>
    open Classical in
    let r := e.map fun x => decide (1 < modulus x)
    if 0 < r.count true then
      let (new, s) := populate normal s (r.count true)
      match maskSet r e new with
      | .error err => some (.error err)
      | .ok e => rejectLoopFl normal fl modulus sigma fuel (maskScaleFl fl sigma r e) s
    else some (.ok (e, s))

/-- `shapes.py:272-281` for one population, with every operation rounded. -/
noncomputable def gaussianFl {σ : Type} (normal : σ → ℕ → List ℝ × σ) (fl : ℝ → ℝ) (modulus : ℂ → ℝ) (fuel : ℕ)
    (count : ℕ) (sigma : ℝ) (s : σ) : Option (Except Err (List ℂ × σ)) :=
  let (e, s) := populate normal s count
  rejectLoopFl normal fl modulus sigma fuel (e.map (scaleFl fl sigma)) s

theorem scale_id (v : ℝ) (e : ℂ) : scaleFl id v e = e * (v : ℂ) := by
  apply Complex.ext <;> simp [scaleFl]

theorem reject_fl_real {σ : Type} (normal : σ → ℕ → List ℝ × σ) (sigma : ℝ) (fuel : ℕ) (e : List ℂ) (s : σ) :
    rejectLoopFl normal id norm sigma fuel e s = rejectLoop normal sigma fuel e s := by
  have hm : maskScaleFl id sigma = maskScale sigma := by
    unfold maskScaleFl maskScale
    simp only [scale_id]
  induction fuel generalizing e s with
  | zero => rfl
  | succ fuel ih =>
    simp only [rejectLoopFl, rejectLoop, hm]
    split_ifs
    · generalize maskSet _ _ _ = m
      rcases m with err | e'
      · rfl
      · exact ih _ _
    · rfl

/-- **C170**: without rounding, the model for one population is the exact one. -/
theorem gaussian_fl_real {σ : Type} (normal : σ → ℕ → List ℝ × σ) (fuel count : ℕ) (sigma : ℝ) (s : σ) :
    gaussianFl normal id norm fuel count sigma s =
      rejectLoop normal sigma fuel ((populate normal s count).1.map fun x => x * (sigma : ℂ))
        (populate normal s count).2 := by
  simp only [gaussianFl, reject_fl_real]
  congr 2
  funext e
  exact scale_id sigma e

/-! ## The unit disc -/

theorem reject_fl_exit {σ : Type} {normal : σ → ℕ → List ℝ × σ} (hc : CountLaw normal) (fl : ℝ → ℝ)
    (modulus : ℂ → ℝ) (sigma : ℝ) {fuel : ℕ} {e : List ℂ} {s : σ} {r : Except Err (List ℂ × σ)}
    (h : rejectLoopFl normal fl modulus sigma fuel e s = some r) :
    ∃ out s', r = .ok (out, s') ∧ out.length = e.length ∧ ∀ x ∈ out, modulus x ≤ 1 := by
  induction fuel generalizing e s with
  | zero => simp [rejectLoopFl] at h
  | succ fuel ih =>
    simp only [rejectLoopFl] at h
    split_ifs at h with hcount
    · have hlen := (populate_batch hc s ((open Classical in e.map fun x => decide (1 < modulus x)).count true)).2
      rw [maskSet, if_pos hlen] at h
      obtain ⟨out, s', hr, hl, hx⟩ := ih h
      refine ⟨out, s', hr, ?_, hx⟩
      rw [hl, maskScaleFl, List.length_zipWith, maskMerge_length (by simp) hlen]
      simp
    · refine ⟨e, s, by simpa using h.symm, rfl, ?_⟩
      intro x hx
      by_contra hgt
      push Not at hgt
      apply hcount
      rw [List.count_pos_iff, List.mem_map]
      exact ⟨x, hx, by simp [hgt]⟩

/-- **C170**: the ellipticities lie inside the unit disc up to the error of the modulus. -/
theorem gaussian_fl_disc_partial {σ : Type} {normal : σ → ℕ → List ℝ × σ} (hc : CountLaw normal) (fl : ℝ → ℝ)
    {modulus : ℂ → ℝ} (hm : ∀ x, |modulus x - ‖x‖| ≤ 2 / 2 ^ 53 * ‖x‖) {fuel count : ℕ} {sigma : ℝ} {s : σ}
    {r : Except Err (List ℂ × σ)} (h : gaussianFl normal fl modulus fuel count sigma s = some r) :
    ∃ out s', r = .ok (out, s') ∧ out.length = count ∧ ∀ x ∈ out, ‖x‖ ≤ 1 + 3 / 2 ^ 53 := by
  simp only [gaussianFl] at h
  obtain ⟨out, s', hr, hl, hx⟩ := reject_fl_exit hc fl modulus sigma h
  refine ⟨out, s', hr, ?_, ?_⟩
  · rw [hl, List.length_map]
    exact (populate_batch hc s count).2
  · intro x hxo
    have h1 := (abs_le.1 (hm x)).1
    have h2 := hx x hxo
    by_contra hgt
    push Not at hgt
    norm_num at h1 hgt
    linarith

/-- A generator that gives the numbers of a list again and again, for one number at a time. -/
def twoValues (a b : ℝ) (s : Bool) (n : ℕ) : List ℝ × Bool := (List.replicate n (if s then b else a), !s)

theorem twoValues_count (a b : ℝ) : CountLaw (twoValues a b) := by
  intro s n
  simp [twoValues]

/-- **C170**, counterexample: with the correctly rounded modulus, an ellipticity outside the unit disc is accepted. -/
theorem gaussian_fl_beyond : ∃ e : ℂ, ∃ s',
    gaussianFl (twoValues 1 (1 / 2 ^ 30)) double.fl (fun x => double.fl ‖x‖) 1 1 1 false = some (.ok ([e], s')) ∧
      1 < ‖e‖ := by
  have r1 : double.fl 1 = 1 := double.one
  have r30 : double.fl (1 / 2 ^ 30) = 1 / 2 ^ 30 := by
    change roundDouble _ = _
    rw [roundDouble_of _ (-30) (2 ^ 52) (by norm_num) (by norm_num) (by norm_num)]; norm_num
  have hn : ‖(⟨1, 1 / 2 ^ 30⟩ : ℂ)‖ = Real.sqrt (1 + 1 / 2 ^ 60) := by
    rw [Complex.norm_def, Complex.normSq_mk]
    norm_num
  have hgt : 1 < Real.sqrt (1 + 1 / 2 ^ 60) := by
    rw [Real.lt_sqrt (by norm_num)]; norm_num
  have hlt : Real.sqrt (1 + 1 / 2 ^ 60) < 1 + 1 / 2 ^ 60 := by
    rw [Real.sqrt_lt' (by norm_num)]; norm_num
  have hfl : double.fl ‖(⟨1, 1 / 2 ^ 30⟩ : ℂ)‖ = 1 := by
    rw [hn]
    change roundDouble _ = _
    generalize Real.sqrt (1 + 1 / 2 ^ 60) = q at *
    rw [roundDouble_of q 0 (2 ^ 52) (by norm_num; linarith) (by norm_num at hlt ⊢; linarith) (by
      rw [abs_lt]; norm_num at hlt hgt ⊢; constructor <;> linarith)]
    norm_num
  refine ⟨⟨1, 1 / 2 ^ 30⟩, false, ?_, by rw [hn]; exact hgt⟩
  have hp : (populate (twoValues 1 (1 / 2 ^ 30)) false 1) = ([⟨1, 1 / 2 ^ 30⟩], false) := by
    clear r30 hn hgt hlt hfl
    generalize (1 / 2 ^ 30 : ℝ) = t
    simp only [populate, twoValues]
    simp only [Bool.not_false, List.replicate_one, Bool.false_eq_true, if_false, if_true, List.zipWith_cons_cons,
      List.zipWith_nil_left, Bool.not_true]
    congr 2
    apply Complex.ext <;> simp
  have hs : scaleFl double.fl 1 ⟨1, 1 / 2 ^ 30⟩ = ⟨1, 1 / 2 ^ 30⟩ := by
    simp only [scaleFl, mul_one, r1, r30]
  simp only [gaussianFl, hp, List.map_cons, List.map_nil, hs, rejectLoopFl, hfl]
  simp

example : ∃ e : ℂ, ∃ s',
    gaussianFl (twoValues 1 (1 / 2 ^ 30)) double.fl (fun x => double.fl ‖x‖) 1 1 1 false = some (.ok ([e], s')) ∧
      ‖e‖ ≤ 1 + 3 / 2 ^ 53 := by
  obtain ⟨e, s', h, -⟩ := gaussian_fl_beyond
  obtain ⟨out, s'', hr, -, hx⟩ := gaussian_fl_disc_partial (twoValues_count 1 (1 / 2 ^ 30)) double.fl (fun x => by
    refine (double.error _).trans ?_
    rw [abs_of_nonneg (norm_nonneg x)]
    have := norm_nonneg x
    norm_num
    linarith) h
  refine ⟨e, s', h, hx e ?_⟩
  simp only [Except.ok.injEq, Prod.mk.injEq] at hr
  simp [← hr.1]

end Glass.Shapes
