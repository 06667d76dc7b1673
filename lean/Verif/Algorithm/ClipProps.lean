import Mathlib.Analysis.Matrix.Spectrum
import Mathlib.Tactic.FieldSimp
import Mathlib.Tactic.FinCases
import Mathlib.Tactic.Positivity
import Verif.Algorithm.ClipLemmas

/-! # Property C57: clipping of eigenvalues -/

namespace Glass.Algorithm

open Glass Matrix

/-- **C57** is **false** for matrices without a non-negative eigenvalue: the covariance matrix `-1`
gives NaN, for the default tolerance (whatever the positive `eps`) and for every tolerance
`0 < rtol ≤ 1`. -/
theorem clip_negative_nan {eigh : Eigh 1} (hl : EighLaw eigh) (eps : ℝ) (heps : 0 < eps)
    (rtol : Option ℝ) (hr : ∀ r, rtol = some r → 0 < r) :
    covClip eigh eps (!![-1]) rtol = .ok none := by
  have h0 := hl.orth (!![-1]) 0 0
  have h1 := hl.decomp (!![-1]) 0 0
  simp only [Fin.sum_univ_one, if_true, symLower, le_refl] at h0 h1
  rw [h0, mul_one] at h1
  have hne : (Finset.univ : Finset (Fin 1)).Nonempty := ⟨0, Finset.mem_univ 0⟩
  have hsup : Finset.univ.sup' hne (eigh !![-1]).1 = -1 := by
    rw [show (eigh !![-1]).1 = fun _ => -1 from by
      funext i; rw [Subsingleton.elim i 0]; exact h1]
    exact Finset.sup'_const hne _
  unfold covClip
  dsimp only
  rw [dif_pos hne, if_pos]
  refine ⟨0, ?_⟩
  rw [h1, hsup]
  apply max_lt (by norm_num)
  cases rtol with
  | none => simp; exact heps
  | some r => simp; exact hr r rfl

/-- **C57** for matrices with a non-negative value of the quadratic form, for example with a
non-negative trace: the result exists, is symmetric and positive semi-definite. -/
theorem clip_psd_partial {n : ℕ} {eigh : Eigh n} (hl : EighLaw eigh) (eps : ℝ)
    (a : Matrix (Fin n) (Fin n) ℝ) (rtol : Option ℝ) (hr : 0 ≤ rtol.getD (n * eps))
    (u : Fin n → ℝ) (hu : 0 < ∑ i, u i ^ 2) (hq : 0 ≤ quad (symLower a) u) :
    ∃ x, covClip eigh eps a rtol = .ok (some x) ∧ (∀ i j, x i j = x j i) ∧ PSD x := by
  have hne : (Finset.univ : Finset (Fin n)).Nonempty := by
    by_contra hc
    rw [Finset.not_nonempty_iff_eq_empty] at hc
    rw [hc] at hu
    simp at hu
  have hM := sup_nonneg hl a hne u hu hq
  have hpos : ∀ i, 0 ≤ max ((eigh a).1 i)
      (rtol.getD (n * eps) * Finset.univ.sup' hne (eigh a).1) :=
    fun i => le_max_of_le_right (mul_nonneg hr hM)
  refine ⟨_, covClip_eq eigh eps a rtol hne hpos, spec_symm _ _, ?_⟩
  intro v
  have := le_quad (hl.orth a) 0 hpos v
  simpa using this

/-- A matrix with non-negative trace satisfies the condition. -/
theorem clip_trace {n : ℕ} {eigh : Eigh n} (hl : EighLaw eigh) (eps : ℝ)
    (a : Matrix (Fin n) (Fin n) ℝ) (rtol : Option ℝ) (hr : 0 ≤ rtol.getD (n * eps))
    (hn : 0 < n) (ht : 0 ≤ ∑ i, a i i) :
    ∃ x, covClip eigh eps a rtol = .ok (some x) ∧ (∀ i j, x i j = x j i) ∧ PSD x := by
  have : ∃ i, 0 ≤ a i i := by
    by_contra hc
    push Not at hc
    have hlt : ∑ i, a i i < 0 := by
      apply Finset.sum_neg (fun i _ => hc i)
      exact ⟨⟨0, hn⟩, Finset.mem_univ _⟩
    linarith
  obtain ⟨i, hi⟩ := this
  apply clip_psd_partial hl eps a rtol hr (Pi.single i 1)
  · rw [single_norm]; norm_num
  · rw [quad_single]; simpa [symLower] using hi

/-- **C57**, well-conditioned matrices are unchanged: if the quadratic form of the symmetric matrix
`a` is between `m |v|²` and `M |v|²` with `rtol M ≤ m`, the result is `a`. -/
theorem clip_identity {n : ℕ} {eigh : Eigh n} (hl : EighLaw eigh) (eps : ℝ)
    (a : Matrix (Fin n) (Fin n) ℝ) (hs : ∀ i j, a i j = a j i) (rtol : Option ℝ)
    (hr : 0 ≤ rtol.getD (n * eps)) (hn : 0 < n) (lo hi : ℝ) (hlo : 0 ≤ lo)
    (hcond : rtol.getD (n * eps) * hi ≤ lo)
    (h1 : ∀ v, lo * ∑ i, v i ^ 2 ≤ quad a v) (h2 : ∀ v, quad a v ≤ hi * ∑ i, v i ^ 2) :
    covClip eigh eps a rtol = .ok (some a) := by
  have hne : (Finset.univ : Finset (Fin n)).Nonempty := ⟨⟨0, hn⟩, Finset.mem_univ _⟩
  have e : a = spec (eigh a).1 (eigh a).2 := by
    funext i j
    have := (hl.decomp a i j).symm
    rwa [symLower_of_symm hs] at this
  have hw1 : ∀ k, lo ≤ (eigh a).1 k := by
    intro k
    have := h1 fun i => (eigh a).2 i k
    rw [col_norm (hl.orth a), mul_one] at this
    calc lo ≤ _ := this
      _ = quad (spec (eigh a).1 (eigh a).2) (fun i => (eigh a).2 i k) := by rw [← e]
      _ = _ := quad_col (hl.orth a) k
  have hw2 : ∀ k, (eigh a).1 k ≤ hi := by
    intro k
    have := h2 fun i => (eigh a).2 i k
    rw [col_norm (hl.orth a), mul_one] at this
    calc _ = quad (spec (eigh a).1 (eigh a).2) (fun i => (eigh a).2 i k) :=
          (quad_col (hl.orth a) k).symm
      _ = quad a (fun i => (eigh a).2 i k) := by rw [← e]
      _ ≤ hi := this
  have hsup : Finset.univ.sup' hne (eigh a).1 ≤ hi := Finset.sup'_le hne _ fun k _ => hw2 k
  have hmax : ∀ i, max ((eigh a).1 i)
      (rtol.getD (n * eps) * Finset.univ.sup' hne (eigh a).1) = (eigh a).1 i := by
    intro i
    apply max_eq_left
    calc _ ≤ rtol.getD (n * eps) * hi := mul_le_mul_of_nonneg_left hsup hr
      _ ≤ lo := hcond
      _ ≤ _ := hw1 i
  rw [covClip_eq eigh eps a rtol hne (fun i => by rw [hmax]; exact hlo.trans (hw1 i))]
  congr 2
  simp only [hmax]
  exact e.symm

/-- **C57**, `cov_clip` is the identity on its own output (for tolerances up to 1). -/
theorem clip_idempotent {n : ℕ} {eigh : Eigh n} (hl : EighLaw eigh) (eps : ℝ)
    (a x : Matrix (Fin n) (Fin n) ℝ) (rtol : Option ℝ) (hr : 0 ≤ rtol.getD (n * eps))
    (hr1 : rtol.getD (n * eps) ≤ 1) (h : covClip eigh eps a rtol = .ok (some x)) :
    covClip eigh eps x rtol = .ok (some x) := by
  have h' := h
  unfold covClip at h'
  dsimp only at h'
  split_ifs at h' with hne hneg
  · simp at h'
  rw [max_self] at hneg
  push Not at hneg
  rw [covClip_eq eigh eps a rtol hne hneg] at h
  simp only [Except.ok.injEq, Option.some.injEq] at h
  have hn : 0 < n := by
    obtain ⟨i, -⟩ := hne
    exact i.pos
  have hw : ∀ k, (eigh a).1 k ≤ Finset.univ.sup' hne (eigh a).1 :=
    fun k => Finset.le_sup' (eigh a).1 (Finset.mem_univ k)
  obtain ⟨k, -, hk⟩ := Finset.exists_mem_eq_sup' hne (eigh a).1
  generalize Finset.univ.sup' hne (eigh a).1 = M at h hneg hw hk
  generalize hrr : rtol.getD (n * eps) = r at h hneg hr hr1
  rw [← h]
  rcases le_or_gt 0 M with hM0 | hM0
  · apply clip_identity hl eps _ (spec_symm _ _) rtol (by rw [hrr]; exact hr) hn (r * M) M
      (mul_nonneg hr hM0) (by rw [hrr])
    · exact le_quad (hl.orth a) _ fun k => le_max_right _ _
    · apply quad_le (hl.orth a)
      intro k
      apply max_le (hw k)
      nlinarith
  · -- only possible with tolerance zero, then the output is zero
    have hr0 : r = 0 := by
      have h1 := hneg k
      rw [← hk] at h1
      rcases le_max_iff.1 h1 with h2 | h2
      · exact absurd h2 (not_le.2 hM0)
      · by_contra hc
        have : 0 < r := lt_of_le_of_ne hr (Ne.symm hc)
        nlinarith
    apply clip_identity hl eps _ (spec_symm _ _) rtol (by rw [hrr]; exact hr) hn 0 0
      le_rfl (by rw [mul_zero])
    · exact le_quad (hl.orth a) _ hneg
    · apply quad_le (hl.orth a)
      intro k
      rw [hr0, zero_mul]
      exact max_le ((hw k).trans hM0.le) le_rfl

/-- The law of `eigh` can be met: the spectral theorem. -/
theorem exists_eigh (n : ℕ) : ∃ eigh : Eigh n, EighLaw eigh := by
  have hh : ∀ a : Matrix (Fin n) (Fin n) ℝ, (symLower a).IsHermitian := by
    intro a
    ext i j
    simp only [conjTranspose_apply, star_trivial, symLower]
    rcases lt_trichotomy i j with h | h | h
    · rw [if_pos h.le, if_neg (not_le.2 h)]
    · subst h; rfl
    · rw [if_neg (not_le.2 h), if_pos h.le]
  refine ⟨fun a => ((hh a).eigenvalues, (hh a).eigenvectorUnitary.1), ?_, ?_⟩
  · intro a i j
    have h1 := (Matrix.mem_unitaryGroup_iff).1 (hh a).eigenvectorUnitary.2
    have := congrFun (congrFun h1 i) j
    rw [Matrix.mul_apply, Matrix.one_apply] at this
    simpa [Matrix.star_apply] using this
  · intro a i j
    have h1 := (hh a).spectral_theorem
    rw [Unitary.conjStarAlgAut_apply] at h1
    conv_rhs => rw [h1]
    rw [Matrix.mul_apply]
    apply Finset.sum_congr rfl
    intro k _
    rw [Matrix.mul_diagonal, Matrix.star_apply]
    simp
    ring

/-- A matrix to which C57 applies: eigenvalues 3 and -1. -/
example {eigh : Eigh 2} (hl : EighLaw eigh) :
    ∃ x, covClip eigh 0 !![1, 2; 2, 1] none = .ok (some x) ∧ (∀ i j, x i j = x j i) ∧ PSD x :=
  clip_trace hl 0 _ none (by simp) (by norm_num) (by simp [Fin.sum_univ_two])

end Glass.Algorithm
