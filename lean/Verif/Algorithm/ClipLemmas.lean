import Mathlib.Tactic.Linarith
import Mathlib.Tactic.Ring
import Mathlib.Tactic.NormNum
import Mathlib.Algebra.Order.BigOperators.Ring.Finset
import Mathlib.LinearAlgebra.Matrix.NonsingularInverse
import Verif.Algorithm.Model

/-! # Quadratic forms and spectral decompositions -/

namespace Glass.Algorithm

open Glass Matrix

/-- The quadratic form of a matrix. -/
def quad {n : ℕ} (a : Matrix (Fin n) (Fin n) ℝ) (v : Fin n → ℝ) : ℝ := ∑ i, ∑ j, v i * a i j * v j

/-- Positive semi-definite: the quadratic form is nowhere negative. -/
def PSD {n : ℕ} (a : Matrix (Fin n) (Fin n) ℝ) : Prop := ∀ v, 0 ≤ quad a v

/-- The symmetric matrix that `eigh` sees: it reads the lower triangle only. -/
def symLower {n : ℕ} (a : Matrix (Fin n) (Fin n) ℝ) : Matrix (Fin n) (Fin n) ℝ :=
  fun i j => if j ≤ i then a i j else a j i

/-- What is assumed of `eigh`: the eigenvectors are orthonormal, and the decomposition is that of
the matrix. -/
structure EighLaw {n : ℕ} (eigh : Eigh n) : Prop where
  orth : ∀ a i j, ∑ k, (eigh a).2 i k * (eigh a).2 j k = if i = j then 1 else 0
  decomp : ∀ a i j, ∑ k, (eigh a).1 k * ((eigh a).2 i k * (eigh a).2 j k) = symLower a i j

theorem symLower_of_symm {n : ℕ} {a : Matrix (Fin n) (Fin n) ℝ} (h : ∀ i j, a i j = a j i) :
    symLower a = a := by
  funext i j
  unfold symLower
  split_ifs
  · rfl
  · exact h j i

/-- The matrix with given eigenvalues and eigenvectors. -/
def spec {n : ℕ} (w : Fin n → ℝ) (v : Matrix (Fin n) (Fin n) ℝ) : Matrix (Fin n) (Fin n) ℝ :=
  fun i j => ∑ k, w k * (v i k * v j k)

theorem spec_symm {n : ℕ} (w : Fin n → ℝ) (v : Matrix (Fin n) (Fin n) ℝ) (i j : Fin n) :
    spec w v i j = spec w v j i := by
  unfold spec
  apply Finset.sum_congr rfl
  intro k _
  ring

theorem quad_spec {n : ℕ} (w : Fin n → ℝ) (v : Matrix (Fin n) (Fin n) ℝ) (u : Fin n → ℝ) :
    quad (spec w v) u = ∑ k, w k * (∑ i, v i k * u i) ^ 2 := by
  unfold quad spec
  have e : ∀ k, w k * (∑ i, v i k * u i) ^ 2 =
      ∑ i, ∑ j, u i * (w k * (v i k * v j k)) * u j := by
    intro k
    rw [sq, Finset.sum_mul_sum, Finset.mul_sum]
    apply Finset.sum_congr rfl
    intro i _
    rw [Finset.mul_sum]
    apply Finset.sum_congr rfl
    intro j _
    ring
  simp_rw [e]
  conv_rhs => rw [Finset.sum_comm]
  apply Finset.sum_congr rfl
  intro i _
  conv_rhs => rw [Finset.sum_comm]
  apply Finset.sum_congr rfl
  intro j _
  rw [Finset.mul_sum, Finset.sum_mul]

theorem quad_add {n : ℕ} (a b : Matrix (Fin n) (Fin n) ℝ) (u : Fin n → ℝ) :
    quad (a + b) u = quad a u + quad b u := by
  unfold quad
  rw [← Finset.sum_add_distrib]
  apply Finset.sum_congr rfl
  intro i _
  rw [← Finset.sum_add_distrib]
  apply Finset.sum_congr rfl
  intro j _
  rw [Matrix.add_apply]
  ring

theorem quad_sub {n : ℕ} (a b : Matrix (Fin n) (Fin n) ℝ) (u : Fin n → ℝ) :
    quad (a - b) u = quad a u - quad b u := by
  have := quad_add (a - b) b u
  rw [sub_add_cancel] at this
  linarith

section
variable {n : ℕ} {w : Fin n → ℝ} {v : Matrix (Fin n) (Fin n) ℝ}
  (ho : ∀ i j, ∑ k, v i k * v j k = if i = j then 1 else 0)
include ho

theorem orth_cols (k l : Fin n) : ∑ i, v i k * v i l = if k = l then 1 else 0 := by
  have h1 : v * vᵀ = 1 := by
    funext i j
    rw [Matrix.mul_apply, Matrix.one_apply]
    simpa using ho i j
  have h2 : vᵀ * v = 1 := mul_eq_one_comm.1 h1
  have := congrFun (congrFun h2 k) l
  rw [Matrix.mul_apply, Matrix.one_apply] at this
  simpa using this

/-- The change to eigenvector coordinates preserves the length. -/
theorem coords_norm (u : Fin n → ℝ) : ∑ k, (∑ i, v i k * u i) ^ 2 = ∑ i, u i ^ 2 := by
  have h := quad_spec (fun _ => 1) v u
  simp only [one_mul] at h
  rw [← h]
  unfold quad spec
  simp only [one_mul, ho]
  apply Finset.sum_congr rfl
  intro i _
  simp [sq]

theorem quad_le (c : ℝ) (hc : ∀ k, w k ≤ c) (u : Fin n → ℝ) :
    quad (spec w v) u ≤ c * ∑ i, u i ^ 2 := by
  rw [quad_spec, ← coords_norm ho u, Finset.mul_sum]
  exact Finset.sum_le_sum fun k _ => mul_le_mul_of_nonneg_right (hc k) (sq_nonneg _)

theorem le_quad (c : ℝ) (hc : ∀ k, c ≤ w k) (u : Fin n → ℝ) :
    c * ∑ i, u i ^ 2 ≤ quad (spec w v) u := by
  rw [quad_spec, ← coords_norm ho u, Finset.mul_sum]
  exact Finset.sum_le_sum fun k _ => mul_le_mul_of_nonneg_right (hc k) (sq_nonneg _)

theorem quad_col (k : Fin n) : quad (spec w v) (fun i => v i k) = w k := by
  rw [quad_spec]
  rw [Finset.sum_eq_single k]
  · rw [orth_cols ho]; simp
  · intro l _ hl
    rw [orth_cols ho, if_neg hl]; simp
  · simp

theorem col_norm (k : Fin n) : ∑ i, v i k ^ 2 = 1 := by
  have := orth_cols ho k k
  simp only [if_true] at this
  rw [← this]
  exact Finset.sum_congr rfl fun i _ => sq _

end

theorem quad_single {n : ℕ} (a : Matrix (Fin n) (Fin n) ℝ) (i : Fin n) :
    quad a (Pi.single i 1) = a i i := by
  unfold quad
  rw [Finset.sum_eq_single i]
  · rw [Finset.sum_eq_single i]
    · simp
    · intro j _ hj; simp [hj]
    · simp
  · intro j _ hj
    apply Finset.sum_eq_zero
    intro k _
    simp [hj]
  · simp

theorem single_norm {n : ℕ} (i : Fin n) : ∑ j, (Pi.single i 1 : Fin n → ℝ) j ^ 2 = 1 := by
  rw [Finset.sum_eq_single i]
  · simp
  · intro j _ hj; simp [hj]
  · simp

/-! ## The result of `cov_clip` -/

/-- The result of `cov_clip`, as a spectral decomposition. -/
theorem covClip_eq {n : ℕ} (eigh : Eigh n) (eps : ℝ) (a : Matrix (Fin n) (Fin n) ℝ)
    (rtol : Option ℝ) (h : (Finset.univ : Finset (Fin n)).Nonempty)
    (hpos : ∀ i, 0 ≤ max ((eigh a).1 i)
      (rtol.getD (n * eps) * Finset.univ.sup' h (eigh a).1)) :
    covClip eigh eps a rtol = .ok (some (spec (fun i => max ((eigh a).1 i)
      (rtol.getD (n * eps) * Finset.univ.sup' h (eigh a).1)) (eigh a).2)) := by
  unfold covClip
  dsimp only
  rw [max_self, dif_pos h, if_neg]
  · congr 2
    funext i j
    unfold spec
    change ∑ k, (Real.sqrt (max ((eigh a).1 k)
        (rtol.getD (n * eps) * Finset.univ.sup' h (eigh a).1)) * (eigh a).2 i k) *
      (Real.sqrt (max ((eigh a).1 k)
        (rtol.getD (n * eps) * Finset.univ.sup' h (eigh a).1)) * (eigh a).2 j k) = _
    apply Finset.sum_congr rfl
    intro k _
    have := Real.mul_self_sqrt (hpos k)
    calc _ = (Real.sqrt (max ((eigh a).1 k)
            (rtol.getD (n * eps) * Finset.univ.sup' h (eigh a).1)) *
          Real.sqrt (max ((eigh a).1 k)
            (rtol.getD (n * eps) * Finset.univ.sup' h (eigh a).1))) *
          ((eigh a).2 i k * (eigh a).2 j k) := by ring
      _ = _ := by rw [this]
  · rintro ⟨i, hi⟩
    exact absurd (hpos i) (not_le.2 hi)

/-- A bound on the largest eigenvalue from below. -/
theorem sup_nonneg {n : ℕ} {eigh : Eigh n} (hl : EighLaw eigh) (a : Matrix (Fin n) (Fin n) ℝ)
    (h : (Finset.univ : Finset (Fin n)).Nonempty) (u : Fin n → ℝ) (hu : 0 < ∑ i, u i ^ 2)
    (hq : 0 ≤ quad (symLower a) u) : 0 ≤ Finset.univ.sup' h (eigh a).1 := by
  by_contra hc
  have e : symLower a = spec (eigh a).1 (eigh a).2 := by
    funext i j; exact (hl.decomp a i j).symm
  have := quad_le (hl.orth a) (w := (eigh a).1) (Finset.univ.sup' h (eigh a).1)
    (fun k => Finset.le_sup' (eigh a).1 (Finset.mem_univ k)) u
  rw [← e] at this
  nlinarith [not_le.1 hc]

end Glass.Algorithm
