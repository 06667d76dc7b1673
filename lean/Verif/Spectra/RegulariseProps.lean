import Mathlib.Algebra.Order.Chebyshev
import Mathlib.Tactic.FinCases
import Verif.Algorithm.NearcorrProps
import Verif.Spectra.Props2
import Verif.Spectra.Regularise

/-! # Properties C88, C89 and C90: positive semi-definite spectra -/

namespace Glass.Spectra

open Glass Glass.Algorithm NdArray

/-- Specification: the matrix of the (zero padded) spectra of `n` fields at one multipole. -/
def spectraMatrix (spectra : List (List ℝ)) (n l : ℕ) : Matrix (Fin n) (Fin n) ℝ :=
  Matrix.of fun i j => clValue spectra i j l

theorem spectraMatrix_symm (spectra : List (List ℝ)) (n l : ℕ) (i j : Fin n) :
    spectraMatrix spectra n l i j = spectraMatrix spectra n l j i := clValue_symm _ _ _ _

/-- The stack of matrices holds the matrices of the spectra. -/
theorem covMatrix_eq {spectra : List (List ℝ)} {cov : Cov ℝ}
    (hval : ∀ l i j : ℕ, l < cov.k → i < cov.n → j < cov.n →
      cov.val l i j = clValue spectra i j l ∧ cov.val l i j = cov.val l j i)
    {l : ℕ} (hl : l < cov.k) : covMatrix cov l = spectraMatrix spectra cov.n l := by
  ext i j
  exact (hval l i j hl i.2 j.2).1

/-- Beyond the longest spectrum the matrix vanishes. -/
theorem spectraMatrix_zero {spectra : List (List ℝ)} {k : ℕ}
    (hk : ∀ cl ∈ spectra, cl.length ≤ k) (n l : ℕ) (hl : k ≤ l) : spectraMatrix spectra n l = 0 := by
  ext i j
  simp only [spectraMatrix, Matrix.of_apply, Matrix.zero_apply, clValue]
  rcases h : spectra[max (i : ℕ) j * (max (i : ℕ) j + 1) / 2 + (max (i : ℕ) j - min (i : ℕ) j)]?
    with _ | cl
  · rfl
  · have := hk cl (List.mem_of_getElem? h)
    simp [List.getElem?_eq_none (show cl.length ≤ l by omega)]

theorem quad_zero {n : ℕ} (v : Fin n → ℝ) : quad 0 v = 0 := by
  simp [quad]

/-! ## C88: `check_posdef_spectra` -/

/-- What is assumed of `eigvalsh`: for a symmetric matrix, the numbers it returns are the eigenvalues
for some orthonormal eigenvectors. -/
def EigvalshLaw (eigvalsh : ∀ n, Matrix (Fin n) (Fin n) ℝ → Fin n → ℝ) : Prop :=
  ∀ n (a : Matrix (Fin n) (Fin n) ℝ), (∀ i j, a i j = a j i) →
    ∃ v : Matrix (Fin n) (Fin n) ℝ,
      (∀ i j, ∑ k, v i k * v j k = if i = j then 1 else 0) ∧
      ∀ i j, ∑ k, eigvalsh n a k * (v i k * v j k) = a i j

/-- Such a function exists. -/
theorem exists_eigvalsh : ∃ eigvalsh, EigvalshLaw eigvalsh := by
  choose eigh hl using exists_eigh
  refine ⟨fun n a => (eigh n a).1, fun n a hs => ⟨(eigh n a).2, (hl n).orth a, fun i j => ?_⟩⟩
  rw [(hl n).decomp a i j, symLower_of_symm hs]

/-- Non-negative eigenvalues and a non-negative quadratic form are the same. -/
theorem eigenvalues_iff {eigvalsh : ∀ n, Matrix (Fin n) (Fin n) ℝ → Fin n → ℝ}
    (hl : EigvalshLaw eigvalsh) {n : ℕ} (a : Matrix (Fin n) (Fin n) ℝ)
    (hs : ∀ i j, a i j = a j i) : (∀ i, 0 ≤ eigvalsh n a i) ↔ PSD a := by
  obtain ⟨v, ho, hd⟩ := hl n a hs
  have e : a = spec (eigvalsh n a) v := by
    funext i j; exact (hd i j).symm
  constructor
  · intro h u
    rw [e]
    have := le_quad ho 0 h u
    simpa using this
  · intro h i
    have := h fun j => v j i
    rw [e, quad_col ho] at this
    exact this

/-- **C88** For a complete set of spectra, `check_posdef_spectra` returns true if and only if the
matrix of the spectra is positive semi-definite at every multipole, where spectra are continued
with zeros. -/
theorem check_posdef_iff {eigvalsh : ∀ n, Matrix (Fin n) (Fin n) ℝ → Fin n → ℝ}
    (hl : EigvalshLaw eigvalsh) (spectra : List (List ℝ)) (n : ℕ) (hn : 0 < n)
    (h : spectra.length = n * (n + 1) / 2) :
    ∃ b, checkPosdefSpectra eigvalsh spectra = .ok b ∧
      (b = true ↔ ∀ l, PSD (spectraMatrix spectra n l)) := by
  obtain ⟨cov, hcov, hcn, -, hk, hval⟩ := cov_entries spectra n hn h none
  subst hcn
  refine ⟨_, by unfold checkPosdefSpectra; rw [hcov], ?_⟩
  rw [decide_eq_true_iff]
  constructor
  · intro hb l
    by_cases hlk : l < cov.k
    · have := hb l hlk
      rw [covMatrix_eq hval hlk] at this
      exact (eigenvalues_iff hl _ (spectraMatrix_symm _ _ _)).1 this
    · rw [spectraMatrix_zero (hk rfl).1 _ _ (not_lt.1 hlk)]
      intro v; rw [quad_zero]
  · intro hp l hlk
    rw [covMatrix_eq hval hlk]
    exact (eigenvalues_iff hl _ (spectraMatrix_symm _ _ _)).2 (hp l)

/-- **C88** Incomplete sets of spectra raise `ValueError`, no spectra `TypeError`. -/
theorem check_posdef_rejects (eigvalsh : ∀ n, Matrix (Fin n) (Fin n) ℝ → Fin n → ℝ) :
    (∀ spectra : List (List ℝ), (∀ n, spectra.length ≠ n * (n + 1) / 2) →
      ∃ msg, checkPosdefSpectra eigvalsh spectra = .error (.value msg)) ∧
    ∃ msg, checkPosdefSpectra eigvalsh [] = .error (.type msg) := by
  constructor
  · intro s h
    exact ⟨_, by unfold checkPosdefSpectra; rw [(cov_rejects none).1 s h]⟩
  · exact ⟨_, by unfold checkPosdefSpectra; rw [(cov_rejects none).2]⟩

/-- The form on a pair of coordinates. -/
theorem quad_pair {n : ℕ} (a : Matrix (Fin n) (Fin n) ℝ) (i j : Fin n) (x y : ℝ) :
    quad a (Pi.single i x + Pi.single j y) =
      x ^ 2 * a i i + x * y * a i j + y * x * a j i + y ^ 2 * a j j := by
  have hd : ∀ (f : Fin n → ℝ) (k : Fin n) (z : ℝ),
      ∑ m, (Pi.single k z : Fin n → ℝ) m * f m = z * f k := by
    intro f k z
    rw [Finset.sum_eq_single k]
    · simp
    · intro m _ hm; simp [hm]
    · simp
  have h2 : ∀ f : Fin n → ℝ, ∑ m, (Pi.single i x + Pi.single j y : Fin n → ℝ) m * f m =
      x * f i + y * f j := by
    intro f
    simp only [Pi.add_apply, add_mul, Finset.sum_add_distrib, hd]
  have e : quad a (Pi.single i x + Pi.single j y) =
      ∑ p, (Pi.single i x + Pi.single j y : Fin n → ℝ) p *
        ∑ q, (Pi.single i x + Pi.single j y : Fin n → ℝ) q * a p q := by
    unfold quad
    apply Finset.sum_congr rfl; intro p _
    rw [Finset.mul_sum]
    apply Finset.sum_congr rfl; intro q _
    ring
  rw [e, h2, h2, h2]
  ring

/-- **C88** Spectra that pass the test have non-negative auto-spectra and correlations within
`[-1, 1]`. -/
theorem check_posdef_bounds {eigvalsh : ∀ n, Matrix (Fin n) (Fin n) ℝ → Fin n → ℝ}
    (hl : EigvalshLaw eigvalsh) (spectra : List (List ℝ)) (n : ℕ) (hn : 0 < n)
    (h : spectra.length = n * (n + 1) / 2)
    (hb : checkPosdefSpectra eigvalsh spectra = .ok true) (l i j : ℕ) (hi : i < n) (hj : j < n) :
    0 ≤ clValue spectra i i l ∧
    clValue spectra i j l ^ 2 ≤ clValue spectra i i l * clValue spectra j j l := by
  obtain ⟨b, hb', hiff⟩ := check_posdef_iff hl spectra n hn h
  rw [hb] at hb'
  obtain rfl : true = b := by simpa using hb'
  have hp := hiff.1 rfl l
  have hdiag : ∀ k : Fin n, 0 ≤ clValue spectra k k l := by
    intro k
    have := hp (Pi.single k 1)
    rw [quad_single] at this
    exact this
  refine ⟨hdiag ⟨i, hi⟩, ?_⟩
  have key : ∀ x y : ℝ, 0 ≤ x ^ 2 * clValue spectra i i l + 2 * (x * y) * clValue spectra i j l +
      y ^ 2 * clValue spectra j j l := by
    intro x y
    have := hp (Pi.single ⟨i, hi⟩ x + Pi.single ⟨j, hj⟩ y)
    rw [quad_pair] at this
    simp only [spectraMatrix, Matrix.of_apply] at this
    rw [clValue_symm spectra j i] at this
    linarith
  have h1 := hdiag ⟨i, hi⟩
  have h2 := hdiag ⟨j, hj⟩
  simp only at h1 h2
  generalize clValue spectra i i l = a at *
  generalize clValue spectra j j l = c at *
  generalize clValue spectra i j l = b at *
  rcases h1.lt_or_eq with h1 | h1
  · have := key (-b) a
    have h3 : 0 ≤ a * (a * c - b ^ 2) := by nlinarith
    nlinarith [nonneg_of_mul_nonneg_right h3 h1]
  · rcases eq_or_ne b 0 with rfl | hb0
    · nlinarith
    · have k1 := key (-(c + 1) / (2 * b)) 1
      rw [← h1] at k1
      have e : 2 * (-(c + 1) / (2 * b) * 1) * b = -(c + 1) := by field_simp
      rw [e] at k1
      linarith

/-- A case for C88: two fields with correlation one pass, two with correlation two do not. -/
theorem check_posdef_example {eigvalsh : ∀ n, Matrix (Fin n) (Fin n) ℝ → Fin n → ℝ}
    (hl : EigvalshLaw eigvalsh) :
    checkPosdefSpectra eigvalsh [[1, 4], [1, 1], [1]] = .ok true ∧
    checkPosdefSpectra eigvalsh [[1], [1], [2]] = .ok false := by
  constructor
  · obtain ⟨b, hb, hiff⟩ := check_posdef_iff hl [[1, 4], [1, 1], [1]] 2 (by norm_num) rfl
    rw [hb, hiff.2]
    intro l v
    unfold quad spectraMatrix
    simp only [Fin.sum_univ_two, Matrix.of_apply, clValue]
    rcases l with _ | _ | l <;> simp <;> nlinarith [sq_nonneg (v 0 + v 1), sq_nonneg (v 0),
      sq_nonneg (v 1)]
  · obtain ⟨b, hb, hiff⟩ := check_posdef_iff hl [[1], [1], [2]] 2 (by norm_num) rfl
    rcases b with _ | _
    · exact hb
    · have := (check_posdef_bounds hl [[1], [1], [2]] 2 (by norm_num) rfl hb 0 1 0 (by norm_num)
        (by norm_num)).2
      norm_num [clValue] at this

/-! ## C89: `regularized_spectra` -/

/-- Specification of the result: a complete set of spectra of `n` fields with `k` multipoles each,
whose values are the matrices `m l`. -/
def IsSpectraOf (r : List (List (Option ℝ))) (n k : ℕ) (m : ℕ → Matrix (Fin n) (Fin n) ℝ) : Prop :=
  r.length = n * (n + 1) / 2 ∧
  ∀ i j (hi : i < n) (hj : j ≤ i), ∃ cl, r[i * (i + 1) / 2 + (i - j)]? = some cl ∧
    cl.length = k ∧ ∀ l < k, cl[l]? = some (some (m l ⟨i, hi⟩ ⟨j, by omega⟩))

/-- Specification of the number of multipoles of the result. -/
def IsLength (spectra : List (List ℝ)) (len : Option ℕ) (k : ℕ) : Prop :=
  (∀ m, len = some m → k = m) ∧
  (len = none → (∀ cl ∈ spectra, cl.length ≤ k) ∧ (k = 0 ∨ ∃ cl ∈ spectra, cl.length = k))

theorem isSpectraOf_of_order {r : List (List (Option ℝ))} {n k : ℕ} {a : NdArray (NanMatrix n)}
    (m : ℕ → Matrix (Fin n) (Fin n) ℝ) (hr : r.length = n * (n + 1) / 2)
    (ha : ∀ l < k, a.get [l] = some (m l))
    (h : ∀ i j, j ≤ i → i < n → ∃ cl, r[i * (i + 1) / 2 + (i - j)]? = some cl ∧
      cl.length = (stackEntries k a).k ∧
      ∀ l < (stackEntries k a).k, cl[l]? = some ((stackEntries k a).val l i j)) :
    IsSpectraOf r n k m := by
  refine ⟨hr, fun i j hi hj => ?_⟩
  obtain ⟨cl, h1, h2, h3⟩ := h i j hj hi
  refine ⟨cl, h1, h2, fun l hl => ?_⟩
  rw [h3 l hl]
  have hj' : j < n := by omega
  simp [stackEntries, ha l hl, hi, hj']

theorem mem_stack {k l : ℕ} : [l] ∈ indices [k] ↔ l < k := by
  simp [indices]

/-- **C89** Method `"clip"`: if at every multipole some auto-spectrum is not negative (and the
tolerance is not), the result is a complete set of spectra of the requested length whose matrix is
symmetric and positive semi-definite at every multipole. -/
theorem regularized_clip {eigh : ∀ n, Eigh n} (hl : ∀ n, EighLaw (eigh n)) (eps : ℝ)
    (spectra : List (List ℝ)) (n : ℕ) (hn : 0 < n) (h : spectra.length = n * (n + 1) / 2)
    (len : Option ℕ) (rtol : Option ℝ) (hr : 0 ≤ rtol.getD (n * eps))
    (hpos : ∀ l, (∀ m, len = some m → l < m) → ∃ i < n, 0 ≤ clValue spectra i i l) :
    ∃ r k m, regularized eigh eps spectra len (some (.clip rtol)) = .ok (r, false) ∧
      IsLength spectra len k ∧ IsSpectraOf r n k m ∧
      ∀ l < k, (∀ i j, m l i j = m l j i) ∧ PSD (m l) := by
  obtain ⟨cov, hcov, hcn, hk1, hk2, hval⟩ := cov_entries spectra n hn h len
  obtain ⟨cov', hcov', -, hord⟩ := regularized_order spectra n hn h len
    (fun c => covMethod eigh eps c (.clip rtol))
  rw [hcov] at hcov'
  cases hcov'
  subst hcn
  have hclip : ∀ l, ∃ x, l < cov.k → covClip (eigh cov.n) eps (covMatrix cov l) rtol =
      .ok (some x) ∧ (∀ i j, x i j = x j i) ∧ PSD x := by
    intro l
    by_cases hlk : l < cov.k
    · obtain ⟨i, hi, hii⟩ := hpos l (fun m hm => hk1 m hm ▸ hlk)
      rw [covMatrix_eq hval hlk]
      obtain ⟨x, hx⟩ := clip_psd_partial (hl cov.n) eps (spectraMatrix spectra cov.n l) rtol hr
        (Pi.single ⟨i, hi⟩ 1) (by rw [single_norm]; norm_num) (by
          rw [symLower_of_symm (spectraMatrix_symm _ _ _), quad_single]
          exact hii)
      exact ⟨x, fun _ => hx⟩
    · exact ⟨0, fun h => absurd h hlk⟩
  choose m hm using hclip
  obtain ⟨r, hr1, hr2, hr3⟩ := hord _ false (by
    unfold covMethod
    dsimp only
    rw [if_neg (by omega)]) rfl
  refine ⟨r, cov.k, m, hr1, ⟨hk1, hk2⟩, ?_, fun l hlk => (hm l hlk).2⟩
  refine isSpectraOf_of_order m (hr2.trans h) ?_ hr3
  intro l hlk
  simp only [NdArray.map, covStack]
  rw [(hm l hlk).1]
  rfl

/-- **C89** Method `"clip"` returns spectra unchanged (zero padded or truncated) if their matrix is
positive definite with eigenvalues whose ratio is not below the tolerance. -/
theorem regularized_clip_fixed {eigh : ∀ n, Eigh n} (hl : ∀ n, EighLaw (eigh n)) (eps : ℝ)
    (spectra : List (List ℝ)) (n : ℕ) (hn : 0 < n) (h : spectra.length = n * (n + 1) / 2)
    (len : Option ℕ) (rtol : Option ℝ) (hr : 0 ≤ rtol.getD (n * eps))
    (hpos : ∀ l, (∀ m, len = some m → l < m) → ∃ lo hi, 0 ≤ lo ∧ rtol.getD (n * eps) * hi ≤ lo ∧
      ∀ v, lo * ∑ i, v i ^ 2 ≤ quad (spectraMatrix spectra n l) v ∧
        quad (spectraMatrix spectra n l) v ≤ hi * ∑ i, v i ^ 2) :
    ∃ r k, regularized eigh eps spectra len (some (.clip rtol)) = .ok (r, false) ∧
      IsLength spectra len k ∧ IsSpectraOf r n k (spectraMatrix spectra n) := by
  obtain ⟨cov, hcov, hcn, hk1, hk2, hval⟩ := cov_entries spectra n hn h len
  obtain ⟨cov', hcov', -, hord⟩ := regularized_order spectra n hn h len
    (fun c => covMethod eigh eps c (.clip rtol))
  rw [hcov] at hcov'
  cases hcov'
  subst hcn
  obtain ⟨r, hr1, hr2, hr3⟩ := hord _ false (by
    unfold covMethod
    dsimp only
    rw [if_neg (by omega)]) rfl
  refine ⟨r, cov.k, hr1, ⟨hk1, hk2⟩, ?_⟩
  refine isSpectraOf_of_order _ (hr2.trans h) ?_ hr3
  intro l hlk
  simp only [NdArray.map, covStack]
  obtain ⟨lo, hi, h1, h2, h3⟩ := hpos l (fun m hm => hk1 m hm ▸ hlk)
  rw [covMatrix_eq hval hlk, clip_identity (hl cov.n) eps _ (spectraMatrix_symm _ _ _) rtol hr hn lo
    hi h1 h2 (fun v => (h3 v).1) (fun v => (h3 v).2)]
  rfl

/-- A symmetric matrix with unit diagonal near a positive semi-definite one is positive
semi-definite up to the tolerance. -/
theorem unit_near_psd {n : ℕ} (y x : Matrix (Fin n) (Fin n) ℝ) (hs : ∀ i j, y i j = y j i)
    (hd : ∀ i, y i i = 1) (hx : PSD x) (t : ℝ) (ht : 0 ≤ t) (htn : n * t ≤ 1 / 2)
    (h : frob (y - x) ≤ t * frob y) (u : Fin n → ℝ) :
    -(2 * n * t) * ∑ i, u i ^ 2 ≤ quad y u := by
  have hq : ∀ u : Fin n → ℝ, -(t * frob y) * ∑ i, u i ^ 2 ≤ quad y u := by
    intro u
    have h1 := frob_bound (y - x) u
    rw [quad_sub, abs_le] at h1
    have h2 : 0 ≤ ∑ i, u i ^ 2 := Finset.sum_nonneg fun i _ => sq_nonneg _
    have h3 := hx u
    nlinarith [mul_le_mul_of_nonneg_right h h2]
  have hF : 0 ≤ frob y := Real.sqrt_nonneg _
  have hpn : ∀ (i j : Fin n) (s : ℝ), s ^ 2 = 1 → i ≠ j →
      ∑ k, (Pi.single i 1 + Pi.single j s : Fin n → ℝ) k ^ 2 = 2 := by
    intro i j s hs hij
    have := quad_pair (1 : Matrix (Fin n) (Fin n) ℝ) i j 1 s
    rw [Matrix.one_apply_eq, Matrix.one_apply_eq, Matrix.one_apply_ne hij,
      Matrix.one_apply_ne hij.symm] at this
    have e : quad (1 : Matrix (Fin n) (Fin n) ℝ) (Pi.single i 1 + Pi.single j s) =
        ∑ k, (Pi.single i 1 + Pi.single j s : Fin n → ℝ) k ^ 2 := by
      unfold quad
      apply Finset.sum_congr rfl
      intro k _
      rw [Finset.sum_eq_single k]
      · rw [Matrix.one_apply_eq]; ring
      · intro m _ hm; rw [Matrix.one_apply_ne hm.symm]; ring
      · simp
    rw [← e, this]
    linarith
  have hent : ∀ i j, |y i j| ≤ 1 + t * frob y := by
    intro i j
    by_cases hij : i = j
    · subst hij
      rw [hd, abs_one]
      nlinarith [mul_nonneg ht hF]
    · have h1 := hq (Pi.single i 1 + Pi.single j 1)
      have h2 := hq (Pi.single i 1 + Pi.single j (-1))
      rw [quad_pair, hpn i j _ (by norm_num) hij, hd, hd, hs j i] at h1 h2
      rw [abs_le]
      constructor <;> linarith
  have hFn : frob y ≤ n * (1 + t * frob y) := by
    have hb : 0 ≤ 1 + t * frob y := by nlinarith [mul_nonneg ht hF]
    rw [← Real.sqrt_sq (mul_nonneg (Nat.cast_nonneg n) hb)]
    apply Real.sqrt_le_sqrt
    have : ∀ i j, y i j ^ 2 ≤ (1 + t * frob y) ^ 2 := fun i j => by
      rw [← sq_abs]; exact pow_le_pow_left₀ (abs_nonneg _) (hent i j) 2
    calc ∑ i, ∑ j, y i j ^ 2 ≤ ∑ _i : Fin n, ∑ _j : Fin n, (1 + t * frob y) ^ 2 :=
          Finset.sum_le_sum fun i _ => Finset.sum_le_sum fun j _ => this i j
      _ = (n * (1 + t * frob y)) ^ 2 := by simp; ring
  have hF2 : frob y ≤ 2 * n := by nlinarith
  have h2 : 0 ≤ ∑ i, u i ^ 2 := Finset.sum_nonneg fun i _ => sq_nonneg _
  have := hq u
  have h3 : t * frob y ≤ 2 * n * t := by nlinarith
  nlinarith [mul_le_mul_of_nonneg_right h3 h2]

/-- The form of a rescaled matrix. -/
theorem quad_scaled {n : ℕ} (r y : Matrix (Fin n) (Fin n) ℝ) (d : Fin n → ℝ)
    (h : ∀ i j, r i j = d i * y i j * d j) (u : Fin n → ℝ) :
    quad r u = quad y fun i => d i * u i := by
  unfold quad
  apply Finset.sum_congr rfl; intro i _
  apply Finset.sum_congr rfl; intro j _
  rw [h]; ring

/-- `cov_nearest` for a stack of matrices: diagonals are kept, the result is symmetric, and without
a warning positive semi-definite up to the tolerance. -/
theorem cov_nearest_near_psd {n : ℕ} {eigh : Eigh n} (hl : EighLaw eigh) (eps : ℝ) (h0 : 0 ≤ eps)
    (h1 : n * eps ≤ 1) (hn : 0 < n) (cov : NdArray (Matrix (Fin n) (Fin n) ℝ))
    (hd : cov.shape.length ≤ 1) (hpos : ∀ idx ∈ indices cov.shape, ∀ i, 0 ≤ cov.get idx i i)
    (tol : Option ℝ) (niter : ℕ) (hi : 0 < niter) :
    ∃ res warn, covNearest eigh eps cov tol niter = .ok (res, warn) ∧
      ∀ idx ∈ indices cov.shape, ∃ R, res.get idx = some R ∧
        (∀ i, R i i = cov.get idx i i) ∧ (∀ i j, R i j = R j i) ∧
        (warn = false → 0 ≤ tol.getD (n * eps) → n * tol.getD (n * eps) ≤ 1 / 2 → ∀ u,
          -(2 * n * tol.getD (n * eps)) * ∑ i, cov.get idx i i * u i ^ 2 ≤ quad R u) := by
  obtain ⟨res, warn, h, -, hres⟩ := cov_nearest_diagonal hl eps h0 h1 hn cov hd hpos tol niter
  refine ⟨res, warn, h, fun idx hidx => ?_⟩
  obtain ⟨R, hR, hdiag⟩ := hres idx hidx
  obtain ⟨corr, y, hy, hcs, hcorr, hback⟩ := cov_nearest_scaling eigh eps cov tol niter res warn h
  obtain ⟨y', warn', hy', -, hst⟩ := nearcorr_stack hl eps h0 h1 hn corr (by rw [hcs]; exact hd) (by
    intro idx' hidx'
    rw [hcs] at hidx'
    apply good_of_diag _ ⟨0, hn⟩
    have := hcorr idx' hidx' ⟨0, hn⟩ ⟨0, hn⟩
    have hc := hpos idx' hidx' ⟨0, hn⟩
    split_ifs at this with hp
    · have h3 := Real.sqrt_pos.2 hp.1
      by_contra hneg
      nlinarith [mul_pos h3 h3, not_le.1 hneg]
    · linarith) tol niter
  rw [hy] at hy'
  simp only [Except.ok.injEq, Prod.mk.injEq] at hy'
  obtain ⟨rfl, rfl⟩ := hy'
  obtain ⟨Y, hY, -, hYp⟩ := hst idx (by rw [hcs]; exact hidx)
  obtain ⟨hY1, hY2, hY3⟩ := hYp hi
  obtain ⟨Y', hYY, hRY⟩ := hback idx hidx R hR
  rw [hY] at hYY
  cases hYY
  refine ⟨R, hR, hdiag, fun i j => ?_, fun hw ht htn u => ?_⟩
  · rw [hRY, hRY, hY2 j i]; ring
  · obtain ⟨X, hX, hXf⟩ := hY3 hw
    have := unit_near_psd Y X hY2 hY1 hX _ ht htn hXf fun i => Real.sqrt (cov.get idx i i) * u i
    rw [quad_scaled R Y (fun i => Real.sqrt (cov.get idx i i)) hRY]
    refine le_trans (le_of_eq ?_) this
    congr 1
    apply Finset.sum_congr rfl
    intro i _
    rw [mul_pow, Real.sq_sqrt (hpos idx hidx i)]

/-- **C89** Method `"nearest"`: if no auto-spectrum is negative, the result is a complete set of
spectra of the requested length with unchanged auto-spectra; if there is no warning, the matrix is
positive semi-definite at every multipole up to `2 n tol` times the auto-spectra. -/
theorem regularized_nearest {eigh : ∀ n, Eigh n} (hl : ∀ n, EighLaw (eigh n)) (eps : ℝ)
    (h0 : 0 ≤ eps) (spectra : List (List ℝ)) (n : ℕ) (hn : 0 < n) (h1 : n * eps ≤ 1)
    (h : spectra.length = n * (n + 1) / 2) (len : Option ℕ) (tol : Option ℝ) (niter : ℕ)
    (hi : 0 < niter)
    (hpos : ∀ l, (∀ m, len = some m → l < m) → ∀ i < n, 0 ≤ clValue spectra i i l) :
    ∃ r warn k m, regularized eigh eps spectra len (some (.nearest tol niter)) = .ok (r, warn) ∧
      IsLength spectra len k ∧ IsSpectraOf r n k m ∧
      ∀ l < k, (∀ i : Fin n, m l i i = clValue spectra i i l) ∧ (∀ i j, m l i j = m l j i) ∧
        (warn = false → 0 ≤ tol.getD (n * eps) → n * tol.getD (n * eps) ≤ 1 / 2 → ∀ u,
          -(2 * n * tol.getD (n * eps)) * ∑ i : Fin n, clValue spectra i i l * u i ^ 2 ≤
            quad (m l) u) := by
  obtain ⟨cov, hcov, hcn, hk1, hk2, hval⟩ := cov_entries spectra n hn h len
  obtain ⟨cov', hcov', -, hord⟩ := regularized_order spectra n hn h len
    (fun c => covMethod eigh eps c (.nearest tol niter))
  rw [hcov] at hcov'
  cases hcov'
  subst hcn
  have hst : ∀ l < cov.k, (covStack cov).get [l] = spectraMatrix spectra cov.n l := fun l hlk =>
    covMatrix_eq hval hlk
  obtain ⟨res, warn, hres, hall⟩ := cov_nearest_near_psd (hl cov.n) eps h0 h1 hn (covStack cov)
    (by simp [covStack]) (by
      intro idx hidx i
      have : ∃ l < cov.k, idx = [l] := by
        simp only [covStack, indices, List.mem_flatMap, List.mem_range, List.map_cons, List.map_nil,
          List.mem_singleton] at hidx
        exact hidx
      obtain ⟨l, hlk, rfl⟩ := this
      rw [hst l hlk]
      exact hpos l (fun m hm => hk1 m hm ▸ hlk) i i.2) tol niter hi
  obtain ⟨r, hr1, hr2, hr3⟩ := hord (stackEntries cov.k res) warn (by
    unfold covMethod
    dsimp only
    rw [hres]) rfl
  have hm : ∀ l, ∃ R, l < cov.k → _ := fun l => by
    by_cases hlk : l < cov.k
    · obtain ⟨R, hR⟩ := hall [l] (mem_stack.2 hlk)
      exact ⟨R, fun _ => hR⟩
    · exact ⟨0, fun h => absurd h hlk⟩
  choose m hm using hm
  refine ⟨r, warn, cov.k, m, hr1, ⟨hk1, hk2⟩, isSpectraOf_of_order m (hr2.trans h)
    (fun l hlk => (hm l hlk).1) hr3, fun l hlk => ?_⟩
  have := (hm l hlk).2
  rw [hst l hlk] at this
  exact this

/-- **C89** Method `"nearest"` raises `ValueError` for a negative auto-spectrum. -/
theorem regularized_nearest_negative (eigh : ∀ n, Eigh n) (eps : ℝ) (spectra : List (List ℝ))
    (n : ℕ) (hn : 0 < n) (h : spectra.length = n * (n + 1) / 2) (len : Option ℕ) (tol : Option ℝ)
    (niter : ℕ) (l i : ℕ) (hi : i < n) (hl : ∀ m, len = some m → l < m)
    (hneg : clValue spectra i i l < 0) :
    ∃ msg, regularized eigh eps spectra len (some (.nearest tol niter)) = .error (.value msg) := by
  obtain ⟨cov, hcov, hcn, hk1, hk2, hval⟩ := cov_entries spectra n hn h len
  subst hcn
  have hlk : l < cov.k := by
    cases len with
    | some m => rw [hk1 m rfl]; exact hl m rfl
    | none =>
      by_contra hc
      have := congrFun (congrFun (spectraMatrix_zero (hk2 rfl).1 cov.n l (not_lt.1 hc)) ⟨i, hi⟩)
        ⟨i, hi⟩
      simp only [spectraMatrix, Matrix.of_apply, Matrix.zero_apply] at this
      linarith
  have := cov_nearest_negative (eigh cov.n) eps (covStack cov) tol niter [l] (mem_stack.2 hlk)
    ⟨i, hi⟩ (by
      change covMatrix cov l _ _ < 0
      rw [covMatrix_eq hval hlk]
      exact hneg)
  refine ⟨"negative values on the diagonal", ?_⟩
  unfold regularized regularizedSpectra
  simp only [Option.map_some, hcov, covMethod, this]

/-- A matrix with unit diagonal and a non-negative form is bounded by its size. -/
theorem unit_psd_bound {n : ℕ} (a : Matrix (Fin n) (Fin n) ℝ) (hs : ∀ i j, a i j = a j i)
    (hd : ∀ i, a i i = 1) (hp : PSD a) (v : Fin n → ℝ) : quad a v ≤ n * ∑ i, v i ^ 2 := by
  have hent : ∀ i j, |a i j| ≤ 1 := by
    intro i j
    have h1 := hp (Pi.single i 1 + Pi.single j 1)
    have h2 := hp (Pi.single i 1 + Pi.single j (-1))
    rw [quad_pair, hd, hd, hs j i] at h1 h2
    rw [abs_le]
    constructor <;> linarith
  have h1 : quad a v ≤ ∑ i, ∑ j, |v i| * |v j| := by
    unfold quad
    refine Finset.sum_le_sum fun i _ => Finset.sum_le_sum fun j _ => ?_
    refine (le_abs_self _).trans ?_
    rw [abs_mul, abs_mul]
    have : |v i| * |a i j| ≤ |v i| * 1 := mul_le_mul_of_nonneg_left (hent i j) (abs_nonneg _)
    calc |v i| * |a i j| * |v j| ≤ |v i| * 1 * |v j| :=
          mul_le_mul_of_nonneg_right this (abs_nonneg _)
      _ = _ := by ring
  have h2 : ∑ i, ∑ j, |v i| * |v j| = (∑ i, |v i|) ^ 2 := by
    rw [sq, Finset.sum_mul_sum]
  have h3 := sq_sum_le_card_mul_sum_sq (s := (Finset.univ : Finset (Fin n))) (f := fun i => |v i|)
  simp only [Finset.card_univ, Fintype.card_fin, sq_abs] at h3
  linarith

/-- **C89** Method `"nearest"` returns spectra unchanged (zero padded or truncated), without
warning, if their matrix is positive definite by more than `n² eps` times the auto-spectra. -/
theorem regularized_nearest_fixed {eigh : ∀ n, Eigh n} (hl : ∀ n, EighLaw (eigh n)) (eps : ℝ)
    (h0 : 0 ≤ eps) (spectra : List (List ℝ)) (n : ℕ) (hn : 0 < n) (h1 : n * eps ≤ 1)
    (h : spectra.length = n * (n + 1) / 2) (len : Option ℕ) (tol : Option ℝ)
    (htol : 0 ≤ tol.getD (n * eps)) (niter : ℕ) (hi : 0 < niter)
    (hpos : ∀ l, (∀ m, len = some m → l < m) → (∀ i < n, 0 < clValue spectra i i l) ∧
      ∀ u : Fin n → ℝ, n ^ 2 * eps * ∑ i : Fin n, clValue spectra i i l * u i ^ 2 ≤
        quad (spectraMatrix spectra n l) u) :
    ∃ r k, regularized eigh eps spectra len (some (.nearest tol niter)) = .ok (r, false) ∧
      IsLength spectra len k ∧ IsSpectraOf r n k (spectraMatrix spectra n) := by
  obtain ⟨cov, hcov, hcn, hk1, hk2, hval⟩ := cov_entries spectra n hn h len
  obtain ⟨cov', hcov', -, hord⟩ := regularized_order spectra n hn h len
    (fun c => covMethod eigh eps c (.nearest tol niter))
  rw [hcov] at hcov'
  cases hcov'
  subst hcn
  have hst : ∀ l < cov.k, (covStack cov).get [l] = spectraMatrix spectra cov.n l := fun l hlk =>
    covMatrix_eq hval hlk
  have hp : ∀ l < cov.k, (∀ i < cov.n, 0 < clValue spectra i i l) ∧
      ∀ u : Fin cov.n → ℝ, cov.n ^ 2 * eps * ∑ i : Fin cov.n, clValue spectra i i l * u i ^ 2 ≤
        quad (spectraMatrix spectra cov.n l) u := fun l hlk =>
    hpos l (fun m hm => hk1 m hm ▸ hlk)
  have hidx : ∀ idx ∈ indices (covStack cov).shape, ∃ l < cov.k, idx = [l] := by
    intro idx hidx
    simp only [covStack, indices, List.mem_flatMap, List.mem_range, List.map_cons, List.map_nil,
      List.mem_singleton] at hidx
    exact hidx
  obtain ⟨res, warn, hres, -, hdiag⟩ := cov_nearest_diagonal (hl cov.n) eps h0 h1 hn (covStack cov)
    (by simp [covStack]) (by
      intro idx hi' i
      obtain ⟨l, hlk, rfl⟩ := hidx idx hi'
      rw [hst l hlk]
      exact ((hp l hlk).1 i i.2).le) tol niter
  obtain ⟨corr, y, hy, hcs, hcorr, hback⟩ :=
    cov_nearest_scaling (eigh cov.n) eps (covStack cov) tol niter res warn hres
  have hsc : ∀ l < cov.k, ∀ i j : Fin cov.n, clValue spectra i j l =
      Real.sqrt (clValue spectra i i l) * corr.get [l] i j * Real.sqrt (clValue spectra j j l) := by
    intro l hlk i j
    have := hcorr [l] (mem_stack.2 hlk) i j
    split_ifs at this with hc
    · rw [hst l hlk] at this
      simp only [spectraMatrix, Matrix.of_apply] at this
      linarith
    · rw [hst l hlk] at hc
      exact absurd ⟨(hp l hlk).1 i i.2, (hp l hlk).1 j j.2⟩ hc
  have hpos' : ∀ l < cov.k, ∀ i : Fin cov.n, 0 < Real.sqrt (clValue spectra i i l) :=
    fun l hlk i => Real.sqrt_pos.2 ((hp l hlk).1 i i.2)
  have hcd : ∀ l < cov.k, ∀ i, corr.get [l] i i = 1 := by
    intro l hlk i
    have e := hsc l hlk i i
    have hs := hpos' l hlk i
    have hq := Real.mul_self_sqrt ((hp l hlk).1 i i.2).le
    have : Real.sqrt (clValue spectra i i l) * Real.sqrt (clValue spectra i i l) *
        (corr.get [l] i i - 1) = 0 := by rw [mul_sub]; linarith
    rcases mul_eq_zero.1 this with h | h
    · exact absurd h (mul_pos hs hs).ne'
    · linarith
  have hcsym : ∀ l < cov.k, ∀ i j, corr.get [l] i j = corr.get [l] j i := by
    intro l hlk i j
    have e := hsc l hlk i j
    have e' := hsc l hlk j i
    rw [clValue_symm] at e
    have hs := mul_pos (hpos' l hlk i) (hpos' l hlk j)
    have : Real.sqrt (clValue spectra i i l) * Real.sqrt (clValue spectra j j l) *
        (corr.get [l] i j - corr.get [l] j i) = 0 := by rw [mul_sub]; linarith
    rcases mul_eq_zero.1 this with h | h
    · exact absurd h hs.ne'
    · linarith
  have hq : ∀ l < cov.k, ∀ v : Fin cov.n → ℝ,
      cov.n ^ 2 * eps * ∑ i, v i ^ 2 ≤ quad (corr.get [l]) v := by
    intro l hlk v
    have h2 := (hp l hlk).2 fun i => v i / Real.sqrt (clValue spectra i i l)
    rw [quad_scaled (spectraMatrix spectra cov.n l) (corr.get [l]) (fun i : Fin cov.n => Real.sqrt (clValue spectra i i l))
      (hsc l hlk)] at h2
    have e : (fun i : Fin cov.n => Real.sqrt (clValue spectra i i l) *
        (v i / Real.sqrt (clValue spectra i i l))) = v := by
      funext i
      exact mul_div_cancel₀ _ (hpos' l hlk i).ne'
    rw [e] at h2
    refine le_trans (le_of_eq ?_) h2
    congr 1
    apply Finset.sum_congr rfl
    intro i _
    rw [div_pow, Real.sq_sqrt ((hp l hlk).1 i i.2).le, mul_div_cancel₀ _ ((hp l hlk).1 i i.2).ne']
  obtain ⟨y', warn', hy', -, hw, hfix⟩ := nearcorr_fixed (hl cov.n) eps h0 hn corr
    (by rw [hcs]; simp [covStack]) (by
      intro idx hi'
      rw [hcs] at hi'
      obtain ⟨l, hlk, rfl⟩ := hidx idx hi'
      refine ⟨hcsym l hlk, hcd l hlk, cov.n ^ 2 * eps, cov.n, by positivity, le_of_eq (by ring),
        hq l hlk, ?_⟩
      refine unit_psd_bound _ (hcsym l hlk) (hcd l hlk) fun v => ?_
      refine le_trans ?_ (hq l hlk v)
      exact mul_nonneg (by positivity) (Finset.sum_nonneg fun i _ => sq_nonneg _)) tol htol niter
  rw [hy] at hy'
  simp only [Except.ok.injEq, Prod.mk.injEq] at hy'
  obtain ⟨rfl, rfl⟩ := hy'
  obtain rfl := hw hi
  obtain ⟨r, hr1, hr2, hr3⟩ := hord (stackEntries cov.k res) false (by
    unfold covMethod
    dsimp only
    rw [hres]) rfl
  refine ⟨r, cov.k, hr1, ⟨hk1, hk2⟩, isSpectraOf_of_order _ (hr2.trans h) (fun l hlk => ?_) hr3⟩
  obtain ⟨R, hR, -⟩ := hdiag [l] (mem_stack.2 hlk)
  obtain ⟨Y, hY, hRY⟩ := hback [l] (mem_stack.2 hlk) R hR
  rw [hfix [l] (by rw [hcs]; exact mem_stack.2 hlk)] at hY
  rw [hR]
  congr 1
  ext i j
  rw [hRY, ← Option.some.inj hY, hst l hlk]
  simp only [spectraMatrix, Matrix.of_apply]
  exact (hsc l hlk i j).symm

/-- **C89** The methods are `"clip"` and `"nearest"`; the default is `"nearest"` with at most 100
iterations; any other name raises `ValueError`, whatever the spectra. -/
theorem regularized_methods (eigh : ∀ n, Eigh n) (eps : ℝ) (rtol tol : Option ℝ)
    (niter : Option ℕ) :
    methodNamed rtol tol niter (some "clip") = some (.clip rtol) ∧
    methodNamed rtol tol niter none = methodNamed rtol tol niter (some "nearest") ∧
    methodNamed rtol none none none = some (.nearest none 100) ∧
    (∀ k, methodNamed rtol tol (some k) none = some (.nearest tol k)) ∧
    ∀ name, name ≠ "clip" → name ≠ "nearest" → ∀ spectra len, ∃ msg,
      regularized eigh eps spectra len (methodNamed rtol tol niter (some name)) =
        .error (.value msg) := by
  refine ⟨rfl, by simp [methodNamed], rfl, fun k => rfl, fun name h1 h2 spectra len => ?_⟩
  simp [methodNamed, h1, h2, regularized, regularizedSpectra]

/-- A case for C89: the hypotheses of the fixed point, with the machine precision of double
floats. -/
example : ∀ l, (∀ m, some 1 = some m → l < m) →
    (∀ i < 2, 0 < clValue [[(4 : ℝ), 7], [1], [1]] i i l) ∧
    ∀ u : Fin 2 → ℝ, (2 : ℕ) ^ 2 * (2 : ℝ)⁻¹ ^ 52 *
      ∑ i : Fin 2, clValue [[(4 : ℝ), 7], [1], [1]] i i l * u i ^ 2 ≤
        quad (spectraMatrix [[(4 : ℝ), 7], [1], [1]] 2 l) u := by
  intro l hl
  obtain rfl : l = 0 := by have := hl 1 rfl; omega
  constructor
  · intro i hi
    interval_cases i <;> norm_num [clValue]
  · intro u
    unfold quad spectraMatrix
    simp only [Fin.sum_univ_two, Matrix.of_apply, clValue]
    norm_num
    nlinarith [sq_nonneg (u 0 + u 1), sq_nonneg (u 0), sq_nonneg (u 1)]

/-! ## C90: missing spectra -/

/-- **C90** is **false**: `None` for a missing spectrum raises `AttributeError`. -/
theorem missing_none_raises {K : Type*} [Zero K] (cls : List K) (len : Option ℕ) :
    covFromOptional [some cls, some cls, none] len = .error .attribute := by
  have h := nfields_tri [some cls, some cls, none] 2 rfl
  simp [covFromOptional, h, allGiven, List.reduceOption]

/-- **C90** in general: a complete set of spectra, of which one at least is given and one at least is
`None`, raises `AttributeError`. -/
theorem missing_none {K : Type*} [Zero K] (spectra : List (Option (List K))) (n : ℕ)
    (h : spectra.length = n * (n + 1) / 2) (len : Option ℕ) (h1 : none ∈ spectra)
    (h2 : ∃ cl, some cl ∈ spectra) : covFromOptional spectra len = .error .attribute := by
  have hg : allGiven spectra = .error .attribute := by
    clear h h2
    induction spectra with
    | nil => simp at h1
    | cons a s ih =>
      cases a with
      | none => rfl
      | some a =>
        simp only [List.mem_cons, reduceCtorEq, false_or] at h1
        simp [allGiven, ih h1]
  have hne : spectra.reduceOption ≠ [] := by
    obtain ⟨cl, hcl⟩ := h2
    intro he
    have : cl ∈ spectra.reduceOption := List.mem_filterMap.2 ⟨some cl, hcl, rfl⟩
    rw [he] at this
    simp at this
  unfold covFromOptional
  rw [if_neg hne, nfields_tri spectra n h, hg]

/-- **C90.** If nothing but `None` is given, the error is `TypeError`, whatever the number. -/
theorem missing_all {K : Type*} [Zero K] (m : ℕ) (len : Option ℕ) :
    ∃ r, covFromOptional (K := K) (List.replicate m none) len = .error (.type r) := by
  refine ⟨_, if_pos ?_⟩
  induction m with
  | zero => rfl
  | succ m ih => simpa [List.replicate_succ, List.reduceOption] using ih

/-- **C90** for empty arrays instead: if all spectra are given, the result is that of
`cov_from_spectra`, where by C10 empty spectra count as zeros. -/
theorem missing_empty_partial {K : Type*} [Zero K] (spectra : List (List K)) (n : ℕ) (hn : 0 < n)
    (h : spectra.length = n * (n + 1) / 2) (len : Option ℕ) :
    ∃ cov, covFromOptional (spectra.map some) len = .ok cov ∧ cov.n = n ∧
      (∀ m, len = some m → cov.k = m) ∧
      ∀ l i j : ℕ, l < cov.k → i < n → j < n → cov.val l i j = clValue spectra i j l := by
  obtain ⟨cov, hcov, hcn, hk, -, hval⟩ := cov_entries spectra n hn h len
  refine ⟨cov, ?_, hcn, hk, fun l i j hl hi hj => (hval l i j hl hi hj).1⟩
  have hg : ∀ s : List (List K), allGiven (s.map some) = .ok s := by
    intro s
    induction s with
    | nil => rfl
    | cons a s ih => simp [allGiven, ih]
  have hne : (spectra.map some).reduceOption ≠ [] := by
    have e : (spectra.map some).reduceOption = spectra := by
      simp [List.reduceOption, List.filterMap_map]
    rw [e]
    rintro rfl
    rw [(cov_rejects len).2] at hcov
    cases hcov
  unfold covFromOptional
  rw [if_neg hne, nfields_tri (spectra.map some) n (by rw [List.length_map]; exact h), hg]
  exact hcov

example : ∃ cov, covFromOptional [some [1], some [2], some ([] : List ℝ)] (some 3) = .ok cov ∧
    cov.val 0 0 1 = 0 ∧ cov.val 0 1 1 = 2 := by
  obtain ⟨cov, h, -, hk, hval⟩ := missing_empty_partial [[1], [2], ([] : List ℝ)] 2 (by norm_num) rfl
    (some 3)
  have h1 := hval 0 0 1 (by rw [hk 3 rfl]; norm_num) (by norm_num) (by norm_num)
  have h2 := hval 0 1 1 (by rw [hk 3 rfl]; norm_num) (by norm_num) (by norm_num)
  refine ⟨cov, h, ?_, ?_⟩
  · simpa [clValue] using h1
  · simpa [clValue] using h2

end Glass.Spectra
