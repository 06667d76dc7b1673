import Verif.Lensing.ShearEndToEnd

/-!
# Property C148: correlation functions of shear maps

The shear maps of `from_convergence` have the correlation functions of the spectra of the shear.
-/

namespace Glass.Lensing

open Finset MeasureTheory ProbabilityTheory Glass.Spectra Glass.Shells Glass.Grf

/-! ## Specification -/

/-- A spin-2 field with modes `a` and without B modes: `W l m` are the spin-weighted harmonics, where
modes with negative `m` are `(-1)^m` times the conjugates of those with positive `m`. -/
noncomputable def spinField {S : Type} (W : ℕ → ℤ → S → ℂ) (L : ℕ) (a : Alm) (x : S) : ℂ :=
  ∑ l ∈ range (L + 1), (((a l 0).re : ℂ) * W l 0 x + ∑ m ∈ range l,
    (a l (m + 1) * W l (m + 1) x + (-1) ^ (m + 1) * (starRingEnd ℂ) (a l (m + 1)) * W l (-(m + 1)) x))

/-- `alm2map_spin` synthesises the field. -/
def IsSpinSynthesis {S : Type} (W : ℕ → ℤ → S → ℂ) (hp : Healpix (S → ℝ)) (nside L : ℕ) : Prop :=
  ∀ a x, (⟨(hp.alm2mapSpin a (fun _ _ => 0) nside 2 L).1 x,
    (hp.alm2mapSpin a (fun _ _ => 0) nside 2 L).2 x⟩ : ℂ) = spinField W L a x

/-- The correlation function `ξ₊` of a spin-2 field with a spectrum of E modes. -/
noncomputable def xiPlus {S : Type} (W : ℕ → ℤ → S → ℂ) (L : ℕ) (cl : ℕ → ℝ) (x x' : S) : ℂ :=
  ∑ l ∈ range (L + 1), (cl l : ℂ) * ∑ m ∈ Icc (-(l : ℤ)) l, W l m x * (starRingEnd ℂ) (W l m x')

/-- The correlation function `ξ₋` of a spin-2 field with a spectrum of E modes. -/
noncomputable def xiMinus {S : Type} (W : ℕ → ℤ → S → ℂ) (L : ℕ) (cl : ℕ → ℝ) (x x' : S) : ℂ :=
  ∑ l ∈ range (L + 1), (cl l : ℂ) *
    ∑ m ∈ Icc (-(l : ℤ)) l, (-1) ^ m.natAbs * (W l m x * W l (-m) x')

/-! ## Sums -/

theorem sum_symmetric (F : ℤ → ℂ) (l : ℕ) :
    ∑ m ∈ Icc (-(l : ℤ)) l, F m = F 0 + ∑ m ∈ range l, (F (m + 1) + F (-(m + 1))) := by
  induction l with
  | zero => simp
  | succ l ih =>
    rw [sum_range_succ, ← add_assoc, ← ih]
    have h1 : Icc (-((l + 1 : ℕ) : ℤ)) ((l + 1 : ℕ) : ℤ) =
        insert ((l : ℤ) + 1) (insert (-((l : ℤ) + 1)) (Icc (-(l : ℤ)) l)) := by
      ext m
      simp only [mem_Icc, mem_insert]
      push_cast
      omega
    rw [h1, sum_insert, sum_insert]
    · ring
    · simp only [mem_Icc]; omega
    · simp only [mem_Icc, mem_insert]; omega

variable {Ω : Type*} [MeasurableSpace Ω] {μ : Measure Ω}

/-- Means of products of linear functionals of two random maps with the correlation function of a
spectrum. -/
theorem functional_products {S : Type} {B : ℕ} {Y : ℕ → ℕ → S → ℂ} {P : ℕ → S → S → ℝ}
    (hY : Harmonics B Y P) {pix : Finset S} (cl : List ℝ) (hcl : cl.length ≤ B)
    {K K' : Ω → S → ℝ} (hK : ∀ p ∈ pix, ∀ p' ∈ pix,
      HasMean μ (fun ω => K ω p * K' ω p') (correlation P cl p p')) (α β : S → ℂ) :
    Integrable (fun ω => (∑ p ∈ pix, α p * (K ω p : ℂ)) * ∑ p ∈ pix, β p * (K' ω p : ℂ)) μ ∧
    ∫ ω, (∑ p ∈ pix, α p * (K ω p : ℂ)) * ∑ p ∈ pix, β p * (K' ω p : ℂ) ∂μ =
      ∑ j ∈ range cl.length, ((cl[j]?.getD 0 : ℝ) : ℂ) *
        ((∑ p ∈ pix, α p * ((Y j 0 p).re : ℂ)) * (∑ p ∈ pix, β p * ((Y j 0 p).re : ℂ)) +
        2 * ∑ n ∈ range j,
          ((∑ p ∈ pix, α p * ((Y j (n + 1) p).re : ℂ)) * (∑ p ∈ pix, β p * ((Y j (n + 1) p).re : ℂ)) +
          (∑ p ∈ pix, α p * ((Y j (n + 1) p).im : ℂ)) *
            (∑ p ∈ pix, β p * ((Y j (n + 1) p).im : ℂ)))) := by
  have e1 : (fun ω => (∑ p ∈ pix, α p * (K ω p : ℂ)) * ∑ p ∈ pix, β p * (K' ω p : ℂ)) =
      fun ω => ∑ p ∈ pix, ∑ p' ∈ pix, α p * β p' * ((K ω p * K' ω p' : ℝ) : ℂ) := by
    funext ω
    rw [sum_mul_sum]
    refine sum_congr rfl fun p _ => sum_congr rfl fun p' _ => ?_
    push_cast
    ring
  have hint : ∀ p ∈ pix, ∀ p' ∈ pix,
      Integrable (fun ω => α p * β p' * ((K ω p * K' ω p' : ℝ) : ℂ)) μ :=
    fun p hp p' hp' => ((hK p hp p' hp').1.ofReal).const_mul _
  rw [e1]
  refine ⟨integrable_finsetSum _ fun p hp => integrable_finsetSum _ fun p' hp' => hint p hp p' hp', ?_⟩
  rw [integral_finsetSum _ fun p hp => integrable_finsetSum _ fun p' hp' => hint p hp p' hp']
  have e2 : ∀ p ∈ pix, ∫ ω, ∑ p' ∈ pix, α p * β p' * ((K ω p * K' ω p' : ℝ) : ℂ) ∂μ =
      ∑ p' ∈ pix, α p * β p' * ((correlation P cl p p' : ℝ) : ℂ) := by
    intro p hp
    rw [integral_finsetSum _ fun p' hp' => hint p hp p' hp']
    refine sum_congr rfl fun p' hp' => ?_
    rw [integral_const_mul, integral_complex_ofReal, (hK p hp p' hp').2]
  rw [sum_congr rfl e2]
  have e3 : ∀ p p', ((correlation P cl p p' : ℝ) : ℂ) = ∑ j ∈ range cl.length,
      ((cl[j]?.getD 0 : ℝ) : ℂ) * (((Y j 0 p).re : ℂ) * ((Y j 0 p').re : ℂ) +
        2 * ∑ n ∈ range j, (((Y j (n + 1) p).re : ℂ) * ((Y j (n + 1) p').re : ℂ) +
          ((Y j (n + 1) p).im : ℂ) * ((Y j (n + 1) p').im : ℂ))) := by
    intro p p'
    unfold correlation
    push_cast
    refine sum_congr rfl fun j hj => ?_
    have := hY.addition j (lt_of_lt_of_le (mem_range.1 hj) hcl) p p'
    have hc : (((Y j 0 p).re * (Y j 0 p').re + 2 * ∑ m ∈ range j, ((Y j (m + 1) p).re *
      (Y j (m + 1) p').re + (Y j (m + 1) p).im * (Y j (m + 1) p').im) : ℝ) : ℂ) =
      (((2 * j + 1) / (4 * Real.pi) * P j p p' : ℝ) : ℂ) := by rw [this]
    push_cast at hc
    rw [hc]
    ring
  have e5 : ∀ p ∈ pix, ∀ p' ∈ pix, α p * β p' * ((correlation P cl p p' : ℝ) : ℂ) =
      ∑ j ∈ range cl.length, ((cl[j]?.getD 0 : ℝ) : ℂ) *
        ((α p * ((Y j 0 p).re : ℂ)) * (β p' * ((Y j 0 p').re : ℂ)) +
        2 * ∑ n ∈ range j, ((α p * ((Y j (n + 1) p).re : ℂ)) * (β p' * ((Y j (n + 1) p').re : ℂ)) +
          (α p * ((Y j (n + 1) p).im : ℂ)) * (β p' * ((Y j (n + 1) p').im : ℂ)))) := by
    intro p _ p' _
    rw [e3, mul_sum]
    refine sum_congr rfl fun j _ => ?_
    rw [mul_left_comm, mul_add]
    congr 2
    · ring
    · rw [mul_left_comm, mul_sum]
      congr 1
      exact sum_congr rfl fun n _ => by ring
  rw [sum_congr rfl fun p hp => sum_congr rfl fun p' hp' => e5 p hp p' hp']
  simp only [sum_mul_sum]
  have hcomm : ∀ (R : Finset ℕ) (F : ℕ → S → S → ℂ), ∑ p ∈ pix, ∑ p' ∈ pix, ∑ n ∈ R, F n p p' =
      ∑ n ∈ R, ∑ p ∈ pix, ∑ p' ∈ pix, F n p p' := by
    intro R F
    rw [sum_congr rfl fun p _ => sum_comm, sum_comm]
  rw [hcomm]
  refine sum_congr rfl fun j _ => ?_
  simp only [mul_add, mul_sum, sum_add_distrib, hcomm (range j)]

/-! ## The shear as a linear functional of the convergence -/

/-- The response of the field in `x` to the value of the map in `p`. -/
noncomputable def response {S : Type} (W : ℕ → ℤ → S → ℂ) (L : ℕ) (A : ℕ → ℕ → S → ℂ) (f : ℕ → ℝ)
    (x p : S) : ℂ :=
  ∑ l ∈ range (L + 1), (f l : ℂ) * (((A l 0 p).re : ℂ) * W l 0 x + ∑ m ∈ range l,
    (A l (m + 1) p * W l (m + 1) x +
      (-1) ^ (m + 1) * (starRingEnd ℂ) (A l (m + 1) p) * W l (-(m + 1)) x))

theorem response_sum {S : Type} (W : ℕ → ℤ → S → ℂ) (L : ℕ) (A : ℕ → ℕ → S → ℂ) (f : ℕ → ℝ) (x : S)
    (pix : Finset S) (y : S → ℝ) :
    ∑ p ∈ pix, response W L A f x p * (y p : ℂ) =
      spinField W L (fun l m => (∑ p ∈ pix, A l m p * (y p : ℂ)) * (f l : ℂ)) x := by
  unfold response spinField
  simp only [sum_mul]
  rw [sum_comm]
  refine sum_congr rfl fun l _ => ?_
  have hre : ((∑ p ∈ pix, A l 0 p * (y p : ℂ) * (f l : ℂ)).re : ℂ) =
      ∑ p ∈ pix, ((A l 0 p).re : ℂ) * (y p : ℂ) * (f l : ℂ) := by
    rw [Complex.re_sum]
    push_cast
    refine sum_congr rfl fun p _ => ?_
    simp [Complex.mul_re]
  rw [hre, sum_mul]
  simp only [map_sum, sum_mul, mul_sum, mul_add, ← sum_add_distrib]
  rw [sum_comm (s := range l), ← sum_add_distrib]
  refine sum_congr rfl fun p _ => ?_
  rw [add_mul, sum_mul]
  congr 1
  · ring
  · refine sum_congr rfl fun m _ => ?_
    simp only [map_mul, Complex.conj_ofReal]
    ring

theorem spinField_congr {S : Type} (W : ℕ → ℤ → S → ℂ) (L : ℕ) {a b : Alm}
    (h : ∀ l m, m ≤ l → l ≤ L → a l m = b l m) (x : S) : spinField W L a x = spinField W L b x := by
  unfold spinField
  refine sum_congr rfl fun l hl => ?_
  have hl' : l ≤ L := by have := mem_range.1 hl; omega
  rw [h l 0 (Nat.zero_le _) hl']
  congr 1
  refine sum_congr rfl fun m hm => ?_
  rw [h l (m + 1) (by have := mem_range.1 hm; omega) hl']

theorem spinField_zero {S : Type} (W : ℕ → ℤ → S → ℂ) (L j : ℕ) (f : ℕ → ℝ) (x : S) :
    spinField W L (fun l m => (if l = j ∧ m = 0 then 1 else 0) * (f l : ℂ)) x =
      if j ≤ L then (f j : ℂ) * W j 0 x else 0 := by
  unfold spinField
  have : ∀ l ∈ range (L + 1), ((((if l = j ∧ 0 = 0 then (1 : ℂ) else 0) * (f l : ℂ)).re : ℝ) : ℂ) * W l 0 x +
      ∑ m ∈ range l, (((if l = j ∧ m + 1 = 0 then (1 : ℂ) else 0) * (f l : ℂ)) * W l (m + 1) x +
        (-1) ^ (m + 1) * (starRingEnd ℂ) ((if l = j ∧ m + 1 = 0 then (1 : ℂ) else 0) * (f l : ℂ)) *
          W l (-(m + 1)) x) = if l = j then (f j : ℂ) * W j 0 x else 0 := by
    intro l _
    rw [sum_eq_zero]
    · by_cases h : l = j
      · subst h; simp
      · simp [h]
    · intro m _
      simp
  rw [sum_congr rfl this, sum_ite_eq']
  simp only [mem_range]
  by_cases h : j ≤ L
  · rw [if_pos h, if_pos (by omega)]
  · rw [if_neg h, if_neg (by omega)]

theorem spinField_mode {S : Type} (W : ℕ → ℤ → S → ℂ) (L j n : ℕ) (hn : n < j) (f : ℕ → ℝ) (c : ℂ)
    (x : S) :
    spinField W L (fun l m => (if l = j ∧ m = n + 1 then c else 0) * (f l : ℂ)) x =
      if j ≤ L then (f j : ℂ) * (c * W j (n + 1) x +
        (-1) ^ (n + 1) * (starRingEnd ℂ) c * W j (-(n + 1)) x) else 0 := by
  unfold spinField
  have : ∀ l ∈ range (L + 1), ((((if l = j ∧ 0 = n + 1 then c else 0) * (f l : ℂ)).re : ℝ) : ℂ) * W l 0 x +
      ∑ m ∈ range l, (((if l = j ∧ m + 1 = n + 1 then c else 0) * (f l : ℂ)) * W l (m + 1) x +
        (-1) ^ (m + 1) * (starRingEnd ℂ) ((if l = j ∧ m + 1 = n + 1 then c else 0) * (f l : ℂ)) *
          W l (-(m + 1)) x) = if l = j then (f j : ℂ) * (c * W j (n + 1) x +
        (-1) ^ (n + 1) * (starRingEnd ℂ) c * W j (-(n + 1)) x) else 0 := by
    intro l _
    by_cases h : l = j
    · subst h
      rw [sum_eq_single n]
      · simp
        ring
      · intro m _ hm
        simp [hm]
      · intro h; exact absurd (mem_range.2 hn) h
    · simp [h]
  rw [sum_congr rfl this, sum_ite_eq']
  simp only [mem_range]
  by_cases h : j ≤ L
  · rw [if_pos h, if_pos (by omega)]
  · rw [if_neg h, if_neg (by omega)]

/-- The shear is linear in the convergence. -/
theorem shear_linear {S : Type} {B : ℕ} {Y : ℕ → ℕ → S → ℂ} (W : ℕ → ℤ → S → ℂ)
    {hp : Healpix (S → ℝ)} (nside : ℕ) {L : ℕ} {pix : Finset S} {A : ℕ → ℕ → S → ℂ}
    (hA : IsAnalysis B Y hp.map2alm L pix A) (discretized : Bool) (k : S → ℝ) (x : S) :
    spinField W L (shearModes hp nside L discretized k) x = ∑ p ∈ pix, response W L A
      (fun l => shearFactor l * windowRatio hp nside L discretized l) x p * (k p : ℂ) := by
  rw [response_sum]
  refine spinField_congr W L (fun l m hm hl => ?_) x
  simp only [shearModes, almxfl, hA.linear k l m hm hl]

/-- The spectrum of the shear for a spectrum of the convergence. -/
noncomputable def shearSpectrum (cl : List ℝ) (ratio : ℕ → ℝ) (l : ℕ) : ℝ :=
  (if l = 0 then 0 else 1 - 2 / ((l : ℝ) * (l + 1))) * ratio l ^ 2 * cl[l]?.getD 0

/-- **C148** Shear maps have the correlation functions of the spectrum of the shear. -/
theorem shear_correlations {S : Type} {B : ℕ} {Y : ℕ → ℕ → S → ℂ} {P : ℕ → S → S → ℝ}
    (hY : Harmonics B Y P) {W : ℕ → ℤ → S → ℂ} {hp : Healpix (S → ℝ)} {nside L : ℕ} {pix : Finset S}
    {A : ℕ → ℕ → S → ℂ} (hA : IsAnalysis B Y hp.map2alm L pix A) (discretized : Bool) (cl : List ℝ)
    (hcl : cl.length ≤ B) {K K' : Ω → S → ℝ} (hK : ∀ p ∈ pix, ∀ p' ∈ pix,
      HasMean μ (fun ω => K ω p * K' ω p') (correlation P cl p p')) (x x' : S) :
    let γ := fun (K : S → ℝ) x => spinField W L (shearModes hp nside L discretized K) x
    let cg := shearSpectrum cl (windowRatio hp nside L discretized)
    Integrable (fun ω => γ (K ω) x * (starRingEnd ℂ) (γ (K' ω) x')) μ ∧
    ∫ ω, γ (K ω) x * (starRingEnd ℂ) (γ (K' ω) x') ∂μ = xiPlus W L cg x x' ∧
    Integrable (fun ω => γ (K ω) x * γ (K' ω) x') μ ∧
    ∫ ω, γ (K ω) x * γ (K' ω) x' ∂μ = xiMinus W L cg x x' := by
  intro γ cg
  set f : ℕ → ℝ := fun l => shearFactor l * windowRatio hp nside L discretized l with hf
  have hγ : ∀ k x, γ k x = ∑ p ∈ pix, response W L A f x p * (k p : ℂ) :=
    fun k x => shear_linear W nside hA discretized k x
  have hγ' : ∀ k x, (starRingEnd ℂ) (γ k x) =
      ∑ p ∈ pix, (starRingEnd ℂ) (response W L A f x p) * (k p : ℂ) := by
    intro k x
    rw [hγ, map_sum]
    refine sum_congr rfl fun p _ => ?_
    rw [map_mul, Complex.conj_ofReal]
  have hconj : ∀ x (y : S → ℝ), ∑ p ∈ pix, (starRingEnd ℂ) (response W L A f x p) * (y p : ℂ) =
      (starRingEnd ℂ) (∑ p ∈ pix, response W L A f x p * (y p : ℂ)) := by
    intro x y
    rw [map_sum]
    refine sum_congr rfl fun p _ => ?_
    rw [map_mul, Complex.conj_ofReal]
  -- responses to harmonics
  have r0 : ∀ j < B, ∀ x, ∑ p ∈ pix, response W L A f x p * ((Y j 0 p).re : ℂ) =
      if j ≤ L then (f j : ℂ) * W j 0 x else 0 := by
    intro j hj x
    rw [response_sum, ← spinField_zero]
    refine spinField_congr W L (fun l m hm hl => ?_) x
    rw [hA.zero l m j hm hl hj]
  have r1 : ∀ j < B, ∀ n < j, ∀ x, ∑ p ∈ pix, response W L A f x p * ((Y j (n + 1) p).re : ℂ) =
      if j ≤ L then (f j : ℂ) * (1 / 2 * W j (n + 1) x +
        (-1) ^ (n + 1) * (starRingEnd ℂ) (1 / 2) * W j (-(n + 1)) x) else 0 := by
    intro j hj n hn x
    rw [response_sum, ← spinField_mode W L j n hn]
    refine spinField_congr W L (fun l m hm hl => ?_) x
    rw [hA.re l m j n hm hl hj hn]
  have r2 : ∀ j < B, ∀ n < j, ∀ x, ∑ p ∈ pix, response W L A f x p * ((Y j (n + 1) p).im : ℂ) =
      if j ≤ L then (f j : ℂ) * (-Complex.I / 2 * W j (n + 1) x +
        (-1) ^ (n + 1) * (starRingEnd ℂ) (-Complex.I / 2) * W j (-(n + 1)) x) else 0 := by
    intro j hj n hn x
    rw [response_sum, ← spinField_mode W L j n hn]
    refine spinField_congr W L (fun l m hm hl => ?_) x
    rw [hA.im l m j n hm hl hj hn]
  have hcg : ∀ l, cg l = f l ^ 2 * cl[l]?.getD 0 := by
    intro l
    simp only [cg, shearSpectrum, hf, mul_pow]
    rcases Nat.eq_zero_or_pos l with rfl | h
    · simp [(shear_factor_sq 0).1]
    · rw [if_neg (by omega), (shear_factor_sq l).2.2 h]
  -- sums over all modes
  have hsum : ∀ F : ℕ → ℂ, ∑ j ∈ range cl.length, ((cl[j]?.getD 0 : ℝ) : ℂ) *
      (if j ≤ L then ((f j ^ 2 : ℝ) : ℂ) * F j else 0) = ∑ l ∈ range (L + 1), (cg l : ℂ) * F l := by
    intro F
    have h1 : ∀ N, L + 1 ≤ N → ∑ j ∈ range N, ((cl[j]?.getD 0 : ℝ) : ℂ) *
        (if j ≤ L then ((f j ^ 2 : ℝ) : ℂ) * F j else 0) = ∑ l ∈ range (L + 1), (cg l : ℂ) * F l := by
      intro N hN
      rw [← sum_subset (range_mono hN)]
      · refine sum_congr rfl fun l hl => ?_
        rw [if_pos (by have := mem_range.1 hl; omega), hcg]
        push_cast
        ring
      · intro l _ hl
        rw [if_neg (by rw [mem_range] at hl; omega), mul_zero]
    rw [← h1 (max cl.length (L + 1)) (le_max_right _ _)]
    refine sum_subset (range_mono (le_max_left _ _)) fun l _ hl => ?_
    rw [List.getElem?_eq_none (by rw [mem_range] at hl; omega)]
    simp
  have hpm : ∀ n : ℕ, ((-1 : ℂ) ^ (n + 1)) * (-1) ^ (n + 1) = 1 := by
    intro n
    rw [← mul_pow]; norm_num
  refine ⟨?_, ?_, ?_, ?_⟩
  · simp only [hγ']
    simp only [hγ]
    exact (functional_products hY cl hcl hK _ _).1
  · simp only [hγ']
    simp only [hγ]
    rw [(functional_products hY cl hcl hK _ _).2]
    unfold xiPlus
    rw [← hsum]
    refine sum_congr rfl fun j hj => ?_
    have hjB : j < B := lt_of_lt_of_le (mem_range.1 hj) hcl
    congr 1
    rw [hconj, r0 j hjB, r0 j hjB]
    have hs : ∀ n ∈ range j, 
        ((∑ p ∈ pix, response W L A f x p * ((Y j (n + 1) p).re : ℂ)) *
          (∑ p ∈ pix, (starRingEnd ℂ) (response W L A f x' p) * ((Y j (n + 1) p).re : ℂ)) +
          (∑ p ∈ pix, response W L A f x p * ((Y j (n + 1) p).im : ℂ)) *
            (∑ p ∈ pix, (starRingEnd ℂ) (response W L A f x' p) * ((Y j (n + 1) p).im : ℂ))) =
        if j ≤ L then ((f j ^ 2 : ℝ) : ℂ) * (1 / 2 * (W j (n + 1) x * (starRingEnd ℂ) (W j (n + 1) x') +
          W j (-(n + 1)) x * (starRingEnd ℂ) (W j (-(n + 1)) x'))) else 0 := by
      intro n hn
      rw [hconj, hconj, r1 j hjB n (mem_range.1 hn), r1 j hjB n (mem_range.1 hn),
        r2 j hjB n (mem_range.1 hn), r2 j hjB n (mem_range.1 hn)]
      split_ifs with h
      · simp only [map_mul, map_add, map_div₀, map_neg, map_pow, map_one, Complex.conj_ofReal,
          map_ofNat, Complex.conj_I]
        have := hpm n
        push_cast
        linear_combination (exp := 1) ((f j : ℂ) ^ 2 * (W j (-(n + 1)) x *
          (starRingEnd ℂ) (W j (-(n + 1)) x') / 2)) * this +
          (-(f j : ℂ) ^ 2 / 4 * (W j (n + 1) x - (-1) ^ (n + 1) * W j (-(n + 1)) x) *
            ((starRingEnd ℂ) (W j (n + 1) x') - (-1) ^ (n + 1) *
              (starRingEnd ℂ) (W j (-(n + 1)) x'))) * Complex.I_sq
      · simp
    rw [sum_congr rfl hs]
    split_ifs with h
    · rw [sum_symmetric, map_mul, Complex.conj_ofReal, ← mul_sum, ← mul_sum]
      push_cast
      ring
    · simp
  · simp only [hγ]
    exact (functional_products hY cl hcl hK _ _).1
  · simp only [hγ]
    rw [(functional_products hY cl hcl hK _ _).2]
    unfold xiMinus
    rw [← hsum]
    refine sum_congr rfl fun j hj => ?_
    have hjB : j < B := lt_of_lt_of_le (mem_range.1 hj) hcl
    congr 1
    rw [r0 j hjB, r0 j hjB]
    have hs : ∀ n ∈ range j, 
        ((∑ p ∈ pix, response W L A f x p * ((Y j (n + 1) p).re : ℂ)) *
          (∑ p ∈ pix, response W L A f x' p * ((Y j (n + 1) p).re : ℂ)) +
          (∑ p ∈ pix, response W L A f x p * ((Y j (n + 1) p).im : ℂ)) *
            (∑ p ∈ pix, response W L A f x' p * ((Y j (n + 1) p).im : ℂ))) =
        if j ≤ L then ((f j ^ 2 : ℝ) : ℂ) * (1 / 2 * ((-1) ^ (n + 1) * (W j (n + 1) x *
          W j (-(n + 1)) x') + (-1) ^ (n + 1) * (W j (-(n + 1)) x * W j (n + 1) x'))) else 0 := by
      intro n hn
      rw [r1 j hjB n (mem_range.1 hn), r1 j hjB n (mem_range.1 hn),
        r2 j hjB n (mem_range.1 hn), r2 j hjB n (mem_range.1 hn)]
      split_ifs with h
      · simp only [map_div₀, map_neg, map_one, map_ofNat, Complex.conj_I]
        push_cast
        linear_combination (exp := 1) 
          ((f j : ℂ) ^ 2 / 4 * (W j (n + 1) x - (-1) ^ (n + 1) * W j (-(n + 1)) x) *
            (W j (n + 1) x' - (-1) ^ (n + 1) * W j (-(n + 1)) x')) * Complex.I_sq
      · simp
    rw [sum_congr rfl hs]
    have habs : ∀ n : ℕ, ((n : ℤ) + 1).natAbs = n + 1 ∧ (-((n : ℤ) + 1)).natAbs = n + 1 := by
      intro n; omega
    split_ifs with h
    · rw [sum_symmetric, ← mul_sum, ← mul_sum]
      simp only [habs, neg_neg, neg_zero, Int.natAbs_zero, pow_zero, one_mul]
      push_cast
      ring
    · simp

end Glass.Lensing
