import Verif.Sampling.Combine
import Verif.Shapes.SamplingProps

/-!
# The law of intrinsic normal ellipticities (C102)
-/

namespace Glass.Shapes

open Glass Glass.Arrays Glass.Galaxies NdArray Glass.Sampling MeasureTheory ProbabilityTheory
open scoped ENNReal

/-! ## Specification -/

/-- The intrinsic normal distribution: the law of `tanh(‖eta‖ / 2) eta / ‖eta‖`, where the real and
the imaginary part of `eta` are independent normal numbers of the given standard deviation. -/
noncomputable def intrinsicNormal (sd : ℝ) : Measure ℂ :=
  ((gaussianReal 0 1).prod (gaussianReal 0 1)).map fun p : ℝ × ℝ =>
    let eta : ℂ := (sd * p.1 : ℝ) + Complex.I * (sd * p.2 : ℝ)
    (Real.tanh (‖eta‖ / 2) / ‖eta‖ : ℝ) * eta

/-! ## Proofs -/

theorem intnorm_eq (sd : ℝ) (z : ℂ) : intnorm sd z =
    (Real.tanh (‖z * (sd : ℂ)‖ / 2) / ‖z * (sd : ℂ)‖ : ℝ) * (z * (sd : ℂ)) := by
  unfold intnorm
  simp only [sqrt_re_im]
  by_cases h : 0 < ‖z * (sd : ℂ)‖
  · rw [if_pos h, mul_comm]
  · have : z * (sd : ℂ) = 0 := norm_le_zero_iff.1 (not_lt.1 h)
    rw [this]
    simp

theorem measurable_tanh : Measurable Real.tanh := by
  have : Real.tanh = fun x => Real.sinh x / Real.cosh x := by
    funext x
    exact Real.tanh_eq_sinh_div_cosh x
  rw [this]
  exact Real.measurable_sinh.div Real.measurable_cosh

theorem measurable_intnorm (sd : ℝ) : Measurable (intnorm sd) := by
  have : intnorm sd = fun z : ℂ => ((Real.tanh (‖z * (sd : ℂ)‖ / 2) / ‖z * (sd : ℂ)‖ : ℝ) : ℂ) *
      (z * (sd : ℂ)) := funext (intnorm_eq sd)
  rw [this]
  have h1 : Measurable fun z : ℂ => Real.tanh (‖z * (sd : ℂ)‖ / 2) :=
    measurable_tanh.comp (by fun_prop)
  fun_prop

theorem intnorm_law (sd : ℝ) : complexNormal.map (intnorm sd) = intrinsicNormal sd := by
  rw [complexNormal, Measure.map_map (measurable_intnorm sd) measurable_complex, intrinsicNormal]
  congr 1
  funext p
  have : ((p.1 : ℂ) + Complex.I * p.2) * (sd : ℂ) =
      ((sd * p.1 : ℝ) : ℂ) + Complex.I * (sd * p.2 : ℝ) := by
    push_cast
    ring
  simp only [Function.comp, intnorm_eq, this]

instance (sd : ℝ) : IsProbabilityMeasure (intrinsicNormal sd) := by
  rw [← intnorm_law]
  exact Measure.isProbabilityMeasure_map (measurable_intnorm sd).aemeasurable

section

variable {σ : Type}

/-- One population after the other. -/
noncomputable def intnormChain (normal : σ → ℕ → List ℝ × σ) : List (ℕ × ℝ) → σ → List ℂ × σ
  | [], s => ([], s)
  | p :: ps, s =>
    let r := populate normal s p.1
    let r' := intnormChain normal ps r.2
    (r.1.map (intnorm (sigmaEta p.2)) ++ r'.1, r'.2)

theorem intnormLoop_chain {normal : σ → ℕ → List ℝ × σ} (hc : CountLaw normal) :
    ∀ {ps : List (ℕ × ℝ)} {eps : List ℂ} {i : ℕ} {s : σ},
      eps.length = i + (ps.map Prod.fst).sum →
      intnormLoop normal ps eps i s =
        .ok (eps.take i ++ (intnormChain normal ps s).1, (intnormChain normal ps s).2)
  | [], eps, i, s, hl => by
    simp only [List.map_nil, List.sum_nil, add_zero] at hl
    simp [intnormLoop, intnormChain, ← hl]
  | (count, sigma) :: ps, eps, i, s, hl => by
    simp only [List.map_cons, List.sum_cons] at hl
    obtain ⟨hb, hbl⟩ := populate_batch hc s count
    rw [intnormLoop]
    simp only [bind, Except.bind]
    rw [setSlice_ok (by omega) (by simp [hbl])]
    simp only
    set out := (populate normal s count).1.map (intnorm (sigmaEta sigma)) with hout
    have hol : out.length = count := by simp [hout, hbl]
    have hA : (eps.take i ++ out).length = i + count := by
      rw [List.length_append, List.length_take, hol]; omega
    rw [intnormLoop_chain hc (ps := ps)
      (eps := eps.take i ++ out ++ eps.drop (i + count)) (i := i + count)
      (s := (populate normal s count).2)
      (by rw [List.length_append, hA, List.length_drop]; omega)]
    rw [List.take_append_of_le_length (by omega), List.take_of_length_le (by omega)]
    simp [intnormChain, hout]

variable [MeasurableSpace σ]

theorem intnormChain_law {μ : Measure σ} [IsProbabilityMeasure μ] {normal : σ → ℕ → List ℝ × σ}
    (hn : IdealNormal μ normal) {F : Set σ} (hF : MeasurableSet F) :
    ∀ (ps : List (ℕ × ℝ)) {As : List (Set ℂ)}, As.length = (ps.map Prod.fst).sum →
    (∀ A ∈ As, MeasurableSet A) →
    MeasurableSet {s | InBox (intnormChain normal ps s).1 As ∧ (intnormChain normal ps s).2 ∈ F} ∧
    μ {s | InBox (intnormChain normal ps s).1 As ∧ (intnormChain normal ps s).2 ∈ F} =
      (List.zipWith (fun v A => intrinsicNormal (sigmaEta v) A) (objects ps) As).prod * μ F
  | [], As, hl, _ => by
    have : As = [] := by simpa using hl
    subst this
    simp [intnormChain, objects, hF]
  | (n, sigma) :: ps, As, hl, hA => by
    simp only [List.map_cons, List.sum_cons] at hl
    obtain ⟨h1, h2⟩ := intnormChain_law hn hF ps (As := As.drop n)
      (by rw [List.length_drop]; omega) fun A h => hA A (List.mem_of_mem_drop h)
    set G := {s | InBox (intnormChain normal ps s).1 (As.drop n) ∧
      (intnormChain normal ps s).2 ∈ F} with hG
    have htl : (As.take n).length = n := by rw [List.length_take]; omega
    have hp := (populate_ideal hn).map (f := fun _ => intnorm (sigmaEta sigma))
      fun _ => measurable_intnorm _
    rw [intnorm_law] at hp
    have key := hp.box (θs := List.replicate n ()) (As := As.take n) (F := G)
      (by rw [List.length_replicate, htl]) (fun A h => hA A (List.mem_of_mem_take h)) h1
    have hlen : ∀ s, (populate normal s n).1.length = n := fun s =>
      (populate_batch (IdealNormal.count hn) s n).2
    have hz : ∀ s, List.zipWith (fun (_ : Unit) => intnorm (sigmaEta sigma)) (List.replicate n ())
        (populate normal s n).1 = (populate normal s n).1.map (intnorm (sigmaEta sigma)) := by
      intro s
      refine List.ext_getElem (by simp [hlen]) fun i _ _ => by simp
    simp only [List.length_replicate, hz] at key
    have he : {s | InBox (intnormChain normal ((n, sigma) :: ps) s).1 As ∧
        (intnormChain normal ((n, sigma) :: ps) s).2 ∈ F} =
        {s | InBox ((populate normal s n).1.map (intnorm (sigmaEta sigma))) (As.take n) ∧
          (populate normal s n).2 ∈ G} := by
      ext s
      simp only [Set.mem_ofPred_eq, hG, intnormChain]
      conv_lhs => rw [← List.take_append_drop n As]
      rw [inBox_append (by rw [List.length_map, hlen, htl]), and_assoc]
    rw [he]
    refine ⟨key.1, key.2.trans ?_⟩
    rw [h2, ← mul_assoc]
    congr 1
    have ho : objects ((n, sigma) :: ps) = List.replicate n sigma ++ objects ps := by
      simp [objects]
    rw [ho]
    conv_rhs => rw [← List.take_append_drop n As]
    rw [List.zipWith_append (by rw [List.length_replicate, htl]), List.prod_append]
    congr 2
    refine List.ext_getElem (by simp) fun i _ _ => by simp

/-! ## Theorems -/

/-- **C102.** With an ideal source of normal numbers the ellipticities returned by
`ellipticity_intnorm` are independent of each other and of the generator afterwards, and each has
the intrinsic normal distribution for the standard deviation of its own population. -/
theorem ellipticity_intnorm_law {μ : Measure σ} [IsProbabilityMeasure μ]
    {normal : σ → ℕ → List ℝ × σ} (hn : IdealNormal μ normal) (junk : ℕ → ℂ) (count : NdArray ℕ)
    (sigma : NdArray ℝ) {dims : List ℕ} (hd : IsBroadcast [count.shape, sigma.shape] dims)
    (hs : ∀ idx ∈ indices dims, 0 ≤ entry sigma idx ∧ entry sigma idx < Real.sqrt 0.5)
    {As : List (Set ℂ)} (hl : As.length = ((populations count sigma dims).map Prod.fst).sum)
    (hA : ∀ A ∈ As, MeasurableSet A) {F : Set σ} (hF : MeasurableSet F) :
    μ {s | ∃ es s', ellipticityIntnorm normal junk s count sigma = .ok (es, s') ∧
      List.Forall₂ (fun e A => e ∈ A) es As ∧ s' ∈ F} =
      (List.zipWith (fun v A => intrinsicNormal
        (v * Real.sqrt ((8 + 5 * v ^ 2) / (2 - 4 * v ^ 2))) A)
        (objects (populations count sigma dims)) As).prod * μ F := by
  have h := (intnormChain_law hn hF (populations count sigma dims) hl hA).2
  refine Eq.trans ?_ h
  congr 1
  ext s
  have hp : ∀ p ∈ populations count sigma dims, 0 ≤ p.2 ∧ p.2 < Real.sqrt 0.5 := by
    intro p hp
    obtain ⟨idx, hi, rfl⟩ := List.mem_map.1 hp
    exact hs idx hi
  obtain ⟨cs, h1, -⟩ := map₂_total (fun (c : ℕ) (v : ℝ) => (c, v)) hd
  have hrun : ellipticityIntnorm normal junk s count sigma =
      .ok (intnormChain normal (populations count sigma dims) s) := by
    unfold ellipticityIntnorm
    simp only [bind, Except.bind]
    rw [h1]
    simp only
    rw [map₂_populations h1 hd, if_neg, intnormLoop_chain (IdealNormal.count hn) (by simp)]
    · simp
    · rw [not_not, List.all_eq_true]
      intro p hp'
      simpa using hp p hp'
  simp only [Set.mem_ofPred_eq, hrun, Except.ok.injEq]
  constructor
  · rintro ⟨es, s', h1, h2, h3⟩
    rw [h1]
    exact ⟨h2, h3⟩
  · rintro ⟨h2, h3⟩
    exact ⟨_, _, rfl, h2, h3⟩

/-- Concrete case: the standard deviation 1/4 gives the standard deviation `sqrt(133/448)` of the
normal numbers. -/
example : (1 / 4 : ℝ) * Real.sqrt ((8 + 5 * (1 / 4) ^ 2) / (2 - 4 * (1 / 4) ^ 2)) =
    Real.sqrt (133 / 448) := by
  rw [show (1 / 4 : ℝ) = Real.sqrt (1 / 16) by
    rw [show (1 / 16 : ℝ) = (1 / 4) ^ 2 by norm_num, Real.sqrt_sq (by norm_num)],
    Real.sq_sqrt (by norm_num), ← Real.sqrt_mul (by norm_num)]
  norm_num

end

end Glass.Shapes
