import Verif.Points.SampleProps
import Verif.Galaxies.ShearProps
import Verif.Shells.ShellProps
import Mathlib.Probability.Distributions.Gaussian.Real

/-!
# C150: which results are finite

The other models use exact reals with the convention `x / 0 = 0`.  Here the quotients and logarithms
of some functions return `none` where floating-point arithmetic gives an infinity or NaN, and it is
determined when this happens.
-/

namespace Glass.Finite

open MeasureTheory ProbabilityTheory Glass.Num Glass.Points Glass.Galaxies Glass.Shells

/-! ## Log-linear bias -/

/-- `xp.log1p`; `none` is NaN. -/
noncomputable def log1pE (x : ℝ) : Option EReal :=
  open Classical in
  if x < -1 then none else if x = -1 then some ⊥ else some ((Real.log (1 + x) : ℝ) : EReal)

/-- Product with a finite number; `none` is NaN. -/
noncomputable def mulE (y : EReal) (b : ℝ) : Option EReal :=
  open Classical in
  if b = 0 ∧ (y = ⊥ ∨ y = ⊤) then none else some (y * b)

/-- `xp.expm1`. -/
noncomputable def expm1E (y : EReal) : EReal :=
  open Classical in
  if y = ⊥ then -1 else if y = ⊤ then ⊤ else ((Real.exp y.toReal - 1 : ℝ) : EReal)

/-- `points.py:137-160` `loglinear_bias` of one number, with the special values of floating-point
arithmetic (but without rounding); `none` is NaN. -/
noncomputable def loglinearBiasE (delta b : ℝ) : Option EReal := do
  let deltaG ← log1pE delta
  let deltaG ← mulE deltaG b
  some (expm1E deltaG)

/-- **C150**: above minus one the log-linear bias is that of C42. -/
theorem loglinear_bias_number {delta : ℝ} (h : -1 < delta) (b : ℝ) :
    loglinearBiasE delta b = some ((loglinearBias delta b : ℝ) : EReal) := by
  have h1 : log1pE delta = some ((Real.log (1 + delta) : ℝ) : EReal) := by
    rw [log1pE, if_neg (by linarith), if_neg h.ne']
  have h2 : mulE (Real.log (1 + delta) : ℝ) b = some ((Real.log (1 + delta) * b : ℝ) : EReal) := by
    rw [mulE, if_neg (by simp), EReal.coe_mul]
  have h3 : expm1E ((Real.log (1 + delta) * b : ℝ) : EReal) = ((loglinearBias delta b : ℝ) : EReal) := by
    rw [expm1E, if_neg (EReal.coe_ne_bot _), if_neg (EReal.coe_ne_top _), EReal.toReal_coe,
      loglinearBias]
  unfold loglinearBiasE
  rw [h1]
  show (mulE (Real.log (1 + delta) : ℝ) b).bind _ = _
  rw [h2]
  show some (expm1E _) = _
  rw [h3]

/-- **C150**: in an empty pixel the result depends on the sign of the bias: empty, infinite, or NaN
for a bias of zero. -/
theorem loglinear_bias_empty (b : ℝ) :
    (0 < b → loglinearBiasE (-1) b = some (-1)) ∧
    (b < 0 → loglinearBiasE (-1) b = some ⊤) ∧
    loglinearBiasE (-1) 0 = none := by
  have h1 : log1pE (-1) = some ⊥ := by rw [log1pE, if_neg (lt_irrefl _), if_pos rfl]
  refine ⟨fun h => ?_, fun h => ?_, ?_⟩ <;> unfold loglinearBiasE <;> rw [h1]
  · show (mulE ⊥ b).bind _ = _
    rw [mulE, if_neg (by simp [h.ne']), EReal.bot_mul_coe_of_pos h]
    show some (expm1E ⊥) = _
    simp [expm1E]
  · show (mulE ⊥ b).bind _ = _
    rw [mulE, if_neg (by simp [h.ne]), EReal.bot_mul_coe_of_neg h]
    show some (expm1E ⊤) = _
    simp [expm1E]
  · show (mulE ⊥ 0).bind _ = _
    rw [mulE, if_pos (by simp)]
    rfl

/-- **C150**: below minus one the result is NaN, for every bias, also for a bias of one. -/
theorem loglinear_bias_nan {delta : ℝ} (h : delta < -1) (b : ℝ) : loglinearBiasE delta b = none := by
  unfold loglinearBiasE
  rw [log1pE, if_pos h]
  rfl

/-- **C150**: a density contrast with a normal distribution is biased to NaN with positive
probability, however small its variance. -/
theorem normal_contrast_nan (m : ℝ) {v : NNReal} (hv : v ≠ 0) (b : ℝ) :
    0 < gaussianReal m v {delta | loglinearBiasE delta b = none} := by
  have hsub : Set.Iio (-1 : ℝ) ⊆ {delta | loglinearBiasE delta b = none} := fun x hx =>
    loglinear_bias_nan hx b
  refine lt_of_lt_of_le ?_ (measure_mono hsub)
  have hac := gaussianReal_absolutelyContinuous' m hv
  rw [pos_iff_ne_zero]
  intro h0
  have := hac h0
  simp at this

/-! ## Quotients -/

/-- The quotient of two numbers; `none` is an infinity or NaN. -/
noncomputable def quot {K : Type*} [Field K] (x y : K) : Option K :=
  open Classical in
  if y = 0 then none else some (x / y)

theorem quot_of_ne {K : Type*} [Field K] {x y : K} (h : y ≠ 0) : quot x y = some (x / y) := if_neg h

theorem quot_eq_none {K : Type*} [Field K] {x y : K} : quot x y = none ↔ y = 0 := by
  unfold quot
  split_ifs with h <;> simp [h]

/-- `points.py:610-651` `position_weights`, one entry for each shell; `none` is an infinity or NaN. -/
noncomputable def positionWeightsF (densities : List ℝ) (bias : Option (List ℝ)) :
    Except Err (List (Option ℝ)) :=
  match bias with
  | none => .ok (densities.map fun x => quot x densities.sum)
  | some b => do
    let (densities, b) ← broadcastArrays densities b
    let densities := densities.map fun x => quot x densities.sum
    .ok (List.zipWith (fun x b => x.map (· * b)) densities b)

theorem broadcastArrays_sum {d b d' b' : List ℝ} (h : broadcastArrays d b = .ok (d', b')) :
    d'.length = b'.length ∧ (d' ≠ [] → (d'.sum = 0 ↔ d.sum = 0)) := by
  unfold broadcastArrays at h
  split_ifs at h with h0 h1 h2
  · simp only [Except.ok.injEq, Prod.mk.injEq] at h
    obtain ⟨rfl, rfl⟩ := h
    exact ⟨h0, fun _ => Iff.rfl⟩
  · simp only [Except.ok.injEq, Prod.mk.injEq] at h
    obtain ⟨rfl, rfl⟩ := h
    obtain ⟨x, rfl⟩ := List.length_eq_one_iff.1 h1
    refine ⟨by simp, fun hne => ?_⟩
    have : b.length ≠ 0 := by
      intro h
      simp [h] at hne
    simp [this]
  · simp only [Except.ok.injEq, Prod.mk.injEq] at h
    obtain ⟨rfl, rfl⟩ := h
    exact ⟨by simp, fun _ => Iff.rfl⟩

/-- **C150**: the weights of C43 are numbers if the densities do not add to zero. -/
theorem position_weights_finite (d : List ℝ) (b : Option (List ℝ)) (hd : d.sum ≠ 0) :
    positionWeightsF d b = (positionWeights d b).map fun w => w.map some := by
  cases b with
  | none =>
    simp only [positionWeightsF, positionWeights, Except.map, Except.ok.injEq]
    rw [List.map_map]
    exact List.map_congr_left fun x _ => quot_of_ne hd
  | some b =>
    unfold positionWeightsF positionWeights
    simp only
    rcases h : broadcastArrays d b with e | ⟨d', b'⟩
    · rfl
    · obtain ⟨h1, h2⟩ := broadcastArrays_sum h
      show Except.ok _ = Except.ok _
      rw [Except.ok.injEq]
      dsimp only
      refine List.ext_getElem (by simp) fun i hi hi' => ?_
      have hne : d' ≠ [] := by
        rintro rfl
        simp at hi
      have hs : d'.sum ≠ 0 := fun h0 => hd ((h2 hne).1 h0)
      simp [quot_of_ne hs]

/-- **C150**: if the densities add to zero, no weight is a number. -/
theorem position_weights_nan (d : List ℝ) (b : Option (List ℝ)) (hd : d.sum = 0)
    {w : List (Option ℝ)} (h : positionWeightsF d b = .ok w) : ∀ x ∈ w, x = none := by
  cases b with
  | none =>
    simp only [positionWeightsF, Except.ok.injEq] at h
    subst h
    intro x hx
    obtain ⟨y, -, rfl⟩ := List.mem_map.1 hx
    exact quot_eq_none.2 hd
  | some b =>
    unfold positionWeightsF at h
    simp only at h
    rcases hb : broadcastArrays d b with e | ⟨d', b'⟩
    · rw [hb] at h
      cases h
    · rw [hb] at h
      obtain ⟨h1, h2⟩ := broadcastArrays_sum hb
      simp only [bind, Except.bind, Except.ok.injEq] at h
      subst h
      intro x hx
      obtain ⟨i, hi, rfl⟩ := List.getElem_of_mem hx
      have hne : d' ≠ [] := by
        rintro rfl
        simp at hi
      have hs : d'.sum = 0 := (h2 hne).2 hd
      simp [quot_eq_none.2 hs]

/-! ## Lensed ellipticities -/

/-- `galaxies.py:342-345` for the values at the positions of the galaxies; `none` is an infinity or
NaN. -/
noncomputable def lensedF (reducedShear : Bool) (k : ℝ) (g e : ℂ) : Option ℂ :=
  if reducedShear then do
    let g ← quot g (1 - (k : ℂ))
    quot (e + g) (1 + (starRingEnd ℂ) g * e)
  else some (g + e)

/-- `galaxies.py:262-347` `galaxy_shear`; `none` is an infinity or NaN. -/
noncomputable def galaxyShearF {npix : ℕ} (chunk : ℕ) (junk : ℕ → ℝ) (pix : ℝ × ℝ → Fin npix)
    (lonlat : List (ℝ × ℝ)) (eps : List ℂ) (kappa gamma1 gamma2 : Fin npix → ℝ)
    (reducedShear : Bool) : Except Err (List (Option ℂ)) :=
  if lonlat.length ≠ eps.length then .error (.value "shape mismatch")
  else
    let size := lonlat.length
    let k := (List.range size).map junk
    let g : List ℂ := (List.range size).map fun i => (junk i : ℂ)
    let starts := (List.range ((size + (chunk - 1)) / chunk)).map (· * chunk)
    do
      let (k, g) ← shearLoop chunk pix lonlat kappa gamma1 gamma2 size starts k g
      .ok (List.zipWith (fun (kg : ℝ × ℂ) (e : ℂ) => lensedF reducedShear kg.1 kg.2 e) (k.zip g) eps)

/-- **C150**: the lensed ellipticities with their special values. -/
theorem galaxy_shear_values {npix chunk : ℕ} (hc : 0 < chunk) (junk : ℕ → ℝ)
    (pix : ℝ × ℝ → Fin npix) {lonlat : List (ℝ × ℝ)} {eps : List ℂ}
    (hl : lonlat.length = eps.length) (kappa gamma1 gamma2 : Fin npix → ℝ) (red : Bool) :
    galaxyShearF chunk junk pix lonlat eps kappa gamma1 gamma2 red =
      .ok (List.zipWith (fun p e => lensedF red (kappa (pix p)) (shearAt pix gamma1 gamma2 p) e)
        lonlat eps) := by
  have hloop := galaxyShear_loop (chunk := chunk) hc junk pix lonlat kappa gamma1 gamma2
  unfold galaxyShearF
  rw [if_neg (by simpa using hl)]
  simp only [bind, Except.bind]
  rw [hloop]
  simp only [Except.ok.injEq]
  refine List.ext_getElem (by simp [hl]) fun i h1 h2 => ?_
  simp

/-- **C150**: for weak lensing of ellipticities in the unit disc all results are numbers, those of
C65. -/
theorem galaxy_shear_finite {npix chunk : ℕ} (hc : 0 < chunk) (junk : ℕ → ℝ)
    (pix : ℝ × ℝ → Fin npix) {lonlat : List (ℝ × ℝ)} {eps : List ℂ}
    (hl : lonlat.length = eps.length) (kappa gamma1 gamma2 : Fin npix → ℝ)
    (he : ∀ e ∈ eps, ‖e‖ < 1) (hg : ∀ p ∈ lonlat, WeakAt pix kappa gamma1 gamma2 p) :
    galaxyShearF chunk junk pix lonlat eps kappa gamma1 gamma2 true =
      (galaxyShear chunk junk pix lonlat eps kappa gamma1 gamma2 true).map fun r => r.map some := by
  rw [galaxy_shear_values hc junk pix hl, (galaxyShear_eq hc junk pix hl kappa gamma1 gamma2).1]
  simp only [Except.map, Except.ok.injEq]
  refine List.ext_getElem (by simp [hl]) fun i h1 h2 => ?_
  simp only [List.getElem_zipWith, List.getElem_map]
  have hi : i < lonlat.length := by simp at h1; omega
  have hw := hg _ (List.getElem_mem hi)
  have hk : (1 - (kappa (pix lonlat[i]) : ℂ)) ≠ 0 := by
    intro h0
    have : ((1 - kappa (pix lonlat[i]) : ℝ) : ℂ) = 0 := by push_cast; exact h0
    exact hw.ne_one (by have := Complex.ofReal_eq_zero.1 this; linarith)
  have hr : shearAt pix gamma1 gamma2 lonlat[i] / (1 - (kappa (pix lonlat[i]) : ℂ)) =
      reducedShearAt pix kappa gamma1 gamma2 lonlat[i] := by
    rw [reducedShearAt]; push_cast; rfl
  simp only [lensedF, if_true, quot_of_ne hk, hr]
  show quot _ _ = _
  rw [quot_of_ne (one_add_conj_ne_zero (he _ (List.getElem_mem _)) hw.lt_one), lensed]

/-- **C150**: a convergence of one makes the ellipticity of a galaxy NaN, also without shear. -/
theorem galaxy_shear_nan {npix chunk : ℕ} (hc : 0 < chunk) (junk : ℕ → ℝ)
    (pix : ℝ × ℝ → Fin npix) {lonlat : List (ℝ × ℝ)} {eps : List ℂ}
    (hl : lonlat.length = eps.length) (kappa gamma1 gamma2 : Fin npix → ℝ) {i : ℕ} {p : ℝ × ℝ}
    (hp : lonlat[i]? = some p) (hk : kappa (pix p) = 1) :
    ∃ r, galaxyShearF chunk junk pix lonlat eps kappa gamma1 gamma2 true = .ok r ∧
      r[i]? = some none := by
  refine ⟨_, galaxy_shear_values hc junk pix hl kappa gamma1 gamma2 true, ?_⟩
  obtain ⟨hi, rfl⟩ := List.getElem?_eq_some_iff.1 hp
  rw [List.getElem?_eq_getElem (by simp; omega)]
  simp only [List.getElem_zipWith, lensedF, if_true, hk]
  have : quot (shearAt pix gamma1 gamma2 lonlat[i]) (1 - ((1 : ℝ) : ℂ)) = none :=
    quot_eq_none.2 (by simp)
  rw [this]
  rfl

/-! ## Combinations of windows -/

/-- `shells.py:1004-1012`: the weighted normalised window in one redshift.  Outside the window
`xp.interp` returns zero, inside a quotient by zero makes the result an infinity or NaN (`none`). -/
noncomputable def partF (z weight : ℝ) (w : RadialWindow) : Option ℝ :=
  open Classical in
  if InRange w.knots z ∧ trapezoid w.knots = 0 then none
  else some (weight * interp (some 0) (some 0)
    (w.knots.map fun k => (k.1, k.2 / trapezoid w.knots)) z)

/-- `shells.py:954-1012` `combine` in one redshift; `none` is an infinity or NaN. -/
noncomputable def combineF (z : ℝ) (weights : List ℝ) (shells : List RadialWindow) :
    Except Err (Option ℝ) :=
  let parts := shells.zip weights
  if parts = [] then .error (.value "need at least one array to stack")
  else if ∃ p ∈ parts, p.1.knots = [] then .error (.value "array of sample points is empty")
  else .ok ((parts.mapM fun p => partF z p.2 p.1).map List.sum)

theorem mapM_option_eq_some {α β : Type*} (f : α → Option β) (l : List α) (r : List β) :
    l.mapM f = some r ↔ List.Forall₂ (fun a b => f a = some b) l r := by
  induction l generalizing r with
  | nil => cases r <;> simp [pure]
  | cons a l ih =>
    rw [List.mapM_cons]
    rcases h : f a with _ | b
    · simp only [bind, Option.bind, reduceCtorEq, false_iff]
      rintro (_ | ⟨h1, h2⟩)
      rw [h] at h1
      cases h1
    · rcases h' : l.mapM f with _ | bs
      · simp only [bind, Option.bind, reduceCtorEq, false_iff]
        rintro (_ | ⟨h1, h2⟩)
        rw [(ih _).2 h2] at h'
        cases h'
      · simp only [bind, Option.bind, pure, Option.some.injEq]
        constructor
        · rintro rfl
          exact .cons h ((ih _).1 h')
        · rintro (_ | ⟨h1, h2⟩)
          rw [h] at h1
          rw [(ih _).2 h2] at h'
          simp only [Option.some.injEq] at h1 h'
          rw [h1, h']

/-- **C150**: the result of `combine` is a number, that of C34, exactly if no window that covers the
redshift has a vanishing integral. -/
theorem combine_finite_iff (z : ℝ) (weights : List ℝ) (shells : List RadialWindow) (r : ℝ) :
    combineF z weights shells = .ok (some r) ↔ combine z weights shells = .ok r ∧
      ∀ p ∈ shells.zip weights, InRange p.1.knots z → trapezoid p.1.knots ≠ 0 := by
  unfold combineF combine
  simp only
  split_ifs with h1 h2
  · simp
  · simp
  · simp only [Except.ok.injEq]
    constructor
    · intro h
      rcases hm : (shells.zip weights).mapM (fun p => partF z p.2 p.1) with _ | l
      · rw [hm] at h; cases h
      · rw [hm] at h
        simp only [Option.map_some, Option.some.injEq] at h
        have hf := (mapM_option_eq_some _ _ _).1 hm
        have hall : ∀ p ∈ shells.zip weights,
            ¬ (InRange p.1.knots z ∧ trapezoid p.1.knots = 0) := by
          intro p hp hbad
          obtain ⟨i, hi, rfl⟩ := List.getElem_of_mem hp
          have hb := (List.forall₂_iff_get.1 hf).2 i hi (by have := hf.length_eq; omega)
          simp only [List.get_eq_getElem] at hb
          rw [partF, if_pos hbad] at hb
          cases hb
        refine ⟨?_, fun p hp hr h0 => hall p hp ⟨hr, h0⟩⟩
        rw [← h]
        congr 1
        refine List.ext_getElem (by simpa using hf.length_eq) fun i hi hi' => ?_
        rw [List.length_map] at hi
        have := (List.forall₂_iff_get.1 hf).2 i hi hi'
        simp only [List.get_eq_getElem] at this
        rw [partF, if_neg (hall _ (List.getElem_mem hi)), Option.some.injEq] at this
        rw [List.getElem_map]
        exact this
    · rintro ⟨rfl, h⟩
      have : (shells.zip weights).mapM (fun p => partF z p.2 p.1) = some ((shells.zip weights).map
          fun p => p.2 * interp (some 0) (some 0)
            (p.1.knots.map fun k => (k.1, k.2 / trapezoid p.1.knots)) z) := by
        rw [mapM_option_eq_some, List.forall₂_map_right_iff, List.forall₂_same]
        intro p hp
        rw [partF, if_neg (fun hb => h p hp hb.1 hb.2)]
      rw [this]
      rfl

/-! ## Effective bias -/

/-- `points.py:75-112` `effective_bias`; `none` is an infinity or NaN. -/
noncomputable def effectiveBiasF (b : List (ℝ × ℝ)) (w : RadialWindow) : Except Err (Option ℝ) :=
  let norm := trapezoid w.knots
  (trapezoidProduct b [w.knots]).map fun t => quot t norm

/-- **C150**: the effective bias is a number, that of C37, exactly if the integral of the window does
not vanish. -/
theorem effective_bias_finite_iff (b : List (ℝ × ℝ)) (w : RadialWindow) (r : ℝ) :
    effectiveBiasF b w = .ok (some r) ↔ effectiveBias b w = .ok r ∧ trapezoid w.knots ≠ 0 := by
  unfold effectiveBiasF effectiveBias
  rcases trapezoidProduct b [w.knots] with e | t
  · simp [Except.map]
  · simp only [Except.map, Except.ok.injEq]
    by_cases h : trapezoid w.knots = 0
    · rw [quot_eq_none.2 h]
      simp [h]
    · simp [quot_of_ne h, h]

/-- The cases occur: an empty pixel, a void below minus one, and a flat window of value zero. -/
example : loglinearBiasE 1 2 = some ((loglinearBias 1 2 : ℝ) : EReal) ∧
    loglinearBiasE (-1) 2 = some (-1) ∧ loglinearBiasE (-2) 1 = none ∧
    combineF 1 [2] [⟨[(0, 0), (2, 0)], 1⟩] = .ok none ∧
    positionWeightsF [1, -1] (some [2]) = .ok [none, none] := by
  refine ⟨loglinear_bias_number (by norm_num) 2, (loglinear_bias_empty 2).1 (by norm_num),
    loglinear_bias_nan (by norm_num) 1, ?_, ?_⟩
  · have h : partF 1 2 ⟨[(0, 0), (2, 0)], 1⟩ = none := by
      rw [partF, if_pos]
      exact ⟨⟨(0, 0), (2, 0), rfl, rfl, by norm_num, by norm_num⟩, by norm_num [trapezoid]⟩
    simp [combineF, h, bind, Option.bind]
  · simp [positionWeightsF, broadcastArrays, bind, Except.bind, quot]

end Glass.Finite
