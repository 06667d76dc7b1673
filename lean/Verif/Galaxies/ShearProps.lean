import Mathlib.Analysis.Complex.Basic
import Verif.Galaxies.NzProps

/-!
# Lensed ellipticities (C65)
-/

namespace Glass.Galaxies

open NdArray

/-- One step of the loop over chunks. -/
theorem chunk_step {α : Type} {k K : List α} {i c : ℕ} (hk : k.length = K.length)
    (ht : k.take i = K.take i) (hi : i ≤ K.length) :
    setSlice k i (min K.length (i + c)) ((K.take (min K.length (i + c))).drop i) =
      .ok (k.take i ++ (K.take (min K.length (i + c))).drop i ++ k.drop (min K.length (i + c))) ∧
    (k.take i ++ (K.take (min K.length (i + c))).drop i ++ k.drop (min K.length (i + c))).length =
      K.length ∧
    (k.take i ++ (K.take (min K.length (i + c))).drop i ++
      k.drop (min K.length (i + c))).take (i + c) = K.take (i + c) := by
  refine ⟨setSlice_ok (by omega) (by simp; omega), ?_, ?_⟩
  · simp; omega
  · have e : k.take i ++ (K.take (min K.length (i + c))).drop i = K.take (min K.length (i + c)) := by
      rw [ht]
      conv_rhs => rw [← List.take_append_drop i (K.take (min K.length (i + c)))]
      have : (K.take (min K.length (i + c))).take i = K.take i := by
        rw [List.take_take, min_eq_left (by omega)]
      rw [this]
    rw [e]
    rcases le_total (i + c) K.length with h | h
    · rw [min_eq_right h, List.take_append_of_le_length (by simp; omega), List.take_take, min_self]
    · rw [min_eq_left h, List.take_length, ← hk, List.drop_length, List.append_nil]

/-- The loop over the chunks looks up the maps at every position. -/
theorem shearLoop_spec {npix chunk : ℕ} {pix : ℝ × ℝ → Fin npix}
    {lonlat : List (ℝ × ℝ)} {kappa gamma1 gamma2 : Fin npix → ℝ} :
    ∀ (m a : ℕ) (k : List ℝ) (g : List ℂ), k.length = lonlat.length → g.length = lonlat.length →
      (∀ j < m, (a + j) * chunk ≤ lonlat.length) → lonlat.length ≤ (a + m) * chunk →
      k.take (a * chunk) = (lonlat.map fun p => kappa (pix p)).take (a * chunk) →
      g.take (a * chunk) = (lonlat.map fun p =>
        (gamma1 (pix p) : ℂ) + Complex.I * gamma2 (pix p)).take (a * chunk) →
      shearLoop chunk pix lonlat kappa gamma1 gamma2 lonlat.length
        ((List.range' a m).map (· * chunk)) k g = .ok (lonlat.map fun p => kappa (pix p),
          lonlat.map fun p => (gamma1 (pix p) : ℂ) + Complex.I * gamma2 (pix p))
  | 0, a, k, g, hk, hg, _, hle, h1, h2 => by
    rw [List.take_of_length_le (by simpa [hk] using hle),
      List.take_of_length_le (by simpa using hle)] at h1
    rw [List.take_of_length_le (by simpa [hg] using hle),
      List.take_of_length_le (by simpa using hle)] at h2
    simp [shearLoop, h1, h2]
  | m + 1, a, k, g, hk, hg, hj, hle, h1, h2 => by
    rw [List.range'_succ, List.map_cons, shearLoop]
    have h0 := hj 0 (by omega)
    rw [add_zero] at h0
    obtain ⟨k1, k2, k3⟩ := chunk_step (c := chunk) (K := lonlat.map fun p => kappa (pix p))
      (by simpa using hk) h1 (by simpa using h0)
    obtain ⟨g1, g2, g3⟩ := chunk_step (c := chunk) (K := lonlat.map fun p =>
      (gamma1 (pix p) : ℂ) + Complex.I * gamma2 (pix p)) (by simpa using hg) h2 (by simpa using h0)
    simp only [List.length_map] at k1 k2 k3 g1 g2 g3
    simp only [bind, Except.bind, List.map_map, Function.comp_def, List.map_drop, List.map_take]
    rw [k1]
    simp only
    rw [g1]
    simp only
    have e : a * chunk + chunk = (a + 1) * chunk := by ring
    rw [e] at k3 g3
    refine shearLoop_spec m (a + 1) _ _ ?_ ?_ ?_ ?_ ?_ ?_
    · rw [e] at k2 ⊢; exact k2
    · rw [e] at g2 ⊢; exact g2
    · intro j hjm
      have := hj (j + 1) (by omega)
      rwa [show a + (j + 1) = a + 1 + j by ring] at this
    · rwa [show a + 1 + m = a + (m + 1) by ring]
    · rw [e] at *; exact k3
    · rw [e] at *; exact g3

/-- The shear of the maps at a position. -/
def shearAt {npix : ℕ} (pix : ℝ × ℝ → Fin npix) (gamma1 gamma2 : Fin npix → ℝ) (p : ℝ × ℝ) : ℂ :=
  ⟨gamma1 (pix p), gamma2 (pix p)⟩

/-- The reduced shear of the maps at a position. -/
noncomputable def reducedShearAt {npix : ℕ} (pix : ℝ × ℝ → Fin npix)
    (kappa gamma1 gamma2 : Fin npix → ℝ) (p : ℝ × ℝ) : ℂ :=
  shearAt pix gamma1 gamma2 p / (1 - kappa (pix p) : ℝ)

/-- The condition of weak lensing, `|gamma| < |1 - kappa|`: the reduced shear is a number and in the
unit disc. -/
def WeakAt {npix : ℕ} (pix : ℝ × ℝ → Fin npix) (kappa gamma1 gamma2 : Fin npix → ℝ)
    (p : ℝ × ℝ) : Prop :=
  ‖shearAt pix gamma1 gamma2 p‖ < |1 - kappa (pix p)|

theorem WeakAt.ne_one {npix : ℕ} {pix : ℝ × ℝ → Fin npix} {kappa gamma1 gamma2 : Fin npix → ℝ}
    {p : ℝ × ℝ} (h : WeakAt pix kappa gamma1 gamma2 p) : kappa (pix p) ≠ 1 := by
  intro hk
  have := (norm_nonneg _).trans_lt h
  rw [hk] at this
  simp at this

theorem WeakAt.lt_one {npix : ℕ} {pix : ℝ × ℝ → Fin npix} {kappa gamma1 gamma2 : Fin npix → ℝ}
    {p : ℝ × ℝ} (h : WeakAt pix kappa gamma1 gamma2 p) :
    ‖reducedShearAt pix kappa gamma1 gamma2 p‖ < 1 := by
  rw [reducedShearAt, norm_div, Complex.norm_real, Real.norm_eq_abs,
    div_lt_one ((norm_nonneg _).trans_lt h)]
  exact h

/-- Away from convergences of one, the condition says that the reduced shear is below one. -/
theorem weakAt_iff {npix : ℕ} (pix : ℝ × ℝ → Fin npix) (kappa gamma1 gamma2 : Fin npix → ℝ)
    (p : ℝ × ℝ) : WeakAt pix kappa gamma1 gamma2 p ↔
      kappa (pix p) ≠ 1 ∧ ‖reducedShearAt pix kappa gamma1 gamma2 p‖ < 1 := by
  refine ⟨fun h => ⟨h.ne_one, h.lt_one⟩, fun h => ?_⟩
  have h0 : 0 < |1 - kappa (pix p)| := abs_pos.2 (sub_ne_zero.2 h.1.symm)
  have := h.2
  rwa [reducedShearAt, norm_div, Complex.norm_real, Real.norm_eq_abs, div_lt_one h0] at this

/-- The lensed ellipticity: the Möbius transform of the unit disc that moves the origin to `g`. -/
noncomputable def lensed (e g : ℂ) : ℂ := (e + g) / (1 + (starRingEnd ℂ) g * e)

/-- The loop over the chunks collects the maps at the positions. -/
theorem galaxyShear_loop {npix chunk : ℕ} (hc : 0 < chunk) (junk : ℕ → ℝ)
    (pix : ℝ × ℝ → Fin npix) (lonlat : List (ℝ × ℝ)) (kappa gamma1 gamma2 : Fin npix → ℝ) :
    shearLoop chunk pix lonlat kappa gamma1 gamma2 lonlat.length
        ((List.range ((lonlat.length + (chunk - 1)) / chunk)).map (· * chunk))
        ((List.range lonlat.length).map junk) ((List.range lonlat.length).map fun i => (junk i : ℂ)) =
      .ok (lonlat.map fun p => kappa (pix p), lonlat.map (shearAt pix gamma1 gamma2)) := by
  have hloop := shearLoop_spec (chunk := chunk) (pix := pix) (lonlat := lonlat) (kappa := kappa)
    (gamma1 := gamma1) (gamma2 := gamma2) ((lonlat.length + (chunk - 1)) / chunk) 0
    ((List.range lonlat.length).map junk)
    ((List.range lonlat.length).map fun i => (junk i : ℂ)) (by simp) (by simp) (by
      intro j hj
      have := (Nat.lt_div_iff_mul_lt hc).1 hj
      rw [zero_add, mul_comm]
      have hm := mul_comm j chunk
      omega) (by
      rw [zero_add]
      have := Nat.div_add_mod (lonlat.length + (chunk - 1)) chunk
      have h2 := Nat.mod_lt (lonlat.length + (chunk - 1)) hc
      rw [mul_comm]
      omega) (by simp) (by simp)
  have hs : ∀ p : ℝ × ℝ, (gamma1 (pix p) : ℂ) + Complex.I * gamma2 (pix p) =
      shearAt pix gamma1 gamma2 p := fun p => by
    apply Complex.ext <;> simp [shearAt]
  rw [← List.range_eq_range'] at hloop
  simp only [hs] at hloop
  exact hloop

/-- The value of the model, in which `x / 0` is zero; the statements about the program below exclude
convergences of one. -/
theorem galaxyShear_eq {npix chunk : ℕ} (hc : 0 < chunk) (junk : ℕ → ℝ)
    (pix : ℝ × ℝ → Fin npix) {lonlat : List (ℝ × ℝ)} {eps : List ℂ}
    (hl : lonlat.length = eps.length) (kappa gamma1 gamma2 : Fin npix → ℝ) :
    galaxyShear chunk junk pix lonlat eps kappa gamma1 gamma2 true =
      .ok (List.zipWith (fun e p => lensed e (reducedShearAt pix kappa gamma1 gamma2 p))
        eps lonlat) ∧
    galaxyShear chunk junk pix lonlat eps kappa gamma1 gamma2 false =
      .ok (List.zipWith (fun e p => e + shearAt pix gamma1 gamma2 p) eps lonlat) := by
  have hloop := galaxyShear_loop hc junk pix lonlat kappa gamma1 gamma2
  constructor
  · unfold galaxyShear
    rw [if_neg (by simpa using hl)]
    simp only [bind, Except.bind]
    rw [hloop]
    simp only [if_true]
    congr 1
    refine List.ext_getElem (by simp [hl]) fun i h1 h2 => ?_
    simp only [List.getElem_zipWith, List.getElem_map, lensed, reducedShearAt, Complex.ofReal_sub,
      Complex.ofReal_one]
  · unfold galaxyShear
    rw [if_neg (by simpa using hl)]
    simp only [bind, Except.bind]
    rw [hloop]
    simp only [Bool.false_eq_true, if_false]
    congr 1
    refine List.ext_getElem (by simp [hl]) fun i h1 h2 => ?_
    rw [List.getElem_zipWith, List.getElem_map, List.getElem_zipWith]
    exact add_comm _ _

/-- C65: for every size of the chunks, the entry of each object is computed from its own
ellipticity and the maps at its own position. -/
theorem galaxy_shear_spec {npix chunk : ℕ} (hc : 0 < chunk) (junk : ℕ → ℝ)
    (pix : ℝ × ℝ → Fin npix) {lonlat : List (ℝ × ℝ)} {eps : List ℂ}
    (hl : lonlat.length = eps.length) (kappa gamma1 gamma2 : Fin npix → ℝ) :
    ((∀ p ∈ lonlat, kappa (pix p) ≠ 1) →
      (∀ i : Fin eps.length, 1 + (starRingEnd ℂ) (reducedShearAt pix kappa gamma1 gamma2
        (lonlat[i]'(by rw [hl]; exact i.2))) * eps[i] ≠ 0) →
      galaxyShear chunk junk pix lonlat eps kappa gamma1 gamma2 true =
        .ok (List.zipWith (fun e p => lensed e (reducedShearAt pix kappa gamma1 gamma2 p))
          eps lonlat)) ∧
    galaxyShear chunk junk pix lonlat eps kappa gamma1 gamma2 false =
      .ok (List.zipWith (fun e p => e + shearAt pix gamma1 gamma2 p) eps lonlat) :=
  ⟨fun _ _ => (galaxyShear_eq hc junk pix hl kappa gamma1 gamma2).1,
    (galaxyShear_eq hc junk pix hl kappa gamma1 gamma2).2⟩

/-- C65: the size of the chunks and the contents of the uninitialised arrays do not matter. -/
theorem galaxy_shear_chunks {npix c c' : ℕ} (hc : 0 < c) (hc' : 0 < c') (junk junk' : ℕ → ℝ)
    (pix : ℝ × ℝ → Fin npix) {lonlat : List (ℝ × ℝ)} {eps : List ℂ}
    (hl : lonlat.length = eps.length) (kappa gamma1 gamma2 : Fin npix → ℝ) (red : Bool) :
    galaxyShear c junk pix lonlat eps kappa gamma1 gamma2 red =
      galaxyShear c' junk' pix lonlat eps kappa gamma1 gamma2 red := by
  have h1 := galaxyShear_eq hc junk pix hl kappa gamma1 gamma2
  have h2 := galaxyShear_eq hc' junk' pix hl kappa gamma1 gamma2
  cases red
  · rw [h1.2, h2.2]
  · rw [h1.1, h2.1]

theorem normSq_lensed (e g : ℂ) :
    Complex.normSq (1 + (starRingEnd ℂ) g * e) - Complex.normSq (e + g) =
      (1 - Complex.normSq e) * (1 - Complex.normSq g) := by
  simp only [Complex.normSq_apply, Complex.add_re, Complex.add_im, Complex.mul_re, Complex.mul_im,
    Complex.conj_re, Complex.conj_im, Complex.one_re, Complex.one_im]
  ring

theorem one_add_conj_ne_zero {e g : ℂ} (he : ‖e‖ < 1) (hg : ‖g‖ < 1) :
    1 + (starRingEnd ℂ) g * e ≠ 0 := by
  intro h
  have h1 : ‖(starRingEnd ℂ) g * e‖ < 1 := by
    rw [norm_mul, Complex.norm_conj]
    nlinarith [norm_nonneg e, norm_nonneg g]
  have h2 : (starRingEnd ℂ) g * e = -1 := by linear_combination h
  rw [h2] at h1
  simp at h1

/-- C65: the lensed ellipticity is in the unit disc. -/
theorem lensed_norm_lt {e g : ℂ} (he : ‖e‖ < 1) (hg : ‖g‖ < 1) : ‖lensed e g‖ < 1 := by
  have h0 := one_add_conj_ne_zero he hg
  rw [lensed, norm_div, div_lt_one (norm_pos_iff.2 h0)]
  have hsq := normSq_lensed e g
  simp only [Complex.normSq_eq_norm_sq] at hsq
  have he2 : ‖e‖ ^ 2 < 1 := by nlinarith [norm_nonneg e]
  have hg2 : ‖g‖ ^ 2 < 1 := by nlinarith [norm_nonneg g]
  have : 0 < (1 - ‖e‖ ^ 2) * (1 - ‖g‖ ^ 2) := mul_pos (by linarith) (by linarith)
  exact lt_of_pow_lt_pow_left₀ 2 (norm_nonneg _) (by linarith)

/-- C65: without shear nothing happens. -/
theorem lensed_zero (e : ℂ) : lensed e 0 = e := by simp [lensed]

/-- A round galaxy takes the ellipticity of the reduced shear. -/
theorem lensed_round (g : ℂ) : lensed 0 g = g := by simp [lensed]

/-- C65: the opposite shear undoes the lensing. -/
theorem lensed_neg {e g : ℂ} (he : ‖e‖ < 1) (hg : ‖g‖ < 1) : lensed (lensed e g) (-g) = e := by
  have h0 := one_add_conj_ne_zero he hg
  have h1 := one_add_conj_ne_zero (lensed_norm_lt he hg) (by simpa using hg : ‖-g‖ < 1)
  have hg1 : (1 - (starRingEnd ℂ) g * g) ≠ 0 := by
    intro h
    rw [mul_comm, Complex.mul_conj, Complex.normSq_eq_norm_sq] at h
    have : (1 - ‖g‖ ^ 2 : ℝ) = 0 := by exact_mod_cast h
    nlinarith [norm_nonneg g]
  unfold lensed at h1 ⊢
  rw [div_eq_iff h1, map_neg]
  generalize (starRingEnd ℂ) g = c at *
  have hx : (e + g) / (1 + c * e) * (1 + c * e) = e + g := div_mul_cancel₀ _ h0
  generalize (e + g) / (1 + c * e) = x at *
  linear_combination hx

/-- C65, at the level of the function: every result is in the unit disc. -/
theorem galaxy_shear_disc {npix chunk : ℕ} (hc : 0 < chunk) (junk : ℕ → ℝ)
    (pix : ℝ × ℝ → Fin npix) {lonlat : List (ℝ × ℝ)} {eps : List ℂ}
    (hl : lonlat.length = eps.length) (kappa gamma1 gamma2 : Fin npix → ℝ)
    (he : ∀ e ∈ eps, ‖e‖ < 1) (hg : ∀ p ∈ lonlat, WeakAt pix kappa gamma1 gamma2 p) :
    ∃ r, galaxyShear chunk junk pix lonlat eps kappa gamma1 gamma2 true = .ok r ∧
      r.length = eps.length ∧ ∀ x ∈ r, ‖x‖ < 1 := by
  refine ⟨_, (galaxyShear_eq hc junk pix hl kappa gamma1 gamma2).1, by simp [hl], ?_⟩
  intro x hx
  obtain ⟨i, hi, rfl⟩ := List.getElem_of_mem hx
  rw [List.getElem_zipWith]
  exact lensed_norm_lt (he _ (List.getElem_mem _)) (hg _ (List.getElem_mem _)).lt_one

/-- C65, at the level of the function: maps without shear leave the ellipticities unchanged,
whatever the convergence, if it differs from one. -/
theorem galaxy_shear_zero {npix chunk : ℕ} (hc : 0 < chunk) (junk : ℕ → ℝ)
    (pix : ℝ × ℝ → Fin npix) {lonlat : List (ℝ × ℝ)} {eps : List ℂ}
    (hl : lonlat.length = eps.length) (kappa : Fin npix → ℝ) (red : Bool)
    (_hk : ∀ p ∈ lonlat, red = true → kappa (pix p) ≠ 1) :
    galaxyShear chunk junk pix lonlat eps kappa (fun _ => 0) (fun _ => 0) red = .ok eps := by
  have h := galaxyShear_eq hc junk pix hl kappa (fun _ => 0) (fun _ => 0)
  have hs : ∀ p, shearAt pix (fun _ => 0) (fun _ => 0) p = 0 := fun p => rfl
  cases red
  · rw [h.2]
    congr 1
    refine List.ext_getElem (by simp [hl]) fun i h1 h2 => ?_
    simp [hs]
  · rw [h.1]
    congr 1
    refine List.ext_getElem (by simp [hl]) fun i h1 h2 => ?_
    simp [reducedShearAt, hs, lensed_zero]

/-- C65, at the level of the function: a second call with the opposite shear maps restores the
ellipticities. -/
theorem galaxy_shear_undo {npix chunk : ℕ} (hc : 0 < chunk) (junk : ℕ → ℝ)
    (pix : ℝ × ℝ → Fin npix) {lonlat : List (ℝ × ℝ)} {eps : List ℂ}
    (hl : lonlat.length = eps.length) (kappa gamma1 gamma2 : Fin npix → ℝ)
    (he : ∀ e ∈ eps, ‖e‖ < 1) (hg : ∀ p ∈ lonlat, WeakAt pix kappa gamma1 gamma2 p) :
    ∃ r, galaxyShear chunk junk pix lonlat eps kappa gamma1 gamma2 true = .ok r ∧
      galaxyShear chunk junk pix lonlat r kappa (fun i => -gamma1 i) (fun i => -gamma2 i) true =
        .ok eps := by
  refine ⟨_, (galaxyShear_eq hc junk pix hl kappa gamma1 gamma2).1, ?_⟩
  rw [(galaxyShear_eq hc junk pix (by simp [hl]) kappa _ _).1]
  congr 1
  refine List.ext_getElem (by simp [hl]) fun i h1 h2 => ?_
  have hi : i < lonlat.length := by omega
  have hn : reducedShearAt pix kappa (fun i => -gamma1 i) (fun i => -gamma2 i) lonlat[i] =
      -reducedShearAt pix kappa gamma1 gamma2 lonlat[i] := by
    have : shearAt pix (fun i => -gamma1 i) (fun i => -gamma2 i) lonlat[i] =
        -shearAt pix gamma1 gamma2 lonlat[i] := by apply Complex.ext <;> simp [shearAt]
    rw [reducedShearAt, this, neg_div, reducedShearAt]
  simp only [List.getElem_zipWith, hn]
  exact lensed_neg (he _ (List.getElem_mem _)) (hg _ (List.getElem_mem hi)).lt_one

/-- Concrete case: two galaxies in two pixels. -/
example : ∃ r, galaxyShear 10000 (fun _ => 7) (fun p => if p.1 < 180 then (0 : Fin 2) else 1)
    [(10, 20), (200, -5)] [1 / 2, Complex.I / 2] (fun _ => 1 / 2) (fun i => if i = 0 then 1 / 4 else 0)
    (fun _ => 0) true = .ok r ∧ r.length = 2 ∧ ∀ x ∈ r, ‖x‖ < 1 := by
  apply galaxy_shear_disc (by norm_num) _ _ rfl
  · intro e he
    simp only [List.mem_cons, List.not_mem_nil, or_false] at he
    rcases he with rfl | rfl <;> norm_num
  · intro p hp
    rw [weakAt_iff]
    refine ⟨by norm_num, ?_⟩
    simp only [List.mem_cons, List.not_mem_nil, or_false] at hp
    have e1 : (⟨1 / 4, 0⟩ : ℂ) = ((1 / 4 : ℝ) : ℂ) := by apply Complex.ext <;> simp
    have e2 : (⟨0, 0⟩ : ℂ) = 0 := rfl
    rcases hp with rfl | rfl
    · simp only [reducedShearAt, shearAt]
      norm_num
      rw [show (⟨1 / 4, 0⟩ : ℂ) = ((1 / 4 : ℝ) : ℂ) from e1, Complex.norm_real]
      norm_num
    · simp only [reducedShearAt, shearAt]
      norm_num [e2]

end Glass.Galaxies
