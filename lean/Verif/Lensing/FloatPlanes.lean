import Mathlib.Tactic.Linarith
import Mathlib.Tactic.Positivity
import Mathlib.Tactic.FieldSimp
import Verif.Lensing.PlaneProps
import Verif.Galaxies.FloatSampling
import Verif.Grf.FloatIternorm

/-!
# Multi-plane convergence in floating point (C154)

The recurrence of the convergence extrapolates from the last two planes.  A rounding error of one step
is propagated like the lensing by one more matter plane.
-/

namespace Glass.Lensing

open Glass.Num Glass.Shells Glass.Spectra

/-! ## Model -/

/-- `lensing.py:511-586` `add_plane` with every operation rounded. -/
noncomputable def MPC.addPlaneFl {P : Type} (fl : ℝ → ℝ) (cosmo : Cosmology) (s : MPC P)
    (delta : P → ℝ) (zsrc wlens : ℝ) : Option Err × MPC P :=
  let s := s.initialiseInputs
  if zsrc ≤ s.z3 then (some (.value "source redshift must be increasing"), s)
  else
    let delta2 := s.delta3.getD fun _ => 0
    let z1 := s.z2
    let z2 := s.z3
    let z3 := zsrc
    let w2 := s.w3
    let x2 := s.x3
    let x3 := fl (cosmo.distance z3 / cosmo.hubbleDistance)
    let r12 := s.r23
    let r13 := fl (cosmo.distance2 z1 z3 / fl (cosmo.hubbleDistance * x3))
    let r23 := fl (cosmo.distance2 z2 z3 / fl (cosmo.hubbleDistance * x3))
    let t := fl (r13 / r12)
    let f := fl (fl (3 * cosmo.OmegaM0) / 2)
    let f := fl (f * fl (x2 * r23))
    let f := fl (f * fl (fl (1 + z2) / cosmo.HoverH0 z2))
    let f := fl (f * w2)
    let planes := match s.planes with
      | none => ({ buf := fun _ _ => 0, cur := true } : Planes P)
      | some p => p
    let cur := !planes.cur
    let kappa2 := planes.buf planes.cur
    let kappa3 := planes.buf cur
    let kappa3 := fun p => fl (kappa3 p * fl (1 - t))
    let kappa3 := fun p => fl (kappa3 p + fl (t * kappa2 p))
    let kappa3 := fun p => fl (kappa3 p + fl (f * delta2 p))
    (none, { z2 := z2, z3 := z3, x3 := x3, w3 := wlens, r23 := r23, delta3 := some delta,
             planes := some { buf := fun b => if b = cur then kappa3 else kappa2, cur := cur } })

/-- Calls of `add_plane` with rounded operations, oldest first. -/
noncomputable def addAllFl {P : Type} (fl : ℝ → ℝ) (c : Cosmology) (s : MPC P) (ps : List (Plane P)) :
    MPC P :=
  ps.foldl (fun s p => (s.addPlaneFl fl c p.delta p.z p.w).2) s

/-! ## Specification -/

/-- The ratio of distances of a source behind a lens. -/
noncomputable def lensRatio (c : Cosmology) (u z : ℝ) : ℝ := x2Of c u z / xOf c z

/-- The state with exact geometry. -/
noncomputable def exactState {P : Type} (c : Cosmology) (s : MPC P) : MPC P :=
  open Classical in
  { s with x3 := xOf c s.z3, r23 := if s.z3 = 0 then 1 else lensRatio c s.z2 s.z3 }

/-- The rounding error of one call: the difference between the computed convergence, and the exact one
for the same previous planes. -/
noncomputable def stepError {P : Type} (fl : ℝ → ℝ) (c : Cosmology) (s : MPC P) (n : Plane P) (p : P) :
    ℝ :=
  (s.addPlaneFl fl c n.delta n.z n.w).2.kappa.getD (fun _ => 0) p -
    ((exactState c s).addPlane c n.delta n.z n.w).2.kappa.getD (fun _ => 0) p

/-- Error of the convergence at redshift `source` after a plane at redshift `lens`. -/
structure Defect (P : Type) where
  lens : ℝ
  source : ℝ
  error : P → ℝ

/-- The rounding errors of all calls, oldest first. -/
noncomputable def defects {P : Type} (fl : ℝ → ℝ) (c : Cosmology) :
    MPC P → List (Plane P) → List (Defect P)
  | _, [] => []
  | s, n :: ps => ⟨s.z3, n.z, stepError fl c s n⟩ ::
      defects fl c (s.addPlaneFl fl c n.delta n.z n.w).2 ps

/-- The errors, propagated to redshift `z`. -/
noncomputable def defectSum {P : Type} (c : Cosmology) (ds : List (Defect P)) (z : ℝ) (p : P) : ℝ :=
  (ds.map fun d => d.error p * (lensRatio c d.lens z / lensRatio c d.lens d.source)).sum

/-! ## Propagation -/

/-- **C154** Without rounding, this is the model of the method. -/
theorem add_plane_fl_real {P : Type} (c : Cosmology) (s : MPC P) (delta : P → ℝ) (z w : ℝ) :
    s.addPlaneFl id c delta z w = s.addPlane c delta z w := by rfl

theorem lensRatio_self {c : Cosmology} (hg : Geometry c) {a : ℝ} (ha : 0 ≤ a) : lensRatio c a a = 0 := by
  obtain ⟨C, -, hC⟩ := hg.addition
  unfold lensRatio
  rw [hC a a ha le_rfl, sub_self, zero_div]

theorem lensRatio_ne {c : Cosmology} (hg : Geometry c) {a b : ℝ} (ha : 0 ≤ a) (hab : a < b) :
    lensRatio c a b ≠ 0 := div_ne_zero (hg.between a b ha hab) (hg.pos b (ha.trans_lt hab))

/-- The recurrence for one lens. -/
theorem ratio_recurrence {c : Cosmology} (hg : Geometry c) {u a b z : ℝ} (hu : 0 ≤ u) (hua : u ≤ a)
    (hab : a < b) (hbz : b < z) :
    lensRatio c u z = lensRatio c u a * (1 - lensRatio c a z / lensRatio c a b) +
      lensRatio c a z / lensRatio c a b * lensRatio c u b := by
  rcases (hu.trans hua).eq_or_lt with ha | ha
  · subst ha
    have : u = 0 := le_antisymm hua hu
    subst this
    have h1 : lensRatio c 0 z = 1 := first_ratio hg (hab.trans hbz)
    have h2 : lensRatio c 0 b = 1 := first_ratio hg hab
    rw [h1, h2]; simp
  · obtain ⟨C, -, hC⟩ := hg.addition
    have hb : 0 < b := ha.trans hab
    have hz : 0 < z := hb.trans hbz
    have hne := lensRatio_ne hg ha.le hab
    have hr : ∀ u v, 0 ≤ u → u ≤ v → 0 < v → lensRatio c u v = C u - xOf c u * (C v / xOf c v) :=
      fun u v h1 h2 h3 => ratio_eq hg hC h1 h2 h3
    have hxa := hg.pos a ha
    have hCa : C a = xOf c a * (C a / xOf c a) := by field_simp
    generalize ht : lensRatio c a z / lensRatio c a b = t
    have ht' : t * lensRatio c a b = lensRatio c a z := by rw [← ht]; exact div_mul_cancel₀ _ hne
    rw [hr u z hu (hua.trans (hab.trans hbz).le) hz, hr u a hu hua ha, hr u b hu (hua.trans hab.le) hb]
    rw [hr a b ha.le hab.le hb, hr a z ha.le (hab.trans hbz).le hz] at ht'
    generalize C z / xOf c z = qz at *
    generalize C b / xOf c b = qb at *
    generalize C a / xOf c a = qa at *
    rw [hCa] at ht'
    have : xOf c a * (qa * (1 - t) + t * qb - qz) = 0 := by linear_combination -ht'
    have h0 : qa * (1 - t) + t * qb - qz = 0 := by
      rcases mul_eq_zero.1 this with h | h
      · exact absurd h hxa
      · exact h
    linear_combination xOf c u * h0

theorem lensingSum_recurrence {P : Type} {c : Cosmology} (hg : Geometry c) {a b z : ℝ} (hab : a < b)
    (hbz : b < z) (p : P) : ∀ l : List (Plane P), (∀ q ∈ l, 0 ≤ q.z ∧ q.z ≤ a) →
    lensingSum c l z p = lensingSum c l a p * (1 - lensRatio c a z / lensRatio c a b) +
      lensRatio c a z / lensRatio c a b * lensingSum c l b p
  | [], _ => by simp [lensingSum]
  | q :: l, h => by
    have ih := lensingSum_recurrence hg hab hbz p l fun q hq => h q (by simp [hq])
    have hq := h q (by simp)
    have hr := ratio_recurrence hg hq.1 hq.2 hab hbz
    unfold lensingSum at ih ⊢
    simp only [List.map_cons, List.sum_cons]
    rw [ih]
    unfold lensRatio at hr ⊢
    linear_combination (3 / 2 * c.OmegaM0 * xOf c q.z * ((1 + q.z) / c.HoverH0 q.z) * q.w *
      q.delta p) * hr

theorem defectSum_recurrence {P : Type} {c : Cosmology} (hg : Geometry c) {a b z : ℝ} (hab : a < b)
    (hbz : b < z) (p : P) : ∀ l : List (Defect P), (∀ q ∈ l, 0 ≤ q.lens ∧ q.lens ≤ a) →
    defectSum c l z p = defectSum c l a p * (1 - lensRatio c a z / lensRatio c a b) +
      lensRatio c a z / lensRatio c a b * defectSum c l b p
  | [], _ => by simp [defectSum]
  | q :: l, h => by
    have ih := defectSum_recurrence hg hab hbz p l fun q hq => h q (by simp [hq])
    have hq := h q (by simp)
    have hr := ratio_recurrence hg hq.1 hq.2 hab hbz
    unfold defectSum at ih ⊢
    simp only [List.map_cons, List.sum_cons]
    rw [ih]
    generalize lensRatio c a z / lensRatio c a b = t at *
    rw [hr]
    ring

/-- Contents of the state after the planes `hist` with the errors `ds` (newest first). -/
def InvariantFl {P : Type} (c : Cosmology) (s : MPC P) (ds : List (Defect P)) : List (Plane P) → Prop
  | [] => s.z2 = 0 ∧ s.z3 = 0 ∧ s.w3 = 0 ∧ (∀ d, s.delta3 = some d → ∀ p, d p = 0) ∧
      s.planes = none ∧ ds = []
  | b :: rest => 0 ≤ s.z2 ∧ s.z2 < b.z ∧ s.z3 = b.z ∧ s.w3 = b.w ∧ s.delta3 = some b.delta ∧
      (∀ q ∈ rest, 0 ≤ q.z ∧ q.z ≤ s.z2) ∧ (∀ d ∈ ds, 0 ≤ d.lens ∧ d.lens ≤ s.z2) ∧
      ∃ pl, s.planes = some pl ∧
        (∀ p, pl.buf pl.cur p = lensingSum c rest b.z p + defectSum c ds b.z p) ∧
        ∀ p, pl.buf (!pl.cur) p = lensingSum c rest s.z2 p + defectSum c ds s.z2 p

theorem invariantFl_step {P : Type} (fl : ℝ → ℝ) {c : Cosmology} (hg : Geometry c) (s : MPC P)
    (ds : List (Defect P)) (hist : List (Plane P)) (hs : InvariantFl c s ds hist) (n : Plane P)
    (hok : (s.addPlaneFl fl c n.delta n.z n.w).1 = none) :
    InvariantFl c (s.addPlaneFl fl c n.delta n.z n.w).2 (⟨s.z3, n.z, stepError fl c s n⟩ :: ds)
      (n :: hist) := by
  match hist, hs with
  | [], ⟨h1, h2, h3, h4, h5, h6⟩ =>
    subst h6
    have i1 : s.initialiseInputs.z2 = 0 := by unfold MPC.initialiseInputs; split <;> exact h1
    have i2 : s.initialiseInputs.z3 = 0 := by unfold MPC.initialiseInputs; split <;> exact h2
    have i3 : s.initialiseInputs.w3 = 0 := by unfold MPC.initialiseInputs; split <;> exact h3
    have i5 : s.initialiseInputs.planes = none := by
      unfold MPC.initialiseInputs; split <;> exact h5
    have hz : ¬ n.z ≤ s.initialiseInputs.z3 := by
      intro h
      simp [MPC.addPlaneFl, h] at hok
    have hz' : 0 < n.z := by rw [i2] at hz; exact not_le.1 hz
    have hk : ∀ p, ((exactState c s).addPlane c n.delta n.z n.w).2.kappa.getD (fun _ => 0) p = 0 := by
      intro p
      have e2 : (exactState c s).initialiseInputs.z3 = 0 := by
        unfold MPC.initialiseInputs exactState; split <;> exact h2
      have e3 : (exactState c s).initialiseInputs.w3 = 0 := by
        unfold MPC.initialiseInputs exactState; split <;> exact h3
      have e5 : (exactState c s).initialiseInputs.planes = none := by
        unfold MPC.initialiseInputs exactState; split <;> exact h5
      simp only [MPC.addPlane, e2, if_neg (not_le.2 hz'), e5, MPC.kappa, Option.map_some,
        Option.getD_some, if_true, e3]
      simp
    have hE : ∀ p, stepError fl c s n p =
        (s.addPlaneFl fl c n.delta n.z n.w).2.kappa.getD (fun _ => 0) p := by
      intro p; unfold stepError; rw [hk p, sub_zero]
    have hr : lensRatio c 0 n.z = 1 := first_ratio hg hz'
    refine ⟨?_, ?_, ?_, ?_, ?_, by simp, ?_, ?_⟩
    · simp [MPC.addPlaneFl, i2, not_le.2 hz']
    · simp [MPC.addPlaneFl, i2, not_le.2 hz', hz']
    · simp [MPC.addPlaneFl, i2, not_le.2 hz']
    · simp [MPC.addPlaneFl, i2, not_le.2 hz']
    · simp [MPC.addPlaneFl, i2, not_le.2 hz']
    · intro d hd
      rw [List.mem_singleton] at hd
      subst hd
      simp [MPC.addPlaneFl, i2, not_le.2 hz', h2]
    · have hpl : (s.addPlaneFl fl c n.delta n.z n.w).2.planes ≠ none := by
        simp [MPC.addPlaneFl, i2, not_le.2 hz']
      obtain ⟨pl, hpl⟩ := Option.ne_none_iff_exists'.1 hpl
      refine ⟨pl, hpl, fun p => ?_, fun p => ?_⟩
      · have : stepError fl c s n p = pl.buf pl.cur p := by
          rw [hE]; simp [MPC.kappa, hpl]
        simp only [lensingSum, defectSum, List.map_nil, List.sum_nil, List.map_cons, List.sum_cons, h2,
          hr, this]
        ring
      · have hz2 : (s.addPlaneFl fl c n.delta n.z n.w).2.z2 = 0 := by
          simp [MPC.addPlaneFl, i2, not_le.2 hz']
        have hb : pl.buf (!pl.cur) p = 0 := by
          simp only [MPC.addPlaneFl, i2, if_neg (not_le.2 hz'), i5, Option.some.injEq] at hpl
          rw [← hpl]; simp
        rw [hz2, hb]
        simp [lensingSum, defectSum, h2, lensRatio_self hg le_rfl]
  | b :: rest, ⟨h0, hab, h2, h4, h6, hrest, hds, pl, h7, h8, h9⟩ =>
    have hi : s.initialiseInputs = s := by unfold MPC.initialiseInputs; rw [h6]
    have hz : ¬ n.z ≤ s.z3 := by
      intro h
      simp [MPC.addPlaneFl, hi, h] at hok
    have hbz : b.z < n.z := by rw [h2] at hz; exact not_le.1 hz
    have hb : 0 < b.z := h0.trans_lt hab
    have hk : ∀ p, ((exactState c s).addPlane c n.delta n.z n.w).2.kappa.getD (fun _ => 0) p =
        lensingSum c (b :: rest) n.z p + defectSum c ds n.z p := by
      intro p
      have ei : (exactState c s).initialiseInputs = exactState c s := by
        unfold MPC.initialiseInputs exactState; simp only [h6]
      have e3 : (exactState c s).z3 = b.z := h2
      have ez2 : (exactState c s).z2 = s.z2 := rfl
      have ew : (exactState c s).w3 = b.w := h4
      have ed : (exactState c s).delta3 = some b.delta := h6
      have ep : (exactState c s).planes = some pl := h7
      have ex : (exactState c s).x3 = xOf c b.z := by unfold exactState; simp only [h2]
      have er : (exactState c s).r23 = lensRatio c s.z2 b.z := by
        unfold exactState; simp only [h2, if_neg hb.ne']
      have hL := lensingSum_recurrence hg hab hbz p rest hrest
      have hD := defectSum_recurrence hg hab hbz p ds hds
      have hb1 : lensingSum c (b :: rest) n.z p =
          3 / 2 * c.OmegaM0 * xOf c b.z * ((1 + b.z) / c.HoverH0 b.z) * b.w *
            lensRatio c b.z n.z * b.delta p + lensingSum c rest n.z p := by
        simp [lensingSum, lensRatio]
      simp only [MPC.addPlane, ei, e3, if_neg (not_le.2 hbz), ep, MPC.kappa, Option.map_some,
        Option.getD_some, if_true, ew, ed, ex, er, ez2, h8, h9, div_mul_hubble hg]
      rw [hb1, hL, hD]
      change _ * (1 - lensRatio c s.z2 n.z / lensRatio c s.z2 b.z) +
        lensRatio c s.z2 n.z / lensRatio c s.z2 b.z * _ +
        3 * c.OmegaM0 / 2 * (xOf c b.z * lensRatio c b.z n.z) * _ * _ * _ = _
      ring
    have hne := lensRatio_ne hg hb.le hbz
    have hz2 : (s.addPlaneFl fl c n.delta n.z n.w).2.z2 = b.z := by
      simp [MPC.addPlaneFl, hi, h2, not_le.2 hbz]
    refine ⟨by rw [hz2]; exact hb.le, by rw [hz2]; exact hbz, ?_, ?_, ?_, ?_, ?_, ?_⟩
    · simp [MPC.addPlaneFl, hi, h2, not_le.2 hbz]
    · simp [MPC.addPlaneFl, hi, h2, not_le.2 hbz]
    · simp [MPC.addPlaneFl, hi, h2, not_le.2 hbz]
    · intro q hq
      rw [hz2]
      rcases List.mem_cons.1 hq with rfl | hq
      · exact ⟨hb.le, le_rfl⟩
      · exact ⟨(hrest q hq).1, (hrest q hq).2.trans hab.le⟩
    · intro d hd
      rw [hz2]
      rcases List.mem_cons.1 hd with rfl | hd
      · exact ⟨by simpa [h2] using hb.le, by simp [h2]⟩
      · exact ⟨(hds d hd).1, (hds d hd).2.trans hab.le⟩
    · have hpl : (s.addPlaneFl fl c n.delta n.z n.w).2.planes ≠ none := by
        simp [MPC.addPlaneFl, hi, h2, not_le.2 hbz]
      obtain ⟨pl', hpl⟩ := Option.ne_none_iff_exists'.1 hpl
      refine ⟨pl', hpl, fun p => ?_, fun p => ?_⟩
      · have hE : stepError fl c s n p = pl'.buf pl'.cur p -
            (lensingSum c (b :: rest) n.z p + defectSum c ds n.z p) := by
          unfold stepError; rw [hk p]; simp [MPC.kappa, hpl]
        have hc : defectSum c (⟨s.z3, n.z, stepError fl c s n⟩ :: ds) n.z p =
            stepError fl c s n p * (lensRatio c b.z n.z / lensRatio c b.z n.z) + defectSum c ds n.z p := by
          simp [defectSum, h2]
        rw [hc, div_self hne, hE]; ring
      · have hbuf : pl'.buf (!pl'.cur) p = pl.buf pl.cur p := by
          simp only [MPC.addPlaneFl, hi, h2, if_neg (not_le.2 hbz), h7, Option.some.injEq] at hpl
          rw [← hpl]; simp
        have hc : defectSum c (⟨s.z3, n.z, stepError fl c s n⟩ :: ds) b.z p = defectSum c ds b.z p := by
          simp [defectSum, h2, lensRatio_self hg hb.le]
        have hc2 : lensingSum c (b :: rest) b.z p = lensingSum c rest b.z p := by
          have := lensRatio_self hg hb.le
          unfold lensRatio at this
          simp [lensingSum, this]
        rw [hbuf, hz2, h8, hc, hc2]

/-- All calls succeed. -/
noncomputable def AllOkFl {P : Type} (fl : ℝ → ℝ) (c : Cosmology) : MPC P → List (Plane P) → Prop
  | _, [] => True
  | s, p :: ps => (s.addPlaneFl fl c p.delta p.z p.w).1 = none ∧
      AllOkFl fl c (s.addPlaneFl fl c p.delta p.z p.w).2 ps

/-- The calls succeed exactly for increasing positive redshifts. -/
theorem all_ok_fl_iff {P : Type} (fl : ℝ → ℝ) (c : Cosmology) (ps : List (Plane P)) :
    ∀ s : MPC P, AllOkFl fl c s ps ↔ (s.z3 :: ps.map Plane.z).IsChain (· < ·) := by
  induction ps with
  | nil => intro s; simp [AllOkFl]
  | cons n ps ih =>
    intro s
    have hz : s.initialiseInputs.z3 = s.z3 := by unfold MPC.initialiseInputs; split <;> rfl
    by_cases h : n.z ≤ s.z3
    · have : ¬ s.z3 < n.z := not_lt.2 h
      simp [AllOkFl, MPC.addPlaneFl, hz, h, this]
    · have h' := not_le.1 h
      have e : (s.addPlaneFl fl c n.delta n.z n.w).2.z3 = n.z := by simp [MPC.addPlaneFl, hz, h]
      have e1 : (s.addPlaneFl fl c n.delta n.z n.w).1 = none := by simp [MPC.addPlaneFl, hz, h]
      unfold AllOkFl
      rw [ih, e, List.map_cons, List.isChain_cons_cons]
      simp [e1, h']

/-- **C154** The computed convergence is the lensing sum, and the sum of the rounding errors of all
calls, each propagated like lensing by a plane at the redshift where it occurred. -/
theorem float_convergence {P : Type} (fl : ℝ → ℝ) {c : Cosmology} (hg : Geometry c)
    (before : List (Plane P)) (last : Plane P)
    (hok : (0 :: (before ++ [last]).map Plane.z).IsChain (· < ·)) :
    ∃ k, (addAllFl fl c (MPC.init P) (before ++ [last])).kappa = some k ∧
      ∀ p, k p = lensingSum c before last.z p +
        defectSum c (defects fl c (MPC.init P) (before ++ [last])) last.z p := by
  have key : ∀ (ps : List (Plane P)) (s : MPC P) (ds : List (Defect P)) (hist : List (Plane P)),
      InvariantFl c s ds hist → AllOkFl fl c s ps →
      InvariantFl c (addAllFl fl c s ps) ((defects fl c s ps).reverse ++ ds) (ps.reverse ++ hist) := by
    intro ps
    induction ps with
    | nil => intro s ds hist h _; exact h
    | cons n ps ih =>
      intro s ds hist h hok
      have := ih _ _ (n :: hist) (invariantFl_step fl hg s ds hist h n hok.1) hok.2
      simpa [addAllFl, defects] using this
  have hI := key (before ++ [last]) (MPC.init P) [] [] (by simp [InvariantFl, MPC.init])
    ((all_ok_fl_iff fl c _ _).2 hok)
  rw [List.reverse_append, List.reverse_singleton, List.append_nil, List.append_nil,
    List.singleton_append] at hI
  obtain ⟨_, _, _, _, _, _, _, pl, h7, h8, _⟩ := hI
  refine ⟨pl.buf pl.cur, by simp [MPC.kappa, h7], fun p => ?_⟩
  rw [h8]
  unfold lensingSum defectSum
  rw [List.map_reverse, List.sum_reverse, List.map_reverse, List.sum_reverse]

/-! ## Size of the errors -/

/-- `y` is `x` after `k` relative errors. -/
def Rel (k : ℕ) (x y : ℝ) : Prop :=
  ∃ a : ℝ, y = x * a ∧ (1 - 1 / 2 ^ 53) ^ k ≤ a ∧ a ≤ ((1 - 1 / 2 ^ 53) ^ k)⁻¹

theorem Rel.refl (x : ℝ) : Rel 0 x x := ⟨1, by simp⟩

theorem Rel.fl (R : Rounding) (x : ℝ) : Rel 1 x (R.fl x) := by
  rcases eq_or_ne x 0 with rfl | hx
  · refine ⟨1, by simp [R.zero], by norm_num, by norm_num⟩
  · have h := R.error x
    have h1 : |R.fl x / x - 1| ≤ 1 / 2 ^ 53 := by
      have : R.fl x / x - 1 = (R.fl x - x) / x := by field_simp
      rw [this, abs_div, div_le_iff₀ (abs_pos.2 hx)]
      calc |R.fl x - x| ≤ |x| / 2 ^ 53 := h
        _ = _ := by ring
    rw [abs_le] at h1
    refine ⟨R.fl x / x, by field_simp, by rw [pow_one]; linarith, ?_⟩
    refine le_trans (show R.fl x / x ≤ 1 + 1 / 2 ^ 53 by linarith) ?_
    norm_num

theorem Rel.mul {j k : ℕ} {x y x' y' : ℝ} (h : Rel j x y) (h' : Rel k x' y') :
    Rel (j + k) (x * x') (y * y') := by
  obtain ⟨a, rfl, h1, h2⟩ := h
  obtain ⟨b, rfl, h3, h4⟩ := h'
  unfold Rel
  have p0 : (0 : ℝ) < 1 - 1 / 2 ^ 53 := by norm_num
  generalize (1 - 1 / 2 ^ 53 : ℝ) = q at *
  have q1 : 0 < q ^ j := by positivity
  have q2 : 0 < q ^ k := by positivity
  refine ⟨a * b, by ring, ?_, ?_⟩
  · rw [pow_add]; exact mul_le_mul h1 h3 q2.le (q1.le.trans h1)
  · rw [pow_add, mul_inv]; exact mul_le_mul h2 h4 (q2.le.trans h3) (by positivity)

theorem Rel.inv {k : ℕ} {x y : ℝ} (h : Rel k x y) : Rel k x⁻¹ y⁻¹ := by
  obtain ⟨a, rfl, h1, h2⟩ := h
  unfold Rel
  have p0 : (0 : ℝ) < 1 - 1 / 2 ^ 53 := by norm_num
  generalize (1 - 1 / 2 ^ 53 : ℝ) = q at *
  have q1 : 0 < q ^ k := by positivity
  have a0 : 0 < a := q1.trans_le h1
  refine ⟨a⁻¹, by rw [mul_inv], ?_, ?_⟩
  · rw [le_inv_comm₀ q1 a0]; exact h2
  · exact inv_anti₀ q1 h1

theorem Rel.div {j k : ℕ} {x y x' y' : ℝ} (h : Rel j x y) (h' : Rel k x' y') :
    Rel (j + k) (x / x') (y / y') := by
  rw [div_eq_mul_inv, div_eq_mul_inv]; exact h.mul h'.inv

theorem Rel.round {k : ℕ} {x y : ℝ} (R : Rounding) (h : Rel k x y) : Rel (k + 1) x (R.fl y) := by
  obtain ⟨a, rfl, h1, h2⟩ := h
  obtain ⟨b, hb, h3, h4⟩ := Rel.fl R (x * a)
  obtain ⟨c, hc, h5, h6⟩ := (show Rel k 1 a from ⟨a, by simp, h1, h2⟩).mul
    (show Rel 1 1 b from ⟨b, by simp, h3, h4⟩)
  exact ⟨c, by rw [hb, mul_assoc, hc]; ring, h5, h6⟩

/-- The distance from the exact number. -/
theorem Rel.error {k : ℕ} {x y e : ℝ} (h : Rel k x y)
    (h1 : 1 - e ≤ (1 - 1 / 2 ^ 53 : ℝ) ^ k) (h2 : ((1 - 1 / 2 ^ 53 : ℝ) ^ k)⁻¹ ≤ 1 + e) :
    |y - x| ≤ e * |x| := by
  obtain ⟨a, rfl, h3, h4⟩ := h
  have : x * a - x = (a - 1) * x := by ring
  rw [this, abs_mul]
  refine mul_le_mul_of_nonneg_right ?_ (abs_nonneg x)
  rw [abs_le]
  constructor <;> linarith

/-- The last step with rounded weights. -/
theorem update_error (R : Rounding) {t T f F k1 k2 d : ℝ} (ht : |T - t| ≤ 8 / 2 ^ 53 * |t|)
    (hf : |F - f| ≤ 13 / 2 ^ 53 * |f|) :
    |R.fl (R.fl (R.fl (k1 * R.fl (1 - T)) + R.fl (T * k2)) + R.fl (F * d)) -
      (k1 * (1 - t) + t * k2 + f * d)| ≤
      17 / 2 ^ 53 * ((1 + |t|) * |k1| + |t| * |k2| + |f * d|) := by
  have eA := R.error (1 - T)
  generalize R.fl (1 - T) = a at *
  have eB := R.error (k1 * a)
  generalize R.fl (k1 * a) = b at *
  have eC := R.error (T * k2)
  generalize R.fl (T * k2) = c at *
  have eD := R.error (b + c)
  generalize R.fl (b + c) = g at *
  have eF := R.error (F * d)
  generalize R.fl (F * d) = h at *
  have eH := R.error (g + h)
  generalize R.fl (g + h) = r at *
  set K1 := (1 + |t|) * |k1| with hK1
  set K2 := |t| * |k2| with hK2
  set K3 := |f * d| with hK3
  have p1 : 0 ≤ K1 := by positivity
  have p2 : 0 ≤ K2 := by positivity
  have p3 : 0 ≤ K3 := by positivity
  have hT : |T| ≤ (1 + 8 / 2 ^ 53) * |t| := by
    have := abs_sub_abs_le_abs_sub T t; linarith
  have h1T : |1 - T| ≤ (1 + 8 / 2 ^ 53) * (1 + |t|) := by
    have := abs_sub (1 : ℝ) T
    rw [abs_one] at this
    norm_num at this hT ⊢
    linarith [abs_nonneg t]
  -- the first product
  have a1 : |k1| * |a - (1 - T)| ≤ 1 / 2 ^ 53 * ((1 + 8 / 2 ^ 53) * K1) := by
    have : |a - (1 - T)| ≤ (1 + 8 / 2 ^ 53) * (1 + |t|) / 2 ^ 53 := eA.trans (by gcongr)
    calc |k1| * |a - (1 - T)| ≤ |k1| * ((1 + 8 / 2 ^ 53) * (1 + |t|) / 2 ^ 53) := by gcongr
      _ = _ := by rw [hK1]; ring
  have a2 : |k1 * (T - t)| ≤ 8 / 2 ^ 53 * K1 := by
    rw [abs_mul]
    calc |k1| * |T - t| ≤ |k1| * (8 / 2 ^ 53 * (1 + |t|)) := by
          refine mul_le_mul_of_nonneg_left (ht.trans ?_) (abs_nonneg _)
          gcongr; linarith
      _ = _ := by rw [hK1]; ring
  have a3 : |k1 * a - k1 * (1 - t)| ≤ 1 / 2 ^ 53 * ((1 + 8 / 2 ^ 53) * K1) + 8 / 2 ^ 53 * K1 := by
    have e : k1 * a - k1 * (1 - t) = k1 * (a - (1 - T)) - k1 * (T - t) := by ring
    rw [e]
    refine (abs_sub _ _).trans (add_le_add ?_ a2)
    rw [abs_mul]; exact a1
  have a4 : |k1 * (1 - t)| ≤ K1 := by
    rw [abs_mul, hK1, mul_comm]
    gcongr
    have := abs_sub (1 : ℝ) t
    rwa [abs_one] at this
  have a5 : |k1 * a| ≤ |k1 * a - k1 * (1 - t)| + K1 := by
    have := abs_sub_abs_le_abs_sub (k1 * a) (k1 * (1 - t)); linarith
  have b1 : |b - k1 * (1 - t)| ≤ 11 / 2 ^ 53 * K1 := by
    have := abs_add_le (b - k1 * a) (k1 * a - k1 * (1 - t))
    rw [sub_add_sub_cancel] at this
    norm_num at *
    linarith
  have c1 : |T * k2 - t * k2| ≤ 8 / 2 ^ 53 * K2 := by
    rw [← sub_mul, abs_mul, hK2, ← mul_assoc]
    gcongr
  have c0 : |t * k2| = K2 := abs_mul _ _
  have c2 : |T * k2| ≤ (1 + 8 / 2 ^ 53) * K2 := by
    have := abs_sub_abs_le_abs_sub (T * k2) (t * k2); linarith
  have c3 : |c - t * k2| ≤ 10 / 2 ^ 53 * K2 := by
    have := abs_add_le (c - T * k2) (T * k2 - t * k2)
    rw [sub_add_sub_cancel] at this
    norm_num at *
    linarith
  have bc : |b + c| ≤ (1 + 11 / 2 ^ 53) * K1 + (1 + 10 / 2 ^ 53) * K2 := by
    have h1 := abs_sub_abs_le_abs_sub b (k1 * (1 - t))
    have h2 := abs_sub_abs_le_abs_sub c (t * k2)
    have h3 := abs_add_le b c
    linarith
  have g1 : |g - (k1 * (1 - t) + t * k2)| ≤ 13 / 2 ^ 53 * (K1 + K2) := by
    have e : g - (k1 * (1 - t) + t * k2) = (g - (b + c)) + ((b - k1 * (1 - t)) + (c - t * k2)) := by ring
    rw [e]
    have h1 := abs_add_le (g - (b + c)) ((b - k1 * (1 - t)) + (c - t * k2))
    have h2 := abs_add_le (b - k1 * (1 - t)) (c - t * k2)
    norm_num at *
    linarith
  have g2 : |g| ≤ (1 + 13 / 2 ^ 53) * (K1 + K2) := by
    have h1 := abs_sub_abs_le_abs_sub g (k1 * (1 - t) + t * k2)
    have h2 := abs_add_le (k1 * (1 - t)) (t * k2)
    linarith
  have f1 : |F * d - f * d| ≤ 13 / 2 ^ 53 * K3 := by
    rw [← sub_mul, abs_mul, hK3, abs_mul, ← mul_assoc]
    gcongr
  have f2 : |F * d| ≤ (1 + 13 / 2 ^ 53) * K3 := by
    have := abs_sub_abs_le_abs_sub (F * d) (f * d); linarith
  have f3 : |h - f * d| ≤ 15 / 2 ^ 53 * K3 := by
    have := abs_add_le (h - F * d) (F * d - f * d)
    rw [sub_add_sub_cancel] at this
    norm_num at *
    linarith
  have f4 : |h| ≤ (1 + 15 / 2 ^ 53) * K3 := by
    have := abs_sub_abs_le_abs_sub h (f * d); linarith
  have gh := abs_add_le g h
  have e : r - (k1 * (1 - t) + t * k2 + f * d) =
      (r - (g + h)) + ((g - (k1 * (1 - t) + t * k2)) + (h - f * d)) := by ring
  rw [e]
  have h1 := abs_add_le (r - (g + h)) ((g - (k1 * (1 - t) + t * k2)) + (h - f * d))
  have h2 := abs_add_le (g - (k1 * (1 - t) + t * k2)) (h - f * d)
  clear e
  norm_num at *
  linarith

/-- The convergence planes before a call, older and newer, and the last matter plane. -/
def MPC.older {P : Type} (s : MPC P) (p : P) : ℝ :=
  match s.planes with
  | none => 0
  | some pl => pl.buf (!pl.cur) p

def MPC.newer {P : Type} (s : MPC P) (p : P) : ℝ :=
  match s.planes with
  | none => 0
  | some pl => pl.buf pl.cur p

/-- The weight of the extrapolation. -/
noncomputable def stepT {P : Type} (c : Cosmology) (s : MPC P) (z : ℝ) : ℝ :=
  lensRatio c s.z2 z / (exactState c s).r23

/-- The lensing weight of the last matter plane. -/
noncomputable def stepF {P : Type} (c : Cosmology) (s : MPC P) (z : ℝ) : ℝ :=
  3 * c.OmegaM0 / 2 * (xOf c s.z3 * lensRatio c s.z3 z) * ((1 + s.z3) / c.HoverH0 s.z3) * s.w3

/-- The size of the terms that are added in one call. -/
noncomputable def stepSize {P : Type} (c : Cosmology) (s : MPC P) (n : Plane P) (p : P) : ℝ :=
  (1 + |stepT c s n.z|) * |s.older p| + |stepT c s n.z| * |s.newer p| +
    |stepF c s n.z * s.delta3.getD (fun _ => 0) p|

/-- The geometry in the state is the exact one, up to rounding. -/
def GoodState {P : Type} (c : Cosmology) (s : MPC P) : Prop :=
  0 ≤ s.z2 ∧ s.z2 ≤ s.z3 ∧ Rel 1 (exactState c s).x3 s.x3 ∧ Rel 3 (exactState c s).r23 s.r23

theorem exact_kappa {P : Type} {c : Cosmology} (hg : Geometry c) (s : MPC P) (n : Plane P) (p : P)
    (hz : s.z3 < n.z) :
    ((exactState c s).addPlane c n.delta n.z n.w).2.kappa.getD (fun _ => 0) p =
      s.older p * (1 - stepT c s n.z) + stepT c s n.z * s.newer p +
        stepF c s n.z * s.delta3.getD (fun _ => 0) p := by
  have h3 : (exactState c s).initialiseInputs.z3 = s.z3 := by
    unfold MPC.initialiseInputs; split <;> rfl
  have h2 : (exactState c s).initialiseInputs.z2 = s.z2 := by
    unfold MPC.initialiseInputs; split <;> rfl
  have hx : (exactState c s).initialiseInputs.x3 = xOf c s.z3 := by
    unfold MPC.initialiseInputs; split <;> rfl
  have hr : (exactState c s).initialiseInputs.r23 = (exactState c s).r23 := by
    unfold MPC.initialiseInputs; split <;> rfl
  have hw : (exactState c s).initialiseInputs.w3 = s.w3 := by
    unfold MPC.initialiseInputs; split <;> rfl
  have hp : (exactState c s).initialiseInputs.planes = s.planes := by
    unfold MPC.initialiseInputs; split <;> rfl
  have hd : (exactState c s).initialiseInputs.delta3.getD (fun _ => 0) p =
      s.delta3.getD (fun _ => 0) p := by
    unfold MPC.initialiseInputs exactState
    cases h : s.delta3 <;> simp
  simp only [MPC.addPlane, h3, if_neg (not_le.2 hz), MPC.kappa, Option.map_some, Option.getD_some,
    if_true, h2, hx, hr, hw, hp, hd, div_mul_hubble hg]
  unfold MPC.older MPC.newer stepT stepF lensRatio
  cases s.planes <;> simp

theorem rounded_kappa {P : Type} (fl : ℝ → ℝ) (c : Cosmology) (s : MPC P) (n : Plane P) (p : P)
    (hz : s.z3 < n.z) :
    let x3 := fl (c.distance n.z / c.hubbleDistance)
    let T := fl (fl (c.distance2 s.z2 n.z / fl (c.hubbleDistance * x3)) / s.r23)
    let F := fl (fl (fl (fl (fl (3 * c.OmegaM0) / 2) *
      fl (s.x3 * fl (c.distance2 s.z3 n.z / fl (c.hubbleDistance * x3)))) *
      fl (fl (1 + s.z3) / c.HoverH0 s.z3)) * s.w3)
    (s.addPlaneFl fl c n.delta n.z n.w).2.kappa.getD (fun _ => 0) p =
      fl (fl (fl (s.older p * fl (1 - T)) + fl (T * s.newer p)) +
        fl (F * s.delta3.getD (fun _ => 0) p)) := by
  have h3 : s.initialiseInputs.z3 = s.z3 := by unfold MPC.initialiseInputs; split <;> rfl
  have h2 : s.initialiseInputs.z2 = s.z2 := by unfold MPC.initialiseInputs; split <;> rfl
  have hx : s.initialiseInputs.x3 = s.x3 := by unfold MPC.initialiseInputs; split <;> rfl
  have hr : s.initialiseInputs.r23 = s.r23 := by unfold MPC.initialiseInputs; split <;> rfl
  have hw : s.initialiseInputs.w3 = s.w3 := by unfold MPC.initialiseInputs; split <;> rfl
  have hp : s.initialiseInputs.planes = s.planes := by unfold MPC.initialiseInputs; split <;> rfl
  have hd : s.initialiseInputs.delta3.getD (fun _ => 0) p = s.delta3.getD (fun _ => 0) p := by
    unfold MPC.initialiseInputs
    cases h : s.delta3 <;> simp [h]
  simp only [MPC.addPlaneFl, h3, if_neg (not_le.2 hz), MPC.kappa, Option.map_some, Option.getD_some,
    if_true, h2, hx, hr, hw, hp, hd]
  unfold MPC.older MPC.newer
  cases s.planes <;> simp

theorem Rel.ratio {c : Cosmology} (hg : Geometry c) (R : Rounding) (u z : ℝ) :
    Rel 3 (lensRatio c u z)
      (R.fl (c.distance2 u z / R.fl (c.hubbleDistance * R.fl (c.distance z / c.hubbleDistance)))) := by
  have h1 := (Rel.refl c.hubbleDistance).mul (Rel.fl R (c.distance z / c.hubbleDistance))
  have h2 := ((Rel.refl (c.distance2 u z)).div (h1.round R)).round R
  rw [div_mul_hubble hg] at h2
  exact h2

/-- The rounding error of one call is at most `17/2⁵³` of the terms that are added. -/
theorem step_error_le {P : Type} (R : Rounding) {c : Cosmology} (hg : Geometry c) {s : MPC P}
    (hs : GoodState c s) (n : Plane P) (hz : s.z3 < n.z) (p : P) :
    |stepError R.fl c s n p| ≤ 17 / 2 ^ 53 * stepSize c s n p := by
  obtain ⟨-, -, hx, hr⟩ := hs
  unfold stepError stepSize
  rw [exact_kappa hg s n p hz, rounded_kappa R.fl c s n p hz]
  refine update_error R ?_ ?_
  · have h1 := ((Rel.ratio hg R s.z2 n.z).div hr).round R
    exact h1.error (by norm_num) (by norm_num)
  · have h1 := ((Rel.fl R (3 * c.OmegaM0)).div (Rel.refl 2)).round R
    have h2 := (hx.mul (Rel.ratio hg R s.z3 n.z)).round R
    have h3 := ((Rel.fl R (1 + s.z3)).div (Rel.refl (c.HoverH0 s.z3))).round R
    have h4 := ((((h1.mul h2).round R).mul h3).round R).mul (Rel.refl s.w3)
    exact (h4.round R).error (by norm_num) (by norm_num)

theorem good_init {P : Type} {c : Cosmology} (hg : Geometry c) : GoodState c (MPC.init P) := by
  refine ⟨le_rfl, le_rfl, ?_, ?_⟩
  · refine ⟨1, ?_, by norm_num, by norm_num⟩
    simp [exactState, MPC.init, xOf, hg.zero]
  · refine ⟨1, ?_, by norm_num, by norm_num⟩
    simp [exactState, MPC.init]

theorem good_step {P : Type} (R : Rounding) {c : Cosmology} (hg : Geometry c) {s : MPC P}
    (hs : GoodState c s) (n : Plane P) (hz : s.z3 < n.z) :
    GoodState c (s.addPlaneFl R.fl c n.delta n.z n.w).2 := by
  have h3 : s.initialiseInputs.z3 = s.z3 := by unfold MPC.initialiseInputs; split <;> rfl
  have h0 : 0 ≤ s.z3 := hs.1.trans hs.2.1
  have e2 : (s.addPlaneFl R.fl c n.delta n.z n.w).2.z2 = s.z3 := by
    simp [MPC.addPlaneFl, h3, not_le.2 hz]
  have e3 : (s.addPlaneFl R.fl c n.delta n.z n.w).2.z3 = n.z := by
    simp [MPC.addPlaneFl, h3, not_le.2 hz]
  have ex : (s.addPlaneFl R.fl c n.delta n.z n.w).2.x3 = R.fl (c.distance n.z / c.hubbleDistance) := by
    simp [MPC.addPlaneFl, h3, not_le.2 hz]
  have er : (s.addPlaneFl R.fl c n.delta n.z n.w).2.r23 = R.fl (c.distance2 s.z3 n.z /
      R.fl (c.hubbleDistance * R.fl (c.distance n.z / c.hubbleDistance))) := by
    simp [MPC.addPlaneFl, h3, not_le.2 hz]
  refine ⟨by rw [e2]; exact h0, by rw [e2, e3]; exact hz.le, ?_, ?_⟩
  · unfold exactState
    simp only [e3, ex]
    exact Rel.fl R _
  · unfold exactState
    simp only [e2, e3, er, if_neg (h0.trans_lt hz).ne']
    exact Rel.ratio hg R _ _

/-- The sizes of the terms of all calls, each multiplied by the ratio of the lensing by a plane at the
redshift before the call for a source at redshift `z` and for the source of the call. -/
noncomputable def roundoffSum {P : Type} (fl : ℝ → ℝ) (c : Cosmology) (z : ℝ) (p : P) :
    MPC P → List (Plane P) → ℝ
  | _, [] => 0
  | s, n :: ps => stepSize c s n p * |lensRatio c s.z3 z / lensRatio c s.z3 n.z| +
      roundoffSum fl c z p (s.addPlaneFl fl c n.delta n.z n.w).2 ps

/-- **C154** The rounding error of the convergence is at most `17/2⁵³` times the sum of the sizes of the
terms of all calls, each propagated like lensing by a plane. -/
theorem float_convergence_error {P : Type} (R : Rounding) {c : Cosmology} (hg : Geometry c)
    (before : List (Plane P)) (last : Plane P)
    (hok : (0 :: (before ++ [last]).map Plane.z).IsChain (· < ·)) :
    ∃ k, (addAllFl R.fl c (MPC.init P) (before ++ [last])).kappa = some k ∧
      ∀ p, |k p - lensingSum c before last.z p| ≤
        17 / 2 ^ 53 * roundoffSum R.fl c last.z p (MPC.init P) (before ++ [last]) := by
  obtain ⟨k, hk, h⟩ := float_convergence R.fl hg before last hok
  refine ⟨k, hk, fun p => ?_⟩
  rw [h p, add_sub_cancel_left]
  have key : ∀ (ps : List (Plane P)) (s : MPC P), GoodState c s →
      (s.z3 :: ps.map Plane.z).IsChain (· < ·) →
      |defectSum c (defects R.fl c s ps) last.z p| ≤
        17 / 2 ^ 53 * roundoffSum R.fl c last.z p s ps := by
    intro ps
    induction ps with
    | nil => intro s _ _; simp [defects, defectSum, roundoffSum]
    | cons n ps ih =>
      intro s hs hch
      rw [List.map_cons, List.isChain_cons_cons] at hch
      have h3 : s.initialiseInputs.z3 = s.z3 := by unfold MPC.initialiseInputs; split <;> rfl
      have e3 : (s.addPlaneFl R.fl c n.delta n.z n.w).2.z3 = n.z := by
        simp [MPC.addPlaneFl, h3, not_le.2 hch.1]
      have := ih _ (good_step R hg hs n hch.1) (by rw [e3]; exact hch.2)
      have h1 := step_error_le R hg hs n hch.1 p
      unfold defectSum at this ⊢
      rw [defects, roundoffSum, List.map_cons, List.sum_cons, mul_add]
      refine (abs_add_le _ _).trans (add_le_add ?_ this)
      rw [abs_mul, ← mul_assoc]
      exact mul_le_mul_of_nonneg_right h1 (abs_nonneg _)
  exact key _ _ (good_init hg) hok

/-- **C154** In a flat cosmology, the error of a call is amplified at most by the distance of its source
plane, divided by the distance from the plane before; there is no exponential growth. -/
theorem flat_amplification {Om dh : ℝ} {chi E : ℝ → ℝ} (hd : dh ≠ 0) (h0 : chi 0 = 0)
    (hm : ∀ a b, 0 ≤ a → a < b → chi a < chi b) {u v z : ℝ} (hu : 0 ≤ u) (huv : u < v) (hvz : v ≤ z) :
    |lensRatio (flatCosmology Om dh chi E) u z / lensRatio (flatCosmology Om dh chi E) u v| ≤
      chi v / (chi v - chi u) := by
  have hz : 0 ≤ u ∧ u < z := ⟨hu, huv.trans_le hvz⟩
  have p1 : 0 < chi z := by rw [← h0]; exact hm 0 z le_rfl (hu.trans_lt hz.2)
  have p2 : 0 < chi v := by rw [← h0]; exact hm 0 v le_rfl (hu.trans_lt huv)
  have p3 : 0 ≤ chi u := by
    rcases hu.eq_or_lt with h | h
    · rw [← h, h0]
    · rw [← h0]; exact (hm 0 u le_rfl h).le
  have p4 : 0 < chi v - chi u := sub_pos.2 (hm u v hu huv)
  have p5 : 0 < chi z - chi u := sub_pos.2 (hm u z hu hz.2)
  have e : ∀ w, lensRatio (flatCosmology Om dh chi E) u w = (chi w - chi u) / chi w := by
    intro w
    simp only [lensRatio, x2Of, xOf, flatCosmology]
    rw [mul_div_cancel_left₀ _ hd, mul_div_cancel_left₀ _ hd]
  rw [e, e, abs_of_pos (by positivity), div_div_eq_mul_div, div_le_div_iff_of_pos_right p4]
  have : (chi z - chi u) / chi z ≤ 1 := by rw [div_le_one p1]; linarith
  calc (chi z - chi u) / chi z * chi v ≤ 1 * chi v := by gcongr
    _ = chi v := one_mul _

/-- There are such planes and such a cosmology. -/
example : ∃ (c : Cosmology) (before : List (Plane Unit)) (last : Plane Unit), Geometry c ∧
    (0 :: (before ++ [last]).map Plane.z).IsChain (· < ·) :=
  ⟨flatCosmology 1 1 id 1, [⟨1, 1, fun _ => 1⟩], ⟨2, 1, fun _ => 1⟩,
    flat_geometry 1 1 id 1 one_ne_zero rfl (fun _ _ _ h => h), by norm_num⟩

end Glass.Lensing
