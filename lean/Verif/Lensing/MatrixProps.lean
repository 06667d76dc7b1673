import Mathlib.Algebra.BigOperators.Ring.Finset
import Verif.Lensing.PlaneProps

/-! # Properties C51 and C52: the matrix of lensing contributions and the lensing weights -/

namespace Glass.Lensing

open Glass.Num Glass.Shells

/-! ## Specification -/

/-- The convergence planes for the matter planes `delta i, delta (i + 1), …` of the shells: one
`add_window` per shell, and `kappa` read off after each. -/
noncomputable def convergencePlanes {P : Type} (c : Cosmology) (delta : ℕ → P → ℝ) :
    List RadialWindow → ℕ → MPC P → Except Err (List (P → ℝ))
  | [], _, _ => .ok []
  | w :: ws, i, s =>
    match s.addWindow c (delta i) w with
    | (some e, _) => .error e
    | (none, s) => do
      let rest ← convergencePlanes c delta ws (i + 1) s
      .ok ((s.kappa.getD fun _ => 0) :: rest)

/-! ## Linearity -/

/-- The state `s` is the image of the state `b` under the map that sends the unit vector `k` to the
plane `delta k`, for `N` planes. -/
def Image {P : Type} (N : ℕ) (delta : ℕ → P → ℝ) (s : MPC P) (b : MPC ℕ) : Prop :=
  s.z2 = b.z2 ∧ s.z3 = b.z3 ∧ s.x3 = b.x3 ∧ s.w3 = b.w3 ∧ s.r23 = b.r23 ∧
  (∀ p, s.delta3.getD (fun _ => 0) p =
    ∑ k ∈ Finset.range N, b.delta3.getD (fun _ => 0) k * delta k p) ∧
  ((s.planes = none ∧ b.planes = none) ∨ ∃ ps pb, s.planes = some ps ∧ b.planes = some pb ∧
    ps.cur = pb.cur ∧ ∀ i p, ps.buf i p = ∑ k ∈ Finset.range N, pb.buf i k * delta k p)

theorem initialise_delta {P : Type} (s : MPC P) :
    s.initialiseInputs.delta3.getD (fun _ => 0) = s.delta3.getD fun _ => 0 := by
  unfold MPC.initialiseInputs
  cases h : s.delta3 with
  | none => rfl
  | some d => simp [h]

theorem initialise_fields {P : Type} (s : MPC P) :
    s.initialiseInputs.z2 = s.z2 ∧ s.initialiseInputs.z3 = s.z3 ∧ s.initialiseInputs.x3 = s.x3 ∧
    s.initialiseInputs.w3 = s.w3 ∧ s.initialiseInputs.r23 = s.r23 ∧
    s.initialiseInputs.planes = s.planes := by
  unfold MPC.initialiseInputs
  split <;> exact ⟨rfl, rfl, rfl, rfl, rfl, rfl⟩

theorem addWindow_eq {P : Type} (c : Cosmology) (s : MPC P) (d : P → ℝ) (w : RadialWindow) :
    s.addWindow c d w = s.addPlane c d w.zeff
      (trapezoid w.knots / interp none none w.knots w.zeff) := by
  simp only [MPC.addWindow, MPC.addPlane, initialise_idem]

theorem image_step {P : Type} (c : Cosmology) (N : ℕ) (delta : ℕ → P → ℝ) (s : MPC P) (b : MPC ℕ)
    (h : Image N delta s b) (i : ℕ) (hi : i < N) (z w : ℝ) :
    (s.addPlane c (delta i) z w).1 = (b.addPlane c (fun k => if k = i then 1 else 0) z w).1 ∧
    ((s.addPlane c (delta i) z w).1 = none → Image N delta (s.addPlane c (delta i) z w).2
      (b.addPlane c (fun k => if k = i then 1 else 0) z w).2) := by
  obtain ⟨h1, h2, h3, h4, h5, h6, h7⟩ := h
  obtain ⟨a1, a2, a3, a4, a5, a6⟩ := initialise_fields s
  obtain ⟨b1, b2, b3, b4, b5, b6⟩ := initialise_fields b
  have a7 := initialise_delta s
  have b7 := initialise_delta b
  by_cases hz : z ≤ b.z3
  · simp [MPC.addPlane, a2, b2, h2, hz]
  refine ⟨by simp [MPC.addPlane, a2, b2, h2, hz], fun _ => ?_⟩
  simp only [MPC.addPlane, a1, a2, a3, a4, a5, a6, a7, b1, b2, b3, b4, b5, b6, b7, h1, h2, h3, h4,
    h5, if_neg hz]
  refine ⟨rfl, rfl, rfl, rfl, rfl, ?_, Or.inr ?_⟩
  · intro p
    simp only [Option.getD_some, ite_mul, one_mul, zero_mul, Finset.sum_ite_eq', Finset.mem_range,
      hi, if_true]
  · refine ⟨_, _, rfl, rfl, ?_, ?_⟩
    · rcases h7 with ⟨e1, e2⟩ | ⟨ps, pb, e1, e2, e3, -⟩
      · simp [e1, e2]
      · simp [e1, e2, e3]
    · intro j p
      rcases h7 with ⟨e1, e2⟩ | ⟨ps, pb, e1, e2, e3, e4⟩
      · simp only [e1, e2]
        by_cases hj : j = !true
        · simp only [if_pos hj, h6, mul_assoc, zero_mul, mul_zero, zero_add,
            Finset.mul_sum]
        · simp only [if_neg hj, zero_mul, Finset.sum_const_zero]
      · simp only [e1, e2, e3]
        by_cases hj : j = !pb.cur
        · simp only [if_pos hj, h6, e4, add_mul, Finset.mul_sum, Finset.sum_mul,
            Finset.sum_add_distrib]
          congr 1
          · congr 1
            · refine Finset.sum_congr rfl fun k _ => ?_
              ring
            · refine Finset.sum_congr rfl fun k _ => ?_
              ring
          · refine Finset.sum_congr rfl fun k _ => ?_
            ring
        · simp only [if_neg hj, e4]

/-- **C51**: applying the matrix to any matter planes gives the convergence planes that
`MultiPlaneConvergence` computes; the matrix cannot be computed (because the redshifts do not
increase) exactly if the planes cannot. -/
theorem matrix_applies {P : Type} (c : Cosmology) (delta : ℕ → P → ℝ) (shells : List RadialWindow)
    (hne : shells ≠ []) :
    (∃ e, multiPlaneMatrix c shells = .error e ∧
      convergencePlanes c delta shells 0 (MPC.init P) = .error e) ∨
    ∃ rows planes, multiPlaneMatrix c shells = .ok rows ∧
      convergencePlanes c delta shells 0 (MPC.init P) = .ok planes ∧
      rows.length = shells.length ∧
      List.Forall₂ (fun (row : ℕ → ℝ) (k : P → ℝ) =>
        ∀ p, k p = ∑ j ∈ Finset.range shells.length, row j * delta j p) rows planes := by
  have key : ∀ (ws : List RadialWindow) (i : ℕ) (s : MPC P) (b : MPC ℕ),
      i + ws.length = shells.length → Image shells.length delta s b →
      (∃ e, matrixRows c ws i b = .error e ∧ convergencePlanes c delta ws i s = .error e) ∨
      ∃ rows planes, matrixRows c ws i b = .ok rows ∧ convergencePlanes c delta ws i s = .ok planes ∧
        rows.length = ws.length ∧
        List.Forall₂ (fun (row : ℕ → ℝ) (k : P → ℝ) =>
          ∀ p, k p = ∑ j ∈ Finset.range shells.length, row j * delta j p) rows planes := by
    intro ws
    induction ws with
    | nil => intro i s b _ _; exact Or.inr ⟨[], [], rfl, rfl, rfl, List.Forall₂.nil⟩
    | cons w ws ih =>
      intro i s b hl him
      obtain ⟨e1, e2⟩ := image_step c shells.length delta s b him i (by simp at hl; omega) w.zeff
        (trapezoid w.knots / interp none none w.knots w.zeff)
      rw [← addWindow_eq, ← addWindow_eq] at e1 e2
      rcases hs : s.addWindow c (delta i) w with ⟨_ | e, s'⟩
      · rcases hb : b.addWindow c (fun k => if k = i then 1 else 0) w with ⟨_ | e', b'⟩
        · rw [hs, hb] at e2
          have him' : Image shells.length delta s' b' := e2 rfl
          rcases ih (i + 1) s' b' (by simp at hl; omega) him' with
            ⟨e, g1, g2⟩ | ⟨rows, planes, g1, g2, g3, g4⟩
          · left
            exact ⟨e, by simp only [matrixRows, hb, g1]; rfl,
              by simp only [convergencePlanes, hs, g2]; rfl⟩
          · right
            refine ⟨_, _, by simp only [matrixRows, hb, g1]; rfl,
              by simp only [convergencePlanes, hs, g2]; rfl, by simp [g3], ?_⟩
            refine List.Forall₂.cons ?_ g4
            intro p
            obtain ⟨-, -, -, -, -, -, h7⟩ := him'
            rcases h7 with ⟨f1, f2⟩ | ⟨ps, pb, f1, f2, f3, f4⟩
            · simp [MPC.kappa, f1, f2]
            · simp only [MPC.kappa, f1, f2, Option.map_some, Option.getD_some, f3, f4]
        · rw [hs, hb] at e1; simp at e1
      · left
        rcases hb : b.addWindow c (fun k => if k = i then 1 else 0) w with ⟨_ | e', b'⟩
        · rw [hs, hb] at e1; simp at e1
        · rw [hs, hb] at e1
          simp only [Option.some.injEq] at e1
          subst e1
          exact ⟨e, by simp only [matrixRows, hb], by simp only [convergencePlanes, hs]⟩
  unfold multiPlaneMatrix
  rw [if_neg hne]
  refine key shells 0 (MPC.init P) (MPC.init ℕ) (by simp) ?_
  refine ⟨rfl, rfl, rfl, rfl, rfl, fun p => ?_, Or.inl ⟨rfl, rfl⟩⟩
  simp [MPC.init]

/-- **C51**: the matrix is strictly lower triangular. -/
theorem matrix_strictly_lower (c : Cosmology) (shells : List RadialWindow) (rows : List (ℕ → ℝ))
    (h : multiPlaneMatrix c shells = .ok rows) :
    rows.length = shells.length ∧ ∀ (i : ℕ) (hi : i < rows.length) (k : ℕ), i ≤ k →
      rows[i] k = 0 := by
  have key : ∀ (ws : List RadialWindow) (i : ℕ) (b : MPC ℕ) (rows : List (ℕ → ℝ)),
      (∀ k, i ≤ k → b.delta3.getD (fun _ => 0) k = 0) →
      (∀ pb, b.planes = some pb → ∀ j k, i ≤ k → pb.buf j k = 0) →
      matrixRows c ws i b = .ok rows →
      rows.length = ws.length ∧ ∀ (j : ℕ) (hj : j < rows.length) (k : ℕ), i + j ≤ k →
        rows[j] k = 0 := by
    intro ws
    induction ws with
    | nil =>
      intro i b rows _ _ h
      simp only [matrixRows, Except.ok.injEq] at h
      subst h
      simp
    | cons w ws ih =>
      intro i b rows hd hp h
      rcases hb : b.addWindow c (fun k => if k = i then 1 else 0) w with ⟨_ | e', b'⟩
      · rcases hr : matrixRows c ws (i + 1) b' with e | rest
        · simp only [matrixRows, hb, hr] at h
          cases h
        · have hok : rows = (b'.kappa.getD fun _ => 0) :: rest := by
            simp only [matrixRows, hb, hr] at h
            injection h with h
            exact h.symm
          -- the new state
          obtain ⟨b1, b2, b3, b4, b5, b6⟩ := initialise_fields b
          have b7 := initialise_delta b
          rw [addWindow_eq] at hb
          have hz : ¬ w.zeff ≤ b.z3 := by
            intro hz
            simp [MPC.addPlane, b2, hz] at hb
          simp only [MPC.addPlane, b2, if_neg hz, b6, b7, Prod.mk.injEq, true_and] at hb
          subst hb
          obtain ⟨l1, l2⟩ := ih (i + 1) _ rest (by
            intro k hk
            have : k ≠ i := by omega
            simp [this]) (by
            intro pb hpb j k hk
            simp only [Option.some.injEq] at hpb
            subst hpb
            dsimp only
            split_ifs with hj
            · dsimp only
              rw [hd k (by omega)]
              cases hpl : b.planes with
              | none => simp
              | some pb => simp [hp pb hpl _ k (show i ≤ k by omega)]
            · cases hpl : b.planes with
              | none => simp
              | some pb => simp [hp pb hpl _ k (show i ≤ k by omega)]) hr
          subst hok
          refine ⟨by simp [l1], ?_⟩
          intro j hj k hk
          cases j with
          | succ j =>
            simp only [List.getElem_cons_succ]
            exact l2 j (by simpa using hj) k (by omega)
          | zero =>
            simp only [List.getElem_cons_zero, MPC.kappa, Option.map_some, Option.getD_some,
              if_true]
            rw [hd k (by omega)]
            cases hpl : b.planes with
            | none => simp
            | some pb => simp [hp pb hpl _ k (show i ≤ k by omega)]
      · simp only [matrixRows, hb] at h
        cases h
  unfold multiPlaneMatrix at h
  split at h
  · cases h
  · have := key shells 0 (MPC.init ℕ) rows (fun k _ => rfl) (fun pb hpb => by simp [MPC.init] at hpb)
      h
    simpa using this

/-! ## The entries of the matrix -/

/-- The matter planes that `multi_plane_matrix` adds. -/
noncomputable def unitPlanes (shells : List RadialWindow) (i : ℕ) : List (Plane ℕ) :=
  (shells.zipIdx i).map fun wi => ⟨wi.1.zeff,
    trapezoid wi.1.knots / interp none none wi.1.knots wi.1.zeff,
    fun k => if k = wi.2 then 1 else 0⟩

/-- **C51**: every entry of the matrix is the lensing kernel between two shells. -/
theorem matrix_entries {c : Cosmology} (hg : Geometry c) (shells : List RadialWindow)
    (rows : List (ℕ → ℝ)) (h : multiPlaneMatrix c shells = .ok rows) (i : ℕ)
    (hi : i < shells.length) (k : ℕ) :
    rows[i]! k = if hk : k < i then
      3 / 2 * c.OmegaM0 * xOf c (shells[k]'(hk.trans hi)).zeff *
        ((1 + (shells[k]'(hk.trans hi)).zeff) / c.HoverH0 (shells[k]'(hk.trans hi)).zeff) *
        (trapezoid (shells[k]'(hk.trans hi)).knots /
          interp none none (shells[k]'(hk.trans hi)).knots (shells[k]'(hk.trans hi)).zeff) *
        (x2Of c (shells[k]'(hk.trans hi)).zeff shells[i].zeff / xOf c shells[i].zeff)
      else 0 := by
  have key : ∀ (ws : List RadialWindow) (j : ℕ) (b : MPC ℕ) (rows : List (ℕ → ℝ)),
      matrixRows c ws j b = .ok rows → rows.length = ws.length ∧ AllOk c b (unitPlanes ws j) ∧
      ∀ (m : ℕ) (hm : m < rows.length),
        (addAll c b ((unitPlanes ws j).take (m + 1))).kappa.getD (fun _ => 0) = rows[m] := by
    intro ws
    induction ws with
    | nil =>
      intro j b rows h
      simp only [matrixRows, Except.ok.injEq] at h
      subst h
      simp [unitPlanes, AllOk]
    | cons w ws ih =>
      intro j b rows h
      rcases hb : b.addWindow c (fun k => if k = j then 1 else 0) w with ⟨_ | e', b'⟩
      · rcases hr : matrixRows c ws (j + 1) b' with e | rest
        · simp only [matrixRows, hb, hr] at h
          cases h
        · have hok : rows = (b'.kappa.getD fun _ => 0) :: rest := by
            simp only [matrixRows, hb, hr] at h
            injection h with h
            exact h.symm
          subst hok
          rw [addWindow_eq] at hb
          obtain ⟨l1, l2, l3⟩ := ih (j + 1) b' rest hr
          have e1 : unitPlanes (w :: ws) j = ⟨w.zeff,
              trapezoid w.knots / interp none none w.knots w.zeff,
              fun k => if k = j then 1 else 0⟩ :: unitPlanes ws (j + 1) := rfl
          rw [e1]
          refine ⟨by simp [l1], ⟨by rw [hb], by rw [hb]; exact l2⟩, ?_⟩
          intro m hm
          rw [List.take_succ_cons]
          cases m with
          | zero => simp [addAll, hb]
          | succ m =>
            have := l3 m (by simpa using hm)
            simp only [addAll, List.foldl_cons, hb, List.getElem_cons_succ] at this ⊢
            exact this
      · simp only [matrixRows, hb] at h
        cases h
  have hne : shells ≠ [] := by intro h0; rw [h0] at hi; simp at hi
  unfold multiPlaneMatrix at h
  rw [if_neg hne] at h
  obtain ⟨l1, l2, l3⟩ := key shells 0 _ rows h
  have hir : i < rows.length := by omega
  rw [getElem!_pos rows i hir, ← l3 i hir]
  have hul : (unitPlanes shells 0).length = shells.length := by simp [unitPlanes]
  have hget : ∀ (m : ℕ) (hm : m < shells.length), (unitPlanes shells 0)[m]'(by omega) =
      ⟨shells[m].zeff, trapezoid shells[m].knots / interp none none shells[m].knots shells[m].zeff,
        fun k => if k = m then 1 else 0⟩ := by
    intro m hm
    simp [unitPlanes]
  have htake : (unitPlanes shells 0).take (i + 1) = (unitPlanes shells 0).take i ++
      [(unitPlanes shells 0)[i]'(by omega)] := by
    rw [List.take_succ_eq_append_getElem]
  have hokt : ∀ (ps qs : List (Plane ℕ)) (s : MPC ℕ), AllOk c s (ps ++ qs) → AllOk c s ps := by
    intro ps
    induction ps with
    | nil => intro _ _ _; trivial
    | cons p ps ih => intro qs s hs; exact ⟨hs.1, ih _ _ hs.2⟩
  have hok : AllOk c (MPC.init ℕ) ((unitPlanes shells 0).take i ++
      [(unitPlanes shells 0)[i]'(by omega)]) := by
    rw [← htake]
    refine hokt _ ((unitPlanes shells 0).drop (i + 1)) _ ?_
    rw [List.take_append_drop]; exact l2
  obtain ⟨kap, k1, k2⟩ := convergence_is_lensing_sum hg _ _ hok
  rw [htake, k1, Option.getD_some, k2, hget i hi]
  -- the sum over the unit planes
  have hsum : ∀ (m : ℕ), m ≤ shells.length → ∀ z, lensingSum c ((unitPlanes shells 0).take m) z k =
      if hk : k < m ∧ k < shells.length then
        3 / 2 * c.OmegaM0 * xOf c (shells[k]'hk.2).zeff *
        ((1 + (shells[k]'hk.2).zeff) / c.HoverH0 (shells[k]'hk.2).zeff) *
        (trapezoid (shells[k]'hk.2).knots /
          interp none none (shells[k]'hk.2).knots (shells[k]'hk.2).zeff) *
        (x2Of c (shells[k]'hk.2).zeff z / xOf c z)
      else 0 := by
    intro m
    induction m with
    | zero => intro _ z; simp [lensingSum]
    | succ m ih =>
      intro hm z
      have e : (unitPlanes shells 0).take (m + 1) = (unitPlanes shells 0).take m ++
          [(unitPlanes shells 0)[m]'(by omega)] := by
        rw [List.take_succ_eq_append_getElem]
      have e2 : lensingSum c ((unitPlanes shells 0).take (m + 1)) z k =
          lensingSum c ((unitPlanes shells 0).take m) z k +
          lensingSum c [(unitPlanes shells 0)[m]'(by omega)] z k := by
        unfold lensingSum
        rw [e, List.map_append, List.sum_append]
      rw [e2, ih (by omega), hget m (by omega)]
      by_cases hkm : k = m
      · subst hkm
        have h1 : ¬ (k < k ∧ k < shells.length) := by omega
        have h2 : k < k + 1 ∧ k < shells.length := by omega
        rw [dif_neg h1, dif_pos h2]
        simp [lensingSum]
      · have h0 : lensingSum c [(⟨shells[m].zeff,
            trapezoid shells[m].knots / interp none none shells[m].knots shells[m].zeff,
            fun k => if k = m then 1 else 0⟩ : Plane ℕ)] z k = 0 := by
          simp [lensingSum, hkm]
        rw [h0, add_zero]
        by_cases hk : k < m ∧ k < shells.length
        · rw [dif_pos hk, dif_pos ⟨by omega, hk.2⟩]
        · rw [dif_neg hk, dif_neg (by omega)]
  rw [hsum i hi.le]
  by_cases hk : k < i
  · rw [dif_pos ⟨hk, by omega⟩, dif_pos hk]
  · rw [dif_neg (by omega), dif_neg hk]

/-! ## C52: the weights -/

/-- **C52**: without shells, the matrix raises `TypeError`, and so do the weights. -/
theorem no_shells (c : Cosmology) :
    (∃ e, multiPlaneMatrix c [] = .error (.type e)) ∧
    ∃ e, multiPlaneWeights c [] [] = .error (.type e) :=
  ⟨⟨_, rfl⟩, ⟨_, rfl⟩⟩

/-- **C52**: a mismatch of shapes raises `ValueError`. -/
theorem weights_mismatch (c : Cosmology) (weights : List ℝ) (shells : List RadialWindow)
    (h : weights.length ≠ shells.length) :
    ∃ e, multiPlaneWeights c weights shells = .error (.value e) :=
  ⟨"shape mismatch between weights and shells", by simp [multiPlaneWeights, h]⟩

theorem zipWith_sum_comm {P : Type} (N : ℕ) (delta : ℕ → P → ℝ) (p : P) :
    ∀ (rows : List (ℕ → ℝ)) (planes : List (P → ℝ)) (w : List ℝ),
      List.Forall₂ (fun (row : ℕ → ℝ) (k : P → ℝ) =>
        ∀ p, k p = ∑ j ∈ Finset.range N, row j * delta j p) rows planes →
      ∑ k ∈ Finset.range N, (List.zipWith (fun (row : ℕ → ℝ) (w : ℝ) => row k * w) rows w).sum *
        delta k p = (List.zipWith (fun (k : P → ℝ) (w : ℝ) => w * k p) planes w).sum
  | [], _, w, List.Forall₂.nil => by simp
  | row :: rows, k :: planes, [], _ => by simp
  | row :: rows, k :: planes, w :: ws, List.Forall₂.cons h1 h2 => by
    have ih := zipWith_sum_comm N delta p rows planes ws h2
    simp only [List.zipWith_cons_cons, List.sum_cons, add_mul, Finset.sum_add_distrib]
    rw [ih, h1 p, Finset.mul_sum]
    congr 1
    exact Finset.sum_congr rfl fun j _ => by ring

/-- Weights and windows for which no division by zero happens: the weights do not add to zero, no
window vanishes at its effective redshift, and neither do the distances and the expansion rate. -/
structure Proper (c : Cosmology) (weights : List ℝ) (shells : List RadialWindow) : Prop where
  length : weights.length = shells.length
  sum : weights.sum ≠ 0
  window : ∀ w ∈ shells, interp none none w.knots w.zeff ≠ 0
  geometry : Geometry c
  hubble : c.HoverH0 0 ≠ 0 ∧ ∀ w ∈ shells, c.HoverH0 w.zeff ≠ 0

/-- **C52**: the lensing weights are the adjoint: for all matter planes, the sum of the weights
times the matter planes is the weighted mean of the convergence planes. -/
theorem weights_adjoint {P : Type} (c : Cosmology) (delta : ℕ → P → ℝ) (weights : List ℝ)
    (shells : List RadialWindow) (hne : shells ≠ []) (hp : Proper c weights shells)
    (planes : List (P → ℝ)) (h : convergencePlanes c delta shells 0 (MPC.init P) = .ok planes) :
    ∃ lw, multiPlaneWeights c weights shells = .ok lw ∧ lw.length = shells.length ∧
      ∀ p, ∑ k ∈ Finset.range shells.length, lw[k]! * delta k p =
        (List.zipWith (fun (k : P → ℝ) (w : ℝ) => w / weights.sum * k p) planes weights).sum := by
  rcases matrix_applies c delta shells hne with ⟨e, -, h2⟩ | ⟨rows, planes', h1, h2, h3, h4⟩
  · rw [h] at h2; cases h2
  · rw [h] at h2
    injection h2 with h2
    subst h2
    refine ⟨_, by simp only [multiPlaneWeights, hp.length, ne_eq, not_true_eq_false, if_false, h1]; rfl,
      by simp, fun p => ?_⟩
    have := zipWith_sum_comm shells.length delta p rows planes (weights.map (· / weights.sum)) h4
    rw [List.zipWith_map_right] at this
    rw [← this]
    refine Finset.sum_congr rfl fun k hk => ?_
    rw [Finset.mem_range] at hk
    rw [getElem!_pos _ k (by simpa using hk)]
    simp

/-- The two shells of the following example are proper. -/
theorem two_shells_proper : Proper (flatCosmology 1 1 (fun z => z) fun z => 1 + z) [0, 1]
    [⟨[(0, 0), (1, 1), (2, 0)], 1⟩, ⟨[(1, 0), (2, 1), (3, 0)], 2⟩] := by
  have h1 : Inc [((0 : ℝ), (0 : ℝ)), (1, 1), (2, 0)] := by simp [Inc]
  have h2 : Inc [((1 : ℝ), (0 : ℝ)), (2, 1), (3, 0)] := by norm_num [Inc]
  have v1 := (interp_interpolates h1 none none).1 (1, 1) (by simp)
  have v2 := (interp_interpolates h2 none none).1 (2, 1) (by simp)
  refine ⟨rfl, by simp, ?_, flat_geometry 1 1 (fun z => z) (fun z => 1 + z) (by norm_num) rfl
    (fun a b _ h => h), by simp [flatCosmology], ?_⟩
  · intro w hw
    simp only [List.mem_cons, List.not_mem_nil, or_false] at hw
    rcases hw with rfl | rfl
    · rw [v1]; norm_num
    · rw [v2]; norm_num
  · intro w hw
    simp only [List.mem_cons, List.not_mem_nil, or_false] at hw
    rcases hw with rfl | rfl <;> norm_num [flatCosmology]

/-- Two shells: the matrix exists, and only the lower left entry can differ from zero. -/
theorem two_shells : ∃ rows, multiPlaneMatrix (flatCosmology 1 1 (fun z => z) fun z => 1 + z)
    [⟨[(0, 0), (1, 1), (2, 0)], 1⟩, ⟨[(1, 0), (2, 1), (3, 0)], 2⟩] = .ok rows ∧
      rows[1]! 0 = 3 / 4 ∧ rows[0]! 0 = 0 ∧ rows[1]! 1 = 0 := by
  have hg := flat_geometry 1 1 (fun z => z) (fun z => 1 + z) (by norm_num) rfl (fun a b _ h => h)
  have hok : ∃ rows, multiPlaneMatrix (flatCosmology 1 1 (fun z => z) fun z => 1 + z)
    [⟨[(0, 0), (1, 1), (2, 0)], 1⟩, ⟨[(1, 0), (2, 1), (3, 0)], 2⟩] = .ok rows := by
    norm_num [multiPlaneMatrix, matrixRows, addWindow_eq, MPC.addPlane, MPC.init,
      MPC.initialiseInputs, bind, Except.bind]
    exact ⟨_, if_neg (by simp)⟩
  obtain ⟨rows, hrows⟩ := hok
  have hi1 : Inc [((0 : ℝ), (0 : ℝ)), (1, 1), (2, 0)] := by simp [Inc]
  have hv := (interp_interpolates hi1 none none).1 (1, 1) (by simp)
  refine ⟨rows, hrows, ?_, ?_, ?_⟩
  · rw [matrix_entries hg _ rows hrows 1 (by simp) 0]
    simp [hv, xOf, x2Of, flatCosmology, trapezoid]
    norm_num
  · rw [matrix_entries hg _ rows hrows 0 (by simp) 0]; simp
  · rw [matrix_entries hg _ rows hrows 1 (by simp) 1]; simp

end Glass.Lensing
