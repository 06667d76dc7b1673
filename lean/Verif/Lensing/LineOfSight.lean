import Verif.Shells.Requirements
import Verif.Lensing.MatrixProps
import Verif.Galaxies.NzLaw
import Mathlib.MeasureTheory.Integral.IntervalIntegral.Basic
import Mathlib.Analysis.Calculus.MeanValue

/-!
# Property C143: the convergence approximates the line-of-sight integral

The documentation (`docs/user/how-glass-works.rst`, "Line-of-sight integrals") says that the radial
discretisation approximates integrals along the line of sight, such as the convergence of
gravitational lensing.  Here the continuous matter field is projected onto the shells, the
projections are given to `MultiPlaneConvergence`, and the result is compared with the integral.
-/

namespace Glass.Lensing

open Glass.Num Glass.Shells MeasureTheory

/-! ## Specification -/

/-- The kernel of the lensing integral for a source at redshift `zs`. -/
noncomputable def kernel (c : Cosmology) (zs z : ℝ) : ℝ :=
  3 / 2 * c.OmegaM0 * xOf c z * ((1 + z) / c.HoverH0 z) * (x2Of c z zs / xOf c zs)

/-- The convergence of a source at redshift `zs` behind the matter `delta`: the line-of-sight
integral. -/
noncomputable def losConvergence {P : Type} (c : Cosmology) (delta : ℝ → P → ℝ) (zs : ℝ) (p : P) : ℝ :=
  ∫ z in (0 : ℝ)..zs, kernel c zs z * delta z p

/-- The projection of a field onto the sphere by a window function
(`docs/user/how-glass-works.rst`, "Radial discretisation"). -/
noncomputable def projected (w : RadialWindow) (F : ℝ → ℝ) : ℝ :=
  (∫ z, w.eval z * F z) / ∫ z, w.eval z

/-- The calls that add the projections of the matter onto the shells. -/
noncomputable def projections {P : Type} (delta : ℝ → P → ℝ) (ws : List RadialWindow) :
    List (Call P) :=
  ws.map fun w => .window (fun p => projected w fun z => delta z p) w

/-! ## The computed convergence is an integral with a discretised kernel -/

theorem interp_bounded {ks : List (ℝ × ℝ)} (hi : Inc ks) :
    ∃ C, ∀ z, |interp (some 0) (some 0) ks z| ≤ C := by
  refine ⟨(ks.map fun k => |k.2|).sum, fun z => ?_⟩
  have h0 : 0 ≤ (ks.map fun k => |k.2|).sum :=
    List.sum_nonneg (by intro x hx; obtain ⟨k, -, rfl⟩ := List.mem_map.1 hx; exact abs_nonneg _)
  by_cases hr : InRange ks z
  · rw [interp_inRange hr, abs_le]
    obtain ⟨a, b, ha, -, h1, -⟩ := id hr
    refine interpIn_bounds hi hr.ne_nil (by rw [ha]; simpa using h1) fun k hk => ?_
    have : |k.2| ≤ (ks.map fun k => |k.2|).sum :=
      List.single_le_sum (by intro x hx; obtain ⟨k, -, rfl⟩ := List.mem_map.1 hx; exact abs_nonneg _)
        _ (List.mem_map.2 ⟨k, hk, rfl⟩)
    exact abs_le.1 this
  · rw [interp_zero hr]; simpa using h0

theorem window_mul_integrable {w : RadialWindow} (hi : Inc w.knots) {F : ℝ → ℝ} {a b : ℝ}
    (hF : IntervalIntegrable F volume a b) (r : ℝ) :
    IntervalIntegrable (fun z => r * w.eval z * F z) volume a b := by
  obtain ⟨C, hC⟩ := interp_bounded hi
  have hm : AEStronglyMeasurable (fun z => r * w.eval z) volume :=
    ((Glass.Galaxies.measurable_interp _ _ _).const_mul r).aestronglyMeasurable
  have hb : ∀ z, ‖r * w.eval z‖ ≤ |r| * C := by
    intro z
    rw [Real.norm_eq_abs, abs_mul]
    exact mul_le_mul_of_nonneg_left (hC z) (abs_nonneg r)
  exact ⟨hF.1.bdd_mul hm.restrict (Filter.Eventually.of_forall hb),
    hF.2.bdd_mul hm.restrict (Filter.Eventually.of_forall hb)⟩

theorem list_integral {l : List RadialWindow} {f : RadialWindow → ℝ → ℝ} {a b : ℝ}
    (h : ∀ w ∈ l, IntervalIntegrable (f w) volume a b) :
    IntervalIntegrable (fun z => (l.map fun w => f w z).sum) volume a b ∧
      ∫ z in a..b, (l.map fun w => f w z).sum = (l.map fun w => ∫ z in a..b, f w z).sum := by
  induction l with
  | nil => simp
  | cons w l ih =>
    have h1 := h w (by simp)
    have h2 := ih fun v hv => h v (List.mem_cons_of_mem _ hv)
    simp only [List.map_cons, List.sum_cons]
    exact ⟨h1.add h2.1, by rw [intervalIntegral.integral_add h1 h2.1, h2.2]⟩

/-- A window that can be used as a shell: its redshifts increase and are not negative, and its
window function does not vanish in its effective redshift and not on average. -/
structure Usable (w : RadialWindow) : Prop where
  inc : Inc w.knots
  nonneg : ∀ k ∈ w.knots, 0 ≤ k.1
  own : w.eval w.zeff ≠ 0
  total : (∫ z, w.eval z) ≠ 0

theorem usable_inRange {w : RadialWindow} (h : w.eval w.zeff ≠ 0) : InRange w.knots w.zeff := by
  by_contra hr
  exact h (interp_zero hr)

theorem trapezoid_eval {w : RadialWindow} (hi : Inc w.knots) :
    trapezoid w.knots = ∫ z, w.eval z := by
  rcases ha : w.knots.head? with _ | a
  · have hn : w.knots = [] := List.head?_eq_none_iff.1 ha
    have : ∀ z, w.eval z = 0 := by
      intro z
      exact interp_zero fun hr => hr.ne_nil hn
    simp [this, hn, trapezoid]
  · obtain ⟨b, hb⟩ : ∃ b, w.knots.getLast? = some b := by
      rcases hb : w.knots.getLast? with _ | b
      · rw [List.getLast?_eq_none_iff.1 hb] at ha; simp at ha
      · exact ⟨b, rfl⟩
    have hab : a.1 ≤ b.1 := by
      obtain ⟨a', b', ha', hb', h1, h2⟩ := inRange_of_mem hi (List.mem_of_head? ha)
      rw [hb] at hb'
      simp only [Option.some.injEq] at hb'
      subst hb'
      exact h2
    rw [trapezoid_interpolant w.eval w.knots a b hi (interp_interpolates hi _ _) ha hb,
      intervalIntegral.integral_of_le hab, ← integral_Icc_eq_integral_Ioc]
    refine setIntegral_eq_integral_of_forall_compl_eq_zero fun z hz => interp_zero fun hr => hz ?_
    obtain ⟨a', b', ha', hb', h1, h2⟩ := hr
    rw [ha] at ha'; rw [hb] at hb'
    simp only [Option.some.injEq] at ha' hb'
    subst ha' hb'
    exact ⟨h1, h2⟩

theorem addAll_windows {P : Type} (c : Cosmology) (delta : RadialWindow → P → ℝ)
    (ws : List RadialWindow) : ∀ s : MPC P,
    runAll c s (ws.map fun w => .window (delta w) w) = addAll c s (ws.map fun w =>
      ⟨w.zeff, trapezoid w.knots / interp none none w.knots w.zeff, delta w⟩) := by
  induction ws with
  | nil => intro s; rfl
  | cons w ws ih =>
    intro s
    have := ih (s.addPlane c (delta w) w.zeff
      (trapezoid w.knots / interp none none w.knots w.zeff)).2
    simp only [runAll, addAll, List.map_cons, List.foldl_cons] at this ⊢
    rw [← this]
    simp only [Call.run, addWindow_eq]

theorem runAll_append {P : Type} (c : Cosmology) (s : MPC P) (a b : List (Call P)) :
    runAll c s (a ++ b) = runAll c (runAll c s a) b := by
  simp [runAll, List.foldl_append]

/-- **C143**, the exact form: the convergence that is computed from the projected matter is the
line-of-sight integral with the kernel replaced by its values in the effective redshifts of the
shells, interpolated by the window functions. -/
theorem convergence_discretised {P : Type} {c : Cosmology} (hg : Geometry c)
    {ws : List RadialWindow} {src : RadialWindow} (hsep : Separated (ws ++ [src]))
    (huse : ∀ w ∈ ws, Usable w) (hinc : (0 :: (ws ++ [src]).map RadialWindow.zeff).IsChain (· < ·))
    (delta : ℝ → P → ℝ) (hint : ∀ p, IntervalIntegrable (fun z => delta z p) volume 0 src.zeff) :
    ∃ k, (runAll c (MPC.init P) (projections delta (ws ++ [src]))).kappa = some k ∧
      ∀ p, k p = ∫ z in (0 : ℝ)..src.zeff,
        (ws.map fun w => kernel c src.zeff w.zeff * (w.eval z / w.eval w.zeff)).sum * delta z p := by
  have hpos : 0 < src.zeff := by
    rw [List.isChain_iff_pairwise, List.pairwise_cons] at hinc
    exact hinc.1 _ (by simp)
  unfold projections
  rw [addAll_windows c (fun w p => projected w fun z => delta z p), List.map_append]
  have hok : AllOk c (MPC.init P) ((ws.map fun w => (⟨w.zeff,
      trapezoid w.knots / interp none none w.knots w.zeff,
      fun p => projected w fun z => delta z p⟩ : Plane P)) ++ [src].map fun w => ⟨w.zeff,
      trapezoid w.knots / interp none none w.knots w.zeff,
      fun p => projected w fun z => delta z p⟩) := by
    rw [all_ok_iff, List.map_append, List.map_map, List.map_map]
    simp only [List.map_append] at hinc
    exact hinc
  obtain ⟨k, hk, hkp⟩ := convergence_is_lensing_sum hg _ _ hok
  refine ⟨k, hk, fun p => ?_⟩
  rw [hkp, lensingSum, List.map_map]
  have hterm : ∀ w ∈ ws, (∫ z, w.eval z * delta z p) =
      ∫ z in (0 : ℝ)..src.zeff, w.eval z * delta z p := by
    intro w hw
    rw [intervalIntegral.integral_of_le hpos.le, ← integral_Icc_eq_integral_Ioc]
    refine (setIntegral_eq_integral_of_forall_compl_eq_zero fun z hz => ?_).symm
    have hz0 : w.eval z = 0 := by
      by_cases h0 : z < 0
      · refine interp_zero fun hr => ?_
        obtain ⟨a, b, ha, -, h1, -⟩ := hr
        have := (huse w hw).nonneg a (List.mem_of_head? ha)
        linarith
      · have hzs : src.zeff < z := by
          by_contra hle
          exact hz ⟨not_lt.1 h0, not_lt.1 hle⟩
        obtain ⟨j, hj, rfl⟩ := List.getElem_of_mem hw
        have := (hsep ws.length j (by simp) (by simp; omega) z).1 hj (by simpa using hzs.le)
        simpa [List.getElem_append_left hj] using this
    rw [hz0, zero_mul]
  have e : ∀ z, (ws.map fun w => kernel c src.zeff w.zeff * (w.eval z / w.eval w.zeff)).sum *
      delta z p = (ws.map fun w =>
        kernel c src.zeff w.zeff / w.eval w.zeff * w.eval z * delta z p).sum := by
    intro z
    rw [← List.sum_map_mul_right]
    congr 1
    refine List.map_congr_left fun w _ => ?_
    ring
  simp only [e]
  rw [(list_integral fun w hw => window_mul_integrable (huse w hw).inc (hint p) _).2]
  congr 1
  refine List.map_congr_left fun w hw => ?_
  have hu := huse w hw
  have hr := usable_inRange hu.own
  have hv : interp none none w.knots w.zeff = w.eval w.zeff := by
    rw [RadialWindow.eval, interp_inRange hr, interp_inRange hr]
  have hmul : ∀ z, kernel c src.zeff w.zeff / w.eval w.zeff * w.eval z * delta z p =
      kernel c src.zeff w.zeff / w.eval w.zeff * (w.eval z * delta z p) := fun z => mul_assoc _ _ _
  simp only [hmul, intervalIntegral.integral_const_mul, ← hterm w hw, Function.comp]
  rw [hv, trapezoid_eval hu.inc, projected, kernel]
  have h1 := hu.total
  have h2 := hu.own
  field_simp

/-! ## The error of the discretisation -/

theorem kernel_source {c : Cosmology} (hg : Geometry c) {zs : ℝ} (hz : 0 ≤ zs) :
    kernel c zs zs = 0 := by
  obtain ⟨C, -, hC⟩ := hg.addition
  have : x2Of c zs zs = 0 := by rw [hC zs zs hz le_rfl]; ring
  simp [kernel, this]

theorem kernel_observer {c : Cosmology} (hg : Geometry c) (zs : ℝ) : kernel c zs 0 = 0 := by
  simp [kernel, xOf, hg.zero]

/-- If the discretised kernel differs from the kernel by `eps` at most, the convergence differs from
the integral by the integral of the matter at most. -/
theorem error_of_kernel {P : Type} {c : Cosmology} (hg : Geometry c)
    {ws : List RadialWindow} {src : RadialWindow} (hsep : Separated (ws ++ [src]))
    (huse : ∀ w ∈ ws, Usable w) (hinc : (0 :: (ws ++ [src]).map RadialWindow.zeff).IsChain (· < ·))
    (delta : ℝ → P → ℝ) (hint : ∀ p, IntervalIntegrable (fun z => delta z p) volume 0 src.zeff)
    {eps : ℝ} (hc : ContinuousOn (kernel c src.zeff) (Set.Icc 0 src.zeff))
    (heps : ∀ᵐ z, z ∈ Set.Ioc 0 src.zeff →
      |(ws.map fun w => kernel c src.zeff w.zeff * (w.eval z / w.eval w.zeff)).sum -
        kernel c src.zeff z| ≤ eps) :
    ∃ k, (runAll c (MPC.init P) (projections delta (ws ++ [src]))).kappa = some k ∧
      ∀ p, |k p - losConvergence c delta src.zeff p| ≤
        eps * ∫ z in (0 : ℝ)..src.zeff, |delta z p| := by
  have hpos : 0 < src.zeff := by
    rw [List.isChain_iff_pairwise, List.pairwise_cons] at hinc
    exact hinc.1 _ (by simp)
  obtain ⟨k, hk, hkp⟩ := convergence_discretised hg hsep huse hinc delta hint
  refine ⟨k, hk, fun p => ?_⟩
  have hK : IntervalIntegrable (fun z => (ws.map fun w =>
      kernel c src.zeff w.zeff * (w.eval z / w.eval w.zeff)).sum * delta z p) volume 0 src.zeff := by
    have e : ∀ z, (ws.map fun w => kernel c src.zeff w.zeff * (w.eval z / w.eval w.zeff)).sum *
        delta z p = (ws.map fun w =>
          kernel c src.zeff w.zeff / w.eval w.zeff * w.eval z * delta z p).sum := by
      intro z
      rw [← List.sum_map_mul_right]
      congr 1
      refine List.map_congr_left fun w _ => ?_
      ring
    simp only [e]
    exact (list_integral fun w hw => window_mul_integrable (huse w hw).inc (hint p) _).1
  have hL : IntervalIntegrable (fun z => kernel c src.zeff z * delta z p) volume 0 src.zeff :=
    (hint p).continuousOn_mul (by rwa [Set.uIcc_of_le hpos.le])
  rw [hkp, losConvergence, ← intervalIntegral.integral_sub hK hL, ← Real.norm_eq_abs,
    ← intervalIntegral.integral_const_mul]
  refine intervalIntegral.norm_integral_le_of_norm_le hpos.le ?_ ((hint p).abs.const_mul eps)
  filter_upwards [heps] with z hz hm
  rw [← sub_mul, Real.norm_eq_abs, abs_mul]
  exact mul_le_mul_of_nonneg_right (hz hm) (abs_nonneg _)

/-! ### Linear and cubic windows -/

/-- Sums over the nodes with a partition of unity by steps interpolate between two nodes. -/
theorem nodes_interpolate {s : ℝ → ℝ → ℝ} {x : ℝ} (s1 : ∀ a b, a < b → b ≤ x → s a b = 1)
    (s0 : ∀ a b, a < b → x ≤ a → s a b = 0) (f : ℝ → ℝ) : ∀ (l : List ℝ) (z0 z1 z2 y : ℝ),
    (z0 :: z1 :: z2 :: l).Pairwise (· < ·) →
    (z0 :: z1 :: z2 :: l).dropLast.getLast? = some y → z0 ≤ x → x ≤ y →
    ∃ a b, (a, b) ∈ pairs (z0 :: z1 :: z2 :: l) ∧ a < b ∧ a ≤ x ∧ x ≤ b ∧ b ≤ y ∧
      f z0 * (1 - s z0 z1) + ((triples (z0 :: z1 :: z2 :: l)).map fun t =>
        f t.2.1 * (s t.1 t.2.1 - s t.2.1 t.2.2)).sum = f a * (1 - s a b) + f b * s a b := by
  intro l
  induction l with
  | nil =>
    intro z0 z1 z2 y hp hy h0 hxy
    have hy' : z1 = y := by simpa [List.dropLast] using hy
    subst hy'
    have h01 : z0 < z1 := (List.pairwise_cons.1 hp).1 z1 (by simp)
    have h12 : z1 < z2 := (List.pairwise_cons.1 (List.pairwise_cons.1 hp).2).1 z2 (by simp)
    refine ⟨z0, z1, by simp [pairs], h01, h0, hxy, le_rfl, ?_⟩
    simp [triples, s0 z1 z2 h12 hxy]
  | cons z3 l ih =>
    intro z0 z1 z2 y hp hy h0 hxy
    have hp1 := (List.pairwise_cons.1 hp).2
    have h01 : z0 < z1 := (List.pairwise_cons.1 hp).1 z1 (by simp)
    have h12 : z1 < z2 := (List.pairwise_cons.1 hp1).1 z2 (by simp)
    have hy' : (z1 :: z2 :: z3 :: l).dropLast.getLast? = some y := by
      simpa [List.dropLast_cons_of_ne_nil] using hy
    have e : triples (z0 :: z1 :: z2 :: z3 :: l) =
        (z0, z1, z2) :: triples (z1 :: z2 :: z3 :: l) := rfl
    rw [e, List.map_cons, List.sum_cons]
    by_cases hx : x ≤ z1
    · have hz1y : z1 ≤ y := by
        have hm := List.mem_of_getLast? hy'
        have hm' : y ∈ z1 :: z2 :: z3 :: l := List.mem_of_mem_dropLast hm
        rcases List.mem_cons.1 hm' with rfl | hm'
        · exact le_rfl
        · exact ((List.pairwise_cons.1 hp1).1 y hm').le
      refine ⟨z0, z1, by simp [pairs], h01, h0, hx, hz1y, ?_⟩
      have hzero : ((triples (z1 :: z2 :: z3 :: l)).map fun t =>
          f t.2.1 * (s t.1 t.2.1 - s t.2.1 t.2.2)).sum = 0 := by
        refine List.sum_eq_zero fun v hv => ?_
        obtain ⟨t, ht, rfl⟩ := List.mem_map.1 hv
        obtain ⟨t1, t2⟩ := triples_lt hp1 t ht
        have hm : t.1 ∈ z1 :: z2 :: z3 :: l := (List.of_mem_zip (a := t.1) (b := t.2) ht).1
        have hz1 : z1 ≤ t.1 := by
          rcases List.mem_cons.1 hm with h | h
          · exact h.ge
          · exact ((List.pairwise_cons.1 hp1).1 _ h).le
        rw [s0 _ _ t1 (hx.trans hz1), s0 _ _ t2 ((hx.trans hz1).trans t1.le)]
        ring
      rw [hzero, s0 z1 z2 h12 hx]
      ring
    · have hx' := not_le.1 hx
      obtain ⟨a, b, hm, hab, h1, h2, h3, h4⟩ := ih z1 z2 z3 y hp1 hy' hx'.le hxy
      refine ⟨a, b, ?_, hab, h1, h2, h3, ?_⟩
      · have : pairs (z0 :: z1 :: z2 :: z3 :: l) = (z0, z1) :: pairs (z1 :: z2 :: z3 :: l) := rfl
        rw [this]
        exact List.mem_cons_of_mem _ hm
      · rw [s1 z0 z1 h01 hx'.le, ← h4]
        ring

/-- Windows of a profile, one for each inner node. -/
structure IsProfile (p : ℝ → ℝ) (rnd : ℝ → ℤ) (dz : ℝ) (win : ℝ → ℝ → ℝ → RadialWindow) : Prop where
  zero : p 0 = 0
  one : p 1 = 1
  sym : ∀ u, p u + p (1 - u) = 1
  bounds : ∀ u, 0 ≤ u → u ≤ 1 → 0 ≤ p u ∧ p u ≤ 1
  knots : ∀ a b c, a < b → b < c → (win a b c).knots = windowKnots p rnd dz a b c
  zeff : ∀ a b c, (win a b c).zeff = b

theorem linear_isProfile (rnd : ℝ → ℤ) (dz : ℝ) : IsProfile id rnd dz (linearWindow rnd dz none) where
  zero := rfl
  one := rfl
  sym := linear_profile.1
  bounds := linear_profile.2
  knots _ _ _ h h' := linearWindow_knots h h'
  zeff _ _ _ := rfl

theorem cubic_isProfile (rnd : ℝ → ℤ) (dz : ℝ) :
    IsProfile (fun u => u ^ 2 * (3 - 2 * u)) rnd dz (cubicWindow rnd dz none) where
  zero := by norm_num
  one := by norm_num
  sym := cubic_profile.1
  bounds := cubic_profile.2
  knots _ _ _ h h' := cubicWindow_knots h h'
  zeff _ _ _ := rfl

theorem profile_eval {p : ℝ → ℝ} {rnd : ℝ → ℤ} {dz : ℝ} {win : ℝ → ℝ → ℝ → RadialWindow}
    (hp : IsProfile p rnd dz win) {a b c : ℝ} (hab : a < b) (hbc : b < c) (x : ℝ) :
    (win a b c).eval x = step p rnd dz a b x - step p rnd dz b c x := by
  rw [RadialWindow.eval, hp.knots a b c hab hbc]
  exact window_step hp.zero hp.one hp.sym hab hbc

theorem profile_own {p : ℝ → ℝ} {rnd : ℝ → ℤ} {dz : ℝ} {win : ℝ → ℝ → ℝ → RadialWindow}
    (hp : IsProfile p rnd dz win) {a b c : ℝ} (hab : a < b) (hbc : b < c) :
    (win a b c).eval b = 1 := by
  rw [profile_eval hp hab hbc, step_eq_one hp.one hab le_rfl, step_eq_zero hp.zero hbc le_rfl,
    sub_zero]

theorem profile_usable {p : ℝ → ℝ} {rnd : ℝ → ℤ} {dz : ℝ} {win : ℝ → ℝ → ℝ → RadialWindow}
    (hp : IsProfile p rnd dz win) {a b c : ℝ} (ha : 0 ≤ a) (hab : a < b) (hbc : b < c) :
    Usable (win a b c) := by
  have hi : Inc (win a b c).knots := by rw [hp.knots a b c hab hbc]; exact windowKnots_inc hab hbc
  have hk : ∀ k ∈ (win a b c).knots, a ≤ k.1 ∧ 0 ≤ k.2 := by
    intro k hk
    rw [hp.knots a b c hab hbc, windowKnots, List.mem_append] at hk
    rcases hk with hk | hk
    · obtain ⟨t, ht, rfl⟩ := List.mem_map.1 hk
      have := open_lt hab ht
      refine ⟨this.1, (hp.bounds _ (div_nonneg (by linarith) (by linarith)) ?_).1⟩
      rw [div_le_one (by linarith)]; linarith
    · obtain ⟨t, ht, rfl⟩ := List.mem_map.1 hk
      have := last_gt hbc (gridSize_ge rnd dz b c) ht
      have h1 : 0 ≤ (t - b) / (c - b) := div_nonneg (by linarith) (by linarith)
      have h2 : (t - b) / (c - b) ≤ 1 := by rw [div_le_one (by linarith)]; linarith
      exact ⟨hab.le.trans this.1, (hp.bounds _ (by linarith) (by linarith)).1⟩
  refine ⟨hi, fun k h => ha.trans (hk k h).1, ?_, ?_⟩
  · rw [hp.zeff, profile_own hp hab hbc]; exact one_ne_zero
  · rw [← trapezoid_eval hi]
    refine (trapezoid_pos_of_point hi ?_ (fun k h => (hk k h).2) ⟨(b, 1), ?_, one_pos⟩).ne'
    · have h1 := gridSize_ge rnd dz b c
      rw [hp.knots a b c hab hbc, windowKnots, List.length_append]
      simp only [sample, List.length_map, linspace_length]
      omega
    · obtain ⟨l, hl⟩ := linspace_cons (a := b) (b := c) (gridSize_ge rnd dz b c)
      rw [hp.knots a b c hab hbc, windowKnots, hl]
      simp [sample, fall, hp.one]

theorem triples_take (l : List ℝ) (i : ℕ) :
    (triples l).take (i + 1) = triples (l.take (i + 3)) := by
  apply List.ext_getElem
  · simp [triples]; omega
  · intro n h1 h2
    simp [triples]

theorem triples_mid (l : List ℝ) : ((triples l).map fun t => t.2.1) = l.tail.dropLast := by
  apply List.ext_getElem
  · simp [triples]; omega
  · intro n h1 h2
    simp [triples]

/-- The shells up to a source. -/
theorem take_source {ws : List RadialWindow} {i : ℕ} (hi : i < ws.length) :
    ws.take (i + 1) = ws.take i ++ [ws[i]] := (List.take_append_getElem hi).symm

theorem profile_error {P : Type} {c : Cosmology} (hg : Geometry c) {p : ℝ → ℝ} {rnd : ℝ → ℤ}
    {dz : ℝ} {win : ℝ → ℝ → ℝ → RadialWindow} (hp : IsProfile p rnd dz win) {zgrid : List ℝ}
    (hz : zgrid.Pairwise (· < ·)) (h0 : zgrid.head? = some 0) {ws : List RadialWindow}
    (hws : ws = (triples zgrid).map fun t => win t.1 t.2.1 t.2.2) {i : ℕ} (hi : i < ws.length)
    (delta : ℝ → P → ℝ) (hint : ∀ p, IntervalIntegrable (fun z => delta z p) volume 0 ws[i].zeff)
    {eps : ℝ} (hc : ContinuousOn (kernel c ws[i].zeff) (Set.Icc 0 ws[i].zeff))
    (heps : ∀ a b x, (a, b) ∈ pairs zgrid → 0 ≤ a → a < b → b ≤ ws[i].zeff → a ≤ x → x ≤ b →
      |kernel c ws[i].zeff a * (1 - step p rnd dz a b x) +
        kernel c ws[i].zeff b * step p rnd dz a b x - kernel c ws[i].zeff x| ≤ eps) :
    ∃ k, (runAll c (MPC.init P) (projections delta (ws.take (i + 1)))).kappa = some k ∧
      ∀ p, |k p - losConvergence c delta ws[i].zeff p| ≤
        eps * ∫ z in (0 : ℝ)..ws[i].zeff, |delta z p| := by
  have htake : ws.take (i + 1) = (triples (zgrid.take (i + 3))).map fun t => win t.1 t.2.1 t.2.2 := by
    rw [hws, ← List.map_take, triples_take]
  have hlen : i + 2 < zgrid.length := by
    rw [hws] at hi; simp [triples] at hi; omega
  have hsrc : ws[i].zeff = zgrid[i + 1] := by
    subst hws; simp [triples, hp.zeff]
  -- the nodes up to the one behind the source
  obtain ⟨z1, z2, l, hgrid⟩ : ∃ z1 z2 l, zgrid.take (i + 3) = 0 :: z1 :: z2 :: l := by
    have hl : (zgrid.take (i + 3)).length = i + 3 := by rw [List.length_take]; omega
    have hh : (zgrid.take (i + 3)).head? = some 0 := by
      rw [List.head?_take]; simp [h0]
    rcases hq : zgrid.take (i + 3) with _ | ⟨z0, _ | ⟨z1, _ | ⟨z2, l⟩⟩⟩
    · rw [hq] at hl; simp at hl
    · rw [hq] at hl; simp at hl
    · rw [hq] at hl; simp at hl
    · rw [hq] at hh
      simp only [List.head?_cons, Option.some.injEq] at hh
      exact ⟨z1, z2, l, by rw [hh]⟩
  have hpw : (0 :: z1 :: z2 :: l).Pairwise (· < ·) := by
    rw [← hgrid]; exact hz.sublist (List.take_sublist _ _)
  have hy : (0 :: z1 :: z2 :: l).dropLast.getLast? = some ws[i].zeff := by
    rw [← hgrid, hsrc, List.getLast?_eq_getElem?, List.getElem?_dropLast]
    have hl : (zgrid.take (i + 3)).length = i + 3 := by rw [List.length_take]; omega
    simp only [List.length_dropLast, hl]
    rw [if_pos (by omega), List.getElem?_take, if_pos (by omega), List.getElem?_eq_getElem (by omega)]
    rfl
  have hpairs : ∀ q ∈ pairs (0 :: z1 :: z2 :: l), q ∈ pairs zgrid := by
    intro q hq
    rw [← hgrid] at hq
    obtain ⟨n, hn, rfl⟩ := List.getElem_of_mem hq
    simp only [pairs, List.length_zip, List.length_tail, List.length_take] at hn
    refine List.mem_of_getElem (i := n) (h := by simp [pairs]; omega) ?_
    simp [pairs]
  have hmem : ∀ t ∈ triples (0 :: z1 :: z2 :: l), 0 ≤ t.1 := by
    intro t ht
    have hm : t.1 ∈ 0 :: z1 :: z2 :: l := (List.of_mem_zip (a := t.1) (b := t.2) ht).1
    exact head_le hpw rfl hm
  have hpos : 0 < ws[i].zeff := by
    have hm := List.mem_of_getLast? hy
    rw [List.dropLast_cons_of_ne_nil (by simp)] at hm
    rw [hsrc]
    have e0 : zgrid[0] = 0 := by
      rw [List.head?_eq_getElem?, List.getElem?_eq_some_iff] at h0
      exact h0.2
    rw [← e0]
    exact List.pairwise_iff_getElem.1 hz 0 (i + 1) _ _ (by omega)
  rw [hgrid] at htake
  have htake' := take_source hi
  rw [htake'] at htake ⊢
  refine error_of_kernel hg (ws := ws.take i) (src := ws[i]) ?_ ?_ ?_ delta hint hc ?_
  · rw [htake]
    refine triples_separated hpw hp.zeff fun a b c z hab hbc hout => ?_
    rw [profile_eval hp hab hbc]
    rcases hout with h | h
    · rw [step_eq_zero hp.zero hab h, step_eq_zero hp.zero hbc (by linarith), sub_zero]
    · rw [step_eq_one hp.one hab (by linarith), step_eq_one hp.one hbc h, sub_self]
  · intro w hw
    have hw' : w ∈ ws.take i ++ [ws[i]] := List.mem_append_left _ hw
    rw [htake] at hw'
    obtain ⟨t, ht, rfl⟩ := List.mem_map.1 hw'
    obtain ⟨t1, t2⟩ := triples_lt hpw t ht
    exact profile_usable hp (hmem t ht) t1 t2
  · rw [htake, List.map_map, List.isChain_iff_pairwise]
    have e : (RadialWindow.zeff ∘ fun t : ℝ × ℝ × ℝ => win t.1 t.2.1 t.2.2) = fun t => t.2.1 := by
      funext t; exact hp.zeff _ _ _
    have hsub : List.Sublist (0 :: (triples (0 :: z1 :: z2 :: l)).map fun t => t.2.1)
        (0 :: z1 :: z2 :: l) := by
      refine List.Sublist.cons_cons _ ?_
      rw [triples_mid]
      exact List.dropLast_sublist _
    rw [e]
    exact hpw.sublist hsub
  · refine Filter.Eventually.of_forall fun x hx => ?_
    have hsum : ((ws.take i).map fun w =>
        kernel c ws[i].zeff w.zeff * (w.eval x / w.eval w.zeff)).sum =
        ((triples (0 :: z1 :: z2 :: l)).map fun t => kernel c ws[i].zeff t.2.1 *
          (step p rnd dz t.1 t.2.1 x - step p rnd dz t.2.1 t.2.2 x)).sum := by
      have hadd : ((ws.take i).map fun w =>
          kernel c ws[i].zeff w.zeff * (w.eval x / w.eval w.zeff)).sum =
          ((ws.take i ++ [ws[i]]).map fun w =>
            kernel c ws[i].zeff w.zeff * (w.eval x / w.eval w.zeff)).sum := by
        rw [List.map_append, List.sum_append]
        simp [kernel_source hg hpos.le]
      rw [hadd, htake, List.map_map]
      congr 1
      refine List.map_congr_left fun t ht => ?_
      obtain ⟨t1, t2⟩ := triples_lt hpw t ht
      simp only [Function.comp, hp.zeff, profile_own hp t1 t2, div_one, profile_eval hp t1 t2]
    obtain ⟨a, b, hm, hab, h1, h2, h3, h4⟩ := nodes_interpolate
      (s := fun a b => step p rnd dz a b x) (x := x) (fun a b hab hb => step_eq_one hp.one hab hb)
      (fun a b hab hb => step_eq_zero hp.zero hab hb) (kernel c ws[i].zeff) l 0 z1 z2 _ hpw hy
      hx.1.le hx.2
    rw [kernel_observer hg, zero_mul, zero_add] at h4
    rw [hsum, h4]
    have ha : 0 ≤ a := head_le hpw rfl (List.of_mem_zip hm).1
    exact heps a b x (hpairs _ hm) ha hab h3 h1 h2

/-- The kernel for sources at `zs` varies by at most `L` per redshift in front of the source. -/
def KernelLipschitz (c : Cosmology) (zs L : ℝ) : Prop :=
  ∀ x y, 0 ≤ x → x ≤ zs → 0 ≤ y → y ≤ zs → |kernel c zs x - kernel c zs y| ≤ L * |x - y|

theorem KernelLipschitz.continuousOn {c : Cosmology} {zs L : ℝ} (h : KernelLipschitz c zs L) :
    ContinuousOn (kernel c zs) (Set.Icc 0 zs) := by
  have : LipschitzOnWith (Real.toNNReal L) (kernel c zs) (Set.Icc 0 zs) := by
    refine LipschitzOnWith.of_dist_le_mul fun x hx y hy => ?_
    rw [Real.dist_eq, Real.dist_eq]
    refine (h x y hx.1 hx.2 hy.1 hy.2).trans ?_
    exact mul_le_mul_of_nonneg_right (Real.le_coe_toNNReal L) (abs_nonneg _)
  exact this.continuousOn

/-- A value between the values at the ends of an interval. -/
theorem between_bound {f : ℝ → ℝ} {a b x u L h : ℝ} (hu0 : 0 ≤ u) (hu1 : u ≤ 1) (hL : 0 ≤ L)
    (hax : a ≤ x) (hxb : x ≤ b) (hh : b - a ≤ h) (ha : |f a - f x| ≤ L * |a - x|)
    (hb : |f b - f x| ≤ L * |b - x|) : |f a * (1 - u) + f b * u - f x| ≤ L * h := by
  have e : f a * (1 - u) + f b * u - f x = (1 - u) * (f a - f x) + u * (f b - f x) := by ring
  have h1 : |f a - f x| ≤ L * h := by
    refine ha.trans (mul_le_mul_of_nonneg_left ?_ hL)
    rw [abs_le]; constructor <;> linarith
  have h2 : |f b - f x| ≤ L * h := by
    refine hb.trans (mul_le_mul_of_nonneg_left ?_ hL)
    rw [abs_le]; constructor <;> linarith
  rw [e]
  refine (abs_add_le _ _).trans ?_
  rw [abs_mul, abs_mul, abs_of_nonneg (by linarith : 0 ≤ 1 - u), abs_of_nonneg hu0]
  nlinarith

theorem profile_error_lipschitz {P : Type} {c : Cosmology} (hg : Geometry c) {p : ℝ → ℝ}
    {rnd : ℝ → ℤ} {dz : ℝ} {win : ℝ → ℝ → ℝ → RadialWindow} (hp : IsProfile p rnd dz win)
    {zgrid : List ℝ} (hz : zgrid.Pairwise (· < ·)) (h0 : zgrid.head? = some 0)
    {ws : List RadialWindow} (hws : ws = (triples zgrid).map fun t => win t.1 t.2.1 t.2.2) {i : ℕ}
    (hi : i < ws.length) {h L : ℝ} (hh : ∀ q ∈ pairs zgrid, q.2 - q.1 ≤ h) (hL0 : 0 ≤ L)
    (hL : KernelLipschitz c ws[i].zeff L) (delta : ℝ → P → ℝ)
    (hint : ∀ p, IntervalIntegrable (fun z => delta z p) volume 0 ws[i].zeff) :
    ∃ k, (runAll c (MPC.init P) (projections delta (ws.take (i + 1)))).kappa = some k ∧
      ∀ p, |k p - losConvergence c delta ws[i].zeff p| ≤
        L * h * ∫ z in (0 : ℝ)..ws[i].zeff, |delta z p| := by
  refine profile_error hg hp hz h0 hws hi delta hint hL.continuousOn ?_
  intro a b x hm ha hab hb hax hxb
  have hs := step_bounds (rnd := rnd) (dz := dz) (x := x) hp.bounds hab
  refine between_bound (f := kernel c ws[i].zeff) hs.1 hs.2 hL0 hax hxb (hh _ hm) ?_ ?_
  · exact hL a x ha (hab.le.trans hb) (ha.trans hax) (hxb.trans hb)
  · exact hL b x (ha.trans hab.le) hb (ha.trans hax) (hxb.trans hb)

/-- **C143** for `linear_windows`: for nodes with spacings of at most `h`, beginning at redshift
zero, the convergence differs from the line-of-sight integral by at most `L * h` times the integral
of the absolute matter field. -/
theorem linear_convergence_error {P : Type} {c : Cosmology} (hg : Geometry c) {rnd : ℝ → ℤ}
    {zgrid : List ℝ} {dz : ℝ} {ws : List RadialWindow} (hz : zgrid.Pairwise (· < ·))
    (h0 : zgrid.head? = some 0) (hws : linearWindows rnd zgrid dz none = .ok ws) {i : ℕ}
    (hi : i < ws.length) {h L : ℝ} (hh : ∀ q ∈ pairs zgrid, q.2 - q.1 ≤ h) (hL0 : 0 ≤ L)
    (hL : KernelLipschitz c ws[i].zeff L) (delta : ℝ → P → ℝ)
    (hint : ∀ p, IntervalIntegrable (fun z => delta z p) volume 0 ws[i].zeff) :
    ∃ k, (runAll c (MPC.init P) (projections delta (ws.take (i + 1)))).kappa = some k ∧
      ∀ p, |k p - losConvergence c delta ws[i].zeff p| ≤
        L * h * ∫ z in (0 : ℝ)..ws[i].zeff, |delta z p| := by
  unfold linearWindows at hws
  split_ifs at hws with hl
  simp only [Except.ok.injEq] at hws
  exact profile_error_lipschitz hg (linear_isProfile rnd dz) hz h0 hws.symm hi hh hL0 hL delta hint

/-- **C143** for `cubic_windows`. -/
theorem cubic_convergence_error {P : Type} {c : Cosmology} (hg : Geometry c) {rnd : ℝ → ℤ}
    {zgrid : List ℝ} {dz : ℝ} {ws : List RadialWindow} (hz : zgrid.Pairwise (· < ·))
    (h0 : zgrid.head? = some 0) (hws : cubicWindows rnd zgrid dz none = .ok ws) {i : ℕ}
    (hi : i < ws.length) {h L : ℝ} (hh : ∀ q ∈ pairs zgrid, q.2 - q.1 ≤ h) (hL0 : 0 ≤ L)
    (hL : KernelLipschitz c ws[i].zeff L) (delta : ℝ → P → ℝ)
    (hint : ∀ p, IntervalIntegrable (fun z => delta z p) volume 0 ws[i].zeff) :
    ∃ k, (runAll c (MPC.init P) (projections delta (ws.take (i + 1)))).kappa = some k ∧
      ∀ p, |k p - losConvergence c delta ws[i].zeff p| ≤
        L * h * ∫ z in (0 : ℝ)..ws[i].zeff, |delta z p| := by
  unfold cubicWindows at hws
  split_ifs at hws with hl
  simp only [Except.ok.injEq] at hws
  exact profile_error_lipschitz hg (cubic_isProfile rnd dz) hz h0 hws.symm hi hh hL0 hL delta hint

/-! ### Linear windows and smooth kernels -/

/-- The step of the linear windows is the straight line. -/
theorem linear_step {rnd : ℝ → ℤ} {dz a b x : ℝ} (hab : a < b) (hax : a ≤ x) (hxb : x ≤ b) :
    step id rnd dz a b x = (x - a) / (b - a) := by
  have hn := gridSize_ge rnd dz a b
  unfold step
  rw [if_neg (not_lt.2 hax), if_neg (not_lt.2 hxb), ascending]
  have e : sample (rise id a b) (linspace a b (gridSize rnd dz a b)) =
      sample (fun t => (1 / (b - a)) * t + (-a / (b - a))) (linspace a b (gridSize rnd dz a b)) := by
    refine sample_congr fun t _ => ?_
    simp only [rise, id]
    ring
  rw [e, interpIn_sample_affine]
  · ring
  · exact linspace_sorted hab _
  · intro l hl
    rw [linspace_last hn] at hl
    simp only [Option.mem_def, Option.some.injEq] at hl
    rw [← hl]; exact hxb
  · intro hnil
    have := congrArg List.length hnil
    rw [linspace_length] at this
    simp at this; omega
  · rw [linspace_length]; omega

/-- The error of the linear interpolation of a function whose derivative is Lipschitz. -/
theorem linear_interpolation_error {f f' : ℝ → ℝ} {a b x M : ℝ} (hab : a < b) (hax : a ≤ x)
    (hxb : x ≤ b) (hc : ContinuousOn f (Set.Icc a b)) (hd : ∀ y ∈ Set.Ioo a b, HasDerivAt f (f' y) y)
    (hM : ∀ y ∈ Set.Ioo a b, ∀ z ∈ Set.Ioo a b, |f' y - f' z| ≤ M * |y - z|) (hM0 : 0 ≤ M) :
    |f a * (1 - (x - a) / (b - a)) + f b * ((x - a) / (b - a)) - f x| ≤ M * (b - a) ^ 2 / 4 := by
  have hne : b - a ≠ 0 := by linarith
  have hrhs : 0 ≤ M * (b - a) ^ 2 / 4 := by positivity
  rcases hax.eq_or_lt with rfl | hax
  · simpa using hrhs
  rcases hxb.eq_or_lt with rfl | hxb
  · rw [div_self hne]; simpa using hrhs
  obtain ⟨s, hs, es⟩ := exists_hasDerivAt_eq_slope f f' hax
    (hc.mono (Set.Icc_subset_Icc le_rfl hxb.le)) fun y hy => hd y ⟨hy.1, hy.2.trans hxb⟩
  obtain ⟨t, ht, et⟩ := exists_hasDerivAt_eq_slope f f' hxb
    (hc.mono (Set.Icc_subset_Icc hax.le le_rfl)) fun y hy => hd y ⟨hax.trans hy.1, hy.2⟩
  have h1 : f x = f a + f' s * (x - a) := by
    rw [es, div_mul_cancel₀ _ (by linarith)]; ring
  have h2 : f b = f x + f' t * (b - x) := by
    rw [et, div_mul_cancel₀ _ (by linarith)]; ring
  have e : f a * (1 - (x - a) / (b - a)) + f b * ((x - a) / (b - a)) - f x =
      (b - x) * (x - a) / (b - a) * (f' t - f' s) := by
    have h3 : f a = f x - f' s * (x - a) := by linarith
    rw [h2, h3]
    field_simp
    ring
  have hq : (b - x) * (x - a) / (b - a) ≤ (b - a) / 4 := by
    rw [div_le_iff₀ (by linarith)]
    nlinarith [sq_nonneg (b - x - (x - a))]
  have hq0 : 0 ≤ (b - x) * (x - a) / (b - a) :=
    div_nonneg (mul_nonneg (by linarith) (by linarith)) (by linarith)
  have hts : |f' t - f' s| ≤ M * (b - a) := by
    refine (hM t ⟨hax.trans ht.1, ht.2⟩ s ⟨hs.1, hs.2.trans hxb⟩).trans ?_
    refine mul_le_mul_of_nonneg_left ?_ hM0
    rw [abs_le]
    constructor <;> linarith [ht.1, ht.2, hs.1, hs.2]
  rw [e, abs_mul, abs_of_nonneg hq0]
  calc (b - x) * (x - a) / (b - a) * |f' t - f' s| ≤ (b - a) / 4 * (M * (b - a)) :=
        mul_le_mul hq hts (abs_nonneg _) (by linarith)
    _ = M * (b - a) ^ 2 / 4 := by ring

/-- **C143** for `linear_windows` and a kernel with a Lipschitz derivative: the error decreases with
the square of the spacing of the nodes. -/
theorem linear_convergence_error_square {P : Type} {c : Cosmology} (hg : Geometry c) {rnd : ℝ → ℤ}
    {zgrid : List ℝ} {dz : ℝ} {ws : List RadialWindow} (hz : zgrid.Pairwise (· < ·))
    (h0 : zgrid.head? = some 0) (hws : linearWindows rnd zgrid dz none = .ok ws) {i : ℕ}
    (hi : i < ws.length) {h M : ℝ} (hh : ∀ q ∈ pairs zgrid, q.2 - q.1 ≤ h) (hM0 : 0 ≤ M)
    {k' : ℝ → ℝ} (hc : ContinuousOn (kernel c ws[i].zeff) (Set.Icc 0 ws[i].zeff))
    (hd : ∀ z ∈ Set.Ioo 0 ws[i].zeff, HasDerivAt (kernel c ws[i].zeff) (k' z) z)
    (hM : ∀ y ∈ Set.Ioo 0 ws[i].zeff, ∀ z ∈ Set.Ioo 0 ws[i].zeff, |k' y - k' z| ≤ M * |y - z|)
    (delta : ℝ → P → ℝ) (hint : ∀ p, IntervalIntegrable (fun z => delta z p) volume 0 ws[i].zeff) :
    ∃ k, (runAll c (MPC.init P) (projections delta (ws.take (i + 1)))).kappa = some k ∧
      ∀ p, |k p - losConvergence c delta ws[i].zeff p| ≤
        M * h ^ 2 / 4 * ∫ z in (0 : ℝ)..ws[i].zeff, |delta z p| := by
  unfold linearWindows at hws
  split_ifs at hws with hl
  simp only [Except.ok.injEq] at hws
  refine profile_error hg (linear_isProfile rnd dz) hz h0 hws.symm hi delta hint hc ?_
  intro a b x hm ha hab hb hax hxb
  rw [linear_step hab hax hxb]
  have hsub : ∀ y ∈ Set.Ioo a b, y ∈ Set.Ioo 0 ws[i].zeff := fun y hy =>
    ⟨ha.trans_lt hy.1, hy.2.trans_le hb⟩
  refine (linear_interpolation_error hab hax hxb (hc.mono fun y hy => ⟨ha.trans hy.1, hy.2.trans hb⟩)
    (fun y hy => hd y (hsub y hy)) (fun y hy z hz => hM y (hsub y hy) z (hsub z hz)) hM0).trans ?_
  have := hh _ hm
  simp only at this
  have h2 : (b - a) ^ 2 ≤ h ^ 2 := by nlinarith
  have := mul_le_mul_of_nonneg_left h2 hM0
  linarith

/-! ### Tophat windows -/

/-- A sum over the bins with the indicators of the bins has one term, except at the edges. -/
theorem bins_select {x : ℝ} (f : ℝ × ℝ → ℝ) : ∀ (l : List ℝ) (z0 : ℝ),
    (z0 :: l).Pairwise (· < ·) → z0 < x → (∃ y ∈ l, x < y) → x ∉ z0 :: l →
    ∃ (n : ℕ) (hn : n + 1 < (z0 :: l).length), (z0 :: l)[n] < x ∧ x < (z0 :: l)[n + 1] ∧
      ((pairs (z0 :: l)).map fun q => f q * if q.1 ≤ x ∧ x ≤ q.2 then 1 else 0).sum =
        f ((z0 :: l)[n], (z0 :: l)[n + 1]) := by
  intro l
  induction l with
  | nil => intro z0 _ _ h; obtain ⟨y, hy, -⟩ := h; simp at hy
  | cons z1 l ih =>
    intro z0 hp h0 hy hx
    have hp1 := (List.pairwise_cons.1 hp).2
    have e : pairs (z0 :: z1 :: l) = (z0, z1) :: pairs (z1 :: l) := rfl
    rw [e, List.map_cons, List.sum_cons]
    rcases lt_trichotomy x z1 with h1 | h1 | h1
    · refine ⟨0, by simp, h0, h1, ?_⟩
      have hzero : ((pairs (z1 :: l)).map fun q =>
          f q * if q.1 ≤ x ∧ x ≤ q.2 then 1 else 0).sum = 0 := by
        refine List.sum_eq_zero fun v hv => ?_
        obtain ⟨q, hq, rfl⟩ := List.mem_map.1 hv
        have hm : q.1 ∈ z1 :: l := (List.of_mem_zip (a := q.1) (b := q.2) hq).1
        have : z1 ≤ q.1 := head_le hp1 rfl hm
        rw [if_neg (by intro h; linarith [h.1]), mul_zero]
      rw [hzero, if_pos ⟨h0.le, h1.le⟩]
      simp
    · exact absurd (h1 ▸ by simp) hx
    · obtain ⟨n, hn, h2, h3, h4⟩ := ih z1 hp1 h1 (by
        obtain ⟨y, hy, hxy⟩ := hy
        rcases List.mem_cons.1 hy with rfl | hy
        · exact absurd hxy (not_lt.2 h1.le)
        · exact ⟨y, hy, hxy⟩) (fun h => hx (List.mem_cons_of_mem _ h))
      refine ⟨n + 1, by simpa using hn, by simpa using h2, by simpa using h3, ?_⟩
      rw [if_neg (by intro h; linarith [h.2]), mul_zero, zero_add, h4]
      simp

theorem pairs_take (l : List ℝ) (i : ℕ) : (pairs l).take (i + 1) = pairs (l.take (i + 2)) := by
  apply List.ext_getElem
  · simp [pairs]; omega
  · intro n h1 h2
    simp [pairs]

theorem tophat_usable {rnd : ℝ → ℤ} {dz a b : ℝ} (ha : 0 ≤ a) (hab : a < b) :
    Usable (tophatWindow rnd dz none a b) := by
  have hn := gridSize_ge rnd dz a b
  have hz := tophatWindow_zeff_mem (rnd := rnd) (dz := dz) (weight := none) hab (by simp)
  have hi : Inc (tophatWindow rnd dz none a b).knots := by
    rw [tophatWindow_knots]; exact inc_sample.2 (linspace_sorted hab _)
  refine ⟨hi, ?_, ?_, ?_⟩
  · intro k hk
    rw [tophatWindow_knots] at hk
    obtain ⟨t, ht, rfl⟩ := List.mem_map.1 hk
    exact ha.trans (last_gt hab hn ht).1
  · rw [tophatWindow_eval, if_pos ⟨hz.1.le, hz.2.le⟩]; exact one_ne_zero
  · rw [← trapezoid_eval hi, tophatWindow_knots]
    exact (trapezoid_pos hab hn fun _ _ _ => by simp).ne'

/-- **C143** for `tophat_windows`: for bins of width `h` at most, beginning at redshift zero, the
error is at most `L * h / 2` times the integral of the absolute matter field. -/
theorem tophat_convergence_error {P : Type} {c : Cosmology} (hg : Geometry c) {rnd : ℝ → ℤ}
    {zbins : List ℝ} {dz : ℝ} {ws : List RadialWindow} (hz : zbins.Pairwise (· < ·))
    (h0 : zbins.head? = some 0) (hws : tophatWindows rnd zbins dz none = .ok ws) {i : ℕ}
    (hi : i < ws.length) {h L : ℝ} (hh : ∀ q ∈ pairs zbins, q.2 - q.1 ≤ h) (hL0 : 0 ≤ L)
    (hL : KernelLipschitz c ws[i].zeff L) (delta : ℝ → P → ℝ)
    (hint : ∀ p, IntervalIntegrable (fun z => delta z p) volume 0 ws[i].zeff) :
    ∃ k, (runAll c (MPC.init P) (projections delta (ws.take (i + 1)))).kappa = some k ∧
      ∀ p, |k p - losConvergence c delta ws[i].zeff p| ≤
        L * (h / 2) * ∫ z in (0 : ℝ)..ws[i].zeff, |delta z p| := by
  have hsepAll := tophat_windows_separated_partial hz (by intro _ h; simp at h) hws
  unfold tophatWindows at hws
  split_ifs at hws with hl
  simp only [Except.ok.injEq] at hws
  have hlen : i + 1 < zbins.length := by
    rw [← hws] at hi; simp [pairs] at hi; omega
  have hlt := List.pairwise_iff_getElem.1 hz
  have e0 : zbins[0] = 0 := by
    rw [List.head?_eq_getElem?, List.getElem?_eq_some_iff] at h0
    exact h0.2
  have hle : ∀ (m n : ℕ) (hm : m < zbins.length) (hn : n < zbins.length), m ≤ n →
      zbins[m] ≤ zbins[n] := by
    intro m n hm hn hmn
    rcases hmn.lt_or_eq with h | rfl
    · exact (hlt m n hm hn h).le
    · exact le_rfl
  have hw : ∀ (n : ℕ) (hn : n < ws.length), ∃ hn' : n + 1 < zbins.length,
      ws[n] = tophatWindow rnd dz none zbins[n] zbins[n + 1] := by
    intro n hn
    subst hws
    refine ⟨by simp [pairs] at hn; omega, by simp [pairs]⟩
  have hzeff : ∀ (n : ℕ) (hn : n < ws.length) (hn' : n + 1 < zbins.length),
      ws[n].zeff = (zbins[n] + zbins[n + 1]) / 2 := by
    intro n hn hn'
    obtain ⟨_, e⟩ := hw n hn
    rw [e]
    exact tophatWindow_zeff_centre (hlt n (n + 1) _ _ (by omega))
  have hsrc := hzeff i hi hlen
  have hi1 : zbins[i] < zbins[i + 1] := hlt i (i + 1) _ _ (by omega)
  have hi0 : 0 ≤ zbins[i] := by rw [← e0]; exact hle 0 i _ _ (by omega)
  have htake : ws.take (i + 1) =
      (pairs (zbins.take (i + 2))).map fun q => tophatWindow rnd dz none q.1 q.2 := by
    rw [← hws, ← List.map_take, pairs_take]
  have htake' := take_source hi
  rw [htake']
  refine error_of_kernel hg (ws := ws.take i) (src := ws[i]) ?_ ?_ ?_ delta hint hL.continuousOn ?_
  · rw [← htake']
    intro m n hm hn z
    simp only [List.getElem_take]
    exact hsepAll m n _ _ z
  · intro w hw'
    obtain ⟨n, hn, rfl⟩ := List.getElem_of_mem (List.mem_of_mem_take hw')
    obtain ⟨hn', e⟩ := hw n hn
    rw [e]
    exact tophat_usable (by rw [← e0]; exact hle 0 n _ _ (by omega)) (hlt n (n + 1) _ _ (by omega))
  · rw [← htake', List.isChain_iff_pairwise, List.pairwise_cons]
    constructor
    · intro z hz'
      obtain ⟨w, hw', rfl⟩ := List.mem_map.1 hz'
      obtain ⟨n, hn, rfl⟩ := List.getElem_of_mem (List.mem_of_mem_take hw')
      obtain ⟨hn', -⟩ := hw n hn
      rw [hzeff n hn hn']
      have h1 := hle 0 n (by omega) (by omega) (by omega)
      have h2 := hlt n (n + 1) (by omega) (by omega) (by omega)
      rw [e0] at h1
      linarith
    · rw [List.pairwise_iff_getElem]
      intro m n hm hn hmn
      simp only [List.length_map, List.length_take] at hm hn
      simp only [List.getElem_map, List.getElem_take]
      rw [hzeff m (by omega) (by obtain ⟨h, _⟩ := hw m (by omega); exact h),
        hzeff n (by omega) (by obtain ⟨h, _⟩ := hw n (by omega); exact h)]
      have hn1 : n + 1 < zbins.length := by obtain ⟨h, _⟩ := hw n (by omega); exact h
      have h1 := hle (m + 1) n (by omega) (by omega) (by omega)
      have h2 := hlt m (m + 1) (by omega) (by omega) (by omega)
      have h3 := hlt n (n + 1) (by omega) (by omega) (by omega)
      linarith
  · have hae : ∀ᵐ x : ℝ, x ∉ zbins.take (i + 2) := by
      have hf : {x | x ∈ zbins.take (i + 2)}.Finite := List.finite_toSet _
      exact hf.countable.ae_notMem volume
    filter_upwards [hae] with x hxn hx
    have hpos : 0 < ws[i].zeff := hx.1.trans_le hx.2
    have hsum : ((ws.take i).map fun w =>
        kernel c ws[i].zeff w.zeff * (w.eval x / w.eval w.zeff)).sum =
        ((pairs (zbins.take (i + 2))).map fun q => kernel c ws[i].zeff ((q.1 + q.2) / 2) *
          if q.1 ≤ x ∧ x ≤ q.2 then 1 else 0).sum := by
      have hadd : ((ws.take i).map fun w =>
          kernel c ws[i].zeff w.zeff * (w.eval x / w.eval w.zeff)).sum =
          ((ws.take (i + 1)).map fun w =>
            kernel c ws[i].zeff w.zeff * (w.eval x / w.eval w.zeff)).sum := by
        rw [htake', List.map_append, List.sum_append]
        simp [kernel_source hg hpos.le]
      rw [hadd, htake, List.map_map]
      congr 1
      refine List.map_congr_left fun q hq => ?_
      obtain ⟨n, hn, rfl⟩ := List.getElem_of_mem hq
      simp only [pairs, List.length_zip, List.length_tail, List.length_take] at hn
      have hq1 : ((pairs (zbins.take (i + 2)))[n]'(by simp [pairs]; omega)) =
          (zbins[n]'(by omega), zbins[n + 1]'(by omega)) := by simp [pairs]
      rw [hq1]
      have hab : zbins[n]'(by omega) < zbins[n + 1]'(by omega) := hlt n (n + 1) _ _ (by omega)
      simp only [Function.comp, tophatWindow_zeff_centre hab, tophatWindow_eval]
      rw [if_pos (show zbins[n]'(by omega) ≤ (zbins[n]'(by omega) + zbins[n + 1]'(by omega)) / 2 ∧
        (zbins[n]'(by omega) + zbins[n + 1]'(by omega)) / 2 ≤ zbins[n + 1]'(by omega) by
        constructor <;> linarith), div_one]
    have hgrid : ∃ l, zbins.take (i + 2) = 0 :: l := by
      rcases hq : zbins.take (i + 2) with _ | ⟨z0, l⟩
      · have := congrArg List.length hq
        rw [List.length_take] at this
        simp only [List.length_nil] at this; omega
      · refine ⟨l, ?_⟩
        have : (zbins.take (i + 2)).head? = some 0 := by rw [List.head?_take]; simp [h0]
        rw [hq] at this
        simp only [List.head?_cons, Option.some.injEq] at this
        rw [this]
    obtain ⟨l, hgrid⟩ := hgrid
    have hll : l.length = i + 1 := by
      have := congrArg List.length hgrid
      rw [List.length_take, List.length_cons] at this; omega
    have hget : ∀ (n : ℕ) (hn : n < (0 :: l).length), (0 :: l)[n] = zbins[n]'(by simp at hn; omega) := by
      intro n hn
      simp only [← hgrid, List.getElem_take]
    rw [hgrid] at hsum hxn
    obtain ⟨n, hn, h1, h2, h3⟩ := bins_select (x := x)
      (fun q => kernel c ws[i].zeff ((q.1 + q.2) / 2)) l 0
      (by rw [← hgrid]; exact hz.sublist (List.take_sublist _ _)) hx.1
      ⟨zbins[i + 1], by
        have := List.getElem_mem (l := l) (n := i) (by omega)
        have e := hget (i + 1) (by simp; omega)
        simp only [List.getElem_cons_succ] at e
        rwa [e] at this, by linarith [hx.2]⟩ hxn
    simp only [hget] at h1 h2 h3
    rw [hsum, h3]
    simp only [List.length_cons] at hn
    have hni : n ≤ i := by omega
    have hm1 : (zbins[n]'(by omega) + zbins[n + 1]'(by omega)) / 2 ≤ ws[i].zeff := by
      rw [hsrc]
      have := hle n i (by omega) (by omega) hni
      have := hle (n + 1) (i + 1) (by omega) (by omega) (by omega)
      linarith
    have hn0 : 0 ≤ zbins[n]'(by omega) := by rw [← e0]; exact hle 0 n _ _ (by omega)
    have hw' := hh (zbins[n]'(by omega), zbins[n + 1]'(by omega))
      (List.mem_of_getElem (i := n) (h := by simp [pairs]; omega) (by simp [pairs]))
    simp only at hw'
    refine (hL _ x (by linarith) hm1 hx.1.le hx.2).trans (mul_le_mul_of_nonneg_left ?_ hL0)
    rw [abs_le]
    constructor <;> linarith

/-! ### A concrete case -/

/-- An expanding space with comoving distance `z`; the kernel is a parabola. -/
theorem simple_kernel {z : ℝ} (hz : 0 ≤ z) :
    kernel (flatCosmology 1 1 (fun z => z) fun z => 1 + z) 1 z = 3 / 2 * (z * (1 - z)) := by
  have : 1 + z ≠ 0 := by linarith
  simp only [kernel, xOf, x2Of, flatCosmology]
  field_simp

/-- Four nodes with distance one half: the convergence of a source at redshift one is the integral
up to three quarters of the integral of the matter. -/
example (delta : ℝ → Unit → ℝ)
    (hint : ∀ p, IntervalIntegrable (fun z => delta z p) volume 0 1) :
    ∃ ws k, linearWindows (fun x => ⌊x⌋) [0, 1 / 2, 1, 3 / 2] (1 / 4) none = .ok ws ∧
      (runAll (flatCosmology 1 1 (fun z => z) fun z => 1 + z) (MPC.init Unit)
        (projections delta (ws.take 2))).kappa = some k ∧
      ∀ p, |k p - losConvergence (flatCosmology 1 1 (fun z => z) fun z => 1 + z) delta 1 p| ≤
        3 / 2 * (1 / 2) * ∫ z in (0 : ℝ)..1, |delta z p| := by
  have hg : Geometry (flatCosmology 1 1 (fun z => z) fun z => 1 + z) :=
    flat_geometry 1 1 _ _ one_ne_zero rfl fun _ _ _ h => h
  have hL : KernelLipschitz (flatCosmology 1 1 (fun z => z) fun z => 1 + z) 1 (3 / 2) := by
    intro x y hx0 hx1 hy0 hy1
    rw [simple_kernel hx0, simple_kernel hy0]
    have : 3 / 2 * (x * (1 - x)) - 3 / 2 * (y * (1 - y)) = 3 / 2 * ((x - y) * (1 - x - y)) := by ring
    rw [this, abs_mul, abs_mul, abs_of_pos (by norm_num : (0 : ℝ) < 3 / 2)]
    refine mul_le_mul_of_nonneg_left ?_ (by norm_num)
    calc |x - y| * |1 - x - y| ≤ |x - y| * 1 :=
          mul_le_mul_of_nonneg_left (abs_le.2 ⟨by linarith, by linarith⟩) (abs_nonneg _)
      _ = |x - y| := mul_one _
  have := linear_convergence_error (ws := (triples [0, 1 / 2, 1, 3 / 2]).map fun t =>
      linearWindow (fun x => ⌊x⌋) (1 / 4) none t.1 t.2.1 t.2.2) (i := 1) (h := 1 / 2) hg
    (zgrid := [0, 1 / 2, 1, 3 / 2]) (by norm_num) rfl rfl (by simp [triples])
    (by simp [pairs]; norm_num) (by norm_num) hL delta hint
  obtain ⟨k, hk, h⟩ := this
  exact ⟨_, k, rfl, hk, h⟩

end Glass.Lensing
