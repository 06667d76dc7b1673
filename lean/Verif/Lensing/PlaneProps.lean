import Mathlib.Analysis.SpecialFunctions.Trigonometric.Basic
import Mathlib.Analysis.SpecialFunctions.Trigonometric.DerivHyp
import Verif.Lensing.Model
import Verif.Numerics.Spec

/-! # Properties C48, C49, C50 and C80: multi-plane convergence -/

namespace Glass.Lensing

open Glass.Num Glass.Shells

/-! ## Specification -/

/-- A matter plane that has been added. -/
structure Plane (P : Type) where
  z : ℝ
  w : ℝ
  delta : P → ℝ

/-- Distance in units of the Hubble distance. -/
noncomputable def xOf (c : Cosmology) (z : ℝ) : ℝ := c.distance z / c.hubbleDistance

/-- Distance between two redshifts in units of the Hubble distance. -/
noncomputable def x2Of (c : Cosmology) (z z' : ℝ) : ℝ := c.distance2 z z' / c.hubbleDistance

/-- **The lensing sum**: the convergence of a source at redshift `z` behind the planes `ps`. -/
noncomputable def lensingSum {P : Type} (c : Cosmology) (ps : List (Plane P)) (z : ℝ) (p : P) : ℝ :=
  (ps.map fun q => 3 / 2 * c.OmegaM0 * xOf c q.z * ((1 + q.z) / c.HoverH0 q.z) * q.w *
    (x2Of c q.z z / xOf c z) * q.delta p).sum

/-- The law of a homogeneous geometry.  `C` is one for a flat space, a hyperbolic cosine for an
open, and a cosine for a closed space. -/
structure Geometry (c : Cosmology) : Prop where
  hubble : c.hubbleDistance ≠ 0
  zero : c.distance 0 = 0
  pos : ∀ z, 0 < z → xOf c z ≠ 0
  between : ∀ a b, 0 ≤ a → a < b → x2Of c a b ≠ 0
  addition : ∃ C : ℝ → ℝ, C 0 = 1 ∧ ∀ a b, 0 ≤ a → a ≤ b →
    x2Of c a b = xOf c b * C a - xOf c a * C b

/-- Successful calls of `add_plane`, oldest first. -/
noncomputable def addAll {P : Type} (c : Cosmology) (s : MPC P) (ps : List (Plane P)) : MPC P :=
  ps.foldl (fun s p => (s.addPlane c p.delta p.z p.w).2) s

/-- All calls succeed. -/
noncomputable def AllOk {P : Type} (c : Cosmology) : MPC P → List (Plane P) → Prop
  | _, [] => True
  | s, p :: ps => (s.addPlane c p.delta p.z p.w).1 = none ∧
      AllOk c (s.addPlane c p.delta p.z p.w).2 ps

/-! ## The three-term recurrence -/

/-- The ratio of distances of the geometry. -/
theorem ratio_eq {c : Cosmology} (hg : Geometry c) {C : ℝ → ℝ} {a b : ℝ}
    (hC : ∀ a b, 0 ≤ a → a ≤ b → x2Of c a b = xOf c b * C a - xOf c a * C b) (ha : 0 ≤ a)
    (hab : a ≤ b) (hb : 0 < b) : x2Of c a b / xOf c b = C a - xOf c a * (C b / xOf c b) := by
  rw [hC a b ha hab]
  have := hg.pos b hb
  field_simp

/-- Contents of the state after the planes `hist` (newest first). -/
def Invariant {P : Type} (c : Cosmology) (s : MPC P) : List (Plane P) → Prop
  | [] => s.z2 = 0 ∧ s.z3 = 0 ∧ s.x3 = 0 ∧ s.w3 = 0 ∧ s.r23 = 1 ∧
      (∀ d, s.delta3 = some d → ∀ p, d p = 0) ∧ s.planes = none
  | [b] => 0 < b.z ∧ s.z2 = 0 ∧ s.z3 = b.z ∧ s.x3 = xOf c b.z ∧ s.w3 = b.w ∧ s.r23 = 1 ∧
      s.delta3 = some b.delta ∧ ∃ pl, s.planes = some pl ∧ ∀ i p, pl.buf i p = 0
  | b :: a :: rest => 0 < a.z ∧ a.z < b.z ∧ s.z2 = a.z ∧ s.z3 = b.z ∧ s.x3 = xOf c b.z ∧
      s.w3 = b.w ∧ s.r23 = x2Of c a.z b.z / xOf c b.z ∧ s.delta3 = some b.delta ∧
      (∀ q ∈ rest, 0 < q.z ∧ q.z < a.z) ∧
      ∃ pl, s.planes = some pl ∧ (∀ p, pl.buf pl.cur p = lensingSum c (a :: rest) b.z p) ∧
        ∀ p, pl.buf (!pl.cur) p = lensingSum c rest a.z p

theorem sum_recurrence {P : Type} {c : Cosmology} (hg : Geometry c) (rest : List (Plane P))
    (a b : Plane P) (z : ℝ) (p : P) (ha : 0 < a.z) (hab : a.z < b.z) (hbz : b.z < z)
    (hrest : ∀ q ∈ rest, 0 < q.z ∧ q.z < a.z) :
    let t := (x2Of c a.z z / xOf c z) / (x2Of c a.z b.z / xOf c b.z)
    lensingSum c (a :: rest) z p =
      lensingSum c rest a.z p * (1 - t) + t * lensingSum c (a :: rest) b.z p := by
  intro t
  obtain ⟨C, -, hC⟩ := hg.addition
  have hb : 0 < b.z := ha.trans hab
  have hz : 0 < z := hb.trans hbz
  have hxa := hg.pos a.z ha
  have hxb := hg.pos b.z hb
  have hxz := hg.pos z hz
  set q : ℝ → ℝ := fun z => C z / xOf c z with hq
  have hr : ∀ u v, 0 ≤ u → u ≤ v → 0 < v → x2Of c u v / xOf c v = C u - xOf c u * q v :=
    fun u v h1 h2 h3 => ratio_eq hg hC h1 h2 h3
  have hCa : C a.z = xOf c a.z * q a.z := by rw [hq]; field_simp
  have hne : x2Of c a.z b.z / xOf c b.z ≠ 0 := div_ne_zero (hg.between _ _ ha.le hab) hxb
  have ht : t * (x2Of c a.z b.z / xOf c b.z) = x2Of c a.z z / xOf c z :=
    div_mul_cancel₀ _ hne
  have hqt : q a.z * (1 - t) + t * q b.z = q z := by
    rw [hr _ _ ha.le hab.le hb, hr _ _ ha.le (hab.trans hbz).le hz, hCa] at ht
    have : xOf c a.z * (q a.z * (1 - t) + t * q b.z - q z) = 0 := by linear_combination -ht
    rcases mul_eq_zero.1 this with h | h
    · exact absurd h hxa
    · linarith
  clear_value t q
  have key : ∀ l : List (Plane P), (∀ q ∈ l, 0 < q.z ∧ q.z < a.z) →
      lensingSum c l z p = lensingSum c l a.z p * (1 - t) + t * lensingSum c l b.z p := by
    intro l hl
    induction l with
    | nil => simp [lensingSum]
    | cons u l ih =>
      obtain ⟨hu0, hua⟩ := hl u (by simp)
      have ih := ih fun q hq => hl q (by simp [hq])
      unfold lensingSum at ih ⊢
      simp only [List.map_cons, List.sum_cons]
      rw [ih, hr _ _ hu0.le ((hua.trans hab).trans hbz).le hz, hr _ _ hu0.le hua.le ha,
        hr _ _ hu0.le (hua.trans hab).le hb]
      linear_combination (3 / 2 * c.OmegaM0 * xOf c u.z * ((1 + u.z) / c.HoverH0 u.z) * u.w *
        u.delta p * xOf c u.z) * hqt
  have h1 := key rest hrest
  unfold lensingSum at h1 ⊢
  simp only [List.map_cons, List.sum_cons]
  rw [h1]
  linear_combination (-(3 / 2 * c.OmegaM0 * xOf c a.z * ((1 + a.z) / c.HoverH0 a.z) * a.w *
        a.delta p)) * ht

theorem div_mul_hubble {c : Cosmology} (hg : Geometry c) (u z : ℝ) :
    c.distance2 u z / (c.hubbleDistance * (c.distance z / c.hubbleDistance)) =
      x2Of c u z / xOf c z := by
  have := hg.hubble
  unfold x2Of xOf
  by_cases h : c.distance z = 0
  · simp [h]
  · field_simp

theorem first_ratio {c : Cosmology} (hg : Geometry c) {z : ℝ} (hz : 0 < z) :
    x2Of c 0 z / xOf c z = 1 := by
  obtain ⟨C, h0, hC⟩ := hg.addition
  have hx := hg.pos z hz
  have hx0 : xOf c 0 = 0 := by unfold xOf; rw [hg.zero, zero_div]
  rw [hC 0 z le_rfl hz.le, h0, hx0]
  field_simp
  ring

theorem invariant_step {P : Type} {c : Cosmology} (hg : Geometry c) (s : MPC P)
    (hist : List (Plane P)) (hs : Invariant c s hist) (n : Plane P)
    (hok : (s.addPlane c n.delta n.z n.w).1 = none) :
    Invariant c (s.addPlane c n.delta n.z n.w).2 (n :: hist) := by
  match hist, hs with
  | [], ⟨h1, h2, h3, h4, h5, h6, h7⟩ =>
    have i1 : s.initialiseInputs.z2 = 0 := by unfold MPC.initialiseInputs; split <;> exact h1
    have i2 : s.initialiseInputs.z3 = 0 := by unfold MPC.initialiseInputs; split <;> exact h2
    have i3 : s.initialiseInputs.x3 = 0 := by unfold MPC.initialiseInputs; split <;> exact h3
    have i5 : s.initialiseInputs.r23 = 1 := by unfold MPC.initialiseInputs; split <;> exact h5
    have i7 : s.initialiseInputs.planes = none := by
      unfold MPC.initialiseInputs; split <;> exact h7
    have hz : ¬ n.z ≤ s.initialiseInputs.z3 := by
      intro h
      simp [MPC.addPlane, h] at hok
    have hz' : 0 < n.z := by rw [i2] at hz; exact not_le.1 hz
    have hr : c.distance2 0 n.z / (c.hubbleDistance * (c.distance n.z / c.hubbleDistance)) = 1 := by
      rw [div_mul_hubble hg, first_ratio hg hz']
    refine ⟨hz', ?_⟩
    simp only [MPC.addPlane, if_neg (not_le.2 hz'), i1, i2, i3, i5, i7, hr]
    refine ⟨trivial, trivial, rfl, trivial, trivial, trivial, _, rfl, ?_⟩
    intro i p
    cases i <;> simp
  | [b], ⟨hb, h1, h2, h3, h4, h5, h6, pl, h7, h8⟩ =>
    have hi : s.initialiseInputs = s := by unfold MPC.initialiseInputs; rw [h6]
    have hz : ¬ n.z ≤ s.z3 := by
      intro h
      simp [MPC.addPlane, hi, h] at hok
    have hbz : b.z < n.z := by rw [h2] at hz; exact not_le.1 hz
    have hr : c.distance2 0 n.z / (c.hubbleDistance * (c.distance n.z / c.hubbleDistance)) = 1 := by
      rw [div_mul_hubble hg, first_ratio hg (hb.trans hbz)]
    refine ⟨hb, hbz, ?_⟩
    simp only [MPC.addPlane, hi, if_neg (not_le.2 hbz), h1, h2, h3, h4, h5, h6, h7, hr]
    refine ⟨trivial, trivial, rfl, trivial, div_mul_hubble hg _ _, trivial, by simp, _, rfl, ?_, ?_⟩
    · intro p
      simp only [if_true, h8, div_mul_hubble hg, lensingSum, List.map_cons, List.map_nil,
        List.sum_cons, List.sum_nil, Option.getD_some]
      ring
    · intro p
      simp [h8, lensingSum]
  | b :: a :: rest, ⟨ha, hab, h1, h2, h3, h4, h5, h6, hrest, pl, h7, h8, h9⟩ =>
    have hi : s.initialiseInputs = s := by unfold MPC.initialiseInputs; rw [h6]
    have hz : ¬ n.z ≤ s.z3 := by
      intro h
      simp [MPC.addPlane, hi, h] at hok
    have hbz : b.z < n.z := by rw [h2] at hz; exact not_le.1 hz
    refine ⟨ha.trans hab, hbz, ?_⟩
    simp only [MPC.addPlane, hi, if_neg (not_le.2 hbz), h1, h2, h3, h4, h5, h6, h7]
    refine ⟨trivial, trivial, rfl, trivial, div_mul_hubble hg _ _, trivial, ?_, _, rfl, ?_, ?_⟩
    · intro q hq
      rcases List.mem_cons.1 hq with rfl | hq
      · exact ⟨ha, hab⟩
      · exact ⟨(hrest q hq).1, (hrest q hq).2.trans hab⟩
    · intro p
      have hrec := sum_recurrence hg rest a b n.z p ha hab hbz hrest
      have hb1 : lensingSum c (b :: a :: rest) n.z p =
          3 / 2 * c.OmegaM0 * xOf c b.z * ((1 + b.z) / c.HoverH0 b.z) * b.w *
            (x2Of c b.z n.z / xOf c n.z) * b.delta p + lensingSum c (a :: rest) n.z p := by
        simp [lensingSum]
      rw [hb1, hrec]
      simp only [if_true, h8, h9, div_mul_hubble hg, Option.getD_some]
      ring
    · intro p
      have : ∀ x : Bool, ((!!x) = !x) = False := by decide
      simp only [this, if_false, h8]

/-- **C48**: after any successful calls the convergence is the lensing sum over the planes that
were added before the last one, at the redshift of the last one. -/
theorem convergence_is_lensing_sum {P : Type} {c : Cosmology} (hg : Geometry c)
    (before : List (Plane P)) (last : Plane P)
    (hok : AllOk c (MPC.init P) (before ++ [last])) :
    ∃ k, (addAll c (MPC.init P) (before ++ [last])).kappa = some k ∧
      ∀ p, k p = lensingSum c before last.z p := by
  have key : ∀ (ps : List (Plane P)) (s : MPC P) (hist : List (Plane P)), Invariant c s hist →
      AllOk c s ps → Invariant c (addAll c s ps) (ps.reverse ++ hist) := by
    intro ps
    induction ps with
    | nil => intro s hist h _; exact h
    | cons n ps ih =>
      intro s hist h hok
      have := ih _ (n :: hist) (invariant_step hg s hist h n hok.1) hok.2
      simpa [addAll] using this
  have hI := key _ _ [] (by simp [Invariant, MPC.init]) hok
  have hperm : ∀ (l : List (Plane P)) (z : ℝ) (p : P),
      lensingSum c l.reverse z p = lensingSum c l z p := by
    intro l z p
    unfold lensingSum
    rw [List.map_reverse, List.sum_reverse]
  rw [List.reverse_append, List.reverse_singleton, List.append_nil, List.singleton_append] at hI
  cases hb : before.reverse with
  | nil =>
    rw [hb] at hI
    obtain ⟨_, _, _, _, _, _, _, pl, h7, h8⟩ := hI
    refine ⟨pl.buf pl.cur, by simp [MPC.kappa, h7], fun p => ?_⟩
    rw [← hperm, hb, h8]
    simp [lensingSum]
  | cons a rest =>
    rw [hb] at hI
    obtain ⟨_, _, _, _, _, _, _, _, _, pl, h7, h8, _⟩ := hI
    refine ⟨pl.buf pl.cur, by simp [MPC.kappa, h7], fun p => ?_⟩
    rw [← hperm, hb, h8]

/-- The calls succeed exactly for increasing positive redshifts. -/
theorem all_ok_iff {P : Type} (c : Cosmology) (ps : List (Plane P)) :
    ∀ s : MPC P, AllOk c s ps ↔ (s.z3 :: ps.map Plane.z).IsChain (· < ·) := by
  induction ps with
  | nil => intro s; simp [AllOk]
  | cons n ps ih =>
    intro s
    have hz : s.initialiseInputs.z3 = s.z3 := by unfold MPC.initialiseInputs; split <;> rfl
    by_cases h : n.z ≤ s.z3
    · have : ¬ s.z3 < n.z := not_lt.2 h
      simp [AllOk, MPC.addPlane, hz, h, this]
    · have h' := not_le.1 h
      have e : (s.addPlane c n.delta n.z n.w).2.z3 = n.z := by simp [MPC.addPlane, hz, h]
      have e1 : (s.addPlane c n.delta n.z n.w).1 = none := by simp [MPC.addPlane, hz, h]
      unfold AllOk
      rw [ih, e, List.map_cons, List.isChain_cons_cons]
      simp [e1, h']

/-! ### The geometries satisfy the law -/

/-- A flat cosmology with comoving distance `chi`. -/
def flatCosmology (Om dh : ℝ) (chi E : ℝ → ℝ) : Cosmology :=
  { OmegaM0 := Om, hubbleDistance := dh, distance := fun z => dh * chi z,
    distance2 := fun a b => dh * (chi b - chi a), HoverH0 := E }

/-- An open cosmology of curvature `k`. -/
noncomputable def openCosmology (Om dh k : ℝ) (chi E : ℝ → ℝ) : Cosmology :=
  { OmegaM0 := Om, hubbleDistance := dh, distance := fun z => dh * (Real.sinh (k * chi z) / k),
    distance2 := fun a b => dh * (Real.sinh (k * (chi b - chi a)) / k), HoverH0 := E }

/-- A closed cosmology of curvature `k`. -/
noncomputable def closedCosmology (Om dh k : ℝ) (chi E : ℝ → ℝ) : Cosmology :=
  { OmegaM0 := Om, hubbleDistance := dh, distance := fun z => dh * (Real.sin (k * chi z) / k),
    distance2 := fun a b => dh * (Real.sin (k * (chi b - chi a)) / k), HoverH0 := E }

theorem flat_geometry (Om dh : ℝ) (chi E : ℝ → ℝ) (hd : dh ≠ 0) (h0 : chi 0 = 0)
    (hm : ∀ a b, 0 ≤ a → a < b → chi a < chi b) : Geometry (flatCosmology Om dh chi E) where
  hubble := hd
  zero := by simp [flatCosmology, h0]
  pos z hz := by
    have := hm 0 z le_rfl hz
    simp only [xOf, flatCosmology]
    rw [mul_div_cancel_left₀ _ hd]; linarith
  between a b ha hab := by
    have := hm a b ha hab
    simp only [x2Of, flatCosmology]
    rw [mul_div_cancel_left₀ _ hd]; linarith
  addition := by
    refine ⟨fun _ => 1, rfl, fun a b _ _ => ?_⟩
    simp only [x2Of, xOf, flatCosmology]
    rw [mul_div_cancel_left₀ _ hd, mul_div_cancel_left₀ _ hd, mul_div_cancel_left₀ _ hd]; ring

theorem open_geometry (Om dh k : ℝ) (chi E : ℝ → ℝ) (hd : dh ≠ 0) (hk : 0 < k) (h0 : chi 0 = 0)
    (hm : ∀ a b, 0 ≤ a → a < b → chi a < chi b) : Geometry (openCosmology Om dh k chi E) where
  hubble := hd
  zero := by simp [openCosmology, h0]
  pos z hz := by
    have h1 := hm 0 z le_rfl hz
    simp only [xOf, openCosmology]
    rw [mul_div_cancel_left₀ _ hd]
    have : 0 < Real.sinh (k * chi z) := Real.sinh_pos_iff.2 (mul_pos hk (by linarith))
    exact (div_pos this hk).ne'
  between a b ha hab := by
    have h1 := hm a b ha hab
    simp only [x2Of, openCosmology]
    rw [mul_div_cancel_left₀ _ hd]
    have : 0 < Real.sinh (k * (chi b - chi a)) := Real.sinh_pos_iff.2 (mul_pos hk (by linarith))
    exact (div_pos this hk).ne'
  addition := by
    refine ⟨fun z => Real.cosh (k * chi z), by simp [h0], fun a b _ _ => ?_⟩
    simp only [x2Of, xOf, openCosmology]
    rw [mul_div_cancel_left₀ _ hd, mul_div_cancel_left₀ _ hd, mul_div_cancel_left₀ _ hd, mul_sub,
      Real.sinh_sub]; ring

theorem closed_geometry (Om dh k : ℝ) (chi E : ℝ → ℝ) (hd : dh ≠ 0) (hk : 0 < k) (h0 : chi 0 = 0)
    (hm : ∀ a b, 0 ≤ a → a < b → chi a < chi b) (hpi : ∀ z, 0 ≤ z → k * chi z < Real.pi) :
    Geometry (closedCosmology Om dh k chi E) where
  hubble := hd
  zero := by simp [closedCosmology, h0]
  pos z hz := by
    have h1 := hm 0 z le_rfl hz
    simp only [xOf, closedCosmology]
    rw [mul_div_cancel_left₀ _ hd]
    have : 0 < Real.sin (k * chi z) :=
      Real.sin_pos_of_pos_of_lt_pi (mul_pos hk (by linarith)) (hpi z hz.le)
    exact (div_pos this hk).ne'
  between a b ha hab := by
    have h1 := hm a b ha hab
    have h2 : 0 ≤ chi a := by
      rcases ha.eq_or_lt with rfl | ha
      · rw [h0]
      · have := hm 0 a le_rfl ha; linarith
    simp only [x2Of, closedCosmology]
    rw [mul_div_cancel_left₀ _ hd]
    have : 0 < Real.sin (k * (chi b - chi a)) := by
      refine Real.sin_pos_of_pos_of_lt_pi (mul_pos hk (by linarith)) ?_
      have := hpi b (ha.trans hab.le)
      nlinarith
    exact (div_pos this hk).ne'
  addition := by
    refine ⟨fun z => Real.cos (k * chi z), by simp [h0], fun a b _ _ => ?_⟩
    simp only [x2Of, xOf, closedCosmology]
    rw [mul_div_cancel_left₀ _ hd, mul_div_cancel_left₀ _ hd, mul_div_cancel_left₀ _ hd, mul_sub,
      Real.sin_sub]; ring

/-- Three planes in a flat space with distance equal to redshift. -/
example : (addAll (flatCosmology 1 1 (fun z => z) fun z => 1 + z) (MPC.init Unit)
    [⟨1, 1, fun _ => 1⟩, ⟨2, 1, fun _ => 3⟩, ⟨4, 1, fun _ => 5⟩]).kappa.map (fun k => k ()) =
      some (3 / 2 * 1 * (3 / 4) * 1 + 3 / 2 * 2 * (2 / 4) * 3) := by
  have hg := flat_geometry 1 1 (fun z => z) (fun z => 1 + z) (by norm_num) rfl
    (fun a b _ h => h)
  obtain ⟨k, h1, h2⟩ := convergence_is_lensing_sum (P := Unit) hg
    [⟨1, 1, fun _ => 1⟩, ⟨2, 1, fun _ => 3⟩] ⟨4, 1, fun _ => 5⟩
    (by rw [all_ok_iff]; simp [MPC.init]; norm_num)
  have : ([⟨1, 1, fun _ => 1⟩, ⟨2, 1, fun _ => 3⟩] : List (Plane Unit)) ++ [⟨4, 1, fun _ => 5⟩] =
    [⟨1, 1, fun _ => 1⟩, ⟨2, 1, fun _ => 3⟩, ⟨4, 1, fun _ => 5⟩] := rfl
  rw [this] at h1
  rw [h1]
  simp only [Option.map_some, h2, Option.some.injEq]
  simp [lensingSum, xOf, x2Of, flatCosmology]
  norm_num

/-! ## C49: rejected planes -/

/-- **C49**: a plane is rejected exactly if its redshift is not larger, with `ValueError`. -/
theorem add_plane_rejects {P : Type} (c : Cosmology) (s : MPC P) (delta : P → ℝ) (z w : ℝ) :
    (s.zsrc < z ∧ (s.addPlane c delta z w).1 = none) ∨
    (z ≤ s.zsrc ∧ ∃ m, (s.addPlane c delta z w).1 = some (.value m)) := by
  have hz : s.initialiseInputs.z3 = s.z3 := by unfold MPC.initialiseInputs; split <;> rfl
  by_cases h : z ≤ s.z3
  · right
    exact ⟨h, "source redshift must be increasing", by simp only [MPC.addPlane, hz, if_pos h]⟩
  · left
    exact ⟨not_le.1 h, by simp only [MPC.addPlane, hz, if_neg h]⟩

/-- **C49 does not hold for the property `delta`**: before the first plane it is `None`; after a
rejected plane it is an array. -/
theorem rejected_plane_changes_delta : ∃ (c : Cosmology) (s : MPC Unit) (z w : ℝ),
    (∃ m, (s.addPlane c (fun _ => 1) z w).1 = some (.value m)) ∧ s.delta = none ∧
    (s.addPlane c (fun _ => 1) z w).2.delta ≠ none := by
  refine ⟨flatCosmology 1 1 id id, MPC.init Unit, 0, 1,
    ⟨"source redshift must be increasing", ?_⟩, rfl, ?_⟩
  · simp only [MPC.addPlane, MPC.initialiseInputs, MPC.init, le_refl, if_true]
  · simp [MPC.addPlane, MPC.initialiseInputs, MPC.init, MPC.delta]

/-- The two states cannot be told apart except that one may say `None` and the other zero for a
matter plane that has not been set. -/
def SameUpToDelta {P : Type} (s s' : MPC P) : Prop := s.initialiseInputs = s'.initialiseInputs

theorem sameUpToDelta_observables {P : Type} {s s' : MPC P} (h : SameUpToDelta s s') :
    s.kappa = s'.kappa ∧ s.zsrc = s'.zsrc ∧ s.wlens = s'.wlens ∧
      (s.delta ≠ none → s'.delta ≠ none → s.delta = s'.delta) := by
  have e1 : ∀ s : MPC P, s.initialiseInputs.kappa = s.kappa := fun s => by
    unfold MPC.initialiseInputs; split <;> rfl
  have e2 : ∀ s : MPC P, s.initialiseInputs.zsrc = s.zsrc := fun s => by
    unfold MPC.initialiseInputs; split <;> rfl
  have e3 : ∀ s : MPC P, s.initialiseInputs.wlens = s.wlens := fun s => by
    unfold MPC.initialiseInputs; split <;> rfl
  have e4 : ∀ s : MPC P, s.delta ≠ none → s.initialiseInputs.delta = s.delta := fun s hs => by
    unfold MPC.initialiseInputs
    split
    · next h => exact absurd h hs
    · rfl
  unfold SameUpToDelta at h
  refine ⟨by rw [← e1, h, e1], by rw [← e2, h, e2], by rw [← e3, h, e3], fun h1 h2 => ?_⟩
  rw [← e4 s h1, h, e4 s' h2]

/-- A call of a method: `add_plane` or `add_window`. -/
inductive Call (P : Type) where
  | plane (delta : P → ℝ) (z w : ℝ)
  | window (delta : P → ℝ) (w : RadialWindow)

/-- The effect of a call. -/
noncomputable def Call.run {P : Type} (c : Cosmology) (s : MPC P) : Call P → Option Err × MPC P
  | .plane delta z w => s.addPlane c delta z w
  | .window delta w => s.addWindow c delta w

/-- Run calls one after the other; a failed call is caught by the caller. -/
noncomputable def runAll {P : Type} (c : Cosmology) (s : MPC P) (calls : List (Call P)) : MPC P :=
  calls.foldl (fun s k => (k.run c s).2) s

theorem initialise_idem {P : Type} (s : MPC P) :
    s.initialiseInputs.initialiseInputs = s.initialiseInputs := by
  unfold MPC.initialiseInputs
  cases h : s.delta3 with
  | none => rfl
  | some d => simp [h]

theorem run_same {P : Type} (c : Cosmology) {s s' : MPC P} (h : SameUpToDelta s s') (k : Call P) :
    (k.run c s).1 = (k.run c s').1 ∧ SameUpToDelta (k.run c s).2 (k.run c s').2 := by
  unfold SameUpToDelta at h
  cases k with
  | plane d z w => simp only [Call.run, MPC.addPlane, h]; exact ⟨trivial, rfl⟩
  | window d w =>
    simp only [Call.run, MPC.addWindow, MPC.addPlane, initialise_idem, h]; exact ⟨trivial, rfl⟩

/-- **C49** (all but the `delta` of an object without planes): a rejected call leaves the state as
it was, up to the zero matter plane that replaces `None`. -/
theorem rejected_call_same {P : Type} (c : Cosmology) (s : MPC P) (k : Call P)
    (h : (k.run c s).1 ≠ none) : SameUpToDelta s (k.run c s).2 := by
  have key : ∀ (s : MPC P) (d : P → ℝ) (z w : ℝ), (s.addPlane c d z w).1 ≠ none →
      (s.addPlane c d z w).2 = s.initialiseInputs := by
    intro s d z w h
    unfold MPC.addPlane at h ⊢
    by_cases hz : z ≤ s.initialiseInputs.z3
    · simp [hz]
    · simp [hz] at h
  unfold SameUpToDelta
  cases k with
  | plane d z w => simp only [Call.run] at h ⊢; rw [key _ _ _ _ h, initialise_idem]
  | window d w =>
    simp only [Call.run, MPC.addWindow] at h ⊢
    rw [key _ _ _ _ h, initialise_idem, initialise_idem]

/-- **C49**, partial: with rejected calls anywhere in the history, all later results are as if the
rejected calls had not been made: convergence, source redshift and lensing weight always, and the
matter plane as soon as it has been set. -/
theorem rejected_calls_invisible_partial {P : Type} (c : Cosmology) (s : MPC P) (bad : Call P)
    (h : (bad.run c s).1 ≠ none) (later : List (Call P)) :
    let s1 := runAll c (bad.run c s).2 later
    let s2 := runAll c s later
    s1.kappa = s2.kappa ∧ s1.zsrc = s2.zsrc ∧ s1.wlens = s2.wlens ∧
      (s2.delta ≠ none → s1.delta = s2.delta) := by
  intro s1 s2
  have key : ∀ (later : List (Call P)) (a b : MPC P), SameUpToDelta a b →
      (b.delta ≠ none → a.delta ≠ none) →
      SameUpToDelta (runAll c a later) (runAll c b later) ∧
      ((runAll c b later).delta ≠ none → (runAll c a later).delta ≠ none) := by
    intro later
    induction later with
    | nil => intro a b h h'; exact ⟨h, h'⟩
    | cons k later ih =>
      intro a b h h'
      refine ih _ _ (run_same c h k).2 fun _ => ?_
      have hne : ∀ x : MPC P, x.initialiseInputs.delta3 ≠ none := fun x => by
        unfold MPC.initialiseInputs
        split
        · simp
        · next d hd => rw [hd]; simp
      have hp : ∀ (x : MPC P) (d : P → ℝ) (z w : ℝ), (x.addPlane c d z w).2.delta3 ≠ none := by
        intro x d z w
        unfold MPC.addPlane
        by_cases hz : z ≤ x.initialiseInputs.z3
        · simp only [if_pos hz]; exact hne x
        · simp [hz]
      cases k with
      | plane d z w => exact hp _ _ _ _
      | window d w => exact hp _ _ _ _
  have hs := rejected_call_same c s bad h
  obtain ⟨k1, k2⟩ := key later (bad.run c s).2 s hs.symm (by
    intro hd
    have e : (bad.run c s).2.initialiseInputs.delta3 = s.initialiseInputs.delta3 := by
      unfold SameUpToDelta at hs; rw [hs]
    have hp : ∀ (x : MPC P) (d : P → ℝ) (z w : ℝ), (x.addPlane c d z w).1 ≠ none →
        (x.addPlane c d z w).2.delta3 = x.initialiseInputs.delta3 := by
      intro x d z w h
      unfold MPC.addPlane at h ⊢
      by_cases hz : z ≤ x.initialiseInputs.z3
      · simp [hz]
      · simp [hz] at h
    have hne : ∀ x : MPC P, x.initialiseInputs.delta3 ≠ none := fun x => by
      unfold MPC.initialiseInputs
      split
      · simp
      · next d hd => rw [hd]; simp
    cases bad with
    | plane d z w =>
      simp only [Call.run, MPC.delta] at h ⊢; rw [hp _ _ _ _ h]; exact hne _
    | window d w =>
      simp only [Call.run, MPC.addWindow, MPC.delta] at h ⊢; rw [hp _ _ _ _ h]; exact hne _)
  obtain ⟨o1, o2, o3, o4⟩ := sameUpToDelta_observables k1
  exact ⟨o1, o2, o3, fun h => o4 (k2 h) h⟩

/-- A rejected call in the middle of a history. -/
example : ((Call.plane (P := Unit) (fun _ => 1) 1 1).run (flatCosmology 1 1 id id)
    ((Call.plane (P := Unit) (fun _ => 1) 2 1).run (flatCosmology 1 1 id id)
      (MPC.init Unit)).2).1 ≠ none := by
  norm_num [Call.run, MPC.addPlane, MPC.initialiseInputs, MPC.init]
  simp

/-! ## C50: the returned array -/

/-- **C50 does not hold**: `kappa` returns the internal buffer, and the second plane that is added
afterwards overwrites it. -/
theorem kappa_overwritten : ∃ (c : Cosmology) (calls later : List (Call Unit)) (r : Bool)
    (before after : Unit → ℝ), Geometry c ∧
    (runAll c (MPC.init Unit) calls).kappaRef = some r ∧
    (runAll c (MPC.init Unit) calls).deref r = some before ∧
    (runAll c (MPC.init Unit) (calls ++ later)).deref r = some after ∧
    before () ≠ after () := by
  refine ⟨flatCosmology 1 1 (fun z => z) fun z => 1 + z,
    [.plane (fun _ => 1) 1 1, .plane (fun _ => 0) 2 1],
    [.plane (fun _ => 0) 3 1, .plane (fun _ => 0) 4 1], true, fun _ => 3 / 4, fun _ => 9 / 8,
    flat_geometry 1 1 (fun z => z) (fun z => 1 + z) (by norm_num) rfl (fun a b _ h => h),
    ?_, ?_, ?_, ?_⟩
  · norm_num [runAll, Call.run, MPC.addPlane, MPC.init, MPC.initialiseInputs, MPC.kappaRef]
  · norm_num [runAll, Call.run, MPC.addPlane, MPC.init, MPC.initialiseInputs, MPC.deref,
      flatCosmology]
  · norm_num [runAll, Call.run, MPC.addPlane, MPC.init, MPC.initialiseInputs, MPC.deref,
      flatCosmology]
  · norm_num

/-- **C50**, partial: the array keeps its contents after one more call, of either method. -/
theorem kappa_survives_one_call_partial {P : Type} (c : Cosmology) (s : MPC P) (r : Bool)
    (hr : s.kappaRef = some r) (k : Call P) : (k.run c s).2.deref r = s.deref r := by
  have e1 : ∀ s : MPC P, s.initialiseInputs.planes = s.planes := fun s => by
    unfold MPC.initialiseInputs; split <;> rfl
  have key : ∀ (s : MPC P) (d : P → ℝ) (z w : ℝ), s.kappaRef = some r →
      (s.addPlane c d z w).2.deref r = s.deref r := by
    intro s d z w hr
    obtain ⟨pl, h1, h2⟩ := Option.map_eq_some_iff.1 hr
    unfold MPC.addPlane
    by_cases hz : z ≤ s.initialiseInputs.z3
    · simp only [if_pos hz, MPC.deref, e1]
    · have hn : ∀ x : Bool, (x = !x) = False := by decide
      simp only [if_neg hz, e1, h1, MPC.deref, Option.map_some, ← h2, hn, if_false]
  cases k with
  | plane d z w => exact key s d z w hr
  | window d w =>
    simp only [Call.run, MPC.addWindow]
    rw [key _ _ _ _ (by unfold MPC.kappaRef at hr ⊢; rw [e1]; exact hr)]
    unfold MPC.deref; rw [e1]

/-! ## C80: windows -/

/-- The trapezoidal rule integrates the linear interpolant. -/
theorem trapezoid_interpolant (g : ℝ → ℝ) : ∀ (ks : List (ℝ × ℝ)) (a b : ℝ × ℝ), Inc ks →
    Interpolates ks g → ks.head? = some a → ks.getLast? = some b →
    trapezoid ks = ∫ x in a.1..b.1, g x := by
  intro ks a b hinc hg ha hb
  have haff : ∀ ks : List (ℝ × ℝ), Inc ks → Interpolates ks g →
      AffineBetween g (ks.map Prod.fst) := by
    intro ks
    induction ks with
    | nil => intro _ _; trivial
    | cons k ks ih =>
      intro hi hg
      cases ks with
      | nil => trivial
      | cons k' ks =>
        refine ⟨⟨(k'.2 - k.2) / (k'.1 - k.1), k.2 - k.1 * ((k'.2 - k.2) / (k'.1 - k.1)),
          fun x h1 h2 => ?_⟩, ih hi.tail ⟨fun q hq => hg.1 q (List.mem_cons_of_mem _ hq), ?_⟩⟩
        · have hlt := hi.lt (k' := k') (by simp)
          have hne : k'.1 - k.1 ≠ 0 := by linarith
          have := hg.2 k k' (by simp) x h1 h2
          field_simp
          linarith
        · intro c d hcd
          exact hg.2 c d (by simp only [List.tail_cons] at hcd ⊢; simp [hcd])
  have hs : sample g (ks.map Prod.fst) = ks := by
    unfold sample
    rw [List.map_map]
    conv_rhs => rw [← List.map_id ks]
    refine List.map_congr_left fun k hk => ?_
    simp only [Function.comp, id, hg.1 k hk]
  cases hks : ks with
  | nil => rw [hks] at ha; simp at ha
  | cons k0 ks0 =>
    have h1 := trapezoid_integral g (ks0.map Prod.fst) k0.1
      (by
        have : (ks.map Prod.fst).Pairwise (· < ·) := by rw [List.pairwise_map]; exact hinc
        rw [hks] at this
        exact this.imp fun h => h.le)
      (by have := haff ks hinc hg; rw [hks] at this; exact this) b.1
      (by
        have : (ks.map Prod.fst).getLast? = some b.1 := by rw [List.getLast?_map, hb]; rfl
        rw [hks] at this; exact this)
    rw [hks] at hs ha
    simp only [List.head?_cons, Option.some.injEq] at ha
    rw [← ha, ← h1.2]
    exact congrArg trapezoid hs.symm

/-- **C80**: `add_window` is `add_plane` at the effective redshift, with the integral of the window
divided by its value there as lensing weight; window and integral are those of the linear
interpolant of the samples. -/
theorem add_window_weight {P : Type} (c : Cosmology) (s : MPC P) (delta : P → ℝ)
    (w : RadialWindow) (g : ℝ → ℝ) (hinc : Inc w.knots) (hg : Interpolates w.knots g)
    (a b : ℝ × ℝ) (ha : w.knots.head? = some a) (hb : w.knots.getLast? = some b)
    (hz : a.1 ≤ w.zeff ∧ w.zeff ≤ b.1) (_hw : g w.zeff ≠ 0) :
    s.addWindow c delta w =
      s.addPlane c delta w.zeff ((∫ x in a.1..b.1, g x) / g w.zeff) := by
  have hin : InRange w.knots w.zeff := ⟨a, b, ha, hb, hz.1, hz.2⟩
  have hne : w.knots ≠ [] := by intro h; rw [h] at ha; simp at ha
  have h1 : interp none none w.knots w.zeff = g w.zeff := by
    rw [interpolates_unique hinc hg hin]
    exact interpolates_unique hinc (interp_interpolates hinc none none) hin
  have h2 := trapezoid_interpolant g w.knots a b hinc hg ha hb
  simp only [MPC.addWindow, h1, h2, MPC.addPlane, initialise_idem]

/-- A window that meets the assumptions: a triangle with its effective redshift at the top. -/
example : Inc [((0 : ℝ), (0 : ℝ)), (1, 2), (2, 0)] ∧ trapezoid [((0 : ℝ), (0 : ℝ)), (1, 2), (2, 0)] /
    interp none none [((0 : ℝ), (0 : ℝ)), (1, 2), (2, 0)] 1 = 1 := by
  have hi : Inc [((0 : ℝ), (0 : ℝ)), (1, 2), (2, 0)] := by simp [Inc]
  refine ⟨hi, ?_⟩
  rw [(interp_interpolates hi none none).1 (1, 2) (by simp)]
  norm_num [trapezoid]

end Glass.Lensing
