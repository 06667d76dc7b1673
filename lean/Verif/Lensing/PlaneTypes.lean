import Verif.Lensing.FloatPlanes
import Verif.Lensing.PlaneErrors
import Verif.Rng.WrapperProps

/-!
# Element types of matter planes (C161)

The convergence planes are made by `zeros_like` from the first matter plane, and are changed in place
afterwards.  So the first plane decides about the element type of the convergence.
-/

namespace Glass.Lensing

open Glass.Num Glass.Shells Glass.Spectra

/-! ## Model -/

/-- Element types of arrays: integers, single precision, double precision. -/
inductive DType where
  | int
  | single
  | double
  deriving DecidableEq

/-- Array libraries: in NumPy `a *= b` writes into `a`, in JAX it makes a new array. -/
inductive Library where
  | numpy
  | jax
  deriving DecidableEq

/-- The element type of `a` after `a *= b` or `a += b`, where `b` has double precision and `a` the type
given.  NumPy converts to the type of `a` if it is a floating-point type, and raises otherwise. -/
def Library.store : Library → DType → Option DType
  | .numpy, .int => none
  | .numpy, .single => some .single
  | .numpy, .double => some .double
  | .jax, _ => some .double

/-- Conversion of a number in double precision; `r` is the rounding to single precision.  Rounding to
double precision is left out here. -/
def DType.conv (r : ℝ → ℝ) : DType → ℝ → ℝ
  | .single, x => r x
  | _, x => x

/-- A `MultiPlaneConvergence` object with the types of its two convergence planes, which have a meaning
once there are planes. -/
structure TypedObj (P : Type) where
  state : MPC P
  types : Bool → DType

/-- `lensing.py:434-454` `__init__`. -/
def TypedObj.init (P : Type) : TypedObj P := ⟨MPC.init P, fun _ => .double⟩

/-- `lensing.py:511-586` `add_plane` with a plane of type `dt`.  The weights `t` and `f` are arrays in
double precision. -/
noncomputable def TypedObj.addPlane {P : Type} (lib : Library) (r : ℝ → ℝ) (cosmo : Cosmology)
    (o : TypedObj P) (dt : DType) (delta : P → ℝ) (zsrc wlens : ℝ) : Option Err × TypedObj P :=
  let s := o.state.initialiseInputs
  if zsrc ≤ s.z3 then (some (.value "source redshift must be increasing"), ⟨s, o.types⟩)
  else
    let delta2 := s.delta3.getD fun _ => 0
    let z1 := s.z2
    let z2 := s.z3
    let z3 := zsrc
    let w2 := s.w3
    let x2 := s.x3
    let x3 := cosmo.distance z3 / cosmo.hubbleDistance
    let r12 := s.r23
    let r13 := cosmo.distance2 z1 z3 / (cosmo.hubbleDistance * x3)
    let r23 := cosmo.distance2 z2 z3 / (cosmo.hubbleDistance * x3)
    let t := r13 / r12
    let f := 3 * cosmo.OmegaM0 / 2
    let f := f * (x2 * r23)
    let f := f * ((1 + z2) / cosmo.HoverH0 z2)
    let f := f * w2
    let planes := match s.planes with
      | none => ({ buf := fun _ _ => 0, cur := true } : Planes P)
      | some p => p
    let types := match s.planes with
      | none => fun _ => dt
      | some _ => o.types
    let cur := !planes.cur
    let kappa2 := planes.buf planes.cur
    let kappa3 := planes.buf cur
    let next (k : P → ℝ) (u : DType) : TypedObj P :=
      ⟨{ z2 := z2, z3 := z3, x3 := x3, w3 := wlens, r23 := r23, delta3 := some delta,
         planes := some { buf := fun b => if b = cur then k else kappa2, cur := cur } },
        fun b => if b = cur then u else types planes.cur⟩
    match lib.store (types cur) with
    | none => (some (.type "cannot cast ufunc output"), next kappa3 (types cur))
    | some u =>
      let kappa3 := fun p => u.conv r (kappa3 p * (1 - t))
      let kappa3 := fun p => u.conv r (kappa3 p + t * kappa2 p)
      let kappa3 := fun p => u.conv r (kappa3 p + f * delta2 p)
      (none, next kappa3 u)

/-- Call after call; exceptions are caught by the caller and listed. -/
noncomputable def runTyped {P : Type} (lib : Library) (r : ℝ → ℝ) (c : Cosmology) :
    TypedObj P → List (Plane P × DType) → List (Option Err) × TypedObj P
  | o, [] => ([], o)
  | o, n :: ps =>
    let a := o.addPlane lib r c n.2 n.1.delta n.1.z n.1.w
    let rest := runTyped lib r c a.2 ps
    (a.1 :: rest.1, rest.2)

/-! ## Double precision first, or JAX -/

theorem initialise_z3 {P : Type} (s : MPC P) : s.initialiseInputs.z3 = s.z3 := by
  unfold MPC.initialiseInputs; split <;> rfl

theorem initialise_planes {P : Type} (s : MPC P) : s.initialiseInputs.planes = s.planes := by
  unfold MPC.initialiseInputs; split <;> rfl

/-- The result is stored in double precision. -/
def Keeps {P : Type} (lib : Library) (o : TypedObj P) (dt : DType) : Prop :=
  (o.state.planes = none → lib.store dt = some .double) ∧
  (o.state.planes ≠ none → ∀ b, lib.store (o.types b) = some .double)

theorem typed_step {P : Type} {lib : Library} (r : ℝ → ℝ) (c : Cosmology) {o : TypedObj P} {dt : DType}
    (h : Keeps lib o dt) (delta : P → ℝ) (z w : ℝ) (hz : o.state.z3 < z) :
    (o.addPlane lib r c dt delta z w).1 = none ∧
    (o.addPlane lib r c dt delta z w).2.state = (o.state.addPlane c delta z w).2 ∧
    ∀ dt', Keeps lib (o.addPlane lib r c dt delta z w).2 dt' := by
  have hz' : ¬ z ≤ o.state.initialiseInputs.z3 := by rw [initialise_z3]; exact not_le.2 hz
  have hd : ∀ x, DType.double.conv r x = x := fun _ => rfl
  have hdd : lib.store .double = some .double := by cases lib <;> rfl
  have hp := initialise_planes o.state
  rcases hs : o.state.planes with _ | p
  · have h1 := h.1 hs
    rw [hs] at hp
    simp only [TypedObj.addPlane, MPC.addPlane, if_neg hz', hp, h1, hd, true_and]
    refine fun dt' => ⟨by simp, fun _ b => ?_⟩
    dsimp only
    split_ifs
    · exact hdd
    · exact h1
  · have h1 := h.2 (by rw [hs]; simp)
    rw [hs] at hp
    simp only [TypedObj.addPlane, MPC.addPlane, if_neg hz', hp, h1, hd, true_and]
    refine fun dt' => ⟨by simp, fun _ b => ?_⟩
    dsimp only
    split_ifs
    · exact hdd
    · exact h1 _

theorem addPlane_z3 {P : Type} (c : Cosmology) (s : MPC P) (d : P → ℝ) {z : ℝ} (w : ℝ) (hz : s.z3 < z) :
    (s.addPlane c d z w).2.z3 = z := by
  simp [MPC.addPlane, initialise_z3, not_le.2 hz]

theorem typed_run {P : Type} {lib : Library} (r : ℝ → ℝ) (c : Cosmology) :
    ∀ (ps : List (Plane P × DType)) (o : TypedObj P), (∀ n ∈ ps.head?, Keeps lib o n.2) →
      (o.state.z3 :: ps.map fun n => n.1.z).IsChain (· < ·) →
      (runTyped lib r c o ps).1 = ps.map (fun _ => none) ∧
      (runTyped lib r c o ps).2.state = addAll c o.state (ps.map Prod.fst)
  | [], _, _, _ => ⟨rfl, rfl⟩
  | n :: ps, o, h, hc => by
    rw [List.map_cons, List.isChain_cons_cons] at hc
    obtain ⟨h1, h2, h3⟩ := typed_step r c (h n (by simp)) n.1.delta n.1.z n.1.w hc.1
    obtain ⟨i1, i2⟩ := typed_run (lib := lib) r c ps (o.addPlane lib r c n.2 n.1.delta n.1.z n.1.w).2
      (fun m _ => h3 m.2) (by rw [h2, addPlane_z3 c _ _ _ hc.1]; exact hc.2)
    simp only [runTyped, h1, i1, i2, h2, List.map_cons, addAll, List.foldl_cons, true_and]

/-- **C161**: if the first plane has double precision, or arrays are not changed in place, the element
types of the planes make no difference. -/
theorem element_types_partial {P : Type} {lib : Library} (r : ℝ → ℝ) (c : Cosmology)
    (a : Plane P × DType) (ps : List (Plane P × DType)) (h : lib = .jax ∨ a.2 = .double)
    (hc : (0 :: (a :: ps).map fun n => n.1.z).IsChain (· < ·)) :
    (runTyped lib r c (TypedObj.init P) (a :: ps)).1 = (a :: ps).map (fun _ => none) ∧
    (runTyped lib r c (TypedObj.init P) (a :: ps)).2.state =
      addAll c (MPC.init P) ((a :: ps).map Prod.fst) := by
  refine typed_run r c (a :: ps) (TypedObj.init P) ?_ hc
  intro n hn
  simp only [List.head?_cons, Option.mem_def, Option.some.injEq] at hn
  subst hn
  refine ⟨fun _ => ?_, fun hn => absurd rfl hn⟩
  rcases h with rfl | h
  · rfl
  · rw [h]; cases lib <;> rfl

/-! ## Integers first -/

/-- All planes are integers. -/
def AllInt {P : Type} (o : TypedObj P) (dt : DType) : Prop :=
  (o.state.planes = none → dt = .int) ∧
  ∀ pl, o.state.planes = some pl → (∀ b, o.types b = .int) ∧ ∀ b p, pl.buf b p = 0

theorem integer_step {P : Type} (r : ℝ → ℝ) (c : Cosmology) {o : TypedObj P} {dt : DType}
    (h : AllInt o dt) (delta : P → ℝ) (z w : ℝ) (hz : o.state.z3 < z) :
    (o.addPlane .numpy r c dt delta z w).1 = some (.type "cannot cast ufunc output") ∧
    (o.addPlane .numpy r c dt delta z w).2.state.z3 = z ∧
    (o.addPlane .numpy r c dt delta z w).2.state.kappa = some (fun _ => 0) ∧
    ∀ dt', AllInt (o.addPlane .numpy r c dt delta z w).2 dt' := by
  have hz' : ¬ z ≤ o.state.initialiseInputs.z3 := by rw [initialise_z3]; exact not_le.2 hz
  have hp := initialise_planes o.state
  have hi : Library.numpy.store .int = none := rfl
  rcases hs : o.state.planes with _ | pl
  · have h1 := h.1 hs
    subst h1
    rw [hs] at hp
    simp only [TypedObj.addPlane, if_neg hz', hp, hi, true_and, MPC.kappa, Option.map_some]
    refine ⟨by simp, fun dt' => ⟨by simp, fun pl hpl => ?_⟩⟩
    rw [Option.some.injEq] at hpl
    subst hpl
    exact ⟨fun b => by simp, fun b p => by simp⟩
  · obtain ⟨h1, h2⟩ := h.2 pl hs
    rw [hs] at hp
    simp only [TypedObj.addPlane, if_neg hz', hp, h1, hi, true_and, MPC.kappa, Option.map_some]
    refine ⟨by simp only [if_true, Option.some.injEq]; funext p; exact h2 _ p,
      fun dt' => ⟨by simp, fun pl hpl => ?_⟩⟩
    rw [Option.some.injEq] at hpl
    subst hpl
    refine ⟨fun b => by simp, fun b p => ?_⟩
    dsimp only
    split_ifs
    · exact h2 _ p
    · exact h2 _ p

theorem integer_run {P : Type} (r : ℝ → ℝ) (c : Cosmology) :
    ∀ (ps : List (Plane P × DType)) (o : TypedObj P), (∀ n ∈ ps.head?, AllInt o n.2) →
      (o.state.z3 :: ps.map fun n => n.1.z).IsChain (· < ·) →
      (runTyped .numpy r c o ps).1 = ps.map (fun _ => some (.type "cannot cast ufunc output")) ∧
      (runTyped .numpy r c o ps).2.state.z3 = (ps.getLast?.map fun n => n.1.z).getD o.state.z3 ∧
      (ps ≠ [] → (runTyped .numpy r c o ps).2.state.kappa = some fun _ => 0)
  | [], _, _, _ => ⟨rfl, rfl, fun h => absurd rfl h⟩
  | n :: ps, o, h, hc => by
    rw [List.map_cons, List.isChain_cons_cons] at hc
    obtain ⟨h1, h2, h3, h4⟩ := integer_step r c (h n (by simp)) n.1.delta n.1.z n.1.w hc.1
    obtain ⟨i1, i2, i3⟩ := integer_run r c ps (o.addPlane .numpy r c n.2 n.1.delta n.1.z n.1.w).2
      (fun m _ => h4 m.2) (by rw [h2]; exact hc.2)
    refine ⟨by simp only [runTyped, h1, i1, List.map_cons], ?_, fun _ => ?_⟩
    · simp only [runTyped]
      rw [i2, h2]
      cases ps with
      | nil => rfl
      | cons m ps => simp [List.getLast?_cons]
    · simp only [runTyped]
      cases ps with
      | nil => exact h3
      | cons m ps => exact i3 (by simp)

/-- **C161 refuted**: in NumPy, if the first plane has integers, every call raises `TypeError`, the first
one and all later ones whatever their types, although the redshift of the object is changed; and the
convergence stays zero. -/
theorem integer_plane_raises {P : Type} (r : ℝ → ℝ) (c : Cosmology) (a : Plane P)
    (ps : List (Plane P × DType))
    (hc : (0 :: ((a, DType.int) :: ps).map fun n => n.1.z).IsChain (· < ·)) :
    (∀ e ∈ (runTyped .numpy r c (TypedObj.init P) ((a, .int) :: ps)).1,
      ∃ m, e = some (.type m)) ∧
    (runTyped .numpy r c (TypedObj.init P) ((a, .int) :: ps)).2.state.z3 =
      (((a, DType.int) :: ps).getLast (by simp)).1.z ∧
    (runTyped .numpy r c (TypedObj.init P) ((a, .int) :: ps)).2.state.kappa = some fun _ => 0 := by
  obtain ⟨h1, h2, h3⟩ := integer_run r c ((a, .int) :: ps) (TypedObj.init P) (by
    intro n hn
    simp only [List.head?_cons, Option.mem_def, Option.some.injEq] at hn
    subst hn
    exact ⟨fun _ => rfl, fun pl hpl => by simp [TypedObj.init, MPC.init] at hpl⟩) hc
  refine ⟨?_, ?_, h3 (by simp)⟩
  · rw [h1]
    intro e he
    obtain ⟨n, -, rfl⟩ := List.mem_map.1 he
    exact ⟨_, rfl⟩
  · rw [h2, List.getLast?_eq_some_getLast (by simp)]
    rfl

/-! ## Single precision first -/

/-- The planes have single precision. -/
def AllSingle {P : Type} (o : TypedObj P) (dt : DType) : Prop :=
  (o.state.planes = none → dt = .single) ∧
  (o.state.planes ≠ none → ∀ b, o.types b = .single)

/-- The error of one call. -/
noncomputable def stepErrorT {P : Type} (r : ℝ → ℝ) (c : Cosmology) (o : TypedObj P)
    (n : Plane P × DType) (p : P) : ℝ :=
  (o.addPlane .numpy r c n.2 n.1.delta n.1.z n.1.w).2.state.kappa.getD (fun _ => 0) p -
    ((exactState c o.state).addPlane c n.1.delta n.1.z n.1.w).2.kappa.getD (fun _ => 0) p

/-- The errors of all calls, oldest first. -/
noncomputable def defectsT {P : Type} (r : ℝ → ℝ) (c : Cosmology) :
    TypedObj P → List (Plane P × DType) → List (Defect P)
  | _, [] => []
  | o, n :: ps => ⟨o.state.z3, n.1.z, stepErrorT r c o n⟩ ::
      defectsT r c (o.addPlane .numpy r c n.2 n.1.delta n.1.z n.1.w).2 ps

/-- One call in single precision. -/
theorem single_step {P : Type} (r : ℝ → ℝ) (c : Cosmology) {o : TypedObj P} {n : Plane P × DType}
    (h : AllSingle o n.2) (hz : o.state.z3 < n.1.z) :
    (o.addPlane .numpy r c n.2 n.1.delta n.1.z n.1.w).1 = none ∧
    (∀ dt', AllSingle (o.addPlane .numpy r c n.2 n.1.delta n.1.z n.1.w).2 dt') ∧
    ∃ pl k, (o.state.addPlane c n.1.delta n.1.z n.1.w).2.planes = some pl ∧
      (o.addPlane .numpy r c n.2 n.1.delta n.1.z n.1.w).2.state =
        { (o.state.addPlane c n.1.delta n.1.z n.1.w).2 with
          planes := some ⟨fun b => if b = pl.cur then k else pl.buf b, pl.cur⟩ } := by
  have hz' : ¬ n.1.z ≤ o.state.initialiseInputs.z3 := by rw [initialise_z3]; exact not_le.2 hz
  have hp := initialise_planes o.state
  have hi : Library.numpy.store .single = some .single := rfl
  have hb : ∀ (cur : Bool) (k k' m : P → ℝ), (fun b => if b = cur then k else if b = cur then k' else m) =
      fun b => if b = cur then k else m := by
    intro cur k k' m; funext b; split_ifs <;> rfl
  rcases hs : o.state.planes with _ | pl
  · have h1 := h.1 hs
    rw [hs] at hp
    refine ⟨?_, ?_, _, (o.addPlane .numpy r c n.2 n.1.delta n.1.z n.1.w).2.state.kappa.getD
      (fun _ => 0), by simp only [MPC.addPlane, if_neg hz', hp]; rfl, ?_⟩
    · simp only [TypedObj.addPlane, if_neg hz', hp, h1, hi]
    · simp only [TypedObj.addPlane, if_neg hz', hp, h1, hi]
      exact fun dt' => ⟨by simp, fun _ b => by simp⟩
    · simp only [TypedObj.addPlane, MPC.addPlane, if_neg hz', hp, h1, hi, MPC.kappa, Option.map_some,
        Option.getD_some, if_true, hb]
  · have h1 := h.2 (by rw [hs]; simp)
    rw [hs] at hp
    refine ⟨?_, ?_, _, (o.addPlane .numpy r c n.2 n.1.delta n.1.z n.1.w).2.state.kappa.getD
      (fun _ => 0), by simp only [MPC.addPlane, if_neg hz', hp]; rfl, ?_⟩
    · simp only [TypedObj.addPlane, if_neg hz', hp, h1, hi]
    · simp only [TypedObj.addPlane, if_neg hz', hp, h1, hi]
      exact fun dt' => ⟨by simp, fun _ b => by simp⟩
    · simp only [TypedObj.addPlane, MPC.addPlane, if_neg hz', hp, h1, hi, MPC.kappa, Option.map_some,
        Option.getD_some, if_true, hb]

/-- A change of the last convergence plane is one more error of the last call. -/
theorem invariant_shift {P : Type} {c : Cosmology} (hg : Geometry c) {s : MPC P} {d : Defect P}
    {ds : List (Defect P)} {n : Plane P} {hist : List (Plane P)} (h : InvariantFl c s (d :: ds) (n :: hist))
    (hd : d.lens = s.z2) (hd' : d.source = n.z) {pl : Planes P} (hpl : s.planes = some pl) (k : P → ℝ) :
    InvariantFl c { s with planes := some ⟨fun b => if b = pl.cur then k else pl.buf b, pl.cur⟩ }
      (⟨d.lens, d.source, fun p => d.error p + (k p - pl.buf pl.cur p)⟩ :: ds) (n :: hist) := by
  obtain ⟨h0, hab, h2, h4, h6, hrest, hds, pl', h7, h8, h9⟩ := h
  rw [hpl, Option.some.injEq] at h7
  subst h7
  have hne := lensRatio_ne hg h0 hab
  refine ⟨h0, hab, h2, h4, h6, hrest, ?_, _, rfl, fun p => ?_, fun p => ?_⟩
  · intro e he
    rcases List.mem_cons.1 he with rfl | he
    · exact hds d (by simp)
    · exact hds e (by simp [he])
  · have := h8 p
    simp only [defectSum, List.map_cons, List.sum_cons, hd, hd', if_true, div_self hne] at this ⊢
    linarith
  · have := h9 p
    have hself := lensRatio_self hg h0
    simp only [defectSum, List.map_cons, List.sum_cons, hd, hself] at this ⊢
    simp only [Bool.not_eq_self, if_false]
    rw [this]
    ring

theorem single_invariant {P : Type} (r : ℝ → ℝ) {c : Cosmology} (hg : Geometry c) {o : TypedObj P}
    {n : Plane P × DType} {ds : List (Defect P)} {hist : List (Plane P)} (h : AllSingle o n.2)
    (hz : o.state.z3 < n.1.z) (hI : InvariantFl c o.state ds hist) :
    InvariantFl c (o.addPlane .numpy r c n.2 n.1.delta n.1.z n.1.w).2.state
      (⟨o.state.z3, n.1.z, stepErrorT r c o n⟩ :: ds) (n.1 :: hist) := by
  have hz' : ¬ n.1.z ≤ o.state.initialiseInputs.z3 := by rw [initialise_z3]; exact not_le.2 hz
  obtain ⟨-, -, pl, k, hpl, hk⟩ := single_step r c h hz
  have hok : (o.state.addPlaneFl id c n.1.delta n.1.z n.1.w).1 = none := by
    simp [MPC.addPlaneFl, initialise_z3, not_le.2 hz]
  have h1 := invariantFl_step id hg o.state ds hist hI n.1 hok
  rw [add_plane_fl_real] at h1
  have hz2 : (o.state.addPlane c n.1.delta n.1.z n.1.w).2.z2 = o.state.z3 := by
    simp [MPC.addPlane, initialise_z3, not_le.2 hz]
  have h2 := invariant_shift hg h1 hz2.symm rfl hpl k
  rw [hk]
  have e : stepErrorT r c o n =
      fun p => stepError id c o.state n.1 p + (k p - pl.buf pl.cur p) := by
    funext p
    unfold stepErrorT stepError
    rw [hk, add_plane_fl_real]
    simp only [MPC.kappa, hpl, Option.map_some, Option.getD_some, if_true]
    ring
  rw [e]
  exact h2

theorem single_state {P : Type} (r : ℝ → ℝ) (c : Cosmology) {o : TypedObj P} {n : Plane P × DType}
    (h : AllSingle o n.2) (hz : o.state.z3 < n.1.z) :
    (o.addPlane .numpy r c n.2 n.1.delta n.1.z n.1.w).2.state.z3 = n.1.z := by
  obtain ⟨-, -, pl, k, hpl, hk⟩ := single_step r c h hz
  rw [hk]
  exact addPlane_z3 c _ _ _ hz

theorem single_run {P : Type} (r : ℝ → ℝ) {c : Cosmology} (hg : Geometry c) :
    ∀ (ps : List (Plane P × DType)) (o : TypedObj P) (ds : List (Defect P)) (hist : List (Plane P)),
      (∀ n ∈ ps.head?, AllSingle o n.2) →
      (o.state.z3 :: ps.map fun n => n.1.z).IsChain (· < ·) → InvariantFl c o.state ds hist →
      (runTyped .numpy r c o ps).1 = ps.map (fun _ => none) ∧
      InvariantFl c (runTyped .numpy r c o ps).2.state ((defectsT r c o ps).reverse ++ ds)
        ((ps.map Prod.fst).reverse ++ hist)
  | [], _, _, _, _, _, hI => ⟨rfl, by simpa [runTyped, defectsT] using hI⟩
  | n :: ps, o, ds, hist, h, hc, hI => by
    rw [List.map_cons, List.isChain_cons_cons] at hc
    have hn := h n (by simp)
    obtain ⟨h1, h2, -⟩ := single_step r c hn hc.1
    obtain ⟨i1, i2⟩ := single_run r hg ps _ _ _ (fun m _ => h2 m.2)
      (by rw [single_state r c hn hc.1]; exact hc.2) (single_invariant r hg hn hc.1 hI)
    refine ⟨by simp only [runTyped, h1, i1, List.map_cons], ?_⟩
    simpa [runTyped, defectsT] using i2

/-- **C161**: if the first plane has single precision, the convergence is the lensing sum, and the sum
of one error for each call, propagated like lensing by a plane at the redshift where it occurred. -/
theorem single_convergence {P : Type} (r : ℝ → ℝ) {c : Cosmology} (hg : Geometry c)
    (ps : List (Plane P × DType)) (last : Plane P × DType)
    (h : ∀ n ∈ (ps ++ [last]).head?, n.2 = .single)
    (hc : (0 :: (ps ++ [last]).map fun n => n.1.z).IsChain (· < ·)) :
    (runTyped .numpy r c (TypedObj.init P) (ps ++ [last])).1 = (ps ++ [last]).map (fun _ => none) ∧
    ∃ k, (runTyped .numpy r c (TypedObj.init P) (ps ++ [last])).2.state.kappa = some k ∧
      ∀ p, k p = lensingSum c (ps.map Prod.fst) last.1.z p +
        defectSum c (defectsT r c (TypedObj.init P) (ps ++ [last])) last.1.z p := by
  obtain ⟨h1, hI⟩ := single_run r hg (ps ++ [last]) (TypedObj.init P) [] []
    (fun n hn => ⟨fun _ => h n hn, fun hn => absurd rfl hn⟩) hc
    (by simp [InvariantFl, MPC.init, TypedObj.init])
  refine ⟨h1, ?_⟩
  rw [List.map_append, List.map_singleton, List.reverse_append, List.reverse_singleton, List.append_nil,
    List.append_nil, List.singleton_append] at hI
  obtain ⟨_, _, _, _, _, _, _, pl, h7, h8, _⟩ := hI
  refine ⟨pl.buf pl.cur, by simp [MPC.kappa, h7], fun p => ?_⟩
  rw [h8]
  unfold lensingSum defectSum
  rw [List.map_reverse, List.sum_reverse, List.map_reverse, List.sum_reverse]

/-- The geometry in the object has no error (double precision is taken as exact here). -/
def ExactGeometry {P : Type} (c : Cosmology) (s : MPC P) : Prop :=
  0 ≤ s.z3 ∧ s.x3 = (exactState c s).x3 ∧ s.r23 = (exactState c s).r23

theorem update_single {r : ℝ → ℝ} (hr : ∀ x, |r x - x| ≤ |x| / 2 ^ 24) (t f a b d : ℝ) :
    |r (r (r (a * (1 - t)) + t * b) + f * d) - (a * (1 - t) + t * b + f * d)| ≤
      4 / 2 ^ 24 * ((1 + |t|) * |a| + |t| * |b| + |f * d|) := by
  have e1 := hr (a * (1 - t))
  generalize r (a * (1 - t)) = u at *
  have e2 := hr (u + t * b)
  generalize r (u + t * b) = v at *
  have e3 := hr (v + f * d)
  generalize r (v + f * d) = y at *
  have hA : |a * (1 - t)| ≤ (1 + |t|) * |a| := by
    rw [abs_mul, mul_comm]
    refine mul_le_mul_of_nonneg_right ?_ (abs_nonneg a)
    have := abs_sub (1 : ℝ) t
    rwa [abs_one] at this
  have hB : |t * b| = |t| * |b| := abs_mul t b
  rw [← hB]
  generalize (1 + |t|) * |a| = A at *
  generalize a * (1 - t) = x at *
  generalize t * b = w at *
  generalize f * d = g at *
  have n1 := abs_nonneg w
  have n2 := abs_nonneg g
  have n3 := abs_nonneg x
  have f1 : |u| ≤ |u - x| + |x| := by have := abs_sub_abs_le_abs_sub u x; linarith
  have f2 : |u + w| ≤ |u| + |w| := abs_add_le _ _
  have f3 : |v| ≤ |v - (u + w)| + |u + w| := by
    have := abs_sub_abs_le_abs_sub v (u + w); linarith
  have f4 : |v + g| ≤ |v| + |g| := abs_add_le _ _
  have f5 : |y - (x + w + g)| ≤ |y - (v + g)| + (|v - (u + w)| + |u - x|) := by
    have e : y - (x + w + g) = (y - (v + g)) + ((v - (u + w)) + (u - x)) := by ring
    rw [e]
    refine (abs_add_le _ _).trans ?_
    gcongr
    exact abs_add_le _ _
  generalize |y - (x + w + g)| = q0 at *
  generalize |y - (v + g)| = q1 at *
  generalize |v - (u + w)| = q2 at *
  generalize |u - x| = q3 at *
  generalize |u + w| = q4 at *
  generalize |v + g| = q5 at *
  generalize |w| = q6 at *
  generalize |g| = q7 at *
  generalize |x| = q8 at *
  clear hr
  norm_num at e1 e2 e3 ⊢
  linarith

theorem single_kappa {P : Type} (r : ℝ → ℝ) {c : Cosmology} (hg : Geometry c) {o : TypedObj P}
    {n : Plane P × DType} (h : AllSingle o n.2) (he : ExactGeometry c o.state)
    (hz : o.state.z3 < n.1.z) (p : P) :
    (o.addPlane .numpy r c n.2 n.1.delta n.1.z n.1.w).2.state.kappa.getD (fun _ => 0) p =
      r (r (r (o.state.older p * (1 - stepT c o.state n.1.z)) +
        stepT c o.state n.1.z * o.state.newer p) +
        stepF c o.state n.1.z * o.state.delta3.getD (fun _ => 0) p) := by
  obtain ⟨-, hx, hr⟩ := he
  have h3 := initialise_z3 o.state
  have h2 : o.state.initialiseInputs.z2 = o.state.z2 := by unfold MPC.initialiseInputs; split <;> rfl
  have hx' : o.state.initialiseInputs.x3 = o.state.x3 := by unfold MPC.initialiseInputs; split <;> rfl
  have hr' : o.state.initialiseInputs.r23 = o.state.r23 := by unfold MPC.initialiseInputs; split <;> rfl
  have hw : o.state.initialiseInputs.w3 = o.state.w3 := by unfold MPC.initialiseInputs; split <;> rfl
  have hp := initialise_planes o.state
  have hd : o.state.initialiseInputs.delta3.getD (fun _ => 0) p = o.state.delta3.getD (fun _ => 0) p := by
    unfold MPC.initialiseInputs
    cases h : o.state.delta3 <;> simp [h]
  have hc : ∀ x, DType.single.conv r x = r x := fun _ => rfl
  have hi : Library.numpy.store .single = some .single := rfl
  have hxe : (exactState c o.state).x3 = xOf c o.state.z3 := rfl
  rcases hs : o.state.planes with _ | pl
  · have h1 := h.1 hs
    rw [hs] at hp
    simp only [TypedObj.addPlane, h3, if_neg (not_le.2 hz), MPC.kappa, Option.map_some,
      Option.getD_some, if_true, h2, hx', hr', hw, hp, hd, h1, hi, hc, hx, hr, div_mul_hubble hg]
    unfold MPC.older MPC.newer stepT stepF lensRatio
    simp only [hs]
    rfl
  · have h1 := h.2 (by rw [hs]; simp)
    rw [hs] at hp
    simp only [TypedObj.addPlane, h3, if_neg (not_le.2 hz), MPC.kappa, Option.map_some,
      Option.getD_some, if_true, h2, hx', hr', hw, hp, hd, h1, hi, hc, hx, hr, div_mul_hubble hg]
    unfold MPC.older MPC.newer stepT stepF lensRatio
    simp only [hs]
    rfl

/-- **C161**: the error of one call is at most `4/2²⁴` of the terms that are added. -/
theorem single_step_error {P : Type} {r : ℝ → ℝ} (hr : ∀ x, |r x - x| ≤ |x| / 2 ^ 24) {c : Cosmology}
    (hg : Geometry c) {o : TypedObj P} {n : Plane P × DType} (h : AllSingle o n.2)
    (he : ExactGeometry c o.state) (hz : o.state.z3 < n.1.z) (p : P) :
    |stepErrorT r c o n p| ≤ 4 / 2 ^ 24 * stepSize c o.state n.1 p := by
  unfold stepErrorT stepSize
  rw [single_kappa r hg h he hz, exact_kappa hg o.state n.1 p hz]
  exact update_single hr _ _ _ _ _

theorem single_geometry {P : Type} (r : ℝ → ℝ) {c : Cosmology} (hg : Geometry c) {o : TypedObj P}
    {n : Plane P × DType} (h : AllSingle o n.2) (he : ExactGeometry c o.state)
    (hz : o.state.z3 < n.1.z) :
    ExactGeometry c (o.addPlane .numpy r c n.2 n.1.delta n.1.z n.1.w).2.state := by
  obtain ⟨-, -, pl, k, -, hk⟩ := single_step r c h hz
  have h0 : 0 < n.1.z := he.1.trans_lt hz
  rw [hk]
  simp only [ExactGeometry, MPC.addPlane, initialise_z3, if_neg (not_le.2 hz), exactState,
    if_neg h0.ne', div_mul_hubble hg]
  exact ⟨h0.le, rfl, rfl⟩

/-- Every call has a small error. -/
def SmallErrors {P : Type} (r : ℝ → ℝ) (c : Cosmology) : TypedObj P → List (Plane P × DType) → Prop
  | _, [] => True
  | o, n :: ps => (∀ p, |stepErrorT r c o n p| ≤ 4 / 2 ^ 24 * stepSize c o.state n.1 p) ∧
      SmallErrors r c (o.addPlane .numpy r c n.2 n.1.delta n.1.z n.1.w).2 ps

theorem small_errors_from {P : Type} {r : ℝ → ℝ} (hr : ∀ x, |r x - x| ≤ |x| / 2 ^ 24) {c : Cosmology}
    (hg : Geometry c) : ∀ (ps : List (Plane P × DType)) (o : TypedObj P),
      (∀ n ∈ ps.head?, AllSingle o n.2) → ExactGeometry c o.state →
      (o.state.z3 :: ps.map fun n => n.1.z).IsChain (· < ·) → SmallErrors r c o ps
  | [], _, _, _, _ => trivial
  | n :: ps, o, h, he, hc => by
    rw [List.map_cons, List.isChain_cons_cons] at hc
    have hn := h n (by simp)
    exact ⟨single_step_error hr hg hn he hc.1, small_errors_from hr hg ps _
      (fun m _ => (single_step r c hn hc.1).2.1 m.2) (single_geometry r hg hn he hc.1)
      (by rw [single_state r c hn hc.1]; exact hc.2)⟩

/-- **C161**: all errors in `single_convergence` are errors of single precision. -/
theorem single_errors {P : Type} {r : ℝ → ℝ} (hr : ∀ x, |r x - x| ≤ |x| / 2 ^ 24) {c : Cosmology}
    (hg : Geometry c) (a : Plane P) (ps : List (Plane P × DType))
    (hc : (0 :: ((a, DType.single) :: ps).map fun n => n.1.z).IsChain (· < ·)) :
    SmallErrors r c (TypedObj.init P) ((a, .single) :: ps) := by
  refine small_errors_from hr hg _ _ ?_ ?_ hc
  · intro n hn
    simp only [List.head?_cons, Option.mem_def, Option.some.injEq] at hn
    subst hn
    exact ⟨fun _ => rfl, fun hn => absurd rfl hn⟩
  · refine ⟨le_rfl, ?_, ?_⟩
    · simp [TypedObj.init, MPC.init, exactState, xOf, hg.zero]
    · simp [TypedObj.init, MPC.init, exactState]

/-- **C161 refuted**: if the first plane has single precision, the convergence is rounded to single
precision, although all later planes have double precision and the weights as well. -/
theorem single_plane_rounds {r : ℝ → ℝ} (hr : ∀ x, Glass.Rng.NearestSingle x (r x)) :
    ∃ (c : Cosmology) (a b : Plane Unit) (k : Unit → ℝ), Geometry c ∧
      (runTyped .numpy r c (TypedObj.init Unit) [(a, .single), (b, .double)]).1 = [none, none] ∧
      (runTyped .numpy r c (TypedObj.init Unit) [(a, .single), (b, .double)]).2.state.kappa = some k ∧
      k () = 1 ∧ lensingSum c [a] b.z () = 1 - 2⁻¹ ^ 26 := by
  have r0 : r 0 = 0 := by
    have := (hr 0).2 0 ⟨0, 0, by norm_num, by norm_num⟩
    simpa using this
  have r1 : r (1 - 2⁻¹ ^ 26) = 1 :=
    (Glass.Rng.nearestSingle_one (by norm_num) (by norm_num)).1 (hr _)
  generalize (1 - 2⁻¹ ^ 26 : ℝ) = q at *
  refine ⟨simpleCosmology, ⟨1, q, fun _ => 1⟩, ⟨3, 1, fun _ => 1⟩, fun _ => 1,
    flat_geometry 1 1 (fun z => z) (fun z => 1 + z) (by norm_num) rfl (fun a b _ h => h), ?_, ?_, rfl, ?_⟩
  · norm_num [runTyped, TypedObj.addPlane, TypedObj.init, MPC.init, MPC.initialiseInputs,
      Library.store]
  · norm_num [runTyped, TypedObj.addPlane, TypedObj.init, MPC.init, MPC.initialiseInputs,
      Library.store, MPC.kappa, DType.conv, r0, r1, simpleCosmology, flatCosmology]
  · norm_num [lensingSum, simpleCosmology, flatCosmology, xOf, x2Of]
    ring

/-- There are such planes. -/
example : ∃ (c : Cosmology) (a b : Plane Unit), Geometry c ∧
    (0 :: [(a, DType.single), (b, .double)].map fun n => n.1.z).IsChain (· < ·) :=
  ⟨simpleCosmology, ⟨1, 1, fun _ => 1⟩, ⟨2, 1, fun _ => 1⟩,
    flat_geometry 1 1 (fun z => z) (fun z => 1 + z) (by norm_num) rfl (fun a b _ h => h), by norm_num⟩

end Glass.Lensing
