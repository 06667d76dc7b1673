import Verif.Lensing.PlaneProps

/-!
# Planes as arrays of the caller (C116)

`add_plane` keeps the array it is given, and uses it in the next call.  This model has arrays with a
length in a heap that the caller can change between the calls.
-/

namespace Glass.Lensing

open Glass.Num Glass.Shells

/-! ## Model -/

/-- The name of an array. -/
abbrev Ref := ℕ

/-- The contents of the arrays of the caller.  Arrays have one axis; an array of length one
broadcasts, as a scalar does. -/
abbrev Heap := Ref → List ℝ

/-- State of a `MultiPlaneConvergence` object (`lensing.py:434-454`).  `delta3 = some none` is the
zero of `_initialise_inputs`.  The convergence planes belong to the object. -/
structure Obj where
  z2 : ℝ
  z3 : ℝ
  x3 : ℝ
  w3 : ℝ
  r23 : ℝ
  delta3 : Option (Option Ref)
  buf : Option (Bool → List ℝ)
  cur : Bool

/-- `lensing.py:434-454` `__init__`. -/
def Obj.init : Obj :=
  { z2 := 0, z3 := 0, x3 := 0, w3 := 0, r23 := 1, delta3 := none, buf := none, cur := true }

/-- `lensing.py:474-487` `_initialise_inputs`. -/
def Obj.initialiseInputs (s : Obj) : Obj :=
  match s.delta3 with
  | none => { s with delta3 := some none }
  | some _ => s

/-- The contents of the array `delta3`. -/
def Obj.plane (h : Heap) (s : Obj) : List ℝ :=
  match s.delta3 with
  | some (some r) => h r
  | _ => [0]

/-- `a += b` for arrays: `b` is broadcast to the shape of `a`, or `ValueError` (`none`) is raised. -/
noncomputable def inplaceAdd (a b : List ℝ) : Option (List ℝ) :=
  if b.length = a.length then some (List.zipWith (· + ·) a b)
  else if b.length = 1 then some (a.map (· + b[0]!))
  else none

/-- `lensing.py:511-586` `add_plane` with the array `r`, where `h` are the contents of the arrays at
the time of the call: the exception, if any, and the state afterwards. -/
noncomputable def Obj.addPlane (cosmo : Cosmology) (h : Heap) (s : Obj) (r : Ref) (zsrc wlens : ℝ) :
    Option Err × Obj :=
  let s := s.initialiseInputs
  if zsrc ≤ s.z3 then (some (.value "source redshift must be increasing"), s)
  else
    let delta2 := s.plane h
    let z1 := s.z2
    let z2 := s.z3
    let z3 := zsrc
    let w2 := s.w3
    let x2 := s.x3
    let x3 := cosmo.distance z3 / cosmo.hubbleDistance
    let r12 := s.r23
    let r13 := cosmo.distance2 z1 z3 / (cosmo.hubbleDistance * x3)
    let r23 := cosmo.distance2 z2 z3 / (cosmo.hubbleDistance * x3)
    let t := r13 / r12
    let f := 3 * cosmo.OmegaM0 / 2
    let f := f * (x2 * r23)
    let f := f * ((1 + z2) / cosmo.HoverH0 z2)
    let f := f * w2
    let buf := s.buf.getD fun _ => List.replicate (h r).length 0
    let cur := !s.cur
    let kappa2 := buf s.cur
    let kappa3 := buf cur
    let kappa3 := kappa3.map (· * (1 - t))
    let kappa3 := List.zipWith (fun a b => a + t * b) kappa3 kappa2
    let next (k : List ℝ) : Obj :=
      ⟨z2, z3, x3, wlens, r23, some (some r), some fun b => if b = cur then k else kappa2, cur⟩
    match inplaceAdd kappa3 (delta2.map (f * ·)) with
    | some kappa3 => (none, next kappa3)
    | none => (some (.value "operands could not be broadcast together"), next kappa3)

/-- `lensing.py:593-596` property `kappa`. -/
def Obj.kappa (s : Obj) : Option (List ℝ) := s.buf.map fun b => b s.cur

/-- A call of `add_plane`, with the contents of all arrays at the time of the call. -/
structure Step where
  heap : Heap
  ref : Ref
  z : ℝ
  w : ℝ

/-- Call after call; exceptions are caught by the caller and listed. -/
noncomputable def runSteps (c : Cosmology) : Obj → List Step → List (Option Err) × Obj
  | s, [] => ([], s)
  | s, k :: ks =>
    let o := s.addPlane c k.heap k.ref k.z k.w
    let rest := runSteps c o.2 ks
    (o.1 :: rest.1, rest.2)

/-! ## Specification -/

/-- An array that can be used as a plane of `n` pixels. -/
def Fits (n : ℕ) (a : List ℝ) : Prop := a.length = n ∨ a.length = 1

/-- The values of an array as a plane of `n` pixels; zero if it cannot be used as one. -/
noncomputable def view (n : ℕ) (a : List ℝ) (i : ℕ) : ℝ :=
  if a.length = n then a[i]! else if a.length = 1 then a[0]! else 0

/-- The steps have increasing redshifts, and the caller leaves an array alone until the next plane
has been added. -/
def Careful : List Step → Prop
  | a :: b :: ks => a.z < b.z ∧ b.heap a.ref = a.heap a.ref ∧ Careful (b :: ks)
  | _ => True

/-- The planes that were meant, by their values at the time of the call. -/
noncomputable def meant (n : ℕ) (k : Step) : Call ℕ := .plane (view n (k.heap k.ref)) k.z k.w

/-! ## Simulation -/

/-- The object has the values of the state `m` on `n` pixels. -/
structure Shows (n : ℕ) (h : Heap) (s : Obj) (m : MPC ℕ) : Prop where
  z2 : s.z2 = m.z2
  z3 : s.z3 = m.z3
  x3 : s.x3 = m.x3
  w3 : s.w3 = m.w3
  r23 : s.r23 = m.r23
  plane : ∀ i < n, view n (s.plane h) i = m.delta3.getD (fun _ => 0) i
  planes : (s.buf = none ∧ m.planes = none ∧ s.cur = true) ∨ ∃ b p, s.buf = some b ∧
    m.planes = some p ∧ s.cur = p.cur ∧ ∀ j, b j = (List.range n).map (p.buf j)

theorem inplaceAdd_view (n : ℕ) (k : ℕ → ℝ) (f : ℝ) (d : List ℝ) :
    (Fits n d ∧ inplaceAdd ((List.range n).map k) (d.map (f * ·)) =
      some ((List.range n).map fun i => k i + f * view n d i)) ∨
    (¬ Fits n d ∧ inplaceAdd ((List.range n).map k) (d.map (f * ·)) = none ∧
      (List.range n).map k = (List.range n).map fun i => k i + f * view n d i) := by
  by_cases h1 : d.length = n
  · left
    refine ⟨.inl h1, ?_⟩
    unfold inplaceAdd
    rw [if_pos (by simpa using h1), Option.some.injEq]
    apply List.ext_getElem (by simp [h1])
    intro i hi _
    simp only [List.length_zipWith, List.length_map, List.length_range] at hi
    have hd : i < d.length := by omega
    simp only [List.getElem_zipWith, List.getElem_map, List.getElem_range, view, h1, if_true,
      getElem!_pos d i hd]
  · by_cases h2 : d.length = 1
    · left
      refine ⟨.inr h2, ?_⟩
      unfold inplaceAdd
      rw [if_neg (by simpa using h1), if_pos (by simpa using h2), Option.some.injEq, List.map_map]
      refine List.map_congr_left fun i _ => ?_
      obtain ⟨x, rfl⟩ := List.length_eq_one_iff.1 h2
      simp [view, Ne.symm (show n ≠ 1 from fun h => h1 (by rw [h2, h]))]
    · right
      refine ⟨fun h => h.elim h1 h2, ?_, ?_⟩
      · unfold inplaceAdd
        rw [if_neg (by simpa using h1), if_neg (by simpa using h2)]
      · simp [view, h1, h2]

theorem initialise_shows {n : ℕ} {h : Heap} {s : Obj} {m : MPC ℕ} (hs : Shows n h s m) :
    Shows n h s.initialiseInputs m.initialiseInputs := by
  obtain ⟨h1, h2, h3, h4, h5, h6, h7⟩ := hs
  have e1 : s.initialiseInputs.plane h = s.plane h := by
    unfold Obj.initialiseInputs Obj.plane; rcases hd : s.delta3 with _ | _ <;> simp [hd]
  have e2 : m.initialiseInputs.delta3.getD (fun _ => 0) = m.delta3.getD fun _ => 0 := by
    unfold MPC.initialiseInputs; rcases hd : m.delta3 with _ | _ <;> simp [hd]
  have e3 : s.initialiseInputs.z2 = s.z2 ∧ s.initialiseInputs.z3 = s.z3 ∧
      s.initialiseInputs.x3 = s.x3 ∧ s.initialiseInputs.w3 = s.w3 ∧
      s.initialiseInputs.r23 = s.r23 ∧ s.initialiseInputs.buf = s.buf ∧
      s.initialiseInputs.cur = s.cur := by
    unfold Obj.initialiseInputs; rcases s.delta3 with _ | _ <;> simp
  have e4 : m.initialiseInputs.z2 = m.z2 ∧ m.initialiseInputs.z3 = m.z3 ∧
      m.initialiseInputs.x3 = m.x3 ∧ m.initialiseInputs.w3 = m.w3 ∧
      m.initialiseInputs.r23 = m.r23 ∧ m.initialiseInputs.planes = m.planes := by
    unfold MPC.initialiseInputs; rcases m.delta3 with _ | _ <;> simp
  obtain ⟨a1, a2, a3, a4, a5, a6, a7⟩ := e3
  obtain ⟨b1, b2, b3, b4, b5, b6⟩ := e4
  exact ⟨by rw [a1, b1, h1], by rw [a2, b2, h2], by rw [a3, b3, h3], by rw [a4, b4, h4],
    by rw [a5, b5, h5], by rw [e1, e2]; exact h6, by rw [a6, a7, b6]; exact h7⟩

theorem initialise_plane (h : Heap) (s : Obj) : s.initialiseInputs.plane h = s.plane h := by
  unfold Obj.initialiseInputs Obj.plane; rcases hd : s.delta3 with _ | _ <;> simp [hd]

theorem addPlane_getD (c : Cosmology) (m : MPC ℕ) (d : ℕ → ℝ) (z w : ℝ)
    (hz : ¬ z ≤ m.initialiseInputs.z3) : m.addPlane c d z w =
    (let m := m.initialiseInputs
     let p := m.planes.getD { buf := fun _ _ => 0, cur := true }
     let x3 := c.distance z / c.hubbleDistance
     let t := c.distance2 m.z2 z / (c.hubbleDistance * x3) / m.r23
     let r23 := c.distance2 m.z3 z / (c.hubbleDistance * x3)
     let f := 3 * c.OmegaM0 / 2 * (m.x3 * r23) * ((1 + m.z3) / c.HoverH0 m.z3) * m.w3
     let kappa := fun i => p.buf (!p.cur) i * (1 - t) + t * p.buf p.cur i +
       f * m.delta3.getD (fun _ => 0) i
     (none, { z2 := m.z3, z3 := z, x3 := x3, w3 := w, r23 := r23, delta3 := some d,
              planes := some { buf := fun b => if b = !p.cur then kappa else p.buf p.cur,
                               cur := !p.cur } })) := by
  unfold MPC.addPlane
  generalize m.initialiseInputs = m at hz ⊢
  simp only [if_neg hz]
  rcases m.planes with _ | p <;> rfl

/-- One call.  In all cases the object shows the state of the computation with values, where an array
that does not fit counts as zero; but the exception for it is raised by the call after the one that
passed it. -/
theorem addPlane_shows (c : Cosmology) {n : ℕ} {h : Heap} {s : Obj} {m : MPC ℕ}
    (hs : Shows n h s m) (r : Ref) (z w : ℝ) (hz : s.z3 < z)
    (hfirst : s.buf = none → (h r).length = n) :
    (m.addPlane c (view n (h r)) z w).1 = none ∧
    Shows n h (s.addPlane c h r z w).2 (m.addPlane c (view n (h r)) z w).2 ∧
    (s.addPlane c h r z w).2.z3 = z ∧ (s.addPlane c h r z w).2.delta3 = some (some r) ∧
    (s.addPlane c h r z w).2.buf ≠ none ∧
    ((s.addPlane c h r z w).1 = none ↔ Fits n (s.plane h)) ∧
    ((s.addPlane c h r z w).1 ≠ none → ∃ e, (s.addPlane c h r z w).1 = some (.value e)) := by
  have hs' := initialise_shows hs
  have hb : s.initialiseInputs.buf = s.buf := by
    unfold Obj.initialiseInputs; rcases s.delta3 with _ | _ <;> rfl
  have hz3 : s.initialiseInputs.z3 = s.z3 := by
    unfold Obj.initialiseInputs; rcases s.delta3 with _ | _ <;> rfl
  rw [← initialise_plane h s]
  rw [← hb] at hfirst
  rw [← hz3] at hz
  have hzm : ¬ z ≤ m.initialiseInputs.z3 := by rw [← hs'.z3]; exact not_le.2 hz
  rw [addPlane_getD c m _ z w hzm]
  unfold Obj.addPlane
  generalize s.initialiseInputs = s at hs' hz hfirst ⊢
  generalize m.initialiseInputs = m at hs' hzm ⊢
  obtain ⟨h1, h2, h3, h4, h5, h6, h7⟩ := hs'
  simp only [if_neg hzm, h1, h2, h3, h4, h5]
  -- the planes before the update
  obtain ⟨p, hp, hcur, hbuf⟩ : ∃ p : Planes ℕ,
      m.planes.getD { buf := fun _ _ => 0, cur := true } = p ∧ s.cur = p.cur ∧
      ∀ j, (s.buf.getD fun _ => List.replicate (h r).length 0) j = (List.range n).map (p.buf j) := by
    rcases h7 with ⟨q1, q2, q3⟩ | ⟨b, p, q1, q2, q3, q4⟩
    · refine ⟨_, by rw [q2, Option.getD_none], q3, fun j => ?_⟩
      rw [q1, Option.getD_none, hfirst q1]
      apply List.ext_getElem <;> simp
    · exact ⟨p, by rw [q2, Option.getD_some], q3, fun j => by rw [q1, Option.getD_some, q4]⟩
  simp only [hp, hcur, hbuf]
  generalize c.distance2 m.z2 z / (c.hubbleDistance * (c.distance z / c.hubbleDistance)) / m.r23 = t
  generalize 3 * c.OmegaM0 / 2 * (m.x3 * (c.distance2 m.z3 z / (c.hubbleDistance *
    (c.distance z / c.hubbleDistance)))) * ((1 + m.z3) / c.HoverH0 m.z3) * m.w3 = f
  have hk : List.zipWith (fun a b => a + t * b)
      (((List.range n).map (p.buf !p.cur)).map (· * (1 - t))) ((List.range n).map (p.buf p.cur)) =
      (List.range n).map fun i => p.buf (!p.cur) i * (1 - t) + t * p.buf p.cur i := by
    rw [List.map_map, List.zipWith_map, List.zipWith_self]
    rfl
  rw [hk]
  have hview : (List.range n).map (fun i => p.buf (!p.cur) i * (1 - t) + t * p.buf p.cur i +
      f * view n (s.plane h) i) = (List.range n).map fun i =>
        p.buf (!p.cur) i * (1 - t) + t * p.buf p.cur i + f * m.delta3.getD (fun _ => 0) i :=
    List.map_congr_left fun i hi => by rw [h6 i (List.mem_range.1 hi)]
  have shows : ∀ k, k = (List.range n).map (fun i => p.buf (!p.cur) i * (1 - t) +
      t * p.buf p.cur i + f * m.delta3.getD (fun _ => 0) i) → ∀ j,
      (if j = !p.cur then k else (List.range n).map (p.buf p.cur)) = (List.range n).map
        (if j = !p.cur then fun i => p.buf (!p.cur) i * (1 - t) + t * p.buf p.cur i +
          f * m.delta3.getD (fun _ => 0) i else p.buf p.cur) := by
    rintro k rfl j
    split <;> rfl
  rcases inplaceAdd_view n (fun i => p.buf (!p.cur) i * (1 - t) + t * p.buf p.cur i) f
    (s.plane h) with ⟨g1, g2⟩ | ⟨g1, g2, g3⟩
  · rw [g2]
    refine ⟨trivial, ⟨rfl, rfl, rfl, rfl, rfl, fun i _ => rfl, .inr ⟨_, _, rfl, rfl, rfl, ?_⟩⟩, rfl, rfl,
      by simp, by simp [g1], by simp⟩
    exact shows _ hview
  · rw [g2]
    refine ⟨trivial, ⟨rfl, rfl, rfl, rfl, rfl, fun i _ => rfl, .inr ⟨_, _, rfl, rfl, rfl, ?_⟩⟩, rfl, rfl,
      by simp, by simp [g1], by simp⟩
    exact shows _ (g3.trans hview)

theorem shows_heap {n : ℕ} {h h' : Heap} {s : Obj} {m : MPC ℕ} {r : Ref}
    (hs : Shows n h s m) (hr : s.delta3 = some (some r)) (he : h' r = h r) : Shows n h' s m :=
  ⟨hs.z2, hs.z3, hs.x3, hs.w3, hs.r23, by
    have : s.plane h' = s.plane h := by simp only [Obj.plane, hr, he]
    rw [this]; exact hs.plane, hs.planes⟩

theorem runSteps_shows (c : Cosmology) {n : ℕ} : ∀ (ks : List Step) (k : Step) (s : Obj)
    (m : MPC ℕ), Shows n k.heap s m → s.delta3 = some (some k.ref) → s.z3 = k.z → s.buf ≠ none →
    Careful (k :: ks) →
    (∃ h, Shows n h (runSteps c s ks).2 (runAll c m (ks.map (meant n)))) ∧
    (runSteps c s ks).1.length = ks.length ∧
    ∀ i (hi : i < ks.length), ((runSteps c s ks).1[i]? = some none ↔
      Fits n (((k :: ks)[i]'(Nat.lt_succ_of_lt hi)).heap ((k :: ks)[i]'(Nat.lt_succ_of_lt hi)).ref))
  | [], k, s, m, hs, _, _, _, _ => ⟨⟨_, hs⟩, rfl, fun i hi => by simp at hi⟩
  | k' :: ks, k, s, m, hs, hr, hz, hb, hc => by
    obtain ⟨c1, c2, c3⟩ := hc
    have hs' := shows_heap hs hr c2
    obtain ⟨-, e2, e3, e4, e5, e6, -⟩ := addPlane_shows c hs' k'.ref k'.z k'.w (by rw [hz]; exact c1)
      (fun h => absurd h hb)
    obtain ⟨f1, f2, f3⟩ := runSteps_shows c ks k' _ _ e2 e4 e3 e5 c3
    refine ⟨f1, by simp [runSteps, f2], fun i hi => ?_⟩
    cases i with
    | zero =>
      simp only [runSteps, List.getElem?_cons_zero, Option.some.injEq, List.getElem_cons_zero]
      rw [e6]
      simp only [Obj.plane, hr, c2]
    | succ i =>
      simp only [runSteps, List.getElem?_cons_succ, List.getElem_cons_succ]
      exact f3 i (by simpa using hi)

theorem shows_kappa {n : ℕ} {h : Heap} {s : Obj} {m : MPC ℕ} (hs : Shows n h s m) :
    s.kappa = m.kappa.map fun k => (List.range n).map k := by
  unfold Obj.kappa MPC.kappa
  rcases hs.planes with ⟨q1, q2, -⟩ | ⟨b, p, q1, q2, q3, q4⟩
  · rw [q1, q2]; rfl
  · rw [q1, q2, q3]
    simp [q4]

/-- **C116**: Let planes be added with increasing redshifts, and let the caller leave each array
alone until the next plane has been added (but change it at will afterwards).  Let `n` be the number
of pixels of the first plane.  Then the convergence and the other results are those of the values at
the time of the calls, where planes that do not fit count as zero.  The first call does not raise, and
every other one raises exactly if the plane *before* does not fit. -/
theorem add_plane_arrays_partial (c : Cosmology) (k : Step) (ks : List Step)
    (hz : 0 < k.z) (hc : Careful (k :: ks)) :
    let n := (k.heap k.ref).length
    let s := (runSteps c Obj.init (k :: ks)).2
    let m := runAll c (MPC.init ℕ) ((k :: ks).map (meant n))
    s.kappa = m.kappa.map (fun f => (List.range n).map f) ∧ s.z3 = m.zsrc ∧ s.w3 = m.wlens ∧
    (runSteps c Obj.init (k :: ks)).1[0]? = some none ∧
    ∀ i (hi : i < ks.length), ((runSteps c Obj.init (k :: ks)).1[i + 1]? = some none ↔
      Fits n (((k :: ks)[i]'(Nat.lt_succ_of_lt hi)).heap ((k :: ks)[i]'(Nat.lt_succ_of_lt hi)).ref)) := by
  intro n s m
  have h0 : Shows n k.heap Obj.init (MPC.init ℕ) :=
    ⟨rfl, rfl, rfl, rfl, rfl, fun i _ => by
      have h1 : ([0] : List ℝ)[i]! = 0 := by rcases i with _ | i <;> rfl
      simp only [Obj.plane, Obj.init, view, MPC.init, Option.getD_none, h1]
      simp, .inl ⟨rfl, rfl, rfl⟩⟩
  obtain ⟨-, e2, e3, e4, e5, e6, -⟩ := addPlane_shows c h0 k.ref k.z k.w hz (fun _ => rfl)
  obtain ⟨⟨h, f1⟩, -, f3⟩ := runSteps_shows c ks k _ _ e2 e4 e3 e5 hc
  refine ⟨shows_kappa f1, f1.z3, f1.w3, ?_, fun i hi => ?_⟩
  · simp only [runSteps, List.getElem?_cons_zero, Option.some.injEq]
    exact e6.2 (.inr rfl)
  · simp only [runSteps, List.getElem?_cons_succ]
    exact f3 i hi

/-! ## Refutations -/

/-- A cosmology for examples. -/
noncomputable def simpleCosmology : Cosmology := flatCosmology 1 1 (fun z => z) fun z => 1 + z

/-- Arrays with fixed contents: of length 2, of length 3, and of length 2 again. -/
noncomputable def threeArrays : Heap := fun r => if r = 1 then [1, 2, 3] else [1, 2]

/-- **C116 refuted**: a plane of the wrong shape is accepted; the exception is raised by the next call,
for a plane of the right shape, after the state has changed. -/
theorem wrong_shape_late : ∃ (c : Cosmology) (a b d : Step) (e : String),
    (a.heap a.ref).length = 2 ∧ (b.heap b.ref).length = 3 ∧ (d.heap d.ref).length = 2 ∧
    (runSteps c Obj.init [a, b, d]).1 = [none, none, some (.value e)] ∧
    (runSteps c Obj.init [a, b]).2.z3 = 2 ∧ (runSteps c Obj.init [a, b, d]).2.z3 = 3 := by
  refine ⟨simpleCosmology, ⟨threeArrays, 0, 1, 1⟩, ⟨threeArrays, 1, 2, 1⟩, ⟨threeArrays, 2, 3, 1⟩,
    "operands could not be broadcast together", by simp [threeArrays], by simp [threeArrays],
    by simp [threeArrays], ?_, ?_, ?_⟩
  · norm_num [runSteps, Obj.addPlane, Obj.init, Obj.initialiseInputs, threeArrays, inplaceAdd,
      Obj.plane]
  · norm_num [runSteps, Obj.addPlane, Obj.init, Obj.initialiseInputs, threeArrays, inplaceAdd,
      Obj.plane]
  · norm_num [runSteps, Obj.addPlane, Obj.init, Obj.initialiseInputs, threeArrays, inplaceAdd,
      Obj.plane]

/-- **C116 refuted**: the same calls with the same arguments give different convergences if the caller
fills the array of the first plane with other values before the second call. -/
theorem plane_aliased : ∃ (c : Cosmology) (a b b' : Step), Geometry c ∧ a.ref ≠ b.ref ∧
    b.ref = b'.ref ∧ b.z = b'.z ∧ b.w = b'.w ∧ b.heap b.ref = b'.heap b'.ref ∧
    (runSteps c Obj.init [a, b]).2.kappa ≠ (runSteps c Obj.init [a, b']).2.kappa := by
  refine ⟨simpleCosmology, ⟨fun _ => [1], 0, 1, 1⟩, ⟨fun _ => [1], 1, 2, 1⟩,
    ⟨fun r => if r = 0 then [2] else [1], 1, 2, 1⟩,
    flat_geometry 1 1 (fun z => z) (fun z => 1 + z) (by norm_num) rfl (fun a b _ h => h), by simp,
    rfl, rfl, rfl, by simp, ?_⟩
  norm_num [runSteps, Obj.addPlane, Obj.init, Obj.initialiseInputs, inplaceAdd, Obj.plane,
    Obj.kappa, simpleCosmology, flatCosmology]

/-- Concrete case: one array is used for all planes, and is filled with new values after the next
plane was added with another one. -/
example : ∃ a b d : Step, 0 < a.z ∧ Careful [a, b, d] ∧
    d.ref = a.ref ∧ d.heap d.ref ≠ a.heap a.ref :=
  ⟨⟨fun _ => [1, 2], 0, 1, 1⟩, ⟨fun _ => [1, 2], 1, 2, 1⟩,
    ⟨fun r => if r = 0 then [3, 4] else [1, 2], 0, 3, 1⟩, by norm_num,
    ⟨by norm_num, rfl, by norm_num, rfl, trivial⟩, rfl, by simp⟩

end Glass.Lensing
