import Verif.Arrays.Elementwise
import Verif.Points.SphereProps

/-!
# Displacements of arrays of points (C128)

`displace`, `deflect` and `displacement` for arrays of any shapes, with broadcasting.
-/

namespace Glass.Points

open Glass NdArray Arrays

/-! ## Model -/

/-- The argument `alpha` of `displace` and `deflect`, by its type. -/
inductive Alpha where
  /-- An array of complex numbers. -/
  | complex (a : NdArray ℂ)
  /-- An array of real numbers. -/
  | real (a : NdArray ℝ)

/-- `points.py:691-695`, `lensing.py:737-741`: the real and imaginary parts.  `alpha1, alpha2 = alpha`
takes apart the first axis; an array without axes cannot be iterated. -/
def Alpha.components : Alpha → Except Err (NdArray ℝ × NdArray ℝ)
  | .complex a => .ok (a.map Complex.re, a.map Complex.im)
  | .real a =>
    match a.shape with
    | [] => .error (.type "iteration over a 0-d array")
    | n :: s =>
      if n = 2 then .ok (⟨s, fun i => a.get (0 :: i)⟩, ⟨s, fun i => a.get (1 :: i)⟩)
      else .error (.value "wrong number of values to unpack")

/-- `points.py:702-714` (`lensing.py:748-763` is the same): the angles `tp` and `d`. -/
noncomputable def navigate (t alpha1 alpha2 : Arr ℝ) : Arr ℝ × Arr ℝ :=
  let ct := t.ap Real.sin
  let st := t.ap Real.cos
  let a := Arr.ap₂ hypot alpha1 alpha2
  let g := Arr.ap₂ atan2 alpha2 alpha1
  let ca := a.ap Real.cos
  let sa := a.ap Real.sin
  let cg := g.ap Real.cos
  let sg := g.ap Real.sin
  let mul := Arr.ap₂ fun x y : ℝ => x * y
  let add := Arr.ap₂ fun x y : ℝ => x + y
  let sub := Arr.ap₂ fun x y : ℝ => x - y
  let tp := Arr.ap₂ atan2 (add (mul ct ca) (mul (mul st sa) cg))
    (Arr.ap₂ hypot (sub (mul ct sa) (mul (mul st ca) cg)) (mul st sg))
  let d := Arr.ap₂ atan2 (mul sa sg) (sub (mul st ca) (mul (mul ct sa) cg))
  (tp, d)

/-- `points.py:654-716` `displace`. -/
noncomputable def displaceNd (lon lat : NdArray ℝ) (alpha : Alpha) :
    Except Err (NdArray ℝ × NdArray ℝ) := do
  let (alpha1, alpha2) ← alpha.components
  let (tp, d) := navigate (.ok (lat.map fun x => x / 180 * Real.pi)) (.ok alpha1) (.ok alpha2)
  let lon' ← Arr.ap₂ (fun x y => x + y) (.ok lon) (d.ap fun x => x / Real.pi * 180)
  let lat' ← tp.ap fun x => x / Real.pi * 180
  .ok (lon', lat')

/-- `lensing.py:687-765` `deflect`. -/
noncomputable def deflectNd (lon lat : NdArray ℝ) (alpha : Alpha) :
    Except Err (NdArray ℝ × NdArray ℝ) := do
  let (alpha1, alpha2) ← alpha.components
  let (tp, d) := navigate (.ok (lat.map radians)) (.ok alpha1) (.ok alpha2)
  let lon' ← Arr.ap₂ (fun x y => x - y) (.ok lon) (d.ap degrees)
  let lat' ← tp.ap degrees
  .ok (lon', lat')

/-- `points.py:719-770` `displacement`. -/
noncomputable def displacementNd (fromLon fromLat toLon toLat : NdArray ℝ) : Arr ℂ :=
  let a : Arr ℝ := .ok (fromLat.map radians)
  let b : Arr ℝ := .ok (toLat.map radians)
  let mul := Arr.ap₂ fun x y : ℝ => x * y
  let add := Arr.ap₂ fun x y : ℝ => x + y
  let sub := Arr.ap₂ fun x y : ℝ => x - y
  let g := (sub (.ok toLon) (.ok fromLon)).ap radians
  let sa := a.ap Real.sin
  let ca := a.ap Real.cos
  let sb := b.ap Real.sin
  let cb := b.ap Real.cos
  let sg := g.ap Real.sin
  let cg := g.ap Real.cos
  let r := Arr.ap₂ atan2
    (Arr.ap₂ hypot (mul cb sg) (sub (mul ca sb) (mul (mul sa cb) cg)))
    (add (mul sa sb) (mul (mul ca cb) cg))
  let x := Arr.ap₂ atan2 (mul cb sg) (sub (mul ca sb) (mul (mul sa cb) cg))
  Arr.ap₂ (fun (r : ℝ) (z : ℂ) => r * z) r (x.ap fun x : ℝ => Complex.exp (Complex.I * x))

/-! ## Properties -/

/-- The arrays of real and imaginary parts exist exactly for complex arrays and for real arrays whose
first axis has length 2; they have the same shape. -/
theorem components_ok {alpha : Alpha} {a b : NdArray ℝ} (h : alpha.components = .ok (a, b)) :
    b.shape = a.shape := by
  cases alpha with
  | complex z => cases h; rfl
  | real z =>
    simp only [Alpha.components] at h
    split at h
    · cases h
    · split_ifs at h
      cases h
      rfl

theorem components_ok_iff (alpha : Alpha) : (∃ p, alpha.components = .ok p) ↔
    ∀ z, alpha = .real z → ∃ s, z.shape = 2 :: s := by
  cases alpha with
  | complex z => simp [Alpha.components]
  | real z =>
    simp only [Alpha.components, Alpha.real.injEq, forall_eq']
    split
    · rename_i h; simp [h]
    · rename_i n s h
      by_cases hn : n = 2 <;> simp [h, hn]

theorem components_error {alpha : Alpha} {e : Err} (h : alpha.components = .error e) :
    ∃ z, alpha = .real z ∧ ((z.shape = [] ∧ ∃ r, e = .type r) ∨
      ∃ n s, z.shape = n :: s ∧ n ≠ 2 ∧ ∃ r, e = .value r) := by
  cases alpha with
  | complex z => cases h
  | real z =>
    refine ⟨z, rfl, ?_⟩
    simp only [Alpha.components] at h
    split at h
    · rename_i hz; cases h; exact .inl ⟨hz, _, rfl⟩
    · rename_i n s hz
      split_ifs at h with hn
      cases h
      exact .inr ⟨n, s, hz, hn, _, rfl⟩

/-- The angles are those of the formula for one point. -/
theorem navigate_computes {t a b : Arr ℝ} {ts s : List (List ℕ)} {T A B : List ℕ → ℝ}
    (ht : Computes t ts T) (ha : Computes a s A) (hb : Computes b s B) :
    Computes (navigate t a b).1 (ts ++ s) (fun i =>
      atan2 (Real.sin (T i) * Real.cos (hypot (A i) (B i)) +
        Real.cos (T i) * Real.sin (hypot (A i) (B i)) * Real.cos (atan2 (B i) (A i)))
        (hypot (Real.sin (T i) * Real.sin (hypot (A i) (B i)) -
          Real.cos (T i) * Real.cos (hypot (A i) (B i)) * Real.cos (atan2 (B i) (A i)))
          (Real.cos (T i) * Real.sin (atan2 (B i) (A i))))) ∧
    Computes (navigate t a b).2 (ts ++ s) (fun i =>
      atan2 (Real.sin (hypot (A i) (B i)) * Real.sin (atan2 (B i) (A i)))
        (Real.cos (T i) * Real.cos (hypot (A i) (B i)) -
          Real.sin (T i) * Real.sin (hypot (A i) (B i)) * Real.cos (atan2 (B i) (A i)))) := by
  have ct := ht.ap Real.sin
  have st := ht.ap Real.cos
  have ca := (ha.ap₂ hb hypot).ap Real.cos
  have sa := (ha.ap₂ hb hypot).ap Real.sin
  have cg := (hb.ap₂ ha atan2).ap Real.cos
  have sg := (hb.ap₂ ha atan2).ap Real.sin
  constructor
  · refine Computes.congr
      (((ct.ap₂ ca (· * ·)).ap₂ ((st.ap₂ sa (· * ·)).ap₂ cg (· * ·)) (· + ·)).ap₂
        (((ct.ap₂ sa (· * ·)).ap₂ ((st.ap₂ ca (· * ·)).ap₂ cg (· * ·)) (· - ·)).ap₂
          (st.ap₂ sg (· * ·)) hypot) atan2) fun x => ?_
    simp only [List.mem_append]
    tauto
  · refine Computes.congr ((sa.ap₂ sg (· * ·)).ap₂
      ((st.ap₂ ca (· * ·)).ap₂ ((ct.ap₂ sa (· * ·)).ap₂ cg (· * ·)) (· - ·)) atan2) fun x => ?_
    simp only [List.mem_append]
    tauto

/-- Both results of `displace`, as formulas. -/
theorem displace_computes (lon lat a b : NdArray ℝ) (hs : b.shape = a.shape) :
    Computes (Arr.ap₂ (fun x y => x + y) (.ok lon)
      ((navigate (.ok (lat.map fun x => x / 180 * Real.pi)) (.ok a) (.ok b)).2.ap
        fun x => x / Real.pi * 180)) [lon.shape, lat.shape, a.shape]
      (fun i => (displace (entry lon i) (entry lat i) (entry a i) (entry b i)).1) ∧
    Computes ((navigate (.ok (lat.map fun x => x / 180 * Real.pi)) (.ok a) (.ok b)).1.ap
        fun x => x / Real.pi * 180) [lat.shape, a.shape]
      (fun i => (displace (entry lon i) (entry lat i) (entry a i) (entry b i)).2) := by
  have hb : Computes (.ok b) [a.shape] (entry b) := hs ▸ computes_array b
  obtain ⟨h1, h2⟩ := navigate_computes ((computes_array lat).ap fun x => x / 180 * Real.pi)
    (computes_array a) hb
  exact ⟨(computes_array lon).ap₂ (h2.ap fun x => x / Real.pi * 180) (fun x y => x + y),
    h1.ap fun x => x / Real.pi * 180⟩

/-- Both results of `deflect`, as formulas. -/
theorem deflect_computes (lon lat a b : NdArray ℝ) (hs : b.shape = a.shape) :
    Computes (Arr.ap₂ (fun x y => x - y) (.ok lon)
      ((navigate (.ok (lat.map radians)) (.ok a) (.ok b)).2.ap degrees))
      [lon.shape, lat.shape, a.shape]
      (fun i => (deflect (entry lon i) (entry lat i) (entry a i) (entry b i)).1) ∧
    Computes ((navigate (.ok (lat.map radians)) (.ok a) (.ok b)).1.ap degrees) [lat.shape, a.shape]
      (fun i => (deflect (entry lon i) (entry lat i) (entry a i) (entry b i)).2) := by
  have hb : Computes (.ok b) [a.shape] (entry b) := hs ▸ computes_array b
  obtain ⟨h1, h2⟩ := navigate_computes ((computes_array lat).ap radians) (computes_array a) hb
  exact ⟨(computes_array lon).ap₂ (h2.ap degrees) (fun x y => x - y), h1.ap degrees⟩

/-- What it means that a function of arrays of points moves every point by `f`. -/
def MovesBy (f : ℝ → ℝ → ℝ → ℝ → ℝ × ℝ) (lon lat a b lon' lat' : NdArray ℝ) : Prop :=
  IsBroadcast [lon.shape, lat.shape, a.shape] lon'.shape ∧
  IsBroadcast [lat.shape, a.shape] lat'.shape ∧
  ∀ idx ∈ indices lon'.shape,
    (lon'.get idx, entry lat' idx) = f (entry lon idx) (entry lat idx) (entry a idx) (entry b idx)

theorem moves_aux {lon lat a b x y : NdArray ℝ} {u v : Arr ℝ} {f : ℝ → ℝ → ℝ → ℝ → ℝ × ℝ}
    (hu : Computes u [lon.shape, lat.shape, a.shape]
      (fun i => (f (entry lon i) (entry lat i) (entry a i) (entry b i)).1))
    (hv : Computes v [lat.shape, a.shape]
      (fun i => (f (entry lon i) (entry lat i) (entry a i) (entry b i)).2))
    (h : (do let x ← u; let y ← v; .ok (x, y) : Except Err (NdArray ℝ × NdArray ℝ)) = .ok (x, y)) :
    MovesBy f lon lat a b x y := by
  rcases u with e | u
  · cases h
  rcases v with e | v
  · cases h
  cases h
  obtain ⟨h1, h2⟩ := hu.ok rfl
  obtain ⟨h3, -⟩ := hv.ok rfl
  obtain ⟨w, hw, hs, he⟩ := hv.1 _ h3
  cases hw
  refine ⟨h1, h3, fun idx hi => Prod.ext (h2 idx hi) ?_⟩
  refine he _ (h3.least fun s hs => ?_) idx hi
  exact h1.fits (List.mem_cons_of_mem _ hs)

theorem ok_aux {lon lat a : NdArray ℝ} {u v : Arr ℝ} {F G : List ℕ → ℝ}
    (hu : Computes u [lon.shape, lat.shape, a.shape] F) (hv : Computes v [lat.shape, a.shape] G) :
    ((∃ p, (do let x ← u; let y ← v; .ok (x, y) : Except Err (NdArray ℝ × NdArray ℝ)) = .ok p) ↔
      ∃ d, IsBroadcast [lon.shape, lat.shape, a.shape] d) ∧
    ∀ e, (do let x ← u; let y ← v; .ok (x, y) : Except Err (NdArray ℝ × NdArray ℝ)) = .error e →
      ∃ r, e = .value r := by
  refine ⟨⟨fun ⟨p, hp⟩ => ?_, fun ⟨d, hd⟩ => ?_⟩, fun e he => ?_⟩
  · rcases u with e | u
    · cases hp
    · exact ⟨_, (hu.ok rfl).1⟩
  · obtain ⟨x, rfl, -⟩ := hu.1 d hd
    obtain ⟨c, hc⟩ := exists_broadcast_of_fits (ss := [lat.shape, a.shape]) fun s hs =>
      hd.fits (List.mem_cons_of_mem _ hs)
    obtain ⟨y, rfl, -⟩ := hv.1 c hc
    exact ⟨(x, y), rfl⟩
  · rcases u with e' | u
    · cases he; exact hu.error rfl
    · rcases v with e' | v
      · cases he; exact hv.error rfl
      · cases he

/-- **C128**: `displace` moves every point by its displacement, with broadcasting. -/
theorem displace_arrays {lon lat x y : NdArray ℝ} {alpha : Alpha}
    (h : displaceNd lon lat alpha = .ok (x, y)) :
    ∃ a b, alpha.components = .ok (a, b) ∧ MovesBy displace lon lat a b x y := by
  unfold displaceNd at h
  rcases hc : alpha.components with e | ⟨a, b⟩
  · rw [hc] at h; cases h
  · rw [hc] at h
    obtain ⟨h1, h2⟩ := displace_computes lon lat a b (components_ok hc)
    exact ⟨a, b, rfl, moves_aux h1 h2 h⟩

/-- **C128**: `displace` succeeds exactly if `alpha` has two components and the shapes have a
broadcast. -/
theorem displace_arrays_ok_iff (lon lat : NdArray ℝ) (alpha : Alpha) :
    (∃ p, displaceNd lon lat alpha = .ok p) ↔
      ∃ a b d, alpha.components = .ok (a, b) ∧ IsBroadcast [lon.shape, lat.shape, a.shape] d := by
  unfold displaceNd
  rcases hc : alpha.components with e | ⟨a, b⟩
  · exact ⟨fun ⟨_, h⟩ => (by cases h), fun ⟨_, _, _, h, _⟩ => (by cases h)⟩
  · obtain ⟨h1, h2⟩ := displace_computes lon lat a b (components_ok hc)
    refine Iff.trans (ok_aux h1 h2).1 ?_
    exact ⟨fun ⟨d, h⟩ => ⟨a, b, d, rfl, h⟩, fun ⟨_, _, d, h, h'⟩ => by cases h; exact ⟨d, h'⟩⟩

/-- **C128**: `TypeError` is raised exactly for real numbers that are not arrays, and `ValueError`
for anything else that is rejected. -/
theorem displace_arrays_error {lon lat : NdArray ℝ} {alpha : Alpha} {e : Err}
    (h : displaceNd lon lat alpha = .error e) :
    ((∃ z, alpha = .real z ∧ z.shape = []) ∧ ∃ r, e = .type r) ∨
      ((¬ ∃ z, alpha = .real z ∧ z.shape = []) ∧ ∃ r, e = .value r) := by
  unfold displaceNd at h
  rcases hc : alpha.components with e' | ⟨a, b⟩
  · rw [hc] at h
    cases h
    obtain ⟨z, rfl, ⟨hz, hr⟩ | ⟨n, s, hz, -, hr⟩⟩ := components_error hc
    · exact .inl ⟨⟨z, rfl, hz⟩, hr⟩
    · refine .inr ⟨?_, hr⟩
      rintro ⟨w, hw, hw'⟩
      cases hw
      rw [hz] at hw'
      cases hw'
  · rw [hc] at h
    obtain ⟨h1, h2⟩ := displace_computes lon lat a b (components_ok hc)
    refine .inr ⟨?_, (ok_aux h1 h2).2 e h⟩
    rintro ⟨z, rfl, hz⟩
    simp [Alpha.components, hz] at hc

/-- **C128**: the two ways to give displacements are equivalent: real and imaginary parts in a leading
axis, and complex numbers. -/
theorem displace_real_complex (lon lat : NdArray ℝ) (z : NdArray ℂ) (w : NdArray ℝ)
    (hs : w.shape = 2 :: z.shape) (h0 : ∀ i, w.get (0 :: i) = (z.get i).re)
    (h1 : ∀ i, w.get (1 :: i) = (z.get i).im) :
    displaceNd lon lat (.real w) = displaceNd lon lat (.complex z) ∧
    deflectNd lon lat (.real w) = deflectNd lon lat (.complex z) := by
  have h : (Alpha.real w).components = (Alpha.complex z).components := by
    simp only [Alpha.components, hs, if_true, h0, h1]
    rfl
  unfold displaceNd deflectNd
  rw [h]
  exact ⟨rfl, rfl⟩

/-- **C128** for `deflect`. -/
theorem deflect_arrays {lon lat x y : NdArray ℝ} {alpha : Alpha}
    (h : deflectNd lon lat alpha = .ok (x, y)) :
    ∃ a b, alpha.components = .ok (a, b) ∧ MovesBy deflect lon lat a b x y := by
  unfold deflectNd at h
  rcases hc : alpha.components with e | ⟨a, b⟩
  · rw [hc] at h; cases h
  · rw [hc] at h
    obtain ⟨h1, h2⟩ := deflect_computes lon lat a b (components_ok hc)
    exact ⟨a, b, rfl, moves_aux h1 h2 h⟩

theorem deflect_arrays_ok_iff (lon lat : NdArray ℝ) (alpha : Alpha) :
    (∃ p, deflectNd lon lat alpha = .ok p) ↔
      ∃ a b d, alpha.components = .ok (a, b) ∧ IsBroadcast [lon.shape, lat.shape, a.shape] d := by
  unfold deflectNd
  rcases hc : alpha.components with e | ⟨a, b⟩
  · exact ⟨fun ⟨_, h⟩ => (by cases h), fun ⟨_, _, _, h, _⟩ => (by cases h)⟩
  · obtain ⟨h1, h2⟩ := deflect_computes lon lat a b (components_ok hc)
    refine Iff.trans (ok_aux h1 h2).1 ?_
    exact ⟨fun ⟨d, h⟩ => ⟨a, b, d, rfl, h⟩, fun ⟨_, _, d, h, h'⟩ => by cases h; exact ⟨d, h'⟩⟩

/-- `displacement` is the formula for pairs of points. -/
theorem displacement_computes (fromLon fromLat toLon toLat : NdArray ℝ) :
    Computes (displacementNd fromLon fromLat toLon toLat)
      [fromLon.shape, fromLat.shape, toLon.shape, toLat.shape]
      (fun i => displacement (entry fromLon i) (entry fromLat i) (entry toLon i) (entry toLat i)) := by
  have a := (computes_array fromLat).ap radians
  have b := (computes_array toLat).ap radians
  have g := ((computes_array toLon).ap₂ (computes_array fromLon) fun x y : ℝ => x - y).ap radians
  have sa := a.ap Real.sin
  have ca := a.ap Real.cos
  have sb := b.ap Real.sin
  have cb := b.ap Real.cos
  have sg := g.ap Real.sin
  have cg := g.ap Real.cos
  have y := cb.ap₂ sg fun x y : ℝ => x * y
  have z := (ca.ap₂ sb fun x y : ℝ => x * y).ap₂ ((sa.ap₂ cb fun x y : ℝ => x * y).ap₂ cg
    fun x y : ℝ => x * y) fun x y : ℝ => x - y
  have r := (y.ap₂ z hypot).ap₂ ((sa.ap₂ sb fun x y : ℝ => x * y).ap₂
    ((ca.ap₂ cb fun x y : ℝ => x * y).ap₂ cg fun x y : ℝ => x * y) fun x y : ℝ => x + y) atan2
  refine Computes.congr (r.ap₂ ((y.ap₂ z atan2).ap fun x : ℝ => Complex.exp (Complex.I * x))
    fun (r : ℝ) (z : ℂ) => r * z) fun x => ?_
  simp only [List.mem_append, List.mem_cons, List.not_mem_nil, or_false]
  tauto

/-- **C128**: `displacement` of arrays: the shape, the values, and when it succeeds. -/
theorem displacement_arrays (fromLon fromLat toLon toLat : NdArray ℝ) :
    (∀ z, displacementNd fromLon fromLat toLon toLat = .ok z →
      IsBroadcast [fromLon.shape, fromLat.shape, toLon.shape, toLat.shape] z.shape ∧
      ∀ idx ∈ indices z.shape, z.get idx =
        displacement (entry fromLon idx) (entry fromLat idx) (entry toLon idx) (entry toLat idx)) ∧
    ((∃ z, displacementNd fromLon fromLat toLon toLat = .ok z) ↔
      ∃ d, IsBroadcast [fromLon.shape, fromLat.shape, toLon.shape, toLat.shape] d) ∧
    ∀ e, displacementNd fromLon fromLat toLon toLat = .error e → ∃ r, e = .value r :=
  ⟨fun _ h => (displacement_computes ..).ok h, (displacement_computes ..).ok_iff,
    fun _ h => (displacement_computes ..).error h⟩

/-- **C46** for arrays: displacing by `displacement` always succeeds and gives the points that were
asked for. -/
theorem displace_displacement_arrays {fromLon fromLat toLon toLat : NdArray ℝ} {z : NdArray ℂ}
    (h : displacementNd fromLon fromLat toLon toLat = .ok z) :
    ∃ x y, displaceNd fromLon fromLat (.complex z) = .ok (x, y) ∧ x.shape = z.shape ∧
      y.shape = z.shape ∧ ∀ idx ∈ indices z.shape,
        unitVec (x.get idx) (y.get idx) = unitVec (entry toLon idx) (entry toLat idx) := by
  obtain ⟨hs, hv⟩ := (displacement_computes ..).ok h
  have hf := fun s (hm : s ∈ [fromLon.shape, fromLat.shape, toLon.shape, toLat.shape]) => hs.fits hm
  have b3 : IsBroadcast [fromLon.shape, fromLat.shape, z.shape] z.shape := by
    refine ⟨?_, ?_, fun j n hn => ⟨z.shape, by simp, hn⟩⟩ <;> intro s hm <;>
      simp only [List.mem_cons, List.not_mem_nil, or_false] at hm <;> rcases hm with rfl | rfl | rfl
    · exact (hf _ (by simp)).1
    · exact (hf _ (by simp)).1
    · exact le_rfl
    · exact (hf _ (by simp)).2
    · exact (hf _ (by simp)).2
    · exact (Fits.refl _).2
  have b2 : IsBroadcast [fromLat.shape, z.shape] z.shape :=
    ⟨fun s hm => b3.1 s (List.mem_cons_of_mem _ hm), fun s hm => b3.2.1 s (List.mem_cons_of_mem _ hm),
      fun j n hn => ⟨z.shape, by simp, hn⟩⟩
  obtain ⟨⟨x, y⟩, hp⟩ := (displace_arrays_ok_iff fromLon fromLat (.complex z)).2
    ⟨_, _, z.shape, rfl, b3⟩
  obtain ⟨a, b, hc, m1, m2, m3⟩ := displace_arrays hp
  cases hc
  have ex : x.shape = z.shape := m1.unique b3
  have ey : y.shape = z.shape := m2.unique b2
  refine ⟨x, y, hp, ex, ey, fun idx hi => ?_⟩
  have hm := m3 idx (ex ▸ hi)
  rw [entry_self (a := y) (ey ▸ hi)] at hm
  have hre : entry (z.map Complex.re) idx = (z.get idx).re := by
    rw [entry_self (a := z.map Complex.re) (by exact hi)]; rfl
  have him : entry (z.map Complex.im) idx = (z.get idx).im := by
    rw [entry_self (a := z.map Complex.im) (by exact hi)]; rfl
  rw [hre, him, hv idx hi] at hm
  have := displace_displacement (entry fromLon idx) (entry fromLat idx) (entry toLon idx)
    (entry toLat idx)
  rw [← hm] at this
  exact this

/-- The two results of `displace` have the same shape exactly if the longitudes need not be repeated
along other axes than the latitudes and displacements. -/
theorem displace_same_shape_iff {lon lat x y : NdArray ℝ} {alpha : Alpha}
    (h : displaceNd lon lat alpha = .ok (x, y)) : x.shape = y.shape ↔ Fits lon.shape y.shape := by
  obtain ⟨a, b, -, m1, m2, -⟩ := displace_arrays h
  constructor
  · intro e
    rw [← e]
    exact m1.fits (by simp)
  · intro hf
    refine Fits.antisymm (m1.least fun s hs => ?_) (m2.least fun s hs => ?_)
    · rcases List.mem_cons.1 hs with rfl | hs
      · exact hf
      · exact m2.fits hs
    · exact m1.fits (List.mem_cons_of_mem _ hs)

/-- Coordinates of several points need not have one shape: two longitudes with one latitude and one
displacement give two longitudes and one latitude. -/
theorem displace_shapes_differ : ∃ x y, displaceNd ⟨[2], fun i => 10 * (i.headD 0 : ℝ)⟩ ⟨[], fun _ => 0⟩
    (.complex ⟨[], fun _ => 0⟩) = .ok (x, y) ∧ x.shape = [2] ∧ y.shape = [] := by
  refine ⟨_, _, rfl, rfl, rfl⟩

/-- Two displacements of the two points. -/
example : ∃ x y, displaceNd ⟨[3, 1], fun _ => 0⟩ ⟨[3, 1], fun _ => 0⟩ (.real ⟨[2, 4], fun _ => 0⟩) =
    .ok (x, y) ∧ x.shape = [3, 4] ∧ y.shape = [3, 4] := ⟨_, _, rfl, rfl, rfl⟩

/-- A leading axis of length 3 is rejected. -/
example : ∃ r, displaceNd ⟨[], fun _ => 0⟩ ⟨[], fun _ => 0⟩ (.real ⟨[3], fun _ => 0⟩) =
    .error (.value r) := ⟨_, rfl⟩

end Glass.Points
