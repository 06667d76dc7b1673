import Verif.Galaxies.ShearProps

/-!
# Lensed ellipticities: positions and ellipticities of different lengths (C124)

`galaxy_shear` allocates its results for the broadcast shape of longitudes, latitudes and
ellipticities, so that single values ought to be repeated.
-/

namespace Glass.Galaxies

open Glass NdArray

/-- A vector of length one is repeated. -/
def stretch {α : Type} (n : ℕ) : List α → List α
  | [a] => List.replicate n a
  | l => l

/-- `hp.ang2pix(nside, lon, lat, lonlat=True)`: the coordinates are broadcast. -/
def ang2pixVec {npix : ℕ} (pix : ℝ × ℝ → Fin npix) (lon lat : List ℝ) :
    Except Err (List (Fin npix)) :=
  match broadcastDim lon.length lat.length with
  | none => .error (.value "operands could not be broadcast together")
  | some n => .ok (((stretch n lon).zip (stretch n lat)).map pix)

/-- The loop of `galaxies.py:330-335`.  Setting a slice repeats a single value. -/
def shearLoopVec {npix : ℕ} (chunk : ℕ) (pix : ℝ × ℝ → Fin npix) (lon lat : List ℝ)
    (kappa gamma1 gamma2 : Fin npix → ℝ) (size : ℕ) :
    List ℕ → List ℝ → List ℂ → Except Err (List ℝ × List ℂ)
  | [], k, g => .ok (k, g)
  | i :: is, k, g => do
    let upper := min size (i + chunk)
    let ipix ← ang2pixVec pix ((lon.take upper).drop i) ((lat.take upper).drop i)
    let k ← setSlice k i upper (stretch (upper - i) (ipix.map kappa))
    let g ← setSlice g i upper (stretch (upper - i)
      (ipix.map fun p => (gamma1 p : ℂ) + Complex.I * gamma2 p))
    shearLoopVec chunk pix lon lat kappa gamma1 gamma2 size is k g

/-- `galaxies.py:271-347` `galaxy_shear` for vectors of positions and ellipticities; `chunk` is
10 000 in the code. -/
noncomputable def galaxyShearVec {npix : ℕ} (chunk : ℕ) (junk : ℕ → ℝ) (pix : ℝ × ℝ → Fin npix)
    (lon lat : List ℝ) (eps : List ℂ) (kappa gamma1 gamma2 : Fin npix → ℝ)
    (reducedShear : Bool) : Except Err (List ℂ) :=
  match (broadcastDim lon.length lat.length).bind fun n => broadcastDim n eps.length with
  | none => .error (.value "shape mismatch")
  | some size =>
    let k := (List.range size).map junk
    let g : List ℂ := (List.range size).map fun i => (junk i : ℂ)
    let starts := (List.range ((size + (chunk - 1)) / chunk)).map (· * chunk)
    do
      let (k, g) ← shearLoopVec chunk pix lon lat kappa gamma1 gamma2 size starts k g
      let eps := stretch size eps
      if reducedShear then
        let g := List.zipWith (fun g k : ℂ => g / (1 - k)) g (k.map Complex.ofReal)
        .ok (List.zipWith (fun e g : ℂ => (e + g) / (1 + (starRingEnd ℂ) g * e)) eps g)
      else
        .ok (List.zipWith (· + ·) g eps)

theorem stretch_length {α : Type} {n : ℕ} {l : List α} (h : l.length = n ∨ l.length = 1) :
    (stretch n l).length = n := by
  match l, h with
  | [], h => simpa [stretch] using h
  | [a], _ => simp [stretch]
  | _ :: _ :: _, h => simpa [stretch] using h

theorem stretch_of_length {α : Type} {n : ℕ} {l : List α} (h : l.length = n) : stretch n l = l := by
  match l, h with
  | [], _ => rfl
  | [a], h => subst h; rfl
  | _ :: _ :: _, _ => rfl

theorem stretch_map {α β : Type} (f : α → β) (n : ℕ) (l : List α) :
    stretch n (l.map f) = (stretch n l).map f := by
  match l with
  | [] => rfl
  | [a] => simp [stretch]
  | _ :: _ :: _ => rfl

theorem broadcastDim_pair {a b n : ℕ} (ha : a = n ∨ a = 1) (hb : b = n ∨ b = 1) :
    broadcastDim a b = some n ∨ (a = 1 ∧ b = 1 ∧ broadcastDim a b = some 1) := by
  unfold broadcastDim
  rcases ha with rfl | rfl <;> rcases hb with rfl | rfl <;> simp
  by_cases h : a = 1 <;> simp [h]

theorem broadcastDim_three {a b c n : ℕ} (ha : a = n ∨ a = 1) (hb : b = n ∨ b = 1)
    (hc : c = n ∨ c = 1) (h : a = n ∨ b = n ∨ c = n) :
    ((broadcastDim a b).bind fun n => broadcastDim n c) = some n := by
  unfold broadcastDim
  rcases ha with rfl | rfl <;> rcases hb with rfl | rfl <;> rcases hc with rfl | rfl <;>
    simp_all <;> (try split_ifs) <;> simp_all

/-- If all positions are given, the loops are the same. -/
theorem loopVec_eq {npix chunk : ℕ} {pix : ℝ × ℝ → Fin npix} {lon lat : List ℝ}
    (hl : lon.length = lat.length) {kappa gamma1 gamma2 : Fin npix → ℝ} :
    ∀ (is : List ℕ) (k : List ℝ) (g : List ℂ), (∀ i ∈ is, i < lon.length) →
      shearLoopVec chunk pix lon lat kappa gamma1 gamma2 lon.length is k g =
      shearLoop chunk pix (lon.zip lat) kappa gamma1 gamma2 lon.length is k g
  | [], k, g, _ => rfl
  | i :: is, k, g, hi => by
    have h0 := hi i (List.mem_cons_self ..)
    set upper := min lon.length (i + chunk) with hu
    have e1 : ((lon.take upper).drop i).length = upper - i := by
      simp only [List.length_drop, List.length_take]; omega
    have e2 : ((lat.take upper).drop i).length = upper - i := by
      simp only [List.length_drop, List.length_take]; omega
    have e3 : (((lon.zip lat).take upper).drop i) =
        ((lon.take upper).drop i).zip ((lat.take upper).drop i) := by
      simp only [List.zip, List.take_zipWith, List.drop_zipWith]
    have e4 : ang2pixVec pix ((lon.take upper).drop i) ((lat.take upper).drop i) =
        .ok ((((lon.zip lat).take upper).drop i).map pix) := by
      unfold ang2pixVec
      rw [e1, e2]
      simp only [broadcastDim, if_true]
      rw [stretch_of_length e1, stretch_of_length e2, e3]
    have e5 : (((lon.zip lat).take upper).drop i).length = upper - i := by
      rw [e3, List.length_zip, e1, e2, min_self]
    rw [shearLoopVec, shearLoop]
    simp only [← hu, e4, bind, Except.bind]
    rw [stretch_of_length (by rw [List.length_map, List.length_map, e5]),
      stretch_of_length (by rw [List.length_map, List.length_map, e5])]
    split
    · rfl
    · split
      · rfl
      · exact loopVec_eq hl is _ _ fun j hj => hi j (List.mem_cons_of_mem _ hj)

theorem starts_lt {size chunk : ℕ} (hc : 0 < chunk) :
    ∀ i ∈ (List.range ((size + (chunk - 1)) / chunk)).map (· * chunk), i < size := by
  intro i hi
  obtain ⟨j, hj, rfl⟩ := List.mem_map.1 hi
  have := (Nat.lt_div_iff_mul_lt hc).1 (List.mem_range.1 hj)
  have hm := mul_comm j chunk
  show j * chunk < size
  omega

/-- **C124** if every object has its position: a single ellipticity is repeated. -/
theorem shear_single_ellipticity_partial {npix chunk : ℕ} (hc : 0 < chunk) (junk : ℕ → ℝ)
    (pix : ℝ × ℝ → Fin npix) {lon lat : List ℝ} {eps : List ℂ} (hl : lon.length = lat.length)
    (he : eps.length = lon.length ∨ eps.length = 1) (kappa gamma1 gamma2 : Fin npix → ℝ)
    (red : Bool) : galaxyShearVec chunk junk pix lon lat eps kappa gamma1 gamma2 red =
      galaxyShear chunk junk pix (lon.zip lat) (stretch lon.length eps) kappa gamma1 gamma2 red := by
  have hz : (lon.zip lat).length = lon.length := by simp [hl]
  unfold galaxyShearVec galaxyShear
  rw [broadcastDim_three (n := lon.length) (.inl rfl) (.inl hl.symm) he (.inl rfl)]
  rw [if_neg (by rw [hz, stretch_length he]; simp)]
  simp only [hz]
  rw [loopVec_eq hl _ _ _ (starts_lt hc)]

theorem take_drop_zero {α : Type} {l : List α} {n : ℕ} (h : l.length ≤ n) :
    (l.take n).drop 0 = l := by simp [List.take_of_length_le h]

/-- **C124** for at most 10 000 objects: positions and ellipticities are broadcast. -/
theorem shear_broadcast_partial {npix chunk n : ℕ} (hn : 0 < n) (hc : n ≤ chunk) (junk : ℕ → ℝ)
    (pix : ℝ × ℝ → Fin npix) {lon lat : List ℝ} {eps : List ℂ}
    (h1 : lon.length = n ∨ lon.length = 1) (h2 : lat.length = n ∨ lat.length = 1)
    (h3 : eps.length = n ∨ eps.length = 1) (h : lon.length = n ∨ lat.length = n ∨ eps.length = n)
    (kappa gamma1 gamma2 : Fin npix → ℝ) (red : Bool) :
    galaxyShearVec chunk junk pix lon lat eps kappa gamma1 gamma2 red =
      galaxyShear chunk junk pix ((stretch n lon).zip (stretch n lat)) (stretch n eps)
        kappa gamma1 gamma2 red := by
  have l1 := stretch_length h1
  have l2 := stretch_length h2
  have hz : ((stretch n lon).zip (stretch n lat)).length = n := by simp [l1, l2]
  have hq : (n + (chunk - 1)) / chunk = 1 := by
    rw [Nat.div_eq_of_lt_le] <;> omega
  have hmin : min n (0 + chunk) = n := by omega
  unfold galaxyShearVec galaxyShear
  rw [broadcastDim_three h1 h2 h3 h, if_neg (by rw [hz, stretch_length h3]; simp)]
  simp only [hz, hq]
  have hloop : ∀ (k : List ℝ) (g : List ℂ),
      shearLoopVec chunk pix lon lat kappa gamma1 gamma2 n ((List.range 1).map (· * chunk)) k g =
      shearLoop chunk pix ((stretch n lon).zip (stretch n lat)) kappa gamma1 gamma2 n
        ((List.range 1).map (· * chunk)) k g := by
    intro k g
    have hr : (List.range 1).map (· * chunk) = [0] := by simp
    rw [hr, shearLoopVec, shearLoop]
    simp only [hmin, Nat.sub_zero]
    rw [take_drop_zero (by omega), take_drop_zero (by omega), take_drop_zero (by omega)]
    have e : ∃ p, ang2pixVec pix lon lat = .ok p ∧
        stretch n p = ((stretch n lon).zip (stretch n lat)).map pix := by
      unfold ang2pixVec
      rcases broadcastDim_pair h1 h2 with hb | ⟨ha, hb, hab⟩
      · rw [hb]
        exact ⟨_, rfl, stretch_of_length (by simp [l1, l2])⟩
      · rw [hab]
        refine ⟨_, rfl, ?_⟩
        obtain ⟨x, rfl⟩ := List.length_eq_one_iff.1 ha
        obtain ⟨y, rfl⟩ := List.length_eq_one_iff.1 hb
        simp [stretch]
    obtain ⟨p, hp1, hp2⟩ := e
    simp only [hp1, bind, Except.bind, stretch_map, hp2]
    split
    · rfl
    · split
      · rfl
      · rfl
  rw [hloop]

theorem loopVec_error {npix chunk : ℕ} {pix : ℝ × ℝ → Fin npix} {lon lat : List ℝ}
    {kappa gamma1 gamma2 : Fin npix → ℝ} {size : ℕ} (hc : 0 < chunk)
    (hl : lon.length = 1 ∨ lat.length = 1) :
    ∀ (is : List ℕ) (k : List ℝ) (g : List ℂ), k.length = size → (∃ i ∈ is, 1 ≤ i ∧ i < size) →
      ∃ r, shearLoopVec chunk pix lon lat kappa gamma1 gamma2 size is k g = .error (.value r)
  | [], _, _, _, h => by simp at h
  | i :: is, k, g, hk, h => by
    rw [shearLoopVec]
    simp only [bind, Except.bind]
    set upper := min size (i + chunk) with hu
    rcases ha : ang2pixVec pix ((lon.take upper).drop i) ((lat.take upper).drop i) with e | p
    · simp only
      unfold ang2pixVec at ha
      split at ha <;> cases ha
      exact ⟨_, rfl⟩
    · simp only
      rcases hs : setSlice k i upper (stretch (upper - i) (p.map kappa)) with e | k'
      · simp only
        unfold setSlice at hs
        split_ifs at hs
        cases hs
        exact ⟨_, rfl⟩
      · simp only
        have hk' : k'.length = size := by
          unfold setSlice at hs
          split_ifs at hs with h1
          cases hs
          simp only [List.length_append, List.length_take, List.length_drop]
          omega
        rcases hg : setSlice g i upper (stretch (upper - i)
            (p.map fun p => (gamma1 p : ℂ) + Complex.I * gamma2 p)) with e | g'
        · simp only
          unfold setSlice at hg
          split_ifs at hg
          cases hg
          exact ⟨_, rfl⟩
        · simp only
          refine loopVec_error hc hl is k' g' hk' ?_
          obtain ⟨j, hj, hj1, hj2⟩ := h
          rcases List.mem_cons.1 hj with rfl | hj
          · exfalso
            have hp : p = [] := by
              unfold ang2pixVec at ha
              split at ha <;> cases ha
              rename_i m hm
              rcases hl with hl | hl
              · have e0 : (lon.take upper).drop j = [] := by
                  rw [← List.length_eq_zero_iff]; simp; omega
                rw [e0]
                rfl
              · have e0 : (lat.take upper).drop j = [] := by
                  rw [← List.length_eq_zero_iff]; simp; omega
                rw [e0]
                simp [stretch]
            subst hp
            unfold setSlice at hs
            split_ifs at hs with h1
            simp only [List.map_nil, stretch, List.length_nil] at h1
            omega
          · exact ⟨j, hj, hj1, hj2⟩

/-- **C124** is false for more than 10 000 objects: if the longitude or the latitude is a single
value, the second chunk finds no positions, and `ValueError` is raised. -/
theorem shear_broadcast_wrong {npix chunk n : ℕ} (hc : 0 < chunk) (hn : chunk < n) (junk : ℕ → ℝ)
    (pix : ℝ × ℝ → Fin npix) {lon lat : List ℝ} {eps : List ℂ}
    (h1 : lon.length = n ∨ lon.length = 1) (h2 : lat.length = n ∨ lat.length = 1)
    (h3 : eps.length = n ∨ eps.length = 1) (h : lon.length = n ∨ lat.length = n ∨ eps.length = n)
    (hs : lon.length = 1 ∨ lat.length = 1) (kappa gamma1 gamma2 : Fin npix → ℝ) (red : Bool) :
    ∃ r, galaxyShearVec chunk junk pix lon lat eps kappa gamma1 gamma2 red =
      .error (.value r) := by
  obtain ⟨r, hr⟩ := loopVec_error (pix := pix) (kappa := kappa) (gamma1 := gamma1)
    (gamma2 := gamma2) (size := n) hc hs
    ((List.range ((n + (chunk - 1)) / chunk)).map (· * chunk))
    ((List.range n).map junk) ((List.range n).map fun i => (junk i : ℂ)) (by simp) (by
      refine ⟨chunk, List.mem_map.2 ⟨1, List.mem_range.2 ?_, one_mul _⟩, hc, hn⟩
      rw [Nat.lt_div_iff_mul_lt hc]
      omega)
  refine ⟨r, ?_⟩
  unfold galaxyShearVec
  rw [broadcastDim_three h1 h2 h3 h]
  simp only [hr, bind, Except.bind]

/-- **C124**, lengths that do not fit: `ValueError`. -/
theorem shear_lengths_rejected {npix : ℕ} (chunk : ℕ) (junk : ℕ → ℝ) (pix : ℝ × ℝ → Fin npix)
    {lon lat : List ℝ} {eps : List ℂ} (hl : lon.length = lat.length) (h0 : lon.length ≠ 1)
    (he : eps.length ≠ lon.length) (he1 : eps.length ≠ 1) (kappa gamma1 gamma2 : Fin npix → ℝ)
    (red : Bool) : ∃ r, galaxyShearVec chunk junk pix lon lat eps kappa gamma1 gamma2 red =
      .error (.value r) := by
  unfold galaxyShearVec
  have : ((broadcastDim lon.length lat.length).bind fun n => broadcastDim n eps.length) = none := by
    simp [broadcastDim, ← hl, h0, he.symm, he1]
  rw [this]
  exact ⟨_, rfl⟩

/-- Concrete case: 20 000 ellipticities at a single position are rejected, while 10 000 are not. -/
example : (∃ r, galaxyShearVec 10000 (fun _ => 0) (fun _ => (0 : Fin 1)) [10] [20]
      (List.replicate 20000 0) (fun _ => 0) (fun _ => 0) (fun _ => 0) true = .error (.value r)) ∧
    ∃ r, galaxyShearVec 10000 (fun _ => 0) (fun _ => (0 : Fin 1)) [10] [20]
      (List.replicate 10000 0) (fun _ => 0) (fun _ => 0) (fun _ => 0) true = .ok r := by
  have hr : ∀ n : ℕ, (List.replicate n (0 : ℂ)).length = n := fun n => List.length_replicate
  refine ⟨shear_broadcast_wrong (n := 20000) (by norm_num) (by norm_num) _ _ (.inr rfl) (.inr rfl)
    (.inl (hr _)) (.inr (.inr (hr _))) (.inl rfl) _ _ _ _, ?_⟩
  rw [shear_broadcast_partial (n := 10000) (by norm_num) le_rfl _ _ (.inr rfl) (.inr rfl)
    (.inl (hr _)) (.inr (.inr (hr _)))]
  exact ⟨_, (galaxyShear_eq (by norm_num) _ _ (by
    rw [List.length_zip, stretch_length (.inr rfl), stretch_length (.inr rfl),
      stretch_length (.inl (hr _)), min_self]) _ _ _).1⟩

end Glass.Galaxies
