import Verif.Galaxies.RedshiftProps

/-!
# Redshifts for many populations (C61)
-/

namespace Glass.Galaxies

open Glass Glass.Num Glass.Arrays NdArray

/-! ## Specification -/

/-- What is assumed of `rng.uniform(0, 1, size=n)`: as many variates as requested, in `[0, 1)`. -/
def UniformLaw {σ : Type} (uniform : σ → ℕ → List ℝ × σ) : Prop :=
  ∀ s n, (uniform s n).1.length = n ∧ ∀ u ∈ (uniform s n).1, 0 ≤ u ∧ u < 1

/-- The variates of successive requests to one generator, and its final state. -/
def streams {σ : Type} (uniform : σ → ℕ → List ℝ × σ) : σ → List ℕ → List (List ℝ) × σ
  | s, [] => ([], s)
  | s, c :: cs =>
    let r := streams uniform (uniform s c).2 cs
    ((uniform s c).1 :: r.1, r.2)

/-- The distribution of one population: the row of `z` and the row of `nz` for the index `idx` of
the common shape. -/
def population (z nz : NdArray ℝ) (zs ns : List ℕ) (m : ℕ) (idx : List ℕ) : List (ℝ × ℝ) :=
  (List.range m).map fun j =>
    (z.get (broadcastIndex zs idx ++ [j]), nz.get (broadcastIndex ns idx ++ [j]))

theorem streams_length {σ : Type} (uniform : σ → ℕ → List ℝ × σ) (s : σ) (cs : List ℕ) :
    (streams uniform s cs).1.length = cs.length := by
  induction cs generalizing s with
  | nil => rfl
  | cons c cs ih => simp [streams, ih]

theorem streams_mem {σ : Type} {uniform : σ → ℕ → List ℝ × σ} (hu : UniformLaw uniform) (s : σ)
    (cs : List ℕ) : List.Forall₂ (fun c us => us.length = c ∧ ∀ u ∈ us, 0 ≤ u ∧ u < 1) cs
      (streams uniform s cs).1 := by
  induction cs generalizing s with
  | nil => exact List.Forall₂.nil
  | cons c cs ih => exact List.Forall₂.cons (hu s c) (ih _)

/-! ## The loop -/

/-- One write into the output array. -/
theorem setSlice_ok {α : Type} {arr v : List α} {start stop : ℕ} (h : stop ≤ arr.length)
    (hv : start + v.length = stop) :
    setSlice arr start stop v = .ok (arr.take start ++ v ++ arr.drop stop) := by
  rw [setSlice, if_pos (by rw [min_eq_left h]; omega), hv]

theorem drawNz_ok {σ : Type} (uniform : σ → ℕ → List ℝ × σ) (s : σ) (count : ℕ) {z nz : List ℝ}
    (h : z.length = nz.length) (hz : z ≠ []) : drawNz uniform s count z nz =
      .ok ((uniform s count).1.map (inverseCdf (z.zip nz)), (uniform s count).2) := by
  unfold drawNz matchNz
  simp only [bind, Except.bind]
  rw [if_pos h]
  simp only
  rw [if_neg hz]

theorem drawNz_cases {σ : Type} (uniform : σ → ℕ → List ℝ × σ) (s : σ) (count : ℕ)
    (z nz : List ℝ) : (∃ r, drawNz uniform s count z nz = .error (.value r)) ∨
      ∃ v, drawNz uniform s count z nz = .ok (v, (uniform s count).2) := by
  unfold drawNz
  simp only [bind, Except.bind]
  rcases hm : matchNz z nz with e | nz'
  · unfold matchNz at hm
    split_ifs at hm
    split at hm
    · cases hm
    · cases hm; exact .inl ⟨_, rfl⟩
  · simp only
    split_ifs
    · exact .inl ⟨_, rfl⟩
    · exact .inr ⟨_, rfl⟩

/-- **C61.** A distribution with a number of values that differs from the number of redshifts and is
not two raises `ValueError`; two values act like a constant distribution, whatever the number of
redshifts. -/
theorem draw_nz_lengths {σ : Type} (uniform : σ → ℕ → List ℝ × σ) (s : σ) (count : ℕ)
    (z nz : List ℝ) :
    (z.length ≠ nz.length → nz.length ≠ 2 →
      ∃ r, drawNz uniform s count z nz = .error (.value r)) ∧
    (∀ a b, nz = [a, b] → z.length ≠ 2 → drawNz uniform s count z nz =
      drawNz uniform s count z (List.replicate z.length ((a + b) / 2))) := by
  constructor
  · intro h h2
    unfold drawNz matchNz
    rw [if_neg h]
    rcases nz with _ | ⟨a, _ | ⟨b, _ | ⟨c, nz⟩⟩⟩
    · exact ⟨_, rfl⟩
    · exact ⟨_, rfl⟩
    · simp at h2
    · exact ⟨_, rfl⟩
  · rintro a b rfl h
    unfold drawNz matchNz
    rw [if_neg (by simpa using h), if_pos (by simp)]

theorem nzLoop_spec {σ : Type} {uniform : σ → ℕ → List ℝ × σ} (hu : UniformLaw uniform)
    {count z nz : NdArray ℝ} {zf nzf : List ℕ → List ℝ} :
    ∀ {l : List (List ℕ)}, (∀ k ∈ l, slice1 z k = .ok (zf k) ∧ slice1 nz k = .ok (nzf k) ∧
      (zf k).length = (nzf k).length ∧ zf k ≠ []) →
    ∀ (arr : List ℝ) (total : ℕ) (s : σ),
      arr.length = total + (l.map fun k => ⌊count.get k⌋₊).sum →
      nzLoop uniform count z nz l arr total s = .ok (arr.take total ++
        (List.zipWith (fun k us => us.map (inverseCdf ((zf k).zip (nzf k)))) l
          (streams uniform s (l.map fun k => ⌊count.get k⌋₊)).1).flatten, arr.length,
        (streams uniform s (l.map fun k => ⌊count.get k⌋₊)).2)
  | [], _, arr, total, s, h => by
    simp only [List.map_nil, List.sum_nil, add_zero] at h
    simp [nzLoop, streams, ← h]
  | k :: l, hl, arr, total, s, h => by
    obtain ⟨h1, h2, h3, h4⟩ := hl k (by simp)
    obtain ⟨hlen, -⟩ := hu s ⌊count.get k⌋₊
    rw [List.map_cons, List.sum_cons] at h
    rw [nzLoop, h1, h2]
    simp only [bind, Except.bind]
    rw [drawNz_ok uniform s _ h3 h4]
    simp only
    have hv : total + ((uniform s ⌊count.get k⌋₊).1.map
        (inverseCdf ((zf k).zip (nzf k)))).length = total + ⌊count.get k⌋₊ := by simp [hlen]
    rw [setSlice_ok (by omega) hv]
    simp only
    set arr' := arr.take total ++ (uniform s ⌊count.get k⌋₊).1.map
      (inverseCdf ((zf k).zip (nzf k))) ++ arr.drop (total + ⌊count.get k⌋₊) with harr
    have hA : (arr.take total ++ (uniform s ⌊count.get k⌋₊).1.map
        (inverseCdf ((zf k).zip (nzf k)))).length = total + ⌊count.get k⌋₊ := by
      rw [List.length_append, List.length_map, hlen, List.length_take]; omega
    have hl' : arr'.length = arr.length := by
      rw [harr, List.length_append, hA, List.length_drop]; omega
    rw [nzLoop_spec hu (fun k hk => hl k (List.mem_cons_of_mem _ hk)) arr' _ _
      (by rw [hl']; omega), hl']
    have ht : arr'.take (total + ⌊count.get k⌋₊) = arr.take total ++
        (uniform s ⌊count.get k⌋₊).1.map (inverseCdf ((zf k).zip (nzf k))) := by
      rw [harr, List.take_append_of_le_length (by omega), List.take_of_length_le (by omega)]
    rw [ht]
    simp [streams, List.append_assoc]

theorem slice1_broadcast {a : NdArray ℝ} {as dims idx : List ℕ} {m : ℕ}
    (ha : a.shape = as ++ [m]) (hl : as.length ≤ dims.length) (hi : idx ∈ indices dims) :
    slice1 (⟨dims ++ [m], fun i => a.get (broadcastIndex a.shape i)⟩ : NdArray ℝ) idx =
      .ok ((List.range m).map fun j => a.get (broadcastIndex as idx ++ [j])) := by
  have hlen := mem_indices_length hi
  unfold slice1
  simp only
  rw [hlen, List.drop_left' rfl]
  simp only [Except.ok.injEq]
  refine List.map_congr_left fun j hj => ?_
  rw [ha, broadcastIndex_append (mem_indices.2 (by simpa using hj)) (by omega)]

/-- **C61.** Let the shape of the counts and the leading axes of `z` and `nz` have a common shape,
and let every population have a distribution.  Then the redshifts of all populations are returned
one after the other in the order of the common shape: for each population as many as were
requested, sampled from its own distribution with fresh variates, and inside the range of its own
redshifts. -/
theorem redshifts_from_nz_spec {σ : Type} {uniform : σ → ℕ → List ℝ × σ} (hu : UniformLaw uniform)
    (junk : ℕ → ℝ) (s : σ) (count : NdArray ℕ) (z nz : NdArray ℝ) {zs ns : List ℕ} {m : ℕ}
    (hz : z.shape = zs ++ [m]) (hnz : nz.shape = ns ++ [m]) {dims : List ℕ}
    (hd : IsBroadcast [count.shape, zs, ns] dims)
    (hdist : ∀ idx ∈ indices dims, IsDistribution (population z nz zs ns m idx)) :
    ∃ (runs : List (List ℝ)) (us : List (List ℝ)) (s' : σ),
      redshiftsFromNz uniform junk s count z nz = .ok (runs.flatten, s') ∧
      (us, s') = streams uniform s ((indices dims).map fun idx =>
        count.get (broadcastIndex count.shape idx)) ∧
      runs = List.zipWith (fun idx us => us.map (inverseCdf (population z nz zs ns m idx)))
        (indices dims) us ∧
      List.Forall₂ (fun idx run => run.length = count.get (broadcastIndex count.shape idx) ∧
        ∀ x ∈ run, z.get (broadcastIndex zs idx ++ [0]) ≤ x ∧
          x < z.get (broadcastIndex zs idx ++ [m - 1])) (indices dims) runs := by
  have hlead : [((count.map fun n : ℕ => (n : ℝ)), 0), (z, 1), (nz, 1)].map lead =
      [count.shape, zs, ns] := by
    simp [lead, hz, hnz, NdArray.map]
  have htr : [((count.map fun n : ℕ => (n : ℝ)), 0), (z, 1), (nz, 1)].map trail =
      [[], [m], [m]] := by
    simp [trail, hz, hnz, NdArray.map]
  have hbc := (broadcastLeadingAxes_ok
    (args := [((count.map fun n : ℕ => (n : ℝ)), 0), (z, 1), (nz, 1)])
    (by simp [hz, hnz]) (by rw [hlead]; exact hd)).1
  simp only [List.map_cons, List.map_nil, List.cons.injEq, and_true] at htr
  obtain ⟨t1, t2, t3⟩ := htr
  simp only [List.map_cons, List.map_nil] at hbc
  rw [t1, t2, t3, List.append_nil] at hbc
  set C : NdArray ℝ := ⟨dims, fun i => (count.map fun n : ℕ => (n : ℝ)).get
    (broadcastIndex (count.map fun n : ℕ => (n : ℝ)).shape i)⟩ with hC
  have hcount : ∀ k, ⌊C.get k⌋₊ = count.get (broadcastIndex count.shape k) := fun k => by
    simp [hC, NdArray.map]
  have hcm : ((indices dims).map fun k => ⌊C.get k⌋₊) = (indices dims).map fun idx =>
      count.get (broadcastIndex count.shape idx) := by
    simp only [hcount]
  have hlz : zs.length ≤ dims.length := hd.1 zs (by simp)
  have hln : ns.length ≤ dims.length := hd.1 ns (by simp)
  have hmne : ∀ k ∈ indices dims, m ≠ 0 := by
    rintro k hk rfl
    have := (hdist k hk).two_le
    simp [population] at this
  have hloop := nzLoop_spec hu (count := C)
    (z := ⟨dims ++ [m], fun i => z.get (broadcastIndex z.shape i)⟩)
    (nz := ⟨dims ++ [m], fun i => nz.get (broadcastIndex nz.shape i)⟩)
    (zf := fun idx => (List.range m).map fun j => z.get (broadcastIndex zs idx ++ [j]))
    (nzf := fun idx => (List.range m).map fun j => nz.get (broadcastIndex ns idx ++ [j]))
    (l := indices dims)
    (fun k hk => ⟨slice1_broadcast hz hlz hk, slice1_broadcast hnz hln hk, by simp,
      by simpa using hmne k hk⟩)
    ((List.range ((C.ravel.map fun x => ⌊x⌋₊).sum)).map junk) 0 s
    (by simp [ravel, hC, Function.comp_def])
  have hpop : ∀ idx, ((List.range m).map fun j => z.get (broadcastIndex zs idx ++ [j])).zip
      ((List.range m).map fun j => nz.get (broadcastIndex ns idx ++ [j])) =
        population z nz zs ns m idx := fun idx => by
    simp only [population]
    rw [List.zip_map']
  simp only [hpop, hcm, List.take_zero, List.nil_append] at hloop
  refine ⟨_, _, _, ?_, rfl, rfl, ?_⟩
  · unfold redshiftsFromNz
    rw [hbc]
    simp only [bind, Except.bind]
    rw [hloop]
    simp only
    rw [if_neg]
    rw [not_not, List.length_flatten, List.length_map, List.length_range]
    have : ∀ (l : List (List ℕ)) (s : σ),
        ((List.zipWith (fun idx us => us.map (inverseCdf (population z nz zs ns m idx))) l
          (streams uniform s (l.map fun idx => count.get (broadcastIndex count.shape idx))).1).map
            List.length).sum =
          (l.map fun idx => count.get (broadcastIndex count.shape idx)).sum := by
      intro l
      induction l with
      | nil => intro s; simp [streams]
      | cons k l ih =>
        intro s
        simp only [List.map_cons, streams, List.zipWith_cons_cons, List.sum_cons, List.length_map]
        rw [ih, (hu s _).1]
    rw [this]
    have e : C.ravel.map (fun x => ⌊x⌋₊) = (indices dims).map fun k => ⌊C.get k⌋₊ := by
      simp [ravel, hC, Function.comp_def]
    rw [e, hcm]
  · have hst := streams_mem hu s ((indices dims).map fun idx =>
      count.get (broadcastIndex count.shape idx))
    have key : ∀ (l : List (List ℕ)) (us : List (List ℝ)), (∀ idx ∈ l, idx ∈ indices dims) →
        List.Forall₂ (fun c us => us.length = c ∧ ∀ u ∈ us, 0 ≤ u ∧ u < 1)
          (l.map fun idx => count.get (broadcastIndex count.shape idx)) us →
        List.Forall₂ (fun idx run => run.length = count.get (broadcastIndex count.shape idx) ∧
          ∀ x ∈ run, z.get (broadcastIndex zs idx ++ [0]) ≤ x ∧
            x < z.get (broadcastIndex zs idx ++ [m - 1])) l
          (List.zipWith (fun idx us => us.map (inverseCdf (population z nz zs ns m idx))) l us) := by
      intro l
      induction l with
      | nil => intro us _ h; cases h; exact List.Forall₂.nil
      | cons k l ih =>
        intro us hm h
        rw [List.map_cons] at h
        cases h with
        | @cons _ u _ us' h1 h2 =>
          refine List.Forall₂.cons ⟨by simp [h1.1], ?_⟩
            (ih us' (fun i hi => hm i (List.mem_cons_of_mem _ hi)) h2)
          intro x hx
          obtain ⟨v, hv, rfl⟩ := List.mem_map.1 hx
          have hkm := hm k (by simp)
          have hm0 := hmne k hkm
          obtain ⟨m', rfl⟩ := Nat.exists_eq_succ_of_ne_zero hm0
          exact inverse_cdf_range (hdist k hkm) (h1.2 v hv).1 (h1.2 v hv).2
            (a := (_, nz.get (broadcastIndex ns k ++ [0])))
            (b := (_, nz.get (broadcastIndex ns k ++ [m'])))
            (by simp [population, List.head?_range]) (by simp [population, List.getLast?_range])
    exact key _ _ (fun i h => h) hst

/-- **C61.** Counts and distributions whose leading shapes do not match raise `ValueError`. -/
theorem redshifts_from_nz_mismatch {σ : Type} (uniform : σ → ℕ → List ℝ × σ)
    (junk : ℕ → ℝ) (s : σ) (count : NdArray ℕ) (z nz : NdArray ℝ) {zs ns : List ℕ} {m m' : ℕ}
    (hz : z.shape = zs ++ [m]) (hnz : nz.shape = ns ++ [m'])
    (hd : ¬ ∃ dims, IsBroadcast [count.shape, zs, ns] dims) :
    ∃ r, redshiftsFromNz uniform junk s count z nz = .error (.value r) := by
  have hlead : [((count.map fun n : ℕ => (n : ℝ)), 0), (z, 1), (nz, 1)].map lead =
      [count.shape, zs, ns] := by
    simp [lead, hz, hnz, NdArray.map]
  obtain ⟨r, hr⟩ := (broadcast_leading_axes_spec
    [((count.map fun n : ℕ => (n : ℝ)), 0), (z, 1), (nz, 1)] (by simp [hz, hnz])).2
    (by rw [hlead]; exact hd)
  refine ⟨r, ?_⟩
  unfold redshiftsFromNz
  rw [hr]
  rfl

/-- **C61.** Redshifts and distributions of different lengths raise `ValueError` if there is a
population, unless the distributions have two values. -/
theorem redshifts_from_nz_lengths {σ : Type} (uniform : σ → ℕ → List ℝ × σ)
    (junk : ℕ → ℝ) (s : σ) (count : NdArray ℕ) (z nz : NdArray ℝ) {zs ns : List ℕ} {m m' : ℕ}
    (hz : z.shape = zs ++ [m]) (hnz : nz.shape = ns ++ [m']) {dims : List ℕ}
    (hd : IsBroadcast [count.shape, zs, ns] dims) (hne : indices dims ≠ []) (hm : m ≠ m')
    (hm' : m' ≠ 2) : ∃ r, redshiftsFromNz uniform junk s count z nz = .error (.value r) := by
  have hlead : [((count.map fun n : ℕ => (n : ℝ)), 0), (z, 1), (nz, 1)].map lead =
      [count.shape, zs, ns] := by
    simp [lead, hz, hnz, NdArray.map]
  have htr : [((count.map fun n : ℕ => (n : ℝ)), 0), (z, 1), (nz, 1)].map trail =
      [[], [m], [m']] := by
    simp [trail, hz, hnz, NdArray.map]
  have hbc := (broadcastLeadingAxes_ok
    (args := [((count.map fun n : ℕ => (n : ℝ)), 0), (z, 1), (nz, 1)])
    (by simp [hz, hnz]) (by rw [hlead]; exact hd)).1
  simp only [List.map_cons, List.map_nil, List.cons.injEq, and_true] at htr
  obtain ⟨t1, t2, t3⟩ := htr
  simp only [List.map_cons, List.map_nil] at hbc
  rw [t1, t2, t3, List.append_nil] at hbc
  obtain ⟨k, ks, hk⟩ := List.exists_cons_of_ne_nil hne
  have hki : k ∈ indices dims := by rw [hk]; simp
  have hlz : zs.length ≤ dims.length := hd.1 zs (by simp)
  have hln : ns.length ≤ dims.length := hd.1 ns (by simp)
  unfold redshiftsFromNz
  rw [hbc]
  simp only [bind, Except.bind]
  rw [hk, nzLoop, slice1_broadcast hz hlz hki, slice1_broadcast hnz hln hki]
  simp only [bind, Except.bind]
  obtain ⟨r, hr⟩ := (draw_nz_lengths uniform s
    ⌊(count.map fun n : ℕ => (n : ℝ)).get (broadcastIndex (count.map fun n : ℕ => (n : ℝ)).shape k)⌋₊
    ((List.range m).map fun j => z.get (broadcastIndex zs k ++ [j]))
    ((List.range m').map fun j => nz.get (broadcastIndex ns k ++ [j]))).1
      (by simpa using hm) (by simpa using hm')
  rw [hr]
  exact ⟨r, rfl⟩

/-- **C61.** `redshifts` samples the window function: it returns as many redshifts as all requests
together, all of them inside the range of the window, for every shape of the request. -/
theorem redshifts_spec {σ : Type} {uniform : σ → ℕ → List ℝ × σ} (hu : UniformLaw uniform)
    (junk : ℕ → ℝ) (s : σ) (n : NdArray ℕ) {w : List (ℝ × ℝ)} (hw : IsDistribution w)
    {a b : ℝ × ℝ} (ha : w.head? = some a) (hb : w.getLast? = some b) :
    ∃ r s', redshifts uniform junk s n w = .ok (r, s') ∧ r.length = n.ravel.sum ∧
      (∀ x ∈ r, a.1 ≤ x ∧ x < b.1) ∧
      r = ((streams uniform s n.ravel).1.flatten).map (inverseCdf w) := by
  set z : NdArray ℝ := ⟨[w.length], fun i => (w[i.headD 0]?.getD (0, 0)).1⟩ with hz
  set nz : NdArray ℝ := ⟨[w.length], fun i => (w[i.headD 0]?.getD (0, 0)).2⟩ with hnz
  have hpop : ∀ idx, population z nz [] [] w.length idx = w := by
    intro idx
    refine List.ext_getElem (by simp [population]) fun i h1 h2 => ?_
    simp [population, broadcastIndex_nil, hz, hnz, h2]
  have hd : IsBroadcast [n.shape, [], []] n.shape := by
    refine ⟨by simp, fun t ht j k hk => ?_, fun j k hk => ⟨_, by simp, hk⟩⟩
    simp only [List.mem_cons, List.not_mem_nil, or_false] at ht
    rcases ht with rfl | rfl | rfl
    · exact .inr hk
    · simp at hk
    · simp at hk
  obtain ⟨runs, us, s', h1, h2, h3, h4⟩ := redshifts_from_nz_spec hu junk s n z nz
    (zs := []) (ns := []) (m := w.length) rfl rfl hd (fun idx _ => by rw [hpop]; exact hw)
  have hbi : (indices n.shape).map (fun idx => n.get (broadcastIndex n.shape idx)) = n.ravel :=
    List.map_congr_left fun idx hi => by rw [broadcastIndex_self hi]
  rw [hbi] at h2
  simp only [hpop] at h3
  have hlen : (indices n.shape).length = us.length := by
    have := congrArg (fun p => p.1.length) h2
    simp only [streams_length, ravel, List.length_map] at this
    exact this.symm
  have hruns : runs = us.map fun us => us.map (inverseCdf w) := by
    rw [h3]
    clear h1 h2 h3 h4
    generalize indices n.shape = l at hlen
    induction l generalizing us with
    | nil => simp at hlen; simp [List.eq_nil_of_length_eq_zero hlen.symm]
    | cons k l ih =>
      rcases us with _ | ⟨u, us⟩
      · simp at hlen
      · simpa using ih us (by simpa using hlen)
  have hus : us = (streams uniform s n.ravel).1 := congrArg Prod.fst h2
  have hr : runs.flatten = ((streams uniform s n.ravel).1.flatten).map (inverseCdf w) := by
    rw [hruns, hus, List.map_flatten]
  have hst := streams_mem hu s n.ravel
  refine ⟨runs.flatten, s', h1, ?_, ?_, hr⟩
  · rw [hr, List.length_map]
    generalize n.ravel = cs at hst ⊢
    generalize (streams uniform s cs).1 = vs at hst ⊢
    induction hst with
    | nil => rfl
    | cons h _ ih => simp [ih, h.1]
  · intro x hx
    rw [hr] at hx
    obtain ⟨u, hu', rfl⟩ := List.mem_map.1 hx
    have : 0 ≤ u ∧ u < 1 := by
      obtain ⟨l, hl, hul⟩ := List.mem_flatten.1 hu'
      generalize n.ravel = cs at hst hl
      generalize (streams uniform s cs).1 = vs at hst hl
      induction hst with
      | nil => simp at hl
      | cons h _ ih =>
        rcases List.mem_cons.1 hl with rfl | hl
        · exact h.2 u hul
        · exact ih hl
    exact inverse_cdf_range hw this.1 this.2 ha hb

/-- Concrete case: a generator that always returns 1/2 obeys the law, and counts of shape `(2, 1)`
together with three distributions have the common shape `(2, 3)`. -/
example : UniformLaw (fun (_ : Unit) n => (List.replicate n (1 / 2 : ℝ), ())) ∧
    IsBroadcast [[2, 1], [], [3]] [2, 3] ∧ IsDistribution [(0, 1), (1, 1), (2, 0)] := by
  refine ⟨fun s n => ⟨by simp, fun u hu => ?_⟩, ((broadcastAll_spec _).1 _).1 (by rfl), ?_⟩
  · rw [(List.mem_replicate.1 hu).2]; norm_num
  · refine ⟨?_, ?_, ?_⟩
    · simp
    · simp
    · norm_num [trapezoid]

end Glass.Galaxies
