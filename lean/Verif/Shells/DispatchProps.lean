import Verif.Shells.PartitionProps

/-!
# Choice of the partition method, and restriction with leading axes (C83)
-/

namespace Glass.Shells

open Glass Glass.Num Glass.NdArray Matrix

/-- The only names of the module that begin with `partition_`. -/
theorem names_prefix {method : String} (h : "partition_" ++ method ∈ shellsNames) :
    method = "lstsq" ∨ method = "nnls" ∨ method = "restrict" := by
  have h1 : ∀ n ∈ shellsNames, n.toList.take 10 = "partition_".toList →
      n = "partition_lstsq" ∨ n = "partition_nnls" ∨ n = "partition_restrict" := by decide
  have h2 := h1 _ h (by simp)
  have hinj : ∀ m : String, "partition_" ++ method = "partition_" ++ m → method = m := by
    intro m hm
    have := congrArg String.toList hm
    simp only [String.toList_append, List.append_cancel_left_eq] at this
    exact String.toList_inj.1 this
  rcases h2 with h2 | h2 | h2
  · exact Or.inl (hinj "lstsq" h2)
  · exact Or.inr (Or.inl (hinj "nnls" h2))
  · exact Or.inr (Or.inr (hinj "restrict" h2))

/-- **C83.** Three methods are accepted, non-negative least squares is the default, and every other
method raises `ValueError` with its name, whatever the other arguments are. -/
theorem partition_dispatch (lstsq : Lstsq) (qr : Qr) (solve : Algorithm.Solver) (fuel : ℕ)
    (z : List ℝ) (fz : NdArray ℝ) (shells : List RadialWindow) :
    let p := partition lstsq qr solve fuel z fz shells
    p (some "lstsq") = some (partitionLstsq lstsq z fz shells (1 / 100)) ∧
    p (some "nnls") = partitionNnls qr solve fuel z fz shells (1 / 100) ∧
    p (some "restrict") = some ((partitionRestrictNd z fz shells).map some) ∧
    p none = p (some "nnls") ∧
    ∀ method, method ≠ "lstsq" → method ≠ "nnls" → method ≠ "restrict" →
      p (some method) = some (.error (.value ("invalid method: " ++ method))) := by
  have e : (0.01 : ℝ) = 1 / 100 := by norm_num
  refine ⟨?_, ?_, ?_, rfl, ?_⟩
  · rw [partition]
    simp only [Option.getD_some]
    rw [if_pos (by decide), if_pos (by decide), e]
  · rw [partition]
    simp only [Option.getD_some]
    rw [if_pos (by decide), if_neg (by decide), if_pos (by decide), e]
  · rw [partition]
    simp only [Option.getD_some]
    rw [if_pos (by decide), if_neg (by decide), if_neg (by decide), if_pos (by decide)]
  · intro method h1 h2 h3
    rw [partition]
    simp only [Option.getD_some]
    rw [if_neg]
    intro h
    rcases names_prefix h with h | h | h
    · exact h1 h
    · exact h2 h
    · exact h3 h

/-- Restriction of a function with leading axes is restriction of each slice. -/
theorem restrictNd_slices {z : List ℝ} {fz : NdArray ℝ} {w : RadialWindow} {zr : List ℝ}
    {fr : NdArray ℝ} (h : restrictNd z fz w = .ok (zr, fr)) :
    ∃ dims, fz.shape = dims ++ [z.length] ∧ 0 ∉ dims ∧ fr.shape = dims ++ [zr.length] ∧
      ∀ i ∈ indices dims, restrict (z.zip (slice fz z.length i)) w =
        .ok (zr.zip (slice fr zr.length i)) := by
  unfold restrictNd at h
  rcases h1 : w.za.head? with _ | za0
  · rw [h1] at h; simp at h
  rcases h2 : w.za.getLast? with _ | za1
  · rw [h1, h2] at h; simp at h
  rw [h1, h2] at h
  simp only at h
  split at h
  · simp at h
  rename_i f hn
  simp only [Except.ok.injEq, Prod.mk.injEq] at h
  obtain ⟨hz, hf⟩ := h
  obtain ⟨dims, hd, h0, hne, hs, hv⟩ := ndinterp_ok hn
  subst hf
  refine ⟨dims, hd, h0, by rw [hs, hz], fun i hi => ?_⟩
  have hfst : (z.zip (slice fz z.length i)).map Prod.fst = z := by
    rw [List.map_fst_zip]
    simp [slice]
  have hnil : z.zip (slice fz z.length i) ≠ [] := by
    intro hh
    rw [hh] at hfst
    exact hne hfst.symm
  unfold restrict
  rw [h1, h2]
  simp only [hfst, hnil, if_false]
  rw [hz]
  rw [hz] at hv
  congr 1
  apply List.ext_getElem
  · simp [slice]
  · intro k hk1 hk2
    have hk : k < zr.length := by simpa using hk1
    simp only [List.getElem_map, List.getElem_zip, slice, List.getElem_range,
      List.getLast?_append, List.getLast?_singleton, Option.some_or, Option.getD_some]
    rw [hv i hi k hk, getD_lt hk]
    rfl

/-- **C83**, restriction with leading axes: every slice of the result is the partition of the slice
of the function. -/
theorem partition_restrict_slices {z : List ℝ} {fz r : NdArray ℝ} {shells : List RadialWindow}
    (h : partitionRestrictNd z fz shells = .ok r) :
    ∃ dims, fz.shape = dims ++ [z.length] ∧ r.shape = shells.length :: dims ∧
      ∀ i ∈ indices dims, partitionRestrict (z.zip (slice fz z.length i)) shells =
        .ok ((List.range shells.length).map fun j => r.get (j :: i)) := by
  unfold partitionRestrictNd at h
  split at h
  · simp at h
  rename_i parts hp
  -- the parts
  have key : ∀ (ws : List RadialWindow) (ps : List (NdArray ℝ)),
      (ws.mapM fun w => (restrictNd z fz w).map fun r => trapezoidLast r.1 r.2) = .ok ps →
      ps.length = ws.length ∧ ∀ dims, fz.shape = dims ++ [z.length] →
        (∀ p ∈ ps, p.shape = dims) ∧ ∀ i ∈ indices dims,
        restrictParts (z.zip (slice fz z.length i)) ws = .ok (ps.map fun p => p.get i) := by
    intro ws
    induction ws with
    | nil =>
      intro ps hps
      simp [pure, Except.pure] at hps
      subst hps
      exact ⟨rfl, fun dims hd => ⟨by simp, fun i hi => rfl⟩⟩
    | cons w ws ih =>
      intro ps hps
      rw [List.mapM_cons] at hps
      rcases hr : restrictNd z fz w with e | ⟨zr, fr⟩
      · simp [hr, Except.map, bind, Except.bind] at hps
      rcases hm : (ws.mapM fun w => (restrictNd z fz w).map fun r => trapezoidLast r.1 r.2)
        with e | qs
      · rw [hr, hm] at hps; simp [Except.map, bind, Except.bind] at hps
      rw [hr, hm] at hps
      simp only [Except.map, bind, Except.bind, pure, Except.pure, Except.ok.injEq] at hps
      subst hps
      obtain ⟨hl, ih'⟩ := ih qs hm
      refine ⟨by simp [hl], fun dims hd => ?_⟩
      obtain ⟨hsh, hv⟩ := ih' dims hd
      obtain ⟨dims', hd', -, hfr, hs⟩ := restrictNd_slices hr
      rw [hd] at hd'
      obtain ⟨rfl, -⟩ := List.append_inj' hd' (by simp)
      refine ⟨?_, fun i hi => ?_⟩
      · intro p hp
        rcases List.mem_cons.1 hp with rfl | hp
        · simp [trapezoidLast, hfr]
        · exact hsh p hp
      · have h3 := hv i hi
        unfold restrictParts at h3 ⊢
        rw [List.mapM_cons, hs i hi]
        simp only [Except.map, bind, Except.bind] at h3 ⊢
        rw [h3]
        rfl
  obtain ⟨hl, hk⟩ := key shells parts hp
  rcases parts with _ | ⟨p, ps⟩
  · simp [stack] at h
  rcases shells with _ | ⟨w, ws⟩
  · simp at hl
  -- the shape
  rw [List.mapM_cons] at hp
  rcases hr : restrictNd z fz w with e | ⟨zr, fr⟩
  · simp [hr, Except.map, bind, Except.bind] at hp
  obtain ⟨dims, hd, -, -, -⟩ := restrictNd_slices hr
  obtain ⟨hsh, hv⟩ := hk dims hd
  simp only [stack, Except.ok.injEq] at h
  subst h
  refine ⟨dims, hd, ?_, fun i hi => ?_⟩
  · rw [hsh p (by simp)]
    simp only [List.length_cons] at hl ⊢
    rw [hl]
  · rw [partitionRestrict, hv i hi]
    simp only [List.map_cons]
    congr 1
    apply List.ext_getElem
    · simp at hl ⊢; exact hl
    · intro k h1 h2
      have h3 : k < (p :: ps).length := by simpa using h1
      simp only [List.getElem_map, List.getElem_range]
      rw [List.getElem?_eq_getElem h3]
      rcases k with _ | k
      · rfl
      · simp

/-- The failures of the restriction with leading axes. -/
theorem restrictNd_error_iff (z : List ℝ) (fz : NdArray ℝ) (w : RadialWindow) :
    (∃ e, restrictNd z fz w = .error e) ↔
      w.knots = [] ∨ z = [] ∨ ¬ ∃ dims, fz.shape = dims ++ [z.length] ∧ 0 ∉ dims := by
  unfold restrictNd
  rcases hk : w.knots with _ | ⟨k, ks⟩
  · simp [RadialWindow.za, hk]
  obtain ⟨l, hl⟩ : ∃ l, w.za.getLast? = some l :=
    ⟨_, List.getLast?_eq_getLast_of_ne_nil (by simp [RadialWindow.za, hk])⟩
  have hh : w.za.head? = some k.1 := by simp [RadialWindow.za, hk]
  rw [hh, hl]
  simp only [reduceCtorEq, false_or]
  split
  · rename_i e hn
    simp only [Except.error.injEq, exists_eq', true_iff]
    unfold ndinterp at hn
    rcases List.eq_nil_or_concat fz.shape with hs | ⟨dims, n, hs⟩
    · right; rw [hs]; simp
    · rw [List.concat_eq_append] at hs
      rw [hs] at hn
      simp only [List.getLast?_append, List.getLast?_singleton, Option.some_or,
        List.dropLast_concat] at hn
      by_cases hz : z = []
      · exact Or.inl hz
      right
      rintro ⟨d, hd, h0⟩
      rw [hs] at hd
      obtain ⟨rfl, hn'⟩ := List.append_inj' hd (by simp)
      simp only [List.cons.injEq, and_true] at hn'
      subst hn'
      rw [if_neg h0, if_neg (by simp [hz]), if_neg (by simp)] at hn
      simp at hn
  · rename_i f hn
    obtain ⟨dims, hd, h0, hne, -⟩ := ndinterp_ok hn
    simp only [reduceCtorEq, exists_false, false_iff]
    rintro (h | h)
    · exact hne h
    · exact h ⟨dims, hd, h0⟩

/-- **C83**, the failures of `partition_restrict`. -/
theorem partition_restrict_error_iff (z : List ℝ) (fz : NdArray ℝ) (shells : List RadialWindow) :
    (∃ e, partitionRestrictNd z fz shells = .error e) ↔
      shells = [] ∨ (∃ w ∈ shells, w.knots = []) ∨ z = [] ∨
        ¬ ∃ dims, fz.shape = dims ++ [z.length] ∧ 0 ∉ dims := by
  have key : ∀ ws : List RadialWindow,
      (∃ e, (ws.mapM fun w => (restrictNd z fz w).map fun r => trapezoidLast r.1 r.2) = .error e) ↔
        ∃ w ∈ ws, ∃ e, restrictNd z fz w = .error e := by
    intro ws
    induction ws with
    | nil => simp [pure, Except.pure]
    | cons w ws ih =>
      rw [List.mapM_cons]
      rcases hr : restrictNd z fz w with e | r
      · constructor
        · intro _; exact ⟨w, by simp, e, hr⟩
        · intro _; exact ⟨e, rfl⟩
      · rcases hm : (ws.mapM fun w => (restrictNd z fz w).map fun r => trapezoidLast r.1 r.2)
          with e | qs
        · constructor
          · intro _
            obtain ⟨v, hv, h⟩ := ih.1 ⟨e, hm⟩
            exact ⟨v, by simp [hv], h⟩
          · intro _; rw [hm]; exact ⟨e, rfl⟩
        · constructor
          · rintro ⟨e, he⟩
            rw [hm] at he
            simp [Except.map, bind, Except.bind, pure, Except.pure] at he
          · rintro ⟨v, hv, e, h⟩
            rcases List.mem_cons.1 hv with rfl | hv
            · rw [hr] at h; simp at h
            · obtain ⟨e', he'⟩ := ih.2 ⟨v, hv, e, h⟩
              rw [hm] at he'; simp at he'
  unfold partitionRestrictNd
  rcases hm : (shells.mapM fun w => (restrictNd z fz w).map fun r => trapezoidLast r.1 r.2)
    with e | parts
  · obtain ⟨w, hw, h⟩ := (key shells).1 ⟨e, hm⟩
    rw [hm]
    simp only [Except.error.injEq, exists_eq', true_iff]
    rcases (restrictNd_error_iff z fz w).1 h with h | h
    · exact Or.inr (Or.inl ⟨w, hw, h⟩)
    · exact Or.inr (Or.inr h)
  · have hno : ∀ w ∈ shells, ¬ ∃ e, restrictNd z fz w = .error e := by
      intro w hw h
      obtain ⟨e, he⟩ := (key shells).2 ⟨w, hw, h⟩
      rw [hm] at he; simp at he
    rw [hm]
    rcases shells with _ | ⟨w, ws⟩
    · simp [pure, Except.pure] at hm
      subst hm
      simp [stack]
    · rcases parts with _ | ⟨p, ps⟩
      · exfalso
        rw [List.mapM_cons] at hm
        rcases hr : restrictNd z fz w with e | r
        · exact hno w (by simp) ⟨e, hr⟩
        rcases hq : (ws.mapM fun w => (restrictNd z fz w).map fun r => trapezoidLast r.1 r.2)
          with e | qs
        · rw [hr, hq] at hm; simp [Except.map, bind, Except.bind] at hm
        · rw [hr, hq] at hm; simp [Except.map, bind, Except.bind, pure, Except.pure] at hm
      · simp only [stack, reduceCtorEq, exists_false, false_iff]
        rintro (h | ⟨v, hv, h⟩ | h)
        · simp at h
        · exact hno v hv ((restrictNd_error_iff z fz v).2 (Or.inl h))
        · exact hno w (by simp) ((restrictNd_error_iff z fz w).2 (Or.inr h))

/-- Concrete case: two slices and two windows are accepted. -/
example : ∃ r, partitionRestrictNd [0, 1, 2] ⟨[2, 3], fun _ => 1⟩
    [⟨[(0, 1), (1, 1)], 1 / 2⟩, ⟨[(1, 1), (2, 1)], 3 / 2⟩] = .ok r ∧ r.shape = [2, 2] := by
  rcases h : partitionRestrictNd [0, 1, 2] ⟨[2, 3], fun _ => 1⟩
    [⟨[(0, 1), (1, 1)], 1 / 2⟩, ⟨[(1, 1), (2, 1)], 3 / 2⟩] with e | r
  · have := (partition_restrict_error_iff _ _ _).1 ⟨e, h⟩
    simp at this
    exact absurd (this [2] rfl) (by simp)
  · obtain ⟨dims, hd, hs, -⟩ := partition_restrict_slices h
    have : dims ++ [3] = [2] ++ [3] := by simpa using hd.symm
    obtain ⟨rfl, -⟩ := List.append_inj' this rfl
    exact ⟨r, rfl, hs⟩

end Glass.Shells
