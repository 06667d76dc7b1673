import Verif.Shells.Partition
import Verif.Shells.ShellProps
import Verif.Common.NdLemmas
import Verif.Algorithm.NnlsProps

/-!
# Lemmas about the partition problem
-/

namespace Glass.Shells

open Glass Glass.Num Glass.NdArray Matrix

/-! ## Shapes -/

theorem flatIndex_append : ∀ {s t i j : List ℕ}, i.length = s.length →
    flatIndex (s ++ t) (i ++ j) = flatIndex s i * t.prod + flatIndex t j
  | [], t, [], j, _ => by simp [flatIndex]
  | d :: s, t, a :: i, j, h => by
    simp only [List.cons_append, flatIndex, List.prod_append]
    rw [flatIndex_append (by simpa using h)]
    ring

theorem flatIndex_snoc {s i : List ℕ} {m j : ℕ} (h : i.length = s.length) :
    flatIndex (s ++ [m]) (i ++ [j]) = flatIndex s i * m + j := by
  rw [flatIndex_append h]; simp [flatIndex]

theorem mem_indices_snoc {s i : List ℕ} {m j : ℕ} (hi : i ∈ indices s) (hj : j < m) :
    i ++ [j] ∈ indices (s ++ [m]) :=
  mem_indices_append.2 ⟨i, hi, [j], by simp [mem_indices, hj], rfl⟩

theorem unflat_snoc {s i : List ℕ} {m j : ℕ} (hi : i ∈ indices s) (hj : j < m) :
    unflatIndex (s ++ [m]) (flatIndex s i * m + j) = i ++ [j] := by
  rw [← flatIndex_snoc (mem_indices_length hi), unflatIndex_flatIndex (mem_indices_snoc hi hj)]

theorem unflat_two {p m r j : ℕ} (hr : r < p) (hj : j < m) :
    unflatIndex [p, m] (r * m + j) = [r, j] := by
  have := unflat_snoc (s := [p]) (i := [r]) (m := m) (j := j) (by simp [mem_indices, hr]) hj
  simpa [flatIndex] using this

/-- The solutions of `lstsqRows`: shape and entries. -/
theorem lstsqRows_spec (lstsq : Lstsq) {m k : ℕ} (a : Matrix (Fin k) (Fin m) ℝ) {b : NdArray ℝ}
    {dims : List ℕ} (hb : b.shape = dims ++ [m]) :
    ∃ x, lstsqRows lstsq m k a b = .ok x ∧ x.shape = k :: dims ∧
      ∀ (i : List ℕ) (j : Fin k), i ∈ indices dims →
        x.get (j.val :: i) = lstsq m k aᵀ (rowOf m b i) j := by
  have hd : b.shape.dropLast = dims := by rw [hb]; simp
  unfold lstsqRows
  simp only [hd, bind, Except.bind]
  rw [show b.reshape [dims.prod, m] = .ok ⟨[dims.prod, m], fun i =>
    b.get (unflatIndex b.shape (flatIndex [dims.prod, m] i))⟩ from by
      rw [NdArray.reshape, if_pos]
      simp [size, hb]]
  simp only
  rw [NdArray.reshape, if_pos (by simp [size])]
  refine ⟨_, rfl, ?_, ?_⟩
  · simp [Arrays.lastToFirst]
  · intro i j hi
    have hlen := mem_indices_length hi
    have hr := (indices_flatIndex hi).2
    simp only [Arrays.lastToFirst, List.append_eq_nil_iff, List.cons_ne_self, and_false, if_false,
      List.tail_cons, List.head?_cons, Option.toList_some]
    rw [flatIndex_snoc hlen, unflat_two hr j.2]
    simp only [Fin.is_lt, dif_pos]
    congr 1
    funext c
    simp only [rowOf, List.singleton_append]
    congr 1
    have : flatIndex [dims.prod, m] [flatIndex dims i, c.val] = flatIndex dims i * m + c.val := by
      simp [flatIndex]
    rw [this, hb, unflat_snoc hi c.2]

theorem nnlsAll_spec {k : ℕ} {run : List ℕ → Option (Except Err ((Fin k → ℝ) × Bool))} :
    ∀ {is : List (List ℕ)} {xs : List (Fin k → ℝ)}, nnlsAll run is = some (.ok xs) →
      List.Forall₂ (fun i x => ∃ s, run i = some (.ok (x, s))) is xs
  | [], xs, h => by
    simp only [nnlsAll, Option.some.injEq, Except.ok.injEq] at h
    subst h; exact List.Forall₂.nil
  | i :: is, xs, h => by
    rw [nnlsAll] at h
    rcases hr : run i with _ | (e | ⟨x, s⟩)
    · rw [hr] at h; simp at h
    · rw [hr] at h; simp at h
    · rw [hr] at h
      rcases ha : nnlsAll run is with _ | (e | ys)
      · rw [ha] at h; simp at h
      · rw [ha] at h; simp at h
      · rw [ha] at h
        simp only [Option.some.injEq, Except.ok.injEq] at h
        subst h
        exact List.Forall₂.cons ⟨s, hr⟩ (nnlsAll_spec ha)

/-- The solutions of `nnlsRows`: shape and entries. -/
theorem nnlsRows_spec (qr : Qr) (solve : Algorithm.Solver) (fuel : ℕ) {m k : ℕ}
    (a : Matrix (Fin k) (Fin m) ℝ) {b x : NdArray ℝ} {dims : List ℕ} (hb : b.shape = dims ++ [m])
    (h : nnlsRows qr solve fuel m k a b = some (.ok x)) :
    x.shape = k :: dims ∧ ∀ i ∈ indices dims, ∃ s,
      Algorithm.nnlsRun solve fuel (qr m k aᵀ).2
        (fun p => ∑ j, (qr m k aᵀ).1 j p * rowOf m b i j) 0 none =
          some (.ok (fun j => x.get (j.val :: i), s)) := by
  have hd : b.shape.dropLast = dims := by rw [hb]; simp
  unfold nnlsRows at h
  simp only [hd] at h
  rcases ha : nnlsAll (fun i => Algorithm.nnlsRun solve fuel (qr m k aᵀ).2
      (fun p => ∑ j, (qr m k aᵀ).1 j p * rowOf m b i j) 0 none) (indices dims) with _ | (e | xs)
  · rw [ha] at h; simp at h
  · rw [ha] at h; simp at h
  rw [ha] at h
  simp only [Option.some.injEq] at h
  have hF := nnlsAll_spec ha
  have hl : xs.length = dims.prod := by rw [← hF.length_eq, indices_length]
  simp only [Arrays.firstToLast, List.singleton_append] at h
  rw [NdArray.reshape, if_pos (by simp [size, hl])] at h
  simp only [Except.ok.injEq] at h
  subst h
  refine ⟨rfl, fun i hi => ?_⟩
  obtain ⟨h1, h2⟩ := indices_flatIndex hi
  have hr : flatIndex dims i < xs.length := by rw [hl]; exact h2
  have hr' : flatIndex dims i < (indices dims).length := by rw [indices_length]; exact h2
  obtain ⟨s, hs⟩ := List.forall₂_iff_get.1 hF |>.2 (flatIndex dims i) hr' hr
  refine ⟨s, ?_⟩
  have hi' : (indices dims).get ⟨flatIndex dims i, hr'⟩ = i := by
    rw [List.getElem?_eq_getElem hr'] at h1
    simpa using h1
  rw [hi'] at hs
  rw [hs]
  congr 3
  funext j
  have e : flatIndex (k :: dims) (j.val :: i) = j.val * xs.length + flatIndex dims i := by
    simp [flatIndex, hl]
  have := unflat_two (p := k) (m := xs.length) j.2 hr
  simp only [e, this]
  simp [hr]

/-! ## The grid -/

theorem unionGrid_mem {z : List ℝ} : ∀ {shells : List RadialWindow} {t : ℝ},
    t ∈ unionGrid z shells ↔ t ∈ z ∨ ∃ w ∈ shells, t ∈ w.za := by
  intro shells
  induction shells generalizing z with
  | nil => simp [unionGrid]
  | cons w ws ih =>
    intro t
    have := ih (z := union1d z w.za) (t := t)
    simp only [unionGrid, List.foldl_cons] at this ⊢
    rw [this, mem_union1d]
    simp [or_assoc]

theorem unionGrid_sorted {z : List ℝ} : ∀ {shells : List RadialWindow}, shells ≠ [] →
    (unionGrid z shells).Pairwise (· < ·) := by
  intro shells
  induction shells generalizing z with
  | nil => simp
  | cons w ws ih =>
    intro _
    rcases ws with _ | ⟨w', ws⟩
    · exact union1d_sorted _ _
    · exact ih (z := union1d z w.za) (by simp)

end Glass.Shells
