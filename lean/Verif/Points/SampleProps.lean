import Mathlib.Analysis.SpecialFunctions.Pow.Real
import Mathlib.Analysis.Real.Pi.Bounds
import Verif.Points.SampleLemmas

/-! # Properties C38–C44: sampling of positions -/

namespace Glass.Points

/-! ## C38 and C39: the batches of one population -/

theorem repeatPix_sorted (n : List ℕ) (s e : ℕ) : (repeatPix n s e).Pairwise (· ≤ ·) := by
  unfold repeatPix
  rw [List.pairwise_flatMap]
  refine ⟨fun i _ => List.pairwise_replicate.2 (Or.inr le_rfl), ?_⟩
  refine List.Pairwise.imp ?_ (List.pairwise_lt_range' (s := s) (n := e - s) (step := 1))
  intro a b hab x hx y hy
  rw [List.eq_of_mem_replicate hx, List.eq_of_mem_replicate hy]
  exact hab.le

theorem repeatPix_count (n : List ℕ) (i : ℕ) :
    (repeatPix n 0 n.length).count i = n[i]?.getD 0 := by
  unfold repeatPix
  rw [List.count_flatMap]
  by_cases hi : i < n.length
  · have h1 : ∀ L : List ℕ, (L.map (List.count i ∘ fun k : ℕ => List.replicate n[k]! k)).sum =
        L.count i * n[i] := by
      intro L
      induction L with
      | nil => simp
      | cons a L ih =>
        rw [List.map_cons, List.sum_cons, ih]
        by_cases ha : a = i
        · subst ha
          simp only [Function.comp, List.count_replicate_self, List.count_cons_self,
            getElem!_pos n a hi]
          ring
        · simp [List.count_replicate, ha]
    rw [h1]
    have h2 : (List.range' 0 (n.length - 0)).count i = 1 := by
      refine List.count_eq_one_of_mem List.nodup_range' ?_
      simp; omega
    rw [h2, List.getElem?_eq_getElem hi]; simp
  · rw [List.getElem?_eq_none (by omega)]
    simp only [Option.getD_none]
    rw [List.sum_eq_zero]
    intro x hx
    obtain ⟨a, ha, rfl⟩ := List.mem_map.1 hx
    have : a < n.length := by simp at ha; omega
    simp [List.count_replicate]
    omega

/-- **C38** for one population: no exception is raised (in particular the loop ends and the final
check passes), the emitted pixels are in increasing order, and each pixel is emitted exactly as
often as it has points. -/
theorem batches_exact (n : List ℕ) (batch : ℤ) :
    (sampleGalaxiesPerPixel n batch).2 = none ∧
    ((sampleGalaxiesPerPixel n batch).1.flatten).Pairwise (· ≤ ·) ∧
    ∀ i, ((sampleGalaxiesPerPixel n batch).1.flatten).count i = n[i]?.getD 0 := by
  have key : (sampleGalaxiesPerPixel n batch).2 = none ∧
      (sampleGalaxiesPerPixel n batch).1.flatten = repeatPix n 0 n.length := by
    by_cases h0 : n.sum = 0
    · have h1 := repeatPix_length n 0 n.length (Nat.zero_le _) le_rfl
      rw [pre_length, h0] at h1
      have h2 : repeatPix n 0 n.length = [] := List.eq_nil_iff_length_eq_zero.2 (by omega)
      simp [sampleGalaxiesPerPixel, h0, h2]
    · obtain ⟨bs, stop, e1, e2, e3, -⟩ := pixelLoop_spec n batch 1000 (by norm_num)
        (2 * n.length) 0 0 0 (n.sum : ℕ) le_rfl (Nat.zero_le _) rfl (by simp [pre_zero])
        (by omega) (Or.inl rfl) (fun _ => rfl) (by omega) (by omega)
      have h1 : ¬ ((n.sum : ℕ) : ℤ) = 0 := by exact_mod_cast h0
      simp only [sampleGalaxiesPerPixel, if_neg h1, e1, e2, if_true, e3, and_self]
  refine ⟨key.1, ?_, ?_⟩
  · rw [key.2]; exact repeatPix_sorted _ _ _
  · rw [key.2]; exact repeatPix_count n

/-- **C39**: a batch has at most `batch` points, or all its points are in one pixel. -/
theorem batch_size (n : List ℕ) (batch : ℤ) (b : List ℕ)
    (hb : b ∈ (sampleGalaxiesPerPixel n batch).1) :
    (b.length : ℤ) ≤ batch ∨ ∃ i, ∀ j ∈ b, j = i := by
  by_cases h0 : n.sum = 0
  · simp [sampleGalaxiesPerPixel, h0] at hb
  · obtain ⟨bs, stop, e1, e2, -, e4⟩ := pixelLoop_spec n batch 1000 (by norm_num)
      (2 * n.length) 0 0 0 (n.sum : ℕ) le_rfl (Nat.zero_le _) rfl (by simp [pre_zero])
      (by omega) (Or.inl rfl) (fun _ => rfl) (by omega) (by omega)
    have h1 : ¬ ((n.sum : ℕ) : ℤ) = 0 := by exact_mod_cast h0
    simp only [sampleGalaxiesPerPixel, if_neg h1, e1, e2, if_true] at hb
    obtain ⟨s, e, -, -, hbe, hlen | rfl⟩ := e4 b hb
    · exact Or.inl hlen
    · right
      refine ⟨s, fun j hj => ?_⟩
      rw [hbe] at hj
      simp [repeatPix] at hj
      exact hj.2

/-- Batches of two for a map with five points. -/
example : (sampleGalaxiesPerPixel [1, 0, 3, 1] 2).1.flatten = [0, 2, 2, 2, 3] ∧
    (sampleGalaxiesPerPixel [1, 0, 3, 1] 2).1 = [[0], [2, 2, 2], [3]] := by decide

/-! ## C38 and C41: the whole generator -/

/-- The Poisson draws made for the populations one after the other: `means k` is the map of means
given to the generator for population `k`. -/
inductive Drawn {σ ι : Type} (poisson : σ → List ℝ → List ℕ × σ) (means : ι → List ℝ) :
    List ι → σ → List (ι × List ℕ) → Prop
  | nil (s : σ) : Drawn poisson means [] s []
  | cons {k : ι} {ks : List ι} {s : σ} {ds : List (ι × List ℕ)}
      (h : Drawn poisson means ks (poisson s (means k)).2 ds) :
      Drawn poisson means (k :: ks) s ((k, (poisson s (means k)).1) :: ds)

/-- The density contrast of population `k`: the map itself, or the biased map. -/
def contrast {ι : Type} (delta : ι → List ℝ) (bias : Option (ι → ℝ))
    (biasModel : List ℝ → ℝ → List ℝ) (k : ι) : List ℝ :=
  match bias with
  | none => delta k
  | some b => biasModel (delta k) (b k)

/-- The expected number of points in pixel `i` for population `k`. -/
noncomputable def expected {ι : Type} (ngal : ι → ℝ) (delta : ι → List ℝ)
    (bias : Option (ι → ℝ)) (vis : Option (ι → List ℝ)) (biasModel : List ℝ → ℝ → List ℝ)
    (removeMonopole : Bool) (k : ι) (i : ℕ) : ℝ :=
  let c := contrast delta bias biasModel k
  let v := match vis with
    | none => 1
    | some v => (v k)[i]!
  ngal k * (4 * Real.pi * (180 * 60 / Real.pi) ^ 2 / c.length) *
    (1 + c[i]! - if removeMonopole then c.sum / c.length else 0) * v

/-- The solid angle of the sphere in square arcminutes. -/
theorem arcmin2Sphere_area : arcmin2Sphere = 4 * Real.pi * (180 * 60 / Real.pi) ^ 2 := by
  have := Real.pi_ne_zero
  unfold arcmin2Sphere
  norm_num
  field_simp
  norm_num

/-- The map of means handed to the Poisson generator. -/
noncomputable def meansOf {ι : Type} (ngal : ι → ℝ) (delta : ι → List ℝ)
    (bias : Option (ι → ℝ)) (vis : Option (ι → List ℝ)) (biasModel : List ℝ → ℝ → List ℝ)
    (removeMonopole : Bool) (k : ι) : List ℝ :=
  (applyVisibility (computeExpectedCount
    (computeDensityContrast (bias.map fun b => b k) biasModel (delta k)) (ngal k) removeMonopole)
    (vis.map fun v => v k)).map (max · 0)

theorem computeExpectedCount_length (n : List ℝ) (ngal : ℝ) (r : Bool) :
    (computeExpectedCount n ngal r).length = n.length := by
  cases r <;> simp [computeExpectedCount]

theorem computeExpectedCount_get (n : List ℝ) (ngal : ℝ) (r : Bool) (i : ℕ)
    (h : i < (computeExpectedCount n ngal r).length) (h' : i < n.length) :
    (computeExpectedCount n ngal r)[i] =
      ((n[i] - if r then n.sum / n.length else 0) + 1) * (arcmin2Sphere / n.length * ngal) := by
  cases r <;> simp [computeExpectedCount, mean]

/-- **The means are the expected numbers, cut off at zero.** -/
theorem meansOf_spec {ι : Type} (ngal : ι → ℝ) (delta : ι → List ℝ)
    (bias : Option (ι → ℝ)) (vis : Option (ι → List ℝ)) (biasModel : List ℝ → ℝ → List ℝ)
    (removeMonopole : Bool) (k : ι)
    (hvis : ∀ v, vis = some v → (v k).length = (contrast delta bias biasModel k).length) :
    meansOf ngal delta bias vis biasModel removeMonopole k =
      (List.range (contrast delta bias biasModel k).length).map fun i : ℕ =>
        max (expected ngal delta bias vis biasModel removeMonopole k i) 0 := by
  have hc : computeDensityContrast (bias.map fun b => b k) biasModel (delta k) =
      contrast delta bias biasModel k := by
    cases bias <;> rfl
  unfold meansOf
  rw [hc]
  set c := contrast delta bias biasModel k with hcdef
  have hlen : (applyVisibility (computeExpectedCount c (ngal k) removeMonopole)
      (vis.map fun v => v k)).length = c.length := by
    cases vis with
    | none => simp [applyVisibility, computeExpectedCount_length]
    | some v => simp [applyVisibility, computeExpectedCount_length, hvis v rfl]
  refine List.ext_getElem (by simp [hlen]) ?_
  intro i h1 h2
  have hi : i < c.length := by simpa using h2
  rw [List.getElem_map, List.getElem_map, List.getElem_range]
  congr 1
  unfold expected
  rw [← hcdef, ← arcmin2Sphere_area]
  dsimp only
  rw [getElem!_pos c i hi]
  cases vis with
  | none =>
    simp only [applyVisibility, Option.map_none]
    rw [computeExpectedCount_get _ _ _ _ _ hi]
    ring
  | some v =>
    have hv : i < (v k).length := by rw [hvis v rfl]; exact hi
    simp only [applyVisibility, Option.map_some, List.getElem_zipWith]
    rw [computeExpectedCount_get _ _ _ _ _ hi, getElem!_pos (v k) i hv]
    ring

/-- **C38** for `positions_from_delta`: the generator ends without an exception; its batches come
in one group per population, in order; and the batches of a group report only points of that
population, as many as they contain, and together contain every pixel exactly as often as
the Poisson draw for that population says, in increasing order. -/
theorem positions_exact {σ ι : Type} [DecidableEq ι] (poisson : σ → List ℝ → List ℕ × σ)
    (ngal : ι → ℝ) (delta : ι → List ℝ) (bias : Option (ι → ℝ)) (vis : Option (ι → List ℝ))
    (biasModel : List ℝ → ℝ → List ℝ) (removeMonopole : Bool) (batch : ℤ)
    (hvis : ∀ v k, vis = some v → (v k).length = (contrast delta bias biasModel k).length)
    (pops : List ι) (s : σ) :
    (positionsFromDelta poisson ngal delta bias vis biasModel removeMonopole batch pops s).2
      = none ∧
    ∃ (ds : List (ι × List ℕ)) (groups : List (List (Batch ι))),
      Drawn poisson (fun k => (List.range (contrast delta bias biasModel k).length).map
        fun i : ℕ => max (expected ngal delta bias vis biasModel removeMonopole k i) 0)
        pops s ds ∧
      (positionsFromDelta poisson ngal delta bias vis biasModel removeMonopole batch pops s).1
        = groups.flatten ∧
      List.Forall₂ (fun (d : ι × List ℕ) (g : List (Batch ι)) =>
        (∀ b ∈ g, b.pop = d.1 ∧ b.count d.1 = b.ipix.length ∧ ∀ j, j ≠ d.1 → b.count j = 0) ∧
        (g.flatMap Batch.ipix).Pairwise (· ≤ ·) ∧
        ∀ i, (g.flatMap Batch.ipix).count i = d.2[i]?.getD 0) ds groups := by
  have hm : ∀ k, meansOf ngal delta bias vis biasModel removeMonopole k = _ := fun k =>
    meansOf_spec ngal delta bias vis biasModel removeMonopole k fun v hv => hvis v k hv
  simp only [← hm]
  induction pops generalizing s with
  | nil => exact ⟨rfl, [], [], Drawn.nil s, rfl, List.Forall₂.nil⟩
  | cons k ks ih =>
    set n := (poisson s (meansOf ngal delta bias vis biasModel removeMonopole k)).1 with hn
    set s' := (poisson s (meansOf ngal delta bias vis biasModel removeMonopole k)).2 with hs'
    obtain ⟨h1, ds, groups, h2, h3, h4⟩ := ih s'
    obtain ⟨b1, b2, b3⟩ := batches_exact n batch
    let g : List (Batch ι) := (sampleGalaxiesPerPixel n batch).1.map fun ipix =>
      { pop := k, ipix := ipix, count := fun j => ipix.length * if j = k then 1 else 0 }
    have hg : g.flatMap Batch.ipix = (sampleGalaxiesPerPixel n batch).1.flatten := by
      simp only [g, List.flatMap_def, List.map_map]
      congr 1
      exact List.map_id _
    have hrun : positionsFromDelta poisson ngal delta bias vis biasModel removeMonopole batch
        (k :: ks) s = (g ++ (positionsFromDelta poisson ngal delta bias vis biasModel
          removeMonopole batch ks s').1, (positionsFromDelta poisson ngal delta bias vis biasModel
          removeMonopole batch ks s').2) := by
      rw [positionsFromDelta]
      simp only [sampleNumberGalaxies]
      change (match (sampleGalaxiesPerPixel n batch).2 with
        | some e => _
        | none => _) = _
      rw [b1]
      rfl
    rw [hrun]
    refine ⟨h1, (k, n) :: ds, g :: groups, Drawn.cons h2, by rw [List.flatten_cons, h3],
      List.Forall₂.cons ⟨?_, ?_, ?_⟩ h4⟩
    · intro b hb
      obtain ⟨ipix, -, rfl⟩ := List.mem_map.1 hb
      exact ⟨rfl, by simp, fun j hj => by simp [hj]⟩
    · rw [hg]; exact b2
    · intro i; rw [hg]; exact b3 i

/-- **C39** for `positions_from_delta`. -/
theorem positions_batch_size {σ ι : Type} [DecidableEq ι] (poisson : σ → List ℝ → List ℕ × σ)
    (ngal : ι → ℝ) (delta : ι → List ℝ) (bias : Option (ι → ℝ)) (vis : Option (ι → List ℝ))
    (biasModel : List ℝ → ℝ → List ℝ) (removeMonopole : Bool) (batch : ℤ)
    (pops : List ι) (s : σ) (b : Batch ι)
    (hb : b ∈ (positionsFromDelta poisson ngal delta bias vis biasModel removeMonopole batch
      pops s).1) :
    (b.ipix.length : ℤ) ≤ batch ∨ ∃ i, ∀ j ∈ b.ipix, j = i := by
  induction pops generalizing s with
  | nil => simp [positionsFromDelta] at hb
  | cons k ks ih =>
    rw [positionsFromDelta] at hb
    simp only [sampleNumberGalaxies] at hb
    split at hb
    · obtain ⟨ipix, hi, rfl⟩ := List.mem_map.1 hb
      exact batch_size _ _ _ hi
    · rcases List.mem_append.1 hb with hb | hb
      · obtain ⟨ipix, hi, rfl⟩ := List.mem_map.1 hb
        exact batch_size _ _ _ hi
      · exact ih _ hb

/-- The reported counts add up to the numbers drawn. -/
theorem positions_count_total {σ ι : Type} [DecidableEq ι] (poisson : σ → List ℝ → List ℕ × σ)
    (ngal : ι → ℝ) (delta : ι → List ℝ) (bias : Option (ι → ℝ)) (vis : Option (ι → List ℝ))
    (biasModel : List ℝ → ℝ → List ℝ) (removeMonopole : Bool) (batch : ℤ)
    (hvis : ∀ v k, vis = some v → (v k).length = (contrast delta bias biasModel k).length)
    (pops : List ι) (s : σ) :
    ∃ ds : List (ι × List ℕ),
      Drawn poisson (fun k => (List.range (contrast delta bias biasModel k).length).map
        fun i : ℕ => max (expected ngal delta bias vis biasModel removeMonopole k i) 0)
        pops s ds ∧
      ∀ j, ((positionsFromDelta poisson ngal delta bias vis biasModel removeMonopole batch
        pops s).1.map fun b => b.count j).sum =
          (ds.map fun d => if d.1 = j then d.2.sum else 0).sum := by
  obtain ⟨-, ds, groups, h1, h2, h3⟩ := positions_exact poisson ngal delta bias vis biasModel
    removeMonopole batch hvis pops s
  refine ⟨ds, h1, fun j => ?_⟩
  rw [h2]
  clear h1 h2
  induction h3 with
  | nil => rfl
  | @cons d g ds groups hd _ ih =>
    rw [List.flatten_cons, List.map_append, List.sum_append, ih, List.map_cons, List.sum_cons]
    congr 1
    obtain ⟨g1, g2, g3⟩ := hd
    by_cases hj : d.1 = j
    · subst hj
      rw [if_pos rfl]
      have e1 : (g.map fun b => b.count d.1).sum = (g.flatMap Batch.ipix).length := by
        rw [List.length_flatMap]
        congr 1
        exact List.map_congr_left fun b hb => (g1 b hb).2.1
      rw [e1]
      have e2 : (g.flatMap Batch.ipix).Perm (repeatPix d.2 0 d.2.length) := by
        rw [List.perm_iff_count]
        intro i
        rw [g3, repeatPix_count]
      have e3 := repeatPix_length d.2 0 d.2.length (Nat.zero_le _) le_rfl
      rw [pre_length, pre_zero] at e3
      rw [e2.length_eq]; omega
    · rw [if_neg hj, List.sum_eq_zero]
      intro x hx
      obtain ⟨b, hb, rfl⟩ := List.mem_map.1 hx
      exact (g1 b hb).2.2 j (Ne.symm hj)

/-- A Poisson generator returns one number per mean, and zero for mean zero. -/
def PoissonLaw {σ : Type} (poisson : σ → List ℝ → List ℕ × σ) : Prop :=
  ∀ s m, (poisson s m).1.length = m.length ∧
    ∀ i : ℕ, ∀ h : i < (poisson s m).1.length, ∀ h' : i < m.length, m[i] = 0 →
      (poisson s m).1[i] = 0

theorem drawn_zero {σ ι : Type} (poisson : σ → List ℝ → List ℕ × σ) (hp : PoissonLaw poisson)
    (means : ι → List ℝ) (pops : List ι) (s : σ) (ds : List (ι × List ℕ))
    (h : Drawn poisson means pops s ds) :
    ∀ d ∈ ds, d.2.length = (means d.1).length ∧
      ∀ i : ℕ, ∀ h : i < d.2.length, ∀ h' : i < (means d.1).length, (means d.1)[i] = 0 →
        d.2[i] = 0 := by
  induction h with
  | nil s => simp
  | @cons k ks s ds _ ih =>
    intro d hd
    rcases List.mem_cons.1 hd with rfl | hd
    · exact hp s (means k)
    · exact ih d hd

/-- **C41**: a point is only emitted in a pixel of the map with positive expected number; in
particular not where the visibility is zero. -/
theorem no_invisible_points {σ ι : Type} [DecidableEq ι] (poisson : σ → List ℝ → List ℕ × σ)
    (hp : PoissonLaw poisson)
    (ngal : ι → ℝ) (delta : ι → List ℝ) (bias : Option (ι → ℝ)) (vis : Option (ι → List ℝ))
    (biasModel : List ℝ → ℝ → List ℝ) (removeMonopole : Bool) (batch : ℤ)
    (hvis : ∀ v k, vis = some v → (v k).length = (contrast delta bias biasModel k).length)
    (pops : List ι) (s : σ) (b : Batch ι)
    (hb : b ∈ (positionsFromDelta poisson ngal delta bias vis biasModel removeMonopole batch
      pops s).1) (i : ℕ) (hi : i ∈ b.ipix) :
    i < (contrast delta bias biasModel b.pop).length ∧
    0 < expected ngal delta bias vis biasModel removeMonopole b.pop i ∧
    ∀ v, vis = some v → (v b.pop)[i]! ≠ 0 := by
  obtain ⟨-, ds, groups, h1, h2, h3⟩ := positions_exact poisson ngal delta bias vis biasModel
    removeMonopole batch hvis pops s
  have hz := drawn_zero poisson hp _ pops s ds h1
  rw [h2] at hb
  obtain ⟨g, hg, hbg⟩ := List.mem_flatten.1 hb
  obtain ⟨d, hd, hdg⟩ : ∃ d ∈ ds, (∀ b ∈ g, b.pop = d.1 ∧ b.count d.1 = b.ipix.length ∧
        ∀ j, j ≠ d.1 → b.count j = 0) ∧
        (g.flatMap Batch.ipix).Pairwise (· ≤ ·) ∧
        ∀ i, (g.flatMap Batch.ipix).count i = d.2[i]?.getD 0 := by
    clear h1 h2 hz hb
    induction h3 with
    | nil => simp at hg
    | @cons d g' ds groups hd _ ih =>
      rcases List.mem_cons.1 hg with rfl | hg
      · exact ⟨d, List.mem_cons_self, hd⟩
      · obtain ⟨d', h, h'⟩ := ih hg
        exact ⟨d', List.mem_cons_of_mem _ h, h'⟩
  obtain ⟨g1, -, g3⟩ := hdg
  obtain ⟨z1, z2⟩ := hz d hd
  have hpos : 0 < (g.flatMap Batch.ipix).count i :=
    List.count_pos_iff.2 (List.mem_flatMap.2 ⟨b, hbg, hi⟩)
  rw [g3] at hpos
  have hid : i < d.2.length := by
    by_contra h
    rw [List.getElem?_eq_none (by omega)] at hpos
    simp at hpos
  rw [List.getElem?_eq_getElem hid, Option.getD_some] at hpos
  rw [(g1 b hbg).1]
  have hic : i < (contrast delta bias biasModel d.1).length := by
    rw [z1] at hid; simpa using hid
  have he : 0 < expected ngal delta bias vis biasModel removeMonopole d.1 i := by
    by_contra h
    have := z2 i hid (by simpa using hic) (by
      rw [List.getElem_map, List.getElem_range]
      exact max_eq_right (not_lt.1 h))
    omega
  refine ⟨hic, he, fun v hv h0 => ?_⟩
  have : expected ngal delta bias vis biasModel removeMonopole d.1 i = 0 := by
    unfold expected
    rw [hv]
    simp only [h0, mul_zero]
  linarith

/-- The law can hold, and points are emitted: a generator rounding the mean down. -/
example : PoissonLaw (σ := Unit) (fun s m => (m.map fun x => ⌊x⌋₊, s)) := by
  intro s m
  refine ⟨by simp, fun i h h' h0 => ?_⟩
  simp only [List.getElem_map]
  rw [h0]; simp

/-! ## C40: the monopole -/

/-- **C40**: the total expected number of points. -/
theorem expected_count_total (n : List ℝ) (ngal : ℝ) (hn : n ≠ []) :
    (computeExpectedCount n ngal true).sum =
      ngal * (4 * Real.pi * (180 * 60 / Real.pi) ^ 2) ∧
    (computeExpectedCount n ngal false).sum =
      ngal * (4 * Real.pi * (180 * 60 / Real.pi) ^ 2) * (1 + n.sum / n.length) := by
  rw [← arcmin2Sphere_area]
  have hl : (n.length : ℝ) ≠ 0 := by
    have : n.length ≠ 0 := by simpa using hn
    exact_mod_cast this
  have h1 : ∀ (l : List ℝ) (a : ℝ), (l.map (· - a)).sum = l.sum - l.length * a := by
    intro l a
    induction l with
    | nil => simp
    | cons x l ih => simp [ih]; ring
  have h2 : ∀ (l : List ℝ), (l.map (· + 1)).sum = l.sum + l.length := by
    intro l
    induction l with
    | nil => simp
    | cons x l ih =>
      rw [List.map_cons, List.sum_cons, ih, List.sum_cons, List.length_cons]; push_cast; ring
  have h3 : ∀ (l : List ℝ) (a : ℝ), (l.map (· * a)).sum = l.sum * a := fun l a =>
    List.sum_map_mul_right l (fun x => x) a |>.trans (by simp)
  constructor
  · simp only [computeExpectedCount, if_true]
    rw [h3, h2, h1]
    simp only [List.length_map, mean]
    field_simp
    ring
  · simp only [computeExpectedCount, Bool.false_eq_true, if_false]
    rw [h3, h2]
    simp only [List.length_map]
    field_simp
    ring

/-- **C40** for the whole computation: the sum of the means over the pixels, before visibility and
clipping, for every bias model. -/
theorem expected_total {ι : Type} (ngal : ι → ℝ) (delta : ι → List ℝ) (bias : Option (ι → ℝ))
    (biasModel : List ℝ → ℝ → List ℝ) (k : ι)
    (hne : contrast delta bias biasModel k ≠ []) :
    ((List.range (contrast delta bias biasModel k).length).map fun i : ℕ =>
      expected ngal delta bias none biasModel true k i).sum =
        ngal k * (4 * Real.pi * (180 * 60 / Real.pi) ^ 2) := by
  rw [← (expected_count_total (contrast delta bias biasModel k) (ngal k) hne).1]
  congr 1
  set c := contrast delta bias biasModel k with hc
  refine List.ext_getElem (by simp [computeExpectedCount_length]) ?_
  intro i h1 h2
  have hi : i < c.length := by simpa using h1
  rw [List.getElem_map, List.getElem_range, computeExpectedCount_get _ _ _ _ _ hi]
  unfold expected
  rw [← hc, ← arcmin2Sphere_area]
  dsimp only
  rw [getElem!_pos c i hi]
  simp only [if_true]
  ring

example : (computeExpectedCount [1, 3] 2 true).sum =
    2 * (4 * Real.pi * (180 * 60 / Real.pi) ^ 2) :=
  (expected_count_total [1, 3] 2 (by simp)).1

/-! ## C42: bias models -/

/-- **C42**: the log-linear bias.  The program gives a number only above minus one; see C150 for the
values at and below it. -/
theorem loglinear_bias_log (delta b : ℝ) (_h : -1 < delta) :
    Real.log (1 + loglinearBias delta b) = b * Real.log (1 + delta) ∧
    -1 < loglinearBias delta b := by
  have h : 1 + loglinearBias delta b = Real.exp (Real.log (1 + delta) * b) := by
    unfold loglinearBias; ring
  refine ⟨by rw [h, Real.log_exp]; ring, ?_⟩
  have := Real.exp_pos (Real.log (1 + delta) * b)
  linarith

theorem loglinear_bias_pow (delta b : ℝ) (h : -1 < delta) :
    1 + loglinearBias delta b = (1 + delta) ^ b := by
  rw [Real.rpow_def_of_pos (by linarith)]
  unfold loglinearBias; ring

theorem loglinear_bias_one (delta : ℝ) (h : -1 < delta) : loglinearBias delta 1 = delta := by
  have := loglinear_bias_pow delta 1 h
  rw [Real.rpow_one] at this; linarith

theorem loglinear_bias_comp (delta b c : ℝ) (hd : -1 < delta) :
    loglinearBias (loglinearBias delta b) c = loglinearBias delta (b * c) := by
  have h := (loglinear_bias_log delta b hd).1
  have h1 : loglinearBias (loglinearBias delta b) c =
      Real.exp (Real.log (1 + loglinearBias delta b) * c) - 1 := rfl
  rw [h1, h]
  unfold loglinearBias
  ring_nf

/-- The linear bias model multiplies the contrast by the bias. -/
theorem linear_bias_linear (delta delta' b c : ℝ) :
    linearBias (delta + delta') b = linearBias delta b + linearBias delta' b ∧
    linearBias (linearBias delta b) c = linearBias delta (b * c) ∧ linearBias delta 1 = delta ∧
    linearBias 1 b = b := by
  unfold linearBias
  exact ⟨by ring, by ring, by ring, by ring⟩

/-- The linear bias is not bounded below by minus one; the log-linear bias is. -/
example : linearBias (-1 / 2) 4 = -2 ∧ -1 < loglinearBias (-1 / 2) 4 :=
  ⟨by norm_num [linearBias], (loglinear_bias_log _ _ (by norm_num)).2⟩

/-! ## C43: weights -/

/-- **C43** without bias: normalised. -/
theorem position_weights_normalised (d : List ℝ) (hd : d.sum ≠ 0) :
    ∃ w, positionWeights d none = .ok w ∧ w.length = d.length ∧ w.sum = 1 ∧
      ∀ i (h : i < d.length), w[i]! = d[i] / d.sum := by
  refine ⟨_, rfl, by simp, ?_, fun i h => ?_⟩
  · simp only [div_eq_mul_inv]
    rw [List.sum_map_mul_right]
    simp [hd]
  · rw [getElem!_pos _ i (by simpa using h)]; simp

/-- **C43** with bias, for as many values of the bias as there are shells. -/
theorem position_weights_bias (d b : List ℝ) (hl : d.length = b.length) (_hd : d.sum ≠ 0) :
    ∃ w, positionWeights d (some b) = .ok w ∧ w.length = d.length ∧
      ∀ i (h : i < d.length), w[i]! = d[i] / d.sum * b[i] := by
  refine ⟨List.zipWith (· * ·) (d.map (· / d.sum)) b, ?_, by simp [hl], fun i h => ?_⟩
  · simp only [positionWeights, broadcastArrays, if_pos hl]; rfl
  · rw [getElem!_pos _ i (by simp; omega)]; simp

/-- A single value of the bias applies to all shells. -/
theorem position_weights_scalar_bias (d : List ℝ) (b : ℝ) (_hd : d.sum ≠ 0) :
    positionWeights d (some [b]) = .ok (d.map fun x => x / d.sum * b) := by
  by_cases h1 : d.length = 1
  · obtain ⟨x, rfl⟩ := List.length_eq_one_iff.1 h1
    rfl
  · have e : broadcastArrays d [b] = .ok (d, List.replicate d.length b) := by
      simp [broadcastArrays, h1]
    simp only [positionWeights, e]
    show Except.ok _ = _
    congr 1
    refine List.ext_getElem (by simp) ?_
    intro i h2 h3
    simp

/-- A density given for one shell only counts the same for all values of the bias: the density
is broadcast before it is normalised. -/
theorem position_weights_single_density (x : ℝ) (hx : x ≠ 0) (b : List ℝ) :
    positionWeights [x] (some b) = .ok (b.map fun y => y / b.length) := by
  have e : broadcastArrays [x] b = .ok (List.replicate b.length x, b) := by
    by_cases h1 : 1 = b.length
    · simp [broadcastArrays, ← h1]
    · simp [broadcastArrays, h1]
  simp only [positionWeights, e]
  show Except.ok _ = _
  congr 1
  refine List.ext_getElem (by simp) ?_
  intro i h2 h3
  have hl : (b.length : ℝ) ≠ 0 := by
    have : b.length ≠ 0 := by simp at h3; omega
    exact_mod_cast this
  simp
  field_simp

/-- Other lengths are rejected. -/
theorem position_weights_mismatch (d b : List ℝ) (hl : d.length ≠ b.length) (h1 : d.length ≠ 1)
    (h2 : b.length ≠ 1) : ∃ e, positionWeights d (some b) = .error (.value e) := by
  refine ⟨"shape mismatch", ?_⟩
  simp only [positionWeights, broadcastArrays, hl, h1, h2, if_false]
  rfl

/-- **C43**: the units of the density do not matter. -/
theorem position_weights_units (d : List ℝ) (b : Option (List ℝ)) (c : ℝ) (hc : c ≠ 0)
    (_hd : d.sum ≠ 0) :
    positionWeights (d.map (c * ·)) b = positionWeights d b := by
  have key : ∀ l : List ℝ, (l.map (c * ·)).map (· / (l.map (c * ·)).sum) = l.map (· / l.sum) := by
    intro l
    rw [List.sum_map_mul_left]
    simp only [List.map_map, List.map_id']
    refine List.map_congr_left fun x _ => ?_
    simp only [Function.comp]
    exact mul_div_mul_left _ _ hc
  cases b with
  | none => simp only [positionWeights]; rw [key]
  | some b =>
    by_cases h0 : d.length = b.length
    · simp only [positionWeights, broadcastArrays, List.length_map, if_pos h0]
      show Except.ok _ = Except.ok _
      dsimp only
      rw [key]
    · by_cases h1 : d.length = 1
      · obtain ⟨x, rfl⟩ := List.length_eq_one_iff.1 h1
        simp only [positionWeights, broadcastArrays, List.length_map, if_neg h0, if_pos h1]
        show Except.ok _ = Except.ok _
        dsimp only
        have := key (List.replicate b.length x)
        rw [List.map_replicate] at this
        simp only [List.map_cons, List.map_nil]
        have e1 : ([c * x] : List ℝ)[0]! = c * x := rfl
        have e2 : ([x] : List ℝ)[0]! = x := rfl
        rw [e1, e2, this]
      · by_cases h2 : b.length = 1
        · simp only [positionWeights, broadcastArrays, List.length_map, if_neg h0, if_neg h1,
            if_pos h2]
          show Except.ok _ = Except.ok _
          dsimp only
          rw [key]
        · simp only [positionWeights, broadcastArrays, List.length_map, if_neg h0, if_neg h1,
            if_neg h2]

example : positionWeights [1, 3] (some [2, 4]) = .ok [1 / 2, 3] := by
  have : positionWeights [1, 3] (some [2, 4]) =
      .ok [1 / (1 + (3 + 0)) * 2, 3 / (1 + (3 + 0)) * 4] := rfl
  rw [this]; norm_num

/-! ## C44: uniform positions -/

/-- `uniform` returns as many numbers as asked for, all in the half-open interval. -/
def UniformLaw {σ : Type} (uniform : σ → ℝ → ℝ → ℕ → List ℝ × σ) : Prop :=
  ∀ s a b size, (uniform s a b size).1.length = size ∧
    (a < b → ∀ x ∈ (uniform s a b size).1, a ≤ x ∧ x < b)

theorem degrees_arcsin (u : ℝ) : -90 ≤ degrees (Real.arcsin u) ∧ degrees (Real.arcsin u) ≤ 90 := by
  have h1 := Real.neg_pi_div_two_le_arcsin u
  have h2 := Real.arcsin_le_pi_div_two u
  have hp := Real.pi_pos
  unfold degrees
  constructor
  · rw [le_div_iff₀ hp]; nlinarith
  · rw [div_le_iff₀ hp]; nlinarith

/-- **C44**: one batch per population, in order, with the drawn number of points on the sphere,
reported only for that population. -/
theorem uniform_positions_spec {σ ι : Type} [DecidableEq ι]
    (poisson : σ → List ℝ → List ℕ × σ) (hp : PoissonLaw poisson)
    (uniform : σ → ℝ → ℝ → ℕ → List ℝ × σ) (hu : UniformLaw uniform)
    (ks : List ι) (ngal : ι → ℝ) (s : σ) :
    ∃ sizes : List ℕ,
      sizes = (poisson s (ks.map fun k =>
        4 * Real.pi * (180 * 60 / Real.pi) ^ 2 * ngal k)).1 ∧
      sizes.length = ks.length ∧
      List.Forall₂ (fun (d : ι × ℕ) (b : UniformBatch ι) =>
        b.lon.length = d.2 ∧ b.lat.length = d.2 ∧
        (∀ x ∈ b.lon, -180 ≤ x ∧ x < 180) ∧ (∀ y ∈ b.lat, -90 ≤ y ∧ y ≤ 90) ∧
        b.count d.1 = d.2 ∧ ∀ j, j ≠ d.1 → b.count j = 0)
        (ks.zip sizes) (uniformPositions poisson uniform ks ngal s) := by
  have key : ∀ (l : List (ι × ℕ)) (s : σ), List.Forall₂ (fun (d : ι × ℕ) (b : UniformBatch ι) =>
        b.lon.length = d.2 ∧ b.lat.length = d.2 ∧
        (∀ x ∈ b.lon, -180 ≤ x ∧ x < 180) ∧ (∀ y ∈ b.lat, -90 ≤ y ∧ y ≤ 90) ∧
        b.count d.1 = d.2 ∧ ∀ j, j ≠ d.1 → b.count j = 0)
        l (uniformPositions.go uniform l s) := by
    intro l
    induction l with
    | nil => intro s; exact List.Forall₂.nil
    | cons d l ih =>
      intro s
      refine List.Forall₂.cons ⟨(hu s _ _ _).1, ?_, (hu s _ _ _).2 (by norm_num), ?_, ?_, ?_⟩
        (ih _)
      · simp only [List.length_map]; exact (hu _ _ _ _).1
      · intro y hy
        obtain ⟨u, -, rfl⟩ := List.mem_map.1 hy
        exact degrees_arcsin u
      · simp
      · intro j hj; simp [hj]
  refine ⟨_, rfl, by rw [(hp _ _).1]; simp, ?_⟩
  rw [← arcmin2Sphere_area]
  exact key _ _

/-- **C44**, uniformity: the latitude is at most `β` exactly if the uniform number is at most
`sin β`, so equal areas have equal probability. -/
theorem uniform_latitude (u β : ℝ) (hu : -1 ≤ u ∧ u ≤ 1) (hβ : -90 ≤ β ∧ β ≤ 90) :
    degrees (Real.arcsin u) ≤ β ↔ u ≤ Real.sin (radians β) := by
  have hp := Real.pi_pos
  have hr : -(Real.pi / 2) ≤ radians β ∧ radians β ≤ Real.pi / 2 := by
    unfold radians
    constructor
    · rw [le_div_iff₀ (by norm_num)]; nlinarith
    · rw [div_le_iff₀ (by norm_num)]; nlinarith
  rw [← Real.arcsin_le_iff_le_sin ⟨hu.1, hu.2⟩ ⟨hr.1, hr.2⟩]
  unfold degrees radians
  rw [div_le_iff₀ hp, le_div_iff₀ (by norm_num)]

/-- The laws can hold: midpoints of the interval. -/
example : UniformLaw (σ := Unit) (fun s a b size => (List.replicate size ((a + b) / 2), s)) := by
  intro s a b size
  refine ⟨by simp, fun hab x hx => ?_⟩
  rw [List.eq_of_mem_replicate hx]
  constructor <;> linarith

end Glass.Points
