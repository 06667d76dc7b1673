import Verif.Arrays.BroadcastProps
import Verif.Galaxies.NzProps
import Verif.Points.Populations
import Verif.Points.SampleProps

/-! # Property C99: positions for several populations -/

namespace Glass.Points

open Glass.Arrays Glass.Galaxies NdArray

/-! ## Specification -/

/-- The shapes of the extra dimensions of the inputs: all axes of the number density and of the
bias, and all axes but the last (the pixels) of the map and of the visibility. -/
def extraDims (ngal delta : NdArray ℝ) (bias vis : Option (NdArray ℝ)) : List (List ℕ) :=
  [ngal.shape, delta.shape.dropLast] ++ bias.toList.map NdArray.shape ++
    vis.toList.map fun v => v.shape.dropLast

/-- The map of a population: the pixels along the last axis. -/
def pixelRow (a : NdArray ℝ) (npix : ℕ) (k : List ℕ) : List ℝ :=
  (List.range npix).map fun j => a.get (k ++ [j])

/-- An optional input is expanded to an array of the given shape, or missing in both. -/
def Expanded (shape : List ℕ) : Option (NdArray ℝ) → Option (NdArray ℝ) → Prop
  | none, none => True
  | some a, some b => b.shape = shape ∧ IsStretched a b
  | _, _ => False

/-! ## Lemmas -/

theorem lead_snoc {a : NdArray ℝ} {s : List ℕ} {m : ℕ} (h : a.shape = s ++ [m]) :
    lead (a, 1) = a.shape.dropLast ∧ trail (a, 1) = [m] := by
  constructor
  · simp [lead, h]
  · simp [trail, h]

theorem lead_zero (a : NdArray ℝ) : lead (a, 0) = a.shape ∧ trail (a, 0) = [] := by
  constructor <;> simp [lead, trail]

theorem stretched_of_fits {a : NdArray ℝ} {d : List ℕ} (hl : a.shape.length ≤ d.length)
    (h : ∀ j n : ℕ, a.shape.reverse[j]? = some n → n = 1 ∨ d.reverse[j]? = some n) :
    IsStretched a ⟨d, fun i => a.get (broadcastIndex a.shape i)⟩ := fun _ hi =>
  ⟨_, (broadcastIndex_spec hl h hi).1, rfl, (broadcastIndex_spec hl h hi).2⟩

theorem fits_snoc {s d : List ℕ} {m n : ℕ} (hm : m = n ∨ m = 1) (hl : s.length ≤ d.length)
    (h : ∀ j n : ℕ, s.reverse[j]? = some n → n = 1 ∨ d.reverse[j]? = some n) :
    (s ++ [m]).length ≤ (d ++ [n]).length ∧
    ∀ j k : ℕ, (s ++ [m]).reverse[j]? = some k → k = 1 ∨ (d ++ [n]).reverse[j]? = some k := by
  refine ⟨by simpa using hl, ?_⟩
  intro j k hj
  rcases j with _ | j
  · simp at hj ⊢
    omega
  · simp only [List.reverse_append, List.reverse_cons, List.reverse_nil, List.nil_append,
      List.singleton_append, List.getElem?_cons_succ] at hj ⊢
    exact h j k hj

theorem broadcastIndex_last_one {s k : List ℕ} (hl : s.length ≤ k.length) (j : ℕ) :
    broadcastIndex (s ++ [1]) (k ++ [j]) = broadcastIndex (s ++ [1]) (k ++ [0]) := by
  have : ∀ j : ℕ, (k ++ [j]).drop ((k ++ [j]).length - (s ++ [1]).length) =
      k.drop (k.length - s.length) ++ [j] := fun j => by
    rw [List.drop_append_of_le_length (by simp)]
    congr 2
    simp
  unfold broadcastIndex
  rw [this, this, List.zipWith_append (by simp; omega), List.zipWith_append (by simp; omega)]
  simp

theorem slice1_row (dims : List ℕ) (m : ℕ) (g : List ℕ → ℝ) {k : List ℕ}
    (hk : k ∈ indices dims) :
    slice1 (⟨dims ++ [m], g⟩ : NdArray ℝ) k = .ok (pixelRow ⟨dims ++ [m], g⟩ m k) := by
  have hlen := mem_indices_length hk
  unfold slice1
  simp only
  rw [hlen, List.drop_left' rfl]
  rfl

theorem computeDensityContrast_eq (delta : List ℕ → List ℝ) (bias : Option (List ℕ → ℝ))
    (biasModel : List ℝ → ℝ → List ℝ) (k : List ℕ) :
    computeDensityContrast (bias.map fun b => b k) biasModel (delta k) =
      contrast delta bias biasModel k := by
  cases bias <;> rfl

theorem contrast_length {delta : List ℕ → List ℝ} {bias : Option (List ℕ → ℝ)}
    {biasModel : List ℝ → ℝ → List ℝ} (hb : ∀ d b, (biasModel d b).length = d.length)
    (k : List ℕ) : (contrast delta bias biasModel k).length = (delta k).length := by
  cases bias <;> simp [contrast, hb]

theorem applyVisibility_length {n : List ℝ} {v : Option (List ℝ)}
    (h : ∀ w, v = some w → w.length = n.length) : (applyVisibility n v).length = n.length := by
  cases v with
  | none => rfl
  | some w => simp [applyVisibility, h w rfl]

/-- The loop over the populations is the loop of `positionsFromDelta` over the maps of the
populations. -/
theorem populationLoop_refines {σ : Type} {poisson : σ → List ℝ → List ℕ × σ}
    (hp : ∀ s l, (poisson s l).1.length = l.length) {validNpix : ℕ → Bool} {inp : Inputs}
    {biasModel : List ℝ → ℝ → List ℝ} {removeMonopole : Bool} {batch : ℤ} {npix : ℕ}
    (hv : validNpix npix = true) {vis : Option (List ℕ → List ℝ)}
    (hb : ∀ d b, (biasModel d b).length = d.length)
    (hl : ∀ w, vis = some w → ∀ k, (w k).length = npix) {ks : List (List ℕ)}
    (he : ∀ k ∈ ks, expectedAt inp biasModel removeMonopole k = .ok (applyVisibility
      (computeExpectedCount (computeDensityContrast (inp.bias.map fun b => b.get k) biasModel
        (pixelRow inp.delta npix k)) (inp.ngal.get k) removeMonopole) (vis.map fun v => v k)))
    (s : σ) :
    populationLoop poisson validNpix inp biasModel removeMonopole batch ks s =
      positionsFromDelta poisson inp.ngal.get (pixelRow inp.delta npix)
        (inp.bias.map NdArray.get) vis biasModel removeMonopole batch ks s := by
  induction ks generalizing s with
  | nil => rfl
  | cons k ks ih =>
    rw [populationLoop, positionsFromDelta, he k (by simp)]
    have hbias : (inp.bias.map fun b => b.get k) =
        (inp.bias.map NdArray.get).map fun b => b k := by cases inp.bias <;> rfl
    rw [hbias]
    dsimp only
    set n := applyVisibility (computeExpectedCount (computeDensityContrast
      ((inp.bias.map NdArray.get).map fun b => b k) biasModel (pixelRow inp.delta npix k))
      (inp.ngal.get k) removeMonopole) (vis.map fun v => v k) with hn
    have hlen : n.length = npix := by
      have h1 : (computeExpectedCount (computeDensityContrast
          ((inp.bias.map NdArray.get).map fun b => b k) biasModel (pixelRow inp.delta npix k))
          (inp.ngal.get k) removeMonopole).length = npix := by
        rw [computeExpectedCount_length, computeDensityContrast_eq, contrast_length hb]
        simp [pixelRow]
      rw [hn, applyVisibility_length, h1]
      intro w hw
      rw [h1]
      cases vis with
      | none => simp at hw
      | some v =>
        simp only [Option.map_some, Option.some.injEq] at hw
        rw [← hw]; exact hl v rfl k
    have hsp : samplePixels validNpix (sampleNumberGalaxies poisson s n).1 batch =
        sampleGalaxiesPerPixel (sampleNumberGalaxies poisson s n).1 batch := by
      rw [samplePixels, if_neg]
      rintro ⟨-, h⟩
      rw [sampleNumberGalaxies, hp, List.length_map, hlen, hv] at h
      exact absurd h (by simp)
    rw [hsp, ih fun k hk => he k (List.mem_cons_of_mem _ hk)]
    rfl

/-- The visibility of a population is applied pixel by pixel. -/
theorem applyVisibilityAt_ok {dims vs : List ℕ} {v : NdArray ℝ} {m npix : ℕ}
    (hs : v.shape = vs ++ [m]) (hm : m = npix ∨ m = 1) (hl : vs.length ≤ dims.length)
    {k : List ℕ} (hk : k ∈ indices dims) {n : List ℝ} (hn : n.length = npix) :
    applyVisibilityAt k n (some ⟨dims ++ [m], fun i => v.get (broadcastIndex v.shape i)⟩) =
      .ok (List.zipWith (· * ·) n
        (pixelRow ⟨dims ++ [npix], fun i => v.get (broadcastIndex v.shape i)⟩ npix k)) := by
  unfold applyVisibilityAt
  dsimp only
  rw [slice1_row dims m _ hk]
  dsimp only
  by_cases h : m = npix
  · subst h
    rw [imul, if_pos (by simp [pixelRow, hn])]
  · have hm1 : m = 1 := hm.resolve_left h
    subst hm1
    rw [imul, if_neg (by simpa [pixelRow, hn] using h), if_pos (by simp [pixelRow])]
    congr 1
    have hlen := mem_indices_length hk
    have key : ∀ j : ℕ, v.get (broadcastIndex v.shape (k ++ [j])) =
        v.get (broadcastIndex v.shape (k ++ [0])) := fun j => by
      rw [hs, broadcastIndex_last_one (by omega) j]
    refine List.ext_getElem (by simp [pixelRow, hn]) fun i h1 h2 => ?_
    simp [pixelRow, key i]

theorem fits_of_broadcast {ss : List (List ℕ)} {d s : List ℕ} (h : IsBroadcast ss d)
    (hs : s ∈ ss) : s.length ≤ d.length ∧
      ∀ j n : ℕ, s.reverse[j]? = some n → n = 1 ∨ d.reverse[j]? = some n :=
  ⟨h.1 s hs, h.2.1 s hs⟩

/-- What `_broadcast_inputs` returns. -/
theorem broadcastInputs_ok {ngal delta : NdArray ℝ} {bias vis : Option (NdArray ℝ)}
    {dims ds : List ℕ} {npix : ℕ} (hdelta : delta.shape = ds ++ [npix])
    (hvis : ∀ v, vis = some v → ∃ vs m, v.shape = vs ++ [m])
    (hd : IsBroadcast (extraDims ngal delta bias vis) dims) :
    broadcastInputs bias delta ngal vis = .ok
      { bias := bias.map fun b => ⟨dims, fun i => b.get (broadcastIndex b.shape i)⟩
        delta := ⟨dims ++ [npix], fun i => delta.get (broadcastIndex delta.shape i)⟩
        dims := dims
        ngal := ⟨dims, fun i => ngal.get (broadcastIndex ngal.shape i)⟩
        vis := vis.map fun v => ⟨dims ++ trail (v, 1),
          fun i => v.get (broadcastIndex v.shape i)⟩ } := by
  obtain ⟨dl, dt⟩ := lead_snoc hdelta
  unfold broadcastInputs
  rcases bias with _ | b <;> rcases vis with _ | v
  · have h := (broadcastLeadingAxes_ok (args := [(ngal, 0), (delta, 1)]) (dims := dims)
      (by simp [hdelta]) (by
        simpa [extraDims, dl, (lead_zero ngal).1] using hd)).1
    simp only [bind, Except.bind, h]
    simp only [unpackInputs, List.map_cons, List.map_nil,
      (lead_zero ngal).2, dt, List.append_nil, Option.map_none]
  · obtain ⟨vs, m, hv⟩ := hvis v rfl
    have h := (broadcastLeadingAxes_ok (args := [(ngal, 0), (delta, 1)] ++ [(v, 1)])
      (dims := dims) (by simp [hdelta, hv]) (by
        simpa [extraDims, dl, (lead_zero ngal).1, (lead_snoc hv).1] using hd)).1
    simp only [bind, Except.bind, h]
    simp only [unpackInputs, List.map_cons, List.map_nil, List.cons_append,
      List.nil_append, (lead_zero ngal).2, dt, List.append_nil, Option.map_none, Option.map_some]
  · have h := (broadcastLeadingAxes_ok (args := [(ngal, 0), (delta, 1)] ++ [(b, 0)])
      (dims := dims) (by simp [hdelta]) (by
        simpa [extraDims, dl, (lead_zero ngal).1, (lead_zero b).1] using hd)).1
    simp only [bind, Except.bind, h]
    simp only [unpackInputs, List.map_cons, List.map_nil, List.cons_append,
      List.nil_append, (lead_zero ngal).2, (lead_zero b).2, dt, List.append_nil,
      Option.map_none, Option.map_some]
  · obtain ⟨vs, m, hv⟩ := hvis v rfl
    have h := (broadcastLeadingAxes_ok (args := [(ngal, 0), (delta, 1)] ++ [(b, 0)] ++ [(v, 1)])
      (dims := dims) (by simp [hdelta, hv]) (by
        simpa [extraDims, dl, (lead_zero ngal).1, (lead_zero b).1, (lead_snoc hv).1]
          using hd)).1
    simp only [bind, Except.bind, h]
    simp only [unpackInputs, List.map_cons, List.map_nil, List.cons_append,
      List.nil_append, (lead_zero ngal).2, (lead_zero b).2, dt, List.append_nil,
      Option.map_some]

/-- The expected numbers of a population. -/
theorem expectedAt_ok {ngal delta : NdArray ℝ} {bias vis : Option (NdArray ℝ)}
    {biasModel : List ℝ → ℝ → List ℝ} (hb : ∀ d b, (biasModel d b).length = d.length)
    {removeMonopole : Bool} {dims : List ℕ} {npix : ℕ}
    (hvis : ∀ v, vis = some v → ∃ vs m, v.shape = vs ++ [m] ∧ (m = npix ∨ m = 1))
    (hd : IsBroadcast (extraDims ngal delta bias vis) dims) {k : List ℕ}
    (hk : k ∈ indices dims) :
    expectedAt
      { bias := bias.map fun b => ⟨dims, fun i => b.get (broadcastIndex b.shape i)⟩
        delta := ⟨dims ++ [npix], fun i => delta.get (broadcastIndex delta.shape i)⟩
        dims := dims
        ngal := ⟨dims, fun i => ngal.get (broadcastIndex ngal.shape i)⟩
        vis := vis.map fun v => ⟨dims ++ trail (v, 1),
          fun i => v.get (broadcastIndex v.shape i)⟩ } biasModel removeMonopole k =
      .ok (applyVisibility (computeExpectedCount (computeDensityContrast
        ((bias.map fun b i => b.get (broadcastIndex b.shape i)).map fun b => b k) biasModel
        (pixelRow ⟨dims ++ [npix], fun i => delta.get (broadcastIndex delta.shape i)⟩ npix k))
        (ngal.get (broadcastIndex ngal.shape k)) removeMonopole)
        ((vis.map fun v => pixelRow
          ⟨dims ++ [npix], fun i => v.get (broadcastIndex v.shape i)⟩ npix).map fun v => v k)) := by
  unfold expectedAt
  dsimp only
  rw [slice1_row dims npix _ hk]
  have hbias : ((bias.map fun b => (⟨dims, fun i => b.get (broadcastIndex b.shape i)⟩ :
      NdArray ℝ)).map fun b => b.get k) =
      (bias.map fun b i => b.get (broadcastIndex b.shape i)).map fun b => b k := by
    cases bias <;> rfl
  dsimp only
  rw [hbias]
  rcases vis with _ | v
  · rfl
  · obtain ⟨vs, m, hvs, hm⟩ := hvis v rfl
    simp only [Option.map_some, (lead_snoc hvs).2]
    rw [applyVisibilityAt_ok hvs hm _ hk]
    · rfl
    · rw [computeExpectedCount_length]
      cases bias <;> simp [computeDensityContrast, hb, pixelRow]
    · exact hd.1 vs (by simp [extraDims, hvs])

/-- The run for inputs whose extra dimensions have the common shape `dims`. -/
theorem positionsFromDeltaNd_refines {σ : Type} {poisson : σ → List ℝ → List ℕ × σ}
    (hp : ∀ s l, (poisson s l).1.length = l.length) {validNpix : ℕ → Bool}
    {ngal delta : NdArray ℝ} {bias vis : Option (NdArray ℝ)}
    {biasModel : List ℝ → ℝ → List ℝ} (hb : ∀ d b, (biasModel d b).length = d.length)
    {removeMonopole : Bool} {batch : ℤ} {dims ds : List ℕ} {npix : ℕ}
    (hdelta : delta.shape = ds ++ [npix])
    (hvis : ∀ v, vis = some v → ∃ vs m, v.shape = vs ++ [m] ∧ (m = npix ∨ m = 1))
    (hd : IsBroadcast (extraDims ngal delta bias vis) dims) (hv : validNpix npix = true) (s : σ) :
    positionsFromDeltaNd poisson validNpix ngal delta bias vis biasModel removeMonopole batch s =
      positionsFromDelta poisson (fun i => ngal.get (broadcastIndex ngal.shape i))
        (pixelRow ⟨dims ++ [npix], fun i => delta.get (broadcastIndex delta.shape i)⟩ npix)
        (bias.map fun b i => b.get (broadcastIndex b.shape i))
        (vis.map fun v => pixelRow
          ⟨dims ++ [npix], fun i => v.get (broadcastIndex v.shape i)⟩ npix)
        biasModel removeMonopole batch (indices dims) s := by
  unfold positionsFromDeltaNd
  rw [broadcastInputs_ok hdelta (fun v h => by
    obtain ⟨vs, m, h, -⟩ := hvis v h; exact ⟨vs, m, h⟩) hd]
  dsimp only
  rw [populationLoop_refines hp hv hb (vis := vis.map fun v => pixelRow
      ⟨dims ++ [npix], fun i => v.get (broadcastIndex v.shape i)⟩ npix)]
  · dsimp only
    congr 1
    cases bias <;> rfl
  · intro w hw k
    rcases vis with _ | v
    · simp at hw
    · simp only [Option.map_some, Option.some.injEq] at hw
      rw [← hw]; simp [pixelRow]
  · intro k hk
    rw [expectedAt_ok hb hvis hd hk]
    cases bias <;> rfl

theorem populationLoop_invalid {σ : Type} {poisson : σ → List ℝ → List ℕ × σ}
    (hp : ∀ s l, (poisson s l).1.length = l.length) {validNpix : ℕ → Bool} {inp : Inputs}
    {biasModel : List ℝ → ℝ → List ℝ} {removeMonopole : Bool} {batch : ℤ} {npix : ℕ}
    (hv : validNpix npix = false) {means : List ℕ → List ℝ} {ks : List (List ℕ)}
    (hm : ∀ k, (means k).length = npix)
    (he : ∀ k ∈ ks, ∃ n, expectedAt inp biasModel removeMonopole k = .ok n ∧
      n.map (max · 0) = means k) (s : σ) :
    (populationLoop poisson validNpix inp biasModel removeMonopole batch ks s).1 = [] ∧
    ∃ draws, Drawn poisson means ks s draws ∧
      ((populationLoop poisson validNpix inp biasModel removeMonopole batch ks s).2 = none ↔
        ∀ d ∈ draws, d.2.sum = 0) ∧
      ((∃ d ∈ draws, d.2.sum ≠ 0) → ∃ r,
        (populationLoop poisson validNpix inp biasModel removeMonopole batch ks s).2 =
          some (.value r)) := by
  induction ks generalizing s with
  | nil => exact ⟨rfl, [], Drawn.nil s, by simp [populationLoop], by simp⟩
  | cons k ks ih =>
    obtain ⟨n, h1, h2⟩ := he k (by simp)
    obtain ⟨i1, draws, i2, i3, i4⟩ := ih (fun k hk => he k (List.mem_cons_of_mem _ hk))
      (poisson s (means k)).2
    have hl : (poisson s (means k)).1.length = npix := by rw [hp, hm]
    by_cases h0 : (poisson s (means k)).1.sum = 0
    · have hrun : populationLoop poisson validNpix inp biasModel removeMonopole batch (k :: ks) s =
          populationLoop poisson validNpix inp biasModel removeMonopole batch ks
            (poisson s (means k)).2 := by
        rw [populationLoop, h1]
        dsimp only [sampleNumberGalaxies]
        rw [h2, samplePixels, if_neg (by simp [h0])]
        simp [sampleGalaxiesPerPixel, h0]
      rw [hrun]
      refine ⟨i1, _, Drawn.cons i2, ?_, ?_⟩
      · rw [i3]; simp [h0]
      · rintro ⟨d, hd, hne⟩
        rcases List.mem_cons.1 hd with rfl | hd
        · exact absurd h0 hne
        · exact i4 ⟨d, hd, hne⟩
    · have hrun : populationLoop poisson validNpix inp biasModel removeMonopole batch (k :: ks) s =
          ([], some (.value "invalid number of pixels")) := by
        rw [populationLoop, h1]
        dsimp only [sampleNumberGalaxies]
        rw [h2, samplePixels, if_pos ⟨h0, by rw [hl, hv]⟩]
        rfl
      rw [hrun]
      exact ⟨rfl, _, Drawn.cons i2, by simp [h0], fun _ => ⟨_, rfl⟩⟩

/-- The expanded inputs have the entries of the given ones. -/
theorem expanded_inputs {ngal delta : NdArray ℝ} {bias vis : Option (NdArray ℝ)}
    {dims ds : List ℕ} {npix : ℕ} (hdelta : delta.shape = ds ++ [npix])
    (hvis : ∀ v, vis = some v → ∃ vs m, v.shape = vs ++ [m] ∧ (m = npix ∨ m = 1))
    (hd : IsBroadcast (extraDims ngal delta bias vis) dims) :
    Expanded dims (some ngal)
      (some ⟨dims, fun i => ngal.get (broadcastIndex ngal.shape i)⟩) ∧
    Expanded (dims ++ [npix]) (some delta)
      (some ⟨dims ++ [npix], fun i => delta.get (broadcastIndex delta.shape i)⟩) ∧
    Expanded dims bias (bias.map fun b => ⟨dims, fun i => b.get (broadcastIndex b.shape i)⟩) ∧
    Expanded (dims ++ [npix]) vis
      (vis.map fun v => ⟨dims ++ [npix], fun i => v.get (broadcastIndex v.shape i)⟩) := by
  have f0 := fits_of_broadcast hd (s := ngal.shape) (by simp [extraDims])
  have f1 := fits_of_broadcast hd (s := ds) (by simp [extraDims, hdelta])
  refine ⟨⟨rfl, stretched_of_fits f0.1 f0.2⟩, ⟨rfl, ?_⟩, ?_, ?_⟩
  · have := fits_snoc (m := npix) (n := npix) (.inl rfl) f1.1 f1.2
    exact stretched_of_fits (hdelta ▸ this.1) (hdelta ▸ this.2)
  · rcases bias with _ | b
    · trivial
    · have f2 := fits_of_broadcast hd (s := b.shape) (by simp [extraDims])
      exact ⟨rfl, stretched_of_fits f2.1 f2.2⟩
  · rcases vis with _ | v
    · trivial
    · obtain ⟨vs, m, hvs, hm⟩ := hvis v rfl
      have f2 := fits_of_broadcast hd (s := vs) (by simp [extraDims, hvs])
      have := fits_snoc hm f2.1 f2.2
      exact ⟨rfl, stretched_of_fits (hvs ▸ this.1) (hvs ▸ this.2)⟩

/-! ## The property -/

/-- **C99.** Let the extra dimensions of the inputs have the broadcast shape `dims`, let the
visibility have as many pixels as the map or a single one, and let the number of pixels be valid.
Then no exception is raised.  There are expanded inputs, of shape `dims` and of shape `dims`
followed by the pixels, with entries repeated from the given ones, such that the populations are
the indices of `dims` in C order; each is drawn once, from the Poisson distribution with the mean
that its own number density, map, bias and visibility give; and the batches, in order, are those
of the populations in that order, with every point in its pixel as often as drawn, and with
an array of counts that is the number of points at the population and zero elsewhere. -/
theorem positions_populations {σ : Type} (poisson : σ → List ℝ → List ℕ × σ)
    (hp : ∀ s l, (poisson s l).1.length = l.length) (validNpix : ℕ → Bool)
    (ngal delta : NdArray ℝ) (bias vis : Option (NdArray ℝ))
    (biasModel : List ℝ → ℝ → List ℝ) (hb : ∀ d b, (biasModel d b).length = d.length)
    (removeMonopole : Bool) (batch : ℤ) (dims ds : List ℕ) (npix : ℕ)
    (hdelta : delta.shape = ds ++ [npix])
    (hvis : ∀ v, vis = some v → ∃ vs m, v.shape = vs ++ [m] ∧ (m = npix ∨ m = 1))
    (hd : IsBroadcast (extraDims ngal delta bias vis) dims) (hv : validNpix npix = true) (s : σ) :
    (positionsFromDeltaNd poisson validNpix ngal delta bias vis biasModel removeMonopole batch
      s).2 = none ∧
    ∃ (ngal' delta' : NdArray ℝ) (bias' vis' : Option (NdArray ℝ)),
      Expanded dims (some ngal) (some ngal') ∧
      Expanded (dims ++ [npix]) (some delta) (some delta') ∧
      Expanded dims bias bias' ∧ Expanded (dims ++ [npix]) vis vis' ∧
      ∃ (draws : List (List ℕ × List ℕ)) (groups : List (List (Batch (List ℕ)))),
        draws.map Prod.fst = indices dims ∧
        Drawn poisson (fun k => (List.range npix).map fun i : ℕ =>
          max (expected ngal'.get (pixelRow delta' npix) (bias'.map NdArray.get)
            (vis'.map fun v => pixelRow v npix) biasModel removeMonopole k i) 0)
          (indices dims) s draws ∧
        (positionsFromDeltaNd poisson validNpix ngal delta bias vis biasModel removeMonopole batch
          s).1 = groups.flatten ∧
        List.Forall₂ (fun (d : List ℕ × List ℕ) (g : List (Batch (List ℕ))) =>
          (∀ b ∈ g, b.pop = d.1 ∧ b.count d.1 = b.ipix.length ∧
            ∀ j, j ≠ d.1 → b.count j = 0) ∧
          (g.flatMap Batch.ipix).Pairwise (· ≤ ·) ∧
          ∀ i, (g.flatMap Batch.ipix).count i = d.2[i]?.getD 0) draws groups := by
  rw [positionsFromDeltaNd_refines hp hb hdelta hvis hd hv s]
  have hlen : ∀ k, (contrast (pixelRow ⟨dims ++ [npix], fun i => delta.get
      (broadcastIndex delta.shape i)⟩ npix) (bias.map fun b i => b.get (broadcastIndex b.shape i))
      biasModel k).length = npix := fun k => by
    rw [contrast_length hb]; simp [pixelRow]
  obtain ⟨h1, draws, groups, h2, h3, h4⟩ := positions_exact poisson
    (fun i => ngal.get (broadcastIndex ngal.shape i))
    (pixelRow ⟨dims ++ [npix], fun i => delta.get (broadcastIndex delta.shape i)⟩ npix)
    (bias.map fun b i => b.get (broadcastIndex b.shape i))
    (vis.map fun v => pixelRow
      ⟨dims ++ [npix], fun i => v.get (broadcastIndex v.shape i)⟩ npix)
    biasModel removeMonopole batch (fun v k hv => by
      rw [hlen]
      rcases vis with _ | w
      · simp at hv
      · simp only [Option.map_some, Option.some.injEq] at hv
        rw [← hv]; simp [pixelRow]) (indices dims) s
  simp only [hlen] at h2
  obtain ⟨e1, e2, e3, e4⟩ := expanded_inputs hdelta hvis hd
  refine ⟨h1, _, _, _, _, e1, e2, e3, e4, draws, groups, ?_, ?_, h3, h4⟩
  · clear h3 h4
    have : ∀ (means : List ℕ → List ℝ) (ks : List (List ℕ)) (s : σ) (ds : List (List ℕ × List ℕ)),
        Drawn poisson means ks s ds → ds.map Prod.fst = ks := by
      intro means ks s ds h
      induction h with
      | nil s => rfl
      | cons h ih => simp [ih]
    exact this _ _ _ _ h2
  · convert h2 using 6
    · cases bias <;> rfl
    · cases vis <;> rfl

/-- **C99**, incompatible shapes: `ValueError` is raised before anything is drawn or yielded. -/
theorem positions_incompatible {σ : Type} (poisson : σ → List ℝ → List ℕ × σ)
    (validNpix : ℕ → Bool) (ngal delta : NdArray ℝ) (bias vis : Option (NdArray ℝ))
    (biasModel : List ℝ → ℝ → List ℝ) (removeMonopole : Bool) (batch : ℤ)
    (hdelta : delta.shape ≠ []) (hvis : ∀ v, vis = some v → v.shape ≠ [])
    (hd : ¬ ∃ dims, IsBroadcast (extraDims ngal delta bias vis) dims) (s : σ) :
    ∃ r, positionsFromDeltaNd poisson validNpix ngal delta bias vis biasModel removeMonopole batch
      s = ([], some (.value r)) := by
  obtain ⟨ds, npix, hds⟩ : ∃ ds npix, delta.shape = ds ++ [npix] :=
    ⟨_, _, (List.dropLast_append_getLast hdelta).symm⟩
  obtain ⟨dl, -⟩ := lead_snoc hds
  have key : ∃ r, broadcastInputs bias delta ngal vis = .error (.value r) := by
    unfold broadcastInputs
    rcases bias with _ | b <;> rcases vis with _ | v
    · obtain ⟨r, h⟩ := (broadcast_leading_axes_spec [(ngal, 0), (delta, 1)]
        (by simp [hds])).2 (by simpa [extraDims, dl, (lead_zero ngal).1] using hd)
      exact ⟨r, by simp only [bind, Except.bind, h]⟩
    · obtain ⟨vs, m, hvs⟩ : ∃ vs m, v.shape = vs ++ [m] :=
        ⟨_, _, (List.dropLast_append_getLast (hvis v rfl)).symm⟩
      obtain ⟨r, h⟩ := (broadcast_leading_axes_spec ([(ngal, 0), (delta, 1)] ++ [(v, 1)])
        (by simp [hds, hvs])).2
        (by simpa [extraDims, dl, (lead_zero ngal).1, (lead_snoc hvs).1] using hd)
      exact ⟨r, by simp only [bind, Except.bind, h]⟩
    · obtain ⟨r, h⟩ := (broadcast_leading_axes_spec ([(ngal, 0), (delta, 1)] ++ [(b, 0)])
        (by simp [hds])).2
        (by simpa [extraDims, dl, (lead_zero ngal).1, (lead_zero b).1] using hd)
      exact ⟨r, by simp only [bind, Except.bind, h]⟩
    · obtain ⟨vs, m, hvs⟩ : ∃ vs m, v.shape = vs ++ [m] :=
        ⟨_, _, (List.dropLast_append_getLast (hvis v rfl)).symm⟩
      obtain ⟨r, h⟩ := (broadcast_leading_axes_spec
        ([(ngal, 0), (delta, 1)] ++ [(b, 0)] ++ [(v, 1)]) (by simp [hds, hvs])).2
        (by simpa [extraDims, dl, (lead_zero ngal).1, (lead_zero b).1, (lead_snoc hvs).1]
          using hd)
      exact ⟨r, by simp only [bind, Except.bind, h]⟩
  obtain ⟨r, h⟩ := key
  exact ⟨r, by rw [positionsFromDeltaNd, h]⟩

/-- **C99**, visibility with a different number of pixels (and more than one): `ValueError` is
raised for the first population, before anything is drawn or yielded. -/
theorem positions_bad_visibility {σ : Type} (poisson : σ → List ℝ → List ℕ × σ)
    (validNpix : ℕ → Bool) (ngal delta v : NdArray ℝ) (bias : Option (NdArray ℝ))
    (biasModel : List ℝ → ℝ → List ℝ) (hb : ∀ d b, (biasModel d b).length = d.length)
    (removeMonopole : Bool) (batch : ℤ) (dims ds vs : List ℕ) (npix m : ℕ)
    (hdelta : delta.shape = ds ++ [npix]) (hvis : v.shape = vs ++ [m]) (hm : m ≠ npix)
    (hm1 : m ≠ 1) (hd : IsBroadcast (extraDims ngal delta bias (some v)) dims)
    (hne : 0 ∉ dims) (s : σ) :
    ∃ r, positionsFromDeltaNd poisson validNpix ngal delta bias (some v) biasModel removeMonopole
      batch s = ([], some (.value r)) := by
  unfold positionsFromDeltaNd
  rw [broadcastInputs_ok hdelta (fun w h => ⟨vs, m, by cases h; exact hvis⟩) hd]
  dsimp only
  have hz : List.replicate dims.length 0 ∈ indices dims := by
    rw [mem_indices]
    clear hd
    induction dims with
    | nil => exact List.Forall₂.nil
    | cons d dims ih =>
      simp only [List.mem_cons, not_or] at hne
      exact List.Forall₂.cons (Nat.pos_of_ne_zero (Ne.symm hne.1)) (ih hne.2)
  rcases hi : indices dims with _ | ⟨k, ks⟩
  · rw [hi] at hz; simp at hz
  · have hk : k ∈ indices dims := by rw [hi]; simp
    rw [populationLoop, expectedAt]
    dsimp only
    rw [slice1_row dims npix _ hk]
    dsimp only [Option.map_some]
    rw [(lead_snoc hvis).2, applyVisibilityAt]
    rw [slice1_row dims m _ hk]
    dsimp only
    rw [imul, if_neg, if_neg]
    · exact ⟨_, rfl⟩
    · simpa [pixelRow] using hm1
    · rw [computeExpectedCount_length]
      cases bias <;> simp [computeDensityContrast, hb, pixelRow, hm]

/-- **C99**, invalid number of pixels: nothing is yielded, and `ValueError` is raised unless no
population has any points. -/
theorem populations_invalid_npix {σ : Type} (poisson : σ → List ℝ → List ℕ × σ)
    (hp : ∀ s l, (poisson s l).1.length = l.length) (validNpix : ℕ → Bool)
    (ngal delta : NdArray ℝ) (bias vis : Option (NdArray ℝ))
    (biasModel : List ℝ → ℝ → List ℝ) (hb : ∀ d b, (biasModel d b).length = d.length)
    (removeMonopole : Bool) (batch : ℤ) (dims ds : List ℕ) (npix : ℕ)
    (hdelta : delta.shape = ds ++ [npix])
    (hvis : ∀ v, vis = some v → ∃ vs m, v.shape = vs ++ [m] ∧ (m = npix ∨ m = 1))
    (hd : IsBroadcast (extraDims ngal delta bias vis) dims) (hv : validNpix npix = false)
    (s : σ) :
    (positionsFromDeltaNd poisson validNpix ngal delta bias vis biasModel removeMonopole batch
      s).1 = [] ∧
    ∃ (ngal' delta' : NdArray ℝ) (bias' vis' : Option (NdArray ℝ)),
      Expanded dims (some ngal) (some ngal') ∧
      Expanded (dims ++ [npix]) (some delta) (some delta') ∧
      Expanded dims bias bias' ∧ Expanded (dims ++ [npix]) vis vis' ∧
      ∃ draws : List (List ℕ × List ℕ),
        Drawn poisson (fun k => (List.range npix).map fun i : ℕ =>
          max (expected ngal'.get (pixelRow delta' npix) (bias'.map NdArray.get)
            (vis'.map fun v => pixelRow v npix) biasModel removeMonopole k i) 0)
          (indices dims) s draws ∧
        ((positionsFromDeltaNd poisson validNpix ngal delta bias vis biasModel removeMonopole
          batch s).2 = none ↔ ∀ d ∈ draws, d.2.sum = 0) ∧
        ((∃ d ∈ draws, d.2.sum ≠ 0) → ∃ r, (positionsFromDeltaNd poisson validNpix ngal delta bias
          vis biasModel removeMonopole batch s).2 = some (.value r)) := by
  obtain ⟨e1, e2, e3, e4⟩ := expanded_inputs hdelta hvis hd
  unfold positionsFromDeltaNd
  rw [broadcastInputs_ok hdelta (fun v h => by
    obtain ⟨vs, m, h, -⟩ := hvis v h; exact ⟨vs, m, h⟩) hd]
  dsimp only
  set ngal' : NdArray ℝ := ⟨dims, fun i => ngal.get (broadcastIndex ngal.shape i)⟩ with hn'
  set delta' : NdArray ℝ :=
    ⟨dims ++ [npix], fun i => delta.get (broadcastIndex delta.shape i)⟩ with hd'
  set bias' : Option (NdArray ℝ) :=
    bias.map fun b => ⟨dims, fun i => b.get (broadcastIndex b.shape i)⟩ with hb'
  set vis' : Option (NdArray ℝ) :=
    vis.map fun v => ⟨dims ++ [npix], fun i => v.get (broadcastIndex v.shape i)⟩ with hv'
  have hlen : ∀ k, (contrast (pixelRow delta' npix) (bias'.map NdArray.get) biasModel k).length =
      npix := fun k => by
    rw [contrast_length hb]; simp [pixelRow]
  have hvl : ∀ k, ∀ v, (vis'.map fun v => pixelRow v npix) = some v → (v k).length = (contrast
      (pixelRow delta' npix) (bias'.map NdArray.get) biasModel k).length := fun k v h => by
    rw [hlen]
    obtain ⟨w, -, rfl⟩ := Option.map_eq_some_iff.1 h
    simp [pixelRow]
  obtain ⟨h1, h2⟩ := populationLoop_invalid (batch := batch) (removeMonopole := removeMonopole)
    (biasModel := biasModel) (inp :=
      { bias := bias', delta := delta', dims := dims, ngal := ngal'
        vis := vis.map fun v => ⟨dims ++ trail (v, 1),
          fun i => v.get (broadcastIndex v.shape i)⟩ })
    (means := fun k => (List.range npix).map fun i : ℕ =>
          max (expected ngal'.get (pixelRow delta' npix) (bias'.map NdArray.get)
            (vis'.map fun v => pixelRow v npix) biasModel removeMonopole k i) 0)
    hp hv (ks := indices dims) (by simp) (by
      intro k hk
      refine ⟨_, expectedAt_ok hb hvis hd hk, ?_⟩
      have := meansOf_spec ngal'.get (pixelRow delta' npix) (bias'.map NdArray.get)
        (vis'.map fun v => pixelRow v npix) biasModel removeMonopole k (hvl k)
      rw [hlen] at this
      rw [← this]
      cases bias <;> cases vis <;> rfl) s
  exact ⟨h1, ngal', delta', bias', vis', e1, e2, e3, e4, h2⟩

/-! ## A concrete case -/

/-- Concrete case: two number densities, one map of 12 pixels, and a visibility for each of three
regions with an axis for the densities; the populations have the shape `(3, 2)`. -/
example : ∃ (ngal delta v : NdArray ℝ) (poisson : Unit → List ℝ → List ℕ × Unit),
    (∀ s l, (poisson s l).1.length = l.length) ∧ delta.shape = [] ++ [12] ∧
    v.shape = [3, 1] ++ [12] ∧ ngal.get [1] ≠ 0 ∧
    IsBroadcast (extraDims ngal delta none (some v)) [3, 2] ∧
    (indices [3, 2]).length = 6 ∧
    (poisson () [(5 : ℝ) / 2]).1 = [3] := by
  refine ⟨⟨[2], fun _ => 1⟩, ⟨[12], fun _ => 0⟩, ⟨[3, 1, 12], fun _ => 1⟩,
    fun s l => (l.map fun x => ⌈x⌉₊, s), by simp, rfl, rfl, by simp,
    ((broadcastAll_spec _).1 _).1 (by rfl), by rfl, ?_⟩
  simp only [List.map_cons, List.map_nil, List.cons.injEq, and_true]
  rw [Nat.ceil_eq_iff (by norm_num)]
  norm_num

/-- Concrete case: two densities and maps of three populations do not fit. -/
example : ¬ ∃ d, IsBroadcast
    (extraDims ⟨[2], fun _ => 1⟩ ⟨[3, 12], fun _ => 0⟩ none none) d :=
  (broadcastAll_spec _).2.1 ⟨_, by rfl⟩

/-- Concrete case: a visibility of a single pixel is a number that multiplies the map, while a
visibility of four pixels does not fit a map of three. -/
example : imul [1, 2, 3] [2] = .ok [2, 4, 6] ∧ ∃ r, imul [1, 2, 3] [1, 1, 1, 1] = .error (.value r) :=
  ⟨by norm_num [imul], _, by simp [imul]; rfl⟩

end Glass.Points
