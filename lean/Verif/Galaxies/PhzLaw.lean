import Verif.Galaxies.PhzProps
import Verif.Shapes.RydenLaw

/-!
# The law of photometric redshifts (C104)
-/

namespace Glass.Galaxies

open Glass Glass.Arrays NdArray Glass.Sampling Glass.Shapes MeasureTheory ProbabilityTheory
open scoped ENNReal NNReal

/-! ## Specification -/

/-- What is assumed of `rng.normal(loc, scale)` with arrays and scales that are not negative: an
array with the broadcast shape, filled in C order from an ideal source of normal numbers with the
means and standard deviations of the entries. -/
def IdealNormalArrays {σ : Type} [MeasurableSpace σ] (μ : Measure σ) (normal : Normal σ) : Prop :=
  ∃ draw : σ → List (ℝ × ℝ) → List ℝ × σ, IdealNormals μ draw ∧
    ∀ s (loc scale : NdArray ℝ) (d : List ℕ), IsBroadcast [loc.shape, scale.shape] d →
      (∀ idx ∈ indices d, 0 ≤ entry scale idx) →
      ∃ x : NdArray ℝ, normal s loc scale = .ok (x, (draw s (parameters loc scale d)).2) ∧
        x.shape = d ∧ x.ravel = (draw s (parameters loc scale d)).1

/-- The values within the bounds of an object. -/
def allowed (lower upper : Option (NdArray EReal)) (idx : List ℕ) : Set ℝ :=
  {v | lowerOf lower idx ≤ v ∧ (v : EReal) ≤ upperOf upper idx}

/-- All lower bounds are below the upper bounds. -/
def BoundsOrdered (lower upper : Option (NdArray EReal)) : Prop :=
  ∀ e, IsBroadcast (boundShapes lower upper) e → ∀ idx ∈ indices e,
    lowerOf lower idx < upperOf upper idx

/-! ## Reduction to rejection sampling of lists -/

/-- Mean and standard deviation, and the two bounds. -/
abbrev Params := (ℝ × ℝ≥0) × (EReal × EReal)

/-- The rejected values. -/
noncomputable def badZ (θ : Params) (v : ℝ) : Bool :=
  open Classical in decide (¬ (θ.2.1 ≤ v ∧ (v : EReal) ≤ θ.2.2))

theorem good_badZ (θ : Params) : good badZ θ = {v : ℝ | θ.2.1 ≤ v ∧ (v : EReal) ≤ θ.2.2} := by
  ext v
  simp [good, badZ]

theorem measurable_between (l u : EReal) : MeasurableSet {v : ℝ | l ≤ v ∧ (v : EReal) ≤ u} :=
  measurable_coe_real_ereal (measurableSet_Icc (a := l) (b := u))

theorem measurable_badZ (θ : Params) : MeasurableSet {v | badZ θ v = true} := by
  have : {v | badZ θ v = true} = {v : ℝ | θ.2.1 ≤ v ∧ (v : EReal) ≤ θ.2.2}ᶜ := by
    ext v
    simp only [badZ, decide_eq_true_eq]
    rfl
  rw [this]
  exact (measurable_between _ _).compl

/-- The parameters of all objects in C order. -/
noncomputable def objectParams (z sigma : NdArray ℝ) (lo up : NdArray EReal) (dims : List ℕ) :
    List Params :=
  (indices dims).map fun idx =>
    ((entry z idx, (entry sigma idx).toNNReal), (entry lo idx, entry up idx))

theorem ravel_of {α : Type} {a : NdArray α} {dims : List ℕ} (h : a.shape = dims) :
    a.ravel = (indices dims).map a.get := by rw [ravel, h]

theorem truncMask_ravel {z sigma zphot : NdArray ℝ} {lo up : NdArray EReal} {dims : List ℕ}
    (hz : zphot.shape = dims) (hl : Fits lo.shape dims) (hu : Fits up.shape dims) :
    ∃ trunc, truncMask zphot lo up = .ok trunc ∧ trunc.shape = dims ∧
      trunc.ravel = List.zipWith badZ (objectParams z sigma lo up dims) zphot.ravel := by
  classical
  have hzf : Fits zphot.shape dims := by rw [hz]; exact Fits.refl _
  obtain ⟨trunc, ht⟩ := truncMask_total hzf hl hu
  obtain ⟨t1, t2⟩ := truncMask_ok ht
  have hts : trunc.shape = dims :=
    Fits.antisymm (t1.least (by simp [hzf, hl, hu])) (by rw [← hz]; exact t1.fits (by simp))
  refine ⟨trunc, ht, hts, ?_⟩
  rw [ravel_of hts, ravel_of hz, objectParams, List.zipWith_map, List.zipWith_self]
  refine List.map_congr_left fun idx hi => ?_
  have h1 := t2 dims (by rw [hts]; exact Fits.refl _) idx hi
  rw [entry_self (by rw [hts]; exact hi), entry_self (a := zphot) (by rw [hz]; exact hi)] at h1
  rw [Bool.eq_iff_iff, h1, badZ, decide_eq_true_eq, Within]

theorem zipWith_merge {β γ : Type} (m : γ → Bool) (a b : γ → β) : ∀ l : List γ,
    maskMerge (l.map m) (l.map a) (select (l.map m) (l.map b)) =
      l.map fun i => if m i = true then b i else a i
  | [] => rfl
  | i :: l => by
    have ih := zipWith_merge m a b l
    rcases h : m i with _ | _ <;> simp [maskMerge, select, h, ih]

theorem where3_ravel {trunc : NdArray Bool} {new old : NdArray ℝ} {dims : List ℕ}
    (ht : trunc.shape = dims) (hn : new.shape = dims) (ho : old.shape = dims) :
    ∃ r, where3 trunc new old = .ok r ∧ r.shape = dims ∧
      r.ravel = maskMerge trunc.ravel old.ravel (select trunc.ravel new.ravel) := by
  have hsame : IsBroadcast [dims, dims] dims := isBroadcast_same dims
  obtain ⟨p, hp, hps⟩ := map₂_total (fun (t : Bool) (x : ℝ) => (t, x)) (a := trunc) (b := new)
    (by rw [ht, hn]; exact hsame)
  obtain ⟨r, hr, hrs⟩ := map₂_total (fun (p : Bool × ℝ) (y : ℝ) => if p.1 then p.2 else y)
    (a := p) (b := old) (by rw [hps, ho]; exact hsame)
  have hw : where3 trunc new old = .ok r := by
    unfold where3
    simp only [bind, Except.bind]
    rw [hp]
    exact hr
  refine ⟨r, hw, hrs, ?_⟩
  obtain ⟨-, w2⟩ := where3_ok hw
  rw [ravel_of ht, ravel_of hn, ravel_of ho, ravel_of hrs, zipWith_merge]
  refine List.map_congr_left fun idx hi => ?_
  have := w2 dims (by rw [hrs]; exact Fits.refl _) idx hi
  rwa [entry_self (by rw [hrs]; exact hi), entry_self (by rw [ht]; exact hi),
    entry_self (by rw [hn]; exact hi), entry_self (by rw [ho]; exact hi)] at this

/-- What a loop over arrays returns, in terms of a loop over lists. -/
def Agrees {σ : Type} (dims : List ℕ) (a : Option (Except Err (NdArray ℝ × σ)))
    (b : Option (List ℝ × σ)) : Prop :=
  match b with
  | none => a = none
  | some (l, s) => ∃ r, a = some (.ok (r, s)) ∧ r.shape = dims ∧ r.ravel = l

section

variable {σ : Type}

/-- Consecutive draws of the whole array of which the selected ones are used. -/
def drawAll (draw : σ → List (ℝ × ℝ) → List ℝ × σ) (js : List Params) (s : σ) (m : List Bool) :
    List ℝ × σ :=
  (select m (draw s (js.map fun j => pair j.1)).1, (draw s (js.map fun j => pair j.1)).2)

theorem arrayLoop_agrees {normal : Normal σ} {z sigma : NdArray ℝ} {lo up : NdArray EReal}
    {dims : List ℕ} (hl : Fits lo.shape dims) (hu : Fits up.shape dims)
    {draw : σ → List (ℝ × ℝ) → List ℝ × σ} {js : List Params}
    (hj : js = objectParams z sigma lo up dims)
    (hn : ∀ s, ∃ x : NdArray ℝ, normal s z sigma = .ok (x, (draw s (js.map fun j => pair j.1)).2) ∧
      x.shape = dims ∧ x.ravel = (draw s (js.map fun j => pair j.1)).1) :
    ∀ (fuel : ℕ) (zphot : NdArray ℝ) (s : σ), zphot.shape = dims →
      Agrees dims (arrayLoop normal z sigma lo up fuel zphot s)
        (loop badZ js (drawAll draw js) fuel zphot.ravel s)
  | 0, _, _, _ => rfl
  | fuel + 1, zphot, s, hz => by
    obtain ⟨trunc, ht, hts, htr⟩ := truncMask_ravel (z := z) (sigma := sigma) hz hl hu
    rw [← hj] at htr
    rw [arrayLoop, loop, ht]
    dsimp only
    rw [← htr]
    have hany : trunc.ravel.any id = true ↔ trunc.ravel.count true > 0 := by
      rw [gt_iff_lt, List.count_pos_iff, List.any_eq_true]
      simp
    by_cases h : trunc.ravel.count true > 0
    · rw [if_pos h, if_pos (hany.2 h)]
      obtain ⟨x, hx, hxs, hxr⟩ := hn s
      rw [hx]
      dsimp only
      obtain ⟨r, hr, hrs, hrr⟩ := where3_ravel hts hxs hz
      rw [hr]
      dsimp only
      have := arrayLoop_agrees hl hu hj hn fuel r (draw s (js.map fun j => pair j.1)).2 hrs
      rw [hrr, hxr] at this
      exact this
    · rw [if_neg h, if_neg (by rwa [hany])]
      exact ⟨zphot, rfl, hz, rfl⟩

theorem scalarLoop_agrees {normal : Normal σ} {z sigma : NdArray ℝ} {lo up : NdArray EReal}
    (hl : lo.shape = []) (hu : up.shape = [])
    {draw : σ → List (ℝ × ℝ) → List ℝ × σ} {js : List Params}
    (hj : js = objectParams z sigma lo up [])
    (hn : ∀ s, ∃ x : NdArray ℝ, normal s z sigma = .ok (x, (draw s (js.map fun j => pair j.1)).2) ∧
      x.shape = [] ∧ x.ravel = (draw s (js.map fun j => pair j.1)).1) :
    ∀ (fuel : ℕ) (zphot : NdArray ℝ) (s : σ), zphot.shape = [] →
      Agrees [] (scalarLoop normal z sigma lo up fuel zphot s)
        (loop badZ js (drawAll draw js) fuel zphot.ravel s)
  | 0, _, _, _ => rfl
  | fuel + 1, zphot, s, hz => by
    classical
    have hzr : zphot.ravel = [zphot.get []] := by rw [ravel_of hz]; rfl
    have hjs : js = [((entry z [], (entry sigma []).toNNReal), (entry lo [], entry up []))] := hj
    have hb : IsBroadcast [([] : List ℕ), []] [] := isBroadcast_same []
    obtain ⟨a, ha, has⟩ := map₂_total (fun (z : ℝ) (l : EReal) => decide ((z : EReal) < l))
      (a := zphot) (b := lo) (by rw [hz, hl]; exact hb)
    obtain ⟨c, hc, hcs⟩ := map₂_total (fun (z : ℝ) (u : EReal) => decide (u < (z : EReal)))
      (a := zphot) (b := up) (by rw [hz, hu]; exact hb)
    have hta : truth a = .ok (a.get []) := by
      rw [truth, ravel_of has]
      rfl
    have htc : truth c = .ok (c.get []) := by
      rw [truth, ravel_of hcs]
      rfl
    obtain ⟨b, ho⟩ : ∃ b, Galaxies.outside zphot lo up = .ok b := by
      unfold Galaxies.outside
      simp only [bind, Except.bind]
      rw [ha]
      simp only
      rw [hta]
      simp only
      split_ifs
      · exact ⟨_, rfl⟩
      · rw [hc]
        exact ⟨_, htc⟩
    have hbe : List.zipWith badZ js zphot.ravel = [b] := by
      have h1 := outside_ok ho (d := []) (idx := []) (by rw [hz]; exact Fits.refl _)
        (by rw [hl]; exact Fits.refl _) (by rw [hu]; exact Fits.refl _) (by simp [indices])
      have h2 : entry zphot [] = zphot.get [] := entry_self (by rw [hz]; simp [indices])
      rw [h2] at h1
      rw [hjs, hzr, List.zipWith_cons_cons, List.zipWith_nil_left]
      congr 1
      rw [Bool.eq_iff_iff, h1, badZ, decide_eq_true_eq, Within]
    rw [scalarLoop, loop, hbe, ho]
    cases b with
    | false => exact ⟨zphot, rfl, hz, rfl⟩
    | true =>
      obtain ⟨x, hx, hxs, hxr⟩ := hn s
      dsimp only
      rw [hx, if_pos (by simp)]
      dsimp only
      have := scalarLoop_agrees hl hu hj hn fuel x (draw s (js.map fun j => pair j.1)).2 hxs
      have hm : maskMerge [true] zphot.ravel (drawAll draw js s [true]).1 = x.ravel := by
        rw [drawAll, ← hxr, ravel_of hxs, hzr]
        rfl
      rw [hm]
      exact this

/-- The parameters of the objects as they are given. -/
noncomputable def phzParams (z sigma0 : NdArray ℝ) (lower upper : Option (NdArray EReal))
    (dims : List ℕ) : List Params :=
  (indices dims).map fun idx => ((entry z idx, ((1 + entry z idx) * entry sigma0 idx).toNNReal),
    (lowerOf lower idx, upperOf upper idx))

theorem gaussianPhz_agrees {normal : Normal σ} {z sigma0 : NdArray ℝ}
    {lower upper : Option (NdArray EReal)} {dims : List ℕ}
    (hd : IsBroadcast [z.shape, sigma0.shape] dims) (hb : BoundsFit dims lower upper)
    (ho : BoundsOrdered lower upper)
    (hs : ∀ idx ∈ indices dims, 0 ≤ (1 + entry z idx) * entry sigma0 idx)
    {draw : σ → List (ℝ × ℝ) → List ℝ × σ}
    (hlen : ∀ s (l : List (ℝ × ℝ≥0)), (draw s (l.map pair)).1.length = l.length)
    (hn : ∀ s (loc scale : NdArray ℝ) (d : List ℕ), IsBroadcast [loc.shape, scale.shape] d →
      (∀ idx ∈ indices d, 0 ≤ entry scale idx) →
      ∃ x : NdArray ℝ, normal s loc scale = .ok (x, (draw s (parameters loc scale d)).2) ∧
        x.shape = d ∧ x.ravel = (draw s (parameters loc scale d)).1) (fuel : ℕ) (s : σ) :
    Agrees dims (gaussianPhz normal fuel s z sigma0 lower upper)
      (sampler badZ (phzParams z sigma0 lower upper dims)
        (drawAll draw (phzParams z sigma0 lower upper dims)) fuel s) := by
  classical
  set js := phzParams z sigma0 lower upper dims with hjs
  unfold gaussianPhz
  have hbe := boundArrays_entry lower upper
  have hbs : ∀ {d}, IsBroadcast [(boundArrays lower upper).1.shape,
      (boundArrays lower upper).2.shape] d ↔ IsBroadcast (boundShapes lower upper) d := by
    intro d
    rcases lower with _ | l <;> rcases upper with _ | u <;>
      simp [boundArrays, boundShapes, IsBroadcast]
  have hbf : ((boundArrays lower upper).1.shape = [] ∨ (boundArrays lower upper).1.shape = dims) ∧
      ((boundArrays lower upper).2.shape = [] ∨ (boundArrays lower upper).2.shape = dims) := by
    rcases lower with _ | l <;> rcases upper with _ | u <;>
      simp [BoundsFit, boundArrays, boundShapes] at hb ⊢
    · exact hb
    · exact hb
    · exact hb
  generalize boundArrays lower upper = b at *
  obtain ⟨lo, up⟩ := b
  simp only at hbe hbs hbf ⊢
  have hfl : Fits lo.shape dims := by
    rcases hbf.1 with h | h <;> rw [h]
    · exact Fits.nil _
    · exact Fits.refl _
  have hfu : Fits up.shape dims := by
    rcases hbf.2 with h | h <;> rw [h]
    · exact Fits.nil _
    · exact Fits.refl _
  obtain ⟨sigma, hm, hsd⟩ := map₂_total (fun z s0 : ℝ => (1 + z) * s0) hd
  rw [hm]
  simp only
  obtain ⟨m1, m2⟩ := map₂_ok hm
  have hse : ∀ idx ∈ indices dims, entry sigma idx = (1 + entry z idx) * entry sigma0 idx :=
    fun idx hi => m2 dims (by rw [hsd]; exact Fits.refl _) idx hi
  have hzf : Fits z.shape dims := hd.fits (by simp)
  have hzs : IsBroadcast [z.shape, sigma.shape] dims := by
    rw [hsd]
    refine isBroadcast_pair.1 ?_
    rw [broadcastShapes, broadcastRev_to]
    · simp
    · simpa using hd.1 _ (by simp)
    · exact hd.2.1 _ (by simp)
  have hpos : ∀ idx ∈ indices dims, 0 ≤ entry sigma idx := fun idx hi => by
    rw [hse idx hi]; exact hs idx hi
  have hpar : ∀ loc : NdArray ℝ, (∀ idx ∈ indices dims, entry loc idx = entry z idx) →
      parameters loc sigma dims = js.map fun j => pair j.1 := by
    intro loc hloc
    rw [hjs, phzParams, parameters, List.map_map]
    refine List.map_congr_left fun idx hi => ?_
    simp only [Function.comp, pair]
    rw [hloc idx hi, hse idx hi, Real.coe_toNNReal _ (hs idx hi)]
  obtain ⟨x, hx, hxs, hxr⟩ := hn s z sigma dims hzs hpos
  rw [hx]
  simp only
  rw [hpar z fun _ _ => rfl] at hxr ⊢
  rw [if_neg (by
    rintro ⟨h1, h2, h3⟩
    apply h3
    rw [hxs]
    rcases hbf.1 with h4 | h4
    · rw [h4] at h1
      exact absurd h1.symm h2
    · rcases hbf.2 with h5 | h5
      · rw [h5] at h2
        exact absurd rfl h2
      · rw [h4, h5]
        exact ⟨rfl, rfl⟩)]
  obtain ⟨e, he⟩ := exists_isBroadcast hfl hfu
  obtain ⟨ordered, hord, hos⟩ := map₂_total (fun l u : EReal => decide (l < u)) he
  rw [hord]
  simp only
  obtain ⟨o1, o2⟩ := map₂_ok hord
  rw [if_neg (by
    rw [not_not, List.all_eq_true]
    intro v hv
    rw [ravel_of hos] at hv
    obtain ⟨idx, hi, rfl⟩ := List.mem_map.1 hv
    have hf := o2 e (by rw [hos]; exact Fits.refl _) idx hi
    rw [entry_self (by rw [hos]; exact hi), (hbe idx).1, (hbe idx).2] at hf
    rw [hf]
    simpa using ho e (hbs.1 he) idx hi)]
  have hj : ∀ loc : NdArray ℝ, (∀ idx ∈ indices dims, entry loc idx = entry z idx) →
      js = objectParams loc sigma lo up dims := by
    intro loc hloc
    rw [hjs, phzParams, objectParams]
    refine List.map_congr_left fun idx hi => ?_
    rw [hloc idx hi, hse idx hi, (hbe idx).1, (hbe idx).2]
  have hinit : (drawAll draw js s (List.replicate js.length true)).1 = x.ravel := by
    have h1 : (draw s (js.map fun j => pair j.1)).1.length = js.length := by
      have := hlen s (js.map Prod.fst)
      rw [List.map_map, List.length_map] at this
      exact this
    rw [drawAll, hxr, ← h1, select_all]
  rw [sampler, hinit]
  by_cases h0 : dims = []
  · subst h0
    rw [if_pos hsd]
    refine scalarLoop_agrees (by simpa using hbf.1) (by simpa using hbf.2) (hj z fun _ _ => rfl)
      (fun t => ?_) fuel x _ hxs
    have := hn t z sigma [] hzs hpos
    rwa [hpar z fun _ _ => rfl] at this
  · rw [if_neg (by rw [hsd]; exact h0), hsd, broadcastTo_ok hzf.1 hzf.2]
    simp only
    have hloc : ∀ idx ∈ indices dims, entry
        (⟨dims, fun i => z.get (broadcastIndex z.shape i)⟩ : NdArray ℝ) idx = entry z idx :=
      fun idx hi => by rw [entry_self hi]; rfl
    refine arrayLoop_agrees hfl hfu (hj _ hloc) (fun t => ?_) fuel x _ hxs
    have := hn t ⟨dims, fun i => z.get (broadcastIndex z.shape i)⟩ sigma dims (by
      rw [hsd]; exact isBroadcast_same dims) hpos
    rwa [hpar _ hloc] at this

end

/-! ## Theorems -/

section

variable {σ : Type} [MeasurableSpace σ]

theorem drawAll_law {μ : Measure σ} [IsProbabilityMeasure μ]
    {draw : σ → List (ℝ × ℝ) → List ℝ × σ} (hn : IdealNormals μ draw) (js : List Params) :
    MaskLaw μ (fun j : Params => gaussianReal j.1.1 (j.1.2 ^ 2)) js (drawAll draw js) := by
  have hn' : Ideal μ (fun p : ℝ × ℝ≥0 => gaussianReal p.1 (p.2 ^ 2)) fun s ps =>
    draw s (ps.map pair) := hn
  have h := (hn'.reindex (Prod.fst : Params → ℝ × ℝ≥0)).maskLaw_all js
  simp only [List.map_map] at h
  exact h

theorem zipWith_eq_map {β γ δ : Type} (f : β → γ → δ) (l : List β) (As : List γ) :
    List.zipWith f l As = (l.zip As).map fun p => f p.1 p.2 := by
  rw [List.zip, List.map_zipWith]

/-- **C104.** With an ideal source of normal numbers the photometric redshifts returned by
`gaussian_phz` are independent of each other and of the generator afterwards, and each has the
normal distribution with mean `z` and standard deviation `(1 + z) σ₀` of its own object,
conditioned on the bounds of that object.  (If an object cannot be within its bounds then both
sides are zero.) -/
theorem gaussian_phz_law {μ : Measure σ} [IsProbabilityMeasure μ] {normal : Normal σ}
    (hn : IdealNormalArrays μ normal) {z sigma0 : NdArray ℝ}
    {lower upper : Option (NdArray EReal)} {dims : List ℕ}
    (hd : IsBroadcast [z.shape, sigma0.shape] dims) (hb : BoundsFit dims lower upper)
    (ho : BoundsOrdered lower upper)
    (hs : ∀ idx ∈ indices dims, 0 ≤ (1 + entry z idx) * entry sigma0 idx)
    {As : List (Set ℝ)} (hl : As.length = dims.prod) (hA : ∀ A ∈ As, MeasurableSet A) {F : Set σ}
    (hF : MeasurableSet F) :
    μ {s | ∃ fuel r s', gaussianPhz normal fuel s z sigma0 lower upper = some (.ok (r, s')) ∧
      List.Forall₂ (fun v A => v ∈ A) r.ravel As ∧ s' ∈ F} =
      (List.zipWith (fun idx A => truncated (entry z idx) ((1 + entry z idx) * entry sigma0 idx)
        (allowed lower upper idx) A) (indices dims) As).prod * μ F := by
  obtain ⟨draw, hdr, hspec⟩ := hn
  have hlen : ∀ s (l : List (ℝ × ℝ≥0)), (draw s (l.map pair)).1.length = l.length := hdr.length
  set js := phzParams z sigma0 lower upper dims with hjs
  have hjl : js.length = As.length := by
    rw [hjs, phzParams, List.length_map, indices_length, hl]
  have hfst : (js.zip As).map Prod.fst = js := List.map_fst_zip hjl.le
  have hsnd : (js.zip As).map Prod.snd = As := List.map_snd_zip hjl.ge
  have h := (sampler_limit (bad := badZ) (ps := js.zip As) (F := F)
    (by rw [hfst]; exact drawAll_law hdr js) measurable_badZ (fun p hp => hA _ (by
      rw [← hsnd]; exact List.mem_map_of_mem hp)) hF).2
  rw [hfst, hsnd] at h
  have hset : {s | ∃ fuel r s', gaussianPhz normal fuel s z sigma0 lower upper =
      some (.ok (r, s')) ∧ List.Forall₂ (fun v A => v ∈ A) r.ravel As ∧ s' ∈ F} =
      {s | ∃ k r, sampler badZ js (drawAll draw js) k s = some r ∧ InBox r.1 As ∧ r.2 ∈ F} := by
    ext s
    simp only [Set.mem_ofPred_eq]
    constructor
    · rintro ⟨fuel, r, s', h1, h2, h3⟩
      have hag := gaussianPhz_agrees hd hb ho hs hlen hspec fuel s
      rw [← hjs] at hag
      rcases hsam : sampler badZ js (drawAll draw js) fuel s with _ | ⟨l, t⟩
      · rw [hsam] at hag
        rw [show gaussianPhz normal fuel s z sigma0 lower upper = none from hag] at h1
        cases h1
      · rw [hsam] at hag
        obtain ⟨r', h4, -, h5⟩ := hag
        rw [h4] at h1
        cases h1
        exact ⟨fuel, _, hsam, by rw [← h5]; exact h2, h3⟩
    · rintro ⟨k, ⟨l, t⟩, h1, h2, h3⟩
      have hag := gaussianPhz_agrees hd hb ho hs hlen hspec k s
      rw [← hjs, h1] at hag
      obtain ⟨r', h4, -, h5⟩ := hag
      exact ⟨k, r', t, h4, by rw [h5]; exact h2, h3⟩
  rw [hset, h]
  congr 2
  rw [hjs, phzParams, List.zip_map_left, List.map_map, zipWith_eq_map]
  refine List.map_congr_left fun p _ => ?_
  simp only [Function.comp, Prod.map, id, truncated, good_badZ]
  rfl

/-- **C104.** The probability that `k + 1` checks suffice: each object is accepted in one of
`k + 1` independent attempts. -/
theorem gaussian_phz_rounds {μ : Measure σ} [IsProbabilityMeasure μ] {normal : Normal σ}
    (hn : IdealNormalArrays μ normal) {z sigma0 : NdArray ℝ}
    {lower upper : Option (NdArray EReal)} {dims : List ℕ}
    (hd : IsBroadcast [z.shape, sigma0.shape] dims) (hb : BoundsFit dims lower upper)
    (ho : BoundsOrdered lower upper)
    (hs : ∀ idx ∈ indices dims, 0 ≤ (1 + entry z idx) * entry sigma0 idx) (k : ℕ) :
    μ {s | ∃ out, gaussianPhz normal (k + 1) s z sigma0 lower upper = some out} =
      ((indices dims).map fun idx => 1 - gaussianReal (entry z idx)
        (((1 + entry z idx) * entry sigma0 idx).toNNReal ^ 2)
          (allowed lower upper idx)ᶜ ^ (k + 1)).prod := by
  obtain ⟨draw, hdr, hspec⟩ := hn
  have hlen : ∀ s (l : List (ℝ × ℝ≥0)), (draw s (l.map pair)).1.length = l.length := hdr.length
  set js := phzParams z sigma0 lower upper dims with hjs
  have h := sampler_within (bad := badZ) (drawAll_law hdr js) measurable_badZ k
  have hset : {s | ∃ out, gaussianPhz normal (k + 1) s z sigma0 lower upper = some out} =
      {s | ∃ r, sampler badZ js (drawAll draw js) (k + 1) s = some r} := by
    ext s
    simp only [Set.mem_ofPred_eq]
    have hag := gaussianPhz_agrees hd hb ho hs hlen hspec (k + 1) s
    rw [← hjs] at hag
    rcases hsam : sampler badZ js (drawAll draw js) (k + 1) s with _ | ⟨l, t⟩
    · rw [hsam] at hag
      rw [show gaussianPhz normal (k + 1) s z sigma0 lower upper = none from hag]
      simp
    · rw [hsam] at hag
      obtain ⟨r', h4, -, -⟩ := hag
      rw [h4]
      simp
  rw [hset, h, hjs, phzParams, List.map_map]
  congr 1
  refine List.map_congr_left fun idx _ => ?_
  simp only [Function.comp]
  congr 3
  ext v
  simp only [badZ, decide_eq_true_eq]
  rfl

theorem BoundsOrdered.at_object {lower upper : Option (NdArray EReal)} {dims : List ℕ}
    (ho : BoundsOrdered lower upper) (hb : BoundsFit dims lower upper) :
    ∀ idx ∈ indices dims, lowerOf lower idx < upperOf upper idx := by
  intro idx hi
  have hfit : ∀ t ∈ boundShapes lower upper, Fits t dims := by
    intro t ht
    rcases hb t ht with rfl | rfl
    · exact Fits.nil _
    · exact Fits.refl _
  obtain ⟨e, he⟩ : ∃ e, IsBroadcast (boundShapes lower upper) e := by
    have one : ∀ a : List ℕ, IsBroadcast [a] a := fun a =>
      ⟨by simp, by simp +contextual, fun j n hn => ⟨a, by simp, hn⟩⟩
    rcases lower with _ | l <;> rcases upper with _ | u
    · exact ⟨[], by simp [boundShapes, IsBroadcast]⟩
    · exact ⟨_, one u.shape⟩
    · exact ⟨_, one l.shape⟩
    · exact exists_isBroadcast (hfit l.shape (by simp [boundShapes]))
        (hfit u.shape (by simp [boundShapes]))
  have hed : Fits e dims := he.least hfit
  have h := ho e he _ (fits_mem_indices hed hi)
  have h1 : lowerOf lower (broadcastIndex e idx) = lowerOf lower idx := by
    rcases lower with _ | l
    · rfl
    · exact congrArg l.get (broadcastIndex_trans (he.fits (by simp [boundShapes])) hed hi)
  have h2 : upperOf upper (broadcastIndex e idx) = upperOf upper idx := by
    rcases upper with _ | u
    · rfl
    · exact congrArg u.get (broadcastIndex_trans (he.fits (by simp [boundShapes])) hed hi)
  rwa [h1, h2] at h

/-- **C104.** `gaussian_phz` returns with probability one, if the redshift of every object without
error is within its bounds. -/
theorem gaussian_phz_ends {μ : Measure σ} [IsProbabilityMeasure μ] {normal : Normal σ}
    (hn : IdealNormalArrays μ normal) {z sigma0 : NdArray ℝ}
    {lower upper : Option (NdArray EReal)} {dims : List ℕ}
    (hd : IsBroadcast [z.shape, sigma0.shape] dims) (hb : BoundsFit dims lower upper)
    (ho : BoundsOrdered lower upper)
    (hs : ∀ idx ∈ indices dims, 0 ≤ (1 + entry z idx) * entry sigma0 idx)
    (h0 : ∀ idx ∈ indices dims, (1 + entry z idx) * entry sigma0 idx = 0 →
      entry z idx ∈ allowed lower upper idx) :
    ∀ᵐ s ∂μ, ∃ fuel r s', gaussianPhz normal fuel s z sigma0 lower upper = some (.ok (r, s')) := by
  obtain ⟨draw, hdr, hspec⟩ := hn
  have hlen : ∀ s (l : List (ℝ × ℝ≥0)), (draw s (l.map pair)).1.length = l.length := hdr.length
  have hbd := ho.at_object hb
  have h := sampler_ends (bad := badZ) (drawAll_law hdr (phzParams z sigma0 lower upper dims))
    measurable_badZ (by
      intro j hj
      obtain ⟨idx, hi, rfl⟩ := List.mem_map.1 hj
      rw [good_badZ]
      refine gaussian_pos (θ := (_, _)) ?_ (fun hz => ?_) (measurable_between _ _)
      · obtain ⟨a, ha1, ha2⟩ := EReal.lt_iff_exists_real_btwn.1 (hbd idx hi)
        obtain ⟨c, hc1, hc2⟩ := EReal.lt_iff_exists_real_btwn.1 ha2
        refine lt_of_lt_of_le (b := volume (Set.Ioo a c)) ?_ (measure_mono fun v hv => ?_)
        · rw [Real.volume_Ioo]
          have : a < c := by exact_mod_cast hc1
          simpa using this
        · have h1 : (a : EReal) < v := by exact_mod_cast hv.1
          have h2 : (v : EReal) < c := by exact_mod_cast hv.2
          exact ⟨(ha1.trans h1).le, (h2.trans hc2).le⟩
      · refine h0 idx hi ?_
        have := Real.toNNReal_eq_zero.1 hz
        exact le_antisymm this (hs idx hi))
  filter_upwards [h] with s hs'
  obtain ⟨k, ⟨l, t⟩, hk⟩ := hs'
  have hag := gaussianPhz_agrees hd hb ho hs hlen hspec k s
  rw [hk] at hag
  obtain ⟨r', h4, -, -⟩ := hag
  exact ⟨k, r', t, h4⟩

/-- **C104.** If the redshift of an object without error is not within its bounds, `gaussian_phz`
does not return, with probability one. -/
theorem gaussian_phz_stuck {μ : Measure σ} [IsProbabilityMeasure μ] {normal : Normal σ}
    (hn : IdealNormalArrays μ normal) {z sigma0 : NdArray ℝ}
    {lower upper : Option (NdArray EReal)} {dims : List ℕ}
    (hd : IsBroadcast [z.shape, sigma0.shape] dims) (hb : BoundsFit dims lower upper)
    (ho : BoundsOrdered lower upper)
    (hs : ∀ idx ∈ indices dims, 0 ≤ (1 + entry z idx) * entry sigma0 idx)
    (h0 : ∃ idx ∈ indices dims, (1 + entry z idx) * entry sigma0 idx = 0 ∧
      entry z idx ∉ allowed lower upper idx) :
    ∀ᵐ s ∂μ, ∀ fuel, gaussianPhz normal fuel s z sigma0 lower upper = none := by
  obtain ⟨draw, hdr, hspec⟩ := hn
  have hlen : ∀ s (l : List (ℝ × ℝ≥0)), (draw s (l.map pair)).1.length = l.length := hdr.length
  have h := sampler_stuck (bad := badZ) (drawAll_law hdr (phzParams z sigma0 lower upper dims))
    measurable_badZ (by
      obtain ⟨idx, hi, hz, hout⟩ := h0
      refine ⟨_, List.mem_map_of_mem hi, ?_⟩
      rw [good_badZ, hz, Real.toNNReal_zero, zero_pow two_ne_zero, gaussianReal_zero_var,
        Measure.dirac_apply' _ (measurable_between _ _)]
      exact Set.indicator_of_notMem hout _)
  filter_upwards [h] with s hs' fuel
  have hag := gaussianPhz_agrees hd hb ho hs hlen hspec fuel s
  rw [hs' fuel] at hag
  exact hag

/-! ## Ideal sources exist -/

/-- Arrays of normal numbers from a source of lists of them. -/
noncomputable def arrayNormal (draw : σ → List (ℝ × ℝ) → List ℝ × σ) : Normal σ :=
  fun s loc scale => match broadcastShapes loc.shape scale.shape with
    | none => .error (.value "shape mismatch")
    | some d => .ok (ofList d (draw s (parameters loc scale d)).1,
        (draw s (parameters loc scale d)).2)

theorem arrayNormal_ideal {μ : Measure σ} {draw : σ → List (ℝ × ℝ) → List ℝ × σ}
    (hd : IdealNormals μ draw) : IdealNormalArrays μ (arrayNormal draw) := by
  refine ⟨draw, hd, fun s loc scale d hb hs => ?_⟩
  rw [arrayNormal, isBroadcast_pair.2 hb]
  refine ⟨_, rfl, rfl, ofList_ravel ?_⟩
  have hp : parameters loc scale d = ((indices d).map fun idx =>
      (entry loc idx, (entry scale idx).toNNReal)).map fun p : ℝ × ℝ≥0 => (p.1, (p.2 : ℝ)) := by
    rw [parameters, List.map_map]
    refine List.map_congr_left fun idx hi => ?_
    simp only [Function.comp]
    rw [Real.coe_toNNReal _ (hs idx hi)]
  rw [hp, hd.length, List.length_map, indices_length]

/-- Concrete case: an ideal generator, two redshifts with a common error and the default bounds. -/
example : (∃ (μ : Measure (ℕ → ℝ × ℝ)) (_ : IsProbabilityMeasure μ)
    (normal : Normal (ℕ → ℝ × ℝ)), IdealNormalArrays μ normal) ∧
    IsBroadcast [[2], []] [2] ∧ BoundsFit [2] none none ∧ BoundsOrdered none none ∧
    ∀ idx ∈ indices [2], 0 ≤ (1 + entry (⟨[2], fun _ => 0.5⟩ : NdArray ℝ) idx) *
      entry (⟨[], fun _ => 0.03⟩ : NdArray ℝ) idx := by
  obtain ⟨μ, h1, normal, -, h2, -⟩ := idealSources_exist
  refine ⟨⟨μ, h1, _, arrayNormal_ideal h2⟩, isBroadcast_pair.1 rfl, by simp [BoundsFit, boundShapes],
    ?_, fun idx _ => ?_⟩
  · intro e he idx hi
    exact EReal.coe_lt_top 0
  · show (0 : ℝ) ≤ (1 + 0.5) * 0.03
    norm_num

end

end Glass.Galaxies
