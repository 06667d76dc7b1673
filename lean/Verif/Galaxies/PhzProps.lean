import Verif.Arrays.FitLemmas
import Verif.Galaxies.Model

/-!
# Photometric redshifts (C66)
-/

namespace Glass.Galaxies

open NdArray Arrays

/-! ## Specification -/

/-- What is used of `rng.normal`: the result has the broadcast shape of location and scale, and
there is a result if there is such a shape. -/
structure NormalLaw {σ : Type} (normal : Normal σ) : Prop where
  shape : ∀ {s loc scale x s'}, normal s loc scale = .ok (x, s') →
    IsBroadcast [loc.shape, scale.shape] x.shape
  total : ∀ s {loc scale : NdArray ℝ} {d : List ℕ}, IsBroadcast [loc.shape, scale.shape] d →
    ∃ x s', normal s loc scale = .ok (x, s')

/-- Consecutive calls of `rng.normal` with the same arguments. -/
inductive Calls {σ : Type} (normal : Normal σ) (loc scale : NdArray ℝ) :
    σ → List (NdArray ℝ) → σ → Prop
  | nil (s : σ) : Calls normal loc scale s [] s
  | cons {s s₁ s₂ : σ} {x : NdArray ℝ} {xs : List (NdArray ℝ)} :
    normal s loc scale = .ok (x, s₁) → Calls normal loc scale s₁ xs s₂ →
      Calls normal loc scale s (x :: xs) s₂

/-- A value is within the bounds of an object. -/
def Within (lower upper : NdArray EReal) (idx : List ℕ) (v : ℝ) : Prop :=
  entry lower idx ≤ v ∧ (v : EReal) ≤ entry upper idx

/-! ## The loops -/

theorem truth_ok {a : NdArray Bool} {b : Bool} (h : truth a = .ok b) {d idx : List ℕ}
    (hf : Fits a.shape d) (hi : idx ∈ indices d) : entry a idx = b := by
  unfold truth at h
  split at h
  · rename_i c hc
    cases h
    have : entry a idx ∈ a.ravel := List.mem_map_of_mem (fits_mem_indices hf hi)
    rw [hc] at this
    simpa using this
  · cases h

theorem outside_ok {zphot : NdArray ℝ} {lower upper : NdArray EReal} {b : Bool}
    (h : outside zphot lower upper = .ok b) {d idx : List ℕ} (hz : Fits zphot.shape d)
    (hl : Fits lower.shape d) (hu : Fits upper.shape d) (hi : idx ∈ indices d) :
    (b = true ↔ ¬ Within lower upper idx (entry zphot idx)) := by
  classical
  unfold outside at h
  simp only [bind, Except.bind] at h
  rcases ha : NdArray.map₂ (fun (z : ℝ) (l : EReal) => decide ((z : EReal) < l)) zphot lower with
    e | a
  · rw [ha] at h; cases h
  rw [ha] at h
  simp only at h
  obtain ⟨a1, a2⟩ := map₂_ok ha
  have af : Fits a.shape d := a1.least (by simp [hz, hl])
  rcases ht : truth a with e | t
  · rw [ht] at h; cases h
  rw [ht] at h
  simp only at h
  have e1 := truth_ok ht af hi
  rw [a2 d af idx hi] at e1
  split_ifs at h with hb
  · cases h
    subst hb
    simp only [decide_eq_true_eq] at e1
    simp only [true_iff]
    exact fun hw => not_le_of_gt e1 hw.1
  · have hb' : t = false := by simpa using hb
    subst hb'
    rcases hc : NdArray.map₂ (fun (z : ℝ) (u : EReal) => decide (u < (z : EReal))) zphot upper with
      e | c
    · rw [hc] at h; cases h
    rw [hc] at h
    simp only at h
    obtain ⟨c1, c2⟩ := map₂_ok hc
    have cf : Fits c.shape d := c1.least (by simp [hz, hu])
    have e2 := truth_ok h cf hi
    rw [c2 d cf idx hi] at e2
    simp only [decide_eq_false_iff_not, not_lt] at e1
    rw [← e2, decide_eq_true_eq, Within, not_and]
    exact ⟨fun h _ => not_le_of_gt h, fun h => lt_of_not_ge (h e1)⟩

theorem scalarLoop_ok {σ : Type} {normal : Normal σ} {z sigma : NdArray ℝ}
    {lower upper : NdArray EReal} {d : List ℕ}
    (hn : ∀ {s x s'}, normal s z sigma = .ok (x, s') → Fits x.shape d)
    (hl : Fits lower.shape d) (hu : Fits upper.shape d) :
    ∀ (fuel : ℕ) (zphot : NdArray ℝ) (s : σ) {r : NdArray ℝ} {s' : σ}, Fits zphot.shape d →
      scalarLoop normal z sigma lower upper fuel zphot s = some (.ok (r, s')) →
      ∃ xs, xs.length < fuel ∧ Calls normal z sigma s xs s' ∧ r ∈ zphot :: xs ∧ ∀ idx ∈ indices d,
        open Classical in ((zphot :: xs).map fun x => entry x idx).find?
          (fun v : ℝ => decide (Within lower upper idx v)) = some (entry r idx)
  | 0, zphot, s, r, s', hz, h => by simp [scalarLoop] at h
  | fuel + 1, zphot, s, r, s', hz, h => by
    rw [scalarLoop] at h
    rcases ho : outside zphot lower upper with e | b
    · rw [ho] at h; cases h
    rw [ho] at h
    cases b with
    | false =>
      cases h
      refine ⟨[], by simp, .nil _, by simp, fun idx hi => ?_⟩
      have := outside_ok ho hz hl hu hi
      simp only [Bool.false_eq_true, false_iff, not_not] at this
      simp [this]
    | true =>
      simp only at h
      rcases hc : normal s z sigma with e | ⟨x, s1⟩
      · rw [hc] at h; cases h
      rw [hc] at h
      simp only at h
      obtain ⟨xs, h0, h1, h2, h3⟩ := scalarLoop_ok hn hl hu fuel x s1 (hn hc) h
      refine ⟨x :: xs, by simpa using h0, .cons hc h1, List.mem_cons_of_mem _ h2, fun idx hi => ?_⟩
      have := outside_ok ho hz hl hu hi
      have this := this.1 rfl
      rw [List.map_cons, List.find?_cons_of_neg (by simpa using this)]
      exact h3 idx hi

theorem truncMask_ok {zphot : NdArray ℝ} {lower upper : NdArray EReal} {trunc : NdArray Bool}
    (h : truncMask zphot lower upper = .ok trunc) :
    IsBroadcast [zphot.shape, lower.shape, upper.shape] trunc.shape ∧
    ∀ d, Fits trunc.shape d → ∀ idx ∈ indices d,
      (entry trunc idx = true ↔ ¬ Within lower upper idx (entry zphot idx)) := by
  classical
  unfold truncMask at h
  simp only [bind, Except.bind] at h
  rcases ha : NdArray.map₂ (fun (z : ℝ) (l : EReal) => decide ((z : EReal) < l)) zphot lower with
    e | a
  · rw [ha] at h; cases h
  rw [ha] at h
  simp only at h
  rcases hb : NdArray.map₂ (fun (z : ℝ) (u : EReal) => decide (u < (z : EReal))) zphot upper with
    e | b
  · rw [hb] at h; cases h
  rw [hb] at h
  simp only at h
  obtain ⟨a1, a2⟩ := map₂_ok ha
  obtain ⟨b1, b2⟩ := map₂_ok hb
  obtain ⟨c1, c2⟩ := map₂_ok h
  constructor
  · refine ⟨?_, ?_, ?_⟩
    · intro s hs
      simp only [List.mem_cons, List.not_mem_nil, or_false] at hs
      rcases hs with rfl | rfl | rfl
      · exact ((a1.fits (by simp)).trans (c1.fits (by simp))).1
      · exact ((a1.fits (by simp)).trans (c1.fits (by simp))).1
      · exact ((b1.fits (by simp)).trans (c1.fits (by simp))).1
    · intro s hs
      simp only [List.mem_cons, List.not_mem_nil, or_false] at hs
      rcases hs with rfl | rfl | rfl
      · exact ((a1.fits (by simp)).trans (c1.fits (by simp))).2
      · exact ((a1.fits (by simp)).trans (c1.fits (by simp))).2
      · exact ((b1.fits (by simp)).trans (c1.fits (by simp))).2
    · intro j n hn
      obtain ⟨s, hs, hj⟩ := c1.2.2 j n hn
      simp only [List.mem_cons, List.not_mem_nil, or_false] at hs
      rcases hs with rfl | rfl
      · obtain ⟨s, hs, hj⟩ := a1.2.2 j n hj
        simp only [List.mem_cons, List.not_mem_nil, or_false] at hs
        rcases hs with rfl | rfl
        · exact ⟨_, by simp, hj⟩
        · exact ⟨_, by simp, hj⟩
      · obtain ⟨s, hs, hj⟩ := b1.2.2 j n hj
        simp only [List.mem_cons, List.not_mem_nil, or_false] at hs
        rcases hs with rfl | rfl
        · exact ⟨_, by simp, hj⟩
        · exact ⟨_, by simp, hj⟩
  · intro d hd idx hi
    rw [c2 d hd idx hi, a2 d ((c1.fits (by simp)).trans hd) idx hi,
      b2 d ((c1.fits (by simp)).trans hd) idx hi, Within, not_and_or, not_le, not_le]
    simp

theorem where3_ok {trunc : NdArray Bool} {new old r : NdArray ℝ} (h : where3 trunc new old = .ok r) :
    IsBroadcast [trunc.shape, new.shape, old.shape] r.shape ∧
    ∀ d, Fits r.shape d → ∀ idx ∈ indices d,
      entry r idx = if entry trunc idx = true then entry new idx else entry old idx := by
  unfold where3 at h
  simp only [bind, Except.bind] at h
  rcases hp : NdArray.map₂ (fun (t : Bool) (x : ℝ) => (t, x)) trunc new with e | p
  · rw [hp] at h; cases h
  rw [hp] at h
  simp only at h
  obtain ⟨p1, p2⟩ := map₂_ok hp
  obtain ⟨r1, r2⟩ := map₂_ok h
  refine ⟨p1.merge r1, fun d hd idx hi => ?_⟩
  rw [r2 d hd idx hi, p2 d ((r1.fits (by simp)).trans hd) idx hi]

theorem arrayLoop_ok {σ : Type} {normal : Normal σ} {z sigma : NdArray ℝ}
    {lower upper : NdArray EReal} {dims d : List ℕ}
    (hn : ∀ {s x s'}, normal s z sigma = .ok (x, s') → x.shape = dims)
    (hd : IsBroadcast [dims, lower.shape, upper.shape] d) :
    ∀ (fuel : ℕ) (zphot : NdArray ℝ) (s : σ) {r : NdArray ℝ} {s' : σ}, Fits dims zphot.shape →
      Fits zphot.shape d →
      arrayLoop normal z sigma lower upper fuel zphot s = some (.ok (r, s')) →
      Fits dims r.shape ∧ Fits r.shape d ∧
      ∃ xs, xs.length < fuel ∧ Calls normal z sigma s xs s' ∧ (xs = [] → r = zphot) ∧
        (xs ≠ [] → r.shape = d) ∧ ∀ idx ∈ indices d,
        open Classical in ((zphot :: xs).map fun x => entry x idx).find?
          (fun v : ℝ => decide (Within lower upper idx v)) = some (entry r idx)
  | 0, zphot, s, r, s', _, _, h => by simp [arrayLoop] at h
  | fuel + 1, zphot, s, r, s', hz, hz', h => by
    have hl : Fits lower.shape d := hd.fits (by simp)
    have hu : Fits upper.shape d := hd.fits (by simp)
    rw [arrayLoop] at h
    rcases ho : truncMask zphot lower upper with e | trunc
    · rw [ho] at h; cases h
    rw [ho] at h
    simp only at h
    obtain ⟨t1, t2⟩ := truncMask_ok ho
    have tf : Fits trunc.shape d := t1.least (by simp [hz', hl, hu])
    have te : trunc.shape = d := by
      refine tf.antisymm (hd.least ?_)
      intro s hs
      simp only [List.mem_cons, List.not_mem_nil, or_false] at hs
      rcases hs with rfl | rfl | rfl
      · exact hz.trans (t1.fits (by simp))
      · exact t1.fits (by simp)
      · exact t1.fits (by simp)
    split_ifs at h with hcount
    · rcases hc : normal s z sigma with e | ⟨x, s1⟩
      · rw [hc] at h; cases h
      rw [hc] at h
      simp only at h
      rcases hw : where3 trunc x zphot with e | zphot'
      · rw [hw] at h; cases h
      rw [hw] at h
      simp only at h
      obtain ⟨w1, w2⟩ := where3_ok hw
      have hxs := hn hc
      have wf : Fits zphot'.shape d := w1.least (by
        simp only [List.mem_cons, List.not_mem_nil, or_false, forall_eq_or_imp, forall_eq]
        exact ⟨tf, by rw [hxs]; exact hd.fits (by simp), hz'⟩)
      have we : zphot'.shape = d := by
        refine wf.antisymm ?_
        rw [← te]
        exact w1.fits (by simp)
      obtain ⟨h1, h2, xs, h0, h3, h4, h5, h6⟩ := arrayLoop_ok hn hd fuel zphot' s1
        (hz.trans (w1.fits (by simp))) wf h
      refine ⟨h1, h2, x :: xs, by simpa using h0, .cons hc h3, by simp, ?_, ?_⟩
      · intro _
        by_cases hx : xs = []
        · rw [h4 hx, we]
        · exact h5 hx
      · intro idx hi
        have h7 := h6 idx hi
        have h8 := w2 d wf idx hi
        have h9 := t2 d tf idx hi
        by_cases hW : Within lower upper idx (entry zphot idx)
        · rw [if_neg (by rw [h9]; exact not_not.2 hW)] at h8
          rw [List.map_cons, List.find?_cons_of_pos (by simpa using hW)]
          rw [List.map_cons, List.find?_cons_of_pos (by rw [h8]; simpa using hW), h8] at h7
          exact h7
        · rw [if_pos (h9.2 hW)] at h8
          rw [List.map_cons, List.find?_cons_of_neg (by simpa using hW), List.map_cons]
          rw [List.map_cons, h8] at h7
          exact h7
    · cases h
      refine ⟨hz, hz', [], by simp, .nil _, fun _ => rfl, by simp, fun idx hi => ?_⟩
      have hfalse : entry trunc idx ≠ true := by
        intro ht
        apply hcount
        apply List.count_pos_iff.2
        rw [← ht]
        exact List.mem_map_of_mem (fits_mem_indices tf hi)
      rw [Ne, t2 d tf idx hi, not_not] at hfalse
      simp [hfalse]

/-! ## The function -/

/-- The bounds that are used: zero and infinity by default. -/
noncomputable def lowerOf (lower : Option (NdArray EReal)) (idx : List ℕ) : EReal :=
  match lower with
  | none => 0
  | some l => entry l idx

/-- See `lowerOf`. -/
noncomputable def upperOf (upper : Option (NdArray EReal)) (idx : List ℕ) : EReal :=
  match upper with
  | none => ⊤
  | some u => entry u idx

/-- The shape of the bounds. -/
def boundShapes (lower upper : Option (NdArray EReal)) : List (List ℕ) :=
  (lower.map NdArray.shape).toList ++ (upper.map NdArray.shape).toList

theorem boundArrays_entry (lower upper : Option (NdArray EReal)) (idx : List ℕ) :
    entry (boundArrays lower upper).1 idx = lowerOf lower idx ∧
    entry (boundArrays lower upper).2 idx = upperOf upper idx := by
  rcases lower with _ | l <;> rcases upper with _ | u <;> exact ⟨rfl, rfl⟩

theorem boundArrays_shape (lower upper : Option (NdArray EReal)) {dims d : List ℕ} :
    IsBroadcast [dims, (boundArrays lower upper).1.shape, (boundArrays lower upper).2.shape] d ↔
      IsBroadcast (dims :: boundShapes lower upper) d := by
  rcases lower with _ | l <;> rcases upper with _ | u <;>
    simp [boundArrays, boundShapes, IsBroadcast]

/-- **C66.** If `gaussian_phz` returns, then `d` is the broadcast shape of redshifts, errors and
bounds, the generator has been called once with the redshifts and then some times with the
broadcast redshifts, and every object has received the first of its draws that is within its
bounds.  The result has the shape `dims` of the redshifts and errors, or the shape `d` if there was
more than one call. -/
theorem gaussian_phz_first_accepted {σ : Type} {normal : Normal σ} (hn : NormalLaw normal)
    {fuel : ℕ} {s s' : σ} {z sigma0 r : NdArray ℝ} {lower upper : Option (NdArray EReal)}
    (h : gaussianPhz normal fuel s z sigma0 lower upper = some (.ok (r, s'))) :
    ∃ dims d z' sigma x s₁ xs, IsBroadcast [z.shape, sigma0.shape] dims ∧
      IsBroadcast (dims :: boundShapes lower upper) d ∧
      (z'.shape = dims ∧ ∀ idx ∈ indices dims, z'.get idx = entry z idx) ∧
      (sigma.shape = dims ∧
        ∀ idx ∈ indices dims, sigma.get idx = (1 + entry z idx) * entry sigma0 idx) ∧
      normal s z sigma = .ok (x, s₁) ∧ Calls normal z' sigma s₁ xs s' ∧
      xs.length < fuel ∧ (r.shape = if dims = [] ∨ xs = [] then dims else d) ∧
      ∀ idx ∈ indices d, open Classical in ((x :: xs).map fun x => entry x idx).find?
        (fun v : ℝ => decide (lowerOf lower idx ≤ v ∧ (v : EReal) ≤ upperOf upper idx)) =
          some (entry r idx) := by
  classical
  unfold gaussianPhz at h
  rcases hb : boundArrays lower upper with ⟨lo, up⟩
  have hbe : ∀ idx, entry lo idx = lowerOf lower idx ∧ entry up idx = upperOf upper idx :=
    fun idx => by
      have := boundArrays_entry lower upper idx
      rw [hb] at this
      exact this
  have hbs : ∀ {dims d}, IsBroadcast [dims, lo.shape, up.shape] d ↔
      IsBroadcast (dims :: boundShapes lower upper) d := fun {dims d} => by
    have := boundArrays_shape lower upper (dims := dims) (d := d)
    rw [hb] at this
    exact this
  rw [hb] at h
  simp only at h
  rcases hm : NdArray.map₂ (fun z s0 : ℝ => (1 + z) * s0) z sigma0 with e | sigma
  · rw [hm] at h; cases h
  rw [hm] at h
  simp only at h
  obtain ⟨m1, m2⟩ := map₂_ok hm
  rcases hx : normal s z sigma with e | ⟨x, s₁⟩
  · rw [hx] at h; cases h
  rw [hx] at h
  simp only at h
  have hzf : Fits z.shape sigma.shape := m1.fits (by simp)
  have hxs : x.shape = sigma.shape := by
    have h1 := hn.shape hx
    exact (h1.least (by simp [hzf, Fits.refl])).antisymm (h1.fits (by simp))
  by_cases c1 : lo.shape.length = up.shape.length ∧ up.shape.length ≠ 0 ∧
      ¬ (lo.shape = up.shape ∧ up.shape = x.shape)
  · rw [if_pos c1] at h; cases h
  rw [if_neg c1] at h
  rcases ho : NdArray.map₂ (fun l u : EReal => decide (l < u)) lo up with e | ordered
  · rw [ho] at h; cases h
  rw [ho] at h
  simp only at h
  obtain ⟨o1, -⟩ := map₂_ok ho
  by_cases c2 : ¬ (ordered.ravel.all id = true)
  · rw [if_pos c2] at h; cases h
  rw [if_neg c2] at h
  by_cases c3 : sigma.shape = []
  · -- a single object
    rw [if_pos c3] at h
    have hbd : IsBroadcast [[], lo.shape, up.shape] ordered.shape := by
      refine ⟨?_, ?_, ?_⟩
      · intro t ht
        rcases List.mem_cons.1 ht with rfl | ht
        · simp
        · exact o1.1 t ht
      · intro t ht
        rcases List.mem_cons.1 ht with rfl | ht
        · simp
        · exact o1.2.1 t ht
      · intro j n hj
        obtain ⟨t, ht, h2⟩ := o1.2.2 j n hj
        exact ⟨t, List.mem_cons_of_mem _ ht, h2⟩
    have hz : z.shape = [] := by
      have := hzf.1
      rw [c3] at this
      simpa using this
    obtain ⟨xs, h0, h1, h2, h3⟩ := scalarLoop_ok (d := ordered.shape) (fun {t y t'} hy => by
      have h1 := hn.shape hy
      have : Fits y.shape [] := h1.least (by simp [hz, c3, Fits.refl])
      exact this.trans (Fits.nil _)) (o1.fits (by simp)) (o1.fits (by simp)) fuel x s₁
      (by rw [hxs, c3]; exact Fits.nil _) h
    refine ⟨[], ordered.shape, z, sigma, x, s₁, xs, by rw [c3] at m1; exact m1, hbs.1 hbd,
      ⟨hz, fun idx hi => ?_⟩, ⟨c3, fun idx hi => ?_⟩, hx, h1, h0, ?_, fun idx hi => ?_⟩
    · rw [entry_self (by rw [hz]; exact hi)]
    · rw [← entry_self (by rw [c3]; exact hi), m2 [] (by rw [c3]; exact Fits.refl _) idx hi]
    · rw [if_pos (.inl rfl)]
      have hcall : ∀ {t xs t'}, Calls normal z sigma t xs t' → ∀ y ∈ xs, y.shape = [] := by
        intro t xs t' hcs
        induction hcs with
        | nil => simp
        | cons hy _ ih =>
          intro w hw
          rcases List.mem_cons.1 hw with rfl | hw
          · have h1 := hn.shape hy
            have : Fits w.shape [] := h1.least (by simp [hz, c3, Fits.refl])
            simpa using this.1
          · exact ih w hw
      rcases List.mem_cons.1 h2 with rfl | h2
      · rw [hxs, c3]
      · exact hcall h1 r h2
    · have := h3 idx hi
      simp only [Within, (hbe idx).1, (hbe idx).2] at this
      exact this
  · rw [if_neg c3, broadcastTo_ok hzf.1 hzf.2] at h
    simp only at h
    have hcalls : ∀ {t y t'}, normal t
        (⟨sigma.shape, fun i => z.get (broadcastIndex z.shape i)⟩ : NdArray ℝ) sigma = .ok (y, t') →
        y.shape = sigma.shape := by
      intro t y t' hy
      have h1 := hn.shape hy
      exact (h1.least (by simp [Fits.refl])).antisymm (h1.fits (by simp))
    -- the first mask gives the shape `d`
    obtain ⟨d, hd⟩ : ∃ d, IsBroadcast [sigma.shape, lo.shape, up.shape] d := by
      cases fuel with
      | zero => simp [arrayLoop] at h
      | succ fuel =>
        rw [arrayLoop] at h
        rcases ht : truncMask x lo up with e | trunc
        · rw [ht] at h; cases h
        · have := (truncMask_ok ht).1
          rw [hxs] at this
          exact ⟨_, this⟩
    obtain ⟨h1, h2, xs, h0, h3, h4, h5, h6⟩ := arrayLoop_ok hcalls hd fuel x s₁
      (by rw [hxs]; exact Fits.refl _) (by rw [hxs]; exact hd.fits (by simp)) h
    refine ⟨sigma.shape, d, ⟨sigma.shape, fun i => z.get (broadcastIndex z.shape i)⟩, sigma, x, s₁,
      xs, m1, hbs.1 hd, ⟨rfl, fun idx _ => rfl⟩, ⟨rfl, fun idx hi => ?_⟩, hx, h3, h0, ?_, fun idx hi => ?_⟩
    · rw [← entry_self hi, m2 _ (Fits.refl _) idx hi]
    · by_cases hx0 : xs = []
      · rw [if_pos (.inr hx0), h4 hx0, hxs]
      · rw [if_neg (by simp [c3, hx0]), h5 hx0]
    · have := h6 idx hi
      simp only [Within, (hbe idx).1, (hbe idx).2] at this
      exact this

/-- The shapes of the bounds that are documented: scalars, or the shape of the redshifts. -/
def BoundsFit (dims : List ℕ) (lower upper : Option (NdArray EReal)) : Prop :=
  ∀ t ∈ boundShapes lower upper, t = [] ∨ t = dims

/-- **C66.** With bounds that are scalars or of the same shape as the redshifts, the result has
this shape, and every entry is within the bounds of its own object. -/
theorem gaussian_phz_bounds {σ : Type} {normal : Normal σ} (hn : NormalLaw normal)
    {fuel : ℕ} {s s' : σ} {z sigma0 r : NdArray ℝ} {lower upper : Option (NdArray EReal)}
    {dims : List ℕ} (hd : IsBroadcast [z.shape, sigma0.shape] dims)
    (hb : BoundsFit dims lower upper)
    (h : gaussianPhz normal fuel s z sigma0 lower upper = some (.ok (r, s'))) :
    r.shape = dims ∧ ∀ idx ∈ indices dims,
      lowerOf lower idx ≤ r.get idx ∧ (r.get idx : EReal) ≤ upperOf upper idx := by
  classical
  obtain ⟨dims', d, z', sigma, x, s₁, xs, h1, h2, -, -, -, -, -, h7, h8⟩ :=
    gaussian_phz_first_accepted hn h
  obtain rfl := hd.unique h1
  have hdd : d = dims := by
    refine Fits.antisymm (h2.least fun t ht => ?_) (h2.fits (by simp))
    rcases List.mem_cons.1 ht with rfl | ht
    · exact Fits.refl _
    · rcases hb t ht with rfl | rfl
      · exact Fits.nil _
      · exact Fits.refl _
  have hr : r.shape = dims := by
    rw [hdd, ite_self] at h7
    exact h7
  refine ⟨hr, fun idx hi => ?_⟩
  have := List.find?_some (h8 idx (by rw [hdd]; exact hi))
  rw [decide_eq_true_eq, entry_self (by rw [hr]; exact hi)] at this
  exact this

/-- **C66**, for bounds of any shape: the entries are within the bounds wherever the index makes
sense. -/
theorem gaussian_phz_bounds_any {σ : Type} {normal : Normal σ} (hn : NormalLaw normal)
    {fuel : ℕ} {s s' : σ} {z sigma0 r : NdArray ℝ} {lower upper : Option (NdArray EReal)}
    (h : gaussianPhz normal fuel s z sigma0 lower upper = some (.ok (r, s'))) :
    ∃ d, IsBroadcast (z.shape :: sigma0.shape :: boundShapes lower upper) d ∧
      ∀ idx ∈ indices d, lowerOf lower idx ≤ (entry r idx : ℝ) ∧
        ((entry r idx : ℝ) : EReal) ≤ upperOf upper idx := by
  classical
  obtain ⟨dims, d, z', sigma, x, s₁, xs, h1, h2, -, -, -, -, -, h7, h8⟩ :=
    gaussian_phz_first_accepted hn h
  refine ⟨d, ⟨?_, ?_, ?_⟩, fun idx hi => ?_⟩
  · intro t ht
    simp only [List.mem_cons] at ht
    rcases ht with rfl | rfl | ht
    · exact ((h1.fits (by simp)).trans (h2.fits (by simp))).1
    · exact ((h1.fits (by simp)).trans (h2.fits (by simp))).1
    · exact (h2.fits (List.mem_cons_of_mem _ ht)).1
  · intro t ht
    simp only [List.mem_cons] at ht
    rcases ht with rfl | rfl | ht
    · exact ((h1.fits (by simp)).trans (h2.fits (by simp))).2
    · exact ((h1.fits (by simp)).trans (h2.fits (by simp))).2
    · exact (h2.fits (List.mem_cons_of_mem _ ht)).2
  · intro j n hj
    obtain ⟨t, ht, htj⟩ := h2.2.2 j n hj
    rcases List.mem_cons.1 ht with rfl | ht
    · obtain ⟨t, ht, htj⟩ := h1.2.2 j n htj
      simp only [List.mem_cons, List.not_mem_nil, or_false] at ht
      rcases ht with rfl | rfl
      · exact ⟨_, by simp, htj⟩
      · exact ⟨_, by simp, htj⟩
    · exact ⟨t, by simp [ht], htj⟩
  · have := List.find?_some (h8 idx hi)
    rwa [decide_eq_true_eq] at this

/-- **C66.** Every entry has been drawn for its own object: whatever relation `drawn` holds between
the location, the scale and the value of each draw of the generator, it holds between the redshift
`z`, the error `(1 + z) σ₀` and the photometric redshift of each object. -/
theorem gaussian_phz_drawn {σ : Type} {normal : Normal σ} (hn : NormalLaw normal)
    {drawn : ℝ → ℝ → ℝ → Prop} (hdr : ∀ {s loc scale x s'}, normal s loc scale = .ok (x, s') →
      ∀ idx ∈ indices x.shape, drawn (entry loc idx) (entry scale idx) (x.get idx))
    {fuel : ℕ} {s s' : σ} {z sigma0 r : NdArray ℝ} {lower upper : Option (NdArray EReal)}
    {d : List ℕ} (hd : IsBroadcast (z.shape :: sigma0.shape :: boundShapes lower upper) d)
    (h : gaussianPhz normal fuel s z sigma0 lower upper = some (.ok (r, s'))) :
    ∀ idx ∈ indices d, drawn (entry z idx) ((1 + entry z idx) * entry sigma0 idx) (entry r idx) := by
  classical
  obtain ⟨dims, d', z', sigma, x, s₁, xs, h1, h2, h3, h4, h5, h6, h0, h7, h8⟩ :=
    gaussian_phz_first_accepted hn h
  have hfd : Fits dims d := h1.least fun t ht => by
    simp only [List.mem_cons, List.not_mem_nil, or_false] at ht
    rcases ht with rfl | rfl
    · exact hd.fits (by simp)
    · exact hd.fits (by simp)
  have hdd : d' = d := by
    refine Fits.antisymm (h2.least fun t ht => ?_) (hd.least fun t ht => ?_)
    · rcases List.mem_cons.1 ht with rfl | ht
      · exact hfd
      · exact hd.fits (by simp [ht])
    · simp only [List.mem_cons] at ht
      rcases ht with rfl | rfl | ht
      · exact (h1.fits (by simp)).trans (h2.fits (by simp))
      · exact (h1.fits (by simp)).trans (h2.fits (by simp))
      · exact h2.fits (by simp [ht])
  subst hdd
  have hzf : Fits z.shape dims := h1.fits (by simp)
  have hs0f : Fits sigma0.shape dims := h1.fits (by simp)
  have one : ∀ {t loc y t'}, (loc.shape = z.shape ∨ loc.shape = dims) →
      (∀ idx ∈ indices d', entry loc idx = entry z idx) → normal t loc sigma = .ok (y, t') →
      ∀ idx ∈ indices d',
        drawn (entry z idx) ((1 + entry z idx) * entry sigma0 idx) (entry y idx) := by
    intro t loc y t' hls hle hy idx hi
    have hsh := hn.shape hy
    have hys : y.shape = dims := by
      refine (hsh.least fun t ht => ?_).antisymm ?_
      · simp only [List.mem_cons, List.not_mem_nil, or_false] at ht
        rcases ht with rfl | rfl
        · rcases hls with e | e
          · rw [e]; exact hzf
          · rw [e]; exact Fits.refl _
        · rw [h4.1]; exact Fits.refl _
      · rw [← h4.1]; exact hsh.fits (by simp)
    have hlf : Fits loc.shape y.shape := hsh.fits (by simp)
    have hsf : Fits sigma.shape y.shape := hsh.fits (by simp)
    have hyd : Fits y.shape d' := by rw [hys]; exact hfd
    have hmem := fits_mem_indices hyd hi
    have := hdr hy _ hmem
    have e1 : entry loc (broadcastIndex y.shape idx) = entry loc idx := by
      rw [entry, broadcastIndex_trans hlf hyd hi, entry]
    have e2 : entry sigma (broadcastIndex y.shape idx) =
        (1 + entry z idx) * entry sigma0 idx := by
      rw [hys] at hmem hyd ⊢
      rw [entry_self (by rw [h4.1]; exact hmem), h4.2 _ hmem]
      simp only [entry]
      rw [broadcastIndex_trans hzf hyd hi, broadcastIndex_trans hs0f hyd hi]
    rw [e1, e2, hle idx hi] at this
    exact this
  intro idx hi
  have hmem := List.mem_of_find?_eq_some (h8 idx hi)
  obtain ⟨y, hy, hye⟩ := List.mem_map.1 hmem
  rw [← hye]
  have hcalls : ∀ {t xs t'}, Calls normal z' sigma t xs t' → ∀ y ∈ xs, ∃ t t',
      normal t z' sigma = .ok (y, t') := by
    intro t xs t' hcs
    induction hcs with
    | nil => simp
    | cons hy _ ih =>
      intro w hw
      rcases List.mem_cons.1 hw with rfl | hw
      · exact ⟨_, _, hy⟩
      · exact ih w hw
  rcases List.mem_cons.1 hy with rfl | hy
  · exact one (.inl rfl) (fun _ _ => rfl) h5 idx hi
  · obtain ⟨t, t', ht⟩ := hcalls h6 y hy
    refine one (.inr h3.1) (fun idx hi => ?_) ht idx hi
    have hm := fits_mem_indices hfd hi
    rw [entry, h3.1, h3.2 _ hm, entry, broadcastIndex_trans hzf hfd hi, entry]

/-- **C66.** Inconsistent bounds raise `ValueError`: a lower bound that is not below the upper
bound, or bounds with the same number of axes, at least one, that do not have the shape of the
redshifts. -/
theorem gaussian_phz_inconsistent {σ : Type} {normal : Normal σ} (hn : NormalLaw normal)
    (fuel : ℕ) (s : σ) (z sigma0 : NdArray ℝ) {lower upper : Option (NdArray EReal)} {dims : List ℕ}
    (hd : IsBroadcast [z.shape, sigma0.shape] dims)
    (hbad : (∃ e, IsBroadcast (boundShapes lower upper) e ∧
        ∃ idx ∈ indices e, upperOf upper idx ≤ lowerOf lower idx) ∨
      ((∀ t ∈ boundShapes lower upper, ∀ t' ∈ boundShapes lower upper, t.length = t'.length) ∧
        ∃ t ∈ boundShapes lower upper, t ≠ [] ∧ t ≠ dims)) :
    ∃ r, gaussianPhz normal fuel s z sigma0 lower upper = some (.error (.value r)) := by
  classical
  unfold gaussianPhz
  have hbe := boundArrays_entry lower upper
  have hbs : ∀ {d}, IsBroadcast [(boundArrays lower upper).1.shape,
      (boundArrays lower upper).2.shape] d ↔ IsBroadcast (boundShapes lower upper) d := by
    intro d
    rcases lower with _ | l <;> rcases upper with _ | u <;>
      simp [boundArrays, boundShapes, IsBroadcast]
  have hbl : ((∀ t ∈ boundShapes lower upper, ∀ t' ∈ boundShapes lower upper,
      t.length = t'.length) ∧ ∃ t ∈ boundShapes lower upper, t ≠ [] ∧ t ≠ dims) →
      (boundArrays lower upper).1.shape.length = (boundArrays lower upper).2.shape.length ∧
      (boundArrays lower upper).2.shape.length ≠ 0 ∧
      ¬ ((boundArrays lower upper).1.shape = (boundArrays lower upper).2.shape ∧
        (boundArrays lower upper).2.shape = dims) := by
    rintro ⟨h1, t, h2, h3, h4⟩
    rcases lower with _ | l <;> rcases upper with _ | u
    · simp [boundShapes] at h2
    · simp only [boundShapes, Option.map_none, Option.toList_none, Option.map_some,
        Option.toList_some, List.nil_append, List.mem_singleton] at h2
      subst h2
      exact ⟨rfl, by simpa [boundArrays] using h3, fun h => h4 h.2⟩
    · simp only [boundShapes, Option.map_none, Option.toList_none, Option.map_some,
        Option.toList_some, List.append_nil, List.mem_singleton] at h2
      subst h2
      exact ⟨rfl, by simpa [boundArrays] using h3, fun h => h4 h.2⟩
    · have hl := h1 l.shape (by simp [boundShapes]) u.shape (by simp [boundShapes])
      simp only [boundShapes, Option.map_some, Option.toList_some, List.cons_append,
        List.nil_append, List.mem_cons, List.not_mem_nil, or_false] at h2
      refine ⟨hl, ?_, fun h => ?_⟩
      · show u.shape.length ≠ 0
        rcases h2 with rfl | rfl
        · rw [← hl]; simpa using h3
        · simpa using h3
      · have ha : l.shape = u.shape := h.1
        have hb : u.shape = dims := h.2
        rcases h2 with rfl | rfl
        · exact h4 (ha.trans hb)
        · exact h4 hb
  generalize boundArrays lower upper = b at *
  obtain ⟨lo, up⟩ := b
  simp only at hbe hbs hbl ⊢
  rcases hm : NdArray.map₂ (fun z s0 : ℝ => (1 + z) * s0) z sigma0 with e | sigma
  · exact absurd ⟨_, hd⟩ (map₂_error hm).2
  simp only
  obtain ⟨m1, -⟩ := map₂_ok hm
  have hsd := m1.unique hd
  have hzs : IsBroadcast [z.shape, sigma.shape] dims := by
    rw [hsd]
    refine isBroadcast_pair.1 ?_
    rw [broadcastShapes, broadcastRev_to]
    · simp
    · simpa using hd.1 _ (by simp)
    · exact hd.2.1 _ (by simp)
  obtain ⟨x, s₁, hx⟩ := hn.total s hzs
  rw [hx]
  simp only
  have hxs : x.shape = dims := (hn.shape hx).unique hzs
  by_cases c1 : lo.shape.length = up.shape.length ∧ up.shape.length ≠ 0 ∧
      ¬ (lo.shape = up.shape ∧ up.shape = x.shape)
  · rw [if_pos c1]
    exact ⟨"lower and upper must best scalars or have the same shape as z", rfl⟩
  rw [if_neg c1]
  rcases ho : NdArray.map₂ (fun l u : EReal => decide (l < u)) lo up with e | ordered
  · obtain ⟨⟨r, rfl⟩, -⟩ := map₂_error ho
    exact ⟨r, rfl⟩
  simp only
  rcases hbad with ⟨e, he, idx, hi, hle⟩ | h2
  · obtain ⟨o1, o2⟩ := map₂_ok ho
    obtain rfl := (hbs.1 o1).unique he
    have hf := o2 _ (Fits.refl _) idx hi
    rw [entry_self hi, (hbe idx).1, (hbe idx).2] at hf
    rw [if_pos]
    · exact ⟨"requires lower < upper", rfl⟩
    · intro hall
      have := List.all_eq_true.1 hall _ (List.mem_map_of_mem hi)
      rw [hf] at this
      simp only [id_eq, decide_eq_true_eq] at this
      exact not_lt_of_ge hle this
  · exact absurd (by rw [hxs]; exact hbl h2) c1

/-! ## Termination -/

/-- More iterations do not change a result. -/
theorem gaussian_phz_fuel {σ : Type} {normal : Normal σ} {fuel : ℕ} {s : σ}
    {z sigma0 : NdArray ℝ} {lower upper : Option (NdArray EReal)} {out}
    (h : gaussianPhz normal fuel s z sigma0 lower upper = some out) {fuel' : ℕ}
    (hf : fuel ≤ fuel') : gaussianPhz normal fuel' s z sigma0 lower upper = some out := by
  have h1 : ∀ {z sigma lo up} (f : ℕ) (x : NdArray ℝ) (s : σ) {out},
      scalarLoop normal z sigma lo up f x s = some out →
      scalarLoop normal z sigma lo up (f + 1) x s = some out := by
    intro z sigma lo up f
    induction f with
    | zero => intro x s out h; simp [scalarLoop] at h
    | succ f ih =>
      intro x s out
      rw [scalarLoop, scalarLoop]
      rcases outside x lo up with e | b
      · exact id
      · cases b with
        | false => exact id
        | true =>
          simp only
          rcases normal s z sigma with e | ⟨y, t⟩
          · exact id
          · exact ih y t
  have h2 : ∀ {z sigma lo up} (f : ℕ) (x : NdArray ℝ) (s : σ) {out},
      arrayLoop normal z sigma lo up f x s = some out →
      arrayLoop normal z sigma lo up (f + 1) x s = some out := by
    intro z sigma lo up f
    induction f with
    | zero => intro x s out h; simp [arrayLoop] at h
    | succ f ih =>
      intro x s out
      rw [arrayLoop, arrayLoop]
      rcases truncMask x lo up with e | tr
      · exact id
      · simp only
        by_cases hc : tr.ravel.count true > 0
        · rw [if_pos hc, if_pos hc]
          rcases normal s z sigma with e | ⟨y, t⟩
          · exact id
          · simp only
            rcases where3 tr y x with e | w
            · exact id
            · exact ih w t
        · rw [if_neg hc, if_neg hc]
          exact id
  induction fuel', hf using Nat.le_induction with
  | base => exact h
  | succ f _ ih =>
    clear h
    revert ih
    unfold gaussianPhz
    generalize boundArrays lower upper = b at *
    obtain ⟨lo, up⟩ := b
    simp only
    rcases NdArray.map₂ (fun z s0 : ℝ => (1 + z) * s0) z sigma0 with e | sigma
    · exact id
    simp only
    rcases normal s z sigma with e | ⟨x, s₁⟩
    · exact id
    simp only
    rcases NdArray.map₂ _ lo up with e | ordered
    · exact id
    simp only
    split_ifs
    · exact id
    · exact h1 _ _ _
    · rcases broadcastTo z sigma.shape with e | z'
      · exact id
      · exact h2 _ _ _
    · exact id

theorem truncMask_total {zphot : NdArray ℝ} {lower upper : NdArray EReal} {d : List ℕ}
    (hz : Fits zphot.shape d) (hl : Fits lower.shape d) (hu : Fits upper.shape d) :
    ∃ c, truncMask zphot lower upper = .ok c := by
  classical
  obtain ⟨a, ha⟩ := exists_isBroadcast hz hl
  obtain ⟨b, hb⟩ := exists_isBroadcast hz hu
  obtain ⟨a', ha', has⟩ := map₂_total (fun (z : ℝ) (l : EReal) => decide ((z : EReal) < l)) ha
  obtain ⟨b', hb', hbs⟩ := map₂_total (fun (z : ℝ) (u : EReal) => decide (u < (z : EReal))) hb
  have h1 : Fits a d := ha.least (by simp [hz, hl])
  have h2 : Fits b d := hb.least (by simp [hz, hu])
  obtain ⟨c, hc⟩ := exists_isBroadcast h1 h2
  obtain ⟨c', hc', -⟩ := map₂_total (· || ·) (a := a') (b := b') (by rw [has, hbs]; exact hc)
  refine ⟨c', ?_⟩
  unfold truncMask
  simp only [bind, Except.bind]
  rw [ha']
  simp only
  rw [hb']
  exact hc'

theorem arrayLoop_terminates {σ : Type} {normal : Normal σ} {z sigma : NdArray ℝ}
    {lower upper : NdArray EReal} {d : List ℕ}
    (hn : ∀ {s x s'}, normal s z sigma = .ok (x, s') → Fits x.shape d)
    (hl : Fits lower.shape d) (hu : Fits upper.shape d) {xs : List (NdArray ℝ)} {s t : σ}
    (hc : Calls normal z sigma s xs t) :
    ∀ (zphot : NdArray ℝ), Fits zphot.shape d →
      (∀ e, IsBroadcast [zphot.shape, lower.shape, upper.shape] e → e = d) →
      (∀ idx ∈ indices d, ∃ y ∈ zphot :: xs, Within lower upper idx (entry y idx)) →
      ∃ out, arrayLoop normal z sigma lower upper (xs.length + 1) zphot s = some (.ok out) := by
  classical
  induction hc with
  | nil s =>
    intro zphot hz hzd hw
    obtain ⟨c', htr⟩ := truncMask_total hz hl hu
    obtain ⟨t1, t2⟩ := truncMask_ok htr
    have tf : Fits c'.shape d := t1.least (by simp [hz, hl, hu])
    refine ⟨(zphot, s), ?_⟩
    rw [arrayLoop, htr]
    simp only
    rw [if_neg]
    intro hcount
    obtain ⟨idx, hidx, hv⟩ := List.mem_map.1 (List.count_pos_iff.1 hcount)
    rw [hzd _ t1] at hidx
    have h1 : entry c' idx = true := by rw [entry_self (by rw [hzd _ t1]; exact hidx), hv]
    rw [t2 d tf idx hidx] at h1
    obtain ⟨y, hy, hyw⟩ := hw idx hidx
    have : y = zphot := by simpa using hy
    subst this
    exact h1 hyw
  | @cons s s₁ s₂ x xs hx _ ih =>
    intro zphot hz hzd hw
    obtain ⟨c', htr⟩ := truncMask_total hz hl hu
    obtain ⟨t1, t2⟩ := truncMask_ok htr
    have tf : Fits c'.shape d := t1.least (by simp [hz, hl, hu])
    rw [List.length_cons, arrayLoop, htr]
    simp only
    split_ifs with hcount
    · rw [hx]
      simp only
      have hxf := hn hx
      obtain ⟨p, hp⟩ := exists_isBroadcast tf hxf
      obtain ⟨p', hp', hps⟩ := map₂_total (fun (t : Bool) (x : ℝ) => (t, x)) hp
      have hpd : Fits p d := hp.least (by simp [tf, hxf])
      obtain ⟨q, hq⟩ := exists_isBroadcast hpd hz
      obtain ⟨q', hq', hqs⟩ := map₂_total (fun (p : Bool × ℝ) (y : ℝ) => if p.1 then p.2 else y)
        (a := p') (b := zphot) (by rw [hps]; exact hq)
      have hwh : where3 c' x zphot = .ok q' := by
        unfold where3
        simp only [bind, Except.bind]
        rw [hp']
        exact hq'
      obtain ⟨w1, w2⟩ := where3_ok hwh
      have wf : Fits q'.shape d := w1.least (by
        simp only [List.mem_cons, List.not_mem_nil, or_false, forall_eq_or_imp, forall_eq]
        exact ⟨tf, hxf, hz⟩)
      rw [hwh]
      simp only
      refine ih q' wf ?_ ?_
      · intro e he
        refine Fits.antisymm (he.least (by simp [wf, hl, hu])) ?_
        rw [← hzd _ t1]
        exact (w1.fits (by simp)).trans (he.fits (by simp))
      · intro idx hi
        obtain ⟨y, hy, hyw⟩ := hw idx hi
        have h8 := w2 d wf idx hi
        have h9 := t2 d tf idx hi
        by_cases hW : Within lower upper idx (entry zphot idx)
        · rw [if_neg (by rw [h9]; exact not_not.2 hW)] at h8
          exact ⟨q', by simp, by rw [h8]; exact hW⟩
        · rw [if_pos (h9.2 hW)] at h8
          simp only [List.mem_cons] at hy
          rcases hy with rfl | rfl | hy
          · exact absurd hyw hW
          · exact ⟨q', by simp, by rw [h8]; exact hyw⟩
          · exact ⟨y, by simp [hy], hyw⟩
    · exact ⟨_, rfl⟩

theorem scalarLoop_terminates {σ : Type} {normal : Normal σ} {z sigma : NdArray ℝ}
    {lower upper : NdArray EReal}
    (hn : ∀ {s x s'}, normal s z sigma = .ok (x, s') → x.shape = [])
    (hl : lower.shape = []) (hu : upper.shape = []) {xs : List (NdArray ℝ)} {s t : σ}
    (hc : Calls normal z sigma s xs t) :
    ∀ (zphot : NdArray ℝ), zphot.shape = [] →
      (∃ y ∈ zphot :: xs, Within lower upper [] (entry y [])) →
      ∃ out, scalarLoop normal z sigma lower upper (xs.length + 1) zphot s = some (.ok out) := by
  classical
  have ho : ∀ {zphot : NdArray ℝ}, zphot.shape = [] → ∃ b, outside zphot lower upper = .ok b := by
    intro zphot hz
    have h1 : ∀ a : NdArray Bool, a.shape = [] → ∃ b, truth a = .ok b := by
      intro a ha
      unfold truth ravel
      rw [ha]
      exact ⟨_, rfl⟩
    have h2 : IsBroadcast [zphot.shape, lower.shape] [] := by rw [hz, hl]; exact isBroadcast_pair.1 rfl
    have h3 : IsBroadcast [zphot.shape, upper.shape] [] := by rw [hz, hu]; exact isBroadcast_pair.1 rfl
    obtain ⟨a, ha, has⟩ := map₂_total (fun (z : ℝ) (l : EReal) => decide ((z : EReal) < l)) h2
    obtain ⟨c, hc, hcs⟩ := map₂_total (fun (z : ℝ) (u : EReal) => decide (u < (z : EReal))) h3
    obtain ⟨ta, hta⟩ := h1 a has
    obtain ⟨tc, htc⟩ := h1 c hcs
    unfold outside
    simp only [bind, Except.bind]
    rw [ha]
    simp only
    rw [hta]
    simp only
    rw [hc]
    split_ifs
    · exact ⟨_, rfl⟩
    · exact ⟨tc, htc⟩
  induction hc with
  | nil s =>
    intro zphot hz hw
    obtain ⟨b, hb⟩ := ho hz
    have h1 := outside_ok hb (d := []) (idx := []) (by rw [hz]; exact Fits.refl _)
      (by rw [hl]; exact Fits.refl _) (by rw [hu]; exact Fits.refl _) (by simp [indices])
    obtain ⟨y, hy, hyw⟩ := hw
    have : y = zphot := by simpa using hy
    subst this
    rw [scalarLoop, hb]
    cases b with
    | false => exact ⟨_, rfl⟩
    | true => exact absurd hyw (h1.1 rfl)
  | @cons s s₁ s₂ x xs hx _ ih =>
    intro zphot hz hw
    obtain ⟨b, hb⟩ := ho hz
    have h1 := outside_ok hb (d := []) (idx := []) (by rw [hz]; exact Fits.refl _)
      (by rw [hl]; exact Fits.refl _) (by rw [hu]; exact Fits.refl _) (by simp [indices])
    rw [List.length_cons, scalarLoop, hb]
    cases b with
    | false => exact ⟨_, rfl⟩
    | true =>
      simp only
      rw [hx]
      refine ih x (hn hx) ?_
      obtain ⟨y, hy, hyw⟩ := hw
      rcases List.mem_cons.1 hy with rfl | hy
      · exact absurd hyw (h1.1 rfl)
      · exact ⟨y, hy, hyw⟩

/-- **C66.** `gaussian_phz` returns as soon as the generator has produced a value within the bounds
for every object, with consistent bounds (see `gaussian_phz_inconsistent`). -/
theorem gaussian_phz_terminates {σ : Type} {normal : Normal σ} (hn : NormalLaw normal)
    {s : σ} {z sigma0 : NdArray ℝ} {lower upper : Option (NdArray EReal)} {dims d : List ℕ}
    (hd : IsBroadcast [z.shape, sigma0.shape] dims)
    (hb : IsBroadcast (dims :: boundShapes lower upper) d) (h0 : dims = [] → d = [])
    (hlt : ∀ e, IsBroadcast (boundShapes lower upper) e → ∀ idx ∈ indices e,
      lowerOf lower idx < upperOf upper idx)
    (hsh : ¬ ((∀ t ∈ boundShapes lower upper, ∀ t' ∈ boundShapes lower upper,
      t.length = t'.length) ∧ ∃ t ∈ boundShapes lower upper, t ≠ [] ∧ t ≠ dims))
    {x : NdArray ℝ} {s₁ t : σ} {xs : List (NdArray ℝ)}
    (hx : normal s z ⟨dims, fun i => (1 + entry z i) * entry sigma0 i⟩ = .ok (x, s₁))
    (hcalls : Calls normal (if dims = [] then z else ⟨dims, fun i => entry z i⟩)
      ⟨dims, fun i => (1 + entry z i) * entry sigma0 i⟩ s₁ xs t)
    (hw : ∀ idx ∈ indices d, ∃ y ∈ x :: xs,
      lowerOf lower idx ≤ (entry y idx : ℝ) ∧ ((entry y idx : ℝ) : EReal) ≤ upperOf upper idx) :
    ∃ r s', gaussianPhz normal (xs.length + 1) s z sigma0 lower upper = some (.ok (r, s')) := by
  classical
  unfold gaussianPhz
  have hbe := boundArrays_entry lower upper
  have hbs' := boundArrays_shape lower upper (dims := dims) (d := d)
  have hbs : ∀ {d}, IsBroadcast [(boundArrays lower upper).1.shape,
      (boundArrays lower upper).2.shape] d ↔ IsBroadcast (boundShapes lower upper) d := by
    intro d
    rcases lower with _ | l <;> rcases upper with _ | u <;>
      simp [boundArrays, boundShapes, IsBroadcast]
  have hbl : (boundArrays lower upper).1.shape.length = (boundArrays lower upper).2.shape.length ∧
      (boundArrays lower upper).2.shape.length ≠ 0 ∧
      ¬ ((boundArrays lower upper).1.shape = (boundArrays lower upper).2.shape ∧
        (boundArrays lower upper).2.shape = dims) →
      ((∀ t ∈ boundShapes lower upper, ∀ t' ∈ boundShapes lower upper,
      t.length = t'.length) ∧ ∃ t ∈ boundShapes lower upper, t ≠ [] ∧ t ≠ dims) := by
    rintro ⟨h1, h2, h3⟩
    rcases lower with _ | l <;> rcases upper with _ | u
    · exact absurd rfl h2
    · refine ⟨by simp [boundShapes], u.shape, by simp [boundShapes], ?_, ?_⟩
      · simpa [boundArrays] using h2
      · exact fun h => h3 ⟨rfl, h⟩
    · refine ⟨by simp [boundShapes], l.shape, by simp [boundShapes], ?_, ?_⟩
      · simpa [boundArrays] using h2
      · exact fun h => h3 ⟨rfl, h⟩
    · have h1' : l.shape.length = u.shape.length := h1
      have h2' : u.shape.length ≠ 0 := h2
      refine ⟨by simp [boundShapes, h1'], ?_⟩
      by_cases hu : u.shape = dims
      · refine ⟨l.shape, by simp [boundShapes], fun h => h2' (by rw [← h1', h]; rfl), fun h => ?_⟩
        exact h3 ⟨h.trans hu.symm, hu⟩
      · exact ⟨u.shape, by simp [boundShapes], fun h => h2' (by rw [h]; rfl), hu⟩
  generalize boundArrays lower upper = b at *
  obtain ⟨lo, up⟩ := b
  simp only at hbe hbs hbs' hbl ⊢
  have hb3 := hbs'.2 hb
  have hm : NdArray.map₂ (fun z s0 : ℝ => (1 + z) * s0) z sigma0 =
      .ok ⟨dims, fun i => (1 + entry z i) * entry sigma0 i⟩ := by
    unfold NdArray.map₂
    rw [isBroadcast_pair.2 hd]
    rfl
  rw [hm]
  simp only
  rw [hx]
  simp only
  have hzf : Fits z.shape dims := hd.fits (by simp)
  have hxs : x.shape = dims := by
    have h1 := hn.shape hx
    exact (h1.least (by simp [hzf, Fits.refl])).antisymm (h1.fits (by simp))
  have hfd : Fits dims d := hb.fits (by simp)
  have hl : Fits lo.shape d := hb3.fits (by simp)
  have hu : Fits up.shape d := hb3.fits (by simp)
  rw [if_neg (fun h => hsh (hbl (by rw [hxs] at h; exact h)))]
  obtain ⟨e, he⟩ := exists_isBroadcast hl hu
  obtain ⟨o, ho, hoe⟩ := map₂_total (fun l u : EReal => decide (l < u)) he
  rw [ho]
  simp only
  rw [if_neg]
  swap
  · rw [not_not, List.all_eq_true]
    intro v hv
    obtain ⟨idx, hidx, rfl⟩ := List.mem_map.1 hv
    have h2 := (map₂_ok ho).2 _ (Fits.refl _) idx hidx
    rw [entry_self hidx, (hbe idx).1, (hbe idx).2] at h2
    rw [h2]
    simp only [id_eq, decide_eq_true_eq]
    rw [hoe] at hidx
    exact hlt e (hbs.1 he) idx hidx
  by_cases c3 : dims = []
  · rw [if_pos c3]
    have hd0 := h0 c3
    subst c3
    subst hd0
    have hz0 : z.shape = [] := by simpa using hzf.1
    have hz' : ∀ {t y t'}, normal t z ⟨[], fun i => (1 + entry z i) * entry sigma0 i⟩ = .ok (y, t') →
        y.shape = [] := by
      intro t y t' hy
      have : Fits y.shape [] := (hn.shape hy).least (by simp [hz0, Fits.refl])
      simpa using this.1
    rw [if_pos rfl] at hcalls
    obtain ⟨out, hout⟩ := scalarLoop_terminates (lower := lo) (upper := up) hz'
      (by simpa using hl.1) (by simpa using hu.1) hcalls x hxs (by
        obtain ⟨y, hy, h1, h2⟩ := hw [] (by simp [indices])
        exact ⟨y, hy, by rw [(hbe []).1]; exact h1, by rw [(hbe []).2]; exact h2⟩)
    exact ⟨out.1, out.2, hout⟩
  · rw [if_neg c3] at hcalls
    rw [if_neg c3, broadcastTo_ok (d := dims) hzf.1 hzf.2]
    simp only
    obtain ⟨out, hout⟩ := arrayLoop_terminates (d := d) (lower := lo) (upper := up) (fun {t y t'} hy => by
      have h1 := hn.shape hy
      have : Fits y.shape dims := h1.least (by simp [Fits.refl])
      exact this.trans hfd) hl hu hcalls x (by rw [hxs]; exact hfd) (fun e he => by
        rw [hxs] at he; exact he.unique hb3) (fun idx hi => by
        obtain ⟨y, hy, h1, h2⟩ := hw idx hi
        exact ⟨y, hy, by rw [(hbe idx).1]; exact h1, by rw [(hbe idx).2]; exact h2⟩)
    exact ⟨out.1, out.2, hout⟩

/-! ## Concrete cases -/

/-- A generator of constant arrays, for the examples. -/
def constNormal (c : ℕ → ℝ) : Normal ℕ := fun k loc scale =>
  match NdArray.map₂ (fun _ _ : ℝ => c k) loc scale with
  | .error e => .error e
  | .ok x => .ok (x, k + 1)

theorem constNormal_law (c : ℕ → ℝ) : NormalLaw (constNormal c) where
  shape := by
    intro s loc scale x s' h
    unfold constNormal at h
    rcases hm : NdArray.map₂ (fun _ _ : ℝ => c s) loc scale with e | y
    · rw [hm] at h; cases h
    · rw [hm] at h
      cases h
      exact (map₂_ok hm).1
  total := by
    intro s loc scale d h
    obtain ⟨x, hx, -⟩ := map₂_total (fun _ _ : ℝ => c s) h
    exact ⟨x, s + 1, by unfold constNormal; rw [hx]⟩

/-- The redshifts, errors and lower bounds of the examples: one redshift, two lower bounds. -/
noncomputable def exZ : NdArray ℝ := ⟨[1], fun _ => 1⟩

theorem constNormal_ok {c : ℕ → ℝ} (k : ℕ) {loc scale : NdArray ℝ}
    {d : List ℕ} (h : IsBroadcast [loc.shape, scale.shape] d) :
    constNormal c k loc scale = .ok (⟨d, fun _ => c k⟩, k + 1) := by
  unfold constNormal NdArray.map₂
  rw [isBroadcast_pair.2 h]

/-- The result for `exZ` with bounds zero, in shape `t`, and one. -/
theorem ex_phz {c : ℕ → ℝ} {k m : ℕ} {t d : List ℕ} (ht : IsBroadcast [[1], t, []] d)
    (hl : t.length ≠ 0) (h : ∃ j ≤ m, 0 ≤ c (k + j) ∧ c (k + j) ≤ 1) :
    ∃ r s', gaussianPhz (constNormal c) (m + 1) k exZ ⟨[], fun _ => 1⟩ (some ⟨t, fun _ => 0⟩)
      (some ⟨[], fun _ => 1⟩) = some (.ok (r, s')) := by
  have hb1 : IsBroadcast [[1], []] [1] := isBroadcast_pair.1 rfl
  have hb2 : IsBroadcast [[1], [1]] [1] := isBroadcast_pair.1 rfl
  have hcalls : ∀ (m k : ℕ) (loc scale : NdArray ℝ), IsBroadcast [loc.shape, scale.shape] [1] →
      Calls (constNormal c) loc scale k
        ((List.range' k m).map fun j => (⟨[1], fun _ => c j⟩ : NdArray ℝ)) (k + m) := by
    intro m
    induction m with
    | zero => intro k loc scale _; exact .nil _
    | succ m ih =>
      intro k loc scale hls
      rw [List.range'_succ, List.map_cons, show k + (m + 1) = k + 1 + m by ring]
      exact .cons (constNormal_ok k hls) (ih (k + 1) loc scale hls)
  have key := gaussian_phz_terminates (constNormal_law c) (dims := [1]) (d := d) (s := k)
    (z := exZ) (sigma0 := ⟨[], fun _ => 1⟩) (lower := some ⟨t, fun _ => 0⟩)
    (upper := some ⟨[], fun _ => 1⟩)
    (xs := (List.range' (k + 1) m).map fun j => (⟨[1], fun _ => c j⟩ : NdArray ℝ)) hb1 ht (by simp)
    ?_ ?_ (constNormal_ok k hb2) (hcalls m (k + 1) _ _ ?_) ?_
  · simpa using key
  · intro e _ idx _
    show (0 : EReal) < 1
    exact zero_lt_one
  · rintro ⟨h1, -⟩
    exact hl (by simpa [boundShapes] using h1 t (by simp [boundShapes]) [] (by simp [boundShapes]))
  · simp only [List.cons_ne_nil, if_false]; exact hb2
  · intro idx _
    show ∃ y ∈ _, (0 : EReal) ≤ _ ∧ _ ≤ (1 : EReal)
    obtain ⟨j, hj, h1, h2⟩ := h
    refine ⟨⟨[1], fun _ => c (k + j)⟩, ?_, by exact_mod_cast h1, by exact_mod_cast h2⟩
    rcases Nat.eq_zero_or_pos j with rfl | hj0
    · simp
    · refine List.mem_cons_of_mem _ (List.mem_map.2 ⟨k + j, ?_, rfl⟩)
      rw [List.mem_range'_1]
      omega

/-- With bounds of different numbers of axes, which are accepted, the shape of the result depends
on the random numbers: it is that of the redshifts if the first draws are all accepted, and that of
the bounds otherwise. -/
theorem gaussian_phz_shape_random : ∃ (normal : Normal ℕ) (sigma0 : NdArray ℝ)
    (lower upper : NdArray EReal) (r r' : NdArray ℝ) (t t' : ℕ), NormalLaw normal ∧
    gaussianPhz normal 2 0 exZ sigma0 (some lower) (some upper) = some (.ok (r, t)) ∧
    gaussianPhz normal 1 1 exZ sigma0 (some lower) (some upper) = some (.ok (r', t')) ∧
    r.shape = [2, 1] ∧ r'.shape = [1] := by
  classical
  set c : ℕ → ℝ := fun k => if k = 0 then -1 else 1 / 2 with hc
  have ht : IsBroadcast [[1], [2, 1], []] [2, 1] := ((broadcastAll_spec _).1 _).1 rfl
  obtain ⟨r, t, h⟩ := ex_phz (c := c) (k := 0) (m := 1) ht (by simp)
    ⟨1, le_rfl, by simp [hc], by simp [hc]; norm_num⟩
  obtain ⟨r', t', h'⟩ := ex_phz (c := c) (k := 1) (m := 0) ht (by simp)
    ⟨0, le_rfl, by simp [hc], by simp [hc]; norm_num⟩
  refine ⟨constNormal c, _, _, _, r, r', t, t', constNormal_law c, h, h', ?_, ?_⟩
  · obtain ⟨dims, d, z', sigma, x, s₁, xs, h1, h2, h3, h4, h5, h6, h0, h7, h8⟩ :=
      gaussian_phz_first_accepted (constNormal_law c) h
    have hdims : dims = [1] := h1.unique (isBroadcast_pair.1 rfl)
    subst hdims
    have hd : d = [2, 1] := h2.unique ht
    subst hd
    have h9 := h8 [0, 0] (by decide)
    have hx0 : xs ≠ [] := by
      rintro rfl
      have hsh : IsBroadcast [exZ.shape, sigma.shape] [1] := by rw [h4.1]; exact isBroadcast_pair.1 rfl
      rw [constNormal_ok 0 hsh] at h5
      cases h5
      have hv := List.find?_some h9
      have hm := List.mem_of_find?_eq_some h9
      rw [List.map_singleton, List.mem_singleton] at hm
      rw [hm, decide_eq_true_eq] at hv
      have hle : (0 : EReal) ≤ ((c 0 : ℝ) : EReal) := hv.1
      have : (0 : ℝ) ≤ c 0 := by exact_mod_cast hle
      simp [hc] at this
      norm_num at this
    rw [h7, if_neg (by simp [hx0])]
  · obtain ⟨dims, d, z', sigma, x, s₁, xs, h1, h2, h3, h4, h5, h6, h0, h7, h8⟩ :=
      gaussian_phz_first_accepted (constNormal_law c) h'
    have hdims : dims = [1] := h1.unique (isBroadcast_pair.1 rfl)
    subst hdims
    have hx0 : xs = [] := List.length_eq_zero_iff.1 (by omega)
    rw [h7, if_pos (.inr hx0)]

/-- Concrete case: the second draw is accepted. -/
example : ∃ r s', gaussianPhz (constNormal fun k => if k = 0 then -1 else 1 / 2) 2 0 exZ
    ⟨[], fun _ => 1⟩ (some ⟨[1], fun _ => 0⟩) (some ⟨[], fun _ => 1⟩) = some (.ok (r, s')) :=
  ex_phz (m := 1) (d := [1]) (((broadcastAll_spec _).1 _).1 rfl) (by simp)
    ⟨1, le_rfl, by simp, by simp; norm_num⟩

/-- Concrete case: an upper bound of zero is not above the default lower bound. -/
example : ∃ r, gaussianPhz (constNormal fun _ => 0) 5 0 exZ ⟨[], fun _ => 1⟩ none
    (some ⟨[], fun _ => 0⟩) = some (.error (.value r)) :=
  gaussian_phz_inconsistent (constNormal_law _) _ _ _ _ (dims := [1]) (isBroadcast_pair.1 rfl)
    (.inl ⟨[], ((broadcastAll_spec _).1 _).1 rfl, [], by simp [indices], le_rfl⟩)

end Glass.Galaxies
