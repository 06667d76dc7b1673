import Verif.Galaxies.PhzProps
import Verif.Shells.FloatAverages
import Verif.Lensing.FloatPlanes

/-!
# Photometric redshifts in floating point (C176)

`gaussian_phz` with a rounded width.
-/

namespace Glass.Galaxies

open NdArray Arrays

open Glass.Spectra

/-! ## Model -/

/-- `galaxies.py:350-455` `gaussian_phz`, where `width` computes the standard deviation of line 431. -/
noncomputable def gaussianPhzWith {σ : Type} (width : ℝ → ℝ → ℝ) (normal : Normal σ) (fuel : ℕ) (s : σ)
    (z sigma0 : NdArray ℝ) (lower upper : Option (NdArray EReal)) :
    Option (Except Err (NdArray ℝ × σ)) :=
  let (lo, up) := boundArrays lower upper
  match NdArray.map₂ width z sigma0 with
  | .error e => some (.error e)
  | .ok sigma =>
    let dims := sigma.shape
    match normal s z sigma with
    | .error e => some (.error e)
    | .ok (zphot, s) =>
      if lo.shape.length = up.shape.length ∧ up.shape.length ≠ 0 ∧
          ¬ (lo.shape = up.shape ∧ up.shape = zphot.shape) then
        some (.error (.value "lower and upper must best scalars or have the same shape as z"))
      else
        open Classical in
        match NdArray.map₂ (fun l u : EReal => decide (l < u)) lo up with
        | .error e => some (.error e)
        | .ok ordered =>
          if ¬ (ordered.ravel.all id) then some (.error (.value "requires lower < upper"))
          else if dims = [] then scalarLoop normal z sigma lo up fuel zphot s
          else
            match broadcastTo z dims with
            | .error e => some (.error e)
            | .ok z => arrayLoop normal z sigma lo up fuel zphot s

/-- Line 431 with every operation rounded. -/
noncomputable def widthFl (fl : ℝ → ℝ) (z s0 : ℝ) : ℝ := fl (fl (1 + z) * s0)

/-- `gaussian_phz` with every operation rounded. -/
noncomputable def gaussianPhzFl {σ : Type} (fl : ℝ → ℝ) (normal : Normal σ) (fuel : ℕ) (s : σ)
    (z sigma0 : NdArray ℝ) (lower upper : Option (NdArray EReal)) : Option (Except Err (NdArray ℝ × σ)) :=
  gaussianPhzWith (widthFl fl) normal fuel s z sigma0 lower upper

/-- **C176**: without rounding this is the exact model. -/
theorem phz_fl_real {σ : Type} (normal : Normal σ) (fuel : ℕ) (s : σ) (z sigma0 : NdArray ℝ)
    (lower upper : Option (NdArray EReal)) :
    gaussianPhzFl id normal fuel s z sigma0 lower upper = gaussianPhz normal fuel s z sigma0 lower upper := by
  rfl

/-! ## Accepted redshifts -/

/-- The redshifts are the first accepted numbers of draws with the computed width. -/
theorem phz_with_accepted {σ : Type} {width : ℝ → ℝ → ℝ} {normal : Normal σ} (hn : NormalLaw normal)
    {fuel : ℕ} {s s' : σ} {z sigma0 r : NdArray ℝ} {lower upper : Option (NdArray EReal)}
    (h : gaussianPhzWith width normal fuel s z sigma0 lower upper = some (.ok (r, s'))) :
    ∃ dims d z' sigma x s₁ xs, IsBroadcast [z.shape, sigma0.shape] dims ∧
      IsBroadcast (dims :: boundShapes lower upper) d ∧
      (z'.shape = dims ∧ ∀ idx ∈ indices dims, z'.get idx = entry z idx) ∧
      (sigma.shape = dims ∧
        ∀ idx ∈ indices dims, sigma.get idx = width (entry z idx) (entry sigma0 idx)) ∧
      normal s z sigma = .ok (x, s₁) ∧ Calls normal z' sigma s₁ xs s' ∧
      xs.length < fuel ∧ (r.shape = if dims = [] ∨ xs = [] then dims else d) ∧
      ∀ idx ∈ indices d, open Classical in ((x :: xs).map fun x => entry x idx).find?
        (fun v : ℝ => decide (lowerOf lower idx ≤ v ∧ (v : EReal) ≤ upperOf upper idx)) =
          some (entry r idx) := by
  classical
  unfold gaussianPhzWith at h
  rcases hb : boundArrays lower upper with ⟨lo, up⟩
  have hbe : ∀ idx, entry lo idx = lowerOf lower idx ∧ entry up idx = upperOf upper idx :=
    fun idx => by
      have := boundArrays_entry lower upper idx
      rw [hb] at this
      exact this
  have hbs : ∀ {dims d}, IsBroadcast [dims, lo.shape, up.shape] d ↔
      IsBroadcast (dims :: boundShapes lower upper) d := fun {dims d} => by
    have := boundArrays_shape lower upper (dims := dims) (d := d)
    rw [hb] at this
    exact this
  rw [hb] at h
  simp only at h
  rcases hm : NdArray.map₂ width z sigma0 with e | sigma
  · rw [hm] at h; cases h
  rw [hm] at h
  simp only at h
  obtain ⟨m1, m2⟩ := map₂_ok hm
  rcases hx : normal s z sigma with e | ⟨x, s₁⟩
  · rw [hx] at h; cases h
  rw [hx] at h
  simp only at h
  have hzf : Fits z.shape sigma.shape := m1.fits (by simp)
  have hxs : x.shape = sigma.shape := by
    have h1 := hn.shape hx
    exact (h1.least (by simp [hzf, Fits.refl])).antisymm (h1.fits (by simp))
  by_cases c1 : lo.shape.length = up.shape.length ∧ up.shape.length ≠ 0 ∧
      ¬ (lo.shape = up.shape ∧ up.shape = x.shape)
  · rw [if_pos c1] at h; cases h
  rw [if_neg c1] at h
  rcases ho : NdArray.map₂ (fun l u : EReal => decide (l < u)) lo up with e | ordered
  · rw [ho] at h; cases h
  rw [ho] at h
  simp only at h
  obtain ⟨o1, -⟩ := map₂_ok ho
  by_cases c2 : ¬ (ordered.ravel.all id = true)
  · rw [if_pos c2] at h; cases h
  rw [if_neg c2] at h
  by_cases c3 : sigma.shape = []
  · -- a single object
    rw [if_pos c3] at h
    have hbd : IsBroadcast [[], lo.shape, up.shape] ordered.shape := by
      refine ⟨?_, ?_, ?_⟩
      · intro t ht
        rcases List.mem_cons.1 ht with rfl | ht
        · simp
        · exact o1.1 t ht
      · intro t ht
        rcases List.mem_cons.1 ht with rfl | ht
        · simp
        · exact o1.2.1 t ht
      · intro j n hj
        obtain ⟨t, ht, h2⟩ := o1.2.2 j n hj
        exact ⟨t, List.mem_cons_of_mem _ ht, h2⟩
    have hz : z.shape = [] := by
      have := hzf.1
      rw [c3] at this
      simpa using this
    obtain ⟨xs, h0, h1, h2, h3⟩ := scalarLoop_ok (d := ordered.shape) (fun {t y t'} hy => by
      have h1 := hn.shape hy
      have : Fits y.shape [] := h1.least (by simp [hz, c3, Fits.refl])
      exact this.trans (Fits.nil _)) (o1.fits (by simp)) (o1.fits (by simp)) fuel x s₁
      (by rw [hxs, c3]; exact Fits.nil _) h
    refine ⟨[], ordered.shape, z, sigma, x, s₁, xs, by rw [c3] at m1; exact m1, hbs.1 hbd,
      ⟨hz, fun idx hi => ?_⟩, ⟨c3, fun idx hi => ?_⟩, hx, h1, h0, ?_, fun idx hi => ?_⟩
    · rw [entry_self (by rw [hz]; exact hi)]
    · rw [← entry_self (by rw [c3]; exact hi), m2 [] (by rw [c3]; exact Fits.refl _) idx hi]
    · rw [if_pos (.inl rfl)]
      have hcall : ∀ {t xs t'}, Calls normal z sigma t xs t' → ∀ y ∈ xs, y.shape = [] := by
        intro t xs t' hcs
        induction hcs with
        | nil => simp
        | cons hy _ ih =>
          intro w hw
          rcases List.mem_cons.1 hw with rfl | hw
          · have h1 := hn.shape hy
            have : Fits w.shape [] := h1.least (by simp [hz, c3, Fits.refl])
            simpa using this.1
          · exact ih w hw
      rcases List.mem_cons.1 h2 with rfl | h2
      · rw [hxs, c3]
      · exact hcall h1 r h2
    · have := h3 idx hi
      simp only [Within, (hbe idx).1, (hbe idx).2] at this
      exact this
  · rw [if_neg c3, broadcastTo_ok hzf.1 hzf.2] at h
    simp only at h
    have hcalls : ∀ {t y t'}, normal t
        (⟨sigma.shape, fun i => z.get (broadcastIndex z.shape i)⟩ : NdArray ℝ) sigma = .ok (y, t') →
        y.shape = sigma.shape := by
      intro t y t' hy
      have h1 := hn.shape hy
      exact (h1.least (by simp [Fits.refl])).antisymm (h1.fits (by simp))
    -- the first mask gives the shape `d`
    obtain ⟨d, hd⟩ : ∃ d, IsBroadcast [sigma.shape, lo.shape, up.shape] d := by
      cases fuel with
      | zero => simp [arrayLoop] at h
      | succ fuel =>
        rw [arrayLoop] at h
        rcases ht : truncMask x lo up with e | trunc
        · rw [ht] at h; cases h
        · have := (truncMask_ok ht).1
          rw [hxs] at this
          exact ⟨_, this⟩
    obtain ⟨h1, h2, xs, h0, h3, h4, h5, h6⟩ := arrayLoop_ok hcalls hd fuel x s₁
      (by rw [hxs]; exact Fits.refl _) (by rw [hxs]; exact hd.fits (by simp)) h
    refine ⟨sigma.shape, d, ⟨sigma.shape, fun i => z.get (broadcastIndex z.shape i)⟩, sigma, x, s₁,
      xs, m1, hbs.1 hd, ⟨rfl, fun idx _ => rfl⟩, ⟨rfl, fun idx hi => ?_⟩, hx, h3, h0, ?_, fun idx hi => ?_⟩
    · rw [← entry_self hi, m2 _ (Fits.refl _) idx hi]
    · by_cases hx0 : xs = []
      · rw [if_pos (.inr hx0), h4 hx0, hxs]
      · rw [if_neg (by simp [c3, hx0]), h5 hx0]
    · have := h6 idx hi
      simp only [Within, (hbe idx).1, (hbe idx).2] at this
      exact this

theorem phz_with_bounds {σ : Type} {width : ℝ → ℝ → ℝ} {normal : Normal σ} (hn : NormalLaw normal)
    {fuel : ℕ} {s s' : σ} {z sigma0 r : NdArray ℝ} {lower upper : Option (NdArray EReal)}
    {dims : List ℕ} (hd : IsBroadcast [z.shape, sigma0.shape] dims)
    (hb : BoundsFit dims lower upper)
    (h : gaussianPhzWith width normal fuel s z sigma0 lower upper = some (.ok (r, s'))) :
    r.shape = dims ∧ ∀ idx ∈ indices dims,
      lowerOf lower idx ≤ r.get idx ∧ (r.get idx : EReal) ≤ upperOf upper idx := by
  classical
  obtain ⟨dims', d, z', sigma, x, s₁, xs, h1, h2, -, -, -, -, -, h7, h8⟩ :=
    phz_with_accepted hn h
  obtain rfl := hd.unique h1
  have hdd : d = dims := by
    refine Fits.antisymm (h2.least fun t ht => ?_) (h2.fits (by simp))
    rcases List.mem_cons.1 ht with rfl | ht
    · exact Fits.refl _
    · rcases hb t ht with rfl | rfl
      · exact Fits.nil _
      · exact Fits.refl _
  have hr : r.shape = dims := by
    rw [hdd, ite_self] at h7
    exact h7
  refine ⟨hr, fun idx hi => ?_⟩
  have := List.find?_some (h8 idx (by rw [hdd]; exact hi))
  rw [decide_eq_true_eq, entry_self (by rw [hr]; exact hi)] at this
  exact this

/-- **C176**: rounding takes no redshift out of its bounds. -/
theorem phz_fl_bounds (fl : ℝ → ℝ) {σ : Type} {normal : Normal σ} (hn : NormalLaw normal)
    {fuel : ℕ} {s s' : σ} {z sigma0 r : NdArray ℝ} {lower upper : Option (NdArray EReal)}
    {dims : List ℕ} (hd : IsBroadcast [z.shape, sigma0.shape] dims) (hb : BoundsFit dims lower upper)
    (h : gaussianPhzFl fl normal fuel s z sigma0 lower upper = some (.ok (r, s'))) :
    r.shape = dims ∧ ∀ idx ∈ indices dims,
      lowerOf lower idx ≤ r.get idx ∧ (r.get idx : EReal) ≤ upperOf upper idx :=
  phz_with_bounds hn hd hb h

/-! ## The width -/

/-- **C176**: the computed width has a relative error of at most three units. -/
theorem width_fl_error (R : Rounding) (z s0 : ℝ) :
    |widthFl R.fl z s0 - (1 + z) * s0| ≤ 3 / 2 ^ 53 * |(1 + z) * s0| :=
  (((Glass.Lensing.Rel.fl R (1 + z)).mul (Glass.Lensing.Rel.refl s0)).round R).error (by norm_num) (by norm_num)

/-- **C176**: the computed width is never negative, so that the generator does not reject it. -/
theorem width_fl_nonneg (R : Rounding) {z s0 : ℝ} (hz : 0 ≤ 1 + z) (hs : 0 ≤ s0) : 0 ≤ widthFl R.fl z s0 :=
  R.nonneg (mul_nonneg (R.nonneg hz) hs)

/-- **C176**: every draw uses a width with a relative error of at most three units. -/
theorem phz_fl_drawn (R : Rounding) {σ : Type} {normal : Normal σ} (hn : NormalLaw normal)
    {fuel : ℕ} {s s' : σ} {z sigma0 r : NdArray ℝ} {lower upper : Option (NdArray EReal)}
    (h : gaussianPhzFl R.fl normal fuel s z sigma0 lower upper = some (.ok (r, s'))) :
    ∃ dims z' sigma x s₁ xs, IsBroadcast [z.shape, sigma0.shape] dims ∧ sigma.shape = dims ∧
      (∀ idx ∈ indices dims, |sigma.get idx - (1 + entry z idx) * entry sigma0 idx| ≤
        3 / 2 ^ 53 * |(1 + entry z idx) * entry sigma0 idx|) ∧
      normal s z sigma = .ok (x, s₁) ∧ Calls normal z' sigma s₁ xs s' := by
  obtain ⟨dims, d, z', sigma, x, s₁, xs, h1, -, -, h4, h5, h6, -⟩ := phz_with_accepted hn h
  refine ⟨dims, z', sigma, x, s₁, xs, h1, h4.1, fun idx hi => ?_, h5, h6⟩
  rw [h4.2 idx hi]
  exact width_fl_error R _ _

/-- The redshift 1 and the width `2 * 0.5`. -/
example : widthFl double.fl 1 (1 / 2) = 1 := by
  have h2 : double.fl 2 = 2 := by
    have := double.exact 8 (by norm_num)
    norm_num at this
    exact this
  norm_num [widthFl, h2, double.one]

end Glass.Galaxies
