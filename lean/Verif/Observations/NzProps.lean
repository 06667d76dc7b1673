import Mathlib.Analysis.SpecialFunctions.Log.Basic
import Verif.Observations.NzLemmas

/-!
# Analytic redshift distributions (C73)

`gaussian_nz` and `smail_nz` give one distribution for each entry of the broadcast parameters.  Each
is a multiple of the documented function, and its integral by the trapezoidal rule is one.  A scalar
`norm` is the integral; an array `norm` is not one normalisation per distribution.
-/

namespace Glass.Obs

open Glass Glass.Num Glass.Arrays Glass.Shapes NdArray

/-! ## Specification -/

/-- The Gaussian function, up to its height. -/
noncomputable def gaussianShape (m s x : ℝ) : ℝ := Real.exp (-(x - m) ^ 2 / (2 * s ^ 2))

/-- The function of Smail et al., as documented, up to its height. -/
noncomputable def smailShape (z0 alpha beta x : ℝ) : ℝ :=
  (x / z0) ^ alpha * Real.exp (-(x / z0) ^ beta)

/-- The scale that is matched to the mode. -/
noncomputable def smailScale (z_mode alpha beta : ℝ) : ℝ := z_mode * (beta / alpha) ^ (1 / beta)

/-- Row `i` of the array holds the function `p` on the grid. -/
def IsRow (z : List ℝ) (y : NdArray (Option ℝ)) (i : List ℕ) (p : ℝ → ℝ) : Prop :=
  ∀ (k : ℕ) (hk : k < z.length), y.get (i ++ [k]) = some (p z[k])

/-! ## The distributions before normalisation -/

theorem gaussian_raw (z : List ℝ) {mean sigma : NdArray ℝ} {d : List ℕ}
    (hd : IsBroadcast [mean.shape, sigma.shape] d) :
    ∃ y, (∀ norm, gaussianNz z mean sigma norm = normalise z y norm) ∧
      y.shape = d ++ [z.length] ∧
      ∀ i ∈ indices d, entry sigma i ≠ 0 →
        IsRow z y i (gaussianShape (entry mean i) (entry sigma i)) := by
  have hm := hd.fits (s := mean.shape) (by simp)
  have hs := hd.fits (s := sigma.shape) (by simp)
  have fv : Fits (vector z).shape (d ++ [z.length]) := fits_vector d z.length
  have fm : Fits (addAxis mean).shape (d ++ [z.length]) := fits_snoc.2 ⟨hm, .inl rfl⟩
  have fs : Fits (addAxis sigma).shape (d ++ [z.length]) := fits_snoc.2 ⟨hs, .inl rfl⟩
  obtain ⟨a, ha, fa, a1, a2, ea⟩ := map₂_fits (fun z m : ℝ => z - m) fv fm
  obtain ⟨y, hy, fy, y1, y2, ey⟩ := map₂_fits
    (fun d s : ℝ => (nanDiv d s).map fun t => Real.exp (-(t ^ 2) / 2)) fa fs
  have hys : y.shape = d ++ [z.length] := fy.antisymm (snoc_least hd (by
    intro s hs
    simp only [List.mem_cons, List.not_mem_nil, or_false] at hs
    rcases hs with rfl | rfl
    · exact a2.trans y1
    · exact y2) (a1.trans y1))
  refine ⟨y, fun norm => ?_, hys, fun i hi hne k hk => ?_⟩
  · simp only [gaussianNz, bind, Except.bind, ha, hy]
  · have hmem := mem_snoc hi hk
    have h1 := ey _ hmem
    rw [entry_self (by rw [hys]; exact hmem), ea _ hmem, entry_vector i hk, entry_addAxis hm hi,
      entry_addAxis hs hi] at h1
    rw [h1, nanDiv, if_neg hne, Option.map_some, gaussianShape]
    congr 2
    field_simp

theorem smail_raw (z : List ℝ) {z_mode alpha beta : NdArray ℝ} {d : List ℕ}
    (hd : IsBroadcast [z_mode.shape, alpha.shape, beta.shape] d) (hz : ∀ x ∈ z, 0 ≤ x) :
    ∃ y, (∀ norm, smailNz z z_mode alpha beta norm = normalise z y norm) ∧
      y.shape = d ++ [z.length] ∧
      ∀ i ∈ indices d, 0 < entry z_mode i → 0 < entry alpha i → 0 < entry beta i →
        IsRow z y i fun x => x ^ entry alpha i *
          Real.exp (-entry alpha i / entry beta i * (x / entry z_mode i) ^ entry beta i) := by
  have hm := hd.fits (s := z_mode.shape) (by simp)
  have hα := hd.fits (s := alpha.shape) (by simp)
  have hβ := hd.fits (s := beta.shape) (by simp)
  have fv : Fits (vector z).shape (d ++ [z.length]) := fits_vector d z.length
  have fm : Fits (addAxis z_mode).shape (d ++ [z.length]) := fits_snoc.2 ⟨hm, .inl rfl⟩
  have fα : Fits (addAxis alpha).shape (d ++ [z.length]) := fits_snoc.2 ⟨hα, .inl rfl⟩
  have fβ : Fits (addAxis beta).shape (d ++ [z.length]) := fits_snoc.2 ⟨hβ, .inl rfl⟩
  obtain ⟨p, hp, fp, p1, p2, ep⟩ := map₂_fits nanPow fv fα
  obtain ⟨c, hc, fc, c1, c2, ec⟩ := map₂_fits (fun a b : ℝ => nanDiv (-a) b) fα fβ
  obtain ⟨q, hq, fq, q1, q2, eq⟩ := map₂_fits nanDiv fv fm
  obtain ⟨w, hw, fw, w1, w2, ew⟩ := map₂_fits
    (fun (q : Option ℝ) (b : ℝ) => q.bind fun q => nanPow q b) fq fβ
  obtain ⟨e, he, fe, e1, e2, ee⟩ := map₂_fits
    (fun c w : Option ℝ => c.bind fun c => w.map fun w => Real.exp (c * w)) fc fw
  obtain ⟨y, hy, fy, y1, y2, ey⟩ := map₂_fits
    (fun p e : Option ℝ => p.bind fun p => e.map fun e => p * e) fp fe
  have hys : y.shape = d ++ [z.length] := fy.antisymm (snoc_least hd (by
    intro s hs
    simp only [List.mem_cons, List.not_mem_nil, or_false] at hs
    rcases hs with rfl | rfl | rfl
    · exact q2.trans (w1.trans (e2.trans y2))
    · exact p2.trans y1
    · exact w2.trans (e2.trans y2)) (p1.trans y1))
  refine ⟨y, fun norm => ?_, hys, fun i hi h1 h2 h3 k hk => ?_⟩
  · simp only [smailNz, bind, Except.bind, hp, hc, hq, hw, he, hy]
  · have hmem := mem_snoc hi hk
    have h0 : 0 ≤ z[k] := hz _ (List.getElem_mem hk)
    have h4 := ey _ hmem
    rw [entry_self (by rw [hys]; exact hmem), ep _ hmem, ee _ hmem, ec _ hmem, ew _ hmem,
      eq _ hmem, entry_vector i hk, entry_addAxis hm hi, entry_addAxis hα hi,
      entry_addAxis hβ hi] at h4
    rw [h4]
    have n1 : nanPow z[k] (entry alpha i) = some (z[k] ^ entry alpha i) := by
      rw [nanPow, if_neg]
      rintro (h | h)
      · linarith
      · linarith [h.2]
    have n2 : nanPow (z[k] / entry z_mode i) (entry beta i) =
        some ((z[k] / entry z_mode i) ^ entry beta i) := by
      have : 0 ≤ z[k] / entry z_mode i := div_nonneg h0 h1.le
      rw [nanPow, if_neg]
      rintro (h | h)
      · linarith
      · linarith [h.2]
    rw [n1, nanDiv, if_neg h3.ne', nanDiv, if_neg h1.ne']
    simp [n2]

/-- The documented form of the function. -/
theorem smail_form {zm α β x : ℝ} (hm : 0 < zm) (hα : 0 < α) (hβ : 0 < β) (hx : 0 ≤ x) :
    x ^ α * Real.exp (-α / β * (x / zm) ^ β) =
      smailScale zm α β ^ α * smailShape (smailScale zm α β) α β x := by
  have hr : 0 < (β / α) ^ (1 / β) := Real.rpow_pos_of_pos (div_pos hβ hα) _
  have hz : 0 < smailScale zm α β := mul_pos hm hr
  rw [smailShape, ← mul_assoc, ← Real.mul_rpow hz.le (div_nonneg hx hz.le),
    mul_div_cancel₀ _ hz.ne']
  congr 2
  rw [smailScale, ← div_div, Real.div_rpow (div_nonneg hx hm.le) hr.le, ← Real.rpow_mul
    (div_pos hβ hα).le, one_div_mul_cancel hβ.ne', Real.rpow_one]
  field_simp

/-! ## The mode -/

theorem smailShape_pos {z0 α β x : ℝ} (hz : 0 < z0) (hx : 0 < x) : 0 < smailShape z0 α β x :=
  mul_pos (Real.rpow_pos_of_pos (div_pos hx hz) _) (Real.exp_pos _)

/-- A function of one variable whose powers are the distribution. -/
theorem smail_power {zm α β x : ℝ} (hm : 0 < zm) (hβ : 0 < β) (hx : 0 ≤ x) :
    x ^ α * Real.exp (-α / β * (x / zm) ^ β) =
      zm ^ α * ((x / zm) ^ β * Real.exp (-(x / zm) ^ β)) ^ (α / β) := by
  have hq : 0 ≤ x / zm := div_nonneg hx hm.le
  rw [Real.mul_rpow (Real.rpow_nonneg hq _) (Real.exp_pos _).le, ← Real.rpow_mul hq,
    mul_div_cancel₀ _ hβ.ne', ← Real.exp_mul, ← mul_assoc, ← Real.mul_rpow hm.le hq,
    mul_div_cancel₀ _ hm.ne']
  congr 2
  ring

theorem mul_exp_neg_up {s t : ℝ} (h0 : 0 ≤ s) (h : s ≤ t) (h1 : t ≤ 1) :
    s * Real.exp (-s) ≤ t * Real.exp (-t) := by
  -- exp (t - s) s ≤ t, from exp (s - t) ≥ 1 + s - t
  have h2 := Real.add_one_le_exp (s - t)
  have h3 : s ≤ t * Real.exp (s - t) := by nlinarith
  calc s * Real.exp (-s) ≤ t * Real.exp (s - t) * Real.exp (-s) :=
        mul_le_mul_of_nonneg_right h3 (Real.exp_pos _).le
    _ = t * Real.exp (-t) := by rw [mul_assoc, ← Real.exp_add]; congr 2; ring

theorem mul_exp_neg_down {s t : ℝ} (h1 : 1 ≤ s) (h : s ≤ t) :
    t * Real.exp (-t) ≤ s * Real.exp (-s) := by
  have h2 := Real.add_one_le_exp (t - s)
  have h3 : t ≤ s * Real.exp (t - s) := by nlinarith
  calc t * Real.exp (-t) ≤ s * Real.exp (t - s) * Real.exp (-t) :=
        mul_le_mul_of_nonneg_right h3 (Real.exp_pos _).le
    _ = s * Real.exp (-s) := by rw [mul_assoc, ← Real.exp_add]; congr 2; ring

/-- The function rises up to the mode and falls after it. -/
theorem smail_unimodal {zm α β : ℝ} (hm : 0 < zm) (hα : 0 < α) (hβ : 0 < β) :
    (∀ x y, 0 ≤ x → x ≤ y → y ≤ zm → smailShape (smailScale zm α β) α β x ≤
      smailShape (smailScale zm α β) α β y) ∧
    (∀ x y, zm ≤ x → x ≤ y → smailShape (smailScale zm α β) α β y ≤
      smailShape (smailScale zm α β) α β x) := by
  have hz : 0 < smailScale zm α β ^ α :=
    Real.rpow_pos_of_pos (mul_pos hm (Real.rpow_pos_of_pos (div_pos hβ hα) _)) _
  have key : ∀ x y, 0 ≤ x → 0 ≤ y → (x / zm) ^ β * Real.exp (-(x / zm) ^ β) ≤
      (y / zm) ^ β * Real.exp (-(y / zm) ^ β) → smailShape (smailScale zm α β) α β x ≤
      smailShape (smailScale zm α β) α β y := by
    intro x y hx hy h
    refine le_of_mul_le_mul_left ?_ hz
    rw [← smail_form hm hα hβ hx, ← smail_form hm hα hβ hy, smail_power hm hβ hx,
      smail_power hm hβ hy]
    refine mul_le_mul_of_nonneg_left ?_ (Real.rpow_nonneg hm.le _)
    exact Real.rpow_le_rpow (mul_nonneg (Real.rpow_nonneg (div_nonneg hx hm.le) _)
      (Real.exp_pos _).le) h (div_pos hα hβ).le
  constructor
  · intro x y hx hxy hy
    refine key x y hx (hx.trans hxy) (mul_exp_neg_up (Real.rpow_nonneg (div_nonneg hx hm.le) _) ?_ ?_)
    · exact Real.rpow_le_rpow (div_nonneg hx hm.le) (div_le_div_of_nonneg_right hxy hm.le) hβ.le
    · exact Real.rpow_le_one (div_nonneg (hx.trans hxy) hm.le) ((div_le_one hm).2 hy) hβ.le
  · intro x y hx hxy
    have hx0 : 0 ≤ x := hm.le.trans hx
    refine key y x (hx0.trans hxy) hx0 (mul_exp_neg_down ?_ ?_)
    · exact Real.one_le_rpow ((one_le_div hm).2 hx) hβ.le
    · exact Real.rpow_le_rpow (div_nonneg hx0 hm.le) (div_le_div_of_nonneg_right hxy hm.le) hβ.le

/-! ## Property theorems -/

/-- C73: the Gaussian distributions.  There is one for each pair of parameters; it is a multiple of
the Gaussian function, and its integral is one. -/
theorem gaussian_nz_spec {z : List ℝ} (hz : z.Pairwise (· < ·)) (h2 : 2 ≤ z.length)
    {mean sigma : NdArray ℝ} {d : List ℕ} (hd : IsBroadcast [mean.shape, sigma.shape] d)
    (hs : ∀ i ∈ indices d, entry sigma i ≠ 0) :
    ∃ y, gaussianNz z mean sigma none = .ok y ∧ y.shape = d ++ [z.length] ∧
      ∀ i ∈ indices d, ∃ (p : ℝ → ℝ) (c : ℝ), 0 < c ∧
        (∀ x, p x = c * gaussianShape (entry mean i) (entry sigma i) x) ∧ IsRow z y i p ∧
        trapezoid (sample p z) = 1 := by
  obtain ⟨y, h1, h3, h4⟩ := gaussian_raw z hd
  have ht : ∀ i ∈ indices d,
      0 < trapezoid (sample (gaussianShape (entry mean i) (entry sigma i)) z) := fun i hi =>
    trapezoid_pos hz h2 (fun x _ => (Real.exp_pos _).le) (fun x _ => Real.exp_pos _)
  obtain ⟨r, hr, hrs, hrow⟩ := normalise_none h3
    (f := fun i => gaussianShape (entry mean i) (entry sigma i))
    (fun i hi k hk => h4 i hi (hs i hi) k hk) (fun i hi => (ht i hi).ne')
  refine ⟨r, (h1 none).trans hr, hrs, fun i hi => ?_⟩
  refine ⟨fun x => (trapezoid (sample (gaussianShape (entry mean i) (entry sigma i)) z))⁻¹ *
    gaussianShape (entry mean i) (entry sigma i) x, _, inv_pos.2 (ht i hi), fun _ => rfl, ?_, ?_⟩
  · intro k hk
    rw [hrow i hi k hk, div_eq_inv_mul]
  · rw [trapezoid_sample_mul, inv_mul_cancel₀ (ht i hi).ne']

/-- C73: the Gaussian function is larger the closer to the mean, and largest there. -/
theorem gaussian_nz_mode (m s : ℝ) {x y : ℝ} (h : |x - m| ≤ |y - m|) :
    gaussianShape m s y ≤ gaussianShape m s x := by
  rw [gaussianShape, gaussianShape, Real.exp_le_exp]
  have h1 := sq_le_sq.2 h
  exact div_le_div_of_nonneg_right (by linarith) (by positivity)

/-- C73: the distributions of Smail et al.  There is one for each set of parameters; it is a multiple
of the documented function, with the scale matched to the mode, and its integral is one. -/
theorem smail_nz_spec {z : List ℝ} (hz : z.Pairwise (· < ·)) (h2 : 2 ≤ z.length)
    (h0 : ∀ x ∈ z, 0 ≤ x) {z_mode alpha beta : NdArray ℝ} {d : List ℕ}
    (hd : IsBroadcast [z_mode.shape, alpha.shape, beta.shape] d)
    (hp : ∀ i ∈ indices d, 0 < entry z_mode i ∧ 0 < entry alpha i ∧ 0 < entry beta i) :
    ∃ y, smailNz z z_mode alpha beta none = .ok y ∧ y.shape = d ++ [z.length] ∧
      ∀ i ∈ indices d, ∃ (p : ℝ → ℝ) (c : ℝ), 0 < c ∧
        (∀ x, p x = c * smailShape (smailScale (entry z_mode i) (entry alpha i) (entry beta i))
          (entry alpha i) (entry beta i) x) ∧ IsRow z y i p ∧
        trapezoid (sample p z) = 1 := by
  obtain ⟨y, h1, h3, h4⟩ := smail_raw z hd h0
  let S := fun i => smailScale (entry z_mode i) (entry alpha i) (entry beta i)
  let g : List ℕ → ℝ → ℝ := fun i x => S i ^ entry alpha i *
    smailShape (S i) (entry alpha i) (entry beta i) x
  have hS : ∀ i ∈ indices d, 0 < S i := fun i hi => by
    obtain ⟨p1, p2, p3⟩ := hp i hi
    exact mul_pos p1 (Real.rpow_pos_of_pos (div_pos p3 p2) _)
  have hSa : ∀ i ∈ indices d, 0 < S i ^ entry alpha i := fun i hi =>
    Real.rpow_pos_of_pos (hS i hi) _
  have hg0 : ∀ i ∈ indices d, ∀ x, 0 ≤ x → 0 ≤ g i x := fun i hi x hx =>
    mul_nonneg (hSa i hi).le (mul_nonneg (Real.rpow_nonneg (div_nonneg hx (hS i hi).le) _)
      (Real.exp_pos _).le)
  have ht : ∀ i ∈ indices d, 0 < trapezoid (sample (g i) z) := by
    intro i hi
    refine trapezoid_pos hz h2 (fun x hx => hg0 i hi x (h0 x hx)) (fun x hx => ?_)
    have hx0 : 0 < x := by
      rcases z with _ | ⟨a, z⟩
      · simp at hx
      · exact lt_of_le_of_lt (h0 a (by simp)) ((List.pairwise_cons.1 hz).1 x hx)
    exact mul_pos (hSa i hi) (smailShape_pos (hS i hi) hx0)
  obtain ⟨r, hr, hrs, hrow⟩ := normalise_none h3 (f := g)
    (fun i hi k hk => by
      obtain ⟨p1, p2, p3⟩ := hp i hi
      rw [h4 i hi p1 p2 p3 k hk]
      exact congrArg some (smail_form p1 p2 p3 (h0 _ (List.getElem_mem hk))))
    (fun i hi => (ht i hi).ne')
  refine ⟨r, (h1 none).trans hr, hrs, fun i hi => ?_⟩
  refine ⟨fun x => (trapezoid (sample (g i) z))⁻¹ * g i x,
    (trapezoid (sample (g i) z))⁻¹ * S i ^ entry alpha i,
    mul_pos (inv_pos.2 (ht i hi)) (hSa i hi), fun x => ?_, ?_, ?_⟩
  · simp only [g]; ring
  · intro k hk
    rw [hrow i hi k hk, div_eq_inv_mul]
  · rw [trapezoid_sample_mul, inv_mul_cancel₀ (ht i hi).ne']

/-- C73: no redshift has a larger density than the mode. -/
theorem smail_nz_mode {zm α β : ℝ} (hm : 0 < zm) (hα : 0 < α) (hβ : 0 < β) {x : ℝ} (hx : 0 ≤ x) :
    smailShape (smailScale zm α β) α β x ≤ smailShape (smailScale zm α β) α β zm := by
  rcases le_total x zm with h | h
  · exact (smail_unimodal hm hα hβ).1 x zm hx h le_rfl
  · exact (smail_unimodal hm hα hβ).2 zm x le_rfl h

/-- The two functions of the module, with their parameters applied. -/
inductive AnalyticNz (z : List ℝ) : (Option (NdArray ℝ) → Except Err (NdArray (Option ℝ))) → Prop
  | gaussian (mean sigma : NdArray ℝ) : AnalyticNz z (gaussianNz z mean sigma)
  | smail (z_mode alpha beta : NdArray ℝ) : AnalyticNz z (smailNz z z_mode alpha beta)

/-- The normalisation is the last step of both functions. -/
theorem AnalyticNz.last {z : List ℝ} {F : Option (NdArray ℝ) → Except Err (NdArray (Option ℝ))}
    (h : AnalyticNz z F) {r : NdArray (Option ℝ)} (hr : F none = .ok r) :
    ∃ y, (∀ norm, F norm = normalise z y norm) ∧ y.shape = r.shape := by
  have hs : ∀ y : NdArray (Option ℝ), normalise z y none = .ok r → y.shape = r.shape := by
    intro y hy
    simp only [normalise, Except.ok.injEq] at hy
    rw [← hy]
  cases h with
  | gaussian mean sigma =>
    simp only [gaussianNz, bind, Except.bind] at hr ⊢
    rcases h1 : NdArray.map₂ (fun z m : ℝ => z - m) (vector z) (addAxis mean) with e | a
    · rw [h1] at hr; cases hr
    · simp only [h1] at hr ⊢
      rcases h2 : NdArray.map₂ (fun d s : ℝ => (nanDiv d s).map fun t => Real.exp (-(t ^ 2) / 2)) a
        (addAxis sigma) with e | y
      · rw [h2] at hr; cases hr
      · simp only [h2] at hr ⊢
        exact ⟨y, fun _ => rfl, hs y hr⟩
  | smail z_mode alpha beta =>
    simp only [smailNz, bind, Except.bind] at hr ⊢
    rcases h1 : NdArray.map₂ nanPow (vector z) (addAxis alpha) with e | p
    · rw [h1] at hr; cases hr
    simp only [h1] at hr ⊢
    rcases h2 : NdArray.map₂ (fun a b : ℝ => nanDiv (-a) b) (addAxis alpha) (addAxis beta) with e | c
    · rw [h2] at hr; cases hr
    simp only [h2] at hr ⊢
    rcases h3 : NdArray.map₂ nanDiv (vector z) (addAxis z_mode) with e | q
    · rw [h3] at hr; cases hr
    simp only [h3] at hr ⊢
    rcases h4 : NdArray.map₂ (fun (q : Option ℝ) (b : ℝ) => q.bind fun q => nanPow q b) q
      (addAxis beta) with e | w
    · rw [h4] at hr; cases hr
    simp only [h4] at hr ⊢
    rcases h5 : NdArray.map₂ (fun c w : Option ℝ => c.bind fun c => w.map fun w =>
      Real.exp (c * w)) c w with e | e
    · rw [h5] at hr; cases hr
    simp only [h5] at hr ⊢
    rcases h6 : NdArray.map₂ (fun p e : Option ℝ => p.bind fun p => e.map fun e => p * e) p e
      with e | y
    · rw [h6] at hr; cases hr
    simp only [h6] at hr ⊢
    exact ⟨y, fun _ => rfl, hs y hr⟩

/-- C73: with a scalar `norm`, the integral of every distribution is `norm`. -/
theorem nz_norm_scalar_partial {z : List ℝ}
    {F : Option (NdArray ℝ) → Except Err (NdArray (Option ℝ))} (h : AnalyticNz z F)
    {r : NdArray (Option ℝ)} (hr : F none = .ok r) {d : List ℕ} (hs : r.shape = d ++ [z.length])
    {p : List ℕ → ℝ → ℝ} (hp : ∀ i ∈ indices d, IsRow z r i (p i))
    (h1 : ∀ i ∈ indices d, trapezoid (sample (p i) z) = 1) (norm : ℝ) :
    ∃ y, F (some ⟨[], fun _ => norm⟩) = .ok y ∧ y.shape = r.shape ∧
      ∀ i ∈ indices d, ∃ q : ℝ → ℝ, IsRow z y i q ∧ (∀ x, q x = norm * p i x) ∧
        trapezoid (sample q z) = norm := by
  obtain ⟨y, hy, hys⟩ := h.last hr
  obtain ⟨o, ho, hos, hoe⟩ := normalise_some ((hy none).symm.trans hr)
    (c := ⟨[], fun _ => norm⟩) (Fits.nil _)
  refine ⟨o, (hy _).trans ho, hos, fun i hi => ⟨fun x => norm * p i x, ?_, fun _ => rfl, ?_⟩⟩
  · intro k hk
    rw [hoe _ (by rw [hs]; exact mem_snoc hi hk), hp i hi k hk]
    simp [entry, mul_comm]
  · rw [trapezoid_sample_mul, h1 i hi, mul_one]

/-- C73 is false for one normalisation per distribution: `norm` of shape `(k,)` raises `ValueError`
unless `k` happens to be 1 or the number of redshifts. -/
theorem nz_norm_vector {z : List ℝ}
    {F : Option (NdArray ℝ) → Except Err (NdArray (Option ℝ))} (h : AnalyticNz z F)
    {r : NdArray (Option ℝ)} (hr : F none = .ok r) {d : List ℕ} (hs : r.shape = d ++ [z.length])
    {norm : NdArray ℝ} {k : ℕ} (hk : norm.shape = [k]) (h1 : k ≠ 1) (hn : k ≠ z.length) :
    ∃ msg, F (some norm) = .error (.value msg) := by
  obtain ⟨y, hy, hys⟩ := h.last hr
  obtain ⟨msg, hmsg⟩ := normalise_error (z := z) (y := y) (c := norm) (by
    rw [hys, hs, hk]
    intro hf
    rcases (fits_snoc (s := []) (e := d) (a := k) (b := z.length)).1 hf with ⟨-, h | h⟩
    · exact h1 h
    · exact hn h)
  exact ⟨msg, (hy _).trans hmsg⟩

/-- C73 is false for one normalisation per distribution: if there are as many distributions as
redshifts, the values are used as weights of the redshifts, and the integral of the first
distribution is not the first value. -/
theorem nz_norm_weights_redshifts (mean : NdArray ℝ) (hm : mean.shape = [2]) :
    ∃ (y : NdArray (Option ℝ)) (q : ℝ → ℝ),
      gaussianNz [0, 1] mean ⟨[], fun _ => 1⟩ (some ⟨[2], fun i => if i = [0] then 1 else 2⟩) =
        .ok y ∧ y.shape = [2, 2] ∧ IsRow [0, 1] y [0] q ∧ trapezoid (sample q [0, 1]) ≠ 1 := by
  have hz : ([0, 1] : List ℝ).Pairwise (· < ·) := by simp
  have hd : IsBroadcast [mean.shape, (⟨[], fun _ => 1⟩ : NdArray ℝ).shape] [2] := by
    rw [hm]
    exact isBroadcast_pair.1 (by decide)
  obtain ⟨r, hr, hrs, hrow⟩ := gaussian_nz_spec hz (by simp) hd
    (fun i _ => by simp [entry])
  obtain ⟨p, c, hc, hp, hrp, hint⟩ := hrow [0] (by simp [mem_indices])
  obtain ⟨y, hy, hys⟩ := (AnalyticNz.gaussian (z := [0, 1]) mean ⟨[], fun _ => 1⟩).last hr
  obtain ⟨o, ho, hos, hoe⟩ := normalise_some ((hy none).symm.trans hr)
    (c := ⟨[2], fun i => if i = [0] then 1 else 2⟩) (by rw [hys, hrs]; exact fits_vector [2] 2)
  refine ⟨o, fun x => if x = 0 then p 0 else p x * 2, (hy _).trans ho, by rw [hos, hrs]; rfl, ?_, ?_⟩
  · intro k hk
    have hk2 : k < 2 := by simpa using hk
    have := hoe ([0] ++ [k]) (by rw [hrs]; exact mem_snoc (by simp [mem_indices]) hk)
    rw [this, hrp k hk]
    rcases k with _ | _ | k
    · simp [entry, broadcastIndex]
    · simp [entry, broadcastIndex]
    · omega
  · have hp1 : 0 < p 1 := by rw [hp]; exact mul_pos hc (Real.exp_pos _)
    simp only [sample, trapezoid, List.map_cons, List.map_nil, if_true] at hint ⊢
    norm_num at hint ⊢
    intro h
    linarith

/-- C73: parameters whose shapes do not match raise `ValueError`. -/
theorem gaussian_nz_rejects (z : List ℝ) {mean sigma : NdArray ℝ}
    (hd : ¬ ∃ d, IsBroadcast [mean.shape, sigma.shape] d) (norm : Option (NdArray ℝ)) :
    ∃ msg, gaussianNz z mean sigma norm = .error (.value msg) := by
  simp only [gaussianNz, bind, Except.bind]
  rcases h1 : NdArray.map₂ (fun z m : ℝ => z - m) (vector z) (addAxis mean) with e | a
  · obtain ⟨⟨r, rfl⟩, -⟩ := map₂_error h1
    exact ⟨r, rfl⟩
  simp only
  rcases h2 : NdArray.map₂ (fun d s : ℝ => (nanDiv d s).map fun t => Real.exp (-(t ^ 2) / 2)) a
    (addAxis sigma) with e | y
  · obtain ⟨⟨r, rfl⟩, -⟩ := map₂_error h2
    exact ⟨r, rfl⟩
  exfalso
  have f1 := (map₂_ok h1).1.fits (s := (addAxis mean).shape) (by simp)
  have f2 := (map₂_ok h2).1.fits (s := a.shape) (by simp)
  have f3 := (map₂_ok h2).1.fits (s := (addAxis sigma).shape) (by simp)
  have f4 := f1.trans f2
  rcases List.eq_nil_or_concat y.shape with he | ⟨e, b, he⟩
  · rw [he] at f3
    have := f3.1
    simp [addAxis] at this
  · rw [he, List.concat_eq_append] at f3 f4
    exact hd (exists_isBroadcast (fits_snoc.1 f4).1 (fits_snoc.1 f3).1)

/-! ## Concrete cases -/

/-- Two means and one standard deviation on three redshifts. -/
example : ([0, 1 / 2, 1] : List ℝ).Pairwise (· < ·) ∧ IsBroadcast [[2], []] [2] ∧
    ∀ i ∈ indices [2], entry (⟨[], fun _ => 1 / 10⟩ : NdArray ℝ) i ≠ 0 := by
  refine ⟨?_, isBroadcast_pair.1 (by decide), ?_⟩
  · simp; norm_num
  · intro i _
    simp only [entry]
    norm_num

/-- The parameters of a survey for `smail_nz`. -/
example : IsBroadcast [[], [], []] ([] : List ℕ) ∧
    0 < entry (⟨[], fun _ => 9 / 10⟩ : NdArray ℝ) [] ∧
    0 < entry (⟨[], fun _ => 2⟩ : NdArray ℝ) [] ∧
    0 < entry (⟨[], fun _ => 3 / 2⟩ : NdArray ℝ) [] := by
  refine ⟨⟨by simp, by simp, by simp⟩, ?_, ?_, ?_⟩ <;> simp only [entry] <;> norm_num

end Glass.Obs
