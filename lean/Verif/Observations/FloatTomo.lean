import Verif.Observations.TomoProps
import Verif.Lensing.FloatPlanes

/-!
# Tomographic redshift distributions in floating point (C165)

Adjacent bins share an edge, and with it a computed value of the error function. So the bins of
`tomo_nz_gausserr` add up however the error function is computed.
-/

namespace Glass.Obs

open Glass Glass.Shapes Glass.Spectra Glass.Lensing MeasureTheory

/-! ## Model -/

/-- `observations.py:363` with every operation rounded. -/
noncomputable def widthFl (fl : ℝ → ℝ) (sigma_0 z : ℝ) : ℝ :=
  fl (fl (fl (Real.sqrt 2) * sigma_0) * fl (1 + z))

/-- `observations.py:366-367`: the error function at one edge of a bin; `E` is `math.erf`. -/
noncomputable def edgeFl (fl E : ℝ → ℝ) (sigma_0 z edge : ℝ) : ℝ :=
  E (fl (fl (z - edge) / widthFl fl sigma_0 z))

/-- `observations.py:368`: the divisor. -/
noncomputable def divisorFl (fl E : ℝ → ℝ) (sigma_0 z : ℝ) : ℝ :=
  1 + E (fl (z / widthFl fl sigma_0 z))

/-- `observations.py:363-370` for one redshift, density and bin, with every operation rounded. The redshift
error is positive. -/
noncomputable def binnedFl (fl E : ℝ → ℝ) (sigma_0 z nz : ℝ) (bin : ℝ × ℝ) : ℝ :=
  fl (fl (fl (edgeFl fl E sigma_0 z bin.1 - edgeFl fl E sigma_0 z bin.2) /
    fl (divisorFl fl E sigma_0 z)) * nz)

/-- `observations.py:309-372` `tomo_nz_gausserr` with every operation rounded. -/
noncomputable def tomoFl (fl E : ℝ → ℝ) (z nz : List ℝ) (sigma_0 : ℝ) (zbins : List (ℝ × ℝ)) :
    Except Err (List (List ℝ)) :=
  if zbins = [] then .error .index
  else
    let nz := match nz with
      | [c] => List.replicate z.length c
      | _ => nz
    if nz.length = z.length then
      .ok (zbins.map fun b => List.zipWith (fun z nz => binnedFl fl E sigma_0 z nz b) z nz)
    else .error (.value "operands could not be broadcast together")

/-- **C165**: without rounding the model is that of C72. -/
theorem tomo_fl_real {z nz : List ℝ} {sigma_0 : ℝ} (hs : 0 < sigma_0) (hz : ∀ t ∈ z, -1 < t)
    (zbins : List (ℝ × ℝ)) :
    (tomoFl id erf z nz sigma_0 zbins).map (fun rows => rows.map (List.map some)) =
      tomoNzGausserr z nz sigma_0 zbins := by
  have key : ∀ (b : ℝ × ℝ) (z : List ℝ), (∀ t ∈ z, -1 < t) → ∀ nz : List ℝ,
      (List.zipWith (fun z nz => binnedFl id erf sigma_0 z nz b) z nz).map some =
        List.zipWith (fun z nz => binnedNz sigma_0 z nz b) z nz := by
    intro b z
    induction z with
    | nil => simp
    | cons t z ih =>
      intro hz nz
      rcases nz with _ | ⟨n, nz⟩
      · simp
      · simp only [List.zipWith_cons_cons, List.map_cons]
        rw [ih (fun t ht => hz t (List.mem_cons_of_mem _ ht))]
        congr 1
        have hp := scale_pos hs (hz t (by simp))
        have h1 := erf_gt (t / (Real.sqrt 2 * sigma_0 * (1 + t)))
        simp only [binnedNz, erfQuot, if_neg hp.ne', Option.bind_some]
        rw [nanDiv, if_neg (by linarith), Option.map_some]
        rfl
  have key' : ∀ nz' : List ℝ,
      (if nz'.length = z.length then Except.ok (zbins.map fun b =>
          List.zipWith (fun z nz => binnedFl id erf sigma_0 z nz b) z nz')
        else .error (Err.value "operands could not be broadcast together")).map
          (fun rows => rows.map (List.map some)) =
      if nz'.length = z.length then
        .ok (zbins.map fun b => List.zipWith (fun z nz => binnedNz sigma_0 z nz b) z nz')
      else .error (.value "operands could not be broadcast together") := by
    intro nz'
    split_ifs
    · simp only [Except.map, List.map_map]
      congr 1
      apply List.map_congr_left
      intro b _
      exact key b z hz _
    · rfl
  unfold tomoFl tomoNzGausserr
  by_cases hb : zbins = []
  · simp [hb, Except.map]
  · simp only [hb, if_false]
    rcases nz with _ | ⟨c, _ | ⟨d, nz⟩⟩ <;> exact key' _

theorem tomo_fl_rows (fl E : ℝ → ℝ) {z nz : List ℝ} (hl : nz.length = z.length) (sigma_0 : ℝ)
    {zbins : List (ℝ × ℝ)} (hne : zbins ≠ []) :
    tomoFl fl E z nz sigma_0 zbins =
      .ok (zbins.map fun b => List.zipWith (fun z nz => binnedFl fl E sigma_0 z nz b) z nz) := by
  rcases nz with _ | ⟨c, _ | ⟨d, nz⟩⟩
  · simp only [tomoFl, if_neg hne, hl, if_true]
  · simp only [tomoFl, if_neg hne, List.length_replicate, if_true, ← hl]
    rfl
  · simp only [tomoFl, if_neg hne, hl, if_true]

/-! ## Sums over bins -/

/-- One entry, with the computed values of the error function. -/
noncomputable def binnedExact (fl E : ℝ → ℝ) (sigma_0 z nz : ℝ) (bin : ℝ × ℝ) : ℝ :=
  (edgeFl fl E sigma_0 z bin.1 - edgeFl fl E sigma_0 z bin.2) / divisorFl fl E sigma_0 z * nz

theorem binned_rel (R : Rounding) (E : ℝ → ℝ) (sigma_0 z nz : ℝ) (bin : ℝ × ℝ) :
    |binnedFl R.fl E sigma_0 z nz bin - binnedExact R.fl E sigma_0 z nz bin| ≤
      5 / 2 ^ 53 * |binnedExact R.fl E sigma_0 z nz bin| := by
  have h := (((((Rel.fl R (edgeFl R.fl E sigma_0 z bin.1 - edgeFl R.fl E sigma_0 z bin.2)).div
    (Rel.fl R (divisorFl R.fl E sigma_0 z))).round R).mul (Rel.refl nz)).round R)
  exact h.error (by norm_num) (by norm_num)

theorem exact_sum (R : Rounding) (E : ℝ → ℝ) (sigma_0 z nz : ℝ) (e : ℕ → ℝ) (m : ℕ) :
    ∑ j ∈ Finset.range m, binnedExact R.fl E sigma_0 z nz (e j, e (j + 1)) =
      binnedExact R.fl E sigma_0 z nz (e 0, e m) := by
  simp only [binnedExact]
  rw [← Finset.sum_mul, ← Finset.sum_div,
    Finset.sum_range_sub' (fun j => edgeFl R.fl E sigma_0 z (e j))]

/-- **C165**: contiguous bins add up, for any way to compute the error function. -/
theorem binned_sum (R : Rounding) (E : ℝ → ℝ) (sigma_0 z nz : ℝ) (e : ℕ → ℝ) (m : ℕ) :
    |∑ j ∈ Finset.range m, binnedFl R.fl E sigma_0 z nz (e j, e (j + 1)) -
        binnedExact R.fl E sigma_0 z nz (e 0, e m)| ≤
      5 / 2 ^ 53 * ∑ j ∈ Finset.range m, |binnedExact R.fl E sigma_0 z nz (e j, e (j + 1))| := by
  rw [← exact_sum, ← Finset.sum_sub_distrib, Finset.mul_sum]
  exact (Finset.abs_sum_le_sum_abs _ _).trans (Finset.sum_le_sum fun j _ => binned_rel R E _ _ _ _)

theorem width_pos (R : Rounding) {sigma_0 z : ℝ} (hs : 0 < sigma_0) (hz : 0 ≤ z) :
    0 < widthFl R.fl sigma_0 z := by
  have h2 : 0 < Real.sqrt 2 := Real.sqrt_pos.2 two_pos
  exact R.pos (mul_pos (R.pos (mul_pos (R.pos h2) hs)) (R.pos (by linarith)))

theorem edge_anti (R : Rounding) {E : ℝ → ℝ} (hE : Monotone E) {sigma_0 z : ℝ} (hs : 0 < sigma_0)
    (hz : 0 ≤ z) {a b : ℝ} (h : a ≤ b) : edgeFl R.fl E sigma_0 z b ≤ edgeFl R.fl E sigma_0 z a :=
  hE (R.mono (div_le_div_of_nonneg_right (R.mono (by linarith)) (width_pos R hs hz).le))

theorem divisor_one (R : Rounding) {E : ℝ → ℝ} (hE : ∀ x, 0 ≤ x → 0 ≤ E x) {sigma_0 z : ℝ}
    (hs : 0 < sigma_0) (hz : 0 ≤ z) : 1 ≤ divisorFl R.fl E sigma_0 z := by
  have := hE _ (R.nonneg (div_nonneg hz (width_pos R hs hz).le))
  unfold divisorFl
  linarith

/-- **C165**: if the error function is computed without changing the order of its values, no entry is
negative. -/
theorem binned_nonneg (R : Rounding) {E : ℝ → ℝ} (hE : Monotone E) (hE0 : ∀ x, 0 ≤ x → 0 ≤ E x)
    {sigma_0 z nz : ℝ} (hs : 0 < sigma_0) (hz : 0 ≤ z) (hn : 0 ≤ nz) {bin : ℝ × ℝ}
    (h : bin.1 ≤ bin.2) : 0 ≤ binnedFl R.fl E sigma_0 z nz bin := by
  have h1 := edge_anti R hE hs hz h
  have h2 := divisor_one R hE0 hs hz
  exact R.nonneg (mul_nonneg (R.nonneg (div_nonneg (R.nonneg (by linarith))
    (R.nonneg (by linarith)))) hn)

theorem exact_nonneg (R : Rounding) {E : ℝ → ℝ} (hE : Monotone E) (hE0 : ∀ x, 0 ≤ x → 0 ≤ E x)
    {sigma_0 z nz : ℝ} (hs : 0 < sigma_0) (hz : 0 ≤ z) (hn : 0 ≤ nz) {bin : ℝ × ℝ}
    (h : bin.1 ≤ bin.2) : 0 ≤ binnedExact R.fl E sigma_0 z nz bin := by
  have h1 := edge_anti R hE hs hz h
  have h2 := divisor_one R hE0 hs hz
  exact mul_nonneg (div_nonneg (by linarith) (by linarith)) hn

/-- **C165**: contiguous bins from zero to an edge where the error function is -1 split the distribution. -/
theorem tomo_fl_partition (R : Rounding) {E : ℝ → ℝ} (hE : Monotone E) (hE0 : ∀ x, 0 ≤ x → 0 ≤ E x)
    {z nz : List ℝ} (hl : nz.length = z.length) {sigma_0 : ℝ} (hs : 0 < sigma_0)
    (hz : ∀ t ∈ z, 0 ≤ t ∧ R.fl t = t) (hnz : ∀ n ∈ nz, 0 ≤ n) {e : ℕ → ℝ} {m : ℕ} (hm : 0 < m)
    (h0 : e 0 = 0) (hmono : ∀ j, e j ≤ e (j + 1))
    (hlast : ∀ t ∈ z, edgeFl R.fl E sigma_0 t (e m) = -1) :
    ∃ rows : List (List ℝ),
      tomoFl R.fl E z nz sigma_0 ((List.range m).map fun j => (e j, e (j + 1))) = .ok rows ∧
      ∀ (i : ℕ) (n : ℝ), nz[i]? = some n → ∃ v : ℕ → ℝ,
        (∀ j, j < m → ∃ r, rows[j]? = some r ∧ r[i]? = some (v j)) ∧ (∀ j, 0 ≤ v j) ∧
        |∑ j ∈ Finset.range m, v j - n| ≤ 5 / 2 ^ 53 * n := by
  refine ⟨_, tomo_fl_rows _ _ hl _ (by simp; omega), ?_⟩
  intro i n hn
  have hi : i < z.length := by rw [← hl]; exact (List.getElem?_eq_some_iff.1 hn).1
  have ht : z[i]? = some z[i] := List.getElem?_eq_getElem hi
  obtain ⟨hz0, hzf⟩ := hz z[i] (List.getElem_mem hi)
  have hn0 := hnz n (List.mem_of_getElem? hn)
  refine ⟨fun j => binnedFl R.fl E sigma_0 z[i] n (e j, e (j + 1)), ?_, ?_, ?_⟩
  · intro j hj
    refine ⟨List.zipWith (fun z nz => binnedFl R.fl E sigma_0 z nz (e j, e (j + 1))) z nz, ?_, ?_⟩
    · simp [List.getElem?_range hj]
    · rw [List.getElem?_zipWith, ht, hn]
  · intro j
    exact binned_nonneg R hE hE0 hs hz0 hn0 (hmono j)
  · have h := binned_sum R E sigma_0 z[i] n e m
    have hd := divisor_one R hE0 hs hz0
    have hall : binnedExact R.fl E sigma_0 z[i] n (e 0, e m) = n := by
      simp only [binnedExact]
      rw [hlast _ (List.getElem_mem hi), h0]
      have : edgeFl R.fl E sigma_0 z[i] 0 - -1 = divisorFl R.fl E sigma_0 z[i] := by
        simp only [edgeFl, divisorFl, sub_zero, hzf]; ring
      rw [this, div_self (by linarith), one_mul]
    have hsum : ∑ j ∈ Finset.range m, |binnedExact R.fl E sigma_0 z[i] n (e j, e (j + 1))| = n := by
      rw [Finset.sum_congr rfl fun j _ => abs_of_nonneg (exact_nonneg R hE hE0 hs hz0 hn0 (hmono j)),
        exact_sum, hall]
    rw [hall, hsum] at h
    exact h

/-! ## Accuracy -/

theorem erf_zero : erf 0 = 0 := by simp [erf]

theorem erf_nonneg {x : ℝ} (h : 0 ≤ x) : 0 ≤ erf x := by
  have := erf_mono h
  rwa [erf_zero] at this

theorem erf_le (c : ℝ) : erf c ≤ 1 := by
  have h0 := measureReal_nonneg (μ := ProbabilityTheory.gaussianReal 0 (1 / 2)) (s := Set.Ioi c)
  rw [halfNormal_Ioi] at h0
  linarith

/-- A relative error of the argument. -/
theorem erf_close {x y d : ℝ} (h : |y - x| ≤ d * |x|) (hd0 : 0 ≤ d)
    (hd : d ≤ 1 / 2) : |erf y - erf x| ≤ 2 * d := by
  have hint : ∀ a b : ℝ, IntervalIntegrable (fun t : ℝ => Real.exp (-t ^ 2)) volume a b :=
    fun a b => integrable_exp_sq.intervalIntegrable
  have h2 := intervalIntegral.integral_add_adjacent_intervals (hint 0 x) (hint x y)
  have e1 : erf y - erf x = 2 / Real.sqrt Real.pi * ∫ t in x..y, Real.exp (-t ^ 2) := by
    rw [erf, erf, ← h2]; ring
  have h3 : ‖∫ t in x..y, Real.exp (-t ^ 2)‖ ≤ Real.exp (-(x ^ 2 / 4)) * |y - x| := by
    apply intervalIntegral.norm_integral_le_of_norm_le_const
    intro t ht
    rw [Real.norm_of_nonneg (Real.exp_pos _).le]
    apply Real.exp_le_exp.2
    have ht' := Set.abs_sub_left_of_mem_uIcc (Set.uIoc_subset_uIcc ht)
    have hx : |x| / 2 ≤ |t| := by
      have h4 := abs_sub_abs_le_abs_sub x t
      rw [abs_sub_comm] at h4
      have h5 : d * |x| ≤ 1 / 2 * |x| := mul_le_mul_of_nonneg_right hd (abs_nonneg _)
      linarith
    have h6 : (|x| / 2) ^ 2 ≤ |t| ^ 2 := pow_le_pow_left₀ (by positivity) hx 2
    rw [div_pow, sq_abs, sq_abs] at h6
    linarith
  have h4 : |x| * Real.exp (-(x ^ 2 / 4)) ≤ 1 := by
    have h5 := Real.add_one_le_exp (x ^ 2 / 4)
    have h6 : |x| ≤ Real.exp (x ^ 2 / 4) := by
      have := sq_nonneg (|x| / 2 - 1)
      have h7 : (|x|) ^ 2 = x ^ 2 := sq_abs x
      nlinarith
    rw [Real.exp_neg, ← div_eq_mul_inv, div_le_one (Real.exp_pos _)]
    exact h6
  have hpi : 1 ≤ Real.sqrt Real.pi := by
    rw [Real.le_sqrt (by norm_num) Real.pi_pos.le]
    have := Real.two_le_pi
    linarith
  have h7 : 2 / Real.sqrt Real.pi ≤ 2 := div_le_self (by norm_num) hpi
  rw [e1, abs_mul, abs_of_nonneg (by positivity : 0 ≤ 2 / Real.sqrt Real.pi)]
  rw [Real.norm_eq_abs] at h3
  calc 2 / Real.sqrt Real.pi * |∫ t in x..y, Real.exp (-t ^ 2)|
      ≤ 2 * (Real.exp (-(x ^ 2 / 4)) * (d * |x|)) :=
        mul_le_mul h7 (h3.trans (mul_le_mul_of_nonneg_left h (Real.exp_pos _).le)) (abs_nonneg _)
          (by norm_num)
    _ = 2 * d * (|x| * Real.exp (-(x ^ 2 / 4))) := by ring
    _ ≤ 2 * d * 1 := mul_le_mul_of_nonneg_left h4 (by positivity)
    _ = 2 * d := mul_one _

theorem width_rel (R : Rounding) (sigma_0 z : ℝ) :
    Rel 4 (Real.sqrt 2 * sigma_0 * (1 + z)) (widthFl R.fl sigma_0 z) :=
  ((((Rel.fl R (Real.sqrt 2)).mul (Rel.refl sigma_0)).round R).mul (Rel.fl R (1 + z))).round R

/-- The error function at one edge. -/
theorem edge_close (R : Rounding) {E : ℝ → ℝ} {d : ℝ} (hE : ∀ x, |E x - erf x| ≤ d) (sigma_0 z edge : ℝ) :
    |edgeFl R.fl E sigma_0 z edge - erf ((z - edge) / (Real.sqrt 2 * sigma_0 * (1 + z)))| ≤
      d + 14 / 2 ^ 53 := by
  have h := ((Rel.fl R (z - edge)).div (width_rel R sigma_0 z)).round R
  have h1 := erf_close (h.error (e := 7 / 2 ^ 53) (by norm_num) (by norm_num)) (by norm_num) (by norm_num)
  have h2 := hE (R.fl (R.fl (z - edge) / widthFl R.fl sigma_0 z))
  unfold edgeFl
  have := abs_sub_le (E (R.fl (R.fl (z - edge) / widthFl R.fl sigma_0 z)))
    (erf (R.fl (R.fl (z - edge) / widthFl R.fl sigma_0 z)))
    (erf ((z - edge) / (Real.sqrt 2 * sigma_0 * (1 + z))))
  linarith

theorem divisor_close (R : Rounding) {E : ℝ → ℝ} {d : ℝ} (hE : ∀ x, |E x - erf x| ≤ d) (sigma_0 z : ℝ) :
    |divisorFl R.fl E sigma_0 z - (1 + erf (z / (Real.sqrt 2 * sigma_0 * (1 + z))))| ≤
      d + 14 / 2 ^ 53 := by
  have h := ((Rel.refl z).div (width_rel R sigma_0 z)).round R
  have h1 := erf_close (h.error (e := 7 / 2 ^ 53) (by norm_num) (by norm_num)) (by norm_num) (by norm_num)
  have h2 := hE (R.fl (z / widthFl R.fl sigma_0 z))
  unfold divisorFl
  rw [add_sub_add_left_eq_sub]
  have := abs_sub_le (E (R.fl (z / widthFl R.fl sigma_0 z)))
    (erf (R.fl (z / widthFl R.fl sigma_0 z)))
    (erf (z / (Real.sqrt 2 * sigma_0 * (1 + z))))
  linarith

theorem quot_close {N N' D D' t : ℝ} (hN : |N' - N| ≤ 2 * t) (hD : |D' - D| ≤ t) (h1 : 1 ≤ D) (h1' : 1 ≤ D')
    (h2 : |N| ≤ 2) : |N' / D' - N / D| ≤ 4 * t := by
  have e : N' / D' - N / D = (N' - N) / D' - N / D * ((D' - D) / D') := by
    have : D ≠ 0 := by linarith
    have : D' ≠ 0 := by linarith
    field_simp
    ring
  have a1 : |(N' - N) / D'| ≤ 2 * t := by
    rw [abs_div, abs_of_pos (by linarith : 0 < D')]
    exact (div_le_self (abs_nonneg _) h1').trans hN
  have a2 : |N / D| ≤ 2 := by
    rw [abs_div, abs_of_pos (by linarith : 0 < D)]
    exact (div_le_self (abs_nonneg _) h1).trans h2
  have a3 : |(D' - D) / D'| ≤ t := by
    rw [abs_div, abs_of_pos (by linarith : 0 < D')]
    exact (div_le_self (abs_nonneg _) h1').trans hD
  rw [e]
  refine (abs_sub _ _).trans ?_
  rw [abs_mul]
  have := mul_le_mul a2 a3 (abs_nonneg _) (by norm_num)
  linarith

/-- **C165**: every entry is close to the density times the probability of the bin. -/
theorem binned_error (R : Rounding) {E : ℝ → ℝ} {d : ℝ} (hE : ∀ x, |E x - erf x| ≤ d)
    (hE0 : ∀ x, 0 ≤ x → 0 ≤ E x) (hE1 : ∀ x, |E x| ≤ 1) {sigma_0 z : ℝ} (hs : 0 < sigma_0) (hz : 0 ≤ z)
    (nz : ℝ) {bin : ℝ × ℝ} (hb : bin.1 ≤ bin.2) :
    |binnedFl R.fl E sigma_0 z nz bin - binProbability sigma_0 z bin * nz| ≤
      (4 * d + 66 / 2 ^ 53) * |nz| := by
  have hp := scale_pos hs (by linarith : -1 < z)
  have hd := divisor_one R hE0 hs hz
  have e1 := edge_close R hE sigma_0 z bin.1
  have e2 := edge_close R hE sigma_0 z bin.2
  have e3 := divisor_close R hE sigma_0 z
  have hr := binned_rel R E sigma_0 z nz bin
  have hprob : binProbability sigma_0 z bin = (erf ((z - bin.1) / (Real.sqrt 2 * sigma_0 * (1 + z))) -
      erf ((z - bin.2) / (Real.sqrt 2 * sigma_0 * (1 + z)))) /
        (1 + erf (z / (Real.sqrt 2 * sigma_0 * (1 + z)))) := by
    have h1 := erf_gt (z / (Real.sqrt 2 * sigma_0 * (1 + z)))
    rw [binProbability, observed_Ico hp hb, observed_Ici hp, sub_zero]
    have : 1 + erf (z / (Real.sqrt 2 * sigma_0 * (1 + z))) ≠ 0 := by linarith
    field_simp
  have hc0 := erf_nonneg (div_nonneg hz hp.le)
  have hx : |erf ((z - bin.1) / (Real.sqrt 2 * sigma_0 * (1 + z))) -
      erf ((z - bin.2) / (Real.sqrt 2 * sigma_0 * (1 + z)))| ≤ 2 := by
    have := erf_gt ((z - bin.1) / (Real.sqrt 2 * sigma_0 * (1 + z)))
    have := erf_gt ((z - bin.2) / (Real.sqrt 2 * sigma_0 * (1 + z)))
    have := erf_le ((z - bin.1) / (Real.sqrt 2 * sigma_0 * (1 + z)))
    have := erf_le ((z - bin.2) / (Real.sqrt 2 * sigma_0 * (1 + z)))
    rw [abs_le]; constructor <;> linarith
  have hN : |(edgeFl R.fl E sigma_0 z bin.1 - edgeFl R.fl E sigma_0 z bin.2) -
      (erf ((z - bin.1) / (Real.sqrt 2 * sigma_0 * (1 + z))) -
        erf ((z - bin.2) / (Real.sqrt 2 * sigma_0 * (1 + z))))| ≤ 2 * (d + 14 / 2 ^ 53) := by
    rw [abs_le] at e1 e2 ⊢
    constructor <;> linarith [e1.1, e1.2, e2.1, e2.2]
  have hq := quot_close hN e3 (by linarith) hd hx
  have hu : |(edgeFl R.fl E sigma_0 z bin.1 - edgeFl R.fl E sigma_0 z bin.2) /
      divisorFl R.fl E sigma_0 z| ≤ 2 := by
    rw [abs_div, abs_of_pos (by linarith : 0 < divisorFl R.fl E sigma_0 z)]
    refine (div_le_self (abs_nonneg _) hd).trans ?_
    have h1 : |edgeFl R.fl E sigma_0 z bin.1| ≤ 1 := hE1 _
    have h2 : |edgeFl R.fl E sigma_0 z bin.2| ≤ 1 := hE1 _
    exact (abs_sub _ _).trans (by linarith)
  rw [← hprob] at hq
  unfold binnedExact at hr
  rw [abs_mul] at hr
  generalize (edgeFl R.fl E sigma_0 z bin.1 - edgeFl R.fl E sigma_0 z bin.2) /
      divisorFl R.fl E sigma_0 z = u at *
  have h1 : |u * nz - binProbability sigma_0 z bin * nz| ≤ 4 * (d + 14 / 2 ^ 53) * |nz| := by
    rw [← sub_mul, abs_mul]
    exact mul_le_mul_of_nonneg_right hq (abs_nonneg _)
  have h2 : (5 / 2 ^ 53 : ℝ) * (|u| * |nz|) ≤ 5 / 2 ^ 53 * (2 * |nz|) :=
    mul_le_mul_of_nonneg_left (mul_le_mul_of_nonneg_right hu (abs_nonneg _)) (by positivity)
  have h3 := abs_sub_le (binnedFl R.fl E sigma_0 z nz bin) (u * nz) (binProbability sigma_0 z bin * nz)
  calc _ ≤ _ := h3
    _ ≤ 5 / 2 ^ 53 * (2 * |nz|) + 4 * (d + 14 / 2 ^ 53) * |nz| := add_le_add (hr.trans h2) h1
    _ = _ := by ring

/-- **C165**: all entries of the result. -/
theorem tomo_fl_error (R : Rounding) {E : ℝ → ℝ} {d : ℝ} (hE : ∀ x, |E x - erf x| ≤ d)
    (hE0 : ∀ x, 0 ≤ x → 0 ≤ E x) (hE1 : ∀ x, |E x| ≤ 1) {z nz : List ℝ} (hl : nz.length = z.length)
    {sigma_0 : ℝ} (hs : 0 < sigma_0) (hz : ∀ t ∈ z, 0 ≤ t) {zbins : List (ℝ × ℝ)} (hne : zbins ≠ [])
    (hb : ∀ b ∈ zbins, b.1 ≤ b.2) :
    ∃ rows : List (List ℝ), tomoFl R.fl E z nz sigma_0 zbins = .ok rows ∧
      rows.length = zbins.length ∧
      ∀ (j : ℕ) (b : ℝ × ℝ), zbins[j]? = some b → ∃ r, rows[j]? = some r ∧ r.length = z.length ∧
        ∀ (i : ℕ) (t n : ℝ), z[i]? = some t → nz[i]? = some n → ∃ v, r[i]? = some v ∧
          |v - binProbability sigma_0 t b * n| ≤ (4 * d + 66 / 2 ^ 53) * |n| := by
  refine ⟨_, tomo_fl_rows _ _ hl sigma_0 hne, by simp, ?_⟩
  intro j b hj
  refine ⟨List.zipWith (fun z nz => binnedFl R.fl E sigma_0 z nz b) z nz, by simp [hj], by simp [hl], ?_⟩
  intro i t n ht hn
  refine ⟨binnedFl R.fl E sigma_0 t n b, ?_, ?_⟩
  · rw [List.getElem?_zipWith, ht, hn]
  · exact binned_error R hE hE0 hE1 hs (hz t (List.mem_of_getElem? ht)) n (hb b (List.mem_of_getElem? hj))

/-- Concrete case of the error: the exact error function in double precision. -/
example : ∃ rows : List (List ℝ), tomoFl double.fl erf [1] [3] 1 [(0, 1), (1, 2)] = .ok rows ∧
    rows.length = 2 := by
  obtain ⟨rows, h, hl, -⟩ := tomo_fl_error double (E := erf) (d := 0) (by simp)
    (fun x hx => erf_nonneg hx) (fun x => abs_le.2 ⟨(erf_gt x).le, erf_le x⟩) (z := [1]) (nz := [3]) rfl
    one_pos (by simp) (zbins := [(0, 1), (1, 2)]) (by simp) (by
      intro b hb
      simp only [List.mem_cons, List.not_mem_nil, or_false] at hb
      rcases hb with rfl | rfl <;> norm_num)
  exact ⟨rows, h, hl⟩

/-- An error function computed with the values -1, 0 and 1 only. -/
noncomputable def stepErf (x : ℝ) : ℝ := if x < -1 then -1 else if x ≤ 1 then 0 else 1

theorem stepErf_mono : Monotone stepErf := by
  intro x y h
  unfold stepErf
  split_ifs <;> linarith

/-- Concrete case of the partition: even then the bins add up. -/
example : ∃ rows : List (List ℝ), tomoFl double.fl stepErf [0] [3] 1
    ((List.range 2).map fun j => (((2 * j : ℕ) : ℝ), ((2 * (j + 1) : ℕ) : ℝ))) = .ok rows := by
  have hw : widthFl double.fl 1 0 ≤ 2 := by
    have h2 : double.fl 2 = 2 := by
      have := double.exact 8 (by norm_num)
      norm_num at this ⊢
      exact this
    have hle : ∀ x : ℝ, x ≤ 2 → double.fl x ≤ 2 := fun x hx => (double.mono hx).trans_eq h2
    unfold widthFl
    rw [add_zero, double.one, mul_one, mul_one]
    exact hle _ (hle _ (hle _ (Real.sqrt_le_iff.2 ⟨by norm_num, by norm_num⟩)))
  obtain ⟨rows, h, -⟩ := tomo_fl_partition double stepErf_mono (fun x hx => by
      unfold stepErf
      split_ifs <;> linarith) (z := [0]) (nz := [3]) rfl
    one_pos (by simp [double.zero]) (by simp) (e := fun j => ((2 * j : ℕ) : ℝ)) (m := 2) (by norm_num)
    (by simp) (fun j => by push_cast; linarith) (by
      intro t ht
      rw [List.mem_singleton] at ht
      subst ht
      have hf : double.fl (0 - ((2 * 2 : ℕ) : ℝ)) = -4 := by
        have := double.exact (-16) (by norm_num)
        norm_num at this ⊢
        exact this
      have hp := width_pos double one_pos (le_refl (0 : ℝ))
      unfold edgeFl stepErf
      rw [hf, if_pos]
      have h1 : (-4 : ℝ) / widthFl double.fl 1 0 ≤ -2 := by
        rw [div_le_iff₀ hp]; linarith
      have h2 := double.mono h1
      have h3 : double.fl (-2) = -2 := by
        have := double.exact (-8) (by norm_num)
        norm_num at this ⊢
        exact this
      linarith)
  exact ⟨rows, h⟩

end Glass.Obs
