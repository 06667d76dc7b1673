import Mathlib.Analysis.SpecialFunctions.Log.Deriv
import Mathlib.Analysis.Complex.ExponentialBounds
import Verif.Numerics.Gradual
import Verif.Shells.FloatDistribute
import Verif.Observations.NzProps

/-!
# Normalised redshift distributions in floating point (C153)

`gaussian_nz` for one mean and standard deviation, with every operation rounded, including
underflow; and the normalisation of `gaussian_nz` and `smail_nz`.  The sum of the trapezoidal rule
is computed in an arbitrary order.
-/

namespace Glass.Obs

open Glass Glass.Num Glass.Arrays Glass.Shapes Glass.Spectra Glass.Shells NdArray

/-! ## Model -/

/-- `observations.py:144` with every operation rounded. -/
noncomputable def gaussianFl (fl : ℝ → ℝ) (mean sigma z : ℝ) : ℝ :=
  fl (Real.exp (fl (-fl (fl (fl (z - mean) / sigma) ^ 2) / 2)))

/-- The terms of `uxpx.trapezoid` with every operation rounded: `d * (y[1:] + y[:-1]) / 2`. -/
noncomputable def panelsFl (fl : ℝ → ℝ) : List (ℝ × ℝ) → List ℝ
  | k :: k' :: ks => fl (fl (fl (k'.1 - k.1) * fl (k'.2 + k.2)) / 2) :: panelsFl fl (k' :: ks)
  | _ => []

/-- `observations.py:145` and `observations.py:210` with every operation rounded: division of the
values by the integral. -/
noncomputable def normaliseFl (fl : ℝ → ℝ) (ys : List ℝ) (t : ℝ) : List (Option ℝ) :=
  ys.map fun y => (nanDiv y t).map fl

/-! ## Results -/

theorem panelsFl_real : ∀ ks : List (ℝ × ℝ), (panelsFl id ks).sum = trapezoid ks
  | [] => rfl
  | [_] => rfl
  | k :: k' :: ks => by
    rw [panelsFl, List.sum_cons, panelsFl_real (k' :: ks), trapezoid]
    rfl

theorem gaussianFl_real (mean sigma z : ℝ) : gaussianFl id mean sigma z = gaussianShape mean sigma z := by
  simp only [gaussianFl, gaussianShape, id_eq]
  congr 1
  rw [div_pow, neg_div, neg_div, div_div, mul_comm (2 : ℝ)]

/-- **C153** Without rounding, this is the model of the function. -/
theorem gaussian_fl_real {z : List ℝ} (hz : z.Pairwise (· < ·)) (h2 : 2 ≤ z.length) {mean sigma : ℝ}
    (hs : sigma ≠ 0) {t : ℝ}
    (ht : IsSum id (panelsFl id (sample (gaussianFl id mean sigma) z)) t) :
    ∃ y, gaussianNz z ⟨[], fun _ => mean⟩ ⟨[], fun _ => sigma⟩ none = .ok y ∧ y.shape = [z.length] ∧
      ∀ (k : ℕ) (_ : k < z.length),
        (normaliseFl id (z.map (gaussianFl id mean sigma)) t)[k]? = some (y.get [k]) := by
  have hd : IsBroadcast [([] : List ℕ), []] [] := by
    refine ⟨by simp, by simp, by simp⟩
  have e : gaussianFl id mean sigma = gaussianShape mean sigma := funext (gaussianFl_real mean sigma)
  rw [isSum_real ht, panelsFl_real, e]
  obtain ⟨y, h1, h3, h4⟩ := gaussian_raw z (mean := ⟨[], fun _ => mean⟩)
    (sigma := ⟨[], fun _ => sigma⟩) hd
  have hi : ([] : List ℕ) ∈ indices [] := by simp [indices]
  have hpos : 0 < trapezoid (sample (gaussianShape mean sigma) z) :=
    trapezoid_pos hz h2 (fun x _ => (Real.exp_pos _).le) (fun x _ => Real.exp_pos _)
  obtain ⟨r, hr, hrs, hrow⟩ := normalise_none h3 (f := fun _ => gaussianShape mean sigma)
    (fun i hi' k hk => by
      have : i = [] := by simpa [indices] using hi'
      subst this
      exact h4 [] hi (by simpa [entry] using hs) k hk) (fun i _ => hpos.ne')
  refine ⟨r, (h1 none).trans hr, hrs, fun k hk => ?_⟩
  have := hrow [] hi k hk
  simp only [List.nil_append] at this
  rw [this]
  simp [normaliseFl, nanDiv, hpos.ne', hk]

/-! ### Underflow -/

theorem Gradual.fl_zero (G : Gradual) : G.fl 0 = 0 := G.zero 0 (by simpa using tiny_pos)

theorem Gradual.nonneg (G : Gradual) {x : ℝ} (h : 0 ≤ x) : 0 ≤ G.fl x := by
  rw [← Gradual.fl_zero G]; exact G.mono h

/-- The modulus of a rounded number that is large enough. -/
theorem Gradual.le_abs (G : Gradual) {x : ℝ} : (1 - 1 / 2 ^ 53) * |x| - tiny ≤ |G.fl x| := by
  have h := G.error x
  have h2 : |x| ≤ |G.fl x - x| + |G.fl x| := by
    have := abs_sub_abs_le_abs_sub x (G.fl x)
    rw [abs_sub_comm x] at this; linarith
  have : (1 - 1 / 2 ^ 53) * |x| = |x| - |x| / 2 ^ 53 := by ring
  rw [this]; linarith

theorem Gradual.abs_le (G : Gradual) {x : ℝ} : |G.fl x| ≤ (1 + 1 / 2 ^ 53) * |x| + tiny := by
  have h := G.error x
  have h2 : |G.fl x| ≤ |G.fl x - x| + |x| := by
    have := abs_add_le (G.fl x - x) x
    simpa using this
  have : (1 + 1 / 2 ^ 53) * |x| = |x| + |x| / 2 ^ 53 := by ring
  rw [this]; linarith

theorem tiny_small : tiny ≤ 1 / 2 ^ 53 := by
  unfold tiny
  rw [show (1 / 2 ^ 53 : ℝ) = 2 ^ (-53 : ℤ) by norm_num]
  exact zpow_le_zpow_right₀ (by norm_num) (by norm_num)

theorem tiny_eq : tiny = Real.exp (-(1075 * Real.log 2)) := by
  unfold tiny
  rw [← Real.rpow_intCast, Real.rpow_def_of_pos (by norm_num)]
  congr 1; push_cast; ring

theorem exp_750 : Real.exp (-750) < tiny := by
  rw [tiny_eq, Real.exp_lt_exp]
  have := Real.log_two_lt_d9
  norm_num at this ⊢
  linarith

/-- More than 39 standard deviations from the mean, the function is rounded to zero. -/
theorem gaussianFl_zero (G : Gradual) {mean sigma z : ℝ} (hs : tiny * 2 ^ 60 ≤ sigma)
    (h : 39 * sigma ≤ |z - mean|) : gaussianFl G.fl mean sigma z = 0 := by
  have t0 := tiny_pos
  have hs0 : 0 < sigma := by nlinarith
  have t1 := tiny_small
  unfold gaussianFl
  apply G.zero
  rw [abs_of_pos (Real.exp_pos _)]
  refine lt_of_le_of_lt ?_ exp_750
  rw [Real.exp_le_exp]
  have a1 : 38.9 * sigma ≤ |G.fl (z - mean)| := by
    refine le_trans ?_ (Gradual.le_abs G)
    have : (1 - 1 / 2 ^ 53) * (39 * sigma) ≤ (1 - 1 / 2 ^ 53) * |z - mean| := by
      have : (0 : ℝ) ≤ 1 - 1 / 2 ^ 53 := by norm_num
      gcongr
    have : tiny ≤ sigma / 2 ^ 60 := by rw [le_div_iff₀ (by norm_num)]; exact hs
    norm_num at *
    linarith
  have a2 : 38.8 ≤ |G.fl (G.fl (z - mean) / sigma)| := by
    refine le_trans ?_ (Gradual.le_abs G)
    have : 38.9 ≤ |G.fl (z - mean) / sigma| := by
      rw [abs_div, abs_of_pos hs0, le_div_iff₀ hs0]; exact a1
    norm_num at *
    linarith
  have a3 : 1505 ≤ G.fl (G.fl (G.fl (z - mean) / sigma) ^ 2) := by
    have h1 : 1505.4 ≤ G.fl (G.fl (z - mean) / sigma) ^ 2 := by
      rw [← sq_abs]; nlinarith
    have h2 := Gradual.le_abs G (x := G.fl (G.fl (z - mean) / sigma) ^ 2)
    rw [abs_of_nonneg (sq_nonneg _), abs_of_nonneg (Gradual.nonneg G (sq_nonneg _))] at h2
    norm_num at *
    linarith
  set w := G.fl (G.fl (G.fl (z - mean) / sigma) ^ 2)
  have h3 : |G.fl (-w / 2)| = -G.fl (-w / 2) := by
    apply abs_of_nonpos
    rw [← Gradual.fl_zero G]
    exact G.mono (by linarith)
  have h4 := Gradual.le_abs G (x := -w / 2)
  rw [h3, abs_of_nonpos (by linarith)] at h4
  norm_num at *
  linarith

theorem panelsFl_zero (G : Gradual) : ∀ ks : List (ℝ × ℝ), (∀ k ∈ ks, k.2 = 0) →
    ∀ p ∈ panelsFl G.fl ks, p = 0
  | [], _, p, h => by simp [panelsFl] at h
  | [_], _, p, h => by simp [panelsFl] at h
  | k :: k' :: ks, h0, p, h => by
    rw [panelsFl, List.mem_cons] at h
    rcases h with rfl | h
    · rw [h0 k (by simp), h0 k' (by simp), add_zero, Gradual.fl_zero, mul_zero, Gradual.fl_zero,
        zero_div, Gradual.fl_zero]
    · exact panelsFl_zero G (k' :: ks) (fun x hx => h0 x (by simp [hx])) p h

theorem isSum_zero {fl : ℝ → ℝ} (h0 : fl 0 = 0) {l : List ℝ} {a : ℝ} (h : IsSum fl l a)
    (hl : ∀ x ∈ l, x = 0) : a = 0 := by
  induction h with
  | nil => rfl
  | single x => exact hl x (by simp)
  | append _ _ ih ih' =>
    rw [ih fun x hx => hl x (by simp [hx]), ih' fun x hx => hl x (by simp [hx]), add_zero, h0]
  | perm hp _ ih => exact ih fun x hx => hl x (hp.mem_iff.1 hx)

/-- **C153**, counterexample: if all redshifts are more than 39 standard deviations from the mean, all
values underflow, and the normalised distribution is 0/0, not a number. -/
theorem float_gaussian_nz_nan (G : Gradual) {mean sigma : ℝ} (hs : tiny * 2 ^ 60 ≤ sigma) {z : List ℝ}
    (h : ∀ x ∈ z, 39 * sigma ≤ |x - mean|) {t : ℝ}
    (ht : IsSum G.fl (panelsFl G.fl (sample (gaussianFl G.fl mean sigma) z)) t) :
    normaliseFl G.fl (z.map (gaussianFl G.fl mean sigma)) t = z.map fun _ => none := by
  have hz : ∀ x ∈ z, gaussianFl G.fl mean sigma x = 0 := fun x hx => gaussianFl_zero G hs (h x hx)
  have h0 : t = 0 := by
    refine isSum_zero (Gradual.fl_zero G) ht (panelsFl_zero G _ ?_)
    intro k hk
    obtain ⟨x, hx, rfl⟩ := List.mem_map.1 hk
    exact hz x hx
  unfold normaliseFl
  rw [List.map_map]
  apply List.map_congr_left
  intro x _
  simp [nanDiv, h0]

/-- There are such redshifts: the points 0, 0.1, 0.2, … around a mean of 0.05 with standard deviation
0.001. -/
example (n : ℕ) : tiny * 2 ^ 60 ≤ (0.001 : ℝ) ∧
    ∀ x ∈ (List.range n).map (fun k : ℕ => (k : ℝ) / 10), 39 * (0.001 : ℝ) ≤ |x - 0.05| := by
  constructor
  · unfold tiny
    rw [show (2 : ℝ) ^ 60 = 2 ^ (60 : ℤ) by norm_num, ← zpow_add₀ (by norm_num)]
    refine le_trans (zpow_le_zpow_right₀ (n := -10) (by norm_num) (by norm_num)) (by norm_num)
  · intro x hx
    obtain ⟨k, -, rfl⟩ := List.mem_map.1 hx
    rcases Nat.eq_zero_or_pos k with rfl | h
    · norm_num [abs_of_nonneg]
    · have : (1 : ℝ) ≤ k := by exact_mod_cast h
      rw [abs_of_nonneg (by linarith)]
      linarith

/-! ### Values within the range -/

theorem exp_345 : (2 : ℝ) ^ (-500 : ℤ) ≤ Real.exp (-345) := by
  rw [← Real.rpow_intCast, Real.rpow_def_of_pos (by norm_num), Real.exp_le_exp]
  have := Real.log_two_gt_d9
  norm_num at this ⊢
  linarith

theorem tiny_le (n : ℤ) (hn : -1075 ≤ n) : tiny ≤ (2 : ℝ) ^ n :=
  zpow_le_zpow_right₀ (by norm_num) hn

theorem exp_344 : (2 : ℝ) ^ (-499 : ℤ) ≤ Real.exp (-344) := by
  have h := exp_345
  have e : Real.exp (-344) = Real.exp 1 * Real.exp (-345) := by rw [← Real.exp_add]; norm_num
  have h1 : 2 ≤ Real.exp 1 := by have := Real.add_one_le_exp (1 : ℝ); linarith
  have e2 : (2 : ℝ) ^ (-499 : ℤ) = 2 * 2 ^ (-500 : ℤ) := by
    rw [show (-499 : ℤ) = 1 + -500 by norm_num, zpow_add₀ (by norm_num)]; norm_num
  rw [e, e2]
  have : (0 : ℝ) < 2 ^ (-500 : ℤ) := by positivity
  nlinarith

/-- Positive numbers of moderate size are not rounded to zero. -/
theorem Gradual.ge (G : Gradual) {x : ℝ} {n : ℤ} (hn : -1070 ≤ n) (h : (2 : ℝ) ^ (n + 1) ≤ x) :
    (2 : ℝ) ^ n ≤ G.fl x := by
  have p : (0 : ℝ) < 2 ^ n := by positivity
  have e : (2 : ℝ) ^ (n + 1) = 2 * 2 ^ n := by rw [zpow_add₀ (by norm_num)]; ring
  have hx : 0 ≤ x := by rw [e] at h; linarith
  have h1 := Gradual.le_abs G (x := x)
  rw [abs_of_nonneg hx, abs_of_nonneg (Gradual.nonneg G hx)] at h1
  have h2 : tiny ≤ 2 ^ n / 32 := by
    have := tiny_le (n - 5) (by omega)
    rwa [zpow_sub₀ (by norm_num), show (2 : ℝ) ^ (5 : ℤ) = 32 by norm_num] at this
  rw [e] at h
  norm_num at h1
  linarith

/-- Within 26 standard deviations of the mean, the function does not underflow. -/
theorem gaussianFl_pos (G : Gradual) {mean sigma z : ℝ} (hs : tiny * 2 ^ 60 ≤ sigma)
    (h : |z - mean| ≤ 26 * sigma) : (2 : ℝ) ^ (-500 : ℤ) ≤ gaussianFl G.fl mean sigma z := by
  have t0 := tiny_pos
  have hs0 : 0 < sigma := by nlinarith
  have t1 := tiny_small
  unfold gaussianFl
  refine Gradual.ge G (by norm_num) ?_
  refine le_trans (by norm_num) (exp_344.trans ?_)
  rw [Real.exp_le_exp]
  have a1 : |G.fl (z - mean)| ≤ 26.01 * sigma := by
    refine (Gradual.abs_le G).trans ?_
    have : (1 + 1 / 2 ^ 53) * |z - mean| ≤ (1 + 1 / 2 ^ 53) * (26 * sigma) := by gcongr
    have : tiny ≤ sigma / 2 ^ 60 := by rw [le_div_iff₀ (by norm_num)]; exact hs
    norm_num at *
    linarith
  have a2 : |G.fl (G.fl (z - mean) / sigma)| ≤ 26.02 := by
    refine (Gradual.abs_le G).trans ?_
    have : |G.fl (z - mean) / sigma| ≤ 26.01 := by
      rw [abs_div, abs_of_pos hs0, div_le_iff₀ hs0]; exact a1
    norm_num at *
    linarith
  have a3 : G.fl (G.fl (G.fl (z - mean) / sigma) ^ 2) ≤ 678 := by
    have h1 : G.fl (G.fl (z - mean) / sigma) ^ 2 ≤ 677.1 := by
      rw [← sq_abs]
      have := abs_nonneg (G.fl (G.fl (z - mean) / sigma))
      nlinarith
    have h2 := Gradual.abs_le G (x := G.fl (G.fl (z - mean) / sigma) ^ 2)
    rw [abs_of_nonneg (Gradual.nonneg G (sq_nonneg _)), abs_of_nonneg (sq_nonneg _)] at h2
    norm_num at *
    linarith
  have a4 : 0 ≤ G.fl (G.fl (G.fl (z - mean) / sigma) ^ 2) := Gradual.nonneg G (sq_nonneg _)
  set w := G.fl (G.fl (G.fl (z - mean) / sigma) ^ 2)
  have h3 : |G.fl (-w / 2)| = -G.fl (-w / 2) := by
    apply abs_of_nonpos
    rw [← Gradual.fl_zero G]
    exact G.mono (by linarith)
  have h4 := Gradual.abs_le G (x := -w / 2)
  rw [h3, abs_of_nonpos (by linarith)] at h4
  norm_num at *
  linarith

theorem panelsFl_nonneg (G : Gradual) : ∀ ks : List (ℝ × ℝ), (ks.map Prod.fst).Pairwise (· ≤ ·) →
    (∀ k ∈ ks, 0 ≤ k.2) → ∀ p ∈ panelsFl G.fl ks, 0 ≤ p ∧ G.fl p = p
  | [], _, _, p, h => by simp [panelsFl] at h
  | [_], _, _, p, h => by simp [panelsFl] at h
  | k :: k' :: ks, hx, h0, p, h => by
    rw [panelsFl, List.mem_cons] at h
    rw [List.map_cons, List.pairwise_cons] at hx
    rcases h with rfl | h
    · have := hx.1 k'.1 (by simp)
      have h1 := h0 k (by simp)
      have h2 := h0 k' (by simp)
      refine ⟨Gradual.nonneg G (div_nonneg (Gradual.nonneg G (mul_nonneg (Gradual.nonneg G ?_)
        (Gradual.nonneg G ?_))) (by norm_num)), G.idem _⟩ <;> linarith
    · exact panelsFl_nonneg G (k' :: ks) hx.2 (fun x hx => h0 x (by simp [hx])) p h

/-- A panel next to a point with a value that is not small is positive. -/
theorem panelsFl_pos (G : Gradual) : ∀ ks : List (ℝ × ℝ), 2 ≤ ks.length →
    ks.IsChain (fun a b => a.1 + 2 ^ (-500 : ℤ) ≤ b.1) → (∀ k ∈ ks, 0 ≤ k.2) →
    (∃ k ∈ ks, (2 : ℝ) ^ (-500 : ℤ) ≤ k.2) → ∃ p ∈ panelsFl G.fl ks, 0 < p
  | [], h, _, _, _ => by simp at h
  | [_], h, _, _, _ => by simp at h
  | k :: k' :: ks, _, hx, h0, ⟨a, ha, hv⟩ => by
    rw [List.isChain_cons_cons] at hx
    have key : (2 : ℝ) ^ (-500 : ℤ) ≤ k.2 ∨ (2 : ℝ) ^ (-500 : ℤ) ≤ k'.2 →
        0 < G.fl (G.fl (G.fl (k'.1 - k.1) * G.fl (k'.2 + k.2)) / 2) := by
      intro hk
      have h1 := h0 k (by simp)
      have h2 := h0 k' (by simp)
      have g1 : (2 : ℝ) ^ (-501 : ℤ) ≤ G.fl (k'.1 - k.1) :=
        Gradual.ge G (by norm_num) (le_trans (by norm_num) (show (2 : ℝ) ^ (-500 : ℤ) ≤ _ by linarith [hx.1]))
      have g2 : (2 : ℝ) ^ (-501 : ℤ) ≤ G.fl (k'.2 + k.2) :=
        Gradual.ge G (by norm_num) (le_trans (by norm_num)
          (show (2 : ℝ) ^ (-500 : ℤ) ≤ _ by rcases hk with h | h <;> linarith))
      have g3 : (2 : ℝ) ^ (-1003 : ℤ) ≤ G.fl (G.fl (k'.1 - k.1) * G.fl (k'.2 + k.2)) := by
        refine Gradual.ge G (by norm_num) ?_
        rw [show (-1003 + 1 : ℤ) = -501 + -501 by norm_num, zpow_add₀ (by norm_num)]
        exact mul_le_mul g1 g2 (by positivity) (le_trans (by positivity) g1)
      have g4 : (2 : ℝ) ^ (-1005 : ℤ) ≤ G.fl (G.fl (G.fl (k'.1 - k.1) * G.fl (k'.2 + k.2)) / 2) := by
        refine Gradual.ge G (by norm_num) ?_
        have e : (2 : ℝ) ^ (-1003 : ℤ) = 2 ^ (-1005 + 1 : ℤ) * 2 := by
          rw [show (-1003 : ℤ) = (-1005 + 1) + 1 by norm_num, zpow_add₀ (by norm_num) (-1005 + 1)]
          norm_num
        rw [le_div_iff₀ (by norm_num), ← e]
        exact g3
      exact lt_of_lt_of_le (by positivity) g4
    by_cases hk : (2 : ℝ) ^ (-500 : ℤ) ≤ k.2 ∨ (2 : ℝ) ^ (-500 : ℤ) ≤ k'.2
    · exact ⟨_, by simp [panelsFl], key hk⟩
    · push Not at hk
      rcases List.mem_cons.1 ha with rfl | ha
      · linarith [hk.1]
      rcases List.mem_cons.1 ha with rfl | ha'
      · linarith [hk.2]
      match ks, hx, ha', h0, ha with
      | b :: ks', hx, ha', h0, ha =>
        obtain ⟨p, hp, hpp⟩ := panelsFl_pos G (k' :: b :: ks') (by simp) hx.2
          (fun x hx => h0 x (List.mem_cons_of_mem _ hx)) ⟨a, ha, hv⟩
        exact ⟨p, by rw [panelsFl]; exact List.mem_cons_of_mem _ hp, hpp⟩

theorem isSum_terms (G : Gradual) {l : List ℝ} {a : ℝ} (h : IsSum G.fl l a)
    (hl : ∀ x ∈ l, 0 ≤ x ∧ G.fl x = x) : G.fl a = a ∧ 0 ≤ a ∧ ∀ x ∈ l, x ≤ a := by
  induction h with
  | nil => simp [Gradual.fl_zero]
  | single x => simpa [and_comm] using hl x (by simp)
  | @append l l' a a' _ _ ih ih' =>
    obtain ⟨f1, n1, m1⟩ := ih fun x hx => hl x (by simp [hx])
    obtain ⟨f2, n2, m2⟩ := ih' fun x hx => hl x (by simp [hx])
    refine ⟨G.idem _, Gradual.nonneg G (by linarith), fun x hx => ?_⟩
    rcases List.mem_append.1 hx with h | h
    · have := G.mono (show a ≤ a + a' by linarith)
      rw [f1] at this
      exact (m1 x h).trans this
    · have := G.mono (show a' ≤ a + a' by linarith)
      rw [f2] at this
      exact (m2 x h).trans this
  | perm hp _ ih =>
    obtain ⟨h1, h2, h3⟩ := ih fun x hx => hl x (hp.mem_iff.1 hx)
    exact ⟨h1, h2, fun x hx => h3 x (hp.mem_iff.2 hx)⟩

/-- **C153** If there are two redshifts or more in increasing order, and one of them is within 26
standard deviations of the mean, the integral is positive, and the values of the distribution are
numbers that are not negative. -/
theorem float_gaussian_nz_partial (G : Gradual) {mean sigma : ℝ} (hs : tiny * 2 ^ 60 ≤ sigma)
    {z : List ℝ} (h2 : 2 ≤ z.length) (hz : z.IsChain (fun a b => a + 2 ^ (-500 : ℤ) ≤ b))
    (h : ∃ x ∈ z, |x - mean| ≤ 26 * sigma) {t : ℝ}
    (ht : IsSum G.fl (panelsFl G.fl (sample (gaussianFl G.fl mean sigma) z)) t) :
    0 < t ∧ ∃ n : List ℝ, normaliseFl G.fl (z.map (gaussianFl G.fl mean sigma)) t = n.map some ∧
      n.length = z.length ∧ ∀ y ∈ n, 0 ≤ y := by
  have hp : ∀ x, 0 ≤ gaussianFl G.fl mean sigma x := fun x => Gradual.nonneg G (Real.exp_pos _).le
  have hk : ∀ k ∈ sample (gaussianFl G.fl mean sigma) z, 0 ≤ k.2 := by
    intro k hk
    obtain ⟨x, -, rfl⟩ := List.mem_map.1 hk
    exact hp x
  have hmap : (sample (gaussianFl G.fl mean sigma) z).map Prod.fst = z := by
    simp [sample, Function.comp_def]
  have hle : z.Pairwise (· ≤ ·) := by
    refine List.IsChain.pairwise (hz.imp fun a b h => ?_)
    have : (0 : ℝ) < 2 ^ (-500 : ℤ) := by positivity
    linarith
  obtain ⟨-, -, hterms⟩ := isSum_terms G ht (panelsFl_nonneg G _ (by rwa [hmap]) hk)
  obtain ⟨x, hx, hxs⟩ := h
  obtain ⟨p, hpm, hpos⟩ := panelsFl_pos G (sample (gaussianFl G.fl mean sigma) z)
    (by simpa [sample] using h2) (by
      unfold sample
      rw [List.isChain_map]
      exact hz) hk ⟨(x, gaussianFl G.fl mean sigma x), List.mem_map.2 ⟨x, hx, rfl⟩,
        gaussianFl_pos G hs hxs⟩
  have ht0 : 0 < t := hpos.trans_le (hterms p hpm)
  refine ⟨ht0, z.map fun x => G.fl (gaussianFl G.fl mean sigma x / t), ?_, by simp, ?_⟩
  · unfold normaliseFl
    rw [List.map_map, List.map_map]
    apply List.map_congr_left
    intro x _
    simp [nanDiv, ht0.ne']
  · intro y hy
    obtain ⟨x, -, rfl⟩ := List.mem_map.1 hy
    exact Gradual.nonneg G (div_nonneg (hp x) ht0.le)

/-- There are such redshifts. -/
example : tiny * 2 ^ 60 ≤ (0.1 : ℝ) ∧ 2 ≤ [(0 : ℝ), 1].length ∧
    [(0 : ℝ), 1].IsChain (fun a b => a + 2 ^ (-500 : ℤ) ≤ b) ∧
    ∃ x ∈ [(0 : ℝ), 1], |x - 0.5| ≤ 26 * (0.1 : ℝ) := by
  refine ⟨?_, by simp, ?_, 0, by simp, by norm_num [abs_of_nonneg]⟩
  · unfold tiny
    rw [show (2 : ℝ) ^ 60 = 2 ^ (60 : ℤ) by norm_num, ← zpow_add₀ (by norm_num)]
    refine le_trans (zpow_le_zpow_right₀ (n := -10) (by norm_num) (by norm_num)) (by norm_num)
  · have : (2 : ℝ) ^ (-500 : ℤ) ≤ 2 ^ (0 : ℤ) := zpow_le_zpow_right₀ (by norm_num) (by norm_num)
    simpa using this

/-! ### Normalisation -/

theorem panel_bounds (R : Rounding) {d s : ℝ} (hd : 0 ≤ d) (hs : 0 ≤ s) :
    (1 - 1 / 2 ^ 53) ^ 4 * (d * s / 2) ≤ R.fl (R.fl (R.fl d * R.fl s) / 2) ∧
      R.fl (R.fl (R.fl d * R.fl s) / 2) ≤ (1 + 1 / 2 ^ 53) ^ 4 * (d * s / 2) := by
  have b1 := R.bounds hd
  have b2 := R.bounds hs
  have n1 := R.nonneg hd
  have n2 := R.nonneg hs
  have b3 := R.bounds (mul_nonneg n1 n2)
  have n3 := R.nonneg (mul_nonneg n1 n2)
  have b4 := R.bounds (div_nonneg n3 (by norm_num : (0 : ℝ) ≤ 2))
  have k0 : (0 : ℝ) ≤ 1 - 1 / 2 ^ 53 := by norm_num
  have k3 : (0 : ℝ) ≤ 1 + 1 / 2 ^ 53 := by norm_num
  generalize R.fl d = fd at *
  generalize R.fl s = fs at *
  generalize R.fl (fd * fs) = fp at *
  generalize R.fl (fp / 2) = fq at *
  generalize (1 - 1 / 2 ^ 53 : ℝ) = a at *
  generalize (1 + 1 / 2 ^ 53 : ℝ) = b at *
  have c1 : a * d * (a * s) ≤ fd * fs := mul_le_mul b1.1 b2.1 (by positivity) n1
  have c2 : fd * fs ≤ b * d * (b * s) := mul_le_mul b1.2 b2.2 n2 (by positivity)
  constructor
  · calc a ^ 4 * (d * s / 2) = a * (a * (a * d * (a * s)) / 2) := by ring
      _ ≤ a * (a * (fd * fs) / 2) := by gcongr
      _ ≤ a * (fp / 2) := by gcongr; exact b3.1
      _ ≤ fq := b4.1
  · calc fq ≤ b * (fp / 2) := b4.2
      _ ≤ b * (b * (fd * fs) / 2) := by gcongr; exact b3.2
      _ ≤ b * (b * (b * d * (b * s)) / 2) := by gcongr
      _ = b ^ 4 * (d * s / 2) := by ring

theorem panels_bounds (R : Rounding) : ∀ ks : List (ℝ × ℝ), (ks.map Prod.fst).Pairwise (· ≤ ·) →
    (∀ k ∈ ks, 0 ≤ k.2) → (∀ p ∈ panelsFl R.fl ks, 0 ≤ p) ∧
      (panelsFl R.fl ks).length ≤ ks.length - 1 ∧
      (1 - 1 / 2 ^ 53) ^ 4 * trapezoid ks ≤ (panelsFl R.fl ks).sum ∧
      (panelsFl R.fl ks).sum ≤ (1 + 1 / 2 ^ 53) ^ 4 * trapezoid ks
  | [], _, _ => by simp [panelsFl, trapezoid]
  | [_], _, _ => by simp [panelsFl, trapezoid]
  | k :: k' :: ks, hx, h0 => by
    rw [List.map_cons, List.pairwise_cons] at hx
    obtain ⟨i1, i2, i3, i4⟩ := panels_bounds R (k' :: ks) hx.2 (fun x hx => h0 x (by simp [hx]))
    have hd : 0 ≤ k'.1 - k.1 := sub_nonneg.2 (hx.1 k'.1 (by simp))
    have hs : 0 ≤ k'.2 + k.2 := add_nonneg (h0 k' (by simp)) (h0 k (by simp))
    have hb := panel_bounds R hd hs
    rw [panelsFl, trapezoid_cons, List.sum_cons]
    refine ⟨fun p hp => ?_, by simp at i2 ⊢; omega, ?_, ?_⟩
    · rcases List.mem_cons.1 hp with rfl | hp
      · exact R.nonneg (div_nonneg (R.nonneg (mul_nonneg (R.nonneg hd) (R.nonneg hs))) (by norm_num))
      · exact i1 p hp
    · rw [mul_add]; exact add_le_add hb.1 i3
    · rw [mul_add]; exact add_le_add hb.2 i4

theorem panelsFl_number (R : Rounding) (hid : ∀ x, R.fl (R.fl x) = R.fl x) :
    ∀ ks : List (ℝ × ℝ), ∀ p ∈ panelsFl R.fl ks, R.fl p = p
  | [], p, h => by simp [panelsFl] at h
  | [_], p, h => by simp [panelsFl] at h
  | k :: k' :: ks, p, h => by
    rw [panelsFl, List.mem_cons] at h
    rcases h with rfl | h
    · exact hid _
    · exact panelsFl_number R hid (k' :: ks) p h

/-- **C153** If the integral of the values is positive, the values of `gaussian_nz` and `smail_nz`
without `norm` are numbers, and the integral of the normalised distribution is 1, up to
`2 (n + 4) / 2⁵³` for `n` redshifts. -/
theorem float_normalise (R : Rounding) (hid : ∀ x, R.fl (R.fl x) = R.fl x) {f : ℝ → ℝ} {z : List ℝ}
    (hz : z.Pairwise (· ≤ ·)) (hf : ∀ x ∈ z, 0 ≤ f x) (hT : 0 < trapezoid (sample f z))
    (hn : z.length ≤ 2 ^ 50) {t : ℝ} (ht : IsSum R.fl (panelsFl R.fl (sample f z)) t) :
    ∃ n : ℝ → ℝ, normaliseFl R.fl (z.map f) t = z.map (fun x => some (n x)) ∧ (∀ x ∈ z, 0 ≤ n x) ∧
      |trapezoid (sample n z) - 1| ≤ 2 * (z.length + 4) / 2 ^ 53 := by
  have hk : ∀ k ∈ sample f z, 0 ≤ k.2 := by
    intro k hk
    obtain ⟨x, hx, rfl⟩ := List.mem_map.1 hk
    exact hf x hx
  have hmap : (sample f z).map Prod.fst = z := by simp [sample, Function.comp_def]
  obtain ⟨p1, p2, p3, p4⟩ := panels_bounds R (sample f z) (by rwa [hmap]) hk
  obtain ⟨-, -, -, s1, s2⟩ := isSum_bounds R hid ht fun x hx => ⟨p1 x hx, panelsFl_number R hid _ x hx⟩
  have hlen : (sample f z).length = z.length := by simp [sample]
  have hpos : 0 < z.length := by
    rcases Nat.eq_zero_or_pos z.length with h | h
    · rw [List.length_eq_zero_iff] at h; subst h; simp [sample, trapezoid] at hT
    · exact h
  rw [hlen] at p2
  set m := (panelsFl R.fl (sample f z)).length
  set T := trapezoid (sample f z)
  have k0 : (0 : ℝ) < 1 - 1 / 2 ^ 53 := by norm_num
  have k1 : (1 - 1 / 2 ^ 53 : ℝ) ≤ 1 := by norm_num
  have k2 : (1 : ℝ) ≤ 1 + 1 / 2 ^ 53 := by norm_num
  have t1 : (1 - 1 / 2 ^ 53) ^ (z.length + 3) * T ≤ t := by
    refine le_trans ?_ (le_trans (mul_le_mul_of_nonneg_left p3 (by positivity)) s1)
    rw [← mul_assoc, ← pow_add]
    exact mul_le_mul_of_nonneg_right (pow_le_pow_of_le_one k0.le k1 (by omega)) hT.le
  have t2 : t ≤ (1 + 1 / 2 ^ 53) ^ (z.length + 3) * T := by
    refine le_trans (le_trans s2 (mul_le_mul_of_nonneg_left p4 (by positivity))) ?_
    rw [← mul_assoc, ← pow_add]
    exact mul_le_mul_of_nonneg_right (pow_le_pow_right₀ k2 (by omega)) hT.le
  have ht0 : 0 < t := lt_of_lt_of_le (by positivity) t1
  refine ⟨fun x => R.fl (f x / t), ?_, fun x hx => R.nonneg (div_nonneg (hf x hx) ht0.le), ?_⟩
  · unfold normaliseFl
    rw [List.map_map]
    apply List.map_congr_left
    intro x _
    simp [nanDiv, ht0.ne']
  have l1 : (1 - 1 / 2 ^ 53) / t * T ≤ trapezoid (sample (fun x => R.fl (f x / t)) z) := by
    rw [← trapezoid_sample_mul]
    refine trapezoid_sample_mono hz fun x hx => ?_
    have := (R.bounds (div_nonneg (hf x hx) ht0.le)).1
    calc _ = (1 - 1 / 2 ^ 53) * (f x / t) := by ring
      _ ≤ _ := this
  have l2 : trapezoid (sample (fun x => R.fl (f x / t)) z) ≤ (1 + 1 / 2 ^ 53) / t * T := by
    rw [← trapezoid_sample_mul]
    refine trapezoid_sample_mono hz fun x hx => ?_
    have := (R.bounds (div_nonneg (hf x hx) ht0.le)).2
    calc _ ≤ (1 + 1 / 2 ^ 53) * (f x / t) := this
      _ = _ := by ring
  have hN : ((z.length + 4 : ℕ) : ℝ) / 2 ^ 53 ≤ 1 / 4 := by
    have : (z.length : ℝ) ≤ 2 ^ 50 := by exact_mod_cast hn
    push_cast
    rw [div_le_iff₀ (by norm_num)]
    have e : (1 / 4 * 2 ^ 53 : ℝ) = 2 * 2 ^ 50 := by norm_num
    have e2 : (4 : ℝ) ≤ 2 ^ 50 := by norm_num
    rw [e]
    linarith
  set N := z.length + 4 with hNdef
  have bern : 1 - (N : ℝ) / 2 ^ 53 ≤ (1 - 1 / 2 ^ 53 : ℝ) ^ N := by
    have := one_add_mul_le_pow (a := (-(1 / 2 ^ 53) : ℝ)) (by norm_num) N
    calc _ = 1 + (N : ℝ) * (-(1 / 2 ^ 53)) := by ring
      _ ≤ (1 + -(1 / 2 ^ 53)) ^ N := this
      _ = _ := by ring
  have hinv : (1 + 1 / 2 ^ 53 : ℝ) * (1 - 1 / 2 ^ 53) ≤ 1 := by norm_num
  have e1 : (1 + 1 / 2 ^ 53) * (1 - 1 / 2 ^ 53) ^ N ≤ (1 - 1 / 2 ^ 53 : ℝ) ^ (z.length + 3) := by
    rw [show (1 - 1 / 2 ^ 53 : ℝ) ^ N = (1 - 1 / 2 ^ 53) * (1 - 1 / 2 ^ 53) ^ (z.length + 3) from
      pow_succ' _ _]
    have : (0 : ℝ) ≤ (1 - 1 / 2 ^ 53) ^ (z.length + 3) := by positivity
    calc _ = ((1 + 1 / 2 ^ 53) * (1 - 1 / 2 ^ 53)) * (1 - 1 / 2 ^ 53 : ℝ) ^ (z.length + 3) := by ring
      _ ≤ 1 * _ := mul_le_mul_of_nonneg_right hinv this
      _ = _ := one_mul _
  have e2 : (1 - 1 / 2 ^ 53 : ℝ) ^ N * (1 + 1 / 2 ^ 53) ^ (z.length + 3) ≤ 1 - 1 / 2 ^ 53 := by
    rw [show (1 - 1 / 2 ^ 53 : ℝ) ^ N = (1 - 1 / 2 ^ 53) ^ (z.length + 3) * (1 - 1 / 2 ^ 53) from
      pow_succ _ _, mul_right_comm, ← mul_pow]
    have : ((1 - 1 / 2 ^ 53) * (1 + 1 / 2 ^ 53) : ℝ) ^ (z.length + 3) ≤ 1 :=
      pow_le_one₀ (by norm_num) (by norm_num)
    calc _ ≤ 1 * (1 - 1 / 2 ^ 53 : ℝ) := mul_le_mul_of_nonneg_right this k0.le
      _ = _ := one_mul _
  have hfin : 2 * ((z.length : ℝ) + 4) / 2 ^ 53 = 2 * ((N : ℝ) / 2 ^ 53) := by
    rw [hNdef]; push_cast; ring
  rw [hfin, abs_le]
  have q0 : (0 : ℝ) ≤ (N : ℝ) / 2 ^ 53 := by positivity
  generalize (N : ℝ) / 2 ^ 53 = q at *
  constructor
  · have : 1 - q ≤ (1 - 1 / 2 ^ 53) / t * T := by
      refine bern.trans ?_
      rw [div_mul_eq_mul_div, le_div_iff₀ ht0]
      calc (1 - 1 / 2 ^ 53) ^ N * t ≤ (1 - 1 / 2 ^ 53) ^ N * ((1 + 1 / 2 ^ 53) ^ (z.length + 3) * T) := by
            gcongr
        _ = ((1 - 1 / 2 ^ 53) ^ N * (1 + 1 / 2 ^ 53) ^ (z.length + 3)) * T := by ring
        _ ≤ _ := mul_le_mul_of_nonneg_right e2 hT.le
    linarith
  · have : (1 + 1 / 2 ^ 53) / t * T ≤ 1 + 2 * q := by
      rw [div_mul_eq_mul_div, div_le_iff₀ ht0]
      have g1 : (1 + 1 / 2 ^ 53) * (1 - q) * T ≤ t := by
        refine le_trans (mul_le_mul_of_nonneg_right ?_ hT.le) t1
        exact le_trans (mul_le_mul_of_nonneg_left bern (by norm_num)) e1
      have g2 : 1 ≤ (1 - q) * (1 + 2 * q) := by nlinarith
      have g3 : (0 : ℝ) ≤ (1 + 1 / 2 ^ 53) * T := by positivity
      calc (1 + 1 / 2 ^ 53) * T ≤ (1 + 1 / 2 ^ 53) * T * ((1 - q) * (1 + 2 * q)) :=
            le_mul_of_one_le_right g3 g2
        _ = (1 + 2 * q) * ((1 + 1 / 2 ^ 53) * (1 - q) * T) := by ring
        _ ≤ (1 + 2 * q) * t := mul_le_mul_of_nonneg_left g1 (by linarith)
    linarith

/-- There is such a distribution. -/
example : ∃ f : ℝ → ℝ, [(0 : ℝ), 1].Pairwise (· ≤ ·) ∧ (∀ x ∈ [(0 : ℝ), 1], 0 ≤ f x) ∧
    0 < trapezoid (sample f [(0 : ℝ), 1]) ∧ [(0 : ℝ), 1].length ≤ 2 ^ 50 :=
  ⟨fun _ => 1, by simp, by simp, by simp [sample, trapezoid], by simp⟩

end Glass.Obs
