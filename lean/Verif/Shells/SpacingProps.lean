import Verif.Shells.WindowProps

/-!
# Spacing of the redshift grids of windows (C121)
-/

namespace Glass.Shells

open Glass.Num

/-- `xp.round` returns a nearest integer. -/
def IsRounding (rnd : ℝ → ℤ) : Prop := ∀ x, |(rnd x : ℝ) - x| ≤ 1 / 2

/-- The spacing of the grid between two redshifts. -/
noncomputable def gridStep (rnd : ℝ → ℤ) (dz a b : ℝ) : ℝ := (b - a) / ((gridSize rnd dz a b - 1 : ℕ) : ℝ)

/-- **C121**: the spacing is between `dz` and `5 dz / 2` if the range is at least `3 dz / 2` wide, and
its relative deviation from `dz` goes to zero with `dz`; narrower ranges have no points in
between.  (It is never less than `dz`: the code makes as many points as there should be
intervals.) -/
theorem step_spec {rnd : ℝ → ℤ} (hr : IsRounding rnd) {dz a b : ℝ} (hdz : 0 < dz) (hab : a < b) :
    0 < gridStep rnd dz a b ∧ gridStep rnd dz a b ≤ 5 / 2 * dz ∧
    (3 / 2 * dz ≤ b - a → dz < gridStep rnd dz a b ∧
      gridStep rnd dz a b - dz ≤ 3 / 2 * dz * (gridStep rnd dz a b / (b - a))) ∧
    (b - a < 3 / 2 * dz → gridSize rnd dz a b = 2 ∧ gridStep rnd dz a b = b - a) := by
  have hN := hr ((b - a) / dz)
  rw [abs_le] at hN
  set N := (b - a) / dz with hNdef
  have hba : b - a = N * dz := by rw [hNdef]; field_simp
  have hNpos : 0 < N := div_pos (by linarith) hdz
  rcases le_or_gt 3 (rnd N) with h3 | h3
  · -- the rounded number is used
    have hn : ((gridSize rnd dz a b - 1 : ℕ) : ℝ) = (rnd N : ℝ) - 1 := by
      have : ((gridSize rnd dz a b - 1 : ℕ) : ℤ) = rnd N - 1 := by
        unfold gridSize
        rw [← hNdef, max_eq_left (by omega)]
        omega
      have := congrArg (fun z : ℤ => (z : ℝ)) this
      push_cast at this
      simpa using this
    have hr3 : (3 : ℝ) ≤ rnd N := by exact_mod_cast h3
    have hd : (0 : ℝ) < (rnd N : ℝ) - 1 := by linarith
    have hs : gridStep rnd dz a b = N * dz / ((rnd N : ℝ) - 1) := by rw [gridStep, hn, hba]
    refine ⟨by rw [hs]; positivity, ?_, fun _ => ⟨?_, ?_⟩, fun h => ?_⟩
    · rw [hs, div_le_iff₀ hd]; nlinarith
    · rw [hs, lt_div_iff₀ hd]; nlinarith
    · have e : gridStep rnd dz a b / (b - a) = 1 / ((rnd N : ℝ) - 1) := by
        rw [hs, hba]; field_simp
      rw [e, hs, sub_le_iff_le_add, div_le_iff₀ hd]
      have : (3 / 2 * dz * (1 / ((rnd N : ℝ) - 1)) + dz) * ((rnd N : ℝ) - 1) =
          3 / 2 * dz + dz * ((rnd N : ℝ) - 1) := by field_simp
      rw [this]; nlinarith
    · exfalso
      rw [hba] at h
      have : N < 3 / 2 := lt_of_mul_lt_mul_right h hdz.le
      linarith [hN.2]
  · have hn : gridSize rnd dz a b = 2 := by
      unfold gridSize
      rw [← hNdef, max_eq_right (by omega)]
      rfl
    have hs : gridStep rnd dz a b = b - a := by rw [gridStep, hn]; simp
    have hr2 : (rnd N : ℝ) ≤ 2 := by exact_mod_cast Int.lt_add_one_iff.1 h3
    have hN2 : N ≤ 5 / 2 := by linarith [hN.1]
    refine ⟨by rw [hs]; linarith, by rw [hs, hba]; nlinarith, fun h => ⟨by rw [hs]; linarith, ?_⟩,
      fun _ => ⟨hn, hs⟩⟩
    rw [hs, div_self (by linarith), hba]
    nlinarith

theorem linspace_step {a b : ℝ} {n i : ℕ} (h : i + 1 < (linspace a b n).length) :
    (linspace a b n)[i + 1] - (linspace a b n)[i] = (b - a) / ((n - 1 : ℕ) : ℝ) := by
  simp only [linspace, List.getElem_map, List.getElem_range]
  push_cast
  ring

/-- **C121** for `tophat_windows`: equal spacing in each bin. -/
theorem tophat_spacing (rnd : ℝ → ℤ) (dz : ℝ) (weight : Option (ℝ → ℝ)) (a b : ℝ) (i : ℕ)
    (h : i + 1 < (tophatWindow rnd dz weight a b).za.length) :
    (tophatWindow rnd dz weight a b).za[i + 1] - (tophatWindow rnd dz weight a b).za[i] =
      gridStep rnd dz a b := by
  simp only [tophatWindow_za] at h ⊢
  exact linspace_step h

theorem applyWeight_za (weight : Option (ℝ → ℝ)) (ks : List (ℝ × ℝ)) :
    (applyWeight weight ks).map Prod.fst = ks.map Prod.fst := by
  unfold applyWeight
  split <;> simp [Function.comp_def]

theorem linearWindow_za (rnd : ℝ → ℤ) (dz : ℝ) (weight : Option (ℝ → ℝ)) (a b c : ℝ) :
    (linearWindow rnd dz weight a b c).za = linspaceOpen a b (gridSize rnd dz a b - 1) ++
      linspace b c (gridSize rnd dz b c) := by
  rw [RadialWindow.za, linearWindow, applyWeight_za, List.map_fst_zip]
  simp [linspaceOpen, linspace]

theorem cubicWindow_za (rnd : ℝ → ℤ) (dz : ℝ) (weight : Option (ℝ → ℝ)) (a b c : ℝ) :
    (cubicWindow rnd dz weight a b c).za = linspaceOpen a b (gridSize rnd dz a b - 1) ++
      linspace b c (gridSize rnd dz b c) := by
  rw [RadialWindow.za, cubicWindow, applyWeight_za, List.map_fst_zip]
  simp [linspaceOpen, linspace]

/-- **C121** for `linear_windows` and `cubic_windows`: equal spacing on each side of the centre. -/
theorem window_spacing (rnd : ℝ → ℤ) (dz : ℝ) (weight : Option (ℝ → ℝ)) {a b c : ℝ}
    (hab : a < b) (hbc : b < c) (w : RadialWindow)
    (hw : w = linearWindow rnd dz weight a b c ∨ w = cubicWindow rnd dz weight a b c) (i : ℕ)
    (h : i + 1 < w.za.length) :
    (w.za[i] < b → w.za[i + 1] - w.za[i] = gridStep rnd dz a b) ∧
    (b ≤ w.za[i] → w.za[i + 1] - w.za[i] = gridStep rnd dz b c) := by
  have hza : w.za = linspaceOpen a b (gridSize rnd dz a b - 1) ++
      linspace b c (gridSize rnd dz b c) := by
    rcases hw with rfl | rfl
    · exact linearWindow_za ..
    · exact cubicWindow_za ..
  have h1 := gridSize_ge rnd dz a b
  have h2 := gridSize_ge rnd dz b c
  generalize hn : gridSize rnd dz a b - 1 = n at hza
  have hn0 : (0 : ℝ) < n := by exact_mod_cast (by omega : 0 < n)
  simp only [hza] at h ⊢
  have hlen : (linspaceOpen a b n).length = n := by simp [linspaceOpen]
  have hstep : gridStep rnd dz a b = (b - a) / n := by rw [gridStep, hn]
  by_cases hi : i < n
  · have e1 : (linspaceOpen a b n ++ linspace b c (gridSize rnd dz b c))[i]'(by omega) =
        a + i * ((b - a) / n) := by
      rw [List.getElem_append_left (by omega)]; simp [linspaceOpen]
    have e2 : (linspaceOpen a b n ++ linspace b c (gridSize rnd dz b c))[i + 1] =
        a + ((i + 1 : ℕ) : ℝ) * ((b - a) / n) := by
      by_cases hi1 : i + 1 < n
      · rw [List.getElem_append_left (by omega)]; simp [linspaceOpen]
      · rw [List.getElem_append_right (by omega)]
        have : i + 1 = n := by omega
        simp only [linspace, List.getElem_map, List.getElem_range, hlen, this, Nat.sub_self]
        push_cast
        field_simp
        ring
    rw [e1, e2]
    refine ⟨fun _ => by rw [hstep]; push_cast; ring, fun hb => ?_⟩
    exfalso
    have hi' : (i : ℝ) < n := by exact_mod_cast hi
    have : (i : ℝ) * ((b - a) / n) < n * ((b - a) / n) :=
      mul_lt_mul_of_pos_right hi' (div_pos (by linarith) hn0)
    rw [mul_div_cancel₀ _ hn0.ne'] at this
    linarith
  · have e1 : (linspaceOpen a b n ++ linspace b c (gridSize rnd dz b c))[i]'(by omega) =
        b + ((i - n : ℕ) : ℝ) * ((c - b) / ((gridSize rnd dz b c - 1 : ℕ) : ℝ)) := by
      rw [List.getElem_append_right (by omega)]
      simp only [linspace, List.getElem_map, List.getElem_range, hlen]
    have e2 : (linspaceOpen a b n ++ linspace b c (gridSize rnd dz b c))[i + 1] =
        b + ((i - n + 1 : ℕ) : ℝ) * ((c - b) / ((gridSize rnd dz b c - 1 : ℕ) : ℝ)) := by
      rw [List.getElem_append_right (by omega)]
      simp only [linspace, List.getElem_map, List.getElem_range, hlen]
      rw [show i + 1 - n = i - n + 1 by omega]
    rw [e1, e2]
    refine ⟨fun hb => ?_, fun _ => by rw [gridStep]; push_cast; ring⟩
    exfalso
    have h0 : (0 : ℝ) ≤ ((i - n : ℕ) : ℝ) * ((c - b) / ((gridSize rnd dz b c - 1 : ℕ) : ℝ)) := by
      have : (0 : ℝ) ≤ c - b := by linarith
      positivity
    linarith

/-- Concrete case: rounding half up, and a bin of width `2 dz`, which has no point in between. -/
example : IsRounding (fun x => ⌊x + 1 / 2⌋) ∧ gridSize (fun x => ⌊x + 1 / 2⌋) 1 0 2 = 2 ∧
    gridStep (fun x => ⌊x + 1 / 2⌋) 1 0 2 = 2 := by
  have h : ⌊((2 : ℝ) - 0) / 1 + 1 / 2⌋ = 2 := by rw [Int.floor_eq_iff]; norm_num
  have hg : gridSize (fun x => ⌊x + 1 / 2⌋) 1 0 2 = 2 := by simp only [gridSize, h]; rfl
  refine ⟨fun x => ?_, hg, by rw [gridStep, hg]; norm_num⟩
  rw [abs_le]
  constructor <;> linarith [Int.floor_le (x + 1 / 2), Int.lt_floor_add_one (x + 1 / 2)]

end Glass.Shells
