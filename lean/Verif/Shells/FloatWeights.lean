import Verif.Shells.WeightsProps
import Verif.Shells.FloatAverages
import Verif.Lensing.FloatPlanes

/-!
# Weights of redshifts in floating point (C173)

`DistanceWeight`, `VolumeWeight` and `DensityWeight` with every operation rounded.
-/

namespace Glass.Shells

open Glass Glass.Spectra Glass.Lensing

/-! ## Model -/

/-- `shells.py:110` with every operation rounded. -/
noncomputable def distanceWeightFl (fl : ℝ → ℝ) (c : Cosmology) (z : ℝ) : ℝ := fl (1 / c.hOverH0 z)

/-- The square of the rounded distance in units of the Hubble distance, for `shells.py:141-143, 174-180`. -/
noncomputable def areaFl (fl : ℝ → ℝ) (c : Cosmology) (z : ℝ) : ℝ :=
  fl (fl (c.transverse z / c.hubbleDistance) * fl (c.transverse z / c.hubbleDistance))

/-- `shells.py:141-143` with every operation rounded. -/
noncomputable def volumeWeightFl (fl : ℝ → ℝ) (c : Cosmology) (z : ℝ) : ℝ := fl (areaFl fl c z / c.hOverH0 z)

/-- `shells.py:174-180` with every operation rounded. -/
noncomputable def densityWeightFl (fl : ℝ → ℝ) (c : Cosmology) (z : ℝ) : ℝ :=
  fl (fl (fl (c.criticalDensity0 * c.omegaM z) * areaFl fl c z) / c.hOverH0 z)

/-- **C173**: without rounding these are the exact weights. -/
theorem weights_fl_real (c : Cosmology) (z : ℝ) :
    distanceWeightFl id c z = distanceWeight c z ∧ volumeWeightFl id c z = volumeWeight c z ∧
      densityWeightFl id c z = densityWeight c z := by
  simp only [distanceWeightFl, distanceWeight, volumeWeightFl, volumeWeight, densityWeightFl, densityWeight, areaFl,
    id, sq, and_self]

/-! ## Errors -/

theorem area_rel (R : Rounding) (c : Cosmology) (z : ℝ) :
    Rel 3 ((c.transverse z / c.hubbleDistance) ^ 2) (areaFl R.fl c z) := by
  rw [sq]
  exact ((Rel.fl R _).mul (Rel.fl R _)).round R

theorem volume_rel (R : Rounding) (c : Cosmology) (z : ℝ) : Rel 4 (volumeWeight c z) (volumeWeightFl R.fl c z) :=
  ((area_rel R c z).div (Rel.refl (c.hOverH0 z))).round R

theorem density_rel (R : Rounding) (c : Cosmology) (z : ℝ) : Rel 6 (densityWeight c z) (densityWeightFl R.fl c z) :=
  ((((Rel.fl R (c.criticalDensity0 * c.omegaM z)).mul (area_rel R c z)).round R).div
    (Rel.refl (c.hOverH0 z))).round R

/-- **C173**: the relative errors of the weights. -/
theorem weights_fl_error (R : Rounding) (c : Cosmology) (z : ℝ) :
    |distanceWeightFl R.fl c z - distanceWeight c z| ≤ 1 / 2 ^ 53 * |distanceWeight c z| ∧
      |volumeWeightFl R.fl c z - volumeWeight c z| ≤ 5 / 2 ^ 53 * |volumeWeight c z| ∧
      |densityWeightFl R.fl c z - densityWeight c z| ≤ 7 / 2 ^ 53 * |densityWeight c z| := by
  refine ⟨?_, ?_, ?_⟩
  · refine (R.error _).trans (le_of_eq ?_)
    rw [distanceWeight]
    ring
  · exact (volume_rel R c z).error (by norm_num) (by norm_num)
  · exact (density_rel R c z).error (by norm_num) (by norm_num)

theorem rel_pos {k : ℕ} {x y : ℝ} (h : Rel k x y) (hx : 0 < x) : 0 < y := by
  obtain ⟨a, rfl, h1, -⟩ := h
  exact mul_pos hx (lt_of_lt_of_le (pow_pos (by norm_num) _) h1)

/-- **C173**: rounding keeps positive weights positive. -/
theorem weights_fl_pos (R : Rounding) (c : Cosmology) (z : ℝ) :
    (0 < distanceWeight c z → 0 < distanceWeightFl R.fl c z) ∧
      (0 < volumeWeight c z → 0 < volumeWeightFl R.fl c z) ∧
      (0 < densityWeight c z → 0 < densityWeightFl R.fl c z) :=
  ⟨rel_pos (Rel.fl R _), rel_pos (volume_rel R c z), rel_pos (density_rel R c z)⟩

/-- **C173**: where the expansion rate does not decrease, the computed distance weight does not increase. -/
theorem distance_fl_antitone (R : Rounding) (c : Cosmology) {z z' : ℝ} (h0 : 0 < c.hOverH0 z)
    (h : c.hOverH0 z ≤ c.hOverH0 z') : distanceWeightFl R.fl c z' ≤ distanceWeightFl R.fl c z :=
  R.mono (one_div_le_one_div_of_le h0 h)

/-- **C173**: where the expansion rate does not increase, the computed volume weight does not decrease with distance. -/
theorem volume_fl_mono (R : Rounding) (c : Cosmology) {z z' : ℝ} (hd : 0 < c.hubbleDistance)
    (h0 : 0 < c.hOverH0 z') (h : c.hOverH0 z' ≤ c.hOverH0 z) (ht : 0 ≤ c.transverse z)
    (htt : c.transverse z ≤ c.transverse z') : volumeWeightFl R.fl c z ≤ volumeWeightFl R.fl c z' := by
  have h1 : R.fl (c.transverse z / c.hubbleDistance) ≤ R.fl (c.transverse z' / c.hubbleDistance) :=
    R.mono (by gcongr)
  have h2 : 0 ≤ R.fl (c.transverse z / c.hubbleDistance) := R.nonneg (by positivity)
  have h3 : areaFl R.fl c z ≤ areaFl R.fl c z' := R.mono (mul_le_mul h1 h1 h2 (h2.trans h1))
  have h4 : 0 ≤ areaFl R.fl c z := R.nonneg (mul_nonneg h2 h2)
  exact R.mono (div_le_div₀ (h4.trans h3) h3 h0 h)

/-- A static universe with the Hubble distance one: at the distance 3 the weights are exact. -/
example : volumeWeightFl double.fl ⟨fun _ => 1, id, id, 1, 1, fun _ => 1, 1, 1, fun _ => 1⟩ 3 = 9 := by
  have h3 : double.fl 3 = 3 := by
    have := double.exact 12 (by norm_num)
    norm_num at this
    exact this
  have h9 : double.fl 9 = 9 := by
    have := double.exact 36 (by norm_num)
    norm_num at this
    exact this
  simp only [volumeWeightFl, areaFl, id, div_one, h3]
  norm_num [h9]

end Glass.Shells
