import Mathlib.Analysis.SpecialFunctions.Pow.Real

/-!
# Weights of redshifts

Model of `DistanceWeight`, `VolumeWeight` and `DensityWeight` in `/repo/glass/shells.py`, and of
`_kappa_ia_nla` in `/repo/glass/galaxies.py`.  The cosmology is a parameter.
-/

namespace Glass.Shells

/-- `cosmology.py:10-44`: the methods and attributes of a cosmology that are used here. -/
structure Cosmology where
  /-- `H_over_H0` -/
  hOverH0 : ℝ → ℝ
  /-- `transverse_comoving_distance` from redshift zero -/
  transverse : ℝ → ℝ
  /-- `comoving_distance` from redshift zero -/
  comoving : ℝ → ℝ
  /-- `hubble_distance` -/
  hubbleDistance : ℝ
  /-- `critical_density0` -/
  criticalDensity0 : ℝ
  /-- `Omega_m` -/
  omegaM : ℝ → ℝ
  /-- `Omega_m0` -/
  omegaM0 : ℝ
  /-- `h` -/
  h : ℝ
  /-- `growth_factor` -/
  growth : ℝ → ℝ

/-- `shells.py:83-110` `DistanceWeight`. -/
noncomputable def distanceWeight (c : Cosmology) (z : ℝ) : ℝ := 1 / c.hOverH0 z

/-- `shells.py:114-143` `VolumeWeight`. -/
noncomputable def volumeWeight (c : Cosmology) (z : ℝ) : ℝ :=
  (c.transverse z / c.hubbleDistance) ^ 2 / c.hOverH0 z

/-- `shells.py:147-180` `DensityWeight`. -/
noncomputable def densityWeight (c : Cosmology) (z : ℝ) : ℝ :=
  c.criticalDensity0 * c.omegaM z * (c.transverse z / c.hubbleDistance) ^ 2 / c.hOverH0 z

/-- `galaxies.py:458-544` `_kappa_ia_nla` for one value of `delta`.  The powers of Python agree with
`Real.rpow` for non-negative bases: `0 ** 0 = 1`, and `0 ** beta` for a negative `beta`, which
raises in Python, is excluded in the theorems. -/
noncomputable def kappaIaNla (c : Cosmology) (delta zeff aIa : ℝ) (z0 : ℝ := 0) (eta : ℝ := 0)
    (lbar : ℝ := 0) (l0 : ℝ := 1e-9) (beta : ℝ := 0) : ℝ :=
  let c1 := 5e-14 / c.h ^ 2
  let rhoC1 := c1 * c.criticalDensity0
  let prefactor := -aIa * rhoC1 * c.omegaM0
  let inverseLinearGrowth := 1 / c.growth zeff
  let redshiftDependence := ((1 + zeff) / (1 + z0)) ^ eta
  let luminosityDependence := (lbar / l0) ^ beta
  let fNla := prefactor * inverseLinearGrowth * redshiftDependence * luminosityDependence
  delta * fNla

end Glass.Shells
