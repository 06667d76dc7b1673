import Verif.Shells.Weights
import Mathlib.MeasureTheory.Integral.IntervalIntegral.FundThmCalculus
import Mathlib.MeasureTheory.Integral.IntervalIntegral.IntegrationByParts
import Mathlib.Analysis.SpecialFunctions.Integrals.Basic

/-!
# What the weights are uniform in

The integral of a weight over a range of redshifts is, up to a constant, the comoving distance, the
comoving volume or the mass of that range.  The laws of the cosmology are those of the homogeneous
and isotropic universe with any curvature.
-/

namespace Glass.Shells

open MeasureTheory intervalIntegral

/-- The distances of a homogeneous universe: `curve` turns comoving into transverse distances (the
identity if space is flat, a sine or hyperbolic sine otherwise). -/
structure IsFlrw (c : Cosmology) (curve : ℝ → ℝ) : Prop where
  hubble : 0 < c.hubbleDistance
  expansion : ∀ z, 0 ≤ z → 0 < c.hOverH0 z
  continuous : ContinuousOn c.hOverH0 (Set.Ici 0)
  comoving : ∀ z, 0 ≤ z → c.comoving z = c.hubbleDistance * ∫ x in (0 : ℝ)..z, 1 / c.hOverH0 x
  transverse : ∀ z, 0 ≤ z → c.transverse z = curve (c.comoving z)
  curve : Continuous curve

/-- The comoving volume per solid angle between two redshifts: the integral of the square of the
transverse distance over the comoving distance. -/
noncomputable def comovingVolume (c : Cosmology) (curve : ℝ → ℝ) (a b : ℝ) : ℝ :=
  ∫ x in c.comoving a..c.comoving b, curve x ^ 2

theorem cont_clamped {c : Cosmology} {curve : ℝ → ℝ} (h : IsFlrw c curve) :
    Continuous fun x => 1 / c.hOverH0 (max x 0) := by
  have h1 : Continuous fun x => c.hOverH0 (max x 0) :=
    h.continuous.comp_continuous (by fun_prop) fun x => le_max_right x 0
  exact continuous_const.div h1 fun x => (h.expansion _ (le_max_right x 0)).ne'

theorem comoving_clamped {c : Cosmology} {curve : ℝ → ℝ} (h : IsFlrw c curve) {z : ℝ} (hz : 0 ≤ z) :
    c.comoving z = c.hubbleDistance * ∫ x in (0 : ℝ)..z, 1 / c.hOverH0 (max x 0) := by
  rw [h.comoving z hz]
  congr 1
  refine integral_congr fun x hx => ?_
  rw [Set.uIcc_of_le hz] at hx
  simp only [max_eq_left hx.1]

theorem comoving_deriv {c : Cosmology} {curve : ℝ → ℝ} (h : IsFlrw c curve) {z : ℝ} (hz : 0 < z) :
    HasDerivAt c.comoving (c.hubbleDistance / c.hOverH0 z) z := by
  have h1 := ((cont_clamped h).integral_hasStrictDerivAt 0 z).hasDerivAt.const_mul c.hubbleDistance
  simp only [max_eq_left hz.le, mul_one_div] at h1
  refine h1.congr_of_eventuallyEq ?_
  filter_upwards [lt_mem_nhds hz] with y hy
  exact comoving_clamped h hy.le

theorem comoving_continuousOn {c : Cosmology} {curve : ℝ → ℝ} (h : IsFlrw c curve) :
    ContinuousOn c.comoving (Set.Ici 0) := by
  have h1 : Continuous fun z => c.hubbleDistance * ∫ x in (0 : ℝ)..z, 1 / c.hOverH0 (max x 0) :=
    continuous_const.mul (continuous_primitive (fun a b => (cont_clamped h).intervalIntegrable a b) 0)
  exact h1.continuousOn.congr fun z hz => comoving_clamped h hz

theorem uIcc_sub {a b : ℝ} (ha : 0 ≤ a) (hb : 0 ≤ b) : Set.uIcc a b ⊆ Set.Ici 0 := by
  intro x hx
  exact (le_min ha hb).trans hx.1

theorem weight_continuousOn {c : Cosmology} {curve : ℝ → ℝ} (h : IsFlrw c curve) :
    ContinuousOn (fun z => 1 / c.hOverH0 z) (Set.Ici 0) :=
  continuousOn_const.div h.continuous fun z hz => (h.expansion z hz).ne'

/-- **C93**: the weight of a range of redshifts is its comoving distance, in units of the Hubble
distance. -/
theorem distance_weight_uniform {c : Cosmology} {curve : ℝ → ℝ} (h : IsFlrw c curve) {a b : ℝ}
    (ha : 0 ≤ a) (hb : 0 ≤ b) :
    ∫ z in a..b, distanceWeight c z = (c.comoving b - c.comoving a) / c.hubbleDistance := by
  have hi : ∀ {x y : ℝ}, 0 ≤ x → 0 ≤ y →
      IntervalIntegrable (fun z => 1 / c.hOverH0 z) volume x y := fun hx hy =>
    ((weight_continuousOn h).mono (uIcc_sub hx hy)).intervalIntegrable
  have := integral_interval_sub_left (hi le_rfl hb) (hi le_rfl ha)
  simp only [distanceWeight]
  rw [← this, h.comoving b hb, h.comoving a ha, ← mul_sub, mul_div_cancel_left₀ _ h.hubble.ne']

/-- **C93**: the weight of a range of redshifts is its comoving volume, in units of the cube of the
Hubble distance, whatever the curvature. -/
theorem volume_weight_uniform {c : Cosmology} {curve : ℝ → ℝ} (h : IsFlrw c curve) {a b : ℝ}
    (ha : 0 ≤ a) (hb : 0 ≤ b) :
    ∫ z in a..b, volumeWeight c z = comovingVolume c curve a b / c.hubbleDistance ^ 3 := by
  have hsub := integral_comp_mul_deriv'' (a := a) (b := b) (f := c.comoving)
    (f' := fun z => c.hubbleDistance / c.hOverH0 z) (g := fun x => curve x ^ 2)
    ((comoving_continuousOn h).mono (uIcc_sub ha hb))
    (fun x hx => ((comoving_deriv h ((le_min ha hb).trans_lt hx.1)).hasDerivWithinAt))
    (by
      have := continuousOn_const (c := c.hubbleDistance).div (h.continuous.mono (uIcc_sub ha hb))
        fun z hz => (h.expansion z (uIcc_sub ha hb hz)).ne'
      exact this)
    (h.curve.pow 2).continuousOn
  rw [comovingVolume, ← hsub, ← intervalIntegral.integral_div]
  refine integral_congr fun z hz => ?_
  have hz0 := uIcc_sub ha hb hz
  have hE := (h.expansion z hz0).ne'
  have hH := h.hubble.ne'
  simp only [volumeWeight, Function.comp, h.transverse z hz0]
  field_simp

/-- **C93**: in flat space the weight between two redshifts is a third of the difference of the cubes
of the distances. -/
theorem volume_weight_flat {c : Cosmology} (h : IsFlrw c id) {a b : ℝ} (ha : 0 ≤ a) (hb : 0 ≤ b) :
    ∫ z in a..b, volumeWeight c z
      = ((c.comoving b / c.hubbleDistance) ^ 3 - (c.comoving a / c.hubbleDistance) ^ 3) / 3 := by
  rw [volume_weight_uniform h ha hb, comovingVolume]
  simp only [id, integral_pow]
  have := h.hubble.ne'
  field_simp
  norm_num

/-- The weights are non-negative, and positive where the transverse distance does not vanish. -/
theorem weights_pos {c : Cosmology} {curve : ℝ → ℝ} (h : IsFlrw c curve) {z : ℝ} (hz : 0 ≤ z) :
    0 < distanceWeight c z ∧ 0 ≤ volumeWeight c z ∧ (c.transverse z ≠ 0 → 0 < volumeWeight c z) := by
  have hE := h.expansion z hz
  have hH := h.hubble.ne'
  refine ⟨by unfold distanceWeight; positivity, by unfold volumeWeight; positivity, fun ht => ?_⟩
  unfold volumeWeight
  positivity

/-! ### Matter density -/

/-- `Omega_m(z)` is the density parameter: the ratio of the matter density `rho` to the critical
density `critical_density0 * H_over_H0 ** 2` at the same redshift.  The matter density grows with
the third power of the scale. -/
structure HasMatter (c : Cosmology) (rho : ℝ → ℝ) : Prop where
  critical : 0 < c.criticalDensity0
  parameter : ∀ z, 0 ≤ z → c.omegaM z = rho z / (c.criticalDensity0 * c.hOverH0 z ^ 2)
  dilution : ∀ z, 0 ≤ z → rho z = rho 0 * (1 + z) ^ 3
  positive : 0 < rho 0

/-- **C94**: what the weight is, if `Omega_m` is the density parameter: the volume times the matter
density, divided by the square of the expansion rate. -/
theorem density_weight_value {c : Cosmology} {curve rho : ℝ → ℝ} (h : IsFlrw c curve)
    (hm : HasMatter c rho) {z : ℝ} (hz : 0 ≤ z) :
    densityWeight c z = rho z / c.hOverH0 z ^ 2 * volumeWeight c z := by
  have hE := (h.expansion z hz).ne'
  have hc := hm.critical.ne'
  have hH := h.hubble.ne'
  simp only [densityWeight, volumeWeight, hm.parameter z hz]
  field_simp

/-- **C94**, the part that holds: if `Omega_m` were the matter density in units of the critical density
today, as in the tests of the repository (`tests/fixtures/domain.py:111`), the weight of a range of
redshifts would be the volume weighted with the matter density. -/
theorem density_weight_partial {c : Cosmology} {rho : ℝ → ℝ} (hc : 0 < c.criticalDensity0)
    (hm : ∀ z, 0 ≤ z → c.omegaM z = rho z / c.criticalDensity0) {a b : ℝ} (ha : 0 ≤ a) (hb : 0 ≤ b) :
    ∫ z in a..b, densityWeight c z = ∫ z in a..b, rho z * volumeWeight c z := by
  refine integral_congr fun z hz => ?_
  have hz0 := uIcc_sub ha hb hz
  simp only [densityWeight, volumeWeight, hm z hz0]
  have := hc.ne'
  field_simp

/-- A flat universe with the given expansion history. -/
noncomputable def flatUniverse (E : ℝ → ℝ) (om : ℝ → ℝ) : Cosmology where
  hOverH0 := E
  transverse z := ∫ x in (0 : ℝ)..z, 1 / E x
  comoving z := ∫ x in (0 : ℝ)..z, 1 / E x
  hubbleDistance := 1
  criticalDensity0 := 1
  omegaM := om
  omegaM0 := om 0
  h := 1
  growth z := 1 / (1 + z)

theorem flatUniverse_flrw {E om : ℝ → ℝ} (hE : ∀ z, 0 ≤ z → 0 < E z)
    (hc : ContinuousOn E (Set.Ici 0)) : IsFlrw (flatUniverse E om) id where
  hubble := one_pos
  expansion := hE
  continuous := hc
  comoving _ _ := (one_mul _).symm
  transverse _ _ := rfl
  curve := continuous_id

/-- The universe with matter density parameter `w` today and a cosmological constant otherwise. -/
noncomputable def matterUniverse (w : ℝ) : Cosmology :=
  flatUniverse (fun z => Real.sqrt (w * (1 + z) ^ 3 + (1 - w)))
    fun z => w * (1 + z) ^ 3 / (w * (1 + z) ^ 3 + (1 - w))

theorem matter_sq_pos {w z : ℝ} (h0 : 0 < w) (h1 : w ≤ 1) (hz : 0 ≤ z) :
    0 < w * (1 + z) ^ 3 + (1 - w) := by
  have : 0 < w * (1 + z) ^ 3 := by positivity
  linarith

theorem matterUniverse_flrw {w : ℝ} (h0 : 0 < w) (h1 : w ≤ 1) : IsFlrw (matterUniverse w) id :=
  flatUniverse_flrw (fun _ hz => Real.sqrt_pos.2 (matter_sq_pos h0 h1 hz)) (by fun_prop)

theorem matterUniverse_matter {w : ℝ} (h0 : 0 < w) (h1 : w ≤ 1) :
    HasMatter (matterUniverse w) fun z => w * (1 + z) ^ 3 where
  critical := one_pos
  parameter z hz := by
    simp only [matterUniverse, flatUniverse, one_mul]
    rw [Real.sq_sqrt (matter_sq_pos h0 h1 hz).le]
  dilution z _ := by simp
  positive := by simpa using h0

theorem matterUniverse_transverse {w z : ℝ} (h0 : 0 < w) (h1 : w ≤ 1) (hz : 0 < z) :
    0 < (matterUniverse w).transverse z := by
  have hf := matterUniverse_flrw h0 h1
  refine intervalIntegral_pos_of_pos_on
    (((weight_continuousOn hf).mono (uIcc_sub le_rfl hz.le)).intervalIntegrable) (fun x hx => ?_) hz
  exact one_div_pos.2 (hf.expansion x hx.1.le)

/-- **C94** is false: with the density parameter of a universe of matter only, the weight is not
proportional to the matter density times the comoving volume. -/
theorem density_weight_not_density : ∃ (c : Cosmology) (rho : ℝ → ℝ), IsFlrw c id ∧ HasMatter c rho ∧
    ¬ ∃ k : ℝ, ∀ z, 0 ≤ z → densityWeight c z = k * (rho z * volumeWeight c z) := by
  have h0 : (0 : ℝ) < 1 := one_pos
  have hf := matterUniverse_flrw h0 le_rfl
  have hm := matterUniverse_matter h0 le_rfl
  refine ⟨matterUniverse 1, _, hf, hm, ?_⟩
  rintro ⟨k, hk⟩
  have key : ∀ z : ℝ, 0 < z → 1 / (matterUniverse 1).hOverH0 z ^ 2 = k := by
    intro z hz
    have h1 := hk z hz.le
    rw [density_weight_value hf hm hz.le] at h1
    have hv := (weights_pos hf hz.le).2.2 (matterUniverse_transverse h0 le_rfl hz).ne'
    have hr : (0 : ℝ) < 1 * (1 + z) ^ 3 := by positivity
    have h2 : (1 * (1 + z) ^ 3 * volumeWeight (matterUniverse 1) z)
        * (1 / (matterUniverse 1).hOverH0 z ^ 2 - k) = 0 := by
      have : ∀ r v e : ℝ, r / e * v = k * (r * v) → r * v * (1 / e - k) = 0 := by
        intro r v e h
        have : r * v * (1 / e) = r / e * v := by ring
        rw [mul_sub, this, h]; ring
      exact this _ _ _ h1
    rcases mul_eq_zero.1 h2 with h2 | h2
    · exact absurd h2 (mul_pos hr hv).ne'
    · linarith
  have e1 := key 1 one_pos
  have e2 := key 2 two_pos
  simp only [matterUniverse, flatUniverse] at e1 e2
  rw [Real.sq_sqrt (by norm_num)] at e1 e2
  norm_num at e1 e2
  linarith

/-- **C94** is also false for the comoving matter density, which is constant: with a cosmological
constant the weight is not proportional to the comoving volume. -/
theorem density_weight_not_mass : ∃ (c : Cosmology) (rho : ℝ → ℝ), IsFlrw c id ∧ HasMatter c rho ∧
    ¬ ∃ k : ℝ, ∀ z, 0 ≤ z → densityWeight c z = k * volumeWeight c z := by
  have h0 : (0 : ℝ) < 1 / 2 := by norm_num
  have hf := matterUniverse_flrw h0 (by norm_num)
  have hm := matterUniverse_matter h0 (by norm_num)
  refine ⟨matterUniverse (1 / 2), _, hf, hm, ?_⟩
  rintro ⟨k, hk⟩
  have key : ∀ z : ℝ, 0 < z →
      1 / 2 * (1 + z) ^ 3 / (matterUniverse (1 / 2)).hOverH0 z ^ 2 = k := by
    intro z hz
    have h1 := hk z hz.le
    rw [density_weight_value hf hm hz.le] at h1
    have hv := (weights_pos hf hz.le).2.2 (matterUniverse_transverse h0 (by norm_num) hz).ne'
    exact mul_right_cancel₀ hv.ne' h1
  have e1 := key 1 one_pos
  have e2 := key 2 two_pos
  simp only [matterUniverse, flatUniverse] at e1 e2
  rw [Real.sq_sqrt (by norm_num)] at e1 e2
  norm_num at e1 e2
  linarith

/-- A universe that satisfies the laws, with a positive volume between redshifts 0 and 1. -/
example : IsFlrw (matterUniverse (3 / 10)) id ∧
    HasMatter (matterUniverse (3 / 10)) (fun z => 3 / 10 * (1 + z) ^ 3) ∧
    0 < ∫ z in (0 : ℝ)..1, volumeWeight (matterUniverse (3 / 10)) z := by
  have h0 : (0 : ℝ) < 3 / 10 := by norm_num
  have hf := matterUniverse_flrw h0 (by norm_num)
  refine ⟨hf, matterUniverse_matter h0 (by norm_num), ?_⟩
  rw [volume_weight_flat hf le_rfl zero_le_one]
  have h1 : 0 < (matterUniverse (3 / 10)).comoving 1 :=
    matterUniverse_transverse h0 (by norm_num) one_pos
  have h2 : (matterUniverse (3 / 10)).comoving 0 = 0 := by simp [matterUniverse, flatUniverse]
  have h3 : (matterUniverse (3 / 10)).hubbleDistance = 1 := rfl
  rw [h2, h3, div_one, zero_div]
  have := pow_pos h1 3
  linarith

/-! ### Intrinsic alignments -/

/-- The powers and quotients of `_kappa_ia_nla` are numbers: growth factor and Hubble parameter do
not vanish, and redshifts above minus one and luminosities are positive. -/
structure IaDomain (c : Cosmology) (z z0 lbar l0 : ℝ) : Prop where
  h : c.h ≠ 0
  growth : c.growth z ≠ 0
  z : 0 < 1 + z
  z0 : 0 < 1 + z0
  lbar : 0 < lbar
  l0 : 0 < l0

theorem kappaIaNla_eq (c : Cosmology) (delta zeff a z0 eta lbar l0 beta : ℝ) :
    kappaIaNla c delta zeff a z0 eta lbar l0 beta
      = kappaIaNla c delta zeff a * (((1 + zeff) / (1 + z0)) ^ eta * (lbar / l0) ^ beta) := by
  simp only [kappaIaNla, Real.rpow_zero]
  ring

/-- **C95**: without redshift and luminosity dependence (the defaults) the convergence is minus the
amplitude times `5e-14 / h ** 2` times the mean comoving matter density, over the growth factor. -/
theorem kappa_ia_default (c : Cosmology) (delta zeff a : ℝ) (_hh : c.h ≠ 0)
    (_hg : c.growth zeff ≠ 0) :
    kappaIaNla c delta zeff a
      = -a * (5e-14 / c.h ^ 2 * (c.criticalDensity0 * c.omegaM0)) / c.growth zeff * delta := by
  simp only [kappaIaNla, Real.rpow_zero]
  ring

/-- **C95**: how the convergence depends on redshift and luminosity: relative to the default it is
changed by `((1 + z) / (1 + z0)) ** eta * (lbar / l0) ** beta`. -/
theorem kappa_ia_dependence (c : Cosmology) (delta zeff a z0 eta lbar l0 beta : ℝ)
    (_h : IaDomain c zeff z0 lbar l0) :
    kappaIaNla c delta zeff a z0 eta lbar l0 beta
      = kappaIaNla c delta zeff a * (((1 + zeff) / (1 + z0)) ^ eta * (lbar / l0) ^ beta) :=
  kappaIaNla_eq ..

/-- **C95**: the default reference redshift is zero and the default reference luminosity `1e-9`. -/
theorem kappa_ia_default_reference (c : Cosmology) (delta zeff a eta lbar beta : ℝ)
    (_h : IaDomain c zeff 0 lbar 1e-9) :
    kappaIaNla c delta zeff a (eta := eta) (lbar := lbar) (beta := beta)
      = kappaIaNla c delta zeff a * ((1 + zeff) ^ eta * (lbar * 10 ^ 9) ^ beta) := by
  rw [kappaIaNla_eq]
  norm_num [div_eq_mul_inv]

/-- **C95**: at the reference redshift and luminosity the powers do not matter. -/
theorem kappa_ia_reference (c : Cosmology) (delta z a eta l beta : ℝ) (_hh : c.h ≠ 0)
    (_hg : c.growth z ≠ 0) (hz : 1 + z ≠ 0) (hl : l ≠ 0) :
    kappaIaNla c delta z a z eta l l beta = kappaIaNla c delta z a := by
  rw [kappaIaNla_eq, div_self hz, div_self hl, Real.one_rpow, Real.one_rpow]
  ring

/-- **C95**: the unit of luminosity does not matter. -/
theorem kappa_ia_units (c : Cosmology) (delta z a z0 eta lbar l0 beta u : ℝ) (hu : 0 < u)
    (_h : IaDomain c z z0 lbar l0) :
    kappaIaNla c delta z a z0 eta (u * lbar) (u * l0) beta
      = kappaIaNla c delta z a z0 eta lbar l0 beta := by
  rw [kappaIaNla_eq, mul_div_mul_left _ _ hu.ne']
  exact (kappaIaNla_eq ..).symm

/-- **C95**: the powers are those of redshift and luminosity: twice the luminosity changes the
convergence by `2 ** beta`, and a change of `1 + z` by its power `eta` next to the growth factor. -/
theorem kappa_ia_powers (c : Cosmology) (delta z z' a z0 eta lbar l0 beta k : ℝ) (hk : 0 < k)
    (hh : c.h ≠ 0)
    (hl : 0 < lbar) (h0 : 0 < l0) (hz : 0 < 1 + z) (hz' : 0 < 1 + z') (hz0 : 0 < 1 + z0)
    (hg : c.growth z ≠ 0) (hg' : c.growth z' ≠ 0) :
    kappaIaNla c delta z a z0 eta (k * lbar) l0 beta
      = k ^ beta * kappaIaNla c delta z a z0 eta lbar l0 beta ∧
    kappaIaNla c delta z' a z0 eta lbar l0 beta * c.growth z'
      = ((1 + z') / (1 + z)) ^ eta * (kappaIaNla c delta z a z0 eta lbar l0 beta * c.growth z) := by
  constructor
  · rw [kappaIaNla_eq, kappaIaNla_eq c delta z a z0 eta lbar, mul_div_assoc,
      Real.mul_rpow hk.le (by positivity)]
    ring
  · rw [kappaIaNla_eq, kappaIaNla_eq c delta z, kappa_ia_default _ _ _ _ hh hg',
      kappa_ia_default _ _ _ _ hh hg]
    have : (1 + z') / (1 + z0) = ((1 + z') / (1 + z)) * ((1 + z) / (1 + z0)) := by
      field_simp
    rw [this, Real.mul_rpow (by positivity) (by positivity)]
    field_simp

/-- **C95**: positive amplitudes give a convergence of the opposite sign of the density contrast. -/
theorem kappa_ia_sign (c : Cosmology) (delta z a : ℝ) (ha : 0 < a) (hh : c.h ≠ 0)
    (hc : 0 < c.criticalDensity0) (ho : 0 < c.omegaM0) (hg : 0 < c.growth z) (hd : 0 < delta) :
    kappaIaNla c delta z a < 0 := by
  rw [kappa_ia_default _ _ _ _ hh hg.ne']
  have : 0 < a * (5e-14 / c.h ^ 2 * (c.criticalDensity0 * c.omegaM0)) / c.growth z * delta := by
    positivity
  have e : -a * (5e-14 / c.h ^ 2 * (c.criticalDensity0 * c.omegaM0)) / c.growth z * delta
      = -(a * (5e-14 / c.h ^ 2 * (c.criticalDensity0 * c.omegaM0)) / c.growth z * delta) := by ring
  rw [e]
  linarith

/-- With the default luminosity, which is zero, a positive power switches intrinsic alignments off. -/
theorem kappa_ia_default_luminosity (c : Cosmology) (delta z a z0 eta l0 beta : ℝ) (hb : 0 < beta)
    (_hh : c.h ≠ 0) (_hg : c.growth z ≠ 0) (_hz : 0 < 1 + z) (_hz0 : 0 < 1 + z0) (_hl : 0 < l0) :
    kappaIaNla c delta z a z0 eta (l0 := l0) (beta := beta) = 0 := by
  rw [kappaIaNla_eq, zero_div, Real.zero_rpow hb.ne']
  ring

/-- The hypotheses of the theorems hold for a universe of matter only. -/
example : (matterUniverse 1).growth 1 ≠ 0 ∧ kappaIaNla (matterUniverse 1) 1 1 1 < 0 := by
  have hg : (matterUniverse 1).growth 1 = 1 / 2 := by simp [matterUniverse, flatUniverse]; norm_num
  refine ⟨by rw [hg]; norm_num, kappa_ia_sign _ _ _ _ one_pos ?_ ?_ ?_ ?_ one_pos⟩
  · simp [matterUniverse, flatUniverse]
  · simp [matterUniverse, flatUniverse]
  · simp [matterUniverse, flatUniverse]
  · rw [hg]; norm_num

end Glass.Shells
