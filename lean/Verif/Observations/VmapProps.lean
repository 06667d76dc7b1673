import Mathlib.Algebra.BigOperators.Group.Finset.Basic
import Mathlib.Algebra.Order.BigOperators.Group.Finset
import Mathlib.Analysis.Real.Pi.Bounds
import Mathlib.Tactic.Linarith
import Mathlib.Tactic.Ring
import Verif.Observations.Model

/-!
# Visibility maps (C82)

`healpy` rotates a map in pixel space by interpolation: every pixel of the new map is a weighted mean
of pixels of the old map.
-/

namespace Glass.Obs

open Glass

/-! ## Specification -/

/-- Weights of an average over pixels. -/
structure IsWeights (npix : ℕ) (w : ℕ → ℕ → ℝ) : Prop where
  nonneg : ∀ p q, 0 ≤ w p q
  total : ∀ p, ∑ q ∈ Finset.range npix, w p q = 1

/-- The rotation is an average with the given weights. -/
def Averages (npix : ℕ) (w : ℕ → ℕ → ℝ) (rot : List ℝ → List ℝ) : Prop :=
  ∀ m : List ℝ, m.length = npix → (rot m).length = npix ∧
    ∀ p, p < npix → (rot m)[p]? = some (∑ q ∈ Finset.range npix, w p q * m[q]?.getD 0)

/-- The rotation takes each pixel of the new map from one pixel of the old map. -/
def PullsBack (npix : ℕ) (g : ℕ → ℕ) (rot : List ℝ → List ℝ) : Prop :=
  ∀ m : List ℝ, m.length = npix → (rot m).length = npix ∧
    ∀ p, p < npix → g p < npix ∧ (rot m)[p]? = some (m[g p]?.getD 0)

open Classical in
/-- One outside of a stripe. -/
noncomputable def visible (strip : ℝ → ℝ → List ℕ) (thetas : ℝ × ℝ) (p : ℕ) : ℝ :=
  if p ∈ strip thetas.1 thetas.2 then 0 else 1

/-! ## Lemmas -/

theorem queryStrip_length (npix : ℕ) (strip : ℝ → ℝ → List ℕ) (t : ℝ × ℝ) :
    (queryStrip npix strip t).length = npix := by simp [queryStrip]

theorem mask_get {npix : ℕ} {strip : ℝ → ℝ → List ℕ} {t : ℝ × ℝ} {m : List ℝ}
    (hm : m.length = npix) {p : ℕ} (hp : p < npix) :
    (List.zipWith (fun m q => m * (1 - q)) m (queryStrip npix strip t))[p]?.getD 0 =
      m[p]?.getD 0 * visible strip t p := by
  have h1 : p < m.length := hm ▸ hp
  rw [List.getElem?_zipWith, List.getElem?_eq_getElem h1, queryStrip, List.getElem?_map,
    List.getElem?_range hp]
  simp only [Option.map_some, Option.getD_some, visible]
  split_ifs <;> simp

theorem mask_length {npix : ℕ} {strip : ℝ → ℝ → List ℕ} {t : ℝ × ℝ} {m : List ℝ}
    (hm : m.length = npix) :
    (List.zipWith (fun m q => m * (1 - q)) m (queryStrip npix strip t)).length = npix := by
  simp [queryStrip, hm]

theorem visible_mem (strip : ℝ → ℝ → List ℕ) (t : ℝ × ℝ) (p : ℕ) :
    0 ≤ visible strip t p ∧ visible strip t p ≤ 1 := by
  unfold visible; split_ifs <;> simp

theorem average_mem {npix : ℕ} {w : ℕ → ℕ → ℝ} (hw : IsWeights npix w) {f : ℕ → ℝ}
    (hf : ∀ q ∈ Finset.range npix, 0 ≤ f q ∧ f q ≤ 1) (p : ℕ) :
    0 ≤ ∑ q ∈ Finset.range npix, w p q * f q ∧ ∑ q ∈ Finset.range npix, w p q * f q ≤ 1 := by
  constructor
  · exact Finset.sum_nonneg fun q hq => mul_nonneg (hw.nonneg p q) (hf q hq).1
  · rw [← hw.total p]
    refine Finset.sum_le_sum fun q hq => ?_
    have := hw.nonneg p q
    nlinarith [(hf q hq).2]

/-! ## Property theorems -/

/-- C82: every pixel of the visibility map is the average of the galactic visibility, times the
ecliptic visibility, averaged again; all values are between 0 and 1. -/
theorem vmap_spec {npix : ℕ} (strip : ℝ → ℝ → List ℕ) {rotate : String → List ℝ → List ℝ}
    {v w : ℕ → ℕ → ℝ} (hv : IsWeights npix v) (hw : IsWeights npix w)
    (h1 : Averages npix v (rotate "GC")) (h2 : Averages npix w (rotate "CE")) (a b c d : ℝ) :
    ∃ m, vmapGalacticEcliptic npix strip rotate [a, b] [c, d] = .ok m ∧ m.length = npix ∧
      ∀ p, p < npix → ∃ x, m[p]? = some x ∧ 0 ≤ x ∧ x ≤ 1 ∧
        x = ∑ q ∈ Finset.range npix, w p q * ((∑ r ∈ Finset.range npix,
          v q r * visible strip (a, b) r) * visible strip (c, d) q) := by
  have l0 : (List.replicate npix (1 : ℝ)).length = npix := by simp
  have l1 := mask_length (strip := strip) (t := (a, b)) l0
  obtain ⟨l2, e2⟩ := h1 _ l1
  have l3 := mask_length (strip := strip) (t := (c, d)) l2
  obtain ⟨l4, e4⟩ := h2 _ l3
  refine ⟨_, rfl, l4, fun p hp => ?_⟩
  have hval : ∀ q ∈ Finset.range npix, (List.zipWith (fun m q => m * (1 - q)) (rotate "GC"
      (List.zipWith (fun m q => m * (1 - q)) (List.replicate npix (1 : ℝ))
        (queryStrip npix strip (a, b)))) (queryStrip npix strip (c, d)))[q]?.getD 0 =
      (∑ r ∈ Finset.range npix, v q r * visible strip (a, b) r) * visible strip (c, d) q := by
    intro q hq
    have hq' := Finset.mem_range.1 hq
    rw [mask_get l2 hq', e2 q hq', Option.getD_some]
    congr 1
    refine Finset.sum_congr rfl fun r hr => ?_
    have hr' := Finset.mem_range.1 hr
    rw [mask_get l0 hr']
    simp [hr']
  have hx : ∑ q ∈ Finset.range npix, w p q * (List.zipWith (fun m q => m * (1 - q)) (rotate "GC"
      (List.zipWith (fun m q => m * (1 - q)) (List.replicate npix (1 : ℝ))
        (queryStrip npix strip (a, b)))) (queryStrip npix strip (c, d)))[q]?.getD 0 =
      ∑ q ∈ Finset.range npix, w p q * ((∑ r ∈ Finset.range npix,
          v q r * visible strip (a, b) r) * visible strip (c, d) q) :=
    Finset.sum_congr rfl fun q hq => by rw [hval q hq]
  refine ⟨_, (e4 p hp).trans (congrArg some hx), ?_, ?_, rfl⟩
  all_goals
    have := average_mem hw (p := p) (f := fun q => (∑ r ∈ Finset.range npix,
      v q r * visible strip (a, b) r) * visible strip (c, d) q) (fun q _ => by
        have h5 := average_mem hv (p := q) (f := visible strip (a, b))
          (fun r _ => visible_mem strip (a, b) r)
        have h6 := visible_mem strip (c, d) q
        exact ⟨mul_nonneg h5.1 h6.1, mul_le_one₀ h5.2 h6.1 h6.2⟩)
  · exact this.1
  · exact this.2

/-- C82: with exact rotations, a pixel of the map is 0 exactly if its celestial pixel lies in the
ecliptic stripe or its galactic pixel lies in the galactic stripe, and 1 otherwise. -/
theorem vmap_exact {npix : ℕ} (strip : ℝ → ℝ → List ℕ) {rotate : String → List ℝ → List ℝ}
    {g e : ℕ → ℕ} (h1 : PullsBack npix g (rotate "GC")) (h2 : PullsBack npix e (rotate "CE"))
    (a b c d : ℝ) :
    ∃ m, vmapGalacticEcliptic npix strip rotate [a, b] [c, d] = .ok m ∧ m.length = npix ∧
      ∀ p, p < npix → m[p]? = some (visible strip (a, b) (g (e p)) * visible strip (c, d) (e p)) := by
  have l0 : (List.replicate npix (1 : ℝ)).length = npix := by simp
  have l1 := mask_length (strip := strip) (t := (a, b)) l0
  obtain ⟨l2, e2⟩ := h1 _ l1
  have l3 := mask_length (strip := strip) (t := (c, d)) l2
  obtain ⟨l4, e4⟩ := h2 _ l3
  refine ⟨_, rfl, l4, fun p hp => ?_⟩
  obtain ⟨hep, h5⟩ := e4 p hp
  obtain ⟨hgp, h6⟩ := e2 (e p) hep
  rw [h5, mask_get l2 hep, h6, Option.getD_some, mask_get l0 hgp]
  simp [hgp]

/-- C82: a stripe that is not a pair of numbers raises `TypeError`, and the galactic stripe is
checked first. -/
theorem vmap_rejects (npix : ℕ) (strip : ℝ → ℝ → List ℕ) (rotate : String → List ℝ → List ℝ)
    (galactic ecliptic : List ℝ) :
    (galactic.length ≠ 2 → vmapGalacticEcliptic npix strip rotate galactic ecliptic =
      .error (.type "galactic stripe must be a pair of numbers")) ∧
    (galactic.length = 2 → ecliptic.length ≠ 2 →
      vmapGalacticEcliptic npix strip rotate galactic ecliptic =
        .error (.type "ecliptic stripe must be a pair of numbers")) := by
  have hp : ∀ (what : String) (l : List ℝ), l.length ≠ 2 → pair what l = .error (.type what) := by
    intro what l hl
    rcases l with _ | ⟨x, _ | ⟨y, _ | ⟨u, l⟩⟩⟩
    · rfl
    · rfl
    · simp at hl
    · rfl
  refine ⟨fun h => ?_, fun h h' => ?_⟩
  · simp only [vmapGalacticEcliptic, bind, Except.bind, hp _ _ h]
  · rcases galactic with _ | ⟨x, _ | ⟨y, _ | ⟨u, l⟩⟩⟩
    · simp at h
    · simp at h
    · have e : pair "galactic stripe must be a pair of numbers" [x, y] = .ok (x, y) := rfl
      simp only [vmapGalacticEcliptic, bind, Except.bind, e, hp _ _ h']
    · simp at h

/-- C82 is false: the ecliptic stripe is not applied in ecliptic coordinates.  Here the rotation
from celestial to ecliptic coordinates exchanges two pixels.  Pixel 0 of the ecliptic frame lies in
the stripe and is visible, and pixel 1 does not and is masked. -/
theorem vmap_ecliptic_frame : ∃ (strip : ℝ → ℝ → List ℕ) (rotate : String → List ℝ → List ℝ)
    (m : List ℝ), PullsBack 2 id (rotate "GC") ∧ PullsBack 2 (fun p => 1 - p) (rotate "CE") ∧
      vmapGalacticEcliptic 2 strip rotate [0, 0] [20, 80] = .ok m ∧
      strip 0 0 = [] ∧ strip 20 80 = [0] ∧ m = [1, 0] := by
  refine ⟨fun a _ => if a = 0 then [] else [0], fun c m => if c = "GC" then m else m.reverse,
    [1, 0], ?_, ?_, ?_, by simp, by norm_num, rfl⟩
  · intro m hm
    refine ⟨by simp [hm], fun p hp => ⟨hp, ?_⟩⟩
    simp [hm, hp]
  · intro m hm
    refine ⟨by simp [hm], fun p hp => ⟨show 1 - p < 2 by omega, ?_⟩⟩
    rcases m with _ | ⟨x, _ | ⟨y, _ | ⟨u, m⟩⟩⟩
    · simp at hm
    · simp at hm
    · rcases p with _ | _ | p
      · simp
      · simp
      · omega
    · simp at hm
  · simp only [vmapGalacticEcliptic, bind, Except.bind, pair]
    simp [queryStrip, List.range_succ]

/-- C82 (finding): the default stripes are not colatitudes in radians, which is what `query_strip`
asks for. -/
theorem default_strips_range : ∀ s ∈ defaultStrips, Real.pi < s.1 ∧ Real.pi < s.2 := by
  have := Real.pi_lt_four
  intro s hs
  simp only [defaultStrips, List.mem_cons, List.not_mem_nil, or_false] at hs
  rcases hs with rfl | rfl <;> constructor <;> linarith

/-- Concrete weights: every pixel is the mean of two pixels. -/
example : IsWeights 2 (fun _ _ => 1 / 2) :=
  ⟨fun _ _ => by norm_num, fun _ => by norm_num [Finset.sum_range_succ]⟩

end Glass.Obs
