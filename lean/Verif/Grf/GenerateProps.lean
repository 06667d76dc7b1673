import Mathlib.MeasureTheory.Integral.Bochner.Basic
import Verif.Grf.Generate
import Verif.Grf.IternormProps
import Verif.Grf.Cls2cov

/-! # Properties of the Gaussian random fields (C16, C17) -/

namespace Glass.Grf

open Finset Glass.Spectra

/-- A list of coefficients in GLASS order with given values. -/
def HasModes (n : ℕ) (o : List ℂ) (v : ℕ → ℕ → ℂ) : Prop :=
  o.length = tri n ∧ ∀ l m, m ≤ l → l < n → o[tri l + m]? = some (v l m)

theorem HasModes.add {n : ℕ} {o o' : List ℂ} {v v' : ℕ → ℕ → ℂ} (h : HasModes n o v)
    (h' : HasModes n o' v') : HasModes n (List.zipWith (· + ·) o o') fun l m => v l m + v' l m := by
  refine ⟨by rw [List.length_zipWith, h.1, h'.1, min_self], ?_⟩
  intro l m hm hl
  rw [List.getElem?_zipWith, h.2 l m hm hl, h'.2 l m hm hl]

theorem HasModes.foldl {n : ℕ} {ι : Type*} (f : ι → List ℂ) (v : ι → ℕ → ℕ → ℂ) (is : List ι)
    (h : ∀ i ∈ is, HasModes n (f i) (v i)) (o : List ℂ) (v0 : ℕ → ℕ → ℂ) (ho : HasModes n o v0) :
    HasModes n ((is.map f).foldl (fun a b => List.zipWith (· + ·) a b) o)
      fun l m => v0 l m + (is.map fun i => v i l m).sum := by
  induction is generalizing o v0 with
  | nil => simpa using ho
  | cons i is ih =>
    have := ih (fun j hj => h j (by simp [hj])) _ _ (ho.add (h i (by simp)))
    simpa [add_assoc] using this

/-- The coefficient `(l, m)` of the `q`-th draw. -/
noncomputable def zValue (nrm : Normals) (q l m : ℕ) : ℂ :=
  (nrm q (l * (l + 1) / 2 + m) 0 : ℂ) + (nrm q (l * (l + 1) / 2 + m) 1 : ℂ) * Complex.I

theorem draw_modes (nrm : Normals) (n q : ℕ) : HasModes n (draw nrm (tri n) q) (zValue nrm q) := by
  refine ⟨by simp [draw], ?_⟩
  intro l m hm hl
  have := tri_lt hl
  unfold draw
  rw [List.getElem?_map, List.getElem?_range (by omega)]
  simp [zValue, tri]

theorem multalm_value {n : ℕ} {z : List ℂ} {v : ℕ → ℕ → ℂ} (h : HasModes n z v) (w : Weight)
    (t : ℕ) : multalm z (w.column n t) =
        .ok (List.zipWith (· * ·) z (repeatModes (w.column n t))) ∧
      HasModes n (List.zipWith (· * ·) z (repeatModes (w.column n t)))
        fun l m => v l m * w.w [l] t := by
  have hlen : (w.column n t).length = n := by simp [Weight.column]
  have h2 : z.length = (repeatModes (w.column n t)).length := by
    rw [h.1, repeatModes_length, hlen]
  refine ⟨?_, ?_, ?_⟩
  · unfold multalm
    simp only
    rw [if_pos h2]
  · rw [List.length_zipWith, ← h2, min_self, h.1]
  · intro l m hm hl
    rw [List.getElem?_zipWith, h.2 l m hm hl, repeatModes_get _ l m hm (by omega)]
    simp [Weight.column]

/-- The variates kept before field `i`. -/
noncomputable def kept (nrm : Normals) (size k i : ℕ) : List (List ℂ) :=
  (List.range' (i - (k + 1)) (min i (k + 1))).map (draw nrm size)

theorem push_kept (nrm : Normals) (size k i : ℕ) :
    push (kept nrm size k i) (draw nrm size i) k = kept nrm size k (i + 1) := by
  unfold push kept
  simp only
  have h1 : (List.range' (i - (k + 1)) (min i (k + 1))).map (draw nrm size) ++ [draw nrm size i] =
      (List.range' (i - (k + 1)) (min i (k + 1) + 1)).map (draw nrm size) := by
    rw [List.range'_concat, List.map_append]
    simp only [List.map_cons, List.map_nil]
    congr 3
    omega
  rw [h1, ← List.map_drop, List.length_map, List.length_range']
  congr 1
  rw [List.drop_range']
  congr 1 <;> omega

theorem combine_kept (nrm : Normals) (n i : ℕ) (w : Weight) :
    ∃ alm, combine n (kept nrm (tri n) w.k (i + 1)) w = .ok alm ∧
      HasModes n alm fun l m => ∑ q ∈ range (i + 1),
        zValue nrm q l m * ((if q ≤ i ∧ i - q ≤ w.k then w.w [l] (w.k - (i - q)) else 0 : ℝ) : ℂ) := by
  set p := min (i + 1) (w.k + 1) with hp
  have hplen : (kept nrm (tri n) w.k (i + 1)).length = p := by simp [kept, hp]
  have hzip : (kept nrm (tri n) w.k (i + 1)).zipIdx =
      (List.range p).map fun t => (draw nrm (tri n) (i + 1 - p + t), t) := by
    apply List.ext_getElem?
    intro t
    rw [List.getElem?_zipIdx]
    by_cases ht : t < p
    · unfold kept
      rw [List.getElem?_map, List.getElem?_map, List.getElem?_range ht,
        List.getElem?_range' (by omega)]
      simp only [Option.map_some, Option.some.injEq, Prod.mk.injEq]
      refine ⟨?_, by omega⟩
      congr 1
      omega
    · rw [List.getElem?_eq_none (by omega), List.getElem?_eq_none (by simp; omega)]
      rfl
  have hmap : (kept nrm (tri n) w.k (i + 1)).zipIdx.mapM (fun zi =>
      multalm zi.1 (w.column n (zi.2 + (w.k + 1 - (kept nrm (tri n) w.k (i + 1)).length)))) =
      .ok ((List.range p).map fun t => List.zipWith (· * ·) (draw nrm (tri n) (i + 1 - p + t))
        (repeatModes (w.column n (t + (w.k + 1 - p))))) := by
    rw [mapM_ok _ (fun zi => List.zipWith (· * ·) zi.1
      (repeatModes (w.column n (zi.2 + (w.k + 1 - p)))))]
    · rw [hzip, List.map_map]; rfl
    · intro zi hzi
      rw [hzip, List.mem_map] at hzi
      obtain ⟨t, ht, rfl⟩ := hzi
      simp only
      rw [hplen]
      exact (multalm_value (draw_modes nrm n _) w _).1
  have hmodes : ∀ t, HasModes n (List.zipWith (· * ·) (draw nrm (tri n) (i + 1 - p + t))
      (repeatModes (w.column n (t + (w.k + 1 - p))))) (fun l m => zValue nrm (i + 1 - p + t) l m *
        (w.w [l] (t + (w.k + 1 - p)) : ℂ)) := fun t =>
    (multalm_value (draw_modes nrm n _) w _).2
  unfold combine
  simp only
  rw [hmap]
  obtain ⟨p', hp'⟩ : ∃ p', p = p' + 1 := ⟨p - 1, by omega⟩
  rw [hp', List.range_succ_eq_map, List.map_cons, List.map_map]
  simp only
  rw [← hp']
  refine ⟨_, rfl, ?_⟩
  have := HasModes.foldl (n := n) (fun t => List.zipWith (· * ·)
    (draw nrm (tri n) (i + 1 - p + (t + 1)))
      (repeatModes (w.column n ((t + 1) + (w.k + 1 - p))))) _ (List.range p')
      (fun t _ => hmodes (t + 1)) _ _ (hmodes 0)
  refine ⟨this.1, ?_⟩
  intro l m hm hl
  rw [show (((fun t => List.zipWith (· * ·) (draw nrm (tri n) (i + 1 - p + t))
      (repeatModes (w.column n (t + (w.k + 1 - p))))) ∘ Nat.succ)) = (fun t => List.zipWith (· * ·)
    (draw nrm (tri n) (i + 1 - p + (t + 1)))
      (repeatModes (w.column n ((t + 1) + (w.k + 1 - p))))) from rfl]
  rw [this.2 l m hm hl]
  congr 1
  simp only
  rw [list_sum_range]
  have h1 : (∑ t ∈ range p, zValue nrm (i + 1 - p + t) l m * (w.w [l] (t + (w.k + 1 - p)) : ℂ)) =
      zValue nrm (i + 1 - p + 0) l m * (w.w [l] (0 + (w.k + 1 - p)) : ℂ) +
      ∑ t ∈ range p', zValue nrm (i + 1 - p + (t + 1)) l m *
        (w.w [l] (t + 1 + (w.k + 1 - p)) : ℂ) := by
    rw [hp', Finset.sum_range_succ', add_comm]
  rw [← h1]
  have h2 := Finset.sum_range_add (fun q => zValue nrm q l m *
    ((if q ≤ i ∧ i - q ≤ w.k then w.w [l] (w.k - (i - q)) else 0 : ℝ) : ℂ)) (i + 1 - p) p
  rw [show i + 1 - p + p = i + 1 by omega] at h2
  rw [h2, Finset.sum_eq_zero (s := range (i + 1 - p)), zero_add]
  · apply Finset.sum_congr rfl
    intro t ht
    rw [Finset.mem_range] at ht
    rw [if_pos (by omega), show w.k - (i - (i + 1 - p + t)) = t + (w.k + 1 - p) by omega]
  · intro q hq
    rw [Finset.mem_range] at hq
    rw [if_neg (by omega)]
    simp

/-- The coefficient as it is passed to the harmonic transform: real for `m = 0`. -/
noncomputable def realised (m : ℕ) (c : ℂ) : ℂ := if m = 0 then ((c.re + c.im : ℝ) : ℂ) else c

theorem healpix_pos_lt (n l m : ℕ) (hm : m ≤ l) (hl : l < n) :
    (m * (2 * n - 1 - m) / 2 + l < n ↔ m = 0) := by
  constructor
  · intro h
    by_contra hm0
    have h1 : 2 * (n - 1) ≤ m * (2 * n - 1 - m) := by
      obtain ⟨a, rfl⟩ : ∃ a, m = a + 1 := ⟨m - 1, by omega⟩
      obtain ⟨c, rfl⟩ : ∃ c, n = a + 2 + c := ⟨n - a - 2, by omega⟩
      rw [show 2 * (a + 2 + c) - 1 - (a + 1) = a + 2 + 2 * c by omega]
      have : 2 * (a + 2 + c - 1) = 2 * a + 2 + 2 * c := by omega
      rw [this]
      nlinarith [Nat.zero_le (a * a), Nat.zero_le (a * c)]
    have : n - 1 ≤ m * (2 * n - 1 - m) / 2 := by omega
    omega
  · rintro rfl
    simpa using hl

theorem fieldAlm_kept (nrm : Normals) (n : ℕ) (hn : 0 < n) (i : ℕ) (w : Weight) :
    ∃ alm, fieldAlm n (kept nrm (tri n) w.k (i + 1)) w = .ok alm ∧ alm.length = tri n ∧
      ∀ l m, m ≤ l → l < n → alm[m * (2 * n - 1 - m) / 2 + l]? =
        some (realised m (∑ q ∈ range (i + 1), zValue nrm q l m *
          ((if q ≤ i ∧ i - q ≤ w.k then w.w [l] (w.k - (i - q)) else 0 : ℝ) : ℂ))) := by
  obtain ⟨a, h1, h2⟩ := combine_kept nrm n i w
  obtain ⟨out, h3, h4, h5⟩ := alm_reorder a n hn h2.1
  unfold fieldAlm
  rw [h1]
  simp only
  rw [h3]
  refine ⟨_, rfl, ?_, ?_⟩
  · rw [List.length_mapIdx, h4.length_eq, h2.1]
  · intro l m hm hl
    rw [List.getElem?_mapIdx, h5 l m hm hl]
    have := h2.2 l m hm hl
    unfold tri at this
    rw [this]
    simp only [Option.map_some, Option.some.injEq, realised]
    by_cases h : m = 0
    · rw [if_pos ((healpix_pos_lt n l m hm hl).2 h), if_pos h]
    · rw [if_neg (fun hh => h ((healpix_pos_lt n l m hm hl).1 hh)), if_neg h]

theorem grfLoop_kept (nrm : Normals) (n : ℕ) (hn : 0 < n) (k : ℕ) (ws : List Weight)
    (hk : ∀ w ∈ ws, w.k = k) (i : ℕ) (tail : Option Err) :
    ∃ alms, grfLoop nrm n (kept nrm (tri n) k i) i ws tail = (alms, tail) ∧
      alms.length = ws.length ∧
      ∀ (t : ℕ) (w : Weight), ws[t]? = some w → ∃ alm, alms[t]? = some alm ∧ alm.length = tri n ∧
        ∀ l m, m ≤ l → l < n → alm[m * (2 * n - 1 - m) / 2 + l]? =
          some (realised m (∑ q ∈ range (i + t + 1), zValue nrm q l m *
            ((if q ≤ i + t ∧ i + t - q ≤ w.k then w.w [l] (w.k - (i + t - q)) else 0 : ℝ) : ℂ))) := by
  induction ws generalizing i with
  | nil => exact ⟨[], rfl, rfl, by simp⟩
  | cons w ws ih =>
    have hwk := hk w (by simp)
    obtain ⟨alms, h1, h2, h3⟩ := ih (fun w hw => hk w (by simp [hw])) (i + 1)
    obtain ⟨alm, h4, h5, h6⟩ := fieldAlm_kept nrm n hn i w
    unfold grfLoop
    simp only
    rw [show n * (n + 1) / 2 = tri n from rfl, ← hwk, push_kept, h4]
    simp only
    rw [hwk, h1]
    refine ⟨_, rfl, by simp [h2], ?_⟩
    intro t w' hw'
    rcases t with _ | t
    · simp only [List.getElem?_cons_zero, Option.some.injEq] at hw'
      subst hw'
      exact ⟨alm, rfl, h5, by simpa using h6⟩
    · rw [List.getElem?_cons_succ] at hw'
      obtain ⟨alm', q1, q2, q3⟩ := h3 t w' hw'
      refine ⟨alm', by rw [List.getElem?_cons_succ]; exact q1, q2, ?_⟩
      rw [show i + (t + 1) = i + 1 + t by omega]
      exact q3

/-- Specification: the covariance matrix of the coefficients at `l`, where correlations are kept
for up to `nc` previous fields: half the angular power spectra. -/
noncomputable def modeCov (gls : List (List ℝ)) (nc l i j : ℕ) : ℝ :=
  if i - j ≤ nc ∧ j - i ≤ nc then clValue gls i j l / 2 else 0

theorem maxLength_le (gls : List (List ℝ)) (gl : List ℝ) (h : gl ∈ gls) :
    gl.length ≤ maxLength gls := by
  have h1 : ∀ (s : List (List ℝ)) (a : ℕ), s.foldl (fun a gl => max a gl.length) a =
      (s.map List.length).foldl max a := by
    intro s
    induction s with
    | nil => intro a; rfl
    | cons g s ih => intro a; simp [ih]
  unfold maxLength
  rw [h1]
  exact le_foldl_max _ _ _ (Or.inl (List.mem_map_of_mem h))

theorem modeCov_pos {gls : List (List ℝ)} {N nc l : ℕ} (h : Admissible N (modeCov gls nc l))
    (i : ℕ) (hi : i < N) : 0 ≤ clValue gls i i l := by
  have hd : modeCov gls nc l i i = clValue gls i i l / 2 := by simp [modeCov]
  by_cases h0 : modeCov gls nc l i i = 0
  · rw [hd] at h0; linarith
  · have := h.2 (fun j => if j = i then 1 else 0) ⟨i, hi, h0, by simp⟩
    rw [quad_single N i hi, hd] at this
    linarith

/-- C16, the linear form. For admissible spectra (at every `l`, positive definite on the fields
with power, all others zero), `_generate_grf` produces coefficients for every field which are linear
combinations of the first `i + 1` draws, with weights whose products sum to half the given spectra
for fields at most `ncorr` apart and to zero otherwise. -/
theorem grf_linear (b : Backend) (gls : List (List ℝ)) (N : ℕ)
    (h : gls.length = N * (N + 1) / 2) (ncorr : Option ℕ) (hL : 0 < maxLength gls)
    (hadm : ∀ l < maxLength gls, Admissible N (modeCov gls (ncorr.getD (N - 1)) l)) :
    ∃ W : ℕ → ℕ → ℕ → ℝ, (∀ l i q, i < q → W l i q = 0) ∧
      (∀ l < maxLength gls, ∀ i < N, ∀ j < N,
        ∑ q ∈ range N, W l i q * W l j q = modeCov gls (ncorr.getD (N - 1)) l i j) ∧
      ∀ nrm : Normals, ∃ alms : List (List ℂ), generateAlm b nrm gls ncorr = (alms, none) ∧
      alms.length = N ∧ ∀ i < N, ∃ alm, alms[i]? = some alm ∧
        alm.length = maxLength gls * (maxLength gls + 1) / 2 ∧
        ∀ l m, m ≤ l → l < maxLength gls → alm[m * (2 * maxLength gls - 1 - m) / 2 + l]? =
          some (realised m (∑ q ∈ range N, (W l i q : ℂ) * zValue nrm q l m)) := by
  set L := maxLength gls with hLdef
  set nc := ncorr.getD (N - 1) with hnc
  have hne : gls.length ≠ 0 := by
    intro h0
    rw [List.length_eq_zero_iff] at h0
    rw [hLdef, h0] at hL
    simp [maxLength] at hL
  obtain ⟨rows, hrows, hrlen, hrow⟩ := cls2cov_rows b gls L N nc h (fun gl hgl => maxLength_le gls gl hgl)
    N le_rfl (by
      intro i hi l
      rcases Nat.lt_or_ge l L with hl | hl
      · exact modeCov_pos (hadm l hl) i hi
      · have : clValue gls i i l = 0 := by
          unfold clValue
          rcases hx : gls[max i i * (max i i + 1) / 2 + (max i i - min i i)]? with _ | gl
          · simp
          · have hgl := maxLength_le gls gl (List.mem_of_getElem? hx)
            simp only [Option.getD_some]
            rw [List.getElem?_eq_none (by omega)]
            rfl
        rw [this]) (fun h => absurd h (lt_irrefl _))
  rw [if_pos rfl] at hrows
  have hget : ∀ i < N, rows[i]? = some rows[i]! := by
    intro i hi
    rw [getElem!_pos rows i (by omega), List.getElem?_eq_getElem]
  set A : List ℕ → ℕ → ℕ → ℝ := fun x => modeCov gls nc (x.headD 0) with hA
  have hidx : ∀ x ∈ ndindex [L], ∃ l < L, x = [l] := by
    intro x hx
    simp only [ndindex, List.mem_flatMap, List.mem_range, List.map_cons, List.map_nil,
      List.mem_singleton] at hx
    exact hx
  have hmat : IsMatrix rows [L] N (fun _ => nc) A := by
    constructor
    · exact hrlen
    · intro i hi; exact (hrow i _ (hget i hi)).1
    · intro i hi; exact (hrow i _ (hget i hi)).2.1
    · intro i hi x hx d hd hdn
      obtain ⟨l, hl, rfl⟩ := hidx x hx
      rw [(hrow i _ (hget i hi)).2.2 l d hdn, if_pos hd]
      simp only [hA, List.headD_cons, modeCov]
      rw [if_pos (by omega)]
    · intro x _ i _ j _
      simp only [hA, modeCov, and_comm, clValue_symm gls i j]
    · intro x _ i _ j _ hb
      simp only [hA, modeCov]
      rw [if_neg (by omega)]
  obtain ⟨ws, hws, hwlen, hw⟩ := iternorm_admissible rows [L] N (fun _ => nc) (fun _ => by simp)
    A hmat (by
      intro x hx
      obtain ⟨l, hl, rfl⟩ := hidx x hx
      exact hadm l hl)
  have hmem : ∀ l < L, [l] ∈ ndindex [L] := by
    intro l hl
    simp only [ndindex, List.mem_flatMap, List.mem_range, List.map_cons, List.map_nil,
      List.mem_singleton]
    exact ⟨l, hl, rfl⟩
  have hwk : ∀ w ∈ ws, w.k = nc := by
    intro w hw'
    obtain ⟨i, hi, rfl⟩ := List.mem_iff_getElem.1 hw'
    have := (hw [0] (hmem 0 hL) i (by omega)).1
    rwa [getElem!_pos ws i hi] at this
  refine ⟨fun l => weightOn ws [l], ?_, ?_, ?_⟩
  · intro l i q hq
    exact weightOn_of_lt hq
  · intro l hl i hi j hj
    have := (hw [l] (hmem l hl) i hi).2.2.2 j hj
    unfold fieldCov at this
    rw [hwlen] at this
    exact this
  intro nrm
  obtain ⟨alms, hloop, halen, halm⟩ := grfLoop_kept nrm L hL nc ws hwk 0 none
  refine ⟨alms, ?_, by omega, ?_⟩
  · unfold generateAlm
    rw [if_neg hne, nfields_tri gls N h]
    simp only
    rw [← hnc, ← hLdef, if_neg (by omega), hrows, hws]
    simpa [kept] using hloop
  · intro i hi
    have hwi : ws[i]? = some ws[i]! := by
      rw [getElem!_pos ws i (by omega), List.getElem?_eq_getElem]
    obtain ⟨alm, q1, q2, q3⟩ := halm i _ hwi
    refine ⟨alm, q1, q2, ?_⟩
    intro l m hm hl
    rw [q3 l m hm hl]
    simp only [Nat.zero_add]
    congr 2
    have h1 : ∑ q ∈ range N, (weightOn ws [l] i q : ℂ) * zValue nrm q l m =
        ∑ q ∈ range (i + 1), (weightOn ws [l] i q : ℂ) * zValue nrm q l m := by
      symm
      apply Finset.sum_subset (Finset.range_subset_range.2 (by omega))
      intro q _ hq
      rw [Finset.mem_range] at hq
      rw [weightOn_of_lt (by omega)]
      simp
    rw [h1]
    apply Finset.sum_congr rfl
    intro q _
    unfold weightOn
    rw [mul_comm]

/-! ## The covariance of the coefficients -/

section Probability

open MeasureTheory

variable {Ω : Type*} [MeasurableSpace Ω]

/-- Specification: the numbers of the stream are uncorrelated with unit variance: `E[x y]` is one
if they are the same number and zero otherwise. -/
structure Uncorrelated (μ : Measure Ω) (X : Ω → Normals) : Prop where
  integrable : ∀ q k c q' k' c', Integrable (fun ω => X ω q k c * X ω q' k' c') μ
  cov : ∀ q k c q' k' c', ∫ ω, X ω q k c * X ω q' k' c' ∂μ =
    if q = q' ∧ k = k' ∧ c = c' then 1 else 0

/-- Specification: the coefficient `(l, m)` of field `i`, read in HEALPix order. -/
noncomputable def coefficient (L : ℕ) (alms : List (List ℂ)) (i l m : ℕ) : ℂ :=
  ((alms[i]?).getD [])[m * (2 * L - 1 - m) / 2 + l]?.getD 0

theorem cov_sums {μ : Measure Ω} {X : Ω → Normals} (hX : Uncorrelated μ X) (N k k' : ℕ)
    (u v : ℕ → Fin 2 → ℝ) :
    ∫ ω, (∑ q ∈ range N, ∑ c, u q c * X ω q k c) * (∑ q ∈ range N, ∑ c, v q c * X ω q k' c) ∂μ =
      if k = k' then ∑ q ∈ range N, ∑ c, u q c * v q c else 0 := by
  have h1 : ∀ ω, (∑ q ∈ range N, ∑ c, u q c * X ω q k c) *
      (∑ q ∈ range N, ∑ c, v q c * X ω q k' c) =
      ∑ q ∈ range N, ∑ q' ∈ range N, ∑ c, ∑ c', (u q c * v q' c') * (X ω q k c * X ω q' k' c') := by
    intro ω
    rw [Finset.sum_mul_sum]
    apply Finset.sum_congr rfl; intro q _
    apply Finset.sum_congr rfl; intro q' _
    rw [Finset.sum_mul_sum]
    apply Finset.sum_congr rfl; intro c _
    apply Finset.sum_congr rfl; intro c' _
    ring
  have hi : ∀ q q' c c', Integrable
      (fun ω => (u q c * v q' c') * (X ω q k c * X ω q' k' c')) μ :=
    fun q q' c c' => (hX.integrable _ _ _ _ _ _).const_mul _
  simp_rw [h1]
  rw [integral_finsetSum _ (fun q _ => integrable_finsetSum _ fun q' _ =>
    integrable_finsetSum _ fun c _ => integrable_finsetSum _ fun c' _ => hi q q' c c')]
  have h2 : ∀ q ∈ range N, ∫ ω, ∑ q' ∈ range N, ∑ c, ∑ c',
      (u q c * v q' c') * (X ω q k c * X ω q' k' c') ∂μ =
      if k = k' then ∑ c, u q c * v q c else 0 := by
    intro q hq
    rw [integral_finsetSum _ (fun q' _ =>
      integrable_finsetSum _ fun c _ => integrable_finsetSum _ fun c' _ => hi q q' c c')]
    have h3 : ∀ q' ∈ range N, ∫ ω, ∑ c, ∑ c',
        (u q c * v q' c') * (X ω q k c * X ω q' k' c') ∂μ =
        if q = q' ∧ k = k' then ∑ c, u q c * v q' c else 0 := by
      intro q' _
      rw [integral_finsetSum _ (fun c _ => integrable_finsetSum _ fun c' _ => hi q q' c c')]
      have h4 : ∀ c : Fin 2, ∫ ω, ∑ c', (u q c * v q' c') * (X ω q k c * X ω q' k' c') ∂μ =
          if q = q' ∧ k = k' then u q c * v q' c else 0 := by
        intro c
        rw [integral_finsetSum _ (fun c' _ => hi q q' c c')]
        simp_rw [integral_const_mul, hX.cov]
        by_cases h : q = q' ∧ k = k'
        · rw [if_pos h, Finset.sum_eq_single c]
          · rw [if_pos ⟨h.1, h.2, rfl⟩, mul_one]
          · intro c' _ hc
            rw [if_neg (fun hh => hc hh.2.2.symm), mul_zero]
          · intro hc; exact absurd (Finset.mem_univ c) hc
        · rw [if_neg h]
          apply Finset.sum_eq_zero
          intro c' _
          rw [if_neg (fun hh => h ⟨hh.1, hh.2.1⟩), mul_zero]
      simp_rw [h4]
      split_ifs <;> simp
    rw [Finset.sum_congr rfl h3, Finset.sum_eq_single q]
    · by_cases h : k = k' <;> simp [h]
    · intro q' _ hq'
      rw [if_neg (fun hh => hq' hh.1.symm)]
    · intro hc; exact absurd hq hc
  rw [Finset.sum_congr rfl h2]
  split_ifs <;> simp

/-- C16. For admissible spectra and uncorrelated unit normals, the run yields coefficients for all
fields, and for all modes `m ≤ l` and `m' ≤ l'`, all fields `i` and `j`: the covariance of the real
parts vanishes for different modes; for `0 < m` it is half the spectrum (zero for fields more than
`ncorr` apart), and the same for the imaginary parts; real and imaginary parts are uncorrelated;
modes with `m = 0` are real, with covariance the full spectrum. -/
theorem grf_covariance (b : Backend) (gls : List (List ℝ)) (N : ℕ)
    (h : gls.length = N * (N + 1) / 2) (ncorr : Option ℕ) (hL : 0 < maxLength gls)
    (hadm : ∀ l < maxLength gls, Admissible N (modeCov gls (ncorr.getD (N - 1)) l))
    (μ : Measure Ω) (X : Ω → Normals) (hX : Uncorrelated μ X) :
    ∃ alms : Ω → List (List ℂ), (∀ ω, generateAlm b (X ω) gls ncorr = (alms ω, none) ∧
        (alms ω).length = N) ∧
      ∀ i < N, ∀ j < N, ∀ l < maxLength gls, ∀ l' < maxLength gls, ∀ m ≤ l, ∀ m' ≤ l',
        let a := fun ω => coefficient (maxLength gls) (alms ω) i l m
        let a' := fun ω => coefficient (maxLength gls) (alms ω) j l' m'
        let C := if i - j ≤ ncorr.getD (N - 1) ∧ j - i ≤ ncorr.getD (N - 1) then
          clValue gls i j l else 0
        (m = 0 → ∀ ω, (a ω).im = 0) ∧
        ∫ ω, (a ω).re * (a' ω).re ∂μ =
          (if l = l' ∧ m = m' then (if m = 0 then C else C / 2) else 0) ∧
        ∫ ω, (a ω).im * (a' ω).im ∂μ =
          (if l = l' ∧ m = m' then (if m = 0 then 0 else C / 2) else 0) ∧
        (∫ ω, (a ω).re * (a' ω).im ∂μ = 0) := by
  obtain ⟨W, -, hW, hrun⟩ := grf_linear b gls N h ncorr hL hadm
  set L := maxLength gls with hLdef
  choose alms halms hlen hval using fun ω => hrun (X ω)
  refine ⟨alms, fun ω => ⟨halms ω, hlen ω⟩, ?_⟩
  intro i hi j hj l hl l' hl' m hm m' hm' a a' C
  -- coefficients of the real and imaginary parts on the stream
  set re : ℕ → ℕ → ℕ → ℕ → Fin 2 → ℝ := fun i l m q c => if m = 0 ∨ c = 0 then W l i q else 0
    with hre
  set im : ℕ → ℕ → ℕ → ℕ → Fin 2 → ℝ := fun i l m q c => if m ≠ 0 ∧ c = 1 then W l i q else 0
    with him
  have hco : ∀ i < N, ∀ l < L, ∀ m ≤ l, ∀ ω,
      (coefficient L (alms ω) i l m).re =
        ∑ q ∈ range N, ∑ c, re i l m q c * X ω q (l * (l + 1) / 2 + m) c ∧
      (coefficient L (alms ω) i l m).im =
        ∑ q ∈ range N, ∑ c, im i l m q c * X ω q (l * (l + 1) / 2 + m) c := by
    intro i hi l hl m hm ω
    obtain ⟨alm, q1, -, q3⟩ := hval ω i hi
    unfold coefficient
    rw [q1]
    simp only [Option.getD_some]
    rw [q3 l m hm hl]
    simp only [Option.getD_some, realised, hre, him, Fin.sum_univ_two]
    have hR : (∑ q ∈ range N, (W l i q : ℂ) * zValue (X ω) q l m).re =
        ∑ q ∈ range N, W l i q * X ω q (l * (l + 1) / 2 + m) 0 := by
      rw [Complex.re_sum]
      apply Finset.sum_congr rfl; intro q _
      simp [zValue]
    have hI : (∑ q ∈ range N, (W l i q : ℂ) * zValue (X ω) q l m).im =
        ∑ q ∈ range N, W l i q * X ω q (l * (l + 1) / 2 + m) 1 := by
      rw [Complex.im_sum]
      apply Finset.sum_congr rfl; intro q _
      simp [zValue]
    by_cases h0 : m = 0
    · rw [if_pos h0, Complex.ofReal_re, Complex.ofReal_im, hR, hI, ← Finset.sum_add_distrib]
      simp [h0]
    · rw [if_neg h0, hR, hI]
      simp [h0]
  -- different modes use different numbers
  have hinj : (l * (l + 1) / 2 + m = l' * (l' + 1) / 2 + m') ↔ (l = l' ∧ m = m') := by
    constructor
    · intro heq
      exact tri_row_unique hm hm' heq
    · rintro ⟨rfl, rfl⟩; rfl
  have hC : ∑ q ∈ range N, W l i q * W l j q = C / 2 := by
    rw [hW l hl i hi j hj]
    simp only [modeCov, C]
    split_ifs <;> simp
  refine ⟨?_, ?_, ?_, ?_⟩
  · intro h0 ω
    simp only [a]
    rw [(hco i hi l hl m hm ω).2]
    simp [him, h0]
  · simp only [a, a']
    simp_rw [fun ω => (hco i hi l hl m hm ω).1, fun ω => (hco j hj l' hl' m' hm' ω).1]
    rw [cov_sums hX]
    simp only [hinj]
    by_cases hh : l = l' ∧ m = m'
    · rw [if_pos hh, if_pos hh]
      obtain ⟨rfl, rfl⟩ := hh
      simp only [hre, Fin.sum_univ_two]
      by_cases h0 : m = 0
      · simp only [h0, true_or, if_true]
        rw [Finset.sum_add_distrib, hC]; ring
      · simp [h0, hC]
    · rw [if_neg hh, if_neg hh]
  · simp only [a, a']
    simp_rw [fun ω => (hco i hi l hl m hm ω).2, fun ω => (hco j hj l' hl' m' hm' ω).2]
    rw [cov_sums hX]
    simp only [hinj]
    by_cases hh : l = l' ∧ m = m'
    · rw [if_pos hh, if_pos hh]
      obtain ⟨rfl, rfl⟩ := hh
      simp only [him, Fin.sum_univ_two]
      by_cases h0 : m = 0
      · simp [h0]
      · simp [h0, hC]
    · rw [if_neg hh, if_neg hh]
  · simp only [a, a']
    simp_rw [fun ω => (hco i hi l hl m hm ω).1, fun ω => (hco j hj l' hl' m' hm' ω).2]
    rw [cov_sums hX]
    simp only [hinj]
    by_cases hh : l = l' ∧ m = m'
    · rw [if_pos hh]
      obtain ⟨rfl, rfl⟩ := hh
      simp only [hre, him, Fin.sum_univ_two]
      by_cases h0 : m = 0 <;> simp [h0]
    · rw [if_neg hh]

end Probability

/-! ## C17 -/

theorem zipStrict_ok {T X : Type*} (apply : T → X → ℝ → X) (variance : ℕ → Except Err ℝ)
    (var : ℕ → ℝ) (ts : List T) (xs : List X) (i : ℕ)
    (hv : ∀ j, i ≤ j → j < i + ts.length → variance j = .ok (var j)) (tail : Option Err)
    (hle : xs.length ≤ ts.length) (htail : xs.length < ts.length → tail ≠ none) :
    ∃ out, zipStrict apply variance i ts xs tail = (out, tail) ∧ out.length = xs.length ∧
      ∀ (j : ℕ) (t : T) (x : X), ts[j]? = some t → xs[j]? = some x →
        out[j]? = some (apply t x (var (i + j))) := by
  induction ts generalizing xs i with
  | nil =>
    have : xs = [] := List.length_eq_zero_iff.1 (by simpa using hle)
    subst this
    cases tail <;> exact ⟨[], rfl, rfl, by simp⟩
  | cons t ts ih =>
    cases xs with
    | nil =>
      cases tail with
      | none => exact absurd rfl (htail (by simp))
      | some e => exact ⟨[], rfl, rfl, by simp⟩
    | cons x xs =>
      obtain ⟨out, q1, q2, q3⟩ := ih xs (i + 1) (fun j h1 h2 => hv j (by omega) (by simp; omega))
        (by simpa using hle) (by simpa using htail)
      have hvi := hv i le_rfl (by simp)
      unfold zipStrict
      rw [hvi]
      simp only
      rw [q1]
      refine ⟨_, rfl, by simp [q2], ?_⟩
      intro j t' x' ht hx
      rcases j with _ | j
      · simp only [List.getElem?_cons_zero, Option.some.injEq] at ht hx ⊢
        rw [ht, hx, Nat.add_zero]
      · rw [List.getElem?_cons_succ] at ht hx ⊢
        rw [q3 j t' x' ht hx, show i + 1 + j = i + (j + 1) by omega]

theorem covLoop_complete (b : Backend) (cls : List (List ℝ)) (nl nc fuel j stop : ℕ) (h : Heap)
    (r : ℕ) : (covLoop b cls nl nc fuel j stop h r).1.length ≤ fuel ∧
      ((covLoop b cls nl nc fuel j stop h r).2.1 = none ↔
        (covLoop b cls nl nc fuel j stop h r).1.length = fuel) := by
  induction fuel generalizing j stop h r with
  | zero => simp [covLoop]
  | succ fuel ih =>
    unfold covLoop
    simp only
    split
    · simp
    · rename_i h' r' _
      have := ih (j + 1) (stop + j + 1) (h'.update b r' fun l c => h'.arr r' l c / 2).1
        (h'.update b r' fun l c => h'.arr r' l c / 2).2
      simpa using this

theorem grfLoop_complete (nrm : Normals) (n : ℕ) (ws : List Weight) (y : List (List ℂ)) (q : ℕ)
    (tail : Option Err) : (grfLoop nrm n y q ws tail).1.length ≤ ws.length ∧
      ((grfLoop nrm n y q ws tail).1.length = ws.length → (grfLoop nrm n y q ws tail).2 = tail) ∧
      ((grfLoop nrm n y q ws tail).1.length < ws.length → (grfLoop nrm n y q ws tail).2 ≠ none) := by
  induction ws generalizing y q with
  | nil => simp [grfLoop]
  | cons w ws ih =>
    unfold grfLoop
    simp only
    split
    · simp
    · simpa using ih (push y (draw nrm (n * (n + 1) / 2) q) w.k) (q + 1)

theorem generateAlm_complete (b : Backend) (nrm : Normals) (gls : List (List ℝ))
    (ncorr : Option ℕ) (N : ℕ) (h : gls.length = tri N) :
    (generateAlm b nrm gls ncorr).1.length ≤ N ∧
      ((generateAlm b nrm gls ncorr).2 = none → (generateAlm b nrm gls ncorr).1.length = N) := by
  unfold generateAlm
  split_ifs with h0
  · simp
  · rw [nfields_tri gls N h]
    simp only
    split_ifs with h1
    · simp
    · set cov := cls2covRows b gls (maxLength gls) N (ncorr.getD (N - 1)) with hcov
      have hc : cov.1.length ≤ N ∧ (cov.2 = none ↔ cov.1.length = N) := by
        have := covLoop_complete b gls (maxLength gls) (ncorr.getD (N - 1)) N 0 0
          ⟨1, fun _ _ _ => 0⟩ 0
        rw [hcov]
        simpa [cls2covRows, cls2cov] using this
      obtain ⟨w1, -, w3, w4⟩ := iterate_chain none cov.1 cov.2 _ _ rfl
      have hwlen : (iternorm cov.1 cov.2).1.length = (iterate none cov.1 cov.2).1.length := by
        simp [iternorm]
      have hwerr : (iternorm cov.1 cov.2).2 = (iterate none cov.1 cov.2).2 := rfl
      obtain ⟨g1, g2, g3⟩ := grfLoop_complete nrm (maxLength gls) (iternorm cov.1 cov.2).1 [] 0
        (iternorm cov.1 cov.2).2
      refine ⟨by omega, ?_⟩
      intro herr
      have hg : (grfLoop nrm (maxLength gls) [] 0 (iternorm cov.1 cov.2).1
          (iternorm cov.1 cov.2).2).1.length = (iternorm cov.1 cov.2).1.length := by
        by_contra hcon
        exact g3 (by omega) herr
      have hw := g2 hg
      rw [herr, hwerr] at hw
      have hrl : (iterate none cov.1 cov.2).1.length = cov.1.length := by
        by_contra hcon
        obtain ⟨e, he, -⟩ := w4 (by omega)
        rw [he] at hw; cases hw
      have := w3 hrl
      rw [← hw] at this
      rw [hg, hwlen, hrl]
      exact hc.2.1 this.symm

/-- C17. A wrong number of spectra raises `ValueError`. -/
theorem generate_rejects_number {T X : Type*} (b : Backend) (alm2map : List ℂ → X)
    (cltovar : List ℝ → ℝ) (apply : T → X → ℝ → X) (nrm : Normals) (fields : List T)
    (gls : List (List ℝ)) (ncorr : Option ℕ)
    (h : 2 * gls.length ≠ fields.length * (fields.length + 1)) :
    generate b alm2map cltovar apply nrm fields gls ncorr =
      ([], some (.value "mismatch between number of fields and gls")) := by
  unfold generate
  simp only
  rw [if_pos]
  intro h2
  have := two_mul_tri fields.length
  unfold tri at this
  omega

/-- C17. If all spectra are empty, `ValueError` is raised before anything is yielded. -/
theorem generate_rejects_empty {T X : Type*} (b : Backend) (alm2map : List ℂ → X)
    (cltovar : List ℝ → ℝ) (apply : T → X → ℝ → X) (nrm : Normals) (fields : List T)
    (gls : List (List ℝ)) (ncorr : Option ℕ) (hf : fields ≠ [])
    (hall : ∀ gl ∈ gls, gl = []) :
    ∃ s, generate b alm2map cltovar apply nrm fields gls ncorr = ([], some (.value s)) := by
  by_cases h : 2 * gls.length = fields.length * (fields.length + 1)
  · have h' : gls.length = tri fields.length := by
      have := two_mul_tri fields.length; omega
    have hpos : 0 < fields.length := List.length_pos_iff.2 hf
    have hne : gls.length ≠ 0 := by
      have := tri_lt hpos; omega
    have hL : maxLength gls = 0 := by
      have : ∀ s : List (List ℝ), (∀ gl ∈ s, gl = []) →
          s.foldl (fun a gl => max a gl.length) 0 = 0 := by
        intro s
        induction s with
        | nil => intro _; rfl
        | cons g s ih =>
          intro hs
          rw [List.foldl_cons, hs g (by simp)]
          simpa using ih (fun gl hgl => hs gl (by simp [hgl]))
      exact this gls hall
    refine ⟨"all gls are empty", ?_⟩
    unfold generate
    simp only
    rw [if_neg (by unfold tri at h'; omega)]
    unfold generateAlm
    rw [if_neg hne, nfields_tri gls _ h']
    simp only [hL, if_true, List.map_nil]
    cases fields with
    | nil => exact absurd rfl hf
    | cons t ts => rfl
  · exact ⟨_, generate_rejects_number b alm2map cltovar apply nrm fields gls ncorr h⟩

/-- C17. With the right number of spectra, every run yields the transformed maps of the first
fields in order, each computed from the Gaussian map of that field and the variance of its
auto-spectrum; there is one for every field unless an error is raised. -/
theorem generate_maps {T X : Type*} (b : Backend) (alm2map : List ℂ → X)
    (cltovar : List ℝ → ℝ) (apply : T → X → ℝ → X) (nrm : Normals) (fields : List T)
    (gls : List (List ℝ)) (ncorr : Option ℕ)
    (h : gls.length = fields.length * (fields.length + 1) / 2) (out : List X) (err : Option Err)
    (hrun : generate b alm2map cltovar apply nrm fields gls ncorr = (out, err)) :
    let alms := (generateAlm b nrm gls ncorr).1
    err = (generateAlm b nrm gls ncorr).2 ∧ out.length = alms.length ∧
    (err = none → out.length = fields.length) ∧
    ∀ (i : ℕ) (x : X), out[i]? = some x → ∃ t alm, fields[i]? = some t ∧ alms[i]? = some alm ∧
      x = apply t (alm2map alm) (cltovar ((gls[i * (i + 1) / 2]?).getD [])) := by
  intro alms
  obtain ⟨hc1, hc2⟩ := generateAlm_complete b nrm gls ncorr fields.length h
  change alms.length ≤ _ at hc1
  change _ → alms.length = _ at hc2
  have hcl : ∀ j < fields.length, (getcl gls j j none).map cltovar =
      .ok (cltovar ((gls[j * (j + 1) / 2]?).getD [])) := by
    intro j hj
    have hlt' : tri j < gls.length := by
      have := tri_lt hj
      change gls.length = tri _ at h
      omega
    have : getcl gls j j none = .ok gls[tri j] := by
      rw [getcl_labelled]
      obtain ⟨i', j', hj', hpos, he⟩ := enumerate_labels gls (tri j) hlt'
      obtain ⟨rfl, h2⟩ := tri_row_unique (c := 0) (by omega) (by omega)
        (show tri j + 0 = tri i' + (i' - j') by unfold tri; unfold tri at hpos; omega)
      have : j' = j := by omega
      subst this
      rw [max_self, min_self]
      exact List.mem_of_getElem? he
    rw [this]
    simp only [Except.map]
    rw [show j * (j + 1) / 2 = tri j from rfl, List.getElem?_eq_getElem]
    rfl
  obtain ⟨out', q1, q2, q3⟩ := zipStrict_ok apply (fun i => (getcl gls i i none).map cltovar)
    (fun i => cltovar ((gls[i * (i + 1) / 2]?).getD [])) fields (alms.map alm2map) 0
    (fun j _ hj => hcl j (by omega)) (generateAlm b nrm gls ncorr).2
    (by rw [List.length_map]; exact hc1) (by
      intro hlt hnone
      have := hc2 hnone
      rw [List.length_map] at hlt
      omega)
  unfold generate at hrun
  simp only at hrun
  rw [if_neg (not_not.2 h)] at hrun
  rw [q1] at hrun
  simp only [Prod.mk.injEq] at hrun
  obtain ⟨rfl, rfl⟩ := hrun
  rw [List.length_map] at q2
  refine ⟨rfl, q2, ?_, ?_⟩
  · intro hnone
    rw [q2]; exact hc2 hnone
  · intro i x hx
    have hi : i < out'.length := (List.getElem?_eq_some_iff.1 hx).1
    have hi1 : i < alms.length := by omega
    have hi2 : i < fields.length := by omega
    refine ⟨fields[i], alms[i], List.getElem?_eq_getElem hi2, List.getElem?_eq_getElem hi1, ?_⟩
    have := q3 i fields[i] (alm2map alms[i]) (List.getElem?_eq_getElem hi2)
      (by rw [List.getElem?_map, List.getElem?_eq_getElem hi1]; rfl)
    rw [hx, Nat.zero_add] at this
    simpa using this

/-- C16 and C17 together: for admissible spectra, `generate` yields one map per field. -/
theorem generate_complete {T X : Type*} (b : Backend) (alm2map : List ℂ → X)
    (cltovar : List ℝ → ℝ) (apply : T → X → ℝ → X) (nrm : Normals) (fields : List T)
    (gls : List (List ℝ)) (ncorr : Option ℕ)
    (h : gls.length = fields.length * (fields.length + 1) / 2) (hL : 0 < maxLength gls)
    (hadm : ∀ l < maxLength gls,
      Admissible fields.length (modeCov gls (ncorr.getD (fields.length - 1)) l)) :
    ∃ out, generate b alm2map cltovar apply nrm fields gls ncorr = (out, none) ∧
      out.length = fields.length := by
  obtain ⟨W, -, -, hrun⟩ := grf_linear b gls fields.length h ncorr hL hadm
  obtain ⟨alms, h1, h2, -⟩ := hrun nrm
  rcases hg : generate b alm2map cltovar apply nrm fields gls ncorr with ⟨out, err⟩
  obtain ⟨k1, k2, k3, -⟩ := generate_maps b alm2map cltovar apply nrm fields gls ncorr h out err hg
  rw [h1] at k1
  simp only at k1
  subst k1
  exact ⟨out, rfl, k3 rfl⟩

/-- A case meeting the hypotheses of C16: two fields, where only the second one has a monopole,
and both are correlated at `l = 1`. -/
example : ∀ l < maxLength [[0, 2], [4, 2], [0, 1]],
    Admissible 2 (modeCov [[0, 2], [4, 2], [0, 1]] 1 l) := by
  intro l hl
  have hl' : l < 2 := by simpa [maxLength] using hl
  have h00 : ∀ l, modeCov [[0, 2], [4, 2], [0, 1]] 1 l 0 0 = ([0, 2] : List ℝ)[l]?.getD 0 / 2 := by
    intro l; simp [modeCov, clValue]
  have h11 : ∀ l, modeCov [[0, 2], [4, 2], [0, 1]] 1 l 1 1 = ([4, 2] : List ℝ)[l]?.getD 0 / 2 := by
    intro l; simp [modeCov, clValue]
  have h01 : ∀ l, modeCov [[0, 2], [4, 2], [0, 1]] 1 l 0 1 = ([0, 1] : List ℝ)[l]?.getD 0 / 2 := by
    intro l; simp [modeCov, clValue]
  have h10 : ∀ l, modeCov [[0, 2], [4, 2], [0, 1]] 1 l 1 0 = ([0, 1] : List ℝ)[l]?.getD 0 / 2 := by
    intro l; simp [modeCov, clValue]
  constructor
  · intro i hi h0 j hj
    interval_cases l <;> interval_cases i <;> interval_cases j <;>
      simp [h00, h11, h01] at h0 ⊢
  · rintro v ⟨i, hi, h0, hv⟩
    unfold quad
    simp only [Finset.sum_range_succ, Finset.sum_range_zero, h00, h11, h01, h10]
    interval_cases l
    · interval_cases i
      · simp [h00] at h0
      · have : 0 < v 1 * v 1 := mul_self_pos.2 hv
        simp
        linarith
    · have : 0 < v 0 ^ 2 + v 1 ^ 2 := by interval_cases i <;> positivity
      simp
      nlinarith [sq_nonneg (v 0 + v 1)]

end Glass.Grf
