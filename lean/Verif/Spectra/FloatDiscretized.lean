import Verif.Spectra.FloatEffective

/-!
# Discretised spectra in floating point (C171)

The model of `discretized_cls`, used with numbers whose products are rounded.
-/

namespace Glass.Spectra

open Glass

/-! ## Model -/

/-- Discretised spectra of stored spectra and pixel window: `fields.py:239-300` with every operation rounded. -/
noncomputable def discretizedClsFl (R : Rounding) (cls : List (List ℝ)) (len ncorr : Option ℕ)
    (pw : Option (List ℝ)) : Except Err (List (List (Fl R))) :=
  discretizedCls (storeCls R cls) len ncorr (pw.map fun p => p.map Fl.mk)

/-- A computed number is close to an exact one: it has the same sign, and a relative error of three units. -/
def Near (R : Rounding) (c : ℝ) (x : Fl R) : Prop :=
  |x.val - c| ≤ 3 / 2 ^ 53 * |c| ∧ (0 ≤ c → 0 ≤ x.val)

/-! ## Selection -/

theorem pyGet_map {α β : Type*} (f : α → β) (s : List α) (k : ℕ) :
    pyGet (s.map f) k = (pyGet s k).map f := by
  unfold pyGet
  rw [List.getElem?_map]
  cases s[k]? <;> rfl

theorem mapM_natural {α β γ : Type*} (f : β → γ) (g : α → Except Err β) (h : α → Except Err γ)
    (hg : ∀ a, h a = (g a).map f) (L : List α) : L.mapM h = (L.mapM g).map (List.map f) := by
  induction L with
  | nil => rfl
  | cons a L ih =>
    rw [List.mapM_cons, List.mapM_cons, ih, hg]
    cases g a with
    | error e => rfl
    | ok b => cases List.mapM g L <;> rfl

theorem selectCorr_store (R : Rounding) (cls : List (List ℝ)) (n nc : ℕ) :
    selectCorr (storeCls R cls) n nc = (selectCorr cls n nc).map (storeCls R) := by
  unfold selectCorr storeCls
  apply mapM_natural
  intro p
  split_ifs
  · exact pyGet_map _ _ _
  · rfl

/-! ## One spectrum -/

theorem near_refl (R : Rounding) (c : ℝ) : Near R c ⟨c⟩ := by
  refine ⟨?_, id⟩
  simp only [sub_self, abs_zero]
  positivity

theorem near_window (R : Rounding) (c q : ℝ) : Near R (c * (q * q)) ((⟨c⟩ : Fl R) * (⟨q⟩ * ⟨q⟩)) := by
  constructor
  · change |R.fl (c * R.fl (q * q)) - c * (q * q)| ≤ _
    have h1 := R.error (q * q)
    have h2 := R.error (c * R.fl (q * q))
    have h3 : |c * R.fl (q * q) - c * (q * q)| ≤ |c * (q * q)| / 2 ^ 53 := by
      rw [← mul_sub, abs_mul, abs_mul c, mul_div_assoc]
      exact mul_le_mul_of_nonneg_left h1 (abs_nonneg c)
    have h4 : |c * R.fl (q * q)| ≤ |c * (q * q)| + |c * (q * q)| / 2 ^ 53 := by
      have := abs_sub_abs_le_abs_sub (c * R.fl (q * q)) (c * (q * q))
      linarith
    have h5 := abs_sub_le (R.fl (c * R.fl (q * q))) (c * R.fl (q * q)) (c * (q * q))
    have h6 : |c * R.fl (q * q)| / 2 ^ 53 ≤ (|c * (q * q)| + |c * (q * q)| / 2 ^ 53) / 2 ^ 53 := by gcongr
    have h7 := abs_nonneg (c * (q * q))
    generalize |c * (q * q)| = t at *
    have h8 : (t + t / 2 ^ 53) / 2 ^ 53 + t / 2 ^ 53 ≤ 3 / 2 ^ 53 * t := by
      norm_num
      linarith
    linarith
  · intro h
    change 0 ≤ R.fl (c * R.fl (q * q))
    apply R.nonneg
    have hq : 0 ≤ R.fl (q * q) := R.nonneg (mul_self_nonneg q)
    rcases eq_or_ne q 0 with rfl | hne
    · simp [R.zero]
    · have : 0 < q * q := mul_self_pos.2 hne
      exact mul_nonneg (nonneg_of_mul_nonneg_left h this) hq

theorem forall_map {α β : Type*} {P : α → β → Prop} (f : α → β) (h : ∀ a, P a (f a)) (L : List α) :
    List.Forall₂ P L (L.map f) := by
  induction L with
  | nil => exact .nil
  | cons a L ih => exact .cons (h a) ih

theorem forall_window (R : Rounding) (cl pw : List ℝ) :
    List.Forall₂ (Near R) (List.zipWith (fun c p => c * (p * p)) cl pw)
      (List.zipWith (fun c p => c * (p * p)) (cl.map Fl.mk) (pw.map (Fl.mk (R := R)))) := by
  induction cl generalizing pw with
  | nil => exact .nil
  | cons c cl ih =>
    cases pw with
    | nil => exact .nil
    | cons q pw => exact .cons (near_window R c q) (ih pw)

theorem discretizeOne_fl (R : Rounding) (len : Option ℕ) (pw : Option (List ℝ)) (cl : List ℝ) :
    List.Forall₂ (Near R) (discretizeOne len pw cl)
      (discretizeOne len (pw.map fun p => p.map Fl.mk) (cl.map Fl.mk)) := by
  unfold discretizeOne
  simp only [List.length_map]
  split_ifs
  · cases len <;> cases pw <;> simp only [Option.map_some, Option.map_none, List.length_map, ← List.map_take]
    · exact forall_map _ (near_refl R) _
    · exact forall_window R _ _
    · exact forall_map _ (near_refl R) _
    · exact forall_window R _ _
  · exact forall_map _ (near_refl R) cl

/-! ## All spectra -/

/-- **C171**: discretised spectra have a relative error of at most three units, and keep their sign. -/
theorem discretized_fl_error (R : Rounding) (cls : List (List ℝ)) (len ncorr : Option ℕ) (pw : Option (List ℝ))
    {out : List (List ℝ)} (h : discretizedCls cls len ncorr pw = .ok out) :
    ∃ out', discretizedClsFl R cls len ncorr pw = .ok out' ∧ List.Forall₂ (List.Forall₂ (Near R)) out out' := by
  have key : ∀ L : List (List ℝ), List.Forall₂ (List.Forall₂ (Near R)) (L.map (discretizeOne len pw))
      ((storeCls R L).map (discretizeOne len (pw.map fun p => p.map Fl.mk))) := by
    intro L
    induction L with
    | nil => exact .nil
    | cons a L ih => exact .cons (discretizeOne_fl R len pw a) ih
  have hl : (storeCls R cls).length = cls.length := by simp [storeCls]
  unfold discretizedClsFl
  unfold discretizedCls at h ⊢
  rw [hl]
  split_ifs at h ⊢ with h0
  · cases h
    exact ⟨[], rfl, .nil⟩
  · cases ncorr with
    | none =>
      cases h
      exact ⟨_, rfl, key cls⟩
    | some nc =>
      have hn : nfields (storeCls R cls) = nfields cls := by unfold nfields; rw [hl]
      simp only [hn] at h ⊢
      cases hf : nfields cls with
      | error e => rw [hf] at h; cases h
      | ok n =>
        rw [hf] at h
        simp only [selectCorr_store] at h ⊢
        cases hs : selectCorr cls n nc with
        | error e => rw [hs] at h; cases h
        | ok L =>
          rw [hs] at h
          cases h
          exact ⟨_, rfl, key L⟩

/-- **C171**: the rounded computation raises the same errors. -/
theorem discretized_fl_rejects (R : Rounding) (cls : List (List ℝ)) (len ncorr : Option ℕ) (pw : Option (List ℝ))
    {e : Err} (h : discretizedCls cls len ncorr pw = .error e) :
    discretizedClsFl R cls len ncorr pw = .error e := by
  have hl : (storeCls R cls).length = cls.length := by simp [storeCls]
  unfold discretizedClsFl
  unfold discretizedCls at h ⊢
  rw [hl]
  split_ifs at h ⊢ with h0
  cases ncorr with
  | none => cases h
  | some nc =>
    have hn : nfields (storeCls R cls) = nfields cls := by unfold nfields; rw [hl]
    simp only [hn] at h ⊢
    cases hf : nfields cls with
    | error e' => rw [hf] at h; cases h; rfl
    | ok n =>
      rw [hf] at h
      simp only [selectCorr_store] at h ⊢
      cases hs : selectCorr cls n nc with
      | error e' => rw [hs] at h; cases h; rfl
      | ok L => rw [hs] at h; cases h

/-- **C171**: a pixel window that is at most one never increases a spectrum, not even by rounding. -/
theorem discretized_fl_le (R : Rounding) (cls : List (List ℝ)) (len : Option ℕ) (p : List ℝ)
    (hp : ∀ q ∈ p, |q| ≤ 1) (hc : ∀ cl ∈ cls, ∀ c ∈ cl, 0 ≤ c ∧ R.fl c = c) :
    ∃ out', discretizedClsFl R cls len none (some p) = .ok out' ∧
      ∀ (k l : ℕ) (cl : List ℝ) (g : List (Fl R)) (v : Fl R), cls[k]? = some cl → out'[k]? = some g →
        g[l]? = some v → ∃ c, cl[l]? = some c ∧ 0 ≤ v.val ∧ v.val ≤ c := by
  obtain ⟨r, hr, -, hs⟩ := discretized_no_ncorr (storeCls R cls) len (some (p.map (Fl.mk (R := R))))
  refine ⟨r, hr, ?_⟩
  intro k l cl g v hcl hg hv
  obtain ⟨g', hg', -, -, hval⟩ := hs k (cl.map Fl.mk) (by simp [storeCls, hcl])
  rw [hg] at hg'
  cases hg'
  obtain ⟨c', hc', hw⟩ := hval l v hv
  rw [List.getElem?_map, Option.map_eq_some_iff] at hc'
  obtain ⟨c, hcl', rfl⟩ := hc'
  refine ⟨c, hcl', ?_⟩
  obtain ⟨hc0, hcfl⟩ := hc cl (List.mem_of_getElem? hcl) c (List.mem_of_getElem? hcl')
  rcases hw with ⟨hn, -⟩ | ⟨p', q', hp', hq', rfl⟩
  · cases hn
  · cases hp'
    rw [List.getElem?_map, Option.map_eq_some_iff] at hq'
    obtain ⟨q, hq, rfl⟩ := hq'
    have hq1 := hp q (List.mem_of_getElem? hq)
    have hqq : q * q ≤ 1 := by rw [← abs_mul_abs_self]; nlinarith [abs_nonneg q]
    have hf1 : R.fl (q * q) ≤ 1 := by simpa [R.one] using R.mono hqq
    have hf0 : 0 ≤ R.fl (q * q) := R.nonneg (mul_self_nonneg q)
    constructor
    · exact R.nonneg (mul_nonneg hc0 hf0)
    · change R.fl (c * R.fl (q * q)) ≤ c
      have : R.fl (c * R.fl (q * q)) ≤ R.fl c := R.mono (by nlinarith)
      rwa [hcfl] at this

/-- **C171**: the same for a limited number of correlations. -/
theorem discretized_fl_ncorr_le (R : Rounding) (cls : List (List ℝ)) {n : ℕ} (nc : ℕ) (len : Option ℕ) (p : List ℝ)
    (hn : cls.length = n * (n + 1) / 2) (hp : ∀ q ∈ p, |q| ≤ 1)
    (hc : ∀ cl ∈ cls, ∀ c ∈ cl, 0 ≤ c ∧ R.fl c = c) :
    ∃ out', discretizedClsFl R cls len (some nc) (some p) = .ok out' ∧ out'.length = cls.length ∧
      ∀ (i j l : ℕ) (cl : List ℝ) (g : List (Fl R)) (v : Fl R), j ≤ i → i < n →
        cls[i * (i + 1) / 2 + (i - j)]? = some cl → out'[i * (i + 1) / 2 + (i - j)]? = some g →
        g[l]? = some v → i - j ≤ nc ∧ ∃ c, cl[l]? = some c ∧ 0 ≤ v.val ∧ v.val ≤ c := by
  obtain ⟨r, r', hr, hr', hl, hs⟩ := discretized_ncorr (storeCls R cls) n nc len
    (some (p.map (Fl.mk (R := R)))) (by simpa [storeCls] using hn)
  obtain ⟨out, ho, hle⟩ := discretized_fl_le R cls len p hp hc
  have hout : out = r' := by
    have := ho.symm.trans hr'
    cases this
    rfl
  subst hout
  refine ⟨r, hr, by simpa [storeCls] using hl, ?_⟩
  intro i j l cl g v hj hi hcl hg hv
  rw [hs i j hj hi] at hg
  split_ifs at hg with hk
  · exact ⟨hk, hle _ l cl g v hcl hg hv⟩
  · cases hg
    simp at hv

/-- One spectrum with a pixel window: the entry `3 * 0.5 ** 2` is exact, and the spectrum is truncated. -/
example : discretizedClsFl double [[3, 5]] (some 1) none (some [1 / 2, 1 / 2]) = .ok [[⟨3 / 4⟩]] := by
  have h1 : double.fl (1 / 2 * (1 / 2)) = 1 / 4 := by
    have := double.exact 1 (by norm_num)
    norm_num at this ⊢
    exact this
  have h3 : double.fl (3 * (1 / 4)) = 3 / 4 := by
    have := double.exact 3 (by norm_num)
    norm_num at this ⊢
    exact this
  have hm : ((⟨3⟩ : Fl double) * (⟨1 / 2⟩ * ⟨1 / 2⟩)) = ⟨3 / 4⟩ := by
    change (⟨double.fl (3 * double.fl (1 / 2 * (1 / 2)))⟩ : Fl double) = _
    rw [h1, h3]
  simp only [discretizedClsFl, discretizedCls, storeCls, discretizeOne, List.map_cons, List.map_nil, Option.map_some]
  simp [-one_div, hm]

end Glass.Spectra
