import Verif.Shells.FloatAverages
import Verif.Galaxies.FloatSampling

/-!
# Windows in floating point

Linear and cubic windows with every operation rounded, and their sum.
-/

namespace Glass.Shells

open Glass Glass.Num Glass.Spectra Glass.Lensing Glass.Galaxies

/-! ## Model -/

/-- `xp.linspace(a, b, n, endpoint=False)`. -/
noncomputable def linspaceOpenFl (fl : ℝ → ℝ) (a b : ℝ) (n : ℕ) : List ℝ :=
  (List.range n).map fun k : ℕ => fl (fl (k * fl (fl (b - a) / n)) + a)

/-- `xp.linspace(a, b, n)`; the last entry is set to `b`. -/
noncomputable def linspaceFl (fl : ℝ → ℝ) (a b : ℝ) (n : ℕ) : List ℝ :=
  (List.range n).map fun k : ℕ =>
    if k = n - 1 then b else fl (fl (k * fl (fl (b - a) / (n - 1 : ℕ))) + a)

/-- `int(max(xp.round((b - a) / dz), 2))`, `shells.py:406-407`, `476-477`. -/
noncomputable def gridSizeFl (fl : ℝ → ℝ) (rnd : ℝ → ℤ) (dz a b : ℝ) : ℕ :=
  (max (rnd (fl (fl (b - a) / dz))) 2).toNat

/-- `u**2 * (3 - 2 * u)`, `shells.py:483`. -/
noncomputable def cubicFl (fl : ℝ → ℝ) (u : ℝ) : ℝ := fl (fl (u ^ 2) * fl (3 - fl (2 * u)))

/-- One window of `linear_windows`, `shells.py:406-416` (with the profile `id`), or of
`cubic_windows`, `shells.py:476-486` (with the profile `cubicFl fl`), without a weight. -/
noncomputable def windowFl (fl : ℝ → ℝ) (P : ℝ → ℝ) (rnd : ℝ → ℤ) (dz zmin zmid zmax : ℝ) :
    List (ℝ × ℝ) :=
  let n := gridSizeFl fl rnd dz zmin zmid - 1
  let m := gridSizeFl fl rnd dz zmid zmax
  let z := linspaceOpenFl fl zmin zmid n ++ linspaceFl fl zmid zmax m
  let w := (linspaceOpenFl fl 0 1 n).map P ++ (linspaceFl fl 1 0 m).map P
  z.zip w

/-- The value of a window: interpolation, and zero outside. -/
noncomputable def evalFl (fl : ℝ → ℝ) (ks : List (ℝ × ℝ)) (x : ℝ) : ℝ :=
  match ks.head?, ks.getLast? with
  | some a, some b => if x < a.1 then 0 else if b.1 < x then 0 else interpInFl fl ks x
  | _, _ => 0

/-- All windows. -/
noncomputable def windowsFl (fl : ℝ → ℝ) (P : ℝ → ℝ) (rnd : ℝ → ℤ) (dz : ℝ) (zgrid : List ℝ) :
    List (List (ℝ × ℝ)) :=
  (triples zgrid).map fun t => windowFl fl P rnd dz t.1 t.2.1 t.2.2

/-! ## Without rounding -/

theorem linspaceFl_real {a b : ℝ} {n : ℕ} (hn : 2 ≤ n) : linspaceFl id a b n = linspace a b n := by
  unfold linspaceFl linspace
  apply List.map_congr_left
  intro k _
  split_ifs with h
  · subst h
    have : ((n - 1 : ℕ) : ℝ) ≠ 0 := by
      have : n - 1 ≠ 0 := by omega
      exact_mod_cast this
    field_simp
    ring
  · simp only [id]; ring

theorem linspaceOpenFl_real (a b : ℝ) (n : ℕ) : linspaceOpenFl id a b n = linspaceOpen a b n := by
  unfold linspaceOpenFl linspaceOpen
  apply List.map_congr_left
  intro k _
  simp only [id]; ring

theorem gridSizeFl_ge (fl : ℝ → ℝ) (rnd : ℝ → ℤ) (dz a b : ℝ) : 2 ≤ gridSizeFl fl rnd dz a b := by
  unfold gridSizeFl
  omega

/-- **C160**: without rounding, the windows are those of the other modules. -/
theorem windows_fl_real (rnd : ℝ → ℤ) (dz : ℝ) (zgrid : List ℝ) (h : 3 ≤ zgrid.length) :
    linearWindows rnd zgrid dz none = .ok (List.zipWith RadialWindow.mk
      (windowsFl id id rnd dz zgrid) ((triples zgrid).map fun t => t.2.1)) ∧
    cubicWindows rnd zgrid dz none = .ok (List.zipWith RadialWindow.mk
      (windowsFl id (cubicFl id) rnd dz zgrid) ((triples zgrid).map fun t => t.2.1)) ∧
    ∀ (ks : List (ℝ × ℝ)) (z x : ℝ), evalFl id ks x = (RadialWindow.mk ks z).eval x := by
  have hz : ∀ (l : List (ℝ × ℝ × ℝ)) (f : ℝ × ℝ × ℝ → List (ℝ × ℝ)),
      List.zipWith RadialWindow.mk (l.map f) (l.map fun t => t.2.1) =
        l.map fun t => ⟨f t, t.2.1⟩ := by
    intro l f
    induction l with
    | nil => rfl
    | cons t l ih => simp [ih]
  have hg : ∀ a b, gridSizeFl id rnd dz a b = gridSize rnd dz a b := fun _ _ => rfl
  have hg2 : ∀ a b, 2 ≤ gridSize rnd dz a b := fun a b => by
    rw [← hg]; exact gridSizeFl_ge _ _ _ _ _
  refine ⟨?_, ?_, ?_⟩
  · unfold linearWindows windowsFl
    rw [if_neg (by omega), hz]
    congr 1
    apply List.map_congr_left
    intro t _
    unfold linearWindow windowFl applyWeight
    simp only [hg, List.map_id]
    rw [linspaceFl_real (hg2 _ _), linspaceFl_real (hg2 _ _), linspaceOpenFl_real,
      linspaceOpenFl_real]
  · unfold cubicWindows windowsFl
    rw [if_neg (by omega), hz]
    congr 1
    apply List.map_congr_left
    intro t _
    unfold cubicWindow windowFl applyWeight
    simp only [hg]
    rw [linspaceFl_real (hg2 _ _), linspaceFl_real (hg2 _ _), linspaceOpenFl_real,
      linspaceOpenFl_real]
    rfl
  · intro ks z x
    unfold evalFl RadialWindow.eval interp
    rw [interpInFl_real]
    rfl

/-! ## Interpolation -/

/-- The error of interpolation in one cell. -/
theorem cell_error (R : Rounding) {a b c d x Y : ℝ} (hab : a < b) (hax : a ≤ x) (hxb : x ≤ b)
    (hc0 : 0 ≤ c) (hd0 : 0 ≤ d) (hc : c ≤ Y) (hd : d ≤ Y) :
    |R.fl (R.fl (R.fl (R.fl (d - c) / R.fl (b - a)) * R.fl (x - a)) + c) -
      (c + (d - c) / (b - a) * (x - a))| ≤ 13 / 2 ^ 53 * Y := by
  have h1 := Rel.round R ((Rel.round R ((Rel.fl R (d - c)).div (Rel.fl R (b - a)))).mul
    (Rel.fl R (x - a)))
  have h2 := rel_error h1 (by norm_num)
  generalize R.fl (R.fl (R.fl (d - c) / R.fl (b - a)) * R.fl (x - a)) = p at *
  have hP : |(d - c) / (b - a) * (x - a)| ≤ Y := by
    rw [div_mul_eq_mul_div, abs_div, abs_of_pos (sub_pos.2 hab), div_le_iff₀ (sub_pos.2 hab),
      abs_mul, abs_of_nonneg (sub_nonneg.2 hax)]
    refine mul_le_mul ?_ (by linarith) (by linarith) (hc0.trans hc)
    rw [abs_le]; constructor <;> linarith
  have hr : 0 ≤ c + (d - c) / (b - a) * (x - a) ∧ c + (d - c) / (b - a) * (x - a) ≤ Y := by
    have e : c + (d - c) / (b - a) * (x - a) =
      (c * (b - x) + d * (x - a)) / (b - a) := by
      have : b - a ≠ 0 := (sub_pos.2 hab).ne'
      field_simp
      ring
    rw [e]
    constructor
    · apply div_nonneg _ (by linarith)
      have := mul_nonneg hc0 (sub_nonneg.2 hxb)
      have := mul_nonneg hd0 (sub_nonneg.2 hax)
      linarith
    · rw [div_le_iff₀ (by linarith)]
      have := mul_le_mul_of_nonneg_right hc (sub_nonneg.2 hxb)
      have := mul_le_mul_of_nonneg_right hd (sub_nonneg.2 hax)
      linarith
  generalize (d - c) / (b - a) * (x - a) = P at *
  have hY : 0 ≤ Y := hc0.trans hc
  have h3 : |p - P| ≤ 10 / 2 ^ 53 * Y := by
    refine h2.trans ?_
    have : (2 * ((1 + 1 + 1 + 1 + 1 : ℕ) : ℝ) / 2 ^ 53) = 10 / 2 ^ 53 := by norm_num
    rw [this]
    gcongr
  have h4 := R.error (p + c)
  have h5 : |p + c| ≤ 2 * Y := by
    have e : p + c = (p - P) + (c + P) := by ring
    rw [e]
    refine (abs_add_le _ _).trans ?_
    rw [abs_of_nonneg hr.1]
    have : 10 / 2 ^ 53 * Y ≤ 1 * Y := by gcongr; norm_num
    linarith [hr.2]
  have e : R.fl (p + c) - (c + P) = (R.fl (p + c) - (p + c)) + (p - P) := by ring
  rw [e]
  refine (abs_add_le _ _).trans ?_
  have h6 : |p + c| / 2 ^ 53 ≤ 2 * Y / 2 ^ 53 := by gcongr
  have h7 : 2 * Y / 2 ^ 53 + 10 / 2 ^ 53 * Y ≤ 13 / 2 ^ 53 * Y := by
    have : 2 * Y / 2 ^ 53 + 10 / 2 ^ 53 * Y = 12 / 2 ^ 53 * Y := by ring
    rw [this]
    gcongr
    norm_num
  linarith

/-- Points of two windows that add up to one. -/
def Complementary (e Y : ℝ) (k l : ℝ × ℝ) : Prop :=
  k.1 = l.1 ∧ |k.2 + l.2 - 1| ≤ e ∧ (0 ≤ k.2 ∧ k.2 ≤ Y) ∧ 0 ≤ l.2 ∧ l.2 ≤ Y

/-- Windows whose values at the points add up to one do so in between, up to rounding. -/
theorem interp_sum (R : Rounding) {e Y : ℝ} (hY : 0 ≤ Y) : ∀ {F G : List (ℝ × ℝ)} {x : ℝ}, Inc F →
    F ≠ [] → List.Forall₂ (Complementary e Y) F G → (∀ k, F.head? = some k → k.1 ≤ x) →
    |interpInFl R.fl F x + interpInFl R.fl G x - 1| ≤ 26 / 2 ^ 53 * Y + e
  | [], _, _, _, h, _, _ => absurd rfl h
  | [k], _, x, _, _, h, _ => by
    rcases h with _ | ⟨h1, _ | _⟩
    simp only [interpInFl]
    have : 0 ≤ 26 / 2 ^ 53 * Y := by positivity
    linarith [h1.2.1]
  | k :: k' :: ks, _, x, hi, _, h, hx => by
    rcases h with _ | ⟨h1, _ | ⟨h2, h3⟩⟩
    rename_i l l' ls
    have hlt : k.1 < k'.1 := (List.pairwise_cons.1 hi).1 k' (by simp)
    have hkx : k.1 ≤ x := hx k rfl
    simp only [interpInFl]
    rw [← h1.1, ← h2.1]
    split_ifs with c1 c2
    · have : 0 ≤ 26 / 2 ^ 53 * Y := by positivity
      linarith [h1.2.1]
    · have e1 := cell_error R hlt hkx c1.le h1.2.2.1.1 h2.2.2.1.1 h1.2.2.1.2 h2.2.2.1.2
      have e2 := cell_error R hlt hkx c1.le h1.2.2.2.1 h2.2.2.2.1 h1.2.2.2.2 h2.2.2.2.2
      generalize R.fl (R.fl (R.fl (R.fl (k'.2 - k.2) / R.fl (k'.1 - k.1)) * R.fl (x - k.1)) + k.2)
        = p at *
      generalize R.fl (R.fl (R.fl (R.fl (l'.2 - l.2) / R.fl (k'.1 - k.1)) * R.fl (x - k.1)) + l.2)
        = q at *
      have hb : 0 < k'.1 - k.1 := sub_pos.2 hlt
      set t := (x - k.1) / (k'.1 - k.1) with ht
      have t0 : 0 ≤ t := div_nonneg (by linarith) hb.le
      have t1 : t ≤ 1 := by rw [ht, div_le_one hb]; linarith
      have e3 : k.2 + (k'.2 - k.2) / (k'.1 - k.1) * (x - k.1) +
          (l.2 + (l'.2 - l.2) / (k'.1 - k.1) * (x - k.1)) - 1 =
          (1 - t) * (k.2 + l.2 - 1) + t * (k'.2 + l'.2 - 1) := by
        rw [ht]; field_simp; ring
      have e4 : |(1 - t) * (k.2 + l.2 - 1) + t * (k'.2 + l'.2 - 1)| ≤ e := by
        refine (abs_add_le _ _).trans ?_
        rw [abs_mul, abs_mul, abs_of_nonneg t0, abs_of_nonneg (sub_nonneg.2 t1)]
        nlinarith [h1.2.1, h2.2.1]
      have e5 : p + q - 1 = (p - (k.2 + (k'.2 - k.2) / (k'.1 - k.1) * (x - k.1))) +
        (q - (l.2 + (l'.2 - l.2) / (k'.1 - k.1) * (x - k.1))) +
        ((1 - t) * (k.2 + l.2 - 1) + t * (k'.2 + l'.2 - 1)) := by rw [← e3]; ring
      rw [e5]
      refine (abs_add_le _ _).trans ?_
      have := abs_add_le (p - (k.2 + (k'.2 - k.2) / (k'.1 - k.1) * (x - k.1)))
        (q - (l.2 + (l'.2 - l.2) / (k'.1 - k.1) * (x - k.1)))
      have e6 : 26 / 2 ^ 53 * Y = 13 / 2 ^ 53 * Y + 13 / 2 ^ 53 * Y := by ring
      linarith
    · exact interp_sum R hY hi.tail (by simp) (.cons h2 h3) (by
        intro j hj
        simp only [List.head?_cons, Option.some.injEq] at hj
        subst hj
        exact not_lt.1 c1)

/-- Points on the left of the redshift are skipped. -/
theorem interp_skip (fl : ℝ → ℝ) {F G : List (ℝ × ℝ)} {x : ℝ} (hF : ∀ k ∈ F, k.1 ≤ x)
    {g : ℝ × ℝ} (hg : G.head? = some g) (hx : g.1 ≤ x) :
    interpInFl fl (F ++ G) x = interpInFl fl G x := by
  rcases G with _ | ⟨g', G⟩
  · simp at hg
  simp only [List.head?_cons, Option.some.injEq] at hg
  subst hg
  induction F with
  | nil => rfl
  | cons k F ih =>
    have ih' := ih fun k hk => hF k (by simp [hk])
    rcases F with _ | ⟨k', F⟩
    · simp only [List.cons_append, List.nil_append, interpInFl]
      rw [if_neg (not_lt.2 hx)]
    · simp only [List.cons_append, interpInFl]
      rw [if_neg (not_lt.2 (hF k' (by simp)))]
      exact ih'

/-- Points on the right of the redshift do not matter. -/
theorem interp_stop (fl : ℝ → ℝ) {F G : List (ℝ × ℝ)} {q : ℝ × ℝ} {x : ℝ} (hx : x ≤ q.1)
    (hG : ∀ k ∈ G, q.1 < k.1) :
    F ≠ [] ∨ x = q.1 → interpInFl fl (F ++ q :: G) x = interpInFl fl (F ++ [q]) x := by
  induction F with
  | nil =>
    intro h
    have h : x = q.1 := by simpa using h
    rcases G with _ | ⟨g, G⟩
    · rfl
    · simp only [List.nil_append, interpInFl]
      rw [if_pos (by rw [h]; exact hG g (by simp)), if_pos h]
  | cons k F ih =>
    intro _
    rcases F with _ | ⟨k', F⟩
    · simp only [List.cons_append, List.nil_append, interpInFl]
      split_ifs with h1
      · rfl
      · rfl
      · have := ih (Or.inr (le_antisymm hx (not_lt.1 h1)))
        simpa [interpInFl] using this
    · have := ih (Or.inl (by simp))
      simp only [List.cons_append, interpInFl] at this ⊢
      rw [this]

/-! ## Grids -/

/-- An entry of a grid. -/
noncomputable def gridPoint (fl : ℝ → ℝ) (a b : ℝ) (n k : ℕ) : ℝ :=
  fl (fl (k * fl (fl (b - a) / n)) + a)

theorem linspaceFl_succ (fl : ℝ → ℝ) (a b : ℝ) (n : ℕ) :
    linspaceFl fl a b (n + 1) = linspaceOpenFl fl a b n ++ [b] := by
  unfold linspaceFl linspaceOpenFl
  rw [List.range_succ, List.map_append]
  congr 1
  · apply List.map_congr_left
    intro k hk
    have := List.mem_range.1 hk
    rw [if_neg (by omega)]
    rfl
  · simp

/-- The error of a grid point. -/
theorem grid_point_error (R : Rounding) {a b : ℝ} {n k : ℕ} (ha : 0 ≤ a) (hab : a < b) (hk : k < n) :
    |gridPoint R.fl a b n k - (k * ((b - a) / n) + a)| ≤ 8 / 2 ^ 53 * b := by
  have hn : (0 : ℝ) < n := by exact_mod_cast (Nat.zero_le k).trans_lt hk
  have h1 := Rel.round R ((Rel.refl (k : ℝ)).mul (Rel.round R ((Rel.fl R (b - a)).div
    (Rel.refl (n : ℝ)))))
  have h2 := rel_error h1 (by norm_num)
  unfold gridPoint
  generalize R.fl (k * R.fl (R.fl (b - a) / n)) = t at *
  have hkn : (k : ℝ) ≤ n := by exact_mod_cast hk.le
  have hv0 : 0 ≤ k * ((b - a) / n) := by
    have := sub_pos.2 hab
    positivity
  have hv : k * ((b - a) / n) ≤ b - a := by
    rw [mul_div_assoc', div_le_iff₀ hn]
    nlinarith
  generalize k * ((b - a) / n) = v at *
  have h3 : |t - v| ≤ 6 / 2 ^ 53 * b := by
    refine h2.trans ?_
    rw [abs_of_nonneg hv0]
    have : (2 * ((0 + (1 + 0 + 1) + 1 : ℕ) : ℝ) / 2 ^ 53) = 6 / 2 ^ 53 := by norm_num
    rw [this]
    gcongr
    linarith
  have h4 := R.error (t + a)
  have h5 : |t + a| ≤ 2 * b := by
    have e : t + a = (t - v) + (v + a) := by ring
    rw [e]
    refine (abs_add_le _ _).trans ?_
    rw [abs_of_nonneg (by linarith : 0 ≤ v + a)]
    have : 6 / 2 ^ 53 * b ≤ 1 * b := mul_le_mul_of_nonneg_right (by norm_num) (by linarith)
    linarith
  have e : R.fl (t + a) - (v + a) = (R.fl (t + a) - (t + a)) + (t - v) := by ring
  rw [e]
  refine (abs_add_le _ _).trans ?_
  have h6 : |t + a| / 2 ^ 53 ≤ 2 * b / 2 ^ 53 := by gcongr
  have h7 : 2 * b / 2 ^ 53 + 6 / 2 ^ 53 * b = 8 / 2 ^ 53 * b := by ring
  linarith

/-- Nodes and a grid whose step is not lost in rounding. -/
structure Fine (fl : ℝ → ℝ) (rnd : ℝ → ℤ) (dz a b : ℝ) : Prop where
  nonneg : 0 ≤ a
  lt : a < b
  left : fl a = a
  right : fl b = b
  step : 32 * ((gridSizeFl fl rnd dz a b - 1 : ℕ) : ℝ) * b ≤ 2 ^ 53 * (b - a)

theorem grid_increasing (R : Rounding) {rnd : ℝ → ℤ} {dz a b : ℝ} (h : Fine R.fl rnd dz a b) :
    (linspaceOpenFl R.fl a b (gridSizeFl R.fl rnd dz a b - 1) ++ [b]).Pairwise (· < ·) := by
  have hs := h.step
  have h1 : 1 ≤ gridSizeFl R.fl rnd dz a b - 1 := by
    have := gridSizeFl_ge R.fl rnd dz a b
    omega
  generalize gridSizeFl R.fl rnd dz a b - 1 = n at *
  have hn : (1 : ℝ) ≤ n := by exact_mod_cast h1
  have hb : 0 < b := h.nonneg.trans_lt h.lt
  have hd : 32 / 2 ^ 53 * b ≤ (b - a) / n := by
    rw [le_div_iff₀ (by linarith), ← mul_le_mul_iff_of_pos_left (show (0 : ℝ) < 2 ^ 53 by norm_num)]
    refine le_trans (le_of_eq ?_) hs
    ring
  have hnd : (b - a) / n * n = b - a := div_mul_cancel₀ _ (by linarith)
  have hp : 0 < 1 / 2 ^ 53 * b := by positivity
  have c1 : 8 / 2 ^ 53 * b = 8 * (1 / 2 ^ 53 * b) := by ring
  have c2 : 32 / 2 ^ 53 * b = 32 * (1 / 2 ^ 53 * b) := by ring
  rw [c2] at hd
  rw [List.pairwise_append]
  refine ⟨?_, by simp, ?_⟩
  · unfold linspaceOpenFl
    rw [List.pairwise_map]
    refine List.Pairwise.imp_of_mem ?_ (List.pairwise_lt_range (n := n))
    intro j k hj hk hjk
    have e1 := abs_le.1 (grid_point_error R h.nonneg h.lt (List.mem_range.1 hj))
    have e2 := abs_le.1 (grid_point_error R h.nonneg h.lt (List.mem_range.1 hk))
    change gridPoint R.fl a b n j < gridPoint R.fl a b n k
    rw [c1] at e1 e2
    have hjk' : (j : ℝ) + 1 ≤ k := by exact_mod_cast hjk
    have : ((j : ℝ) + 1) * ((b - a) / n) ≤ k * ((b - a) / n) :=
      mul_le_mul_of_nonneg_right hjk' (by linarith)
    generalize (b - a) / n = d at *
    linarith [e1.2, e2.1]
  · intro y hy c hc
    simp only [List.mem_singleton] at hc
    subst hc
    obtain ⟨k, hk, rfl⟩ := List.mem_map.1 hy
    have hk' := List.mem_range.1 hk
    have e1 := abs_le.1 (grid_point_error R h.nonneg h.lt hk')
    change gridPoint R.fl a c n k < c
    rw [c1] at e1
    have hkn : (k : ℝ) + 1 ≤ n := by exact_mod_cast hk'
    have : ((k : ℝ) + 1) * ((c - a) / n) ≤ n * ((c - a) / n) :=
      mul_le_mul_of_nonneg_right hkn (by linarith)
    generalize (c - a) / n = d at *
    linarith [e1.2]

theorem gridPoint_zero (R : Rounding) {a b : ℝ} (n : ℕ) (ha : R.fl a = a) :
    gridPoint R.fl a b n 0 = a := by
  unfold gridPoint
  rw [Nat.cast_zero, zero_mul, R.zero, zero_add, ha]

/-- The grids of the values: they are in the unit interval and complementary. -/
theorem unit_points (R : Rounding) (hid : ∀ x, R.fl (R.fl x) = R.fl x)
    (hneg : ∀ x, R.fl (-x) = -R.fl x) {n k : ℕ} (hk : k < n) (hn : (n : ℝ) ≤ 2 ^ 53) :
    0 ≤ gridPoint R.fl 0 1 n k ∧ gridPoint R.fl 0 1 n k ≤ 1 ∧
      gridPoint R.fl 1 0 n k = R.fl (1 - gridPoint R.fl 0 1 n k) := by
  have hn0 : (0 : ℝ) < n := by exact_mod_cast (Nat.zero_le k).trans_lt hk
  unfold gridPoint
  rw [sub_zero, R.one, zero_sub, hneg, R.one, neg_div, hneg, mul_neg, hneg, add_zero, hid,
    neg_add_eq_sub]
  have h1 := (R.bounds (show (0 : ℝ) ≤ 1 / n by positivity)).2
  have h0 : 0 ≤ R.fl (1 / n) := R.nonneg (by positivity)
  refine ⟨R.nonneg (by positivity), ?_, rfl⟩
  have hk1 : (k : ℝ) ≤ n - 1 := by
    have : (k : ℝ) + 1 ≤ n := by exact_mod_cast hk
    linarith
  have h2 : k * R.fl (1 / n) ≤ 1 := by
    calc k * R.fl (1 / n) ≤ (n - 1) * ((1 + 1 / 2 ^ 53) * (1 / n)) :=
          mul_le_mul hk1 h1 h0 (by have := Nat.cast_nonneg (α := ℝ) k; linarith)
      _ = (n + (n - 1) / 2 ^ 53 - 1) / n := by field_simp; ring
      _ ≤ 1 := by
          rw [div_le_one hn0]
          have : ((n : ℝ) - 1) / 2 ^ 53 ≤ 1 := by rw [div_le_one (by norm_num)]; linarith
          linarith
  have := R.mono h2
  rwa [R.one] at this

/-! ## The parts of a window -/

/-- The rising part. -/
noncomputable def riseFl (fl P : ℝ → ℝ) (a b : ℝ) (n : ℕ) : List (ℝ × ℝ) :=
  (List.range n).map fun k => (gridPoint fl a b n k, P (gridPoint fl 0 1 n k))

/-- The falling part without the last point. -/
noncomputable def fallFl (fl P : ℝ → ℝ) (a b : ℝ) (n : ℕ) : List (ℝ × ℝ) :=
  (List.range n).map fun k => (gridPoint fl a b n k, P (gridPoint fl 1 0 n k))

theorem window_parts (fl P : ℝ → ℝ) (rnd : ℝ → ℤ) (dz a b c : ℝ) :
    windowFl fl P rnd dz a b c = riseFl fl P a b (gridSizeFl fl rnd dz a b - 1) ++
      (fallFl fl P b c (gridSizeFl fl rnd dz b c - 1) ++ [(c, P 0)]) := by
  have h := gridSizeFl_ge fl rnd dz b c
  unfold windowFl
  simp only
  obtain ⟨m, hm⟩ : ∃ m, gridSizeFl fl rnd dz b c = m + 1 := ⟨_, (Nat.sub_add_cancel (by omega)).symm⟩
  rw [hm, linspaceFl_succ, linspaceFl_succ, Nat.add_sub_cancel, List.map_append,
    List.zip_append (by simp [linspaceOpenFl]), List.zip_append (by simp [linspaceOpenFl])]
  congr 1
  · unfold riseFl linspaceOpenFl gridPoint
    rw [List.map_map, List.zip_map']
    rfl
  · congr 1
    unfold fallFl linspaceOpenFl gridPoint
    rw [List.map_map, List.zip_map']
    rfl

/-- What is asked of a profile. -/
structure Profile (R : Rounding) (P : ℝ → ℝ) (e Y : ℝ) : Prop where
  zero : P 0 = 0
  one : P 1 = 1
  range : ∀ t, 0 ≤ t → t ≤ 1 → 0 ≤ P t ∧ P t ≤ Y
  sum : ∀ t, 0 ≤ t → t ≤ 1 → |P (R.fl (1 - t)) + P t - 1| ≤ e

section Sum

variable {R : Rounding} {P : ℝ → ℝ} {e Y : ℝ} {rnd : ℝ → ℤ} {dz a b c d : ℝ}

theorem riseFl_eq (hP : Profile R P e Y) (h : Fine R.fl rnd dz a b) :
    ∃ l, riseFl R.fl P a b (gridSizeFl R.fl rnd dz a b - 1) = (a, 0) :: l := by
  have h1 := gridSizeFl_ge R.fl rnd dz a b
  obtain ⟨m, hm⟩ : ∃ m, gridSizeFl R.fl rnd dz a b - 1 = m + 1 := ⟨_, (Nat.sub_add_cancel (by omega)).symm⟩
  unfold riseFl
  rw [hm, List.range_succ_eq_map, List.map_cons, gridPoint_zero R _ h.left,
    gridPoint_zero R _ R.zero, hP.zero]
  exact ⟨_, rfl⟩

theorem fallFl_eq (hP : Profile R P e Y) (h : Fine R.fl rnd dz a b) :
    ∃ l, fallFl R.fl P a b (gridSizeFl R.fl rnd dz a b - 1) = (a, 1) :: l := by
  have h1 := gridSizeFl_ge R.fl rnd dz a b
  obtain ⟨m, hm⟩ : ∃ m, gridSizeFl R.fl rnd dz a b - 1 = m + 1 := ⟨_, (Nat.sub_add_cancel (by omega)).symm⟩
  unfold fallFl
  rw [hm, List.range_succ_eq_map, List.map_cons, gridPoint_zero R _ h.left,
    gridPoint_zero R _ R.one, hP.one]
  exact ⟨_, rfl⟩

theorem fst_riseFl (fl P : ℝ → ℝ) (a b : ℝ) (n : ℕ) :
    (riseFl fl P a b n).map Prod.fst = linspaceOpenFl fl a b n := by
  simp [riseFl, linspaceOpenFl, gridPoint, Function.comp_def]

theorem fst_fallFl (fl P : ℝ → ℝ) (a b : ℝ) (n : ℕ) :
    (fallFl fl P a b n).map Prod.fst = linspaceOpenFl fl a b n := by
  simp [fallFl, linspaceOpenFl, gridPoint, Function.comp_def]

/-- Each part is increasing and ends before the next node. -/
theorem part_inc (h : Fine R.fl rnd dz a b) {l : List (ℝ × ℝ)}
    (hl : l.map Prod.fst = linspaceOpenFl R.fl a b (gridSizeFl R.fl rnd dz a b - 1)) :
    Inc l ∧ ∀ k ∈ l, k.1 < b := by
  have := grid_increasing R h
  rw [← hl, List.pairwise_append, List.pairwise_map] at this
  exact ⟨this.1, fun k hk => this.2.2 k.1 (List.mem_map_of_mem hk) b (by simp)⟩

theorem fall_inc (hP : Profile R P e Y) (h : Fine R.fl rnd dz b c) (v : ℝ) :
    Inc (fallFl R.fl P b c (gridSizeFl R.fl rnd dz b c - 1) ++ [(c, v)]) ∧
      ∀ k ∈ fallFl R.fl P b c (gridSizeFl R.fl rnd dz b c - 1) ++ [(c, v)], b ≤ k.1 := by
  obtain ⟨h1, h2⟩ := part_inc h (fst_fallFl R.fl P b c _)
  have h3 : Inc (fallFl R.fl P b c (gridSizeFl R.fl rnd dz b c - 1) ++ [(c, v)]) := by
    unfold Inc
    rw [List.pairwise_append]
    refine ⟨h1, by simp, fun k hk k' hk' => ?_⟩
    simp only [List.mem_singleton] at hk'
    subst hk'
    exact h2 k hk
  refine ⟨h3, ?_⟩
  obtain ⟨l, hl⟩ := fallFl_eq hP h
  rw [hl] at h3 ⊢
  intro k hk
  rw [List.cons_append, List.mem_cons] at hk
  rcases hk with rfl | hk
  · exact le_rfl
  · exact ((List.pairwise_cons.1 h3).1 k hk).le

theorem window_inc (hP : Profile R P e Y) (h : Fine R.fl rnd dz a b) (h' : Fine R.fl rnd dz b c) :
    Inc (windowFl R.fl P rnd dz a b c) := by
  rw [window_parts]
  obtain ⟨h1, h2⟩ := part_inc h (fst_riseFl R.fl P a b _)
  obtain ⟨h3, h4⟩ := fall_inc hP h' (P 0)
  unfold Inc
  rw [List.pairwise_append]
  exact ⟨h1, h3, fun k hk k' hk' => (h2 k hk).trans_le (h4 k' hk')⟩

/-- The support of a window. -/
theorem eval_support (hP : Profile R P e Y) (h : Fine R.fl rnd dz a b) (x : ℝ) :
    evalFl R.fl (windowFl R.fl P rnd dz a b c) x = if x < a then 0 else if c < x then 0 else
      interpInFl R.fl (windowFl R.fl P rnd dz a b c) x := by
  have h1 : (windowFl R.fl P rnd dz a b c).head? = some (a, 0) := by
    obtain ⟨l, hl⟩ := riseFl_eq hP h
    rw [window_parts, hl]
    rfl
  have h2 : (windowFl R.fl P rnd dz a b c).getLast? = some (c, P 0) := by
    rw [window_parts, ← List.append_assoc]
    simp
  unfold evalFl
  rw [h1, h2]

theorem eval_left (hP : Profile R P e Y) (h : Fine R.fl rnd dz a b) (h' : Fine R.fl rnd dz b c)
    {x : ℝ} (hx : x ≤ a) : evalFl R.fl (windowFl R.fl P rnd dz a b c) x = 0 := by
  rw [eval_support hP h]
  split_ifs with c1 c2
  · rfl
  · rfl
  · have hxa : x = a := le_antisymm hx (not_lt.1 c1)
    have hi := window_inc hP h h'
    obtain ⟨l, hl⟩ := riseFl_eq hP h
    rw [window_parts, hl, List.cons_append] at hi ⊢
    have := interp_stop R.fl (F := []) (q := (a, 0)) (x := x) hx (List.pairwise_cons.1 hi).1
      (Or.inr hxa)
    rw [List.nil_append] at this
    rw [this]
    rfl

theorem eval_right (hP : Profile R P e Y) (h : Fine R.fl rnd dz a b) (h' : Fine R.fl rnd dz b c)
    {x : ℝ} (hx : c ≤ x) : evalFl R.fl (windowFl R.fl P rnd dz a b c) x = 0 := by
  rw [eval_support hP h]
  split_ifs with c1 c2
  · rfl
  · rfl
  · have hi := window_inc hP h h'
    rw [window_parts, ← List.append_assoc] at hi ⊢
    rw [interp_skip R.fl (G := [(c, P 0)]) (g := (c, P 0)) (fun k hk =>
      (((List.pairwise_append.1 hi).2.2 k hk (c, P 0) (by simp)).le.trans hx)) rfl hx]
    exact hP.zero

theorem eval_middle (hP : Profile R P e Y) (h : Fine R.fl rnd dz a b) (h' : Fine R.fl rnd dz b c) :
    evalFl R.fl (windowFl R.fl P rnd dz a b c) b = 1 := by
  have hab := h.lt
  have hbc := h'.lt
  rw [eval_support hP h, if_neg (not_lt.2 hab.le), if_neg (not_lt.2 hbc.le), window_parts]
  obtain ⟨h1, h2⟩ := part_inc h (fst_riseFl R.fl P a b _)
  obtain ⟨h3, -⟩ := fall_inc hP h' (P 0)
  obtain ⟨l, hl⟩ := fallFl_eq hP h'
  rw [hl, List.cons_append] at h3 ⊢
  rw [interp_skip R.fl (g := (b, 1)) (fun k hk => (h2 k hk).le) rfl le_rfl]
  have := interp_stop R.fl (F := []) (q := (b, 1)) (x := b) le_rfl (List.pairwise_cons.1 h3).1
    (Or.inr rfl)
  rw [List.nil_append] at this
  rw [this]
  rfl

/-- Two neighbours. -/
theorem adjacent_sum (hid : ∀ x, R.fl (R.fl x) = R.fl x) (hneg : ∀ x, R.fl (-x) = -R.fl x)
    (hP : Profile R P e Y) (he : 0 ≤ e) (hY : 1 ≤ Y) (h1 : Fine R.fl rnd dz a b)
    (h2 : Fine R.fl rnd dz b c) (h3 : Fine R.fl rnd dz c d) {x : ℝ} (hb : b ≤ x) (hc : x ≤ c) :
    |evalFl R.fl (windowFl R.fl P rnd dz a b c) x + evalFl R.fl (windowFl R.fl P rnd dz b c d) x -
      1| ≤ 26 / 2 ^ 53 * Y + e := by
  rw [eval_support hP h1, if_neg (by linarith [h1.lt]), if_neg (by linarith),
    eval_support hP h2, if_neg (by linarith), if_neg (by linarith [h3.lt]), window_parts,
    window_parts]
  obtain ⟨l, hl⟩ := fallFl_eq hP h2
  have hr := part_inc h1 (fst_riseFl R.fl P a b _)
  rw [interp_skip R.fl (g := (b, 1)) (fun k hk => ((hr.2 k hk).le.trans hb)) (by rw [hl]; rfl) hb]
  obtain ⟨l', hl'⟩ := fallFl_eq hP h3
  have hf := (fall_inc hP h3 (P 0)).1
  rw [hl', List.cons_append] at hf ⊢
  obtain ⟨l'', hl''⟩ := riseFl_eq hP h2
  rw [interp_stop R.fl (F := riseFl R.fl P b c _) (q := (c, 1)) hc (List.pairwise_cons.1 hf).1
    (Or.inl (by rw [hl'']; simp))]
  refine interp_sum R (by linarith) (fall_inc hP h2 (P 0)).1 (by simp) ?_ ?_
  · refine List.rel_append ?_ (.cons ⟨rfl, ?_, ?_, ?_⟩ .nil)
    · unfold fallFl riseFl
      rw [List.forall₂_map_left_iff, List.forall₂_map_right_iff, List.forall₂_same]
      intro k hk
      have hn : ((gridSizeFl R.fl rnd dz b c - 1 : ℕ) : ℝ) ≤ 2 ^ 53 := by
        have := h2.step
        have hcpos : 0 < c := h2.nonneg.trans_lt h2.lt
        have h5 : 2 ^ 53 * (c - b) ≤ 2 ^ 53 * c := by
          have := h2.nonneg
          gcongr
          linarith
        have h6 : 32 * ((gridSizeFl R.fl rnd dz b c - 1 : ℕ) : ℝ) ≤ 2 ^ 53 :=
          le_of_mul_le_mul_right (this.trans h5) hcpos
        have h7 : (0 : ℝ) ≤ ((gridSizeFl R.fl rnd dz b c - 1 : ℕ) : ℝ) := Nat.cast_nonneg _
        linarith
      obtain ⟨u1, u2, u3⟩ := unit_points R hid hneg (List.mem_range.1 hk) hn
      refine ⟨rfl, ?_, ?_, hP.range _ u1 u2⟩
      · simp only
        rw [u3]
        exact hP.sum _ u1 u2
      · simp only
        rw [u3]
        refine hP.range _ (R.nonneg (by linarith)) ?_
        have := R.mono (show 1 - gridPoint R.fl 0 1 (gridSizeFl R.fl rnd dz b c - 1) k ≤ 1 by linarith)
        rwa [R.one] at this
    · simp [hP.zero, he]
    · simp only [hP.zero]
      constructor <;> linarith
    · constructor <;> simp only <;> linarith
  · intro k hk
    rw [hl] at hk
    simp only [List.cons_append, List.head?_cons, Option.some.injEq] at hk
    subst hk
    exact hb

/-- Neighbouring nodes are far enough from each other. -/
def FineGrid (fl : ℝ → ℝ) (rnd : ℝ → ℤ) (dz : ℝ) : List ℝ → Prop
  | a :: b :: l => Fine fl rnd dz a b ∧ FineGrid fl rnd dz (b :: l)
  | _ => True

theorem windowsFl_cons (fl P : ℝ → ℝ) (rnd : ℝ → ℤ) (dz a b c : ℝ) (l : List ℝ) :
    windowsFl fl P rnd dz (a :: b :: c :: l) =
      windowFl fl P rnd dz a b c :: windowsFl fl P rnd dz (b :: c :: l) := by
  simp [windowsFl, triples]

/-- Windows beyond the redshift. -/
theorem windows_beyond (hP : Profile R P e Y) : ∀ {l : List ℝ} {x : ℝ}, FineGrid R.fl rnd dz l →
    (∀ a, l.head? = some a → x ≤ a) →
    ((windowsFl R.fl P rnd dz l).map fun w => evalFl R.fl w x).sum = 0
  | [], _, _, _ => by simp [windowsFl, triples]
  | [_], _, _, _ => by simp [windowsFl, triples]
  | [_, _], _, _, _ => by simp [windowsFl, triples]
  | a :: b :: c :: l, x, h, hx => by
    rw [windowsFl_cons, List.map_cons, List.sum_cons, eval_left hP h.1 h.2.1 (hx a rfl),
      windows_beyond hP h.2 (by
        intro b' hb'
        simp only [List.head?_cons, Option.some.injEq] at hb'
        subst hb'
        exact (hx a rfl).trans h.1.lt.le), add_zero]

theorem windows_sum (hid : ∀ x, R.fl (R.fl x) = R.fl x) (hneg : ∀ x, R.fl (-x) = -R.fl x)
    (hP : Profile R P e Y) (he : 0 ≤ e) (hY : 1 ≤ Y) : ∀ {l : List ℝ} {x : ℝ}, 3 ≤ l.length →
    FineGrid R.fl rnd dz l → l[1]! ≤ x → x ≤ l[l.length - 2]! →
    |((windowsFl R.fl P rnd dz l).map fun w => evalFl R.fl w x).sum - 1| ≤ 26 / 2 ^ 53 * Y + e
  | [], _, h, _, _, _ => by simp at h
  | [_], _, h, _, _, _ => by simp at h
  | [_, _], _, h, _, _, _ => by simp at h
  | [a, b, c], x, _, h, h1, h2 => by
    have hx : x = b := le_antisymm (by simpa using h2) (by simpa using h1)
    subst hx
    rw [windowsFl_cons, List.map_cons, List.sum_cons, eval_middle hP h.1 h.2.1]
    have : 0 ≤ 26 / 2 ^ 53 * Y + e := by positivity
    simpa [windowsFl, triples] using this
  | a :: b :: c :: d :: l, x, _, h, h1, h2 => by
    have hb : b ≤ x := by simpa using h1
    rw [windowsFl_cons, List.map_cons, List.sum_cons]
    rcases le_or_gt x c with hc | hc
    · rw [windowsFl_cons, List.map_cons, List.sum_cons, windows_beyond hP h.2.2 (by
        intro c' hc'
        simp only [List.head?_cons, Option.some.injEq] at hc'
        subst hc'
        exact hc), add_zero]
      exact adjacent_sum hid hneg hP he hY h.1 h.2.1 h.2.2.1 hb hc
    · rw [eval_right hP h.1 h.2.1 hc.le, zero_add]
      refine windows_sum hid hneg hP he hY (by simp) h.2 (by simpa using hc.le) ?_
      simpa using h2

end Sum

/-! ## The profiles -/

theorem linear_profile_fl (R : Rounding) : Profile R id (1 / 2 ^ 53) 1 where
  zero := rfl
  one := rfl
  range := fun _ h1 h2 => ⟨h1, h2⟩
  sum := by
    intro t h1 h2
    have := R.error (1 - t)
    simp only [id]
    have e : R.fl (1 - t) + t - 1 = R.fl (1 - t) - (1 - t) := by ring
    rw [e]
    refine this.trans ?_
    gcongr
    rw [abs_le]; constructor <;> linarith

/-- The error of the cubic profile. -/
theorem cubic_error (R : Rounding) {u : ℝ} (h0 : 0 ≤ u) (h1 : u ≤ 1) :
    |cubicFl R.fl u - u ^ 2 * (3 - 2 * u)| ≤ 12 / 2 ^ 53 := by
  have hu2 : u ^ 2 ≤ 1 := by nlinarith
  have a1 : |R.fl (u ^ 2) - u ^ 2| ≤ 1 / 2 ^ 53 := (R.error _).trans (by
    rw [abs_of_nonneg (by positivity)]; gcongr)
  have a2 : |R.fl (2 * u) - 2 * u| ≤ 2 / 2 ^ 53 := (R.error _).trans (by
    rw [abs_of_nonneg (by positivity)]; gcongr; linarith)
  unfold cubicFl
  generalize R.fl (u ^ 2) = A at *
  generalize R.fl (2 * u) = t at *
  have b1 : |3 - t - (3 - 2 * u)| ≤ 2 / 2 ^ 53 := by
    have e : 3 - t - (3 - 2 * u) = -(t - 2 * u) := by ring
    rw [e, abs_neg]; exact a2
  have b2 : |3 - t| ≤ 4 := by
    rw [abs_le] at b1 ⊢
    have : (2 / 2 ^ 53 : ℝ) ≤ 1 := by norm_num
    constructor <;> linarith
  have b3 : |R.fl (3 - t) - (3 - 2 * u)| ≤ 6 / 2 ^ 53 := by
    have e : R.fl (3 - t) - (3 - 2 * u) = (R.fl (3 - t) - (3 - t)) + (3 - t - (3 - 2 * u)) := by ring
    rw [e]
    refine (abs_add_le _ _).trans ?_
    have h := R.error (3 - t)
    have h' : |3 - t| / 2 ^ 53 ≤ 4 / 2 ^ 53 := by gcongr
    have e2 : (6 / 2 ^ 53 : ℝ) = 4 / 2 ^ 53 + 2 / 2 ^ 53 := by norm_num
    linarith
  generalize R.fl (3 - t) = B at *
  have c0 : 0 ≤ u ^ 2 * (3 - 2 * u) := mul_nonneg (by positivity) (by linarith)
  have c1 : u ^ 2 * (3 - 2 * u) ≤ 1 := by nlinarith [sq_nonneg (u - 1)]
  have c2 : |A * B - u ^ 2 * (3 - 2 * u)| ≤ 10 / 2 ^ 53 := by
    have e : A * B - u ^ 2 * (3 - 2 * u) = (A - u ^ 2) * B + u ^ 2 * (B - (3 - 2 * u)) := by ring
    rw [e]
    refine (abs_add_le _ _).trans ?_
    rw [abs_mul, abs_mul, abs_of_nonneg (sq_nonneg u)]
    have hB : |B| ≤ 4 := by
      rw [abs_le] at b3 ⊢
      have : (6 / 2 ^ 53 : ℝ) ≤ 1 := by norm_num
      constructor <;> linarith
    have h1 : |A - u ^ 2| * |B| ≤ 1 / 2 ^ 53 * 4 := by gcongr
    have h2 : u ^ 2 * |B - (3 - 2 * u)| ≤ 1 * (6 / 2 ^ 53) := by gcongr
    refine (add_le_add h1 h2).trans (by norm_num)
  have c3 : |A * B| ≤ 2 := by
    have e : A * B = (A * B - u ^ 2 * (3 - 2 * u)) + u ^ 2 * (3 - 2 * u) := by ring
    rw [e]
    refine (abs_add_le _ _).trans ?_
    rw [abs_of_nonneg c0]
    have : (10 / 2 ^ 53 : ℝ) ≤ 1 := by norm_num
    linarith
  have e : R.fl (A * B) - u ^ 2 * (3 - 2 * u) = (R.fl (A * B) - A * B) +
    (A * B - u ^ 2 * (3 - 2 * u)) := by ring
  rw [e]
  refine (abs_add_le _ _).trans ?_
  have h := R.error (A * B)
  have h' : |A * B| / 2 ^ 53 ≤ 2 / 2 ^ 53 := by gcongr
  have e2 : (12 / 2 ^ 53 : ℝ) = 2 / 2 ^ 53 + 10 / 2 ^ 53 := by norm_num
  linarith

theorem cubic_profile_fl (R : Rounding) : Profile R (cubicFl R.fl) (26 / 2 ^ 53) (1 + 12 / 2 ^ 53) where
  zero := by simp [cubicFl, R.zero]
  one := by
    have h2 := R.exact 8 (by norm_num)
    norm_num at h2
    unfold cubicFl
    norm_num [R.one, h2]
  range := by
    intro t h0 h1
    have h := abs_le.1 (cubic_error R h0 h1)
    have c1 : t ^ 2 * (3 - 2 * t) ≤ 1 := by nlinarith [sq_nonneg (t - 1)]
    refine ⟨?_, by linarith [h.2]⟩
    unfold cubicFl
    refine R.nonneg (mul_nonneg (R.nonneg (by positivity)) (R.nonneg ?_))
    have := (R.bounds (show 0 ≤ 2 * t by linarith)).2
    have : (1 + 1 / 2 ^ 53) * (2 * t) ≤ 3 := by
      norm_num
      linarith
    linarith
  sum := by
    intro t h0 h1
    have hs := R.error (1 - t)
    have hs0 : 0 ≤ R.fl (1 - t) := R.nonneg (by linarith)
    have hs1 : R.fl (1 - t) ≤ 1 := by
      have := R.mono (show 1 - t ≤ 1 by linarith)
      rwa [R.one] at this
    have hs' : |R.fl (1 - t) - (1 - t)| ≤ 1 / 2 ^ 53 := hs.trans (by
      rw [abs_of_nonneg (by linarith)]; gcongr; linarith)
    have e1 := cubic_error R h0 h1
    have e2 := cubic_error R hs0 hs1
    generalize R.fl (1 - t) = s at *
    have e3 : |s ^ 2 * (3 - 2 * s) - (1 - t) ^ 2 * (3 - 2 * (1 - t))| ≤ 2 / 2 ^ 53 := by
      set w := 1 - t with hw
      have hw0 : 0 ≤ w := by linarith
      have hw1 : w ≤ 1 := by linarith
      have e : s ^ 2 * (3 - 2 * s) - w ^ 2 * (3 - 2 * w) =
        (s - w) * (3 * (s + w) - 2 * (s ^ 2 + s * w + w ^ 2)) := by ring
      rw [e, abs_mul]
      have hq : |3 * (s + w) - 2 * (s ^ 2 + s * w + w ^ 2)| ≤ 2 := by
        rw [abs_le]
        constructor
        · nlinarith [mul_nonneg hs0 hw0, mul_nonneg (sub_nonneg.2 hs1) (sub_nonneg.2 hw1)]
        · nlinarith [sq_nonneg (s - w), sq_nonneg (s + w - 1)]
      calc |s - w| * |3 * (s + w) - 2 * (s ^ 2 + s * w + w ^ 2)| ≤ 1 / 2 ^ 53 * 2 := by gcongr
        _ = _ := by norm_num
    have e : cubicFl R.fl s + cubicFl R.fl t - 1 = (cubicFl R.fl s - s ^ 2 * (3 - 2 * s)) +
      (cubicFl R.fl t - t ^ 2 * (3 - 2 * t)) +
      (s ^ 2 * (3 - 2 * s) - (1 - t) ^ 2 * (3 - 2 * (1 - t))) := by ring
    rw [e]
    refine (abs_add_le _ _).trans ?_
    have := abs_add_le (cubicFl R.fl s - s ^ 2 * (3 - 2 * s)) (cubicFl R.fl t - t ^ 2 * (3 - 2 * t))
    have e4 : (26 / 2 ^ 53 : ℝ) = 12 / 2 ^ 53 + 12 / 2 ^ 53 + 2 / 2 ^ 53 := by norm_num
    linarith

/-! ## C160 -/

/-- **C160**, linear windows: between the second and the second-to-last node the windows add up to
one, up to rounding errors. -/
theorem linear_windows_fl_sum (R : Rounding) (hid : ∀ x, R.fl (R.fl x) = R.fl x)
    (hneg : ∀ x, R.fl (-x) = -R.fl x) {rnd : ℝ → ℤ} {dz x : ℝ} {zgrid : List ℝ}
    (h : 3 ≤ zgrid.length) (hg : FineGrid R.fl rnd dz zgrid) (h1 : zgrid[1]! ≤ x)
    (h2 : x ≤ zgrid[zgrid.length - 2]!) :
    |((windowsFl R.fl id rnd dz zgrid).map fun w => evalFl R.fl w x).sum - 1| ≤ 27 / 2 ^ 53 := by
  refine (windows_sum hid hneg (linear_profile_fl R) (by norm_num) le_rfl h hg h1 h2).trans ?_
  norm_num

/-- **C160**, cubic windows. -/
theorem cubic_windows_fl_sum (R : Rounding) (hid : ∀ x, R.fl (R.fl x) = R.fl x)
    (hneg : ∀ x, R.fl (-x) = -R.fl x) {rnd : ℝ → ℤ} {dz x : ℝ} {zgrid : List ℝ}
    (h : 3 ≤ zgrid.length) (hg : FineGrid R.fl rnd dz zgrid) (h1 : zgrid[1]! ≤ x)
    (h2 : x ≤ zgrid[zgrid.length - 2]!) :
    |((windowsFl R.fl (cubicFl R.fl) rnd dz zgrid).map fun w => evalFl R.fl w x).sum - 1| ≤
      53 / 2 ^ 53 := by
  refine (windows_sum hid hneg (cubic_profile_fl R) (by norm_num) (by norm_num) h hg h1 h2).trans ?_
  norm_num

/-- **C160**, at the nodes: in the node of a window its value is one and all other windows are zero,
without any error. -/
theorem windows_fl_nodes {R : Rounding} {P : ℝ → ℝ} {e Y : ℝ} {rnd : ℝ → ℤ} {dz a b c x : ℝ}
    (hP : Profile R P e Y) (h : Fine R.fl rnd dz a b) (h' : Fine R.fl rnd dz b c) :
    evalFl R.fl (windowFl R.fl P rnd dz a b c) b = 1 ∧
    (x ≤ a ∨ c ≤ x → evalFl R.fl (windowFl R.fl P rnd dz a b c) x = 0) :=
  ⟨eval_middle hP h h', fun hx => hx.elim (eval_left hP h h') (eval_right hP h h')⟩

/-- The hypotheses hold for instance in double precision, here with two points for every interval. -/
example : FineGrid roundDouble (fun _ => 2) (1 / 10) [0, 1, 2, 3] := by
  have e : ∀ k : ℤ, |k| ≤ 2 ^ 50 → roundDouble k = k := by
    intro k hk
    have := double.exact (4 * k) (by rw [abs_mul]; norm_num at hk ⊢; omega)
    have h2 : (((4 * k : ℤ) : ℝ) / 4) = k := by push_cast; ring
    rw [h2] at this
    exact this
  have hg : ∀ a b, gridSizeFl roundDouble (fun _ => 2) (1 / 10) a b = 2 := fun _ _ => by
    rfl
  have e0 : roundDouble 0 = 0 := by simpa using e 0 (by norm_num)
  have e1 : roundDouble 1 = 1 := by simpa using e 1 (by norm_num)
  have e2 : roundDouble 2 = 2 := by simpa using e 2 (by norm_num)
  have e3 : roundDouble 3 = 3 := by simpa using e 3 (by norm_num)
  refine ⟨⟨?_, ?_, ?_, ?_, ?_⟩, ⟨?_, ?_, ?_, ?_, ?_⟩, ⟨?_, ?_, ?_, ?_, ?_⟩, trivial⟩ <;>
    first
    | assumption
    | (rw [hg]; norm_num)
    | norm_num

end Glass.Shells
