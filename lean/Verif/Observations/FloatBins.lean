import Verif.Shells.FloatProducts
import Verif.Observations.ZbinsProps
import Verif.Galaxies.FloatSampling

/-!
# Bins of equal density in floating point (C163)

The edges of the bins are computed from a rounded cumulative distribution, and the shares of the bins are
those of the exact one.
-/

namespace Glass.Obs

open Glass Glass.Num Glass.Spectra Glass.Lensing Glass.Galaxies Glass.Shells

/-! ## Model -/

/-- `xp.linspace(0, 1, n + 1)` with every operation rounded: multiples of a rounded step, and the last
number is one. -/
noncomputable def linspaceFl (fl : ℝ → ℝ) (n : ℕ) : List ℝ :=
  (List.range (n + 1)).map fun i : ℕ => if i = n then 1 else fl (i * fl (1 / n))

/-- `observations.py:272-306` `equal_dens_zbins` for arrays of the same length, with every operation
rounded. -/
noncomputable def equalDensZbinsFl (fl : ℝ → ℝ) (ks : List (ℝ × ℝ)) (n : ℕ) : List (ℝ × ℝ) :=
  pairwise ((linspaceFl fl n).map (inverseCdfFl fl ks))

/-! ## Without rounding -/

/-- **C163**: without rounding, this is the model of C71. -/
theorem equal_dens_fl_real {z nz : List ℝ} (hl : z.length = nz.length) (hz : z ≠ []) {n : ℕ} (hn : 0 < n) :
    equalDensZbins z nz n = .ok (equalDensZbinsFl id (z.zip nz) n) := by
  have hn' : (n : ℝ) ≠ 0 := by exact_mod_cast hn.ne'
  simp only [equalDensZbins, matchNz, if_pos hl, bind, Except.bind, if_neg hz, equalDensZbinsFl]
  congr 3
  · funext u
    exact (inverse_cdf_real _ _).symm
  · unfold linspace linspaceFl
    apply List.map_congr_left
    intro i _
    simp only [Nat.add_sub_cancel, id]
    split_ifs with h
    · subst h
      field_simp
      ring
    · ring

/-! ## Interpolated functions -/

/-- Steep nowhere. -/
theorem interpIn_steep {M : ℝ} (hM : 0 ≤ M) : ∀ {ks : List (ℝ × ℝ)} {x y : ℝ}, Inc ks →
    ks.Pairwise (fun k k' => |k'.2 - k.2| ≤ M * (k'.1 - k.1)) → (∀ k ∈ ks.head?, k.1 ≤ x) → x ≤ y →
    |interpIn ks y - interpIn ks x| ≤ M * (y - x)
  | [], x, y, _, _, _, h => by
    simpa [interpIn] using mul_nonneg hM (sub_nonneg.2 h)
  | [_], x, y, _, _, _, h => by
    simpa [interpIn] using mul_nonneg hM (sub_nonneg.2 h)
  | k :: k' :: ks, x, y, hi, hs, h0, hxy => by
    have hlt := hi.lt (k' := k') (by simp)
    have hk : |k'.2 - k.2| ≤ M * (k'.1 - k.1) := (List.pairwise_cons.1 hs).1 k' (by simp)
    have hkx : k.1 ≤ x := h0 k (by simp)
    have hs' := (List.pairwise_cons.1 hs).2
    have hd : 0 < k'.1 - k.1 := sub_pos.2 hlt
    have hslope : |(k'.2 - k.2) / (k'.1 - k.1)| ≤ M := by
      rw [abs_div, abs_of_pos hd, div_le_iff₀ hd]
      exact hk
    have lin : ∀ s t : ℝ, s ≤ t → |(k.2 + (k'.2 - k.2) / (k'.1 - k.1) * (t - k.1)) -
        (k.2 + (k'.2 - k.2) / (k'.1 - k.1) * (s - k.1))| ≤ M * (t - s) := by
      intro s t hst
      have e : (k.2 + (k'.2 - k.2) / (k'.1 - k.1) * (t - k.1)) -
        (k.2 + (k'.2 - k.2) / (k'.1 - k.1) * (s - k.1)) = (k'.2 - k.2) / (k'.1 - k.1) * (t - s) := by ring
      rw [e, abs_mul, abs_of_nonneg (sub_nonneg.2 hst)]
      exact mul_le_mul_of_nonneg_right hslope (sub_nonneg.2 hst)
    by_cases hy : y < k'.1
    · rw [interpIn_cons_lt hy, interpIn_cons_lt (lt_of_le_of_lt hxy hy)]
      exact lin x y hxy
    · have hy := not_lt.1 hy
      rw [interpIn_cons_ge hy]
      by_cases hx : x < k'.1
      · have h1 := interpIn_steep hM (x := k'.1) hi.tail hs' (by simp) hy
        rw [interpIn_first hi.tail] at h1
        have h2 := lin x k'.1 hx.le
        have e : k.2 + (k'.2 - k.2) / (k'.1 - k.1) * (k'.1 - k.1) = k'.2 := by
          rw [div_mul_cancel₀ _ hd.ne']; ring
        rw [e] at h2
        rw [interpIn_cons_lt hx]
        have := abs_add_le (interpIn (k' :: ks) y - k'.2)
          (k'.2 - (k.2 + (k'.2 - k.2) / (k'.1 - k.1) * (x - k.1)))
        rw [sub_add_sub_cancel] at this
        have e2 : M * (y - x) = M * (y - k'.1) + M * (k'.1 - x) := by ring
        linarith
      · have hx := not_lt.1 hx
        rw [interpIn_cons_ge hx]
        exact interpIn_steep hM hi.tail hs' (by simpa using hx) hxy

/-- Outside of the points, the function has the values of the outermost ones. -/
theorem interp_clamp {ks : List (ℝ × ℝ)} {a : ℝ × ℝ} (hi : Inc ks) (ha : ks.head? = some a) (x : ℝ) :
    interp none none ks x = interpIn ks (max x a.1) := by
  obtain ⟨b, hb⟩ : ∃ b, ks.getLast? = some b := by
    rcases h : ks.getLast? with _ | b
    · rw [List.getLast?_eq_none_iff] at h
      simp [h] at ha
    · exact ⟨b, rfl⟩
  rcases ks with _ | ⟨k, ks⟩
  · simp at ha
  simp only [List.head?_cons, Option.some.injEq] at ha
  subst ha
  have key : ∀ (l : List (ℝ × ℝ)) (x : ℝ) (c : ℝ × ℝ), Inc l → l.getLast? = some c → c.1 < x →
      interpIn l x = c.2 := by
    intro l
    induction l with
    | nil => intro x c _ hc; simp at hc
    | cons a l ih =>
      intro x c hl hc hx
      rcases l with _ | ⟨b, l⟩
      · simp at hc; rw [← hc]; rfl
      · have hbc : b.1 ≤ c.1 := by
          rcases List.mem_cons.1 (List.mem_of_getLast? (l := b :: l) (by simpa using hc)) with h | h
          · rw [h]
          · exact ((List.pairwise_cons.1 hl.tail).1 c h).le
        rw [interpIn_cons_ge (hbc.trans hx.le)]
        exact ih x c hl.tail (by simpa using hc) hx
  rcases lt_or_ge x k.1 with h1 | h1
  · rw [interp_left h1, max_eq_right h1.le, interpIn_first hi]
    rfl
  · rw [max_eq_left h1]
    rcases lt_or_ge b.1 x with h2 | h2
    · rw [interp_right hb h2 h1, key _ _ _ hi hb h2]
      rfl
    · rw [interp_mid hb h2 h1]

theorem interp_steep {M : ℝ} (hM : 0 ≤ M) {ks : List (ℝ × ℝ)} (hne : ks ≠ []) (hi : Inc ks)
    (hs : ks.Pairwise (fun k k' => |k'.2 - k.2| ≤ M * (k'.1 - k.1))) (x y : ℝ) :
    |interp none none ks y - interp none none ks x| ≤ M * |y - x| := by
  obtain ⟨a, ha⟩ : ∃ a, ks.head? = some a := ⟨_, List.head?_eq_some_head hne⟩
  wlog hxy : x ≤ y generalizing x y
  · rw [abs_sub_comm, abs_sub_comm y x]
    exact this y x (le_of_not_ge hxy)
  rw [interp_clamp hi ha, interp_clamp hi ha]
  refine (interpIn_steep hM hi hs ?_ (max_le_max_right _ hxy)).trans ?_
  · intro k hk
    rw [ha] at hk
    rw [← Option.some.inj (Option.mem_def.1 hk)]
    exact le_max_right _ _
  · refine mul_le_mul_of_nonneg_left ?_ hM
    have := abs_max_sub_max_le_abs y x a.1
    exact (le_abs_self _).trans this

theorem interp_mono {ks : List (ℝ × ℝ)} (hne : ks ≠ []) (hi : Inc ks)
    (hs : ks.Pairwise (fun k k' => k.2 ≤ k'.2)) {x y : ℝ} (hxy : x ≤ y) :
    interp none none ks x ≤ interp none none ks y := by
  obtain ⟨a, ha⟩ : ∃ a, ks.head? = some a := ⟨_, List.head?_eq_some_head hne⟩
  rw [interp_clamp hi ha, interp_clamp hi ha]
  refine interpIn_mono hi hs ?_ (max_le_max_right _ hxy)
  intro k hk
  rw [ha] at hk
  rw [← Option.some.inj (Option.mem_def.1 hk)]
  exact le_max_right _ _

/-- Values that differ little. -/
theorem interpIn_close {ε : ℝ} (hε : 0 ≤ ε) : ∀ {F G : List (ℝ × ℝ)} {x : ℝ}, Inc F →
    List.Forall₂ (fun k k' => k'.1 = k.1 ∧ |k'.2 - k.2| ≤ ε) F G → (∀ k ∈ F.head?, k.1 ≤ x) →
    |interpIn G x - interpIn F x| ≤ ε
  | [], _, _, _, h, _ => by cases h; simpa [interpIn] using hε
  | [_], _, _, _, h, _ => by
    rcases h with _ | ⟨h1, _ | _⟩
    simpa [interpIn] using h1.2
  | k :: k' :: F, _, x, hi, h, h0 => by
    rcases h with _ | ⟨h1, h2⟩
    rename_i l G
    rcases h2 with _ | ⟨h2, h3⟩
    rename_i l' G
    have hlt := hi.lt (k' := k') (by simp)
    have hkx : k.1 ≤ x := h0 k (by simp)
    have hd : 0 < k'.1 - k.1 := sub_pos.2 hlt
    by_cases hx : x < k'.1
    · rw [interpIn_cons_lt hx, interpIn_cons_lt (h2.1 ▸ hx), h1.1, h2.1]
      have e : l.2 + (l'.2 - l.2) / (k'.1 - k.1) * (x - k.1) -
          (k.2 + (k'.2 - k.2) / (k'.1 - k.1) * (x - k.1)) =
          (1 - (x - k.1) / (k'.1 - k.1)) * (l.2 - k.2) + (x - k.1) / (k'.1 - k.1) * (l'.2 - k'.2) := by
        ring
      have t0 : 0 ≤ (x - k.1) / (k'.1 - k.1) := div_nonneg (by linarith) hd.le
      have t1 : (x - k.1) / (k'.1 - k.1) ≤ 1 := by rw [div_le_one hd]; linarith
      generalize (x - k.1) / (k'.1 - k.1) = t at *
      have h1 := abs_le.1 h1.2
      have h2 := abs_le.1 h2.2
      rw [e, abs_le]
      constructor <;> nlinarith
    · have hx := not_lt.1 hx
      rw [interpIn_cons_ge hx, interpIn_cons_ge (h2.1 ▸ hx)]
      exact interpIn_close hε hi.tail (.cons h2 h3) (by simpa using hx)

/-- Rounding errors of interpolation, where points may repeat. -/
theorem interpIn_rounded (R : Rounding) {Y : ℝ} (hY : 0 ≤ Y) : ∀ {ks : List (ℝ × ℝ)} {x : ℝ},
    (∀ k ∈ ks, 0 ≤ k.2 ∧ k.2 ≤ Y) → (∀ k ∈ ks.head?, k.1 ≤ x) →
    |interpInFl R.fl ks x - interpIn ks x| ≤ 13 / 2 ^ 53 * Y
  | [], _, _, _ => by simp only [interpInFl, interpIn, sub_self, abs_zero]; positivity
  | [k], _, _, _ => by simp only [interpInFl, interpIn, sub_self, abs_zero]; positivity
  | k :: k' :: ks, x, hb, hx => by
    have hkx : k.1 ≤ x := hx k (by simp)
    have h1 := hb k (by simp)
    have h2 := hb k' (by simp)
    simp only [interpInFl, interpIn]
    split_ifs with c1 c2
    · subst c2
      rw [sub_self, mul_zero, add_zero, sub_self, abs_zero]; positivity
    · exact cell_error R (hkx.trans_lt c1) hkx c1.le h1.1 h2.1 h1.2 h2.2
    · exact interpIn_rounded R hY (fun j hj => hb j (by simp [hj])) (by simpa using not_lt.1 c1)

/-! ## The cumulative distribution -/

theorem scanl_rel (R : Rounding) : ∀ {l l' : List ℝ} {c c' : ℝ} {m : ℕ}, 0 ≤ c → Rel m c c' →
    List.Forall₂ (fun p p' => 0 ≤ p ∧ Rel m p p') l l' →
    List.Forall₂ (fun p p' => 0 ≤ p ∧ Rel (m + l.length) p p') (l.scanl (· + ·) c)
      (l'.scanl (fun a b => R.fl (a + b)) c')
  | [], _, c, c', m, h0, h, hl => by
    cases hl
    simpa using ⟨h0, h⟩
  | p :: l, _, c, c', m, h0, h, hl => by
    rcases hl with _ | ⟨h1, h2⟩
    rename_i p' l'
    simp only [List.scanl_cons]
    refine .cons ⟨h0, rel_mono (by simp) h⟩ ?_
    have := scanl_rel R (add_nonneg h0 h1.1) (Rel.round R (rel_add h h1.2 h0 h1.1))
      (h2.imp fun a b hab => ⟨hab.1, rel_mono (Nat.le_succ m) hab.2⟩)
    refine this.imp fun a b hab => ⟨hab.1, ?_⟩
    have e : m + (p :: l).length = m + 1 + l.length := by simp; omega
    rw [e]
    exact hab.2

theorem panels_close (R : Rounding) : ∀ {ks : List (ℝ × ℝ)}, ks.Pairwise (fun a b => a.1 < b.1) →
    (∀ k ∈ ks, 0 ≤ k.2) →
    List.Forall₂ (fun p p' => 0 ≤ p ∧ Rel 4 p p')
      (List.zipWith (fun k k' : ℝ × ℝ => (k'.2 + k.2) * 0.5 * (k'.1 - k.1)) ks ks.tail)
      (List.zipWith (fun k k' : ℝ × ℝ =>
        R.fl (R.fl (R.fl (k'.2 + k.2) * 0.5) * R.fl (k'.1 - k.1))) ks ks.tail)
  | [], _, _ => by simp
  | [_], _, _ => by simp
  | k :: k' :: ks, hi, h0 => by
    have ih := panels_close R (ks := k' :: ks) (List.pairwise_cons.1 hi).2
      (fun j hj => h0 j (by simp [hj]))
    have h1 := h0 k (by simp)
    have h2 := h0 k' (by simp)
    have hlt := (List.pairwise_cons.1 hi).1 k' (by simp)
    simp only [List.tail_cons, List.zipWith_cons_cons] at ih ⊢
    refine .cons ⟨?_, ?_⟩ ih
    · have : 0 ≤ k'.1 - k.1 := by linarith
      positivity
    · have a1 := Rel.round R ((Rel.fl R (k'.2 + k.2)).mul (Rel.refl 0.5))
      have a2 := Rel.round R (a1.mul (Rel.fl R (k'.1 - k.1)))
      exact rel_mono (by omega) a2

theorem forall₂_last {α β : Type} {P : α → β → Prop} {l : List α} {l' : List β} (h : List.Forall₂ P l l')
    {x : α} {x' : β} (hx : l.getLast? = some x) (hx' : l'.getLast? = some x') : P x x' := by
  induction h with
  | nil => simp at hx
  | @cons a a' l l' h1 h2 ih =>
    rcases h2 with _ | ⟨h2, h3⟩
    · simp only [List.getLast?_singleton, Option.some.injEq] at hx hx'
      subst hx
      subst hx'
      exact h1
    · exact ih (by simpa using hx) (by simpa using hx')

theorem le_last {l : List ℝ} (h : l.Pairwise (· ≤ ·)) {x L : ℝ} (hL : l.getLast? = some L) (hx : x ∈ l) :
    x ≤ L := by
  have hne : l ≠ [] := by rintro rfl; simp at hx
  have e : l.getLast hne = L := by
    rw [List.getLast?_eq_some_getLast hne] at hL
    exact Option.some.inj hL
  rw [← List.dropLast_append_getLast hne, e] at hx h
  rcases List.mem_append.1 hx with hx | hx
  · exact (List.pairwise_append.1 h).2.2 _ hx _ (by simp)
  · rw [List.mem_singleton.1 hx]

theorem cdf_eq {ks : List (ℝ × ℝ)} (hne : ks ≠ []) :
    cdf ks = (cumulativeTrapezoid ks).map (· / trapezoid ks) := by
  obtain ⟨-, -, hlast, -⟩ := cumulative_trapezoid_spec hne
  simp only [cdf, hlast, Option.getD_some]

/-- The rounded cumulative distribution. -/
theorem cdf_close (R : Rounding) {ks : List (ℝ × ℝ)} (h : IsDistribution ks)
    (hN : 4 * ks.length + 14 ≤ 2 ^ 53) :
    List.Forall₂ (fun c c' : ℝ => |c' - c| ≤ (4 * ks.length + 14 : ℝ) / 2 ^ 53) (cdf ks)
      (cdfFl R.fl ks) := by
  have h2 := h.two_le
  have hne : ks ≠ [] := by rintro rfl; simp at h2
  obtain ⟨-, -, hlast, -⟩ := cumulative_trapezoid_spec hne
  have hmono := cumulative_trapezoid_mono (h.1.imp fun h => h.le) h.2.1
  have hs := scanl_rel R le_rfl (rel_mono (Nat.zero_le 4) (Rel.refl 0)) (panels_close R h.1 h.2.1)
  have hlen : (List.zipWith (fun k k' : ℝ × ℝ => (k'.2 + k.2) * 0.5 * (k'.1 - k.1)) ks ks.tail).length =
      ks.length - 1 := by simp
  rw [hlen] at hs
  change List.Forall₂ _ (cumulativeTrapezoid ks) (cumulativeFl R.fl ks) at hs
  obtain ⟨L, hL⟩ : ∃ L, (cumulativeFl R.fl ks).getLast? = some L := by
    rcases hc : (cumulativeFl R.fl ks).getLast? with _ | L
    · rw [List.getLast?_eq_none_iff] at hc
      rw [hc] at hs
      rw [List.forall₂_nil_right_iff.1 hs] at hlast
      simp at hlast
    · exact ⟨L, rfl⟩
  have hT := (forall₂_last hs hlast hL).2
  rw [cdf_eq hne]
  simp only [cdfFl, hL, Option.getD_some]
  rw [List.forall₂_map_left_iff, List.forall₂_map_right_iff]
  have hle : ∀ x ∈ cumulativeTrapezoid ks, x ≤ trapezoid ks := fun x hx => le_last hmono hlast hx
  clear hL hmono hlast
  generalize cumulativeTrapezoid ks = C at *
  generalize cumulativeFl R.fl ks = C' at *
  induction hs with
  | nil => exact .nil
  | @cons c c' C C' h1 h3 ih =>
    refine .cons ?_ (ih fun x hx => hle x (by simp [hx]))
    have hr := rel_error (rel_mono (k := 2 * ks.length + 7) (by omega) ((h1.2.div hT).round R)) (by omega)
    refine hr.trans ?_
    have hc1 : |c / trapezoid ks| ≤ 1 := by
      rw [abs_of_nonneg (div_nonneg h1.1 h.2.2.le), div_le_one h.2.2]
      exact hle c (by simp)
    calc _ ≤ 2 * ((2 * ks.length + 7 : ℕ) : ℝ) / 2 ^ 53 * 1 := mul_le_mul_of_nonneg_left hc1 (by positivity)
      _ = _ := by push_cast; ring

theorem zip_swap {P : ℝ → ℝ → Prop} {c c' : List ℝ} (h : List.Forall₂ P c c') (z : List ℝ) :
    List.Forall₂ (fun k k' : ℝ × ℝ => k'.1 = k.1 ∧ P k.2 k'.2) ((c.zip z).map Prod.swap)
      ((c'.zip z).map Prod.swap) := by
  induction h generalizing z with
  | nil => simp
  | cons h1 _ ih =>
    rcases z with _ | ⟨x, z⟩
    · simp
    · exact .cons ⟨rfl, h1⟩ (ih z)

/-- The cumulative integral of a bounded function is not steep. -/
theorem scanl_steep {Y : ℝ} : ∀ {ks : List (ℝ × ℝ)} (c : ℝ), ks.Pairwise (fun a b => a.1 < b.1) →
    (∀ k ∈ ks, 0 ≤ k.2 ∧ k.2 ≤ Y) →
    (List.zip (ks.map Prod.fst) ((List.zipWith (fun k k' : ℝ × ℝ => (k'.2 + k.2) * 0.5 * (k'.1 - k.1))
      ks ks.tail).scanl (· + ·) c)).Pairwise (fun k k' => |k'.2 - k.2| ≤ Y * (k'.1 - k.1))
  | [], _, _, _ => by simp
  | [_], _, _, _ => by simp
  | k :: k' :: ks, c, hi, h0 => by
    have h1 := h0 k (by simp)
    have h2 := h0 k' (by simp)
    have hlt := (List.pairwise_cons.1 hi).1 k' (by simp)
    have hp0 : 0 ≤ (k'.2 + k.2) * 0.5 * (k'.1 - k.1) := by
      have : 0 ≤ k'.1 - k.1 := by linarith
      have := h1.1
      have := h2.1
      positivity
    have hp : (k'.2 + k.2) * 0.5 * (k'.1 - k.1) ≤ Y * (k'.1 - k.1) :=
      mul_le_mul_of_nonneg_right (by linarith [h1.2, h2.2]) (by linarith)
    have ih := scanl_steep (ks := k' :: ks) (c + (k'.2 + k.2) * 0.5 * (k'.1 - k.1))
      (List.pairwise_cons.1 hi).2 (fun j hj => h0 j (by simp [hj]))
    simp only [List.tail_cons, List.zipWith_cons_cons, List.map_cons, List.scanl_cons,
      List.zip_cons_cons] at ih ⊢
    obtain ⟨D, hD⟩ : ∃ D : ℝ → List ℝ, ∀ d : ℝ, (List.zipWith (fun k k' : ℝ × ℝ => (k'.2 + k.2) * 0.5 * (k'.1 - k.1))
      (k' :: ks) ks).scanl (· + ·) d = d :: D d := by
      refine ⟨fun d => ((List.zipWith (fun k k' : ℝ × ℝ => (k'.2 + k.2) * 0.5 * (k'.1 - k.1))
      (k' :: ks) ks).scanl (· + ·) d).tail, fun d => ?_⟩
      cases List.zipWith (fun k k' : ℝ × ℝ => (k'.2 + k.2) * 0.5 * (k'.1 - k.1)) (k' :: ks) ks <;>
        simp
    rw [hD] at ih ⊢
    simp only [List.zip_cons_cons] at ih ⊢
    refine List.pairwise_cons.2 ⟨?_, ih⟩
    have hs : |c + (k'.2 + k.2) * 0.5 * (k'.1 - k.1) - c| ≤ Y * (k'.1 - k.1) := by
      rw [add_sub_cancel_left, abs_of_nonneg hp0]
      exact hp
    intro m hm
    rcases List.mem_cons.1 hm with rfl | hm
    · exact hs
    · have hm' := (List.pairwise_cons.1 ih).1 m hm
      simp only at hm'
      have := abs_add_le (m.2 - (c + (k'.2 + k.2) * 0.5 * (k'.1 - k.1)))
        (c + (k'.2 + k.2) * 0.5 * (k'.1 - k.1) - c)
      rw [sub_add_sub_cancel] at this
      have e : Y * (m.1 - k.1) = Y * (m.1 - k'.1) + Y * (k'.1 - k.1) := by ring
      simp only
      linarith

theorem cumulative_steep {ks : List (ℝ × ℝ)} {Y : ℝ} (h : IsDistribution ks) (hY : ∀ k ∈ ks, k.2 ≤ Y) :
    (cumulativeKnots ks).Pairwise (fun k k' => |k'.2 - k.2| ≤ Y / trapezoid ks * (k'.1 - k.1)) := by
  have h2 := h.two_le
  have hne : ks ≠ [] := by rintro rfl; simp at h2
  have e : cumulativeKnots ks = (List.zip (ks.map Prod.fst) (cumulativeTrapezoid ks)).map
      fun k => (k.1, k.2 / trapezoid ks) := by
    have := congrArg (List.map Prod.swap) (cdf_knots hne)
    rw [List.map_map, Prod.swap_swap_eq, List.map_id] at this
    rw [← this, cdf_eq hne, ← List.zip_swap, List.map_map, Prod.swap_swap_eq, List.map_id,
      List.zip_map_right]
    rfl
  rw [e, List.pairwise_map]
  refine (scanl_steep 0 h.1 fun k hk => ⟨h.2.1 k hk, hY k hk⟩).imp fun {k k'} hk => ?_
  simp only
  rw [← sub_div, abs_div, abs_of_pos h.2.2, div_mul_eq_mul_div]
  exact div_le_div_of_nonneg_right hk h.2.2.le

/-! ## C163 -/

/-- The numbers between zero and one. -/
theorem level_error (R : Rounding) {n i : ℕ} (hi : i < n) (hn : n ≤ 2 ^ 50) :
    0 ≤ R.fl (i * R.fl (1 / n)) ∧ R.fl (i * R.fl (1 / n)) < 1 ∧
      |R.fl (i * R.fl (1 / n)) - i / n| ≤ 4 / 2 ^ 53 := by
  have hn0 : (0 : ℝ) < n := by exact_mod_cast (by omega : 0 < n)
  have hr := rel_error (((Rel.refl (i : ℝ)).mul (Rel.fl R (1 / n))).round R) (by norm_num)
  have h0 : 0 ≤ R.fl (i * R.fl (1 / n)) :=
    R.nonneg (mul_nonneg (by positivity) (R.nonneg (by positivity)))
  generalize R.fl (i * R.fl (1 / n)) = x at *
  have hle : (i : ℝ) + 1 ≤ n := by exact_mod_cast hi
  have e : (i : ℝ) * (1 / n) = i / n := by ring
  have hi1 : (i : ℝ) / n ≤ 1 - 1 / n := by
    rw [div_le_iff₀ hn0, sub_mul, one_mul, div_mul_cancel₀ _ hn0.ne']
    linarith
  have hin : 0 ≤ (i : ℝ) / n := by positivity
  rw [e, abs_of_nonneg hin] at hr
  have hinv : (1 : ℝ) / 2 ^ 50 ≤ 1 / n := one_div_le_one_div_of_le hn0 (by exact_mod_cast hn)
  have hinv1 : (0 : ℝ) < 1 / n := by positivity
  have h4 : 2 * ((0 + 1 + 1 : ℕ) : ℝ) / 2 ^ 53 * (i / n) ≤ 4 / 2 ^ 53 * 1 := by
    have e : 2 * ((0 + 1 + 1 : ℕ) : ℝ) / 2 ^ 53 = 4 / 2 ^ 53 := by push_cast; norm_num
    rw [e]
    exact mul_le_mul_of_nonneg_left (by linarith) (by norm_num)
  rw [mul_one] at h4
  refine ⟨h0, ?_, hr.trans h4⟩
  have := (abs_le.1 (hr.trans h4)).2
  have : (4 : ℝ) / 2 ^ 53 < 1 / 2 ^ 50 := by norm_num
  linarith

/-- Where the cumulative distribution takes a value, in floating point. -/
theorem inverse_cdf_close (R : Rounding) (hid : ∀ x, R.fl (R.fl x) = R.fl x) {ks : List (ℝ × ℝ)}
    {b : ℝ × ℝ} {Y : ℝ} (h : IsDistribution ks) (hb : ks.getLast? = some b) (hz : ∀ k ∈ ks, 0 ≤ k.1)
    (hY : ∀ k ∈ ks, k.2 ≤ Y) (hN : 4 * ks.length + 14 ≤ 2 ^ 53) {u : ℝ} (hu0 : 0 ≤ u) (hu1 : u < 1) :
    |interp none none (cumulativeKnots ks) (inverseCdfFl R.fl ks u) - u| ≤
      (4 * ks.length + 14 + 13 * (Y * b.1 / trapezoid ks)) / 2 ^ 53 := by
  have h2 := h.two_le
  have hne : ks ≠ [] := by rintro rfl; simp at h2
  obtain ⟨c0, c1, c2, c3⟩ := float_cdf R hid h
  obtain ⟨f1, f2, f3, f4⟩ := cumulativeKnots_facts h
  obtain ⟨a, ha⟩ : ∃ a, ks.head? = some a := ⟨_, List.head?_eq_some_head hne⟩
  set l := List.zip (cdfFl R.fl ks) (ks.map Prod.fst) with hl
  have hhead : l.head? = some (0, a.1) := by
    rw [hl, List.head?_eq_getElem?, List.getElem?_zip_eq_some, ← List.head?_eq_getElem?,
      ← List.head?_eq_getElem?, c1, List.head?_map, ha]
    exact ⟨rfl, rfl⟩
  have hlast : l.getLast? = some (1, b.1) := by
    have hlen : l.length = (cdfFl R.fl ks).length := by simp [hl, c3]
    have hlen' : l.length = (ks.map Prod.fst).length := by simp [hl, c3]
    rw [List.getLast?_eq_getElem?, hl, List.getElem?_zip_eq_some, ← hl]
    nth_rewrite 1 [hlen]
    rw [hlen', ← List.getLast?_eq_getElem?, ← List.getLast?_eq_getElem?, c2, List.getLast?_map, hb]
    exact ⟨rfl, rfl⟩
  have hlne : l ≠ [] := by intro e; rw [e] at hhead; simp at hhead
  have hsnd : l.map Prod.snd = ks.map Prod.fst := by
    rw [hl, List.map_snd_zip]
    simp [c3]
  have hfst : l.map Prod.fst = cdfFl R.fl ks := by
    rw [hl, List.map_fst_zip]
    simp [c3]
  have hs1 : l.Pairwise (fun a b => a.1 ≤ b.1) := by
    rw [← hfst, List.pairwise_map] at c0
    exact c0
  have hs2 : l.Pairwise (fun a b => a.2 < b.2) := by
    have : (l.map Prod.snd).Pairwise (· < ·) := by
      rw [hsnd, List.pairwise_map]
      exact h.1
    rwa [List.pairwise_map] at this
  have hb1 : ∀ k ∈ l, 0 ≤ k.2 ∧ k.2 ≤ b.1 := by
    intro k hk
    have hk' : k.2 ∈ ks.map Prod.fst := hsnd ▸ List.mem_map_of_mem hk
    refine ⟨?_, le_last (l := ks.map Prod.fst) (List.pairwise_map.2 (h.1.imp fun h => h.le))
      (by rw [List.getLast?_map, hb]; rfl) hk'⟩
    obtain ⟨k0, hk0, e⟩ := List.mem_map.1 hk'
    rw [← e]
    exact hz k0 hk0
  have hhu : ∀ k ∈ l.head?, k.1 ≤ u := by
    intro k hk
    rw [hhead, Option.mem_some_iff] at hk
    rw [← hk]
    exact hu0
  obtain ⟨g1, g2⟩ := interpIn_inverse hs1 hs2 hhu (by
    intro k hk
    rw [hlast, Option.mem_some_iff] at hk
    rw [← hk]
    exact hu1) hlne
  have hah : (cumulativeKnots ks).head? = some (a.1, cumulative ks 0) := by
    rw [cumulativeKnots, List.head?_mapIdx, ha]; rfl
  have hge : a.1 ≤ interpIn l u := (g1 (0, a.1) (List.mem_of_mem_head? hhead)).2 hu0
  have hb0 : 0 ≤ b.1 := hz b (List.mem_of_getLast? hb)
  have hY0 : 0 ≤ Y := (h.2.1 b (List.mem_of_getLast? hb)).trans (hY b (List.mem_of_getLast? hb))
  have hFne : cumulativeKnots ks ≠ [] := by intro e; rw [e] at hah; simp at hah
  -- the exact value
  have s1 : |interp none none (cumulativeKnots ks) (interpIn l u) - u| ≤ (4 * ks.length + 14) / 2 ^ 53 := by
    have hF : cumulativeKnots ks = ((cdf ks).zip (ks.map Prod.fst)).map Prod.swap := by
      rw [cdf_knots hne, List.map_map, Prod.swap_swap_eq, List.map_id]
    have := interpIn_close (x := interpIn l u) (by positivity) (hF ▸ f1)
      (zip_swap (cdf_close R h hN) (ks.map Prod.fst)) (by
        intro k hk
        rw [← hF, hah, Option.mem_some_iff] at hk
        rw [← hk]
        exact hge)
    rw [← hF, ← hl, g2, abs_sub_comm] at this
    rw [interp_clamp f1 hah, max_eq_left hge]
    exact this
  have s2 : |inverseCdfFl R.fl ks u - interpIn l u| ≤ 13 / 2 ^ 53 * b.1 := by
    have e : inverseCdfFl R.fl ks u = interpInFl R.fl l u := by
      unfold inverseCdfFl interpFl
      rw [← hl, hhead, hlast]
      simp only
      rw [if_neg (not_lt.2 hu0), if_neg (not_lt.2 hu1.le)]
    rw [e]
    exact interpIn_rounded R hb0 hb1 hhu
  have s3 := interp_steep (div_nonneg hY0 h.2.2.le) hFne f1 (cumulative_steep h hY) (interpIn l u)
    (inverseCdfFl R.fl ks u)
  have s4 := mul_le_mul_of_nonneg_left s2 (div_nonneg hY0 h.2.2.le)
  have := abs_add_le (interp none none (cumulativeKnots ks) (inverseCdfFl R.fl ks u) -
    interp none none (cumulativeKnots ks) (interpIn l u))
    (interp none none (cumulativeKnots ks) (interpIn l u) - u)
  rw [sub_add_sub_cancel] at this
  have e : (4 * (ks.length : ℝ) + 14 + 13 * (Y * b.1 / trapezoid ks)) / 2 ^ 53 =
      (4 * ks.length + 14) / 2 ^ 53 + Y / trapezoid ks * (13 / 2 ^ 53 * b.1) := by ring
  linarith

/-- The last edge is exact. -/
theorem inverse_cdf_one (R : Rounding) (hid : ∀ x, R.fl (R.fl x) = R.fl x) {ks : List (ℝ × ℝ)}
    {b : ℝ × ℝ} (h : IsDistribution ks) (hb : ks.getLast? = some b) : inverseCdfFl R.fl ks 1 = b.1 := by
  have h2 := h.two_le
  have hne : ks ≠ [] := by rintro rfl; simp at h2
  obtain ⟨c0, c1, c2, c3⟩ := float_cdf R hid h
  set l := List.zip (cdfFl R.fl ks) (ks.map Prod.fst) with hl
  have hlast : l.getLast? = some (1, b.1) := by
    have hlen : l.length = (cdfFl R.fl ks).length := by simp [hl, c3]
    have hlen' : l.length = (ks.map Prod.fst).length := by simp [hl, c3]
    rw [List.getLast?_eq_getElem?, hl, List.getElem?_zip_eq_some, ← hl]
    nth_rewrite 1 [hlen]
    rw [hlen', ← List.getLast?_eq_getElem?, ← List.getLast?_eq_getElem?, c2, List.getLast?_map, hb]
    exact ⟨rfl, rfl⟩
  have hall : ∀ k ∈ l, k.1 ≤ 1 := by
    intro k hk
    refine le_last c0 c2 ?_
    have hfst : l.map Prod.fst = cdfFl R.fl ks := by
      rw [hl, List.map_fst_zip]
      simp [c3]
    exact hfst ▸ List.mem_map_of_mem hk
  have key : ∀ (l : List (ℝ × ℝ)) (k : ℝ × ℝ), (∀ q ∈ l, q.1 ≤ 1) →
      l.getLast? = some k → interpInFl R.fl l 1 = k.2 := by
    intro l
    induction l with
    | nil => intro k _ hk; simp at hk
    | cons a l ih =>
      intro k hle hk
      rcases l with _ | ⟨b, l⟩
      · simp at hk; rw [← hk]; rfl
      · rw [interpInFl, if_neg (not_lt.2 (hle b (by simp)))]
        exact ih k (fun q hq => hle q (by simp [hq])) (by simpa using hk)
  unfold inverseCdfFl interpFl
  rw [← hl, hlast]
  rcases hh : l.head? with _ | q
  · rw [List.head?_eq_none_iff] at hh
    rw [hh] at hlast
    simp at hlast
  · simp only
    rw [if_neg (not_lt.2 (hall q (List.mem_of_mem_head? hh))), if_neg (lt_irrefl _)]
    exact key l _ hall hlast

/-- **C163**: the bins are contiguous, the last one ends with the distribution, the cumulative distribution
at the edges has errors that are small, and if these are small compared with the share of a bin, then the
edges increase. -/
theorem equal_dens_fl (R : Rounding) (hid : ∀ x, R.fl (R.fl x) = R.fl x) {ks : List (ℝ × ℝ)}
    {b : ℝ × ℝ} {Y : ℝ} (h : IsDistribution ks) (hb : ks.getLast? = some b) (hz : ∀ k ∈ ks, 0 ≤ k.1)
    (hY : ∀ k ∈ ks, k.2 ≤ Y) (hN : 4 * ks.length + 14 ≤ 2 ^ 53) {n : ℕ} (hn : 0 < n) (hn' : n ≤ 2 ^ 50) :
    ∃ e : ℕ → ℝ, Contiguous n e (equalDensZbinsFl R.fl ks n) ∧ e n = b.1 ∧
      (∀ i ≤ n, |interp none none (cumulativeKnots ks) (e i) - i / n| ≤
        (4 * ks.length + 18 + 13 * (Y * b.1 / trapezoid ks)) / 2 ^ 53) ∧
      (2 * ((4 * ks.length + 18 + 13 * (Y * b.1 / trapezoid ks)) / 2 ^ 53) < 1 / n →
        ∀ i < n, e i < e (i + 1)) := by
  have hn0 : (0 : ℝ) < n := by exact_mod_cast hn
  have h2 := h.two_le
  have hne : ks ≠ [] := by rintro rfl; simp at h2
  obtain ⟨f1, f2, f3, f4⟩ := cumulativeKnots_facts h
  have hFne : cumulativeKnots ks ≠ [] := by
    intro e; have := congrArg List.length e; simp [cumulativeKnots] at this; exact hne this
  have hb0 : 0 ≤ b.1 := hz b (List.mem_of_getLast? hb)
  have hY0 : 0 ≤ Y := (h.2.1 b (List.mem_of_getLast? hb)).trans (hY b (List.mem_of_getLast? hb))
  have hκ : 0 ≤ Y * b.1 / trapezoid ks := div_nonneg (mul_nonneg hY0 hb0) h.2.2.le
  set e : ℕ → ℝ := fun i => inverseCdfFl R.fl ks (if i = n then 1 else R.fl (i * R.fl (1 / n))) with he
  have hshare : ∀ i ≤ n, |interp none none (cumulativeKnots ks) (e i) - i / n| ≤
      (4 * ks.length + 18 + 13 * (Y * b.1 / trapezoid ks)) / 2 ^ 53 := by
    intro i hi
    rcases hi.lt_or_eq with hi | rfl
    · obtain ⟨l0, l1, l2⟩ := level_error R hi hn'
      have := inverse_cdf_close R hid h hb hz hY hN l0 l1
      simp only [he, if_neg hi.ne]
      have h3 := abs_add_le (interp none none (cumulativeKnots ks)
        (inverseCdfFl R.fl ks (R.fl (i * R.fl (1 / n)))) - R.fl (i * R.fl (1 / n)))
        (R.fl (i * R.fl (1 / n)) - i / n)
      rw [sub_add_sub_cancel] at h3
      have e2 : (4 * (ks.length : ℝ) + 18 + 13 * (Y * b.1 / trapezoid ks)) / 2 ^ 53 =
        (4 * ks.length + 14 + 13 * (Y * b.1 / trapezoid ks)) / 2 ^ 53 + 4 / 2 ^ 53 := by ring
      linarith
    · simp only [he, if_true]
      rw [inverse_cdf_one R hid h hb, div_self hn0.ne']
      have hk : (cumulativeKnots ks).getLast? = some (b.1, 1) := by
        have h5 : (cumulativeKnots ks).getLast?.map Prod.fst = some b.1 := by
          rw [cumulativeKnots, List.getLast?_mapIdx, hb]; rfl
        obtain ⟨q, hq⟩ : ∃ k, (cumulativeKnots ks).getLast? = some k :=
          ⟨_, List.getLast?_eq_some_getLast hFne⟩
        have h6 := f4 q hq
        rw [hq] at h5 ⊢
        simp at h5
        rw [← h5, ← h6]
      rw [interp_knot f1 (List.mem_of_getLast? hk), sub_self, abs_zero]
      positivity
  refine ⟨e, ?_, ?_, hshare, ?_⟩
  · unfold equalDensZbinsFl linspaceFl
    rw [List.map_map]
    exact pairwise_contiguous n e
  · simp only [he, if_true]
    exact inverse_cdf_one R hid h hb
  · intro hs i hi
    by_contra hc
    have h1 := interp_mono hFne f1 f2 (not_lt.1 hc)
    have h2 := (abs_le.1 (hshare i hi.le)).2
    have h3 := (abs_le.1 (hshare (i + 1) hi)).1
    have e2 : ((i + 1 : ℕ) : ℝ) / n = i / n + 1 / n := by push_cast; ring
    rw [e2] at h3
    linarith

/-- Concrete case: four bins of a triangular distribution between 0 and 2. -/
example : ∃ e : ℕ → ℝ, Contiguous 4 e (equalDensZbinsFl roundDouble [(0, 0), (1, 1), (2, 0)] 4) ∧
    e 4 = 2 ∧ (∀ i ≤ 4, |interp none none (cumulativeKnots [(0, 0), (1, 1), (2, 0)]) (e i) - i / 4| ≤
      56 / 2 ^ 53) ∧ ∀ i < 4, e i < e (i + 1) := by
  have ht : trapezoid [((0 : ℝ), (0 : ℝ)), (1, 1), (2, 0)] = 1 := by norm_num [trapezoid]
  obtain ⟨e, h1, h2, h3, h4⟩ := equal_dens_fl double roundDouble_idem (ks := [(0, 0), (1, 1), (2, 0)])
    (b := (2, 0)) (Y := 1) ⟨by simp, by simp, by rw [ht]; norm_num⟩ rfl (by simp) (by simp) (by simp)
    (n := 4) (by norm_num) (by norm_num)
  rw [ht] at h3 h4
  have e1 : (4 * (([((0 : ℝ), (0 : ℝ)), (1, 1), (2, 0)] : List (ℝ × ℝ)).length : ℝ) + 18 +
      13 * (1 * (2, (0 : ℝ)).1 / 1)) / 2 ^ 53 = 56 / 2 ^ 53 := by norm_num
  rw [e1] at h3 h4
  exact ⟨e, h1, h2, by simpa using h3, h4 (by norm_num)⟩

end Glass.Obs
