import Verif.Numerics.Spec

/-!
# Cumulative integrals and integrals of products (C35, C36)
-/

namespace Glass.Num

open MeasureTheory

/-! ## C35 -/

theorem scanl_getElem {α : Type} (f : ℝ → α → ℝ) : ∀ (l : List α) (a : ℝ) (i : ℕ)
    (h : i + 1 < (l.scanl f a).length),
    (l.scanl f a)[i + 1] = f ((l.scanl f a)[i]'(by omega)) (l[i]'(by simp at h; omega))
  | [], a, i, h => by simp at h
  | x :: l, a, 0, h => by cases l <;> simp
  | x :: l, a, i + 1, h => by
    have ih := scanl_getElem f l (f a x) i (by simpa using h)
    simpa using ih

theorem scanl_add_last (l : List ℝ) (a : ℝ) : (l.scanl (· + ·) a).getLast? = some (a + l.sum) := by
  induction l generalizing a with
  | nil => simp
  | cons x l ih =>
    rw [List.scanl_cons]
    have hne : l.scanl (· + ·) (a + x) ≠ [] := by cases l <;> simp
    rw [List.getLast?_cons_of_ne_nil hne, ih]
    simp [add_assoc]

theorem panels_sum : ∀ ks : List (ℝ × ℝ),
    (List.zipWith (fun k k' : ℝ × ℝ => (k'.2 + k.2) * 0.5 * (k'.1 - k.1)) ks ks.tail).sum =
      trapezoid ks
  | [] => by simp [trapezoid]
  | [k] => by simp [trapezoid]
  | k :: k' :: ks => by
    have ih := panels_sum (k' :: ks)
    simp only [List.tail_cons, List.zipWith_cons_cons, List.sum_cons] at ih ⊢
    rw [ih, trapezoid_cons]
    ring

/-- **C35.** The cumulative integral of a nonempty sampled function has as many entries as the
input, starts at zero, ends with the trapezoidal integral, and its increments are the areas of the
panels. -/
theorem cumulative_trapezoid_spec {ks : List (ℝ × ℝ)} (hne : ks ≠ []) :
    (cumulativeTrapezoid ks).length = ks.length ∧
    (cumulativeTrapezoid ks).head? = some 0 ∧
    (cumulativeTrapezoid ks).getLast? = some (trapezoid ks) ∧
    ∀ i, i + 1 < ks.length → (cumulativeTrapezoid ks)[i + 1]! =
      (cumulativeTrapezoid ks)[i]! + (ks[i + 1]!.1 - ks[i]!.1) * (ks[i]!.2 + ks[i + 1]!.2) / 2 := by
  have hlen : (cumulativeTrapezoid ks).length = ks.length := by
    have : 0 < ks.length := List.length_pos_of_ne_nil hne
    simp [cumulativeTrapezoid]; omega
  refine ⟨hlen, ?_, ?_, ?_⟩
  · unfold cumulativeTrapezoid
    simp only
    generalize List.zipWith _ ks ks.tail = l
    cases l <;> simp
  · unfold cumulativeTrapezoid
    simp only
    rw [scanl_add_last, panels_sum, zero_add]
  · intro i hi
    have h1 : i + 1 < (cumulativeTrapezoid ks).length := by omega
    rw [getElem!_pos (cumulativeTrapezoid ks) (i + 1) h1,
      getElem!_pos (cumulativeTrapezoid ks) i (by omega), getElem!_pos ks (i + 1) hi,
      getElem!_pos ks i (by omega)]
    have := scanl_getElem (· + ·)
      (List.zipWith (fun k k' : ℝ × ℝ => (k'.2 + k.2) * 0.5 * (k'.1 - k.1)) ks ks.tail) 0 i
      (by simpa [cumulativeTrapezoid] using h1)
    refine Eq.trans this ?_
    show (cumulativeTrapezoid ks)[i] + _ = _
    simp only [List.getElem_zipWith, List.getElem_tail]
    ring

/-- An empty input gives the initial zero alone: one entry more than the input has. -/
theorem cumulative_trapezoid_empty : cumulativeTrapezoid [] = [0] := rfl

/-- **C35.** The cumulative integral of a nonnegative function on an increasing grid does not
decrease. -/
theorem cumulative_trapezoid_mono {ks : List (ℝ × ℝ)}
    (hx : ks.Pairwise fun a b => a.1 ≤ b.1) (hy : ∀ k ∈ ks, 0 ≤ k.2) :
    (cumulativeTrapezoid ks).Pairwise (· ≤ ·) := by
  have key : ∀ (l : List ℝ) (a : ℝ), (∀ x ∈ l, 0 ≤ x) →
      (l.scanl (· + ·) a).Pairwise (· ≤ ·) ∧ ∀ t ∈ l.scanl (· + ·) a, a ≤ t := by
    intro l
    induction l with
    | nil => intro a _; simp
    | cons x l ih =>
      intro a h
      obtain ⟨h1, h2⟩ := ih (a + x) fun y hy => h y (List.mem_cons_of_mem _ hy)
      have hx := h x (by simp)
      rw [List.scanl_cons]
      have h3 : ∀ t ∈ l.scanl (· + ·) (a + x), a ≤ t := fun t ht => by linarith [h2 t ht]
      exact ⟨List.pairwise_cons.2 ⟨h3, h1⟩, fun t ht => by
        rcases List.mem_cons.1 ht with rfl | ht
        · exact le_rfl
        · exact h3 t ht⟩
  refine (key _ _ ?_).1
  intro x hxm
  obtain ⟨i, hi, rfl⟩ := List.getElem_of_mem hxm
  simp only [List.getElem_zipWith, List.getElem_tail]
  have hi' : i + 1 < ks.length := by simp at hi; omega
  have h1 := hy ks[i] (List.getElem_mem _)
  have h2 := hy ks[i + 1] (List.getElem_mem _)
  have h3 := List.pairwise_iff_getElem.1 hx i (i + 1) (by omega) hi' (by omega)
  exact mul_nonneg (mul_nonneg (by linarith) (by norm_num)) (by linarith)

/-- Concrete case. -/
example : (cumulativeTrapezoid [(0, 1), (1, 3), (3, 0)]).length = 3 ∧
    (cumulativeTrapezoid [(0, 1), (1, 3), (3, 0)]).getLast? = some 5 := by
  obtain ⟨h1, -, h3, -⟩ := cumulative_trapezoid_spec (ks := [(0, 1), (1, 3), (3, 0)]) (by simp)
  refine ⟨h1, ?_⟩
  rw [h3]; norm_num [trapezoid]

/-! ## Refinement of the grid -/

theorem interpNone_affine {f : List (ℝ × ℝ)} (hf : Inc f) {p q : ℝ × ℝ}
    (hp : f.head? = some p) (hq : f.getLast? = some q) {c d : ℝ} (hcd : c < d)
    (h1 : p.1 ≤ c) (h2 : d ≤ q.1) (hn : ∀ k ∈ f, ¬ (c < k.1 ∧ k.1 < d)) :
    ∃ m n : ℝ, ∀ x, c ≤ x → x ≤ d → interp none none f x = m * x + n := by
  have hne : f ≠ [] := by rintro rfl; simp at hp
  obtain ⟨m, n, hmn⟩ := interpIn_affine hf hne hcd.le
    (by rw [hp]; simpa using h1) (by rw [hq]; simpa using h2) hn
  refine ⟨m, n, fun x hx hx' => ?_⟩
  rw [interp_inRange ⟨p, q, hp, hq, h1.trans hx, hx'.trans h2⟩]
  exact hmn x hx hx'

/-- Adding points to the grid of a sampled function does not change its trapezoidal integral, if
the new values are interpolated. -/
theorem trapezoid_refine {f : List (ℝ × ℝ)} (hf : Inc f) {p q : ℝ × ℝ} (hp : f.head? = some p)
    (hq : f.getLast? = some q) {zr : List ℝ} (hs : zr.Pairwise (· < ·))
    (hsub : ∀ k ∈ f, k.1 ∈ zr) (hr : ∀ t ∈ zr, p.1 ≤ t ∧ t ≤ q.1) :
    trapezoid (sample (interp none none f) zr) = trapezoid f := by
  have main : ∀ zs : List ℝ, zs.Pairwise (· < ·) → (∀ k ∈ f, k.1 ∈ zs) →
      (∀ t ∈ zs, p.1 ≤ t ∧ t ≤ q.1) → trapezoid (sample (interp none none f) zs) =
        ∫ x in p.1..q.1, interp none none f x := by
    intro zs hs hsub hr
    have hA : AffineBetween (interp none none f) zs := by
      apply affineBetween_of hs
      intro c d hc hd hcd hno
      exact interpNone_affine hf hp hq hcd (hr c hc).1 (hr d hd).2
        (fun k hk => hno k.1 (hsub k hk))
    have hpz : p.1 ∈ zs := hsub p (List.mem_of_head? hp)
    have hqz : q.1 ∈ zs := hsub q (List.mem_of_getLast? hq)
    rcases zs with _ | ⟨z0, zs⟩
    · simp at hpz
    have hz0 : z0 = p.1 := le_antisymm (head_le hs rfl hpz) (hr z0 (by simp)).1
    rcases hl : (z0 :: zs).getLast? with _ | z1
    · simp at hl
    have hz1 : z1 = q.1 :=
      le_antisymm (hr z1 (List.mem_of_getLast? hl)).2 (le_last hs hl hqz)
    subst hz0 hz1
    exact (trapezoid_integral _ zs _ (hs.imp fun h => h.le) hA _ hl).2
  rw [main zr hs hsub hr]
  have e : f = sample (interp none none f) (f.map Prod.fst) := by
    unfold sample
    rw [List.map_map]
    nth_rewrite 1 [← List.map_id f]
    rw [List.map_inj_left]
    intro k hk
    simp only [Function.comp, id, interp_knot hf hk]
  have hs' : (f.map Prod.fst).Pairwise (· < ·) := by rw [List.pairwise_map]; exact hf
  conv_rhs => rw [e]
  rw [main _ hs' (fun k hk => List.mem_map_of_mem hk)]
  intro t ht
  exact ⟨head_le hs' (by rw [List.head?_map, hp]; rfl) ht,
    le_last hs' (by rw [List.getLast?_map, hq]; rfl) ht⟩

/-! ## C36 -/

/-- The abscissae of a sampled function. -/
def absc (f : List (ℝ × ℝ)) : List ℝ := f.map Prod.fst

/-- The points that belong to one of the functions and lie in the ranges of all. -/
def CommonGrid (fs : List (List (ℝ × ℝ))) (t : ℝ) : Prop :=
  (∃ f ∈ fs, t ∈ absc f) ∧ ∀ f ∈ fs, InRange f t

theorem absc_sorted {f : List (ℝ × ℝ)} (hf : Inc f) : (absc f).Pairwise (· < ·) := by
  unfold absc; rw [List.pairwise_map]; exact hf

/-- A grid given by the first and the last point and the points between. -/
theorem overlapGrid_spec {x y : List ℝ} {x0 x1 y0 y1 : ℝ} (hx0 : x.head? = some x0)
    (hx1 : x.getLast? = some x1) (hy0 : y.head? = some y0) (hy1 : y.getLast? = some y1)
    (hx : x.Pairwise (· < ·)) (hy : y.Pairwise (· < ·)) :
    ∃ z, overlapGrid x y = .ok z ∧ z.Pairwise (· < ·) ∧
      ∀ t, t ∈ z ↔ (t ∈ x ∨ t ∈ y) ∧ (x0 ≤ t ∧ t ≤ x1) ∧ (y0 ≤ t ∧ t ≤ y1) := by
  refine ⟨union1d (x.filter fun t => decide (y0 ≤ t ∧ t ≤ y1))
    (y.filter fun t => decide (x0 ≤ t ∧ t ≤ x1)), ?_, union1d_sorted _ _, ?_⟩
  · unfold overlapGrid
    rw [hx0, hx1, hy0, hy1]
  intro t
  rw [mem_union1d, List.mem_filter, List.mem_filter]
  simp only [decide_eq_true_eq]
  constructor
  · rintro (⟨h1, h2⟩ | ⟨h1, h2⟩)
    · exact ⟨Or.inl h1, ⟨head_le hx hx0 h1, le_last hx hx1 h1⟩, h2⟩
    · exact ⟨Or.inr h1, h2, ⟨head_le hy hy0 h1, le_last hy hy1 h1⟩⟩
  · rintro ⟨h1 | h1, h2, h3⟩
    · exact Or.inl ⟨h1, h3⟩
    · exact Or.inr ⟨h1, h2⟩

/-- Number of abscissae in range. -/
theorem inRange_iff {f : List (ℝ × ℝ)} {a b t : ℝ} (ha : (absc f).head? = some a)
    (hb : (absc f).getLast? = some b) : InRange f t ↔ a ≤ t ∧ t ≤ b := by
  unfold absc at ha hb
  rw [List.head?_map] at ha
  rw [List.getLast?_map] at hb
  rcases ha' : f.head? with _ | p
  · rw [ha'] at ha; simp at ha
  rcases hb' : f.getLast? with _ | q
  · rw [hb'] at hb; simp at hb
  rw [ha'] at ha
  rw [hb'] at hb
  simp at ha hb
  subst ha hb
  constructor
  · rintro ⟨a, b, h1, h2, h3, h4⟩
    rw [ha'] at h1; rw [hb'] at h2
    simp only [Option.some.injEq] at h1 h2
    subst h1 h2
    exact ⟨h3, h4⟩
  · rintro ⟨h3, h4⟩
    exact ⟨p, q, ha', hb', h3, h4⟩

theorem absc_ends {f : List (ℝ × ℝ)} (hne : f ≠ []) :
    ∃ a b, (absc f).head? = some a ∧ (absc f).getLast? = some b ∧ a ∈ absc f ∧ b ∈ absc f := by
  rcases f with _ | ⟨p, f⟩
  · exact absurd rfl hne
  · have h2 : (absc (p :: f)).getLast? = some ((absc (p :: f)).getLast (by simp [absc])) :=
      List.getLast?_eq_getLast_of_ne_nil _
    exact ⟨p.1, _, rfl, h2, by simp [absc], List.mem_of_getLast? h2⟩

/-- The grid of the product: after any number of functions it consists of the points of all the
functions that lie in all the ranges, provided that the ranges have a point in common. -/
theorem productGrid_spec : ∀ (gs : List (List (ℝ × ℝ))) (x : List ℝ) (P : ℝ → Prop) (x0 x1 : ℝ),
    x.Pairwise (· < ·) → x.head? = some x0 → x.getLast? = some x1 →
    (∀ g ∈ gs, Inc g ∧ g ≠ []) → (∃ c, (x0 ≤ c ∧ c ≤ x1) ∧ ∀ g ∈ gs, InRange g c) →
    (∀ t, t ∈ x ↔ P t ∧ x0 ≤ t ∧ t ≤ x1) →
    ∃ z, gs.foldlM (fun x g => overlapGrid x (g.map Prod.fst)) x = .ok z ∧
      z.Pairwise (· < ·) ∧ z ≠ [] ∧
      ∀ t, t ∈ z ↔ (P t ∨ ∃ g ∈ gs, t ∈ absc g) ∧ (x0 ≤ t ∧ t ≤ x1) ∧ ∀ g ∈ gs, InRange g t
  | [], x, P, x0, x1, hx, h0, h1, _, _, hP => by
    refine ⟨x, rfl, hx, by rintro rfl; simp at h0, ?_⟩
    intro t
    rw [hP]
    simp
  | g :: gs, x, P, x0, x1, hx, h0, h1, hgs, ⟨c, hc, hcg⟩, hP => by
    obtain ⟨hgi, hgne⟩ := hgs g (by simp)
    obtain ⟨a, b, ha, hb, ham, hbm⟩ := absc_ends hgne
    have hx0 : x0 ∈ x := List.mem_of_head? h0
    have hx1 : x1 ∈ x := List.mem_of_getLast? h1
    obtain ⟨y, hy, hys, hym⟩ := overlapGrid_spec h0 h1 ha hb hx (absc_sorted hgi)
    have hc' := (inRange_iff ha hb).1 (hcg g (by simp))
    -- the ends of the common range
    have hlo : max x0 a ∈ y := by
      rw [hym]
      have h1' : a ≤ b := hc'.1.trans hc'.2
      have h2' : x0 ≤ x1 := hc.1.trans hc.2
      have h3' : a ≤ x1 := hc'.1.trans hc.2
      have h4' : x0 ≤ b := hc.1.trans hc'.2
      refine ⟨?_, ⟨le_max_left _ _, max_le h2' h3'⟩, le_max_right _ _, max_le h4' h1'⟩
      rcases max_choice x0 a with h | h
      · rw [h]; exact Or.inl hx0
      · rw [h]; exact Or.inr ham
    have hhi : min x1 b ∈ y := by
      rw [hym]
      have h1' : a ≤ b := hc'.1.trans hc'.2
      have h2' : x0 ≤ x1 := hc.1.trans hc.2
      have h3' : a ≤ x1 := hc'.1.trans hc.2
      have h4' : x0 ≤ b := hc.1.trans hc'.2
      refine ⟨?_, ⟨le_min h2' h4', min_le_left _ _⟩, le_min h3' h1', min_le_right _ _⟩
      rcases min_choice x1 b with h | h
      · rw [h]; exact Or.inl hx1
      · rw [h]; exact Or.inr hbm
    have hyb : ∀ t ∈ y, max x0 a ≤ t ∧ t ≤ min x1 b := by
      intro t ht
      have := (hym t).1 ht
      exact ⟨max_le this.2.1.1 this.2.2.1, le_min this.2.1.2 this.2.2.2⟩
    have hy0 : y.head? = some (max x0 a) := by
      rcases hh : y.head? with _ | e
      · rw [List.head?_eq_none_iff] at hh; simp [hh] at hlo
      · have h1 := head_le hys hh hlo
        have h2 := (hyb e (List.mem_of_head? hh)).1
        rw [le_antisymm h1 h2]
    have hy1 : y.getLast? = some (min x1 b) := by
      rcases hh : y.getLast? with _ | e
      · rw [List.getLast?_eq_none_iff] at hh; simp [hh] at hlo
      · have h1 := le_last hys hh hhi
        have h2 := (hyb e (List.mem_of_getLast? hh)).2
        rw [le_antisymm h2 h1]
    obtain ⟨z, hz, hzs, hzne, hzm⟩ := productGrid_spec gs y (fun t => P t ∨ t ∈ absc g)
      (max x0 a) (min x1 b) hys hy0 hy1 (fun g' hg' => hgs g' (List.mem_cons_of_mem _ hg'))
      ⟨c, ⟨max_le hc.1 hc'.1, le_min hc.2 hc'.2⟩, fun g' hg' => hcg g' (List.mem_cons_of_mem _ hg')⟩
      (by
        intro t
        rw [hym]
        constructor
        · rintro ⟨h1, h2, h3⟩
          refine ⟨?_, max_le h2.1 h3.1, le_min h2.2 h3.2⟩
          rcases h1 with h1 | h1
          · exact Or.inl ((hP t).1 h1).1
          · exact Or.inr h1
        · rintro ⟨h1, h2, h3⟩
          have h2a := (le_max_left _ _).trans h2
          have h2b := (le_max_right _ _).trans h2
          have h3a := h3.trans (min_le_left _ _)
          have h3b := h3.trans (min_le_right _ _)
          refine ⟨?_, ⟨h2a, h3a⟩, h2b, h3b⟩
          rcases h1 with h1 | h1
          · exact Or.inl ((hP t).2 ⟨h1, h2a, h3a⟩)
          · exact Or.inr h1)
    refine ⟨z, ?_, hzs, hzne, ?_⟩
    · rw [List.foldlM_cons]
      have : overlapGrid x (g.map Prod.fst) = .ok y := hy
      rw [this]
      exact hz
    · intro t
      rw [hzm]
      simp only [List.mem_cons, forall_eq_or_imp, exists_eq_or_imp]
      rw [inRange_iff ha hb]
      constructor
      · rintro ⟨h1, h2, h3⟩
        refine ⟨?_, ⟨(le_max_left _ _).trans h2.1, h2.2.trans (min_le_left _ _)⟩,
          ⟨(le_max_right _ _).trans h2.1, h2.2.trans (min_le_right _ _)⟩, h3⟩
        rcases h1 with (h1 | h1) | h1
        · exact Or.inl h1
        · exact Or.inr (Or.inl h1)
        · exact Or.inr (Or.inr h1)
      · rintro ⟨h1, h2, h3, h4⟩
        refine ⟨?_, ⟨max_le h2.1 h3.1, le_min h2.2 h3.2⟩, h4⟩
        rcases h1 with h1 | h1 | h1
        · exact Or.inl (Or.inl h1)
        · exact Or.inl (Or.inr h1)
        · exact Or.inr h1

/-- **C36.** For functions whose ranges have a point in common, `trapezoid_product` is the
trapezoidal rule for the product of the interpolants, on the sorted grid of all points of the
functions that lie in the ranges of all of them. -/
theorem trapezoid_product_spec {f : List (ℝ × ℝ)} {gs : List (List (ℝ × ℝ))}
    (hfs : ∀ g ∈ f :: gs, Inc g) (hc : ∃ c, ∀ g ∈ f :: gs, InRange g c) :
    ∃ z, z.Pairwise (· < ·) ∧ z ≠ [] ∧ (∀ t, t ∈ z ↔ CommonGrid (f :: gs) t) ∧
      trapezoidProduct f gs = .ok (trapezoid (sample
        (fun t => ((f :: gs).map fun g => interpIn g t).prod) z)) := by
  obtain ⟨c, hc⟩ := hc
  have hne : ∀ g ∈ f :: gs, g ≠ [] := fun g hg => (hc g hg).ne_nil
  obtain ⟨a, b, ha, hb, -, -⟩ := absc_ends (hne f (by simp))
  have hfi := hfs f (by simp)
  obtain ⟨z, hz, hzs, hzne, hzm⟩ := productGrid_spec gs (absc f) (fun t => t ∈ absc f) a b
    (absc_sorted hfi) ha hb
    (fun g hg => ⟨hfs g (List.mem_cons_of_mem _ hg), hne g (List.mem_cons_of_mem _ hg)⟩)
    ⟨c, (inRange_iff ha hb).1 (hc f (by simp)), fun g hg => hc g (List.mem_cons_of_mem _ hg)⟩
    (by
      intro t
      constructor
      · intro ht
        exact ⟨ht, head_le (absc_sorted hfi) ha ht, le_last (absc_sorted hfi) hb ht⟩
      · intro ht
        exact ht.1)
  have hcg : ∀ t, t ∈ z ↔ CommonGrid (f :: gs) t := by
    intro t
    rw [hzm, CommonGrid, ← inRange_iff ha hb]
    simp
  refine ⟨z, hzs, hzne, hcg, ?_⟩
  unfold trapezoidProduct
  have : gs.foldlM (fun x g => overlapGrid x (g.map Prod.fst)) (f.map Prod.fst) = .ok z := hz
  rw [this]
  simp only
  congr 2
  apply sample_congr
  intro t ht
  have hr := ((hcg t).1 ht).2
  have hfold : ∀ (l : List (List (ℝ × ℝ))) (y : ℝ), (∀ g ∈ l, InRange g t) →
      l.foldl (fun y g => y * interp none none g t) y = y * (l.map fun g => interpIn g t).prod := by
    intro l
    induction l with
    | nil => intro y _; simp
    | cons g l ih =>
      intro y h
      rw [List.foldl_cons, ih _ fun g hg => h g (List.mem_cons_of_mem _ hg),
        interp_inRange (h g (by simp))]
      simp [mul_assoc]
  rw [hfold gs _ fun g hg => hr g (List.mem_cons_of_mem _ hg), interp_inRange (hr f (by simp))]
  simp

/-- **C36.** The result does not depend on the order of the functions. -/
theorem trapezoid_product_perm {f f' : List (ℝ × ℝ)} {gs gs' : List (List (ℝ × ℝ))}
    (hp : (f :: gs).Perm (f' :: gs')) (hfs : ∀ g ∈ f :: gs, Inc g)
    (hc : ∃ c, ∀ g ∈ f :: gs, InRange g c) :
    trapezoidProduct f gs = trapezoidProduct f' gs' := by
  obtain ⟨z, hz1, -, hz2, hz3⟩ := trapezoid_product_spec hfs hc
  obtain ⟨z', hz1', -, hz2', hz3'⟩ := trapezoid_product_spec (f := f') (gs := gs')
    (fun g hg => hfs g (hp.mem_iff.2 hg))
    (by obtain ⟨c, hc⟩ := hc; exact ⟨c, fun g hg => hc g (hp.mem_iff.2 hg)⟩)
  have : z = z' := by
    apply sorted_unique hz1 hz1'
    intro t
    rw [hz2, hz2', CommonGrid, CommonGrid]
    simp only [hp.mem_iff]
  rw [hz3, hz3', this]
  congr 3
  funext t
  exact (hp.map _).prod_eq

/-- **C36.** Two functions: symmetric even if the ranges do not overlap. -/
theorem trapezoid_product_symm {f g : List (ℝ × ℝ)} :
    trapezoidProduct f [g] = trapezoidProduct g [f] := by
  have h : overlapGrid (f.map Prod.fst) (g.map Prod.fst) =
      overlapGrid (g.map Prod.fst) (f.map Prod.fst) := by
    unfold overlapGrid
    rcases (f.map Prod.fst).head? with _ | a <;> rcases (f.map Prod.fst).getLast? with _ | b <;>
      rcases (g.map Prod.fst).head? with _ | c <;> rcases (g.map Prod.fst).getLast? with _ | d <;>
      simp only
    rw [union1d_comm]
  unfold trapezoidProduct
  simp only [List.foldlM_cons, List.foldlM_nil, h]
  rcases overlapGrid (g.map Prod.fst) (f.map Prod.fst) with e | z
  · rfl
  · simp only [bind, Except.bind, pure, Except.pure, List.foldl_cons, List.foldl_nil]
    congr 3
    funext t
    ring

/-- The common grid when the range of `g` contains the range of `f`. -/
theorem trapezoid_product_within {f g : List (ℝ × ℝ)} (hf : Inc f) (hg : Inc g) {p q : ℝ × ℝ}
    (hp : f.head? = some p) (hq : f.getLast? = some q) (h1 : InRange g p.1) (h2 : InRange g q.1) :
    ∃ z : List ℝ, z.Pairwise (· < ·) ∧ (∀ k ∈ f, k.1 ∈ z) ∧ (∀ t ∈ z, p.1 ≤ t ∧ t ≤ q.1) ∧
      trapezoidProduct f [g] = .ok (trapezoid (sample
        (fun t => interp none none f t * interp none none g t) z)) := by
  have ha : (absc f).head? = some p.1 := by rw [absc, List.head?_map, hp]; rfl
  have hb : (absc f).getLast? = some q.1 := by rw [absc, List.getLast?_map, hq]; rfl
  obtain ⟨a, b, ha', hb', -, -⟩ := absc_ends h1.ne_nil
  obtain ⟨z, hz, hzs, hzm⟩ := overlapGrid_spec ha hb ha' hb' (absc_sorted hf) (absc_sorted hg)
  have r1 := (inRange_iff ha' hb').1 h1
  have r2 := (inRange_iff ha' hb').1 h2
  refine ⟨z, hzs, ?_, fun t ht => ((hzm t).1 ht).2.1, ?_⟩
  · intro k hk
    rw [hzm]
    have hk' : k.1 ∈ absc f := List.mem_map_of_mem hk
    have h3 := head_le (absc_sorted hf) ha hk'
    have h4 := le_last (absc_sorted hf) hb hk'
    exact ⟨Or.inl hk', ⟨h3, h4⟩, r1.1.trans h3, h4.trans r2.2⟩
  · unfold trapezoidProduct
    simp only [List.foldlM_cons, List.foldlM_nil]
    have : overlapGrid (f.map Prod.fst) (g.map Prod.fst) = .ok z := hz
    rw [this]
    simp only [bind, Except.bind, pure, Except.pure, List.foldl_cons, List.foldl_nil]

/-- **C36.** A constant factor on a wider range gives the constant times the plain integral. -/
theorem trapezoid_product_const {f g : List (ℝ × ℝ)} (hf : Inc f) (hg : Inc g) {p q : ℝ × ℝ} {c : ℝ}
    (hp : f.head? = some p) (hq : f.getLast? = some q) (h1 : InRange g p.1) (h2 : InRange g q.1)
    (hc : ∀ k ∈ g, k.2 = c) : trapezoidProduct f [g] = .ok (c * trapezoid f) := by
  obtain ⟨z, hzs, hsub, hr, e⟩ := trapezoid_product_within hf hg hp hq h1 h2
  rw [e, ← trapezoid_refine hf hp hq hzs hsub hr, ← trapezoid_sample_mul]
  congr 2
  apply sample_congr
  intro t _
  have := interp_bounds (x := t) (m := c) (M := c) hg h1.ne_nil
    (fun k hk => by rw [hc k hk]; exact ⟨le_rfl, le_rfl⟩)
  have : interp none none g t = c := le_antisymm this.2 this.1
  rw [this, mul_comm]

/-- Concrete case: two functions on [0, 2] and [1, 3]. -/
example : trapezoidProduct [(0, 1), (2, 5)] [[(1, 2), (3, 0)]] =
    trapezoidProduct [(1, 2), (3, 0)] [[(0, 1), (2, 5)]] ∧
    ∃ c, ∀ g ∈ [[((0 : ℝ), (1 : ℝ)), (2, 5)], [(1, 2), (3, 0)]], InRange g c := by
  refine ⟨trapezoid_product_symm, 3 / 2, ?_⟩
  intro g hg
  simp only [List.mem_cons, List.not_mem_nil, or_false] at hg
  rcases hg with rfl | rfl
  · exact ⟨_, _, rfl, rfl, by norm_num, by norm_num⟩
  · exact ⟨_, _, rfl, rfl, by norm_num, by norm_num⟩

end Glass.Num
