import Verif.Numerics.Spec
import Verif.Shells.WindowProps

/-!
# Restriction to a window and partition by restriction (C30, C31)
-/

namespace Glass.Shells

open Glass.Num MeasureTheory

/-! ## C30 -/

/-- `restrict` fails exactly for an empty window or an empty function. -/
theorem restrict_error_iff (f : List (ℝ × ℝ)) (w : RadialWindow) :
    (∃ e, restrict f w = .error e) ↔ w.knots = [] ∨ f = [] := by
  unfold restrict RadialWindow.za
  rcases hw : w.knots with _ | ⟨k, ks⟩
  · simp
  · rw [List.getLast?_eq_getLast_of_ne_nil (by simp)]
    by_cases hf : f = [] <;> simp [hf]

/-- The grid of the restriction. -/
theorem restrict_grid {f : List (ℝ × ℝ)} {w : RadialWindow} {r : List (ℝ × ℝ)} {a b : ℝ}
    (ha : w.za.head? = some a) (hb : w.za.getLast? = some b) (h : restrict f w = .ok r) :
    ∃ zr : List ℝ, zr.Pairwise (· < ·) ∧
      (∀ t, t ∈ zr ↔ t ∈ w.za ∨ (t ∈ f.map Prod.fst ∧ a < t ∧ t < b)) ∧
      r = sample (fun t => interp (some 0) (some 0) f t * interp none none w.knots t) zr ∧
      f ≠ [] := by
  unfold restrict at h
  rw [ha, hb] at h
  by_cases hf : f = []
  · simp [hf] at h
  · simp only [hf, if_false, Except.ok.injEq] at h
    refine ⟨_, union1d_sorted _ _, ?_, h.symm, hf⟩
    intro t
    rw [mem_union1d, List.mem_filter]
    simp

theorem sorted_head_last {zr : List ℝ} {a b : ℝ} (hs : zr.Pairwise (· < ·)) (ha : a ∈ zr)
    (hb : b ∈ zr) (h : ∀ t ∈ zr, a ≤ t ∧ t ≤ b) : zr.head? = some a ∧ zr.getLast? = some b := by
  constructor
  · rcases hh : zr.head? with _ | c
    · rw [List.head?_eq_none_iff] at hh; simp [hh] at ha
    · have h1 := head_le hs hh ha
      have h2 := (h c (List.mem_of_head? hh)).1
      rw [le_antisymm h1 h2]
  · rcases hh : zr.getLast? with _ | c
    · rw [List.getLast?_eq_none_iff] at hh; simp [hh] at ha
    · have h1 := le_last hs hh hb
      have h2 := (h c (List.mem_of_getLast? hh)).2
      rw [le_antisymm h2 h1]

/-- **C30.** The restriction of a function to a window has a strictly increasing grid with exactly
the points of the window and the points of the function strictly inside the window; it starts and
ends with the window; its values are the product of the two interpolants, and zero outside the
range of the function. -/
theorem restrict_spec {f : List (ℝ × ℝ)} {w : RadialWindow} {r : List (ℝ × ℝ)} {a b : ℝ}
    (hf : Inc f) (hw : Inc w.knots) (ha : w.za.head? = some a) (hb : w.za.getLast? = some b)
    (h : restrict f w = .ok r) {g v : ℝ → ℝ} (hg : Interpolates f g)
    (hv : Interpolates w.knots v) :
    (r.map Prod.fst).Pairwise (· < ·) ∧
    (∀ t, t ∈ r.map Prod.fst ↔ t ∈ w.za ∨ (t ∈ f.map Prod.fst ∧ a < t ∧ t < b)) ∧
    (r.map Prod.fst).head? = some a ∧ (r.map Prod.fst).getLast? = some b ∧
    ∀ k ∈ r, (InRange f k.1 → k.2 = g k.1 * v k.1) ∧ (¬ InRange f k.1 → k.2 = 0) := by
  obtain ⟨zr, hs, hm, rfl, -⟩ := restrict_grid ha hb h
  have e : (sample (fun t => interp (some 0) (some 0) f t * interp none none w.knots t) zr).map
      Prod.fst = zr := by simp [sample, Function.comp_def]
  have hws : w.za.Pairwise (· < ·) := by
    unfold RadialWindow.za; rw [List.pairwise_map]; exact hw
  have ham : a ∈ w.za := List.mem_of_head? ha
  have hbm : b ∈ w.za := List.mem_of_getLast? hb
  have hbd : ∀ t ∈ zr, a ≤ t ∧ t ≤ b := by
    intro t ht
    rcases (hm t).1 ht with ht | ht
    · exact ⟨head_le hws ha ht, le_last hws hb ht⟩
    · exact ⟨ht.2.1.le, ht.2.2.le⟩
  rw [e]
  have hhl := sorted_head_last hs ((hm a).2 (Or.inl ham)) ((hm b).2 (Or.inl hbm)) hbd
  refine ⟨hs, hm, hhl.1, hhl.2, ?_⟩
  intro k hk
  obtain ⟨t, ht, rfl⟩ := List.mem_map.1 hk
  have hrange : InRange w.knots t := by
    unfold RadialWindow.za at ha hb
    rw [List.head?_map] at ha
    rw [List.getLast?_map] at hb
    rcases ha' : w.knots.head? with _ | k0
    · rw [ha'] at ha; simp at ha
    · rcases hb' : w.knots.getLast? with _ | k1
      · rw [hb'] at hb; simp at hb
      · rw [ha'] at ha; rw [hb'] at hb
        simp at ha hb
        exact ⟨k0, k1, ha', hb', by rw [ha]; exact (hbd t ht).1, by rw [hb]; exact (hbd t ht).2⟩
  constructor
  · intro hr
    simp only
    rw [interp_inRange hr, interp_inRange hrange, interpolates_unique hf hg hr,
      interpolates_unique hw hv hrange]
  · intro hr
    simp only
    rw [interp_zero hr, zero_mul]

/-- Concrete case: a function on [0, 2] restricted to a window on [1, 3]; its point at 3/2 is
kept, the point at 1/2 is not. -/
example : ∃ r, restrict [(0, 1), (1 / 2, 2), (3 / 2, 4), (2, 1)] ⟨[(1, 1), (2, 2), (3, 0)], 2⟩ = .ok r ∧
    (3 / 2 : ℝ) ∈ r.map Prod.fst ∧ (1 / 2 : ℝ) ∉ r.map Prod.fst := by
  have hf : Inc [((0 : ℝ), (1 : ℝ)), (1 / 2, 2), (3 / 2, 4), (2, 1)] := by
    simp only [Inc]; norm_num
  have hw : Inc [((1 : ℝ), (1 : ℝ)), (2, 2), (3, 0)] := by simp only [Inc]; norm_num
  rcases h : restrict [((0 : ℝ), (1 : ℝ)), (1 / 2, 2), (3 / 2, 4), (2, 1)]
    ⟨[(1, 1), (2, 2), (3, 0)], 2⟩ with e | r
  · have := (restrict_error_iff _ _).1 ⟨e, h⟩
    simp at this
  · refine ⟨r, rfl, ?_⟩
    obtain ⟨-, hm, -⟩ := restrict_spec hf hw (a := 1) (b := 3) rfl rfl h
      (interp_interpolates hf none none) (interp_interpolates hw none none)
    constructor
    · rw [hm]; right; norm_num
    · rw [hm]; simp only [RadialWindow.za]; norm_num

/-! ## C31 -/

/-- Partition of a function that need not vanish at its ends: with tophat windows reaching beyond
the range of the function, the restriction connects the last window point outside with the first
point of the function by a straight line, so that the parts do not sum to the integral.  Here the
function is 1 on [1, 2], the only bin is [0, 3] with grid spacing 3; the result is 2 instead
of 1. -/
theorem partition_restrict_not_conserving :
    ∃ (f : List (ℝ × ℝ)) (ws : List RadialWindow) (parts : List ℝ), Inc f ∧
      tophatWindows (fun _ => 2) [0, 3] 3 none = .ok ws ∧
      (∀ k ∈ f, 0 ≤ k.1 ∧ k.1 ≤ 3) ∧
      partitionRestrict f ws = .ok parts ∧ parts.sum = 2 ∧ trapezoid f = 1 := by
  refine ⟨[(1, 1), (2, 1)], _, [2], by simp [Inc], rfl, by simp; norm_num, ?_, by simp,
    by norm_num [trapezoid]⟩
  have hl : linspace (0 : ℝ) 3 2 = [0, 3] := by norm_num [linspace, List.range_succ]
  have hk : (tophatWindow (fun _ => 2) 3 none 0 3).knots = [(0, 1), (3, 1)] := by
    rw [tophatWindow_knots]
    have : gridSize (fun _ => 2) 3 0 3 = 2 := by simp [gridSize]
    rw [this, hl]; simp [sample]
  have hza : (tophatWindow (fun _ => 2) 3 none 0 3).za = [0, 3] := by
    rw [RadialWindow.za, hk]; rfl
  have hr : restrict [(1, 1), (2, 1)] (tophatWindow (fun _ => 2) 3 none 0 3) =
      .ok [(0, 0), (1, 1), (2, 1), (3, 0)] := by
    rcases h : restrict [(1, 1), (2, 1)] (tophatWindow (fun _ => 2) 3 none 0 3) with e | r
    · have := (restrict_error_iff _ _).1 ⟨e, h⟩
      simp [hk] at this
    · obtain ⟨zr, hs, hm, rfl, -⟩ := restrict_grid (a := 0) (b := 3) (by rw [hza]; rfl)
        (by rw [hza]; rfl) h
      have : zr = [0, 1, 2, 3] := by
        apply sorted_unique hs (by norm_num)
        intro t
        rw [hm, hza]
        simp only [List.mem_cons, List.map_cons, List.map_nil, List.not_mem_nil, or_false]
        constructor
        · rintro ((rfl | rfl) | ⟨rfl | rfl, -⟩) <;> norm_num
        · rintro (rfl | rfl | rfl | rfl) <;> norm_num
      rw [this, hk]
      norm_num [sample, interp, interpIn]
  simp only [partitionRestrict, restrictParts, pairs, List.tail_cons, List.zip_cons_cons, List.zip_nil_right,
    List.map_cons, List.map_nil, List.mapM_cons, List.mapM_nil, hr]
  simp only [Except.map, bind, Except.bind, pure, Except.pure]
  norm_num [trapezoid]

/-- The function of a tiling with zeros outside: the interpolant of `f` with `left=0, right=0` is
affine wherever no knot of `f` is passed. -/
theorem zeroInterp_affine {f : List (ℝ × ℝ)} (hf : Inc f) {p q : ℝ × ℝ}
    (hp : f.head? = some p) (hq : f.getLast? = some q) {c d : ℝ} (hcd : c < d)
    (hL : p.2 = 0 ∨ p.1 ≤ c) (hR : q.2 = 0 ∨ d ≤ q.1)
    (hn : ∀ k ∈ f, ¬ (c < k.1 ∧ k.1 < d)) :
    ∃ m n : ℝ, ∀ x, c ≤ x → x ≤ d → interp (some 0) (some 0) f x = m * x + n := by
  have hpm : p ∈ f := List.mem_of_head? hp
  have hqm : q ∈ f := List.mem_of_getLast? hq
  by_cases h1 : c < p.1
  · have hd : d ≤ p.1 := by
      by_contra hc
      exact hn p hpm ⟨h1, not_le.1 hc⟩
    have hp0 : p.2 = 0 := by
      rcases hL with h | h
      · exact h
      · linarith
    refine ⟨0, 0, fun x _ hx => ?_⟩
    rcases (hx.trans hd).lt_or_eq with hlt | heq
    · rw [interp_zero]
      · ring
      · rintro ⟨a, b, ha, -, h3, -⟩
        rw [hp] at ha
        simp only [Option.some.injEq] at ha
        subst ha
        linarith
    · rw [heq, interp_knot hf hpm, hp0]; ring
  · by_cases h2 : d ≤ q.1
    · have hne : f ≠ [] := by rintro rfl; simp at hp
      obtain ⟨m, n, hmn⟩ := interpIn_affine hf hne hcd.le
        (by rw [hp]; simpa using not_lt.1 h1) (by rw [hq]; simpa using h2) hn
      refine ⟨m, n, fun x hx hx' => ?_⟩
      rw [interp_inRange ⟨p, q, hp, hq, (not_lt.1 h1).trans hx, hx'.trans h2⟩]
      exact hmn x hx hx'
    · have hc : q.1 ≤ c := by
        by_contra hc
        exact hn q hqm ⟨not_le.1 hc, not_le.1 h2⟩
      have hq0 : q.2 = 0 := by
        rcases hR with h | h
        · exact h
        · exact absurd h h2
      refine ⟨0, 0, fun x hx _ => ?_⟩
      rcases (hc.trans hx).lt_or_eq with hlt | heq
      · rw [interp_zero]
        · ring
        · rintro ⟨a, b, -, hb, -, h3⟩
          rw [hq] at hb
          simp only [Option.some.injEq] at hb
          subst hb
          linarith
      · rw [← heq, interp_knot hf hqm, hq0]; ring

/-- One part: the restriction to a tophat window integrates the function over the bin. -/
theorem restrict_tophat {f : List (ℝ × ℝ)} (hf : Inc f) {p q : ℝ × ℝ} (hp : f.head? = some p)
    (hq : f.getLast? = some q) {rnd : ℝ → ℤ} {dz a b : ℝ} (hab : a < b)
    (hL : p.2 = 0 ∨ p.1 ≤ a) (hR : q.2 = 0 ∨ b ≤ q.1) :
    ∃ r, restrict f (tophatWindow rnd dz none a b) = .ok r ∧
      IntervalIntegrable (interp (some 0) (some 0) f) volume a b ∧
      trapezoid r = ∫ x in a..b, interp (some 0) (some 0) f x := by
  have hn := gridSize_ge rnd dz a b
  have hza := tophatWindow_za rnd dz none a b
  have ha : (tophatWindow rnd dz none a b).za.head? = some a := by
    rw [hza]; exact linspace_head (by omega)
  have hb : (tophatWindow rnd dz none a b).za.getLast? = some b := by
    rw [hza]; exact linspace_last hn
  have hws := linspace_sorted hab (gridSize rnd dz a b)
  rcases h : restrict f (tophatWindow rnd dz none a b) with e | r
  · have := (restrict_error_iff _ _).1 ⟨e, h⟩
    rcases this with h' | h'
    · rw [RadialWindow.za, h'] at ha; simp at ha
    · rw [h'] at hp; simp at hp
  · refine ⟨r, rfl, ?_⟩
    obtain ⟨zr, hs, hm, rfl, -⟩ := restrict_grid ha hb h
    rw [hza] at hm
    have ha' : a ∈ linspace a b (gridSize rnd dz a b) := List.mem_of_head? (hza ▸ ha)
    have hb' : b ∈ linspace a b (gridSize rnd dz a b) := List.mem_of_getLast? (hza ▸ hb)
    have hbd : ∀ t ∈ zr, a ≤ t ∧ t ≤ b := by
      intro t ht
      rcases (hm t).1 ht with ht | ht
      · exact last_gt hab hn ht
      · exact ⟨ht.2.1.le, ht.2.2.le⟩
    have hhl := sorted_head_last hs ((hm a).2 (Or.inl ha')) ((hm b).2 (Or.inl hb')) hbd
    have hone : ∀ t, interp none none (tophatWindow rnd dz none a b).knots t = 1 := by
      intro t
      have hinc : Inc (tophatWindow rnd dz none a b).knots := by
        rw [tophatWindow_knots]; exact inc_sample.2 hws
      have hne : (tophatWindow rnd dz none a b).knots ≠ [] := by
        intro h'; rw [RadialWindow.za, h'] at ha; simp at ha
      have := interp_bounds (x := t) (m := 1) (M := 1) hinc hne (by
        rw [tophatWindow_knots]; intro k hk
        obtain ⟨t, -, rfl⟩ := List.mem_map.1 hk
        simp)
      linarith [this.1, this.2]
    have hsamp : sample (fun t => interp (some 0) (some 0) f t *
        interp none none (tophatWindow rnd dz none a b).knots t) zr =
        sample (interp (some 0) (some 0) f) zr :=
      sample_congr fun t _ => by rw [hone, mul_one]
    rw [hsamp]
    have hA : AffineBetween (interp (some 0) (some 0) f) zr := by
      apply affineBetween_of hs
      intro c d hc hd hcd hno
      have hc' := hbd c hc
      have hd' := hbd d hd
      apply zeroInterp_affine hf hp hq hcd
      · rcases hL with h | h
        · exact Or.inl h
        · exact Or.inr (h.trans hc'.1)
      · rcases hR with h | h
        · exact Or.inl h
        · exact Or.inr (hd'.2.trans h)
      · intro k hk ⟨h1, h2⟩
        exact hno k.1 ((hm k.1).2 (Or.inr ⟨List.mem_map_of_mem hk, by linarith, by linarith⟩))
          ⟨h1, h2⟩
    rcases zr with _ | ⟨z0, zr⟩
    · simp at hhl
    · have hz0 : z0 = a := by simpa using hhl.1
      subst hz0
      exact trapezoid_integral _ zr z0 (hs.imp fun h => h.le) hA b hhl.2

theorem mapM_ok {α β : Type} {F : α → Except Err β} {P : α → β → Prop} : ∀ (l : List α),
    (∀ x ∈ l, ∃ y, F x = .ok y ∧ P x y) → ∃ ys, l.mapM F = .ok ys ∧ List.Forall₂ P l ys
  | [], _ => ⟨[], rfl, List.Forall₂.nil⟩
  | x :: l, h => by
    obtain ⟨y, hy, hP⟩ := h x (by simp)
    obtain ⟨ys, hys, hF⟩ := mapM_ok l fun x hx => h x (List.mem_cons_of_mem _ hx)
    refine ⟨y :: ys, ?_, List.Forall₂.cons hP hF⟩
    rw [List.mapM_cons, hy]
    simp only [bind, Except.bind]
    rw [hys]
    rfl

/-- Contiguous bins: the parts sum to the integral over all bins. -/
theorem partition_tophat_integral {f : List (ℝ × ℝ)} (hf : Inc f) {p q : ℝ × ℝ}
    (hp : f.head? = some p) (hq : f.getLast? = some q) {rnd : ℝ → ℤ} {dz : ℝ} :
    ∀ (es : List ℝ) (a b : ℝ), (a :: es).Pairwise (· < ·) → (a :: es).getLast? = some b →
      (p.2 = 0 ∨ p.1 ≤ a) → (q.2 = 0 ∨ b ≤ q.1) →
      ∃ parts, restrictParts f ((pairs (a :: es)).map fun e => tophatWindow rnd dz none e.1 e.2)
          = .ok parts ∧
        IntervalIntegrable (interp (some 0) (some 0) f) volume a b ∧
        parts.sum = ∫ x in a..b, interp (some 0) (some 0) f x
  | [], a, b, _, hb, _, _ => by
    simp at hb
    subst hb
    exact ⟨[], rfl, by simp⟩
  | e :: es, a, b, hs, hb, hL, hR => by
    have hae : a < e := (List.pairwise_cons.1 hs).1 e (by simp)
    have hb' : (e :: es).getLast? = some b := by simpa using hb
    have heb : e ≤ b := le_last (List.pairwise_cons.1 hs).2 hb' (by simp)
    obtain ⟨parts, h1, i1, s1⟩ := partition_tophat_integral hf hp hq es e b
      (List.pairwise_cons.1 hs).2 hb'
      (by rcases hL with h | h
          · exact Or.inl h
          · exact Or.inr (by linarith)) hR
    obtain ⟨r, h2, i2, s2⟩ := restrict_tophat hf hp hq (rnd := rnd) (dz := dz) hae hL
      (by rcases hR with h | h
          · exact Or.inl h
          · exact Or.inr (by linarith))
    refine ⟨trapezoid r :: parts, ?_, i2.trans i1, ?_⟩
    · unfold restrictParts at h1 ⊢
      simp only [pairs, List.tail_cons, List.zip_cons_cons, List.map_cons, List.mapM_cons, h2,
        Except.map, bind, Except.bind] at h1 ⊢
      rw [h1]
      rfl
    · rw [List.sum_cons, s1, s2, intervalIntegral.integral_add_adjacent_intervals i2 i1]

/-- The trapezoidal integral of a sampled function is the integral of its interpolant. -/
theorem trapezoid_self {f : List (ℝ × ℝ)} (hf : Inc f) {p q : ℝ × ℝ} (hp : f.head? = some p)
    (hq : f.getLast? = some q) :
    IntervalIntegrable (interp (some 0) (some 0) f) volume p.1 q.1 ∧
      trapezoid f = ∫ x in p.1..q.1, interp (some 0) (some 0) f x := by
  have e : f = sample (interp (some 0) (some 0) f) (f.map Prod.fst) := by
    unfold sample
    rw [List.map_map]
    nth_rewrite 1 [← List.map_id f]
    rw [List.map_inj_left]
    intro k hk
    simp only [Function.comp, id, interp_knot hf hk]
  have hs : (f.map Prod.fst).Pairwise (· < ·) := by rw [List.pairwise_map]; exact hf
  have hA : AffineBetween (interp (some 0) (some 0) f) (f.map Prod.fst) := by
    apply affineBetween_of hs
    intro c d hc hd hcd hno
    have hc' : p.1 ≤ c := head_le hs (by rw [List.head?_map, hp]; rfl) hc
    have hd' : d ≤ q.1 := le_last hs (by rw [List.getLast?_map, hq]; rfl) hd
    exact zeroInterp_affine hf hp hq hcd (Or.inr hc') (Or.inr hd')
      (fun k hk => hno k.1 (List.mem_map_of_mem hk))
  have hl : (f.map Prod.fst).getLast? = some q.1 := by rw [List.getLast?_map, hq]; rfl
  have hh : (f.map Prod.fst).head? = some p.1 := by rw [List.head?_map, hp]; rfl
  rcases hz : f.map Prod.fst with _ | ⟨z0, zs⟩
  · rw [hz] at hh; simp at hh
  · rw [hz] at hh hl hs hA
    simp at hh
    subst hh
    have := trapezoid_integral _ zs p.1 (hs.imp fun h => h.le) hA q.1 hl
    rw [← hz, ← e] at this
    exact this

/-- **C31 (partial).**  For contiguous tophat windows that cover the points of the function, the
parts of `partition_restrict` sum to the trapezoidal integral of the function, provided that on
either side the windows end exactly where the function does, or the function vanishes at its end.
What is missing for the full claim is false: see `partition_restrict_not_conserving`. -/
theorem partition_restrict_conserves_partial {f : List (ℝ × ℝ)} (hf : Inc f) {p q : ℝ × ℝ}
    (hp : f.head? = some p) (hq : f.getLast? = some q) {rnd : ℝ → ℤ} {dz : ℝ} {zbins : List ℝ}
    {a b : ℝ} (hz : zbins.Pairwise (· < ·)) (ha : zbins.head? = some a)
    (hb : zbins.getLast? = some b) (hcov : a ≤ p.1 ∧ q.1 ≤ b) (hL : p.2 = 0 ∨ a = p.1)
    (hR : q.2 = 0 ∨ b = q.1) {ws : List RadialWindow}
    (h : tophatWindows rnd zbins dz none = .ok ws) :
    ∃ parts, partitionRestrict f ws = .ok parts ∧ parts.length = ws.length ∧
      parts.sum = trapezoid f := by
  unfold tophatWindows at h
  split_ifs at h with hl
  simp only [Except.ok.injEq] at h
  subst h
  rcases zbins with _ | ⟨a', es⟩
  · simp at ha
  simp at ha
  subst ha
  obtain ⟨parts, h1, i1, s1⟩ := partition_tophat_integral hf hp hq (rnd := rnd) (dz := dz) es a' b
    hz hb (hL.imp id fun h => h.ge) (hR.imp id fun h => h.le)
  have hlen : parts.length = ((pairs (a' :: es)).map fun e =>
      tophatWindow rnd dz none e.1 e.2).length := by
    obtain ⟨ys, hys, hF⟩ := mapM_ok (P := fun _ _ => True)
      (F := fun w => (restrict f w).map trapezoid)
      ((pairs (a' :: es)).map fun e => tophatWindow rnd dz none e.1 e.2) (by
        intro w hw
        rcases hr : restrict f w with e | r
        · exfalso
          rcases (restrict_error_iff _ _).1 ⟨e, hr⟩ with h' | h'
          · obtain ⟨e, -, rfl⟩ := List.mem_map.1 hw
            rw [tophatWindow_knots] at h'
            have := congrArg List.length h'
            have hn := gridSize_ge rnd dz e.1 e.2
            simp [sample, linspace] at this
            omega
          · rw [h'] at hp; simp at hp
        · exact ⟨trapezoid r, rfl, trivial⟩)
    unfold restrictParts at h1
    rw [h1] at hys
    simp only [Except.ok.injEq] at hys
    rw [hys]
    exact hF.length_eq.symm
  refine ⟨parts, ?_, hlen, ?_⟩
  · rw [partitionRestrict, h1]
    rcases parts with _ | ⟨x, parts⟩
    · rcases es with _ | ⟨e, es⟩
      · simp at hl
      · simp [pairs] at hlen
    · rfl
  · obtain ⟨i2, s2⟩ := trapezoid_self hf hp hq
    have hpm : p ∈ f := List.mem_of_head? hp
    have hqm : q ∈ f := List.mem_of_getLast? hq
    have hpq : p.1 ≤ q.1 := by
      obtain ⟨a0, b0, -, hb0, -, h'⟩ := inRange_of_mem hf hpm
      rw [hq] at hb0
      simp only [Option.some.injEq] at hb0
      subst hb0
      exact h'
    have hzero : ∀ (c d : ℝ), c ≤ d → (∀ x, c ≤ x → x ≤ d → interp (some 0) (some 0) f x = 0) →
        IntervalIntegrable (interp (some 0) (some 0) f) volume c d ∧
          ∫ x in c..d, interp (some 0) (some 0) f x = 0 := by
      intro c d hcd h0
      have := affine_integral (f := interp (some 0) (some 0) f) (p := 0) (q := 0) hcd
        (by intro x hx hx'; rw [h0 x hx hx']; ring)
      rw [this.2, h0 c le_rfl hcd, h0 d hcd le_rfl]
      exact ⟨this.1, by ring⟩
    have hleft : IntervalIntegrable (interp (some 0) (some 0) f) volume a' p.1 ∧
        ∫ x in a'..p.1, interp (some 0) (some 0) f x = 0 := by
      rcases hL with h0 | rfl
      · apply hzero _ _ hcov.1
        intro x hx hx'
        rcases hx'.lt_or_eq with hlt | rfl
        · apply interp_zero
          rintro ⟨c, d, hc, -, h3, -⟩
          rw [hp] at hc
          simp only [Option.some.injEq] at hc
          subst hc
          linarith
        · rw [interp_knot hf hpm, h0]
      · simp
    have hright : IntervalIntegrable (interp (some 0) (some 0) f) volume q.1 b ∧
        ∫ x in q.1..b, interp (some 0) (some 0) f x = 0 := by
      rcases hR with h0 | rfl
      · apply hzero _ _ hcov.2
        intro x hx hx'
        rcases hx.lt_or_eq with hlt | rfl
        · apply interp_zero
          rintro ⟨c, d, -, hd, -, h3⟩
          rw [hq] at hd
          simp only [Option.some.injEq] at hd
          subst hd
          linarith
        · rw [interp_knot hf hqm, h0]
      · simp
    rw [s1, s2, ← intervalIntegral.integral_add_adjacent_intervals hleft.1 (i2.trans hright.1),
      ← intervalIntegral.integral_add_adjacent_intervals i2 hright.1, hleft.2, hright.2]
    ring

/-- Concrete case: a triangle on [1/2, 5/2] over the bins 0, 1, 2, 3. -/
example : ∃ ws parts, tophatWindows (fun x => ⌊x⌋) [0, 1, 2, 3] (1 / 10) none = .ok ws ∧
    partitionRestrict [(1 / 2, 0), (3 / 2, 1), (5 / 2, 0)] ws = .ok parts ∧ parts.sum = 1 := by
  have hf : Inc [((1 / 2 : ℝ), (0 : ℝ)), (3 / 2, 1), (5 / 2, 0)] := by simp only [Inc]; norm_num
  obtain ⟨parts, h1, -, h2⟩ := partition_restrict_conserves_partial hf rfl rfl
    (rnd := fun x => ⌊x⌋) (dz := 1 / 10) (zbins := [0, 1, 2, 3]) (a := 0) (b := 3) (by norm_num)
    rfl rfl (by norm_num) (Or.inl rfl) (Or.inl rfl) rfl
  refine ⟨_, parts, rfl, h1, ?_⟩
  rw [h2]; norm_num [trapezoid]

end Glass.Shells
