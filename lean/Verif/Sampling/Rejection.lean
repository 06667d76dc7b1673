import Mathlib.Probability.ConditionalProbability
import Mathlib.Analysis.SpecificLimits.Basic
import Verif.Shapes.Model

/-!
# The law of rejection sampling

The three rejection loops of the package (`shapes.py:202-206`, `shapes.py:275-281` and
`galaxies.py:446-453`) differ in how the new values are drawn: for the rejected entries only, or for
all entries with the unused ones discarded.  Here the new values are given by a function of the
generator and of the flags of the rejected entries; the law of the result is obtained for every
such function whose values are independent, with given laws, and independent of the new generator.
-/

namespace Glass.Sampling

open Glass Glass.Shapes MeasureTheory ProbabilityTheory Filter
open scoped ENNReal

/-! ## Lists with flags -/

/-- Every entry lies in its set. -/
def InBox {α : Type} (x : List α) (As : List (Set α)) : Prop := List.Forall₂ (fun a A => a ∈ A) x As

/-- The entries with a set flag. -/
def select {β : Type} : List Bool → List β → List β
  | true :: m, b :: l => b :: select m l
  | false :: m, _ :: l => select m l
  | _, _ => []

/-- The flags of a selection as flags of the whole list. -/
def expand : List Bool → List Bool → List Bool
  | true :: m, c :: b => c :: expand m b
  | false :: m, b => false :: expand m b
  | _, _ => []

/-- All flags for a list of the given length. -/
def masks : ℕ → List (List Bool)
  | 0 => [[]]
  | n + 1 => (masks n).map (true :: ·) ++ (masks n).map (false :: ·)

section Lists

variable {α β ι : Type}

@[simp] theorem inBox_nil : InBox ([] : List α) [] := .nil

@[simp] theorem inBox_cons {a : α} {x : List α} {A : Set α} {As : List (Set α)} :
    InBox (a :: x) (A :: As) ↔ a ∈ A ∧ InBox x As := List.forall₂_cons

@[simp] theorem not_inBox_nil_cons {A : Set α} {As : List (Set α)} : ¬ InBox [] (A :: As) := by
  rintro ⟨⟩

@[simp] theorem not_inBox_cons_nil {a : α} {x : List α} : ¬ InBox (a :: x) [] := by
  rintro ⟨⟩

theorem InBox.length {x : List α} {As : List (Set α)} (h : InBox x As) : x.length = As.length :=
  List.Forall₂.length_eq h

theorem select_length : ∀ {m : List Bool} {l : List β}, m.length = l.length →
    (select m l).length = m.count true
  | [], [], _ => rfl
  | [], _ :: _, h => by simp at h
  | _ :: _, [], h => by simp at h
  | true :: m, b :: l, h => by simp [select, select_length (m := m) (l := l) (by simpa using h)]
  | false :: m, b :: l, h => by simp [select, select_length (m := m) (l := l) (by simpa using h)]

theorem select_map {γ : Type} (f : β → γ) : ∀ (m : List Bool) (l : List β),
    select m (l.map f) = (select m l).map f
  | [], _ => by simp [select]
  | true :: _, [] => by simp [select]
  | false :: _, [] => by simp [select]
  | true :: m, b :: l => by simp [select, select_map f m l]
  | false :: m, b :: l => by simp [select, select_map f m l]

theorem select_all : ∀ (l : List β), select (List.replicate l.length true) l = l
  | [] => rfl
  | b :: l => by
    simp only [List.length_cons, List.replicate_succ, select]
    rw [select_all l]

theorem merge_all : ∀ {x v : List α}, v.length = x.length →
    maskMerge (List.replicate x.length true) x v = v
  | [], [], _ => rfl
  | [], _ :: _, h => by simp at h
  | _ :: _, [], h => by simp at h
  | a :: x, b :: v, h => by
    simp only [List.length_cons, List.replicate_succ, maskMerge]
    rw [merge_all (by simpa using h)]

theorem expand_length : ∀ {m b : List Bool}, b.length = m.count true →
    (expand m b).length = m.length
  | [], _, _ => by simp [expand]
  | true :: m, [], h => by simp at h
  | true :: m, c :: b, h => by simp [expand, expand_length (m := m) (b := b) (by simpa using h)]
  | false :: m, b, h => by simp [expand, expand_length (m := m) (b := b) (by simpa using h)]

theorem expand_any : ∀ {m b : List Bool}, b.length = m.count true →
    (expand m b).any id = b.any id
  | [], b, h => by
    have : b = [] := by simpa using h
    subst this
    rfl
  | true :: m, [], h => by simp at h
  | true :: m, c :: b, h => by
    simp only [expand, List.any_cons]
    rw [expand_any (by simpa using h)]
  | false :: m, b, h => by
    simp only [expand, List.any_cons, id, Bool.false_or]
    exact expand_any (by simpa using h)

theorem expand_all : ∀ (b : List Bool), expand (List.replicate b.length true) b = b
  | [] => rfl
  | c :: b => by
    simp only [List.length_cons, List.replicate_succ, expand]
    rw [expand_all b]

theorem select_expand : ∀ {m b : List Bool} {l : List β}, m.length = l.length →
    b.length = m.count true → select (expand m b) l = select b (select m l)
  | [], b, l, _, h => by
    have : b = [] := by simpa using h
    subst this
    simp [select, expand]
  | _ :: _, _, [], h, _ => by simp at h
  | true :: m, [], _, _, h => by simp at h
  | true :: m, true :: b, a :: l, h, h' => by
    simp only [expand, select]
    rw [select_expand (by simpa using h) (by simpa using h')]
  | true :: m, false :: b, a :: l, h, h' => by
    simp only [expand, select]
    rw [select_expand (by simpa using h) (by simpa using h')]
  | false :: m, b, a :: l, h, h' => by
    simp only [expand, select]
    rw [select_expand (by simpa using h) (by simpa using h')]

theorem masks_length : ∀ {n : ℕ} {b : List Bool}, b ∈ masks n → b.length = n
  | 0, b, h => by
    have : b = [] := by simpa [masks] using h
    simp [this]
  | n + 1, b, h => by
    rw [masks, List.mem_append, List.mem_map, List.mem_map] at h
    rcases h with ⟨c, hc, rfl⟩ | ⟨c, hc, rfl⟩ <;> simp [masks_length hc]

theorem mem_masks : ∀ (b : List Bool), b ∈ masks b.length
  | [] => by simp [masks]
  | true :: b => by simp [masks, mem_masks b]
  | false :: b => by simp [masks, mem_masks b]

theorem masks_nodup : ∀ (n : ℕ), (masks n).Nodup
  | 0 => by simp [masks]
  | n + 1 => by
    refine List.Nodup.append ((masks_nodup n).map fun _ _ h => (List.cons.inj h).2)
      ((masks_nodup n).map fun _ _ h => (List.cons.inj h).2) ?_
    intro a h h'
    obtain ⟨b, _, rfl⟩ := List.mem_map.1 h
    obtain ⟨c, _, h⟩ := List.mem_map.1 h'
    simp at h

theorem replicate_any (n : ℕ) : (List.replicate n true).any id = decide (0 < n) := by
  cases n <;> simp

end Lists

/-! ## The loop -/

section Loop

variable {σ α ι : Type} (bad : ι → α → Bool) (js : List ι) (draw : σ → List Bool → List α × σ)

/-- Rejection sampling of a list: `js` are the parameters of the entries, `bad` tells which values
are rejected, `draw s m` draws new values for the entries with a set flag.  `none` if the given
number of checks does not suffice. -/
def loop : ℕ → List α → σ → Option (List α × σ)
  | 0, _, _ => none
  | k + 1, x, s =>
    if (List.zipWith bad js x).any id then
      let r := draw s (List.zipWith bad js x)
      loop k (maskMerge (List.zipWith bad js x) x r.1) r.2
    else some (x, s)

/-- The entries with a set flag are drawn, followed by the loop. -/
def start (k : ℕ) (m : List Bool) (x : List α) (s : σ) : Option (List α × σ) :=
  loop bad js draw k (maskMerge m x (draw s m).1) (draw s m).2

/-- The whole list is drawn, followed by the loop. -/
def sampler (k : ℕ) (s : σ) : Option (List α × σ) :=
  loop bad js draw k (draw s (List.replicate js.length true)).1
    (draw s (List.replicate js.length true)).2

variable {bad js draw}

/-- More checks do not change a result. -/
theorem loop_mono : ∀ {k l : ℕ} {x : List α} {s : σ} {r : List α × σ}, k ≤ l →
    loop bad js draw k x s = some r → loop bad js draw l x s = some r
  | 0, _, _, _, _, _, h => by simp [loop] at h
  | k + 1, 0, _, _, _, h, _ => by omega
  | k + 1, l + 1, x, s, r, hkl, h => by
    rw [loop] at h ⊢
    split_ifs with hb
    · rw [if_pos hb] at h
      exact loop_mono (by omega) h
    · rwa [if_neg hb] at h

/-- The sets of the entries without a flag; anything for the others. -/
def outside (m : List Bool) (As : List (Set α)) : List (Set α) :=
  List.zipWith (fun b A => if b then Set.univ else A) m As

/-- Values that are not rejected. -/
def good (bad : ι → α → Bool) (j : ι) : Set α := {a | bad j a = false}

/-- The set of an entry that is found to be rejected, or accepted and in the required set. -/
def cell (bad : ι → α → Bool) (b : Bool) (p : ι × Set α) : Set α :=
  if b then {a | bad p.1 a = true} else p.2 ∩ good bad p.1

theorem inBox_cells : ∀ {b : List Bool} {ps : List (ι × Set α)} {v : List α},
    b.length = ps.length →
    (InBox v (List.zipWith (cell bad) b ps) ↔
      v.length = ps.length ∧ List.zipWith bad (ps.map Prod.fst) v = b ∧
        InBox v (outside b (ps.map Prod.snd)))
  | [], [], [], _ => by simp [outside]
  | [], [], _ :: _, _ => by simp
  | [], _ :: _, _, h => by simp at h
  | _ :: _, [], _, h => by simp at h
  | c :: b, p :: ps, [], h => by simp
  | c :: b, p :: ps, a :: v, h => by
    have ih := inBox_cells (b := b) (ps := ps) (v := v) (by simpa using h)
    simp only [List.zipWith_cons_cons, inBox_cons, ih, List.length_cons, List.map_cons, outside,
      Nat.add_right_cancel_iff, List.cons.injEq]
    cases c <;> simp [cell, good] <;> tauto

theorem outside_of_none : ∀ {m : List Bool} {As : List (Set α)}, m.length = As.length →
    m.any id = false → outside m As = As
  | [], [], _, _ => rfl
  | [], _ :: _, h, _ => by simp at h
  | _ :: _, [], h, _ => by simp at h
  | true :: m, A :: As, _, h => by simp at h
  | false :: m, A :: As, h, h' => by
    have := outside_of_none (m := m) (As := As) (by simpa using h) (by simpa using h')
    simpa [outside] using this

/-- The flags after new values have been drawn for the entries with a flag. -/
theorem badMask_merge : ∀ {js : List ι} {m : List Bool} {x v : List α}, m.length = js.length →
    InBox x (outside m (js.map (good bad))) → v.length = m.count true →
    List.zipWith bad js (maskMerge m x v) = expand m (List.zipWith bad (select m js) v)
  | [], [], _, _, _, _, _ => by simp [expand]
  | [], _ :: _, _, _, h, _, _ => by simp at h
  | _ :: _, [], _, _, h, _, _ => by simp at h
  | j :: js, c :: m, [], _, _, h, _ => by simp [outside] at h
  | j :: js, true :: m, a :: x, [], _, _, h => by simp at h
  | j :: js, true :: m, a :: x, b :: v, h, h', h'' => by
    simp only [maskMerge, List.zipWith_cons_cons, select, expand]
    rw [badMask_merge (by simpa using h) (by simpa [outside] using h') (by simpa using h'')]
  | j :: js, false :: m, a :: x, v, h, h', h'' => by
    simp only [outside, List.map_cons, List.zipWith_cons_cons, inBox_cons] at h'
    simp only [maskMerge, List.zipWith_cons_cons, select, expand]
    rw [badMask_merge (by simpa using h) h'.2 (by simpa using h'')]
    have : bad j a = false := by simpa [good] using h'.1
    rw [this]

theorem outside_merge : ∀ {As : List (Set α)} {m b : List Bool} {x v : List α},
    m.length = As.length → x.length = As.length → v.length = m.count true →
    b.length = m.count true →
    (InBox (maskMerge m x v) (outside (expand m b) As) ↔
      InBox x (outside m As) ∧ InBox v (outside b (select m As)))
  | [], [], b, [], v, _, _, hv, hb => by
    have hv : v = [] := by simpa using hv
    have hb : b = [] := by simpa using hb
    subst hv hb
    simp [outside, maskMerge, select, expand]
  | [], _ :: _, _, _, _, h, _, _, _ => by simp at h
  | [], _, _, _ :: _, _, _, h, _, _ => by simp at h
  | _ :: _, [], _, _, _, h, _, _, _ => by simp at h
  | _ :: _, _, _, [], _, _, h, _, _ => by simp at h
  | A :: As, true :: m, [], a :: x, _, _, _, _, h => by simp at h
  | A :: As, true :: m, _, a :: x, [], _, _, h, _ => by simp at h
  | A :: As, true :: m, c :: b, a :: x, w :: v, h, h', hv, hb => by
    have ih := outside_merge (As := As) (m := m) (b := b) (x := x) (v := v) (by simpa using h)
      (by simpa using h') (by simpa using hv) (by simpa using hb)
    simp only [outside] at ih
    simp only [maskMerge, expand, outside, List.zipWith_cons_cons, inBox_cons, ih, select, if_true,
      Set.mem_univ, true_and]
    tauto
  | A :: As, false :: m, b, a :: x, v, h, h', hv, hb => by
    have ih := outside_merge (As := As) (m := m) (b := b) (x := x) (v := v) (by simpa using h)
      (by simpa using h') (by simpa using hv) (by simpa using hb)
    simp only [outside] at ih
    simp only [maskMerge, expand, outside, List.zipWith_cons_cons, inBox_cons, ih, select,
      Bool.false_eq_true, if_false]
    tauto

theorem outside_good_merge {js : List ι} {m : List Bool} {x v : List α} (hm : m.length = js.length)
    (hx : InBox x (outside m (js.map (good bad)))) (hv : v.length = m.count true) :
    InBox (maskMerge m x v) (outside (expand m (List.zipWith bad (select m js) v))
      (js.map (good bad))) := by
  have hxl : x.length = js.length := by
    have := hx.length
    simp only [outside, List.length_zipWith, List.length_map] at this
    omega
  have hsl := select_length hm
  rw [outside_merge (by simpa using hm) (by simpa using hxl) hv (by simp [hsl, hv])]
  refine ⟨hx, ?_⟩
  rw [select_map]
  have hl : v.length = (select m js).length := by rw [hv, hsl]
  clear hv hsl hx hm
  generalize select m js = l at hl
  induction l generalizing v with
  | nil =>
    have : v = [] := by simpa using hl
    subst this
    simp [outside]
  | cons j l ih =>
    rcases v with _ | ⟨a, v⟩
    · simp at hl
    · have := ih (v := v) (by simpa using hl)
      simp only [outside] at this
      simp only [List.zipWith_cons_cons, List.map_cons, outside, inBox_cons, this, and_true]
      split_ifs with h
      · trivial
      · simpa [good] using h

/-- The generators for which the entries with a flag in `m` are drawn within `k` checks such that
the values are in the required sets and the final generator is in `F`; without reference to the
values drawn. -/
def hits (bad : ι → α → Bool) (draw : σ → List Bool → List α × σ) (ps : List (ι × Set α))
    (F : Set σ) : ℕ → List Bool → Set σ
  | 0, _ => ∅
  | k + 1, m => {s | ∃ b ∈ masks (m.count true),
      InBox (draw s m).1 (List.zipWith (cell bad) b (select m ps)) ∧
      (draw s m).2 ∈ if b.any id then hits bad draw ps F k (expand m b) else F}

theorem start_hits {ps : List (ι × Set α)} {F : Set σ}
    (hd : ∀ s m, m.length = ps.length → (draw s m).1.length = m.count true) :
    ∀ {k : ℕ} {m : List Bool} {x : List α} {s : σ}, m.length = ps.length →
    InBox x (outside m ((ps.map Prod.fst).map (good bad))) →
    ((∃ r, start bad (ps.map Prod.fst) draw k m x s = some r ∧ InBox r.1 (ps.map Prod.snd) ∧
      r.2 ∈ F) ↔ InBox x (outside m (ps.map Prod.snd)) ∧ s ∈ hits bad draw ps F k m)
  | 0, m, x, s, _, _ => by simp [start, loop, hits]
  | k + 1, m, x, s, hm, hx => by
    have hv := hd s m hm
    have hxl : x.length = ps.length := by
      have := hx.length
      simp only [outside, List.length_zipWith, List.length_map] at this
      omega
    have hbm := badMask_merge (bad := bad) (js := ps.map Prod.fst) (m := m) (x := x)
      (v := (draw s m).1) (by simpa using hm) hx hv
    have hsl : (select m ps).length = m.count true := select_length hm
    have hgm := outside_good_merge (bad := bad) (js := ps.map Prod.fst) (m := m) (x := x)
      (v := (draw s m).1) (by simpa using hm) hx hv
    set b := List.zipWith bad (select m (ps.map Prod.fst)) (draw s m).1 with hb
    have hbl : b.length = m.count true := by
      rw [hb, List.length_zipWith, select_map, List.length_map, hsl, hv, min_self]
    have hmem : s ∈ hits bad draw ps F (k + 1) m ↔
        InBox (draw s m).1 (outside b (select m (ps.map Prod.snd))) ∧
        (draw s m).2 ∈ if b.any id then hits bad draw ps F k (expand m b) else F := by
      simp only [hits, Set.mem_ofPred_eq]
      constructor
      · rintro ⟨c, hc, h1, h2⟩
        rw [inBox_cells (by rw [hsl, masks_length hc])] at h1
        obtain ⟨-, h3, h4⟩ := h1
        rw [← select_map] at h3 h4
        rw [← hb] at h3
        subst h3
        exact ⟨h4, h2⟩
      · rintro ⟨h1, h2⟩
        refine ⟨b, hbl ▸ mem_masks b, ?_, h2⟩
        rw [inBox_cells (by rw [hsl, hbl]), hsl, hv, ← select_map, ← select_map]
        exact ⟨rfl, hb.symm, h1⟩
    have hom := outside_merge (As := ps.map Prod.snd) (m := m) (b := b) (x := x)
      (v := (draw s m).1) (by simpa using hm) (by simpa using hxl) hv hbl
    rw [hmem]
    unfold start
    rw [loop, hbm, expand_any hbl]
    by_cases hany : b.any id = true
    · rw [if_pos hany, if_pos hany]
      have ih := start_hits (F := F) hd (k := k) (m := expand m b)
        (x := maskMerge m x (draw s m).1) (s := (draw s m).2)
        (by rw [expand_length hbl, hm]) hgm
      unfold start at ih
      rw [ih, hom]
      tauto
    · rw [if_neg hany, if_neg hany]
      have h0 : (expand m b).any id = false := by
        rw [expand_any hbl]
        simpa using hany
      rw [outside_of_none (by rw [expand_length hbl]; simpa using hm) h0] at hom
      rw [← and_assoc, ← hom]
      constructor
      · rintro ⟨r, hr, h1, h2⟩
        cases hr
        exact ⟨h1, h2⟩
      · rintro ⟨h1, h2⟩
        exact ⟨_, rfl, h1, h2⟩

end Loop

/-! ## The law -/

section Law

variable {σ α ι : Type} [MeasurableSpace σ] [MeasurableSpace α]

/-- The draws for the entries with a set flag: one value for each of them; the values are
independent with the laws `ν`, the new generator is independent of them and has the law `μ`
again. -/
structure MaskLaw (μ : Measure σ) (ν : ι → Measure α) (js : List ι)
    (draw : σ → List Bool → List α × σ) : Prop where
  length : ∀ s m, m.length = js.length → (draw s m).1.length = m.count true
  measurable : ∀ (m : List Bool) (As : List (Set α)) (F : Set σ), m.length = js.length →
    As.length = m.count true → (∀ A ∈ As, MeasurableSet A) → MeasurableSet F →
    MeasurableSet {s | InBox (draw s m).1 As ∧ (draw s m).2 ∈ F}
  law : ∀ (m : List Bool) (As : List (Set α)) (F : Set σ), m.length = js.length →
    As.length = m.count true → (∀ A ∈ As, MeasurableSet A) → MeasurableSet F →
    μ {s | InBox (draw s m).1 As ∧ (draw s m).2 ∈ F} =
      (List.zipWith (fun j A => ν j A) (select m js) As).prod * μ F

/-- The probability that an entry is accepted with a value in its set within `k` draws. -/
noncomputable def weight (ν : ι → Measure α) (bad : ι → α → Bool) (k : ℕ) (p : ι × Set α) : ℝ≥0∞ :=
  ν p.1 (p.2 ∩ good bad p.1) * ∑ i ∈ Finset.range k, ν p.1 {a | bad p.1 a = true} ^ i

theorem weight_succ (ν : ι → Measure α) (bad : ι → α → Bool) (k : ℕ) (p : ι × Set α) :
    weight ν bad (k + 1) p =
      ν p.1 {a | bad p.1 a = true} * weight ν bad k p + ν p.1 (p.2 ∩ good bad p.1) := by
  unfold weight
  rw [Finset.sum_range_succ', mul_add, Finset.mul_sum, pow_zero, mul_one, Finset.mul_sum,
    Finset.mul_sum]
  congr 1
  refine Finset.sum_congr rfl fun i _ => ?_
  rw [pow_succ]
  ring

/-- The product of sums as a sum over flags. -/
theorem sum_masks (ν : ι → Measure α) (bad : ι → α → Bool) (g : ι × Set α → ℝ≥0∞) :
    ∀ (qs : List (ι × Set α)),
    ((masks qs.length).map fun b =>
      (List.zipWith (fun j A => ν j A) (qs.map Prod.fst) (List.zipWith (cell bad) b qs)).prod *
        ((select b qs).map g).prod).sum =
      (qs.map fun q => ν q.1 {a | bad q.1 a = true} * g q + ν q.1 (q.2 ∩ good bad q.1)).prod
  | [] => by simp [masks, select]
  | q :: qs => by
    have ih := sum_masks ν bad g qs
    rw [List.length_cons, masks, List.map_append, List.sum_append, List.map_map, List.map_map,
      List.map_cons (f := fun q : ι × Set α =>
        ν q.1 {a | bad q.1 a = true} * g q + ν q.1 (q.2 ∩ good bad q.1)), List.prod_cons, ← ih,
      add_mul, ← List.sum_map_mul_left, ← List.sum_map_mul_left]
    congr 1
    · congr 1
      refine List.map_congr_left fun b _ => ?_
      simp only [Function.comp, List.zipWith_cons_cons, List.map_cons, List.prod_cons, select, cell,
        if_true]
      ring
    · congr 1
      refine List.map_congr_left fun b _ => ?_
      simp only [Function.comp, List.zipWith_cons_cons, List.map_cons, List.prod_cons, select, cell,
        Bool.false_eq_true, if_false]
      ring

/-- The measure of a finite disjoint union over a list. -/
theorem measure_exists_list {β : Type} (μ : Measure σ) (S : β → Set σ) : ∀ {l : List β}, l.Nodup →
    (∀ b ∈ l, MeasurableSet (S b)) →
    (∀ b ∈ l, ∀ c ∈ l, b ≠ c → Disjoint (S b) (S c)) →
    MeasurableSet {s | ∃ b ∈ l, s ∈ S b} ∧ μ {s | ∃ b ∈ l, s ∈ S b} = (l.map fun b => μ (S b)).sum
  | [], _, _, _ => by simp
  | b :: l, hn, hm, hdis => by
    rw [List.nodup_cons] at hn
    obtain ⟨h1, h2⟩ := measure_exists_list μ S hn.2 (fun c hc => hm c (List.mem_cons_of_mem _ hc))
      (fun c hc d hd => hdis c (List.mem_cons_of_mem _ hc) d (List.mem_cons_of_mem _ hd))
    have he : {s | ∃ c ∈ b :: l, s ∈ S c} = S b ∪ {s | ∃ c ∈ l, s ∈ S c} := by
      ext s
      simp
    have hd : Disjoint (S b) {s | ∃ c ∈ l, s ∈ S c} := by
      rw [Set.disjoint_left]
      rintro s hs ⟨c, hc, hsc⟩
      have hne : b ≠ c := fun h => hn.1 (h ▸ hc)
      exact Set.disjoint_left.1 (hdis b (List.mem_cons_self ..) c (List.mem_cons_of_mem _ hc) hne)
        hs hsc
    rw [he]
    refine ⟨(hm b (List.mem_cons_self ..)).union h1, ?_⟩
    rw [measure_union hd h1, h2, List.map_cons, List.sum_cons]

theorem mem_zipWith_cell {bad : ι → α → Bool} (hbad : ∀ j, MeasurableSet {a | bad j a = true}) :
    ∀ {b : List Bool} {qs : List (ι × Set α)}, (∀ q ∈ qs, MeasurableSet q.2) →
    ∀ A ∈ List.zipWith (cell bad) b qs, MeasurableSet A
  | [], _, _, _, h => by simp at h
  | _ :: _, [], _, _, h => by simp at h
  | c :: b, q :: qs, hq, A, h => by
    rw [List.zipWith_cons_cons, List.mem_cons] at h
    rcases h with rfl | h
    · unfold cell
      split_ifs
      · exact hbad _
      · refine (hq q (List.mem_cons_self ..)).inter ?_
        have : good bad q.1 = {a | bad q.1 a = true}ᶜ := by
          ext a
          simp [good]
        rw [this]
        exact (hbad _).compl
    · exact mem_zipWith_cell hbad (fun p hp => hq p (List.mem_cons_of_mem _ hp)) A h

theorem select_subset {β : Type} : ∀ {m : List Bool} {l : List β}, ∀ b ∈ select m l, b ∈ l
  | [], _, _, h => by simp [select] at h
  | true :: _, [], _, h => by simp [select] at h
  | false :: _, [], _, h => by simp [select] at h
  | true :: m, a :: l, b, h => by
    simp only [select, List.mem_cons] at h
    rcases h with rfl | h
    · exact List.mem_cons_self ..
    · exact List.mem_cons_of_mem _ (select_subset b h)
  | false :: m, a :: l, b, h => by
    simp only [select] at h
    exact List.mem_cons_of_mem _ (select_subset b h)

theorem select_none {β : Type} : ∀ {m : List Bool} {l : List β}, m.any id = false → select m l = []
  | [], _, _ => by simp [select]
  | true :: _, _, h => by simp at h
  | false :: _, [], _ => by simp [select]
  | false :: m, _ :: l, h => by
    simp only [select]
    exact select_none (by simpa using h)

theorem select_ne_nil {β : Type} : ∀ {m : List Bool} {l : List β}, m.length = l.length →
    m.any id = true → select m l ≠ []
  | [], _, _, h => by simp at h
  | _ :: _, [], h, _ => by simp at h
  | true :: _, _ :: _, _, _ => by simp [select]
  | false :: m, _ :: l, h, h' => by
    simp only [select]
    exact select_ne_nil (by simpa using h) (by simpa using h')

/-- The probability of `hits`. -/
theorem hits_law {μ : Measure σ} {ν : ι → Measure α} {bad : ι → α → Bool}
    {draw : σ → List Bool → List α × σ} {ps : List (ι × Set α)} {F : Set σ}
    (hd : MaskLaw μ ν (ps.map Prod.fst) draw) (hbad : ∀ j, MeasurableSet {a | bad j a = true})
    (hps : ∀ p ∈ ps, MeasurableSet p.2) (hF : MeasurableSet F) :
    ∀ {k : ℕ} {m : List Bool}, m.length = ps.length → (m.any id = true ∨ 0 < k) →
    MeasurableSet (hits bad draw ps F k m) ∧
      μ (hits bad draw ps F k m) = ((select m ps).map (weight ν bad k)).prod * μ F
  | 0, m, hm, h => by
    have h : m.any id = true := by simpa using h
    refine ⟨by simp [hits], ?_⟩
    obtain ⟨q, l, hq⟩ := List.exists_cons_of_ne_nil (select_ne_nil hm h)
    simp [hits, hq, weight]
  | k + 1, m, hm, _ => by
    have hsl := select_length hm
    set S : List Bool → Set σ := fun b =>
      {s | InBox (draw s m).1 (List.zipWith (cell bad) b (select m ps)) ∧
      (draw s m).2 ∈ if b.any id then hits bad draw ps F k (expand m b) else F} with hS
    have hG : ∀ b ∈ masks (m.count true),
        MeasurableSet (if b.any id then hits bad draw ps F k (expand m b) else F) ∧
        μ (if b.any id then hits bad draw ps F k (expand m b) else F) =
          ((select b (select m ps)).map (weight ν bad k)).prod * μ F := by
      intro b hb
      have hbl := masks_length hb
      by_cases hany : b.any id = true
      · rw [if_pos hany, ← select_expand hm hbl]
        exact hits_law hd hbad hps hF (by rw [expand_length hbl, hm])
          (Or.inl (by rw [expand_any hbl, hany]))
      · rw [if_neg hany, select_none (by simpa using hany)]
        simp [hF]
    have hcl : ∀ b ∈ masks (m.count true),
        (List.zipWith (cell bad) b (select m ps)).length = m.count true := by
      intro b hb
      rw [List.length_zipWith, masks_length hb, hsl, min_self]
    have hcm : ∀ b : List Bool, ∀ A ∈ List.zipWith (cell bad) b (select m ps), MeasurableSet A :=
      fun b => mem_zipWith_cell hbad fun q hq => hps q (select_subset q hq)
    have hm' : m.length = (ps.map Prod.fst).length := by simpa using hm
    obtain ⟨h1, h2⟩ := measure_exists_list μ S (masks_nodup (m.count true))
      (fun b hb => hd.measurable m _ _ hm' (hcl b hb) (hcm b) (hG b hb).1)
      (by
        intro b hb c hc hne
        rw [Set.disjoint_left]
        rintro s ⟨hs, -⟩ ⟨hs', -⟩
        rw [inBox_cells (by rw [hsl, masks_length hb])] at hs
        rw [inBox_cells (by rw [hsl, masks_length hc])] at hs'
        exact hne (hs.2.1.symm.trans hs'.2.1))
    refine ⟨h1, h2.trans ?_⟩
    have hw : weight ν bad (k + 1) = fun q =>
        ν q.1 {a | bad q.1 a = true} * weight ν bad k q + ν q.1 (q.2 ∩ good bad q.1) :=
      funext (weight_succ ν bad k)
    rw [hw, ← sum_masks, hsl, ← List.sum_map_mul_right]
    congr 1
    refine List.map_congr_left fun b hb => ?_
    have := hd.law m _ _ hm' (hcl b hb) (hcm b) (hG b hb).1
    rw [hS]
    refine this.trans ?_
    rw [(hG b hb).2, select_map, mul_assoc]

/-- Rejection sampling with at most `k` checks: the probability that it ends with values in the
given sets and with the generator in `F`. -/
theorem sampler_law {μ : Measure σ} {ν : ι → Measure α} {bad : ι → α → Bool}
    {draw : σ → List Bool → List α × σ} {ps : List (ι × Set α)} {F : Set σ}
    (hd : MaskLaw μ ν (ps.map Prod.fst) draw) (hbad : ∀ j, MeasurableSet {a | bad j a = true})
    (hps : ∀ p ∈ ps, MeasurableSet p.2) (hF : MeasurableSet F) (k : ℕ) :
    MeasurableSet {s | ∃ r, sampler bad (ps.map Prod.fst) draw (k + 1) s = some r ∧
      InBox r.1 (ps.map Prod.snd) ∧ r.2 ∈ F} ∧
    μ {s | ∃ r, sampler bad (ps.map Prod.fst) draw (k + 1) s = some r ∧
      InBox r.1 (ps.map Prod.snd) ∧ r.2 ∈ F} = (ps.map (weight ν bad (k + 1))).prod * μ F := by
  have hlen : (List.replicate ps.length true).length = ps.length := by simp
  have he : {s | ∃ r, sampler bad (ps.map Prod.fst) draw (k + 1) s = some r ∧
      InBox r.1 (ps.map Prod.snd) ∧ r.2 ∈ F} =
      hits bad draw ps F (k + 1) (List.replicate ps.length true) := by
    ext s
    have hv : (draw s (List.replicate ps.length true)).1.length = ps.length := by
      rw [hd.length _ _ (by simp)]
      simp
    have hx : ∀ As : List (Set α), As.length = ps.length →
        InBox (draw s (List.replicate ps.length true)).1
          (outside (List.replicate ps.length true) As) := by
      intro As hA
      generalize (draw s (List.replicate ps.length true)).1 = x at hv
      rw [← hA] at hv ⊢
      clear hA
      induction As generalizing x with
      | nil =>
        have : x = [] := by simpa using hv
        subst this
        simp [outside]
      | cons A As ih =>
        rcases x with _ | ⟨a, x⟩
        · simp at hv
        · have := ih x (by simpa using hv)
          simp only [outside] at this
          simp [outside, List.replicate_succ, this]
    have := start_hits (bad := bad) (F := F) (fun s m h => hd.length s m (by simpa using h))
      (k := k + 1) (s := s) hlen (hx _ (by simp))
    rw [and_iff_right (hx (ps.map Prod.snd) (by simp))] at this
    rw [Set.mem_ofPred_eq, ← this]
    unfold start sampler
    rw [List.length_map]
    have hma := merge_all (x := (draw s (List.replicate ps.length true)).1)
      (v := (draw s (List.replicate ps.length true)).1) rfl
    rw [hv] at hma
    rw [hma]
  rw [he]
  have := hits_law hd hbad hps hF (k := k + 1) hlen (Or.inr (Nat.succ_pos k))
  rwa [select_all] at this

/-! ## The limit of many checks -/

/-- The measure of all sets, the one of the rejected and the one of the accepted values. -/
theorem bad_add_good {ν : Measure α} [IsProbabilityMeasure ν] {b : α → Bool}
    (hb : MeasurableSet {a | b a = true}) : ν {a | b a = true} + ν {a | b a = false} = 1 := by
  have : {a | b a = false} = {a | b a = true}ᶜ := by
    ext a
    simp
  rw [this, measure_add_measure_compl hb, measure_univ]

theorem measurable_good {bad : ι → α → Bool} (hbad : ∀ j, MeasurableSet {a | bad j a = true})
    (j : ι) : MeasurableSet (good bad j) := by
  have : good bad j = {a | bad j a = true}ᶜ := by
    ext a
    simp [good]
  rw [this]
  exact (hbad j).compl

/-- The weight of any value at all: one minus the probability that all draws are rejected. -/
theorem weight_univ {ν : ι → Measure α} [∀ j, IsProbabilityMeasure (ν j)] {bad : ι → α → Bool}
    (hbad : ∀ j, MeasurableSet {a | bad j a = true}) (k : ℕ) (j : ι) :
    weight ν bad k (j, Set.univ) = 1 - ν j {a | bad j a = true} ^ k := by
  have h : ∀ k, weight ν bad k (j, Set.univ) + ν j {a | bad j a = true} ^ k = 1 := by
    intro k
    induction k with
    | zero => simp [weight]
    | succ k ih =>
      rw [weight_succ, Set.univ_inter, pow_succ', add_right_comm, ← mul_add]
      simp only
      rw [ih, mul_one]
      exact bad_add_good (hbad j)
  have h1 : ν j {a | bad j a = true} ^ k ≠ ∞ := ENNReal.pow_ne_top (measure_ne_top _ _)
  exact ENNReal.eq_sub_of_add_eq h1 (h k)

theorem weight_tendsto {ν : ι → Measure α} [∀ j, IsProbabilityMeasure (ν j)] {bad : ι → α → Bool}
    (hbad : ∀ j, MeasurableSet {a | bad j a = true}) (p : ι × Set α) :
    Tendsto (fun k => weight ν bad k p) atTop (nhds ((ν p.1)[p.2 | good bad p.1])) := by
  rw [cond_apply (measurable_good hbad p.1), mul_comm, Set.inter_comm]
  have h1 : ν p.1 (good bad p.1) = 1 - ν p.1 {a | bad p.1 a = true} := by
    refine ENNReal.eq_sub_of_add_eq (measure_ne_top _ _) ?_
    rw [add_comm]
    exact bad_add_good (hbad p.1)
  rw [h1, ← ENNReal.tsum_geometric]
  refine ENNReal.Tendsto.const_mul (ENNReal.tendsto_nat_tsum _) (Or.inr ?_)
  exact measure_ne_top _ _

theorem prod_tendsto {β : Type} {f : ℕ → β → ℝ≥0∞} {g : β → ℝ≥0∞} : ∀ {l : List β},
    (∀ b ∈ l, Tendsto (fun k => f k b) atTop (nhds (g b))) → (∀ b ∈ l, g b ≠ ∞) →
    Tendsto (fun k => (l.map (f k)).prod) atTop (nhds (l.map g).prod)
  | [], _, _ => by simp
  | b :: l, h, h' => by
    simp only [List.map_cons, List.prod_cons]
    have hl := prod_tendsto (fun c hc => h c (List.mem_cons_of_mem _ hc))
      (fun c hc => h' c (List.mem_cons_of_mem _ hc))
    refine ENNReal.Tendsto.mul (h b (List.mem_cons_self ..)) (Or.inr ?_) hl
      (Or.inr (h' b (List.mem_cons_self ..)))
    have : ∀ {l : List β}, (∀ c ∈ l, g c ≠ ∞) → (l.map g).prod ≠ ∞ := by
      intro l hl
      induction l with
      | nil => simp
      | cons c l ih =>
        rw [List.map_cons, List.prod_cons]
        exact ENNReal.mul_ne_top (hl c (List.mem_cons_self ..))
          (ih fun d hd => hl d (List.mem_cons_of_mem _ hd))
    exact this fun c hc => h' c (List.mem_cons_of_mem _ hc)

/-- Rejection sampling without a bound on the number of checks: the values are independent, each
one has the law of the draws conditioned on acceptance, and the final generator is independent of
them with the law `μ` again.  (If the values of an entry are rejected almost surely, then both sides
are zero: the conditional measure is zero in that case.) -/
theorem sampler_limit {μ : Measure σ} [IsFiniteMeasure μ] {ν : ι → Measure α}
    [∀ j, IsProbabilityMeasure (ν j)]
    {bad : ι → α → Bool} {draw : σ → List Bool → List α × σ} {ps : List (ι × Set α)} {F : Set σ}
    (hd : MaskLaw μ ν (ps.map Prod.fst) draw) (hbad : ∀ j, MeasurableSet {a | bad j a = true})
    (hps : ∀ p ∈ ps, MeasurableSet p.2) (hF : MeasurableSet F) :
    MeasurableSet {s | ∃ k r, sampler bad (ps.map Prod.fst) draw k s = some r ∧
      InBox r.1 (ps.map Prod.snd) ∧ r.2 ∈ F} ∧
    μ {s | ∃ k r, sampler bad (ps.map Prod.fst) draw k s = some r ∧
      InBox r.1 (ps.map Prod.snd) ∧ r.2 ∈ F} =
      (ps.map fun p => (ν p.1)[p.2 | good bad p.1]).prod * μ F := by
  set S : ℕ → Set σ := fun k => {s | ∃ r, sampler bad (ps.map Prod.fst) draw (k + 1) s = some r ∧
      InBox r.1 (ps.map Prod.snd) ∧ r.2 ∈ F} with hS
  have he : {s | ∃ k r, sampler bad (ps.map Prod.fst) draw k s = some r ∧
      InBox r.1 (ps.map Prod.snd) ∧ r.2 ∈ F} = ⋃ k, S k := by
    ext s
    simp only [hS, Set.mem_iUnion, Set.mem_ofPred_eq]
    constructor
    · rintro ⟨k, r, h, h'⟩
      exact ⟨k, r, loop_mono (Nat.le_succ k) h, h'⟩
    · rintro ⟨k, r, h, h'⟩
      exact ⟨k + 1, r, h, h'⟩
  have hmono : Monotone S := by
    rintro k l hkl s ⟨r, h, h'⟩
    exact ⟨r, loop_mono (Nat.succ_le_succ hkl) h, h'⟩
  rw [he]
  refine ⟨MeasurableSet.iUnion fun k => (sampler_law hd hbad hps hF k).1, ?_⟩
  refine tendsto_nhds_unique (tendsto_measure_iUnion_atTop hmono) ?_
  have h1 : (μ ∘ S) = fun k => (ps.map (weight ν bad (k + 1))).prod * μ F :=
    funext fun k => (sampler_law hd hbad hps hF k).2
  rw [h1]
  refine ENNReal.Tendsto.mul_const ?_ (Or.inr (measure_ne_top _ _))
  have h2 : Tendsto (fun k => (ps.map (weight ν bad k)).prod) atTop
      (nhds (ps.map fun p => (ν p.1)[p.2 | good bad p.1]).prod) :=
    prod_tendsto (fun p _ => weight_tendsto hbad p) fun p _ => measure_ne_top _ _
  exact h2.comp (tendsto_add_atTop_nat 1)

omit [MeasurableSpace α] in
theorem inBox_univ {x : List α} {n : ℕ} : InBox x (List.replicate n Set.univ) ↔ x.length = n := by
  induction n generalizing x with
  | zero => cases x <;> simp
  | succ n ih => cases x <;> simp [List.replicate_succ, ih]

omit [MeasurableSpace σ] [MeasurableSpace α] in
theorem loop_length {bad : ι → α → Bool} {js : List ι} {draw : σ → List Bool → List α × σ}
    (hd : ∀ s m, m.length = js.length → (draw s m).1.length = m.count true) :
    ∀ {k : ℕ} {x : List α} {s : σ} {r : List α × σ}, x.length = js.length →
    loop bad js draw k x s = some r → r.1.length = js.length
  | 0, _, _, _, _, h => by simp [loop] at h
  | k + 1, x, s, r, hx, h => by
    rw [loop] at h
    have hm : (List.zipWith bad js x).length = js.length := by simp [hx]
    split_ifs at h with hb
    · refine loop_length hd ?_ h
      have hml : ∀ {m : List Bool} {x v : List α}, m.length = x.length →
          v.length = m.count true → (maskMerge m x v).length = x.length := by
        intro m x v h h'
        induction m generalizing x v with
        | nil => cases x <;> simp_all [maskMerge]
        | cons c m ih =>
          rcases x with _ | ⟨a, x⟩
          · simp at h
          · cases c
            · simp only [maskMerge, List.length_cons]
              rw [ih (by simpa using h) (by simpa using h')]
            · rcases v with _ | ⟨b, v⟩
              · simp at h'
              · simp only [maskMerge, List.length_cons]
                rw [ih (by simpa using h) (by simpa using h')]
      rw [hml (by rw [hm, hx]) (hd _ _ hm), hx]
    · cases h
      exact hx

/-- The probability that `k + 1` checks suffice. -/
theorem sampler_within {μ : Measure σ} [IsProbabilityMeasure μ] {ν : ι → Measure α}
    [∀ j, IsProbabilityMeasure (ν j)] {bad : ι → α → Bool} {draw : σ → List Bool → List α × σ}
    {js : List ι} (hd : MaskLaw μ ν js draw) (hbad : ∀ j, MeasurableSet {a | bad j a = true})
    (k : ℕ) : μ {s | ∃ r, sampler bad js draw (k + 1) s = some r} =
      (js.map fun j => 1 - ν j {a | bad j a = true} ^ (k + 1)).prod := by
  have hfst : (js.map fun j => (j, (Set.univ : Set α))).map Prod.fst = js := by
    rw [List.map_map]
    exact List.map_id _
  have h := (sampler_law (ps := js.map fun j => (j, Set.univ)) (F := Set.univ)
    (by rw [hfst]; exact hd) hbad (by simp) MeasurableSet.univ k).2
  rw [hfst, measure_univ, mul_one] at h
  simp only [List.map_map] at h
  have h2 : (weight ν bad (k + 1) ∘ fun j => (j, Set.univ)) =
      fun j => 1 - ν j {a | bad j a = true} ^ (k + 1) := funext fun j => weight_univ hbad (k + 1) j
  rw [h2] at h
  rw [← h]
  congr 1
  ext s
  simp only [Set.mem_ofPred_eq, Set.mem_univ, and_true]
  refine exists_congr fun r => (and_iff_left_of_imp fun hr => ?_).symm
  have hl := loop_length (hd.length) (by rw [hd.length s _ (by simp)]; simp) hr
  have : (Prod.snd ∘ fun j : ι => (j, (Set.univ : Set α))) = fun _ => Set.univ := rfl
  rw [this, List.map_const', inBox_univ]
  exact hl

/-- If no entry is rejected almost surely, then the sampling ends almost surely. -/
theorem sampler_ends {μ : Measure σ} [IsProbabilityMeasure μ] {ν : ι → Measure α}
    [∀ j, IsProbabilityMeasure (ν j)] {bad : ι → α → Bool} {draw : σ → List Bool → List α × σ}
    {js : List ι} (hd : MaskLaw μ ν js draw) (hbad : ∀ j, MeasurableSet {a | bad j a = true})
    (hpos : ∀ j ∈ js, ν j (good bad j) ≠ 0) :
    ∀ᵐ s ∂μ, ∃ k r, sampler bad js draw k s = some r := by
  have hfst : (js.map fun j => (j, (Set.univ : Set α))).map Prod.fst = js := by
    rw [List.map_map]
    exact List.map_id _
  have h := sampler_limit (ps := js.map fun j => (j, Set.univ)) (F := Set.univ)
    (by rw [hfst]; exact hd) hbad (by simp) MeasurableSet.univ
  rw [hfst, measure_univ, mul_one] at h
  simp only [List.map_map] at h
  have h1 : (js.map ((fun p : ι × Set α => (ν p.1)[p.2 | good bad p.1]) ∘
      fun j => (j, Set.univ))).prod = 1 := by
    refine List.prod_eq_one fun x hx => ?_
    obtain ⟨j, hj, rfl⟩ := List.mem_map.1 hx
    have := cond_isProbabilityMeasure (hpos j hj)
    exact measure_univ
  rw [h1] at h
  filter_upwards [(mem_ae_iff_prob_eq_one h.1).2 h.2] with s hs
  obtain ⟨k, r, hr, -⟩ := hs
  exact ⟨k, r, hr⟩

/-- If some entry is rejected almost surely, then the sampling almost surely does not end. -/
theorem sampler_stuck {μ : Measure σ} [IsProbabilityMeasure μ] {ν : ι → Measure α}
    [∀ j, IsProbabilityMeasure (ν j)] {bad : ι → α → Bool} {draw : σ → List Bool → List α × σ}
    {js : List ι} (hd : MaskLaw μ ν js draw) (hbad : ∀ j, MeasurableSet {a | bad j a = true})
    (hstuck : ∃ j ∈ js, ν j (good bad j) = 0) :
    ∀ᵐ s ∂μ, ∀ k, sampler bad js draw k s = none := by
  rw [ae_all_iff]
  intro k
  obtain ⟨j, hj, h0⟩ := hstuck
  have h := sampler_within hd hbad k
  have h1 : ν j {a | bad j a = true} = 1 := by
    have := bad_add_good (ν := ν j) (hbad j)
    have h0 : ν j {a | bad j a = false} = 0 := h0
    rwa [h0, add_zero] at this
  have h2 : (js.map fun j => 1 - ν j {a | bad j a = true} ^ (k + 1)).prod = 0 := by
    refine List.prod_eq_zero (List.mem_map.2 ⟨j, hj, ?_⟩)
    rw [h1, one_pow, tsub_self]
  rw [h2] at h
  refine measure_mono_null (fun s hs => ?_) h
  obtain ⟨r, hr⟩ := Option.ne_none_iff_exists'.1 hs
  exact ⟨r, loop_mono (Nat.le_succ k) hr⟩

end Law

end Glass.Sampling
