import Verif.Spectra.Props2
import Verif.Shells.FloatAverages
import Verif.Shells.FloatGrid

/-!
# Effective spectra in floating point (C164)

The model of `effective_cls` is written for any kind of numbers. Here it is used with numbers whose sums and
products are rounded.
-/

namespace Glass.Spectra

open Glass

/-! ## Model -/

/-- Numbers whose sums and products are rounded. -/
structure Fl (R : Rounding) where
  /-- The value. -/
  val : ℝ

instance (R : Rounding) : Zero (Fl R) := ⟨⟨0⟩⟩

noncomputable instance (R : Rounding) : Add (Fl R) := ⟨fun x y => ⟨R.fl (x.val + y.val)⟩⟩

noncomputable instance (R : Rounding) : Mul (Fl R) := ⟨fun x y => ⟨R.fl (x.val * y.val)⟩⟩

/-- Spectra that are stored. -/
def storeCls (R : Rounding) (cls : List (List ℝ)) : List (List (Fl R)) :=
  cls.map fun cl => cl.map Fl.mk

/-- Weights that are stored. -/
def Weights.store (R : Rounding) (w : Weights ℝ) : Weights (Fl R) :=
  ⟨w.n, w.shape, fun i j => ⟨w.val i j⟩⟩

/-- Effective spectra of stored spectra and weights: `fields.py:607-694` with every operation rounded. -/
noncomputable def effectiveClsFl (R : Rounding) (cls : List (List ℝ)) (w1 : Weights ℝ)
    (w2 : Option (Weights ℝ)) (len : Option ℕ) : Except Err (Out (Fl R)) :=
  effectiveCls (storeCls R cls) (w1.store R) (w2.map (Weights.store R)) len

/-! ## One spectrum -/

theorem val_add {R : Rounding} (x y : Fl R) : (x + y).val = R.fl (x.val + y.val) := rfl

theorem val_mul {R : Rounding} (x y : Fl R) : (x * y).val = R.fl (x.val * y.val) := rfl

theorem val_zero {R : Rounding} : (0 : Fl R).val = 0 := rfl

theorem clValue_store (R : Rounding) (cls : List (List ℝ)) (i j l : ℕ) :
    (clValue (storeCls R cls) i j l).val = clValue cls i j l := by
  unfold clValue storeCls
  rw [List.getElem?_map]
  rcases cls[max i j * (max i j + 1) / 2 + (max i j - min i j)]? with _ | cl
  · rfl
  · simp only [Option.map_some, Option.getD_some, List.getElem?_map]
    rcases cl[l]? with _ | x <;> rfl

/-- The sum of several terms, one after the other, for any kind of numbers. -/
theorem vsum_fold {K : Type*} [Add K] {ι : Type*} (m : ℕ) (L : List ι) (f : ι → ℕ → K) (v : ℕ → K) :
    (L.map fun p => (List.range m).map fun l => f p l).foldl (List.zipWith (· + ·))
        ((List.range m).map v) =
      (List.range m).map fun l => (L.map fun p => f p l).foldl (· + ·) (v l) := by
  induction L generalizing v with
  | nil => simp
  | cons p L ih =>
    simp only [List.map_cons, List.foldl_cons]
    have : List.zipWith (· + ·) ((List.range m).map v) ((List.range m).map fun l => f p l)
        = (List.range m).map fun l => v l + f p l := by
      apply List.ext_getElem?
      intro i
      rw [List.getElem?_zipWith]
      by_cases hi : i < m <;> simp [hi]
    rw [this, ih]

/-- All pairs of fields. -/
def fieldPairs (n : ℕ) : List (ℕ × ℕ) :=
  (List.range n).flatMap fun i1 => (List.range n).map fun i2 => (i1, i2)

theorem combined_fold {K : Type*} [Zero K] [Add K] [Mul K] (cls : List (List K)) (n m : ℕ)
    (h : cls.length = tri n) (w1 w2 : ℕ → K) :
    combined cls n m w1 w2 = .ok ((List.range m).map fun l =>
      ((fieldPairs n).map fun p => w1 p.1 * w2 p.2 * clValue cls p.1 p.2 l).foldl (· + ·) 0) := by
  unfold combined
  rw [mapM_ok _ (fun p => (List.range m).map fun l => w1 p.1 * w2 p.2 * clValue cls p.1 p.2 l)]
  · simp only [vsum]
    have h0 : List.replicate m (0 : K) = (List.range m).map fun _ => 0 := by
      apply List.ext_getElem?
      intro i
      by_cases hi : i < m <;> simp [hi]
    rw [h0, vsum_fold]
    rfl
  · rintro ⟨i, j⟩ hij
    simp only [List.mem_flatMap, List.mem_range, List.mem_map, Prod.mk.injEq] at hij
    obtain ⟨a, ha, b, hb, rfl, rfl⟩ := hij
    rw [getcl_clValue cls n h a b m ha hb]
    simp [Except.map, Function.comp_def]

theorem fold_error (R : Rounding) {ι : Type*} (f : ι → ℝ) (g : ι → Fl R) :
    ∀ (L : List ι) (k : ℕ) (c A : ℝ) (c' : Fl R), |c| ≤ A →
    |c'.val - c| ≤ ((1 + 1 / 2 ^ 53 : ℝ) ^ k - 1) * A →
    (∀ p ∈ L, |(g p).val - f p| ≤ ((1 + 1 / 2 ^ 53 : ℝ) ^ k - 1) * |f p|) →
    |((L.map g).foldl (· + ·) c').val - (c + (L.map f).sum)| ≤
      ((1 + 1 / 2 ^ 53 : ℝ) ^ (k + L.length) - 1) * (A + (L.map fun p => |f p|).sum)
  | [], k, c, A, c', _, h, _ => by simpa using h
  | p :: L, k, c, A, c', hA, h, hL => by
    have hp := hL p (by simp)
    set q : ℝ := (1 + 1 / 2 ^ 53) ^ k with hq
    have hu : (1 + 1 / 2 ^ 53 : ℝ) ^ (k + 1) = q + 1 / 2 ^ 53 * q := by rw [pow_succ, hq]; ring
    have hq1 : 1 ≤ q := one_le_pow₀ (by norm_num)
    have hA0 : 0 ≤ A := (abs_nonneg c).trans hA
    have s1 : |(c'.val + (g p).val) - (c + f p)| ≤ (q - 1) * (A + |f p|) := by
      have e : (c'.val + (g p).val) - (c + f p) = (c'.val - c) + ((g p).val - f p) := by ring
      rw [e, mul_add]
      exact (abs_add_le _ _).trans (add_le_add h hp)
    have s2 : |c'.val + (g p).val| ≤ q * (A + |f p|) := by
      have h1 := abs_sub_abs_le_abs_sub (c'.val + (g p).val) (c + f p)
      have h2 := abs_add_le c (f p)
      have e : q * (A + |f p|) = (q - 1) * (A + |f p|) + (A + |f p|) := by ring
      linarith
    have s3 := R.error (c'.val + (g p).val)
    have s4 : |(c' + g p).val - (c + f p)| ≤ ((1 + 1 / 2 ^ 53 : ℝ) ^ (k + 1) - 1) * (A + |f p|) := by
      rw [val_add, hu]
      have h1 := abs_add_le (R.fl (c'.val + (g p).val) - (c'.val + (g p).val))
        ((c'.val + (g p).val) - (c + f p))
      rw [sub_add_sub_cancel] at h1
      have h2 : |c'.val + (g p).val| / 2 ^ 53 ≤ 1 / 2 ^ 53 * q * (A + |f p|) := by
        rw [div_eq_mul_one_div, mul_comm, mul_assoc]
        exact mul_le_mul_of_nonneg_left s2 (by norm_num)
      have e : (q + 1 / 2 ^ 53 * q - 1) * (A + |f p|) =
        1 / 2 ^ 53 * q * (A + |f p|) + (q - 1) * (A + |f p|) := by ring
      linarith
    have ih := fold_error R f g L (k + 1) (c + f p) (A + |f p|) (c' + g p)
      ((abs_add_le _ _).trans (by linarith)) s4 (fun r hr => (hL r (by simp [hr])).trans (by
        refine mul_le_mul_of_nonneg_right ?_ (abs_nonneg _)
        have : 0 ≤ 1 / 2 ^ 53 * q := by positivity
        rw [hu]
        linarith))
    simp only [List.map_cons, List.foldl_cons, List.sum_cons, List.length_cons]
    have e : k + (L.length + 1) = k + 1 + L.length := by omega
    rw [e, ← add_assoc, ← add_assoc]
    exact ih

/-- The size of the terms of an effective spectrum. -/
def magnitude (cls : List (List ℝ)) (n : ℕ) (w1 w2 : ℕ → ℝ) (l : ℕ) : ℝ :=
  ∑ i1 ∈ Finset.range n, ∑ i2 ∈ Finset.range n, |w1 i1 * w2 i2 * clValue cls i1 i2 l|

theorem magnitude_symm (cls : List (List ℝ)) (n : ℕ) (w1 w2 : ℕ → ℝ) (l : ℕ) :
    magnitude cls n w1 w2 l = magnitude cls n w2 w1 l := by
  unfold magnitude
  rw [Finset.sum_comm]
  apply Finset.sum_congr rfl; intro i _
  apply Finset.sum_congr rfl; intro j _
  rw [clValue_symm, mul_comm (w1 j)]

theorem fieldPairs_length (n : ℕ) : (fieldPairs n).length = n ^ 2 := by
  unfold fieldPairs
  rw [List.length_flatMap]
  simp [sq]

/-- The effective spectrum of one pair of weights. -/
theorem combined_error (R : Rounding) (cls : List (List ℝ)) {n : ℕ} (m : ℕ) (h : cls.length = tri n)
    (w1 w2 : ℕ → ℝ) (hn : 2 * (n ^ 2 + 2) ≤ 2 ^ 53) :
    ∃ r : List (Fl R), combined (storeCls R cls) n m (fun i => Fl.mk (w1 i))
      (fun i => Fl.mk (w2 i)) = .ok r ∧ r.length = m ∧
      ∀ l (hl : l < r.length), |r[l].val - bilinear cls n w1 w2 l| ≤
        2 * (n ^ 2 + 2) / 2 ^ 53 * magnitude cls n w1 w2 l := by
  refine ⟨_, combined_fold _ n m (by simpa [storeCls] using h) _ _, by simp, ?_⟩
  intro l hl
  simp only [List.getElem_map, List.getElem_range]
  have key := fold_error R (fun p : ℕ × ℕ => w1 p.1 * w2 p.2 * clValue cls p.1 p.2 l)
    (fun p : ℕ × ℕ => Fl.mk (R := R) (w1 p.1) * Fl.mk (R := R) (w2 p.2) *
      clValue (storeCls R cls) p.1 p.2 l) (fieldPairs n) 2 0 0 0 (by simp)
    (by simp [val_zero]) (by
      intro p _
      rw [val_mul, val_mul, clValue_store]
      change |R.fl (R.fl (w1 p.1 * w2 p.2) * clValue cls p.1 p.2 l) - _| ≤ _
      have e1 := R.error (w1 p.1 * w2 p.2)
      have e2 := R.error (R.fl (w1 p.1 * w2 p.2) * clValue cls p.1 p.2 l)
      generalize w1 p.1 * w2 p.2 = a at *
      generalize clValue cls p.1 p.2 l = c at *
      generalize R.fl (R.fl a * c) = y at *
      generalize R.fl a = a' at *
      have h1 : |a' * c - a * c| ≤ 1 / 2 ^ 53 * |a * c| := by
        rw [← sub_mul, abs_mul, abs_mul, ← mul_assoc]
        refine mul_le_mul_of_nonneg_right ?_ (abs_nonneg c)
        rw [one_div_mul_eq_div]
        exact e1
      have h2 := abs_sub_abs_le_abs_sub (a' * c) (a * c)
      have h3 := abs_add_le (y - a' * c) (a' * c - a * c)
      rw [sub_add_sub_cancel] at h3
      generalize |a * c| = s at *
      generalize |a' * c| = t at *
      generalize |a' * c - a * c| = d at *
      have h4 : t / 2 ^ 53 ≤ (s + 1 / 2 ^ 53 * s) / 2 ^ 53 :=
        div_le_div_of_nonneg_right (by linarith) (by norm_num)
      have e : ((1 + 1 / 2 ^ 53 : ℝ) ^ 2 - 1) * s = (s + 1 / 2 ^ 53 * s) / 2 ^ 53 + 1 / 2 ^ 53 * s := by
        ring
      linarith)
  rw [zero_add, zero_add, fieldPairs_length] at key
  have e1 : ((fieldPairs n).map fun p : ℕ × ℕ => w1 p.1 * w2 p.2 * clValue cls p.1 p.2 l).sum =
      bilinear cls n w1 w2 l := list_sum_pairs n n _
  have e2 : ((fieldPairs n).map fun p : ℕ × ℕ => |w1 p.1 * w2 p.2 * clValue cls p.1 p.2 l|).sum =
      magnitude cls n w1 w2 l := list_sum_pairs n n _
  rw [e1, e2] at key
  refine key.trans (mul_le_mul_of_nonneg_right ?_ ?_)
  · have := Glass.Shells.power_bound (D := 2 + n ^ 2) (by omega)
    refine this.trans (le_of_eq ?_)
    push_cast
    ring
  · exact Finset.sum_nonneg fun i _ => Finset.sum_nonneg fun j _ => abs_nonneg _

/-! ## All spectra -/

/-- The loop over the pairs of weights, for any kind of numbers. -/
theorem outLoop_any {K : Type*} (auto : Prop) [Decidable auto] (g : List ℕ × List ℕ → List K)
    (d1 d2 : ℕ) (hd : auto → d1 = d2)
    (f : List ℕ × List ℕ → Except Err (List K)) (pairs : List (List ℕ × List ℕ))
    (hf : ∀ p ∈ pairs, f p = .ok (g p))
    (hlen : ∀ p ∈ pairs, p.1.length = d1 ∧ p.2.length = d2) (o : Out K) :
    ∃ o' : Out K, pairs.foldlM (fun (out : Out K) j => match f j with
        | .error e => Except.error e
        | .ok cl =>
          let out := out.set (j.1 ++ j.2) cl
          Except.ok (if auto ∧ j.1 ≠ j.2 then out.set (j.2 ++ j.1) cl else out)) o
        = Except.ok o' ∧
      (∀ a b, a.length = d1 → b.length = d2 →
        (o' (a ++ b) = o (a ++ b) ∧ ¬ ((a, b) ∈ pairs ∨ (auto ∧ (b, a) ∈ pairs))) ∨
        ∃ p ∈ pairs, (p = (a, b) ∨ (auto ∧ p = (b, a))) ∧ o' (a ++ b) = some (g p)) ∧
      (auto → (∀ a b, a.length = d1 → b.length = d1 → o (a ++ b) = o (b ++ a)) →
        ∀ a b, a.length = d1 → b.length = d1 → o' (a ++ b) = o' (b ++ a)) := by
  induction pairs generalizing o with
  | nil => exact ⟨o, rfl, fun a b _ _ => .inl ⟨rfl, by simp⟩, fun _ h => h⟩
  | cons p ps ih =>
    obtain ⟨x, y⟩ := p
    have hx := hlen (x, y) (by simp)
    simp only at hx
    rw [List.foldlM_cons, hf (x, y) (by simp)]
    simp only
    set o1 : Out K := if auto ∧ x ≠ y then
      (o.set (x ++ y) (g (x, y))).set (y ++ x) (g (x, y)) else o.set (x ++ y) (g (x, y)) with ho1
    obtain ⟨o', ho', h1, h2⟩ := ih (fun q hq => hf q (by simp [hq]))
      (fun q hq => hlen q (by simp [hq])) o1
    have hval : ∀ a b, a.length = d1 → b.length = d2 →
        o1 (a ++ b) = if (a = x ∧ b = y) ∨ (auto ∧ a = y ∧ b = x) then some (g (x, y))
          else o (a ++ b) := by
      intro a b ha hb
      have e1 : (a ++ b = x ++ y) ↔ (a = x ∧ b = y) :=
        ⟨fun h => append_inj_len (by rw [ha, hx.1]) h, fun h => by rw [h.1, h.2]⟩
      by_cases hau : auto
      · have hdd := hd hau
        have e2 : (a ++ b = y ++ x) ↔ (a = y ∧ b = x) :=
          ⟨fun h => append_inj_len (by rw [ha, hx.2, hdd]) h, fun h => by rw [h.1, h.2]⟩
        by_cases hxy : x = y
        · subst hxy
          rw [ho1, if_neg (by simp)]
          simp only [Out.set, e1]
          by_cases h : a = x ∧ b = x
          · rw [if_pos h, if_pos (Or.inl h)]
          · rw [if_neg h, if_neg (by rintro (h1 | ⟨-, h1⟩) <;> exact h h1)]
        · rw [ho1, if_pos ⟨hau, hxy⟩]
          simp only [Out.set, e1, e2]
          by_cases h : a = y ∧ b = x
          · rw [if_pos h, if_pos (Or.inr ⟨hau, h⟩)]
          · rw [if_neg h]
            by_cases h' : a = x ∧ b = y
            · rw [if_pos h', if_pos (Or.inl h')]
            · rw [if_neg h', if_neg (by rintro (h1 | ⟨-, h1⟩); exacts [h' h1, h h1])]
      · rw [ho1, if_neg (fun h => hau h.1)]
        simp only [Out.set, e1]
        by_cases h : a = x ∧ b = y
        · rw [if_pos h, if_pos (Or.inl h)]
        · rw [if_neg h, if_neg (by rintro (h1 | ⟨h1, -⟩); exacts [h h1, hau h1])]
    refine ⟨o', ho', ?_, ?_⟩
    · intro a b ha hb
      rcases h1 a b ha hb with ⟨e, hn⟩ | ⟨p, hp, e1, e2⟩
      · rw [hval a b ha hb] at e
        by_cases h : (a = x ∧ b = y) ∨ (auto ∧ a = y ∧ b = x)
        · rw [if_pos h] at e
          refine .inr ⟨(x, y), by simp, ?_, e⟩
          rcases h with ⟨rfl, rfl⟩ | ⟨h, rfl, rfl⟩
          · exact .inl rfl
          · exact .inr ⟨h, rfl⟩
        · rw [if_neg h] at e
          refine .inl ⟨e, ?_⟩
          simp only [List.mem_cons, Prod.mk.injEq]
          tauto
      · exact .inr ⟨p, by simp [hp], e1, e2⟩
    · intro hau hsym
      apply h2 hau
      intro a b ha hb
      have hdd := hd hau
      rw [hval a b ha (hdd ▸ hb), hval b a hb (hdd ▸ ha), hsym a b ha hb]
      congr 1
      simp only [eq_iff_iff]
      tauto

/-- **C164**: one set of weights. -/
theorem effective_auto_fl (R : Rounding) (cls : List (List ℝ)) {n : ℕ}
    (h : cls.length = n * (n + 1) / 2) (w : Weights ℝ) (hw : w.n = some n) (m : ℕ)
    (hn : 2 * (n ^ 2 + 2) ≤ 2 ^ 53) :
    ∃ out, effectiveClsFl R cls w none (some m) = .ok out ∧
      ∀ j1 j2, ValidIndex w.shape j1 → ValidIndex w.shape j2 →
        out (j1 ++ j2) = out (j2 ++ j1) ∧ ∃ r, out (j1 ++ j2) = some r ∧ r.length = m ∧
        ∀ l (hl : l < r.length), |r[l].val - ∑ i1 ∈ Finset.range n, ∑ i2 ∈ Finset.range n,
            w.val i1 j1 * w.val i2 j2 * clValue cls i1 i2 l| ≤
          2 * (n ^ 2 + 2) / 2 ^ 53 * ∑ i1 ∈ Finset.range n, ∑ i2 ∈ Finset.range n,
            |w.val i1 j1 * w.val i2 j2 * clValue cls i1 i2 l| := by
  change cls.length = tri n at h
  choose g hg hl he using fun p : List ℕ × List ℕ => combined_error R cls m h (fun i => w.val i p.1)
    (fun i => w.val i p.2) hn
  unfold effectiveClsFl effectiveCls
  rw [nfields_tri _ n (by simpa [storeCls] using h)]
  simp only [Option.map_none, Option.getD_some, Option.getD_none, Weights.store, hw, ne_eq,
    not_true_eq_false, if_false, Option.isNone_none, if_true]
  obtain ⟨o, ho, h1, h2⟩ := outLoop_any True g w.shape.length w.shape.length (fun _ => rfl)
    (fun j => combined (storeCls R cls) n m (fun i => Fl.mk (w.val i j.1))
      (fun i => Fl.mk (w.val i j.2)))
    (combWithRepl (ndindex w.shape)) (fun p _ => hg p)
    (fun p hp => ⟨ndindex_length _ _ (combWithRepl_mem _ p.1 p.2 hp).1,
      ndindex_length _ _ (combWithRepl_mem _ p.1 p.2 hp).2⟩) (fun _ => none)
  refine ⟨o, ho, ?_⟩
  intro j1 j2 hj1 hj2
  rw [← mem_ndindex] at hj1 hj2
  have l1 := ndindex_length _ _ hj1
  have l2 := ndindex_length _ _ hj2
  refine ⟨h2 trivial (fun _ _ _ _ => rfl) j1 j2 l1 l2, ?_⟩
  rcases h1 j1 j2 l1 l2 with ⟨-, hn⟩ | ⟨p, -, hp, e⟩
  · exact absurd (by have := combWithRepl_complete _ _ _ hj1 hj2; tauto) hn
  · refine ⟨g p, e, hl p, fun l hll => ?_⟩
    have := he p l hll
    rcases hp with rfl | ⟨-, rfl⟩
    · exact this
    · simp only at this
      rw [bilinear_symm, magnitude_symm] at this
      exact this

/-- **C164**: two sets of weights. -/
theorem effective_cross_fl (R : Rounding) (cls : List (List ℝ)) {n : ℕ}
    (h : cls.length = n * (n + 1) / 2) (w1 w2 : Weights ℝ) (hw1 : w1.n = some n) (hw2 : w2.n = some n)
    (m : ℕ) (hn : 2 * (n ^ 2 + 2) ≤ 2 ^ 53) :
    ∃ out, effectiveClsFl R cls w1 (some w2) (some m) = .ok out ∧
      ∀ j1 j2, ValidIndex w1.shape j1 → ValidIndex w2.shape j2 →
        ∃ r, out (j1 ++ j2) = some r ∧ r.length = m ∧
        ∀ l (hl : l < r.length), |r[l].val - ∑ i1 ∈ Finset.range n, ∑ i2 ∈ Finset.range n,
            w1.val i1 j1 * w2.val i2 j2 * clValue cls i1 i2 l| ≤
          2 * (n ^ 2 + 2) / 2 ^ 53 * ∑ i1 ∈ Finset.range n, ∑ i2 ∈ Finset.range n,
            |w1.val i1 j1 * w2.val i2 j2 * clValue cls i1 i2 l| := by
  change cls.length = tri n at h
  choose g hg hl he using fun p : List ℕ × List ℕ => combined_error R cls m h (fun i => w1.val i p.1)
    (fun i => w2.val i p.2) hn
  unfold effectiveClsFl effectiveCls
  rw [nfields_tri _ n (by simpa [storeCls] using h)]
  simp only [Option.map_some, Option.getD_some, Weights.store, hw1, hw2, ne_eq,
    not_true_eq_false, if_false, Option.isNone_some, Bool.false_eq_true]
  obtain ⟨o, ho, h1, -⟩ := outLoop_any False g w1.shape.length w2.shape.length (fun h => h.elim)
    (fun j => combined (storeCls R cls) n m (fun i => Fl.mk (w1.val i j.1))
      (fun i => Fl.mk (w2.val i j.2)))
    (prodPairs (ndindex w1.shape) (ndindex w2.shape)) (fun p _ => hg p)
    (fun p hp => by
      simp only [prodPairs, List.mem_flatMap, List.mem_map] at hp
      obtain ⟨a, ha, b, hb, rfl⟩ := hp
      exact ⟨ndindex_length _ _ ha, ndindex_length _ _ hb⟩) (fun _ => none)
  refine ⟨o, ho, ?_⟩
  intro j1 j2 hj1 hj2
  rw [← mem_ndindex] at hj1 hj2
  rcases h1 j1 j2 (ndindex_length _ _ hj1) (ndindex_length _ _ hj2) with ⟨-, hn⟩ | ⟨p, -, hp, e⟩
  · exact absurd (.inl (by
      simp only [prodPairs, List.mem_flatMap, List.mem_map]; exact ⟨j1, hj1, j2, hj2, rfl⟩)) hn
  · refine ⟨g p, e, hl p, fun l hll => ?_⟩
    rcases hp with rfl | ⟨hF, -⟩
    · exact he _ l hll
    · exact hF.elim

/-- Two sets of weights, for any kind of numbers. -/
theorem effective_cross_rows {K : Type*} [Zero K] [Add K] [Mul K] (cls : List (List K)) {n : ℕ}
    (h : cls.length = tri n) (w1 w2 : Weights K) (hw1 : w1.n = some n) (hw2 : w2.n = some n) (m : ℕ) :
    ∃ out, effectiveCls cls w1 (some w2) (some m) = .ok out ∧
      ∀ j1 j2, ValidIndex w1.shape j1 → ValidIndex w2.shape j2 →
        out (j1 ++ j2) = some ((List.range m).map fun l => ((fieldPairs n).map fun p =>
          w1.val p.1 j1 * w2.val p.2 j2 * clValue cls p.1 p.2 l).foldl (· + ·) 0) := by
  unfold effectiveCls
  rw [nfields_tri _ n h]
  simp only [Option.getD_some, hw1, hw2, ne_eq,
    not_true_eq_false, if_false, Option.isNone_some, Bool.false_eq_true]
  obtain ⟨o, ho, h1, -⟩ := outLoop_any False (fun j => (List.range m).map fun l =>
      ((fieldPairs n).map fun p => w1.val p.1 j.1 * w2.val p.2 j.2 * clValue cls p.1 p.2 l).foldl
        (· + ·) 0) w1.shape.length w2.shape.length (fun h => h.elim)
    (fun j => combined cls n m (fun i => w1.val i j.1) (fun i => w2.val i j.2))
    (prodPairs (ndindex w1.shape) (ndindex w2.shape)) (fun p _ => combined_fold cls n m h _ _)
    (fun p hp => by
      simp only [prodPairs, List.mem_flatMap, List.mem_map] at hp
      obtain ⟨a, ha, b, hb, rfl⟩ := hp
      exact ⟨ndindex_length _ _ ha, ndindex_length _ _ hb⟩) (fun _ => none)
  refine ⟨o, ho, ?_⟩
  intro j1 j2 hj1 hj2
  rw [← mem_ndindex] at hj1 hj2
  rcases h1 j1 j2 (ndindex_length _ _ hj1) (ndindex_length _ _ hj2) with ⟨-, hn⟩ | ⟨p, -, hp, e⟩
  · exact absurd (.inl (by
      simp only [prodPairs, List.mem_flatMap, List.mem_map]; exact ⟨j1, hj1, j2, hj2, rfl⟩)) hn
  · rcases hp with rfl | ⟨hF, -⟩
    · exact e
    · exact hF.elim

/-- Two fields, and two columns of weights: 1 and 2, 1 and 1. -/
def twoColumns : Weights ℝ := ⟨some 2, [2], fun i j => if i = 1 ∧ j = [0] then 2 else 1⟩

/-- **C164**: if the weights are given a second time as another array, the effective spectra are not
symmetric. -/
theorem effective_copy_asymmetric : ∃ out,
    effectiveClsFl double [[2 ^ 53], [0], [1]] twoColumns (some twoColumns) (some 1) = .ok out ∧
    out [0, 1] = some [⟨2 ^ 53 + 2⟩] ∧ out [1, 0] = some [⟨2 ^ 53 + 4⟩] := by
  obtain ⟨out, h, hrow⟩ := effective_cross_rows (storeCls double [[2 ^ 53], [0], [1]]) (n := 2) (by rfl)
    (twoColumns.store double) (twoColumns.store double) rfl rfl 1
  have r0 : roundDouble 0 = 0 := double.zero
  have r1 : roundDouble 1 = 1 := double.one
  have r2 : roundDouble 2 = 2 := by
    have := double.exact 8 (by norm_num); norm_num at this; exact this
  have rb : roundDouble (2 ^ 53) = 2 ^ 53 := by
    rw [Glass.Shells.roundDouble_of _ 53 (2 ^ 52) (by norm_num) (by norm_num) (by norm_num)]; norm_num
  have rb1 : roundDouble (2 ^ 53 + 1) = 2 ^ 53 := by
    rw [Glass.Shells.roundDouble_tie _ 53 (2 ^ 52) (by norm_num) (by norm_num) (by decide)
      (by norm_num [abs_of_pos])]
    norm_num
  have rb2 : roundDouble (2 ^ 53 + 2) = 2 ^ 53 + 2 := by
    rw [Glass.Shells.roundDouble_of _ 53 (2 ^ 52 + 1) (by norm_num) (by norm_num) (by norm_num)]; norm_num
  have rb3 : roundDouble (2 ^ 53 + 2 + 1) = 2 ^ 53 + 4 := by
    rw [Glass.Shells.roundDouble_tie _ 53 (2 ^ 52 + 2) (by norm_num) (by norm_num) (by decide)
      (by norm_num [abs_of_neg])]
    norm_num
  have rb4 : roundDouble (2 ^ 53 + 4) = 2 ^ 53 + 4 := by
    rw [Glass.Shells.roundDouble_of _ 53 (2 ^ 52 + 2) (by norm_num) (by norm_num) (by norm_num)]; norm_num
  have ha : ∀ x y : ℝ, (Fl.mk x : Fl double) + Fl.mk y = Fl.mk (roundDouble (x + y)) := fun _ _ => rfl
  have hm : ∀ x y : ℝ, (Fl.mk x : Fl double) * Fl.mk y = Fl.mk (roundDouble (x * y)) := fun _ _ => rfl
  have hz : (0 : Fl double) = Fl.mk 0 := rfl
  have hp : fieldPairs 2 = [(0, 0), (0, 1), (1, 0), (1, 1)] := by rfl
  refine ⟨out, h, ?_, ?_⟩
  · have := hrow [0] [1] ⟨by norm_num [twoColumns, Weights.store], trivial⟩
      ⟨by norm_num [twoColumns, Weights.store], trivial⟩
    rw [hp] at this
    simp [twoColumns, Weights.store, clValue, storeCls, hz, ha, hm, r0, r1, r2, rb, rb1, rb2] at this
    exact this
  · have := hrow [1] [0] ⟨by norm_num [twoColumns, Weights.store], trivial⟩
      ⟨by norm_num [twoColumns, Weights.store], trivial⟩
    rw [hp] at this
    simp [twoColumns, Weights.store, clValue, storeCls, hz, ha, hm, r0, r1, r2, rb, rb2, rb3, rb4] at this
    exact this

/-- Concrete case: the same spectra with one set of weights. -/
example : ∃ out, effectiveClsFl double [[2 ^ 53], [0], [1]] twoColumns none (some 1) = .ok out ∧
    out [0, 1] = out [1, 0] := by
  obtain ⟨out, h, hs⟩ := effective_auto_fl double [[2 ^ 53], [0], [1]] (n := 2) (by rfl) twoColumns rfl 1
    (by norm_num)
  exact ⟨out, h, (hs [0] [1] ⟨by norm_num, trivial⟩ ⟨by norm_num, trivial⟩).1⟩

end Glass.Spectra
