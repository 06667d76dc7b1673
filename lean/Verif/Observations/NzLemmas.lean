import Mathlib.Tactic.Linarith
import Mathlib.Tactic.Ring
import Mathlib.Tactic.FieldSimp
import Verif.Arrays.FitLemmas
import Verif.Numerics.Lemmas
import Verif.Observations.Model

/-!
# Lemmas about arrays of redshift distributions
-/

namespace Glass.Obs

open Glass Glass.Num Glass.Arrays Glass.Shapes NdArray

/-! ## Shapes with a last axis -/

theorem fits_snoc {s e : List ℕ} {a b : ℕ} :
    Fits (s ++ [a]) (e ++ [b]) ↔ Fits s e ∧ (a = 1 ∨ a = b) := by
  constructor
  · rintro ⟨h1, h2⟩
    simp only [List.reverse_append, List.reverse_cons, List.reverse_nil, List.nil_append,
      List.singleton_append] at h2
    refine ⟨⟨by simpa using h1, fun j n hn => ?_⟩, ?_⟩
    · have := h2 (j + 1) n (by simpa using hn)
      simpa using this
    · have := h2 0 a (by simp)
      simpa [eq_comm] using this
  · rintro ⟨⟨h1, h2⟩, h3⟩
    refine ⟨by simpa using h1, fun j n hn => ?_⟩
    simp only [List.reverse_append, List.reverse_cons, List.reverse_nil, List.nil_append,
      List.singleton_append] at hn ⊢
    rcases j with _ | j
    · simp only [List.getElem?_cons_zero, Option.some.injEq] at hn ⊢
      subst hn
      exact h3.imp id Eq.symm
    · simp only [List.getElem?_cons_succ] at hn ⊢
      exact h2 j n hn

theorem fits_vector (d : List ℕ) (n : ℕ) : Fits [n] (d ++ [n]) := by
  have := fits_snoc (s := []) (e := d) (a := n) (b := n)
  exact this.2 ⟨Fits.nil d, .inr rfl⟩

/-- The shape with the redshift axis is the smallest one into which the redshifts and the parameters
with their new axis fit. -/
theorem snoc_least {ss : List (List ℕ)} {d e : List ℕ} {n : ℕ} (hd : IsBroadcast ss d)
    (hss : ∀ s ∈ ss, Fits (s ++ [1]) e) (hn : Fits [n] e) : Fits (d ++ [n]) e := by
  rcases List.eq_nil_or_concat e with rfl | ⟨e, b, rfl⟩
  · have := hn.1; simp at this
  · simp only [List.concat_eq_append] at hss hn ⊢
    have hn' := (fits_snoc (s := []) (e := e) (a := n) (b := b)).1 hn
    exact fits_snoc.2 ⟨hd.least fun s hs => (fits_snoc.1 (hss s hs)).1, hn'.2⟩

theorem map₂_fits {α β γ : Type} (f : α → β → γ) {a : NdArray α} {b : NdArray β} {D : List ℕ}
    (ha : Fits a.shape D) (hb : Fits b.shape D) :
    ∃ c, NdArray.map₂ f a b = .ok c ∧ Fits c.shape D ∧ Fits a.shape c.shape ∧
      Fits b.shape c.shape ∧ ∀ idx ∈ indices D, entry c idx = f (entry a idx) (entry b idx) := by
  obtain ⟨s, hs⟩ := exists_isBroadcast ha hb
  obtain ⟨c, hc, rfl⟩ := map₂_total f hs
  have hf : Fits c.shape D := hs.least (by simp [ha, hb])
  exact ⟨c, hc, hf, hs.fits (by simp), hs.fits (by simp), fun idx hi => (map₂_ok hc).2 D hf idx hi⟩

theorem entry_addAxis {a : NdArray ℝ} {d i : List ℕ} {k : ℕ} (ha : Fits a.shape d)
    (hi : i ∈ indices d) : entry (addAxis a) (i ++ [k]) = entry a i := by
  have hl : a.shape.length ≤ i.length := by rw [mem_indices_length hi]; exact ha.1
  have h : broadcastIndex (a.shape ++ [1]) (i ++ [k]) = broadcastIndex a.shape i ++ [0] := by
    have e1 : (i ++ [k]).length - (a.shape ++ [1]).length = i.length - a.shape.length := by
      simp
    rw [broadcastIndex, e1, List.drop_append_of_le_length (by omega),
      List.zipWith_append (by simp; omega)]
    rfl
  show (addAxis a).get (broadcastIndex (a.shape ++ [1]) (i ++ [k])) = _
  rw [h]
  simp [addAxis, entry]

theorem entry_vector {z : List ℝ} (i : List ℕ) {k : ℕ}
    (hk : k < z.length) : entry (vector z) (i ++ [k]) = z[k] := by
  have h := broadcastIndex_append (s := []) (t := [z.length]) (i := i) (j := [k])
    (by simp [mem_indices, hk]) (by simp)
  rw [broadcastIndex_nil] at h
  show (vector z).get (broadcastIndex [z.length] (i ++ [k])) = _
  rw [show broadcastIndex [z.length] (i ++ [k]) = [k] by simpa using h]
  simp [vector, hk]

theorem mem_snoc {d i : List ℕ} {n k : ℕ} (hi : i ∈ indices d) (hk : k < n) :
    i ++ [k] ∈ indices (d ++ [n]) :=
  mem_indices_append.2 ⟨i, hi, [k], by simp [mem_indices, hk], rfl⟩

/-! ## Integrals of positive functions -/

theorem trapezoid_pos {f : ℝ → ℝ} {z : List ℝ} (hz : z.Pairwise (· < ·)) (h2 : 2 ≤ z.length)
    (h0 : ∀ x ∈ z, 0 ≤ f x) (hp : ∀ x ∈ z.tail, 0 < f x) : 0 < trapezoid (sample f z) := by
  rcases z with _ | ⟨a, _ | ⟨b, z⟩⟩
  · simp at h2
  · simp at h2
  · have h := trapezoid_nonneg (ks := sample f (b :: z))
      (by
        rw [sample, List.pairwise_map]
        exact ((List.pairwise_cons.1 hz).2).imp fun h => le_of_lt h)
      (by
        intro k hk
        obtain ⟨x, hx, rfl⟩ := List.mem_map.1 hk
        exact h0 x (List.mem_cons_of_mem _ hx))
    have hab := (List.pairwise_cons.1 hz).1 b (by simp)
    have ha := h0 a (by simp)
    have hb := hp b (by simp)
    show 0 < trapezoid ((a, f a) :: (b, f b) :: sample f z)
    rw [trapezoid_cons]
    have h' : 0 ≤ trapezoid ((b, f b) :: sample f z) := h
    have : 0 < (b - a) * (f b + f a) / 2 := by
      apply div_pos (mul_pos (by linarith) (by linarith)) two_pos
    show 0 < (b - a) * (f b + f a) / 2 + _
    linarith

/-! ## Normalisation -/

theorem mapM_some {α β : Type} {f : α → Option β} {g : α → β} : ∀ {l : List α},
    (∀ x ∈ l, f x = some (g x)) → l.mapM f = some (l.map g)
  | [], _ => rfl
  | a :: l, h => by
    rw [List.mapM_cons, h a (by simp), mapM_some fun x hx => h x (List.mem_cons_of_mem _ hx)]
    rfl

theorem row_sample {z : List ℝ} {y : NdArray (Option ℝ)} {i : List ℕ} {f : ℝ → ℝ}
    (hy : ∀ (k : ℕ) (hk : k < z.length), y.get (i ++ [k]) = some (f z[k])) :
    row z y i = some (sample f z) := by
  rw [row, mapM_some (g := fun k : ℕ => (z[k]?.getD 0, f (z[k]?.getD 0)))]
  · congr 1
    refine List.ext_getElem (by simp [sample]) fun k h1 h2 => ?_
    have hk : k < z.length := by simpa using h1
    simp [sample, hk]
  · intro k hk
    have hk := List.mem_range.1 hk
    rw [hy k hk]
    simp [hk]

/-- Without a normalisation, every row is divided by its integral. -/
theorem normalise_none {z : List ℝ} {y : NdArray (Option ℝ)} {d : List ℕ}
    (hs : y.shape = d ++ [z.length]) {f : List ℕ → ℝ → ℝ}
    (hy : ∀ i ∈ indices d, ∀ (k : ℕ) (hk : k < z.length), y.get (i ++ [k]) = some (f i z[k]))
    (ht : ∀ i ∈ indices d, trapezoid (sample (f i) z) ≠ 0) :
    ∃ r, normalise z y none = .ok r ∧ r.shape = d ++ [z.length] ∧
      ∀ i ∈ indices d, ∀ (k : ℕ) (hk : k < z.length),
        r.get (i ++ [k]) = some (f i z[k] / trapezoid (sample (f i) z)) := by
  refine ⟨_, rfl, hs, fun i hi k hk => ?_⟩
  simp only [List.dropLast_concat]
  rw [hy i hi k hk, row_sample (hy i hi)]
  simp [nanDiv, ht i hi]

/-- With a normalisation that fits, the result is multiplied with it. -/
theorem normalise_some {z : List ℝ} {y r : NdArray (Option ℝ)} (hr : normalise z y none = .ok r)
    {c : NdArray ℝ} (hc : Fits c.shape y.shape) :
    ∃ p, normalise z y (some c) = .ok p ∧ p.shape = r.shape ∧
      ∀ idx ∈ indices r.shape, p.get idx = (r.get idx).map fun v => v * entry c idx := by
  have hrs : r.shape = y.shape := by
    simp only [normalise, Except.ok.injEq] at hr
    rw [← hr]
  obtain ⟨p, hp, h1, h2, -, h4⟩ := map₂_fits (fun (v : Option ℝ) (c : ℝ) => v.map (· * c))
    (a := r) (b := c) (D := y.shape) (by rw [hrs]; exact Fits.refl _) hc
  have hps : p.shape = y.shape := h1.antisymm (hrs ▸ h2)
  refine ⟨p, ?_, hps.trans hrs.symm, fun idx hi => ?_⟩
  · simp only [normalise, Except.ok.injEq] at hr
    subst hr
    simp only [normalise]
    rw [hp]
    exact if_pos hps
  · have := h4 idx (hrs ▸ hi)
    rw [entry_self (a := p) (by rw [hps, ← hrs]; exact hi), entry_self (a := r) hi] at this
    exact this

/-- With a normalisation that does not fit, there is an error. -/
theorem normalise_error {z : List ℝ} {y : NdArray (Option ℝ)}
    {c : NdArray ℝ} (hc : ¬ Fits c.shape y.shape) :
    ∃ msg, normalise z y (some c) = .error (.value msg) := by
  simp only [normalise]
  split
  · rename_i e he
    obtain ⟨⟨r, rfl⟩, -⟩ := map₂_error he
    exact ⟨r, rfl⟩
  · rename_i p hp
    have h := (map₂_ok hp).1.fits (s := c.shape) (by simp)
    by_cases hs : p.shape = y.shape
    · exact absurd (hs ▸ h) hc
    · exact ⟨"non-broadcastable output operand", if_neg hs⟩

end Glass.Obs
