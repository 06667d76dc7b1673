import Verif.Arrays.FitLemmas

/-!
# Formulas with arrays

Values of array expressions: an array, or the exception that one of the operations raised.
-/

namespace Glass.Arrays

open Glass NdArray

/-- The value of an array expression. -/
abbrev Arr (α : Type) : Type := Except Err (NdArray α)

namespace Arr

variable {α β γ : Type}

/-- An elementwise function of one array. -/
def ap (f : α → β) (x : Arr α) : Arr β := x.map (NdArray.map f)

/-- An elementwise function of two arrays, with broadcasting. -/
def ap₂ (f : α → β → γ) (x : Arr α) (y : Arr β) : Arr γ :=
  match x, y with
  | .error e, _ => .error e
  | _, .error e => .error e
  | .ok a, .ok b => NdArray.map₂ f a b

end Arr

/-! ## Broadcasts of lists of shapes -/

theorem IsBroadcast.congr {ss ts : List (List ℕ)} {d : List ℕ} (h : IsBroadcast ss d)
    (hst : ∀ s, s ∈ ss ↔ s ∈ ts) : IsBroadcast ts d :=
  ⟨fun s hs => h.1 s ((hst s).2 hs), fun s hs => h.2.1 s ((hst s).2 hs), fun j n hn => by
    obtain ⟨s, hs, hj⟩ := h.2.2 j n hn
    exact ⟨s, (hst s).1 hs, hj⟩⟩

theorem isBroadcast_single (s : List ℕ) : IsBroadcast [s] s :=
  (isBroadcast_same s).congr (by simp)

theorem IsBroadcast.append {ss ts : List (List ℕ)} {a b d : List ℕ} (ha : IsBroadcast ss a)
    (hb : IsBroadcast ts b) (h : IsBroadcast [a, b] d) : IsBroadcast (ss ++ ts) d := by
  have fa := h.fits (s := a) (by simp)
  have fb := h.fits (s := b) (by simp)
  have hf : ∀ s ∈ ss ++ ts, Fits s d := by
    intro s hs
    rcases List.mem_append.1 hs with hs | hs
    · exact (ha.fits hs).trans fa
    · exact (hb.fits hs).trans fb
  refine ⟨fun s hs => (hf s hs).1, fun s hs => (hf s hs).2, fun j n hn => ?_⟩
  obtain ⟨s, hs, hj⟩ := h.2.2 j n hn
  simp only [List.mem_cons, List.not_mem_nil, or_false] at hs
  rcases hs with rfl | rfl
  · obtain ⟨t, ht, hj⟩ := ha.2.2 j n hj
    exact ⟨t, List.mem_append_left _ ht, hj⟩
  · obtain ⟨t, ht, hj⟩ := hb.2.2 j n hj
    exact ⟨t, List.mem_append_right _ ht, hj⟩

/-- Shapes that all fit into one shape have a broadcast. -/
theorem exists_broadcast_of_fits {e : List ℕ} : ∀ {ss : List (List ℕ)}, (∀ s ∈ ss, Fits s e) →
    ∃ d, IsBroadcast ss d
  | [], _ => ⟨[], by simp, by simp, by simp⟩
  | s :: ss, h => by
    obtain ⟨d, hd⟩ := exists_broadcast_of_fits (ss := ss) fun t ht => h t (by simp [ht])
    have hde : Fits d e := hd.least fun t ht => h t (by simp [ht])
    obtain ⟨c, hc⟩ := exists_isBroadcast (h s (by simp)) hde
    exact ⟨c, by simpa using (isBroadcast_single s).append hd hc⟩

/-! ## Expressions -/

/-- The expression `x` is the formula `F` of the entries of arrays whose shapes are `ss`: if the
shapes have a broadcast, then its value has that shape and the entries that `F` gives, stretched to
any larger shape; and if there is no broadcast, then `ValueError` is raised. -/
def Computes {α : Type} (x : Arr α) (ss : List (List ℕ)) (F : List ℕ → α) : Prop :=
  (∀ d, IsBroadcast ss d → ∃ a, x = .ok a ∧ a.shape = d ∧
    ∀ e, Fits d e → ∀ idx ∈ indices e, entry a idx = F idx) ∧
  ((¬ ∃ d, IsBroadcast ss d) → ∃ r, x = .error (.value r))

variable {α β γ : Type}

theorem computes_array (a : NdArray α) : Computes (.ok a) [a.shape] (entry a) := by
  refine ⟨fun d hd => ⟨a, rfl, (isBroadcast_single _).unique hd, fun _ _ _ _ => rfl⟩, fun h => ?_⟩
  exact absurd ⟨_, isBroadcast_single _⟩ h

theorem Computes.ap {x : Arr α} {ss : List (List ℕ)} {F : List ℕ → α} (h : Computes x ss F)
    (f : α → β) : Computes (Arr.ap f x) ss fun i => f (F i) := by
  refine ⟨fun d hd => ?_, fun hn => ?_⟩
  · obtain ⟨a, rfl, hs, he⟩ := h.1 d hd
    refine ⟨a.map f, rfl, hs, fun e hf idx hi => ?_⟩
    show f (entry a idx) = f (F idx)
    rw [he e hf idx hi]
  · obtain ⟨r, rfl⟩ := h.2 hn
    exact ⟨r, rfl⟩

theorem Computes.ap₂ {x : Arr α} {y : Arr β} {ss ts : List (List ℕ)} {F : List ℕ → α}
    {G : List ℕ → β} (hx : Computes x ss F) (hy : Computes y ts G) (f : α → β → γ) :
    Computes (Arr.ap₂ f x y) (ss ++ ts) fun i => f (F i) (G i) := by
  constructor
  · intro d hd
    obtain ⟨s, hs⟩ := exists_broadcast_of_fits (ss := ss) fun t ht =>
      hd.fits (List.mem_append_left _ ht)
    obtain ⟨t, ht⟩ := exists_broadcast_of_fits (ss := ts) fun t ht =>
      hd.fits (List.mem_append_right _ ht)
    obtain ⟨a, rfl, ha, hea⟩ := hx.1 s hs
    obtain ⟨b, rfl, hb, heb⟩ := hy.1 t ht
    have fs : Fits s d := hs.least fun t ht => hd.fits (List.mem_append_left _ ht)
    have ft : Fits t d := ht.least fun t ht => hd.fits (List.mem_append_right _ ht)
    obtain ⟨c, hc⟩ := exists_isBroadcast fs ft
    have hcd : c = d := (hs.append ht hc).unique hd
    subst hcd
    rw [← ha, ← hb] at hc
    obtain ⟨z, hz, hzs⟩ := map₂_total f hc
    refine ⟨z, hz, hzs, fun e hf idx hi => ?_⟩
    rw [(map₂_ok hz).2 e (hzs ▸ hf) idx hi, hea e (fs.trans hf) idx hi, heb e (ft.trans hf) idx hi]
  · intro hn
    by_cases h1 : ∃ d, IsBroadcast ss d
    · by_cases h2 : ∃ d, IsBroadcast ts d
      · obtain ⟨s, hs⟩ := h1
        obtain ⟨t, ht⟩ := h2
        obtain ⟨a, rfl, ha, hea⟩ := hx.1 s hs
        obtain ⟨b, rfl, hb, heb⟩ := hy.1 t ht
        rcases hz : NdArray.map₂ f a b with e | z
        · obtain ⟨⟨r, rfl⟩, -⟩ := map₂_error hz
          exact ⟨r, hz⟩
        · have h3 := (map₂_ok hz).1
          rw [ha, hb] at h3
          exact absurd ⟨_, hs.append ht h3⟩ hn
      · obtain ⟨r, rfl⟩ := hy.2 h2
        rcases x with e | a
        · obtain ⟨s, hs⟩ := h1
          obtain ⟨a, ha, -⟩ := hx.1 s hs
          cases ha
        · exact ⟨r, rfl⟩
    · obtain ⟨r, rfl⟩ := hx.2 h1
      exact ⟨r, rfl⟩

/-- Only the set of the shapes matters. -/
theorem Computes.congr {x : Arr α} {ss ts : List (List ℕ)} {F : List ℕ → α} (h : Computes x ss F)
    (hst : ∀ s, s ∈ ss ↔ s ∈ ts) : Computes x ts F :=
  ⟨fun d hd => h.1 d (hd.congr fun s => (hst s).symm), fun hn => h.2 fun ⟨d, hd⟩ =>
    hn ⟨d, hd.congr hst⟩⟩

/-- What a computed expression says about a result. -/
theorem Computes.ok {x : Arr α} {ss : List (List ℕ)} {F : List ℕ → α} (h : Computes x ss F)
    {a : NdArray α} (ha : x = .ok a) :
    IsBroadcast ss a.shape ∧ ∀ idx ∈ indices a.shape, a.get idx = F idx := by
  by_cases hn : ∃ d, IsBroadcast ss d
  · obtain ⟨d, hd⟩ := hn
    obtain ⟨b, hb, hs, he⟩ := h.1 d hd
    have hab : b = a := by rw [ha] at hb; exact (Except.ok.inj hb).symm
    subst hab
    subst hs
    exact ⟨hd, fun idx hi => by rw [← entry_self hi, he _ (.refl _) idx hi]⟩
  · obtain ⟨r, hr⟩ := h.2 hn
    rw [ha] at hr
    cases hr

/-- An expression has a value exactly if the shapes have a broadcast. -/
theorem Computes.ok_iff {x : Arr α} {ss : List (List ℕ)} {F : List ℕ → α} (h : Computes x ss F) :
    (∃ a, x = .ok a) ↔ ∃ d, IsBroadcast ss d := by
  refine ⟨fun ⟨a, ha⟩ => ⟨_, (h.ok ha).1⟩, fun ⟨d, hd⟩ => ?_⟩
  obtain ⟨a, ha, -⟩ := h.1 d hd
  exact ⟨a, ha⟩

/-- The exception that an expression raises is `ValueError`. -/
theorem Computes.error {x : Arr α} {ss : List (List ℕ)} {F : List ℕ → α} (h : Computes x ss F)
    {e : Err} (he : x = .error e) : ∃ r, e = .value r := by
  by_cases hn : ∃ d, IsBroadcast ss d
  · obtain ⟨d, hd⟩ := hn
    obtain ⟨a, ha, -⟩ := h.1 d hd
    rw [ha] at he
    cases he
  · obtain ⟨r, hr⟩ := h.2 hn
    rw [hr] at he
    exact ⟨r, (Except.error.inj he).symm⟩

end Glass.Arrays
