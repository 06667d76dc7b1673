import Mathlib.Data.List.Basic
import Mathlib.Data.List.Infix
import Verif.Rng.Model

/-!
# Keys are never used twice (C76)
-/

namespace Glass.Rng

open Glass

/-! ## Specification -/

/-- Two keys of which neither was split off the other. -/
def Unrelated (a b : Key) : Prop := ¬ a <+: b ∧ ¬ b <+: a

/-- The keys that can still produce random numbers: those of the generators and those that were
handed out. -/
def live (w : World) : List Key := w.gens.map Gen.key ++ w.handed

/-! ## Lemmas about keys -/

theorem Unrelated.symm {a b : Key} (h : Unrelated a b) : Unrelated b a := ⟨h.2, h.1⟩

theorem Unrelated.ne {a b : Key} (h : Unrelated a b) : a ≠ b := fun e => h.1 (e ▸ List.prefix_refl _)

theorem prefix_snoc {a k : Key} {i : ℕ} (h : a <+: k ++ [i]) : a <+: k ∨ a = k ++ [i] :=
  (List.prefix_concat_iff.1 (by simpa using h)).symm.imp id (by simp)

theorem unrelated_child {a k : Key} (h : Unrelated k a) (i : ℕ) : Unrelated (k ++ [i]) a := by
  refine ⟨fun h1 => h.1 ((List.prefix_append k [i]).trans h1), fun h1 => ?_⟩
  rcases prefix_snoc h1 with h2 | h2
  · exact h.2 h2
  · exact h.1 (h2 ▸ List.prefix_append k [i])

theorem unrelated_children (k : Key) {i j : ℕ} (h : i ≠ j) : Unrelated (k ++ [i]) (k ++ [j]) := by
  have key : ∀ i j : ℕ, i ≠ j → ¬ k ++ [i] <+: k ++ [j] := by
    intro i j h hp
    have := (List.prefix_append_right_inj k).1 hp
    exact h (by simpa using this)
  exact ⟨key i j h, key j i h.symm⟩

theorem splitKey_pairwise (k : Key) (n : ℕ) : (splitKey k n).Pairwise Unrelated := by
  rw [splitKey, List.pairwise_map]
  exact List.nodup_range.imp fun h => unrelated_children k h

theorem advance_split (k : Key) (op : Op) :
    ∃ n, (advance k op).1 :: (advance k op).2 = splitKey k (n + 1) := by
  have h : ∀ n : ℕ, (splitKey k (n + 1)).headD k :: (splitKey k (n + 1)).tail = splitKey k (n + 1) := by
    intro n
    simp [splitKey, List.range_succ_eq_map]
  cases op with
  | sample => exact ⟨1, h 1⟩
  | split size => exact ⟨size, by rw [advance, Nat.add_comm 1 size]; exact h size⟩
  | spawn n => exact ⟨n, h n⟩

/-- A key is replaced by its children. -/
theorem replace_pairwise {k : Key} {rest : List Key} (h : (k :: rest).Pairwise Unrelated) (n : ℕ) :
    (splitKey k n ++ rest).Pairwise Unrelated := by
  obtain ⟨h1, h2⟩ := List.pairwise_cons.1 h
  refine List.pairwise_append.2 ⟨splitKey_pairwise k n, h2, fun a ha b hb => ?_⟩
  obtain ⟨i, -, rfl⟩ := List.mem_map.1 ha
  exact unrelated_child (h1 b hb) i

theorem set_perm {l : List Key} {g : ℕ} {k : Key} (h : l[g]? = some k) (new : Key) :
    l.Perm (k :: l.eraseIdx g) ∧ (l.set g new).Perm (new :: l.eraseIdx g) := by
  obtain ⟨hlt, rfl⟩ := List.getElem?_eq_some_iff.1 h
  exact ⟨(List.getElem_cons_eraseIdx_perm hlt).symm, List.set_perm_cons_eraseIdx hlt new⟩

/-! ## The invariant -/

/-- The live keys are unrelated, and a thread in the `with` statement holds the lock and has computed
its keys from the key that is still there. -/
structure Inv (w : World) : Prop where
  unrelated : (live w).Pairwise Unrelated
  inside : ∀ t g op, w.pc t = .inside g op → ∃ k, w.gens[g]? = some ⟨k, some t⟩
  computed : ∀ t g op new keys, w.pc t = .computed g op new keys →
    ∃ k, w.gens[g]? = some ⟨k, some t⟩ ∧ (new, keys) = advance k op

theorem set_other {gens : List Gen} {g g' : ℕ} {a b c : Gen} (h : gens[g]? = some a)
    (h' : gens[g']? = some b) (hab : a ≠ b) : (gens.set g c)[g']? = some b := by
  have hne : g ≠ g' := by
    rintro rfl
    rw [h] at h'
    exact hab (Option.some.inj h')
  rw [List.getElem?_set_ne hne, h']

theorem setPc_self {pc : ℕ → Pc} {t : ℕ} {p : Pc} : setPc pc t p t = p := by simp [setPc]

theorem setPc_other {pc : ℕ → Pc} {t u : ℕ} {p : Pc} (h : u ≠ t) : setPc pc t p u = pc u := by
  simp [setPc, h]

theorem keys_set {gens : List Gen} (g : ℕ) (a : Gen) :
    (gens.set g a).map Gen.key = (gens.map Gen.key).set g a.key := by
  rw [List.map_set]

theorem Inv.store {w : World} (h : Inv w) {t g : ℕ} {op : Op} {new : Key} {keys : List Key}
    (hpc : w.pc t = .computed g op new keys) :
    ((w.gens.set g ⟨new, none⟩).map Gen.key ++ keys ++ w.handed).Pairwise Unrelated := by
  obtain ⟨k, hg, he⟩ := h.computed t g op new keys hpc
  obtain ⟨n, hn⟩ := advance_split k op
  rw [← he] at hn
  have hk : (w.gens.map Gen.key)[g]? = some k := by rw [List.getElem?_map, hg]; rfl
  obtain ⟨p1, p2⟩ := set_perm hk new
  have hl := h.unrelated
  rw [live, List.Perm.pairwise_iff (fun h => h.symm) (p1.append_right _)] at hl
  have hr := replace_pairwise (k := k) (rest := (w.gens.map Gen.key).eraseIdx g ++ w.handed)
    (by simpa using hl) (n + 1)
  rw [← hn] at hr
  rw [keys_set]
  refine (List.Perm.pairwise_iff (fun h => h.symm) ?_).1 hr
  have : (new :: keys ++ ((w.gens.map Gen.key).eraseIdx g ++ w.handed)).Perm
      ((new :: (w.gens.map Gen.key).eraseIdx g) ++ keys ++ w.handed) := by
    simp only [List.cons_append, ← List.append_assoc]
    exact (List.perm_append_comm.append_right _).cons _
  exact this.trans ((p2.symm.append_right _).append_right _)

theorem inv_step {w v : World} (h : Inv w) (hs : Step w v) : Inv v := by
  cases hs with
  | @acquire t g k op hpc hg =>
    refine ⟨?_, ?_, ?_⟩
    · have hk : (w.gens.set g ⟨k, some t⟩).map Gen.key = w.gens.map Gen.key := by
        rw [keys_set]
        apply List.ext_getElem?
        intro i
        rcases eq_or_ne g i with rfl | hi
        · rw [List.getElem?_set_self (by simpa using (List.getElem?_eq_some_iff.1 hg).1),
            List.getElem?_map, hg]
          rfl
        · rw [List.getElem?_set_ne hi]
      simpa only [live, hk] using h.unrelated
    · intro u g' op' hu
      rcases eq_or_ne u t with rfl | hne
      · simp only [setPc_self, Pc.inside.injEq] at hu
        obtain ⟨rfl, rfl⟩ := hu
        exact ⟨k, by simp [List.getElem?_set_self (List.getElem?_eq_some_iff.1 hg).1]⟩
      · simp only [setPc_other hne] at hu
        obtain ⟨k', hk'⟩ := h.inside u g' op' hu
        exact ⟨k', set_other hg hk' (by simp)⟩
    · intro u g' op' new keys hu
      rcases eq_or_ne u t with rfl | hne
      · simp [setPc_self] at hu
      · simp only [setPc_other hne] at hu
        obtain ⟨k', hk', he⟩ := h.computed u g' op' new keys hu
        exact ⟨k', set_other hg hk' (by simp), he⟩
  | @compute t g op a hpc hg =>
    refine ⟨h.unrelated, ?_, ?_⟩
    · intro u g' op' hu
      rcases eq_or_ne u t with rfl | hne
      · simp [setPc_self] at hu
      · simp only [setPc_other hne] at hu
        exact h.inside u g' op' hu
    · intro u g' op' new keys hu
      rcases eq_or_ne u t with rfl | hne
      · simp only [setPc_self, Pc.computed.injEq] at hu
        obtain ⟨rfl, rfl, rfl, rfl⟩ := hu
        obtain ⟨k, hk⟩ := h.inside u g op hpc
        rw [hg] at hk
        refine ⟨k, by rw [← hk]; exact hg, ?_⟩
        rw [Option.some.inj hk]
      · simp only [setPc_other hne] at hu
        exact h.computed u g' op' new keys hu
  | @store t g op new keys hpc hop =>
    obtain ⟨k, hg, he⟩ := h.computed t g op new keys hpc
    refine ⟨?_, ?_, ?_⟩
    · have := h.store hpc
      refine (List.Perm.pairwise_iff (fun h => h.symm) ?_).1 this
      rw [live, List.append_assoc]
      exact List.perm_append_comm.append_left _
    · intro u g' op' hu
      rcases eq_or_ne u t with rfl | hne
      · simp [setPc_self] at hu
      · simp only [setPc_other hne] at hu
        obtain ⟨k', hk'⟩ := h.inside u g' op' hu
        exact ⟨k', set_other hg hk' (by simp [hne.symm])⟩
    · intro u g' op' new' keys' hu
      rcases eq_or_ne u t with rfl | hne
      · simp [setPc_self] at hu
      · simp only [setPc_other hne] at hu
        obtain ⟨k', hk', he'⟩ := h.computed u g' op' new' keys' hu
        exact ⟨k', set_other hg hk' (by simp [hne.symm]), he'⟩
  | @storeSpawn t g n new keys hpc =>
    obtain ⟨k, hg, he⟩ := h.computed t g _ new keys hpc
    have hold : ∀ {g' : ℕ} {b : Gen}, (w.gens.set g ⟨new, none⟩)[g']? = some b →
        (w.gens.set g ⟨new, none⟩ ++ keys.map fun k => (⟨k, none⟩ : Gen))[g']? = some b := by
      intro g' b hb
      rw [List.getElem?_append_left (List.getElem?_eq_some_iff.1 hb).1, hb]
    refine ⟨?_, ?_, ?_⟩
    · have := h.store hpc
      simpa [live, Function.comp_def] using this
    · intro u g' op' hu
      rcases eq_or_ne u t with rfl | hne
      · simp [setPc_self] at hu
      · simp only [setPc_other hne] at hu
        obtain ⟨k', hk'⟩ := h.inside u g' op' hu
        exact ⟨k', hold (set_other hg hk' (by simp [hne.symm]))⟩
    · intro u g' op' new' keys' hu
      rcases eq_or_ne u t with rfl | hne
      · simp [setPc_self] at hu
      · simp only [setPc_other hne] at hu
        obtain ⟨k', hk', he'⟩ := h.computed u g' op' new' keys' hu
        exact ⟨k', hold (set_other hg hk' (by simp [hne.symm])), he'⟩

theorem inv_reach {w v : World} (h : Inv w) (hr : Reach w v) : Inv v := by
  induction hr with
  | refl => exact h
  | step _ hs ih => exact inv_step ih hs

theorem inv_start : Inv start :=
  ⟨by simp [live, start], by simp [start], by simp [start]⟩

/-! ## Property theorems -/

/-- **C76**: in every schedule of any number of threads, starting from one seed, the keys that were
handed out and the keys of the generators are different, and none was split off another one. -/
theorem keys_unrelated {w : World} (h : Reach start w) : (live w).Pairwise Unrelated :=
  (inv_reach inv_start h).unrelated

/-- **C76**: no key is handed out twice. -/
theorem keys_distinct {w : World} (h : Reach start w) : (live w).Nodup :=
  (keys_unrelated h).imp fun h => h.ne

/-- **C76**: the record of the keys that were handed out only grows, so that the previous theorem is
about all keys that were ever handed out. -/
theorem handed_grows {w v : World} (h : Reach w v) : w.handed <+: v.handed := by
  induction h with
  | refl => exact List.prefix_refl _
  | step _ hs ih =>
    refine ih.trans ?_
    cases hs
    · exact List.prefix_refl _
    · exact List.prefix_refl _
    · exact List.prefix_append _ _
    · exact List.prefix_refl _

/-- **C76**: two threads are never in the `with` statement of the same generator. -/
theorem mutual_exclusion {w : World} (h : Reach start w) {t u g : ℕ} {op op' : Op}
    {new new' : Key} {keys keys' : List Key} :
    (w.pc t = .inside g op ∨ w.pc t = .computed g op new keys) →
    (w.pc u = .inside g op' ∨ w.pc u = .computed g op' new' keys') → t = u := by
  have hi := inv_reach inv_start h
  have key : ∀ (t : ℕ) (op : Op) (new : Key) (keys : List Key),
      (w.pc t = .inside g op ∨ w.pc t = .computed g op new keys) →
      ∃ k, w.gens[g]? = some ⟨k, some t⟩ := by
    rintro t op new keys (h | h)
    · exact hi.inside t g op h
    · obtain ⟨k, hk, -⟩ := hi.computed t g op new keys h
      exact ⟨k, hk⟩
  intro h1 h2
  obtain ⟨k, hk⟩ := key t op new keys h1
  obtain ⟨k', hk'⟩ := key u op' new' keys' h2
  rw [hk] at hk'
  simp only [Option.some.injEq, Gen.mk.injEq] at hk'
  exact hk'.2

/-- The keys that a call hands out, and those that become the keys of new generators. -/
def given (k : Key) : Op → List Key × List Key
  | .sample => ([k ++ [1]], [])
  | .split n => ((List.range n).map fun i => k ++ [i + 1], [])
  | .spawn n => ([], (List.range n).map fun i => k ++ [i + 1])

/-- **C76**: every call can be carried out: a thread between calls can call a free generator, and
the call hands out as many keys as were asked for. -/
theorem call_completes {w : World} {t g : ℕ} {k : Key} (hpc : w.pc t = .idle)
    (hg : w.gens[g]? = some ⟨k, none⟩) (op : Op) :
    ∃ v, Reach w v ∧ v.pc t = .idle ∧
      v.gens = w.gens.set g ⟨k ++ [0], none⟩ ++ (given k op).2.map (fun k => ⟨k, none⟩) ∧
      v.handed = w.handed ++ (given k op).1 := by
  have hlt := (List.getElem?_eq_some_iff.1 hg).1
  have r1 := Reach.refl.step (Step.acquire (w := w) op hpc hg)
  have r2 := r1.step (Step.compute (t := t) (g := g) (op := op) (a := ⟨k, some t⟩)
    setPc_self (List.getElem?_set_self hlt))
  cases op with
  | sample =>
    refine ⟨_, r2.step (Step.store setPc_self (by simp)), setPc_self, ?_, ?_⟩
    · simp [given, advance, splitKey, List.range_succ_eq_map]
    · simp [given, advance, splitKey, List.range_succ_eq_map]
  | split n =>
    refine ⟨_, r2.step (Step.store setPc_self (by simp)), setPc_self, ?_, ?_⟩
    · simp [given, advance, splitKey, Nat.add_comm 1 n, List.range_succ_eq_map]
    · simp [given, advance, splitKey, Nat.add_comm 1 n, List.range_succ_eq_map, Function.comp_def]
  | spawn n =>
    refine ⟨_, r2.step (Step.storeSpawn setPc_self), setPc_self, ?_, ?_⟩
    · simp [given, advance, splitKey, List.range_succ_eq_map, Function.comp_def]
    · simp [given]

theorem Reach.trans {w v u : World} (h : Reach w v) (h' : Reach v u) : Reach w u := by
  induction h' with
  | refl => exact h
  | step _ hs ih => exact ih.step hs

/-- Concrete case: a generator is sampled, spawns two children, and the second child is sampled. -/
example : ∃ w, Reach start w ∧ w.handed = [[1], [0, 2, 1]] := by
  obtain ⟨w1, r1, p1, g1, e1⟩ := call_completes (w := start) (t := 0) (g := 0) (k := []) rfl rfl
    .sample
  obtain ⟨w2, r2, p2, g2, e2⟩ := call_completes (t := 0) (g := 0) (k := [0]) p1 (by rw [g1]; rfl)
    (.spawn 2)
  obtain ⟨w3, r3, -, -, e3⟩ := call_completes (t := 0) (g := 2) (k := [0, 2]) p2
    (by rw [g2, g1]; rfl) .sample
  exact ⟨w3, (r1.trans r2).trans r3, by rw [e3, e2, e1]; rfl⟩

/-- Two generators with the same seed are not covered: they hand out the same keys.  Every call of a
function of the library without a generator makes a new one with the default seed. -/
theorem same_seed_same_keys (k : Key) (op : Op) (w v : World) (hw : w.gens = [⟨k, none⟩])
    (hv : v.gens = [⟨k, none⟩]) (hpw : w.pc 0 = .idle) (hpv : v.pc 0 = .idle) :
    ∃ w' v', Reach w w' ∧ Reach v v' ∧ w'.gens = v'.gens ∧
      w'.handed.drop w.handed.length = v'.handed.drop v.handed.length := by
  obtain ⟨w', r1, -, g1, e1⟩ := call_completes (t := 0) (g := 0) hpw (by rw [hw]; rfl) op
  obtain ⟨v', r2, -, g2, e2⟩ := call_completes (t := 0) (g := 0) hpv (by rw [hv]; rfl) op
  exact ⟨w', v', r1, r2, by rw [g1, g2, hw, hv], by rw [e1, e2]; simp⟩

end Glass.Rng
