import Verif.Galaxies.NzProps

/-!
# Redshifts for a catalogue of bins (C63, C64)
-/

namespace Glass.Galaxies

open Glass Glass.Num Glass.Arrays NdArray

/-! ## Specification -/

/-- `p` is the result of some sorting algorithm: a permutation of the positions that puts the values
in order.  Nothing is said about the order of equal values. -/
def IsArgsort (l p : List ℕ) : Prop :=
  p.Perm (List.range l.length) ∧ (p.map fun i => l[i]!).Pairwise (· ≤ ·)

/-! ## Sorting twice -/

theorem map_getElem_range {α : Type} [Inhabited α] (l : List α) :
    (List.range l.length).map (fun i => l[i]!) = l := by
  refine List.ext_getElem (by simp) fun i h1 h2 => ?_
  simp [h2]

/-- The second sort gives the inverse permutation. -/
theorem argsort_argsort {l p q : List ℕ} (hp : IsArgsort l p) (hq : IsArgsort p q) :
    q.length = l.length ∧ q.Perm (List.range l.length) ∧
      q.map (fun i => p[i]!) = List.range l.length := by
  have hpl : p.length = l.length := by simpa using hp.1.length_eq
  have hqp : q.Perm (List.range l.length) := by rw [← hpl]; exact hq.1
  refine ⟨by simpa using hqp.length_eq, hqp, ?_⟩
  refine List.Perm.eq_of_pairwise' (r := (· ≤ ·)) hq.2 ?_ ?_
  · exact (List.pairwise_lt_range (n := l.length)).imp fun h => h.le
  · refine (hq.1.map _).trans ?_
    rw [map_getElem_range]
    exact hp.1

/-- The sorted labels. -/
theorem sorted_labels {α : Type} [LinearOrder α] [Inhabited α] {bins sorted : List α}
    {key : α → ℕ} (hkey : ∀ x ∈ bins, ∀ y ∈ bins, key x ≤ key y → x ≤ y)
    (hsort : sorted.Pairwise (· ≤ ·)) (hperm : sorted.Perm bins)
    {p : List ℕ} (hp : IsArgsort (bins.map key) p) : p.map (fun i => bins[i]!) = sorted := by
  have hpp : p.Perm (List.range bins.length) := by simpa using hp.1
  have hplt : ∀ i ∈ p, i < bins.length := fun i hi => by simpa using hpp.subset hi
  refine List.Perm.eq_of_pairwise' (r := (· ≤ ·)) ?_ hsort ?_
  · have h2 := hp.2
    rw [List.pairwise_map] at h2 ⊢
    refine h2.imp_of_mem fun {a b} ha hb hab => ?_
    have ha' := hplt a ha
    have hb' := hplt b hb
    rw [getElem!_pos _ a (by simpa using ha'), getElem!_pos _ b (by simpa using hb'),
      List.getElem_map, List.getElem_map] at hab
    rw [getElem!_pos _ a ha', getElem!_pos _ b hb']
    exact hkey _ (List.getElem_mem _) _ (List.getElem_mem _) hab
  · refine (hpp.map _).trans ?_
    rw [map_getElem_range]
    exact hperm.symm

/-- Runs of values in the order of their labels are distributed to the positions of the labels. -/
theorem distribute {α β : Type} [LinearOrder α] [Inhabited α] [Inhabited β] {bins : List α}
    {key : α → ℕ} (hkey : ∀ x ∈ bins, ∀ y ∈ bins, key x ≤ key y → x ≤ y) {tagged : List (α × β)}
    (hsort : (tagged.map Prod.fst).Pairwise (· ≤ ·)) (hperm : (tagged.map Prod.fst).Perm bins)
    {p q : List ℕ} (hp : IsArgsort (bins.map key) p) (hq : IsArgsort p q) :
    (bins.zip (q.map fun i => (tagged.map Prod.snd)[i]!)).Perm tagged := by
  obtain ⟨hql, hqp, hinv⟩ := argsort_argsort hp hq
  rw [List.length_map] at hql hqp hinv
  have htl : tagged.length = bins.length := by simpa using hperm.length_eq
  have hpp : p.Perm (List.range bins.length) := by simpa using hp.1
  have hpl : p.length = bins.length := by simpa using hpp.length_eq
  have hqlt : ∀ i ∈ q, i < bins.length := fun i hi => by simpa using hqp.subset hi
  have hs : p.map (fun i => bins[i]!) = tagged.map Prod.fst := sorted_labels hkey hsort hperm hp
  have e : bins.zip (q.map fun i => (tagged.map Prod.snd)[i]!) =
      q.map fun i => (tagged[i]!) := by
    refine List.ext_getElem (by simp [hql]) fun i h1 h2 => ?_
    have hi : i < bins.length := by simp at h1; exact h1.1
    have hiq : i < q.length := by omega
    have hqi := hqlt _ (List.getElem_mem hiq)
    have hti : q[i] < tagged.length := by omega
    simp only [List.getElem_zip, List.getElem_map]
    rw [getElem!_pos tagged _ hti, getElem!_pos (tagged.map Prod.snd) _ (by simpa using hti)]
    have h3 : p[q[i]]! = i := by
      have := congrArg (fun l : List ℕ => l[i]?) hinv
      simpa [hiq, hi] using this
    have h4 : (p.map fun i => bins[i]!)[q[i]]? = (tagged.map Prod.fst)[q[i]]? := by rw [hs]
    rw [List.getElem?_map, List.getElem?_map, List.getElem?_eq_getElem (by omega),
      List.getElem?_eq_getElem hti] at h4
    rw [getElem!_pos p _ (by omega)] at h3
    simp only [Option.map_some, Option.some.injEq, h3] at h4
    rw [getElem!_pos bins _ hi] at h4
    refine Prod.ext h4 ?_
    simp
  rw [e]
  refine (hqp.map _).trans ?_
  rw [← htl, map_getElem_range]

/-! ## Labels -/

theorem uniqueLabels_facts {α : Type} [LinearOrder α] (l : List α) :
    (uniqueLabels l).Pairwise (· < ·) ∧ ∀ x, x ∈ uniqueLabels l ↔ x ∈ l := by
  have h1 : (uniqueLabels l).Pairwise (· ≤ ·) := List.pairwise_mergeSort' _ _
  have h2 : (uniqueLabels l).Perm l.dedup := List.mergeSort_perm _ _
  have h3 : (uniqueLabels l).Nodup := h2.nodup_iff.2 l.nodup_dedup
  refine ⟨?_, fun x => by rw [h2.mem_iff, List.mem_dedup]⟩
  exact (h1.and h3).imp fun h => lt_of_le_of_ne h.1 h.2

/-- The index of a label has the order of the labels. -/
theorem idxOf_mono {α : Type} [LinearOrder α] {l : List α} (h : l.Pairwise (· < ·)) {x y : α}
    (hx : x ∈ l) (hy : y ∈ l) (hxy : l.idxOf x ≤ l.idxOf y) : x ≤ y := by
  have h1 := List.idxOf_lt_length_of_mem hx
  have h2 := List.idxOf_lt_length_of_mem hy
  rw [← List.getElem_idxOf h1, ← List.getElem_idxOf h2]
  rcases hxy.lt_or_eq with hlt | he
  · exact (List.pairwise_iff_getElem.1 h _ _ h1 h2 hlt).le
  · simp only [he]; exact le_rfl

/-- The draws with their labels. -/
def tag {α : Type} (labels : List α) (runs : List (List ℝ)) : List (α × ℝ) :=
  (List.zipWith (fun x run => run.map fun t => (x, t)) labels runs).flatten

theorem tag_snd {α : Type} : ∀ {labels : List α} {runs : List (List ℝ)},
    labels.length = runs.length → (tag labels runs).map Prod.snd = runs.flatten
  | [], [], _ => rfl
  | x :: l, r :: rs, h => by
    have ih := tag_snd (labels := l) (runs := rs) (by simpa using h)
    have e : tag (x :: l) (r :: rs) = r.map (fun t => (x, t)) ++ tag l rs := rfl
    rw [e, List.map_append, ih]
    simp [Function.comp_def]
  | [], _ :: _, h => by simp at h
  | _ :: _, [], h => by simp at h

theorem tag_fst {α : Type} {c : α → ℕ} : ∀ {labels : List α} {runs : List (List ℝ)},
    List.Forall₂ (fun x run => run.length = c x) labels runs →
      (tag labels runs).map Prod.fst = labels.flatMap fun x => List.replicate (c x) x
  | [], _, h => by cases h; rfl
  | x :: l, _, h => by
    cases h with
    | @cons _ r _ rs h1 h2 =>
      have ih := tag_fst h2
      have e : tag (x :: l) (r :: rs) = r.map (fun t => (x, t)) ++ tag l rs := rfl
      rw [e, List.map_append, ih, List.flatMap_cons]
      congr 1
      simp only [List.map_map, Function.comp_def]
      rw [List.map_const', h1]

theorem tag_filter {α : Type} [DecidableEq α] : ∀ {labels : List α} {runs : List (List ℝ)}
    (_ : labels.Nodup) {i : ℕ} {x : α} {run : List ℝ}, labels[i]? = some x →
      runs[i]? = some run → ((tag labels runs).filter fun p => p.1 = x).map Prod.snd = run
  | [], _, _, _, _, _, h, _ => by simp at h
  | _ :: _, [], _, _, _, _, _, h => by simp at h
  | y :: l, r :: rs, hn, i, x, run, h1, h2 => by
    have hn' := List.nodup_cons.1 hn
    have e : tag (y :: l) (r :: rs) = r.map (fun t => (y, t)) ++ tag l rs := rfl
    rw [e, List.filter_append, List.map_append]
    rcases i with _ | i
    · simp only [List.getElem?_cons_zero, Option.some.injEq] at h1 h2
      subst h1 h2
      have hno : (tag l rs).filter (fun p => p.1 = y) = [] := by
        rw [List.filter_eq_nil_iff]
        rintro p hp he
        simp only [decide_eq_true_eq] at he
        obtain ⟨q, hq, hpq⟩ := List.mem_flatten.1 hp
        obtain ⟨k, hk, rfl⟩ := List.getElem_of_mem hq
        rw [List.getElem_zipWith] at hpq
        obtain ⟨t, -, rfl⟩ := List.mem_map.1 hpq
        exact hn'.1 (he ▸ List.getElem_mem _)
      rw [hno, List.filter_eq_self.2 (by simp)]
      simp [Function.comp_def]
    · simp only [List.getElem?_cons_succ] at h1 h2
      have hne : y ≠ x := fun he => hn'.1 (he ▸ List.mem_of_getElem? h1)
      have hno : (r.map fun t => (y, t)).filter (fun p : α × ℝ => p.1 = x) = [] := by
        rw [List.filter_eq_nil_iff]
        rintro p hp he
        obtain ⟨t, -, rfl⟩ := List.mem_map.1 hp
        simp only [decide_eq_true_eq] at he
        exact hne he
      rw [hno, List.map_nil, List.nil_append]
      exact tag_filter hn'.2 h1 h2

/-! ## The function -/

theorem drawRuns_spec {α σ : Type} [DecidableEq α] {uniform : σ → ℕ → List ℝ × σ}
    {z : List ℝ} {dict : List (α × List ℝ)} {nzOf : α → List ℝ} {c : α → ℕ} (hz : z ≠ []) :
    ∀ {labels : List α}, (∀ x ∈ labels, lookupNz dict x = .ok (nzOf x) ∧
      (nzOf x).length = z.length) → ∀ s,
      drawRuns uniform z dict (labels.zip (labels.map c)) s =
        .ok (List.zipWith (fun x us => us.map (inverseCdf (z.zip (nzOf x)))) labels
          (streams uniform s (labels.map c)).1, (streams uniform s (labels.map c)).2)
  | [], _, s => rfl
  | x :: l, h, s => by
    obtain ⟨h1, h2⟩ := h x (by simp)
    rw [List.map_cons, List.zip_cons_cons, drawRuns, h1]
    simp only [bind, Except.bind]
    rw [drawNz_ok uniform s _ h2.symm hz]
    simp only
    rw [drawRuns_spec hz (fun y hy => h y (List.mem_cons_of_mem _ hy))]
    rfl

theorem lookupNz_ok {α : Type} [DecidableEq α] {dict : List (α × List ℝ)}
    (hk : (dict.map Prod.fst).Nodup) {x : α} {nz : List ℝ} (h : (x, nz) ∈ dict) :
    lookupNz dict x = .ok nz := by
  induction dict with
  | nil => simp at h
  | cons p l ih =>
    rw [List.map_cons, List.nodup_cons] at hk
    unfold lookupNz
    rw [List.find?_cons]
    by_cases hp : p.1 = x
    · have : p = (x, nz) := by
        rcases List.mem_cons.1 h with h | h
        · exact h.symm
        · exact absurd (List.mem_map.2 ⟨_, h, hp.symm⟩) hk.1
      simp [this]
    · have hm : (x, nz) ∈ l := (List.mem_cons.1 h).resolve_left fun he => hp (by rw [← he])
      simp only [hp, decide_false]
      exact ih hk.2 hm

theorem ravel_one {α : Type} (a : NdArray α) {n : ℕ} (h : a.shape = [n]) :
    a.ravel = (List.range n).map fun i => a.get [i] := by
  rw [ravel, h]
  simp only [indices, List.map_cons, List.map_nil]
  generalize List.range n = l
  induction l with
  | nil => rfl
  | cons x l ih => simpa using ih

/-- Sorting an array of one axis. -/
theorem argsortLast_one (argsort : List ℕ → List ℕ) (a : NdArray ℕ) {n : ℕ} (h : a.shape = [n])
    (hl : (argsort a.ravel).length = n) :
    ∃ b, argsortLast argsort a = .ok b ∧ b.shape = [n] ∧ b.ravel = argsort a.ravel := by
  refine ⟨⟨[n], fun idx => (argsort ((List.range n).map fun j =>
    a.get (idx.dropLast ++ [j])))[idx.getLast?.getD 0]!⟩, by unfold argsortLast; rw [h]; rfl, rfl, ?_⟩
  rw [ravel_one _ rfl]
  simp only [List.dropLast_singleton, List.nil_append, List.getLast?_singleton, Option.getD_some]
  rw [← ravel_one a h]
  conv_rhs => rw [← map_getElem_range (argsort a.ravel), hl]

/-- The draws in the order of the labels are sorted labels with values. -/
theorem flatMap_count {α : Type} [LinearOrder α] {labels bins : List α}
    (hls : labels.Pairwise (· < ·)) (hlm : ∀ x, x ∈ labels ↔ x ∈ bins) :
    (labels.flatMap fun x => List.replicate (bins.count x) x).Perm bins ∧
      (labels.flatMap fun x => List.replicate (bins.count x) x).Pairwise (· ≤ ·) := by
  have hnd : labels.Nodup := hls.imp fun h => h.ne
  constructor
  · rw [List.perm_iff_count]
    intro y
    have : ∀ l : List α, l.Nodup → (l.flatMap fun x => List.replicate (bins.count x) x).count y
        = if y ∈ l then bins.count y else 0 := by
      intro l
      induction l with
      | nil => intro _; simp
      | cons a l ih =>
        intro hl
        have hl' := List.nodup_cons.1 hl
        rw [List.flatMap_cons, List.count_append, ih hl'.2, List.count_replicate]
        by_cases hay : a = y
        · subst hay; simp [hl'.1]
        · simp [hay, Ne.symm hay]
    rw [this labels hnd]
    split_ifs with hy
    · rfl
    · rw [hlm] at hy
      exact (List.count_eq_zero_of_not_mem hy).symm
  · rw [List.pairwise_flatMap]
    refine ⟨fun x _ => ?_, hls.imp fun {x y} hxy a ha b hb => ?_⟩
    · exact List.pairwise_replicate.2 (.inr le_rfl)
    · rw [(List.mem_replicate.1 ha).2, (List.mem_replicate.1 hb).2]; exact hxy.le

/-- The result, with the positions of the draws. -/
theorem redshifts_from_bins_form {α σ : Type} [LinearOrder α] [Inhabited α]
    {uniform : σ → ℕ → List ℝ × σ} (hu : UniformLaw uniform) {argsort : List ℕ → List ℕ}
    (ha : ∀ l, IsArgsort l (argsort l)) (s : σ) (bins : NdArray α) {n : ℕ}
    (hn : bins.shape = [n]) (h0 : 0 < n) {z : List ℝ} (hz : z ≠ []) {dict : List (α × List ℝ)}
    (hk : (dict.map Prod.fst).Nodup) {nzOf : α → List ℝ}
    (hnz : ∀ x ∈ bins.ravel, (x, nzOf x) ∈ dict ∧ (nzOf x).length = z.length) {labels : List α}
    (hlab : labels = uniqueLabels bins.ravel) {us runs : List (List ℝ)}
    (hus : us = (streams uniform s (labels.map fun x => bins.ravel.count x)).1)
    (hruns : runs = List.zipWith (fun x us => us.map (inverseCdf (z.zip (nzOf x)))) labels us) :
    List.Forall₂ (fun x run => run.length = bins.ravel.count x) labels runs ∧
    ∃ r : NdArray ℝ, redshiftsFromBins uniform argsort s bins z dict =
        .ok (r, (streams uniform s (labels.map fun x => bins.ravel.count x)).2) ∧
      r.shape = bins.shape ∧
      r.ravel = (argsort (argsort (bins.ravel.map fun x => labels.idxOf x))).map
        fun i => runs.flatten[i]! := by
  classical
  obtain ⟨hls, hlm⟩ := uniqueLabels_facts bins.ravel
  rw [← hlab] at hls hlm
  have hlook : ∀ x ∈ labels, lookupNz dict x = .ok (nzOf x) ∧ (nzOf x).length = z.length :=
    fun x hx => ⟨lookupNz_ok hk (hnz x ((hlm x).1 hx)).1, (hnz x ((hlm x).1 hx)).2⟩
  have hdraw := drawRuns_spec (uniform := uniform) (c := fun x => bins.ravel.count x) hz hlook s
  rw [← hus, ← hruns] at hdraw
  have husl : us.length = labels.length := by rw [hus, streams_length]; simp
  have hrl : runs.length = labels.length := by rw [hruns]; simp [husl]
  have hbl : bins.ravel.length = n := by rw [ravel_one _ hn]; simp
  have hbne : bins.ravel ≠ [] := by
    intro e; rw [e] at hbl; simp at hbl; omega
  have hrne : runs.isEmpty = false := by
    obtain ⟨x, l, e⟩ := List.exists_cons_of_ne_nil hbne
    have : x ∈ labels := (hlm x).2 (by rw [e]; simp)
    have : 0 < labels.length := List.length_pos_of_mem this
    rw [List.isEmpty_eq_false_iff]
    intro e; rw [e] at hrl; simp at hrl; omega
  have hcount : List.Forall₂ (fun x run => run.length = bins.ravel.count x) labels runs := by
    have := streams_mem hu s (labels.map fun x => bins.ravel.count x)
    rw [← hus] at this
    rw [List.forall₂_iff_get] at this ⊢
    refine ⟨hrl.symm, fun i h1 h2 => ?_⟩
    have := (this.2 i (by simpa using h1) (by omega)).1
    simp only [List.get_eq_getElem, List.getElem_map] at this ⊢
    rw [← this]
    simp [hruns]
  refine ⟨hcount, ?_⟩
  have hflen : runs.flatten.length = n := by
    rw [← tag_snd hrl.symm, List.length_map, ← hbl, ← (flatMap_count hls hlm).1.length_eq,
      ← tag_fst hcount, List.length_map]
  set b0 : NdArray ℕ := bins.map fun x => labels.idxOf x with hb0
  have hb0s : b0.shape = [n] := hn
  have hb0r : b0.ravel = bins.ravel.map fun x => labels.idxOf x := by
    simp [ravel, hb0, NdArray.map]
  have hal : ∀ l, (argsort l).length = l.length := fun l => by simpa using (ha l).1.length_eq
  obtain ⟨b1, hb1, hb1s, hb1r⟩ := argsortLast_one argsort b0 hb0s (by rw [hal, hb0r]; simp [hbl])
  obtain ⟨b2, hb2, hb2s, hb2r⟩ := argsortLast_one argsort b1 hb1s
    (by rw [hal, hb1r, hal, hb0r]; simp [hbl])
  have hq : ∀ i ∈ b2.ravel, i < n := by
    intro i hi
    have := (argsort_argsort (ha b0.ravel) (ha (argsort b0.ravel))).2.1
    rw [← hb1r, ← hb2r, hb0r, List.length_map, hbl] at this
    simpa using this.subset hi
  obtain ⟨r, hr⟩ : ∃ r, NdArray.reshape (b2.map fun i => runs.flatten[i]!) bins.shape = .ok r := by
    unfold NdArray.reshape
    rw [if_pos (by simp [NdArray.map, hb2s, hn])]
    exact ⟨_, rfl⟩
  obtain ⟨hrs, hrr⟩ := reshape_ravel hr
  have hrr' : r.ravel = b2.ravel.map fun i => runs.flatten[i]! := by
    rw [hrr]; simp [ravel, NdArray.map]
  refine ⟨r, ?_, hrs, by rw [hrr', hb2r, hb1r, hb0r]⟩
  unfold redshiftsFromBins
  simp only
  rw [← hlab, hdraw]
  simp only [bind, Except.bind]
  rw [hrne, ← hb0, hb1]
  simp only [Bool.false_eq_true, if_false]
  rw [hb2]
  simp only
  rw [if_neg, hr]
  rw [Bool.not_eq_true, List.any_eq_false]
  intro i hi
  have := hq i hi
  simp only [decide_eq_true_eq, not_le]
  omega

/-- **C63.** For a catalogue with one axis, at least one object and a distribution for each label:
the draws for each label are made from the distribution of that label with fresh variates, and the
objects with that label receive exactly these draws, each of them once.  This holds for every way
of sorting equal values. -/
theorem redshifts_from_bins_spec {α σ : Type} [LinearOrder α] [Inhabited α]
    {uniform : σ → ℕ → List ℝ × σ} (hu : UniformLaw uniform) {argsort : List ℕ → List ℕ}
    (ha : ∀ l, IsArgsort l (argsort l)) (s : σ) (bins : NdArray α) {n : ℕ}
    (hn : bins.shape = [n]) (h0 : 0 < n) {z : List ℝ} (hz : z ≠ []) {dict : List (α × List ℝ)}
    (hk : (dict.map Prod.fst).Nodup)
    (hd : ∀ x ∈ bins.ravel, ∃ nz, (x, nz) ∈ dict ∧ nz.length = z.length)
    (_hz : ∀ p ∈ dict, IsDistribution (z.zip p.2)) :
    ∃ (r : NdArray ℝ) (s' : σ) (labels : List α) (us : List (List ℝ)),
      redshiftsFromBins uniform argsort s bins z dict = .ok (r, s') ∧ r.shape = bins.shape ∧
      labels.Nodup ∧ (∀ x, x ∈ labels ↔ x ∈ bins.ravel) ∧
      (us, s') = streams uniform s (labels.map fun x => bins.ravel.count x) ∧
      ∀ (i : ℕ) (x : α) (u nz : List ℝ), labels[i]? = some x → us[i]? = some u →
        (x, nz) ∈ dict →
        (((bins.ravel.zip r.ravel).filter fun p => p.1 = x).map Prod.snd).Perm
          (u.map (inverseCdf (z.zip nz))) := by
  classical
  set labels := uniqueLabels bins.ravel with hlab
  obtain ⟨hls, hlm⟩ := uniqueLabels_facts bins.ravel
  rw [← hlab] at hls hlm
  have hnd : labels.Nodup := hls.imp fun h => h.ne
  choose! nzOf hnz using hd
  set us := (streams uniform s (labels.map fun x => bins.ravel.count x)).1 with hus
  set runs := List.zipWith (fun x us => us.map (inverseCdf (z.zip (nzOf x)))) labels us with hruns
  obtain ⟨hcount, r, hr, hrs, hrr⟩ :=
    redshifts_from_bins_form hu ha s bins hn h0 hz hk hnz hlab hus hruns
  have hrl : runs.length = labels.length := hcount.length_eq.symm
  have hdist := distribute (key := fun x => labels.idxOf x) (bins := bins.ravel)
    (tagged := tag labels runs)
    (fun x hx y hy h => idxOf_mono hls ((hlm x).2 hx) ((hlm y).2 hy) h)
    (by rw [tag_fst hcount]; exact (flatMap_count hls hlm).2)
    (by rw [tag_fst hcount]; exact (flatMap_count hls hlm).1)
    (ha _) (ha _)
  rw [tag_snd hrl.symm, ← hrr] at hdist
  refine ⟨r, _, labels, us, hr, hrs, hnd, hlm, rfl, ?_⟩
  intro i x u nz hi hu' hmem
  refine ((hdist.filter _).map _).trans ?_
  have hrun : runs[i]? = some (u.map (inverseCdf (z.zip nz))) := by
    have hnzx : nzOf x = nz := by
      have h1 := lookupNz_ok hk (hnz x ((hlm x).1 (List.mem_of_getElem? hi))).1
      rw [lookupNz_ok hk hmem] at h1
      exact (Except.ok.inj h1).symm
    rw [hruns, List.getElem?_zipWith, hi, hu']
    simp only [hnzx]
  rw [tag_filter hnd hi hrun]

/-- A label without a distribution raises `ValueError`. -/
theorem redshifts_from_bins_missing {α σ : Type} [LinearOrder α]
    (uniform : σ → ℕ → List ℝ × σ) (argsort : List ℕ → List ℕ) (s : σ) (bins : NdArray α)
    (z : List ℝ) (dict : List (α × List ℝ)) {x : α} (hx : x ∈ bins.ravel)
    (hmiss : ∀ p ∈ dict, p.1 ≠ x) :
    ∃ r, redshiftsFromBins uniform argsort s bins z dict = .error (.value r) := by
  have key : ∀ (l : List α) (c : α → ℕ) (s : σ), x ∈ l →
      ∃ r, drawRuns uniform z dict (l.zip (l.map c)) s = .error (.value r) := by
    intro l c
    induction l with
    | nil => intro s h; simp at h
    | cons y l ih =>
      intro s h
      rw [List.map_cons, List.zip_cons_cons, drawRuns]
      rcases hl : lookupNz dict y with e | nz
      · unfold lookupNz at hl
        split at hl
        · cases hl
        · cases hl; exact ⟨_, rfl⟩
      · have hxl : x ∈ l := by
          refine (List.mem_cons.1 h).resolve_left ?_
          rintro rfl
          unfold lookupNz at hl
          split at hl
          · next p hp =>
            exact hmiss p (List.mem_of_find?_eq_some hp) (by simpa using List.find?_some hp)
          · cases hl
        simp only [bind, Except.bind]
        rcases drawNz_cases uniform s (c y) z nz with ⟨r, hr⟩ | ⟨v, hv⟩
        · exact ⟨r, by simp only [hr]⟩
        · obtain ⟨r, hr⟩ := ih (uniform s (c y)).2 hxl
          exact ⟨r, by simp only [hv, hr]⟩
  obtain ⟨r, hr⟩ := key (uniqueLabels bins.ravel) (fun x => bins.ravel.count x) s
    ((uniqueLabels_facts bins.ravel).2 x |>.2 hx)
  refine ⟨r, ?_⟩
  unfold redshiftsFromBins
  simp only
  rw [hr]
  rfl

/-- Concrete case: there is a sorting algorithm. -/
theorem exists_argsort : ∃ argsort : List ℕ → List ℕ, ∀ l, IsArgsort l (argsort l) := by
  refine ⟨fun l => (List.range l.length).mergeSort fun i j => decide (l[i]! ≤ l[j]!), fun l =>
    ⟨List.mergeSort_perm _ _, ?_⟩⟩
  rw [List.pairwise_map]
  have := List.pairwise_mergeSort (le := fun i j => decide (l[i]! ≤ l[j]!))
    (fun a b c h1 h2 => by simp only [decide_eq_true_eq] at *; omega)
    (fun a b => by simp only [Bool.or_eq_true, decide_eq_true_eq]; omega) (List.range l.length)
  exact this.imp fun h => by simpa using h

/-- Concrete case: three objects in two bins. -/
example : ∃ (argsort : List ℕ → List ℕ) (r : NdArray ℝ), redshiftsFromBins
    (fun (_ : Unit) n => (List.replicate n (1 / 2 : ℝ), ())) argsort ()
    (⟨[3], fun i => if i = [1] then 0 else 1⟩ : NdArray ℕ) [0, 1] [(0, [1, 0]), (1, [0, 2])] =
      .ok (r, ()) ∧ r.shape = [3] := by
  obtain ⟨argsort, ha⟩ := exists_argsort
  obtain ⟨r, s', labels, us, h1, h2, -⟩ := redshifts_from_bins_spec
    (uniform := fun (_ : Unit) n => (List.replicate n (1 / 2 : ℝ), ()))
    (fun s n => ⟨by simp, fun u hu => by rw [(List.mem_replicate.1 hu).2]; norm_num⟩) ha ()
    (⟨[3], fun i => if i = [1] then 0 else 1⟩ : NdArray ℕ) rfl (by norm_num) (z := [0, 1])
    (by simp) (dict := [(0, [1, 0]), (1, [0, 2])]) (by simp) (by
      intro x hx
      have : x = 0 ∨ x = 1 := by
        obtain ⟨i, -, rfl⟩ := List.mem_map.1 hx
        dsimp only
        split_ifs <;> simp
      rcases this with rfl | rfl
      · exact ⟨[1, 0], by simp, rfl⟩
      · exact ⟨[0, 2], by simp, rfl⟩) (by
      intro p hp
      simp only [List.mem_cons, List.not_mem_nil, or_false] at hp
      rcases hp with rfl | rfl <;> norm_num [IsDistribution, trapezoid])
  exact ⟨argsort, r, h1, h2⟩

/-! ## C64: other shapes -/

/-- **C64** fails: an empty catalogue, of whatever shape, raises `ValueError`. -/
theorem redshifts_from_bins_empty {α σ : Type} [LinearOrder α]
    (uniform : σ → ℕ → List ℝ × σ) (argsort : List ℕ → List ℕ) (s : σ) (bins : NdArray α)
    (z : List ℝ) (dict : List (α × List ℝ)) (h : bins.ravel = []) :
    redshiftsFromBins uniform argsort s bins z dict =
      .error (.value "need at least one array to concatenate") := by
  unfold redshiftsFromBins
  have e : uniqueLabels ([] : List α) = [] := by simp [uniqueLabels]
  simp only [h, e]
  rfl

/-- Sorting along the last axis gives positions in a row. -/
theorem argsortLast_rows {argsort : List ℕ → List ℕ} (ha : ∀ l, IsArgsort l (argsort l))
    {b : NdArray ℕ} {ds : List ℕ} {n : ℕ} (hb : b.shape = ds ++ [n]) :
    ∃ c, argsortLast argsort b = .ok c ∧ c.shape = ds ++ [n] ∧ ∀ i ∈ c.ravel, i < n := by
  refine ⟨⟨ds ++ [n], fun idx => (argsort ((List.range n).map fun j =>
    b.get (idx.dropLast ++ [j])))[idx.getLast?.getD 0]!⟩, ?_, rfl, ?_⟩
  · unfold argsortLast
    rw [hb]
    simp
  · intro i hi
    obtain ⟨idx, hidx, rfl⟩ := List.mem_map.1 hi
    rw [mem_indices_append] at hidx
    obtain ⟨a, -, t, ht, rfl⟩ := hidx
    obtain ⟨k, hk, rfl⟩ : ∃ k, k < n ∧ t = [k] := by
      rw [mem_indices] at ht
      cases ht with
      | cons h1 h2 => cases h2; exact ⟨_, h1, rfl⟩
    simp only [List.getLast?_concat, Option.getD_some]
    generalize hrow : ((List.range n).map fun j => _ : List ℕ) = row
    have hrl : row.length = n := by rw [← hrow]; simp
    have hp := (ha row).1
    have hpl : (argsort row).length = n := by
      have := hp.length_eq; simpa [hrl] using this
    rw [getElem!_pos (argsort row) k (by omega)]
    have := hp.subset (List.getElem_mem (by omega : k < (argsort row).length))
    simpa [hrl] using this

/-- For every number of axes, only the first draws are ever used, as many as the last axis has
entries. -/
theorem redshifts_from_bins_rows {α σ : Type} [LinearOrder α]
    (uniform : σ → ℕ → List ℝ × σ) {argsort : List ℕ → List ℕ}
    (ha : ∀ l, IsArgsort l (argsort l)) (s : σ) (bins : NdArray α) {ds : List ℕ} {n : ℕ}
    (hs : bins.shape = ds ++ [n]) {z : List ℝ} {dict : List (α × List ℝ)} {runs : List (List ℝ)}
    {s' : σ} (hd : drawRuns uniform z dict ((uniqueLabels bins.ravel).zip
        ((uniqueLabels bins.ravel).map fun x => bins.ravel.count x)) s = .ok (runs, s'))
    (hne : runs ≠ []) (hlen : n ≤ runs.flatten.length) :
    ∃ r, redshiftsFromBins uniform argsort s bins z dict = .ok (r, s') ∧ r.shape = bins.shape ∧
      ∀ x ∈ r.ravel, x ∈ runs.flatten.take n := by
  obtain ⟨b1, h1, s1, -⟩ := argsortLast_rows ha
    (b := bins.map fun x => (uniqueLabels bins.ravel).idxOf x) (show _ = ds ++ [n] from hs)
  obtain ⟨b2, h2, s2, hlt⟩ := argsortLast_rows ha s1
  obtain ⟨r, hr⟩ : ∃ r, NdArray.reshape (b2.map fun i => runs.flatten[i]!) bins.shape = .ok r := by
    unfold NdArray.reshape
    rw [if_pos (by simp [NdArray.map, s2, hs])]
    exact ⟨_, rfl⟩
  obtain ⟨hrs, hrr⟩ := reshape_ravel hr
  refine ⟨r, ?_, hrs, ?_⟩
  · unfold redshiftsFromBins
    simp only
    rw [hd]
    simp only [bind, Except.bind]
    rw [if_neg (by simpa using hne), h1]
    simp only
    rw [h2]
    simp only
    rw [if_neg, hr]
    rw [Bool.not_eq_true, List.any_eq_false]
    intro i hi
    have := hlt i hi
    simp only [decide_eq_true_eq, not_le]
    omega
  · intro x hx
    rw [hrr] at hx
    have hx' : x ∈ b2.ravel.map fun i => runs.flatten[i]! := by
      simpa [ravel, NdArray.map] using hx
    obtain ⟨i, hi, rfl⟩ := List.mem_map.1 hx'
    have hin := hlt i hi
    rw [getElem!_pos runs.flatten i (by omega), List.mem_take_iff_getElem]
    exact ⟨i, by omega, rfl⟩

/-- The example below: two rows of two objects, the first row in bin 0 and the second one in
bin 1. -/
def exBins : NdArray ℕ := ⟨[2, 2], fun i => i.headD 0⟩

/-- Bin 0 has redshifts between 0 and 1, bin 1 has redshifts between 2 and 3. -/
noncomputable def exDict : List (ℕ × List ℝ) := [(0, [1, 0, 0, 0]), (1, [0, 0, 0, 1])]

/-- **C64** fails: for two rows of objects, the second row being in a bin with redshifts between 2
and 3, all objects receive redshifts below 1, whatever sorting algorithm is used and whatever
variates are drawn. -/
theorem redshifts_from_bins_two_axes {σ : Type} {uniform : σ → ℕ → List ℝ × σ}
    (hu : UniformLaw uniform) {argsort : List ℕ → List ℕ} (ha : ∀ l, IsArgsort l (argsort l))
    (s : σ) : ∃ r s',
    redshiftsFromBins uniform argsort s exBins [0, 1, 2, 3] exDict = .ok (r, s') ∧
    (∀ idx ∈ indices [2, 2], r.get idx < 1) ∧
    (∀ u, 0 ≤ u → u < 1 → 2 ≤ inverseCdf (([0, 1, 2, 3] : List ℝ).zip [0, 0, 0, 1]) u) ∧
    exBins.get [1, 0] = 1 := by
  have hD0 : IsDistribution (([0, 1, 2, 3] : List ℝ).zip [1, 0, 0, 0]) := by
    refine ⟨?_, ?_, ?_⟩
    · simp; norm_num
    · simp
    · norm_num [trapezoid]
  have hD1 : IsDistribution (([0, 1, 2, 3] : List ℝ).zip [0, 0, 0, 1]) := by
    refine ⟨?_, ?_, ?_⟩
    · simp; norm_num
    · simp
    · norm_num [trapezoid]
  have hlab : uniqueLabels exBins.ravel = [0, 1] := by
    have e : exBins.ravel.dedup = [0, 1] := by decide
    rw [uniqueLabels, e]
    exact List.mergeSort_eq_self (r := (· ≤ ·)) (by simp)
  have hc0 : exBins.ravel.count 0 = 2 := by decide
  have hc1 : exBins.ravel.count 1 = 2 := by decide
  have hdraw := drawRuns_spec (uniform := uniform) (z := [0, 1, 2, 3]) (dict := exDict)
    (nzOf := fun x => if x = 0 then [1, 0, 0, 0] else [0, 0, 0, 1])
    (c := fun x => exBins.ravel.count x) (by simp) (labels := [0, 1]) (by
      intro x hx
      simp only [List.mem_cons, List.not_mem_nil, or_false] at hx
      rcases hx with rfl | rfl <;> simp [lookupNz, exDict]) s
  have hstr := hu s 2
  obtain ⟨r, hr, hsh, hmemr⟩ := redshifts_from_bins_rows uniform ha s exBins (ds := [2]) (n := 2)
    rfl (by rw [hlab]; exact hdraw) (by simp [streams])
    (by simp [streams, hc0, hstr.1])
  refine ⟨r, _, hr, ?_, ?_, rfl⟩
  · intro idx hidx
    have hmem : r.get idx ∈ r.ravel := by
      rw [ravel, hsh]; exact List.mem_map_of_mem hidx
    have := hmemr _ hmem
    have e : (List.zipWith (fun x us => us.map (inverseCdf (([0, 1, 2, 3] : List ℝ).zip
        (if x = 0 then [1, 0, 0, 0] else [0, 0, 0, 1])))) [0, 1]
          (streams uniform s ([0, 1].map fun x => exBins.ravel.count x)).1).flatten.take 2 =
        (uniform s 2).1.map (inverseCdf (([0, 1, 2, 3] : List ℝ).zip [1, 0, 0, 0])) := by
      simp only [List.map_cons, List.map_nil, streams, hc0, List.zipWith_cons_cons,
        List.zipWith_nil_left, List.flatten_cons, if_true]
      rw [List.take_append_of_le_length (by simp [hstr.1]),
        List.take_of_length_le (by simp [hstr.1])]
    rw [e] at this
    obtain ⟨u, hmu, heq⟩ := List.mem_map.1 this
    rw [← heq]
    have h1 := hstr.2 u hmu
    refine ((inverse_cdf_spec hD0 h1.1 h1.2).2 1 (1, 0) (by simp)).2 ?_
    have : cumulative (([0, 1, 2, 3] : List ℝ).zip [1, 0, 0, 0]) 1 = 1 := by
      norm_num [cumulative, trapezoid]
    rw [this]; exact h1.2
  · intro u h0 h1
    rw [← not_lt]
    have := (inverse_cdf_spec hD1 h0 h1).2 2 (2, 0) (by simp)
    have e : cumulative (([0, 1, 2, 3] : List ℝ).zip [0, 0, 0, 1]) 2 = 0 := by
      norm_num [cumulative, trapezoid]
    rw [e] at this
    rw [this, not_lt]
    exact h0

end Glass.Galaxies
