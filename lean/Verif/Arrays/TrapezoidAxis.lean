import Mathlib.Algebra.BigOperators.Intervals
import Mathlib.Tactic.Ring
import Mathlib.Tactic.NormNum
import Verif.Arrays.InterpAxis
import Verif.Arrays.Elementwise
import Verif.Numerics.IntegralProps

/-!
# Integrals along an axis, and cumulative integrals of arrays (C130)

`xp_additions.trapezoid` with all of its arguments, and `cumulative_trapezoid` for arrays of any
shape.
-/

namespace Glass.Arrays

open Glass Glass.Num NdArray

/-! ## Model -/

/-- An operation of neighbouring entries along the axis `a`, such as `y[1:] + y[:-1]`. -/
def neighbours (f : ℝ → ℝ → ℝ) (a : ℕ) (y : NdArray ℝ) : NdArray ℝ :=
  ⟨y.shape.set a (y.shape.getD a 0 - 1), fun i => f (y.get (i.set a (i.getD a 0 + 1))) (y.get i)⟩

/-- The sum along the axis `a`. -/
noncomputable def sumAxis (a : ℕ) (p : NdArray ℝ) : NdArray ℝ :=
  ⟨p.shape.eraseIdx a, fun i => ∑ k ∈ Finset.range (p.shape.getD a 0), p.get (i.insertIdx a k)⟩

/-- `numpy.trapezoid`, called in `_array_api_utils.py:131-148`.  Points `x` in one axis are put along
the axis of integration; points in several axes are subtracted along the axis with that number.
Numbers of axes are looked up in a Python list first, which raises `IndexError`. -/
noncomputable def trapezoidAxis (y : NdArray ℝ) (x : Option (NdArray ℝ)) (dx : ℝ) (axis : ℤ) :
    Except Err (NdArray ℝ) :=
  let nd := y.shape.length
  match x with
  | none =>
    match normAxis axis nd with
    | none => .error .index
    | some a => .ok (sumAxis a ((neighbours (· + ·) a y).map fun s => dx * s / 2))
  | some x =>
    match x.shape with
    | [] => .error (.value "diff requires input that is at least one dimensional")
    | [n] =>
      match normAxis axis nd with
      | none => .error .index
      | some a => do
        let d : NdArray ℝ := ⟨(List.replicate nd 1).set a (n - 1),
          fun i => x.get [i.getD a 0 + 1] - x.get [i.getD a 0]⟩
        let p ← NdArray.map₂ (fun d s => d * s / 2) d (neighbours (· + ·) a y)
        .ok (sumAxis a p)
    | _ :: _ :: _ =>
      match normAxis axis x.shape.length with
      | none => .error (.value "axis is out of bounds")
      | some b =>
        match normAxis axis nd with
        | none => .error .index
        | some a => do
          let p ← NdArray.map₂ (fun d s => d * s / 2) (neighbours (· - ·) b x)
            (neighbours (· + ·) a y)
          match normAxis axis p.shape.length with
          | none => .error (.value "axis is out of bounds")
          | some c => .ok (sumAxis c p)

/-- `arraytools.py:197-234` `cumulative_trapezoid` of arrays. -/
noncomputable def cumulativeNd (f x : NdArray ℝ) : Except Err (NdArray ℝ) :=
  if f.shape = [] then .error .index
  else if x.shape = [] then
    .error (.value "diff requires input that is at least one dimensional")
  else do
    let p ← NdArray.map₂ (fun s d => s * 0.5 * d) (neighbours (· + ·) (f.shape.length - 1) f)
      (neighbours (· - ·) (x.shape.length - 1) x)
    .ok ⟨p.shape.dropLast ++ [p.shape.getLast?.getD 0 + 1], fun i =>
      ∑ k ∈ Finset.range (i.getLast?.getD 0), p.get (i.dropLast ++ [k])⟩

/-! ## Sums of panels -/

theorem trapezoid_range (f g : ℕ → ℝ) : ∀ n : ℕ,
    trapezoid ((List.range n).map fun k => (f k, g k)) =
      ∑ k ∈ Finset.range (n - 1), (f (k + 1) - f k) * (g (k + 1) + g k) / 2
  | 0 => by simp [trapezoid]
  | 1 => by simp [trapezoid]
  | n + 2 => by
    have ih := trapezoid_range f g (n + 1)
    rw [List.range_succ, List.map_append, List.range_succ, List.map_append]
    rw [List.range_succ, List.map_append] at ih
    simp only [List.map_cons, List.map_nil, List.append_assoc, List.cons_append,
      List.nil_append] at ih ⊢
    rw [trapezoid_append, ih]
    simp only [Nat.add_sub_cancel, show n + 2 - 1 = n + 1 from rfl]
    rw [Finset.sum_range_succ]
    simp [trapezoid]

theorem cumulative_range (f g : ℕ → ℝ) {n k : ℕ} (hk : k < n) :
    (cumulativeTrapezoid ((List.range n).map fun k => (f k, g k)))[k]? =
      some (∑ q ∈ Finset.range k, (g (q + 1) + g q) * 0.5 * (f (q + 1) - f q)) := by
  set ks := (List.range n).map fun k => (f k, g k) with hks
  have hl : ks.length = n := by simp [hks]
  have hne : ks ≠ [] := by
    intro h
    rw [h] at hl
    simp at hl
    omega
  obtain ⟨h1, h2, -, h4⟩ := cumulative_trapezoid_spec hne
  have key : ∀ q, q < n → (cumulativeTrapezoid ks)[q]! =
      ∑ r ∈ Finset.range q, (g (r + 1) + g r) * 0.5 * (f (r + 1) - f r) := by
    intro q
    induction q with
    | zero =>
      intro _
      rw [List.head?_eq_getElem?] at h2
      simp [List.getElem!_eq_getElem?_getD, h2]
    | succ q ih =>
      intro hq
      rw [h4 q (by omega), ih (by omega), Finset.sum_range_succ]
      have e : ∀ r, r < n → ks[r]! = (f r, g r) := by
        intro r hr
        rw [List.getElem!_eq_getElem?_getD, hks, List.getElem?_map, List.getElem?_range hr]
        rfl
      rw [e q (by omega), e (q + 1) hq]
      norm_num
      ring
  rw [← key k hk, List.getElem!_eq_getElem?_getD, List.getElem?_eq_getElem (by omega)]
  rfl

/-! ## Shapes -/

theorem broadcastRev_append : ∀ {s t : List ℕ} (s' t' : List ℕ), s.length = t.length →
    broadcastRev (s ++ s') (t ++ t') =
      (broadcastRev s t).bind fun u => (broadcastRev s' t').map (u ++ ·)
  | [], [], s', t', _ => by simp [broadcastRev]
  | d :: s, e :: t, s', t', h => by
    have ih := broadcastRev_append s' t' (s := s) (t := t) (by simpa using h)
    simp only [List.cons_append, broadcastRev, ih]
    rcases broadcastDim d e with _ | f
    · simp
    · rcases broadcastRev s t with _ | u
      · simp
      · rcases broadcastRev s' t' with _ | v <;> simp

theorem broadcastRev_ones : ∀ t : List ℕ, broadcastRev (List.replicate t.length 1) t = some t
  | [] => by simp [broadcastRev]
  | d :: t => by
    have ih := broadcastRev_ones t
    simp only [List.length_cons, List.replicate_succ, broadcastRev, ih]
    have : broadcastDim 1 d = some d := by
      unfold broadcastDim
      by_cases h : 1 = d
      · rw [if_pos h, h]
      · rw [if_neg h, if_pos rfl]
    rw [this]

/-- Points in one axis are stretched to the other axes. -/
theorem broadcastShapes_axis (pre post : List ℕ) (m n : ℕ) :
    broadcastShapes (List.replicate pre.length 1 ++ m :: List.replicate post.length 1)
      (pre ++ n :: post) = (broadcastDim m n).map fun M => pre ++ M :: post := by
  have e : broadcastRev [m] [n] = (broadcastDim m n).map ([·]) := by
    simp only [broadcastRev]
    rcases broadcastDim m n <;> rfl
  unfold broadcastShapes
  simp only [List.reverse_append, List.reverse_cons, List.reverse_replicate]
  have h1 := broadcastRev_ones pre.reverse
  have h2 := broadcastRev_ones post.reverse
  rw [List.length_reverse] at h1 h2
  rw [broadcastRev_append _ _ (by simp), broadcastRev_append _ _ (by simp), h1, h2, e]
  rcases broadcastDim m n with _ | M <;> simp

theorem broadcastIndex_eq_zipWith {s i : List ℕ} (h : i.length = s.length) :
    broadcastIndex s i = List.zipWith (fun d k => if d = 1 then 0 else k) s i := by
  unfold broadcastIndex
  rw [h, Nat.sub_self, List.drop_zero]

theorem broadcastIndex_axis {pre post i j : List ℕ} (hi : i ∈ indices pre) (hj : j ∈ indices post)
    (n k : ℕ) : broadcastIndex (pre ++ n :: post) (i ++ k :: j) =
      i ++ (if n = 1 then 0 else k) :: j := by
  have li := mem_indices_length hi
  have lj := mem_indices_length hj
  have h1 := broadcastIndex_self hi
  have h2 := broadcastIndex_self hj
  rw [broadcastIndex_eq_zipWith li] at h1
  rw [broadcastIndex_eq_zipWith lj] at h2
  rw [broadcastIndex_eq_zipWith (by simp [li, lj]), List.zipWith_append (by rw [li]), h1,
    List.zipWith_cons_cons, h2]

theorem broadcastIndex_ones {p q : ℕ} {i j : List ℕ} (hi : i.length = p) (hj : j.length = q)
    (n k : ℕ) : (broadcastIndex (List.replicate p 1 ++ n :: List.replicate q 1)
      (i ++ k :: j)).getD p 0 = if n = 1 then 0 else k := by
  rw [broadcastIndex_eq_zipWith (by simp [hi, hj]), List.zipWith_append (by simp [hi]),
    List.zipWith_cons_cons, List.getD_eq_getElem?_getD, List.getElem?_append_right (by simp [hi])]
  simp [hi]

theorem normAxis_append {pre post : List ℕ} {n : ℕ} {axis : ℤ}
    (ha : axis = pre.length ∨ axis = -1 - post.length) :
    normAxis axis (pre ++ n :: post).length = some pre.length := by
  have := normAxis_of pre.length post.length
  rw [List.length_append, List.length_cons, add_comm post.length 1]
  rcases ha with rfl | rfl
  · exact this.1
  · exact this.2

theorem normAxis_none {axis : ℤ} {nd : ℕ} (h : axis < -nd ∨ (nd : ℤ) ≤ axis) :
    normAxis axis nd = none := by
  unfold normAxis
  rw [if_neg (by omega), if_neg (by omega)]

theorem set_axis {α : Type} (pre post : List α) (n m : α) :
    (pre ++ n :: post).set pre.length m = pre ++ m :: post := by
  simp

theorem insert_axis (i j : List ℕ) (k : ℕ) : (i ++ j).insertIdx i.length k = i ++ k :: j := by
  induction i with
  | nil => simp
  | cons a i ih => simpa using ih

theorem erase_axis (pre post : List ℕ) (n : ℕ) :
    (pre ++ n :: post).eraseIdx pre.length = pre ++ post := by
  rw [List.eraseIdx_append_of_length_le le_rfl]
  simp

theorem neighbours_get (f : ℝ → ℝ → ℝ) (y : NdArray ℝ) (i j : List ℕ) (k : ℕ) :
    (neighbours f i.length y).get (i ++ k :: j) = f (y.get (i ++ (k + 1) :: j)) (y.get (i ++ k :: j)) := by
  simp [neighbours]

theorem neighbours_shape (f : ℝ → ℝ → ℝ) {y : NdArray ℝ} {pre post : List ℕ} {n : ℕ}
    (h : y.shape = pre ++ n :: post) :
    (neighbours f pre.length y).shape = pre ++ (n - 1) :: post := by
  simp [neighbours, h]

/-! ## Properties -/

/-- The values along an axis. -/
def lane (y : NdArray ℝ) (i j : List ℕ) : ℕ → ℝ := fun k => y.get (i ++ k :: j)

/-- **C130**: what `trapezoid` gives for `n` points in one axis and values of length `m` along the
axis: if the numbers of panels agree, or one of them is one, then the panels are stretched to a
common number `M` and summed; otherwise `ValueError` is raised. -/
theorem trapezoid_axis_general {y x : NdArray ℝ} {pre post : List ℕ} {m n : ℕ}
    (hy : y.shape = pre ++ m :: post) (hx : x.shape = [n]) {axis : ℤ}
    (ha : axis = pre.length ∨ axis = -1 - post.length) (dx : ℝ) :
    (∀ M, broadcastDim (n - 1) (m - 1) = some M → ∃ out,
      trapezoidAxis y (some x) dx axis = .ok out ∧ out.shape = pre ++ post ∧
      ∀ i ∈ indices pre, ∀ j ∈ indices post, out.get (i ++ j) = ∑ k ∈ Finset.range M,
        (x.get [(if n - 1 = 1 then 0 else k) + 1] - x.get [if n - 1 = 1 then 0 else k]) *
          (lane y i j ((if m - 1 = 1 then 0 else k) + 1) +
            lane y i j (if m - 1 = 1 then 0 else k)) / 2) ∧
    (broadcastDim (n - 1) (m - 1) = none →
      ∃ r, trapezoidAxis y (some x) dx axis = .error (.value r)) := by
  have hax := normAxis_append (n := m) ha
  have hrep : (List.replicate (pre ++ m :: post).length 1).set pre.length (n - 1) =
      List.replicate pre.length 1 ++ (n - 1) :: List.replicate post.length 1 := by
    have e : List.replicate (pre ++ m :: post).length 1 =
        List.replicate pre.length 1 ++ 1 :: List.replicate post.length 1 := by
      rw [← List.replicate_succ, List.replicate_append_replicate]
      simp
    rw [e]
    have := set_axis (List.replicate pre.length 1) (List.replicate post.length 1) 1 (n - 1)
    rwa [List.length_replicate] at this
  have hns := neighbours_shape (· + ·) hy
  unfold trapezoidAxis
  simp only [hx, hy, hax, hrep, NdArray.map₂, hns, broadcastShapes_axis]
  constructor
  · intro M hM
    rw [hM]
    refine ⟨_, rfl, ?_, ?_⟩
    · simp only [sumAxis, erase_axis]
    · intro i hi j hj
      have li := mem_indices_length hi
      have lj := mem_indices_length hj
      simp only [sumAxis]
      have hg : (pre ++ M :: post).getD pre.length 0 = M := by simp
      rw [hg]
      refine Finset.sum_congr rfl fun k _ => ?_
      rw [← li, insert_axis, li, broadcastIndex_ones li lj, broadcastIndex_axis hi hj, ← li,
        neighbours_get]
      rfl
  · intro hM
    rw [hM]
    exact ⟨_, rfl⟩

/-- **C130**: `trapezoid` along any axis, with as many points as values: the axis is removed, and
every entry is the integral of the values along the axis. -/
theorem trapezoid_axis {y x : NdArray ℝ} {pre post : List ℕ} {n : ℕ}
    (hy : y.shape = pre ++ n :: post) (hx : x.shape = [n]) {axis : ℤ}
    (ha : axis = pre.length ∨ axis = -1 - post.length) (dx : ℝ) :
    ∃ out, trapezoidAxis y (some x) dx axis = .ok out ∧ out.shape = pre ++ post ∧
      ∀ i ∈ indices pre, ∀ j ∈ indices post, out.get (i ++ j) =
        trapezoid ((List.range n).map fun k => (x.get [k], lane y i j k)) := by
  obtain ⟨out, h1, h2, h3⟩ := (trapezoid_axis_general hy hx ha dx).1 (n - 1) (by simp [broadcastDim])
  refine ⟨out, h1, h2, fun i hi j hj => ?_⟩
  rw [h3 i hi j hj, trapezoid_range (fun k => x.get [k]) (lane y i j)]
  refine Finset.sum_congr rfl fun k hk => ?_
  have hk : k < n - 1 := Finset.mem_range.1 hk
  split_ifs with h
  · obtain rfl : k = 0 := by omega
    rfl
  · rfl

/-- **C130**: `trapezoid` with points that have the shape of the values: every entry uses the points
along the same axis. -/
theorem trapezoid_axis_points {y x : NdArray ℝ} {pre post : List ℕ} {n : ℕ}
    (hy : y.shape = pre ++ n :: post) (hx : x.shape = pre ++ n :: post) (hd : pre ++ post ≠ [])
    {axis : ℤ} (ha : axis = pre.length ∨ axis = -1 - post.length) (dx : ℝ) :
    ∃ out, trapezoidAxis y (some x) dx axis = .ok out ∧ out.shape = pre ++ post ∧
      ∀ i ∈ indices pre, ∀ j ∈ indices post, out.get (i ++ j) =
        trapezoid ((List.range n).map fun k => (lane x i j k, lane y i j k)) := by
  have hax := normAxis_append (n := n) ha
  have hax' := normAxis_append (n := n - 1) ha
  obtain ⟨p, q, r, hpq⟩ : ∃ p q r, x.shape = p :: q :: r := by
    rw [hx]
    rcases pre with _ | ⟨a, _ | ⟨b, pre⟩⟩
    · rcases post with _ | ⟨b, post⟩
      · exact absurd rfl hd
      · exact ⟨_, _, _, rfl⟩
    · exact ⟨_, _, _, rfl⟩
    · exact ⟨_, _, _, rfl⟩
  have hns := neighbours_shape (· + ·) hy
  have hnd := neighbours_shape (· - ·) hx
  have hb : broadcastShapes (pre ++ (n - 1) :: post) (pre ++ (n - 1) :: post) =
      some (pre ++ (n - 1) :: post) := isBroadcast_pair.2 (isBroadcast_same _)
  have hlen : (p :: q :: r).length = (pre ++ n :: post).length := by rw [← hpq, hx]
  unfold trapezoidAxis
  simp only [hpq]
  simp only [hy, hlen, hax, NdArray.map₂, hns, hnd, hb, bind, Except.bind, hax']
  refine ⟨_, rfl, ?_, ?_⟩
  · simp only [sumAxis, erase_axis]
  · intro i hi j hj
    have li := mem_indices_length hi
    simp only [sumAxis]
    have hg : (pre ++ (n - 1) :: post).getD pre.length 0 = n - 1 := by simp
    rw [hg, trapezoid_range (lane x i j) (lane y i j)]
    refine Finset.sum_congr rfl fun k hk => ?_
    have hk : k < n - 1 := Finset.mem_range.1 hk
    rw [← li, insert_axis, broadcastIndex_axis hi hj, neighbours_get, neighbours_get]
    have e : (if n - 1 = 1 then 0 else k) = k := by split_ifs <;> omega
    rw [e]
    rfl

/-- **C130**: `trapezoid` without points has the spacing `dx`. -/
theorem trapezoid_axis_spacing {y : NdArray ℝ} {pre post : List ℕ} {n : ℕ}
    (hy : y.shape = pre ++ n :: post) {axis : ℤ}
    (ha : axis = pre.length ∨ axis = -1 - post.length) (dx : ℝ) :
    ∃ out, trapezoidAxis y none dx axis = .ok out ∧ out.shape = pre ++ post ∧
      ∀ i ∈ indices pre, ∀ j ∈ indices post, out.get (i ++ j) =
        trapezoid ((List.range n).map fun k : ℕ => ((k : ℝ) * dx, lane y i j k)) := by
  have hax := normAxis_append (n := n) ha
  have hns := neighbours_shape (· + ·) hy
  unfold trapezoidAxis
  simp only [hy, hax]
  refine ⟨_, rfl, ?_, ?_⟩
  · simp only [sumAxis, NdArray.map, hns, erase_axis]
  · intro i hi j hj
    have li := mem_indices_length hi
    simp only [sumAxis, NdArray.map, hns]
    have hg : (pre ++ (n - 1) :: post).getD pre.length 0 = n - 1 := by simp
    rw [hg, trapezoid_range (fun k : ℕ => (k : ℝ) * dx) (lane y i j)]
    refine Finset.sum_congr rfl fun k _ => ?_
    rw [← li, insert_axis, neighbours_get]
    push_cast
    show dx * (lane y i j (k + 1) + lane y i j k) / 2 = _
    ring

/-- **C130**: a number of an axis that the values do not have raises `IndexError` (or `ValueError`, if
the points have several axes). -/
theorem trapezoid_axis_bounds {y : NdArray ℝ} {axis : ℤ}
    (ha : axis < -y.shape.length ∨ (y.shape.length : ℤ) ≤ axis) (dx : ℝ) :
    trapezoidAxis y none dx axis = .error .index ∧
    (∀ x : NdArray ℝ, x.shape.length = 1 → trapezoidAxis y (some x) dx axis = .error .index) ∧
    (∀ x : NdArray ℝ, 2 ≤ x.shape.length → trapezoidAxis y (some x) dx axis = .error
      (if axis < -x.shape.length ∨ (x.shape.length : ℤ) ≤ axis then .value "axis is out of bounds"
        else .index)) := by
  have h := normAxis_none ha
  refine ⟨?_, ?_, ?_⟩
  · unfold trapezoidAxis
    simp only [h]
  · intro x hx
    obtain ⟨n, hn⟩ := List.length_eq_one_iff.1 hx
    unfold trapezoidAxis
    simp only [hn, h]
  · intro x hx
    obtain ⟨m, n, rest, hn⟩ : ∃ m n rest, x.shape = m :: n :: rest := by
      rcases hs : x.shape with _ | ⟨m, _ | ⟨n, rest⟩⟩
      · simp [hs] at hx
      · simp [hs] at hx
      · exact ⟨m, n, rest, rfl⟩
    unfold trapezoidAxis
    simp only [hn, h]
    split_ifs with hb
    · rw [normAxis_none hb]
    · obtain ⟨b, hc⟩ : ∃ b, normAxis axis (m :: n :: rest).length = some b := by
        unfold normAxis
        split_ifs with h1 h2
        · exact ⟨_, rfl⟩
        · exact ⟨_, rfl⟩
        · omega
      rw [hc]

/-- **C130**: values in one axis are accepted with `n` points exactly if there are as many values as
points, or if there are two of either (empty arrays count like arrays with one entry). -/
theorem trapezoid_axis_ok_iff {y x : NdArray ℝ} {pre post : List ℕ} {m n : ℕ}
    (hy : y.shape = pre ++ m :: post) (hx : x.shape = [n]) {axis : ℤ}
    (ha : axis = pre.length ∨ axis = -1 - post.length) (dx : ℝ) :
    (∃ out, trapezoidAxis y (some x) dx axis = .ok out) ↔ m - 1 = n - 1 ∨ m = 2 ∨ n = 2 := by
  have hg := trapezoid_axis_general hy hx ha dx
  rcases hb : broadcastDim (n - 1) (m - 1) with _ | M
  · obtain ⟨r, hr⟩ := hg.2 hb
    obtain ⟨h1, h2, h3⟩ := broadcastDim_none hb
    constructor
    · rintro ⟨out, h⟩
      rw [hr] at h
      cases h
    · intro h
      exfalso
      omega
  · obtain ⟨out, ho, -⟩ := hg.1 M hb
    refine ⟨fun _ => ?_, fun _ => ⟨out, ho⟩⟩
    unfold broadcastDim at hb
    split_ifs at hb with h1 h2 h3 <;> omega

/-- **C130** (refuted): arrays of different lengths are not always rejected.  Two values are accepted
with any number of points, as if the function had the mean of the values everywhere. -/
theorem trapezoid_two_values {y x : NdArray ℝ} {n : ℕ} (hy : y.shape = [2]) (hx : x.shape = [n])
    (hn : 3 ≤ n) (dx : ℝ) :
    ∃ out, trapezoidAxis y (some x) dx (-1) = .ok out ∧ out.shape = [] ∧
      out.get [] = (x.get [n - 1] - x.get [0]) * (y.get [1] + y.get [0]) / 2 := by
  obtain ⟨out, h1, h2, h3⟩ := (trapezoid_axis_general (pre := []) (post := []) hy hx (axis := -1)
    (.inr (by simp)) dx).1 (n - 1) (by
      unfold broadcastDim
      rw [if_neg (by omega), if_neg (by omega), if_pos rfl])
  refine ⟨out, h1, h2, ?_⟩
  have := h3 [] (by simp [indices]) [] (by simp [indices])
  simp only [List.append_nil] at this
  rw [this]
  have e : ∀ k, (if n - 1 = 1 then 0 else k) = k := fun k => by rw [if_neg (by omega)]
  simp only [e, lane, List.nil_append, if_true, zero_add]
  rw [← Finset.sum_div, ← Finset.sum_mul, Finset.sum_range_sub (fun k => x.get [k])]

/-! ### Cumulative integrals -/

theorem broadcastShapes_last (s t : List ℕ) (m n : ℕ) :
    broadcastShapes (s ++ [m]) (t ++ [n]) = (broadcastDim m n).bind fun M =>
      (broadcastShapes s t).map (· ++ [M]) := by
  unfold broadcastShapes
  simp only [List.reverse_append, List.reverse_cons, List.reverse_nil, List.nil_append,
    List.cons_append, broadcastRev]
  rcases broadcastDim m n with _ | M
  · simp
  · rcases broadcastRev s.reverse t.reverse <;> simp

theorem broadcastIndex_last {s i : List ℕ} (h : s.length ≤ i.length) (n k : ℕ) :
    broadcastIndex (s ++ [n]) (i ++ [k]) = broadcastIndex s i ++ [if n = 1 then 0 else k] := by
  unfold broadcastIndex
  have e : (i ++ [k]).drop ((i ++ [k]).length - (s ++ [n]).length) =
      i.drop (i.length - s.length) ++ [k] := by
    rw [List.length_append, List.length_append, List.length_singleton, List.length_singleton,
      Nat.add_sub_add_right, List.drop_append_of_le_length (by omega)]
  rw [e, List.zipWith_append (by rw [List.length_drop]; omega)]
  rfl

/-- **C130**: `cumulative_trapezoid` of arrays whose last axes have the same length: the other axes are
broadcast, and every entry is the cumulative integral along the last axis. -/
theorem cumulative_arrays {f x : NdArray ℝ} {s t u : List ℕ} {n : ℕ} (hn : 1 ≤ n)
    (hf : f.shape = s ++ [n]) (hx : x.shape = t ++ [n]) (hu : IsBroadcast [s, t] u) :
    ∃ out, cumulativeNd f x = .ok out ∧ out.shape = u ++ [n] ∧
      ∀ i ∈ indices u, ∀ k < n, some (out.get (i ++ [k])) =
        (cumulativeTrapezoid ((List.range n).map fun q =>
          (x.get (broadcastIndex t i ++ [q]), f.get (broadcastIndex s i ++ [q]))))[k]? := by
  have hs := neighbours_shape (post := []) (· + ·) hf
  have ht := neighbours_shape (post := []) (· - ·) hx
  have ls : f.shape.length - 1 = s.length := by rw [hf]; simp
  have lt : x.shape.length - 1 = t.length := by rw [hx]; simp
  have hb : broadcastShapes (s ++ [n - 1]) (t ++ [n - 1]) = some (u ++ [n - 1]) := by
    rw [broadcastShapes_last, isBroadcast_pair.2 hu]
    simp [broadcastDim]
  unfold cumulativeNd
  rw [if_neg (by rw [hf]; simp), if_neg (by rw [hx]; simp)]
  simp only [ls, lt, NdArray.map₂, hs, ht, hb, bind, Except.bind]
  refine ⟨_, rfl, by simp; omega, ?_⟩
  intro i hi k hk
  have li := mem_indices_length hi
  have l1 := hu.1 s (by simp)
  have l2 := hu.1 t (by simp)
  rw [cumulative_range (fun q => x.get (broadcastIndex t i ++ [q]))
    (fun q => f.get (broadcastIndex s i ++ [q])) hk]
  simp only [List.getLast?_append, List.getLast?_singleton, Option.some_or, Option.getD_some,
    List.dropLast_concat]
  congr 1
  refine Finset.sum_congr rfl fun q hq => ?_
  have hq := Finset.mem_range.1 hq
  have e : (if n - 1 = 1 then 0 else q) = q := by split_ifs <;> omega
  have b1 : (broadcastIndex s i).length = s.length :=
    mem_indices_length (fits_mem_indices (hu.fits (by simp)) hi)
  have b2 : (broadcastIndex t i).length = t.length :=
    mem_indices_length (fits_mem_indices (hu.fits (by simp)) hi)
  rw [broadcastIndex_last (by omega), broadcastIndex_last (by omega), e]
  rw [← b1, neighbours_get, ← b2, neighbours_get]

/-- **C130**: what `cumulative_trapezoid` accepts: as many points as values along the last axis, or two
of either (empty arrays count like arrays with one entry), and other axes that can be broadcast. -/
theorem cumulative_arrays_ok_iff {f x : NdArray ℝ} {s t : List ℕ} {m n : ℕ}
    (hf : f.shape = s ++ [m]) (hx : x.shape = t ++ [n]) :
    (∃ out, cumulativeNd f x = .ok out) ↔
      (m - 1 = n - 1 ∨ m = 2 ∨ n = 2) ∧ ∃ u, IsBroadcast [s, t] u := by
  have hs := neighbours_shape (post := []) (· + ·) hf
  have ht := neighbours_shape (post := []) (· - ·) hx
  have ls : f.shape.length - 1 = s.length := by rw [hf]; simp
  have lt : x.shape.length - 1 = t.length := by rw [hx]; simp
  unfold cumulativeNd
  rw [if_neg (by rw [hf]; simp), if_neg (by rw [hx]; simp)]
  simp only [ls, lt, NdArray.map₂, hs, ht, broadcastShapes_last, ← isBroadcast_pair]
  rcases hb : broadcastDim (m - 1) (n - 1) with _ | M
  · obtain ⟨h1, h2, h3⟩ := broadcastDim_none hb
    constructor
    · rintro ⟨out, h⟩
      cases h
    · rintro ⟨h, -⟩
      exfalso
      omega
  · rcases broadcastShapes s t with _ | u
    · constructor
      · rintro ⟨out, h⟩
        cases h
      · rintro ⟨-, u, hu⟩
        cases hu
    · refine ⟨fun _ => ⟨?_, u, rfl⟩, fun _ => ⟨_, rfl⟩⟩
      unfold broadcastDim at hb
      split_ifs at hb with h1 h2 h3 <;> omega

/-- **C130**: the exceptions of `cumulative_trapezoid`. -/
theorem cumulative_arrays_error {f x : NdArray ℝ} :
    (f.shape = [] → cumulativeNd f x = .error .index) ∧
    (f.shape ≠ [] → ∀ e, cumulativeNd f x = .error e → ∃ r, e = .value r) := by
  constructor
  · intro h
    unfold cumulativeNd
    rw [if_pos h]
  · intro h e he
    unfold cumulativeNd at he
    rw [if_neg h] at he
    split_ifs at he with hx
    · cases he; exact ⟨_, rfl⟩
    · rcases hm : NdArray.map₂ (fun s d => s * 0.5 * d) (neighbours (· + ·) (f.shape.length - 1) f)
        (neighbours (· - ·) (x.shape.length - 1) x) with e' | p
      · rw [hm] at he
        cases he
        exact (map₂_error hm).1
      · rw [hm] at he
        cases he

/-- **C130** (refuted): with two values and `n` points, `cumulative_trapezoid` does not fail but
integrates the mean of the values over all points. -/
theorem cumulative_two_values {f x : NdArray ℝ} {n : ℕ} (hf : f.shape = [2]) (hx : x.shape = [n])
    (hn : 3 ≤ n) :
    ∃ out, cumulativeNd f x = .ok out ∧ out.shape = [n] ∧ ∀ k < n,
      out.get [k] = (f.get [1] + f.get [0]) * 0.5 * (x.get [k] - x.get [0]) := by
  have hs := neighbours_shape (pre := []) (post := []) (· + ·) hf
  have ht := neighbours_shape (pre := []) (post := []) (· - ·) hx
  have hb : broadcastShapes [1] [n - 1] = some [n - 1] := by
    have := broadcastShapes_last [] [] 1 (n - 1)
    simp only [List.nil_append] at this
    rw [this]
    unfold broadcastDim
    rw [if_neg (by omega), if_pos rfl]
    rfl
  have l2 : f.shape.length - 1 = ([] : List ℕ).length := by rw [hf]; rfl
  have l3 : x.shape.length - 1 = ([] : List ℕ).length := by rw [hx]; rfl
  unfold cumulativeNd
  rw [if_neg (by rw [hf]; simp), if_neg (by rw [hx]; simp)]
  simp only [l2, l3, NdArray.map₂, hs, ht, List.nil_append, hb, show 2 - 1 = 1 from rfl, bind,
    Except.bind]
  refine ⟨_, rfl, by simp; omega, ?_⟩
  intro k hk
  have e : ∀ q : ℕ, broadcastIndex [n - 1] [q] = [q] := by
    intro q
    have := broadcastIndex_last (s := []) (i := []) le_rfl (n - 1) q
    rw [if_neg (by omega)] at this
    simpa [broadcastIndex_nil] using this
  have e' : ∀ q : ℕ, broadcastIndex [1] [q] = [0] := by
    intro q
    have := broadcastIndex_last (s := []) (i := []) le_rfl 1 q
    rw [if_pos rfl] at this
    simpa [broadcastIndex_nil] using this
  simp only [List.getLast?_singleton, Option.getD_some, List.dropLast_singleton, List.nil_append, e,
    e']
  have g1 := neighbours_get (· + ·) f [] [] 0
  have g2 := fun q => neighbours_get (· - ·) x [] [] q
  simp only [List.nil_append] at g1 g2
  simp only [g1, g2, zero_add]
  rw [← Finset.mul_sum, Finset.sum_range_sub (fun q => x.get [q])]

/-- Two functions on three points, integrated along the last axis. -/
example : ∃ out, trapezoidAxis ⟨[2, 3], fun i => (i.getD 0 0 : ℝ) + 1⟩
    (some ⟨[3], fun i => (i.getD 0 0 : ℝ)⟩) 1 (-1) = .ok out ∧ out.shape = [2] ∧ out.get [1] = 4 := by
  obtain ⟨out, h1, h2, h3⟩ := trapezoid_axis (pre := [2]) (post := []) (n := 3)
    (y := ⟨[2, 3], fun i => (i.getD 0 0 : ℝ) + 1⟩) (x := ⟨[3], fun i => (i.getD 0 0 : ℝ)⟩) rfl rfl
    (axis := -1) (.inr (by simp)) 1
  refine ⟨out, h1, h2, ?_⟩
  have := h3 [1] (by decide) [] (by simp [indices])
  rw [List.append_nil] at this
  rw [this]
  simp [lane, List.range, List.range.loop, trapezoid]
  norm_num

end Glass.Arrays
