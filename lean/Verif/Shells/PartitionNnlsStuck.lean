import Verif.Shells.PartitionNnlsProps

/-!
# Non-negative least-squares partition is not always minimal (C85)
-/

namespace Glass.Shells

open Glass Glass.Num Glass.NdArray Matrix Algorithm

/-- The gradient is determined by the sum of squares. -/
theorem grad_of_sumSq {m n : ℕ} (a : Matrix (Fin m) (Fin n) ℝ) (b : Fin m → ℝ) (x : Fin n → ℝ)
    (j : Fin n) : grad a b x j =
      (sumSq a b (x - (Pi.single j 1 : Fin n → ℝ)) - sumSq a b (x + (Pi.single j 1 : Fin n → ℝ))) / 4 := by
  rw [sumSq_expand a b x (x - (Pi.single j 1 : Fin n → ℝ)), sumSq_expand a b x (x + (Pi.single j 1 : Fin n → ℝ))]
  have h1 : ∑ l, ((x - (Pi.single j 1 : Fin n → ℝ)) l - x l) * grad a b x l = -grad a b x j := by
    rw [Finset.sum_eq_single j]
    · simp
    · intro l _ hl; simp [hl]
    · simp
  have h2 : ∑ l, ((x + (Pi.single j 1 : Fin n → ℝ)) l - x l) * grad a b x l = grad a b x j := by
    rw [Finset.sum_eq_single j]
    · simp
    · intro l _ hl; simp [hl]
    · simp
  have h3 : ∀ i, (∑ k, a i k * (x - (Pi.single j 1 : Fin n → ℝ)) k - ∑ k, a i k * x k) ^ 2 = a i j ^ 2 := by
    intro i
    rw [← Finset.sum_sub_distrib, Finset.sum_eq_single j]
    · simp; ring
    · intro l _ hl; simp [hl]
    · simp
  have h4 : ∀ i, (∑ k, a i k * (x + (Pi.single j 1 : Fin n → ℝ)) k - ∑ k, a i k * x k) ^ 2 = a i j ^ 2 := by
    intro i
    rw [← Finset.sum_sub_distrib, Finset.sum_eq_single j]
    · simp; ring
    · intro l _ hl; simp [hl]
    · simp
  simp only [h1, h2, h3, h4]
  ring

/-- A narrow and a broad window. -/
noncomputable def twoWindows : List RadialWindow :=
  [⟨[(0, 0), (1, 1), (2, 0)], 1⟩, ⟨[(0, 0), (1, 3), (2, 1), (3, 1), (4, 0)], 8 / 5⟩]

/-- The function 0, 2, 1, 1, 0 at the points 0, 1, 2, 3, 4. -/
noncomputable def fiveValues : NdArray ℝ :=
  ⟨[5], fun i => if i = [1] then 2 else if i = [2] ∨ i = [3] then 1 else 0⟩

theorem two_grid : IsGrid [0, 1, 2, 3, 4] twoWindows [0, 1, 2, 3, 4] := by
  refine ⟨by norm_num, fun t => ?_⟩
  simp [twoWindows, RadialWindow.za]
  tauto

/-- The cost in this case. -/
theorem two_cost (tol : ℝ) (x : Fin 2 → ℝ) :
    cost [0, 1, 2, 3, 4] twoWindows (target [0, 1, 2, 3, 4] fiveValues [])
      (total [0, 1, 2, 3, 4] fiveValues []) tol x =
    (x 0 + 3 / 5 * x 1 - 2) ^ 2 + 2 * (1 / 5 * x 1 - 1) ^ 2 + ((x 0 + x 1 - 4) / tol) ^ 2 := by
  have he0 : ∀ t : ℝ, t ∈ [(0 : ℝ), 1, 2, 3, 4] → (twoWindows[0]).eval t =
      if t = 1 then 1 else 0 := by
    intro t ht
    simp at ht
    rcases ht with rfl | rfl | rfl | rfl | rfl <;>
      norm_num [twoWindows, RadialWindow.eval, interp, interpIn]
  have he1 : ∀ t : ℝ, t ∈ [(0 : ℝ), 1, 2, 3, 4] → (twoWindows[1]).eval t =
      if t = 1 then 3 else if t = 2 ∨ t = 3 then 1 else 0 := by
    intro t ht
    simp at ht
    rcases ht with rfl | rfl | rfl | rfl | rfl <;>
      norm_num [twoWindows, RadialWindow.eval, interp, interpIn]
  have hs0 : trapezoid (sample (twoWindows[0]).eval [0, 1, 2, 3, 4]) = 1 := by
    simp only [sample, List.map_cons, List.map_nil]
    rw [he0 0 (by simp), he0 1 (by simp), he0 2 (by simp), he0 3 (by simp), he0 4 (by simp)]
    norm_num [trapezoid]
  have hs1 : trapezoid (sample (twoWindows[1]).eval [0, 1, 2, 3, 4]) = 5 := by
    simp only [sample, List.map_cons, List.map_nil]
    rw [he1 0 (by simp), he1 1 (by simp), he1 2 (by simp), he1 3 (by simp), he1 4 (by simp)]
    norm_num [trapezoid]
  have hsl : slice fiveValues [(0 : ℝ), 1, 2, 3, 4].length [] = [0, 2, 1, 1, 0] := by
    simp [slice, fiveValues, List.range_succ]
  have htar : ∀ t : ℝ, t ∈ [(0 : ℝ), 1, 2, 3, 4] → target [0, 1, 2, 3, 4] fiveValues [] t =
      if t = 1 then 2 else if t = 2 ∨ t = 3 then 1 else 0 := by
    intro t ht
    rw [target, hsl]
    simp at ht
    rcases ht with rfl | rfl | rfl | rfl | rfl <;> norm_num [interp, interpIn]
  have htot : total [0, 1, 2, 3, 4] fiveValues [] = 4 := by
    rw [total, hsl]; norm_num [trapezoid]
  have hsp : ∀ k : Fin [(0 : ℝ), 1, 2, 3, 4].length, spacing [0, 1, 2, 3, 4] k = 1 := by
    intro k
    fin_cases k <;> norm_num [spacing]
  have hk : ∀ k : Fin [(0 : ℝ), 1, 2, 3, 4].length,
      [(0 : ℝ), 1, 2, 3, 4][k] ∈ [(0 : ℝ), 1, 2, 3, 4] := fun k => List.getElem_mem k.2
  have hsum : ∀ (x : Fin 2 → ℝ) (t : ℝ), ∑ i : Fin twoWindows.length, x i *
      normalised [0, 1, 2, 3, 4] twoWindows[i] t =
      x 0 * ((twoWindows[0]).eval t / (1 : ℝ)) + x 1 * ((twoWindows[1]).eval t / 5) := by
    intro x t
    have : ∀ f : Fin twoWindows.length → ℝ, ∑ i, f i = f (0 : Fin 2) + f (1 : Fin 2) :=
      fun f => Fin.sum_univ_two f
    rw [this]
    simp only [normalised]
    show x 0 * ((twoWindows[0]).eval t / trapezoid (sample (twoWindows[0]).eval [0, 1, 2, 3, 4])) +
      x 1 * ((twoWindows[1]).eval t / trapezoid (sample (twoWindows[1]).eval [0, 1, 2, 3, 4])) = _
    rw [hs0, hs1]
  unfold cost shapeCost
  have h2 : ∑ i : Fin twoWindows.length, x i = x 0 + x 1 := Fin.sum_univ_two x
  rw [htot, h2]
  congr 1
  simp only [hsp, htar _ (hk _), hsum, he0 _ (hk _), he1 _ (hk _)]
  simp only [List.length_cons, List.length_nil, Nat.reduceAdd, Fin.sum_univ_five]
  norm_num
  ring

/-- **C85**, minimality is **false** in general: for the function 0, 2, 1, 1, 0 on the grid 0, 1, 2,
3, 4 and two windows that overlap, and for every sum tolerance, `partition_nnls` (the default
method of `partition`) gives no weight to the broad window, while the non-negative weights 0
and 4 have a smaller cost. -/
theorem partition_nnls_not_minimal {qr : Qr} (hq : QrLaw qr) {solve : Solver}
    (hs : SolverSound solve) (ht : SolverTotal solve) (fuel : ℕ) (sumtol : ℝ) :
    ∃ r, partitionNnls qr solve (fuel + 2) [0, 1, 2, 3, 4] fiveValues twoWindows sumtol =
        some (.ok (some r)) ∧ r.shape = [2] ∧ r.get [1] = 0 ∧
      cost [0, 1, 2, 3, 4] twoWindows (target [0, 1, 2, 3, 4] fiveValues [])
          (total [0, 1, 2, 3, 4] fiveValues []) (max sumtol 1e-4) ![0, 4] <
        cost [0, 1, 2, 3, 4] twoWindows (target [0, 1, 2, 3, 4] fiveValues [])
          (total [0, 1, 2, 3, 4] fiveValues []) (max sumtol 1e-4) ![r.get [0], r.get [1]] := by
  set tol := max sumtol 1e-4 with htol
  have hpos : 0 < tol := lt_of_lt_of_le (by norm_num) (le_max_right _ _)
  have hu : unionGrid [0, 1, 2, 3, 4] twoWindows = [0, 1, 2, 3, 4] :=
    sorted_unique (unionGrid_sorted (by simp [twoWindows])) two_grid.sorted fun t => by
      rw [unionGrid_mem, two_grid.mem, or_assoc, or_self]
  rcases hp : partitionProblem [0, 1, 2, 3, 4] fiveValues twoWindows sumtol with e | ⟨zp, b, oa⟩
  · have := (problem_error_iff _ _ _ _).1 ⟨e, hp⟩
    rw [hu] at this
    simp [twoWindows, fiveValues] at this
  obtain ⟨hg, -, hnone, dims, hf, hb, hc⟩ := problem_spec hp
  obtain rfl : zp = [0, 1, 2, 3, 4] := sorted_unique hg.sorted two_grid.sorted fun t => by
    rw [hg.mem, two_grid.mem, or_assoc, or_self]
  have hd : dims = [] := by
    have : dims ++ [5] = [] ++ [5] := by simpa [fiveValues] using hf.symm
    exact (List.append_inj' this rfl).1
  subst hd
  rcases oa with _ | a
  · obtain ⟨w, hw, h0⟩ := hnone.1 rfl
    exfalso
    simp only [twoWindows, List.mem_cons, List.not_mem_nil, or_false] at hw
    rcases hw with rfl | rfl <;>
      · norm_num [sample, RadialWindow.eval, interp, interpIn, trapezoid] at h0
  have hcost : ∀ x : Fin 2 → ℝ, sumSq (n := 2) aᵀ (rowOf _ b []) x =
      (x 0 + 3 / 5 * x 1 - 2) ^ 2 + 2 * (1 / 5 * x 1 - 1) ^ 2 + ((x 0 + x 1 - 4) / tol) ^ 2 :=
    fun x => (hc a rfl [] (by simp [mem_indices]) x).trans (two_cost _ x)
  obtain ⟨u, hud⟩ : ∃ u, u = (1 / tol) ^ 2 := ⟨_, rfl⟩
  have hu0 : 0 < u := by rw [hud]; positivity
  have hcost' : ∀ x : Fin 2 → ℝ, sumSq (n := 2) aᵀ (rowOf _ b []) x =
      (x 0 + 3 / 5 * x 1 - 2) ^ 2 + 2 * (1 / 5 * x 1 - 1) ^ 2 + u * (x 0 + x 1 - 4) ^ 2 := by
    intro x
    rw [hcost, hud]; ring
  have hstuck : Stuck (m := [(0 : ℝ), 1, 2, 3, 4].length + 1) aᵀ (rowOf _ b []) (1 + u) (3 / 5 + u)
      (11 / 25 + u) (2 + 4 * u) (8 / 5 + 4 * u) := by
    constructor
    · intro x
      rw [grad_of_sumSq, hcost', hcost']
      simp
      ring
    · intro x
      rw [grad_of_sumSq, hcost', hcost']
      simp
      ring
    · linarith
    · nlinarith
    · linarith
    · linarith
    · nlinarith
    · nlinarith
  have hrun : nnlsRun (n := twoWindows.length) solve (fuel + 2) aᵀ (rowOf _ b []) 0 none =
      some (.ok ((![(2 + 4 * u) / (1 + u), 0] : Fin 2 → ℝ), false)) :=
    hstuck.run hs ht fuel none (by simp)
  unfold partitionNnls
  rw [hp]
  simp only
  have hnr : ∃ x, nnlsRows qr solve (fuel + 2) ([(0 : ℝ), 1, 2, 3, 4].length + 1)
      twoWindows.length a b = some (.ok x) := by
    unfold nnlsRows
    rw [hb]
    simp only [List.nil_append, List.dropLast_singleton]
    have hall : nnlsAll (fun i => nnlsRun solve (fuel + 2)
        (qr ([(0 : ℝ), 1, 2, 3, 4].length + 1) twoWindows.length aᵀ).2
        (fun p => ∑ j, (qr ([(0 : ℝ), 1, 2, 3, 4].length + 1) twoWindows.length aᵀ).1 j p *
          rowOf ([(0 : ℝ), 1, 2, 3, 4].length + 1) b i j) 0 none) (indices []) =
        some (.ok [![(2 + 4 * u) / (1 + u), 0]]) := by
      have : indices [] = [[]] := rfl
      rw [this]
      simp only [nnlsAll]
      rw [reduced_run hq solve, hrun]
    rw [hall]
    simp only [Arrays.firstToLast, NdArray.reshape]
    exact ⟨_, congrArg some (if_pos rfl)⟩
  rcases hr : nnlsRows qr solve (fuel + 2) ([(0 : ℝ), 1, 2, 3, 4].length + 1) twoWindows.length a b
    with _ | (e | x)
  · rw [hr] at hnr; simp at hnr
  · rw [hr] at hnr; simp at hnr
  obtain ⟨hsh, hv⟩ := nnlsRows_spec qr solve (fuel + 2) a hb hr
  obtain ⟨s, hv⟩ := hv [] (by simp [mem_indices])
  rw [reduced_run hq solve, hrun] at hv
  simp only [Option.some.injEq, Except.ok.injEq] at hv
  have h1 : x.get [1] = 0 := (congrFun (congrArg Prod.fst hv) (1 : Fin 2)).symm
  refine ⟨x, rfl, hsh, h1, ?_⟩
  rw [two_cost, two_cost, h1]
  simp only [cons_val_zero, cons_val_one, cons_val_fin_one]
  have e1 := sq_nonneg (x.get [0] + 3 / 5 * 0 - 2)
  have e2 := sq_nonneg ((x.get [0] + 0 - 4) / tol)
  norm_num at e1 e2 ⊢
  linarith

end Glass.Shells
