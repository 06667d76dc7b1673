import Mathlib.Analysis.SpecialFunctions.Trigonometric.Basic
import Mathlib.Tactic.FieldSimp
import Verif.Grf.SolverProps

/-!
# Property C106: does `solve` end?

The number of Gauss-Newton steps is bounded by `maxiter`, but the loop that halves the step
(`grf/_solver.py:131-141`) has no bound.
-/

namespace Glass.Grf

variable {F : Type*} (A : Arith F) (p : Problem F)

/-! ## When it ends -/

theorem inner_le {st : Iterate F} {fuel fuel' : ℕ} (hf : fuel ≤ fuel') {xl : List F} {r : _}
    (h : inner A p st fuel xl = some r) : inner A p st fuel' xl = some r := by
  induction hf with
  | refl => exact h
  | step _ ih => exact inner_mono A p _ _ ih

theorem loop_le {fuel fuel' : ℕ} (hf : fuel ≤ fuel') {cltol gltol : F} {k : ℕ} {st : Iterate F}
    {tr : List (List F × Iterate F)} {info : ℕ} {r : _}
    (h : loop A p fuel cltol gltol k st tr info = some r) :
    loop A p fuel' cltol gltol k st tr info = some r := by
  induction hf with
  | refl => exact h
  | step _ ih => exact loop_mono A p _ _ _ _ _ _ _ ih

theorem zipWith_add_zero (hadd : ∀ x, A.add x A.zero = x) : ∀ (x y : List F),
    x.length = y.length → (∀ v ∈ y, v = A.zero) → List.zipWith A.add x y = x
  | [], [], _, _ => rfl
  | a :: x, b :: y, hl, h => by
    simp only [List.zipWith_cons_cons]
    rw [h b (by simp), hadd, zipWith_add_zero hadd x y (by simpa using hl)
      (fun v hv => h v (by simp [hv]))]

/-- Halving all entries often enough gives zeros. -/
theorem vanish_list (hhalf : A.half A.zero = A.zero) : ∀ xl : List F,
    (∀ v ∈ xl, ∃ j, A.half^[j] v = A.zero) → ∃ j, ∀ v ∈ (List.map A.half)^[j] xl, v = A.zero := by
  have hmap : ∀ (j : ℕ) (xl : List F), (List.map A.half)^[j] xl = xl.map (A.half^[j]) := by
    intro j
    induction j with
    | zero => intro xl; simp
    | succ j ih => intro xl; rw [Function.iterate_succ_apply, ih]; simp [Function.comp_def]
  have hz : ∀ j, A.half^[j] A.zero = A.zero := fun j => Function.iterate_fixed hhalf j
  intro xl
  induction xl with
  | nil => intro _; exact ⟨0, by simp⟩
  | cons a xl ih =>
    intro h
    obtain ⟨j, hj⟩ := ih fun v hv => h v (by simp [hv])
    obtain ⟨i, hi⟩ := h a (by simp)
    refine ⟨i + j, ?_⟩
    rw [hmap] at hj ⊢
    intro v hv
    rw [List.map_cons, List.mem_cons] at hv
    rcases hv with rfl | hv
    · rw [Nat.add_comm, Function.iterate_add_apply, hi, hz]
    · obtain ⟨w, hw, rfl⟩ := List.mem_map.1 hv
      rw [Function.iterate_add_apply, hj _ (List.mem_map.2 ⟨w, hw, rfl⟩), hz]

/-- The loop of halvings ends at the latest when the step has vanished. -/
theorem inner_ends (hadd : ∀ x, A.add x A.zero = x) {st : Iterate F}
    (hst : evaluate A p st.gl = .ok st) (hle : A.le st.clerr st.clerr = true) :
    ∀ (j : ℕ) (xl : List F), (∀ v ∈ (List.map A.half)^[j] xl, v = A.zero) →
      ∃ r, inner A p st (j + 1) xl = some r := by
  intro j
  induction j with
  | zero =>
    intro xl hz
    rw [inner]
    unfold elementwise
    split
    · exact ⟨_, rfl⟩
    · rename_i gl' hgl
      split_ifs at hgl with hl
      simp only [Except.ok.injEq] at hgl
      rw [zipWith_add_zero A hadd st.gl xl hl hz] at hgl
      rw [← hgl, hst]
      simp only [hle, if_true]
      exact ⟨_, rfl⟩
  | succ j ih =>
    intro xl hz
    rw [inner]
    split
    · exact ⟨_, rfl⟩
    · split
      · exact ⟨_, rfl⟩
      · split_ifs
        · exact ⟨_, rfl⟩
        · exact ih _ (by rw [← Function.iterate_succ_apply]; exact hz)

theorem loop_ends (hadd : ∀ x, A.add x A.zero = x) (hhalf : A.half A.zero = A.zero)
    (hle : ∀ x y, A.le x y = true → A.le x x = true)
    (hdir : ∀ (st : Iterate F) (xl : List F), evaluate A p st.gl = .ok st →
      A.le st.clerr st.clerr = true → direction A p st = .ok xl →
        ∀ v ∈ xl, ∃ j, A.half^[j] v = A.zero) (cltol gltol : F) :
    ∀ (k : ℕ) (st : Iterate F) (tr : List (List F × Iterate F)) (info : ℕ),
      evaluate A p st.gl = .ok st → A.le st.clerr st.clerr = true →
      ∃ fuel r, loop A p fuel cltol gltol k st tr info = some r := by
  intro k
  induction k with
  | zero => intro st tr info _ _; exact ⟨0, _, rfl⟩
  | succ k ih =>
    intro st tr info hst hself
    obtain ⟨i, hi⟩ : ∃ i, i = if A.le st.clerr cltol = true then info ||| 1 else info := ⟨_, rfl⟩
    by_cases hp : i > 0
    · refine ⟨0, ?_⟩
      rw [loop]
      simp only [← hi]
      rw [if_pos hp]
      exact ⟨_, rfl⟩
    · cases hd : direction A p st with
      | error e =>
        refine ⟨0, ?_⟩
        rw [loop]
        simp only [← hi]
        rw [if_neg hp, hd]
        exact ⟨_, rfl⟩
      | ok xl =>
        obtain ⟨j, hj⟩ := vanish_list A hhalf xl (hdir st xl hst hself hd)
        obtain ⟨r, hr⟩ := inner_ends A p hadd hst hself j xl hj
        rcases r with e | ⟨xl', st'⟩
        · refine ⟨j + 1, ?_⟩
          rw [loop]
          simp only [← hi]
          rw [if_neg hp, hd]
          simp only [hr]
          exact ⟨_, rfl⟩
        · obtain ⟨-, -, -, h4, h5⟩ := inner_spec A p _ _ hr
          cases hq : relerr A xl' st.gl with
          | error e =>
            refine ⟨j + 1, ?_⟩
            rw [loop]
            simp only [← hi]
            rw [if_neg hp, hd]
            simp only [hr, hq]
            exact ⟨_, rfl⟩
          | ok q =>
            obtain ⟨fuel, r, hloop⟩ := ih st' ((xl', st') :: tr)
              (if A.le q gltol then i ||| 2 else i) h5 (hle _ _ h4)
            refine ⟨max (j + 1) fuel, r, ?_⟩
            rw [loop]
            simp only [← hi]
            rw [if_neg hp, hd]
            simp only [inner_le A p (le_max_left (j + 1) fuel) hr, hq]
            exact loop_le A p (le_max_right _ _) hloop

/-- **C106**, the runs that end: in an arithmetic in which every step vanishes after enough halvings
(as finite floating point numbers do), `solve` ends if the error of the initial solution is a
number.  The laws of the arithmetic are those of IEEE 754: adding zero changes nothing, half of
zero is zero, and what compares less or equal to anything is not NaN.  Steps must be finite where
the error is a number. -/
theorem solve_ends_partial (hadd : ∀ x, A.add x A.zero = x) (hhalf : A.half A.zero = A.zero)
    (hle : ∀ x y, A.le x y = true → A.le x x = true)
    (hdir : ∀ (st : Iterate F) (xl : List F), evaluate A p st.gl = .ok st →
      A.le st.clerr st.clerr = true → direction A p st = .ok xl →
        ∀ v ∈ xl, ∃ j, A.half^[j] v = A.zero)
    (initial : Option (List F)) (cltol gltol : F) (maxiter : ℕ)
    (hfirst : ∀ gl st, initialGl A p initial = .ok gl → evaluate A p gl = .ok st →
      A.le st.clerr st.clerr = true) :
    ∃ fuel r, solve A p fuel initial cltol gltol maxiter = some r := by
  unfold solve
  cases hi : initialGl A p initial with
  | error e => exact ⟨0, _, rfl⟩
  | ok gl =>
    cases he : evaluate A p gl with
    | error e => simp only [he]; exact ⟨0, _, rfl⟩
    | ok st =>
      simp only [he]
      have hgl : st.gl = gl := (evaluate_spec A p he).1
      obtain ⟨fuel, r, h⟩ := loop_ends A p hadd hhalf hle hdir cltol gltol maxiter st [] 0
        (by rw [hgl]; exact he) (hfirst gl st hi he)
      refine ⟨fuel, ?_⟩
      rw [h]
      rcases r with e | ⟨st', tr, info⟩
      · exact ⟨_, rfl⟩
      · exact ⟨_, rfl⟩

/-! ## When it does not end -/

/-- The laws of a not-a-number. -/
structure NanLaws (nan : F) : Prop where
  add_left : ∀ x, A.add nan x = nan
  sub_left : ∀ x, A.sub nan x = nan
  div_left : ∀ x, A.div nan x = nan
  abs : A.abs nan = nan
  max_left : ∀ x, A.max nan x = nan
  max_right : ∀ x, A.max x nan = nan
  le_left : ∀ x, A.le nan x = false
  le_right : ∀ x, A.le x nan = false
  nonzero : A.nonzero nan = true

/-- The transforms and correlations of the problem pass NaN on: every entry of a transform
depends on all the entries of its argument, and the correlations act on each entry.  None of
them raises. -/
structure NanProblem (nan : F) : Prop where
  two : 2 ≤ p.cl.length
  cltocorr_length : ∀ x, (p.cltocorr x).length = x.length
  corrtocl_length : ∀ x, (p.corrtocl x).length = x.length
  cltocorr_nan : ∀ x, nan ∈ x → ∀ v ∈ p.cltocorr x, v = nan
  corrtocl_nan : ∀ x, nan ∈ x → ∀ v ∈ p.corrtocl x, v = nan
  corr : ∀ x, ∃ y, p.corr x = .ok y ∧ y.length = x.length ∧ (nan ∈ x → nan ∈ y)
  dcorr : ∀ x, ∃ y, p.dcorr x = .ok y ∧ y.length = x.length

variable {A p}

theorem mem_of_all {nan : F} {x : List F} (hl : 0 < x.length) (h : ∀ v ∈ x, v = nan) : nan ∈ x := by
  cases x with
  | nil => simp at hl
  | cons a x =>
    have := h a (by simp)
    rw [this]; simp

theorem foldl_max_nan {nan : F} (hA : NanLaws A nan) : ∀ (x : List F) (a : F),
    (a = nan ∨ nan ∈ x) → x.foldl A.max a = nan
  | [], a, h => by simpa using h
  | b :: x, a, h => by
    simp only [List.foldl_cons]
    refine foldl_max_nan hA x _ ?_
    rcases h with rfl | h
    · exact Or.inl (hA.max_left b)
    · rcases List.mem_cons.1 h with rfl | h
      · exact Or.inl (hA.max_right a)
      · exact Or.inr h

/-- The relative error of an array with a NaN is NaN. -/
theorem relerr_nan {nan : F} (hA : NanLaws A nan) {dx x : List F} (hl : dx.length = x.length)
    (h : nan ∈ dx) : relerr A dx x = .ok nan := by
  obtain ⟨i, hi, hd⟩ := List.getElem_of_mem h
  have hm : nan ∈ List.zipWith (fun d v => A.abs (if A.nonzero d then A.div d v else A.zero))
      dx x := by
    rw [List.mem_iff_getElem]
    refine ⟨i, by rw [List.length_zipWith]; omega, ?_⟩
    rw [List.getElem_zipWith, hd, hA.nonzero]
    simp only [if_true]
    rw [hA.div_left, hA.abs]
  unfold relerr
  split
  · rename_i hq
    rw [hq] at hm
    simp at hm
  · rename_i q qs hq
    rw [hq] at hm
    congr 1
    refine foldl_max_nan hA qs q ?_
    rcases List.mem_cons.1 hm with h | h
    · exact Or.inl h.symm
    · exact Or.inr h

/-- Masking the first entry keeps a later NaN. -/
theorem mask_nan {nan : F} {x : List F} (hl : 2 ≤ x.length) (h : ∀ v ∈ x, v = nan) :
    ∃ y, mask A p x = .ok y ∧ y.length = x.length ∧ nan ∈ y := by
  unfold mask
  cases p.monopole with
  | none => exact ⟨x, rfl, rfl, mem_of_all (by omega) h⟩
  | some m =>
    simp only [setFirst]
    rw [if_neg (by omega)]
    refine ⟨_, rfl, by simp, ?_⟩
    match x, hl with
    | a :: b :: x, _ =>
      have := h b (by simp)
      rw [List.set_cons_zero, this]
      simp

/-- Evaluating an array with a NaN gives a NaN error. -/
theorem evaluate_nan {nan : F} (hA : NanLaws A nan) (hp : NanProblem p nan) {gl : List F}
    (hl : gl.length = p.cl.length) (h : nan ∈ gl) :
    ∃ st, evaluate A p gl = .ok st ∧ st.gl = gl ∧ st.clerr = nan ∧ st.gt.length = p.cl.length + p.pad ∧
      st.fl.length = p.cl.length := by
  have htwo := hp.two
  have hpad : (padded A p gl).length = p.cl.length + p.pad := by simp [padded, hl]
  have h1 : nan ∈ padded A p gl := by simp [padded, h]
  have hgl : (p.cltocorr (padded A p gl)).length = p.cl.length + p.pad := by
    rw [hp.cltocorr_length, hpad]
  have h2 : nan ∈ p.cltocorr (padded A p gl) :=
    mem_of_all (by omega) (hp.cltocorr_nan _ h1)
  obtain ⟨ct, hc, hcl, hcn⟩ := hp.corr (p.cltocorr (padded A p gl))
  have h3 := hp.corrtocl_nan ct (hcn h2)
  have hrl : (p.corrtocl ct).length = p.cl.length + p.pad := by
    rw [hp.corrtocl_length, hcl, hgl]
  have htake : ((p.corrtocl ct).take p.cl.length).length = p.cl.length := by
    rw [List.length_take]; omega
  have hd : ∀ v ∈ List.zipWith A.sub ((p.corrtocl ct).take p.cl.length) p.cl, v = nan := by
    intro v hv
    obtain ⟨i, hi, rfl⟩ := List.getElem_of_mem hv
    rw [List.getElem_zipWith]
    have : ((p.corrtocl ct).take p.cl.length)[i]'(by
        rw [List.length_zipWith] at hi; omega) = nan :=
      h3 _ (List.mem_of_mem_take (List.getElem_mem _))
    rw [this, hA.sub_left]
  have hdl : (List.zipWith A.sub ((p.corrtocl ct).take p.cl.length) p.cl).length = p.cl.length := by
    rw [List.length_zipWith]; omega
  obtain ⟨fl, hf, hfl, hfn⟩ := mask_nan (A := A) (p := p) (by omega) hd
  refine ⟨⟨gl, p.cltocorr (padded A p gl), p.corrtocl ct, fl, nan⟩, ?_, rfl, rfl, hgl,
    hfl.trans hdl⟩
  unfold evaluate
  simp only [hc, elementwise, htake, if_true, hf]
  rw [relerr_nan hA (by omega) hfn]

theorem inner_nan {nan : F} (hA : NanLaws A nan) (hp : NanProblem p nan) {st : Iterate F}
    (hl : st.gl.length = p.cl.length) (h : nan ∈ st.gl) (he : st.clerr = nan) :
    ∀ (fuel : ℕ) (xl : List F), xl.length = p.cl.length → inner A p st fuel xl = none := by
  intro fuel
  induction fuel with
  | zero => intro xl _; rfl
  | succ fuel ih =>
    intro xl hx
    have hgl : nan ∈ List.zipWith A.add st.gl xl := by
      obtain ⟨i, hi, hd⟩ := List.getElem_of_mem h
      rw [List.mem_iff_getElem]
      refine ⟨i, by rw [List.length_zipWith]; omega, ?_⟩
      rw [List.getElem_zipWith, hd, hA.add_left]
    have hgll : (List.zipWith A.add st.gl xl).length = p.cl.length := by
      rw [List.length_zipWith]; omega
    obtain ⟨st', hev, -, -, -⟩ := evaluate_nan hA hp hgll hgl
    rw [inner]
    simp only [elementwise, hl, hx, if_true, hev, he, hA.le_right, Bool.false_eq_true, if_false]
    exact ih _ (by simpa using hx)

/-- **C106** is **false**: whenever the transformed correlation function that serves as initial
solution contains a NaN, `solve` never returns, whatever the tolerances and the number of
iterations. -/
theorem solve_endless {nan : F} (hA : NanLaws A nan) (hp : NanProblem p nan)
    {g : List F} (hg : p.icorr (p.cltocorr p.cl) = .ok g) (hgl : g.length = p.cl.length)
    (hn : nan ∈ g) (fuel : ℕ) (cltol gltol : F) (maxiter : ℕ) (hm : 0 < maxiter) :
    solve A p fuel none cltol gltol maxiter = none := by
  have htwo := hp.two
  have h1 : ∀ v ∈ p.corrtocl g, v = nan := hp.corrtocl_nan g hn
  have h1l : (p.corrtocl g).length = p.cl.length := by rw [hp.corrtocl_length, hgl]
  obtain ⟨gl, hi, hl, hmem⟩ : ∃ gl, initialGl A p none = .ok gl ∧ gl.length = p.cl.length ∧
      nan ∈ gl := by
    unfold initialGl
    simp only [hg]
    cases p.monopole with
    | none => exact ⟨_, rfl, h1l, mem_of_all (by omega) h1⟩
    | some m =>
      simp only [setFirst]
      rw [if_neg (by omega)]
      refine ⟨_, rfl, by simpa using h1l, ?_⟩
      match hx : p.corrtocl g, (show 2 ≤ (p.corrtocl g).length by omega) with
      | a :: b :: x, _ =>
        have := h1 b (by rw [hx]; simp)
        rw [List.set_cons_zero, this]
        simp
  obtain ⟨st, he, hst, herr, hgt, hfl⟩ := evaluate_nan hA hp hl hmem
  obtain ⟨k, rfl⟩ : ∃ k, maxiter = k + 1 := ⟨maxiter - 1, by omega⟩
  obtain ⟨dt, hd, hdl⟩ := hp.dcorr st.gt
  have hft : (p.cltocorr (padded A p st.fl)).length = p.cl.length + p.pad := by
    rw [hp.cltocorr_length]; simp [padded, hfl]
  obtain ⟨xl, hdir, hxl⟩ : ∃ xl, direction A p st = .ok xl ∧ xl.length = p.cl.length := by
    unfold direction
    simp only [hd, elementwise]
    rw [if_pos (by omega)]
    have hlen : (((p.corrtocl (List.zipWith A.div (p.cltocorr (padded A p st.fl)) dt)).map
        A.neg).take p.cl.length).length = p.cl.length := by
      rw [List.length_take, List.length_map, hp.corrtocl_length, List.length_zipWith]; omega
    unfold mask
    cases p.monopole with
    | none => exact ⟨_, rfl, hlen⟩
    | some m =>
      simp only [setFirst]
      rw [if_neg (by omega)]
      exact ⟨_, rfl, by simpa using hlen⟩
  have hin : inner A p st fuel xl = none :=
    inner_nan hA hp (by rw [hst]; exact hl) (by rw [hst]; exact hmem) herr fuel xl hxl
  unfold solve
  simp only [hi, he]
  rw [loop]
  simp only [herr, hA.le_left, Bool.false_eq_true, if_false, gt_iff_lt, lt_irrefl, hdir, hin]

/-! ## A lognormal field -/

/-- Real numbers and one value that is not a number.  (Infinities are not distinguished from it;
the next theorem does not meet them.) -/
noncomputable def Arith.nan : Arith (Option ℝ) where
  zero := some 0
  add := fun x y => x.bind fun a => y.map fun b => a + b
  sub := fun x y => x.bind fun a => y.map fun b => a - b
  neg := fun x => x.map fun a => -a
  div := fun x y => open Classical in x.bind fun a => y.bind fun b => if b = 0 then none else some (a / b)
  half := fun x => x.map fun a => a / 2
  abs := fun x => x.map fun a => |a|
  max := fun x y => x.bind fun a => y.map fun b => Max.max a b
  le := fun x y => open Classical in
    match x, y with
    | some a, some b => decide (a ≤ b)
    | _, _ => false
  nonzero := fun x => open Classical in
    match x with
    | some a => decide (a ≠ 0)
    | none => true

theorem nanLaws : NanLaws Arith.nan (none : Option ℝ) where
  add_left := fun _ => rfl
  sub_left := fun _ => rfl
  div_left := fun _ => rfl
  abs := rfl
  max_left := fun _ => rfl
  max_right := fun x => by cases x <;> rfl
  le_left := fun _ => rfl
  le_right := fun x => by cases x <;> rfl
  nonzero := rfl

/-- On numbers, these are the operations of the real numbers, except that a division by zero is not a
number. -/
theorem arith_nan_real (x y : ℝ) :
    Arith.nan.zero = some Arith.real.zero ∧
    Arith.nan.add (some x) (some y) = some (Arith.real.add x y) ∧
    Arith.nan.sub (some x) (some y) = some (Arith.real.sub x y) ∧
    Arith.nan.neg (some x) = some (Arith.real.neg x) ∧
    Arith.nan.div (some x) (some y) = (if y = 0 then none else some (Arith.real.div x y)) ∧
    Arith.nan.half (some x) = some (Arith.real.half x) ∧
    Arith.nan.abs (some x) = some (Arith.real.abs x) ∧
    Arith.nan.max (some x) (some y) = some (Arith.real.max x y) ∧
    Arith.nan.le (some x) (some y) = Arith.real.le x y ∧
    Arith.nan.nonzero (some x) = Arith.real.nonzero x := by
  refine ⟨rfl, rfl, rfl, rfl, ?_, rfl, rfl, rfl, rfl, rfl⟩
  simp only [Arith.nan, Arith.real, Option.bind_some]

/-- A linear transform: one NaN in the argument makes all values NaN. -/
noncomputable def nanTransform (f : List ℝ → List ℝ) (x : List (Option ℝ)) : List (Option ℝ) :=
  open Classical in
  if none ∈ x then List.replicate x.length none else (f (x.map fun v => v.getD 0)).map some

/-- A function applied to each entry. -/
def nanMap (f : ℝ → Option ℝ) (x : List (Option ℝ)) : List (Option ℝ) := x.map fun v => v.bind f

/-- The problem of two lognormal fields with shifts `l1` and `l2`; `cltocorr` and `corrtocl`
are any transforms, `icorr` is not a number where the argument of the logarithm is not positive
(`grf/_transformations.py:107-121`). -/
noncomputable def lognormalProblem (l1 l2 : ℝ) (cl : List ℝ) (pad : ℕ) (monopole : Option ℝ)
    (cltocorr corrtocl : List ℝ → List ℝ) : Problem (Option ℝ) where
  cl := cl.map some
  pad := pad
  monopole := monopole.map some
  cltocorr := nanTransform cltocorr
  corrtocl := nanTransform corrtocl
  corr := fun x => .ok (nanMap (fun v => some (l1 * l2 * expm1 v)) x)
  icorr := fun x => open Classical in .ok (nanMap (fun v =>
    if 1 + v / (l1 * l2) ≤ 0 then none else some (log1p (v / (l1 * l2)))) x)
  dcorr := fun x => .ok (nanMap (fun v => some (l1 * l2 * Real.exp v)) x)

/-- The functions of this problem are those of the lognormal transformations where they are
numbers. -/
theorem lognormalProblem_spec (l1 l2 : ℝ) (cl : List ℝ) (pad : ℕ) (monopole : Option ℝ)
    (f g : List ℝ → List ℝ) (x : List ℝ) :
    (∃ y, corrList (.lognormal l1) (.lognormal l2) x = .ok y ∧
      (lognormalProblem l1 l2 cl pad monopole f g).corr (x.map some) = .ok (y.map some)) ∧
    (∃ y, dcorrList (.lognormal l1) (.lognormal l2) x = .ok y ∧
      (lognormalProblem l1 l2 cl pad monopole f g).dcorr (x.map some) = .ok (y.map some)) ∧
    ((∀ v ∈ x, 0 < 1 + v / (l1 * l2)) →
      ∃ y, icorrList (.lognormal l1) (.lognormal l2) x = .ok y ∧
        (lognormalProblem l1 l2 cl pad monopole f g).icorr (x.map some) = .ok (y.map some)) := by
  refine ⟨⟨_, rfl, ?_⟩, ⟨_, rfl, ?_⟩, fun h => ⟨_, rfl, ?_⟩⟩
  · simp [lognormalProblem, nanMap, Transformation.corrM, Function.comp_def]
  · simp [lognormalProblem, nanMap, Transformation.dcorrM, Function.comp_def]
  · simp only [lognormalProblem, nanMap, List.map_map]
    congr 1
    apply List.map_congr_left
    intro v hv
    simp only [Function.comp_def, Option.bind_some, Transformation.icorrM, Option.getD_some]
    rw [if_neg (not_le.2 (h v hv))]

theorem nanTransform_length {f : List ℝ → List ℝ} (hf : ∀ x, (f x).length = x.length)
    (x : List (Option ℝ)) : (nanTransform f x).length = x.length := by
  unfold nanTransform
  split_ifs
  · simp
  · simp [hf]

theorem nanTransform_nan (f : List ℝ → List ℝ) (x : List (Option ℝ)) (h : none ∈ x) :
    ∀ v ∈ nanTransform f x, v = none := by
  unfold nanTransform
  rw [if_pos h]
  intro v hv
  exact List.eq_of_mem_replicate hv

/-- **C106** is false for lognormal fields: if the correlation function is below `-l1 l2` for some
separation, then `solve` never returns, whatever the transforms, padding, monopole, tolerances and
the number of iterations. -/
theorem solve_lognormal_endless (l1 l2 : ℝ) (cl : List ℝ) (pad : ℕ) (monopole : Option ℝ)
    (f g : List ℝ → List ℝ) (hf : ∀ x, (f x).length = x.length) (hg : ∀ x, (g x).length = x.length)
    (hcl : 2 ≤ cl.length) (hneg : ∃ v ∈ f cl, v / (l1 * l2) < -1)
    (fuel : ℕ) (cltol gltol : Option ℝ) (maxiter : ℕ) (hm : 0 < maxiter) :
    solve Arith.nan (lognormalProblem l1 l2 cl pad monopole f g) fuel none cltol gltol maxiter =
      none := by
  have hct : nanTransform f (cl.map some) = (f cl).map some := by
    unfold nanTransform
    rw [if_neg (by simp)]
    simp [Function.comp_def]
  refine solve_endless nanLaws ⟨by simpa [lognormalProblem] using hcl, nanTransform_length hf,
    nanTransform_length hg, nanTransform_nan f, nanTransform_nan g, ?_, ?_⟩ rfl ?_ ?_ fuel cltol
    gltol maxiter hm
  · intro x
    refine ⟨_, rfl, by simp [nanMap], fun h => ?_⟩
    simp only [nanMap, List.mem_map]
    exact ⟨none, h, rfl⟩
  · intro x
    exact ⟨_, rfl, by simp [nanMap]⟩
  · simp [lognormalProblem, nanMap, nanTransform_length hf]
  · obtain ⟨v, hv, hlt⟩ := hneg
    simp only [lognormalProblem, hct, nanMap, List.map_map, List.mem_map]
    refine ⟨v, hv, ?_⟩
    simp only [Function.comp_def, Option.bind_some]
    rw [if_pos (by linarith)]

/-- A dipole of variance 3: the correlation at separations 0 and π is `(c₀ ± 3 c₁) / 4π`, here 3 and
-3. -/
example (fuel : ℕ) (cltol gltol : Option ℝ) :
    solve Arith.nan (lognormalProblem 1 1 [0, 4 * Real.pi] 0 none
      (fun x => match x with
        | [a, b] => [(a + 3 * b) / (4 * Real.pi), (a - 3 * b) / (4 * Real.pi)]
        | x => x)
      (fun x => match x with
        | [u, v] => [(u + v) * (2 * Real.pi), (u - v) * (2 * Real.pi) / 3]
        | x => x)) fuel none cltol gltol 20 = none := by
  refine solve_lognormal_endless 1 1 _ 0 none _ _ ?_ ?_ (by simp) ?_ fuel cltol gltol 20 (by norm_num)
  · intro x; split <;> simp
  · intro x; split <;> simp
  · refine ⟨(0 - 3 * (4 * Real.pi)) / (4 * Real.pi), by simp, ?_⟩
    have := Real.pi_pos
    have e : (0 - 3 * (4 * Real.pi)) / (4 * Real.pi) = -3 := by field_simp; ring
    rw [e]; norm_num

/-! ## An arithmetic in which it ends -/

/-- Fixed point numbers: integers, with division towards zero. -/
def Arith.fixed : Arith ℤ where
  zero := 0
  add := (· + ·)
  sub := (· - ·)
  neg := (- ·)
  div := Int.tdiv
  half := fun x => x.tdiv 2
  abs := fun x => |x|
  max := Max.max
  le := fun x y => decide (x ≤ y)
  nonzero := fun x => decide (x ≠ 0)

theorem fixed_vanish : ∀ (n : ℕ) (v : ℤ), v.natAbs < 2 ^ n → ∃ j, Arith.fixed.half^[j] v = 0 := by
  intro n
  induction n with
  | zero => intro v hv; exact ⟨0, by simpa using hv⟩
  | succ n ih =>
    intro v hv
    obtain ⟨j, hj⟩ := ih (v.tdiv 2) (by
      rw [Int.natAbs_tdiv]
      rw [pow_succ] at hv
      show v.natAbs / 2 < 2 ^ n
      omega)
    exact ⟨j + 1, by rw [Function.iterate_succ_apply]; exact hj⟩

/-- For fixed point numbers every problem and every initial solution ends. -/
theorem solve_fixed_ends (p : Problem ℤ) (initial : Option (List ℤ)) (cltol gltol : ℤ)
    (maxiter : ℕ) : ∃ fuel r, solve Arith.fixed p fuel initial cltol gltol maxiter = some r := by
  refine solve_ends_partial Arith.fixed p (fun x => add_zero x) rfl (fun x y _ => ?_)
    (fun st xl _ _ _ v _ => fixed_vanish _ v (Nat.lt_two_pow_self)) initial cltol gltol maxiter
    (fun gl st _ _ => ?_)
  · simp [Arith.fixed]
  · simp [Arith.fixed]

end Glass.Grf
