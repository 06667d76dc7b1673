import Mathlib.Tactic.Linarith
import Mathlib.Tactic.NormNum
import Mathlib.Tactic.IntervalCases
import Mathlib.Data.List.Chain
import Mathlib.Algebra.Order.Group.Abs
import Verif.Grf.Solver
import Verif.Grf.TransformationsProps

/-!
# Properties of the solver (C25, C26)
-/

namespace Glass.Grf

variable {F : Type*} (A : Arith F) (p : Problem F)

/-! ## Specification -/

/-- `rl` is the spectrum of the transformed field when `gl`, padded with `pad` zeros, is the
spectrum of the Gaussian field. -/
def Realised (gl rl : List F) : Prop :=
  ∃ ct, p.corr (p.cltocorr (gl ++ List.replicate p.pad A.zero)) = .ok ct ∧ rl = p.corrtocl ct

/-- `err` is the largest relative deviation of the spectrum `rl` from the target; the monopole
is left out if it is prescribed. -/
def Deviation (rl : List F) (err : F) : Prop :=
  (rl.take p.cl.length).length = p.cl.length ∧
  let d := List.zipWith A.sub (rl.take p.cl.length) p.cl
  relerr A (if p.monopole.isSome then d.set 0 A.zero else d) p.cl = .ok err

/-- The iterate before the given accepted ones (latest first). -/
def before (first : Iterate F) : List (List F × Iterate F) → Iterate F
  | [] => first
  | (_, s) :: _ => s

/-- Every accepted iterate comes from the one before it by a step, which is the Gauss-Newton
direction halved some number of times, and does not have a larger error. -/
def Linked (first : Iterate F) : List (List F × Iterate F) → Prop
  | [] => True
  | (xl, s) :: rest =>
    (s.gl = List.zipWith A.add (before first rest).gl xl ∧
      (∃ d j, direction A p (before first rest) = .ok d ∧
        xl = (List.map A.half)^[j] d) ∧
      A.le s.clerr (before first rest).clerr = true ∧
      Realised A p s.gl s.rl ∧ Deviation A p s.rl s.clerr) ∧
    Linked first rest

theorem evaluate_spec {gl : List F} {st : Iterate F} (h : evaluate A p gl = .ok st) :
    st.gl = gl ∧ Realised A p gl st.rl ∧ Deviation A p st.rl st.clerr := by
  unfold evaluate at h
  simp only at h
  split at h
  · simp at h
  · rename_i ct hct
    split at h
    · simp at h
    · rename_i d hd
      split at h
      · simp at h
      · rename_i fl hfl
        split at h
        · simp at h
        · rename_i err herr
          simp only [Except.ok.injEq] at h
          subst h
          unfold elementwise at hd
          split at hd
          · rename_i hlen
            simp only [Except.ok.injEq] at hd
            subst hd
            refine ⟨rfl, ⟨ct, hct, rfl⟩, hlen, ?_⟩
            unfold mask setFirst at hfl
            rcases hm : p.monopole with _ | m
            · rw [hm] at hfl
              simp only [Except.ok.injEq] at hfl
              subst hfl
              simpa using herr
            · rw [hm] at hfl
              simp only at hfl
              split at hfl
              · simp at hfl
              · simp only [Except.ok.injEq] at hfl
                subst hfl
                simpa using herr
          · simp at hd

theorem inner_spec {st : Iterate F} : ∀ (fuel : ℕ) (xl : List F) {xl' : List F}
    {st' : Iterate F}, inner A p st fuel xl = some (.ok (xl', st')) →
    (∃ j, xl' = (List.map A.half)^[j] xl) ∧ st.gl.length = xl'.length ∧
      st'.gl = List.zipWith A.add st.gl xl' ∧
      A.le st'.clerr st.clerr = true ∧ evaluate A p st'.gl = .ok st'
  | 0, _, _, _, h => by simp [inner] at h
  | fuel + 1, xl, xl', st', h => by
    unfold inner at h
    split at h
    · simp at h
    · rename_i gl' hgl
      split at h
      · simp at h
      · rename_i s hs
        split at h
        · rename_i hle
          simp only [Option.some.injEq, Except.ok.injEq, Prod.mk.injEq] at h
          obtain ⟨rfl, rfl⟩ := h
          unfold elementwise at hgl
          split at hgl
          · rename_i hlen
            simp only [Except.ok.injEq] at hgl
            have he := (evaluate_spec A p hs).1
            exact ⟨⟨0, rfl⟩, hlen, by rw [he, hgl], hle, by rw [he]; exact hs⟩
          · simp at hgl
        · obtain ⟨⟨j, hj⟩, rest⟩ := inner_spec fuel _ h
          exact ⟨⟨j + 1, by rw [hj, Function.iterate_succ_apply]⟩, rest⟩

/-- The condition behind bit 2: the last step was small relative to the iterate before it. -/
def SmallStep (gltol : F) (first : Iterate F) : List (List F × Iterate F) → Prop
  | [] => False
  | (xl, _) :: rest =>
    ∃ r, relerr A xl (before first rest).gl = .ok r ∧ A.le r gltol = true

theorem loop_spec (first : Iterate F) (fuel : ℕ) (cltol gltol : F) :
    ∀ (k : ℕ) (st : Iterate F) (tr : List (List F × Iterate F)) (info : ℕ)
      {st' : Iterate F} {tr' : List (List F × Iterate F)} {info' : ℕ},
    loop A p fuel cltol gltol k st tr info = some (.ok (st', tr', info')) →
    st = before first tr → evaluate A p st.gl = .ok st → Linked A p first tr →
    (info = 0 ∨ info = 2 ∧ SmallStep A gltol first tr) →
    st' = before first tr' ∧ evaluate A p st'.gl = .ok st' ∧ Linked A p first tr' ∧
      info' < 4 ∧
      (info' = 1 ∨ info' = 3 → A.le st'.clerr cltol = true) ∧
      (info' = 2 ∨ info' = 3 → SmallStep A gltol first tr') ∧
      tr'.length ≤ tr.length + k ∧
      (info' = 0 → tr'.length = tr.length + k) ∧
      (tr'.length < tr.length + k →
        (A.le st'.clerr cltol = true ↔ info' = 1 ∨ info' = 3)) := by
  intro k
  induction k with
  | zero =>
    intro st tr info st' tr' info' h hst hev hl hi
    simp only [loop, Option.some.injEq, Except.ok.injEq, Prod.mk.injEq] at h
    obtain ⟨rfl, rfl, rfl⟩ := h
    refine ⟨hst, hev, hl, ?_, ?_, ?_, by simp, by simp, by simp⟩
    · rcases hi with rfl | ⟨rfl, _⟩ <;> omega
    · rcases hi with rfl | ⟨rfl, _⟩ <;> simp
    · rcases hi with rfl | ⟨rfl, h2⟩
      · simp
      · intro _; exact h2
  | succ k ih =>
    intro st tr info st' tr' info' h hst hev hl hi
    unfold loop at h
    by_cases hcl : A.le st.clerr cltol = true
    · have hor : (info ||| 1) = 1 ∨ (info ||| 1) = 3 ∧ SmallStep A gltol first tr := by
        rcases hi with rfl | ⟨rfl, h2⟩
        · left; rfl
        · right; exact ⟨rfl, h2⟩
      have hpos : (info ||| 1) > 0 := by omega
      simp only [hcl, if_true, hpos, Option.some.injEq, Except.ok.injEq, Prod.mk.injEq] at h
      obtain ⟨rfl, rfl, rfl⟩ := h
      refine ⟨hst, hev, hl, by omega, fun _ => hcl, ?_, by omega, by omega, ?_⟩
      · rcases hor with h1 | ⟨_, h2⟩
        · intro h; omega
        · intro _; exact h2
      · intro _
        simp only [hcl, true_iff]; omega
    rcases hi with rfl | ⟨rfl, h2⟩
    · simp only [hcl, Bool.false_eq_true, if_false, gt_iff_lt, lt_self_iff_false] at h
      split at h
      · simp at h
      · rename_i d hd
        split at h
        · simp at h
        · simp at h
        · rename_i xl s hin
          split at h
          · simp at h
          · rename_i r hr
            obtain ⟨⟨j, hj⟩, hlen, hgl, hle, hev'⟩ := inner_spec A p _ _ hin
            have hsp := evaluate_spec A p hev'
            have := ih s ((xl, s) :: tr) _ h rfl hev'
              ⟨⟨by rw [hgl, hst], ⟨d, j, by rw [← hst]; exact hd, hj⟩,
                by rw [← hst]; exact hle, hsp.2.1, hsp.2.2⟩, hl⟩
              (by
                by_cases hg : A.le r gltol = true
                · right
                  refine ⟨by simp [hg], r, by rw [← hst]; exact hr, hg⟩
                · left; simp [hg])
            obtain ⟨a1, a2, a3, a4, a5, a6, a7, a8, a9⟩ := this
            simp only [List.length_cons] at a7 a8 a9
            exact ⟨a1, a2, a3, a4, a5, a6, by omega, fun h => by rw [a8 h]; omega,
              fun h => a9 (by omega)⟩
    · simp only [hcl, Bool.false_eq_true, if_false, gt_iff_lt, Nat.ofNat_pos, if_true,
        Option.some.injEq, Except.ok.injEq, Prod.mk.injEq] at h
      obtain ⟨rfl, rfl, rfl⟩ := h
      exact ⟨hst, hev, hl, by omega, by omega, fun _ => h2, by omega, by omega,
        fun _ => by simp [hcl]⟩

/-! ## C25 -/

theorem linked_chain (first : Iterate F) : ∀ tr : List (List F × Iterate F),
    Linked A p first tr →
    List.IsChain (fun a b => A.le a b = true)
      (tr.map (fun e => e.2.clerr) ++ [first.clerr])
  | [], _ => by simp
  | [(xl, s)], h => by
    simp only [List.map_cons, List.map_nil, List.cons_append, List.nil_append]
    exact List.isChain_pair.2 h.1.2.2.1
  | (xl, s) :: (xl2, s2) :: rest, h => by
    have ih := linked_chain first ((xl2, s2) :: rest) h.2
    simp only [List.map_cons, List.cons_append] at ih ⊢
    exact List.isChain_cons_cons.2 ⟨h.1.2.2.1, ih⟩

/-- **C25** Contract of `solve`, for every arithmetic (exact or floating point), all spectra,
transformations, correlation transforms, tolerances and iteration limits, and for every run that
returns:
* the second result is the realised spectrum of the first one;
* the error of each accepted iterate is at most the error of the one before it;
* bit 1 of `info` implies that the relative error of the returned spectrum is at most `cltol`;
* bit 2 of `info` implies that the last step was at most `gltol` relative to the iterate it was
  applied to;
* every step is the Gauss-Newton direction, halved some number of times. -/
theorem solve_contract (fuel : ℕ) (initial : Option (List F)) (cltol gltol : F) (maxiter : ℕ)
    (run : Run F) (h : solve A p fuel initial cltol gltol maxiter = some (.ok run)) :
    Realised A p run.gl run.rl ∧
    List.IsChain (fun a b => A.le a b = true)
      (run.accepted.map (fun e => e.2.clerr) ++ [run.first.clerr]) ∧
    (run.info.testBit 0 = true → ∃ err, Deviation A p run.rl err ∧ A.le err cltol = true) ∧
    (run.info.testBit 1 = true → ∃ xl prev r, run.gl = List.zipWith A.add prev xl ∧
      relerr A xl prev = .ok r ∧ A.le r gltol = true) ∧
    Linked A p run.first run.accepted ∧ run.last = before run.first run.accepted ∧
    run.gl = run.last.gl ∧ run.rl = run.last.rl ∧
    run.info < 4 ∧ run.accepted.length ≤ maxiter ∧
    (run.info = 0 → run.accepted.length = maxiter) := by
  unfold solve at h
  split at h
  · simp at h
  · rename_i gl hgl
    split at h
    · simp at h
    · rename_i st hst
      split at h
      · simp at h
      · simp at h
      · rename_i st' tr info hloop
        simp only [Option.some.injEq, Except.ok.injEq] at h
        subst h
        have hs := evaluate_spec A p hst
        obtain ⟨a1, a2, a3, a4, a5, a6, a7, a8, a9⟩ :=
          loop_spec A p st fuel cltol gltol maxiter st [] 0 hloop rfl (by rw [hs.1]; exact hst)
            trivial (Or.inl rfl)
        have hs' := evaluate_spec A p a2
        refine ⟨hs'.2.1, linked_chain A p _ _ a3, ?_, ?_, a3, a1, rfl, rfl, a4, ?_, ?_⟩
        · intro hb
          refine ⟨st'.clerr, hs'.2.2, a5 ?_⟩
          simp only at hb
          interval_cases info <;> simp_all (config := { decide := true })
        · intro hb
          have h6 := a6 (by
            simp only at hb
            interval_cases info <;> simp_all (config := { decide := true }))
          match tr, h6, a1, a3 with
          | (xl, s) :: rest, ⟨r, hr, hle⟩, e, ⟨⟨hg, _⟩, _⟩ =>
            refine ⟨xl, (before st rest).gl, r, ?_, hr, hle⟩
            show st'.gl = _
            rw [e]; exact hg
        · simpa using a7
        · simpa using a8

/-- The first element of an array after `x[0] = v`. -/
theorem setFirst_head {x y : List F} {v : F} (h : setFirst x v = .ok y) : y[0]? = some v := by
  unfold setFirst at h
  split at h
  · simp at h
  · simp only [Except.ok.injEq] at h
    subst h
    rename_i hl
    rw [List.getElem?_set_self (by omega)]

/-- **C25** A requested monopole is exactly the first entry of the returned spectrum.  The only
law of the arithmetic that is needed is that adding and halving zero changes nothing. -/
theorem solve_monopole (hadd : ∀ x, A.add x A.zero = x) (hhalf : A.half A.zero = A.zero)
    (fuel : ℕ) (initial : Option (List F)) (cltol gltol : F) (maxiter : ℕ) (run : Run F)
    (h : solve A p fuel initial cltol gltol maxiter = some (.ok run)) (m : F)
    (hm : p.monopole = some m) : run.gl[0]? = some m := by
  have hc := solve_contract A p fuel initial cltol gltol maxiter run h
  obtain ⟨-, -, -, -, hl, hlast, hgl, -⟩ := hc
  have hfirst : run.first.gl[0]? = some m := by
    unfold solve at h
    split at h
    · simp at h
    · rename_i gl hgl'
      split at h
      · simp at h
      · rename_i st hst
        split at h
        · simp at h
        · simp at h
        · simp only [Option.some.injEq, Except.ok.injEq] at h
          subst h
          show st.gl[0]? = _
          rw [(evaluate_spec A p hst).1]
          unfold initialGl at hgl'
          simp only [hm] at hgl'
          split at hgl'
          · simp at hgl'
          · exact setFirst_head hgl'
  have hdir : ∀ (st : Iterate F) (d : List F), direction A p st = .ok d →
      d[0]? = some A.zero := by
    intro st d hd
    unfold direction at hd
    simp only at hd
    split at hd
    · simp at hd
    · split at hd
      · simp at hd
      · unfold mask at hd
        rw [hm] at hd
        exact setFirst_head hd
  have hit : ∀ (j : ℕ) (d : List F), d[0]? = some A.zero →
      ((List.map A.half)^[j] d)[0]? = some A.zero := by
    intro j
    induction j with
    | zero => intro d hd; exact hd
    | succ j ih =>
      intro d hd
      rw [Function.iterate_succ_apply]
      apply ih
      rw [List.getElem?_map, hd, Option.map_some, hhalf]
  have key : ∀ tr : List (List F × Iterate F), Linked A p run.first tr →
      (before run.first tr).gl[0]? = some m := by
    intro tr
    induction tr with
    | nil => intro _; exact hfirst
    | cons e rest ih =>
      intro hl
      obtain ⟨xl, s⟩ := e
      obtain ⟨⟨hs, ⟨d, j, hd, hj⟩, -⟩, hrest⟩ := hl
      show s.gl[0]? = some m
      have h0 := ih hrest
      have hx := hit j d (hdir _ d hd)
      rw [← hj] at hx
      rw [hs, List.getElem?_zipWith, h0, hx]
      simp [hadd]
  rw [hgl, hlast]
  exact key _ hl

/-- **C25** A negative padding is rejected. -/
theorem solvePy_negative_pad (pad : ℤ) (hpad : pad < 0) (fuel : ℕ) (initial : Option (List F))
    (cltol gltol : F) (maxiter : ℕ) :
    solvePy A p pad fuel initial cltol gltol maxiter =
      some (.error (.value "pad must be a positive integer")) := by
  simp [solvePy, hpad]

/-- **C25** With the check of the padding, a run that returns has the padding that was requested, and
keeps the contract with the tolerances that were requested. -/
theorem solvePy_contract (pad : ℤ) (fuel : ℕ) (initial : Option (List F)) (cltol gltol : F)
    (maxiter : ℕ) (run : Run F)
    (h : solvePy A p pad fuel initial cltol gltol maxiter = some (.ok run)) :
    ∃ n : ℕ, pad = n ∧
    Realised A { p with pad := n } run.gl run.rl ∧
    (run.info.testBit 0 = true → ∃ err, Deviation A p run.rl err ∧ A.le err cltol = true) ∧
    (run.info.testBit 1 = true → ∃ xl prev r, run.gl = List.zipWith A.add prev xl ∧
      relerr A xl prev = .ok r ∧ A.le r gltol = true) ∧
    run.accepted.length ≤ maxiter ∧ (run.info = 0 → run.accepted.length = maxiter) := by
  unfold solvePy at h
  split_ifs at h with hpad
  · simp at h
  obtain ⟨h1, -, h3, h4, -, -, -, -, -, h10, h11⟩ := solve_contract A _ _ _ _ _ _ _ h
  exact ⟨pad.toNat, by omega, h1, h3, h4, h10, h11⟩

/-- Allowing more halvings does not change a run that finishes. -/
theorem inner_mono {st : Iterate F} : ∀ (fuel : ℕ) (xl : List F) {r : _},
    inner A p st fuel xl = some r → inner A p st (fuel + 1) xl = some r
  | 0, _, _, h => by simp [inner] at h
  | fuel + 1, xl, r, h => by
    unfold inner at h ⊢
    split at h
    · exact h
    · split at h
      · exact h
      · split at h
        · rename_i hle
          simp only [hle, if_true]; exact h
        · rename_i hle
          simp only [hle]
          exact inner_mono fuel _ h

theorem loop_mono (fuel : ℕ) (cltol gltol : F) :
    ∀ (k : ℕ) (st : Iterate F) (tr : List (List F × Iterate F)) (info : ℕ) {r : _},
    loop A p fuel cltol gltol k st tr info = some r →
    loop A p (fuel + 1) cltol gltol k st tr info = some r := by
  intro k
  induction k with
  | zero => intro st tr info r h; exact h
  | succ k ih =>
    intro st tr info r h
    unfold loop at h ⊢
    generalize (if A.le st.clerr cltol = true then info ||| 1 else info) = i at h ⊢
    by_cases hp : i > 0
    · rw [if_pos hp] at h ⊢; exact h
    · rw [if_neg hp] at h ⊢
      split at h
      · exact h
      · split at h
        · simp at h
        · rename_i e he
          rw [inner_mono A p _ _ he]; exact h
        · rename_i xl s he
          rw [inner_mono A p _ _ he]
          simp only at h ⊢
          split at h
          · exact h
          · exact ih _ _ _ h

/-- The result of a finished run does not depend on the number of allowed halvings. -/
theorem solve_fuel (fuel fuel' : ℕ) (initial : Option (List F)) (cltol gltol : F)
    (maxiter : ℕ) (r r' : Except Err (Run F))
    (h : solve A p fuel initial cltol gltol maxiter = some r)
    (h' : solve A p fuel' initial cltol gltol maxiter = some r') : r = r' := by
  have mono1 : ∀ (fuel : ℕ) r, solve A p fuel initial cltol gltol maxiter = some r →
      solve A p (fuel + 1) initial cltol gltol maxiter = some r := by
    intro fuel r h
    unfold solve at h ⊢
    split at h
    · exact h
    · split at h
      · exact h
      · split at h
        · simp at h
        · rename_i e he
          rw [loop_mono A p _ _ _ _ _ _ _ he]; exact h
        · rename_i s tr i he
          rw [loop_mono A p _ _ _ _ _ _ _ he]; exact h
  have mono : ∀ (k fuel : ℕ) r, solve A p fuel initial cltol gltol maxiter = some r →
      solve A p (fuel + k) initial cltol gltol maxiter = some r := by
    intro k
    induction k with
    | zero => intro fuel r h; exact h
    | succ k ih => intro fuel r h; exact mono1 _ _ (ih _ _ h)
  have a := mono fuel' fuel r h
  have b := mono fuel fuel' r' h'
  rw [Nat.add_comm] at b
  rw [a] at b
  exact Option.some.inj b

/-! ## What the error means in exact arithmetic -/

theorem le_foldl_max_real : ∀ (L : List ℝ) (a : ℝ), a ≤ L.foldl max a ∧
    ∀ x ∈ L, x ≤ L.foldl max a
  | [], a => by simp
  | b :: L, a => by
    obtain ⟨h1, h2⟩ := le_foldl_max_real L (max a b)
    refine ⟨(le_max_left a b).trans h1, fun x hx => ?_⟩
    rcases List.mem_cons.1 hx with rfl | hx
    · exact (le_max_right a x).trans h1
    · exact h2 x hx

theorem relerr_real {dx x : List ℝ} {err : ℝ} (h : relerr Arith.real dx x = .ok err)
    (i : ℕ) (d v : ℝ) (hd : dx[i]? = some d) (hv : x[i]? = some v) (hv0 : v ≠ 0) :
    |d| ≤ err * |v| := by
  unfold relerr at h
  have hq : ((List.zipWith (fun d v => Arith.real.abs
      (if Arith.real.nonzero d then Arith.real.div d v else Arith.real.zero)) dx x))[i]? =
      some (|d| / |v|) := by
    rw [List.getElem?_zipWith, hd, hv]
    by_cases h0 : d = 0
    · simp [Arith.real, h0]
    · simp [Arith.real, h0, abs_div]
  split at h
  · simp at h
  · rename_i q qs hqs
    simp only [Except.ok.injEq] at h
    rw [hqs] at hq
    have hmem := List.mem_of_getElem? hq
    have hle : |d| / |v| ≤ err := by
      rw [← h]
      rcases List.mem_cons.1 hmem with hm | hm
      · rw [hm]; exact (le_foldl_max_real qs q).1
      · exact (le_foldl_max_real qs q).2 _ hm
    rwa [div_le_iff₀ (abs_pos.2 hv0)] at hle

/-- **C25** In exact arithmetic, bit 1 of `info` means: every multipole of the realised
spectrum, apart from a prescribed monopole, is within `cltol` of the target (for targets that do
not vanish). -/
theorem solve_accuracy (p : Problem ℝ) (fuel : ℕ) (initial : Option (List ℝ))
    (cltol gltol : ℝ) (maxiter : ℕ) (run : Run ℝ)
    (h : solve Arith.real p fuel initial cltol gltol maxiter = some (.ok run))
    (hinfo : run.info.testBit 0 = true) (l : ℕ) (c : ℝ) (hl : p.cl[l]? = some c) (hc : c ≠ 0)
    (hmono : p.monopole = none ∨ 0 < l) :
    ∃ r, run.rl[l]? = some r ∧ |r - c| ≤ cltol * |c| := by
  obtain ⟨-, -, hb, -⟩ := solve_contract Arith.real p fuel initial cltol gltol maxiter run h
  obtain ⟨err, ⟨hlen, hdev⟩, hle⟩ := hb hinfo
  have hl' : l < p.cl.length := by
    by_contra hn
    rw [List.getElem?_eq_none (by omega)] at hl
    simp at hl
  have hlt : l < run.rl.length := by
    rw [List.length_take] at hlen; omega
  refine ⟨run.rl[l], List.getElem?_eq_getElem hlt, ?_⟩
  have hr : (run.rl.take p.cl.length)[l]? = some run.rl[l] := by
    rw [List.getElem?_take_of_lt hl']; exact List.getElem?_eq_getElem hlt
  have hd : (List.zipWith Arith.real.sub (run.rl.take p.cl.length) p.cl)[l]? =
      some (run.rl[l] - c) := by
    rw [List.getElem?_zipWith, hr, hl]; rfl
  have hle' : err ≤ cltol := by simpa [Arith.real] using hle
  have := relerr_real hdev l (run.rl[l] - c) c (by
    rcases hmono with hm | hm
    · simp only [hm, Option.isSome_none]; exact hd
    · split
      · rw [List.getElem?_set_ne (by omega)]; exact hd
      · exact hd) hl hc
  exact this.trans (mul_le_mul_of_nonneg_right hle' (abs_nonneg c))

/-! ## C26 -/

/-- The problem used as a witness: one multipole, normal fields, transforms that scale by `k`
and `1 / k` (for one multipole `transformcl` scales by `1 / (4 π)`). -/
noncomputable def oneMultipole (k : ℝ) : Problem ℝ where
  cl := [1]
  pad := 0
  monopole := none
  cltocorr := fun x => x.map (· * k)
  corrtocl := fun x => x.map (· / k)
  corr := corrList .normal .normal
  icorr := icorrList .normal .normal
  dcorr := dcorrList .normal .normal

/-- **C26, refuted.** `solve` does not check for convergence after its last iteration: for every
such transform, started at twice the solution and with one iteration, it returns the exact
solution, whose error zero is within every non-negative tolerance, and reports `info = 0`. -/
theorem solve_convergence_not_reported (k : ℝ) (hk : k ≠ 0) (cltol gltol : ℝ)
    (h0 : 0 ≤ cltol) (hc : cltol < 1) (hg : gltol < 1 / 2) :
    ∃ run, solve Arith.real (oneMultipole k) 1 (some [2]) cltol gltol 1 = some (.ok run) ∧
      run.gl = [1] ∧ run.rl = [1] ∧ Deviation Arith.real (oneMultipole k) run.rl 0 ∧
      Arith.real.le 0 cltol = true ∧ run.info = 0 := by
  have hcorr : ∀ x, corrList .normal .normal x = .ok x := by
    intro x
    rw [corrList_ok .normal .normal trivial]
    congr 1
    conv_rhs => rw [← List.map_id x]
    apply List.map_congr_left
    intro v _
    rfl
  have hdcorr : ∀ x : List ℝ, dcorrList .normal .normal x = .ok (x.map fun _ => 1) := by
    intro x
    have := dispatch_array Transformation.dcorrM dcorrM_none .normal .normal x
      (fun _ => 1) (by intro v; simp [dispatch, Transformation.dcorrM])
    exact this
  have ev2 : evaluate Arith.real (oneMultipole k) [2] =
      .ok ⟨[2], [2 * k], [2], [1], 1⟩ := by
    simp [evaluate, oneMultipole, padded, hcorr, elementwise, mask, relerr, Arith.real, hk]
    norm_num
  have ev1 : evaluate Arith.real (oneMultipole k) [1] =
      .ok ⟨[1], [1 * k], [1], [0], 0⟩ := by
    simp [evaluate, oneMultipole, padded, hcorr, elementwise, mask, relerr, Arith.real, hk]
  have hdir : direction Arith.real (oneMultipole k) ⟨[2], [2 * k], [2], [1], 1⟩ =
      .ok [-1] := by
    simp [direction, oneMultipole, padded, hdcorr, elementwise, mask, Arith.real, hk]
  have hin : inner Arith.real (oneMultipole k) ⟨[2], [2 * k], [2], [1], 1⟩ 1 [-1] =
      some (.ok ([-1], ⟨[1], [1 * k], [1], [0], 0⟩)) := by
    have : elementwise Arith.real.add [2] [-1] = .ok [(1 : ℝ)] := by
      simp [elementwise, Arith.real]; norm_num
    have hle : Arith.real.le 0 1 = true := by simp [Arith.real]
    simp only [inner, this, ev1, hle, if_true]
  have hrel : relerr Arith.real [-1] [2] = .ok (1 / 2 : ℝ) := by
    simp [relerr, Arith.real]
    rw [abs_of_neg] <;> norm_num
  refine ⟨⟨[1], [1], 0, ⟨[2], [2 * k], [2], [1], 1⟩, ⟨[1], [1 * k], [1], [0], 0⟩,
    [([-1], ⟨[1], [1 * k], [1], [0], 0⟩)]⟩, ?_, rfl, rfl, ?_, ?_, rfl⟩
  · have hini : initialGl Arith.real (oneMultipole k) (some [2]) = .ok [2] := by
      simp [initialGl, oneMultipole]
    have hc' : ¬ Arith.real.le 1 cltol = true := by simp [Arith.real]; exact hc
    have hg' : ¬ Arith.real.le (1 / 2) gltol = true := by
      simp only [Arith.real, decide_eq_true_eq]; linarith
    unfold solve
    simp only [hini, ev2]
    unfold loop
    simp only [hc', Bool.false_eq_true, if_false, gt_iff_lt, lt_self_iff_false, hdir, hin,
      hrel, hg']
    rfl
  · simp [Deviation, oneMultipole, relerr, Arith.real]
  · simpa [Arith.real] using h0

/-- **C26, what holds.** If fewer than `maxiter` iterations were used, bit 1 of `info` is set
exactly when the relative error of the returned spectrum is at most `cltol`; and `info = 0` can
only be returned after the full number of iterations.  Missing from the property: runs that
stop because `maxiter` was reached, see `solve_convergence_not_reported`. -/
theorem solve_convergence_partial (fuel : ℕ) (initial : Option (List F)) (cltol gltol : F)
    (maxiter : ℕ) (run : Run F)
    (h : solve A p fuel initial cltol gltol maxiter = some (.ok run)) :
    (run.info = 0 → run.accepted.length = maxiter) ∧
    (run.accepted.length < maxiter → ∀ err, Deviation A p run.rl err →
      (run.info.testBit 0 = true ↔ A.le err cltol = true)) := by
  refine ⟨(solve_contract A p fuel initial cltol gltol maxiter run h).2.2.2.2.2.2.2.2.2.2, ?_⟩
  intro hlt err herr
  unfold solve at h
  split at h
  · simp at h
  · rename_i gl hgl
    split at h
    · simp at h
    · rename_i st hst
      split at h
      · simp at h
      · simp at h
      · rename_i st' tr info hloop
        simp only [Option.some.injEq, Except.ok.injEq] at h
        subst h
        have hs := evaluate_spec A p hst
        obtain ⟨a1, a2, a3, a4, a5, a6, a7, a8, a9⟩ :=
          loop_spec A p st fuel cltol gltol maxiter st [] 0 hloop rfl (by rw [hs.1]; exact hst)
            trivial (Or.inl rfl)
        have hs' := evaluate_spec A p a2
        have he : err = st'.clerr := by
          have e1 := herr.2
          have e2 := hs'.2.2.2
          simp only at e1 e2
          rw [e1] at e2
          simpa using e2
        have hiff := a9 (by simpa using hlt)
        rw [he, hiff]
        simp only
        clear hiff a5 a6 hloop hlt
        interval_cases info <;> decide

/-- Concrete case for C25 and C26: with a second iteration allowed, the run of the
counterexample does report convergence. -/
theorem solve_example : ∃ run,
    solve Arith.real (oneMultipole 1) 1 (some [2]) 0 0 2 = some (.ok run) ∧ run.info = 1 ∧
      run.gl = [1] := by
  have hcorr : ∀ x, corrList .normal .normal x = .ok x := by
    intro x
    rw [corrList_ok .normal .normal trivial]
    congr 1
    conv_rhs => rw [← List.map_id x]
    apply List.map_congr_left
    intro v _
    rfl
  have hdcorr : ∀ x : List ℝ, dcorrList .normal .normal x = .ok (x.map fun _ => 1) := by
    intro x
    exact dispatch_array Transformation.dcorrM dcorrM_none .normal .normal x
      (fun _ => 1) (by intro v; simp [dispatch, Transformation.dcorrM])
  have ev2 : evaluate Arith.real (oneMultipole 1) [2] = .ok ⟨[2], [2], [2], [1], 1⟩ := by
    simp [evaluate, oneMultipole, padded, hcorr, elementwise, mask, relerr, Arith.real]
    norm_num
  have ev1 : evaluate Arith.real (oneMultipole 1) [1] = .ok ⟨[1], [1], [1], [0], 0⟩ := by
    simp [evaluate, oneMultipole, padded, hcorr, elementwise, mask, relerr, Arith.real]
  have hdir : direction Arith.real (oneMultipole 1) ⟨[2], [2], [2], [1], 1⟩ = .ok [-1] := by
    simp [direction, oneMultipole, padded, hdcorr, elementwise, mask, Arith.real]
  have hin : inner Arith.real (oneMultipole 1) ⟨[2], [2], [2], [1], 1⟩ 1 [-1] =
      some (.ok ([-1], ⟨[1], [1], [1], [0], 0⟩)) := by
    have : elementwise Arith.real.add [2] [-1] = .ok [(1 : ℝ)] := by
      simp [elementwise, Arith.real]; norm_num
    have hle : Arith.real.le 0 1 = true := by simp [Arith.real]
    simp only [inner, this, ev1, hle, if_true]
  have hrel : relerr Arith.real [-1] [2] = .ok (1 / 2 : ℝ) := by
    simp [relerr, Arith.real]
    rw [abs_of_neg] <;> norm_num
  have hini : initialGl Arith.real (oneMultipole 1) (some [2]) = .ok [2] := by
    simp [initialGl, oneMultipole]
  refine ⟨⟨[1], [1], 1, ⟨[2], [2], [2], [1], 1⟩, ⟨[1], [1], [1], [0], 0⟩,
    [([-1], ⟨[1], [1], [1], [0], 0⟩)]⟩, ?_, rfl, rfl⟩
  have hc' : ¬ Arith.real.le 1 0 = true := by simp [Arith.real]
  have hc'' : Arith.real.le 0 0 = true := by simp [Arith.real]
  have hg' : ¬ Arith.real.le (1 / 2) 0 = true := by
    simp only [Arith.real, decide_eq_true_eq]; norm_num
  unfold solve
  simp only [hini, ev2]
  unfold loop
  simp only [hc', Bool.false_eq_true, if_false, gt_iff_lt, lt_self_iff_false, hdir, hin,
    hrel, hg']
  unfold loop
  simp [hc'']

end Glass.Grf
