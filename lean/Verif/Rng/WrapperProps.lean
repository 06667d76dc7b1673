import Mathlib.Algebra.Order.Group.Unbundled.Abs
import Mathlib.Tactic.Linarith
import Mathlib.Tactic.NormNum
import Mathlib.Tactic.Positivity
import Mathlib.Algebra.Order.Archimedean.Basic
import Verif.Rng.Wrapper

/-! # Properties C100 and C101: the wrapper of random number generators -/

namespace Glass.Rng

variable {A Z D V σ : Type} [Zero A] [One A]

/-! ## Specification -/

/-- What a call asks of the wrapped generator: its own arguments, with location and lower bound 0,
and scale and upper bound 1, if these are left out. -/
def Method.draws : Method A Z D → Request A Z
  | .random size _ => .random size
  | .normal loc scale size => .normal (loc.getD 0) (scale.getD 1) size
  | .poisson lam size => .poisson lam size
  | .standardNormal size _ => .standardNormal size
  | .uniform low high size => .uniform (low.getD 0) (high.getD 1) size
  | .multinomial n pvals size => .multinomial n pvals size

/-- The data type of the result: the one that was asked for, double precision for the methods that
have one but were not given one, and otherwise that of the draw. -/
def Method.type (float64 : D) : Method A Z D → Option D
  | .random _ dtype => some (dtype.getD float64)
  | .standardNormal _ dtype => some (dtype.getD float64)
  | _ => none

/-- The draw as an array of the back end; exceptions of the draw are passed on. -/
def answer (xp : Xp V D) (dtype : Option D) : Except Err V → Except Err V
  | .error e => .error e
  | .ok v => xp.asarray v dtype

/-! ## C100: calls are passed on -/

theorem generate_draws (rng : Source A Z V σ) (xp : Xp V D) (m : Method A Z D) (s : σ) :
    generate rng xp m s =
      (answer xp (m.type xp.float64) (rng m.draws s).1, (rng m.draws s).2) := by
  have key : ∀ (d : Option D) (r : Except Err V × σ), convert xp d r = (answer xp d r.1, r.2) := by
    rintro d ⟨_ | v, s⟩ <;> rfl
  cases m with
  | random size dtype => cases dtype <;> simp [generate, key, Method.draws, Method.type]
  | standardNormal size dtype => cases dtype <;> simp [generate, key, Method.draws, Method.type]
  | _ => simp [generate, key, Method.draws, Method.type]

/-- **C100.** Whatever sequence of methods is called, the wrapper makes the same draws as the wrapped
generator would with the same calls, in the same order, and leaves it in the same state: the results
are those draws as arrays of the back end, and an exception does not change the calls after it. -/
theorem wrapper_calls (rng : Source A Z V σ) (xp : Xp V D) (ms : List (Method A Z D)) (s : σ) :
    callAll (generate rng xp) ms s =
      (List.zipWith (fun m r => answer xp (m.type xp.float64) r) ms
        (callAll rng (ms.map Method.draws) s).1, (callAll rng (ms.map Method.draws) s).2) := by
  induction ms generalizing s with
  | nil => rfl
  | cons m ms ih =>
    simp only [callAll, List.map_cons, List.zipWith_cons_cons]
    rw [generate_draws, ih]

theorem draws_toMethod (r : Request A Z) : (r.toMethod : Method A Z D).draws = r := by
  cases r <;> rfl

omit [Zero A] [One A] in
theorem type_toMethod (float64 : D) (r : Request A Z) :
    (r.toMethod : Method A Z D).type float64 = none ∨
    (r.toMethod : Method A Z D).type float64 = some float64 := by
  cases r <;> simp [Request.toMethod, Method.type]

/-- **C100**: a generator whose draws are already arrays of the back end in double precision is
not changed by the wrapper. -/
theorem wrapper_transparent (rng : Source A Z V σ) (xp : Xp V D)
    (h : ∀ r s v, (rng r s).1 = .ok v → ∀ d : Option D, d = none ∨ d = some xp.float64 →
      xp.asarray v d = .ok v) : asSource rng xp = rng := by
  funext r s
  rw [asSource, generate_draws, draws_toMethod]
  refine Prod.ext ?_ rfl
  dsimp only
  rcases hr : (rng r s).1 with e | v
  · rfl
  · exact h r s v hr _ (type_toMethod _ r)

/-- `xp.asarray` of an array of the back end that has the data type is that array, and a conversion
of double precision draws does not depend on whether they were converted before. -/
structure Converts (xp : Xp V D) : Prop where
  again : ∀ v d w, xp.asarray v d = .ok w → xp.asarray w d = .ok w
  double : ∀ v w, xp.asarray v (some xp.float64) = .ok w →
    ∀ d, xp.asarray w (some d) = xp.asarray v (some d)
  fails : ∀ v e, xp.asarray v (some xp.float64) = .error e →
    ∀ d, xp.asarray v (some d) = .error e

/-- The draws of the methods with a data type do not depend on it, so that wrapping twice is the
same as wrapping once. -/
theorem generate_twice (rng : Source A Z V σ) {xp : Xp V D} (hx : Converts xp)
    (m : Method A Z D) (s : σ) :
    generate (asSource rng xp) xp m s = generate rng xp m s := by
  have key : ∀ r : Except Err V, answer xp none (answer xp none r) = answer xp none r := by
    rintro (e | v)
    · rfl
    · simp only [answer]
      rcases h : xp.asarray v none with e | w
      · rfl
      · exact hx.again v none w h
  have key2 : ∀ (d : D) (r : Except Err V),
      answer xp (some d) (answer xp (some xp.float64) r) = answer xp (some d) r := by
    rintro d (e | v)
    · rfl
    · simp only [answer]
      rcases h : xp.asarray v (some xp.float64) with e | w
      · exact (hx.fails v e h d).symm
      · exact hx.double v w h d
  rw [generate_draws, generate_draws, asSource, generate_draws, draws_toMethod]
  refine Prod.ext ?_ rfl
  dsimp only
  cases m <;> simp only [Method.draws, Request.toMethod, Method.type, key, key2, Option.getD_none]

/-- **C100**: wrapping a generator twice, as it happens when one function of the library passes its
generator to another one, is the same as wrapping it once, for every sequence of calls. -/
theorem wrapper_twice (rng : Source A Z V σ) {xp : Xp V D} (hx : Converts xp)
    (ms : List (Method A Z D)) (s : σ) :
    callAll (generate (asSource rng xp) xp) ms s = callAll (generate rng xp) ms s := by
  have : generate (asSource rng xp) xp = generate rng xp := by
    funext m s; exact generate_twice rng hx m s
  rw [this]

/-! ## C100: creation -/

/-- **C100**: `default_rng` returns the generator of JAX or of NumPy for these back ends, and a
wrapper of the latter for all others; the seed is 42 unless given. -/
theorem default_rng_dispatch (seed : ℕ) (xp : Xp V D) :
    (xp.name = "jax.numpy" → defaultRng seed xp = .jax seed) ∧
    (xp.name = "numpy" → defaultRng seed xp = .numpy seed) ∧
    (xp.name ≠ "jax.numpy" → xp.name ≠ "numpy" →
      defaultRng seed xp = .wrapper (.numpy seed) xp) ∧
    defaultRng (xp := xp) = defaultRng 42 xp := by
  refine ⟨fun h => by simp [defaultRng, h], fun h => by simp [defaultRng, h], fun h h' => ?_, rfl⟩
  simp [defaultRng, h, h', makeGenerator]

/-- **C100**: a generator that is given is used as it is, whatever the seed. -/
theorem given_generator_used (lib : Library A Z V σ) (g : Made V D) (seed : ℕ) (xp : Xp V D) :
    (makeGenerator (some g) seed xp).source lib = asSource (g.source lib) xp ∧
    (makeGenerator (some g) seed xp).state lib = g.state lib := ⟨rfl, rfl⟩

/-- **C100**: leaving the generator out is the same as passing the default generator of the back
end: any sequence of calls gives the same results and leaves the same state. -/
theorem default_generator_explicit (lib : Library A Z V σ) {xp : Xp V D} (hx : Converts xp)
    (seed seed' : ℕ) (rs : List (Request A Z)) :
    callAll ((makeGenerator none seed xp).source lib) rs ((makeGenerator none seed xp).state lib) =
      callAll ((makeGenerator (some (defaultRng seed xp)) seed' xp).source lib) rs
        ((makeGenerator (some (defaultRng seed xp)) seed' xp).state lib) := by
  have hs : (makeGenerator (V := V) none seed xp).state lib =
      (makeGenerator (some (defaultRng seed xp)) seed' xp).state lib := by
    simp only [makeGenerator, defaultRng, Made.state]
    split_ifs <;> rfl
  have hf : (makeGenerator (V := V) none seed xp).source lib =
      (makeGenerator (some (defaultRng seed xp)) seed' xp).source lib := by
    funext r s
    simp only [makeGenerator, defaultRng]
    split_ifs
    · rfl
    · rfl
    · simp only [Made.source]
      rw [asSource, asSource, generate_twice _ hx]
  rw [hs, hf]

/-- **C100**: two generators that are created without an argument make the same draws, so that
functions that are called without a generator do not draw independent numbers. -/
theorem default_generators_repeat (lib : Library A Z V σ) (xp : Xp V D) (rs : List (Request A Z)) :
    let g : Made V D := makeGenerator none (xp := xp)
    (g.state lib = if xp.name = "jax.numpy" then lib.jaxSeed 42 else lib.numpySeed 42) ∧
    callAll (g.source lib) rs (g.state lib) = callAll
      (asSource (if xp.name = "jax.numpy" then lib.jax else lib.numpy) xp) rs
      (if xp.name = "jax.numpy" then lib.jaxSeed 42 else lib.numpySeed 42) := by
  simp only [makeGenerator, Made.state, Made.source]
  split_ifs <;> exact ⟨rfl, rfl⟩

/-! ## C101: the range of `random` -/

/-- **C101**, part: if the draws of the wrapped generator are in `[0, 1)` and the conversion keeps
their values (as the conversion to double precision does), the results of `random` are in `[0, 1)`.
Missing: conversions that round, for which it is false (`random_not_half_open`). -/
theorem random_half_open_partial (rng : Source A Z V σ) (xp : Xp V D) (values : V → List ℝ)
    (hr : ∀ size s v, (rng (.random size) s).1 = .ok v → ∀ x ∈ values v, 0 ≤ x ∧ x < 1)
    (size : Option Z) (dtype : Option D)
    (hx : ∀ v w, xp.asarray v (some (dtype.getD xp.float64)) = .ok w → values w = values v)
    (s : σ) (w : V) (hw : (generate rng xp (.random size dtype) s).1 = .ok w) :
    ∀ x ∈ values w, 0 ≤ x ∧ x < 1 := by
  rw [generate_draws] at hw
  simp only [Method.draws, Method.type] at hw
  rcases h : (rng (.random size) s).1 with e | v
  · rw [h] at hw; simp [answer] at hw
  · rw [h] at hw
    rw [hx v w hw]
    exact hr size s v h

/-- The numbers that have a significand of 24 bits. -/
def Single (y : ℝ) : Prop := ∃ m e : ℤ, |m| < 2 ^ 24 ∧ y = m * (2 : ℝ) ^ e

/-- `y` is a nearest number of single precision to `x`. -/
def NearestSingle (x y : ℝ) : Prop := Single y ∧ ∀ z, Single z → |x - y| ≤ |x - z|

/-- There is no number of single precision just below one. -/
theorem single_gap {y : ℝ} (h : Single y) (hlo : 1 - 2⁻¹ ^ 24 < y) (hhi : y < 1) : False := by
  obtain ⟨m, e, hm, rfl⟩ := h
  have he0 : (0 : ℝ) < (2 : ℝ) ^ e := zpow_pos (by norm_num) e
  have hm0 : 0 < m := by
    by_contra h0
    have : (m : ℝ) * (2 : ℝ) ^ e ≤ 0 := mul_nonpos_of_nonpos_of_nonneg
      (by exact_mod_cast not_lt.1 h0) he0.le
    norm_num at hlo
    linarith
  have hm1 : m < 2 ^ 24 := lt_of_le_of_lt (le_abs_self m) hm
  have hmr : (m : ℝ) < 2 ^ 24 := by exact_mod_cast hm1
  have hm1r : (1 : ℝ) ≤ m := by exact_mod_cast hm0
  by_cases he : 0 ≤ e
  · have : (1 : ℝ) ≤ (2 : ℝ) ^ e := one_le_zpow₀ (by norm_num) he
    nlinarith
  · obtain ⟨q, rfl⟩ : ∃ q : ℕ, e = -(q : ℤ) := ⟨e.natAbs, by omega⟩
    rw [zpow_neg, zpow_natCast] at hlo hhi
    have hq : (0 : ℝ) < 2 ^ q := by positivity
    rw [← div_eq_mul_inv] at hlo hhi
    rw [div_lt_one hq] at hhi
    rw [lt_div_iff₀ hq] at hlo
    by_cases h24 : q ≤ 24
    · have hz : m + 1 ≤ 2 ^ q := by
        have : (m : ℤ) < 2 ^ q := by exact_mod_cast hhi
        omega
      have hzr : (m : ℝ) + 1 ≤ 2 ^ q := by exact_mod_cast hz
      have hqq : (2 : ℝ) ^ q ≤ 2 ^ 24 := pow_le_pow_right₀ (by norm_num) h24
      norm_num at hlo hqq
      linarith
    · have hqq : (2 : ℝ) ^ 25 ≤ 2 ^ q := pow_le_pow_right₀ (by norm_num) (by omega)
      norm_num at hlo hqq hmr
      linarith

theorem single_one : Single 1 := ⟨1, 0, by norm_num, by norm_num⟩

/-- The only nearest number of single precision to a number between `1 - 2 ** -25` and one is
one. -/
theorem nearestSingle_one {x y : ℝ} (hlo : 1 - 2⁻¹ ^ 25 < x) (hhi : x < 1) :
    NearestSingle x y ↔ y = 1 := by
  have h3 : |x - 1| = 1 - x := by rw [abs_sub_comm, abs_of_pos (by linarith)]
  constructor
  · rintro ⟨hy, hn⟩
    have h2 := hn 1 single_one
    rw [h3] at h2
    obtain ⟨h4, h5⟩ := abs_le.1 h2
    by_contra hne
    refine single_gap hy ?_ (lt_of_le_of_ne (by linarith) hne)
    norm_num at hlo ⊢; linarith
  · rintro rfl
    refine ⟨single_one, fun z hz => ?_⟩
    rw [h3]
    by_contra h
    obtain ⟨h4, h5⟩ := abs_lt.1 (not_le.1 h)
    refine single_gap hz ?_ (by linarith)
    norm_num at hlo ⊢; linarith

/-- **C101** is false: if single precision is asked for, the draws of the wrapped generator are
rounded after they are made, and every draw above `1 - 2 ** -25` becomes one. -/
theorem random_not_half_open (rng : Source A Z V σ) (xp : Xp V D) (values : V → List ℝ)
    (float32 : D) (hx : ∀ v w, xp.asarray v (some float32) = .ok w →
      List.Forall₂ NearestSingle (values v) (values w))
    (size : Option Z) (s : σ) (v w : V) (hv : (rng (.random size) s).1 = .ok v) (i : ℕ) (x : ℝ)
    (hi : (values v)[i]? = some x) (hlo : 1 - 2⁻¹ ^ 25 < x) (hhi : x < 1)
    (hw : (generate rng xp (.random size (some float32)) s).1 = .ok w) :
    (values w)[i]? = some 1 := by
  rw [generate_draws] at hw
  simp only [Method.draws, Method.type, hv, answer, Option.getD_some] at hw
  have h := hx v w hw
  obtain ⟨hl, hg⟩ := List.forall₂_iff_get.1 h
  obtain ⟨h1, h2⟩ := List.getElem?_eq_some_iff.1 hi
  have h3 := hg i h1 (hl ▸ h1)
  rw [List.get_eq_getElem, List.get_eq_getElem, h2, nearestSingle_one hlo hhi] at h3
  rw [List.getElem?_eq_getElem (hl ▸ h1), h3]

/-! ## A concrete case -/

/-- A back end with two data types, `true` for double and `false` for single precision, which can
convert the number `1 - 2 ** -53`. -/
noncomputable def twoTypes : Xp (List ℝ) Bool where
  name := "array_api_strict"
  float64 := true
  asarray := fun v d => match d with
    | some false => if ∀ x ∈ v, x = 1 - 2⁻¹ ^ 53 ∨ x = 1 then .ok (v.map fun _ => 1)
        else .error (.value "not modelled")
    | _ => .ok v

/-- A generator that counts its calls, and returns the number `1 - 2 ** -53`. -/
noncomputable def counting : Source ℝ ℕ (List ℝ) ℕ := fun r n =>
  match r with
  | .random size => (.ok (List.replicate (size.getD 1) (1 - 2⁻¹ ^ 53)), n + 1)
  | .poisson lam _ => if lam < 0 then (.error (.value "lam < 0"), n) else (.ok [lam], n + 1)
  | _ => (.ok [n], n + 1)

/-- Concrete case: a sequence of calls with an exception among them. -/
example : callAll (generate counting twoTypes)
    [.normal none none none, .poisson (-1) none, .uniform none (some 3) none] 0 =
    ([.ok [0], .error (.value "lam < 0"), .ok [1]], 2) := by
  rw [wrapper_calls]
  norm_num [callAll, counting, Method.draws, answer, twoTypes, Method.type]

/-- Concrete case: the result of `random` in single precision is one, although the draw is below
one; in double precision it is the draw. -/
example : (generate counting twoTypes (.random (some 1) (some false)) 0).1 = .ok [1] ∧
    (generate counting twoTypes (.random (some 1) none) 0).1 = .ok [1 - 2⁻¹ ^ 53] ∧
    Converts twoTypes ∧
    (∀ v w, twoTypes.asarray v (some false) = .ok w → List.Forall₂ NearestSingle v w) := by
  refine ⟨?_, ?_, ⟨?_, ?_, ?_⟩, ?_⟩
  · rw [generate_draws]
    simp [counting, Method.draws, answer, twoTypes, Method.type]
  · rw [generate_draws]
    simp [counting, Method.draws, answer, twoTypes, Method.type]
  · intro v d w h
    rcases d with _ | _ | _
    · rfl
    · simp only [twoTypes] at h ⊢
      split_ifs at h with hc
      simp only [Except.ok.injEq] at h
      subst h
      simp
    · rfl
  · intro v w h d
    simp only [twoTypes, Except.ok.injEq] at h
    rw [h]
  · intro v e h
    simp [twoTypes] at h
  · intro v w h
    simp only [twoTypes] at h
    split_ifs at h with hc
    simp only [Except.ok.injEq] at h
    subst h
    rw [List.forall₂_map_right_iff, List.forall₂_same]
    intro x hx
    rcases hc x hx with rfl | rfl
    · exact (nearestSingle_one (by norm_num) (by norm_num)).2 rfl
    · exact ⟨single_one, fun z _ => by simp⟩

end Glass.Rng
