import Verif.Texpr.LinearizeFlags
import Verif.Props.Texpr
import Verif.Props.BoxConstraint

/-! # Properties C56 (linearisation of trees), C59 (interval linear trees), and the legacy algorithm of C19 -/

set_option autoImplicit false
set_option linter.unusedSectionVars false
set_option linter.ambiguousOpen false

namespace Apron
open Bound Texpr
variable {K : Type*} [LinearOrder K] [Field K] [IsStrictOrderedRing K] [FloorRing K]

/-! ## C56: linearisation -/

/-- Every value of the tree at a point of the box is a value of the linear form at this point, and the
form is not reported as empty.  Full statement (false for the code, see `C56_pow_unsound` and
`C56_mod_float_unsound`): the same without `LinSafe`.  Missing: modulos and powers of
floating-point type, powers of integer type, odd powers of intervals without lower bound. -/
theorem C56_intlinearize_sound_partial (R : Rnd K) (o : RootOps K) (ho : o.SqrtOK) (F : FltOps K) (S : FltSem K)
    (hF : FltOK F S) (n intdim : ℕ) (env : ℕ → Itv K) (e : Texpr K) (hd : e.InDim n)
    (hs : e.LinSafe R o F env intdim) (x : ℕ → K) (hx : ∀ i, i < n → x i ∈ env i)
    (hint : ∀ i, i < intdim → ∃ m : ℤ, x i = m) (v : K) (hv : e.Val S x v) (e0 : Bool) :
    (intlinearize R o F env intdim e0 e).1.Val x v ∧ (intlinearize R o F env intdim e0 e).2 = false := by
  have hi := intlin_inv R ho hF hx hint hd hs e0 hv
  have h1 := Itv.not_isBottom hi.both.mem
  obtain ⟨q, r, hq, hr, e⟩ := hi.both.val
  have h2 := Itv.not_isBottom hq
  simp only [intlinearize, h1, h2, Bool.not_false, Bool.and_self, if_true]
  split_ifs with ht
  · refine ⟨(val_mk_nil ht).2 (Itv.mem_meet.2 ⟨?_, hi.both.mem⟩), rfl⟩
    exact (ILincons.val_nil ht).1 hi.both.val
  · exact ⟨hi.both.val, rfl⟩

/-- The terms of the linear form are sorted by strictly increasing dimension, for every tree, rounding
and environment. -/
theorem C56_intlinearize_sorted (R : Rnd K) (o : RootOps K) (F : FltOps K) (env : ℕ → Itv K) (intdim : ℕ) (e0 : Bool)
    (e : Texpr K) : ((intlinearize R o F env intdim e0 e).1.terms.map ITerm.dim).Pairwise (· < ·) := by
  have h : ILinexpr.Ordered (intlin R o F env intdim e0 e).1.terms := ordered_intlin R o F env intdim e e0
  simp only [intlinearize]
  split_ifs <;> exact h

/-- When a constraint on a tree holds at a point, so does its linearisation; in particular the
constraint "false" and the flag `exc` only appear when no point of the box satisfies the
constraint. -/
theorem C56_intlinearize_tcons_sound_partial (R : Rnd K) (o : RootOps K) (ho : o.SqrtOK) (F : FltOps K) (S : FltSem K)
    (hF : FltOK F S) (n intdim : ℕ) (env : ℕ → Itv K) (c : Tcons K) (hd : c.expr.InDim n)
    (hs : c.expr.LinSafe R o F env intdim) (x : ℕ → K) (hx : ∀ i, i < n → x i ∈ env i)
    (hint : ∀ i, i < intdim → ∃ m : ℤ, x i = m) (hc : c.Holds S x) :
    (intlinearizeCons R o F env intdim c).1.Holds x ∧ (intlinearizeCons R o F env intdim c).2 = false := by
  obtain ⟨v, hv, hr⟩ := hc
  have hi := intlin_inv R ho hF hx hint hd hs true hv
  obtain ⟨q, r, hq, hr', e⟩ := hi.both.val
  have h2 := Itv.not_isBottom hq
  obtain ⟨z, hz⟩ := satBound_nonempty hi.both.mem hr (old := Itv.point 0) ⟨0, (Itv.mem_point _ _).2 rfl⟩
  have h1 := Itv.not_isBottom hz
  simp only [intlinearizeCons, h1, h2, Bool.not_false, Bool.and_self, if_true]
  split_ifs with ht
  · refine ⟨⟨v, (val_mk_nil ht).2 (Itv.mem_meet.2 ⟨?_, hi.both.mem⟩), hr⟩, rfl⟩
    exact (ILincons.val_nil ht).1 hi.both.val
  · exact ⟨⟨v, hi.both.val, hr⟩, rfl⟩

/-- The same for arrays of constraints. -/
theorem C56_intlinearize_array_sound_partial (R : Rnd K) (o : RootOps K) (ho : o.SqrtOK) (F : FltOps K) (S : FltSem K)
    (hF : FltOK F S) (n intdim : ℕ) (env : ℕ → Itv K) (l : List (Tcons K)) (hd : ∀ c ∈ l, c.expr.InDim n)
    (hs : ∀ c ∈ l, c.expr.LinSafe R o F env intdim) (x : ℕ → K) (hx : ∀ i, i < n → x i ∈ env i)
    (hint : ∀ i, i < intdim → ∃ m : ℤ, x i = m) (hc : ∀ c ∈ l, c.Holds S x) :
    (intlinearizeArray R o F env intdim l).length = l.length ∧
    ∀ c ∈ intlinearizeArray R o F env intdim l, c.Holds x := by
  have h := intlinArray_go R ho hF hx hint hd hs hc (bound := Itv.point 0) ⟨0, (Itv.mem_point _ _).2 rfl⟩
  simp only [intlinearizeArray, h, Option.getD_some, List.length_map, true_and]
  intro k hk
  obtain ⟨c, hcm, rfl⟩ := List.mem_map.1 hk
  obtain ⟨v, hv, hr⟩ := hc c hcm
  exact ⟨v, (intlin_inv R ho hF hx hint (hd c hcm) (hs c hcm) true hv).both.val, hr⟩

/-- `(x0 + x1) * x1`, single precision, over `x0 ∈ [1,2]`, `x1 ∈ [3,4]` -/
def exLinTree : Texpr ℚ :=
  .bin .mul .single .nearest (.bin .add .real .rnd (.dim 0) (.dim 1)) (.dim 1)
def exLinEnv : ℕ → Itv ℚ := fun i => if i = 0 then ⟨fin (-1), fin 2⟩ else ⟨fin (-3), fin 4⟩

/-- the hypotheses are met, with both variables present and a rounded multiplication -/
example : exLinTree.InDim 2 ∧ exLinTree.LinSafe Rnd.exact mpqRoots gridOps exLinEnv 0 ∧
    exLinTree.Val (gridSem false) (fun i => if i = 0 then 1 else 3) 12 := by
  refine ⟨⟨⟨by norm_num [Texpr.InDim], by norm_num [Texpr.InDim]⟩, by norm_num [Texpr.InDim]⟩, ?_, ?_⟩
  · simp [exLinTree, LinSafe]
  · refine ⟨4, 3, 12, ⟨1, 3, 4, rfl, rfl, by norm_num [BinOp.Val], rfl⟩, rfl, by norm_num [BinOp.Val], ?_⟩
    exact ⟨⟨48, by norm_num⟩, by norm_num, by simp⟩
example : (intlinearize Rnd.exact mpqRoots gridOps exLinEnv 0 true exLinTree).1 =
    ⟨⟨fin (1/4), fin (1/4)⟩, false, [⟨0, false, ⟨fin (-3), fin 4⟩⟩, ⟨1, false, ⟨fin (-3), fin 4⟩⟩]⟩ := by
  decide +kernel

/-- The code violates the full property: a power of integer type is not rounded.  `x0 ^ 1`, rounded up
to an integer, is 1 at `x0 = 1/2`; the linear form is the constant `1/2`. -/
theorem C56_pow_unsound : ∃ (env : ℕ → Itv ℚ) (e : Texpr ℚ) (x : ℕ → ℚ) (v : ℚ), e.InDim 1 ∧
    (∀ i, i < 1 → x i ∈ env i) ∧ e.Val (gridSem false) x v ∧
    ¬ (intlinearize Rnd.exact mpqRoots gridOps env 0 true e).1.Val x v := by
  refine ⟨fun _ => Itv.point (1/2), .bin .pow .int .up (.dim 0) (.cst (.scalar (fin 1))), fun _ => 1/2, 1,
    ⟨Nat.one_pos, trivial⟩, fun _ _ => (Itv.mem_point _ _).2 rfl, ⟨1/2, 1, 1/2, rfl, rfl, ?_, ?_⟩, ?_⟩
  · intro k hk
    have : k = 1 := by exact_mod_cast hk.symm
    subst this; norm_num
  · show (1 : ℚ) = ((⌈(1/2 : ℚ)⌉ : ℤ) : ℚ)
    norm_num
  · have h : (intlinearize Rnd.exact mpqRoots gridOps (fun _ => Itv.point (1/2)) 0 true
        (.bin .pow .int .up (.dim 0) (.cst (.scalar (fin 1))))).1 = ⟨Itv.point (1/2), true, []⟩ := by decide +kernel
    rw [h, val_mk_nil rfl, Itv.mem_point]
    norm_num

/-- The code violates the full property: a modulo of a floating-point type is taken as a value of this
format although neither it nor its arguments were rounded, so that a following cast is dropped.
`(single up) (x0 mod 1)` is `1/4` at `x0 = 1/8` (format of spacing 1/4); the linear form is the constant
`1/8`. -/
theorem C56_mod_float_unsound : ∃ (env : ℕ → Itv ℚ) (e : Texpr ℚ) (x : ℕ → ℚ) (v : ℚ), e.InDim 1 ∧
    (∀ i, i < 1 → x i ∈ env i) ∧ e.Val (gridSem false) x v ∧
    ¬ (intlinearize Rnd.exact mpqRoots gridOps env 0 true e).1.Val x v := by
  refine ⟨fun _ => Itv.point (1/8), .un .cast .single .up (.bin .mod .single .up (.dim 0) (.cst (.scalar (fin 1)))),
    fun _ => 1/8, 1/4, ⟨Nat.one_pos, trivial⟩, fun _ _ => (Itv.mem_point _ _).2 rfl,
    ⟨1/8, 1/8, ⟨1/8, 1, 1/8, rfl, rfl, ?_, rfl⟩, rfl, ?_⟩, ?_⟩
  · refine ⟨one_ne_zero, by simp, ?_⟩
    norm_num
  · exact ⟨⟨1, by norm_num⟩, by norm_num [abs_lt], by simp⟩
  · have h : (intlinearize Rnd.exact mpqRoots gridOps (fun _ => Itv.point (1/8)) 0 true
        (.un .cast .single .up (.bin .mod .single .up (.dim 0) (.cst (.scalar (fin 1)))))).1 =
        ⟨Itv.point (1/8), true, []⟩ := by decide +kernel
    rw [h, val_mk_nil rfl, Itv.mem_point]
    norm_num

/-! ## C19: the legacy algorithm -/

theorem okFor_intlin {o : RootOps ℚ} (ho : o.SqrtOK) {F : FltOps ℚ} {S : FltSem ℚ} (hF : FltOK F S)
    {env : ℕ → Itv ℚ} {n intdim : ℕ} {x : ℕ → ℚ} (hx : ∀ i, i < n → x i ∈ env i)
    (hint : ∀ i, i < intdim → ∃ m : ℤ, x i = m) {c : Tcons ℚ} (hd : c.expr.InDim n)
    (hs : c.expr.LinSafe Rnd.exact o F env intdim) (hc : c.Holds S x) :
    ILincons.OkFor Rnd.exact (ILincons.reduceIntegerRat ⟨c.typ, (intlin Rnd.exact o F env intdim true c.expr).1⟩ intdim) ∧
    (ILincons.reduceIntegerRat ⟨c.typ, (intlin Rnd.exact o F env intdim true c.expr).1⟩ intdim).Holds x ∧
    ∀ t ∈ (ILincons.reduceIntegerRat ⟨c.typ, (intlin Rnd.exact o F env intdim true c.expr).1⟩ intdim).expr.terms,
      t.dim < n := by
  obtain ⟨v, hv, hr⟩ := hc
  have hi := intlin_inv Rnd.exact ho hF hx hint hd hs true hv
  have hq := intlin_flags ho hF hx hint hd hs true hv
  refine ⟨ILincons.okFor_reduceIntegerRat ⟨hi.flags, fun h => intlin_nil _ _ _ _ _ _ _ (by simpa using h), .inr rfl⟩ _, ?_, ?_⟩
  · exact ILincons.reduceIntegerRat_sound'
      (c := ⟨c.typ, (intlin Rnd.exact o F env intdim true c.expr).1⟩) hi.flags (fun h => hq.2 h) hint ⟨v, hi.both.val, hr⟩
  · intro t ht
    obtain ⟨u, hu, e⟩ := ILincons.dims_reduceIntegerRat ht
    rw [← e]; exact hi.dims u hu

/-- Rational numbers, algorithm below 100: every point of the box, integer on the integer dimensions,
satisfying the constraints is kept, for any number of passes.  Full statement: without `LinSafe`. -/
theorem C19_meet_tcons_legacy_sound_partial (o : RootOps ℚ) (ho : o.SqrtOK) (F : FltOps ℚ) (S : FltSem ℚ)
    (hF : FltOK F S) (a : Box ℚ) (l : List (Tcons ℚ)) (algo : ℕ) (hd : ∀ c ∈ l, c.expr.InDim a.dim)
    (hs : ∀ p, a.p = some p → ∀ c ∈ l, c.expr.LinSafe Rnd.exact o F p a.intdim) (x : ℕ → ℚ) (hx : a.Gam x)
    (hint : ∀ i, i < a.intdim → ∃ m : ℤ, x i = m) (hc : ∀ c ∈ l, c.Holds S x) :
    (a.meetTconsLin Rnd.exact o F ILincons.reduceIntegerRat l algo).Gam x := by
  unfold Box.meetTconsLin
  rcases h : a.p with _ | p
  · exact (Box.gam_none h hx).elim
  · have hp := (Box.gam_some h).1 hx
    have hl := fun c (hm : c ∈ l) => okFor_intlin ho hF hp hint (hd c hm) (hs p h c hm) (hc c hm)
    have hgo := intlinArray_go Rnd.exact ho hF hp hint hd (hs p h) hc (bound := Itv.point 0)
      ⟨0, (Itv.mem_point _ _).2 rfl⟩
    simp only [intlinearizeArray, hgo, Option.getD_some]
    have hr := ILincons.arrayReduce_holds
      (l := (l.map fun c => (⟨c.typ, (intlin Rnd.exact o F p a.intdim true c.expr).1⟩ : ILincons ℚ)).map fun c =>
        ILincons.reduceIntegerRat c a.intdim)
      (fun c hc he => by
        simp only [List.map_map, List.mem_map, Function.comp] at hc
        obtain ⟨c0, hc0, rfl⟩ := hc
        exact (hl c0 hc0).1.cst he) (x := x)
      (fun c hc => by
        simp only [List.map_map, List.mem_map, Function.comp] at hc
        obtain ⟨c0, hc0, rfl⟩ := hc
        exact (hl c0 hc0).2.1)
    unfold ILincons.arrayReduceInteger
    rw [if_neg hr.1]
    obtain ⟨h1, h2⟩ := boxizeArray_sound (R := Rnd.exact) (env := p) (intdim := a.intdim)
      (kmax := if algo < 1 then 2 else algo) (itvonly := false) (x := x) (D := fun d => d < a.dim) hp
      (fun d _ hd => hint d hd)
      (fun c hc => by
        have := hr.2 c hc
        simp only [List.map_map, List.mem_map, Function.comp] at this
        obtain ⟨c0, hc0, rfl⟩ := this
        exact hl c0 hc0)
    rw [if_neg (by rw [h1]; simp)]
    exact Box.gam_mk.2 h2

/-- the result is included in the box, for every rounding -/
theorem C19_meet_tcons_legacy_le (R : Rnd K) (o : RootOps K) (F : FltOps K) (red : ILincons K → ℕ → ILincons K) (a : Box K)
    (l : List (Tcons K)) (algo : ℕ) (x : ℕ → K) (hx : (a.meetTconsLin R o F red l algo).Gam x) : a.Gam x := by
  unfold Box.meetTconsLin at hx
  rcases h : a.p with _ | p
  · simp only [h] at hx; exact hx
  · simp only [h] at hx
    generalize ILincons.arrayReduceInteger red (intlinearizeArray R o F p a.intdim l) a.intdim = T at hx
    by_cases h1 : T.2 = .f
    · rw [if_pos h1] at hx; exact (Box.gam_none rfl hx).elim
    · rw [if_neg h1] at hx
      by_cases h2 : (ILincons.boxizeArray R T.1 true p p a.intdim (if algo < 1 then 2 else algo) false).empty = true
      · rw [if_pos h2] at hx; exact (Box.gam_none rfl hx).elim
      · rw [if_neg h2] at hx
        rw [Box.gam_mk] at hx
        refine (Box.gam_some h).2 fun d hd => ?_
        have := ILincons.boxizeLoop_le (R := R) true p a.intdim false T.1
          (if true then max (if algo < 1 then 2 else algo) 1 else 1) ⟨p, false, false⟩ d
        exact Itv.mem_of_le this.1 this.2 (hx d hd)

/-- `x0 * x0 = 4` over `[1,10]`: `x0` is bounded by `[2/5,4]`, cut with the box -/
example : ((exBox1 1 10).meetTconsLin Rnd.exact mpqRoots gridOps ILincons.reduceIntegerRat
    [⟨.eq, .bin .sub .real .rnd (.bin .mul .real .rnd (.dim 0) (.dim 0)) (.cst (.scalar (fin 4)))⟩] 0).p.map (· 0) =
    some ⟨fin (-1), fin 4⟩ := by decide +kernel

/-- Rounding upwards on integers up to `2^55` with 53 bits: exact up to `2^53`, multiples of 4 beyond.
On integers between `2^54` and `2^55` and below `2^53` this is what double precision does. -/
def dblUp : Rnd ℚ where
  up q := if |q| ≤ 2 ^ 53 then fin q else fin (4 * (⌈q / 4⌉ : ℤ))
  up_ge q := by
    split_ifs
    · exact le_rfl
    · rw [fin_le_fin]
      have := Int.le_ceil (q / 4)
      linarith

/-- The code violates the property in double precision even for a linear constraint without rounding
and with scalar coefficients: `itv_linexpr_scale` leaves the flag `equality` of the constant set although
the scaled constant is no longer a single number, and the integer tightening trusts the flag.  For
`3 (x0 + (2^53-1)) = 0` with `x0` integer, the result is `x0 = -2^53`. -/
theorem C19_legacy_stale_flag_unsound : ∃ (a : Box ℚ) (c : Tcons ℚ) (x : ℕ → ℚ), a.Wf ∧
    c.expr.InDim a.dim ∧ c.expr.isIntervalLinear = true ∧ a.Gam x ∧ (∀ i, i < a.intdim → ∃ m : ℤ, x i = m) ∧
    c.Holds (gridSem false) x ∧
    ¬ (a.meetTconsLin dblUp mpqRoots gridOps (ILincons.reduceIntegerFlt dblUp) [c] 0).Gam x := by
  refine ⟨⟨some fun _ => Itv.top, 1, 0⟩,
    ⟨.eq, .bin .mul .real .rnd (.bin .add .real .rnd (.dim 0) (.cst (.scalar (fin (2 ^ 53 - 1)))))
      (.cst (.scalar (fin 3)))⟩, fun _ => -(2 ^ 53 - 1), Box.wf_mk.2 fun _ _ => ⟨0, Itv.mem_top _⟩,
    ⟨⟨Nat.one_pos, trivial⟩, trivial⟩, rfl, Box.gam_mk.2 fun _ _ => Itv.mem_top _,
    fun _ _ => ⟨-(2 ^ 53 - 1), by norm_num⟩, ⟨0, ⟨0, 3, 0, ⟨-(2 ^ 53 - 1), 2 ^ 53 - 1, 0, rfl, rfl, ?_, rfl⟩, rfl, ?_, rfl⟩, rfl⟩, ?_⟩
  · norm_num [BinOp.Val]
  · norm_num [BinOp.Val]
  · rintro ⟨p, hp, hx⟩
    have h : ((⟨some fun _ => Itv.top, 1, 0⟩ : Box ℚ).meetTconsLin dblUp mpqRoots gridOps
        (ILincons.reduceIntegerFlt dblUp) [⟨.eq, .bin .mul .real .rnd (.bin .add .real .rnd (.dim 0)
          (.cst (.scalar (fin (2 ^ 53 - 1))))) (.cst (.scalar (fin 3)))⟩] 0).p.map (· 0) =
        some (Itv.point (-2 ^ 53)) := by decide +kernel
    rw [hp] at h
    have h0 := hx 0 (by decide +kernel)
    have h' : p 0 = Itv.point (-2 ^ 53) := by simpa using h
    rw [h', Itv.mem_point] at h0
    norm_num at h0

/-! ## C59: interval linear trees -/

/-- A tree recognised as interval linear by `ap_texpr0_is_interval_linear` is always converted. -/
theorem C59_interval_linear_converted (R : Rnd K) (o : RootOps K) (F : FltOps K) (e : Texpr K)
    (h : e.isIntervalLinear = true) (e0 : Bool) : (intlinear R o F e0 e).isSome = true := by
  obtain ⟨l, hl⟩ := intlinear_some R o F h e0
  rw [hl]; rfl

/-- The conversion is sound (see `C13` for the restriction on powers, which here are only those of
constants). -/
theorem C59_intlinear_sound (R : Rnd K) (o : RootOps K) (ho : o.SqrtOK) (F : FltOps K) (S : FltSem K)
    (hF : FltOK F S) (n : ℕ) (e : Texpr K) (hd : e.InDim n) (hs : e.PowSafe R o F (fun _ => Itv.top)) (e0 : Bool)
    (l : ILinexpr K) (hl : intlinear R o F e0 e = some l) (x : ℕ → K) (v : K) (hv : e.Val S x v) : l.Val x v :=
  (intlinear_inv R ho hF hd hs hl hv).1

/-- One constraint: either the failure is reported, or every solution is kept. -/
theorem C59_intlinear_tcons_reports (R : Rnd K) (o : RootOps K) (ho : o.SqrtOK) (F : FltOps K) (S : FltSem K)
    (hF : FltOK F S) (n : ℕ) (c : Tcons K) (hd : c.expr.InDim n) (hs : c.expr.PowSafe R o F (fun _ => Itv.top))
    (x : ℕ → K) (hc : c.Holds S x) :
    (intlinearCons R o F c).2 = true ∨ (intlinearCons R o F c).1.Holds x := by
  unfold intlinearCons
  cases hl : intlinear R o F true c.expr with
  | none => exact .inl rfl
  | some l =>
    obtain ⟨v, hv, hr⟩ := hc
    exact .inr ⟨v, C59_intlinear_sound R o ho F S hF n c.expr hd hs true l hl x v hv, hr⟩

/-- Arrays.  Full statement (false for the code, see `C59_array_failure_not_reported`): either the flag
is set or every solution is kept, without the hypothesis that all constraints are interval linear. -/
theorem C59_intlinear_array_sound_partial (R : Rnd K) (o : RootOps K) (ho : o.SqrtOK) (F : FltOps K) (S : FltSem K)
    (hF : FltOK F S) (n : ℕ) (l : List (Tcons K)) (hd : ∀ c ∈ l, c.expr.InDim n)
    (hs : ∀ c ∈ l, c.expr.PowSafe R o F (fun _ => Itv.top)) (hlin : ∀ c ∈ l, c.expr.isIntervalLinear = true)
    (x : ℕ → K) (hc : ∀ c ∈ l, c.Holds S x) :
    (intlinearArray R o F l).1.length = l.length ∧ ∀ c ∈ (intlinearArray R o F l).1, c.Holds x := by
  have key : ∃ r, intlinearArrayGo R o F l = some r ∧ r.length = l.length ∧ ∀ c ∈ r, c.Holds x := by
    induction l with
    | nil => exact ⟨[], rfl, rfl, by simp⟩
    | cons c l ih =>
      obtain ⟨r, h1, h2, h3⟩ := ih (fun c hc => hd c (by simp [hc])) (fun c hc => hs c (by simp [hc]))
        (fun c hc => hlin c (by simp [hc])) (fun d hd => hc d (by simp [hd]))
      obtain ⟨e, he⟩ := intlinear_some R o F (hlin c (by simp)) true
      refine ⟨⟨c.typ, e⟩ :: r, by simp only [intlinearArrayGo, he, h1, Option.map_some], by simp [h2], ?_⟩
      intro k hk
      rcases List.mem_cons.1 hk with rfl | hk
      · obtain ⟨v, hv, hr⟩ := hc c (by simp)
        exact ⟨v, C59_intlinear_sound R o ho F S hF n c.expr (hd c (by simp)) (hs c (by simp)) true e he x v hv, hr⟩
      · exact h3 k hk
  obtain ⟨r, h1, h2, h3⟩ := key
  simp only [intlinearArray, h1, Option.getD_some]
  exact ⟨h2, h3⟩

/-- The code violates the property, for every array with a constraint that is not converted and at
every point: the flag is not set and the array is unsatisfiable.  (The variable returned,
itv/itv_linearize.c:1034, is shadowed by the one assigned in the loop, line 1038.) -/
theorem C59_array_failure_not_reported (R : Rnd K) (o : RootOps K) (F : FltOps K) (l : List (Tcons K))
    (h : ∃ c ∈ l, intlinear R o F true c.expr = none) (x : ℕ → K) :
    (intlinearArray R o F l).2 = false ∧ ¬ ∀ c ∈ (intlinearArray R o F l).1, c.Holds x := by
  have key : intlinearArrayGo R o F l = none := by
    induction l with
    | nil => simp at h
    | cons c l ih =>
      simp only [intlinearArrayGo]
      cases hc : intlinear R o F true c.expr with
      | none => rfl
      | some e =>
        obtain ⟨d, hd, hn⟩ := h
        rcases List.mem_cons.1 hd with rfl | hd
        · rw [hc] at hn; cases hn
        · simp only [ih ⟨d, hd, hn⟩, Option.map_none]
  refine ⟨rfl, fun h => ?_⟩
  simp only [intlinearArray, key, Option.getD_none, List.mem_singleton, forall_eq] at h
  exact ILincons.not_holds_setBool x h

/-- `x0 * x0 - 4 = 0` holds at 2, and is replaced by a constraint that holds nowhere -/
example : intlinear Rnd.exact mpqRoots gridOps true (.bin .sub .real .rnd (.bin .mul .real .rnd (.dim 0) (.dim 0))
      (.cst (.scalar (fin (4 : ℚ))))) = none ∧
    (⟨.eq, .bin .sub .real .rnd (.bin .mul .real .rnd (.dim 0) (.dim 0)) (.cst (.scalar (fin 4)))⟩ : Tcons ℚ).Holds
      (gridSem false) fun _ => 2 := by
  refine ⟨by decide +kernel, 0, ⟨4, 4, 0, ⟨2, 2, 4, rfl, rfl, ?_, rfl⟩, rfl, ?_, rfl⟩, rfl⟩ <;> norm_num [BinOp.Val]
/-- `x0 * 2 - (x1 + 3) / 4` is converted -/
example : intlinear Rnd.exact mpqRoots gridOps true (.bin .sub .real .rnd
      (.bin .mul .real .rnd (.dim 0) (.cst (.scalar (fin (2 : ℚ)))))
      (.bin .div .real .rnd (.bin .add .real .rnd (.dim 1) (.cst (.scalar (fin 3)))) (.cst (.scalar (fin 4))))) =
    some ⟨Itv.point (-3/4), true, [⟨0, true, Itv.point 2⟩, ⟨1, true, Itv.point (-1/4)⟩]⟩ := by decide +kernel

end Apron
