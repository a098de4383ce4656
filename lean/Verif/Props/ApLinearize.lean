import Verif.Texpr.ApLinearizeLemmas
import Verif.Props.Linearize
import Verif.Props.OctTransfer
import Verif.Props.OctLattice
import Verif.Props.OctClosure

/-! # Properties C64 and C80 to C83: constraints and expression trees at level 0 through linearisation -/

set_option autoImplicit false
set_option linter.unusedSectionVars false
set_option linter.ambiguousOpen false

namespace Apron
open Bound Texpr
variable {K : Type*} [LinearOrder K] [Field K] [IsStrictOrderedRing K] [FloorRing K]

/-! ## C64: conversion of interval expressions to user expressions -/

/-- The coefficient built from an interval has the same values. -/
theorem C64_coeff_of_itv (i : Itv K) (q : K) : (Coeff.ofItv i).Has q ↔ q ∈ i := Coeff.has_ofItv

/-- The converted expression has exactly the values of the interval expression. -/
theorem C64_linexpr_of_itv (e : ILinexpr K) (n : ℕ) (hn : n ≤ dimMax) (h : ∀ t ∈ e.terms, t.dim < n) (x : ℕ → K) (v : K) :
    (Linexpr.ofItv e).Val x v ↔ e.Val x v :=
  Linexpr.val_ofItv fun t ht => by have := h t ht; omega

/-- The converted constraint has exactly the same solutions. -/
theorem C64_lincons_of_itv (c : ILincons K) (n : ℕ) (hn : n ≤ dimMax) (h : ∀ t ∈ c.expr.terms, t.dim < n) (x : ℕ → K) :
    (Lincons.ofItv c).Holds x ↔ c.Holds x :=
  Lincons.holds_ofItv fun t ht => by have := h t ht; omega

example : Coeff.ofItv (⟨fin (-1), fin 2⟩ : Itv ℚ) = .interval (fin 1) (fin 2) ∧
    Coeff.ofItv (Itv.point (3 : ℚ)) = .scalar (fin 3) := by decide +kernel

/-! ## C80: constant constraints -/

/-- A constraint reported satisfiable is satisfied at every point, by every value of its coefficients.
Full statement (false for the code, see `C80_is_sat_diseq_wrong`): also for a disequality with an interval
constant. -/
theorem C80_is_sat_partial (c : Lincons K) (ht : c.typ = .diseq → c.expr.cst.isScalar = true) (h : c.isSat = true)
    (x : ℕ → K) : c.HoldsAll x := Lincons.isSat_sound ht h x

/-- A constraint reported unsatisfiable has no solution.  Full statement (false for the code, see
`C80_is_unsat_eqmod_wrong` and `C80_is_unsat_diseq_wrong`): for all types of constraints. -/
theorem C80_is_unsat_partial (c : Lincons K) (h1 : ∀ m, c.typ ≠ .eqmod m)
    (h2 : c.typ = .diseq → c.expr.cst.isScalar = true) (h : c.isUnsat = true) (x : ℕ → K) : ¬ c.Holds x :=
  Lincons.isUnsat_sound h1 h2 h x

/-- The constraint built by `ap_lincons0_make_unsat` has no solution and is recognised. -/
theorem C80_make_unsat (x : ℕ → K) : (Lincons.makeUnsat : Lincons K).isUnsat = true ∧
    ¬ (Lincons.makeUnsat : Lincons K).Holds x := by
  have h : (Lincons.makeUnsat : Lincons K).isUnsat = true := by
    simp [Lincons.makeUnsat, Lincons.isUnsat, Lincons.noCoeffs, Linexpr.terms, sgn]
  exact ⟨h, Lincons.isUnsat_sound (by simp [Lincons.makeUnsat]) (by simp [Lincons.makeUnsat]) h x⟩

/-- `[1,2] + 0 x3 > 0` and `[-2,-1] >= 0` -/
example : (⟨.sup, ⟨.interval (fin 1) (fin 2), .sparse [(3, .scalar (fin 0))]⟩⟩ : Lincons ℚ).isSat = true ∧
    (⟨.supeq, ⟨.interval (fin (-2)) (fin (-1)), .sparse []⟩⟩ : Lincons ℚ).isUnsat = true := by decide +kernel

/-- The code violates the full property: `3 = 0 mod 3` is reported unsatisfiable. -/
theorem C80_is_unsat_eqmod_wrong : ∃ c : Lincons ℚ, c.isUnsat = true ∧ ∀ x, c.HoldsAll x :=
  ⟨⟨.eqmod 3, ⟨.scalar (fin 3), .sparse []⟩⟩, by decide +kernel, fun x v hv => by
    have h := Lincons.val_noCoeffs (by decide +kernel) hv
    simp only [Coeff.Has, fin.injEq] at h
    exact ⟨1, by rw [← h]; norm_num⟩⟩

/-- The code violates the full property: `[-1,1] != 0` is reported unsatisfiable and satisfiable; some
values of the constant satisfy it and one does not. -/
theorem C80_is_unsat_diseq_wrong : ∃ c : Lincons ℚ, c.isUnsat = true ∧ ∀ x, c.Holds x :=
  ⟨⟨.diseq, ⟨.interval (fin (-1)) (fin 1), .sparse []⟩⟩, by decide +kernel, fun x =>
    ⟨1, ⟨1, 0, by constructor <;> decide +kernel, rfl, by ring⟩, one_ne_zero⟩⟩

theorem C80_is_sat_diseq_wrong : ∃ c : Lincons ℚ, c.isSat = true ∧ ∀ x, ¬ c.HoldsAll x :=
  ⟨⟨.diseq, ⟨.interval (fin (-1)) (fin 1), .sparse []⟩⟩, by decide +kernel, fun x h =>
    h 0 ⟨0, 0, by constructor <;> decide +kernel, rfl, by ring⟩ rfl⟩

/-! ## Linearisation of one tree -/

section one
variable (R : Rnd K) (o : RootOps K) (ho : o.SqrtOK) (F : FltOps K) (S : FltSem K) (hF : FltOK F S)
include ho hF

/-- both conversions of a tree contain its values -/
theorem apIntlinearize_inv {n intdim : ℕ} {env : ℕ → Itv K} {e : Texpr K} (hd : e.InDim n)
    (hs : e.LinSafe R o F env intdim) (hp : e.PowSafe R o F (fun _ => Itv.top)) {x : ℕ → K}
    (hx : ∀ i, i < n → x i ∈ env i) (hint : ∀ i, i < intdim → ∃ m : ℤ, x i = m) {v : K} (hv : e.Val S x v) {l : ILinexpr K}
    (hl : l = if e.isIntervalLinear then (intlinear R o F true e).getD ⟨Itv.point 0, true, []⟩
      else (intlinearize R o F env intdim true e).1) :
    l.Val x v ∧ (∀ t ∈ l.terms, t.dim < n) ∧ ILinexpr.Ordered l.terms := by
  subst hl
  split_ifs with h
  · obtain ⟨l, hl⟩ := intlinear_some R o F h true
    rw [hl, Option.getD_some]
    have := intlinear_inv R ho hF hd hp hl hv
    exact ⟨this.1, this.2.2, ordered_intlinear R o F hl⟩
  · refine ⟨(C56_intlinearize_sound_partial R o ho F S hF n intdim env e hd hs x hx hint v hv true).1, ?_,
      C56_intlinearize_sorted R o F env intdim true e⟩
    have hi := (intlin_inv R ho hF hx hint hd hs true hv).dims
    simp only [intlinearize]
    split_ifs <;> exact hi

theorem apIntlinearize_sound {n intdim : ℕ} (hn : n ≤ dimMax) {env : ℕ → Itv K} {e : Texpr K} (hd : e.InDim n)
    (hs : e.LinSafe R o F env intdim) (hp : e.PowSafe R o F (fun _ => Itv.top)) {x : ℕ → K}
    (hx : ∀ i, i < n → x i ∈ env i) (hint : ∀ i, i < intdim → ∃ m : ℤ, x i = m) {v : K} (hv : e.Val S x v) (q : Bool) :
    (apIntlinearize R o F env intdim e q).Val x v ∧
    (q = false → (apIntlinearize R o F env intdim e q).InDim n) := by
  obtain ⟨h1, h2, h3⟩ := apIntlinearize_inv R o ho F S hF hd hs hp hx hint hv rfl
  unfold apIntlinearize
  simp only
  generalize (if e.isIntervalLinear = true then (intlinear R o F true e).getD ⟨Itv.point 0, true, []⟩
      else (intlinearize R o F env intdim true e).1) = l at h1 h2 h3
  have lt : ∀ {d}, d < n → d ≠ dimMax := fun h => by omega
  by_cases hq : (q && !l.isQuasilinear) = true
  · rw [if_pos hq]
    have hq' : q = true := by simp only [Bool.and_eq_true] at hq; exact hq.1
    refine ⟨?_, fun h => by rw [h] at hq'; cases hq'⟩
    rw [Linexpr.val_ofItv]
    · exact ILincons.quasi_sound R (fun t ht => hx _ (h2 t ht)) h1
    · intro t ht
      rcases ILincons.quasi_terms R ht with h' | ⟨⟨u, hu, e, _⟩, _⟩
      · exact lt (h2 t h'.1)
      · rw [← e]; exact lt (h2 u hu)
  · rw [if_neg hq]
    exact ⟨(Linexpr.val_ofItv fun t ht => lt (h2 t ht)).2 h1, fun _ => Linexpr.inDim_ofItv hn h3 h2⟩

theorem apIntlinearizeCons_sound {n intdim : ℕ} (hn : n ≤ dimMax) {env : ℕ → Itv K} {c : Tcons K} (hd : c.expr.InDim n)
    (hs : c.expr.LinSafe R o F env intdim) (hp : c.expr.PowSafe R o F (fun _ => Itv.top)) {x : ℕ → K}
    (hx : ∀ i, i < n → x i ∈ env i) (hint : ∀ i, i < intdim → ∃ m : ℤ, x i = m) {v : K} (hv : c.expr.Val S x v)
    (meet : Bool) :
    (apIntlinearizeCons R o F env intdim c false meet).expr.InDim n ∧
    ((apIntlinearizeCons R o F env intdim c false meet).typ = c.typ ∧
      (apIntlinearizeCons R o F env intdim c false meet).expr.Val x v ∨
     apIntlinearizeCons R o F env intdim c false meet = Lincons.ofItv (ILincons.setBool false)) := by
  have lt : ∀ {d}, d < n → d ≠ dimMax := fun h => by omega
  have hbot : (Lincons.ofItv (ILincons.setBool false) : Lincons K).expr.InDim n :=
    Linexpr.inDim_ofItv hn (by simp [ILincons.setBool, ILinexpr.Ordered]) (by simp [ILincons.setBool])
  unfold apIntlinearizeCons
  simp only [Bool.false_and, Bool.false_eq_true, if_false]
  by_cases h : c.expr.isIntervalLinear = true
  · rw [if_pos h]
    obtain ⟨l, hl⟩ := intlinear_some R o F h true
    have hi := intlinear_inv R ho hF hd hp hl hv
    simp only [intlinearCons, hl]
    exact ⟨Linexpr.inDim_ofItv hn (ordered_intlinear R o F hl) hi.2.2, .inl ⟨rfl, (Linexpr.val_ofItv fun t ht => lt (hi.2.2 t ht)).2 hi.1⟩⟩
  · rw [if_neg h]
    have hi := intlin_inv R ho hF hx hint hd hs true hv
    have hord : ILinexpr.Ordered (intlin R o F env intdim true c.expr).1.terms := ordered_intlin R o F env intdim c.expr true
    simp only [intlinearizeCons]
    split_ifs with h1 h2
    · refine ⟨Linexpr.inDim_ofItv hn hord hi.dims, .inl ⟨rfl, ?_⟩⟩
      refine (Linexpr.val_ofItv ?_).2 ?_
      · exact fun t ht => lt (hi.dims t ht)
      exact (val_mk_nil h2).2 (Itv.mem_meet.2 ⟨(ILincons.val_nil h2).1 hi.both.val, hi.both.mem⟩)
    · refine ⟨Linexpr.inDim_ofItv hn hord hi.dims, .inl ⟨rfl, ?_⟩⟩
      exact (Linexpr.val_ofItv fun t ht => lt (hi.dims t ht)).2 hi.both.val
    · exact ⟨hbot, .inr rfl⟩

end one

/-! ## C81: ap_generic_sat_tcons -/

section generic
variable {A : Type*} (Gam : A → (ℕ → K) → Prop) (isBottom : A → Bool) (toBox : A → ℕ → Itv K) (intdim dim : A → ℕ)

/-- An abstract domain whose tests and bounds on linear constraints are right, with the generic test of
constraints on trees: a positive answer means that the constraint holds for every value of the tree at
every point (integer on the integer dimensions).  Full statement (false for the code, see
`C81_sat_tcons_diseq_unsound`): also for disequalities, and without `LinSafe`, `PowSafe`. -/
theorem C81_sat_tcons_generic_partial (R : Rnd K) (o : RootOps K) (ho : o.SqrtOK) (F : FltOps K) (S : FltSem K)
    (hF : FltOK F S) (sat : A → Lincons K → Bool) (a : A) (hn : dim a ≤ dimMax)
    (hbot : isBottom a = true → ∀ x, ¬ Gam a x)
    (hbox : ∀ x, Gam a x → ∀ i, i < dim a → x i ∈ toBox a i)
    (hsat : ∀ c, c.expr.InDim (dim a) → sat a c = true → ∀ x, Gam a x → c.HoldsAll x)
    (c : Tcons K) (hty : c.typ ≠ .diseq) (hd : c.expr.InDim (dim a)) (hs : c.expr.LinSafe R o F (toBox a) (intdim a))
    (hp : c.expr.PowSafe R o F (fun _ => Itv.top))
    (h : Generic.satTcons R o F isBottom toBox intdim sat a c false = true) (x : ℕ → K) (hx : Gam a x)
    (hint : ∀ i, i < intdim a → ∃ m : ℤ, x i = m) (v : K) (hv : c.expr.Val S x v) : Lincons.Rel c.typ v := by
  unfold Generic.satTcons at h
  split_ifs at h with hb
  · exact absurd hx (hbot hb x)
  · obtain ⟨hi, hr⟩ := apIntlinearizeCons_sound R o ho F S hF hn hd hs hp (hbox x hx) hint hv false
    generalize apIntlinearizeCons R o F (toBox a) (intdim a) c false false = l at h hi hr
    have hall : l.HoldsAll x := by
      simp only [Bool.or_eq_true] at h
      rcases h with h | h
      · refine Lincons.isSat_sound (fun ht => ?_) h x
        rcases hr with ⟨h1, _⟩ | h1
        · exact absurd (h1 ▸ ht) hty
        · rw [h1] at ht; cases ht
      · exact hsat l hi h x hx
    rcases hr with ⟨h1, h2⟩ | h1
    · rw [← h1]; exact hall v h2
    · rw [h1] at hall
      have := hall 1 ((Linexpr.val_ofItv (by simp [ILincons.setBool])).2
        ((val_mk_nil rfl).2 ((Itv.mem_point _ _).2 (by simp))))
      have h0 : (1 : K) = 0 := this
      exact absurd h0 one_ne_zero

/-- the generic evaluation of a tree contains all its values.  Full statement: without `LinSafe`, `PowSafe`
(see `C56`). -/
theorem C82_bound_texpr_generic_partial (R : Rnd K) (o : RootOps K) (ho : o.SqrtOK) (F : FltOps K) (S : FltSem K)
    (hF : FltOK F S) (bound : A → Linexpr K → Itv K) (a : A) (hn : dim a ≤ dimMax)
    (hbot : isBottom a = true → ∀ x, ¬ Gam a x)
    (hbox : ∀ x, Gam a x → ∀ i, i < dim a → x i ∈ toBox a i)
    (hbound : ∀ e, e.InDim (dim a) → ∀ x v, Gam a x → e.Val x v → v ∈ bound a e)
    (e : Texpr K) (hd : e.InDim (dim a)) (hs : e.LinSafe R o F (toBox a) (intdim a))
    (hp : e.PowSafe R o F (fun _ => Itv.top)) (x : ℕ → K) (hx : Gam a x)
    (hint : ∀ i, i < intdim a → ∃ m : ℤ, x i = m) (v : K) (hv : e.Val S x v) :
    v ∈ Generic.boundTexpr R o F isBottom toBox intdim bound a e false := by
  unfold Generic.boundTexpr
  split_ifs with hb
  · exact absurd hx (hbot hb x)
  · obtain ⟨h1, h2⟩ := apIntlinearize_sound R o ho F S hF hn hd hs hp (hbox x hx) hint hv false
    exact hbound _ (h2 rfl) x v hx h1

end generic

/-! ## Arrays of constraints -/

section arr
variable (o : RootOps K) (ho : o.SqrtOK) (F : FltOps K) (S : FltSem K) (hF : FltOK F S)
include ho hF

/-- With exact numbers, the points of the box (integer on the integer dimensions) satisfying the constraints
satisfy every constraint of the linearised array, for every kind of linearisation, with or without the
deduction of bounds and for any number of passes; with interval coefficients the terms are sorted.  Full statement: without `LinSafe`
(see `C56`). -/
theorem C83_intlinearize_array_sound_partial (n intdim : ℕ) (hn : n ≤ dimMax) (env : ℕ → Itv K) (l : List (Tcons K))
    (hd : ∀ c ∈ l, c.expr.InDim n) (hs : ∀ c ∈ l, c.expr.LinSafe Rnd.exact o F env intdim)
    (typ : LinType) (boxize : Bool) (kmax : ℕ) (itvonly : Bool) (x : ℕ → K)
    (hx : ∀ i, i < n → x i ∈ env i) (hint : ∀ i, i < intdim → ∃ m : ℤ, x i = m) (hc : ∀ c ∈ l, c.Holds S x) :
    ∀ c ∈ apIntlinearizeArray Rnd.exact o F n intdim env l typ true boxize kmax itvonly,
      c.Holds x ∧ (typ = .intlinear → c.expr.InDim n) := by
  have lt : ∀ {d}, d < n → d ≠ dimMax := fun h => by omega
  have hgo := intlinArray_go Rnd.exact ho hF hx hint hd hs hc (bound := Itv.point 0) ⟨0, (Itv.mem_point _ _).2 rfl⟩
  have ht : intlinearizeArray Rnd.exact o F env intdim l =
      l.map fun c => ⟨c.typ, (intlin Rnd.exact o F env intdim true c.expr).1⟩ := by
    simp only [intlinearizeArray, hgo, Option.getD_some]
  have key : ∀ c ∈ intlinearizeArray Rnd.exact o F env intdim l, c.expr.FlagsOk ∧ CstQ c.expr ∧
      (∀ t ∈ c.expr.terms, t.dim < n) ∧ c.Holds x ∧ ILinexpr.Ordered c.expr.terms ∧
      (c.expr.terms.isEmpty = true → c.expr.CstOk) := by
    rw [ht]
    intro k hk
    obtain ⟨c, hcm, rfl⟩ := List.mem_map.1 hk
    obtain ⟨v, hv, hr⟩ := hc c hcm
    have hi := intlin_inv Rnd.exact ho hF hx hint (hd c hcm) (hs c hcm) true hv
    have hq := intlin_flags ho hF hx hint (hd c hcm) (hs c hcm) true hv
    exact ⟨hi.flags, hq.2, hi.dims, ⟨v, hi.both.val, hr⟩, ordered_intlin _ o F env intdim c.expr true,
      fun h => intlin_nil _ _ _ _ _ _ _ (by simpa using h)⟩
  generalize hT : intlinearizeArray Rnd.exact o F env intdim l = T at key ht
  -- the linearisation step
  have step : ∀ env' : ℕ → Itv K, (∀ i, i < n → x i ∈ env' i) → ∀ c ∈ linStep Rnd.exact typ T env' true,
      c.Holds x ∧ (∀ t ∈ c.expr.terms, t.dim < n) ∧ (typ = .intlinear → ILinexpr.Ordered c.expr.terms) := by
    intro env' hx' c hcm
    have hq := ILincons.quasiArray_sound' (l := T) (env := env') (x := x)
      (fun c hc => ⟨(key c hc).1, (key c hc).2.1, fun t ht => hx' _ ((key c hc).2.2.1 t ht), (key c hc).2.2.2.1⟩)
    have hqd := ILincons.dims_quasiArray Rnd.exact (D := fun d => d < n) (fun c hc => (key c hc).2.2.1) env' true
    cases typ with
    | intlinear => exact ⟨(key c hcm).2.2.2.1, (key c hcm).2.2.1, fun _ => (key c hcm).2.2.2.2.1⟩
    | quasilinear => exact ⟨(hq c hcm).1, hqd c hcm, by simp⟩
    | linear =>
      exact ⟨ILincons.linearizeArray_sound' (fun c hc _ => (hq c hc).2) (fun c hc => (hq c hc).1) c hcm,
        ILincons.dims_linearizeArray hqd true c hcm, by simp⟩
  have body : ∀ c ∈ apIntlinearizeArray.body Rnd.exact n intdim env typ true boxize kmax itvonly T,
      c.Holds x ∧ (∀ t ∈ c.expr.terms, t.dim < n) ∧ (typ = .intlinear → ILinexpr.Ordered c.expr.terms) := by
    unfold apIntlinearizeArray.body
    split_ifs with hb
    · have hbox := boxizeArray_sound (R := Rnd.exact) (env := env) (intdim := intdim) (kmax := kmax) (itvonly := itvonly)
        (x := x) (D := fun d => d < n) hx (fun d _ hd => hint d hd) (l := T)
        (fun c hc => ⟨⟨(key c hc).1, (key c hc).2.2.2.2.2, .inr rfl⟩, (key c hc).2.2.2.1, (key c hc).2.2.1⟩)
      have htok := ILincons.tok_array Rnd.exact T env intdim kmax itvonly
      rw [← ILincons.boxizeArrayT_fst] at hbox
      generalize ILincons.boxizeArrayT Rnd.exact T env intdim kmax itvonly = s at hbox htok
      have hst := step s.1.res hbox.2
      have hrows := ILincons.boundRows_sound htok hbox.2
      unfold linFinish
      simp only [hbox.1, Bool.false_eq_true, if_false]
      intro c hcm
      split_ifs at hcm
      · exact hst c hcm
      · rcases List.mem_append.1 hcm with h | h
        · exact hst c h
        · exact ⟨(hrows c h).1, (hrows c h).2.2, fun _ => (hrows c h).2.1⟩
      · exact hst c hcm
    · unfold linFinish
      simp only
      intro c hcm
      split_ifs at hcm <;> exact step env hx c hcm
  intro c hcm
  have fin : ∀ k : ILincons K, (k.Holds x ∧ (∀ t ∈ k.expr.terms, t.dim < n) ∧
      (typ = .intlinear → ILinexpr.Ordered k.expr.terms)) →
      (Lincons.ofItv k).Holds x ∧ (typ = .intlinear → (Lincons.ofItv k).expr.InDim n) := fun k hk =>
    ⟨(Lincons.holds_ofItv fun t ht => lt (hk.2.1 t ht)).2 hk.1, fun h => Linexpr.inDim_ofItv hn (hk.2.2 h) hk.2.1⟩
  unfold apIntlinearizeArray at hcm
  simp only [hT] at hcm
  obtain ⟨k, hk, rfl⟩ := List.mem_map.1 hcm
  refine fin k ?_
  match T, hk, key, body with
  | [], hk, _, body => exact body k hk
  | [c], hk, key, body =>
    simp only at hk
    split_ifs at hk
    · exact ⟨(key k hk).2.2.2.1, (key k hk).2.2.1, fun _ => (key k hk).2.2.2.2.1⟩
    · exact body k hk
  | _ :: _ :: _, hk, _, body => exact body k hk

/-- The generic meet of an abstract value with constraints on trees keeps every point satisfying them, when
the meet with linear constraints does (exact numbers, interval coefficients). -/
theorem C83_meet_tcons_generic_partial {A : Type*} (Gam : A → (ℕ → K) → Prop) (isBottom : A → Bool) (toBox : A → ℕ → Itv K)
    (intdim dim : A → ℕ) (meet : A → List (Lincons K) → A) (a : A) (hn : dim a ≤ dimMax)
    (hbox : ∀ x, Gam a x → ∀ i, i < dim a → x i ∈ toBox a i) (x : ℕ → K) (hx : Gam a x)
    (hint : ∀ i, i < intdim a → ∃ m : ℤ, x i = m)
    (hmeet : ∀ l : List (Lincons K), (∀ c ∈ l, c.expr.InDim (dim a)) → (∀ c ∈ l, c.Holds x) → Gam (meet a l) x)
    (l : List (Tcons K)) (hd : ∀ c ∈ l, c.expr.InDim (dim a))
    (hs : ∀ c ∈ l, c.expr.LinSafe Rnd.exact o F (toBox a) (intdim a)) (hc : ∀ c ∈ l, c.Holds S x) :
    Gam (Generic.meetTcons Rnd.exact o F isBottom toBox intdim dim .intlinear meet a l) x := by
  unfold Generic.meetTcons
  split_ifs
  · exact hx
  · have h := C83_intlinearize_array_sound_partial o ho F S hF (dim a) (intdim a) hn (toBox a) l hd hs .intlinear true 2 false
      x (hbox x hx) hint hc
    exact hmeet _ (fun c hc => (h c hc).2 rfl) (fun c hc => (h c hc).1)

end arr

/-! ## Octagons -/

section oct
variable (o : RootOps K) (F : FltOps K)

/-- `oct_sat_tcons`: octagons/oct_predicate.c:325-331 -/
def octSatTcons (R : Rnd K) (algo : ℤ) (a : OctT K) (c : Tcons K) : Bool :=
  Generic.satTcons R o F (OctT.isBottom R algo) (OctT.toBox R algo) (·.intdim) (OctT.satLincons R algo) a c false

/-- `oct_bound_texpr`: octagons/oct_predicate.c:413-419 -/
def octBoundTexpr (R : Rnd K) (algo : ℤ) (a : OctT K) (e : Texpr K) : Itv K :=
  Generic.boundTexpr R o F (OctT.isBottom R algo) (OctT.toBox R algo) (·.intdim) (OctT.boundLinexpr R algo) a e false

/-- `oct_meet_tcons_array`: octagons/oct_transfer.c:518-526 -/
def octMeetTcons (R : Rnd K) (algo : ℤ) (a : OctT K) (l : List (Tcons K)) : OctT K :=
  Generic.meetTcons R o F (OctT.isBottom R algo) (OctT.toBox R algo) (·.intdim) (·.dim) .intlinear
    (OctT.meetLinconsArray R algo) a l

theorem oct_toBox_sound (R : Rnd K) (algo : ℤ) (a : OctT K) (x : ℕ → K) (hx : a.Gam x) (i : ℕ) (hi : i < a.dim) :
    x i ∈ OctT.toBox R algo a i := by
  rw [C35_to_box]; exact C35_bound_dimension_sound R algo a i hi x hx

variable (ho : o.SqrtOK) (S : FltSem K) (hF : FltOK F S)
include ho hF

/-- Octagons, every rounding and setting: a tree constraint reported satisfied is satisfied.  Full statement: see
`C81_sat_tcons_generic_partial`. -/
theorem C81_oct_sat_tcons_partial (R : Rnd K) (algo : ℤ) (a : OctT K) (hn : a.dim ≤ dimMax) (c : Tcons K) (hty : c.typ ≠ .diseq)
    (hd : c.expr.InDim a.dim) (hs : c.expr.LinSafe R o F (OctT.toBox R algo a) a.intdim)
    (hp : c.expr.PowSafe R o F (fun _ => Itv.top)) (h : octSatTcons o F R algo a c = true) (x : ℕ → K) (hx : a.Gam x)
    (hint : ∀ i, i < a.intdim → ∃ m : ℤ, x i = m) (v : K) (hv : c.expr.Val S x v) : Lincons.Rel c.typ v :=
  C81_sat_tcons_generic_partial (fun a => a.Gam) _ _ _ (·.dim) R o ho F S hF (OctT.satLincons R algo) a hn
    (C27_is_bottom_sound R algo a) (oct_toBox_sound R algo a)
    (fun c he h x hx => C43_sat_sound R algo a c he h x hx) c hty hd hs hp h x hx hint v hv

/-- Octagons, every rounding and setting: the bounds of a tree contain all its values.  Full statement: without
`LinSafe`, `PowSafe` (see `C56`). -/
theorem C82_oct_bound_texpr_partial (R : Rnd K) (algo : ℤ) (a : OctT K) (hn : a.dim ≤ dimMax) (e : Texpr K) (hd : e.InDim a.dim)
    (hs : e.LinSafe R o F (OctT.toBox R algo a) a.intdim) (hp : e.PowSafe R o F (fun _ => Itv.top)) (x : ℕ → K) (hx : a.Gam x)
    (hint : ∀ i, i < a.intdim → ∃ m : ℤ, x i = m) (v : K) (hv : e.Val S x v) : v ∈ octBoundTexpr o F R algo a e :=
  C82_bound_texpr_generic_partial (fun a => a.Gam) _ _ _ (·.dim) R o ho F S hF (OctT.boundLinexpr R algo) a hn
    (C27_is_bottom_sound R algo a) (oct_toBox_sound R algo a)
    (fun e he x v hx hv => C43_bound_sound R algo a e he x v hx hv) e hd hs hp x hx hint v hv

omit ho hF in
/-- Octagons with exact numbers: the bounds of a tree in an empty octagon are the empty interval. -/
theorem C82_oct_bound_texpr_empty (algo : ℤ) (halgo : 0 ≤ algo) (a : OctT K) (hw : OctT.Wf a) (he : ∀ x, ¬ a.Gam x) (e : Texpr K) (v : K) :
    v ∉ octBoundTexpr o F Rnd.exact algo a e := by
  unfold octBoundTexpr Generic.boundTexpr
  rw [if_pos ((C27_is_bottom_exact algo halgo a hw).2 he)]
  exact Itv.not_mem_bottom v

/-- Octagons with exact numbers: the meet with tree constraints keeps every point satisfying them.  Full
statement: without `LinSafe`, and with rounded numbers. -/
theorem C83_oct_meet_tcons_partial (algo : ℤ) (a : OctT K) (hn : a.dim ≤ dimMax) (l : List (Tcons K)) (hd : ∀ c ∈ l, c.expr.InDim a.dim)
    (hs : ∀ c ∈ l, c.expr.LinSafe Rnd.exact o F (OctT.toBox Rnd.exact algo a) a.intdim) (x : ℕ → K) (hx : a.Gam x)
    (hint : ∀ i, i < a.intdim → ∃ m : ℤ, x i = m) (hc : ∀ c ∈ l, c.Holds S x) :
    (octMeetTcons o F Rnd.exact algo a l).Gam x :=
  C83_meet_tcons_generic_partial o ho F S hF (fun a => a.Gam) _ _ _ (·.dim) (OctT.meetLinconsArray Rnd.exact algo) a hn
    (oct_toBox_sound Rnd.exact algo a) x hx hint
    (fun l hl hl' => C40_meet_lincons_sound Rnd.exact algo a l x hl (fun c _ _ => Oct.repr_exact c.expr) hint hx hl') l hd hs hc

omit ho hF in
/-- ... and the result is included in the argument, for every rounding. -/
theorem C83_oct_meet_tcons_le (R : Rnd K) (algo : ℤ) (a : OctT K) (l : List (Tcons K)) (x : ℕ → K)
    (h : (octMeetTcons o F R algo a l).Gam x) : a.Gam x := by
  unfold octMeetTcons Generic.meetTcons at h
  split_ifs at h
  · exact h
  · exact C40_meet_lincons_le R algo a _ x h

end oct

/-- octagon of the square `[1,2] x [1,2]` -/
def exSq : OctT ℚ := OctT.ofBox Rnd.exact 2 0 (some fun _ => ⟨fin (-1), fin 2⟩)
/-- `x0 * x1` -/
def exProd : Texpr ℚ := .bin .mul .real .rnd (.dim 0) (.dim 1)

example : exProd.InDim 2 ∧ exProd.LinSafe Rnd.exact mpqRoots gridOps (OctT.toBox Rnd.exact 0 exSq) 0 ∧
    exProd.PowSafe Rnd.exact mpqRoots gridOps (fun _ => Itv.top) ∧
    exProd.Val (gridSem false) (fun i => if i = 0 then 1 else 2) 2 :=
  ⟨by simp [exProd, Texpr.InDim], by simp [exProd, LinSafe], by simp [exProd, PowSafe],
    ⟨1, 2, 2, rfl, rfl, by norm_num [BinOp.Val], rfl⟩⟩
example : octBoundTexpr mpqRoots gridOps Rnd.exact 0 exSq exProd = ⟨fin (-1), fin 4⟩ := by decide +kernel
example : octSatTcons mpqRoots gridOps Rnd.exact 0 exSq
    ⟨.supeq, .bin .sub .real .rnd (.bin .add .real .rnd (.dim 0) (.dim 1)) (.cst (.scalar (fin 2)))⟩ = true := by decide +kernel
/-- `x0 * x1 >= 8` is recognised as empty on the square -/
example : (octMeetTcons mpqRoots gridOps Rnd.exact 0 exSq
    [⟨.supeq, .bin .sub .real .rnd exProd (.cst (.scalar (fin 8)))⟩]).m.isNone = true := by decide +kernel

/-- The code violates the full property of `C81`: `[-1,1] != 0` is reported satisfied by the octagon of all
points, although the expression may be 0. -/
theorem C81_sat_tcons_diseq_unsound : ∃ (a : OctT ℚ) (c : Tcons ℚ) (x : ℕ → ℚ) (v : ℚ), a.Gam x ∧ c.expr.InDim a.dim ∧
    octSatTcons mpqRoots gridOps Rnd.exact 0 a c = true ∧ c.expr.Val (gridSem false) x v ∧ ¬ Lincons.Rel c.typ v := by
  refine ⟨exSq, ⟨.diseq, .cst (.interval (fin (-1)) (fin 1))⟩, fun _ => 1, 0,
    C35_of_box_sound Rnd.exact 2 0 _ _ fun i _ => by constructor <;> decide +kernel, trivial, by decide +kernel,
    by constructor <;> decide +kernel, fun h => h rfl⟩

end Apron
