import Verif.Oct.Precise
import Verif.Props.OctResize

/-!
# Property theorems: octagon constraints, assignment, substitution, queries (C36, C40-C43)

`e.Val x v`: `v` is a value of the interval linear expression `e` at the point `x`;
`c.Holds x` / `c.HoldsAll x`: the constraint holds at `x` for some / all values of its expression;
`e.InDim n`: the documented invariant of expressions over `n` dimensions;
`e.OctShape` / `e.UnitShape`: at most two / one terms, with coefficients 1 or -1.
-/

set_option autoImplicit false
set_option linter.unusedSectionVars false
set_option linter.ambiguousOpen false

namespace Apron
open Bound Oct OctT Itv
variable {K : Type*} [LinearOrder K] [Field K] [IsStrictOrderedRing K] [FloorRing K] (R : Rnd K)

/-! ## C36: conversion to constraints -/

/-- every point satisfies the constraints returned (conversions to scalars do not overflow) -/
theorem C36_to_lincons_sound (hR : ∀ q, R.up q ≠ pinf) (a : OctT K) (hdim : a.dim ≤ dimMax) (x : ℕ → K)
    (hx : a.Gam x) : ∀ c ∈ OctT.toLinconsArray R a, c.Holds x := toLincons_sound R hR hdim hx

/-- with exact numbers the constraints are satisfied exactly by the points -/
theorem C36_to_lincons_exact (a : OctT K) (ha : Wf a) (hdim : a.dim ≤ dimMax) (x : ℕ → K) :
    (∀ c ∈ OctT.toLinconsArray Rnd.exact a, c.Holds x) ↔ a.Gam x :=
  ⟨toLincons_exact ha hdim, fun h => toLincons_sound _ (fun q => by simp [Rnd.exact]) hdim h⟩

example : (OctT.toLinconsArray Rnd.exact (⟨some exOct, none, 2, 0⟩ : OctT ℚ)).length = 3 := by decide +kernel

/-! ## C40: meet with linear constraints -/

/-- no common point is lost: for every rounding, every interval linear constraint, all integer
dimensions having integer values.  `Repr`: the coefficients of strict constraints are converted
without error (otherwise `e > 0` may be turned into `e ≥ 1` wrongly). -/
theorem C40_meet_lincons_sound (algo : ℤ) (a : OctT K) (ar : List (Lincons K)) (x : ℕ → K)
    (he : ∀ c ∈ ar, c.expr.InDim a.dim) (hR : ∀ c ∈ ar, c.typ = .sup → Repr R c.expr)
    (hint : ∀ j, j < a.intdim → ∃ n : ℤ, x j = n) (hx : a.Gam x) (hc : ∀ c ∈ ar, c.Holds x) :
    (OctT.meetLinconsArray R algo a ar).Gam x := meetLincons_sound R he hR hint hx hc

/-- the result is included in the argument -/
theorem C40_meet_lincons_le (algo : ℤ) (a : OctT K) (ar : List (Lincons K)) (x : ℕ → K)
    (h : (OctT.meetLinconsArray R algo a ar).Gam x) : a.Gam x := meetLincons_le R h

/-- for non-strict constraints of octagonal shape the result is exactly the intersection -/
theorem C40_meet_lincons_exact (algo : ℤ) (a : OctT K) (ar : List (Lincons K)) (x : ℕ → K)
    (he : ∀ c ∈ ar, c.expr.InDim a.dim) (hs : ∀ c ∈ ar, c.expr.OctShape)
    (hty : ∀ c ∈ ar, c.typ = .eq ∨ c.typ = .supeq) (hne : ∀ c ∈ ar, ∃ q, c.expr.cst.Has q)
    (hint : ∀ j, j < a.intdim → ∃ n : ℤ, x j = n) :
    (OctT.meetLinconsArray Rnd.exact algo a ar).Gam x ↔ a.Gam x ∧ ∀ c ∈ ar, c.Holds x := by
  constructor
  · intro h
    refine ⟨meetLincons_le _ h, meetLincons_exact he (fun c hc => ?_)
      (meetLinconsExact_shape _ rfl rfl algo a fun c hc => ⟨hs c hc, hty c hc⟩) h⟩
    obtain ⟨q, hq⟩ := hne c hc
    have key : ∀ l : List (ℕ × Coeff K), (∀ t ∈ l, t.2 = .scalar (fin 1) ∨ t.2 = .scalar (fin (-1))) →
        ∃ r, Linexpr.TermsVal l x r := by
      intro l
      induction l with
      | nil => intro _; exact ⟨0, rfl⟩
      | cons t l ih =>
        intro hl
        obtain ⟨r, hr⟩ := ih fun t ht => hl t (by simp [ht])
        rcases hl t (by simp) with h | h
        · exact ⟨_, 1, r, by rw [h]; simp [Coeff.Has], hr, rfl⟩
        · exact ⟨_, -1, r, by rw [h]; simp [Coeff.Has], hr, rfl⟩
    obtain ⟨r, hr⟩ := key _ (hs c hc).2
    exact ⟨_, q, r, hq, hr, rfl⟩
  · rintro ⟨h1, h2⟩
    exact meetLincons_sound _ he (fun c _ _ => repr_exact _) hint h1 h2

/-- the representation invariant is kept -/
theorem C40_meet_lincons_wf (algo : ℤ) (a : OctT K) (ha : Wf a) (ar : List (Lincons K))
    (he : ∀ c ∈ ar, c.expr.InDim a.dim) (hp : ∀ c ∈ ar, c.expr.Proper) :
    Wf (OctT.meetLinconsArray Rnd.exact algo a ar) := wf_meetLincons ha he hp

theorem C40_meet_lincons_dims (algo : ℤ) (a : OctT K) (ar : List (Lincons K)) :
    (OctT.meetLinconsArray R algo a ar).dim = a.dim ∧ (OctT.meetLinconsArray R algo a ar).intdim = a.intdim :=
  meetLincons_dim R algo a ar

/-- `x0 + x1 ≥ 1` and `2*x0 + [-1,3] ≥ 0` -/
def exSum : Lincons ℚ := ⟨.supeq, ⟨.scalar (fin (-1)), .sparse [(0, .scalar (fin 1)), (1, .scalar (fin 1))]⟩⟩
def exTwo : Lincons ℚ := ⟨.supeq, ⟨.interval (fin (-1)) (fin 3), .sparse [(0, .scalar (fin 2))]⟩⟩
example : ((OctT.meetLinconsArray Rnd.exact 0 (⟨some exOct, none, 2, 0⟩ : OctT ℚ) [exSum]).m.map
    fun c => c (matpos2 2 1)) = some (fin (-1)) := by decide +kernel
theorem exSum_indim : exSum.expr.InDim 2 := by
  constructor
  · have : exSum.expr.terms.map Prod.fst = [0, 1] := by decide +kernel
    rw [this]; decide
  · have : exSum.expr.terms.map Prod.fst = [0, 1] := by decide +kernel
    rw [this]; decide
theorem exSum_shape : exSum.expr.OctShape := by
  have : exSum.expr.terms = [(0, .scalar (fin 1)), (1, .scalar (fin 1))] := by decide +kernel
  unfold Linexpr.OctShape; rw [this]; simp
example : (∃ q, exSum.expr.cst.Has q) ∧ exSum.expr.Proper ∧ exSum.expr.OctShape := by
  refine ⟨⟨-1, rfl⟩, ⟨rfl, fun p hp => ?_⟩, exSum_shape⟩
  rcases exSum_shape.2 p hp with h | h <;> rw [h] <;> rfl

/-! ## C41: assignment -/

/-- The full statement is
`a.Gam x → e.Val x v → (assignLinexpr R algo a d e none).Gam (update x d v)`; it fails: the general
case of `hmat_assign` (octagons/oct_transfer.c:724-729, 752-757) tests scratch cells instead of the
coefficient of the unbounded variable.  `x0 := 2*x1 - x2` with `x2 ∈ [-1/2,1/2]` and `x1` unbounded
records `x0 - x1 ≤ 1/2`, and loses the successor `(20,10,0)` of `(0,10,0)`. -/
def exBadOct : OctT ℚ :=
  ⟨some ((((allocTop 3 : Mem ℚ).set (matpos 5 4) (fin 1)).set (matpos 4 5) (fin 1))), none, 3, 0⟩
def exBadExpr : Linexpr ℚ := ⟨.scalar (fin 0), .sparse [(1, .scalar (fin 2)), (2, .scalar (fin (-1)))]⟩
def exBadPt : ℕ → ℚ := fun i => if i = 1 then 10 else 0

theorem C41_assign_unsound : exBadOct.Gam exBadPt ∧ exBadExpr.Val exBadPt 20 ∧ exBadExpr.InDim 3 ∧
    ¬ (OctT.assignLinexpr Rnd.exact 0 exBadOct 0 exBadExpr none).Gam (Function.update exBadPt 0 20) := by
  have ht : exBadExpr.terms = [(1, .scalar (fin 2)), (2, .scalar (fin (-1)))] := by decide +kernel
  refine ⟨?_, ?_, ?_, ?_⟩
  · refine gam_iff_best.2 ⟨((((allocTop 3 : Mem ℚ).set (matpos 5 4) (fin 1)).set (matpos 4 5) (fin 1))), ?_, ?_⟩
    · simp only [exBadOct, best, Option.none_or]
    have h0 : Sat 3 (allocTop 3 : Mem ℚ) exBadPt := allocTop_sat _ _
    refine (h0.set (by unfold Cell; omega) ?_).set (by unfold Cell; omega) ?_
    · simp [V, exBadPt]
    · simp [V, exBadPt]
  · refine ⟨0, 20, rfl, ?_, by norm_num⟩
    rw [ht]
    exact ⟨2, 0, rfl, ⟨-1, 0, rfl, rfl, by simp [exBadPt]⟩, by norm_num [exBadPt]⟩
  · unfold Linexpr.InDim; rw [ht]; simp
  · have hd : (OctT.assignLinexpr Rnd.exact 0 exBadOct 0 exBadExpr none).dim = 3 := (assignLinexpr_dim _ _ _ _ _ _).1
    have hv : ((OctT.assignLinexpr Rnd.exact 0 exBadOct 0 exBadExpr none).best.map
        fun m => m (matpos 2 0)) = some (fin (1 / 2)) := by decide +kernel
    generalize OctT.assignLinexpr Rnd.exact 0 exBadOct 0 exBadExpr none = b at hd hv
    intro h
    obtain ⟨m, hm, hs⟩ := gam_iff_best.1 h
    rw [hm] at hv
    simp only [Option.map_some, Option.some.injEq] at hv
    have := hs 2 0 (by rw [hd]; omega) (by unfold Cell; omega)
    rw [hv] at this
    simp [V, exBadPt] at this
    norm_num at this

/-- Partial (for C41): sound for every rounding if the last dimension does not occur in the
expression, or if the expression has at most one term, with coefficient 1 or -1 (and these numbers
are representable). -/
theorem C41_assign_partial (algo : ℤ) (a : OctT K) (d : ℕ) (e : Linexpr K) (x : ℕ → K) (v : K)
    (dest : Option (OctT K)) (hd : d < a.dim) (he : e.InDim a.dim)
    (hok : a.dim - 1 ∉ e.terms.map Prod.fst ∨ (e.UnitShape ∧ R.up 1 = fin 1 ∧ R.up (-1) = fin (-1)))
    (hx : a.Gam x) (hv : e.Val x v)
    (hdest : ∀ b, dest = some b → b.dim = a.dim ∧ b.Gam (Function.update x d v)) :
    (OctT.assignLinexpr R algo a d e dest).Gam (Function.update x d v) := by
  refine assignLinexpr_sat R hd he (fun ht m _ => ?_) hx hv hdest
  rcases hok with h | ⟨h, h1, h2⟩
  · exact genOk_of_zero R (uexpr_zeroAt R h)
  · obtain ⟨n1, n2⟩ := uexpr_unit R h h1 h2 a.intdim
    rcases ht with ht | ht
    · exact absurd ht n2
    · exact absurd ht n1

/-- parallel assignment of zero, two or more dimensions is sound for every expression (the
expressions cannot mention the last, temporary, dimension) -/
theorem C41_assign_array_sound (algo : ℤ) (uninit : Mem K) (a : OctT K) (te : List (ℕ × Linexpr K)) (x y : ℕ → K)
    (dest : Option (OctT K)) (hlen : te.length ≠ 1) (hn : (te.map Prod.fst).Nodup)
    (he : ∀ p ∈ te, p.2.InDim a.dim) (hx : a.Gam x)
    (hval : ∀ p ∈ te, p.2.Val x (y p.1)) (hkeep : ∀ v, v ∉ te.map Prod.fst → y v = x v)
    (hdest : ∀ b, dest = some b → b.dim = a.dim ∧ b.Gam y) :
    (OctT.assignLinexprArray R algo uninit a te dest).Gam y :=
  assignArray_sat R hlen hn he hx ⟨hval, hkeep⟩ hdest

/-- with exact numbers, an assignment `x := [l,u]` or `x := ±y + [l,u]` (`x := ±x + c`) gives exactly
the successors -/
theorem C41_assign_exact (algo : ℤ) (h0 : 0 ≤ algo) (a : OctT K) (ha : Wf a) (d : ℕ) (hd : d < a.dim)
    (e : Linexpr K) (he : e.InDim a.dim) (hs : e.UnitShape)
    (hc : d ∈ e.terms.map Prod.fst → ∃ q, e.cst = .scalar (fin q)) (y : ℕ → K) :
    (OctT.assignLinexpr Rnd.exact algo a d e none).Gam y ↔
      ∃ x v, a.Gam x ∧ e.Val x v ∧ y = Function.update x d v := by
  constructor
  · exact assignLinexpr_exact h0 ha hd he hs hc
  · rintro ⟨x, v, hx, hv, rfl⟩
    exact C41_assign_partial _ algo a d e x v none hd he (Or.inr ⟨hs, rfl, rfl⟩) hx hv (by simp)

theorem C41_assign_wf (algo : ℤ) (a : OctT K) (ha : Wf a) (d : ℕ) (e : Linexpr K) (dest : Option (OctT K))
    (hd : d < a.dim) (he : e.InDim a.dim) (hp : e.Proper)
    (hdest : ∀ b, dest = some b → b.dim = a.dim ∧ Wf b) :
    Wf (OctT.assignLinexpr Rnd.exact algo a d e dest) := wf_assignLinexpr ha hd he hp hdest

theorem C41_assign_array_wf (algo : ℤ) (uninit : Mem K) (a : OctT K) (ha : Wf a) (te : List (ℕ × Linexpr K))
    (dest : Option (OctT K)) (hn : (te.map Prod.fst).Nodup) (hd : ∀ p ∈ te, p.1 < a.dim)
    (he : ∀ p ∈ te, p.2.InDim a.dim ∧ p.2.Proper) (hdest : ∀ b, dest = some b → b.dim = a.dim ∧ Wf b) :
    Wf (OctT.assignLinexprArray Rnd.exact algo uninit a te dest) := wf_assignArray ha hn hd he hdest

theorem C41_assign_dims (algo : ℤ) (a : OctT K) (d : ℕ) (e : Linexpr K) (dest : Option (OctT K)) :
    (OctT.assignLinexpr R algo a d e dest).dim = a.dim ∧
    (OctT.assignLinexpr R algo a d e dest).intdim = a.intdim := assignLinexpr_dim R algo a d e dest

/-- `x1 := x0 + 1` -/
def exInc : Linexpr ℚ := ⟨.scalar (fin 1), .sparse [(0, .scalar (fin 1))]⟩
theorem exInc_terms : exInc.terms = [(0, .scalar (fin 1))] := by decide +kernel
theorem exInc_ok : exInc.InDim 2 ∧ exInc.UnitShape ∧ exInc.Proper := by
  unfold Linexpr.InDim Linexpr.UnitShape Linexpr.Proper
  rw [exInc_terms]; simp [Coeff.Proper, infty, exInc]
example : ((OctT.assignLinexpr Rnd.exact 0 (⟨some exOct, none, 2, 0⟩ : OctT ℚ) 1 exInc none).closed.map
    fun c => (c (matpos2 0 2), c (matpos2 2 0), c (matpos2 3 2))) = some (fin 1, fin (-1), fin 8) := by
  decide +kernel
example : 2 - 1 ∉ exInc.terms.map Prod.fst ∧ exInc.Val (fun _ => (3 : ℚ)) 4 := by
  rw [Linexpr.Val, exInc_terms]
  exact ⟨by decide, 1, 3, rfl, ⟨1, 0, rfl, rfl, by norm_num⟩, by norm_num⟩

/-! ## C42: substitution -/

/-- every point whose successor lies in the octagon is kept, for every rounding and expression -/
theorem C42_subst_sound (algo : ℤ) (a : OctT K) (d : ℕ) (e : Linexpr K) (dest : Option (OctT K)) (x : ℕ → K) (v : K)
    (hd : d < a.dim) (he : e.InDim a.dim) (hx : a.Gam (Function.update x d v)) (hv : e.Val x v)
    (hdest : ∀ b, dest = some b → b.dim = a.dim ∧ b.Gam x) :
    (OctT.substLinexpr R algo a d e dest).Gam x := substLinexpr_sat R hd he hx hv hdest

theorem C42_subst_array_sound (algo : ℤ) (a : OctT K) (te : List (ℕ × Linexpr K)) (dest : Option (OctT K))
    (x y : ℕ → K) (hn : (te.map Prod.fst).Nodup)
    (hd : ∀ p ∈ te, p.1 < a.dim) (he : ∀ p ∈ te, p.2.InDim a.dim) (hy : a.Gam y)
    (hval : ∀ p ∈ te, p.2.Val x (y p.1)) (hkeep : ∀ v, v ∉ te.map Prod.fst → y v = x v)
    (hdest : ∀ b, dest = some b → b.dim = a.dim ∧ b.Gam x) :
    (OctT.substLinexprArray R algo a te dest).Gam x := by
  by_cases hlen : te.length = 1
  · obtain ⟨⟨d, e⟩, rfl⟩ := List.length_eq_one_iff.1 hlen
    refine substLinexpr_sat R (v := y d) (hd (d, e) (by simp)) (he (d, e) (by simp)) ?_ (hval (d, e) (by simp)) hdest
    convert hy using 1
    funext v
    by_cases h : v = d
    · subst h; simp
    · rw [Function.update_of_ne h, hkeep v (by simpa using h)]
  · exact substArray_sat R hlen hn hd he hy ⟨hval, hkeep⟩ hdest

theorem C42_subst_wf (algo : ℤ) (h0 : 0 ≤ algo) (a : OctT K) (ha : Wf a) (d : ℕ) (e : Linexpr K)
    (dest : Option (OctT K)) (hd : d < a.dim) (he : e.InDim a.dim) (hp : e.Proper)
    (hdest : ∀ b, dest = some b → b.dim = a.dim ∧ Wf b) :
    Wf (OctT.substLinexpr Rnd.exact algo a d e dest) := wf_substLinexpr h0 ha hd he hp hdest

theorem C42_subst_array_wf (algo : ℤ) (h0 : 0 ≤ algo) (a : OctT K) (ha : Wf a) (te : List (ℕ × Linexpr K))
    (dest : Option (OctT K)) (hn : (te.map Prod.fst).Nodup) (hd : ∀ p ∈ te, p.1 < a.dim)
    (he : ∀ p ∈ te, p.2.InDim a.dim ∧ p.2.Proper) (hdest : ∀ b, dest = some b → b.dim = a.dim ∧ Wf b) :
    Wf (OctT.substLinexprArray Rnd.exact algo a te dest) := wf_substArray h0 ha hn hd he hdest

/-- `x1 := x0 + 3` -/
def exInc3 : Linexpr ℚ := ⟨.scalar (fin 3), .sparse [(0, .scalar (fin 1))]⟩
example : ((OctT.substLinexpr Rnd.exact 0 (⟨some exOct, none, 2, 0⟩ : OctT ℚ) 1 exInc3 none).best.map
    fun c => (c (matpos2 1 0), c (matpos2 0 1), c (matpos2 3 2))) = some (fin 6, fin (-4), pinf) := by
  decide +kernel

/-! ## C43: queries -/

/-- a constraint reported as satisfied holds at every point, for every rounding -/
theorem C43_sat_sound (algo : ℤ) (a : OctT K) (c : Lincons K) (he : c.expr.InDim a.dim)
    (h : OctT.satLincons R algo a c = true) (x : ℕ → K) (hx : a.Gam x) : c.HoldsAll x :=
  satLincons_sound R he h hx

/-- with exact numbers every valid non-strict constraint of octagonal shape is reported -/
theorem C43_sat_complete (algo : ℤ) (h0 : 0 ≤ algo) (a : OctT K) (ha : Wf a)
    (c : Lincons K) (he : c.expr.InDim a.dim) (hs : c.expr.OctShape) (hne : ∃ q, c.expr.cst.Has q)
    (hty : c.typ = .supeq ∨ c.typ = .eq) :
    OctT.satLincons Rnd.exact algo a c = true ↔ ∀ x, a.Gam x → c.HoldsAll x := by
  obtain ⟨q0, hq0⟩ := hne
  exact ⟨fun h x hx => satLincons_sound _ he h hx, satLincons_complete h0 ha he hs hq0 hty⟩

/-- the interval of an expression contains all its values, for every rounding -/
theorem C43_bound_sound (algo : ℤ) (a : OctT K) (e : Linexpr K) (he : e.InDim a.dim) (x : ℕ → K) (v : K)
    (hx : a.Gam x) (hv : e.Val x v) : v ∈ OctT.boundLinexpr R algo a e := boundLinexpr_sound R he hx hv

/-- with exact numbers, for expressions of octagonal shape, it is the smallest such interval -/
theorem C43_bound_tight (algo : ℤ) (h0 : 0 ≤ algo) (a : OctT K) (ha : Wf a)
    (e : Linexpr K) (he : e.InDim a.dim) (hs : e.OctShape) (hne : ∃ q, e.cst.Has q) (J : Itv K)
    (hJ : ∀ x v, a.Gam x → e.Val x v → v ∈ J) (v : K) (hv : v ∈ OctT.boundLinexpr Rnd.exact algo a e) : v ∈ J := by
  obtain ⟨q0, hq0⟩ := hne
  exact boundLinexpr_tight h0 ha he hs hq0 hJ hv

example : OctT.satLincons Rnd.exact 0 (⟨some exOct, none, 2, 0⟩ : OctT ℚ)
    ⟨.supeq, ⟨.scalar (fin (-2)), .sparse [(1, .scalar (fin 1))]⟩⟩ = true := by decide +kernel
example : OctT.boundLinexpr Rnd.exact 0 (⟨some exOct, none, 2, 0⟩ : OctT ℚ) exInc = ⟨pinf, fin 4⟩ := by decide +kernel
example : OctT.boundLinexpr Rnd.exact 0 (⟨some exOct, none, 2, 0⟩ : OctT ℚ) exTwo.expr = ⟨pinf, fin 9⟩ := by
  decide +kernel

end Apron
