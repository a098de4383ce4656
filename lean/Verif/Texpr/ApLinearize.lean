import Verif.Texpr.Linearize
import Verif.Core.Compare
import Verif.Core.LinexprOps

/-!
# Linearisation at level 0

`apron/ap_linearize_aux.c` (conversion of trees to `ap_linexpr0_t` and `ap_lincons0_t` over the bounding
box of an abstract value), the tests on constant constraints of `apron/ap_lincons0.c`, and the functions of
`apron/ap_generic.c` that implement operations on trees from the operations on linear expressions.

Simplifications.
* The number type of the computation (`discr`) is the one of the domain, as in all calls of the library;
  the conversion of a bound into a scalar of the same type is then exact.
* The flag `exact` is always set to `false` by the functions on trees and is not modelled.
* The constraints `EQMOD` keep their modulus (the C code stores it in the field `num`).
-/

set_option autoImplicit false
set_option linter.unusedSectionVars false
set_option linter.ambiguousOpen false

namespace Apron
open Bound

variable {K : Type*} [LinearOrder K] [Field K] [IsStrictOrderedRing K]

/-! ## Constant constraints -/

namespace Lincons

/-- the loop over the terms of `ap_lincons0_is_unsat` and `ap_lincons0_is_sat`:
apron/ap_lincons0.c:57-62, 116-121: `nbcoeffs==0` -/
def noCoeffs (e : Linexpr K) : Bool := e.terms.all fun p => p.2.isZero

/-- `ap_lincons0_is_unsat`: apron/ap_lincons0.c:49-106 -/
def isUnsat (c : Lincons K) : Bool :=
  noCoeffs c.expr &&
    match c.expr.cst with
    | .scalar b =>
      match c.typ with
      | .eq | .eqmod _ => decide (sgn b ≠ 0)
      | .diseq => decide (sgn b = 0)
      | .supeq => decide (sgn b < 0)
      | .sup => decide (sgn b ≤ 0)
    | .interval l u =>
      match c.typ with
      | .eq | .eqmod _ => decide (sgn u < 0) || decide (0 < sgn l)
      | .diseq => decide (0 ≤ sgn u) && decide (sgn l ≤ 0)
      | .supeq => decide (sgn u < 0)
      | .sup => decide (sgn u ≤ 0)

/-- `ap_lincons0_is_sat`: apron/ap_lincons0.c:108-166 -/
def isSat (c : Lincons K) : Bool :=
  noCoeffs c.expr &&
    match c.expr.cst with
    | .scalar b =>
      match c.typ with
      | .eq | .eqmod _ => decide (sgn b = 0)
      | .diseq => decide (sgn b ≠ 0)
      | .supeq => decide (0 ≤ sgn b)
      | .sup => decide (0 < sgn b)
    | .interval l u =>
      intervalIsBottom l u ||
        match c.typ with
        | .eq | .eqmod _ => decide (sgn l = 0) && decide (sgn u = 0)
        | .diseq => decide (sgn l < 0) || decide (0 < sgn u)
        | .supeq => decide (0 ≤ sgn l)
        | .sup => decide (0 < sgn l)

/-- `ap_lincons0_make_unsat`: apron/ap_lincons0.c:40-47 -/
def makeUnsat : Lincons K := ⟨.supeq, ⟨.scalar (fin (-1)), .sparse []⟩⟩

end Lincons

/-! ## Conversion of interval expressions to user expressions -/

/-- `ap_coeff_set_itv`: itv/itv.c:741-764 (exact conversion of bounds) -/
def Coeff.ofItv (i : Itv K) : Coeff K :=
  if i.isPoint then .scalar i.sup else .interval (Bound.neg i.inf) i.sup

/-- `ap_linexpr0_set_itv_linexpr`: itv/itv_linexpr.c:251-278 (into a fresh expression) -/
def Linexpr.ofItv (e : ILinexpr K) : Linexpr K :=
  ⟨Coeff.ofItv e.cst, .sparse (e.terms.map fun t => (t.dim, Coeff.ofItv t.itv))⟩

/-- `ap_lincons0_set_itv_lincons`: itv/itv_linexpr.c:280-299 -/
def Lincons.ofItv (c : ILincons K) : Lincons K := ⟨c.typ, Linexpr.ofItv c.expr⟩

/-! ## Deduction of bounds with the record of the changes -/

namespace ILincons
variable [FloorRing K] (R : Rnd K)

/-- the array `tchange`: which bounds (inf, sup) of each dimension were improved -/
abbrev TChange := ℕ → Bool × Bool

/-- the assignments to `tchange` in one iteration of the loop of `itv_boxize_lincons`:
itv/itv_linearize.c:170-181, 206-217, and the same in the interval case -/
def boxizeFlags (c : ILincons K) (env : ℕ → Itv K) (intdim : ℕ) (itvonly : Bool) (i : ℕ)
    (t : ITerm K) (old : Itv K) : Bool × Bool :=
  let ev := (zeroAt c.expr i).eval R env
  if ev.isTop ∨ (t.eq ∧ itvonly) then (false, false)
  else
    ((improve ((infBound R c.typ t.eq t.itv ev).map (intBound R c.typ (decide (t.dim < intdim)))) old.inf).2,
     (improve ((supBound R c.typ t.eq t.itv ev).map (intBound R c.typ (decide (t.dim < intdim)))) old.sup).2)

/-- setting the flags of a dimension; they are never cleared -/
def TChange.mark (tc : TChange) (d : ℕ) (f : Bool × Bool) : TChange :=
  Function.update tc d ((tc d).1 || f.1, (tc d).2 || f.2)

/-- `boxizeGo` with `tchange` (`res` and `env` are the same array) -/
def boxizeGoT (c : ILincons K) (intdim : ℕ) (itvonly : Bool) :
    ℕ → List (ITerm K) → BoxSt K × TChange → BoxSt K × TChange
  | _, [], s => s
  | i, t :: l, (s, tc) =>
    let r := boxizeTerm R c s.res intdim itvonly i t (s.res t.dim)
    let tc' := tc.mark t.dim (boxizeFlags R c s.res intdim itvonly i t (s.res t.dim))
    if r.2 then
      let it := Itv.canonicalize r.1 (decide (t.dim < intdim))
      if it.isBottom then (⟨Function.update s.res t.dim it, true, true⟩, tc')
      else boxizeGoT c intdim itvonly (i + 1) l (⟨Function.update s.res t.dim it, true, false⟩, tc')
    else boxizeGoT c intdim itvonly (i + 1) l (s, tc')

/-- `itv_boxize_lincons` with `tchange`: itv/itv_linearize.c:92-361 -/
def boxizeT (c : ILincons K) (res : ℕ → Itv K) (intdim : ℕ) (itvonly : Bool) (tc : TChange) : BoxSt K × TChange :=
  let s := boxizeGoT R c intdim itvonly 0 c.expr.terms (⟨res, false, false⟩, tc)
  if c.expr.terms.isEmpty ∧ evalCst' c = .f then (⟨s.1.res, true, true⟩, s.2) else s

/-- `boxizePass` with `tchange` -/
def boxizePassT (intdim : ℕ) (itvonly : Bool) : List (ILincons K) → BoxSt K × TChange → BoxSt K × TChange
  | [], s => s
  | c :: l, (s, tc) =>
    match c.typ with
    | .eq | .supeq | .sup =>
      let r := boxizeT R c s.res intdim itvonly tc
      if r.1.empty then (⟨r.1.res, true, true⟩, r.2)
      else boxizePassT intdim itvonly l (⟨r.1.res, r.1.change || s.change, false⟩, r.2)
    | _ => boxizePassT intdim itvonly l (s, tc)

/-- `boxizeLoop` with `tchange` -/
def boxizeLoopT (intdim : ℕ) (itvonly : Bool) (l : List (ILincons K)) :
    ℕ → BoxSt K × TChange → BoxSt K × TChange
  | 0, s => s
  | k + 1, (s, tc) =>
    let r := boxizePassT R intdim itvonly l (⟨s.res, false, false⟩, tc)
    if r.1.empty then (⟨r.1.res, true, true⟩, r.2)
    else if r.1.change then boxizeLoopT intdim itvonly l k (⟨r.1.res, true, false⟩, r.2)
    else (⟨r.1.res, s.change, false⟩, r.2)

/-- `itv_boxize_lincons_array` with `tchange` and `res==env`: itv/itv_linearize.c:377-414 -/
def boxizeArrayT (l : List (ILincons K)) (env : ℕ → Itv K) (intdim kmax : ℕ) (itvonly : Bool) : BoxSt K × TChange :=
  boxizeLoopT R intdim itvonly l (max kmax 1) (⟨env, false, false⟩, fun _ => (false, false))

/-- the constraints added for dimension `i`: apron/ap_linearize_aux.c:478-521 -/
def boundRow (env : ℕ → Itv K) (tc : TChange) (i : ℕ) : List (ILincons K) :=
  if ((tc i).1 || (tc i).2) && (env i).isPoint then [⟨.eq, ⟨env i, true, [⟨i, true, Itv.point (-1)⟩]⟩⟩]
  else
    (if (tc i).1 then [⟨.supeq, ⟨Itv.point (numref (env i).inf), true, [⟨i, true, Itv.point 1⟩]⟩⟩] else []) ++
    (if (tc i).2 then [⟨.supeq, ⟨Itv.point (numref (env i).sup), true, [⟨i, true, Itv.point (-1)⟩]⟩⟩] else [])

/-- the constraints added for all dimensions: apron/ap_linearize_aux.c:476-523 -/
def boundRows (n : ℕ) (env : ℕ → Itv K) (tc : TChange) : List (ILincons K) :=
  (List.range n).flatMap (boundRow env tc)

end ILincons

/-! ## ap_linearize_aux.c -/

/-- `ap_linexpr_type_t`: apron/ap_linexpr0.h:32-37 -/
inductive LinType | linear | quasilinear | intlinear
  deriving DecidableEq, Repr

namespace Texpr
open ILincons
variable [FloorRing K] (R : Rnd K) (o : RootOps K) (F : FltOps K)

/-- `ap_intlinearize_texpr0`: apron/ap_linearize_aux.c:318-346 (the returned `exc` of the conversions is
ignored; a failure of the first one, which leaves the expression 0, is impossible by C59) -/
def apIntlinearize (env : ℕ → Itv K) (intdim : ℕ) (e : Texpr K) (quasilin : Bool) : Linexpr K :=
  let l := if e.isIntervalLinear then (intlinear R o F true e).getD ⟨Itv.point 0, true, []⟩
    else (intlinearize R o F env intdim true e).1
  let l := if quasilin && !l.isQuasilinear then quasi R l env false else l
  Linexpr.ofItv l

/-- `ap_intlinearize_tcons0`: apron/ap_linearize_aux.c:386-420 -/
def apIntlinearizeCons (env : ℕ → Itv K) (intdim : ℕ) (c : Tcons K) (quasilin meet : Bool) : Lincons K :=
  let l := if c.expr.isIntervalLinear then (intlinearCons R o F c).1 else (intlinearizeCons R o F env intdim c).1
  let l := if quasilin && !l.expr.isQuasilinear then quasiCons R l env meet else l
  Lincons.ofItv l

/-- the switch of `ap_intlinearize_tcons0_array`: apron/ap_linearize_aux.c:453-463 -/
def linStep (typ : LinType) (l : List (ILincons K)) (env : ℕ → Itv K) (meet : Bool) : List (ILincons K) :=
  match typ with
  | .intlinear => l
  | .quasilinear => quasiArray R l env meet
  | .linear => linearizeArray meet (quasiArray R l env meet)

/-- the rest of `ap_intlinearize_tcons0_array` after the deduction of bounds: apron/ap_linearize_aux.c:453-531.
`s` is the result of the deduction, `none` when it is not performed. -/
def linFinish (typ : LinType) (l : List (ILincons K)) (n : ℕ) (env : ℕ → Itv K) (meet : Bool)
    (s : Option (BoxSt K × TChange)) : List (ILincons K) :=
  let env' := match s with | none => env | some s => s.1.res
  let l1 := linStep R typ l env' meet
  let stop : Bool := match l1 with | [c] => c.expr.terms.isEmpty && decide (evalCst' c = .f) | _ => false
  if stop then l1
  else match s with
    | none => l1
    | some s => if s.1.change then (if s.1.empty then [setBool false] else l1 ++ boundRows n s.1.res s.2) else l1

/-- `ap_intlinearize_tcons0_array`: apron/ap_linearize_aux.c:422-531 -/
def apIntlinearizeArray (n intdim : ℕ) (env : ℕ → Itv K) (l : List (Tcons K)) (typ : LinType) (meet boxize : Bool)
    (kmax : ℕ) (itvonly : Bool) : List (Lincons K) :=
  let t := intlinearizeArray R o F env intdim l
  let r := match t with
    | [c] => if c.expr.terms.isEmpty then t else body t
    | _ => body t
  r.map Lincons.ofItv
where
  /-- apron/ap_linearize_aux.c:447-521 -/
  body (t : List (ILincons K)) : List (ILincons K) :=
    linFinish R typ t n env meet
      (if meet && boxize && (!itvonly || !t.all fun c => c.expr.isQuasilinear) then
        some (boxizeArrayT R t env intdim kmax itvonly) else none)

end Texpr

/-! ## ap_generic.c -/

namespace Generic
variable [FloorRing K] {A : Type*} (R : Rnd K) (o : RootOps K) (F : FltOps K)

/-- `ap_generic_sat_tcons`: apron/ap_generic.c:31-57; `toBox` is `ap_abstract0_to_box` -/
def satTcons (isBottom : A → Bool) (toBox : A → ℕ → Itv K) (intdim : A → ℕ) (sat : A → Lincons K → Bool)
    (a : A) (c : Tcons K) (quasilin : Bool) : Bool :=
  if isBottom a then true
  else
    let l := Texpr.apIntlinearizeCons R o F (toBox a) (intdim a) c quasilin false
    l.isSat || sat a l

/-- `ap_generic_bound_texpr`: apron/ap_generic.c:63-90 -/
def boundTexpr (isBottom : A → Bool) (toBox : A → ℕ → Itv K) (intdim : A → ℕ) (bound : A → Linexpr K → Itv K)
    (a : A) (e : Texpr K) (quasilin : Bool) : Itv K :=
  if isBottom a then Itv.bottom
  else bound a (Texpr.apIntlinearize R o F (toBox a) (intdim a) e quasilin)

/-- `ap_generic_meet_intlinearize_tcons_array`: apron/ap_generic.c:184-216 -/
def meetTcons (isBottom : A → Bool) (toBox : A → ℕ → Itv K) (intdim dim : A → ℕ) (typ : LinType)
    (meet : A → List (Lincons K) → A) (a : A) (l : List (Tcons K)) : A :=
  if isBottom a || l.isEmpty then a
  else meet a (Texpr.apIntlinearizeArray R o F (dim a) (intdim a) (toBox a) l typ true true 2 false)

end Generic

end Apron
