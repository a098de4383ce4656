import Verif.Texpr.ApLinearize
import Verif.Core.Level1Expr

/-!
# Quasi-linearisation at levels 0 and 1

`apron/ap_linearize.c`, sections I to V of `apron/ap_linearize_aux.c`, `ap_lincons0_array_type`,
`ap_generic_meet_quasilinearize_lincons_array` and the two functions at the end of `apron/ap_abstract1.c`.

What matters here are pointers.  A function gets a handle on an abstract value, which must be an
`ap_abstract0_t*`; some callers pass the value of the domain instead.  A result may be the pointer given as
argument, new memory, or memory freed before the function returns.  `none` is undefined behaviour.

Simplifications: as in `Texpr/ApLinearize`; the flags `exact` are not modelled except for the one that is never
written.
-/

set_option autoImplicit false
set_option linter.unusedSectionVars false
set_option linter.ambiguousOpen false

namespace Apron
open Bound

variable {K : Type*} [LinearOrder K] [Field K] [IsStrictOrderedRing K]

/-- what is passed for an `ap_abstract0_t*`: such an object or the value of a domain (apron/ap_abstract0.h:24-27) -/
inductive Handle (A : Type*)
  | abs0 (a : A)
  | value (a : A)

/-- a pointer that is returned: the argument, new memory holding `e`, or memory already freed -/
inductive Ref (E : Type*)
  | arg
  | fresh (e : E)
  | freed
  deriving DecidableEq

/-- the object a returned pointer gives access to; `x` is the argument -/
def Ref.get {E : Type*} (x : E) : Ref E → Option E
  | .arg => some x
  | .fresh e => some e
  | .freed => none

/-- the loop of `ap_lincons0_array_type`: apron/ap_lincons0.c:236-242 -/
def Lincons.arrayTypeLoop (res : Linexpr.LType) : List (Lincons K) → Linexpr.LType
  | [] => res
  | c :: l =>
    -- `if (type < res) type = res;` has no effect
    let _type := if (Linexpr.type c.expr).toNat < res.toNat then res else Linexpr.type c.expr
    if res = .intlinear then res else arrayTypeLoop res l

/-- `ap_lincons0_array_type`: apron/ap_lincons0.c:232-244 -/
def Lincons.arrayType (l : List (Lincons K)) : Linexpr.LType := arrayTypeLoop .linear l

namespace ApQuasi
open ILincons
variable {A : Type*} [FloorRing K] (R : Rnd K) (isBottom : A → Bool) (toBox : A → ℕ → Itv K)

/-- `ap_abstract0_to_box` on a handle: apron/ap_abstract0.c:904-920 reads the field `man` -/
def box : Handle A → Option (ℕ → Itv K)
  | .abs0 a => some (toBox a)
  | .value _ => none

/-- `quasilinearize_alloc`: apron/ap_linearize_aux.c:91-115, with its assertion -/
def quasiAlloc : Handle A → Option (ℕ → Itv K)
  | .abs0 a => if isBottom a then none else some (toBox a)
  | .value _ => none

/-- `ap_eval_linexpr0`: apron/ap_linearize.c:33-50, ap_linearize_aux.c:55-84 -/
def evalLinexpr0 (h : Handle A) (e : Linexpr K) : Option (Itv K) := (box toBox h).map fun env => ILinexpr.evalAp R e env

/-- `ap_quasilinearize_linexpr0`: apron/ap_linearize.c:67-88, ap_linearize_aux.c:135-160 -/
def linexpr0 (h : Handle A) (e : Linexpr K) : Option (Ref (Linexpr K)) :=
  if e.isQuasilinear then some .arg
  else (quasiAlloc isBottom toBox h).map fun env => .fresh (Linexpr.ofItv (quasi R (ILinexpr.ofAp R e) env false))

/-- `ap_quasilinearize_lincons0`: apron/ap_linearize.c:90-112, ap_linearize_aux.c:162-187 -/
def lincons0 (h : Handle A) (c : Lincons K) (meet : Bool) : Option (Ref (Lincons K)) :=
  if c.expr.isQuasilinear then some .arg
  else (quasiAlloc isBottom toBox h).map fun env => .fresh (Lincons.ofItv (quasiCons R (ILincons.ofAp R c) env meet))

/-- `ap_quasilinearize_linexpr0_array`: apron/ap_linearize.c:114-137, ap_linearize_aux.c:189-215 -/
def linexpr0Array (h : Handle A) (l : List (Linexpr K)) : Option (Ref (List (Linexpr K))) :=
  if l.all Linexpr.isQuasilinear then some .arg
  else (quasiAlloc isBottom toBox h).map fun env =>
    .fresh (l.map fun e => Linexpr.ofItv (quasi R (ILinexpr.ofAp R e) env false))

/-- `ap_quasilinearize_lincons0_array`: apron/ap_linearize.c:139-171, ap_linearize_aux.c:217-248; the second
component tells whether `*pexact` is written -/
def lincons0Array (h : Handle A) (l : List (Lincons K)) (linearize meet : Bool) : Option (Ref (List (Lincons K)) × Bool) :=
  let type := Lincons.arrayType l
  if (linearize && decide (type = .linear)) || decide (type = .quasilinear) then some (.arg, true)
  else (quasiAlloc isBottom toBox h).map fun env =>
    let t := quasiArray R (l.map (ILincons.ofAp R)) env meet
    (.fresh ((if linearize then linearizeArray meet t else t).map Lincons.ofItv), false)

/-- `ap_generic_meet_quasilinearize_lincons_array`: apron/ap_generic.c:147-180; it passes the value `a` of the domain
for an `ap_abstract0_t*`, and reads `exact` -/
def meetGeneric (meet : A → List (Lincons K) → A) (a : A) (l : List (Lincons K)) (linearize : Bool) : Option A :=
  if isBottom a || l.isEmpty then some a
  else (lincons0Array R isBottom toBox (.value a) l linearize true).bind fun r =>
    (r.1.get l).bind fun l2 => if r.2 then some (meet a l2) else none

variable (o : RootOps K) (F : FltOps K)

/-- `ap_intlinearize_texpr0` on a handle: apron/ap_linearize_aux.c:318-346 -/
def texpr0 (intdim : A → ℕ) (h : Handle A) (e : Texpr K) (quasilin : Bool) : Option (Linexpr K) :=
  let alloc : Option ((ℕ → Itv K) × ℕ) := match h with
    | .abs0 a => some (toBox a, intdim a)
    | .value _ => none
  if e.isIntervalLinear then
    let l := (Texpr.intlinear R o F true e).getD ⟨Itv.point 0, true, []⟩
    if quasilin && !l.isQuasilinear then alloc.map fun p => Linexpr.ofItv (quasi R l p.1 false) else some (Linexpr.ofItv l)
  else alloc.map fun p =>
    let l := (Texpr.intlinearize R o F p.1 p.2 true e).1
    Linexpr.ofItv (if quasilin && !l.isQuasilinear then quasi R l p.1 false else l)

/-- `ap_intlinearize_texpr0_intlinear`: apron/ap_linearize_aux.c:288-310; the inner option is `NULL`.  After a
successful conversion the freed `intern` and the pointer `res`, which has no value, are used. -/
def texpr0Intlinear (e : Texpr K) : Option (Option (Linexpr K)) :=
  match Texpr.intlinear R o F true e with
  | none => some none
  | some _ => none

/-- the result after an exception: apron/ap_abstract1.c:1467-1471, 1507-1511 -/
def topExpr : Linexpr K := ⟨.interval .ninf .pinf, .sparse []⟩

variable {V : Type*} [LinearOrder V]

/-- `ap_abstract1_quasilinear_of_intlinear`: apron/ap_abstract1.c:1441-1472; a raised exception is the second
component.  The extended expression is freed before the function returns. -/
def quasilinearOfIntlinear (junk : ℕ) (same : Bool) (a : Abs1 V A) (x : Expr1 V (Linexpr K)) :
    Out (Option (Ref (Linexpr K)) × Bool) :=
  if Env.isEq same a.env x.env then .ok (linexpr0 R isBottom toBox (.value a.val) x.expr, false)
  else match Env.dimchange junk x.env a.env with
    | .ok d => .ok ((linexpr0 R isBottom toBox (.value a.val) (Linexpr.addDimensions x.expr d.dim)).map fun r =>
        match r with | .arg => .freed | r => r, false)
    | .null => .ok (some (.fresh topExpr), true)
    | .abort => .abort
    | .oob => .oob

/-- `ap_abstract1_intlinear_of_tree`: apron/ap_abstract1.c:1481-1512 -/
def intlinearOfTree (intdim : A → ℕ) (junk : ℕ) (same : Bool) (a : Abs1 V A) (x : Expr1 V (Texpr K)) (quasilin : Bool) :
    Out (Option (Linexpr K) × Bool) :=
  if Env.isEq same a.env x.env then .ok (texpr0 R toBox o F intdim (.value a.val) x.expr quasilin, false)
  else match Env.dimchange junk x.env a.env with
    | .ok d => .ok (texpr0 R toBox o F intdim (.value a.val) (Texpr.addDimensions d.dim x.expr) quasilin, false)
    | .null => .ok (some topExpr, true)
    | .abort => .abort
    | .oob => .oob

end ApQuasi
end Apron
