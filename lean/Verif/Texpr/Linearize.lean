import Verif.Texpr.Defs
import Verif.Texpr.Struct

/-!
# Linearisation of expression trees: sections V and VI of `itv/itv_linearize.c`

`intlinear` translates a tree that is syntactically interval linear; `intlin` computes, for any
tree, an interval linear form and an interval, both containing the values of the tree.

Simplifications.
* The result `lres` of a failed call of section V is not modelled (`none`); every caller discards it.
* `lres->equality` is left as it was by a leaf that is a variable: it is an argument of `intlin`
  (`true` for a fresh expression).
* `intern->itv_half` (itv/itv.c:76-78) is the interval `[-1/2,1/2]` with bounds rounded up.
-/

set_option autoImplicit false
set_option linter.unusedSectionVars false
set_option linter.ambiguousOpen false

namespace Apron
open Bound
variable {K : Type*} [LinearOrder K] [Field K] [IsStrictOrderedRing K] (R : Rnd K)

namespace Itv

/-- `itv_range_rel`: itv/itv.h:578-586 -/
def rangeRel (b : Itv K) : Bound K :=
  let a := Bound.add R b.sup b.inf
  if infty a then a else Bound.div R a (Bound.div2 R (magnitude b))

/-- `itv_is_pos`: itv/itv.h:562-563 -/
def isPos (a : Itv K) : Bool := decide (sgn a.inf ≤ 0)
/-- `itv_is_neg`: itv/itv.h:565-566 -/
def isNeg (a : Itv K) : Bool := decide (sgn a.sup ≤ 0)

/-- `itv_is_int`: itv/itv.h:588-594 -/
def hasIntBounds [FloorRing K] (a : Itv K) : Bool :=
  decide (Bound.cmp (Bound.trunc a.sup) a.sup = 0) && decide (Bound.cmp (Bound.trunc a.inf) a.inf = 0)

end Itv

namespace ILinexpr

/-- an expression without term, as built by `itv_linexpr_reinit(l,0); itv_set(l->cst,i);
l->equality = itv_is_point(i)` -/
def const (i : Itv K) : ILinexpr K := ⟨i, i.isPoint, []⟩

/-- `itv_linexpr_round_float_lin`: itv/itv_linearize.c:1068-1090; `ulp` and `mn` are the upper bounds
of the fields of the `float_const` -/
def roundFloatLin (l : ILinexpr K) (ulp mn : K) : ILinexpr K :=
  ⟨Itv.enlargeBound R l.cst (Bound.add R (Bound.mul R (Itv.magnitude l.cst) (fin ulp)) (fin mn)), false,
    l.terms.map fun t => ⟨t.dim, false,
      Itv.enlargeBound R t.itv (Bound.mul R (Itv.magnitude t.itv) (fin ulp))⟩⟩

/-- `ap_texpr0_to_int`: itv/itv_linearize.c:1121-1157 -/
def toIntLin (l : ILinexpr K) (i : Itv K) : RDir → ILinexpr K
  | .up => ⟨⟨l.cst.inf, Bound.addNat R l.cst.sup 1⟩, false, l.terms⟩
  | .down => ⟨⟨Bound.addNat R l.cst.inf 1, l.cst.sup⟩, false, l.terms⟩
  | .rnd => ⟨⟨Bound.addNat R l.cst.inf 1, Bound.addNat R l.cst.sup 1⟩, false, l.terms⟩
  | .zero => ⟨⟨if 0 < sgn i.sup then Bound.addNat R l.cst.inf 1 else l.cst.inf,
      if 0 < sgn i.inf then Bound.addNat R l.cst.sup 1 else l.cst.sup⟩, false, l.terms⟩
  | .nearest => ⟨Itv.add R l.cst ⟨R.up (1 / 2), R.up (1 / 2)⟩, false, l.terms⟩

end ILinexpr

namespace Texpr
open ILinexpr
variable [FloorRing K] (o : RootOps K) (F : FltOps K)

/-- `ap_texpr0_round`: itv/itv_linearize.c:1160-1198 (the returned type is never used) -/
def roundLin (l : ILinexpr K) (i : Itv K) (org dst : RType) (d : RDir) : ILinexpr K × Itv K :=
  match dst with
  | .real => (l, i)
  | .int => if org = .int then (l, i) else (toIntLin R l i d, round F .int d i)
  | t => if org.sub t then (l, i) else (roundFloatLin R l (F.ulp t) (F.min t), round F t d i)

/-- `ap_texpr0_reduce`: itv/itv_linearize.c:1205-1225 -/
def reduceLin (env : ℕ → Itv K) (l : ILinexpr K) (i : Itv K) : ILinexpr K × Itv K :=
  let i' := Itv.meet i (l.eval R env)
  if i'.isBottom || l.cst.isBottom then (⟨Itv.bottom, l.eq, []⟩, Itv.bottom)
  else if l.terms.isEmpty then (⟨i', i'.isPoint, l.terms⟩, i')
  else (l, i')

/-- `ap_texpr0_cmp_range`: itv/itv_linearize.c:1228-1248; `true` keeps the second interval -/
def cmpRange (la : ILinexpr K) (ia : Itv K) (lb : ILinexpr K) (ib : Itv K) : Bool :=
  if la.terms.isEmpty then false
  else if lb.terms.isEmpty then true
  else
    let sa := ia.isPos || ia.isNeg
    let sb := ib.isPos || ib.isNeg
    if sa ≠ sb then !sa
    else !decide (Bound.cmp (Itv.rangeRel R ia) (Itv.rangeRel R ib) < 0)

/-- rounding and reduction after an operation, itv/itv_linearize.c:1325-1331 -/
def finishLin (env : ℕ → Itv K) (l : ILinexpr K) (i : Itv K) (org dst : RType) (d : RDir) :
    ILinexpr K × Itv K × RType :=
  let q := roundLin R F l i org dst d
  let s := reduceLin R env q.1 q.2
  (s.1, s.2, dst)

/-- type of the exact result of an addition, subtraction or multiplication,
itv/itv_linearize.c:1326-1327 -/
def exactType (t1 t2 : RType) : RType := if t1 = .int ∧ t2 = .int then .int else .real

/-- `ap_texpr0_node_intlinearize` on a unary node: itv/itv_linearize.c:1281-1306 -/
def unLin (env : ℕ → Itv K) (op : UnOp) (t : RType) (d : RDir) (p : ILinexpr K × Itv K × RType) :
    ILinexpr K × Itv K × RType :=
  match op with
  | .neg => (p.1.neg, p.2.1.neg, p.2.2)
  | .cast => finishLin R F env p.1 p.2.1 p.2.2 t d
  | .sqrt => let i := round F t d (Itv.sqrt o p.2.1); (ILinexpr.const i, i, t)

/-- the expression used as destination: that of the second argument for the additive operations and
the product, itv/itv_linearize.c:1310-1312, that of the first one otherwise -/
def destEq (op : BinOp) (a b : Bool) : Bool :=
  match op with
  | .add | .sub | .mul => b
  | _ => a

/-- the operations on non-empty intervals, itv/itv_linearize.c:1319-1449 -/
def opLin (env : ℕ → Itv K) (op : BinOp) (t : RType) (d : RDir) (p q : ILinexpr K × Itv K × RType) :
    ILinexpr K × Itv K × RType :=
  match op with
  | .add => finishLin R F env (p.1.add R q.1) (Itv.add R p.2.1 q.2.1) (exactType p.2.2 q.2.2) t d
  | .sub => finishLin R F env (p.1.sub R q.1) (Itv.sub R p.2.1 q.2.1) (exactType p.2.2 q.2.2) t d
  | .mul => finishLin R F env
      (if cmpRange R p.1 p.2.1 q.1 q.2.1 then p.1.scale R q.2.1 else q.1.scale R p.2.1)
      (Itv.mul R p.2.1 q.2.1) (exactType p.2.2 q.2.2) t d
  | .div => finishLin R F env (p.1.div R q.2.1) (Itv.div R p.2.1 q.2.1) .real t d
  | .mod => let i := Itv.mod R p.2.1 q.2.1 (decide (t = .int)); (ILinexpr.const i, i, t)
  | .pow => let i := Itv.pow R p.2.1 q.2.1; (ILinexpr.const i, i, t)

/-- `ap_texpr0_node_intlinearize` on a binary node: itv/itv_linearize.c:1308-1449; `p` and `q` are the
results for the two arguments -/
def binLin (env : ℕ → Itv K) (op : BinOp) (t : RType) (d : RDir) (p q : ILinexpr K × Itv K × RType) :
    ILinexpr K × Itv K × RType :=
  if p.2.1.isBottom || q.2.1.isBottom then (⟨Itv.bottom, destEq op p.1.eq q.1.eq, []⟩, Itv.bottom, t)
  else opLin R F env op t d p q

/-- `itv_intlinearize_texpr0_rec`: itv/itv_linearize.c:1456-1508; the Boolean is the field `equality`
of `lres` on entry.  Addition, subtraction and multiplication give `lres` to their second argument
and a fresh expression to the first; the other operations the converse. -/
def intlin (env : ℕ → Itv K) (intdim : ℕ) : Bool → Texpr K → ILinexpr K × Itv K × RType
  | _, .cst c =>
    let i := Itv.setApCoeff R c
    (ILinexpr.const i, i, if i.hasIntBounds then .int else .real)
  | e0, .dim d => (⟨Itv.point 0, e0, [⟨d, true, Itv.point 1⟩]⟩, env d, if d < intdim then .int else .real)
  | e0, .un op t d a => unLin R o F env op t d (intlin env intdim e0 a)
  | e0, .bin op t d a b =>
    match op with
    | .add | .sub | .mul =>
      binLin R F env op t d (intlin env intdim true a) (intlin env intdim e0 b)
    | _ => binLin R F env op t d (intlin env intdim e0 a) (intlin env intdim true b)

/-- `itv_intlinearize_ap_texpr0`: itv/itv_linearize.c:1511-1534: the expression and `exc` -/
def intlinearize (env : ℕ → Itv K) (intdim : ℕ) (e0 : Bool) (e : Texpr K) : ILinexpr K × Bool :=
  let r := intlin R o F env intdim e0 e
  if !r.2.1.isBottom && !r.1.cst.isBottom then
    if r.1.terms.isEmpty then
      let c := Itv.meet r.1.cst r.2.1
      (⟨c, c.isPoint, r.1.terms⟩, false)
    else (r.1, false)
  else (r.1, true)

/-- the interval tested for emptiness: itv/itv_linearize.c:1549-1563 (`old` for the other types:
the interval is left as it was) -/
def satBound (typ : ConsTyp K) (i old : Itv K) : Itv K :=
  match typ with
  | .eq => Itv.meet i (Itv.point 0)
  | .supeq | .sup => Itv.meet i ⟨fin 0, pinf⟩
  | _ => old

/-- `itv_intlinearize_ap_tcons0`: itv/itv_linearize.c:1536-1585: the constraint and `exc` -/
def intlinearizeCons (env : ℕ → Itv K) (intdim : ℕ) (c : Tcons K) : ILincons K × Bool :=
  let r := intlin R o F env intdim true c.expr
  if !(satBound c.typ r.2.1 (Itv.point 0)).isBottom && !r.1.cst.isBottom then
    if r.1.terms.isEmpty then
      let k := Itv.meet r.1.cst r.2.1
      (⟨c.typ, ⟨k, k.isPoint, r.1.terms⟩⟩, false)
    else (⟨c.typ, r.1⟩, false)
  else (ILincons.setBool false, true)

/-- the loop of `itv_intlinearize_ap_tcons0_array`: itv/itv_linearize.c:1603-1635; `none` when the
array is replaced by the constraint `false`; `bound` is the interval left by the previous
constraints -/
def intlinArrayGo (env : ℕ → Itv K) (intdim : ℕ) : Itv K → List (Tcons K) → Option (List (ILincons K))
  | _, [] => some []
  | bound, c :: l =>
    let r := intlin R o F env intdim true c.expr
    let b := satBound c.typ r.2.1 bound
    if b.isBottom || r.1.cst.isBottom ||
        (r.1.terms.isEmpty && decide (ILincons.evalCst' ⟨c.typ, r.1⟩ = .f)) then none
    else (intlinArrayGo env intdim b l).map (⟨c.typ, r.1⟩ :: ·)

/-- `itv_intlinearize_ap_tcons0_array`: itv/itv_linearize.c:1587-1640 -/
def intlinearizeArray (env : ℕ → Itv K) (intdim : ℕ) (l : List (Tcons K)) : List (ILincons K) :=
  (intlinArrayGo R o F env intdim (Itv.point 0) l).getD [ILincons.setBool false]

/-! ## Interval linear trees -/

/-- `itv_intlinearize_ap_texpr0_intlinear` and `ap_texpr0_node_intlinearize_linear`:
itv/itv_linearize.c:895-1008; `none` when the code returns `true` (not interval linear). -/
def intlinear : Bool → Texpr K → Option (ILinexpr K)
  | _, .cst c => some (ILinexpr.const (Itv.setApCoeff R c))
  | e0, .dim d => some ⟨Itv.point 0, e0, [⟨d, true, Itv.point 1⟩]⟩
  | e0, .un op t d a =>
    if isIntervalCst (.un op t d a) then some (ILinexpr.const (eval R o F (fun _ => Itv.top) (.un op t d a)))
    else match op with
      | .neg => (intlinear e0 a).map ILinexpr.neg
      | .cast => if t = .real then intlinear e0 a else none
      | .sqrt => none
  | e0, .bin op t d a b =>
    if isIntervalCst (.bin op t d a b) then
      some (ILinexpr.const (eval R o F (fun _ => Itv.top) (.bin op t d a b)))
    else if t ≠ .real then none
    else match op with
      | .add => (intlinear true a).bind fun la => (intlinear e0 b).map fun lb => la.add R lb
      | .sub => (intlinear true a).bind fun la => (intlinear e0 b).map fun lb => la.sub R lb
      | .mul =>
        if isIntervalCst b then
          (intlinear e0 a).map fun l => l.scale R (eval R o F (fun _ => Itv.top) b)
        else if isIntervalCst a then
          (intlinear e0 b).map fun l => l.scale R (eval R o F (fun _ => Itv.top) a)
        else none
      | .div =>
        if isIntervalCst b then
          (intlinear e0 a).map fun l =>
            l.scale R (Itv.div R (Itv.point 1) (eval R o F (fun _ => Itv.top) b))
        else none
      | _ => none

/-- `itv_intlinearize_ap_tcons0_intlinear`: itv/itv_linearize.c:1010-1025: the constraint and the
returned flag -/
def intlinearCons (c : Tcons K) : ILincons K × Bool :=
  match intlinear R o F true c.expr with
  | none => (ILincons.setBool false, true)
  | some l => (⟨c.typ, l⟩, false)

/-- the loop of `itv_intlinearize_ap_tcons0_array_intlinear`: itv/itv_linearize.c:1037-1050; `none`
when the loop is left by `break` -/
def intlinearArrayGo : List (Tcons K) → Option (List (ILincons K))
  | [] => some []
  | c :: l =>
    match intlinear R o F true c.expr with
    | none => none
    | some e => (intlinearArrayGo l).map (⟨c.typ, e⟩ :: ·)

/-- `itv_intlinearize_ap_tcons0_array_intlinear`: itv/itv_linearize.c:1027-1053.  The variable `exc`
that is returned is not the one assigned in the loop (line 1038 declares another one), so the flag
is always `false`. -/
def intlinearArray (l : List (Tcons K)) : List (ILincons K) × Bool :=
  ((intlinearArrayGo R o F l).getD [ILincons.setBool false], false)

end Texpr

/-- `box_meet_tcons_array` with `algorithm < 100`: box/box_meetjoin.c:211-248.  `red` is the variant of
`itv_lincons_reduce_integer` selected by the number type. -/
def Box.meetTconsLin [FloorRing K] (o : RootOps K) (F : FltOps K) (red : ILincons K → ℕ → ILincons K) (a : Box K)
    (l : List (Tcons K)) (algo : ℕ) : Box K :=
  match a.p with
  | none => a
  | some p =>
    let kmax := if algo < 1 then 2 else algo
    let t := ILincons.arrayReduceInteger red (Texpr.intlinearizeArray R o F p a.intdim l) a.intdim
    if t.2 = .f then Box.setBottom a
    else
      let s := ILincons.boxizeArray R t.1 true p p a.intdim kmax false
      if s.empty then Box.setBottom a else ⟨some s.res, a.intdim, a.realdim⟩

end Apron
