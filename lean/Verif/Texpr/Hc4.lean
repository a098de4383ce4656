import Verif.Texpr.Defs

/-!
# Forward/backward propagation on expression trees (HC4)

Model of section VII of itv/itv_linearize.c (1642-2131) and of the HC4 branch of
`box_meet_tcons_array` (box/box_meetjoin.c:249-258).
-/

set_option autoImplicit false
set_option linter.unusedSectionVars false
set_option linter.ambiguousOpen false

namespace Apron
open Bound

/-- `itv_expr_t`, a tree annotated with intervals: itv/itv_linearize.c:1652-1655 -/
inductive AExpr (K : Type*) where
  | cst (c : Coeff K) (v : Itv K)
  | dim (d : ℕ) (v : Itv K)
  | un (op : UnOp) (t : RType) (d : RDir) (a : AExpr K) (v : Itv K)
  | bin (op : BinOp) (t : RType) (d : RDir) (a b : AExpr K) (v : Itv K)
  deriving DecidableEq, Repr

variable {K : Type*} [LinearOrder K] [Field K] [IsStrictOrderedRing K] [FloorRing K]

/-- the `val` field -/
def AExpr.val : AExpr K → Itv K
  | .cst _ v | .dim _ v | .un _ _ _ _ v | .bin _ _ _ _ _ v => v

section
variable (R : Rnd K) (o : RootOps K) (F : FltOps K)

/-- `itv_expr_build`: itv/itv_linearize.c:1683-1729 -/
def AExpr.build (env : ℕ → Itv K) : Texpr K → AExpr K
  | .cst c => .cst c (Itv.setApCoeff R c)
  | .dim d => .dim d (env d)
  | .un op t d e =>
    let a := build env e
    .un op t d a (if a.val.isBottom then Itv.bottom else Texpr.evalUn o F op t d a.val)
  | .bin op t d e f =>
    let a := build env e
    let b := build env f
    .bin op t d a b
      (if a.val.isBottom || b.val.isBottom then Itv.bottom else Texpr.evalBin R F op t d a.val b.val)

/-- `itv_mod` called with `intern->eval_itv` as result (itv/itv.c:275-300 from
itv/itv_linearize.c:1768): line 297 overwrites the range computed in `eval_itv`, so that the meet of
line 298 is with itself -/
def Itv.modScratch (b c : Itv K) : Itv K :=
  let e := Itv.abs c
  if sgn e.inf = 0 then Itv.top
  else Itv.sub R b (Itv.mul R (Itv.trunc (Itv.div R b e)) e)

/-- `itv_eval_ap_texpr0_node` with result `intern->eval_itv`: itv/itv_linearize.c:1768 -/
def Texpr.evalBinScratch (op : BinOp) (t : RType) (d : RDir) (i j : Itv K) : Itv K :=
  match op with
  | .mod => Itv.modScratch R i j
  | _ => Texpr.evalBin R F op t d i j

/-- the end of the `NODE` case of `itv_expr_bottom_up`: itv/itv_linearize.c:1771-1777 -/
def AExpr.upVal (m v : Itv K) : Itv K := if Itv.isEq m v then v else m

/-- `itv_expr_bottom_up`: itv/itv_linearize.c:1736-1783; the flag tells whether a value changed -/
def AExpr.bottomUp (env : ℕ → Itv K) : AExpr K → AExpr K × Bool
  | .cst c v => (.cst c v, false)
  | .dim d v =>
    let m := Itv.meet v (env d)
    if Itv.isEq m v then (.dim d v, false) else (.dim d m, true)
  | .un op t d a v =>
    let a' := bottomUp env a
    let m := if a'.1.val.isBottom then Itv.bottom
      else Itv.meet (Texpr.evalUn o F op t d a'.1.val) v
    if Itv.isEq m v then (.un op t d a'.1 v, a'.2) else (.un op t d a'.1 m, true)
  | .bin op t d a b v =>
    let a' := bottomUp env a
    let b' := bottomUp env b
    let m := if a'.1.val.isBottom || b'.1.val.isBottom then Itv.bottom
      else Itv.meet (Texpr.evalBinScratch R F op t d a'.1.val b'.1.val) v
    if Itv.isEq m v then (.bin op t d a'.1 b'.1 v, a'.2 || b'.2) else (.bin op t d a'.1 b'.1 m, true)

/-- `itv_from_float`, `itv_from_double` on one bound: itv/itv.h:630-646 -/
def Bound.fromFlt (f : K → Bound K) (b : Bound K) : Bound K :=
  if sgn b = 0 then b else Bound.nextFlt f b

/-- `itv_unround`: itv/itv_linearize.c:1790-1831 -/
def Texpr.unround (t : RType) (d : RDir) (i : Itv K) : Itv K :=
  match t, d with
  | .real, _ => i
  | .int, .zero => Itv.untrunc R i
  | .int, .up => Itv.unceil R i
  | .int, .down => Itv.unfloor R i
  | .int, _ => Itv.fromInt i
  | t, _ => ⟨Bound.fromFlt (F.next t) i.inf, Bound.fromFlt (F.next t) i.sup⟩

/-- `itv_refine_ap_texpr0_node` on a unary node, refined operand: itv/itv_linearize.c:1838-1886 -/
def Texpr.refineUn (op : UnOp) (t : RType) (d : RDir) (res arg : Itv K) : Itv K :=
  match op with
  | .neg => Itv.meet (Itv.neg res) arg
  | .cast => Itv.meet (Texpr.unround R F t d res) arg
  | .sqrt => Itv.meet (Itv.mul R (Texpr.unround R F t d res) (Texpr.unround R F t d res)) arg

/-- the test `bound_sgn(i->inf) >= 0 && bound_sgn(i->sup) >= 0`: 0 may be in the interval -/
def Itv.mayZero (i : Itv K) : Bool := decide (0 ≤ sgn i.inf) && decide (0 ≤ sgn i.sup)

/-- `itv_refine_ap_texpr0_node` on a binary node, refined operands: itv/itv_linearize.c:1838-1945.
The `POW` case passes `res`, not the unrounded value, to `itv_inv_pow` (1937). -/
def Texpr.refineBin (op : BinOp) (t : RType) (d : RDir) (res arg1 arg2 : Itv K) : Itv K × Itv K :=
  let u := Texpr.unround R F t d res
  match op with
  | .add => (Itv.meet (Itv.sub R u arg2) arg1, Itv.meet (Itv.sub R u arg1) arg2)
  | .sub => (Itv.meet (Itv.add R arg2 u) arg1, Itv.meet (Itv.sub R arg1 u) arg2)
  | .mul => (if arg2.mayZero then arg1 else Itv.meet (Itv.div R u arg2) arg1,
      if arg1.mayZero then arg2 else Itv.meet (Itv.div R u arg1) arg2)
  | .div => (Itv.meet (Itv.mul R u arg2) arg1,
      if u.mayZero then arg2 else Itv.meet (Itv.div R arg1 u) arg2)
  | .pow => (Itv.meet (Itv.invPow o arg1 res arg2) arg1, arg2)
  | .mod => (arg1, arg2)

/-- result of a downward pass: annotated tree, environment, "some variable changed" -/
structure Down (K : Type*) where
  expr : AExpr K
  env : ℕ → Itv K
  changed : Bool

/-- `itv_expr_top_down` on the tree `A` whose root value has been replaced by `v`:
itv/itv_linearize.c:1953-2004 -/
def AExpr.topDown (intdim : ℕ) : AExpr K → Itv K → (ℕ → Itv K) → Down K
  | .cst c _, v, env => ⟨.cst c v, env, v.isBottom⟩
  | .dim d _, v, env =>
    if v.isBottom then ⟨.dim d v, env, true⟩
    else
      let m := Itv.canonicalize (Itv.meet (env d) v) (decide (d < intdim))
      if Itv.isEq m (env d) then ⟨.dim d m, env, false⟩
      else ⟨.dim d m, Function.update env d m, true⟩
  | .un op t d a _, v, env =>
    if v.isBottom then ⟨.un op t d a v, env, true⟩
    else
      let e1 := Texpr.refineUn R F op t d v a.val
      if Itv.isEq e1 a.val then ⟨.un op t d a v, env, false⟩
      else
        let r := topDown intdim a e1 env
        ⟨.un op t d r.expr v, r.env, r.changed⟩
  | .bin op t d a b _, v, env =>
    if v.isBottom then ⟨.bin op t d a b v, env, true⟩
    else
      let e := Texpr.refineBin R o F op t d v a.val b.val
      let r1 := if Itv.isEq e.1 a.val then ⟨a, env, false⟩ else topDown intdim a e.1 env
      let r2 := if Itv.isEq e.2 b.val then ⟨b, r1.env, false⟩ else topDown intdim b e.2 r1.env
      ⟨.bin op t d r1.expr r2.expr v, r2.env, r1.changed || r2.changed⟩

/-- `itv_refine_cons`: itv/itv_linearize.c:2011-2042 -/
def AExpr.refineCons (intdim : ℕ) (typ : ConsTyp K) (e : AExpr K) (env : ℕ → Itv K) : Down K :=
  match typ with
  | .eq =>
    if e.val.isZero then ⟨e, env, false⟩
    else AExpr.topDown R o F intdim e (Itv.meet e.val (Itv.point 0)) env
  | .supeq | .sup =>
    if sgn e.val.inf ≤ 0 then ⟨e, env, false⟩
    else AExpr.topDown R o F intdim e (Itv.meet e.val ⟨fin 0, pinf⟩) env
  | .eqmod _ | .diseq => ⟨e, env, false⟩

/-- first inner loop of `itv_meet_ap_tcons0_array`: itv/itv_linearize.c:2086-2090 -/
def hc4Refine (intdim : ℕ) : List (AExpr K × ConsTyp K) → (ℕ → Itv K) →
    List (AExpr K × ConsTyp K) × (ℕ → Itv K) × Bool
  | [], env => ([], env, false)
  | (e, typ) :: l, env =>
    let r := AExpr.refineCons R o F intdim typ e env
    let s := hc4Refine intdim l r.env
    ((r.expr, typ) :: s.1, s.2.1, r.changed || s.2.2)

/-- second inner loop of `itv_meet_ap_tcons0_array`: itv/itv_linearize.c:2093-2102; the flags are
"some value changed" and "empty" (the loop stops there) -/
def hc4Up (env : ℕ → Itv K) : List (AExpr K × ConsTyp K) → List (AExpr K × ConsTyp K) × Bool × Bool
  | [] => ([], false, false)
  | (e, typ) :: l =>
    let r := AExpr.bottomUp R o F env e
    if r.1.val.isBottom then ((r.1, typ) :: l, false, true)
    else
      let s := hc4Up env l
      ((r.1, typ) :: s.1, (r.2 || s.2.1), s.2.2)

/-- main loop of `itv_meet_ap_tcons0_array`: itv/itv_linearize.c:2084-2104; the flag is "empty" -/
def hc4Loop (intdim : ℕ) : ℕ → List (AExpr K × ConsTyp K) → (ℕ → Itv K) → (ℕ → Itv K) × Bool
  | 0, _, env => (env, false)
  | n + 1, l, env =>
    let r := hc4Refine R o F intdim l env
    if r.2.2 then
      let s := hc4Up R o F r.2.1 r.1
      if s.2.2 then (r.2.1, true)
      else if s.2.1 then hc4Loop intdim n s.1 r.2.1
      else (r.2.1, false)
    else (r.2.1, false)

/-- `itv_meet_ap_tcons0_array`: itv/itv_linearize.c:2070-2111 -/
def hc4 (intdim : ℕ) (l : List (Tcons K)) (env : ℕ → Itv K) (maxIter : ℕ) : (ℕ → Itv K) × Bool :=
  hc4Loop R o F intdim maxIter (l.map fun c => (AExpr.build R o F env c.expr, c.typ)) env

/-- `box_meet_tcons_array` with `algorithm >= 100`: box/box_meetjoin.c:249-258 -/
def Box.meetTconsHC4 (a : Box K) (l : List (Tcons K)) (algo : ℕ) : Box K :=
  match a.p with
  | none => a
  | some p =>
    let kmax := if algo - 100 < 1 then 2 else algo - 100
    let r := hc4 R o F a.intdim l p kmax
    if r.2 then Box.setBottom a else ⟨some r.1, a.intdim, a.realdim⟩

end
end Apron
