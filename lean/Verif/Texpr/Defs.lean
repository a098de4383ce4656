import Verif.Itv.Pow
import Verif.Itv.Linexpr
import Verif.Box.Defs

/-!
# Expression trees

`ap_texpr0_t` (apron/ap_texpr0.h), their real-valued semantics with rounding, the interval
evaluation of `itv_eval_ap_texpr0` (itv/itv_linearize.c:741-882), the linearizations of sections V
and VI of that file (884-1640), the HC4 forward/backward propagation of section VII (1642-2230),
and the box operations built on them.

Simplifications.
* A node is a unary or a binary operation by construction; the C code decides by `exprB!=NULL`, and
  the constructors of apron/ap_texpr0.c never build anything else.
* Floating-point formats are a parameter (`FltOps` for what the code computes, `FltSem` for what an
  execution may compute); NaN, and overflows of an execution, are not modelled.
* Memory is not modelled: the in-place evaluation order (`res` is written by the rightmost leaf
  last) makes the destructive calls equal to the functional ones.  The one place where sharing of a
  scratch interval changes a result (`itv_mod` called with `intern->eval_itv` as result) is
  modelled by `modScratch`.
-/

set_option autoImplicit false
set_option linter.unusedSectionVars false
set_option linter.ambiguousOpen false

namespace Apron
open Bound

/-- `ap_texpr_rtype_t`: apron/ap_texpr0.h:53-61 -/
inductive RType | real | int | single | double | extended | quad
  deriving DecidableEq, Repr

/-- `ap_texpr_rdir_t`: apron/ap_texpr0.h:64-71 -/
inductive RDir | nearest | zero | up | down | rnd
  deriving DecidableEq, Repr

/-- unary operators of `ap_texpr_op_t`: apron/ap_texpr0.h:46-48 -/
inductive UnOp | neg | cast | sqrt
  deriving DecidableEq, Repr

/-- binary operators of `ap_texpr_op_t`: apron/ap_texpr0.h:41-44 -/
inductive BinOp | add | sub | mul | div | mod | pow
  deriving DecidableEq, Repr

/-- `ap_texpr0_t`: apron/ap_texpr0.h:76-104 -/
inductive Texpr (K : Type*) where
  | cst (c : Coeff K)
  | dim (d : ℕ)
  | un (op : UnOp) (t : RType) (d : RDir) (a : Texpr K)
  | bin (op : BinOp) (t : RType) (d : RDir) (a b : Texpr K)
  deriving DecidableEq, Repr

/-- `ap_tcons0_t`: apron/ap_tcons0.h:25-31 -/
structure Tcons (K : Type*) where
  typ : ConsTyp K
  expr : Texpr K
  deriving DecidableEq, Repr

/-- floating-point formats, by increasing precision -/
def RType.isFlt : RType → Bool
  | .real | .int => false
  | _ => true

/-- every value of the format `t` is one of the format `t'`
(the tests of `ap_texpr0_round`, itv/itv_linearize.c:1163-1180) -/
def RType.sub : RType → RType → Bool
  | .single, .single | .single, .double | .single, .extended | .single, .quad => true
  | .double, .double | .double, .extended | .double, .quad => true
  | .extended, .extended | .extended, .quad => true
  | .quad, .quad => true
  | _, _ => false

/-- What the code computes for floating-point types: `bound_to_float`, `bound_to_double`,
`bound_next_float`, `bound_next_double` on finite bounds (num/bound_def.h:392-472), and the fields
`ulp->sup`, `min->sup` of the `float_const` of each type (itv/itv.c:20-75). -/
structure FltOps (K : Type*) where
  toSingle : K → Bound K
  toDouble : K → Bound K
  nextSingle : K → Bound K
  nextDouble : K → Bound K
  ulp : RType → K
  min : RType → K

/-- What an execution may compute: `rnd t d v w` when `v` may be rounded to `w` in format `t` and
direction `d`; `repr t v` when `v` is a value of the format. -/
structure FltSem (K : Type*) where
  rnd : RType → RDir → K → K → Prop
  repr : RType → K → Prop

section
variable {K : Type*} [LinearOrder K] [Field K] [IsStrictOrderedRing K]

/-- `bound_to_float` or `bound_to_double` on a finite bound, as selected by `itv_round` -/
def FltOps.up (F : FltOps K) : RType → K → Bound K
  | .single => F.toSingle
  | _ => F.toDouble
/-- `bound_next_float` or `bound_next_double` on a finite bound, as selected by `itv_unround` -/
def FltOps.next (F : FltOps K) : RType → K → Bound K
  | .single => F.nextSingle
  | _ => F.nextDouble

/-- The code's conversions are correct for the executions described by `S`. -/
structure FltOK (F : FltOps K) (S : FltSem K) : Prop where
  /-- rounding is below the upward conversion of every upper bound -/
  up_ge : ∀ t d v w q, t.isFlt = true → S.rnd t d v w → v ≤ q → fin w ≤ F.up t q
  /-- the same for the negated value (lower bounds are stored negated) -/
  up_ge_neg : ∀ t d v w q, t.isFlt = true → S.rnd t d v w → -v ≤ q → fin (-w) ≤ F.up t q
  /-- relative and absolute error -/
  err : ∀ t d v w, t.isFlt = true → S.rnd t d v w → |w - v| ≤ F.ulp t * |v| + F.min t
  ulp_nonneg : ∀ t, 0 ≤ F.ulp t
  min_nonneg : ∀ t, 0 ≤ F.min t
  /-- results of a rounding are values of the format -/
  repr_rnd : ∀ t d v w, t.isFlt = true → S.rnd t d v w → S.repr t w
  /-- values of a less precise format are kept by rounding -/
  exact : ∀ t t' d v w, t.sub t' = true → S.repr t v → S.rnd t' d v w → w = v
  repr_neg : ∀ t v, S.repr t v → S.repr t (-v)

/-- Backward conversions are correct for the executions described by `S`: a value is below the
successor of every non-zero upper bound of its rounding; and no execution rounds a non-zero value
to a bound 0 from the other side (no underflow to zero). -/
structure UnroundOK (F : FltOps K) (S : FltSem K) : Prop where
  next_ge : ∀ t d v w q, t.isFlt = true → S.rnd t d v w → w ≤ q → q ≠ 0 → fin v ≤ F.next t q
  next_ge_neg : ∀ t d v w q, t.isFlt = true → S.rnd t d v w → -w ≤ q → q ≠ 0 → fin (-v) ≤ F.next t q
  no_underflow : ∀ t d v w, t.isFlt = true → S.rnd t d v w → (w ≤ 0 → v ≤ 0) ∧ (0 ≤ w → 0 ≤ v)

/-! ## Semantics -/

section sem
variable [FloorRing K]

/-- Specification: `v` may be rounded to `w` -/
def Rounds (S : FltSem K) : RType → RDir → K → K → Prop
  | .real, _, v, w => w = v
  | .int, .zero, v, w => w = (if 0 ≤ v then ((⌊v⌋ : ℤ) : K) else ((⌈v⌉ : ℤ) : K))
  | .int, .up, v, w => w = ((⌈v⌉ : ℤ) : K)
  | .int, .down, v, w => w = ((⌊v⌋ : ℤ) : K)
  | .int, .nearest, v, w => ∃ n : ℤ, w = n ∧ |v - n| ≤ 1 / 2
  | .int, .rnd, v, w => w = ((⌊v⌋ : ℤ) : K) ∨ w = ((⌈v⌉ : ℤ) : K)
  | t, d, v, w => S.rnd t d v w

/-- Specification: value of a unary operation before rounding (undefined on negative square
roots) -/
def UnOp.Val : UnOp → K → K → Prop
  | .neg, a, w => w = -a
  | .cast, a, w => w = a
  | .sqrt, a, w => 0 ≤ w ∧ w * w = a

/-- Specification: value of a binary operation before rounding.  Division and modulo by zero are
undefined, as is the integer modulo of non-integers; the modulo has the sign of its first argument;
a power with an exponent that is not a natural number may take any value. -/
def BinOp.Val : BinOp → RType → K → K → K → Prop
  | .add, _, a, b, w => w = a + b
  | .sub, _, a, b, w => w = a - b
  | .mul, _, a, b, w => w = a * b
  | .div, _, a, b, w => b ≠ 0 ∧ w = a / b
  | .mod, t, a, b, w => b ≠ 0 ∧ (t = .int → ∃ m n : ℤ, a = m ∧ b = n) ∧
      w = a - |b| * (if 0 ≤ a / |b| then ((⌊a / |b|⌋ : ℤ) : K) else ((⌈a / |b|⌉ : ℤ) : K))
  | .pow, _, a, b, w => ∀ k : ℕ, b = k → w = a ^ k

/-- Specification: `v` is a possible value of the tree at the point `x`.  Negation and modulo do not
round (apron/ap_texpr0.h:43,47). -/
def Texpr.Val (S : FltSem K) : Texpr K → (ℕ → K) → K → Prop
  | .cst c, _, v => c.Has v
  | .dim d, x, v => v = x d
  | .un op t d a, x, v => ∃ va w, Texpr.Val S a x va ∧ op.Val va w ∧
      (if op = .neg then v = w else Rounds S t d w v)
  | .bin op t d a b, x, v => ∃ va vb w, Texpr.Val S a x va ∧ Texpr.Val S b x vb ∧ op.Val t va vb w ∧
      (if op = .mod then v = w else Rounds S t d w v)

/-- Specification: the constraint is defined and holds at `x` for one of its values -/
def Tcons.Holds (S : FltSem K) (c : Tcons K) (x : ℕ → K) : Prop :=
  ∃ v, c.expr.Val S x v ∧ Lincons.Rel c.typ v

/-- all dimensions are below `n` -/
def Texpr.InDim (n : ℕ) : Texpr K → Prop
  | .cst _ => True
  | .dim d => d < n
  | .un _ _ _ a => Texpr.InDim n a
  | .bin _ _ _ a b => Texpr.InDim n a ∧ Texpr.InDim n b

end sem

/-! ## Interval evaluation -/

/-- `bound_to_float`, `bound_to_double`: num/bound_def.h:392-432 -/
def Bound.toFlt (f : K → Bound K) : Bound K → Bound K
  | fin q => f q
  | b => b

/-- `bound_next_float`, `bound_next_double`: num/bound_def.h:434-472 -/
def Bound.nextFlt (f : K → Bound K) : Bound K → Bound K
  | fin q => f q
  | _ => pinf

namespace Texpr
variable [FloorRing K]

/-- `itv_round`: itv/itv_linearize.c:746-793 -/
def round (F : FltOps K) (t : RType) (d : RDir) (i : Itv K) : Itv K :=
  match t, d with
  | .real, _ => i
  | .int, .zero => Itv.trunc i
  | .int, .up => Itv.ceil i
  | .int, .down => Itv.floor i
  | .int, _ => Itv.toInt i
  | t, _ => ⟨Bound.toFlt (F.up t) i.inf, Bound.toFlt (F.up t) i.sup⟩

variable (R : Rnd K) (o : RootOps K) (F : FltOps K)

/-- `itv_eval_ap_texpr0_node` on a unary node: itv/itv_linearize.c:798-835 -/
def evalUn (op : UnOp) (t : RType) (d : RDir) (i : Itv K) : Itv K :=
  match op with
  | .neg => Itv.neg i
  | .cast => round F t d i
  | .sqrt => round F t d (Itv.sqrt o i)

/-- `itv_eval_ap_texpr0_node` on a binary node: itv/itv_linearize.c:798-835 -/
def evalBin (op : BinOp) (t : RType) (d : RDir) (i j : Itv K) : Itv K :=
  match op with
  | .add => round F t d (Itv.add R i j)
  | .sub => round F t d (Itv.sub R i j)
  | .mul => round F t d (Itv.mul R i j)
  | .div => round F t d (Itv.div R i j)
  | .pow => round F t d (Itv.pow R i j)
  | .mod => Itv.mod R i j (decide (t = .int))

/-- `itv_eval_ap_texpr0`: itv/itv_linearize.c:839-882 -/
def eval (env : ℕ → Itv K) : Texpr K → Itv K
  | .cst c => Itv.setApCoeff R c
  | .dim d => env d
  | .un op t d a =>
    let i := eval env a
    if i.isBottom then i else evalUn o F op t d i
  | .bin op t d a b =>
    let i := eval env a
    let j := eval env b
    if i.isBottom || j.isBottom then Itv.bottom else evalBin R F op t d i j

end Texpr

/-! ## Box operations that evaluate trees -/

namespace Box
variable [FloorRing K] (R : Rnd K) (o : RootOps K) (F : FltOps K)

/-- `box_bound_texpr`: box/box_constructor.c:287-306 -/
def boundTexpr (a : Box K) (e : Texpr K) : Itv K :=
  match a.p with
  | none => Itv.bottom
  | some p => e.eval R o F p

/-- `box_sat_tcons`: box/box_constructor.c:208-236; `none` is the division by zero of
`itv_eval_cstlincons` -/
def satTcons (a : Box K) (c : Tcons K) : Option Bool :=
  match a.p with
  | none => some true
  | some p =>
    let i := c.expr.eval R o F p
    (ILincons.evalCst ⟨c.typ, ⟨i, i.isPoint, []⟩⟩).map fun t => decide (t = .t)

/-- the loop of `box_assign_texpr_array`: box/box_assign.c:111-116 -/
def assignTGo (p : ℕ → Itv K) : List (ℕ × Texpr K) → (ℕ → Itv K) → ℕ → Itv K
  | [], r => r
  | (d, e) :: l, r => assignTGo p l (Function.update r d (e.eval R o F p))

/-- `box_assign_texpr` and `box_assign_texpr_array`: box/box_assign.c:68-125 -/
def assignTexprArray (a : Box K) (l : List (ℕ × Texpr K)) (dest : Option (Box K)) : Box K :=
  match a.p, dest with
  | none, _ => a
  | some p, none => ⟨some (assignTGo R o F p l p), a.intdim, a.realdim⟩
  | some p, some b =>
    if b.isBottom then a
    else meet ⟨some (assignTGo R o F p l p), a.intdim, a.realdim⟩ b

end Box
end
end Apron
