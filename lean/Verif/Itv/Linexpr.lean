import Verif.Itv.Defs
import Verif.Core.Linexpr

/-!
# Interval linear expressions: model of `itv/itv_linexpr.c` and of parts I–III of
`itv/itv_linearize.c`

An `itv_linexpr_t` is an interval constant plus a sequence of terms; every coefficient carries a
flag `equality` telling that the coefficient is a single number.

Simplifications: arrays of terms and constraints are lists (a removal by swapping with the last
element is modelled as such, see `reduceGo`, `quasiGo`); terms never carry the dimension
`AP_DIM_MAX` (`itv_linexpr_set_ap_linexpr0` never stores one); `tchange` is not modelled.
-/

set_option autoImplicit false
set_option linter.unusedSectionVars false
set_option linter.ambiguousOpen false

namespace Apron
open Bound

/-- `itv_linterm_t`: itv/itv_linexpr.h:19-23 -/
structure ITerm (K : Type*) where
  dim : ℕ
  eq : Bool
  itv : Itv K
  deriving DecidableEq, Repr

/-- `itv_linexpr_t`: itv/itv_linexpr.h:25-30 -/
structure ILinexpr (K : Type*) where
  cst : Itv K
  eq : Bool
  terms : List (ITerm K)
  deriving DecidableEq, Repr

/-- `itv_lincons_t`: itv/itv_linexpr.h:32-36 (the modulus is part of the type) -/
structure ILincons (K : Type*) where
  typ : ConsTyp K
  expr : ILinexpr K
  deriving DecidableEq, Repr

/-- `tbool_t`: apron/ap_config.h / num -/
inductive TBool | f | t | top
  deriving DecidableEq, Repr

variable {K : Type*} [LinearOrder K] [Field K] [IsStrictOrderedRing K] (R : Rnd K)

/-! ## Conversions from user data -/

/-- `bound_set_ap_scalar`: num/bound_def.h:563-602 -/
def boundSetAp (b : Bound K) : Bound K :=
  match b with
  | fin q => R.up q
  | b => b

/-- the flag returned by `bound_set_ap_scalar` -/
def boundSetApExact (b : Bound K) : Bool :=
  match b with
  | fin q => decide (R.up q = fin q)
  | _ => true

namespace Itv

/-- `itv_set_ap_scalar`: itv/itv.c:693-707 -/
def setApScalar (b : Bound K) : Itv K :=
  if boundSetApExact R b then ⟨Bound.neg (boundSetAp R b), boundSetAp R b⟩
  else ⟨boundSetAp R (Bound.neg b), boundSetAp R b⟩

/-- `itv_set_ap_interval`: itv/itv.c:708-715; `l`, `u` are the user's lower and upper bounds -/
def setApInterval (l u : Bound K) : Itv K := ⟨boundSetAp R (Bound.neg l), boundSetAp R u⟩

/-- `itv_set_ap_coeff`: itv/itv.c:716-730 -/
def setApCoeff : Coeff K → Itv K
  | .scalar b => setApScalar R b
  | .interval l u => setApInterval R l u

/-- the flag returned by `itv_set_ap_coeff` -/
def setApCoeffExact : Coeff K → Bool
  | .scalar b => boundSetApExact R b
  | .interval l u => boundSetApExact R (Bound.neg l) && boundSetApExact R u

/-- the `equality` flag computed at every conversion, e.g. itv/itv_linexpr.c:205 -/
def setApEq (c : Coeff K) : Bool := setApCoeffExact R c && c.isScalar

end Itv

namespace ITerm

/-- the conversion of one term -/
def ofCoeff (p : ℕ × Coeff K) : ITerm K := ⟨p.1, Itv.setApEq R p.2, Itv.setApCoeff R p.2⟩

/-- Specification: the `equality` flag tells the truth -/
def FlagOk (t : ITerm K) : Prop := t.eq = true → ∀ q ∈ t.itv, t.itv = Itv.point q

end ITerm

namespace ILinexpr

/-- Specification: possible values of a sum of terms -/
def TVal : List (ITerm K) → (ℕ → K) → K → Prop
  | [], _, r => r = 0
  | t :: l, x, r => ∃ q s, q ∈ t.itv ∧ TVal l x s ∧ r = q * x t.dim + s

/-- Specification: `v` is a possible value of the expression at `x` -/
def Val (e : ILinexpr K) (x : ℕ → K) (v : K) : Prop :=
  ∃ q r, q ∈ e.cst ∧ TVal e.terms x r ∧ v = q + r

/-- Specification: all `equality` flags of the terms tell the truth -/
def FlagsOk (e : ILinexpr K) : Prop := ∀ t ∈ e.terms, t.FlagOk

/-- Specification: the `equality` flag of the constant tells the truth -/
def CstOk (e : ILinexpr K) : Prop := e.eq = true → ∀ q ∈ e.cst, e.cst = Itv.point q

/-- `itv_linexpr_set_ap_linexpr0`: itv/itv_linexpr.c:185-218 -/
def ofAp (e : Linexpr K) : ILinexpr K :=
  ⟨Itv.setApCoeff R e.cst, Itv.setApEq R e.cst,
    (e.terms.map (ITerm.ofCoeff R)).filter fun t => !t.itv.isZero⟩

/-- the flag returned by `itv_linexpr_set_ap_linexpr0` -/
def ofApExact (e : Linexpr K) : Bool :=
  Itv.setApCoeffExact R e.cst &&
    (e.terms.filter fun p => !(Itv.setApCoeff R p.2).isZero).all fun p => Itv.setApCoeffExact R p.2

/-! ## Evaluation -/

/-- one step of the loop of `itv_eval_linexpr`: itv/itv_linearize.c:27-41 -/
def evalStep (env : ℕ → Itv K) (t : ITerm K) (acc : Itv K) : Itv K :=
  if t.eq then
    if sgn t.itv.sup ≠ 0 then Itv.add R acc (Itv.mulBound R (env t.dim) t.itv.sup) else acc
  else Itv.add R acc (Itv.mul R (env t.dim) t.itv)

/-- the loop of `itv_eval_linexpr`: itv/itv_linearize.c:26-44 -/
def evalTerms (env : ℕ → Itv K) : List (ITerm K) → Itv K → Itv K
  | [], acc => acc
  | t :: l, acc =>
    if (evalStep R env t acc).isTop then evalStep R env t acc
    else evalTerms env l (evalStep R env t acc)

/-- `itv_eval_linexpr`: itv/itv_linearize.c:14-46 -/
def eval (e : ILinexpr K) (env : ℕ → Itv K) : Itv K := evalTerms R env e.terms e.cst

/-- `itv_eval_ap_linexpr0`: itv/itv_linearize.c:49-86 (the interval) -/
def evalAp (e : Linexpr K) (env : ℕ → Itv K) : Itv K :=
  evalTerms R env (e.terms.map (ITerm.ofCoeff R)) (Itv.setApCoeff R e.cst)

/-! ## Arithmetic -/

/-- `itv_linexpr_neg`: itv/itv_linexpr.c:306-320 -/
def neg (e : ILinexpr K) : ILinexpr K :=
  ⟨Itv.neg e.cst, e.eq, e.terms.map fun t => ⟨t.dim, t.eq, Itv.neg t.itv⟩⟩

/-- `itv_linexpr_scale`: itv/itv_linexpr.c:321-346 (the flag of the constant is left as it is) -/
def scale (e : ILinexpr K) (c : Itv K) : ILinexpr K :=
  if c.isZero then ⟨c, e.eq, []⟩
  else if (Itv.mul R e.cst c).isTop then ⟨Itv.mul R e.cst c, e.eq, []⟩
  else ⟨Itv.mul R e.cst c, e.eq,
    e.terms.map fun t => ⟨t.dim, t.eq && (Itv.mul R t.itv c).isPoint, Itv.mul R t.itv c⟩⟩

/-- `itv_linexpr_div`: itv/itv_linexpr.c:347-361 (the flag of the constant is left as it is) -/
def div (e : ILinexpr K) (c : Itv K) : ILinexpr K :=
  ⟨Itv.div R e.cst c, e.eq,
    e.terms.map fun t => ⟨t.dim, t.eq && (Itv.div R t.itv c).isPoint, Itv.div R t.itv c⟩⟩

/-- the term built when both expressions have the same dimension: itv/itv_linexpr.c:403-408 -/
def addTerm (a b : ITerm K) : ITerm K :=
  ⟨a.dim, a.eq && b.eq && (Itv.add R a.itv b.itv).isPoint, Itv.add R a.itv b.itv⟩

/-- the merging loop of `itv_linexpr_add`: itv/itv_linexpr.c:385-414; the first argument bounds the
number of iterations -/
def merge : ℕ → List (ITerm K) → List (ITerm K) → List (ITerm K)
  | 0, _, _ => []
  | _ + 1, [], [] => []
  | n + 1, [], b :: bs => b :: merge n [] bs
  | n + 1, a :: as, [] => a :: merge n as []
  | n + 1, a :: as, b :: bs =>
    if b.dim < a.dim then b :: merge n (a :: as) bs
    else if a.dim < b.dim then a :: merge n as (b :: bs)
    else if (addTerm R a b).itv.isZero then merge n as bs
    else addTerm R a b :: merge n as bs

/-- `itv_linexpr_add`: itv/itv_linexpr.c:363-424 -/
def add (a b : ILinexpr K) : ILinexpr K :=
  let cst := Itv.add R a.cst b.cst
  let eq := a.eq && b.eq && cst.isPoint
  if cst.isTop then ⟨cst, eq, []⟩
  else ⟨cst, eq, merge R (a.terms.length + b.terms.length + 1) a.terms b.terms⟩

/-- `itv_linexpr_sub`: itv/itv_linexpr.c:425-444 -/
def sub (a b : ILinexpr K) : ILinexpr K := add R a (neg b)

/-! ## Tests -/

/-- `itv_linexpr_is_scalar`: itv/itv_linexpr.c:450-461 -/
def isScalar (e : ILinexpr K) : Bool := e.eq && e.terms.all ITerm.eq

/-- `itv_linexpr_is_quasilinear`: itv/itv_linexpr.c:462-476 -/
def isQuasilinear (e : ILinexpr K) : Bool := e.terms.all ITerm.eq

/-- `itv_linexpr_is_integer`: itv/itv_linexpr.c:498-512 -/
def isInteger (e : ILinexpr K) (intdim : ℕ) : Bool := e.terms.all fun t => decide (t.dim < intdim)

end ILinexpr

namespace ILincons
open ILinexpr

/-- Specification: `x` satisfies the constraint for some choice of the coefficients -/
def Holds (c : ILincons K) (x : ℕ → K) : Prop := ∃ v, c.expr.Val x v ∧ Lincons.Rel c.typ v

/-- Specification: `x` satisfies the constraint for every choice of the coefficients -/
def HoldsAll (c : ILincons K) (x : ℕ → K) : Prop := ∀ v, c.expr.Val x v → Lincons.Rel c.typ v

/-- `itv_lincons_set_ap_lincons0`: itv/itv_linexpr.c:220-236 (the modulus is taken as it is) -/
def ofAp (c : Lincons K) : ILincons K := ⟨c.typ, ILinexpr.ofAp R c.expr⟩

/-- `itv_lincons_set_bool`: itv/itv_linexpr.c:101-108 -/
def setBool (b : Bool) : ILincons K := ⟨.eq, ⟨Itv.point (if b then 0 else 1), true, []⟩⟩

/-- `itv_eval_cstlincons`: itv/itv_linexpr.c:518-604.  `none` is a division by zero: in the `EQMOD`
case, line 563 tests `num_cmp_int(lincons->num,0)`, which is non-zero (true) for a non-zero modulus,
so the division of lines 567-585 is executed exactly when the modulus is 0.  (The rational and
integer variants; the floating-point variants return `top` there.) -/
def evalCst (c : ILincons K) : Option TBool :=
  let cst := c.expr.cst
  if cst.isBottom then some .f
  else match c.typ with
    | .eq =>
      if c.expr.eq then (if sgn cst.sup = 0 then some .t else some .f)
      else if sgn cst.sup < 0 ∨ sgn cst.inf < 0 then some .f else some .top
    | .diseq => if sgn cst.inf < 0 ∨ sgn cst.sup < 0 then some .t else some .top
    | .supeq => if sgn cst.inf ≤ 0 then some .t else if sgn cst.sup < 0 then some .f else some .top
    | .sup => if sgn cst.inf < 0 then some .t else if sgn cst.sup ≤ 0 then some .f else some .top
    | .eqmod m =>
      if c.expr.eq then
        if sgn cst.sup = 0 then some .t
        else if m ≠ 0 then (if sgn cst.sup = 0 then some .t else some .top)
        else none
      else some .top

/-- the result of `itv_eval_cstlincons` for the callers modelled below: a division by zero is
followed no further, and taken as `top` (what the floating-point variants return) -/
def evalCst' (c : ILincons K) : TBool := (evalCst c).getD .top

/-- `itv_sat_lincons_is_false`: itv/itv_linexpr.c:606-636 -/
def satIsFalse (c : ILincons K) : Bool :=
  (match c.typ with
    | .eq | .eqmod _ => !c.expr.eq
    | .diseq => infty c.expr.cst.inf && infty c.expr.cst.sup
    | .supeq | .sup => infty c.expr.cst.inf) ||
  (c.expr.terms.isEmpty && decide (evalCst' c = .f))

/-- `itv_lincons_is_useless_for_meet`: itv/itv_linexpr.c:638-671 -/
def useless (c : ILincons K) : Bool :=
  if c.expr.terms.isEmpty then decide (evalCst' c ≠ .f)
  else !c.expr.eq &&
    match c.typ with
    | .eq | .diseq | .eqmod _ => infty c.expr.cst.inf && infty c.expr.cst.sup
    | .supeq | .sup => infty c.expr.cst.sup

/-- removal of the head of a segment by exchange with its last element, itv/itv_linexpr.c:816-818 -/
def swapRemove {A : Type*} : List A → List A
  | [] => []
  | _ :: l => match l.getLast? with
    | none => []
    | some z => z :: l.dropLast

/-- the loop of `itv_lincons_array_reduce`: itv/itv_linexpr.c:810-838.  `done` are the constraints
before the index `i`, `todo` those from `i` to `size-1`; `none` when the constraint `false` was
found; the first argument bounds the number of iterations -/
def reduceGo (meet : Bool) : ℕ → List (ILincons K) → List (ILincons K) → Option (List (ILincons K))
  | 0, done, _ => some done
  | _ + 1, done, [] => some done
  | n + 1, done, c :: todo =>
    if c.expr.terms.isEmpty ∧ evalCst' c = .t then reduceGo meet n done (swapRemove (c :: todo))
    else if c.expr.terms.isEmpty ∧ evalCst' c = .f then none
    else if meet ∧ useless c then reduceGo meet n done (swapRemove (c :: todo))
    else if ¬ meet ∧ satIsFalse c then none
    else reduceGo meet n (done ++ [c]) todo

/-- `itv_lincons_array_reduce`: itv/itv_linexpr.c:802-846 (the array and the returned flag) -/
def arrayReduce (meet : Bool) (l : List (ILincons K)) : List (ILincons K) × TBool :=
  match reduceGo meet (l.length + 1) [] l with
  | none => ([setBool false], .f)
  | some [] => ([], .t)
  | some [c] => ([c], if c.expr.terms.isEmpty then evalCst' c else .top)
  | some l => (l, .top)

/-! ## Integer constraints -/

variable [FloorRing K]

/-- `num_integer` -/
def isInt (q : K) : Bool := decide (((⌊q⌋ : ℤ) : K) = q)

/-- end of `itv_lincons_reduce_integer` ("Constrain bounds"): itv/itv_linexpr.c:762-799 -/
def constrainBounds (c : ILincons K) : ILincons K :=
  let cst := c.expr.cst
  let sup' := match cst.sup, c.typ with
    | fin q, .sup => if isInt q then subNat R (fin q) 1 else fin (⌊q⌋ : ℤ)
    | b, _ => Bound.floor b
  let typ' : ConsTyp K := match c.typ with
    | .sup => if infty cst.sup then ConsTyp.sup else .supeq
    | t => t
  match typ' with
  | .eq =>
    let inf' := if infty cst.inf then cst.inf
      else if c.expr.eq then Bound.neg sup' else Bound.floor cst.inf
    if Itv.isBottom ⟨inf', sup'⟩ then setBool false
    else ⟨.eq, ⟨⟨inf', sup'⟩, c.expr.eq, c.expr.terms⟩⟩
  | t =>
    if infty sup' then ⟨t, ⟨⟨cst.inf, sup'⟩, c.expr.eq, c.expr.terms⟩⟩
    else ⟨t, ⟨⟨Bound.neg sup', sup'⟩, true, c.expr.terms⟩⟩

/-- the guards of `itv_lincons_reduce_integer`: itv/itv_linexpr.c:683-700 -/
def reducible (c : ILincons K) (intdim : ℕ) : Bool :=
  (match c.typ with | .eq | .supeq | .sup => true | _ => false) &&
    c.expr.isInteger intdim && c.expr.isQuasilinear

/-- the number in a bound; infinite bounds do not occur where it is used -/
def numref (b : Bound K) : K := match b with | fin q => q | _ => 0

/-- `itv_lincons_reduce_integer` for floating-point and integer numbers:
itv/itv_linexpr.c:673-700, 731-799 -/
def reduceIntegerFlt (c : ILincons K) (intdim : ℕ) : ILincons K :=
  if reducible c intdim then
    if c.expr.terms.all fun t => isInt (numref t.itv.sup) then
      let g : ℕ := c.expr.terms.foldl (fun g t => Nat.gcd g ⌊numref t.itv.sup⌋.natAbs) 0
      if g = 0 ∨ g = 1 ∨ R.up (g : K) ≠ fin (g : K) then c
      else constrainBounds R ⟨c.typ, ⟨Itv.divBound R c.expr.cst (fin (g : K)), c.expr.eq,
        c.expr.terms.map fun t => ⟨t.dim, t.eq, Itv.divBound R t.itv (fin (g : K))⟩⟩⟩
    else c
  else c

/-- `itv_lincons_reduce_integer` for rational numbers: itv/itv_linexpr.c:673-730, 762-799.
A coefficient `n/d` becomes the integer `(n/gcd)*lcm/d`. -/
def reduceIntegerRat (c : ILincons ℚ) (intdim : ℕ) : ILincons ℚ :=
  if reducible c intdim then
    let den : ℕ := c.expr.terms.foldl (fun l t => Nat.lcm l (numref t.itv.sup).den) 1
    let num : ℕ := c.expr.terms.foldl (fun g t => Nat.gcd g (numref t.itv.sup).num.natAbs) 0
    if num = 0 then c
    else constrainBounds Rnd.exact ⟨c.typ,
      ⟨Itv.mulBound Rnd.exact c.expr.cst (fin ((den : ℚ) / (num : ℚ))), c.expr.eq,
        c.expr.terms.map fun t =>
          let n : ℤ := (numref t.itv.sup).num / (num : ℤ) * (den : ℤ) / ((numref t.itv.sup).den : ℤ)
          ⟨t.dim, t.eq, ⟨Bound.neg (fin (n : ℚ)), fin (n : ℚ)⟩⟩⟩⟩
  else c

/-- `itv_lincons_array_reduce_integer`: itv/itv_linexpr.c:848-862, for one of the variants `red` of
`itv_lincons_reduce_integer` -/
def arrayReduceInteger (red : ILincons K → ℕ → ILincons K) (l : List (ILincons K)) (intdim : ℕ) :
    List (ILincons K) × TBool :=
  arrayReduce true (l.map fun c => red c intdim)

/-! ## Boxization -/

/-- rounding of a bound deduced for an integer dimension, e.g. itv/itv_linearize.c:161-173 -/
def intBound (typ : ConsTyp K) (isint : Bool) (b : Bound K) : Bound K :=
  if isint then
    match b with
    | fin q => if typ = .sup ∧ isInt q then subNat R (fin q) 1 else fin (⌊q⌋ : ℤ)
    | b => b
  else b

/-- bound on `-x` deduced from `a x + ev` (itv/itv_linearize.c:150-160, 226-254), `none` when
nothing is deduced -/
def infBound (typ : ConsTyp K) (eq : Bool) (a ev : Itv K) : Option (Bound K) :=
  if eq then
    if 0 < sgn a.sup then some (Bound.div R ev.sup a.sup)
    else if sgn a.sup < 0 ∧ typ = .eq then some (Bound.div R ev.inf a.inf)
    else none
  else
    if sgn a.inf < 0 then
      if sgn ev.sup ≤ 0 then some (Bound.div R ev.sup a.sup)
      else some (Bound.neg (Bound.div R ev.sup a.inf))
    else if sgn a.sup < 0 ∧ typ = .eq then
      if sgn ev.inf ≤ 0 then some (Bound.div R ev.inf a.inf)
      else some (Bound.neg (Bound.div R ev.inf a.sup))
    else none

/-- bound on `x` deduced from `a x + ev` (itv/itv_linearize.c:181-191, 275-303) -/
def supBound (typ : ConsTyp K) (eq : Bool) (a ev : Itv K) : Option (Bound K) :=
  if eq then
    if sgn a.sup < 0 then some (Bound.div R ev.sup a.inf)
    else if 0 < sgn a.sup ∧ typ = .eq then some (Bound.div R ev.inf a.sup)
    else none
  else
    if sgn a.inf < 0 then
      if typ = .eq then
        if 0 ≤ sgn ev.inf then some (Bound.neg (Bound.div R ev.inf a.inf))
        else some (Bound.div R ev.inf a.sup)
      else none
    else if sgn a.sup < 0 then
      if 0 ≤ sgn ev.sup then some (Bound.neg (Bound.div R ev.sup a.sup))
      else some (Bound.div R ev.sup a.inf)
    else none

/-- replacing a bound by a smaller one (itv/itv_linearize.c:175-179): the bound and `change` -/
def improve (new : Option (Bound K)) (old : Bound K) : Bound K × Bool :=
  match new with
  | none => (old, false)
  | some b => if Bound.cmp b old < 0 then (b, true) else (old, false)

/-- the expression with the coefficient of index `i` replaced by 0 -/
def zeroAt (e : ILinexpr K) (i : ℕ) : ILinexpr K :=
  ⟨e.cst, e.eq, e.terms.modify i fun t => ⟨t.dim, true, Itv.point 0⟩⟩

/-- the interval of the dimension of term `i` after the deduction of one iteration of the loop of
`itv_boxize_lincons` (itv/itv_linearize.c:114-337), and `change` -/
def boxizeTerm (c : ILincons K) (env : ℕ → Itv K) (intdim : ℕ) (itvonly : Bool) (i : ℕ)
    (t : ITerm K) (old : Itv K) : Itv K × Bool :=
  let ev := (zeroAt c.expr i).eval R env
  if ev.isTop ∨ (t.eq ∧ itvonly) then (old, false)
  else
    let lo := improve ((infBound R c.typ t.eq t.itv ev).map
      (intBound R c.typ (decide (t.dim < intdim)))) old.inf
    let hi := improve ((supBound R c.typ t.eq t.itv ev).map
      (intBound R c.typ (decide (t.dim < intdim)))) old.sup
    (⟨lo.1, hi.1⟩, lo.2 || hi.2)

/-- state of the loops: the array `res`, the flags `globalchange` and `empty` -/
structure BoxSt (K : Type*) where
  res : ℕ → Itv K
  change : Bool
  empty : Bool

/-- the loop of `itv_boxize_lincons` over the terms of indices `i, i+1, ...`:
itv/itv_linearize.c:114-348; `same` tells whether `env` and `res` are the same array -/
def boxizeGo (c : ILincons K) (same : Bool) (env : ℕ → Itv K) (intdim : ℕ) (itvonly : Bool) :
    ℕ → List (ITerm K) → BoxSt K → BoxSt K
  | _, [], s => s
  | i, t :: l, s =>
    let r := boxizeTerm R c (if same then s.res else env) intdim itvonly i t (s.res t.dim)
    if r.2 then
      let it := Itv.canonicalize r.1 (decide (t.dim < intdim))
      if it.isBottom then ⟨Function.update s.res t.dim it, true, true⟩
      else boxizeGo c same env intdim itvonly (i + 1) l ⟨Function.update s.res t.dim it, true, false⟩
    else boxizeGo c same env intdim itvonly (i + 1) l s

/-- `itv_boxize_lincons`: itv/itv_linearize.c:92-361 -/
def boxize (c : ILincons K) (same : Bool) (env res : ℕ → Itv K) (intdim : ℕ) (itvonly : Bool) :
    BoxSt K :=
  let s := boxizeGo R c same env intdim itvonly 0 c.expr.terms ⟨res, false, false⟩
  if c.expr.terms.isEmpty ∧ evalCst' c = .f then ⟨s.res, true, true⟩ else s

/-- the inner loop of `itv_boxize_lincons_array`: itv/itv_linearize.c:394-409 -/
def boxizePass (same : Bool) (env : ℕ → Itv K) (intdim : ℕ) (itvonly : Bool) :
    List (ILincons K) → BoxSt K → BoxSt K
  | [], s => s
  | c :: l, s =>
    match c.typ with
    | .eq | .supeq | .sup =>
      let r := boxize R c same env s.res intdim itvonly
      if r.empty then ⟨r.res, true, true⟩
      else boxizePass same env intdim itvonly l ⟨r.res, r.change || s.change, false⟩
    | _ => boxizePass same env intdim itvonly l s

/-- the outer loop of `itv_boxize_lincons_array`: at most `k` passes -/
def boxizeLoop (same : Bool) (env : ℕ → Itv K) (intdim : ℕ) (itvonly : Bool)
    (l : List (ILincons K)) : ℕ → BoxSt K → BoxSt K
  | 0, s => s
  | k + 1, s =>
    let r := boxizePass R same env intdim itvonly l ⟨s.res, false, false⟩
    if r.empty then ⟨r.res, true, true⟩
    else if r.change then boxizeLoop same env intdim itvonly l k ⟨r.res, true, false⟩
    else ⟨r.res, s.change, false⟩

/-- `itv_boxize_lincons_array`: itv/itv_linearize.c:377-414 -/
def boxizeArray (l : List (ILincons K)) (same : Bool) (env res : ℕ → Itv K) (intdim kmax : ℕ)
    (itvonly : Bool) : BoxSt K :=
  boxizeLoop R same env intdim itvonly l (if same then max kmax 1 else 1) ⟨res, false, false⟩

/-! ## Quasilinearisation and linearisation -/

/-- the default choice of `itv_quasilinearize_choose_middle`: itv/itv_linearize.c:511-516 (when the
difference overflows, 0 stands for the infinite number) -/
def middle (a : Itv K) : K := numref (div2 R (Bound.sub R a.sup a.inf))

/-- `itv_quasilinearize_choose_middle`: itv/itv_linearize.c:464-519 -/
def chooseMiddle (a var : Itv K) (ineq : Bool) : K :=
  if infty a.inf then (if infty a.sup then 0 else numref a.sup)
  else if infty a.sup then -numref a.inf
  else if ineq then
    if infty var.inf then -numref a.inf
    else if infty var.sup then numref a.sup
    else middle R a
  else if infty var.inf ≠ infty var.sup then
    if sgn a.inf ≤ 0 then -numref a.inf
    else if sgn a.sup ≤ 0 then numref a.sup
    else middle R a
  else middle R a

/-- the loop of `itv_quasilinearize_linexpr`: itv/itv_linearize.c:533-590.  `out` are the terms
already written (indices below `k`), the list those from `i` to `size-1` -/
def quasiGo (env : ℕ → Itv K) (ineq : Bool) :
    ℕ → List (ITerm K) → Itv K × Bool → List (ITerm K) → ILinexpr K
  | 0, out, c, _ => ⟨c.1, c.2, out⟩
  | _ + 1, out, c, [] => ⟨c.1, c.2, out⟩
  | n + 1, out, c, t :: l =>
    if (env t.dim).isPoint then
      quasiGo env ineq n out (Itv.add R c.1 (Itv.mulBound R t.itv (env t.dim).sup), c.2)
        (swapRemove (t :: l))
    else if t.eq = false then
      let m := chooseMiddle R t.itv (env t.dim) ineq
      let cst := Itv.add R c.1 (Itv.mul R (Itv.sub R t.itv (Itv.point m)) (env t.dim))
      let eq := c.2 && cst.isPoint
      if cst.isTop then ⟨cst, eq, []⟩
      else if m ≠ 0 then quasiGo env ineq n (out ++ [⟨t.dim, true, Itv.point m⟩]) (cst, eq) l
      else quasiGo env ineq n out (cst, eq) l
    else quasiGo env ineq n (out ++ [t]) c l

/-- `itv_quasilinearize_linexpr`: itv/itv_linearize.c:521-597 -/
def quasi (e : ILinexpr K) (env : ℕ → Itv K) (ineq : Bool) : ILinexpr K :=
  quasiGo R env ineq (e.terms.length + 1) [] (e.cst, e.eq) e.terms

/-- `itv_quasilinearize_lincons`: itv/itv_linearize.c:599-616 -/
def quasiCons (c : ILincons K) (env : ℕ → Itv K) (meet : Bool) : ILincons K :=
  if c.expr.terms.isEmpty then
    if evalCst' c = .t then setBool true else if evalCst' c = .f then setBool false else c
  else ⟨c.typ, quasi R c.expr env (meet && (match c.typ with | .sup | .supeq => true | _ => false))⟩

/-- the loop of `itv_quasilinearize_lincons_array`: itv/itv_linearize.c:625-647 -/
def quasiArrayGo (env : ℕ → Itv K) (meet : Bool) :
    ℕ → List (ILincons K) → List (ILincons K) → Option (List (ILincons K))
  | 0, done, _ => some done
  | _ + 1, done, [] => some done
  | n + 1, done, c :: l =>
    let split := meet ∧ c.typ = .eq ∧ c.expr.isQuasilinear = false
    let c1 : ILincons K := if split then ⟨.supeq, c.expr⟩ else c
    let l1 := if split then l ++ [⟨.supeq, c.expr.neg⟩] else l
    let c2 := quasiCons R c1 env meet
    if c2.expr.terms.isEmpty ∧ evalCst' c2 = .f then none
    else quasiArrayGo env meet n (done ++ [c2]) l1

/-- `itv_quasilinearize_lincons_array`: itv/itv_linearize.c:618-650 -/
def quasiArray (l : List (ILincons K)) (env : ℕ → Itv K) (meet : Bool) : List (ILincons K) :=
  let l1 := (arrayReduce meet l).1
  match quasiArrayGo R env meet (2 * l1.length + 1) [] l1 with
  | none => [setBool false]
  | some l => l

/-- `itv_lincons_select_sup`: itv/itv_linearize.c:661-665 -/
def selectSup (c : ILincons K) : ILincons K :=
  ⟨c.typ, ⟨⟨Bound.neg c.expr.cst.sup, c.expr.cst.sup⟩, true, c.expr.terms⟩⟩

/-- `itv_lincons_select_inf`: itv/itv_linearize.c:666-675: `inf := -inf; sup := -inf`, terms
negated -/
def selectInf (c : ILincons K) : ILincons K :=
  ⟨c.typ, ⟨⟨Bound.neg c.expr.cst.inf, Bound.neg (Bound.neg c.expr.cst.inf)⟩, true,
    c.expr.terms.map fun t => ⟨t.dim, t.eq, Itv.neg t.itv⟩⟩⟩

/-- the loop of `itv_linearize_lincons_array`: itv/itv_linearize.c:687-738: the constraint left at
its place, and the one added at the end -/
def linearizeOne (meet : Bool) (c : ILincons K) : ILincons K × Option (ILincons K) :=
  if c.expr.eq then (c, none)
  else match c.typ with
    | .eq =>
      let c' : ILincons K := ⟨.supeq, c.expr⟩
      if ¬ infty c.expr.cst.inf ∧ ¬ infty c.expr.cst.sup then (selectSup c', some (selectInf c'))
      else if ¬ infty c.expr.cst.inf then (selectInf c', none)
      else (selectSup c', none)
    | .supeq | .sup =>
      if meet then (selectSup c, none)
      else (⟨c.typ, ⟨⟨c.expr.cst.inf, Bound.neg c.expr.cst.inf⟩, true, c.expr.terms⟩⟩, none)
    | _ => (c, none)

/-- `itv_linearize_lincons_array`: itv/itv_linearize.c:677-740 -/
def linearizeArray (meet : Bool) (l : List (ILincons K)) : List (ILincons K) :=
  let r := arrayReduce meet l
  if r.2 ≠ .top then r.1
  else (r.1.map fun c => (linearizeOne meet c).1) ++ r.1.filterMap fun c => (linearizeOne meet c).2

end ILincons
end Apron
