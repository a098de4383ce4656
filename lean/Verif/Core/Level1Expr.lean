import Verif.Core.Level1Lemmas
import Verif.Texpr.Struct

/-!
# Level-1 expressions and constraints

The functions of `apron/ap_abstract0.c` and `apron/ap_abstract1.c` taking expressions or constraints.  A
level-1 expression is a level-0 one together with an environment, which has to be included in that of the
abstract value.  The functions for linear expressions and for trees are the same up to the types; they are
written once here, over a record `Kind` of what is used of the expressions.  The function of the abstract
domain is the parameter `f`.

An outcome is a result with a flag telling whether an exception was raised.  `NULL` expressions inside of
arrays are not modelled.
-/

set_option autoImplicit false
set_option linter.unusedSectionVars false
set_option linter.ambiguousOpen false

namespace Apron

/-- what is used of a type of expressions (or constraints) `E`: insertion of dimensions, the validity check
for given numbers of dimensions; `Val e x o` tells whether `o` may be observed of `e` at the point `x` -/
structure Kind (K E O : Type*) where
  addDim : E → List ℕ → E
  check : ℕ → ℕ → E → Bool
  Val : E → (ℕ → K) → O → Prop

/-- What the functions on expressions promise; `Good n e` tells that `e` is legal in a space of `n`
dimensions. -/
structure Kind.Spec {K E O : Type*} (T : Kind K E O) (Good : ℕ → E → Prop) : Prop where
  congr : ∀ n e, Good n e → ∀ x y o, (∀ d, d < n → x d = y d) → T.Val e x o → T.Val e y o
  check : ∀ i r e, Good (i + r) e → T.check i r e = true
  add : ∀ n e pos, Good n e → pos.Pairwise (· ≤ ·) → (∀ p ∈ pos, p ≤ n) → n + pos.length ≤ dimMax →
    Good (n + pos.length) (T.addDim e pos) ∧
    ∀ x o, T.Val (T.addDim e pos) x o ↔ T.Val e (fun d => x (d + pos.countP (fun p => decide (p ≤ d)))) o

/-- linear expressions: apron/ap_linexpr0.c, apron/ap_abstract0.c:275-287 -/
def Kind.linexpr {K : Type*} [LinearOrder K] [Field K] [IsStrictOrderedRing K] : Kind K (Linexpr K) K where
  addDim := Linexpr.addDimensions
  check := Dim.checkLinexpr
  Val := Linexpr.Val

/-- linear constraints: `ap_lincons0_add_dimensions` (apron/ap_lincons0.h:196-203) and
apron/ap_abstract0.c:347-371.  What is observed is a value of the expression and the type of constraint. -/
def Kind.lincons {K : Type*} [LinearOrder K] [Field K] [IsStrictOrderedRing K] :
    Kind K (Lincons K) (ConsTyp K × K) where
  addDim c pos := { c with expr := Linexpr.addDimensions c.expr pos }
  check i r c := Dim.checkLinexpr i r c.expr
  Val c x o := c.typ = o.1 ∧ c.expr.Val x o.2

/-- trees: apron/ap_texpr0.c, apron/ap_abstract0.c:302-315 -/
def Kind.texpr {K : Type*} [LinearOrder K] [Field K] [IsStrictOrderedRing K] [FloorRing K] (S : FltSem K) :
    Kind K (Texpr K) K where
  addDim e pos := Texpr.addDimensions pos e
  check i r e := Texpr.check (i + r) e
  Val := Texpr.Val S

/-- constraints on trees: `ap_tcons0_add_dimensions` (apron/ap_tcons0.h) and
apron/ap_abstract0.c:425-449 -/
def Kind.tcons {K : Type*} [LinearOrder K] [Field K] [IsStrictOrderedRing K] [FloorRing K] (S : FltSem K) :
    Kind K (Tcons K) (ConsTyp K × K) where
  addDim c pos := { c with expr := Texpr.addDimensions pos c.expr }
  check i r c := Texpr.check (i + r) c.expr
  Val c x o := c.typ = o.1 ∧ c.expr.Val S x o.2

namespace Abs0

variable {K A E O R : Type*} (M : Man K A) (T : Kind K E O)

/-- `ap_abstract0_bound_linexpr`, `.._bound_texpr`, `.._sat_lincons`, `.._sat_tcons`:
apron/ap_abstract0.c:782-807,835-866.  `dflt` is the top interval or `false`. -/
def query (f : A → E → R) (dflt : R) (a : A) (e : E) : R × Bool :=
  if T.check (M.intdim a) (M.realdim a) e then (f a e, false) else (dflt, true)

/-- `ap_abstract0_bound_dimension`, `.._sat_interval`, `.._is_dimension_unconstrained`:
apron/ap_abstract0.c:808-833,867-881 -/
def queryDim (f : A → ℕ → R) (dflt : R) (a : A) (d : ℕ) : R × Bool :=
  if d < M.dim a then (f a d, false) else (dflt, true)

/-- `ap_abstract0_meet_lincons_array`, `.._meet_tcons_array`: apron/ap_abstract0.c:991-1030 -/
def meetCons (f : A → List E → A) (a : A) (l : List E) : A × Bool :=
  if l.all (T.check (M.intdim a) (M.realdim a)) then (f a l, false)
  else (M.top (M.intdim a) (M.realdim a), true)

/-- `ap_abstract0_asssub_linexpr_array`, `.._texpr_array`: apron/ap_abstract0.c:1055-1092,1117-1154; the
array `l` has the dimensions and their expressions -/
def asssub (f : A → List (ℕ × E) → Option A → A) (a : A) (l : List (ℕ × E)) (dest : Option A) : A × Bool :=
  if l.length = 0 then
    match dest with
    | some b => meetjoin M M.meet a b
    | none => (a, false)
  else if (match dest with | some b => checkAbstract2 M a b | none => true) &&
      checkDimArray M a (l.map Prod.fst) && l.all (fun p => T.check (M.intdim a) (M.realdim a) p.2) then
    (f a l dest, false)
  else (M.top (M.intdim a) (M.realdim a), true)

end Abs0

/-- `ap_linexpr1_t`, `ap_texpr1_t`, `ap_lincons1_t`, `ap_tcons1_t` and the arrays of constraints:
apron/ap_linexpr1.h:24-27 etc. -/
structure Expr1 (V E : Type*) where
  env : Env V
  expr : E

namespace Abs1
open Env

variable {V : Type*} [LinearOrder V] {K A E O R : Type*} (M : Man K A) (T : Kind K E O)

/-- what may be observed of a level-1 expression under a valuation of the variables -/
def _root_.Apron.Expr1.Val [Zero K] (x : Expr1 V E) (ρ : V → K) (o : O) : Prop := T.Val x.expr (pt x.env ρ) o

/-- the expression in the environment of the abstract value, as done in each function
(apron/ap_abstract1.c:430-448, for instance); `null` when an exception is raised.  Also
`ap_linexpr1_extend_environment` (apron/ap_linexpr1.c:128-140), `ap_texpr1_extend_environment`
(apron/ap_texpr1.c:231-250), `ap_lincons1_array_extend_environment` (apron/ap_lincons1.c:175-200), which
do not make the first test. -/
def extend (add : E → List ℕ → E) (junk : ℕ) (same : Bool) (env : Env V) (x : Expr1 V E) : Out E :=
  if isEq same env x.env then .ok x.expr
  else (dimchange junk x.env env).bind fun d => .ok (add x.expr d.dim)

/-- `ap_linexpr1_extend_environment` etc. -/
def extendEnvironment (add : E → List ℕ → E) (junk : ℕ) (nenv : Env V) (x : Expr1 V E) : Out (Expr1 V E) :=
  (dimchange junk x.env nenv).bind fun d => .ok ⟨nenv, add x.expr d.dim⟩

/-- `ap_abstract1_bound_linexpr`, `.._bound_texpr`, `.._sat_lincons`, `.._sat_tcons`:
apron/ap_abstract1.c:425-476,516-573; `dflt` is the top interval or `false` -/
def query (f : A → E → R) (dflt : R) (junk : ℕ) (same : Bool) (a : Abs1 V A) (x : Expr1 V E) : Out (R × Bool) :=
  match extend T.addDim junk same a.env x with
  | .ok e => .ok (Abs0.query M T f dflt a.val e)
  | .null => .ok (dflt, true)
  | .abort => .abort
  | .oob => .oob

/-- `ap_abstract1_bound_variable`, `.._sat_interval`, `.._is_variable_unconstrained`:
apron/ap_abstract1.c:478-508,575-592 -/
def queryVar (f : A → ℕ → R) (dflt : R) (a : Abs1 V A) (v : V) : R × Bool :=
  if dimOfVar a.env v = dimMax then (dflt, true) else Abs0.queryDim M f dflt a.val (dimOfVar a.env v)

/-- `ap_abstract1_meet_lincons_array`, `.._meet_tcons_array`: apron/ap_abstract1.c:694-758; the argument is
returned on a wrong environment -/
def meetCons (f : A → List E → A) (junk : ℕ) (same : Bool) (a : Abs1 V A) (x : Expr1 V (List E)) :
    Out (Abs1 V A × Bool) :=
  match extend (fun l pos => l.map (T.addDim · pos)) junk same a.env x with
  | .ok l =>
    let r := Abs0.meetCons M T f a.val l
    .ok (⟨a.env, r.1⟩, r.2)
  | .null => .ok (a, true)
  | .abort => .abort
  | .oob => .oob

/-- the loop of `ap_abstract1_asssub_linexpr_array`: apron/ap_abstract1.c:825-845; each element has a
variable, an expression and whether its environment is the pointer of `a`; `null` when an exception is
raised -/
def asssubArgs (junk : ℕ) (env : Env V) : List (V × Expr1 V E × Bool) → Out (List (ℕ × E))
  | [] => .ok []
  | (v, x, same) :: l =>
    if dimOfVar env v = dimMax then .null
    else (extend T.addDim junk same env x).bind fun e =>
      (asssubArgs junk env l).bind fun l' => .ok ((dimOfVar env v, e) :: l')

/-- `ap_abstract1_asssub_linexpr_array`, `.._texpr_array`: apron/ap_abstract1.c:798-882,884-968; `same`
tells whether the environment of `dest` is the pointer of `a` -/
def asssub (f : A → List (ℕ × E) → Option A → A) (junk : ℕ) (same : Bool) (a : Abs1 V A)
    (l : List (V × Expr1 V E × Bool)) (dest : Option (Abs1 V A)) : Out (Abs1 V A × Bool) :=
  if l.length = 0 then
    match dest with
    | some b => .ok (meetjoin M M.meet same a b)
    | none => .ok (a, false)
  else if (match dest with | some b => isEq same a.env b.env | none => true) then
    match asssubArgs T junk a.env l with
    | .ok l' =>
      let r := Abs0.asssub M T f a.val l' (dest.map Abs1.val)
      .ok (⟨a.env, r.1⟩, r.2)
    | .null => .ok (top M a.env, true)
    | .abort => .abort
    | .oob => .oob
  else .ok (top M a.env, true)

end Abs1
end Apron
