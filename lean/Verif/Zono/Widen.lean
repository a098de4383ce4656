import Verif.Zono.Lattice

/-!
# Affine forms: model of the widening of `taylor1plus`

`t1p_widening` (taylor1plus/t1p_otherops.c) and `t1p_aff_widening_constrained6` (taylor1plus/t1p_internal.h), for values
without constraints on noise symbols.  The simplifications are those of `Zono/Lattice`.
-/

set_option autoImplicit false
set_option linter.unusedSectionVars false
set_option linter.ambiguousOpen false

namespace Apron
open Bound
namespace T1p
variable {K : Type*} [LinearOrder K] [Field K] [IsStrictOrderedRing K] (R : Rnd K)

/-- a symbol of both forms (taylor1plus/t1p_internal.h:5035-5048): the call of `argmin` is commented out, so
`ptr->coeff` is 0 -/
def widenLR (st : JoinSt K) (p q : Term K) : JoinSt K :=
  if p.sym.un then
    JoinSt.addIn R { st with bA := Itv.add R st.bA (Itv.mul R Itv.muu p.coef),
                             bB := Itv.add R st.bB (Itv.mul R Itv.muu q.coef) } (Itv.point 0) (Itv.point 0)
  else JoinSt.addIn R st (Itv.sub R p.coef (Itv.point 0)) (Itv.sub R q.coef (Itv.point 0))

/-- the loop of `t1p_aff_widening_constrained6` (taylor1plus/t1p_internal.h:5033-5127), with fuel.  Symbols of one form
only are treated as in a join (5051-5099); no term is kept. -/
def widenLoop : ℕ → List (Term K) → List (Term K) → JoinSt K → JoinSt K
  | 0, _, _, st => st
  | _ + 1, [], [], st => st
  | n + 1, p :: ps, [], st => widenLoop n ps [] (joinL R st p)
  | n + 1, [], q :: qs, st => widenLoop n [] qs (joinR R st q)
  | n + 1, p :: ps, q :: qs, st =>
    if p.sym.index = q.sym.index then widenLoop n ps qs (widenLR R st p q)
    else if p.sym.index < q.sym.index then widenLoop n ps (q :: qs) (joinL R st p)
    else widenLoop n (p :: ps) qs (joinR R st q)

/-- `t1p_aff_widening_constrained6`: taylor1plus/t1p_internal.h:5001-5230 -/
def widenForm (nsym : ℕ) (e1 e2 : Aff K) : Option (JRes K) :=
  let itv := Itv.join e1.itv e2.itv
  if e1.q.isEmpty && e2.q.isEmpty then
    let r := addItv R nsym ⟨Itv.point 0, [], itv⟩ itv true
    some (.fresh r.1 r.2)
  else
    let l := widenLoop R (e1.q.length + e2.q.length + 1) e1.q e2.q ⟨e1.c, e2.c, Itv.point 0, Itv.point 0⟩
    let mA := Itv.middev R l.bA
    let mB := Itv.middev R l.bB
    joinEnd R nsym itv [] (Itv.add R l.c1 mA.1) (Itv.add R l.c2 mB.1) mA.2 mB.2

/-- the body of the loop of `t1p_widening` (taylor1plus/t1p_otherops.c:103-121): the manager and the form of the dimension -/
def widenStep (a1 a2 : T1 K) (pr : Pr K) (i : ℕ) : Option (Pr K × ℕ) :=
  let f1 := pr.heap (a1.paf i)
  let f2 := pr.heap (a2.paf i)
  if f1.isBottom then some (pr, a2.paf i)
  else if f2.isBottom then some (pr, a1.paf i)
  else if f1.isTop || f2.isTop then some (pr, topPtr)
  else if affEq f1 f2 then some (pr, a1.paf i)
  else if (Itv.widening (a1.box i) (a2.box i)).hasInfty then
    some (newAff pr ⟨Itv.widening (a1.box i) (a2.box i), [], Itv.point 0⟩ pr.nsym, pr.next)
  else
    let pr' := setItv (setItv pr (a1.paf i) (a1.box i)) (a2.paf i) (a2.box i)
    match widenForm R pr'.nsym (pr'.heap (a1.paf i)) (pr'.heap (a2.paf i)) with
    | none => none
    | some .left => some (pr', a1.paf i)
    | some .right => some (pr', a2.paf i)
    | some (.fresh A k) => some (newAff pr' A k, pr'.next)

/-- the loops of `t1p_widening`: boxes (taylor1plus/t1p_otherops.c:102) and forms (103-121) -/
def widenLoopDims (a1 a2 : T1 K) : List ℕ → Pr K → T1 K → Option (Pr K × T1 K)
  | [], pr, r => some (pr, r)
  | i :: l, pr, r =>
    match widenStep R a1 a2 pr i with
    | none => none
    | some s => widenLoopDims a1 a2 l s.1 (r.set i s.2 (Itv.widening (a1.box i) (a2.box i)))

/-- `t1p_widening`: taylor1plus/t1p_otherops.c:74-136 -/
def widen (pr : Pr K) (a1 a2 : T1 K) : Option (Pr K × T1 K) :=
  if isEq pr a1 a2 then some (pr, a1) else
  a1.isTop.bind fun t1 => a2.isTop.bind fun t2 => if t1 || t2 then some (pr, T1.top a1.intdim a1.n) else
  a1.isBottom.bind fun c => if c then some (pr, a2) else
  a2.isBottom.bind fun c => if c then some (pr, a1) else
  widenLoopDims R a1 a2 (List.range a1.n) pr (T1.top a1.intdim a1.n)

/-- the flags `exact` and `best` that every widening reports (taylor1plus/t1p_otherops.c:126-127; they replace those of
122-123) -/
def widenFlags : Bool × Bool := (true, true)

end T1p
end Apron
