import Verif.Zono.State

/-!
# Affine forms: model of the lattice operations of `taylor1plus`

`t1p_is_eq`, `t1p_is_leq` (taylor1plus/t1p_constructor.c), `t1p_meet`, `t1p_join` (taylor1plus/t1p_meetjoin.c) and the
functions on affine forms they call, for values without constraints on noise symbols (`hypercube`, as in `Zono/State`).

Simplifications.
* The argument `destructive` only decides which object holds the result; it is left out, as are reference counts.
* Reading the number of an infinite bound (`bound_numref`) is the outcome `none`.
* Native numbers: `num_add`, `num_sub` and `num_div_2` round upwards, as the code sets the rounding mode; overflow is left
  out.
* The distances computed at the end of `t1p_aff_join_constrained6` are not used by the code and are left out.
-/

set_option autoImplicit false
set_option linter.unusedSectionVars false
set_option linter.ambiguousOpen false

namespace Apron
open Bound
namespace T1p
variable {K : Type*} [LinearOrder K] [Field K] [IsStrictOrderedRing K]

/-! ## Equality and inclusion -/

/-- the loop of `t1p_aff_is_eq`: taylor1plus/t1p_internal.h:851-858 -/
def eqTerms : List (Term K) → List (Term K) → Bool
  | p :: ps, q :: qs => if p.sym ≠ q.sym then false else if !Itv.isEq p.coef q.coef then false else eqTerms ps qs
  | _, _ => true

/-- `t1p_aff_is_eq`: taylor1plus/t1p_internal.h:844-860; equal addresses need no test of their own -/
def affEq (a b : Aff K) : Bool :=
  if a.q.length ≠ b.q.length then false else if !Itv.isEq a.c b.c then false else eqTerms a.q b.q

/-- `t1p_is_eq`: taylor1plus/t1p_constructor.c:125-148 -/
def isEq (pr : Pr K) (a b : T1 K) : Bool :=
  (List.range a.n).all fun i => affEq (pr.heap (a.paf i)) (pr.heap (b.paf i)) && Itv.isEq (a.box i) (b.box i)

variable (R : Rnd K)

/-- the variables of the loop of `t1p_aff_is_leq_constrained`: `ptr->coeff`, `c`, `betaA`, `betaB` -/
structure LeqSt (K : Type*) where
  co : Itv K
  c : Itv K
  bA : Itv K
  bB : Itv K

/-- what the loop of `t1p_aff_is_leq_constrained` does for a symbol, once `ptr->coeff` is `co`:
taylor1plus/t1p_internal.h:981-987 and the last test, 1029-1036 -/
def leqSym (st : LeqSt K) (s : NSym) (co : Itv K) (p q : Option (Itv K)) : LeqSt K :=
  let s1 : LeqSt K := if s.un then
      let s2 : LeqSt K := match p with
        | none => { st with co := co }
        | some x => { st with co := Itv.mul R Itv.muu x, bA := Itv.add R st.bA (Itv.mul R Itv.muu x) }
      match q with
        | none => s2
        | some x => { s2 with co := Itv.mul R Itv.muu x, bB := Itv.add R s2.bB (Itv.mul R Itv.muu x) }
    else { st with co := co }
  if !s1.co.isZero && !s.un then { s1 with c := Itv.add R s1.c (Itv.mul R Itv.muu s1.co), co := Itv.point 0 } else s1

/-- the loop of `t1p_aff_is_leq_constrained` (taylor1plus/t1p_internal.h:975-1037), with fuel.  With equal coefficients
`ptr->coeff` keeps its old value (977). -/
def leqLoop : ℕ → List (Term K) → List (Term K) → LeqSt K → LeqSt K
  | 0, _, _, st => st
  | _ + 1, [], [], st => st
  | n + 1, p :: ps, [], st => leqLoop n ps [] (leqSym R st p.sym p.coef (some p.coef) none)
  | n + 1, [], q :: qs, st => leqLoop n [] qs (leqSym R st q.sym (Itv.neg q.coef) none (some q.coef))
  | n + 1, p :: ps, q :: qs, st =>
    if p.sym.index = q.sym.index then
      leqLoop n ps qs (leqSym R st p.sym (if Itv.isEq p.coef q.coef then st.co else Itv.sub R p.coef q.coef) (some p.coef) (some q.coef))
    else if p.sym.index < q.sym.index then leqLoop n ps (q :: qs) (leqSym R st p.sym p.coef (some p.coef) none)
    else leqLoop n (p :: ps) qs (leqSym R st q.sym (Itv.neg q.coef) none (some q.coef))

/-- `t1p_aff_is_leq_constrained`: taylor1plus/t1p_internal.h:939-1075 -/
def affLeq (a b : Aff K) : Bool :=
  if b.q.isEmpty then Itv.isLeq a.itv b.c
  else if a.q.isEmpty then
    (if a.c.isBottom then true else if a.c.isPoint then Itv.isLeq a.c b.itv else false)
  else
    let st := leqLoop R (a.q.length + b.q.length + 1) a.q b.q ⟨Itv.point 0, a.c, Itv.point 0, Itv.point 0⟩
    let mA := Itv.middev R st.bA
    let mB := Itv.middev R st.bB
    let c := Itv.abs (Itv.sub R (Itv.add R st.c (Itv.sub R mA.1 mB.1)) b.c)
    Itv.cmpLe (Itv.add R c mA.2) mB.2

/-- `itv_set(paf->itv, box)`: the interval of an object is changed -/
def setItv (pr : Pr K) (p : ℕ) (i : Itv K) : Pr K := { pr with heap := Function.update pr.heap p { pr.heap p with itv := i } }

/-- the loop of `t1p_is_leq`: taylor1plus/t1p_constructor.c:215-228; it stops at the first box that is not included -/
def leqDims (a b : T1 K) : List ℕ → Pr K → Bool × Pr K
  | [], pr => (true, pr)
  | i :: l, pr =>
    if !Itv.isLeq (a.box i) (b.box i) then (false, pr)
    else if a.paf i ≠ b.paf i then
      let pr' := setItv (setItv pr (a.paf i) (a.box i)) (b.paf i) (b.box i)
      let r := leqDims a b l pr'
      (affLeq R (pr'.heap (a.paf i)) (pr'.heap (b.paf i)) && r.1, r.2)
    else leqDims a b l pr

/-- `t1p_is_leq`: taylor1plus/t1p_constructor.c:150-235; also the manager, since intervals of forms change -/
def isLeq (pr : Pr K) (a b : T1 K) : Option (Bool × Pr K) :=
  a.isBottom.bind fun c => if c then some (true, pr) else
  b.isBottom.bind fun c => if c then some (false, pr) else
  b.isTop.bind fun c => if c then some (true, pr) else
  a.isTop.bind fun c => if c then some (false, pr) else
  if isEq pr a b then some (true, pr) else some (leqDims R a b (List.range a.n) pr)

/-! ## Meet -/

/-- a new object -/
def newAff (pr : Pr K) (A : Aff K) (nsym : ℕ) : Pr K := ⟨Function.update pr.heap pr.next A, pr.next + 1, nsym⟩

/-- the body of the loop of `t1p_meet` (taylor1plus/t1p_meetjoin.c:131-169): the manager, the form and the box of the
dimension; `none` if the result is empty -/
def meetStep (a1 a2 : T1 K) (pr : Pr K) (i : ℕ) : Option (Pr K × ℕ × Itv K) :=
  let bx := Itv.meet (a1.box i) (a2.box i)
  let f1 := pr.heap (a1.paf i)
  let f2 := pr.heap (a2.paf i)
  if f1.q.isEmpty && f2.q.isEmpty then
    let t := Itv.meet f1.c f2.c
    if t.isBottom then none
    else if t.isTop then some (pr, topPtr, bx)
    else if !t.hasInfty then
      let r := addItv R pr.nsym Aff.zero t false
      some (newAff pr r.1 r.2, pr.next, bx)
    else some (newAff pr ⟨t, [], Itv.point 0⟩ pr.nsym, pr.next, bx)
  else if affEq f1 f2 then some (pr, a1.paf i, bx)
  else if bx.isPoint then some (newAff pr ⟨bx, [], Itv.point 0⟩ pr.nsym, pr.next, bx)
  else some (pr, topPtr, Itv.top)

/-- the result with the form and the box of one more dimension -/
def T1.set (a : T1 K) (i p : ℕ) (b : Itv K) : T1 K := { a with paf := Function.update a.paf i p, box := Function.update a.box i b }

/-- the loop of `t1p_meet` -/
def meetLoop (a1 a2 : T1 K) : List ℕ → Pr K → T1 K → Pr K × T1 K
  | [], pr, r => (pr, r)
  | i :: l, pr, r =>
    match meetStep R a1 a2 pr i with
    | none => (pr, T1.bottom a1.intdim a1.n)
    | some s => meetLoop a1 a2 l s.1 (r.set i s.2.1 s.2.2)

/-- `t1p_meet`: taylor1plus/t1p_meetjoin.c:37-178 -/
def meet (pr : Pr K) (a1 a2 : T1 K) : Option (Pr K × T1 K) :=
  if isEq pr a1 a2 then some (pr, a1) else
  a1.isBottom.bind fun b1 => a2.isBottom.bind fun b2 => if b1 || b2 then some (pr, T1.bottom a1.intdim a1.n) else
  a1.isTop.bind fun c => if c then some (pr, a2) else
  a2.isTop.bind fun c => if c then some (pr, a1) else
  some (meetLoop R a1 a2 (List.range a1.n) pr (T1.top a1.intdim a1.n))

/-! ## Join -/

/-- `argmin`: taylor1plus/t1p_internal.h:1263-1300 -/
def argmin (a b : Itv K) : Itv K × Int :=
  if Itv.isLeq (Itv.point 0) a || Itv.isLeq (Itv.point 0) b then (Itv.point 0, 0)
  else if a.isPos && b.isNeg then (Itv.point 0, 0)
  else if a.isNeg && b.isPos then (Itv.point 0, 0)
  else if a.isPos then (if b.inf ≤ a.inf then (a, -1) else (b, 1))
  else (if b.sup ≤ a.sup then (a, -1) else (b, 1))

/-- the variables of the loop of `t1p_aff_join_constrained6` -/
structure JoinSt (K : Type*) where
  c1 : Itv K
  c2 : Itv K
  bA : Itv K
  bB : Itv K

/-- the end of the body of the loop: taylor1plus/t1p_internal.h:1494-1499 -/
def JoinSt.addIn (st : JoinSt K) (pm qm : Itv K) : JoinSt K :=
  { st with c1 := Itv.add R st.c1 (Itv.mul R Itv.muu pm), c2 := Itv.add R st.c2 (Itv.mul R Itv.muu qm) }

/-- a symbol of the first form only: taylor1plus/t1p_internal.h:1444-1455, 1469-1480 -/
def joinL (st : JoinSt K) (p : Term K) : JoinSt K :=
  if p.sym.un then JoinSt.addIn R { st with bA := Itv.add R st.bA (Itv.mul R Itv.muu p.coef) } (Itv.point 0) (Itv.point 0)
  else JoinSt.addIn R st p.coef (Itv.point 0)

/-- a symbol of the second form only: taylor1plus/t1p_internal.h:1456-1468, 1481-1493 -/
def joinR (st : JoinSt K) (q : Term K) : JoinSt K :=
  if q.sym.un then JoinSt.addIn R { st with bB := Itv.add R st.bB (Itv.mul R Itv.muu q.coef) } (Itv.point 0) (Itv.point 0)
  else JoinSt.addIn R st (Itv.point 0) q.coef

/-- a symbol of both forms: taylor1plus/t1p_internal.h:1420-1443; the coefficient kept and the new variables -/
def joinLR (st : JoinSt K) (p q : Term K) : Itv K × JoinSt K :=
  if p.sym.un then
    (Itv.point 0, JoinSt.addIn R { st with bA := Itv.add R st.bA (Itv.mul R Itv.muu p.coef),
                                           bB := Itv.add R st.bB (Itv.mul R Itv.muu q.coef) } (Itv.point 0) (Itv.point 0))
  else
    let m := argmin p.coef q.coef
    if m.2 = -1 then (m.1, JoinSt.addIn R st (Itv.point 0) (Itv.sub R q.coef m.1))
    else if m.2 = 1 then (m.1, JoinSt.addIn R st (Itv.sub R p.coef m.1) (Itv.point 0))
    else (m.1, JoinSt.addIn R st p.coef q.coef)

/-- the loop of `t1p_aff_join_constrained6` (taylor1plus/t1p_internal.h:1418-1519), with fuel: the terms kept and the
variables -/
def joinLoop : ℕ → List (Term K) → List (Term K) → JoinSt K → List (Term K) × JoinSt K
  | 0, _, _, st => ([], st)
  | _ + 1, [], [], st => ([], st)
  | n + 1, p :: ps, [], st => joinLoop n ps [] (joinL R st p)
  | n + 1, [], q :: qs, st => joinLoop n [] qs (joinR R st q)
  | n + 1, p :: ps, q :: qs, st =>
    if p.sym.index = q.sym.index then
      let m := joinLR R st p q
      let r := joinLoop n ps qs m.2
      (if m.1.isZero then r.1 else ⟨p.sym, m.1⟩ :: r.1, r.2)
    else if p.sym.index < q.sym.index then joinLoop n ps (q :: qs) (joinL R st p)
    else joinLoop n (p :: ps) qs (joinR R st q)

/-- a number rounded upwards -/
def numUp (q : K) : K := match R.up q with
  | .fin r => r
  | _ => q

/-- which form the join of two forms is: one of them, or a new one -/
inductive JRes (K : Type*) where
  | left
  | right
  | fresh (A : Aff K) (nsym : ℕ)

/-- the end of `t1p_aff_join_constrained6` (taylor1plus/t1p_internal.h:1530-1602): `c1`, `c2` are centre intervals, `d1`,
`d2` perturbations -/
def joinEnd (nsym : ℕ) (itv : Itv K) (q : List (Term K)) (c1 c2 d1 d2 : Itv K) : Option (JRes K) :=
  match c1, c2, d1, d2 with
  | ⟨.fin i1, .fin s1⟩, ⟨.fin i2, .fin s2⟩, ⟨_, .fin e1⟩, ⟨_, .fin e2⟩ =>
    let dmax := max (max (max (numUp R (-i1 + e1)) (numUp R (-i2 + e2))) (numUp R (s1 + e1))) (numUp R (s2 + e2))
    let dmin := max (max (max (numUp R (i1 + e1)) (numUp R (i2 + e2))) (numUp R (-s1 + e1))) (numUp R (-s2 + e2))
    let beta := numUp R (numUp R (dmax + dmin) / 2)
    let c0 := numUp R (numUp R (dmax - dmin) / 2)
    if c0 ≤ -max i1 i2 ∨ max s1 s2 ≤ c0 then
      some (if (Itv.sub R d2 d1).isPos then .right else .left)
    else
      let r := nsymCreate nsym ⟨Itv.point c0, q, itv⟩ (Itv.point beta) true
      some (.fresh r.1 r.2)
  | _, _, _, _ => none

/-- `t1p_aff_join_constrained6`: taylor1plus/t1p_internal.h:1383-1644 -/
def joinForm (nsym : ℕ) (e1 e2 : Aff K) : Option (JRes K) :=
  let itv := Itv.join e1.itv e2.itv
  if e1.q.isEmpty && e2.q.isEmpty then
    let r := addItv R nsym ⟨Itv.point 0, [], itv⟩ itv true
    some (.fresh r.1 r.2)
  else
    let l := joinLoop R (e1.q.length + e2.q.length + 1) e1.q e2.q ⟨e1.c, e2.c, Itv.point 0, Itv.point 0⟩
    let mA := Itv.middev R l.2.bA
    let mB := Itv.middev R l.2.bB
    joinEnd R nsym itv l.1 (Itv.add R l.2.c1 mA.1) (Itv.add R l.2.c2 mB.1) mA.2 mB.2

/-- the body of the loop of `t1p_join` (taylor1plus/t1p_meetjoin.c:537-580): the manager and the form of the dimension -/
def joinStep (a1 a2 : T1 K) (pr : Pr K) (i : ℕ) : Option (Pr K × ℕ) :=
  let f1 := pr.heap (a1.paf i)
  let f2 := pr.heap (a2.paf i)
  if f1.isBottom then some (pr, a2.paf i)
  else if f2.isBottom then some (pr, a1.paf i)
  else if f1.isTop || f2.isTop then some (pr, topPtr)
  else if (a1.box i).hasInfty || (a2.box i).hasInfty then
    some (newAff pr ⟨Itv.join (a1.box i) (a2.box i), [], Itv.point 0⟩ pr.nsym, pr.next)
  else
    let pr' := setItv (setItv pr (a1.paf i) (a1.box i)) (a2.paf i) (a2.box i)
    match joinForm R pr'.nsym (pr'.heap (a1.paf i)) (pr'.heap (a2.paf i)) with
    | none => none
    | some .left => some (pr', a1.paf i)
    | some .right => some (pr', a2.paf i)
    | some (.fresh A k) => some (newAff pr' A k, pr'.next)

/-- the loop of `t1p_join` -/
def joinLoopDims (a1 a2 : T1 K) : List ℕ → Pr K → T1 K → Option (Pr K × T1 K)
  | [], pr, r => some (pr, r)
  | i :: l, pr, r =>
    match joinStep R a1 a2 pr i with
    | none => none
    | some s => joinLoopDims a1 a2 l s.1 (r.set i s.2 (Itv.join (a1.box i) (a2.box i)))

/-- `t1p_join`: taylor1plus/t1p_meetjoin.c:491-684 -/
def join (pr : Pr K) (a1 a2 : T1 K) : Option (Pr K × T1 K) :=
  if isEq pr a1 a2 then some (pr, a1) else
  a1.isTop.bind fun t1 => a2.isTop.bind fun t2 => if t1 || t2 then some (pr, T1.top a1.intdim a1.n) else
  a1.isBottom.bind fun c => if c then some (pr, a2) else
  a2.isBottom.bind fun c => if c then some (pr, a1) else
  joinLoopDims R a1 a2 (List.range a1.n) pr (T1.top a1.intdim a1.n)

end T1p
end Apron
