import Verif.Box.Defs

/-!
# Policies on boxes: model of `box/box_policy.c`

A policy tells, for each bound, whether the first or the second argument of a meet is kept.

* `none` stands for undefined behaviour: a failed assertion, `abort`, a `NULL` pointer that is read, or an
  access outside of an array;
* memory management and printing are not modelled;
* `box_policy_meet_lincons_internal` supposes the dimensions of the terms sorted
  (the conversion from user expressions gives that): the loops over the dimensions between two terms and
  after the last one are one operation on all the dimensions without a term;
* the number of dimensions of a policy is checked in the meet of boxes only; in the meet with constraints
  the model takes the choices as a function on dimensions;
* `algorithm` is a natural number, as in the model of `box_meet_lincons_array`.
-/

set_option autoImplicit false
set_option linter.unusedSectionVars false
set_option linter.ambiguousOpen false

namespace Apron
open Bound

/-- `box_policy_choice_t`: box/box_policy.h:17-21 -/
inductive Choice where
  | one | two
  deriving DecidableEq, Repr

/-- the code of a choice: box/box_policy.h:18-19 -/
def Choice.code : Choice → ℕ
  | .one => 0
  | .two => 1

/-- `box_policy_dim_t`: box/box_policy.h:23-26, the choices for `inf` and `sup` -/
abbrev PolDim := Choice × Choice

/-- `box_policy_one_t`: box/box_policy.h:28-31 -/
structure PolOne where
  nbdims : ℕ
  p : ℕ → PolDim

/-- `box_policy_t`: box/box_policy.h:33-37 -/
structure Policy where
  nbdims : ℕ
  p : List PolOne

/-- `box_policy_one_equal`: box/box_policy.c:191-203 -/
def PolOne.equal (a b : PolOne) : Bool :=
  decide (a.nbdims = b.nbdims) && (List.range a.nbdims).all fun i => decide (a.p i = b.p i)

/-- `box_policy_equal` on two policies that are not `NULL`: box/box_policy.c:205-224 -/
def Policy.equal (a b : Policy) : Bool :=
  decide (a.nbdims = b.nbdims) && decide (a.p.length = b.p.length) &&
    (a.p.zip b.p).all fun q => q.1.equal q.2

/-- `box_policy_one_hash`: box/box_policy.c:226-241 (on unbounded integers) -/
def PolOne.hash (a : PolOne) : ℕ :=
  (List.range a.nbdims).foldl (fun r i => r + (2 * r + (5 * (a.p i).1.code + 7 * (a.p i).2.code))) a.nbdims

/-- `box_policy_hash`: box/box_policy.c:243-257; the variable `res` has the type `bool` -/
def Policy.hash (a : Policy) : ℕ :=
  (a.p.foldl (fun (r : Bool) o => decide (r.toNat + (2 * r.toNat + o.hash / 2) ≠ 0))
    (decide (a.p.length ≠ 0))).toNat

section bounds
variable {K : Type*} [LinearOrder K] [Field K] [IsStrictOrderedRing K] (R : Rnd K)

/-- `bound_policy_meet_apply`: box/box_policy.c:263-268 -/
def Choice.pick (c : Choice) (a b : Bound K) : Bound K := if c = .one then a else b

/-- `bound_policy_meet_improve`: box/box_policy.c:269-280 -/
def Choice.improve (old : Option Choice) (b c : Bound K) : Choice :=
  match old with
  | some o => if Bound.cmp b c = 0 then o else if Bound.cmp b c ≤ 0 then .one else .two
  | none => if Bound.cmp b c ≤ 0 then .one else .two

/-- `itv_policy_meet_apply`: box/box_policy.c:282-292 (the returned flag is `isBottom`) -/
def PolDim.meetApply (π : PolDim) (b c : Itv K) : Itv K :=
  ⟨π.1.pick b.inf c.inf, π.2.pick b.sup c.sup⟩

/-- `itv_policy_meet_improve`: box/box_policy.c:293-303 -/
def PolDim.meetImprove (old : Option PolDim) (b c : Itv K) : PolDim :=
  (Choice.improve (old.map Prod.fst) b.inf c.inf, Choice.improve (old.map Prod.snd) b.sup c.sup)

namespace Box

/-- `box_policy_meet_internal_apply`: box/box_policy.c:304-338 -/
def polMeetApply (π : PolOne) (a b : Box K) : Option (Box K) :=
  match a.p, b.p with
  | some p, some q =>
    if π.nbdims ≠ a.dim then none
    else if (List.range a.dim).any fun i => (PolDim.meetApply (π.p i) (p i) (q i)).isBottom then
      some (setBottom a)
    else some ⟨some fun i => PolDim.meetApply (π.p i) (p i) (q i), a.intdim, a.realdim⟩
  | _, _ => some (setBottom a)

/-- `box_policy_meet_internal_improve`: box/box_policy.c:339-364; `policy->nbdims` is read although the
following lines expect that `policy` may be `NULL` -/
def polMeetImprove (old : Option PolOne) (a b : Box K) : Option PolOne :=
  match a.p, b.p with
  | some p, some q => old.bind fun o =>
    if o.nbdims ≠ a.dim then none
    else some ⟨a.dim, fun i => PolDim.meetImprove (some (o.p i)) (p i) (q i)⟩
  | none, _ => some ⟨a.dim, fun _ => (.two, .two)⟩
  | some _, none => some ⟨a.dim, fun _ => (.one, .one)⟩

/-- the loop of `box_policy_meet_array_apply`: box/box_policy.c:405-408 -/
def polMeetGo : List PolOne → Box K → List (Box K) → Option (Box K)
  | π :: πs, r, b :: l => (polMeetApply π r b).bind fun r => polMeetGo πs r l
  | _, r, _ => some r

/-- `box_policy_meet_array_apply`: box/box_policy.c:390-410; the array is `a :: l`; the cases of one and two
values are those of the loop -/
def polMeetArrayApply (π : Policy) (a : Box K) (l : List (Box K)) : Option (Box K) :=
  if π.p.length ≠ l.length then none else polMeetGo π.p a l

/-- the loop of `box_policy_meet_array_improve`: box/box_policy.c:429-432 -/
def polMeetImproveGo : List PolOne → Box K → List (Box K) → Option (List PolOne)
  | o :: os, r, b :: l => (polMeetImprove (some o) r b).bind fun ρ =>
    (polMeetApply ρ r b).bind fun r => (polMeetImproveGo os r l).map fun ρs => ρ :: ρs
  | _, _, _ => some []

/-- `box_policy_meet_array_improve`: box/box_policy.c:411-436 (`boxpolicy` is read by the assertion) -/
def polMeetArrayImprove (old : Policy) (a : Box K) (l : List (Box K)) : Option Policy :=
  if old.p.length ≠ l.length then none
  else (polMeetImproveGo old.p a l).map fun ρs => ⟨a.dim, ρs⟩

end Box
end bounds

/-! ## Meet with linear constraints -/

section lincons
variable {K : Type*} [LinearOrder K] [Field K] [IsStrictOrderedRing K] [FloorRing K] (R : Rnd K)
open ILincons ILinexpr

/-- the sign of a coefficient: box/box_policy.c:511-517 -/
def coeffSgn (a : Itv K) : ℤ := if sgn a.inf < 0 then 1 else if sgn a.sup < 0 then -1 else 0

/-- the bound deduced on `-x`: box/box_policy.c:543-559 (scalar coefficient), 617-650 (interval) -/
def polInf (typ : ConsTyp K) (eq : Bool) (a ev : Itv K) : Option (Bound K) :=
  if 0 < coeffSgn a ∨ typ = .eq then
    if eq then
      if 0 < coeffSgn a then some (Bound.div R ev.sup a.sup) else some (Bound.div R ev.inf a.inf)
    else if 0 < coeffSgn a then
      if sgn ev.sup ≤ 0 then some (Bound.div R ev.sup a.sup)
      else some (Bound.div R (Bound.neg ev.sup) a.inf)
    else
      if sgn ev.inf ≤ 0 then some (Bound.div R (Bound.neg ev.inf) a.inf)
      else some (Bound.neg (Bound.div R (Bound.neg ev.inf) a.sup))
  else none

/-- the bound deduced on `x`: box/box_policy.c:569-584 (scalar coefficient), 660-692 (interval) -/
def polSup (typ : ConsTyp K) (eq : Bool) (a ev : Itv K) : Option (Bound K) :=
  if coeffSgn a < 0 ∨ typ = .eq then
    if eq then
      if coeffSgn a < 0 then some (Bound.div R ev.sup a.inf) else some (Bound.div R ev.inf a.sup)
    else if coeffSgn a < 0 then
      if 0 ≤ sgn ev.sup then some (Bound.div R ev.sup (Bound.neg a.sup))
      else some (Bound.div R ev.sup a.inf)
    else
      if 0 ≤ sgn ev.inf then some (Bound.div R ev.inf a.sup)
      else some (Bound.div R (Bound.neg ev.inf) a.inf)
  else none

/-- a bound replaced by `+oo` if the second argument is chosen, e.g. box/box_policy.c:490-495, 519-525 -/
def Choice.widen (c : Choice) (b : Bound K) : Bound K := if c = .two then pinf else b

/-- a bound replaced by the deduced one if the second argument is chosen, e.g. box/box_policy.c:565-567 -/
def Choice.replace (c : Choice) (new : Option (Bound K)) (old : Bound K) : Bound K :=
  if c = .two then new.getD old else old

/-- one term, with a given policy: box/box_policy.c:500-705 (`rboxpolicy` is `NULL`), before the
normalisation -/
def polTerm (π : PolDim) (c : ILincons K) (env : ℕ → Itv K) (i : ℕ) (t : ITerm K) : Itv K :=
  if coeffSgn t.itv = 0 then ⟨π.1.widen (env t.dim).inf, π.2.widen (env t.dim).sup⟩
  else
    let ev := (zeroAt c.expr i).eval R env
    ⟨π.1.replace (polInf R c.typ t.eq t.itv ev) (env t.dim).inf,
      π.2.replace (polSup R c.typ t.eq t.itv ev) (env t.dim).sup⟩

/-- the loop on the terms from index `i`, with a given policy: box/box_policy.c:481-711; `none` when the
box becomes empty -/
def polGo (π : ℕ → PolDim) (c : ILincons K) (intdim : ℕ) : ℕ → List (ITerm K) → (ℕ → Itv K) → Option (ℕ → Itv K)
  | _, [], p => some p
  | i, t :: l, p =>
    let it := Itv.canonicalize (polTerm R (π t.dim) c p i t) (decide (t.dim < intdim))
    if it.isBottom then none else polGo π c intdim (i + 1) l (Function.update p t.dim it)

/-- the unsatisfiable constant constraints: box/box_policy.c:726-746 -/
def polUnsat (c : ILincons K) : Bool :=
  let sgnsup := sgn c.expr.cst.sup
  let sgninf := if c.expr.eq then sgnsup else -sgn c.expr.cst.inf
  match c.typ with
  | .eq => decide (sgnsup < 0 ∨ 0 < sgninf)
  | .supeq => decide (sgnsup < 0)
  | .sup => decide (sgnsup ≤ 0)
  | _ => false

/-- the dimension `j` has no term -/
def ILincons.untouched (c : ILincons K) (j : ℕ) : Bool := c.expr.terms.all fun t => decide (t.dim ≠ j)

/-- `box_policy_meet_lincons_internal` with `rboxpolicy` `NULL`: box/box_policy.c:448-747 -/
def polLincons (π : ℕ → PolDim) (c : ILincons K) (intdim : ℕ) (p : ℕ → Itv K) : Option (ℕ → Itv K) :=
  (polGo R π c intdim 0 c.expr.terms p).bind fun p' =>
    if c.expr.terms.isEmpty ∧ polUnsat c then none
    else some fun j => if c.untouched j then ⟨(π j).1.widen (p' j).inf, (π j).2.widen (p' j).sup⟩ else p' j

/-- the choice made for one bound: box/box_policy.c:560-563, 585-588; on equal bounds the old choice should
be kept, but `policy_dim` is `rpolicy_dim`, set to the first argument; `old` tells if there is an old policy -/
def Choice.best (old : Bool) (cur : Bound K) (new : Option (Bound K)) : Choice :=
  match new with
  | none => .one
  | some b => if Bound.cmp cur b = 0 ∧ old then .one else if Bound.cmp cur b < 0 then .one else .two

/-- the choices for one term: box/box_policy.c:500-705 with `rboxpolicy`; the choices for an interval
coefficient are the first argument since the tests on `policy_dim` (lines 617, 660) are false -/
def polBest (old : Bool) (c : ILincons K) (env : ℕ → Itv K) (i : ℕ) (t : ITerm K) : PolDim :=
  if coeffSgn t.itv = 0 ∨ t.eq = false then (.one, .one)
  else
    let ev := (zeroAt c.expr i).eval R env
    (Choice.best old (env t.dim).inf (polInf R c.typ t.eq t.itv ev),
      Choice.best old (env t.dim).sup (polSup R c.typ t.eq t.itv ev))

/-- the loop on the terms, with `rboxpolicy`: box/box_policy.c:481-711, the policy and the box -/
def polBestGo (old : Bool) (c : ILincons K) (intdim : ℕ) :
    ℕ → List (ITerm K) → (ℕ → PolDim) → (ℕ → Itv K) → (ℕ → PolDim) × Option (ℕ → Itv K)
  | _, [], ρ, p => (ρ, some p)
  | i, t :: l, ρ, p =>
    let π := polBest R old c p i t
    let it := Itv.canonicalize (polTerm R π c p i t) (decide (t.dim < intdim))
    if it.isBottom then (Function.update ρ t.dim π, none)
    else polBestGo old c intdim (i + 1) l (Function.update ρ t.dim π) (Function.update p t.dim it)

/-- `box_policy_meet_lincons_internal` with `rboxpolicy`, initially set to the first argument -/
def polLinconsBest (old : Bool) (c : ILincons K) (intdim : ℕ) (p : ℕ → Itv K) :
    (ℕ → PolDim) × Option (ℕ → Itv K) :=
  let r := polBestGo R old c intdim 0 c.expr.terms (fun _ => (.one, .one)) p
  (r.1, r.2.bind fun p' => if c.expr.terms.isEmpty ∧ polUnsat c then none else some p')

/-- the assertion of box/box_policy.c:467-469 -/
def ILincons.basic (c : ILincons K) : Bool :=
  match c.typ with
  | .eq | .supeq | .sup => true
  | _ => false

/-- the loops of `box_policy_meet_lincons_array_apply`: box/box_policy.c:775-784, on the list of the pairs
(policy, constraint) in the order of the loops; a constraint is `none` when it is outside of the array -/
def polRun (intdim : ℕ) : List ((ℕ → PolDim) × Option (ILincons K)) → (ℕ → Itv K) → Option (Option (ℕ → Itv K))
  | [], p => some (some p)
  | (_, none) :: _, _ => none
  | (π, some c) :: l, p =>
    if c.basic then
      match polLincons R π c intdim p with
      | none => some none
      | some p' => polRun intdim l p'
    else none

/-- the constraints in the order of the loops: box/box_policy.c:775-776; `n` is the size of the array of the
user, `t` the array after its reduction, which may be shorter -/
def polSeq (kmax n : ℕ) (t : List (ILincons K)) : List (Option (ILincons K)) :=
  (List.range kmax).flatMap fun _ => (List.range n).map fun i => t[i]?

/-- the number of passes: box/box_policy.c:765-766 -/
def polKmax (algo : ℕ) : ℕ := if algo < 1 then 2 else algo

namespace Box

/-- `box_policy_meet_lincons_array_apply`: box/box_policy.c:749-790 -/
def polMeetLincons (red : ILincons K → ℕ → ILincons K) (π : List (ℕ → PolDim)) (a : Box K)
    (l : List (Lincons K)) (algo : ℕ) : Option (Box K) :=
  match a.p with
  | none => some a
  | some p =>
    if π.length ≠ polKmax algo * l.length then none
    else
      let t := ILincons.arrayReduceInteger red (l.map (ILincons.ofAp R)) a.intdim
      if t.2 = .f then some (setBottom a)
      else (polRun R a.intdim (π.zip (polSeq (polKmax algo) l.length t.1)) p).map fun r =>
        match r with
        | none => setBottom a
        | some p => ⟨some p, a.intdim, a.realdim⟩

end Box

/-- the loops of `box_policy_meet_lincons_array_improve`: box/box_policy.c:814-826; once the box is empty
the other choices are the first argument (line 807) -/
def polRunBest (old : Bool) (intdim : ℕ) :
    List (Option (ILincons K)) → (ℕ → Itv K) → Option (List (ℕ → PolDim) × Option (ℕ → Itv K))
  | [], p => some ([], some p)
  | none :: _, _ => none
  | some c :: l, p =>
    if c.basic then
      let r := polLinconsBest R old c intdim p
      match r.2 with
      | none => some (r.1 :: l.map fun _ _ => (.one, .one), none)
      | some p' => (polRunBest old intdim l p').map fun s => (r.1 :: s.1, s.2)
    else none

namespace Box

/-- `box_policy_meet_lincons_array_improve`: box/box_policy.c:791-832; `old` tells if there is an old policy
(its choices are never read) -/
def polImproveLincons (red : ILincons K → ℕ → ILincons K) (old : Bool) (a : Box K)
    (l : List (Lincons K)) (algo : ℕ) : Option (List (ℕ → PolDim)) :=
  let dflt : List (ℕ → PolDim) := List.replicate (polKmax algo * l.length) fun _ => (.one, .one)
  match a.p with
  | none => some dflt
  | some p =>
    let t := ILincons.arrayReduceInteger red (l.map (ILincons.ofAp R)) a.intdim
    if t.2 = .f then some dflt
    else (polRunBest R old a.intdim (polSeq (polKmax algo) l.length t.1) p).map Prod.fst

end Box
end lincons
end Apron
