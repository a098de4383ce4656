import Verif.Fpp.Elim

/-!
# fppol: the tests of inclusion and equality

`fppol/fpp_predicate.c` and `fppol/fppol_domain.c:728-742,1090-1285`.

Simplifications: no rounding (the subtraction and division of `fppol_inclusion_byEpsilonLP`); the
linear programs are a parameter `lp`, a function of the objective. `bool` is `char`
(`fppol/fpp_config.h:49`), so that a result is a number: 0 is false, 1 is true, 2 is `dntknow`.
-/

set_option autoImplicit false
set_option linter.unusedSectionVars false
set_option linter.ambiguousOpen false

namespace Apron.Fpp

variable {K : Type*} [Field K] [LinearOrder K] [IsStrictOrderedRing K]

/-- The field `flag`. -/
inductive PFlag where
  | empty
  | univ
  | gen
deriving DecidableEq

/-- `fpp_t`, of `n` variables. -/
structure FPol (K : Type*) where
  flag : PFlag
  cons : List (FRow K)
  bnds : Bnds K

/-- `vector_cmp(..) == 0` (`fppol/fppol_domain.c:728-742`). -/
def vecEq (n : ℕ) (a b : ℕ → K) : Bool := (List.range n).all fun k => decide (a k = b k)

/-- `fppol_is_eq_bySyntactic` (`fppol/fppol_domain.c:1090-1111`), for arguments of the same
dimensions; this is `fpp_is_eq` (`fppol/fpp_predicate.c:81-91`). -/
def eqSyn (n : ℕ) (p q : FPol K) : Bool :=
  if p.flag ≠ q.flag ∨ p.cons.length ≠ q.cons.length then false
  else p.cons.all fun r => q.cons.any fun s => decide (r.1 = s.1) && vecEq n r.2 s.2

/-- The loops of `fppol_is_leq_bySyntactic` (`fppol/fppol_domain.c:1120-1132`): `none` is
`return false`. -/
def leqSynLoop (n : ℕ) (rs1 : List (FRow K)) : List (FRow K) → ℕ → Option ℕ
  | [], m => some m
  | r :: rs, m =>
    match rs1.find? fun l => vecEq n l.2 r.2 with
    | some l => if r.1 < l.1 then none else leqSynLoop n rs1 rs (m + 1)
    | none => leqSynLoop n rs1 rs m

/-- `fppol_is_leq_bySyntactic` (`fppol/fppol_domain.c:1114-1135`). -/
def leqSyn (n : ℕ) (rs1 rs2 : List (FRow K)) : ℕ :=
  match leqSynLoop n rs1 rs2 0 with
  | none => 0
  | some m => if m = rs2.length then 1 else 2

/-- `fppol_inclusion_byBound` (`fppol/fppol_domain.c:1139-1155`); a missing bound is `-MAX_VARBND` or
`MAX_VARBND`. -/
def inclBound (n : ℕ) (B1 B2 : Bnds K) : ℕ :=
  if (List.range n).any fun k =>
      (match B1.lo k, B2.lo k with
        | some a, some b => decide (a < b)
        | none, some _ => true
        | _, none => false) ||
      (match B1.hi k, B2.hi k with
        | some a, some b => decide (b < a)
        | none, some _ => true
        | _, none => false)
  then 0 else 2

/-- The end of a linear program. -/
inductive LPEnd (K : Type*) where
  | null
  | opt (mu : K)
  | unbnd
  | other

/-- The loop of `fppol_inclusion_byRLP` (`fppol/fppol_domain.c:1184-1217`); `opt` carries the lesser of
the rigorous optimum and the interval bound. -/
def rlpLoop (n : ℕ) (lp : (ℕ → K) → LPEnd K) (rs1 : List (FRow K)) : List (FRow K) → ℕ
  | [] => 1
  | r :: rs =>
    if rs1.any fun l => vecEq n l.2 r.2 then rlpLoop n lp rs1 rs
    else match lp r.2 with
      | .opt mu => if r.1 < mu then 0 else rlpLoop n lp rs1 rs
      | _ => 2

/-- `fppol_inclusion_byRLP` (`fppol/fppol_domain.c:1167-1220`). -/
def inclRLP (n : ℕ) (lp : (ℕ → K) → LPEnd K) (p q : FPol K) : ℕ :=
  if p.flag = .empty ∨ q.flag = .univ then 1
  else if q.flag = .empty then 0
  else if inclBound n p.bnds q.bnds = 0 then 0
  else if leqSyn n p.cons q.cons ≠ 2 then leqSyn n p.cons q.cons
  else rlpLoop n lp p.cons q.cons

/-- The loop of `fppol_inclusion_byEpsilonLP` (`fppol/fppol_domain.c:1249-1282`). -/
def epsLoop (eps : K) (lp : (ℕ → K) → LPEnd K) : List (FRow K) → ℕ
  | [] => 1
  | r :: rs =>
    match lp r.2 with
    | .null => 2
    | .opt mu =>
      if r.1 < mu then
        if eps < (mu - r.1) / max (-r.1) mu then 0 else epsLoop eps lp rs
      else epsLoop eps lp rs
    | .unbnd => 0
    | .other => epsLoop eps lp rs

/-- `fppol_inclusion_byEpsilonLP` (`fppol/fppol_domain.c:1230-1285`): `fpp_is_leq`
(`fppol/fpp_predicate.c:60-75`) returns it as it is. -/
def fppIsLeq (n : ℕ) (eps : K) (lp : (ℕ → K) → LPEnd K) (p q : FPol K) : ℕ :=
  if p.flag = .empty ∨ q.flag = .univ then 1
  else if q.flag = .empty then 0
  else if p.flag = .univ ∧ q.flag ≠ .univ then 0
  else if inclBound n p.bnds q.bnds = 0 then 0
  else if leqSyn n p.cons q.cons ≠ 2 then leqSyn n p.cons q.cons
  else epsLoop eps lp q.cons

/-- `fpp_sat_lincons` (`fppol/fpp_predicate.c:97-104`). -/
def fppSatLincons (_p : FPol K) (_r : FRow K) : Bool := true

end Apron.Fpp
