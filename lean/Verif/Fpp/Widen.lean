import Verif.Fpp.Pred

/-!
# fppol: meet and widening

`fppol_intersection` (`fppol/fppol_domain.c:1336-1391`), `fppol_envelope_half`
(`fppol/fppol_domain.c:919-996`) and `fppol_widen_standard` (`fppol/fppol_domain.c:1556-1705`).

Simplifications: the linear programs are a parameter `lp`, a function of the rows and of the objective;
the removal of redundant rows and the new bounds of the result are left out.
-/

set_option autoImplicit false
set_option linter.unusedSectionVars false
set_option linter.ambiguousOpen false

namespace Apron.Fpp

variable {K : Type*} [Field K] [LinearOrder K] [IsStrictOrderedRing K]

/-- The bounds of the intersection (`fppol/fppol_domain.c:1361-1364`). -/
def meetBnds (B1 B2 : Bnds K) : Bnds K where
  lo := fun k => match B1.lo k, B2.lo k with
    | some a, some b => some (max a b)
    | some a, none => some a
    | none, o => o
  hi := fun k => match B1.hi k, B2.hi k with
    | some a, some b => some (min a b)
    | some a, none => some a
    | none, o => o

/-- The bound check (`fppol/fppol_domain.c:1367-1375`). -/
def bndsCross (n : ℕ) (B : Bnds K) : Bool :=
  (List.range n).any fun k => match B.lo k, B.hi k with
    | some l, some h => decide (h < l)
    | _, _ => false

/-- `fppol_intersection` (`fppol/fppol_domain.c:1336-1391`); `infeas` is the answer of
`fppol_infeasibility_byRLP`. -/
def fppMeet (n : ℕ) (infeas : List (FRow K) → Bool) (p q : FPol K) : FPol K :=
  if p.flag = .univ then q
  else if q.flag = .univ then p
  else if p.flag = .empty ∨ q.flag = .empty then ⟨.empty, [], ⟨fun _ => none, fun _ => none⟩⟩
  else if bndsCross n (meetBnds p.bnds q.bnds) = true then ⟨.empty, [], ⟨fun _ => none, fun _ => none⟩⟩
  else if infeas (p.cons ++ q.cons) = true then ⟨.empty, [], ⟨fun _ => none, fun _ => none⟩⟩
  else ⟨.gen, p.cons ++ q.cons, meetBnds p.bnds q.bnds⟩

/-- `fppol_entailment` (`fppol/fppol_domain.c:1291-1331`). -/
def entails (lp : List (FRow K) → (ℕ → K) → LPEnd K) (rs : List (FRow K)) (r : FRow K) : Bool :=
  match lp rs r.2 with
  | .opt mu => decide (mu ≤ r.1)
  | _ => false

/-- The quasi envelope (`fppol/fppol_domain.c:936-957`): which rows of the first argument are in it;
`c` is `nquasi`. -/
def quasiMarks (n : ℕ) (rs2 : List (FRow K)) : List (FRow K) → ℕ → List Bool
  | [], _ => []
  | l :: ls, c =>
    let hit := match rs2.find? fun r => vecEq n l.2 r.2 with
      | some r => decide (r.1 ≤ l.1)
      | none => false
    let c' := if hit = true then c + 1 else c
    hit :: if rs2.length ≤ c' then ls.map fun _ => false else quasiMarks n rs2 ls c'

/-- `fppol_envelope_half` (`fppol/fppol_domain.c:919-996`): the rows, and `NbQuasi`; `none` when
`quasiInd`, of 1000 entries, is overrun (line 934). -/
def envHalf (n : ℕ) (lp : List (FRow K) → (ℕ → K) → LPEnd K) (rs1 rs2 : List (FRow K)) :
    Option (List (FRow K) × ℕ) :=
  if 1000 < rs2.length + 1 then none
  else
    let ms := rs1.zip (quasiMarks n rs2 rs1 0)
    let qs := ms.filter fun m => m.2
    let os := ms.filter fun m => !m.2 && entails lp rs2 m.1
    some (qs.map Prod.fst ++ os.map Prod.fst, qs.length)

/-- The rows of the second argument that are kept (`fppol/fppol_domain.c:1600-1638`). -/
def widenEnv2 (n : ℕ) (lp : List (FRow K) → (ℕ → K) → LPEnd K) (env1 rs1 rs2 : List (FRow K)) :
    List (FRow K) :=
  rs2.filter fun l2 =>
    !(env1.any fun l1 => decide (l1.1 = l2.1) && vecEq n l1.2 l2.2) && entails lp rs1 l2 &&
      (List.range rs1.length).any fun j => entails lp (rs1.set j l2) (rs1.getD j (0, fun _ => 0))

/-- `fppol_widen_standard` (`fppol/fppol_domain.c:1556-1705`). -/
def fppWiden (n : ℕ) (lp : List (FRow K) → (ℕ → K) → LPEnd K) (p q : FPol K) : Option (FPol K) :=
  if p.flag = .empty ∨ q.flag = .univ then some q
  else
    match envHalf n lp p.cons q.cons with
    | none => none
    | some (env1, nq) =>
      if q.cons.length ≤ nq then some q
      else
        let env := env1 ++ widenEnv2 n lp env1 p.cons q.cons
        if env.length = 0 then some ⟨.univ, [], ⟨fun _ => none, fun _ => none⟩⟩
        else some ⟨.gen, env, ⟨fun _ => none, fun _ => none⟩⟩

end Apron.Fpp
