import Verif.Core.Linexpr
import Verif.Oct.Resize

/-!
# Model of `octagons/oct_transfer.c`: constraints, assignments, substitutions

The scratch array `pr->tmp` is the function `dst : ℕ → Bound K`: `dst 0`, `dst 1` are the opposite
of the lower bound and the upper bound of the constant, `dst (2j+2)`, `dst (2j+3)` those of the
coefficient of dimension `j`.  Simplifications: the `exact` output is kept, the other precision
flags are not; argument checks (`arg_assert`) are preconditions.
-/

set_option autoImplicit false
set_option linter.unusedSectionVars false
set_option linter.ambiguousOpen false

namespace Apron
namespace Oct
open Bound
variable {K : Type*} [LinearOrder K] [Field K] [IsStrictOrderedRing K] (R : Rnd K)

/-- `bound_integer`: num/bound_def.h:675-676 -/
def isInteger [FloorRing K] : Bound K → Bool
  | fin q => decide (((⌊q⌋ : ℤ) : K) = q)
  | _ => false

/-- `uexpr.type`: octagons/oct_internal.h:515-521 -/
inductive UType where
  | empty | zero | unary | binary | other
  deriving DecidableEq, Repr

/-- `uexpr`: octagons/oct_internal.h:514-530 -/
structure UExpr where
  type : UType
  i : ℕ
  j : ℕ
  coefI : ℤ
  coefJ : ℤ
  isInt : Bool
  deriving DecidableEq, Repr

section
variable [FloorRing K]

/-- macro `COEFF`: octagons/oct_transfer.c:50-53; stores the bounds of `c` at `p`, `p+1` -/
def coeffStep (c : Coeff K) (p : ℕ) (u : UExpr) (dst : ℕ → Bound K) : UExpr × (ℕ → Bound K) :=
  let c := c.reduce
  let lo := OctT.ofScalar R (neg c.inf) false
  let hi := OctT.ofScalar R c.sup false
  let u := if !c.isScalar && decide (c.sup < c.inf) then { u with type := .empty } else u
  let u := if !c.isScalar || !isInteger lo then { u with isInt := false } else u
  (u, Function.update (Function.update dst p lo) (p + 1) hi)

/-- macro `CLASS_COEFF`, storing the new variable: octagons/oct_transfer.c:34-36 -/
def UExpr.push (u : UExpr) (d : ℕ) (c : ℤ) : UExpr :=
  if u.type = .zero then { u with type := .unary, i := d, coefI := c }
  else { u with type := .binary, j := d, coefJ := c }

/-- macro `CLASS_VAR`: octagons/oct_transfer.c:40-47 -/
def classVar (intdim d : ℕ) (u : UExpr) (dst : ℕ → Bound K) : UExpr :=
  let u := if intdim ≤ d then { u with isInt := false } else u
  if u.type = .empty then u
  else if sgn (dst (2 * d + 2)) = 0 ∧ sgn (dst (2 * d + 3)) = 0 then u
  else if u.type = .binary ∨ u.type = .other then { u with type := .other }
  else if Bound.cmp (dst (2 * d + 2)) (fin (-1)) = 0 ∧ Bound.cmp (dst (2 * d + 3)) (fin 1) = 0 then u.push d 1
  else if Bound.cmp (dst (2 * d + 2)) (fin 1) = 0 ∧ Bound.cmp (dst (2 * d + 3)) (fin (-1)) = 0 then u.push d (-1)
  else { u with type := .other }

/-- one term -/
def termStep (intdim : ℕ) (s : UExpr × (ℕ → Bound K)) (t : ℕ × Coeff K) : UExpr × (ℕ → Bound K) :=
  let s := coeffStep R t.2 (2 * t.1 + 2) s.1 s.2
  (classVar intdim t.1 s.1 s.2, s.2)

/-- `oct_uexpr_of_linexpr`: octagons/oct_transfer.c:29-84.  The coefficients of absent dimensions
are zero: the code sets them before (sparse) or after (dense) the loop over the terms. -/
def uexprOf (e : Linexpr K) (intdim : ℕ) : UExpr × (ℕ → Bound K) :=
  e.terms.foldl (termStep R intdim)
    (coeffStep R e.cst 0 ⟨.zero, 0, 0, 0, 0, true⟩ (fun _ => fin 0))

end

/-- `2*u.i` or `2*u.i+1`: octagons/oct_transfer.c:189, 208-209 -/
def signed (i : ℕ) (c : ℤ) : ℕ := if c = 1 then 2 * i else 2 * i + 1

/-- `bounds_mul`: octagons/oct_internal.h:446-471; result `(r_inf, r_sup)` -/
def boundsMul (ainf asup binf bsup : Bound K) : Bound K × Bound K :=
  let t0 := mul R asup bsup
  let t4 := mul R (neg asup) bsup
  let t1 := mul R ainf binf
  let t5 := mul R (neg ainf) binf
  let t6 := mul R asup binf
  let t2 := mul R (neg asup) binf
  let t7 := mul R ainf bsup
  let t3 := mul R (neg ainf) bsup
  (bmax (bmax (bmax t4 t5) t6) t7, bmax (bmax (bmax t0 t1) t2) t3)

/-- twice the product of the bounds of dimension `j` and of its coefficient:
octagons/oct_transfer.c:234-235, 681-682 -/
def prodBounds (dst : ℕ → Bound K) (m : Mem K) (j : ℕ) : Bound K × Bound K :=
  boundsMul R (m (matpos (2 * j) (2 * j + 1))) (m (matpos (2 * j + 1) (2 * j)))
    (dst (2 * j + 2)) (dst (2 * j + 3))

/-- state of the summation loops: octagons/oct_transfer.c:220-241, 673-685 -/
structure Acc (K : Type*) where
  sum : Bound K
  cnt : ℕ
  j1 : ℕ
  j2 : ℕ

/-- one side of a summation loop: octagons/oct_transfer.c:233-240 -/
def accum (t : ℕ → Bound K) (dim : ℕ) (init : Bound K) : Acc K :=
  (List.range dim).foldl (fun (s : Acc K) j =>
    if infty (t j) then ⟨s.sum, s.cnt + 1, j, s.j1⟩
    else { s with sum := add R s.sum (t j) }) ⟨init, 0, 0, 0⟩

/-- exchanging the roles of the two bounds of every coefficient: the second half of the general
case is the first half with `tmp[2j+2]` and `tmp[2j+3]` exchanged -/
def swapDst (dst : ℕ → Bound K) : ℕ → Bound K := fun p => dst (p ^^^ 1)

/-- the choice made for one variable: coefficient at least one, or at most minus one, and the
corresponding bound finite; gives the bound and the signed index `uj`
(octagons/oct_transfer.c:249-260, 262-275) -/
def pick (dst : ℕ → Bound K) (m : Mem K) (j : ℕ) : Option (Bound K × ℕ) :=
  if Bound.cmp (dst (2 * j + 2)) (fin (-1)) ≤ 0 ∧ infty (m (matpos (2 * j + 1) (2 * j))) = false then
    some (m (matpos (2 * j + 1) (2 * j)), 2 * j + 1)
  else if Bound.cmp (dst (2 * j + 3)) (fin (-1)) ≤ 0 ∧ infty (m (matpos (2 * j) (2 * j + 1))) = false then
    some (m (matpos (2 * j) (2 * j + 1)), 2 * j)
  else none

/-- the coefficient is exactly -1 or 1 (octagons/oct_transfer.c:281-285, 309-318) -/
def unitIdx (dst : ℕ → Bound K) (j : ℕ) : Option ℕ :=
  if Bound.cmp (dst (2 * j + 3)) (fin (-1)) = 0 ∧ Bound.cmp (dst (2 * j + 2)) (fin 1) = 0 then some (2 * j)
  else if Bound.cmp (dst (2 * j + 3)) (fin 1) = 0 ∧ Bound.cmp (dst (2 * j + 2)) (fin (-1)) = 0 then
    some (2 * j + 1)
  else none

/-- no infinite bound: octagons/oct_transfer.c:246-277 -/
def otherQuad (dst : ℕ → Bound K) (dim : ℕ) (Cb : Bound K) (b : Mem K) : Mem K :=
  (List.range dim).foldl (fun (b : Mem K) j =>
    match pick dst b j with
    | none => b
    | some (bj, uj) =>
      let tmpa := sub R Cb bj
      (List.range' (j + 1) (dim - (j + 1))).foldl (fun (b : Mem K) k =>
        match pick dst b k with
        | none => b
        | some (bk, uk) => b.bmin (matpos (uk ^^^ 1) uj) (div2 R (sub R tmpa bk))) b) b

/-- one infinite bound: octagons/oct_transfer.c:279-304 -/
def otherLin (dst : ℕ → Bound K) (dim : ℕ) (Cb : Bound K) (j1 : ℕ) (b : Mem K) : Mem K :=
  match unitIdx dst j1 with
  | none => b
  | some uj => (List.range dim).foldl (fun (b : Mem K) k =>
      if k = j1 then b else
      match pick dst b k with
      | none => b
      | some (bk, uk) => b.bmin (matpos2 (uk ^^^ 1) uj) (div2 R (sub R Cb bk))) b

/-- two infinite bounds: octagons/oct_transfer.c:306-321 -/
def otherOne (dst : ℕ → Bound K) (Cb : Bound K) (j1 j2 : ℕ) (b : Mem K) : Mem K :=
  match unitIdx dst j1, unitIdx dst j2 with
  | some ui, some uj => b.bmin (matpos2 (uj ^^^ 1) ui) (div2 R Cb)
  | _, _ => b

/-- one direction of the general case: octagons/oct_transfer.c:243-325 (328-401 with `swapDst`) -/
def otherHalf (dst : ℕ → Bound K) (dim : ℕ) (acc : Acc K) (b : Mem K) : Mem K :=
  if infty acc.sum then b
  else if acc.cnt = 0 then otherQuad R dst dim acc.sum b
  else if acc.cnt = 1 then otherLin R dst dim acc.sum acc.j1 b
  else if acc.cnt = 2 then otherOne R dst acc.sum acc.j1 acc.j2 b
  else b

/-- general case of `hmat_add_lincons`: octagons/oct_transfer.c:216-409 -/
def addOther (dst : ℕ → Bound K) (dim : ℕ) (isEq : Bool) (b : Mem K) : Mem K :=
  let up := accum R (fun j => (prodBounds R dst b j).2) dim (mul2 R (dst 1))
  let lo := accum R (fun j => (prodBounds R dst b j).1) dim (mul2 R (dst 0))
  let b := otherHalf R dst dim up b
  if isEq then otherHalf R (swapDst dst) dim lo b else b

/-- loop state of `hmat_add_lincons`: octagons/oct_transfer.c:116-120 -/
structure AddSt (K : Type*) where
  b : Mem K
  varPending : ℕ
  pending : Bool
  respect : Bool
  exact : Bool

section
variable [FloorRing K]

/-- is the constraint type the equality -/
def isEqTyp : ConsTyp K → Bool
  | .eq => true
  | _ => false
/-- is the constraint type the strict inequality -/
def isSupTyp : ConsTyp K → Bool
  | .sup => true
  | _ => false

/-- the pending incremental closure, octagons/oct_transfer.c:183-185, 201-204 -/
def flushIf (dim : ℕ) (cond : Bool) (s : AddSt K) : Option (Mem K) :=
  if s.respect && s.pending && cond then
    match closeIncremental R dim s.b s.varPending with
    | (true, _) => none
    | (false, m) => some m
  else some s.b

/-- one constraint of `hmat_add_lincons`: octagons/oct_transfer.c:122-413; `none`: empty -/
def addOne (intdim dim : ℕ) (s : AddSt K) (c : Lincons K) : Option (AddSt K) :=
  match c.typ with
  | .eqmod _ => some { s with exact := false }
  | .diseq => some { s with exact := false }
  | typ =>
    let (u, dst) := uexprOf R c.expr intdim
    let strict := u.isInt && isSupTyp typ
    let typ := if strict then .supeq else typ
    let dst := if strict then
      Function.update (Function.update dst 0 (addNat R (dst 0) 1)) 1 (subNat R (dst 1) 1) else dst
    match u.type with
    | .empty => some s
    | .zero =>
      let ok := match typ with
        | .supeq => decide (0 ≤ sgn (dst 1))
        | .sup => decide (0 < sgn (dst 1))
        | _ => decide (0 ≤ sgn (dst 0)) && decide (0 ≤ sgn (dst 1))
      if ok then some s else none
    | .unary =>
      match flushIf R dim (decide (s.varPending ≠ u.i)) s with
      | none => none
      | some b =>
        let ui := signed u.i u.coefI
        let b := b.bmin (matpos ui (ui ^^^ 1)) (mul2 R (dst 1))
        let b := if isEqTyp typ then b.bmin (matpos (ui ^^^ 1) ui) (mul2 R (dst 0)) else b
        some ⟨b, u.i, true, s.respect, s.exact && !isSupTyp typ⟩
    | .binary =>
      match flushIf R dim (decide (s.varPending ≠ u.i) && decide (s.varPending ≠ u.j)) s with
      | none => none
      | some b =>
        let ui := signed u.i u.coefI
        let uj := signed u.j u.coefJ
        let b := b.bmin (matpos2 uj (ui ^^^ 1)) (dst 1)
        let b := if isEqTyp typ then b.bmin (matpos2 (uj ^^^ 1) ui) (dst 0) else b
        some ⟨b, if s.varPending = u.j then u.j else u.i, true, s.respect, s.exact && !isSupTyp typ⟩
    | .other => some ⟨addOther R dst dim (isEqTyp typ) s.b, s.varPending, s.pending, false, false⟩

/-- the constraint loop: octagons/oct_transfer.c:121-414 -/
def addLoop (intdim dim : ℕ) : List (Lincons K) → AddSt K → Option (AddSt K)
  | [], s => some s
  | c :: l, s =>
    match addOne R intdim dim s c with
    | none => none
    | some s => addLoop intdim dim l s

/-- `hmat_add_lincons`: octagons/oct_transfer.c:112-421; `none`: empty, otherwise the matrix,
`*exact` and `*respect_closure` -/
def addLincons (intdim dim : ℕ) (b : Mem K) (ar : List (Lincons K)) (respect : Bool) :
    Option (Mem K × Bool × Bool) :=
  match addLoop R intdim dim ar ⟨b, 0, false, respect, true⟩ with
  | none => none
  | some s =>
    match flushIf R dim true s with
    | none => none
    | some b => some (b, s.exact, s.respect)

end

/-! ### assignments and substitutions -/

/-- `X <- [-a,b]` keeping the closure: octagons/oct_transfer.c:604-614 -/
def assignZeroClosed (dst : ℕ → Bound K) (dim d : ℕ) (m : Mem K) : Mem K :=
  let m := (List.range (2 * d)).foldl (fun (m : Mem K) k =>
    let t := div2 R (m (matpos (k ^^^ 1) k))
    (m.set (matpos (2 * d) k) (add R t (dst 0))).set (matpos (2 * d + 1) k) (add R t (dst 1))) m
  (List.range' (2 * d + 2) (2 * dim - (2 * d + 2))).foldl (fun (m : Mem K) k =>
    let t := div2 R (m (matpos k (k ^^^ 1)))
    (m.set (matpos k (2 * d)) (add R t (dst 1))).set (matpos k (2 * d + 1)) (add R t (dst 0))) m

/-- `X <- -X + [-a,b]`: octagons/oct_transfer.c:640-656 -/
def assignNeg (dst : ℕ → Bound K) (dim d : ℕ) (m : Mem K) : Mem K :=
  let m := (List.range (2 * d)).foldl (fun (m : Mem K) k =>
    let t := m (matpos (2 * d) k)
    let m1 := m.set (matpos (2 * d) k) (add R (m (matpos (2 * d + 1) k)) (dst 0))
    m1.set (matpos (2 * d + 1) k) (add R t (dst 1))) m
  let m := (List.range' (2 * d + 2) (2 * dim - (2 * d + 2))).foldl (fun (m : Mem K) k =>
    let t := m (matpos k (2 * d))
    let m1 := m.set (matpos k (2 * d)) (add R (m (matpos k (2 * d + 1))) (dst 1))
    m1.set (matpos k (2 * d + 1)) (add R t (dst 0))) m
  let t := m (matpos (2 * d + 1) (2 * d))
  let m1 := m.set (matpos (2 * d + 1) (2 * d)) (add R (m (matpos (2 * d) (2 * d + 1))) (mul2 R (dst 1)))
  m1.set (matpos (2 * d) (2 * d + 1)) (add R t (mul2 R (dst 0)))

/-- `X <- X + [-a,b]`: octagons/oct_transfer.c:659-673 -/
def assignShift (dst : ℕ → Bound K) (dim d : ℕ) (m : Mem K) : Mem K :=
  let m := (List.range (2 * d)).foldl (fun (m : Mem K) k =>
    let m1 := m.set (matpos (2 * d) k) (add R (m (matpos (2 * d) k)) (dst 0))
    m1.set (matpos (2 * d + 1) k) (add R (m1 (matpos (2 * d + 1) k)) (dst 1))) m
  let m := (List.range' (2 * d + 2) (2 * dim - (2 * d + 2))).foldl (fun (m : Mem K) k =>
    let m1 := m.set (matpos k (2 * d)) (add R (m (matpos k (2 * d))) (dst 1))
    m1.set (matpos k (2 * d + 1)) (add R (m1 (matpos k (2 * d + 1))) (dst 0))) m
  let m1 := m.set (matpos (2 * d + 1) (2 * d)) (add R (m (matpos (2 * d + 1) (2 * d))) (mul2 R (dst 1)))
  m1.set (matpos (2 * d) (2 * d + 1)) (add R (m1 (matpos (2 * d) (2 * d + 1))) (mul2 R (dst 0)))

/-- upper bounds of the general assignment: octagons/oct_transfer.c:699-731.  `s0`, `s1` are the
scratch cells `tmp[2*dim+2]`, `tmp[2*dim+3]`: the tests of lines 724-729 use the index `i`, which
is `dim` there. -/
def assignUpper (dst : ℕ → Bound K) (dim d : ℕ) (acc : Acc K) (s0 s1 : Bound K) (m : Mem K) : Mem K :=
  if acc.cnt = 0 then
    (List.range dim).foldl (fun (m : Mem K) i =>
      if i = d then m
      else if Bound.cmp (dst (2 * i + 2)) (fin (-1)) ≤ 0 ∧ infty (m (matpos (2 * i + 1) (2 * i))) = false then
        m.set (matpos2 (2 * i) (2 * d)) (div2 R (sub R acc.sum (m (matpos (2 * i + 1) (2 * i)))))
      else if Bound.cmp (dst (2 * i + 3)) (fin (-1)) ≤ 0 ∧ infty (m (matpos (2 * i) (2 * i + 1))) = false then
        m.set (matpos2 (2 * i + 1) (2 * d)) (div2 R (sub R acc.sum (m (matpos (2 * i) (2 * i + 1)))))
      else m) (m.set (matpos (2 * d + 1) (2 * d)) acc.sum)
  else if acc.cnt = 1 then
    if acc.j1 ≠ d then
      if Bound.cmp s1 (fin 1) = 0 ∧ Bound.cmp s0 (fin (-1)) = 0 then
        m.set (matpos2 (2 * acc.j1) (2 * d)) (div2 R acc.sum)
      else if Bound.cmp s1 (fin (-1)) = 0 ∧ Bound.cmp s0 (fin 1) = 0 then
        m.set (matpos2 (2 * acc.j1 + 1) (2 * d)) (div2 R acc.sum)
      else m
    else m
  else m

/-- lower bounds of the general assignment: octagons/oct_transfer.c:733-763 -/
def assignLower (dst : ℕ → Bound K) (dim d : ℕ) (acc : Acc K) (s0 s1 : Bound K) (m : Mem K) : Mem K :=
  if acc.cnt = 0 then
    (List.range dim).foldl (fun (m : Mem K) i =>
      if i = d then m
      else if Bound.cmp (dst (2 * i + 2)) (fin (-1)) ≤ 0 ∧ infty (m (matpos (2 * i) (2 * i + 1))) = false then
        m.set (matpos2 (2 * i + 1) (2 * d + 1)) (div2 R (sub R acc.sum (m (matpos (2 * i) (2 * i + 1)))))
      else if Bound.cmp (dst (2 * i + 3)) (fin (-1)) ≤ 0 ∧ infty (m (matpos (2 * i + 1) (2 * i))) = false then
        m.set (matpos2 (2 * i) (2 * d + 1)) (div2 R (sub R acc.sum (m (matpos (2 * i + 1) (2 * i)))))
      else m) (m.set (matpos (2 * d) (2 * d + 1)) acc.sum)
  else if acc.cnt = 1 then
    if acc.j1 ≠ d then
      if Bound.cmp s1 (fin 1) = 0 ∧ Bound.cmp s0 (fin (-1)) = 0 then
        m.set (matpos2 (2 * d) (2 * acc.j1)) (div2 R acc.sum)
      else if Bound.cmp s1 (fin (-1)) = 0 ∧ Bound.cmp s0 (fin 1) = 0 then
        m.set (matpos2 (2 * d) (2 * acc.j1 + 1)) (div2 R acc.sum)
      else m
    else m
  else m

/-- general assignment: octagons/oct_transfer.c:675-766.  The scratch cells read by
`assignUpper` and `assignLower` were last written by `bounds_mul` (its `tmp[0]`, `tmp[1]`) for the
last dimension. -/
def assignGen (dst : ℕ → Bound K) (dim d : ℕ) (m : Mem K) : Mem K :=
  let up := accum R (fun i => (prodBounds R dst m i).2) dim (mul2 R (dst 1))
  let lo := accum R (fun i => (prodBounds R dst m i).1) dim (mul2 R (dst 0))
  let l := dim - 1
  let s0 := mul R (m (matpos (2 * l + 1) (2 * l))) (dst (2 * l + 3))
  let s1 := mul R (m (matpos (2 * l) (2 * l + 1))) (dst (2 * l + 2))
  let m := forgetVar dim false m d
  assignLower R dst dim d lo s0 s1 (assignUpper R dst dim d up s0 s1 m)

/-- `hmat_assign`: octagons/oct_transfer.c:594-768; returns the matrix and `*respect_closure` -/
def hmatAssign (u : UExpr) (dst : ℕ → Bound K) (dim d : ℕ) (m : Mem K) (respect : Bool) :
    Mem K × Bool :=
  if u.type = .zero then
    let m := if respect then assignZeroClosed R dst dim d m else forgetVar dim false m d
    ((m.set (matpos (2 * d) (2 * d + 1)) (mul2 R (dst 0))).set
      (matpos (2 * d + 1) (2 * d)) (mul2 R (dst 1)), respect)
  else if u.type = .unary ∧ u.i ≠ d then
    let m := forgetVar dim false m d
    let i := signed u.i u.coefI
    let m := (m.set (matpos2 (2 * d) i) (dst 0)).set (matpos2 i (2 * d)) (dst 1)
    (if respect then (closeIncremental R dim m d).2 else m, respect)
  else if u.type = .unary ∧ u.coefI = -1 then (assignNeg R dst dim d m, respect)
  else if u.type = .unary ∧ u.coefI = 1 then (assignShift R dst dim d m, respect)
  else (assignGen R dst dim d m, false)

/-- `X -> [-a,b]`: octagons/oct_transfer.c:776-808; `none`: empty -/
def substZero (dst : ℕ → Bound K) (dim d : ℕ) (m : Mem K) : Option (Mem K) :=
  let t2 := add R (mul2 R (dst 0)) (m (matpos (2 * d + 1) (2 * d)))
  let t3 := add R (mul2 R (dst 1)) (m (matpos (2 * d) (2 * d + 1)))
  if sgn t2 < 0 ∨ sgn t3 < 0 then none
  else
    let m := (List.range (2 * d)).foldl (fun (m : Mem K) i =>
      let t2 := mul2 R (add R (dst 0) (m (matpos (2 * d + 1) (i ^^^ 1))))
      let t3 := mul2 R (add R (dst 1) (m (matpos (2 * d) (i ^^^ 1))))
      (m.bmin (matpos i (i ^^^ 1)) t2).bmin (matpos i (i ^^^ 1)) t3) m
    let m := (List.range' (2 * d + 2) (2 * dim - (2 * d + 2))).foldl (fun (m : Mem K) i =>
      let t2 := mul2 R (add R (dst 0) (m (matpos i (2 * d))))
      let t3 := mul2 R (add R (dst 1) (m (matpos i (2 * d + 1))))
      (m.bmin (matpos i (i ^^^ 1)) t2).bmin (matpos i (i ^^^ 1)) t3) m
    some (forgetVar dim false m d)

/-- `X -> c_i X_i + [-a,b]`: octagons/oct_transfer.c:810-846; `none`: empty -/
def substUnary (dst : ℕ → Bound K) (dim d k : ℕ) (m : Mem K) : Option (Mem K) :=
  let t2 := add R (dst 0) (m (matpos2 k (2 * d)))
  let t3 := add R (dst 1) (m (matpos2 (2 * d) k))
  if sgn t2 < 0 ∨ sgn t3 < 0 then none
  else
    let m := (List.range (2 * d)).foldl (fun (m : Mem K) i =>
      let t2 := add R (dst 0) (m (matpos (2 * d + 1) i))
      let t3 := add R (dst 1) (m (matpos (2 * d) i))
      (m.bmin (matpos2 (k ^^^ 1) i) t2).bmin (matpos2 k i) t3) m
    let m := (List.range' (2 * d + 2) (2 * dim - (2 * d + 2))).foldl (fun (m : Mem K) i =>
      let t2 := add R (dst 0) (m (matpos (i ^^^ 1) (2 * d)))
      let t3 := add R (dst 1) (m (matpos (i ^^^ 1) (2 * d + 1)))
      (m.bmin (matpos2 (k ^^^ 1) i) t2).bmin (matpos2 k i) t3) m
    let t2 := add R (mul2 R (dst 0)) (m (matpos (2 * d + 1) (2 * d)))
    let t3 := add R (mul2 R (dst 1)) (m (matpos (2 * d) (2 * d + 1)))
    let m := (m.bmin (matpos (k ^^^ 1) k) t2).bmin (matpos k (k ^^^ 1)) t3
    some (forgetVar dim false m d)

/-- `hmat_subst`: octagons/oct_transfer.c:772-875; `none`: empty -/
def hmatSubst (u : UExpr) (dst : ℕ → Bound K) (dim d : ℕ) (m : Mem K) (respect : Bool) :
    Option (Mem K × Bool) :=
  if u.type = .zero then (substZero R dst dim d m).map fun m => (m, false)
  else if u.type = .unary ∧ u.i ≠ d then
    (substUnary R dst dim d (signed u.i u.coefI) m).map fun m => (m, false)
  else if u.type = .unary ∧ u.coefI = -1 then some (hmatAssign R u dst dim d m respect)
  else if u.type = .unary ∧ u.coefI = 1 then
    some (hmatAssign R u (Function.update (Function.update dst 0 (dst 1)) 1 (dst 0)) dim d m respect)
  else some (forgetVar dim false m d, respect)

end Oct

namespace OctT
open Bound Oct
variable {K : Type*} [LinearOrder K] [Field K] [IsStrictOrderedRing K] [FloorRing K] (R : Rnd K)

/-- `oct_meet_lincons_array`: octagons/oct_transfer.c:478-513 -/
def meetLinconsArray (algo : ℤ) (a : OctT K) (ar : List (Lincons K)) : OctT K :=
  match a.best with
  | none => bottom a.dim a.intdim
  | some m =>
    match addLincons R a.intdim a.dim m ar (a.closed.isSome && decide (0 ≤ algo)) with
    | none => bottom a.dim a.intdim
    | some (m, _, respect) =>
      if respect then ⟨none, some m, a.dim, a.intdim⟩ else ⟨some m, none, a.dim, a.intdim⟩

/-- the precision flag `exact` computed by `oct_meet_lincons_array`
(octagons/oct_transfer.c:498-508): `true` if `flag_incomplete` is not raised (exact numbers) -/
def meetLinconsExact (algo : ℤ) (a : OctT K) (ar : List (Lincons K)) : Bool :=
  match a.best with
  | none => true
  | some m =>
    match addLincons R a.intdim a.dim m ar (a.closed.isSome && decide (0 ≤ algo)) with
    | none => true
    | some (_, ex, _) => ex

/-- intersection with `dest`: octagons/oct_transfer.c:915-920 -/
def meetDest (dest : Option (OctT K)) (m : Mem K) : Mem K :=
  match dest with
  | none => m
  | some b => match b.best with
    | none => m
    | some m2 => fun p => bmin (m p) (m2 p)

/-- `dest && !dest->closed && !dest->m` -/
def destEmpty (dest : Option (OctT K)) : Bool :=
  match dest with
  | none => false
  | some b => b.best.isNone

/-- `oct_assign_linexpr`: octagons/oct_transfer.c:898-944 -/
def assignLinexpr (algo : ℤ) (a : OctT K) (d : ℕ) (e : Linexpr K) (dest : Option (OctT K)) : OctT K :=
  let ud := uexprOf R e a.intdim
  if destEmpty dest then bottom a.dim a.intdim
  else if ud.1.type = .empty then bottom a.dim a.intdim
  else
    let a := if ud.1.type ≠ .unary ∨ ud.1.i ≠ d then cacheIf R algo a else a
    match a.best with
    | none => bottom a.dim a.intdim
    | some m =>
      let r := hmatAssign R ud.1 ud.2 a.dim d m (a.closed.isSome && decide (0 ≤ algo) && dest.isNone)
      let m := meetDest dest r.1
      if r.2 then ⟨none, some m, a.dim, a.intdim⟩ else ⟨some m, none, a.dim, a.intdim⟩

/-- `oct_substitute_linexpr`: octagons/oct_transfer.c:946-1002 -/
def substLinexpr (algo : ℤ) (a : OctT K) (d : ℕ) (e : Linexpr K) (dest : Option (OctT K)) : OctT K :=
  let ud := uexprOf R e a.intdim
  if destEmpty dest then bottom a.dim a.intdim
  else if ud.1.type = .empty then bottom a.dim a.intdim
  else
    let a := if ud.1.type ≠ .unary ∨ ud.1.i ≠ d then cacheIf R algo a else a
    match a.best with
    | none => bottom a.dim a.intdim
    | some m =>
      match hmatSubst R ud.1 ud.2 a.dim d m (a.closed.isSome && decide (0 ≤ algo) && dest.isNone) with
      | none => bottom a.dim a.intdim
      | some r =>
        let m := meetDest dest r.1
        if r.2 then ⟨none, some m, a.dim, a.intdim⟩ else ⟨some m, none, a.dim, a.intdim⟩

/-- adding unconstrained dimensions at the end: octagons/oct_transfer.c:1042-1043
(`hmat_alloc_top`, `bound_set_array`) -/
def extendTop (dim size : ℕ) (m : Mem K) : Mem K :=
  copyArr (allocTop (dim + size)) 0 m 0 (matsize dim)

/-- the assignments of `oct_assign_linexpr_array`, numbered from `k`:
octagons/oct_transfer.c:1050-1063; `none`: empty -/
def assignAll (dim intdim size : ℕ) : List (Linexpr K) → ℕ → Mem K → Option (Mem K)
  | [], _, m => some m
  | e :: l, k, m =>
    let ud := uexprOf R e intdim
    if ud.1.type = .empty then none
    else assignAll dim intdim size l (k + 1) (hmatAssign R ud.1 ud.2 (dim + size) (dim + k) m false).1

/-- the permutation of lines 1076-1080 of octagons/oct_transfer.c, for the target dimensions
`tdim` -/
def arrayPerm (dim : ℕ) (tdim : List ℕ) : ℕ → ℕ := fun v =>
  if dim ≤ v then tdim.getD (v - dim) 0 else if v ∈ tdim then dim else v

/-- `oct_assign_linexpr_array`: octagons/oct_transfer.c:1004-1101 -/
def assignLinexprArray (algo : ℤ) (uninit : Mem K) (a : OctT K) (te : List (ℕ × Linexpr K))
    (dest : Option (OctT K)) : OctT K :=
  match te with
  | [(d, e)] => assignLinexpr R algo a d e dest
  | _ =>
    if destEmpty dest then bottom a.dim a.intdim
    else
      let a := cacheIf R algo a
      let size := te.length
      match a.best with
      | none => bottom a.dim a.intdim
      | some m =>
        match assignAll R a.dim a.intdim size (te.map Prod.snd) 0 (extendTop a.dim size m) with
        | none => bottom a.dim a.intdim
        | some mm =>
          let r := if 0 ≤ algo then close R (a.dim + size) mm else (false, mm)
          if r.1 then bottom a.dim a.intdim
          else
            let m := hmatPermute uninit r.2 a.dim (a.dim + size) (arrayPerm a.dim (te.map Prod.fst))
            ⟨some (meetDest dest m), none, a.dim, a.intdim⟩

/-- moving the constraints of dimension `t` to the fresh dimension `dst`:
octagons/oct_transfer.c:1149-1162; `n2 = 2*(a->dim+size)` -/
def renameVar (dimT : ℕ) (m : Mem K) (t q : ℕ) : Mem K :=
  let dst := 2 * q
  let src := 2 * t
  let m := (List.range src).foldl (fun (m : Mem K) j =>
    let m1 := m.bmin (matpos (dst + 1) j) (m (matpos (src + 1) j))
    m1.bmin (matpos dst j) (m1 (matpos src j))) m
  let m := (List.range' (src + 2) (2 * dimT - (src + 2))).foldl (fun (m : Mem K) j =>
    let m1 := m.bmin (matpos2 (dst + 1) j) (m (matpos (j ^^^ 1) src))
    m1.bmin (matpos2 dst j) (m1 (matpos (j ^^^ 1) (src + 1)))) m
  let m1 := m.bmin (matpos (dst + 1) dst) (m (matpos (src + 1) src))
  let m := m1.bmin (matpos dst (dst + 1)) (m1 (matpos src (src + 1)))
  forgetVar dimT false m t

/-- all the renamings, numbered from `k`: octagons/oct_transfer.c:1148-1163 -/
def renameAll (dim size : ℕ) : List ℕ → ℕ → Mem K → Mem K
  | [], _, m => m
  | t :: l, k, m => renameAll dim size l (k + 1) (renameVar (dim + size) m t (dim + k))

/-- the substitutions of `oct_substitute_linexpr_array`: octagons/oct_transfer.c:1169-1186 -/
def substAll (dim intdim size : ℕ) : List (Linexpr K) → ℕ → Mem K → Option (Mem K)
  | [], _, m => some m
  | e :: l, k, m =>
    let ud := uexprOf R e intdim
    if ud.1.type = .empty then none
    else match hmatSubst R ud.1 ud.2 (dim + size) (dim + k) m false with
      | none => none
      | some r => substAll dim intdim size l (k + 1) r.1

/-- `oct_substitute_linexpr_array`: octagons/oct_transfer.c:1103-1183 -/
def substLinexprArray (algo : ℤ) (a : OctT K) (te : List (ℕ × Linexpr K))
    (dest : Option (OctT K)) : OctT K :=
  match te with
  | [(d, e)] => substLinexpr R algo a d e dest
  | _ =>
    if destEmpty dest then bottom a.dim a.intdim
    else
      let a := cacheIf R algo a
      let size := te.length
      match a.best with
      | none => bottom a.dim a.intdim
      | some m =>
        match substAll R a.dim a.intdim size (te.map Prod.snd) 0
          (renameAll a.dim size (te.map Prod.fst) 0 (extendTop a.dim size m)) with
        | none => bottom a.dim a.intdim
        | some mm =>
          let r := if 0 ≤ algo then close R (a.dim + size) mm else (false, mm)
          if r.1 then bottom a.dim a.intdim
          else ⟨some (meetDest dest r.2), none, a.dim, a.intdim⟩

/-! ### queries of `octagons/oct_predicate.c` on expressions -/

/-- `oct_sat_lincons`: octagons/oct_predicate.c:211-319 -/
def satLincons (algo : ℤ) (a : OctT K) (c : Lincons K) : Bool :=
  match (cacheIf R algo a).best with
  | none => true
  | some b =>
    match c.typ with
    | .eqmod _ => false
    | .diseq => false
    | typ =>
      let (u, dst) := uexprOf R c.expr a.intdim
      let test (t0 t1 : Bound K) : Bool :=
        decide (sgn t0 ≤ 0) && (!isSupTyp typ || decide (sgn t0 < 0)) &&
          (!isEqTyp typ || decide (sgn t1 ≤ 0))
      match u.type with
      | .empty => true
      | .zero =>
        match typ with
        | .supeq => decide (sgn (dst 0) ≤ 0)
        | .sup => decide (sgn (dst 0) < 0)
        | _ => decide (sgn (dst 0) = 0) && decide (sgn (dst 1) = 0)
      | .unary =>
        let ui := signed u.i u.coefI
        test (add R (mul2 R (dst 0)) (b (matpos ui (ui ^^^ 1))))
          (add R (mul2 R (dst 1)) (b (matpos (ui ^^^ 1) ui)))
      | .binary =>
        let ui := signed u.i u.coefI
        let uj := signed u.j u.coefJ
        test (add R (dst 0) (b (matpos uj (ui ^^^ 1)))) (add R (dst 1) (b (matpos (uj ^^^ 1) ui)))
      | .other => false

/-- `oct_bound_linexpr`: octagons/oct_predicate.c:331-404 -/
def boundLinexpr (algo : ℤ) (a : OctT K) (e : Linexpr K) : Itv K :=
  match (cacheIf R algo a).best with
  | none => Itv.bottom
  | some b =>
    let (u, dst) := uexprOf R e a.intdim
    match u.type with
    | .empty => Itv.bottom
    | .zero => intervalOfBounds R (dst 0) (dst 1) false
    | .unary =>
      let ui := signed u.i u.coefI
      let t0 := ofScalar R (neg e.cst.reduce.inf) true
      let t1 := ofScalar R e.cst.reduce.sup true
      intervalOfBounds R (add R t0 (b (matpos ui (ui ^^^ 1)))) (add R t1 (b (matpos (ui ^^^ 1) ui))) true
    | .binary =>
      let ui := signed u.i u.coefI
      let uj := signed u.j u.coefJ
      intervalOfBounds R (add R (dst 0) (b (matpos2 uj (ui ^^^ 1))))
        (add R (dst 1) (b (matpos2 (uj ^^^ 1) ui))) false
    | .other =>
      let p := fun i => boundsMul R (b (matpos (2 * i) (2 * i + 1))) (b (matpos (2 * i + 1) (2 * i)))
        (div2 R (dst (2 * i + 2))) (div2 R (dst (2 * i + 3)))
      intervalOfBounds R ((List.range a.dim).foldl (fun s i => add R s (p i).1) (dst 0))
        ((List.range a.dim).foldl (fun s i => add R s (p i).2) (dst 1)) false

/-! ### conversion to constraints -/

/-- `lincons_of_bound`: octagons/oct_internal.h:477-507; the constraint for the cell `(i,j)` -/
def linconsOfBound (i j : ℕ) (m : Bound K) : Lincons K :=
  if i = j then ⟨.supeq, ⟨.scalar (upperScalar R m true), .sparse []⟩⟩
  else if i = (j ^^^ 1) then
    ⟨.supeq, ⟨.scalar (upperScalar R m true),
      .sparse [(i / 2, .scalar (fin (if i % 2 = 1 then -1 else 1)))]⟩⟩
  else
    ⟨.supeq, ⟨.scalar (upperScalar R m false),
      .sparse [(j / 2, .scalar (fin (if j % 2 = 1 then 1 else -1))),
        (i / 2, .scalar (fin (if i % 2 = 1 then -1 else 1)))]⟩⟩

/-- `ap_lincons0_make_unsat`: apron/ap_lincons0.c:40-47 -/
def unsatLincons : Lincons K := ⟨.supeq, ⟨.scalar (fin (-1)), .sparse []⟩⟩

/-- `oct_to_lincons_array`: octagons/oct_predicate.c:450-478 -/
def toLinconsArray (a : OctT K) : List (Lincons K) :=
  match a.best with
  | none => [unsatLincons]
  | some m => (List.range (2 * a.dim)).flatMap fun i =>
      (List.range ((i ||| 1) + 1)).filterMap fun j =>
        if i = j ∨ infty (m (matpos i j)) = true then none
        else some (linconsOfBound R i j (m (matpos i j)))

end OctT
end Apron
