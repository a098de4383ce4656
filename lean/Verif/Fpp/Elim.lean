import Verif.Fpp.Quasi

/-!
# fppol: Fourier-Motzkin elimination and assignment by substitution

`fm_elimination` (`fppol/fm.c:39-368`) and the two branches of `fppol_assign_bySubstitution`
(`fppol/fppol_domain.c:1450-1550`), over the arithmetic of `Fpp/Quasi.lean`.

Simplifications, beside those of `Fpp/Quasi.lean`.
* The bit vectors that number the rows (`bv`), which serve to drop redundant rows, are left out
  (callers that pass NULL).
* `trunc(t) == t` is an arbitrary test `isInt`: nothing depends on it for soundness.
* The redundancy removal and reshaping that follow in `fppol_project` are left out.
-/

set_option autoImplicit false
set_option linter.unusedSectionVars false
set_option linter.ambiguousOpen false

namespace Apron.Fpp

variable {K : Type*} [Field K] [LinearOrder K] [IsStrictOrderedRing K]

/-- A row: the constant, then the coefficients. -/
abbrev FRow (K : Type*) := K × (ℕ → K)

/-- `numitv_add_number` (`fppol/numitv.c:146-154`). -/
def addN (R : Rd K) (x y : K) : K × K := (R.down (x + y), R.up (x + y))

/-- `numitv_mul_number` (`fppol/numitv.c:166-173`). -/
def mulN (R : Rd K) (x y : K) : K × K := (R.down (x * y), R.up (x * y))

/-- `numitv_div_number`, the divisor not being 0 (`fppol/numitv.c:176-186`). -/
def divN (R : Rd K) (x y : K) : K × K := (R.down (x / y), R.up (x / y))

/-- `numitv_add` (`fppol/numitv.c:63-70`). -/
def addI (R : Rd K) (x y : K × K) : K × K := (R.down (x.1 + y.1), R.up (x.2 + y.2))

/-- `numitv_sub` (`fppol/numitv.c:73-80`). -/
def subI (R : Rd K) (x y : K × K) : K × K := (R.down (x.1 - y.2), R.up (x.2 - y.1))

/-- `numitv_mul` of a singleton (`fppol/numitv.c:83-106`). -/
def mulI (R : Rd K) (x : K) (y : K × K) : K × K :=
  (min (R.down (x * y.1)) (R.down (x * y.2)), max (R.up (x * y.1)) (R.up (x * y.2)))

/-- The coefficient of a combination: the two scaled coefficients are added, and 0 is not scaled
(`fppol/fm.c:178-193, 211-225, 249-259, 271-285`). -/
def term (R : Rd K) (a b : K) (f g : K × K) : K × K :=
  if a = 0 then (if b = 0 then (0, 0) else g) else if b = 0 then f else addI R f g

/-- The interval inequality that combines a row `p` with a positive coefficient of variable `i` and
a row `q` with a negative one (`fppol/fm.c:146-290`); `big` is `MAX_MULCOEF`
(`fppol/fpp_config.h:72`). -/
def combine (R : Rd K) (isInt : K → Bool) (big : K) (i : ℕ) (p q : FRow K) : K × (ℕ → K × K) :=
  let a1 := p.2 i
  let a2 := q.2 i
  if a1 = -a2 then
    (R.up (p.1 + q.1), fun k => if k = i then (0, 0) else addN R (p.2 k) (q.2 k))
  else
    let t1 := R.up (a1 / (-a2))
    let t2 := R.up ((-a2) / a1)
    if -a2 < a1 ∧ isInt t1 = true ∧ R.up (t1 * (-a2)) = a1 ∧ R.up (t1 * (-a2)) = R.down (t1 * (-a2)) then
      (R.up (p.1 + R.up (q.1 * t1)), fun k => if k = i then (0, 0) else
        term R (p.2 k) (q.2 k) (p.2 k, p.2 k) (mulN R t1 (q.2 k)))
    else if a1 < -a2 ∧ isInt t2 = true ∧ R.up (t2 * a1) = -a2 ∧ R.up (t2 * a1) = R.down (t2 * a1) then
      (R.up (R.up (p.1 * t2) + q.1), fun k => if k = i then (0, 0) else
        term R (p.2 k) (q.2 k) (mulN R t2 (p.2 k)) (q.2 k, q.2 k))
    else if R.up (a1 * (-a2)) = R.down (a1 * (-a2)) ∧ R.up (a1 * (-a2)) < big ∧ a1 < big ∧ -a2 < big then
      (R.up (R.up (p.1 * (-a2)) + R.up (q.1 * a1)), fun k => if k = i then (0, 0) else
        if (p.2 k = a1 ∧ q.2 k = a2) ∨ (p.2 k = -a1 ∧ q.2 k = -a2) then (0, 0)
        else term R (p.2 k) (q.2 k) (mulN R (p.2 k) (-a2)) (mulN R (q.2 k) a1))
    else
      (R.up (R.up (p.1 / a1) + R.up (q.1 / (-a2))), fun k => if k = i then (0, 0) else
        term R (p.2 k) (q.2 k) (divN R (p.2 k) a1) (divN R (q.2 k) (-a2)))

/-- One pair of rows (`fppol/fm.c:291-318`): the quasi-linearisation of the combination. -/
def pairRow (R : Rd K) (isInt : K → Bool) (big : K) (n i : ℕ) (B : Bnds K) (p q : FRow K) : QRes K :=
  let w := combine R isInt big i p q
  quasi R n w.1 (fun k => (w.2 k).1) (fun k => (w.2 k).2) (some B)

/-- The two loops over the pairs (`fppol/fm.c:131-322`): `none` when a combination is
unsatisfiable. -/
def pairLoop (R : Rd K) (isInt : K → Bool) (big : K) (n i : ℕ) (B : Bnds K) :
    List (FRow K × FRow K) → Option (List (FRow K))
  | [] => some []
  | w :: ws =>
    match pairRow R isInt big n i B w.1 w.2 with
    | .unsat => none
    | .taut => pairLoop R isInt big n i B ws
    | .con c a => (pairLoop R isInt big n i B ws).map ((c, a) :: ·)

/-- The result: `EMPTY_POL`, `UNIVERSE_POL`, or rows and bounds. -/
inductive ERes (K : Type*) where
  | empty
  | univ
  | rows (l : List (FRow K)) (B : Bnds K)

/-- `fm_elimination` of variable `i` (`fppol/fm.c:39-368`). -/
def fmElim (R : Rd K) (isInt : K → Bool) (big : K) (n i : ℕ) (rs : List (FRow K)) (B : Bnds K) : ERes K :=
  let pos := rs.filter fun r => decide (0 < r.2 i)
  let neg := rs.filter fun r => decide (r.2 i < 0)
  let zero := rs.filter fun r => decide (r.2 i = 0)
  if pos.length * neg.length + zero.length = 0 then .univ
  else if pos.length + neg.length = 0 then
    .rows (rs.map fun r => (r.1, fun k => if k = i then 0 else r.2 k))
      ⟨fun k => if k = i then some 0 else B.lo k, fun k => if k = i then some 0 else B.hi k⟩
  else match pairLoop R isInt big n i B (pos.flatMap fun p => neg.map fun q => (p, q)) with
    | none => .empty
    | some l => if (l ++ zero).isEmpty then .univ else .rows (l ++ zero) B

/-! ## `fppol_assign_bySubstitution` -/

/-- The row that replaces `r` when `V j := Σ e k * V k + e0` with `e j` not 0: `V j` is replaced by
`(V j - Σ e k * V k - e0) / e j` (`fppol/fppol_domain.c:1516-1549`); `none` is the `memcpy` from
NULL, when the quasi-linearisation returns no row. -/
def substRow (R : Rd K) (n j : ℕ) (e0 : K) (e : ℕ → K) (B : Bnds K) (r : FRow K) : Option (FRow K) :=
  if r.2 j = 0 then some r
  else
    match quasi R n (addI R (r.1, r.1) (mulI R (r.2 j) (divN R e0 (e j)))).2
        (fun k => if k = j then (divN R (r.2 j) (e j)).1
          else (subI R (r.2 k, r.2 k) (mulI R (r.2 j) (divN R (e k) (e j)))).1)
        (fun k => if k = j then (divN R (r.2 j) (e j)).2
          else (subI R (r.2 k, r.2 k) (mulI R (r.2 j) (divN R (e k) (e j)))).2) (some B) with
    | .con c a => some (c, a)
    | _ => none

/-- The two rows that are added after the elimination of `V j` when `e j` is 0
(`fppol/fppol_domain.c:1478-1498`). -/
def defRows (j : ℕ) (e0 : K) (e : ℕ → K) : List (FRow K) :=
  [(-e0, fun k => if k = j then -1 else e k), (e0, fun k => if k = j then 1 else -(e k))]

end Apron.Fpp
