import Mathlib.Algebra.Order.Field.Basic
import Mathlib.Algebra.Order.Group.Abs
import Mathlib.Algebra.BigOperators.Group.Finset.Basic
import Mathlib.Data.Int.GCD

/-!
# fppol: quasi-linearisation, normalisation and bound propagation

The domain of polyhedra in floating point (`fppol`): constraints `a₁v₁ + ... + aₙvₙ ≤ c` and bounds
of the variables, stored as doubles; every function runs with the rounding mode upward and asks for
the other direction with `num_*_downward` (`fppol/numitv.c`).

Simplifications.
* A double is an element of a linearly ordered field; the result of an operation is the exact one
  passed through `R.up` or `R.down`, any functions with `down q ≤ q ≤ up q`.  Overflow to an
  infinity and NaN are not modelled: infinities are the bounds that are missing only
  (`MAX_VARBND`, `fppol/fpp_config.h:66-70`).
* `-0.0` is 0.
* Variables are numbered from 0 (the code counts from 1, the constant being entry 0).
* `frexp` is an arbitrary function to the integers with values between -1000 and 1000.
-/

set_option autoImplicit false
set_option linter.unusedSectionVars false
set_option linter.ambiguousOpen false

namespace Apron.Fpp

variable {K : Type*} [Field K] [LinearOrder K] [IsStrictOrderedRing K]

/-- Rounding upward (the mode of the processor) and downward (`num_add_downward`, ...,
`fppol/numitv.c:230-266`). -/
structure Rd (K : Type*) [LinearOrder K] where
  up : K → K
  down : K → K
  le_up : ∀ q, q ≤ up q
  down_le : ∀ q, down q ≤ q

/-- The exact instance. -/
def Rd.exact (K : Type*) [LinearOrder K] : Rd K := ⟨id, id, fun _ => le_refl _, fun _ => le_refl _⟩

/-- `bnds`: the bounds of the variables, `none` for an infinite one. -/
structure Bnds (K : Type*) where
  lo : ℕ → Option K
  hi : ℕ → Option K

/-- `boundVk = fmax(-bounds[2k-2], bounds[2k-1])` (`fppol/quasi_linear.c:354`); `none` is
`MAX_VARBND`. -/
def magn (B : Bnds K) (k : ℕ) : Option K :=
  match B.lo k, B.hi k with
  | some l, some h => some (max (-l) h)
  | _, _ => none

/-- What `quasi_linearisation` returns: NULL with `*sat = 1`, NULL with `*sat = 0`, a constraint. -/
inductive QRes (K : Type*) where
  | taut
  | unsat
  | con (c : K) (a : ℕ → K)

/-- `dk` (`quasi_linear.c:360-361`). -/
def mid (R : Rd K) (a b : K) : K := if a = b then a else R.up (R.up (a + b) / 2)

/-- `maxadbk` (`quasi_linear.c:369-371`). -/
def dev (R : Rd K) (a b d : K) : K := max |R.up (d - a)| |R.up (b - d)|

/-- The loop of `quasi_linearisation` (`quasi_linear.c:347-374`): the constant; `none` if a
variable without bound has an interval coefficient. -/
def quasiLoop (R : Rd K) (a b : ℕ → K) (m : ℕ → Option K) : List ℕ → K → Option K
  | [], c => some c
  | k :: ks, c =>
    if a k = b k then quasiLoop R a b m ks c
    else match m k with
      | none => none
      | some v => quasiLoop R a b m ks (R.up (c + R.up (dev R (a k) (b k) (mid R (a k) (b k)) * v)))

/-- `quasi_linearisation` (`quasi_linear.c:330-390`) of `c ≥ Σ [a k, b k] * V k`; `B` is `none`
when `bounds` is NULL. -/
def quasi (R : Rd K) (n : ℕ) (c : K) (a b : ℕ → K) (B : Option (Bnds K)) : QRes K :=
  match quasiLoop R a b (fun k => B.bind fun B => magn B k) (List.range n) c with
  | none => .taut
  | some c' =>
    if (List.range n).all (fun k => decide (mid R (a k) (b k) = 0)) then
      if 0 ≤ c' then .taut else .unsat
    else .con c' (fun k => mid R (a k) (b k))

/-! ## `normalise_steep_inequality` -/

/-- The upper end of `numitv_mul` of a number and bounds (`numitv.c:77-104`); `none` is
`MAX_VARBND` or more. -/
def supMul (R : Rd K) (x : K) (lo hi : Option K) : Option K :=
  if 0 < x then hi.map fun h => match lo with
    | none => R.up (x * h)
    | some l => max (R.up (x * l)) (R.up (x * h))
  else lo.map fun l => match hi with
    | none => R.up (x * l)
    | some h => max (R.up (x * l)) (R.up (x * h))

/-- A term is moved to the constant (`quasi_linear.c:200-209, 214-222, 225-233`). -/
def shiftTerm (R : Rd K) (B : Bnds K) (c : K) (a : ℕ → K) (k : ℕ) : Option (K × (ℕ → K)) :=
  (supMul R (-(a k)) (B.lo k) (B.hi k)).map fun s =>
    (R.up (c + s), fun j => if j = k then 0 else a j)

/-- The index of the first least (`sgn = 1`) or greatest (`sgn = -1`) exponent of a coefficient
that is not 0 (`quasi_linear.c:147-165`). -/
def argExp (exp : K → ℤ) (sgn : ℤ) (a : ℕ → K) : List ℕ → Option ℕ → Option ℕ
  | [], r => r
  | k :: ks, r =>
    if a k = 0 then argExp exp sgn a ks r
    else match r with
      | none => argExp exp sgn a ks (some k)
      | some j => argExp exp sgn a ks (if sgn * exp (a k) < sgn * exp (a j) then some k else some j)

/-- The sum of the exponents and their number (`quasi_linear.c:163-164`). -/
def sumExp (exp : K → ℤ) (a : ℕ → K) (l : List ℕ) : ℤ × ℤ :=
  l.foldl (fun s k => if a k = 0 then s else (s.1 + exp (a k), s.2 + 1)) (0, 0)

/-- The result of a normalisation: `UNCHANGED`, `FAILED` (the constraint is thrown away),
`SUCCEED`; `more` when the fuel is exhausted. -/
inductive NRes (K : Type*) where
  | unchanged
  | failed
  | ok (c : K) (a : ℕ → K)
  | more

/-- The rest of `normalise_steep_inequality` after a term was moved (`quasi_linear.c:236-238`):
the recursive call counts as a success unless it fails. -/
def NRes.after (c : K) (a : ℕ → K) : NRes K → NRes K
  | .unchanged => .ok c a
  | .failed => .failed
  | .ok c a => .ok c a
  | .more => .more

/-- `normalise_steep_inequality` (`quasi_linear.c:137-239`). -/
def steep (R : Rd K) (exp : K → ℤ) (B : Bnds K) (n : ℕ) : ℕ → K → (ℕ → K) → NRes K
  | 0, _, _ => .more
  | fuel + 1, c, a =>
    match argExp exp 1 a (List.range n) none, argExp exp (-1) a (List.range n) none with
    | some i, some j =>
      let lo := exp (a i)
      let hi := exp (a j)
      if 18 ≤ lo ∨ (16 ≤ lo ∧ 22 ≤ hi) then
        match quasi R n (R.up (c / |a i|)) (fun k => R.down (a k / |a i|))
            (fun k => R.up (a k / |a i|)) (some B) with
        | .con c' a' => .ok c' a'
        | _ => .failed
      else if hi - lo < 20 ∧ -16 < lo then .unchanged
      else
        let s := sumExp exp a (List.range n)
        let av := s.1.tdiv s.2
        let k := if hi - lo < 20 then i else if av - lo ≤ hi - av then j else i
        match shiftTerm R B c a k with
        | none => .failed
        | some r => (steep R exp B n fuel r.1 r.2).after r.1 r.2
    | _, _ => .unchanged

/-! ## `normalise_quasiInteger_inequality` -/

/-- The loop over the coefficients before (`quasi_linear.c:285-298`). -/
def closeTo (R : Rd K) (eps : K) (a : ℕ → K) (d : K) : List ℕ → Option K
  | [] => none
  | i :: is =>
    if a i = d ∨ a i = -d then none
    else if a i = 0 then closeTo R eps a d is
    else
      let r := if (0 < a i ∧ d < 0) ∨ (a i < 0 ∧ 0 < d) then -(a i) else a i
      if R.up (|R.up (d - r)| / max |d| |r|) ≤ eps then some r else closeTo R eps a d is

/-- The new coefficient, if it is reshaped (`quasi_linear.c:264-300`); `rnd` is `round`. -/
def target (R : Rd K) (rnd : K → K) (eps : K) (a : ℕ → K) (k : ℕ) : Option K :=
  let d := a k
  let z := rnd d
  if d = z then none
  else
    let dif := |R.up (d - z)|
    if z = 0 ∨ dif ≤ eps then some 0
    else if R.up (dif / max |d| |z|) ≤ eps then some z
    else closeTo R eps a d (List.range k)

/-- The loop of `normalise_quasiInteger_inequality` (`quasi_linear.c:261-312`), in place; the call
of `normalise_integer_inequality` after it is separate (`divGcd`). -/
def quasiInt (R : Rd K) (rnd : K → K) (eps : K) (B : Bnds K) : List ℕ → K → (ℕ → K) → K × (ℕ → K)
  | [], c, a => (c, a)
  | k :: ks, c, a =>
    match magn B k with
    | none => quasiInt R rnd eps B ks c a
    | some v =>
      match target R rnd eps a k with
      | none => quasiInt R rnd eps B ks c a
      | some d => quasiInt R rnd eps B ks (R.up (c + R.up (|R.up (d - a k)| * v)))
          (fun j => if j = k then d else a j)

/-! ## `normalise_integer_inequality` -/

/-- `ngcd` of the absolute values that are not 0 (`quasi_linear.c:50-69`). -/
def ngcd : List ℤ → ℕ
  | [] => 0
  | z :: l => Nat.gcd z.natAbs (ngcd l)

/-- `normalise_integer_inequality` (`quasi_linear.c:74-121`) when every coefficient is an integer
(`z k` is its value) and none is 1 or -1; the conversion to `long int` does not overflow. -/
def divGcd (R : Rd K) (n : ℕ) (c : K) (z : ℕ → ℤ) : Option (K × (ℕ → K)) :=
  let l := (List.range n).map z
  if l.all (fun x => decide (x = 0)) ∨ l.any (fun x => decide (x = 1 ∨ x = -1)) then none
  else
    let g := ngcd l
    if g = 1 then none
    else some (R.up (c / (g : K)), fun k => R.up ((z k : K) / (g : K)))

/-- The writes of `normalise_integer_inequality_withConstant` (`quasi_linear.c:498-534`): `cInt` has
`dim` cells, and the loop over the constant and the coefficients stores each new absolute value.
`none` when a cell outside is written; otherwise the values stored, or `some none` when the function
returns because a value is 1. -/
def storeAbs (dim : ℕ) : List ℤ → List ℕ → Option (Option (List ℕ))
  | [], acc => some (some acc)
  | z :: l, acc =>
    if z = 0 then storeAbs dim l acc
    else if z = 1 ∨ z = -1 then some none
    else if z.natAbs ∈ acc then storeAbs dim l acc
    else if acc.length < dim then storeAbs dim l (acc ++ [z.natAbs])
    else none

/-! ## Bound propagation -/

/-- `t` (`fppol/bt.c:326-351`): a lower bound of the other terms, `none` when a bound is missing. -/
def restLow (R : Rd K) (B : Bnds K) (a : ℕ → K) (k : ℕ) : List ℕ → K → Option K
  | [], t => some t
  | j :: js, t =>
    if j = k then restLow R B a k js t
    else if 0 < a j then (B.lo j).bind fun l => restLow R B a k js (R.down (t + R.down (a j * l)))
    else if a j < 0 then (B.hi j).bind fun h => restLow R B a k js (R.down (t + R.down (a j * h)))
    else restLow R B a k js t

/-- `bt_half_kthvar_by_bound_propagation` with `upbd = true` (`bt.c:307-359,402`): the constraints
are pairs of a constant and coefficients. -/
def tightenHi (R : Rd K) (n k : ℕ) (B : Bnds K) : List (K × (ℕ → K)) → Option K → Option K
  | [], mu => mu
  | (c, a) :: l, mu =>
    if 0 < a k then
      match restLow R B a k (List.range n) 0 with
      | none => tightenHi R n k B l mu
      | some t =>
        let v := R.up (R.up (c - t) / a k)
        tightenHi R n k B l (match mu with
          | none => some v
          | some m => if v < m then some v else some m)
    else tightenHi R n k B l mu

/-- The same with `upbd = false` (`bt.c:360-402`). -/
def tightenLo (R : Rd K) (n k : ℕ) (B : Bnds K) : List (K × (ℕ → K)) → Option K → Option K
  | [], mu => mu
  | (c, a) :: l, mu =>
    if a k < 0 then
      match restLow R B a k (List.range n) 0 with
      | none => tightenLo R n k B l mu
      | some t =>
        let v := -(R.up (R.up (c - t) / -(a k)))
        tightenLo R n k B l (match mu with
          | none => some v
          | some m => if m < v then some v else some m)
    else tightenLo R n k B l mu

end Apron.Fpp
