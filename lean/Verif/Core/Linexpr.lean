import Verif.Num.Bound
import Mathlib.Data.List.Basic

/-!
# Linear expressions and constraints: data types of `apron/ap_coeff.h`, `ap_linexpr0.h`,
`ap_lincons0.h`, and their meaning

Scalars (`ap_scalar_t`: double, mpq or mpfr, possibly infinite) are extended numbers `Bound K`.
-/

set_option autoImplicit false
set_option linter.unusedSectionVars false
set_option linter.ambiguousOpen false

namespace Apron
open Bound

/-- `ap_coeff_t`: apron/ap_coeff.h:32-38 (an interval is given by its two bounds) -/
inductive Coeff (K : Type*) where
  | scalar (b : Bound K)
  | interval (inf sup : Bound K)
  deriving DecidableEq, Repr

/-- `AP_DIM_MAX`: apron/ap_dimension.h:28 -/
def dimMax : ℕ := 2 ^ 32 - 1

/-- the coefficients of an expression, apron/ap_linexpr0.h:40-55 -/
inductive Linbody (K : Type*) where
  | dense (l : List (Coeff K))
  | sparse (l : List (ℕ × Coeff K))
  deriving DecidableEq, Repr

/-- `ap_linexpr0_t`: apron/ap_linexpr0.h:47-55 -/
structure Linexpr (K : Type*) where
  cst : Coeff K
  body : Linbody K
  deriving DecidableEq, Repr

/-- `ap_constyp_t`: apron/ap_lincons0.h:31-37; `EQMOD` carries the modulus of `ap_lincons0_t` -/
inductive ConsTyp (K : Type*) where
  | eq | supeq | sup | eqmod (m : K) | diseq
  deriving DecidableEq, Repr

/-- `ap_lincons0_t`: apron/ap_lincons0.h:40-48 -/
structure Lincons (K : Type*) where
  typ : ConsTyp K
  expr : Linexpr K
  deriving DecidableEq, Repr

variable {K : Type*}

namespace Coeff

/-- lower bound of a coefficient -/
def inf : Coeff K → Bound K
  | scalar b => b
  | interval l _ => l
/-- upper bound of a coefficient -/
def sup : Coeff K → Bound K
  | scalar b => b
  | interval _ u => u

/-- `c.discr==AP_COEFF_SCALAR` -/
def isScalar : Coeff K → Bool
  | scalar _ => true
  | interval _ _ => false

variable [LinearOrder K]

/-- `ap_coeff_reduce`: apron/ap_coeff.c:127-139 -/
def reduce : Coeff K → Coeff K
  | scalar b => scalar b
  | interval l u => if l = u then scalar l else interval l u

/-- Specification: `q` is one of the values of the coefficient -/
def Has : Coeff K → K → Prop
  | scalar b, q => b = fin q
  | interval l u, q => l ≤ fin q ∧ fin q ≤ u

/-- a coefficient a user may build: finite scalar, no `[+oo,..]` nor `[..,-oo]` -/
def Proper : Coeff K → Prop
  | scalar b => infty b = false
  | interval l u => l ≠ pinf ∧ u ≠ ninf

end Coeff

namespace Linexpr

/-- the terms of an expression in the order of `ap_linexpr0_ForeachLinterm`
(apron/ap_linexpr0.h:252-263): free slots of sparse expressions have dimension `AP_DIM_MAX`; the
iteration stops at the first one -/
def terms (e : Linexpr K) : List (ℕ × Coeff K) :=
  match e.body with
  | .dense l => l.zipIdx.map fun p => (p.2, p.1)
  | .sparse l => l.takeWhile fun p => decide (p.1 ≠ dimMax)

variable [LinearOrder K] [Field K] [IsStrictOrderedRing K]

/-- Specification: `r` is a possible value of a sum of terms at the point `x` -/
def TermsVal : List (ℕ × Coeff K) → (ℕ → K) → K → Prop
  | [], _, r => r = 0
  | (d, c) :: l, x, r => ∃ q s, c.Has q ∧ TermsVal l x s ∧ r = q * x d + s

/-- Specification: `v` is a possible value of the expression at the point `x` (every coefficient
ranges over its interval) -/
def Val (e : Linexpr K) (x : ℕ → K) (v : K) : Prop :=
  ∃ q r, e.cst.Has q ∧ TermsVal e.terms x r ∧ v = q + r

/-- the documented invariants of an expression over `dim` dimensions: increasing dimensions
(apron/ap_linexpr0.h:56-59), all of them below `dim` -/
def InDim (e : Linexpr K) (dim : ℕ) : Prop :=
  (e.terms.map Prod.fst).Pairwise (· < ·) ∧ ∀ d ∈ e.terms.map Prod.fst, d < dim

/-- all coefficients are `Proper` -/
def Proper (e : Linexpr K) : Prop := e.cst.Proper ∧ ∀ p ∈ e.terms, p.2.Proper

end Linexpr

namespace Lincons
variable [LinearOrder K] [Field K] [IsStrictOrderedRing K]

/-- Specification: the relation to zero expressed by a constraint type -/
def Rel : ConsTyp K → K → Prop
  | .eq, v => v = 0
  | .supeq, v => 0 ≤ v
  | .sup, v => 0 < v
  | .eqmod m, v => ∃ k : ℤ, v = k * m
  | .diseq, v => v ≠ 0

/-- Specification: `x` satisfies the constraint for some choice of the coefficients -/
def Holds (c : Lincons K) (x : ℕ → K) : Prop := ∃ v, c.expr.Val x v ∧ Rel c.typ v

/-- Specification: `x` satisfies the constraint for every choice of the coefficients -/
def HoldsAll (c : Lincons K) (x : ℕ → K) : Prop := ∀ v, c.expr.Val x v → Rel c.typ v

end Lincons
end Apron
