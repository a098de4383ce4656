import Verif.Core.LinexprAccess

/-!
# Comparisons and hashing of scalars, intervals, coefficients and linear expressions

`apron/ap_scalar.c:263-416`, `apron/ap_interval.c:126-178`, `apron/ap_coeff.c:264-322`,
`apron/ap_linexpr0.c:749-880`.

Simplifications.
* A scalar is an extended number; the conversions between double, mpq and mpfr made by
  `ap_scalar_cmp` on mixed representations are exact, NaN is excluded.
* Only the sign of `mpq_cmp`, `mpfr_cmp` is specified by GMP/MPFR; they are taken to return -1, 0, 1.
* The coefficients of both expressions are reduced in place by `ap_linexpr0_equal` and
  `ap_linexpr0_compare`; the model reduces what it reads and does not return the changed
  expressions.
* Hash values are integers without overflow; the hash of a coefficient is a parameter.
-/

set_option autoImplicit false
set_option linter.unusedSectionVars false
set_option linter.ambiguousOpen false
set_option linter.unusedSimpArgs false

namespace Apron
open Bound
variable {K : Type*} [LinearOrder K] [Field K]

/-- `ap_scalar_infty`: apron/ap_scalar.c:263-284 -/
def scalarInfty : Bound K → ℤ
  | ninf => -1
  | fin _ => 0
  | pinf => 1

/-- `ap_scalar_cmp`: apron/ap_scalar.c:286-344 -/
def scalarCmp (a b : Bound K) : ℤ :=
  if scalarInfty a > scalarInfty b then 1
  else if scalarInfty a < scalarInfty b then -1
  else
    match a, b with
    | fin p, fin q => if p > q then 1 else if p < q then -1 else 0
    | _, _ => 0

/-- `ap_scalar_cmp_int`: apron/ap_scalar.c:345-364 -/
def scalarCmpInt (a : Bound K) (i : ℤ) : ℤ :=
  match a with
  | pinf => 1
  | ninf => -1
  | fin q => if q > i then 1 else if q < i then -1 else 0

/-- `ap_scalar_equal`: apron/ap_scalar.c:366-384 -/
def scalarEqual (a b : Bound K) : Bool :=
  if scalarInfty a ≠ scalarInfty b then false
  else
    match a, b with
    | fin p, fin q => decide (p = q)
    | _, _ => true

/-- `ap_scalar_equal_int`: apron/ap_scalar.c:385-399 -/
def scalarEqualInt (a : Bound K) (i : ℤ) : Bool :=
  match a with
  | fin q => decide (q = i)
  | _ => false

/-- `ap_scalar_sgn`: apron/ap_scalar.c:401-414 -/
def scalarSgn (a : Bound K) : ℤ :=
  match a with
  | fin q => if q > 0 then 1 else if q = 0 then 0 else -1
  | a => scalarInfty a

/-- `ap_interval_is_top`: apron/ap_interval.c:126-129 -/
def intervalIsTop (l u : Bound K) : Bool := decide (scalarInfty l < 0) && decide (scalarInfty u > 0)

/-- `ap_interval_is_bottom`: apron/ap_interval.c:130-133 -/
def intervalIsBottom (l u : Bound K) : Bool := decide (scalarCmp l u > 0)

/-- `ap_interval_is_leq`: apron/ap_interval.c:134-139 -/
def intervalIsLeq (l1 u1 l2 u2 : Bound K) : Bool :=
  (decide (scalarCmp l1 l2 ≥ 0) && decide (scalarCmp u1 u2 ≤ 0)) || intervalIsBottom l1 u1

/-- `ap_interval_cmp`: apron/ap_interval.c:139-157 -/
def intervalCmp (l1 u1 l2 u2 : Bound K) : ℤ :=
  let sinf := scalarCmp l1 l2
  let ssup := scalarCmp u1 u2
  if sinf = 0 ∧ ssup = 0 then 0
  else if sinf ≥ 0 ∧ ssup ≤ 0 then -1
  else if sinf ≤ 0 ∧ ssup ≥ 0 then 1
  else if intervalIsBottom l1 u1 && intervalIsBottom l2 u2 then 0
  else if intervalIsBottom l1 u1 then -1
  else if intervalIsBottom l2 u2 then 1
  else if sinf > 0 then 2 else -2

/-- `ap_interval_equal`: apron/ap_interval.c:158-164 -/
def intervalEqual (l1 u1 l2 u2 : Bound K) : Bool :=
  if scalarEqual l1 l2 && scalarEqual u1 u2 then true
  else intervalIsBottom l1 u1 && intervalIsBottom l2 u2

/-- `ap_interval_equal_int`: apron/ap_interval.c:165-168 -/
def intervalEqualInt (l u : Bound K) (i : ℤ) : Bool := scalarEqualInt l i && scalarEqualInt u i

/-- `ap_interval_neg`: apron/ap_interval.c:174-184 (both branches) -/
def intervalNeg (l u : Bound K) : Bound K × Bound K := (Bound.neg u, Bound.neg l)

namespace Coeff

/-- `ap_coeff_cmp`: apron/ap_coeff.c:268-284 -/
def cmp : Coeff K → Coeff K → ℤ
  | scalar a, scalar b => scalarCmp a b
  | interval l1 u1, interval l2 u2 => intervalCmp l1 u1 l2 u2
  | scalar _, interval _ _ => -3
  | interval _ _, scalar _ => 3

/-- `ap_coeff_equal`: apron/ap_coeff.c:285-299 -/
def equal : Coeff K → Coeff K → Bool
  | scalar a, scalar b => scalarEqual a b
  | interval l1 u1, interval l2 u2 => intervalEqual l1 u1 l2 u2
  | _, _ => false

/-- `ap_coeff_equal_int`: apron/ap_coeff.c:311-321, with its tests of a boolean against 0 -/
def equalInt : Coeff K → ℤ → Bool
  | scalar a, i => scalarEqualInt a i == false
  | interval l u, i => (scalarEqualInt l i == false) && (scalarEqualInt u i == false)

/-- `ap_coeff_neg`: apron/ap_coeff.c:327-340 -/
def neg : Coeff K → Coeff K
  | scalar a => scalar (Bound.neg a)
  | interval l u => interval (Bound.neg u) (Bound.neg l)

end Coeff

namespace Linexpr

/-- the array of an expression, including the free slots -/
def slots (e : Linexpr K) : List (ℕ × Coeff K) :=
  match e.body with
  | .dense l => l.zipIdx.map fun p => (p.2, p.1)
  | .sparse l => l

/-- the loop of `ap_linexpr0_equal`: apron/ap_linexpr0.c:783-821; an exhausted array has dimension
`AP_DIM_MAX` and a null coefficient, `none` is the access to it -/
def equalLoop : List (ℕ × Coeff K) → List (ℕ × Coeff K) → Option Bool
  | [], [] => some true
  | p1 :: l1, [] =>
    if p1.1 = dimMax then none
    else if p1.2.reduce.isZero then equalLoop l1 [] else some false
  | [], p2 :: l2 =>
    if dimMax = p2.1 then none
    else if p2.2.reduce.isZero then equalLoop [] l2 else some false
  | p1 :: l1, p2 :: l2 =>
    if p1.1 = p2.1 then
      if p1.2.reduce.equal p2.2.reduce then equalLoop l1 l2 else some false
    else if p1.1 < p2.1 then
      if p1.2.reduce.isZero then equalLoop l1 (p2 :: l2) else some false
    else
      if p2.2.reduce.isZero then equalLoop (p1 :: l1) l2 else some false
termination_by l1 l2 => l1.length + l2.length

/-- `ap_linexpr0_equal`: apron/ap_linexpr0.c:770-823 -/
def equal (e1 e2 : Linexpr K) : Option Bool :=
  if e1.cst.reduce.equal e2.cst.reduce then equalLoop e1.slots e2.slots else some false

/-- conversion of an `int` to `bool` and back -/
def boolOfInt (i : ℤ) : ℤ := if i = 0 then 0 else 1

/-- the loop of `ap_linexpr0_compare`: apron/ap_linexpr0.c:838-874; `res` has type `bool` -/
def compareLoop : List (ℕ × Coeff K) → List (ℕ × Coeff K) → Option ℤ
  | [], [] => some 0
  | p1 :: l1, [] =>
    if p1.1 = dimMax then none
    else
      let res := boolOfInt (p1.2.reduce.cmp (.scalar (fin 0)))
      if res = 0 then compareLoop l1 [] else some res
  | [], p2 :: l2 =>
    if dimMax = p2.1 then none
    else
      let res := boolOfInt ((Coeff.scalar (fin 0)).cmp p2.2.reduce)
      if res = 0 then compareLoop [] l2 else some res
  | p1 :: l1, p2 :: l2 =>
    if p1.1 = p2.1 then
      let res := boolOfInt (p1.2.reduce.cmp p2.2.reduce)
      if res = 0 then compareLoop l1 l2 else some res
    else if p1.1 < p2.1 then
      let res := boolOfInt (p1.2.reduce.cmp (.scalar (fin 0)))
      if res = 0 then compareLoop l1 (p2 :: l2) else some res
    else
      let res := boolOfInt ((Coeff.scalar (fin 0)).cmp p2.2.reduce)
      if res = 0 then compareLoop (p1 :: l1) l2 else some res
termination_by l1 l2 => l1.length + l2.length

/-- `ap_linexpr0_compare`: apron/ap_linexpr0.c:824-882 -/
def compare (e1 e2 : Linexpr K) : Option ℤ :=
  (compareLoop e1.slots e2.slots).map fun res =>
    if res = 0 then boolOfInt (e1.cst.reduce.cmp e2.cst.reduce) else res

/-- size of the array -/
def size (e : Linexpr K) : ℕ := e.slots.length

/-- the loop of `ap_linexpr0_hash`: apron/ap_linexpr0.c:761-766; `h` is `ap_coeff_hash`, the first
argument bounds the number of iterations (`none` when it is exceeded) -/
def hashLoop (h : Coeff K → ℤ) : ℕ → Linexpr K → ℕ → ℕ → ℤ → Option (ℤ × Linexpr K)
  | 0, e, i, _, res => if i < e.size then none else some (res, e)
  | n + 1, e, i, dec, res =>
    if i < e.size then
      match coeffref e i with
      | none => hashLoop h n e (i + (e.size + 7) / 8) (dec + 1) res
      | some (e', k) => hashLoop h n e' (i + (e'.size + 7) / 8) (dec + 1)
          (res + h (e'.slots.getD k (0, czero)).2 * 2 ^ dec)
    else some (res, e)

/-- `ap_linexpr0_hash`: apron/ap_linexpr0.c:750-769; the value and the expression after the call -/
def hash (h : Coeff K → ℤ) (fuel : ℕ) (e : Linexpr K) : Option (ℤ × Linexpr K) :=
  if e.size = 0 then some (h e.cst, e) else hashLoop h fuel e 0 0 (e.size * 2 ^ 8)

end Linexpr

/-! ## Lemmas -/

section
variable [IsStrictOrderedRing K]

theorem cmp_cases (a b : Bound K) :
    (a < b ∧ ¬ b < a ∧ a ≠ b ∧ Bound.cmp a b = -1 ∧ Bound.cmp b a = 1) ∨
    (¬ a < b ∧ ¬ b < a ∧ ((a = b) = True) ∧ Bound.cmp a b = 0 ∧ Bound.cmp b a = 0) ∨
    (¬ a < b ∧ b < a ∧ a ≠ b ∧ Bound.cmp a b = 1 ∧ Bound.cmp b a = -1) := by
  unfold Bound.cmp
  rcases lt_trichotomy a b with h | h | h
  · left; simp [h, h.not_gt, h.ne]
  · right; left; simp [h]
  · right; right; simp [h, h.not_gt, h.ne']

theorem scalarCmp_eq (a b : Bound K) : scalarCmp a b = Bound.cmp a b := by
  unfold scalarCmp Bound.cmp
  cases a <;> cases b <;> simp [scalarInfty, Bound.fin_lt_fin]
  rename_i p q
  rcases lt_trichotomy p q with h | h | h
  · rw [if_neg h.not_gt, if_pos h, if_pos h]
  · subst h; simp
  · rw [if_pos h, if_neg h.not_gt, if_pos h]

theorem scalarEqual_iff (a b : Bound K) : scalarEqual a b = true ↔ a = b := by
  unfold scalarEqual
  cases a <;> cases b <;> simp [scalarInfty]

theorem scalarEqualInt_iff (a : Bound K) (i : ℤ) : scalarEqualInt a i = true ↔ a = fin (i : K) := by
  cases a <;> simp [scalarEqualInt]

theorem intervalIsBottom_iff (l u : Bound K) : intervalIsBottom l u = true ↔ u < l := by
  simp [intervalIsBottom, scalarCmp_eq]

/-- the order decided by `intervalCmp` -/
theorem intervalCmp_lt {l1 u1 l2 u2 : Bound K} (h1 : l1 ≤ u1) (h2 : l2 ≤ u2) :
    intervalCmp l1 u1 l2 u2 < 0 ↔ u1 < u2 ∨ (u1 = u2 ∧ l2 < l1) := by
  have b1 : intervalIsBottom l1 u1 = false := by
    rw [← Bool.not_eq_true, intervalIsBottom_iff]; exact not_lt.2 h1
  have b2 : intervalIsBottom l2 u2 = false := by
    rw [← Bool.not_eq_true, intervalIsBottom_iff]; exact not_lt.2 h2
  simp only [intervalCmp, b1, b2, scalarCmp_eq, Bool.false_and, Bool.false_eq_true, if_false]
  rcases cmp_cases l1 l2 with ⟨a1, a2, a3, a4, a5⟩ | ⟨a1, a2, a3, a4, a5⟩ | ⟨a1, a2, a3, a4, a5⟩ <;>
  rcases cmp_cases u1 u2 with ⟨b1, b2, b3, b4, b5⟩ | ⟨b1, b2, b3, b4, b5⟩ | ⟨b1, b2, b3, b4, b5⟩ <;>
    simp only [a1, a2, a3, a4, a5, b1, b2, b3, b4, b5] <;> decide

theorem intervalCmp_zero {l1 u1 l2 u2 : Bound K} (h1 : l1 ≤ u1) (h2 : l2 ≤ u2) :
    intervalCmp l1 u1 l2 u2 = 0 ↔ l1 = l2 ∧ u1 = u2 := by
  have b1 : intervalIsBottom l1 u1 = false := by
    rw [← Bool.not_eq_true, intervalIsBottom_iff]; exact not_lt.2 h1
  have b2 : intervalIsBottom l2 u2 = false := by
    rw [← Bool.not_eq_true, intervalIsBottom_iff]; exact not_lt.2 h2
  simp only [intervalCmp, b1, b2, scalarCmp_eq, Bool.false_and, Bool.false_eq_true, if_false]
  rcases cmp_cases l1 l2 with ⟨a1, a2, a3, a4, a5⟩ | ⟨a1, a2, a3, a4, a5⟩ | ⟨a1, a2, a3, a4, a5⟩ <;>
  rcases cmp_cases u1 u2 with ⟨b1, b2, b3, b4, b5⟩ | ⟨b1, b2, b3, b4, b5⟩ | ⟨b1, b2, b3, b4, b5⟩ <;>
    simp only [a1, a2, a3, a4, a5, b1, b2, b3, b4, b5] <;> decide

theorem intervalCmp_antisymm (l1 u1 l2 u2 : Bound K) :
    intervalCmp l2 u2 l1 u1 = - intervalCmp l1 u1 l2 u2 := by
  simp only [intervalCmp, scalarCmp_eq]
  cases h1 : intervalIsBottom l1 u1 <;> cases h2 : intervalIsBottom l2 u2 <;>
  rcases cmp_cases l1 l2 with ⟨a1, a2, a3, a4, a5⟩ | ⟨a1, a2, a3, a4, a5⟩ | ⟨a1, a2, a3, a4, a5⟩ <;>
  rcases cmp_cases u1 u2 with ⟨b1, b2, b3, b4, b5⟩ | ⟨b1, b2, b3, b4, b5⟩ | ⟨b1, b2, b3, b4, b5⟩ <;>
    simp only [a1, a2, a3, a4, a5, b1, b2, b3, b4, b5] <;> decide

end
end Apron
