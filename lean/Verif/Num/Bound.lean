import Mathlib.Algebra.Order.Field.Basic
import Mathlib.Algebra.Order.Floor.Ring
import Mathlib.Order.WithBot
import Mathlib.Tactic.Linarith
import Mathlib.Tactic.Positivity
import Mathlib.Tactic.Ring
import Mathlib.Tactic.FieldSimp
import Mathlib.Tactic.NormNum
import Mathlib.Tactic.Push
import Mathlib.Data.Rat.Floor

/-!
# Extended numbers: model of `num/bound_def.h`

`bound_t` (num/bound_def.h, non-float branch, lines 215-330) is a number or one of the two
infinities.  The number type `num_t` is an arbitrary linearly ordered field `K`; rounding is an
arbitrary upward rounding `R.up`.
-/

set_option autoImplicit false
set_option linter.unusedSectionVars false

namespace Apron

/-- `bound_t`: num/bound.h, num/bound_def.h lines 14-60 (a number with an infinity flag whose
sign is the sign of the number). -/
inductive Bound (K : Type*) where
  | ninf : Bound K
  | fin (q : K) : Bound K
  | pinf : Bound K
  deriving DecidableEq, Repr

namespace Bound

variable {K : Type*}

variable [LinearOrder K]

/-- comparison as a boolean: `bound_cmp(a,b) <= 0`, num/bound_def.h:493-503 -/
def leb : Bound K → Bound K → Bool
  | ninf, _ => true
  | fin _, ninf => false
  | fin p, fin q => decide (p ≤ q)
  | fin _, pinf => true
  | pinf, pinf => true
  | pinf, _ => false

instance : LE (Bound K) := ⟨fun a b => leb a b = true⟩
instance : LT (Bound K) := ⟨fun a b => a ≤ b ∧ ¬ b ≤ a⟩

theorem le_def (a b : Bound K) : a ≤ b ↔ leb a b = true := Iff.rfl

instance : DecidableLE (Bound K) := fun a b => inferInstanceAs (Decidable (leb a b = true))
instance : DecidableLT (Bound K) := fun a b => inferInstanceAs (Decidable (a ≤ b ∧ ¬ b ≤ a))

@[simp] theorem ninf_le (a : Bound K) : ninf ≤ a := by cases a <;> rfl
@[simp] theorem le_pinf (a : Bound K) : a ≤ pinf := by cases a <;> rfl
@[simp] theorem fin_le_fin (p q : K) : fin p ≤ fin q ↔ p ≤ q := by simp [le_def, leb]
@[simp] theorem fin_le_ninf (p : K) : ¬ fin p ≤ ninf := by simp [le_def, leb]
@[simp] theorem pinf_le_ninf : ¬ (pinf : Bound K) ≤ ninf := by simp [le_def, leb]
@[simp] theorem pinf_le_fin (p : K) : ¬ pinf ≤ fin p := by simp [le_def, leb]

instance : LinearOrder (Bound K) where
  le_refl a := by cases a <;> simp
  le_trans a b c h1 h2 := by
    cases a <;> cases b <;> cases c <;> simp_all
    exact le_trans h1 h2
  le_antisymm a b h1 h2 := by
    cases a <;> cases b <;> simp_all
    exact le_antisymm h1 h2
  le_total a b := by
    cases a <;> cases b <;> simp
    exact le_total _ _
  lt_iff_le_not_ge a b := Iff.rfl
  toDecidableLE := inferInstance
  toDecidableEq := inferInstance
  toDecidableLT := inferInstance

@[simp] theorem fin_lt_fin (p q : K) : fin p < fin q ↔ p < q := by
  rw [lt_iff_le_not_ge, lt_iff_le_not_ge]; simp
@[simp] theorem fin_lt_pinf (p : K) : fin p < pinf := by
  rw [lt_iff_le_not_ge]; simp
@[simp] theorem ninf_lt_fin (p : K) : ninf < fin p := by
  rw [lt_iff_le_not_ge]; simp
@[simp] theorem ninf_lt_pinf : (ninf : Bound K) < pinf := by
  rw [lt_iff_le_not_ge]; simp
@[simp] theorem not_lt_ninf (a : Bound K) : ¬ a < ninf := not_lt.2 (ninf_le a)
@[simp] theorem not_pinf_lt (a : Bound K) : ¬ pinf < a := not_lt.2 (le_pinf a)

/-- `bound_infty`: num/bound_def.h:62-75 -/
def infty : Bound K → Bool
  | fin _ => false
  | _ => true

/-- `bound_set_infty(a,sgn)`: num/bound_def.h:40-60 (the sign selects the infinity) -/
def ofSgn (s : Int) : Bound K := if 0 < s then pinf else ninf

/-- `bound_min`: num/bound_def.h:318-323 -/
def bmin (b c : Bound K) : Bound K :=
  match b with
  | pinf => c
  | ninf => ninf
  | fin p => match c with
    | pinf => fin p
    | ninf => ninf
    | fin q => if p ≤ q then fin p else fin q

/-- `bound_max`: num/bound_def.h:324-329 -/
def bmax (b c : Bound K) : Bound K :=
  match b with
  | pinf => pinf
  | ninf => c
  | fin p => match c with
    | pinf => pinf
    | ninf => fin p
    | fin q => if q ≤ p then fin p else fin q

theorem bmin_eq_min (b c : Bound K) : bmin b c = min b c := by
  cases b <;> cases c <;> simp [bmin, min_def]

theorem bmax_eq_max (b c : Bound K) : bmax b c = max b c := by
  cases b <;> cases c <;> simp [bmax, max_def]
  rename_i p q
  by_cases h : p ≤ q
  · by_cases h' : q ≤ p
    · have := le_antisymm h h'; simp [this]
    · simp [h, h']
  · have h' : q ≤ p := le_of_not_ge h
    simp [h, h']

/-- `bound_cmp`: num/bound_def.h:493-503, sign only -/
def cmp (a b : Bound K) : Int := if a < b then -1 else if b < a then 1 else 0

@[simp] theorem cmp_lt_zero (a b : Bound K) : cmp a b < 0 ↔ a < b := by
  unfold cmp; split_ifs <;> simp_all
@[simp] theorem cmp_le_zero (a b : Bound K) : cmp a b ≤ 0 ↔ a ≤ b := by
  unfold cmp; split_ifs with h1 h2
  · simp [h1.le]
  · simp [h2]
  · simp [not_lt.1 h2]
@[simp] theorem cmp_pos (a b : Bound K) : 0 < cmp a b ↔ b < a := by
  unfold cmp; split_ifs with h1 h2
  · simp [h1.le]
  · simp [h2]
  · simp [h2]
@[simp] theorem cmp_eq_zero (a b : Bound K) : cmp a b = 0 ↔ a = b := by
  unfold cmp; split_ifs with h1 h2
  · simp [h1.ne]
  · simp [h2.ne']
  · simp [le_antisymm (not_lt.1 h2) (not_lt.1 h1)]

section Field
variable [Field K] [IsStrictOrderedRing K]

/-- `bound_sgn`: num/bound_def.h:77-90 -/
def sgn : Bound K → Int
  | ninf => -1
  | pinf => 1
  | fin q => if q < 0 then -1 else if q = 0 then 0 else 1

/-- `bound_neg`: num/bound_def.h:231-235.  Exact for every number type. -/
def neg : Bound K → Bound K
  | ninf => pinf
  | pinf => ninf
  | fin q => fin (-q)

@[simp] theorem neg_ninf : neg (ninf : Bound K) = pinf := rfl
@[simp] theorem neg_pinf : neg (pinf : Bound K) = ninf := rfl
@[simp] theorem neg_fin (q : K) : neg (fin q) = fin (-q) := rfl
@[simp] theorem neg_neg (b : Bound K) : neg (neg b) = b := by cases b <;> simp
@[simp] theorem neg_le_neg (a b : Bound K) : neg a ≤ neg b ↔ b ≤ a := by
  cases a <;> cases b <;> simp

theorem sgn_neg_iff (b : Bound K) : sgn b < 0 ↔ b < fin 0 := by
  cases b <;> simp [sgn]
  rename_i q
  split_ifs <;> simp_all
theorem sgn_pos_iff (b : Bound K) : 0 < sgn b ↔ fin 0 < b := by
  cases b <;> simp [sgn]
  rename_i q
  split_ifs with h h'
  · simp; exact h.le
  · simp [h']
  · simp; exact lt_of_le_of_ne (not_lt.1 h) (Ne.symm h')
theorem sgn_zero_iff (b : Bound K) : sgn b = 0 ↔ b = fin 0 := by
  cases b <;> simp [sgn]
  rename_i q
  split_ifs with h h' <;> simp
  · exact h.ne
  · exact h'
  · exact h'
theorem sgn_le_zero_iff (b : Bound K) : sgn b ≤ 0 ↔ b ≤ fin 0 := by
  rw [← not_lt, ← not_lt, sgn_pos_iff]
theorem sgn_nonneg_iff (b : Bound K) : 0 ≤ sgn b ↔ fin 0 ≤ b := by
  rw [← not_lt, ← not_lt, sgn_neg_iff]

end Field
end Bound

section Rnd
variable {K : Type*} [LinearOrder K]

/-- An upward rounding of the exact results of arithmetic operations (what the FPU set to
round-to-+oo, or the integer types with ceiling division, do).  A result may overflow to `+oo`. -/
structure Rnd (K : Type*) [LinearOrder K] where
  up : K → Bound K
  up_ge : ∀ q, Bound.fin q ≤ up q

/-- exact arithmetic: the MPQ build (num/numrat_mpq.h) -/
def Rnd.exact : Rnd K := ⟨Bound.fin, fun _ => le_refl _⟩

@[simp] theorem Rnd.exact_up (q : K) : (Rnd.exact (K := K)).up q = Bound.fin q := rfl

theorem Rnd.up_ne_ninf (R : Rnd K) (q : K) : R.up q ≠ Bound.ninf := by
  intro h; have := R.up_ge q; rw [h] at this; simp at this

end Rnd

namespace Bound
variable {K : Type*} [LinearOrder K] [Field K] [IsStrictOrderedRing K] (R : Rnd K)

/-- `bound_add`: num/bound_def.h:238-243 -/
def add : Bound K → Bound K → Bound K
  | fin p, fin q => R.up (p + q)
  | fin _, c => c
  | b, _ => b

/-- `bound_sub`: num/bound_def.h:254-259 -/
def sub : Bound K → Bound K → Bound K
  | fin p, fin q => R.up (p - q)
  | fin _, c => neg c
  | b, _ => b

/-- `bound_mul`: num/bound_def.h:271-276 -/
def mul (b c : Bound K) : Bound K :=
  if sgn b = 0 ∨ sgn c = 0 then fin 0
  else match b, c with
    | fin p, fin q => R.up (p * q)
    | b, c => ofSgn (sgn b * sgn c)

/-- `bound_div`: num/bound_def.h:288-294 -/
def div (b c : Bound K) : Bound K :=
  if sgn b = 0 ∨ infty c = true then fin 0
  else if sgn c = 0 then ofSgn (sgn b)
  else match b, c with
    | fin p, fin q => R.up (p / q)
    | b, c => ofSgn (sgn b * sgn c)

/-- `bound_mul_2`: num/bound_def.h:283-287 -/
def mul2 : Bound K → Bound K
  | fin q => R.up (2 * q)
  | b => b

/-- `bound_div_2`: num/bound_def.h:302-306 -/
def div2 : Bound K → Bound K
  | fin q => R.up (q / 2)
  | b => b

/-- `bound_add_uint`: num/bound_def.h:244-248 -/
def addNat (b : Bound K) (n : ℕ) : Bound K :=
  match b with
  | fin q => R.up (q + n)
  | b => b

/-- `bound_sub_uint`: num/bound_def.h:260-264 -/
def subNat (b : Bound K) (n : ℕ) : Bound K :=
  match b with
  | fin q => R.up (q - n)
  | b => b

variable [FloorRing K]

/-- `bound_floor`: num/bound_def.h:335-339 -/
def floor : Bound K → Bound K
  | fin q => fin (⌊q⌋ : ℤ)
  | b => b

/-- `bound_ceil`: num/bound_def.h:340-344 -/
def ceil : Bound K → Bound K
  | fin q => fin (⌈q⌉ : ℤ)
  | b => b

/-- truncation towards zero of a number: `num_trunc`, num/numrat_mpq.h:152-156 -/
def numTrunc (q : K) : ℤ := if 0 ≤ q then ⌊q⌋ else ⌈q⌉

/-- `bound_trunc`: num/bound_def.h:345-349 -/
def trunc : Bound K → Bound K
  | fin q => fin (numTrunc q : ℤ)
  | b => b

end Bound
end Apron
