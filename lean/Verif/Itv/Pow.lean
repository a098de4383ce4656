import Verif.Itv.Defs

/-!
# Square root, power and n-th root of intervals

Model of `itv_sqrt` (itv/itv.c:236-259), `itv_pow` (559-585), `itv_inv_pow` (588-640),
`bound_sqrt`, `bound_pow`, `bound_root` (num/bound_def.h:351-395) and of the GMP number layer
(`numrat_sqrt`, `numrat_pow`, `numrat_root`, num/numrat_mpq.h:158-193, `numint_root`,
num/numint_mpz.h:131-155).
-/

set_option autoImplicit false
set_option linter.unusedSectionVars false
set_option linter.ambiguousOpen false

namespace Apron
open Bound

/-- The root functions of the number layer, as `(up, down)` pairs: `num_sqrt`, `num_root`. -/
structure RootOps (K : Type*) where
  sqrtUp : K → K
  sqrtDn : K → K
  rootUp : K → ℕ → K
  rootDn : K → ℕ → K

/-- Specification of a correct square root pair: down ≤ sqrt ≤ up. -/
def RootOps.SqrtOK {K : Type*} [LinearOrder K] [Field K] (o : RootOps K) : Prop :=
  ∀ q y : K, 0 ≤ q → 0 ≤ y →
    (q ≤ y * y → o.sqrtDn q ≤ y) ∧ (y * y ≤ q → y ≤ o.sqrtUp q)

/-- Specification of a correct n-th root pair at `q`: for odd `n` on all reals, for even `n` on
the non-negative ones. -/
def RootOps.RootOKAt {K : Type*} [LinearOrder K] [Field K] (o : RootOps K) (q : K) (n : ℕ) : Prop :=
  ∀ y : K, (Even n → 0 ≤ y) →
    (q ≤ y ^ n → o.rootDn q n ≤ y) ∧ (y ^ n ≤ q → y ≤ o.rootUp q n)

namespace Bound
variable {K : Type*} [LinearOrder K] [Field K] [IsStrictOrderedRing K] (R : Rnd K) (o : RootOps K)

/-- `bound_sqrt`, `up` result: num/bound_def.h:351-362 -/
def sqrtUp : Bound K → Bound K
  | fin q => fin (o.sqrtUp q)
  | _ => pinf
/-- `bound_sqrt`, `down` result: num/bound_def.h:351-362 -/
def sqrtDn : Bound K → Bound K
  | fin q => fin (o.sqrtDn q)
  | _ => pinf

/-- `bound_pow`, `up` result: num/bound_def.h:363-380.  An overflow of either rounded result is
the non-zero return of `num_pow`. -/
def powUp (b : Bound K) (n : ℕ) : Bound K :=
  match b with
  | fin q => if infty (R.up (q ^ n)) || infty (R.up (-(q ^ n))) then pinf else R.up (q ^ n)
  | _ => pinf
/-- `bound_pow`, `down` result: num/bound_def.h:363-380 -/
def powDn (b : Bound K) (n : ℕ) : Bound K :=
  match b with
  | fin q =>
    if infty (R.up (q ^ n)) || infty (R.up (-(q ^ n))) then (if n % 2 = 1 then ninf else fin 0)
    else neg (R.up (-(q ^ n)))
  | _ => pinf

/-- `bound_root`, `up` result: num/bound_def.h:381-392 -/
def rootUp (b : Bound K) (n : ℕ) : Bound K :=
  match b with
  | fin q => fin (o.rootUp q n)
  | _ => pinf
/-- `bound_root`, `down` result: num/bound_def.h:381-392 -/
def rootDn (b : Bound K) (n : ℕ) : Bound K :=
  match b with
  | fin q => fin (o.rootDn q n)
  | _ => pinf
end Bound

namespace Itv
variable {K : Type*} [LinearOrder K] [Field K] [IsStrictOrderedRing K] (R : Rnd K) (o : RootOps K)

/-- `itv_sqrt`: itv/itv.c:236-259 (without the exactness flag) -/
def sqrt (b : Itv K) : Itv K :=
  if isBottom b || decide (sgn b.sup < 0) then bottom
  else ⟨if 0 ≤ sgn b.inf then fin 0 else Bound.neg (Bound.sqrtDn o (Bound.neg b.inf)),
        Bound.sqrtUp o b.sup⟩

section
variable [FloorRing K]

/-- the exponent tests shared by `itv_pow` (itv/itv.c:562-578) and `itv_inv_pow` (592-613):
`some x` when the exponent interval is the single non-negative integer `x` -/
def expo (n : Itv K) : Option ℕ :=
  match n.inf, n.sup with
  | fin l, fin u =>
    if -l ≠ u then none
    else if ((⌊u⌋ : ℤ) : K) ≠ u ∨ ⌊u⌋ < 0 then none
    else some ⌊u⌋.toNat
  | _, _ => none

/-- the computing part of `itv_pow`: itv/itv.c:579-584 -/
def powNat (b : Itv K) (x : ℕ) : Itv K :=
  let m := if x % 2 = 1 then b else abs b
  ⟨Bound.neg (Bound.powDn R (Bound.neg m.inf) x), Bound.powUp R m.sup x⟩

/-- `itv_pow`: itv/itv.c:559-585 -/
def pow (b n : Itv K) : Itv K :=
  if isBottom b || isBottom n then bottom
  else match expo n with
    | none => top
    | some x => powNat R b x

/-- `itv_inv_pow`: itv/itv.c:588-640 -/
def invPow (orga b n : Itv K) : Itv K :=
  if isBottom b || isBottom orga || isBottom n then bottom
  else match expo n with
    | none => top
    | some x =>
      if x = 0 then top
      else if x % 2 = 1 ∨ sgn b.inf ≤ 0 then
        fix x ⟨Bound.neg (Bound.rootDn o (Bound.neg b.inf) x), Bound.rootUp o b.sup x⟩
      else if sgn b.sup < 0 then bottom
      else fix x ⟨Bound.neg (Bound.rootDn o (fin 0) x), Bound.rootUp o b.sup x⟩
where
  /-- sign fix-up, itv/itv.c:627-639 -/
  fix (x : ℕ) (a : Itv K) : Itv K :=
    if x % 2 = 1 then a
    else if sgn orga.sup ≤ 0 then ⟨a.sup, a.inf⟩
    else if 0 ≤ sgn orga.inf then ⟨a.sup, a.sup⟩
    else a
end
end Itv

/-! ### The GMP number layer (`num_t = mpq_t`) -/

/-- `mpz_root` truncation: the largest `r` with `r^n ≤ m` -/
def iroot (m n : ℕ) : ℕ := Nat.findGreatest (fun r => r ^ n ≤ m) m

/-- `numint_root`, `down` result: num/numint_mpz.h:131-155 -/
def zrootDn (b : ℤ) (n : ℕ) : ℤ :=
  if b < 0 then
    (if iroot b.natAbs n ^ n = b.natAbs then -(iroot b.natAbs n : ℤ) else -(iroot b.natAbs n : ℤ) - 1)
  else iroot b.natAbs n
/-- `numint_root`, `up` result: num/numint_mpz.h:131-155 -/
def zrootUp (b : ℤ) (n : ℕ) : ℤ :=
  if b < 0 then -(iroot b.natAbs n : ℤ)
  else if iroot b.natAbs n ^ n = b.natAbs then iroot b.natAbs n else iroot b.natAbs n + 1

/-- the GMP rational number layer: `numrat_sqrt`, num/numrat_mpq.h:158-175 and `numrat_root`,
187-193 -/
def mpqRoots : RootOps ℚ where
  sqrtDn q := (Nat.sqrt (q.num.natAbs * q.den) : ℚ) / q.den
  sqrtUp q :=
    let m := q.num.natAbs * q.den
    (if Nat.sqrt m * Nat.sqrt m = m then (Nat.sqrt m : ℚ) else (Nat.sqrt m : ℚ) + 1) / q.den
  rootUp q n := (zrootUp q.num n : ℚ) / (zrootDn q.den n : ℚ)
  rootDn q n := (zrootDn q.num n : ℚ) / (zrootUp q.den n : ℚ)

end Apron
