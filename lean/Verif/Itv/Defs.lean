import Verif.Num.Bound

/-!
# Intervals: model of `itv/itv.h` and `itv/itv.c`

An interval `[a,b]` is stored as `(inf, sup) = (-a, b)` (itv/itv.h:20-35).
-/

set_option autoImplicit false
set_option linter.unusedSectionVars false
set_option linter.ambiguousOpen false

namespace Apron
open Bound

/-- `itv_t`: itv/itv.h:26-30 -/
structure Itv (K : Type*) where
  inf : Bound K
  sup : Bound K
  deriving DecidableEq, Repr

namespace Itv
variable {K : Type*} [LinearOrder K] [Field K] [IsStrictOrderedRing K] (R : Rnd K)

/-- Specification: the values an interval denotes. -/
def Mem (x : K) (i : Itv K) : Prop := fin (-x) ≤ i.inf ∧ fin x ≤ i.sup

instance : Membership K (Itv K) := ⟨fun i x => Mem x i⟩

theorem mem_def (x : K) (i : Itv K) : x ∈ i ↔ fin (-x) ≤ i.inf ∧ fin x ≤ i.sup := Iff.rfl

instance (x : K) (i : Itv K) : Decidable (x ∈ i) :=
  inferInstanceAs (Decidable (fin (-x) ≤ i.inf ∧ fin x ≤ i.sup))

/-- `itv_set_top`: itv/itv.h:413-417 -/
def top : Itv K := ⟨pinf, pinf⟩
/-- `itv_set_bottom`: itv/itv.h:408-412 -/
def bottom : Itv K := ⟨fin (-1), fin (-1)⟩
/-- `itv_set_num`/`itv_set_int`: itv/itv.h:398-402 -/
def point (q : K) : Itv K := ⟨fin (-q), fin q⟩

/-- `itv_is_top`: itv/itv.h:421-424 -/
def isTop (a : Itv K) : Bool := infty a.inf && infty a.sup

/-- emptiness part of `itv_canonicalize`: itv/itv.c:138-145 (returns true if bottom) -/
def isBottom (a : Itv K) : Bool :=
  match a.inf, a.sup with
  | fin l, fin u => decide (u < -l)
  | _, _ => false

/-- `itv_is_canonical_bottom`: itv/itv.h:429-432 -/
def isCanonicalBottom (a : Itv K) : Bool := decide (a.inf = fin (-1)) && decide (a.sup = fin (-1))

/-- `itv_is_point`: itv/itv.h:433-441 -/
def isPoint (a : Itv K) : Bool :=
  match a.inf, a.sup with
  | fin l, fin u => decide (-l = u)
  | _, _ => false

/-- `itv_is_zero`: itv/itv.h:442-445 -/
def isZero (a : Itv K) : Bool := decide (sgn a.inf = 0) && decide (sgn a.sup = 0)

/-- `itv_is_leq`: itv/itv.h:446-457 -/
def isLeq (a b : Itv K) : Bool :=
  if isCanonicalBottom a then true
  else if isCanonicalBottom b then false
  else decide (Bound.cmp a.sup b.sup ≤ 0) && decide (Bound.cmp a.inf b.inf ≤ 0)

/-- `itv_is_eq`: itv/itv.h:458-461 -/
def isEq (a b : Itv K) : Bool := decide (a.sup = b.sup) && decide (a.inf = b.inf)

/-- `itv_meet`: itv/itv.h:466-471, the interval (the returned flag is `isBottom` of it) -/
def meet (b c : Itv K) : Itv K := ⟨bmin b.inf c.inf, bmin b.sup c.sup⟩

/-- `itv_join`: itv/itv.h:472-484 -/
def join (b c : Itv K) : Itv K :=
  if isCanonicalBottom b then c
  else if isCanonicalBottom c then b
  else ⟨bmax b.inf c.inf, bmax b.sup c.sup⟩

/-- `bound_widening`: itv/itv.h:485-493 -/
def boundWidening (b c : Bound K) : Bound K :=
  if infty c || decide (Bound.cmp b c < 0) then pinf else b

/-- `itv_widening`: itv/itv.h:494-506 -/
def widening (b c : Itv K) : Itv K :=
  if isCanonicalBottom b then c
  else if isCanonicalBottom c then b
  else ⟨boundWidening b.inf c.inf, boundWidening b.sup c.sup⟩

/-- `itv_add`: itv/itv.h:507-511 -/
def add (b c : Itv K) : Itv K := ⟨Bound.add R b.inf c.inf, Bound.add R b.sup c.sup⟩

/-- `itv_sub`: itv/itv.c:213-225 (without aliasing) -/
def sub (b c : Itv K) : Itv K := ⟨Bound.add R b.inf c.sup, Bound.add R b.sup c.inf⟩

/-- `itv_neg`: itv/itv.c:226-234 -/
def neg (b : Itv K) : Itv K := ⟨b.sup, b.inf⟩

/-- `itv_mul_bound`: itv/itv.c:171-184 (also `itv_mul_num`, 157-169) -/
def mulBound (b : Itv K) (c : Bound K) : Itv K :=
  if 0 ≤ sgn c then ⟨Bound.mul R b.inf c, Bound.mul R b.sup c⟩
  else ⟨Bound.mul R b.sup (Bound.neg c), Bound.mul R b.inf (Bound.neg c)⟩

/-- `itv_div_bound`: itv/itv.c:199-212 (also `itv_div_num`, 186-198) -/
def divBound (b : Itv K) (c : Bound K) : Itv K :=
  if 0 ≤ sgn c then ⟨Bound.div R b.inf c, Bound.div R b.sup c⟩
  else ⟨Bound.div R b.sup (Bound.neg c), Bound.div R b.inf (Bound.neg c)⟩

/-- `itv_abs`: itv/itv.c:261-273 -/
def abs (b : Itv K) : Itv K :=
  if sgn b.inf ≤ 0 then b
  else if sgn b.sup ≤ 0 then neg b
  else ⟨fin 0, bmax b.inf b.sup⟩

/-- `itv_mulpp`: itv/itv.c:308-318 -/
def mulpp (b c : Itv K) : Itv K := ⟨Bound.mul R b.inf (Bound.neg c.inf), Bound.mul R b.sup c.sup⟩
/-- `itv_mulnn`: itv/itv.c:320-331 -/
def mulnn (b c : Itv K) : Itv K := ⟨Bound.mul R b.sup (Bound.neg c.sup), Bound.mul R b.inf c.inf⟩
/-- `itv_mulpn`: itv/itv.c:333-343 -/
def mulpn (b c : Itv K) : Itv K := ⟨Bound.mul R b.sup c.inf, Bound.mul R (Bound.neg b.inf) c.sup⟩
/-- `itv_mulp`: itv/itv.c:345-366 -/
def mulp (b c : Itv K) : Itv K :=
  if sgn b.inf ≤ 0 then mulpp R b c
  else if sgn b.sup ≤ 0 then mulpn R c b
  else ⟨Bound.mul R b.inf c.sup, Bound.mul R b.sup c.sup⟩
/-- `itv_muln`: itv/itv.c:368-390 (the final swap is folded in) -/
def muln (b c : Itv K) : Itv K :=
  if sgn b.inf ≤ 0 then mulpn R b c
  else if sgn b.sup ≤ 0 then mulnn R b c
  else ⟨Bound.mul R b.sup c.inf, Bound.mul R b.inf c.inf⟩
/-- `itv_mul`: itv/itv.c:392-422.  The fourth test reads `c->sup` again, as in the code (the
comment says "b is negative"); it is therefore never true there. -/
def mul (b c : Itv K) : Itv K :=
  if sgn c.inf ≤ 0 then mulp R b c
  else if sgn c.sup ≤ 0 then muln R b c
  else if sgn b.inf ≤ 0 then mulp R c b
  else if sgn c.sup ≤ 0 then muln R c b
  else join (mulp R b ⟨fin 0, c.sup⟩) (muln R b ⟨c.inf, fin 0⟩)

/-- `itv_divpp`: itv/itv.c:428-439 -/
def divpp (b c : Itv K) : Itv K := ⟨Bound.div R b.inf c.sup, Bound.div R b.sup (Bound.neg c.inf)⟩
/-- `itv_divnn`: itv/itv.c:440-451 -/
def divnn (b c : Itv K) : Itv K := ⟨Bound.div R b.sup c.inf, Bound.div R (Bound.neg b.inf) c.sup⟩
/-- `itv_divpn`: itv/itv.c:452-464 -/
def divpn (b c : Itv K) : Itv K := ⟨Bound.div R (Bound.neg b.sup) c.sup, Bound.div R b.inf c.inf⟩
/-- `itv_divnp`: itv/itv.c:465-476 -/
def divnp (b c : Itv K) : Itv K := ⟨Bound.div R (Bound.neg b.inf) c.inf, Bound.div R b.sup c.sup⟩
/-- `itv_divp`: itv/itv.c:478-501 -/
def divp (b c : Itv K) : Itv K :=
  if sgn b.inf ≤ 0 then divpp R b c
  else if sgn b.sup ≤ 0 then divnp R b c
  else ⟨Bound.div R b.inf (Bound.neg c.inf), Bound.div R b.sup (Bound.neg c.inf)⟩
/-- `itv_divn`: itv/itv.c:502-533 -/
def divn (b c : Itv K) : Itv K :=
  if sgn b.inf ≤ 0 then divpn R b c
  else if sgn b.sup ≤ 0 then divnn R b c
  else ⟨Bound.div R b.sup (Bound.neg c.sup), Bound.div R b.inf (Bound.neg c.sup)⟩
/-- `itv_div`: itv/itv.c:535-552 -/
def div (b c : Itv K) : Itv K :=
  if sgn c.inf < 0 then divp R b c
  else if sgn c.sup < 0 then divn R b c
  else if sgn b.inf = 0 ∧ sgn b.sup = 0 then b
  else top

/-- `itv_magnitude`: itv/itv.h:568-573 -/
def magnitude (b : Itv K) : Bound K :=
  if sgn b.inf ≤ 0 then b.sup
  else if sgn b.sup ≤ 0 then b.inf
  else bmax b.inf b.sup

/-- `itv_enlarge_bound`: itv/itv.h:393-397 -/
def enlargeBound (b : Itv K) (c : Bound K) : Itv K :=
  ⟨Bound.add R b.inf c, Bound.add R b.sup c⟩

section Floor
variable [FloorRing K]

/-- `itv_canonicalize`: itv/itv.c:129-146, the normalised interval; the returned flag is
`isBottom` of the result -/
def canonicalize (a : Itv K) (integer : Bool) : Itv K :=
  if integer then ⟨Bound.floor a.inf, Bound.floor a.sup⟩ else a

/-- `itv_ceil`: itv/itv.h:541-542 -/
def ceil (b : Itv K) : Itv K := ⟨Bound.floor b.inf, Bound.ceil b.sup⟩
/-- `itv_floor`: itv/itv.h:544-545 -/
def floor (b : Itv K) : Itv K := ⟨Bound.ceil b.inf, Bound.floor b.sup⟩
/-- `itv_trunc`: itv/itv.h:547-548 -/
def trunc (b : Itv K) : Itv K := ⟨Bound.trunc b.inf, Bound.trunc b.sup⟩
/-- `itv_to_int`: itv/itv.h:550-551 -/
def toInt (b : Itv K) : Itv K := ⟨Bound.ceil b.inf, Bound.ceil b.sup⟩

/-- `itv_unceil`: itv/itv.h:598-604 -/
def unceil (b : Itv K) : Itv K := ⟨Bound.addNat R (Bound.floor b.inf) 1, Bound.floor b.sup⟩
/-- `itv_unfloor`: itv/itv.h:606-612 -/
def unfloor (b : Itv K) : Itv K := ⟨Bound.floor b.inf, Bound.addNat R (Bound.floor b.sup) 1⟩
/-- `itv_untrunc`: itv/itv.h:614-621 -/
def untrunc (b : Itv K) : Itv K :=
  let i := Bound.floor b.inf
  let s := Bound.floor b.sup
  ⟨if 0 < sgn i then Bound.addNat R i 1 else i, if 0 < sgn s then Bound.addNat R s 1 else s⟩
/-- `itv_from_int`: itv/itv.h:623-628 -/
def fromInt (b : Itv K) : Itv K := ⟨Bound.ceil b.inf, Bound.ceil b.sup⟩

/-- `itv_mod`: itv/itv.c:275-300 -/
def mod (b c : Itv K) (isInt : Bool) : Itv K :=
  let e := abs c
  if sgn e.inf = 0 then top
  else
    let e2 := mul R (trunc (div R b e)) e
    let s := if isInt then Bound.subNat R e.sup 1 else e.sup
    let r : Itv K :=
      if sgn b.sup < 0 then ⟨s, fin 0⟩
      else if 0 < sgn b.inf then ⟨s, s⟩
      else ⟨fin 0, s⟩
    meet (sub R b e2) r

end Floor

end Itv
end Apron
