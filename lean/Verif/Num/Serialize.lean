import Mathlib.Data.Nat.Digits.Defs
import Mathlib.Data.Nat.Size
import Mathlib.Logic.Function.Basic
import Verif.Oct.Defs

/-!
# Serialisation of numbers, bounds, octagons and products

A buffer is a memory `ℕ → ℕ` from addresses to bytes (numbers below 256).  A serialisation function
takes the memory, the destination address and a value, and returns the new memory and the number of bytes
written; `none` is a failed assertion.  The functions of GMP and MPFR are modelled by their documentation.
-/

set_option autoImplicit false
set_option linter.unusedSectionVars false

namespace Apron.Ser

/-- bytes of a buffer -/
abbrev Buf := ℕ → ℕ

/-- a store of one byte -/
def st (m : Buf) (p v : ℕ) : Buf := Function.update m p v

/-- the byte stored by an assignment of an `int` to a `char` -/
def byteOf (i : ℤ) : ℕ := (i % 256).toNat

/-- `*(const char*)src < 0`; `signed` tells whether the type `char` of the platform is signed -/
def charNeg (signed : Bool) (b : ℕ) : Bool := signed && decide (128 ≤ b)

/-- `num_dump_word32`: num/num_config.h:35-41 -/
def dumpWord32 (m : Buf) (p src : ℕ) : Buf :=
  st (st (st (st m p (src / 2 ^ 24 % 256)) (p + 1) (src / 2 ^ 16 % 256)) (p + 2) (src / 2 ^ 8 % 256)) (p + 3) (src % 256)

/-- `num_undump_word32`: num/num_config.h:43-50 -/
def undumpWord32 (m : Buf) (p : ℕ) : ℕ :=
  (m p * 2 ^ 24 + m (p + 1) * 2 ^ 16 + m (p + 2) * 2 ^ 8 + m (p + 3)) % 2 ^ 32

/-- stores of consecutive bytes -/
def storeBytes (m : Buf) (p : ℕ) : List ℕ → Buf
  | [] => m
  | b :: l => storeBytes (st m p b) (p + 1) l

/-- the bytes from `p` to `p + n - 1` -/
def loadBytes (m : Buf) (p : ℕ) : ℕ → List ℕ
  | 0 => []
  | n + 1 => m p :: loadBytes m (p + 1) n

/-- `mpz_export(dst,&count,1,1,1,0,z)`: the bytes of the absolute value, most significant first; no byte
for 0 (GMP manual, 5.13) -/
def mpzExport (m : Buf) (p : ℕ) (z : ℤ) : Buf × ℕ :=
  let l := (Nat.digits 256 z.natAbs).reverse
  (storeBytes m p l, l.length)

/-- `mpz_import(z,count,1,1,1,0,src)`: no sign is taken from the data (GMP manual, 5.13) -/
def mpzImport (m : Buf) (p count : ℕ) : ℕ := Nat.ofDigits 256 (loadBytes m p count).reverse

/-- `mpz_sizeinbase(z,2)` -/
def mpzBits (z : ℤ) : ℕ := if z = 0 then 1 else z.natAbs.size

/-! ## Numbers -/

/-- `numint_serialize` for GMP integers: num/numint_mpz.h:327-335 -/
def mpzSer (m : Buf) (p : ℕ) (z : ℤ) : Option (Buf × ℕ) :=
  let m := st m p (byteOf z.sign)
  let (m, count) := mpzExport m (p + 5) z
  if count % 2 ^ 32 = count then some (dumpWord32 m (p + 1) count, count + 5) else none

/-- `numint_deserialize` for GMP integers: num/numint_mpz.h:337-344 -/
def mpzDes (signed : Bool) (m : Buf) (p : ℕ) : Option (ℤ × ℕ) :=
  let count := undumpWord32 m (p + 1)
  let z : ℤ := mpzImport m (p + 5) count
  some (if charNeg signed (m p) then -z else z, count + 5)

/-- `numint_serialized_size` for GMP integers: num/numint_mpz.h:347-348; `limb` is `sizeof(mp_limb_t)` -/
def mpzSize (limb : ℕ) (z : ℤ) : ℕ := mpzBits z / 8 + 5 + limb

/-- contents of an `mpq_t`; the denominator 0 is used for infinite bounds -/
structure RawQ where
  num : ℤ
  den : ℕ
deriving DecidableEq

/-- `numrat_serialize` for GMP rationals: num/numrat_mpq.h:375-387 -/
def mpqSer (m : Buf) (p : ℕ) (q : RawQ) : Option (Buf × ℕ) :=
  let m := st m p (byteOf q.num.sign)
  let (m, c1) := mpzExport m (p + 9) q.num
  let (m, c2) := mpzExport m (p + c1 + 9) q.den
  if c1 % 2 ^ 32 = c1 ∧ c2 % 2 ^ 32 = c2 then
    some (dumpWord32 (dumpWord32 m (p + 1) c1) (p + 5) c2, c1 + c2 + 9)
  else none

/-- `numrat_deserialize` for GMP rationals: num/numrat_mpq.h:389-398 -/
def mpqDes (signed : Bool) (m : Buf) (p : ℕ) : Option (RawQ × ℕ) :=
  let c1 := undumpWord32 m (p + 1)
  let c2 := undumpWord32 m (p + 5)
  let n : ℤ := mpzImport m (p + 9) c1
  let d := mpzImport m (p + c1 + 9) c2
  some (⟨if charNeg signed (m p) then -n else n, d⟩, c1 + c2 + 9)

/-- `numrat_serialized_size` for GMP rationals: num/numrat_mpq.h:401-406 -/
def mpqSize (limb : ℕ) (q : RawQ) : ℕ := (mpzBits q.num + mpzBits q.den) / 8 + 9 + 2 * limb

/-- `num_store_words8`: num/num_config.h:24-33; a native number is the list of its bytes in memory -/
def storeWords8 (bigEndian : Bool) (l : List ℕ) : List ℕ := if bigEndian then l.reverse else l

/-- `numint_serialize`, `numflt_serialize` for native types: num/numint_native.h:480-484,
num/numflt_native.h:450-454; `t` is the size of the type -/
def natSer (bigEndian : Bool) (t : ℕ) (m : Buf) (p : ℕ) (l : List ℕ) : Option (Buf × ℕ) :=
  some (storeBytes m p (storeWords8 bigEndian l), t)

/-- `numint_deserialize`, `numflt_deserialize` for native types: num/numint_native.h:486-490,
num/numflt_native.h:456-460 -/
def natDes (bigEndian : Bool) (t : ℕ) (m : Buf) (p : ℕ) : Option (List ℕ × ℕ) :=
  some (storeWords8 bigEndian (loadBytes m p t), t)

/-- `numint_serialized_size`, `numflt_serialized_size` for native types: num/numint_native.h:492-493,
num/numflt_native.h:462-463 -/
def natSize (t : ℕ) (_ : List ℕ) : ℕ := t

section pair
variable {α β : Type*} (s1 : Buf → ℕ → α → Option (Buf × ℕ)) (s2 : Buf → ℕ → β → Option (Buf × ℕ))
  (d1 : Buf → ℕ → Option (α × ℕ)) (d2 : Buf → ℕ → Option (β × ℕ))

/-- one value after another: `numrat_serialize` of native rationals, num/numrat_native.h:509-513 -/
def pairSer (m : Buf) (p : ℕ) (x : α × β) : Option (Buf × ℕ) :=
  (s1 m p x.1).bind fun r => (s2 r.1 (p + r.2) x.2).map fun r' => (r'.1, r.2 + r'.2)

/-- `numrat_deserialize` of native rationals: num/numrat_native.h:515-519 -/
def pairDes (m : Buf) (p : ℕ) : Option ((α × β) × ℕ) :=
  (d1 m p).bind fun r => (d2 m (p + r.2)).map fun r' => ((r.1, r'.1), r.2 + r'.2)

/-- `numrat_serialized_size` of native rationals: num/numrat_native.h:521-525 -/
def pairSize (z1 : α → ℕ) (z2 : β → ℕ) (x : α × β) : ℕ := z1 x.1 + z2 x.2
end pair

/-- an `mpfr_t`: NaN, an infinity (`true` when positive), or `z * 2^e` where `z` and `e` are the results of
`mpfr_get_z_exp` -/
inductive Mpfr
  | nan
  | inf (pos : Bool)
  | num (z e : ℤ)
deriving DecidableEq

/-- conversion of an `int` to `unsigned` -/
def toUnsigned (e : ℤ) : ℕ := (e % 2 ^ 32).toNat
/-- conversion of an `unsigned` to `int` -/
def toInt (n : ℕ) : ℤ := if n < 2 ^ 31 then n else (n : ℤ) - 2 ^ 32

/-- `numflt_serialize` for MPFR numbers: num/numflt_mpfr.h:296-318.  The fourth line from the end writes
`count`, where the exponent `e` is read back. -/
def mpfrSer (m : Buf) (p : ℕ) : Mpfr → Option (Buf × ℕ)
  | .nan => some (st m p 0, 1)
  | .inf pos => some (st m p (if pos then 1 else 2), 1)
  | .num z e =>
    let m := st m p (if z.sign ≥ 0 then 3 else 4)
    let (m, count) := mpzExport m (p + 9) z
    if count % 2 ^ 32 = count ∧ toInt (toUnsigned e) = e then
      some (dumpWord32 (dumpWord32 m (p + 1) count) (p + 5) count, count + 9)
    else none

/-- `numflt_deserialize` for MPFR numbers: num/numflt_mpfr.h:320-344; roundings to the precision of the
destination and overflows of the exponent are ignored (there are none when the destination has the
precision of the source) -/
def mpfrDes (m : Buf) (p : ℕ) : Option (Mpfr × ℕ) :=
  match m p with
  | 0 => some (.nan, 1)
  | 1 => some (.inf true, 1)
  | 2 => some (.inf false, 1)
  | 3 =>
    let count := undumpWord32 m (p + 1)
    some (.num (mpzImport m (p + 9) count) (toInt (undumpWord32 m (p + 5))), count + 9)
  | 4 =>
    let count := undumpWord32 m (p + 1)
    some (.num (-(mpzImport m (p + 9) count : ℤ)) (toInt (undumpWord32 m (p + 5))), count + 9)
  | _ => none

/-- `numflt_serialized_size` for MPFR numbers of precision `prec`: num/numflt_mpfr.h:347-348 -/
def mpfrSize (limb prec : ℕ) (_ : Mpfr) : ℕ := prec / 8 + 9 + limb

/-! ## Bounds and arrays -/

section generic
variable {α : Type*} (ser : Buf → ℕ → α → Option (Buf × ℕ)) (des : Buf → ℕ → Option (α × ℕ)) (size : α → ℕ)

/-- `bound_serialize` when a bound is a structure with a flag `inf` (`x.1`): num/bound_def.h:626-628 -/
def flagSer (m : Buf) (p : ℕ) (x : Bool × α) : Option (Buf × ℕ) :=
  (ser (st m p (if x.1 then 1 else 0)) (p + 1) x.2).map fun r => (r.1, r.2 + 1)

/-- `bound_deserialize` when a bound is a structure with a flag `inf`: num/bound_def.h:636-638 -/
def flagDes (m : Buf) (p : ℕ) : Option ((Bool × α) × ℕ) :=
  (des m (p + 1)).map fun r => ((decide (m p ≠ 0), r.1), r.2 + 1)

/-- `bound_serialized_size` when a bound is a structure: num/bound_def.h:647 -/
def flagSize (x : Bool × α) : ℕ := size x.2 + 1

/-- `bound_serialize_array`: num/bound_def.h:651-657 -/
def serArray (m : Buf) (p : ℕ) : List α → Option (Buf × ℕ)
  | [] => some (m, 0)
  | x :: l => (ser m p x).bind fun r => (serArray r.1 (p + r.2) l).map fun r' => (r'.1, r.2 + r'.2)

/-- `bound_deserialize_array`: num/bound_def.h:659-665 -/
def desArray (m : Buf) (p : ℕ) : ℕ → Option (List α × ℕ)
  | 0 => some ([], 0)
  | k + 1 => (des m p).bind fun r => (desArray m (p + r.2) k).map fun r' => (r.1 :: r'.1, r.2 + r'.2)

/-- `bound_serialized_size_array`: num/bound_def.h:667-673 -/
def sizeArray (l : List α) : ℕ := (l.map size).sum

end generic

/-- the representation of a bound by an `mpq_t`: num/bound_def.h:41-67 -/
def rawOfBound : Bound ℚ → RawQ
  | .fin q => ⟨q.num, q.den⟩
  | .pinf => ⟨1, 0⟩
  | .ninf => ⟨-1, 0⟩

/-- the bound represented by an `mpq_t` -/
def boundOfRaw (q : RawQ) : Bound ℚ :=
  if q.den = 0 then (if q.num < 0 then .ninf else .pinf) else .fin (q.num / q.den)

/-- `bound_serialize` for rational bounds: num/bound_def.h:622-630 -/
def bqSer (m : Buf) (p : ℕ) (b : Bound ℚ) : Option (Buf × ℕ) := mpqSer m p (rawOfBound b)
/-- `bound_deserialize` for rational bounds: num/bound_def.h:632-640 -/
def bqDes (signed : Bool) (m : Buf) (p : ℕ) : Option (Bound ℚ × ℕ) := (mpqDes signed m p).map fun r => (boundOfRaw r.1, r.2)
/-- `bound_serialized_size` for rational bounds: num/bound_def.h:642-649 -/
def bqSize (limb : ℕ) (b : Bound ℚ) : ℕ := mpqSize limb (rawOfBound b)

/-! ## Octagons -/

section oct
variable {K : Type*} (ser : Buf → ℕ → Bound K → Option (Buf × ℕ)) (des : Buf → ℕ → Option (Bound K × ℕ)) (size : Bound K → ℕ)
  (id : ℕ)

/-- the array of the half-matrix -/
def cells (dim : ℕ) (m : Oct.Mem K) : List (Bound K) := (List.range (Oct.matsize dim)).map m

/-- the size given to `malloc` in `oct_serialize_raw`: octagons/oct_print.c:149-155 -/
def octAlloc (a : OctT K) : ℕ :=
  10 + match a.m, a.closed with
    | some m, _ => sizeArray size (cells a.dim m)
    | none, some c => sizeArray size (cells a.dim c)
    | none, none => 0

/-- `oct_serialize_raw`: octagons/oct_print.c:145-176; `u` is the content of the fresh buffer, `id` is
`num_serialize_id()`; the result is the buffer and `buf.size` -/
def octSer (u : Buf) (a : OctT K) : Option (Buf × ℕ) :=
  let b := dumpWord32 (dumpWord32 (st u 0 id) 2 a.dim) 6 a.intdim
  match a.m, a.closed with
  | some m, _ => (serArray ser (st b 1 1) 10 (cells a.dim m)).map fun r => (r.1, 10 + r.2)
  | none, some c => (serArray ser (st b 1 2) 10 (cells a.dim c)).map fun r => (r.1, 10 + r.2)
  | none, none => some (st b 1 0, 10)

/-- the half-matrix filled by `bound_deserialize_array`; `u` is the content of fresh memory -/
def ofCells (u : Oct.Mem K) (l : List (Bound K)) : Oct.Mem K := fun k => l.getD k (u k)

/-- `oct_deserialize_raw`: octagons/oct_print.c:178-206; the result is the octagon and `*size`; `none` stands
for NULL (`arg_assert`) and for failed assertions -/
def octDes (u : Oct.Mem K) (b : Buf) (p : ℕ) : Option (OctT K × ℕ) :=
  let dim := undumpWord32 b (p + 2)
  let intdim := undumpWord32 b (p + 6)
  if b p ≠ id then none
  else match b (p + 1) with
    | 0 => some (⟨none, none, dim, intdim⟩, 10)
    | 1 => (desArray des b (p + 10) (Oct.matsize dim)).map fun r => (⟨some (ofCells u r.1), none, dim, intdim⟩, 10 + r.2)
    | 2 => (desArray des b (p + 10) (Oct.matsize dim)).map fun r => (⟨none, some (ofCells u r.1), dim, intdim⟩, 10 + r.2)
    | _ => none

end oct

/-! ## Reduced products -/

section prod
variable {A : ℕ → Type*} (ser : ∀ i, A i → Option (Buf × ℕ)) (des : ∀ i, Buf → ℕ → Option (A i × ℕ))

/-- the loop of `ap_reducedproduct_serialize_raw`: apron/ap_reducedproduct.c:301-310; `f` components remain
from the index `i`, the bytes `0 .. g-1` of `m` are written; `realloc` keeps them -/
def prodSerLoop (x : ∀ i, A i) : ℕ → ℕ → Buf → ℕ → Option (Buf × ℕ)
  | 0, _, m, g => some (m, g)
  | f + 1, i, m, g => (ser i (x i)).bind fun r => prodSerLoop x f (i + 1) (storeBytes m g (loadBytes r.1 0 r.2)) (g + r.2)

/-- `ap_reducedproduct_serialize_raw` of a product of `n` components: apron/ap_reducedproduct.c:294-313 -/
def prodSer (n : ℕ) (u : Buf) (x : ∀ i, A i) : Option (Buf × ℕ) := prodSerLoop ser x n 0 u 0

/-- the loop of `ap_reducedproduct_deserialize_raw`: apron/ap_reducedproduct.c:322-328 -/
def prodDesLoop (b : Buf) (p : ℕ) : ℕ → ℕ → ℕ → (∀ i, A i) → Option ((∀ i, A i) × ℕ)
  | 0, _, s, acc => some (acc, s)
  | f + 1, i, s, acc => (des i b (p + s)).bind fun r => prodDesLoop b p f (i + 1) (s + r.2) (Function.update acc i r.1)

/-- `ap_reducedproduct_deserialize_raw`: apron/ap_reducedproduct.c:314-332; `u` is the content of the fresh
array of components -/
def prodDes (n : ℕ) (u : ∀ i, A i) (b : Buf) (p : ℕ) : Option ((∀ i, A i) × ℕ) := prodDesLoop des b p n 0 0 u

end prod

end Apron.Ser
