import Mathlib.Data.Rat.Floor
import Mathlib.Data.Int.GCD
import Mathlib.Data.Nat.Find
import Mathlib.Tactic.Ring
import Mathlib.Tactic.Linarith
import Mathlib.Tactic.NormNum

/-!
# Native integers and rationals: model of `num/numint_native.h` and `num/numrat_native.h`

* A native integer is an integer; `M` is `NUMINT_MAX` and `-M-1` is `NUMINT_MIN`.
* `none` stands for undefined behaviour: a result of a signed operation outside of the range, a division by
  zero, `NUMINT_MIN / -1`, a shift by too much, a failed assertion.
* The left shift of a negative number is the multiplication that all compilers make of it; `&` with `2^c-1` is the
  remainder modulo `2^c` (two's complement); the right shift is arithmetic.
* An addition with an `unsigned long` is made modulo the number of values (`wrap`).
* `mpz_root` is the greatest integer whose power is not above (`iroot`).
* Functions write their result in an argument; here it is returned. The aliasing of arguments is not modelled.
* Square roots (computed with `double`) and conversions from and to `double` and `mpfr` are not modelled, except for
  the test `double_fits_numint`.
-/

set_option autoImplicit false
set_option linter.unusedSectionVars false
set_option linter.ambiguousOpen false

namespace Apron
namespace Native

variable (M : ℕ)

/-- representable in the type -/
def Fits (x : ℤ) : Prop := -(M : ℤ) - 1 ≤ x ∧ x ≤ M

instance (x : ℤ) : Decidable (Fits M x) := by unfold Fits; infer_instance

/-- the result of a signed operation -/
def chk (x : ℤ) : Option ℤ := if Fits M x then some x else none

/-- conversion to the type modulo the number of its values -/
def wrap (x : ℤ) : ℤ := (x + M + 1) % (2 * M + 2) - M - 1

/-! ## numint_native.h -/

/-- `numint_neg`: num/numint_native.h:84-85 -/
def neg (b : ℤ) : Option ℤ := chk M (-b)

/-- `numint_abs`: num/numint_native.h:86-91 -/
def abs (b : ℤ) : Option ℤ := chk M |b|

/-- `numint_add`: num/numint_native.h:92-93 -/
def add (b c : ℤ) : Option ℤ := chk M (b + c)

/-- `numint_add_uint`: num/numint_native.h:94-95 -/
def addUint (b : ℤ) (c : ℕ) : ℤ := wrap M (b + c)

/-- `numint_sub`: num/numint_native.h:96-97 -/
def sub (b c : ℤ) : Option ℤ := chk M (b - c)

/-- `numint_sub_uint`: num/numint_native.h:98-99 -/
def subUint (b : ℤ) (c : ℕ) : ℤ := wrap M (b - c)

/-- `numint_mul`: num/numint_native.h:100-101 -/
def mul (b c : ℤ) : Option ℤ := chk M (b * c)

/-- `numint_mul_2`: num/numint_native.h:102-103 -/
def mul2 (b : ℤ) : Option ℤ := chk M (b * 2)

/-- `/` of C, `numint_tdiv_q`: num/numint_native.h:105-106, `numint_divexact`: 221-222 -/
def tdivQ (a b : ℤ) : Option ℤ := if b = 0 then none else chk M (a.tdiv b)

/-- `%` of C, `numint_mod`: num/numint_native.h:223-224 -/
def trem (a b : ℤ) : Option ℤ := (tdivQ M a b).map fun _ => a.tmod b

/-- `numint_sgn`: num/numint_native.h:108-109 -/
def sgn (a : ℤ) : ℤ := if a = 0 then 0 else if a > 0 then 1 else -1

/-- `numint_fdiv_q`: num/numint_native.h:111-115 -/
def fdivQ (a b : ℤ) : Option ℤ :=
  if sgn a * sgn b < 0 then (trem M a b).bind fun r =>
    if r ≠ 0 then (tdivQ M a b).bind fun q => sub M q 1 else tdivQ M a b
  else tdivQ M a b

/-- `numint_cdiv_q`: num/numint_native.h:116-120 -/
def cdivQ (a b : ℤ) : Option ℤ :=
  if sgn a * sgn b > 0 then (trem M a b).bind fun r =>
    if r ≠ 0 then (tdivQ M a b).bind fun q => add M q 1 else tdivQ M a b
  else tdivQ M a b

/-- `numint_cdiv_qr`: num/numint_native.h:121-134 -/
def cdivQR (a b : ℤ) : Option (ℤ × ℤ) :=
  (tdivQ M a b).bind fun qq => (trem M a b).bind fun rr =>
    if sgn a * sgn b > 0 ∧ rr ≠ 0 then (add M qq 1).bind fun q => (sub M rr b).map fun r => (q, r)
    else some (qq, rr)

/-- `numint_cdiv_2`: num/numint_native.h:136-137 -/
def cdiv2 (b : ℤ) : Option ℤ := if b ≥ 0 then (add M b 1).bind fun x => tdivQ M x 2 else tdivQ M b 2

/-- `numint_cdiv_q_2exp`: num/numint_native.h:138-139 -/
def cdivQ2exp (b : ℤ) (c : ℕ) : Option ℤ :=
  if 2 ^ c ≤ M then add M (b / 2 ^ c) (if b % 2 ^ c ≠ 0 then 1 else 0) else none

/-- `numint_fdiv_q_2exp`: num/numint_native.h:140-141 -/
def fdivQ2exp (b : ℤ) (c : ℕ) : Option ℤ := if 2 ^ c ≤ M + 1 then some (b / 2 ^ c) else none

/-- `numint_tdiv_q_2exp`: num/numint_native.h:142-143 -/
def tdivQ2exp (b : ℤ) (c : ℕ) : Option ℤ := if b ≥ 0 then fdivQ2exp M b c else cdivQ2exp M b c

/-- `numint_mul_2exp`: num/numint_native.h:210-214 -/
def mul2exp (b c : ℤ) : Option ℤ :=
  if c ≥ 0 then (if 2 ^ c.toNat ≤ M + 1 then chk M (b * 2 ^ c.toNat) else none) else cdivQ2exp M b (-c).toNat

/-- the loop of `numint_pow`: num/numint_native.h:175-180; `some none` is the return value 1; `fuel` bounds the
number of iterations -/
def powGo (mul : ℤ → ℤ → Option ℤ) : ℕ → ℤ → ℤ → ℕ → Option (Option ℤ)
  | 0, _, _, _ => none
  | fuel + 1, r, f, n =>
    if n = 0 then some (some r)
    else (if n % 2 = 1 then mul r f else some r).bind fun r =>
      (mul f f).bind fun f => if f ≤ 0 then some none else powGo mul fuel r f (n / 2)

/-- `numint_pow`: num/numint_native.h:171-184, with a given multiplication -/
def powWith (mul : ℤ → ℤ → Option ℤ) (b : ℤ) (n : ℕ) : Option (Option ℤ) := powGo mul (n + 1) 1 b n

/-- `numint_pow`: num/numint_native.h:171-184 -/
def pow (b : ℤ) (n : ℕ) : Option (Option ℤ) := powWith (mul M) b n

/-- `mpz_root` on a natural number -/
def iroot (n a : ℕ) : ℕ := Nat.findGreatest (fun k => k ^ n ≤ a) a

/-- `numint_root`: num/numint_native.h:186-208, the pair `(up, down)` -/
def root (b : ℤ) (n : ℕ) : Option (ℤ × ℤ) :=
  if 0 < n ∧ (n % 2 = 1 ∨ b ≥ 0) then
    (if b ≥ 0 then some b else neg M b).map fun arg =>
      let r := iroot n arg.toNat
      if b ≥ 0 then (if r ^ n = arg.toNat then ((r : ℤ), (r : ℤ)) else ((r : ℤ) + 1, (r : ℤ)))
      else (if r ^ n = arg.toNat then (-(r : ℤ), -(r : ℤ)) else (-(r : ℤ), -(r : ℤ) - 1))
  else none

/-- `_gcd_aux2`: num/numint_native.h:225-234 -/
def gcdGo : ℕ → ℤ → ℤ → ℤ
  | 0, a, _ => a
  | fuel + 1, a, b => if b ≠ 0 ∧ a ≠ b then gcdGo fuel b (a.tmod b) else a

/-- `_gcd_aux`, `numint_gcd`: num/numint_native.h:235-242 -/
def gcd (a b : ℤ) : Option ℤ :=
  (abs M a).bind fun a => (abs M b).map fun b =>
    if a ≥ b then gcdGo (b.natAbs + 1) a b else gcdGo (a.natAbs + 1) b a

/-- `_lcm_aux`, `numint_lcm`: num/numint_native.h:244-251 -/
def lcm (a b : ℤ) : Option ℤ :=
  (abs M a).bind fun a => (abs M b).bind fun b => (gcd M a b).bind fun g => (tdivQ M a g).bind fun q => mul M q b

/-- `numint_cmp`: num/numint_native.h:257-258 -/
def cmp (a b : ℤ) : ℤ := if a = b then 0 else if a > b then 1 else -1

/-- `numint_set_int2`: num/numint_native.h:291-297 -/
def setInt2 (i j : ℤ) : Option (ℤ × Bool) :=
  if 0 < j then
    (if i ≥ 0 then (add M i j).bind fun x => (sub M x 1).bind fun x => tdivQ M x j else tdivQ M i j).bind fun a =>
      (trem M i j).map fun r => (a, decide (r = 0))
  else none

/-- `double_fits_numint`: num/numint_native.h:447-450, on a finite number; `up` and `lo` are the two limits
converted to `double` -/
def doubleFits (lo up : ℚ) (a : ℚ) : Bool := decide (lo ≤ a) && decide (a ≤ up)

/-! ## numrat_native.h -/

/-- `numrat_t`: num/numrat_native.h:33-36 -/
structure NRat where
  n : ℤ
  d : ℤ
  deriving DecidableEq, Repr

/-- `numrat_canonicalize`: num/numrat_native.h:42-53; the assertion is on an address and never fails; the gcd is
never -1 -/
def canon (r : NRat) : Option NRat :=
  (gcd M r.n r.d).bind fun g => if g = 0 then some r
    else (tdivQ M r.n g).bind fun n => (tdivQ M r.d g).map fun d => ⟨n, d⟩

namespace NRat

/-- `numrat_set_numint2`: num/numrat_native.h:57-63, `numrat_set_int2`: 339-346 (with the assertion `0 < c`) -/
def ofInt2 (b c : ℤ) : Option NRat := canon M ⟨b, c⟩

/-- `numrat_neg`: num/numrat_native.h:108-109 -/
def neg (b : NRat) : Option NRat := (Native.neg M b.n).map fun n => ⟨n, b.d⟩

/-- `numrat_inv`: num/numrat_native.h:110-119 -/
def inv (b : NRat) : Option NRat :=
  if b.n < 0 then (Native.neg M b.d).bind fun n => (Native.neg M b.n).map fun d => ⟨n, d⟩ else some ⟨b.d, b.n⟩

/-- `numrat_abs`: num/numrat_native.h:120-121 -/
def abs (b : NRat) : Option NRat := (Native.abs M b.n).map fun n => ⟨n, b.d⟩

/-- the two products with the common denominator: num/numrat_native.h:130-131, 150-151, 275-277 -/
def common (b c : NRat) : Option (ℤ × ℤ × ℤ) :=
  (lcm M b.d c.d).bind fun d => (tdivQ M d b.d).bind fun x => (mul M b.n x).bind fun bb =>
    (tdivQ M d c.d).bind fun y => (mul M y c.n).map fun cc => (d, bb, cc)

/-- `numrat_add`: num/numrat_native.h:122-135 -/
def add (b c : NRat) : Option NRat :=
  (common M b c).bind fun t => (Native.add M t.2.1 t.2.2).bind fun n => canon M ⟨n, t.1⟩

/-- `numrat_add_uint`: num/numrat_native.h:136-141 -/
def addUint (b : NRat) (c : ℕ) : Option NRat :=
  (mul M (wrap M c) b.d).bind fun x => (Native.add M b.n x).bind fun n => canon M ⟨n, b.d⟩

/-- `numrat_sub`: num/numrat_native.h:142-155 -/
def sub (b c : NRat) : Option NRat :=
  (common M b c).bind fun t => (Native.sub M t.2.1 t.2.2).bind fun n => canon M ⟨n, t.1⟩

/-- `numrat_sub_uint`: num/numrat_native.h:156-161 -/
def subUint (b : NRat) (c : ℕ) : Option NRat :=
  (mul M (wrap M c) b.d).bind fun x => (Native.sub M b.n x).bind fun n => canon M ⟨n, b.d⟩

/-- `numrat_mul`: num/numrat_native.h:162-167 -/
def mul (b c : NRat) : Option NRat :=
  (Native.mul M b.n c.n).bind fun n => (Native.mul M b.d c.d).bind fun d => canon M ⟨n, d⟩

/-- `numrat_mul_2`: num/numrat_native.h:168-178 -/
def mul2 (b : NRat) : Option NRat :=
  if b.d.tmod 2 = 0 then some ⟨b.n, b.d.tdiv 2⟩ else (Native.mul M b.n 2).map fun n => ⟨n, b.d⟩

/-- `numrat_div`: num/numrat_native.h:179-192 -/
def div (b c : NRat) : Option NRat :=
  (Native.mul M b.d c.n).bind fun d =>
    if d < 0 then (Native.neg M b.n).bind fun n => (Native.mul M n c.d).bind fun n =>
      (Native.neg M d).bind fun d => canon M ⟨n, d⟩
    else (Native.mul M b.n c.d).bind fun n => canon M ⟨n, d⟩

/-- `numrat_div_2`: num/numrat_native.h:193-203 -/
def div2 (b : NRat) : Option NRat :=
  if b.n.tmod 2 = 0 then some ⟨b.n.tdiv 2, b.d⟩ else (Native.mul M b.d 2).map fun d => ⟨b.n, d⟩

/-- `numrat_floor`: num/numrat_native.h:204-208 -/
def floor (b : NRat) : Option NRat := (fdivQ M b.n b.d).map fun n => ⟨n, 1⟩

/-- `numrat_ceil`: num/numrat_native.h:209-213 -/
def ceil (b : NRat) : Option NRat := (cdivQ M b.n b.d).map fun n => ⟨n, 1⟩

/-- `numrat_trunc`: num/numrat_native.h:214-218 -/
def trunc (b : NRat) : Option NRat := (tdivQ M b.n b.d).map fun n => ⟨n, 1⟩

/-- `numrat_pow`: num/numrat_native.h:232-238; `some none` is the return value 1 -/
def pow (b : NRat) (n : ℕ) : Option (Option NRat) :=
  (Native.pow M b.n n).bind fun x => match x with
    | none => some none
    | some x => (Native.pow M b.d n).bind fun y => match y with
      | none => some none
      | some y => (canon M ⟨x, y⟩).map some

/-- `numrat_root`: num/numrat_native.h:240-246, the pair `(up, down)` -/
def root (b : NRat) (n : ℕ) : Option (NRat × NRat) :=
  (Native.root M b.n n).bind fun p => (Native.root M b.d n).bind fun q =>
    (canon M ⟨p.1, q.2⟩).bind fun up => (canon M ⟨p.2, q.1⟩).map fun down => (up, down)

/-- `numrat_mul_2exp`: num/numrat_native.h:248-259 -/
def mul2exp (b : NRat) (c : ℤ) : Option NRat :=
  if c ≥ 0 then (if 2 ^ c.toNat ≤ M + 1 then chk M (b.n * 2 ^ c.toNat) else none).bind fun n => canon M ⟨n, b.d⟩
  else (if 2 ^ (-c).toNat ≤ M + 1 then chk M (b.d * 2 ^ (-c).toNat) else none).bind fun d => canon M ⟨b.n, d⟩

/-- `numrat_sgn`: num/numrat_native.h:265-266 -/
def sgn (a : NRat) : ℤ := Native.sgn a.n

/-- `numrat_cmp`: num/numrat_native.h:267-280 -/
def cmp (a b : NRat) : Option ℤ := (common M a b).map fun t => Native.cmp t.2.1 t.2.2

/-- `numrat_cmp_int`: num/numrat_native.h:281-287 -/
def cmpInt (a : NRat) (b : ℤ) : Option ℤ := (Native.mul M a.d b).map fun bb => Native.cmp a.n bb

/-- `numrat_equal`: num/numrat_native.h:288-289 -/
def equal (a b : NRat) : Bool := decide (a.n = b.n) && decide (a.d = b.d)

/-- `numrat_min`: num/numrat_native.h:291-292 -/
def min (b c : NRat) : Option NRat := (cmp M b c).map fun x => if x ≤ 0 then b else c

/-- `numrat_max`: num/numrat_native.h:293-294 -/
def max (b c : NRat) : Option NRat := (cmp M b c).map fun x => if x ≥ 0 then b else c

/-- `numrat_integer`: num/numrat_native.h:296-297 -/
def integer (a : NRat) : Bool := decide (a.d = 1)

/-- `numrat_fprint`: num/numrat_native.h:303-314 -/
def fprint (a : NRat) : String :=
  if a.n = 0 then "0" else if a.d = 1 then toString a.n else toString a.n ++ "/" ++ toString a.d

/-- `numrat_snprint`: num/numrat_native.h:319-332, in a buffer that is large enough -/
def snprint (a : NRat) : String :=
  if a.n = 0 then "0" else if a.d = 1 then toString a.n else toString a.n ++ "/" ++ toString a.n

/-- `int_set_numrat`: num/numrat_native.h:397-403 -/
def toInt (b : NRat) : Option (ℤ × Bool) := (cdivQR M b.n b.d).map fun t => (t.1, decide (t.2 = 0))

/-- `numrat_fits_int`: num/numrat_native.h:487-492, `L` is `LONG_MAX` -/
def fitsInt (L : ℕ) (a : NRat) : Option Bool := (cdivQ M a.n a.d).map fun b => decide (b ≤ (L : ℤ)) && decide (-(L : ℤ) ≤ b)

end NRat
end Native
end Apron
