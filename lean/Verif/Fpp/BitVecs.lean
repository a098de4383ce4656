import Mathlib.Data.List.Basic
import Mathlib.Data.List.Range
import Mathlib.Logic.Function.Basic

/-!
# fppol: bit vectors and Kohler's rule

The bit vectors that record from which rows a row was combined (`fppol/bv.c`), and the removal of
the rows that Kohler's rule calls redundant.

Simplifications.
* A vector is the list of its bytes (`vchars` of them), each a `BitVec 8`; the sign of `char` plays
  no part since bits 0 to 7 only are looked at.
* `rrIndex` is a function; an access outside the arrays when there is no vector is `none`.
-/

set_option autoImplicit false
set_option linter.unusedSectionVars false
set_option linter.ambiguousOpen false

namespace Apron.Fpp

/-- A vector: its bytes. -/
abbrev BV := List (BitVec 8)

/-- `bv_or` (`fppol/bv.c:52-64`). -/
def bvOr (v w : BV) : BV := List.zipWith (· ||| ·) v w

/-- `bv_subset` (`fppol/bv.c:78-88`). -/
def bvSubset : BV → BV → Bool
  | a :: v, b :: w => if (a &&& b) ≠ a then false else bvSubset v w
  | _, _ => true

/-- `bv_andTest` (`fppol/bv.c:91-101`). -/
def bvAndTest : BV → BV → Bool
  | a :: v, b :: w => if (a &&& b) ≠ 0#8 then true else bvAndTest v w
  | _, _ => false

/-- The loop over the bits of a byte (`fppol/bv.c:126-129`). -/
def byteOnes : ℕ → BitVec 8 → ℕ
  | 0, _ => 0
  | j + 1, b => (if (b &&& 128#8) ≠ 0#8 then 1 else 0) + byteOnes j (b <<< 1)

/-- `bv_1bits` (`fppol/bv.c:117-133`). -/
def bvOnes : BV → ℕ
  | [] => 0
  | b :: v => (if b ≠ 0#8 then byteOnes 8 b else 0) + bvOnes v

/-- The vector of row `i` at the start (`fppol/fppol_domain.c:552-560`): `c` bytes. -/
def bvUnit (c i : ℕ) : BV :=
  (List.replicate c 0#8).set (i / 8) (if i % 8 = 0 then 1#8 else 1#8 <<< (i % 8))

/-- The inner loop of `bv_redundancy_removal_firstKs_byKohler` (`fppol/bv.c:166-178`). -/
def kohlerInner (v : ℕ → BV) (i : ℕ) : List ℕ → (ℕ → Bool) → ℕ → Bool
  | [], rr => rr
  | j :: js, rr =>
    if rr j = true then kohlerInner v i js rr
    else if bvSubset (v j) (v i) = true then Function.update rr i true
    else if bvSubset (v i) (v j) = true then kohlerInner v i js (Function.update rr j true)
    else kohlerInner v i js rr

/-- The outer loop (`fppol/bv.c:163-180`): `i--` after a removal makes the loop look at the same
`i` again and go on. -/
def kohlerOuter (v : ℕ → BV) (n : ℕ) : List ℕ → (ℕ → Bool) → ℕ → Bool
  | [], rr => rr
  | i :: is, rr =>
    if rr i = true then kohlerOuter v n is rr
    else kohlerOuter v n is (kohlerInner v i (List.range' (i + 1) (n - (i + 1))) rr)

/-- `bv_redundancy_removal_firstKs_byKohler` (`fppol/bv.c:139-219`): the indices of the rows that
are kept, in order; `none` when there is no vector, where `nvecs-1` wraps around and `rrIndex` is
read outside. -/
def kohler (v : ℕ → BV) (n : ℕ) : Option (List ℕ) :=
  if n = 0 then none
  else
    let rr := kohlerOuter v n (List.range (n - 1)) fun _ => false
    some ((List.range n).filter fun i => !rr i)

/-- The loop of `bv_redundancy_removal_byKohler_lazy` (`fppol/bv.c:237-261`): the first `z` rows are
those without the variable. -/
def kohlerLazyLoop (v : ℕ → BV) (n z e : ℕ) : List ℕ → (ℕ → Bool) → ℕ → Bool
  | [], rr => rr
  | i :: is, rr =>
    if e + 1 < bvOnes (v i) then
      if (List.range n).any (fun j => !(rr j || decide (j = i)) && bvSubset (v j) (v i)) then
        kohlerLazyLoop v n z e is (Function.update rr i true)
      else kohlerLazyLoop v n z e is rr
    else if (List.range z).any (fun j => bvSubset (v j) (v i)) then
      kohlerLazyLoop v n z e is (Function.update rr i true)
    else kohlerLazyLoop v n z e is rr

/-- `bv_redundancy_removal_byKohler_lazy` (`fppol/bv.c:225-287`): `e` variables are eliminated. -/
def kohlerLazy (v : ℕ → BV) (n z e : ℕ) : List ℕ :=
  let rr := kohlerLazyLoop v n z e (List.range' z (n - z)) fun _ => false
  List.range z ++ (List.range' z (n - z)).filter fun i => !rr i

end Apron.Fpp
