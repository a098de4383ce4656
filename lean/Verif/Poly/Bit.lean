import Verif.Poly.Minimize

/-!
# Bitstrings and saturation matrices: model of `newpolka/pk_bit.c` and `newpolka/pk_satmat.c`

* a bitstring is a list of machine words of `w` bits (`unsigned int`), `w > 0` is any size;
* `none` stands for undefined behaviour: an access outside of an array, or a failed assertion;
* the rows a matrix allocates without initialising them are given by the parameter `junk`;
* the memory that is lost in `satmat_resize_rows` and the printing functions are not modelled; an `int` or a
  `size_t` does not overflow.
-/

set_option autoImplicit false
set_option linter.unusedSectionVars false
set_option linter.ambiguousOpen false

namespace Apron
namespace Poly

/-- `bitindex_t`: pk_bit.h:30-34 -/
structure BitIndex (w : ℕ) where
  index : ℕ
  word : ℕ
  bit : BitVec w
  deriving DecidableEq

/-- `bitstring_t*`: pk_bit.h:29, with the size of the array -/
abbrev BitStr (w : ℕ) := List (BitVec w)

variable {w : ℕ}

/-- `bitstring_msb`: pk_bit.h:37 -/
def msb (w : ℕ) : BitVec w := 1#w <<< (w - 1)

namespace BitIndex

/-- `bitindex_init`: pk_bit.c:45-52 -/
def init (col : ℕ) : BitIndex w := ⟨col, col / w, msb w >>> (col % w)⟩

/-- `bitindex_inc`: pk_bit.c:54-61 -/
def inc (b : BitIndex w) : BitIndex w :=
  if b.bit >>> 1 = 0 then ⟨b.index + 1, b.word + 1, msb w⟩ else ⟨b.index + 1, b.word, b.bit >>> 1⟩

/-- `bitindex_dec`: pk_bit.c:62-71 -/
def dec (b : BitIndex w) : BitIndex w :=
  if b.bit ≠ msb w then ⟨b.index - 1, b.word, b.bit <<< 1⟩ else ⟨b.index - 1, b.word - 1, 1#w⟩

/-- `bitindex_size`: pk_bit.c:73-77 -/
def size (w n : ℕ) : ℕ := if n % w ≠ 0 then n / w + 1 else n / w

end BitIndex

namespace BitStr

/-- `bitstring_get`: pk_bit.c:147-149 -/
def get (b : BitStr w) (ix : BitIndex w) : Option (BitVec w) := b[ix.word]?.map fun x => x &&& ix.bit

/-- `bitstring_set`: pk_bit.c:151-153 -/
def set (b : BitStr w) (ix : BitIndex w) : Option (BitStr w) :=
  if ix.word < b.length then some (b.modify ix.word fun x => x ||| ix.bit) else none

/-- `bitstring_clr`: pk_bit.c:155-157 -/
def clr (b : BitStr w) (ix : BitIndex w) : Option (BitStr w) :=
  if ix.word < b.length then some (b.modify ix.word fun x => x &&& ~~~ix.bit) else none

/-- `bitstring_clear`: pk_bit.c:104-107 -/
def clear (b : BitStr w) (size : ℕ) : Option (BitStr w) :=
  if size ≤ b.length then some (List.replicate size 0 ++ b.drop size) else none

/-- `bitstring_copy`: pk_bit.c:109-112 -/
def copy (b2 b1 : BitStr w) (size : ℕ) : Option (BitStr w) :=
  if size ≤ b1.length ∧ size ≤ b2.length then some (b1.take size ++ b2.drop size) else none

/-- `bitstring_cmp`: pk_bit.c:134-142 -/
def cmp : ℕ → BitStr w → BitStr w → Option ℤ
  | 0, _, _ => some 0
  | n + 1, a :: r1, b :: r2 => if a < b then some (-1) else if b < a then some 1 else cmp n r1 r2
  | _ + 1, _, _ => none

/-- the union of two rows on the words up to `k.word`, and zero after: pk_cherni.c:303-311, 342-348 -/
def union (b1 b2 : BitStr w) (k : BitIndex w) (satnbcols : ℕ) : BitStr w :=
  (List.range satnbcols).map fun i => if i ≤ k.word then b1.getD i 0 ||| b2.getD i 0 else 0

/-- the number of zero bits of a word for the masks from `m` on; `n` is the number of masks:
pk_cherni.c:307-308, 312-314, 533-534, 536-537 -/
def countMask (x : BitVec w) : ℕ → BitVec w → ℕ
  | 0, _ => 0
  | n + 1, m => (if x &&& m = 0 then 1 else 0) + countMask x n (m >>> 1)

/-- the number of zero bits before `k`: pk_cherni.c:302-314, 531-537; the loop on the masks of the last word goes
from the most significant bit to `k.bit`, `k.index % w` masks -/
def countZero (b : BitStr w) (k : BitIndex w) : Option ℕ :=
  if k.word ≤ b.length ∧ (k.bit ≠ msb w → k.word < b.length) then
    some (((List.range k.word).map fun i => countMask (b.getD i 0) w (msb w)).sum +
      countMask (b.getD k.word 0) (k.index % w) (msb w))
  else none

/-- no bit of `b` outside of `m`, on `n` words: pk_cherni.c:320-326 (`n` is `k.word + 1`), 590-595 -/
def included (b m : BitStr w) (n : ℕ) : Bool :=
  (List.range n).all fun i => decide (b.getD i 0 &&& ~~~(m.getD i 0) = 0)

end BitStr

/-- `satmat_t`: pk_satmat.h:28-35; `_maxrows` is the length of `p` -/
structure SatMat (w : ℕ) where
  p : List (BitStr w)
  nbrows : ℕ
  nbcolumns : ℕ
  deriving DecidableEq

namespace SatMat

/-- `satmat_alloc`: pk_satmat.c:33-47 -/
def alloc (nbrows nbcols : ℕ) : SatMat w :=
  ⟨List.replicate nbrows (List.replicate nbcols 0), nbrows, nbcols⟩

/-- `satmat_clear`: pk_satmat.c:24-30 -/
def clear (s : SatMat w) : SatMat w :=
  { s with p := (s.p.take s.nbrows).map (fun _ => List.replicate s.nbcolumns 0) ++ s.p.drop s.nbrows }

/-- `satmat_resize_rows`: pk_satmat.c:62-80; when the matrix grows, the rows from `nbrows` on are allocated anew -/
def resizeRows (junk : ℕ → BitStr w) (s : SatMat w) (n : ℕ) : SatMat w :=
  if s.p.length < n then
    ⟨s.p.take s.nbrows ++ (List.range (n - s.nbrows)).map fun i => junk i, n, s.nbcolumns⟩
  else ⟨s.p.take n, n, s.nbcolumns⟩

/-- `satmat_resize_cols`: pk_satmat.c:83-96 -/
def resizeCols (s : SatMat w) (n : ℕ) : SatMat w :=
  if n ≠ s.nbcolumns then
    ⟨s.p.map fun r => r.take n ++ List.replicate (n - s.nbcolumns) 0, s.nbrows, n⟩
  else s

/-- `satmat_copy_resize_cols`: pk_satmat.c:100-115 -/
def copyResizeCols (s : SatMat w) (n : ℕ) : Option (SatMat w) :=
  if s.nbcolumns ≤ n then
    some ⟨(s.p.take s.nbrows).map fun r => r.take s.nbcolumns ++ List.replicate (n - s.nbcolumns) 0, s.nbrows, n⟩
  else none

/-- `satmat_copy`: pk_satmat.c:119-129 -/
def copy (s : SatMat w) : SatMat w :=
  ⟨(s.p.take s.nbrows).map fun r => r.take s.nbcolumns, s.nbrows, s.nbcolumns⟩

/-- `satmat_get`: pk_satmat.c:155-157 -/
def get (s : SatMat w) (i : ℕ) (jx : BitIndex w) : Option (BitVec w) := s.p[i]?.bind fun r => r.get jx

/-- `satmat_set`: pk_satmat.c:158-160 -/
def set (s : SatMat w) (i : ℕ) (jx : BitIndex w) : Option (SatMat w) :=
  s.p[i]?.bind fun r => (r.set jx).map fun r => { s with p := s.p.set i r }

/-- `satmat_clr`: pk_satmat.c:161-163 -/
def clr (s : SatMat w) (i : ℕ) (jx : BitIndex w) : Option (SatMat w) :=
  s.p[i]?.bind fun r => (r.clr jx).map fun r => { s with p := s.p.set i r }

/-- the inner loop of `satmat_transpose`, `n` columns from `j` on: pk_satmat.c:181-183 -/
def transposeCols (org : SatMat w) (i : BitIndex w) : ℕ → BitIndex w → SatMat w → Option (SatMat w)
  | 0, _, d => some d
  | n + 1, j, d => (org.get i.index j).bind fun b =>
    (if b ≠ 0 then d.set j.index i else some d).bind fun d => transposeCols org i n j.inc d

/-- the outer loop of `satmat_transpose`, `n` rows from `i` on: pk_satmat.c:180-184 -/
def transposeRows (org : SatMat w) (nbcols : ℕ) : ℕ → BitIndex w → SatMat w → Option (SatMat w)
  | 0, _, d => some d
  | n + 1, i, d => (transposeCols org i nbcols (.init 0) d).bind fun d => transposeRows org nbcols n i.inc d

/-- `satmat_transpose`: pk_satmat.c:175-186 -/
def transpose (org : SatMat w) (nbcols : ℕ) : Option (SatMat w) :=
  transposeRows org nbcols org.nbrows (.init 0) (alloc nbcols (BitIndex.size w org.nbrows))

/-- `satmat_exch_rows`: pk_satmat.c:189-194 -/
def exchRows (s : SatMat w) (l1 l2 : ℕ) : Option (SatMat w) :=
  s.p[l1]?.bind fun r1 => s.p[l2]?.map fun r2 => { s with p := (s.p.set l1 r2).set l2 r1 }

/-- the loop of `satmat_move_rows` upwards, with `n` rows left to move, the last one first:
pk_satmat.c:203-205 -/
def moveUp (destrow orgrow : ℕ) : ℕ → SatMat w → Option (SatMat w)
  | 0, s => some s
  | n + 1, s => (s.exchRows (destrow + n) (orgrow + n)).bind (moveUp destrow orgrow n)

/-- the loop of `satmat_move_rows` downwards: pk_satmat.c:208-210 -/
def moveDown : ℕ → ℕ → ℕ → SatMat w → Option (SatMat w)
  | _, _, 0, s => some s
  | destrow, orgrow, n + 1, s => (s.exchRows destrow orgrow).bind (moveDown (destrow + 1) (orgrow + 1) n)

/-- `satmat_move_rows`: pk_satmat.c:196-212 -/
def moveRows (s : SatMat w) (destrow orgrow size : ℕ) : Option (SatMat w) :=
  if orgrow < destrow then
    if destrow + size ≤ s.p.length then moveUp destrow orgrow size s else none
  else if orgrow + size ≤ s.p.length then moveDown destrow orgrow size s else none

end SatMat
end Poly
end Apron
