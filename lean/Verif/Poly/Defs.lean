import Mathlib.Data.Int.GCD
import Mathlib.Algebra.BigOperators.Group.List.Basic
import Mathlib.Data.Nat.Bitwise

/-!
# Vectors, matrices and Chernikova's algorithm (newpolka)

Sources: `newpolka/pk_vector.c`, `newpolka/pk_matrix.c`, `newpolka/pk_cherni.c`.

Simplifications.
* Coefficients are GMP integers (`numint_t` of the MPQ/MPZ builds), so there is no overflow, and the
  limits `max_coeff_size` and `max_object_size` are 0 (their default): the exceptions of the algorithm are
  not modelled.
* A row is a list of integers read with default 0; column 0 is the status column, used as scratch storage by
  the conversion exactly as in the code.
* A row of a saturation matrix is a natural number, bit `b` being column `b`; the machine words
  (`bitindex_t`) are in `Poly/Bit.lean`, and C145 relates them to these numbers.  A ray and its saturation row, which the code always exchanges together, form
  one `SRow`.
* Arrays of rows with their boundary indices are written as lists of segments, in the order of the array.
-/

set_option autoImplicit false
set_option linter.unusedSectionVars false

namespace Apron.Poly

/-- a row of `pk_matrix_t` (`pk_matrix.h`): an array of `numint_t` -/
abbrev Row := List ℤ

namespace Row

/-- `q[j]` -/
def at' (q : Row) (j : ℕ) : ℤ := q.getD j 0

/-- the row of size `n` with coefficients `f` -/
def ofFun (n : ℕ) (f : ℕ → ℤ) : Row := (List.range n).map f

/-- `q[0] = v` -/
def setStatus (q : Row) (v : ℤ) : Row := v :: q.tail

/-- negation of all the coefficients, including the status column (`pk_cherni.c:228-232`) -/
def neg (q : Row) : Row := q.map (fun a => -a)

end Row

/-! ## pk_vector.c -/

/-- `vector_min_notzero` (`pk_vector.c:111-144`): the first smallest non-zero value and its index, `none` if
all are zero -/
def minNotZero : List ℕ → Option (ℕ × ℕ)
  | [] => none
  | a :: v =>
    match minNotZero v with
    | none => if a = 0 then none else some (a, 0)
    | some (m, i) => if a ≠ 0 ∧ a ≤ m then some (a, 0) else some (m, i + 1)

/-- the `do … while` loop of `vector_gcd` (`pk_vector.c:157-174`); the fuel is an upper bound of the number of
iterations -/
def gcdLoop : ℕ → List ℕ → ℕ
  | 0, _ => 0
  | n + 1, v =>
    match minNotZero v with
    | none => 0
    | some (g, index) =>
      let v' := v.mapIdx fun i a => if i ≠ index then a % g else a
      if (v'.eraseIdx index).any (fun a => a ≠ 0) then gcdLoop n v' else g

/-- `vector_gcd` (`pk_vector.c:149-177`) -/
def vectorGcd (q : List ℤ) : ℕ :=
  let v := q.map Int.natAbs
  gcdLoop (v.sum + 1) v

/-- `vector_normalize` (`pk_vector.c:182-203`): the columns from 1 on are divided by their gcd -/
def normalize (q : Row) (size : ℕ) : Row :=
  let g := vectorGcd ((List.range (size - 1)).map fun j => q.at' (j + 1))
  if 1 < g then Row.ofFun size fun j => if j = 0 then q.at' 0 else q.at' j / g else q

/-- `vector_combine` (`pk_vector.c:374-408`); `q3` is the previous content of the destination, whose status
column is kept when `k ≠ 0` -/
def vectorCombine (q1 q2 q3 : Row) (k size : ℕ) : Row :=
  let g := Int.gcd (q1.at' k) (q2.at' k)
  let t1 := q1.at' k / g
  let t2 := q2.at' k / g
  normalize (Row.ofFun size fun j =>
    if j = k then 0 else if j = 0 then q3.at' 0 else t2 * q1.at' j - t1 * q2.at' j) size

/-- `vector_product` (`pk_vector.c:412-424`): the status columns are ignored; the argument is the number of
columns without the status column -/
def vprod (d : ℕ) (q1 q2 : Row) : ℤ := ((List.range d).map fun j => q1.at' (j + 1) * q2.at' (j + 1)).sum

/-! ## Exchange of rows -/

/-- the effect of `pk_matrix_exch_rows(i, last)` followed by the removal of the last row, on the rows that
follow row `i` -/
def moveLast {α : Type*} (l : List α) : List α :=
  match l.getLast? with
  | none => []
  | some z => z :: l.dropLast

/-- rotation by one position -/
def rot {α : Type*} : List α → List α
  | [] => []
  | a :: l => l ++ [a]

/-! ## cherni_conversion -/

/-- a generator and its row of the saturation matrix: bit `b` is set when constraint `b` is not saturated -/
structure SRow where
  row : Row
  sat : ℕ
  deriving DecidableEq

/-- number of zero bits among the first `k` (`pk_cherni.c:303-314`) -/
def zeroBits (k m : ℕ) : ℕ := (List.range k).countP fun b => !m.testBit b

/-- the sort of the rays (`pk_cherni.c:257-284`): the array is `E ++ P ++ U ++ N` where `U` is not yet
scanned; the fuel is the number of rays -/
def partition3 : ℕ → List SRow → List SRow → List SRow → List SRow → List SRow × List SRow × List SRow
  | 0, E, P, _, N => (E, P, N)
  | _ + 1, E, P, [], N => (E, P, N)
  | n + 1, E, P, u :: U, N =>
    if u.row.at' 0 = 0 then partition3 n (E ++ [u]) (rot P) U N
    else if u.row.at' 0 < 0 then partition3 n E P (moveLast U) (u :: N)
    else partition3 n E (P ++ [u]) U N

/-- the adjacency test (`pk_cherni.c:300-334`): `m` is the union of the saturation rows of the pair, `others`
the other rays.  `nbcols-3` is computed in `size_t`, so the test fails when it wraps. -/
def adjacent (nbcols nbline k m : ℕ) (others : List SRow) : Bool :=
  decide (3 ≤ nbcols ∧ nbcols ≤ zeroBits k m + nbline + 3) && !(others.any fun z => z.sat ||| m == m)

/-- the new rays, combinations of adjacent pairs (`pk_cherni.c:296-352`) -/
def combos (nbcols nbline k : ℕ) (E P N : List SRow) : List SRow :=
  P.zipIdx.flatMap fun x => N.zipIdx.filterMap fun y =>
    if adjacent nbcols nbline k (x.1.sat ||| y.1.sat) (E ++ P.eraseIdx x.2 ++ N.eraseIdx y.2) then
      some ⟨vectorCombine y.1.row x.1.row [] 0 nbcols, x.1.sat ||| y.1.sat⟩
    else none

/-- removal of the rays `kept..bound` by exchange with the added ones (`pk_cherni.c:354-376`); `b` is the
number of removed rays, `A` the added ones -/
def replaceTail (kept A : List SRow) (b : ℕ) : List SRow :=
  kept ++ (A.reverse.take b ++ A.take (A.length - b))

/-- state of the conversion: `con` is `done ++ todo`, `ray` is `lines ++ rays` -/
structure Conv where
  done : List Row
  todo : List Row
  lines : List Row
  rays : List SRow
  deriving DecidableEq

/-- computation of the products in the status columns (`pk_cherni.c:202-208`) -/
def products (d : ℕ) (c : Row) (s : Conv) : Conv :=
  { s with lines := s.lines.map fun q => q.setStatus (vprod d q c)
           rays := s.rays.map fun x => { x with row := x.row.setStatus (vprod d x.row c) } }

/-- a row is made to saturate the constraint using the removed line -/
def elim (nbcols : ℕ) (l0 q : Row) : Row :=
  if q.at' 0 ≠ 0 then vectorCombine q l0 q 0 nbcols else q

/-- the case of a line that does not saturate the constraint (`pk_cherni.c:210-253`) -/
def lineStep (nbcols : ℕ) (c : Row) (rest : List Row) (s : Conv) (before : List Row) (l0 : Row) (after : List Row) :
    Conv :=
  let lines := (before ++ moveLast after).map (elim nbcols l0)
  let l1 := if l0.at' 0 < 0 then l0.neg else l0
  let rays := s.rays.map fun x => { x with row := elim nbcols l1 x.row }
  { done := s.done ++ [c]
    todo := rest
    lines := lines
    rays := if c.at' 0 ≠ 0 then ⟨l1, 1 <<< s.done.length⟩ :: rays else moveLast rays }

/-- the case where all the lines saturate the constraint (`pk_cherni.c:255-380`) -/
def rayStep (nbcols : ℕ) (c : Row) (rest : List Row) (s : Conv) : Conv :=
  let k := s.done.length
  let p := partition3 s.rays.length [] [] s.rays []
  let E := p.1
  let P := p.2.1
  let N := p.2.2
  if c.at' 0 ≠ 0 ∧ N = [] then
    -- redundant inequality
    { s with todo := moveLast rest, rays := E ++ P }
  else
    let rays :=
      if E = [] ∧ P = [] then []
      else
        let A := combos nbcols s.lines.length k E P N
        if c.at' 0 ≠ 0 then
          replaceTail (E ++ P.map fun x => { x with sat := x.sat ||| 1 <<< k }) A N.length
        else
          replaceTail E A (P.length + N.length)
    { s with done := s.done ++ [c], todo := rest, rays := rays }

/-- treatment of one constraint `c` followed by the constraints `rest` (`pk_cherni.c:189-380`) -/
def convStep (nbcols : ℕ) (c : Row) (rest : List Row) (s : Conv) : Conv :=
  let s := products (nbcols - 1) c s
  match s.lines.dropWhile (fun q => q.at' 0 == 0) with
  | l0 :: after => lineStep nbcols c rest s (s.lines.takeWhile fun q => q.at' 0 == 0) l0 after
  | [] => rayStep nbcols c rest s

/-- the main loop; the fuel is the number of constraints to treat -/
def convLoop (nbcols : ℕ) : ℕ → Conv → Conv
  | 0, s => s
  | n + 1, s =>
    match s.todo with
    | [] => s
    | c :: rest => convLoop nbcols n (convStep nbcols c rest s)

/-- `cherni_conversion` (`pk_cherni.c:160-399`) with `start = done.length` and `nbline = lines.length`; the
status columns are set at the end (`pk_cherni.c:381-389`) -/
def conversion (nbcols : ℕ) (s : Conv) : Conv :=
  let s := convLoop nbcols s.todo.length s
  { s with lines := s.lines.map fun q => q.setStatus 0
           rays := s.rays.map fun x => { x with row := x.row.setStatus 1 } }

/-- the unit row of `cherni_minimize` (`pk_cherni.c:684-689`) -/
def unitRow (nbcols i : ℕ) : Row := Row.ofFun nbcols fun j => if j = i + 1 then 1 else 0

/-- the initial state of the conversion in `cherni_minimize` (`pk_cherni.c:681-692`) -/
def initConv (nbcols : ℕ) (C : List Row) : Conv :=
  { done := [], todo := C, lines := (List.range (nbcols - 1)).map (unitRow nbcols), rays := [] }

end Apron.Poly
