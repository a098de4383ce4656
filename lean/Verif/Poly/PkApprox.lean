import Verif.Poly.PkUser

/-!
# Polyhedra: `pk_approximate`

Model of `newpolka/pk_approximate.c`, of `vector_set_linexpr_bound` (`newpolka/pk_user.c:83-133`) and of `pk_matrix_bound_vector`
(`newpolka/pk_extract.c:98-165`), in the non-strict mode.

Simplifications: those of `PkDefs`; `pk_matrix_bound_vector` is only called with a vector whose status is 1, the division by this
status is not written; the flags of the result are not modelled.
-/

set_option autoImplicit false
set_option linter.unusedSectionVars false
set_option linter.ambiguousOpen false

namespace Apron.Poly

open Apron Bound ILincons

/-- `numint_size2` (`newpolka/pk_config.h:113-114`): `mpz_sizeinbase(a,2)`, the number of bits, 1 for zero -/
def size2 (a : ℤ) : ℕ := a.natAbs.log2 + 1

/-- an inequality with a coefficient of a dimension of more than `m` bits (`pk_approximate.c:92-95`, `pk_approximate.c:277-286`) -/
def tooBig (n m : ℕ) (q : Row) : Bool :=
  q.at' 0 != 0 && (List.range n).any fun d => decide (m < size2 (q.at' (d + 2)))

/-! ## -1: integer constraints -/

/-- the boolean returned by `vector_normalize_constraint_int` (`pk_vector.c:271-316`): `vector_normalize_constraint` returns false
in the non-strict mode, even if the row is divided -/
def normConsIntChange (n intdim : ℕ) (q : Row) : Bool :=
  decide (0 < intdim) && rowIsInt n intdim q && !rowIsPos n q &&
    decide (1 < vectorGcd ((List.range n).map fun d => q.at' (d + 2)))

/-- `poly_approximate_n1` (`pk_approximate.c:40-77`), called with `po == pa` -/
def Rep.approxN1 (n intdim : ℕ) (r : Rep) : Rep :=
  if intdim = 0 then r
  else
    let p := r.obtainC n
    match p.C? with
    | none => p
    | some C =>
      if C.any (normConsIntChange n intdim) then .cons (C.map (normConsInt n intdim) ++ [posRow n])
      else match p with
        | .cons C => .cons (C.map (normConsInt n intdim))
        | .both f => .both { f with C := f.C.map fun s => { s with row := normConsInt n intdim s.row } }
        | p => p

/-! ## 1, 2, 3: removal of constraints -/

/-- the loop of `pk_matrix_approximate_constraint_1` (`pk_approximate.c:90-105`): a removed row is replaced by the last one, which is
looked at next.  The first argument is fuel. -/
def removeLoop (p : Row → Bool) : ℕ → List Row → List Row → List Row
  | 0, done, rest => done ++ rest
  | _ + 1, done, [] => done
  | f + 1, done, q :: rest =>
    if p q then removeLoop p f done (match rest.getLast? with
      | none => []
      | some l => l :: rest.dropLast)
    else removeLoop p f (done ++ [q]) rest

/-- `pk_matrix_approximate_constraint_1` (`pk_approximate.c:84-113`): `none` without change -/
def approx1Rows (n m : ℕ) (C : List Row) : Option (List Row) :=
  if C.any (tooBig n m) then some (removeLoop (tooBig n m) C.length [] C ++ [posRow n]) else none

/-- `poly_approximate_1` (`pk_approximate.c:115-142`), called with `po == pa` -/
def Rep.approx1 (n m : ℕ) (r : Rep) : Rep :=
  let p := r.obtainC n
  match p.C? with
  | none => p
  | some C => match approx1Rows n m C with
    | none => p
    | some C' => .cons C'

/-- `pk_matrix_bound_vector` (`pk_extract.c:102-165`), for a vector of status 1 -/
def boundVec (n : ℕ) (vec : Row) (F : List Row) : Itv ℚ :=
  boundGens (fun q => ((vprod (n + 1) vec q : ℤ) : ℚ)) F ⟨ninf, ninf⟩

/-- `vector_set_linexpr_bound` (`pk_user.c:93-133`), without the integer treatment -/
def setLinexprBound (n : ℕ) (vec : Row) (b : ℚ) (mode : ℤ) : Row :=
  let v : ℕ → ℤ := fun j => if b.den ≠ 1 then vec.at' j * b.den else vec.at' j
  let cst := b.num * vec.at' 0
  Apron.Poly.normalize (Row.ofFun (n + 2) fun j =>
    if j = 0 then (if mode = 0 then 0 else 1)
    else if j = 1 then (if 0 ≤ mode then v 1 - cst else v 1 + cst)
    else (if 0 ≤ mode then -(v j) else v j)) (n + 2)

/-- the rows added for the bounding box (`pk_approximate.c:191-213`) -/
def boxPart (n : ℕ) (F : List Row) : List Row :=
  (List.range n).flatMap fun d =>
    let i := matBoundDim F d
    (if infty i.inf then [] else (setDimBound n 0 (-1) d (numref i.inf)).toList) ++
      (if infty i.sup then [] else (setDimBound n 0 1 d (numref i.sup)).toList)

/-- the vector of `x_i + s * x_j` -/
def octVec (n i j : ℕ) (s : ℤ) : Row :=
  Row.ofFun (n + 2) fun k => if k = 0 then 1 else if k = i + 2 then 1 else if k = j + 2 then s else 0

/-- the rows added for one octagonal expression (`pk_approximate.c:224-241`) -/
def octRows (n : ℕ) (F : List Row) (i j : ℕ) (s : ℤ) : List Row :=
  let v := octVec n i j s
  let itv := boundVec n v F
  (if infty itv.inf then [] else [setLinexprBound n v (numref itv.inf) (-1)]) ++
    (if infty itv.sup then [] else [setLinexprBound n v (numref itv.sup) 1])

/-- the rows added for the bounding octagon (`pk_approximate.c:215-248`) -/
def octPart (n : ℕ) (F : List Row) : List Row :=
  (List.range n).flatMap fun i => ((List.range n).filter fun j => i < j).flatMap fun j =>
    octRows n F i j (-1) ++ octRows n F i j 1

/-- `poly_approximate_123` (`pk_approximate.c:151-255`) -/
def Rep.approx123 (n m : ℕ) (alg : ℤ) (r : Rep) : Rep :=
  if alg = 1 then r.approx1 n m
  else
    let p := r.obtainC n
    match p.C? with
    | none => p
    | some C => match approx1Rows n m C with
      | none => p
      | some C' => match (p.obtainF n).F? with
        | none => .bot
        | some F => .cons (C' ++ (if 2 ≤ alg then boxPart n F else []) ++ (if 3 ≤ alg then octPart n F else []))

/-! ## 10, 11, 12: rounding of constraints -/

/-- the number of bits of the greatest coefficient (`pk_approximate.c:292-297`) -/
def maxSize (n : ℕ) (q : Row) : ℕ := (List.range n).foldl (fun s d => max s (size2 (q.at' (d + 2)))) 0

/-- `numint_tdiv_q_2exp` -/
def tdiv2 (a : ℤ) (s : ℕ) : ℤ := a.tdiv (2 ^ s)

/-- rounding away from zero (`pk_approximate.c:329-334`) -/
def odiv2 (a : ℤ) (s : ℕ) : ℤ := if 0 < a then -((-a) / 2 ^ s) else if a < 0 then a / 2 ^ s else a

/-- a row with the rounded coefficients, and the constant computed from the generators (`pk_approximate.c:304-319`,
`pk_approximate.c:336-350`): `none` without lower bound -/
def roundRow (n : ℕ) (F : List Row) (coef : ℕ → ℤ) : Option Row :=
  let vec := Row.ofFun (n + 2) fun j => if j = 0 then 1 else if j = 1 then 0 else coef (j - 2)
  let i := boundVec n vec F
  if infty i.inf then none
  else some (Apron.Poly.normalize (Row.ofFun (n + 2) fun j =>
    if j = 1 then -⌊-(numref i.inf)⌋ else vec.at' j) (n + 2))

/-- the row truncated towards zero -/
def innerRow (n m : ℕ) (F : List Row) (q : Row) : Option Row := roundRow n F fun d => tdiv2 (q.at' (d + 2)) (maxSize n q - m)

/-- the row rounded away from zero -/
def outerRow (n m : ℕ) (F : List Row) (q : Row) : Option Row := roundRow n F fun d => odiv2 (q.at' (d + 2)) (maxSize n q - m)

/-- the last element first -/
def rotate (l : List Row) : List Row := match l.getLast? with
  | none => []
  | some x => x :: l.dropLast

/-- the loop of `pk_matrix_approximate_constraint_1x` (`pk_approximate.c:274-359`): rows already looked at, rows to look at
(up to `nbrows`), rows added (up to `nbrows2`).  A removed row is exchanged with the last row to look at, then with the last added
one.  The first argument is fuel. -/
def roundLoop (n m : ℕ) (F : List Row) (fallback combine : Bool) : ℕ → List Row → List Row → List Row → List Row
  | 0, done, rest, extra => done ++ rest ++ extra
  | _ + 1, done, [], extra => done ++ extra
  | f + 1, done, q :: rest, extra =>
    if tooBig n m q then
      let inner := innerRow n m F q
      let extra := if inner.isNone then rotate extra else extra
      let extra := if combine || (inner.isNone && fallback) then extra ++ (outerRow n m F q).toList else extra
      match inner with
      | some q' => roundLoop n m F fallback combine f (done ++ [q']) rest extra
      | none => roundLoop n m F fallback combine f done (rotate rest) extra
    else roundLoop n m F fallback combine f (done ++ [q]) rest extra

/-- `pk_matrix_approximate_constraint_1x` (`pk_approximate.c:261-371`): `none` without change -/
def approx1xRows (n m : ℕ) (F : List Row) (fallback combine : Bool) (C : List Row) : Option (List Row) :=
  if C.any (tooBig n m) then some (roundLoop n m F fallback combine C.length [] C [] ++ [posRow n]) else none

/-- `poly_approximate_1x` (`pk_approximate.c:374-401`) -/
def Rep.approx1x (n m : ℕ) (fallback combine : Bool) (r : Rep) : Rep :=
  match r.chernikova n with
  | .both f => match approx1xRows n m f.frows fallback combine f.crows with
    | none => .both f
    | some C => .cons C
  | p => p

/-- `pk_approximate` (`pk_approximate.c:427-462`); `m` is `approximate_max_coeff_size` -/
def Rep.approximate (n intdim m : ℕ) (alg : ℤ) (r : Rep) : Rep :=
  if r = .bot then r
  else if alg = -1 then if 0 < intdim then r.approxN1 n intdim else r
  else if alg = 1 ∨ alg = 2 ∨ alg = 3 then if 0 < m then r.approx123 n m alg else r
  else if alg = 10 ∨ alg = 11 ∨ alg = 12 then
    if 0 < m then r.approx1x n m (decide (alg = 11)) (decide (alg = 12)) else r
  else r

end Apron.Poly
