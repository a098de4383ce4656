import Verif.Poly.PkUser
import Verif.Poly.PkCanon

/-!
# Polyhedra: conversion to constraints and generators, hashing

Model of `pk_to_lincons_array`, `pk_to_generator_array` (`newpolka/pk_extract.c`), of the conversions of one row
(`newpolka/pk_user.c:527-590`), of the predicates on rows that they use and of `pk_hash` (`newpolka/pk_representation.c`), in the
non-strict mode.

Simplifications: those of `PkDefs`; `pk_hash` is computed on unbounded integers, the conversion `int_set_numint` of a coefficient
to a machine integer being a parameter.
-/

set_option autoImplicit false
set_option linter.unusedSectionVars false
set_option linter.ambiguousOpen false

namespace Apron.Poly

open Apron Bound

/-- the dense expression made by `ap_linexpr0_alloc(AP_LINEXPR_DENSE, n)` and filled with numbers -/
def denseExpr (n : ℕ) (c : ℚ) (f : ℕ → ℚ) : Linexpr ℚ :=
  ⟨.scalar (fin c), .dense ((List.range n).map fun d => .scalar (fin (f d)))⟩

/-- `lincons0_of_vector` (`pk_user.c:531-560`) -/
def linconsOfRow (n : ℕ) (q : Row) : Lincons ℚ :=
  ⟨if q.at' 0 ≠ 0 then .supeq else .eq, denseExpr n (q.at' 1) fun d => (q.at' (d + 2) : ℚ)⟩

/-- `generator0_of_vector` (`pk_user.c:563-600`) -/
def genOfRow (n : ℕ) (q : Row) : GenTyp × Linexpr ℚ :=
  (if q.at' 0 = 0 then .line else if q.at' 1 = 0 then .ray else .vertex,
    denseExpr n 0 fun d => if q.at' 1 ≠ 0 then (q.at' (d + 2) : ℚ) / q.at' 1 else q.at' (d + 2))

/-- `vector_is_dummy_constraint` (`pk_vector.c:525-557`); the result for a negative constant is that for a positive one -/
def isDummyCons (n : ℕ) (q : Row) : Bool :=
  decide (0 < q.at' 0) && (q.at' 1 != 0) && (List.range n).all fun d => q.at' (d + 2) == 0

/-- `pk_to_lincons_array` (`pk_extract.c:396-430`); `ap_lincons0_make_unsat` is the constraint `-1 >= 0` -/
def Rep.toLincons (n : ℕ) (r : Rep) : List (Lincons ℚ) :=
  match r.chernikova3 n with
  | .both f => (f.crows.filter fun q => !isDummyCons n q).map (linconsOfRow n)
  | _ => [⟨.supeq, ⟨.scalar (fin (-1)), .sparse []⟩⟩]

/-- `pk_to_generator_array` (`pk_extract.c:491-528`): `vector_is_dummy_or_strict_generator` (`pk_vector.c:560-572`) is false in the
non-strict mode -/
def Rep.toGenerators (n : ℕ) (r : Rep) : List (GenTyp × Linexpr ℚ) :=
  match r.chernikova3 n with
  | .both f => f.frows.map (genOfRow n)
  | _ => []

/-- the indices visited by `for (i=0; i<nb; i += s)` -/
def strided (nb s : ℕ) : List ℕ := (List.range nb).filter fun i => i % s == 0

/-- `vector_hash` (`pk_vector.c:591-603`) -/
def vectorHash (toInt : ℤ → ℤ) (n : ℕ) (q : Row) : ℤ :=
  (strided n ((n + 2) / 3)).foldl (fun res d => res * 3 + toInt (q.at' (d + 2))) (toInt (q.at' 1))

/-- one of the two loops of `pk_hash` -/
def hashRows (toInt : ℤ → ℤ) (n : ℕ) (rows : List Row) (res : ℤ) : ℤ :=
  (strided rows.length ((rows.length + 3) / 4)).foldl (fun res i => res * 3 + vectorHash toInt n (rows.getD i [])) res

/-- `pk_hash` (`pk_representation.c:361-381`) -/
def Rep.hash (toInt : ℤ → ℤ) (intdim realdim : ℕ) (r : Rep) : ℤ :=
  let n := intdim + realdim
  let res : ℤ := 5 * intdim + 7 * realdim
  match r.chernikova3 n with
  | .both f => hashRows toInt n f.frows (hashRows toInt n f.crows (res + (f.crows.length * 11 + f.frows.length * 13)))
  | _ => res

end Apron.Poly
