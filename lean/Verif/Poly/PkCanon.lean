import Verif.Poly.PkDefs

/-!
# Polyhedra (newpolka): normal form, equality test, unconstrained dimensions

Sources: `newpolka/pk_representation.c`, `newpolka/pk_test.c`.  The conventions are those of `PkDefs`; in particular
`poly_chernikova2` is `poly_chernikova`, since strict constraints are excluded.
-/

set_option autoImplicit false
set_option linter.unusedSectionVars false

namespace Apron.Poly

/-- `cherni_gauss` on the first `nb` rows, then `cherni_backsubstitute` on all the rows; the saturation rows do not move -/
def gaussRows (nbcols nb : ℕ) (C : List SRow) : List SRow :=
  let g := gauss nbcols (nbcols - 1) [] ((C.take nb).map SRow.row) []
  List.zipWith SRow.mk (backsubstitute nbcols g.2.2 g.1.length (g.1 ++ g.2.1 ++ (C.drop nb).map SRow.row)) (C.map SRow.sat)

namespace Full

/-- the elimination on the constraints (`pk_representation.c:264-269`) -/
def gaussC (n : ℕ) (f : Full) : Full :=
  if f.consgauss then f else { f with C := gaussRows (n + 2) f.nbeq f.C, sortedC := false }

/-- the elimination on the generators (`pk_representation.c:270-275`) -/
def gaussF (n : ℕ) (f : Full) : Full :=
  if f.gengauss then f else { f with F := gaussRows (n + 2) f.nbline f.F, sortedF := false }

/-- `poly_obtain_sorted_C` (`pk_representation.c:313-331`): the rows are sorted with those of `satF`; `satC` is freed, and
obtained again by transposition when it is needed -/
def sortC (n : ℕ) (f : Full) : Full :=
  if f.sortedC then f
  else
    let C := sortSRows (n + 2) f.C
    { f with
      C := C
      F := ((f.F.take f.nbline).map fun x => ⟨x.row, 0⟩) ++
        resat f.nbeq (C.drop f.nbeq) ((f.F.drop f.nbline).map SRow.row) f.nbline
      sortedC := true }

/-- `poly_obtain_sorted_F` (`pk_representation.c:293-311`) -/
def sortF (n : ℕ) (f : Full) : Full := (f.dual.sortC n).dual

/-- the normal form of minimal matrices (`pk_representation.c:262-281`) -/
def canon (n : ℕ) (f : Full) : Full :=
  { (((f.gaussC n).gaussF n).sortC n).sortF n with consgauss := true, gengauss := true }

end Full

namespace Rep

/-- `poly_chernikova3` (`pk_representation.c:254-291`) -/
def chernikova3 (n : ℕ) (r : Rep) : Rep :=
  match r.chernikova n with
  | both f => both (f.canon n)
  | r => r

/-- `pk_canonicalize` (`pk_representation.c:341-360`) -/
def canonicalize (n : ℕ) (alg : ℤ) (r : Rep) : Rep := if 0 ≤ alg then r.chernikova3 n else r.chernikova n

/-- `pk_minimize` (`pk_representation.c:386-418`): the smaller matrix is kept -/
def minimize (n : ℕ) (r : Rep) : Rep :=
  match r.chernikova n with
  | both f => if f.C.length > f.F.length then gens f.frows else cons f.crows
  | r => r

/-- `pk_is_canonical` (`pk_representation.c:434-447`) -/
def isCanonical : Rep → Bool
  | bot => true
  | both f => f.sortedC && f.sortedF && f.consgauss && f.gengauss
  | _ => false

/-- `pk_is_dimension_unconstrained` (`pk_test.c:470-505`) -/
def isDimUnconstrained (n : ℕ) (r : Rep) (dim : ℕ) : Bool :=
  match r.chernikova3 n with
  | both f =>
    match f.lines.find? fun l => l.at' (2 + dim) ≠ 0 with
    | none => false
    | some l => (List.range n).all fun j => decide (j = dim) || l.at' (2 + j) == 0
  | _ => false

/-- `pk_matrix_equal` (`pk_matrix.c`): same size, same rows -/
def matrixEqual (size : ℕ) (A B : List Row) : Bool :=
  A.length == B.length && (List.zipWith (fun a b => (List.range size).all fun j => a.at' j == b.at' j) A B).all id

/-- the first test of `pk_is_eq` (`pk_test.c:212-215`) -/
def eqDiff : Rep → Rep → Bool
  | both fa, both fb => fa.nbeq != fb.nbeq || fa.nbline != fb.nbline
  | _, _ => false

/-- the comparison of two canonical polyhedra (`pk_test.c:230-235`); the assertion that follows, compiled out with `NDEBUG`,
compares the result with two inclusion tests -/
def eqCanonical (n : ℕ) : Rep → Rep → Bool
  | both fa, both fb =>
    fa.C.length == fb.C.length && (fa.F.length == fb.F.length &&
      if fa.C.length ≤ fa.F.length then matrixEqual (n + 2) fa.crows fb.crows else matrixEqual (n + 2) fa.frows fb.frows)
  | bot, bot => true
  | _, _ => false

/-- the second part of `pk_is_eq` (`pk_test.c:229-241`) -/
def eqTest (n : ℕ) (leqAlg : ℤ) (pa pb : Rep) : Bool :=
  if pa.isCanonical && pb.isCanonical then eqCanonical n pa pb
  else pa.isLeq n leqAlg pb && pb.isLeq n leqAlg pa

/-- `pk_is_eq` (`pk_test.c:206-241`); `leqAlg` is the option `algorithm` of `pk_is_leq`, which the manager gives to
every function called -/
def isEq (n : ℕ) (alg leqAlg : ℤ) (pa pb : Rep) : Bool :=
  if eqDiff pa pb then false
  else eqTest n leqAlg (if 0 < alg then pa.chernikova3 n else pa) (if 0 < alg then pb.chernikova3 n else pb)

end Rep

end Apron.Poly
