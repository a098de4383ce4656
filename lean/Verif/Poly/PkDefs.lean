import Verif.Poly.MinOk
import Mathlib.Data.List.Sort

/-!
# Polyhedra (newpolka): representation, meet, join, inclusion

Sources: `newpolka/pk_representation.c`, `pk_representation.h`, `pk_constructor.c`, `pk_meetjoin.c`, `pk_test.c`,
`pk_matrix.c`.

Simplifications.
* The manager is in non-strict mode (`pk->strict = false`, `pk->dec = 2`): column 0 is the status, column 1 (`polka_cst`)
  the coefficient of the homogenising variable `ξ`, column `2 + i` that of dimension `i`.
* A function that converts or sorts its arguments in place returns its result only; the in-place conversions are the
  functions `chernikova` and `chernikova3`, which are modelled apart.
* The two saturation matrices, which the code computes from each other on demand and frees, are both present as soon as
  both matrices are: a row of `C` comes with its row of `satF`, a row of `F` with its row of `satC`.
* Sorting is written as an insertion sort: two rows that compare equal have the same coefficients, so every sort gives
  the same result.  A matrix flagged `_sorted` is sorted again, which does not change it.
* The options `algorithm` and `flag_exact_wanted` are parameters; the exceptions (`pk->exn`) are not modelled.
-/

set_option autoImplicit false
set_option linter.unusedSectionVars false

namespace Apron.Poly

/-! ## Sorting and merging rows (pk_vector.c, pk_matrix.c) -/

/-- the coefficients in the order of the comparison -/
def vkey (size : ℕ) (q : Row) : List ℤ := q.at' 0 :: ((List.range (size - 2)).map fun j => q.at' (j + 2)) ++ [q.at' 1]

/-- lexicographic comparison -/
def cmpList : List ℤ → List ℤ → Ordering
  | [], [] => .eq
  | [], _ :: _ => .lt
  | _ :: _, [] => .gt
  | a :: l, b :: m => if a < b then .lt else if b < a then .gt else cmpList l m

/-- `vector_compare` (`pk_vector.c:337-362`) -/
def vcmp (size : ℕ) (q1 q2 : Row) : Ordering := cmpList (vkey size q1) (vkey size q2)

/-- `pk_matrix_sort_rows` (`pk_matrix.c:288-299`) -/
def sortRows (size : ℕ) (C : List Row) : List Row := C.insertionSort fun a b => vcmp size a b ≠ .gt

/-- `pk_matrix_sort_rows_with_sat` (`pk_matrix.c:325-350`) -/
def sortSRows (size : ℕ) (C : List SRow) : List SRow := C.insertionSort fun a b => vcmp size a.row b.row ≠ .gt

/-- the loop of `pk_matrix_merge_sort` and `pk_matrix_merge_sort_with` (`pk_matrix.c:415-480, 486-545`); the fuel is the
number of rows -/
def mergeLoop (size : ℕ) : ℕ → List Row → List Row → List Row
  | 0, a, b => a ++ b
  | _ + 1, [], b => b
  | _ + 1, x :: a, [] => x :: a
  | n + 1, x :: a, y :: b =>
    match vcmp size x y with
    | .lt => x :: mergeLoop size n a (y :: b)
    | .eq => x :: mergeLoop size n a b
    | .gt => y :: mergeLoop size n (x :: a) b

/-- `pk_matrix_merge_sort` of two sorted matrices -/
def mergeRows (size : ℕ) (a b : List Row) : List Row := mergeLoop size (a.length + b.length) a b

/-! ## Representation -/

/-- both matrices, with the saturation matrices and the status bits (`pk_t`, `pk_internal.h`/`pk.h`) -/
structure Full where
  C : List SRow
  F : List SRow
  nbeq : ℕ
  nbline : ℕ
  consgauss : Bool := false
  gengauss : Bool := false
  sortedC : Bool := false
  sortedF : Bool := false
  deriving DecidableEq

namespace Full

/-- the equalities, the inequalities, the lines, the rays -/
def eqs (f : Full) : List Row := (f.C.take f.nbeq).map SRow.row
def ineqs (f : Full) : List SRow := f.C.drop f.nbeq
def lines (f : Full) : List Row := (f.F.take f.nbline).map SRow.row
def rays (f : Full) : List SRow := f.F.drop f.nbline

/-- the matrices `C` and `F` -/
def crows (f : Full) : List Row := f.C.map SRow.row
def frows (f : Full) : List Row := f.F.map SRow.row

/-- `poly_dual` (`pk_representation.h:138-146`): the status word is not changed -/
def dual (f : Full) : Full :=
  { f with C := f.F, F := f.C, nbeq := f.nbline, nbline := f.nbeq, sortedC := f.sortedF, sortedF := f.sortedC }

/-- the result of `cherni_minimize` or `cherni_add_and_minimize`, with `satC` obtained by transposition
(`poly_obtain_satC`, `pk_representation.h:129-136`) -/
def ofMin (m : MinRep) (consgauss gengauss : Bool) : Full :=
  { C := m.C
    F := ((m.F.take m.nbline).map fun q => ⟨q, 0⟩) ++ resat m.nbeq (m.C.drop m.nbeq) (m.F.drop m.nbline) m.nbline
    nbeq := m.nbeq, nbline := m.nbline, consgauss, gengauss }

end Full

/-- the matrices available in a `pk_t`: none (empty), `C`, `F`, both -/
inductive Rep
  | bot
  | cons (C : List Row)
  | gens (F : List Row)
  | both (f : Full)
  deriving DecidableEq

namespace Rep

/-- the matrix `C`, if available -/
def C? : Rep → Option (List Row)
  | cons C => some C
  | both f => some f.crows
  | _ => none

/-- the matrix `F`, if available -/
def F? : Rep → Option (List Row)
  | gens F => some F
  | both f => some f.frows
  | _ => none

/-- `poly_dual` -/
def dual : Rep → Rep
  | bot => bot
  | cons C => gens C
  | gens F => cons F
  | both f => both f.dual

/-- `poly_chernikova` (`pk_representation.c:154-192`) on polyhedra with `n` dimensions -/
def chernikova (n : ℕ) : Rep → Rep
  | cons C =>
    match minimize (n + 2) 2 true (sortRows (n + 2) C) with
    | none => bot
    | some m => both (.ofMin m true false)
  | gens F =>
    match minimize (n + 2) 2 false (sortRows (n + 2) F) with
    | none => bot
    | some m => both (Full.ofMin m false true).dual
  | r => r

/-- `poly_chernikova_dual` (`pk_representation.c:196-208`) -/
def chernikovaDual (n : ℕ) (usual : Bool) (r : Rep) : Rep :=
  if usual then chernikova n r else (chernikova n r.dual).dual

/-- `poly_obtain_C` (`pk_representation.h:114-117`) -/
def obtainC (n : ℕ) (r : Rep) : Rep := if r.C? = none then chernikova n r else r

/-- `poly_obtain_F` (`pk_representation.h:118-121`) -/
def obtainF (n : ℕ) (r : Rep) : Rep := if r.F? = none then chernikova n r else r

/-- `poly_obtain_C_dual` (`pk_representation.h:148-151`) -/
def obtainCDual (n : ℕ) (usual : Bool) (r : Rep) : Rep := if r.C? = none then chernikovaDual n usual r else r

/-- `poly_obtain_F_dual` (`pk_representation.h:152-155`) -/
def obtainFDual (n : ℕ) (usual : Bool) (r : Rep) : Rep := if r.F? = none then chernikovaDual n usual r else r

end Rep

/-! ## Constructors -/

/-- the row `ξ ≥ 0` (`pk_matrix_fill_constraint_top`, `pk_constructor.c:64-82`) -/
def posRow (n : ℕ) : Row := Row.ofFun (n + 2) fun j => if j ≤ 1 then 1 else 0

/-- `poly_set_top` (`pk_constructor.c:84-138`) -/
def Rep.top (n : ℕ) : Rep :=
  .both { C := [⟨posRow n, 1 <<< n⟩]
          F := ((List.range n).map fun i => ⟨Row.ofFun (n + 2) fun j => if j = 2 + n - 1 - i then 1 else 0, 0⟩) ++ [⟨posRow n, 1⟩]
          nbeq := 0, nbline := n, consgauss := true, gengauss := true, sortedC := true, sortedF := true }

/-! ## Tests -/

/-- `do_generators_sat_vector` (`pk_test.c:97-139`) -/
def genSatVector (n : ℕ) (F : List Row) (tab : Row) (strict : Bool) : Bool :=
  if tab.at' 0 = 0 then F.all fun f => vprod (n + 1) f tab == 0
  else F.all fun f =>
    if vprod (n + 1) f tab < 0 then false
    else if f.at' 0 = 0 then vprod (n + 1) f tab == 0
    else !(strict && vprod (n + 1) f tab == 0)

/-- `pk_is_bottom` (`pk_test.c:27-56`); `alg` is the option `algorithm` -/
def Rep.isBottom (n : ℕ) (alg : ℤ) (r : Rep) : Bool :=
  match r with
  | .bot => true
  | .gens _ => false
  | .both _ => false
  | .cons C => if alg < 0 then false else ((Rep.cons C).chernikova n).F? == none

/-- `pk_is_top` (`pk_test.c:62-79`) -/
def Rep.isTop (n : ℕ) (alg : ℤ) (r : Rep) : Bool :=
  match (if 0 ≤ alg then r.chernikova n else r) with
  | .both f => f.C.length == 1
  | _ => false

/-- `pk_is_leq` (`pk_test.c:145-203`) -/
def Rep.isLeq (n : ℕ) (alg : ℤ) (pa pb : Rep) : Bool :=
  let pa := if 0 < alg then pa.chernikova n else pa.obtainF n
  match pa.F? with
  | none => true
  | some F =>
    let pb := if 0 < alg then pb.chernikova n else pb.obtainC n
    match pb.C? with
    | none => false
    | some C =>
      let test := C.all fun c => genSatVector n F c false
      match pa, pb with
      | .both fa, .both fb => if fa.nbeq < fb.nbeq ∨ fb.nbline < fa.nbline then false else test
      | _, _ => test

/-! ## Meet and join -/

/-- `poly_meet_matrix` (`pk_meetjoin.c:57-118`); `none`: a NULL pointer is dereferenced -/
def Rep.meetMatrix (n : ℕ) (meet lzy : Bool) (pa : Rep) (mat : List Row) : Option Rep :=
  if lzy then pa.C?.map fun C => .cons (mergeRows (n + 2) (sortRows (n + 2) C) mat)
  else match pa with
    | .both f =>
      some (match addAndMinimize (n + 2) 2 meet f.crows mat f.lines f.rays with
        | none => .bot
        | some m => .both (.ofMin m meet (!meet)))
    | _ => none

/-- options of a binary operation -/
structure Opts where
  lzy : Bool
  exactWanted : Bool
  leqAlg : ℤ

/-- `poly_meet_particularcases` (`pk_meetjoin.c:127-183`) -/
def Rep.particular (n : ℕ) (meet : Bool) (o : Opts) (pa pb : Rep) : Option Rep :=
  if meet then if pa = .bot ∨ pb = .bot then some .bot else none
  else if pa = .bot then some (if o.lzy then pb else pb.chernikovaDual n false)
  else if pb = .bot then some (if o.lzy then pa else pa.chernikovaDual n false)
  else if o.exactWanted = true ∧ Rep.isLeq n o.leqAlg pa.dual pb.dual = true then some pb
  else if o.exactWanted = true ∧ Rep.isLeq n o.leqAlg pb.dual pa.dual = true then some pa
  else none

/-- the choice of the start polyhedron (`pk_meetjoin.c:283-292`) -/
def Full.startFirst (fa fb : Full) : Bool :=
  decide (fb.nbeq < fa.nbeq) ||
    (decide (fa.nbeq = fb.nbeq) && (decide (fa.nbline < fb.nbline) || decide (fb.C.length ≤ fa.C.length)))

/-- end of the strict version: `pa` is the start polyhedron (`pk_meetjoin.c:308-312`) -/
def Rep.meetStart (n : ℕ) (meet : Bool) (pa pb : Rep) : Option Rep :=
  pb.C?.bind fun C => pa.meetMatrix n meet false (sortRows (n + 2) C)

/-- `poly_meet` (`pk_meetjoin.c:185-314`) of two distinct polyhedra; `destr` is `po == pa` -/
def Rep.polyMeet (n : ℕ) (meet : Bool) (o : Opts) (destr : Bool) (pa pb : Rep) : Option Rep :=
  match Rep.particular n meet o pa pb with
  | some r => some r
  | none =>
    let pa := pa.obtainCDual n meet
    let pb := pb.obtainCDual n meet
    match Rep.particular n meet o pa pb with
    | some r => some r
    | none =>
      if o.lzy then pb.C?.bind fun C => pa.meetMatrix n meet true (sortRows (n + 2) C)
      else if destr then Rep.meetStart n meet (pa.chernikovaDual n meet) pb
      else match pa, pb with
        | .both _, .cons _ => Rep.meetStart n meet pa pb
        | .cons _, .both _ => Rep.meetStart n meet pb pa
        | .both fa, .both fb => if fa.startFirst fb then Rep.meetStart n meet pa pb else Rep.meetStart n meet pb pa
        | _, _ =>
          let pa := pa.chernikovaDual n meet
          let pb := pb.chernikovaDual n meet
          match Rep.particular n meet o pa pb with
          | some r => some r
          | none =>
            match pa, pb with
            | .both fa, .both fb => if fa.startFirst fb then Rep.meetStart n meet pa pb else Rep.meetStart n meet pb pa
            | _, _ => none

/-- `poly_meet` when both arguments are the same object (`pk_meetjoin.c:194-200`) -/
def Rep.polyMeetSelf (n : ℕ) (meet : Bool) (o : Opts) (pa : Rep) : Rep :=
  if o.lzy then pa else pa.chernikovaDual n meet

/-- `pk_meet` (`pk_meetjoin.c:497-507`) -/
def Rep.meet (n : ℕ) (o : Opts) (destr : Bool) (pa pb : Rep) : Option Rep := Rep.polyMeet n true o destr pa pb

/-- `pk_join` (`pk_meetjoin.c:603-621`) -/
def Rep.join (n : ℕ) (o : Opts) (destr : Bool) (pa pb : Rep) : Option Rep :=
  (Rep.polyMeet n false o destr pa.dual pb.dual).map Rep.dual

end Apron.Poly
