import Verif.Poly.PkUser

/-!
# Polyhedra (newpolka): assignment and substitution of linear expressions

Source: `newpolka/pk_assign.c`.  A row `tab` for an expression has the common denominator in column 0, the constant in column
1 and the coefficients of the dimensions in the next ones (`vector_set_itv_linexpr`).

Simplifications (see also `PkDefs`).
* `poly_asssub_linexpr_det` and `poly_asssub_linexpr_array_det` work for a substitution on the dual of the polyhedron; the
  two exchanges are removed here.
* In the functions on arrays, the special case where all the denominators are 1 does the same computation without the
  multiplications by 1; it is not distinguished.
* The flags `flag_best`, `flag_exact` and the exceptions are not modelled.
-/

set_option autoImplicit false
set_option linter.unusedSectionVars false

namespace Apron.Poly

open Apron ILincons

/-! ## One expression -/

/-- `pk_matrix_assign_variable` (`pk_assign.c:43-100`), on a row.  The destructive version also multiplies the status
column -/
def asgRow (destr : Bool) (n dim : ℕ) (tab q : Row) : Row :=
  normalize (Row.ofFun (n + 2) fun j =>
    if j = dim + 2 then vprod (n + 1) q tab
    else if j = 0 ∧ destr = false then q.at' 0
    else if 1 < tab.at' 0 then q.at' j * tab.at' 0
    else q.at' j) (n + 2)

/-- `pk_matrix_substitute_variable` (`pk_assign.c:113-184`), on a row; the destructive version gives the same row -/
def subRow (n dim : ℕ) (tab q : Row) : Row :=
  if q.at' (dim + 2) ≠ 0 then
    normalize (Row.ofFun (n + 2) fun j =>
      if j = 0 then q.at' 0
      else if j = dim + 2 then q.at' (dim + 2) * tab.at' (dim + 2)
      else (if 1 < tab.at' 0 then q.at' j * tab.at' 0 else q.at' j) + q.at' (dim + 2) * tab.at' j) (n + 2)
  else q

/-- `vector_normalize_expr` (`pk_vector.c:206-223`) -/
def normalizeExpr (q : Row) (size : ℕ) : Row :=
  let g := vectorGcd ((List.range size).map q.at')
  if 1 < g then Row.ofFun size fun j => q.at' j / g else q

/-- `vector_invert_expr` (`pk_assign.c:409-436`) -/
def invExpr (n dim : ℕ) (tab : Row) : Row :=
  normalizeExpr (Row.ofFun (n + 2) fun j =>
    if 0 < tab.at' (dim + 2) then
      if j = 0 then tab.at' (dim + 2) else if j = dim + 2 then tab.at' 0 else -tab.at' j
    else
      if j = 0 then -tab.at' (dim + 2) else if j = dim + 2 then -tab.at' 0 else tab.at' j) (n + 2)

/-- the row of an expression: `itv_linexpr_set_ap_linexpr0`, then `vector_set_itv_linexpr` with mode 1 -/
def exprRow (n : ℕ) (e : Linexpr ℚ) : Row :=
  let e := ILinexpr.ofAp Rnd.exact e
  setLinexpr n (numref e.cst.sup) e.terms

/-- `poly_asssub_linexpr_det` (`pk_assign.c:757-834`) -/
def Rep.asssubDet (assign destr : Bool) (n : ℕ) (pa : Rep) (dim : ℕ) (tab : Row) : Rep :=
  let inv := invExpr n dim tab
  if tab.at' (dim + 2) = 0 then
    if assign then
      match (pa.obtainF n).F? with
      | none => .bot
      | some F => .gens (F.map (asgRow destr n dim tab))
    else
      match (pa.obtainC n).C? with
      | none => .bot
      | some C => .cons (C.map (subRow n dim tab))
  else
    let onF := if assign then asgRow destr n dim tab else asgRow destr n dim inv
    let onC := if assign then subRow n dim inv else subRow n dim tab
    match pa with
    | .bot => .bot
    | .cons C => .cons (C.map onC)
    | .gens F => .gens (F.map onF)
    | .both f => .both
        { f with
          C := f.C.map fun x => ⟨onC x.row, x.sat⟩
          F := f.F.map fun x => ⟨onF x.row, x.sat⟩
          consgauss := false, gengauss := false, sortedC := false, sortedF := false }

/-! ## Several expressions -/

/-- the inner loop of `pk_asssub_isort` (`pk_assign.c:206-214`), on the reversed prefix -/
def isortIns (p : ℕ × Row) : List (ℕ × Row) → List (ℕ × Row)
  | [] => [p]
  | x :: l => if x.1 > p.1 then x :: isortIns p l else p :: x :: l

/-- `pk_asssub_isort` (`pk_assign.c:198-218`) -/
def isort (l : List (ℕ × Row)) : List (ℕ × Row) := (l.foldl (fun acc p => isortIns p acc) []).reverse

/-- the common denominator (`pk_assign.c:238-242`, `pk_assign.c:327-331`) -/
def commonDen (l : List (ℕ × Row)) : ℤ := (l.map fun p => p.2.at' 0).prod

/-- the columns from `j` on (`pk_assign.c:255-278`) -/
def asgCols (n : ℕ) (den : ℤ) (q : Row) : ℕ → ℕ → List (ℕ × Row) → List ℤ
  | 0, _, _ => []
  | k + 1, j, [] => q.at' j * den :: asgCols n den q k (j + 1) []
  | k + 1, j, (d, t) :: l =>
    if d + 2 = j then vprod (n + 1) q t * (den / t.at' 0) :: asgCols n den q k (j + 1) l
    else q.at' j * den :: asgCols n den q k (j + 1) ((d, t) :: l)

/-- `pk_matrix_assign_variables` (`pk_assign.c:225-313`), on a row -/
def asgRows (n : ℕ) (l : List (ℕ × Row)) (q : Row) : Row :=
  normalize (q.at' 0 :: asgCols n (commonDen l) q (n + 1) 1 l) (n + 2)

/-- the copy of the columns that are not substituted (`pk_assign.c:344-350`) -/
def subCols (den : ℤ) (q : Row) : ℕ → ℕ → List (ℕ × Row) → List ℤ
  | 0, _, _ => []
  | k + 1, j, [] => q.at' j * den :: subCols den q k (j + 1) []
  | k + 1, j, (d, t) :: l =>
    if d + 2 = j then 0 :: subCols den q k (j + 1) l
    else q.at' j * den :: subCols den q k (j + 1) ((d, t) :: l)

/-- `pk_matrix_substitute_variables` (`pk_assign.c:315-400`), on a row -/
def subRows (n : ℕ) (l : List (ℕ × Row)) (q : Row) : Row :=
  let den := commonDen l
  let c : Row := q.at' 0 :: subCols den q (n + 1) 1 l
  normalize (Row.ofFun (n + 2) fun j =>
    if j = 0 then q.at' 0
    else l.foldl (fun s p => if q.at' (p.1 + 2) ≠ 0 then s + q.at' (p.1 + 2) * p.2.at' j * (den / p.2.at' 0) else s) (c.at' j)) (n + 2)

/-- `poly_asssub_linexpr_array_det` (`pk_assign.c:448-523`); the result is `none` for an empty array, of which the first
element is read -/
def Rep.asssubArrayDet (assign : Bool) (n : ℕ) (pa : Rep) (l : List (ℕ × Row)) : Option Rep :=
  if assign then
    match (pa.obtainF n).F? with
    | none => some .bot
    | some F => if l = [] then none else some (.gens (F.map (asgRows n (isort l))))
  else
    match (pa.obtainC n).C? with
    | none => some .bot
    | some C => if l = [] then none else some (.cons (C.map (subRows n (isort l))))

/-- the choice between the functions on one expression and on arrays (`pk_assign.c:848-856`, `pk_assign.c:869-877`) -/
def Rep.asssubDets (assign destr : Bool) (n : ℕ) (pa : Rep) (l : List (ℕ × Linexpr ℚ)) : Option Rep :=
  match l with
  | [(d, e)] => some (Rep.asssubDet assign destr n pa d (exprRow n e))
  | _ => Rep.asssubArrayDet assign n pa (l.map fun p : ℕ × Linexpr ℚ => (p.1, exprRow n p.2))

/-- the deterministic branch of `poly_asssub_linexpr` (`pk_assign.c:601-666`) and of `poly_asssub_linexpr_array`
(`pk_assign.c:529-598`), called by `pk_assign_linexpr_array` and `pk_substitute_linexpr_array` (`pk_assign.c:840-880`): all the
expressions are linear.  `none` stands for the dereference of an invalid pointer. -/
def Rep.asssubLinear (assign destr : Bool) (n : ℕ) (o : Opts) (pa : Rep) (l : List (ℕ × Linexpr ℚ)) (pb : Option Rep) : Option Rep :=
  let pa := if o.lzy then pa else pa.chernikova n
  if pa = .bot then some .bot
  else
    let po := Rep.asssubDets assign destr n pa l
    let po := match pb with
      | none => po
      | some pb => po.bind fun po => po.meet n o true pb
    po.map fun po => if o.lzy then po else po.chernikova n

end Apron.Poly
