import Verif.Poly.PkDefs
import Verif.Itv.Linexpr
import Verif.Core.LinexprOps
import Mathlib.Algebra.Order.Floor.Ring
import Mathlib.Data.Rat.Floor

/-!
# Polyhedra: conversions from and to expressions, constraints, generators and boxes

Model of `newpolka/pk_user.c`, `newpolka/pk_extract.c`, and of the operations of `pk_meetjoin.c`, `pk_constructor.c` and
`pk_test.c` that use them, in the non-strict mode.  The matrices have `n + 2` columns: status, constant, dimensions.
-/

set_option autoImplicit false
set_option linter.unusedSectionVars false
set_option linter.ambiguousOpen false

namespace Apron.Poly

open Apron Bound ILincons

/-! ## Rows from expressions -/

/-- the common denominator of the coefficients (`pk_user.c:147-166`) -/
def exprDen (c : ℚ) (ts : List (ITerm ℚ)) : ℕ := ts.foldl (fun l t => Nat.lcm l (numref t.itv.sup).den) c.den

/-- the coefficient written for dimension `d`: the last term on this dimension (`pk_user.c:183-190`) -/
def exprCoef (den : ℕ) (ts : List (ITerm ℚ)) (d : ℕ) : ℤ :=
  ts.foldl (fun v t => if t.dim = d then (den / (numref t.itv.sup).den : ℕ) * (numref t.itv.sup).num else v) 0

/-- `vector_set_itv_linexpr` (`pk_user.c:136-192`), `c` being the bound of the constant chosen by `mode` -/
def setLinexpr (n : ℕ) (c : ℚ) (ts : List (ITerm ℚ)) : Row :=
  Row.ofFun (n + 2) fun j => match j with
    | 0 => exprDen c ts
    | 1 => (exprDen c ts / c.den : ℕ) * c.num
    | d + 2 => exprCoef (exprDen c ts) ts d

/-- `vector_is_integer` (`pk_vector.c:577-589`) -/
def rowIsInt (n intdim : ℕ) (q : Row) : Bool := (List.range n).all fun d => decide (d < intdim) || q.at' (d + 2) == 0

/-- `vector_is_positivity_constraint` (`pk_vector.c:492-520`): in the non-strict mode the sign of the constant does not
matter -/
def rowIsPos (n : ℕ) (q : Row) : Bool := decide (0 < q.at' 0) && (List.range n).all fun d => q.at' (d + 2) == 0

/-- `vector_normalize_constraint_int` (`pk_vector.c:271-316`) -/
def normConsInt (n intdim : ℕ) (q : Row) : Row :=
  if 0 < intdim ∧ rowIsInt n intdim q = true ∧ rowIsPos n q = false then
    let g := vectorGcd ((List.range n).map fun d => q.at' (d + 2))
    if 1 < g then
      if q.at' 0 = 0 then
        if q.at' 1 % g ≠ 0 then Row.ofFun (n + 2) fun j => if j = 1 then 1 else 0
        else Row.ofFun (n + 2) fun j => if j = 0 then 0 else q.at' j / g
      else Row.ofFun (n + 2) fun j => if j = 0 then q.at' 0 else q.at' j / g
    else q
  else Apron.Poly.normalize q (n + 2)

/-- common part of `vector_set_itv_lincons` and `vector_set_itv_lincons_sat`: normalisation, status, strictness and
integer tightening (`pk_user.c:209-227`, `pk_user.c:254-274`) -/
def finishCons (n intdim : ℕ) (typ : ConsTyp ℚ) (v : Row) : Row :=
  let v := (Apron.Poly.normalize v (n + 2)).setStatus (if typ = .eq then 0 else 1)
  let v := if typ = .sup ∧ rowIsInt n intdim v = true then
    Row.ofFun (n + 2) fun j => if j = 1 then v.at' 1 - 1 else v.at' j
  else v
  normConsInt n intdim v

/-- `vector_set_itv_lincons` (`pk_user.c:195-228`), with the integer treatment -/
def setLincons (n intdim : ℕ) (c : ILincons ℚ) : Row :=
  finishCons n intdim c.typ (setLinexpr n (numref c.expr.cst.sup) c.expr.terms)

/-- `vector_set_itv_lincons_sat` (`pk_user.c:230-282`): `none` when it returns false -/
def setLinconsSat (n intdim : ℕ) (c : ILincons ℚ) : Option Row :=
  if c.typ = .eq ∧ c.expr.eq = false then none
  else if infty c.expr.cst.inf then none
  else some (finishCons n intdim c.typ (setLinexpr n (-(numref c.expr.cst.inf)) c.expr.terms))

/-- `pk_matrix_append_itv_lincons_array` (`pk_user.c:477-510`) -/
def setLinconsArray (n intdim : ℕ) (l : List (ILincons ℚ)) : List Row :=
  l.filterMap fun c => match c.typ with
    | .eq | .supeq | .sup => if infty c.expr.cst.sup then none else some (setLincons n intdim c)
    | _ => none

/-! ## Bounds from generators -/

/-- `pk_matrix_bound_dimension` (`pk_extract.c:24-77`), the loop; and `pk_matrix_bound_vector` (`pk_extract.c:102-165`):
`val` gives the numerator of the value of a generator -/
def boundGens (val : Row → ℚ) : List Row → Itv ℚ → Itv ℚ
  | [], i => i
  | q :: F, i =>
    if q.at' 0 = 0 then if val q ≠ 0 then ⟨pinf, pinf⟩ else boundGens val F i
    else if q.at' 1 = 0 then
      if 0 < val q then if i.inf = pinf then ⟨i.inf, pinf⟩ else boundGens val F ⟨i.inf, pinf⟩
      else if val q < 0 then if i.sup = pinf then ⟨pinf, i.sup⟩ else boundGens val F ⟨pinf, i.sup⟩
      else boundGens val F i
    else
      let v : ℚ := val q / q.at' 1
      boundGens val F ⟨if i.inf < fin (-v) then fin (-v) else i.inf, if i.sup < fin v then fin v else i.sup⟩

/-- `pk_matrix_bound_dimension` (`pk_extract.c:24-77`) -/
def matBoundDim (F : List Row) (dim : ℕ) : Itv ℚ := boundGens (fun q => (q.at' (dim + 2) : ℚ)) F ⟨ninf, ninf⟩

/-- `vector_bound_itv_linexpr` (`pk_extract.c:170-199`) -/
def genBound (e : ILinexpr ℚ) (q : Row) : Itv ℚ :=
  let s := e.terms.foldl (fun acc t =>
    if q.at' (t.dim + 2) ≠ 0 then Itv.add Rnd.exact acc (Itv.mulBound Rnd.exact t.itv (fin (q.at' (t.dim + 2) : ℚ))) else acc)
    (Itv.point 0)
  if q.at' 1 ≠ 0 then Itv.add Rnd.exact (Itv.divBound Rnd.exact s (fin (q.at' 1 : ℚ))) e.cst else s

/-- `pk_matrix_bound_itv_linexpr` (`pk_extract.c:204-262`), the loop -/
def boundExprGens (e : ILinexpr ℚ) : List Row → Itv ℚ → Itv ℚ
  | [], i => i
  | q :: F, i =>
    let p := genBound e q
    if q.at' 0 = 0 then if p.isZero then boundExprGens e F i else ⟨pinf, pinf⟩
    else if q.at' 1 = 0 then
      if p.isZero then boundExprGens e F i
      else if sgn p.inf < 0 then if i.inf = pinf then ⟨i.inf, pinf⟩ else boundExprGens e F ⟨i.inf, pinf⟩
      else if sgn p.sup < 0 then if i.sup = pinf then ⟨pinf, i.sup⟩ else boundExprGens e F ⟨pinf, i.sup⟩
      else ⟨pinf, pinf⟩
    else boundExprGens e F (Itv.join i p)

/-- `po` after `poly_chernikova` or `poly_obtain_F` (`pk_extract.c:279-282`, `pk_test.c:253-256`) -/
def Rep.prepF (n : ℕ) (alg : ℤ) (r : Rep) : Rep := if 0 < alg then r.chernikova n else r.obtainF n

/-- `pk_bound_dimension` (`pk_extract.c:268-305`) -/
def Rep.boundDim (n : ℕ) (alg : ℤ) (r : Rep) (dim : ℕ) : Itv ℚ :=
  match (r.prepF n alg).F? with
  | none => ⟨fin (-1), fin (-1)⟩
  | some F => matBoundDim F dim

/-- `pk_bound_linexpr` (`pk_extract.c:311-357`) -/
def Rep.boundLinexpr (n : ℕ) (alg : ℤ) (r : Rep) (e : Linexpr ℚ) : Itv ℚ :=
  match (r.prepF n alg).F? with
  | none => ⟨fin (-1), fin (-1)⟩
  | some F => boundExprGens (ILinexpr.ofAp Rnd.exact e) F ⟨ninf, ninf⟩

/-- `pk_to_box` (`pk_extract.c:450-488`) -/
def Rep.toBox (n : ℕ) (alg : ℤ) (r : Rep) : ℕ → Itv ℚ := fun i =>
  match (if 0 ≤ alg then r.chernikova n else r.obtainF n).F? with
  | none => ⟨fin (-1), fin (-1)⟩
  | some F => matBoundDim F i

/-! ## Meet with constraints, addition of rays -/

/-- `poly_meet_itv_lincons_array` (`pk_meetjoin.c:521-575`); a null pointer would be dereferenced when it is `none` -/
def Rep.meetItvLincons (n intdim : ℕ) (lzy : Bool) (pa : Rep) (l : List (ILincons ℚ)) : Option Rep :=
  let quasi := l.all fun c => c.expr.isQuasilinear
  let pa := if lzy && quasi then pa.obtainC n else pa.chernikova n
  if pa = .bot then some pa
  else
    let l := if quasi then some l else pa.F?.map fun F => quasiArray Rnd.exact l (matBoundDim F) true
    l.bind fun l =>
      let l := (arrayReduceInteger reduceIntegerRat (linearizeArray true l) intdim).1
      Rep.meetMatrix n true lzy pa (sortRows (n + 2) (setLinconsArray n intdim l))

/-- `pk_meet_lincons_array` (`pk_meetjoin.c:577-592`) -/
def Rep.meetLincons (n intdim : ℕ) (lzy : Bool) (pa : Rep) (l : List (Lincons ℚ)) : Option Rep :=
  Rep.meetItvLincons n intdim lzy pa (l.map (ILincons.ofAp Rnd.exact))

/-- kinds of generators that can be added -/
inductive GenTyp | line | ray | vertex | linemod | raymod
  deriving DecidableEq

/-- `vector_set_ap_generator0` (`pk_user.c:288-322`), for a generator that is not a vertex (an assertion excludes them) -/
def setGenerator (n : ℕ) (g : GenTyp) (e : ILinexpr ℚ) : Row :=
  let v := (setLinexpr n (numref e.cst.sup) e.terms).setStatus (if g = .line ∨ g = .linemod then 0 else 1)
  Apron.Poly.normalize (Row.ofFun (n + 2) fun j => if j = 1 then 0 else v.at' j) (n + 2)

/-- `poly_add_ray_array` (`pk_meetjoin.c:682-727`) on the matrix of the generators -/
def Rep.addRayRows (n : ℕ) (lzy : Bool) (pa : Rep) (mat : List Row) : Option Rep :=
  let pa := if lzy then pa.obtainF n else pa.chernikova n
  if pa = .bot then some pa
  else (Rep.meetMatrix n false lzy pa.dual (sortRows (n + 2) mat)).map Rep.dual

/-- `pk_add_ray_array` (`pk_meetjoin.c:729-737`) -/
def Rep.addRays (n : ℕ) (lzy : Bool) (pa : Rep) (l : List (GenTyp × Linexpr ℚ)) : Option Rep :=
  pa.addRayRows n lzy (l.map fun g => setGenerator n g.1 (ILinexpr.ofAp Rnd.exact g.2))

/-! ## Construction from a box -/

/-- the bound used by `vector_set_dim_bound` (`pk_user.c:44-64`): rounded for an integer dimension, `none` when no
integer is equal to it -/
def dimBoundVal (isInt : Bool) (mode : ℤ) (q : ℚ) : Option (ℤ × ℤ) :=
  if isInt then
    if 0 < mode then some (⌊q⌋, 1)
    else if mode < 0 then some (⌈q⌉, 1)
    else if q.den ≠ 1 then none else some (q.num, q.den)
  else some (q.num, q.den)

/-- the row written by `vector_set_dim_bound` (`pk_user.c:66-79`) -/
def dimBoundRow (n : ℕ) (mode : ℤ) (dim : ℕ) (b : ℤ × ℤ) : Row :=
  Row.ofFun (n + 2) fun j =>
    if j = 0 then (if mode = 0 then 0 else 1)
    else if j = 1 then b.1
    else if j = dim + 2 then (if 0 ≤ mode then -b.2 else b.2)
    else 0

/-- `vector_set_dim_bound` (`pk_user.c:35-80`); the sign of `mode` is that of the first argument -/
def setDimBound (n intdim : ℕ) (mode : ℤ) (dim : ℕ) (q : ℚ) : Option Row :=
  (dimBoundVal (decide (dim < intdim)) mode q).map (dimBoundRow n mode dim)

/-- one dimension of `pk_matrix_fill_constraint_box` (`pk_constructor.c:171-203`) -/
def boxRows (n intdim dim : ℕ) (i : Itv ℚ) : Option (List Row) :=
  if i.isPoint then (setDimBound n intdim 0 dim (numref i.sup)).map fun r => [r]
  else some ((if infty i.inf then [] else (setDimBound n intdim (-1) dim (numref i.inf)).toList) ++
    (if infty i.sup then [] else (setDimBound n intdim 1 dim (numref i.sup)).toList))

/-- `pk_of_box` (`pk_constructor.c:211-246`) -/
def Rep.ofBox (n intdim : ℕ) (box : ℕ → Itv ℚ) : Rep :=
  match (List.range n).mapM (fun d => boxRows n intdim d (box d)) with
  | none => .bot
  | some l => .cons (posRow n :: l.flatten)

/-! ## Satisfaction of a constraint or of a bound -/

/-- `pk_sat_lincons` (`pk_test.c:250-314`) -/
def Rep.satLincons (n intdim : ℕ) (alg : ℤ) (r : Rep) (c : Lincons ℚ) : Bool :=
  match (r.prepF n alg).F? with
  | none => true
  | some F =>
    match c.typ with
    | .eq | .supeq | .sup =>
      let k := ILincons.ofAp Rnd.exact c
      let k := if c.expr.isQuasilinear then k else quasiCons Rnd.exact k (matBoundDim F) false
      match setLinconsSat n intdim k with
      | none => false
      | some v => genSatVector n F v (decide (c.typ = .sup))
    | _ => false

/-- `do_generators_sat_bound` (`pk_test.c:384-422`) -/
def genSatBound (F : List Row) (dim : ℕ) (b : ℚ) (sgn : ℤ) : Bool :=
  F.all fun q =>
    let v := q.at' (dim + 2)
    if q.at' 0 = 0 then v == 0
    else if q.at' 1 = 0 then !((decide (0 ≤ sgn) && decide (0 < v)) || (decide (sgn ≤ 0) && decide (v < 0)))
    else if sgn = 0 then decide ((v : ℚ) / q.at' 1 = b)
    else decide ((if sgn < 0 then -((v : ℚ) / q.at' 1) else (v : ℚ) / q.at' 1) ≤ b)

/-- `pk_sat_interval` (`pk_test.c:424-466`) -/
def Rep.satInterval (n : ℕ) (alg : ℤ) (r : Rep) (dim : ℕ) (i : Itv ℚ) : Bool :=
  match (r.prepF n alg).F? with
  | none => true
  | some F =>
    if i.isPoint then genSatBound F dim (numref i.sup) 0
    else (infty i.inf || genSatBound F dim (numref i.inf) (-1)) && (infty i.sup || genSatBound F dim (numref i.sup) 1)

end Apron.Poly
