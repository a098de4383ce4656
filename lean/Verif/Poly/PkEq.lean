import Verif.Poly.PkArray
import Verif.Poly.PkCanon
import Verif.Poly.PkExpand
import Verif.Poly.PkAssign
import Verif.Poly.PkResize

/-!
# Linear equalities on top of the polyhedra: newpolka/pkeq.c

A value is a polyhedron whose two matrices are present (or both absent: empty) and whose only inequality is the positivity
constraint.  The functions call those of the polyhedra with the option `algorithm = 1`, which is written in the manager
(`pk->funopt->algorithm = 1`), then keep the equalities of the result.

Simplifications: those of `PkDefs`; `pk_matrix_reduce` (`pkeq.c:71-77`) only releases memory; the functions that raise the
exception "not implemented" (serialisation) are left out.
-/

set_option autoImplicit false
set_option linter.unusedSectionVars false

namespace Apron.Poly

open Apron Bound

/-- `equality_reduce` (`pkeq.c:79-104`).  The assertion `(!C && !F) || (C && F)`, compiled out with `NDEBUG`, fails on the
other representations, which are returned unchanged -/
def Rep.eqReduce (n : ℕ) : Rep → Rep
  | .both f => if f.nbeq + 1 < f.C.length then (Rep.cons (f.eqs ++ [posRow n])).chernikova n else .both f
  | r => r

/-- `equality_check` (`pkeq.c:53-69`), without the call of `poly_check` -/
def Rep.eqCheck : Rep → Bool
  | .bot => true
  | .both f => f.C.length == f.nbeq + 1 && f.F.length == f.nbline + 1
  | _ => false

/-- `pkeq_size` (`pkeq.c:37-45`) -/
def Rep.eqSize (n : ℕ) (r : Rep) : ℕ := (match r.C? with | some C => C.length - 1 | none => 0) * n

/-- the options of the operations on equalities -/
def eqOpts (o : Opts) : Opts := { o with lzy := false }

/-- `pkeq_canonicalize` (`pkeq.c:105-110`) -/
def Rep.eqCanonicalize (n : ℕ) (r : Rep) : Rep := r.canonicalize n 1

/-! ## Constructor and tests -/

/-- the row written for one dimension by `pkeq_of_box` (`pkeq.c:163-176`): none for an interval that is not a point -/
def eqBoxRows (n intdim dim : ℕ) (i : Itv ℚ) : Option (List Row) :=
  if i.isPoint then (setDimBound n intdim 0 dim (ILincons.numref i.sup)).map fun r => [r] else some []

/-- `pkeq_of_box` (`pkeq.c:141-184`); `alg` is the option of `pk_canonicalize` -/
def Rep.eqOfBox (n intdim : ℕ) (alg : ℤ) (box : ℕ → Itv ℚ) : Rep :=
  match (List.range n).mapM (fun d => eqBoxRows n intdim d (box d)) with
  | none => .bot
  | some l => (Rep.cons (l.flatten ++ [posRow n])).canonicalize n alg

/-- `pkeq_is_eq` (`pkeq.c:190-229`); `none`: a row outside of the second matrix is read -/
def Rep.eqIsEq (n : ℕ) (pa pb : Rep) : Option Bool :=
  match pa.eqCanonicalize n, pb.eqCanonicalize n with
  | .both fa, .both fb =>
    if fa.nbeq ≠ fb.nbeq ∨ fa.nbline ≠ fb.nbline then some false
    else if fb.C.length < fa.C.length then none
    else some ((List.zipWith (fun a b => (List.range (n + 2)).all fun j => a.at' j == b.at' j) fa.crows fb.crows).all id)
  | .bot, .bot => some true
  | _, _ => some false

/-! ## Operations -/

/-- `pkeq_meet` (`pkeq.c:239-246`) -/
def Rep.eqMeet (n : ℕ) (o : Opts) (destr : Bool) (pa pb : Rep) : Option Rep := pa.meet n (eqOpts o) destr pb

/-- `pkeq_meet_array` (`pkeq.c:248-255`): the algorithm is written in the options of `AP_FUNID_MEET`, whereas `pk_meet_array`
reads those of `AP_FUNID_MEET_ARRAY` (`pk_meetjoin.c:509`), so that the options are those of the user -/
def eqMeetArray (n : ℕ) (o : Opts) (ps : List (ℕ × Rep)) : Option Rep := meetArray n o ps

/-- `pkeq_join_array` (`pkeq.c:289-297`): likewise with `AP_FUNID_JOIN` and `AP_FUNID_JOIN_ARRAY` (`pk_meetjoin.c:634`) -/
def eqJoinArray (n : ℕ) (o : Opts) (ids : List ℕ) (heap : ℕ → Rep) : Option Rep := (joinArray n o ids heap).map (Rep.eqReduce n)

/-- `pkeq_meet_lincons_array` (`pkeq.c:257-266`) -/
def Rep.eqMeetLincons (n intdim : ℕ) (pa : Rep) (l : List (Lincons ℚ)) : Option Rep :=
  (pa.meetLincons n intdim false l).map (Rep.eqReduce n)

/-- `pkeq_join` (`pkeq.c:279-287`) -/
def Rep.eqJoin (n : ℕ) (o : Opts) (destr : Bool) (pa pb : Rep) : Option Rep :=
  (pa.join n (eqOpts o) destr pb).map (Rep.eqReduce n)

/-- `pkeq_add_ray_array` (`pkeq.c:299-307`) -/
def Rep.eqAddRays (n : ℕ) (pa : Rep) (l : List (GenTyp × Linexpr ℚ)) : Option Rep :=
  (pa.addRays n false l).map (Rep.eqReduce n)

/-- `pkeq_forget_array` (`pkeq.c:520-531`) -/
def Rep.eqForget (n : ℕ) (pa : Rep) (tdim : List ℕ) (project : Bool) : Option Rep :=
  (Rep.forget n false pa tdim project).map (Rep.eqReduce n)

/-- `pkeq_remove_dimensions` (`pkeq.c:538-548`) -/
def Rep.eqRemove (destr : Bool) (n : ℕ) (pa : Rep) (pos : List ℕ) : Rep :=
  (Rep.removeDimensions destr n 1 pa pos).eqReduce (n - pos.length)

/-- `pkeq_expand` (`pkeq.c:553-564`) -/
def Rep.eqExpand (destr : Bool) (n intdim : ℕ) (pa : Rep) (dim sup : ℕ) : Rep :=
  (Rep.expand destr n intdim 1 pa dim sup).eqReduce (n + sup)

/-- `pkeq_fold` (`pkeq.c:565-575`) -/
def Rep.eqFold (n : ℕ) (pa : Rep) (d : ℕ) (ts : List ℕ) : Rep :=
  (Rep.fold n 1 pa d ts).eqReduce (n - ts.length)

/-- `pkeq_widening` (`pkeq.c:581-585`) -/
def Rep.eqWidening (_a b : Rep) : Rep := b

/-! ## Assignment and substitution -/

/-- the test `cst.discr == AP_COEFF_SCALAR` (`pkeq.c:333`, `pkeq.c:402`): the coefficients of the variables are not looked at -/
def cstScalar (e : Linexpr ℚ) : Bool :=
  match e.cst with
  | .scalar _ => true
  | .interval _ _ => false

/-- `equality_asssub_linexpr` (`pkeq.c:314-371`) -/
def Rep.eqAsssub1 (assign destr : Bool) (n : ℕ) (pa : Rep) (d : ℕ) (e : Linexpr ℚ) : Option Rep :=
  if pa = .bot then some .bot
  else if cstScalar e then some (((Rep.asssubDet assign destr n pa d (exprRow n e)).chernikova n).eqReduce n)
  else pa.eqForget n [d] false

/-- `equality_asssub_linexpr_array` (`pkeq.c:373-455`) -/
def Rep.eqAsssubArray (assign : Bool) (n : ℕ) (pa : Rep) (l : List (ℕ × Linexpr ℚ)) : Option Rep :=
  if pa = .bot then some .bot
  else
    let det := l.filter fun p => cstScalar p.2
    let nd := (l.filter fun p => !cstScalar p.2).map Prod.fst
    if det ≠ [] then
      (Rep.asssubArrayDet assign n pa (det.map fun p : ℕ × Linexpr ℚ => (p.1, exprRow n p.2))).bind fun po =>
        let po := (po.chernikova n).eqReduce n
        if nd ≠ [] then po.eqForget n nd false else some po
    else pa.eqForget n nd false

/-- the operation before the intersection with the destination -/
def Rep.eqAsssubs (assign destr : Bool) (n : ℕ) (pa : Rep) (l : List (ℕ × Linexpr ℚ)) : Option Rep :=
  match l with
  | [(d, e)] => pa.eqAsssub1 assign destr n d e
  | l => pa.eqAsssubArray assign n l

/-- `pkeq_assign_linexpr_array` (`pkeq.c:457-477`) and `pkeq_substitute_linexpr_array` (`pkeq.c:479-499`) -/
def Rep.eqAsssub (assign destr : Bool) (n : ℕ) (o : Opts) (pa : Rep) (l : List (ℕ × Linexpr ℚ)) (dest : Option Rep) : Option Rep :=
  (pa.eqAsssubs assign destr n l).bind fun po =>
    match dest with
    | none => some po
    | some b => po.eqMeet n o true b

end Apron.Poly
