import Verif.Poly.PkExtract
import Verif.Poly.PkLeq

/-!
# The reduced product of polyhedra and grids

Model of `ap_pkgrid_reduce` (`products/ap_pkgrid.c:23-163`).

Simplifications: the grids of the PPL library are a parameter (`GridDom`), with a specification of the functions that are called;
the polyhedra are those of `PkDefs` (non-strict mode), with the default options.
-/

set_option autoImplicit false
set_option linter.unusedSectionVars false
set_option linter.ambiguousOpen false

namespace Apron.Poly

open Apron Bound ILincons

/-- the functions of the domain of grids that are called: `ap_ppl_grid_bottom`, `ap_ppl_grid_meet_lincons_array`,
`ap_ppl_grid_is_bottom`, `ap_ppl_grid_canonicalize`, `ap_ppl_grid_to_lincons_array` (`ppl/ppl_grid.cc`) -/
structure GridDom (G : Type) where
  bottom : G
  meetLincons : G → List (Lincons ℚ) → G
  isBottom : G → Bool
  canonicalize : G → G
  toLincons : G → List (Lincons ℚ)

/-- `AP_CONS_SUPEQ` with the constant diminished by a number (`ap_pkgrid.c:109-114`) -/
def lowerCons (e : Linexpr ℚ) (q : ℚ) : Lincons ℚ :=
  ⟨.supeq, { e with cst := match e.cst with
    | .scalar (fin c) => .scalar (fin (c - q))
    | c => c }⟩

/-- the opposite of a coefficient that is a number -/
def negCoeff : Coeff ℚ → Coeff ℚ
  | .scalar (fin c) => .scalar (fin (-c))
  | c => c

/-- `AP_CONS_SUPEQ` with the opposite expression, and the constant increased by a number (`ap_pkgrid.c:129-144`) -/
def upperCons (e : Linexpr ℚ) (q : ℚ) : Lincons ℚ :=
  ⟨.supeq, ⟨match negCoeff e.cst with
    | .scalar (fin c) => .scalar (fin (c + q))
    | c => c,
    match e.body with
    | .dense l => .dense (l.map negCoeff)
    | .sparse l => .sparse (l.map fun t => (t.1, negCoeff t.2))⟩⟩

/-- writing in the array of `cap` constraints; `none` past the end -/
def pushCons (cap : ℕ) (acc : List (Lincons ℚ)) (c : Lincons ℚ) : Option (List (Lincons ℚ)) :=
  if acc.length < cap then some (acc ++ [c]) else none

/-- the lower bound of a congruence (`ap_pkgrid.c:99-118`) -/
def lowerStep (cap : ℕ) (i : Itv ℚ) (e : Linexpr ℚ) (m : ℚ) (acc : List (Lincons ℚ)) : Option (List (Lincons ℚ)) :=
  if infty i.inf then some acc
  else
    let q := -(numref i.inf) / m
    if q.den = 1 then some acc else pushCons cap acc (lowerCons e (⌈q⌉ * m))

/-- the upper bound of a congruence (`ap_pkgrid.c:119-147`): the array, and the index of the next constraint.  The loop that negates
the coefficients uses the index `i` of the main loop, which is left equal to the number of terms. -/
def upperStep (cap : ℕ) (k : ℕ) (i : Itv ℚ) (e : Linexpr ℚ) (m : ℚ) (acc : List (Lincons ℚ)) : Option (List (Lincons ℚ) × ℕ) :=
  if infty i.sup then some (acc, k + 1)
  else
    let q := numref i.sup / m
    if q.den = 1 then some (acc, k + 1)
    else (pushCons cap acc (upperCons e (⌊q⌋ * m))).map fun acc => (acc, e.terms.length + 1)

/-- the loop on the constraints of the grid (`ap_pkgrid.c:86-153`): `bnd` gives the bounds of an expression in the polyhedron.
`none`: write out of the array, or no end.  The first argument is fuel. -/
def congrLoop (bnd : Linexpr ℚ → Itv ℚ) (arr : List (Lincons ℚ)) : ℕ → ℕ → List (Lincons ℚ) → Option (List (Lincons ℚ))
  | 0, _, _ => none
  | f + 1, k, acc =>
    match arr[k]? with
    | none => some acc
    | some c =>
      match c.typ with
      | .eq => (pushCons (2 * arr.length) acc c).bind (congrLoop bnd arr f (k + 1))
      | .eqmod m => (lowerStep (2 * arr.length) (bnd c.expr) c.expr m acc).bind fun acc =>
          (upperStep (2 * arr.length) k (bnd c.expr) c.expr m acc).bind fun p => congrLoop bnd arr f p.2 p.1
      | _ => congrLoop bnd arr f (k + 1) acc

variable {G : Type}

/-- `ap_pkgrid_reduce` (`ap_pkgrid.c:23-163`) -/
def pkgridReduce (D : GridDom G) (n intdim : ℕ) (lzy : Bool) (p : Rep) (g : G) : Option (Rep × G) :=
  match p.canonicalize n 0 with
  | .both f =>
    let g1 := if 0 < f.nbeq then D.meetLincons g (f.eqs.map (linconsOfRow n)) else g
    if decide (0 < f.nbeq) && D.isBottom g1 then some (.bot, g1)
    else
      let g2 := D.canonicalize g1
      if D.isBottom g2 then some (.bot, g2)
      else
        let arr := D.toLincons g2
        (congrLoop ((Rep.both f).boundLinexpr n 0) arr (arr.length + 1) 0 []).bind fun l =>
          ((Rep.both f).meetLincons n intdim lzy l).map fun p => (p, g2)
  | p => some (p, D.bottom)

end Apron.Poly
