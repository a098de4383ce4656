import Verif.Poly.PkMan
import Verif.Texpr.ApLinearize
import Verif.Texpr.Defs
import Verif.Texpr.Struct

/-!
# Polyhedra: operations with tree expressions

Model of `pk_sat_tcons`, `pk_bound_texpr`, `pk_meet_tcons_array`, `pk_assign_texpr_array` and `pk_substitute_texpr_array`, in the
non-strict mode.  The numbers of the internal interval computations are rationals (`Rnd.exact`).  As everywhere for polyhedra, the
options of the nested calls are those of the outer one (the C code changes `pk->funopt` in every nested call).
-/

set_option autoImplicit false
set_option linter.unusedSectionVars false
set_option linter.ambiguousOpen false

namespace Apron.Poly

open Apron Bound ILincons

/-- the end of `pk_sat_tcons` (`pk_test.c:348-357`) and of `pk_sat_lincons` (`pk_test.c:293-304`) -/
def satVec (n intdim : ℕ) (F : List Row) (strict : Bool) (k : ILincons ℚ) : Bool :=
  match setLinconsSat n intdim k with
  | none => false
  | some v => genSatVector n F v strict

section
variable (o : RootOps ℚ) (F : FltOps ℚ)

/-- `pk_sat_tcons` (`pk_test.c:317-361`) -/
def Rep.satTcons (n intdim : ℕ) (alg : ℤ) (r : Rep) (c : Tcons ℚ) : Bool :=
  match (r.prepF n alg).F? with
  | none => true
  | some M =>
    match c.typ with
    | .eq | .supeq | .sup =>
      satVec n intdim M (decide (c.typ = .sup))
        (quasiCons Rnd.exact (Texpr.intlinearizeCons Rnd.exact o F (matBoundDim M) intdim c).1 (matBoundDim M) false)
    | _ => false

/-- `pk_bound_texpr` (`pk_extract.c:350-390`) -/
def Rep.boundTexpr (n intdim : ℕ) (alg : ℤ) (r : Rep) (e : Texpr ℚ) : Itv ℚ :=
  match (r.prepF n alg).F? with
  | none => ⟨fin (-1), fin (-1)⟩
  | some M =>
    Itv.meet (boundExprGens (Texpr.intlinearize Rnd.exact o F (matBoundDim M) intdim true e).1 M ⟨ninf, ninf⟩)
      (e.eval Rnd.exact o F (matBoundDim M))

namespace PkT

/-- `pk_meet_tcons_array` (`pk_meetjoin.c:592-597`) -/
def meetTcons (alg : ℤ) (lzy : Bool) (a : PkT) (l : List (Tcons ℚ)) : PkT :=
  Generic.meetTcons Rnd.exact o F (isBottom alg) (fun a => a.rep.toBox a.dim alg) PkT.intdim PkT.dim .linear (meetLincons lzy) a l

/-- the destination, if any, of the linear branch of `poly_asssub_texpr_array` (`pk_assign.c:722-724`): `none` is the dereference of
an invalid pointer -/
def meetDest (o : Opts) (a : PkT) (dest : Option PkT) : Option PkT :=
  match dest with
  | none => some a
  | some b => (a.rep.meet a.dim o true b.rep).map fun r => ⟨a.intdim, a.realdim, r⟩

/-- `poly_asssub_texpr_array` (`pk_assign.c:668-750`); the linear branch works in lazy mode on expressions linearised with
`ap_intlinearize_texpr0` (the box of the argument is not used since the trees are linear) -/
def asssubTexpr (assign destr : Bool) (alg : ℤ) (opts : Opts) (mlzy : Bool) (a : PkT) (l : List (ℕ × Texpr ℚ)) (dest : Option PkT) :
    Option PkT :=
  let a := a.prep opts
  if a.rep = .bot then some ⟨a.intdim, a.realdim, .bot⟩
  else
    let po := if (l.all fun p => p.2.isScalar) && l.all fun p => p.2.isIntervalLinear then
        (asssubLinexpr assign destr alg { opts with lzy := true } mlzy a
          (l.map fun p => (p.1, Texpr.apIntlinearize Rnd.exact o F (a.rep.toBox a.dim alg) a.intdim p.2 false)) none).bind
            fun po => meetDest opts po dest
      else some (Generic.asssub (pkMan ℚ alg opts) (isBottom alg) Generic.mkTcons (meetTcons o F alg mlzy) assign a l dest)
    po.map fun po => po.prep opts

end PkT
end

end Apron.Poly
