import Verif.Core.Level0
import Verif.Poly.PkSem
import Verif.Poly.PkCanon
import Verif.Poly.PkExpand
import Verif.Poly.PkAssign
import Verif.Core.Generic

/-!
# The manager of convex polyhedra: newpolka/pk_internal.c, pk_manager_alloc

The functions of the domain of `ap_abstract0_t` on objects that carry their dimensions (`pk_t`: newpolka/pk.h).
-/

set_option autoImplicit false
set_option linter.unusedSectionVars false

namespace Apron
namespace Poly

/-- `pk_t`: newpolka/pk.h:34-44, `struct pk_t`; the matrices and the status are in `rep` -/
structure PkT where
  intdim : ℕ
  realdim : ℕ
  rep : Rep
deriving DecidableEq

namespace PkT

/-- number of dimensions -/
def dim (a : PkT) : ℕ := a.intdim + a.realdim

/-- the points of a polyhedron (coordinates beyond the dimensions are irrelevant) -/
def Gam (K : Type*) [LinearOrder K] [Field K] [IsStrictOrderedRing K] (a : PkT) (x : ℕ → K) : Prop :=
  a.rep.γ (fun i : Fin a.dim => x i)

/-- the representation invariant -/
def Ok (K : Type*) [LinearOrder K] [Field K] [IsStrictOrderedRing K] (a : PkT) : Prop := a.rep.Wf K a.dim

end PkT

/-- The manager of convex polyhedra, with functional operations (`destructive = false`): newpolka/pk_internal.c,
`pk_manager_alloc` (:193-270).  `alg` is `man->option.funopt[..].algorithm`, `o` the options derived from it for meet and join.  A null
dereference gives `bot` here; it is excluded for every legal argument by the theorems C88, C89, C101 and C102.
The dimensions of the results: pk_resize.c:220-226, :365-372, pk_expandfold.c:105-135, :260-278 -/
def pkMan (K : Type*) [LinearOrder K] [Field K] [IsStrictOrderedRing K] (alg : ℤ) (o : Opts) : Man K PkT where
  intdim := PkT.intdim
  realdim := PkT.realdim
  Gam := PkT.Gam K
  top i r := ⟨i, r, Rep.top (i + r)⟩
  add a pos n project :=
    ⟨a.intdim + n, a.realdim + (pos.length - n), (Rep.addDimensions false a.dim alg a.rep pos project).getD .bot⟩
  remove a pos n := ⟨a.intdim - n, a.realdim - (pos.length - n), Rep.removeDimensions false a.dim alg a.rep pos⟩
  permute a perm := ⟨a.intdim, a.realdim, Rep.permuteDimensions a.dim alg a.rep (fun v => perm.getD v 0)⟩
  meet a b := ⟨a.intdim, a.realdim, (a.rep.meet a.dim o false b.rep).getD .bot⟩
  join a b := ⟨a.intdim, a.realdim, (a.rep.join a.dim o false b.rep).getD .bot⟩
  expand a d n := ⟨if d < a.intdim then a.intdim + n else a.intdim, if d < a.intdim then a.realdim else a.realdim + n,
    Rep.expand false a.dim a.intdim alg a.rep d n⟩
  fold a d ts := ⟨if d < a.intdim then a.intdim - ts.length else a.intdim,
    if d < a.intdim then a.realdim else a.realdim - ts.length, Rep.fold a.dim alg a.rep d ts⟩
  forget a tdim project := ⟨a.intdim, a.realdim, (Rep.forget a.dim o.lzy a.rep tdim project).getD .bot⟩
  unconstrained a d := a.rep.isDimUnconstrained a.dim d

/-! ## Assignment and substitution -/

namespace PkT

/-- `pk_meet_lincons_array`: newpolka/pk_meetjoin.c:577-592 -/
def meetLincons (lzy : Bool) (a : PkT) (l : List (Lincons ℚ)) : PkT :=
  ⟨a.intdim, a.realdim, (a.rep.meetLincons a.dim a.intdim lzy l).getD .bot⟩

/-- `pk_is_bottom`: newpolka/pk_test.c:24-50 -/
def isBottom (alg : ℤ) (a : PkT) : Bool := a.rep.isBottom a.dim alg

/-- `poly_chernikova`, in the strict mode only -/
def prep (o : Opts) (a : PkT) : PkT := if o.lzy then a else ⟨a.intdim, a.realdim, a.rep.chernikova a.dim⟩

/-- the non-linear branch of `poly_asssub_linexpr_array` (newpolka/pk_assign.c:529-598) and `poly_asssub_linexpr`
(:601-666), which calls `ap_generic_asssub_linexpr_array` (apron/ap_generic.c:247-380) with `destructive = false`; `mlzy` is the
mode of `pk_meet_lincons_array` -/
def asssubGeneric (assign : Bool) (alg : ℤ) (o : Opts) (mlzy : Bool) (a : PkT) (l : List (ℕ × Linexpr ℚ)) (dest : Option PkT) : PkT :=
  let a := a.prep o
  if a.rep = .bot then ⟨a.intdim, a.realdim, .bot⟩
  else (Generic.asssub (pkMan ℚ alg o) (isBottom alg) Generic.mkLincons (meetLincons mlzy) assign a l dest).prep o

/-- `pk_assign_linexpr_array` and `pk_substitute_linexpr_array`: newpolka/pk_assign.c:840-880; `none` is the dereference of an
invalid pointer -/
def asssubLinexpr (assign destr : Bool) (alg : ℤ) (o : Opts) (mlzy : Bool) (a : PkT) (l : List (ℕ × Linexpr ℚ)) (dest : Option PkT) :
    Option PkT :=
  if l.all fun p => p.2.isLinear then
    (Rep.asssubLinear assign destr a.dim o a.rep l (dest.map PkT.rep)).map fun r => ⟨a.intdim, a.realdim, r⟩
  else some (asssubGeneric assign alg o mlzy a l dest)

end PkT

end Poly
end Apron
