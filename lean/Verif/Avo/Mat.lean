import Verif.Oct.ClosureSound

/-!
# Absolute-value octagons: bounds with strictness, half-matrices

Model of the operations on pairs of bounds of `avoct/avo_internal.h` 530-569 and of the matrices
of `avoct/avo_hmat.c`.

An absolute-value octagon over `dim` variables is a half-matrix over the `2*dim` quantities
`x_0 .. x_{dim-1}, |x_0| .. |x_{dim-1}|` (avo_hmat.c:24-80); the layout is that of octagons
(`avo_matpos`, `avo_matpos2`, `avo_matsize(dim)` = `matsize (2*dim)`, avo_internal.h:157-178).  A
second half-matrix `nsc` of the same shape tells which constraints are strict: `+oo` for `<=`, a
smaller value (the code writes `0`) for `<`.  The two arrays are always accessed at the same
position, so they are modelled by one memory of pairs.
-/

set_option autoImplicit false
set_option linter.unusedSectionVars false
set_option linter.ambiguousOpen false

namespace Apron
namespace Avo
open Bound Oct
variable {K : Type*} [LinearOrder K] [Field K] [IsStrictOrderedRing K] (R : Rnd K)

/-- a bound `m[p]` with its strictness `nsc[p]` -/
abbrev SB (K : Type*) := Bound K × Bound K

/-- Specification: the value `v` satisfies the constraint `v <= b` or `v < b` -/
def Ok (v : K) (b : SB K) : Prop := fin v ≤ b.1 ∧ (b.2 ≠ pinf → fin v < b.1)

/-- the test `order<0 || (order==0 && bound_cmp(nsc1,*des_nsc)<0)`: avo_internal.h:544, 556 -/
def SB.lt (v d : SB K) : Prop := v.1 < d.1 ∨ (v.1 = d.1 ∧ v.2 < d.2)

instance (v d : SB K) : Decidable (SB.lt v d) := inferInstanceAs (Decidable (_ ∨ _))

/-- `bound_bmin_nsc`: avoct/avo_internal.h:552-560 -/
def SB.min (d v : SB K) : SB K := if infty v.1 then d else if SB.lt v d then v else d

/-- `bound_bmax_nsc`: avoct/avo_internal.h:562-569 -/
def SB.max (d v : SB K) : SB K := if SB.lt d v then v else d

/-- the end of `bound_add_nsc`: avoct/avo_internal.h:543-547 -/
def SB.low (d v : SB K) : SB K := if SB.lt v d then v else d

/-- `bound_add` of the bounds, `bound_min` of the strictness -/
def SB.add (a b : SB K) : SB K := (Bound.add R a.1 b.1, bmin a.2 b.2)

/-- the sum computed by `bound_add_nsc`: avoct/avo_internal.h:538-541 -/
def SB.addNsc (a b : SB K) : SB K :=
  let t := Bound.add R a.1 b.1
  (t, if infty t then pinf else bmin a.2 b.2)

/-- `bound_div_2` of the bound, same strictness -/
def SB.half (a : SB K) : SB K := (div2 R a.1, a.2)

/-- `bound_mul_2` of the bound, same strictness -/
def SB.dbl (a : SB K) : SB K := (mul2 R a.1, a.2)

/-- the two half-matrices `m`, `nsc` -/
abbrev SMem (K : Type*) := ℕ → SB K

/-- `bound_bmin_nsc(m+p,nsc+p,v)` -/
def SMem.bmin (M : SMem K) (p : ℕ) (v : SB K) : SMem K :=
  fun q => if q = p then SB.min (M p) v else M q

/-- `bound_add_nsc(m+p,nsc+p,a,b)` -/
def SMem.addTo (M : SMem K) (p : ℕ) (a b : SB K) : SMem K :=
  fun q => if q = p then SB.low (M p) (SB.addNsc R a b) else M q

/-- `bound_set(m[p],v); bound_set(nsc[p],v')` -/
def SMem.set (M : SMem K) (p : ℕ) (v : SB K) : SMem K := fun q => if q = p then v else M q

/-- Specification: the `N` quantities `y` satisfy every constraint of the half-matrix -/
def GSat (N : ℕ) (M : SMem K) (y : ℕ → K) : Prop :=
  ∀ i j, i < 2 * N → Cell i j → Ok (V y j - V y i) (M (matpos i j))

/-- the quantities `x_0 .. x_{dim-1}, |x_0| .. |x_{dim-1}|` -/
def ext (dim : ℕ) (x : ℕ → K) : ℕ → K := fun k => if k < dim then x k else |x (k - dim)|

/-- Specification: the point `x` satisfies every constraint of the absolute-value octagon -/
def SSat (dim : ℕ) (M : SMem K) (x : ℕ → K) : Prop := GSat (2 * dim) M (ext dim x)

/-- `avo_hmat_alloc_top` with `avo_hmat_alloc_top_nsc`: avoct/avo_hmat.c:105-125 -/
def allocTop (dim : ℕ) : SMem K :=
  (List.range (4 * dim)).foldl (fun M i => M.set (matpos i i) (fin 0, pinf))
    (fun _ => (pinf, pinf))

end Avo
end Apron
