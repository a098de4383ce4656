import Verif.Core.Dim
import Verif.Box.ResizeLemmas
import Mathlib.Data.List.Sort

/-!
# Linear expressions: access, change of dimensions, tests, comparison

`apron/ap_linexpr0.c` and the comparisons of `apron/ap_scalar.c`, `ap_interval.c`, `ap_coeff.c` it
uses.

Simplifications.
* A pointer to a coefficient is the index of its slot.
* The additions of dimension numbers do not wrap around at 2^32.
* `qsort` is insertion sort; the theorems using it assume distinct keys, so every sorting function
  gives the same result.
-/

set_option autoImplicit false
set_option linter.unusedSectionVars false
set_option linter.ambiguousOpen false

namespace Apron
open Bound
variable {K : Type*}

namespace Linexpr

section
variable [Zero K]

/-- `ap_coeff_init(&..,AP_COEFF_SCALAR)`: apron/ap_coeff.c:20-31 (a scalar initialised to 0.0) -/
def czero : Coeff K := .scalar (fin 0)

/-- `ap_linexpr0_alloc`: apron/ap_linexpr0.c:19-42 -/
def allocDense (size : ℕ) : Linexpr K := ⟨czero, .dense (List.replicate size czero)⟩
/-- `ap_linexpr0_alloc`: apron/ap_linexpr0.c:19-42 -/
def allocSparse (size : ℕ) : Linexpr K := ⟨czero, .sparse (List.replicate size (dimMax, czero))⟩

/-- `ap_linexpr0_realloc` on a sparse array: apron/ap_linexpr0.c:64-82 -/
def reallocSparse (l : List (ℕ × Coeff K)) (size : ℕ) : List (ℕ × Coeff K) :=
  l.take size ++ List.replicate (size - l.length) (dimMax, czero)

/-- `ap_linexpr0_realloc` on a dense array: apron/ap_linexpr0.c:49-63 -/
def reallocDense (l : List (Coeff K)) (size : ℕ) : List (Coeff K) :=
  l.take size ++ List.replicate (size - l.length) czero

/-- `ap_linexpr0_realloc`: apron/ap_linexpr0.c:44-84 -/
def realloc (e : Linexpr K) (size : ℕ) : Linexpr K :=
  match e.body with
  | .dense l => { e with body := .dense (reallocDense l size) }
  | .sparse l => { e with body := .sparse (reallocSparse l size) }

end

/-- the linear search of `index_of_or_after_dim`: apron/ap_linexpr0.c:376-381 -/
def scanDim (dim : ℕ) : List ℕ → ℕ
  | [] => 0
  | d :: l => if dim ≤ d then 0 else scanDim dim l + 1

/-- `index_of_or_after_dim`: apron/ap_linexpr0.c:373-392, on the dimensions of the terms -/
def indexOf (dim : ℕ) (l : List ℕ) : ℕ :=
  if h : l.length ≤ 10 then scanDim dim l
  else if dim = l.getD (l.length / 2) 0 then l.length / 2
  else if dim < l.getD (l.length / 2) 0 then indexOf dim (l.take (l.length / 2))
  else l.length / 2 + 1 + indexOf dim (l.drop (l.length / 2 + 1))
termination_by l.length
decreasing_by
  all_goals simp only [List.length_take, List.length_drop]; omega

section
variable [Zero K]

/-- the sparse case of `ap_linexpr0_coeffref`: apron/ap_linexpr0.c:401-424; the new array and the
index of the returned coefficient -/
def coeffrefSparse (l : List (ℕ × Coeff K)) (dim : ℕ) : List (ℕ × Coeff K) × ℕ :=
  let index := indexOf dim (l.map Prod.fst)
  if index ≥ l.length ∨ dim ≠ (l.getD index (0, czero)).1 then
    if index < l.length ∧ (l.getD index (0, czero)).1 = dimMax then
      (l.set index (dim, (l.getD index (0, czero)).2), index)
    else
      let l1 := if l.length = 0 ∨ (l.getD (l.length - 1) (0, czero)).1 ≠ dimMax then
        reallocSparse l (l.length + 1) else l
      let l2 := if index < l1.length - 1 then
        l1.take index ++ l1.getD (l1.length - 1) (0, czero) :: (l1.drop index).dropLast else l1
      (l2.set index (dim, (l2.getD index (0, czero)).2), index)
  else (l, index)

/-- `ap_linexpr0_coeffref`: apron/ap_linexpr0.c:394-428; `none` for `NULL` -/
def coeffref (e : Linexpr K) (dim : ℕ) : Option (Linexpr K × ℕ) :=
  match e.body with
  | .dense l => if dim < l.length then some (e, dim) else none
  | .sparse l =>
    if dim = dimMax then none
    else some ({ e with body := .sparse (coeffrefSparse l dim).1 }, (coeffrefSparse l dim).2)

/-- write through the pointer to the coefficient of index `i` -/
def writeAt (e : Linexpr K) (i : ℕ) (c : Coeff K) : Linexpr K :=
  match e.body with
  | .dense l => { e with body := .dense (l.set i c) }
  | .sparse l => { e with body := .sparse (l.set i ((l.getD i (0, czero)).1, c)) }

/-- `ap_linexpr0_set_coeff`: apron/ap_linexpr0.h:355-357; `none` when the call returns `true`
(error) -/
def setCoeff (e : Linexpr K) (dim : ℕ) (c : Coeff K) : Option (Linexpr K) :=
  (coeffref e dim).map fun r => writeAt r.1 r.2 c

/-- `ap_linexpr0_get_coeff`: apron/ap_linexpr0.c:432-460; `none` when the call returns `true`
(error) -/
def getCoeff (e : Linexpr K) (dim : ℕ) : Option (Coeff K) :=
  match e.body with
  | .dense l => if dim < l.length then some (l.getD dim czero) else none
  | .sparse l =>
    if dim = dimMax then none
    else
      let index := indexOf dim (l.map Prod.fst)
      if index < l.length ∧ dim = (l.getD index (0, czero)).1 then some (l.getD index (0, czero)).2
      else some czero

end

/-! ## Change of dimensions -/

/-- the inner `while` of `ap_linexpr0_add_dimensions_with` (sparse) and of
`ap_texpr0_add_dimensions_with`: apron/ap_linexpr0.c:659-661; the first argument bounds the number
of iterations -/
def advance (pos : List ℕ) (d : ℕ) : ℕ → ℕ → ℕ
  | 0, k => k
  | n + 1, k => if k < pos.length ∧ d ≥ pos.getD k 0 then advance pos d n (k + 1) else k

/-- the sparse case of `ap_linexpr0_add_dimensions_with`: apron/ap_linexpr0.c:649-664 -/
def addSparse {A : Type*} (pos : List ℕ) : ℕ → List (ℕ × A) → List (ℕ × A)
  | _, [] => []
  | k, p :: l =>
    if p.1 = dimMax then p :: l
    else
      let k1 := advance pos p.1 pos.length k
      (p.1 + k1, p.2) :: addSparse pos k1 l

/-- the dense case of `ap_linexpr0_add_dimensions_with`: apron/ap_linexpr0.c:665-685.  The loop is
that of `box_add_dimensions` on the reallocated array. -/
def addDense [Zero K] (pos : List ℕ) (l : List (Coeff K)) : List (Coeff K) :=
  let r := reallocDense l (l.length + pos.length)
  (List.range (l.length + pos.length)).map
    (Box.addLoop true (fun i => r.getD i czero) l.length pos czero (l.length + 1) pos.length
      (fun i => r.getD i czero))

/-- `ap_linexpr0_add_dimensions(_with)`: apron/ap_linexpr0.c:630-689 -/
def addDimensions [Zero K] (e : Linexpr K) (pos : List ℕ) : Linexpr K :=
  match e.body with
  | .sparse l => { e with body := .sparse (addSparse pos 0 l) }
  | .dense l => { e with body := .dense (addDense pos l) }

/-- the loop of `ap_linexpr0_permute_dimensions` on a dense array: apron/ap_linexpr0.c:704-707, from
index `i`; `none` for an access outside of an array -/
def permDense (perm : List ℕ) (n : List (Coeff K)) : ℕ → List (Coeff K) → Option (List (Coeff K))
  | _, [] => some n
  | i, c :: l =>
    match perm[i]? with
    | none => none
    | some d => if d < n.length then permDense perm (n.set d c) (i + 1) l else none

/-- the renumbering loop of `ap_linexpr0_permute_dimensions_with` on a sparse array:
apron/ap_linexpr0.c:724-728 -/
def permSparse {A : Type*} (perm : List ℕ) : List (ℕ × A) → Option (List (ℕ × A))
  | [] => some []
  | p :: l =>
    if p.1 = dimMax then (permSparse perm l).map (p :: ·)
    else
      match perm[p.1]? with
      | none => none
      | some d => (permSparse perm l).map ((d, p.2) :: ·)

/-- `ap_linexpr0_permute_dimensions(_with)`: apron/ap_linexpr0.c:691-747 -/
def permuteDimensions (e : Linexpr K) (perm : List ℕ) : Option (Linexpr K) :=
  match e.body with
  | .sparse l => (permSparse perm l).map fun l' =>
      { e with body := .sparse (l'.insertionSort fun a b => a.1 ≤ b.1) }
  | .dense l => (permDense perm l 0 l).map fun l' => { e with body := .dense l' }

/-! ## Tests -/

section
variable [LinearOrder K] [Field K]

/-- `ap_coeff_zero`: apron/ap_coeff.c:300-310 -/
def _root_.Apron.Coeff.isZero : Coeff K → Bool
  | .scalar b => decide (sgn b = 0)
  | .interval l u => decide (sgn l = 0) && decide (sgn u = 0)

/-- `ap_linexpr0_minimize`: apron/ap_linexpr0.c:86-121 -/
def minimize (e : Linexpr K) : Linexpr K :=
  match e.body with
  | .dense l => { e with body := .dense (l.map Coeff.reduce) }
  | .sparse l => { e with body := .sparse ((l.map fun p => (p.1, p.2.reduce)).filter
      fun p => !p.2.isZero && decide (p.1 ≠ dimMax)) }

/-- the loop of `ap_linexpr0_is_real`: apron/ap_linexpr0.c:259-262 -/
def isRealLoop (intdim : ℕ) : List (ℕ × Coeff K) → Bool
  | [] => true
  | p :: l => if p.1 ≥ intdim then true else if !p.2.isZero then false else isRealLoop intdim l

/-- `ap_linexpr0_is_real`: apron/ap_linexpr0.c:254-265 -/
def isReal (e : Linexpr K) (intdim : ℕ) : Bool := isRealLoop intdim e.terms

/-- `ap_linexpr0_is_integer`: apron/ap_linexpr0.c:268-291 -/
def isInteger (e : Linexpr K) (intdim : ℕ) : Bool :=
  match e.body with
  | .dense l => (l.drop intdim).all Coeff.isZero
  | .sparse _ => e.terms.all fun p => !(decide (p.1 ≥ intdim) && !p.2.isZero)

/-- `ap_linexpr0_is_linear`: apron/ap_linexpr0.c:312-327 -/
def isLinear (e : Linexpr K) : Bool := e.cst.isScalar && e.terms.all fun p => p.2.isScalar

/-- `ap_linexpr0_is_quasilinear`: apron/ap_linexpr0.c:329-342 -/
def isQuasilinear (e : Linexpr K) : Bool := e.terms.all fun p => p.2.isScalar

/-- `ap_linexpr_type_t`: apron/ap_linexpr0.h:76-80 (in the order of the enumeration) -/
inductive LType | intlinear | quasilinear | linear
  deriving DecidableEq, Repr

/-- the value of the enumeration -/
def LType.toNat : LType → ℕ
  | .intlinear => 0
  | .quasilinear => 1
  | .linear => 2

/-- `ap_linexpr0_type`: apron/ap_linexpr0.c:294-310 -/
def type (e : Linexpr K) : LType :=
  if e.terms.any fun p => !p.2.isScalar then .intlinear
  else if !e.cst.isScalar then .quasilinear else .linear

/-- the loop of `ap_linexpr0_array_type`: apron/ap_linexpr0.c:347-351 -/
def arrayTypeLoop (res : LType) : List (Linexpr K) → LType
  | [] => res
  | e :: l =>
    let r := if (type e).toNat < res.toNat then type e else res
    if r = .intlinear then r else arrayTypeLoop r l

/-- `ap_linexpr0_array_type`: apron/ap_linexpr0.c:343-353 -/
def arrayType (l : List (Linexpr K)) : LType := arrayTypeLoop .linear l

end
end Linexpr
end Apron
