import Verif.Texpr.Defs
import Verif.Core.Compare
import Verif.Core.Dim

/-!
# Structural operations on expression trees

`apron/ap_texpr0.c`, sections I (conversion), III (tests, size), IV (substitution), V (changes of
dimensions) and VI (hashing, comparison), and the check made by `apron/ap_abstract0.c` before a domain is
given a tree.

Simplifications.
* Copies are not modelled: the functions modify their argument in place (`.._with`) or a copy of it.
* Dimensions are natural numbers: `dim+1` in `ap_texpr0_max_dim` would wrap on the dimension `AP_DIM_MAX`,
  which the library uses for "no dimension".
* Trees are not `NULL`.
-/

set_option autoImplicit false
set_option linter.unusedSectionVars false
set_option linter.ambiguousOpen false

namespace Apron
namespace Texpr
open Bound

variable {K : Type*} [LinearOrder K] [Field K] [IsStrictOrderedRing K]

/-- `ap_texpr0_from_linexpr0`: apron/ap_texpr0.c:230-246 -/
def ofLinexpr (e : Linexpr K) : Texpr K :=
  e.terms.foldl (fun res p => .bin .add .real .rnd res (.bin .mul .real .rnd (.cst p.2) (.dim p.1))) (.cst e.cst)

/-- `ap_texpr0_node_exact` on a unary node: apron/ap_texpr0.c:269-274 -/
def exactUn (op : UnOp) (t : RType) : Bool := decide (op = .neg) || decide (t = .real)
/-- `ap_texpr0_node_exact` on a binary node: apron/ap_texpr0.c:269-274 -/
def exactBin (op : BinOp) (t : RType) : Bool := decide (op = .mod) || decide (t = .real)

/-- `ap_texpr0_depth`: apron/ap_texpr0.c:340-356 -/
def depth : Texpr K → ℕ
  | .cst _ | .dim _ => 0
  | .un _ _ _ a => 1 + (if a.depth > 0 then a.depth else 0)
  | .bin _ _ _ a b => 1 + (if a.depth > b.depth then a.depth else b.depth)

/-- `ap_texpr0_size`: apron/ap_texpr0.c:358-371 -/
def size : Texpr K → ℕ
  | .cst _ | .dim _ => 0
  | .un _ _ _ a => 1 + a.size + 0
  | .bin _ _ _ a b => 1 + a.size + b.size

/-- `ap_texpr0_max_dim_internal`: apron/ap_texpr0.c:374-389 -/
def maxDimFrom : Texpr K → ℕ → ℕ
  | .cst _, m => m
  | .dim d, m => if d + 1 > m then d + 1 else m
  | .un _ _ _ a, m => maxDimFrom a m
  | .bin _ _ _ a b, m => maxDimFrom b (maxDimFrom a m)

/-- `ap_texpr0_max_dim`: apron/ap_texpr0.c:391-394 -/
def maxDim (e : Texpr K) : ℕ := maxDimFrom e 0

/-- `ap_texpr0_has_dim`: apron/ap_texpr0.c:396-412 -/
def hasDim : Texpr K → ℕ → Bool
  | .cst _, _ => false
  | .dim d', d => decide (d' = d)
  | .un _ _ _ a, d => hasDim a d || false
  | .bin _ _ _ a b, d => hasDim a d || hasDim b d

/-- `ap_texpr0_dimlist_internal`: apron/ap_texpr0.c:415-431; `none` on a write outside of the vector -/
def dimlistFill : Texpr K → List Bool → Option (List Bool)
  | .cst _, v => some v
  | .dim d, v => if d < v.length then some (v.set d true) else none
  | .un _ _ _ a, v => dimlistFill a v
  | .bin _ _ _ a b, v => (dimlistFill a v).bind (dimlistFill b)

/-- `ap_texpr0_dimlist`: apron/ap_texpr0.c:433-464; the array without its terminator `AP_DIM_MAX` -/
def dimlist (e : Texpr K) : Option (List ℕ) :=
  let max := e.maxDim
  if max = 0 then some []
  else (dimlistFill e (List.replicate max false)).map fun v =>
    (List.range max).filter fun i => v.getD i false

/-- `ap_texpr0_is_interval_cst`: apron/ap_texpr0.c:466-482 -/
def isIntervalCst : Texpr K → Bool
  | .cst _ => true
  | .dim _ => false
  | .un _ _ _ a => isIntervalCst a && true
  | .bin _ _ _ a b => isIntervalCst a && isIntervalCst b

/-- `ap_texpr0_is_scalar`: apron/ap_texpr0.c:484-503 -/
def isScalar : Texpr K → Bool
  | .cst (.scalar _) => true
  | .cst (.interval l u) => scalarEqual l u
  | .dim _ => true
  | .un _ _ _ a => isScalar a && true
  | .bin _ _ _ a b => isScalar a && isScalar b

/-- `ap_texpr0_is_interval_linear`: apron/ap_texpr0.c:505-545 -/
def isIntervalLinear : Texpr K → Bool
  | .cst _ | .dim _ => true
  | .un .neg _ _ a => isIntervalLinear a
  | .un .cast t _ a => exactUn .cast t && isIntervalLinear a
  | .un .sqrt _ _ _ => false
  | .bin .add t _ a b => exactBin .add t && isIntervalLinear a && isIntervalLinear b
  | .bin .sub t _ a b => exactBin .sub t && isIntervalLinear a && isIntervalLinear b
  | .bin .mul t _ a b => exactBin .mul t &&
      ((isIntervalLinear a && isIntervalCst b) || (isIntervalLinear b && isIntervalCst a))
  | .bin .div t _ a b => exactBin .div t && isIntervalLinear a && isIntervalCst b
  | .bin _ _ _ _ _ => false

/-- `ap_texpr0_is_interval_polynomial`: apron/ap_texpr0.c:547-586 -/
def isIntervalPolynomial : Texpr K → Bool
  | .cst _ | .dim _ => true
  | .un .neg _ _ a => isIntervalPolynomial a
  | .un .cast t _ a => exactUn .cast t && isIntervalPolynomial a
  | .un .sqrt _ _ _ => false
  | .bin .add t _ a b => exactBin .add t && isIntervalPolynomial a && isIntervalPolynomial b
  | .bin .sub t _ a b => exactBin .sub t && isIntervalPolynomial a && isIntervalPolynomial b
  | .bin .mul t _ a b => exactBin .mul t && isIntervalPolynomial a && isIntervalPolynomial b
  | .bin .div t _ a b => exactBin .div t && isIntervalPolynomial a && isIntervalCst b
  | .bin .pow t _ a b => exactBin .pow t && isIntervalPolynomial a && isIntervalCst b
  | .bin _ _ _ _ _ => false

/-- `ap_texpr0_is_interval_polyfrac`: apron/ap_texpr0.c:588-623 -/
def isIntervalPolyfrac : Texpr K → Bool
  | .cst _ | .dim _ => true
  | .un .neg _ _ a => isIntervalPolyfrac a
  | .un .cast t _ a => exactUn .cast t && isIntervalPolyfrac a
  | .un .sqrt _ _ _ => false
  | .bin .add t _ a b => exactBin .add t && isIntervalPolyfrac a && isIntervalPolyfrac b
  | .bin .sub t _ a b => exactBin .sub t && isIntervalPolyfrac a && isIntervalPolyfrac b
  | .bin .mul t _ a b => exactBin .mul t && isIntervalPolyfrac a && isIntervalPolyfrac b
  | .bin .div t _ a b => exactBin .div t && isIntervalPolyfrac a && isIntervalPolyfrac b
  | .bin .pow t _ a b => exactBin .pow t && isIntervalPolyfrac a && isIntervalCst b
  | .bin _ _ _ _ _ => false

/-- `ap_texpr0_array_is_template`: apron/ap_texpr0.c:625-634, from the value `res` -/
def arrayIsTemplate (f : Texpr K → Bool) : Bool → List (Texpr K) → Bool
  | res, [] => res
  | _, e :: l => if !(f e) then f e else arrayIsTemplate f (f e) l

/-- `ap_texpr0_substitute(_with)`: apron/ap_texpr0.c:656-682 -/
def substitute (dim : ℕ) (dst : Texpr K) : Texpr K → Texpr K
  | .cst c => .cst c
  | .dim d => if d ≠ dim then .dim d else dst
  | .un op t r a => .un op t r (substitute dim dst a)
  | .bin op t r a b => .bin op t r (substitute dim dst a) (substitute dim dst b)

/-- the loop of `ap_texpr0_add_dimensions_with`: apron/ap_texpr0.c:703-709, from `k` -/
def addShift (d : ℕ) : List ℕ → ℕ → ℕ
  | [], k => k
  | p :: l, k => if d ≥ p then addShift d l (k + 1) else k

/-- `ap_texpr0_add_dimensions(_with)`: apron/ap_texpr0.c:688-719 -/
def addDimensions (pos : List ℕ) : Texpr K → Texpr K
  | .cst c => .cst c
  | .dim d => .dim (d + addShift d pos 0)
  | .un op t r a => .un op t r (addDimensions pos a)
  | .bin op t r a b => .bin op t r (addDimensions pos a) (addDimensions pos b)

/-- the loop of `ap_texpr0_remove_dimensions_with`: apron/ap_texpr0.c:737, from `i`; also whether the
element where the loop stopped is `d` -/
def removeShift (d : ℕ) : List ℕ → ℕ → ℕ × Bool
  | [], i => (i, false)
  | p :: l, i => if d > p then removeShift d l (i + 1) else (i, decide (d = p))

/-- `ap_texpr0_remove_dimensions(_with)`: apron/ap_texpr0.c:720-755 -/
def removeDimensions (pos : List ℕ) : Texpr K → Texpr K
  | .cst c => .cst c
  | .dim d => if (removeShift d pos 0).2 then .cst (.interval ninf pinf) else .dim (d - (removeShift d pos 0).1)
  | .un op t r a => .un op t r (removeDimensions pos a)
  | .bin op t r a b => .bin op t r (removeDimensions pos a) (removeDimensions pos b)

/-- `ap_texpr0_permute_dimensions(_with)`: apron/ap_texpr0.c:756-780; `none` on a read outside of the
permutation -/
def permuteDimensions (perm : List ℕ) : Texpr K → Option (Texpr K)
  | .cst c => some (.cst c)
  | .dim d => (perm[d]?).map .dim
  | .un op t r a => (permuteDimensions perm a).map (.un op t r)
  | .bin op t r a b => (permuteDimensions perm a).bind fun a' => (permuteDimensions perm b).map (.bin op t r a')

/-- numeric values of `ap_texpr_op_t`: apron/ap_texpr0.h:37-49 -/
def UnOp.code : UnOp → ℤ
  | .neg => 6 | .cast => 7 | .sqrt => 8
/-- numeric values of `ap_texpr_op_t`: apron/ap_texpr0.h:37-49 -/
def BinOp.code : BinOp → ℤ
  | .add => 0 | .sub => 1 | .mul => 2 | .div => 3 | .mod => 4 | .pow => 5
/-- numeric values of `ap_texpr_rtype_t`: apron/ap_texpr0.h:53-61 -/
def RType.code : RType → ℤ
  | .real => 0 | .int => 1 | .single => 2 | .double => 3 | .extended => 4 | .quad => 5
/-- numeric values of `ap_texpr_rdir_t`: apron/ap_texpr0.h:64-71 -/
def RDir.code : RDir → ℤ
  | .nearest => 0 | .zero => 1 | .up => 2 | .down => 3 | .rnd => 4

/-- `ap_texpr0_hash`: apron/ap_texpr0.c:786-805, without overflow; `h` is `ap_coeff_hash` -/
def hash (h : Coeff K → ℤ) : Texpr K → ℤ
  | .cst c => h c
  | .dim d => d
  | .un op t r a => UnOp.code op * 17 + RType.code t * 23 + RDir.code r * 4801 + hash h a * 17053 + 0
  | .bin op t r a b => BinOp.code op * 17 + RType.code t * 23 + RDir.code r * 4801 + hash h a * 17053 + hash h b

/-- `ap_texpr0_equal`: apron/ap_texpr0.c:807-828 -/
def equal : Texpr K → Texpr K → Bool
  | .cst c, .cst c' => Coeff.equal c c'
  | .dim d, .dim d' => decide (d = d')
  | .un op t r a, .un op' t' r' a' => decide (op = op') && decide (t = t') && decide (r = r') && equal a a'
  | .bin op t r a b, .bin op' t' r' a' b' =>
      decide (op = op') && decide (t = t') && decide (r = r') && equal a a' && equal b b'
  | _, _ => false

/-- `ap_abstract0_check_texpr` (and `.._check_texpr_array`): apron/ap_abstract0.c:289-315, on a value with
`dim` dimensions -/
def check (dim : ℕ) (e : Texpr K) : Bool := !(decide (e.maxDim > dim))

end Texpr
end Apron
