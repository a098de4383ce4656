import Verif.Avo.Resize
import Verif.Oct.Transfer

/-!
# Absolute-value octagons: assignments

Model of `avo_hmat_forget_var`, `avo_hmat_assign`, `avo_assign_linexpr_d_fixed_sign` and
`avo_assign_linexpr` (`avoct/avo_transfer.c`).

* the loops on the bounds in the cases `X <- [a,b]`, `X <- -X + [a,b]`, `X <- X + [a,b]` and in the
  general case are those of `hmat_assign` over `2*dim` variables (the general case reads and writes the
  cells of the `dim` variables only): the model calls the model of those; writing `+oo` into the cells of
  `|X|` inside these loops is left out: all of them were set to `+oo` at the beginning
  (lines 619-629) and a sum with `+oo` is `+oo`;
* `avo_uexpr_of_linexpr` is `Oct.uexprOf` with no integer dimension, as in `Avo/Transfer`;
* the flags are not modelled; `none` stands for undefined behaviour (a `NULL` pointer is read).
-/

set_option autoImplicit false
set_option linter.unusedSectionVars false
set_option linter.ambiguousOpen false

namespace Apron
namespace Avo
open Bound Oct
variable {K : Type*} [LinearOrder K] [Field K] [IsStrictOrderedRing K] (R : Rnd K) (alg : ℤ)

/-- `avo_hmat_forget_var`: avoct/avo_transfer.c:583-606; the diagonal is kept -/
def forgetVar (dim : ℕ) (m : Mem K) (d : ℕ) : Mem K :=
  let d2 := 2 * d
  setAll (setAll m (forgetPos dim d2) pinf) [matpos2 d2 (d2 + 1), matpos2 (d2 + 1) d2,
    matpos2 (d2 + 2 * dim) (d2 + 1 + 2 * dim), matpos2 (d2 + 1 + 2 * dim) (d2 + 2 * dim),
    matpos2 d2 (d2 + 1 + 2 * dim), matpos2 (d2 + 1) (d2 + 2 * dim), matpos2 (d2 + 2 * dim) (d2 + 1),
    matpos2 (d2 + 1 + 2 * dim) d2] pinf

/-- the cells of the absolute value of the assigned variable, its diagonal included:
avoct/avo_transfer.c:619-629 (the same for `m` and `nsc`) -/
def clearAbs (dim : ℕ) (m : Mem K) (d : ℕ) : Mem K :=
  setAll m ((List.range (4 * dim)).flatMap fun i => [matpos2 (2 * d + 2 * dim) i,
    matpos2 (2 * d + 2 * dim + 1) i, matpos2 i (2 * d + 2 * dim), matpos2 i (2 * d + 2 * dim + 1)]) pinf

/-- the marks in `X <- [-a,b]` keeping the closure: avoct/avo_transfer.c:637, 639, 648, 650; the marks of
the unary constraints of `X` are not written -/
def zeroMarks (dim d : ℕ) (n : Mem K) : Mem K :=
  let n := (List.range (2 * d)).foldl (fun (n : Mem K) k =>
    let n1 := n.set (matpos2 (2 * d) k) (n (matpos (k ^^^ 1) k))
    n1.set (matpos2 (2 * d + 1) k) (n1 (matpos (k ^^^ 1) k))) n
  (List.range' (2 * d + 2) (4 * dim - (2 * d + 2))).foldl (fun (n : Mem K) k =>
    let n1 := n.set (matpos2 k (2 * d)) (n (matpos2 k (k ^^^ 1)))
    n1.set (matpos2 k (2 * d + 1)) (n1 (matpos2 k (k ^^^ 1)))) n

/-- the marks in `X <- -X + [-a,b]`: avoct/avo_transfer.c:687, 689, 698, 700; the second assignment reads
the cell the first one has just written -/
def negMarks (dim d : ℕ) (n : Mem K) : Mem K :=
  let n := (List.range (2 * d)).foldl (fun (n : Mem K) k =>
    let n1 := n.set (matpos2 (2 * d) k) (n (matpos2 (2 * d + 1) k))
    n1.set (matpos2 (2 * d + 1) k) (n1 (matpos2 (2 * d) k))) n
  (List.range' (2 * d + 2) (4 * dim - (2 * d + 2))).foldl (fun (n : Mem K) k =>
    let n1 := n.set (matpos2 k (2 * d)) (n (matpos2 k (2 * d + 1)))
    n1.set (matpos2 k (2 * d + 1)) (n1 (matpos2 k (2 * d)))) n

/-- the bounds of the general assignment: avoct/avo_transfer.c:745-826; the scratch cells read by the
tests of lines 787-791, 815-819 (index `dim`) were last written by `bounds_mul` for the last variable -/
def assignGen (dst : ℕ → Bound K) (dim d : ℕ) (m : Mem K) : Mem K :=
  let up := accum R (fun i => (prodBounds R dst m i).2) dim (mul2 R (dst 1))
  let lo := accum R (fun i => (prodBounds R dst m i).1) dim (mul2 R (dst 0))
  let l := dim - 1
  let s0 := mul R (m (matpos (2 * l + 1) (2 * l))) (dst (2 * l + 3))
  let s1 := mul R (m (matpos (2 * l) (2 * l + 1))) (dst (2 * l + 2))
  let m := forgetVar dim m d
  assignLower R dst dim d lo s0 s1 (assignUpper R dst dim d up s0 s1 m)

/-- `avo_hmat_assign`: avoct/avo_transfer.c:612-828; the result of the incremental closure is not tested -/
def hmatAssign (u : UExpr) (dst : ℕ → Bound K) (dim d : ℕ) (m n : Mem K) (respect : Bool) : SMem K :=
  let m := clearAbs dim m d
  let n := clearAbs dim n d
  if u.type = .zero then
    let m' := if respect then assignZeroClosed R dst (2 * dim) d m else forgetVar dim m d
    let n' := if respect then zeroMarks dim d n else forgetVar dim n d
    AvoT.zip ((m'.set (matpos (2 * d) (2 * d + 1)) (mul2 R (dst 0))).set
      (matpos (2 * d + 1) (2 * d)) (mul2 R (dst 1))) n'
  else if u.type = .unary ∧ u.i ≠ d then
    let m := forgetVar dim m d
    let n := forgetVar dim n d
    let i := signed u.i u.coefI
    let m := (m.set (matpos2 (2 * d) i) (dst 0)).set (matpos2 i (2 * d)) (dst 1)
    if respect then (closeIncremental R alg dim (AvoT.zip m n) d).2 else AvoT.zip m n
  else if u.type = .unary ∧ u.coefI = -1 then AvoT.zip (assignNeg R dst (2 * dim) d m) (negMarks dim d n)
  else if u.type = .unary ∧ u.coefI = 1 then AvoT.zip (assignShift R dst (2 * dim) d m) n
  else AvoT.zip (assignGen R dst dim d m) (forgetVar dim n d)

end Avo

namespace AvoT
open Bound Oct Avo
variable {K : Type*} [LinearOrder K] [Field K] [IsStrictOrderedRing K] [FloorRing K] (R : Rnd K) (alg : ℤ)

/-- the intersection with `dest`: avoct/avo_transfer.c:981-988, 1051-1059 -/
def meetDest (M : SMem K) (dest : Option (AvoT K)) : Option (SMem K) :=
  match dest with
  | none => some M
  | some b => b.best.bind fun m2 => b.nsc.map fun n2 => fun q => SB.min (M q) (AvoT.zip m2 n2 q)

/-- `avo_assign_linexpr_d_fixed_sign`: avoct/avo_transfer.c:934-991 -/
def assignFixed (algo : ℤ) (a : AvoT K) (d : ℕ) (e : Linexpr K) (dest : Option (AvoT K)) : Option (AvoT K) :=
  let ud := uexprOf R e 0
  if (dest.map fun b => b.best.isNone) = some true then some (bottom a.dim a.intdim)
  else if ud.1.type = .empty then some (bottom a.dim a.intdim)
  else
    (if ud.1.type ≠ .unary ∨ ud.1.i ≠ d then cacheIf R alg algo a else some a).bind fun a =>
    match a.best with
    | none => some (bottom a.dim a.intdim)
    | some m => a.nsc.bind fun n =>
      (meetDest (hmatAssign R alg ud.1 ud.2 a.dim d m n
        (a.closed.isSome && decide (0 ≤ algo) && dest.isNone)) dest).map (ofM a.dim a.intdim)

/-- the copy with `x <= 0`: avoct/avo_transfer.c:1019-1026, 1038 (the incremental closure is not tested) -/
def negPart (dim d : ℕ) (m n : Mem K) : SMem K :=
  (Avo.closeIncremental R alg dim (AvoT.zip (m.set (matpos2 (2 * d + 1) (2 * d)) (fin 0))
    (n.set (matpos2 (2 * d + 1) (2 * d)) pinf)) d).2

/-- the copy with `x >= 0`: avoct/avo_transfer.c:1020-1028, 1039; the mark that is cleared is the one of
the upper bound -/
def posPart (dim d : ℕ) (m n : Mem K) : SMem K :=
  (Avo.closeIncremental R alg dim (AvoT.zip (m.set (matpos2 (2 * d) (2 * d + 1)) (fin 0))
    (n.set (matpos2 (2 * d + 1) (2 * d)) pinf)) d).2

/-- `avo_assign_linexpr`: avoct/avo_transfer.c:995-1072 -/
def assignLinexpr (algo : ℤ) (a : AvoT K) (d : ℕ) (e : Linexpr K) (dest : Option (AvoT K)) :
    Option (AvoT K) :=
  a.best.bind fun m =>
    if m (matpos2 (2 * d + 1) (2 * d)) ≤ fin 0 ∨ m (matpos2 (2 * d) (2 * d + 1)) ≤ fin 0 then
      assignFixed R alg algo a d e dest
    else a.nsc.bind fun n =>
      (assignFixed R alg algo (ofClosed a.dim a.intdim (negPart R alg a.dim d m n)) d e none).bind fun a1 =>
      (assignFixed R alg algo (ofClosed a.dim a.intdim (posPart R alg a.dim d m n)) d e none).bind fun a2 =>
      (join R alg algo a1 a2).bind fun r =>
      match dest with
      | none => some r
      | some b => r.m.bind fun mr => r.nsc.bind fun nr => (meetDest (AvoT.zip mr nr) (some b)).map fun M =>
        { r with m := some fun q => (M q).1, nsc := some fun q => (M q).2 }

end AvoT
end Apron
