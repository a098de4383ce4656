import Verif.Oct.Mat

/-!
# Octagon closure algorithms: model of `octagons/oct_closure.c`

In-place algorithms: every loop is a fold over the memory, cells are read at the same moment as
in the code.  The running pointer `c` of the code is replaced by the cell position `matpos i j`
it has reached (rows are contiguous, see `row_step`).
-/

set_option autoImplicit false
set_option linter.unusedSectionVars false
set_option linter.ambiguousOpen false

namespace Apron
namespace Oct
open Bound
variable {K : Type*} [LinearOrder K] [Field K] [IsStrictOrderedRing K] (R : Rnd K)

/-- body of the two inner loops of `hmat_close` (octagons/oct_closure.c:87-98), also of
`hmat_close_incremental` (139-150 and 180-191) -/
def closeCell (k i : ℕ) (ik ik2 : Bound K) (m : Mem K) (j : ℕ) : Mem K :=
  if j ≤ min k (i ||| 1) then
    let m1 := m.bmin (matpos i j) (add R ik (m (matpos k j)))
    m1.bmin (matpos i j) (add R ik2 (m1 (matpos (k ^^^ 1) j)))
  else
    let m1 := m.bmin (matpos i j) (add R ik (m (matpos (j ^^^ 1) (k ^^^ 1))))
    m1.bmin (matpos i j) (add R ik2 (m1 (matpos (j ^^^ 1) k)))

/-- one row for pivot `k`: octagons/oct_closure.c:83-98 (also 133-150: the row of `v`) -/
def closeRow (k : ℕ) (m : Mem K) (i : ℕ) : Mem K :=
  (List.range ((i ||| 1) + 1)).foldl
    (closeCell R k i (m (matpos2 i k)) (m (matpos2 i (k ^^^ 1)))) m

/-- one pivot: octagons/oct_closure.c:79-99 -/
def closePivot (dim : ℕ) (m : Mem K) (k : ℕ) : Mem K :=
  (List.range (2 * dim)).foldl (closeRow R k) m

/-- the Floyd-Warshall loop of `hmat_close`: octagons/oct_closure.c:78-101 -/
def closeFW (dim : ℕ) (m : Mem K) : Mem K :=
  (List.range (2 * dim)).foldl (closePivot R dim) m

/-- inner body of `hmat_s_step`: octagons/oct_closure.c:44-48 -/
def sCell (i : ℕ) (ij : Bound K) (m : Mem K) (j : ℕ) : Mem K :=
  m.bmin (matpos i j) (add R (div2 R (m (matpos (j ^^^ 1) j))) ij)

/-- one row of `hmat_s_step`: octagons/oct_closure.c:42-49 -/
def sRow (m : Mem K) (i : ℕ) : Mem K :=
  (List.range ((i ||| 1) + 1)).foldl (sCell R i (div2 R (m (matpos i (i ^^^ 1))))) m

/-- emptiness check of `hmat_s_step`: octagons/oct_closure.c:54-59 (`true`: empty) -/
def sDiag : List ℕ → Mem K → Bool × Mem K
  | [], m => (false, m)
  | i :: l, m =>
    if sgn (m (matpos i i)) < 0 then (true, m) else sDiag l (m.set (matpos i i) (fin 0))

/-- `hmat_s_step`: octagons/oct_closure.c:32-62 -/
def sStep (dim : ℕ) (m : Mem K) : Bool × Mem K :=
  sDiag (List.range (2 * dim)) ((List.range (2 * dim)).foldl (sRow R) m)

/-- `hmat_close`: octagons/oct_closure.c:72-106 -/
def close (dim : ℕ) (m : Mem K) : Bool × Mem K := sStep R dim (closeFW R dim m)

/-- `v` in second end-point position: octagons/oct_closure.c:154-167 -/
def incColCell (k i : ℕ) (ik ik2 : Bound K) (m : Mem K) (j : ℕ) : Mem K :=
  if j < k then
    let m1 := m.bmin (matpos j i) (add R ik (m (matpos (k ^^^ 1) (j ^^^ 1))))
    m1.bmin (matpos j i) (add R ik2 (m1 (matpos k (j ^^^ 1))))
  else
    let m1 := m.bmin (matpos j i) (add R ik (m (matpos j k)))
    m1.bmin (matpos j i) (add R ik2 (m1 (matpos j (k ^^^ 1))))

/-- octagons/oct_closure.c:152-167 -/
def incCol (dim k : ℕ) (m : Mem K) (i : ℕ) : Mem K :=
  (List.range' i (2 * dim - i)).foldl
    (incColCell R k i (m (matpos2 k i)) (m (matpos2 (k ^^^ 1) i))) m

/-- first loop nest of `hmat_close_incremental`, one pivot: octagons/oct_closure.c:128-169 -/
def incEnd (dim v : ℕ) (m : Mem K) (k : ℕ) : Mem K :=
  [2 * v, 2 * v + 1].foldl (fun m i => incCol R dim k (closeRow R k m i) i) m

/-- `hmat_close_incremental`: octagons/oct_closure.c:120-197 -/
def closeIncremental (dim : ℕ) (m : Mem K) (v : ℕ) : Bool × Mem K :=
  sStep R dim
    ([2 * v, 2 * v + 1].foldl (closePivot R dim)
      ((List.range (2 * dim)).foldl (incEnd R dim v) m))

end Oct
end Apron
