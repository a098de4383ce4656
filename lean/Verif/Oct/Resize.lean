import Verif.Oct.Defs

/-!
# Model of `octagons/oct_resize.c`: projection, change of dimensions, permutation, expand, fold

The block copies and running pointers of `hmat_addrem_dimensions` and `hmat_permute` are modelled
as they are written.  Freshly allocated, unset memory (`hmat_alloc`) is an arbitrary memory `u`.
Positions `pos` with `nb_pos = 0` read `pos[0]` out of bounds in C; every caller in `ap_abstract0.c`
excludes that case and so do the theorems.
-/

set_option autoImplicit false
set_option linter.unusedSectionVars false
set_option linter.ambiguousOpen false

namespace Apron
namespace Oct
open Bound
variable {K : Type*} [LinearOrder K] [Field K] [IsStrictOrderedRing K]

/-- `bound_set_array(dst+d, src+s, n)`: num/bound_def.h:140-150 -/
def copyArr (dst : Mem K) (d : ℕ) (src : Mem K) (s n : ℕ) : Mem K :=
  fun q => if d ≤ q ∧ q < d + n then src (s + (q - d)) else dst q

/-- the column loop of `hmat_addrem_dimensions`: octagons/oct_resize.c:103-119 -/
def colLoop (add : Bool) (mult : ℕ) (src : Mem K) (oc nc szo : ℕ) :
    List ℕ → ℕ → ℕ → Mem K → Mem K
  | [], oi, ni, dst => copyArr dst (nc + ni) src (oc + oi) (szo - oi)
  | p :: ps, oi, ni, dst =>
    if szo ≤ 2 * p then copyArr dst (nc + ni) src (oc + oi) (szo - oi)
    else
      let dst := copyArr dst (nc + ni) src (oc + oi) (2 * p - oi)
      let ni := ni + (2 * p - oi)
      if add then colLoop add mult src oc nc szo ps (2 * p) (ni + 2 * mult) dst
      else colLoop add mult src oc nc szo ps (2 * p + 2 * mult) ni dst

/-- the line loop of one block: octagons/oct_resize.c:101-124 -/
def lineLoop (add : Bool) (mult : ℕ) (src : Mem K) (pos : List ℕ) :
    ℕ → ℕ → ℕ → ℕ → ℕ → Mem K → Mem K
  | 0, _, _, _, _, dst => dst
  | n + 1, oj, nj, oc, nc, dst =>
    let szo := oj + 2 - oj % 2
    let szn := nj + 2 - nj % 2
    lineLoop add mult src pos n (oj + 1) (nj + 1) (oc + szo) (nc + szn)
      (colLoop add mult src oc nc szo pos 0 0 dst)

/-- the block loop: octagons/oct_resize.c:92-126 -/
def blockLoop (add : Bool) (mult dim : ℕ) (src : Mem K) (pos : List ℕ) :
    List ℕ → ℕ → ℕ → Mem K → Mem K
  | [], _, _, dst => dst
  | _ :: ps, oj, nj, dst =>
    let oj := if add then oj else oj + 2 * mult
    let nj := if add then nj + 2 * mult else nj
    let last := 2 * (ps.head?.getD dim)
    let dst := lineLoop add mult src pos (last - oj) oj nj (matsize (oj / 2)) (matsize (nj / 2)) dst
    blockLoop add mult dim src pos ps (oj + (last - oj)) (nj + (last - oj)) dst

/-- `hmat_addrem_dimensions`: octagons/oct_resize.c:84-127 -/
def addrem (add : Bool) (mult dim : ℕ) (dst src : Mem K) (pos : List ℕ) : Mem K :=
  match pos with
  | [] => dst -- out-of-bounds read of pos[0] in C
  | p :: _ =>
    blockLoop add mult dim src pos pos (2 * p) (2 * p) (copyArr dst 0 src 0 (matsize p))

/-- inner loop of `hmat_permute`: octagons/oct_resize.c:219-226; `s` is the running pointer -/
def permInner (dstDim i : ℕ) (src : Mem K) (perm : ℕ → ℕ) : List ℕ → ℕ → Mem K → Mem K
  | [], _, dst => dst
  | j :: js, s, dst =>
    if 2 * perm j ≥ 2 * dstDim then permInner dstDim i src perm js (s + 2) dst
    else
      permInner dstDim i src perm js (s + 2)
        ((((dst.set (matpos2 (2 * perm i) (2 * perm j)) (src s)).set
          (matpos2 (2 * perm i) (2 * perm j + 1)) (src (s + 1))).set
          (matpos2 (2 * perm i + 1) (2 * perm j)) (src (s + 2 * (i + 1)))).set
          (matpos2 (2 * perm i + 1) (2 * perm j + 1)) (src (s + (2 * (i + 1) + 1))))

/-- outer loop of `hmat_permute`: octagons/oct_resize.c:216-228 -/
def permOuter (dstDim : ℕ) (src : Mem K) (perm : ℕ → ℕ) : List ℕ → ℕ → Mem K → Mem K
  | [], _, dst => dst
  | i :: is, s, dst =>
    if 2 * perm i ≥ 2 * dstDim then permOuter dstDim src perm is (s + 4 * (i + 1)) dst
    else permOuter dstDim src perm is (s + 2 * (i + 1) + 2 * (i + 1))
      (permInner dstDim i src perm (List.range (i + 1)) s dst)

/-- `hmat_permute`: octagons/oct_resize.c:211-229 -/
def hmatPermute (dst src : Mem K) (dstDim srcDim : ℕ) (perm : ℕ → ℕ) : Mem K :=
  permOuter dstDim src perm (List.range srcDim) 0 dst

/-- forgetting one variable: octagons/oct_resize.c:43-62 -/
def forgetVar (dim : ℕ) (project : Bool) (m : Mem K) (d : ℕ) : Mem K :=
  let d2 := 2 * d
  let m := (List.range d2).foldl (fun (m : Mem K) k =>
    (m.set (matpos d2 k) pinf).set (matpos (d2 + 1) k) pinf) m
  let m := (List.range' (d2 + 2) (2 * dim - (d2 + 2))).foldl (fun (m : Mem K) k =>
    (m.set (matpos k d2) pinf).set (matpos k (d2 + 1)) pinf) m
  let v : Bound K := if project then fin 0 else pinf
  (m.set (matpos d2 (d2 + 1)) v).set (matpos (d2 + 1) d2) v

/-- copying the constraints of `dim` to variable `q`: octagons/oct_resize.c:284-295; `n2` is
`2*(a->dim+n)` -/
def expandVar (d n2 : ℕ) (m : Mem K) (q : ℕ) : Mem K :=
  let m := (List.range (2 * d)).foldl (fun (m : Mem K) j =>
    let m1 := m.set (matpos2 (2 * q) j) (m (matpos (2 * d) j))
    m1.set (matpos2 (2 * q + 1) j) (m1 (matpos (2 * d + 1) j))) m
  let m := (List.range' (2 * d + 2) (n2 - (2 * d + 2))).foldl (fun (m : Mem K) j =>
    let m1 := m.set (matpos2 (2 * q) j) (m (matpos (j ^^^ 1) (2 * d + 1)))
    m1.set (matpos2 (2 * q + 1) j) (m1 (matpos (j ^^^ 1) (2 * d)))) m
  let m1 := m.set (matpos2 (2 * q) (2 * q + 1)) (m (matpos2 (2 * d) (2 * d + 1)))
  m1.set (matpos2 (2 * q + 1) (2 * q)) (m1 (matpos2 (2 * d + 1) (2 * d)))

/-- one iteration of the merge loops: octagons/oct_resize.c:331-346 -/
def foldCol (m : Mem K) (d0 : ℕ) (ts : List ℕ) (t : Mem K) (j : ℕ) : Mem K :=
  ts.foldl (fun (t : Mem K) d =>
    let p1 := matpos2 (d0 * 2) j
    let p2 := matpos2 (d0 * 2 + 1) j
    let t1 := t.set p1 (bmax (t p1) (m (matpos2 (d * 2) j)))
    t1.set p2 (bmax (t1 p2) (m (matpos2 (d * 2 + 1) j)))) t

/-- merging the unary constraints: octagons/oct_resize.c:349-356 -/
def foldUnary (m : Mem K) (d0 : ℕ) (ts : List ℕ) (t : Mem K) : Mem K :=
  ts.foldl (fun (t : Mem K) d =>
    let p1 := matpos2 (d0 * 2) (d0 * 2 + 1)
    let p2 := matpos2 (d0 * 2 + 1) (d0 * 2)
    let t1 := t.set p1 (bmax (t p1) (m (matpos2 (d * 2) (d * 2 + 1))))
    t1.set p2 (bmax (t1 p2) (m (matpos2 (d * 2 + 1) (d * 2))))) t

/-- the merged matrix `pr->tmp`: octagons/oct_resize.c:328-356 -/
def foldMerge (dim : ℕ) (m : Mem K) (d0 : ℕ) (ts : List ℕ) : Mem K :=
  let t := (List.range (2 * d0)).foldl (foldCol m d0 ts) m
  let t := (List.range' (2 * (d0 + 1)) (2 * dim - 2 * (d0 + 1))).foldl (foldCol m d0 ts) t
  foldUnary m d0 ts t

end Oct

namespace OctT
open Bound Oct
variable {K : Type*} [LinearOrder K] [Field K] [IsStrictOrderedRing K] (R : Rnd K)

/-- `oct_forget_array`: octagons/oct_resize.c:27-76 -/
def forgetArray (algo : ℤ) (a : OctT K) (tdim : List ℕ) (project : Bool) : OctT K :=
  let a := cacheIf R algo a
  match a.best with
  | none => bottom a.dim a.intdim
  | some m =>
    let m := tdim.foldl (forgetVar a.dim project) m
    if a.closed.isSome && !project then ⟨none, some m, a.dim, a.intdim⟩
    else ⟨some m, none, a.dim, a.intdim⟩

/-- `oct_add_dimensions`: octagons/oct_resize.c:129-168; `pos` is `dimchange->dim`, of length
`intadd + realadd` -/
def addDimensions (a : OctT K) (pos : List ℕ) (intadd : ℕ) (project : Bool) : OctT K :=
  let nb := pos.length
  match a.best with
  | none => bottom (a.dim + nb) (a.intdim + intadd)
  | some m =>
    let mm := addrem true 1 a.dim (allocTop (a.dim + nb)) m pos
    let mm := if project then
      (List.range nb).foldl (fun (mm : Mem K) i =>
        let v := 2 * (i + pos.getD i 0)
        (mm.set (matpos (v + 1) v) (fin 0)).set (matpos v (v + 1)) (fin 0)) mm
      else mm
    if a.closed.isSome && !project then ⟨none, some mm, a.dim + nb, a.intdim + intadd⟩
    else ⟨some mm, none, a.dim + nb, a.intdim + intadd⟩

/-- `oct_remove_dimensions`: octagons/oct_resize.c:170-208 -/
def removeDimensions (algo : ℤ) (u : Mem K) (a : OctT K) (pos : List ℕ) (intrem : ℕ) : OctT K :=
  let a := cacheIf R algo a
  let nb := pos.length
  match a.best with
  | none => bottom (a.dim - nb) (a.intdim - intrem)
  | some m =>
    let mm := addrem false 1 a.dim u m pos
    if a.closed.isSome then ⟨none, some mm, a.dim - nb, a.intdim - intrem⟩
    else ⟨some mm, none, a.dim - nb, a.intdim - intrem⟩

/-- `oct_permute_dimensions`: octagons/oct_resize.c:231-254 -/
def permuteDimensions (u : Mem K) (a : OctT K) (perm : ℕ → ℕ) : OctT K :=
  match a.best with
  | none => bottom a.dim a.intdim
  | some m =>
    let mm := hmatPermute u m a.dim a.dim perm
    if a.closed.isSome then ⟨none, some mm, a.dim, a.intdim⟩ else ⟨some mm, none, a.dim, a.intdim⟩

/-- `oct_expand`: octagons/oct_resize.c:261-304 -/
def expand (a : OctT K) (d n : ℕ) : OctT K :=
  let pos := if d < a.intdim then a.intdim else a.dim
  let intdim := if d < a.intdim then a.intdim + n else a.intdim
  match a.best with
  | none => bottom (a.dim + n) intdim
  | some m =>
    let mm := addrem true n a.dim (allocTop (a.dim + n)) m [pos]
    let mm := (List.range n).foldl (fun mm i => expandVar d (2 * (a.dim + n)) mm (pos + i)) mm
    ⟨some mm, none, a.dim + n, intdim⟩

/-- `oct_fold`: octagons/oct_resize.c:306-382; `tdim = d0 :: ts` -/
def fold (algo : ℤ) (a : OctT K) (d0 : ℕ) (ts : List ℕ) : OctT K :=
  let a := cacheIf R algo a
  let intdim := if d0 < a.intdim then a.intdim - ts.length else a.intdim
  match a.best with
  | none => bottom (a.dim - ts.length) intdim
  | some m =>
    let mm := addrem false 1 a.dim (allocTop (a.dim - ts.length)) (foldMerge a.dim m d0 ts) ts
    let mm := (mm.set (matpos (d0 * 2) (d0 * 2)) (fin 0)).set
      (matpos (d0 * 2 + 1) (d0 * 2 + 1)) (fin 0)
    ⟨some mm, none, a.dim - ts.length, intdim⟩

end OctT
end Apron
