import Verif.Avo.Defs
import Verif.Oct.Resize

/-!
# Absolute-value octagons: projections and changes of dimension

Model of `avoct/avo_resize.c`.  `avo_hmat_addrem_dimensions` and `org_avo_hmat_permute` are textual
copies of the functions of `octagons/oct_resize.c` (compared line by line) and the model calls the
model of those; freshly allocated, unset memory is an arbitrary memory `u`.  The bounds and the marks
are two arrays treated one after the other.
-/

set_option autoImplicit false
set_option linter.unusedSectionVars false
set_option linter.ambiguousOpen false

namespace Apron
namespace Avo
open Bound Oct
variable {K : Type*} [LinearOrder K] [Field K] [IsStrictOrderedRing K]

/-- writing one value at a list of positions, in order -/
def setAll (m : Mem K) (l : List ℕ) (v : Bound K) : Mem K := l.foldl (fun (m : Mem K) p => m.set p v) m

/-- the positions of the binary constraints on a variable, in the order of the loops:
avoct/avo_resize.c:48-68 (the same for `m` and `m1`) -/
def forgetPos (dim d2 : ℕ) : List ℕ :=
  (List.range d2).flatMap (fun k => [matpos2 d2 k, matpos2 (d2 + 1) k, matpos2 (d2 + 2 * dim) k,
    matpos2 (d2 + 1 + 2 * dim) k]) ++
  (List.range' (d2 + 2) (4 * dim - (d2 + 2))).flatMap (fun k => [matpos2 k d2, matpos2 k (d2 + 1),
    matpos2 k (d2 + 2 * dim), matpos2 k (d2 + 1 + 2 * dim)])

/-- the marks of one forgotten variable: avoct/avo_resize.c:53-56, 63-72 -/
def forgetMarks (dim : ℕ) (n : Mem K) (d : ℕ) : Mem K :=
  let d2 := 2 * d
  setAll (setAll n (forgetPos dim d2) pinf) [matpos2 d2 (d2 + 1), matpos2 (d2 + 1) d2,
    matpos2 (d2 + 2 * dim) (d2 + 1 + 2 * dim), matpos2 (d2 + 1 + 2 * dim) (d2 + 2 * dim)] pinf

/-- the bounds of one forgotten variable: avoct/avo_resize.c:49-52, 59-62, 75-89 -/
def forgetBounds (dim : ℕ) (project : Bool) (m : Mem K) (d : ℕ) : Mem K :=
  let d2 := 2 * d
  let m := setAll m (forgetPos dim d2) pinf
  let m := setAll m [matpos2 d2 d2, matpos2 (d2 + 1) (d2 + 1), matpos2 (d2 + 2 * dim) (d2 + 2 * dim),
    matpos2 (d2 + 2 * dim + 1) (d2 + 2 * dim + 1)] (fin 0)
  if project then setAll m [matpos2 d2 (d2 + 1), matpos2 (d2 + 1) d2] (fin 0)
  else setAll m [matpos2 d2 (d2 + 1), matpos2 (d2 + 1) d2, matpos2 (d2 + 2 * dim) (d2 + 1 + 2 * dim),
    matpos2 (d2 + 1 + 2 * dim) (d2 + 2 * dim)] pinf

/-- `avo_hmat_addrem_dimensions_withAV`: avoct/avo_resize.c:153-182; `pos` has `nb_pos` elements -/
def addremAV (add : Bool) (dim : ℕ) (dst src : Mem K) (pos : List ℕ) : Mem K :=
  let mm := addrem add 1 (2 * dim) (fun _ => pinf) src pos
  if add then
    addrem add 1 (2 * dim + pos.length) dst mm (pos.map fun p => p + dim + pos.length)
  else addrem add 1 (2 * dim - pos.length) dst mm (pos.map fun p => p + dim - pos.length)

/-- `avo_hmat_permute`: avoct/avo_resize.c:329-346 -/
def permuteAV (dst src : Mem K) (dim : ℕ) (perm : ℕ → ℕ) : Mem K :=
  hmatPermute dst src (2 * dim) (2 * dim) fun i => if i < dim then perm i else perm (i - dim) + dim

end Avo

namespace AvoT
open Bound Oct Avo
variable {K : Type*} [LinearOrder K] [Field K] [IsStrictOrderedRing K] (R : Rnd K) (alg : ℤ)

/-- `avo_forget_array`: avoct/avo_resize.c:25-100.  The first component is the argument after a
non-destructive call: its marks are written in place (`m1 = a->nsc`), its bounds are copied first. -/
def forgetArray (algo : ℤ) (a : AvoT K) (tdim : List ℕ) (project : Bool) :
    Option (AvoT K × AvoT K) :=
  (cacheIf R alg algo a).bind fun a =>
    match a.best with
    | none => some (a, bottom a.dim a.intdim)
    | some m => a.nsc.map fun n =>
      let m := tdim.foldl (forgetBounds a.dim project) m
      let n := tdim.foldl (forgetMarks a.dim) n
      ({ a with nsc := some n },
        if a.closed.isSome && !project then ⟨none, some m, some n, a.dim, a.intdim⟩
        else ⟨some m, none, some n, a.dim, a.intdim⟩)

/-- the bounds of `avo_add_dimensions`: avoct/avo_resize.c:196-221 -/
def addBounds (dim : ℕ) (m : Mem K) (pos : List ℕ) (project : Bool) : Mem K :=
  let nb := pos.length
  let mm := addremAV true dim (fun q => (Avo.allocTop (dim + nb) q).1) m pos
  let mm := (List.range nb).foldl (fun (mm : Mem K) i =>
    let v := 2 * (i + pos.getD i 0)
    (mm.set (matpos v v) (fin 0)).set (matpos (v + 1) (v + 1)) (fin 0)) mm
  if project then
    (List.range nb).foldl (fun (mm : Mem K) i =>
      let v := 2 * (i + pos.getD i 0)
      (mm.set (matpos (v + 1) v) (fin 0)).set (matpos v (v + 1)) (fin 0)) mm
  else mm

/-- `avo_add_dimensions`: avoct/avo_resize.c:184-256 -/
def addDimensions (a : AvoT K) (pos : List ℕ) (intadd : ℕ) (project : Bool) : AvoT K :=
  let nb := pos.length
  let n := a.nsc.map fun n => addremAV true a.dim (fun q => (Avo.allocTop (a.dim + nb) q).2) n pos
  match a.best with
  | none => ⟨none, none, n, a.dim + nb, a.intdim + intadd⟩
  | some m =>
    let mm := addBounds a.dim m pos project
    if a.closed.isSome && !project then ⟨none, some mm, n, a.dim + nb, a.intdim + intadd⟩
    else ⟨some mm, none, n, a.dim + nb, a.intdim + intadd⟩

/-- `avo_remove_dimensions`: avoct/avo_resize.c:258-307 -/
def removeDimensions (algo : ℤ) (u u' : Mem K) (a : AvoT K) (pos : List ℕ) (intrem : ℕ) :
    Option (AvoT K) :=
  (cacheIf R alg algo a).map fun a =>
    let nb := pos.length
    match a.best with
    | none => bottom (a.dim - nb) (a.intdim - intrem)
    | some m =>
      let mm := addremAV false a.dim u m pos
      let n := a.nsc.map fun n => addremAV false a.dim u' n pos
      if a.closed.isSome then ⟨none, some mm, n, a.dim - nb, a.intdim - intrem⟩
      else ⟨some mm, none, n, a.dim - nb, a.intdim - intrem⟩

/-- `avo_permute_dimensions`: avoct/avo_resize.c:349-390 -/
def permuteDimensions (u u' : Mem K) (a : AvoT K) (perm : ℕ → ℕ) : AvoT K :=
  let n := a.nsc.map fun n => permuteAV u' n a.dim perm
  match a.best with
  | none => ⟨none, none, n, a.dim, a.intdim⟩
  | some m =>
    let mm := permuteAV u m a.dim perm
    if a.closed.isSome then ⟨none, some mm, n, a.dim, a.intdim⟩ else ⟨some mm, none, n, a.dim, a.intdim⟩

/-- one of the two arrays of `avo_fold`: avoct/avo_resize.c:474-511, 514-548; `top` is the freshly
allocated array -/
def foldArr (dim : ℕ) (top m : Mem K) (d0 : ℕ) (ts : List ℕ) : Mem K :=
  let mm := addrem false 1 dim top (foldMerge dim m d0 ts) ts
  (mm.set (matpos (d0 * 2) (d0 * 2)) (fin 0)).set (matpos (d0 * 2 + 1) (d0 * 2 + 1)) (fin 0)

/-- `avo_fold`: avoct/avo_resize.c:448-566; `tdim = d0 :: ts` -/
def fold (algo : ℤ) (a : AvoT K) (d0 : ℕ) (ts : List ℕ) : Option (AvoT K) :=
  (cacheIf R alg algo a).bind fun a =>
    let intdim := if d0 < a.intdim then a.intdim - ts.length else a.intdim
    match a.best with
    | none => some (bottom (a.dim - ts.length) intdim)
    | some m => a.nsc.map fun n =>
      ⟨some (foldArr a.dim (fun q => (Avo.allocTop (a.dim - ts.length) q).1) m d0 ts), none,
       some (foldArr a.dim (fun q => (Avo.allocTop (a.dim - ts.length) q).2) n d0 ts),
       a.dim - ts.length, intdim⟩

/-- one of the two arrays of `avo_expand`: avoct/avo_resize.c:412-438 (only the first `a->dim`
quantities of the matrix, not the absolute values, are copied) -/
def expandArr (dim d n pos : ℕ) (top m : Mem K) : Mem K :=
  let mm := addrem true n dim top m [pos]
  (List.range n).foldl (fun mm i => expandVar d (2 * (dim + n)) mm (pos + i)) mm

/-- `avo_expand`: avoct/avo_resize.c:397-446 -/
def expand (a : AvoT K) (d n : ℕ) : Option (AvoT K) :=
  let pos := if d < a.intdim then a.intdim else a.dim
  let intdim := if d < a.intdim then a.intdim + n else a.intdim
  match a.best with
  | none => some (bottom (a.dim + n) intdim)
  | some m => a.nsc.map fun s =>
    ⟨some (expandArr a.dim d n pos (fun q => (Avo.allocTop (a.dim + n) q).1) m), none,
     some (expandArr a.dim d n pos (fun q => (Avo.allocTop (a.dim + n) q).2) s), a.dim + n, intdim⟩

end AvoT
end Apron
