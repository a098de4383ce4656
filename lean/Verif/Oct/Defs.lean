import Verif.Oct.Closure
import Verif.Itv.Defs

/-!
# Octagon values: model of `octagons/oct_representation.c`, `oct_nary.c`, `oct_predicate.c`

An octagon has an original matrix `m` and a cached normal form `closed`, each optional
(octagons/oct_internal.h:537-551).  Memory management (aliasing of the two matrices in the
destructive variants, `oct_set_mat`) is not modelled: every operation returns a fresh value.
The `algorithm` field of the manager is the argument `algo`.
-/

set_option autoImplicit false
set_option linter.unusedSectionVars false
set_option linter.ambiguousOpen false

namespace Apron

/-- `oct_t`: octagons/oct_internal.h:537-542 -/
structure OctT (K : Type*) where
  m : Option (Oct.Mem K)
  closed : Option (Oct.Mem K)
  dim : ℕ
  intdim : ℕ

namespace OctT
open Bound Oct
variable {K : Type*} [LinearOrder K] [Field K] [IsStrictOrderedRing K] (R : Rnd K)

/-- Specification: the points of an octagon -/
def Gam (a : OctT K) (x : ℕ → K) : Prop :=
  match a.closed, a.m with
  | some c, _ => Sat a.dim c x
  | none, some m => Sat a.dim m x
  | none, none => False

/-- `a->closed ? a->closed : a->m` -/
def best (a : OctT K) : Option (Mem K) := a.closed.or a.m
/-- `a->m ? a->m : a->closed` -/
def orig (a : OctT K) : Option (Mem K) := a.m.or a.closed

/-- `oct_alloc_internal`, `oct_bottom`: octagons/oct_representation.c:28-37, 112-118 -/
def bottom (dim intdim : ℕ) : OctT K := ⟨none, none, dim, intdim⟩
/-- `oct_top`: octagons/oct_representation.c:120-127 -/
def top (dim intdim : ℕ) : OctT K := ⟨none, some (allocTop dim), dim, intdim⟩

/-- `oct_cache_closure`: octagons/oct_representation.c:230-240 -/
def cacheClosure (a : OctT K) : OctT K :=
  match a.closed, a.m with
  | none, some m =>
    match close R a.dim m with
    | (true, _) => { a with m := none, closed := none }
    | (false, c) => { a with closed := some c }
  | _, _ => a

/-- `oct_close`: octagons/oct_representation.c:247-261 -/
def closeOct (a : OctT K) : OctT K :=
  match a.m, a.closed with
  | none, _ => a
  | some _, some c => { a with m := none, closed := some c }
  | some m, none =>
    match close R a.dim m with
    | (true, _) => { a with m := none, closed := none }
    | (false, c) => { a with m := none, closed := some c }

/-- `if (pr->funopt->algorithm>=0) oct_cache_closure(pr,a)` -/
def cacheIf (algo : ℤ) (a : OctT K) : OctT K := if 0 ≤ algo then cacheClosure R a else a

/-- the loops `for (i=0;i<2*dim;i++) for (j=0;j<=(i|1);j++,m++)` -/
def allCells (dim : ℕ) (p : ℕ → ℕ → Bool) : Bool :=
  (List.range (2 * dim)).all fun i => (List.range ((i ||| 1) + 1)).all fun j => p i j

/-- conversion of a user scalar: `bound_of_scalar`, octagons/oct_internal.h:283-295 -/
def ofScalar (b : Bound K) (dbl : Bool) : Bound K :=
  let r := match b with
    | fin q => R.up q
    | b => b
  if dbl then mul2 R r else r

/-- `oct_of_box`: octagons/oct_representation.c:129-161.  User intervals are given by
`(inf,sup) = (-lower, upper)`. -/
def ofBox (dim intdim : ℕ) (t : Option (ℕ → Itv K)) : OctT K :=
  match t with
  | none => bottom dim intdim
  | some t =>
    if (List.range dim).any (fun i => decide ((t i).sup < neg (t i).inf)) then bottom dim intdim
    else
      let c := (List.range dim).foldl (fun (m : Mem K) i =>
        (m.set (matpos (2 * i) (2 * i + 1)) (ofScalar R (t i).inf true)).set
          (matpos (2 * i + 1) (2 * i)) (ofScalar R (t i).sup true)) (allocTop dim)
      match sStep R dim c with
      | (true, _) => bottom dim intdim
      | (false, c) => ⟨none, some c, dim, intdim⟩

/-! ### predicates -/

/-- `oct_is_bottom`: octagons/oct_predicate.c:29-48 -/
def isBottom (algo : ℤ) (a : OctT K) : Bool :=
  let a := cacheIf R algo a
  match a.closed, a.m with
  | some _, _ => false
  | none, none => true
  | none, some _ => false

/-- `oct_is_top`: octagons/oct_predicate.c:50-62 -/
def isTop (a : OctT K) : Bool :=
  match a.orig with
  | none => false
  | some m => allCells a.dim fun i j => infty (m (matpos i j)) || decide (i = j)

/-- `oct_is_leq`: octagons/oct_predicate.c:64-100 (same dimensions) -/
def isLeq (algo : ℤ) (a1 a2 : OctT K) : Bool :=
  match (cacheIf R algo a1).best, a2.best with
  | none, _ => true
  | some _, none => false
  | some x, some y => allCells a1.dim fun i j => !decide (0 < Bound.cmp (x (matpos i j)) (y (matpos i j)))

/-- `oct_is_eq`: octagons/oct_predicate.c:103-151 (same dimensions) -/
def isEq (algo : ℤ) (a1 a2 : OctT K) : Bool :=
  match (cacheIf R algo a1).best, (cacheIf R algo a2).best with
  | none, none => true
  | none, some _ => false
  | some _, none => false
  | some x, some y => allCells a1.dim fun i j => decide (Bound.cmp (x (matpos i j)) (y (matpos i j)) = 0)

/-- `oct_is_dimension_unconstrained`: octagons/oct_predicate.c:188-209 -/
def isDimensionUnconstrained (a : OctT K) (d : ℕ) : Bool :=
  match a.best with
  | none => false
  | some b => (List.range (2 * a.dim)).all fun i =>
      (infty (b (matpos2 i (2 * d))) || decide (i = 2 * d)) &&
      (infty (b (matpos2 i (2 * d + 1))) || decide (i = 2 * d + 1))

/-- `scalar_of_upper_bound`: octagons/oct_internal.h:372-397.  The result scalar is an upper
approximation of the bound. -/
def upperScalar (b : Bound K) (half : Bool) : Bound K :=
  if infty b then pinf else if half then div2 R b else ofScalar R b false

/-- `interval_of_bounds`: octagons/oct_internal.h:435-442 -/
def intervalOfBounds (minf sup : Bound K) (half : Bool) : Itv K :=
  ⟨upperScalar R minf half, upperScalar R sup half⟩

/-- `oct_bound_dimension`: octagons/oct_predicate.c:428-458 -/
def boundDimension (algo : ℤ) (a : OctT K) (d : ℕ) : Itv K :=
  match (cacheIf R algo a).best with
  | none => Itv.bottom
  | some m => intervalOfBounds R (m (matpos (2 * d) (2 * d + 1))) (m (matpos (2 * d + 1) (2 * d))) true

/-- `oct_to_box`: octagons/oct_predicate.c:494-519 -/
def toBox (algo : ℤ) (a : OctT K) : ℕ → Itv K :=
  match (cacheIf R algo a).best with
  | none => fun _ => Itv.bottom
  | some m => fun i =>
    intervalOfBounds R (m (matpos (2 * i) (2 * i + 1))) (m (matpos (2 * i + 1) (2 * i))) true

/-- `oct_sat_interval`: octagons/oct_predicate.c:154-185; the user interval is `(-lower, upper)` -/
def satInterval (algo : ℤ) (a : OctT K) (d : ℕ) (i : Itv K) : Bool :=
  match (cacheIf R algo a).best with
  | none => true
  | some m =>
    let b := intervalOfBounds R (m (matpos (2 * d) (2 * d + 1))) (m (matpos (2 * d + 1) (2 * d))) true
    decide (b.inf ≤ i.inf) && decide (b.sup ≤ i.sup)

/-! ### lattice operations, widening, narrowing -/

/-- `oct_meet`: octagons/oct_nary.c:25-45 (same dimensions) -/
def meet (a1 a2 : OctT K) : OctT K :=
  match a1.best, a2.best with
  | some m1, some m2 => ⟨some fun p => bmin (m1 p) (m2 p), none, a1.dim, a1.intdim⟩
  | _, _ => bottom a1.dim a1.intdim

/-- `oct_join`: octagons/oct_nary.c:47-88 -/
def join (algo : ℤ) (a1 a2 : OctT K) : OctT K :=
  let a1 := cacheIf R algo a1
  let a2 := cacheIf R algo a2
  match a1.best, a2.best with
  | none, none => bottom a1.dim a1.intdim
  | none, some _ => ⟨a2.m, a2.closed, a1.dim, a1.intdim⟩
  | some _, none => ⟨a1.m, a1.closed, a1.dim, a1.intdim⟩
  | some m1, some m2 =>
    let m : Mem K := fun p => bmax (m1 p) (m2 p)
    if a1.closed.isSome && a2.closed.isSome then ⟨none, some m, a1.dim, a1.intdim⟩
    else ⟨some m, none, a1.dim, a1.intdim⟩

/-- `oct_meet_array`: octagons/oct_nary.c:90-111 -/
def meetArray (a : OctT K) (l : List (OctT K)) : OctT K :=
  if (a :: l).any (fun b => b.best.isNone) then bottom a.dim a.intdim
  else match a.best with
    | none => bottom a.dim a.intdim
    | some m =>
      ⟨some (l.foldl (fun (m : Mem K) b => match b.best with
        | none => m
        | some x => fun p => bmin (m p) (x p)) m), none, a.dim, a.intdim⟩

/-- one iteration of the loop of `oct_join_array`: octagons/oct_nary.c:124-141 -/
def joinArrayStep (algo : ℤ) (s : Option (Mem K) × Bool) (b : OctT K) : Option (Mem K) × Bool :=
  let b := cacheIf R algo b
  match b.best with
  | none => s
  | some x =>
    (some (match s.1 with
      | none => x
      | some m => fun p => bmax (m p) (x p)), s.2 && b.closed.isSome)

/-- `oct_join_array`: octagons/oct_nary.c:113-160 -/
def joinArray (algo : ℤ) (a : OctT K) (l : List (OctT K)) : OctT K :=
  match (a :: l).foldl (joinArrayStep R algo) (none, true) with
  | (none, _) => bottom a.dim a.intdim
  | (some m, true) => ⟨none, some m, a.dim, a.intdim⟩
  | (some m, false) => ⟨some m, none, a.dim, a.intdim⟩

/-- `oct_pre_widening`: octagons/oct.h -/
def preWidening : ℤ := 99

/-- pointwise part of `oct_widening`: octagons/oct_nary.c:190-200 -/
def widenBound (algo : ℤ) (b c : Bound K) : Bound K :=
  if algo = preWidening ∨ algo = -preWidening then bmax b c
  else if 0 ≤ Bound.cmp b c then b else pinf

/-- `oct_widening`: octagons/oct_nary.c:168-204 -/
def widening (algo : ℤ) (a1 a2 : OctT K) : OctT K :=
  let a2 := cacheIf R algo a2
  match a1.orig, a2.best with
  | none, _ => a2
  | some _, none => a1
  | some m1, some m2 => ⟨some fun p => widenBound algo (m1 p) (m2 p), none, a1.dim, a1.intdim⟩

/-- pointwise part of `oct_widening_thresholds`: octagons/oct_nary.c:236-255; `th` are the
thresholds converted to bounds -/
def widenThBound (th : List (Bound K)) (b c : Bound K) : Bound K :=
  if 0 ≤ Bound.cmp b c then b
  else (th.find? fun t => decide (Bound.cmp c t ≤ 0)).getD pinf

/-- `oct_widening_thresholds`: octagons/oct_nary.c:206-260 -/
def wideningThresholds (algo : ℤ) (th : List (Bound K)) (a1 a2 : OctT K) : OctT K :=
  let a2 := cacheIf R algo a2
  let th := th.map fun t => ofScalar R t false
  match a1.orig, a2.best with
  | none, _ => a2
  | some _, none => a1
  | some m1, some m2 => ⟨some fun p => widenThBound th (m1 p) (m2 p), none, a1.dim, a1.intdim⟩

/-- `oct_narrowing`: octagons/oct_nary.c:262-285 -/
def narrowing (algo : ℤ) (a1 a2 : OctT K) : OctT K :=
  match (cacheIf R algo a1).best, (cacheIf R algo a2).best with
  | some m1, some m2 =>
    ⟨some fun p => if infty (m1 p) then m2 p else m1 p, none, a1.dim, a1.intdim⟩
  | _, _ => bottom a1.dim a1.intdim

/-- largest magnitude of the finite bounds: octagons/oct_nary.c:334-342 -/
def maxAbs (dim : ℕ) (m : Mem K) : Bound K :=
  (List.range (matsize dim)).foldl (fun acc p =>
    if infty (m p) then acc
    else if 0 ≤ sgn (m p) then bmax acc (m p) else bmax acc (neg (m p))) (fin 0)

/-- `oct_add_epsilon`: octagons/oct_nary.c:324-354 -/
def addEpsilon (a : OctT K) (eps : Bound K) : OctT K :=
  match a.orig with
  | none => bottom a.dim a.intdim
  | some m =>
    let e := mul R (maxAbs a.dim m) (ofScalar R eps false)
    ⟨some fun p => add R (m p) e, none, a.dim, a.intdim⟩

/-- `oct_add_epsilon_bin`: octagons/oct_nary.c:369-407 -/
def addEpsilonBin (a1 a2 : OctT K) (eps : Bound K) : OctT K :=
  match a1.orig, a2.orig with
  | none, _ => a2
  | some _, none => a1
  | some m1, some m2 =>
    let e := mul R (maxAbs a1.dim m2) (ofScalar R eps false)
    ⟨some fun p => if Bound.cmp (m1 p) (m2 p) < 0 then add R (m2 p) e else m1 p, none,
      a1.dim, a1.intdim⟩

end OctT
end Apron
