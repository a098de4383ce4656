import Verif.Avo.Closure
import Verif.Oct.Transfer

/-!
# Absolute-value octagons: values

Model of `avoct/avo_representation.c`, `avo_nary.c` and `avo_predicate.c`.

A value has two optional half-matrices `m` and `closed` and one matrix of strictness marks `nsc`,
shared by both.  An operation that reads the marks of a value without marks dereferences `NULL`:
such operations return `none`.  Simplifications:

* memory management is not modelled: every operation returns a fresh value, the caches written into
  arguments are visible only through `cache`;
* the arguments have the same dimensions (`arg_assert`);
* `R` rounds bounds, `alg` is the global `avo_closure_alg`, `algo` the field `algorithm` of the manager;
* the queries that read the octagon part only (`avo_sat_lincons`, `avo_bound_linexpr`, ...) are copies
  of those of `octagons/oct_predicate.c` (compared line by line); the model calls the model of the
  octagon queries on the two matrices, with the closure already done.
-/

set_option autoImplicit false
set_option linter.unusedSectionVars false
set_option linter.ambiguousOpen false

namespace Apron

/-- `avo_t`: avoct/avo_internal.h:690-696 -/
structure AvoT (K : Type*) where
  m : Option (Oct.Mem K)
  closed : Option (Oct.Mem K)
  nsc : Option (Oct.Mem K)
  dim : ℕ
  intdim : ℕ

namespace AvoT
open Bound Oct Avo
variable {K : Type*} [LinearOrder K] [Field K] [IsStrictOrderedRing K] (R : Rnd K) (alg : ℤ)

/-- the pair of arrays `m`, `nsc` as one memory -/
def zip (m n : Mem K) : SMem K := fun q => (m q, n q)

/-- `a->closed ? a->closed : a->m` -/
def best (a : AvoT K) : Option (Mem K) := a.closed.or a.m
/-- `a->m ? a->m : a->closed` -/
def orig (a : AvoT K) : Option (Mem K) := a.m.or a.closed

/-- Specification: the points of a value; missing marks are read as "no strict constraint" -/
def Gam (a : AvoT K) (x : ℕ → K) : Prop :=
  ∃ m, a.best = some m ∧ SSat a.dim (zip m (a.nsc.getD fun _ => pinf)) x

/-- `avo_alloc_internal`, `avo_bottom`: avoct/avo_representation.c:27-36, 120-126 -/
def bottom (dim intdim : ℕ) : AvoT K := ⟨none, none, none, dim, intdim⟩

/-- `avo_set_mat_nsc(pr,a,M,NULL,nsc,...)` -/
def ofM (dim intdim : ℕ) (M : SMem K) : AvoT K :=
  ⟨some fun q => (M q).1, none, some fun q => (M q).2, dim, intdim⟩
/-- `avo_set_mat_nsc(pr,a,NULL,M,nsc,...)` -/
def ofClosed (dim intdim : ℕ) (M : SMem K) : AvoT K :=
  ⟨none, some fun q => (M q).1, some fun q => (M q).2, dim, intdim⟩

/-- `avo_top`: avoct/avo_representation.c:128-136 -/
def top (dim intdim : ℕ) : AvoT K := ofClosed dim intdim (Avo.allocTop dim)

/-- the matrix of a box: avoct/avo_representation.c:147-155 -/
def boxMat (dim : ℕ) (t : ℕ → Itv K) : SMem K :=
  (List.range dim).foldl (fun (M : SMem K) i =>
    let M := M.set (matpos (2 * i) (2 * i + 1))
      (OctT.ofScalar R (t i).inf true, (M (matpos (2 * i) (2 * i + 1))).2)
    M.set (matpos (2 * i + 1) (2 * i))
      (OctT.ofScalar R (t i).sup true, (M (matpos (2 * i + 1) (2 * i))).2)) (Avo.allocTop dim)

/-- `avo_of_box`: avoct/avo_representation.c:138-177 -/
def ofBox (dim intdim : ℕ) (t : Option (ℕ → Itv K)) : AvoT K :=
  match t with
  | none => bottom dim intdim
  | some t =>
    if (List.range dim).any (fun i => decide ((t i).sup < neg (t i).inf)) then bottom dim intdim
    else match Avo.sStep R dim (tighten R dim (boxMat R dim t)) with
      | (true, _) => bottom dim intdim
      | (false, M) => ofClosed dim intdim M

/-- `avo_cache_closure`: avoct/avo_representation.c:245-256.  The marks of the closed matrix overwrite
those that `m` shares. -/
def cache (a : AvoT K) : Option (AvoT K) :=
  match a.closed, a.m with
  | none, some m =>
    match a.nsc with
    | none => none
    | some n =>
      match Avo.close R alg a.dim (zip m n) with
      | (true, _) => some (bottom a.dim a.intdim)
      | (false, M) => some { a with closed := some fun q => (M q).1, nsc := some fun q => (M q).2 }
  | _, _ => some a

/-- `if (pr->funopt->algorithm>=0) avo_cache_closure(pr,a)` -/
def cacheIf (algo : ℤ) (a : AvoT K) : Option (AvoT K) := if 0 ≤ algo then cache R alg a else some a

/-! ### lattice operations -/

/-- the loops over `avo_matsize(dim)` cells, with the marks of both arguments -/
def pointwise (f : SB K → SB K → SB K) (m1 m2 : Mem K) (n1 n2 : Option (Mem K)) : Option (SMem K) :=
  n1.bind fun n1 => n2.map fun n2 => fun q => f (zip m1 n1 q) (zip m2 n2 q)

/-- `avo_meet`: avoct/avo_nary.c:24-55 -/
def meet (a1 a2 : AvoT K) : Option (AvoT K) :=
  match a1.best, a2.best with
  | some m1, some m2 =>
    (pointwise SB.min m1 m2 a1.nsc a2.nsc).map fun M =>
      ofM a1.dim a1.intdim (Avo.sStep R a1.dim M).2
  | _, _ => some (bottom a1.dim a1.intdim)

/-- `avo_join` after the closures: avoct/avo_nary.c:66-106 -/
def joinCached (a1 a2 : AvoT K) : Option (AvoT K) :=
  match a1.best, a2.best with
  | none, none => some (bottom a1.dim a1.intdim)
  | none, some _ => some a2
  | some _, none => some a1
  | some m1, some m2 =>
    (pointwise SB.max m1 m2 a1.nsc a2.nsc).map fun M =>
      if a1.closed.isSome && a2.closed.isSome then ofClosed a1.dim a1.intdim (Avo.sStep R a1.dim M).2
      else ofM a1.dim a1.intdim (Avo.sStep R a1.dim M).2

/-- `avo_join`: avoct/avo_nary.c:57-106 -/
def join (algo : ℤ) (a1 a2 : AvoT K) : Option (AvoT K) :=
  (cacheIf R alg algo a1).bind fun a1 => (cacheIf R alg algo a2).bind fun a2 => joinCached R a1 a2

/-- `avo_meet_array`: avoct/avo_nary.c:109-130 (the marks are left `NULL`) -/
def meetArray (a : AvoT K) (l : List (AvoT K)) : AvoT K :=
  if (a :: l).any (fun b => b.best.isNone) then bottom a.dim a.intdim
  else match a.best with
    | none => bottom a.dim a.intdim
    | some m =>
      ⟨some (l.foldl (fun (m : Mem K) b => match b.best with
        | none => m
        | some x => fun p => Bound.bmin (m p) (x p)) m), none, none, a.dim, a.intdim⟩

/-- one non-empty element of `avo_join_array`: avoct/avo_nary.c:153-167 -/
def joinStep (s : Option (SMem K)) (M : SMem K) : Option (SMem K) :=
  some (match s with
    | none => M
    | some A => fun q => SB.max (A q) (M q))

/-- the loop of `avo_join_array`: avoct/avo_nary.c:147-170; state: the matrices, all closed so far -/
def joinLoop (algo : ℤ) : List (AvoT K) → Option (SMem K) × Bool → Option (Option (SMem K) × Bool)
  | [], s => some s
  | b :: l, s =>
    (cacheIf R alg algo b).bind fun b =>
      match b.best with
      | none => joinLoop algo l s
      | some m => b.nsc.bind fun n =>
          joinLoop algo l (joinStep s.1 (zip m n), s.2 && b.closed.isSome)

/-- `avo_join_array`: avoct/avo_nary.c:132-190 -/
def joinArray (algo : ℤ) (a : AvoT K) (l : List (AvoT K)) : Option (AvoT K) :=
  (joinLoop R alg algo (a :: l) (none, true)).map fun
    | (none, _) => bottom a.dim a.intdim
    | (some M, true) => ofClosed a.dim a.intdim M
    | (some M, false) => ofM a.dim a.intdim M

/-! ### widening, narrowing -/

/-- one cell of `avo_widening`: avoct/avo_nary.c:214-241 -/
def widenCell (pre : Bool) (b1 b2 : SB K) : SB K :=
  if pre then (Bound.bmax b1.1 b2.1, Bound.bmax b1.2 b2.2)
  else if b2.1 < b1.1 then b1
  else if b1.1 = b2.1 then (b1.1, Bound.bmax b1.2 b2.2)
  else (pinf, pinf)

/-- one cell of `avo_widening_thresholds`: avoct/avo_nary.c:276-297 -/
def widenThCell (th : List (Bound K)) (b1 b2 : SB K) : SB K :=
  if b2.1 < b1.1 then b1
  else if b1.1 = b2.1 then (b1.1, if b2.2 ≤ b1.2 then b1.2 else b2.2)
  else (((th.find? fun t => decide (b2.1 ≤ t)).getD pinf), pinf)

/-- `avo_widening`, `avo_widening_thresholds` after the closure of the second argument, with the
operation on cells: avoct/avo_nary.c:194-300 -/
def widenWith (f : SB K → SB K → SB K) (a1 a2 : AvoT K) : Option (AvoT K) :=
  match a1.orig, a2.best with
  | none, _ => some a2
  | some _, none => some a1
  | some m1, some m2 => (pointwise f m1 m2 a1.nsc a2.nsc).map (ofM a1.dim a1.intdim)

/-- `avo_pre_widening`: avoct/avo.h -/
def preWidening : ℤ := 99

/-- `avo_widening`: avoct/avo_nary.c:194-245 -/
def widening (algo : ℤ) (a1 a2 : AvoT K) : Option (AvoT K) :=
  (cacheIf R alg algo a2).bind
    (widenWith (widenCell (decide (algo = preWidening) || decide (algo = -preWidening))) a1)

/-- `avo_widening_thresholds`: avoct/avo_nary.c:247-300; the thresholds are converted by
`avo_bound_of_scalar` -/
def wideningThresholds (algo : ℤ) (th : List (Bound K)) (a1 a2 : AvoT K) : Option (AvoT K) :=
  (cacheIf R alg algo a2).bind (widenWith (widenThCell (th.map fun t => OctT.ofScalar R t false)) a1)

/-- one cell of `avo_narrowing`: avoct/avo_nary.c:322-331 -/
def narrowCell (b1 b2 : SB K) : SB K := if infty b1.1 then b2 else b1

/-- `avo_narrowing`: avoct/avo_nary.c:302-333 -/
def narrowing (algo : ℤ) (a1 a2 : AvoT K) : Option (AvoT K) :=
  (cacheIf R alg algo a1).bind fun a1 => (cacheIf R alg algo a2).bind fun a2 =>
    match a1.best, a2.best with
    | some m1, some m2 => (pointwise narrowCell m1 m2 a1.nsc a2.nsc).map (ofM a1.dim a1.intdim)
    | _, _ => some (bottom a1.dim a1.intdim)

/-! ### queries -/

/-- the two matrices, read as octagons by the queries below -/
def oct (a : AvoT K) : OctT K := ⟨a.m, a.closed, a.dim, a.intdim⟩

/-- `avo_is_bottom`: avoct/avo_predicate.c:29-48 -/
def isBottom (algo : ℤ) (a : AvoT K) : Option Bool :=
  (cacheIf R alg algo a).map fun a => a.closed.isNone && a.m.isNone

/-- `avo_is_top`: avoct/avo_predicate.c:50-62 -/
def isTop (a : AvoT K) : Bool :=
  match a.orig with
  | none => false
  | some m => OctT.allCells (2 * a.dim) fun i j => infty (m (matpos i j)) || decide (i = j)

/-- the tests `bound_cmp_int(s[matpos2(i-2dim+1,i-2dim)],0)>=0 || bound_cmp_int(s[...],0)<=0` before
`continue`: avoct/avo_predicate.c:92-101 -/
def skip (dim : ℕ) (s : Mem K) (i : ℕ) : Bool :=
  decide (2 * dim < i) && (decide (fin 0 ≤ s (matpos2 (i - 2 * dim + 1) (i - 2 * dim))) ||
    decide (s (matpos2 (i - 2 * dim) (i - 2 * dim + 1)) ≤ fin 0))

/-- the loops of `avo_is_leq`: avoct/avo_predicate.c:88-116 -/
def leqCells (dim : ℕ) (X Y : SMem K) : Bool :=
  OctT.allCells (2 * dim) fun i j =>
    skip dim (fun q => (X q).1) i || skip dim (fun q => (X q).1) j ||
    skip dim (fun q => (Y q).1) i || skip dim (fun q => (Y q).1) j ||
    !decide ((Y (matpos i j)).1 < (X (matpos i j)).1 ∨
      (X (matpos i j)).1 = (Y (matpos i j)).1 ∧ (Y (matpos i j)).2 < (X (matpos i j)).2)

/-- `avo_is_leq`: avoct/avo_predicate.c:64-118 -/
def isLeq (algo : ℤ) (a1 a2 : AvoT K) : Option Bool :=
  (cacheIf R alg algo a1).bind fun a1 =>
    match a1.best, a2.best with
    | none, _ => some true
    | some _, none => some false
    | some x, some y => a1.nsc.bind fun nx => a2.nsc.map fun ny => leqCells a1.dim (zip x nx) (zip y ny)

/-- the loops of `avo_is_eq`, over `i < 2*dim` only: avoct/avo_predicate.c:152-180 -/
def eqCells (dim : ℕ) (X Y : SMem K) : Bool :=
  OctT.allCells dim fun i j =>
    decide ((X (matpos i j)).1 = (Y (matpos i j)).1) && decide ((X (matpos i j)).2 = (Y (matpos i j)).2)

/-- `avo_is_eq`: avoct/avo_predicate.c:121-182 -/
def isEq (algo : ℤ) (a1 a2 : AvoT K) : Option Bool :=
  (cacheIf R alg algo a1).bind fun a1 => (cacheIf R alg algo a2).bind fun a2 =>
    match a1.best, a2.best with
    | none, none => some true
    | none, some _ => some false
    | some _, none => some false
    | some x, some y => a1.nsc.bind fun nx => a2.nsc.map fun ny => eqCells a1.dim (zip x nx) (zip y ny)

/-- `avo_is_dimension_unconstrained`: avoct/avo_predicate.c:217-237 (as for octagons) -/
def isDimensionUnconstrained (a : AvoT K) (d : ℕ) : Bool := a.oct.isDimensionUnconstrained d

/-- `avo_sat_interval`: avoct/avo_predicate.c:185-214 -/
def satInterval (algo : ℤ) (a : AvoT K) (d : ℕ) (i : Itv K) : Option Bool :=
  (cacheIf R alg algo a).map fun a => OctT.satInterval R (-1) a.oct d i

/-- `avo_bound_dimension`: avoct/avo_predicate.c:464-493 -/
def boundDimension (algo : ℤ) (a : AvoT K) (d : ℕ) : Option (Itv K) :=
  (cacheIf R alg algo a).map fun a => OctT.boundDimension R (-1) a.oct d

/-- `avo_to_box`: avoct/avo_predicate.c:551-577 (the closure is always computed) -/
def toBox (a : AvoT K) : Option (ℕ → Itv K) :=
  (cache R alg a).map fun a => OctT.toBox R (-1) a.oct

/-- `avo_sat_lincons`: avoct/avo_predicate.c:244-354 -/
def satLincons [FloorRing K] (algo : ℤ) (a : AvoT K) (c : Lincons K) : Option Bool :=
  (cacheIf R alg algo a).map fun a => OctT.satLincons R (-1) a.oct c

/-- `avo_bound_linexpr`: avoct/avo_predicate.c:374-449 -/
def boundLinexpr [FloorRing K] (algo : ℤ) (a : AvoT K) (e : Linexpr K) : Option (Itv K) :=
  (cacheIf R alg algo a).map fun a => OctT.boundLinexpr R (-1) a.oct e

/-- `avo_lincons_of_bound`: avoct/avo_internal.h:576-629.  The coefficient `11` stands for an absolute
value in the constraint printed. -/
def linconsOfBound (dim i j : ℕ) (m n : Bound K) : Lincons K :=
  let typ : ConsTyp K := if fin 1 < n then .supeq else .sup
  if i = j then ⟨typ, ⟨.scalar (OctT.upperScalar R m true), .sparse []⟩⟩
  else if i = (j ^^^ 1) then
    ⟨typ, ⟨.scalar (OctT.upperScalar R m true), .sparse
      [if i < 2 * dim then (i / 2, .scalar (fin (if i % 2 = 1 then -1 else 1)))
       else ((i - 2 * dim) / 2, .scalar (fin (if i % 2 = 1 then -11 else 11)))]⟩⟩
  else
    ⟨typ, ⟨.scalar (OctT.upperScalar R m false), .sparse
      [if j < 2 * dim then (j / 2, .scalar (fin (if j % 2 = 1 then 1 else -1)))
       else ((j - 2 * dim) / 2, .scalar (fin (if j % 2 = 1 then 11 else -11))),
       if i < 2 * dim then (i / 2, .scalar (fin (if i % 2 = 1 then -1 else 1)))
       else ((i - 2 * dim) / 2, .scalar (fin (if i % 2 = 1 then -11 else 11)))]⟩⟩

/-- "no |Vi| terms if positive or negative": avoct/avo_predicate.c:522-526 -/
def signed (dim : ℕ) (m : Mem K) (i : ℕ) : Bool :=
  decide (2 * dim < i) && (decide (m (matpos2 (i - i % 2 - 2 * dim + 1) (i - i % 2 - 2 * dim)) ≤ fin 0) ||
    decide (m (matpos2 (i - i % 2 - 2 * dim) (i - i % 2 - 2 * dim + 1)) ≤ fin 0))

/-- the `continue` tests of `avo_to_lincons_array`: avoct/avo_predicate.c:514-534 -/
def omitted (dim : ℕ) (m n : Mem K) (i j : ℕ) : Bool :=
  decide (i = j) || infty (m (matpos i j)) || (decide (2 * dim ≤ j) && decide (j % 2 = 0)) ||
  (decide (2 * dim ≤ i) && decide (i % 2 ≠ 0)) ||
  (decide (2 * dim ≤ i) && (decide (i = j + 2 * dim) || decide (i + 1 = j + 2 * dim))) ||
  signed dim m i || signed dim m j ||
  (decide (2 * dim ≤ i) && decide (i % 2 = 0) && decide (2 * dim ≤ j) && decide (j % 2 = 1) &&
    (decide (fin 0 < m (matpos i j)) ||
      (decide (m (matpos i j) = fin 0) && decide (fin 1 ≤ n (matpos i j)))))

/-- `avo_to_lincons_array`: avoct/avo_predicate.c:495-544 -/
def toLinconsArray (a : AvoT K) : Option (List (Lincons K)) :=
  match a.best with
  | none => some [OctT.unsatLincons]
  | some m => a.nsc.map fun n => (List.range (4 * a.dim)).flatMap fun i =>
      (List.range ((i ||| 1) + 1)).filterMap fun j =>
        if omitted a.dim m n i j = true then none
        else some (linconsOfBound R a.dim i j (m (matpos i j)) (n (matpos i j)))

end AvoT
end Apron
