import Verif.Itv.QuasiSound

/-!
# The box domain: model of `box/box_*.c`

Arrays of intervals are functions `ℕ → Itv K`, of which the entries below `intdim+realdim` matter.
The unused extra entry (box/box_representation.c:28-30), memory management and the result flags
`flag_best`/`flag_exact` are not modelled.  The conversion of a result to `ap_interval_t`
(`ap_interval_set_itv`) is exact for the number types used by the library (double, mpq) and is the
identity here.  Where the C code runs in place (`destructive`) and reads an array it also writes, the
flag is kept as an argument.
-/

set_option autoImplicit false
set_option linter.unusedSectionVars false
set_option linter.ambiguousOpen false

namespace Apron
open Bound

/-- `box_t`: box/box_internal.h; `p = none` models the NULL pointer -/
structure Box (K : Type*) where
  p : Option (ℕ → Itv K)
  intdim : ℕ
  realdim : ℕ

namespace Box
variable {K : Type*} [LinearOrder K] [Field K] [IsStrictOrderedRing K]

/-- number of dimensions -/
def dim (a : Box K) : ℕ := a.intdim + a.realdim

/-- Specification: the points of a box -/
def Gam (a : Box K) (x : ℕ → K) : Prop := ∃ p, a.p = some p ∧ ∀ i, i < a.dim → x i ∈ p i

/-- Specification: no component is empty (the invariant the domain relies on) -/
def Wf (a : Box K) : Prop := ∀ p, a.p = some p → ∀ i, i < a.dim → ∃ q, q ∈ p i

/-- `box_bottom`: box/box_constructor.c:23-28 -/
def bottom (intdim realdim : ℕ) : Box K := ⟨none, intdim, realdim⟩

/-- `box_top`: box/box_constructor.c:31-42 -/
def top (intdim realdim : ℕ) : Box K := ⟨some fun _ => Itv.top, intdim, realdim⟩

/-- `box_set_bottom`: box/box_representation.c:33-39 -/
def setBottom (a : Box K) : Box K := ⟨none, a.intdim, a.realdim⟩

/-- `box_is_bottom`: box/box_constructor.c:82-87 -/
def isBottom (a : Box K) : Bool := a.p.isNone

/-- `box_is_top`: box/box_constructor.c:89-108 -/
def isTop (a : Box K) : Bool :=
  match a.p with
  | none => false
  | some p => (List.range a.dim).all fun i => (p i).isTop

/-- `box_is_leq`: box/box_constructor.c:111-133 -/
def isLeq (a b : Box K) : Bool :=
  match a.p, b.p with
  | none, _ => true
  | some _, none => false
  | some p, some q => (List.range a.dim).all fun i => (p i).isLeq (q i)

/-- `box_is_eq`: box/box_constructor.c:136-158 -/
def isEq (a b : Box K) : Bool :=
  match a.p, b.p with
  | none, none => true
  | none, some _ => false
  | some _, none => false
  | some p, some q => (List.range a.dim).all fun i => (p i).isEq (q i)

/-- `box_is_dimension_unconstrained`: box/box_constructor.c:160-163 -/
def isDimUnconstrained (a : Box K) (d : ℕ) : Bool :=
  match a.p with
  | none => false
  | some p => (p d).isTop

/-- `box_sat_interval`: box/box_constructor.c:166-178, with `ap_interval_is_leq`
(apron/ap_interval.c:129-138) inlined -/
def satInterval (a : Box K) (d : ℕ) (l u : Bound K) : Bool :=
  match a.p with
  | none => true
  | some p =>
    (decide (0 ≤ Bound.cmp (Bound.neg (p d).inf) l) && decide (Bound.cmp (p d).sup u ≤ 0)) ||
      decide (0 < Bound.cmp (Bound.neg (p d).inf) (p d).sup)

/-- `box_bound_dimension`: box/box_constructor.c:242-259 -/
def boundDimension (a : Box K) (d : ℕ) : Itv K :=
  match a.p with
  | none => Itv.bottom
  | some p => p d

/-- `box_to_box`: box/box_constructor.c:498-517 -/
def toBox (a : Box K) (d : ℕ) : Itv K :=
  match a.p with
  | none => Itv.bottom
  | some p => p d

/-- `box_meet`: box/box_meetjoin.c:20-47.  The loop stops at the first empty component and then
discards the array. -/
def meet (a b : Box K) : Box K :=
  match a.p, b.p with
  | some p, some q =>
    if (List.range a.dim).any fun i => ((p i).meet (q i)).isBottom then setBottom a
    else ⟨some fun i => (p i).meet (q i), a.intdim, a.realdim⟩
  | _, _ => setBottom a

/-- `box_join`: box/box_meetjoin.c:49-79 -/
def join (a b : Box K) : Box K :=
  match a.p, b.p with
  | none, q => ⟨q, a.intdim, a.realdim⟩
  | some p, none => ⟨some p, a.intdim, a.realdim⟩
  | some p, some q => ⟨some fun i => (p i).join (q i), a.intdim, a.realdim⟩

/-- `box_meet_array`: box/box_meetjoin.c:81-93 -/
def meetArray (a : Box K) (l : List (Box K)) : Box K := l.foldl meet a

/-- `box_join_array`: box/box_meetjoin.c:94-105 -/
def joinArray (a : Box K) (l : List (Box K)) : Box K := l.foldl join a

/-- `box_widening`: box/box_otherops.c:124-143; `a2` bottom and `a1` not violates the assertion -/
def widening (a b : Box K) : Box K :=
  match a.p, b.p with
  | none, _ => b
  | some p, none => ⟨some p, a.intdim, a.realdim⟩
  | some p, some q =>
    ⟨some fun i => if i < a.dim then (p i).widening (q i) else p i, a.intdim, a.realdim⟩

/-! ## Rays -/

/-- `ap_gentyp_t`: apron/ap_generator0.h -/
inductive GenTyp where
  | line | ray | vertex
  deriving DecidableEq, Repr

/-- a generator with scalar coefficients -/
structure Gen (K : Type*) where
  typ : GenTyp
  coef : ℕ → K

/-- `box_add_ray`: box/box_meetjoin.c:113-142; the loop over the terms of the expression is a loop
over all dimensions, absent terms having the coefficient 0 -/
def addRay (a : Box K) (g : Gen K) : Box K :=
  match a.p with
  | none => a
  | some p => ⟨some fun i =>
      ⟨if g.coef i < 0 ∨ (g.coef i ≠ 0 ∧ g.typ = .line) then pinf else (p i).inf,
        if 0 < g.coef i ∨ (g.coef i ≠ 0 ∧ g.typ = .line) then pinf else (p i).sup⟩, a.intdim, a.realdim⟩

/-- `box_add_ray_array`: box/box_meetjoin.c:144-164 -/
def addRayArray (a : Box K) (l : List (Gen K)) : Box K := l.foldl addRay a

/-! ## Dimensions -/

/-- the inner loop of `box_add_dimensions`: box/box_resize.c:35-44; `k` counts the remaining
positions -/
def addInner {A : Type*} (pos : List ℕ) (new : A) (i : ℕ) : ℕ → (ℕ → A) → ℕ × (ℕ → A)
  | 0, r => (0, r)
  | k + 1, r => if pos.getD k 0 = i then addInner pos new i k (Function.update r (i + k) new)
      else (k + 1, r)

/-- the outer loop of `box_add_dimensions`: box/box_resize.c:31-45, from index `n-1` down to 0;
`same` when `res` is `a` (the element type is a parameter because
`ap_linexpr0_add_dimensions_with` runs the same loop on coefficients) -/
def addLoop {A : Type*} (same : Bool) (a : ℕ → A) (size : ℕ) (pos : List ℕ) (new : A) :
    ℕ → ℕ → (ℕ → A) → ℕ → A
  | 0, _, r => r
  | i + 1, k, r =>
    let r1 := if i < size then Function.update r (i + k) ((if same then r else a) i) else r
    let s := addInner pos new i k r1
    addLoop same a size pos new i s.1 s.2

/-- `box_add_dimensions`: box/box_resize.c:8-50 -/
def addDimensions (a : Box K) (destructive : Bool) (pos : List ℕ) (intadd : ℕ) (project : Bool) : Box K :=
  match a.p with
  | none => ⟨none, a.intdim + intadd, a.realdim + (pos.length - intadd)⟩
  | some p =>
    ⟨some (addLoop destructive p a.dim pos (if project then Itv.point 0 else Itv.top) (a.dim + 1)
      pos.length p), a.intdim + intadd, a.realdim + (pos.length - intadd)⟩

/-- the `while` of `box_remove_dimensions`: box/box_resize.c:71-73; the first argument bounds the
number of iterations -/
def remInner (pos : List ℕ) (i : ℕ) : ℕ → ℕ → ℕ
  | 0, k => k
  | n + 1, k => if k < pos.length ∧ pos.getD k 0 = i + k then remInner pos i n (k + 1) else k

/-- the loop of `box_remove_dimensions`: box/box_resize.c:69-75, `n` iterations from index `i`
(the element type is a parameter because `vector_remove_dimensions` of newpolka runs the same loop on coefficients) -/
def remLoop {A : Type*} (same : Bool) (a : ℕ → A) (pos : List ℕ) : ℕ → ℕ → ℕ → (ℕ → A) → ℕ → A
  | 0, _, _, r => r
  | n + 1, i, k, r =>
    let k1 := remInner pos i pos.length k
    remLoop same a pos n (i + 1) k1 (Function.update r i ((if same then r else a) (i + k1)))

/-- `box_remove_dimensions`: box/box_resize.c:52-85 -/
def removeDimensions (a : Box K) (destructive : Bool) (pos : List ℕ) (intrem : ℕ) : Box K :=
  match a.p with
  | none => ⟨none, a.intdim - intrem, a.realdim - (pos.length - intrem)⟩
  | some p =>
    ⟨some (remLoop destructive p pos (a.dim - pos.length) 0 0 p), a.intdim - intrem,
      a.realdim - (pos.length - intrem)⟩

/-- `box_permute_dimensions`: box/box_resize.c:87-108 -/
def permuteDimensions (a : Box K) (perm : ℕ → ℕ) : Box K :=
  match a.p with
  | none => a
  | some p => ⟨some ((List.range a.dim).foldl (fun r i => Function.update r (perm i) (p i)) p),
      a.intdim, a.realdim⟩

/-- `box_forget_array`: box/box_otherops.c:8-39 -/
def forgetArray (a : Box K) (tdim : List ℕ) (project : Bool) : Box K :=
  match a.p with
  | none => a
  | some p => ⟨some (tdim.foldl
      (fun r d => Function.update r d (if project then Itv.point 0 else Itv.top)) p), a.intdim, a.realdim⟩

/-- `box_expand`: box/box_otherops.c:41-79 -/
def expand (a : Box K) (destructive : Bool) (d n : ℕ) : Box K :=
  let intsup := if d < a.intdim then n else 0
  let offset := if d < a.intdim then a.intdim else a.dim
  match a.p, n with
  | none, _ => ⟨none, a.intdim + intsup, a.realdim + (n - intsup)⟩
  | some p, 0 => ⟨some p, a.intdim, a.realdim⟩
  | some _, n + 1 =>
    let b := addDimensions a destructive (List.replicate (n + 1) offset) intsup false
    ⟨b.p.map fun r => (List.range (n + 1)).foldl (fun r i => Function.update r (offset + i) (r d)) r,
      b.intdim, b.realdim⟩

/-- `box_fold`: box/box_otherops.c:81-121; `d0 :: ts` is the array `tdim` -/
def fold (a : Box K) (d0 : ℕ) (ts : List ℕ) : Box K :=
  let intsup := if d0 < a.intdim then ts.length else 0
  match a.p, ts with
  | none, _ => ⟨none, a.intdim - intsup, a.realdim - (ts.length - intsup)⟩
  | some p, [] => ⟨some p, a.intdim, a.realdim⟩
  | some p, ts => removeDimensions ⟨some (ts.foldl
      (fun r t => Function.update r d0 ((r d0).join (r t))) p), a.intdim, a.realdim⟩ true ts intsup

/-! ## Constraints and generators -/

/-- the constraint `q*x_d + b typ 0` built at box/box_constructor.c:345-355, 359-367 -/
def unitCons (typ : ConsTyp K) (q : K) (d : ℕ) (b : Bound K) : Lincons K :=
  ⟨typ, ⟨.scalar b, .sparse [(d, .scalar (fin q))]⟩⟩

/-- one iteration of the loop of `box_to_lincons_array`: box/box_constructor.c:342-370 -/
def dimCons (p : ℕ → Itv K) (i : ℕ) : List (Lincons K) :=
  let point := !infty (p i).inf && (p i).isPoint
  (if infty (p i).inf then [] else [unitCons (if point then .eq else .supeq) 1 i (p i).inf]) ++
    (if point || infty (p i).sup then [] else [unitCons .supeq (-1) i (p i).sup])

/-- `box_to_lincons_array`: box/box_constructor.c:312-373; `ap_lincons0_make_unsat`
(apron/ap_lincons0.c) is the constraint `-1 >= 0` -/
def toLinconsArray (a : Box K) : List (Lincons K) :=
  match a.p with
  | none => [⟨.supeq, ⟨.scalar (fin (-1)), .sparse []⟩⟩]
  | some p => (List.range a.dim).flatMap (dimCons p)

/-- one step of the creation of the vertices: box/box_constructor.c:436-455 -/
def vertexStep (p : ℕ → Itv K) (vs : List (ℕ → K)) (i : ℕ) : List (ℕ → K) :=
  match (p i).inf, (p i).sup with
  | fin l, fin u => vs.map (fun v => Function.update v i (-l)) ++ vs.map (fun v => Function.update v i u)
  | _, _ => vs

/-- lines and rays: box/box_constructor.c:456-489.  The loops 473-477 and 483-486 overwrite the
coefficient of the ray itself (`expr`) by the bound, as many times as there are vertices. -/
def rayOf (p : ℕ → Itv K) (i : ℕ) : List (Gen K) :=
  match (p i).inf, (p i).sup with
  | fin l, fin u => let _ := l; let _ := u; []
  | fin l, _ => [⟨.ray, Function.update (fun _ => 0) i (-l)⟩]
  | _, fin u => [⟨.ray, Function.update (fun _ => 0) i u⟩]
  | _, _ => [⟨.line, Function.update (fun _ => 0) i 1⟩]

/-- `box_to_generator_array`: box/box_constructor.c:380-493 (the order lines, rays, vertices of the
array is not modelled) -/
def toGenerators (a : Box K) : List (Gen K) :=
  match a.p with
  | none => []
  | some p => (List.range a.dim).flatMap (rayOf p) ++
      ((List.range a.dim).foldl (vertexStep p) [fun _ => 0]).map fun v => ⟨.vertex, v⟩

/-! ## Operations with numeric computations -/

section num
variable (R : Rnd K)

/-- `box_bound_linexpr`: box/box_constructor.c:263-283 -/
def boundLinexpr (a : Box K) (e : Linexpr K) : Itv K :=
  match a.p with
  | none => Itv.bottom
  | some p => ILinexpr.evalAp R e p

/-- `box_sat_lincons`: box/box_constructor.c:181-206; `none` is the division by zero of
`itv_eval_cstlincons` -/
def satLincons (a : Box K) (c : Lincons K) : Option Bool :=
  match a.p with
  | none => some true
  | some p =>
    let i := ILinexpr.evalAp R c.expr p
    (ILincons.evalCst ⟨c.typ, ⟨i, i.isPoint, []⟩⟩).map fun t => decide (t = .t)

/-- the loop of `box_assign_linexpr_array`: box/box_assign.c:42-45 -/
def assignGo (p : ℕ → Itv K) : List (ℕ × Linexpr K) → (ℕ → Itv K) → ℕ → Itv K
  | [], r => r
  | (d, e) :: l, r => assignGo p l (Function.update r d (ILinexpr.evalAp R e p))

/-- `box_assign_linexpr_array`: box/box_assign.c:16-53.  For `size==1` the evaluation writes its
result only at its end (itv/itv_linearize.c:84), so that the in-place run is the same. -/
def assignLinexprArray (a : Box K) (l : List (ℕ × Linexpr K)) (dest : Option (Box K)) : Box K :=
  match a.p, dest with
  | none, _ => a
  | some p, none => ⟨some (assignGo R p l p), a.intdim, a.realdim⟩
  | some p, some b =>
    if b.isBottom then a
    else meet ⟨some (assignGo R p l p), a.intdim, a.realdim⟩ b

variable [FloorRing K]

/-- `box_of_box`: box/box_constructor.c:46-64; the loop stops at the first empty interval -/
def ofBox (intdim realdim : ℕ) (t : ℕ → Bound K × Bound K) : Box K :=
  let p : ℕ → Itv K := fun i =>
    Itv.canonicalize (Itv.setApInterval R (t i).1 (t i).2) (decide (i < intdim))
  if (List.range (intdim + realdim)).any fun i => (p i).isBottom then bottom intdim realdim
  else ⟨some p, intdim, realdim⟩

/-- `box_meet_lincons_array`: box/box_meetjoin.c:171-208.  `red` is the variant of
`itv_lincons_reduce_integer` selected by the number type; `algo` is the field `algorithm` (a
negative one becomes a huge `size_t`; any `kmax` is covered) -/
def meetLinconsArray (red : ILincons K → ℕ → ILincons K) (a : Box K) (l : List (Lincons K))
    (algo : ℕ) : Box K :=
  match a.p with
  | none => a
  | some p =>
    let kmax := if algo < 1 then 2 else algo
    let t := ILincons.arrayReduceInteger red (l.map (ILincons.ofAp R)) a.intdim
    if t.2 = .f then setBottom a
    else
      let s := ILincons.boxizeArray R t.1 true p p a.intdim kmax false
      if s.empty then setBottom a else ⟨some s.res, a.intdim, a.realdim⟩

end num

end Box
end Apron
