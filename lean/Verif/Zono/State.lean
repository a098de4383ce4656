import Verif.Zono.Defs
import Verif.Box.Defs

/-!
# Affine forms: model of the abstract values of `taylor1plus`

`t1p_t` (taylor1plus/t1p_internal.h:162-174) holds an array of addresses of affine forms, `paf`, and an array of
intervals, `box`.  The forms are shared between dimensions and between abstract values, and some functions modify
them in place.  So the model has a heap.

Simplifications.
* `hypercube` is true and `abs` has no dimension: no function of this file adds a constraint on noise symbols.
* Reference counts (`pby`) are not modelled: nothing is freed.
* `dest` is `NULL` in assignments.
-/

set_option autoImplicit false
set_option linter.unusedSectionVars false
set_option linter.ambiguousOpen false

namespace Apron
open Bound
namespace T1p
variable {K : Type*} [LinearOrder K] [Field K] [IsStrictOrderedRing K]

/-- The part of `t1p_internal_t` (taylor1plus/t1p_internal.h:135-157) that operations read or change: the objects
of type `t1p_aff_t` by address, the next free address, and `dim`, the number of noise symbols. -/
structure Pr (K : Type*) where
  heap : ℕ → Aff K
  next : ℕ
  nsym : ℕ

/-- the address of `pr->top` -/
def topPtr : ℕ := 0
/-- the address of `pr->bot` -/
def botPtr : ℕ := 1

/-- `t1p_internal_alloc`: taylor1plus/t1p_internal.h:5257-5300 -/
def Pr.init : Pr K := ⟨fun p => if p = topPtr then Aff.top else Aff.bottom, 2, 0⟩

/-- `t1p_t`: taylor1plus/t1p_internal.h:162-174; `n` is the field `dims` -/
structure T1 (K : Type*) where
  n : ℕ
  intdim : ℕ
  paf : ℕ → ℕ
  box : ℕ → Itv K

/-- Specification: the points of an abstract value.  Dimensions that share an affine form have the same value,
unless this form is `pr->top`. -/
def Gam (pr : Pr K) (a : T1 K) (x : ℕ → K) : Prop :=
  (∀ i < a.n, ∀ j < a.n, a.paf i = a.paf j → a.paf i ≠ topPtr → x i = x j) ∧
  ∃ ε, Noise ε ∧ ∀ i < a.n, x i ∈ a.box i ∧ (pr.heap (a.paf i)).Val ε (x i)

variable (R : Rnd K) (o : RootOps K)

/-! ## Noise symbols -/

/-- `t1p_aff_nsym_create`: taylor1plus/t1p_internal.h:614-627; the form and the number of symbols -/
def nsymCreate (nsym : ℕ) (a : Aff K) (coef : Itv K) (un : Bool) : Aff K × ℕ :=
  if Itv.isLeq coef (Itv.point 0) then (a, nsym)
  else (⟨a.c, a.q ++ [⟨⟨nsym, un⟩, coef⟩], a.itv⟩, nsym + 1)

/-- `t1p_aff_add_itv`: taylor1plus/t1p_internal.h:713-724 -/
def addItv (nsym : ℕ) (a : Aff K) (i : Itv K) (un : Bool) : Aff K × ℕ :=
  if i.isPoint then (⟨Itv.add R a.c i, a.q, a.itv⟩, nsym)
  else
    let md := Itv.middev R i
    nsymCreate nsym ⟨Itv.add R a.c md.1, a.q, a.itv⟩ md.2 un

/-- the reduction of one interval in `t1p_aff_reduce`: taylor1plus/t1p_internal.h:1109-1114, 1133-1138;
`eps` is the threshold -/
def red1 (eps : K) (c s : Itv K) : Itv K × Itv K :=
  if fin eps < Bound.add R c.sup c.inf then
    let md := Itv.middev R c
    (md.1, Itv.add R s md.2)
  else (c, s)

/-- what the loop of `t1p_aff_reduce` ends with: the form is replaced by top; the loop stops at a coefficient with
one infinite bound, and the sum is set to 0; or all coefficients have been reduced -/
inductive Red (K : Type*) where
  | top
  | stop (q : List (Term K))
  | ok (q : List (Term K)) (s : Itv K)

/-- the loop of `t1p_aff_reduce`: taylor1plus/t1p_internal.h:1115-1140 -/
def redTerms (eps : K) : List (Term K) → Itv K → Red K
  | [], s => .ok [] s
  | t :: l, s =>
    if t.coef.hasInfty then (if t.coef.isTop then .top else .stop (t :: l))
    else
      let cs := red1 R eps t.coef s
      match redTerms eps l cs.2 with
      | .top => .top
      | .stop q => .stop (⟨t.sym, cs.1⟩ :: q)
      | .ok q s' => .ok (⟨t.sym, cs.1⟩ :: q) s'

/-- `t1p_aff_reduce`: taylor1plus/t1p_internal.h:1093-1156 -/
def reduce (eps : K) (nsym : ℕ) (a : Aff K) : Aff K × ℕ :=
  if a.c.hasInfty then (a, nsym)
  else
    let cs := red1 R eps a.c (Itv.point 0)
    match redTerms R eps a.q cs.2 with
    | .top => (Aff.top, nsym)
    | .stop q => (⟨cs.1, q, a.itv⟩, nsym)
    | .ok q s =>
      if s.isZero then (⟨cs.1, q, a.itv⟩, nsym)
      else nsymCreate nsym ⟨cs.1, q, a.itv⟩ ⟨Bound.neg s.sup, s.sup⟩ true

/-! ## Constructors and accessors -/

/-- `t1p_top`: taylor1plus/t1p_constructor.c:40-55 -/
def T1.top (intdim n : ℕ) : T1 K := ⟨n, intdim, fun _ => topPtr, fun _ => Itv.top⟩
/-- `t1p_bottom`: taylor1plus/t1p_constructor.c:23-38 -/
def T1.bottom (intdim n : ℕ) : T1 K := ⟨n, intdim, fun _ => botPtr, fun _ => Itv.bottom⟩

/-- the body of the loop of `t1p_of_box`: taylor1plus/t1p_constructor.c:68-77 -/
def ofBoxStep (b : ℕ → Itv K) (st : Pr K × (ℕ → ℕ)) (i : ℕ) : Pr K × (ℕ → ℕ) :=
  let pr := st.1
  if (b i).isBottom then (⟨Function.update pr.heap pr.next Aff.zero, pr.next + 1, pr.nsym⟩, Function.update st.2 i botPtr)
  else if (b i).isTop then (⟨Function.update pr.heap pr.next Aff.zero, pr.next + 1, pr.nsym⟩, Function.update st.2 i topPtr)
  else if (b i).isPoint then
    (⟨Function.update pr.heap pr.next ⟨b i, [], Itv.point 0⟩, pr.next + 1, pr.nsym⟩, Function.update st.2 i pr.next)
  else if !(b i).hasInfty then
    let r := addItv R pr.nsym Aff.zero (b i) false
    (⟨Function.update pr.heap pr.next r.1, pr.next + 1, r.2⟩, Function.update st.2 i pr.next)
  else (⟨Function.update pr.heap pr.next ⟨b i, [], Itv.point 0⟩, pr.next + 1, pr.nsym⟩, Function.update st.2 i pr.next)

/-- `t1p_of_box`: taylor1plus/t1p_constructor.c:58-82 -/
def ofBox (pr : Pr K) (intdim n : ℕ) (b : ℕ → Itv K) : Pr K × T1 K :=
  let r := (List.range n).foldl (ofBoxStep R b) (pr, fun _ => topPtr)
  (r.1, ⟨n, intdim, r.2, b⟩)

/-- `t1p_is_bottom`: taylor1plus/t1p_constructor.c:98-110.  With no dimension the code reads `box[0]` out of
bounds: `none`. -/
def T1.isBottom (a : T1 K) : Option Bool :=
  if a.n = 0 then none else some ((List.range a.n).all fun i => (a.box i).isBottom)

/-- `t1p_is_top`: taylor1plus/t1p_constructor.c:112-124 -/
def T1.isTop (a : T1 K) : Option Bool :=
  if a.n = 0 then none else some ((List.range a.n).all fun i => (a.box i).isTop)

/-- `t1p_bound_dimension`: taylor1plus/t1p_constructor.c:275-282 (also each entry of `t1p_to_box`, 290-311) -/
def T1.boundDim (a : T1 K) (d : ℕ) : Itv K := a.box d

/-! ## Assignment -/

/-- the loop `itv_set(res->paf[i]->itv, res->box[i])`: taylor1plus/t1p_assign.c:89 -/
def sync (pr : Pr K) (a : T1 K) : Pr K :=
  ⟨(List.range a.n).foldl (fun h i => Function.update h (a.paf i) { h (a.paf i) with itv := a.box i }) pr.heap,
    pr.next, pr.nsym⟩

/-- the affine forms of the dimensions -/
def forms (pr : Pr K) (a : T1 K) (d : ℕ) : Aff K := pr.heap (a.paf d)

/-- the object that the evaluation returns: the one of the dimension itself if the tree is a dimension -/
def evalObj (pr : Pr K) (a : T1 K) (A : Aff K) : Texpr K → ℕ × Pr K
  | .dim j => (a.paf j, pr)
  | _ => (pr.next, ⟨Function.update pr.heap pr.next A, pr.next + 1, pr.nsym⟩)

/-- the body of the loop of `t1p_assign_texpr_array`: taylor1plus/t1p_assign.c:90-103; `a` is the argument, `st.2`
the value `res` -/
def assignStep (eps : K) (a : T1 K) (st : Pr K × T1 K) (p : ℕ × Texpr K) : Option (Pr K × T1 K) :=
  match evalTexpr R o NEnv.free (forms st.1 a) a.paf p.2 with
  | none => none
  | some A =>
    let ob := evalObj st.1 a A p.2
    let rd := reduce R eps ob.2.nsym (ob.2.heap ob.1)
    let pr : Pr K := ⟨Function.update ob.2.heap ob.1 rd.1, ob.2.next, rd.2⟩
    let addr := if rd.1.isTop then topPtr else if rd.1.isBottom then botPtr else ob.1
    some (pr, { st.2 with paf := Function.update st.2.paf p.1 addr,
                          box := Function.update st.2.box p.1 (pr.heap addr).itv })

/-- `t1p_assign_texpr_array` with `dest` equal to `NULL`: taylor1plus/t1p_assign.c:64-118 -/
def assignArray (eps : K) (pr : Pr K) (a : T1 K) (l : List (ℕ × Texpr K)) : Option (Pr K × T1 K) :=
  l.foldlM (assignStep R o eps a) (sync pr a, a)

/-! ## Dimensions -/

/-- `t1p_forget_array`: taylor1plus/t1p_otherops.c:20-53.  The box is changed at the index of the loop, not at the
forgotten dimension, and not changed at all when projecting. -/
def forgetArray (pr : Pr K) (a : T1 K) (tdim : List ℕ) (project : Bool) : Pr K × T1 K :=
  if project then
    tdim.foldl (fun st d => (⟨Function.update st.1.heap st.1.next Aff.zero, st.1.next + 1, st.1.nsym⟩,
      { st.2 with paf := Function.update st.2.paf d st.1.next })) (pr, a)
  else
    (pr, { a with paf := tdim.foldl (fun p d => Function.update p d topPtr) a.paf,
                  box := (List.range tdim.length).foldl (fun b i => Function.update b i Itv.top) a.box })

/-- the loop of `t1p_add_dimensions` for one dimension (taylor1plus/t1p_resize.c:39-56): the entries from position
`d` on are shifted by one -/
def insertAt {A : Type*} (d : ℕ) (v : A) (f : ℕ → A) (i : ℕ) : A := if i < d then f i else if i = d then v else f (i - 1)

/-- `t1p_add_dimensions`: taylor1plus/t1p_resize.c:22-64.  Each insertion is at `dim[i]`, in the array that already
holds the previous ones. -/
def addDimensions (pr : Pr K) (a : T1 K) (dims : List ℕ) (intadd : ℕ) (project : Bool) : Pr K × T1 K :=
  let r := dims.foldl (fun (st : Pr K × T1 K) d =>
    if project then
      ((⟨Function.update st.1.heap st.1.next Aff.zero, st.1.next + 1, st.1.nsym⟩ : Pr K),
        ({ st.2 with n := st.2.n + 1, paf := insertAt d st.1.next st.2.paf, box := insertAt d (Itv.point 0) st.2.box } : T1 K))
    else (st.1, { st.2 with n := st.2.n + 1, paf := insertAt d topPtr st.2.paf, box := insertAt d Itv.top st.2.box })) (pr, a)
  (r.1, { r.2 with intdim := a.intdim + intadd })

/-- the loop of `t1p_remove_dimensions`: taylor1plus/t1p_resize.c:93-101; the two entries of `paf` are exchanged.  The
inner `while` (94-96) is the one of `box_remove_dimensions`. -/
def remLoop (pos : List ℕ) : ℕ → ℕ → ℕ → (ℕ → ℕ) → (ℕ → Itv K) → (ℕ → ℕ) × (ℕ → Itv K)
  | 0, _, _, p, b => (p, b)
  | m + 1, i, k, p, b =>
    let k1 := Box.remInner pos i pos.length k
    remLoop pos m (i + 1) k1 (Function.update (Function.update p i (p (i + k1))) (i + k1) (p i))
      (Function.update b i (b (i + k1)))

/-- `t1p_remove_dimensions`: taylor1plus/t1p_resize.c:68-118 -/
def removeDimensions (a : T1 K) (pos : List ℕ) (intrem : ℕ) : T1 K :=
  let r := remLoop pos (a.n - pos.length) 0 0 a.paf a.box
  ⟨a.n - pos.length, a.intdim - intrem, r.1, r.2⟩

/-- the exchange of two entries -/
def swapAt {A : Type*} (f : ℕ → A) (i j : ℕ) : ℕ → A := Function.update (Function.update f i (f j)) j (f i)

/-- `t1p_permute_dimensions`: taylor1plus/t1p_resize.c:120-145 -/
def permuteDimensions (a : T1 K) (perm : List ℕ) : T1 K :=
  let r := (List.range perm.length).foldl
    (fun (pb : (ℕ → ℕ) × (ℕ → Itv K)) i => (swapAt pb.1 i (perm.getD i 0), swapAt pb.2 i (perm.getD i 0))) (a.paf, a.box)
  { a with paf := r.1, box := r.2 }

end T1p
end Apron
