import Verif.Core.Level0
import Verif.Core.Compare

/-!
# Finite disjunctions: `apron/ap_disjunction.c`

A value is an array of values of one underlying domain, and denotes their union.  During an operation an entry of the array may be
`NULL`; the functions below remove such entries before they return.

Not modelled: memory management (copies are values), the exception log, printing.  `ap_disjunction_meet` calls `is_bottom` through a
pointer to a function that returns a pointer (:827, :838); it is taken to return a Boolean.
-/

set_option autoImplicit false
set_option linter.unusedSectionVars false

namespace Apron

/-- `ap_disjunction_internal_t`: apron/ap_disjunction.h:23-35; the functions of the underlying domain that are used everywhere -/
structure DInt (K A : Type*) where
  man : Man K A
  bottom : ℕ → ℕ → A
  isBottom : A → Bool
  isTop : A → Bool
  isEq : A → A → Bool

namespace Disj

variable {K A : Type*}

/-! ## The array -/

/-- the inner loop of `ap_disjunction_resize`: apron/ap_disjunction.c:88-90; the last argument bounds the number of iterations -/
def skip (p : List (Option A)) (i dec : ℕ) : ℕ → ℕ
  | 0 => dec
  | n + 1 => if i + dec < p.length ∧ (p.getD (i + dec) none).isNone = true then skip p i (dec + 1) n else dec

/-- the outer loop: apron/ap_disjunction.c:87-95 -/
def resizeLoop : ℕ → List (Option A) → ℕ → ℕ → List (Option A) × ℕ
  | 0, p, _, dec => (p, dec)
  | n + 1, p, i, dec =>
    if i + dec < p.length then
      let dec' := skip p i dec p.length
      resizeLoop n (if 0 < dec' ∧ i + dec' < p.length then p.set i (p.getD (i + dec') none) else p) (i + 1) dec'
    else (p, dec)

/-- `ap_disjunction_resize`: apron/ap_disjunction.c:83-98 -/
def resize (p : List (Option A)) : List (Option A) :=
  let r := resizeLoop p.length p 0 0
  r.1.take (p.length - r.2)

/-- the array read as an array without `NULL` -/
def values (p : List (Option A)) : List A := (resize p).filterMap id

variable (I : DInt K A)

/-- the variables of `ap_disjunction_null_bottom_top` -/
structure Nbt (A : Type*) where
  p : List (Option A)
  bottom : Option ℕ
  top : Option ℕ
  notbottom : Bool

/-- the loop of `ap_disjunction_null_bottom_top`: apron/ap_disjunction.c:117-132; `i` is the index of the first entry of the list -/
def nbtLoop : List (Option A) → ℕ → Option ℕ → Option ℕ → Bool → Nbt A
  | [], _, b, t, nb => ⟨[], b, t, nb⟩
  | none :: l, i, b, t, nb =>
    let r := nbtLoop l (i + 1) b t nb
    { r with p := none :: r.p }
  | some a :: l, i, b, t, nb =>
    if I.isBottom a then
      if b.isSome then
        let r := nbtLoop l (i + 1) b t nb
        { r with p := none :: r.p }
      else
        let r := nbtLoop l (i + 1) (some i) t nb
        { r with p := some a :: r.p }
    else if I.isTop a then
      if t.isSome then
        let r := nbtLoop l (i + 1) b t true
        { r with p := none :: r.p }
      else
        let r := nbtLoop l (i + 1) b (some i) true
        { r with p := some a :: r.p }
    else
      let r := nbtLoop l (i + 1) b t true
      { r with p := some a :: r.p }

/-- `ap_disjunction_null_bottom_top`: apron/ap_disjunction.c:101-137 -/
def nullBottomTop (p : List (Option A)) : Nbt A :=
  let r := nbtLoop I p 0 none none false
  match r.bottom with
  | some b => if r.notbottom then { r with p := r.p.set b none } else r
  | none => r

/-- the inner loop of `ap_disjunction_elim_redundant`: apron/ap_disjunction.c:157-164; `j` is the index of the first entry of the list -/
def elimInner (a : A) (top : Option ℕ) : ℕ → List (Option A) → List (Option A)
  | _, [] => []
  | j, none :: l => none :: elimInner a top (j + 1) l
  | j, some b :: l => (if some j ≠ top ∧ I.isEq a b = true then none else some b) :: elimInner a top (j + 1) l

/-- the outer loop: apron/ap_disjunction.c:155-166; the first argument bounds the number of iterations -/
def elimLoop (top : Option ℕ) : ℕ → ℕ → List (Option A) → List (Option A)
  | 0, _, l => l
  | _ + 1, _, [] => []
  | n + 1, i, none :: l => none :: elimLoop top n (i + 1) l
  | n + 1, i, some a :: l =>
    some a :: elimLoop top n (i + 1) (if some i ≠ top then elimInner I a top (i + 1) l else l)

/-- `ap_disjunction_elim_redundant`: apron/ap_disjunction.c:141-169 -/
def elimRedundant (l : List A) : List A :=
  let r := nullBottomTop I (l.map some)
  values (if r.notbottom then elimLoop I r.top r.p.length 0 r.p else r.p)

/-- `ap_disjunction_null_bottom_top` followed by `ap_disjunction_resize`, as in apron/ap_disjunction.c:739-744 -/
def clean (l : List A) : List A := values (nullBottomTop I (l.map some)).p

/-- the points of a disjunction -/
def Gam (l : List A) (x : ℕ → K) : Prop := ∃ a ∈ l, I.man.Gam a x

/-! ## Constructors and tests -/

/-- `ap_disjunction_minimize`, `ap_disjunction_canonicalize`: apron/ap_disjunction.c:214-238; `f` is the function of the domain -/
def minimize (f : A → A) (l : List A) : List A := (elimRedundant I l).map f

/-- `ap_disjunction_bottom`: apron/ap_disjunction.c:316-327 -/
def bottom (i r : ℕ) : List A := [I.bottom i r]

/-- `ap_disjunction_top`: apron/ap_disjunction.c:316-328 -/
def top (i r : ℕ) : List A := [I.man.top i r]

/-- `ap_disjunction_dimension`: apron/ap_disjunction.c:343-350; `none` is the access outside the array of size 0 -/
def dimension (l : List A) : Option (ℕ × ℕ) := l.head?.map fun a => (I.man.intdim a, I.man.realdim a)

/-- `ap_disjunction_is_bottom`: apron/ap_disjunction.c:356-364 -/
def isBottom : List A → Bool
  | [a] => I.isBottom a
  | _ => false

/-- `ap_disjunction_is_top`: apron/ap_disjunction.c:366-374 -/
def isTop : List A → Bool
  | [a] => I.isTop a
  | _ => false

/-- `ap_disjunction_is_eq`: apron/ap_disjunction.c:378-419 -/
def isEq (_ _ : List A) : Bool := false

/-- `ap_disjunction_is_leq`: apron/ap_disjunction.c:421-448 -/
def isLeq (_ _ : List A) : Bool := false

/-- `ap_disjunction_sat_lincons`, `.._sat_tcons`, `.._sat_interval`: apron/ap_disjunction.c:451-503; `t` is the function of the domain -/
def sat (t : A → Bool) : List A → Bool
  | [] => true
  | a :: l => if t a then sat t l else false

/-- `ap_disjunction_is_dimension_unconstrained`: apron/ap_disjunction.c:505-511 -/
def isDimUnconstrained (_ : List A) (_ : ℕ) : Bool := false

section Bounds
variable [LinearOrder K] [Field K]

/-- `ap_interval_join_with`: apron/ap_disjunction.c:57-66 -/
def joinWith (a b : Bound K × Bound K) : Bound K × Bound K :=
  (if scalarCmp a.1 b.1 > 0 then b.1 else a.1, if scalarCmp a.2 b.2 < 0 then b.2 else a.2)

/-- the loop of the three functions below -/
def boundLoop (f : A → Bound K × Bound K) : List A → Bound K × Bound K → Bound K × Bound K
  | [], g => g
  | a :: l, g =>
    let g := joinWith g (f a)
    if intervalIsBottom g.1 g.2 then g else boundLoop f l g

/-- `ap_disjunction_bound_linexpr`, `.._bound_texpr`, `.._bound_dimension`: apron/ap_disjunction.c:517-582; the first interval is that
of `ap_interval_set_bottom`, [1,-1] (apron/ap_interval.c:93-108) -/
def bound (f : A → Bound K × Bound K) (l : List A) : Bound K × Bound K := boundLoop f l (.fin 1, .fin (-1))

/-- the inner loop of `ap_disjunction_to_box`: apron/ap_disjunction.c:670-674; the Boolean tells whether it stopped -/
def boxJoin : List (Bound K × Bound K) → List (Bound K × Bound K) → List (Bound K × Bound K) × Bool
  | g :: gs, b :: bs =>
    let m := joinWith g b
    if intervalIsBottom m.1 m.2 then (m :: gs, true)
    else
      let r := boxJoin gs bs
      (m :: r.1, r.2)
  | gs, _ => (gs, false)

/-- the outer loop: apron/ap_disjunction.c:664-682 -/
def boxLoop (f : A → List (Bound K × Bound K)) : List A → List (Bound K × Bound K) → List (Bound K × Bound K)
  | [], g => g
  | a :: l, g =>
    let r := boxJoin g (f a)
    if r.2 then List.replicate g.length (.fin 1, .fin (-1)) else boxLoop f l r.1

/-- `ap_disjunction_to_box`: apron/ap_disjunction.c:649-684; `none` is the access outside the array of size 0 -/
def toBox (f : A → List (Bound K × Bound K)) : List A → Option (List (Bound K × Bound K))
  | [] => none
  | a :: l => some (boxLoop f l (f a))

end Bounds

/-- `ap_disjunction_to_lincons_array`: apron/ap_disjunction.c:588-606; `none` is the exception `AP_EXC_NOT_IMPLEMENTED` -/
def toLincons {C : Type*} (f : A → List C) : List A → Option (List C)
  | [a] => some (f a)
  | _ => none

/-! ## Operations -/

/-- `ap_disjunction_join`: apron/ap_disjunction.c:713-749 -/
def join (a b : List A) : List A :=
  if isBottom I a then b
  else if isBottom I b then a
  else clean I (a ++ b)

/-- `ap_disjunction_join_array`: apron/ap_disjunction.c:751-809; `none` is the exception for an empty array.  The test `length==0`
(:791) is on the sum of the sizes, not on the number of values copied. -/
def joinArray : List (List A) → Option (List A)
  | [] => none
  | [a] => some a
  | [a, b] => some (join I a b)
  | tab =>
    if (tab.map List.length).sum = 0 then tab.find? (isBottom I)
    else
      let l := (tab.filter fun a => !isBottom I a).flatten
      some (values (nullBottomTop I (l.map some ++ List.replicate ((tab.map List.length).sum - l.length) none)).p)

/-- the pairwise meets of `ap_disjunction_meet`: apron/ap_disjunction.c:832-843 -/
def meets (a b : List A) : List A :=
  (a.flatMap fun u => b.map fun v => I.man.meet u v).filter fun r => !I.isBottom r

/-- `ap_disjunction_meet`: apron/ap_disjunction.c:811-858; `none` when no pair of disjuncts meets: the underlying values are then
given to `ap_abstract0_dimension`, which expects another structure (:846-847) -/
def meet (a b : List A) : Option (List A) :=
  if isBottom I a then some a
  else if isBottom I b then some b
  else
    match meets I (elimRedundant I a) (elimRedundant I b) with
    | [] => none
    | r => some (elimRedundant I r)

/-- `ap_disjunction_meet_lincons_array`, `.._meet_tcons_array`, `.._add_ray_array`: apron/ap_disjunction.c:871-942; `f` is the function
of the domain -/
def mapClean (f : A → A) (l : List A) : List A := clean I (l.map f)

/-- `ap_disjunction_asssub_linexpr_array`, `.._asssub_texpr_array`: apron/ap_disjunction.c:948-1014; `none` is the exception
`AP_EXC_NOT_IMPLEMENTED` when a destination is given -/
def asssub {E : Type*} (f : A → List (ℕ × E) → A) (l : List A) (e : List (ℕ × E)) (dest : Option (List A)) : Option (List A) :=
  match dest with
  | some _ => none
  | none => some (l.map fun a => f a e)

/-- `ap_disjunction_forget_array`: apron/ap_disjunction.c:1036-1062 -/
def forget (l : List A) (tdim : List ℕ) (project : Bool) : List A := elimRedundant I (l.map fun a => I.man.forget a tdim project)

/-- `ap_disjunction_add_dimensions`: apron/ap_disjunction.c:1064-1081 -/
def add (l : List A) (pos : List ℕ) (n : ℕ) (project : Bool) : List A := l.map fun a => I.man.add a pos n project

/-- `ap_disjunction_remove_dimensions`: apron/ap_disjunction.c:1083-1107 -/
def remove (l : List A) (pos : List ℕ) (n : ℕ) : List A := elimRedundant I (l.map fun a => I.man.remove a pos n)

/-- `ap_disjunction_permute_dimensions`: apron/ap_disjunction.c:1109-1124 -/
def permute (l : List A) (perm : List ℕ) : List A := l.map fun a => I.man.permute a perm

/-- `ap_disjunction_expand`: apron/ap_disjunction.c:1132-1150 -/
def expand (l : List A) (d n : ℕ) : List A := l.map fun a => I.man.expand a d n

/-- `ap_disjunction_fold`: apron/ap_disjunction.c:1154-1175 -/
def fold (l : List A) (d : ℕ) (ts : List ℕ) : List A := l.map fun a => I.man.fold a d ts

/-- `ap_disjunction_closure`: apron/ap_disjunction.c:1194-1209; `f` is the function of the domain -/
def closure (f : A → A) (l : List A) : List A := l.map f

/-- `ap_disjunction_decompose` and `ap_disjunction_compose`: apron/ap_disjunction.c:1344-1386 -/
def decompose (l : List A) : List A := l

@[inherit_doc decompose]
def compose (l : List A) : List A := l

/-- the representation invariant: at least one disjunct, and all have the same dimensions -/
def Ok (C : A → Prop) (i r : ℕ) (l : List A) : Prop := l ≠ [] ∧ ∀ a ∈ l, C a ∧ I.man.Dims a i r

end Disj
end Apron
