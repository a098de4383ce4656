import Verif.Core.Level0
import Verif.Core.Compare
import Mathlib.Data.List.FinRange

/-!
# Reduced products: `apron/ap_reducedproduct.c`

A product combines any number (at least one here, two in the code) of abstract domains; the reduction is a function given by the
user.  The values of the components have different types, as the `void*` of the code may point to different structures.

Not modelled: memory management, the exception log, printing and serialisation.  The in-place reduction of the arguments
(`get_internal_init1`, ...) is a value used instead of the argument.
-/

set_option autoImplicit false
set_option linter.unusedSectionVars false

namespace Apron

/-- `ap_reducedproduct_t`: apron/ap_reducedproduct.h:24-27 -/
structure RP {n : ℕ} (A : Fin (n + 1) → Type*) where
  reduced : Bool
  p : ∀ i, A i

namespace RP

variable {K : Type*} {n : ℕ} {A : Fin (n + 1) → Type*}

/-- the functions of a product with an option: `ap_funid_t`, apron/ap_manager.h:55-111 -/
inductive Fid
  | copy | ofBox | isBottom | isTop | isLeq | isEq | isDimUnconstrained | sat | bound | toBox | toLincons
  | meet | meetArray | meetCons | join | joinArray | assign | substitute | add | remove | permute | forget | expand | fold
  | widening | closure
deriving DecidableEq

/-- `ap_reducedproduct_internal_t`: apron/ap_reducedproduct.h:29-37, and `man->option.funopt[..].algorithm`; of the functions of a
component those of `Man` and the two used everywhere -/
structure Intern (K : Type*) {n : ℕ} (A : Fin (n + 1) → Type*) where
  man : ∀ i, Man K (A i)
  bottom : ∀ i, ℕ → ℕ → A i
  isBottom : ∀ i, A i → Bool
  reduce : RP A → RP A
  alg : Fid → ℕ

/-- the default options: apron/ap_reducedproduct.c:1217-1249 -/
def defaultAlg : Fid → ℕ
  | .copy | .isBottom | .isTop | .isLeq | .isEq | .sat | .isDimUnconstrained | .bound | .toLincons | .toBox | .join | .joinArray
  | .expand | .closure => 1
  | .forget => 3
  | .add | .permute | .widening => 0
  | _ => 2

variable (I : Intern K A)

/-- `get_internal_init1` (and `get_internal_init2` for each argument, `get_internal_init_tab`): apron/ap_reducedproduct.c:35-68 -/
def init (f : Fid) (a : RP A) : RP A :=
  if a.reduced = false ∧ (I.alg f).testBit 0 = true then I.reduce a else a

/-- `collect_results1`: apron/ap_reducedproduct.c:104-113 -/
def finish (f : Fid) (a : RP A) : RP A :=
  if a.reduced = false ∧ (I.alg f).testBit 1 = true then ⟨true, (I.reduce a).p⟩ else a

/-- `gresult->flag_exact` of `collect_results0`: apron/ap_reducedproduct.c:71-103 -/
def flagExact (fl : Fin (n + 1) → Bool) : Bool := (List.finRange (n + 1)).all fl

/-- `gresult->flag_best` of `collect_results0`: apron/ap_reducedproduct.c:78 -/
def flagBest (_ : Fin (n + 1) → Bool) : Bool := true

/-- `set_bottom`: apron/ap_reducedproduct.c:115-143 -/
def setBottom (f : ∀ i, A i) (k : Fin (n + 1)) : RP A :=
  ⟨true, fun i => if i = k then f i else I.bottom i ((I.man k).intdim (f k)) ((I.man k).realdim (f k))⟩

/-- the loop that stops at the first empty component and makes the whole empty, with the flag `reduced` set at the end:
apron/ap_reducedproduct.c:368-378, :707-722, :749-773, :800-811, :825-836 -/
def mapStop (f : ∀ i, A i) (red : Bool) : RP A :=
  match (List.finRange (n + 1)).find? fun i => I.isBottom i (f i) with
  | some k => setBottom I f k
  | none => ⟨red, f⟩

/-- `ap_reducedproduct_dimension`: apron/ap_reducedproduct.c:382-388 -/
def intdim (a : RP A) : ℕ := (I.man 0).intdim (a.p 0)

/-- same, real dimensions -/
def realdim (a : RP A) : ℕ := (I.man 0).realdim (a.p 0)

/-- the points of a product -/
def Gam (a : RP A) (x : ℕ → K) : Prop := ∀ i, (I.man i).Gam (a.p i) x

/-! ## Constructors and tests -/

/-- `ap_reducedproduct_bottom`: apron/ap_reducedproduct.c:340-357 -/
def bottom (i r : ℕ) : RP A := ⟨true, fun k => I.bottom k i r⟩

/-- `ap_reducedproduct_top`: apron/ap_reducedproduct.c:340-358 -/
def top (i r : ℕ) : RP A := ⟨true, fun k => (I.man k).top i r⟩

/-- `ap_reducedproduct_copy`: apron/ap_reducedproduct.c:168-182 -/
def copy (a : RP A) : RP A := finish I .copy (init I .copy a)

/-- `ap_reducedproduct_of_box`: apron/ap_reducedproduct.c:360-380; `f` gives the components -/
def ofBox (f : ∀ i, A i) : RP A := finish I .ofBox (mapStop I f false)

/-- `ap_reducedproduct_is_bottom`: apron/ap_reducedproduct.c:394-409 -/
def isBottom (a : RP A) : Bool :=
  let a := init I .isBottom a
  (List.finRange (n + 1)).any fun i => I.isBottom i (a.p i)

/-- `ap_reducedproduct_is_top`: apron/ap_reducedproduct.c:410-425 -/
def isTop (t : ∀ i, A i → Bool) (a : RP A) : Bool :=
  let a := init I .isTop a
  (List.finRange (n + 1)).all fun i => t i (a.p i)

/-- `ap_reducedproduct_is_leq`, `ap_reducedproduct_is_eq`: apron/ap_reducedproduct.c:427-447 -/
def cmp2 (f : Fid) (t : ∀ i, A i → A i → Bool) (a b : RP A) : Bool :=
  let a := init I f a
  let b := init I f b
  (List.finRange (n + 1)).all fun i => t i (a.p i) (b.p i)

/-- `ap_reducedproduct_sat_lincons`, `.._sat_tcons`, `.._sat_interval`: apron/ap_reducedproduct.c:449-497 -/
def sat (t : ∀ i, A i → Bool) (a : RP A) : Bool :=
  let a := init I .sat a
  (List.finRange (n + 1)).any fun i => t i (a.p i)

/-! ## Bounds -/

section Bounds
variable [LinearOrder K] [Field K]

/-- `ap_interval_meet_with`: apron/ap_reducedproduct.c:521-530; intervals are pairs of bounds -/
def meetWith (a b : Bound K × Bound K) : Bound K × Bound K :=
  (if scalarCmp a.1 b.1 < 0 then b.1 else a.1, if scalarCmp a.2 b.2 > 0 then b.2 else a.2)

/-- the loop of the three functions below -/
def boundLoop (f : Fin (n + 1) → Bound K × Bound K) : List (Fin (n + 1)) → Bound K × Bound K → Bound K × Bound K
  | [], g => g
  | i :: l, g =>
    let g := meetWith g (f i)
    if intervalIsBottom g.1 g.2 then g else boundLoop f l g

/-- `ap_reducedproduct_bound_linexpr`, `.._bound_texpr`, `.._bound_dimension`: apron/ap_reducedproduct.c:532-594 -/
def bound (f : ∀ i, A i → Bound K × Bound K) (a : RP A) : Bound K × Bound K :=
  let a := init I .bound a
  boundLoop (fun i => f i (a.p i)) (List.finRange (n + 1)) (.ninf, .pinf)

/-- one component of `ap_reducedproduct_to_box`: apron/ap_reducedproduct.c:659-663; `none` when an interval became empty -/
def boxMeet : List (Bound K × Bound K) → List (Bound K × Bound K) → Option (List (Bound K × Bound K))
  | g :: gs, b :: bs =>
    let m := meetWith g b
    if intervalIsBottom m.1 m.2 then none else (boxMeet gs bs).map (m :: ·)
  | gs, _ => some gs

/-- the loop of `ap_reducedproduct_to_box`: apron/ap_reducedproduct.c:650-672 -/
def boxLoop (f : Fin (n + 1) → List (Bound K × Bound K)) : List (Fin (n + 1)) → List (Bound K × Bound K) → List (Bound K × Bound K)
  | [], g => g
  | i :: l, g =>
    match boxMeet g (f i) with
    | some g' => boxLoop f l g'
    | none => List.replicate g.length (.fin 1, .fin (-1))

/-- `ap_reducedproduct_to_box`: apron/ap_reducedproduct.c:641-675 -/
def toBox (f : ∀ i, A i → List (Bound K × Bound K)) (a : RP A) : List (Bound K × Bound K) :=
  let a := init I .toBox a
  boxLoop (fun i => f i (a.p i)) (List.finRange (n + 1)).tail (f 0 (a.p 0))

end Bounds

/-- `ap_reducedproduct_to_lincons_array`, `.._to_tcons_array`: apron/ap_reducedproduct.c:595-640 -/
def toCons {C : Type*} (f : ∀ i, A i → List C) (a : RP A) : List C :=
  let a := init I .toLincons a
  (List.finRange (n + 1)).flatMap fun i => f i (a.p i)

/-! ## Operations -/

/-- `ap_reducedproduct_meet`: apron/ap_reducedproduct.c:696-728 -/
def meet (a b : RP A) : RP A :=
  let a := init I .meet a
  let b := init I .meet b
  finish I .meet (mapStop I (fun i => (I.man i).meet (a.p i) (b.p i)) false)

/-- `ap_reducedproduct_join`: apron/ap_reducedproduct.c:696-733 -/
def join (a b : RP A) : RP A :=
  let a := init I .join a
  let b := init I .join b
  finish I .join ⟨a.reduced && b.reduced, fun i => (I.man i).join (a.p i) (b.p i)⟩

/-- `ap_reducedproduct_meet_array`: apron/ap_reducedproduct.c:735-781; `f` is the function of the components -/
def meetArray (f : ∀ i, List (A i) → A i) (l : List (RP A)) : RP A :=
  let l := l.map (init I .meetArray)
  finish I .meetArray (mapStop I (fun i => f i (l.map fun a => a.p i)) false)

/-- `ap_reducedproduct_join_array`: apron/ap_reducedproduct.c:735-786; the test `funid==AP_FUNID_JOIN` (:762) is always false, so
that the result is never marked as reduced -/
def joinArray (f : ∀ i, List (A i) → A i) (l : List (RP A)) : RP A :=
  let l := l.map (init I .joinArray)
  finish I .joinArray ⟨false, fun i => f i (l.map fun a => a.p i)⟩

/-- `ap_reducedproduct_meet_lincons_array`, `.._meet_tcons_array`: apron/ap_reducedproduct.c:788-837 -/
def meetCons {C : Type*} (f : ∀ i, A i → List C → A i) (a : RP A) (l : List C) : RP A :=
  let a := init I .meetCons a
  finish I .meetCons ⟨false, (mapStop I (fun i => f i (a.p i) l) false).p⟩

/-- `ap_reducedproduct_asssub_linexpr_array`, `.._asssub_texpr_array`: apron/ap_reducedproduct.c:863-969; `assign` distinguishes the
two functions and `f` is that of the components -/
def asssub {E : Type*} (assign : Bool) (f : ∀ i, A i → List (ℕ × E) → Option (A i) → A i) (a : RP A) (l : List (ℕ × E))
    (dest : Option (RP A)) : RP A :=
  let fid := if assign then Fid.assign else Fid.substitute
  let a := init I fid a
  let dest := dest.map (init I fid)
  let r := fun i => f i (a.p i) l (dest.map fun d => d.p i)
  finish I fid ⟨false, if dest.isSome || !assign then (mapStop I r false).p else r⟩

/-- the functions that apply one function to every component: apron/ap_reducedproduct.c:975-1150 -/
def map1 (f : Fid) (keep : Bool) (g : ∀ i, A i → A i) (a : RP A) : RP A :=
  let a := init I f a
  finish I f ⟨keep && a.reduced, fun i => g i (a.p i)⟩

/-- `ap_reducedproduct_widening`: apron/ap_reducedproduct.c:1111-1128 -/
def widening (w : ∀ i, A i → A i → A i) (a b : RP A) : RP A :=
  let a := init I .widening a
  let b := init I .widening b
  finish I .widening ⟨false, fun i => w i (a.p i) (b.p i)⟩

/-- The manager of a product: `ap_reducedproduct_manager_alloc`, apron/ap_reducedproduct.c:1170-1306, with `ap_reducedproduct_add_dimensions`
(:997-1017), `.._remove_dimensions` (:1018-1037), `.._permute_dimensions` (:1039-1058), `.._expand` (:1064-1084), `.._fold` (:1085-1105),
`.._forget_array` (:975-995) and `.._is_dimension_unconstrained` (:498-515) -/
def rpMan : Man K (RP A) where
  intdim := intdim I
  realdim := realdim I
  Gam := Gam I
  top := top I
  add a pos k project := map1 I .add true (fun i c => (I.man i).add c pos k project) a
  remove a pos k := map1 I .remove false (fun i c => (I.man i).remove c pos k) a
  permute a perm := map1 I .permute true (fun i c => (I.man i).permute c perm) a
  meet := meet I
  join := join I
  expand a d k := map1 I .expand true (fun i c => (I.man i).expand c d k) a
  fold a d ts := map1 I .fold false (fun i c => (I.man i).fold c d ts) a
  forget a tdim project := map1 I .forget true (fun i c => (I.man i).forget c tdim project) a
  unconstrained a d :=
    let a := init I .isDimUnconstrained a
    (List.finRange (n + 1)).all fun i => (I.man i).unconstrained (a.p i) d

/-- `ap_reducedproduct_decompose` and `ap_reducedproduct_compose`: apron/ap_reducedproduct.c:1312-1351 -/
def decompose (a : RP A) : ∀ i, A i := a.p

@[inherit_doc decompose]
def compose (f : ∀ i, A i) : RP A := ⟨false, f⟩

/-- the representation invariant: that of the components, which have the same dimensions -/
def Ok (C : ∀ i, A i → Prop) (a : RP A) : Prop :=
  ∀ i, C i (a.p i) ∧ (I.man i).Dims (a.p i) (intdim I a) (realdim I a)

end RP
end Apron
