import Verif.Core.Level0

/-!
# Level-1 abstract values

`apron/ap_abstract1.c`: a level-1 value is a level-0 value together with an environment.  The functions
below translate names to dimensions with the functions of `apron/ap_environment.c` and call level 0.

The outcome is a result with a flag telling whether an exception was raised, or an aborted execution, or an
access outside of an array.  Memory management is not modelled, nor is `destructive`, as the domains
yield the same value in both cases.  `junk` is the content of allocated arrays, `same` tells whether two
environments are the same pointer.
-/

set_option autoImplicit false
set_option linter.unusedSectionVars false
set_option linter.ambiguousOpen false

namespace Apron

/-- `ap_abstract1_t`: apron/ap_abstract1.h:24-27 -/
structure Abs1 (V A : Type*) where
  env : Env V
  val : A

namespace Abs1

open Env

variable {V : Type*} [LinearOrder V] {K A : Type*} (M : Man K A)

/-- the point given by a valuation of the variables -/
def pt [Zero K] (e : Env V) (ρ : V → K) (d : ℕ) : K :=
  match e.varOfDim d with
  | some v => ρ v
  | none => 0

/-- the valuations of a level-1 value -/
def Gam [Zero K] (a : Abs1 V A) (ρ : V → K) : Prop := M.Gam a.val (pt a.env ρ)

/-- the invariant of level-1 values -/
structure Wf (Ok : A → Prop) (a : Abs1 V A) : Prop where
  env : a.env.Wf
  size : a.env.size ≤ dimMax
  ok : Ok a.val
  dims : M.Dims a.val a.env.intdim a.env.realdim

/-- `ap_abstract1_top`: apron/ap_abstract1.c:341-344 -/
def top (e : Env V) : Abs1 V A := ⟨e, M.top e.intdim e.realdim⟩

/-- `ap_abstract1_meet` and `ap_abstract1_join` (`ap_abstract1_meetjoin`):
apron/ap_abstract1.c:646-664 -/
def meetjoin (f : A → A → A) (same : Bool) (a b : Abs1 V A) : Abs1 V A × Bool :=
  if isEq same a.env b.env then
    let r := Abs0.meetjoin M f a.val b.val
    (⟨a.env, r.1⟩, r.2)
  else (top M a.env, true)

/-- translation of names to dimensions: apron/ap_abstract1.c:984-990; `none` on an unknown name -/
def dimsOfVars (e : Env V) : List V → Option (List ℕ)
  | [] => some []
  | v :: l => if dimOfVar e v = dimMax then none else (dimsOfVars e l).map (dimOfVar e v :: ·)

/-- `ap_abstract1_forget_array`: apron/ap_abstract1.c:974-998 -/
def forgetArray (a : Abs1 V A) (tvar : List V) (project : Bool) : Abs1 V A × Bool :=
  match dimsOfVars a.env tvar with
  | none => (top M a.env, true)
  | some tdim =>
    let r := Abs0.forgetArray M a.val tdim project
    (⟨a.env, r.1⟩, r.2)

/-- `ap_abstract1_change_environment`: apron/ap_abstract1.c:1004-1027 -/
def changeEnvironment (junk : ℕ) (a : Abs1 V A) (nenv : Env V) (project : Bool) :
    Out (Abs1 V A × Bool) :=
  match dimchange2 junk a.env nenv with
  | .null => .ok (top M nenv, true)
  | .ok (add, rem) =>
    let r := Abs0.applyDimchange2 M a.val add rem project
    .ok (⟨nenv, r.1⟩, r.2)
  | .abort => .abort
  | .oob => .oob

/-- `ap_abstract1_minimize_environment`: apron/ap_abstract1.c:1029-1065 -/
def minimizeEnvironment (junk : ℕ) (a : Abs1 V A) : Out (Abs1 V A × Bool) :=
  let tdim := (List.range (M.dim a.val)).filter (Abs0.isDimensionUnconstrained M a.val)
  (Out.ofOption (tdim.mapM (varOfDim a.env))).bind fun tvar =>
    if tvar.length = 0 then .ok (a, false)
    else match remove a.env tvar with
      | .ok env => changeEnvironment M junk a env false
      | .null => .abort
      | .abort => .abort
      | .oob => .oob

/-- `ap_abstract1_rename_array`: apron/ap_abstract1.c:1067-1092; `ps` are the pairs
`(tvar1[i], tvar2[i])` -/
def renameArray (Q : Qsort V) (junk : ℕ) (a : Abs1 V A) (ps : List (V × V)) : Out (Abs1 V A × Bool) :=
  match rename Q junk a.env ps with
  | .null => .ok (top M a.env, true)
  | .ok (env, perm) =>
    let r := Abs0.permuteDimensions M a.val perm
    .ok (⟨env, r.1⟩, r.2)
  | .abort => .abort
  | .oob => .oob

/-- `ap_abstract1_expand`: apron/ap_abstract1.c:1098-1145 -/
def expand (Q : Qsort V) (junk : ℕ) (a : Abs1 V A) (var : V) (tvar : List V) : Out (Abs1 V A × Bool) :=
  if tvar.length = 0 then .ok (a, false)
  else
    let dim := dimOfVar a.env var
    if dim = dimMax then .ok (top M a.env, true)
    else
      let r := Abs0.expand M a.val dim tvar.length
      match (if dim < a.env.intdim then addPerm Q junk a.env tvar [] else addPerm Q junk a.env [] tvar) with
      | .null => .ok (top M a.env, true)
      | .ok (nenv, perm) =>
        let r' := Abs0.permuteDimensions M r.1 perm
        .ok (⟨nenv, r'.1⟩, r.2 || r'.2)
      | .abort => .abort
      | .oob => .oob

/-- the permutation of `ap_abstract1_fold`: apron/ap_abstract1.c:1229-1240; `index` is the position of
`dim` in the sorted array, and `t0` its first element.  Writes outside of the array of size `n` yield
`none`. -/
def foldPerm (n t0 dim index : ℕ) : Option (List ℕ) :=
  let p := (List.range' (t0 + 1) (dim - index - t0)).foldl
    (fun (p : Option (List ℕ)) rank => p.bind fun p => if rank < p.length then some (p.set rank (rank - 1)) else none)
    (some (List.range n))
  p.bind fun p => if t0 < p.length then some (p.set t0 (dim - index)) else none

/-- `ap_abstract1_fold`: apron/ap_abstract1.c:1153-1256.  `qsort` sorts integers, so that any sorting
function will do; `bsearch` is the bisection (on an array that may contain twice the same value, any
position of it could be found). -/
def fold (a : Abs1 V A) (tvar : List V) : Out (Abs1 V A × Bool) :=
  match tvar with
  | [] => .ok (top M a.env, true)
  | [_] => .ok (a, false)
  | v0 :: vs =>
    let dim := dimOfVar a.env v0
    if dim = dimMax then .ok (top M a.env, true)
    else match remove a.env vs with
      | .null => .ok (top M a.env, true)
      | .abort => .abort
      | .oob => .oob
      | .ok nenv =>
        match dimsOfVars a.env vs with
        | none => .ok (top M a.env, true)
        | some ds =>
          match (dim :: ds).insertionSort (· ≤ ·) with
          | [] => .oob
          | t0 :: ts =>
            if dim = t0 then
              let r := Abs0.fold M a.val t0 ts
              .ok (⟨nenv, r.1⟩, r.2)
            else match bsearch dim ts 0 ts.length with
              | none => .abort
              | some i =>
                (Out.ofOption (foldPerm nenv.size t0 dim (i + 1))).bind fun perm =>
                  let r := Abs0.fold M a.val t0 ts
                  let r' := Abs0.permuteDimensions M r.1 perm
                  .ok (⟨nenv, r'.1⟩, r.2 || r'.2)

/-- adding the dimensions of an optional change: apron/ap_abstract1.c:1411-1423 -/
def addOpt (a : A) : Option Dimchange → A × Bool
  | some d => Abs0.addDimensions M a d false
  | none => (a, false)

/-- `ap_abstract1_unify`: apron/ap_abstract1.c:1384-1432 -/
def unify (junk : ℕ) (same : Bool) (a b : Abs1 V A) : Out (Abs1 V A × Bool) :=
  if isEq same a.env b.env then .ok (meetjoin M M.meet same a b)
  else match lce junk a.env b.env with
    | .null => .ok (a, true)
    | .abort => .abort
    | .oob => .oob
    | .ok (env, d1, d2) =>
      if d1.isNone && d2.isNone then .abort
      else
        let r1 := addOpt M a.val d1
        let r2 := addOpt M b.val d2
        let r := Abs0.meetjoin M M.meet r1.1 r2.1
        .ok (⟨env, r.1⟩, r1.2 || r2.2 || r.2)

end Abs1
end Apron
