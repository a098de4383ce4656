import Verif.Core.Dim
import Mathlib.Data.List.Sort

/-!
# Environments

`apron/ap_environment.c`: the binding of variable names to dimensions.

Names are elements of a linearly ordered type `V`: `ap_var_operations->compare` (by default
`strcmp`, apron/ap_var.c:16-18) is taken to be a total order, so that `sgn < 0`, `sgn = 0`, `sgn > 0`
are `a < b`, `a = b`, `b < a`.  An array of names is a list; copies, reference counts and the
deallocation of names are not modelled.  `qsort` is any sorting function (`Qsort`), `bsearch` is the
usual bisection.
-/

set_option autoImplicit false
set_option linter.unusedSectionVars false
set_option linter.ambiguousOpen false

namespace Apron

/-- outcome of a function on environments: a result, `NULL`, a failed `assert` (or `abort()`), or an
access outside of an array -/
inductive Out (α : Type*) where
  | ok (a : α)
  | null
  | abort
  | oob
deriving DecidableEq, Repr

namespace Out

/-- sequencing: the first outcome that is not a result is the outcome of the sequence -/
def bind {α β : Type*} (r : Out α) (f : α → Out β) : Out β :=
  match r with
  | ok a => f a
  | null => null
  | abort => abort
  | oob => oob

/-- an option as an outcome, `none` standing for an access outside of an array -/
def ofOption {α : Type*} : Option α → Out α
  | some a => ok a
  | none => oob

end Out

/-- `ap_environment_t` seen as a `denv_t` (apron/ap_environment.c:385-418): the slices `[0,intdim)` and
`[intdim,intdim+realdim)` of `var_of_dim` -/
structure Env (V : Type*) where
  ints : List V
  reals : List V
deriving DecidableEq, Repr

/-- `ap_dimchange_t`: apron/ap_dimension.h:63-67 -/
structure Dimchange where
  dim : List ℕ
  intdim : ℕ
  realdim : ℕ
deriving DecidableEq, Repr

namespace Env

variable {V : Type*}

/-- the array `var_of_dim` -/
def vars (e : Env V) : List V := e.ints ++ e.reals
/-- `env->intdim` -/
def intdim (e : Env V) : ℕ := e.ints.length
/-- `env->realdim` -/
def realdim (e : Env V) : ℕ := e.reals.length
/-- `env->intdim + env->realdim` -/
def size (e : Env V) : ℕ := e.intdim + e.realdim

/-- `ap_environment_var_of_dim`: apron/ap_environment.h:242-245 -/
def varOfDim (e : Env V) (d : ℕ) : Option V := e.vars[d]?

variable [LinearOrder V]

/-- the C function `qsort` on an array of `vardim_t` compared by name (`vardim_cmp`,
apron/ap_environment.c:28-33): some rearrangement that is sorted by name -/
structure Qsort (V : Type*) [LinearOrder V] where
  run : List (V × ℕ) → List (V × ℕ)
  perm : ∀ l, (run l).Perm l
  sorted : ∀ l, (run l).Pairwise (fun a b => a.1 ≤ b.1)

/-- `env_normalize` with `perm==NULL`: apron/ap_environment.c:80-82.  A sorted rearrangement of an array
of names is unique, so any sorting function will do. -/
def normalize (l : List V) : List V := l.insertionSort (· ≤ ·)

/-- `env_normalize` with a permutation: apron/ap_environment.c:83-96; `perm` is the (uninitialised)
array of results -/
def normalizePerm (Q : Qsort V) (perm : List ℕ) (l : List V) : Option (List V × List ℕ) :=
  let vardim := Q.run l.zipIdx
  (Dim.invertFrom 0 perm (vardim.map Prod.snd)).map fun p => (vardim.map Prod.fst, p)

/-- `env_check`: apron/ap_environment.c:109-119, `true` when the array is not strictly sorted -/
def check : List V → Bool
  | a :: b :: l => if b ≤ a then true else check (b :: l)
  | _ => false

/-- `env_is_inter_empty`: apron/ap_environment.c:126-137 -/
def isInterEmpty : List V → List V → Bool
  | a :: l, b :: m =>
    if a = b then false
    else if b < a then isInterEmpty (a :: l) m else isInterEmpty l (b :: m)
  | [], _ => true
  | _ :: _, [] => true
termination_by l m => l.length + m.length

/-- inner loop of `env_is_leq` and the test following it: apron/ap_environment.c:147-154.  `z` tells
whether `sgn = 0` at the entry of the loop. -/
def leqOne (a : V) : Bool → List V → Bool
  | z, [] => z
  | _, b :: m => if a < b then false else if a = b then true else leqOne a false m

/-- `env_is_leq`: apron/ap_environment.c:140-160.  The outer loop goes on only when `sgn = 0`. -/
def isLeqA (l m : List V) : Bool :=
  if l.length ≤ m.length then l.all fun a => leqOne a true m else false

/-- `env_add` without a permutation: apron/ap_environment.c:180-195 -/
def addA (l new : List V) : List V := normalize (l ++ new)

/-- inner `while` of `env_remove`: apron/ap_environment.c:217-224, from index `j`; yields the new `j` -/
def removeSkip (env var : List V) (i j : ℕ) : Out ℕ :=
  if h : j < var.length then
    match env[i + j]? with
    | none => .oob
    | some v =>
      if var[j] < v then .abort
      else if v = var[j] then removeSkip env var i (j + 1)
      else .ok j
  else .ok j
termination_by var.length - j

/-- main loop of `env_remove`: apron/ap_environment.c:216-226; `n` iterations remain, `i` and `j` are the
current indices; yields the copied names and the final `j` -/
def removeLoop (env var : List V) : ℕ → ℕ → ℕ → Out (List V × ℕ)
  | 0, _, j => .ok ([], j)
  | n + 1, i, j =>
    (removeSkip env var i j).bind fun j' =>
      match env[i + j']? with
      | none => .oob
      | some v => (removeLoop env var n (i + 1) j').bind fun r => .ok (v :: r.1, r.2)

/-- final `while` of `env_remove`: apron/ap_environment.c:227-236 -/
def removeEnd (env var : List V) (n j : ℕ) : Out Unit :=
  if h : j < var.length then
    match env[n + j]? with
    | none => .oob
    | some v => if v = var[j] then removeEnd env var n (j + 1) else .null
  else .ok ()
termination_by var.length - j

/-- `env_remove`: apron/ap_environment.c:202-245.  `null` is the result `{NULL,UINT_MAX}`. -/
def removeA (env var0 : List V) : Out (List V) :=
  if var0.length > env.length then .null
  else if var0.length = 0 then .ok env
  else
    let var := normalize var0
    let n := env.length - var.length
    (removeLoop env var n 0 0).bind fun r =>
      (removeEnd env var n r.2).bind fun _ => .ok r.1

/-- `env_lce`: apron/ap_environment.c:248-282 -/
def lceA : List V → List V → List V
  | a :: l, b :: m =>
    if b < a then b :: lceA (a :: l) m
    else if a < b then a :: lceA l (b :: m)
    else a :: lceA l m
  | [], m => m
  | l, [] => l
termination_by l m => l.length + m.length

/-- the loops of `env_lce_dimchange`: apron/ap_environment.c:302-321, from indices `i1` in `e1` and `i` in
`e`; `z` tells whether `sgn = 0`.  Yields the successive values written in `dimchange1->dim` and the
returned flag (`true` iff wrong arguments). -/
def lceDimGo (rd : ℕ) : ℕ → Bool → List V → List V → List ℕ × Bool
  | i1, _, [], m => (m.map fun _ => rd + i1, false)
  | i1, z, _ :: l, [] => if z then lceDimGo rd (i1 + 1) z l [] else ([], true)
  | i1, _, a :: l, b :: m =>
    if a < b then ([], true)
    else if a = b then lceDimGo rd (i1 + 1) true l m
    else
      let r := lceDimGo rd i1 false (a :: l) m
      ((rd + i1) :: r.1, r.2)
termination_by _ _ l m => l.length + m.length

/-- `env_lce_dimchange`: apron/ap_environment.c:294-322 -/
def lceDim (rd : ℕ) (e1 e : List V) : List ℕ × Bool :=
  if e1.length > e.length then ([], true) else lceDimGo rd 0 true e1 e

/-- writing successive values in an array from a given offset -/
def writeAt (arr : List ℕ) (off : ℕ) (ws : List ℕ) : Out (List ℕ) :=
  if off + ws.length ≤ arr.length then
    .ok (arr.take off ++ ws ++ arr.drop (off + ws.length))
  else .oob

/-- computation of the dimension change from `e1` to `e`, common to `ap_environment_dimchange`,
`ap_environment_dimchange2`, `ap_environment_lce` and `ap_environment_lce_array`
(apron/ap_environment.c:727-737, 772-777, 835-840, 972-977): allocation (the cells contain `junk`), then
one call of `env_lce_dimchange` for each type.  `strict` tells whether the flag returned by
`env_lce_dimchange` is tested. -/
def mkDimchange (junk : ℕ) (strict : Bool) (e1 e : Env V) : Out Dimchange :=
  let nint := e.intdim - e1.intdim
  let nreal := e.realdim - e1.realdim
  let r1 := lceDim 0 e1.ints e.ints
  (writeAt (List.replicate (nint + nreal) junk) 0 r1.1).bind fun arr =>
    if strict && r1.2 then .null
    else
      let r2 := lceDim e1.intdim e1.reals e.reals
      (writeAt arr nint r2.1).bind fun arr' =>
        if strict && r2.2 then .null else .ok ⟨arr', nint, nreal⟩

/-- the bisection of `bsearch`, between `lo` and `hi` -/
def bsearch (x : V) (a : List V) (lo hi : ℕ) : Option ℕ :=
  if lo < hi then
    match a[(lo + hi) / 2]? with
    | none => none
    | some y =>
      if x < y then bsearch x a lo ((lo + hi) / 2)
      else if y < x then bsearch x a ((lo + hi) / 2 + 1) hi
      else some ((lo + hi) / 2)
  else none
termination_by hi - lo

/-- `ap_environment_dim_of_var`: apron/ap_environment.c:423-438 -/
def dimOfVar (e : Env V) (name : V) : ℕ :=
  match bsearch name e.ints 0 e.intdim with
  | some i => i
  | none =>
    match bsearch name e.reals 0 e.realdim with
    | some i => e.intdim + i
    | none => dimMax

/-- `ap_environment_check`: apron/ap_environment.c:445-455, `true` when the environment is wrong -/
def envCheck (e : Env V) : Bool :=
  if check e.ints then true
  else if check e.reals then true
  else if !isInterEmpty e.ints e.reals then true
  else false

/-- `ap_environment_check_compatibility`: apron/ap_environment.c:457-465, `true` when incompatible -/
def checkCompat (e1 e2 : Env V) : Bool :=
  !(isInterEmpty e1.ints e2.reals && isInterEmpty e2.ints e1.reals)

/-- `ap_environment_add`: apron/ap_environment.c:471-489 -/
def add (e : Env V) (newint newreal : List V) : Option (Env V) :=
  let r : Env V := ⟨addA e.ints newint, addA e.reals newreal⟩
  if envCheck r then none else some r

/-- `ap_environment_alloc`: apron/ap_environment.c:570-577 -/
def alloc (newint newreal : List V) : Option (Env V) := add ⟨[], []⟩ newint newreal

/-- `ap_environment_add_perm`: apron/ap_environment.c:491-518; `junk` is the content of the allocated
permutation -/
def addPerm (Q : Qsort V) (junk : ℕ) (e : Env V) (newint newreal : List V) :
    Out (Env V × List ℕ) :=
  let n := e.intdim + newint.length
  let m := e.realdim + newreal.length
  (Out.ofOption (normalizePerm Q (List.replicate n junk) (e.ints ++ newint))).bind fun ri =>
    (Out.ofOption (normalizePerm Q (List.replicate m junk) (e.reals ++ newreal))).bind fun rr =>
      let r : Env V := ⟨ri.1, rr.1⟩
      if envCheck r then .null else .ok (r, ri.2 ++ rr.2.map (· + n))

/-- the splitting loop of `ap_environment_remove`: apron/ap_environment.c:537-552.  Yields the rearranged
array and the number of integer variables. -/
def splitLoop (e : Env V) (t : List V) (i intdim : ℕ) : Out (List V × ℕ) :=
  if i < t.length ∧ i < intdim then
    match t[i]? with
    | none => .oob
    | some v =>
      let dim := dimOfVar e v
      if dim = dimMax then .null
      else if dim ≥ e.intdim then
        match t[intdim - 1]? with
        | none => .oob
        | some w => splitLoop e ((t.set i w).set (intdim - 1) v) i (intdim - 1)
      else splitLoop e t (i + 1) intdim
  else .ok (t, intdim)
termination_by intdim - i

/-- `ap_environment_remove`: apron/ap_environment.c:520-568 -/
def remove (e : Env V) (tvar : List V) : Out (Env V) :=
  if tvar.length = 0 then .ok e
  else
    (splitLoop e tvar 0 tvar.length).bind fun r =>
      -- both calls are made before the results are tested
      match removeA e.ints (r.1.take r.2), removeA e.reals (r.1.drop r.2) with
      | .ok li, .ok lr => .ok ⟨li, lr⟩
      | .abort, _ => .abort
      | .oob, _ => .oob
      | _, .abort => .abort
      | _, .oob => .oob
      | _, _ => .null

/-- `ap_environment_is_eq`: apron/ap_environment.c:636-655, `same` telling whether the pointers are
equal -/
def isEq (same : Bool) (e1 e2 : Env V) : Bool :=
  same || (decide (e1.intdim = e2.intdim) && decide (e1.realdim = e2.realdim) &&
    (List.zip e1.vars e2.vars).all fun p => decide (p.1 = p.2))

/-- `ap_environment_is_leq`: apron/ap_environment.c:657-674 -/
def isLeq (same : Bool) (e1 e2 : Env V) : Bool :=
  same || (decide (e1.intdim ≤ e2.intdim) && decide (e1.realdim ≤ e2.realdim) &&
    (isLeqA e1.ints e2.ints && isLeqA e1.reals e2.reals))

/-- `ap_environment_dimchange`: apron/ap_environment.c:716-739 -/
def dimchange (junk : ℕ) (e1 e : Env V) : Out Dimchange :=
  if e.intdim < e1.intdim ∨ e.realdim < e1.realdim then .null
  else mkDimchange junk true e1 e

/-- the environment computed at apron/ap_environment.c:760-761 and 821-822 -/
def lceD (e1 e2 : Env V) : Env V := ⟨lceA e1.ints e2.ints, lceA e1.reals e2.reals⟩

/-- the test `eq1`: apron/ap_environment.c:765-767, 825-827 -/
def sameSize (e e1 : Env V) : Bool :=
  decide (e.intdim = e1.intdim) && decide (e.realdim = e1.realdim)

/-- `*dimchange1`: apron/ap_environment.c:771-777, 831-841 -/
def lceChange (junk : ℕ) (e e1 : Env V) : Out (Option Dimchange) :=
  if sameSize e e1 then .ok none
  else (mkDimchange junk false e1 e).bind fun d => .ok (some d)

/-- `ap_environment_lce`: apron/ap_environment.c:806-868 -/
def lce (junk : ℕ) (e1 e2 : Env V) : Out (Env V × Option Dimchange × Option Dimchange) :=
  if checkCompat e1 e2 then .null
  else
    let e := lceD e1 e2
    (lceChange junk e e1).bind fun d1 =>
      (lceChange junk e e2).bind fun d2 =>
        .ok (if sameSize e e1 then e1 else if sameSize e e2 then e2 else e, d1, d2)

/-- `ap_environment_dimchange2`: apron/ap_environment.c:746-794; the components are `res->add` and
`res->remove` -/
def dimchange2 (junk : ℕ) (e1 e2 : Env V) : Out (Option Dimchange × Option Dimchange) :=
  if checkCompat e1 e2 then .null
  else
    let e := lceD e1 e2
    (lceChange junk e e1).bind fun d1 =>
      (lceChange junk e e2).bind fun d2 =>
        .ok (d1, d2.map fun d => { d with dim := Dim.addInvert d.dim })

/-- `ap_environment_compare`: apron/ap_environment.c:676-694 (an access outside of an array during
`ap_environment_lce` is excluded by C46) -/
def compare (junk : ℕ) (e1 e2 : Env V) : ℤ :=
  match lce junk e1 e2 with
  | .ok (_, none, none) => 0
  | .ok (_, none, some _) => 1
  | .ok (_, some _, none) => -1
  | .ok (_, some _, some _) => 2
  | _ => -2

/-! ### Least common environment of an array -/

/-- first name not yet copied, among the environments not exhausted: apron/ap_environment.c:343-350 -/
def firstName : List (List V) → Option V
  | [] => none
  | [] :: t => firstName t
  | (a :: _) :: _ => some a

/-- search of the minimal name: apron/ap_environment.c:352-358 -/
def minName (name : V) : List (List V) → V
  | [] => name
  | [] :: t => minName name t
  | (a :: _) :: t => if a < name then minName a t else minName name t

/-- increment of the indices: apron/ap_environment.c:362-368 -/
def advance (name : V) (t : List (List V)) : List (List V) :=
  t.map fun l => match l with
    | [] => []
    | a :: l => if name = a then l else a :: l

/-- total number of remaining names -/
def total (t : List (List V)) : ℕ := (t.map List.length).sum

theorem total_advance_le (name : V) (t : List (List V)) : total (advance name t) ≤ total t := by
  induction t with
  | nil => simp [advance, total]
  | cons l t ih =>
    simp only [advance, total, List.map_cons, List.sum_cons] at ih ⊢
    rcases l with _ | ⟨a, l⟩
    · simpa using ih
    · by_cases h : name = a <;> simp only [h, if_true, if_false, List.length_cons] at ih ⊢ <;> omega

theorem total_advance_lt {name : V} {t : List (List V)} (h : ∃ l, name :: l ∈ t) :
    total (advance name t) < total t := by
  obtain ⟨l, hl⟩ := h
  induction t with
  | nil => simp at hl
  | cons m t ih =>
    rcases List.mem_cons.1 hl with rfl | hl
    · have := total_advance_le name t
      simp only [advance, total, List.map_cons, List.sum_cons, if_true, List.length_cons] at this ⊢
      omega
    · have := ih hl
      simp only [advance, total, List.map_cons, List.sum_cons] at this ⊢
      rcases m with _ | ⟨a, m⟩
      · simpa using this
      · by_cases h : name = a <;> simp only [h, if_true, if_false, List.length_cons] at this ⊢ <;>
          omega

theorem minName_mem {name : V} (t : List (List V)) {u : List (List V)} (h : ∃ l, name :: l ∈ u)
    (hs : ∀ l ∈ t, l ∈ u) : ∃ l, minName name t :: l ∈ u := by
  induction t generalizing name with
  | nil => exact h
  | cons m t ih =>
    have hs' : ∀ l ∈ t, l ∈ u := fun l hl => hs l (by simp [hl])
    rcases m with _ | ⟨a, m⟩
    · exact ih h hs'
    · rw [minName]
      split_ifs
      · exact ih ⟨m, hs _ (by simp)⟩ hs'
      · exact ih h hs'

theorem firstName_mem {t : List (List V)} {a : V} (h : firstName t = some a) : ∃ l, a :: l ∈ t := by
  induction t with
  | nil => simp [firstName] at h
  | cons m t ih =>
    rcases m with _ | ⟨b, m⟩
    · obtain ⟨l, hl⟩ := ih h
      exact ⟨l, by simp [hl]⟩
    · simp only [firstName, Option.some.injEq] at h
      subst h
      exact ⟨m, by simp⟩

/-- `env_lce_array`: apron/ap_environment.c:325-373; the search of the minimum starts at index 1 -/
def lceArrayA (t : List (List V)) : List V :=
  match h : firstName t with
  | none => []
  | some name => minName name t.tail :: lceArrayA (advance (minName name t.tail) t)
termination_by total t
decreasing_by
  exact total_advance_lt (minName_mem t.tail (firstName_mem h) fun l hl => List.mem_of_mem_tail hl)

/-- first index of an environment that has the size of the least common environment -/
def firstFull (e : Env V) : List (Env V) → ℕ → Option ℕ
  | [], _ => none
  | e1 :: t, i => if sameSize e e1 then some i else firstFull e t (i + 1)

/-- the dimension changes of all the environments -/
def lceChanges (junk : ℕ) (e : Env V) : List (Env V) → Out (List (Option Dimchange))
  | [] => .ok []
  | e1 :: t => (lceChange junk e e1).bind fun d => (lceChanges junk e t).bind fun ds => .ok (d :: ds)

/-- `ap_environment_lce_array` on at least three distinct pointers: apron/ap_environment.c:938-1003.
The second component is `*ptdimchange`. -/
def lceArrayMany (junk : ℕ) (t : List (Env V)) : Out (Env V × Option (List (Option Dimchange))) :=
  let e : Env V := ⟨lceArrayA (t.map Env.ints), lceArrayA (t.map Env.reals)⟩
  (lceChanges junk e t).bind fun ds =>
    match firstFull e t 0 with
    | some (j + 1) =>
      match t[j + 1]? with
      | none => .oob
      | some ej => .ok (ej, if ds.any Option.isSome then some ds else none)
    | _ => if envCheck e then .null else .ok (e, some ds)

/-- removal of duplicate pointers: apron/ap_environment.c:913-921; a pointer is an address and the
environment found there.  After the removal at index `i`, index `i+1` is examined. -/
def dedup : List (ℕ × Env V) → List (ℕ × Env V)
  | a :: b :: l => if a.1 = b.1 then a :: dedup l else a :: dedup (b :: l)
  | l => l

/-- `ap_environment_lce_array`: apron/ap_environment.c:898-1003, on the array of pointers already sorted
by address (the caller's array is overwritten by it). -/
def lceArray (junk : ℕ) (t : List (ℕ × Env V)) :
    Out (Env V × Option (List (Option Dimchange))) :=
  match dedup t with
  | [] => .abort
  | [a] => .ok (a.2, some [none])
  | [a, b] =>
    if isEq (decide (a.1 = b.1)) a.2 b.2 then .ok (a.2, none)
    else (lce junk a.2 b.2).bind fun r => .ok (r.1, some [r.2.1, r.2.2])
  | t' => lceArrayMany junk (t'.map Prod.snd)

/-! ### Renaming -/

/-- the renaming loop: apron/ap_environment.c:1028-1035; cells are `none` when `NULL` -/
def renameLoop (e : Env V) (res : List (Option V)) : List (V × V) → Option (List (Option V))
  | [] => some res
  | p :: l =>
    if dimOfVar e p.1 = dimMax then none else renameLoop e (res.set (dimOfVar e p.1) (some p.2)) l

/-- `ap_environment_rename`: apron/ap_environment.c:1009-1056; the pairs are
`(tvar1[j],tvar2[j])` -/
def rename (Q : Qsort V) (junk : ℕ) (e : Env V) (ps : List (V × V)) : Out (Env V × List ℕ) :=
  match renameLoop e (List.replicate e.size none) ps with
  | none => .null
  | some cells =>
    let names := List.zipWith (fun c v => c.getD v) cells e.vars
    (Out.ofOption (normalizePerm Q (List.replicate e.intdim junk) (names.take e.intdim))).bind fun ri =>
      (Out.ofOption (normalizePerm Q (List.replicate e.realdim junk) (names.drop e.intdim))).bind fun rr =>
        let r : Env V := ⟨ri.1, rr.1⟩
        if envCheck r then .null else .ok (r, ri.2 ++ rr.2.map (· + e.intdim))

/-! ### Specification -/

/-- the documented invariant (apron/ap_environment.h:40-49): each slice is strictly sorted, and no
variable is both integer and real -/
structure Wf (e : Env V) : Prop where
  ints : e.ints.Pairwise (· < ·)
  reals : e.reals.Pairwise (· < ·)
  disj : ∀ v ∈ e.ints, v ∉ e.reals

end Env
end Apron
