import Mathlib.Data.List.Basic

/-!
# Arrays of constraints and generators: who owns what

Model of the memory behaviour of arrays of linear constraints, tree constraints and generators
(`apron/ap_lincons0.c:172-210`, `apron/ap_tcons0.c:49-85`, `apron/ap_generator0.c:46-81`) and of
the arrays of level 1, which also hold a reference to an environment
(`apron/ap_lincons1.c:28-34,124-200`, `apron/ap_lincons1.h:286-306`; `ap_tcons1.c` and
`ap_generator1.c` are the same code with the names changed).

Simplifications.
* An expression is one allocated block, whatever its size, and so is a scalar; addresses are
  numbers that are never used again.  What the expressions mean is in `Core/Linexpr*.lean`.
* `constyp`/`gentyp` is not kept (it owns nothing).
* `malloc` does not fail.  `realloc(p,0)` gives an array without entries, whether the pointer it
  returns is null or not.
* An environment is an address with its counter; the count 0 says that it is deallocated.
* Undefined behaviour (a read through a null pointer or outside of an array, the use of an entry
  that was never initialised, a block freed twice, the use of an environment that is deallocated)
  is the outcome `none`.
-/

set_option autoImplicit false
set_option linter.unusedSectionVars false
set_option linter.ambiguousOpen false

namespace Apron.ConsArr

/-- The heap: which blocks are allocated, the next fresh address, and the counter of each
environment (`ap_environment_t.count`, `ap_environment.h:39-57`). -/
structure Mem where
  live : ℕ → Bool
  next : ℕ
  env : ℕ → ℕ

/-- `malloc` of an expression or scalar. -/
def Mem.alloc (m : Mem) : ℕ × Mem :=
  (m.next, { m with live := fun q => if q = m.next then true else m.live q, next := m.next + 1 })

/-- `free` (`ap_linexpr0_free`, `ap_scalar_free`, `ap_texpr0_free`): undefined if the block is not
allocated. -/
def Mem.free (m : Mem) (p : ℕ) : Option Mem :=
  if m.live p then some { m with live := fun q => if q = p then false else m.live q } else none

/-- `if (p) { free(p); p = NULL; }` -/
def Mem.freeOpt (m : Mem) : Option ℕ → Option Mem
  | none => some m
  | some p => m.free p

/-- `ap_environment_copy` (`ap_environment.h:253-257`). -/
def Mem.copyEnv (m : Mem) (e : ℕ) : Option Mem :=
  if m.env e = 0 then none
  else some { m with env := fun x => if x = e then m.env e + 1 else m.env x }

/-- `ap_environment_free` (`ap_environment.h:246-252`): the last reference deallocates. -/
def Mem.freeEnv (m : Mem) (e : ℕ) : Option Mem :=
  if m.env e = 0 then none
  else some { m with env := fun x => if x = e then m.env e - 1 else m.env x }

/-- `ap_lincons0_t`, `ap_tcons0_t` (`ap_lincons0.h:34-38`); for `ap_generator0_t` the scalar is
always null. -/
structure Cons where
  expr : Option ℕ
  sca : Option ℕ
deriving DecidableEq, Repr

/-- Both pointers null. -/
def Cons.null : Cons := ⟨none, none⟩

/-- `ap_lincons0_clear` (`ap_lincons0.h:173-183`), `ap_tcons0_clear`, `ap_generator0_clear`. -/
def clearCons (m : Mem) (c : Cons) : Option Mem :=
  (m.freeOpt c.expr).bind fun m => m.freeOpt c.sca

/-- `ap_lincons0_array_t`: the pointer and the size.  An entry `none` was never initialised. -/
structure Arr where
  p : Option (List (Option Cons))
  size : ℕ
deriving DecidableEq, Repr

/-- `ap_lincons0_array_make` (`ap_lincons0.c:172-183`). -/
def make (n : ℕ) : Arr :=
  ⟨if n = 0 then none else some (List.replicate n (some Cons.null)), n⟩

/-- The loops `for (...) ap_lincons0_clear(&array->p[i])` over consecutive entries. -/
def clearAll (m : Mem) : List (Option Cons) → Option Mem
  | [] => some m
  | none :: _ => none
  | some c :: l => (clearCons m c).bind fun m => clearAll m l

/-- The entries `from ≤ i < a.size` as a loop reads them; `none` if the pointer is null and there
is something to read, or the block is too short. -/
def entriesFrom (a : Arr) (start : ℕ) : Option (List (Option Cons)) :=
  if a.size ≤ start then some []
  else match a.p with
    | none => none
    | some l => if a.size ≤ l.length then some ((l.take a.size).drop start) else none

/-- The contents of the block after `realloc` to `size` entries and the loop that sets the
entries from `a.size` on to null. -/
def reallocated (a : Arr) (size : ℕ) : List (Option Cons) :=
  (List.range size).map fun i =>
    if a.size ≤ i then some Cons.null else ((a.p.getD [])[i]?).getD none

/-- `ap_lincons0_array_resize` (`ap_lincons0.c:184-196`), `ap_tcons0_array_resize`,
`ap_generator0_array_resize`. -/
def resize (m : Mem) (a : Arr) (size : ℕ) : Option (Mem × Arr) :=
  (entriesFrom a size).bind fun l =>
    (clearAll m l).map fun m => (m, ⟨some (reallocated a size), size⟩)

/-- `ap_lincons0_array_clear` (`ap_lincons0.c:198-209`) and `ap_tcons0_array_clear`
(`ap_tcons0.c:75-85`) when `gen` is false: the size is kept.  `ap_generator0_array_clear`
(`ap_generator0.c:70-81`) when `gen` is true: the size becomes 0. -/
def clear (gen : Bool) (m : Mem) (a : Arr) : Option (Mem × Arr) :=
  let size := if gen then 0 else a.size
  match a.p with
  | none => some (m, ⟨none, size⟩)
  | some _ => (entriesFrom a 0).bind fun l => (clearAll m l).map fun m => (m, ⟨none, size⟩)

/-- `array->p[i]` -/
def read (a : Arr) (i : ℕ) : Option Cons :=
  a.p.bind fun l => (l[i]?).bind id

/-- `array->p[i] = c` -/
def write (a : Arr) (i : ℕ) (c : Cons) : Arr :=
  { a with p := a.p.map fun l => l.set i (some c) }

/-- `ap_lincons1_array_clear_index` (`ap_lincons1.h:303-306`). -/
def clearIndex (m : Mem) (a : Arr) (i : ℕ) : Option (Mem × Arr) :=
  (read a i).bind fun c => (clearCons m c).map fun m => (m, write a i Cons.null)

/-- `ap_lincons1_t`: the environment may be null after `ap_lincons1_clear`. -/
structure Cons1 where
  c : Cons
  env : ℕ
deriving DecidableEq, Repr

/-- `ap_lincons1_array_t` -/
structure Arr1 where
  a : Arr
  env : ℕ
deriving DecidableEq, Repr

/-- `ap_lincons1_clear` (`ap_lincons1.c:28-34`). -/
def clear1 (m : Mem) (c : Cons1) : Option Mem :=
  (clearCons m c.c).bind fun m => m.freeEnv c.env

/-- `ap_lincons1_array_make` (`ap_lincons1.c:124-130`). -/
def make1 (m : Mem) (env n : ℕ) : Option (Mem × Arr1) :=
  (m.copyEnv env).map fun m => (m, ⟨make n, env⟩)

/-- `ap_lincons1_array_clear` (`ap_lincons1.c:131-136`).  The environment pointer becomes null:
only the array of level 0 is left. -/
def arrClear1 (gen : Bool) (m : Mem) (a : Arr1) : Option (Mem × Arr) :=
  (clear gen m a.a).bind fun r => (r.1.freeEnv a.env).map fun m => (m, r.2)

/-- `ap_lincons1_array_get` (`ap_lincons1.c:151-158`): nothing is copied. -/
def get1 (a : Arr1) (i : ℕ) : Option Cons1 := (read a.a i).map fun c => ⟨c, a.env⟩

/-- `ap_lincons1_array_set` (`ap_lincons1.c:160-169`).  `eq` is `ap_environment_is_eq`; the
Boolean is what the function returns, true for an error. -/
def set1 (eq : ℕ → ℕ → Bool) (m : Mem) (a : Arr1) (i : ℕ) (c : Cons1) :
    Option (Bool × Mem × Arr1) :=
  if a.a.size ≤ i ∨ eq c.env a.env = false then some (true, m, a)
  else (clearIndex m a.a i).bind fun r =>
    (r.1.freeEnv c.env).map fun m => (false, m, { a with a := write r.2 i c.c })

/-- A loop that looks at the expressions of the entries: they must be initialised and their
expressions allocated (`if (expr) ...`, `ap_lincons0.c:277-280`). -/
def readable (m : Mem) (l : List (Option Cons)) : Bool :=
  l.all fun o => match o with
    | none => false
    | some c => match c.expr with
      | none => true
      | some p => m.live p

/-- `ap_lincons1_array_extend_environment_with` (`ap_lincons1.c:175-189`).  `sub` says whether
`ap_environment_dimchange` finds a change of dimensions; the expressions are changed in place
(null expressions are skipped, `ap_lincons0.c:273-281`). -/
def extend1 (sub : ℕ → ℕ → Bool) (m : Mem) (a : Arr1) (nenv : ℕ) : Option (Bool × Mem × Arr1) :=
  if sub a.env nenv = false then some (true, m, a)
  else (entriesFrom a.a 0).bind fun l =>
    if readable m l then
      (m.copyEnv nenv).bind fun m =>
        (m.freeEnv a.env).map fun m => (false, m, { a with env := nenv })
    else none

/-! ## A client with one array and some constraints -/

/-- The heap, the array, and the constraints of level 1 that the client holds. -/
structure St where
  m : Mem
  a : Arr1
  own : List Cons1

/-- The calls of a client. -/
inductive Op where
  /-- build a constraint on the environment `e`, with or without a scalar (`ap_lincons1_make`) -/
  | new (e : ℕ) (sca : Bool)
  /-- `ap_lincons1_clear` of the `k`-th constraint -/
  | drop (k : ℕ)
  /-- `ap_lincons1_array_set` at `i` of the `k`-th constraint, which the client forgets if the
  call succeeds -/
  | set (i k : ℕ)
  /-- `ap_lincons1_array_clear_index`; the client stays within the array -/
  | clearIndex (i : ℕ)
  /-- `ap_lincons0_array_resize` of the array of level 0 -/
  | resize (n : ℕ)
  /-- `ap_lincons1_array_extend_environment_with` -/
  | extend (e : ℕ)

/-- One call. -/
def step (eq sub : ℕ → ℕ → Bool) (s : St) : Op → Option St
  | .new e sca =>
    (s.m.copyEnv e).map fun m =>
      let x := m.alloc
      let y := x.2.alloc
      if sca then { s with m := y.2, own := ⟨⟨some x.1, some y.1⟩, e⟩ :: s.own }
      else { s with m := x.2, own := ⟨⟨some x.1, none⟩, e⟩ :: s.own }
  | .drop k =>
    match s.own[k]? with
    | none => some s
    | some c => (clear1 s.m c).map fun m => { s with m := m, own := s.own.eraseIdx k }
  | .set i k =>
    match s.own[k]? with
    | none => some s
    | some c => (set1 eq s.m s.a i c).map fun r =>
        if r.1 then { s with m := r.2.1, a := r.2.2 }
        else ⟨r.2.1, r.2.2, s.own.eraseIdx k⟩
  | .clearIndex i =>
    if i < s.a.a.size then
      (ConsArr.clearIndex s.m s.a.a i).map fun r => { s with m := r.1, a := { s.a with a := r.2 } }
    else some s
  | .resize n => (ConsArr.resize s.m s.a.a n).map fun r => { s with m := r.1, a := { s.a with a := r.2 } }
  | .extend e => (extend1 sub s.m s.a e).map fun r => { s with m := r.2.1, a := r.2.2 }

/-- A sequence of calls. -/
def run (eq sub : ℕ → ℕ → Bool) (s : St) : List Op → Option St
  | [] => some s
  | o :: os => (step eq sub s o).bind fun s => run eq sub s os

/-- The client clears its constraints one after the other. -/
def dropAll (m : Mem) : List Cons1 → Option Mem
  | [] => some m
  | c :: l => (clear1 m c).bind fun m => dropAll m l

/-- The end of the client: it clears its constraints and the array. -/
def finish (gen : Bool) (s : St) : Option (Mem × Arr) :=
  (dropAll s.m s.own).bind fun m => arrClear1 gen m s.a

end Apron.ConsArr
