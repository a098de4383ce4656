import Mathlib.Data.Finset.Card
import Mathlib.Algebra.BigOperators.Group.Finset.Basic
import Mathlib.Algebra.BigOperators.Intervals

/-!
# Managers

`apron/ap_manager.c`, the inline functions of `apron/ap_manager.h`, and what the functions of
`apron/ap_abstract0.[ch]` do with managers: references held by abstract values, check that a value belongs to the
library of the manager, exceptions.

The heap has three kinds of objects: managers, abstract values (`ap_abstract0_t`) and values of the domains, each
with the library that made it.  An address never used again identifies an object; a freed object is absent.  Reading or
freeing an absent object, giving a value to the functions of another library, and a failed assertion are the outcome
`fail`.  `abort` is the abort requested by the option `abort_if_exception`.

Simplifications: a library is a number (the code compares the addresses of names); counters do not wrap; messages are
left out of the log; domain functions succeed.
-/

set_option autoImplicit false
set_option linter.unusedSectionVars false
set_option linter.ambiguousOpen false

namespace Apron

/-- `tbool_t`: apron/ap_manager.h:33-37 -/
inductive TB | f | t | top
  deriving DecidableEq, Repr

namespace TB
/-- `tbool_of_int`: apron/ap_manager.h:264-265 -/
def ofInt (n : ℤ) : TB := if n ≠ 0 then t else f
/-- `tbool_of_bool`: apron/ap_manager.h:266-267 -/
def ofBool (a : Bool) : TB := if a then t else f
/-- `tbool_or`: apron/ap_manager.h:268-274 -/
def or (a b : TB) : TB := if a = t ∨ b = t then t else if a = top ∨ b = top then top else f
/-- `tbool_and`: apron/ap_manager.h:275-281 -/
def and (a b : TB) : TB := if a = f ∨ b = f then f else if a = top ∨ b = top then top else t
/-- `tbool_not`: apron/ap_manager.h:282-287 -/
def not (a : TB) : TB := if a = f then t else if a = t then f else a
end TB

namespace Manager

/-- `ap_exc_t`: apron/ap_manager.h:122-130 -/
inductive Exc | none | timeout | outOfSpace | overflow | invalidArgument | notImplemented
  deriving DecidableEq, Repr

/-- `AP_FUNID_SIZE`: apron/ap_manager.h:63-118 -/
def funidSize : ℕ := 51

/-- `ap_funopt_t`: apron/ap_manager.h:156-178 -/
structure Funopt where
  algorithm : ℤ
  timeout : ℕ
  maxObjectSize : ℕ
  exactWanted : Bool
  bestWanted : Bool
  deriving DecidableEq, Repr

/-- `ap_result_t` with the log, an exception and a function per entry: apron/ap_manager.h:135-148 -/
structure Result where
  exclog : List (Exc × ℕ)
  exn : Exc
  exact : Bool
  best : Bool
  deriving DecidableEq, Repr

/-- `ap_manager_t`: apron/ap_manager.h:192-204 -/
structure Man where
  lib : ℕ
  /-- `internal` is not NULL -/
  internal : Bool
  count : ℕ
  funopt : ℕ → Funopt
  abortIf : Exc → Bool
  result : Result

/-- `ap_funopt_init`: apron/ap_manager.c:90-97 -/
def funoptInit : Funopt := ⟨0, 0, 0, false, false⟩

/-- `ap_result_init`: apron/ap_manager.c:144-150 -/
def resultInit : Result := ⟨[], .none, false, false⟩

/-- `ap_manager_alloc`: apron/ap_manager.c:162-180, `ap_option_init`: 99-111 -/
def alloc (lib : ℕ) : Man := ⟨lib, true, 1, fun _ => funoptInit, fun _ => true, resultInit⟩

/-- outcome of a call -/
inductive Res (α : Type*)
  | ok (x : α)
  | abort
  | fail

/-- sequence of calls -/
def Res.bind {α β : Type*} (r : Res α) (f : α → Res β) : Res β :=
  match r with
  | .ok x => f x
  | .abort => .abort
  | .fail => .fail

/-- `ap_manager_get_funopt`: apron/ap_manager.c:207-215 -/
def getFunopt (M : Man) (funid : ℕ) : Res Funopt := if funid < funidSize then .ok (M.funopt funid) else .abort

/-- `ap_manager_set_funopt`: apron/ap_manager.c:224-225 -/
def setFunopt (M : Man) (funid : ℕ) (o : Funopt) : Man :=
  if funid < funidSize then { M with funopt := Function.update M.funopt funid o } else M

/-- `ap_manager_get_abort_if_exception`: apron/ap_manager.c:216-217 -/
def getAbort (M : Man) (e : Exc) : Bool := M.abortIf e

/-- `ap_manager_set_abort_if_exception`: apron/ap_manager.c:227-228 -/
def setAbort (M : Man) (e : Exc) (b : Bool) : Man := { M with abortIf := Function.update M.abortIf e b }

/-- `ap_manager_clear_exclog`: apron/ap_manager.c:229-233 -/
def clearExclog (M : Man) : Man := { M with result := { M.result with exclog := [] } }

/-- `ap_result_add_exception`: apron/ap_manager.c:138-142 -/
def addException (r : Result) (e : Exc) (funid : ℕ) : Result := { r with exclog := (e, funid) :: r.exclog, exn := e }

/-- `ap_manager_raise_exception`: apron/ap_manager.c:239-260 -/
def raiseExc (M : Man) (e : Exc) (funid : ℕ) : Res Man :=
  if e ≠ .none then
    if M.abortIf e then .abort
    else .ok { M with result := { addException M.result e funid with exact := false, best := false } }
  else .ok M

/-! ## The heap -/

/-- `ap_abstract0_t`: apron/ap_abstract0.h:24-27 -/
structure Abs where
  val : ℕ
  man : ℕ
  deriving DecidableEq, Repr

/-- the memory; `freed` lists the managers whose internal part was freed -/
structure Heap where
  mans : ℕ → Option Man
  nman : ℕ
  abs : ℕ → Option Abs
  nabs : ℕ
  vals : ℕ → Option ℕ
  nval : ℕ
  freed : List ℕ

/-- the empty memory -/
def Heap.init : Heap := ⟨fun _ => none, 0, fun _ => none, 0, fun _ => none, 0, []⟩

namespace Heap

/-- access to an object -/
def read {α : Type*} (o : Option α) : Res α :=
  match o with
  | some x => .ok x
  | none => .fail

/-- change of a manager -/
def setMan (h : Heap) (m : ℕ) (M : Option Man) : Heap := { h with mans := Function.update h.mans m M }

/-- `ap_manager_alloc` -/
def allocMan (h : Heap) (lib : ℕ) : Heap := { h.setMan h.nman (some (alloc lib)) with nman := h.nman + 1 }

/-- `ap_manager_copy`: apron/ap_manager.h:288-290 -/
def copyMan (h : Heap) (m : ℕ) : Res Heap := (read (h.mans m)).bind fun M => .ok (h.setMan m (some { M with count := M.count + 1 }))

/-- `ap_manager_free`: apron/ap_manager.c:181-196 -/
def freeMan (h : Heap) (m : ℕ) : Res Heap :=
  (read (h.mans m)).bind fun M =>
    if M.count < 1 then .fail
    else if 1 < M.count then .ok (h.setMan m (some { M with count := M.count - 1 }))
    else .ok { h.setMan m none with freed := if M.internal then m :: h.freed else h.freed }

/-- an exception in the manager `m` -/
def raise (h : Heap) (m : ℕ) (funid : ℕ) : Res Heap :=
  (read (h.mans m)).bind fun M => (raiseExc M .invalidArgument funid).bind fun M' => .ok (h.setMan m (some M'))

/-- a function of the library `lib` reads the value `v` -/
def use (h : Heap) (lib v : ℕ) : Res Unit := (read (h.vals v)).bind fun l => if l = lib then .ok () else .fail

/-- a function of the library `lib` frees the value `v` -/
def freeVal (h : Heap) (lib v : ℕ) : Res Heap := (h.use lib v).bind fun _ => .ok { h with vals := Function.update h.vals v none }

/-- a function of the library `lib` returns a new value -/
def newVal (h : Heap) (lib : ℕ) : Heap := { h with vals := Function.update h.vals h.nval (some lib), nval := h.nval + 1 }

/-- `ap_abstract0_cons`: apron/ap_abstract0.h:455-462; the new object is the last one -/
def cons (h : Heap) (m v : ℕ) : Res Heap :=
  (h.copyMan m).bind fun h => .ok { h with abs := Function.update h.abs h.nabs (some ⟨v, m⟩), nabs := h.nabs + 1 }

/-- `_ap_abstract0_free`: apron/ap_abstract0.h:463-470 -/
def absFree0 (h : Heap) (a : ℕ) : Res Heap :=
  (read (h.abs a)).bind fun A => (read (h.mans A.man)).bind fun MA => (h.freeVal MA.lib A.val).bind fun h =>
    (h.freeMan A.man).bind fun h => .ok { h with abs := Function.update h.abs a none }

/-- `ap_abstract0_cons2`: apron/ap_abstract0.h:471-485 -/
def cons2 (h : Heap) (m : ℕ) (destructive : Bool) (a v : ℕ) : Res Heap :=
  if destructive then
    (read (h.abs a)).bind fun A =>
      if A.man ≠ m then
        (h.freeMan A.man).bind fun h => (h.copyMan m).bind fun h => .ok { h with abs := Function.update h.abs a (some ⟨v, m⟩) }
      else .ok { h with abs := Function.update h.abs a (some ⟨v, A.man⟩) }
  else h.cons m v

/-- `ap_abstract0_checkman1`: apron/ap_abstract0.h:497-507, ap_abstract0.c:28-39 -/
def checkman1 (h : Heap) (m a funid : ℕ) : Res (Bool × Heap) :=
  (read (h.mans m)).bind fun M => (read (h.abs a)).bind fun A => (read (h.mans A.man)).bind fun MA =>
    if M.lib ≠ MA.lib then (h.raise m funid).bind fun h => .ok (false, h) else .ok (true, h)

/-- `ap_abstract0_checkman2`: apron/ap_abstract0.c:41-70 -/
def checkman2 (h : Heap) (m a1 a2 funid : ℕ) : Res (Bool × Heap) :=
  (read (h.mans m)).bind fun M => (read (h.abs a1)).bind fun A1 => (read (h.mans A1.man)).bind fun M1 =>
    if M.lib ≠ M1.lib then (h.raise m funid).bind fun h => .ok (false, h)
    else (read (h.abs a2)).bind fun A2 => (read (h.mans A2.man)).bind fun M2 =>
      if M.lib ≠ M2.lib then (h.raise m funid).bind fun h => .ok (false, h) else .ok (true, h)

/-- `_ap_abstract0_dimension`: apron/ap_abstract0.h:523-529, with the functions of the manager of the value -/
def dimension (h : Heap) (a : ℕ) : Res Unit :=
  (read (h.abs a)).bind fun A => (read (h.mans A.man)).bind fun MA => h.use MA.lib A.val

/-- `ap_abstract0_check_abstract2`: apron/ap_abstract0.c:97-121; `same` tells whether the dimensions are equal -/
def checkAbstract2 (h : Heap) (m a1 a2 funid : ℕ) (same : Bool) : Res (Bool × Heap) :=
  (h.dimension a1).bind fun _ => (h.dimension a2).bind fun _ =>
    if same then .ok (true, h) else (h.raise m funid).bind fun h => .ok (false, h)

/-- `ap_abstract0_top`: apron/ap_abstract0.c:705-709 -/
def top (h : Heap) (m : ℕ) : Res Heap := (read (h.mans m)).bind fun M => (h.newVal M.lib).cons m h.nval

/-- `ap_abstract0_copy`: apron/ap_abstract0.c:556-568 -/
def absCopy (h : Heap) (m a : ℕ) : Res Heap :=
  (h.checkman1 m a 1).bind fun (b, h) =>
    if b then (read (h.mans m)).bind fun M => (read (h.abs a)).bind fun A => (h.use M.lib A.val).bind fun _ =>
      (h.newVal M.lib).cons m h.nval
    else (h.dimension a).bind fun _ => h.top m

/-- `ap_abstract0_free`: apron/ap_abstract0.c:570-588 -/
def absFree (h : Heap) (m a : ℕ) : Res Heap :=
  (h.checkman1 m a 2).bind fun (b, h) =>
    (read (h.abs a)).bind fun A => (read (h.mans (if b then m else A.man))).bind fun M =>
      (h.freeVal M.lib A.val).bind fun h => (h.freeMan A.man).bind fun h => .ok { h with abs := Function.update h.abs a none }

/-- `ap_abstract0_is_leq`, `.._is_eq`: apron/ap_abstract0.c:751-782 -/
def test2 (h : Heap) (m a1 a2 : ℕ) (same : Bool) : Res Heap :=
  if a1 = a2 then .ok h
  else (h.checkman2 m a1 a2 19).bind fun (b, h) =>
    if b then (h.checkAbstract2 m a1 a2 19 same).bind fun (b, h) =>
      if b then (read (h.mans m)).bind fun M => (read (h.abs a1)).bind fun A1 => (read (h.abs a2)).bind fun A2 =>
        (h.use M.lib A1.val).bind fun _ => (h.use M.lib A2.val).bind fun _ => .ok h
      else .ok h
    else .ok h

/-- `ap_abstract0_meetjoin`: apron/ap_abstract0.c:940-956; a destructive function of the domain takes the first value -/
def meetjoin (h : Heap) (m : ℕ) (destructive : Bool) (a1 a2 : ℕ) (same : Bool) : Res Heap :=
  (h.checkman2 m a1 a2 32).bind fun (b, h) =>
    (if b then h.checkAbstract2 m a1 a2 32 same else .ok (false, h)).bind fun (b, h) =>
      if b then (read (h.mans m)).bind fun M => (read (h.abs a1)).bind fun A1 => (read (h.abs a2)).bind fun A2 =>
        (h.use M.lib A1.val).bind fun _ => (h.use M.lib A2.val).bind fun _ =>
          (if destructive then h.freeVal M.lib A1.val else .ok h).bind fun h => (h.newVal M.lib).cons2 m destructive a1 h.nval
      else (h.dimension a1).bind fun _ => (if destructive then h.absFree0 a1 else .ok h).bind fun h => h.top m

end Heap

/-! ## Programs -/

/-- a call by the user -/
inductive Op
  | alloc (lib : ℕ)
  | copyMan (m : ℕ)
  | freeMan (m : ℕ)
  | setAbort (m : ℕ) (e : Exc) (b : Bool)
  | clearExclog (m : ℕ)
  | top (m : ℕ)
  | copy (m a : ℕ)
  | free (m a : ℕ)
  | test2 (m a1 a2 : ℕ) (same : Bool)
  | meetjoin (m : ℕ) (destructive : Bool) (a1 a2 : ℕ) (same : Bool)

/-- the effect of a call -/
def step (h : Heap) : Op → Res Heap
  | .alloc lib => .ok (h.allocMan lib)
  | .copyMan m => h.copyMan m
  | .freeMan m => h.freeMan m
  | .setAbort m e b => (Heap.read (h.mans m)).bind fun M => .ok (h.setMan m (some (setAbort M e b)))
  | .clearExclog m => (Heap.read (h.mans m)).bind fun M => .ok (h.setMan m (some (clearExclog M)))
  | .top m => h.top m
  | .copy m a => h.absCopy m a
  | .free m a => h.absFree m a
  | .test2 m a1 a2 same => h.test2 m a1 a2 same
  | .meetjoin m d a1 a2 same => h.meetjoin m d a1 a2 same

/-- the references of the user to managers after a call -/
def own' (h : Heap) (own : ℕ → ℕ) : Op → ℕ → ℕ
  | .alloc _ => Function.update own h.nman 1
  | .copyMan m => Function.update own m (own m + 1)
  | .freeMan m => Function.update own m (own m - 1)
  | _ => own

/-- the user only passes managers they hold a reference to and abstract values not yet freed -/
def Legal (h : Heap) (own : ℕ → ℕ) : Op → Prop
  | .alloc _ => True
  | .copyMan m | .freeMan m | .setAbort m _ _ | .clearExclog m | .top m => 1 ≤ own m
  | .copy m a | .free m a => 1 ≤ own m ∧ (h.abs a).isSome = true
  | .test2 m a1 a2 _ | .meetjoin m _ a1 a2 _ => 1 ≤ own m ∧ (h.abs a1).isSome = true ∧ (h.abs a2).isSome = true

/-- the states of a program that respects the rules -/
inductive Reach : Heap → (ℕ → ℕ) → Prop
  | init : Reach Heap.init (fun _ => 0)
  | step {h : Heap} {own : ℕ → ℕ} {op : Op} {h' : Heap} : Reach h own → Legal h own op → step h op = .ok h' →
      Reach h' (own' h own op)

end Manager
end Apron
