import Verif.Core.ManagerLemmas
import Mathlib.Data.Set.Card
import Mathlib.Tactic.NormNum

/-! # Properties C149 and C150: managers -/

set_option autoImplicit false
set_option linter.unusedSectionVars false
set_option linter.ambiguousOpen false

namespace Apron
open Manager

/-! ## C149: memory -/

/-- No call of a program that respects the rules reads or frees a freed object, gives a value to the functions of another
library or fails the assertion on the counter. -/
theorem C149_no_failure (h : Heap) (own : ℕ → ℕ) (hr : Reach h own) (op : Op) (hl : Legal h own op) : step h op ≠ .fail := by
  intro hf
  rcases good_step hr.inv hl with h | ⟨h', e, -⟩
  · rw [hf] at h; cases h
  · rw [hf] at e; cases e

/-- A manager exists exactly as long as the user holds a reference to it or one of its abstract values exists. -/
theorem C149_manager_alive (h : Heap) (own : ℕ → ℕ) (hr : Reach h own) (m : ℕ) :
    (∃ M, h.mans m = some M) ↔ (1 ≤ own m ∨ ∃ a A, h.abs a = some A ∧ A.man = m) := by
  have hI := hr.inv
  constructor
  · rintro ⟨M, e⟩
    obtain ⟨hc, h1, -⟩ := hI.cnt m M e
    by_cases ho : 1 ≤ own m
    · exact .inl ho
    · have : refs h m ≠ 0 := by omega
      obtain ⟨a, -, ha⟩ := Finset.exists_ne_zero_of_sum_ne_zero this
      cases hA : h.abs a with
      | none => rw [hA] at ha; exact absurd rfl ha
      | some A =>
        refine .inr ⟨a, A, hA, ?_⟩
        rw [hA] at ha
        simp only [ref1] at ha
        by_contra hne
        rw [if_neg hne] at ha
        exact ha rfl
  · rintro (ho | ⟨a, A, hA, rfl⟩)
    · exact hI.live ho
    · obtain ⟨M, e, -⟩ := hI.abs a A hA
      exact ⟨M, e⟩

/-- The counter of a manager is the number of references to it. -/
theorem C149_counter (h : Heap) (own : ℕ → ℕ) (hr : Reach h own) (m : ℕ) (M : Man) (e : h.mans m = some M) :
    M.count = own m + {a | ∃ A, h.abs a = some A ∧ A.man = m}.ncard := by
  have hI := hr.inv
  rw [(hI.cnt m M e).1]
  congr 1
  have hs : {a | ∃ A, h.abs a = some A ∧ A.man = m} = ↑((Finset.range h.nabs).filter fun a => ref1 m (h.abs a) = 1) := by
    ext a
    simp only [Set.mem_setOf_eq, Finset.coe_filter, Finset.mem_range]
    constructor
    · rintro ⟨A, hA, hm⟩
      exact ⟨hI.alt hA, by rw [hA]; simp [ref1, hm]⟩
    · rintro ⟨-, hA⟩
      cases hx : h.abs a with
      | none => rw [hx] at hA; cases hA
      | some A =>
        refine ⟨A, rfl, ?_⟩
        rw [hx] at hA
        simp only [ref1] at hA
        by_contra hne
        rw [if_neg hne] at hA
        cases hA
  rw [hs, Set.ncard_coe_finset, Finset.card_filter]
  refine Finset.sum_congr rfl fun a _ => ?_
  cases h.abs a with
  | none => rfl
  | some A => simp only [ref1]; split_ifs <;> simp_all

/-- The internal part of a manager is freed once, when the manager disappears. -/
theorem C149_internal_freed_once (h : Heap) (own : ℕ → ℕ) (hr : Reach h own) :
    h.freed.Nodup ∧ ∀ m, m ∈ h.freed ↔ m < h.nman ∧ h.mans m = none := ⟨hr.inv.nodup, hr.inv.log⟩

/-- Every value of a domain belongs to exactly one abstract value, which belongs to a manager of the library that made
the value. -/
theorem C149_values (h : Heap) (own : ℕ → ℕ) (hr : Reach h own) :
    (∀ v l, h.vals v = some l → ∃! a, ∃ A, h.abs a = some A ∧ A.val = v) ∧
    ∀ a A, h.abs a = some A → ∃ M, h.mans A.man = some M ∧ h.vals A.val = some M.lib := by
  have hI := hr.inv
  refine ⟨fun v l hv => ?_, hI.abs⟩
  obtain ⟨a, A, hA, he⟩ := hI.vals v l hv
  refine ⟨a, ⟨A, hA, he⟩, ?_⟩
  rintro b ⟨B, hB, hb⟩
  exact hI.inj b a B A hB hA (hb.trans he.symm)

/-- No leak: when the user has freed their references and abstract values, nothing is left. -/
theorem C149_no_leak (h : Heap) (own : ℕ → ℕ) (hr : Reach h own) (ho : ∀ m, own m = 0) (ha : ∀ a, h.abs a = none) :
    (∀ m, h.mans m = none) ∧ (∀ v, h.vals v = none) ∧ ∀ m, m ∈ h.freed ↔ m < h.nman := by
  have hm : ∀ m, h.mans m = none := by
    intro m
    by_contra hne
    rcases (C149_manager_alive h own hr m).1 (Option.ne_none_iff_exists'.1 hne) with h1 | ⟨a, A, h1, -⟩
    · have := ho m; omega
    · rw [ha a] at h1; cases h1
  refine ⟨hm, fun v => ?_, fun m => ?_⟩
  · by_contra hne
    obtain ⟨l, hl⟩ := Option.ne_none_iff_exists'.1 hne
    obtain ⟨a, A, hA, -⟩ := hr.inv.vals v l hl
    rw [ha a] at hA; cases hA
  · rw [hr.inv.log m]
    exact ⟨fun h => h.1, fun h => ⟨h, hm m⟩⟩

/-- The code violates its own announcement: freeing an abstract value twice is not detected, the test reads the freed
object. -/
theorem C149_double_free_undetected (h : Heap) (m a : ℕ) (M : Man) (e : h.mans m = some M) (ha : h.abs a = none) :
    step h (.free m a) = .fail := by
  simp only [step, Heap.absFree, Heap.checkman1]
  rw [read_bind e, ha]
  rfl

/-- two managers of different libraries, without aborts; a value of the first is copied with the second (an exception),
then everything is freed, the value last -/
def Manager.demo : List Op :=
  [.alloc 7, .alloc 8, .setAbort 1 .invalidArgument false, .top 0, .copy 1 0, .meetjoin 0 true 0 0 true, .freeMan 0, .free 1 0,
    .free 1 1, .freeMan 1]

/-- execution of a program -/
def Manager.run (h : Heap) : List Op → Res Heap
  | [] => .ok h
  | o :: l => (step h o).bind fun h => run h l

/-- what can be seen of the end -/
def Manager.seen (r : Res Heap) : Option (List ℕ × ℕ × ℕ) :=
  match r with
  | .ok h => some (h.freed, h.nabs, h.nval)
  | _ => none

example : Manager.seen (Manager.run Heap.init Manager.demo) = some ([1, 0], 2, 3) := by decide +kernel

/-- a state with a user reference and an abstract value -/
example : ∃ h own M A, Reach h own ∧ own 0 = 1 ∧ h.mans 0 = some M ∧ M.count = 2 ∧ h.abs 0 = some A ∧ Legal h own (.free 0 0) :=
  ⟨_, _, _, _, .step (.step .init (op := .alloc 7) trivial rfl) (op := .top 0) (show 1 ≤ 1 by omega) rfl, rfl, rfl, rfl, rfl,
    ⟨show 1 ≤ 1 by omega, rfl⟩⟩

/-! ## C150: options and exceptions -/

/-- What raising an exception does: nothing for NONE, an abort if the option asks for it, and otherwise a new first
entry of the log, the exception in `exn` and both flags false; options and references are kept. -/
theorem C150_raise (M : Man) (e : Exc) (funid : ℕ) :
    (e = .none → raiseExc M e funid = .ok M) ∧
    (e ≠ .none → getAbort M e = true → raiseExc M e funid = .abort) ∧
    (e ≠ .none → getAbort M e = false → ∃ M', raiseExc M e funid = .ok M' ∧ M'.result.exclog = (e, funid) :: M.result.exclog ∧
      M'.result.exn = e ∧ M'.result.exact = false ∧ M'.result.best = false ∧ M'.lib = M.lib ∧ M'.count = M.count ∧
      M'.internal = M.internal ∧ M'.funopt = M.funopt ∧ M'.abortIf = M.abortIf) := by
  refine ⟨fun h => by simp [raiseExc, h], fun h1 h2 => ?_, fun h1 h2 => ?_⟩
  · simp only [getAbort] at h2
    simp [raiseExc, h1, h2]
  · simp only [getAbort] at h2
    have e2 : ¬ M.abortIf e = true := by simp [h2]
    refine ⟨{ M with result := { addException M.result e funid with exact := false, best := false } },
      by unfold raiseExc; rw [if_pos h1, if_neg e2], rfl, rfl, rfl, rfl, rfl, rfl, rfl, rfl, rfl⟩

/-- A new manager has default options, aborts on every exception, and has no exception. -/
theorem C150_alloc (lib : ℕ) : (∀ e, getAbort (alloc lib) e = true) ∧
    (∀ f, f < 51 → getFunopt (alloc lib) f = .ok ⟨0, 0, 0, false, false⟩) ∧ (alloc lib).result.exclog = [] ∧
    (alloc lib).result.exn = .none ∧ (alloc lib).count = 1 :=
  ⟨fun _ => rfl, fun f hf => by simp [getFunopt, funidSize, hf, alloc, funoptInit], rfl, rfl, rfl⟩

/-- Options are read as they were set, and setting one leaves the others; an identifier out of range is ignored by the
setter and refused by the getter. -/
theorem C150_options (M : Man) (f g : ℕ) (o : Funopt) (e e' : Exc) (b : Bool) :
    (f < 51 → getFunopt (setFunopt M f o) f = .ok o) ∧ (f ≠ g → getFunopt (setFunopt M f o) g = getFunopt M g) ∧
    (51 ≤ f → setFunopt M f o = M ∧ getFunopt M f = .abort) ∧
    getAbort (setAbort M e b) e = b ∧ (e ≠ e' → getAbort (setAbort M e b) e' = getAbort M e') ∧
    (∀ k, getFunopt (setAbort M e b) k = getFunopt M k) ∧ ∀ x, getAbort (setFunopt M f o) x = getAbort M x := by
  refine ⟨fun h => ?_, fun h => ?_, fun h => ?_, ?_, fun h => ?_, fun k => rfl, fun x => ?_⟩
  · simp [getFunopt, setFunopt, funidSize, h]
  · simp only [getFunopt, setFunopt]
    split_ifs <;> simp [Function.update_of_ne (Ne.symm h)]
  · have : ¬ f < funidSize := by unfold funidSize; omega
    simp [getFunopt, setFunopt, this]
  · simp [getAbort, setAbort]
  · simp [getAbort, setAbort, Function.update_of_ne (Ne.symm h)]
  · simp only [getAbort, setFunopt]; split_ifs <;> rfl

/-- An abstract value of another library is reported in the log of the manager, and the result is a new value of the
library of the manager. -/
theorem C150_wrong_library (h : Heap) (own : ℕ → ℕ) (hr : Reach h own) (m a : ℕ) (A : Abs) (M MA : Man) (ho : 1 ≤ own m)
    (e : h.abs a = some A) (em : h.mans m = some M) (eA : h.mans A.man = some MA) (hl : M.lib ≠ MA.lib) :
    (getAbort M .invalidArgument = true → step h (.copy m a) = .abort) ∧
    (getAbort M .invalidArgument = false → ∃ h' M', step h (.copy m a) = .ok h' ∧ h'.mans m = some M' ∧
      M'.result.exclog = (.invalidArgument, 1) :: M.result.exclog ∧ M'.result.exn = .invalidArgument ∧ h'.abs a = some A ∧
      h'.abs h.nabs = some ⟨h.nval, m⟩ ∧ h'.vals h.nval = some M.lib) := by
  have hI := hr.inv
  have halt := hI.alt e
  simp only [step, Heap.absCopy, Heap.checkman1]
  rw [read_bind em, read_bind e, read_bind eA, if_pos hl]
  simp only [Heap.raise]
  rw [read_bind em]
  simp only [getAbort]
  refine ⟨fun hb => ?_, fun hb => ?_⟩
  · simp [raiseExc, hb, Res.bind]
  · have hne : A.man ≠ m := by
      rintro rfl
      rw [em, Option.some.injEq] at eA
      exact hl (by rw [eA])
    have huse := hI.use e eA
    simp only [raiseExc, hb, ne_eq, reduceCtorEq, not_false_eq_true, if_true, Bool.false_eq_true, if_false, Res.bind,
      Heap.dimension, Heap.setMan, e, Heap.read, Function.update_of_ne hne, eA]
    simp only [Heap.use] at huse ⊢
    rw [huse]
    simp only [Heap.top, Heap.read, Function.update_self, Res.bind, Heap.newVal, Heap.cons, Heap.copyMan, Heap.setMan]
    refine ⟨_, _, rfl, by simp only [Function.update_self]; rfl, rfl, rfl, ?_, ?_, ?_⟩
    · simp only; rw [Function.update_of_ne (by omega)]; exact e
    · simp
    · simp

/-- The code violates the documentation of `exn` ("exception for the last called function"): clearing the log leaves it. -/
theorem C150_clear_keeps_exn (M : Man) : (clearExclog M).result.exclog = [] ∧ (clearExclog M).result.exn = M.result.exn :=
  ⟨rfl, rfl⟩

/-- The code violates the documentation of `exn` ("exception for the last called function"): once an exception was raised
in a manager, no call resets the field, whatever it does and however well it works. -/
theorem C150_exn_never_reset (h h' : Heap) (own : ℕ → ℕ) (hr : Reach h own) (op : Op) (hs : step h op = .ok h') (m : ℕ) (M M' : Man)
    (e : h.mans m = some M) (e' : h'.mans m = some M') (hx : M.result.exn ≠ .none) : M'.result.exn ≠ .none := by
  obtain ⟨N, hN, hk⟩ := (keep_step hs).2 m M' (hr.inv.lt e) e'
  rw [e, Option.some.injEq] at hN
  exact hk (hN ▸ hx)

/-- a program: a copy with the wrong manager raises an exception; the log is cleared and a correct call made, and `exn` is
still there -/
example : (match Manager.run Heap.init [.alloc 7, .alloc 8, .setAbort 1 .invalidArgument false, .top 0, .copy 1 0, .clearExclog 1,
      .top 1] with
    | .ok h => (h.mans 1).map fun M => (M.result.exn, M.result.exclog)
    | _ => none) = some (.invalidArgument, []) := by decide +kernel

/-! ## Three-valued logic -/

/-- the truth values a `tbool_t` stands for -/
def TB.Has : TB → Bool → Prop
  | .f, b => b = false
  | .t, b => b = true
  | .top, _ => True

/-- The connectives are the best ones: the values of the result are exactly those of the operands combined. -/
theorem C150_tbool (a b : TB) (r : Bool) :
    ((TB.or a b).Has r ↔ ∃ p q, a.Has p ∧ b.Has q ∧ r = (p || q)) ∧
    ((TB.and a b).Has r ↔ ∃ p q, a.Has p ∧ b.Has q ∧ r = (p && q)) ∧
    ((TB.not a).Has r ↔ ∃ p, a.Has p ∧ r = !p) ∧
    (∀ c, (TB.ofBool c).Has r ↔ r = c) ∧ ∀ n : ℤ, (TB.ofInt n).Has r ↔ r = decide (n ≠ 0) := by
  refine ⟨?_, ?_, ?_, ?_, ?_⟩
  · cases a <;> cases b <;> cases r <;> simp [TB.or, TB.Has]
  · cases a <;> cases b <;> cases r <;> simp [TB.and, TB.Has]
  · cases a <;> cases r <;> simp [TB.not, TB.Has]
  · intro c; cases c <;> simp [TB.ofBool, TB.Has]
  · intro n; by_cases hn : n = 0 <;> simp [TB.ofInt, TB.Has, hn]

example : TB.or .top .t = .t ∧ TB.and .top .f = .f ∧ TB.and .top .t = .top := by decide

end Apron
