import Verif.Core.Manager
import Mathlib.Algebra.Order.BigOperators.Group.Finset
import Mathlib.Tactic.Linarith
import Mathlib.Tactic.SplitIfs

/-! # Managers: the invariant of programs that respect the rules -/

set_option autoImplicit false
set_option linter.unusedSectionVars false
set_option linter.ambiguousOpen false

namespace Apron.Manager
open Heap

/-- the call does not fail, and its result satisfies `P` unless it aborts -/
def Res.Good {α : Type*} (r : Res α) (P : α → Prop) : Prop := r = .abort ∨ ∃ x, r = .ok x ∧ P x

theorem Res.Good.ok {α : Type*} {P : α → Prop} {x : α} (h : P x) : (Res.ok x).Good P := .inr ⟨x, rfl, h⟩

theorem Res.Good.bind {α β : Type*} {r : Res α} {P : α → Prop} {f : α → Res β} {Q : β → Prop} (h : r.Good P)
    (hf : ∀ x, P x → (f x).Good Q) : (r.bind f).Good Q := by
  rcases h with h | ⟨x, h, hx⟩
  · exact .inl (by rw [h]; rfl)
  · rw [h]; exact hf x hx

theorem read_bind {α β : Type*} {o : Option α} {x : α} (h : o = some x) (f : α → Res β) : (read o).bind f = f x := by
  rw [h]; rfl

/-- the references of one abstract value to `m` -/
def ref1 (m : ℕ) : Option Abs → ℕ
  | some A => if A.man = m then 1 else 0
  | none => 0

/-- number of abstract values that hold a reference to `m` -/
def refs (h : Heap) (m : ℕ) : ℕ := ∑ a ∈ Finset.range h.nabs, ref1 m (h.abs a)

/-- the invariant: `own` are the references to managers that no abstract value holds -/
structure Inv (h : Heap) (own : ℕ → ℕ) : Prop where
  fman : ∀ m, h.nman ≤ m → h.mans m = none
  fabs : ∀ a, h.nabs ≤ a → h.abs a = none
  fval : ∀ v, h.nval ≤ v → h.vals v = none
  cnt : ∀ m M, h.mans m = some M → M.count = own m + refs h m ∧ 1 ≤ M.count ∧ M.internal = true
  dead : ∀ m, h.mans m = none → own m = 0
  abs : ∀ a A, h.abs a = some A → ∃ M, h.mans A.man = some M ∧ h.vals A.val = some M.lib
  inj : ∀ a b A B, h.abs a = some A → h.abs b = some B → A.val = B.val → a = b
  vals : ∀ v l, h.vals v = some l → ∃ a A, h.abs a = some A ∧ A.val = v
  nodup : h.freed.Nodup
  log : ∀ m, m ∈ h.freed ↔ m < h.nman ∧ h.mans m = none

theorem Inv.live {h : Heap} {own : ℕ → ℕ} (hI : Inv h own) {m : ℕ} (ho : 1 ≤ own m) : ∃ M, h.mans m = some M := by
  cases e : h.mans m with
  | none => have := hI.dead m e; omega
  | some M => exact ⟨M, rfl⟩

theorem Inv.lt {h : Heap} {own : ℕ → ℕ} (hI : Inv h own) {m : ℕ} {M : Man} (e : h.mans m = some M) : m < h.nman := by
  by_contra hc
  rw [hI.fman m (by omega)] at e; cases e

theorem Inv.alt {h : Heap} {own : ℕ → ℕ} (hI : Inv h own) {a : ℕ} {A : Abs} (e : h.abs a = some A) : a < h.nabs := by
  by_contra hc
  rw [hI.fabs a (by omega)] at e; cases e

theorem Inv.vlt {h : Heap} {own : ℕ → ℕ} (hI : Inv h own) {v l : ℕ} (e : h.vals v = some l) : v < h.nval := by
  by_contra hc
  rw [hI.fval v (by omega)] at e; cases e

theorem inv_init : Inv Heap.init (fun _ => 0) := by
  constructor <;> simp [Heap.init]

/-- a manager is changed, keeping library and internal part; `own` follows the counter -/
theorem inv_setMan {h : Heap} {own : ℕ → ℕ} (hI : Inv h own) {m : ℕ} {M M' : Man} (e : h.mans m = some M)
    (hl : M'.lib = M.lib) (hi : M'.internal = true) {k : ℕ} (hc : M'.count = k + refs h m) (h1 : 1 ≤ M'.count) :
    Inv (h.setMan m (some M')) (Function.update own m k) := by
  constructor
  · intro n hn
    have : n ≠ m := by have := hI.lt e; simp only [setMan] at hn; omega
    simp only [setMan, Function.update_of_ne this]
    exact hI.fman n hn
  · exact hI.fabs
  · exact hI.fval
  · intro n N hN
    by_cases hnm : n = m
    · subst hnm
      simp only [setMan, Function.update_self, Option.some.injEq] at hN
      subst hN
      rw [Function.update_self]
      exact ⟨hc, h1, hi⟩
    · simp only [setMan, Function.update_of_ne hnm] at hN
      rw [Function.update_of_ne hnm]
      exact hI.cnt n N hN
  · intro n hn
    by_cases hnm : n = m
    · subst hnm; simp [setMan] at hn
    · simp only [setMan, Function.update_of_ne hnm] at hn
      rw [Function.update_of_ne hnm]
      exact hI.dead n hn
  · intro a A hA
    obtain ⟨N, h1, h2⟩ := hI.abs a A hA
    by_cases hnm : A.man = m
    · rw [hnm, e, Option.some.injEq] at h1
      subst h1
      exact ⟨M', by simp [setMan, hnm], by rw [hl]; exact h2⟩
    · exact ⟨N, by simp [setMan, Function.update_of_ne hnm, h1], h2⟩
  · exact hI.inj
  · exact hI.vals
  · exact hI.nodup
  · intro n
    by_cases hnm : n = m
    · subst hnm
      have := hI.log n
      simp only [setMan, Function.update_self, reduceCtorEq, and_false, iff_false]
      intro hn
      rw [this, e] at hn
      exact absurd hn.2 (by simp)
    · simp only [setMan, Function.update_of_ne hnm]
      exact hI.log n

theorem inv_allocMan {h : Heap} {own : ℕ → ℕ} (hI : Inv h own) (lib : ℕ) :
    Inv (h.allocMan lib) (Function.update own h.nman 1) := by
  have hr : refs h h.nman = 0 := by
    refine Finset.sum_eq_zero fun a _ => ?_
    cases hA : h.abs a with
    | none => rfl
    | some A =>
      obtain ⟨M, hM, _⟩ := hI.abs a A hA
      have := hI.lt hM
      simp only [ref1]
      rw [if_neg (by omega)]
  constructor
  · intro n hn
    simp only [allocMan] at hn
    have : n ≠ h.nman := by omega
    simp only [allocMan, setMan, Function.update_of_ne this]
    exact hI.fman n (by omega)
  · exact hI.fabs
  · exact hI.fval
  · intro n N hN
    have hrr : refs (h.allocMan lib) n = refs h n := rfl
    by_cases hnm : n = h.nman
    · subst hnm
      simp only [allocMan, setMan, Function.update_self, Option.some.injEq] at hN
      subst hN
      rw [hrr, hr]
      simp [alloc]
    · simp only [allocMan, setMan, Function.update_of_ne hnm] at hN
      rw [Function.update_of_ne hnm]
      exact hI.cnt n N hN
  · intro n hn
    by_cases hnm : n = h.nman
    · subst hnm; simp [allocMan, setMan] at hn
    · simp only [allocMan, setMan, Function.update_of_ne hnm] at hn
      rw [Function.update_of_ne hnm]
      exact hI.dead n hn
  · intro a A hA
    obtain ⟨N, h1, h2⟩ := hI.abs a A hA
    have : A.man ≠ h.nman := by have := hI.lt h1; omega
    exact ⟨N, by simp [allocMan, setMan, Function.update_of_ne this, h1], h2⟩
  · exact hI.inj
  · exact hI.vals
  · exact hI.nodup
  · intro n
    have := hI.log n
    by_cases hnm : n = h.nman
    · subst hnm
      simp only [allocMan, setMan, Function.update_self, reduceCtorEq, and_false, iff_false]
      intro hn
      have := (this.1 hn).1
      omega
    · simp only [allocMan, setMan, Function.update_of_ne hnm]
      refine this.trans ⟨fun h => ⟨by omega, h.2⟩, fun h => ⟨by omega, h.2⟩⟩

theorem good_copyMan {h : Heap} {own : ℕ → ℕ} (hI : Inv h own) {m : ℕ} {M : Man} (e : h.mans m = some M) :
    ∃ h', h.copyMan m = .ok h' ∧ Inv h' (Function.update own m (own m + 1)) ∧ h' = h.setMan m (some { M with count := M.count + 1 }) := by
  refine ⟨_, by unfold copyMan; rw [read_bind e], ?_, rfl⟩
  have hc := hI.cnt m M e
  exact inv_setMan (M' := { M with count := M.count + 1 }) hI e rfl hc.2.2 (by simp only; omega) (by simp)

theorem good_freeMan {h : Heap} {own : ℕ → ℕ} (hI : Inv h own) {m : ℕ} (ho : 1 ≤ own m) :
    ∃ h', h.freeMan m = .ok h' ∧ Inv h' (Function.update own m (own m - 1)) ∧ h'.abs = h.abs ∧ h'.nabs = h.nabs ∧
      (∀ n, n ≠ m → h'.mans n = h.mans n) := by
  obtain ⟨M, e⟩ := hI.live ho
  obtain ⟨hc, h1, hi⟩ := hI.cnt m M e
  unfold freeMan
  rw [read_bind e, if_neg (by omega)]
  by_cases h2 : 1 < M.count
  · rw [if_pos h2]
    refine ⟨_, rfl, inv_setMan (M' := { M with count := M.count - 1 }) hI e rfl hi (by simp only; omega) (by simp only; omega), rfl, rfl, fun n hn => ?_⟩
    simp [setMan, Function.update_of_ne hn]
  · rw [if_neg h2]
    have hr : refs h m = 0 := by omega
    have ho1 : own m = 1 := by omega
    refine ⟨_, rfl, ?_, rfl, rfl, fun n hn => by simp [setMan, Function.update_of_ne hn]⟩
    have hno : ∀ a A, h.abs a = some A → A.man ≠ m := by
      intro a A hA hm
      have : ref1 m (h.abs a) ≤ refs h m :=
        Finset.single_le_sum (f := fun a => ref1 m (h.abs a)) (fun _ _ => Nat.zero_le _) (Finset.mem_range.2 (hI.alt hA))
      rw [hA] at this
      simp only [ref1, hm, if_true] at this
      omega
    constructor
    · intro n hn
      by_cases hnm : n = m
      · subst hnm; simp [setMan]
      · simp only [setMan, Function.update_of_ne hnm]; exact hI.fman n hn
    · exact hI.fabs
    · exact hI.fval
    · intro n N hN
      by_cases hnm : n = m
      · subst hnm; simp [setMan] at hN
      · simp only [setMan, Function.update_of_ne hnm] at hN
        rw [Function.update_of_ne hnm]
        exact hI.cnt n N hN
    · intro n hn
      by_cases hnm : n = m
      · subst hnm; simp [ho1]
      · simp only [setMan, Function.update_of_ne hnm] at hn
        rw [Function.update_of_ne hnm]
        exact hI.dead n hn
    · intro a A hA
      obtain ⟨N, h1, h2⟩ := hI.abs a A hA
      exact ⟨N, by simp [setMan, Function.update_of_ne (hno a A hA), h1], h2⟩
    · exact hI.inj
    · exact hI.vals
    · simp only [hi, if_true, List.nodup_cons]
      refine ⟨fun hm => ?_, hI.nodup⟩
      have := ((hI.log m).1 hm).2
      rw [e] at this; cases this
    · intro n
      simp only [hi, if_true, List.mem_cons]
      by_cases hnm : n = m
      · subst hnm; simp [setMan, hI.lt e]
      · simp only [setMan, Function.update_of_ne hnm, hnm, false_or]; exact hI.log n

theorem refs_update {h : Heap} {a : ℕ} (ha : a < h.nabs) (o : Option Abs) (m : ℕ) :
    refs { h with abs := Function.update h.abs a o } m + ref1 m (h.abs a) = refs h m + ref1 m o := by
  unfold refs
  simp only
  rw [← Finset.add_sum_erase _ _ (Finset.mem_range.2 ha), ← Finset.add_sum_erase (Finset.range h.nabs) _ (Finset.mem_range.2 ha)]
  rw [Function.update_self]
  have : ∑ x ∈ (Finset.range h.nabs).erase a, ref1 m (Function.update h.abs a o x) =
      ∑ x ∈ (Finset.range h.nabs).erase a, ref1 m (h.abs x) := by
    refine Finset.sum_congr rfl fun x hx => ?_
    rw [Function.update_of_ne (Finset.ne_of_mem_erase hx)]
  rw [this]
  omega

theorem refs_succ {h : Heap} (A : Abs) (m : ℕ) :
    refs { h with abs := Function.update h.abs h.nabs (some A), nabs := h.nabs + 1 } m = refs h m + if A.man = m then 1 else 0 := by
  unfold refs
  simp only
  rw [Finset.sum_range_succ, Function.update_self]
  congr 1
  refine Finset.sum_congr rfl fun x hx => ?_
  rw [Function.update_of_ne (by have := Finset.mem_range.1 hx; omega)]

/-- a new abstract value with a new value of the domain -/
def attach (h : Heap) (m lib : ℕ) : Heap :=
  { h.newVal lib with abs := Function.update h.abs h.nabs (some ⟨h.nval, m⟩), nabs := h.nabs + 1 }

theorem inv_attach {h : Heap} {own : ℕ → ℕ} (hI : Inv h own) {m : ℕ} {M : Man} (e : h.mans m = some M) (ho : 1 ≤ own m) :
    Inv (attach h m M.lib) (Function.update own m (own m - 1)) := by
  have hr : ∀ n, refs (attach h m M.lib) n = refs h n + if m = n then 1 else 0 := fun n => refs_succ ⟨h.nval, m⟩ n
  constructor
  · exact hI.fman
  · intro a ha
    simp only [attach] at ha
    simp only [attach]
    rw [Function.update_of_ne (by omega)]
    exact hI.fabs a (by omega)
  · intro v hv
    simp only [attach, newVal] at hv
    simp only [attach, newVal]
    rw [Function.update_of_ne (by omega)]
    exact hI.fval v (by omega)
  · intro n N hN
    have hc := hI.cnt n N hN
    rw [hr]
    by_cases hnm : n = m
    · subst hnm
      rw [Function.update_self, if_pos rfl]
      exact ⟨by omega, hc.2⟩
    · rw [Function.update_of_ne hnm, if_neg (Ne.symm hnm)]
      exact hc
  · intro n hn
    have := hI.dead n hn
    by_cases hnm : n = m
    · subst hnm; rw [Function.update_self]; omega
    · rw [Function.update_of_ne hnm]; exact this
  · intro a A hA
    simp only [attach] at hA
    by_cases ha : a = h.nabs
    · subst ha
      rw [Function.update_self, Option.some.injEq] at hA
      subst hA
      exact ⟨M, e, by simp [attach, newVal]⟩
    · rw [Function.update_of_ne ha] at hA
      obtain ⟨N, h1, h2⟩ := hI.abs a A hA
      refine ⟨N, h1, ?_⟩
      simp only [attach, newVal]
      rw [Function.update_of_ne (by have := hI.vlt h2; omega)]
      exact h2
  · intro a b A B hA hB hv
    simp only [attach] at hA hB
    by_cases ha : a = h.nabs <;> by_cases hb : b = h.nabs
    · rw [ha, hb]
    · subst ha
      rw [Function.update_self, Option.some.injEq] at hA
      rw [Function.update_of_ne hb] at hB
      obtain ⟨N, -, h2⟩ := hI.abs b B hB
      have := hI.vlt h2
      subst hA
      simp only at hv
      omega
    · subst hb
      rw [Function.update_self, Option.some.injEq] at hB
      rw [Function.update_of_ne ha] at hA
      obtain ⟨N, -, h2⟩ := hI.abs a A hA
      have := hI.vlt h2
      subst hB
      simp only at hv
      omega
    · rw [Function.update_of_ne ha] at hA
      rw [Function.update_of_ne hb] at hB
      exact hI.inj a b A B hA hB hv
  · intro v l hv
    simp only [attach, newVal] at hv
    by_cases hvn : v = h.nval
    · exact ⟨h.nabs, ⟨h.nval, m⟩, by simp [attach], hvn.symm⟩
    · rw [Function.update_of_ne hvn] at hv
      obtain ⟨a, A, hA, he⟩ := hI.vals v l hv
      refine ⟨a, A, ?_, he⟩
      simp only [attach]
      rw [Function.update_of_ne (by have := hI.alt hA; omega)]
      exact hA
  · exact hI.nodup
  · exact hI.log

/-- removal of an abstract value and of its value -/
def detach (h : Heap) (a v : ℕ) : Heap :=
  { h with abs := Function.update h.abs a none, vals := Function.update h.vals v none }

theorem inv_detach {h : Heap} {own : ℕ → ℕ} (hI : Inv h own) {a : ℕ} {A : Abs} (e : h.abs a = some A) :
    Inv (detach h a A.val) (Function.update own A.man (own A.man + 1)) := by
  have hr : ∀ n, refs (detach h a A.val) n + (if A.man = n then 1 else 0) = refs h n := by
    intro n
    have := refs_update (hI.alt e) none n
    rw [e] at this
    exact this
  obtain ⟨MA, hMA, hvA⟩ := hI.abs a A e
  constructor
  · exact hI.fman
  · intro b hb
    simp only [detach]
    by_cases hba : b = a
    · rw [hba, Function.update_self]
    · rw [Function.update_of_ne hba]; exact hI.fabs b hb
  · intro v hv
    simp only [detach]
    by_cases hva : v = A.val
    · rw [hva, Function.update_self]
    · rw [Function.update_of_ne hva]; exact hI.fval v hv
  · intro n N hN
    have hc := hI.cnt n N hN
    have := hr n
    by_cases hnm : n = A.man
    · subst hnm
      rw [Function.update_self]
      rw [if_pos rfl] at this
      exact ⟨by omega, hc.2⟩
    · rw [Function.update_of_ne hnm]
      rw [if_neg (Ne.symm hnm)] at this
      exact ⟨by omega, hc.2⟩
  · intro n hn
    have := hI.dead n hn
    by_cases hnm : n = A.man
    · subst hnm
      simp only [detach] at hn
      rw [hn] at hMA; cases hMA
    · rw [Function.update_of_ne hnm]; exact this
  · intro b B hB
    simp only [detach] at hB
    by_cases hba : b = a
    · rw [hba, Function.update_self] at hB; cases hB
    · rw [Function.update_of_ne hba] at hB
      obtain ⟨N, h1, h2⟩ := hI.abs b B hB
      refine ⟨N, h1, ?_⟩
      simp only [detach]
      rw [Function.update_of_ne fun hv => hba (hI.inj b a B A hB e hv)]
      exact h2
  · intro b c B C hB hC hv
    simp only [detach] at hB hC
    by_cases hba : b = a
    · rw [hba, Function.update_self] at hB; cases hB
    by_cases hca : c = a
    · rw [hca, Function.update_self] at hC; cases hC
    rw [Function.update_of_ne hba] at hB
    rw [Function.update_of_ne hca] at hC
    exact hI.inj b c B C hB hC hv
  · intro v l hv
    simp only [detach] at hv
    by_cases hva : v = A.val
    · rw [hva, Function.update_self] at hv; cases hv
    · rw [Function.update_of_ne hva] at hv
      obtain ⟨b, B, hB, he⟩ := hI.vals v l hv
      refine ⟨b, B, ?_, he⟩
      simp only [detach]
      rw [Function.update_of_ne]
      · exact hB
      · rintro rfl
        rw [e, Option.some.injEq] at hB
        exact hva (by rw [← he, hB])
  · exact hI.nodup
  · exact hI.log

/-- an abstract value gets a new value of the manager `m` -/
def rebind (h : Heap) (a v m lib : ℕ) : Heap :=
  { h with abs := Function.update h.abs a (some ⟨h.nval, m⟩),
           vals := Function.update (Function.update h.vals v none) h.nval (some lib), nval := h.nval + 1 }

theorem inv_rebind {h : Heap} {own : ℕ → ℕ} (hI : Inv h own) {a : ℕ} {A : Abs} (e : h.abs a = some A) {m : ℕ} {M : Man}
    (em : h.mans m = some M) (ho : 1 ≤ own m) :
    Inv (rebind h a A.val m M.lib) (Function.update (Function.update own A.man (own A.man + 1)) m
      (Function.update own A.man (own A.man + 1) m - 1)) := by
  have hr : ∀ n, refs (rebind h a A.val m M.lib) n + (if A.man = n then 1 else 0) = refs h n + (if m = n then 1 else 0) := by
    intro n
    have := refs_update (hI.alt e) (some ⟨h.nval, m⟩) n
    rw [e] at this
    exact this
  obtain ⟨MA, hMA, hvA⟩ := hI.abs a A e
  have hlt := hI.vlt hvA
  constructor
  · exact hI.fman
  · intro b hb
    simp only [rebind]
    rw [Function.update_of_ne (by have := hI.alt e; simp only [rebind] at hb; omega)]
    exact hI.fabs b hb
  · intro v hv
    simp only [rebind] at hv
    simp only [rebind]
    rw [Function.update_of_ne (by omega), Function.update_of_ne (by omega)]
    exact hI.fval v (by omega)
  · intro n N hN
    have hc := hI.cnt n N hN
    have := hr n
    by_cases h1 : n = m <;> by_cases h2 : n = A.man
    · subst h1; subst h2
      simp only [Function.update_self, if_true] at this ⊢
      exact ⟨by omega, hc.2⟩
    · subst h1
      rw [Function.update_self, Function.update_of_ne h2]
      rw [if_neg (Ne.symm h2), if_pos rfl] at this
      exact ⟨by omega, hc.2⟩
    · subst h2
      rw [Function.update_of_ne h1, Function.update_self]
      rw [if_pos rfl, if_neg (Ne.symm h1)] at this
      exact ⟨by omega, hc.2⟩
    · rw [Function.update_of_ne h1, Function.update_of_ne h2]
      rw [if_neg (Ne.symm h2), if_neg (Ne.symm h1)] at this
      exact ⟨by omega, hc.2⟩
  · intro n hn
    have := hI.dead n hn
    have h1 : n ≠ m := by rintro rfl; simp only [rebind] at hn; rw [hn] at em; cases em
    have h2 : n ≠ A.man := by rintro rfl; simp only [rebind] at hn; rw [hn] at hMA; cases hMA
    rw [Function.update_of_ne h1, Function.update_of_ne h2]; exact this
  · intro b B hB
    simp only [rebind] at hB
    by_cases hba : b = a
    · rw [hba, Function.update_self, Option.some.injEq] at hB
      subst hB
      exact ⟨M, em, by simp [rebind]⟩
    · rw [Function.update_of_ne hba] at hB
      obtain ⟨N, h1, h2⟩ := hI.abs b B hB
      refine ⟨N, h1, ?_⟩
      simp only [rebind]
      rw [Function.update_of_ne (by have := hI.vlt h2; omega), Function.update_of_ne fun hv => hba (hI.inj b a B A hB e hv)]
      exact h2
  · intro b c B C hB hC hv
    simp only [rebind] at hB hC
    by_cases hba : b = a <;> by_cases hca : c = a
    · rw [hba, hca]
    · rw [hba, Function.update_self, Option.some.injEq] at hB
      rw [Function.update_of_ne hca] at hC
      obtain ⟨N, -, h2⟩ := hI.abs c C hC
      have := hI.vlt h2
      subst hB; simp only at hv; omega
    · rw [hca, Function.update_self, Option.some.injEq] at hC
      rw [Function.update_of_ne hba] at hB
      obtain ⟨N, -, h2⟩ := hI.abs b B hB
      have := hI.vlt h2
      subst hC; simp only at hv; omega
    · rw [Function.update_of_ne hba] at hB
      rw [Function.update_of_ne hca] at hC
      exact hI.inj b c B C hB hC hv
  · intro v l hv
    simp only [rebind] at hv
    by_cases hvn : v = h.nval
    · exact ⟨a, ⟨h.nval, m⟩, by simp [rebind], hvn.symm⟩
    · rw [Function.update_of_ne hvn] at hv
      by_cases hva : v = A.val
      · rw [hva, Function.update_self] at hv; cases hv
      · rw [Function.update_of_ne hva] at hv
        obtain ⟨b, B, hB, he⟩ := hI.vals v l hv
        refine ⟨b, B, ?_, he⟩
        simp only [rebind]
        rw [Function.update_of_ne]
        · exact hB
        · rintro rfl
          rw [e, Option.some.injEq] at hB
          exact hva (by rw [← he, hB])
  · exact hI.nodup
  · exact hI.log

/-! ## The functions -/

theorem good_raise {h : Heap} {own : ℕ → ℕ} (hI : Inv h own) {m : ℕ} (ho : 1 ≤ own m) (funid : ℕ) :
    (h.raise m funid).Good fun h' => Inv h' own ∧ h'.abs = h.abs := by
  obtain ⟨M, e⟩ := hI.live ho
  unfold raise raiseExc
  rw [read_bind e, if_pos (by simp)]
  by_cases hb : M.abortIf .invalidArgument = true
  · rw [if_pos hb]; exact .inl rfl
  · rw [if_neg hb]
    refine .ok ⟨?_, rfl⟩
    have hc := hI.cnt m M e
    have := inv_setMan (M' := { M with result := { addException M.result .invalidArgument funid with exact := false, best := false } })
      hI e rfl hc.2.2 (k := own m) hc.1 hc.2.1
    rwa [Function.update_eq_self] at this

/-- the value of an abstract value can be used by the functions of the library of its manager -/
theorem Inv.use {h : Heap} {own : ℕ → ℕ} (hI : Inv h own) {a : ℕ} {A : Abs} (e : h.abs a = some A) {MA : Man}
    (em : h.mans A.man = some MA) : h.use MA.lib A.val = .ok () := by
  obtain ⟨M, h1, h2⟩ := hI.abs a A e
  rw [em, Option.some.injEq] at h1
  subst h1
  unfold Heap.use
  rw [read_bind h2, if_pos rfl]

theorem good_dimension {h : Heap} {own : ℕ → ℕ} (hI : Inv h own) {a : ℕ} {A : Abs} (e : h.abs a = some A) :
    h.dimension a = .ok () := by
  obtain ⟨M, h1, h2⟩ := hI.abs a A e
  unfold dimension
  rw [read_bind e, read_bind h1]
  exact hI.use e h1

theorem good_checkman1 {h : Heap} {own : ℕ → ℕ} (hI : Inv h own) {m a : ℕ} {A : Abs} (ho : 1 ≤ own m)
    (e : h.abs a = some A) (funid : ℕ) :
    (h.checkman1 m a funid).Good fun r => Inv r.2 own ∧ r.2.abs = h.abs ∧
      (r.1 = true → ∀ M MA, r.2.mans m = some M → r.2.mans A.man = some MA → M.lib = MA.lib) := by
  obtain ⟨M, em⟩ := hI.live ho
  obtain ⟨MA, eA, _⟩ := hI.abs a A e
  unfold checkman1
  rw [read_bind em, read_bind e, read_bind eA]
  by_cases hl : M.lib ≠ MA.lib
  · rw [if_pos hl]
    exact (good_raise hI ho funid).bind fun h' hh => .ok ⟨hh.1, hh.2, by simp⟩
  · rw [if_neg hl]
    refine .ok ⟨hI, rfl, fun _ N NA h1 h2 => ?_⟩
    simp only at h1 h2
    rw [em, Option.some.injEq] at h1
    rw [eA, Option.some.injEq] at h2
    rw [← h1, ← h2]
    exact not_not.1 hl

theorem good_checkman2 {h : Heap} {own : ℕ → ℕ} (hI : Inv h own) {m a1 a2 : ℕ} {A1 A2 : Abs} (ho : 1 ≤ own m)
    (e1 : h.abs a1 = some A1) (e2 : h.abs a2 = some A2) (funid : ℕ) :
    (h.checkman2 m a1 a2 funid).Good fun r => Inv r.2 own ∧ r.2.abs = h.abs ∧
      (r.1 = true → ∃ M M1 M2, r.2.mans m = some M ∧ r.2.mans A1.man = some M1 ∧ r.2.mans A2.man = some M2 ∧
        M.lib = M1.lib ∧ M.lib = M2.lib) := by
  obtain ⟨M, em⟩ := hI.live ho
  obtain ⟨M1, f1, _⟩ := hI.abs a1 A1 e1
  obtain ⟨M2, f2, _⟩ := hI.abs a2 A2 e2
  unfold checkman2
  rw [read_bind em, read_bind e1, read_bind f1]
  by_cases hl : M.lib ≠ M1.lib
  · rw [if_pos hl]
    exact (good_raise hI ho funid).bind fun h' hh => .ok ⟨hh.1, hh.2, by simp⟩
  · rw [if_neg hl, read_bind e2, read_bind f2]
    by_cases hl2 : M.lib ≠ M2.lib
    · rw [if_pos hl2]
      exact (good_raise hI ho funid).bind fun h' hh => .ok ⟨hh.1, hh.2, by simp⟩
    · rw [if_neg hl2]
      exact .ok ⟨hI, rfl, fun _ => ⟨M, M1, M2, em, f1, f2, not_not.1 hl, not_not.1 hl2⟩⟩

theorem good_checkAbstract2 {h : Heap} {own : ℕ → ℕ} (hI : Inv h own) {m a1 a2 : ℕ} {A1 A2 : Abs} (ho : 1 ≤ own m)
    (e1 : h.abs a1 = some A1) (e2 : h.abs a2 = some A2) (funid : ℕ) (same : Bool) :
    (h.checkAbstract2 m a1 a2 funid same).Good fun r => Inv r.2 own ∧ r.2.abs = h.abs ∧ (r.1 = true → r.2 = h) := by
  unfold checkAbstract2
  rw [good_dimension hI e1, good_dimension hI e2]
  simp only [Res.bind]
  cases same
  · exact (good_raise hI ho funid).bind fun h' hh => .ok ⟨hh.1, hh.2, by simp⟩
  · exact .ok ⟨hI, rfl, fun _ => rfl⟩

theorem update_sub_add (own : ℕ → ℕ) (m : ℕ) :
    Function.update (Function.update own m (own m + 1)) m (Function.update own m (own m + 1) m - 1) = own := by
  rw [Function.update_self, Function.update_idem, Nat.add_sub_cancel, Function.update_eq_self]

/-- a new value wrapped for the manager -/
theorem good_newCons {h : Heap} {own : ℕ → ℕ} (hI : Inv h own) {m : ℕ} {M : Man} (e : h.mans m = some M) :
    ((h.newVal M.lib).cons m h.nval).Good fun h' => Inv h' own := by
  obtain ⟨h1, e1, hI1, hh⟩ := good_copyMan hI e
  have em : h1.mans m = some { M with count := M.count + 1 } := by rw [hh]; simp [setMan]
  have := inv_attach hI1 em (by rw [Function.update_self]; omega)
  rw [update_sub_add] at this
  have e2 : (h.newVal M.lib).copyMan m = .ok (h1.newVal M.lib) := by
    unfold copyMan
    rw [read_bind (o := (h.newVal M.lib).mans m) (x := M) e, hh]
    rfl
  unfold cons
  rw [e2]
  refine .ok ?_
  have e3 : h1.nval = h.nval := by rw [hh]; rfl
  rw [← e3]
  exact this

theorem good_top {h : Heap} {own : ℕ → ℕ} (hI : Inv h own) {m : ℕ} (ho : 1 ≤ own m) :
    (h.top m).Good fun h' => Inv h' own := by
  obtain ⟨M, e⟩ := hI.live ho
  unfold Heap.top
  rw [read_bind e]
  exact good_newCons hI e

theorem good_absCopy {h : Heap} {own : ℕ → ℕ} (hI : Inv h own) {m a : ℕ} (ho : 1 ≤ own m) (ha : (h.abs a).isSome = true) :
    (h.absCopy m a).Good fun h' => Inv h' own := by
  obtain ⟨A, e⟩ := Option.isSome_iff_exists.1 ha
  unfold absCopy
  refine (good_checkman1 hI ho e 1).bind ?_
  rintro ⟨b, h1⟩ ⟨hI1, hab, hlib⟩
  simp only at hI1 hab hlib ⊢
  have e1 : h1.abs a = some A := by rw [hab]; exact e
  cases b
  · simp only [Bool.false_eq_true, if_false]
    rw [good_dimension hI1 e1]
    exact good_top hI1 ho
  · obtain ⟨M, em⟩ := hI1.live ho
    obtain ⟨MA, eA, _⟩ := hI1.abs a A e1
    simp only [if_true]
    rw [read_bind em, read_bind e1, hlib rfl M MA em eA, hI1.use e1 eA, ← hlib rfl M MA em eA]
    exact good_newCons hI1 em

/-- the end of the functions that free an abstract value -/
theorem good_drop {h : Heap} {own : ℕ → ℕ} (hI : Inv h own) {a : ℕ} {A : Abs} (e : h.abs a = some A) {MA : Man}
    (eA : h.mans A.man = some MA) :
    ((h.freeVal MA.lib A.val).bind fun h => (h.freeMan A.man).bind fun h =>
      .ok { h with abs := Function.update h.abs a none }).Good fun h' => Inv h' own := by
  have hd := inv_detach hI e
  obtain ⟨h', e', hI', -⟩ := good_freeMan hd (m := A.man) (by rw [Function.update_self]; omega)
  rw [update_sub_add] at hI'
  unfold freeVal
  rw [hI.use e eA]
  simp only [Res.bind]
  unfold freeMan at e' ⊢
  simp only at e' ⊢
  rw [show (detach h a A.val).mans A.man = some MA from eA] at e'
  rw [eA]
  simp only [Heap.read, Res.bind] at e' ⊢
  by_cases h1 : MA.count < 1
  · rw [if_pos h1] at e'; cases e'
  · rw [if_neg h1] at e' ⊢
    by_cases h2 : 1 < MA.count
    · rw [if_pos h2] at e' ⊢
      rw [Res.ok.injEq] at e'
      subst e'
      exact .ok hI'
    · rw [if_neg h2] at e' ⊢
      rw [Res.ok.injEq] at e'
      subst e'
      exact .ok hI'

theorem good_absFree {h : Heap} {own : ℕ → ℕ} (hI : Inv h own) {m a : ℕ} (ho : 1 ≤ own m) (ha : (h.abs a).isSome = true) :
    (h.absFree m a).Good fun h' => Inv h' own := by
  obtain ⟨A, e⟩ := Option.isSome_iff_exists.1 ha
  unfold absFree
  refine (good_checkman1 hI ho e 2).bind ?_
  rintro ⟨b, h1⟩ ⟨hI1, hab, hlib⟩
  simp only at hI1 hab hlib ⊢
  have e1 : h1.abs a = some A := by rw [hab]; exact e
  obtain ⟨M, em⟩ := hI1.live ho
  obtain ⟨MA, eA, _⟩ := hI1.abs a A e1
  rw [read_bind e1]
  cases b
  · simp only [Bool.false_eq_true, if_false]
    rw [read_bind eA]
    exact good_drop hI1 e1 eA
  · simp only [if_true]
    rw [read_bind em, hlib rfl M MA em eA]
    exact good_drop hI1 e1 eA

theorem good_absFree0 {h : Heap} {own : ℕ → ℕ} (hI : Inv h own) {a : ℕ} {A : Abs} (e : h.abs a = some A) :
    (h.absFree0 a).Good fun h' => Inv h' own := by
  obtain ⟨MA, eA, _⟩ := hI.abs a A e
  unfold absFree0
  rw [read_bind e, read_bind eA]
  exact good_drop hI e eA

theorem good_test2 {h : Heap} {own : ℕ → ℕ} (hI : Inv h own) {m a1 a2 : ℕ} (ho : 1 ≤ own m) (ha1 : (h.abs a1).isSome = true)
    (ha2 : (h.abs a2).isSome = true) (same : Bool) : (h.test2 m a1 a2 same).Good fun h' => Inv h' own := by
  obtain ⟨A1, e1⟩ := Option.isSome_iff_exists.1 ha1
  obtain ⟨A2, e2⟩ := Option.isSome_iff_exists.1 ha2
  unfold test2
  by_cases h12 : a1 = a2
  · rw [if_pos h12]; exact .ok hI
  rw [if_neg h12]
  refine (good_checkman2 hI ho e1 e2 19).bind ?_
  rintro ⟨b, h1⟩ ⟨hI1, hab, hlib⟩
  simp only at hI1 hab hlib ⊢
  rw [← hab] at e1 e2
  cases b
  · exact .ok hI1
  simp only [if_true]
  refine (good_checkAbstract2 hI1 ho e1 e2 19 same).bind ?_
  rintro ⟨b, h2⟩ ⟨hI2, hab2, hh⟩
  simp only at hI2 hab2 hh ⊢
  cases b
  · exact .ok hI2
  obtain rfl := hh rfl
  obtain ⟨M, M1, M2, em, f1, f2, l1, l2⟩ := hlib rfl
  simp only [if_true]
  rw [read_bind em, read_bind e1, read_bind e2]
  have u1 := hI1.use e1 f1
  have u2 := hI1.use e2 f2
  rw [← l1] at u1
  rw [← l2] at u2
  rw [u1]
  simp only [Res.bind]
  rw [u2]
  exact .ok hI1

/-- the end of a destructive operation -/
theorem good_cons2 {h : Heap} {own : ℕ → ℕ} (hI : Inv h own) {m a : ℕ} {A : Abs} {M : Man} (ho : 1 ≤ own m)
    (e : h.abs a = some A) (em : h.mans m = some M) :
    ((({ h with vals := Function.update h.vals A.val none } : Heap).newVal M.lib).cons2 m true a h.nval).Good
      fun h' => Inv h' own := by
  have hb := inv_rebind hI e em ho
  unfold cons2
  simp only [if_true]
  rw [read_bind (o := (({ h with vals := Function.update h.vals A.val none } : Heap).newVal M.lib).abs a) (x := A) e]
  by_cases hm : A.man ≠ m
  · rw [if_pos hm]
    -- take a reference, change the value, give one back
    obtain ⟨h1, e1, hI1, hh⟩ := good_copyMan hI em
    have em1 : h1.mans m = some { M with count := M.count + 1 } := by rw [hh]; simp [setMan]
    have ea1 : h1.abs a = some A := by rw [hh]; exact e
    have hb1 := inv_rebind hI1 ea1 em1 (by rw [Function.update_self]; omega)
    obtain ⟨h', e', hI', -⟩ := good_freeMan hb1 (m := A.man) (by
      rw [Function.update_of_ne hm, Function.update_self]; omega)
    have hown : Function.update (Function.update (Function.update (Function.update own m (own m + 1)) A.man
        (Function.update own m (own m + 1) A.man + 1)) m (Function.update (Function.update own m (own m + 1)) A.man
        (Function.update own m (own m + 1) A.man + 1) m - 1)) A.man
        (Function.update (Function.update (Function.update own m (own m + 1)) A.man
        (Function.update own m (own m + 1) A.man + 1)) m (Function.update (Function.update own m (own m + 1)) A.man
        (Function.update own m (own m + 1) A.man + 1) m - 1) A.man - 1) = own := by
      funext n
      by_cases h1 : n = A.man
      · subst h1
        rw [Function.update_self, Function.update_of_ne hm, Function.update_self, Function.update_of_ne hm]
        omega
      · rw [Function.update_of_ne h1]
        by_cases h2 : n = m
        · subst h2
          rw [Function.update_self, Function.update_of_ne (Ne.symm hm), Function.update_self]
          omega
        · rw [Function.update_of_ne h2, Function.update_of_ne h1, Function.update_of_ne h2]
    rw [hown] at hI'
    obtain ⟨MA, eA, -⟩ := hI.abs a A e
    subst hh
    simp only [freeMan, copyMan, rebind, setMan, newVal] at e' ⊢
    rw [Function.update_of_ne hm, eA] at e'
    rw [eA]
    simp only [Heap.read, Res.bind] at e' ⊢
    by_cases g1 : MA.count < 1
    · rw [if_pos g1] at e'; cases e'
    · rw [if_neg g1] at e' ⊢
      by_cases g2 : 1 < MA.count
      · rw [if_pos g2] at e' ⊢
        rw [Res.ok.injEq] at e'
        simp only
        rw [Function.update_of_ne (Ne.symm hm), em]
        refine .ok ?_
        convert hI' using 1
        rw [← e']
        simp only
        rw [Function.update_comm hm]
      · rw [if_neg g2] at e' ⊢
        rw [Res.ok.injEq] at e'
        simp only
        rw [Function.update_of_ne (Ne.symm hm), em]
        refine .ok ?_
        convert hI' using 1
        rw [← e']
        simp only
        rw [Function.update_comm hm]
  · rw [if_neg hm]
    rw [not_not] at hm
    refine .ok ?_
    subst hm
    rw [update_sub_add] at hb
    exact hb

theorem good_meetjoin {h : Heap} {own : ℕ → ℕ} (hI : Inv h own) {m a1 a2 : ℕ} (ho : 1 ≤ own m)
    (ha1 : (h.abs a1).isSome = true) (ha2 : (h.abs a2).isSome = true) (d same : Bool) :
    (h.meetjoin m d a1 a2 same).Good fun h' => Inv h' own := by
  obtain ⟨A1, e1⟩ := Option.isSome_iff_exists.1 ha1
  obtain ⟨A2, e2⟩ := Option.isSome_iff_exists.1 ha2
  unfold meetjoin
  refine (good_checkman2 hI ho e1 e2 32).bind ?_
  rintro ⟨b, h1⟩ ⟨hI1, hab, hlib⟩
  simp only at hI1 hab hlib ⊢
  rw [← hab] at e1 e2
  have key : (if b then h1.checkAbstract2 m a1 a2 32 same else .ok (false, h1)).Good fun r =>
      Inv r.2 own ∧ r.2.abs = h1.abs ∧ (r.1 = true → b = true ∧ r.2 = h1) := by
    cases b
    · exact .ok ⟨hI1, rfl, by simp⟩
    · simp only [if_true, true_and]
      exact good_checkAbstract2 hI1 ho e1 e2 32 same
  refine key.bind ?_
  rintro ⟨c, h2⟩ ⟨hI2, hab2, hh⟩
  simp only at hI2 hab2 hh ⊢
  cases c
  · simp only [Bool.false_eq_true, if_false]
    have e1' : h2.abs a1 = some A1 := by rw [hab2]; exact e1
    rw [good_dimension hI2 e1']
    simp only [Res.bind]
    have k2 : (if d then h2.absFree0 a1 else .ok h2).Good fun h' => Inv h' own := by
      cases d
      · exact .ok hI2
      · exact good_absFree0 hI2 e1'
    exact k2.bind fun h' hI' => good_top hI' ho
  · obtain ⟨hb, rfl⟩ := hh rfl
    obtain ⟨M, M1, M2, em, f1, f2, l1, l2⟩ := hlib hb
    simp only [if_true]
    rw [read_bind em, read_bind e1, read_bind e2]
    have u1 := hI1.use e1 f1
    have u2 := hI1.use e2 f2
    rw [← l1] at u1
    rw [← l2] at u2
    rw [u1]
    simp only [Res.bind]
    rw [u2]
    cases d
    · exact good_newCons hI1 em
    · simp only [if_true, freeVal, u1, Res.bind]
      exact good_cons2 hI1 ho e1 em

theorem good_step {h : Heap} {own : ℕ → ℕ} (hI : Inv h own) {op : Op} (hl : Legal h own op) :
    (step h op).Good fun h' => Inv h' (own' h own op) := by
  cases op with
  | alloc lib => exact .ok (inv_allocMan hI lib)
  | copyMan m =>
    obtain ⟨M, e⟩ := hI.live hl
    obtain ⟨h', e', hI', -⟩ := good_copyMan hI e
    exact .inr ⟨h', e', hI'⟩
  | freeMan m =>
    obtain ⟨h', e', hI', -⟩ := good_freeMan hI hl
    exact .inr ⟨h', e', hI'⟩
  | setAbort m x b =>
    obtain ⟨M, e⟩ := hI.live hl
    have hc := hI.cnt m M e
    simp only [step]
    rw [read_bind e]
    refine .ok ?_
    have := inv_setMan (M' := setAbort M x b) hI e rfl hc.2.2 (k := own m) hc.1 hc.2.1
    rwa [Function.update_eq_self] at this
  | clearExclog m =>
    obtain ⟨M, e⟩ := hI.live hl
    have hc := hI.cnt m M e
    simp only [step]
    rw [read_bind e]
    refine .ok ?_
    have := inv_setMan (M' := clearExclog M) hI e rfl hc.2.2 (k := own m) hc.1 hc.2.1
    rwa [Function.update_eq_self] at this
  | top m => exact good_top hI hl
  | copy m a => exact good_absCopy hI hl.1 hl.2
  | free m a => exact good_absFree hI hl.1 hl.2
  | test2 m a1 a2 same => exact good_test2 hI hl.1 hl.2.1 hl.2.2 same
  | meetjoin m d a1 a2 same => exact good_meetjoin hI hl.1 hl.2.1 hl.2.2 d same

theorem Reach.inv {h : Heap} {own : ℕ → ℕ} (hr : Reach h own) : Inv h own := by
  induction hr with
  | init => exact inv_init
  | step _ hl hs ih =>
    rcases good_step ih hl with h | ⟨h', e, hI⟩
    · rw [hs] at h; cases h
    · rw [hs, Res.ok.injEq] at e
      subst e
      exact hI

/-! ## The field `exn` -/

/-- the result, if there is one, satisfies `P` -/
def Res.Ok {α : Type*} (r : Res α) (P : α → Prop) : Prop := ∀ x, r = .ok x → P x

theorem Res.Ok.bind {α β : Type*} {r : Res α} {P : α → Prop} {f : α → Res β} {Q : β → Prop} (h : r.Ok P)
    (hf : ∀ x, P x → (f x).Ok Q) : (r.bind f).Ok Q := by
  intro y hy
  cases r with
  | ok x => exact hf x (h x rfl) y hy
  | abort => cases hy
  | fail => cases hy

theorem Res.Ok.any {α β : Type*} {r : Res α} {f : α → Res β} {Q : β → Prop} (hf : ∀ x, (f x).Ok Q) : (r.bind f).Ok Q :=
  Res.Ok.bind (P := fun _ => True) (fun _ _ => trivial) fun x _ => hf x

theorem Res.Ok.mk {α : Type*} {P : α → Prop} {x : α} (h : P x) : (Res.ok x).Ok P := by
  intro y hy
  rw [Res.ok.injEq] at hy
  exact hy ▸ h

theorem Res.Ok.read {α β : Type*} {o : Option α} {f : α → Res β} {Q : β → Prop} (hf : ∀ x, o = some x → (f x).Ok Q) :
    ((Heap.read o).bind f).Ok Q := by
  cases o with
  | none => intro y hy; cases hy
  | some x => exact hf x rfl

theorem Res.Ok.fail {α : Type*} {P : α → Prop} : (Res.fail : Res α).Ok P := fun _ h => by cases h
theorem Res.Ok.abort {α : Type*} {P : α → Prop} : (Res.abort : Res α).Ok P := fun _ h => by cases h

/-- the field `exn` of no manager is reset -/
def Keep (h h' : Heap) : Prop :=
  h.nman ≤ h'.nman ∧ ∀ m M', m < h.nman → h'.mans m = some M' →
    ∃ M, h.mans m = some M ∧ (M.result.exn ≠ .none → M'.result.exn ≠ .none)

theorem Keep.refl (h : Heap) : Keep h h := ⟨le_refl _, fun _ M' _ e => ⟨M', e, id⟩⟩

theorem Keep.trans {h1 h2 h3 : Heap} (a : Keep h1 h2) (b : Keep h2 h3) : Keep h1 h3 := by
  refine ⟨a.1.trans b.1, fun m M' hm e => ?_⟩
  obtain ⟨M2, e2, k2⟩ := b.2 m M' (by have := a.1; omega) e
  obtain ⟨M1, e1, k1⟩ := a.2 m M2 hm e2
  exact ⟨M1, e1, fun h => k2 (k1 h)⟩

/-- other parts of the heap change -/
theorem Keep.same {h h' : Heap} (h1 : h'.mans = h.mans) (h2 : h'.nman = h.nman) : Keep h h' :=
  ⟨by rw [h2], fun m M' _ e => ⟨M', by rw [← h1]; exact e, id⟩⟩

theorem keep_setMan {h : Heap} {m : ℕ} {M M' : Man} (e : h.mans m = some M)
    (hk : M.result.exn ≠ .none → M'.result.exn ≠ .none) : Keep h (h.setMan m (some M')) := by
  refine ⟨le_refl _, fun n N _ hN => ?_⟩
  by_cases hnm : n = m
  · subst hnm
    simp only [setMan, Function.update_self, Option.some.injEq] at hN
    exact ⟨M, e, by rw [← hN]; exact hk⟩
  · simp only [setMan, Function.update_of_ne hnm] at hN
    exact ⟨N, hN, id⟩

theorem keep_copyMan (h : Heap) (m : ℕ) : (h.copyMan m).Ok (Keep h) :=
  .read fun _ e => .mk (keep_setMan e id)

theorem keep_freeMan (h : Heap) (m : ℕ) : (h.freeMan m).Ok (Keep h) := by
  refine .read fun M e => ?_
  split_ifs
  · exact .fail
  · exact .mk (keep_setMan e id)
  all_goals
    refine .mk ⟨le_refl _, fun n N _ hN => ?_⟩
    by_cases hnm : n = m
    · subst hnm; simp [setMan] at hN
    · simp only [setMan, Function.update_of_ne hnm] at hN
      exact ⟨N, hN, id⟩

theorem keep_raise (h : Heap) (m funid : ℕ) : (h.raise m funid).Ok (Keep h) := by
  refine .read fun M e => ?_
  unfold raiseExc
  rw [if_pos (by simp)]
  split_ifs
  · exact .abort
  · exact .mk (keep_setMan e fun _ => by simp [addException])

theorem keep_cons (h : Heap) (m v : ℕ) : (h.cons m v).Ok (Keep h) :=
  (keep_copyMan h m).bind fun _ k => .mk (k.trans (.same rfl rfl))

theorem keep_freeVal (h : Heap) (l v : ℕ) : (h.freeVal l v).Ok (Keep h) := .any fun _ => .mk (.same rfl rfl)

theorem keep_newVal (h : Heap) (l : ℕ) : Keep h (h.newVal l) := .same rfl rfl

theorem keep_absFree0 (h : Heap) (a : ℕ) : (h.absFree0 a).Ok (Keep h) :=
  .any fun _ => .any fun _ => (keep_freeVal _ _ _).bind fun h1 k1 => (keep_freeMan h1 _).bind fun _ k2 =>
    .mk ((k1.trans k2).trans (.same rfl rfl))

theorem keep_cons2 (h : Heap) (m : ℕ) (d : Bool) (a v : ℕ) : (h.cons2 m d a v).Ok (Keep h) := by
  unfold cons2
  split_ifs
  · refine .any fun A => ?_
    split_ifs
    · exact (keep_freeMan h _).bind fun h1 k1 => (keep_copyMan h1 _).bind fun _ k2 => .mk ((k1.trans k2).trans (.same rfl rfl))
    · exact .mk (.same rfl rfl)
  · exact keep_cons h m v

theorem keep_checkman1 (h : Heap) (m a funid : ℕ) : (h.checkman1 m a funid).Ok fun r => Keep h r.2 := by
  refine .any fun _ => .any fun _ => .any fun _ => ?_
  split_ifs
  · exact (keep_raise h m funid).bind fun _ k => .mk k
  · exact .mk (.refl h)

theorem keep_checkman2 (h : Heap) (m a1 a2 funid : ℕ) : (h.checkman2 m a1 a2 funid).Ok fun r => Keep h r.2 := by
  refine .any fun _ => .any fun _ => .any fun _ => ?_
  split_ifs
  · exact (keep_raise h m funid).bind fun _ k => .mk k
  · refine .any fun _ => .any fun _ => ?_
    split_ifs
    · exact (keep_raise h m funid).bind fun _ k => .mk k
    · exact .mk (.refl h)

theorem keep_checkAbstract2 (h : Heap) (m a1 a2 funid : ℕ) (same : Bool) :
    (h.checkAbstract2 m a1 a2 funid same).Ok fun r => Keep h r.2 := by
  refine .any fun _ => .any fun _ => ?_
  split_ifs
  · exact .mk (.refl h)
  · exact (keep_raise h m funid).bind fun _ k => .mk k

theorem Res.Ok.after {h h1 : Heap} {r : Res Heap} (k : r.Ok (Keep h1)) (k0 : Keep h h1) : r.Ok (Keep h) :=
  fun x hx => k0.trans (k x hx)

theorem keep_top (h : Heap) (m : ℕ) : (h.top m).Ok (Keep h) :=
  .any fun _ => (keep_cons _ _ _).after (keep_newVal h _)

theorem keep_step {h h' : Heap} {op : Op} (hs : step h op = .ok h') : Keep h h' := by
  suffices (step h op).Ok (Keep h) from this h' hs
  cases op with
  | alloc lib =>
    refine .mk ⟨by simp [allocMan, setMan], fun n N hn hN => ?_⟩
    simp only [allocMan, setMan] at hN
    rw [Function.update_of_ne (by omega)] at hN
    exact ⟨N, hN, id⟩
  | copyMan m => exact keep_copyMan h m
  | freeMan m => exact keep_freeMan h m
  | setAbort m x b => exact .read fun M e => .mk (keep_setMan e id)
  | clearExclog m => exact .read fun M e => .mk (keep_setMan e id)
  | top m => exact keep_top h m
  | copy m a =>
    refine (keep_checkman1 h m a 1).bind ?_
    rintro ⟨b, h1⟩ k
    simp only at k ⊢
    split_ifs
    · exact .any fun _ => .any fun _ => .any fun _ => (keep_cons _ _ _).after (k.trans (keep_newVal _ _))
    · exact .any fun _ => (keep_top h1 m).after k
  | free m a =>
    refine (keep_checkman1 h m a 2).bind ?_
    rintro ⟨b, h1⟩ k
    exact .any fun _ => .any fun _ => (keep_freeVal _ _ _).bind fun h2 k2 => (keep_freeMan h2 _).bind fun _ k3 =>
      .mk (((k.trans k2).trans k3).trans (.same rfl rfl))
  | test2 m a1 a2 same =>
    simp only [step, test2]
    split_ifs
    · exact .mk (.refl h)
    refine (keep_checkman2 h m a1 a2 19).bind ?_
    rintro ⟨b, h1⟩ k
    simp only at k ⊢
    split_ifs
    · refine (keep_checkAbstract2 h1 m a1 a2 19 same).bind ?_
      rintro ⟨c, h2⟩ k2
      simp only at k2 ⊢
      split_ifs
      · exact .any fun _ => .any fun _ => .any fun _ => .any fun _ => .any fun _ => .mk (k.trans k2)
      · exact .mk (k.trans k2)
    · exact .mk k
  | meetjoin m d a1 a2 same =>
    refine (keep_checkman2 h m a1 a2 32).bind ?_
    rintro ⟨b, h1⟩ k
    simp only at k ⊢
    have k1 : (if b then h1.checkAbstract2 m a1 a2 32 same else .ok (false, h1)).Ok fun r => Keep h1 r.2 := by
      split_ifs
      · exact keep_checkAbstract2 h1 m a1 a2 32 same
      · exact .mk (.refl h1)
    refine k1.bind ?_
    rintro ⟨c, h2⟩ k2
    simp only at k2 ⊢
    by_cases hc : c = true
    · rw [if_pos hc]
      refine .any fun M => .any fun A => .any fun _ => .any fun _ => .any fun _ => ?_
      have k3 : (if d then h2.freeVal M.lib A.val else .ok h2).Ok (Keep h2) := by
        cases d
        · exact .mk (.refl _)
        · exact keep_freeVal _ _ _
      exact k3.bind fun h3 k3 => (keep_cons2 _ _ _ _ _).after (((k.trans k2).trans k3).trans (keep_newVal _ _))
    · rw [if_neg hc]
      refine .any fun _ => ?_
      have k3 : (if d then h2.absFree0 a1 else .ok h2).Ok (Keep h2) := by
        cases d
        · exact .mk (.refl _)
        · exact keep_absFree0 _ _
      exact k3.bind fun h3 k3 => (keep_top _ _).after ((k.trans k2).trans k3)

end Apron.Manager
