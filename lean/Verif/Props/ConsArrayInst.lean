import Verif.Props.ConsArray

/-!
# C153: instances and defects
-/

set_option autoImplicit false
set_option linter.unusedSectionVars false
set_option linter.ambiguousOpen false

namespace Apron.Props

open Apron.ConsArr

/-- Blocks 0, 1, 2 are allocated; environment 0 has two references. -/
def caMem : Mem := ⟨fun q => q < 3, 3, fun x => if x = 0 then 2 else 0⟩

/-- An array with two constraints, the second with a scalar. -/
def caArr : Arr := ⟨some [some ⟨some 0, none⟩, some ⟨some 1, some 2⟩], 2⟩

theorem caArr_owned : Owned caMem caArr := by
  apply owned_of_count
  · refine ⟨by simp [caArr], ?_⟩
    intro l h
    simp [caArr] at h
    subst h
    simp [caArr]
  · intro q
    have hr : caArr.refs = [0, 1, 2] := by decide +kernel
    rw [hr]
    by_cases h : q < 3
    · have : q = 0 ∨ q = 1 ∨ q = 2 := by omega
      rcases this with rfl | rfl | rfl <;> decide +kernel
    · rw [List.count_eq_zero_of_not_mem]
      · omega
      · simp; omega

/-- `C153_clear`, `C153_resize`: the hypothesis holds. -/
example := C153_clear false caMem caArr caArr_owned
example := C153_resize caMem caArr 1 caArr_owned
/-- Making the array smaller frees the second constraint and its scalar. -/
example : (resize caMem caArr 1).map (fun r => (r.2, r.1.live 0, r.1.live 1, r.1.live 2)) =
    some (⟨some [some ⟨some 0, none⟩], 1⟩, true, false, false) := by decide +kernel

/-- `C153_set`: a constraint that the client owns (block 3) replaces the second one. -/
example : (set1 (fun x y => x == y)
      { caMem with live := fun q => q < 4, next := 4 } ⟨caArr, 0⟩ 1 ⟨⟨some 3, none⟩, 0⟩).map
    (fun r => (r.1, r.2.2, r.2.1.live 1, r.2.1.live 2, r.2.1.live 3, r.2.1.env 0)) =
    some (false, ⟨⟨some [some ⟨some 0, none⟩, some ⟨some 3, none⟩], 2⟩, 0⟩,
      false, false, true, 1) := by decide +kernel

/-- `C153_client_no_leak`: a client with two environments. -/
example := C153_client_no_leak false (fun x y => x == y) (fun _ _ => true)
  ⟨fun _ => false, 0, fun x => if x < 2 then 1 else 0⟩ 0 2
  [.new 0 true, .set 1 0, .new 0 false, .set 7 0, .extend 1, .resize 5, .new 1 false, .set 1 0,
    .clearIndex 0, .drop 0] (by simp) (by simp)
  (by intro o ho; simp at ho; rcases ho with h | h | h | h | h | h | h | h | h | h <;> subst h <;>
      simp [Op.ok])
example : ((make1 ⟨fun _ => false, 0, fun x => if x < 2 then 1 else 0⟩ 0 2).bind fun r =>
    (run (fun x y => x == y) (fun _ _ => true) ⟨r.1, r.2, []⟩
      [.new 0 true, .set 1 0, .new 0 false, .set 7 0, .extend 1, .resize 3]).map fun s =>
      (s.a.a.p, s.own, s.m.env 0, s.m.env 1)) =
    some (some [some ⟨none, none⟩, some ⟨some 0, some 1⟩, some ⟨none, none⟩],
      [⟨⟨some 2, none⟩, 0⟩], 2, 2) := by decide +kernel

/-! ## Defects -/

/-- After `ap_lincons0_array_clear` (or `ap_tcons0_array_clear`) of an array that is not empty the
size is still there although the pointer is null, whatever the array: making it smaller, as well
as every function that loops over its size, then reads through the null pointer. -/
theorem C153_cleared_array_keeps_size (m : Mem) (a : Arr) (h : Owned m a) (hs : 1 ≤ a.size) :
    ∃ m' a', clear false m a = some (m', a') ∧ a'.p = none ∧ a'.size = a.size ∧
      resize m' a' 0 = none ∧ entriesFrom a' 0 = none := by
  obtain ⟨m', e, -, -, -⟩ := clear_ok (gen := false) h.1 (owned_count h)
  have he : entriesFrom ⟨none, a.size⟩ 0 = none := by
    unfold entriesFrom; rw [if_neg (by simp; omega)]
  refine ⟨m', _, e, rfl, rfl, ?_, he⟩
  show resize m' ⟨none, a.size⟩ 0 = none
  unfold resize; rw [he]; rfl

/-- Making it larger instead leaves entries that were never initialised, and the next `clear` is
undefined. -/
theorem C153_cleared_array_resize_garbage :
    ∃ m1 a1 m2 a2, clear false caMem caArr = some (m1, a1) ∧ resize m1 a1 3 = some (m2, a2) ∧
      clear false m2 a2 = none := by
  obtain ⟨m1, e, -⟩ := clear_ok (gen := false) caArr_owned.1 (owned_count caArr_owned)
  refine ⟨m1, ⟨none, 2⟩, m1, ⟨some [none, none, some ⟨none, none⟩], 3⟩, e, ?_, ?_⟩
  · rfl
  · rfl

/-- A cleared array of generators is an empty array: the same calls are defined. -/
theorem C153_cleared_generators_empty (m : Mem) (a : Arr) (h : Owned m a) :
    ∃ m' a', clear true m a = some (m', a') ∧ a'.size = 0 ∧ Owned m' a' := by
  obtain ⟨m', e, -⟩ := clear_ok (gen := true) h.1 (owned_count h)
  refine ⟨m', _, e, rfl, ?_⟩
  apply owned_of_count
  · exact ⟨fun _ => rfl, by intro l hl; simp at hl⟩
  · intro q; simp [Arr.refs, ConsArr.refs]

/-- Storing an entry of the array back where it is (`ap_lincons1_array_set(array, i,
&ap_lincons1_array_get(array, i))`) frees it and leaves the pointers to the freed blocks in the
array, so that the next `clear` frees them a second time: for every entry with an expression. -/
theorem C153_set_get_dangling (gen : Bool) (eq : ℕ → ℕ → Bool) (m : Mem) (a : Arr1) (i p : ℕ)
    (c : Cons) (h : Owned m a.a) (hi : i < a.a.size) (heq : eq a.env a.env = true)
    (henv : 1 ≤ m.env a.env) (hr : ConsArr.read a.a i = some c) (hp : c.expr = some p) :
    ∃ c1 m' a', get1 a i = some c1 ∧ set1 eq m a i c1 = some (false, m', a') ∧
      Holds a'.a p ∧ m'.live p = false ∧ m'.env a.env + 1 = m.env a.env := by
  have hcnt := owned_count h
  obtain ⟨m1, e1, b1, c1, d1⟩ := clearIndex_ok hr hcnt
  obtain ⟨m2, e2, b2, l2, d2⟩ := freeEnv_ok (m := m1) (e := a.env) (by rw [c1]; exact henv)
  have hr0 : ConsArr.read (write a.a i Cons.null) i = some Cons.null := by
    rw [read_write hr, if_pos rfl]
  refine ⟨⟨c, a.env⟩, m2, { a with a := write (write a.a i Cons.null) i c }, by simp [get1, hr],
    ?_, ?_, ?_, ?_⟩
  · unfold set1
    rw [if_neg (by simp [heq]; omega), e1]
    simp [e2]
  · exact ⟨i, c, by rw [read_write hr0, if_pos rfl], Or.inl hp⟩
  · have hb := b1 p
    have hm : 1 ≤ c.ptrs.count p := List.count_pos_iff.2 (by simp [Cons.ptrs, hp])
    have := lv_le m p
    by_contra hc
    have h1 : 1 ≤ lv m2 p := lv_pos.2 (by simpa using hc)
    rw [lv_congr l2] at h1
    omega
  · have := b2 a.env
    rw [c1] at this
    simpa using this

/-- The hypotheses of `C153_set_get_dangling` hold for the first entry of `caArr`. -/
example := C153_set_get_dangling false (fun x y => x == y) caMem ⟨caArr, 0⟩ 0 0 ⟨some 0, none⟩
  caArr_owned (by decide +kernel) rfl (by decide +kernel) rfl rfl

end Apron.Props
