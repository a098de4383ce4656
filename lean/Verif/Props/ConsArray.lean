import Verif.Core.ConsArrayLemmas

/-!
# C153: arrays of constraints own their elements

The arrays of constraints and of generators of levels 0 and 1 (`Core/ConsArray.lean`).  An
operation on an array that is owned (`Owned`) is defined, frees exactly what it says and nothing
else; a client that follows the rules of the header files, whatever the sequence of its calls,
never frees a block twice and leaks nothing.
-/

set_option autoImplicit false
set_option linter.unusedSectionVars false
set_option linter.ambiguousOpen false

namespace Apron.Props

open Apron.ConsArr

/-- The array holds the pointer `q` in one of its entries. -/
def Holds (a : Arr) (q : ℕ) : Prop :=
  ∃ i c, ConsArr.read a i = some c ∧ (c.expr = some q ∨ c.sca = some q)

/-- An array that owns its contents: well formed, its pointers are allocated and no pointer occurs
twice. -/
def Owned (m : Mem) (a : Arr) : Prop :=
  a.Good ∧ a.refs.Nodup ∧ ∀ q, Holds a q → m.live q = true

theorem holds_iff {a : Arr} {q : ℕ} : Holds a q ↔ q ∈ a.refs := by
  unfold Holds Arr.refs
  rw [mem_refs]
  constructor
  · rintro ⟨i, c, h, h2⟩
    obtain ⟨l, hp, hl⟩ := read_some h
    exact ⟨c, by rw [hp]; exact List.mem_of_getElem? hl, h2⟩
  · rintro ⟨c, h, h2⟩
    cases hp : a.p with
    | none => simp [hp] at h
    | some l =>
      rw [hp] at h
      obtain ⟨i, hi⟩ := List.mem_iff_getElem?.1 (show some c ∈ l from h)
      exact ⟨i, c, by simp [ConsArr.read, hp, hi], h2⟩

theorem owned_count {m : Mem} {a : Arr} (h : Owned m a) (q : ℕ) : a.refs.count q ≤ lv m q := by
  by_cases hq : q ∈ a.refs
  · have h1 := lv_pos.2 (h.2.2 q (holds_iff.2 hq))
    have h2 := List.nodup_iff_count_le_one.1 h.2.1 q
    omega
  · rw [List.count_eq_zero_of_not_mem hq]; omega

theorem owned_of_count {m : Mem} {a : Arr} (hg : a.Good) (h : ∀ q, a.refs.count q ≤ lv m q) :
    Owned m a := by
  refine ⟨hg, ?_, ?_⟩
  · rw [List.nodup_iff_count_le_one]
    intro q; have := h q; have := lv_le m q; omega
  · intro q hq
    have h1 := List.count_pos_iff.2 (holds_iff.1 hq)
    have := h q
    exact lv_pos.1 (by omega)

theorem live_iff_of_count {m m' : Mem} {l : List ℕ} {P : ℕ → Prop} (hP : ∀ q, P q ↔ q ∈ l)
    (h : ∀ q, lv m' q + l.count q = lv m q) (q : ℕ) :
    m'.live q = true ↔ m.live q = true ∧ ¬ P q := by
  rw [hP, ← lv_pos, ← lv_pos, ← List.count_pos_iff]
  have := h q; have := lv_le m q
  omega

/-! ## The theorems -/

/-- A new array has the size asked for, every entry is null, and it holds nothing. -/
theorem C153_make (m : Mem) (n : ℕ) :
    (make n).size = n ∧ (∀ i, i < n → ConsArr.read (make n) i = some ⟨none, none⟩) ∧
      (∀ q, ¬ Holds (make n) q) ∧ Owned m (make n) := by
  have hr : (make n).refs = [] := by
    unfold make Arr.refs
    by_cases h : n = 0
    · simp [h, ConsArr.refs]
    · simp only [if_neg h, Option.getD_some]; exact refs_replicate_null n
  refine ⟨rfl, ?_, ?_, ?_⟩
  · intro i hi
    have : n ≠ 0 := by omega
    simp [ConsArr.read, make, this, List.getElem?_replicate, hi, Cons.null]
  · intro q h; rw [holds_iff, hr] at h; simp at h
  · apply owned_of_count
    · refine ⟨?_, ?_⟩
      · intro h; unfold make at h ⊢; by_cases h0 : n = 0
        · exact h0
        · simp [h0] at h
      · intro l h
        unfold make at h ⊢
        by_cases h0 : n = 0
        · simp [h0] at h
        · simp only [if_neg h0, Option.some.injEq] at h
          subst h
          refine ⟨by simp, ?_⟩
          simp [List.mem_replicate]
    · intro q; rw [hr]; simp

/-- `clear` is defined on an array that is owned; afterwards exactly the blocks held by the array
are no longer allocated, and the environments are as before. -/
theorem C153_clear (gen : Bool) (m : Mem) (a : Arr) (h : Owned m a) :
    ∃ m' a', clear gen m a = some (m', a') ∧ (∀ q, ¬ Holds a' q) ∧
      (∀ q, m'.live q = true ↔ m.live q = true ∧ ¬ Holds a q) ∧ m'.env = m.env := by
  obtain ⟨m', e, b, c, _⟩ := clear_ok (gen := gen) h.1 (owned_count h)
  refine ⟨m', _, e, ?_, live_iff_of_count (fun _ => holds_iff) b, c⟩
  intro q hq; rw [holds_iff] at hq; simp [Arr.refs, ConsArr.refs] at hq

/-- `resize` is defined on an array that is owned.  The result has the new size and owns its
contents; the entries that are left are the same, the new ones are null; a block is no longer
allocated exactly if it was held by an entry that is gone. -/
theorem C153_resize (m : Mem) (a : Arr) (n : ℕ) (h : Owned m a) :
    ∃ m' a', resize m a n = some (m', a') ∧ a'.size = n ∧ Owned m' a' ∧
      (∀ i, i < n → ConsArr.read a' i = if i < a.size then ConsArr.read a i else some ⟨none, none⟩) ∧
      (∀ q, m'.live q = true ↔ m.live q = true ∧
        ¬ ∃ i c, n ≤ i ∧ ConsArr.read a i = some c ∧ (c.expr = some q ∨ c.sca = some q)) ∧
      m'.env = m.env := by
  obtain ⟨m', e, b, b2, c, _⟩ := resize_ok h.1 (owned_count h) n
  have hlen := good_length h.1
  have hread : ∀ i, ConsArr.read a i = (((a.p.getD [])[i]?).bind id) := by
    intro i; unfold ConsArr.read; cases a.p <;> simp
  refine ⟨m', _, e, rfl, ?_, ?_, ?_, c⟩
  · apply owned_of_count (good_resize h.1 n)
    intro q
    have := owned_count h q
    have := b q; have := b2 q
    omega
  · intro i hi
    rw [hread i]
    simp only [ConsArr.read, reallocated, Option.bind_some, List.getElem?_map,
      List.getElem?_range hi, Option.map_some]
    by_cases h2 : a.size ≤ i
    · rw [if_pos h2, if_neg (by omega)]; rfl
    · rw [if_neg h2, if_pos (by omega)]
      have : i < (a.p.getD []).length := by omega
      rw [List.getElem?_eq_getElem this]; rfl
  · apply live_iff_of_count ?_ b
    intro q
    rw [mem_refs]
    constructor
    · rintro ⟨i, c, hi, hr, h2⟩
      obtain ⟨l, hp, hl⟩ := read_some hr
      refine ⟨c, ?_, h2⟩
      rw [hp]
      apply List.mem_of_getElem? (i := i - n)
      rw [Option.getD_some, List.getElem?_drop]
      rw [show n + (i - n) = i by omega]; exact hl
    · rintro ⟨c, hc, h2⟩
      obtain ⟨k, hk⟩ := List.mem_iff_getElem?.1 hc
      rw [List.getElem?_drop] at hk
      exact ⟨n + k, c, by omega, by rw [hread, hk]; rfl, h2⟩

/-- A call of `set` that is refused (index out of range, or another environment) returns true and
changes nothing. -/
theorem C153_set_refused (eq : ℕ → ℕ → Bool) (m : Mem) (a : Arr1) (i : ℕ) (c : Cons1)
    (h : a.a.size ≤ i ∨ eq c.env a.env = false) : set1 eq m a i c = some (true, m, a) := by
  unfold set1; rw [if_pos h]

/-- A call of `set` that succeeds, with a constraint that the client owns (its blocks are
allocated, different, and not held by the array): the old contents of the entry are freed and
nothing else, the entry is the constraint, the other entries stay, the array owns its contents,
and the reference of the constraint to its environment is given up. -/
theorem C153_set (eq : ℕ → ℕ → Bool) (m : Mem) (a : Arr1) (i : ℕ) (c : Cons1)
    (h : Owned m a.a) (hi : i < a.a.size) (heq : eq c.env a.env = true) (henv : 1 ≤ m.env c.env)
    (hc : (c.c.expr.toList ++ c.c.sca.toList).Nodup)
    (hl : ∀ q, c.c.expr = some q ∨ c.c.sca = some q → m.live q = true ∧ ¬ Holds a.a q) :
    ∃ old m' a', ConsArr.read a.a i = some old ∧ set1 eq m a i c = some (false, m', a') ∧
      Owned m' a'.a ∧ a'.env = a.env ∧ a'.a.size = a.a.size ∧
      (∀ j, ConsArr.read a'.a j = if j = i then some c.c else ConsArr.read a.a j) ∧
      (∀ q, m'.live q = true ↔ m.live q = true ∧ ¬ (old.expr = some q ∨ old.sca = some q)) ∧
      m'.env c.env + 1 = m.env c.env ∧ ∀ x, x ≠ c.env → m'.env x = m.env x := by
  obtain ⟨old, hr⟩ := read_good h.1 hi
  have hcnt := owned_count h
  obtain ⟨m1, e1, b1, c1, d1⟩ := clearIndex_ok hr hcnt
  obtain ⟨m2, e2, b2, l2, d2⟩ := freeEnv_ok (m := m1) (e := c.env) (by rw [c1]; exact henv)
  have hr0 : ConsArr.read (write a.a i Cons.null) i = some Cons.null := by
    rw [read_write hr, if_pos rfl]
  refine ⟨old, m2, { a with a := write (write a.a i Cons.null) i c.c }, hr, ?_, ?_, rfl, rfl,
    ?_, ?_, ?_, ?_⟩
  · unfold set1
    rw [if_neg (by rw [heq]; simp; omega), e1]
    simp [e2]
  · apply owned_of_count (write_good (write_good h.1 _ _) _ _)
    intro q
    have w1 := write_refs hr Cons.null q
    have w2 := write_refs hr0 c.c q
    have n0 : Cons.null.ptrs.count q = 0 := by simp [Cons.ptrs, Cons.null]
    have hb := b1 q
    have hq := hcnt q
    rw [lv_congr l2]
    by_cases hm : q ∈ c.c.ptrs
    · have hm' : c.c.expr = some q ∨ c.c.sca = some q := by simpa [Cons.ptrs] using hm
      obtain ⟨hlq, hnq⟩ := hl q hm'
      rw [holds_iff] at hnq
      have z := List.count_eq_zero_of_not_mem hnq
      have o := List.nodup_iff_count_le_one.1 hc q
      have o' : c.c.ptrs.count q ≤ 1 := o
      have := lv_pos.2 hlq
      omega
    · have z := List.count_eq_zero_of_not_mem hm
      omega
  · intro j
    simp only
    rw [read_write hr0, read_write hr]
    by_cases hj : j = i
    · simp [hj]
    · rw [if_neg hj, if_neg hj, if_neg hj]
  · intro q
    rw [l2]
    exact live_iff_of_count (l := old.ptrs)
      (P := fun q => old.expr = some q ∨ old.sca = some q) (by intro q; simp [Cons.ptrs]) b1 q
  · have := b2 c.env
    rw [c1] at this
    simpa using this
  · intro x hx
    have := b2 x
    rw [c1] at this
    have hne : c.env ≠ x := fun e => hx e.symm
    simpa [List.count_cons, hne] using this

/-! ## Clients -/

/-- The books of a client: `b` and `be` are the blocks and references that belong to others. -/
structure Books (b be : ℕ → ℕ) (s : St) : Prop where
  good : s.a.a.Good
  live : ∀ q, lv s.m q = b q + s.a.a.refs.count q + (ownRefs s.own).count q
  env : ∀ x, s.m.env x = be x + [s.a.env].count x + (ownEnvs s.own).count x
  fresh : ∀ q, s.m.next ≤ q → s.m.live q = false

/-- The environments that a call mentions are held by the client. -/
def Op.ok (be : ℕ → ℕ) : Op → Prop
  | .new e _ => 1 ≤ be e
  | .extend e => 1 ≤ be e
  | _ => True

theorem lv_zero_of_fresh {m m' : Mem} (h : ∀ q, m.next ≤ q → m.live q = false)
    (hle : ∀ q, lv m' q ≤ lv m q) (hn : m'.next = m.next) :
    ∀ q, m'.next ≤ q → m'.live q = false := by
  intro q hq
  rw [hn] at hq
  have h0 : lv m q = 0 := by simp [lv, h q hq]
  have := hle q
  by_contra hc
  have : 1 ≤ lv m' q := lv_pos.2 (by simpa using hc)
  omega

theorem one_le_env {b be : ℕ → ℕ} {s : St} (h : Books b be s) {k : ℕ} {c : Cons1}
    (hk : s.own[k]? = some c) : 1 ≤ s.m.env c.env := by
  have h1 := ownEnvs_eraseIdx s.own k c hk c.env
  have h2 := h.env c.env
  have h3 : [c.env].count c.env = 1 := by simp
  omega

theorem step_books {eq sub : ℕ → ℕ → Bool} {b be : ℕ → ℕ} {s : St} (h : Books b be s) (o : Op)
    (ho : Op.ok be o) : ∃ s', step eq sub s o = some s' ∧ Books b be s' := by
  have hcnt : ∀ q, s.a.a.refs.count q ≤ lv s.m q := fun q => by have := h.live q; omega
  cases o with
  | new e sca =>
    have he : 1 ≤ s.m.env e := by have := h.env e; have : 1 ≤ be e := ho; omega
    obtain ⟨m1, e1, v1, l1, n1⟩ := copyEnv_ok he
    have f1 : ∀ q, m1.next ≤ q → m1.live q = false := by rw [n1, l1]; exact h.fresh
    obtain ⟨a1, a2, a3, a4⟩ := alloc_ok f1
    obtain ⟨c1, c2, c3, c4⟩ := alloc_ok a2
    unfold step
    simp only [e1, Option.map_some]
    refine ⟨_, rfl, ?_⟩
    cases sca with
    | false =>
      refine ⟨h.good, ?_, ?_, a2⟩
      · intro q
        have h1 := h.live q
        have h2 := a1 q
        rw [lv_congr l1] at h2
        simp only [Bool.false_eq_true, if_false, ownRefs, List.count_append, Cons.ptrs]
        rw [h2, h1]
        simp [Mem.alloc]; omega
      · intro x
        have h1 := h.env x
        have h2 := v1 x
        simp only [Bool.false_eq_true, if_false, ownEnvs, List.map_cons]
        rw [a3, h2, h1]
        simp [ownEnvs, List.count_cons]; omega
    | true =>
      refine ⟨h.good, ?_, ?_, c2⟩
      · intro q
        have h1 := h.live q
        have h2 := a1 q
        have h3 := c1 q
        rw [lv_congr l1] at h2
        simp only [if_true, ownRefs, List.count_append, Cons.ptrs]
        rw [h3, h2, h1]
        simp [Mem.alloc]; omega
      · intro x
        have h1 := h.env x
        have h2 := v1 x
        simp only [if_true, ownEnvs, List.map_cons]
        rw [c3, a3, h2, h1]
        simp [ownEnvs, List.count_cons]; omega
  | drop k =>
    unfold step
    cases hk : s.own[k]? with
    | none => exact ⟨s, by simp only [hk], h⟩
    | some c =>
      have r1 := ownRefs_eraseIdx s.own k c hk
      have r2 := ownEnvs_eraseIdx s.own k c hk
      obtain ⟨m1, e1, b1, c1, d1⟩ := clearCons_ok (m := s.m) (c := c.c) (fun q => by
        have := h.live q; have := r1 q; omega)
      obtain ⟨m2, e2, b2, l2, d2⟩ := freeEnv_ok (m := m1) (e := c.env) (by
        rw [c1]; exact one_le_env h hk)
      have hs : clear1 s.m c = some m2 := by unfold clear1; rw [e1]; exact e2
      simp only [hk, hs, Option.map_some]
      refine ⟨_, rfl, h.good, ?_, ?_, ?_⟩
      · intro q
        have := h.live q; have := r1 q; have := b1 q
        simp only [lv_congr l2]; omega
      · intro x
        have := h.env x; have := r2 x; have := b2 x
        rw [c1] at this
        simp only; omega
      · apply lv_zero_of_fresh h.fresh
        · intro q; simp only [lv_congr l2]; have := b1 q; omega
        · exact d2.trans d1
  | set i k =>
    unfold step
    cases hk : s.own[k]? with
    | none => exact ⟨s, by simp only [hk], h⟩
    | some c =>
      by_cases hf : s.a.a.size ≤ i ∨ eq c.env s.a.env = false
      · have : set1 eq s.m s.a i c = some (true, s.m, s.a) := C153_set_refused _ _ _ _ _ hf
        simp only [hk, this, Option.map_some]
        exact ⟨_, rfl, h⟩
      · have hi : i < s.a.a.size := by by_contra hh; exact hf (Or.inl (by omega))
        have r1 := ownRefs_eraseIdx s.own k c hk
        have r2 := ownEnvs_eraseIdx s.own k c hk
        obtain ⟨old, hr⟩ := read_good h.good hi
        obtain ⟨m1, e1, b1, c1, d1⟩ := clearIndex_ok hr hcnt
        obtain ⟨m2, e2, b2, l2, d2⟩ := freeEnv_ok (m := m1) (e := c.env) (by
          rw [c1]; exact one_le_env h hk)
        have hr0 : ConsArr.read (write s.a.a i Cons.null) i = some Cons.null := by
          rw [read_write hr, if_pos rfl]
        have hs : set1 eq s.m s.a i c =
            some (false, m2, { s.a with a := write (write s.a.a i Cons.null) i c.c }) := by
          unfold set1; rw [if_neg hf, e1]; simp [e2]
        simp only [hk, hs, Option.map_some, Bool.false_eq_true, if_false]
        refine ⟨_, rfl, write_good (write_good h.good _ _) _ _, ?_, ?_, ?_⟩
        · intro q
          have := h.live q; have := r1 q; have := b1 q
          have w1 := write_refs hr Cons.null q
          have w2 := write_refs hr0 c.c q
          have n0 : Cons.null.ptrs.count q = 0 := by simp [Cons.ptrs, Cons.null]
          simp only [lv_congr l2]; omega
        · intro x
          have := h.env x; have := r2 x; have := b2 x
          rw [c1] at this
          simp only; omega
        · apply lv_zero_of_fresh h.fresh
          · intro q; simp only [lv_congr l2]; have := b1 q; omega
          · exact d2.trans d1
  | clearIndex i =>
    unfold step
    by_cases hi : i < s.a.a.size
    · obtain ⟨old, hr⟩ := read_good h.good hi
      obtain ⟨m1, e1, b1, c1, d1⟩ := clearIndex_ok hr hcnt
      simp only [if_pos hi, e1, Option.map_some]
      refine ⟨_, rfl, write_good h.good _ _, ?_, ?_, ?_⟩
      · intro q
        have := h.live q; have := b1 q
        have w1 := write_refs hr Cons.null q
        have n0 : Cons.null.ptrs.count q = 0 := by simp [Cons.ptrs, Cons.null]
        simp only; omega
      · intro x; simp only [c1]; exact h.env x
      · apply lv_zero_of_fresh h.fresh _ d1
        intro q; have := b1 q; omega
    · simp only [if_neg hi]
      exact ⟨s, rfl, h⟩
  | resize n =>
    obtain ⟨m1, e1, b1, b2, c1, d1⟩ := resize_ok h.good hcnt n
    unfold step
    simp only [e1, Option.map_some]
    refine ⟨_, rfl, good_resize h.good n, ?_, ?_, ?_⟩
    · intro q
      have := h.live q; have := b1 q; have := b2 q
      simp only; omega
    · intro x; simp only [c1]; exact h.env x
    · apply lv_zero_of_fresh h.fresh _ d1
      intro q; have := b1 q; omega
  | extend e =>
    unfold step
    by_cases hsub : sub s.a.env e = false
    · have : extend1 sub s.m s.a e = some (true, s.m, s.a) := by unfold extend1; rw [if_pos hsub]
      simp only [this, Option.map_some]
      exact ⟨_, rfl, h⟩
    · have he : 1 ≤ s.m.env e := by have := h.env e; have : 1 ≤ be e := ho; omega
      obtain ⟨m1, e1, v1, l1, n1⟩ := copyEnv_ok he
      obtain ⟨m2, e2, b2, l2, d2⟩ := freeEnv_ok (m := m1) (e := s.a.env) (by
        rw [v1, h.env]; simp; omega)
      have hs : extend1 sub s.m s.a e = some (false, m2, { s.a with env := e }) := by
        unfold extend1
        rw [if_neg hsub, entriesFrom_good h.good, List.drop_zero, Option.bind_some,
          if_pos (readable_good h.good hcnt), e1]
        simp [e2]
      simp only [hs, Option.map_some]
      refine ⟨_, rfl, h.good, ?_, ?_, ?_⟩
      · intro q; simp only [lv_congr l2, lv_congr l1]; exact h.live q
      · intro x
        have := h.env x; have := v1 x; have := b2 x
        simp only; omega
      · intro q hq
        simp only [d2, n1, l2, l1] at hq ⊢
        exact h.fresh q hq

theorem run_books {eq sub : ℕ → ℕ → Bool} {b be : ℕ → ℕ} (os : List Op) :
    ∀ {s : St}, Books b be s → (∀ o ∈ os, Op.ok be o) →
      ∃ s', run eq sub s os = some s' ∧ Books b be s' := by
  induction os with
  | nil => intro s h _; exact ⟨s, rfl, h⟩
  | cons o os ih =>
    intro s h ho
    obtain ⟨s1, e1, h1⟩ := step_books (eq := eq) (sub := sub) h o (ho o (List.mem_cons_self))
    obtain ⟨s2, e2, h2⟩ := ih h1 (fun o' ho' => ho o' (List.mem_cons_of_mem _ ho'))
    exact ⟨s2, by unfold run; rw [e1]; exact e2, h2⟩

theorem dropAll_ok (l : List Cons1) : ∀ {m : Mem}, (∀ q, (ownRefs l).count q ≤ lv m q) →
    (∀ x, (ownEnvs l).count x ≤ m.env x) →
    ∃ m', dropAll m l = some m' ∧ (∀ q, lv m' q + (ownRefs l).count q = lv m q) ∧
      ∀ x, m'.env x + (ownEnvs l).count x = m.env x := by
  induction l with
  | nil => intro m _ _; exact ⟨m, rfl, by simp [ownRefs], by simp [ownEnvs]⟩
  | cons c l ih =>
    intro m h1 h2
    have h1' : ∀ q, c.c.ptrs.count q + (ownRefs l).count q ≤ lv m q := by
      intro q; have := h1 q; rwa [ownRefs, List.count_append] at this
    have h2' : ∀ x, [c.env].count x + (ownEnvs l).count x ≤ m.env x := by
      intro x; have := h2 x
      rw [← List.count_append]; exact this
    obtain ⟨m1, e1, b1, c1, d1⟩ := clearCons_ok (m := m) (c := c.c) (fun q => by
      have := h1' q; omega)
    obtain ⟨m2, e2, b2, l2, d2⟩ := freeEnv_ok (m := m1) (e := c.env) (by
      have := h2' c.env; rw [c1]; simp at this; omega)
    rw [c1] at b2
    obtain ⟨m3, e3, b3, v3⟩ := ih (m := m2)
      (fun q => by have := h1' q; have := b1 q; rw [lv_congr l2]; omega)
      (fun x => by have := h2' x; have := b2 x; omega)
    refine ⟨m3, ?_, ?_, ?_⟩
    · unfold dropAll clear1; rw [e1, Option.bind_some, e2]; exact e3
    · intro q; rw [ownRefs, List.count_append]
      have := b3 q; rw [lv_congr l2] at this; have := b1 q; omega
    · intro x
      have := v3 x; have := b2 x
      have e : (ownEnvs (c :: l)).count x = [c.env].count x + (ownEnvs l).count x := by
        rw [← List.count_append]; rfl
      omega

/-- A client makes an array, then builds and clears constraints, stores constraints in the array
(with or without success), clears entries, resizes the array and extends its environment, in any
order, and at the end clears its constraints and the array.  No call is undefined (nothing is
freed twice, nothing is used after it was freed, no entry is read before it is initialised), and at
the end exactly the blocks of the beginning are allocated and every environment has the counter of
the beginning. -/
theorem C153_client_no_leak (gen : Bool) (eq sub : ℕ → ℕ → Bool) (m : Mem) (e n : ℕ)
    (os : List Op) (hfresh : ∀ q, m.next ≤ q → m.live q = false) (he : 1 ≤ m.env e)
    (hos : ∀ o ∈ os, Op.ok m.env o) :
    ∃ m1 a1 s m' a', make1 m e n = some (m1, a1) ∧ run eq sub ⟨m1, a1, []⟩ os = some s ∧
      Owned s.m s.a.a ∧ finish gen s = some (m', a') ∧ m'.live = m.live ∧ m'.env = m.env := by
  obtain ⟨m1, e1, v1, l1, n1⟩ := copyEnv_ok he
  obtain ⟨-, -, hh, hg⟩ := C153_make m1 n
  have hz : ∀ q, (make n).refs.count q = 0 := fun q =>
    List.count_eq_zero_of_not_mem (fun hq => hh q (holds_iff.2 hq))
  have hb : Books (lv m) m.env ⟨m1, ⟨make n, e⟩, []⟩ := by
    refine ⟨hg.1, ?_, ?_, ?_⟩
    · intro q; simp [lv_congr l1, hz, ownRefs]
    · intro x; simp only [v1 x, ownEnvs]; simp
    · rw [n1, l1]; exact hfresh
  obtain ⟨s, e2, h2⟩ := run_books (eq := eq) (sub := sub) os hb hos
  obtain ⟨m3, e3, b3, v3⟩ := dropAll_ok s.own (m := s.m)
    (fun q => by have := h2.live q; omega) (fun x => by have := h2.env x; omega)
  have hcnt : ∀ q, s.a.a.refs.count q ≤ lv m3 q := fun q => by
    have := h2.live q; have := b3 q; omega
  obtain ⟨m4, e4, b4, c4, d4⟩ := clear_ok (gen := gen) h2.good hcnt
  obtain ⟨m5, e5, b5, l5, d5⟩ := freeEnv_ok (m := m4) (e := s.a.env) (by
    rw [c4]; have := h2.env s.a.env; have := v3 s.a.env; simp at *; omega)
  refine ⟨m1, ⟨make n, e⟩, s, m5, ⟨none, if gen then 0 else s.a.a.size⟩, by simp [make1, e1], e2,
    owned_of_count h2.good (fun q => by have := h2.live q; omega), ?_, ?_, ?_⟩
  · unfold finish arrClear1
    rw [e3, Option.bind_some, e4, Option.bind_some, e5, Option.map_some]
  · funext q
    have h3 := h2.live q; have h4 := b3 q; have h5 := b4 q
    have h6 : lv m5 q = lv m q := by rw [lv_congr l5]; omega
    unfold lv at h6
    cases h7 : m5.live q <;> cases h8 : m.live q <;> simp_all
  · funext x
    have := h2.env x; have := v3 x; have := b5 x
    rw [c4] at this
    omega

end Apron.Props
