import Verif.Core.ConsArray
import Mathlib.Data.List.Count
import Mathlib.Tactic

/-!
# Lemmas on arrays of constraints

Accounting: `lv m q` is 1 if the block `q` is allocated and 0 otherwise; an operation takes away
exactly the pointers that it clears.
-/

set_option autoImplicit false
set_option linter.unusedSectionVars false
set_option linter.ambiguousOpen false

namespace Apron.ConsArr

/-- The pointers of a constraint. -/
def Cons.ptrs (c : Cons) : List ℕ := c.expr.toList ++ c.sca.toList

/-- The pointers of a list of entries. -/
def refs : List (Option Cons) → List ℕ
  | [] => []
  | none :: l => refs l
  | some c :: l => c.ptrs ++ refs l

/-- The pointers of an array. -/
def Arr.refs (a : Arr) : List ℕ := ConsArr.refs (a.p.getD [])

/-- The pointers of the constraints of a client. -/
def ownRefs : List Cons1 → List ℕ
  | [] => []
  | c :: l => c.c.ptrs ++ ownRefs l

/-- The references of the constraints of a client to an environment. -/
def ownEnvs (l : List Cons1) : List ℕ := l.map fun c => c.env

/-- An array as the functions expect it: a null pointer only for size 0, a block of the right
size, every entry initialised. -/
def Arr.Good (a : Arr) : Prop :=
  (a.p = none → a.size = 0) ∧ ∀ l, a.p = some l → l.length = a.size ∧ none ∉ l

/-- 1 if the block is allocated, 0 otherwise. -/
def lv (m : Mem) (q : ℕ) : ℕ := if m.live q then 1 else 0

theorem lv_le (m : Mem) (q : ℕ) : lv m q ≤ 1 := by unfold lv; split <;> omega

theorem lv_pos {m : Mem} {q : ℕ} : 1 ≤ lv m q ↔ m.live q = true := by
  unfold lv; split <;> simp_all

theorem free_ok {m : Mem} {p : ℕ} (h : 1 ≤ lv m p) :
    ∃ m', m.free p = some m' ∧ (∀ q, lv m' q + [p].count q = lv m q) ∧ m'.env = m.env ∧
      m'.next = m.next := by
  have hl := lv_pos.1 h
  refine ⟨{ m with live := fun q => if q = p then false else m.live q },
    by unfold Mem.free; rw [if_pos hl], ?_, rfl, rfl⟩
  intro q
  by_cases hq : q = p
  · subst hq; simp [lv, hl]
  · have : p ≠ q := fun e => hq e.symm
    simp [lv, hq, List.count_cons, this]

theorem freeOpt_ok {m : Mem} {o : Option ℕ} (h : ∀ q, o.toList.count q ≤ lv m q) :
    ∃ m', m.freeOpt o = some m' ∧ (∀ q, lv m' q + o.toList.count q = lv m q) ∧ m'.env = m.env ∧
      m'.next = m.next := by
  cases o with
  | none => exact ⟨m, rfl, by simp, rfl, rfl⟩
  | some p =>
    have := h p
    simp at this
    obtain ⟨m', a, b, c⟩ := free_ok (m := m) (p := p) this
    exact ⟨m', a, by simpa using b, c⟩

theorem clearCons_ok {m : Mem} {c : Cons} (h : ∀ q, c.ptrs.count q ≤ lv m q) :
    ∃ m', clearCons m c = some m' ∧ (∀ q, lv m' q + c.ptrs.count q = lv m q) ∧ m'.env = m.env ∧
      m'.next = m.next := by
  have h' : ∀ q, c.expr.toList.count q + c.sca.toList.count q ≤ lv m q := by
    intro q; have := h q; rwa [Cons.ptrs, List.count_append] at this
  obtain ⟨m1, e1, b1, c1, d1⟩ := freeOpt_ok (m := m) (o := c.expr) (fun q => by have := h' q; omega)
  obtain ⟨m2, e2, b2, c2, d2⟩ := freeOpt_ok (m := m1) (o := c.sca)
    (fun q => by have := h' q; have := b1 q; omega)
  refine ⟨m2, ?_, ?_, c2.trans c1, d2.trans d1⟩
  · unfold clearCons; rw [e1]; exact e2
  · intro q; rw [Cons.ptrs, List.count_append]; have := b1 q; have := b2 q; omega

theorem clearAll_ok {l : List (Option Cons)} : ∀ {m : Mem}, none ∉ l →
    (∀ q, (refs l).count q ≤ lv m q) →
    ∃ m', clearAll m l = some m' ∧ (∀ q, lv m' q + (refs l).count q = lv m q) ∧ m'.env = m.env ∧
      m'.next = m.next := by
  induction l with
  | nil => intro m _ _; exact ⟨m, rfl, by simp [refs], rfl, rfl⟩
  | cons o l ih =>
    intro m hn h
    cases o with
    | none => simp at hn
    | some c =>
      have h' : ∀ q, c.ptrs.count q + (refs l).count q ≤ lv m q := by
        intro q; have := h q; rwa [refs, List.count_append] at this
      obtain ⟨m1, e1, b1, c1, d1⟩ := clearCons_ok (m := m) (c := c)
        (fun q => by have := h' q; omega)
      obtain ⟨m2, e2, b2, c2, d2⟩ := ih (m := m1) (fun hh => hn (List.mem_cons_of_mem _ hh))
        (fun q => by have := h' q; have := b1 q; omega)
      refine ⟨m2, ?_, ?_, c2.trans c1, d2.trans d1⟩
      · rw [clearAll, e1]; exact e2
      · intro q; rw [refs, List.count_append]; have := b1 q; have := b2 q; omega

theorem refs_append (l l' : List (Option Cons)) : refs (l ++ l') = refs l ++ refs l' := by
  induction l with
  | nil => rfl
  | cons o l ih => cases o <;> simp [refs, ih]

theorem refs_replicate_null (n : ℕ) : refs (List.replicate n (some Cons.null)) = [] := by
  induction n with
  | zero => rfl
  | succ n ih => rw [List.replicate_succ, refs, ih]; rfl

/-- Replacing an initialised entry. -/
theorem refs_set (l : List (Option Cons)) : ∀ (i : ℕ) (c d : Cons), l[i]? = some (some c) →
    ∀ q, (refs (l.set i (some d))).count q + c.ptrs.count q =
      (refs l).count q + d.ptrs.count q := by
  induction l with
  | nil => intro i c d h; simp at h
  | cons o l ih =>
    intro i c d h q
    cases i with
    | zero =>
      simp at h; subst h
      simp [refs, List.count_append]; omega
    | succ i =>
      simp at h
      have := ih i c d h q
      cases o with
      | none => simpa [refs] using this
      | some e => simp only [List.set_cons_succ, refs, List.count_append]; omega

theorem refs_get {l : List (Option Cons)} : ∀ {i : ℕ} {c : Cons}, l[i]? = some (some c) →
    ∀ q, c.ptrs.count q ≤ (refs l).count q := by
  induction l with
  | nil => intro i c h; simp at h
  | cons o l ih =>
    intro i c h q
    cases i with
    | zero => simp at h; subst h; simp [refs, List.count_append]
    | succ i =>
      simp at h
      have := ih h q
      cases o with
      | none => simpa [refs] using this
      | some e => simp only [refs, List.count_append]; omega

theorem mem_refs {l : List (Option Cons)} {q : ℕ} :
    q ∈ refs l ↔ ∃ c, some c ∈ l ∧ (c.expr = some q ∨ c.sca = some q) := by
  induction l with
  | nil => simp [refs]
  | cons o l ih =>
    cases o with
    | none => simp [refs, ih]
    | some c => simp [refs, ih, Cons.ptrs, or_assoc]

theorem entriesFrom_good {a : Arr} (ha : a.Good) (k : ℕ) :
    entriesFrom a k = some ((a.p.getD []).drop k) := by
  unfold entriesFrom
  split
  · rename_i h
    cases hp : a.p with
    | none => simp
    | some l =>
      have := (ha.2 l hp).1
      simp [List.drop_eq_nil_of_le (show l.length ≤ k by omega)]
  · rename_i h
    cases hp : a.p with
    | none => exact absurd (ha.1 hp) (by omega)
    | some l =>
      have := (ha.2 l hp).1
      simp only [Option.getD_some]
      rw [if_pos (by omega), ← this, List.take_length]

theorem good_none {a : Arr} (ha : a.Good) : none ∉ a.p.getD [] := by
  cases hp : a.p with
  | none => simp
  | some l => exact (ha.2 l hp).2

theorem good_length {a : Arr} (ha : a.Good) : (a.p.getD []).length = a.size := by
  cases hp : a.p with
  | none => simp [ha.1 hp]
  | some l => exact (ha.2 l hp).1

/-- What `realloc` and the loop leave, for a good array. -/
theorem reallocated_eq {a : Arr} (ha : a.Good) (n : ℕ) :
    reallocated a n = (a.p.getD []).take n ++ List.replicate (n - a.size) (some Cons.null) := by
  have hl := good_length ha
  apply List.ext_getElem?
  intro i
  unfold reallocated
  rw [List.getElem?_map, List.getElem?_append, List.length_take, hl]
  by_cases hi : i < n
  · rw [List.getElem?_range hi]
    simp only [Option.map_some]
    by_cases h2 : a.size ≤ i
    · rw [if_pos h2, if_neg (by omega), List.getElem?_replicate, if_pos (by omega)]
    · rw [if_neg h2, if_pos (by omega), List.getElem?_take, if_pos hi]
      have : i < (a.p.getD []).length := by omega
      rw [List.getElem?_eq_getElem this]; simp
  · rw [List.getElem?_eq_none (by simpa using hi), Option.map_none]
    symm
    split
    · omega
    · rw [List.getElem?_replicate, if_neg (by omega)]

theorem good_resize {a : Arr} (ha : a.Good) (n : ℕ) : Arr.Good ⟨some (reallocated a n), n⟩ := by
  refine ⟨by simp, ?_⟩
  rintro l ⟨⟩
  refine ⟨by simp [reallocated], ?_⟩
  rw [reallocated_eq ha]
  intro h
  rcases List.mem_append.1 h with h | h
  · exact good_none ha (List.mem_of_mem_take h)
  · simp [List.mem_replicate] at h

theorem resize_ok {m : Mem} {a : Arr} (ha : a.Good) (h : ∀ q, a.refs.count q ≤ lv m q) (n : ℕ) :
    ∃ m', resize m a n = some (m', ⟨some (reallocated a n), n⟩) ∧
      (∀ q, lv m' q + (refs ((a.p.getD []).drop n)).count q = lv m q) ∧
      (∀ q, (Arr.refs ⟨some (reallocated a n), n⟩).count q
        + (refs ((a.p.getD []).drop n)).count q = a.refs.count q) ∧
      m'.env = m.env ∧ m'.next = m.next := by
  have hsplit : ∀ q, (refs ((a.p.getD []).take n)).count q
      + (refs ((a.p.getD []).drop n)).count q = a.refs.count q := by
    intro q
    rw [← List.count_append, ← refs_append, List.take_append_drop]; rfl
  obtain ⟨m', e, b, c, d⟩ := clearAll_ok (m := m) (l := (a.p.getD []).drop n)
    (fun hh => good_none ha (List.mem_of_mem_drop hh))
    (fun q => by have := h q; have := hsplit q; omega)
  refine ⟨m', ?_, b, ?_, c, d⟩
  · unfold resize; rw [entriesFrom_good ha]; simp [e]
  · intro q
    rw [← hsplit q]
    simp [Arr.refs, reallocated_eq ha, refs_append, refs_replicate_null]

theorem clear_ok {gen : Bool} {m : Mem} {a : Arr} (ha : a.Good)
    (h : ∀ q, a.refs.count q ≤ lv m q) :
    ∃ m', clear gen m a = some (m', ⟨none, if gen then 0 else a.size⟩) ∧
      (∀ q, lv m' q + a.refs.count q = lv m q) ∧ m'.env = m.env ∧ m'.next = m.next := by
  cases hp : a.p with
  | none =>
    refine ⟨m, by simp [clear, hp], ?_, rfl, rfl⟩
    intro q; simp [Arr.refs, hp, refs]
  | some l =>
    obtain ⟨m', e, b, c, d⟩ := clearAll_ok (m := m) (l := a.p.getD []) (good_none ha) h
    refine ⟨m', ?_, b, c, d⟩
    have he := entriesFrom_good ha 0
    rw [List.drop_zero] at he
    simp only [clear, he]
    rw [hp] at e ⊢
    simp at e
    simp [e]

theorem read_some {a : Arr} {i : ℕ} {c : Cons} (h : read a i = some c) :
    ∃ l, a.p = some l ∧ l[i]? = some (some c) := by
  unfold read at h
  cases hp : a.p with
  | none => simp [hp] at h
  | some l =>
    refine ⟨l, rfl, ?_⟩
    simp only [hp, Option.bind_some] at h
    cases hx : l[i]? with
    | none => simp [hx] at h
    | some o => simp [hx] at h; rw [h]

theorem read_good {a : Arr} (ha : a.Good) {i : ℕ} (hi : i < a.size) :
    ∃ c, read a i = some c := by
  cases hp : a.p with
  | none => have := ha.1 hp; omega
  | some l =>
    obtain ⟨h1, h2⟩ := ha.2 l hp
    have hl : i < l.length := by omega
    cases hc : l[i] with
    | none => exact absurd (hc ▸ List.getElem_mem hl) h2
    | some c => exact ⟨c, by simp [read, hp, hl, hc]⟩

theorem write_good {a : Arr} (ha : a.Good) (i : ℕ) (c : Cons) : (write a i c).Good := by
  refine ⟨?_, ?_⟩
  · intro h
    apply ha.1
    simpa [write] using h
  · intro l h
    cases hp : a.p with
    | none => simp [write, hp] at h
    | some l0 =>
      simp [write, hp] at h
      subst h
      obtain ⟨h1, h2⟩ := ha.2 l0 hp
      refine ⟨by simpa [write] using h1, ?_⟩
      intro hm
      rcases List.mem_or_eq_of_mem_set hm with h | h
      · exact h2 h
      · cases h

theorem write_refs {a : Arr} {i : ℕ} {c : Cons} (h : read a i = some c) (d : Cons) (q : ℕ) :
    (write a i d).refs.count q + c.ptrs.count q = a.refs.count q + d.ptrs.count q := by
  obtain ⟨l, hp, hl⟩ := read_some h
  simpa [Arr.refs, write, hp] using refs_set l i c d hl q

theorem read_write {a : Arr} {i : ℕ} {c : Cons} (h : read a i = some c) (d : Cons) (j : ℕ) :
    read (write a i d) j = if j = i then some d else read a j := by
  obtain ⟨l, hp, hl⟩ := read_some h
  have hi : i < l.length := (List.getElem?_eq_some_iff.1 hl).1
  simp only [read, write, hp, Option.map_some, Option.bind_some, List.getElem?_set]
  by_cases hj : j = i
  · subst hj; simp [hi]
  · rw [if_neg (fun e => hj e.symm), if_neg hj]

theorem clearIndex_ok {m : Mem} {a : Arr} {i : ℕ} {c : Cons} (hr : read a i = some c)
    (h : ∀ q, a.refs.count q ≤ lv m q) :
    ∃ m', clearIndex m a i = some (m', write a i Cons.null) ∧
      (∀ q, lv m' q + c.ptrs.count q = lv m q) ∧ m'.env = m.env ∧ m'.next = m.next := by
  obtain ⟨l, hp, hl⟩ := read_some hr
  have hc : ∀ q, c.ptrs.count q ≤ lv m q := by
    intro q
    have := refs_get hl q
    have h2 := h q
    simp [Arr.refs, hp] at h2
    omega
  obtain ⟨m', e, b, x, d⟩ := clearCons_ok hc
  exact ⟨m', by simp [clearIndex, hr, e], b, x, d⟩

theorem freeEnv_ok {m : Mem} {e : ℕ} (h : 1 ≤ m.env e) :
    ∃ m', m.freeEnv e = some m' ∧ (∀ x, m'.env x + [e].count x = m.env x) ∧ m'.live = m.live ∧
      m'.next = m.next := by
  refine ⟨{ m with env := fun x => if x = e then m.env e - 1 else m.env x },
    by unfold Mem.freeEnv; rw [if_neg (by omega)], ?_, rfl, rfl⟩
  intro x
  by_cases hx : x = e
  · subst hx; simp; omega
  · have : e ≠ x := fun h => hx h.symm
    simp [hx, List.count_cons, this]

theorem copyEnv_ok {m : Mem} {e : ℕ} (h : 1 ≤ m.env e) :
    ∃ m', m.copyEnv e = some m' ∧ (∀ x, m'.env x = m.env x + [e].count x) ∧ m'.live = m.live ∧
      m'.next = m.next := by
  refine ⟨{ m with env := fun x => if x = e then m.env e + 1 else m.env x },
    by unfold Mem.copyEnv; rw [if_neg (by omega)], ?_, rfl, rfl⟩
  intro x
  by_cases hx : x = e
  · subst hx; simp
  · have : e ≠ x := fun h => hx h.symm
    simp [hx, List.count_cons, this]

theorem lv_congr {m m' : Mem} (h : m'.live = m.live) (q : ℕ) : lv m' q = lv m q := by
  unfold lv; rw [h]

theorem alloc_ok {m : Mem} (h : ∀ q, m.next ≤ q → m.live q = false) :
    (∀ q, lv m.alloc.2 q = lv m q + [m.next].count q) ∧
      (∀ q, m.alloc.2.next ≤ q → m.alloc.2.live q = false) ∧ m.alloc.2.env = m.env ∧
      m.alloc.2.next = m.next + 1 := by
  refine ⟨?_, ?_, rfl, rfl⟩
  · intro q
    by_cases hq : q = m.next
    · subst hq; simp [lv, Mem.alloc, h]
    · have : m.next ≠ q := fun e => hq e.symm
      simp [lv, Mem.alloc, hq, List.count_cons, this]
  · intro q hq
    simp only [Mem.alloc] at hq ⊢
    rw [if_neg (by omega)]
    exact h q (by omega)

theorem ownRefs_eraseIdx (l : List Cons1) : ∀ (k : ℕ) (c : Cons1), l[k]? = some c → ∀ q,
    (ownRefs (l.eraseIdx k)).count q + c.c.ptrs.count q = (ownRefs l).count q := by
  induction l with
  | nil => intro k c h; simp at h
  | cons d l ih =>
    intro k c h q
    cases k with
    | zero => simp at h; subst h; simp [ownRefs, List.count_append]; omega
    | succ k =>
      simp at h
      have := ih k c h q
      simp only [List.eraseIdx_cons_succ, ownRefs, List.count_append]; omega

theorem ownEnvs_eraseIdx (l : List Cons1) : ∀ (k : ℕ) (c : Cons1), l[k]? = some c → ∀ x,
    (ownEnvs (l.eraseIdx k)).count x + [c.env].count x = (ownEnvs l).count x := by
  induction l with
  | nil => intro k c h; simp at h
  | cons d l ih =>
    intro k c h x
    cases k with
    | zero =>
      simp at h; subst h
      simp only [List.eraseIdx_cons_zero, ownEnvs, List.map_cons, List.count_cons, List.count_nil]
      omega
    | succ k =>
      simp at h
      have := ih k c h x
      simp only [List.eraseIdx_cons_succ, ownEnvs, List.map_cons, List.count_cons] at this ⊢; omega

theorem readable_good {m : Mem} {a : Arr} (ha : a.Good) (h : ∀ q, a.refs.count q ≤ lv m q) :
    readable m (a.p.getD []) = true := by
  unfold readable
  rw [List.all_eq_true]
  intro o ho
  cases o with
  | none => exact absurd ho (good_none ha)
  | some c =>
    cases hc : c.expr with
    | none => simp [hc]
    | some p =>
      simp only [hc]
      have : p ∈ a.refs := mem_refs.2 ⟨c, ho, Or.inl hc⟩
      have h1 := List.count_pos_iff.2 this
      have h2 := h p
      exact lv_pos.1 (by omega)

end Apron.ConsArr
