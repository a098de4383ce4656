import Verif.Core.Compare

/-! # Helper lemmas: comparison of linear expressions -/

set_option autoImplicit false
set_option linter.unusedSectionVars false
set_option linter.ambiguousOpen false

namespace Apron
open Bound
variable {K : Type*} [LinearOrder K] [Field K] [IsStrictOrderedRing K]

namespace Coeff

/-- Specification: two coefficients have the same values -/
def SameValues (c c' : Coeff K) : Prop := ∀ q, c.Has q ↔ c'.Has q

theorem reduce_has (c : Coeff K) (q : K) : c.reduce.Has q ↔ c.Has q := by
  cases c with
  | scalar b => exact Iff.rfl
  | interval l u =>
    simp only [reduce]
    split_ifs with e
    · subst e
      simp only [Has]
      exact ⟨fun h => ⟨h.le, h.ge⟩, fun h => le_antisymm h.1 h.2⟩
    · exact Iff.rfl

theorem exists_gt {a : K} {u : Bound K} (h : fin a < u) : ∃ r, a < r ∧ fin r ≤ u := by
  cases u with
  | ninf => exact absurd h (by simp)
  | fin b => exact ⟨b, (Bound.fin_lt_fin _ _).1 h, le_refl _⟩
  | pinf => exact ⟨a + 1, by simp, by simp⟩

theorem exists_lt {a : K} {l : Bound K} (h : l < fin a) : ∃ r, r < a ∧ l ≤ fin r := by
  cases l with
  | pinf => exact absurd h (by simp)
  | fin b => exact ⟨b, (Bound.fin_lt_fin _ _).1 h, le_refl _⟩
  | ninf => exact ⟨a - 1, by simp, by simp⟩

theorem sup_le_of_sub {l u l' u' : Bound K} {q0 : K} (h0 : l ≤ fin q0) (h1 : fin q0 ≤ u')
    (hu : fin q0 ≤ u) (h : ∀ q, (l ≤ fin q ∧ fin q ≤ u) → (l' ≤ fin q ∧ fin q ≤ u')) : u ≤ u' := by
  by_contra hc
  push Not at hc
  cases u' with
  | ninf => exact absurd h1 (by simp)
  | pinf => exact absurd hc (by simp)
  | fin a =>
    obtain ⟨r, hr, hru⟩ := exists_gt hc
    have h2 := (h r ⟨h0.trans (h1.trans ((Bound.fin_le_fin _ _).2 hr.le)), hru⟩).2
    rw [Bound.fin_le_fin] at h2
    exact absurd hr (not_lt.2 h2)

theorem inf_le_of_sub {l u l' u' : Bound K} {q0 : K} (h0 : fin q0 ≤ u) (h1 : l' ≤ fin q0)
    (hl : l ≤ fin q0) (h : ∀ q, (l ≤ fin q ∧ fin q ≤ u) → (l' ≤ fin q ∧ fin q ≤ u')) : l' ≤ l := by
  by_contra hc
  push Not at hc
  cases l' with
  | pinf => exact absurd h1 (by simp)
  | ninf => exact absurd hc (by simp)
  | fin a =>
    obtain ⟨r, hr, hru⟩ := exists_lt hc
    have h2 := (h r ⟨hru, ((Bound.fin_le_fin _ _).2 hr.le).trans (h1.trans h0)⟩).1
    rw [Bound.fin_le_fin] at h2
    exact absurd hr (not_lt.2 h2)

/-- a proper interval is empty exactly when its bounds are in the wrong order -/
theorem exists_has {l u : Bound K} (hl : l ≠ pinf) (hu : u ≠ ninf) :
    (∃ q, l ≤ fin q ∧ fin q ≤ u) ↔ l ≤ u := by
  constructor
  · rintro ⟨q, h1, h2⟩; exact h1.trans h2
  · intro h
    cases l with
    | pinf => exact absurd rfl hl
    | fin a => exact ⟨a, le_refl _, h⟩
    | ninf =>
      cases u with
      | ninf => exact absurd rfl hu
      | fin b => exact ⟨b, by simp, le_refl _⟩
      | pinf => exact ⟨0, by simp, by simp⟩

theorem equal_reduce_iff {c c' : Coeff K} (h : c.Proper) (h' : c'.Proper) :
    c.reduce.equal c'.reduce = true ↔ SameValues c c' := by
  have hi : ∀ {l1 u1 l2 u2 : Bound K}, l1 ≠ pinf → u1 ≠ ninf → l2 ≠ pinf → u2 ≠ ninf →
      (intervalEqual l1 u1 l2 u2 = true ↔ SameValues (interval l1 u1) (interval l2 u2)) := by
    intro l1 u1 l2 u2 a1 a2 a3 a4
    unfold intervalEqual
    by_cases he : l1 = l2 ∧ u1 = u2
    · obtain ⟨rfl, rfl⟩ := he
      rw [if_pos (by simp [scalarEqual_iff])]
      exact ⟨fun _ _ => Iff.rfl, fun _ => rfl⟩
    · rw [if_neg (by simpa [scalarEqual_iff] using he), Bool.and_eq_true, intervalIsBottom_iff,
        intervalIsBottom_iff]
      constructor
      · rintro ⟨h1, h2⟩ q
        have n1 : ¬ ∃ q, l1 ≤ fin q ∧ fin q ≤ u1 := by rw [exists_has a1 a2]; exact not_le.2 h1
        have n2 : ¬ ∃ q, l2 ≤ fin q ∧ fin q ≤ u2 := by rw [exists_has a3 a4]; exact not_le.2 h2
        exact ⟨fun hq => (n1 ⟨q, hq⟩).elim, fun hq => (n2 ⟨q, hq⟩).elim⟩
      · intro hs
        have hne : ¬ l1 ≤ u1 := by
          intro hle
          obtain ⟨q0, hq1, hq2⟩ := (exists_has a1 a2).2 hle
          obtain ⟨hq3, hq4⟩ := (hs q0).1 ⟨hq1, hq2⟩
          have s1 := fun q => (hs q).1
          have s2 := fun q => (hs q).2
          exact he ⟨le_antisymm (inf_le_of_sub hq4 hq1 hq3 s2) (inf_le_of_sub hq2 hq3 hq1 s1),
            le_antisymm (sup_le_of_sub hq1 hq4 hq2 s1) (sup_le_of_sub hq3 hq2 hq4 s2)⟩
        have hne2 : ¬ l2 ≤ u2 := by
          rw [← exists_has a3 a4]
          rintro ⟨q, hq⟩
          exact hne ((exists_has a1 a2).1 ⟨q, (hs q).2 hq⟩)
        exact ⟨not_le.1 hne, not_le.1 hne2⟩
  have hs : ∀ {a l u : Bound K}, infty a = false → l ≠ u → ¬ SameValues (scalar a) (interval l u) := by
    intro a l u ha hlu hsv
    cases a with
    | ninf => simp [infty] at ha
    | pinf => simp [infty] at ha
    | fin p =>
      obtain ⟨h1, h2⟩ := (hsv p).1 rfl
      rcases h1.lt_or_eq with h1 | h1
      · obtain ⟨r, hr, hrl⟩ := exists_lt h1
        have := (hsv r).2 ⟨hrl, ((Bound.fin_le_fin _ _).2 hr.le).trans h2⟩
        simp only [Has, Bound.fin.injEq] at this
        exact hr.ne' this
      · rcases h2.lt_or_eq with h2 | h2
        · obtain ⟨r, hr, hrl⟩ := exists_gt h2
          have := (hsv r).2 ⟨h1.le.trans ((Bound.fin_le_fin _ _).2 hr.le), hrl⟩
          simp only [Has, Bound.fin.injEq] at this
          exact hr.ne this
        · exact hlu (h1.trans h2)
  have hr : ∀ c c' : Coeff K, SameValues c c' ↔ SameValues c.reduce c'.reduce := by
    intro c c'
    simp only [SameValues, reduce_has]
  rw [hr]
  have hsc : ∀ {a b : Bound K}, infty a = false → (scalarEqual a b = true ↔ SameValues (scalar a) (scalar b)) := by
    intro a b ha
    rw [scalarEqual_iff]
    constructor
    · rintro rfl q; exact Iff.rfl
    · intro hsv
      cases a with
      | ninf => simp [infty] at ha
      | pinf => simp [infty] at ha
      | fin p => exact ((hsv p).1 rfl).symm
  have hpr : ∀ c : Coeff K, c.Proper → (∃ b, c.reduce = scalar b ∧ infty b = false) ∨
      (∃ l u, c.reduce = interval l u ∧ l ≠ u ∧ l ≠ pinf ∧ u ≠ ninf) := by
    intro c hc
    cases c with
    | scalar b => exact Or.inl ⟨b, rfl, hc⟩
    | interval l u =>
      simp only [reduce]
      split_ifs with e
      · subst e
        refine Or.inl ⟨l, rfl, ?_⟩
        obtain ⟨h1, h2⟩ := hc
        cases l with
        | ninf => exact absurd rfl h2
        | fin _ => rfl
        | pinf => exact absurd rfl h1
      · exact Or.inr ⟨l, u, rfl, e, hc.1, hc.2⟩
  rcases hpr c h with ⟨b, e, hb⟩ | ⟨l, u, e, hlu, hl, hu⟩ <;>
    rcases hpr c' h' with ⟨b', e', hb'⟩ | ⟨l', u', e', hlu', hl', hu'⟩ <;> rw [e, e']
  · exact hsc hb
  · simp only [equal, Bool.false_eq_true, false_iff]; exact hs hb hlu'
  · simp only [equal, Bool.false_eq_true, false_iff]
    exact fun h => hs hb' hlu fun q => (h q).symm
  · exact hi hl hu hl' hu'

theorem proper_czero : (Linexpr.czero : Coeff K).Proper := rfl

theorem isZero_reduce_iff {c : Coeff K} : c.reduce.isZero = true ↔
    c.reduce.equal (Linexpr.czero : Coeff K).reduce = true := by
  cases c with
  | scalar b =>
    simp only [reduce, isZero, equal, Linexpr.czero, scalarEqual_iff, decide_eq_true_eq, sgn_zero_iff]
  | interval l u =>
    simp only [reduce]
    split_ifs with e
    · subst e
      simp only [reduce, isZero, equal, Linexpr.czero, scalarEqual_iff, decide_eq_true_eq, sgn_zero_iff]
    · simp only [isZero, Linexpr.czero, reduce, equal, Bool.and_eq_true, decide_eq_true_eq, sgn_zero_iff,
        Bool.false_eq_true, iff_false]
      rintro ⟨rfl, rfl⟩
      exact e rfl

theorem zero_reduce_iff {c : Coeff K} (h : c.Proper) :
    c.reduce.isZero = true ↔ SameValues c Linexpr.czero := by
  rw [isZero_reduce_iff, equal_reduce_iff h proper_czero]

end Coeff

namespace Linexpr
open Coeff

/-- free slots hold the coefficient 0 (what `ap_linexpr0_alloc` and `ap_linexpr0_realloc`
establish) -/
def FreeZero (l : List (ℕ × Coeff K)) : Prop := ∀ p ∈ l, p.1 = dimMax → p.2 = czero

/-- coefficient of `d` in an array -/
def look (l : List (ℕ × Coeff K)) (d : ℕ) : Coeff K := (l.lookup d).getD czero

theorem look_cons_self (d : ℕ) (c : Coeff K) (l : List (ℕ × Coeff K)) : look ((d, c) :: l) d = c := by
  simp [look]

theorem look_cons_ne {d a : ℕ} (h : d ≠ a) (c : Coeff K) (l : List (ℕ × Coeff K)) :
    look ((a, c) :: l) d = look l d := by
  unfold look
  rw [List.lookup_cons, show (d == a) = false by simpa using h]

theorem look_not_mem {l : List (ℕ × Coeff K)} {d : ℕ} (h : ∀ p ∈ l, p.1 = d → p.2 = czero) :
    look l d = czero := by
  induction l with
  | nil => rfl
  | cons p l ih =>
    obtain ⟨a, c⟩ := p
    by_cases e : d = a
    · subst e; rw [look_cons_self]; exact h (d, c) (by simp) rfl
    · rw [look_cons_ne e]; exact ih fun p hp => h p (List.mem_cons_of_mem _ hp)

theorem look_tail {a : ℕ} {c : Coeff K} {l : List (ℕ × Coeff K)} (hw : SparseWf ((a, c) :: l))
    (hf : FreeZero ((a, c) :: l)) : look l a = czero := by
  rw [sparseWf_cons] at hw
  refine look_not_mem fun p hp e => ?_
  rcases hw.2.2 p hp with h | h
  · simp only at h; omega
  · exact hf p (List.mem_cons_of_mem _ hp) h

theorem look_lt {a : ℕ} {c : Coeff K} {l : List (ℕ × Coeff K)} (hw : SparseWf ((a, c) :: l)) {d : ℕ}
    (hd : d < a) : look ((a, c) :: l) d = czero := by
  rw [sparseWf_cons] at hw
  refine look_not_mem fun p hp e => ?_
  rcases List.mem_cons.1 hp with rfl | hp
  · simp only at e; omega
  · rcases hw.2.2 p hp with h | h
    · simp only at h; omega
    · have := hw.1; simp only at this; omega

theorem FreeZero.tail {p : ℕ × Coeff K} {l : List (ℕ × Coeff K)} (h : FreeZero (p :: l)) : FreeZero l :=
  fun q hq => h q (List.mem_cons_of_mem _ hq)

/-- skipping the first term of the first array -/
theorem skip_iff {a : ℕ} {c : Coeff K} {l m : List (ℕ × Coeff K)} (hw : SparseWf ((a, c) :: l))
    (hf : FreeZero ((a, c) :: l)) (hm : look m a = czero) :
    (∀ d, SameValues (look ((a, c) :: l) d) (look m d)) ↔
      SameValues c czero ∧ ∀ d, SameValues (look l d) (look m d) := by
  constructor
  · intro h
    refine ⟨by have := h a; rwa [look_cons_self, hm] at this, fun d => ?_⟩
    by_cases e : d = a
    · subst e; rw [look_tail hw hf, hm]; exact fun _ => Iff.rfl
    · have := h d; rwa [look_cons_ne e] at this
  · rintro ⟨h1, h2⟩ d
    by_cases e : d = a
    · subst e; rw [look_cons_self, hm]; exact h1
    · rw [look_cons_ne e]; exact h2 d

theorem both_iff {a : ℕ} {c c' : Coeff K} {l m : List (ℕ × Coeff K)} (hw : SparseWf ((a, c) :: l))
    (hf : FreeZero ((a, c) :: l)) (hw' : SparseWf ((a, c') :: m)) (hf' : FreeZero ((a, c') :: m)) :
    (∀ d, SameValues (look ((a, c) :: l) d) (look ((a, c') :: m) d)) ↔
      SameValues c c' ∧ ∀ d, SameValues (look l d) (look m d) := by
  constructor
  · intro h
    refine ⟨by have := h a; rwa [look_cons_self, look_cons_self] at this, fun d => ?_⟩
    by_cases e : d = a
    · subst e; rw [look_tail hw hf, look_tail hw' hf']; exact fun _ => Iff.rfl
    · have := h d; rwa [look_cons_ne e, look_cons_ne e] at this
  · rintro ⟨h1, h2⟩ d
    by_cases e : d = a
    · subst e; rw [look_cons_self, look_cons_self]; exact h1
    · rw [look_cons_ne e, look_cons_ne e]; exact h2 d

theorem same_comm {l m : List (ℕ × Coeff K)} : (∀ d, SameValues (look l d) (look m d)) ↔
    ∀ d, SameValues (look m d) (look l d) :=
  ⟨fun h d q => (h d q).symm, fun h d q => (h d q).symm⟩

theorem equalLoop_spec (l1 l2 : List (ℕ × Coeff K)) (hw1 : SparseWf l1) (hw2 : SparseWf l2)
    (hf1 : FreeZero l1) (hf2 : FreeZero l2) (hp1 : ∀ p ∈ l1, p.2.Proper) (hp2 : ∀ p ∈ l2, p.2.Proper)
    (b : Bool) (h : equalLoop l1 l2 = some b) :
    b = true ↔ ∀ d, SameValues (look l1 d) (look l2 d) := by
  fun_induction equalLoop l1 l2 with
  | case1 =>
    cases h
    simp [SameValues]
  | case2 => exact absurd h (by simp)
  | case3 p1 l1 hd hz ih =>
    obtain ⟨a, c⟩ := p1
    have ih' := ih (sparseWf_cons.1 hw1).2.1 hw2 hf1.tail hf2
      (fun p hp => hp1 p (List.mem_cons_of_mem _ hp)) hp2 h
    rw [skip_iff hw1 hf1 rfl, ih']
    have := (zero_reduce_iff (hp1 (a, c) (by simp))).1 hz
    exact ⟨fun h => ⟨this, h⟩, fun h => h.2⟩
  | case4 p1 l1 hd hz =>
    obtain ⟨a, c⟩ := p1
    cases h
    rw [skip_iff hw1 hf1 rfl]
    simp only [Bool.false_eq_true, false_iff]
    exact fun h => hz ((zero_reduce_iff (hp1 (a, c) (by simp))).2 h.1)
  | case5 => exact absurd h (by simp)
  | case6 p2 l2 hd hz ih =>
    obtain ⟨a, c⟩ := p2
    have ih' := ih hw1 (sparseWf_cons.1 hw2).2.1 hf1 hf2.tail hp1
      (fun p hp => hp2 p (List.mem_cons_of_mem _ hp)) h
    rw [same_comm, skip_iff hw2 hf2 rfl, ih', same_comm]
    have := (zero_reduce_iff (hp2 (a, c) (by simp))).1 hz
    exact ⟨fun h => ⟨this, h⟩, fun h => h.2⟩
  | case7 p2 l2 hd hz =>
    obtain ⟨a, c⟩ := p2
    cases h
    rw [same_comm, skip_iff hw2 hf2 rfl]
    simp only [Bool.false_eq_true, false_iff]
    exact fun h => hz ((zero_reduce_iff (hp2 (a, c) (by simp))).2 h.1)
  | case8 p1 l1 p2 l2 hd he ih =>
    obtain ⟨a, c⟩ := p1
    obtain ⟨a', c'⟩ := p2
    simp only at hd
    subst hd
    have ih' := ih (sparseWf_cons.1 hw1).2.1 (sparseWf_cons.1 hw2).2.1 hf1.tail hf2.tail
      (fun p hp => hp1 p (List.mem_cons_of_mem _ hp)) (fun p hp => hp2 p (List.mem_cons_of_mem _ hp)) h
    rw [both_iff hw1 hf1 hw2 hf2, ih']
    have := (equal_reduce_iff (hp1 (a, c) (by simp)) (hp2 (a, c') (by simp))).1 he
    exact ⟨fun h => ⟨this, h⟩, fun h => h.2⟩
  | case9 p1 l1 p2 l2 hd he =>
    obtain ⟨a, c⟩ := p1
    obtain ⟨a', c'⟩ := p2
    simp only at hd
    subst hd
    cases h
    rw [both_iff hw1 hf1 hw2 hf2]
    simp only [Bool.false_eq_true, false_iff]
    exact fun h => he ((equal_reduce_iff (hp1 (a, c) (by simp)) (hp2 (a, c') (by simp))).2 h.1)
  | case10 p1 l1 p2 l2 hd hlt hz ih =>
    obtain ⟨a, c⟩ := p1
    obtain ⟨a', c'⟩ := p2
    have ih' := ih (sparseWf_cons.1 hw1).2.1 hw2 hf1.tail hf2
      (fun p hp => hp1 p (List.mem_cons_of_mem _ hp)) hp2 h
    rw [skip_iff hw1 hf1 (look_lt hw2 hlt), ih']
    have := (zero_reduce_iff (hp1 (a, c) (by simp))).1 hz
    exact ⟨fun h => ⟨this, h⟩, fun h => h.2⟩
  | case11 p1 l1 p2 l2 hd hlt hz =>
    obtain ⟨a, c⟩ := p1
    obtain ⟨a', c'⟩ := p2
    cases h
    rw [skip_iff hw1 hf1 (look_lt hw2 hlt)]
    simp only [Bool.false_eq_true, false_iff]
    exact fun h => hz ((zero_reduce_iff (hp1 (a, c) (by simp))).2 h.1)
  | case12 p1 l1 p2 l2 hd hlt hz ih =>
    obtain ⟨a, c⟩ := p1
    obtain ⟨a', c'⟩ := p2
    simp only at hd hlt
    have ih' := ih hw1 (sparseWf_cons.1 hw2).2.1 hf1 hf2.tail
      hp1 (fun p hp => hp2 p (List.mem_cons_of_mem _ hp)) h
    rw [same_comm, skip_iff hw2 hf2 (look_lt hw1 (by omega)), ih', same_comm]
    have := (zero_reduce_iff (hp2 (a', c') (by simp))).1 hz
    exact ⟨fun h => ⟨this, h⟩, fun h => h.2⟩
  | case13 p1 l1 p2 l2 hd hlt hz =>
    obtain ⟨a, c⟩ := p1
    obtain ⟨a', c'⟩ := p2
    simp only at hd hlt
    cases h
    rw [same_comm, skip_iff hw2 hf2 (look_lt hw1 (by omega))]
    simp only [Bool.false_eq_true, false_iff]
    exact fun h => hz ((zero_reduce_iff (hp2 (a', c') (by simp))).2 h.1)

/-- without free slots the loop does not read past an array -/
theorem equalLoop_total (l1 l2 : List (ℕ × Coeff K)) (h1 : ∀ p ∈ l1, p.1 ≠ dimMax)
    (h2 : ∀ p ∈ l2, p.1 ≠ dimMax) : (equalLoop l1 l2).isSome = true := by
  fun_induction equalLoop l1 l2 with
  | case1 => rfl
  | case2 p1 l1 hd => exact absurd hd (h1 p1 (by simp))
  | case3 p1 l1 hd hz ih => exact ih (fun p hp => h1 p (List.mem_cons_of_mem _ hp)) h2
  | case4 => rfl
  | case5 p2 l2 hd => exact absurd hd.symm (h2 p2 (by simp))
  | case6 p2 l2 hd hz ih => exact ih h1 fun p hp => h2 p (List.mem_cons_of_mem _ hp)
  | case7 => rfl
  | case8 p1 l1 p2 l2 hd he ih =>
    exact ih (fun p hp => h1 p (List.mem_cons_of_mem _ hp)) fun p hp => h2 p (List.mem_cons_of_mem _ hp)
  | case9 => rfl
  | case10 p1 l1 p2 l2 hd hlt hz ih => exact ih (fun p hp => h1 p (List.mem_cons_of_mem _ hp)) h2
  | case11 => rfl
  | case12 p1 l1 p2 l2 hd hlt hz ih => exact ih h1 fun p hp => h2 p (List.mem_cons_of_mem _ hp)
  | case13 => rfl

/-- the coefficient is a scalar or a non-empty interval -/
def _root_.Apron.Coeff.Nonempty : Coeff K → Prop
  | .scalar _ => True
  | .interval l u => l ≤ u

theorem cmp_reduce_zero {c c' : Coeff K} (h : c.Nonempty) (h' : c'.Nonempty) :
    c.reduce.cmp c'.reduce = 0 ↔ c.reduce.equal c'.reduce = true := by
  have hr : ∀ c : Coeff K, c.Nonempty → c.reduce.Nonempty := by
    intro c hc
    cases c with
    | scalar b => exact hc
    | interval l u => simp only [Coeff.reduce]; split_ifs <;> first | trivial | exact hc
  have h := hr c h
  have h' := hr c' h'
  generalize c.reduce = c at *
  generalize c'.reduce = c' at *
  cases c with
  | scalar a =>
    cases c' with
    | scalar b => simp only [Coeff.cmp, Coeff.equal, scalarCmp_eq, scalarEqual_iff, Bound.cmp_eq_zero]
    | interval l u => simp [Coeff.cmp, Coeff.equal]
  | interval l u =>
    cases c' with
    | scalar b => simp [Coeff.cmp, Coeff.equal]
    | interval l' u' =>
      simp only [Coeff.cmp, Coeff.equal, intervalCmp_zero h h', intervalEqual]
      by_cases e : l = l' ∧ u = u'
      · rw [if_pos (by simpa [scalarEqual_iff] using e)]; simp [e]
      · rw [if_neg (by simpa [scalarEqual_iff] using e), Bool.and_eq_true, intervalIsBottom_iff]
        simp only [e, false_iff, not_and]
        exact fun h1 => absurd h1 (not_lt.2 h)

theorem boolOfInt_zero {i : ℤ} : boolOfInt i = 0 ↔ i = 0 := by
  unfold boolOfInt; split_ifs with h <;> simp [h]

theorem boolOfInt_of_ne {i : ℤ} (h : boolOfInt i ≠ 0) : boolOfInt i = 1 := by
  unfold boolOfInt at *; split_ifs with h' <;> simp_all

theorem compareLoop_eq (l1 l2 : List (ℕ × Coeff K)) (h1 : ∀ p ∈ l1, p.2.Nonempty)
    (h2 : ∀ p ∈ l2, p.2.Nonempty) :
    compareLoop l1 l2 = (equalLoop l1 l2).map fun b => if b then 0 else 1 := by
  have hz : ∀ c : Coeff K, c.Nonempty →
      (boolOfInt (c.reduce.cmp (.scalar (fin 0))) = 0 ↔ c.reduce.isZero = true) := by
    intro c hc
    rw [boolOfInt_zero, isZero_reduce_iff]
    exact cmp_reduce_zero (c' := czero) hc trivial
  have hz' : ∀ c : Coeff K, c.Nonempty →
      (boolOfInt ((Coeff.scalar (fin 0)).cmp c.reduce) = 0 ↔ c.reduce.isZero = true) := by
    intro c hc
    rw [← hz c hc, boolOfInt_zero, boolOfInt_zero]
    have e : ∀ c : Coeff K, (Coeff.scalar (fin 0)).cmp c = 0 ↔ c.cmp (Coeff.scalar (fin 0)) = 0 := by
      intro c
      cases c with
      | scalar b => simp only [Coeff.cmp, scalarCmp_eq, Bound.cmp_eq_zero]; exact eq_comm
      | interval l u => simp [Coeff.cmp]
    exact e _
  fun_induction equalLoop l1 l2 with
  | case1 => simp [compareLoop]
  | case2 p1 l1 hd => rw [compareLoop, if_pos hd]; rfl
  | case3 p1 l1 hd hz1 ih =>
    rw [compareLoop, if_neg hd]
    simp only
    rw [if_pos ((hz _ (h1 p1 (by simp))).2 hz1)]
    exact ih (fun p hp => h1 p (List.mem_cons_of_mem _ hp)) h2
  | case4 p1 l1 hd hz1 =>
    rw [compareLoop, if_neg hd]
    have hn : ¬ boolOfInt (p1.2.reduce.cmp (.scalar (fin 0))) = 0 := fun e =>
      hz1 ((hz _ (h1 p1 (by simp))).1 e)
    simp only
    rw [if_neg hn, boolOfInt_of_ne hn]; rfl
  | case5 p2 l2 hd => rw [compareLoop, if_pos hd]; rfl
  | case6 p2 l2 hd hz1 ih =>
    rw [compareLoop, if_neg hd]
    simp only
    rw [if_pos ((hz' _ (h2 p2 (by simp))).2 hz1)]
    exact ih h1 fun p hp => h2 p (List.mem_cons_of_mem _ hp)
  | case7 p2 l2 hd hz1 =>
    rw [compareLoop, if_neg hd]
    have hn : ¬ boolOfInt ((Coeff.scalar (fin 0)).cmp p2.2.reduce) = 0 := fun e =>
      hz1 ((hz' _ (h2 p2 (by simp))).1 e)
    simp only
    rw [if_neg hn, boolOfInt_of_ne hn]; rfl
  | case8 p1 l1 p2 l2 hd he ih =>
    rw [compareLoop, if_pos hd]
    simp only
    rw [if_pos (boolOfInt_zero.2 ((cmp_reduce_zero (h1 p1 (by simp)) (h2 p2 (by simp))).2 he))]
    exact ih (fun p hp => h1 p (List.mem_cons_of_mem _ hp)) fun p hp => h2 p (List.mem_cons_of_mem _ hp)
  | case9 p1 l1 p2 l2 hd he =>
    rw [compareLoop, if_pos hd]
    have hn : ¬ boolOfInt (p1.2.reduce.cmp p2.2.reduce) = 0 := fun e =>
      he ((cmp_reduce_zero (h1 p1 (by simp)) (h2 p2 (by simp))).1 (boolOfInt_zero.1 e))
    simp only
    rw [if_neg hn, boolOfInt_of_ne hn]; rfl
  | case10 p1 l1 p2 l2 hd hlt hz1 ih =>
    rw [compareLoop, if_neg hd, if_pos hlt]
    simp only
    rw [if_pos ((hz _ (h1 p1 (by simp))).2 hz1)]
    exact ih (fun p hp => h1 p (List.mem_cons_of_mem _ hp)) h2
  | case11 p1 l1 p2 l2 hd hlt hz1 =>
    rw [compareLoop, if_neg hd, if_pos hlt]
    have hn : ¬ boolOfInt (p1.2.reduce.cmp (.scalar (fin 0))) = 0 := fun e =>
      hz1 ((hz _ (h1 p1 (by simp))).1 e)
    simp only
    rw [if_neg hn, boolOfInt_of_ne hn]; rfl
  | case12 p1 l1 p2 l2 hd hlt hz1 ih =>
    rw [compareLoop, if_neg hd, if_neg hlt]
    simp only
    rw [if_pos ((hz' _ (h2 p2 (by simp))).2 hz1)]
    exact ih h1 fun p hp => h2 p (List.mem_cons_of_mem _ hp)
  | case13 p1 l1 p2 l2 hd hlt hz1 =>
    rw [compareLoop, if_neg hd, if_neg hlt]
    have hn : ¬ boolOfInt ((Coeff.scalar (fin 0)).cmp p2.2.reduce) = 0 := fun e =>
      hz1 ((hz' _ (h2 p2 (by simp))).1 e)
    simp only
    rw [if_neg hn, boolOfInt_of_ne hn]; rfl

end Linexpr
end Apron
