import Verif.Props.ZonoInst
import Verif.Zono.JoinLemmas

/-!
# C151: lattice operations of affine forms

`Gam pr a x` (Zono/State.lean): `x` is a point of the abstract value `a`.
-/

set_option autoImplicit false
set_option linter.unusedSectionVars false
set_option linter.ambiguousOpen false

namespace Apron
open Bound T1p
variable {K : Type*} [LinearOrder K] [Field K] [IsStrictOrderedRing K] [FloorRing K] {R : Rnd K}

namespace T1p

theorem Same.gam_iff {pr pr' : Pr K} (h : Same pr pr') {c : T1 K} (hc : ∀ i < c.n, c.paf i < pr.next) {x : ℕ → K} :
    Gam pr' c x ↔ Gam pr c x := by
  constructor
  · rintro ⟨h1, ε, h2, h3⟩
    exact ⟨h1, ε, h2, fun i hi => ⟨(h3 i hi).1, (h3 i hi).2.congr_form (h.c _ (hc i hi)) (h.q _ (hc i hi))⟩⟩
  · rintro ⟨h1, ε, h2, h3⟩
    exact ⟨h1, ε, h2, fun i hi => ⟨(h3 i hi).1, (h3 i hi).2.congr_form (h.c _ (hc i hi)).symm (h.q _ (hc i hi)).symm⟩⟩

theorem isLeq_mem {a b : Itv K} (h : Itv.isLeq a b = true) {x : K} (hx : x ∈ a) : x ∈ b := by
  unfold Itv.isLeq at h
  split_ifs at h with h1 h2
  · exfalso
    have := Itv.not_isBottom hx
    rcases a with ⟨i, s⟩
    simp only [Itv.isCanonicalBottom, Bool.and_eq_true] at h1
    cases i <;> cases s <;> simp_all [Itv.mem_def]
    linarith [hx.1, hx.2]
  · rw [Bool.and_eq_true, decide_eq_true_eq, decide_eq_true_eq] at h
    exact ⟨le_trans hx.1 ((Bound.cmp_le_zero _ _).1 h.2), le_trans hx.2 ((Bound.cmp_le_zero _ _).1 h.1)⟩

theorem leqDims_same {a b : T1 K} : ∀ (l : List ℕ) (pr : Pr K), Same pr (leqDims R a b l pr).2
  | [], pr => .refl _
  | i :: l, pr => by
    simp only [leqDims]
    by_cases h1 : (!Itv.isLeq (a.box i) (b.box i)) = true
    · rw [if_pos h1]; exact .refl _
    · rw [if_neg h1]
      by_cases h2 : a.paf i ≠ b.paf i
      · rw [if_pos h2]
        exact ((same_setItv _ _ _).trans (same_setItv _ _ _)).trans (leqDims_same l _)
      · rw [if_neg h2]; exact leqDims_same l _

theorem leqDims_true {a b : T1 K} : ∀ (l : List ℕ) (pr : Pr K), (leqDims R a b l pr).1 = true → ∀ i ∈ l, Itv.isLeq (a.box i) (b.box i) = true ∧
    (a.paf i = b.paf i ∨ (b.paf i < pr.next → (pr.heap (b.paf i)).q = [] → Itv.isLeq (a.box i) (pr.heap (b.paf i)).c = true))
  | [], pr, _ => by simp
  | k :: l, pr, h => by
    simp only [leqDims] at h
    by_cases h1 : (!Itv.isLeq (a.box k) (b.box k)) = true
    · rw [if_pos h1] at h; cases h
    · rw [if_neg h1] at h
      have hk : Itv.isLeq (a.box k) (b.box k) = true := by simpa using h1
      intro i hi
      by_cases h2 : a.paf k ≠ b.paf k
      · rw [if_pos h2] at h
        dsimp only at h
        rw [Bool.and_eq_true] at h
        have hS : Same pr (setItv (setItv pr (a.paf k) (a.box k)) (b.paf k) (b.box k)) := (same_setItv _ _ _).trans (same_setItv _ _ _)
        rcases List.mem_cons.1 hi with rfl | hi
        · refine ⟨hk, .inr fun hlt hq => ?_⟩
          have h3 := h.1
          unfold affLeq at h3
          rw [if_pos (by rw [hS.q _ hlt, hq]; rfl), hS.c _ hlt] at h3
          have : ((setItv (setItv pr (a.paf i) (a.box i)) (b.paf i) (b.box i)).heap (a.paf i)).itv = a.box i := by
            simp [setItv, Function.update_of_ne h2]
          rw [this] at h3
          exact h3
        · refine ⟨(leqDims_true l _ h.2 i hi).1, (leqDims_true l _ h.2 i hi).2.imp_right fun g hlt hq => ?_⟩
          rw [← hS.c _ hlt]
          exact g (lt_of_lt_of_le hlt hS.next) (by rw [hS.q _ hlt]; exact hq)
      · rw [if_neg h2] at h
        rcases List.mem_cons.1 hi with rfl | hi
        · exact ⟨hk, .inl (by simpa using h2)⟩
        · exact leqDims_true l _ h i hi

theorem meetStep_same {a1 a2 : T1 K} {pr : Pr K} {i : ℕ} {s : Pr K × ℕ × Itv K} (h : meetStep R a1 a2 pr i = some s) : Same pr s.1 := by
  unfold meetStep at h
  dsimp only at h
  split_ifs at h <;> (cases h; first | exact .refl _ | exact same_newAff _ _ (le_refl _) | exact same_newAff _ _ addItv_zero_wf.2.2)

theorem meetLoop_same {a1 a2 : T1 K} : ∀ (l : List ℕ) (pr : Pr K) (r : T1 K), Same pr (meetLoop R a1 a2 l pr r).1
  | [], pr, r => .refl _
  | i :: l, pr, r => by
    simp only [meetLoop]
    cases h : meetStep R a1 a2 pr i with
    | none => exact .refl _
    | some s => exact (meetStep_same h).trans (meetLoop_same l _ _)

theorem joinForm_nsym {k : ℕ} {e1 e2 A : Aff K} {k' : ℕ} (h : joinForm R k e1 e2 = some (.fresh A k')) : k ≤ k' := by
  unfold joinForm at h
  dsimp only at h
  split_ifs at h with h0
  · rw [Option.some.injEq, JRes.fresh.injEq] at h
    obtain ⟨rfl, rfl⟩ := h
    exact addItv_zero_wf.2.2
  · unfold joinEnd at h
    split at h
    · dsimp only at h
      split at h
      · rw [Option.some.injEq] at h
        split_ifs at h
      · rw [Option.some.injEq, JRes.fresh.injEq] at h
        obtain ⟨rfl, rfl⟩ := h
        unfold nsymCreate
        split_ifs
        · exact le_refl _
        · exact Nat.le_succ _
    · cases h

theorem joinStep_same {a1 a2 : T1 K} {pr : Pr K} {i : ℕ} {s : Pr K × ℕ} (h : joinStep R a1 a2 pr i = some s) : Same pr s.1 := by
  have hS : Same pr (setItv (setItv pr (a1.paf i) (a1.box i)) (a2.paf i) (a2.box i)) := (same_setItv _ _ _).trans (same_setItv _ _ _)
  unfold joinStep at h
  dsimp only at h
  split_ifs at h
  · cases h; exact .refl _
  · cases h; exact .refl _
  · cases h; exact .refl _
  · cases h; exact same_newAff _ _ (le_refl _)
  · split at h
    · cases h
    · cases h; exact hS
    · cases h; exact hS
    · rename_i hj
      cases h; exact hS.trans (same_newAff _ _ (joinForm_nsym hj))

theorem joinLoopDims_same {a1 a2 : T1 K} : ∀ {l : List ℕ} {pr : Pr K} {r : T1 K} {s : Pr K × T1 K}, joinLoopDims R a1 a2 l pr r = some s →
    Same pr s.1
  | [], pr, r, s, h => by
    obtain rfl : (pr, r) = s := by simpa [joinLoopDims] using h
    exact .refl _
  | i :: l, pr, r, s, h => by
    simp only [joinLoopDims] at h
    cases hj : joinStep R a1 a2 pr i with
    | none => rw [hj] at h; cases h
    | some t => rw [hj] at h; exact (joinStep_same hj).trans (joinLoopDims_same h)

theorem isBottom_false_of_gam {pr : Pr K} {a : T1 K} {x : ℕ → K} (h : Gam pr a x) {b : Bool} (hb : a.isBottom = some b) : b = false := by
  unfold T1.isBottom at hb
  split_ifs at hb with h0
  obtain ⟨_, ε, _, hx⟩ := h
  rw [Option.some.injEq] at hb
  rw [← hb, Bool.eq_false_iff]
  intro hall
  rw [List.all_eq_true] at hall
  have := hall 0 (List.mem_range.2 (by omega))
  rw [Itv.not_isBottom (hx 0 (by omega)).1] at this
  cases this

end T1p

namespace Props

/-! ## Equality -/

/-- C151: `t1p_is_eq` returns true exactly when the forms (centre and terms) and the boxes are the same. -/
theorem C151_is_eq {pr : Pr K} {a b : T1 K} : T1p.isEq pr a b = true ↔ ∀ i < a.n, (pr.heap (a.paf i)).c = (pr.heap (b.paf i)).c ∧
    (pr.heap (a.paf i)).q = (pr.heap (b.paf i)).q ∧ a.box i = b.box i := T1p.isEq_iff

/-- C151, in part: values reported as equal have the same points, if forms used by several dimensions are `pr->top` or
have points as centre and coefficients.  Without this see `C151_is_eq_sharing_wrong`. -/
theorem C151_is_eq_sound_partial {pr : Pr K} {a b : T1 K} (hn : b.n = a.n) (h : T1p.isEq pr a b = true)
    (ha : ∀ i < a.n, ∀ j < a.n, a.paf i = a.paf j → i = j ∨ a.paf i = topPtr ∨ PtF (pr.heap (a.paf i)))
    (hb : ∀ i < a.n, ∀ j < a.n, b.paf i = b.paf j → i = j ∨ b.paf i = topPtr ∨ PtF (pr.heap (b.paf i))) (x : ℕ → K) :
    Gam pr a x ↔ Gam pr b x := by
  rw [T1p.isEq_iff] at h
  constructor
  · rintro ⟨_, ε, h2, h3⟩
    have hv : ∀ i < a.n, (pr.heap (b.paf i)).Val ε (x i) := fun i hi => (h3 i hi).2.congr_form (h i hi).1 (h i hi).2.1
    refine ⟨fun i hi j hj e hp => ?_, ε, h2, fun i hi => ⟨(h i (hn ▸ hi)).2.2 ▸ (h3 i (hn ▸ hi)).1, hv i (hn ▸ hi)⟩⟩
    rcases hb i (hn ▸ hi) j (hn ▸ hj) e with rfl | g | g
    · rfl
    · exact absurd g hp
    · exact g.unique (hv i (hn ▸ hi)) (e ▸ hv j (hn ▸ hj))
  · rintro ⟨_, ε, h2, h3⟩
    have hv : ∀ i < a.n, (pr.heap (a.paf i)).Val ε (x i) := fun i hi => (h3 i (hn ▸ hi)).2.congr_form (h i hi).1.symm (h i hi).2.1.symm
    refine ⟨fun i hi j hj e hp => ?_, ε, h2, fun i hi => ⟨(h i hi).2.2.symm ▸ (h3 i (hn ▸ hi)).1, hv i hi⟩⟩
    rcases ha i hi j hj e with rfl | g | g
    · rfl
    · exact absurd g hp
    · exact g.unique (hv i hi) (e ▸ hv j hj)

/-! ## Inclusion -/

/-- C151: inclusion tests keep the points of all abstract values (they write the intervals of forms). -/
theorem C151_is_leq_keeps {pr : Pr K} {a b : T1 K} {r : Bool × Pr K} (h : T1p.isLeq R pr a b = some r) {c : T1 K}
    (hc : ∀ i < c.n, c.paf i < pr.next) (x : ℕ → K) : Gam r.2 c x ↔ Gam pr c x := by
  have : Same pr r.2 := by
    unfold T1p.isLeq at h
    cases h1 : a.isBottom with
    | none => rw [h1] at h; cases h
    | some b1 =>
    cases h2 : b.isBottom with
    | none => rw [h1, h2] at h; cases b1 <;> simp at h; cases h; exact .refl _
    | some b2 =>
    cases h3 : b.isTop with
    | none => rw [h1, h2, h3] at h; cases b1 <;> cases b2 <;> simp at h <;> cases h <;> exact .refl _
    | some b3 =>
    cases h4 : a.isTop with
    | none => rw [h1, h2, h3, h4] at h; cases b1 <;> cases b2 <;> cases b3 <;> simp at h <;> cases h <;> exact .refl _
    | some b4 =>
    rw [h1, h2, h3, h4] at h
    simp only [Option.bind_some] at h
    split_ifs at h <;> cases h <;> first | exact .refl _ | exact leqDims_same _ _
  exact this.gam_iff hc

/-- C151: if the inclusion test returns true, the points of the first value are in the box of the second. -/
theorem C151_is_leq_boxes {pr : Pr K} {a b : T1 K} (hn : b.n = a.n) (hb : ∀ i < b.n, (b.box i).inf ≠ ninf ∧ (b.box i).sup ≠ ninf)
    {pr' : Pr K} (h : T1p.isLeq R pr a b = some (true, pr')) {x : ℕ → K} (hx : Gam pr a x) {i : ℕ} (hi : i < a.n) : x i ∈ b.box i := by
  unfold T1p.isLeq at h
  obtain ⟨b1, h1, h⟩ := Option.bind_eq_some_iff.1 h
  rw [isBottom_false_of_gam hx h1] at h
  obtain ⟨b2, h2, h⟩ := Option.bind_eq_some_iff.1 h
  cases b2
  swap
  · simp at h
  obtain ⟨b3, h3, h⟩ := Option.bind_eq_some_iff.1 h
  cases b3
  swap
  · unfold T1.isTop at h3
    split_ifs at h3 with h0
    simp only [Option.some.injEq, List.all_eq_true, List.mem_range] at h3
    have := h3 i (by omega)
    simp only [Itv.isTop, Bool.and_eq_true] at this
    have hb' := hb i (by omega)
    clear hb h3
    generalize b.box i = d at this hb' ⊢
    rcases d with ⟨l, u⟩
    cases l <;> cases u <;> simp_all [Itv.mem_def, Bound.infty]
  obtain ⟨b4, h4, h⟩ := Option.bind_eq_some_iff.1 h
  cases b4
  swap
  · simp at h
  simp only [Bool.false_eq_true, if_false] at h
  obtain ⟨_, ε, _, g⟩ := hx
  by_cases he : T1p.isEq pr a b = true
  · rw [T1p.isEq_iff] at he
    rw [← (he i hi).2.2]; exact (g i hi).1
  · rw [if_neg he, Option.some.injEq] at h
    have := leqDims_true (R := R) (List.range a.n) pr (by rw [h]) i (List.mem_range.2 hi)
    exact isLeq_mem this.1 (g i hi).1

/-- C151, in part: inclusion reported as true is right if each dimension has the same form in both values, or a form
without symbols in the second that no other dimension has.  Without this see `C151_is_leq_unsound`. -/
theorem C151_is_leq_sound_partial {pr : Pr K} (hw : WfPr pr) {a b : T1 K} (hn : b.n = a.n) (hb : ∀ i < b.n, b.paf i < pr.next)
    (hbox : ∀ i < b.n, (b.box i).inf ≠ ninf ∧ (b.box i).sup ≠ ninf) (htop : ∀ i < b.n, (b.box i).isTop = true → b.paf i = topPtr)
    (hform : ∀ i < a.n, a.paf i = b.paf i ∨ ((pr.heap (b.paf i)).q = [] ∧ ∀ j < a.n, b.paf j = b.paf i → j = i ∨ b.paf i = topPtr))
    {pr' : Pr K} (h : T1p.isLeq R pr a b = some (true, pr')) {x : ℕ → K} (hx : Gam pr a x) : Gam pr b x := by
  have hB : ∀ i < b.n, x i ∈ b.box i := fun i hi => C151_is_leq_boxes hn hbox h hx (hn ▸ hi)
  have hsh : ∀ i < b.n, ∀ j < b.n, b.paf i = b.paf j → b.paf i ≠ topPtr → x i = x j := by
    intro i hi j hj e hp
    rcases hform i (hn ▸ hi) with g | g
    · rcases hform j (hn ▸ hj) with k | k
      · exact hx.1 i (hn ▸ hi) j (hn ▸ hj) (by rw [g, k, e]) (by rw [g]; exact hp)
      · rcases k.2 i (hn ▸ hi) e with rfl | k
        · rfl
        · exact absurd (e.trans k) hp
    · rcases g.2 j (hn ▸ hj) e.symm with rfl | g
      · rfl
      · exact absurd g hp
  unfold T1p.isLeq at h
  obtain ⟨b1, h1, h⟩ := Option.bind_eq_some_iff.1 h
  rw [isBottom_false_of_gam hx h1] at h
  obtain ⟨b2, h2, h⟩ := Option.bind_eq_some_iff.1 h
  cases b2
  swap
  · simp at h
  obtain ⟨b3, h3, h⟩ := Option.bind_eq_some_iff.1 h
  obtain ⟨-, ε, hε, g⟩ := hx
  refine ⟨hsh, ε, hε, fun i hi => ⟨hB i hi, ?_⟩⟩
  cases b3
  swap
  · unfold T1.isTop at h3
    split_ifs at h3 with h0
    simp only [Option.some.injEq, List.all_eq_true, List.mem_range] at h3
    rw [htop i hi (h3 i hi), hw.top]; exact (Aff.Has.top _).1
  obtain ⟨b4, h4, h⟩ := Option.bind_eq_some_iff.1 h
  cases b4
  swap
  · simp at h
  simp only [Bool.false_eq_true, if_false] at h
  have hi' : i < a.n := hn ▸ hi
  by_cases he : T1p.isEq pr a b = true
  · rw [T1p.isEq_iff] at he
    exact (g i hi').2.congr_form (he i hi').1 (he i hi').2.1
  · rw [if_neg he, Option.some.injEq] at h
    have hl := leqDims_true (R := R) (List.range a.n) pr (by rw [h]) i (List.mem_range.2 hi')
    rcases hl.2 with e | e
    · rw [← e]; exact (g i hi').2
    · rcases hform i hi' with k | k
      · rw [← k]; exact (g i hi').2
      · refine ⟨x i, 0, isLeq_mem (e (hb i hi) k.1) (g i hi').1, ?_, by ring⟩
        rw [k.1]; rfl

/-! ## Meet -/

/-- C151: the points of both arguments are points of the meet. -/
theorem C151_meet_sound (hs : ∀ b : Itv K, BoxSafe R b) {pr : Pr K} (hw : WfPr pr) {a1 a2 : T1 K} (hn : a2.n = a1.n)
    (h1 : ∀ i < a1.n, a1.paf i < pr.next) (h2 : ∀ i < a2.n, a2.paf i < pr.next) {r : Pr K × T1 K} (h : T1p.meet R pr a1 a2 = some r)
    {x : ℕ → K} (g1 : Gam pr a1 x) (g2 : Gam pr a2 x) : Gam r.1 r.2 x := by
  unfold T1p.meet at h
  by_cases he : T1p.isEq pr a1 a2 = true
  · rw [if_pos he] at h; cases h; exact g1
  rw [if_neg he] at h
  obtain ⟨b1, e1, h⟩ := Option.bind_eq_some_iff.1 h
  obtain ⟨b2, e2, h⟩ := Option.bind_eq_some_iff.1 h
  rw [isBottom_false_of_gam g1 e1, isBottom_false_of_gam g2 e2] at h
  simp only [Bool.or_self, Bool.false_eq_true, if_false] at h
  obtain ⟨b3, e3, h⟩ := Option.bind_eq_some_iff.1 h
  cases b3
  swap
  · simp at h; cases h; exact g2
  simp only [Bool.false_eq_true, if_false] at h
  obtain ⟨b4, e4, h⟩ := Option.bind_eq_some_iff.1 h
  cases b4
  swap
  · simp at h; cases h; exact g1
  simp only [Bool.false_eq_true, if_false] at h
  cases h
  obtain ⟨ε, hL⟩ := LInv.start (r := T1.top a1.intdim a1.n) hw g1
  obtain ⟨k1, ε', k2⟩ := meetLoop_sound hs hw hn h1 h2 g1 g2 (List.range a1.n) _ pr (T1.top a1.intdim a1.n) ε
    (fun i hi => List.mem_range.1 hi) (fun _ h => h.elim) hL rfl
  exact k2.gam fun i hi => .inr (List.mem_range.2 (by omega))

/-- C151: in exact arithmetic no condition on numbers is needed. -/
theorem C151_meet_sound_exact {pr : Pr K} (hw : WfPr pr) {a1 a2 : T1 K} (hn : a2.n = a1.n) (h1 : ∀ i < a1.n, a1.paf i < pr.next)
    (h2 : ∀ i < a2.n, a2.paf i < pr.next) {r : Pr K × T1 K} (h : T1p.meet Rnd.exact pr a1 a2 = some r)
    {x : ℕ → K} (g1 : Gam pr a1 x) (g2 : Gam pr a2 x) : Gam r.1 r.2 x := C151_meet_sound boxSafe_exact hw hn h1 h2 h g1 g2

/-- C151: a meet keeps the points of all other abstract values. -/
theorem C151_meet_keeps {pr : Pr K} {a1 a2 : T1 K} {r : Pr K × T1 K} (h : T1p.meet R pr a1 a2 = some r) {c : T1 K}
    (hc : ∀ i < c.n, c.paf i < pr.next) (x : ℕ → K) : Gam r.1 c x ↔ Gam pr c x := by
  have : Same pr r.1 := by
    unfold T1p.meet at h
    by_cases he : T1p.isEq pr a1 a2 = true
    · rw [if_pos he] at h; cases h; exact .refl _
    rw [if_neg he] at h
    obtain ⟨b1, e1, h⟩ := Option.bind_eq_some_iff.1 h
    obtain ⟨b2, e2, h⟩ := Option.bind_eq_some_iff.1 h
    by_cases hb : (b1 || b2) = true
    · rw [if_pos hb] at h; cases h; exact .refl _
    rw [if_neg hb] at h
    obtain ⟨b3, e3, h⟩ := Option.bind_eq_some_iff.1 h
    cases b3
    swap
    · simp at h; cases h; exact .refl _
    obtain ⟨b4, e4, h⟩ := Option.bind_eq_some_iff.1 h
    cases b4
    swap
    · simp at h; cases h; exact .refl _
    simp only [Bool.false_eq_true, if_false] at h
    cases h
    exact meetLoop_same _ _ _
  exact this.gam_iff hc

/-! ## Join -/

/-- C151: the points of both arguments are in the box of the join. -/
theorem C151_join_box {pr : Pr K} {a1 a2 : T1 K} (hn : a2.n = a1.n) {r : Pr K × T1 K} (h : T1p.join R pr a1 a2 = some r) {x : ℕ → K}
    (hx : Gam pr a1 x ∨ Gam pr a2 x) {i : ℕ} (hi : i < a1.n) : x i ∈ r.2.box i := by
  have hb : x i ∈ a1.box i ∨ x i ∈ a2.box i := by
    rcases hx with ⟨_, ε, _, g⟩ | ⟨_, ε, _, g⟩
    · exact .inl (g i hi).1
    · exact .inr (g i (by omega)).1
  unfold T1p.join at h
  by_cases he : T1p.isEq pr a1 a2 = true
  · rw [if_pos he] at h; cases h
    rw [T1p.isEq_iff] at he
    rw [← (he i hi).2.2, or_self] at hb
    exact hb
  rw [if_neg he] at h
  obtain ⟨b1, e1, h⟩ := Option.bind_eq_some_iff.1 h
  obtain ⟨b2, e2, h⟩ := Option.bind_eq_some_iff.1 h
  by_cases hbb : (b1 || b2) = true
  · rw [if_pos hbb] at h; cases h; exact Itv.mem_top _
  rw [if_neg hbb] at h
  obtain ⟨b3, e3, h⟩ := Option.bind_eq_some_iff.1 h
  cases b3
  swap
  · simp at h; cases h
    rcases hx with hx | hx
    · exact absurd (isBottom_false_of_gam hx e3) (by simp)
    · obtain ⟨_, ε, _, g⟩ := hx
      exact (g i (by omega)).1
  simp only [Bool.false_eq_true, if_false] at h
  obtain ⟨b4, e4, h⟩ := Option.bind_eq_some_iff.1 h
  cases b4
  swap
  · simp at h; cases h
    rcases hx with hx | hx
    · obtain ⟨_, ε, _, g⟩ := hx
      exact (g i hi).1
    · exact absurd (isBottom_false_of_gam hx e4) (by simp)
  simp only [Bool.false_eq_true, if_false] at h
  rw [joinLoopDims_box List.nodup_range h i (List.mem_range.2 hi)]
  rcases hb with g | g
  · exact Itv.mem_join_left g
  · exact Itv.mem_join_right g

theorem join_sound_aux {pr : Pr K} (hw : WfPr pr) {a1 a2 : T1 K} (hn : a2.n = a1.n) (h1 : ∀ i < a1.n, a1.paf i < pr.next)
    (h2 : ∀ i < a2.n, a2.paf i < pr.next)
    (hsh : ∀ i < a1.n, a1.paf i = a2.paf i → a1.paf i = topPtr ∨ (pr.heap (a1.paf i)).q ≠ [] ∨ a1.box i = a2.box i)
    {r : Pr K × T1 K} (h : T1p.join Rnd.exact pr a1 a2 = some r) {A B : T1 K} (hAB : (A = a1 ∧ B = a2) ∨ (A = a2 ∧ B = a1))
    (hp : ∀ i < a1.n, r.2.paf i = B.paf i → r.2.paf i = topPtr ∨ A.paf i = B.paf i) {x y : ℕ → K} (g1 : Gam pr A x) (g2 : Gam pr B y) :
    Gam r.1 r.2 x := by
  have hbox : ∀ i < a1.n, x i ∈ r.2.box i := fun i hi => C151_join_box hn h (by
    rcases hAB with ⟨rfl, rfl⟩ | ⟨rfl, rfl⟩ <;> [exact .inl g1; exact .inr g1]) hi
  have hA : A.n = a1.n := by rcases hAB with ⟨rfl, rfl⟩ | ⟨rfl, rfl⟩ <;> [rfl; exact hn]
  unfold T1p.join at h
  by_cases he : T1p.isEq pr a1 a2 = true
  · rw [if_pos he] at h; cases h
    rcases hAB with ⟨rfl, rfl⟩ | ⟨rfl, rfl⟩
    · exact g1
    · obtain ⟨f1, ε, f2, f3⟩ := g1
      refine ⟨fun i hi j hj e hpt => ?_, ε, f2, fun i hi => ⟨hbox i hi, ?_⟩⟩
      · have k1 := (hp i hi rfl).resolve_left hpt
        have k2 := (hp j hj rfl).resolve_left (e ▸ hpt)
        exact f1 i (hn.symm ▸ hi) j (hn.symm ▸ hj) (by rw [k1, k2]; exact e) (by rw [k1]; exact hpt)
      · rcases hp i hi rfl with k | k
        · dsimp only at k ⊢
          rw [k, hw.top]; exact (Aff.Has.top _).1
        · rw [← k]; exact (f3 i (hn.symm ▸ hi)).2
  rw [if_neg he] at h
  obtain ⟨b1, e1, h⟩ := Option.bind_eq_some_iff.1 h
  obtain ⟨b2, e2, h⟩ := Option.bind_eq_some_iff.1 h
  by_cases hbb : (b1 || b2) = true
  · rw [if_pos hbb] at h; cases h; exact (C123_top_bottom hw _ _).1 x
  rw [if_neg hbb] at h
  obtain ⟨b3, e3, h⟩ := Option.bind_eq_some_iff.1 h
  obtain rfl : b3 = false := by
    rcases hAB with ⟨rfl, rfl⟩ | ⟨rfl, rfl⟩
    · exact isBottom_false_of_gam g1 e3
    · exact isBottom_false_of_gam g2 e3
  simp only [Bool.false_eq_true, if_false] at h
  obtain ⟨b4, e4, h⟩ := Option.bind_eq_some_iff.1 h
  obtain rfl : b4 = false := by
    rcases hAB with ⟨rfl, rfl⟩ | ⟨rfl, rfl⟩
    · exact isBottom_false_of_gam g2 e4
    · exact isBottom_false_of_gam g1 e4
  simp only [Bool.false_eq_true, if_false] at h
  obtain ⟨ε, hL⟩ := LInv.start (r := T1.top a1.intdim a1.n) hw g1
  obtain ⟨ε', k⟩ := joinLoopDims_sound hw hn h1 h2 hAB g1 g2 hsh hp (List.range a1.n) _ pr (T1.top a1.intdim a1.n) ε List.nodup_range
    (fun i hi => List.mem_range.1 hi) (fun _ h => h.elim) hL h
  have hrn := (joinLoopDims_keep h).1
  exact k.gam fun i hi => .inr (List.mem_range.2 (by rw [hrn] at hi; exact hi))

/-- C151, in part: in exact arithmetic, the points of the first argument are points of the join, if no dimension takes
over a form of the second that it did not have in the first (and a form without symbols common to both has the same box).
Without this see `C151_join_unsound`.  (For an empty second argument see `C151_join_bottom`.) -/
theorem C151_join_sound_left_partial {pr : Pr K} (hw : WfPr pr) {a1 a2 : T1 K} (hn : a2.n = a1.n) (h1 : ∀ i < a1.n, a1.paf i < pr.next)
    (h2 : ∀ i < a2.n, a2.paf i < pr.next)
    (hsh : ∀ i < a1.n, a1.paf i = a2.paf i → a1.paf i = topPtr ∨ (pr.heap (a1.paf i)).q ≠ [] ∨ a1.box i = a2.box i)
    {r : Pr K × T1 K} (h : T1p.join Rnd.exact pr a1 a2 = some r)
    (hp : ∀ i < a1.n, r.2.paf i = a2.paf i → r.2.paf i = topPtr ∨ a1.paf i = a2.paf i) {x y : ℕ → K} (g1 : Gam pr a1 x) (g2 : Gam pr a2 y) :
    Gam r.1 r.2 x := join_sound_aux hw hn h1 h2 hsh h (.inl ⟨rfl, rfl⟩) hp g1 g2

/-- C151, in part: the same for the points of the second argument. -/
theorem C151_join_sound_right_partial {pr : Pr K} (hw : WfPr pr) {a1 a2 : T1 K} (hn : a2.n = a1.n) (h1 : ∀ i < a1.n, a1.paf i < pr.next)
    (h2 : ∀ i < a2.n, a2.paf i < pr.next)
    (hsh : ∀ i < a1.n, a1.paf i = a2.paf i → a1.paf i = topPtr ∨ (pr.heap (a1.paf i)).q ≠ [] ∨ a1.box i = a2.box i)
    {r : Pr K × T1 K} (h : T1p.join Rnd.exact pr a1 a2 = some r)
    (hp : ∀ i < a1.n, r.2.paf i = a1.paf i → r.2.paf i = topPtr ∨ a2.paf i = a1.paf i) {x y : ℕ → K} (g1 : Gam pr a1 y) (g2 : Gam pr a2 x) :
    Gam r.1 r.2 x := join_sound_aux hw hn h1 h2 hsh h (.inr ⟨rfl, rfl⟩) hp g2 g1

/-- C151: the join with a value reported as empty is the other one (or top, if that one is). -/
theorem C151_join_bottom {pr : Pr K} (hw : WfPr pr) {a1 a2 : T1 K} (hn : a2.n = a1.n) {r : Pr K × T1 K} (h : T1p.join R pr a1 a2 = some r)
    {x : ℕ → K} : (a2.isBottom = some true → Gam pr a1 x → Gam r.1 r.2 x) ∧ (a1.isBottom = some true → Gam pr a2 x → Gam r.1 r.2 x) := by
  unfold T1p.join at h
  by_cases he : T1p.isEq pr a1 a2 = true
  · rw [if_pos he] at h; cases h
    refine ⟨fun _ g => g, fun hb g => ?_⟩
    exfalso
    rw [T1p.isEq_iff] at he
    unfold T1.isBottom at hb
    split_ifs at hb with h0
    simp only [Option.some.injEq, List.all_eq_true, List.mem_range] at hb
    obtain ⟨_, ε, _, g⟩ := g
    have h1 := hb 0 (by omega)
    rw [(he 0 (by omega)).2.2, Itv.not_isBottom (g 0 (by omega)).1] at h1
    cases h1
  rw [if_neg he] at h
  obtain ⟨b1, e1, h⟩ := Option.bind_eq_some_iff.1 h
  obtain ⟨b2, e2, h⟩ := Option.bind_eq_some_iff.1 h
  by_cases hbb : (b1 || b2) = true
  · rw [if_pos hbb] at h; cases h; exact ⟨fun _ _ => (C123_top_bottom hw _ _).1 x, fun _ _ => (C123_top_bottom hw _ _).1 x⟩
  rw [if_neg hbb] at h
  obtain ⟨b3, e3, h⟩ := Option.bind_eq_some_iff.1 h
  cases b3
  swap
  · simp at h; cases h
    exact ⟨fun _ g => absurd (isBottom_false_of_gam g e3) (by simp), fun _ g => g⟩
  simp only [Bool.false_eq_true, if_false] at h
  obtain ⟨b4, e4, h⟩ := Option.bind_eq_some_iff.1 h
  cases b4
  swap
  · simp at h; cases h
    exact ⟨fun _ g => g, fun hb => by rw [e3] at hb; simp at hb⟩
  exact ⟨fun hb => by rw [e4] at hb; simp at hb, fun hb => by rw [e3] at hb; simp at hb⟩

/-- C151: a join keeps the points of all other abstract values. -/
theorem C151_join_keeps {pr : Pr K} {a1 a2 : T1 K} {r : Pr K × T1 K} (h : T1p.join R pr a1 a2 = some r) {c : T1 K}
    (hc : ∀ i < c.n, c.paf i < pr.next) (x : ℕ → K) : Gam r.1 c x ↔ Gam pr c x := by
  have : Same pr r.1 := by
    unfold T1p.join at h
    by_cases he : T1p.isEq pr a1 a2 = true
    · rw [if_pos he] at h; cases h; exact .refl _
    rw [if_neg he] at h
    obtain ⟨b1, e1, h⟩ := Option.bind_eq_some_iff.1 h
    obtain ⟨b2, e2, h⟩ := Option.bind_eq_some_iff.1 h
    by_cases hb : (b1 || b2) = true
    · rw [if_pos hb] at h; cases h; exact .refl _
    rw [if_neg hb] at h
    obtain ⟨b3, e3, h⟩ := Option.bind_eq_some_iff.1 h
    cases b3
    swap
    · simp at h; cases h; exact .refl _
    obtain ⟨b4, e4, h⟩ := Option.bind_eq_some_iff.1 h
    cases b4
    swap
    · simp at h; cases h; exact .refl _
    exact joinLoopDims_same h
  exact this.gam_iff hc

end Props
end Apron
