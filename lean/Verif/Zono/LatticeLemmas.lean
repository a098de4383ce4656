import Verif.Zono.Lattice
import Verif.Zono.DimLemmas

/-! # Affine forms: lemmas on the lattice operations -/

set_option autoImplicit false
set_option linter.unusedSectionVars false
set_option linter.ambiguousOpen false

namespace Apron
open Bound
variable {K : Type*} [LinearOrder K] [Field K] [IsStrictOrderedRing K] [FloorRing K] {R : Rnd K}

namespace T1p
variable {ε : ℕ → K}

/-! ## Equality -/

theorem eqTerms_iff : ∀ {p q : List (Term K)}, p.length = q.length → (eqTerms p q = true ↔ p = q)
  | [], [], _ => by simp [eqTerms]
  | [], _ :: _, h => by simp at h
  | _ :: _, [], h => by simp at h
  | p :: ps, q :: qs, h => by
    have ih := eqTerms_iff (p := ps) (q := qs) (by simpa using h)
    rcases p with ⟨s, a⟩
    rcases q with ⟨t, b⟩
    simp only [eqTerms, List.cons.injEq, Term.mk.injEq]
    by_cases h1 : s = t
    · by_cases h2 : a = b
      · simp [h1, h2, Itv.isEq_iff.2, ih]
      · have : Itv.isEq a b = false := by
          rw [Bool.eq_false_iff]; exact fun h => h2 (Itv.isEq_iff.1 h)
        simp [h1, h2, this]
    · simp [h1]

theorem affEq_iff {a b : Aff K} : affEq a b = true ↔ a.c = b.c ∧ a.q = b.q := by
  unfold affEq
  by_cases h1 : a.q.length = b.q.length
  · rw [if_neg (by simpa using h1)]
    by_cases h2 : a.c = b.c
    · rw [if_neg (by simp [Itv.isEq_iff.2 h2]), eqTerms_iff h1]
      simp [h2]
    · have : Itv.isEq a.c b.c = false := by
        rw [Bool.eq_false_iff]; exact fun h => h2 (Itv.isEq_iff.1 h)
      simp [h2, this]
  · rw [if_pos (by simpa using h1)]
    constructor
    · intro h; cases h
    · intro h; exact absurd (by rw [h.2]) h1

theorem isEq_iff {pr : Pr K} {a b : T1 K} : isEq pr a b = true ↔ ∀ i < a.n, (pr.heap (a.paf i)).c = (pr.heap (b.paf i)).c ∧
    (pr.heap (a.paf i)).q = (pr.heap (b.paf i)).q ∧ a.box i = b.box i := by
  simp only [isEq, List.all_eq_true, List.mem_range, Bool.and_eq_true, affEq_iff, Itv.isEq_iff, and_assoc]

/-! ## Steps of loops over dimensions -/

/-- the manager has more objects and symbols, and the old objects have the same centres and terms -/
structure Same (pr pr' : Pr K) : Prop where
  next : pr.next ≤ pr'.next
  nsym : pr.nsym ≤ pr'.nsym
  c : ∀ p < pr.next, (pr'.heap p).c = (pr.heap p).c
  q : ∀ p < pr.next, (pr'.heap p).q = (pr.heap p).q

theorem Same.refl (pr : Pr K) : Same pr pr := ⟨le_refl _, le_refl _, fun _ _ => rfl, fun _ _ => rfl⟩

theorem Same.trans {a b c : Pr K} (h : Same a b) (g : Same b c) : Same a c :=
  ⟨h.next.trans g.next, h.nsym.trans g.nsym, fun p hp => by rw [g.c p (lt_of_lt_of_le hp h.next), h.c p hp],
    fun p hp => by rw [g.q p (lt_of_lt_of_le hp h.next), h.q p hp]⟩

theorem same_setItv (pr : Pr K) (p : ℕ) (i : Itv K) : Same pr (setItv pr p i) := by
  refine ⟨le_refl _, le_refl _, fun k _ => ?_, fun k _ => ?_⟩ <;>
  · by_cases e : k = p
    · subst e; simp [setItv]
    · simp [setItv, Function.update_of_ne e]

theorem same_newAff (pr : Pr K) (A : Aff K) {k : ℕ} (h : pr.nsym ≤ k) : Same pr (newAff pr A k) := by
  refine ⟨Nat.le_succ _, h, fun p hp => ?_, fun p hp => ?_⟩ <;>
  · have : p ≠ pr.next := by omega
    simp [newAff, Function.update_of_ne this]

theorem wfPr_newAff {pr : Pr K} (h : WfPr pr) {A : Aff K} {k : ℕ} (hs : SortedQ A.q) (hb : Below k A.q) (hk : pr.nsym ≤ k) :
    WfPr (newAff pr A k) := wfPr_alloc h hs hb hk

theorem newAff_heap (pr : Pr K) (A : Aff K) (k : ℕ) : (newAff pr A k).heap pr.next = A := by simp [newAff]

theorem wfPr_setItv {pr : Pr K} (h : WfPr pr) {p : ℕ} {i : Itv K} (hp : p = topPtr → i = Itv.top) : WfPr (setItv pr p i) := by
  have hs := same_setItv pr p i
  refine ⟨h.two, ?_, fun k hk => ?_, fun k hk => ?_⟩
  · by_cases e : topPtr = p
    · subst e
      simp only [setItv, Function.update_self]
      rw [h.top, hp rfl]; rfl
    · simp only [setItv, Function.update_of_ne e]; exact h.top
  · rw [hs.q k hk]; exact h.sorted k hk
  · rw [hs.q k hk]; exact h.below k hk

/-- values of an old object -/
theorem Same.val {pr pr' : Pr K} (hw : WfPr pr) (h : Same pr pr') {p : ℕ} (hp : p < pr.next) {ε' : ℕ → K} {v : K}
    (hε : ∀ j < pr.nsym, ε' j = ε j) (hv : (pr.heap p).Val ε v) : (pr'.heap p).Val ε' v :=
  ((hv.congr (hw.below p hp) fun j hj => (hε j hj).symm).congr_form (h.c p hp).symm (h.q p hp).symm)

/-- a step that gives the form `p` and the box `b` to a dimension whose value is `v`, which has the form `p1` in the
argument -/
structure StepOK (pr : Pr K) (p1 : ℕ) (v : K) (pr' : Pr K) (p : ℕ) (b : Itv K) : Prop where
  wf : WfPr pr'
  same : Same pr pr'
  mem : v ∈ b
  val : ∀ ε, Noise ε → (pr.heap p1).Val ε v → ∃ ε', Noise ε' ∧ (∀ j < pr.nsym, ε' j = ε j) ∧ (pr'.heap p).Val ε' v
  ptr : p = topPtr ∨ p = p1 ∨ (p = pr.next ∧ p < pr'.next)

/-- the state of a loop over dimensions: those of `S` are done -/
structure LInv (pr0 : Pr K) (a : T1 K) (x : ℕ → K) (S : ℕ → Prop) (pr : Pr K) (r : T1 K) (ε : ℕ → K) : Prop where
  wf : WfPr pr
  same : Same pr0 pr
  noise : Noise ε
  av : ∀ i < a.n, (pr.heap (a.paf i)).Val ε (x i)
  box : ∀ i, S i → x i ∈ r.box i
  val : ∀ i, S i → (pr.heap (r.paf i)).Val ε (x i)
  lt : ∀ i, S i → r.paf i < pr.next
  ptr : ∀ i, S i → r.paf i = topPtr ∨ r.paf i = a.paf i ∨ pr0.next ≤ r.paf i
  share : ∀ i j, S i → S j → r.paf i = r.paf j → r.paf i ≠ topPtr → x i = x j

theorem LInv.step {pr0 pr pr' : Pr K} {a r : T1 K} {x : ℕ → K} {S : ℕ → Prop} (h : LInv pr0 a x S pr r ε)
    (ha : ∀ i < a.n, a.paf i < pr0.next) (hsh : ∀ i < a.n, ∀ j < a.n, a.paf i = a.paf j → a.paf i ≠ topPtr → x i = x j)
    (hS : ∀ i, S i → i < a.n) {i p : ℕ} {b : Itv K} (hi : i < a.n) (hs : StepOK pr (a.paf i) (x i) pr' p b) :
    ∃ ε', LInv pr0 a x (fun j => S j ∨ j = i) pr' (r.set i p b) ε' := by
  obtain ⟨ε', h1, h2, h3⟩ := hs.val ε h.noise (h.av i hi)
  have h0 := h.wf.two
  have hn := h.same.next
  have hpn : p < pr'.next := by
    have := hs.same.next
    rcases hs.ptr with e | e | e
    · rw [e]; simp only [topPtr]; omega
    · rw [e]; have := ha i hi; omega
    · exact e.2
  have hnew : ∀ j, S j → r.paf j = p → p ≠ topPtr → x j = x i := by
    intro j hj e hp
    rcases hs.ptr with e1 | e1 | e1
    · exact absurd e1 hp
    · rcases h.ptr j hj with e2 | e2 | e2
      · exact absurd (e.symm.trans e2) hp
      · exact hsh j (hS j hj) i hi (e2.symm.trans (e.trans e1)) (by rw [← e2, e]; exact hp)
      · have := ha i hi; omega
    · have := h.lt j hj; omega
  refine ⟨ε', hs.wf, h.same.trans hs.same, h1, fun j hj => ?_, ?_, ?_, ?_, ?_, ?_⟩
  · exact hs.same.val h.wf (lt_of_lt_of_le (ha j hj) hn) h2 (h.av j hj)
  · intro j hj
    by_cases e : j = i
    · subst e; simp [T1.set, hs.mem]
    · simp only [T1.set, Function.update_of_ne e]
      exact h.box j (hj.resolve_right e)
  · intro j hj
    by_cases e : j = i
    · subst e; simpa [T1.set] using h3
    · simp only [T1.set, Function.update_of_ne e]
      exact hs.same.val h.wf (h.lt j (hj.resolve_right e)) h2 (h.val j (hj.resolve_right e))
  · intro j hj
    by_cases e : j = i
    · subst e; simpa [T1.set] using hpn
    · simp only [T1.set, Function.update_of_ne e]
      exact lt_of_lt_of_le (h.lt j (hj.resolve_right e)) hs.same.next
  · intro j hj
    by_cases e : j = i
    · subst e
      simp only [T1.set, Function.update_self]
      rcases hs.ptr with e1 | e1 | e1
      · exact .inl e1
      · exact .inr (.inl e1)
      · exact .inr (.inr (by omega))
    · simp only [T1.set, Function.update_of_ne e]
      exact h.ptr j (hj.resolve_right e)
  · intro j k hj hk
    by_cases ej : j = i <;> by_cases ek : k = i
    · intro _ _; rw [ej, ek]
    · subst ej
      simp only [T1.set, Function.update_self, Function.update_of_ne ek]
      exact fun e hp => (hnew k (hk.resolve_right ek) e.symm hp).symm
    · subst ek
      simp only [T1.set, Function.update_self, Function.update_of_ne ej]
      exact fun e hp => hnew j (hj.resolve_right ej) e (e ▸ hp)
    · simp only [T1.set, Function.update_of_ne ej, Function.update_of_ne ek]
      exact h.share j k (hj.resolve_right ej) (hk.resolve_right ek)

theorem LInv.start {pr : Pr K} {a r : T1 K} {x : ℕ → K} (hw : WfPr pr) (h : Gam pr a x) :
    ∃ ε, LInv pr a x (fun _ => False) pr r ε := by
  obtain ⟨_, ε, h1, h2⟩ := h
  exact ⟨ε, hw, .refl _, h1, fun i hi => (h2 i hi).2, fun _ h => h.elim, fun _ h => h.elim, fun _ h => h.elim, fun _ h => h.elim,
    fun _ _ h => h.elim⟩

theorem LInv.gam {pr0 pr : Pr K} {a r : T1 K} {x : ℕ → K} {S : ℕ → Prop} (h : LInv pr0 a x S pr r ε) (hS : ∀ i < r.n, S i) :
    Gam pr r x :=
  ⟨fun i hi j hj e hp => h.share i j (hS i hi) (hS j hj) e hp, ε, h.noise, fun i hi => ⟨h.box i (hS i hi), h.val i (hS i hi)⟩⟩

/-- an old value keeps its points -/
theorem Same.gam {pr pr' : Pr K} (hw : WfPr pr) (h : Same pr pr') {a : T1 K} (ha : ∀ i < a.n, a.paf i < pr.next) {x : ℕ → K}
    (hx : Gam pr a x) : Gam pr' a x :=
  ⟨hx.1, hx.2.imp fun ε g => ⟨g.1, fun i hi => ⟨(g.2 i hi).1, h.val hw (ha i hi) (fun _ _ => rfl) (g.2 i hi).2⟩⟩⟩

/-! ## Meet -/

theorem addItv_zero_sound (hs : ∀ b : Itv K, BoxSafe R b) (hε : Noise ε) {k : ℕ} {b : Itv K} {it : Itv K} {un : Bool} (hf : b.hasInfty = false)
    {x : K} (hx : x ∈ b) : ∃ ε', Noise ε' ∧ (∀ j < k, ε' j = ε j) ∧ (addItv R k ⟨Itv.point 0, [], it⟩ b un).1.Val ε' x := by
  unfold addItv
  split_ifs with h3
  · refine ⟨ε, hε, fun _ _ => rfl, 0 + x, 0, Itv.mem_add R ((Itv.mem_point _ _).2 rfl) hx, rfl, by ring⟩
  · obtain ⟨l, u, hlu⟩ : ∃ l u, b = ⟨fin l, fin u⟩ := by
      rcases b with ⟨l, u⟩
      cases l <;> cases u <;> simp_all [Itv.hasInfty, Bound.infty]
    have hbot : b.isBottom = false := by
      rw [Bool.eq_false_iff]
      intro h
      rw [Itv.isBottom_iff _ (by rw [hlu]; simp) (by rw [hlu]; simp)] at h
      exact h x hx
    obtain ⟨m, h5, h6⟩ := Itv.mem_middev (hs b).1 hx
    have hd := (hs b).2 l u hlu hbot
    have hform : (Itv.middev R b).2 = ⟨Bound.neg (Itv.middev R b).2.sup, (Itv.middev R b).2.sup⟩ := by
      unfold Itv.middev
      rw [if_neg h3, if_neg]
      rw [Bool.or_eq_true, not_or]
      exact ⟨by simp [hf], by simp [hbot]⟩
    dsimp only
    rw [hform]
    have habs : fin |x - m| ≤ (Itv.middev R b).2.sup := by
      rcases abs_cases (x - m) with ⟨e, _⟩ | ⟨e, _⟩
      · rw [e]; exact h6.2
      · rw [e]; exact h6.1
    obtain ⟨ε', g1, g2, g3⟩ := nsymCreate_sound (k := k) (a := ⟨Itv.add R (Itv.point 0) (Itv.middev R b).1, [], it⟩) hε below_nil
      (x := 0 + m) ⟨0 + m, 0, Itv.mem_add R ((Itv.mem_point _ _).2 rfl) h5, rfl, by ring⟩ hd habs (un := un)
    refine ⟨ε', g1, g2, ?_⟩
    have : x = 0 + m + (x - m) := by ring
    rw [this]
    exact g3

theorem addItv_zero_wf {k : ℕ} {b it : Itv K} {un : Bool} : Below (addItv R k ⟨Itv.point 0, [], it⟩ b un).2
      (addItv R k ⟨Itv.point 0, [], it⟩ b un).1.q ∧
    SortedQ (addItv R k ⟨Itv.point 0, [], it⟩ b un).1.q ∧ k ≤ (addItv R k ⟨Itv.point 0, [], it⟩ b un).2 := by
  unfold addItv
  split_ifs
  · exact ⟨below_nil, List.Pairwise.nil, le_refl _⟩
  · exact nsymCreate_wf below_nil List.Pairwise.nil

theorem val_nil {A : Aff K} (h : A.q = []) {v : K} (hv : A.Val ε v) : v ∈ A.c := by
  obtain ⟨c, y, h1, h2, h3⟩ := hv
  rw [h] at h2
  have : y = 0 := h2
  rw [h3, this, add_zero]; exact h1

theorem meetStep_ok (hs : ∀ b : Itv K, BoxSafe R b) {a1 a2 : T1 K} {pr : Pr K} (hw : WfPr pr) {i : ℕ} {v : K} (h1 : v ∈ a1.box i)
    (h2 : v ∈ a2.box i) {ε1 ε2 : ℕ → K} (v1 : (pr.heap (a1.paf i)).Val ε1 v) (v2 : (pr.heap (a2.paf i)).Val ε2 v) :
    ∃ s, meetStep R a1 a2 pr i = some s ∧ StepOK pr (a1.paf i) v s.1 s.2.1 s.2.2 := by
  have hbx := Itv.mem_meet.2 ⟨h1, h2⟩
  unfold meetStep
  dsimp only
  split_ifs with h3 h4 h5 h6 h7 h8
  · rw [Bool.and_eq_true] at h3
    have m := Itv.mem_meet.2 ⟨val_nil (List.isEmpty_iff.1 h3.1) v1, val_nil (List.isEmpty_iff.1 h3.2) v2⟩
    rw [Itv.not_isBottom m] at h4; cases h4
  · exact ⟨_, rfl, hw, .refl _, hbx, fun ε hε _ => ⟨ε, hε, fun _ _ => rfl, by
      show (pr.heap topPtr).Val ε v
      rw [hw.top]; exact (Aff.Has.top v).1⟩, .inl rfl⟩
  · rw [Bool.and_eq_true] at h3
    have m := Itv.mem_meet.2 ⟨val_nil (List.isEmpty_iff.1 h3.1) v1, val_nil (List.isEmpty_iff.1 h3.2) v2⟩
    have g := addItv_zero_wf (R := R) (k := pr.nsym) (b := Itv.meet (pr.heap (a1.paf i)).c (pr.heap (a2.paf i)).c)
      (it := Itv.point 0) (un := false)
    refine ⟨_, rfl, wfPr_newAff hw g.2.1 g.1 g.2.2, same_newAff _ _ g.2.2, hbx, fun ε hε _ => ?_, .inr (.inr ⟨rfl, Nat.lt_succ_self _⟩)⟩
    obtain ⟨ε', e1, e2, e3⟩ := addItv_zero_sound (R := R) hs hε (k := pr.nsym) (it := Itv.point 0) (un := false) (by simpa using h6) m
    exact ⟨ε', e1, e2, by dsimp only; rw [newAff_heap]; exact e3⟩
  · rw [Bool.and_eq_true] at h3
    have m := Itv.mem_meet.2 ⟨val_nil (List.isEmpty_iff.1 h3.1) v1, val_nil (List.isEmpty_iff.1 h3.2) v2⟩
    refine ⟨_, rfl, wfPr_newAff hw List.Pairwise.nil below_nil (le_refl _), same_newAff _ _ (le_refl _), hbx, fun ε hε _ => ?_,
      .inr (.inr ⟨rfl, Nat.lt_succ_self _⟩)⟩
    exact ⟨ε, hε, fun _ _ => rfl, by dsimp only; rw [newAff_heap]; exact ⟨v, 0, m, rfl, by ring⟩⟩
  · exact ⟨_, rfl, hw, .refl _, hbx, fun ε hε g => ⟨ε, hε, fun _ _ => rfl, g⟩, .inr (.inl rfl)⟩
  · refine ⟨_, rfl, wfPr_newAff hw List.Pairwise.nil below_nil (le_refl _), same_newAff _ _ (le_refl _), hbx, fun ε hε _ => ?_,
      .inr (.inr ⟨rfl, Nat.lt_succ_self _⟩)⟩
    exact ⟨ε, hε, fun _ _ => rfl, by dsimp only; rw [newAff_heap]; exact ⟨v, 0, hbx, rfl, by ring⟩⟩
  · exact ⟨_, rfl, hw, .refl _, Itv.mem_top _, fun ε hε _ => ⟨ε, hε, fun _ _ => rfl, by
      show (pr.heap topPtr).Val ε v
      rw [hw.top]; exact (Aff.Has.top v).1⟩, .inl rfl⟩

theorem meetLoop_sound (hs : ∀ b : Itv K, BoxSafe R b) {pr0 : Pr K} (hw : WfPr pr0) {a1 a2 : T1 K} (hn : a2.n = a1.n)
    (ha1 : ∀ i < a1.n, a1.paf i < pr0.next) (ha2 : ∀ i < a2.n, a2.paf i < pr0.next) {x : ℕ → K} (g1 : Gam pr0 a1 x) (g2 : Gam pr0 a2 x) :
    ∀ (l : List ℕ) (S : ℕ → Prop) (pr : Pr K) (r : T1 K) (ε : ℕ → K), (∀ i ∈ l, i < a1.n) → (∀ i, S i → i < a1.n) → LInv pr0 a1 x S pr r ε →
      r.n = a1.n →
      (meetLoop R a1 a2 l pr r).2.n = a1.n ∧ ∃ ε', LInv pr0 a1 x (fun j => S j ∨ j ∈ l) (meetLoop R a1 a2 l pr r).1 (meetLoop R a1 a2 l pr r).2 ε' := by
  intro l
  induction l with
  | nil =>
    intro S pr r ε _ _ h hr
    exact ⟨hr, ε, by simpa [meetLoop] using h⟩
  | cons i l ih =>
    intro S pr r ε hl hS h hr
    have hi := hl i (by simp)
    obtain ⟨_, ε2, e1, e2⟩ := g2
    obtain ⟨_, ε1, f1, f2⟩ := id g1
    obtain ⟨s, hs1, hs2⟩ := meetStep_ok hs h.wf (f2 i hi).1 (e2 i (by omega)).1 (h.av i hi)
      (h.same.val hw (ha2 i (by omega)) (fun _ _ => rfl) (e2 i (by omega)).2)
    obtain ⟨ε', hL⟩ := h.step ha1 g1.1 hS hi hs2
    obtain ⟨k1, ε'', k2⟩ := ih _ _ _ _ (fun j hj => hl j (by simp [hj])) (fun j hj => hj.elim (hS j) fun e => e ▸ hi) hL hr
    simp only [meetLoop, hs1]
    refine ⟨k1, ε'', ?_⟩
    have : (fun j => S j ∨ j ∈ i :: l) = fun j => (S j ∨ j = i) ∨ j ∈ l := by
      funext j; simp [or_assoc]
    rw [this]; exact k2

end T1p
end Apron
