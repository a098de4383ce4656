import Verif.Props.ZonoLatticeInst
import Verif.Zono.WidenLemmas
import Verif.Itv.Tight
import Verif.Seq

/-!
# C152: widening of affine forms

`Gam pr a x` (Zono/State.lean): `x` is a point of the abstract value `a`.
-/

set_option autoImplicit false
set_option linter.unusedSectionVars false
set_option linter.ambiguousOpen false

namespace Apron
open Bound T1p
variable {K : Type*} [LinearOrder K] [Field K] [IsStrictOrderedRing K] [FloorRing K] {R : Rnd K}

namespace T1p

theorem widenForm_nsym {k : ℕ} {e1 e2 A : Aff K} {k' : ℕ} (h : widenForm R k e1 e2 = some (.fresh A k')) : k ≤ k' := by
  unfold widenForm at h
  dsimp only at h
  split_ifs at h with h0
  · rw [Option.some.injEq, JRes.fresh.injEq] at h
    obtain ⟨rfl, rfl⟩ := h
    exact addItv_zero_wf.2.2
  · unfold joinEnd at h
    split at h
    · dsimp only at h
      split at h
      · rw [Option.some.injEq] at h
        split_ifs at h
      · rw [Option.some.injEq, JRes.fresh.injEq] at h
        obtain ⟨rfl, rfl⟩ := h
        unfold nsymCreate
        split_ifs
        · exact le_refl _
        · exact Nat.le_succ _
    · cases h

theorem widenStep_same {a1 a2 : T1 K} {pr : Pr K} {i : ℕ} {s : Pr K × ℕ} (h : widenStep R a1 a2 pr i = some s) : Same pr s.1 := by
  have hS : Same pr (setItv (setItv pr (a1.paf i) (a1.box i)) (a2.paf i) (a2.box i)) := (same_setItv _ _ _).trans (same_setItv _ _ _)
  unfold widenStep at h
  dsimp only at h
  split_ifs at h
  · cases h; exact .refl _
  · cases h; exact .refl _
  · cases h; exact .refl _
  · cases h; exact .refl _
  · cases h; exact same_newAff _ _ (le_refl _)
  · split at h
    · cases h
    · cases h; exact hS
    · cases h; exact hS
    · rename_i hj
      cases h; exact hS.trans (same_newAff _ _ (widenForm_nsym hj))

theorem widenLoopDims_same {a1 a2 : T1 K} : ∀ {l : List ℕ} {pr : Pr K} {r : T1 K} {s : Pr K × T1 K}, widenLoopDims R a1 a2 l pr r = some s →
    Same pr s.1
  | [], pr, r, s, h => by
    obtain rfl : (pr, r) = s := by simpa [widenLoopDims] using h
    exact .refl _
  | i :: l, pr, r, s, h => by
    simp only [widenLoopDims] at h
    cases hj : widenStep R a1 a2 pr i with
    | none => rw [hj] at h; cases h
    | some t => rw [hj] at h; exact (widenStep_same hj).trans (widenLoopDims_same h)

end T1p

namespace Props

/-- C152: the points of both arguments are in the box of the widening. -/
theorem C152_widening_box {pr : Pr K} {a1 a2 : T1 K} (hn : a2.n = a1.n) {r : Pr K × T1 K} (h : T1p.widen R pr a1 a2 = some r) {x : ℕ → K}
    (hx : Gam pr a1 x ∨ Gam pr a2 x) {i : ℕ} (hi : i < a1.n) : x i ∈ r.2.box i := by
  have hb : x i ∈ a1.box i ∨ x i ∈ a2.box i := by
    rcases hx with ⟨_, ε, _, g⟩ | ⟨_, ε, _, g⟩
    · exact .inl (g i hi).1
    · exact .inr (g i (by omega)).1
  unfold T1p.widen at h
  by_cases he : T1p.isEq pr a1 a2 = true
  · rw [if_pos he] at h; cases h
    rw [T1p.isEq_iff] at he
    rw [← (he i hi).2.2, or_self] at hb
    exact hb
  rw [if_neg he] at h
  obtain ⟨b1, e1, h⟩ := Option.bind_eq_some_iff.1 h
  obtain ⟨b2, e2, h⟩ := Option.bind_eq_some_iff.1 h
  by_cases hbb : (b1 || b2) = true
  · rw [if_pos hbb] at h; cases h; exact Itv.mem_top _
  rw [if_neg hbb] at h
  obtain ⟨b3, e3, h⟩ := Option.bind_eq_some_iff.1 h
  cases b3
  swap
  · simp at h; cases h
    rcases hx with hx | hx
    · exact absurd (isBottom_false_of_gam hx e3) (by simp)
    · obtain ⟨_, ε, _, g⟩ := hx
      exact (g i (by omega)).1
  simp only [Bool.false_eq_true, if_false] at h
  obtain ⟨b4, e4, h⟩ := Option.bind_eq_some_iff.1 h
  cases b4
  swap
  · simp at h; cases h
    rcases hx with hx | hx
    · obtain ⟨_, ε, _, g⟩ := hx
      exact (g i hi).1
    · exact absurd (isBottom_false_of_gam hx e4) (by simp)
  simp only [Bool.false_eq_true, if_false] at h
  rw [widenLoopDims_box List.nodup_range h i (List.mem_range.2 hi)]
  rcases hb with g | g
  · exact mem_widening (.inl g)
  · exact mem_widening (.inr g)

theorem widen_sound_aux {pr : Pr K} (hw : WfPr pr) {a1 a2 : T1 K} (hn : a2.n = a1.n) (h1 : ∀ i < a1.n, a1.paf i < pr.next)
    (h2 : ∀ i < a2.n, a2.paf i < pr.next)
    {r : Pr K × T1 K} (h : T1p.widen Rnd.exact pr a1 a2 = some r) {A B : T1 K} (hAB : (A = a1 ∧ B = a2) ∨ (A = a2 ∧ B = a1))
    (hp : ∀ i < a1.n, r.2.paf i = B.paf i → r.2.paf i = topPtr ∨ A.paf i = B.paf i) {x y : ℕ → K} (g1 : Gam pr A x) (g2 : Gam pr B y) :
    Gam r.1 r.2 x := by
  have hbox : ∀ i < a1.n, x i ∈ r.2.box i := fun i hi => C152_widening_box hn h (by
    rcases hAB with ⟨rfl, rfl⟩ | ⟨rfl, rfl⟩ <;> [exact .inl g1; exact .inr g1]) hi
  have hA : A.n = a1.n := by rcases hAB with ⟨rfl, rfl⟩ | ⟨rfl, rfl⟩ <;> [rfl; exact hn]
  unfold T1p.widen at h
  by_cases he : T1p.isEq pr a1 a2 = true
  · rw [if_pos he] at h; cases h
    rcases hAB with ⟨rfl, rfl⟩ | ⟨rfl, rfl⟩
    · exact g1
    · obtain ⟨f1, ε, f2, f3⟩ := g1
      refine ⟨fun i hi j hj e hpt => ?_, ε, f2, fun i hi => ⟨hbox i hi, ?_⟩⟩
      · have k1 := (hp i hi rfl).resolve_left hpt
        have k2 := (hp j hj rfl).resolve_left (e ▸ hpt)
        exact f1 i (hn.symm ▸ hi) j (hn.symm ▸ hj) (by rw [k1, k2]; exact e) (by rw [k1]; exact hpt)
      · rcases hp i hi rfl with k | k
        · dsimp only at k ⊢
          rw [k, hw.top]; exact (Aff.Has.top _).1
        · rw [← k]; exact (f3 i (hn.symm ▸ hi)).2
  rw [if_neg he] at h
  obtain ⟨b1, e1, h⟩ := Option.bind_eq_some_iff.1 h
  obtain ⟨b2, e2, h⟩ := Option.bind_eq_some_iff.1 h
  by_cases hbb : (b1 || b2) = true
  · rw [if_pos hbb] at h; cases h; exact (C123_top_bottom hw _ _).1 x
  rw [if_neg hbb] at h
  obtain ⟨b3, e3, h⟩ := Option.bind_eq_some_iff.1 h
  obtain rfl : b3 = false := by
    rcases hAB with ⟨rfl, rfl⟩ | ⟨rfl, rfl⟩
    · exact isBottom_false_of_gam g1 e3
    · exact isBottom_false_of_gam g2 e3
  simp only [Bool.false_eq_true, if_false] at h
  obtain ⟨b4, e4, h⟩ := Option.bind_eq_some_iff.1 h
  obtain rfl : b4 = false := by
    rcases hAB with ⟨rfl, rfl⟩ | ⟨rfl, rfl⟩
    · exact isBottom_false_of_gam g2 e4
    · exact isBottom_false_of_gam g1 e4
  simp only [Bool.false_eq_true, if_false] at h
  obtain ⟨ε, hL⟩ := LInv.start (r := T1.top a1.intdim a1.n) hw g1
  obtain ⟨ε', k⟩ := widenLoopDims_sound hw hn h1 h2 hAB g1 g2 hp (List.range a1.n) _ pr (T1.top a1.intdim a1.n) ε List.nodup_range
    (fun i hi => List.mem_range.1 hi) (fun _ h => h.elim) hL h
  have hrn := (widenLoopDims_keep h).1
  exact k.gam fun i hi => .inr (List.mem_range.2 (by rw [hrn] at hi; exact hi))

/-- C152, in part: in exact arithmetic, the points of the first argument are points of the widening, if no dimension takes
over a form of the second that it did not have in the first.
Without this see `C152_widening_unsound`.  (For an empty second argument see `C152_widening_bottom`.) -/
theorem C152_widening_sound_left_partial {pr : Pr K} (hw : WfPr pr) {a1 a2 : T1 K} (hn : a2.n = a1.n) (h1 : ∀ i < a1.n, a1.paf i < pr.next)
    (h2 : ∀ i < a2.n, a2.paf i < pr.next)
    {r : Pr K × T1 K} (h : T1p.widen Rnd.exact pr a1 a2 = some r)
    (hp : ∀ i < a1.n, r.2.paf i = a2.paf i → r.2.paf i = topPtr ∨ a1.paf i = a2.paf i) {x y : ℕ → K} (g1 : Gam pr a1 x) (g2 : Gam pr a2 y) :
    Gam r.1 r.2 x := widen_sound_aux hw hn h1 h2 h (.inl ⟨rfl, rfl⟩) hp g1 g2

/-- C152, in part: the same for the points of the second argument. -/
theorem C152_widening_sound_right_partial {pr : Pr K} (hw : WfPr pr) {a1 a2 : T1 K} (hn : a2.n = a1.n) (h1 : ∀ i < a1.n, a1.paf i < pr.next)
    (h2 : ∀ i < a2.n, a2.paf i < pr.next)
    {r : Pr K × T1 K} (h : T1p.widen Rnd.exact pr a1 a2 = some r)
    (hp : ∀ i < a1.n, r.2.paf i = a1.paf i → r.2.paf i = topPtr ∨ a2.paf i = a1.paf i) {x y : ℕ → K} (g1 : Gam pr a1 y) (g2 : Gam pr a2 x) :
    Gam r.1 r.2 x := widen_sound_aux hw hn h1 h2 h (.inr ⟨rfl, rfl⟩) hp g2 g1

/-- C152: in a dimension where the form of one argument is empty the form of the other one is taken over, and the manager stays. -/
theorem C152_widening_empty_form (pr : Pr K) (a1 a2 : T1 K) (i : ℕ) :
    ((pr.heap (a1.paf i)).isBottom = true → widenStep R a1 a2 pr i = some (pr, a2.paf i)) ∧
      ((pr.heap (a1.paf i)).isBottom = false → (pr.heap (a2.paf i)).isBottom = true →
        widenStep R a1 a2 pr i = some (pr, a1.paf i)) := by
  constructor
  · intro h; unfold widenStep; simp only [h, if_true]
  · intro h h'; unfold widenStep; simp only [h, h', if_true, Bool.false_eq_true, if_false]

/-- C152: the widening with a value reported as empty is the other one (or top, if that one is). -/
theorem C152_widening_bottom {pr : Pr K} (hw : WfPr pr) {a1 a2 : T1 K} (hn : a2.n = a1.n) {r : Pr K × T1 K} (h : T1p.widen R pr a1 a2 = some r)
    {x : ℕ → K} : (a2.isBottom = some true → Gam pr a1 x → Gam r.1 r.2 x) ∧ (a1.isBottom = some true → Gam pr a2 x → Gam r.1 r.2 x) := by
  unfold T1p.widen at h
  by_cases he : T1p.isEq pr a1 a2 = true
  · rw [if_pos he] at h; cases h
    refine ⟨fun _ g => g, fun hb g => ?_⟩
    exfalso
    rw [T1p.isEq_iff] at he
    unfold T1.isBottom at hb
    split_ifs at hb with h0
    simp only [Option.some.injEq, List.all_eq_true, List.mem_range] at hb
    obtain ⟨_, ε, _, g⟩ := g
    have h1 := hb 0 (by omega)
    rw [(he 0 (by omega)).2.2, Itv.not_isBottom (g 0 (by omega)).1] at h1
    cases h1
  rw [if_neg he] at h
  obtain ⟨b1, e1, h⟩ := Option.bind_eq_some_iff.1 h
  obtain ⟨b2, e2, h⟩ := Option.bind_eq_some_iff.1 h
  by_cases hbb : (b1 || b2) = true
  · rw [if_pos hbb] at h; cases h; exact ⟨fun _ _ => (C123_top_bottom hw _ _).1 x, fun _ _ => (C123_top_bottom hw _ _).1 x⟩
  rw [if_neg hbb] at h
  obtain ⟨b3, e3, h⟩ := Option.bind_eq_some_iff.1 h
  cases b3
  swap
  · simp at h; cases h
    exact ⟨fun _ g => absurd (isBottom_false_of_gam g e3) (by simp), fun _ g => g⟩
  simp only [Bool.false_eq_true, if_false] at h
  obtain ⟨b4, e4, h⟩ := Option.bind_eq_some_iff.1 h
  cases b4
  swap
  · simp at h; cases h
    exact ⟨fun _ g => g, fun hb => by rw [e3] at hb; simp at hb⟩
  exact ⟨fun hb => by rw [e4] at hb; simp at hb, fun hb => by rw [e3] at hb; simp at hb⟩

/-- C152: a widening keeps the points of all other abstract values. -/
theorem C152_widening_keeps {pr : Pr K} {a1 a2 : T1 K} {r : Pr K × T1 K} (h : T1p.widen R pr a1 a2 = some r) {c : T1 K}
    (hc : ∀ i < c.n, c.paf i < pr.next) (x : ℕ → K) : Gam r.1 c x ↔ Gam pr c x := by
  have : Same pr r.1 := by
    unfold T1p.widen at h
    by_cases he : T1p.isEq pr a1 a2 = true
    · rw [if_pos he] at h; cases h; exact .refl _
    rw [if_neg he] at h
    obtain ⟨b1, e1, h⟩ := Option.bind_eq_some_iff.1 h
    obtain ⟨b2, e2, h⟩ := Option.bind_eq_some_iff.1 h
    by_cases hb : (b1 || b2) = true
    · rw [if_pos hb] at h; cases h; exact .refl _
    rw [if_neg hb] at h
    obtain ⟨b3, e3, h⟩ := Option.bind_eq_some_iff.1 h
    cases b3
    swap
    · simp at h; cases h; exact .refl _
    obtain ⟨b4, e4, h⟩ := Option.bind_eq_some_iff.1 h
    cases b4
    swap
    · simp at h; cases h; exact .refl _
    exact widenLoopDims_same h
  exact this.gam_iff hc

/-! ## Iteration -/

/-- an interval that is empty is the canonical one -/
def Canon (a : Itv K) : Prop := a.isBottom = true → a = Itv.bottom

theorem canon_widening {a b : Itv K} (ha : Canon a) (hb : Canon b) : Canon (Itv.widening a b) := by
  intro h
  unfold Itv.widening at h ⊢
  split_ifs at h ⊢ with h1 h2
  · exact hb h
  · exact ha h
  · exfalso
    have hna : a.isBottom = false := by
      rw [Bool.eq_false_iff]; intro k; exact h1 ((Itv.isCanonicalBottom_iff _).2 (ha k))
    have e1 : (Itv.boundWidening a.inf b.inf) = a.inf ∨ (Itv.boundWidening a.inf b.inf) = pinf := Itv.boundWidening_cases _ _
    have e2 : (Itv.boundWidening a.sup b.sup) = a.sup ∨ (Itv.boundWidening a.sup b.sup) = pinf := Itv.boundWidening_cases _ _
    have : (⟨a.inf, a.sup⟩ : Itv K).isBottom = false := hna
    rcases e1 with e1 | e1 <;> rcases e2 with e2 | e2 <;> rw [e1, e2] at h
    · rw [this] at h; cases h
    · cases hi : a.inf <;> rw [hi] at h <;> simp [Itv.isBottom] at h
    · simp [Itv.isBottom] at h
    · simp [Itv.isBottom] at h

/-- the box of a dimension of a widening -/
theorem widening_box_cases {pr : Pr K} {a1 a2 : T1 K} (hn : a2.n = a1.n) (hc : ∀ i < a1.n, Canon (a1.box i)) {r : Pr K × T1 K}
    (h : T1p.widen R pr a1 a2 = some r) : r.2.n = a1.n ∧ ∀ i < a1.n, r.2.box i = a1.box i ∨ r.2.box i = Itv.top ∨
      r.2.box i = Itv.widening (a1.box i) (a2.box i) := by
  unfold T1p.widen at h
  by_cases he : T1p.isEq pr a1 a2 = true
  · rw [if_pos he] at h; cases h; exact ⟨rfl, fun _ _ => .inl rfl⟩
  rw [if_neg he] at h
  obtain ⟨b1, e1, h⟩ := Option.bind_eq_some_iff.1 h
  obtain ⟨b2, e2, h⟩ := Option.bind_eq_some_iff.1 h
  by_cases hbb : (b1 || b2) = true
  · rw [if_pos hbb] at h; cases h; exact ⟨rfl, fun _ _ => .inr (.inl rfl)⟩
  rw [if_neg hbb] at h
  obtain ⟨b3, e3, h⟩ := Option.bind_eq_some_iff.1 h
  cases b3
  swap
  · simp at h; cases h
    refine ⟨hn, fun i hi => .inr (.inr ?_)⟩
    unfold T1.isBottom at e3
    split_ifs at e3 with h0
    simp only [Option.some.injEq, List.all_eq_true, List.mem_range] at e3
    unfold Itv.widening
    rw [if_pos ((Itv.isCanonicalBottom_iff _).2 (hc i hi (e3 i hi)))]
  simp only [Bool.false_eq_true, if_false] at h
  obtain ⟨b4, e4, h⟩ := Option.bind_eq_some_iff.1 h
  cases b4
  swap
  · simp at h; cases h; exact ⟨rfl, fun _ _ => .inl rfl⟩
  simp only [Bool.false_eq_true, if_false] at h
  exact ⟨(widenLoopDims_keep h).1, fun i hi => .inr (.inr (widenLoopDims_box List.nodup_range h i (List.mem_range.2 hi)))⟩

/-- C152: in a sequence of widenings, with any values and managers, the box of each dimension changes at most three times. -/
theorem C152_widening_boxes_stabilise (pr : ℕ → Pr K) (x y : ℕ → T1 K) (hx : ∀ i < (x 0).n, Canon ((x 0).box i))
    (hy : ∀ k, (y k).n = (x 0).n ∧ ∀ i < (x 0).n, Canon ((y k).box i))
    (h : ∀ k, ∃ pr', T1p.widen R (pr k) (x k) (y k) = some (pr', x (k + 1))) {i : ℕ} (hi : i < (x 0).n) :
    Stabilises (fun k => (x k).box i) 3 := by
  have inv : ∀ k, (x k).n = (x 0).n ∧ ∀ i < (x 0).n, Canon ((x k).box i) := by
    intro k
    induction k with
    | zero => exact ⟨rfl, hx⟩
    | succ k ih =>
      obtain ⟨pr', h⟩ := h k
      have hb := widening_box_cases ((hy k).1.trans ih.1.symm) (fun i hi => ih.2 i (ih.1 ▸ hi)) h
      refine ⟨hb.1.trans ih.1, fun i hi => ?_⟩
      rcases hb.2 i (by rw [ih.1]; exact hi) with e | e | e
      · rw [show (x (k + 1)).box i = _ from e]; exact ih.2 i hi
      · rw [show (x (k + 1)).box i = _ from e]; intro hh; simp [Itv.isBottom, Itv.top] at hh
      · rw [show (x (k + 1)).box i = _ from e]; exact canon_widening (ih.2 i hi) ((hy k).2 i hi)
  refine stabilises_of_measure _ Itv.widenMeasure 3 (Itv.widenMeasure_le _) fun k => ?_
  obtain ⟨pr', h⟩ := h k
  have ih := inv k
  have hb := widening_box_cases ((hy k).1.trans ih.1.symm) (fun i hi => ih.2 i (ih.1 ▸ hi)) h
  rcases hb.2 i (by rw [ih.1]; exact hi) with e | e | e
  · exact .inl e
  · rw [show (x (k + 1)).box i = _ from e]
    by_cases ht : (x k).box i = Itv.top
    · exact .inl ht.symm
    · right
      have h0 : Itv.widenMeasure (Itv.top : Itv K) = 0 := by simp [Itv.widenMeasure, Itv.top, Itv.isCanonicalBottom]
      rw [h0]
      unfold Itv.widenMeasure
      split_ifs with k1 k2 k3 k3
      · omega
      · exact absurd (by rcases hh : (x k).box i with ⟨u, v⟩; rw [hh] at k2 k3; simp only at k2 k3; rw [k2, k3]; rfl) ht
      all_goals omega
  · rw [show (x (k + 1)).box i = _ from e]; exact Itv.widen_step _ _

end Props
end Apron
