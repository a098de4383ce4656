import Verif.Zono.Widen
import Verif.Zono.JoinLemmas

/-! # Affine forms: lemmas on widenings -/

set_option autoImplicit false
set_option linter.unusedSectionVars false
set_option linter.ambiguousOpen false

namespace Apron
open Bound
variable {K : Type*} [LinearOrder K] [Field K] [IsStrictOrderedRing K] [FloorRing K] {R : Rnd K}

namespace T1p
variable {ε : ℕ → K}

theorem sub_zero_mem {I : Itv K} {a : K} (h : a ∈ I) : a ∈ Itv.sub R I (Itv.point 0) := by
  have := Itv.mem_sub R h (zero_mem_point (K := K))
  rwa [sub_zero] at this

theorem widenLR_1 {st : JoinSt K} {p q : Term K} {u w a e : K} (hu : u ∈ st.c1) (hw : w ∈ st.bA) (ha : a ∈ p.coef)
    (he : e ∈ (Itv.muu : Itv K)) : ∃ u' w', u' ∈ (widenLR R st p q).c1 ∧ w' ∈ (widenLR R st p q).bA ∧ u + w + a * e = u' + w' := by
  unfold widenLR
  by_cases h : p.sym.un
  · rw [if_pos h]
    exact ⟨u + e * 0, w + e * a, addIn_1 hu zero_mem_point he, Itv.mem_add R hw (Itv.mem_mul R he ha), by ring⟩
  · rw [if_neg h]
    exact ⟨u + e * a, w, addIn_1 hu (sub_zero_mem ha) he, hw, by ring⟩

theorem widenLR_2 {st : JoinSt K} {p q : Term K} {u w b e : K} (hu : u ∈ st.c2) (hw : w ∈ st.bB) (hb : b ∈ q.coef)
    (he : e ∈ (Itv.muu : Itv K)) : ∃ u' w', u' ∈ (widenLR R st p q).c2 ∧ w' ∈ (widenLR R st p q).bB ∧ u + w + b * e = u' + w' := by
  unfold widenLR
  by_cases h : p.sym.un
  · rw [if_pos h]
    exact ⟨u + e * 0, w + e * b, addIn_2 hu zero_mem_point he, Itv.mem_add R hw (Itv.mem_mul R he hb), by ring⟩
  · rw [if_neg h]
    exact ⟨u + e * b, w, addIn_2 hu (sub_zero_mem hb) he, hw, by ring⟩

theorem widenLoop_1 (hε : Noise ε) : ∀ (n : ℕ) (ps qs : List (Term K)) (st : JoinSt K) (u w y : K), ps.length + qs.length < n →
    u ∈ st.c1 → w ∈ st.bA → TermsVal ε ps y →
    ∃ u' w', u' ∈ (widenLoop R n ps qs st).c1 ∧ w' ∈ (widenLoop R n ps qs st).bA ∧ u + w + y = u' + w'
  | 0, _, _, _, _, _, _, h, _, _, _ => by omega
  | _ + 1, [], [], st, u, w, y, _, hu, hw, hy => ⟨u, w, hu, hw, by rw [show y = 0 from hy]; ring⟩
  | n + 1, p :: ps, [], st, u, w, y, hn, hu, hw, hy => by
    obtain ⟨a, y', ha, hy', rfl⟩ := hy
    obtain ⟨u1, w1, h1, h2, h3⟩ := joinL_1 (R := R) (p := p) hu hw ha (hε _)
    obtain ⟨u', w', k2, k3, k4⟩ := widenLoop_1 hε n ps [] _ u1 w1 y' (by simp at hn ⊢; omega) h1 h2 hy'
    exact ⟨u', w', k2, k3, by linear_combination h3 + k4⟩
  | n + 1, [], q :: qs, st, u, w, y, hn, hu, hw, hy => by
    obtain ⟨h1, h2⟩ := joinR_1 (R := R) (p := q) hu hw (hε 0)
    exact widenLoop_1 hε n [] qs _ u w y (by simp at hn ⊢; omega) h1 h2 hy
  | n + 1, p :: ps, q :: qs, st, u, w, y, hn, hu, hw, hy => by
    simp only [widenLoop]
    by_cases c1 : p.sym.index = q.sym.index
    · rw [if_pos c1]
      obtain ⟨a, y', ha, hy', rfl⟩ := hy
      obtain ⟨u1, w1, h1, h2, h3⟩ := widenLR_1 (R := R) (p := p) (q := q) hu hw ha (hε _)
      obtain ⟨u', w', k2, k3, k4⟩ := widenLoop_1 hε n ps qs _ u1 w1 y' (by simp at hn ⊢; omega) h1 h2 hy'
      exact ⟨u', w', k2, k3, by linear_combination h3 + k4⟩
    · rw [if_neg c1]
      by_cases c2 : p.sym.index < q.sym.index
      · rw [if_pos c2]
        obtain ⟨a, y', ha, hy', rfl⟩ := hy
        obtain ⟨u1, w1, h1, h2, h3⟩ := joinL_1 (R := R) (p := p) hu hw ha (hε _)
        obtain ⟨u', w', k2, k3, k4⟩ := widenLoop_1 hε n ps (q :: qs) _ u1 w1 y' (by simp at hn ⊢; omega) h1 h2 hy'
        exact ⟨u', w', k2, k3, by linear_combination h3 + k4⟩
      · rw [if_neg c2]
        obtain ⟨h1, h2⟩ := joinR_1 (R := R) (p := q) hu hw (hε 0)
        exact widenLoop_1 hε n (p :: ps) qs _ u w y (by simp at hn ⊢; omega) h1 h2 hy

theorem widenLoop_2 (hε : Noise ε) : ∀ (n : ℕ) (ps qs : List (Term K)) (st : JoinSt K) (u w y : K), ps.length + qs.length < n →
    u ∈ st.c2 → w ∈ st.bB → TermsVal ε qs y →
    ∃ u' w', u' ∈ (widenLoop R n ps qs st).c2 ∧ w' ∈ (widenLoop R n ps qs st).bB ∧ u + w + y = u' + w'
  | 0, _, _, _, _, _, _, h, _, _, _ => by omega
  | _ + 1, [], [], st, u, w, y, _, hu, hw, hy => ⟨u, w, hu, hw, by rw [show y = 0 from hy]; ring⟩
  | n + 1, p :: ps, [], st, u, w, y, hn, hu, hw, hy => by
    obtain ⟨h1, h2⟩ := joinL_2 (R := R) (p := p) hu hw (hε 0)
    exact widenLoop_2 hε n ps [] _ u w y (by simp at hn ⊢; omega) h1 h2 hy
  | n + 1, [], q :: qs, st, u, w, y, hn, hu, hw, hy => by
    obtain ⟨a, y', ha, hy', rfl⟩ := hy
    obtain ⟨u1, w1, h1, h2, h3⟩ := joinR_2 (R := R) (p := q) hu hw ha (hε _)
    obtain ⟨u', w', k2, k3, k4⟩ := widenLoop_2 hε n [] qs _ u1 w1 y' (by simp at hn ⊢; omega) h1 h2 hy'
    exact ⟨u', w', k2, k3, by linear_combination h3 + k4⟩
  | n + 1, p :: ps, q :: qs, st, u, w, y, hn, hu, hw, hy => by
    simp only [widenLoop]
    by_cases c1 : p.sym.index = q.sym.index
    · rw [if_pos c1]
      obtain ⟨a, y', ha, hy', rfl⟩ := hy
      obtain ⟨u1, w1, h1, h2, h3⟩ := widenLR_2 (R := R) (p := p) (q := q) hu hw ha (hε _)
      obtain ⟨u', w', k2, k3, k4⟩ := widenLoop_2 hε n ps qs _ u1 w1 y' (by simp at hn ⊢; omega) h1 h2 hy'
      exact ⟨u', w', k2, k3, by linear_combination h3 + k4⟩
    · rw [if_neg c1]
      by_cases c2 : p.sym.index < q.sym.index
      · rw [if_pos c2]
        obtain ⟨h1, h2⟩ := joinL_2 (R := R) (p := p) hu hw (hε 0)
        exact widenLoop_2 hε n ps (q :: qs) _ u w y (by simp at hn ⊢; omega) h1 h2 hy
      · rw [if_neg c2]
        obtain ⟨a, y', ha, hy', rfl⟩ := hy
        obtain ⟨u1, w1, h1, h2, h3⟩ := joinR_2 (R := R) (p := q) hu hw ha (hε _)
        obtain ⟨u', w', k2, k3, k4⟩ := widenLoop_2 hε n (p :: ps) qs _ u1 w1 y' (by simp at hn ⊢; omega) h1 h2 hy'
        exact ⟨u', w', k2, k3, by linear_combination h3 + k4⟩

theorem widenForm_wf {k : ℕ} {e1 e2 : Aff K} {A : Aff K} {k' : ℕ}
    (h : widenForm R k e1 e2 = some (.fresh A k')) : Below k' A.q ∧ SortedQ A.q ∧ k ≤ k' := by
  unfold widenForm at h
  dsimp only at h
  split_ifs at h with h0
  · rw [Option.some.injEq, JRes.fresh.injEq] at h
    obtain ⟨rfl, rfl⟩ := h
    exact addItv_zero_wf
  · exact joinEnd_wf below_nil List.Pairwise.nil h

theorem widenForm_sound (hε : Noise ε) {k : ℕ} {e1 e2 : Aff K} {A : Aff K} {k' : ℕ}
    (h : widenForm Rnd.exact k e1 e2 = some (.fresh A k')) (hf : (Itv.join e1.itv e2.itv).hasInfty = false) {v : K}
    (hv : (e1.Val ε v ∧ (e1.q = [] → v ∈ e1.itv)) ∨
      (e2.Val ε v ∧ (e2.q = [] → v ∈ e2.itv))) :
    ∃ ε', Noise ε' ∧ (∀ j < k, ε' j = ε j) ∧ A.Val ε' v := by
  unfold widenForm at h
  dsimp only at h
  split_ifs at h with h0
  · rw [Option.some.injEq, JRes.fresh.injEq] at h
    obtain ⟨rfl, rfl⟩ := h
    rw [Bool.and_eq_true, List.isEmpty_iff, List.isEmpty_iff] at h0
    have : v ∈ Itv.join e1.itv e2.itv := by
      rcases hv with g | g
      · exact Itv.mem_join_left (g.2 h0.1)
      · exact Itv.mem_join_right (g.2 h0.2)
    exact addItv_zero_sound boxSafe_exact hε hf this
  · rcases hv with ⟨⟨c, y, g1, g2, rfl⟩, -⟩ | ⟨⟨c, y, g1, g2, rfl⟩, -⟩
    · obtain ⟨u, w, k2, k3, k4⟩ := widenLoop_1 (R := Rnd.exact) hε (e1.q.length + e2.q.length + 1) e1.q e2.q
        ⟨e1.c, e2.c, Itv.point 0, Itv.point 0⟩ c 0 y (by omega) g1 zero_mem_point g2
      obtain ⟨m, m1, m2⟩ := Itv.mem_middev (Itv.midFin_exact _) k3
      obtain ⟨ε', f1, f2, f3⟩ := joinEnd_sound (z := 0) hε below_nil h rfl (.inl ⟨Itv.mem_add Rnd.exact k2 m1, m2⟩)
      refine ⟨ε', f1, f2, ?_⟩
      have : c + y = 0 + (u + m) + (w - m) := by linear_combination k4
      rw [this]; exact f3
    · obtain ⟨u, w, k2, k3, k4⟩ := widenLoop_2 (R := Rnd.exact) hε (e1.q.length + e2.q.length + 1) e1.q e2.q
        ⟨e1.c, e2.c, Itv.point 0, Itv.point 0⟩ c 0 y (by omega) g1 zero_mem_point g2
      obtain ⟨m, m1, m2⟩ := Itv.mem_middev (Itv.midFin_exact _) k3
      obtain ⟨ε', f1, f2, f3⟩ := joinEnd_sound (z := 0) hε below_nil h rfl (.inr ⟨Itv.mem_add Rnd.exact k2 m1, m2⟩)
      refine ⟨ε', f1, f2, ?_⟩
      have : c + y = 0 + (u + m) + (w - m) := by linear_combination k4
      rw [this]; exact f3

theorem mem_widening {a b : Itv K} {x : K} (h : x ∈ a ∨ x ∈ b) : x ∈ Itv.widening a b := by
  have bw : ∀ (u v : Bound K), u ≤ Itv.boundWidening u v ∧ v ≤ Itv.boundWidening u v := fun u v => by
    unfold Itv.boundWidening
    split_ifs with h
    · simp
    · simp at h; exact ⟨le_refl _, h.2⟩
  unfold Itv.widening
  split_ifs with h1 h2
  · rw [Itv.isCanonicalBottom_iff] at h1; subst h1
    exact h.resolve_left (Itv.not_mem_bottom x)
  · rw [Itv.isCanonicalBottom_iff] at h2; subst h2
    exact h.resolve_right (Itv.not_mem_bottom x)
  · rcases h with h | h
    · exact ⟨h.1.trans (bw _ _).1, h.2.trans (bw _ _).1⟩
    · exact ⟨h.1.trans (bw _ _).2, h.2.trans (bw _ _).2⟩

theorem boundWidening_fin {b c : Bound K} (h : (Itv.boundWidening b c).infty = false) : b.infty = false ∧ c ≤ b := by
  unfold Itv.boundWidening at h
  split_ifs at h with h1
  · cases h
  · simp at h1
    exact ⟨h, h1.2⟩

/-- a widening without infinite bounds is the first interval, which has the second -/
theorem widening_fin {a b : Itv K} {x y : K} (hx : x ∈ a) (hy : y ∈ b) (h : (Itv.widening a b).hasInfty = false) :
    a.hasInfty = false ∧ b.hasInfty = false := by
  have ha : a.isCanonicalBottom = false := by
    rw [Bool.eq_false_iff]; intro h; rw [Itv.isCanonicalBottom_iff] at h; subst h; exact Itv.not_mem_bottom x hx
  have hb : b.isCanonicalBottom = false := by
    rw [Bool.eq_false_iff]; intro h; rw [Itv.isCanonicalBottom_iff] at h; subst h; exact Itv.not_mem_bottom y hy
  unfold Itv.widening at h
  rw [if_neg (by simp [ha]), if_neg (by simp [hb])] at h
  simp only [Itv.hasInfty, Bool.or_eq_false_iff] at h ⊢
  obtain ⟨h1, h2⟩ := h
  have g1 := boundWidening_fin h1
  have g2 := boundWidening_fin h2
  rcases a with ⟨i1, s1⟩
  rcases b with ⟨i2, s2⟩
  obtain ⟨y1, y2⟩ := hy
  refine ⟨⟨?_, ?_⟩, ?_, ?_⟩
  · exact g1.1
  · exact g2.1
  · cases s2 <;> cases s1 <;> simp_all [Bound.infty]
  · cases i2 <;> cases i1 <;> simp_all [Bound.infty]

/-- one dimension of a widening, for a point of the first argument (`sd = false`) or of the second -/
theorem widenStep_ok {a1 a2 : T1 K} {pr : Pr K} (hw : WfPr pr) {i : ℕ} (l1 : a1.paf i < pr.next) (l2 : a2.paf i < pr.next) {s : Pr K × ℕ}
    (h : widenStep Rnd.exact a1 a2 pr i = some s) {v : K} {A B : T1 K} (hAB : (A = a1 ∧ B = a2) ∨ (A = a2 ∧ B = a1))
    (hbx : v ∈ A.box i) {ε1 ε2 : ℕ → K} {y : K} (v1 : (pr.heap (A.paf i)).Val ε1 v) (v2 : (pr.heap (B.paf i)).Val ε2 y)
    (hby : y ∈ B.box i)
    (hp : s.2 = B.paf i → s.2 = topPtr ∨ A.paf i = B.paf i) :
    StepOK pr (A.paf i) v s.1 s.2 (Itv.widening (a1.box i) (a2.box i)) := by
  have hmem : v ∈ Itv.widening (a1.box i) (a2.box i) := by
    rcases hAB with ⟨rfl, rfl⟩ | ⟨rfl, rfl⟩
    · exact mem_widening (.inl hbx)
    · exact mem_widening (.inr hbx)
  have hb1 : (pr.heap (a1.paf i)).isBottom = false := by
    rcases hAB with ⟨rfl, rfl⟩ | ⟨rfl, rfl⟩
    · exact not_bottom_of_val v1
    · exact not_bottom_of_val v2
  have hb2 : (pr.heap (a2.paf i)).isBottom = false := by
    rcases hAB with ⟨rfl, rfl⟩ | ⟨rfl, rfl⟩
    · exact not_bottom_of_val v2
    · exact not_bottom_of_val v1
  unfold widenStep at h
  dsimp only at h
  rw [if_neg (by rw [hb1]; simp), if_neg (by rw [hb2]; simp)] at h
  by_cases h3 : ((pr.heap (a1.paf i)).isTop || (pr.heap (a2.paf i)).isTop) = true
  · rw [if_pos h3, Option.some.injEq] at h
    subst h
    exact ⟨hw, .refl _, hmem, fun ε hε _ => ⟨ε, hε, fun _ _ => rfl, by
      show (pr.heap topPtr).Val ε v
      rw [hw.top]; exact (Aff.Has.top v).1⟩, .inl rfl⟩
  rw [if_neg h3] at h
  rw [Bool.or_eq_true, not_or] at h3
  have t1 : a1.paf i ≠ topPtr := fun e => h3.1 (by rw [e, hw.top]; exact isTop_top)
  have t2 : a2.paf i ≠ topPtr := fun e => h3.2 (by rw [e, hw.top]; exact isTop_top)
  by_cases h5 : affEq (pr.heap (a1.paf i)) (pr.heap (a2.paf i)) = true
  · rw [if_pos h5, Option.some.injEq] at h
    subst h
    have : a1.paf i = A.paf i := by
      rcases hAB with ⟨rfl, rfl⟩ | ⟨rfl, rfl⟩
      · rfl
      · exact ((hp rfl).resolve_left t1).symm
    exact ⟨hw, .refl _, hmem, fun ε hε g => ⟨ε, hε, fun _ _ => rfl, by dsimp only; rw [this]; exact g⟩, .inr (.inl this)⟩
  rw [if_neg h5] at h
  have hne : a1.paf i ≠ a2.paf i := fun e => h5 (by rw [e]; exact affEq_iff.2 ⟨rfl, rfl⟩)
  by_cases h4 : (Itv.widening (a1.box i) (a2.box i)).hasInfty = true
  · rw [if_pos h4, Option.some.injEq] at h
    subst h
    refine ⟨wfPr_newAff hw List.Pairwise.nil below_nil (le_refl _), same_newAff _ _ (le_refl _), hmem, fun ε hε _ => ?_,
      .inr (.inr ⟨rfl, Nat.lt_succ_self _⟩)⟩
    exact ⟨ε, hε, fun _ _ => rfl, by dsimp only; rw [newAff_heap]; exact ⟨v, 0, hmem, rfl, by ring⟩⟩
  rw [if_neg h4] at h
  rw [Bool.not_eq_true] at h4
  have h4 : (a1.box i).hasInfty = false ∧ (a2.box i).hasInfty = false := by
    rcases hAB with ⟨rfl, rfl⟩ | ⟨rfl, rfl⟩
    · exact widening_fin hbx hby h4
    · exact widening_fin hby hbx h4
  generalize hpr : setItv (setItv pr (a1.paf i) (a1.box i)) (a2.paf i) (a2.box i) = pr' at h
  have hS : Same pr pr' := by rw [← hpr]; exact (same_setItv _ _ _).trans (same_setItv _ _ _)
  have hW : WfPr pr' := by
    rw [← hpr]
    exact wfPr_setItv (wfPr_setItv hw fun e => absurd e t1) fun e => absurd e t2
  have hnx : pr'.next = pr.next := by rw [← hpr]; rfl
  have hns : pr'.nsym = pr.nsym := by rw [← hpr]; rfl
  have i2 : (pr'.heap (a2.paf i)).itv = a2.box i := by rw [← hpr]; simp [setItv]
  have i1 : (pr'.heap (a1.paf i)).itv = a1.box i := by
    rw [← hpr]; simp [setItv, Function.update_of_ne hne]
  have keep : ∀ p, p = A.paf i → StepOK pr (A.paf i) v pr' p (Itv.widening (a1.box i) (a2.box i)) := by
    rintro p rfl
    have hl : A.paf i < pr.next := by rcases hAB with ⟨rfl, rfl⟩ | ⟨rfl, rfl⟩ <;> assumption
    exact ⟨hW, hS, hmem, fun ε hε g => ⟨ε, hε, fun _ _ => rfl, hS.val hw hl (fun _ _ => rfl) g⟩, .inr (.inl rfl)⟩
  cases hj : widenForm Rnd.exact pr'.nsym (pr'.heap (a1.paf i)) (pr'.heap (a2.paf i)) with
  | none => rw [hj] at h; cases h
  | some r =>
    rw [hj] at h
    cases r with
    | left =>
      obtain rfl : (pr', a1.paf i) = s := by simpa using h
      apply keep
      rcases hAB with ⟨rfl, rfl⟩ | ⟨rfl, rfl⟩
      · rfl
      · exact ((hp rfl).resolve_left t1).symm
    | right =>
      obtain rfl : (pr', a2.paf i) = s := by simpa using h
      apply keep
      rcases hAB with ⟨rfl, rfl⟩ | ⟨rfl, rfl⟩
      · exact ((hp rfl).resolve_left t2).symm
      · rfl
    | fresh N k =>
      obtain rfl : (newAff pr' N k, pr'.next) = s := by simpa using h
      have wf := widenForm_wf hj
      refine ⟨wfPr_newAff hW wf.2.1 wf.1 wf.2.2, hS.trans (same_newAff _ _ wf.2.2), hmem, fun ε hε g => ?_,
        .inr (.inr ⟨hnx, Nat.lt_succ_self _⟩)⟩
      have hinf : (Itv.join (pr'.heap (a1.paf i)).itv (pr'.heap (a2.paf i)).itv).hasInfty = false := by
        rw [i1, i2]; exact join_hasInfty h4.1 h4.2
      have : ∃ ε', Noise ε' ∧ (∀ j < pr'.nsym, ε' j = ε j) ∧ N.Val ε' v := by
        apply widenForm_sound hε hj hinf
        rcases hAB with ⟨rfl, rfl⟩ | ⟨rfl, rfl⟩
        · exact .inl ⟨hS.val hw l1 (fun _ _ => rfl) g, fun _ => by rw [i1]; exact hbx⟩
        · exact .inr ⟨hS.val hw l2 (fun _ _ => rfl) g, fun _ => by rw [i2]; exact hbx⟩
      obtain ⟨ε', e1, e2, e3⟩ := this
      exact ⟨ε', e1, by rw [← hns]; exact e2, by dsimp only; rw [newAff_heap]; exact e3⟩

theorem widenLoopDims_keep {a1 a2 : T1 K} : ∀ {l : List ℕ} {pr : Pr K} {r : T1 K} {s : Pr K × T1 K}, widenLoopDims R a1 a2 l pr r = some s →
    s.2.n = r.n ∧ ∀ i, i ∉ l → s.2.paf i = r.paf i ∧ s.2.box i = r.box i
  | [], pr, r, s, h => by
    obtain rfl : (pr, r) = s := by simpa [widenLoopDims] using h
    exact ⟨rfl, fun _ _ => ⟨rfl, rfl⟩⟩
  | k :: l, pr, r, s, h => by
    simp only [widenLoopDims] at h
    cases hj : widenStep R a1 a2 pr k with
    | none => rw [hj] at h; cases h
    | some t =>
      rw [hj] at h
      have ih := widenLoopDims_keep h
      refine ⟨ih.1, fun i hi => ?_⟩
      have e : i ≠ k := fun e => hi (by simp [e])
      have := ih.2 i (fun g => hi (by simp [g]))
      simpa [T1.set, Function.update_of_ne e] using this

theorem widenLoopDims_box {a1 a2 : T1 K} : ∀ {l : List ℕ} {pr : Pr K} {r : T1 K} {s : Pr K × T1 K}, l.Nodup →
    widenLoopDims R a1 a2 l pr r = some s → ∀ i ∈ l, s.2.box i = Itv.widening (a1.box i) (a2.box i)
  | [], pr, r, s, _, h => by simp
  | k :: l, pr, r, s, hd, h => by
    simp only [widenLoopDims] at h
    rw [List.nodup_cons] at hd
    cases hj : widenStep R a1 a2 pr k with
    | none => rw [hj] at h; cases h
    | some t =>
      rw [hj] at h
      intro i hi
      rcases List.mem_cons.1 hi with rfl | hi
      · have := ((widenLoopDims_keep h).2 i hd.1).2
        simpa [T1.set] using this
      · exact widenLoopDims_box hd.2 h i hi

theorem widenLoopDims_sound {pr0 : Pr K} (hw : WfPr pr0) {a1 a2 : T1 K} (hn : a2.n = a1.n) (ha1 : ∀ i < a1.n, a1.paf i < pr0.next)
    (ha2 : ∀ i < a2.n, a2.paf i < pr0.next) {A B : T1 K} (hAB : (A = a1 ∧ B = a2) ∨ (A = a2 ∧ B = a1)) {x y : ℕ → K} (g1 : Gam pr0 A x)
    (g2 : Gam pr0 B y) {f : Pr K × T1 K}
    (hp : ∀ i < a1.n, f.2.paf i = B.paf i → f.2.paf i = topPtr ∨ A.paf i = B.paf i) :
    ∀ (l : List ℕ) (S : ℕ → Prop) (pr : Pr K) (r : T1 K) (ε : ℕ → K), l.Nodup → (∀ i ∈ l, i < a1.n) → (∀ i, S i → i < a1.n) →
      LInv pr0 A x S pr r ε → widenLoopDims Rnd.exact a1 a2 l pr r = some f → ∃ ε', LInv pr0 A x (fun j => S j ∨ j ∈ l) f.1 f.2 ε' := by
  have hA : A.n = a1.n := by rcases hAB with ⟨rfl, rfl⟩ | ⟨rfl, rfl⟩ <;> [rfl; exact hn]
  have hB : B.n = a1.n := by rcases hAB with ⟨rfl, rfl⟩ | ⟨rfl, rfl⟩ <;> [exact hn; rfl]
  have hA1 : ∀ i < A.n, A.paf i < pr0.next := by rcases hAB with ⟨rfl, rfl⟩ | ⟨rfl, rfl⟩ <;> assumption
  have hB1 : ∀ i < B.n, B.paf i < pr0.next := by rcases hAB with ⟨rfl, rfl⟩ | ⟨rfl, rfl⟩ <;> assumption
  intro l
  induction l with
  | nil =>
    intro S pr r ε _ _ _ h hf
    obtain rfl : (pr, r) = f := by simpa [widenLoopDims] using hf
    exact ⟨ε, by simpa using h⟩
  | cons i l ih =>
    intro S pr r ε hd hl hS h hf
    have hi := hl i (by simp)
    rw [List.nodup_cons] at hd
    simp only [widenLoopDims] at hf
    cases hj : widenStep Rnd.exact a1 a2 pr i with
    | none => rw [hj] at hf; cases hf
    | some s =>
      rw [hj] at hf
      dsimp only at hf
      have hfin : f.2.paf i = s.2 := by
        have := ((widenLoopDims_keep hf).2 i hd.1).1
        simpa [T1.set] using this
      obtain ⟨_, ε2, e1, e2⟩ := g2
      obtain ⟨_, ε1, f1, f2⟩ := id g1
      have hnx := h.same.next
      have hok := widenStep_ok h.wf (lt_of_lt_of_le (ha1 i hi) hnx) (lt_of_lt_of_le (ha2 i (by omega)) hnx) hj hAB (f2 i (by omega)).1
        (h.av i (by omega)) (h.same.val hw (hB1 i (by omega)) (fun _ _ => rfl) (e2 i (by omega)).2)
        (e2 i (by omega)).1 (fun e => by rw [← hfin] at e ⊢; exact hp i hi e)
      obtain ⟨ε', hL⟩ := h.step hA1 g1.1 (fun j hj => by rw [hA]; exact hS j hj) (by rw [hA]; exact hi) hok
      obtain ⟨ε'', k2⟩ := ih _ _ _ _ hd.2 (fun j hj => hl j (by simp [hj])) (fun j hj => hj.elim (hS j) fun e => e ▸ hi) hL hf
      refine ⟨ε'', ?_⟩
      have : (fun j => S j ∨ j ∈ i :: l) = fun j => (S j ∨ j = i) ∨ j ∈ l := by
        funext j; simp [or_assoc]
      rw [this]; exact k2

end T1p
end Apron
