import Verif.Zono.LatticeLemmas

/-! # Affine forms: lemmas on joins -/

set_option autoImplicit false
set_option linter.unusedSectionVars false
set_option linter.ambiguousOpen false

namespace Apron
open Bound
variable {K : Type*} [LinearOrder K] [Field K] [IsStrictOrderedRing K] [FloorRing K] {R : Rnd K}

namespace T1p
variable {ε : ℕ → K}

theorem zero_mem_point : (0 : K) ∈ (Itv.point 0 : Itv K) := (Itv.mem_point _ _).2 rfl

theorem addIn_1 {st : JoinSt K} {pm qm : Itv K} {u t e : K} (hu : u ∈ st.c1) (ht : t ∈ pm) (he : e ∈ (Itv.muu : Itv K)) :
    u + e * t ∈ (JoinSt.addIn R st pm qm).c1 := Itv.mem_add R hu (Itv.mem_mul R he ht)

theorem addIn_2 {st : JoinSt K} {pm qm : Itv K} {u t e : K} (hu : u ∈ st.c2) (ht : t ∈ qm) (he : e ∈ (Itv.muu : Itv K)) :
    u + e * t ∈ (JoinSt.addIn R st pm qm).c2 := Itv.mem_add R hu (Itv.mem_mul R he ht)

theorem joinL_1 {st : JoinSt K} {p : Term K} {u w a e : K} (hu : u ∈ st.c1) (hw : w ∈ st.bA) (ha : a ∈ p.coef) (he : e ∈ (Itv.muu : Itv K)) :
    ∃ u' w', u' ∈ (joinL R st p).c1 ∧ w' ∈ (joinL R st p).bA ∧ u + w + a * e = u' + w' := by
  unfold joinL
  split_ifs
  · exact ⟨u + e * 0, w + e * a, addIn_1 hu zero_mem_point he, Itv.mem_add R hw (Itv.mem_mul R he ha), by ring⟩
  · exact ⟨u + e * a, w, addIn_1 hu ha he, hw, by ring⟩

theorem joinL_2 {st : JoinSt K} {p : Term K} {u w e : K} (hu : u ∈ st.c2) (hw : w ∈ st.bB) (he : e ∈ (Itv.muu : Itv K)) :
    u ∈ (joinL R st p).c2 ∧ w ∈ (joinL R st p).bB := by
  have h : u = u + e * 0 := by ring
  unfold joinL
  split_ifs <;> rw [h] <;> exact ⟨addIn_2 hu zero_mem_point he, hw⟩

theorem joinR_1 {st : JoinSt K} {p : Term K} {u w e : K} (hu : u ∈ st.c1) (hw : w ∈ st.bA) (he : e ∈ (Itv.muu : Itv K)) :
    u ∈ (joinR R st p).c1 ∧ w ∈ (joinR R st p).bA := by
  have h : u = u + e * 0 := by ring
  unfold joinR
  split_ifs <;> rw [h] <;> exact ⟨addIn_1 hu zero_mem_point he, hw⟩

theorem joinR_2 {st : JoinSt K} {p : Term K} {u w a e : K} (hu : u ∈ st.c2) (hw : w ∈ st.bB) (ha : a ∈ p.coef) (he : e ∈ (Itv.muu : Itv K)) :
    ∃ u' w', u' ∈ (joinR R st p).c2 ∧ w' ∈ (joinR R st p).bB ∧ u + w + a * e = u' + w' := by
  unfold joinR
  split_ifs
  · exact ⟨u + e * 0, w + e * a, addIn_2 hu zero_mem_point he, Itv.mem_add R hw (Itv.mem_mul R he ha), by ring⟩
  · exact ⟨u + e * a, w, addIn_2 hu ha he, hw, by ring⟩

theorem argmin_cases (a b : Itv K) : argmin a b = (Itv.point 0, 0) ∨ argmin a b = (a, -1) ∨ argmin a b = (b, 1) := by
  unfold argmin
  split_ifs <;> simp

theorem joinLR_1 {st : JoinSt K} {p q : Term K} {u w a b e : K} (hu : u ∈ st.c1) (hw : w ∈ st.bA) (ha : a ∈ p.coef) (hb : b ∈ q.coef)
    (he : e ∈ (Itv.muu : Itv K)) : ∃ k u' w', k ∈ (joinLR R st p q).1 ∧ u' ∈ (joinLR R st p q).2.c1 ∧ w' ∈ (joinLR R st p q).2.bA ∧
      u + w + a * e = k * e + u' + w' := by
  unfold joinLR
  by_cases h : p.sym.un
  · rw [if_pos h]
    exact ⟨0, u + e * 0, w + e * a, zero_mem_point, addIn_1 hu zero_mem_point he, Itv.mem_add R hw (Itv.mem_mul R he ha), by ring⟩
  · rw [if_neg h]
    rcases argmin_cases p.coef q.coef with g | g | g <;> rw [g]
    · exact ⟨0, u + e * a, w, zero_mem_point, addIn_1 hu ha he, hw, by ring⟩
    · exact ⟨a, u + e * 0, w, ha, addIn_1 hu zero_mem_point he, hw, by ring⟩
    · exact ⟨b, u + e * (a - b), w, hb, addIn_1 hu (Itv.mem_sub R ha hb) he, hw, by ring⟩

theorem joinLR_2 {st : JoinSt K} {p q : Term K} {u w a b e : K} (hu : u ∈ st.c2) (hw : w ∈ st.bB) (ha : a ∈ p.coef) (hb : b ∈ q.coef)
    (he : e ∈ (Itv.muu : Itv K)) : ∃ k u' w', k ∈ (joinLR R st p q).1 ∧ u' ∈ (joinLR R st p q).2.c2 ∧ w' ∈ (joinLR R st p q).2.bB ∧
      u + w + b * e = k * e + u' + w' := by
  unfold joinLR
  by_cases h : p.sym.un
  · rw [if_pos h]
    exact ⟨0, u + e * 0, w + e * b, zero_mem_point, addIn_2 hu zero_mem_point he, Itv.mem_add R hw (Itv.mem_mul R he hb), by ring⟩
  · rw [if_neg h]
    rcases argmin_cases p.coef q.coef with g | g | g <;> rw [g]
    · exact ⟨0, u + e * b, w, zero_mem_point, addIn_2 hu hb he, hw, by ring⟩
    · exact ⟨a, u + e * (b - a), w, ha, addIn_2 hu (Itv.mem_sub R hb ha) he, hw, by ring⟩
    · exact ⟨b, u + e * 0, w, hb, addIn_2 hu zero_mem_point he, hw, by ring⟩

theorem termsVal_keep {m : Itv K} {s : NSym} {r : List (Term K)} {k z : K} (hk : k ∈ m) (hz : TermsVal ε r z) :
    TermsVal ε (if m.isZero then r else ⟨s, m⟩ :: r) (k * ε s.index + z) := by
  by_cases h : m.isZero = true
  · rw [if_pos h, Itv.isZero_mem h hk, zero_mul, zero_add]; exact hz
  · rw [if_neg h]; exact ⟨k, z, hk, hz, rfl⟩

theorem joinLoop_1 (hε : Noise ε) : ∀ (n : ℕ) (ps qs : List (Term K)) (st : JoinSt K) (u w y : K), ps.length + qs.length < n →
    (∀ t ∈ qs, ∃ b, b ∈ t.coef) → u ∈ st.c1 → w ∈ st.bA → TermsVal ε ps y →
    ∃ z u' w', TermsVal ε (joinLoop R n ps qs st).1 z ∧ u' ∈ (joinLoop R n ps qs st).2.c1 ∧ w' ∈ (joinLoop R n ps qs st).2.bA ∧
      u + w + y = z + u' + w'
  | 0, _, _, _, _, _, _, h, _, _, _, _ => by omega
  | _ + 1, [], [], st, u, w, y, _, _, hu, hw, hy => ⟨0, u, w, rfl, hu, hw, by rw [show y = 0 from hy]; ring⟩
  | n + 1, p :: ps, [], st, u, w, y, hn, hq, hu, hw, hy => by
    obtain ⟨a, y', ha, hy', rfl⟩ := hy
    obtain ⟨u1, w1, h1, h2, h3⟩ := joinL_1 (R := R) (p := p) hu hw ha (hε p.sym.index)
    obtain ⟨z, u', w', k1, k2, k3, k4⟩ := joinLoop_1 hε n ps [] _ u1 w1 y' (by simp at hn ⊢; omega) hq h1 h2 hy'
    exact ⟨z, u', w', k1, k2, k3, by linear_combination h3 + k4⟩
  | n + 1, [], q :: qs, st, u, w, y, hn, hq, hu, hw, hy => by
    obtain ⟨h1, h2⟩ := joinR_1 (R := R) (p := q) hu hw (hε 0)
    exact joinLoop_1 hε n [] qs _ u w y (by simp at hn ⊢; omega) (fun t ht => hq t (by simp [ht])) h1 h2 hy
  | n + 1, p :: ps, q :: qs, st, u, w, y, hn, hq, hu, hw, hy => by
    simp only [joinLoop]
    by_cases c1 : p.sym.index = q.sym.index
    · rw [if_pos c1]
      obtain ⟨a, y', ha, hy', rfl⟩ := hy
      obtain ⟨b, hb⟩ := hq q (by simp)
      obtain ⟨k, u1, w1, h0, h1, h2, h3⟩ := joinLR_1 (R := R) hu hw ha hb (hε p.sym.index)
      obtain ⟨z, u', w', k1, k2, k3, k4⟩ := joinLoop_1 hε n ps qs _ u1 w1 y' (by simp at hn ⊢; omega) (fun t ht => hq t (by simp [ht])) h1 h2 hy'
      exact ⟨k * ε p.sym.index + z, u', w', termsVal_keep h0 k1, k2, k3, by linear_combination h3 + k4⟩
    · rw [if_neg c1]
      by_cases c2 : p.sym.index < q.sym.index
      · rw [if_pos c2]
        obtain ⟨a, y', ha, hy', rfl⟩ := hy
        obtain ⟨u1, w1, h1, h2, h3⟩ := joinL_1 (R := R) (p := p) hu hw ha (hε p.sym.index)
        obtain ⟨z, u', w', k1, k2, k3, k4⟩ := joinLoop_1 hε n ps (q :: qs) _ u1 w1 y' (by simp at hn ⊢; omega) hq h1 h2 hy'
        exact ⟨z, u', w', k1, k2, k3, by linear_combination h3 + k4⟩
      · rw [if_neg c2]
        obtain ⟨h1, h2⟩ := joinR_1 (R := R) (p := q) hu hw (hε 0)
        exact joinLoop_1 hε n (p :: ps) qs _ u w y (by simp at hn ⊢; omega) (fun t ht => hq t (by simp [ht])) h1 h2 hy

theorem joinLoop_2 (hε : Noise ε) : ∀ (n : ℕ) (ps qs : List (Term K)) (st : JoinSt K) (u w y : K), ps.length + qs.length < n →
    (∀ t ∈ ps, ∃ b, b ∈ t.coef) → u ∈ st.c2 → w ∈ st.bB → TermsVal ε qs y →
    ∃ z u' w', TermsVal ε (joinLoop R n ps qs st).1 z ∧ u' ∈ (joinLoop R n ps qs st).2.c2 ∧ w' ∈ (joinLoop R n ps qs st).2.bB ∧
      u + w + y = z + u' + w'
  | 0, _, _, _, _, _, _, h, _, _, _, _ => by omega
  | _ + 1, [], [], st, u, w, y, _, _, hu, hw, hy => ⟨0, u, w, rfl, hu, hw, by rw [show y = 0 from hy]; ring⟩
  | n + 1, [], q :: qs, st, u, w, y, hn, hq, hu, hw, hy => by
    obtain ⟨a, y', ha, hy', rfl⟩ := hy
    obtain ⟨u1, w1, h1, h2, h3⟩ := joinR_2 (R := R) (p := q) hu hw ha (hε q.sym.index)
    obtain ⟨z, u', w', k1, k2, k3, k4⟩ := joinLoop_2 hε n [] qs _ u1 w1 y' (by simp at hn ⊢; omega) hq h1 h2 hy'
    exact ⟨z, u', w', k1, k2, k3, by linear_combination h3 + k4⟩
  | n + 1, p :: ps, [], st, u, w, y, hn, hq, hu, hw, hy => by
    obtain ⟨h1, h2⟩ := joinL_2 (R := R) (p := p) hu hw (hε 0)
    exact joinLoop_2 hε n ps [] _ u w y (by simp at hn ⊢; omega) (fun t ht => hq t (by simp [ht])) h1 h2 hy
  | n + 1, p :: ps, q :: qs, st, u, w, y, hn, hq, hu, hw, hy => by
    simp only [joinLoop]
    by_cases c1 : p.sym.index = q.sym.index
    · rw [if_pos c1]
      obtain ⟨a, y', ha, hy', rfl⟩ := hy
      obtain ⟨b, hb⟩ := hq p (by simp)
      obtain ⟨k, u1, w1, h0, h1, h2, h3⟩ := joinLR_2 (R := R) hu hw hb ha (hε q.sym.index)
      obtain ⟨z, u', w', k1, k2, k3, k4⟩ := joinLoop_2 hε n ps qs _ u1 w1 y' (by simp at hn ⊢; omega) (fun t ht => hq t (by simp [ht])) h1 h2 hy'
      refine ⟨k * ε p.sym.index + z, u', w', termsVal_keep h0 k1, k2, k3, ?_⟩
      rw [c1]; linear_combination h3 + k4
    · rw [if_neg c1]
      by_cases c2 : p.sym.index < q.sym.index
      · rw [if_pos c2]
        obtain ⟨h1, h2⟩ := joinL_2 (R := R) (p := p) hu hw (hε 0)
        exact joinLoop_2 hε n ps (q :: qs) _ u w y (by simp at hn ⊢; omega) (fun t ht => hq t (by simp [ht])) h1 h2 hy
      · rw [if_neg c2]
        obtain ⟨a, y', ha, hy', rfl⟩ := hy
        obtain ⟨u1, w1, h1, h2, h3⟩ := joinR_2 (R := R) (p := q) hu hw ha (hε q.sym.index)
        obtain ⟨z, u', w', k1, k2, k3, k4⟩ := joinLoop_2 hε n (p :: ps) qs _ u1 w1 y' (by simp at hn ⊢; omega) hq h1 h2 hy'
        exact ⟨z, u', w', k1, k2, k3, by linear_combination h3 + k4⟩

/-- the symbols kept are symbols of the first form, in the same order -/
theorem joinLoop_sub : ∀ (n : ℕ) (ps qs : List (Term K)) (st : JoinSt K),
    ((joinLoop R n ps qs st).1.map (·.sym.index)).Sublist (ps.map (·.sym.index))
  | 0, ps, _, _ => by simp [joinLoop]
  | _ + 1, [], [], st => by simp [joinLoop]
  | n + 1, p :: ps, [], st => by
    simp only [joinLoop, List.map_cons]
    exact (joinLoop_sub n ps [] _).cons _
  | n + 1, [], q :: qs, st => by simpa only [joinLoop] using joinLoop_sub n [] qs _
  | n + 1, p :: ps, q :: qs, st => by
    simp only [joinLoop]
    by_cases c1 : p.sym.index = q.sym.index
    · rw [if_pos c1]
      have ih := joinLoop_sub n ps qs (joinLR R st p q).2
      by_cases c3 : (joinLR R st p q).1.isZero = true
      · rw [if_pos c3]; exact ih.cons _
      · rw [if_neg c3]; exact ih.cons_cons _
    · rw [if_neg c1]
      by_cases c2 : p.sym.index < q.sym.index
      · rw [if_pos c2]; exact (joinLoop_sub n ps (q :: qs) _).cons _
      · rw [if_neg c2]; exact joinLoop_sub n (p :: ps) qs _

theorem below_sub {k : ℕ} {l q : List (Term K)} (h : (l.map (·.sym.index)).Sublist (q.map (·.sym.index))) (hb : Below k q) : Below k l := by
  intro t ht
  have := h.subset (List.mem_map.2 ⟨t, ht, rfl⟩)
  obtain ⟨s, h1, h2⟩ := List.mem_map.1 this
  have := hb s h1
  omega

theorem sortedQ_sub {l q : List (Term K)} (h : (l.map (·.sym.index)).Sublist (q.map (·.sym.index))) (hb : SortedQ q) : SortedQ l :=
  List.pairwise_map.1 ((List.pairwise_map.2 hb).sublist h)

theorem numUp_exact (q : K) : numUp Rnd.exact q = q := rfl

/-- the new form of the join of two forms has the values of a form of which the variables of the loop give a value -/
theorem joinEnd_sound (hε : Noise ε) {k : ℕ} {itv c1 c2 d1 d2 : Itv K} {q : List (Term K)} (hb : Below k q) {A : Aff K} {k' : ℕ}
    (h : joinEnd Rnd.exact k itv q c1 c2 d1 d2 = some (.fresh A k')) {z u e : K} (hz : TermsVal ε q z)
    (hu : (u ∈ c1 ∧ e ∈ (⟨d1.sup, d1.sup⟩ : Itv K)) ∨ (u ∈ c2 ∧ e ∈ (⟨d2.sup, d2.sup⟩ : Itv K))) :
    ∃ ε', Noise ε' ∧ (∀ j < k, ε' j = ε j) ∧ A.Val ε' (z + u + e) := by
  unfold joinEnd at h
  split at h
  · rename_i i1 s1 i2 s2 _ e1 _ e2
    dsimp only at h
    split at h
    · rw [Option.some.injEq] at h
      split_ifs at h
    rw [Option.some.injEq, JRes.fresh.injEq] at h
    obtain ⟨rfl, rfl⟩ := h
    simp only [numUp_exact]
    generalize hM : max (max (max (-i1 + e1) (-i2 + e2)) (s1 + e1)) (s2 + e2) = M
    generalize hN : max (max (max (i1 + e1) (i2 + e2)) (-s1 + e1)) (-s2 + e2) = N
    have hr : u + e ≤ M ∧ -(u + e) ≤ N := by
      rcases hu with ⟨⟨a1, a2⟩, a3, a4⟩ | ⟨⟨a1, a2⟩, a3, a4⟩
      · simp only [fin_le_fin] at a1 a2 a3 a4
        constructor
        · rw [← hM]; exact le_trans (by linarith) (le_max_of_le_left (le_max_right _ _))
        · rw [← hN]; exact le_trans (by linarith) (le_max_of_le_left (le_max_of_le_left (le_max_left _ _)))
      · simp only [fin_le_fin] at a1 a2 a3 a4
        constructor
        · rw [← hM]; exact le_trans (by linarith) (le_max_right _ _)
        · rw [← hN]; exact le_trans (by linarith) (le_max_of_le_left (le_max_of_le_left (le_max_right _ _)))
    have habs : fin |u + e - (M - N) / 2| ≤ fin ((M + N) / 2) := by
      rw [fin_le_fin, abs_le]; constructor <;> linarith [hr.1, hr.2]
    obtain ⟨ε', g1, g2, g3⟩ := nsymCreate_sound (k := k) (a := ⟨Itv.point ((M - N) / 2), q, itv⟩) hε hb
      (x := (M - N) / 2 + z) ⟨(M - N) / 2, z, (Itv.mem_point _ _).2 rfl, hz, rfl⟩ (by simp) habs (un := true)
    refine ⟨ε', g1, g2, ?_⟩
    have : z + u + e = (M - N) / 2 + z + (u + e - (M - N) / 2) := by ring
    rw [this]
    exact g3
  · cases h

theorem joinEnd_wf {k : ℕ} {itv c1 c2 d1 d2 : Itv K} {q : List (Term K)} (hb : Below k q) (hs : SortedQ q) {A : Aff K} {k' : ℕ}
    (h : joinEnd R k itv q c1 c2 d1 d2 = some (.fresh A k')) : Below k' A.q ∧ SortedQ A.q ∧ k ≤ k' := by
  unfold joinEnd at h
  split at h
  · dsimp only at h
    split at h
    · rw [Option.some.injEq] at h
      split_ifs at h
    · rw [Option.some.injEq, JRes.fresh.injEq] at h
      obtain ⟨rfl, rfl⟩ := h
      exact nsymCreate_wf hb hs
  · cases h

theorem joinForm_wf {k : ℕ} {e1 e2 : Aff K} (hb : Below k e1.q) (hs : SortedQ e1.q) {A : Aff K} {k' : ℕ}
    (h : joinForm R k e1 e2 = some (.fresh A k')) : Below k' A.q ∧ SortedQ A.q ∧ k ≤ k' := by
  unfold joinForm at h
  dsimp only at h
  split_ifs at h with h0
  · rw [Option.some.injEq, JRes.fresh.injEq] at h
    obtain ⟨rfl, rfl⟩ := h
    exact addItv_zero_wf
  · exact joinEnd_wf (below_sub (joinLoop_sub _ _ _ _) hb) (sortedQ_sub (joinLoop_sub _ _ _ _) hs) h

theorem joinForm_sound (hε : Noise ε) {k : ℕ} {e1 e2 : Aff K} (hb : Below k e1.q) {A : Aff K} {k' : ℕ}
    (h : joinForm Rnd.exact k e1 e2 = some (.fresh A k')) (hf : (Itv.join e1.itv e2.itv).hasInfty = false) {v : K}
    (hv : (e1.Val ε v ∧ (e1.q = [] → v ∈ e1.itv) ∧ ∀ t ∈ e2.q, ∃ b, b ∈ t.coef) ∨
      (e2.Val ε v ∧ (e2.q = [] → v ∈ e2.itv) ∧ ∀ t ∈ e1.q, ∃ b, b ∈ t.coef)) :
    ∃ ε', Noise ε' ∧ (∀ j < k, ε' j = ε j) ∧ A.Val ε' v := by
  unfold joinForm at h
  dsimp only at h
  split_ifs at h with h0
  · rw [Option.some.injEq, JRes.fresh.injEq] at h
    obtain ⟨rfl, rfl⟩ := h
    rw [Bool.and_eq_true, List.isEmpty_iff, List.isEmpty_iff] at h0
    have : v ∈ Itv.join e1.itv e2.itv := by
      rcases hv with g | g
      · exact Itv.mem_join_left (g.2.1 h0.1)
      · exact Itv.mem_join_right (g.2.1 h0.2)
    exact addItv_zero_sound boxSafe_exact hε hf this
  · have hB := below_sub (joinLoop_sub (R := Rnd.exact) (e1.q.length + e2.q.length + 1) e1.q e2.q ⟨e1.c, e2.c, Itv.point 0, Itv.point 0⟩) hb
    rcases hv with ⟨⟨c, y, g1, g2, rfl⟩, -, g4⟩ | ⟨⟨c, y, g1, g2, rfl⟩, -, g4⟩
    · obtain ⟨z, u, w, k1, k2, k3, k4⟩ := joinLoop_1 (R := Rnd.exact) hε (e1.q.length + e2.q.length + 1) e1.q e2.q
        ⟨e1.c, e2.c, Itv.point 0, Itv.point 0⟩ c 0 y (by omega) g4 g1 zero_mem_point g2
      obtain ⟨m, m1, m2⟩ := Itv.mem_middev (Itv.midFin_exact _) k3
      obtain ⟨ε', f1, f2, f3⟩ := joinEnd_sound hε hB h k1 (.inl ⟨Itv.mem_add Rnd.exact k2 m1, m2⟩)
      refine ⟨ε', f1, f2, ?_⟩
      have : c + y = z + (u + m) + (w - m) := by linear_combination k4
      rw [this]; exact f3
    · obtain ⟨z, u, w, k1, k2, k3, k4⟩ := joinLoop_2 (R := Rnd.exact) hε (e1.q.length + e2.q.length + 1) e1.q e2.q
        ⟨e1.c, e2.c, Itv.point 0, Itv.point 0⟩ c 0 y (by omega) g4 g1 zero_mem_point g2
      obtain ⟨m, m1, m2⟩ := Itv.mem_middev (Itv.midFin_exact _) k3
      obtain ⟨ε', f1, f2, f3⟩ := joinEnd_sound hε hB h k1 (.inr ⟨Itv.mem_add Rnd.exact k2 m1, m2⟩)
      refine ⟨ε', f1, f2, ?_⟩
      have : c + y = z + (u + m) + (w - m) := by linear_combination k4
      rw [this]; exact f3

theorem termsVal_nonempty : ∀ {q : List (Term K)} {y : K}, TermsVal ε q y → ∀ t ∈ q, ∃ b, b ∈ t.coef
  | [], _, _ => by simp
  | t :: q, y, ⟨a, z, h1, h2, _⟩ => by
    intro s hs
    rcases List.mem_cons.1 hs with rfl | hs
    · exact ⟨a, h1⟩
    · exact termsVal_nonempty h2 s hs

theorem Aff.Val.nonempty {A : Aff K} {v : K} (h : A.Val ε v) : ∀ t ∈ A.q, ∃ b, b ∈ t.coef := by
  obtain ⟨c, y, _, h2, _⟩ := h
  exact termsVal_nonempty h2

theorem not_bottom_of_val {A : Aff K} {v : K} (h : A.Val ε v) : A.isBottom = false := by
  rw [Bool.eq_false_iff]
  intro hb
  simp only [Aff.isBottom, Bool.and_eq_true, List.isEmpty_iff] at hb
  have := Itv.not_isBottom (val_nil hb.2 h)
  rw [this] at hb
  simp at hb

theorem join_hasInfty {a b : Itv K} (ha : a.hasInfty = false) (hb : b.hasInfty = false) : (Itv.join a b).hasInfty = false := by
  unfold Itv.join
  split_ifs
  · exact hb
  · exact ha
  · simp only [Itv.hasInfty, Bool.or_eq_false_iff] at ha hb ⊢
    rcases a with ⟨i1, s1⟩
    rcases b with ⟨i2, s2⟩
    constructor
    · cases s1 <;> cases s2 <;> simp [Bound.infty, Bound.bmax] at ha hb ⊢
      split_ifs <;> rfl
    · cases i1 <;> cases i2 <;> simp [Bound.infty, Bound.bmax] at ha hb ⊢
      split_ifs <;> rfl

/-- one dimension of a join, for a point of the first argument (`sd = false`) or of the second -/
theorem joinStep_ok {a1 a2 : T1 K} {pr : Pr K} (hw : WfPr pr) {i : ℕ} (l1 : a1.paf i < pr.next) (l2 : a2.paf i < pr.next) {s : Pr K × ℕ}
    (h : joinStep Rnd.exact a1 a2 pr i = some s) {v : K} {A B : T1 K} (hAB : (A = a1 ∧ B = a2) ∨ (A = a2 ∧ B = a1))
    (hbx : v ∈ A.box i) {ε1 ε2 : ℕ → K} {y : K} (v1 : (pr.heap (A.paf i)).Val ε1 v) (v2 : (pr.heap (B.paf i)).Val ε2 y)
    (hsh : a1.paf i = a2.paf i → a1.paf i = topPtr ∨ (pr.heap (a1.paf i)).q ≠ [] ∨ a1.box i = a2.box i)
    (hp : s.2 = B.paf i → s.2 = topPtr ∨ A.paf i = B.paf i) :
    StepOK pr (A.paf i) v s.1 s.2 (Itv.join (a1.box i) (a2.box i)) := by
  have hmem : v ∈ Itv.join (a1.box i) (a2.box i) := by
    rcases hAB with ⟨rfl, rfl⟩ | ⟨rfl, rfl⟩
    · exact Itv.mem_join_left hbx
    · exact Itv.mem_join_right hbx
  have hb1 : (pr.heap (a1.paf i)).isBottom = false := by
    rcases hAB with ⟨rfl, rfl⟩ | ⟨rfl, rfl⟩
    · exact not_bottom_of_val v1
    · exact not_bottom_of_val v2
  have hb2 : (pr.heap (a2.paf i)).isBottom = false := by
    rcases hAB with ⟨rfl, rfl⟩ | ⟨rfl, rfl⟩
    · exact not_bottom_of_val v2
    · exact not_bottom_of_val v1
  unfold joinStep at h
  dsimp only at h
  rw [if_neg (by rw [hb1]; simp), if_neg (by rw [hb2]; simp)] at h
  by_cases h3 : ((pr.heap (a1.paf i)).isTop || (pr.heap (a2.paf i)).isTop) = true
  · rw [if_pos h3, Option.some.injEq] at h
    subst h
    exact ⟨hw, .refl _, hmem, fun ε hε _ => ⟨ε, hε, fun _ _ => rfl, by
      show (pr.heap topPtr).Val ε v
      rw [hw.top]; exact (Aff.Has.top v).1⟩, .inl rfl⟩
  rw [if_neg h3] at h
  rw [Bool.or_eq_true, not_or] at h3
  have t1 : a1.paf i ≠ topPtr := fun e => h3.1 (by rw [e, hw.top]; exact isTop_top)
  have t2 : a2.paf i ≠ topPtr := fun e => h3.2 (by rw [e, hw.top]; exact isTop_top)
  by_cases h4 : ((a1.box i).hasInfty || (a2.box i).hasInfty) = true
  · rw [if_pos h4, Option.some.injEq] at h
    subst h
    refine ⟨wfPr_newAff hw List.Pairwise.nil below_nil (le_refl _), same_newAff _ _ (le_refl _), hmem, fun ε hε _ => ?_,
      .inr (.inr ⟨rfl, Nat.lt_succ_self _⟩)⟩
    exact ⟨ε, hε, fun _ _ => rfl, by dsimp only; rw [newAff_heap]; exact ⟨v, 0, hmem, rfl, by ring⟩⟩
  rw [if_neg h4] at h
  simp only [Bool.or_eq_true, not_or, Bool.not_eq_true] at h4
  generalize hpr : setItv (setItv pr (a1.paf i) (a1.box i)) (a2.paf i) (a2.box i) = pr' at h
  have hS : Same pr pr' := by rw [← hpr]; exact (same_setItv _ _ _).trans (same_setItv _ _ _)
  have hW : WfPr pr' := by
    rw [← hpr]
    exact wfPr_setItv (wfPr_setItv hw fun e => absurd e t1) fun e => absurd e t2
  have hnx : pr'.next = pr.next := by rw [← hpr]; rfl
  have hns : pr'.nsym = pr.nsym := by rw [← hpr]; rfl
  have i2 : (pr'.heap (a2.paf i)).itv = a2.box i := by rw [← hpr]; simp [setItv]
  have i1 : (pr'.heap (a1.paf i)).itv = a1.box i ∨ (a1.paf i = a2.paf i ∧ (pr'.heap (a1.paf i)).itv = a2.box i) := by
    by_cases e : a1.paf i = a2.paf i
    · exact .inr ⟨e, by rw [e]; exact i2⟩
    · left; rw [← hpr]; simp [setItv, Function.update_of_ne e]
  have keep : ∀ p, p = A.paf i → StepOK pr (A.paf i) v pr' p (Itv.join (a1.box i) (a2.box i)) := by
    rintro p rfl
    have hl : A.paf i < pr.next := by rcases hAB with ⟨rfl, rfl⟩ | ⟨rfl, rfl⟩ <;> assumption
    exact ⟨hW, hS, hmem, fun ε hε g => ⟨ε, hε, fun _ _ => rfl, hS.val hw hl (fun _ _ => rfl) g⟩, .inr (.inl rfl)⟩
  cases hj : joinForm Rnd.exact pr'.nsym (pr'.heap (a1.paf i)) (pr'.heap (a2.paf i)) with
  | none => rw [hj] at h; cases h
  | some r =>
    rw [hj] at h
    cases r with
    | left =>
      obtain rfl : (pr', a1.paf i) = s := by simpa using h
      apply keep
      rcases hAB with ⟨rfl, rfl⟩ | ⟨rfl, rfl⟩
      · rfl
      · exact ((hp rfl).resolve_left t1).symm
    | right =>
      obtain rfl : (pr', a2.paf i) = s := by simpa using h
      apply keep
      rcases hAB with ⟨rfl, rfl⟩ | ⟨rfl, rfl⟩
      · exact ((hp rfl).resolve_left t2).symm
      · rfl
    | fresh N k =>
      obtain rfl : (newAff pr' N k, pr'.next) = s := by simpa using h
      have hb := hW.below (a1.paf i) (by omega)
      have wf := joinForm_wf hb (hW.sorted (a1.paf i) (by omega)) hj
      refine ⟨wfPr_newAff hW wf.2.1 wf.1 wf.2.2, hS.trans (same_newAff _ _ wf.2.2), hmem, fun ε hε g => ?_,
        .inr (.inr ⟨hnx, Nat.lt_succ_self _⟩)⟩
      have hq1 := hS.q _ l1
      have hq2 := hS.q _ l2
      have hinf : (Itv.join (pr'.heap (a1.paf i)).itv (pr'.heap (a2.paf i)).itv).hasInfty = false := by
        rw [i2]
        rcases i1 with e | e
        · rw [e]; exact join_hasInfty h4.1 h4.2
        · rw [e.2]; exact join_hasInfty h4.2 h4.2
      have hm1 : v ∈ a1.box i → (pr'.heap (a1.paf i)).q = [] → v ∈ (pr'.heap (a1.paf i)).itv := by
        intro hv e0
        rcases i1 with e | e
        · rw [e]; exact hv
        · rw [e.2]
          rcases hsh e.1 with g | g | g
          · exact absurd g t1
          · rw [← hq1] at g; exact absurd e0 g
          · rw [← g]; exact hv
      have : ∃ ε', Noise ε' ∧ (∀ j < pr'.nsym, ε' j = ε j) ∧ N.Val ε' v := by
        apply joinForm_sound hε hb hj hinf
        rcases hAB with ⟨rfl, rfl⟩ | ⟨rfl, rfl⟩
        · exact .inl ⟨hS.val hw l1 (fun _ _ => rfl) g, hm1 hbx, by rw [hq2]; exact Aff.Val.nonempty v2⟩
        · exact .inr ⟨hS.val hw l2 (fun _ _ => rfl) g, fun _ => by rw [i2]; exact hbx, by rw [hq1]; exact Aff.Val.nonempty v2⟩
      obtain ⟨ε', e1, e2, e3⟩ := this
      exact ⟨ε', e1, by rw [← hns]; exact e2, by dsimp only; rw [newAff_heap]; exact e3⟩

theorem joinLoopDims_keep {a1 a2 : T1 K} : ∀ {l : List ℕ} {pr : Pr K} {r : T1 K} {s : Pr K × T1 K}, joinLoopDims R a1 a2 l pr r = some s →
    s.2.n = r.n ∧ ∀ i, i ∉ l → s.2.paf i = r.paf i ∧ s.2.box i = r.box i
  | [], pr, r, s, h => by
    obtain rfl : (pr, r) = s := by simpa [joinLoopDims] using h
    exact ⟨rfl, fun _ _ => ⟨rfl, rfl⟩⟩
  | k :: l, pr, r, s, h => by
    simp only [joinLoopDims] at h
    cases hj : joinStep R a1 a2 pr k with
    | none => rw [hj] at h; cases h
    | some t =>
      rw [hj] at h
      have ih := joinLoopDims_keep h
      refine ⟨ih.1, fun i hi => ?_⟩
      have e : i ≠ k := fun e => hi (by simp [e])
      have := ih.2 i (fun g => hi (by simp [g]))
      simpa [T1.set, Function.update_of_ne e] using this

theorem joinLoopDims_box {a1 a2 : T1 K} : ∀ {l : List ℕ} {pr : Pr K} {r : T1 K} {s : Pr K × T1 K}, l.Nodup →
    joinLoopDims R a1 a2 l pr r = some s → ∀ i ∈ l, s.2.box i = Itv.join (a1.box i) (a2.box i)
  | [], pr, r, s, _, h => by simp
  | k :: l, pr, r, s, hd, h => by
    simp only [joinLoopDims] at h
    rw [List.nodup_cons] at hd
    cases hj : joinStep R a1 a2 pr k with
    | none => rw [hj] at h; cases h
    | some t =>
      rw [hj] at h
      intro i hi
      rcases List.mem_cons.1 hi with rfl | hi
      · have := ((joinLoopDims_keep h).2 i hd.1).2
        simpa [T1.set] using this
      · exact joinLoopDims_box hd.2 h i hi

theorem joinLoopDims_sound {pr0 : Pr K} (hw : WfPr pr0) {a1 a2 : T1 K} (hn : a2.n = a1.n) (ha1 : ∀ i < a1.n, a1.paf i < pr0.next)
    (ha2 : ∀ i < a2.n, a2.paf i < pr0.next) {A B : T1 K} (hAB : (A = a1 ∧ B = a2) ∨ (A = a2 ∧ B = a1)) {x y : ℕ → K} (g1 : Gam pr0 A x)
    (g2 : Gam pr0 B y)
    (hsh : ∀ i < a1.n, a1.paf i = a2.paf i → a1.paf i = topPtr ∨ (pr0.heap (a1.paf i)).q ≠ [] ∨ a1.box i = a2.box i) {f : Pr K × T1 K}
    (hp : ∀ i < a1.n, f.2.paf i = B.paf i → f.2.paf i = topPtr ∨ A.paf i = B.paf i) :
    ∀ (l : List ℕ) (S : ℕ → Prop) (pr : Pr K) (r : T1 K) (ε : ℕ → K), l.Nodup → (∀ i ∈ l, i < a1.n) → (∀ i, S i → i < a1.n) →
      LInv pr0 A x S pr r ε → joinLoopDims Rnd.exact a1 a2 l pr r = some f → ∃ ε', LInv pr0 A x (fun j => S j ∨ j ∈ l) f.1 f.2 ε' := by
  have hA : A.n = a1.n := by rcases hAB with ⟨rfl, rfl⟩ | ⟨rfl, rfl⟩ <;> [rfl; exact hn]
  have hB : B.n = a1.n := by rcases hAB with ⟨rfl, rfl⟩ | ⟨rfl, rfl⟩ <;> [exact hn; rfl]
  have hA1 : ∀ i < A.n, A.paf i < pr0.next := by rcases hAB with ⟨rfl, rfl⟩ | ⟨rfl, rfl⟩ <;> assumption
  have hB1 : ∀ i < B.n, B.paf i < pr0.next := by rcases hAB with ⟨rfl, rfl⟩ | ⟨rfl, rfl⟩ <;> assumption
  intro l
  induction l with
  | nil =>
    intro S pr r ε _ _ _ h hf
    obtain rfl : (pr, r) = f := by simpa [joinLoopDims] using hf
    exact ⟨ε, by simpa using h⟩
  | cons i l ih =>
    intro S pr r ε hd hl hS h hf
    have hi := hl i (by simp)
    rw [List.nodup_cons] at hd
    simp only [joinLoopDims] at hf
    cases hj : joinStep Rnd.exact a1 a2 pr i with
    | none => rw [hj] at hf; cases hf
    | some s =>
      rw [hj] at hf
      dsimp only at hf
      have hfin : f.2.paf i = s.2 := by
        have := ((joinLoopDims_keep hf).2 i hd.1).1
        simpa [T1.set] using this
      obtain ⟨_, ε2, e1, e2⟩ := g2
      obtain ⟨_, ε1, f1, f2⟩ := id g1
      have hnx := h.same.next
      have hok := joinStep_ok h.wf (lt_of_lt_of_le (ha1 i hi) hnx) (lt_of_lt_of_le (ha2 i (by omega)) hnx) hj hAB (f2 i (by omega)).1
        (h.av i (by omega)) (h.same.val hw (hB1 i (by omega)) (fun _ _ => rfl) (e2 i (by omega)).2)
        (fun e => by rw [h.same.q _ (ha1 i hi)]; exact hsh i hi e) (fun e => by rw [← hfin] at e ⊢; exact hp i hi e)
      obtain ⟨ε', hL⟩ := h.step hA1 g1.1 (fun j hj => by rw [hA]; exact hS j hj) (by rw [hA]; exact hi) hok
      obtain ⟨ε'', k2⟩ := ih _ _ _ _ hd.2 (fun j hj => hl j (by simp [hj])) (fun j hj => hj.elim (hS j) fun e => e ▸ hi) hL hf
      refine ⟨ε'', ?_⟩
      have : (fun j => S j ∨ j ∈ i :: l) = fun j => (S j ∨ j = i) ∨ j ∈ l := by
        funext j; simp [or_assoc]
      rw [this]; exact k2

end T1p
end Apron
