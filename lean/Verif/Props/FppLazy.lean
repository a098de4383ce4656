import Verif.Fpp.ElimLazy
import Verif.Props.FppBitVecs
import Mathlib.Data.List.GetD

/-!
# C157: fppol, lazy elimination loses no point and keeps vectors beside their rows
-/

set_option autoImplicit false
set_option linter.unusedSectionVars false
set_option linter.ambiguousOpen false

namespace Apron.Props

open Apron.Fpp

variable {K : Type*} [Field K] [LinearOrder K] [IsStrictOrderedRing K]

/-- An entry of the list of pairs and its vector. -/
def PairOk (P : FRow K → BV → Prop) (i : ℕ) (rs : List (FRow K)) (w : ℕ × ℕ) (v : BV) : Prop :=
  0 < (rowAt rs w.1).2 i ∧ (rowAt rs w.2).2 i < 0 ∧
    ∃ vp vq, P (rowAt rs w.1) vp ∧ P (rowAt rs w.2) vq ∧ v = bvOr vp vq

theorem forall2_append {α β : Type*} {P : α → β → Prop} {l l' : List α} {m m' : List β}
    (h : List.Forall₂ P l m) (h' : List.Forall₂ P l' m') : List.Forall₂ P (l ++ l') (m ++ m') := by
  induction h with
  | nil => exact h'
  | cons h1 _ ih => exact .cons h1 ih

theorem forall2_map {ι α β : Type*} {P : α → β → Prop} (L : List ι) (f : ι → α) (g : ι → β)
    (h : ∀ x ∈ L, P (f x) (g x)) : List.Forall₂ P (L.map f) (L.map g) := by
  induction L with
  | nil => exact .nil
  | cons x L ih =>
    exact .cons (h x List.mem_cons_self) (ih fun y hy => h y (List.mem_cons_of_mem _ hy))

theorem forall2_getD {α β : Type*} {P : α → β → Prop} {l : List α} {m : List β} (h : List.Forall₂ P l m)
    (a : α) (b : β) : ∀ k, k < l.length → P (l.getD k a) (m.getD k b) := by
  induction h with
  | nil => intro k hk; simp at hk
  | cons h1 _ ih =>
    intro k hk
    cases k with
    | zero => simpa using h1
    | succ k => simpa using ih k (by simpa using hk)

theorem lazyQuasi_spec {R : Rd K} {isInt : K → Bool} {big : K} {n i : ℕ} {B : Bnds K} {rs : List (FRow K)}
    {P Q : FRow K → BV → Prop}
    (hP : ∀ p q vp vq c a, 0 < p.2 i → q.2 i < 0 → P p vp → P q vq →
      pairRow R isInt big n i B p q = .con c a → Q (c, a) (bvOr vp vq)) (ws : List (ℕ × ℕ)) :
    ∀ (out : List (FRow K)) (dv pv : List BV), List.Forall₂ Q out dv →
    List.Forall₂ (PairOk P i rs) ws pv →
    match lazyQuasi R isInt big n i B rs ws out (dv ++ pv) with
    | none => ∃ p q vp vq, 0 < p.2 i ∧ q.2 i < 0 ∧ P p vp ∧ P q vq ∧
        pairRow R isInt big n i B p q = .unsat
    | some (l, v) => List.Forall₂ Q l v := by
  induction ws with
  | nil =>
    intro out dv pv h1 h2
    cases h2
    simpa [lazyQuasi] using h1
  | cons w ws ih =>
    intro out dv pv h1 h2
    cases h2 with
    | @cons _ v _ pv hw h2 =>
      obtain ⟨hp, hq, vp, vq, hvp, hvq, rfl⟩ := hw
      have hlen := h2.length_eq
      unfold lazyQuasi
      cases hr : pairRow R isInt big n i B (rowAt rs w.1) (rowAt rs w.2) with
      | unsat => exact ⟨_, _, vp, vq, hp, hq, hvp, hvq, hr⟩
      | taut =>
        have : (dv ++ bvOr vp vq :: pv).eraseIdx ((dv ++ bvOr vp vq :: pv).length - (ws.length + 1)) =
            dv ++ pv := by
          have e : (dv ++ bvOr vp vq :: pv).length - (ws.length + 1) = dv.length := by
            simp only [List.length_append, List.length_cons]; omega
          rw [e, List.eraseIdx_append_of_length_le (le_refl _)]
          simp
        simp only [this]
        exact ih out dv pv h1 h2
      | con c a =>
        have := ih (out ++ [(c, a)]) (dv ++ [bvOr vp vq]) pv
          (forall2_append h1 (.cons (hP _ _ vp vq c a hp hq hvp hvq hr) .nil)) h2
        simpa using this

/-- What the elimination keeps of a relation between rows and vectors. -/
theorem lazyElim_spec {R : Rd K} {isInt : K → Bool} {big : K} {n i e : ℕ} {B : Bnds K} {rs : List (FRow K)}
    {vs : List BV} {P Q : FRow K → BV → Prop}
    (hP : ∀ p q vp vq c a, 0 < p.2 i → q.2 i < 0 → P p vp → P q vq →
      pairRow R isInt big n i B p q = .con c a → Q (c, a) (bvOr vp vq))
    (hZ : ∀ r v, r.2 i = 0 → P r v → Q r v) (hvs : List.Forall₂ P rs vs) :
    match lazyElim R isInt big n i e B rs vs with
    | .empty => ∃ p q vp vq, 0 < p.2 i ∧ q.2 i < 0 ∧ P p vp ∧ P q vq ∧
        pairRow R isInt big n i B p q = .unsat
    | .univ => True
    | .rows l v => List.Forall₂ Q l v := by
  have hat : ∀ k, k < rs.length → P (rowAt rs k) (vecAt vs k) := fun k hk => forall2_getD hvs _ _ k hk
  unfold lazyElim
  simp only
  generalize hpos : (List.range rs.length).filter (fun k => decide (0 < (rowAt rs k).2 i)) = pos
  generalize hneg : (List.range rs.length).filter (fun k => decide ((rowAt rs k).2 i < 0)) = neg
  generalize hzero : (List.range rs.length).filter (fun k => decide ((rowAt rs k).2 i = 0)) = zero
  have mpos : ∀ k ∈ pos, k < rs.length ∧ 0 < (rowAt rs k).2 i := by
    intro k hk; rw [← hpos] at hk; simpa using hk
  have mneg : ∀ k ∈ neg, k < rs.length ∧ (rowAt rs k).2 i < 0 := by
    intro k hk; rw [← hneg] at hk; simpa using hk
  have mzero : ∀ k ∈ zero, k < rs.length ∧ (rowAt rs k).2 i = 0 := by
    intro k hk; rw [← hzero] at hk; simpa using hk
  by_cases c1 : pos.length * neg.length + zero.length = 0
  · rw [if_pos c1]; trivial
  rw [if_neg c1]
  by_cases c2 : pos.length * neg.length = 0
  · rw [if_pos c2]
    exact forall2_map zero _ _ fun k hk => hZ _ _ (mzero k hk).2 (hat k (mzero k hk).1)
  rw [if_neg c2]
  generalize hpairs : (pos.flatMap fun p => neg.map fun q => (p, q)) = pairs
  have mpairs : ∀ w ∈ pairs, PairOk P i rs w (bvOr (vecAt vs w.1) (vecAt vs w.2)) := by
    intro w hw
    rw [← hpairs] at hw
    simp only [List.mem_flatMap, List.mem_map] at hw
    obtain ⟨p, hp, q, hq, rfl⟩ := hw
    exact ⟨(mpos p hp).2, (mneg q hq).2, _, _, hat p (mpos p hp).1, hat q (mneg q hq).1, rfl⟩
  have hne : ∀ w ∈ pairs, w.1 ≠ w.2 := by
    intro w hw h
    obtain ⟨a, b, -⟩ := mpairs w hw
    rw [h] at a
    exact absurd a (not_lt.2 b.le)
  -- the list kept: all the zero rows, then some pairs
  generalize hkept : (List.range' zero.length ((zero.map (fun k => (k, k)) ++ pairs).length - zero.length)).filter
    (fun k => !kohlerLazyLoop (vecAt (zero.map (vecAt vs) ++ pairs.map fun w => bvOr (vecAt vs w.1) (vecAt vs w.2)))
      (zero.map (fun k => (k, k)) ++ pairs).length zero.length e
      (List.range' zero.length ((zero.map (fun k => (k, k)) ++ pairs).length - zero.length)) (fun _ => false) k) = K2
  have hk2 : ∀ k ∈ K2, zero.length ≤ k ∧ k - zero.length < pairs.length := by
    intro k hk
    rw [← hkept] at hk
    have := (List.mem_filter.1 hk).1
    simp only [List.mem_range'_1, List.length_append, List.length_map] at this
    omega
  have hlazy : kohlerLazy (vecAt (zero.map (vecAt vs) ++ pairs.map fun w => bvOr (vecAt vs w.1) (vecAt vs w.2)))
      (zero.map (fun k => (k, k)) ++ pairs).length zero.length e = List.range zero.length ++ K2 := by
    rw [← hkept]; rfl
  rw [hlazy]
  have g1 : ∀ k, k < zero.length → (zero.map (fun k => (k, k)) ++ pairs).getD k (0, 0) =
      (zero.getD k 0, zero.getD k 0) := by
    intro k hk
    rw [List.getD_append _ _ _ _ (by simpa using hk)]
    simp [List.getD_eq_getElem?_getD, hk]
  have g2 : ∀ k ∈ K2, (zero.map (fun k => (k, k)) ++ pairs).getD k (0, 0) = pairs.getD (k - zero.length) (0, 0) := by
    intro k hk
    rw [List.getD_append_right _ _ _ _ (by simpa using (hk2 k hk).1)]
    simp
  have v1 : ∀ k, k < zero.length →
      vecAt (zero.map (vecAt vs) ++ pairs.map fun w => bvOr (vecAt vs w.1) (vecAt vs w.2)) k =
      vecAt vs (zero.getD k 0) := by
    intro k hk
    unfold vecAt
    rw [List.getD_append _ _ _ _ (by simpa using hk)]
    simp [List.getD_eq_getElem?_getD, hk]
  have v2 : ∀ k ∈ K2,
      vecAt (zero.map (vecAt vs) ++ pairs.map fun w => bvOr (vecAt vs w.1) (vecAt vs w.2)) k =
      bvOr (vecAt vs (pairs.getD (k - zero.length) (0, 0)).1) (vecAt vs (pairs.getD (k - zero.length) (0, 0)).2) := by
    intro k hk
    have hk' := (hk2 k hk).2
    have e1 : vecAt (zero.map (vecAt vs) ++ pairs.map fun w => bvOr (vecAt vs w.1) (vecAt vs w.2)) k =
        (pairs.map fun w => bvOr (vecAt vs w.1) (vecAt vs w.2)).getD (k - zero.length) [] := by
      unfold vecAt
      rw [List.getD_append_right _ _ _ _ (by simpa using (hk2 k hk).1)]
      simp
    rw [e1]
    simp [List.getD_eq_getElem?_getD, hk']
  have pmem : ∀ k ∈ K2, pairs.getD (k - zero.length) (0, 0) ∈ pairs := by
    intro k hk
    have hk' := (hk2 k hk).2
    rw [List.getD_eq_getElem _ _ hk']
    exact List.getElem_mem _
  have zmem : ∀ k, k < zero.length → zero.getD k 0 ∈ zero := by
    intro k hk
    rw [List.getD_eq_getElem _ _ hk]
    exact List.getElem_mem _
  have m1 : (List.range zero.length).map (fun k => (zero.map (fun k => (k, k)) ++ pairs).getD k (0, 0)) =
      (List.range zero.length).map fun k => (zero.getD k 0, zero.getD k 0) :=
    List.map_congr_left fun k hk => g1 k (List.mem_range.1 hk)
  have m2 : K2.map (fun k => (zero.map (fun k => (k, k)) ++ pairs).getD k (0, 0)) =
      K2.map fun k => pairs.getD (k - zero.length) (0, 0) := List.map_congr_left g2
  rw [List.map_append, List.map_append, m1, m2, List.filter_append, List.filter_append]
  have f1 : ((List.range zero.length).map fun k => (zero.getD k 0, zero.getD k 0)).filter
      (fun w => decide (w.1 ≠ w.2)) = [] := by
    rw [List.filter_eq_nil_iff]
    intro w hw
    obtain ⟨k, -, rfl⟩ := List.mem_map.1 hw
    simp
  have f2 : ((List.range zero.length).map fun k => (zero.getD k 0, zero.getD k 0)).filter
      (fun w => decide (w.1 = w.2)) = (List.range zero.length).map fun k => (zero.getD k 0, zero.getD k 0) := by
    rw [List.filter_eq_self]
    intro w hw
    obtain ⟨k, -, rfl⟩ := List.mem_map.1 hw
    simp
  have f3 : (K2.map fun k => pairs.getD (k - zero.length) (0, 0)).filter (fun w => decide (w.1 ≠ w.2)) =
      K2.map fun k => pairs.getD (k - zero.length) (0, 0) := by
    rw [List.filter_eq_self]
    intro w hw
    obtain ⟨k, hk, rfl⟩ := List.mem_map.1 hw
    simpa using hne _ (pmem k hk)
  have f4 : (K2.map fun k => pairs.getD (k - zero.length) (0, 0)).filter (fun w => decide (w.1 = w.2)) = [] := by
    rw [List.filter_eq_nil_iff]
    intro w hw
    obtain ⟨k, hk, rfl⟩ := List.mem_map.1 hw
    simpa using hne _ (pmem k hk)
  rw [f1, f2, f3, f4, List.nil_append, List.append_nil, List.map_map]
  have hmain := lazyQuasi_spec (R := R) (isInt := isInt) (big := big) (n := n) (B := B) (rs := rs) hP
    (K2.map fun k => pairs.getD (k - zero.length) (0, 0))
    ((List.range zero.length).map ((fun w : ℕ × ℕ => rowAt rs w.1) ∘ fun k => (zero.getD k 0, zero.getD k 0)))
    ((List.range zero.length).map
      (vecAt (zero.map (vecAt vs) ++ pairs.map fun w => bvOr (vecAt vs w.1) (vecAt vs w.2))))
    (K2.map (vecAt (zero.map (vecAt vs) ++ pairs.map fun w => bvOr (vecAt vs w.1) (vecAt vs w.2))))
    (forall2_map _ _ _ fun k hk => by
      have hk := List.mem_range.1 hk
      rw [v1 k hk]
      exact hZ _ _ (mzero _ (zmem k hk)).2 (hat _ (mzero _ (zmem k hk)).1))
    (forall2_map _ _ _ fun k hk => by
      rw [v2 k hk]
      exact mpairs _ (pmem k hk))
  revert hmain
  generalize lazyQuasi R isInt big n i B rs _ _ _ = o
  cases o with
  | none => exact id
  | some r =>
    intro h
    simp only at h ⊢
    by_cases hz : r.2.length = 0
    · rw [if_pos hz]; trivial
    · rw [if_neg hz]; exact h

/-- `fm_elimination_lazy`: a point within the bounds that satisfies the constraints satisfies those
that are left, whatever the variable becomes; the result is not the empty polyhedron, and there are
as many vectors as rows.  For all rounding and all vectors. -/
theorem C157_lazy_sound (R : Rd K) (isInt : K → Bool) (big : K) (n i e : ℕ) (B : Bnds K)
    (rs : List (FRow K)) (vs : List BV) (hv : rs.length = vs.length) (ρ : ℕ → K) (hB : InBnds n B ρ) (hs : ∀ r ∈ rs, FSat n r.1 r.2 ρ) :
    match lazyElim R isInt big n i e B rs vs with
    | .empty => False
    | .univ => True
    | .rows l v => l.length = v.length ∧ ∀ r ∈ l, ∀ x, FSat n r.1 r.2 (Function.update ρ i x) := by
  have h := lazyElim_spec (R := R) (isInt := isInt) (big := big) (n := n) (i := i) (e := e) (B := B) (rs := rs)
    (vs := vs) (P := fun r _ => FSat n r.1 r.2 ρ)
    (Q := fun r _ => ∀ x, FSat n r.1 r.2 (Function.update ρ i x))
    (fun p q _ _ c a hp hq sp sq hr x => by
      have := pairRow_sound (R := R) (isInt := isInt) (big := big) hp hq hB sp sq
      rw [hr] at this
      exact (fsat_update (pairRow_zero hp hq hr)).2 this)
    (fun r _ h0 hr x => (fsat_update h0).2 hr)
    (by
      induction rs generalizing vs with
      | nil => cases vs with
        | nil => exact .nil
        | cons v vs => simp at hv
      | cons r rs ih => cases vs with
        | nil => simp at hv
        | cons v vs =>
          exact .cons (hs r List.mem_cons_self)
            (ih vs (by simpa using hv) fun r' hr' => hs r' (List.mem_cons_of_mem _ hr')))
  revert h
  cases lazyElim R isInt big n i e B rs vs with
  | empty =>
    rintro ⟨p, q, vp, vq, hp, hq, sp, sq, hr⟩
    have := pairRow_sound (R := R) (isInt := isInt) (big := big) hp hq hB sp sq
    rw [hr] at this
    exact this
  | univ => exact id
  | rows l v =>
    intro h
    refine ⟨h.length_eq, ?_⟩
    simp only at h
    induction h with
    | nil => simp
    | cons h1 _ ih =>
      intro r hr
      rcases List.mem_cons.1 hr with e | e
      · rw [e]; exact h1
      · exact ih r e

/-- `fm_elimination_lazy`: rows and vectors stay side by side.  If the vector of each row given covers
it and has the given size, so it is for the rows that are left, though pairs are dropped by Kohler's
rule and tautologies are taken out later; the variable has left the rows. -/
theorem C157_lazy_history (R : Rd K) (isInt : K → Bool) (big : K) (n i e c : ℕ) (B : Bnds K)
    (orig : ℕ → FRow K) (rs : List (FRow K)) (vs : List BV)
    (h : List.Forall₂ (fun r v => Covers n B orig v r ∧ v.length = c) rs vs) (l : List (FRow K)) (v : List BV)
    (hl : lazyElim R isInt big n i e B rs vs = .rows l v) :
    List.Forall₂ (fun r v => (Covers n B orig v r ∧ v.length = c) ∧ r.2 i = 0) l v := by
  have := lazyElim_spec (R := R) (isInt := isInt) (big := big) (n := n) (i := i) (e := e) (B := B) (rs := rs)
    (vs := vs) (P := fun r v => Covers n B orig v r ∧ v.length = c)
    (Q := fun r v => (Covers n B orig v r ∧ v.length = c) ∧ r.2 i = 0)
    (fun p q vp vq c' a hp hq sp sq hr =>
      ⟨⟨C156_history_combine R isInt big n i B orig vp vq (by rw [sp.2, sq.2]) p q hp hq sp.1 sq.1 c' a hr,
        by simp [bvOr, sp.2, sq.2]⟩, pairRow_zero hp hq hr⟩)
    (fun r v h0 hr => ⟨hr, h0⟩) h
  rw [hl] at this
  exact this

/-- The rows without the variable are all kept, with their vectors, when some row is left. -/
theorem C157_lazy_zero_rows (R : Rd K) (isInt : K → Bool) (big : K) (n i e : ℕ) (B : Bnds K)
    (rs : List (FRow K)) (vs : List BV) (l : List (FRow K)) (v : List BV)
    (hl : lazyElim R isInt big n i e B rs vs = .rows l v) :
    ∀ k, k < rs.length → (rowAt rs k).2 i = 0 → rowAt rs k ∈ l := by
  have hgrow : ∀ ws out vs', ∀ l' v', lazyQuasi R isInt big n i B rs ws out vs' = some (l', v') →
      ∀ r ∈ out, r ∈ l' := by
    intro ws
    induction ws with
    | nil => intro out vs' l' v' h r hr; simp [lazyQuasi] at h; rw [← h.1]; exact hr
    | cons w ws ih =>
      intro out vs' l' v' h r hr
      unfold lazyQuasi at h
      split at h
      · cases h
      · exact ih _ _ _ _ h r hr
      · exact ih _ _ _ _ h r (List.mem_append_left _ hr)
  intro k hk h0
  unfold lazyElim at hl
  simp only at hl
  generalize hzero : (List.range rs.length).filter (fun k => decide ((rowAt rs k).2 i = 0)) = zero at hl
  have hkz : k ∈ zero := by rw [← hzero]; simp [hk, h0]
  split at hl
  · cases hl
  · split at hl
    · injection hl with h1 _; rw [← h1]; exact List.mem_map_of_mem hkz
    · split at hl
      · cases hl
      · next l' v' hq =>
        split at hl
        · cases hl
        · injection hl with h1 _
          subst h1
          apply hgrow _ _ _ _ _ hq
          obtain ⟨j, hj, hjk⟩ := List.mem_iff_getElem.1 hkz
          rw [List.mem_map]
          refine ⟨(k, k), ?_, rfl⟩
          rw [List.mem_filter]
          refine ⟨?_, by simp⟩
          rw [List.mem_map]
          refine ⟨j, List.mem_append_left _ (List.mem_range.2 hj), ?_⟩
          rw [List.getD_append _ _ _ _ (by simpa using hj)]
          simp [List.getD_eq_getElem?_getD, hj, hjk]

end Apron.Props
