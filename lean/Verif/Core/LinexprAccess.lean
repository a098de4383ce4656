import Verif.Core.LinexprLemmas

/-! # Helper lemmas: reading and writing coefficients, changing dimensions -/

set_option autoImplicit false
set_option linter.unusedSectionVars false
set_option linter.ambiguousOpen false

namespace Apron
namespace Linexpr
open Bound
variable {K : Type*}

/-! ## Access -/

section
variable [Zero K]

theorem insert_slot (lo hi : List (ℕ × Coeff K)) (s : ℕ × Coeff K) (d : ℕ) :
    let l1 := lo ++ (hi ++ [s])
    let l2 := if lo.length < l1.length - 1 then
      l1.take lo.length ++ l1.getD (l1.length - 1) (0, czero) :: (l1.drop lo.length).dropLast else l1
    l2.set lo.length (d, (l2.getD lo.length (0, czero)).2) = lo ++ (d, s.2) :: hi := by
  simp only
  have hlast : (lo ++ (hi ++ [s])).getD ((lo ++ (hi ++ [s])).length - 1) (0, czero) = s := by
    rw [← List.append_assoc]
    simp [List.getD, List.getElem?_append_right]
  split_ifs with h
  · rw [hlast, List.take_left, List.drop_left, List.dropLast_concat]
    simp [List.getD, List.getElem?_append_right]
  · have : hi = [] := by
      cases hi with
      | nil => rfl
      | cons a l => simp at h
    subst this
    simp [List.getD, List.getElem?_append_right]

theorem index_split {l : List (ℕ × Coeff K)} (h : SparseWf l) {d : ℕ} (hd : d ≠ dimMax) :
    ∃ lo hi, l = lo ++ hi ∧ indexOf d (l.map Prod.fst) = lo.length ∧ (∀ p ∈ lo, p.1 < d) ∧
      ∀ p ∈ hi, d ≤ p.1 := by
  obtain ⟨h1, h2, h3⟩ := h.index hd
  generalize indexOf d (l.map Prod.fst) = i at h1 h2 h3
  rw [List.length_map] at h1 h3
  refine ⟨l.take i, l.drop i, (List.take_append_drop i l).symm, by rw [List.length_take]; omega, ?_, ?_⟩
  · intro p hp
    obtain ⟨j, hj, rfl⟩ := List.getElem_of_mem hp
    rw [List.length_take] at hj
    have := h2 j (by omega)
    rw [List.getD, List.getElem?_map, List.getElem?_eq_getElem (by omega)] at this
    simpa using this
  · intro p hp
    obtain ⟨j, hj, rfl⟩ := List.getElem_of_mem hp
    rw [List.length_drop] at hj
    have := h3 (i + j) (by omega) (by omega)
    rw [List.getD, List.getElem?_map, List.getElem?_eq_getElem (by omega)] at this
    simpa using this

theorem coeffrefSparse_spec {l : List (ℕ × Coeff K)} (h : SparseWf l) {d : ℕ} (hd : d ≠ dimMax)
    (hd' : d ≤ dimMax) :
    ∃ lo c hi, coeffrefSparse l d = (lo ++ (d, c) :: hi, lo.length) ∧ SparseWf (lo ++ (d, c) :: hi) ∧
      (∀ k q, k ≠ dimMax → k ≠ d → ((k, q) ∈ lo ++ (d, c) :: hi ↔ (k, q) ∈ l)) ∧
      (∀ q, (d, q) ∈ l → q = c) ∧
      ((∀ q, (d, q) ∉ l) → c = czero ∨ (dimMax, c) ∈ l) := by
  obtain ⟨lo, hi, rfl, hidx, hlo, hhi⟩ := index_split h hd
  have hw := sparseWf_append.1 h
  have hlod : ∀ q, (d, q) ∉ lo := fun q hq => by have := hlo _ hq; simp at this
  cases hi with
  | nil =>
    rw [List.append_nil] at *
    have hl1 : lo.length = 0 ∨ (lo.getD (lo.length - 1) (0, czero)).1 ≠ dimMax := by
      rcases Nat.eq_zero_or_pos lo.length with e | e
      · exact Or.inl e
      · refine Or.inr ?_
        rw [List.getD, List.getElem?_eq_getElem (by omega)]
        have := hlo _ (List.getElem_mem (show lo.length - 1 < lo.length by omega))
        simp only [Option.getD_some]
        omega
    refine ⟨lo, czero, [], ?_, ?_, ?_, fun q hq => absurd hq (hlod q), fun _ => Or.inl rfl⟩
    · have := insert_slot lo [] (dimMax, (czero : Coeff K)) d
      unfold coeffrefSparse
      simp only [hidx]
      rw [if_pos (Or.inl (le_refl _)), if_neg (by simp), if_pos hl1]
      have hr : reallocSparse lo (lo.length + 1) = lo ++ ([] ++ [(dimMax, (czero : Coeff K))]) := by
        simp [reallocSparse]
      rw [hr]
      simp only at this
      rw [this]
    · rw [sparseWf_append, sparseWf_cons]
      refine ⟨h, ⟨hd', ⟨by simp, by simp⟩, by simp⟩, fun p hp q hq => ?_⟩
      rw [List.mem_singleton] at hq
      subst hq
      exact Or.inl (hlo p hp)
    · intro k q _ hk
      simp [hk]
  | cons p hi =>
    obtain ⟨a, c⟩ := p
    have hget : (lo ++ (a, c) :: hi).getD lo.length (0, czero) = (a, c) := by
      simp [List.getD, List.getElem?_append_right]
    have ha : d ≤ a := hhi (a, c) (by simp)
    have hw2 := sparseWf_cons.1 hw.2.1
    by_cases had : d = a
    · -- the term is present
      subst had
      have hhid : ∀ q, (d, q) ∉ hi := fun q hq => by
        rcases hw2.2.2 _ hq with e | e
        · simp at e
        · exact hd e
      refine ⟨lo, c, hi, ?_, h, fun k q _ _ => Iff.rfl, ?_, ?_⟩
      · unfold coeffrefSparse
        simp only [hidx, hget]
        rw [if_neg]
        simp
      · intro q hq
        rcases List.mem_append.1 hq with hq | hq
        · exact absurd hq (hlod q)
        · rcases List.mem_cons.1 hq with e | hq
          · exact (Prod.mk.inj e).2
          · exact absurd hq (hhid q)
      · intro hq
        exact absurd (by simp) (hq c)
    · have hlen : lo.length < (lo ++ (a, c) :: hi).length := by simp
      have hnot : ∀ q, (d, q) ∉ lo ++ (a, c) :: hi := by
        intro q hq
        rcases List.mem_append.1 hq with hq | hq
        · exact hlod q hq
        · rcases List.mem_cons.1 hq with e | hq
          · exact had (Prod.mk.inj e).1
          · rcases hw2.2.2 _ hq with e | e
            · simp only at e; omega
            · exact hd e
      by_cases ham : a = dimMax
      · -- a free slot
        subst ham
        refine ⟨lo, c, hi, ?_, ?_, ?_, fun q hq => absurd hq (hnot q), fun _ => Or.inr (by simp)⟩
        · unfold coeffrefSparse
          simp only [hidx, hget]
          rw [if_pos (Or.inr hd), if_pos ⟨hlen, trivial⟩]
          simp
        · rw [sparseWf_append, sparseWf_cons]
          refine ⟨hw.1, ⟨hd', hw2.2.1, fun q hq => ?_⟩, fun p hp q hq => ?_⟩
          · rcases hw2.2.2 q hq with e | e
            · exact Or.inl (lt_of_le_of_lt hd' e)
            · exact Or.inr e
          · rcases List.mem_cons.1 hq with rfl | hq
            · exact Or.inl (hlo p hp)
            · exact hw.2.2 p hp q (List.mem_cons_of_mem _ hq)
        · intro k q hk hkd
          simp [hk, hkd]
      · -- insertion
        have key : ∀ (hi0 : List (ℕ × Coeff K)) (z : Coeff K),
            (∀ k q, k ≠ dimMax → ((k, q) ∈ hi0 ↔ (k, q) ∈ (a, c) :: hi)) →
            SparseWf hi0 →
            SparseWf (lo ++ (d, z) :: hi0) ∧
            (∀ k q, k ≠ dimMax → k ≠ d → ((k, q) ∈ lo ++ (d, z) :: hi0 ↔ (k, q) ∈ lo ++ (a, c) :: hi)) := by
          intro hi0 z hm hw0
          have hm1 : ∀ q ∈ hi0, d < q.1 ∨ q.1 = dimMax := by
            intro q hq
            by_cases hqm : q.1 = dimMax
            · exact Or.inr hqm
            · left
              have hq' := (hm q.1 q.2 hqm).1 hq
              have := hhi _ hq'
              refine lt_of_le_of_ne this fun e => hnot q.2 ?_
              rw [e]
              exact List.mem_append_right _ hq'
          refine ⟨?_, ?_⟩
          · rw [sparseWf_append, sparseWf_cons]
            refine ⟨hw.1, ⟨hd', hw0, hm1⟩, fun p hp q hq => ?_⟩
            rcases List.mem_cons.1 hq with rfl | hq
            · exact Or.inl (hlo p hp)
            · rcases hm1 q hq with e | e
              · exact Or.inl ((hlo p hp).trans e)
              · exact Or.inr e
          · intro k q hk hkd
            rw [List.mem_append, List.mem_append, List.mem_cons, hm k q hk]
            constructor
            · rintro (h | h | h)
              · exact Or.inl h
              · exact absurd (Prod.mk.inj h).1 hkd
              · exact Or.inr h
            · rintro (h | h)
              · exact Or.inl h
              · exact Or.inr (Or.inr h)
        have hstep : ∀ l1 : List (ℕ × Coeff K), l1 = (if (lo ++ (a, c) :: hi).length = 0 ∨
            ((lo ++ (a, c) :: hi).getD ((lo ++ (a, c) :: hi).length - 1) (0, czero)).1 ≠ dimMax then
            reallocSparse (lo ++ (a, c) :: hi) ((lo ++ (a, c) :: hi).length + 1) else lo ++ (a, c) :: hi) →
            ∀ hi0 z, l1 = lo ++ (hi0 ++ [(dimMax, z)]) →
            coeffrefSparse (lo ++ (a, c) :: hi) d = (lo ++ (d, z) :: hi0, lo.length) := by
          intro l1 hl1 hi0 z e
          have := insert_slot lo hi0 (dimMax, z) d
          unfold coeffrefSparse
          simp only [hidx, hget]
          rw [if_pos (Or.inr had), if_neg (fun h => ham h.2), ← hl1, e]
          simp only at this
          rw [this]
        by_cases hlast : (lo ++ (a, c) :: hi).length = 0 ∨
            ((lo ++ (a, c) :: hi).getD ((lo ++ (a, c) :: hi).length - 1) (0, czero)).1 ≠ dimMax
        · obtain ⟨k1, k2⟩ := key ((a, c) :: hi) czero (fun _ _ _ => Iff.rfl) hw.2.1
          refine ⟨lo, czero, (a, c) :: hi, ?_, k1, k2, fun q hq => absurd hq (hnot q), fun _ => Or.inl rfl⟩
          refine hstep _ rfl _ _ ?_
          rw [if_pos hlast]
          simp only [reallocSparse]
          rw [List.take_of_length_le (Nat.le_succ _), Nat.add_sub_cancel_left]
          simp
        · push Not at hlast
          rcases List.eq_nil_or_concat hi with rfl | ⟨hi1, s, e⟩
          · exfalso
            apply ham
            have := hlast.2
            simpa [List.getD, List.getElem?_append_right] using this
          · rw [List.concat_eq_append] at e
            subst e
            have hs : s.1 = dimMax := by
              have := hlast.2
              rw [show lo ++ (a, c) :: (hi1 ++ [s]) = (lo ++ (a, c) :: hi1) ++ [s] by simp] at this
              simpa [List.getD, List.getElem?_append_right] using this
            obtain ⟨s1, s2⟩ := s
            simp only at hs
            subst hs
            have hw0 : SparseWf ((a, c) :: hi1) := hw.2.1.sublist (by simp)
            obtain ⟨k1, k2⟩ := key ((a, c) :: hi1) s2 (fun k q hk => by simp [hk]) hw0
            refine ⟨lo, s2, (a, c) :: hi1, ?_, k1, k2, fun q hq => absurd hq (hnot q),
              fun _ => Or.inr (by simp)⟩
            refine hstep _ rfl _ _ ?_
            rw [if_neg (by push Not; exact hlast)]
            simp

theorem getCoeff_sparse {l : List (ℕ × Coeff K)} (h : SparseWf l) {d : ℕ} (hd : d ≠ dimMax) (c0 : Coeff K) :
    (∀ c, (d, c) ∈ l → getCoeff ⟨c0, .sparse l⟩ d = some c) ∧
    ((∀ c, (d, c) ∉ l) → getCoeff ⟨c0, .sparse l⟩ d = some czero) := by
  obtain ⟨lo, hi, rfl, hidx, hlo, hhi⟩ := index_split h hd
  have hlod : ∀ q, (d, q) ∉ lo := fun q hq => by have := hlo _ hq; simp at this
  have hw := sparseWf_append.1 h
  unfold getCoeff
  simp only [hidx, if_neg hd]
  cases hi with
  | nil =>
    rw [List.append_nil]
    rw [if_neg (by simp)]
    exact ⟨fun c hc => absurd hc (hlod c), fun _ => rfl⟩
  | cons p hi =>
    obtain ⟨a, b⟩ := p
    have hget : (lo ++ (a, b) :: hi).getD lo.length (0, czero) = (a, b) := by
      simp [List.getD, List.getElem?_append_right]
    rw [hget]
    have hw2 := sparseWf_cons.1 hw.2.1
    have hhid : ∀ q, d = a ∨ d < a → (d, q) ∉ hi := fun q ha hq => by
      rcases hw2.2.2 _ hq with e | e
      · simp only at e; omega
      · exact hd e
    have ha : d ≤ a := hhi (a, b) (by simp)
    by_cases e : d = a
    · subst e
      rw [if_pos (by simp)]
      refine ⟨fun c hc => ?_, fun hc => absurd (by simp) (hc b)⟩
      rcases List.mem_append.1 hc with hc | hc
      · exact absurd hc (hlod c)
      · rcases List.mem_cons.1 hc with e | hc
        · rw [(Prod.mk.inj e).2]
        · exact absurd hc (hhid c (Or.inl rfl))
    · rw [if_neg (by simp [e])]
      refine ⟨fun c hc => ?_, fun _ => rfl⟩
      rcases List.mem_append.1 hc with hc | hc
      · exact absurd hc (hlod c)
      · rcases List.mem_cons.1 hc with e' | hc
        · exact absurd (Prod.mk.inj e').1 e
        · exact absurd hc (hhid c (Or.inr (lt_of_le_of_ne ha e)))

end

/-! ## Change of dimensions -/

theorem advance_spec {pos : List ℕ} (hs : pos.Pairwise (· ≤ ·)) (d : ℕ) :
    ∀ (n k : ℕ), pos.length ≤ n + k → k ≤ pos.length → (∀ m, m < k → pos.getD m 0 ≤ d) →
      advance pos d n k = Oct.cntLe pos d := by
  intro n
  induction n with
  | zero =>
    intro k h1 h2 h3
    rw [advance]
    exact (Box.cntLe_eq_of hs h2 h3 (by omega)).symm
  | succ n ih =>
    intro k h1 h2 h3
    rw [advance]
    split_ifs with h
    · refine ih (k + 1) (by omega) h.1 fun m hm => ?_
      rcases Nat.lt_succ_iff_lt_or_eq.1 hm with e | rfl
      · exact h3 m e
      · exact h.2
    · refine (Box.cntLe_eq_of hs h2 h3 fun m hm hm' => ?_).symm
      have h4 : k < pos.length := by omega
      have h5 : d < pos.getD k 0 := by
        by_contra h6; exact h ⟨h4, by omega⟩
      exact h5.trans_le (Box.getD_mono hs hm hm')

theorem addSparse_eq {A : Type*} {pos : List ℕ} (hs : pos.Pairwise (· ≤ ·)) (l : List (ℕ × A)) (k : ℕ)
    (hk : k ≤ pos.length) (h : SparseWf l) (hk' : ∀ p ∈ l, ∀ m, m < k → pos.getD m 0 ≤ p.1) :
    addSparse pos k l = l.map fun p => if p.1 = dimMax then p else (p.1 + Oct.cntLe pos p.1, p.2) := by
  induction l generalizing k with
  | nil => rfl
  | cons p l ih =>
    rw [sparseWf_cons] at h
    rw [addSparse, List.map_cons]
    split_ifs with hp
    · congr 1
      symm
      conv_rhs => rw [← List.map_id l]
      refine List.map_congr_left fun q hq => ?_
      rw [if_pos]; rfl
      rcases h.2.2 q hq with e | e
      · have := h.2.1.2 q hq; omega
      · exact e
    · have hadv := advance_spec hs p.1 pos.length k (by omega) hk (hk' p (by simp))
      simp only [hadv]
      congr 1
      refine ih _ (Oct.cntLe_le _) h.2.1 fun q hq m hm => ?_
      have hpq : p.1 ≤ q.1 := by
        rcases h.2.2 q hq with e | e
        · exact e.le
        · rw [e]; exact h.1
      refine le_trans ?_ hpq
      by_contra hc
      have := Oct.cntLe_lt_of (k := m) (v := p.1) hs (by have := Oct.cntLe_le (pos := pos) p.1; omega) (by omega)
      omega

end Linexpr
end Apron
