import Verif.Core.LinexprOps
import Mathlib.Algebra.BigOperators.Fin
import Mathlib.Algebra.BigOperators.Group.Finset.Basic

/-! # Helper lemmas: linear expressions -/

set_option autoImplicit false
set_option linter.unusedSectionVars false
set_option linter.ambiguousOpen false

namespace Apron
namespace Linexpr
open Bound
variable {K : Type*}

/-! ## The search -/

/-- `i` is the position of the first element that is at least `dim` -/
def IsIdx (dim : ℕ) (l : List ℕ) (i : ℕ) : Prop :=
  i ≤ l.length ∧ (∀ j, j < i → l.getD j 0 < dim) ∧ ∀ j, i ≤ j → j < l.length → dim ≤ l.getD j 0

theorem scanDim_isIdx (dim : ℕ) : ∀ l : List ℕ, l.Pairwise (· ≤ ·) → IsIdx dim l (scanDim dim l)
  | [], _ => ⟨le_refl _, by simp [scanDim], by simp⟩
  | d :: l, h => by
    rw [List.pairwise_cons] at h
    rw [scanDim]
    split_ifs with hd
    · refine ⟨by simp, by simp, fun j _ hj => ?_⟩
      cases j with
      | zero => simpa using hd
      | succ j =>
        simp only [List.getD_cons_succ]
        exact hd.trans (h.1 _ (Dim.getD_mem' (by simpa using hj)))
    · obtain ⟨h1, h2, h3⟩ := scanDim_isIdx dim l h.2
      refine ⟨by simpa using h1, fun j hj => ?_, fun j hj hj' => ?_⟩
      · cases j with
        | zero => simpa using hd
        | succ j => simpa using h2 j (by omega)
      · cases j with
        | zero => omega
        | succ j => simpa using h3 j (by omega) (by simpa using hj')

theorem getD_take {l : List ℕ} {m j : ℕ} (h : j < m) : (l.take m).getD j 0 = l.getD j 0 := by
  simp [List.getD, List.getElem?_take, h]

theorem getD_drop {l : List ℕ} {m j : ℕ} : (l.drop m).getD j 0 = l.getD (m + j) 0 := by
  simp [List.getD, List.getElem?_drop]

theorem indexOf_isIdx (dim : ℕ) (l : List ℕ) (hs : l.Pairwise (· ≤ ·)) (hc : l.count dim ≤ 1) :
    IsIdx dim l (indexOf dim l) := by
  induction hn : l.length using Nat.strong_induction_on generalizing l with
  | _ n ih =>
    rw [indexOf]
    split_ifs with h0 h1 h2
    · exact scanDim_isIdx dim l hs
    · -- the element in the middle
      have hm : l.length / 2 < l.length := by omega
      refine ⟨hm.le, fun j hj => ?_, fun j hj hj' => ?_⟩
      · have hle := Box.getD_mono hs hj.le hm
        rcases (hle.trans_eq h1.symm).lt_or_eq with hlt | he
        · exact hlt
        · exfalso
          -- two occurrences of `dim`
          have e1 : dim ∈ l.take (l.length / 2) := by
            rw [← he, ← getD_take hj]
            exact Dim.getD_mem' (by rw [List.length_take]; omega)
          have e2 : dim ∈ l.drop (l.length / 2) := by
            have : (l.drop (l.length / 2)).getD 0 0 = dim := by rw [getD_drop, Nat.add_zero, ← h1]
            rw [← this]
            exact Dim.getD_mem' (by rw [List.length_drop]; omega)
          have e3 : (l.take (l.length / 2) ++ l.drop (l.length / 2)).count dim ≤ 1 := by
            rw [List.take_append_drop]; exact hc
          rw [List.count_append] at e3
          have := List.count_pos_iff.2 e1
          have := List.count_pos_iff.2 e2
          omega
      · rw [h1]; exact Box.getD_mono hs hj hj'
    · have hl : (l.take (l.length / 2)).length = l.length / 2 := by rw [List.length_take]; omega
      obtain ⟨g1, g2, g3⟩ := ih (l.length / 2) (by omega) (l.take (l.length / 2))
        (hs.sublist (List.take_sublist _ _))
        ((List.Sublist.count_le dim (List.take_sublist (l.length / 2) l)).trans hc) hl
      refine ⟨by omega, fun j hj => ?_, fun j hj hj' => ?_⟩
      · rw [← getD_take (m := l.length / 2) (by omega)]; exact g2 j hj
      · by_cases hjm : j < l.length / 2
        · rw [← getD_take hjm]; exact g3 j hj (by omega)
        · exact h2.le.trans (Box.getD_mono hs (by omega) hj')
    · have hl : (l.drop (l.length / 2 + 1)).length = l.length - (l.length / 2 + 1) := by
        rw [List.length_drop]
      obtain ⟨g1, g2, g3⟩ := ih (l.length - (l.length / 2 + 1)) (by omega) (l.drop (l.length / 2 + 1))
        (hs.sublist (List.drop_sublist _ _))
        ((List.Sublist.count_le dim (List.drop_sublist (l.length / 2 + 1) l)).trans hc) hl
      refine ⟨by omega, fun j hj => ?_, fun j hj hj' => ?_⟩
      · by_cases hjm : j ≤ l.length / 2
        · have := Box.getD_mono hs hjm (by omega)
          omega
        · have := g2 (j - (l.length / 2 + 1)) (by omega)
          rw [getD_drop] at this
          rwa [show l.length / 2 + 1 + (j - (l.length / 2 + 1)) = j by omega] at this
      · have := g3 (j - (l.length / 2 + 1)) (by omega) (by omega)
        rw [getD_drop] at this
        rwa [show l.length / 2 + 1 + (j - (l.length / 2 + 1)) = j by omega] at this

/-! ## Well-formed expressions -/

/-- documented invariant of a sparse array (apron/ap_linexpr0.h:56-59): increasing dimensions, then
free slots -/
def SparseWf {A : Type*} (l : List (ℕ × A)) : Prop :=
  (l.map Prod.fst).Pairwise (fun a b => a < b ∨ b = dimMax) ∧ ∀ p ∈ l, p.1 ≤ dimMax

/-- documented invariant of an expression -/
def Wf (e : Linexpr K) : Prop :=
  match e.body with
  | .dense l => l.length ≤ dimMax
  | .sparse l => SparseWf l

theorem SparseWf.sorted {A : Type*} {l : List (ℕ × A)} (h : SparseWf l) :
    (l.map Prod.fst).Pairwise (· ≤ ·) := by
  rw [List.pairwise_map]
  have := h.1
  rw [List.pairwise_map] at this
  refine List.Pairwise.imp_of_mem (fun {a b} ha hb hab => ?_) this
  rcases hab with e | e
  · exact e.le
  · rw [e]; exact h.2 a ha

theorem SparseWf.count_le {A : Type*} {l : List (ℕ × A)} (h : SparseWf l) {d : ℕ} (hd : d ≠ dimMax) :
    (l.map Prod.fst).count d ≤ 1 := by
  have h1 := h.1
  generalize l.map Prod.fst = m at h1
  induction m with
  | nil => simp
  | cons a m ih =>
    rw [List.pairwise_cons] at h1
    rw [List.count_cons]
    split_ifs with e
    · have : m.count d = 0 := by
        rw [List.count_eq_zero]
        intro hm
        rcases h1.1 d hm with e' | e'
        · simp only [beq_iff_eq] at e; omega
        · exact hd e'
      omega
    · simpa using ih h1.2

theorem SparseWf.index {A : Type*} {l : List (ℕ × A)} (h : SparseWf l) {d : ℕ} (hd : d ≠ dimMax) :
    IsIdx d (l.map Prod.fst) (indexOf d (l.map Prod.fst)) :=
  indexOf_isIdx d _ h.sorted (h.count_le hd)

theorem SparseWf.sublist {A : Type*} {l l' : List (ℕ × A)} (h : SparseWf l) (hs : l'.Sublist l) :
    SparseWf l' :=
  ⟨h.1.sublist (hs.map _), fun p hp => h.2 p (hs.subset hp)⟩

theorem sparseWf_append {A : Type*} {l l' : List (ℕ × A)} :
    SparseWf (l ++ l') ↔ SparseWf l ∧ SparseWf l' ∧
      ∀ p ∈ l, ∀ q ∈ l', p.1 < q.1 ∨ q.1 = dimMax := by
  unfold SparseWf
  simp only [List.map_append, List.pairwise_append, List.mem_append]
  constructor
  · rintro ⟨⟨h1, h2, h3⟩, h4⟩
    exact ⟨⟨h1, fun p hp => h4 p (Or.inl hp)⟩, ⟨h2, fun p hp => h4 p (Or.inr hp)⟩, fun p hp q hq =>
      h3 _ (List.mem_map_of_mem hp) _ (List.mem_map_of_mem hq)⟩
  · rintro ⟨⟨h1, h2⟩, ⟨h3, h4⟩, h5⟩
    refine ⟨⟨h1, h3, ?_⟩, ?_⟩
    · intro a ha b hb
      obtain ⟨p, hp, rfl⟩ := List.mem_map.1 ha
      obtain ⟨q, hq, rfl⟩ := List.mem_map.1 hb
      exact h5 p hp q hq
    · rintro p (hp | hp)
      · exact h2 p hp
      · exact h4 p hp

theorem sparseWf_cons {A : Type*} {p : ℕ × A} {l : List (ℕ × A)} :
    SparseWf (p :: l) ↔ p.1 ≤ dimMax ∧ SparseWf l ∧ ∀ q ∈ l, p.1 < q.1 ∨ q.1 = dimMax := by
  rw [show p :: l = [p] ++ l from rfl, sparseWf_append]
  simp [SparseWf]

/-- in a well-formed array, the terms seen by the iterator are those that are not free slots -/
theorem SparseWf.takeWhile_eq_filter {A : Type*} {l : List (ℕ × A)} (h : SparseWf l) :
    (l.takeWhile fun p => decide (p.1 ≠ dimMax)) = l.filter fun p => decide (p.1 ≠ dimMax) := by
  induction l with
  | nil => rfl
  | cons p l ih =>
    rw [sparseWf_cons] at h
    by_cases hp : p.1 = dimMax
    · rw [List.takeWhile_cons_of_neg (by simpa using hp), List.filter_cons_of_neg (by simpa using hp)]
      symm
      rw [List.filter_eq_nil_iff]
      intro q hq
      rcases h.2.2 q hq with e | e
      · have := h.2.1.2 q hq; omega
      · simpa using e
    · rw [List.takeWhile_cons_of_pos (by simpa using hp), List.filter_cons_of_pos (by simpa using hp),
        ih h.2.1]

theorem SparseWf.mem_terms {c0 : Coeff K} {l : List (ℕ × Coeff K)} (h : SparseWf l) (p : ℕ × Coeff K) :
    p ∈ terms ⟨c0, .sparse l⟩ ↔ p ∈ l ∧ p.1 ≠ dimMax := by
  show p ∈ (l.takeWhile fun p => decide (p.1 ≠ dimMax)) ↔ _
  rw [h.takeWhile_eq_filter, List.mem_filter]
  simp

theorem SparseWf.terms_sorted {c0 : Coeff K} {l : List (ℕ × Coeff K)} (h : SparseWf l) :
    ((terms ⟨c0, .sparse l⟩).map Prod.fst).Pairwise (· < ·) := by
  show ((l.takeWhile fun p => decide (p.1 ≠ dimMax)).map Prod.fst).Pairwise _
  rw [h.takeWhile_eq_filter, List.pairwise_map]
  have := h.1.sublist ((List.filter_sublist (p := fun p => decide (p.1 ≠ dimMax)) (l := l)).map Prod.fst)
  rw [List.pairwise_map] at this
  refine List.Pairwise.imp_of_mem (fun {a b} _ hb hab => ?_) this
  rcases hab with e | e
  · exact e
  · simp [e] at hb

theorem terms_dense (c0 : Coeff K) (l : List (Coeff K)) :
    terms ⟨c0, .dense l⟩ = l.zipIdx.map fun p => (p.2, p.1) := rfl

theorem mem_terms_dense {c0 : Coeff K} {l : List (Coeff K)} {d : ℕ} {c : Coeff K} :
    (d, c) ∈ terms ⟨c0, .dense l⟩ ↔ l[d]? = some c := by
  rw [terms_dense]
  constructor
  · intro h
    obtain ⟨⟨a, b⟩, hp, e⟩ := List.mem_map.1 h
    rw [Prod.mk.injEq] at e
    obtain ⟨rfl, rfl⟩ := e
    exact List.mk_mem_zipIdx_iff_getElem?.1 hp
  · intro h
    exact List.mem_map.2 ⟨(c, d), List.mk_mem_zipIdx_iff_getElem?.2 h, rfl⟩

theorem terms_dense_dims (c0 : Coeff K) (l : List (Coeff K)) :
    (terms ⟨c0, .dense l⟩).map Prod.fst = List.range l.length := by
  rw [terms_dense, List.map_map]
  have : (Prod.fst ∘ fun p : Coeff K × ℕ => (p.2, p.1)) = Prod.snd := rfl
  rw [this, List.zipIdx_map_snd, List.range_eq_range']

theorem Wf.terms_sorted {e : Linexpr K} (h : e.Wf) : (e.terms.map Prod.fst).Pairwise (· < ·) := by
  obtain ⟨c0, b⟩ := e
  cases b with
  | dense l => rw [terms_dense_dims]; exact List.pairwise_lt_range
  | sparse l => exact SparseWf.terms_sorted h

/-! ## The value only depends on the coefficients -/

section
variable [LinearOrder K] [Field K] [IsStrictOrderedRing K]

/-- Specification: the coefficient of a dimension (0 for the dimensions that are not mentioned) -/
def coeffAt (e : Linexpr K) (d : ℕ) : Coeff K := (e.terms.lookup d).getD czero

theorem lookup_eq_some {l : List (ℕ × Coeff K)} (h : (l.map Prod.fst).Pairwise (· < ·)) {d : ℕ}
    {c : Coeff K} : l.lookup d = some c ↔ (d, c) ∈ l := by
  induction l with
  | nil => simp
  | cons p l ih =>
    obtain ⟨a, b⟩ := p
    rw [List.map_cons, List.pairwise_cons] at h
    rw [List.lookup_cons, List.mem_cons, Prod.mk.injEq]
    by_cases e : d = a
    · subst e
      simp only [beq_self_eq_true, Option.some.injEq, true_and]
      constructor
      · exact fun e => Or.inl e.symm
      · rintro (e | hm)
        · exact e.symm
        · have := h.1 d (List.mem_map_of_mem (f := Prod.fst) hm)
          omega
    · rw [show (d == a) = false by simpa using e]
      simp only [ih h.2, e, false_and, false_or]

theorem coeffAt_of_mem {e : Linexpr K} (h : e.Wf) {d : ℕ} {c : Coeff K} (hm : (d, c) ∈ e.terms) :
    e.coeffAt d = c := by
  unfold coeffAt; rw [(lookup_eq_some h.terms_sorted).2 hm]; rfl

theorem coeffAt_of_not_mem {e : Linexpr K} (h : e.Wf) {d : ℕ} (hm : ∀ c, (d, c) ∉ e.terms) :
    e.coeffAt d = czero := by
  unfold coeffAt
  cases hl : e.terms.lookup d with
  | none => rfl
  | some c => exact absurd ((lookup_eq_some h.terms_sorted).1 hl) (hm c)

theorem has_czero {q : K} : (czero : Coeff K).Has q ↔ q = 0 := by
  simp only [czero, Coeff.Has, Bound.fin.injEq]; exact eq_comm

theorem termsVal_iff {l : List (ℕ × Coeff K)} (h : (l.map Prod.fst).Pairwise (· < ·)) {x : ℕ → K} {r : K}
    {N : ℕ} (hN : ∀ p ∈ l, p.1 < N) :
    TermsVal l x r ↔ ∃ q : ℕ → K, (∀ d, ((l.lookup d).getD czero).Has (q d)) ∧
      r = ∑ d ∈ Finset.range N, q d * x d := by
  induction l generalizing r with
  | nil =>
    constructor
    · rintro rfl
      exact ⟨fun _ => 0, fun d => by simp [has_czero], by simp⟩
    · rintro ⟨q, hq, rfl⟩
      have : ∀ d, q d = 0 := fun d => by simpa [has_czero] using hq d
      simp [TermsVal, this]
  | cons p l ih =>
    obtain ⟨a, c⟩ := p
    rw [List.map_cons, List.pairwise_cons] at h
    have ih := fun r => @ih h.2 r fun p hp => hN p (List.mem_cons_of_mem _ hp)
    have ha : a < N := hN (a, c) (by simp)
    have hla : l.lookup a = none := by
      cases hl : l.lookup a with
      | none => rfl
      | some c' =>
        have := h.1 a (List.mem_map_of_mem (f := Prod.fst) ((lookup_eq_some h.2).1 hl))
        simp at this
    constructor
    · rintro ⟨q0, s, hq0, hs, rfl⟩
      obtain ⟨q, hq, rfl⟩ := (ih s).1 hs
      refine ⟨Function.update q a q0, fun d => ?_, ?_⟩
      · rw [List.lookup_cons]
        by_cases e : d = a
        · subst e; simpa using hq0
        · rw [show (d == a) = false by simpa using e, Function.update_of_ne e]
          exact hq d
      · have h0 : q a = 0 := by have := hq a; rw [hla] at this; simpa [has_czero] using this
        rw [← Finset.add_sum_erase _ _ (Finset.mem_range.2 ha),
          ← Finset.add_sum_erase (Finset.range N) (fun d => Function.update q a q0 d * x d)
            (Finset.mem_range.2 ha), h0]
        simp only [Function.update_self, MulZeroClass.zero_mul, zero_add, add_right_inj]
        refine Finset.sum_congr rfl fun d hd => ?_
        rw [Function.update_of_ne (Finset.ne_of_mem_erase hd)]
    · rintro ⟨q, hq, rfl⟩
      have hqa : c.Has (q a) := by simpa [List.lookup_cons] using hq a
      refine ⟨q a, ∑ d ∈ (Finset.range N).erase a, q d * x d, hqa, ?_, ?_⟩
      · refine (ih _).2 ⟨Function.update q a 0, fun d => ?_, ?_⟩
        · by_cases e : d = a
          · subst e; rw [hla, Function.update_self]; simp [has_czero]
          · have := hq d
            rw [List.lookup_cons, show (d == a) = false by simpa using e] at this
            rwa [Function.update_of_ne e]
        · rw [← Finset.add_sum_erase (Finset.range N) (fun d => Function.update q a 0 d * x d)
            (Finset.mem_range.2 ha)]
          simp only [Function.update_self, MulZeroClass.zero_mul, zero_add]
          refine Finset.sum_congr rfl fun d hd => ?_
          rw [Function.update_of_ne (Finset.ne_of_mem_erase hd)]
      · rw [Finset.add_sum_erase (Finset.range N) (fun d => q d * x d) (Finset.mem_range.2 ha)]

theorem exists_bound (l : List (ℕ × Coeff K)) : ∃ N, ∀ p ∈ l, p.1 < N := by
  induction l with
  | nil => exact ⟨0, by simp⟩
  | cons p l ih =>
    obtain ⟨N, hN⟩ := ih
    refine ⟨max N (p.1 + 1), fun q hq => ?_⟩
    rcases List.mem_cons.1 hq with rfl | hq
    · omega
    · have := hN q hq; omega

/-- two sets of terms with the same coefficients have the same values -/
theorem termsVal_congr {l l' : List (ℕ × Coeff K)} (h : (l.map Prod.fst).Pairwise (· < ·))
    (h' : (l'.map Prod.fst).Pairwise (· < ·))
    (he : ∀ d, (l.lookup d).getD czero = (l'.lookup d).getD czero) (x : ℕ → K) (r : K) :
    TermsVal l x r ↔ TermsVal l' x r := by
  obtain ⟨N, hN⟩ := exists_bound l
  obtain ⟨N', hN'⟩ := exists_bound l'
  rw [termsVal_iff h (N := max N N') fun p hp => by have := hN p hp; omega,
    termsVal_iff h' (N := max N N') fun p hp => by have := hN' p hp; omega]
  simp only [he]

theorem termsVal_perm {l l' : List (ℕ × Coeff K)} (h : l.Perm l') (x : ℕ → K) (r : K) :
    TermsVal l x r ↔ TermsVal l' x r := by
  induction h generalizing r with
  | nil => exact Iff.rfl
  | cons p _ ih =>
    obtain ⟨a, c⟩ := p
    simp only [TermsVal, ih]
  | swap p q l =>
    obtain ⟨a, c⟩ := p
    obtain ⟨b, d⟩ := q
    simp only [TermsVal]
    constructor
    · rintro ⟨q1, s, h1, ⟨q2, t, h2, h3, rfl⟩, rfl⟩
      exact ⟨q2, _, h2, ⟨q1, t, h1, h3, rfl⟩, by ring⟩
    · rintro ⟨q1, s, h1, ⟨q2, t, h2, h3, rfl⟩, rfl⟩
      exact ⟨q2, _, h2, ⟨q1, t, h1, h3, rfl⟩, by ring⟩
  | trans _ _ ih1 ih2 => exact (ih1 r).trans (ih2 r)

theorem termsVal_map (f : ℕ → ℕ) (l : List (ℕ × Coeff K)) (x : ℕ → K) (r : K) :
    TermsVal (l.map fun p => (f p.1, p.2)) x r ↔ TermsVal l (fun d => x (f d)) r := by
  induction l generalizing r with
  | nil => exact Iff.rfl
  | cons p l ih =>
    obtain ⟨a, c⟩ := p
    simp only [List.map_cons, TermsVal, ih]

theorem termsVal_congr_point (l : List (ℕ × Coeff K)) {x y : ℕ → K} (h : ∀ p ∈ l, x p.1 = y p.1) (r : K) :
    TermsVal l x r ↔ TermsVal l y r := by
  induction l generalizing r with
  | nil => exact Iff.rfl
  | cons p l ih =>
    obtain ⟨a, c⟩ := p
    have ha : x a = y a := h (a, c) (by simp)
    have ih := fun r => ih (fun p hp => h p (List.mem_cons_of_mem _ hp)) r
    simp only [TermsVal, ih, ha]

/-- replacing coefficients by coefficients with the same values, and dropping zero terms -/
theorem termsVal_reduce (l : List (ℕ × Coeff K)) (x : ℕ → K) (r : K) :
    TermsVal (l.map fun p => (p.1, p.2.reduce)) x r ↔ TermsVal l x r := by
  have hred : ∀ (c : Coeff K) q, c.reduce.Has q ↔ c.Has q := by
    intro c q
    cases c with
    | scalar b => exact Iff.rfl
    | interval l u =>
      simp only [Coeff.reduce]
      split_ifs with e
      · subst e
        simp only [Coeff.Has]
        exact ⟨fun h => ⟨h.le, h.ge⟩, fun h => le_antisymm h.1 h.2⟩
      · exact Iff.rfl
  induction l generalizing r with
  | nil => exact Iff.rfl
  | cons p l ih =>
    obtain ⟨a, c⟩ := p
    simp only [List.map_cons, TermsVal, ih, hred]

theorem isZero_has {c : Coeff K} (h : c.isZero = true) {q : K} : c.Has q ↔ q = 0 := by
  cases c with
  | scalar b =>
    simp only [Coeff.isZero, decide_eq_true_eq, sgn_zero_iff] at h
    subst h
    simp only [Coeff.Has, Bound.fin.injEq]; exact eq_comm
  | interval l u =>
    simp only [Coeff.isZero, Bool.and_eq_true, decide_eq_true_eq, sgn_zero_iff] at h
    obtain ⟨rfl, rfl⟩ := h
    simp only [Coeff.Has, Bound.fin_le_fin]
    exact ⟨fun h => le_antisymm h.2 h.1, fun h => by simp [h]⟩

theorem termsVal_dropZero (p : ℕ × Coeff K → Bool) (l : List (ℕ × Coeff K))
    (hp : ∀ t ∈ l, p t = false → t.2.isZero = true) (x : ℕ → K) (r : K) :
    TermsVal (l.filter p) x r ↔ TermsVal l x r := by
  induction l generalizing r with
  | nil => exact Iff.rfl
  | cons t l ih =>
    obtain ⟨a, c⟩ := t
    have ih := fun r => ih (fun t ht => hp t (List.mem_cons_of_mem _ ht)) r
    cases hc : p (a, c) with
    | true => rw [List.filter_cons_of_pos (by simpa using hc)]; simp only [TermsVal, ih]
    | false =>
      rw [List.filter_cons_of_neg (by simp [hc]), ih]
      have hz := hp (a, c) (by simp) hc
      simp only [TermsVal, isZero_has (c := c) hz]
      constructor
      · exact fun h => ⟨0, r, rfl, h, by simp⟩
      · rintro ⟨_, s, rfl, h, rfl⟩
        simpa using h

end
end Linexpr
end Apron
