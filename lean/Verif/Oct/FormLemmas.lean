import Verif.Oct.Transfer
import Verif.Oct.ResizeWf
import Mathlib.Algebra.BigOperators.Ring.Finset
import Mathlib.Algebra.Order.BigOperators.Group.Finset
import Mathlib.Algebra.BigOperators.Intervals

/-! # Helper lemmas: classification of linear expressions -/

set_option autoImplicit false
set_option linter.unusedSectionVars false
set_option linter.ambiguousOpen false

namespace Apron
namespace Oct
open Bound Finset
variable {K : Type*} [LinearOrder K] [Field K] [IsStrictOrderedRing K] (R : Rnd K)

/-- the coefficient interval stored at `p`, `p+1` contains `q` -/
def InD (dst : ℕ → Bound K) (p : ℕ) (q : K) : Prop := fin (-q) ≤ dst p ∧ fin q ≤ dst (p + 1)

/-- `v` is a value of the linear form with interval coefficients stored in `dst` -/
def FormVal (dim : ℕ) (dst : ℕ → Bound K) (x : ℕ → K) (v : K) : Prop :=
  ∃ (c0 : K) (c : ℕ → K), InD dst 0 c0 ∧ (∀ j, j < dim → InD dst (2 * j + 2) (c j)) ∧
    v = c0 + ∑ j ∈ range dim, c j * x j

theorem ofScalar_ge {b : Bound K} {q : K} (h : fin q ≤ b) : fin q ≤ OctT.ofScalar R b false := by
  cases b with
  | ninf => simp at h
  | pinf => simp [OctT.ofScalar]
  | fin p => simp [OctT.ofScalar]; exact le_trans h (R.up_ge p)

theorem ofScalar_exact (b : Bound K) : OctT.ofScalar Rnd.exact b false = b := by
  cases b <;> simp [OctT.ofScalar]

theorem has_reduce {c : Coeff K} {q : K} : c.reduce.Has q ↔ c.Has q := by
  cases c with
  | scalar b => rfl
  | interval l u =>
    simp only [Coeff.reduce]
    split_ifs with h
    · subst h; simp only [Coeff.Has]
      constructor
      · intro h; subst h; simp
      · intro h; exact le_antisymm h.1 h.2
    · rfl

theorem has_iff {c : Coeff K} {q : K} : c.Has q ↔ c.inf ≤ fin q ∧ fin q ≤ c.sup := by
  cases c with
  | scalar b =>
    simp only [Coeff.Has, Coeff.inf, Coeff.sup]
    constructor
    · intro h; subst h; simp
    · intro h; exact le_antisymm h.1 h.2
  | interval l u => rfl

theorem neg_le_iff {b : Bound K} {q : K} : fin (-q) ≤ neg b ↔ b ≤ fin q := by
  cases b <;> simp

theorem proper_reduce {c : Coeff K} (h : c.Proper) : c.reduce.Proper := by
  cases c with
  | scalar b => exact h
  | interval l u =>
    simp only [Coeff.reduce]
    split_ifs with e
    · subst e
      obtain ⟨h1, h2⟩ := h
      cases l <;> simp_all [Coeff.Proper, infty]
    · exact h

theorem sum_update (dim : ℕ) (c : ℕ → K) (x : ℕ → K) {d : ℕ} (hd : d < dim) (h0 : c d = 0) (q : K) :
    ∑ j ∈ range dim, (Function.update c d q) j * x j = ∑ j ∈ range dim, c j * x j + q * x d := by
  rw [← Finset.add_sum_erase (range dim) _ (mem_range.2 hd),
    ← Finset.add_sum_erase (range dim) (fun j => c j * x j) (mem_range.2 hd)]
  simp only [Function.update_self, h0, zero_mul, zero_add]
  rw [add_comm]
  congr 1
  refine Finset.sum_congr rfl fun j hj => ?_
  rw [Function.update_of_ne (Finset.ne_of_mem_erase hj)]

section
variable [FloorRing K]

/-- what `coeffStep` stores contains the coefficient -/
theorem coeffStep_has {c : Coeff K} {q : K} (h : c.Has q) (p : ℕ) (u : UExpr) (dst : ℕ → Bound K) :
    InD (coeffStep R c p u dst).2 p q := by
  rw [← has_reduce, has_iff] at h
  unfold InD coeffStep
  simp only [ne_eq, Nat.left_eq_add, one_ne_zero, not_false_eq_true, Function.update_of_ne,
    Function.update_self]
  exact ⟨ofScalar_ge R (neg_le_iff.2 h.1), ofScalar_ge R h.2⟩

theorem coeffStep_exact {c : Coeff K} {q : K} (p : ℕ) (u : UExpr) (dst : ℕ → Bound K) :
    InD (coeffStep Rnd.exact c p u dst).2 p q ↔ c.Has q := by
  rw [← has_reduce, has_iff]
  unfold InD coeffStep
  simp only [ne_eq, Nat.left_eq_add, one_ne_zero, not_false_eq_true, Function.update_of_ne,
    Function.update_self, ofScalar_exact, neg_le_iff]

theorem coeffStep_ne (c : Coeff K) (p : ℕ) (u : UExpr) (dst : ℕ → Bound K) {r : ℕ} (h1 : r ≠ p)
    (h2 : r ≠ p + 1) : (coeffStep R c p u dst).2 r = dst r := by
  unfold coeffStep; simp [h1, h2]

theorem coeffStep_empty {c : Coeff K} (p : ℕ) (u : UExpr) (dst : ℕ → Bound K)
    (h : (coeffStep R c p u dst).1.type = .empty) (hu : u.type ≠ .empty) (q : K) : ¬ c.Has q := by
  intro hq
  rw [← has_reduce, has_iff] at hq
  unfold coeffStep at h
  have hlt : ¬ c.reduce.sup < c.reduce.inf := not_lt.2 (le_trans hq.1 hq.2)
  simp only [hlt, decide_false, Bool.and_false, Bool.false_eq_true, if_false] at h
  split_ifs at h <;> exact hu h

theorem coeffStep_type (c : Coeff K) (p : ℕ) (u : UExpr) (dst : ℕ → Bound K) :
    (coeffStep R c p u dst).1.type = .empty ∨ (coeffStep R c p u dst).1.type = u.type := by
  unfold coeffStep
  simp only
  split_ifs <;> simp

theorem coeffStep_fields (c : Coeff K) (p : ℕ) (u : UExpr) (dst : ℕ → Bound K) :
    (coeffStep R c p u dst).1.i = u.i ∧ (coeffStep R c p u dst).1.j = u.j ∧
    (coeffStep R c p u dst).1.coefI = u.coefI ∧ (coeffStep R c p u dst).1.coefJ = u.coefJ := by
  unfold coeffStep
  simp only
  split_ifs <;> simp

theorem coeffStep_isInt {c : Coeff K} {p : ℕ} {u : UExpr} {dst : ℕ → Bound K}
    (h : (coeffStep R c p u dst).1.isInt = true) : u.isInt = true ∧ c.reduce.isScalar = true ∧
      isInteger (OctT.ofScalar R (neg c.reduce.inf) false) = true := by
  unfold coeffStep at h
  simp only at h
  split_ifs at h <;> simp_all

theorem termStep_snd (intdim : ℕ) (s : UExpr × (ℕ → Bound K)) (t : ℕ × Coeff K) :
    (termStep R intdim s t).2 = (coeffStep R t.2 (2 * t.1 + 2) s.1 s.2).2 := rfl

theorem termStep_other (intdim : ℕ) (s : UExpr × (ℕ → Bound K)) (t : ℕ × Coeff K) {r : ℕ}
    (h1 : r ≠ 2 * t.1 + 2) (h2 : r ≠ 2 * t.1 + 3) : (termStep R intdim s t).2 r = s.2 r := by
  rw [termStep_snd, coeffStep_ne R _ _ _ _ h1 h2]

theorem foldl_other (intdim : ℕ) (l : List (ℕ × Coeff K)) (s : UExpr × (ℕ → Bound K)) {r : ℕ}
    (h : ∀ t ∈ l, r ≠ 2 * t.1 + 2 ∧ r ≠ 2 * t.1 + 3) : (l.foldl (termStep R intdim) s).2 r = s.2 r := by
  induction l generalizing s with
  | nil => rfl
  | cons t l ih =>
    rw [List.foldl_cons, ih _ (fun t' ht' => h t' (by simp [ht'])),
      termStep_other R intdim s t (h t (by simp)).1 (h t (by simp)).2]

/-- accumulation of the terms -/
theorem terms_form {dim intdim : ℕ} {x : ℕ → K} (l : List (ℕ × Coeff K)) :
    ∀ (s : UExpr × (ℕ → Bound K)) (c : ℕ → K) (r : K),
      (l.map Prod.fst).Nodup → (∀ d ∈ l.map Prod.fst, d < dim ∧ c d = 0) →
      (∀ j, j < dim → InD s.2 (2 * j + 2) (c j)) → Linexpr.TermsVal l x r →
      ∃ c' : ℕ → K, (∀ j, j < dim → InD (l.foldl (termStep R intdim) s).2 (2 * j + 2) (c' j)) ∧
        ∑ j ∈ range dim, c' j * x j = ∑ j ∈ range dim, c j * x j + r := by
  induction l with
  | nil => intro s c r _ _ h hr; exact ⟨c, h, by rw [show r = 0 from hr, add_zero]⟩
  | cons t l ih =>
    intro s c r hn hd h hr
    obtain ⟨d, k⟩ := t
    obtain ⟨q, r', hq, hr', rfl⟩ := hr
    simp only [List.map_cons, List.nodup_cons] at hn
    have hd0 := hd d (by simp)
    have hmain := ih (termStep R intdim s (d, k)) (Function.update c d q) r' hn.2
      (fun e he => ⟨(hd e (by simp only [List.map_cons, List.mem_cons]; exact Or.inr he)).1, by
        rw [Function.update_of_ne (by rintro rfl; exact hn.1 he)]
        exact (hd e (by simp only [List.map_cons, List.mem_cons]; exact Or.inr he)).2⟩)
      (fun j hj => ?_) hr'
    · obtain ⟨c', h1, h2⟩ := hmain
      refine ⟨c', h1, ?_⟩
      rw [h2, sum_update dim c x hd0.1 hd0.2]; ring
    · by_cases e : j = d
      · subst e
        rw [Function.update_self]
        exact coeffStep_has R hq _ s.1 _
      · rw [Function.update_of_ne e]
        have := h j hj
        unfold InD at this ⊢
        rwa [termStep_other R intdim s (d, k) (by simp; omega) (by simp; omega),
          termStep_other R intdim s (d, k) (by simp; omega) (by simp; omega)]

/-- the stored coefficients contain every choice of coefficients of the expression -/
theorem val_form {e : Linexpr K} {dim intdim : ℕ} (he : e.InDim dim) {x : ℕ → K} {v : K}
    (hv : e.Val x v) : FormVal dim (uexprOf R e intdim).2 x v := by
  obtain ⟨q, r, hq, hr, rfl⟩ := hv
  have hn : (e.terms.map Prod.fst).Nodup := he.1.imp (fun h => ne_of_lt h)
  obtain ⟨c', h1, h2⟩ := terms_form R (intdim := intdim) e.terms
    (coeffStep R e.cst 0 ⟨.zero, 0, 0, 0, 0, true⟩ (fun _ => fin 0)) (fun _ => 0) r hn
    (fun d hd => ⟨he.2 d hd, rfl⟩) (fun j _ => by
      unfold InD
      rw [coeffStep_ne R _ _ _ _ (by omega) (by omega), coeffStep_ne R _ _ _ _ (by omega) (by omega)]
      simp) hr
  refine ⟨q, c', ?_, h1, ?_⟩
  · have := coeffStep_has R hq 0 ⟨.zero, 0, 0, 0, 0, true⟩ (fun _ => fin 0)
    unfold InD uexprOf at *
    rwa [foldl_other R _ _ _ (fun t _ => by omega), foldl_other R _ _ _ (fun t _ => by omega)]
  · rw [h2]; simp

/-- converse for exact conversions -/
theorem terms_form_exact {intdim : ℕ} {x : ℕ → K} {c : ℕ → K} (l : List (ℕ × Coeff K)) :
    ∀ (s : UExpr × (ℕ → Bound K)), (l.map Prod.fst).Nodup →
      (∀ d ∈ l.map Prod.fst, InD (l.foldl (termStep Rnd.exact intdim) s).2 (2 * d + 2) (c d)) →
      Linexpr.TermsVal l x ((l.map fun t => c t.1 * x t.1).sum) := by
  induction l with
  | nil => intro s _ _; rfl
  | cons t l ih =>
    intro s hn h
    obtain ⟨d, k⟩ := t
    simp only [List.map_cons, List.nodup_cons] at hn
    refine ⟨c d, _, ?_, ih (termStep Rnd.exact intdim s (d, k)) hn.2
      (fun e he => h e (by simp only [List.map_cons, List.mem_cons]; exact Or.inr he)), ?_⟩
    · have := h d (by simp)
      unfold InD at this
      rw [List.foldl_cons] at this
      have hne : ∀ t ∈ l, t.1 ≠ d := by
        intro t ht e; exact hn.1 (by rw [← e]; exact List.mem_map_of_mem ht)
      rw [foldl_other _ _ _ _ (fun t ht => by have := hne t ht; omega),
        foldl_other _ _ _ _ (fun t ht => by have := hne t ht; omega)] at this
      exact (coeffStep_exact _ s.1 _).1 this
    · simp

theorem terms_sum {dim : ℕ} {c x : ℕ → K} (l : List ℕ) (hn : l.Nodup) (hl : ∀ d ∈ l, d < dim)
    (h0 : ∀ j, j < dim → j ∉ l → c j = 0) :
    (l.map fun d => c d * x d).sum = ∑ j ∈ range dim, c j * x j := by
  rw [← List.sum_toFinset _ hn]
  refine Finset.sum_subset (fun d hd => mem_range.2 (hl d (by simpa using hd))) fun j hj hj' => ?_
  rw [h0 j (mem_range.1 hj) (by simpa using hj'), zero_mul]

theorem form_val {e : Linexpr K} {dim intdim : ℕ} (he : e.InDim dim) {x : ℕ → K} {v : K}
    (hv : FormVal dim (uexprOf Rnd.exact e intdim).2 x v) : e.Val x v := by
  obtain ⟨c0, c, h0, h1, rfl⟩ := hv
  have hn : (e.terms.map Prod.fst).Nodup := he.1.imp (fun h => ne_of_lt h)
  have ht := terms_form_exact (intdim := intdim) (x := x) (c := c) e.terms
    (coeffStep Rnd.exact e.cst 0 ⟨.zero, 0, 0, 0, 0, true⟩ (fun _ => fin 0)) hn
    (fun d hd => h1 d (he.2 d hd))
  refine ⟨c0, _, ?_, ht, ?_⟩
  · unfold InD uexprOf at h0
    rw [foldl_other _ _ _ _ (fun t _ => by omega), foldl_other _ _ _ _ (fun t _ => by omega)] at h0
    exact (coeffStep_exact _ _ _).1 h0
  · congr 1
    rw [← terms_sum (e.terms.map Prod.fst) hn he.2, List.map_map]
    · rfl
    · intro j hj hj'
      have := h1 j hj
      unfold InD uexprOf at this
      have hne : ∀ t ∈ e.terms, t.1 ≠ j := by
        intro t ht e; exact hj' (by rw [← e]; exact List.mem_map_of_mem ht)
      rw [foldl_other _ _ _ _ (fun t ht => by have := hne t ht; omega),
        foldl_other _ _ _ _ (fun t ht => by have := hne t ht; omega),
        coeffStep_ne _ _ _ _ _ (by omega) (by omega), coeffStep_ne _ _ _ _ _ (by omega) (by omega)] at this
      simp at this
      linarith [this.1, this.2]

/-! ### classification -/

/-- dimension `j` has coefficient zero -/
def ZeroAt (dst : ℕ → Bound K) (j : ℕ) : Prop := dst (2 * j + 2) = fin 0 ∧ dst (2 * j + 3) = fin 0

/-- dimension `j` has the unit coefficient `c` -/
def UnitAt (dst : ℕ → Bound K) (j : ℕ) (c : ℤ) : Prop :=
  (c = 1 ∨ c = -1) ∧ dst (2 * j + 2) = fin (-(c : K)) ∧ dst (2 * j + 3) = fin (c : K)

/-- meaning of the classification, after the dimensions satisfying `P` -/
def ClassOk (P : ℕ → Prop) (u : UExpr) (dst : ℕ → Bound K) : Prop :=
  match u.type with
  | .empty => True
  | .zero => ∀ j, ZeroAt dst j
  | .unary => P u.i ∧ UnitAt dst u.i u.coefI ∧ ∀ j, j ≠ u.i → ZeroAt dst j
  | .binary => P u.i ∧ P u.j ∧ u.i < u.j ∧ UnitAt dst u.i u.coefI ∧ UnitAt dst u.j u.coefJ ∧
      ∀ j, j ≠ u.i → j ≠ u.j → ZeroAt dst j
  | .other => True

theorem zeroAt_congr {dst dst' : ℕ → Bound K} {j : ℕ} (h1 : dst' (2 * j + 2) = dst (2 * j + 2))
    (h2 : dst' (2 * j + 3) = dst (2 * j + 3)) : ZeroAt dst' j ↔ ZeroAt dst j := by
  unfold ZeroAt; rw [h1, h2]

theorem termStep_class {intdim : ℕ} {P : ℕ → Prop} {s : UExpr × (ℕ → Bound K)} {d : ℕ} {c : Coeff K}
    (hP : ∀ i, P i → i < d) (h : ClassOk P s.1 s.2) (hz : ZeroAt s.2 d) :
    ClassOk (fun i => P i ∨ i = d) (termStep R intdim s (d, c)).1 (termStep R intdim s (d, c)).2 := by
  have ho : ∀ j, j ≠ d → (termStep R intdim s (d, c)).2 (2 * j + 2) = s.2 (2 * j + 2) ∧
      (termStep R intdim s (d, c)).2 (2 * j + 3) = s.2 (2 * j + 3) := by
    intro j hj
    exact ⟨termStep_other R _ _ _ (by simp; omega) (by simp; omega),
      termStep_other R _ _ _ (by simp; omega) (by simp; omega)⟩
  have hzo : ∀ j, j ≠ d → (ZeroAt (termStep R intdim s (d, c)).2 j ↔ ZeroAt s.2 j) :=
    fun j hj => zeroAt_congr (ho j hj).1 (ho j hj).2
  have huo : ∀ j k, j ≠ d → (UnitAt (termStep R intdim s (d, c)).2 j k ↔ UnitAt s.2 j k) := by
    intro j k hj; unfold UnitAt; rw [(ho j hj).1, (ho j hj).2]
  obtain ⟨f1, f2, f3, f4⟩ := coeffStep_fields R c (2 * d + 2) s.1 s.2
  have ht := coeffStep_type R c (2 * d + 2) s.1 s.2
  rw [show (termStep R intdim s (d, c)).1 =
    classVar intdim d (coeffStep R c (2 * d + 2) s.1 s.2).1 (termStep R intdim s (d, c)).2 from rfl]
  generalize (termStep R intdim s (d, c)).2 = dst' at *
  generalize hU : (coeffStep R c (2 * d + 2) s.1 s.2).1 = u at *
  unfold classVar
  simp only
  generalize hu' : (if intdim ≤ d then { u with isInt := false } else u) = u'
  have hu1 : u'.type = u.type ∧ u'.i = u.i ∧ u'.j = u.j ∧ u'.coefI = u.coefI ∧ u'.coefJ = u.coefJ := by
    subst hu'; split_ifs <;> simp
  obtain ⟨g0, g1, g2, g3, g4⟩ := hu1
  by_cases he : u'.type = .empty
  · rw [if_pos he]; unfold ClassOk; rw [he]; trivial
  rw [if_neg he]
  have ht' : u'.type = s.1.type := by
    rw [g0]; rcases ht with h | h
    · exact absurd (g0.trans h) he
    · exact h
  by_cases hz' : sgn (dst' (2 * d + 2)) = 0 ∧ sgn (dst' (2 * d + 3)) = 0
  · rw [if_pos hz']
    rw [sgn_zero_iff, sgn_zero_iff] at hz'
    have hzall : ∀ j, ZeroAt s.2 j → ZeroAt dst' j := by
      intro j hj
      by_cases e : j = d
      · subst e; exact hz'
      · exact (hzo j e).2 hj
    unfold ClassOk at h ⊢
    rw [ht']
    cases hty : s.1.type with
    | empty => trivial
    | other => trivial
    | zero => simp only [hty] at h; exact fun j => hzall j (h j)
    | unary =>
      simp only [hty] at h
      simp only [g1, g3, f1, f3]
      have := hP _ h.1
      exact ⟨Or.inl h.1, (huo _ _ (by omega)).2 h.2.1, fun j hj => hzall j (h.2.2 j hj)⟩
    | binary =>
      simp only [hty] at h
      simp only [g1, g2, g3, g4, f1, f2, f3, f4]
      have h1 := hP _ h.1
      have h2 := hP _ h.2.1
      exact ⟨Or.inl h.1, Or.inl h.2.1, h.2.2.1, (huo _ _ (by omega)).2 h.2.2.2.1,
        (huo _ _ (by omega)).2 h.2.2.2.2.1, fun j hj hj' => hzall j (h.2.2.2.2.2 j hj hj')⟩
  rw [if_neg hz']
  by_cases hb : u'.type = .binary ∨ u'.type = .other
  · rw [if_pos hb]; simp [ClassOk]
  rw [if_neg hb]
  have push : ∀ k : ℤ, UnitAt dst' d k → ClassOk (fun i => P i ∨ i = d) (u'.push d k) dst' := by
    intro k hk
    unfold UExpr.push
    by_cases hty : u'.type = .zero
    · rw [if_pos hty]
      unfold ClassOk at h ⊢
      rw [← ht', hty] at h
      simp only at h ⊢
      exact ⟨Or.inr trivial, hk, fun j hj => (hzo j hj).2 (h j)⟩
    · rw [if_neg hty]
      have hun : u'.type = .unary := by
        cases hq : u'.type <;> simp_all
      unfold ClassOk at h ⊢
      rw [← ht', hun] at h
      simp only [g1, g3, f1, f3] at h ⊢
      have := hP _ h.1
      refine ⟨Or.inl h.1, Or.inr trivial, this, (huo _ _ (by omega)).2 h.2.1, hk, fun j hj hj' => ?_⟩
      exact (hzo j hj').2 (h.2.2 j hj)
  simp only [cmp_eq_zero]
  split_ifs with c1 c2
  · exact push 1 ⟨Or.inl rfl, by simpa using c1.1, by simpa using c1.2⟩
  · exact push (-1) ⟨Or.inr rfl, by simpa using c2.1, by simpa using c2.2⟩
  · simp [ClassOk]

theorem foldl_class {intdim : ℕ} (l : List (ℕ × Coeff K)) :
    ∀ (P : ℕ → Prop) (s : UExpr × (ℕ → Bound K)), (l.map Prod.fst).Pairwise (· < ·) →
      (∀ i, P i → ∀ d ∈ l.map Prod.fst, i < d) → (∀ d ∈ l.map Prod.fst, ZeroAt s.2 d) →
      ClassOk P s.1 s.2 →
      ClassOk (fun i => P i ∨ i ∈ l.map Prod.fst) (l.foldl (termStep R intdim) s).1
        (l.foldl (termStep R intdim) s).2 := by
  induction l with
  | nil => intro P s _ _ _ h; simpa using h
  | cons t l ih =>
    intro P s hs hP hz h
    obtain ⟨d, c⟩ := t
    simp only [List.map_cons, List.pairwise_cons] at hs
    have h1 := termStep_class R (intdim := intdim) (c := c) (fun i hi => hP i hi d (by simp)) h
      (hz d (by simp))
    have h2 := ih (fun i => P i ∨ i = d) (termStep R intdim s (d, c)) hs.2 ?_ ?_ h1
    · rw [List.foldl_cons]
      convert h2 using 2
      simp [or_assoc]
    · rintro i (hi | rfl) e he
      · exact hP i hi e (by simp only [List.map_cons, List.mem_cons]; exact Or.inr he)
      · exact hs.1 e he
    · intro e he
      have hlt := hs.1 e he
      rw [zeroAt_congr (termStep_other R intdim s (d, c) (by simp; omega) (by simp; omega))
        (termStep_other R intdim s (d, c) (by simp; omega) (by simp; omega))]
      exact hz e (by simp only [List.map_cons, List.mem_cons]; exact Or.inr he)

theorem uexpr_class {e : Linexpr K} {dim : ℕ} (he : e.InDim dim) (intdim : ℕ) :
    ClassOk (fun i => i < dim) (uexprOf R e intdim).1 (uexprOf R e intdim).2 := by
  have hz : ∀ j, ZeroAt (coeffStep R e.cst 0 ⟨.zero, 0, 0, 0, 0, true⟩ (fun _ => fin 0)).2 j := by
    intro j
    exact ⟨coeffStep_ne R _ _ _ _ (by omega) (by omega), coeffStep_ne R _ _ _ _ (by omega) (by omega)⟩
  have := foldl_class R (intdim := intdim) e.terms (fun _ => False)
    (coeffStep R e.cst 0 ⟨.zero, 0, 0, 0, 0, true⟩ (fun _ => fin 0)) he.1 (by simp) (fun d _ => hz d) ?_
  · unfold uexprOf
    generalize List.foldl _ _ _ = s at *
    have hm : ∀ i, (False ∨ i ∈ e.terms.map Prod.fst) → i < dim := fun i hi => he.2 i (by simpa using hi)
    unfold ClassOk at this ⊢
    cases hty : s.1.type <;> simp only [hty] at this ⊢
    · exact this
    · exact ⟨hm _ this.1, this.2⟩
    · exact ⟨hm _ this.1, hm _ this.2.1, this.2.2⟩
  · unfold ClassOk
    rcases coeffStep_type R e.cst 0 ⟨.zero, 0, 0, 0, 0, true⟩ (fun _ => fin 0) with h | h <;> rw [h]
    · trivial
    · exact hz

theorem classVar_empty (intdim d : ℕ) (u : UExpr) (dst : ℕ → Bound K) :
    (classVar intdim d u dst).type = .empty ↔ u.type = .empty := by
  unfold classVar UExpr.push
  simp only
  split_ifs <;> simp_all

theorem foldl_empty {intdim : ℕ} {x : ℕ → K} (l : List (ℕ × Coeff K)) :
    ∀ (s : UExpr × (ℕ → Bound K)), s.1.type ≠ .empty →
      (l.foldl (termStep R intdim) s).1.type = .empty → ∀ r, ¬ Linexpr.TermsVal l x r := by
  induction l with
  | nil => intro s h h'; exact absurd h' h
  | cons t l ih =>
    intro s hs h r hr
    obtain ⟨d, c⟩ := t
    obtain ⟨q, r', hq, hr', -⟩ := hr
    by_cases he : (termStep R intdim s (d, c)).1.type = .empty
    · rw [show (termStep R intdim s (d, c)).1 = classVar intdim d (coeffStep R c (2 * d + 2) s.1 s.2).1
        (coeffStep R c (2 * d + 2) s.1 s.2).2 from rfl, classVar_empty] at he
      exact coeffStep_empty R _ _ _ he hs q hq
    · exact ih _ he h r' hr'

/-- an expression classified as empty has no value -/
theorem uexpr_empty {e : Linexpr K} {intdim : ℕ} (h : (uexprOf R e intdim).1.type = .empty) (x : ℕ → K)
    (v : K) : ¬ e.Val x v := by
  rintro ⟨q, r, hq, hr, -⟩
  unfold uexprOf at h
  by_cases he : (coeffStep R e.cst 0 ⟨.zero, 0, 0, 0, 0, true⟩ (fun _ => fin 0)).1.type = .empty
  · exact coeffStep_empty R _ _ _ he (by simp) q hq
  · exact foldl_empty R e.terms _ he h r hr

theorem foldl_type_empty {intdim : ℕ} (l : List (ℕ × Coeff K)) :
    ∀ (s : UExpr × (ℕ → Bound K)), s.1.type = .empty → (l.foldl (termStep R intdim) s).1.type = .empty := by
  induction l with
  | nil => intro s h; exact h
  | cons t l ih =>
    intro s h
    refine ih _ ?_
    rw [show (termStep R intdim s t).1 = classVar intdim t.1 (coeffStep R t.2 (2 * t.1 + 2) s.1 s.2).1
        (coeffStep R t.2 (2 * t.1 + 2) s.1 s.2).2 from rfl, classVar_empty]
    rcases coeffStep_type R t.2 (2 * t.1 + 2) s.1 s.2 with h' | h'
    · exact h'
    · rw [h', h]

/-- a proper expression not classified as empty has no reversed coefficient -/
theorem coeffStep_nonempty {c : Coeff K} {p : ℕ} {u : UExpr} {dst : ℕ → Bound K} (hc : c.Proper)
    (h : (coeffStep R c p u dst).1.type ≠ .empty) : ∃ q, c.Has q := by
  have hle : c.reduce.inf ≤ c.reduce.sup := by
    by_contra hlt
    rw [not_le] at hlt
    apply h
    have : c.reduce.isScalar = false := by
      cases hr : c.reduce with
      | scalar b => rw [hr] at hlt; simp [Coeff.inf, Coeff.sup] at hlt
      | interval l u => rfl
    unfold coeffStep
    simp [hlt, this]
  have hp := proper_reduce hc
  simp only [← has_reduce (c := c), has_iff]
  revert hle hp
  cases c.reduce with
  | scalar b =>
    intro _ hp
    cases b with
    | fin q => exact ⟨q, by simp [Coeff.inf, Coeff.sup]⟩
    | ninf => simp [Coeff.Proper, infty] at hp
    | pinf => simp [Coeff.Proper, infty] at hp
  | interval l u =>
    intro hle hp
    simp only [Coeff.inf, Coeff.sup] at hle ⊢
    obtain ⟨h1, h2⟩ := hp
    cases l with
    | pinf => exact absurd rfl h1
    | fin a => exact ⟨a, le_refl _, hle⟩
    | ninf =>
      cases u with
      | ninf => exact absurd rfl h2
      | fin b => exact ⟨b, by simp, le_refl _⟩
      | pinf => exact ⟨0, by simp, by simp⟩

/-- the constant of a proper expression, not classified as empty -/
theorem uexpr_cst {e : Linexpr K} {intdim : ℕ} (hp : e.Proper)
    (h : (uexprOf R e intdim).1.type ≠ .empty) : ∃ q, InD (uexprOf R e intdim).2 0 q := by
  have he : (coeffStep R e.cst 0 ⟨.zero, 0, 0, 0, 0, true⟩ (fun _ => fin 0)).1.type ≠ .empty := by
    intro h'; exact h (foldl_type_empty R _ _ h')
  obtain ⟨q, hq⟩ := coeffStep_nonempty R hp.1 he
  refine ⟨q, ?_⟩
  have := coeffStep_has R hq 0 ⟨.zero, 0, 0, 0, 0, true⟩ (fun _ => fin 0)
  unfold InD uexprOf at *
  rwa [foldl_other R _ _ _ (fun t _ => by omega), foldl_other R _ _ _ (fun t _ => by omega)]

theorem InD.ne {dst : ℕ → Bound K} {p : ℕ} {q : K} (h : InD dst p q) : dst p ≠ ninf ∧ dst (p + 1) ≠ ninf := by
  refine ⟨?_, ?_⟩ <;> intro e
  · have := h.1; rw [e] at this; simp at this
  · have := h.2; rw [e] at this; simp at this

/-! ### integrality -/

theorem isInteger_iff {b : Bound K} : isInteger b = true ↔ ∃ n : ℤ, b = fin (n : K) := by
  cases b with
  | ninf => simp [isInteger]
  | pinf => simp [isInteger]
  | fin q =>
    simp only [isInteger, decide_eq_true_eq, fin.injEq]
    constructor
    · intro h; exact ⟨_, h.symm⟩
    · rintro ⟨n, rfl⟩; simp

theorem classVar_isInt {intdim d : ℕ} {u : UExpr} {dst : ℕ → Bound K}
    (h : (classVar intdim d u dst).isInt = true) : d < intdim ∧ u.isInt = true := by
  unfold classVar UExpr.push at h
  simp only at h
  by_cases hd : intdim ≤ d
  · simp only [hd, if_true] at h; split_ifs at h
  · simp only [hd, if_false] at h
    refine ⟨by omega, ?_⟩
    split_ifs at h <;> simp_all

/-- conversions of the scalars of the expression are exact (representable numbers) -/
def Repr (R : Rnd K) (e : Linexpr K) : Prop :=
  (∀ q, e.cst.Has q → R.up (-q) = fin (-q)) ∧ ∀ t ∈ e.terms, ∀ q, t.2.Has q → R.up (-q) = fin (-q)

theorem coeff_int {c : Coeff K} {q : K} (hq : c.Has q) (hR : R.up (-q) = fin (-q))
    (h1 : c.reduce.isScalar = true) (h2 : isInteger (OctT.ofScalar R (neg c.reduce.inf) false) = true) :
    ∃ n : ℤ, q = n := by
  rw [← has_reduce] at hq
  cases hr : c.reduce with
  | interval l u => rw [hr] at h1; simp [Coeff.isScalar] at h1
  | scalar b =>
    rw [hr] at hq h2
    change b = fin q at hq
    subst hq
    simp only [Coeff.inf, OctT.ofScalar, neg_fin, hR] at h2
    obtain ⟨n, hn⟩ := isInteger_iff.1 h2
    have hn := Bound.fin.inj hn
    exact ⟨-n, by push_cast; linarith⟩

theorem foldl_isInt {intdim : ℕ} {x : ℕ → K} (hx : ∀ j, j < intdim → ∃ n : ℤ, x j = n)
    (l : List (ℕ × Coeff K)) :
    ∀ (s : UExpr × (ℕ → Bound K)), (∀ t ∈ l, ∀ q, t.2.Has q → R.up (-q) = fin (-q)) →
      (l.foldl (termStep R intdim) s).1.isInt = true →
      s.1.isInt = true ∧ ∀ r, Linexpr.TermsVal l x r → ∃ n : ℤ, r = n := by
  induction l with
  | nil => intro s _ h; exact ⟨h, fun r hr => ⟨0, by rw [show r = 0 from hr]; simp⟩⟩
  | cons t l ih =>
    intro s hR h
    obtain ⟨d, c⟩ := t
    obtain ⟨h1, h2⟩ := ih _ (fun t ht => hR t (by simp [ht])) h
    rw [show (termStep R intdim s (d, c)).1 = classVar intdim d (coeffStep R c (2 * d + 2) s.1 s.2).1
        (coeffStep R c (2 * d + 2) s.1 s.2).2 from rfl] at h1
    obtain ⟨h3, h4⟩ := classVar_isInt h1
    obtain ⟨h5, h6, h7⟩ := coeffStep_isInt R h4
    refine ⟨h5, ?_⟩
    rintro r ⟨q, r', hq, hr', rfl⟩
    obtain ⟨n, hn⟩ := coeff_int R hq (hR (d, c) (by simp) q hq) h6 h7
    obtain ⟨k, hk⟩ := hx d h3
    obtain ⟨k', hk'⟩ := h2 r' hr'
    exact ⟨n * k + k', by rw [hn, hk, hk']; push_cast; ring⟩

theorem uexpr_isInt {e : Linexpr K} {intdim : ℕ} (hR : Repr R e)
    (h : (uexprOf R e intdim).1.isInt = true) {x : ℕ → K} (hx : ∀ j, j < intdim → ∃ n : ℤ, x j = n)
    {v : K} (hv : e.Val x v) : ∃ n : ℤ, v = n := by
  obtain ⟨q, r, hq, hr, rfl⟩ := hv
  obtain ⟨h1, h2⟩ := foldl_isInt R hx e.terms _ hR.2 h
  obtain ⟨-, h4, h5⟩ := coeffStep_isInt R h1
  obtain ⟨n, hn⟩ := coeff_int R hq (hR.1 q hq) h4 h5
  obtain ⟨k, hk⟩ := h2 r hr
  exact ⟨n + k, by rw [hn, hk]; push_cast; ring⟩

theorem repr_exact (e : Linexpr K) : Repr Rnd.exact e := ⟨fun _ _ => rfl, fun _ _ _ _ => rfl⟩

end

end Oct
end Apron
