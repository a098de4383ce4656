import Verif.Texpr.ApLinearize
import Verif.Texpr.LinearizeFlags
import Verif.Itv.QuasiSound
import Verif.Props.BoxConstraint

/-! # Lemmas on linearisation at level 0 -/

set_option autoImplicit false
set_option linter.unusedSectionVars false
set_option linter.ambiguousOpen false

namespace Apron
open Bound

variable {K : Type*} [LinearOrder K] [Field K] [IsStrictOrderedRing K]

theorem Coeff.has_ofItv {i : Itv K} {q : K} : (Coeff.ofItv i).Has q ↔ q ∈ i := by
  obtain ⟨l, u⟩ := i
  unfold Coeff.ofItv
  split_ifs with h
  · simp only [Itv.isPoint] at h
    cases l <;> cases u <;> simp only [decide_eq_true_eq, Bool.false_eq_true] at h
    rename_i l u
    simp only [Coeff.Has, fin.injEq, Itv.mem_def, fin_le_fin]
    constructor
    · rintro rfl; exact ⟨by linarith, le_refl _⟩
    · rintro ⟨h1, h2⟩; linarith
  · simp only [Coeff.Has, Itv.mem_def]
    cases l <;> simp [Bound.neg, neg_le]

namespace Linexpr

theorem terms_ofItv {e : ILinexpr K} (h : ∀ t ∈ e.terms, t.dim ≠ dimMax) :
    (Linexpr.ofItv e).terms = e.terms.map fun t => (t.dim, Coeff.ofItv t.itv) := by
  simp only [ofItv, terms]
  have : ∀ l : List (ℕ × Coeff K), (∀ p ∈ l, p.1 ≠ dimMax) → l.takeWhile (fun p => decide (p.1 ≠ dimMax)) = l := by
    intro l hl
    induction l with
    | nil => rfl
    | cons p l ih =>
      rw [List.takeWhile_cons_of_pos (by simpa using hl p (by simp)), ih fun q hq => hl q (by simp [hq])]
  refine this _ fun p hp => ?_
  obtain ⟨t, ht, rfl⟩ := List.mem_map.1 hp
  exact h t ht

theorem termsVal_ofItv {l : List (ITerm K)} {x : ℕ → K} {r : K} :
    TermsVal (l.map fun t => (t.dim, Coeff.ofItv t.itv)) x r ↔ ILinexpr.TVal l x r := by
  induction l generalizing r with
  | nil => rfl
  | cons t l ih =>
    simp only [List.map_cons, TermsVal, ILinexpr.TVal, Coeff.has_ofItv, ih]

theorem val_ofItv {e : ILinexpr K} (h : ∀ t ∈ e.terms, t.dim ≠ dimMax) {x : ℕ → K} {v : K} :
    (Linexpr.ofItv e).Val x v ↔ e.Val x v := by
  simp only [Val, ILinexpr.Val, terms_ofItv h, termsVal_ofItv]
  simp only [ofItv, Coeff.has_ofItv]

theorem inDim_ofItv {e : ILinexpr K} {n : ℕ} (hn : n ≤ dimMax) (ho : ILinexpr.Ordered e.terms)
    (h : ∀ t ∈ e.terms, t.dim < n) : (Linexpr.ofItv e).InDim n := by
  have h' : ∀ t ∈ e.terms, t.dim ≠ dimMax := fun t ht => by have := h t ht; omega
  have e1 : (Linexpr.ofItv e).terms.map Prod.fst = e.terms.map ITerm.dim := by
    rw [terms_ofItv h', List.map_map]; rfl
  unfold InDim
  rw [e1]
  refine ⟨ho, fun d hd => ?_⟩
  obtain ⟨t, ht, rfl⟩ := List.mem_map.1 hd
  exact h t ht

end Linexpr

theorem Lincons.holds_ofItv {c : ILincons K} (h : ∀ t ∈ c.expr.terms, t.dim ≠ dimMax) {x : ℕ → K} :
    (Lincons.ofItv c).Holds x ↔ c.Holds x := by
  simp only [Holds, ofItv, ILincons.Holds, Linexpr.val_ofItv h]

/-! ## Constant constraints -/

namespace Lincons

theorem termsVal_zero {l : List (ℕ × Coeff K)} (h : ∀ p ∈ l, p.2.isZero = true) {x : ℕ → K} {r : K}
    (hr : Linexpr.TermsVal l x r) : r = 0 := by
  induction l generalizing r with
  | nil => exact hr
  | cons p l ih =>
    obtain ⟨d, c⟩ := p
    obtain ⟨q, s, hq, hs, rfl⟩ := hr
    have h0 := h (d, c) (by simp)
    rw [ih (fun p hp => h p (by simp [hp])) hs]
    have : q = 0 := by
      cases c with
      | scalar b =>
        simp only [Coeff.isZero, decide_eq_true_eq, sgn_zero_iff] at h0
        simp only [Coeff.Has] at hq
        rw [h0] at hq; exact (fin.inj hq).symm
      | interval l u =>
        simp only [Coeff.isZero, Bool.and_eq_true, decide_eq_true_eq, sgn_zero_iff] at h0
        simp only [Coeff.Has, h0.1, h0.2, fin_le_fin] at hq
        exact le_antisymm hq.2 hq.1
    rw [this]; ring

/-- the only values of an expression without coefficients are those of its constant -/
theorem val_noCoeffs {e : Linexpr K} (h : noCoeffs e = true) {x : ℕ → K} {v : K} (hv : e.Val x v) : e.cst.Has v := by
  obtain ⟨q, r, hq, hr, rfl⟩ := hv
  unfold noCoeffs at h
  rw [List.all_eq_true] at h
  rw [termsVal_zero h hr, add_zero]; exact hq

theorem sgn_nonneg_iff (b : Bound K) : 0 ≤ sgn b ↔ fin 0 ≤ b := by
  rw [← not_lt, sgn_neg_iff, not_lt]

theorem sgn_pos_iff' (b : Bound K) : 0 < sgn b ↔ fin 0 < b := by
  rw [← not_le, sgn_le_zero_iff, not_le]

theorem isSat_sound {c : Lincons K} (ht : c.typ = .diseq → c.expr.cst.isScalar = true) (h : c.isSat = true) (x : ℕ → K) :
    c.HoldsAll x := by
  intro v hv
  simp only [isSat, Bool.and_eq_true] at h
  have hq := val_noCoeffs h.1 hv
  replace h := h.2
  cases hc : c.expr.cst with
  | scalar b =>
    rw [hc] at hq h
    simp only [Coeff.Has] at hq
    subst hq
    cases hty : c.typ <;> rw [hty] at h <;>
      simp only [decide_eq_true_eq, sgn_nonneg_iff, sgn_pos_iff', ne_eq, sgn_zero_iff, fin.injEq, fin_le_fin, fin_lt_fin] at h <;>
      simp only [Rel]
    · exact h
    · exact h
    · exact h
    · exact ⟨0, by simp [h]⟩
    · exact h
  | interval l u =>
    rw [hc] at hq h
    simp only [Coeff.Has] at hq
    simp only [Bool.or_eq_true, intervalIsBottom_iff] at h
    rcases h with h | h
    · exact absurd (le_trans hq.1 hq.2) (not_le.2 h)
    · cases hty : c.typ <;> rw [hty] at h <;>
        simp only [decide_eq_true_eq, sgn_nonneg_iff, sgn_pos_iff', Bool.and_eq_true, sgn_zero_iff] at h <;>
        simp only [Rel]
      · rw [h.1, h.2, fin_le_fin, fin_le_fin] at hq; exact le_antisymm hq.2 hq.1
      · exact (fin_le_fin _ _).1 (le_trans h hq.1)
      · exact (fin_lt_fin _ _).1 (lt_of_lt_of_le h hq.1)
      · rw [h.1, h.2, fin_le_fin, fin_le_fin] at hq; exact ⟨0, by simp [le_antisymm hq.2 hq.1]⟩
      · have := ht hty
        rw [hc] at this; cases this

theorem isUnsat_sound {c : Lincons K} (h1 : ∀ m, c.typ ≠ .eqmod m) (h2 : c.typ = .diseq → c.expr.cst.isScalar = true)
    (h : c.isUnsat = true) (x : ℕ → K) : ¬ c.Holds x := by
  rintro ⟨v, hv, hr⟩
  simp only [isUnsat, Bool.and_eq_true] at h
  have hq := val_noCoeffs h.1 hv
  replace h := h.2
  cases hc : c.expr.cst with
  | scalar b =>
    rw [hc] at hq h
    simp only [Coeff.Has] at hq
    subst hq
    cases hty : c.typ <;> rw [hty] at h hr <;>
      simp only [decide_eq_true_eq, sgn_neg_iff, sgn_le_zero_iff, ne_eq, sgn_zero_iff, fin.injEq, fin_le_fin, fin_lt_fin] at h <;>
      simp only [Rel] at hr
    · exact h hr
    · exact absurd hr (not_le.2 h)
    · exact absurd hr (not_lt.2 h)
    · exact h1 _ hty
    · exact hr h
  | interval l u =>
    rw [hc] at hq h
    simp only [Coeff.Has] at hq
    cases hty : c.typ <;> rw [hty] at h hr <;>
      simp only [decide_eq_true_eq, sgn_neg_iff, sgn_le_zero_iff, sgn_pos_iff', Bool.or_eq_true] at h <;>
      simp only [Rel] at hr
    · subst hr
      rcases h with h | h
      · exact absurd (lt_of_le_of_lt hq.2 h) (lt_irrefl _)
      · exact absurd (lt_of_lt_of_le h hq.1) (lt_irrefl _)
    · exact absurd ((fin_lt_fin _ _).1 (lt_of_le_of_lt hq.2 h)) (not_lt.2 hr)
    · exact absurd ((fin_le_fin _ _).1 (le_trans hq.2 h)) (not_le.2 hr)
    · exact h1 _ hty
    · have := h2 hty
      rw [hc] at this; cases this

end Lincons

/-! ## Deduction of bounds with the record of the changes -/

namespace ILincons
variable [FloorRing K] (R : Rnd K)

theorem boxizeGoT_fst (c : ILincons K) (intdim : ℕ) (itvonly : Bool) (env : ℕ → Itv K) (l : List (ITerm K)) :
    ∀ (i : ℕ) (s : BoxSt K × TChange), (boxizeGoT R c intdim itvonly i l s).1 =
      boxizeGo R c true env intdim itvonly i l s.1 := by
  induction l with
  | nil => intro i s; rfl
  | cons t l ih =>
    intro i s
    obtain ⟨s, tc⟩ := s
    simp only [boxizeGoT, boxizeGo, if_true]
    by_cases h : (boxizeTerm R c s.res intdim itvonly i t (s.res t.dim)).2 = true
    · rw [if_pos h, if_pos h]
      by_cases h' : (Itv.canonicalize (boxizeTerm R c s.res intdim itvonly i t (s.res t.dim)).1 (decide (t.dim < intdim))).isBottom = true
      · rw [if_pos h', if_pos h']
      · rw [if_neg h', if_neg h']; exact ih _ _
    · rw [if_neg h, if_neg h]; exact ih _ _

theorem boxizeT_fst (c : ILincons K) (intdim : ℕ) (itvonly : Bool) (env res : ℕ → Itv K) (tc : TChange) :
    (boxizeT R c res intdim itvonly tc).1 = boxize R c true env res intdim itvonly := by
  simp only [boxizeT, boxize, ← boxizeGoT_fst R c intdim itvonly env c.expr.terms 0 (⟨res, false, false⟩, tc)]
  split_ifs <;> rfl

theorem boxizePassT_fst (intdim : ℕ) (itvonly : Bool) (env : ℕ → Itv K) (l : List (ILincons K)) :
    ∀ (s : BoxSt K × TChange), (boxizePassT R intdim itvonly l s).1 = boxizePass R true env intdim itvonly l s.1 := by
  induction l with
  | nil => intro s; rfl
  | cons c l ih =>
    intro s
    obtain ⟨s, tc⟩ := s
    rw [boxizePassT, boxizePass]
    simp only [← boxizeT_fst R c intdim itvonly env s.res tc]
    cases c.typ <;> simp only [ih] <;> split_ifs <;> first | rfl | exact ih _

theorem boxizeLoopT_fst (intdim : ℕ) (itvonly : Bool) (env : ℕ → Itv K) (l : List (ILincons K)) (k : ℕ) :
    ∀ (s : BoxSt K × TChange), (boxizeLoopT R intdim itvonly l k s).1 = boxizeLoop R true env intdim itvonly l k s.1 := by
  induction k with
  | zero => intro s; rfl
  | succ k ih =>
    intro s
    obtain ⟨s, tc⟩ := s
    simp only [boxizeLoopT, boxizeLoop, ← boxizePassT_fst R intdim itvonly env l (⟨s.res, false, false⟩, tc)]
    split_ifs <;> first | rfl | exact ih _

theorem boxizeArrayT_fst (l : List (ILincons K)) (env : ℕ → Itv K) (intdim kmax : ℕ) (itvonly : Bool) :
    (boxizeArrayT R l env intdim kmax itvonly).1 = boxizeArray R l true env env intdim kmax itvonly :=
  boxizeLoopT_fst R intdim itvonly env l _ _

/-- a bound recorded as improved is not infinite -/
def TOk (res : ℕ → Itv K) (tc : TChange) : Prop :=
  ∀ d, ((tc d).1 = true → (res d).inf ≠ pinf) ∧ ((tc d).2 = true → (res d).sup ≠ pinf)

theorem improve_ne_pinf {new : Option (Bound K)} {old : Bound K} (h : (improve new old).2 = true) :
    (improve new old).1 ≠ pinf := by
  unfold improve at h ⊢
  cases new with
  | none => cases h
  | some b =>
    simp only at h ⊢
    split_ifs at h ⊢ with hc
    intro e
    simp only at e
    rw [e] at hc
    cases old <;> simp [Bound.cmp] at hc

theorem improve_old {new : Option (Bound K)} {old : Bound K} (h : (improve new old).2 = false) :
    (improve new old).1 = old := by
  unfold improve at h ⊢
  cases new with
  | none => rfl
  | some b =>
    simp only at h ⊢
    split_ifs at h ⊢ with hc
    rfl

theorem canonicalize_ne_pinf {a : Itv K} (b : Bool) : (a.inf ≠ pinf → (Itv.canonicalize a b).inf ≠ pinf) ∧
    (a.sup ≠ pinf → (Itv.canonicalize a b).sup ≠ pinf) := by
  unfold Itv.canonicalize
  obtain ⟨l, u⟩ := a
  cases b
  · exact ⟨id, id⟩
  · cases l <;> cases u <;> simp [Bound.floor]

theorem tok_step (c : ILincons K) (intdim : ℕ) (itvonly : Bool) (i : ℕ) (t : ITerm K) (res : ℕ → Itv K) (tc : TChange)
    (h : TOk res tc) :
    (boxizeTerm R c res intdim itvonly i t (res t.dim)).2 = false →
      TOk res (tc.mark t.dim (boxizeFlags R c res intdim itvonly i t (res t.dim))) := by
  intro h2 d
  have hf : boxizeFlags R c res intdim itvonly i t (res t.dim) = (false, false) := by
    unfold boxizeTerm at h2
    unfold boxizeFlags
    by_cases hc : ((zeroAt c.expr i).eval R res).isTop = true ∨ (t.eq = true ∧ itvonly = true)
    · rw [if_pos hc]
    · rw [if_neg hc] at h2 ⊢
      simp only [Bool.or_eq_false_iff] at h2
      rw [h2.1, h2.2]
  rw [hf]
  unfold TChange.mark
  by_cases hd : d = t.dim
  · subst hd; rw [Function.update_self]; simpa using h t.dim
  · rw [Function.update_of_ne hd]; exact h d

theorem tok_step' (c : ILincons K) (intdim : ℕ) (itvonly : Bool) (i : ℕ) (t : ITerm K) (res : ℕ → Itv K) (tc : TChange)
    (h : TOk res tc) (b : Bool) :
    TOk (Function.update res t.dim (Itv.canonicalize (boxizeTerm R c res intdim itvonly i t (res t.dim)).1 b))
        (tc.mark t.dim (boxizeFlags R c res intdim itvonly i t (res t.dim))) := by
  intro d
  unfold TChange.mark
  by_cases hd : d = t.dim
  · subst hd
    rw [Function.update_self, Function.update_self]
    have hold := h t.dim
    have key : (((tc t.dim).1 || (boxizeFlags R c res intdim itvonly i t (res t.dim)).1) = true →
        (boxizeTerm R c res intdim itvonly i t (res t.dim)).1.inf ≠ pinf) ∧
        (((tc t.dim).2 || (boxizeFlags R c res intdim itvonly i t (res t.dim)).2) = true →
        (boxizeTerm R c res intdim itvonly i t (res t.dim)).1.sup ≠ pinf) := by
      unfold boxizeTerm boxizeFlags
      by_cases hc : ((zeroAt c.expr i).eval R res).isTop = true ∨ (t.eq = true ∧ itvonly = true)
      · rw [if_pos hc, if_pos hc]; simpa using hold
      · rw [if_neg hc, if_neg hc]
        constructor
        · intro hh
          by_cases hi : (improve ((infBound R c.typ t.eq t.itv ((zeroAt c.expr i).eval R res)).map
            (intBound R c.typ (decide (t.dim < intdim)))) (res t.dim).inf).2 = true
          · exact improve_ne_pinf hi
          · simp only [hi, Bool.or_false] at hh
            simp only []
            rw [improve_old (by simpa using hi)]; exact hold.1 hh
        · intro hh
          by_cases hi : (improve ((supBound R c.typ t.eq t.itv ((zeroAt c.expr i).eval R res)).map
            (intBound R c.typ (decide (t.dim < intdim)))) (res t.dim).sup).2 = true
          · exact improve_ne_pinf hi
          · simp only [hi, Bool.or_false] at hh
            simp only []
            rw [improve_old (by simpa using hi)]; exact hold.2 hh
    exact ⟨fun hh => (canonicalize_ne_pinf b).1 (key.1 hh), fun hh => (canonicalize_ne_pinf b).2 (key.2 hh)⟩
  · rw [Function.update_of_ne hd, Function.update_of_ne hd]; exact h d

theorem tok_go (c : ILincons K) (intdim : ℕ) (itvonly : Bool) (l : List (ITerm K)) :
    ∀ (i : ℕ) (s : BoxSt K × TChange), TOk s.1.res s.2 →
      TOk (boxizeGoT R c intdim itvonly i l s).1.res (boxizeGoT R c intdim itvonly i l s).2 := by
  induction l with
  | nil => intro i s h; exact h
  | cons t l ih =>
    intro i s h
    obtain ⟨s, tc⟩ := s
    simp only [boxizeGoT]
    by_cases h1 : (boxizeTerm R c s.res intdim itvonly i t (s.res t.dim)).2 = true
    · rw [if_pos h1]
      have := tok_step' R c intdim itvonly i t s.res tc h (decide (t.dim < intdim))
      by_cases h' : (Itv.canonicalize (boxizeTerm R c s.res intdim itvonly i t (s.res t.dim)).1 (decide (t.dim < intdim))).isBottom = true
      · rw [if_pos h']; exact this
      · rw [if_neg h']; exact ih _ _ this
    · rw [if_neg h1]
      exact ih _ _ (tok_step R c intdim itvonly i t s.res tc h (by simpa using h1))

theorem tok_boxize (c : ILincons K) (res : ℕ → Itv K) (intdim : ℕ) (itvonly : Bool) (tc : TChange) (h : TOk res tc) :
    TOk (boxizeT R c res intdim itvonly tc).1.res (boxizeT R c res intdim itvonly tc).2 := by
  have := tok_go R c intdim itvonly c.expr.terms 0 (⟨res, false, false⟩, tc) h
  simp only [boxizeT]
  split_ifs <;> exact this

theorem tok_pass (intdim : ℕ) (itvonly : Bool) (l : List (ILincons K)) :
    ∀ (s : BoxSt K × TChange), TOk s.1.res s.2 →
      TOk (boxizePassT R intdim itvonly l s).1.res (boxizePassT R intdim itvonly l s).2 := by
  induction l with
  | nil => intro s h; exact h
  | cons c l ih =>
    intro s h
    obtain ⟨s, tc⟩ := s
    have := tok_boxize R c s.res intdim itvonly tc h
    rw [boxizePassT]
    cases c.typ <;> simp only <;> first | exact ih _ h | (split_ifs <;> first | exact this | exact ih _ this)

theorem tok_loop (intdim : ℕ) (itvonly : Bool) (l : List (ILincons K)) (k : ℕ) :
    ∀ (s : BoxSt K × TChange), TOk s.1.res s.2 →
      TOk (boxizeLoopT R intdim itvonly l k s).1.res (boxizeLoopT R intdim itvonly l k s).2 := by
  induction k with
  | zero => intro s h; exact h
  | succ k ih =>
    intro s h
    obtain ⟨s, tc⟩ := s
    have := tok_pass R intdim itvonly l (⟨s.res, false, false⟩, tc) h
    simp only [boxizeLoopT]
    split_ifs <;> first | exact this | exact ih _ this

theorem tok_array (l : List (ILincons K)) (env : ℕ → Itv K) (intdim kmax : ℕ) (itvonly : Bool) :
    TOk (boxizeArrayT R l env intdim kmax itvonly).1.res (boxizeArrayT R l env intdim kmax itvonly).2 :=
  tok_loop R intdim itvonly l _ _ fun d => ⟨fun h => (by cases h), fun h => (by cases h)⟩

theorem tval_one {t : ITerm K} {x : ℕ → K} {q : K} (h : q ∈ t.itv) : ILinexpr.TVal [t] x (q * x t.dim) :=
  ⟨q, 0, h, rfl, (add_zero _).symm⟩

/-- the added constraints hold at the points of the box -/
theorem boundRows_sound {n : ℕ} {env : ℕ → Itv K} {tc : TChange} (ht : TOk env tc) {x : ℕ → K}
    (hx : ∀ i, i < n → x i ∈ env i) : ∀ c ∈ boundRows n env tc, c.Holds x ∧ ILinexpr.Ordered c.expr.terms ∧
      (∀ t ∈ c.expr.terms, t.dim < n) := by
  intro c hc
  simp only [boundRows, List.mem_flatMap, List.mem_range] at hc
  obtain ⟨i, hi, hc⟩ := hc
  have hm := hx i hi
  have hord : ∀ t : ITerm K, ILinexpr.Ordered [t] := fun t => by simp [ILinexpr.Ordered]
  unfold boundRow at hc
  split_ifs at hc with h1 h2 h3 h3
  · simp only [List.mem_singleton] at hc; subst hc
    refine ⟨⟨x i + (-1) * x i, ⟨x i, _, hm, tval_one (t := ⟨i, true, _⟩) ((Itv.mem_point _ _).2 rfl), rfl⟩, ?_⟩, hord _, by simpa using hi⟩
    show x i + (-1) * x i = 0
    ring
  all_goals
    simp only [List.cons_append, List.nil_append, List.append_nil, List.mem_cons, List.not_mem_nil, or_false] at hc
  · have k1 : c = ⟨.supeq, ⟨Itv.point (numref (env i).inf), true, [⟨i, true, Itv.point 1⟩]⟩⟩ → c.Holds x ∧
        ILinexpr.Ordered c.expr.terms ∧ (∀ t ∈ c.expr.terms, t.dim < n) := by
      rintro rfl
      refine ⟨⟨_, ⟨_, _, (Itv.mem_point _ _).2 rfl, tval_one (t := ⟨i, true, _⟩) ((Itv.mem_point _ _).2 rfl), rfl⟩, ?_⟩, hord _, by simpa using hi⟩
      show (0 : K) ≤ _
      have := (ht i).1 h2
      have h1 := hm.1
      cases he : (env i).inf with
      | pinf => exact absurd he this
      | ninf => rw [he] at h1; cases h1
      | fin q => rw [he, fin_le_fin] at h1; simp only [numref]; linarith
    have k2 : c = ⟨.supeq, ⟨Itv.point (numref (env i).sup), true, [⟨i, true, Itv.point (-1)⟩]⟩⟩ → c.Holds x ∧
        ILinexpr.Ordered c.expr.terms ∧ (∀ t ∈ c.expr.terms, t.dim < n) := by
      rintro rfl
      refine ⟨⟨_, ⟨_, _, (Itv.mem_point _ _).2 rfl, tval_one (t := ⟨i, true, _⟩) ((Itv.mem_point _ _).2 rfl), rfl⟩, ?_⟩, hord _, by simpa using hi⟩
      show (0 : K) ≤ _
      have := (ht i).2 h3
      have h1 := hm.2
      cases he : (env i).sup with
      | pinf => exact absurd he this
      | ninf => rw [he] at h1; cases h1
      | fin q => rw [he, fin_le_fin] at h1; simp only [numref]; linarith
    rcases hc with hc | hc
    · exact k1 hc
    · exact k2 hc
  · subst hc
    refine ⟨⟨_, ⟨_, _, (Itv.mem_point _ _).2 rfl, tval_one (t := ⟨i, true, _⟩) ((Itv.mem_point _ _).2 rfl), rfl⟩, ?_⟩, hord _, by simpa using hi⟩
    show (0 : K) ≤ _
    have := (ht i).1 h2
    have h1 := hm.1
    cases he : (env i).inf with
    | pinf => exact absurd he this
    | ninf => rw [he] at h1; cases h1
    | fin q => rw [he, fin_le_fin] at h1; simp only [numref]; linarith
  · subst hc
    refine ⟨⟨_, ⟨_, _, (Itv.mem_point _ _).2 rfl, tval_one (t := ⟨i, true, _⟩) ((Itv.mem_point _ _).2 rfl), rfl⟩, ?_⟩, hord _, by simpa using hi⟩
    show (0 : K) ≤ _
    have := (ht i).2 h3
    have h1 := hm.2
    cases he : (env i).sup with
    | pinf => exact absurd he this
    | ninf => rw [he] at h1; cases h1
    | fin q => rw [he, fin_le_fin] at h1; simp only [numref]; linarith

/-! ## Dimensions of the terms -/

/-- the dimensions of the terms satisfy `D` -/
def DimsIn (D : ℕ → Prop) (c : ILincons K) : Prop := ∀ t ∈ c.expr.terms, D t.dim

theorem dimsIn_setBool (D : ℕ → Prop) (b : Bool) : DimsIn D (setBool b : ILincons K) := by
  intro t ht; simp [setBool] at ht

theorem dims_arrayReduce {D : ℕ → Prop} {meet : Bool} {l : List (ILincons K)} (h : ∀ c ∈ l, DimsIn D c) :
    ∀ c ∈ (arrayReduce meet l).1, DimsIn D c := by
  unfold arrayReduce
  cases hr : reduceGo meet (l.length + 1) [] l with
  | none => simpa using dimsIn_setBool D false
  | some r =>
    have hs := reduceGo_sub meet _ hr
    match r with
    | [] => simp
    | [c] => intro k hk; exact h k (by simpa using hs k (by simpa using hk))
    | a :: b :: r => intro k hk; exact h k (by simpa using hs k (by simpa using hk))

theorem dims_quasiCons {D : ℕ → Prop} {c : ILincons K} (h : DimsIn D c) (env : ℕ → Itv K) (meet : Bool) :
    DimsIn D (quasiCons R c env meet) := by
  unfold quasiCons
  split_ifs
  · exact dimsIn_setBool D true
  · exact dimsIn_setBool D false
  · exact h
  · intro t ht
    rcases quasi_terms R ht with h' | ⟨⟨u, hu, e, _⟩, _⟩
    · exact h t h'.1
    · rw [← e]; exact h u hu

theorem dims_quasiArrayGo {D : ℕ → Prop} (env : ℕ → Itv K) (meet : Bool) (n : ℕ) :
    ∀ {done l r : List (ILincons K)}, (∀ c ∈ done, DimsIn D c) → (∀ c ∈ l, DimsIn D c) →
      quasiArrayGo R env meet n done l = some r → ∀ c ∈ r, DimsIn D c := by
  induction n with
  | zero => intro done l r hd _ e; simp only [quasiArrayGo, Option.some.injEq] at e; exact e ▸ hd
  | succ n ih =>
    intro done l r hd hl e
    cases l with
    | nil => simp only [quasiArrayGo, Option.some.injEq] at e; exact e ▸ hd
    | cons c l =>
      simp only [quasiArrayGo] at e
      have hc := hl c (by simp)
      have hc1 : DimsIn D (if meet = true ∧ c.typ = .eq ∧ c.expr.isQuasilinear = false then (⟨.supeq, c.expr⟩ : ILincons K) else c) := by
        split_ifs <;> exact hc
      have hl1 : ∀ k ∈ (if meet = true ∧ c.typ = .eq ∧ c.expr.isQuasilinear = false then l ++ [(⟨.supeq, c.expr.neg⟩ : ILincons K)] else l),
          DimsIn D k := by
        intro k hk
        split_ifs at hk
        · rcases List.mem_append.1 hk with hk | hk
          · exact hl k (by simp [hk])
          · simp only [List.mem_singleton] at hk; subst hk
            intro t ht
            simp only [ILinexpr.neg, List.mem_map] at ht
            obtain ⟨u, hu, rfl⟩ := ht
            exact hc u hu
        · exact hl k (by simp [hk])
      split_ifs at e
      all_goals
        refine ih (fun k hk => ?_) ?_ e
        · rcases List.mem_append.1 hk with hk | hk
          · exact hd k hk
          · simp only [List.mem_singleton] at hk; subst hk
            exact dims_quasiCons R (by exact hc) env meet
        · first | exact hl1 | simpa [*] using hl1

theorem dims_quasiArray {D : ℕ → Prop} {l : List (ILincons K)} (h : ∀ c ∈ l, DimsIn D c) (env : ℕ → Itv K) (meet : Bool) :
    ∀ c ∈ quasiArray R l env meet, DimsIn D c := by
  unfold quasiArray
  simp only
  cases hr : quasiArrayGo R env meet (2 * (arrayReduce meet l).1.length + 1) [] (arrayReduce meet l).1 with
  | none => simpa using dimsIn_setBool D false
  | some r => exact dims_quasiArrayGo R env meet _ (by simp) (dims_arrayReduce h) hr

theorem dims_selectInf {D : ℕ → Prop} {c : ILincons K} (h : DimsIn D c) : DimsIn D (selectInf c) := by
  intro t ht
  simp only [selectInf, List.mem_map] at ht
  obtain ⟨u, hu, rfl⟩ := ht
  exact h u hu

theorem dims_linearizeOne {D : ℕ → Prop} {c : ILincons K} (h : DimsIn D c) (meet : Bool) :
    DimsIn D (linearizeOne meet c).1 ∧ ∀ d, (linearizeOne meet c).2 = some d → DimsIn D d := by
  have h' : ∀ t : ConsTyp K, DimsIn D (⟨t, c.expr⟩ : ILincons K) := fun _ => h
  unfold linearizeOne
  by_cases he : c.expr.eq = true
  · rw [if_pos he]; exact ⟨h, by simp⟩
  · rw [if_neg he]
    cases c.typ <;> simp only
    · split_ifs
      · exact ⟨h' .supeq, fun d e => by
          simp only [Option.some.injEq] at e; exact e ▸ dims_selectInf (h' _)⟩
      · exact ⟨h' .supeq, by simp⟩
      · exact ⟨dims_selectInf (h' .supeq), by simp⟩
    · split_ifs <;> exact ⟨h' .supeq, by simp⟩
    · split_ifs <;> exact ⟨h' .sup, by simp⟩
    · exact ⟨h, by simp⟩
    · exact ⟨h, by simp⟩

theorem dims_linearizeArray {D : ℕ → Prop} {l : List (ILincons K)} (h : ∀ c ∈ l, DimsIn D c) (meet : Bool) :
    ∀ c ∈ linearizeArray meet l, DimsIn D c := by
  have hr := dims_arrayReduce (meet := meet) h
  unfold linearizeArray
  simp only
  split_ifs
  · exact hr
  · intro c hc
    rcases List.mem_append.1 hc with hc | hc
    · obtain ⟨d, hd, rfl⟩ := List.mem_map.1 hc
      exact (dims_linearizeOne (hr d hd) meet).1
    · obtain ⟨d, hd, e⟩ := List.mem_filterMap.1 hc
      exact (dims_linearizeOne (hr d hd) meet).2 c e

end ILincons

/-! ## Sorted terms -/

namespace Texpr
variable [FloorRing K] (R : Rnd K) (o : RootOps K) (F : FltOps K)

theorem ordered_const {i : Itv K} : ILinexpr.Ordered (ILinexpr.const i).terms := by
  simp [ILinexpr.Ordered, ILinexpr.const]

theorem ordered_intlinear {e : Texpr K} : ∀ {e0 : Bool} {l : ILinexpr K}, intlinear R o F e0 e = some l →
    ILinexpr.Ordered l.terms := by
  induction e with
  | cst c => intro e0 l h; simp only [intlinear, Option.some.injEq] at h; subst h; exact ordered_const
  | dim d => intro e0 l h; simp only [intlinear, Option.some.injEq] at h; subst h; simp [ILinexpr.Ordered]
  | un op t d a ih =>
    intro e0 l h
    simp only [intlinear] at h
    by_cases hc : isIntervalCst (.un op t d a) = true
    · rw [if_pos hc] at h; simp only [Option.some.injEq] at h; subst h; exact ordered_const
    · rw [if_neg hc] at h
      cases op with
      | neg =>
        obtain ⟨k, hk, rfl⟩ := Option.map_eq_some_iff.1 h
        exact ILinexpr.ordered_neg (ih hk)
      | cast =>
        simp only at h
        split_ifs at h
        exact ih h
      | sqrt => cases h
  | bin op t d a b iha ihb =>
    intro e0 l h
    simp only [intlinear] at h
    by_cases hc : isIntervalCst (.bin op t d a b) = true
    · rw [if_pos hc] at h; simp only [Option.some.injEq] at h; subst h; exact ordered_const
    · rw [if_neg hc] at h
      by_cases ht : t ≠ .real
      · rw [if_pos ht] at h; cases h
      · rw [if_neg ht] at h
        cases op with
        | add =>
          obtain ⟨la, h1, h2⟩ := Option.bind_eq_some_iff.1 h
          obtain ⟨lb, h3, rfl⟩ := Option.map_eq_some_iff.1 h2
          exact ILinexpr.ordered_add R (iha h1) (ihb h3)
        | sub =>
          obtain ⟨la, h1, h2⟩ := Option.bind_eq_some_iff.1 h
          obtain ⟨lb, h3, rfl⟩ := Option.map_eq_some_iff.1 h2
          exact ILinexpr.ordered_add R (iha h1) (ILinexpr.ordered_neg (ihb h3))
        | mul =>
          simp only at h
          split_ifs at h
          · obtain ⟨k, hk, rfl⟩ := Option.map_eq_some_iff.1 h
            exact ILinexpr.ordered_scale R (iha hk) _
          · obtain ⟨k, hk, rfl⟩ := Option.map_eq_some_iff.1 h
            exact ILinexpr.ordered_scale R (ihb hk) _
        | div =>
          simp only at h
          split_ifs at h
          obtain ⟨k, hk, rfl⟩ := Option.map_eq_some_iff.1 h
          exact ILinexpr.ordered_scale R (iha hk) _
        | mod => cases h
        | pow => cases h

end Texpr
end Apron
