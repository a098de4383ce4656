import Verif.Itv.Linexpr
import Verif.Itv.RoundLemmas
import Verif.Itv.Tight

/-! # Lemmas on interval linear expressions -/

set_option autoImplicit false
set_option linter.unusedSectionVars false
set_option linter.ambiguousOpen false

namespace Apron
open Bound
variable {K : Type*} [LinearOrder K] [Field K] [IsStrictOrderedRing K] (R : Rnd K)

/-! ### conversions -/

theorem boundSetAp_ge {b : Bound K} {q : K} (h : fin q ≤ b) : fin q ≤ boundSetAp R b := by
  cases b with
  | fin p => exact h.trans (R.up_ge p)
  | pinf => simp [boundSetAp]
  | ninf => simp at h

@[simp] theorem boundSetAp_exact (b : Bound K) : boundSetAp Rnd.exact b = b := by
  cases b <;> rfl
@[simp] theorem boundSetApExact_exact (b : Bound K) : boundSetApExact Rnd.exact b = true := by
  cases b <;> simp [boundSetApExact]

namespace Itv

theorem mem_setApCoeff {c : Coeff K} {q : K} (h : c.Has q) : q ∈ setApCoeff R c := by
  cases c with
  | scalar b =>
    simp only [Coeff.Has] at h
    subst h
    have e : setApCoeff R (.scalar (fin q)) = setApScalar R (fin q) := rfl
    rw [e]
    unfold setApScalar
    by_cases h : boundSetApExact R (fin q) = true
    · rw [if_pos h]
      simp only [boundSetApExact, decide_eq_true_eq] at h
      simp [mem_def, boundSetAp, h]
    · rw [if_neg h]
      exact ⟨boundSetAp_ge R (le_of_eq rfl), boundSetAp_ge R (le_refl _)⟩
  | interval l u =>
    refine ⟨boundSetAp_ge R ?_, boundSetAp_ge R h.2⟩
    have := h.1
    cases l <;> simp_all

theorem setApEq_point {c : Coeff K} (h : setApEq R c = true) {q : K} (hq : q ∈ setApCoeff R c) :
    setApCoeff R c = point q := by
  cases c with
  | interval l u => simp [setApEq, Coeff.isScalar] at h
  | scalar b =>
    simp [setApEq, setApCoeffExact, Coeff.isScalar] at h
    simp only [setApCoeff, setApScalar, h, if_true] at hq ⊢
    cases b with
    | fin p =>
      simp only [boundSetApExact, decide_eq_true_eq] at h
      simp only [boundSetAp, h, mem_def, neg_fin, fin_le_fin] at hq ⊢
      have : q = p := le_antisymm hq.2 (by linarith [hq.1])
      subst this; rfl
    | pinf => simp [boundSetAp, mem_def] at hq
    | ninf => simp [boundSetAp, mem_def] at hq

theorem has_of_mem_setApCoeff {c : Coeff K} {q : K} (h : q ∈ setApCoeff Rnd.exact c) : c.Has q := by
  cases c with
  | scalar b =>
    simp only [setApCoeff, setApScalar, boundSetApExact_exact, if_true, boundSetAp_exact, mem_def] at h
    cases b with
    | fin p =>
      simp only [neg_fin, fin_le_fin] at h
      simp only [Coeff.Has]
      congr 1
      linarith [le_antisymm h.2 (by linarith [h.1])]
    | pinf => simp at h
    | ninf => simp at h
  | interval l u =>
    simp only [setApCoeff, setApInterval, boundSetAp_exact, mem_def] at h
    refine ⟨?_, h.2⟩
    have := h.1
    cases l <;> simp_all

theorem mem_of_isTop {i : Itv K} {x : K} (h : i.isTop = true) (hx : x ∈ i) (y : K) : y ∈ i := by
  obtain ⟨a, b⟩ := i
  simp only [isTop, Bool.and_eq_true] at h
  have h1 := hx.1; have h2 := hx.2
  cases a <;> cases b <;> simp_all [infty, mem_def]

theorem isZero_mem {i : Itv K} {x : K} (h : i.isZero = true) (hx : x ∈ i) : x = 0 := by
  simp only [isZero, Bool.and_eq_true, decide_eq_true_eq, sgn_zero_iff] at h
  have h1 := hx.1; have h2 := hx.2
  rw [h.1] at h1; rw [h.2] at h2
  simp at h1 h2
  exact le_antisymm h2 h1

theorem zero_mem_of_isZero {i : Itv K} (h : i.isZero = true) : (0 : K) ∈ i := by
  simp only [isZero, Bool.and_eq_true, decide_eq_true_eq, sgn_zero_iff] at h
  simp [mem_def, h.1, h.2]

theorem isPoint_iff {i : Itv K} : i.isPoint = true ↔ ∃ q, i = point q := by
  obtain ⟨a, b⟩ := i
  cases a <;> cases b <;> simp [isPoint, point]
  rename_i p q
  constructor
  · rintro rfl; simp
  · intro h; rw [h]; simp

theorem isPoint_eq {i : Itv K} (h : i.isPoint = true) {q : K} (hq : q ∈ i) : i = point q := by
  obtain ⟨p, rfl⟩ := isPoint_iff.1 h
  rw [mem_point] at hq; rw [hq]

end Itv

namespace ITerm

theorem flagOk_ofCoeff (p : ℕ × Coeff K) : (ofCoeff R p).FlagOk := by
  intro h q hq
  exact Itv.setApEq_point R h hq

end ITerm

namespace ILinexpr

/-! ### values -/

theorem tval_append {l l' : List (ITerm K)} {x : ℕ → K} {r : K} :
    TVal (l ++ l') x r ↔ ∃ a b, TVal l x a ∧ TVal l' x b ∧ r = a + b := by
  induction l generalizing r with
  | nil => simp [TVal]
  | cons t l ih =>
    simp only [List.cons_append, TVal, ih]
    constructor
    · rintro ⟨q, s, hq, ⟨a, b, ha, hb, rfl⟩, rfl⟩
      exact ⟨_, b, ⟨q, a, hq, ha, rfl⟩, hb, by ring⟩
    · rintro ⟨a, b, ⟨q, s, hq, ha, rfl⟩, hb, rfl⟩
      exact ⟨q, _, hq, ⟨s, b, ha, hb, rfl⟩, by ring⟩

theorem tval_singleton {t : ITerm K} {x : ℕ → K} {r : K} :
    TVal [t] x r ↔ ∃ q ∈ t.itv, r = q * x t.dim := by
  constructor
  · rintro ⟨q, s, hq, hs, rfl⟩
    exact ⟨q, hq, by simp only [TVal] at hs; simp [hs]⟩
  · rintro ⟨q, hq, rfl⟩
    exact ⟨q, 0, hq, rfl, by ring⟩

theorem tval_perm {l l' : List (ITerm K)} (h : l.Perm l') {x : ℕ → K} {r : K} :
    TVal l x r ↔ TVal l' x r := by
  induction h generalizing r with
  | nil => rfl
  | cons t _ ih => simp only [TVal, ih]
  | swap a b l =>
    simp only [TVal]
    constructor
    · rintro ⟨q, s, hq, ⟨q', s', hq', hs, rfl⟩, rfl⟩
      exact ⟨q', _, hq', ⟨q, s', hq, hs, rfl⟩, by ring⟩
    · rintro ⟨q, s, hq, ⟨q', s', hq', hs, rfl⟩, rfl⟩
      exact ⟨q', _, hq', ⟨q, s', hq, hs, rfl⟩, by ring⟩
  | trans _ _ ih1 ih2 => rw [ih1, ih2]

theorem tval_ofCoeff {l : List (ℕ × Coeff K)} {x : ℕ → K} {r : K} (h : Linexpr.TermsVal l x r) :
    TVal (l.map (ITerm.ofCoeff R)) x r := by
  induction l generalizing r with
  | nil => exact h
  | cons p l ih =>
    obtain ⟨q, s, hq, hs, rfl⟩ := h
    exact ⟨q, s, Itv.mem_setApCoeff R hq, ih hs, rfl⟩

theorem termsVal_of_tval {l : List (ℕ × Coeff K)} {x : ℕ → K} {r : K}
    (h : TVal (l.map (ITerm.ofCoeff Rnd.exact)) x r) : Linexpr.TermsVal l x r := by
  induction l generalizing r with
  | nil => exact h
  | cons p l ih =>
    obtain ⟨q, s, hq, hs, rfl⟩ := h
    exact ⟨q, s, Itv.has_of_mem_setApCoeff hq, ih hs, rfl⟩

theorem tval_filter_zero {l : List (ITerm K)} {x : ℕ → K} {r : K} :
    TVal (l.filter fun t => !t.itv.isZero) x r ↔ TVal l x r := by
  induction l generalizing r with
  | nil => rfl
  | cons t l ih =>
    rw [List.filter_cons]
    split_ifs with h
    · simp only [TVal, ih]
    · rw [ih]
      simp only [Bool.not_eq_true', Bool.not_eq_false] at h
      constructor
      · intro hr
        exact ⟨0, r, Itv.zero_mem_of_isZero h, hr, by ring⟩
      · rintro ⟨q, s, hq, hs, rfl⟩
        rw [Itv.isZero_mem h hq]; simpa using hs

theorem val_ofAp {e : Linexpr K} {x : ℕ → K} {v : K} (h : e.Val x v) : (ofAp R e).Val x v := by
  obtain ⟨q, r, hq, hr, rfl⟩ := h
  exact ⟨q, r, Itv.mem_setApCoeff R hq, tval_filter_zero.2 (tval_ofCoeff R hr), rfl⟩

theorem val_of_ofAp {e : Linexpr K} {x : ℕ → K} {v : K} (h : (ofAp Rnd.exact e).Val x v) :
    e.Val x v := by
  obtain ⟨q, r, hq, hr, rfl⟩ := h
  exact ⟨q, r, Itv.has_of_mem_setApCoeff hq, termsVal_of_tval (tval_filter_zero.1 hr), rfl⟩

theorem flagsOk_ofAp (e : Linexpr K) : (ofAp R e).FlagsOk := by
  intro t ht
  simp only [ofAp, List.mem_filter, List.mem_map] at ht
  obtain ⟨⟨p, _, rfl⟩, _⟩ := ht
  exact ITerm.flagOk_ofCoeff R p

theorem cstOk_ofAp (e : Linexpr K) : (ofAp R e).CstOk := fun h _ hq => Itv.setApEq_point R h hq

/-! ### evaluation -/

theorem mem_evalStep {env : ℕ → Itv K} {t : ITerm K} {acc : Itv K} {x : ℕ → K} {a q : K}
    (hf : t.FlagOk) (ha : a ∈ acc) (hq : q ∈ t.itv) (hx : x t.dim ∈ env t.dim) :
    a + q * x t.dim ∈ evalStep R env t acc := by
  unfold evalStep
  split_ifs with h1 h2
  · have := hf h1 q hq
    rw [this]
    simp only [Itv.point]
    rw [mul_comm]
    exact Itv.mem_add R ha (Itv.mem_mulBound R hx)
  · have := hf h1 q hq
    rw [this] at h2
    simp only [Itv.point, ne_eq, not_not, sgn_zero_iff, fin.injEq] at h2
    subst h2
    simpa using ha
  · rw [mul_comm]
    exact Itv.mem_add R ha (Itv.mem_mul R hx hq)

theorem mem_evalTerms {env : ℕ → Itv K} {l : List (ITerm K)} {acc : Itv K} {x : ℕ → K} {a r : K}
    (hf : ∀ t ∈ l, t.FlagOk) (ha : a ∈ acc) (hr : TVal l x r)
    (hx : ∀ t ∈ l, x t.dim ∈ env t.dim) : a + r ∈ evalTerms R env l acc := by
  induction l generalizing acc a r with
  | nil => simp only [TVal] at hr; subst hr; simpa [evalTerms] using ha
  | cons t l ih =>
    obtain ⟨q, s, hq, hs, rfl⟩ := hr
    have h1 := mem_evalStep R (hf t (by simp)) ha hq (hx t (by simp))
    unfold evalTerms
    split_ifs with h
    · exact Itv.mem_of_isTop h h1 _
    · rw [← add_assoc]
      exact ih (fun t ht => hf t (by simp [ht])) h1 hs (fun t ht => hx t (by simp [ht]))

theorem mem_eval {e : ILinexpr K} {env : ℕ → Itv K} {x : ℕ → K} {v : K} (hf : e.FlagsOk)
    (hv : e.Val x v) (hx : ∀ t ∈ e.terms, x t.dim ∈ env t.dim) : v ∈ e.eval R env := by
  obtain ⟨q, r, hq, hr, rfl⟩ := hv
  exact mem_evalTerms R hf hq hr hx

theorem mem_evalAp {e : Linexpr K} {env : ℕ → Itv K} {x : ℕ → K} {v : K}
    (hv : e.Val x v) (hx : ∀ p ∈ e.terms, x p.1 ∈ env p.1) : v ∈ evalAp R e env := by
  obtain ⟨q, r, hq, hr, rfl⟩ := hv
  refine mem_evalTerms R ?_ (Itv.mem_setApCoeff R hq) (tval_ofCoeff R hr) ?_
  · intro t ht
    simp only [List.mem_map] at ht
    obtain ⟨p, _, rfl⟩ := ht
    exact ITerm.flagOk_ofCoeff R p
  · intro t ht
    simp only [List.mem_map] at ht
    obtain ⟨p, hp, rfl⟩ := ht
    exact hx p hp

/-! ### arithmetic -/

theorem val_neg {e : ILinexpr K} {x : ℕ → K} {v : K} (h : e.Val x v) : (neg e).Val x (-v) := by
  obtain ⟨q, r, hq, hr, rfl⟩ := h
  refine ⟨-q, -r, Itv.mem_neg hq, ?_, by ring⟩
  simp only [neg]
  generalize e.terms = l at *
  induction l generalizing r with
  | nil => simp only [TVal] at hr; subst hr; simp [TVal]
  | cons t l ih =>
    obtain ⟨a, s, ha, hs, rfl⟩ := hr
    exact ⟨-a, -s, Itv.mem_neg ha, ih _ hs, by simp; ring⟩

theorem flagOk_neg {t : ITerm K} (h : t.FlagOk) : ITerm.FlagOk ⟨t.dim, t.eq, Itv.neg t.itv⟩ := by
  intro he q hq
  have := h he (-q) (Itv.mem_neg_iff.1 hq)
  show Itv.neg t.itv = _
  rw [this]; simp [Itv.neg, Itv.point]

theorem flagsOk_neg {e : ILinexpr K} (h : e.FlagsOk) : (neg e).FlagsOk := by
  intro t ht
  simp only [neg, List.mem_map] at ht
  obtain ⟨s, hs, rfl⟩ := ht
  exact flagOk_neg (h s hs)

theorem cstOk_neg {e : ILinexpr K} (h : e.CstOk) : (neg e).CstOk := by
  intro he q hq
  have := h he (-q) (Itv.mem_neg_iff.1 hq)
  show Itv.neg e.cst = _
  rw [this]; simp [Itv.neg, Itv.point]

theorem val_scale {e : ILinexpr K} {c : Itv K} {x : ℕ → K} {v w : K} (h : e.Val x v) (hw : w ∈ c) :
    (scale R e c).Val x (v * w) := by
  obtain ⟨q, r, hq, hr, rfl⟩ := h
  unfold scale
  split_ifs with h1 h2
  · have := Itv.isZero_mem h1 hw
    subst this
    exact ⟨0, 0, hw, rfl, by ring⟩
  · exact ⟨(q + r) * w, 0, Itv.mem_of_isTop h2 (Itv.mem_mul R hq hw) _, rfl, by ring⟩
  · refine ⟨q * w, r * w, Itv.mem_mul R hq hw, ?_, by ring⟩
    simp only
    generalize e.terms = l at *
    induction l generalizing r with
    | nil => simp only [TVal] at hr; subst hr; simp [TVal]
    | cons t l ih =>
      obtain ⟨a, s, ha, hs, rfl⟩ := hr
      exact ⟨a * w, s * w, Itv.mem_mul R ha hw, ih _ hs, by simp; ring⟩

theorem flagsOk_scale (e : ILinexpr K) (c : Itv K) : (scale R e c).FlagsOk := by
  unfold scale
  split_ifs
  · intro t ht; simp at ht
  · intro t ht; simp at ht
  · intro t ht
    simp only [List.mem_map] at ht
    obtain ⟨s, _, rfl⟩ := ht
    intro he q hq
    simp only [Bool.and_eq_true] at he
    exact Itv.isPoint_eq he.2 hq

theorem val_div {e : ILinexpr K} {c : Itv K} {x : ℕ → K} {v w : K} (h : e.Val x v) (hw : w ∈ c)
    (hw0 : w ≠ 0) : (div R e c).Val x (v / w) := by
  obtain ⟨q, r, hq, hr, rfl⟩ := h
  refine ⟨q / w, r / w, Itv.mem_div R hq hw hw0, ?_, by ring⟩
  simp only [div]
  generalize e.terms = l at *
  induction l generalizing r with
  | nil => simp only [TVal] at hr; subst hr; simp [TVal]
  | cons t l ih =>
    obtain ⟨a, s, ha, hs, rfl⟩ := hr
    exact ⟨a / w, s / w, Itv.mem_div R ha hw hw0, ih _ hs, by simp; ring⟩

theorem flagsOk_div (e : ILinexpr K) (c : Itv K) : (div R e c).FlagsOk := by
  intro t ht
  simp only [div, List.mem_map] at ht
  obtain ⟨s, _, rfl⟩ := ht
  intro he q hq
  simp only [Bool.and_eq_true] at he
  exact Itv.isPoint_eq he.2 hq

theorem tval_merge (n : ℕ) : ∀ {a b : List (ITerm K)} {x : ℕ → K} {r s : K},
    a.length + b.length ≤ n → TVal a x r → TVal b x s → TVal (merge R (n + 1) a b) x (r + s) := by
  induction n with
  | zero =>
    intro a b x r s hn hr hs
    have ha : a = [] := List.length_eq_zero_iff.1 (by omega)
    have hb : b = [] := List.length_eq_zero_iff.1 (by omega)
    subst ha; subst hb
    simp only [TVal] at hr hs
    subst hr; subst hs
    simp [merge, TVal]
  | succ n ih =>
    intro a b x r s hn hr hs
    cases a with
    | nil =>
      cases b with
      | nil =>
        simp only [TVal] at hr hs
        subst hr; subst hs
        simp [merge, TVal]
      | cons t l =>
        obtain ⟨q, s', hq, hs', rfl⟩ := hs
        rw [merge]
        refine ⟨q, r + s', hq, ih (by simp at hn ⊢; omega) hr hs', by ring⟩
    | cons u k =>
      cases b with
      | nil =>
        obtain ⟨q, s', hq, hs', rfl⟩ := hr
        rw [merge]
        refine ⟨q, s' + s, hq, ih (by simp at hn ⊢; omega) hs' hs, by ring⟩
      | cons t l =>
        rw [merge]
        split_ifs with h1 h2 h3
        · obtain ⟨q, s', hq, hs', rfl⟩ := hs
          refine ⟨q, r + s', hq, ih (by simp at hn ⊢; omega) hr hs', by ring⟩
        · obtain ⟨q, s', hq, hs', rfl⟩ := hr
          refine ⟨q, s' + s, hq, ih (by simp at hn ⊢; omega) hs' hs, by ring⟩
        · obtain ⟨q, s', hq, hs', rfl⟩ := hr
          obtain ⟨q', s'', hq', hs'', rfl⟩ := hs
          have hd : u.dim = t.dim := by omega
          have h0 := Itv.isZero_mem h3 (Itv.mem_add R hq hq')
          have := ih (a := k) (b := l) (by simp at hn ⊢; omega) hs' hs''
          have e : q * x u.dim + s' + (q' * x t.dim + s'') = s' + s'' := by
            rw [hd]; have : q' = -q := by linarith
            subst this; ring
          rw [e]; exact this
        · obtain ⟨q, s', hq, hs', rfl⟩ := hr
          obtain ⟨q', s'', hq', hs'', rfl⟩ := hs
          have hd : u.dim = t.dim := by omega
          refine ⟨q + q', s' + s'', Itv.mem_add R hq hq', ih (by simp at hn ⊢; omega) hs' hs'', ?_⟩
          simp only [addTerm]; rw [hd]; ring

theorem merge_mem (n : ℕ) : ∀ {a b : List (ITerm K)} {t : ITerm K}, t ∈ merge R n a b →
    t ∈ a ∨ t ∈ b ∨ ∃ u ∈ a, ∃ w ∈ b, t = addTerm R u w := by
  induction n with
  | zero => intro a b t h; simp [merge] at h
  | succ n ih =>
    intro a b t h
    cases a with
    | nil =>
      cases b with
      | nil => simp [merge] at h
      | cons w l =>
        rw [merge] at h
        rcases List.mem_cons.1 h with rfl | h
        · simp
        · rcases ih h with h | h | ⟨u, hu, w', hw', rfl⟩
          · exact Or.inl h
          · exact Or.inr (Or.inl (by simp [h]))
          · simp at hu
    | cons u k =>
      cases b with
      | nil =>
        rw [merge] at h
        rcases List.mem_cons.1 h with rfl | h
        · simp
        · rcases ih h with h | h | ⟨u, hu, w', hw', rfl⟩
          · exact Or.inl (by simp [h])
          · simp at h
          · simp at hw'
      | cons w l =>
        rw [merge] at h
        have key : ∀ {a' b'}, a' ⊆ u :: k → b' ⊆ w :: l → t ∈ merge R n a' b' →
            t ∈ u :: k ∨ t ∈ w :: l ∨ ∃ u' ∈ u :: k, ∃ w' ∈ w :: l, t = addTerm R u' w' := by
          intro a' b' ha hb h
          rcases ih h with h | h | ⟨u', hu, w', hw', rfl⟩
          · exact Or.inl (ha h)
          · exact Or.inr (Or.inl (hb h))
          · exact Or.inr (Or.inr ⟨u', ha hu, w', hb hw', rfl⟩)
        split_ifs at h
        · rcases List.mem_cons.1 h with rfl | h
          · simp
          · exact key (by simp) (by simp) h
        · rcases List.mem_cons.1 h with rfl | h
          · simp
          · exact key (by simp) (by simp) h
        · exact key (by simp) (by simp) h
        · rcases List.mem_cons.1 h with rfl | h
          · exact Or.inr (Or.inr ⟨u, by simp, w, by simp, rfl⟩)
          · exact key (by simp) (by simp) h

theorem val_add {a b : ILinexpr K} {x : ℕ → K} {v w : K} (ha : a.Val x v) (hb : b.Val x w) :
    (add R a b).Val x (v + w) := by
  obtain ⟨q, r, hq, hr, rfl⟩ := ha
  obtain ⟨q', r', hq', hr', rfl⟩ := hb
  have h1 := Itv.mem_add R hq hq'
  unfold add
  simp only
  split_ifs with h
  · exact ⟨q + r + (q' + r'), 0, Itv.mem_of_isTop h h1 _, rfl, by ring⟩
  · exact ⟨_, _, h1, tval_merge R _ (le_refl _) hr hr', by ring⟩

theorem flagsOk_add {a b : ILinexpr K} (ha : a.FlagsOk) (hb : b.FlagsOk) : (add R a b).FlagsOk := by
  unfold add
  simp only
  split_ifs
  · intro t ht; simp at ht
  · intro t ht
    rcases merge_mem R _ ht with h | h | ⟨u, _, w, _, rfl⟩
    · exact ha t h
    · exact hb t h
    · intro he q hq
      simp only [addTerm, Bool.and_eq_true] at he
      exact Itv.isPoint_eq he.2 hq

theorem cstOk_add (a b : ILinexpr K) : (add R a b).CstOk := by
  unfold add
  simp only
  split_ifs <;>
  · intro he q hq
    simp only [Bool.and_eq_true] at he
    exact Itv.isPoint_eq he.2 hq

theorem val_sub {a b : ILinexpr K} {x : ℕ → K} {v w : K} (ha : a.Val x v) (hb : b.Val x w) :
    (sub R a b).Val x (v - w) := by
  rw [sub_eq_add_neg]; exact val_add R ha (val_neg hb)

theorem flagsOk_sub {a b : ILinexpr K} (ha : a.FlagsOk) (hb : b.FlagsOk) : (sub R a b).FlagsOk :=
  flagsOk_add R ha (flagsOk_neg hb)

end ILinexpr

namespace ILincons
open ILinexpr

theorem holds_ofAp {c : Lincons K} {x : ℕ → K} (h : c.Holds x) : (ofAp R c).Holds x := by
  obtain ⟨v, hv, hr⟩ := h
  exact ⟨v, val_ofAp R hv, hr⟩

/-! ### constant constraints -/

theorem val_nil {e : ILinexpr K} (h : e.terms.isEmpty = true) {x : ℕ → K} {v : K} :
    e.Val x v ↔ v ∈ e.cst := by
  rw [List.isEmpty_iff] at h
  simp only [Val, h, TVal]
  constructor
  · rintro ⟨q, r, hq, rfl, rfl⟩; simpa using hq
  · intro hv; exact ⟨v, 0, hv, rfl, by ring⟩

theorem evalCst_t {c : ILincons K} (hc : c.expr.CstOk) (h : evalCst c = some .t) {v : K}
    (hv : v ∈ c.expr.cst) : Lincons.Rel c.typ v := by
  obtain ⟨typ, cst, eq, terms⟩ := c
  simp only at hv ⊢
  have hb : cst.isBottom = false := Itv.not_isBottom hv
  have h1 := hv.1; have h2 := hv.2
  simp only [evalCst, hb, Bool.false_eq_true, if_false] at h
  cases typ with
  | eq =>
    simp only at h
    split_ifs at h with he hs hs <;> try exact absurd h (by decide)
    have hp := hc he v hv
    simp only at hp
    rw [hp] at hs
    simpa [Itv.point, sgn_zero_iff, Lincons.Rel] using hs
  | supeq =>
    simp only at h
    split_ifs at h with hs <;> try exact absurd h (by decide)
    rw [sgn_le_zero_iff] at hs
    exact Itv.nonneg_of_inf hv hs
  | sup =>
    simp only at h
    split_ifs at h with hs <;> try exact absurd h (by decide)
    rw [sgn_neg_iff] at hs
    exact Itv.pos_of_inf hv hs
  | diseq =>
    simp only at h
    split_ifs at h with hs <;> try exact absurd h (by decide)
    rw [sgn_neg_iff, sgn_neg_iff] at hs
    rcases hs with hs | hs
    · exact (Itv.pos_of_inf hv hs).ne'
    · exact (Itv.neg_of_sup hv hs).ne
  | eqmod m =>
    simp only at h
    split_ifs at h with he hs <;> try exact absurd h (by decide)
    have hp := hc he v hv
    simp only at hp
    rw [hp] at hs
    have : v = 0 := by simpa [Itv.point, sgn_zero_iff] using hs
    exact ⟨0, by simp [this]⟩

theorem evalCst_f {c : ILincons K} (hc : c.expr.CstOk) (h : evalCst c = some .f) {v : K}
    (hv : v ∈ c.expr.cst) : ¬ Lincons.Rel c.typ v := by
  obtain ⟨typ, cst, eq, terms⟩ := c
  simp only at hv ⊢
  have hb : cst.isBottom = false := Itv.not_isBottom hv
  have h1 := hv.1; have h2 := hv.2
  simp only [evalCst, hb, Bool.false_eq_true, if_false] at h
  cases typ with
  | eq =>
    simp only at h
    split_ifs at h with he hs hs <;> try exact absurd h (by decide)
    · have hp := hc he v hv
      simp only at hp
      rw [hp] at hs
      simpa [Itv.point, sgn_zero_iff, Lincons.Rel] using hs
    · rw [sgn_neg_iff, sgn_neg_iff] at hs
      rcases hs with hs | hs
      · exact (Itv.neg_of_sup hv hs).ne
      · exact (Itv.pos_of_inf hv hs).ne'
  | supeq =>
    simp only at h
    split_ifs at h with hs0 hs <;> try exact absurd h (by decide)
    rw [sgn_neg_iff] at hs
    simp only [Lincons.Rel, not_le]
    exact Itv.neg_of_sup hv hs
  | sup =>
    simp only at h
    split_ifs at h with hs0 hs <;> try exact absurd h (by decide)
    rw [sgn_le_zero_iff] at hs
    simp only [Lincons.Rel, not_lt]
    exact Itv.nonpos_of_sup hv hs
  | diseq =>
    simp only at h
    split_ifs at h <;> try exact absurd h (by decide)
  | eqmod m =>
    simp only at h
    split_ifs at h <;> try exact absurd h (by decide)

theorem evalCst'_f {c : ILincons K} (hc : c.expr.CstOk) (h : evalCst' c = .f) {v : K}
    (hv : v ∈ c.expr.cst) : ¬ Lincons.Rel c.typ v := by
  refine evalCst_f hc ?_ hv
  unfold evalCst' at h
  cases h' : evalCst c with
  | none => simp [h'] at h
  | some b => simp [h'] at h; rw [h]

theorem evalCst'_t {c : ILincons K} (hc : c.expr.CstOk) (h : evalCst' c = .t) {v : K}
    (hv : v ∈ c.expr.cst) : Lincons.Rel c.typ v := by
  refine evalCst_t hc ?_ hv
  unfold evalCst' at h
  cases h' : evalCst c with
  | none => simp [h'] at h
  | some b => simp [h'] at h; rw [h]

theorem evalCst'_f_weak {c : ILincons K} (hc : c.typ = .eq → c.expr.CstOk) (h : evalCst' c = .f)
    {v : K} (hv : v ∈ c.expr.cst) : ¬ Lincons.Rel c.typ v := by
  by_cases he : c.typ = .eq
  · exact evalCst'_f (hc he) h hv
  · have := evalCst'_f (c := ⟨c.typ, ⟨c.expr.cst, false, c.expr.terms⟩⟩) (by intro h; simp at h) ?_ hv
    · exact this
    · obtain ⟨typ, cst, eq, terms⟩ := c
      have hb : cst.isBottom = false := Itv.not_isBottom hv
      cases typ with
      | eq => exact absurd rfl he
      | eqmod m =>
        exfalso
        simp only [evalCst', evalCst, hb, Bool.false_eq_true, if_false] at h
        revert h
        split_ifs <;> simp
      | supeq => exact h
      | sup => exact h
      | diseq => exact h

theorem not_holds_of_evalCst'_f' {c : ILincons K} (hc : c.typ = .eq → c.expr.CstOk)
    (he : c.expr.terms.isEmpty = true) (h : evalCst' c = .f) (x : ℕ → K) : ¬ c.Holds x := by
  rintro ⟨v, hv, hr⟩
  exact evalCst'_f_weak hc h ((val_nil he).1 hv) hr

theorem not_holds_of_evalCst'_f {c : ILincons K} (hc : c.expr.CstOk)
    (he : c.expr.terms.isEmpty = true) (h : evalCst' c = .f) (x : ℕ → K) : ¬ c.Holds x := by
  rintro ⟨v, hv, hr⟩
  exact evalCst'_f hc h ((val_nil he).1 hv) hr

theorem not_holds_setBool (x : ℕ → K) : ¬ (setBool false : ILincons K).Holds x := by
  rintro ⟨v, hv, hr⟩
  have := (val_nil (by simp [setBool])).1 hv
  simp only [setBool, Itv.mem_point] at this
  simp [setBool, Lincons.Rel, this] at hr

/-! ### reduction of an array, for a meet -/

theorem swapRemove_perm {A : Type*} (a : A) (l : List A) : (swapRemove (a :: l)).Perm l := by
  cases h : l.getLast? with
  | none => rw [List.getLast?_eq_none_iff] at h; simp [h, swapRemove]
  | some z =>
    simp only [swapRemove, h]
    have : l = l.dropLast ++ [z] := by
      obtain ⟨h1, h2⟩ := List.getLast?_eq_some_iff.1 h
      rw [h2]; simp
    calc (z :: l.dropLast).Perm (l.dropLast ++ [z]) := (List.perm_append_singleton z l.dropLast).symm
      _ = l := this.symm

theorem swapRemove_mem {A : Type*} {a c : A} {l : List A} (h : c ∈ swapRemove (a :: l)) : c ∈ l :=
  (swapRemove_perm a l).mem_iff.1 h

theorem swapRemove_length {A : Type*} (a : A) (l : List A) : (swapRemove (a :: l)).length = l.length :=
  (swapRemove_perm a l).length_eq

/-- the constraints kept by the reduction are among the given ones -/
theorem reduceGo_sub (meet : Bool) (n : ℕ) : ∀ {done todo r : List (ILincons K)},
    reduceGo meet n done todo = some r → ∀ c ∈ r, c ∈ done ∨ c ∈ todo := by
  induction n with
  | zero => intro done todo r h c hc; simp only [reduceGo, Option.some.injEq] at h; subst h; simp [hc]
  | succ n ih =>
    intro done todo r h c hc
    cases todo with
    | nil => simp only [reduceGo, Option.some.injEq] at h; subst h; simp [hc]
    | cons a l =>
      rw [reduceGo] at h
      split_ifs at h
      · rcases ih h c hc with h | h
        · exact Or.inl h
        · exact Or.inr (by simp [swapRemove_mem h])
      · rcases ih h c hc with h | h
        · exact Or.inl h
        · exact Or.inr (by simp [swapRemove_mem h])
      · rcases ih h c hc with h | h
        · rcases List.mem_append.1 h with h | h
          · exact Or.inl h
          · exact Or.inr (by simp at h; simp [h])
        · exact Or.inr (by simp [h])

/-- the reduction for a meet fails only on a constraint without solution -/
theorem reduceGo_none (n : ℕ) : ∀ {done todo : List (ILincons K)},
    reduceGo true n done todo = none →
    (∀ c ∈ todo, c.expr.terms.isEmpty = true → c.typ = .eq → c.expr.CstOk) →
    ∃ c ∈ todo, ∀ x, ¬ c.Holds x := by
  induction n with
  | zero => intro done todo h; simp [reduceGo] at h
  | succ n ih =>
    intro done todo h hc
    cases todo with
    | nil => simp [reduceGo] at h
    | cons a l =>
      rw [reduceGo] at h
      split_ifs at h with h1 h2 h3
      · obtain ⟨c, hc', hn⟩ := ih h (fun c h => hc c (by simp [swapRemove_mem h]))
        exact ⟨c, by simp [swapRemove_mem hc'], hn⟩
      · exact ⟨a, by simp, not_holds_of_evalCst'_f' (hc a (by simp) h2.1) h2.1 h2.2⟩
      · obtain ⟨c, hc', hn⟩ := ih h (fun c h => hc c (by simp [swapRemove_mem h]))
        exact ⟨c, by simp [swapRemove_mem hc'], hn⟩
      · simp_all
      · obtain ⟨c, hc', hn⟩ := ih h (fun c h => hc c (by simp [h]))
        exact ⟨c, by simp [hc'], hn⟩

theorem arrayReduce_holds' {l : List (ILincons K)}
    (hc : ∀ c ∈ l, c.expr.terms.isEmpty = true → c.typ = .eq → c.expr.CstOk) {x : ℕ → K}
    (hx : ∀ c ∈ l, c.Holds x) :
    (arrayReduce true l).2 ≠ .f ∧ ∀ c ∈ (arrayReduce true l).1, c ∈ l := by
  unfold arrayReduce
  cases h : reduceGo true (l.length + 1) [] l with
  | none =>
    obtain ⟨c, hc', hn⟩ := reduceGo_none _ h hc
    exact absurd (hx c hc') (hn x)
  | some r =>
    have hs := reduceGo_sub true _ h
    match r with
    | [] => simp
    | [c] =>
      have hcl : c ∈ l := by simpa using hs c (by simp)
      simp only [List.mem_singleton, forall_eq, hcl, and_true]
      split_ifs with he
      · intro hf
        exact not_holds_of_evalCst'_f' (hc c hcl he) he hf x (hx c hcl)
      · simp
    | a :: b :: r =>
      simp only [ne_eq, reduceCtorEq, not_false_eq_true, true_and]
      intro c hc
      simpa using hs c hc

theorem arrayReduce_holds {l : List (ILincons K)}
    (hc : ∀ c ∈ l, c.expr.terms.isEmpty = true → c.expr.CstOk) {x : ℕ → K}
    (hx : ∀ c ∈ l, c.Holds x) :
    (arrayReduce true l).2 ≠ .f ∧ ∀ c ∈ (arrayReduce true l).1, c ∈ l :=
  arrayReduce_holds' (fun c hl he _ => hc c hl he) hx

end ILincons
end Apron
