import Verif.Oct.QueryLemmas

/-! # Helper lemmas: expressions of octagonal shape -/

set_option autoImplicit false
set_option linter.unusedSectionVars false
set_option linter.ambiguousOpen false

namespace Apron

/-- Specification: at most two terms, with coefficients 1 or -1; any constant -/
def Linexpr.OctShape {K : Type*} [LinearOrder K] [Field K] [IsStrictOrderedRing K] (e : Linexpr K) : Prop :=
  e.terms.length ≤ 2 ∧ ∀ t ∈ e.terms, t.2 = .scalar (.fin 1) ∨ t.2 = .scalar (.fin (-1))

/-- Specification: a single variable with coefficient 1 or -1, or none -/
def Linexpr.UnitShape {K : Type*} [LinearOrder K] [Field K] [IsStrictOrderedRing K] (e : Linexpr K) : Prop :=
  e.terms.length ≤ 1 ∧ ∀ t ∈ e.terms, t.2 = .scalar (.fin 1) ∨ t.2 = .scalar (.fin (-1))

namespace Oct
open Bound Finset
variable {K : Type*} [LinearOrder K] [Field K] [IsStrictOrderedRing K] [FloorRing K] (R : Rnd K)

/-- the type after one more unit term -/
def nextTy : UType → UType
  | .empty => .empty
  | .zero => .unary
  | .unary => .binary
  | .binary => .other
  | .other => .other

theorem classVar_unit {intdim d : ℕ} {dst : ℕ → Bound K} {k : ℤ} (hu : UnitAt dst d k) (u : UExpr) :
    (classVar intdim d u dst).type = nextTy u.type := by
  have hone : (1 : K) ≠ 0 := one_ne_zero
  obtain ⟨hk, h2, h3⟩ := hu
  have hnz : ¬ (sgn (dst (2 * d + 2)) = 0 ∧ sgn (dst (2 * d + 3)) = 0) := by
    rw [sgn_zero_iff, h2]
    rintro ⟨h, -⟩
    injection h with h
    rcases hk with rfl | rfl <;> simp at h
  unfold classVar
  have ht : (if intdim ≤ d then { u with isInt := false } else u).type = u.type := by split_ifs <;> rfl
  generalize (if intdim ≤ d then { u with isInt := false } else u) = v at ht ⊢
  simp only
  rw [← ht]
  cases hv : v.type with
  | empty => rw [if_pos rfl, hv]; rfl
  | other => rw [if_neg (by simp), if_neg hnz, if_pos (by simp)]; rfl
  | binary => rw [if_neg (by simp), if_neg hnz, if_pos (by simp)]; rfl
  | zero =>
    rw [if_neg (by simp), if_neg hnz, if_neg (by simp)]
    rcases hk with rfl | rfl
    · rw [if_pos (by rw [cmp_eq_zero, cmp_eq_zero, h2, h3]; simp)]
      unfold UExpr.push; rw [if_pos hv]; rfl
    · rw [if_neg (by rw [cmp_eq_zero, cmp_eq_zero, h2, h3]; simp; intro h; linarith [zero_lt_one (α := K)]),
        if_pos (by rw [cmp_eq_zero, cmp_eq_zero, h2, h3]; simp)]
      unfold UExpr.push; rw [if_pos hv]; rfl
  | unary =>
    rw [if_neg (by simp), if_neg hnz, if_neg (by simp)]
    rcases hk with rfl | rfl
    · rw [if_pos (by rw [cmp_eq_zero, cmp_eq_zero, h2, h3]; simp)]
      unfold UExpr.push; rw [if_neg (by rw [hv]; simp)]; rfl
    · rw [if_neg (by rw [cmp_eq_zero, cmp_eq_zero, h2, h3]; simp; intro h; linarith [zero_lt_one (α := K)]),
        if_pos (by rw [cmp_eq_zero, cmp_eq_zero, h2, h3]; simp)]
      unfold UExpr.push; rw [if_neg (by rw [hv]; simp)]; rfl

/-- the type after a unit term -/
theorem termStep_unit {intdim : ℕ} (h1 : R.up 1 = fin 1) (h2 : R.up (-1) = fin (-1))
    (s : UExpr × (ℕ → Bound K)) (d : ℕ) {c : Coeff K}
    (hc : c = .scalar (fin 1) ∨ c = .scalar (fin (-1))) :
    (termStep R intdim s (d, c)).1.type = nextTy s.1.type := by
  have hu : ∃ k : ℤ, UnitAt (coeffStep R c (2 * d + 2) s.1 s.2).2 d k := by
    unfold UnitAt coeffStep; simp only
    rcases hc with rfl | rfl
    · refine ⟨1, Or.inl rfl, ?_, ?_⟩
      · rw [Function.update_of_ne (by omega), Function.update_self]
        simp [Coeff.reduce, Coeff.inf, OctT.ofScalar, Bound.neg, h2]
      · rw [Function.update_self]
        simp [Coeff.reduce, Coeff.sup, OctT.ofScalar, h1]
    · refine ⟨-1, Or.inr rfl, ?_, ?_⟩
      · rw [Function.update_of_ne (by omega), Function.update_self]
        simp [Coeff.reduce, Coeff.inf, OctT.ofScalar, Bound.neg, h1]
      · rw [Function.update_self]
        simp [Coeff.reduce, Coeff.sup, OctT.ofScalar, h2]
  obtain ⟨k, hu⟩ := hu
  have ht : (coeffStep R c (2 * d + 2) s.1 s.2).1.type = s.1.type := by
    unfold coeffStep
    rcases hc with rfl | rfl <;> simp [Coeff.reduce, Coeff.isScalar] <;> split_ifs <;> rfl
  unfold termStep
  simp only
  rw [classVar_unit hu, ht]

theorem cst_type (e : Linexpr K) :
    (coeffStep R e.cst 0 ⟨.zero, 0, 0, 0, 0, true⟩ (fun _ => fin 0)).1.type = .zero ∨
    (coeffStep R e.cst 0 ⟨.zero, 0, 0, 0, 0, true⟩ (fun _ => fin 0)).1.type = .empty := by
  rcases coeffStep_type R e.cst 0 ⟨.zero, 0, 0, 0, 0, true⟩ (fun _ => fin 0) with h | h
  · exact Or.inr h
  · exact Or.inl h

/-- classification of the expressions of octagonal shape -/
theorem uexpr_shape {e : Linexpr K} (h : e.OctShape) (h1 : R.up 1 = fin 1) (h2 : R.up (-1) = fin (-1))
    (intdim : ℕ) : (uexprOf R e intdim).1.type ≠ .other := by
  obtain ⟨hl, ht⟩ := h
  unfold uexprOf
  rcases hc : e.terms with _ | ⟨⟨d, c⟩, _ | ⟨⟨d', c'⟩, _ | ⟨t, l⟩⟩⟩
  · rcases cst_type R e with h | h <;> simp [h]
  · simp only [List.foldl_cons, List.foldl_nil]
    rw [termStep_unit R h1 h2 _ _ (ht (d, c) (by simp [hc]))]
    rcases cst_type R e with h | h <;> simp [h, nextTy]
  · simp only [List.foldl_cons, List.foldl_nil]
    rw [termStep_unit R h1 h2 _ _ (ht (d', c') (by simp [hc])),
      termStep_unit R h1 h2 _ _ (ht (d, c) (by simp [hc]))]
    rcases cst_type R e with h | h <;> simp [h, nextTy]
  · rw [hc] at hl; simp at hl

theorem uexpr_unit {e : Linexpr K} (h : e.UnitShape) (h1 : R.up 1 = fin 1) (h2 : R.up (-1) = fin (-1))
    (intdim : ℕ) : (uexprOf R e intdim).1.type ≠ .other ∧ (uexprOf R e intdim).1.type ≠ .binary := by
  obtain ⟨hl, ht⟩ := h
  unfold uexprOf
  rcases hc : e.terms with _ | ⟨⟨d, c⟩, _ | ⟨t, l⟩⟩
  · rcases cst_type R e with h | h <;> simp [h]
  · simp only [List.foldl_cons, List.foldl_nil]
    rw [termStep_unit R h1 h2 _ _ (ht (d, c) (by simp [hc]))]
    rcases cst_type R e with h | h <;> simp [h, nextTy]
  · rw [hc] at hl; simp at hl

/-- constraints of octagonal shape keep the precision flag -/
theorem addOne_flag {intdim dim : ℕ} {s s' : AddSt K} {c : Lincons K} (hc : c.expr.OctShape)
    (ht : c.typ = .eq ∨ c.typ = .supeq) (h1 : R.up 1 = fin 1) (h2 : R.up (-1) = fin (-1))
    (h : addOne R intdim dim s c = some s') : s'.exact = s.exact := by
  have key : ∀ typ : ConsTyp K, isSupTyp typ = false →
      addCore R dim s (uexprOf R c.expr intdim).1 (uexprOf R c.expr intdim).2 typ = some s' →
      s'.exact = s.exact := by
    intro typ hs h
    have ho := uexpr_shape R hc h1 h2 intdim
    unfold addCore at h
    cases hty : (uexprOf R c.expr intdim).1.type with
    | other => exact absurd hty ho
    | empty => rw [hty] at h; simp only [Option.some.injEq] at h; rw [h]
    | zero =>
      rw [hty] at h
      simp only [Option.ite_none_right_eq_some, Option.some.injEq] at h
      rw [h.2]
    | unary =>
      rw [hty] at h
      simp only at h
      split at h
      · simp at h
      · simp only [Option.some.injEq] at h; rw [← h, hs]; simp
    | binary =>
      rw [hty] at h
      simp only at h
      split at h
      · simp at h
      · simp only [Option.some.injEq] at h; rw [← h, hs]; simp
  rw [addOne_eq] at h
  rcases ht with e | e
  · rw [e] at h; exact key _ rfl h
  · rw [e] at h; exact key _ rfl h

theorem addLoop_flag {intdim dim : ℕ} (h1 : R.up 1 = fin 1) (h2 : R.up (-1) = fin (-1)) (l : List (Lincons K)) :
    ∀ {s s' : AddSt K}, (∀ c ∈ l, c.expr.OctShape ∧ (c.typ = .eq ∨ c.typ = .supeq)) →
      addLoop R intdim dim l s = some s' → s'.exact = s.exact := by
  induction l with
  | nil => intro s s' _ h; simp only [addLoop, Option.some.injEq] at h; rw [h]
  | cons c l ih =>
    intro s s' hl h
    unfold addLoop at h
    cases ho : addOne R intdim dim s c with
    | none => rw [ho] at h; simp at h
    | some s1 =>
      rw [ho] at h
      rw [ih (fun c hc => hl c (by simp [hc])) h]
      exact addOne_flag R (hl c (by simp)).1 (hl c (by simp)).2 h1 h2 ho

theorem meetLinconsExact_shape (h1 : R.up 1 = fin 1) (h2 : R.up (-1) = fin (-1)) (algo : ℤ) (a : OctT K)
    {ar : List (Lincons K)} (hl : ∀ c ∈ ar, c.expr.OctShape ∧ (c.typ = .eq ∨ c.typ = .supeq)) :
    OctT.meetLinconsExact R algo a ar = true := by
  unfold OctT.meetLinconsExact
  cases a.best with
  | none => rfl
  | some m =>
    simp only
    cases h : addLincons R a.intdim a.dim m ar (a.closed.isSome && decide (0 ≤ algo)) with
    | none => rfl
    | some r =>
      unfold addLincons at h
      split at h
      · simp at h
      · split at h
        · simp at h
        · rename_i s hs _ b hb
          have := addLoop_flag R h1 h2 ar hl hs
          simp only [Option.some.injEq] at h
          rw [← h]; exact this

end Oct
end Apron
