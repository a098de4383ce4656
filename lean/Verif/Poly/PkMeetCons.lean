import Verif.Poly.PkRows
import Verif.Poly.PkMatrix
import Verif.Poly.PkLeq
import Verif.Itv.PipeLemmas

/-!
# Polyhedra: the rows written for the constraints of a meet
-/

set_option autoImplicit false
set_option linter.unusedSectionVars false
set_option linter.ambiguousOpen false

namespace Apron.Poly

open Apron Bound ILincons ILinexpr

variable {n : ℕ}

/-- the coordinates of the integer dimensions are integers -/
def IntPt (intdim : ℕ) (x : Fin n → ℚ) : Prop := ∀ d : Fin n, (d : ℕ) < intdim → ∃ m : ℤ, x d = m

theorem IntPt.ext {intdim : ℕ} {x : Fin n → ℚ} (h : IntPt intdim x) : ∀ d, d < intdim → ∃ m : ℤ, ext x d = m := by
  intro d hd
  by_cases h' : d < n
  · obtain ⟨m, hm⟩ := h ⟨d, h'⟩ hd
    exact ⟨m, by rw [← hm]; exact ext_lt x ⟨d, h'⟩⟩
  · exact ⟨0, by simp [Poly.ext, h']⟩

theorem tval_points {ts : List (ITerm ℚ)} (h : ∀ t ∈ ts, ∃ a, t.itv = Itv.point a) {y : ℕ → ℚ} {r : ℚ} :
    TVal ts y r ↔ r = termSum ts y := by
  induction ts generalizing r with
  | nil => simp [TVal, termSum]
  | cons t ts ih =>
    obtain ⟨a, ha⟩ := h t (by simp)
    have ih' := fun r => ih (fun t ht => h t (by simp [ht])) (r := r)
    simp only [TVal, ih', termSum, List.map_cons, List.sum_cons, ha, Itv.mem_point]
    constructor
    · rintro ⟨q, s, rfl, rfl, rfl⟩; rfl
    · intro e; exact ⟨a, _, rfl, rfl, e⟩

theorem LinOk.points {x : ℕ → ℚ} {c : ILincons ℚ} (h : LinOk n x c) : ∀ t ∈ c.expr.terms, ∃ a, t.itv = Itv.point a := by
  obtain ⟨v, ⟨q, r, _, hr, _⟩, _⟩ := h.holds
  intro t ht
  obtain ⟨a, ha⟩ := tval_nonempty hr t ht
  exact ⟨a, h.flags t ht (h.quasi t ht) a ha⟩

theorem setLincons_sound {intdim : ℕ} {x : Fin n → ℚ} (hx : IntPt intdim x) {c : ILincons ℚ} (h : LinOk2 n (ext x) c)
    (hty : c.typ = .eq ∨ c.typ = .supeq ∨ c.typ = .sup) (hi : infty c.expr.cst.sup = false) :
    RowSat (setLincons n intdim c) x := by
  obtain ⟨v, ⟨q, r, hq, hr, rfl⟩, hrel⟩ := h.holds
  rw [tval_points (LinOk.points h.toLinOk)] at hr
  subst hr
  obtain ⟨s, hs⟩ : ∃ s, c.expr.cst.sup = fin s := by
    cases hc : c.expr.cst.sup with
    | fin s => exact ⟨s, rfl⟩
    | ninf => rw [hc] at hi; simp [infty] at hi
    | pinf => rw [hc] at hi; simp [infty] at hi
  have hqs : q ≤ s := by
    have := hq.2
    rw [hs] at this
    exact (Bound.fin_le_fin _ _).1 this
  have hden : (0 : ℚ) < exprDen s c.expr.terms := by exact_mod_cast exprDen_pos s _
  rw [setLincons, hs]
  refine finishCons_sound hty (fun j hj => setLinexpr_big _ _ hj) hx ?_
  rw [show numref (fin s) = s from rfl, dot_setLinexpr s c.expr.terms h.lt h.nodup]
  rcases hty with ht | ht | ht
  · obtain ⟨_, q', hq'⟩ := h.pt ht
    rw [hq'] at hs hq
    rw [Itv.mem_point] at hq
    have e : q' = s := by simpa [Itv.point] using hs
    rw [ht] at hrel ⊢
    have : q + termSum c.expr.terms (ext x) = 0 := hrel
    rw [hq, e] at this
    change (_ : ℚ) = 0
    rw [this, mul_zero]
  · rw [ht] at hrel ⊢
    have : 0 ≤ q + termSum c.expr.terms (ext x) := hrel
    exact mul_nonneg hden.le (by linarith)
  · rw [ht] at hrel ⊢
    have : 0 < q + termSum c.expr.terms (ext x) := hrel
    exact mul_pos hden (by linarith)

theorem setLinconsArray_sound {intdim : ℕ} {x : Fin n → ℚ} (hx : IntPt intdim x) {l : List (ILincons ℚ)}
    (h : ∀ c ∈ l, LinOk2 n (ext x) c) : Sat (setLinconsArray n intdim l) (hom x) := by
  intro q hq
  rw [setLinconsArray, List.mem_filterMap] at hq
  obtain ⟨c, hc, e⟩ := hq
  have key : (c.typ = .eq ∨ c.typ = .supeq ∨ c.typ = .sup) →
      (if infty c.expr.cst.sup then none else some (setLincons n intdim c)) = some q → RowSat q x := by
    intro hty e
    split_ifs at e with hi
    cases e
    exact setLincons_sound hx (h c hc) hty (by simpa using hi)
  cases ht : c.typ with
  | eq => rw [ht] at e; exact key (.inl ht) e
  | supeq => rw [ht] at e; exact key (.inr (.inl ht)) e
  | sup => rw [ht] at e; exact key (.inr (.inr ht)) e
  | eqmod m => rw [ht] at e; cases e
  | diseq => rw [ht] at e; cases e

/-! ## Exactness for constraints with numbers -/

/-- constraints between numbers, that are not strict -/
structure ScalarOk (n : ℕ) (c : ILincons ℚ) : Prop where
  typ : c.typ = .eq ∨ c.typ = .supeq
  eq : c.expr.eq = true
  cst : ∃ q, c.expr.cst = Itv.point q
  quasi : ∀ t ∈ c.expr.terms, t.eq = true
  pts : ∀ t ∈ c.expr.terms, ∃ a, t.itv = Itv.point a
  lt : ∀ t ∈ c.expr.terms, t.dim < n
  nodup : c.dims.Nodup

theorem ScalarOk.setBool (n : ℕ) (b : Bool) : ScalarOk n (ILincons.setBool b) :=
  ⟨.inl rfl, rfl, ⟨_, rfl⟩, by simp [ILincons.setBool], by simp [ILincons.setBool], by simp [ILincons.setBool], by simp [ILincons.setBool, dims]⟩

/-- a constraint without variables is recognised as true or false -/
theorem ScalarOk.evalCst {c : ILincons ℚ} (h : ScalarOk n c) (he : c.expr.terms.isEmpty = true) (x : ℕ → ℚ) :
    (evalCst' c = .t ∧ c.Holds x) ∨ (evalCst' c = .f ∧ ¬ c.Holds x) := by
  obtain ⟨q, hq⟩ := h.cst
  have hb : (Itv.point q : Itv ℚ).isBottom = false := by
    rw [Bool.eq_false_iff]
    intro hb
    rw [Itv.isBottom_iff] at hb
    · exact hb q ((Itv.mem_point _ _).2 rfl)
    · simp [Itv.point]
    · simp [Itv.point]
  have hH : c.Holds x ↔ Lincons.Rel c.typ q := by
    constructor
    · rintro ⟨v, hv, hr⟩
      have := (val_nil he).1 hv
      rw [hq, Itv.mem_point] at this
      rwa [← this]
    · intro hr
      exact ⟨q, (val_nil he).2 (by rw [hq, Itv.mem_point]), hr⟩
  rw [hH, evalCst', ILincons.evalCst]
  simp only [hq, hb, Bool.false_eq_true, if_false]
  rcases h.typ with ht | ht
  · rw [ht]
    simp only [h.eq, if_true, Lincons.Rel, Itv.point]
    by_cases h0 : q = 0
    · left; simp [h0, sgn]
    · right
      rcases lt_or_gt_of_ne h0 with h1 | h1
      · simp [sgn, h0, h1]
      · simp [sgn, h0, not_lt.2 h1.le]
  · rw [ht]
    simp only [Lincons.Rel, Itv.point]
    by_cases h0 : 0 ≤ q
    · left
      rcases h0.lt_or_eq with h1 | h1
      · simp [sgn, h1, h0]
      · simp [sgn, ← h1]
    · right
      push Not at h0
      simp [sgn, h0, h0.ne, not_lt.2 h0.le]

theorem reduceGo_exact {x : ℕ → ℚ} (m : ℕ) : ∀ {done l : List (ILincons ℚ)}, l.length < m → (∀ c ∈ l, ScalarOk n c) →
    match reduceGo true m done l with
    | none => ¬ ∀ c ∈ l, c.Holds x
    | some r => (∀ c ∈ r, c.Holds x) ↔ (∀ c ∈ done, c.Holds x) ∧ ∀ c ∈ l, c.Holds x := by
  induction m with
  | zero => intro done l h; omega
  | succ m ih =>
    intro done l hl hs
    cases l with
    | nil => simp [reduceGo]
    | cons c l =>
      have hc := hs c (by simp)
      have hperm := swapRemove_perm c l
      have hlen : (swapRemove (c :: l)).length < m := by rw [hperm.length_eq]; simp at hl; omega
      have hsr : ∀ k ∈ swapRemove (c :: l), ScalarOk n k := fun k hk => hs k (by simp [hperm.mem_iff.1 hk])
      by_cases he : c.expr.terms.isEmpty = true
      · rcases hc.evalCst he x with ⟨h1, h2⟩ | ⟨h1, h2⟩
        · have e : reduceGo true (m + 1) done (c :: l) = reduceGo true m done (swapRemove (c :: l)) := by
            rw [reduceGo, if_pos ⟨he, h1⟩]
          rw [e]
          have := ih (done := done) hlen hsr
          have hmem : (∀ k ∈ swapRemove (c :: l), k.Holds x) ↔ ∀ k ∈ c :: l, k.Holds x := by
            simp only [List.forall_mem_cons, h2, true_and]
            exact ⟨fun h k hk => h k (hperm.mem_iff.2 hk), fun h k hk => h k (hperm.mem_iff.1 hk)⟩
          cases hr : reduceGo true m done (swapRemove (c :: l)) with
          | none => rw [hr] at this; rw [← hmem]; exact this
          | some r => rw [hr] at this; rw [← hmem]; exact this
        · have e : reduceGo true (m + 1) done (c :: l) = none := by
            rw [reduceGo, if_neg (by rw [h1]; simp), if_pos ⟨he, h1⟩]
          rw [e]
          intro h
          exact h2 (h c (by simp))
      · have hu : useless c = false := by simp [useless, he, hc.eq]
        have e : reduceGo true (m + 1) done (c :: l) = reduceGo true m (done ++ [c]) l := by
          rw [reduceGo, if_neg (by simp [he]), if_neg (by simp [he]), if_neg (by simp [hu]), if_neg (by simp)]
        rw [e]
        have := ih (done := done ++ [c]) (l := l) (by simp at hl; omega) (fun k hk => hs k (by simp [hk]))
        cases hr : reduceGo true m (done ++ [c]) l with
        | none => rw [hr] at this; intro h; exact this fun k hk => h k (by simp [hk])
        | some r =>
          rw [hr] at this
          refine this.trans ?_
          simp only [List.mem_append, List.forall_mem_cons, List.mem_singleton]
          constructor
          · rintro ⟨h1, h2⟩; exact ⟨fun k hk => h1 k (.inl hk), h1 c (.inr rfl), h2⟩
          · rintro ⟨h1, h2, h3⟩
            refine ⟨?_, h3⟩
            rintro k (hk | rfl)
            exacts [h1 k hk, h2]

theorem not_holds_false (x : ℕ → ℚ) : ¬ (ILincons.setBool false : ILincons ℚ).Holds x := by
  rintro ⟨v, hv, hr⟩
  have := (val_nil (by simp [ILincons.setBool])).1 hv
  have e : (ILincons.setBool false : ILincons ℚ).expr.cst = Itv.point 1 := by simp [ILincons.setBool]
  rw [e, Itv.mem_point] at this
  have hr' : v = 0 := hr
  rw [hr'] at this
  exact absurd this (by norm_num)

theorem arrayReduce_exact {x : ℕ → ℚ} {l : List (ILincons ℚ)} (hs : ∀ c ∈ l, ScalarOk n c) :
    (∀ c ∈ (arrayReduce true l).1, c.Holds x) ↔ ∀ c ∈ l, c.Holds x := by
  have := reduceGo_exact (x := x) (l.length + 1) (done := []) (l := l) (by omega) hs
  unfold arrayReduce
  cases hr : reduceGo true (l.length + 1) [] l with
  | none =>
    rw [hr] at this
    exact ⟨fun h => absurd (h _ (by simp)) (not_holds_false x), fun h => absurd h this⟩
  | some r =>
    rw [hr] at this
    have h2 : (∀ c ∈ r, c.Holds x) ↔ ∀ c ∈ l, c.Holds x := this.trans (by simp)
    match r, h2 with
    | [], h2 => exact h2
    | [c], h2 => exact h2
    | a :: b :: r, h2 => exact h2

theorem linearizeArray_scalar {l : List (ILincons ℚ)} (hs : ∀ c ∈ l, ScalarOk n c) : linearizeArray true l = (arrayReduce true l).1 := by
  have h := arrayReduce_inv (meet := true) hs (ScalarOk.setBool n false)
  unfold linearizeArray
  dsimp only
  split_ifs with h'
  · rfl
  · have e : ∀ c ∈ (arrayReduce true l).1, linearizeOne true c = (c, none) := by
      intro c hc; rw [linearizeOne, if_pos (h c hc).eq]
    rw [List.map_congr_left (g := id) (fun c hc => by rw [e c hc]; rfl), List.map_id,
      List.filterMap_eq_nil_iff.2 (fun c hc => by rw [e c hc]), List.append_nil]

theorem reduceIntegerRat_zero (c : ILincons ℚ) : reduceIntegerRat c 0 = c := by
  rcases reduceIntegerRat_eq c 0 with h | ⟨hr, hne, _⟩
  · exact h
  · rw [reducible_iff] at hr
    exfalso
    obtain ⟨t, ht⟩ := List.exists_mem_of_ne_nil _ hne
    exact absurd (hr.2.1 t ht) (by omega)

theorem rel_setLincons {c : ILincons ℚ} (h : ScalarOk n c) (x : Fin n → ℚ) :
    RowSat (setLincons n 0 c) x ↔ c.Holds (ext x) := by
  obtain ⟨q, hq⟩ := h.cst
  have hH : c.Holds (ext x) ↔ Lincons.Rel c.typ (q + termSum c.expr.terms (ext x)) := by
    constructor
    · rintro ⟨v, ⟨p, r, hp, hr, rfl⟩, hrel⟩
      rw [hq, Itv.mem_point] at hp
      rw [tval_points h.pts] at hr
      rwa [hp, hr] at hrel
    · exact fun hrel => ⟨_, ⟨q, _, by rw [hq, Itv.mem_point], (tval_points h.pts).2 rfl, rfl⟩, hrel⟩
  have hs : c.expr.cst.sup = fin q := by rw [hq]; rfl
  have hdot := dot_setLinexpr q c.expr.terms h.lt h.nodup x
  have hden : (0 : ℚ) < exprDen q c.expr.terms := by exact_mod_cast exprDen_pos q _
  rw [hH, setLincons, hs, show numref (fin q) = q from rfl]
  set w := setLinexpr n q c.expr.terms with hw
  obtain ⟨a, b, _, g, hg, e⟩ := dot_normalize (n := n) (q := w) (fun j hj => setLinexpr_big _ _ hj)
  have hg' : (0 : ℚ) < g := by exact_mod_cast hg
  have hts : ¬ (c.typ = .sup ∧ rowIsInt n 0 ((Apron.Poly.normalize w (n + 2)).setStatus (if c.typ = .eq then 0 else 1)) = true) := by
    rintro ⟨ht, _⟩
    rcases h.typ with h | h <;> rw [h] at ht <;> cases ht
  rw [finishCons]
  rw [if_neg hts, normConsInt, if_neg (by simp)]
  set p := Apron.Poly.normalize w (n + 2) with hp
  set p' := p.setStatus (if c.typ = .eq then 0 else 1) with hp'
  obtain ⟨a', b', _, g', hg2, e'⟩ := dot_normalize (n := n) (q := p') (fun j hj => by
    cases j with
    | zero => omega
    | succ j => rw [hp', at_setStatus_succ]; exact b _ hj)
  have hg2' : (0 : ℚ) < g' := by exact_mod_cast hg2
  have hd1 : exprDen q c.expr.terms * (q + termSum c.expr.terms (ext x)) = g * (g' * dot (Apron.Poly.normalize p' (n + 2)) (hom x)) := by
    rw [← e', hp', dot_setStatus, ← e, hdot]
  rw [RowSat, a', hp', at_setStatus_zero, ← hp']
  set D := dot (Apron.Poly.normalize p' (n + 2)) (hom x)
  set V := q + termSum c.expr.terms (ext x)
  have hv : V = (exprDen q c.expr.terms : ℚ)⁻¹ * g * g' * D := by
    field_simp
    linarith
  have hpos : (0 : ℚ) < (exprDen q c.expr.terms : ℚ)⁻¹ * g * g' := by positivity
  rcases h.typ with ht | ht
  · rw [ht]
    simp only [if_true, true_implies, Lincons.Rel]
    rw [hv]
    constructor
    · rintro ⟨_, h0⟩; rw [h0, mul_zero]
    · intro h0
      rcases mul_eq_zero.1 h0 with h0 | h0
      · exact absurd h0 hpos.ne'
      · exact ⟨h0.ge, h0⟩
  · rw [ht]
    simp only [reduceCtorEq, if_false, one_ne_zero, false_implies, and_true, Lincons.Rel]
    rw [hv]
    exact ⟨fun h0 => mul_nonneg hpos.le h0, fun h0 => nonneg_of_mul_nonneg_right h0 hpos⟩

theorem setLinconsArray_exact {l : List (ILincons ℚ)} (hs : ∀ c ∈ l, ScalarOk n c) (x : Fin n → ℚ) :
    Sat (setLinconsArray n 0 l) (hom x) ↔ ∀ c ∈ l, c.Holds (ext x) := by
  have e : setLinconsArray n 0 l = l.map (setLincons n 0) := by
    rw [setLinconsArray, ← List.filterMap_eq_map]
    refine List.filterMap_congr fun c hc => ?_
    obtain ⟨q, hq⟩ := (hs c hc).cst
    rcases (hs c hc).typ with h | h <;> simp [h, hq, Itv.point, infty]
  rw [e]
  constructor
  · intro h c hc
    exact (rel_setLincons (hs c hc) x).1 (h _ (List.mem_map_of_mem hc))
  · intro h q hq
    obtain ⟨c, hc, rfl⟩ := List.mem_map.1 hq
    exact (rel_setLincons (hs c hc) x).2 (h c hc)

end Apron.Poly
