import Verif.Box.Defs
import Verif.Itv.Tight

/-! # Helper lemmas on boxes -/

set_option autoImplicit false
set_option linter.unusedSectionVars false
set_option linter.ambiguousOpen false

namespace Apron
open Bound

namespace Itv
variable {K : Type*} [LinearOrder K] [Field K] [IsStrictOrderedRing K]

theorem inf_ne_ninf {i : Itv K} {q : K} (h : q ∈ i) : i.inf ≠ ninf := by
  intro e; have := h.1; rw [e] at this; simp at this
theorem sup_ne_ninf {i : Itv K} {q : K} (h : q ∈ i) : i.sup ≠ ninf := by
  intro e; have := h.2; rw [e] at this; simp at this

/-- an interval that is not found empty has a member -/
theorem exists_mem_of_isBottom {i : Itv K} (h1 : i.inf ≠ ninf) (h2 : i.sup ≠ ninf)
    (h : i.isBottom = false) : ∃ q, q ∈ i := by
  by_contra hn
  push Not at hn
  rw [(isBottom_iff i h1 h2).2 hn] at h
  simp at h

theorem isTop_iff {i : Itv K} {q : K} (h : q ∈ i) : i.isTop = true ↔ ∀ y, y ∈ i := by
  obtain ⟨a, b⟩ := i
  have h1 := h.1; have h2 := h.2
  constructor
  · intro ht
    simp only [isTop, Bool.and_eq_true] at ht
    intro y
    cases a <;> cases b <;> simp_all [infty, mem_def]
  · intro hy
    simp only [isTop, Bool.and_eq_true]
    constructor
    · cases a with
      | ninf => simp [infty]
      | pinf => simp [infty]
      | fin a => have := (hy (-(a + 1))).1; simp at this; linarith
    · cases b with
      | ninf => simp [infty]
      | pinf => simp [infty]
      | fin b => have := (hy (b + 1)).2; simp at this; linarith

end Itv

namespace Box
variable {K : Type*} [LinearOrder K] [Field K] [IsStrictOrderedRing K]

theorem Wf.point {a : Box K} (ha : a.Wf) {p : ℕ → Itv K} (hp : a.p = some p) : ∃ x, a.Gam x := by
  choose! f hf using ha p hp
  exact ⟨f, p, hp, hf⟩

theorem gam_update {a : Box K} {p : ℕ → Itv K} (hp : a.p = some p) {x : ℕ → K} (hx : a.Gam x) (i : ℕ)
    {y : K} (hy : y ∈ p i) : a.Gam (Function.update x i y) := by
  obtain ⟨p', hp', h⟩ := hx
  rw [hp] at hp'; cases hp'
  refine ⟨p, hp, fun j hj => ?_⟩
  by_cases e : j = i
  · subst e; simpa using hy
  · rw [Function.update_of_ne e]; exact h j hj

theorem gam_some {a : Box K} {p : ℕ → Itv K} (hp : a.p = some p) {x : ℕ → K} :
    a.Gam x ↔ ∀ i, i < a.dim → x i ∈ p i := by
  constructor
  · rintro ⟨p', hp', h⟩; rw [hp] at hp'; cases hp'; exact h
  · intro h; exact ⟨p, hp, h⟩

theorem gam_none {a : Box K} (hp : a.p = none) {x : ℕ → K} : ¬ a.Gam x := by
  rintro ⟨p', hp', _⟩; rw [hp] at hp'; cases hp'

theorem gam_mk {p : ℕ → Itv K} {m n : ℕ} {x : ℕ → K} :
    (⟨some p, m, n⟩ : Box K).Gam x ↔ ∀ i, i < m + n → x i ∈ p i := gam_some rfl

theorem wf_some {a : Box K} {p : ℕ → Itv K} (hp : a.p = some p) :
    a.Wf ↔ ∀ i, i < a.dim → ∃ q, q ∈ p i := by
  constructor
  · intro h; exact h p hp
  · intro h p' hp'; rw [hp] at hp'; cases hp'; exact h

theorem wf_mk {p : ℕ → Itv K} {m n : ℕ} :
    (⟨some p, m, n⟩ : Box K).Wf ↔ ∀ i, i < m + n → ∃ q, q ∈ p i := wf_some rfl

theorem wf_none {a : Box K} (hp : a.p = none) : a.Wf := by
  intro p' hp'; rw [hp] at hp'; cases hp'

/-! ### linear expressions -/

theorem mem_terms_lt {e : Linexpr K} {dim : ℕ} (h : e.InDim dim) {p : ℕ × Coeff K} (hp : p ∈ e.terms) :
    p.1 < dim := h.2 _ (List.mem_map.2 ⟨p, hp, rfl⟩)

theorem assignGo_other (R : Rnd K) (p : ℕ → Itv K) (l : List (ℕ × Linexpr K)) (r : ℕ → Itv K) (i : ℕ)
    (h : ∀ q ∈ l, q.1 ≠ i) : assignGo R p l r i = r i := by
  induction l generalizing r with
  | nil => rfl
  | cons q l ih =>
    obtain ⟨d, e⟩ := q
    rw [assignGo, ih _ fun q hq => h q (by simp [hq]), Function.update_of_ne]
    exact fun e' => h (d, e) (by simp) e'.symm

theorem assignGo_target (R : Rnd K) (p : ℕ → Itv K) (l : List (ℕ × Linexpr K)) (r : ℕ → Itv K)
    (hn : (l.map Prod.fst).Nodup) (q : ℕ × Linexpr K) (hq : q ∈ l) :
    assignGo R p l r q.1 = ILinexpr.evalAp R q.2 p := by
  induction l generalizing r with
  | nil => simp at hq
  | cons s l ih =>
    obtain ⟨d, e⟩ := s
    rw [List.map_cons, List.nodup_cons] at hn
    rw [assignGo]
    rcases List.mem_cons.1 hq with rfl | hq
    · rw [assignGo_other]
      · simp
      · rintro s hs rfl
        exact hn.1 (List.mem_map.2 ⟨s, hs, rfl⟩)
    · exact ih _ hn.2 hq

end Box
end Apron
