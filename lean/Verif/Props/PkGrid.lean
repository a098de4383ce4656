import Verif.Poly.PkGrid
import Verif.Poly.PkApproxLemmas
import Verif.Poly.PkEqLemmas
import Verif.Poly.PkEqShape
import Verif.Poly.PkEqTest
import Verif.Props.PkExtract

/-!
# C133: the reduced product of polyhedra and grids

`pkgridReduce D n intdim lzy p g`: the reduction of the polyhedron `p` and the grid `g`, `none` if the function writes out of an array
or does not end.  The grids are those of the PPL library: `GridDom.Spec` is the specification of the functions that are called.
-/

set_option autoImplicit false
set_option linter.unusedSectionVars false
set_option linter.ambiguousOpen false

namespace Apron.Props

open Apron Apron.Poly Bound ILincons Linexpr

variable {n : ℕ} {G : Type}

/-- the specification of the grids: the set of points `γ g` of a grid; the meet with equalities is exact, the emptiness test too;
a non-empty grid is described by dense equalities and congruences with a positive modulus -/
structure GridSpec (D : GridDom G) (γ : G → (Fin n → ℚ) → Prop) : Prop where
  bottom : ∀ x, ¬ γ D.bottom x
  meet : ∀ g l, (∀ c ∈ l, ∃ q f, c = ⟨.eq, denseExpr n q f⟩) → ∀ x, γ (D.meetLincons g l) x ↔ γ g x ∧ ∀ c ∈ l, c.Holds (ext x)
  isBottom : ∀ g, D.isBottom g = true ↔ ∀ x, ¬ γ g x
  canonicalize : ∀ g x, γ (D.canonicalize g) x ↔ γ g x
  toLincons : ∀ g x, γ g x → ∀ c ∈ D.toLincons g, c.Holds (ext x)
  shape : ∀ g, ∀ c ∈ D.toLincons g, ∃ q f, c.expr = denseExpr n q f ∧ (c.typ = .eq ∨ ∃ m, 0 < m ∧ c.typ = .eqmod m)

/-! ## Expressions -/

theorem dense_indim (q : ℚ) (f : ℕ → ℚ) : (denseExpr n q f).InDim n := by
  rw [Linexpr.InDim, terms_dense, List.map_map]
  have : (Prod.fst ∘ fun d : ℕ => (d, Coeff.scalar (fin (f d)))) = id := rfl
  rw [this, List.map_id]
  exact ⟨List.pairwise_lt_range, fun d hd => List.mem_range.1 hd⟩

theorem dense_numeric (q : ℚ) (f : ℕ → ℚ) : (denseExpr n q f).Numeric := by
  refine ⟨⟨q, rfl⟩, fun p hp => ?_⟩
  rw [terms_dense] at hp
  obtain ⟨d, _, rfl⟩ := List.mem_map.1 hp
  exact ⟨_, rfl⟩

theorem lowerCons_dense (c q : ℚ) (f : ℕ → ℚ) : lowerCons (denseExpr n c f) q = ⟨.supeq, denseExpr n (c - q) f⟩ := rfl

theorem upperCons_dense (c q : ℚ) (f : ℕ → ℚ) : upperCons (denseExpr n c f) q = ⟨.supeq, denseExpr n (-c + q) fun d => -f d⟩ := by
  simp [upperCons, denseExpr, negCoeff]

theorem holds_lower (c q : ℚ) (f : ℕ → ℚ) (x : Fin n → ℚ) :
    (lowerCons (denseExpr n c f) q).Holds (ext x) ↔ ∀ v, (denseExpr n c f).Val (ext x) v → q ≤ v := by
  rw [lowerCons_dense, Lincons.Holds]
  simp only [val_dense]
  constructor
  · rintro ⟨_, rfl, h⟩ v rfl
    have : 0 ≤ c - q + ∑ d : Fin n, f d * x d := h
    linarith
  · intro h
    refine ⟨_, rfl, ?_⟩
    change 0 ≤ c - q + ∑ d : Fin n, f d * x d
    linarith [h _ rfl]

theorem holds_upper (c q : ℚ) (f : ℕ → ℚ) (x : Fin n → ℚ) :
    (upperCons (denseExpr n c f) q).Holds (ext x) ↔ ∀ v, (denseExpr n c f).Val (ext x) v → v ≤ q := by
  rw [upperCons_dense, Lincons.Holds]
  simp only [val_dense]
  have e : ∑ d : Fin n, -f d * x d = - ∑ d : Fin n, f d * x d := by
    rw [← Finset.sum_neg_distrib]; exact Finset.sum_congr rfl fun d _ => by ring
  rw [e]
  constructor
  · rintro ⟨_, rfl, h⟩ v rfl
    have : 0 ≤ -c + q + - ∑ d : Fin n, f d * x d := h
    linarith
  · intro h
    refine ⟨_, rfl, ?_⟩
    change 0 ≤ -c + q + - ∑ d : Fin n, f d * x d
    linarith [h _ rfl]

theorem den_one_iff (q : ℚ) : q.den = 1 ↔ ∃ z : ℤ, q = z := by
  constructor
  · intro h; exact ⟨q.num, (Rat.coe_int_num_of_den_eq_one h).symm⟩
  · rintro ⟨z, rfl⟩; rfl

/-! ## The loop -/

/-- the constraints on which the loop works -/
def Shape (n : ℕ) (arr : List (Lincons ℚ)) : Prop :=
  ∀ c ∈ arr, ∃ q f, c.expr = denseExpr n q f ∧ (c.typ = .eq ∨ ∃ m, 0 < m ∧ c.typ = .eqmod m)

theorem lowerStep_holds {cap : ℕ} {i : Itv ℚ} {c m : ℚ} {f : ℕ → ℚ} {acc acc' : List (Lincons ℚ)} (hm : 0 < m)
    (h : lowerStep cap i (denseExpr n c f) m acc = some acc') :
    (acc' = acc ∨ acc' = acc ++ [lowerCons (denseExpr n c f) (⌈-(numref i.inf) / m⌉ * m)]) ∧
    ∀ x : Fin n → ℚ, ∀ v, (denseExpr n c f).Val (ext x) v → v ∈ i → (∃ z : ℤ, v = z * m) → (∀ k ∈ acc, k.Holds (ext x)) →
      ∀ k ∈ acc', k.Holds (ext x) := by
  rw [lowerStep] at h
  dsimp only at h
  split_ifs at h with h1 h2
  · cases h; exact ⟨.inl rfl, fun x v hv hi hz ha => ha⟩
  · cases h; exact ⟨.inl rfl, fun x v hv hi hz ha => ha⟩
  · rw [pushCons] at h
    split_ifs at h
    cases h
    refine ⟨.inr rfl, fun x v hv hi hz ha k hk => ?_⟩
    rw [List.mem_append, List.mem_singleton] at hk
    rcases hk with hk | rfl
    · exact ha k hk
    · rw [holds_lower]
      intro v' hv'
      have e : v' = v := by rw [val_dense] at hv hv'; rw [hv, hv']
      subst e
      obtain ⟨z, rfl⟩ := hz
      have h3 := hi.1
      rw [fin_of_not_infty h1, fin_le_fin] at h3
      refine mul_le_mul_of_nonneg_right ?_ hm.le
      rw [Int.cast_le, Int.ceil_le, div_le_iff₀ hm]
      linarith

theorem upperStep_holds {cap k : ℕ} {i : Itv ℚ} {c m : ℚ} {f : ℕ → ℚ} {acc : List (Lincons ℚ)} {p : List (Lincons ℚ) × ℕ} (hm : 0 < m)
    (h : upperStep cap k i (denseExpr n c f) m acc = some p) :
    (p.1 = acc ∨ p.1 = acc ++ [upperCons (denseExpr n c f) (⌊numref i.sup / m⌋ * m)]) ∧
    ∀ x : Fin n → ℚ, ∀ v, (denseExpr n c f).Val (ext x) v → v ∈ i → (∃ z : ℤ, v = z * m) → (∀ k ∈ acc, k.Holds (ext x)) →
      ∀ k ∈ p.1, k.Holds (ext x) := by
  rw [upperStep] at h
  dsimp only at h
  split_ifs at h with h1 h2
  · cases h; exact ⟨.inl rfl, fun x v hv hi hz ha => ha⟩
  · cases h; exact ⟨.inl rfl, fun x v hv hi hz ha => ha⟩
  · rw [pushCons] at h
    split_ifs at h
    on_goal 2 => cases h
    cases h
    refine ⟨.inr rfl, fun x v hv hi hz ha k hk => ?_⟩
    rw [List.mem_append, List.mem_singleton] at hk
    rcases hk with hk | rfl
    · exact ha k hk
    · rw [holds_upper]
      intro v' hv'
      have e : v' = v := by rw [val_dense] at hv hv'; rw [hv, hv']
      subst e
      obtain ⟨z, rfl⟩ := hz
      have h3 := hi.2
      rw [fin_of_not_infty h1, fin_le_fin] at h3
      refine mul_le_mul_of_nonneg_right ?_ hm.le
      rw [Int.cast_le, Int.le_floor, le_div_iff₀ hm]
      exact h3

/-- what is written: a constraint that was there, an equality of the array, or a bound for a congruence of the array -/
theorem congrLoop_sound {bnd : Linexpr ℚ → Itv ℚ} {arr : List (Lincons ℚ)} (hs : Shape n arr) (x : Fin n → ℚ)
    (hb : ∀ c ∈ arr, ∀ v, c.expr.Val (ext x) v → v ∈ bnd c.expr) (hc : ∀ c ∈ arr, c.Holds (ext x)) :
    ∀ (f k : ℕ) (acc l : List (Lincons ℚ)), congrLoop bnd arr f k acc = some l → (∀ c ∈ acc, c.Holds (ext x)) → ∀ c ∈ l, c.Holds (ext x) := by
  intro f
  induction f with
  | zero => intro k acc l h; cases h
  | succ f ih =>
    intro k acc l h ha
    rw [congrLoop] at h
    cases hk : arr[k]? with
    | none => rw [hk] at h; cases h; exact ha
    | some c =>
      rw [hk] at h
      dsimp only at h
      have hmem : c ∈ arr := List.mem_of_getElem? hk
      obtain ⟨q, g, he, ht⟩ := hs c hmem
      rcases ht with ht | ⟨m, hm, ht⟩ <;> rw [ht] at h <;> dsimp only at h
      · rw [Option.bind_eq_some_iff] at h
        obtain ⟨acc', h1, h2⟩ := h
        rw [pushCons] at h1
        split_ifs at h1
        cases h1
        refine ih _ _ _ h2 fun c' hc' => ?_
        rw [List.mem_append, List.mem_singleton] at hc'
        rcases hc' with hc' | rfl
        · exact ha c' hc'
        · exact hc _ hmem
      · rw [Option.bind_eq_some_iff] at h
        obtain ⟨acc', h1, h2⟩ := h
        rw [Option.bind_eq_some_iff] at h2
        obtain ⟨p, h2, h3⟩ := h2
        obtain ⟨v, hv, hr⟩ := hc c hmem
        have hi := hb c hmem v hv
        rw [ht] at hr
        rw [he] at h1 h2 hv hi
        exact ih _ _ _ h3 ((upperStep_holds hm h2).2 x v hv hi hr ((lowerStep_holds hm h1).2 x v hv hi hr ha))

theorem congrLoop_shape {bnd : Linexpr ℚ → Itv ℚ} {arr : List (Lincons ℚ)} (hs : Shape n arr) :
    ∀ (f k : ℕ) (acc l : List (Lincons ℚ)), congrLoop bnd arr f k acc = some l →
      (∀ c ∈ acc, ∃ q g, c.expr = denseExpr n q g ∧ (c.typ = .eq ∨ c.typ = .supeq)) →
      (∀ c ∈ l, ∃ q g, c.expr = denseExpr n q g ∧ (c.typ = .eq ∨ c.typ = .supeq)) ∧ ∀ c ∈ acc, c ∈ l := by
  intro f
  induction f with
  | zero => intro k acc l h; cases h
  | succ f ih =>
    intro k acc l h ha
    rw [congrLoop] at h
    cases hk : arr[k]? with
    | none => rw [hk] at h; cases h; exact ⟨ha, fun c hc => hc⟩
    | some c =>
      rw [hk] at h
      dsimp only at h
      have hmem : c ∈ arr := List.mem_of_getElem? hk
      obtain ⟨q, g, he, ht⟩ := hs c hmem
      rcases ht with ht | ⟨m, hm, ht⟩ <;> rw [ht] at h <;> dsimp only at h
      · rw [Option.bind_eq_some_iff] at h
        obtain ⟨acc', h1, h2⟩ := h
        rw [pushCons] at h1
        split_ifs at h1
        cases h1
        obtain ⟨h3, h4⟩ := ih _ _ _ h2 fun c' hc' => by
          rw [List.mem_append, List.mem_singleton] at hc'
          rcases hc' with hc' | rfl
          · exact ha c' hc'
          · exact ⟨q, g, he, .inl ht⟩
        exact ⟨h3, fun c hc => h4 c (List.mem_append_left _ hc)⟩
      · rw [Option.bind_eq_some_iff] at h
        obtain ⟨acc', h1, h2⟩ := h
        rw [Option.bind_eq_some_iff] at h2
        obtain ⟨p, h2, h3⟩ := h2
        rw [he] at h1 h2
        have a1 : (∀ c ∈ acc', ∃ q g, c.expr = denseExpr n q g ∧ (c.typ = .eq ∨ c.typ = .supeq)) ∧ ∀ c ∈ acc, c ∈ acc' := by
          rcases (lowerStep_holds hm h1).1 with e | e
          · rw [e]; exact ⟨ha, fun c hc => hc⟩
          · rw [e]
            refine ⟨fun c' hc' => ?_, fun c hc => List.mem_append_left _ hc⟩
            rw [List.mem_append, List.mem_singleton] at hc'
            rcases hc' with hc' | rfl
            · exact ha c' hc'
            · exact ⟨_, _, by rw [lowerCons_dense], .inr rfl⟩
        have a2 : (∀ c ∈ p.1, ∃ q g, c.expr = denseExpr n q g ∧ (c.typ = .eq ∨ c.typ = .supeq)) ∧ ∀ c ∈ acc', c ∈ p.1 := by
          rcases (upperStep_holds hm h2).1 with e | e
          · rw [e]; exact ⟨a1.1, fun c hc => hc⟩
          · rw [e]
            refine ⟨fun c' hc' => ?_, fun c hc => List.mem_append_left _ hc⟩
            rw [List.mem_append, List.mem_singleton] at hc'
            rcases hc' with hc' | rfl
            · exact a1.1 c' hc'
            · exact ⟨_, _, by rw [upperCons_dense], .inr rfl⟩
        obtain ⟨h4, h5⟩ := ih _ _ _ h3 a2.1
        exact ⟨h4, fun c hc => h5 c (a2.2 c (a1.2 c hc))⟩

theorem pushCons_some {cap : ℕ} {acc : List (Lincons ℚ)} {c : Lincons ℚ} (h : acc.length < cap) :
    pushCons cap acc c = some (acc ++ [c]) := by rw [pushCons, if_pos h]

theorem lowerStep_some {cap k : ℕ} {i : Itv ℚ} {e : Linexpr ℚ} {m : ℚ} {acc : List (Lincons ℚ)} (hk : k + 1 ≤ cap) (h : acc.length ≤ k) :
    ∃ acc', lowerStep cap i e m acc = some acc' ∧ acc'.length ≤ k + 1 := by
  rw [lowerStep]
  dsimp only
  split_ifs
  · exact ⟨_, rfl, by omega⟩
  · exact ⟨_, rfl, by omega⟩
  · exact ⟨_, pushCons_some (by omega), by simp; omega⟩

/-- the loop ends and stays in the array, when the constraints are not too many -/
theorem congrLoop_some {bnd : Linexpr ℚ → Itv ℚ} {arr : List (Lincons ℚ)} (hs : Shape n arr) (hl : arr.length ≤ n + 1) :
    ∀ (f k : ℕ) (acc : List (Lincons ℚ)), 0 < f → arr.length + 1 ≤ k + f → acc.length ≤ 2 * k → ∃ l, congrLoop bnd arr f k acc = some l := by
  intro f
  induction f with
  | zero => intro k acc h; omega
  | succ f ih =>
    intro k acc _ hf ha
    rw [congrLoop]
    cases hk : arr[k]? with
    | none => exact ⟨_, rfl⟩
    | some c =>
      dsimp only
      have hmem : c ∈ arr := List.mem_of_getElem? hk
      have hlt : k < arr.length := by
        by_contra hh
        rw [List.getElem?_eq_none (by omega)] at hk
        cases hk
      obtain ⟨q, g, he, ht⟩ := hs c hmem
      rcases ht with ht | ⟨m, hm, ht⟩ <;> rw [ht] <;> dsimp only
      · rw [pushCons_some (by omega), Option.bind_some]
        exact ih _ _ (by omega) (by omega) (by simp; omega)
      · obtain ⟨acc', h1, h2⟩ := lowerStep_some (cap := 2 * arr.length) (k := 2 * k) (i := bnd c.expr) (e := c.expr) (m := m) (acc := acc)
          (by omega) ha
        rw [h1, Option.bind_some, upperStep]
        have hlen : c.expr.terms.length = n := by rw [he, terms_dense]; simp
        dsimp only
        split_ifs
        · rw [Option.bind_some]; exact ih _ _ (by omega) (by dsimp only; omega) (by dsimp only; omega)
        · rw [Option.bind_some]; exact ih _ _ (by omega) (by dsimp only; omega) (by dsimp only; omega)
        · rw [pushCons_some (by omega), Option.map_some, Option.bind_some, hlen]
          exact ih _ _ (by omega) (by omega) (by simp; omega)

/-- the bounds of a congruence are written, when no congruence before it had its upper bound refined -/
theorem congrLoop_visit {bnd : Linexpr ℚ → Itv ℚ} {arr : List (Lincons ℚ)} (hs : Shape n arr) {j : ℕ} {c : Lincons ℚ} {m : ℚ}
    (hj : arr[j]? = some c) (ht : c.typ = .eqmod m) : ∀ (f k : ℕ) (acc l : List (Lincons ℚ)),
      congrLoop bnd arr f k acc = some l → k ≤ j → (∀ c ∈ acc, ∃ q g, c.expr = denseExpr n q g ∧ (c.typ = .eq ∨ c.typ = .supeq)) →
      (∀ i, k ≤ i → i < j → ∀ c' m', arr[i]? = some c' → c'.typ = .eqmod m' →
        infty (bnd c'.expr).sup = true ∨ (numref (bnd c'.expr).sup / m').den = 1) →
      (infty (bnd c.expr).inf = true ∨ (-(numref (bnd c.expr).inf) / m).den = 1 ∨
        lowerCons c.expr (⌈-(numref (bnd c.expr).inf) / m⌉ * m) ∈ l) ∧
      (infty (bnd c.expr).sup = true ∨ (numref (bnd c.expr).sup / m).den = 1 ∨
        upperCons c.expr (⌊numref (bnd c.expr).sup / m⌋ * m) ∈ l) := by
  intro f
  induction f with
  | zero => intro k acc l h; cases h
  | succ f ih =>
    intro k acc l h hkj ha hno
    rw [congrLoop] at h
    have hjl : j < arr.length := by
      by_contra hh
      rw [List.getElem?_eq_none (by omega)] at hj
      cases hj
    have hk : arr[k]? = some arr[k] := List.getElem?_eq_getElem (by omega)
    rw [hk] at h
    dsimp only at h
    have hmem : arr[k] ∈ arr := List.getElem_mem _
    obtain ⟨q, g, he, ht'⟩ := hs _ hmem
    rcases ht' with ht' | ⟨m', hm', ht'⟩ <;> rw [ht'] at h <;> dsimp only at h
    · have hne : k ≠ j := by
        rintro rfl
        rw [hk, Option.some.injEq] at hj
        rw [hj, ht] at ht'
        cases ht'
      rw [Option.bind_eq_some_iff] at h
      obtain ⟨acc', h1, h2⟩ := h
      rw [pushCons] at h1
      split_ifs at h1
      cases h1
      refine ih _ _ _ h2 (by omega) (fun c' hc' => ?_) fun i hi => hno i (by omega)
      rw [List.mem_append, List.mem_singleton] at hc'
      rcases hc' with hc' | rfl
      · exact ha c' hc'
      · exact ⟨q, g, he, .inl ht'⟩
    · rw [Option.bind_eq_some_iff] at h
      obtain ⟨acc', h1, h2⟩ := h
      rw [Option.bind_eq_some_iff] at h2
      obtain ⟨p, h2, h3⟩ := h2
      have l1 := h1
      have l2 := h2
      rw [he] at l1 l2
      have a1 : ∀ c ∈ acc', ∃ q g, c.expr = denseExpr n q g ∧ (c.typ = .eq ∨ c.typ = .supeq) := by
        rcases (lowerStep_holds hm' l1).1 with e | e
        · rw [e]; exact ha
        · rw [e]
          intro c' hc'
          rw [List.mem_append, List.mem_singleton] at hc'
          rcases hc' with hc' | rfl
          · exact ha c' hc'
          · exact ⟨_, _, by rw [lowerCons_dense], .inr rfl⟩
      have a2 : (∀ c ∈ p.1, ∃ q g, c.expr = denseExpr n q g ∧ (c.typ = .eq ∨ c.typ = .supeq)) ∧ ∀ c ∈ acc', c ∈ p.1 := by
        rcases (upperStep_holds hm' l2).1 with e | e
        · rw [e]; exact ⟨a1, fun c hc => hc⟩
        · rw [e]
          refine ⟨fun c' hc' => ?_, fun c hc => List.mem_append_left _ hc⟩
          rw [List.mem_append, List.mem_singleton] at hc'
          rcases hc' with hc' | rfl
          · exact a1 c' hc'
          · exact ⟨_, _, by rw [upperCons_dense], .inr rfl⟩
      by_cases hne : k = j
      · subst hne
        rw [hk, Option.some.injEq] at hj
        rw [hj] at h1 h2 ht'
        rw [ht] at ht'
        cases ht'
        have hsub := (congrLoop_shape hs _ _ _ _ h3 a2.1).2
        constructor
        · rw [lowerStep] at h1
          dsimp only at h1
          split_ifs at h1 with b1 b2
          · exact .inl b1
          · exact .inr (.inl b2)
          · rw [pushCons] at h1
            split_ifs at h1
            cases h1
            exact .inr (.inr (hsub _ (a2.2 _ (by simp))))
        · rw [upperStep] at h2
          dsimp only at h2
          split_ifs at h2 with b1 b2
          · exact .inl b1
          · exact .inr (.inl b2)
          · rw [pushCons] at h2
            split_ifs at h2
            on_goal 2 => cases h2
            cases h2
            exact .inr (.inr (hsub _ (by simp)))
      · have hp2 : p.2 = k + 1 := by
          rw [upperStep] at h2
          dsimp only at h2
          rcases hno k le_rfl (by omega) _ _ hk ht' with b | b
          · rw [if_pos b] at h2; cases h2; rfl
          · rw [if_pos b] at h2
            split_ifs at h2 <;> (cases h2; rfl)
        rw [hp2] at h3
        exact ih _ _ _ h3 (by omega) a2.1 fun i hi => hno i (by omega)

/-! ## The bounds -/

theorem bnd_sup {r : Rep} (h : r.Wf ℚ n) (hne : ∃ x : Fin n → ℚ, r.γ x) {c : ℚ} {f : ℕ → ℚ} {b : ℚ}
    (hb : ∀ x : Fin n → ℚ, r.γ x → ∀ v, (denseExpr n c f).Val (ext x) v → v ≤ b) :
    infty (r.boundLinexpr n 0 (denseExpr n c f)).sup = false ∧ numref (r.boundLinexpr n 0 (denseExpr n c f)).sup ≤ b ∧
      ∀ x : Fin n → ℚ, r.γ x → ∀ v, (denseExpr n c f).Val (ext x) v → v ≤ numref (r.boundLinexpr n 0 (denseExpr n c f)).sup := by
  have hs := fun x hx v hv => C93_bound_linexpr_sound (alg := 0) h (dense_indim c f) (x := x) hx (v := v) hv
  have hbest := (C93_bound_linexpr_best_partial (alg := 0) h (dense_indim c f) (dense_numeric c f) b).1 hb
  obtain ⟨x, hx⟩ := hne
  have h0 := hs x hx _ ((val_dense c f x _).2 rfl)
  generalize (r.boundLinexpr n 0 (denseExpr n c f)) = i at *
  rcases i with ⟨i, u⟩
  cases u with
  | ninf => exact absurd h0.2 (by simp)
  | pinf =>
    exfalso
    have h1 := h0.1
    have h2 := hbest (max (b + 1) (c + ∑ d : Fin n, f d * x d))
      ⟨_root_.le_trans (by rw [fin_le_fin]; exact neg_le_neg (le_max_right _ _)) h1, by simp⟩
    linarith [le_max_left (b + 1) (c + ∑ d : Fin n, f d * x d)]
  | fin u =>
    have h1 := h0.2
    rw [fin_le_fin] at h1
    refine ⟨rfl, hbest u ⟨_root_.le_trans (by rw [fin_le_fin]; exact neg_le_neg h1) h0.1, le_rfl⟩, fun z hz v hv => ?_⟩
    have := (hs z hz v hv).2
    rw [fin_le_fin] at this
    exact this

theorem bnd_inf {r : Rep} (h : r.Wf ℚ n) (hne : ∃ x : Fin n → ℚ, r.γ x) {c : ℚ} {f : ℕ → ℚ} {b : ℚ}
    (hb : ∀ x : Fin n → ℚ, r.γ x → ∀ v, (denseExpr n c f).Val (ext x) v → b ≤ v) :
    infty (r.boundLinexpr n 0 (denseExpr n c f)).inf = false ∧ b ≤ -numref (r.boundLinexpr n 0 (denseExpr n c f)).inf ∧
      ∀ x : Fin n → ℚ, r.γ x → ∀ v, (denseExpr n c f).Val (ext x) v → -numref (r.boundLinexpr n 0 (denseExpr n c f)).inf ≤ v := by
  have hs := fun x hx v hv => C93_bound_linexpr_sound (alg := 0) h (dense_indim c f) (x := x) hx (v := v) hv
  have hbest := (C93_bound_linexpr_best_partial (alg := 0) h (dense_indim c f) (dense_numeric c f) b).2 hb
  obtain ⟨x, hx⟩ := hne
  have h0 := hs x hx _ ((val_dense c f x _).2 rfl)
  generalize (r.boundLinexpr n 0 (denseExpr n c f)) = i at *
  rcases i with ⟨i, u⟩
  cases i with
  | ninf => exact absurd h0.1 (by simp)
  | pinf =>
    exfalso
    have h1 := h0.2
    have h2 := hbest (min (b - 1) (c + ∑ d : Fin n, f d * x d))
      ⟨by simp, _root_.le_trans (by rw [fin_le_fin]; exact min_le_right _ _) h1⟩
    linarith [min_le_left (b - 1) (c + ∑ d : Fin n, f d * x d)]
  | fin i =>
    have h1 := h0.1
    rw [fin_le_fin] at h1
    refine ⟨rfl, hbest (-i) ⟨by simp, _root_.le_trans (by rw [fin_le_fin]; linarith) h0.2⟩, fun z hz v hv => ?_⟩
    have := (hs z hz v hv).1
    rw [fin_le_fin] at this
    change -i ≤ v
    linarith

/-! ## The reduction -/

section
variable {D : GridDom G} {γ : G → (Fin n → ℚ) → Prop}

theorem holds_eqs {f : Full} (hf : (Rep.both f).Wf ℚ n) (x : Fin n → ℚ) :
    (∀ c ∈ f.eqs.map (linconsOfRow n), c.Holds (ext x)) ↔ EqSol f.eqs x := by
  constructor
  · intro h e he
    exact ((holds_linconsOfRow e x).1 (h _ (List.mem_map.2 ⟨e, he, rfl⟩))).2 (hf.1.min.eqs e he)
  · intro h c hc
    obtain ⟨e, he, rfl⟩ := List.mem_map.1 hc
    rw [holds_linconsOfRow]
    exact ⟨(h e he).ge, fun _ => h e he⟩

theorem reduce_cases (hD : GridSpec D γ) {intdim : ℕ} {lzy : Bool} {p : Rep} (hp : p.Wf ℚ n) {g : G} :
    ((∀ x : Fin n → ℚ, ¬ p.γ x) ∧ pkgridReduce D n intdim lzy p g = some (.bot, D.bottom)) ∨
    ∃ f g', (Rep.both f).Wf ℚ n ∧ (∀ x : Fin n → ℚ, (Rep.both f).γ x ↔ p.γ x) ∧ (∀ x, γ g' x ↔ γ g x ∧ EqSol f.eqs x) ∧
      (((∀ x, ¬ γ g' x) ∧ pkgridReduce D n intdim lzy p g = some (.bot, g')) ∨
      (∃ x, γ g' x) ∧ ∃ g2, g' = D.canonicalize g2 ∧ pkgridReduce D n intdim lzy p g =
        (congrLoop ((Rep.both f).boundLinexpr n 0) (D.toLincons g') ((D.toLincons g').length + 1) 0 []).bind fun l =>
          ((Rep.both f).meetLincons n intdim lzy l).map fun p => (p, g')) := by
  obtain ⟨w, hγ, _⟩ := C108_canonicalize (alg := 0) hp
  rw [pkgridReduce]
  rcases canonicalize_shape (n := n) (alg := 0) (pa := p) with e | ⟨f, e⟩
  · left
    rw [e] at hγ ⊢
    exact ⟨fun x hx => (hγ x).2 hx, rfl⟩
  · right
    rw [e] at hγ w ⊢
    dsimp only
    have hg1 : ∀ x, γ (if 0 < f.nbeq then D.meetLincons g (f.eqs.map (linconsOfRow n)) else g) x ↔ γ g x ∧ EqSol f.eqs x := by
      intro x
      split_ifs with h0
      · rw [hD.meet _ _ fun c hc => ?_, holds_eqs w]
        obtain ⟨q, hq, rfl⟩ := List.mem_map.1 hc
        refine ⟨q.at' 1, fun d => (q.at' (d + 2) : ℚ), ?_⟩
        rw [linconsOfRow, if_neg (by rw [w.1.min.eqs q hq]; simp)]
      · have : f.eqs = [] := by rw [Full.eqs, show f.nbeq = 0 by omega]; rfl
        rw [this]
        exact ⟨fun h => ⟨h, fun e he => absurd he (by simp)⟩, fun h => h.1⟩
    generalize (if 0 < f.nbeq then D.meetLincons g (f.eqs.map (linconsOfRow n)) else g) = g1 at hg1 ⊢
    by_cases h1 : (decide (0 < f.nbeq) && D.isBottom g1) = true
    · rw [if_pos h1]
      rw [Bool.and_eq_true] at h1
      exact ⟨f, g1, w, hγ, hg1, .inl ⟨(hD.isBottom g1).1 h1.2, rfl⟩⟩
    · rw [if_neg h1]
      have hg2 : ∀ x, γ (D.canonicalize g1) x ↔ γ g x ∧ EqSol f.eqs x := fun x => (hD.canonicalize g1 x).trans (hg1 x)
      by_cases h2 : D.isBottom (D.canonicalize g1) = true
      · rw [if_pos h2]
        exact ⟨f, _, w, hγ, hg2, .inl ⟨(hD.isBottom _).1 h2, rfl⟩⟩
      · rw [if_neg h2]
        refine ⟨f, _, w, hγ, hg2, .inr ⟨?_, g1, rfl, rfl⟩⟩
        by_contra hh
        exact h2 ((hD.isBottom _).2 fun x hx => hh ⟨x, hx⟩)

/-- the constraints of the loop are in the scope of the meet with constraints -/
theorem loop_ok (hD : GridSpec D γ) {f : Full} {g' : G} {l : List (Lincons ℚ)} {F : ℕ}
    (hl : congrLoop ((Rep.both f).boundLinexpr n 0) (D.toLincons g') F 0 [] = some l) :
    ∀ c ∈ l, c.expr.InDim n ∧ c.expr.Numeric ∧ (c.typ = .eq ∨ c.typ = .supeq) := by
  intro c hc
  obtain ⟨q, h, e, t⟩ := (congrLoop_shape (hD.shape g') _ _ _ _ hl fun c hc => absurd hc (by simp)).1 c hc
  rw [e]
  exact ⟨dense_indim q h, dense_numeric q h, t⟩

/-- the reduction does not grow any component, keeps the common points (integer on the integer dimensions), and gives a
well-formed polyhedron -/
theorem C133_reduce_sound (hD : GridSpec D γ) {intdim : ℕ} {lzy : Bool} {p p' : Rep} (hp : p.Wf ℚ n) {g g' : G}
    (h : pkgridReduce D n intdim lzy p g = some (p', g')) :
    p'.Wf ℚ n ∧ (∀ x : Fin n → ℚ, p'.γ x → p.γ x) ∧ (∀ x, γ g' x → γ g x) ∧
      ∀ x : Fin n → ℚ, IntPt intdim x → p.γ x → γ g x → p'.γ x ∧ γ g' x := by
  rcases reduce_cases (intdim := intdim) (lzy := lzy) (g := g) hD hp with ⟨hno, e⟩ | ⟨f, g1, w, hγ, hg, hc⟩
  · rw [h] at e
    cases e
    exact ⟨trivial, fun x hx => absurd hx id, fun x hx => absurd hx (hD.bottom x), fun x _ hx => absurd hx (hno x)⟩
  · have hk : ∀ x, p.γ x → γ g x → γ g1 x := fun x hx hgx =>
      (hg x).2 ⟨hgx, (eqs_hull w x).2 (subset_hull ((hγ x).2 hx))⟩
    rcases hc with ⟨hno, e⟩ | ⟨_, g2, _, e⟩ <;> rw [h] at e
    · cases e
      exact ⟨trivial, fun x hx => absurd hx id, fun x hx => ((hg x).1 hx).1, fun x _ hx hgx => absurd (hk x hx hgx) (hno x)⟩
    · obtain ⟨l, hl, e⟩ := Option.bind_eq_some_iff.1 e.symm
      obtain ⟨r, hr, e⟩ := Option.map_eq_some_iff.1 e
      cases e
      obtain ⟨r', h1, h2, h3, h4⟩ := C91_meet_lincons_sound (intdim := intdim) (lzy := lzy) w (l := l) fun c hc => (loop_ok hD hl c hc).1
      rw [hr] at h1
      cases h1
      refine ⟨h2, fun x hx => (hγ x).1 (h3 x hx), fun x hx => ((hg x).1 hx).1, fun x hi hx hgx => ?_⟩
      have hx' := (hγ x).2 hx
      have hgx' := hk x hx hgx
      refine ⟨h4 x hi hx' ?_, hgx'⟩
      refine congrLoop_sound (hD.shape g') x (fun c hc v hv => ?_) (hD.toLincons g' x hgx') _ _ _ _ hl fun c hc => absurd hc (by simp)
      obtain ⟨q, k, e, _⟩ := hD.shape g' c hc
      rw [e] at hv ⊢
      exact C93_bound_linexpr_sound w (dense_indim q k) hx' hv

/-- the reduction ends without writing out of its array, when canonical grids have at most one constraint more than dimensions -/
theorem C133_reduce_total (hD : GridSpec D γ) (hl : ∀ g, (D.toLincons (D.canonicalize g)).length ≤ n + 1) {intdim : ℕ} {lzy : Bool} {p : Rep}
    (hp : p.Wf ℚ n) (g : G) : ∃ r, pkgridReduce D n intdim lzy p g = some r := by
  rcases reduce_cases (intdim := intdim) (lzy := lzy) (g := g) hD hp with ⟨hno, e⟩ | ⟨f, g1, w, hγ, hg, ⟨hno, e⟩ | ⟨_, g2, e2, e⟩⟩
  · exact ⟨_, e⟩
  · exact ⟨_, e⟩
  · obtain ⟨l, h1⟩ := congrLoop_some (bnd := (Rep.both f).boundLinexpr n 0) (hD.shape g1) (by rw [e2]; exact hl g2)
      ((D.toLincons g1).length + 1) 0 [] (by omega) (by omega) (by simp)
    obtain ⟨r, h2, _⟩ := C91_meet_lincons_sound (intdim := intdim) (lzy := lzy) w (l := l) fun c hc => (loop_ok hD h1 c hc).1
    rw [e, h1, Option.bind_some, h2]
    exact ⟨_, rfl⟩

/-- emptiness is propagated: if the polyhedron is empty, or no point of the grid is in the affine hull of the polyhedron, both
components are empty -/
theorem C133_reduce_empty (hD : GridSpec D γ) {intdim : ℕ} {lzy : Bool} {p p' : Rep} (hp : p.Wf ℚ n) {g g' : G}
    (h : pkgridReduce D n intdim lzy p g = some (p', g')) (he : ∀ x : Fin n → ℚ, Hull p.γ x → ¬ γ g x) :
    (∀ x : Fin n → ℚ, ¬ p'.γ x) ∧ ∀ x, ¬ γ g' x := by
  rcases reduce_cases (intdim := intdim) (lzy := lzy) (g := g) hD hp with ⟨hno, e⟩ | ⟨f, g1, w, hγ, hg, hc⟩
  · rw [h] at e
    cases e
    exact ⟨fun x hx => hx, hD.bottom⟩
  · have hno : ∀ x, ¬ γ g1 x := by
      intro x hx
      obtain ⟨h1, h2⟩ := (hg x).1 hx
      refine he x ?_ h1
      have e : (Rep.both f).γ = (p.γ : (Fin n → ℚ) → Prop) := funext fun x => propext (hγ x)
      rw [← e]
      exact (eqs_hull w x).1 h2
    rcases hc with ⟨_, e⟩ | ⟨⟨x, hx⟩, _⟩
    · rw [h] at e
      cases e
      exact ⟨fun x hx => hx, hno⟩
    · exact absurd hx (hno x)

/-- the grid is in the affine hull of the polyhedron: it satisfies every linear equality that the polyhedron implies -/
theorem C133_reduce_equalities (hD : GridSpec D γ) {intdim : ℕ} {lzy : Bool} {p p' : Rep} (hp : p.Wf ℚ n) {g g' : G}
    (h : pkgridReduce D n intdim lzy p g = some (p', g')) {c : ℚ} {a : Fin n → ℚ} (he : ∀ x : Fin n → ℚ, p.γ x → c + ∑ d, a d * x d = 0) :
    ∀ x, γ g' x → c + ∑ d, a d * x d = 0 := by
  rcases reduce_cases (intdim := intdim) (lzy := lzy) (g := g) hD hp with ⟨hno, e⟩ | ⟨f, g1, w, hγ, hg, hc⟩
  · rw [h] at e
    cases e
    exact fun x hx => absurd hx (hD.bottom x)
  · have e1 : g' = g1 := by
      rcases hc with ⟨_, e⟩ | ⟨_, g2, _, e⟩ <;> rw [h] at e
      · cases e; rfl
      · obtain ⟨l, hl, e⟩ := Option.bind_eq_some_iff.1 e.symm
        obtain ⟨r, hr, e⟩ := Option.map_eq_some_iff.1 e
        cases e; rfl
    subst e1
    intro x hx
    have h1 := (eqs_hull w x).1 ((hg x).1 hx).2
    refine hull_le (T := fun x => c + ∑ d, a d * x d = 0) (.of_closed fun k u v t hu hv ht => ?_) (fun x hx => he x ((hγ x).1 hx)) h1
    have : ∑ d, a d * (k • (u - v) + t) d = k * (∑ d, a d * u d - ∑ d, a d * v d) + ∑ d, a d * t d := by
      rw [← Finset.sum_sub_distrib, Finset.mul_sum, ← Finset.sum_add_distrib]
      refine Finset.sum_congr rfl fun d _ => ?_
      simp only [Pi.add_apply, Pi.smul_apply, Pi.sub_apply, smul_eq_mul]
      ring
    rw [this]
    linear_combination k * hu - k * hv + ht

/-- an expression has no upper bound on the polyhedron, or its greatest value is a multiple of `m` -/
def NoUpper (p : Rep) (e : Linexpr ℚ) (m : ℚ) : Prop :=
  (∀ b, ∃ x : Fin n → ℚ, p.γ x ∧ ∃ v, e.Val (ext x) v ∧ b < v) ∨
    ∃ z : ℤ, (∃ x : Fin n → ℚ, p.γ x ∧ e.Val (ext x) (z * m)) ∧ ∀ x : Fin n → ℚ, p.γ x → ∀ v, e.Val (ext x) v → v ≤ z * m

/-- with real dimensions only, the bounds of the expression of a congruence are rounded to multiples of its modulus, when no
congruence before it has its upper bound changed.  Missing: the congruences after the first one whose upper bound is changed, which
are skipped (`C133_skips_constraints`). -/
theorem C133_reduce_tightens_partial (hD : GridSpec D γ) {lzy : Bool} {p p' : Rep} (hp : p.Wf ℚ n) {g g' : G}
    (h : pkgridReduce D n 0 lzy p g = some (p', g')) {j : ℕ} {c : Lincons ℚ} {m : ℚ} (hj : (D.toLincons g')[j]? = some c) (hm : c.typ = .eqmod m)
    (hno : ∀ i < j, ∀ c' m', (D.toLincons g')[i]? = some c' → c'.typ = .eqmod m' → NoUpper (n := n) p c'.expr m') :
    (∀ b, (∀ x : Fin n → ℚ, p.γ x → ∀ v, c.expr.Val (ext x) v → v ≤ b) → ∀ x : Fin n → ℚ, p'.γ x → ∀ v, c.expr.Val (ext x) v → v ≤ ⌊b / m⌋ * m) ∧
    (∀ b, (∀ x : Fin n → ℚ, p.γ x → ∀ v, c.expr.Val (ext x) v → b ≤ v) → ∀ x : Fin n → ℚ, p'.γ x → ∀ v, c.expr.Val (ext x) v → ⌈b / m⌉ * m ≤ v) := by
  rcases reduce_cases (intdim := 0) (lzy := lzy) (g := g) hD hp with ⟨_, e⟩ | ⟨f, g1, w, hγ, hg, ⟨_, e⟩ | ⟨_, g2, _, e⟩⟩ <;> rw [h] at e
  · cases e; exact ⟨fun _ _ x hx => absurd hx id, fun _ _ x hx => absurd hx id⟩
  · cases e; exact ⟨fun _ _ x hx => absurd hx id, fun _ _ x hx => absurd hx id⟩
  · obtain ⟨l, hl, e⟩ := Option.bind_eq_some_iff.1 e.symm
    obtain ⟨r, hr, e⟩ := Option.map_eq_some_iff.1 e
    cases e
    obtain ⟨r', h1, h2, h3⟩ := C91_meet_lincons_exact_partial (lzy := lzy) w (l := l) (loop_ok hD hl)
    rw [hr] at h1
    cases h1
    have hne := both_exists_point w
    obtain ⟨q, k, ec, hm'⟩ := hD.shape g' c (List.mem_of_getElem? hj)
    have hpos : 0 < m := by
      rcases hm' with hm' | ⟨m', hm0, hm'⟩ <;> rw [hm] at hm' <;> cases hm'
      exact hm0
    have hv := congrLoop_visit (hD.shape g') hj hm _ _ _ _ hl (Nat.zero_le _) (fun c hc => absurd hc (by simp)) fun i _ hij c' m' hi ht => by
      obtain ⟨q', k', ec', hm''⟩ := hD.shape g' c' (List.mem_of_getElem? hi)
      have hpos' : 0 < m' := by
        rcases hm'' with hm'' | ⟨m'', hm0, hm''⟩ <;> rw [ht] at hm'' <;> cases hm''
        exact hm0
      rcases hno i hij c' m' hi ht with hu | ⟨z, ⟨x, hx, hxv⟩, hz⟩
      · left
        by_contra hh
        rw [Bool.not_eq_true] at hh
        rw [ec'] at hu hh
        obtain ⟨x, hx, v, hxv, hlt⟩ := hu (numref ((Rep.both f).boundLinexpr n 0 (denseExpr n q' k')).sup)
        have := (C93_bound_linexpr_sound (alg := 0) w (dense_indim q' k') ((hγ x).2 hx) hxv).2
        rw [fin_of_not_infty (b := ((Rep.both f).boundLinexpr n 0 (denseExpr n q' k')).sup) (by rw [hh]; simp), fin_le_fin] at this
        exact absurd this (not_le.2 hlt)
      · right
        rw [ec'] at hz hxv ⊢
        obtain ⟨_, b2, b3⟩ := bnd_sup w hne fun x hx v hv => hz x ((hγ x).1 hx) v hv
        rw [le_antisymm b2 (b3 x ((hγ x).2 hx) _ hxv), mul_div_assoc, div_self hpos'.ne', mul_one]
        rfl
    rw [ec] at hv ⊢
    constructor
    · intro b hb x hx v hxv
      obtain ⟨b1, b2, b3⟩ := bnd_sup w hne fun x hx v hv => hb x ((hγ x).1 hx) v hv
      have hfl : (⌊numref ((Rep.both f).boundLinexpr n 0 (denseExpr n q k)).sup / m⌋ : ℚ) * m ≤ ⌊b / m⌋ * m :=
        mul_le_mul_of_nonneg_right (Int.cast_le.2 (Int.floor_le_floor (div_le_div_of_nonneg_right b2 hpos.le))) hpos.le
      refine _root_.le_trans ?_ hfl
      rcases hv.2 with h5 | h5 | h5
      · rw [b1] at h5; cases h5
      · obtain ⟨z, hz⟩ := (den_one_iff _).1 h5
        rw [hz, Int.floor_intCast, ← hz, div_mul_cancel₀ _ hpos.ne']
        exact b3 x ((h3 x).1 hx).1 v hxv
      · exact (holds_upper _ _ _ x).1 (((h3 x).1 hx).2 _ h5) v hxv
    · intro b hb x hx v hxv
      obtain ⟨b1, b2, b3⟩ := bnd_inf w hne fun x hx v hv => hb x ((hγ x).1 hx) v hv
      have hfl : (⌈b / m⌉ : ℚ) * m ≤ ⌈-numref ((Rep.both f).boundLinexpr n 0 (denseExpr n q k)).inf / m⌉ * m :=
        mul_le_mul_of_nonneg_right (Int.cast_le.2 (Int.ceil_le_ceil (div_le_div_of_nonneg_right b2 hpos.le))) hpos.le
      refine _root_.le_trans hfl ?_
      rcases hv.1 with h5 | h5 | h5
      · rw [b1] at h5; cases h5
      · obtain ⟨z, hz⟩ := (den_one_iff _).1 h5
        rw [hz, Int.ceil_intCast, ← hz, div_mul_cancel₀ _ hpos.ne']
        exact b3 x ((h3 x).1 hx).1 v hxv
      · exact (holds_lower _ _ _ x).1 (((h3 x).1 hx).2 _ h5) v hxv

end

/-! ## Instances of the specification -/

/-- grids given by their constraints, in any number of dimensions -/
def LGrid (n : ℕ) : Type := {l : List (Lincons ℚ) // Shape n l}

def LGrid.pts (g : LGrid n) (x : Fin n → ℚ) : Prop := ∀ c ∈ g.1, c.Holds (ext x)

open Classical in
noncomputable def LGrid.dom (n : ℕ) : GridDom (LGrid n) where
  bottom := ⟨[⟨.eq, denseExpr n 1 fun _ => 0⟩], fun c hc => by
    rw [List.mem_singleton] at hc
    subst hc
    exact ⟨_, _, rfl, .inl rfl⟩⟩
  meetLincons g l := if h : Shape n l then ⟨g.1 ++ l, fun c hc => (List.mem_append.1 hc).elim (g.2 c) (h c)⟩ else g
  isBottom g := decide (∀ x, ¬ g.pts x)
  canonicalize g := g
  toLincons g := g.1

theorem LGrid.spec (n : ℕ) : GridSpec (LGrid.dom n) (LGrid.pts (n := n)) where
  bottom x h := by
    obtain ⟨v, hv, hr⟩ := h ⟨.eq, denseExpr n 1 fun _ => 0⟩ (List.mem_singleton.2 rfl)
    rw [val_dense] at hv
    have : v = 0 := hr
    simp [this] at hv
  meet g l hl x := by
    have h : Shape n l := fun c hc => by
      obtain ⟨q, f, rfl⟩ := hl c hc
      exact ⟨q, f, rfl, .inl rfl⟩
    have e : (LGrid.dom n).meetLincons g l = ⟨g.1 ++ l, fun c hc => (List.mem_append.1 hc).elim (g.2 c) (h c)⟩ := dif_pos h
    rw [e]
    exact ⟨fun hh => ⟨fun c hc => hh c (List.mem_append_left _ hc), fun c hc => hh c (List.mem_append_right _ hc)⟩,
      fun hh c hc => (List.mem_append.1 hc).elim (hh.1 c) (hh.2 c)⟩
  isBottom g := by simp [LGrid.dom]
  canonicalize g x := Iff.rfl
  toLincons g x h c hc := h c hc
  shape g := g.2

/-- grids on one dimension, with at most two constraints -/
def OneGrid : Type := {S : (Fin 1 → ℚ) → Prop // ∃ l, Shape 1 l ∧ l.length ≤ 2 ∧ ∀ x, S x ↔ ∀ c ∈ l, c.Holds (ext x)}

theorem shape_eq (q : ℚ) (f : ℕ → ℚ) : Shape n [⟨.eq, denseExpr n q f⟩] := fun c hc => by
  rw [List.mem_singleton] at hc
  subst hc
  exact ⟨_, _, rfl, .inl rfl⟩

theorem holds_eq_iff (q : ℚ) (f : ℕ → ℚ) (x : Fin n → ℚ) :
    (⟨.eq, denseExpr n q f⟩ : Lincons ℚ).Holds (ext x) ↔ q + ∑ d : Fin n, f d * x d = 0 := by
  constructor
  · rintro ⟨v, hv, hr⟩
    rw [val_dense] at hv
    rw [← hv]; exact hr
  · intro h
    exact ⟨_, (val_dense q f x _).2 rfl, h⟩

def OneGrid.empty : OneGrid := ⟨fun _ => False, [⟨.eq, denseExpr 1 1 fun _ => 0⟩], shape_eq _ _, by simp, fun x => by
  simp [holds_eq_iff]⟩

/-- the grids on one dimension are closed under the meet with equalities -/
theorem OneGrid.closed (g : OneGrid) (l : List (Lincons ℚ)) (hl : ∀ c ∈ l, ∃ q f, c = ⟨.eq, denseExpr 1 q f⟩) :
    ∃ g' : OneGrid, ∀ x, g'.1 x ↔ g.1 x ∧ ∀ c ∈ l, c.Holds (ext x) := by
  by_cases h0 : ∀ x : Fin 1 → ℚ, ∀ c ∈ l, c.Holds (ext x)
  · exact ⟨g, fun x => ⟨fun h => ⟨h, h0 x⟩, fun h => h.1⟩⟩
  · by_cases h1 : ∃ x, g.1 x ∧ ∀ c ∈ l, c.Holds (ext x)
    · obtain ⟨y, hy, hyl⟩ := h1
      push Not at h0
      obtain ⟨z, c, hc, hz⟩ := h0
      obtain ⟨q, f, rfl⟩ := hl c hc
      have hyc := hyl _ hc
      rw [holds_eq_iff] at hz hyc
      simp only [Finset.univ_unique, Fin.default_eq_zero, Finset.sum_singleton, Fin.val_zero] at hz hyc
      have hf : f 0 ≠ 0 := by
        intro hf
        rw [hf] at hz hyc
        apply hz
        linarith
      refine ⟨⟨fun x => x = y, [⟨.eq, denseExpr 1 q f⟩], shape_eq _ _, by simp, fun x => ?_⟩, fun x => ?_⟩
      · simp only [List.mem_singleton, forall_eq, holds_eq_iff, Finset.univ_unique, Fin.default_eq_zero, Finset.sum_singleton, Fin.val_zero]
        constructor
        · rintro rfl; exact hyc
        · intro h
          funext d
          rw [Subsingleton.elim d 0]
          exact mul_left_cancel₀ hf (by linarith)
      · constructor
        · intro e; have e : x = y := e; rw [e]; exact ⟨hy, hyl⟩
        · rintro ⟨_, h⟩
          have := h _ hc
          rw [holds_eq_iff] at this
          simp only [Finset.univ_unique, Fin.default_eq_zero, Finset.sum_singleton, Fin.val_zero] at this
          funext d
          rw [Subsingleton.elim d 0]
          exact mul_left_cancel₀ hf (by linarith)
    · exact ⟨.empty, fun x => ⟨fun h => absurd h id, fun h => h1 ⟨x, h⟩⟩⟩

open Classical in
noncomputable def OneGrid.dom : GridDom OneGrid where
  bottom := .empty
  meetLincons g l := if h : ∀ c ∈ l, ∃ q f, c = ⟨.eq, denseExpr 1 q f⟩ then (g.closed l h).choose else g
  isBottom g := decide (∀ x, ¬ g.1 x)
  canonicalize g := g
  toLincons g := g.2.choose

theorem OneGrid.spec : GridSpec (n := 1) OneGrid.dom (fun g : OneGrid => g.1) where
  bottom x h := h
  meet g l hl x := by
    have e : OneGrid.dom.meetLincons g l = (g.closed l hl).choose := dif_pos hl
    rw [e]
    exact (g.closed l hl).choose_spec x
  isBottom g := by simp [OneGrid.dom]
  canonicalize g x := Iff.rfl
  toLincons g x h := (g.2.choose_spec.2.2 x).1 h
  shape g := g.2.choose_spec.1

/-- non-vacuity of `C133_reduce_total`: the grids on one dimension -/
example {intdim : ℕ} {lzy : Bool} {p : Rep} (hp : p.Wf ℚ 1) (g : OneGrid) : ∃ r, pkgridReduce OneGrid.dom 1 intdim lzy p g = some r :=
  C133_reduce_total OneGrid.spec (fun g => g.2.choose_spec.2.1) hp g

/-! ## The loop variable -/

/-- the square `[0, 3] × [0, 3]` -/
def square : Rep := .cons [[1, 1, 0, 0], [1, 0, 1, 0], [1, 3, -1, 0], [1, 0, 0, 1], [1, 3, 0, -1]]

theorem square_wf : square.Wf ℚ 2 := cons_wf (by decide)

/-- `x` and `y` are even -/
def evens : LGrid 2 := ⟨[⟨.eqmod 2, denseExpr 2 0 fun d => if d = 0 then 1 else 0⟩, ⟨.eqmod 2, denseExpr 2 0 fun d => if d = 1 then 1 else 0⟩],
  fun c hc => by
    simp only [List.mem_cons, List.not_mem_nil, or_false] at hc
    rcases hc with rfl | rfl <;> exact ⟨_, _, rfl, .inr ⟨2, by norm_num, rfl⟩⟩⟩

theorem evens_zero : evens.pts (fun _ => 0) := by
  intro c hc
  simp only [evens, List.mem_cons, List.not_mem_nil, or_false] at hc
  rcases hc with rfl | rfl <;> exact ⟨0, (val_dense _ _ _ _).2 (by simp), 0, by simp⟩

/-- what the loop gives on the square -/
theorem square_loop : ∃ f, square.canonicalize 2 0 = .both f ∧ f.nbeq = 0 ∧ congrLoop ((Rep.both f).boundLinexpr 2 0) evens.1 3 0 [] =
    some [⟨.supeq, denseExpr 2 2 fun d => if d = 0 then -1 else 0⟩] := by
  have h : (match square.canonicalize 2 0 with
    | .both f => decide (f.nbeq = 0) && decide (congrLoop ((Rep.both f).boundLinexpr 2 0) evens.1 3 0 [] =
        some [⟨.supeq, denseExpr 2 2 fun d => if d = 0 then -1 else 0⟩])
    | _ => false) = true := by decide +kernel
  cases e : square.canonicalize 2 0 with
  | both f =>
    rw [e] at h
    dsimp only at h
    rw [Bool.and_eq_true, decide_eq_true_iff, decide_eq_true_iff] at h
    exact ⟨f, rfl, h.1, h.2⟩
  | _ => rw [e] at h; cases h

theorem square_reduce (lzy : Bool) : ∃ p', pkgridReduce (LGrid.dom 2) 2 0 lzy square evens = some (p', evens) ∧
    ∀ x : Fin 2 → ℚ, p'.γ x ↔ square.γ x ∧ x 0 ≤ 2 := by
  obtain ⟨f, e, h0, hl⟩ := square_loop
  obtain ⟨w, hγ, _⟩ := C108_canonicalize (alg := 0) square_wf
  rw [e] at w hγ
  obtain ⟨r, h1, h2, h3⟩ := C91_meet_lincons_exact_partial (lzy := lzy) w (l := [⟨.supeq, denseExpr 2 2 fun d => if d = 0 then -1 else 0⟩])
    (fun c hc => by
      rw [List.mem_singleton] at hc
      subst hc
      exact ⟨dense_indim _ _, dense_numeric _ _, .inr rfl⟩)
  refine ⟨r, ?_, fun x => ?_⟩
  · rw [pkgridReduce, e]
    dsimp only
    rw [h0]
    have hb : ((LGrid.dom 2).isBottom ((LGrid.dom 2).canonicalize evens)) = false := by
      rw [Bool.eq_false_iff, Ne, (LGrid.spec 2).isBottom]
      intro h
      exact h _ evens_zero
    simp only [lt_self_iff_false, decide_false, Bool.false_and, if_false, Bool.false_eq_true, hb]
    change (congrLoop ((Rep.both f).boundLinexpr 2 0) evens.1 3 0 []).bind _ = _
    rw [hl, Option.bind_some, h1]
    rfl
  · rw [h3, hγ]
    refine and_congr_right fun _ => ?_
    simp only [List.mem_singleton, forall_eq]
    constructor
    · rintro ⟨v, hv, hr⟩
      rw [val_dense] at hv
      have : 0 ≤ v := hr
      rw [hv] at this
      simp at this
      linarith
    · intro h
      refine ⟨_, (val_dense _ _ _ _).2 rfl, ?_⟩
      change (0 : ℚ) ≤ _
      simp
      linarith

/-- on the square `[0, 3] × [0, 3]` with `x` and `y` even, the bound of `x` becomes 2, but that of `y` stays 3: the loop that
negates the coefficients of the first congruence changes the index of the main loop, and the second congruence is skipped -/
theorem C133_skips_constraints (lzy : Bool) : ∃ p', pkgridReduce (LGrid.dom 2) 2 0 lzy square evens = some (p', evens) ∧
    (∀ x : Fin 2 → ℚ, p'.γ x → x 0 ≤ 2) ∧ (∀ x : Fin 2 → ℚ, square.γ x → x 1 ≤ 3) ∧ ∃ x : Fin 2 → ℚ, p'.γ x ∧ x 1 = 3 := by
  obtain ⟨p', h1, h2⟩ := square_reduce lzy
  have hs : ∀ x : Fin 2 → ℚ, square.γ x ↔ 0 ≤ x 0 ∧ x 0 ≤ 3 ∧ 0 ≤ x 1 ∧ x 1 ≤ 3 := by
    intro x
    change Sat _ (hom x) ↔ _
    rw [sat_iff_rowSat]
    simp only [List.mem_cons, List.not_mem_nil, or_false, forall_eq_or_imp, forall_eq, RowSat, dot_hom, Fin.sum_univ_two]
    norm_num [Row.at']
  refine ⟨p', h1, fun x hx => ((h2 x).1 hx).2, fun x hx => ((hs x).1 hx).2.2.2, fun d => if d = 0 then 0 else 3, (h2 _).2 ⟨(hs _).2 ?_, ?_⟩, ?_⟩ <;>
    norm_num

/-- non-vacuity of `C133_reduce_sound` and `C133_reduce_tightens_partial`: the square, and the first congruence -/
example (lzy : Bool) : ∃ p', pkgridReduce (LGrid.dom 2) 2 0 lzy square evens = some (p', evens) ∧ p'.Wf ℚ 2 ∧
    ∀ b, (∀ x : Fin 2 → ℚ, square.γ x → ∀ v, (denseExpr 2 0 fun d => if d = 0 then 1 else 0).Val (ext x) v → v ≤ b) →
      ∀ x : Fin 2 → ℚ, p'.γ x → ∀ v, (denseExpr 2 0 fun d => if d = 0 then 1 else 0).Val (ext x) v → v ≤ ⌊b / 2⌋ * 2 := by
  obtain ⟨p', h, _⟩ := square_reduce lzy
  exact ⟨p', h, (C133_reduce_sound (LGrid.spec 2) square_wf h).1,
    (C133_reduce_tightens_partial (LGrid.spec 2) square_wf h (j := 0) rfl rfl fun i hi => absurd hi (by omega)).1⟩

end Apron.Props
