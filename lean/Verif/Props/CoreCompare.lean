import Verif.Core.CompareLemmas
import Verif.Props.CoreLinexpr

/-!
# Comparison, equality and hashing of scalars, intervals, coefficients and linear expressions:
properties C51, C52, C68
-/

set_option autoImplicit false
set_option linter.unusedSectionVars false
set_option linter.ambiguousOpen false

namespace Apron
open Bound Linexpr
variable {K : Type*} [LinearOrder K] [Field K] [IsStrictOrderedRing K]

/-! ## C51: scalars -/

/-- the sign of `ap_scalar_cmp` is the order of the extended line -/
theorem C51_scalar_cmp (a b : Bound K) :
    (scalarCmp a b < 0 ↔ a < b) ∧ (scalarCmp a b = 0 ↔ a = b) ∧ (0 < scalarCmp a b ↔ b < a) := by
  rw [scalarCmp_eq]
  rcases cmp_cases a b with ⟨h1, h2, h3, h4, h5⟩ | ⟨h1, h2, h3, h4, h5⟩ | ⟨h1, h2, h3, h4, h5⟩ <;>
    simp [h1, h2, h3, h4]

/-- hence reflexive, antisymmetric, transitive -/
theorem C51_scalar_order (a b c : Bound K) :
    scalarCmp a a = 0 ∧ scalarCmp b a = - scalarCmp a b ∧
    (scalarCmp a b ≤ 0 → scalarCmp b c ≤ 0 → scalarCmp a c ≤ 0) := by
  have hle : ∀ a b : Bound K, scalarCmp a b ≤ 0 ↔ a ≤ b := fun a b => by
    rw [← not_lt, (C51_scalar_cmp a b).2.2, not_lt]
  refine ⟨(C51_scalar_cmp a a).2.1.2 rfl, ?_, by simp only [hle]; exact le_trans⟩
  rw [scalarCmp_eq, scalarCmp_eq]
  rcases cmp_cases a b with ⟨-, -, -, h4, h5⟩ | ⟨-, -, -, h4, h5⟩ | ⟨-, -, -, h4, h5⟩ <;> simp [h4, h5]

/-- `ap_scalar_equal`, `ap_scalar_cmp_int`, `ap_scalar_sgn` agree with `ap_scalar_cmp` -/
theorem C51_scalar_agree (a b : Bound K) (i : ℤ) :
    (scalarEqual a b = true ↔ scalarCmp a b = 0) ∧ scalarCmpInt a i = scalarCmp a (fin (i : K)) ∧
    scalarSgn a = scalarCmp a (fin 0) := by
  refine ⟨by rw [scalarEqual_iff, (C51_scalar_cmp a b).2.1], ?_, ?_⟩
  · cases a <;> simp [scalarCmpInt, scalarCmp, scalarInfty]
  · cases a with
    | ninf => simp [scalarSgn, scalarCmp, scalarInfty]
    | pinf => simp [scalarSgn, scalarCmp, scalarInfty]
    | fin q =>
      simp only [scalarSgn, scalarCmp, scalarInfty, lt_self_iff_false, gt_iff_lt, if_false]
      rcases lt_trichotomy q 0 with h | h | h
      · simp [h, h.not_gt, h.ne]
      · simp [h]
      · simp [h]

/-! ## C51: intervals -/

/-- `ap_interval_is_bottom`, `ap_interval_is_top`, `ap_interval_is_leq`, `ap_interval_equal` on the sets
of values -/
theorem C51_interval_tests (l u l' u' : Bound K) (hl : l ≠ pinf) (hu : u ≠ ninf) (hl' : l' ≠ pinf)
    (hu' : u' ≠ ninf) :
    (intervalIsBottom l u = true ↔ ∀ q, ¬ (Coeff.interval l u).Has q) ∧
    (intervalIsTop l u = true ↔ ∀ q, (Coeff.interval l u).Has q) ∧
    (intervalIsLeq l u l' u' = true ↔ ∀ q, (Coeff.interval l u).Has q → (Coeff.interval l' u').Has q) ∧
    (intervalEqual l u l' u' = true ↔ ∀ q, (Coeff.interval l u).Has q ↔ (Coeff.interval l' u').Has q) := by
  have hb : ∀ {l u : Bound K}, l ≠ pinf → u ≠ ninf →
      (intervalIsBottom l u = true ↔ ∀ q, ¬ (Coeff.interval l u).Has q) := by
    intro l u hl hu
    rw [intervalIsBottom_iff, ← not_le, ← Coeff.exists_has hl hu, not_exists]; rfl
  have hleq : ∀ {l u l' u' : Bound K}, l ≠ pinf → u ≠ ninf →
      (intervalIsLeq l u l' u' = true ↔ ∀ q, (Coeff.interval l u).Has q → (Coeff.interval l' u').Has q) := by
    intro l u l' u' hl hu
    have h1 : scalarCmp l l' ≥ 0 ↔ l' ≤ l := by rw [ge_iff_le, ← not_lt, (C51_scalar_cmp l l').1, not_lt]
    have h2 : scalarCmp u u' ≤ 0 ↔ u ≤ u' := by rw [← not_lt, (C51_scalar_cmp u u').2.2, not_lt]
    simp only [intervalIsLeq, Bool.or_eq_true, Bool.and_eq_true, decide_eq_true_eq, h1, h2, hb hl hu]
    constructor
    · rintro (⟨g1, g2⟩ | g) q hq
      · exact ⟨g1.trans hq.1, hq.2.trans g2⟩
      · exact absurd hq (g q)
    · intro h
      by_cases he : ∃ q, (Coeff.interval l u).Has q
      · obtain ⟨q, hq⟩ := he
        have hq' := h q hq
        exact Or.inl ⟨Coeff.inf_le_of_sub hq.2 hq'.1 hq.1 h, Coeff.sup_le_of_sub hq.1 hq'.2 hq.2 h⟩
      · right; push Not at he; exact he
  refine ⟨hb hl hu, ?_, hleq hl hu, ?_⟩
  · simp only [intervalIsTop, Bool.and_eq_true, decide_eq_true_eq]
    constructor
    · rintro ⟨h1, h2⟩ q
      cases l <;> simp [scalarInfty] at h1
      cases u <;> simp [scalarInfty] at h2
      exact ⟨by simp, by simp⟩
    · intro h
      constructor
      · cases l with
        | ninf => simp [scalarInfty]
        | pinf => exact absurd rfl hl
        | fin p =>
          have := (h (p - 1)).1
          rw [Bound.fin_le_fin] at this
          linarith
      · cases u with
        | pinf => simp [scalarInfty]
        | ninf => exact absurd rfl hu
        | fin p =>
          have := (h (p + 1)).2
          rw [Bound.fin_le_fin] at this
          linarith
  · have h1 : intervalEqual l u l' u' = true ↔ (intervalIsLeq l u l' u' = true ∧ intervalIsLeq l' u' l u = true) := by
      have c1 : ∀ a b : Bound K, scalarCmp a b ≥ 0 ↔ b ≤ a := fun a b => by
        rw [ge_iff_le, ← not_lt, (C51_scalar_cmp a b).1, not_lt]
      have c2 : ∀ a b : Bound K, scalarCmp a b ≤ 0 ↔ a ≤ b := fun a b => by
        rw [← not_lt, (C51_scalar_cmp a b).2.2, not_lt]
      simp only [intervalEqual, intervalIsLeq, Bool.or_eq_true, Bool.and_eq_true, decide_eq_true_eq, c1, c2,
        scalarEqual_iff, intervalIsBottom_iff]
      split_ifs with e
      · simp [e.1, e.2]
      · rw [Bool.and_eq_true, intervalIsBottom_iff, intervalIsBottom_iff]
        constructor
        · exact fun h => ⟨Or.inr h.1, Or.inr h.2⟩
        · rintro ⟨g1 | g1, g2 | g2⟩
          · exact absurd ⟨le_antisymm g2.1 g1.1, le_antisymm g1.2 g2.2⟩ e
          · exact ⟨lt_of_le_of_lt g1.2 (lt_of_lt_of_le g2 g1.1), g2⟩
          · exact ⟨g1, lt_of_le_of_lt g2.2 (lt_of_lt_of_le g1 g2.1)⟩
          · exact ⟨g1, g2⟩
    rw [h1, hleq hl hu, hleq hl' hu']
    exact ⟨fun h q => ⟨h.1 q, h.2 q⟩, fun h => ⟨fun q => (h q).1, fun q => (h q).2⟩⟩

/-- On non-empty intervals `ap_interval_cmp` is a total order with the documented meaning: 0 for equal
intervals, -1/+1 for strict inclusion, -2/+2 for the order of the lower bounds of incomparable
intervals.  Missing: empty intervals. -/
theorem C51_interval_cmp_partial (l u l' u' l'' u'' : Bound K) (h : l ≤ u) (h' : l' ≤ u') (h'' : l'' ≤ u'') :
    (intervalCmp l u l' u' = 0 ↔ l = l' ∧ u = u') ∧
    (intervalCmp l u l' u' = -1 ↔ l' ≤ l ∧ u ≤ u' ∧ ¬ (l = l' ∧ u = u')) ∧
    (intervalCmp l u l' u' = 1 ↔ l ≤ l' ∧ u' ≤ u ∧ ¬ (l = l' ∧ u = u')) ∧
    (intervalCmp l u l' u' = -2 ↔ l < l' ∧ u < u') ∧
    (intervalCmp l u l' u' = 2 ↔ l' < l ∧ u' < u) ∧
    (intervalCmp l u l' u' ≤ 0 → intervalCmp l' u' l'' u'' ≤ 0 → intervalCmp l u l'' u'' ≤ 0) := by
  have hle : ∀ {a b a' b' : Bound K}, a ≤ b → a' ≤ b' →
      (intervalCmp a b a' b' ≤ 0 ↔ b < b' ∨ (b = b' ∧ a' ≤ a)) := by
    intro a b a' b' h1 h2
    rw [← not_lt, show (0 < intervalCmp a b a' b') ↔ intervalCmp a' b' a b < 0 by
      rw [intervalCmp_antisymm a b a' b']; omega, intervalCmp_lt h2 h1]
    rcases lt_trichotomy b b' with e | e | e
    · simp [e, e.not_gt, e.ne']
    · subst e; simp
    · simp [e, e.not_gt, e.ne']
  refine ⟨intervalCmp_zero h h', ?_, ?_, ?_, ?_, ?_⟩
  case _ | _ | _ | _ =>
    have b1 : intervalIsBottom l u = false := by
      rw [← Bool.not_eq_true, intervalIsBottom_iff]; exact not_lt.2 h
    have b2 : intervalIsBottom l' u' = false := by
      rw [← Bool.not_eq_true, intervalIsBottom_iff]; exact not_lt.2 h'
    simp only [intervalCmp, b1, b2, scalarCmp_eq, Bool.false_and, Bool.false_eq_true, if_false, ← not_lt]
    rcases cmp_cases l l' with ⟨a1, a2, a3, a4, a5⟩ | ⟨a1, a2, a3, a4, a5⟩ | ⟨a1, a2, a3, a4, a5⟩ <;>
    rcases cmp_cases u u' with ⟨b1, b2, b3, b4, b5⟩ | ⟨b1, b2, b3, b4, b5⟩ | ⟨b1, b2, b3, b4, b5⟩ <;>
      simp only [a1, a2, a3, a4, a5, b1, b2, b3, b4, b5] <;> decide
  rw [hle h h', hle h' h'', hle h h'']
  rintro (g1 | ⟨g1, g2⟩) (g3 | ⟨g3, g4⟩)
  · exact Or.inl (g1.trans g3)
  · exact Or.inl (g3 ▸ g1)
  · exact Or.inl (g1 ▸ g3)
  · exact Or.inr ⟨g1.trans g3, g4.trans g2⟩

/-- the sign of `ap_interval_cmp` changes when the arguments are exchanged, for all intervals -/
theorem C51_interval_cmp_antisymm (l u l' u' : Bound K) : intervalCmp l' u' l u = - intervalCmp l u l' u' :=
  intervalCmp_antisymm l u l' u'

/-- The claim fails on empty intervals: two empty intervals may compare as different, and 0 is not
transitive: `[1,0]` and `[2,1]` compare as equal, `[2,1]` and `[3/2,-1]` too, but not `[3/2,-1]` and
`[1,0]`. -/
theorem C51_interval_cmp_empty_wrong :
    (intervalEqual (fin (1 : ℚ)) (fin 0) (fin 2) (fin (-3)) = true ∧
      intervalCmp (fin (1 : ℚ)) (fin 0) (fin 2) (fin (-3)) = 1) ∧
    (intervalCmp (fin (1 : ℚ)) (fin 0) (fin 2) (fin 1) = 0 ∧
      intervalCmp (fin (2 : ℚ)) (fin 1) (fin (3 / 2)) (fin (-1)) = 0 ∧
      intervalCmp (fin (1 : ℚ)) (fin 0) (fin (3 / 2)) (fin (-1)) = 1) := by
  decide +kernel

/-! ## C51: coefficients and expressions -/

/-- `ap_coeff_cmp` on reduced coefficients: a scalar is less than any interval -/
theorem C51_coeff_cmp (c c' : Coeff K) (h : c.Nonempty) (h' : c'.Nonempty) :
    (c.cmp c' = 0 ↔ c = c') ∧ c'.cmp c = - c.cmp c' := by
  cases c with
  | scalar a =>
    cases c' with
    | scalar b =>
      simp only [Coeff.cmp, Coeff.scalar.injEq]
      exact ⟨(C51_scalar_cmp a b).2.1, (C51_scalar_order a b a).2.1⟩
    | interval l u => simp [Coeff.cmp]
  | interval l u =>
    cases c' with
    | scalar b => simp [Coeff.cmp]
    | interval l' u' =>
      simp only [Coeff.cmp, Coeff.interval.injEq]
      exact ⟨intervalCmp_zero h h', intervalCmp_antisymm l u l' u'⟩

/-- `ap_coeff_equal` on reduced coefficients (`ap_coeff_reduce`) compares the sets of values -/
theorem C51_coeff_equal (c c' : Coeff K) (h : c.Proper) (h' : c'.Proper) :
    c.reduce.equal c'.reduce = true ↔ ∀ q, c.Has q ↔ c'.Has q :=
  Coeff.equal_reduce_iff h h'

/-- free slots hold the coefficient 0, as `ap_linexpr0_alloc` leaves them -/
def FreeSlotsZero (e : Linexpr K) : Prop := ∀ p ∈ e.slots, p.1 = dimMax → p.2 = .scalar (fin 0)
/-- all stored coefficients are proper -/
def SlotsProper (e : Linexpr K) : Prop := e.cst.Proper ∧ ∀ p ∈ e.slots, p.2.Proper
/-- the expression has no free slot -/
def NoFreeSlot (e : Linexpr K) : Prop := ∀ p ∈ e.slots, p.1 ≠ dimMax

theorem slots_wf {e : Linexpr K} (he : e.Wf) : SparseWf e.slots := by
  obtain ⟨c0, b⟩ := e
  cases b with
  | sparse l => exact he
  | dense l =>
    have hl : l.length ≤ dimMax := he
    have hd : (slots ⟨c0, .dense l⟩).map Prod.fst = List.range l.length := terms_dense_dims c0 l
    refine ⟨?_, fun p hp => ?_⟩
    · rw [hd]; exact List.pairwise_lt_range.imp fun h => Or.inl h
    · have : p.1 ∈ (slots ⟨c0, .dense l⟩).map Prod.fst := List.mem_map.2 ⟨p, hp, rfl⟩
      rw [hd, List.mem_range] at this; omega

theorem look_slots {e : Linexpr K} (he : e.Wf) (hf : FreeSlotsZero e) (d : ℕ) : look e.slots d = e.coeffAt d := by
  obtain ⟨c0, b⟩ := e
  cases b with
  | dense l => rfl
  | sparse l =>
    have hw : SparseWf l := he
    by_cases hd : d = dimMax
    · rw [coeffAt_of_not_mem he fun c hc => ((hw.mem_terms _).1 hc).2 hd]
      exact look_not_mem fun p hp e => hf p hp (e.trans hd)
    · show look l d = ((l.takeWhile _).lookup d).getD czero
      have : ∀ m : List (ℕ × Coeff K), SparseWf m → m.lookup d =
          (m.takeWhile fun p => decide (p.1 ≠ dimMax)).lookup d := by
        intro m
        induction m with
        | nil => intro _; rfl
        | cons p m ih =>
          intro hm
          obtain ⟨a, c⟩ := p
          have hm' := sparseWf_cons.1 hm
          by_cases ha : a = dimMax
          · rw [List.takeWhile_cons_of_neg (by simpa using ha)]
            simp only [List.lookup_nil]
            rw [List.lookup_eq_none_iff]
            intro q hq
            rcases List.mem_cons.1 hq with rfl | hq
            · simpa [ha] using hd
            · rcases hm'.2.2 q hq with h | h
              · have := hm'.2.1.2 q hq; simp only at h; omega
              · simpa [h] using hd
          · rw [List.takeWhile_cons_of_pos (by simpa using ha), List.lookup_cons, List.lookup_cons, ih hm'.2.1]
      unfold look
      rw [this l hw]

/-- `ap_linexpr0_equal`: when it returns, the result tells whether the constants and all coefficients
have the same values.  Missing: it does not return on some expressions with free slots. -/
theorem C51_linexpr_equal_partial (e1 e2 : Linexpr K) (h1 : e1.Wf) (h2 : e2.Wf) (f1 : FreeSlotsZero e1)
    (f2 : FreeSlotsZero e2) (p1 : SlotsProper e1) (p2 : SlotsProper e2) (b : Bool)
    (h : Linexpr.equal e1 e2 = some b) :
    b = true ↔ (∀ q, e1.cst.Has q ↔ e2.cst.Has q) ∧ ∀ d q, (e1.coeffAt d).Has q ↔ (e2.coeffAt d).Has q := by
  unfold Linexpr.equal at h
  split_ifs at h with hc
  · have hc' := (Coeff.equal_reduce_iff p1.1 p2.1).1 hc
    rw [equalLoop_spec _ _ (slots_wf h1) (slots_wf h2) f1 f2 p1.2 p2.2 b h]
    simp only [look_slots h1 f1, look_slots h2 f2]
    exact ⟨fun h => ⟨hc', h⟩, fun h => h.2⟩
  · cases h
    simp only [Bool.false_eq_true, false_iff]
    exact fun h => hc ((Coeff.equal_reduce_iff p1.1 p2.1).2 h.1)

/-- without free slots `ap_linexpr0_equal` returns -/
theorem C51_linexpr_equal_defined (e1 e2 : Linexpr K) (h1 : NoFreeSlot e1) (h2 : NoFreeSlot e2) :
    (Linexpr.equal e1 e2).isSome = true := by
  unfold Linexpr.equal
  split_ifs
  · exact equalLoop_total _ _ h1 h2
  · rfl

/-- expressions found equal have the same values at every point -/
theorem C51_linexpr_equal_values (e1 e2 : Linexpr K) (h1 : e1.Wf) (h2 : e2.Wf) (f1 : FreeSlotsZero e1)
    (f2 : FreeSlotsZero e2) (p1 : SlotsProper e1) (p2 : SlotsProper e2)
    (h : Linexpr.equal e1 e2 = some true) (x : ℕ → K) (v : K) : e1.Val x v ↔ e2.Val x v := by
  obtain ⟨g1, g2⟩ := (C51_linexpr_equal_partial e1 e2 h1 h2 f1 f2 p1 p2 true h).1 rfl
  unfold Val
  obtain ⟨N, hN⟩ := exists_bound e1.terms
  obtain ⟨N', hN'⟩ := exists_bound e2.terms
  have ht : ∀ r, TermsVal e1.terms x r ↔ TermsVal e2.terms x r := by
    intro r
    rw [termsVal_iff h1.terms_sorted (N := max N N') fun p hp => by have := hN p hp; omega,
      termsVal_iff h2.terms_sorted (N := max N N') fun p hp => by have := hN' p hp; omega]
    refine exists_congr fun q => and_congr_left fun _ => forall_congr' fun d => g2 d (q d)
  simp only [g1, ht]

/-- The claim fails on expressions with free slots: comparing `x0` with a free slot to `x0` without
one dereferences a null pointer. -/
theorem C51_linexpr_equal_crash :
    let e1 : Linexpr ℚ := ⟨.scalar (fin 0), .sparse [(0, .scalar (fin 1)), (dimMax, .scalar (fin 0))]⟩
    let e2 : Linexpr ℚ := ⟨.scalar (fin 0), .sparse [(0, .scalar (fin 1))]⟩
    Linexpr.equal e1 e2 = none ∧ Linexpr.compare e1 e2 = none := by
  have e : dimMax = 4294967295 := rfl
  simp only [Linexpr.equal, Linexpr.compare, slots, equalLoop, compareLoop]
  decide +kernel

/-- `ap_linexpr0_compare`: when it returns, 0 means equal constants and coefficients; otherwise the
result is 1.  Missing: it is not an order, because the sign is lost. -/
theorem C51_linexpr_compare_partial (e1 e2 : Linexpr K) (h1 : e1.Wf) (h2 : e2.Wf) (f1 : FreeSlotsZero e1)
    (f2 : FreeSlotsZero e2) (p1 : SlotsProper e1) (p2 : SlotsProper e2)
    (n1 : e1.cst.Nonempty ∧ ∀ p ∈ e1.slots, p.2.Nonempty) (n2 : e2.cst.Nonempty ∧ ∀ p ∈ e2.slots, p.2.Nonempty)
    (r : ℤ) (h : Linexpr.compare e1 e2 = some r) :
    (r = 0 ↔ (∀ q, e1.cst.Has q ↔ e2.cst.Has q) ∧ ∀ d q, (e1.coeffAt d).Has q ↔ (e2.coeffAt d).Has q) ∧
    (r = 0 ∨ r = 1) := by
  unfold Linexpr.compare at h
  rw [compareLoop_eq _ _ n1.2 n2.2] at h
  cases hb : equalLoop e1.slots e2.slots with
  | none => rw [hb] at h; simp at h
  | some b =>
    rw [hb] at h
    simp only [Option.map_some, Option.some.injEq] at h
    have hs := equalLoop_spec _ _ (slots_wf h1) (slots_wf h2) f1 f2 p1.2 p2.2 b hb
    simp only [look_slots h1 f1, look_slots h2 f2] at hs
    have hc := (cmp_reduce_zero n1.1 n2.1).trans (Coeff.equal_reduce_iff p1.1 p2.1)
    cases b with
    | true =>
      have hs := hs.1 rfl
      simp only [if_true] at h
      subst h
      refine ⟨by rw [boolOfInt_zero, hc]; exact ⟨fun h => ⟨h, hs⟩, fun h => h.1⟩, ?_⟩
      unfold boolOfInt; split_ifs <;> simp
    | false =>
      have hs : ¬ ∀ d, Coeff.SameValues (e1.coeffAt d) (e2.coeffAt d) := fun h => by simpa using hs.2 h
      simp only [Bool.false_eq_true, if_false, one_ne_zero] at h
      subst h
      simp only [one_ne_zero, false_iff, or_true, and_true]
      exact fun h => hs h.2

/-- The claim fails: `x0` and `2*x0` are each greater than the other. -/
theorem C51_linexpr_compare_not_order :
    let e1 : Linexpr ℚ := ⟨.scalar (fin 0), .sparse [(0, .scalar (fin 1))]⟩
    let e2 : Linexpr ℚ := ⟨.scalar (fin 0), .sparse [(0, .scalar (fin 2))]⟩
    Linexpr.compare e1 e2 = some 1 ∧ Linexpr.compare e2 e1 = some 1 := by
  simp only [Linexpr.compare, slots, compareLoop]
  decide +kernel

example : Linexpr.equal (⟨.scalar (fin 1), .sparse [(1, .interval (fin 2) (fin 2))]⟩ : Linexpr ℚ)
    ⟨.scalar (fin 1), .dense [.scalar (fin 0), .scalar (fin 2), .interval (fin 0) (fin 0)]⟩ = some true := by
  simp only [Linexpr.equal, slots, List.zipIdx, List.map_cons, List.map_nil, equalLoop]
  decide +kernel

/-! ## C52: integer equality -/

/-- `ap_scalar_equal_int` and `ap_interval_equal_int` are right -/
theorem C52_scalar_interval (a l u : Bound K) (i : ℤ) :
    (scalarEqualInt a i = true ↔ a = fin (i : K)) ∧
    (intervalEqualInt l u i = true ↔ l = fin (i : K) ∧ u = fin (i : K)) := by
  simp [intervalEqualInt, scalarEqualInt_iff]

/-- `ap_coeff_equal_int` is wrong on every scalar: it returns the opposite of the documented result. -/
theorem C52_coeff_equal_int_wrong (a : Bound K) (i : ℤ) :
    (Coeff.scalar a).equalInt i = true ↔ ¬ a = fin (i : K) := by
  simp only [Coeff.equalInt, beq_false, Bool.not_eq_true', ← scalarEqualInt_iff, Bool.not_eq_true]

/-- and on intervals it tests that neither bound is the integer -/
theorem C52_coeff_equal_int_interval_wrong (l u : Bound K) (i : ℤ) :
    (Coeff.interval l u).equalInt i = true ↔ l ≠ fin (i : K) ∧ u ≠ fin (i : K) := by
  simp only [Coeff.equalInt, beq_false, Bool.and_eq_true, Bool.not_eq_true', ne_eq, ← scalarEqualInt_iff,
    Bool.not_eq_true]

example : (Coeff.scalar (fin (3 : ℚ))).equalInt 3 = false ∧ (Coeff.scalar (fin (3 : ℚ))).equalInt 4 = true := by
  decide +kernel

/-! ## C68: hashing -/

theorem coeffrefSparse_length (l : List (ℕ × Coeff K)) (d : ℕ) :
    l.length ≤ (coeffrefSparse l d).1.length ∧ (coeffrefSparse l d).1.length ≤ l.length + 1 := by
  unfold coeffrefSparse
  simp only
  generalize indexOf d (l.map Prod.fst) = i
  split_ifs <;> simp only [List.length_set, List.length_append, List.length_cons, List.length_take,
    List.length_dropLast, List.length_drop, reallocSparse, List.length_replicate] at * <;> omega

theorem coeffrefSparse_mem (l : List (ℕ × Coeff K)) (d : ℕ) (p : ℕ × Coeff K)
    (hp : p ∈ (coeffrefSparse l d).1) : p.1 = d ∨ p ∈ l ∨ p = (dimMax, czero) := by
  have h1 : ∀ q ∈ reallocSparse l (l.length + 1), q ∈ l ∨ q = (dimMax, czero) := by
    intro q hq
    rcases List.mem_append.1 hq with h | h
    · exact Or.inl (List.mem_of_mem_take h)
    · exact Or.inr (List.mem_replicate.1 h).2
  have h2 : ∀ (m : List (ℕ × Coeff K)) (i : ℕ), i < m.length - 1 →
      ∀ q ∈ m.take i ++ m.getD (m.length - 1) (0, czero) :: (m.drop i).dropLast, q ∈ m := by
    intro m i hi q hq
    rcases List.mem_append.1 hq with h | h
    · exact List.mem_of_mem_take h
    · rcases List.mem_cons.1 h with rfl | h
      · rw [List.getD, List.getElem?_eq_getElem (by omega), Option.getD_some]; exact List.getElem_mem _
      · exact List.mem_of_mem_drop (List.mem_of_mem_dropLast h)
  have h3 : ∀ (m : List (ℕ × Coeff K)) (i : ℕ) (c : Coeff K), p ∈ m.set i (d, c) → p.1 = d ∨ p ∈ m := by
    intro m i c h
    rcases List.mem_or_eq_of_mem_set h with h | h
    · exact Or.inr h
    · exact Or.inl (by rw [h])
  unfold coeffrefSparse at hp
  simp only at hp
  generalize indexOf d (l.map Prod.fst) = i at hp
  by_cases c1 : i ≥ l.length ∨ d ≠ (l.getD i (0, czero)).1
  · rw [if_pos c1] at hp
    by_cases c2 : i < l.length ∧ (l.getD i (0, czero)).1 = dimMax
    · rw [if_pos c2] at hp
      rcases h3 _ _ _ hp with h | h
      · exact Or.inl h
      · exact Or.inr (Or.inl h)
    · rw [if_neg c2] at hp
      simp only at hp
      rcases h3 _ _ _ hp with h | h
      · exact Or.inl h
      · right
        have key : ∀ m : List (ℕ × Coeff K), (∀ q ∈ m, q ∈ l ∨ q = (dimMax, czero)) →
            p ∈ (if i < m.length - 1 then m.take i ++ m.getD (m.length - 1) (0, czero) :: (m.drop i).dropLast
              else m) → p ∈ l ∨ p = (dimMax, czero) := by
          intro m hm hpm
          split_ifs at hpm with c
          · exact hm p (h2 m i c p hpm)
          · exact hm p hpm
        refine key _ ?_ h
        split_ifs
        · exact h1
        · exact fun q hq => Or.inl hq
  · rw [if_neg c1] at hp
    exact Or.inr (Or.inl hp)

/-- looking up a coefficient does not change the value of an expression -/
theorem coeffref_sound {e e' : Linexpr K} {d k : ℕ} (he : e.Wf) (hf : FreeSlotsZero e) (hd : d ≤ dimMax)
    (h : coeffref e d = some (e', k)) :
    e'.Wf ∧ FreeSlotsZero e' ∧ (∀ x v, e'.Val x v ↔ e.Val x v) ∧ e.size ≤ e'.size ∧ e'.size ≤ e.size + 1 := by
  obtain ⟨c0, b⟩ := e
  cases b with
  | dense l =>
    simp only [coeffref] at h
    split_ifs at h
    simp only [Option.some.injEq, Prod.mk.injEq] at h
    obtain ⟨rfl, -⟩ := h
    exact ⟨he, hf, fun _ _ => Iff.rfl, le_refl _, by omega⟩
  | sparse l =>
    have hw : SparseWf l := he
    simp only [coeffref] at h
    split_ifs at h with hdm
    simp only [Option.some.injEq, Prod.mk.injEq] at h
    obtain ⟨rfl, -⟩ := h
    obtain ⟨lo, c, hi, h1, h2, h3, h4, h5⟩ := coeffrefSparse_spec hw hdm hd
    have hwf : SparseWf (coeffrefSparse l d).1 := by rw [h1]; exact h2
    refine ⟨hwf, fun p hp hpm => ?_, fun x v => ?_, coeffrefSparse_length l d⟩
    · rcases coeffrefSparse_mem l d p hp with h | h | h
      · exact absurd (h.symm.trans hpm) hdm
      · exact hf p h hpm
      · rw [h]; rfl
    · refine C49_value ⟨c0, .sparse (coeffrefSparse l d).1⟩ _ hwf he rfl (fun m => ?_) x v
      have hmem : ∀ q, (m, q) ∈ terms ⟨c0, .sparse (coeffrefSparse l d).1⟩ ↔
          (m, q) ∈ lo ++ (d, c) :: hi ∧ m ≠ dimMax := fun q => by rw [hwf.mem_terms, h1]
      by_cases hm : ∃ q, (m, q) ∈ terms ⟨c0, .sparse l⟩
      · obtain ⟨q, hq⟩ := hm
        rw [coeffAt_of_mem he hq]
        have hq' := (hw.mem_terms _).1 hq
        refine coeffAt_of_mem (e := ⟨c0, .sparse (coeffrefSparse l d).1⟩) hwf ((hmem q).2 ⟨?_, hq'.2⟩)
        by_cases hmd : m = d
        · subst hmd
          rw [h4 q hq'.1]; simp
        · exact (h3 m q hq'.2 hmd).2 hq'.1
      · push Not at hm
        rw [coeffAt_of_not_mem he hm]
        by_cases hmd : m = d
        · subst hmd
          have hc : c = czero := by
            rcases h5 (fun q hq => hm q ((hw.mem_terms _).2 ⟨hq, hdm⟩)) with h | h
            · exact h
            · exact hf _ h rfl
          rw [← hc]
          exact coeffAt_of_mem (e := ⟨c0, .sparse (coeffrefSparse l m).1⟩) hwf ((hmem c).2 ⟨by simp, hdm⟩)
        · refine coeffAt_of_not_mem (e := ⟨c0, .sparse (coeffrefSparse l d).1⟩) hwf fun q hq => ?_
          have hq := (hmem q).1 hq
          exact hm q ((hw.mem_terms _).2 ⟨(h3 m q hq.2 hmd).1 hq.1, hq.2⟩)

theorem hashLoop_sound (h : Coeff K → ℤ) (n : ℕ) (e : Linexpr K) (i dec : ℕ) (res : ℤ) (he : e.Wf)
    (hf : FreeSlotsZero e) (hsz : e.size + n ≤ dimMax) (hm : (e.size - i) + (8 - i) ≤ n) :
    ∃ v e', hashLoop h n e i dec res = some (v, e') ∧ e'.Wf ∧ ∀ x r, e'.Val x r ↔ e.Val x r := by
  induction n generalizing e i dec res with
  | zero =>
    refine ⟨res, e, ?_, he, fun _ _ => Iff.rfl⟩
    rw [hashLoop, if_neg (by omega)]
  | succ n ih =>
    rw [hashLoop]
    by_cases hi : i < e.size
    · rw [if_pos hi]
      cases hc : coeffref e i with
      | none => exact ih e _ _ _ he hf (by omega) (by omega)
      | some q =>
        obtain ⟨e1, k⟩ := q
        obtain ⟨g1, g2, g3, g4, g5⟩ := coeffref_sound he hf (by omega) hc
        obtain ⟨v, e', r1, r2, r3⟩ := ih e1 (i + (e1.size + 7) / 8) (dec + 1)
          (res + h (e1.slots.getD k (0, czero)).2 * 2 ^ dec) g1 g2 (by omega) (by omega)
        exact ⟨v, e', r1, r2, fun x r => (r3 x r).trans (g3 x r)⟩
    · rw [if_neg hi]
      exact ⟨res, e, rfl, he, fun _ _ => Iff.rfl⟩

/-- `ap_linexpr0_hash` terminates (after at most `size + 8` iterations) and keeps the values of the
expression.  Missing: it is not a function of the expression, see below. -/
theorem C68_hash_partial (h : Coeff K → ℤ) (e : Linexpr K) (he : e.Wf) (hf : FreeSlotsZero e)
    (hsz : 2 * e.size + 8 ≤ dimMax) :
    ∃ v e', hash h (e.size + 8) e = some (v, e') ∧ e'.Wf ∧ ∀ x r, e'.Val x r ↔ e.Val x r := by
  unfold Linexpr.hash
  split_ifs
  · exact ⟨_, e, rfl, he, fun _ _ => Iff.rfl⟩
  · exact hashLoop_sound h _ e 0 0 _ he hf (by omega) (by omega)

/-- a dense expression is not modified by hashing -/
theorem C68_hash_dense (h : Coeff K → ℤ) (fuel : ℕ) (c0 : Coeff K) (l : List (Coeff K)) (v : ℤ) (e' : Linexpr K)
    (hh : hash h fuel ⟨c0, .dense l⟩ = some (v, e')) : e' = ⟨c0, .dense l⟩ := by
  have key : ∀ (n i dec : ℕ) (res : ℤ), hashLoop h n ⟨c0, .dense l⟩ i dec res = some (v, e') →
      e' = ⟨c0, .dense l⟩ := by
    intro n
    induction n with
    | zero =>
      intro i dec res hh
      rw [hashLoop] at hh
      split_ifs at hh
      cases hh; rfl
    | succ n ih =>
      intro i dec res hh
      rw [hashLoop] at hh
      split_ifs at hh with hi
      · simp only [coeffref] at hh
        split_ifs at hh with h2
        · exact ih _ _ _ hh
        · exact ih _ _ _ hh
      · cases hh; rfl
  unfold Linexpr.hash at hh
  split_ifs at hh
  · cases hh; rfl
  · exact key _ _ _ _ hh

/-- hash of a scalar used in the witnesses below -/
def exHash : Coeff ℚ → ℤ
  | .scalar (fin q) => q.num
  | _ => 0

/-- The claim fails: hashing a sparse expression adds terms to it, and hashing it again gives another
value. -/
theorem C68_hash_mutates :
    let e : Linexpr ℚ := ⟨.scalar (fin 0), .sparse [(5, .scalar (fin 1))]⟩
    (hash exHash 20 e).map (fun r => r.2.size) = some 6 ∧
      (hash exHash 20 e).map (fun r => r.1) ≠
        ((hash exHash 20 e).bind fun r => hash exHash 20 r.2).map (fun r => r.1) := by
  decide +kernel

/-- The claim fails: equal expressions have different hash codes. -/
theorem C68_hash_not_equal :
    let e1 : Linexpr ℚ := ⟨.scalar (fin 0), .sparse [(1, .scalar (fin 1))]⟩
    let e2 : Linexpr ℚ := ⟨.scalar (fin 0), .dense [.scalar (fin 0), .scalar (fin 1)]⟩
    Linexpr.equal e1 e2 = some true ∧
      (hash exHash 20 e1).map Prod.fst ≠ (hash exHash 20 e2).map Prod.fst := by
  constructor
  · simp only [Linexpr.equal, slots, List.zipIdx, List.map_cons, List.map_nil, equalLoop]
    decide +kernel
  · decide +kernel

end Apron
