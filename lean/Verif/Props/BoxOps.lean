import Verif.Props.Box

/-!
# Property theorems: boxes — evaluation, assignment, queries, constraints, rays
(C12, C14, C15, C17, C18, C23, C62)
-/

set_option autoImplicit false
set_option linter.unusedSectionVars false
set_option linter.ambiguousOpen false

namespace Apron
open Bound
variable {K : Type*} [LinearOrder K] [Field K] [IsStrictOrderedRing K]

/-- `2*x0 - x1 + 1` (sparse) -/
def exExpr : Linexpr ℚ := ⟨.scalar (fin 1), .sparse [(0, .scalar (fin 2)), (1, .scalar (fin (-1)))]⟩
/-- `[0,1] + [1,2]*x0` (dense) -/
def exExprI : Linexpr ℚ := ⟨.interval (fin 0) (fin 1), .dense [.interval (fin 1) (fin 2)]⟩

/-! ## C12: evaluation of linear expressions -/

theorem C12_bound_linexpr_sound (R : Rnd K) (a : Box K) (e : Linexpr K) (he : e.InDim a.dim) (x : ℕ → K)
    (hx : a.Gam x) (v : K) (hv : e.Val x v) : v ∈ a.boundLinexpr R e := by
  obtain ⟨p, hp, hx⟩ := hx
  unfold Box.boundLinexpr
  rw [hp]
  exact ILinexpr.mem_evalAp R hv fun t ht => hx _ (Box.mem_terms_lt he ht)

/-- with exact arithmetic and any (interval) coefficients the result is the smallest interval -/
theorem C12_bound_linexpr_tight (a : Box K) (ha : a.Wf) (e : Linexpr K) (he : e.InDim a.dim)
    (hval : ∀ x, ∃ v, e.Val x v) :
    Itv.IsHull (fun v => ∃ x, a.Gam x ∧ e.Val x v) (a.boundLinexpr Rnd.exact e) := by
  refine ⟨fun v ⟨x, hx, hv⟩ => C12_bound_linexpr_sound _ a e he x hx v hv, fun d hd z hz => ?_⟩
  unfold Box.boundLinexpr at hz
  cases h : a.p with
  | none => rw [h] at hz; exact (Itv.not_mem_bottom z hz).elim
  | some p =>
    rw [h] at hz
    obtain ⟨x0, hx0⟩ := ha.point h
    obtain ⟨v0, hv0⟩ := hval x0
    exact (ILinexpr.evalAp_tight he ((Box.gam_some h).1 hx0) hv0 fun x v hx hv =>
      hd v ⟨x, (Box.gam_some h).2 hx, hv⟩).mem hz

/-- with exact arithmetic and scalar coefficients the result is exactly the set of values -/
theorem C12_bound_linexpr_range (a : Box K) (ha : a.Wf) (e : Linexpr K) (he : e.InDim a.dim)
    (hs : ∀ t ∈ e.terms, ∃ q, t.2 = .scalar (fin q)) (hc : ∃ q, e.cst.Has q) (v : K) :
    v ∈ a.boundLinexpr Rnd.exact e ↔ ∃ x, a.Gam x ∧ e.Val x v := by
  refine ⟨fun hz => ?_, fun ⟨x, hx, hv⟩ => C12_bound_linexpr_sound _ a e he x hx v hv⟩
  unfold Box.boundLinexpr at hz
  cases h : a.p with
  | none => rw [h] at hz; exact (Itv.not_mem_bottom v hz).elim
  | some p =>
    rw [h] at hz
    obtain ⟨x0, hx0⟩ := ha.point h
    obtain ⟨x, hx, hv⟩ := ILinexpr.evalAp_attained he hs ((Box.gam_some h).1 hx0) hc hz
    exact ⟨x, (Box.gam_some h).2 hx, hv⟩

/-- the bounds of a dimension, and the bounding box, are the exact ranges of the coordinates -/
theorem C12_bound_dimension (a : Box K) (ha : a.Wf) (d : ℕ) (hd : d < a.dim) (y : K) :
    (y ∈ a.boundDimension d ↔ ∃ x, a.Gam x ∧ x d = y) ∧ (y ∈ a.toBox d ↔ ∃ x, a.Gam x ∧ x d = y) := by
  have key : y ∈ a.boundDimension d ↔ ∃ x, a.Gam x ∧ x d = y := by
    unfold Box.boundDimension
    cases h : a.p with
    | none =>
      exact ⟨fun hy => (Itv.not_mem_bottom y hy).elim, fun ⟨x, hx, _⟩ => (Box.gam_none h hx).elim⟩
    | some p =>
      obtain ⟨x0, hx0⟩ := ha.point h
      constructor
      · intro hy
        exact ⟨Function.update x0 d y, Box.gam_update h hx0 d hy, by simp⟩
      · rintro ⟨x, hx, rfl⟩
        exact (Box.gam_some h).1 hx d hd
  exact ⟨key, key⟩

example : exBox.boundLinexpr Rnd.exact exExpr = ⟨pinf, fin 7⟩ ∧
    exBox.boundLinexpr Rnd.exact exExprI = ⟨fin 0, fin 9⟩ := by decide +kernel
example : exExpr.InDim exBox.dim ∧ exExprI.InDim exBox.dim ∧
    (∀ t ∈ exExpr.terms, ∃ q, t.2 = .scalar (fin q)) ∧ ∃ q, exExpr.cst.Has q := by
  refine ⟨⟨by decide +kernel, by decide +kernel⟩, ⟨by decide +kernel, by decide +kernel⟩, ?_, 1, rfl⟩
  intro t ht
  have : exExpr.terms = [(0, .scalar (fin 2)), (1, .scalar (fin (-1)))] := by decide +kernel
  rw [this] at ht
  simp only [List.mem_cons, List.not_mem_nil, or_false] at ht
  rcases ht with rfl | rfl
  · exact ⟨2, rfl⟩
  · exact ⟨-1, rfl⟩

/-! ## C14, C15: assignment -/

/-- parallel assignment without destination contains every successor of every point -/
theorem C14_assign_linexpr_sound (R : Rnd K) (a : Box K) (l : List (ℕ × Linexpr K))
    (hn : (l.map Prod.fst).Nodup) (hl : ∀ q ∈ l, q.2.InDim a.dim) (x x' : ℕ → K) (hx : a.Gam x)
    (hassign : ∀ q ∈ l, q.2.Val x (x' q.1)) (hkeep : ∀ i, i < a.dim → i ∉ l.map Prod.fst → x' i = x i) :
    (a.assignLinexprArray R l none).Gam x' := by
  obtain ⟨p, hp, hx⟩ := hx
  unfold Box.assignLinexprArray
  rw [hp]
  refine Box.gam_mk.2 fun i hi => ?_
  by_cases hm : i ∈ l.map Prod.fst
  · obtain ⟨q, hq, rfl⟩ := List.mem_map.1 hm
    rw [Box.assignGo_target R p l p hn q hq]
    exact ILinexpr.mem_evalAp R (hassign q hq) fun t ht => hx _ (Box.mem_terms_lt (hl q hq) ht)
  · rw [Box.assignGo_other, hkeep i hi hm]
    · exact hx i hi
    · rintro q hq rfl; exact hm (List.mem_map.2 ⟨q, hq, rfl⟩)

/-- with exact arithmetic the result is included in every box containing all successors -/
theorem C14_assign_linexpr_best (a : Box K) (ha : a.Wf) (l : List (ℕ × Linexpr K))
    (hn : (l.map Prod.fst).Nodup) (hl : ∀ q ∈ l, q.2.InDim a.dim)
    (hval : ∀ q ∈ l, ∀ x, ∃ v, q.2.Val x v) (c : Box K) (hc : c.dim = a.dim)
    (hcont : ∀ x x', a.Gam x → (∀ q ∈ l, q.2.Val x (x' q.1)) →
      (∀ i, i < a.dim → i ∉ l.map Prod.fst → x' i = x i) → c.Gam x')
    (y : ℕ → K) (hy : (a.assignLinexprArray Rnd.exact l none).Gam y) : c.Gam y := by
  unfold Box.assignLinexprArray at hy
  cases h : a.p with
  | none => rw [h] at hy; exact (Box.gam_none h hy).elim
  | some p =>
    rw [h] at hy
    simp only [Box.gam_mk] at hy
    -- a successor of each point
    have succ : ∀ x : ℕ → K, ∃ x' : ℕ → K, (∀ q ∈ l, q.2.Val x (x' q.1)) ∧
        ∀ i, i ∉ l.map Prod.fst → x' i = x i := by
      clear hcont hy hl
      intro x
      induction l with
      | nil => exact ⟨x, by simp, by simp⟩
      | cons q l ih =>
        rw [List.map_cons, List.nodup_cons] at hn
        obtain ⟨x', h1, h2⟩ := ih hn.2 (fun q hq => hval q (by simp [hq]))
        obtain ⟨v, hv⟩ := hval q (by simp) x
        refine ⟨Function.update x' q.1 v, ?_, ?_⟩
        · intro s hs
          rcases List.mem_cons.1 hs with rfl | hs
          · simpa using hv
          · rw [Function.update_of_ne]
            · exact h1 s hs
            · intro e; exact hn.1 (List.mem_map.2 ⟨s, hs, e⟩)
        · intro i hi
          simp only [List.map_cons, List.mem_cons, not_or] at hi
          rw [Function.update_of_ne hi.1]; exact h2 i hi.2
    obtain ⟨x0, hx0⟩ := ha.point h
    obtain ⟨s0, hs1, hs2⟩ := succ x0
    obtain ⟨r, hr, _⟩ := hcont x0 s0 hx0 hs1 fun i _ hi => hs2 i hi
    refine (Box.gam_some hr).2 fun i hi => ?_
    rw [hc] at hi
    have hyi := hy i hi
    by_cases hm : i ∈ l.map Prod.fst
    · obtain ⟨q, hq, rfl⟩ := List.mem_map.1 hm
      rw [Box.assignGo_target _ p l p hn q hq] at hyi
      obtain ⟨v0, hv0⟩ := hval q hq x0
      refine (ILinexpr.evalAp_tight (hl q hq) ((Box.gam_some h).1 hx0) hv0 fun x v hx hv => ?_).mem hyi
      obtain ⟨s, h1, h2⟩ := succ x
      have := hcont x (Function.update s q.1 v) ((Box.gam_some h).2 hx) ?_ ?_
      · simpa using (Box.gam_some hr).1 this q.1 (hc ▸ hi)
      · intro q' hq'
        by_cases e : q'.1 = q.1
        · have : q' = q := by
            exact List.inj_on_of_nodup_map hn hq' hq e
          subst this; simpa using hv
        · rw [Function.update_of_ne e]; exact h1 q' hq'
      · intro j _ hj
        rw [Function.update_of_ne]
        · exact h2 j hj
        · rintro rfl; exact hj hm
    · rw [Box.assignGo_other _ p l p i (by rintro q hq rfl; exact hm (List.mem_map.2 ⟨q, hq, rfl⟩))] at hyi
      have hg := Box.gam_update h hx0 i hyi
      obtain ⟨s, h1, h2⟩ := succ (Function.update x0 i (y i))
      have := (Box.gam_some hr).1 (hcont _ s hg h1 fun j _ hj => h2 j hj) i (hc ▸ hi)
      rw [h2 i hm] at this
      simpa using this

/-- the assignment keeps the intervals non-empty when every expression has a value -/
theorem C14_assign_linexpr_wf (R : Rnd K) (a : Box K) (ha : a.Wf) (l : List (ℕ × Linexpr K))
    (hn : (l.map Prod.fst).Nodup) (hl : ∀ q ∈ l, q.2.InDim a.dim)
    (hval : ∀ q ∈ l, ∀ x, ∃ v, q.2.Val x v) : (a.assignLinexprArray R l none).Wf := by
  unfold Box.assignLinexprArray
  cases h : a.p with
  | none => exact Box.wf_none h
  | some p =>
    refine Box.wf_mk.2 fun i hi => ?_
    by_cases hm : i ∈ l.map Prod.fst
    · obtain ⟨q, hq, rfl⟩ := List.mem_map.1 hm
      rw [Box.assignGo_target R p l p hn q hq]
      obtain ⟨x0, hx0⟩ := ha.point h
      obtain ⟨v, hv⟩ := hval q hq x0
      exact ⟨v, ILinexpr.mem_evalAp R hv fun t ht => (Box.gam_some h).1 hx0 _ (Box.mem_terms_lt (hl q hq) ht)⟩
    · rw [Box.assignGo_other _ p l p i (by rintro q hq rfl; exact hm (List.mem_map.2 ⟨q, hq, rfl⟩))]
      exact ha p h i hi

/-- with a destination: every successor lying in the destination is kept -/
theorem C14_assign_linexpr_dest_sound (R : Rnd K) (a b : Box K) (ha : a.Wf) (hb : b.Wf)
    (hd : a.dim = b.dim) (l : List (ℕ × Linexpr K)) (hn : (l.map Prod.fst).Nodup)
    (hl : ∀ q ∈ l, q.2.InDim a.dim) (x x' : ℕ → K) (hx : a.Gam x)
    (hassign : ∀ q ∈ l, q.2.Val x (x' q.1)) (hkeep : ∀ i, i < a.dim → i ∉ l.map Prod.fst → x' i = x i)
    (hx' : b.Gam x') : (a.assignLinexprArray R l (some b)).Gam x' := by
  have h1 := C14_assign_linexpr_sound R a l hn hl x x' hx hassign hkeep
  obtain ⟨p, hp, _⟩ := hx
  have hbx := hx'
  obtain ⟨q, hq, _⟩ := hx'
  unfold Box.assignLinexprArray at h1 ⊢
  rw [hp] at h1 ⊢
  have hbb : b.isBottom = false := by simp [Box.isBottom, hq]
  simp only [hbb, Bool.false_eq_true, if_false] at h1 ⊢
  have hw : (⟨some (Box.assignGo R p l p), a.intdim, a.realdim⟩ : Box K).Gam x' := h1
  -- emptiness is only declared for empty intersections
  unfold Box.meet
  rw [hq]
  simp only
  have hmem : ∀ i, i < a.dim → x' i ∈ (Box.assignGo R p l p i).meet (q i) := fun i hi =>
    Itv.mem_meet.2 ⟨Box.gam_mk.1 hw i hi, (Box.gam_some hq).1 hbx i (hd ▸ hi)⟩
  rw [if_neg]
  · exact Box.gam_mk.2 hmem
  · rw [List.any_eq_true]
    rintro ⟨i, hi, hbt⟩
    rw [List.mem_range] at hi
    rw [Itv.not_isBottom (hmem i hi)] at hbt
    simp at hbt

/-- with a non-empty destination the result is included in it; missing: the empty destination, see
`C15_assign_dest_bottom` -/
theorem C15_assign_dest_partial (R : Rnd K) (a b : Box K) (hd : a.dim = b.dim)
    (l : List (ℕ × Linexpr K)) (hb : b.isBottom = false) (x : ℕ → K)
    (hx : (a.assignLinexprArray R l (some b)).Gam x) : b.Gam x := by
  unfold Box.assignLinexprArray at hx
  cases h : a.p with
  | none => rw [h] at hx; exact (Box.gam_none h hx).elim
  | some p =>
    rw [h] at hx
    simp only [hb, Bool.false_eq_true, if_false] at hx
    unfold Box.meet at hx
    cases h' : b.p with
    | none => simp [Box.isBottom, h'] at hb
    | some q =>
      rw [h'] at hx
      simp only at hx
      split_ifs at hx with hbot
      · exact (Box.gam_none rfl hx).elim
      · refine (Box.gam_some h').2 fun i hi => ?_
        exact (Itv.mem_meet.1 (Box.gam_mk.1 hx i (show i < a.dim from hd ▸ hi))).2

/-- The code violates the property: with an empty destination the argument is returned unchanged. -/
theorem C15_assign_dest_bottom : ∃ (a b : Box ℚ) (l : List (ℕ × Linexpr ℚ)) (x : ℕ → ℚ),
    a.Wf ∧ b.Wf ∧ a.dim = b.dim ∧ (∀ y, ¬ b.Gam y) ∧
    (a.assignLinexprArray Rnd.exact l (some b)).Gam x :=
  ⟨Box.top 0 1, Box.bottom 0 1, [(0, ⟨.scalar (fin 0), .sparse []⟩)], fun _ => 1,
    Box.wf_mk.2 fun _ _ => ⟨0, Itv.mem_top 0⟩, Box.wf_none rfl, rfl, fun _ => Box.gam_none rfl,
    Box.gam_mk.2 fun _ _ => Itv.mem_top _⟩

example : ((exBox.assignLinexprArray Rnd.exact [(0, exExpr), (1, exExprI)] none).p.map fun p => (p 0, p 1))
    = some (⟨pinf, fin 7⟩, ⟨fin 0, fin 9⟩) ∧
    ((exBox.assignLinexprArray Rnd.exact [(0, exExpr)] (some exBox2)).p.map fun p => (p 0, p 1))
    = some (⟨fin (-1), fin 7⟩, ⟨fin (-2), fin 5⟩) := by decide +kernel

/-! ## C17: satisfaction -/

theorem C17_sat_lincons_sound (R : Rnd K) (a : Box K) (c : Lincons K) (hc : c.expr.InDim a.dim)
    (h : a.satLincons R c = some true) (x : ℕ → K) (hx : a.Gam x) : c.HoldsAll x := by
  intro v hv
  have hm := C12_bound_linexpr_sound R a c.expr hc x hx v hv
  obtain ⟨p, hp, hx⟩ := hx
  unfold Box.satLincons at h
  unfold Box.boundLinexpr at hm
  rw [hp] at h hm
  simp only [Option.map_eq_some_iff, decide_eq_true_eq] at h
  obtain ⟨t, ht, rfl⟩ := h
  exact ILincons.evalCst_t (c := ⟨c.typ, ⟨_, _, []⟩⟩) (fun he q hq => Itv.isPoint_eq he hq) ht hm

/-- with exact arithmetic and scalar coefficients, a constraint `=`, `>=` or `>` satisfied by all points
is recognised -/
theorem C17_sat_lincons_complete (a : Box K) (ha : a.Wf) (c : Lincons K) (hc : c.expr.InDim a.dim)
    (hs : ∀ t ∈ c.expr.terms, ∃ q, t.2 = .scalar (fin q)) (hcst : ∃ q, c.expr.cst.Has q)
    (hty : c.typ = .eq ∨ c.typ = .supeq ∨ c.typ = .sup)
    (h : ∀ x, a.Gam x → c.HoldsAll x) : a.satLincons Rnd.exact c = some true := by
  unfold Box.satLincons
  cases hp : a.p with
  | none => rfl
  | some p =>
    obtain ⟨x0, hx0⟩ := ha.point hp
    have hr := C12_bound_linexpr_range a ha c.expr hc hs hcst
    have hv0 : ∃ v0, v0 ∈ a.boundLinexpr Rnd.exact c.expr := by
      obtain ⟨q, hq⟩ := hcst
      have : ∃ r, Linexpr.TermsVal c.expr.terms x0 r := by
        generalize c.expr.terms = l at hs
        induction l with
        | nil => exact ⟨0, rfl⟩
        | cons t l ih =>
          obtain ⟨r, hr⟩ := ih fun t ht => hs t (by simp [ht])
          obtain ⟨q, hq⟩ := hs t (by simp)
          exact ⟨_, q, r, by rw [hq]; rfl, hr, rfl⟩
      obtain ⟨r, hr'⟩ := this
      exact ⟨q + r, (hr _).2 ⟨x0, hx0, q, r, hq, hr', rfl⟩⟩
    have hall : ∀ v, v ∈ a.boundLinexpr Rnd.exact c.expr → Lincons.Rel c.typ v := fun v hv => by
      obtain ⟨x, hx, hv⟩ := (hr v).1 hv
      exact h x hx v hv
    have e : a.boundLinexpr Rnd.exact c.expr = ILinexpr.evalAp Rnd.exact c.expr p := by
      unfold Box.boundLinexpr; rw [hp]
    rw [e] at hv0 hall
    simp only
    generalize ILinexpr.evalAp Rnd.exact c.expr p = i at hv0 hall
    obtain ⟨v0, hv0⟩ := hv0
    have hri := Itv.reach_inf hv0
    have hrs := Itv.reach_sup hv0
    have hb : i.isBottom = false := Itv.not_isBottom hv0
    obtain ⟨ii, is⟩ := i
    rcases hty with ht | ht | ht <;> rw [ht] at hall ⊢ <;> simp only [Lincons.Rel] at hall
    · -- equality
      have h1 : is ≤ fin 0 := hrs.le fun y hy => by rw [hall y hy]
      have h2 : ii ≤ fin 0 := hri.le fun y hy => by
        have := hall _ hy; simp only [fin_le_fin]; linarith
      have h3 := hall v0 hv0; subst h3
      have h4 := hv0.1; have h5 := hv0.2
      simp only [neg_zero] at h4
      have e1 : ii = fin 0 := le_antisymm h2 h4
      have e2 : is = fin 0 := le_antisymm h1 h5
      subst e1 e2
      simp [ILincons.evalCst, hb, Itv.isPoint]
    · have h2 : sgn ii ≤ 0 := by
        rw [sgn_le_zero_iff]
        exact hri.le fun y hy => by have := hall _ hy; simp only [fin_le_fin]; linarith
      simp [ILincons.evalCst, hb, h2]
    · have h2 : sgn ii < 0 := by
        rw [sgn_neg_iff]
        cases ii with
        | ninf => exact hri.elim
        | pinf =>
          obtain ⟨y, hy, hy'⟩ := hri 0
          have := hall _ hy'
          exfalso; linarith
        | fin l =>
          have := hall _ hri
          simp only [fin_lt_fin]; linarith
      simp [ILincons.evalCst, hb, h2]

/-- `sat_interval` answers true exactly when the coordinate of every point lies between the bounds -/
theorem C17_sat_interval (a : Box K) (ha : a.Wf) (d : ℕ) (hd : d < a.dim) (l u : Bound K) :
    a.satInterval d l u = true ↔ ∀ x, a.Gam x → l ≤ fin (x d) ∧ fin (x d) ≤ u := by
  unfold Box.satInterval
  cases h : a.p with
  | none => simp only [true_iff]; exact fun x hx => (Box.gam_none h hx).elim
  | some p =>
    obtain ⟨x0, hx0⟩ := ha.point h
    have h0 := (Box.gam_some h).1 hx0 d hd
    have hne : ¬ (p d).sup < Bound.neg (p d).inf := by
      rw [not_lt]
      refine le_trans ?_ h0.2
      have := neg_le_neg' h0.1
      simpa using this
    have hne' : decide (0 < Bound.cmp (Bound.neg (p d).inf) (p d).sup) = false := by
      rw [decide_eq_false_iff_not, not_lt, cmp_le_zero]
      exact not_lt.1 hne
    simp only [hne', Bool.or_false, Bool.and_eq_true, decide_eq_true_eq, cmp_le_zero, zero_le_cmp]
    constructor
    · rintro ⟨h1, h2⟩ x hx
      have := (Box.gam_some h).1 hx d hd
      refine ⟨le_trans h1 ?_, le_trans this.2 h2⟩
      have := neg_le_neg' this.1
      simpa using this
    · intro hx
      constructor
      · have : (p d).inf ≤ Bound.neg l := (Itv.reach_inf h0).le fun y hy => by
          have := (hx _ (Box.gam_update h hx0 d hy)).1
          rw [Function.update_self] at this
          have := neg_le_neg' this
          simpa using this
        have := neg_le_neg' this
        simpa using this
      · exact (Itv.reach_sup h0).le fun y hy => by
          simpa using (hx _ (Box.gam_update h hx0 d hy)).2
where
  neg_le_neg' {b c : Bound K} (h : b ≤ c) : Bound.neg c ≤ Bound.neg b := by
    cases b <;> cases c <;> simp_all
  zero_le_cmp (b c : Bound K) : 0 ≤ Bound.cmp b c ↔ c ≤ b := by
    rw [← not_lt, cmp_lt_zero, not_lt]

example : exBox.satLincons Rnd.exact ⟨.supeq, ⟨.scalar (fin 3), .sparse [(0, .scalar (fin (-1))), (1, .scalar (fin 1))]⟩⟩
    = some true ∧ exBox.satLincons Rnd.exact ⟨.sup, exExpr⟩ = some false ∧
    exBox.satInterval 0 (fin (-1)) (fin 4) = true ∧ exBox.satInterval 1 (fin 2) (fin 7) = false := by
  decide +kernel

/-! ## C18: modulo constraints on constants -/

/-- with a non-zero modulus the test neither divides by zero nor accepts a constant the modulus does
not divide; missing: the modulus 0, see `C18_eqmod_division_by_zero` -/
theorem C18_eqmod_partial (R : Rnd K) (a : Box K) (e : Linexpr K) (he : e.InDim a.dim) (m : K) (hm : m ≠ 0) :
    a.satLincons R ⟨.eqmod m, e⟩ ≠ none ∧
    (a.satLincons R ⟨.eqmod m, e⟩ = some true → ∀ x v, a.Gam x → e.Val x v → ∃ k : ℤ, v = k * m) := by
  refine ⟨?_, fun h x v hx hv => C17_sat_lincons_sound R a ⟨.eqmod m, e⟩ he h x hx v hv⟩
  unfold Box.satLincons
  cases h : a.p with
  | none => simp
  | some p =>
    simp only [ne_eq, Option.map_eq_none_iff]
    unfold ILincons.evalCst
    simp only
    split_ifs <;> simp

/-- The code violates the property: testing `1 = 0 mod 0` divides by zero. -/
theorem C18_eqmod_division_by_zero :
    (Box.top 0 0 : Box ℚ).satLincons Rnd.exact ⟨.eqmod 0, ⟨.scalar (fin 1), .sparse []⟩⟩ = none := by
  decide +kernel

example : (Box.top 0 0 : Box ℚ).satLincons Rnd.exact ⟨.eqmod 3, ⟨.scalar (fin 0), .sparse []⟩⟩ = some true := by
  decide +kernel

/-! ## C23: conversions to constraints and from a bounding box -/

/-- the constraints of a box are satisfied exactly by its points -/
theorem C23_to_lincons (a : Box K) (ha : a.Wf) (hd : a.dim ≤ dimMax) (x : ℕ → K) :
    a.Gam x ↔ ∀ c ∈ a.toLinconsArray, c.Holds x := by
  have unit : ∀ (ty : ConsTyp K) (q b : K) (i : ℕ), i < dimMax →
      ((Box.unitCons ty q i (fin b)).Holds x ↔ Lincons.Rel ty (b + q * x i)) := by
    intro ty q b i hi
    have ht : (Box.unitCons ty q i (fin b)).expr.terms = [(i, .scalar (fin q))] := by
      simp [Box.unitCons, Linexpr.terms, hi.ne]
    unfold Lincons.Holds Linexpr.Val
    rw [ht]
    simp only [Linexpr.TermsVal, Box.unitCons, Coeff.Has]
    constructor
    · rintro ⟨_, ⟨_, _, h1, ⟨_, _, h2, rfl, rfl⟩, rfl⟩, hr⟩
      cases h1; cases h2; simpa using hr
    · intro hr
      exact ⟨_, ⟨b, q * x i + 0, rfl, ⟨q, 0, rfl, rfl, rfl⟩, rfl⟩, by simpa using hr⟩
  unfold Box.toLinconsArray
  cases h : a.p with
  | none =>
    refine ⟨fun hx => (Box.gam_none h hx).elim, fun hx => ?_⟩
    obtain ⟨v, ⟨q, r, hq, hr, rfl⟩, hrel⟩ := hx _ (by simp; rfl)
    simp only [Coeff.Has, Bound.fin.injEq] at hq
    simp only [Linexpr.terms, List.takeWhile_nil, Linexpr.TermsVal] at hr
    simp only [Lincons.Rel] at hrel
    exfalso; rw [hr] at hrel; linarith
  | some p =>
    rw [Box.gam_some h]
    simp only [List.mem_flatMap, List.mem_range, forall_exists_index, and_imp]
    rw [forall_comm]
    refine forall_congr' fun i => ?_
    constructor
    · intro hx c hi hc
      have hx := hx hi
      have h1 := hx.1; have h2 := hx.2
      unfold Box.dimCons at hc
      simp only [List.mem_append] at hc
      rcases hc with hc | hc
      · split_ifs at hc with hinf hpt
        · simp at hc
        · simp only [List.mem_singleton] at hc
          subst hc
          simp only [Bool.and_eq_true] at hpt
          obtain ⟨q, hq⟩ := Itv.isPoint_iff.1 hpt.2
          rw [hq] at hx ⊢
          rw [Itv.mem_point] at hx
          simp only [Itv.point]
          rw [unit _ _ _ _ (by omega), hx]
          simp [Lincons.Rel]
        · simp only [List.mem_singleton] at hc
          subst hc
          cases hb : (p i).inf with
          | ninf => simp [infty, hb] at hinf
          | pinf => simp [infty, hb] at hinf
          | fin l =>
            rw [hb] at h1
            rw [unit _ _ _ _ (by omega)]
            simp only [fin_le_fin] at h1
            simp only [Lincons.Rel]; linarith
      · split_ifs at hc with hinf
        · simp at hc
        · simp only [List.mem_singleton] at hc
          subst hc
          simp only [Bool.or_eq_true, not_or] at hinf
          cases hb : (p i).sup with
          | ninf => simp [infty, hb] at hinf
          | pinf => simp [infty, hb] at hinf
          | fin u =>
            rw [hb] at h2
            rw [unit _ _ _ _ (by omega)]
            simp only [fin_le_fin] at h2
            simp only [Lincons.Rel]; linarith
    · intro hc hi
      have hc := fun c => hc c hi
      obtain ⟨y, hy⟩ := ha p h i hi
      unfold Box.dimCons at hc
      simp only [List.mem_append] at hc
      by_cases hinf : infty (p i).inf = true
      · have hi' : (p i).inf = pinf := by
          cases hb : (p i).inf with
          | ninf => exact absurd hb (Itv.inf_ne_ninf hy)
          | pinf => rfl
          | fin l => simp [infty, hb] at hinf
        refine ⟨by rw [hi']; simp, ?_⟩
        cases hb : (p i).sup with
        | ninf => exact absurd hb (Itv.sup_ne_ninf hy)
        | pinf => simp
        | fin u =>
          have := hc (Box.unitCons .supeq (-1) i (fin u)) (Or.inr (by simp [hi', hb, infty]))
          rw [unit _ _ _ _ (by omega)] at this
          simp only [Lincons.Rel] at this
          simp only [fin_le_fin]; linarith
      · by_cases hpt : (p i).isPoint = true
        · obtain ⟨q, hq⟩ := Itv.isPoint_iff.1 hpt
          have := hc (Box.unitCons .eq 1 i (fin (-q))) (Or.inl (by
            rw [hq]; simp [Itv.point, infty, Itv.isPoint]))
          rw [unit _ _ _ _ (by omega)] at this
          simp only [Lincons.Rel] at this
          rw [hq, Itv.mem_point]; linarith
        · cases hbi : (p i).inf with
          | ninf => exact absurd hbi (Itv.inf_ne_ninf hy)
          | pinf => simp [infty, hbi] at hinf
          | fin l =>
            have h1 := hc (Box.unitCons .supeq 1 i (fin l)) (Or.inl (by simp [hpt, hbi, infty]))
            rw [unit _ _ _ _ (by omega)] at h1
            simp only [Lincons.Rel] at h1
            refine ⟨by rw [hbi]; simp only [fin_le_fin]; linarith, ?_⟩
            cases hb : (p i).sup with
            | ninf => exact absurd hb (Itv.sup_ne_ninf hy)
            | pinf => simp
            | fin u =>
              have := hc (Box.unitCons .supeq (-1) i (fin u)) (Or.inr (by simp [hpt, hbi, hb, infty]))
              rw [unit _ _ _ _ (by omega)] at this
              simp only [Lincons.Rel] at this
              simp only [fin_le_fin]; linarith

/-- `of_box` keeps every point within the given bounds that is integer on the integer dimensions -/
theorem C23_of_box_sound [FloorRing K] (R : Rnd K) (m n : ℕ) (t : ℕ → Bound K × Bound K) (x : ℕ → K)
    (hx : ∀ i, i < m + n → (t i).1 ≤ fin (x i) ∧ fin (x i) ≤ (t i).2)
    (hint : ∀ i, i < m → ∃ k : ℤ, x i = k) : (Box.ofBox R m n t).Gam x := by
  have hmem : ∀ i, i < m + n → x i ∈ Itv.canonicalize (Itv.setApInterval R (t i).1 (t i).2) (decide (i < m)) := by
    intro i hi
    have h0 : x i ∈ Itv.setApInterval R (t i).1 (t i).2 :=
      Itv.mem_setApCoeff R (c := .interval (t i).1 (t i).2) (hx i hi)
    by_cases him : i < m
    · obtain ⟨k, hk⟩ := hint i him
      rw [hk] at h0 ⊢
      simp only [him, decide_true]
      exact Itv.mem_canonicalize_int.2 h0
    · simpa [him, Itv.canonicalize] using h0
  unfold Box.ofBox
  simp only
  rw [if_neg]
  · exact Box.gam_mk.2 hmem
  · rw [List.any_eq_true]
    rintro ⟨i, hi, hb⟩
    rw [Itv.not_isBottom (hmem i (List.mem_range.1 hi))] at hb
    simp at hb

/-- with exact arithmetic every point of the result lies within the given bounds, and no empty interval
is stored -/
theorem C23_of_box_exact [FloorRing K] (m n : ℕ) (t : ℕ → Bound K × Bound K)
    (ht : ∀ i, i < m + n → (t i).1 ≠ pinf ∧ (t i).2 ≠ ninf) :
    (Box.ofBox Rnd.exact m n t).Wf ∧ ∀ x, (Box.ofBox Rnd.exact m n t).Gam x →
      ∀ i, i < m + n → (t i).1 ≤ fin (x i) ∧ fin (x i) ≤ (t i).2 := by
  unfold Box.ofBox
  simp only
  split_ifs with hb
  · exact ⟨Box.wf_none rfl, fun x hx => (Box.gam_none rfl hx).elim⟩
  · rw [List.any_eq_true] at hb
    push Not at hb
    constructor
    · refine Box.wf_mk.2 fun i hi => ?_
      refine Itv.exists_mem_of_isBottom ?_ ?_ (by simpa using hb i (List.mem_range.2 hi))
      · refine can_inf ?_
        have := (ht i hi).1
        simp only [Itv.setApInterval, boundSetAp_exact]
        cases h1 : (t i).1 with
        | pinf => exact absurd h1 this
        | fin q => simp
        | ninf => simp
      · refine can_sup ?_
        have := (ht i hi).2
        simpa only [Itv.setApInterval, boundSetAp_exact] using this
    · intro x hx i hi
      have h0 := Box.gam_mk.1 hx i hi
      have h1 : x i ∈ Itv.setApInterval Rnd.exact (t i).1 (t i).2 := by
        by_cases him : i < m
        · simp only [him, decide_true] at h0
          exact Itv.mem_of_le (floor_le' _) (floor_le' _) h0
        · simpa [him, Itv.canonicalize] using h0
      exact Itv.has_of_mem_setApCoeff (c := .interval (t i).1 (t i).2) h1
where
  floor_le' (b : Bound K) : Bound.floor b ≤ b := by
    cases b <;> simp [Bound.floor, Int.floor_le]
  can_inf {i : Itv K} {b : Bool} (h : i.inf ≠ ninf) : (i.canonicalize b).inf ≠ ninf := by
    cases b
    · simpa [Itv.canonicalize] using h
    · obtain ⟨l, u⟩ := i; cases l <;> simp_all [Itv.canonicalize, Bound.floor]
  can_sup {i : Itv K} {b : Bool} (h : i.sup ≠ ninf) : (i.canonicalize b).sup ≠ ninf := by
    cases b
    · simpa [Itv.canonicalize] using h
    · obtain ⟨l, u⟩ := i; cases u <;> simp_all [Itv.canonicalize, Bound.floor]

example : exBox.toLinconsArray.length = 3 ∧ exBox.dim ≤ dimMax := by decide +kernel
example : ((Box.ofBox Rnd.exact 1 1 fun i => if i = 0 then (fin (1/2), fin (7/2)) else (ninf, fin (7/2)) :
    Box ℚ).p.map fun p => (p 0, p 1)) = some (⟨fin (-1), fin 3⟩, ⟨pinf, fin (7/2)⟩) := by decide +kernel

/-! ## C62: adding rays -/

/-- the displacements generated by a list of rays and lines -/
def RayGen : List (Box.Gen K) → (ℕ → K) → Prop
  | [], v => ∀ i, v i = 0
  | g :: l, v => ∃ t w, (g.typ = .ray → 0 ≤ t) ∧ RayGen l w ∧ ∀ i, v i = t * g.coef i + w i

theorem addRay_sound (a : Box K) (g : Box.Gen K) (hg : g.typ ≠ .vertex) (x x' : ℕ → K) (t : K)
    (ht : g.typ = .ray → 0 ≤ t) (hx : a.Gam x) (hx' : ∀ i, x' i = x i + t * g.coef i) :
    (a.addRay g).Gam x' := by
  obtain ⟨p, hp, hx⟩ := hx
  unfold Box.addRay
  rw [hp]
  refine Box.gam_mk.2 fun i hi => ?_
  have h1 := (hx i hi).1
  have h2 := (hx i hi).2
  have ht' : ¬ (g.coef i ≠ 0 ∧ g.typ = .line) → g.coef i = 0 ∨ 0 ≤ t := by
    intro hn
    by_cases h0 : g.coef i = 0
    · exact Or.inl h0
    · refine Or.inr (ht ?_)
      cases hty : g.typ with
      | line => exact absurd ⟨h0, hty⟩ hn
      | ray => rfl
      | vertex => exact absurd hty hg
  rw [Itv.mem_def, hx' i]
  constructor
  · simp only
    split_ifs with hc
    · simp
    · push Not at hc
      refine le_trans ?_ h1
      simp only [fin_le_fin]
      have h3 : 0 ≤ t * g.coef i := by
        rcases ht' (fun h => hc.2 h.1 h.2) with h0 | h0
        · rw [h0]; simp
        · exact mul_nonneg h0 hc.1
      linarith
  · simp only
    split_ifs with hc
    · simp
    · push Not at hc
      refine le_trans ?_ h2
      simp only [fin_le_fin]
      have h3 : t * g.coef i ≤ 0 := by
        rcases ht' (fun h => hc.2 h.1 h.2) with h0 | h0
        · rw [h0]; simp
        · exact mul_nonpos_of_nonneg_of_nonpos h0 hc.1
      linarith

theorem addRay_least (a : Box K) (ha : a.Wf) (g : Box.Gen K) (r : ℕ → Itv K)
    (hr : ∀ x t, a.Gam x → (g.typ = .ray → 0 ≤ t) → ∀ i, i < a.dim → x i + t * g.coef i ∈ r i)
    (y : ℕ → K) (hy : (a.addRay g).Gam y) (i : ℕ) (hi : i < a.dim) : y i ∈ r i := by
  unfold Box.addRay at hy
  cases h : a.p with
  | none => rw [h] at hy; exact (Box.gam_none h hy).elim
  | some p =>
    rw [h] at hy
    obtain ⟨x0, hx0⟩ := ha.point h
    have hyi := Box.gam_mk.1 hy i hi
    have h0 := (Box.gam_some h).1 hx0 i hi
    have hz : ∀ z, z ∈ p i → z ∈ r i := fun z hz => by
      simpa using hr _ 0 (Box.gam_update h hx0 i hz) (fun _ => le_refl _) i hi
    refine Itv.mem_of_le ?_ ?_ hyi
    · simp only
      split_ifs with hc
      · cases hb : (r i).inf with
        | ninf => exact absurd hb (Itv.inf_ne_ninf (hz _ h0))
        | pinf => simp
        | fin l =>
          exfalso
          have hne : g.coef i ≠ 0 := by rcases hc with hc | hc; exacts [hc.ne, hc.1]
          have := (hr x0 ((-l - x0 i - 1) / g.coef i) hx0 ?_ i hi).1
          · rw [hb, div_mul_cancel₀ _ hne] at this
            simp only [fin_le_fin] at this; linarith
          · intro hty
            have hneg : g.coef i < 0 := by
              rcases hc with hc | hc
              · exact hc
              · rw [hty] at hc; simp at hc
            have hl := (hz _ h0).1
            rw [hb] at hl; simp only [fin_le_fin] at hl
            exact div_nonneg_of_nonpos (by linarith) hneg.le
      · exact (Itv.reach_inf h0).le fun z h1 => by simpa using (hz _ h1).1
    · simp only
      split_ifs with hc
      · cases hb : (r i).sup with
        | ninf => exact absurd hb (Itv.sup_ne_ninf (hz _ h0))
        | pinf => simp
        | fin u =>
          exfalso
          have hne : g.coef i ≠ 0 := by rcases hc with hc | hc; exacts [hc.ne', hc.1]
          have := (hr x0 ((u - x0 i + 1) / g.coef i) hx0 ?_ i hi).2
          · rw [hb, div_mul_cancel₀ _ hne] at this
            simp only [fin_le_fin] at this; linarith
          · intro hty
            have hpos : 0 < g.coef i := by
              rcases hc with hc | hc
              · exact hc
              · rw [hty] at hc; simp at hc
            have hl := (hz _ h0).2
            rw [hb] at hl; simp only [fin_le_fin] at hl
            exact div_nonneg (by linarith) hpos.le
      · exact (Itv.reach_sup h0).le fun z h1 => (hz _ h1).2

theorem addRay_dim (a : Box K) (g : Box.Gen K) : (a.addRay g).dim = a.dim := by
  unfold Box.addRay; split <;> rfl

/-- the result contains every point moved along the rays and lines -/
theorem C62_add_ray_array_sound (a : Box K) (l : List (Box.Gen K)) (hl : ∀ g ∈ l, g.typ ≠ .vertex)
    (x v : ℕ → K) (hx : a.Gam x) (hv : RayGen l v) : (a.addRayArray l).Gam fun i => x i + v i := by
  unfold Box.addRayArray
  induction l generalizing a x v with
  | nil => simp only [RayGen] at hv; simpa [hv] using hx
  | cons g l ih =>
    obtain ⟨t, w, ht, hw, hv⟩ := hv
    have := ih (a.addRay g) (fun g hg => hl g (by simp [hg])) (fun i => x i + t * g.coef i) w
      (addRay_sound a g (hl g (by simp)) x _ t ht hx fun i => rfl) hw
    have e : (fun i => x i + v i) = fun i => x i + t * g.coef i + w i := by
      funext i; rw [hv i]; ring
    rw [e]; exact this

/-- and is the least such box -/
theorem C62_add_ray_array_least (a c : Box K) (ha : a.Wf) (hd : a.dim = c.dim) (l : List (Box.Gen K))
    (hl : ∀ g ∈ l, g.typ ≠ .vertex)
    (hc : ∀ x v, a.Gam x → RayGen l v → c.Gam fun i => x i + v i) (y : ℕ → K)
    (hy : (a.addRayArray l).Gam y) : c.Gam y := by
  unfold Box.addRayArray at hy
  induction l generalizing a with
  | nil => simpa using hc y (fun _ => 0) hy (fun _ => rfl)
  | cons g l ih =>
    rw [List.foldl_cons] at hy
    refine ih (a.addRay g) ?_ (by rw [addRay_dim, hd]) (fun g hg => hl g (by simp [hg])) ?_ hy
    · intro q hq i hi
      rw [addRay_dim] at hi
      cases hp : a.p with
      | none => simp [Box.addRay, hp] at hq
      | some p =>
        obtain ⟨x0, hx0⟩ := ha.point hp
        have := addRay_sound a g (hl g (by simp)) x0 x0 0 (fun _ => le_refl _) hx0 (by simp)
        exact ⟨_, (Box.gam_some hq).1 this i (by rw [addRay_dim]; exact hi)⟩
    · intro x v hx hv
      cases hp : a.p with
      | none =>
        have : (a.addRay g).p = none := by simp [Box.addRay, hp]
        exact (Box.gam_none this hx).elim
      | some p =>
        obtain ⟨x0, hx0⟩ := ha.point hp
        obtain ⟨r, hr, _⟩ := hc x0 v hx0 ⟨0, v, fun _ => le_refl _, hv, by simp⟩
        refine (Box.gam_some hr).2 fun i hi => ?_
        have := addRay_least a ha g (fun i => (r i).shift (v i)) ?_ x hx i (hd ▸ hi)
        · exact Itv.mem_shift.1 this
        · intro x t hx ht j hj
          rw [Itv.mem_shift]
          have := (Box.gam_some hr).1 (hc x (fun i => t * g.coef i + v i) hx ⟨t, v, ht, hv, fun _ => rfl⟩) j
            (hd ▸ hj)
          simpa [add_assoc] using this

example : ((exBox.addRayArray [⟨.ray, fun i => if i = 0 then (1 : ℚ) else -1⟩]).p.map fun p => (p 0, p 1)) =
    some (⟨fin 0, pinf⟩, ⟨pinf, pinf⟩) := by decide +kernel

end Apron
