import Verif.Box.PolicyLemmas
import Verif.Props.BoxConstraint

/-! # Property C144 (policies on boxes) -/

set_option autoImplicit false
set_option linter.unusedSectionVars false
set_option linter.ambiguousOpen false

namespace Apron
open Bound ILincons
variable {K : Type*} [LinearOrder K] [Field K] [IsStrictOrderedRing K]

/-! ## comparison and hash -/

/-- Two elementary policies are equal when they have the same dimensions and the same choices. -/
theorem C144_equal_one (a b : PolOne) :
    a.equal b = true ↔ a.nbdims = b.nbdims ∧ ∀ i, i < a.nbdims → a.p i = b.p i := by
  unfold PolOne.equal
  simp [List.all_eq_true]

/-- Two policies are equal when they have the same dimensions, the same number of elementary policies, and these
are equal one by one. -/
theorem C144_equal (a b : Policy) :
    a.equal b = true ↔ a.nbdims = b.nbdims ∧ a.p.length = b.p.length ∧
      ∀ (k : ℕ) (o o' : PolOne), a.p[k]? = some o → b.p[k]? = some o' →
        o.nbdims = o'.nbdims ∧ ∀ i, i < o.nbdims → o.p i = o'.p i := by
  unfold Policy.equal
  rw [Bool.and_eq_true, Bool.and_eq_true, decide_eq_true_eq, decide_eq_true_eq, List.all_eq_true, and_assoc]
  refine and_congr_right fun _ => and_congr_right fun hl => ?_
  constructor
  · intro h k o o' ho ho'
    have hm : (o, o') ∈ a.p.zip b.p := by
      refine List.mem_of_getElem? (i := k) ?_
      rw [List.getElem?_zip_eq_some]
      exact ⟨ho, ho'⟩
    exact (C144_equal_one _ _).1 (h _ hm)
  · rintro h ⟨o, o'⟩ hm
    obtain ⟨k, hk⟩ := List.mem_iff_getElem?.1 hm
    rw [List.getElem?_zip_eq_some] at hk
    exact (C144_equal_one _ _).2 (h k o o' hk.1 hk.2)

/-- Equal elementary policies have the same hash. -/
theorem C144_hash_one (a b : PolOne) (h : a.equal b = true) : a.hash = b.hash := by
  obtain ⟨h1, h2⟩ := (C144_equal_one _ _).1 h
  unfold PolOne.hash
  rw [← h1]
  refine List.foldl_ext _ _ _ fun r i hi => ?_
  rw [h2 i (List.mem_range.1 hi)]

/-- The hash of a policy is computed in a boolean: it is 1 whenever the policy is not empty. -/
theorem C144_hash_constant (a : Policy) : a.hash = if a.p = [] then 0 else 1 := by
  unfold Policy.hash
  have key : ∀ l : List PolOne,
      l.foldl (fun (r : Bool) o => decide (r.toNat + (2 * r.toNat + o.hash / 2) ≠ 0)) true = true := by
    intro l
    induction l with
    | nil => rfl
    | cons o l ih => rw [List.foldl_cons]; simpa using ih
  cases h : a.p with
  | nil => simp
  | cons o l =>
    have : decide ((o :: l).length ≠ 0) = true := by simp
    rw [this, key]; simp

/-- Equal policies have the same hash. -/
theorem C144_hash (a b : Policy) (h : a.equal b = true) : a.hash = b.hash := by
  obtain ⟨_, h2, _⟩ := (C144_equal _ _).1 h
  rw [C144_hash_constant, C144_hash_constant]
  have : a.p = [] ↔ b.p = [] := by rw [← List.length_eq_zero_iff, ← List.length_eq_zero_iff, h2]
  simp [this]

/-! ## meet of boxes -/

theorem pick_ge {y : K} {a b : Bound K} (c : Choice) (ha : fin y ≤ a) (hb : fin y ≤ b) : fin y ≤ c.pick a b := by
  unfold Choice.pick; split_ifs <;> assumption

/-- Every policy over-approximates the intersection. -/
theorem C144_meet_apply_sound (π : PolOne) (a b : Box K) (hπ : π.nbdims = a.dim) (hd : a.dim = b.dim) (x : ℕ → K)
    (ha : a.Gam x) (hb : b.Gam x) : ∃ r, Box.polMeetApply π a b = some r ∧ r.Gam x := by
  unfold Box.polMeetApply
  cases h : a.p with
  | none => exact absurd ha (Box.gam_none h)
  | some p =>
    cases h' : b.p with
    | none => exact absurd hb (Box.gam_none h')
    | some q =>
      have hp := (Box.gam_some h).1 ha
      have hq := (Box.gam_some h').1 hb
      have hm : ∀ i, i < a.dim → x i ∈ PolDim.meetApply (π.p i) (p i) (q i) := fun i hi =>
        ⟨pick_ge _ (hp i hi).1 (hq i (hd ▸ hi)).1, pick_ge _ (hp i hi).2 (hq i (hd ▸ hi)).2⟩
      simp only
      rw [if_neg (by simp [hπ]), if_neg (by
        simp only [List.any_eq_true, List.mem_range, not_exists, not_and]
        intro i hi
        rw [Itv.not_isBottom (hm i hi)]; simp)]
      exact ⟨_, rfl, Box.gam_mk.2 hm⟩

theorem improve_pick (o : Option Choice) (b c : Bound K) : (Choice.improve o b c).pick b c = Bound.bmin b c := by
  rw [Bound.bmin_eq_min]
  unfold Choice.improve Choice.pick
  cases o with
  | none =>
    simp only
    split_ifs with h1 h2 h2 <;> simp_all [le_of_lt]
  | some o =>
    simp only
    split_ifs with h1 h2 h2 <;> simp_all [le_of_lt]

/-- The improvement of a policy for the right dimensions is defined. -/
theorem C144_meet_improve_defined (o : PolOne) (a b : Box K) (ho : o.nbdims = a.dim) :
    ∃ ρ, Box.polMeetImprove (some o) a b = some ρ ∧ ρ.nbdims = a.dim := by
  unfold Box.polMeetImprove
  cases h : a.p with
  | none => exact ⟨_, rfl, rfl⟩
  | some p =>
    cases h' : b.p with
    | none => exact ⟨_, rfl, rfl⟩
    | some q => exact ⟨_, by simp only [Option.bind_some]; rw [if_neg (by simp [ho])], rfl⟩

/-- The improved policy computes the meet itself. -/
theorem C144_meet_improved (o : PolOne) (a b : Box K) (ρ : PolOne)
    (h : Box.polMeetImprove (some o) a b = some ρ) : Box.polMeetApply ρ a b = some (a.meet b) := by
  unfold Box.polMeetImprove at h
  unfold Box.polMeetApply Box.meet
  cases h1 : a.p with
  | none => rfl
  | some p =>
    cases h2 : b.p with
    | none => rfl
    | some q =>
      rw [h1, h2] at h
      simp only [Option.bind_some] at h
      split_ifs at h
      simp only [Option.some.injEq] at h
      subst h
      have e : ∀ i, PolDim.meetApply (PolDim.meetImprove (some (o.p i)) (p i) (q i)) (p i) (q i) = (p i).meet (q i) := by
        intro i
        simp [PolDim.meetApply, PolDim.meetImprove, improve_pick, Itv.meet]
      simp only [e, ne_eq, not_true_eq_false, if_false]
      split_ifs <;> rfl

/-- No policy does better than the improved one. -/
theorem C144_meet_improved_least (o : PolOne) (a b : Box K) (ha : a.Wf) (hb : b.Wf) (hd : a.dim = b.dim)
    (ρ : PolOne) (h : Box.polMeetImprove (some o) a b = some ρ) (r : Box K)
    (hr : Box.polMeetApply ρ a b = some r) (π : PolOne) (hπ : π.nbdims = a.dim) (x : ℕ → K) (hx : r.Gam x) :
    ∃ s, Box.polMeetApply π a b = some s ∧ s.Gam x := by
  rw [C144_meet_improved o a b ρ h, Option.some.injEq] at hr
  subst hr
  have := (C11_meet a b ha hb hd x).1 hx
  exact C144_meet_apply_sound π a b hπ hd x this.1 this.2

theorem improve_keeps {o : Choice} {b c : Bound K} (h : o.pick b c = Bound.bmin b c) :
    Choice.improve (some o) b c = o := by
  rw [Bound.bmin_eq_min] at h
  unfold Choice.improve Choice.pick at *
  simp only
  by_cases h1 : Bound.cmp b c = 0
  · rw [if_pos h1]
  · rw [if_neg h1]
    rw [Bound.cmp_eq_zero] at h1
    simp only [Bound.cmp_le_zero]
    cases o with
    | one =>
      rw [if_pos rfl] at h
      rw [if_pos (by rw [h]; exact min_le_right _ _)]
    | two =>
      rw [if_neg (by simp)] at h
      rw [if_neg]
      intro hbc
      rw [min_eq_left hbc] at h
      exact h1 h.symm

/-- A policy that already computes the bounds of the meet is kept: the iteration on policies stops. -/
theorem C144_meet_improve_keeps (o : PolOne) (a b : Box K) (p q : ℕ → Itv K) (ha : a.p = some p) (hb : b.p = some q)
    (ρ : PolOne) (h : Box.polMeetImprove (some o) a b = some ρ)
    (hopt : ∀ i, i < a.dim → PolDim.meetApply (o.p i) (p i) (q i) = (p i).meet (q i)) : ρ.equal o = true := by
  unfold Box.polMeetImprove at h
  rw [ha, hb] at h
  simp only [Option.bind_some] at h
  split_ifs at h with hn
  simp only [Option.some.injEq] at h
  subst h
  rw [not_not] at hn
  refine (C144_equal_one _ _).2 ⟨hn.symm, fun i hi => ?_⟩
  have := hopt i hi
  simp only [PolDim.meetApply, Itv.meet, Itv.mk.injEq] at this
  exact Prod.ext (improve_keeps this.1) (improve_keeps this.2)

/-- Improving twice changes nothing. -/
theorem C144_meet_improve_idem (o : PolOne) (a b : Box K) (ρ : PolOne)
    (h : Box.polMeetImprove (some o) a b = some ρ) :
    ∃ ρ', Box.polMeetImprove (some ρ) a b = some ρ' ∧ ρ'.equal ρ = true := by
  have hn : ρ.nbdims = a.dim := by
    unfold Box.polMeetImprove at h
    cases h1 : a.p <;> cases h2 : b.p <;> simp only [h1, h2, Option.some.injEq] at h <;> try (subst h; rfl)
    simp only [Option.bind_some] at h
    split_ifs at h
    simp only [Option.some.injEq] at h
    subst h; rfl
  obtain ⟨ρ', h', _⟩ := C144_meet_improve_defined ρ a b hn
  refine ⟨ρ', h', ?_⟩
  cases h1 : a.p with
  | none =>
    unfold Box.polMeetImprove at h h'
    simp only [h1, Option.some.injEq] at h h'
    subst h h'
    exact (C144_equal_one _ _).2 ⟨rfl, fun _ _ => rfl⟩
  | some p =>
    cases h2 : b.p with
    | none =>
      unfold Box.polMeetImprove at h h'
      simp only [h1, h2, Option.some.injEq] at h h'
      subst h h'
      exact (C144_equal_one _ _).2 ⟨rfl, fun _ _ => rfl⟩
    | some q =>
      refine C144_meet_improve_keeps ρ a b p q h1 h2 ρ' h' fun i _ => ?_
      unfold Box.polMeetImprove at h
      simp only [h1, h2, Option.bind_some] at h
      split_ifs at h
      simp only [Option.some.injEq] at h
      subst h
      simp [PolDim.meetApply, PolDim.meetImprove, improve_pick, Itv.meet]

theorem polMeetApply_dim {π : PolOne} {a b r : Box K} (h : Box.polMeetApply π a b = some r) :
    r.intdim = a.intdim ∧ r.realdim = a.realdim := by
  unfold Box.polMeetApply at h
  cases h1 : a.p <;> cases h2 : b.p <;> simp only [h1, h2, Option.some.injEq] at h <;> try (subst h; exact ⟨rfl, rfl⟩)
  split_ifs at h <;> simp only [Option.some.injEq] at h <;> subst h <;> exact ⟨rfl, rfl⟩

/-- The same for arrays of boxes: every policy over-approximates the intersection. -/
theorem C144_meet_array_apply_sound (π : Policy) (a : Box K) (l : List (Box K)) (hlen : π.p.length = l.length)
    (hπ : ∀ o ∈ π.p, o.nbdims = a.dim) (hd : ∀ b ∈ l, b.dim = a.dim) (x : ℕ → K) (ha : a.Gam x)
    (hl : ∀ b ∈ l, b.Gam x) : ∃ r, Box.polMeetArrayApply π a l = some r ∧ r.Gam x := by
  unfold Box.polMeetArrayApply
  rw [if_neg (by simpa using hlen)]
  obtain ⟨_, πs⟩ := π
  simp only at hlen hπ ⊢
  induction l generalizing a πs with
  | nil =>
    cases πs with
    | nil => exact ⟨a, rfl, ha⟩
    | cons o os => simp at hlen
  | cons b l ih =>
    cases πs with
    | nil => simp at hlen
    | cons o os =>
      obtain ⟨r, h1, h2⟩ := C144_meet_apply_sound o a b (hπ o List.mem_cons_self) (hd b List.mem_cons_self).symm x ha
        (hl b List.mem_cons_self)
      have hdim : r.dim = a.dim := by
        have := polMeetApply_dim h1
        simp [Box.dim, this.1, this.2]
      unfold Box.polMeetGo
      rw [h1, Option.bind_some]
      exact ih r (fun b hb => (hd b (List.mem_cons_of_mem _ hb)).trans hdim.symm) h2
        (fun b hb => hl b (List.mem_cons_of_mem _ hb)) os (by simpa using hlen)
        (fun o ho => (hπ o (List.mem_cons_of_mem _ ho)).trans hdim.symm)

/-- The improvement of a policy for an array of boxes is defined, and the improved policy computes the meet of the
array. -/
theorem C144_meet_array_improved (old : Policy) (a : Box K) (l : List (Box K)) (hlen : old.p.length = l.length)
    (hold : ∀ o ∈ old.p, o.nbdims = a.dim) :
    ∃ ρ, Box.polMeetArrayImprove old a l = some ρ ∧ ρ.p.length = l.length ∧
      Box.polMeetArrayApply ρ a l = some (a.meetArray l) := by
  unfold Box.polMeetArrayImprove Box.polMeetArrayApply Box.meetArray
  rw [if_neg (by simpa using hlen)]
  obtain ⟨_, os⟩ := old
  simp only at hlen hold ⊢
  suffices h : ∃ ρs, Box.polMeetImproveGo os a l = some ρs ∧ ρs.length = l.length ∧
      Box.polMeetGo ρs a l = some (l.foldl Box.meet a) by
    obtain ⟨ρs, h1, h2, h3⟩ := h
    refine ⟨⟨a.dim, ρs⟩, by rw [h1]; rfl, h2, ?_⟩
    rw [if_neg (by simpa using h2), h3]
  induction l generalizing a os with
  | nil =>
    cases os with
    | nil => exact ⟨[], rfl, rfl, rfl⟩
    | cons o os => simp at hlen
  | cons b l ih =>
    cases os with
    | nil => simp at hlen
    | cons o os =>
      obtain ⟨ρ, h1, _⟩ := C144_meet_improve_defined o a b (hold o List.mem_cons_self)
      have h2 := C144_meet_improved o a b ρ h1
      have hdim : (a.meet b).dim = a.dim := by
        have := polMeetApply_dim h2
        simp [Box.dim, this.1, this.2]
      obtain ⟨ρs, i1, i2, i3⟩ := ih (a.meet b) os (by simpa using hlen)
        (fun o ho => (hold o (List.mem_cons_of_mem _ ho)).trans hdim.symm)
      refine ⟨ρ :: ρs, ?_, by simp [i2], ?_⟩
      · unfold Box.polMeetImproveGo
        rw [h1, Option.bind_some, h2, Option.bind_some, i1]
        rfl
      · unfold Box.polMeetGo
        rw [h2, Option.bind_some, i3, List.foldl_cons]

/-! ## meet with linear constraints -/

theorem scalar_term {q : ℚ} (d : ℕ) : (ITerm.ofCoeff Rnd.exact (d, .scalar (fin q))).eq = true ∧
    (ITerm.ofCoeff Rnd.exact (d, .scalar (fin q))).itv = Itv.point q := by
  constructor
  · simp [ITerm.ofCoeff, Itv.setApEq, Itv.setApCoeffExact, boundSetApExact, Rnd.exact, Coeff.isScalar]
  · simp [ITerm.ofCoeff, Itv.setApCoeff, Itv.setApScalar, boundSetApExact, boundSetAp, Rnd.exact, Itv.point]

/-- all the coefficients of the variables are scalars -/
def Lincons.ScalarCoeffs (c : Lincons ℚ) : Prop := ∀ p ∈ c.expr.terms, ∃ q, p.2 = .scalar (fin q)

theorem scalar_eq {c : Lincons ℚ} (h : c.ScalarCoeffs) :
    ∀ t ∈ (ILincons.ofAp Rnd.exact c).expr.terms, t.eq = true ∧ ∃ q, t.itv = Itv.point q := by
  intro t ht
  simp only [ILincons.ofAp, ILinexpr.ofAp, List.mem_filter, List.mem_map] at ht
  obtain ⟨⟨⟨d, v⟩, hp, rfl⟩, _⟩ := ht
  obtain ⟨q, hq⟩ := h _ hp
  simp only at hq
  subst hq
  exact ⟨(scalar_term d).1, q, (scalar_term d).2⟩

theorem ptOk_ofAp {c : Lincons ℚ} {n : ℕ} (h : c.ScalarCoeffs) (hd : c.expr.InDim n) :
    PtOk (ILincons.ofAp Rnd.exact c) := by
  refine ⟨scalar_eq h, ?_⟩
  have h1 : (c.expr.terms.map Prod.fst).Nodup := hd.1.imp (fun h => h.ne)
  have h2 : ((c.expr.terms.map (ITerm.ofCoeff (Rnd.exact : Rnd ℚ))).map ITerm.dim) = c.expr.terms.map Prod.fst := by
    rw [List.map_map]; rfl
  rw [← h2] at h1
  exact h1.sublist (List.filter_sublist.map _)

theorem polReduce_mem {l : List (Lincons ℚ)} {n : ℕ}
    (h : (arrayReduceInteger reduceIntegerRat (l.map (ILincons.ofAp Rnd.exact)) n).2 ≠ .f) {c : ILincons ℚ}
    (hc : c ∈ (arrayReduceInteger reduceIntegerRat (l.map (ILincons.ofAp Rnd.exact)) n).1) :
    ∃ c0 ∈ l, c = reduceIntegerRat (ILincons.ofAp Rnd.exact c0) n := by
  have := arrayReduce_mem h c hc
  simp only [List.map_map, List.mem_map, Function.comp] at this
  obtain ⟨c0, h0, rfl⟩ := this
  exact ⟨c0, h0, rfl⟩

/-- Every policy gives a box with all the points of the argument that satisfy the constraints, if the equalities
have scalar coefficients.  Missing: equalities with interval coefficients, for which the code is wrong
(`C144_equality_interval_unsound`), and the constraints on which the code has no defined behaviour
(`C144_reduced_array_overrun`, `C144_diseq_undefined`). -/
theorem C144_lincons_apply_sound_partial (π : List (ℕ → PolDim)) (a : Box ℚ) (l : List (Lincons ℚ))
    (hl : ∀ c ∈ l, c.expr.InDim a.dim) (heq : ∀ c ∈ l, c.typ = .eq → c.ScalarCoeffs) (algo : ℕ) (r : Box ℚ)
    (hr : Box.polMeetLincons Rnd.exact reduceIntegerRat π a l algo = some r) (x : ℕ → ℚ) (hx : a.Gam x)
    (hint : ∀ d, d < a.intdim → ∃ n : ℤ, x d = n) (hc : ∀ c ∈ l, c.Holds x) : r.Gam x := by
  unfold Box.polMeetLincons at hr
  cases h : a.p with
  | none => exact absurd hx (Box.gam_none h)
  | some p =>
    simp only [h] at hr
    split_ifs at hr with h1 h2
    · exfalso
      refine (arrayReduce_holds (l := (l.map (ILincons.ofAp Rnd.exact)).map fun c => reduceIntegerRat c a.intdim)
        (fun c hc he => ?_) (x := x) (fun c hc' => ?_)).1 h2
      · simp only [List.map_map, List.mem_map, Function.comp] at hc
        obtain ⟨c0, hc0, rfl⟩ := hc
        exact (okFor_reduceIntegerRat (okFor_ofAp_exact c0) _).cst he
      · simp only [List.map_map, List.mem_map, Function.comp] at hc'
        obtain ⟨c0, hc0, rfl⟩ := hc'
        exact reduceIntegerRat_sound (ILinexpr.flagsOk_ofAp _ _) (ILinexpr.cstOk_ofAp _ _) hint
          (holds_ofAp _ (hc c0 hc0))
    · rw [Option.map_eq_some_iff] at hr
      obtain ⟨s, hs, hr⟩ := hr
      obtain ⟨p', rfl, hp'⟩ := polRun_sound (D := fun d => d < a.dim) (x := x) (fun d _ hd => hint d hd) _ _ s
        (fun s hs c hsc => by
          obtain ⟨π0, c'⟩ := s
          simp only at hsc; subst hsc
          obtain ⟨c0, h0, rfl⟩ := polReduce_mem h2 (mem_polSeq (List.of_mem_zip hs).2)
          refine ⟨⟨okFor_reduceIntegerRat (okFor_ofAp_exact c0) _, fun t ht => ?_⟩,
            reduceIntegerRat_sound (ILinexpr.flagsOk_ofAp _ _) (ILinexpr.cstOk_ofAp _ _) hint
              (holds_ofAp _ (hc c0 h0)), fun t ht => ?_⟩
          · by_cases hty : (reduceIntegerRat (ILincons.ofAp Rnd.exact c0) a.intdim).typ = .eq
            · exact Or.inl (coef_reduceIntegerRat (c := ILincons.ofAp Rnd.exact c0)
                (fun h t ht => (scalar_eq (heq c0 h0 h) t ht).1) _ hty t ht)
            · exact Or.inr ⟨hty, rfl⟩
          · obtain ⟨u, hu, e⟩ := dims_reduceIntegerRat ht
            rw [← e]; exact ofAp_dims (hl c0 h0) u hu)
        ((Box.gam_some h).1 hx) hs
      simp only at hr
      subst hr
      exact Box.gam_mk.2 hp'

/-- With scalar coefficients, the improved policy computes a part of the argument that is inside of the result of
every other policy of the right size. -/
theorem C144_lincons_improved_least (old : Bool) (a : Box ℚ) (l : List (Lincons ℚ))
    (hl : ∀ c ∈ l, c.expr.InDim a.dim) (hs : ∀ c ∈ l, c.ScalarCoeffs) (algo : ℕ) (ρ : List (ℕ → PolDim))
    (hρ : Box.polImproveLincons Rnd.exact reduceIntegerRat old a l algo = some ρ) :
    ∃ r, Box.polMeetLincons Rnd.exact reduceIntegerRat ρ a l algo = some r ∧ (∀ x, r.Gam x → a.Gam x) ∧
      ∀ π : List (ℕ → PolDim), π.length = ρ.length → ∀ x, r.Gam x →
        ∃ s, Box.polMeetLincons Rnd.exact reduceIntegerRat π a l algo = some s ∧ s.Gam x := by
  unfold Box.polImproveLincons at hρ
  unfold Box.polMeetLincons
  cases h : a.p with
  | none => exact ⟨a, rfl, fun _ h => h, fun _ _ x hx => absurd hx (Box.gam_none h)⟩
  | some p =>
    simp only [h] at hρ
    simp only
    split_ifs at hρ with h2
    · simp only [Option.some.injEq] at hρ
      subst hρ
      refine ⟨_, by rw [if_neg (by simp), if_pos h2], fun x hx => absurd hx (Box.gam_none rfl),
        fun _ _ x hx => absurd hx (Box.gam_none rfl)⟩
    · simp only [Option.map_eq_some_iff, Prod.exists] at hρ
      obtain ⟨ρ', r, hrun, rfl⟩ := hρ
      have hpt : ∀ c, some c ∈ polSeq (polKmax algo) l.length
          (arrayReduceInteger reduceIntegerRat (l.map (ILincons.ofAp Rnd.exact)) a.intdim).1 →
          PtOk c ∧ ∀ t ∈ c.expr.terms, t.dim < a.dim := by
        intro c hc
        obtain ⟨c0, h0, rfl⟩ := polReduce_mem h2 (mem_polSeq hc)
        refine ⟨ptOk_reduceIntegerRat (ptOk_ofAp (hs c0 h0) (hl c0 h0)) _, fun t ht => ?_⟩
        obtain ⟨u, hu, e⟩ := dims_reduceIntegerRat ht
        rw [← e]; exact ofAp_dims (hl c0 h0) u hu
      obtain ⟨b1, b2, b3⟩ := polRun_best old a.intdim _ p ρ' r (fun c hc => (hpt c hc).1) hrun
      rw [length_polSeq] at b1
      rw [if_neg (by simpa using b1), if_neg h2, b2, Option.map_some]
      refine ⟨_, rfl, ?_, ?_⟩
      · intro x hx
        cases r with
        | none => exact absurd hx (Box.gam_none rfl)
        | some r =>
          have hle := b3 r rfl
          exact (Box.gam_some h).2 fun d hd => Itv.mem_of_le (hle d).1 (hle d).2 (Box.gam_mk.1 hx d hd)
      · intro π hπ x hx
        cases r with
        | none => exact absurd hx (Box.gam_none rfl)
        | some r =>
          have hx := Box.gam_mk.1 hx
          obtain ⟨r', h3, h4⟩ := polRun_le rndMono_exact old a.intdim (x := x) (D := fun d => d < a.dim) _ π p p ρ' r
            (by rw [length_polSeq]; exact hπ.trans b1) hpt (ArrLe.refl p) hx hrun
          rw [if_neg (by simpa using hπ.trans b1), if_neg h2, h3, Option.map_some]
          exact ⟨_, rfl, Box.gam_mk.2 fun d hd => Itv.mem_of_le (h4 d).1 (h4 d).2 (hx d hd)⟩

/-! ## examples -/

/-- a policy of two dimensions: the upper bound of `x0` and the lower bound of `x1` from the second argument -/
def exPol : PolOne := ⟨2, fun i => if i = 0 then (.one, .two) else (.two, .one)⟩

/-- the choices of the improvement, and the boxes of the two policies -/
example : ((Box.polMeetImprove (some exPol) exBox exBox2).map fun ρ => (ρ.p 0, ρ.p 1)) =
      some ((.two, .one), (.one, .two)) ∧
    ((Box.polMeetApply exPol exBox exBox2).bind fun r => r.p.map fun p => (p 0, p 1)) =
      some (⟨fin 0, fin 9⟩, ⟨pinf, pinf⟩) ∧
    exPol.nbdims = exBox.dim := by decide +kernel

example : ∃ ρ r, Box.polMeetImprove (some exPol) exBox exBox2 = some ρ ∧ Box.polMeetApply ρ exBox exBox2 = some r ∧
    r.Gam (fun _ => 2) := by
  obtain ⟨ρ, h, _⟩ := C144_meet_improve_defined exPol exBox exBox2 rfl
  refine ⟨ρ, _, h, C144_meet_improved _ _ _ _ h, (C11_meet _ _ exBox_wf exBox2_wf rfl _).2 ⟨?_, ?_⟩⟩
  · refine Box.gam_mk.2 fun i _ => ?_
    by_cases h : i = 0 <;> simp only [h, if_true, if_false] <;> decide +kernel
  · refine Box.gam_mk.2 fun i _ => ?_
    by_cases h : i = 0 <;> simp only [h, if_true, if_false] <;> decide +kernel

/-- `-10 ≤ x0 ≤ 10`, `-10 ≤ x1 ≤ 10` -/
def exPolBox : Box ℚ := ⟨some fun _ => ⟨fin 10, fin 10⟩, 0, 2⟩

/-- `x0 + 2 x1 - 5 >= 0`, `x0 - x1 + 3 = 0` -/
def exPolCons : List (Lincons ℚ) :=
  [⟨.supeq, ⟨.scalar (fin (-5)), .sparse [(0, .scalar (fin 1)), (1, .scalar (fin 2))]⟩⟩,
   ⟨.eq, ⟨.scalar (fin 3), .sparse [(0, .scalar (fin 1)), (1, .scalar (fin (-1)))]⟩⟩]

example : (∀ c ∈ exPolCons, c.expr.InDim exPolBox.dim) ∧ ∀ c ∈ exPolCons, c.ScalarCoeffs := by
  constructor <;> intro c hc <;> simp only [exPolCons, List.mem_cons, List.not_mem_nil, or_false] at hc <;>
    rcases hc with rfl | rfl
  · simp [Linexpr.InDim, Linexpr.terms, exPolBox, Box.dim, dimMax]
  · simp [Linexpr.InDim, Linexpr.terms, exPolBox, Box.dim, dimMax]
  · simp [Lincons.ScalarCoeffs, Linexpr.terms, dimMax]
  · simp [Lincons.ScalarCoeffs, Linexpr.terms, dimMax]

/-- the improved policy computes a smaller box -/
example : ((Box.polImproveLincons Rnd.exact reduceIntegerRat false exPolBox exPolCons 1).bind fun ρ =>
      (Box.polMeetLincons Rnd.exact reduceIntegerRat ρ exPolBox exPolCons 1).bind fun r =>
        r.p.map fun p => (p 0, p 1)) = some (⟨fin (11 / 2), fin 7⟩, ⟨fin (5 / 2), fin 10⟩) := by decide +kernel

/-! ## where the code violates the property -/

/-- `box_policy_meet_improve` reads the number of dimensions of the old policy before it tests if there is one
(box/box_policy.c:350): without an old policy the behaviour is undefined on all pairs of non-empty boxes. -/
theorem C144_improve_null (a b : Box K) (p q : ℕ → Itv K) (ha : a.p = some p) (hb : b.p = some q) :
    Box.polMeetImprove none a b = none := by
  unfold Box.polMeetImprove
  rw [ha, hb]; rfl

/-- An equality with an interval coefficient is misread: from `[1,2]*x - 4 = 0` the policy deduces `x <= 2`
(box/box_policy.c:660-692), which loses `x = 4`. -/
theorem C144_equality_interval_unsound : ∃ (a : Box ℚ) (c : Lincons ℚ) (π : List (ℕ → PolDim)) (x : ℕ → ℚ) (r : Box ℚ),
    c.expr.InDim a.dim ∧ a.intdim = 0 ∧ a.Gam x ∧ c.Holds x ∧
      Box.polMeetLincons Rnd.exact reduceIntegerRat π a [c] 1 = some r ∧ ¬ r.Gam x := by
  have e : ((Box.polMeetLincons Rnd.exact reduceIntegerRat [fun _ => (.one, .two)]
      (⟨some fun _ => ⟨fin 10, fin 10⟩, 0, 1⟩ : Box ℚ)
      [⟨.eq, ⟨.scalar (fin (-4)), .sparse [(0, .interval (fin 1) (fin 2))]⟩⟩] 1).map fun r =>
        (r.dim, r.p.map fun p => (p 0).sup)) = some (1, some (fin 2)) := by decide +kernel
  rw [Option.map_eq_some_iff] at e
  obtain ⟨r, hr, e⟩ := e
  simp only [Prod.mk.injEq, Option.map_eq_some_iff] at e
  obtain ⟨e1, p, hp, e2⟩ := e
  refine ⟨⟨some fun _ => ⟨fin 10, fin 10⟩, 0, 1⟩,
    ⟨.eq, ⟨.scalar (fin (-4)), .sparse [(0, .interval (fin 1) (fin 2))]⟩⟩, [fun _ => (.one, .two)], fun _ => 4, r,
    by simp [Linexpr.InDim, Linexpr.terms, Box.dim, dimMax], rfl, Box.gam_mk.2 fun _ _ => by decide +kernel,
    ⟨0, ⟨-4, 4, rfl, ⟨1, 0, ?_, rfl, by norm_num⟩, by norm_num⟩, rfl⟩, hr, ?_⟩
  · exact ⟨le_refl _, by norm_num [fin_le_fin]⟩
  · intro h
    have := ((Box.gam_some hp).1 h 0 (by rw [e1]; exact one_pos)).2
    rw [e2, fin_le_fin] at this
    norm_num at this

/-- The reduction removes the constraints that always hold, but the loops go on for the initial size of the array
(box/box_policy.c:775-776): with the constraint `1 >= 0`, which removes nothing, they read outside of the reduced
array. -/
theorem C144_reduced_array_overrun (a : Box ℚ) (p : ℕ → Itv ℚ) (ha : a.p = some p) (π : List (ℕ → PolDim)) (algo : ℕ) :
    Box.polMeetLincons Rnd.exact reduceIntegerRat π a [⟨.supeq, ⟨.scalar (fin 1), .sparse []⟩⟩] algo = none := by
  have hred : reduceIntegerRat (ILincons.ofAp Rnd.exact (⟨.supeq, ⟨.scalar (fin 1), .sparse []⟩⟩ : Lincons ℚ)) a.intdim =
      ILincons.ofAp Rnd.exact (⟨.supeq, ⟨.scalar (fin 1), .sparse []⟩⟩ : Lincons ℚ) := by
    rcases reduceIntegerRat_eq (ILincons.ofAp Rnd.exact (⟨.supeq, ⟨.scalar (fin 1), .sparse []⟩⟩ : Lincons ℚ)) a.intdim with
      h | ⟨_, h, _⟩
    · exact h
    · exact absurd (by simp [ILincons.ofAp, ILinexpr.ofAp, Linexpr.terms]) h
  have e : arrayReduceInteger reduceIntegerRat
      ([(⟨.supeq, ⟨.scalar (fin 1), .sparse []⟩⟩ : Lincons ℚ)].map (ILincons.ofAp Rnd.exact)) a.intdim = ([], .t) := by
    unfold arrayReduceInteger
    rw [List.map_cons, List.map_nil, List.map_cons, List.map_nil, hred]
    decide +kernel
  unfold Box.polMeetLincons
  simp only [ha, e, List.length_cons, List.length_nil, zero_add, mul_one]
  split_ifs with h1
  · rfl
  · exact absurd ‹False› (by simp)
  · have hk : 0 < polKmax algo := by unfold polKmax; split_ifs <;> omega
    obtain ⟨k, hk⟩ : ∃ k, polKmax algo = k + 1 := ⟨polKmax algo - 1, by omega⟩
    rw [not_not, hk] at h1
    obtain ⟨π0, π', rfl⟩ : ∃ π0 π', π = π0 :: π' := by
      cases π with
      | nil => simp at h1
      | cons a l => exact ⟨a, l, rfl⟩
    have : polSeq (k + 1) 1 ([] : List (ILincons ℚ)) = none :: polSeq k 1 [] := by
      have hc : ∀ l : List ℕ, (0 :: l).flatMap (fun _ => (List.range 1).map fun i => ([] : List (ILincons ℚ))[i]?) =
          none :: l.flatMap (fun _ => (List.range 1).map fun i => ([] : List (ILincons ℚ))[i]?) := fun l => rfl
      unfold polSeq
      rw [List.range_succ_eq_map (n := k), hc, List.flatMap_map]
    rw [hk, this, List.zip_cons_cons]
    rfl

/-- A disequality fails the assertion of box/box_policy.c:467-469. -/
theorem C144_diseq_undefined : Box.polMeetLincons Rnd.exact reduceIntegerRat [fun _ => (.one, .one)]
    exPolBox [⟨.diseq, ⟨.scalar (fin 1), .sparse [(0, .scalar (fin 1))]⟩⟩] 1 = none ∧
    Box.polImproveLincons Rnd.exact reduceIntegerRat true
      exPolBox [⟨.diseq, ⟨.scalar (fin 1), .sparse [(0, .scalar (fin 1))]⟩⟩] 1 = none := by
  have h1 : (Box.polMeetLincons Rnd.exact reduceIntegerRat [fun _ => (.one, .one)]
    exPolBox [⟨.diseq, ⟨.scalar (fin 1), .sparse [(0, .scalar (fin 1))]⟩⟩] 1).isNone = true := by decide +kernel
  have h2 : (Box.polImproveLincons Rnd.exact reduceIntegerRat true
      exPolBox [⟨.diseq, ⟨.scalar (fin 1), .sparse [(0, .scalar (fin 1))]⟩⟩] 1).isNone = true := by decide +kernel
  exact ⟨Option.isNone_iff_eq_none.1 h1, Option.isNone_iff_eq_none.1 h2⟩

/-- The improvement ignores the deductions from interval coefficients (box/box_policy.c:617, 660 test the choice
before it is made): from `[1,2]*x - 4 >= 0` a policy deduces `x >= 2`, but the improved policy keeps `-10 <= x`. -/
theorem C144_improve_interval_not_least :
    ((Box.polImproveLincons Rnd.exact reduceIntegerRat true exPolBox
      [⟨.supeq, ⟨.scalar (fin (-4)), .sparse [(0, .interval (fin 1) (fin 2))]⟩⟩] 1).bind fun ρ =>
      (Box.polMeetLincons Rnd.exact reduceIntegerRat ρ exPolBox
        [⟨.supeq, ⟨.scalar (fin (-4)), .sparse [(0, .interval (fin 1) (fin 2))]⟩⟩] 1).bind fun r =>
          r.p.map fun p => p 0) = some ⟨fin 10, fin 10⟩ ∧
    ((Box.polMeetLincons Rnd.exact reduceIntegerRat [fun _ => (.two, .one)] exPolBox
        [⟨.supeq, ⟨.scalar (fin (-4)), .sparse [(0, .interval (fin 1) (fin 2))]⟩⟩] 1).bind fun r =>
          r.p.map fun p => p 0) = some ⟨fin (-2), fin 10⟩ := by decide +kernel

/-- Where the two bounds are equal the improvement should keep the old choice, as the meet of boxes does
(`C144_meet_improve_keeps`), but it compares with the choice it has just initialised (box/box_policy.c:560-563):
for `x + 10 >= 0` on `-10 <= x` it chooses the constraint without an old policy, and then never again. -/
theorem C144_lincons_improve_not_stable :
    ((Box.polImproveLincons Rnd.exact reduceIntegerRat false exPolBox
      [⟨.supeq, ⟨.scalar (fin 10), .sparse [(0, .scalar (fin 1))]⟩⟩] 1).map fun ρ => ρ.map fun π => π 0) =
        some [(.two, .one)] ∧
    ((Box.polImproveLincons Rnd.exact reduceIntegerRat true exPolBox
      [⟨.supeq, ⟨.scalar (fin 10), .sparse [(0, .scalar (fin 1))]⟩⟩] 1).map fun ρ => ρ.map fun π => π 0) =
        some [(.one, .one)] ∧
    ((Box.polMeetLincons Rnd.exact reduceIntegerRat [fun j => if j = 0 then (.two, .one) else (.one, .one)] exPolBox
        [⟨.supeq, ⟨.scalar (fin 10), .sparse [(0, .scalar (fin 1))]⟩⟩] 1).bind fun r =>
          r.p.map fun p => (p 0, p 1)) = some (⟨fin 10, fin 10⟩, ⟨fin 10, fin 10⟩) := by decide +kernel

end Apron
