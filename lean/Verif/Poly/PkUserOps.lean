import Verif.Poly.PkSat
import Verif.Poly.PkTop

/-!
# Polyhedra: operations with data of the user
-/

set_option autoImplicit false
set_option linter.unusedSectionVars false
set_option linter.ambiguousOpen false

namespace Apron.Poly

open Apron Bound ILincons ILinexpr

variable {n : ℕ}

/-! ## Expressions of the user -/

theorem ofAp_dims {e : Linexpr ℚ} (h : e.InDim n) :
    (∀ t ∈ (ILinexpr.ofAp Rnd.exact e).terms, t.dim < n) ∧ ((ILinexpr.ofAp Rnd.exact e).terms.map ITerm.dim).Nodup := by
  obtain ⟨h1, h2⟩ := h
  constructor
  · intro t ht
    simp only [ILinexpr.ofAp, List.mem_filter, List.mem_map] at ht
    obtain ⟨⟨p, hp, rfl⟩, _⟩ := ht
    exact h2 _ (List.mem_map_of_mem hp)
  · have e1 : (e.terms.map (ITerm.ofCoeff Rnd.exact)).map ITerm.dim = e.terms.map Prod.fst := by
      rw [List.map_map]; rfl
    refine List.Nodup.sublist (List.Sublist.map _ List.filter_sublist) ?_
    rw [e1]
    exact h1.imp (fun h => h.ne)

/-- the coefficients and the constant are finite numbers -/
def _root_.Apron.Linexpr.Numeric (e : Linexpr ℚ) : Prop := (∃ c, e.cst = .scalar (fin c)) ∧ ∀ p ∈ e.terms, ∃ a, p.2 = .scalar (fin a)

theorem setAp_scalar (a : ℚ) : Itv.setApCoeff Rnd.exact (.scalar (fin a)) = Itv.point a ∧ Itv.setApEq Rnd.exact (.scalar (fin a)) = true := by
  constructor
  · simp [Itv.setApCoeff, Itv.setApScalar, boundSetApExact, boundSetAp, Rnd.exact, Itv.point]
  · simp [Itv.setApEq, Itv.setApCoeffExact, boundSetApExact, Rnd.exact, Coeff.isScalar]

theorem ofAp_numeric {e : Linexpr ℚ} (h : e.Numeric) :
    (∃ c, (ILinexpr.ofAp Rnd.exact e).cst = Itv.point c) ∧ (ILinexpr.ofAp Rnd.exact e).eq = true ∧
    ∀ t ∈ (ILinexpr.ofAp Rnd.exact e).terms, t.eq = true ∧ ∃ a, t.itv = Itv.point a := by
  obtain ⟨⟨c, hc⟩, h2⟩ := h
  refine ⟨⟨c, ?_⟩, ?_, ?_⟩
  · simp only [ILinexpr.ofAp, hc]; exact (setAp_scalar c).1
  · simp only [ILinexpr.ofAp, hc]; exact (setAp_scalar c).2
  · intro t ht
    simp only [ILinexpr.ofAp, List.mem_filter, List.mem_map] at ht
    obtain ⟨⟨p, hp, rfl⟩, _⟩ := ht
    obtain ⟨a, ha⟩ := h2 p hp
    simp only [ITerm.ofCoeff, ha]
    exact ⟨(setAp_scalar a).2, a, (setAp_scalar a).1⟩

/-! ## Meet with constraints -/

theorem sat_iff_rowSat {C : List Row} {x : Fin n → ℚ} : Sat C (hom x) ↔ ∀ q ∈ C, RowSat q x := Iff.rfl

/-- what is needed of the constraints -/
structure ConsOk (n : ℕ) (c : ILincons ℚ) : Prop where
  flags : c.expr.FlagsOk
  cst : c.expr.CstOk
  lt : ∀ t ∈ c.expr.terms, t.dim < n
  nodup : c.dims.Nodup

theorem meetItvLincons_spec {intdim : ℕ} {lzy : Bool} {pa : Rep} (ha : pa.Wf ℚ n) {l : List (ILincons ℚ)}
    (hl : ∀ c ∈ l, ConsOk n c) :
    ∃ r, pa.meetItvLincons n intdim lzy l = some r ∧ r.Wf ℚ n ∧ (∀ x : Fin n → ℚ, r.γ x → pa.γ x) ∧
      (∀ x : Fin n → ℚ, IntPt intdim x → pa.γ x → (∀ c ∈ l, c.Holds (ext x)) → r.γ x) ∧
      ((∀ c ∈ l, ScalarOk n c) → intdim = 0 → ∀ x : Fin n → ℚ, r.γ x → ∀ c ∈ l, c.Holds (ext x)) := by
  rw [Rep.meetItvLincons]
  set quasi := l.all fun c => c.expr.isQuasilinear with hquasi
  set p := if (lzy && quasi) = true then pa.obtainC n else pa.chernikova n with hp
  have hpw : p.Wf ℚ n := by rw [hp]; split_ifs; exacts [obtainC_wf ha, chernikova_wf ha]
  have hpγ : ∀ x : Fin n → ℚ, p.γ x ↔ pa.γ x := by
    intro x; rw [hp]; split_ifs; exacts [obtainC_γ ha x, chernikova_γ ha x]
  by_cases hbot : p = .bot
  · rw [if_pos hbot]
    refine ⟨p, rfl, hpw, fun x hx => (hpγ x).1 hx, fun x _ hx _ => (hpγ x).2 hx, fun _ _ x hx => ?_⟩
    rw [hbot] at hx; exact False.elim hx
  · rw [if_neg hbot]
    have hC : p.C? ≠ none := by
      intro hn
      apply hbot
      rw [hp] at hn ⊢
      split_ifs at hn ⊢
      exacts [obtainC_none hn, chernikova_C_none hn]
    have hboth : (lzy && quasi) = false → ∃ f, p = .both f := by
      intro hz
      rw [hp, hz] at hbot ⊢
      rcases chernikova_shape n pa with e | ⟨f, e⟩
      · exact absurd e hbot
      · exact ⟨f, e⟩
    have hs : lzy = false → ∃ f, p = .both f := fun hz => hboth (by rw [hz]; rfl)
    -- the quasilinear constraints
    have hq : ∃ l', (if quasi = true then some l else p.F?.map fun F => quasiArray Rnd.exact l (matBoundDim F) true) = some l' ∧
        (∀ x : Fin n → ℚ, p.γ x → (∀ c ∈ l, c.Holds (ext x)) → ∀ c ∈ l', LinOk n (ext x) c) ∧
        ((∀ c ∈ l, ScalarOk n c) → l' = l) := by
      by_cases hqq : quasi = true
      · rw [if_pos hqq]
        refine ⟨l, rfl, fun x hx hc c hcl => ?_, fun _ => rfl⟩
        have h1 := hl c hcl
        rw [hquasi, List.all_eq_true] at hqq
        have h2 := hqq c hcl
        rw [ILinexpr.isQuasilinear, List.all_eq_true] at h2
        exact ⟨hc c hcl, h1.flags, h2, fun _ => h1.cst, h1.lt, h1.nodup⟩
      · rw [if_neg hqq]
        obtain ⟨f, hf⟩ := hboth (by rw [Bool.eq_false_iff.2 hqq]; simp)
        have hF : p.F? = some f.frows := by rw [hf]; rfl
        refine ⟨_, by rw [hF]; rfl, fun x hx hc => ?_, fun h => ?_⟩
        · refine linOk_quasiArray (fun c hcl => ⟨(hl c hcl).flags, fun _ => (hl c hcl).cst, (hl c hcl).lt, (hl c hcl).nodup⟩) (fun d hd => ?_) hc
          have := matBoundDim_sound hpw hF hx ⟨d, hd⟩
          rwa [← ext_lt x ⟨d, hd⟩] at this
        · exfalso
          apply hqq
          rw [hquasi, List.all_eq_true]
          intro c hcl
          rw [ILinexpr.isQuasilinear, List.all_eq_true]
          exact (h c hcl).quasi
    obtain ⟨l', e', hq1, hq2⟩ := hq
    rw [e', Option.bind_some]
    set l2 := (arrayReduceInteger reduceIntegerRat (linearizeArray true l') intdim).1 with hl2
    obtain ⟨r, h1, h2, h3⟩ := meetMatrix_meet (K := ℚ) (lzy := lzy) hpw hC hs (sortRows (n + 2) (setLinconsArray n intdim l2))
    refine ⟨r, h1, h2, fun x hx => (hpγ x).1 ((h3 x).1 hx).1, fun x hint hx hc => ?_, fun hsc h0 x hx => ?_⟩
    · refine (h3 x).2 ⟨(hpγ x).2 hx, ?_⟩
      rw [sat_sortRows]
      refine setLinconsArray_sound hint ?_
      exact linOk2_arrayReduceInteger hint.ext (linOk2_linearizeArray (hq1 x ((hpγ x).2 hx) hc))
    · subst h0
      have h4 := ((h3 x).1 hx).2
      rw [sat_sortRows] at h4
      have e1 := hq2 hsc
      subst e1
      have e2 := linearizeArray_scalar hsc
      have e3 : l2 = (arrayReduce true (arrayReduce true l').1).1 := by
        rw [hl2, e2, arrayReduceInteger]
        congr 2
        rw [List.map_congr_left (g := id) (fun c _ => reduceIntegerRat_zero c), List.map_id]
      have s1 := arrayReduce_inv (meet := true) hsc (ScalarOk.setBool n false)
      have s2 := arrayReduce_inv (meet := true) s1 (ScalarOk.setBool n false)
      rw [e3] at h4
      rw [setLinconsArray_exact s2, arrayReduce_exact s1, arrayReduce_exact hsc] at h4
      exact h4

theorem consOk_ofAp {c : Lincons ℚ} (h : c.expr.InDim n) : ConsOk n (ILincons.ofAp Rnd.exact c) :=
  ⟨flagsOk_ofAp _ _, cstOk_ofAp _ _, (ofAp_dims h).1, (ofAp_dims h).2⟩

theorem scalarOk_ofAp {c : Lincons ℚ} (h : c.expr.InDim n) (hn : c.expr.Numeric) (ht : c.typ = .eq ∨ c.typ = .supeq) :
    ScalarOk n (ILincons.ofAp Rnd.exact c) := by
  obtain ⟨h1, h2, h3⟩ := ofAp_numeric hn
  exact ⟨ht, h2, h1, fun t ht => (h3 t ht).1, fun t ht => (h3 t ht).2, (ofAp_dims h).1, (ofAp_dims h).2⟩

theorem holds_of_ofAp {c : Lincons ℚ} {x : ℕ → ℚ} (h : (ILincons.ofAp Rnd.exact c).Holds x) : c.Holds x := by
  obtain ⟨v, hv, hr⟩ := h
  exact ⟨v, val_of_ofAp hv, hr⟩

/-! ## Satisfaction of a constraint -/

/-- soundness on one interval constraint -/
theorem setLinconsSat_sound {intdim : ℕ} {r : Rep} (h : r.Wf ℚ n) {F : List Row} (hF : r.F? = some F) {k : ILincons ℚ}
    (hty : k.typ = .eq ∨ k.typ = .supeq ∨ k.typ = .sup) (hk : ConsOk n k) (hquasi : ∀ t ∈ k.expr.terms, t.eq = true) {v : Row}
    (hv : setLinconsSat n intdim k = some v) {st : Bool} (hst : k.typ = .sup → st = true)
    (hs : genSatVector n F v st = true) {x : Fin n → ℚ} (hx : r.γ x) : k.HoldsAll (ext x) := by
  rintro w ⟨c, s, hc, hsum, rfl⟩
  have hpts : ∀ t ∈ k.expr.terms, ∃ a, t.itv = Itv.point a := by
    intro t ht
    obtain ⟨a, ha⟩ := tval_nonempty hsum t ht
    exact ⟨a, hk.flags t ht (hquasi t ht) a ha⟩
  rw [tval_points hpts] at hsum
  subst hsum
  rw [setLinconsSat] at hv
  split_ifs at hv with h1 h2
  obtain ⟨b, hb⟩ : ∃ b, k.expr.cst.inf = fin b := by
    cases hi : k.expr.cst.inf with
    | fin b => exact ⟨b, rfl⟩
    | ninf => rw [hi] at h2; simp [infty] at h2
    | pinf => rw [hi] at h2; simp [infty] at h2
  rw [hb] at hv
  have hbc : -b ≤ c := by
    have := hc.1
    rw [hb, Bound.fin_le_fin] at this; linarith
  have hp : PosCone (K := ℚ) (n := n) (GenM F) := fun y hy => h.pos y ((h.genM hF y).2 hy)
  have hm := (h.genM hF _).1 hx
  simp only [Option.some.injEq] at hv
  rw [show numref (fin b) = b from rfl] at hv
  set q := setLinexpr n (-b) k.expr.terms with hqdef
  have hqb : ∀ j, n + 2 ≤ j → q.at' j = 0 := fun j hj => setLinexpr_big _ _ hj
  have hdot : dot q (hom x) = exprDen (-b) k.expr.terms * (-b + termSum k.expr.terms (ext x)) := dot_setLinexpr _ _ hk.lt hk.nodup x
  have hden : (0 : ℚ) < exprDen (-b) k.expr.terms := by exact_mod_cast exprDen_pos (-b) _
  -- satisfaction, not strict
  have hs' : genSatVector n F v false = true := by
    cases st with
    | false => exact hs
    | true =>
      rw [genSatVector] at hs ⊢
      split_ifs at hs ⊢ with h0
      · exact hs
      · rw [List.all_eq_true] at hs ⊢
        intro f hf
        have := hs f hf
        split_ifs at this ⊢
        · exact this
        · simp
  have hrow : RowSat v x := (genSatVector_iff (K := ℚ)).1 hs' _ hm
  rw [← hv] at hrow
  obtain ⟨b1, b2⟩ := finishCons_back hty hqb hrow
  have hrel : Lincons.Rel k.typ (dot q (hom x)) := by
    refine b1 fun ht => ?_
    have hs0 := (b2 ht).2
    rw [hst ht] at hs
    rw [hv] at hs0 ⊢
    have := (genSatVector_strict hp hs0 hs hm).2
    rw [hom_zero] at this
    exact this one_pos
  rw [hdot] at hrel
  rcases hty with ht | ht | ht
  · have heq : k.expr.eq = true := by
      by_contra h'
      exact h1 ⟨ht, by simpa using h'⟩
    have hcp := hk.cst heq c hc
    rw [hcp] at hb
    have e : -b = c := by
      simp only [Itv.point, fin.injEq] at hb; linarith
    rw [ht] at hrel ⊢
    have h0 : (exprDen (-b) k.expr.terms : ℚ) * (-b + termSum k.expr.terms (ext x)) = 0 := hrel
    rcases mul_eq_zero.1 h0 with h0 | h0
    · exact absurd h0 hden.ne'
    · rw [e] at h0; exact h0
  · rw [ht] at hrel ⊢
    have h0 := nonneg_of_mul_nonneg_right (show (0 : ℚ) ≤ _ from hrel) hden
    change (0 : ℚ) ≤ _
    linarith
  · rw [ht] at hrel ⊢
    have h0 := (pos_iff_pos_of_mul_pos (show (0 : ℚ) < _ from hrel)).1 hden
    change (0 : ℚ) < _
    linarith

theorem satLincons_sound {intdim : ℕ} {alg : ℤ} {r : Rep} (h : r.Wf ℚ n) {c : Lincons ℚ} (hd : c.expr.InDim n)
    (hq : c.typ = .eq → c.expr.isQuasilinear = true) (hs : r.satLincons n intdim alg c = true)
    {x : Fin n → ℚ} (hx : r.γ x) : ∀ v, c.expr.Val (ext x) v → Lincons.Rel c.typ v := by
  rw [Rep.satLincons] at hs
  have hw := prepF_wf h alg
  have hx' := (prepF_γ h alg x).2 hx
  cases hF : (r.prepF n alg).F? with
  | none => rw [prepF_none hF] at hx'; exact False.elim hx'
  | some F =>
    rw [hF] at hs
    dsimp only at hs
    have hall : (ILincons.ofAp Rnd.exact c).HoldsAll (ext x) → ∀ v, c.expr.Val (ext x) v → Lincons.Rel c.typ v :=
      fun h v hv => h v (val_ofAp _ hv)
    have hty : c.typ = .eq ∨ c.typ = .supeq ∨ c.typ = .sup := by
      revert hs
      cases c.typ <;> simp
    have hs2 : (match setLinconsSat n intdim (if c.expr.isQuasilinear = true then ILincons.ofAp Rnd.exact c
          else quasiCons Rnd.exact (ILincons.ofAp Rnd.exact c) (matBoundDim F) false) with
        | none => false
        | some v => genSatVector n F v (decide (c.typ = .sup))) = true := by
      revert hs
      rcases hty with h | h | h <;> rw [h] <;> exact id
    clear hs
    have hk0 := consOk_ofAp (c := c) hd
    -- the constraint itself
    have direct : ∀ k : ILincons ℚ, k.typ = c.typ → ConsOk n k → (∀ t ∈ k.expr.terms, t.eq = true) →
        (match setLinconsSat n intdim k with | none => false | some v => genSatVector n F v (decide (c.typ = .sup))) = true →
        k.HoldsAll (ext x) := by
      intro k ht hk hkq hk2
      cases hv : setLinconsSat n intdim k with
      | none => rw [hv] at hk2; cases hk2
      | some v =>
        rw [hv] at hk2
        exact setLinconsSat_sound hw hF (by rw [ht]; exact hty) hk hkq hv (fun e => by rw [← ht]; simpa using e) hk2 hx'
    by_cases hqu : c.expr.isQuasilinear = true
    · rw [if_pos hqu] at hs2
      refine hall (direct _ rfl hk0 ?_ hs2)
      intro t ht
      simp only [ILincons.ofAp, ILinexpr.ofAp, List.mem_filter, List.mem_map] at ht
      obtain ⟨⟨p, hp', rfl⟩, _⟩ := ht
      rw [Linexpr.isQuasilinear, List.all_eq_true] at hqu
      have h1 := hqu p hp'
      simp only [ITerm.ofCoeff, Itv.setApEq, Bool.and_eq_true]
      refine ⟨?_, h1⟩
      cases hc : p.2 with
      | scalar b => cases b <;> simp [Itv.setApCoeffExact, boundSetApExact, Rnd.exact]
      | interval l u => rw [hc] at h1; simp [Coeff.isScalar] at h1
    · rw [if_neg hqu] at hs2
      have hne : c.typ ≠ .eq := fun e => hqu (hq e)
      set k := ILincons.ofAp Rnd.exact c with hkdef
      have hkt : k.typ = c.typ := rfl
      by_cases hemp : k.expr.terms.isEmpty = true
      · rw [quasiCons, if_pos hemp] at hs2
        have hemp' : k.expr.terms = [] := List.isEmpty_iff.1 hemp
        split_ifs at hs2 with h1 h2
        · refine hall fun v hv => ?_
          exact evalCst'_t hk0.cst h1 ((val_nil hemp).1 hv)
        · exfalso
          have hb : ConsOk n (setBool false : ILincons ℚ) := ⟨by intro t ht; simp [setBool] at ht, by
            intro _ q hq; simp only [setBool] at hq ⊢; rw [Itv.mem_point] at hq; rw [hq], by simp [setBool], by simp [dims, setBool]⟩
          cases hv : setLinconsSat n intdim (setBool false : ILincons ℚ) with
          | none => rw [hv] at hs2; cases hs2
          | some v =>
            rw [hv] at hs2
            have := setLinconsSat_sound hw hF (.inl rfl) hb (by simp [setBool]) hv (fun e => by simp [setBool] at e) hs2 hx'
            have h0 := this 1 ⟨1, 0, by simp [setBool, Itv.mem_point], by simp [setBool, TVal], by norm_num⟩
            exact absurd (show (1 : ℚ) = 0 from h0) one_ne_zero
        · exact hall (direct k rfl hk0 (by rw [hemp']; simp) hs2)
      · have hkq : quasiCons Rnd.exact k (matBoundDim F) false = ⟨k.typ, quasi Rnd.exact k.expr (matBoundDim F) false⟩ := by
          rw [quasiCons, if_neg hemp]; simp
        have hnod := quasiCons_dims Rnd.exact hk0.nodup (matBoundDim F) false
        have hfl := quasiCons_flags Rnd.exact hk0.flags (matBoundDim F) false
        have hqq := quasiCons_quasi Rnd.exact k (matBoundDim F) false
        have hlt : ∀ t ∈ (quasiCons Rnd.exact k (matBoundDim F) false).expr.terms, t.dim < n :=
          dims_quasiCons Rnd.exact (D := fun d => d < n) hk0.lt (matBoundDim F) false
        have hx'' : ∀ t ∈ k.expr.terms, ext x t.dim ∈ matBoundDim F t.dim := by
          intro t ht
          have := matBoundDim_sound hw hF hx' ⟨t.dim, hk0.lt t ht⟩
          rwa [← ext_lt x ⟨t.dim, hk0.lt t ht⟩] at this
        -- the flag of the constant does not matter
        have hgen : (quasiCons Rnd.exact k (matBoundDim F) false).HoldsAll (ext x) := by
          set k' := quasiCons Rnd.exact k (matBoundDim F) false with hk'
          have hk't : k'.typ = c.typ := by rw [hkq]; rfl
          have hok : ConsOk n ⟨k'.typ, ⟨k'.expr.cst, false, k'.expr.terms⟩⟩ :=
            ⟨hfl, by intro h; simp at h, hlt, hnod⟩
          have e : setLinconsSat n intdim ⟨k'.typ, ⟨k'.expr.cst, false, k'.expr.terms⟩⟩ = setLinconsSat n intdim k' := by
            have h1 : ¬ (k'.typ = .eq ∧ false = false) := fun h => hne (hk't ▸ h.1)
            have h2 : ¬ (k'.typ = .eq ∧ k'.expr.eq = false) := fun h => hne (hk't ▸ h.1)
            rw [setLinconsSat, setLinconsSat]
            dsimp only
            rw [if_neg h1, if_neg h2]
          exact direct ⟨k'.typ, ⟨k'.expr.cst, false, k'.expr.terms⟩⟩ hk't hok hqq (by rw [e]; exact hs2)
        refine hall fun v hv => ?_
        rw [hkq] at hgen
        exact hgen v (quasi_sound Rnd.exact hx'' hv)

/-! ## Satisfaction of bounds -/

theorem genSatBound_iff {F : List Row} (hF : ∀ q ∈ F, 0 ≤ q.at' 1 ∧ (q.at' 0 = 0 → q.at' 1 = 0)) (dim : ℕ) (b : ℚ) :
    (genSatBound F dim b 1 = true ↔ ∀ q ∈ F, GBound (fun q => (q.at' (dim + 2) : ℚ)) b q) ∧
    (genSatBound F dim b (-1) = true ↔ ∀ q ∈ F, GBound (fun q => -(q.at' (dim + 2) : ℚ)) b q) ∧
    (genSatBound F dim b 0 = true ↔ (∀ q ∈ F, GBound (fun q => (q.at' (dim + 2) : ℚ)) b q) ∧
      ∀ q ∈ F, GBound (fun q => -(q.at' (dim + 2) : ℚ)) (-b) q) := by
  have cases3 : ∀ q ∈ F, (q.at' 0 = 0 ∧ q.at' 1 = 0) ∨ (q.at' 0 ≠ 0 ∧ q.at' 1 = 0) ∨ (q.at' 0 ≠ 0 ∧ (0 : ℚ) < q.at' 1 ∧ q.at' 1 ≠ 0) := by
    intro q hq
    obtain ⟨h1, h2⟩ := hF q hq
    by_cases h0 : q.at' 0 = 0
    · exact .inl ⟨h0, h2 h0⟩
    · by_cases h3 : q.at' 1 = 0
      · exact .inr (.inl ⟨h0, h3⟩)
      · have : 0 < q.at' 1 := by omega
        exact .inr (.inr ⟨h0, by exact_mod_cast this, h3⟩)
  rw [← forall₂_and]
  refine ⟨?_, ?_, ?_⟩ <;> rw [genSatBound, List.all_eq_true] <;> refine forall₂_congr fun q hq => ?_ <;>
    rcases cases3 q hq with ⟨h0, h1⟩ | ⟨h0, h1⟩ | ⟨h0, h1, h2⟩
  · simp [GBound, h0, h1]
    intro h; rw [h]
  · simp [GBound, h0, h1]
  · simp only [h0, h2, GBound, if_false]
    simp [div_le_iff₀ h1]
  · simp [GBound, h0, h1]
    intro h; rw [h]
  · simp [GBound, h0, h1]
  · simp only [h0, h2, GBound, if_false]
    simp
    rw [← neg_div, div_le_iff₀ h1]
    constructor <;> intro h <;> linarith
  · simp [GBound, h0, h1]
    omega
  · simp [GBound, h0, h1]
  · simp only [h0, h2, GBound, if_false]
    simp
    rw [div_eq_iff h1.ne']
    constructor
    · intro h; rw [h]; simp
    · rintro ⟨h3, h4⟩; linarith

theorem gbound_iff {r : Rep} (h : r.Wf ℚ n) {F : List Row} (hF : r.F? = some F) (d : Fin n) (b : ℚ) :
    ((∀ q ∈ F, GBound (fun q => (q.at' (d + 2) : ℚ)) b q) ↔ ∀ x : Fin n → ℚ, r.γ x → x d ≤ b) ∧
    ((∀ q ∈ F, GBound (fun q => -(q.at' (d + 2) : ℚ)) b q) ↔ ∀ x : Fin n → ℚ, r.γ x → - x d ≤ b) := by
  have hp : PosCone (K := ℚ) (n := n) (GenM F) := fun y hy => h.pos y ((h.genM hF y).2 hy)
  have hfirst := fun q hq => gen_first hp (q := q) hq
  obtain ⟨h1, h2⟩ := matBoundDim_best h hF d b
  rw [← h1, ← h2, matBoundDim]
  constructor
  · rw [boundGens_sup hfirst]; simp
  · have := boundGens_neg (val := fun q => (q.at' ((d : ℕ) + 2) : ℚ)) (F := F) (i := ⟨ninf, ninf⟩)
    have e := congrArg Itv.sup this
    dsimp only at e
    rw [← e, boundGens_sup hfirst]; simp

theorem satInterval_iff {alg : ℤ} {r : Rep} (h : r.Wf ℚ n) (d : Fin n) {i : Itv ℚ} (hi : i.inf ≠ ninf) (hs : i.sup ≠ ninf) :
    r.satInterval n alg d i = true ↔ ∀ x : Fin n → ℚ, r.γ x → x d ∈ i := by
  have hw := prepF_wf h alg
  have hγ := fun x => (prepF_γ h alg x)
  rw [Rep.satInterval]
  cases hF : (r.prepF n alg).F? with
  | none => exact ⟨fun _ x hx => absurd hx ((prepF_empty h).1 hF x), fun _ => rfl⟩
  | some F =>
    dsimp only
    have hp : PosCone (K := ℚ) (n := n) (GenM F) := fun y hy => hw.pos y ((hw.genM hF y).2 hy)
    have hfirst := fun q hq => gen_first hp (q := q) hq
    simp only [← hγ]
    by_cases hpt : i.isPoint = true
    · rw [if_pos hpt]
      obtain ⟨a, ha⟩ := Itv.isPoint_iff.1 hpt
      rw [(genSatBound_iff hfirst d _).2.2, (gbound_iff hw hF d _).1, (gbound_iff hw hF d _).2, ha]
      simp only [Itv.mem_point]
      change ((∀ x : Fin n → ℚ, (r.prepF n alg).γ x → x d ≤ a) ∧ ∀ x : Fin n → ℚ, (r.prepF n alg).γ x → - x d ≤ - a) ↔ _
      constructor
      · rintro ⟨h1, h2⟩ x hx
        have h3 := h1 x hx
        have h4 := h2 x hx
        change x d ≤ a at h3
        linarith
      · intro h'
        exact ⟨fun x hx => (h' x hx).le, fun x hx => by rw [h' x hx]⟩
    · rw [if_neg hpt, Bool.and_eq_true, Bool.or_eq_true, Bool.or_eq_true, (genSatBound_iff hfirst d _).1,
        (genSatBound_iff hfirst d _).2.1, (gbound_iff hw hF d _).1, (gbound_iff hw hF d _).2]
      have e1 : (infty i.inf = true ∨ ∀ x : Fin n → ℚ, (r.prepF n alg).γ x → - x d ≤ numref i.inf) ↔
          ∀ x : Fin n → ℚ, (r.prepF n alg).γ x → fin (-x d) ≤ i.inf := by
        cases hc : i.inf with
        | ninf => exact absurd hc hi
        | pinf => simp [infty]
        | fin b => simp [infty, numref]
      have e2 : (infty i.sup = true ∨ ∀ x : Fin n → ℚ, (r.prepF n alg).γ x → x d ≤ numref i.sup) ↔
          ∀ x : Fin n → ℚ, (r.prepF n alg).γ x → fin (x d) ≤ i.sup := by
        cases hc : i.sup with
        | ninf => exact absurd hc hs
        | pinf => simp [infty]
        | fin b => simp [infty, numref]
      rw [e1, e2]
      simp only [Itv.mem_def]
      exact ⟨fun h x hx => ⟨h.1 x hx, h.2 x hx⟩, fun h => ⟨fun x hx => (h x hx).1, fun x hx => (h x hx).2⟩⟩

end Apron.Poly
