import Verif.Core.Level1Lemmas

/-!
# Properties of level-1 abstract values (C70-C75)

The theorems hold for any abstract domain that keeps the promises of `Man.Spec`, which is proved for boxes
and octagons in `Verif.Props.Level1Inst`.  `ex` tells that the domain is exact on the operations that may
lose information (removal of dimensions, ...).
-/

set_option autoImplicit false
set_option linter.unusedSectionVars false
set_option linter.ambiguousOpen false

namespace Apron
namespace Props

open Env Abs1

variable {V : Type*} [LinearOrder V] {K A : Type*} [Zero K] {M : Man K A} {Ok : A → Prop} {ex : Prop}

/-! ## C70: change of environment -/

theorem vars_union {e e1 e2 : Env V} (h1 : ∀ v, v ∈ e.ints ↔ v ∈ e1.ints ∨ v ∈ e2.ints)
    (h2 : ∀ v, v ∈ e.reals ↔ v ∈ e1.reals ∨ v ∈ e2.reals) (v : V) :
    v ∈ e.vars ↔ v ∈ e1.vars ∨ v ∈ e2.vars := by
  simp only [vars, List.mem_append, h1, h2]; tauto

/-- Changing the environment keeps the values of the common variables, forgets those of the variables that
disappear and leaves the new ones free, or 0 with `project`.  The change is refused iff a variable has
two types. -/
theorem C70_change_environment (S : M.Spec Ok ex) (junk : ℕ) (a : Abs1 V A) (ha : Abs1.Wf M Ok a) (nenv : Env V)
    (hn : nenv.Wf) (hsz : nenv.size ≤ dimMax) (project : Bool) :
    (Incompatible a.env nenv → changeEnvironment M junk a nenv project = .ok (Abs1.top M nenv, true)) ∧
    (¬Incompatible a.env nenv → ∃ r, changeEnvironment M junk a nenv project = .ok (r, false) ∧
      r.env = nenv ∧ Abs1.Wf M Ok r ∧
      (∀ ρ ρ' : V → K, Gam M a ρ → (∀ v ∈ a.env.vars, v ∈ nenv.vars → ρ' v = ρ v) →
        (project = true → ∀ v ∈ nenv.vars, v ∉ a.env.vars → ρ' v = 0) → Gam M r ρ') ∧
      (ex → ∀ ρ' : V → K, Gam M r ρ' →
        (∃ ρ, Gam M a ρ ∧ ∀ v ∈ a.env.vars, v ∈ nenv.vars → ρ' v = ρ v) ∧
        (project = true → ∀ v ∈ nenv.vars, v ∉ a.env.vars → ρ' v = 0))) := by
  obtain ⟨c1, c2⟩ := C46_dimchange2 junk a.env nenv ha.env hn
  obtain ⟨l1, l2⟩ := C46_lce junk a.env nenv ha.env hn
  refine ⟨fun h => by rw [changeEnvironment, c1 h], fun h => ?_⟩
  obtain ⟨e, d1, d2, e1, hwf, hi, hr, n1, n2, m1, m2⟩ := l2 h
  obtain ⟨e', d1', d2', e1', e2⟩ := c2 h
  rw [e1] at e1'
  simp only [Out.ok.injEq, Prod.mk.injEq] at e1'
  obtain ⟨rfl, rfl, rfl⟩ := e1'
  have hvars := vars_union hi hr
  obtain ⟨p1, p2, p3, p4⟩ := addO_spec S hwf n1 m1 ha.ok ha.dims project
  obtain ⟨q1, q2, q3, q4, q5⟩ := remO_spec S hwf n2 m2 p2 p3
  refine ⟨⟨nenv, (remO M (addO M a.val d1 project).1 d2).1⟩, ?_, rfl, ⟨hn, hsz, q2, q3⟩, ?_, ?_⟩
  · rw [changeEnvironment, e2]
    simp only [applyDimchange2_eq, p1, q1, Bool.or_false]
  · intro ρ ρ' hρ hag hp
    classical
    have hσ : ∀ v ∈ nenv.vars, (fun v => if v ∈ nenv.vars then ρ' v else ρ v) v = ρ' v := fun v hv => by
      simp [hv]
    refine (gam_congr S (a := ⟨nenv, _⟩) q2 hσ).1 (q4 _ ((p4 _).2 ⟨?_, fun hp' v hv hnv => ?_⟩))
    · refine (gam_congr S (a := a) ha.ok fun v hv => ?_).1 hρ
      by_cases h' : v ∈ nenv.vars
      · simp [h', hag v hv h']
      · simp [h']
    · have : v ∈ nenv.vars := ((hvars v).1 hv).resolve_left hnv
      simp [this, hp hp' v this hnv]
  · intro hex ρ' hρ'
    obtain ⟨σ, hσ, hag⟩ := q5 hex ρ' hρ'
    obtain ⟨g1, g2⟩ := (p4 σ).1 hσ
    exact ⟨⟨σ, g1, fun v _ hv => hag v hv⟩, fun hp v hv hnv =>
      (hag v hv).trans (g2 hp v ((hvars v).2 (Or.inr hv)) hnv)⟩

/-- Minimizing the environment removes exactly the variables that the domain reports as unconstrained, and
does not change the set of valuations. -/
theorem C70_minimize_environment (S : M.Spec Ok ex) (junk : ℕ) (a : Abs1 V A) (ha : Abs1.Wf M Ok a) :
    ∃ r, minimizeEnvironment M junk a = .ok (r, false) ∧ Abs1.Wf M Ok r ∧
      (∀ v, v ∈ r.env.ints ↔ v ∈ a.env.ints ∧ M.unconstrained a.val (dimOfVar a.env v) = false) ∧
      (∀ v, v ∈ r.env.reals ↔ v ∈ a.env.reals ∧ M.unconstrained a.val (dimOfVar a.env v) = false) ∧
      (∀ ρ : V → K, Gam M a ρ → Gam M r ρ) ∧ (ex → ∀ ρ : V → K, Gam M r ρ → Gam M a ρ) := by
  have hdim := ha.dim
  rw [minimizeEnvironment]
  generalize ht : (List.range (M.dim a.val)).filter (Abs0.isDimensionUnconstrained M a.val) = tdim
  have hmem : ∀ d, d ∈ tdim ↔ d < M.dim a.val ∧ M.unconstrained a.val d = true := fun d => by
    rw [← ht, List.mem_filter, List.mem_range, Abs0.isDimensionUnconstrained]
    constructor
    · rintro ⟨h1, h2⟩; rw [if_pos h1] at h2; exact ⟨h1, h2⟩
    · rintro ⟨h1, h2⟩; rw [if_pos h1]; exact ⟨h1, h2⟩
  have hnd : tdim.Nodup := by rw [← ht]; exact List.nodup_range.filter _
  obtain ⟨tvar, h1, h2⟩ := mapM_varOfDim a.env tdim fun d hd => hdim ▸ ((hmem d).1 hd).1
  have htv : ∀ v, v ∈ tvar ↔ v ∈ a.env.vars ∧ M.unconstrained a.val (dimOfVar a.env v) = true := fun v => by
    rw [forall₂_mem h2]
    constructor
    · rintro ⟨d, hd, hv⟩
      have hv' := mem_vars_iff.2 ⟨d, hv⟩
      have := ((C48_dim_of_var a.env ha.env ha.size v).1 hv').2.2.2 d hv
      exact ⟨hv', this ▸ ((hmem d).1 hd).2⟩
    · rintro ⟨hv, hu⟩
      have := (C48_dim_of_var a.env ha.env ha.size v).1 hv
      exact ⟨_, (hmem _).2 ⟨hdim ▸ this.1, hu⟩, this.2.1⟩
  rw [h1]
  simp only [Out.ofOption, Out.bind]
  have hset : ∀ v ∈ a.env.vars, (v ∉ tvar ↔ M.unconstrained a.val (dimOfVar a.env v) = false) := by
    intro v hv
    rw [htv]
    cases M.unconstrained a.val (dimOfVar a.env v) <;> simp [hv]
  by_cases he : tvar.length = 0
  · rw [if_pos he]
    have : tvar = [] := List.length_eq_zero_iff.1 he
    subst this
    refine ⟨a, rfl, ha, fun v => ⟨fun h => ⟨h, ?_⟩, fun h => h.1⟩, fun v => ⟨fun h => ⟨h, ?_⟩, fun h => h.1⟩,
      fun _ h => h, fun _ _ h => h⟩
    · exact (hset v (by simp [vars, h])).1 (by simp)
    · exact (hset v (by simp [vars, h])).1 (by simp)
  · rw [if_neg he]
    have hrem := ((C46_remove_partial a.env ha.env ha.size tvar).1
      ⟨a.env.ints.filter fun v => decide (v ∉ tvar), a.env.reals.filter fun v => decide (v ∉ tvar)⟩).2
      ⟨fun v hv => ((htv v).1 hv).1, forall₂_nodup ha.env h2 hnd, rfl⟩
    rw [hrem]
    simp only
    generalize hN : (⟨a.env.ints.filter fun v => decide (v ∉ tvar), a.env.reals.filter fun v => decide (v ∉ tvar)⟩ :
      Env V) = nenv
    have hni : ∀ v, v ∈ nenv.ints ↔ v ∈ a.env.ints ∧ v ∉ tvar := fun v => by rw [← hN]; simp [List.mem_filter]
    have hnr : ∀ v, v ∈ nenv.reals ↔ v ∈ a.env.reals ∧ v ∉ tvar := fun v => by rw [← hN]; simp [List.mem_filter]
    have hnv : ∀ v, v ∈ nenv.vars ↔ v ∈ a.env.vars ∧ v ∉ tvar := fun v => by
      simp only [vars, List.mem_append, hni, hnr, or_and_right]
    have hwf : nenv.Wf := by rw [← hN]; exact wf_filter ha.env _
    have hsz : nenv.size ≤ dimMax := by
      refine le_trans ?_ ha.size
      rw [← hN]
      simp only [Env.size, intdim, realdim]
      have := List.length_filter_le (fun v => decide (v ∉ tvar)) a.env.ints
      have := List.length_filter_le (fun v => decide (v ∉ tvar)) a.env.reals
      omega
    have hc : ¬Incompatible a.env nenv := by
      rintro ⟨v, h | h⟩
      · exact ha.env.disj v h.1 ((hnr v).1 h.2).1
      · exact ha.env.disj v ((hni v).1 h.1).1 h.2
    obtain ⟨r, r1, r2, r3, r4, r5⟩ := (C70_change_environment S junk a ha nenv hwf hsz false).2 hc
    refine ⟨r, r1, r3, fun v => ?_, fun v => ?_, fun ρ hρ => r4 ρ ρ hρ (fun _ _ _ => rfl) (by simp), fun hex ρ hρ => ?_⟩
    · rw [r2, hni]
      exact and_congr_right fun h => hset v (by simp [vars, h])
    · rw [r2, hnr]
      exact and_congr_right fun h => hset v (by simp [vars, h])
    · obtain ⟨⟨σ, hσ, hag⟩, _⟩ := r5 hex ρ hρ
      refine gam_unconstrained S ha.ok tdim (fun d hd => (hmem d).1 hd) _ _ (fun d hd hnd => ?_) hσ
      obtain ⟨v, hv⟩ := varOfDim_isSome.2 (hdim ▸ hd)
      rw [pt_eq _ hv, pt_eq _ hv]
      have hv' := mem_vars_iff.2 ⟨d, hv⟩
      refine (hag v hv' ((hnv v).2 ⟨hv', fun ht => ?_⟩)).symm
      obtain ⟨d', hd', hv''⟩ := (forall₂_mem h2 v).1 ht
      exact hnd (varOfDim_inj ha.env hv hv'' ▸ hd')

/-! ## C71: renaming -/

/-- Renaming succeeds iff the renamed variables are known and the new names are distinct (also from the
names that are kept); a valuation belongs to the result iff the values of the new names belong to the
argument as values of the old ones. -/
theorem C71_rename (S : M.Spec Ok ex) (Q : Qsort V) (junk : ℕ) (a : Abs1 V A) (ha : Abs1.Wf M Ok a)
    (ps : List (V × V)) :
    (((∀ p ∈ ps, p.1 ∈ a.env.vars) ∧ (a.env.vars.map (renamed ps)).Nodup) →
      ∃ r, renameArray M Q junk a ps = .ok (r, false) ∧ Abs1.Wf M Ok r ∧
        (∀ v, v ∈ r.env.ints ↔ ∃ u ∈ a.env.ints, v = renamed ps u) ∧
        (∀ v, v ∈ r.env.reals ↔ ∃ u ∈ a.env.reals, v = renamed ps u) ∧
        ∀ ρ : V → K, Gam M r ρ ↔ Gam M a (fun v => ρ (renamed ps v))) ∧
    (¬((∀ p ∈ ps, p.1 ∈ a.env.vars) ∧ (a.env.vars.map (renamed ps)).Nodup) →
      renameArray M Q junk a ps = .ok (Abs1.top M a.env, true)) := by
  obtain ⟨c1, c2⟩ := C46_rename Q junk a.env ha.env ha.size ps
  refine ⟨fun h => ?_, fun h => by rw [renameArray, c2 h]⟩
  obtain ⟨e', perm, e1, e2, e3, e4, e5, e6, e7, e8, _⟩ := c1 h
  have hp : Dim.IsPerm (M.dim a.val) perm := by rw [ha.dim]; exact e7
  obtain ⟨s1, s2, s3⟩ := S.permute a.val perm ha.ok hp
  refine ⟨⟨e', M.permute a.val perm⟩, ?_, ⟨e2, ?_, s1, ?_⟩, e5, e6, fun ρ => ?_⟩
  · rw [renameArray, e1]
    simp only [Abs0.permuteDimensions_legal hp]
  · show e'.size ≤ dimMax
    rw [Env.size, e3, e4]; exact ha.size
  · exact ⟨s2.1.trans (ha.dims.1.trans e3.symm), s2.2.trans (ha.dims.2.trans e4.symm)⟩
  · show M.Gam (M.permute a.val perm) (pt e' ρ) ↔ M.Gam a.val _
    rw [s3]
    have hpt : ∀ d, d < M.dim a.val → pt e' ρ (perm.getD d 0) = pt a.env (fun v => ρ (renamed ps v)) d := by
      intro d hd
      rw [ha.dim] at hd
      obtain ⟨v, hv⟩ := varOfDim_isSome.2 hd
      rw [pt, e8 d hd, pt, hv]; rfl
    exact ⟨S.congr _ ha.ok _ _ hpt, S.congr _ ha.ok _ _ fun d hd => (hpt d hd).symm⟩

/-! ## C72: meet, join and unification -/

/-- The meet of values with the same environment is the intersection. -/
theorem C72_meet (S : M.Spec Ok ex) (same : Bool) (a b : Abs1 V A) (ha : Abs1.Wf M Ok a) (hb : Abs1.Wf M Ok b)
    (hs : same = true → a.env = b.env) :
    (a.env = b.env → (meetjoin M M.meet same a b).2 = false ∧ (meetjoin M M.meet same a b).1.env = a.env ∧
      Abs1.Wf M Ok (meetjoin M M.meet same a b).1 ∧
      ∀ ρ : V → K, Gam M (meetjoin M M.meet same a b).1 ρ ↔ Gam M a ρ ∧ Gam M b ρ) ∧
    (a.env ≠ b.env → meetjoin M M.meet same a b = (Abs1.top M a.env, true)) := by
  have hi := C46_is_eq same a.env b.env hs
  refine ⟨fun h => ?_, fun h => by rw [meetjoin, if_neg (by rw [hi]; exact h)]⟩
  have hd : M.Dims b.val (M.intdim a.val) (M.realdim a.val) := by
    rw [Man.Dims, ha.dims.1, ha.dims.2, h]; exact hb.dims
  have hc : Abs0.checkAbstract2 M a.val b.val = true := by
    simp [Abs0.checkAbstract2, hd.1, hd.2]
  have e : meetjoin M M.meet same a b = (⟨a.env, M.meet a.val b.val⟩, false) := by
    rw [meetjoin, if_pos (hi.2 h)]; simp only [Abs0.meetjoin, hc, if_true]
  rw [e]
  obtain ⟨s1, s2, s3⟩ := S.meet a.val b.val ha.ok hb.ok hd
  refine ⟨rfl, rfl, ⟨ha.env, ha.size, s1, s2.1.trans ha.dims.1, s2.2.trans ha.dims.2⟩, fun ρ => ?_⟩
  show M.Gam _ _ ↔ M.Gam _ _ ∧ M.Gam b.val (pt b.env ρ)
  rw [s3, ← h]

/-- The join of values with the same environment contains both, and is included in any value containing
both when the domain is exact. -/
theorem C72_join (S : M.Spec Ok ex) (same : Bool) (a b : Abs1 V A) (ha : Abs1.Wf M Ok a) (hb : Abs1.Wf M Ok b)
    (hs : same = true → a.env = b.env) :
    (a.env = b.env → (meetjoin M M.join same a b).2 = false ∧ (meetjoin M M.join same a b).1.env = a.env ∧
      Abs1.Wf M Ok (meetjoin M M.join same a b).1 ∧
      (∀ ρ : V → K, Gam M a ρ ∨ Gam M b ρ → Gam M (meetjoin M M.join same a b).1 ρ) ∧
      (ex → ∀ c : Abs1 V A, Abs1.Wf M Ok c → c.env = a.env → (∀ ρ : V → K, Gam M a ρ ∨ Gam M b ρ → Gam M c ρ) →
        ∀ ρ : V → K, Gam M (meetjoin M M.join same a b).1 ρ → Gam M c ρ)) ∧
    (a.env ≠ b.env → meetjoin M M.join same a b = (Abs1.top M a.env, true)) := by
  have hi := C46_is_eq same a.env b.env hs
  refine ⟨fun h => ?_, fun h => by rw [meetjoin, if_neg (by rw [hi]; exact h)]⟩
  have hd : M.Dims b.val (M.intdim a.val) (M.realdim a.val) := by
    rw [Man.Dims, ha.dims.1, ha.dims.2, h]; exact hb.dims
  have hc : Abs0.checkAbstract2 M a.val b.val = true := by
    simp [Abs0.checkAbstract2, hd.1, hd.2]
  have e : meetjoin M M.join same a b = (⟨a.env, M.join a.val b.val⟩, false) := by
    rw [meetjoin, if_pos (hi.2 h)]; simp only [Abs0.meetjoin, hc, if_true]
  rw [e]
  obtain ⟨s1, s2, s3, s4⟩ := S.join a.val b.val ha.ok hb.ok hd
  refine ⟨rfl, rfl, ⟨ha.env, ha.size, s1, s2.1.trans ha.dims.1, s2.2.trans ha.dims.2⟩, fun ρ hρ => ?_, ?_⟩
  · refine s3 _ (hρ.imp (fun h => h) fun h' => ?_)
    show M.Gam b.val (pt a.env ρ)
    rw [h]; exact h'
  · intro hex c hcw hce hall ρ hρ
    show M.Gam c.val (pt c.env ρ)
    rw [hce]
    have hcd := hcw.dims
    rw [hce, ← ha.dims.1, ← ha.dims.2] at hcd
    refine s4 hex c.val hcw.ok hcd (fun x hx => ?_) _ hρ
    obtain ⟨σ, hσ⟩ := exists_val ha.env x
    have hσ' : ∀ d, d < M.dim a.val → pt a.env σ d = x d := fun d hd' => hσ d (ha.dim ▸ hd')
    have hdim : M.dim b.val = M.dim a.val := by rw [Man.dim, hd.1, hd.2]; rfl
    have hdimc : M.dim c.val = M.dim a.val := by rw [Man.dim, hcd.1, hcd.2]; rfl
    have := hall σ (hx.imp (fun h' => S.congr _ ha.ok _ _ (fun d hd' => (hσ' d hd').symm) h')
      (fun h' => by
        show M.Gam b.val (pt b.env σ)
        rw [← h]
        exact S.congr _ hb.ok _ _ (fun d hd' => (hσ' d (hdim ▸ hd')).symm) h'))
    have h2 : M.Gam c.val (pt c.env σ) := this
    rw [hce] at h2
    exact S.congr _ hcw.ok _ _ (fun d hd' => hσ' d (hdimc ▸ hd')) h2

/-- Unification is the intersection on the least common environment; it is refused, the result being the
first argument, iff a variable has two types. -/
theorem C72_unify (S : M.Spec Ok ex) (junk : ℕ) (same : Bool) (a b : Abs1 V A) (ha : Abs1.Wf M Ok a)
    (hb : Abs1.Wf M Ok b) (hs : same = true → a.env = b.env) (hsz : a.env.size + b.env.size ≤ dimMax) :
    (Incompatible a.env b.env → unify M junk same a b = .ok (a, true)) ∧
    (¬Incompatible a.env b.env → ∃ r, unify M junk same a b = .ok (r, false) ∧ Abs1.Wf M Ok r ∧
      (∀ v, v ∈ r.env.ints ↔ v ∈ a.env.ints ∨ v ∈ b.env.ints) ∧
      (∀ v, v ∈ r.env.reals ↔ v ∈ a.env.reals ∨ v ∈ b.env.reals) ∧
      ∀ ρ : V → K, Gam M r ρ ↔ Gam M a ρ ∧ Gam M b ρ) := by
  have hi := C46_is_eq same a.env b.env hs
  obtain ⟨l1, l2⟩ := C46_lce junk a.env b.env ha.env hb.env
  by_cases h : a.env = b.env
  · have hc : ¬Incompatible a.env b.env := by
      rw [← h]
      rintro ⟨v, h | h⟩
      · exact ha.env.disj v h.1 h.2
      · exact ha.env.disj v h.1 h.2
    refine ⟨fun h' => (hc h').elim, fun _ => ?_⟩
    obtain ⟨m1, m2, m3, m4⟩ := (C72_meet S same a b ha hb hs).1 h
    refine ⟨(meetjoin M M.meet same a b).1, ?_, m3, fun v => ?_, fun v => ?_, m4⟩
    · rw [unify, if_pos (hi.2 h)]
      congr 1
      exact Prod.ext rfl m1
    · rw [m2, ← h]; tauto
    · rw [m2, ← h]; tauto
  · have hne : isEq same a.env b.env ≠ true := by rw [hi.ne]; exact h
    refine ⟨fun hc => by rw [unify, if_neg hne, l1 hc], fun hc => ?_⟩
    obtain ⟨e, d1, d2, e1, hwf, hi', hr', n1, n2, m1, m2⟩ := l2 hc
    obtain ⟨p1, p2, p3, p4⟩ := addO_spec S hwf n1 m1 ha.ok ha.dims false
    obtain ⟨q1, q2, q3, q4⟩ := addO_spec S hwf n2 m2 hb.ok hb.dims false
    have a1 : ∀ d, addOpt M a.val d = addO M a.val d false := fun d => by cases d <;> rfl
    have a2 : ∀ d, addOpt M b.val d = addO M b.val d false := fun d => by cases d <;> rfl
    have hd : M.Dims (addO M b.val d2 false).1 (M.intdim (addO M a.val d1 false).1)
        (M.realdim (addO M a.val d1 false).1) := by
      rw [Man.Dims, p3.1, p3.2]; exact q3
    obtain ⟨s1, s2, s3⟩ := S.meet _ _ p2 q2 hd
    have hck : Abs0.checkAbstract2 M (addO M a.val d1 false).1 (addO M b.val d2 false).1 = true := by
      simp [Abs0.checkAbstract2, hd.1, hd.2]
    have hnn : (d1.isNone && d2.isNone) = false := by
      rw [Bool.and_eq_false_iff]
      by_contra hcon
      push Not at hcon
      simp only [ne_eq, Bool.not_eq_false, Option.isNone_iff_eq_none] at hcon
      exact h ((n1.1 hcon.1).symm.trans (n2.1 hcon.2))
    refine ⟨⟨e, M.meet (addO M a.val d1 false).1 (addO M b.val d2 false).1⟩, ?_, ⟨hwf, ?_, s1, ?_⟩, hi', hr', fun ρ => ?_⟩
    · rw [unify, if_neg hne, e1]
      simp only [hnn, Bool.false_eq_true, if_false, a1, a2, Abs0.meetjoin, hck, if_true, p1, q1, Bool.or_false]
    · refine le_trans ?_ hsz
      show e.size ≤ _
      have hsub : e.vars ⊆ a.env.vars ++ b.env.vars := fun v hv =>
        List.mem_append.2 ((vars_union hi' hr' v).1 hv)
      have := (List.subperm_of_subset hwf.nodup hsub).length_le
      rwa [List.length_append, vars_length, vars_length, vars_length] at this
    · exact ⟨s2.1.trans p3.1, s2.2.trans p3.2⟩
    · show M.Gam _ _ ↔ _
      rw [s3, p4, q4]
      simp [Gam]

/-! ## C75: forgetting variables -/

/-- `forget`: the variables take any value (0 with `project`), the others keep theirs; refused iff a
variable is unknown. -/
theorem C75_forget (S : M.Spec Ok ex) (a : Abs1 V A) (ha : Abs1.Wf M Ok a) (tvar : List V) (project : Bool) :
    ((∃ v ∈ tvar, v ∉ a.env.vars) → forgetArray M a tvar project = (Abs1.top M a.env, true)) ∧
    ((∀ v ∈ tvar, v ∈ a.env.vars) → (forgetArray M a tvar project).2 = false ∧
      (forgetArray M a tvar project).1.env = a.env ∧ Abs1.Wf M Ok (forgetArray M a tvar project).1 ∧
      (∀ ρ ρ' : V → K, Gam M a ρ → (∀ v ∈ a.env.vars, v ∉ tvar → ρ' v = ρ v) →
        (project = true → ∀ v ∈ tvar, ρ' v = 0) → Gam M (forgetArray M a tvar project).1 ρ') ∧
      (ex → ∀ ρ' : V → K, Gam M (forgetArray M a tvar project).1 ρ' →
        (∃ ρ, Gam M a ρ ∧ ∀ v ∈ a.env.vars, v ∉ tvar → ρ' v = ρ v) ∧
        (project = true → ∀ v ∈ tvar, ρ' v = 0))) := by
  obtain ⟨c1, c2⟩ := dimsOfVars_spec ha.env ha.size tvar
  refine ⟨fun h => by rw [forgetArray, c2 h], fun h => ?_⟩
  obtain ⟨ds, e1, e2, e3⟩ := c1 h
  clear e3
  have hdim := ha.dim
  have hmem : ∀ d v, varOfDim a.env d = some v → (d ∈ ds ↔ v ∈ tvar) := by
    intro d v hv
    rw [forall₂_mem e2]
    exact ⟨fun hd => ⟨d, hd, hv⟩, fun ⟨d', hd', hv'⟩ => varOfDim_inj ha.env hv hv' ▸ hd'⟩
  have hlt : ∀ d ∈ ds, ∃ v ∈ tvar, varOfDim a.env d = some v := by
    clear hmem e1 c1 c2
    induction e2 with
    | nil => simp
    | @cons d v ds vs hd _ ih =>
      intro d' hd'
      rcases List.mem_cons.1 hd' with rfl | hd'
      · exact ⟨v, by simp, hd⟩
      · obtain ⟨u, hu, hu'⟩ := ih (fun v hv => h v (by simp [hv])) d' hd'
        exact ⟨u, by simp [hu], hu'⟩
  by_cases he : ds.length = 0
  · have : ds = [] := List.length_eq_zero_iff.1 he
    subst this
    have : tvar = [] := by cases e2; rfl
    subst this
    have e0 : forgetArray M a [] project = (a, false) := by
      rw [forgetArray, e1]; simp [Abs0.forgetArray]
    rw [e0]
    refine ⟨rfl, rfl, ha, fun ρ ρ' hρ hag _ => ?_, fun _ ρ' hρ' => ⟨⟨ρ', hρ', fun _ _ _ => rfl⟩, by simp⟩⟩
    exact (gam_congr S ha.ok fun v hv => (hag v hv (by simp)).symm).1 hρ
  · have hck : Abs0.checkDimArray M a.val ds = true := by
      rw [Abs0.checkDimArray_iff]
      intro d hd
      obtain ⟨v, _, hv⟩ := hlt d hd
      rw [hdim]; exact varOfDim_lt hv
    have e0 : forgetArray M a tvar project = (⟨a.env, M.forget a.val ds project⟩, false) := by
      rw [forgetArray, e1]; simp only [Abs0.forgetArray, he, if_false, hck, if_true]
    rw [e0]
    obtain ⟨s1, s2, s3, s4⟩ := S.forget a.val ds project ha.ok (Abs0.checkDimArray_iff.1 hck)
    refine ⟨rfl, rfl, ⟨ha.env, ha.size, s1, s2.1.trans ha.dims.1, s2.2.trans ha.dims.2⟩,
      fun ρ ρ' hρ hag hp => ?_, fun hex ρ' hρ' => ?_⟩
    · refine s3 _ _ hρ (fun d hd hn => ?_) fun hp' d hd => ?_
      · obtain ⟨v, hv⟩ := varOfDim_isSome.2 (hdim ▸ hd)
        rw [pt_eq _ hv, pt_eq _ hv]
        exact hag v (mem_vars_iff.2 ⟨d, hv⟩) fun h' => hn ((hmem d v hv).2 h')
      · obtain ⟨v, hv, hv'⟩ := hlt d hd
        rw [pt_eq _ hv']; exact hp hp' v hv
    · obtain ⟨⟨x, hx, hk⟩, hz⟩ := s4 hex _ hρ'
      refine ⟨?_, fun hp v hv => ?_⟩
      · obtain ⟨σ, hσ⟩ := exists_val ha.env x
        refine ⟨σ, S.congr _ ha.ok _ _ (fun d hd => (hσ d (hdim ▸ hd)).symm) hx, fun v hv hn => ?_⟩
        obtain ⟨d, hd⟩ := mem_vars_iff.1 hv
        have hd' := varOfDim_lt hd
        have := hk d (hdim ▸ hd') fun h' => hn ((hmem d v hd).1 h')
        rwa [pt_eq _ hd, ← hσ d hd', pt_eq _ hd] at this
      · obtain ⟨d, hd, hv'⟩ := (forall₂_mem e2 v).1 hv
        have := hz hp d hd
        rwa [pt_eq _ hv'] at this

end Props
end Apron
