import Verif.Poly.PkLeq

/-!
# Polyhedra: correctness of the meet and of the join
-/

set_option autoImplicit false
set_option linter.unusedSectionVars false

namespace Apron.Poly

variable {K : Type*} [LinearOrder K] [Field K] [IsStrictOrderedRing K] {n d : ℕ}

/-- `R` is the intersection of `P` and `Q` -/
def IsMeet (K : Type*) [LinearOrder K] [Field K] [IsStrictOrderedRing K] (n : ℕ) (P Q R : Rep) : Prop :=
  ∀ x : Fin n → K, R.γ x ↔ P.γ x ∧ Q.γ x

/-- `R` is the least polyhedron containing `P` and `Q` -/
def IsJoin (K : Type*) [LinearOrder K] [Field K] [IsStrictOrderedRing K] (n : ℕ) (P Q R : Rep) : Prop :=
  (∀ x : Fin n → K, P.γ x ∨ Q.γ x → R.γ x) ∧
  ∀ C : List Row, (∀ x : Fin n → K, P.γ x ∨ Q.γ x → Sat C (hom x)) → ∀ x : Fin n → K, R.γ x → Sat C (hom x)

/-- the polyhedron seen through `poly_dual` when the operation is a join -/
def Rep.view (meet : Bool) (r : Rep) : Rep := if meet then r else r.dual

theorem Rep.view_view (meet : Bool) (r : Rep) : (r.view meet).view meet = r := by
  cases meet
  · exact r.dual_dual
  · rfl

theorem Rep.view_bot {meet : Bool} {r : Rep} : r.view meet = .bot ↔ r = .bot := by
  cases meet
  · exact Rep.dual_eq_bot
  · exact Iff.rfl

/-- the specification of `poly_meet` -/
def ViewOk (K : Type*) [LinearOrder K] [Field K] [IsStrictOrderedRing K] (n : ℕ) (meet : Bool) (pa pb r : Rep) : Prop :=
  (r.view meet).Wf K n ∧
    if meet then IsMeet K n pa pb r else IsJoin K n pa.dual pb.dual r.dual

theorem ViewOk.symm {meet : Bool} {pa pb r : Rep} (h : ViewOk K n meet pb pa r) : ViewOk K n meet pa pb r := by
  refine ⟨h.1, ?_⟩
  cases meet
  · have := h.2
    simp only [Bool.false_eq_true, if_false] at this ⊢
    exact ⟨fun x hx => this.1 x hx.symm, fun C hC x hx => this.2 C (fun x hx => hC x hx.symm) x hx⟩
  · have := h.2
    simp only [if_true] at this ⊢
    exact fun x => (this x).trans and_comm

theorem ViewOk.congr {meet : Bool} {pa pa' pb pb' r : Rep} (h : ViewOk K n meet pa' pb' r)
    (ha : ∀ x : Fin n → K, (pa'.view meet).γ x ↔ (pa.view meet).γ x)
    (hb : ∀ x : Fin n → K, (pb'.view meet).γ x ↔ (pb.view meet).γ x) : ViewOk K n meet pa pb r := by
  refine ⟨h.1, ?_⟩
  cases meet
  · have := h.2
    simp only [Bool.false_eq_true, if_false, Rep.view] at this ha hb ⊢
    refine ⟨fun x hx => this.1 x ?_, fun C hC x hx => this.2 C (fun x hx => hC x ?_) x hx⟩
    · rw [ha, hb]; exact hx
    · rw [← ha, ← hb]; exact hx
  · have := h.2
    simp only [if_true, Rep.view] at this ha hb ⊢
    intro x; rw [this x, ha, hb]

theorem Rep.dual_F {r : Rep} : r.dual.F? = r.C? := by cases r <;> rfl

theorem Rep.dual_C {r : Rep} : r.dual.C? = r.F? := by cases r <;> rfl

/-- intersection of the polar cones: the join -/
theorem join_of_cone {P Q r : Rep} (hP : P.Wf K n) (hQ : Q.Wf K n) (fP : P.F? ≠ none) (fQ : Q.F? ≠ none) (hr : r.C? ≠ none)
    (hok : ∀ f, r = .both f → f.Ok K (n + 1)) (h : ∀ v : Fin (n + 1) → K, r.cone v ↔ P.dual.cone v ∧ Q.dual.cone v) :
    r.dual.Wf K n ∧ IsJoin K n P Q r.dual := by
  have bP : P ≠ .bot := by rintro rfl; exact fP rfl
  have bQ : Q ≠ .bot := by rintro rfl; exact fQ rfl
  have br : r ≠ .bot := by rintro rfl; exact hr rfl
  have hpol : ∀ v : Fin (n + 1) → K, r.cone v ↔ (∀ y, P.cone y → 0 ≤ linV v y) ∧ ∀ y, Q.cone y → 0 ≤ linV v y := by
    intro v; rw [h, Rep.cone_dual bP hP.ok, Rep.cone_dual bQ hQ.ok]
  have hdual : ∀ y : Fin (n + 1) → K, r.dual.cone y ↔ ∀ v, r.cone v → 0 ≤ linV y v := fun y => Rep.cone_dual br hok y
  have hokd : ∀ f, r.dual = .both f → f.Ok K (n + 1) := by
    intro f hf
    have : r = .both f.dual := by rw [← r.dual_dual, hf]; rfl
    exact (hok _ this).dual
  have brd : r.dual ≠ .bot := fun e => br (Rep.dual_eq_bot.1 e)
  have hback : ∀ v : Fin (n + 1) → K, r.cone v ↔ ∀ y, r.dual.cone y → 0 ≤ linV v y := by
    intro v
    have := Rep.cone_dual (n := n) brd hokd v
    rwa [Rep.dual_dual] at this
  have hPr : ∀ y : Fin (n + 1) → K, P.cone y → r.dual.cone y := by
    intro y hy; rw [hdual]; intro v hv; rw [linV_comm]; exact ((hpol v).1 hv).1 y hy
  have hQr : ∀ y : Fin (n + 1) → K, Q.cone y → r.dual.cone y := by
    intro y hy; rw [hdual]; intro v hv; rw [linV_comm]; exact ((hpol v).1 hv).2 y hy
  have hpos : PosCone (K := K) (n := n) r.dual.cone := by
    have : r.cone (e0 K n) := (hpol _).2 ⟨fun y hy => by rw [linV_e0]; exact hP.pos y hy, fun y hy => by rw [linV_e0]; exact hQ.pos y hy⟩
    intro y hy
    have := (hback _).1 this y hy
    rwa [linV_e0] at this
  have hne : NonEmpty (K := K) (n := n) r.dual.cone := by
    obtain ⟨y, hy, h0⟩ := hP.nonEmpty fP
    exact ⟨y, hPr y hy, h0⟩
  refine ⟨?_, fun x hx => ?_, fun C hC x hx => ?_⟩
  · cases r with
    | bot => exact absurd rfl br
    | cons C => exact ⟨hpos, hne⟩
    | gens F => exact hpos
    | both f => exact ⟨(hok f rfl).dual, hpos, hne⟩
  · rcases hx with hx | hx
    · exact hPr _ hx
    · exact hQr _ hx
  · have sP : ∀ y, P.cone y → Sat C y := fun y hy => (Rep.cone_isCone bP).sat hP.pos
      ((Rep.cone_isCone bP).exists_point (hP.nonEmpty fP)) (fun x hx => hC x (.inl hx)) hy
    have sQ : ∀ y, Q.cone y → Sat C y := fun y hy => (Rep.cone_isCone bQ).sat hQ.pos
      ((Rep.cone_isCone bQ).exists_point (hQ.nonEmpty fQ)) (fun x hx => hC x (.inr hx)) hy
    have hx' : r.dual.cone (hom x) := hx
    intro q hq
    have c1 : r.cone (toV K (n + 1) q) := (hpol _).2 ⟨fun y hy => (sP y hy q hq).1, fun y hy => (sQ y hy q hq).1⟩
    have h1 : 0 ≤ dot q (hom x) := (hback _).1 c1 _ hx'
    refine ⟨h1, fun h0 => ?_⟩
    have c2 : r.cone (-toV K (n + 1) q) := (hpol _).2
      ⟨fun y hy => by rw [linV_neg_left, ← dot_eq_linV, (sP y hy q hq).2 h0]; simp,
       fun y hy => by rw [linV_neg_left, ← dot_eq_linV, (sQ y hy q hq).2 h0]; simp⟩
    have h2 := (hback _).1 c2 _ hx'
    rw [linV_neg_left, ← dot_eq_linV] at h2
    exact le_antisymm (by linarith) h1

/-! ## Conversion in both views -/

theorem chernikovaDual_view (meet : Bool) (r : Rep) : (r.chernikovaDual n meet).view meet = (r.view meet).chernikova n := by
  cases meet
  · simp only [Rep.chernikovaDual, Rep.view, Bool.false_eq_true, if_false, Rep.dual_dual]
  · rfl

theorem chernikovaDual_shape (n : ℕ) (meet : Bool) (r : Rep) : r.chernikovaDual n meet = .bot ∨ ∃ f, r.chernikovaDual n meet = .both f := by
  cases meet
  · rcases chernikova_shape n r.dual with e | ⟨f, e⟩
    · left; change (Rep.chernikova n r.dual).dual = _; rw [e]; rfl
    · right; exact ⟨f.dual, by change (Rep.chernikova n r.dual).dual = _; rw [e]; rfl⟩
  · exact chernikova_shape n r

theorem chernikovaDual_wf {meet : Bool} {r : Rep} (h : (r.view meet).Wf K n) : ((r.chernikovaDual n meet).view meet).Wf K n := by
  rw [chernikovaDual_view]; exact chernikova_wf h

theorem chernikovaDual_γ {meet : Bool} {r : Rep} (h : (r.view meet).Wf K n) (x : Fin n → K) :
    ((r.chernikovaDual n meet).view meet).γ x ↔ (r.view meet).γ x := by
  rw [chernikovaDual_view]; exact chernikova_γ h x

theorem obtainCDual_wf {meet : Bool} {r : Rep} (h : (r.view meet).Wf K n) : ((r.obtainCDual n meet).view meet).Wf K n := by
  rw [Rep.obtainCDual]; split_ifs
  · exact chernikovaDual_wf h
  · exact h

theorem obtainCDual_γ {meet : Bool} {r : Rep} (h : (r.view meet).Wf K n) (x : Fin n → K) :
    ((r.obtainCDual n meet).view meet).γ x ↔ (r.view meet).γ x := by
  rw [Rep.obtainCDual]; split_ifs
  · exact chernikovaDual_γ h x
  · exact Iff.rfl

theorem obtainCDual_C {meet : Bool} {r : Rep} (h : r.obtainCDual n meet ≠ .bot) : (r.obtainCDual n meet).C? ≠ none := by
  rw [Rep.obtainCDual] at h ⊢
  split_ifs at h ⊢ with h'
  · rcases chernikovaDual_shape n meet r with e | ⟨f, e⟩
    · exact absurd e h
    · rw [e]; simp [Rep.C?]
  · exact h'

/-! ## Particular cases -/

theorem particular_some {meet : Bool} {o : Opts} {pa pb r : Rep} (ha : (pa.view meet).Wf K n) (hb : (pb.view meet).Wf K n)
    (h : Rep.particular n meet o pa pb = some r) : ViewOk K n meet pa pb r := by
  rw [Rep.particular] at h
  cases meet
  · simp only [Bool.false_eq_true, if_false] at h
    simp only [Rep.view, Bool.false_eq_true, if_false] at ha hb
    have hleft : ∀ {pa pb r : Rep}, (∀ x : Fin n → K, pa.dual.γ x → pb.dual.γ x) → r.dual.Wf K n →
        (∀ x : Fin n → K, r.dual.γ x ↔ pb.dual.γ x) → ViewOk K n false pa pb r := by
      intro pa pb r h1 h2 h3
      refine ⟨h2, ?_⟩
      simp only [Bool.false_eq_true, if_false]
      refine ⟨fun x hx => (h3 x).2 (hx.elim (h1 x) id), fun C hC x hx => hC x (.inr ((h3 x).1 hx))⟩
    have hcv : ∀ {r : Rep}, r.dual.Wf K n → (if o.lzy then r else r.chernikovaDual n false).dual.Wf K n ∧
        ∀ x : Fin n → K, (if o.lzy then r else r.chernikovaDual n false).dual.γ x ↔ r.dual.γ x := by
      intro r hr
      split_ifs
      · exact ⟨hr, fun x => Iff.rfl⟩
      · exact ⟨chernikovaDual_wf (meet := false) hr, chernikovaDual_γ (meet := false) hr⟩
    by_cases e1 : pa = .bot
    · rw [if_pos e1] at h
      cases h
      subst e1
      exact hleft (pa := .bot) (fun x hx => False.elim hx) (hcv hb).1 (hcv hb).2
    · rw [if_neg e1] at h
      by_cases e2 : pb = .bot
      · rw [if_pos e2] at h
        cases h
        subst e2
        exact (hleft (pa := .bot) (fun x hx => False.elim hx) (hcv ha).1 (hcv ha).2).symm
      · rw [if_neg e2] at h
        by_cases e3 : o.exactWanted = true ∧ Rep.isLeq n o.leqAlg pa.dual pb.dual = true
        · rw [if_pos e3] at h
          cases h
          exact hleft ((isLeq_iff ha hb _).1 e3.2) hb fun x => Iff.rfl
        · rw [if_neg e3] at h
          by_cases e4 : o.exactWanted = true ∧ Rep.isLeq n o.leqAlg pb.dual pa.dual = true
          · rw [if_pos e4] at h
            cases h
            exact (hleft ((isLeq_iff hb ha _).1 e4.2) ha fun x => Iff.rfl).symm
          · rw [if_neg e4] at h; cases h
  · simp only [if_true] at h
    split_ifs at h with hc
    cases h
    refine ⟨trivial, ?_⟩
    simp only [if_true]
    intro x
    refine ⟨fun hx => hx.elim, fun hx => ?_⟩
    rcases hc with rfl | rfl
    · exact hx.1
    · exact hx.2

theorem particular_none {meet : Bool} {o : Opts} {pa pb : Rep} (h : Rep.particular n meet o pa pb = none) :
    pa ≠ .bot ∧ pb ≠ .bot := by
  rw [Rep.particular] at h
  cases meet
  · simp only [Bool.false_eq_true, if_false] at h
    split_ifs at h with h1 h2
    exact ⟨h1, h2⟩
  · simp only [if_true] at h
    split_ifs at h with h1
    push Not at h1
    exact h1

/-! ## The strict and lazy versions -/

theorem view_dual_false (r : Rep) : r.view false = r.dual := rfl

/-- `poly_meet_matrix`, strict version -/
theorem meetMatrix_strict {meet : Bool} {f : Full} {pb : Rep} {C : List Row} (ha : ((Rep.both f).view meet).Wf K n)
    (hb : (pb.view meet).Wf K n) (hC : pb.C? = some C) {mat : List Row} (hmat : ∀ y : Fin (n + 1) → K, Sat mat y ↔ Sat C y) :
    ∃ r, Rep.meetMatrix n meet false (.both f) mat = some r ∧ (r = .bot ∨ ∃ g, r = .both g) ∧ ViewOk K n meet (.both f) pb r := by
  have hok : f.Ok K (n + 1) := by
    cases meet
    · exact Full.dual_dual f ▸ Full.Ok.dual (f := f.dual) ha.1
    · exact ha.1
  refine ⟨_, rfl, ?_⟩
  cases hm : addAndMinimize (n + 2) 2 meet f.crows mat f.lines f.rays with
  | none =>
    dsimp only
    refine ⟨.inl rfl, ?_⟩
    cases meet
    · exact absurd hm addAndMinimize_false
    · refine ⟨trivial, ?_⟩
      simp only [if_true]
      rw [crows_eq] at hm
      have hz := (addAndMinimize_none (K := K) (d := n + 1) (dec := 2) le_rfl (by omega) hok.min (by
        intro y hy; rw [← crows_eq] at hy; exact ha.2.1 y hy)).1 hm
      intro x
      refine ⟨fun hx => hx.elim, fun hx => ?_⟩
      have h1 : Sat f.crows (hom x) := hx.1
      rw [crows_eq] at h1
      have := hz _ h1 ((hmat _).2 ((Rep.Wf.sat hC _).1 hx.2))
      exact absurd this (by change hom x 0 ≠ 0; rw [hom_zero]; exact one_ne_zero)
  | some m =>
    dsimp only
    refine ⟨.inr ⟨_, rfl⟩, ?_⟩
    have hm' := hm
    rw [crows_eq] at hm'
    obtain ⟨h1, h2⟩ := addAndMinimize_ok hok.min hm'
    obtain ⟨h3, h4⟩ := addAndMinimize_indep hok.min hok.indL hm'
    have hok' := ofMin_ok (b1 := meet) (b2 := !meet) h1 h3 h4
    have hcone : ∀ y : Fin (n + 1) → K, Sat (Full.ofMin m meet (!meet)).crows y ↔ Sat f.crows y ∧ Sat C y := by
      intro y; rw [ofMin_crows, h2, ← crows_eq, hmat]
    generalize Full.ofMin m meet (!meet) = g at *
    cases meet
    · have fC : pb.dual.F? ≠ none := by rw [Rep.dual_F, hC]; simp
      have := join_of_cone (K := K) (n := n) (P := (Rep.both f).dual) (Q := pb.dual) (r := .both g) ha hb (by simp [Rep.dual, Rep.F?]) fC
        (by simp [Rep.C?]) (by rintro f' e; cases e; exact hok') (fun v => by
          rw [Rep.dual_dual, Rep.dual_dual, Rep.Wf.sat hC]; exact hcone v)
      exact ⟨this.1, by simpa using this.2⟩
    · refine ⟨⟨hok', fun y hy => ha.2.1 y ((hcone y).1 hy).1, ?_⟩, ?_⟩
      · have hne := (addAndMinimize_none (K := K) (d := n + 1) (dec := 2) le_rfl (by omega) hok.min (newC := mat) (by
          intro y hy; rw [← crows_eq] at hy; exact ha.2.1 y hy)).not.1 (by rw [hm']; simp)
        push Not at hne
        obtain ⟨y, hy1, hy2, h0⟩ := hne
        rw [← crows_eq] at hy1
        exact ⟨y, (hcone y).2 ⟨hy1, (hmat y).1 hy2⟩, lt_of_le_of_ne (ha.2.1 y hy1) (Ne.symm h0)⟩
      · simp only [if_true]
        intro x
        change Sat g.crows (hom x) ↔ _
        rw [hcone]
        exact and_congr Iff.rfl (Rep.Wf.sat hC _).symm

theorem meetStart_ok {meet : Bool} {f : Full} {pb : Rep} (ha : ((Rep.both f).view meet).Wf K n) (hb : (pb.view meet).Wf K n)
    (hC : pb.C? ≠ none) : ∃ r, Rep.meetStart n meet (.both f) pb = some r ∧ ViewOk K n meet (.both f) pb r := by
  cases hc : pb.C? with
  | none => exact absurd hc hC
  | some C =>
    rw [Rep.meetStart, hc]
    obtain ⟨r, h1, _, h2⟩ := meetMatrix_strict ha hb hc (fun y => sat_sortRows (n + 2) C y)
    exact ⟨r, h1, h2⟩

theorem meet_lazy {meet : Bool} {pa pb : Rep} (ha : (pa.view meet).Wf K n) (hb : (pb.view meet).Wf K n) (hA : pa.C? ≠ none)
    (hB : pb.C? ≠ none) : ∃ r, (pb.C?.bind fun C => pa.meetMatrix n meet true (sortRows (n + 2) C)) = some r ∧ ViewOk K n meet pa pb r := by
  cases ca : pa.C? with
  | none => exact absurd ca hA
  | some A =>
    cases cb : pb.C? with
    | none => exact absurd cb hB
    | some B =>
      simp only [Rep.meetMatrix, if_true, ca, Option.map_some, Option.bind_some]
      refine ⟨_, rfl, ?_⟩
      have hcone : ∀ y : Fin (n + 1) → K, Sat (mergeRows (n + 2) (sortRows (n + 2) A) (sortRows (n + 2) B)) y ↔ pa.cone y ∧ pb.cone y := by
        intro y
        rw [sat_mergeRows (d := n + 1), sat_sortRows, sat_sortRows, Rep.Wf.sat ca, Rep.Wf.sat cb]
      generalize mergeRows (n + 2) (sortRows (n + 2) A) (sortRows (n + 2) B) = M at *
      cases meet
      · have := join_of_cone (K := K) (n := n) (P := pa.dual) (Q := pb.dual) (r := .cons M) ha hb (by rw [Rep.dual_F]; exact hA)
          (by rw [Rep.dual_F]; exact hB) (by simp [Rep.C?]) (by rintro f' e; cases e) (fun v => by
            rw [Rep.dual_dual, Rep.dual_dual]; exact hcone v)
        exact ⟨this.1, by simpa using this.2⟩
      · refine ⟨fun y hy => Rep.Wf.pos ha y ((hcone y).1 hy).1, ?_⟩
        simp only [if_true]
        exact fun x => hcone (hom x)

/-- `poly_meet` of two distinct polyhedra; a destructive strict meet must not start from a polyhedron only known by
constraints that turn out to be unsatisfiable -/
theorem polyMeet_ok {meet : Bool} {o : Opts} {destr : Bool} {pa pb : Rep} (ha : (pa.view meet).Wf K n) (hb : (pb.view meet).Wf K n)
    (hd : destr = true → o.lzy = false → meet = true → ∀ C, pa = .cons C → (∃ x : Fin n → K, pa.γ x) ∨ pb = .bot) :
    ∃ r, Rep.polyMeet n meet o destr pa pb = some r ∧ ViewOk K n meet pa pb r := by
  rw [Rep.polyMeet]
  cases h1 : Rep.particular n meet o pa pb with
  | some r => exact ⟨r, rfl, particular_some ha hb h1⟩
  | none =>
    dsimp only
    have ga := obtainCDual_γ (n := n) ha
    have gb := obtainCDual_γ (n := n) hb
    have wa := obtainCDual_wf (n := n) ha
    have wb := obtainCDual_wf (n := n) hb
    have hd' : destr = true → o.lzy = false → meet = true → ∀ C, pa.obtainCDual n meet = .cons C → ∃ x : Fin n → K, (pa.obtainCDual n meet).γ x := by
      intro e1 e2 e3 C hC
      have hpa : pa = .cons C := by
        rw [Rep.obtainCDual] at hC
        split_ifs at hC with hc
        · rcases chernikovaDual_shape n meet pa with e | ⟨f, e⟩ <;> rw [e] at hC <;> cases hC
        · exact hC
      rcases hd e1 e2 e3 C hpa with ⟨x, hx⟩ | hbot
      · refine ⟨x, ?_⟩
        subst e3
        exact (ga x).2 hx
      · exact absurd hbot (particular_none h1).2
    have ca := @obtainCDual_C n meet pa
    have cb := @obtainCDual_C n meet pb
    generalize pa.obtainCDual n meet = qa at *
    generalize pb.obtainCDual n meet = qb at *
    suffices hs : ∃ r, _ = some r ∧ ViewOk K n meet qa qb r by
      obtain ⟨r, e, hv⟩ := hs
      exact ⟨r, e, hv.congr ga gb⟩
    cases h2 : Rep.particular n meet o qa qb with
    | some r => exact ⟨r, rfl, particular_some wa wb h2⟩
    | none =>
      dsimp only
      obtain ⟨na, nb⟩ := particular_none h2
      have ca := ca na
      have cb := cb nb
      by_cases hl : o.lzy = true
      · rw [if_pos hl]; exact meet_lazy wa wb ca cb
      · rw [if_neg hl]
        by_cases hdd : destr = true
        · rw [if_pos hdd]
          have wa' := chernikovaDual_wf (n := n) wa
          have ga' := chernikovaDual_γ (n := n) wa
          rcases chernikovaDual_shape n meet qa with e | ⟨f, e⟩
          · exfalso
            cases meet
            · have e' : qa.dual.chernikova n = .bot := by
                have := chernikovaDual_view (n := n) false qa
                rw [e] at this; exact this.symm
              have hF : qa.dual.F? ≠ none := by rw [Rep.dual_F]; exact ca
              cases hF' : qa.dual.F? with
              | none => exact hF hF'
              | some F =>
                obtain ⟨x, hx⟩ := Rep.Wf.exists_point wa hF'
                exact (chernikova_bot_iff wa).1 e' x hx
            · have e' : qa.chernikova n = .bot := e
              cases qa with
              | bot => exact na rfl
              | gens F => exact ca rfl
              | both f => simp [Rep.chernikova] at e'
              | cons C =>
                obtain ⟨x, hx⟩ := hd' hdd (by simpa using hl) rfl C rfl
                exact (chernikova_bot_iff wa).1 e' x hx
          · rw [e] at wa' ga' ⊢
            obtain ⟨r, e1, e2⟩ := meetStart_ok wa' wb cb
            exact ⟨r, e1, e2.congr ga' fun x => Iff.rfl⟩
        · rw [if_neg hdd]
          have hboth : ∀ (fa fb : Full), ((Rep.both fa).view meet).Wf K n → ((Rep.both fb).view meet).Wf K n →
              ∃ r, (if fa.startFirst fb then Rep.meetStart n meet (.both fa) (.both fb) else Rep.meetStart n meet (.both fb) (.both fa)) = some r ∧
                ViewOk K n meet (.both fa) (.both fb) r := by
            intro fa fb wa wb
            split_ifs
            · exact meetStart_ok wa wb (by simp [Rep.C?])
            · obtain ⟨r, e1, e2⟩ := meetStart_ok wb wa (pb := .both fa) (by simp [Rep.C?])
              exact ⟨r, e1, e2.symm⟩
          cases qa with
          | bot => exact absurd rfl na
          | gens F => exact absurd rfl ca
          | both fa =>
            cases qb with
            | bot => exact absurd rfl nb
            | gens F => exact absurd rfl cb
            | cons C => exact meetStart_ok wa wb cb
            | both fb => exact hboth fa fb wa wb
          | cons Ca =>
            cases qb with
            | bot => exact absurd rfl nb
            | gens F => exact absurd rfl cb
            | both fb =>
              obtain ⟨r, e1, e2⟩ := meetStart_ok wb wa ca
              exact ⟨r, e1, e2.symm⟩
            | cons Cb =>
              dsimp only
              have wa' := chernikovaDual_wf (n := n) wa
              have ga' := chernikovaDual_γ (n := n) wa
              have wb' := chernikovaDual_wf (n := n) wb
              have gb' := chernikovaDual_γ (n := n) wb
              have sa := chernikovaDual_shape n meet (.cons Ca)
              have sb := chernikovaDual_shape n meet (.cons Cb)
              generalize (Rep.cons Ca).chernikovaDual n meet = ra at *
              generalize (Rep.cons Cb).chernikovaDual n meet = rb at *
              cases h3 : Rep.particular n meet o ra rb with
              | some r => exact ⟨r, rfl, (particular_some wa' wb' h3).congr ga' gb'⟩
              | none =>
                obtain ⟨na', nb'⟩ := particular_none h3
                obtain ⟨fa, rfl⟩ := sa.resolve_left na'
                obtain ⟨fb, rfl⟩ := sb.resolve_left nb'
                obtain ⟨r, e1, e2⟩ := hboth fa fb wa' wb'
                exact ⟨r, e1, e2.congr ga' gb'⟩

theorem polyMeetSelf_ok {meet : Bool} {o : Opts} {pa : Rep} (ha : (pa.view meet).Wf K n) :
    ViewOk K n meet pa pa (Rep.polyMeetSelf n meet o pa) := by
  have hw : ((Rep.polyMeetSelf n meet o pa).view meet).Wf K n := by
    rw [Rep.polyMeetSelf]; split_ifs
    · exact ha
    · exact chernikovaDual_wf ha
  have hg : ∀ x : Fin n → K, ((Rep.polyMeetSelf n meet o pa).view meet).γ x ↔ (pa.view meet).γ x := by
    intro x
    rw [Rep.polyMeetSelf]; split_ifs
    · exact Iff.rfl
    · exact chernikovaDual_γ ha x
  refine ⟨hw, ?_⟩
  cases meet
  · simp only [Bool.false_eq_true, if_false, Rep.view] at hg ⊢
    exact ⟨fun x hx => (hg x).2 (hx.elim id id), fun C hC x hx => hC x (.inl ((hg x).1 hx))⟩
  · simp only [if_true, Rep.view] at hg ⊢
    intro x; rw [hg, and_self]

end Apron.Poly
