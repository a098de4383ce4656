import Verif.Poly.PkMeet

/-!
# Polyhedra: adding a matrix of constraints or of generators
-/

set_option autoImplicit false
set_option linter.unusedSectionVars false

namespace Apron.Poly

variable {K : Type*} [LinearOrder K] [Field K] [IsStrictOrderedRing K] {n : ℕ}

theorem Sat.append_iff {d : ℕ} {A B : List Row} {y : Fin d → K} : Sat (A ++ B) y ↔ Sat A y ∧ Sat B y := by
  simp only [Sat, List.mem_append]
  constructor
  · exact fun h => ⟨fun q hq => h q (.inl hq), fun q hq => h q (.inr hq)⟩
  · rintro ⟨h1, h2⟩ q (hq | hq)
    · exact h1 q hq
    · exact h2 q hq

theorem Gen.split {d : ℕ} {L L' R R' : List Row} {y : Fin d → K} (h : Gen (L ++ L') (R ++ R') y) :
    ∃ u v, Gen L R u ∧ Gen L' R' v ∧ y = u + v := by
  refine Gen.le (G := fun y => ∃ u v, Gen L R u ∧ Gen L' R' v ∧ y = u + v) ⟨⟨0, 0, .zero, .zero, by simp⟩, ?_, ?_⟩ ?_ ?_ h
  · rintro x y ⟨u, v, h1, h2, rfl⟩ ⟨u', v', h1', h2', rfl⟩
    exact ⟨u + u', v + v', h1.add h1', h2.add h2', by abel⟩
  · rintro x t ht ⟨u, v, h1, h2, rfl⟩
    exact ⟨t • u, t • v, h1.smul ht, h2.smul ht, by rw [smul_add]⟩
  · intro l hl
    rcases List.mem_append.1 hl with hl | hl
    · exact ⟨⟨_, 0, .of_line hl, .zero, by simp⟩, ⟨_, 0, .of_neg_line hl, .zero, by simp⟩⟩
    · exact ⟨⟨0, _, .zero, .of_line hl, by simp⟩, ⟨0, _, .zero, .of_neg_line hl, by simp⟩⟩
  · intro q hq
    rcases List.mem_append.1 hq with hq | hq
    · exact ⟨_, 0, .of_ray hq, .zero, by simp⟩
    · exact ⟨0, _, .zero, .of_ray hq, by simp⟩

theorem genM_append_iff {d : ℕ} {A B : List Row} {y : Fin d → K} : GenM (A ++ B) y ↔ ∃ u v, GenM A u ∧ GenM B v ∧ y = u + v := by
  constructor
  · intro h
    rw [GenM, eqRows, ineqRows, List.filter_append, List.filter_append] at h
    exact h.split
  · rintro ⟨u, v, hu, hv, rfl⟩
    refine Gen.add (Gen.mono ?_ ?_ hu) (Gen.mono ?_ ?_ hv)
    all_goals
      intro q hq
      simp only [eqRows, ineqRows, List.filter_append, List.mem_append] at hq ⊢
      first | exact .inl hq | exact .inr hq

/-- adding constraints -/
theorem meetMatrix_meet {lzy : Bool} {pa : Rep} (ha : pa.Wf K n) (hC : pa.C? ≠ none) (hs : lzy = false → ∃ f, pa = .both f)
    (mat : List Row) : ∃ r, Rep.meetMatrix n true lzy pa mat = some r ∧ r.Wf K n ∧
      ∀ x : Fin n → K, r.γ x ↔ pa.γ x ∧ Sat mat (hom x) := by
  cases lzy with
  | true =>
    cases ca : pa.C? with
    | none => exact absurd ca hC
    | some A =>
      simp only [Rep.meetMatrix, if_true, ca, Option.map_some]
      refine ⟨_, rfl, ?_⟩
      have hcone : ∀ y : Fin (n + 1) → K, Sat (mergeRows (n + 2) (sortRows (n + 2) A) mat) y ↔ pa.cone y ∧ Sat mat y := by
        intro y; rw [sat_mergeRows (d := n + 1), sat_sortRows, Rep.Wf.sat ca]
      exact ⟨fun y hy => ha.pos y ((hcone y).1 hy).1, fun x => hcone _⟩
  | false =>
    obtain ⟨f, rfl⟩ := hs rfl
    have hok : f.Ok K (n + 1) := ha.1
    simp only [Rep.meetMatrix, Bool.false_eq_true, if_false]
    refine ⟨_, rfl, ?_⟩
    cases hm : addAndMinimize (n + 2) 2 true f.crows mat f.lines f.rays with
    | none =>
      dsimp only
      refine ⟨trivial, fun x => ⟨fun hx => hx.elim, fun hx => ?_⟩⟩
      rw [crows_eq] at hm
      have hz := (addAndMinimize_none (K := K) (d := n + 1) (dec := 2) le_rfl (by omega) hok.min (by
        intro y hy; rw [← crows_eq] at hy; exact ha.2.1 y hy)).1 hm
      have h1 : Sat f.crows (hom x) := hx.1
      rw [crows_eq] at h1
      exact absurd (hz _ h1 hx.2) (by change hom x 0 ≠ 0; rw [hom_zero]; exact one_ne_zero)
    | some m =>
      dsimp only
      have hm' := hm
      rw [crows_eq] at hm'
      obtain ⟨h1, h2⟩ := addAndMinimize_ok hok.min hm'
      obtain ⟨h3, h4⟩ := addAndMinimize_indep hok.min hok.indL hm'
      have hok' := ofMin_ok (b1 := true) (b2 := !true) h1 h3 h4
      have hcone : ∀ y : Fin (n + 1) → K, Sat (Full.ofMin m true (!true)).crows y ↔ Sat f.crows y ∧ Sat mat y := by
        intro y; rw [ofMin_crows, h2, ← crows_eq]
      generalize Full.ofMin m true (!true) = g at *
      refine ⟨⟨hok', fun y hy => ha.2.1 y ((hcone y).1 hy).1, ?_⟩, fun x => hcone _⟩
      have hne := (addAndMinimize_none (K := K) (d := n + 1) (dec := 2) le_rfl (by omega) hok.min (newC := mat) (by
        intro y hy; rw [← crows_eq] at hy; exact ha.2.1 y hy)).not.1 (by rw [hm']; simp)
      push Not at hne
      obtain ⟨y, hy1, hy2, h0⟩ := hne
      rw [← crows_eq] at hy1
      exact ⟨y, (hcone y).2 ⟨hy1, hy2⟩, lt_of_le_of_ne (ha.2.1 y hy1) (Ne.symm h0)⟩

/-- adding generators that are not vertices -/
theorem meetMatrix_gens {lzy : Bool} {pa : Rep} (ha : pa.Wf K n) {F : List Row} (hF : pa.F? = some F)
    (hs : lzy = false → ∃ f, pa = .both f) (mat : List Row) (hm0 : ∀ q ∈ mat, q.at' 1 = 0) :
    ∃ r, (Rep.meetMatrix n false lzy pa.dual mat).map Rep.dual = some r ∧ r.Wf K n ∧
      (∀ y : Fin (n + 1) → K, r.cone y ↔ GenM (F ++ mat) y) ∧
      ∀ x : Fin n → K, r.γ x ↔ ∃ x0 : Fin n → K, pa.γ x0 ∧ ∃ v : Fin (n + 1) → K, GenM mat v ∧ hom x = hom x0 + v := by
  have hbot : pa ≠ .bot := Rep.ne_bot_of_F hF
  have hC : pa.dual.C? = some F := by rw [Rep.dual_C, hF]
  -- the polar cone of the result
  have key : ∃ p, Rep.meetMatrix n false lzy pa.dual mat = some p ∧ p.C? ≠ none ∧ (∀ f, p = .both f → f.Ok K (n + 1)) ∧
      ∀ v : Fin (n + 1) → K, p.cone v ↔ Sat (F ++ mat) v := by
    cases lzy with
    | true =>
      simp only [Rep.meetMatrix, if_true, hC, Option.map_some]
      refine ⟨_, rfl, by simp [Rep.C?], (by rintro f ⟨⟩), fun v => ?_⟩
      change Sat _ v ↔ _
      rw [sat_mergeRows (d := n + 1), sat_sortRows, Sat.append_iff]
    | false =>
      obtain ⟨f, rfl⟩ := hs rfl
      have hok : f.dual.Ok K (n + 1) := ha.1.dual
      have e : (Rep.both f).dual = .both f.dual := rfl
      rw [e] at hC ⊢
      simp only [Rep.meetMatrix, Bool.false_eq_true, if_false]
      refine ⟨_, rfl, ?_⟩
      cases hm : addAndMinimize (n + 2) 2 false f.dual.crows mat f.dual.lines f.dual.rays with
      | none => exact absurd hm addAndMinimize_false
      | some m =>
        dsimp only
        have hm' := hm
        rw [crows_eq] at hm'
        obtain ⟨h1, h2⟩ := addAndMinimize_ok hok.min hm'
        obtain ⟨h3, h4⟩ := addAndMinimize_indep hok.min hok.indL hm'
        have hok' := ofMin_ok (b1 := false) (b2 := !false) h1 h3 h4
        refine ⟨by simp [Rep.C?], by rintro g ⟨⟩; exact hok', fun v => ?_⟩
        change Sat _ v ↔ _
        rw [ofMin_crows, h2, ← crows_eq, Sat.append_iff]
        refine and_congr ?_ Iff.rfl
        have : f.dual.crows = F := by
          have : (Rep.both f.dual).C? = some f.dual.crows := rfl
          rw [this] at hC; exact Option.some.inj hC
        rw [this]
  obtain ⟨p, hp, hpC, hok, hpol⟩ := key
  have bp : p ≠ .bot := by rintro rfl; exact hpC rfl
  have hcone : ∀ y : Fin (n + 1) → K, p.dual.cone y ↔ GenM (F ++ mat) y := by
    intro y
    rw [Rep.cone_dual bp hok, genM_iff_polar]
    exact forall_congr' fun v => by rw [hpol]
  have hz : ∀ v : Fin (n + 1) → K, GenM mat v → v 0 = 0 := by
    intro v hv
    refine Gen.le (G := fun v : Fin (n + 1) → K => v 0 = 0) ⟨rfl, fun h1 h2 => by rw [Pi.add_apply, h1, h2, add_zero], fun _ h => by
      rw [Pi.smul_apply, h, smul_zero]⟩ (fun q hq => ?_) (fun q hq => ?_) hv
    · rw [eqRows, List.mem_filter] at hq
      simp [toV, hm0 q hq.1]
    · rw [ineqRows, List.mem_filter] at hq
      simp [toV, hm0 q hq.1]
  have hpos : PosCone (K := K) (n := n) p.dual.cone := by
    intro y hy
    rw [hcone, genM_append_iff] at hy
    obtain ⟨u, v, hu, hv, rfl⟩ := hy
    rw [Pi.add_apply, hz v hv, add_zero]
    exact ha.pos u ((ha.genM hF u).2 hu)
  have hne : NonEmpty (K := K) (n := n) p.dual.cone := by
    obtain ⟨y, hy, h0⟩ := ha.nonEmpty (by rw [hF]; simp)
    refine ⟨y, ?_, h0⟩
    rw [hcone, genM_append_iff]
    exact ⟨y, 0, (ha.genM hF y).1 hy, .zero, by simp⟩
  refine ⟨p.dual, by rw [hp]; rfl, ?_, hcone, fun x => ?_⟩
  · cases p with
    | bot => exact absurd rfl bp
    | cons C => exact ⟨hpos, hne⟩
    | gens F => exact hpos
    | both f => exact ⟨(hok f rfl).dual, hpos, hne⟩
  · change p.dual.cone (hom x) ↔ _
    rw [hcone, genM_append_iff]
    constructor
    · rintro ⟨u, v, hu, hv, e⟩
      have hu0 : u 0 = 1 := by
        have := congrFun e 0
        rw [Pi.add_apply, hz v hv, add_zero, hom_zero] at this
        exact this.symm
      obtain ⟨x0, rfl⟩ := exists_hom hu0
      exact ⟨x0, (ha.genM hF _).2 hu, v, hv, e⟩
    · rintro ⟨x0, h0, v, hv, e⟩
      exact ⟨_, v, (ha.genM hF _).1 h0, hv, e⟩

end Apron.Poly
