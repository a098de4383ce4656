import Verif.Poly.PkSem

/-!
# Polyhedra: correctness of the tests
-/

set_option autoImplicit false
set_option linter.unusedSectionVars false

namespace Apron.Poly

variable {K : Type*} [LinearOrder K] [Field K] [IsStrictOrderedRing K] {n d : ℕ}

/-- a constraint is valid on a cone -/
def Valid (S : (Fin d → K) → Prop) (q : Row) : Prop := ∀ y, S y → 0 ≤ dot q y ∧ (q.at' 0 = 0 → dot q y = 0)

theorem dot_toV' (q r : Row) : dot r (toV K d q) = ((vprod d r q : ℤ) : K) := dot_toV r q

theorem genSatVector_iff {F : List Row} {tab : Row} :
    genSatVector n F tab false = true ↔ Valid (K := K) (d := n + 1) (GenM F) tab := by
  have key : Valid (K := K) (d := n + 1) (GenM F) tab ↔
      ∀ f ∈ F, (0 ≤ vprod (n + 1) f tab ∧ (tab.at' 0 = 0 → vprod (n + 1) f tab = 0) ∧ (f.at' 0 = 0 → vprod (n + 1) f tab = 0)) := by
    have e1 : (∀ y : Fin (n + 1) → K, GenM F y → 0 ≤ dot tab y) ↔
        ∀ f ∈ F, 0 ≤ vprod (n + 1) f tab ∧ (f.at' 0 = 0 → vprod (n + 1) f tab = 0) := by
      have := sat_iff_polar F (toV K (n + 1) tab)
      simp only [Sat, dot_toV] at this
      simp only [dot_eq_linV, ← this]
      exact forall_congr' fun f => forall_congr' fun _ => by norm_cast
    have e2 : (∀ y : Fin (n + 1) → K, GenM F y → 0 ≤ - dot tab y) ↔
        ∀ f ∈ F, 0 ≤ - vprod (n + 1) f tab ∧ (f.at' 0 = 0 → - vprod (n + 1) f tab = 0) := by
      have := sat_iff_polar F (toV K (n + 1) tab.neg)
      simp only [Sat, dot_toV, vprod_neg] at this
      have h3 : ∀ y : Fin (n + 1) → K, - dot tab y = linV (toV K (n + 1) tab.neg) y := by
        intro y; rw [toV_neg, linV_neg_left]; rfl
      simp only [h3, ← this]
      exact forall_congr' fun f => forall_congr' fun _ => by norm_cast
    constructor
    · intro h f hf
      have h1 := e1.1 (fun y hy => (h y hy).1) f hf
      refine ⟨h1.1, fun h0 => ?_, h1.2⟩
      have h2 := e2.1 (fun y hy => by rw [(h y hy).2 h0]; simp) f hf
      omega
    · intro h y hy
      have h1 := e1.2 (fun f hf => ⟨(h f hf).1, (h f hf).2.2⟩) y hy
      refine ⟨h1, fun h0 => ?_⟩
      have h2 := e2.2 (fun f hf => by rw [(h f hf).2.1 h0]; simp) y hy
      exact le_antisymm (by linarith) h1
  rw [key, genSatVector]
  by_cases h0 : tab.at' 0 = 0
  · rw [if_pos h0, List.all_eq_true]
    refine forall_congr' fun f => forall_congr' fun _ => ?_
    simp only [beq_iff_eq]
    constructor
    · intro h; rw [h]; exact ⟨le_rfl, fun _ => rfl, fun _ => rfl⟩
    · intro h; exact h.2.1 h0
  · rw [if_neg h0, List.all_eq_true]
    refine forall_congr' fun f => forall_congr' fun _ => ?_
    by_cases h1 : vprod (n + 1) f tab < 0
    · rw [if_pos h1]; simp; intro h; omega
    · rw [if_neg h1]
      by_cases h2 : f.at' 0 = 0
      · rw [if_pos h2]; simp only [beq_iff_eq]
        constructor
        · intro h; rw [h]; exact ⟨le_rfl, fun _ => rfl, fun _ => rfl⟩
        · intro h; exact h.2.2 h2
      · rw [if_neg h2]
        simp only [Bool.false_and, Bool.not_false, true_iff]
        exact ⟨not_lt.1 h1, fun h => absurd h h0, fun h => absurd h h2⟩

theorem all_genSat_iff {F C : List Row} :
    (C.all fun c => genSatVector n F c false) = true ↔ ∀ y : Fin (n + 1) → K, GenM F y → Sat C y := by
  rw [List.all_eq_true]
  constructor
  · intro h y hy q hq
    exact genSatVector_iff.1 (h q hq) y hy
  · intro h q hq
    exact (genSatVector_iff (K := K)).2 fun y hy => h y hy q hq

/-! ## Views of the representation -/

theorem Rep.Wf.genM {r : Rep} (h : r.Wf K n) {F : List Row} (hF : r.F? = some F) (y : Fin (n + 1) → K) : r.cone y ↔ GenM F y := by
  cases r with
  | bot => cases hF
  | cons C => cases hF
  | gens F' => cases hF; exact Iff.rfl
  | both f => cases hF; exact h.1.sat_iff y

theorem Rep.Wf.sat {r : Rep} {C : List Row} (hC : r.C? = some C) (y : Fin (n + 1) → K) : r.cone y ↔ Sat C y := by
  cases r with
  | bot => cases hC
  | cons C => cases hC; exact Iff.rfl
  | gens F' => cases hC
  | both f => cases hC; exact Iff.rfl

theorem Rep.ne_bot_of_F {r : Rep} {F : List Row} (hF : r.F? = some F) : r ≠ .bot := by rintro rfl; cases hF

theorem Rep.ne_bot_of_C {r : Rep} {C : List Row} (hC : r.C? = some C) : r ≠ .bot := by rintro rfl; cases hC

theorem Rep.Wf.exists_point {r : Rep} (h : r.Wf K n) {F : List Row} (hF : r.F? = some F) : ∃ x : Fin n → K, r.γ x :=
  (Rep.cone_isCone (Rep.ne_bot_of_F hF)).exists_point (h.nonEmpty (by rw [hF]; simp))

theorem chernikova_F_none {r : Rep} (h : (r.chernikova n).F? = none) : r.chernikova n = .bot := by
  rcases chernikova_shape n r with e | ⟨f, e⟩
  · exact e
  · rw [e] at h; cases h

theorem chernikova_C_none {r : Rep} (h : (r.chernikova n).C? = none) : r.chernikova n = .bot := by
  rcases chernikova_shape n r with e | ⟨f, e⟩
  · exact e
  · rw [e] at h; cases h

theorem obtainF_none {r : Rep} (h : (r.obtainF n).F? = none) : r.obtainF n = .bot := by
  rw [Rep.obtainF] at h ⊢
  split_ifs at h ⊢ with h'
  · exact chernikova_F_none h
  · exact absurd h h'

theorem obtainC_none {r : Rep} (h : (r.obtainC n).C? = none) : r.obtainC n = .bot := by
  rw [Rep.obtainC] at h ⊢
  split_ifs at h ⊢ with h'
  · exact chernikova_C_none h
  · exact absurd h h'

/-! ## Dimensions -/

theorem Gen.mem_rowSpan {L : List Row} {y : Fin d → K} (h : Gen L [] y) : y ∈ rowSpan K d L := by
  refine Gen.le (G := fun y => y ∈ rowSpan K d L) ⟨Submodule.zero_mem _, fun h1 h2 => Submodule.add_mem _ h1 h2, fun _ h =>
    Submodule.smul_mem _ _ h⟩ (fun q hq => ⟨Apron.Poly.mem_rowSpan hq, Submodule.neg_mem _ (Apron.Poly.mem_rowSpan hq)⟩) (by simp) h

theorem Full.Ok.eqs_length {f : Full} (h : f.Ok K d) : f.eqs.length = f.nbeq := by
  rw [Full.eqs, List.length_map, List.length_take]; exact min_eq_left h.leq

theorem Full.Ok.lines_length {f : Full} (h : f.Ok K d) : f.lines.length = f.nbline := by
  rw [Full.lines, List.length_map, List.length_take]; exact min_eq_left h.lel

/-- inclusion of cones: the smaller one has at most as many independent lines -/
theorem Full.Ok.nbline_le {f g : Full} (hf : f.Ok K d) (hg : g.Ok K d) (h : ∀ y : Fin d → K, Sat f.crows y → Sat g.crows y) :
    f.nbline ≤ g.nbline := by
  rw [← hf.lines_length, ← hg.lines_length]
  have h1 := hf.indL
  have h2 := hg.indL
  rw [Indep] at h1 h2
  rw [← h1, ← h2]
  refine Submodule.finrank_mono (rowSpan_le fun l hl => ?_)
  refine Gen.mem_rowSpan ((hg.min.prim.lin_iff _).1 fun q hq => ?_)
  have hz : ∀ q ∈ f.crows, dot q (toV K d l) = 0 := by
    intro q hq
    rw [crows_eq] at hq
    rw [dot_toV, hf.min.prim.line l hl q hq]; simp
  have s1 := h (toV K d l) fun q hq => by rw [hz q hq]; simp
  have s2 := h (-toV K d l) fun q hq => by rw [← lin_apply, map_neg, lin_apply, hz q hq]; simp
  rw [← crows_eq] at hq
  have e1 := (s1 q hq).1
  have e2 := (s2 q hq).1
  rw [← lin_apply, map_neg, lin_apply] at e2
  exact le_antisymm (by linarith) e1

theorem Full.Ok.nbeq_le {f g : Full} (hf : f.Ok K d) (hg : g.Ok K d) (h : ∀ y : Fin d → K, Sat f.crows y → Sat g.crows y) :
    g.nbeq ≤ f.nbeq := by
  refine hg.dual.nbline_le hf.dual fun v hv => ?_
  have e1 : g.dual.crows = g.frows := rfl
  have e2 : f.dual.crows = f.frows := rfl
  rw [e1, hg.sat_dual, genM_iff_polar] at hv
  rw [e2, hf.sat_dual, genM_iff_polar]
  exact fun y hy => hv y (h y hy)

/-! ## The tests -/

/-- `pk_is_leq` is exact -/
theorem isLeq_iff {pa pb : Rep} (ha : pa.Wf K n) (hb : pb.Wf K n) (alg : ℤ) :
    pa.isLeq n alg pb = true ↔ ∀ x : Fin n → K, pa.γ x → pb.γ x := by
  rw [Rep.isLeq]
  have wa : (if 0 < alg then pa.chernikova n else pa.obtainF n).Wf K n := by
    split_ifs; exacts [chernikova_wf ha, obtainF_wf ha]
  have ga : ∀ x : Fin n → K, (if 0 < alg then pa.chernikova n else pa.obtainF n).γ x ↔ pa.γ x := by
    intro x; split_ifs; exacts [chernikova_γ ha x, obtainF_γ ha x]
  have na : (if 0 < alg then pa.chernikova n else pa.obtainF n).F? = none →
      (if 0 < alg then pa.chernikova n else pa.obtainF n) = .bot := by
    split_ifs; exacts [chernikova_F_none, obtainF_none]
  have wb : (if 0 < alg then pb.chernikova n else pb.obtainC n).Wf K n := by
    split_ifs; exacts [chernikova_wf hb, obtainC_wf hb]
  have gb : ∀ x : Fin n → K, (if 0 < alg then pb.chernikova n else pb.obtainC n).γ x ↔ pb.γ x := by
    intro x; split_ifs; exacts [chernikova_γ hb x, obtainC_γ hb x]
  have nb : (if 0 < alg then pb.chernikova n else pb.obtainC n).C? = none →
      (if 0 < alg then pb.chernikova n else pb.obtainC n) = .bot := by
    split_ifs; exacts [chernikova_C_none, obtainC_none]
  simp only [← ga, ← gb]
  generalize (if 0 < alg then pa.chernikova n else pa.obtainF n) = qa at *
  generalize (if 0 < alg then pb.chernikova n else pb.obtainC n) = qb at *
  cases hF : qa.F? with
  | none =>
    rw [na hF]
    exact ⟨fun _ x hx => hx.elim, fun _ => rfl⟩
  | some F =>
    dsimp only
    obtain ⟨x0, hx0⟩ := wa.exists_point hF
    cases hC : qb.C? with
    | none =>
      rw [nb hC]
      exact ⟨fun h => (Bool.false_ne_true h).elim, fun h => (h x0 hx0).elim⟩
    | some C =>
      dsimp only
      have hcone : (∀ x : Fin n → K, qa.γ x → qb.γ x) ↔ ∀ y : Fin (n + 1) → K, qa.cone y → qb.cone y := by
        refine ⟨fun h y hy => ?_, fun h x hx => h _ hx⟩
        rw [Rep.Wf.sat hC]
        exact (Rep.cone_isCone (Rep.ne_bot_of_F hF)).sat wa.pos ⟨x0, hx0⟩ (fun x hx => (Rep.Wf.sat hC _).1 (h x hx)) hy
      have htest : (C.all fun c => genSatVector n F c false) = true ↔ ∀ x : Fin n → K, qa.γ x → qb.γ x := by
        rw [hcone, all_genSat_iff (K := K)]
        exact forall_congr' fun y => by rw [wa.genM hF, Rep.Wf.sat hC]
      have hdim : ∀ fa fb, qa = .both fa → qb = .both fb →
          ((if fa.nbeq < fb.nbeq ∨ fb.nbline < fa.nbline then false else C.all fun c => genSatVector n F c false) = true ↔
            ∀ x : Fin n → K, qa.γ x → qb.γ x) := by
        rintro fa fb rfl rfl
        by_cases hd : fa.nbeq < fb.nbeq ∨ fb.nbline < fa.nbline
        · rw [if_pos hd]
          refine ⟨fun h => (Bool.false_ne_true h).elim, fun h => ?_⟩
          rw [hcone] at h
          have h1 := wa.1.nbeq_le wb.1 h
          have h2 := wa.1.nbline_le wb.1 h
          omega
        · rw [if_neg hd]; exact htest
      cases qa <;> cases qb <;> first | exact hdim _ _ rfl rfl | exact htest

/-- `pk_is_bottom` is exact, except with a negative algorithm -/
theorem isBottom_iff {r : Rep} (h : r.Wf K n) {alg : ℤ} (ha : 0 ≤ alg) : r.isBottom n alg = true ↔ ∀ x : Fin n → K, ¬ r.γ x := by
  rw [← chernikova_bot_iff h]
  cases r with
  | bot => exact ⟨fun _ => rfl, fun _ => rfl⟩
  | gens F =>
    refine ⟨fun h => (Bool.false_ne_true h).elim, fun e => ?_⟩
    have := (chernikova_bot_iff h).1 e
    obtain ⟨x, hx⟩ := h.exists_point (F := F) rfl
    exact absurd hx (this x)
  | both f => exact ⟨fun h => (Bool.false_ne_true h).elim, fun e => by simp [Rep.chernikova] at e⟩
  | cons C =>
    have e : (Rep.cons C).isBottom n alg = (((Rep.cons C).chernikova n).F? == none) := if_neg (by omega)
    rw [e]
    constructor
    · intro h; exact chernikova_F_none (by simpa using h)
    · intro h; rw [h]; rfl

theorem isBottom_sound {r : Rep} (h : r.Wf K n) {alg : ℤ} (hb : r.isBottom n alg = true) (x : Fin n → K) : ¬ r.γ x := by
  by_cases ha : 0 ≤ alg
  · exact (isBottom_iff h ha).1 hb x
  · cases r with
    | bot => exact fun h => h
    | gens F => cases hb
    | both f => cases hb
    | cons C =>
      have e : (Rep.cons C).isBottom n alg = false := if_pos (by omega)
      rw [e] at hb; cases hb

theorem Indep.ne_zero {L : List Row} (h : Indep K d L) {q : Row} (hq : q ∈ L) : toV K d q ≠ 0 := by
  intro h0
  have hp := List.perm_cons_erase hq
  have h1 := h.perm hp
  have hle : rowSpan K d (q :: L.erase q) ≤ rowSpan K d (L.erase q) := by
    refine rowSpan_le fun r hr => ?_
    rcases List.mem_cons.1 hr with rfl | hr
    · rw [h0]; exact Submodule.zero_mem _
    · exact mem_rowSpan hr
  have h2 := Submodule.finrank_mono hle
  have h3 := finrank_rowSpan_le (K := K) (d := d) (L.erase q)
  rw [Indep, List.length_cons] at h1
  omega

theorem Full.Ok.ineq_ne_zero {f : Full} (h : f.Ok K d) {x : SRow} (hx : x ∈ f.ineqs) : toV K d x.row ≠ 0 := by
  intro h0
  obtain ⟨q, _, hne⟩ := h.min.dual.proper x hx
  have := dot_toV (K := K) (d := d) q x.row
  rw [h0, ← lin_apply, map_zero] at this
  exact hne (by exact_mod_cast this.symm)

/-- the unit vector of the homogenising variable -/
def e0 (K : Type*) [Field K] (n : ℕ) : Fin (n + 1) → K := Pi.single 0 1

theorem linV_e0 (y : Fin (n + 1) → K) : linV (e0 K n) y = y 0 := by
  rw [linV_apply, Finset.sum_eq_single 0]
  · simp [e0]
  · intro j _ hj; simp [e0, hj]
  · intro h; exact absurd (Finset.mem_univ _) h

/-- a row that is non-negative on all points has null coefficients -/
theorem row_of_top {q : Row} (h : ∀ x : Fin n → K, 0 ≤ dot q (hom x)) :
    (0 : K) ≤ ((q.at' 1 : ℤ) : K) ∧ toV K (n + 1) q = ((q.at' 1 : ℤ) : K) • e0 K n := by
  have hx : ∀ x : Fin n → K, dot q (hom x) = ((q.at' 1 : ℤ) : K) + ∑ j : Fin n, ((q.at' (j + 2) : ℤ) : K) * x j := by
    intro x; rw [dot, Fin.sum_univ_succ]; simp [hom, Fin.cons_succ]
  have h0 : (0 : K) ≤ ((q.at' 1 : ℤ) : K) := by have := h 0; rw [hx] at this; simpa using this
  refine ⟨h0, ?_⟩
  funext i
  refine Fin.cases ?_ (fun j => ?_) i
  · simp [toV, e0]
  · have hj : ∀ t : K, 0 ≤ ((q.at' 1 : ℤ) : K) + ((q.at' (j + 2) : ℤ) : K) * t := by
      intro t
      have := h (Pi.single j t)
      rw [hx, Finset.sum_eq_single j] at this
      · simpa using this
      · intro k _ hk; simp [hk]
      · intro h; exact absurd (Finset.mem_univ _) h
    have hz : ((q.at' (j + 2) : ℤ) : K) = 0 := by
      by_contra hne
      have := hj (-(((q.at' 1 : ℤ) : K) + 1) / ((q.at' (j + 2) : ℤ) : K))
      rw [mul_div_cancel₀ _ hne] at this
      linarith
    have e : toV K (n + 1) q j.succ = ((q.at' (j + 2) : ℤ) : K) := by simp [toV]
    rw [e, hz]
    simp [e0]

/-- `pk_is_top` is exact on minimised polyhedra -/
theorem top_iff {f : Full} (h : (Rep.both f).Wf K n) : f.C.length = 1 ↔ ∀ x : Fin n → K, (Rep.both f).γ x := by
  obtain ⟨hok, hpos, y0, hy0, hp0⟩ := h
  have hlen : f.C.length = f.eqs.length + f.ineqs.length := by
    have := congrArg List.length (crows_eq f)
    simpa [Full.crows] using this
  constructor
  · intro h1
    have hE : f.eqs = [] := by
      by_contra hne
      obtain ⟨e, E, he⟩ := List.exists_cons_of_ne_nil hne
      have hI : f.ineqs = [] := by
        rw [he] at hlen
        simp only [List.length_cons] at hlen
        exact List.length_eq_zero_iff.1 (by omega)
      have hm : Sat f.crows (-y0) := by
        intro q hq
        have hz := (hy0 q hq).2 (hok.min.eqs q (by rw [crows_eq, hI] at hq; simpa using hq))
        rw [← lin_apply, map_neg, lin_apply, hz]; simp
      have := hpos _ hm
      rw [Pi.neg_apply] at this
      linarith
    rw [hE, List.length_nil, zero_add, h1] at hlen
    obtain ⟨q, hq⟩ := List.length_eq_one_iff.1 hlen.symm
    have hc : f.crows = [q.row] := by rw [crows_eq, hE, hq]; rfl
    have hst : q.row.at' 0 ≠ 0 := (hok.min.ineqs q (by rw [hq]; simp)).ne'
    have hg : GenM f.crows (e0 K n) := by
      rw [genM_iff_polar]; intro y hy; rw [linV_e0]; exact hpos y hy
    rw [hc] at hg
    have hray : ∃ t : K, 0 ≤ t ∧ e0 K n = t • toV K (n + 1) q.row := by
      have e1 : eqRows [q.row] = [] := by simp [eqRows, hst]
      have e2 : ineqRows [q.row] = [q.row] := by simp [ineqRows, hst]
      rw [GenM, e1, e2] at hg
      refine Gen.le (G := fun y => ∃ t : K, 0 ≤ t ∧ y = t • toV K (n + 1) q.row) ⟨⟨0, le_rfl, by simp⟩, ?_, ?_⟩ (by simp) ?_ hg
      · rintro x y ⟨t, ht, rfl⟩ ⟨s, hs, rfl⟩; exact ⟨t + s, add_nonneg ht hs, (add_smul _ _ _).symm⟩
      · rintro x s hs ⟨t, ht, rfl⟩; exact ⟨s * t, mul_nonneg hs ht, smul_smul _ _ _⟩
      · intro r hr; rw [List.mem_singleton.1 hr]; exact ⟨1, zero_le_one, (one_smul _ _).symm⟩
    obtain ⟨t, ht, e⟩ := hray
    intro x
    change Sat f.crows (hom x)
    rw [hc]
    intro r hr
    rw [List.mem_singleton.1 hr]
    refine ⟨?_, fun h => absurd h hst⟩
    have := linV_e0 (hom x)
    rw [e, linV_smul_left, ← dot_eq_linV, hom_zero] at this
    by_contra hn
    push Not at hn
    have := mul_nonpos_of_nonneg_of_nonpos ht hn.le
    linarith
  · intro hall
    have hrow : ∀ q ∈ f.crows, (0 : K) ≤ ((q.at' 1 : ℤ) : K) ∧ toV K (n + 1) q = ((q.at' 1 : ℤ) : K) • e0 K n :=
      fun q hq => row_of_top fun x => (hall x q hq).1
    have hE : f.eqs = [] := by
      by_contra hne
      obtain ⟨e, he⟩ := List.exists_mem_of_ne_nil _ hne
      have hm : e ∈ f.crows := by rw [crows_eq]; exact List.mem_append_left _ he
      have hz := (hy0 e hm).2 (hok.min.eqs e he)
      rw [dot_eq_linV, (hrow e hm).2, linV_smul_left, linV_e0] at hz
      have hc : ((e.at' 1 : ℤ) : K) = 0 := (mul_eq_zero.1 hz).resolve_right hp0.ne'
      exact hok.indE.ne_zero he (by rw [(hrow e hm).2, hc, zero_smul])
    have hI : ∀ x ∈ f.ineqs, (0 : K) < ((x.row.at' 1 : ℤ) : K) := by
      intro x hx
      have hm : x.row ∈ f.crows := by rw [crows_eq]; exact List.mem_append_right _ (List.mem_map_of_mem hx)
      refine lt_of_le_of_ne (hrow _ hm).1 fun h0 => hok.ineq_ne_zero hx ?_
      rw [(hrow _ hm).2, ← h0, zero_smul]
    have hne : f.ineqs ≠ [] := by
      intro hn
      have : Sat f.crows (-y0) := by rw [crows_eq, hE, hn]; exact Sat.nil _
      have := hpos _ this
      rw [Pi.neg_apply] at this
      linarith
    rw [hlen, hE, List.length_nil, zero_add]
    cases hi : f.ineqs with
    | nil => exact absurd hi hne
    | cons a l =>
      cases l with
      | nil => rfl
      | cons b l =>
        exfalso
        have hirr := hok.min.dual.irredundant 0 (by rw [hi]; simp)
        apply hirr
        simp only [hi, List.eraseIdx_zero, List.tail_cons, List.getElem_cons_zero]
        have ha : a ∈ f.ineqs := by rw [hi]; simp
        have hb : b ∈ f.ineqs := by rw [hi]; simp
        have ma : a.row ∈ f.crows := by rw [crows_eq]; exact List.mem_append_right _ (List.mem_map_of_mem ha)
        have mb : b.row ∈ f.crows := by rw [crows_eq]; exact List.mem_append_right _ (List.mem_map_of_mem hb)
        have e : toV K (n + 1) a.row = (((a.row.at' 1 : ℤ) : K) / ((b.row.at' 1 : ℤ) : K)) • toV K (n + 1) b.row := by
          rw [(hrow _ ma).2, (hrow _ mb).2, smul_smul, div_mul_cancel₀ _ (hI b hb).ne']
        rw [e]
        exact (Gen.of_ray (by simp)).smul (div_nonneg (hI a ha).le (hI b hb).le)

/-- `pk_is_top` -/
theorem isTop_iff {r : Rep} (h : r.Wf K n) {alg : ℤ} (ha : 0 ≤ alg) : r.isTop n alg = true ↔ ∀ x : Fin n → K, r.γ x := by
  rw [Rep.isTop, if_pos ha]
  rcases chernikova_shape n r with e | ⟨f, e⟩
  · rw [e]
    refine ⟨fun h => (Bool.false_ne_true h).elim, fun hall => ?_⟩
    have := (chernikova_γ h 0).2 (hall 0)
    rw [e] at this; exact this.elim
  · have hw := chernikova_wf h
    rw [e] at hw
    have := top_iff hw
    rw [e]
    dsimp only
    rw [beq_iff_eq, this]
    exact forall_congr' fun x => by rw [← chernikova_γ h, e]

theorem isTop_sound {r : Rep} (h : r.Wf K n) {alg : ℤ} (ht : r.isTop n alg = true) (x : Fin n → K) : r.γ x := by
  by_cases ha : 0 ≤ alg
  · exact (isTop_iff h ha).1 ht x
  · rw [Rep.isTop, if_neg ha] at ht
    cases r with
    | both f => exact (top_iff h).1 (by simpa using ht) x
    | _ => cases ht

end Apron.Poly
