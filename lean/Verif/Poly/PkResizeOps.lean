import Verif.Poly.PkResizeLemmas

/-!
# Polyhedra: addition, removal and permutation of dimensions
-/

set_option autoImplicit false
set_option linter.unusedSectionVars false
set_option linter.ambiguousOpen false

namespace Apron.Poly

open Oct

variable {K : Type*} [LinearOrder K] [Field K] [IsStrictOrderedRing K] {n m d d' : ℕ}

section
variable {σ : Fin d → Fin d'} {T : Row → Row} {U : List Row} (hσ : Function.Injective σ) (hT : ∀ q, Emb σ q (T q)) (hU : Units σ U)
include hσ hT hU

/-- both matrices with new columns -/
theorem Full.Ok.emb {f g : Full} (h : f.Ok K d) (hC : g.C = f.C.map fun x => ⟨T x.row, x.sat <<< U.length⟩)
    (hF : g.F = (U.map fun q => (⟨q, 0⟩ : SRow)) ++ f.F.map fun x => ⟨T x.row, x.sat⟩) (he : g.nbeq = f.nbeq)
    (hl : g.nbline = U.length + f.nbline) : g.Ok K d' := by
  have e1 : g.eqs = f.eqs.map T := by
    rw [Full.eqs, Full.eqs, hC, he, ← List.map_take, List.map_map, List.map_map]; rfl
  have e2 : g.ineqs = f.ineqs.map fun x => ⟨T x.row, x.sat <<< U.length⟩ := by
    rw [Full.ineqs, Full.ineqs, hC, he, List.map_drop]
  have hlen : (U.map fun q => (⟨q, 0⟩ : SRow)).length = U.length := by simp
  have e3 : g.lines = U ++ f.lines.map T := by
    rw [Full.lines, Full.lines, hF, hl, ← hlen, List.take_length_add_append, List.map_append, ← List.map_take, List.map_map, List.map_map,
      List.map_map]
    congr 1
    exact List.map_id _
  have e4 : g.rays = f.rays.map fun x => ⟨T x.row, x.sat⟩ := by
    rw [Full.rays, Full.rays, hF, hl, ← hlen, List.drop_length_add_append, List.map_drop]
  refine ⟨?_, ?_, ?_, ?_, ?_⟩
  · rw [he, hC, List.length_map]; exact h.leq
  · rw [hl, hF, List.length_append, List.length_map, List.length_map]; have := h.lel; omega
  · rw [e1, e2, e3, e4]; exact h.min.emb hσ hT hU
  · rw [e1]; exact h.indE.emb hσ hT
  · rw [e3]; exact h.indL.embUnits hσ hT hU

theorem genM_embUnits (F : List Row) (y : Fin d' → K) : GenM (U ++ F.map T) y ↔ GenM F (y ∘ σ) := by
  rw [genM_append_iff]
  constructor
  · rintro ⟨u, v, hu, hv, rfl⟩
    obtain ⟨w, hw, rfl⟩ := (genM_emb hσ hT F v).1 hv
    have hz : ∀ j, u (σ j) = 0 := by
      intro j
      refine Gen.le (G := fun u => u (σ j) = 0) ⟨rfl, fun h1 h2 => by rw [Pi.add_apply, h1, h2, add_zero], fun _ h => by
        rw [Pi.smul_apply, h, smul_zero]⟩ (fun q hq => ?_) (fun q hq => ?_) hu
      · rw [eqRows, List.mem_filter] at hq
        obtain ⟨i, hi, e⟩ := hU.unit q hq.1
        have : toV K d' q (σ j) = 0 := by
          rw [unit_toV e, Pi.single_apply, if_neg]
          rintro rfl; exact hi ⟨j, rfl⟩
        rw [Pi.neg_apply, this, neg_zero]; exact ⟨rfl, rfl⟩
      · rw [ineqRows, List.mem_filter] at hq
        have := hq.2
        rw [hU.status q hq.1] at this
        simp at this
    have : (u + extL K σ w) ∘ σ = w := by
      funext j
      rw [Function.comp_apply, Pi.add_apply, hz, zero_add, extL_at hσ]
    rw [this]; exact hw
  · intro h
    refine ⟨y - extL K σ (y ∘ σ), extL K σ (y ∘ σ), ?_, (genM_emb hσ hT F _).2 ⟨_, h, rfl⟩, by rw [sub_add_cancel]⟩
    have e1 : eqRows U = U := by
      rw [eqRows, List.filter_eq_self]; intro q hq; simp [hU.status q hq]
    have hg : Gen (U ++ []) (ineqRows U) (y - extL K σ (y ∘ σ)) :=
      gen_units hσ hT hU _ fun j => by rw [Pi.sub_apply, extL_at hσ]; simp
    rw [List.append_nil] at hg
    change Gen (eqRows U) _ _
    rw [e1]; exact hg

end

theorem crows_map {f g : Full} {T : Row → Row} {s : SRow → ℕ} (hC : g.C = f.C.map fun x => ⟨T x.row, s x⟩) : g.crows = f.crows.map T := by
  rw [Full.crows, Full.crows, hC, List.map_map, List.map_map]; rfl

theorem hom_addIdx (pos : List ℕ) (x : ℕ → K) :
    (hom (fun i : Fin (n + pos.length) => x i)) ∘ addIdx n pos = hom fun v : Fin n => x (v + cntLe pos v) := by
  funext j
  refine Fin.cases ?_ (fun v => ?_) j <;> rfl

section
variable {pos : List ℕ} (hs : pos.Pairwise (· ≤ ·)) (hlt : ∀ q ∈ pos, q ≤ n)
include hs hlt

/-- `cherni_add_dimensions`: the new dimensions are free -/
theorem cherniAdd_spec (destr : Bool) {r : Rep} (hr : r.Wf K n) (hne : pos ≠ []) :
    ∃ r', Rep.cherniAdd destr n pos r = some r' ∧ r'.Wf K (n + pos.length) ∧
      ∀ y : Fin (n + pos.length + 1) → K, r'.cone y ↔ r.cone (y ∘ addIdx n pos) := by
  have hσ := addIdx_inj n pos
  have hT := addRow_emb destr hs hlt
  have hU := newLines_units hs hlt
  have hlen := newLines_len hs hlt
  have wf : ∀ (r' : Rep), (∀ y : Fin (n + pos.length + 1) → K, r'.cone y ↔ r.cone (y ∘ addIdx n pos)) →
      PosCone (K := K) (n := n + pos.length) r'.cone ∧ (r.F? ≠ none → NonEmpty (K := K) (n := n + pos.length) r'.cone) := by
    intro r' h
    refine ⟨fun y hy => hr.pos _ ((h y).1 hy), fun hF => ?_⟩
    obtain ⟨u, hu, hpos⟩ := hr.nonEmpty hF
    refine ⟨extL K (addIdx n pos) u, (h _).2 (by rw [extL_comp hσ]; exact hu), ?_⟩
    have := extL_at hσ u 0
    rw [show addIdx n pos 0 = 0 from rfl] at this
    rw [this]; exact hpos
  cases r with
  | bot => exact ⟨.bot, rfl, trivial, fun y => Iff.rfl⟩
  | cons C =>
    have h : ∀ y : Fin (n + pos.length + 1) → K, (Rep.cons (C.map (addRow destr n pos))).cone y ↔ (Rep.cons C).cone (y ∘ addIdx n pos) :=
      fun y => sat_emb hσ hT C y
    exact ⟨_, rfl, (wf _ h).1, h⟩
  | gens F =>
    have h : ∀ y : Fin (n + pos.length + 1) → K, (Rep.gens (newLines n pos ++ F.map (addRow destr n pos))).cone y ↔
        (Rep.gens F).cone (y ∘ addIdx n pos) := fun y => genM_embUnits hσ hT hU F y
    rw [Rep.cherniAdd, if_neg hne]
    exact ⟨_, rfl, ⟨(wf _ h).1, (wf _ h).2 (by simp [Rep.F?])⟩, h⟩
  | both f =>
    rw [Rep.cherniAdd, if_neg (fun h => hne h.1)]
    dsimp only
    refine ⟨_, rfl, ?_⟩
    generalize hg : (Full.mk _ _ _ _ _ _ _ _) = g
    have hok : g.Ok K (n + pos.length + 1) := by
      refine Full.Ok.emb hσ hT hU hr.1 ?_ ?_ ?_ ?_ <;> rw [← hg]
      · rw [hlen]
      · rw [hlen, add_comm]
    have h : ∀ y : Fin (n + pos.length + 1) → K, (Rep.both g).cone y ↔ (Rep.both f).cone (y ∘ addIdx n pos) := fun y => by
      change Sat g.crows y ↔ Sat f.crows _
      rw [crows_map (f := f) (T := addRow destr n pos) (s := fun x => x.sat <<< pos.length) (by rw [← hg]), sat_emb hσ hT]
    exact ⟨⟨hok, (wf _ h).1, (wf _ h).2 (by simp [Rep.F?])⟩, h⟩

/-- `cherni_add_dimensions` on the dual: the new dimensions are null -/
theorem cherniAdd_dual (destr : Bool) {r : Rep} (hr : r.Wf K n) (hne : pos ≠ []) :
    ∃ r', (Rep.cherniAdd destr n pos r.dual).map Rep.dual = some r' ∧ r'.Wf K (n + pos.length) ∧
      ∀ y : Fin (n + pos.length + 1) → K, r'.cone y ↔ (∀ i, i ∉ Set.range (addIdx n pos) → y i = 0) ∧ r.cone (y ∘ addIdx n pos) := by
  have hσ := addIdx_inj n pos
  have hT := addRow_emb destr hs hlt
  have hU := newLines_units hs hlt
  have hlen := newLines_len hs hlt
  have wf : ∀ (r' : Rep), (∀ y : Fin (n + pos.length + 1) → K, r'.cone y ↔
      (∀ i, i ∉ Set.range (addIdx n pos) → y i = 0) ∧ r.cone (y ∘ addIdx n pos)) →
      PosCone (K := K) (n := n + pos.length) r'.cone ∧ (r.F? ≠ none → NonEmpty (K := K) (n := n + pos.length) r'.cone) := by
    intro r' h
    refine ⟨fun y hy => hr.pos _ ((h y).1 hy).2, fun hF => ?_⟩
    obtain ⟨u, hu, hpos⟩ := hr.nonEmpty hF
    refine ⟨extL K (addIdx n pos) u, (h _).2 ⟨fun i hi => extL_out _ hi, by rw [extL_comp hσ]; exact hu⟩, ?_⟩
    have := extL_at hσ u 0
    rw [show addIdx n pos 0 = 0 from rfl] at this
    rw [this]; exact hpos
  have hsat : ∀ (C : List Row) (y : Fin (n + pos.length + 1) → K), Sat (newLines n pos ++ C.map (addRow destr n pos)) y ↔
      (∀ i, i ∉ Set.range (addIdx n pos) → y i = 0) ∧ Sat C (y ∘ addIdx n pos) := fun C y => by
    rw [Sat.append, sat_units hσ hT hU, sat_emb hσ hT]
  cases r with
  | bot => exact ⟨.bot, rfl, trivial, fun y => ⟨fun h => False.elim h, fun h => False.elim h.2⟩⟩
  | cons C =>
    refine ⟨_, by simp only [Rep.dual, Rep.cherniAdd, if_neg hne, Option.map_some]; rfl, ?_⟩
    have h : ∀ y : Fin (n + pos.length + 1) → K, (Rep.cons (newLines n pos ++ C.map (addRow destr n pos))).cone y ↔
        (∀ i, i ∉ Set.range (addIdx n pos) → y i = 0) ∧ (Rep.cons C).cone (y ∘ addIdx n pos) := hsat C
    exact ⟨(wf _ h).1, h⟩
  | gens F =>
    refine ⟨_, by simp only [Rep.dual, Rep.cherniAdd, Option.map_some]; rfl, ?_⟩
    have h : ∀ y : Fin (n + pos.length + 1) → K, (Rep.gens (F.map (addRow destr n pos))).cone y ↔
        (∀ i, i ∉ Set.range (addIdx n pos) → y i = 0) ∧ (Rep.gens F).cone (y ∘ addIdx n pos) := fun y => by
      refine (genM_emb hσ hT F y).trans ⟨?_, ?_⟩
      · rintro ⟨u, hu, rfl⟩
        exact ⟨fun i hi => extL_out _ hi, by rw [extL_comp hσ]; exact hu⟩
      · rintro ⟨h1, h2⟩
        refine ⟨_, h2, ?_⟩
        funext i
        by_cases hi : i ∈ Set.range (addIdx n pos)
        · obtain ⟨j, rfl⟩ := hi; rw [extL_at hσ]; rfl
        · rw [extL_out _ hi, h1 i hi]
    exact ⟨⟨(wf _ h).1, (wf _ h).2 (by simp [Rep.F?])⟩, h⟩
  | both f =>
    simp only [Rep.dual]
    rw [Rep.cherniAdd, if_neg (fun h => hne h.1)]
    dsimp only
    rw [Option.map_some]
    refine ⟨_, rfl, ?_⟩
    generalize hg : (Full.mk _ _ _ _ _ _ _ _) = g
    have hok : g.Ok K (n + pos.length + 1) := by
      refine Full.Ok.emb hσ hT hU hr.1.dual ?_ ?_ ?_ ?_ <;> rw [← hg]
      · rw [hlen]
      · rw [hlen, add_comm]
    have h : ∀ y : Fin (n + pos.length + 1) → K, (Rep.both g).dual.cone y ↔
        (∀ i, i ∉ Set.range (addIdx n pos) → y i = 0) ∧ (Rep.both f).cone (y ∘ addIdx n pos) := fun y => by
      change Sat g.frows y ↔ _ ∧ Sat f.crows _
      rw [← hsat]
      have : g.frows = newLines n pos ++ f.crows.map (addRow destr n pos) := by
        rw [← hg, Full.frows, Full.crows, Full.dual]
        simp [List.map_map, Function.comp_def]
      rw [this]
    exact ⟨⟨hok.dual, (wf _ h).1, (wf _ h).2 (by simp [Rep.F?])⟩, h⟩

/-- `pk_add_dimensions` -/
theorem addDimensions_spec (destr : Bool) (alg : ℤ) {pa : Rep} (ha : pa.Wf K n) (hne : pos ≠ []) (project : Bool) :
    ∃ r, Rep.addDimensions destr n alg pa pos project = some r ∧ r.Wf K (n + pos.length) ∧
      ∀ x : ℕ → K, r.γ (fun i : Fin (n + pos.length) => x i) ↔
        pa.γ (fun v : Fin n => x (v + cntLe pos v)) ∧ (project = true → ∀ k, k < pos.length → x (pos.getD k 0 + k) = 0) := by
  have hp : (if 0 < alg then pa.chernikova n else pa).Wf K n ∧
      ∀ x : Fin n → K, (if 0 < alg then pa.chernikova n else pa).γ x ↔ pa.γ x := by
    split_ifs
    · exact ⟨chernikova_wf ha, chernikova_γ ha⟩
    · exact ⟨ha, fun _ => Iff.rfl⟩
  rw [Rep.addDimensions]
  generalize (if 0 < alg then pa.chernikova n else pa) = p at hp
  obtain ⟨hw, hγ⟩ := hp
  by_cases hb : p = .bot
  · rw [if_pos hb]
    refine ⟨.bot, rfl, trivial, fun x => ⟨fun h => False.elim h, fun h => ?_⟩⟩
    rw [← hγ, hb] at h
    exact False.elim h.1
  · rw [if_neg hb]
    cases project with
    | true =>
      simp only [if_true, true_implies]
      obtain ⟨r, h1, h2, h3⟩ := cherniAdd_dual hs hlt destr hw hne
      refine ⟨r, h1, h2, fun x => ?_⟩
      rw [Rep.γ, h3, hom_addIdx, ← hγ, Rep.γ, and_comm]
      refine and_congr Iff.rfl ⟨fun h k hk => ?_, fun h i hi => ?_⟩
      · have hb := hlt _ (Box.getD_mem hk)
        exact h ⟨pos.getD k 0 + k + 1, by omega⟩ ((addIdx_range hs hlt _).2 ⟨k, hk, rfl⟩)
      · obtain ⟨k, hk, e⟩ := (addIdx_range hs hlt i).1 hi
        have hb := hlt _ (Box.getD_mem hk)
        have : i = (⟨pos.getD k 0 + k, by omega⟩ : Fin (n + pos.length)).succ := Fin.ext e
        rw [this]
        exact h k hk
    | false =>
      simp only [Bool.false_eq_true, if_false, false_implies, and_true]
      obtain ⟨r, h1, h2, h3⟩ := cherniAdd_spec hs hlt destr hw hne
      refine ⟨r, h1, h2, fun x => ?_⟩
      rw [Rep.γ, h3, hom_addIdx, ← hγ, Rep.γ]

end

/-- an index map extended to the column of the constants -/
def liftIdx (f : Fin m → Fin n) : Fin (m + 1) → Fin (n + 1) := Fin.cases 0 fun j => (f j).succ

/-! ## Removal -/

section
variable {pos : List ℕ} (hs : pos.Pairwise (· < ·)) (hlt : ∀ q ∈ pos, q < n)
include hs hlt

theorem remRow_spec (destr : Bool) (ρ : Fin (n - pos.length) → Fin n) (hρ : ∀ j : Fin (n - pos.length), src false 1 n pos j = some (ρ j : ℕ)) (q : Row) :
    (remRow destr n pos q).at' 0 = q.at' 0 ∧ ∃ t : K, 0 < t ∧ toV K (n - pos.length + 1) (remRow destr n pos q) =
      t • LinearMap.funLeft K K (liftIdx ρ)
        (toV K (n + 1) q) := by
  have hl := rem_len hs hlt
  have hloop : ∀ j : Fin (n - pos.length), Box.remLoop destr (fun i => q.at' (i + 2)) pos (n - pos.length) 0 0
      (if destr then fun i => q.at' (i + 2) else fun _ => 0) j = q.at' (ρ j + 2) := by
    intro j
    obtain ⟨w, h1, h2, h3⟩ := Box.remLoop_spec hs destr (fun i => q.at' (i + 2)) (n - pos.length) 0 0
      (if destr then fun i => q.at' (i + 2) else fun _ => 0) (by omega) (by omega) (by omega) (by omega)
      (fun h _ _ => by rw [h]; rfl) j (by have := j.2; omega)
    have hw : src false 1 n pos j = some w := by
      rw [src_rem hs]
      refine ⟨?_, h1, h2⟩
      have : cntLt pos w ≤ pos.length := by unfold cntLt; exact List.length_filter_le _ _
      have := j.2
      omega
    rw [hρ j] at hw; cases hw
    exact h3
  rw [remRow]
  generalize hR : (Row.ofFun (n - pos.length + 2) fun j =>
    if j < 2 then q.at' j
    else Box.remLoop destr (fun i => q.at' (i + 2)) pos (n - pos.length) 0 0
      (if destr then fun i => q.at' (i + 2) else fun _ => 0) (j - 2)) = R
  obtain ⟨h0, g, hg, hj⟩ := normalize_spec R (n - pos.length + 2) (fun j hj => by rw [← hR, at_ofFun, if_neg (by omega)])
  have hg' : (0 : K) < g := by exact_mod_cast hg
  refine ⟨by rw [h0, ← hR, at_ofFun, if_pos (by omega), if_pos (by omega)], (g : K)⁻¹, inv_pos.2 hg', ?_⟩
  funext i
  have e2 : (g : K) * ((normalize R (n - pos.length + 2)).at' (i + 1) : ℤ) = (R.at' (i + 1) : ℤ) := by exact_mod_cast hj i
  rw [Pi.smul_apply, smul_eq_mul, toV, eq_inv_mul_iff_mul_eq₀ hg'.ne', e2, ← hR, at_ofFun, if_pos (by omega)]
  refine Fin.cases ?_ (fun j => ?_) i
  · rw [if_pos (by simp)]; rfl
  · rw [if_neg (by simp), show ((j.succ : Fin _) : ℕ) + 1 - 2 = j by simp, hloop j]; rfl

/-- `pk_remove_dimensions` -/
theorem removeDimensions_spec (destr : Bool) (alg : ℤ) {pa : Rep} (ha : pa.Wf K n) :
    (Rep.removeDimensions destr n alg pa pos).Wf K (n - pos.length) ∧
      ∀ x' : ℕ → K, (Rep.removeDimensions destr n alg pa pos).γ (fun i : Fin (n - pos.length) => x' i) ↔
        ∃ x : ℕ → K, pa.γ (fun i : Fin n => x i) ∧ ∀ v, v < n → v ∉ pos → x' (v - cntLt pos v) = x v := by
  have hprep : (pa.prepF n alg) = (if !decide (0 < alg) then pa.obtainF n else pa.chernikova n) := by
    rw [Rep.prepF]; by_cases h : 0 < alg <;> simp [h]
  obtain ⟨hw, hγ, _, hnone⟩ := prep_cases (lzy := !decide (0 < alg)) ha
  rw [← hprep] at hw hγ hnone
  rw [Rep.removeDimensions]
  generalize pa.prepF n alg = p at hw hγ hnone
  cases hF : p.F? with
  | none =>
    refine ⟨trivial, fun x' => ⟨fun h => False.elim h, ?_⟩⟩
    rintro ⟨x, hx, _⟩
    exact False.elim (hnone hF _ hx)
  | some F =>
    dsimp only
    have hρ' : ∀ j : Fin (n - pos.length), ∃ v : Fin n, src false 1 n pos j = some (v : ℕ) := fun j => by
      obtain ⟨v, hv⟩ := src_rem_cover hs hlt j.2
      exact ⟨⟨v, ((src_rem hs).1 hv).1⟩, hv⟩
    choose ρ hρ using hρ'
    obtain ⟨h1, h2⟩ := gens_image (m := n - pos.length) hw hF (T := remRow destr n pos)
      (LinearMap.funLeft K K (liftIdx ρ)) (fun u => rfl)
      (fun q _ => by rw [(remRow_spec (K := K) hs hlt destr ρ hρ q).1]) (fun q _ => (remRow_spec hs hlt destr ρ hρ q).2)
    have h3 : ∀ x' : ℕ → K, (Rep.gens (F.map (remRow destr n pos))).γ (fun i : Fin (n - pos.length) => x' i) ↔
        ∃ x : ℕ → K, pa.γ (fun i : Fin n => x i) ∧ ∀ v, v < n → v ∉ pos → x' (v - cntLt pos v) = x v := by
      intro x'
      rw [h2]
      constructor
      · rintro ⟨x0, hx0, e⟩
        refine ⟨fun i => if h : i < n then x0 ⟨i, h⟩ else 0, ?_, fun v hv hnm => ?_⟩
        · have : (fun i : Fin n => if h : (i : ℕ) < n then x0 ⟨i, h⟩ else 0) = x0 := by funext i; simp
          rw [this]; exact (hγ x0).1 hx0
        · have hc := Box.cntLt_le hs v
          have hsrc : src false 1 n pos (v - cntLt pos v) = some v := (src_rem hs).2 ⟨hv, hnm, by omega⟩
          have hlt' := (src_rem_legal hs hlt _ _ hsrc).1
          have h4 : x' (v - cntLt pos v) = x0 (ρ ⟨v - cntLt pos v, hlt'⟩) :=
            congrFun e (⟨v - cntLt pos v, hlt'⟩ : Fin (n - pos.length)).succ
          have h5 := hρ ⟨v - cntLt pos v, hlt'⟩
          rw [hsrc] at h5
          have h6 : ρ ⟨v - cntLt pos v, hlt'⟩ = ⟨v, hv⟩ := Fin.ext (by simpa using h5.symm)
          rw [h4, h6]; simp only [dif_pos hv]
      · rintro ⟨x, hx, hk⟩
        refine ⟨fun i => x i, (hγ _).2 hx, ?_⟩
        funext i
        refine Fin.cases rfl (fun j => ?_) i
        change x' j = x (ρ j)
        obtain ⟨g1, g2, g3⟩ := (src_rem hs).1 (hρ j)
        rw [← hk (ρ j) g1 g2]
        congr 1
        omega
    split_ifs
    · exact ⟨chernikova_wf h1, fun x' => by rw [← h3 x']; exact chernikova_γ h1 _⟩
    · exact ⟨h1, h3⟩

end

/-! ## Permutation -/

section
variable {perm : ℕ → ℕ} (hp : ∀ i, i < n → perm i < n) (hinj : ∀ i j, i < n → j < n → perm i = perm j → i = j)
include hp hinj

theorem permRow_emb (q : Row) :
    Emb (liftIdx fun v : Fin n => (⟨perm v, hp v v.2⟩ : Fin n)) q (permRow n perm q) := by
  have hit : ∀ i, i < n → (List.range n).foldl (fun (r : ℕ → ℤ) i => Function.update r (perm i) (q.at' (i + 2))) (fun _ => 0) (perm i) =
      q.at' (i + 2) := fun i hi =>
    Box.foldl_update_hit (f := perm) (g := fun i => q.at' (i + 2)) _ _ i (List.mem_range.2 hi) fun j hj e => by
      rw [hinj j i (List.mem_range.1 hj) hi e]
  refine ⟨by rw [permRow, at_ofFun, if_pos (by omega), if_pos (by omega)], fun j => ?_, fun i hi => ?_⟩
  · refine Fin.cases ?_ (fun v => ?_) j
    · change (permRow n perm q).at' 1 = q.at' 1
      rw [permRow, at_ofFun, if_pos (by omega), if_pos (by omega)]
    · change (permRow n perm q).at' (perm v + 1 + 1) = q.at' (v + 1 + 1)
      have := hp v v.2
      rw [permRow, at_ofFun, if_pos (by omega), if_neg (by omega), show perm v + 1 + 1 - 2 = perm v by omega, hit v v.2]
  · exfalso
    revert hi
    refine Fin.cases (fun h => h ⟨0, rfl⟩) (fun w h => ?_) i
    obtain ⟨v, hv, e⟩ := Box.perm_surj hinj hp w.2
    refine h ⟨(⟨v, hv⟩ : Fin n).succ, ?_⟩
    change (⟨perm v, hp v hv⟩ : Fin n).succ = w.succ
    congr 1
    exact Fin.ext e

/-- `pk_permute_dimensions` -/
theorem permuteDimensions_spec (alg : ℤ) {pa : Rep} (ha : pa.Wf K n) :
    (Rep.permuteDimensions n alg pa perm).Wf K n ∧
      ∀ x : ℕ → K, (Rep.permuteDimensions n alg pa perm).γ (fun i : Fin n => x i) ↔ pa.γ (fun v : Fin n => x (perm v)) := by
  have hpp : (if 0 < alg then pa.chernikova n else pa).Wf K n ∧
      ∀ x : Fin n → K, (if 0 < alg then pa.chernikova n else pa).γ x ↔ pa.γ x := by
    split_ifs
    · exact ⟨chernikova_wf ha, chernikova_γ ha⟩
    · exact ⟨ha, fun _ => Iff.rfl⟩
  rw [Rep.permuteDimensions]
  generalize (if 0 < alg then pa.chernikova n else pa) = p at hpp
  obtain ⟨hw, hγ⟩ := hpp
  have hT := permRow_emb hp hinj
  generalize hσe : (liftIdx fun v : Fin n => (⟨perm v, hp v v.2⟩ : Fin n)) = σ at hT
  have hσ0 : σ 0 = 0 := by rw [← hσe]; rfl
  have hσ : Function.Injective σ := by
    intro i j
    rw [← hσe]
    refine Fin.cases ?_ (fun v => ?_) i <;> refine Fin.cases ?_ (fun w => ?_) j
    · exact fun _ => rfl
    · intro h; exact absurd (congrArg Fin.val h) (by simp [liftIdx])
    · intro h; exact absurd (congrArg Fin.val h) (by simp [liftIdx])
    · intro h
      have h1 : perm v = perm w := Nat.succ_injective (congrArg Fin.val h)
      rw [Fin.ext (hinj v w v.2 w.2 h1)]
  have hσs : Function.Surjective σ := Finite.injective_iff_surjective.1 hσ
  have hU : Units σ [] := ⟨by simp, by simp, fun i hi => absurd (hσs i) hi, by simp⟩
  have hom' : ∀ x : ℕ → K, hom (fun i : Fin n => x i) ∘ σ = hom fun v : Fin n => x (perm v) := by
    intro x
    funext j
    rw [← hσe]
    refine Fin.cases rfl (fun v => rfl) j
  suffices h : ∀ r' : Rep, (∀ y : Fin (n + 1) → K, r'.cone y ↔ p.cone (y ∘ σ)) →
      (PosCone (K := K) (n := n) r'.cone ∧ (p.F? ≠ none → NonEmpty (K := K) (n := n) r'.cone)) ∧
      ∀ x : ℕ → K, r'.γ (fun i : Fin n => x i) ↔ pa.γ (fun v : Fin n => x (perm v)) by
    cases p with
    | bot =>
      refine ⟨trivial, fun x => ⟨fun h => False.elim h, fun h => False.elim ((hγ _).2 h)⟩⟩
    | cons C =>
      obtain ⟨h1, h2⟩ := h (Rep.cons (C.map (permRow n perm))) (fun y => sat_emb hσ hT C y)
      exact ⟨h1.1, h2⟩
    | gens F =>
      obtain ⟨h1, h2⟩ := h (Rep.gens (F.map (permRow n perm))) (fun y => by
        have := genM_embUnits hσ hT hU F y
        rwa [List.nil_append] at this)
      exact ⟨⟨h1.1, h1.2 (by simp [Rep.F?])⟩, h2⟩
    | both f =>
      dsimp only
      generalize hg : (Full.mk _ _ _ _ _ _ _ _) = g
      have hok : g.Ok K (n + 1) := by
        refine Full.Ok.emb hσ hT hU hw.1 ?_ ?_ ?_ ?_ <;> rw [← hg] <;> simp
      obtain ⟨h1, h2⟩ := h (Rep.both g) (fun y => by
        change Sat g.crows y ↔ Sat f.crows _
        rw [crows_map (f := f) (T := permRow n perm) (s := fun x => x.sat) (by rw [← hg]), sat_emb hσ hT])
      exact ⟨⟨hok, h1.1, h1.2 (by simp [Rep.F?])⟩, h2⟩
  intro r' h
  refine ⟨⟨fun y hy => ?_, fun hF => ?_⟩, fun x => ?_⟩
  · have := hw.pos _ ((h y).1 hy)
    rwa [Function.comp_apply, hσ0] at this
  · obtain ⟨u, hu, hpos⟩ := hw.nonEmpty hF
    refine ⟨extL K σ u, (h _).2 (by rw [extL_comp hσ]; exact hu), ?_⟩
    have := extL_at hσ u 0
    rw [hσ0] at this
    rw [this]; exact hpos
  · rw [Rep.γ, h, hom', ← hγ, Rep.γ]

end

section
variable {pos pos' : List ℕ} (hs : pos.Pairwise (· ≤ ·))
include hs

/-- the inserted positions below the image of `v` are exactly the first `cntLe pos v` ones -/
theorem cntLt_inserted (hs' : pos'.Pairwise (· < ·)) (hpos' : ∀ v, v ∈ pos' ↔ ∃ k, k < pos.length ∧ v = pos.getD k 0 + k) (v : ℕ) :
    cntLt pos' (v + cntLe pos v) = cntLe pos v := by
  -- the inserted positions below the image of `v` are exactly the first `cntLe pos v` ones
  have hnd : pos'.Nodup := hs'.imp (fun h => Nat.ne_of_lt h)
  have hperm : (pos'.filter fun p => decide (p < v + cntLe pos v)).Perm
      ((List.range (cntLe pos v)).map fun k => pos.getD k 0 + k) := by
    have hmono : ∀ k k', k < k' → k' < pos.length → pos.getD k 0 ≤ pos.getD k' 0 := by
      intro k k' h1 h2
      rw [List.getD, List.getD, List.getElem?_eq_getElem h2, List.getElem?_eq_getElem (h1.trans h2)]
      exact List.pairwise_iff_getElem.1 hs k k' (h1.trans h2) h2 h1
    rw [List.perm_ext_iff_of_nodup (hnd.filter _)]
    · intro w
      simp only [List.mem_filter, decide_eq_true_eq, List.mem_map, List.mem_range, hpos']
      constructor
      · rintro ⟨⟨k, hk, rfl⟩, hlt2⟩
        refine ⟨k, ?_, rfl⟩
        by_contra hge
        by_cases hle : pos.getD k 0 ≤ v
        · have := cntLe_ge_of hs hk hle; omega
        · omega
      · rintro ⟨k, hk, rfl⟩
        have hkl : k < pos.length := lt_of_lt_of_le hk (cntLe_le v)
        refine ⟨⟨k, hkl, rfl⟩, ?_⟩
        by_cases hle : pos.getD k 0 ≤ v
        · omega
        · have := cntLe_lt_of hs hkl (Nat.lt_of_not_le hle); omega
    · rw [List.nodup_map_iff_inj_on List.nodup_range]
      intro k hk k' hk' e
      rw [List.mem_range] at hk hk'
      have h1 : k < pos.length := lt_of_lt_of_le hk (cntLe_le v)
      have h2 : k' < pos.length := lt_of_lt_of_le hk' (cntLe_le v)
      rcases Nat.lt_trichotomy k k' with h | h | h
      · have := hmono k k' h h2; omega
      · exact h
      · have := hmono k' k h h1; omega
  unfold cntLt
  rw [hperm.length_eq]; simp

theorem src_add_inserted (hlt : ∀ q ∈ pos, q ≤ n) (hpos' : ∀ v, v ∈ pos' ↔ ∃ k, k < pos.length ∧ v = pos.getD k 0 + k) :
    ∀ v', v' < n + pos.length → (src true 1 n pos v' = none ↔ v' ∈ pos') := by
  intro v' hv'
  rw [src_add_none hs hlt (by omega), hpos']
  constructor
  · rintro ⟨k, s, h1, h2, h3⟩; exact ⟨k, h1, by omega⟩
  · rintro ⟨k, h1, h2⟩; exact ⟨k, 0, h1, by omega, by omega⟩

end

end Apron.Poly
