import Verif.Poly.PkMap
import Verif.Poly.PkResize
import Verif.Box.ResizeLemmas

/-!
# Polyhedra: lemmas on projection, addition, removal and permutation of dimensions
-/

set_option autoImplicit false
set_option linter.unusedSectionVars false
set_option linter.ambiguousOpen false

namespace Apron.Poly

open Oct

variable {K : Type*} [LinearOrder K] [Field K] [IsStrictOrderedRing K] {n m : ℕ}

/-! ## Images of generators -/

/-- the polyhedron whose generators are the images of those of `pa` -/
theorem gens_image {pa : Rep} (ha : pa.Wf K n) {F : List Row} (hF : pa.F? = some F) {T : Row → Row}
    (φ : (Fin (n + 1) → K) →ₗ[K] (Fin (m + 1) → K)) (hφ : ∀ u, φ u 0 = u 0)
    (h0 : ∀ q ∈ F, (T q).at' 0 = 0 ↔ q.at' 0 = 0)
    (h : ∀ q ∈ F, ∃ t : K, 0 < t ∧ toV K (m + 1) (T q) = t • φ (toV K (n + 1) q)) :
    (Rep.gens (F.map T)).Wf K m ∧ ∀ x : Fin m → K, (Rep.gens (F.map T)).γ x ↔ ∃ x0 : Fin n → K, pa.γ x0 ∧ hom x = φ (hom x0) := by
  have hc : ∀ y, (Rep.gens (F.map T)).cone y ↔ ∃ u, pa.cone u ∧ y = φ u := fun y => by
    change GenM (F.map T) y ↔ _
    rw [genM_map φ h0 h]
    exact exists_congr fun u => by rw [ha.genM hF]
  refine ⟨⟨fun y hy => ?_, ?_⟩, fun x => ?_⟩
  · obtain ⟨u, hu, rfl⟩ := (hc y).1 hy
    rw [hφ]; exact ha.pos u hu
  · obtain ⟨u, hu, hpos⟩ := ha.nonEmpty (by rw [hF]; simp)
    exact ⟨φ u, (hc _).2 ⟨u, hu, rfl⟩, by rw [hφ]; exact hpos⟩
  · rw [Rep.γ, hc]
    constructor
    · rintro ⟨u, hu, e⟩
      obtain ⟨x0, rfl⟩ := exists_hom (y := u) (by rw [← hφ u, ← e]; rfl)
      exact ⟨x0, hu, e⟩
    · rintro ⟨x0, hx0, e⟩; exact ⟨_, hx0, e⟩

/-! ## Projection -/

/-- the coordinates in `S` are set to zero -/
def zeroL (K : Type*) [Field K] {d : ℕ} (S : Fin d → Prop) [DecidablePred S] : (Fin d → K) →ₗ[K] (Fin d → K) where
  toFun u := fun i => if S i then 0 else u i
  map_add' u v := by funext i; simp only [Pi.add_apply]; split_ifs <;> simp
  map_smul' t u := by funext i; simp only [Pi.smul_apply, RingHom.id_apply]; split_ifs <;> simp

theorem projRow_spec (tdim : List ℕ) (q : Row) :
    (projRow n tdim q).at' 0 = q.at' 0 ∧ ∃ t : K, 0 < t ∧ toV K (n + 1) (projRow n tdim q) =
      t • zeroL K (fun i : Fin (n + 1) => ∃ v ∈ tdim, (i : ℕ) = v + 1) (toV K (n + 1) q) := by
  have key : ∀ j, tdim.foldl (fun (r : ℕ → ℤ) t => Function.update r (t + 2) 0) q.at' j =
      if ∃ v ∈ tdim, j = v + 2 then 0 else q.at' j := by
    intro j
    split_ifs with h
    · obtain ⟨v, hv, rfl⟩ := h
      exact Box.foldl_update_hit (f := fun t => t + 2) (g := fun _ => (0 : ℤ)) tdim _ v hv fun _ _ _ => rfl
    · exact Box.foldl_update_other (f := fun t => t + 2) (g := fun _ => (0 : ℤ)) tdim _ j fun v hv e => h ⟨v, hv, e.symm⟩
  rw [projRow]
  obtain ⟨h0, g, hg, hj⟩ := normalize_spec (Row.ofFun (n + 2) fun j => tdim.foldl (fun r t => Function.update r (t + 2) 0) q.at' j)
    (n + 2) (fun j hj => by rw [at_ofFun, if_neg (by omega)])
  have hg' : (0 : K) < g := by exact_mod_cast hg
  refine ⟨?_, (g : K)⁻¹, inv_pos.2 hg', ?_⟩
  · rw [h0, at_ofFun, if_pos (by omega), key, if_neg]
    rintro ⟨v, _, e⟩; omega
  · funext i
    have := hj i
    rw [at_ofFun, if_pos (by omega), key] at this
    have e2 : (g : K) * ((normalize (Row.ofFun (n + 2) fun j => tdim.foldl (fun r t => Function.update r (t + 2) 0) q.at' j)
        (n + 2)).at' (i + 1) : ℤ) = ((if ∃ v ∈ tdim, (i : ℕ) + 1 = v + 2 then 0 else q.at' (i + 1) : ℤ) : K) := by
      exact_mod_cast this
    rw [Pi.smul_apply, smul_eq_mul, toV, eq_inv_mul_iff_mul_eq₀ hg'.ne', e2]
    change _ = if ∃ v ∈ tdim, (i : ℕ) = v + 1 then (0 : K) else _
    by_cases h : ∃ v ∈ tdim, (i : ℕ) = v + 1
    · rw [if_pos h, if_pos (by obtain ⟨v, hv, e⟩ := h; exact ⟨v, hv, by omega⟩)]; simp
    · rw [if_neg h, if_neg (by rintro ⟨v, hv, e⟩; exact h ⟨v, hv, by omega⟩)]; rfl

theorem toV_unit {i : ℕ} (hi : i < n) : toV K (n + 1) (unitRow (n + 2) (i + 1)) = Pi.single ⟨i + 1, by omega⟩ 1 := by
  funext j
  have hj := j.2
  simp only [toV, unitRow, at_ofFun, Pi.single_apply]
  rw [if_pos (by omega)]
  by_cases h : (j : ℕ) = i + 1
  · rw [if_pos (by omega), if_pos (Fin.ext h)]; simp
  · rw [if_neg (by omega), if_neg (fun e => h (by rw [e]))]; simp

theorem unit_status (i : ℕ) : (unitRow (n + 2) (i + 1)).at' 0 = 0 ∧ (unitRow (n + 2) (i + 1)).at' 1 = 0 := by
  simp [unitRow, at_ofFun]

/-- the cone generated by the units of some dimensions -/
theorem genM_unitRows {tdim : List ℕ} (ht : ∀ t ∈ tdim, t < n) (v : Fin (n + 1) → K) :
    GenM (tdim.map fun t => unitRow (n + 2) (t + 1)) v ↔ ∀ i : Fin (n + 1), (∀ t ∈ tdim, (i : ℕ) ≠ t + 1) → v i = 0 := by
  constructor
  · intro h i hi
    refine Gen.le (G := fun v => v i = 0) ⟨rfl, fun h1 h2 => by rw [Pi.add_apply, h1, h2, add_zero], fun _ h => by
      rw [Pi.smul_apply, h, smul_zero]⟩ (fun q hq => ?_) (fun q hq => ?_) h
    · rw [eqRows, List.mem_filter] at hq
      obtain ⟨t, htm, rfl⟩ := List.mem_map.1 hq.1
      have : toV K (n + 1) (unitRow (n + 2) (t + 1)) i = 0 := by
        rw [toV_unit (ht t htm), Pi.single_apply, if_neg]
        intro e; exact hi t htm (by rw [e])
      rw [Pi.neg_apply, this, neg_zero]; exact ⟨rfl, rfl⟩
    · rw [ineqRows, List.mem_filter] at hq
      obtain ⟨t, htm, rfl⟩ := List.mem_map.1 hq.1
      have := hq.2
      rw [(unit_status t).1] at this
      simp at this
  · intro h
    have e : v = ∑ i : Fin (n + 1), v i • (Pi.single i 1 : Fin (n + 1) → K) := by
      funext k
      rw [Finset.sum_apply, Finset.sum_eq_single k]
      · simp
      · intro j _ hj; simp [Pi.single_apply, hj.symm]
      · simp
    rw [e]
    have hs : ∀ s : Finset (Fin (n + 1)), GenM (tdim.map fun t => unitRow (n + 2) (t + 1))
        (∑ i ∈ s, v i • (Pi.single i 1 : Fin (n + 1) → K)) := by
      intro s
      induction s using Finset.induction_on with
      | empty => rw [Finset.sum_empty]; exact .zero
      | insert i s hi ih =>
        rw [Finset.sum_insert hi, add_comm (v i • _)]
        by_cases hr : ∃ t ∈ tdim, (i : ℕ) = t + 1
        · obtain ⟨t, htm, e⟩ := hr
          have : (Pi.single i 1 : Fin (n + 1) → K) = toV K (n + 1) (unitRow (n + 2) (t + 1)) := by
            rw [toV_unit (ht t htm)]
            congr 1
            exact Fin.ext e
          rw [this]
          refine Gen.line _ ih ?_
          rw [eqRows, List.mem_filter]
          exact ⟨List.mem_map_of_mem htm, by simp [(unit_status (n := n) t).1]⟩
        · rw [h i (fun t ht e => hr ⟨t, ht, e⟩), zero_smul, add_zero]; exact ih
    exact hs _

theorem prep_cases {lzy : Bool} {pa : Rep} (ha : pa.Wf K n) :
    let p := if lzy then pa.obtainF n else pa.chernikova n
    p.Wf K n ∧ (∀ x : Fin n → K, p.γ x ↔ pa.γ x) ∧ (lzy = false → p ≠ .bot → ∃ f, p = .both f) ∧
      (p.F? = none → ∀ x : Fin n → K, ¬ pa.γ x) := by
  cases lzy
  · simp only [Bool.false_eq_true, if_false]
    refine ⟨chernikova_wf ha, fun x => chernikova_γ ha x, fun _ hb => ?_, fun hF x => ?_⟩
    · rcases chernikova_shape n pa with e | e
      · exact absurd e hb
      · exact e
    · rcases chernikova_shape n pa with e | ⟨f, e⟩
      · exact (chernikova_bot_iff ha).1 e x
      · rw [e] at hF; simp [Rep.F?] at hF
  · simp only [if_true]
    refine ⟨obtainF_wf ha, fun x => obtainF_γ ha x, by simp, fun hF x => ?_⟩
    rw [← obtainF_γ ha x, obtainF_none hF]; exact fun h => h

/-- `poly_projectforget_array` -/
theorem forget_spec {lzy : Bool} {pa : Rep} (ha : pa.Wf K n) {tdim : List ℕ} (ht : ∀ t ∈ tdim, t < n) (project : Bool) :
    ∃ r, Rep.forget n lzy pa tdim project = some r ∧ r.Wf K n ∧ ∀ x : Fin n → K, r.γ x ↔
      (∃ x0 : Fin n → K, pa.γ x0 ∧ ∀ v : Fin n, (v : ℕ) ∉ tdim → x v = x0 v) ∧
      (project = true → ∀ v : Fin n, (v : ℕ) ∈ tdim → x v = 0) := by
  obtain ⟨hw, hγ, hb, hnone⟩ := prep_cases (lzy := lzy) ha
  rw [Rep.forget]
  dsimp only
  generalize (if lzy then pa.obtainF n else pa.chernikova n) = p at hw hγ hb hnone
  cases hF : p.F? with
  | none =>
    refine ⟨.bot, rfl, trivial, fun x => ⟨fun h => False.elim h, ?_⟩⟩
    rintro ⟨⟨x0, hx0, _⟩, _⟩
    exact hnone hF x0 hx0
  | some F =>
    dsimp only
    cases project with
    | true =>
      simp only [if_true, true_implies]
      obtain ⟨h1, h2⟩ := gens_image (m := n) hw hF (T := projRow n tdim)
        (zeroL K (fun i : Fin (n + 1) => ∃ v ∈ tdim, (i : ℕ) = v + 1))
        (fun u => by
          change (if ∃ v ∈ tdim, ((0 : Fin (n + 1)) : ℕ) = v + 1 then 0 else u 0) = u 0
          rw [if_neg]; rintro ⟨v, _, e⟩; simp at e)
        (fun q _ => by rw [(projRow_spec (K := K) tdim q).1]) (fun q _ => (projRow_spec tdim q).2)
      have h3 : ∀ x : Fin n → K, (Rep.gens (F.map (projRow n tdim))).γ x ↔
          (∃ x0 : Fin n → K, pa.γ x0 ∧ ∀ v : Fin n, (v : ℕ) ∉ tdim → x v = x0 v) ∧ ∀ v : Fin n, (v : ℕ) ∈ tdim → x v = 0 := by
        intro x
        rw [h2]
        constructor
        · rintro ⟨x0, hx0, e⟩
          have he : ∀ v : Fin n, x v = if (v : ℕ) ∈ tdim then 0 else x0 v := by
            intro v
            have h4 : x v = if ∃ t ∈ tdim, ((v.succ : Fin (n + 1)) : ℕ) = t + 1 then 0 else x0 v := congrFun e v.succ
            rw [h4]
            by_cases h : (v : ℕ) ∈ tdim
            · rw [if_pos h, if_pos ⟨v, h, by simp⟩]
            · rw [if_neg h, if_neg]
              rintro ⟨t, ht, e⟩
              have : (v : ℕ) = t := by simpa using e
              exact h (this ▸ ht)
          exact ⟨⟨x0, (hγ x0).1 hx0, fun v hv => by rw [he, if_neg hv]⟩, fun v hv => by rw [he, if_pos hv]⟩
        · rintro ⟨⟨x0, hx0, hk⟩, hz⟩
          refine ⟨x0, (hγ x0).2 hx0, ?_⟩
          funext i
          change _ = if ∃ t ∈ tdim, (i : ℕ) = t + 1 then 0 else hom x0 i
          refine Fin.cases ?_ (fun v => ?_) i
          · rw [if_neg]
            · rfl
            · rintro ⟨t, _, e⟩; simp at e
          · change x v = _
            by_cases h : (v : ℕ) ∈ tdim
            · rw [hz v h, if_pos ⟨v, h, by simp⟩]
            · rw [hk v h, if_neg]
              · rfl
              · rintro ⟨t, ht, e⟩
                have : (v : ℕ) = t := by simpa using e
                exact h (this ▸ ht)
      cases lzy with
      | true => exact ⟨_, rfl, h1, h3⟩
      | false => exact ⟨_, rfl, chernikova_wf h1, fun x => by
          rw [← h3 x]
          exact chernikova_γ h1 x⟩
    | false =>
      simp only [Bool.false_eq_true, if_false, false_implies, and_true]
      have hperm := sortRows_perm (n + 2) (tdim.map fun t => unitRow (n + 2) (t + 1))
      obtain ⟨r, h1, h2, _, h3⟩ := meetMatrix_gens (K := K) hw hF (fun h => hb h (Rep.ne_bot_of_F hF))
        (sortRows (n + 2) (tdim.map fun t => unitRow (n + 2) (t + 1))) (fun q hq => by
          rw [hperm.mem_iff, List.mem_map] at hq
          obtain ⟨t, _, rfl⟩ := hq
          exact (unit_status t).2)
      refine ⟨r, h1, h2, fun x => ?_⟩
      rw [h3]
      constructor
      · rintro ⟨x0, hx0, v, hv, e⟩
        rw [GenM.perm hperm, genM_unitRows ht] at hv
        refine ⟨x0, (hγ x0).1 hx0, fun w hw' => ?_⟩
        have h4 : x w = x0 w + v w.succ := congrFun e w.succ
        rw [h4, hv w.succ, add_zero]
        intro t htm e2
        have : (w : ℕ) = t := by simpa using e2
        exact hw' (this ▸ htm)
      · rintro ⟨x0, hx0, hk⟩
        refine ⟨x0, (hγ x0).2 hx0, hom x - hom x0, ?_, by rw [add_sub_cancel]⟩
        rw [GenM.perm hperm, genM_unitRows ht]
        intro i
        refine Fin.cases (fun _ => by simp [hom_zero]) (fun w hi => ?_) i
        change x w - x0 w = 0
        rw [hk w, sub_self]
        intro hm
        exact hi w hm (by simp)

/-! ## Addition of dimensions -/

section
variable {pos : List ℕ}

/-- the new index of an old coordinate -/
def addIdx (n : ℕ) (pos : List ℕ) : Fin (n + 1) → Fin (n + pos.length + 1) :=
  Fin.cases 0 fun v => ⟨v + cntLe pos v + 1, by have := cntLe_le (pos := pos) (v : ℕ); have := v.2; omega⟩

theorem addIdx_succ (v : Fin n) : (addIdx n pos v.succ : ℕ) = v + cntLe pos v + 1 := rfl

theorem addIdx_inj (n : ℕ) (pos : List ℕ) : Function.Injective (addIdx n pos) := by
  intro i j
  refine Fin.cases ?_ (fun v => ?_) i <;> refine Fin.cases ?_ (fun w => ?_) j
  · exact fun _ => rfl
  · intro h
    have := congrArg Fin.val h
    rw [addIdx_succ] at this
    simp [addIdx] at this
  · intro h
    have := congrArg Fin.val h
    rw [addIdx_succ] at this
    simp [addIdx] at this
  · intro h
    have := congrArg Fin.val h
    rw [addIdx_succ, addIdx_succ] at this
    have hvw : (v : ℕ) = w := by
      rcases lt_trichotomy (v : ℕ) w with h | h | h
      · have := Box.cntLe_mono pos h.le; omega
      · exact h
      · have := Box.cntLe_mono pos h.le; omega
    rw [Fin.ext hvw]

theorem addIdx_range (hs : pos.Pairwise (· ≤ ·)) (hlt : ∀ q ∈ pos, q ≤ n) (i : Fin (n + pos.length + 1)) :
    i ∉ Set.range (addIdx n pos) ↔ ∃ k, k < pos.length ∧ (i : ℕ) = pos.getD k 0 + k + 1 := by
  have hi := i.2
  by_cases h0 : (i : ℕ) = 0
  · constructor
    · intro h; exact absurd ⟨0, Fin.ext h0.symm⟩ h
    · rintro ⟨k, _, e⟩; omega
  · have hn := src_add_none (mult := 1) (dim := n) hs hlt (v' := (i : ℕ) - 1) (by omega)
    have e1 : i ∉ Set.range (addIdx n pos) ↔ src true 1 n pos ((i : ℕ) - 1) = none := by
      rw [Option.eq_none_iff_forall_not_mem]
      constructor
      · intro h v hv
        obtain ⟨hv, e⟩ := (src_add hs).1 hv
        refine h ⟨(⟨v, hv⟩ : Fin n).succ, Fin.ext ?_⟩
        rw [addIdx_succ]
        change v + cntLe pos v + 1 = i
        omega
      · rintro h ⟨j, rfl⟩
        revert h h0
        refine Fin.cases ?_ (fun v => ?_) j
        · intro h0; exact absurd rfl h0
        · intro _ h
          refine h v ((src_add hs).2 ⟨v.2, ?_⟩)
          rw [addIdx_succ]; omega
    rw [e1, hn]
    constructor
    · rintro ⟨k, s, hk, hs', e⟩; exact ⟨k, hk, by omega⟩
    · rintro ⟨k, hk, e⟩; exact ⟨k, 0, hk, by omega, by omega⟩

theorem addRow_emb (destr : Bool) (hs : pos.Pairwise (· ≤ ·)) (hlt : ∀ q ∈ pos, q ≤ n) (q : Row) :
    Emb (addIdx n pos) q (addRow destr n pos q) := by
  obtain ⟨h1, h2⟩ := Box.addLoop_spec hs destr (fun i => q.at' (i + 2)) n 0 (n + 1) pos.length
    (if destr then fun i => q.at' (i + 2) else fun _ => 0) (le_refl _)
    (fun m hm => by have := hlt _ (Box.getD_mem hm); omega) (by omega) (by omega) (by omega)
    (fun h _ _ => by rw [h]; rfl)
  refine ⟨by rw [addRow, at_ofFun, if_pos (by omega), if_pos (by omega)], fun j => ?_, fun i hi => ?_⟩
  · refine Fin.cases ?_ (fun v => ?_) j
    · change (addRow destr n pos q).at' 1 = q.at' 1
      rw [addRow, at_ofFun, if_pos (by omega), if_pos (by omega)]
    · have := cntLe_le (pos := pos) (v : ℕ)
      rw [addIdx_succ, addRow, at_ofFun, if_pos (by omega), if_neg (by omega)]
      have e := h1 v v.2
      have e2 : (v : ℕ) + cntLe pos v + 1 + 1 - 2 = v + cntLe pos v := by omega
      rw [e2, e]; rfl
  · obtain ⟨k, hk, e⟩ := (addIdx_range hs hlt i).1 hi
    have := i.2
    rw [addRow, at_ofFun, if_pos (by omega), if_neg (by omega)]
    have e2 : (i : ℕ) + 1 - 2 = pos.getD k 0 + k := by omega
    rw [e2]; exact h2 k hk

theorem lineInner_spec (N : ℕ) (hs : pos.Pairwise (· ≤ ·)) (i : ℕ) :
    ∀ k, k ≤ pos.length → (∀ m, m < k → pos.getD m 0 ≤ i) →
      let s := lineInner N pos i k
      s.1 ≤ k ∧ (∀ m, m < s.1 → pos.getD m 0 < i) ∧ s.2.length = k - s.1 ∧
      (∀ q, q ∈ s.2 ↔ ∃ m, s.1 ≤ m ∧ m < k ∧ q = unitRow (N + 2) (pos.getD m 0 + m + 1)) := by
  intro k
  induction k with
  | zero =>
    intro _ _
    refine ⟨le_refl _, fun m hm => absurd hm (by simp [lineInner]), rfl, fun q => ?_⟩
    simp [lineInner]
  | succ k ih =>
    intro hk hle
    simp only [lineInner]
    split_ifs with h
    · obtain ⟨h1, h2, h3, h4⟩ := ih (by omega) fun m hm => hle m (by omega)
      refine ⟨by dsimp only; omega, h2, by dsimp only; rw [List.length_cons, h3]; omega, fun q => ?_⟩
      dsimp only
      rw [List.mem_cons, h4]
      constructor
      · rintro (rfl | ⟨m, hm, hm', rfl⟩)
        · exact ⟨k, h1, by omega, by rw [h]⟩
        · exact ⟨m, hm, by omega, rfl⟩
      · rintro ⟨m, hm, hm', rfl⟩
        rcases Nat.lt_succ_iff_lt_or_eq.1 hm' with e | rfl
        · exact .inr ⟨m, hm, e, rfl⟩
        · exact .inl (by rw [h])
    · refine ⟨le_refl _, fun m hm => ?_, by simp, fun q => ?_⟩
      · have h1 := Box.getD_mono hs (show m ≤ k by dsimp only at hm; omega) (by omega)
        have h2 := hle k (by omega)
        omega
      · simp only [List.not_mem_nil, false_iff]
        rintro ⟨m, hm, hm', _⟩; omega

theorem lineLoop_spec (N : ℕ) (hs : pos.Pairwise (· ≤ ·)) : ∀ i k, k ≤ pos.length → (∀ m, m < k → pos.getD m 0 < i) →
    (lineLoop N pos i k).length = k ∧
      ∀ q, q ∈ lineLoop N pos i k ↔ ∃ m, m < k ∧ q = unitRow (N + 2) (pos.getD m 0 + m + 1) := by
  intro i
  induction i with
  | zero =>
    intro k _ h
    have : k = 0 := by
      rcases Nat.eq_zero_or_pos k with e | e
      · exact e
      · have := h 0 e; omega
    subst this
    simp [lineLoop]
  | succ i ih =>
    intro k hk h
    simp only [lineLoop]
    obtain ⟨h1, h2, h3, h4⟩ := lineInner_spec N hs i k hk fun m hm => by have := h m hm; omega
    generalize lineInner N pos i k = s at h1 h2 h3 h4
    obtain ⟨h5, h6⟩ := ih s.1 (by omega) h2
    refine ⟨by rw [List.length_append, h3, h5]; omega, fun q => ?_⟩
    rw [List.mem_append, h4, h6]
    constructor
    · rintro (⟨m, _, hm, rfl⟩ | ⟨m, hm, rfl⟩)
      · exact ⟨m, hm, rfl⟩
      · exact ⟨m, by omega, rfl⟩
    · rintro ⟨m, hm, rfl⟩
      by_cases e : s.1 ≤ m
      · exact .inl ⟨m, e, hm, rfl⟩
      · exact .inr ⟨m, by omega, rfl⟩

theorem newLines_len (hs : pos.Pairwise (· ≤ ·)) (hlt : ∀ q ∈ pos, q ≤ n) : (newLines n pos).length = pos.length :=
  (lineLoop_spec _ hs (n + 1) pos.length (le_refl _) fun m hm => by have := hlt _ (Box.getD_mem hm); omega).1

theorem newLines_units (hs : pos.Pairwise (· ≤ ·)) (hlt : ∀ q ∈ pos, q ≤ n) : Units (addIdx n pos) (newLines n pos) := by
  have hm := (lineLoop_spec (n + pos.length) hs (n + 1) pos.length (le_refl _) fun m hm => by
    have := hlt _ (Box.getD_mem hm); omega).2
  have hu : ∀ (m : ℕ) (_ : m < pos.length) (i : Fin (n + pos.length + 1)), (i : ℕ) = pos.getD m 0 + m + 1 →
      ∀ j : Fin (n + pos.length + 1), (unitRow (n + pos.length + 2) (pos.getD m 0 + m + 1)).at' (j + 1) = if j = i then 1 else 0 := by
    intro m _ i e j
    have := j.2
    rw [unitRow, at_ofFun, if_pos (by omega)]
    by_cases h : j = i
    · rw [if_pos h, if_pos (by rw [h]; omega)]
    · rw [if_neg h, if_neg]
      intro h'; exact h (Fin.ext (by omega))
  refine ⟨fun u hu' => ?_, fun u hu' => ?_, fun i hi => ?_, by rw [newLines_len hs hlt]; omega⟩
  · obtain ⟨m, _, rfl⟩ := (hm u).1 hu'
    simp [unitRow, at_ofFun]
  · obtain ⟨m, hmk, rfl⟩ := (hm u).1 hu'
    have hb := hlt _ (Box.getD_mem hmk)
    refine ⟨⟨pos.getD m 0 + m + 1, by omega⟩, (addIdx_range hs hlt _).2 ⟨m, hmk, rfl⟩, hu m hmk _ rfl⟩
  · obtain ⟨k, hk, e⟩ := (addIdx_range hs hlt i).1 hi
    exact ⟨_, (hm _).2 ⟨k, hk, rfl⟩, hu k hk i e⟩

end

end Apron.Poly
