import Verif.Poly.PkExpand
import Verif.Poly.PkResizeOps
import Verif.Poly.PkAssignOps

/-!
# Polyhedra: expansion and folding of dimensions
-/

set_option autoImplicit false
set_option linter.unusedSectionVars false
set_option linter.ambiguousOpen false

namespace Apron.Poly

open Oct

variable {K : Type*} [LinearOrder K] [Field K] [IsStrictOrderedRing K] {n m d d' : ℕ}

theorem countLe (pos : List ℕ) (v : ℕ) : pos.countP (fun p => decide (p ≤ v)) = cntLe pos v := List.countP_eq_length_filter
theorem countLt (pos : List ℕ) (v : ℕ) : pos.countP (fun p => decide (p < v)) = cntLt pos v := List.countP_eq_length_filter

theorem lazyC_spec {pa : Rep} (ha : pa.Wf K n) (alg : ℤ) :
    (pa.lazyC n alg).Wf K n ∧ (∀ x : Fin n → K, (pa.lazyC n alg).γ x ↔ pa.γ x) ∧
      ((pa.lazyC n alg).C? = none → ∀ x : Fin n → K, ¬ pa.γ x) := by
  have h : (pa.lazyC n alg).Wf K n ∧ (∀ x : Fin n → K, (pa.lazyC n alg).γ x ↔ pa.γ x) ∧
      ((pa.lazyC n alg).C? = none → pa.lazyC n alg = .bot) := by
    rw [Rep.lazyC]
    split_ifs
    · exact ⟨obtainC_wf ha, obtainC_γ ha, obtainC_none⟩
    · exact ⟨chernikova_wf ha, chernikova_γ ha, chernikova_C_none⟩
  refine ⟨h.1, h.2.1, fun hn x hx => ?_⟩
  have := (h.2.1 x).2 hx
  rw [h.2.2 hn] at this
  exact this

theorem lazyF_spec {pa : Rep} (ha : pa.Wf K n) (alg : ℤ) :
    (pa.lazyF n alg).Wf K n ∧ (∀ x : Fin n → K, (pa.lazyF n alg).γ x ↔ pa.γ x) ∧
      ((pa.lazyF n alg).F? = none → ∀ x : Fin n → K, ¬ pa.γ x) := by
  have h : (pa.lazyF n alg).Wf K n ∧ (∀ x : Fin n → K, (pa.lazyF n alg).γ x ↔ pa.γ x) ∧
      ((pa.lazyF n alg).F? = none → pa.lazyF n alg = .bot) := by
    rw [Rep.lazyF]
    split_ifs
    · exact ⟨obtainF_wf ha, obtainF_γ ha, obtainF_none⟩
    · exact ⟨chernikova_wf ha, chernikova_γ ha, chernikova_F_none⟩
  refine ⟨h.1, h.2.1, fun hn x hx => ?_⟩
  have := (h.2.1 x).2 hx
  rw [h.2.2 hn] at this
  exact this

/-! ## Expansion -/

section
variable {dim off sup : ℕ}

/-- the copy of a row evaluates the old dimension on the new one -/
theorem dupRow_dot {N j : ℕ} (hd : dim < N) (hj : j < N) (hne : j ≠ dim) {q : Row} (hq : q.at' (j + 2) = 0) (y : Fin (N + 1) → K) :
    dot (dupRow N dim j q) y = dot q (Function.update y ⟨dim + 1, by omega⟩ (y ⟨j + 1, by omega⟩)) := by
  have hlt : ∀ i : Fin (N + 1), (i : ℕ) + 1 < N + 2 := fun i => by omega
  have e : ∀ i : Fin (N + 1), (dupRow N dim j q).at' (i + 1) =
      q.at' (i + 1) + (if i = (⟨j + 1, by omega⟩ : Fin (N + 1)) then q.at' (dim + 2) else 0) -
        (if i = (⟨dim + 1, by omega⟩ : Fin (N + 1)) then q.at' (dim + 2) else 0) := by
    intro i
    have hi := i.2
    rw [dupRow, at_ofFun, if_pos (by omega)]
    by_cases h1 : i = (⟨dim + 1, by omega⟩ : Fin (N + 1))
    · have h1' : (i : ℕ) = dim + 1 := congrArg Fin.val h1
      have h2 : i ≠ (⟨j + 1, by omega⟩ : Fin (N + 1)) := fun h => hne (by have := congrArg Fin.val h; simp at this; omega)
      rw [if_pos (by omega), if_pos h1, if_neg h2, h1']
      simp
    · have h1' : (i : ℕ) + 1 ≠ dim + 2 := fun h => h1 (Fin.ext (by simp; omega))
      rw [if_neg h1', if_neg h1]
      by_cases h2 : i = (⟨j + 1, by omega⟩ : Fin (N + 1))
      · have h2' : (i : ℕ) = j + 1 := congrArg Fin.val h2
        rw [if_pos (by omega), if_pos h2, h2', hq]; simp
      · have h2' : (i : ℕ) + 1 ≠ j + 2 := fun h => h2 (Fin.ext (by simp; omega))
        rw [if_neg h2', if_neg h2]; simp
  rw [dot_update]
  simp only [dot, e, Int.cast_sub, Int.cast_add, Int.cast_ite, Int.cast_zero, sub_mul, add_mul, ite_mul, zero_mul,
    Finset.sum_sub_distrib, Finset.sum_add_distrib, Finset.sum_ite_eq', Finset.mem_univ, if_true]
  ring

variable (hd : dim < off) (ho : off ≤ n)
include hd ho

/-- the solutions of the expanded matrix -/
theorem expandRows_sat (destr : Bool) (hsup : 0 < sup) (C : List Row)
    (y : Fin (n + (List.replicate sup off).length + 1) → K) :
    Sat (expandRows destr n C dim off sup) y ↔
      Sat C (y ∘ addIdx n (List.replicate sup off)) ∧ ∀ j (hj : j < sup),
        Sat C (Function.update (y ∘ addIdx n (List.replicate sup off)) ⟨dim + 1, by omega⟩
          (y ⟨off + j + 1, by rw [List.length_replicate]; omega⟩)) := by
  have hs : (List.replicate sup off).Pairwise (· ≤ ·) := List.pairwise_replicate.2 (.inr le_rfl)
  have hlt : ∀ q ∈ List.replicate sup off, q ≤ n := fun q hq => by rw [List.eq_of_mem_replicate hq]; exact ho
  have hσ := addIdx_inj n (List.replicate sup off)
  have hT := addRow_emb destr hs hlt
  have hN : n + (List.replicate sup off).length = n + sup := by rw [List.length_replicate]
  have hc0 : cntLe (List.replicate sup off) dim = 0 := by
    rw [← countLe, List.countP_eq_zero]
    intro q hq
    rw [List.eq_of_mem_replicate hq]; simp; omega
  have hσd : addIdx n (List.replicate sup off) (⟨dim, by omega⟩ : Fin n).succ = ⟨dim + 1, by omega⟩ :=
    Fin.ext (by rw [addIdx_succ]; simp [hc0])
  have hnew : ∀ q j, j < sup → (addRow destr n (List.replicate sup off) q).at' (off + j + 2) = 0 := fun q j hj =>
    (hT q).2.2 ⟨off + j + 1, by rw [List.length_replicate]; omega⟩ ((addIdx_range hs hlt _).2 ⟨j, by rw [List.length_replicate]; exact hj, by
      simp [List.getD_replicate, hj]⟩)
  have hold : ∀ q, (addRow destr n (List.replicate sup off) q).at' (dim + 2) = q.at' (dim + 2) := fun q => by
    have := (hT q).2.1 (⟨dim, by omega⟩ : Fin n).succ
    rw [hσd] at this
    exact this
  have hst : ∀ (N j : ℕ) (q : Row), (dupRow N dim j q).at' 0 = q.at' 0 := fun N j q => by
    rw [dupRow, at_ofFun, if_pos (by omega), if_neg (by omega), if_neg (by omega)]
  -- the value of a copy
  have hval : ∀ q j (hj : j < sup), dot (dupRow (n + sup) dim (off + j) (addRow destr n (List.replicate sup off) q)) y =
      dot q (Function.update (y ∘ addIdx n (List.replicate sup off)) ⟨dim + 1, by omega⟩
          (y ⟨off + j + 1, by rw [List.length_replicate]; omega⟩)) := by
    intro q j hj
    have h1 := dupRow_dot (K := K) (dim := dim) (N := n + (List.replicate sup off).length) (j := off + j) (by omega)
      (by rw [List.length_replicate]; omega) (by omega) (hnew q j hj) y
    rw [(hT q).dot hσ, ← hσd, Function.update_comp_eq_of_injective _ hσ] at h1
    have h2 : dupRow (n + sup) dim (off + j) (addRow destr n (List.replicate sup off) q) =
        dupRow (n + (List.replicate sup off).length) dim (off + j) (addRow destr n (List.replicate sup off) q) := by rw [hN]
    rw [h2]
    exact h1
  rw [expandRows, if_neg (by omega)]
  dsimp only
  rw [← sat_emb hσ hT]
  constructor
  · intro h
    refine ⟨fun q hq => h q (List.mem_append_left _ hq), fun j hj q hq => ?_⟩
    by_cases h0 : q.at' (dim + 2) = 0
    · have h1 := h _ (List.mem_append_left _ (List.mem_map_of_mem hq))
      rw [(hT q).dot hσ, (hT q).1] at h1
      have e : dot q (Function.update (y ∘ addIdx n (List.replicate sup off)) ⟨dim + 1, by omega⟩
          (y ⟨off + j + 1, by rw [List.length_replicate]; omega⟩)) = dot q (y ∘ addIdx n (List.replicate sup off)) := by
        rw [dot_update]
        simp [h0]
      rw [e]; exact h1
    · have h1 := h (dupRow (n + sup) dim (off + j) (addRow destr n (List.replicate sup off) q))
        (List.mem_append_right _ (List.mem_flatMap.2 ⟨_, List.mem_filter.2 ⟨List.mem_map_of_mem hq, by rw [hold]; simpa using h0⟩,
          List.mem_map.2 ⟨j, List.mem_range.2 hj, rfl⟩⟩))
      rw [hval q j hj, hst, (hT q).1] at h1
      exact h1
  · rintro ⟨h1, h2⟩ r hr
    rcases List.mem_append.1 hr with hr | hr
    · exact h1 r hr
    · obtain ⟨q', hq', hr⟩ := List.mem_flatMap.1 hr
      obtain ⟨q, hq, rfl⟩ := List.mem_map.1 (List.mem_filter.1 hq').1
      obtain ⟨j, hj, rfl⟩ := List.mem_map.1 hr
      have hj' := List.mem_range.1 hj
      rw [hval q j hj', hst, (hT q).1]
      exact h2 j hj' q hq

end

/-- `pk_expand` -/
theorem expand_spec (destr : Bool) (alg : ℤ) {pa : Rep} (ha : pa.Wf K n) {intdim dim sup : ℕ} (hi : intdim ≤ n) (hd : dim < n)
    (hsup : 0 < sup) :
    (Rep.expand destr n intdim alg pa dim sup).Wf K (n + sup) ∧
      ∀ x : ℕ → K, (Rep.expand destr n intdim alg pa dim sup).γ (fun i : Fin (n + sup) => x i) ↔
        ∀ y, (y = x dim ∨ ∃ k, k < sup ∧ y = x ((if dim < intdim then intdim else n) + k)) →
          pa.γ (fun v : Fin n => if (v : ℕ) = dim then y else if (v : ℕ) < (if dim < intdim then intdim else n) then x v
            else x (v + sup)) := by
  have hoff : (if dim + sup < (if dim < intdim then intdim + sup else intdim) then
      (if dim < intdim then intdim + sup else intdim) - sup else n + sup - sup) = if dim < intdim then intdim else n := by
    by_cases h : dim < intdim
    · simp only [if_pos h]; rw [if_pos (by omega)]; omega
    · simp only [if_neg h]; rw [if_neg (by omega)]; omega
  obtain ⟨hw, hγ, hnone⟩ := lazyC_spec ha alg
  rw [Rep.expand]
  dsimp only
  rw [if_neg (by omega), hoff]
  have hdo : dim < if dim < intdim then intdim else n := by split_ifs <;> omega
  have hon : (if dim < intdim then intdim else n) ≤ n := by split_ifs <;> omega
  generalize (if dim < intdim then intdim else n) = off at hdo hon
  generalize pa.lazyC n alg = p at hw hγ hnone
  cases hC : p.C? with
  | none =>
    dsimp only
    refine ⟨trivial, fun x => ⟨fun h => False.elim h, fun h => ?_⟩⟩
    exact False.elim (hnone hC _ (h (x dim) (.inl rfl)))
  | some C =>
    dsimp only
    have hsat := expandRows_sat (K := K) (n := n) hdo hon destr hsup C
    have h1 : (Rep.cons (expandRows destr n C dim off sup)).Wf K (n + (List.replicate sup off).length) := by
      intro y hy
      have h := ((hsat y).1 hy).1
      rw [← Rep.Wf.sat (K := K) hC] at h
      exact hw.pos _ h
    have h2 : ∀ x : ℕ → K, (Rep.cons (expandRows destr n C dim off sup)).γ (fun i : Fin (n + (List.replicate sup off).length) => x i) ↔
        ∀ y, (y = x dim ∨ ∃ k, k < sup ∧ y = x (off + k)) →
          pa.γ (fun v : Fin n => if (v : ℕ) = dim then y else if (v : ℕ) < off then x v else x (v + sup)) := by
      intro x
      change Sat _ _ ↔ _
      rw [hsat, hom_addIdx]
      have hcnt : ∀ v, cntLe (List.replicate sup off) v = if v < off then 0 else sup := by
        intro v
        rw [← countLe, List.countP_replicate]
        by_cases h : v < off
        · rw [if_pos h, if_neg (by simpa using h)]
        · rw [if_neg h, if_pos (by simpa using h)]
      have hbase : ∀ y, (Function.update (hom fun v : Fin n => x (v + cntLe (List.replicate sup off) v)) ⟨dim + 1, by omega⟩ y) =
          hom (fun v : Fin n => if (v : ℕ) = dim then y else if (v : ℕ) < off then x v else x (v + sup)) := by
        intro y
        funext i
        refine Fin.cases ?_ (fun v => ?_) i
        · rw [Function.update_of_ne (by simp [Fin.ext_iff])]; rfl
        · change _ = if (v : ℕ) = dim then y else if (v : ℕ) < off then x v else x (v + sup)
          by_cases h : (v : ℕ) = dim
          · rw [if_pos h]
            have : v.succ = (⟨dim + 1, by omega⟩ : Fin (n + 1)) := Fin.ext (by simp [h])
            rw [this, Function.update_self]
          · rw [if_neg h, Function.update_of_ne (by intro h'; apply h; simpa using congrArg Fin.val h')]
            change x (v + cntLe _ v) = _
            rw [hcnt]
            split_ifs <;> rfl
      have hid : (hom fun v : Fin n => x (v + cntLe (List.replicate sup off) v)) =
          hom (fun v : Fin n => if (v : ℕ) = dim then x dim else if (v : ℕ) < off then x v else x (v + sup)) := by
        rw [← hbase, Function.update_eq_self_iff.2]
        change x dim = x (dim + cntLe _ dim)
        rw [hcnt, if_pos hdo]; rfl
      have hγ' : ∀ z : Fin n → K, Sat C (hom z) ↔ pa.γ z := fun z => by
        rw [← hγ, Rep.γ, Rep.Wf.sat hC]
      constructor
      · rintro ⟨g1, g2⟩ y (rfl | ⟨k, hk, rfl⟩)
        · rw [hid, hγ'] at g1; exact g1
        · have := g2 k hk
          rw [hbase, hγ'] at this
          exact this
      · intro h
        refine ⟨?_, fun j hj => ?_⟩
        · rw [hid, hγ']; exact h _ (.inl rfl)
        · rw [hbase, hγ']; exact h _ (.inr ⟨j, hj, rfl⟩)
    rw [List.length_replicate] at h1 h2
    split_ifs
    · exact ⟨chernikova_wf h1, fun x => by rw [← h2 x]; exact chernikova_γ h1 _⟩
    · exact ⟨h1, h2⟩

/-! ## Folding -/

/-- generators that are the images of others under several linear maps -/
theorem genM_images {ι : Type*} {F F' : List Row} (φ : ι → (Fin d → K) →ₗ[K] (Fin d' → K)) (S : ι → Prop)
    (h1 : ∀ q ∈ F, ∀ i, S i → ∃ r ∈ F', r.at' 0 = q.at' 0 ∧ ∃ t : K, 0 < t ∧ toV K d' r = t • φ i (toV K d q))
    (h2 : ∀ r ∈ F', ∃ q ∈ F, ∃ i, S i ∧ r.at' 0 = q.at' 0 ∧ ∃ t : K, 0 < t ∧ toV K d' r = t • φ i (toV K d q)) :
    (∀ i u, S i → GenM F u → GenM F' (φ i u)) ∧
    ∀ G : (Fin d' → K) → Prop, IsCone (K := K) G → (∀ i u, S i → GenM F u → G (φ i u)) → ∀ y, GenM F' y → G y := by
  refine ⟨fun i u hi hu => ?_, fun G hG h y hy => ?_⟩
  · refine Gen.le (G := fun u => GenM F' (φ i u)) ⟨by rw [map_zero]; exact .zero, ?_, ?_⟩ ?_ ?_ hu
    · intro u v hu hv; rw [map_add]; exact Gen.isCone.add hu hv
    · intro s u hs hu; rw [map_smul]; exact Gen.isCone.smul hs hu
    · intro p hp
      rw [eqRows, List.mem_filter] at hp
      obtain ⟨r, hr, e0, t, ht, e⟩ := h1 p hp.1 i hi
      have hm : r ∈ eqRows F' := by
        rw [eqRows, List.mem_filter]; exact ⟨hr, by rw [e0]; exact hp.2⟩
      have e' : φ i (toV K d p) = t⁻¹ • toV K d' r := by rw [e, smul_smul, inv_mul_cancel₀ ht.ne', one_smul]
      refine ⟨?_, ?_⟩
      · rw [e']; exact Gen.isCone.smul (inv_nonneg.2 ht.le) (.of_line hm)
      · rw [map_neg, e', ← smul_neg]; exact Gen.isCone.smul (inv_nonneg.2 ht.le) (.of_neg_line hm)
    · intro p hp
      rw [ineqRows, List.mem_filter] at hp
      obtain ⟨r, hr, e0, t, ht, e⟩ := h1 p hp.1 i hi
      have hm : r ∈ ineqRows F' := by
        rw [ineqRows, List.mem_filter]; exact ⟨hr, by rw [e0]; exact hp.2⟩
      have e' : φ i (toV K d p) = t⁻¹ • toV K d' r := by rw [e, smul_smul, inv_mul_cancel₀ ht.ne', one_smul]
      rw [e']; exact Gen.isCone.smul (inv_nonneg.2 ht.le) (.of_ray hm)
  · refine Gen.le hG (fun r hr => ?_) (fun r hr => ?_) hy
    · rw [eqRows, List.mem_filter] at hr
      obtain ⟨q, hq, i, hi, e0, t, ht, e⟩ := h2 r hr.1
      have hm : q ∈ eqRows F := by
        rw [eqRows, List.mem_filter]; exact ⟨hq, by rw [← e0]; exact hr.2⟩
      refine ⟨by rw [e]; exact hG.smul ht.le (h i _ hi (.of_line hm)), ?_⟩
      rw [e, ← smul_neg, ← map_neg]
      exact hG.smul ht.le (h i _ hi (.of_neg_line hm))
    · rw [ineqRows, List.mem_filter] at hr
      obtain ⟨q, hq, i, hi, e0, t, ht, e⟩ := h2 r hr.1
      have hm : q ∈ ineqRows F := by
        rw [ineqRows, List.mem_filter]; exact ⟨hq, by rw [← e0]; exact hr.2⟩
      rw [e]; exact hG.smul ht.le (h i _ hi (.of_ray hm))

section
variable {dd : ℕ} {ts : List ℕ} (hp : (dd :: ts).Pairwise (· < ·)) (hlt : ∀ t ∈ dd :: ts, t < n)
include hp hlt

theorem foldRow_spec (ρ : Fin (n - ts.length) → Fin n) (hρ : ∀ j : Fin (n - ts.length), src false 1 n ts j = some (ρ j : ℕ))
    (t : Fin n) (q : Row) :
    (foldRow n dd ts t q).at' 0 = q.at' 0 ∧ ∃ s : K, 0 < s ∧ toV K (n - ts.length + 1) (foldRow n dd ts t q) =
      s • LinearMap.funLeft K K (liftIdx fun j => if (j : ℕ) = dd then t else ρ j) (toV K (n + 1) q) := by
  have hs := (List.pairwise_cons.1 hp).2
  have hlt' : ∀ t ∈ ts, t < n := fun t ht => hlt t (List.mem_cons_of_mem _ ht)
  have hl := rem_len hs hlt'
  have hloop : ∀ j : Fin (n - ts.length), Box.remLoop false (fun i => q.at' (i + 2)) ts (n - ts.length) 0 0
      (fun _ => 0) j = q.at' (ρ j + 2) := by
    intro j
    obtain ⟨w, h1, h2, h3⟩ := Box.remLoop_spec hs false (fun i => q.at' (i + 2)) (n - ts.length) 0 0
      (fun _ => 0) (by omega) (by omega) (by omega) (by omega)
      (fun h _ _ => by simp at h) j (by have := j.2; omega)
    have hw : src false 1 n ts j = some w := by
      rw [src_rem hs]
      refine ⟨?_, h1, h2⟩
      have : cntLt ts w ≤ ts.length := by unfold cntLt; exact List.length_filter_le _ _
      have := j.2
      omega
    rw [hρ j] at hw; cases hw
    exact h3
  rw [foldRow]
  generalize hR : (Row.ofFun (n - ts.length + 2) fun j =>
    if j = dd + 2 then q.at' (t + 2)
    else if j < 2 then q.at' j
    else Box.remLoop false (fun i => q.at' (i + 2)) ts (n - ts.length) 0 0 (fun _ => 0) (j - 2)) = R
  obtain ⟨h0, g, hg, hj⟩ := normalize_spec R (n - ts.length + 2) (fun j hj => by rw [← hR, at_ofFun, if_neg (by omega)])
  have hg' : (0 : K) < g := by exact_mod_cast hg
  refine ⟨by rw [h0, ← hR, at_ofFun, if_pos (by omega), if_neg (by omega), if_pos (by omega)], (g : K)⁻¹, inv_pos.2 hg', ?_⟩
  funext i
  have e2 : (g : K) * ((normalize R (n - ts.length + 2)).at' (i + 1) : ℤ) = (R.at' (i + 1) : ℤ) := by exact_mod_cast hj i
  rw [Pi.smul_apply, smul_eq_mul, toV, eq_inv_mul_iff_mul_eq₀ hg'.ne', e2, ← hR, at_ofFun, if_pos (by omega)]
  refine Fin.cases ?_ (fun j => ?_) i
  · rw [if_neg (by simp), if_pos (by simp)]; rfl
  · change _ = toV K (n + 1) q (Fin.succ (if (j : ℕ) = dd then t else ρ j))
    by_cases h : (j : ℕ) = dd
    · rw [if_pos (by simp [h]), if_pos h]; rfl
    · rw [if_neg (by simp [h]), if_neg (by simp), if_neg h, show ((j.succ : Fin _) : ℕ) + 1 - 2 = j by simp, hloop j]; rfl

/-- the position of the folded dimension in the result is the same -/
theorem fold_src_d : src false 1 n ts dd = some dd ∧ dd < n - ts.length := by
  obtain ⟨h1, hs⟩ := List.pairwise_cons.1 hp
  have hlt' : ∀ t ∈ ts, t < n := fun t ht => hlt t (List.mem_cons_of_mem _ ht)
  have hsrc : src false 1 n ts dd = some dd := by
    rw [src_rem hs]
    refine ⟨hlt dd List.mem_cons_self, fun h => absurd (h1 _ h) (lt_irrefl _), ?_⟩
    rw [← countLt, List.countP_eq_zero.2, add_zero]
    intro t ht
    have := h1 t ht
    simp; omega
  exact ⟨hsrc, (src_rem_legal hs hlt' _ _ hsrc).1⟩

/-- the relation between a point and its images -/
theorem fold_hom {ρ : Fin (n - ts.length) → Fin n} (hρ : ∀ j : Fin (n - ts.length), src false 1 n ts j = some (ρ j : ℕ))
    (t : Fin n) (x x' : ℕ → K) :
    hom (fun i : Fin (n - ts.length) => x' i) =
      LinearMap.funLeft K K (liftIdx fun j => if (j : ℕ) = dd then t else ρ j) (hom fun i : Fin n => x i) ↔
    x' dd = x t ∧ ∀ v, v < n → v ∉ ts → v ≠ dd → x' (v - ts.countP (fun p => decide (p < v))) = x v := by
  obtain ⟨h1, hs⟩ := List.pairwise_cons.1 hp
  have hlt' : ∀ t ∈ ts, t < n := fun t ht => hlt t (List.mem_cons_of_mem _ ht)
  obtain ⟨hsd, hdn⟩ := fold_src_d hp hlt
  simp only [countLt]
  constructor
  · intro e
    refine ⟨?_, fun v hv hnm hne => ?_⟩
    · have := congrFun e (⟨dd, hdn⟩ : Fin (n - ts.length)).succ
      change x' dd = x (if dd = dd then t else ρ ⟨dd, hdn⟩ : Fin n) at this
      rwa [if_pos rfl] at this
    · have hc := Box.cntLt_le hs v
      have hsrc : src false 1 n ts (v - cntLt ts v) = some v := (src_rem hs).2 ⟨hv, hnm, by omega⟩
      have hlt2 := (src_rem_legal hs hlt' _ _ hsrc).1
      have h4 := congrFun e (⟨v - cntLt ts v, hlt2⟩ : Fin (n - ts.length)).succ
      change x' (v - cntLt ts v) = x (if v - cntLt ts v = dd then t else ρ ⟨v - cntLt ts v, hlt2⟩ : Fin n) at h4
      have h5 := hρ ⟨v - cntLt ts v, hlt2⟩
      rw [hsrc] at h5
      have h6 : ((ρ ⟨v - cntLt ts v, hlt2⟩ : Fin n) : ℕ) = v := by simpa using h5.symm
      rw [if_neg, h6] at h4
      · exact h4
      · intro h
        rw [h, hsd] at hsrc
        exact hne (by simpa using hsrc.symm)
  · rintro ⟨e1, e2⟩
    funext i
    refine Fin.cases rfl (fun j => ?_) i
    change x' j = x (if (j : ℕ) = dd then t else ρ j : Fin n)
    by_cases h : (j : ℕ) = dd
    · rw [if_pos h, h, e1]
    · obtain ⟨g1, g2, g3⟩ := (src_rem hs).1 (hρ j)
      rw [if_neg h, ← e2 (ρ j) g1 g2]
      · congr 1; omega
      · intro h'
        have := hρ j
        rw [h'] at this
        have h7 := (src_rem hs).1 this
        have h8 := (src_rem hs).1 hsd
        omega

/-- `pk_fold` -/
theorem fold_spec (alg : ℤ) {pa : Rep} (ha : pa.Wf K n) (hne : ts ≠ []) :
    (Rep.fold n alg pa dd ts).Wf K (n - ts.length) ∧
    (∀ (x x' : ℕ → K) (t : ℕ), pa.γ (fun i : Fin n => x i) → t ∈ dd :: ts → x' dd = x t →
      (∀ v, v < n → v ∉ ts → v ≠ dd → x' (v - ts.countP (fun p => decide (p < v))) = x v) →
      (Rep.fold n alg pa dd ts).γ (fun i : Fin (n - ts.length) => x' i)) ∧
    ∀ C : List Row, (∀ (x x' : ℕ → K) (t : ℕ), pa.γ (fun i : Fin n => x i) → t ∈ dd :: ts → x' dd = x t →
      (∀ v, v < n → v ∉ ts → v ≠ dd → x' (v - ts.countP (fun p => decide (p < v))) = x v) →
      Sat C (hom fun i : Fin (n - ts.length) => x' i)) →
      ∀ x' : Fin (n - ts.length) → K, (Rep.fold n alg pa dd ts).γ x' → Sat C (hom x') := by
  obtain ⟨_, hs⟩ := List.pairwise_cons.1 hp
  have hlt' : ∀ t ∈ ts, t < n := fun t ht => hlt t (List.mem_cons_of_mem _ ht)
  obtain ⟨hw, hγ, hnone⟩ := lazyF_spec ha alg
  rw [Rep.fold]
  generalize pa.lazyF n alg = p at hw hγ hnone
  cases hF : p.F? with
  | none =>
    refine ⟨trivial, fun x x' t hx _ _ _ => False.elim (hnone hF _ hx), fun C _ x' hx' => False.elim hx'⟩
  | some F =>
    dsimp only
    have hρ' : ∀ j : Fin (n - ts.length), ∃ v : Fin n, src false 1 n ts j = some (v : ℕ) := fun j => by
      obtain ⟨v, hv⟩ := src_rem_cover hs hlt' j.2
      exact ⟨⟨v, ((src_rem hs).1 hv).1⟩, hv⟩
    choose ρ hρ using hρ'
    obtain ⟨hsd, hdn⟩ := fold_src_d hp hlt
    have hdn' : dd < n := hlt dd List.mem_cons_self
    have hρd : ρ ⟨dd, hdn⟩ = ⟨dd, hdn'⟩ := Fin.ext (by have := hρ ⟨dd, hdn⟩; rw [hsd] at this; simpa using this.symm)
    -- the image with the dimension `dd` itself is the projection
    have hdd : (fun j : Fin (n - ts.length) => if (j : ℕ) = dd then (⟨dd, hdn'⟩ : Fin n) else ρ j) = ρ := by
      funext j
      by_cases h : (j : ℕ) = dd
      · rw [if_pos h, ← hρd]; congr 1; exact Fin.ext h.symm
      · rw [if_neg h]
    have hrem : ∀ q : Row, (remRow false n ts q).at' 0 = q.at' 0 ∧ ∃ s : K, 0 < s ∧
        toV K (n - ts.length + 1) (remRow false n ts q) =
          s • LinearMap.funLeft K K (liftIdx fun j => if (j : ℕ) = dd then (⟨dd, hdn'⟩ : Fin n) else ρ j) (toV K (n + 1) q) := fun q => by
      rw [hdd]; exact remRow_spec hs hlt' false ρ hρ q
    obtain ⟨hA, hB⟩ := genM_images (K := K) (F := F) (F' := foldRows n F dd ts)
      (fun t : Fin n => LinearMap.funLeft K K (liftIdx fun j : Fin (n - ts.length) => if (j : ℕ) = dd then t else ρ j))
      (fun t => (t : ℕ) ∈ dd :: ts) (fun q hq t ht => by
        rw [foldRows, if_neg hne]
        by_cases he : q.at' (dd + 2) = q.at' (t + 2)
        · refine ⟨remRow false n ts q, List.mem_flatMap.2 ⟨q, hq, List.mem_cons_self⟩, (hrem q).1, ?_⟩
          obtain ⟨s, hs', e⟩ := (hrem q).2
          refine ⟨s, hs', ?_⟩
          rw [e]
          congr 1
          funext i
          refine Fin.cases rfl (fun j => ?_) i
          change toV K (n + 1) q (Fin.succ (if (j : ℕ) = dd then (⟨dd, hdn'⟩ : Fin n) else ρ j)) =
            toV K (n + 1) q (Fin.succ (if (j : ℕ) = dd then t else ρ j))
          by_cases h : (j : ℕ) = dd
          · rw [if_pos h, if_pos h]
            exact congrArg (fun z : ℤ => (z : K)) he
          · rw [if_neg h, if_neg h]
        · have htm : (t : ℕ) ∈ ts := by
            rcases List.mem_cons.1 ht with h | h
            · rw [h] at he; exact absurd rfl he
            · exact h
          obtain ⟨h0, h1⟩ := foldRow_spec (K := K) hp hlt ρ hρ t q
          exact ⟨foldRow n dd ts t q, List.mem_flatMap.2 ⟨q, hq, List.mem_cons_of_mem _ (List.mem_map.2
            ⟨t, List.mem_filter.2 ⟨htm, by simpa using he⟩, rfl⟩)⟩, h0, h1⟩)
      (fun r hr => by
        rw [foldRows, if_neg hne] at hr
        obtain ⟨q, hq, hr⟩ := List.mem_flatMap.1 hr
        rcases List.mem_cons.1 hr with rfl | hr
        · exact ⟨q, hq, ⟨dd, hdn'⟩, List.mem_cons_self, hrem q⟩
        · obtain ⟨t, ht, rfl⟩ := List.mem_map.1 hr
          have htm := (List.mem_filter.1 ht).1
          exact ⟨q, hq, ⟨t, hlt' t htm⟩, List.mem_cons_of_mem _ htm, foldRow_spec hp hlt ρ hρ ⟨t, hlt' t htm⟩ q⟩)
    have hcone : ∀ u, p.cone u ↔ GenM F u := hw.genM hF
    have hpne := Rep.ne_bot_of_F hF
    have hpt := (Rep.cone_isCone (K := K) (n := n) hpne).exists_point (hw.nonEmpty (by rw [hF]; simp))
    have h1 : (Rep.gens (foldRows n F dd ts)).Wf K (n - ts.length) := by
      refine ⟨fun y hy => hB (fun y => 0 ≤ y 0) ⟨le_rfl, fun h1 h2 => by rw [Pi.add_apply]; exact add_nonneg h1 h2, fun h1 h2 => by
        rw [Pi.smul_apply]; exact mul_nonneg h1 h2⟩ (fun t u _ hu => ?_) y hy, ?_⟩
      · exact hw.pos u ((hcone u).2 hu)
      · obtain ⟨x, hx⟩ := hpt
        exact ⟨_, hA ⟨dd, hdn'⟩ _ List.mem_cons_self ((hcone _).1 hx), zero_lt_one⟩
    have h2 : ∀ (x x' : ℕ → K) (t : ℕ), pa.γ (fun i : Fin n => x i) → t ∈ dd :: ts → x' dd = x t →
      (∀ v, v < n → v ∉ ts → v ≠ dd → x' (v - ts.countP (fun p => decide (p < v))) = x v) →
      (Rep.gens (foldRows n F dd ts)).γ (fun i : Fin (n - ts.length) => x' i) := by
      intro x x' t hx ht e1 e2
      have e := (fold_hom (K := K) hp hlt hρ ⟨t, hlt t ht⟩ x x').2 ⟨e1, e2⟩
      change GenM _ _
      rw [e]
      exact hA ⟨t, hlt t ht⟩ _ ht ((hcone _).1 ((hγ _).2 hx))
    have h3 : ∀ C : List Row, (∀ (x x' : ℕ → K) (t : ℕ), pa.γ (fun i : Fin n => x i) → t ∈ dd :: ts → x' dd = x t →
      (∀ v, v < n → v ∉ ts → v ≠ dd → x' (v - ts.countP (fun p => decide (p < v))) = x v) →
      Sat C (hom fun i : Fin (n - ts.length) => x' i)) →
      ∀ x' : Fin (n - ts.length) → K, (Rep.gens (foldRows n F dd ts)).γ x' → Sat C (hom x') := by
      intro C hC x' hx'
      have hpts : ∀ (t : Fin n) (z : Fin n → K), (t : ℕ) ∈ dd :: ts → p.cone (hom z) →
          Sat C (LinearMap.funLeft K K (liftIdx fun j : Fin (n - ts.length) => if (j : ℕ) = dd then t else ρ j) (hom z)) := by
        intro t z ht hz
        have ez : (fun i : Fin n => (fun k : ℕ => if h : k < n then z ⟨k, h⟩ else 0) i) = z := by funext i; simp
        obtain ⟨w, ew⟩ := exists_hom (K := K) (n := n - ts.length)
          (y := LinearMap.funLeft K K (liftIdx fun j : Fin (n - ts.length) => if (j : ℕ) = dd then t else ρ j) (hom z)) rfl
        have ew' : (fun i : Fin (n - ts.length) => (fun k : ℕ => if h : k < n - ts.length then w ⟨k, h⟩ else 0) i) = w := by funext i; simp
        have := (fold_hom (K := K) hp hlt hρ t (fun k : ℕ => if h : k < n then z ⟨k, h⟩ else 0)
          (fun k : ℕ => if h : k < n - ts.length then w ⟨k, h⟩ else 0)).1 (by rw [ez, ew', ew])
        have h4 := hC (fun k : ℕ => if h : k < n then z ⟨k, h⟩ else 0) (fun k : ℕ => if h : k < n - ts.length then w ⟨k, h⟩ else 0)
          t (by rw [ez]; exact (hγ z).1 hz) ht this.1 this.2
        rw [ew'] at h4
        rw [ew]; exact h4
      refine hB (Sat C) (Sat.isCone C) (fun t u ht hu => ?_) _ hx'
      rw [Sat.of_lin]
      intro q hq
      have hc := Rep.cone_isCone (K := K) (n := n) hpne
      refine ⟨?_, fun h0 => ?_⟩
      · exact hc.valid hw.pos hpt
          (l := (lin K (n - ts.length + 1) q).comp (LinearMap.funLeft K K (liftIdx fun j : Fin (n - ts.length) => if (j : ℕ) = dd then t else ρ j)))
          (fun z hz => (Sat.of_lin.1 (hpts t z ht hz) q hq).1) ((hcone u).2 hu)
      · exact hc.valid hw.pos hpt
          (l := (-lin K (n - ts.length + 1) q).comp (LinearMap.funLeft K K (liftIdx fun j : Fin (n - ts.length) => if (j : ℕ) = dd then t else ρ j)))
          (fun z hz => (Sat.of_lin.1 (hpts t z ht hz) q hq).2 h0) ((hcone u).2 hu)
    split_ifs
    · exact ⟨chernikova_wf h1, fun x x' t a b c d => (chernikova_γ h1 _).2 (h2 x x' t a b c d), fun C hC x' hx' =>
        h3 C hC x' ((chernikova_γ h1 _).1 hx')⟩
    · exact ⟨h1, h2, h3⟩

end

end Apron.Poly
