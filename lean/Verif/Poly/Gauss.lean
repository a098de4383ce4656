import Verif.Poly.Redundant

/-!
# Gauss elimination and back-substitution
-/

set_option autoImplicit false
set_option linter.unusedSectionVars false

namespace Apron.Poly

variable {K : Type*} [LinearOrder K] [Field K] [IsStrictOrderedRing K] {d : ℕ}

/-- `q'` is a positive combination of `q` with a multiple of `p`; the status is kept -/
def ElimRel (d : ℕ) (p q q' : Row) : Prop :=
  q'.at' 0 = q.at' 0 ∧ ∃ g a b : ℤ, 0 < g ∧ 0 < a ∧ ∀ j, j < d → g * q'.at' (j + 1) = a * q.at' (j + 1) - b * p.at' (j + 1)

theorem ElimRel.refl (p q : Row) : ElimRel d p q q :=
  ⟨rfl, 1, 1, 0, one_pos, one_pos, fun j _ => by ring⟩

theorem elimCol_spec {j : ℕ} {p : Row} (hj : 0 < j) (hp : 0 < p.at' j) (q : Row) :
    ElimRel d p q (elimCol (d + 1) j p q) ∧ (j ≤ d → (elimCol (d + 1) j p q).at' j = 0) ∧
    (∀ c, 0 < c → c ≤ d → p.at' c = 0 → (q.at' c = 0 ↔ (elimCol (d + 1) j p q).at' c = 0)) ∧
    (∀ c, 0 < c → c ≤ d → p.at' c = 0 → 0 < q.at' c → 0 < (elimCol (d + 1) j p q).at' c) := by
  rw [elimCol]
  by_cases h : q.at' j ≠ 0
  · rw [if_pos h]
    obtain ⟨h0, g, hg, hrow⟩ := combine_spec q p q j (d + 1) (.inl h)
    rw [if_neg (by omega)] at h0
    refine ⟨⟨h0, g, p.at' j, q.at' j, hg, hp, fun i hi => hrow i (by omega)⟩, fun hjd => ?_, fun c hc hcd hpc => ?_,
      fun c hc hcd hpc hq => ?_⟩
    · obtain ⟨i, rfl⟩ : ∃ i, j = i + 1 := ⟨j - 1, by omega⟩
      have := hrow i (by omega)
      rw [mul_comm (p.at' (i + 1)), sub_self] at this
      rcases mul_eq_zero.1 this with h1 | h1
      · omega
      · exact h1
    · obtain ⟨i, rfl⟩ : ∃ i, c = i + 1 := ⟨c - 1, by omega⟩
      have := hrow i (by omega)
      rw [hpc, mul_zero, sub_zero] at this
      constructor
      · intro e; rw [e, mul_zero] at this
        rcases mul_eq_zero.1 this with h1 | h1
        · omega
        · exact h1
      · intro e; rw [e, mul_zero] at this
        rcases mul_eq_zero.1 this.symm with h1 | h1
        · omega
        · exact h1
    · obtain ⟨i, rfl⟩ : ∃ i, c = i + 1 := ⟨c - 1, by omega⟩
      have := hrow i (by omega)
      rw [hpc, mul_zero, sub_zero] at this
      have h1 : 0 < g * (vectorCombine q p q j (d + 1)).at' (i + 1) := by rw [this]; exact mul_pos hp hq
      exact pos_of_mul_pos_right h1 hg.le
  · rw [if_neg h]
    rw [not_not] at h
    exact ⟨.refl p q, fun _ => h, fun _ _ _ _ => Iff.rfl, fun _ _ _ _ hq => hq⟩

theorem ElimRel.toV {p q q' : Row} (h : ElimRel d p q q') :
    ∃ g a b : K, 0 < g ∧ 0 < a ∧ g • toV K d q' = a • toV K d q - b • toV K d p := by
  obtain ⟨_, g, a, b, hg, ha, h⟩ := h
  exact ⟨g, a, b, by exact_mod_cast hg, by exact_mod_cast ha, toV_lin h⟩

theorem ElimRel.mem_span {p q q' : Row} (h : ElimRel d p q q') {S : Submodule K (Fin d → K)} (hp : Apron.Poly.toV K d p ∈ S) :
    Apron.Poly.toV K d q' ∈ S ↔ Apron.Poly.toV K d q ∈ S := by
  obtain ⟨g, a, b, hg, ha, e⟩ := h.toV (K := K)
  constructor
  · intro h
    have e1 : Apron.Poly.toV K d q = a⁻¹ • (g • Apron.Poly.toV K d q' + b • Apron.Poly.toV K d p) := by
      rw [e, sub_add_cancel, smul_smul, inv_mul_cancel₀ ha.ne', one_smul]
    rw [e1]
    exact S.smul_mem _ (S.add_mem (S.smul_mem _ h) (S.smul_mem _ hp))
  · intro h
    have e1 : Apron.Poly.toV K d q' = g⁻¹ • (a • Apron.Poly.toV K d q - b • Apron.Poly.toV K d p) := by
      rw [← e, smul_smul, inv_mul_cancel₀ hg.ne', one_smul]
    rw [e1]
    exact S.smul_mem _ (S.sub_mem (S.smul_mem _ h) (S.smul_mem _ hp))

/-- the space generated by rows -/
def rowSpan (K : Type*) [Field K] (d : ℕ) (L : List Row) : Submodule K (Fin d → K) := Submodule.span K (lineSet K d L)

theorem mem_rowSpan {L : List Row} {q : Row} (h : q ∈ L) : toV K d q ∈ rowSpan K d L := Submodule.subset_span ⟨q, h, rfl⟩

theorem rowSpan_le {L : List Row} {S : Submodule K (Fin d → K)} (h : ∀ q ∈ L, toV K d q ∈ S) : rowSpan K d L ≤ S := by
  rw [rowSpan, Submodule.span_le]
  rintro _ ⟨q, hq, rfl⟩
  exact h q hq

/-- echelon form: the pivots decrease, each row has a positive pivot and is null on the right of it -/
structure Echelon (d : ℕ) (D : List Row) (piv : List ℕ) : Prop where
  len : D.length = piv.length
  dec : ∀ i k, i < k → k < piv.length → piv.getD k 0 < piv.getD i 0
  range : ∀ k < piv.length, 0 < piv.getD k 0 ∧ piv.getD k 0 ≤ d
  pos : ∀ k < piv.length, 0 < (D.getD k []).at' (piv.getD k 0)
  null : ∀ k < piv.length, ∀ c, piv.getD k 0 < c → c ≤ d → (D.getD k []).at' c = 0

theorem gaussPivot_at {j : ℕ} {p : Row} (c : ℕ) (hc : 0 < c) :
    (gaussPivot j p).at' c = if p.at' j < 0 then - p.at' c else p.at' c := by
  obtain ⟨i, rfl⟩ : ∃ i, c = i + 1 := ⟨c - 1, by omega⟩
  rw [gaussPivot, at_setStatus_succ]
  split_ifs
  · rw [at_neg]
  · rfl

theorem gaussPivot_toV {j : ℕ} {p : Row} : toV K d (gaussPivot j p) = toV K d p ∨ toV K d (gaussPivot j p) = - toV K d p := by
  rw [gaussPivot, toV_setStatus]
  split_ifs
  · exact .inr (toV_neg p)
  · exact .inl rfl

theorem gaussPivot_mem {j : ℕ} {p : Row} {S : Submodule K (Fin d → K)} : toV K d (gaussPivot j p) ∈ S ↔ toV K d p ∈ S := by
  rcases gaussPivot_toV (K := K) (d := d) (j := j) (p := p) with h | h
  · rw [h]
  · rw [h]; exact Submodule.neg_mem_iff S

theorem getD_append_last {α : Type*} (D : List α) (a b : α) : (D ++ [a]).getD D.length b = a := by
  simp [List.getD_eq_getElem?_getD]

theorem getD_append_lt {α : Type*} (D : List α) (a b : α) {k : ℕ} (h : k < D.length) : (D ++ [a]).getD k b = D.getD k b := by
  simp [List.getD_eq_getElem?_getD, List.getElem?_append_left h]

theorem gauss_ok (j : ℕ) (hj : j ≤ d) (D R : List Row) (piv : List ℕ) (he : Echelon d D piv)
    (hpj : ∀ k < piv.length, j < piv.getD k 0) (hR : ∀ q ∈ R, ∀ c, j < c → c ≤ d → q.at' c = 0) (hst : ∀ q ∈ D, q.at' 0 = 0) :
    Echelon d (gauss (d + 1) j D R piv).1 (gauss (d + 1) j D R piv).2.2 ∧
    (∀ q ∈ (gauss (d + 1) j D R piv).2.1, ∀ c, 0 < c → c ≤ d → q.at' c = 0) ∧
    (∀ q ∈ (gauss (d + 1) j D R piv).1, q.at' 0 = 0) ∧
    rowSpan K d ((gauss (d + 1) j D R piv).1 ++ (gauss (d + 1) j D R piv).2.1) = rowSpan K d (D ++ R) ∧
    (gauss (d + 1) j D R piv).1.length + (gauss (d + 1) j D R piv).2.1.length = D.length + R.length := by
  induction j generalizing D R piv with
  | zero => rw [gauss]; exact ⟨he, hR, hst, rfl, rfl⟩
  | succ j ih =>
    rw [gauss]
    have hsplit := List.takeWhile_append_dropWhile (p := fun q : Row => q.at' (j + 1) == 0) (l := R)
    have hhead := List.head?_dropWhile_not (fun q : Row => q.at' (j + 1) == 0) R
    have htake : ∀ q ∈ R.takeWhile (fun q : Row => q.at' (j + 1) == 0), q.at' (j + 1) = 0 := by
      intro q hq; simpa using List.mem_takeWhile_imp hq
    generalize R.takeWhile (fun q : Row => q.at' (j + 1) == 0) = before at *
    generalize R.dropWhile (fun q : Row => q.at' (j + 1) == 0) = dw at *
    cases dw with
    | nil =>
      dsimp only
      rw [List.append_nil] at hsplit
      subst hsplit
      refine ih (by omega) D before piv he (fun k hk => by have := hpj k hk; omega) (fun q hq c hc hcd => ?_) hst
      rcases Nat.lt_or_ge (j + 1) c with h | h
      · exact hR q hq c h hcd
      · obtain rfl : c = j + 1 := by omega
        exact htake q hq
    | cons p after =>
      dsimp only
      have hp0 : p.at' (j + 1) ≠ 0 := by simpa using hhead
      have hppos : 0 < (gaussPivot (j + 1) p).at' (j + 1) := by
        rw [gaussPivot_at _ (by omega)]; split_ifs <;> omega
      have hpnull : ∀ c, j + 1 < c → c ≤ d → (gaussPivot (j + 1) p).at' c = 0 := by
        intro c hc hcd
        rw [gaussPivot_at _ (by omega), hR p (by rw [← hsplit]; simp) c hc hcd]; simp
      have hel := fun q => elimCol_spec (d := d) (p := gaussPivot (j + 1) p) (Nat.succ_pos j) hppos q
      obtain ⟨a1, a2, a3, a4, a5⟩ := ih (by omega) (D ++ [gaussPivot (j + 1) p])
        (rot before ++ after.map (elimCol (d + 1) (j + 1) (gaussPivot (j + 1) p))) (piv ++ [j + 1])
        { len := by simp [he.len]
          dec := by
            intro i k hik hk
            rw [List.length_append, List.length_singleton] at hk
            rcases Nat.lt_or_ge k piv.length with h | h
            · rw [getD_append_lt _ _ _ h, getD_append_lt _ _ _ (by omega)]; exact he.dec i k hik h
            · obtain rfl : k = piv.length := by omega
              rw [getD_append_last, getD_append_lt _ _ _ hik]; exact hpj i hik
          range := by
            intro k hk
            rw [List.length_append, List.length_singleton] at hk
            rcases Nat.lt_or_ge k piv.length with h | h
            · rw [getD_append_lt _ _ _ h]; exact he.range k h
            · obtain rfl : k = piv.length := by omega
              rw [getD_append_last]; omega
          pos := by
            intro k hk
            rw [List.length_append, List.length_singleton] at hk
            rcases Nat.lt_or_ge k piv.length with h | h
            · rw [getD_append_lt _ _ _ h, getD_append_lt _ _ _ (by rw [he.len]; exact h)]; exact he.pos k h
            · obtain rfl : k = piv.length := by omega
              rw [getD_append_last, ← he.len, getD_append_last]; exact hppos
          null := by
            intro k hk
            rw [List.length_append, List.length_singleton] at hk
            rcases Nat.lt_or_ge k piv.length with h | h
            · rw [getD_append_lt _ _ _ h, getD_append_lt _ _ _ (by rw [he.len]; exact h)]; exact he.null k h
            · obtain rfl : k = piv.length := by omega
              rw [getD_append_last, ← he.len, getD_append_last]; exact hpnull }
        (by
          intro k hk
          rw [List.length_append, List.length_singleton] at hk
          rcases Nat.lt_or_ge k piv.length with h | h
          · rw [getD_append_lt _ _ _ h]; have := hpj k h; omega
          · obtain rfl : k = piv.length := by omega
            rw [getD_append_last]; omega)
        (by
          intro q hq c hc hcd
          rcases List.mem_append.1 hq with hq | hq
          · have hq' := (rot_perm before).mem_iff.1 hq
            rcases Nat.lt_or_ge (j + 1) c with h | h
            · exact hR q (by rw [← hsplit]; exact List.mem_append_left _ hq') c h hcd
            · obtain rfl : c = j + 1 := by omega
              exact htake q hq'
          · obtain ⟨q0, hq0, rfl⟩ := List.mem_map.1 hq
            rcases Nat.lt_or_ge (j + 1) c with h | h
            · exact ((hel q0).2.2.1 c (by omega) hcd (hpnull c h hcd)).1
                (hR q0 (by rw [← hsplit]; simp [hq0]) c h hcd)
            · obtain rfl : c = j + 1 := by omega
              exact (hel q0).2.1 hcd)
        (by
          intro q hq
          rcases List.mem_append.1 hq with hq | hq
          · exact hst q hq
          · rw [List.mem_singleton] at hq; subst hq; rfl)
      refine ⟨a1, a2, a3, a4.trans ?_, a5.trans ?_⟩
      · apply le_antisymm
        · refine rowSpan_le fun q hq => ?_
          have hpm : toV K d (gaussPivot (j + 1) p) ∈ rowSpan K d (D ++ R) :=
            gaussPivot_mem.2 (mem_rowSpan (by rw [← hsplit]; simp))
          rcases List.mem_append.1 hq with hq | hq
          · rcases List.mem_append.1 hq with hq | hq
            · exact mem_rowSpan (List.mem_append_left _ hq)
            · rw [List.mem_singleton] at hq; subst hq; exact hpm
          · rcases List.mem_append.1 hq with hq | hq
            · have hq' := (rot_perm before).mem_iff.1 hq
              exact mem_rowSpan (by rw [← hsplit]; simp [hq'])
            · obtain ⟨q0, hq0, rfl⟩ := List.mem_map.1 hq
              exact ((hel q0).1.mem_span hpm).2 (mem_rowSpan (by rw [← hsplit]; simp [hq0]))
        · refine rowSpan_le fun q hq => ?_
          have hpm : toV K d (gaussPivot (j + 1) p) ∈ rowSpan K d (D ++ [gaussPivot (j + 1) p] ++
              (rot before ++ after.map (elimCol (d + 1) (j + 1) (gaussPivot (j + 1) p)))) := mem_rowSpan (by simp)
          rw [← hsplit] at hq
          rcases List.mem_append.1 hq with hq | hq
          · exact mem_rowSpan (by simp [hq])
          · rcases List.mem_append.1 hq with hq | hq
            · have hq' := (rot_perm before).mem_iff.2 hq
              exact mem_rowSpan (by simp [hq'])
            · rcases List.mem_cons.1 hq with rfl | hq
              · exact gaussPivot_mem.1 hpm
              · refine ((hel q).1.mem_span hpm).1 (mem_rowSpan ?_)
                exact List.mem_append_right _ (List.mem_append_right _ (List.mem_map_of_mem hq))
      · rw [← hsplit]
        simp only [List.length_append, List.length_nil, List.length_map, List.length_cons, (rot_perm before).length_eq]
        omega

/-- the elimination of all the columns: the rows kept are in echelon form and generate the same space -/
theorem gauss_main (R : List Row) :
    Echelon d (gauss (d + 1) d [] R []).1 (gauss (d + 1) d [] R []).2.2 ∧
    (∀ q ∈ (gauss (d + 1) d [] R []).2.1, toV K d q = 0) ∧
    (∀ q ∈ (gauss (d + 1) d [] R []).1, q.at' 0 = 0) ∧
    rowSpan K d (gauss (d + 1) d [] R []).1 = rowSpan K d R ∧
    (gauss (d + 1) d [] R []).1.length + (gauss (d + 1) d [] R []).2.1.length = R.length := by
  obtain ⟨a1, a2, a3, a4, a5⟩ := gauss_ok (K := K) d le_rfl [] R []
    ⟨rfl, by simp, by simp, by simp, by simp⟩ (by simp) (fun q _ c h h' => by omega) (by simp)
  have hnull : ∀ q ∈ (gauss (d + 1) d [] R []).2.1, toV K d q = 0 := by
    intro q hq; funext j
    rw [toV, a2 q hq _ (Nat.succ_pos _) (by omega)]; simp
  refine ⟨a1, hnull, a3, ?_, by simpa using a5⟩
  rw [List.nil_append] at a4
  rw [← a4]
  apply le_antisymm
  · exact rowSpan_le fun q hq => mem_rowSpan (List.mem_append_left _ hq)
  · refine rowSpan_le fun q hq => ?_
    rcases List.mem_append.1 hq with hq | hq
    · exact mem_rowSpan hq
    · rw [hnull q hq]; exact Submodule.zero_mem _

/-! ## Back-substitution -/

/-- the invariant of the back-substitution: the first rows are in echelon form and the columns of the pivots `k, …`
are null except in their own row -/
structure BackOk (d : ℕ) (con : List Row) (piv : List ℕ) (k : ℕ) : Prop where
  le : piv.length ≤ con.length
  ech : Echelon d (con.take piv.length) piv
  col : ∀ k', k ≤ k' → k' < piv.length → ∀ i < con.length, i ≠ k' → (con.getD i []).at' (piv.getD k' 0) = 0

theorem getD_take {α : Type*} (l : List α) (b : α) {n i : ℕ} (h : i < n) : (l.take n).getD i b = l.getD i b := by
  simp only [List.getD_eq_getElem?_getD, List.getElem?_take, if_pos h]

/-- the relation between the rows before and after a step with the equality `k` -/
structure StepRel (d k : ℕ) (con con' : List Row) : Prop where
  len : con'.length = con.length
  keep : con'.getD k [] = con.getD k []
  rel : ∀ i < con.length, ElimRel d (con.getD k []) (con.getD i []) (con'.getD i [])

theorem backStep_getD (n k j : ℕ) (con : List Row) {i : ℕ} (hi : i < con.length) :
    (backStep n k j con).getD i [] = if i ≠ k then elimCol n j (con.getD k []) (con.getD i []) else con.getD i [] := by
  simp only [backStep, List.getD_eq_getElem?_getD, List.getElem?_mapIdx, List.getElem?_eq_getElem hi, Option.map_some,
    Option.getD_some]

theorem backStep_ok {con : List Row} {piv : List ℕ} {k : ℕ} (h : BackOk d con piv (k + 1)) (hk : k < piv.length) :
    BackOk d (backStep (d + 1) k (piv.getD k 0) con) piv k ∧
    StepRel d k con (backStep (d + 1) k (piv.getD k 0) con) := by
  have hlen : (backStep (d + 1) k (piv.getD k 0) con).length = con.length := by rw [backStep, List.length_mapIdx]
  have hkc : k < con.length := lt_of_lt_of_le hk h.le
  obtain ⟨hr0, hr1⟩ := h.ech.range k hk
  have hpos := h.ech.pos k hk
  rw [getD_take _ _ hk] at hpos
  have hel := fun q => elimCol_spec (d := d) (p := con.getD k []) hr0 hpos q
  have hnullk : ∀ c, piv.getD k 0 < c → c ≤ d → (con.getD k []).at' c = 0 := by
    intro c hc hcd
    have := h.ech.null k hk c hc hcd
    rwa [getD_take _ _ hk] at this
  have hkk : (backStep (d + 1) k (piv.getD k 0) con).getD k [] = con.getD k [] := by
    rw [backStep_getD _ _ _ _ hkc, if_neg (by simp)]
  refine ⟨⟨by rw [hlen]; exact h.le, ⟨?_, h.ech.dec, h.ech.range, ?_, ?_⟩, ?_⟩, ⟨hlen, hkk, ?_⟩⟩
  · rw [List.length_take, hlen]; exact min_eq_left h.le
  · intro i hi
    have hic : i < con.length := lt_of_lt_of_le hi h.le
    have hp := h.ech.pos i hi
    rw [getD_take _ _ hi] at hp ⊢
    rw [backStep_getD _ _ _ _ hic]
    by_cases hik : i = k
    · subst hik; rw [if_neg (by simp)]; exact hp
    · rw [if_pos hik]
      rcases Nat.lt_or_ge i k with hl | hl
      · exact (hel _).2.2.2 _ (h.ech.range i hi).1 (h.ech.range i hi).2
          (hnullk _ (h.ech.dec i k hl hk) (h.ech.range i hi).2) hp
      · have hz : (con.getD i []).at' (piv.getD k 0) = 0 := by
          have := h.ech.null i hi (piv.getD k 0) (h.ech.dec k i (by omega) hi) hr1
          rwa [getD_take _ _ hi] at this
        rw [elimCol, if_neg (by simpa using hz)]; exact hp
  · intro i hi c hc hcd
    have hic : i < con.length := lt_of_lt_of_le hi h.le
    have hp := h.ech.null i hi c hc hcd
    rw [getD_take _ _ hi] at hp ⊢
    rw [backStep_getD _ _ _ _ hic]
    by_cases hik : i = k
    · subst hik; rw [if_neg (by simp)]; exact hp
    · rw [if_pos hik]
      rcases Nat.lt_or_ge i k with hl | hl
      · have := h.ech.dec i k hl hk
        exact ((hel _).2.2.1 c (by omega) hcd (hnullk c (by omega) hcd)).1 hp
      · have hz : (con.getD i []).at' (piv.getD k 0) = 0 := by
          have := h.ech.null i hi (piv.getD k 0) (h.ech.dec k i (by omega) hi) hr1
          rwa [getD_take _ _ hi] at this
        rw [elimCol, if_neg (by simpa using hz)]; exact hp
  · intro k' hkk' hk' i hi hik'
    rw [hlen] at hi
    rw [backStep_getD _ _ _ _ hi]
    by_cases hke : k' = k
    · subst hke
      rw [if_pos hik']; exact (hel _).2.1 hr1
    · by_cases hik : i = k
      · subst hik
        rw [if_neg (by simp)]
        exact h.col k' (by omega) hk' i hi hik'
      · rw [if_pos hik]
        exact ((hel _).2.2.1 _ (h.ech.range k' hk').1 (h.ech.range k' hk').2 (h.col k' (by omega) hk' k hkc (by omega))).1
          (h.col k' (by omega) hk' i hi hik')
  · intro i hi
    rw [backStep_getD _ _ _ _ hi]
    split_ifs
    · exact (hel _).1
    · exact .refl _ _

/-- induction principle of the back-substitution -/
theorem backsubstitute_ind {piv : List ℕ} (P : List Row → Prop)
    (hstep : ∀ con con' k, k < piv.length → piv.length ≤ con.length → StepRel d k con con' → P con → P con') :
    ∀ k con, k ≤ piv.length → BackOk d con piv k → P con →
      BackOk d (backsubstitute (d + 1) piv k con) piv 0 ∧ P (backsubstitute (d + 1) piv k con) := by
  intro k
  induction k with
  | zero => intro con _ hb hp; rw [backsubstitute]; exact ⟨hb, hp⟩
  | succ k ih =>
    intro con hk hb hp
    rw [backsubstitute]
    obtain ⟨h1, h2⟩ := backStep_ok hb (by omega)
    exact ih _ (by omega) h1 (hstep _ _ k (by omega) hb.le h2 hp)

end Apron.Poly
