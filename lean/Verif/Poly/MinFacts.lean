import Verif.Poly.MinOk

/-!
# Consequences of the double description
-/

set_option autoImplicit false
set_option linter.unusedSectionVars false

namespace Apron.Poly

variable {K : Type*} [LinearOrder K] [Field K] [IsStrictOrderedRing K] {d : ℕ}

theorem DDL.toPDL {con lines : List Row} {rays : List SRow} (h : DDL K d con lines rays) : PDL K d con lines rays :=
  ⟨h.line, h.ray, h.gen, h.proper, h.sat⟩

theorem dot_neg_row (q : Row) (x : Fin d → K) : dot q.neg x = - dot q x := by simp [dot]

/-- the generators generate exactly the cone -/
theorem DDL.gen_iff {con lines : List Row} {rays : List SRow} (h : DDL K d con lines rays) (x : Fin d → K) :
    Sat con x ↔ Gen lines (rays.map SRow.row) x := by
  refine ⟨h.gen x, fun hg q hq => ?_⟩
  have hl : ∀ l ∈ lines, vprod d q l = 0 := fun l hl => h.line l hl q hq
  have h1 := dot_nonneg_of_gen (c := q) hl (fun r hr => by
    obtain ⟨y, hy, rfl⟩ := List.mem_map.1 hr; exact (h.ray y hy q hq).1) hg
  refine ⟨h1, fun h0 => ?_⟩
  have h2 := dot_nonneg_of_gen (c := q.neg) (fun l hl' => by rw [vprod_comm, vprod_neg, vprod_comm, hl l hl', neg_zero])
    (fun r hr => by
      obtain ⟨y, hy, rfl⟩ := List.mem_map.1 hr
      rw [vprod_comm, vprod_neg, vprod_comm, (h.ray y hy q hq).2 h0, neg_zero]) hg
  rw [dot_neg_row] at h2
  exact le_antisymm (by linarith) h1

/-- the lines generate the lineality space -/
theorem DDL.lin_iff {con lines : List Row} {rays : List SRow} (h : DDL K d con lines rays) (x : Fin d → K) :
    (∀ q ∈ con, dot q x = 0) ↔ Gen lines [] x := by
  constructor
  · intro hx
    exact Gen.of_span (h.toDD.lin (x := x) fun b hb => hx _ (getD_mem hb))
  · intro hg q hq
    have h1 := dot_nonneg_of_gen (c := q) (fun l hl => h.line l hl q hq) (by simp) hg
    have h2 := dot_nonneg_of_gen (c := q.neg) (fun l hl => by rw [vprod_comm, vprod_neg, vprod_comm, h.line l hl q hq, neg_zero])
      (by simp) hg
    rw [dot_neg_row] at h2
    exact le_antisymm (by linarith) h1

/-- every inequality of a minimal representation is needed -/
theorem MinOk.ineq_needed {E L : List Row} {I R : List SRow} (h : MinOk K d E I L R) (i : ℕ) (hi : i < I.length) :
    ∃ x : Fin d → K, Sat (E ++ (I.eraseIdx i).map SRow.row) x ∧ ¬ 0 ≤ dot (I[i]).row x := by
  by_contra hc
  push Not at hc
  refine h.dual.irredundant i hi ?_
  have hfk := farkas_rows (C := E ++ (I.eraseIdx i).map SRow.row) (v := toV K d (I[i]).row)
    fun x hx => by rw [← dot_eq_linV]; exact hc x hx
  refine Gen.le Gen.isCone (fun q hq => ?_) (fun q hq => ?_) hfk
  · rw [eqRows, List.mem_filter, List.mem_append] at hq
    rcases hq.1 with hq' | hq'
    · exact ⟨.of_line hq', .of_neg_line hq'⟩
    · obtain ⟨y, hy, rfl⟩ := List.mem_map.1 hq'
      have := h.ineqs y (List.mem_of_mem_eraseIdx hy)
      have h0 := hq.2
      simp at h0; omega
  · rw [ineqRows, List.mem_filter, List.mem_append] at hq
    rcases hq.1 with hq' | hq'
    · exact .of_line hq'
    · exact .of_ray hq'

/-- every equality is needed, when no combination of the others gives it -/
theorem MinOk.eq_needed {E L : List Row} {I R : List SRow} (h : MinOk K d E I L R) (i : ℕ) (hi : i < E.length)
    (hind : toV K d E[i] ∉ rowSpan K d (E.eraseIdx i)) :
    ∃ x : Fin d → K, Sat (E.eraseIdx i ++ I.map SRow.row) x ∧ dot E[i] x ≠ 0 := by
  by_contra hc
  push Not at hc
  apply hind
  have hgen : ∀ v : Fin d → K, (∀ x, Sat (E.eraseIdx i ++ I.map SRow.row) x → 0 ≤ linV v x) → Gen (E.eraseIdx i) (I.map SRow.row) v := by
    intro v hv
    refine Gen.le Gen.isCone (fun q hq => ?_) (fun q hq => ?_) (farkas_rows hv)
    · rw [eqRows, List.mem_filter, List.mem_append] at hq
      rcases hq.1 with hq' | hq'
      · exact ⟨.of_line hq', .of_neg_line hq'⟩
      · obtain ⟨y, hy, rfl⟩ := List.mem_map.1 hq'
        have := h.ineqs y hy
        have h0 := hq.2
        simp at h0; omega
    · rw [ineqRows, List.mem_filter, List.mem_append] at hq
      rcases hq.1 with hq' | hq'
      · exact .of_line hq'
      · exact .of_ray hq'
  have g1 := hgen (toV K d E[i]) fun x hx => by rw [← dot_eq_linV, hc x hx]
  have g2 := hgen (-toV K d E[i]) fun x hx => by rw [linV_comm, map_neg, linV_comm, ← dot_eq_linV, hc x hx, neg_zero]
  have hmem : ∀ e ∈ E, e = E[i] ∨ e ∈ E.eraseIdx i := by
    intro e he
    obtain ⟨j, hj, rfl⟩ := List.getElem_of_mem he
    by_cases hji : j = i
    · subst hji; exact .inl rfl
    · exact .inr (List.mem_eraseIdx_iff_getElem.2 ⟨j, hj, hji, rfl⟩)
  have hp : PDL K d (L ++ R.map SRow.row) (E.eraseIdx i) I := by
    refine ⟨fun l hl => h.dual.line l (List.mem_of_mem_eraseIdx hl), h.dual.ray, fun x hx => ?_, h.dual.proper, h.dual.sat⟩
    refine Gen.le Gen.isCone (fun e he => ?_) (fun r hr => .of_ray hr) (h.dual.gen x hx)
    rcases hmem e he with rfl | he'
    · exact ⟨g1, g2⟩
    · exact ⟨.of_line he', .of_neg_line he'⟩
  exact hp.toPreDD.lin fun b hb => by
    rw [cA_toV, h.dual.line _ (List.getElem_mem hi) _ (getD_mem hb), Int.cast_zero]

/-- rows in reduced echelon form are independent -/
theorem BackOk.indep {con : List Row} {piv : List ℕ} (h : BackOk d con piv 0) {i : ℕ} (hi : i < piv.length) :
    toV K d (con.getD i []) ∉ rowSpan K d ((con.take piv.length).eraseIdx i) := by
  intro hm
  obtain ⟨h0, h1⟩ := h.ech.range i hi
  have hle : rowSpan K d ((con.take piv.length).eraseIdx i) ≤
      LinearMap.ker (LinearMap.proj (R := K) (φ := fun _ => K) (⟨piv.getD i 0 - 1, by omega⟩ : Fin d)) := by
    refine rowSpan_le fun q hq => ?_
    rw [List.mem_eraseIdx_iff_getElem] at hq
    obtain ⟨j, hj, hji, rfl⟩ := hq
    rw [List.length_take] at hj
    rw [LinearMap.mem_ker, LinearMap.proj_apply, toV]
    have := h.col i (Nat.zero_le _) hi j (by omega) hji
    rw [List.getD_eq_getElem?_getD, List.getElem?_eq_getElem (by omega), Option.getD_some] at this
    rw [List.getElem_take]
    have e : piv.getD i 0 - 1 + 1 = piv.getD i 0 := by omega
    simp only [e, this, Int.cast_zero]
  have h2 := hle hm
  rw [LinearMap.mem_ker, LinearMap.proj_apply, toV] at h2
  have hp := h.ech.pos i hi
  rw [getD_take _ _ hi] at hp
  have e : piv.getD i 0 - 1 + 1 = piv.getD i 0 := by omega
  simp only [e] at h2
  have : (con.getD i []).at' (piv.getD i 0) = 0 := by exact_mod_cast h2
  omega

end Apron.Poly
