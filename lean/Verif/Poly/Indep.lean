import Verif.Poly.MinFacts
import Mathlib.LinearAlgebra.Dimension.Constructions
import Mathlib.LinearAlgebra.FiniteDimensional.Lemmas

/-!
# Independence of the equalities and of the lines
-/

set_option autoImplicit false
set_option linter.unusedSectionVars false

namespace Apron.Poly

variable {K : Type*} [LinearOrder K] [Field K] [IsStrictOrderedRing K] {d : ℕ}

/-- the rows are independent: the dimension of their span is their number -/
def Indep (K : Type*) [Field K] (d : ℕ) (L : List Row) : Prop := Module.finrank K (rowSpan K d L) = L.length

theorem rowSpan_mono {L L' : List Row} (h : ∀ q ∈ L, q ∈ L') : rowSpan K d L ≤ rowSpan K d L' :=
  rowSpan_le fun q hq => mem_rowSpan (h q hq)

theorem rowSpan_perm {L L' : List Row} (h : L.Perm L') : rowSpan K d L = rowSpan K d L' :=
  le_antisymm (rowSpan_mono fun _ hq => h.mem_iff.1 hq) (rowSpan_mono fun _ hq => h.mem_iff.2 hq)

theorem Indep.perm {L L' : List Row} (h : L.Perm L') (hi : Indep K d L) : Indep K d L' := by
  rw [Indep, ← rowSpan_perm h, ← h.length_eq]; exact hi

theorem finrank_rowSpan_le (L : List Row) : Module.finrank K (rowSpan K d L) ≤ L.length := by
  obtain ⟨s, e, hs⟩ := lineSet_finite (K := K) (d := d) L
  rw [rowSpan, e]
  exact (finrank_span_finset_le_card s).trans hs

theorem rowSpan_congr {L L' : List Row} (h : L'.map (toV K d) = L.map (toV K d)) : rowSpan K d L' = rowSpan K d L := by
  have key : ∀ {L L' : List Row}, L'.map (toV K d) = L.map (toV K d) → rowSpan K d L' ≤ rowSpan K d L := by
    intro L L' h
    refine rowSpan_le fun q hq => ?_
    have : toV K d q ∈ L.map (toV K d) := by rw [← h]; exact List.mem_map_of_mem hq
    obtain ⟨q', hq', e⟩ := List.mem_map.1 this
    rw [← e]; exact mem_rowSpan hq'
  exact le_antisymm (key h) (key h.symm)

theorem Indep.congr {L L' : List Row} (h : L'.map (toV K d) = L.map (toV K d)) (hi : Indep K d L) : Indep K d L' := by
  have hl : L'.length = L.length := by simpa using congrArg List.length h
  rw [Indep, rowSpan_congr h, hl]; exact hi

theorem Indep.status {L : List Row} (f : Row → ℤ) (hi : Indep K d L) : Indep K d (L.map fun q => q.setStatus (f q)) :=
  hi.congr (by rw [List.map_map]; exact List.map_congr_left fun q _ => toV_setStatus q _)

/-- independence is kept when a line is removed and the others are replaced by combinations that, with the removed line,
span the same space -/
theorem Indep.of_span {l0 : Row} {L L' : List Row} (hi : Indep K d (l0 :: L)) (hlen : L'.length = L.length)
    (h : ∀ q ∈ L, toV K d q ∈ rowSpan K d L' ⊔ Submodule.span K {toV K d l0}) : Indep K d L' := by
  refine le_antisymm (finrank_rowSpan_le _) ?_
  have hle : rowSpan K d (l0 :: L) ≤ rowSpan K d L' ⊔ Submodule.span K {toV K d l0} := by
    refine rowSpan_le fun q hq => ?_
    rcases List.mem_cons.1 hq with rfl | hq
    · exact Submodule.mem_sup_right (Submodule.mem_span_singleton_self _)
    · exact h q hq
  have h1 := Submodule.finrank_mono hle
  have h2 := Submodule.finrank_add_le_finrank_add_finrank (rowSpan K d L') (Submodule.span K {toV K d l0})
  have h3 := finrank_span_finset_le_card (R := K) ({toV K d l0} : Finset (Fin d → K))
  rw [Finset.coe_singleton, Finset.card_singleton] at h3
  rw [Indep] at hi
  rw [hi, List.length_cons] at h1
  rw [Set.finrank] at h3
  omega

theorem Indep.elim {c l0 : Row} {L : List Row} (hi : Indep K d (l0 :: L)) (h0 : l0.at' 0 = vprod d c l0)
    (hst : ∀ q ∈ L, q.at' 0 = vprod d c q) (hne : l0.at' 0 ≠ 0) : Indep K d (L.map (elim (d + 1) l0)) := by
  refine hi.of_span (by simp) fun q hq => ?_
  obtain ⟨g, a, b, hg, hab, hh, _⟩ := elim_spec h0 (hst q hq) hne
  have e := toV_lin (K := K) hh
  have ha : (a : K) ≠ 0 := by
    rcases hab with ⟨rfl, _⟩ | ⟨rfl, _⟩
    · simp
    · rw [← h0]; exact_mod_cast hne
  have e' : toV K d q = (a : K)⁻¹ • ((g : K) • toV K d (Apron.Poly.elim (d + 1) l0 q) + (b : K) • toV K d l0) := by
    rw [e, sub_add_cancel, smul_smul, inv_mul_cancel₀ ha, one_smul]
  rw [e']
  refine Submodule.smul_mem _ _ (Submodule.add_mem _ ?_ ?_)
  · exact Submodule.mem_sup_left (Submodule.smul_mem _ _ (mem_rowSpan (List.mem_map_of_mem hq)))
  · exact Submodule.mem_sup_right (Submodule.smul_mem _ _ (Submodule.mem_span_singleton_self _))

theorem convStep_indep {c : Row} {rest : List Row} {s : Conv} (hi : Indep K d s.lines) :
    Indep K d (convStep (d + 1) c rest s).lines := by
  rw [convStep]
  simp only [Nat.add_sub_cancel]
  have hstl : ∀ l ∈ (products d c s).lines, l.at' 0 = vprod d c l := by
    intro l hl
    obtain ⟨y, _, rfl⟩ := List.mem_map.1 hl
    simp only [at_setStatus_zero, vprod_setStatus]; exact vprod_comm _ _
  have hi' : Indep K d (products d c s).lines := hi.status _
  generalize products d c s = t at *
  cases hdw : t.lines.dropWhile (fun q => q.at' 0 == 0) with
  | nil =>
    dsimp only
    rw [rayStep]
    dsimp only
    split_ifs <;> exact hi'
  | cons l0 after =>
    dsimp only
    have hsplit : t.lines = t.lines.takeWhile (fun q => q.at' 0 == 0) ++ l0 :: after := by
      rw [← hdw]; exact List.takeWhile_append_dropWhile.symm
    have hne : l0.at' 0 ≠ 0 := by
      have := List.head_dropWhile_not (fun q : Row => q.at' 0 == 0) (l := t.lines) (by rw [hdw]; simp)
      simp only [hdw, List.head_cons] at this
      simpa using this
    have hperm : t.lines.Perm (l0 :: (t.lines.takeWhile (fun q => q.at' 0 == 0) ++ moveLast after)) := by
      conv_lhs => rw [hsplit]
      refine List.perm_middle.trans (List.Perm.cons _ ?_)
      exact (moveLast_perm after).symm.append_left _
    exact (hi'.perm hperm).elim (c := c) (hstl l0 (hperm.mem_iff.2 (by simp)))
      (fun q hq => hstl q (hperm.mem_iff.2 (List.mem_cons_of_mem _ hq))) hne

theorem conversion_indep {s : Conv} (hi : Indep K d s.lines) : Indep K d (conversion (d + 1) s).lines := by
  rw [conversion]
  refine Indep.status _ ?_
  generalize s.todo.length = n
  induction n generalizing s with
  | zero => exact hi
  | succ n ih =>
    rw [convLoop]
    cases s.todo with
    | nil => exact hi
    | cons c rest => exact ih (convStep_indep hi)

theorem initConv_indep (C : List Row) : Indep K d (initConv (d + 1) C).lines := by
  have : (initConv (d + 1) C).lines = (List.range d).map (unitRow (d + 1)) := rfl
  rw [this]
  refine le_antisymm (finrank_rowSpan_le _) ?_
  have htop : rowSpan K d ((List.range d).map (unitRow (d + 1))) = ⊤ := by
    rw [eq_top_iff]
    intro x _
    have hx : x = ∑ j : Fin d, x j • toV K d (unitRow (d + 1) j) := by
      funext i
      rw [Finset.sum_apply, Finset.sum_eq_single i]
      · simp [toV, unitRow, at_ofFun]
      · intro j _ hji
        simp only [Pi.smul_apply, toV, unitRow, at_ofFun, smul_eq_mul]
        rw [if_pos (by omega), if_neg (fun h => hji (Fin.ext (by omega)))]
        simp
      · intro h; exact absurd (Finset.mem_univ _) h
    rw [hx]
    exact Submodule.sum_mem _ fun j _ => Submodule.smul_mem _ _ (mem_rowSpan (List.mem_map.2 ⟨j, by simp, rfl⟩))
  rw [htop, finrank_top, Module.finrank_fin_fun]
  simp

/-- independent rows, in terms of linear independence -/
theorem indep_of_notMem {L : List Row} (h : ∀ i, i < L.length → toV K d (L.getD i []) ∉ rowSpan K d (L.eraseIdx i)) :
    Indep K d L := by
  have hli : LinearIndependent K (fun i : Fin L.length => toV K d L[i]) := by
    rw [linearIndependent_iff_notMem_span]
    intro i hm
    refine h i i.2 ?_
    rw [List.getD_eq_getElem?_getD, List.getElem?_eq_getElem i.2, Option.getD_some]
    refine Submodule.span_mono ?_ hm
    rintro _ ⟨j, ⟨_, hj⟩, rfl⟩
    refine ⟨L[j], ?_, rfl⟩
    rw [List.mem_eraseIdx_iff_getElem]
    exact ⟨j, j.2, fun e => hj (Fin.ext e), rfl⟩
  have := finrank_span_eq_card hli
  rw [Fintype.card_fin] at this
  have hs : lineSet K d L = Set.range (fun i : Fin L.length => toV K d L[i]) := by
    ext v
    constructor
    · rintro ⟨q, hq, rfl⟩
      obtain ⟨i, hi, rfl⟩ := List.getElem_of_mem hq
      exact ⟨⟨i, hi⟩, rfl⟩
    · rintro ⟨i, rfl⟩; exact ⟨_, List.getElem_mem i.2, rfl⟩
  rw [Indep, rowSpan, hs, this]

theorem BackOk.indepE {con : List Row} {piv : List ℕ} (h : BackOk d con piv 0) : Indep K d (con.take piv.length) := by
  refine indep_of_notMem fun i hi => ?_
  rw [List.length_take, min_eq_left h.le] at hi
  rw [getD_take _ _ hi]
  exact h.indep hi

/-- a minimal representation, with independent equalities and lines -/
theorem minimize_indep {dec : ℕ} {b : Bool} {C : List Row} {m : MinRep} (h : minimize (d + 1) dec b C = some m) :
    Indep K d ((m.C.take m.nbeq).map SRow.row) ∧ Indep K d (m.F.take m.nbline) := by
  obtain ⟨h1, h2, h3, h4, h5, h6, h7⟩ := conversion_ok (initConv (d + 1) C) (initConv_ok (K := K) C)
  obtain ⟨a1, _, a3, a4⟩ := finishMin_ok h1 h6 h7 h
  obtain ⟨piv, hp, hb⟩ := a1.2.2.2.1
  refine ⟨?_, ?_⟩
  · rw [List.map_take, ← hp]; exact hb.indepE
  · rw [a3, a4, List.take_left]; exact conversion_indep (initConv_indep C)

theorem addAndMinimize_indep {dec : ℕ} {b : Bool} {E newC L : List Row} {I R : List SRow} (hmin : MinOk K d E I L R)
    (hL : Indep K d L) {m : MinRep} (h : addAndMinimize (d + 1) dec b (E ++ I.map SRow.row) newC L R = some m) :
    Indep K d ((m.C.take m.nbeq).map SRow.row) ∧ Indep K d (m.F.take m.nbline) := by
  obtain ⟨h1, h2, h3, h4, h5, h6, h7⟩ := conversion_ok ⟨E ++ I.map SRow.row, newC, L, R⟩ hmin.prim
  obtain ⟨a1, _, a3, a4⟩ := finishMin_ok h1 h6 h7 h
  obtain ⟨piv, hp, hb⟩ := a1.2.2.2.1
  refine ⟨?_, ?_⟩
  · rw [List.map_take, ← hp]; exact hb.indepE
  · rw [a3, a4, List.take_left]; exact conversion_indep hL

end Apron.Poly
