import Verif.Poly.PkBoundExpr

/-!
# Polyhedra: satisfaction of constraints and of bounds; meets with constraints of the user
-/

set_option autoImplicit false
set_option linter.unusedSectionVars false
set_option linter.ambiguousOpen false

namespace Apron.Poly

open Apron Bound ILincons ILinexpr

variable {n : ℕ}

/-! ## Rows imply the constraint -/

theorem normConsInt_back {intdim : ℕ} {q : Row} (hq : ∀ j, n + 2 ≤ j → q.at' j = 0) {x : Fin n → ℚ}
    (h : RowSat (normConsInt n intdim q) x) :
    RowSat q x ∧ (0 < dot (normConsInt n intdim q) (hom x) → q.at' 0 ≠ 0 → 0 < dot q (hom x)) ∧
      (q.at' 0 ≠ 0 → (normConsInt n intdim q).at' 0 ≠ 0) := by
  revert h
  rw [normConsInt]
  by_cases h1 : 0 < intdim ∧ rowIsInt n intdim q = true ∧ rowIsPos n q = false
  · rw [if_pos h1]
    dsimp only
    set g := vectorGcd ((List.range n).map fun d => q.at' (d + 2)) with hgdef
    have hdiv : ∀ d : Fin n, (g : ℤ) * (q.at' (d + 2) / g) = q.at' (d + 2) := by
      intro d
      exact Int.mul_ediv_cancel' (dvd_vectorGcd _ _ (List.mem_map.2 ⟨d, by simp, rfl⟩))
    have hnew : ∀ s : ℤ, (g : ℚ) * dot (Row.ofFun (n + 2) fun j => if j = 0 then s else q.at' j / g) (hom x) =
        ((g * (q.at' 1 / g) : ℤ) : ℚ) + ∑ d : Fin n, (q.at' (d + 2) : ℚ) * x d := by
      intro s
      rw [dot_hom, at_ofFun, if_pos (by omega), if_neg (by omega), mul_add, Finset.mul_sum]
      congr 1
      · push_cast; rfl
      · refine Finset.sum_congr rfl fun d _ => ?_
        rw [at_ofFun, if_pos (by omega), if_neg (by omega), ← mul_assoc]
        congr 1
        exact_mod_cast hdiv d
    split_ifs with h2 h3 h4
    · rintro ⟨_, h5⟩
      have := h5 (by rw [at_ofFun, if_pos (by omega), if_neg (by omega)])
      rw [dot_hom, at_ofFun, if_pos (by omega), if_pos rfl, Finset.sum_eq_zero] at this
      · norm_num at this
      · intro d _; rw [at_ofFun, if_pos (by omega), if_neg (by omega)]; simp
    · push Not at h4
      intro h
      have h5 := h.2 (by rw [at_ofFun, if_pos (by omega), if_pos rfl])
      have h6 := hnew 0
      rw [h5, mul_zero] at h6
      have h7 : (g : ℤ) * (q.at' 1 / g) = q.at' 1 := Int.mul_ediv_cancel' (Int.dvd_of_emod_eq_zero h4)
      rw [h7] at h6
      have h8 : dot q (hom x) = 0 := by rw [dot_hom]; exact h6.symm
      exact ⟨⟨h8.ge, fun _ => h8⟩, fun _ h => absurd h3 h, fun h => absurd h3 h⟩
    · have hg : (0 : ℚ) < g := by exact_mod_cast (by omega : 0 < g)
      have h6 := hnew (q.at' 0)
      have h7 : (g : ℤ) * (q.at' 1 / g) ≤ q.at' 1 := Int.mul_ediv_self_le (by omega)
      have h7' : (((g : ℤ) * (q.at' 1 / g) : ℤ) : ℚ) ≤ (q.at' 1 : ℚ) := by exact_mod_cast h7
      have h8 : (g : ℚ) * dot (Row.ofFun (n + 2) fun j => if j = 0 then q.at' 0 else q.at' j / g) (hom x) ≤ dot q (hom x) := by
        rw [h6, dot_hom q x]; linarith
      intro h
      refine ⟨⟨(mul_nonneg hg.le h.1).trans h8, fun h => absurd h h3⟩, fun h _ => (mul_pos hg h).trans_le h8, fun _ => ?_⟩
      rw [at_ofFun, if_pos (by omega), if_pos rfl]; exact h3
    · exact fun h => ⟨h, fun h _ => h, fun h => h⟩
  · rw [if_neg h1]
    obtain ⟨a, b, _, g, hg, e⟩ := dot_normalize hq
    have hg' : (0 : ℚ) < g := by exact_mod_cast hg
    intro h
    refine ⟨⟨by rw [e]; exact mul_nonneg hg'.le h.1, fun h0 => ?_⟩, fun h0 _ => by rw [e]; exact mul_pos hg' h0, fun h0 => by rw [a]; exact h0⟩
    rw [e, h.2 (by rw [a]; exact h0), mul_zero]

theorem finishCons_back {intdim : ℕ} {typ : ConsTyp ℚ} (hty : typ = .eq ∨ typ = .supeq ∨ typ = .sup) {q : Row}
    (hq : ∀ j, n + 2 ≤ j → q.at' j = 0) {x : Fin n → ℚ} (h : RowSat (finishCons n intdim typ q) x) :
    ((typ = .sup → 0 < dot (finishCons n intdim typ q) (hom x)) → Lincons.Rel typ (dot q (hom x))) ∧
    (typ = .sup → 0 ≤ dot q (hom x) ∧ (finishCons n intdim typ q).at' 0 ≠ 0) := by
  obtain ⟨a, b, _, g, hg, e⟩ := dot_normalize hq
  have hg' : (0 : ℚ) < g := by exact_mod_cast hg
  set p := Apron.Poly.normalize q (n + 2) with hp
  have hb : ∀ s : ℤ, ∀ j, n + 2 ≤ j → (p.setStatus s).at' j = 0 := by
    intro s j hj
    cases j with
    | zero => omega
    | succ j => rw [at_setStatus_succ]; exact b _ hj
  revert h
  rw [finishCons, ← hp]
  set p' := p.setStatus (if typ = .eq then 0 else 1) with hp'
  have hd' : dot p' (hom x) = dot p (hom x) := by rw [hp', dot_setStatus]
  by_cases hs : typ = .sup ∧ rowIsInt n intdim p' = true
  · rw [if_pos hs]
    intro h
    have hst : (Row.ofFun (n + 2) fun j => if j = 1 then p'.at' 1 - 1 else p'.at' j).at' 0 ≠ 0 := by
      rw [at_ofFun, if_pos (by omega), if_neg (by omega), hp', at_setStatus_zero, hs.1]; simp
    obtain ⟨⟨h1, _⟩, _, h3⟩ := normConsInt_back (fun j hj => by rw [at_ofFun, if_neg (by omega)]) h
    have hnew : dot (Row.ofFun (n + 2) fun j => if j = 1 then p'.at' 1 - 1 else p'.at' j) (hom x) = dot p' (hom x) - 1 := by
      rw [dot_hom, dot_hom p' x, at_ofFun, if_pos (by omega), if_pos rfl]
      push_cast
      rw [add_sub_right_comm]
      congr 1
      refine Finset.sum_congr rfl fun d _ => ?_
      rw [at_ofFun, if_pos (by omega), if_neg (by omega)]
    rw [hnew, hd'] at h1
    have h4 : 0 < dot q (hom x) := by rw [e]; exact mul_pos hg' (by linarith)
    rw [hs.1]
    exact ⟨fun _ => h4, fun _ => ⟨h4.le, h3 hst⟩⟩
  · rw [if_neg hs]
    intro h
    obtain ⟨⟨h1, h2⟩, h3, h4⟩ := normConsInt_back (hb _) h
    have hst : typ ≠ .eq → p'.at' 0 ≠ 0 := by
      intro ht; rw [hp', at_setStatus_zero, if_neg ht]; simp
    refine ⟨fun hsup => ?_, fun ht => ⟨?_, ?_⟩⟩
    · rcases hty with rfl | rfl | rfl
      · have := h2 (by rw [at_setStatus_zero, if_pos rfl])
        rw [hd'] at this
        change (_ : ℚ) = 0
        rw [e, this, mul_zero]
      · rw [hd'] at h1
        change (0 : ℚ) ≤ _
        rw [e]; exact mul_nonneg hg'.le h1
      · have := h3 (hsup rfl) (hst (by simp))
        rw [hd'] at this
        change (0 : ℚ) < _
        rw [e]; exact mul_pos hg' this
    · rw [hd'] at h1; rw [e]; exact mul_nonneg hg'.le h1
    · exact h4 (hst (by rw [ht]; simp))

/-! ## Generators satisfying a vector strictly -/

theorem genSatVector_strict {F : List Row} (hF : PosCone (K := ℚ) (n := n) (GenM F)) {tab : Row} (ht : tab.at' 0 ≠ 0)
    (h : genSatVector n F tab true = true) {y : Fin (n + 1) → ℚ} (hy : GenM F y) : 0 ≤ dot tab y ∧ (0 < y 0 → 0 < dot tab y) := by
  rw [genSatVector, if_neg ht, List.all_eq_true] at h
  have hfirst := fun q hq => gen_first hF (q := q) hq
  have key : 0 ≤ y 0 ∧ 0 ≤ dot tab y ∧ (0 < y 0 → 0 < dot tab y) := by
    refine Gen.le (G := fun y : Fin (n + 1) → ℚ => 0 ≤ y 0 ∧ 0 ≤ dot tab y ∧ (0 < y 0 → 0 < dot tab y)) ⟨?_, ?_, ?_⟩ ?_ ?_ hy
    · rw [← lin_apply, map_zero]; simp
    · rintro y z ⟨a1, a2, a3⟩ ⟨b1, b2, b3⟩
      rw [← lin_apply, map_add, lin_apply, lin_apply]
      refine ⟨add_nonneg a1 b1, add_nonneg a2 b2, fun h => ?_⟩
      rcases a1.lt_or_eq with h1 | h1
      · have := a3 h1; linarith
      · have h' : 0 < z 0 := by
          have : 0 < y 0 + z 0 := h
          rwa [← h1, zero_add] at this
        have := b3 h'; linarith
    · rintro y t ht ⟨a1, a2, a3⟩
      rw [← lin_apply, map_smul, smul_eq_mul, lin_apply]
      refine ⟨mul_nonneg ht a1, mul_nonneg ht a2, fun h => ?_⟩
      have : 0 < t * y 0 := h
      have h1 : 0 < t := by
        rcases ht.lt_or_eq with h1 | h1
        · exact h1
        · rw [← h1, zero_mul] at this; exact absurd this (lt_irrefl _)
      exact mul_pos h1 (a3 ((pos_iff_pos_of_mul_pos this).1 h1))
    · intro q hq
      rw [eqRows, List.mem_filter] at hq
      have h0 : q.at' 0 = 0 := by simpa using hq.2
      have hv := h q hq.1
      have e : dot tab (toV ℚ (n + 1) q) = 0 := by
        rw [dot_toV', vprod_comm]
        by_cases hneg : vprod (n + 1) q tab < 0
        · rw [if_pos hneg] at hv; cases hv
        · rw [if_neg hneg, if_pos h0] at hv
          have : vprod (n + 1) q tab = 0 := by simpa using hv
          rw [this]; simp
      have e0 : toV ℚ (n + 1) q 0 = 0 := by rw [toV_zero, (hfirst q hq.1).2 h0]; simp
      have e' : dot tab (-toV ℚ (n + 1) q) = 0 := by rw [← lin_apply, map_neg, lin_apply, e, neg_zero]
      rw [e, e0, e']
      simp [e0]
    · intro q hq
      rw [ineqRows, List.mem_filter] at hq
      have h0 : q.at' 0 ≠ 0 := by simpa using hq.2
      have hv := h q hq.1
      have e : 0 < vprod (n + 1) q tab := by
        by_cases hneg : vprod (n + 1) q tab < 0
        · rw [if_pos hneg] at hv; cases hv
        · rw [if_neg hneg, if_neg h0] at hv
          have : vprod (n + 1) q tab ≠ 0 := by simpa using hv
          omega
      have e' : 0 < dot tab (toV ℚ (n + 1) q) := by rw [dot_toV', vprod_comm]; exact_mod_cast e
      refine ⟨?_, e'.le, fun _ => e'⟩
      rw [toV_zero]; exact_mod_cast (hfirst q hq.1).1
  exact key.2

end Apron.Poly
