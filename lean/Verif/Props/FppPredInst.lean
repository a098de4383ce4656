import Verif.Props.FppPred
import Verif.Props.FppElimInst

/-!
# C159: instances and defects
-/

set_option autoImplicit false
set_option linter.unusedSectionVars false
set_option linter.ambiguousOpen false

namespace Apron.Props

open Apron.Fpp

/-- `x ≤ c`, one variable, with its bound. -/
def fpLe (c : ℚ) : FPol ℚ := ⟨.gen, [(c, fun _ => 1)], ⟨fun _ => none, fun _ => some c⟩⟩

theorem fpLe_mem (c x : ℚ) : FMem 1 (fpLe c) (fun _ => x) ↔ x ≤ c := by simp [FMem, fpLe, FSat]

/-- `x + y ≤ 3`, `x ≤ 1`, `y ≤ 2`, with the bounds of `x` and `y`. -/
def fpP : FPol ℚ := ⟨.gen, [(3, fun _ => 1), (1, fun k => if k = 0 then 1 else 0), (2, fun k => if k = 0 then 0 else 1)],
  ⟨fun _ => none, fun k => some (if k = 0 then 1 else 2)⟩⟩
/-- `2 x + y ≤ 4`, `x + y ≤ 3`. -/
def fpQ : FPol ℚ := ⟨.gen, [(4, fun k => if k = 0 then 2 else 1), (3, fun _ => 1)],
  ⟨fun _ => none, fun _ => none⟩⟩
/-- A solver that knows the optimum of `2 x + y` over `fpP`. -/
def fpLP : (ℕ → ℚ) → LPEnd ℚ := fun a => if a 0 = 2 ∧ a 1 = 1 then .opt 4 else .null

theorem fpLP_sound : LPSound 2 fpP fpLP := by
  intro a mu h ρ hm
  unfold fpLP at h
  split_ifs at h with c
  injection h with h
  simp only [FMem, fpP, List.mem_cons, List.not_mem_nil, or_false, forall_eq_or_imp, forall_eq, FSat,
    Finset.sum_range_succ, Finset.range_zero, Finset.sum_empty] at hm
  simp [Finset.sum_range_succ, c.1, c.2, ← h]
  simp at hm
  linarith [hm.1, hm.2.1, hm.2.2]

example : leqSyn 2 fpP.cons fpQ.cons = 2 := by decide +kernel
example : leqSyn 2 fpP.cons [(3, fun _ => 1), (5, fun k => if k = 0 then 0 else 1)] = 1 := by decide +kernel
example := C159_leq_syntactic 2 fpP.cons [(3, fun _ => 1), (5, fun k => if k = 0 then 0 else 1)]
  (by decide +kernel)
/-- `C159_rlp_sound`. -/
example := C159_rlp_sound 2 fpLP fpP fpQ fpLP_sound (by decide +kernel) (by decide +kernel)

/-- A solver for `fpP` and `2 x + y`, `x + y`. -/
def fpLP2 : (ℕ → ℚ) → LPEnd ℚ := fun a => if a 0 = 2 ∧ a 1 = 1 then .opt 4 else if a 0 = 1 ∧ a 1 = 1 then .opt 3 else .null

theorem fpLP2_sound : LPSound 2 fpP fpLP2 := by
  intro a mu h ρ hm
  simp only [FMem, fpP, List.mem_cons, List.not_mem_nil, or_false, forall_eq_or_imp, forall_eq, FSat,
    Finset.sum_range_succ, Finset.range_zero, Finset.sum_empty] at hm
  simp at hm
  unfold fpLP2 at h
  split_ifs at h with c c'
  · injection h with h
    simp [Finset.sum_range_succ, c.1, c.2, ← h]
    linarith [hm.1, hm.2.1, hm.2.2]
  · injection h with h
    simp [Finset.sum_range_succ, c'.1, c'.2, ← h]
    linarith [hm.1, hm.2.1, hm.2.2]

/-- `C159_is_leq_partial`. -/
example : fppIsLeq 2 (1/1000) fpLP2 fpP fpQ = 1 := by decide +kernel
example := C159_is_leq_partial 2 (1/1000) fpLP2 fpP fpQ fpLP2_sound
  (by
    intro r hr
    simp only [fpQ, List.mem_cons, List.not_mem_nil, or_false] at hr
    rcases hr with rfl | rfl <;> simp [fpLP2]) (by decide +kernel) (by decide +kernel)
    (fun _ => 1) (by simp [FMem, fpP, FSat, Finset.sum_range_succ]; norm_num)
example := C159_is_leq_refl 2 (1/1000) (fun _ => .null) fpP.cons fpP.bnds (by decide +kernel)
/-- `C159_is_eq`: the rows in another order. -/
example := C159_is_eq 2 fpQ ⟨.gen, [(3, fun _ => 1), (4, fun k => if k = 0 then 2 else 1)], fpQ.bnds⟩
  (by decide +kernel) (by decide +kernel)

/-! ## Defects -/

/-- `fpp_is_leq` answers 2, which is true in C, when a linear program fails: whatever the arguments
(without a row in common). Here the points of the first argument have `x + y ≤ 3`, and the second
argument is `x + 2 y ≤ -100`. -/
theorem C159_is_leq_unknown :
    fppIsLeq 2 (1/1000) (fun _ => .null) fpP ⟨.gen, [(-100, fun k => if k = 0 then 1 else 2)], feTop⟩ = 2 ∧
    FMem 2 fpP (fun _ => 0) ∧
    ¬ FMem 2 ⟨.gen, [(-100, fun k => if k = 0 then 1 else 2)], feTop⟩ (fun _ => (0 : ℚ)) := by
  refine ⟨by decide +kernel, ?_, ?_⟩
  · simp [FMem, fpP, FSat]
  · simp [FMem, FSat]

/-- A linear program that ends in another way than with an optimum or as unbounded (`GLP_UNDEF`,
`GLP_FEAS`, ...) counts as entailment. -/
theorem C159_is_leq_other :
    fppIsLeq 2 (1/1000) (fun _ => .other) fpP ⟨.gen, [(-100, fun k => if k = 0 then 1 else 2)], feTop⟩ = 1 ∧
    FMem 2 fpP (fun _ => 0) ∧
    ¬ FMem 2 ⟨.gen, [(-100, fun k => if k = 0 then 1 else 2)], feTop⟩ (fun _ => (0 : ℚ)) := by
  refine ⟨by decide +kernel, ?_, ?_⟩
  · simp [FMem, fpP, FSat]
  · simp [FMem, FSat]

/-- With the tolerance of the code (`EPSILON` is 1.0e-3) and right optima: `2 x + y ≤ 10004` is taken to
be in `2 x + y ≤ 10000`, given as `4 x + 2 y ≤ 20000`. -/
theorem C159_is_leq_epsilon :
    fppIsLeq 2 (1/1000) (fun _ => .opt 20008) ⟨.gen, [(10004, fun k => if k = 0 then 2 else 1)], feTop⟩
      ⟨.gen, [(20000, fun k => if k = 0 then 4 else 2)], feTop⟩ = 1 ∧
    (∀ ρ : ℕ → ℚ, FMem 2 ⟨.gen, [(10004, fun k => if k = 0 then 2 else 1)], feTop⟩ ρ →
      ∑ k ∈ Finset.range 2, (if k = 0 then (4 : ℚ) else 2) * ρ k ≤ 20008) ∧
    FMem 2 ⟨.gen, [((10004 : ℚ), fun k => if k = 0 then 2 else 1)], feTop⟩ (fun k => if k = 0 then 5002 else 0) ∧
    ¬ FMem 2 ⟨.gen, [((20000 : ℚ), fun k => if k = 0 then 4 else 2)], feTop⟩
      (fun k => if k = 0 then 5002 else 0) := by
  refine ⟨by decide +kernel, ?_, ?_, ?_⟩
  · intro ρ h
    simp [FMem, FSat, Finset.sum_range_succ] at h
    simp [Finset.sum_range_succ]
    linarith
  · simp [FMem, FSat, Finset.sum_range_succ]; norm_num
  · simp [FMem, FSat, Finset.sum_range_succ]; norm_num

/-- `fpp_is_eq` looks for the rows of the first argument only: with a row twice it says that `x ≤ 1`
and `x ≤ 1, -x ≤ 0` are equal. -/
theorem C159_is_eq_duplicates :
    eqSyn 1 ⟨.gen, [((1 : ℚ), fun _ => 1), (1, fun _ => 1)], feTop⟩
      ⟨.gen, [(1, fun _ => 1), (0, fun _ => -1)], feTop⟩ = true ∧
    FMem 1 ⟨.gen, [((1 : ℚ), fun _ => 1), (1, fun _ => 1)], feTop⟩ (fun _ => -1) ∧
    ¬ FMem 1 ⟨.gen, [((1 : ℚ), fun _ => 1), (0, fun _ => -1)], feTop⟩ (fun _ => -1) := by
  refine ⟨by decide +kernel, ?_, ?_⟩ <;> simp [FMem, FSat]

/-- `fpp_sat_lincons` says that every constraint is satisfied. -/
theorem C159_sat_lincons :
    fppSatLincons (fpLe 1) (0, fun _ => 1) = true ∧ FMem 1 (fpLe 1) (fun _ => 1) ∧
    ¬ FSat 1 (0 : ℚ) (fun _ => 1) (fun _ => 1) := by
  refine ⟨rfl, (fpLe_mem 1 1).2 le_rfl, ?_⟩
  simp [FSat]

end Apron.Props
