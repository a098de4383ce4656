import Verif.Props.FppWiden
import Verif.Props.FppPredInst

/-!
# C160: instances
-/

set_option autoImplicit false
set_option linter.unusedSectionVars false
set_option linter.ambiguousOpen false

namespace Apron.Props

open Apron.Fpp

/-- One variable: the optimum by the rows `c x ≤ d` with the sign of the objective; enough for the cases
below. -/
def fwLP (rs : List (FRow ℚ)) (a : ℕ → ℚ) : LPEnd ℚ :=
  match rs.find? fun r => decide (0 < r.2 0 * a 0) with
  | some r => .opt (a 0 / r.2 0 * r.1)
  | none => .unbnd

theorem fwLP_right : LPRight 1 fwLP := by
  intro rs a mu h ρ hs
  unfold fwLP at h
  cases hf : rs.find? fun r => decide (0 < r.2 0 * a 0) with
  | none => rw [hf] at h; cases h
  | some r =>
    rw [hf] at h
    injection h with h
    have hr := hs r (List.mem_of_find?_eq_some hf)
    have hpos : 0 < r.2 0 * a 0 := by simpa using List.find?_some hf
    have h0 : r.2 0 ≠ 0 := by intro e; rw [e] at hpos; simp at hpos
    have hq : 0 ≤ a 0 / r.2 0 := by
      have : a 0 / r.2 0 = (r.2 0 * a 0) / (r.2 0 * r.2 0) := by field_simp
      rw [this]
      exact div_nonneg hpos.le (mul_self_nonneg _)
    simp [FSat] at hr
    have := mul_le_mul_of_nonneg_left hr hq
    have e : a 0 / r.2 0 * (r.2 0 * ρ 0) = a 0 * ρ 0 := by field_simp
    rw [e] at this
    simp [← h]
    exact this

/-- `0 ≤ x ≤ 1`, `0 ≤ x ≤ 2` and `0 ≤ x`. -/
def fwP : FPol ℚ := ⟨.gen, [(1, fun _ => 1), (0, fun _ => -1)], ⟨fun _ => some 0, fun _ => some 1⟩⟩
def fwQ : FPol ℚ := ⟨.gen, [(2, fun _ => 1), (0, fun _ => -1)], ⟨fun _ => some 0, fun _ => some 2⟩⟩

def pShow (p : FPol ℚ) : List (ℚ × ℚ) := p.cons.map fun r => (r.1, r.2 0)

/-- `[0, 1]` widened by `[0, 2]` is `0 ≤ x`. -/
example : (fppWiden 1 fwLP fwP fwQ).map pShow = some [(0, -1)] := by decide +kernel
/-- `-3 x ≤ 0`, another way to write the row `-x ≤ 0`, is kept from the second argument. -/
example : (fppWiden 1 fwLP fwP ⟨.gen, [(2, fun _ => 1), (0, fun _ => -3)], fwQ.bnds⟩).map pShow =
    some [(0, -1), (0, -3)] := by decide +kernel

theorem fwP_mem (ρ : ℕ → ℚ) : FMem 1 fwP ρ ↔ ρ 0 ≤ 1 ∧ 0 ≤ ρ 0 := by simp [FMem, fwP, FSat]
theorem fwQ_mem (ρ : ℕ → ℚ) : FMem 1 fwQ ρ ↔ ρ 0 ≤ 2 ∧ 0 ≤ ρ 0 := by simp [FMem, fwQ, FSat]

example := fun w h => C160_widening_sound 1 fwLP fwLP_right fwP fwQ w
  (by intro ρ h; rw [fwP_mem] at h; rw [fwQ_mem]; exact ⟨by linarith [h.1], h.2⟩) h (fun _ => 2)
  (Or.inr ((fwQ_mem _).2 ⟨by norm_num, by norm_num⟩))
example := C160_widening_rows 1 fwLP fwLP_right fwP ⟨.gen, [(2, fun _ => 1), (0, fun _ => -3)], fwQ.bnds⟩
example := C160_widening_many 1 fwLP fwP ⟨.gen, List.replicate 1000 (0, fun _ => 1), fwQ.bnds⟩
  (by decide +kernel) (by decide +kernel) (List.length_replicate (n := 1000)).ge

/-- The meet of `[0, 1]` and `[0, 2]`, and of `[0, 1]` and `5 ≤ x`. -/
example : pShow (fppMeet 1 (fun _ => false) fwP fwQ) = [(1, 1), (0, -1), (2, 1), (0, -1)] := by decide +kernel
example : (fppMeet 1 (fun _ => false) fwP ⟨.gen, [(-5, fun _ => -1)], ⟨fun _ => some 5, fun _ => none⟩⟩).flag =
    .empty := by decide +kernel
example := C160_meet 1 (fun _ => false) fwP fwQ (by simp)
  (by intro ρ h k hk; rw [fwP_mem] at h; have : k = 0 := by omega
      subst this; simp [fwP, h.1, h.2])
  (by intro ρ h k hk; rw [fwQ_mem] at h; have : k = 0 := by omega
      subst this; simp [fwQ, h.1, h.2])

/-- The widening needs the inclusion of the first argument in the second: `x ≤ 5` widened by `x ≤ 3` is
`x ≤ 3`. -/
theorem C160_widening_needs_inclusion :
    (fppWiden 1 fwLP (fpLe 5) (fpLe 3)).map pShow = some [(3, 1)] ∧ FMem 1 (fpLe 5) (fun _ => 4) ∧
      ¬ FMem 1 (fpLe 3) (fun _ => 4) := by
  refine ⟨by decide +kernel, (fpLe_mem 5 4).2 (by norm_num), ?_⟩
  rw [fpLe_mem]
  norm_num

end Apron.Props
