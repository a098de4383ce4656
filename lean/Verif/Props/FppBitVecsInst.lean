import Verif.Props.FppBitVecs
import Verif.Props.FppElimInst

/-!
# C156: instances and a defect
-/

set_option autoImplicit false
set_option linter.unusedSectionVars false
set_option linter.ambiguousOpen false

namespace Apron.Props

open Apron.Fpp

/-- Two bytes each: `{0, 9}`, `{9}`, `{0, 3}`, `{0, 3, 15}`. -/
def fbV : ℕ → BV := fun i =>
  if i = 0 then [1#8, 2#8] else if i = 1 then [0#8, 2#8] else if i = 2 then [9#8, 0#8] else [9#8, 128#8]

theorem fbV_len (i : ℕ) : (fbV i).length = 2 := by unfold fbV; split_ifs <;> rfl

example : bvOr (fbV 0) (fbV 2) = [9#8, 2#8] := by decide +kernel
example : BMem 9 (fbV 0) ∧ ¬ BMem 3 (fbV 0) ∧ BMem 15 (fbV 3) := by decide +kernel
example : bvOnes (fbV 3) = 3 := by decide +kernel
example : bvUnit 2 15 = [0#8, 128#8] := by decide +kernel
example := C156_or (fbV 0) (fbV 2) (by decide +kernel)
example : ∀ m, BMem m (fbV 2) → BMem m (fbV 3) := (C156_subset _ _ (by decide +kernel)).1 (by decide +kernel)
example : ∃ m, BMem m (fbV 0) ∧ BMem m (fbV 3) := (C156_and_test _ _ (by decide +kernel)).1 (by decide +kernel)
/-- Rows 0 and 3 are removed. -/
example : kohler fbV 4 = some [1, 2] := by decide +kernel
example := C156_kohler fbV 2 4 (by omega) (fun i _ => fbV_len i)
/-- With one variable eliminated only row 3, of three bits, is compared with all the rows. -/
example : kohlerLazy fbV 4 1 1 = [0, 1, 2] := by decide +kernel
example := C156_kohler_lazy fbV 2 4 1 1 (by omega) (fun i _ => fbV_len i)
/-- The history of the sum of the first two rows of `feRows`. -/
example := C156_history_combine fe8 feInt 1000000 2 0 feTop (fun m => feRows.getD m (0, fun _ => 0))
  (bvUnit 1 0) (bvUnit 1 1) (by decide +kernel) (5, fun _ => 1) (-1, fun k => if k = 0 then -3 else 1)
  (by norm_num) (by norm_num) (C156_history_start 2 1 feTop _ 0 (by omega))
  (C156_history_start 2 1 feTop _ 1 (by omega))

/-- `bv_redundancy_removal_firstKs_byKohler` reads outside its arrays when there is no vector:
`bv->nvecs-1` is the greatest `unsigned` (`fppol/bv.c:161-164`). -/
theorem C156_kohler_no_vector (v : ℕ → BV) : kohler v 0 = none := rfl

/-- The lazy variant keeps rows whose vectors include one another, when they have few bits: row 1
is included in row 0. -/
theorem C156_kohler_lazy_not_minimal :
    0 ∈ kohlerLazy fbV 2 0 2 ∧ 1 ∈ kohlerLazy fbV 2 0 2 ∧ ∀ m, BMem m (fbV 1) → BMem m (fbV 0) :=
  ⟨by decide +kernel, by decide +kernel, (C156_subset _ _ (by decide +kernel)).1 (by decide +kernel)⟩

end Apron.Props
