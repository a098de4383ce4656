import Verif.Props.FppLazy
import Verif.Props.FppBitVecsInst

/-!
# C157: instances
-/

set_option autoImplicit false
set_option linter.unusedSectionVars false
set_option linter.ambiguousOpen false

namespace Apron.Props

open Apron.Fpp

/-- The rows of a result and their vectors. -/
def lShow (n : ℕ) : LRes ℚ → Option (List (ℚ × List ℚ) × List BV)
  | .rows l v => some (l.map fun r => (r.1, (List.range n).map r.2), v)
  | _ => none

/-- The vectors of four rows at the start. -/
def flV : List BV := (List.range 4).map (bvUnit 1)

/-- Elimination of `x` from `feRows`: the row without `x` comes first. -/
example : lShow 2 (lazyElim fe8 feInt 1000000 2 0 1 feTop feRows flV) =
    some ([(4, [0, 1]), (14, [0, 4]), (5, [0, -2])], [[8#8], [3#8], [6#8]]) := by decide +kernel
/-- `x + y ≤ 1`, `-x - y ≤ 0`, `-x ≤ 0`: the first pair is a tautology, the vector of the other stays. -/
example : lShow 2 (lazyElim fe8 feInt 1000000 2 0 1 feTop
    [(1, fun _ => 1), (0, fun _ => -1), (0, fun k => if k = 0 then -1 else 0)] (flV.take 3)) =
    some ([(1, [0, 1])], [[5#8]]) := by decide +kernel
/-- Kohler's rule drops a pair that includes the row `y ≤ 4` of vector `{0}`. -/
example : lShow 2 (lazyElim fe8 feInt 1000000 2 0 0 feTop
    [(4, fun k => if k = 0 then 0 else 1), (5, fun _ => 1), (0, fun k => if k = 0 then -1 else 1)]
    [[1#8], [3#8], [4#8]]) = some ([(4, [0, 1])], [[1#8]]) := by decide +kernel
example := C157_lazy_sound fe8 feInt 1000000 2 0 1 feTop feRows flV (by decide +kernel) fePt
  (by intro k _; simp [feTop]) (by
    intro r hr
    simp only [feRows, List.mem_cons, List.not_mem_nil, or_false] at hr
    rcases hr with rfl | rfl | rfl | rfl <;> simp [FSat, fePt, Finset.sum_range_succ] <;> norm_num)
example := C157_lazy_history fe8 feInt 1000000 2 0 1 1 feTop (rowAt feRows) feRows flV
  (.cons ⟨C156_history_start 2 1 feTop (rowAt feRows) 0 (by omega), rfl⟩
    (.cons ⟨C156_history_start 2 1 feTop (rowAt feRows) 1 (by omega), rfl⟩
      (.cons ⟨C156_history_start 2 1 feTop (rowAt feRows) 2 (by omega), rfl⟩
        (.cons ⟨C156_history_start 2 1 feTop (rowAt feRows) 3 (by omega), rfl⟩ .nil))))
example := C157_lazy_zero_rows fe8 feInt 1000000 2 0 1 feTop feRows flV

end Apron.Props
