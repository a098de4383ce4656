import Verif.Props.FppHull
import Verif.Props.FppElimInst

/-!
# C158: instances
-/

set_option autoImplicit false
set_option linter.unusedSectionVars false
set_option linter.ambiguousOpen false

namespace Apron.Props

open Apron.Fpp

/-- `1 ≤ x ≤ 2`. -/
def fhA : List (FRow ℚ) := [(2, fun _ => 1), (-1, fun _ => -1)]
/-- `5 ≤ x ≤ 7`. -/
def fhB : List (FRow ℚ) := [(7, fun _ => 1), (-5, fun _ => -1)]
def fhBA : Bnds ℚ := ⟨fun _ => some 1, fun _ => some 2⟩
def fhBB : Bnds ℚ := ⟨fun _ => some 5, fun _ => some 7⟩

/-- The system of the hull of the two intervals, over `x`, `y₁`, `σ₁`. -/
example : (hullRows 1 fhA fhB).map (fun r => (r.1, (List.range 3).map r.2)) =
    [(0, [0, 1, -2]), (0, [0, -1, 1]), (7, [1, -1, 7]), (-5, [-1, 1, -5]), (0, [0, 0, -1]),
     (1, [0, 0, 1])] := by decide +kernel
/-- The bounds: `x ∈ [1, 7]`, `y₁ ∈ [0, 2]`, `σ₁ ∈ [0, 1]`. -/
example : (List.range 3).map (fun k => ((hullBnds 1 fhBA fhBB).lo k, (hullBnds 1 fhBA fhBB).hi k)) =
    [(some 1, some 7), (some 0, some 2), (some 0, some 1)] := by decide +kernel
/-- The rows that are left say `x ≤ 7` and `1 ≤ x` (and `-3 ≤ x`). -/
example : eShow 1 (elimAll fe8 feInt 1000000 3 (hullBnds 1 fhBA fhBB) (fun _ l => l) [1, 2] (hullRows 1 fhA fhB)) =
    some [(7, [1]), (3, [-1]), (7, [1]), (-1, [-1]), (-1, [-1])] := by decide +kernel

theorem fhA_sat : ∀ r ∈ fhA, FSat 1 r.1 r.2 fun _ => 2 := by
  intro r hr
  simp only [fhA, List.mem_cons, List.not_mem_nil, or_false] at hr
  rcases hr with rfl | rfl <;> simp [FSat]
theorem fhB_sat : ∀ r ∈ fhB, FSat 1 r.1 r.2 fun _ => 6 := by
  intro r hr
  simp only [fhB, List.mem_cons, List.not_mem_nil, or_false] at hr
  rcases hr with rfl | rfl <;> simp [FSat] <;> norm_num
theorem fhA_in : InBnds 1 fhBA fun _ => 2 := by intro k _; simp [fhBA]
theorem fhB_in : InBnds 1 fhBB fun _ => 6 := by intro k _; simp [fhBB]; norm_num

/-- `x = 2 / 4 + 3 * 6 / 4 = 5`, the least point of the second interval. -/
example := C158_hull_sound 1 fhA fhB fhBA fhBB (fun _ => 2) (fun _ => 6) (1/4) (by norm_num) (by norm_num)
  fhA_in fhB_in fhA_sat fhB_sat
/-- With rounding to the eighths. -/
example := C158_join_sound fe8 (by simp [fe8]) feInt 1000000 1 fhA fhB fhBA fhBB
  (fun _ l => l.take 4) (fun _ _ _ h => List.mem_of_mem_take h) [1, 2]
  (by intro j h1 h2; have : j = 1 ∨ j = 2 := by omega
      simpa using this)
  (fun _ => 2) (fun _ => 6) (3/4) (by norm_num) (by norm_num) fhA_in fhB_in fhA_sat fhB_sat
/-- The point 3, between the intervals: `y₁ = 3 / 2`, `σ₁ = 3 / 4`, `x₁ = 2`, `x₂ = 6`. -/
example := C158_hull_exact 1 fhA fhB (fun _ => 3) (fun _ => 3/2) (3/4) (by norm_num) (by norm_num)
  ((C158_hull_system 1 fhA fhB _ _ _).2 ⟨by simp [fhA, lin]; norm_num, by simp [fhB, lin]; norm_num,
    by norm_num, by norm_num⟩)

/-- `C158_hull_exact` needs `σ₁ < 1`: the join of `x = 0` with the whole line has the solution `x = 5`
with `σ₁ = 1`, where the weight of the second argument is 0. -/
theorem C158_hull_closure :
    ∀ r ∈ hullRows 1 [((0 : ℚ), fun _ => (1 : ℚ)), (0, fun _ => -1)] [], FSat 3 r.1 r.2
      (hullPt 1 (fun _ => 5) (fun _ => 0) 1) :=
  (C158_hull_system 1 _ _ _ _ _).2 ⟨by simp [lin], by simp, by norm_num, by norm_num⟩

/-- `x + 63 / 64 σ ≤ 3` becomes `x + σ ≤ 3 + 1 / 64`. -/
example : (reshapeSigma (Rd.exact ℚ) (fun q => round q) (1/32) 1
    (3, fun k => if k = 0 then 1 else 63/64)).1 = 3 + 1/64 := by decide +kernel
example := C158_reshape_sigma (Rd.exact ℚ) (fun q => round q) (1/32) 2 1 (by omega)
  (3, fun k => if k = 0 then 1 else 63/64) rfl (fun _ => 1) (by norm_num) (by norm_num)
  (by simp [FSat, Finset.sum_range_succ]; norm_num)

end Apron.Props
