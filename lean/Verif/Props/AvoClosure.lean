import Verif.Avo.Top
import Mathlib.Tactic.IntervalCases

/-!
# Property theorems: closure of absolute-value octagons (C137)

Specification: `SSat dim M x` - the point `x` satisfies every stored constraint, strict or not,
between the variables and their absolute values.  `Diag` says that the diagonal cells hold at most
`0`; every matrix allocated by the library starts with the diagonal `0` (`avo_hmat_alloc_top`).
-/

set_option autoImplicit false
set_option linter.unusedSectionVars false
set_option linter.ambiguousOpen false

namespace Apron
open Bound Oct Avo
variable {K : Type*} [LinearOrder K] [Field K] [IsStrictOrderedRing K]

/-- `avo_hmat_close`, any algorithm, any rounding: a matrix with a point is not declared empty and
the point is kept.  The strong closure needs at most 30 variables (see `C137_strong_31`). -/
theorem C137_close_keeps_points (R : Rnd K) (alg : ℤ) (dim : ℕ) (halg : alg = 2 → dim ≤ 30)
    (M : SMem K) (hd : Diag (2 * dim) M) (x : ℕ → K) (h : SSat dim M x) :
    (Avo.close R alg dim M).1 = false ∧ SSat dim (Avo.close R alg dim M).2 x := by
  have := (close_ref (x := x) R (θ := pinf) (by simp) halg M).1 hd (gsatT_pinf.2 h)
  exact ⟨this.1, gsatT_pinf.1 this.2⟩

/-- `avo_hmat_close` adds no point -/
theorem C137_close_adds_nothing (R : Rnd K) (alg : ℤ) (dim : ℕ) (halg : alg = 2 → dim ≤ 30)
    (M : SMem K) (x : ℕ → K) (h : SSat dim (Avo.close R alg dim M).2 x) : SSat dim M x :=
  gsatT_pinf.1 ((close_ref (x := x) R (θ := pinf) (by simp) halg M).2.sat (gsatT_pinf.2 h))

/-- every constraint becomes at least as strong -/
theorem C137_close_tightens (R : Rnd K) (alg : ℤ) (dim : ℕ) (halg : alg = 2 → dim ≤ 30)
    (M : SMem K) (q : ℕ) : ((Avo.close R alg dim M).2 q).1 ≤ (M q).1 :=
  ((close_ref (x := fun _ => 0) R (θ := pinf) (by simp) halg M).2 q).fst

/-- `avo_hmat_close_incremental` around any variable, same three facts -/
theorem C137_incremental_keeps_points (R : Rnd K) (alg : ℤ) (dim v : ℕ) (hv : v < dim)
    (M : SMem K) (hd : Diag (2 * dim) M) (x : ℕ → K) (h : SSat dim M x) :
    (Avo.closeIncremental R alg dim M v).1 = false ∧
      SSat dim (Avo.closeIncremental R alg dim M v).2 x := by
  have := (closeIncremental_ref (x := x) (alg := alg) R (θ := pinf) (by simp) hv M).1 hd (gsatT_pinf.2 h)
  exact ⟨this.1, gsatT_pinf.1 this.2⟩

theorem C137_incremental_adds_nothing (R : Rnd K) (alg : ℤ) (dim v : ℕ) (hv : v < dim)
    (M : SMem K) (x : ℕ → K) (h : SSat dim (Avo.closeIncremental R alg dim M v).2 x) :
    SSat dim M x :=
  gsatT_pinf.1 ((closeIncremental_ref (x := x) (alg := alg) R (θ := pinf) (by simp) hv M).2.sat
    (gsatT_pinf.2 h))

/-- `avo_hmat_s_step` (used by meet, join and the conversion of boxes) -/
theorem C137_s_step_keeps_points (R : Rnd K) (dim : ℕ) (M : SMem K) (hd : Diag (2 * dim) M)
    (x : ℕ → K) : ((Avo.sStep R dim M).1 = true → ¬ SSat dim M x) ∧
      (SSat dim (Avo.sStep R dim M).2 x ↔ SSat dim M x) := by
  have key := sStep_ref (dim := dim) (x := x) R (θ := pinf) (by simp) M
  refine ⟨fun hb hs => ?_, fun hs => gsatT_pinf.1 (key.2.sat (gsatT_pinf.2 hs)), fun hs => ?_⟩
  · have := (key.1 hd (gsatT_pinf.2 hs)).1
    rw [hb] at this; simp at this
  · exact gsatT_pinf.1 (key.1 hd (gsatT_pinf.2 hs)).2

/-- the point `x` satisfies every constraint when all are read as non-strict -/
def Avo.WSat (dim : ℕ) (M : SMem K) (x : ℕ → K) : Prop :=
  ∀ i j, i < 4 * dim → j / 2 ≤ i / 2 →
    fin (V (ext dim x) j - V (ext dim x) i) ≤ (M (matpos i j)).1

/-- **Defect.** The closures never use the strictness marks to decide emptiness: when all marks are
`0` or `+oo` (what the library writes) and the non-strict constraints have a common point, the matrix
is not declared empty, whatever the strict ones say. -/
theorem C137_strict_emptiness_undetected (R : Rnd K) (alg : ℤ) (dim : ℕ)
    (halg : alg = 2 → dim ≤ 30) (M : SMem K) (hd : Diag (2 * dim) M)
    (hm : ∀ q, fin 0 ≤ (M q).2) (x : ℕ → K) (h : WSat dim M x) :
    (Avo.close R alg dim M).1 = false := by
  refine ((close_ref (x := x) R (θ := fin 0) le_rfl halg M).1 hd fun i j hi hc => ⟨?_, fun hlt => ?_⟩).1
  · exact h i j (by omega) (by unfold Cell at hc; exact hc)
  · exact absurd (hm _) (not_le.2 hlt)

/-- the constraints `x < 5` and `x >= 5` -/
def Avo.strictClash : SMem ℚ := fun q =>
  if q = 2 then (fin 10, fin 0) else if q = 1 then (fin (-10), pinf) else Avo.allocTop 1 q

/-- it has no point but no closure finds out -/
theorem C137_strict_clash (R : Rnd ℚ) (alg : ℤ) :
    (∀ x, ¬ SSat 1 strictClash x) ∧ (Avo.close R alg 1 strictClash).1 = false := by
  constructor
  · intro x h
    have h1 := (h 1 0 (by decide) (by decide)).2 (by decide)
    have h2 := (h 0 1 (by decide) (by decide)).1
    have e1 : (strictClash (matpos 1 0)).1 = fin 10 := rfl
    have e2 : (strictClash (matpos 0 1)).1 = fin (-10) := rfl
    rw [e1] at h1; rw [e2] at h2
    simp [V, ext] at h1 h2
    linarith
  · refine C137_strict_emptiness_undetected R alg 1 (by simp) _ ?_ ?_ (fun _ => 5) ?_
    · intro i hi
      obtain rfl | rfl | rfl | rfl : i = 0 ∨ i = 1 ∨ i = 2 ∨ i = 3 := by omega
      all_goals exact le_of_eq rfl
    · intro q
      unfold strictClash
      rw [Avo.allocTop1]
      split_ifs <;> simp
    · intro i j hi hj
      have : i < 4 := by omega
      have : j < 4 := by omega
      interval_cases i <;> interval_cases j
      all_goals
        first
        | (exfalso; omega)
        | (refine le_of_le_of_eq (b := pinf) ?_ rfl; simp; done)
        | (refine le_of_le_of_eq (b := fin 0) ?_ rfl; simp; done)
        | (refine le_of_le_of_eq (b := fin 10) ?_ rfl; simp [V, ext]; norm_num; done)
        | (refine le_of_le_of_eq (b := fin (-10)) ?_ rfl; simp [V, ext]; norm_num; done)

/-- **Defect.** `for (int r=0; r<(int)power(n); r++)` does not run for 31 variables or more: the
strong closure then declares every matrix empty, the universe included. -/
theorem C137_strong_31 (R : Rnd K) (dim : ℕ) (hdim : 31 ≤ dim) (M : SMem K) :
    (Avo.close R 2 dim M).1 = true := by
  have h0 : ¬ dim ≤ 30 := by omega
  have h2 : ¬ dim ≤ 2 := by omega
  simp [Avo.close, closeStrong, h2, orthLoop, orthants, h0]

/-- the universe over `dim` variables has every point -/
theorem C137_top_points (dim : ℕ) (x : ℕ → K) : SSat dim (Avo.allocTop dim) x :=
  allocTop_sat dim _ _

/-- hypotheses are met: the constraint `x < 5` and the point `3` -/
example (alg : ℤ) : (Avo.close Rnd.exact alg 1
    (fun q => if q = 2 then ((fin 10, fin 0) : SB ℚ) else Avo.allocTop 1 q)).1 = false := by
  refine (C137_close_keeps_points Rnd.exact alg 1 (by simp) _ ?_ (fun _ => 3) ?_).1
  · intro i hi
    obtain rfl | rfl | rfl | rfl : i = 0 ∨ i = 1 ∨ i = 2 ∨ i = 3 := by omega
    all_goals exact le_of_eq rfl
  · intro i j hi hc
    dsimp only
    split_ifs with h
    · obtain ⟨rfl, rfl⟩ := matpos_inj hc (show Cell 1 0 by decide) h
      constructor
      · simp [V, ext]; norm_num
      · intro _; simp [V, ext]; norm_num
    · exact C137_top_points 1 (fun _ => 3) i j hi hc

end Apron
