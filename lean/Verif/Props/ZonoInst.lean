import Verif.Props.ZonoState

/-!
# Affine forms: examples, and witnesses of defects
-/

set_option autoImplicit false
set_option linter.unusedSectionVars false
set_option linter.ambiguousOpen false

namespace Apron
namespace Props
open Bound T1p

/-- the threshold of `t1p_aff_reduce` (taylor1plus/t1p_internal.h:1093-1156) is near `5.55e-16`; here a rational -/
def zeps : ℚ := 1 / 1000000000000000
/-- no real number format -/
def zS : FltSem ℚ := ⟨fun _ _ _ _ => True, fun _ _ => True⟩

def ub : Itv ℚ := ⟨fin 1, fin 1⟩
def uz : Itv ℚ := ⟨fin 0, fin 1⟩
def tadd (a b : Texpr ℚ) : Texpr ℚ := .bin .add .real .nearest a b
def tsub (a b : Texpr ℚ) : Texpr ℚ := .bin .sub .real .nearest a b
def tmul (a b : Texpr ℚ) : Texpr ℚ := .bin .mul .real .nearest a b

/-- `x0, x1 ∈ [0,1]`; `x2 := x0 - x1`; `x3 := x2 + x1`: the bounds of `x3` are those of `x0` -/
def linProg : List (List (ℕ × Texpr ℚ)) := [[(2, tsub (.dim 0) (.dim 1))], [(3, tadd (.dim 2) (.dim 1))]]

example : (runProg Rnd.exact mpqRoots zeps linProg (ofBox Rnd.exact Pr.init 0 4 fun _ => uz)).map
    (fun st => (st.2.boundDim 2, st.2.boundDim 3)) = some (⟨fin 1, fin 1⟩, ⟨fin 0, fin 1⟩) := by decide +kernel

/-- the hypotheses of C125 hold for this program -/
example : (∀ i < 4, ∃ l u, (fun _ => uz) i = (⟨fin l, fin u⟩ : Itv ℚ) ∧ -l ≤ u) ∧ (∀ l ∈ linProg, ∀ p ∈ l, p.2.InDim 4 ∧ LinTree p.2) ∧
    mpqRoots.SqrtOK ∧ 0 ≤ zeps := by
  refine ⟨fun _ _ => ⟨0, 1, rfl, by norm_num⟩, ?_, mpq_sqrtOK, by norm_num [zeps]⟩
  intro l hl p hp
  simp only [linProg, List.mem_cons, List.not_mem_nil, or_false] at hl
  rcases hl with rfl | rfl <;> simp only [List.mem_cons, List.not_mem_nil, or_false] at hp <;> subst hp
  · exact ⟨⟨by norm_num [Texpr.InDim], by norm_num [Texpr.InDim]⟩, rfl, trivial, trivial, .inr (.inl rfl)⟩
  · exact ⟨⟨by norm_num [Texpr.InDim], by norm_num [Texpr.InDim]⟩, rfl, trivial, trivial, .inl rfl⟩

/-- a non-linear assignment: `x2 := x0 * x1`, and `x2 := x0 / (x1 + 2)` -/
example : (assignArray Rnd.exact mpqRoots zeps (ofBox Rnd.exact Pr.init 0 3 fun _ => uz).1 (ofBox Rnd.exact Pr.init 0 3 fun _ => uz).2
    [(2, tmul (.dim 0) (.dim 1))]).map (fun st => st.2.boundDim 2) = some ⟨fin 0, fin 1⟩ := by decide +kernel

/-- the conditions of C124 hold for it -/
example : ArraySafe Rnd.exact mpqRoots zeps (ofBox Rnd.exact Pr.init 0 3 fun _ => uz).2 [(2, tadd (.dim 0) (.dim 1))]
    (sync (ofBox Rnd.exact Pr.init 0 3 fun _ => uz).1 (ofBox Rnd.exact Pr.init 0 3 fun _ => uz).2, (ofBox Rnd.exact Pr.init 0 3 fun _ => uz).2) := by
  obtain ⟨h1, _⟩ := ofBox_lin (intdim := 0) (wfPr_init (K := ℚ)) (b := fun _ => uz) (n := 3) (fun _ _ => ⟨0, 1, rfl, by norm_num⟩)
  obtain ⟨st', e, g1, g2, g3, g4⟩ := lin_prog mpq_sqrtOK zS (eps := zeps) (by norm_num [zeps]) [[(2, tadd (.dim 0) (.dim 1))]] h1 rfl (by
    intro l hl p hp
    simp only [List.mem_cons, List.not_mem_nil, or_false] at hl
    subst hl
    simp only [List.mem_cons, List.not_mem_nil, or_false] at hp
    subst hp
    exact ⟨⟨by norm_num [Texpr.InDim, ofBox], by norm_num [Texpr.InDim, ofBox]⟩, rfl, trivial, trivial, .inl rfl⟩)
  exact g3.1

/-! ## Defects -/

/-- C123: with no dimension `t1p_is_bottom` and `t1p_is_top` read `box[0]`, which does not exist. -/
theorem C123_no_dimension_wrong (a : T1 ℚ) (h : a.n = 0) : a.isBottom = none ∧ a.isTop = none := by
  simp [T1.isBottom, T1.isTop, h]

/-- C123: a value with an empty box in one dimension only has no point, but `t1p_is_bottom` returns false and sets
`flag_exact`. -/
theorem C123_is_bottom_incomplete : ∃ b : ℕ → Itv ℚ,
    (ofBox Rnd.exact Pr.init 0 2 b).2.isBottom = some false ∧ ∀ x, ¬ Gam (ofBox Rnd.exact Pr.init 0 2 b).1 (ofBox Rnd.exact Pr.init 0 2 b).2 x := by
  refine ⟨fun i => if i = 0 then Itv.bottom else uz, by decide +kernel, ?_⟩
  rintro x ⟨_, ε, _, h⟩
  exact Itv.not_mem_bottom _ (h 0 (by decide)).1

/-- C124: on `t1p_top` the assignment `x2 := x0 - x1` gives `x2 = 0`. -/
theorem C124_assign_top_wrong : ∃ (st : Pr ℚ × T1 ℚ) (x : ℕ → ℚ) (v : ℚ),
    assignArray Rnd.exact mpqRoots zeps Pr.init (T1.top 0 3) [(2, tsub (.dim 0) (.dim 1))] = some st ∧
    Gam (Pr.init : Pr ℚ) (T1.top 0 3) x ∧ (tsub (.dim 0) (.dim 1)).Val zS x v ∧ ¬ Gam st.1 st.2 (assignAll x [(2, tsub (.dim 0) (.dim 1))] [v]) := by
  have hb : (assignArray Rnd.exact mpqRoots zeps Pr.init (T1.top 0 3) [(2, tsub (.dim 0) (.dim 1))]).map (fun st => (st.2.n, st.2.box 2)) =
    some (3, Itv.point 0) := by decide +kernel
  obtain ⟨st, h1, h2⟩ := Option.map_eq_some_iff.1 hb
  simp only [Prod.mk.injEq] at h2
  refine ⟨st, fun i => if i = 0 then 1 else 0, 1, h1, (C123_top_bottom wfPr_init 0 3).1 _, ⟨1, 0, 1, rfl, rfl, ?_, rfl⟩, ?_⟩
  · show (1 : ℚ) = 1 - 0; norm_num
  · rintro ⟨_, ε, _, h⟩
    have := (h 2 (by rw [h2.1]; norm_num)).1
    rw [h2.2, Itv.mem_point] at this
    simp [assignAll, Function.update] at this

/-- C124: `x0, x1 ∈ [-1,1]`; `x2 := x0 * x0 - x1 * x1` gives `x2 = 0`. -/
theorem C124_assign_square_wrong : ∃ (st : Pr ℚ × T1 ℚ) (x : ℕ → ℚ) (v : ℚ),
    assignArray Rnd.exact mpqRoots zeps (ofBox Rnd.exact Pr.init 0 3 fun _ => ub).1 (ofBox Rnd.exact Pr.init 0 3 fun _ => ub).2
      [(2, tsub (tmul (.dim 0) (.dim 0)) (tmul (.dim 1) (.dim 1)))] = some st ∧
    Gam (ofBox Rnd.exact Pr.init 0 3 fun _ => ub).1 (ofBox Rnd.exact Pr.init 0 3 fun _ => ub).2 x ∧
    (tsub (tmul (.dim 0) (.dim 0)) (tmul (.dim 1) (.dim 1))).Val zS x v ∧
    ¬ Gam st.1 st.2 (assignAll x [(2, tsub (tmul (.dim 0) (.dim 0)) (tmul (.dim 1) (.dim 1)))] [v]) := by
  have hb : (assignArray Rnd.exact mpqRoots zeps (ofBox Rnd.exact Pr.init 0 3 fun _ => ub).1 (ofBox Rnd.exact Pr.init 0 3 fun _ => ub).2
      [(2, tsub (tmul (.dim 0) (.dim 0)) (tmul (.dim 1) (.dim 1)))]).map (fun st => (st.2.n, st.2.box 2)) = some (3, Itv.point 0) := by decide +kernel
  obtain ⟨st, h1, h2⟩ := Option.map_eq_some_iff.1 hb
  simp only [Prod.mk.injEq] at h2
  refine ⟨st, fun i => if i = 0 then 1 else 0, 1, h1, ?_, ⟨1, 0, 1, ⟨1, 1, 1, rfl, rfl, ?_, rfl⟩, ⟨0, 0, 0, rfl, rfl, ?_, rfl⟩, ?_, rfl⟩, ?_⟩
  · rw [C123_of_box_exact wfPr_init _ _ _ (fun _ _ => by simp [ub])]
    intro i _
    by_cases hi : i = 0 <;> simp [hi, ub, Itv.mem_def]
  · show (1 : ℚ) = 1 * 1; norm_num
  · show (0 : ℚ) = 0 * 0; norm_num
  · show (1 : ℚ) = 1 - 0; norm_num
  · rintro ⟨_, ε, _, h⟩
    have := (h 2 (by rw [h2.1]; norm_num)).1
    rw [h2.2, Itv.mem_point] at this
    simp [assignAll, Function.update] at this

/-- the tree `5 / 2` of type int, rounded towards zero -/
def intDiv : Texpr ℚ := .bin .div .int .zero (.cst (.scalar (fin 5))) (.cst (.scalar (fin 2)))

/-- C124: types and rounding directions of nodes are ignored: the integer division `5 / 2` gives 5/2. -/
theorem C124_assign_type_wrong : ∃ (st : Pr ℚ × T1 ℚ) (x : ℕ → ℚ) (v : ℚ),
    assignArray Rnd.exact mpqRoots zeps Pr.init (T1.top 0 1) [(0, intDiv)] = some st ∧
    Gam (Pr.init : Pr ℚ) (T1.top 0 1) x ∧ intDiv.Val zS x v ∧ ¬ Gam st.1 st.2 (assignAll x [(0, intDiv)] [v]) := by
  have hb : (assignArray Rnd.exact mpqRoots zeps Pr.init (T1.top 0 1) [(0, intDiv)]).map (fun st => (st.2.n, st.2.box 0)) =
    some (1, Itv.point (5/2)) := by decide +kernel
  obtain ⟨st, h1, h2⟩ := Option.map_eq_some_iff.1 hb
  simp only [Prod.mk.injEq] at h2
  refine ⟨st, fun _ => 0, 2, h1, (C123_top_bottom wfPr_init 0 1).1 _, ⟨5, 2, 5/2, ?_, ?_, ?_, ?_⟩, ?_⟩
  · exact rfl
  · exact rfl
  · exact ⟨by norm_num, by norm_num⟩
  · show (2 : ℚ) = if (0 : ℚ) ≤ 5 / 2 then ((⌊(5 / 2 : ℚ)⌋ : ℤ) : ℚ) else ((⌈(5 / 2 : ℚ)⌉ : ℤ) : ℚ)
    have : ⌊(5 / 2 : ℚ)⌋ = 2 := by rw [Int.floor_eq_iff]; norm_num
    rw [if_pos (by norm_num), this]; norm_num
  · rintro ⟨_, ε, _, h⟩
    have := (h 0 (by rw [h2.1]; norm_num)).1
    rw [h2.2, Itv.mem_point] at this
    simp [assignAll, Function.update] at this
    norm_num at this

/-! ### Dimensions -/

/-- the box `[1,1] × [2,2] × …` -/
def idxBox (i : ℕ) : Itv ℚ := Itv.point (i + 1)
def idxSt : Pr ℚ × T1 ℚ := ofBox Rnd.exact Pr.init 0 2 idxBox

/-- its only point -/
theorem idx_point : Gam idxSt.1 idxSt.2 (fun i => (i + 1 : ℚ)) := by
  unfold idxSt
  rw [C123_of_box_exact wfPr_init _ _ _ (fun _ _ => by simp [idxBox, Itv.point])]
  intro i _
  exact (Itv.mem_point _ _).2 rfl

/-- C126: adding dimensions before dimension 0 and before dimension 1 of a value with two dimensions (`dimchange` is
`[0,1]`).  The old dimensions should be 1 and 3; they are 2 and 3. -/
theorem C126_add_wrong : Gam idxSt.1 idxSt.2 (fun i => if i = 0 then 1 else 2) ∧
    ¬ Gam (addDimensions idxSt.1 idxSt.2 [0, 1] 0 false).1 (addDimensions idxSt.1 idxSt.2 [0, 1] 0 false).2
      (fun i => if i = 1 then 1 else if i = 3 then 2 else 0) := by
  constructor
  · unfold idxSt
    rw [C123_of_box_exact wfPr_init _ _ _ (fun _ _ => by simp [idxBox, Itv.point])]
    intro i hi
    obtain rfl | rfl : i = 0 ∨ i = 1 := by omega
    · exact (Itv.mem_point _ _).2 (by norm_num)
    · exact (Itv.mem_point _ _).2 (by norm_num)
  · have h0 : (addDimensions idxSt.1 idxSt.2 [0, 1] 0 false).2.box 2 = Itv.point 1 := by decide +kernel
    rintro ⟨_, ε, _, h⟩
    have := (h 2 (by decide +kernel)).1
    rw [h0, Itv.mem_point] at this
    norm_num at this

/-- C126: the permutation `[1,0]` should exchange the dimensions; the code exchanges them twice. -/
theorem C126_permute_wrong : (permuteDimensions idxSt.2 [1, 0]).box 0 = Itv.point 1 ∧ (permuteDimensions idxSt.2 [1, 0]).box 1 = Itv.point 2 ∧
    ¬ Gam idxSt.1 (permuteDimensions idxSt.2 [1, 0]) (fun i => if i = 0 then 2 else 1) := by
  have h0 : (permuteDimensions idxSt.2 [1, 0]).box 0 = Itv.point 1 := by decide +kernel
  refine ⟨h0, by decide +kernel, ?_⟩
  rintro ⟨_, ε, _, h⟩
  have := (h 0 (by decide +kernel)).1
  rw [h0, Itv.mem_point] at this
  norm_num at this

/-- C126: forgetting dimension 1 changes the box of dimension 0. -/
theorem C126_forget_wrong : ¬ Gam (forgetArray idxSt.1 idxSt.2 [1] false).1 (forgetArray idxSt.1 idxSt.2 [1] false).2 (fun i => if i = 0 then 1 else 7) := by
  have h0 : (forgetArray idxSt.1 idxSt.2 [1] false).2.box 1 = Itv.point 2 := by decide +kernel
  rintro ⟨_, ε, _, h⟩
  have := (h 1 (by decide +kernel)).1
  rw [h0, Itv.mem_point] at this
  norm_num at this

/-- C126: projecting dimension 1 to 0 leaves its box. -/
theorem C126_project_wrong : ¬ Gam (forgetArray idxSt.1 idxSt.2 [1] true).1 (forgetArray idxSt.1 idxSt.2 [1] true).2 (fun i => if i = 0 then 1 else 0) := by
  have h0 : (forgetArray idxSt.1 idxSt.2 [1] true).2.box 1 = Itv.point 2 := by decide +kernel
  rintro ⟨_, ε, _, h⟩
  have := (h 1 (by decide +kernel)).1
  rw [h0, Itv.mem_point] at this
  norm_num at this

/-- removal of dimension 0 of two -/
example : (removeDimensions idxSt.2 [0] 0).box 0 = Itv.point 2 ∧ (removeDimensions idxSt.2 [0] 0).n = 1 := by decide +kernel

end Props
end Apron
