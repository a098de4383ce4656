import Verif.Texpr.Defs

/-!
# In-place evaluation of trees

`box_assign_texpr` in its destructive form evaluates the tree directly into the cell of the
assigned dimension, while the same array is still read as the environment.  Here the cells are
explicit: `m` maps cell numbers to intervals, cells below the number of dimensions are the box,
the others are the local variables `x` of the recursive calls (itv/itv_linearize.c:859).
-/

set_option autoImplicit false
set_option linter.unusedSectionVars false
set_option linter.ambiguousOpen false

namespace Apron
open Bound
variable {K : Type*} [LinearOrder K] [Field K] [IsStrictOrderedRing K] [FloorRing K]

/-- `itv_eval_ap_texpr0(intern,res,expr,env)` with `res` the cell `dst`, `env` the cells of `m`, and
the first free local variable in cell `loc`: itv/itv_linearize.c:839-882 -/
def Texpr.evalIn (R : Rnd K) (o : RootOps K) (F : FltOps K) (dst loc : ℕ) :
    Texpr K → (ℕ → Itv K) → ℕ → Itv K
  | .cst c, m => Function.update m dst (Itv.setApCoeff R c)
  | .dim d, m => Function.update m dst (m d)
  | .un op t d a, m =>
    let m1 := evalIn R o F dst loc a m
    if (m1 dst).isBottom then m1
    else Function.update m1 dst (Texpr.evalUn o F op t d (m1 dst))
  | .bin op t d a b, m =>
    let m1 := evalIn R o F loc (loc + 1) a m
    let m2 := evalIn R o F dst (loc + 1) b m1
    if (m2 loc).isBottom || (m2 dst).isBottom then Function.update m2 dst Itv.bottom
    else Function.update m2 dst (Texpr.evalBin R F op t d (m2 loc) (m2 dst))

/-- `box_assign_texpr` with `destructive` set, without destination: box/box_assign.c:68-90 -/
def Box.assignTexprInPlace (R : Rnd K) (o : RootOps K) (F : FltOps K) (a : Box K) (d : ℕ)
    (e : Texpr K) : Box K :=
  match a.p with
  | none => a
  | some p => ⟨some (e.evalIn R o F d a.dim p), a.intdim, a.realdim⟩

/-- the in-place evaluation reads no cell after having changed it -/
theorem Texpr.evalIn_spec (R : Rnd K) (o : RootOps K) (F : FltOps K) (e : Texpr K) (n : ℕ)
    (hd : e.InDim n) (dst loc : ℕ) (hdl : dst < loc) (hn : n ≤ loc) (m env : ℕ → Itv K)
    (henv : ∀ i, i < n → m i = env i) :
    e.evalIn R o F dst loc m dst = e.eval R o F env ∧
      ∀ i, i < loc → i ≠ dst → e.evalIn R o F dst loc m i = m i := by
  induction e generalizing dst loc m with
  | cst c => exact ⟨by simp [evalIn, eval], fun i _ h => by simp [evalIn, h]⟩
  | dim d => exact ⟨by simp [evalIn, eval, henv d hd], fun i _ h => by simp [evalIn, h]⟩
  | un op t d a ih =>
    obtain ⟨h1, h2⟩ := ih hd dst loc hdl hn m henv
    simp only [evalIn, eval]
    rw [h1]
    split_ifs
    · exact ⟨h1, h2⟩
    · exact ⟨by simp, fun i hi h => by simp [h, h2 i hi h]⟩
  | bin op t d a b iha ihb =>
    obtain ⟨h1, h2⟩ := iha hd.1 loc (loc + 1) (by omega) (by omega) m henv
    obtain ⟨h3, h4⟩ := ihb hd.2 dst (loc + 1) (by omega) (by omega)
      (a.evalIn R o F loc (loc + 1) m) (fun i hi => by rw [h2 i (by omega) (by omega), henv i hi])
    have h5 := h4 loc (by omega) (by omega)
    simp only [evalIn, eval]
    rw [h3, h5, h1]
    have h6 : ∀ i, i < loc → i ≠ dst →
        b.evalIn R o F dst (loc + 1) (a.evalIn R o F loc (loc + 1) m) i = m i := fun i hi h => by
      rw [h4 i (by omega) h, h2 i (by omega) (by omega)]
    split_ifs
    · exact ⟨by simp, fun i hi h => by simp [h, h6 i hi h]⟩
    · exact ⟨by simp, fun i hi h => by simp [h, h6 i hi h]⟩

end Apron
