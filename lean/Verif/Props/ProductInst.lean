import Verif.Props.Product2
import Verif.Props.PkMan

/-!
# C117, C118: concrete products, and the flags of products
-/

set_option autoImplicit false
set_option linter.unusedSectionVars false
set_option linter.ambiguousOpen false

namespace Apron
namespace Props
open Bound RP Poly

theorem box_bottom_facts (p q : ℕ) : Box.Wf (Box.bottom (K := ℚ) p q) ∧ ∀ x, ¬ Box.Gam (Box.bottom (K := ℚ) p q) x :=
  ⟨fun f hf => (by cases hf), fun x hx => (by obtain ⟨f, hf, _⟩ := hx; cases hf)⟩

/-! ## Boxes and polyhedra -/

/-- the components of the example: boxes and convex polyhedra -/
def BPc : Fin (1 + 1) → Type
  | 0 => Box ℚ
  | 1 => PkT

/-- the invariants -/
def bpOk : ∀ i, BPc i → Prop
  | 0 => fun a => Box.Wf (K := ℚ) a
  | 1 => fun a => PkT.Ok ℚ a

/-- a product of boxes and polyhedra, with the default options and a reduction that only detects the empty set -/
def bpIntern (alg : ℤ) (o : Opts) : Intern ℚ BPc where
  man
    | 0 => boxMan (K := ℚ) false
    | 1 => pkMan ℚ alg o
  bottom
    | 0 => Box.bottom (K := ℚ)
    | 1 => fun i r => (⟨i, r, .bot⟩ : PkT)
  isBottom
    | 0 => Box.isBottom (K := ℚ)
    | 1 => PkT.isBottom alg
  reduce a :=
    if PkT.isBottom alg (a.p 1) then ⟨true, fun i => match i with
      | 0 => Box.bottom (K := ℚ) (PkT.intdim (a.p 1)) (PkT.realdim (a.p 1))
      | 1 => a.p 1⟩
    else ⟨true, a.p⟩
  alg := defaultAlg

/-- The hypotheses of the theorems on products hold for it. -/
theorem bp_sound (alg : ℤ) (o : Opts) : Sound (bpIntern alg o) bpOk (fun _ => True) where
  spec
    | 0 => boxSpec false
    | 1 => C111_manager alg o
  bottom
    | 0 => fun p q => ⟨(box_bottom_facts p q).1, ⟨rfl, rfl⟩, (box_bottom_facts p q).2⟩
    | 1 => fun p q => ⟨show Rep.Wf ℚ (p + q) Rep.bot from trivial, ⟨rfl, rfl⟩, fun x hx => False.elim hx⟩
  isBottom
    | 0 => fun a _ h x => box_isBottom_empty a h x
    | 1 => fun a ha h x => pk_isBottom_empty ha h x
  reduce a ha := by
    by_cases hb : PkT.isBottom alg (a.p 1) = true
    · have e : (bpIntern alg o).reduce a = ⟨true, fun i => match i with
          | 0 => Box.bottom (K := ℚ) (PkT.intdim (a.p 1)) (PkT.realdim (a.p 1))
          | 1 => a.p 1⟩ := if_pos hb
      rw [e]
      have hd := (ha 1).2
      have hi : PkT.intdim (a.p 1) = intdim (bpIntern alg o) a := hd.1
      have hr : PkT.realdim (a.p 1) = realdim (bpIntern alg o) a := hd.2
      have hempty : ∀ x, ¬ ((bpIntern alg o).man 1).Gam (a.p 1) x := fun x => pk_isBottom_empty (ha 1).1 hb x
      refine ⟨fun i => ?_, hi, hr, fun x => ⟨fun h => absurd (h 1) (hempty x), fun h => absurd (h 1) (hempty x)⟩⟩
      match i with
      | 0 => exact ⟨(box_bottom_facts _ _).1, ⟨rfl, rfl⟩⟩
      | 1 => exact ⟨(ha 1).1, ⟨rfl, rfl⟩⟩
    · have e : (bpIntern alg o).reduce a = ⟨true, a.p⟩ := if_neg hb
      rw [e]
      exact ⟨ha, rfl, rfl, fun _ => Iff.rfl⟩

/-- hence products of boxes and polyhedra are an abstract domain -/
example (alg : ℤ) (o : Opts) : (rpMan (bpIntern alg o)).Spec (Ok (bpIntern alg o) bpOk) False :=
  C117_product_is_a_domain (bp_sound alg o)

/-! ## The flag `exact` -/

/-- two boxes, without reduction -/
def bbIntern : Intern ℚ (fun _ : Fin (1 + 1) => Box ℚ) where
  man _ := boxMan false
  bottom _ := Box.bottom
  isBottom _ := Box.isBottom
  reduce a := a
  alg := defaultAlg

theorem bb_sound : Sound bbIntern (fun _ => Box.Wf) (fun _ => True) where
  spec _ := boxSpec false
  bottom _ p q := ⟨(box_bottom_facts p q).1, ⟨rfl, rfl⟩, (box_bottom_facts p q).2⟩
  isBottom _ a _ h x := box_isBottom_empty a h x
  reduce a ha := ⟨ha, rfl, rfl, fun _ => Iff.rfl⟩

/-- `x ∈ [0,1]` and `x ∈ [2,3]` -/
def bbEx : RP (fun _ : Fin (1 + 1) => Box ℚ) :=
  ⟨false, fun i => ⟨some fun _ => if i = 0 then ⟨fin 0, fin 1⟩ else ⟨fin (-2), fin 3⟩, 0, 1⟩⟩

theorem bbEx_ok : Ok bbIntern (fun _ => Box.Wf) bbEx := fun i => by
  refine ⟨fun p hp j hj => ?_, ⟨rfl, rfl⟩⟩
  have : p = fun _ => if i = 0 then ⟨fin 0, fin 1⟩ else ⟨fin (-2), fin 3⟩ := (Option.some.inj hp).symm
  subst this
  by_cases h : i = 0
  · simp only [h, if_true]; exact ⟨0, by constructor <;> simp⟩
  · simp only [h, if_false]; exact ⟨2, by constructor <;> norm_num⟩

theorem bbEx_empty (x : ℕ → ℚ) : ¬ RP.Gam bbIntern bbEx x := fun h => by
  have h0 : x 0 ∈ (⟨fin 0, fin 1⟩ : Itv ℚ) := Box.gam_mk.1 (h 0) 0 (by decide)
  have h1 : x 0 ∈ (⟨fin (-2), fin 3⟩ : Itv ℚ) := Box.gam_mk.1 (h 1) 0 (by decide)
  have a0 := h0.2
  have a1 := h1.1
  simp only [fin_le_fin] at a0 a1
  linarith

/-- `flag_exact` is the conjunction of those of the components.  It may be wrong: the projection of each component is exact, but
the projection of the product, which is empty, is not. -/
theorem C118_flag_exact_wrong : ∃ (I : Intern ℚ (fun _ : Fin (1 + 1) => Box ℚ)) (a : RP (fun _ : Fin (1 + 1) => Box ℚ)),
    Sound I (fun _ => Box.Wf) (fun _ => True) ∧ Ok I (fun _ => Box.Wf) a ∧
    (∀ i x', (I.man i).Gam ((I.man i).forget (a.p i) [0] false) x' → ∃ x, (I.man i).Gam (a.p i) x ∧ ∀ v, v ≠ 0 → x' v = x v) ∧
    RP.flagExact (n := 1) (fun _ => true) = true ∧
    (∀ x, ¬ RP.Gam I a x) ∧ ∃ x, RP.Gam I ((rpMan I).forget a [0] false) x := by
  refine ⟨bbIntern, bbEx, bb_sound, bbEx_ok, fun i x' _ => ?_, rfl, bbEx_empty, fun _ => 0, fun i => ?_⟩
  · refine ⟨Function.update x' 0 (if i = 0 then 0 else 2), ?_, fun v hv => by rw [Function.update_of_ne hv]⟩
    refine Box.gam_mk.2 fun d hd => ?_
    obtain rfl : d = 0 := by
      have : d < 1 := hd
      omega
    show Function.update x' 0 (if i = 0 then 0 else 2) 0 ∈ (if i = 0 then (⟨fin 0, fin 1⟩ : Itv ℚ) else ⟨fin (-2), fin 3⟩)
    rw [Function.update_self]
    split_ifs
    · constructor <;> simp
    · constructor <;> norm_num
  · refine Box.gam_mk.2 fun d hd => ?_
    obtain rfl : d = 0 := by
      have : d < 1 := hd
      omega
    exact ⟨le_pinf _, le_pinf _⟩

/-- `flag_best` does not depend on the components: it is `true` even when no component claims the best result. -/
theorem C118_flag_best_ignores_components {n : ℕ} : RP.flagBest (n := n) (fun _ => false) = true := rfl

/-- the bounds of the product of the example: the empty interval, and `[0,1] ∩ [0,3] = [0,1]` -/
example : RP.bound (K := ℚ) bbIntern (fun i _ => if i = 0 then (fin 0, fin 1) else (fin 2, fin 3)) bbEx = (fin 2, fin 1) ∧
    RP.bound (K := ℚ) bbIntern (fun i _ => if i = 0 then (fin 0, fin 1) else (fin 0, fin 3)) bbEx = (fin 0, fin 1) := by
  decide +kernel

/-- the box of the product -/
example : RP.toBox (K := ℚ) bbIntern (fun i _ => if i = 0 then [(fin 0, fin 1), (fin 5, .pinf)] else [(fin 0, fin 3), (.ninf, fin 7)]) bbEx =
    [(fin 0, fin 1), (fin 5, fin 7)] := by decide +kernel

end Props
end Apron
