import Verif.Props.Disjunction2
import Verif.Props.ProductInst

/-!
# C120, C121: disjunctions of boxes, and what goes wrong with disjunctions
-/

set_option autoImplicit false
set_option linter.unusedSectionVars false
set_option linter.ambiguousOpen false

namespace Apron
namespace Props
open Bound Disj RP

/-- disjunctions of boxes -/
def bdInt : DInt ℚ (Box ℚ) where
  man := boxMan false
  bottom := Box.bottom
  isBottom := Box.isBottom
  isTop := Box.isTop
  isEq := Box.isEq

/-- The hypotheses of the theorems on disjunctions hold for them. -/
theorem bd_sound : Disj.Sound bdInt Box.Wf True where
  spec := boxSpec false
  bottom p q := ⟨(box_bottom_facts p q).1, ⟨rfl, rfl⟩, (box_bottom_facts p q).2⟩
  isBottom a _ h x := box_isBottom_empty a h x
  isTop a ha h := (C10_is_top a ha).1 h
  isEq a b ha hb hd h := (C10_is_eq a b ha hb (by
    have h1 : b.intdim = a.intdim := hd.1
    have h2 : b.realdim = a.realdim := hd.2
    simp only [Box.dim, h1, h2])).1 h

/-- `x ∈ [l, u]`, one real variable -/
def bseg (l u : ℚ) : Box ℚ := ⟨some fun _ => ⟨fin (-l), fin u⟩, 0, 1⟩

theorem mem_bseg {l u q : ℚ} : q ∈ (⟨fin (-l), fin u⟩ : Itv ℚ) ↔ l ≤ q ∧ q ≤ u := by
  constructor
  · rintro ⟨h1, h2⟩
    simp only [fin_le_fin] at h1 h2
    exact ⟨by linarith, h2⟩
  · rintro ⟨h1, h2⟩
    constructor
    · simp only [fin_le_fin]; linarith
    · simpa using h2

theorem bseg_wf {l u : ℚ} (h : l ≤ u) : Box.Wf (bseg l u) := fun p hp i _ => by
  obtain rfl := (Option.some.inj hp)
  exact ⟨l, mem_bseg.2 ⟨le_rfl, h⟩⟩

theorem bseg_gam {l u : ℚ} {x : ℕ → ℚ} : Box.Gam (bseg l u) x ↔ l ≤ x 0 ∧ x 0 ≤ u := by
  rw [bseg, Box.gam_mk]
  constructor
  · exact fun h => mem_bseg.1 (h 0 (by decide))
  · intro h i hi
    have hi' : i < 0 + 1 := hi
    obtain rfl : i = 0 := by omega
    exact mem_bseg.2 h

/-- `x ∈ [0,0]` or `x ∈ [1,1]` -/
def bdEx : List (Box ℚ) := [bseg 0 0, bseg 1 1]

theorem bdEx_ok : Disj.Ok bdInt Box.Wf 0 1 bdEx := ⟨by simp [bdEx], fun a ha => by
  rcases List.mem_cons.1 ha with rfl | ha
  · exact ⟨bseg_wf le_rfl, rfl, rfl⟩
  · obtain rfl := List.mem_singleton.1 ha
    exact ⟨bseg_wf le_rfl, rfl, rfl⟩⟩

theorem bdEx_gam {x : ℕ → ℚ} : Disj.Gam bdInt bdEx x ↔ x 0 = 0 ∨ x 0 = 1 := by
  constructor
  · rintro ⟨a, ha, hx⟩
    rcases List.mem_cons.1 ha with rfl | ha
    · exact Or.inl (le_antisymm (bseg_gam.1 hx).2 (bseg_gam.1 hx).1)
    · obtain rfl := List.mem_singleton.1 ha
      exact Or.inr (le_antisymm (bseg_gam.1 hx).2 (bseg_gam.1 hx).1)
  · rintro (h | h)
    · exact ⟨bseg 0 0, by simp [bdEx], bseg_gam.2 ⟨h.ge, h.le⟩⟩
    · exact ⟨bseg 1 1, by simp [bdEx], bseg_gam.2 ⟨h.ge, h.le⟩⟩

/-! ## Non-vacuity -/

/-- the join of `{0,1}` and `{0,1}` has two points and four disjuncts -/
example : (∀ x, Disj.Gam bdInt (Disj.join bdInt bdEx bdEx) x ↔ x 0 = 0 ∨ x 0 = 1) ∧ (Disj.join bdInt bdEx bdEx).length = 4 :=
  ⟨fun x => by rw [(C120_join bd_sound bdEx_ok bdEx_ok).2, bdEx_gam, or_self], by decide +kernel⟩

/-- and two disjuncts once the equal ones have been removed -/
example : (elimRedundant bdInt (Disj.join bdInt bdEx bdEx)).length = 2 := by decide +kernel

/-- an empty disjunct and a second full one are removed -/
example : (Disj.clean bdInt [Box.bottom 0 1, Box.top 0 1, bseg 0 0, Box.top 0 1]).length = 2 := by decide +kernel

/-- the meet of `{0,1}` and of `[1,2]` is `{1}` -/
example : ∃ l, Disj.meet bdInt bdEx [bseg 1 2] = some l ∧ l.length = 1 ∧ ∀ x, Disj.Gam bdInt l x ↔ x 0 = 1 := by
  have h : ((Disj.meet bdInt bdEx [bseg 1 2]).map List.length) = some 1 := by decide +kernel
  obtain ⟨l, hl, hlen⟩ := Option.map_eq_some_iff.1 h
  have hok : Disj.Ok bdInt Box.Wf 0 1 [bseg 1 2] := ⟨by simp, fun a ha => by
    obtain rfl := List.mem_singleton.1 ha
    exact ⟨bseg_wf (by norm_num), rfl, rfl⟩⟩
  refine ⟨l, hl, hlen, fun x => ?_⟩
  rw [(C120_meet_partial bd_sound bdEx_ok hok hl).2 x, bdEx_gam]
  have : Disj.Gam bdInt [bseg 1 2] x ↔ 1 ≤ x 0 ∧ x 0 ≤ 2 :=
    ⟨fun ⟨a, ha, hx⟩ => by
      obtain rfl := List.mem_singleton.1 ha
      exact bseg_gam.1 hx, fun h => ⟨_, by simp, bseg_gam.2 h⟩⟩
  rw [this]
  constructor
  · rintro ⟨h | h, h1, _⟩
    · rw [h] at h1; norm_num at h1
    · exact h
  · intro h
    exact ⟨Or.inr h, by rw [h], by rw [h]; norm_num⟩

/-! ## The defects -/

/-- `is_bottom` answers false for a value without points that has two empty disjuncts. -/
theorem C120_is_bottom_incomplete : Disj.Ok bdInt Box.Wf 0 1 [Box.bottom 0 1, Box.bottom 0 1] ∧
    (∀ x, ¬ Disj.Gam bdInt [Box.bottom 0 1, Box.bottom 0 1] x) ∧
    Disj.isBottom bdInt [Box.bottom 0 1, Box.bottom 0 1] = false := by
  refine ⟨⟨by simp, fun a ha => ?_⟩, fun x ⟨a, ha, hx⟩ => ?_, rfl⟩ <;> simp only [List.mem_cons, List.not_mem_nil, or_false, or_self] at ha
  · subst ha; exact ⟨(box_bottom_facts 0 1).1, rfl, rfl⟩
  · subst ha; exact (box_bottom_facts 0 1).2 x hx

/-- The meet of `{0,1}` and `[5,7]` has no defined behaviour. -/
theorem C120_meet_undefined : Disj.meet bdInt bdEx [bseg 5 7] = none := by
  refine C120_meet_of_disjoint_undefined bd_sound (fun a ha h => (C10_is_bottom a ha).2 h) bdEx_ok (i := 0) (r := 1) ⟨by simp, fun a ha => ?_⟩
    rfl rfl fun x ⟨h1, a, ha, hx⟩ => ?_
  · obtain rfl := List.mem_singleton.1 ha
    exact ⟨bseg_wf (by norm_num), rfl, rfl⟩
  · obtain rfl := List.mem_singleton.1 ha
    have h5 := (bseg_gam.1 hx).1
    rcases bdEx_gam.1 h1 with h | h <;> rw [h] at h5 <;> norm_num at h5

/-- the bounds of a box as a pair -/
def boxBound (d : ℕ) (a : Box ℚ) : Bound ℚ × Bound ℚ := match (Box.boundDimension a d).inf with
  | fin q => (fin (-q), (Box.boundDimension a d).sup)
  | pinf => (ninf, (Box.boundDimension a d).sup)
  | ninf => (pinf, (Box.boundDimension a d).sup)

/-- The bounds lose points when the first disjunct is empty: the value is `x ∈ [5,7]`, the interval is empty. -/
theorem C121_bound_unsound : Disj.Ok bdInt Box.Wf 0 1 [Box.bottom 0 1, bseg 5 7] ∧
    Disj.Gam bdInt [Box.bottom 0 1, bseg 5 7] (fun _ => 6) ∧
    ¬ InItv (Disj.bound (boxBound 0) [Box.bottom 0 1, bseg 5 7]) 6 := by
  refine ⟨⟨by simp, fun a ha => ?_⟩, ⟨bseg 5 7, by simp, bseg_gam.2 ⟨by norm_num, by norm_num⟩⟩, ?_⟩
  · simp only [List.mem_cons, List.not_mem_nil, or_false] at ha
    rcases ha with rfl | rfl
    · exact ⟨(box_bottom_facts 0 1).1, rfl, rfl⟩
    · exact ⟨bseg_wf (by norm_num), rfl, rfl⟩
  · have : Disj.bound (boxBound 0) [Box.bottom 0 1, bseg 5 7] = (fin 1, fin (-1)) := by decide +kernel
    rw [this]
    rintro ⟨_, h⟩
    simp only [fin_le_fin] at h
    norm_num at h

/-- The bounds of `[5,7]` are `[1,7]`. -/
theorem C121_bound_imprecise : Disj.bound (boxBound 0) [bseg 5 7] = (fin 1, fin 7) := by decide +kernel

/-- the box of a box with one variable -/
def boxBox (a : Box ℚ) : List (Bound ℚ × Bound ℚ) := [boxBound 0 a]

/-- `to_box` loses points when the first two disjuncts are empty. -/
theorem C121_to_box_unsound : Disj.Ok bdInt Box.Wf 0 1 [Box.bottom 0 1, Box.bottom 0 1, bseg 5 7] ∧
    Disj.Gam bdInt [Box.bottom 0 1, Box.bottom 0 1, bseg 5 7] (fun _ => 6) ∧
    ∃ b, Disj.toBox boxBox [Box.bottom 0 1, Box.bottom 0 1, bseg 5 7] = some b ∧ ¬ InBox b (fun _ => 6) := by
  refine ⟨⟨by simp, fun a ha => ?_⟩, ⟨bseg 5 7, by simp, bseg_gam.2 ⟨by norm_num, by norm_num⟩⟩, [(fin 1, fin (-1))], by decide +kernel, ?_⟩
  · simp only [List.mem_cons, List.not_mem_nil, or_false] at ha
    rcases ha with rfl | rfl | rfl
    · exact ⟨(box_bottom_facts 0 1).1, rfl, rfl⟩
    · exact ⟨(box_bottom_facts 0 1).1, rfl, rfl⟩
    · exact ⟨bseg_wf (by norm_num), rfl, rfl⟩
  · intro h
    have := (h 0 _ rfl).2
    simp only [fin_le_fin] at this
    norm_num at this

/-- `expand` loses points: in the expansion of `{0,1}` both copies may be different. -/
theorem C121_expand_unsound : ∃ x : ℕ → ℚ,
    (∀ y, (y = x 0 ∨ ∃ k, k < 1 ∧ y = x (1 + k)) →
      Disj.Gam bdInt bdEx (fun v => if v = 0 then y else if v < 1 then x v else x (v + 1))) ∧
    ¬ Disj.Gam bdInt (Disj.expand bdInt bdEx 0 1) x := by
  refine ⟨fun v => if v = 0 then 0 else 1, fun y hy => ?_, fun h => ?_⟩
  · rw [bdEx_gam]
    rcases hy with rfl | ⟨k, hk, rfl⟩
    · simp
    · simp
  · obtain ⟨a, ha, hx⟩ := (gam_map _).1 h
    have hw : Box.Wf a := (bdEx_ok.2 a ha).1
    have hd := (bdEx_ok.2 a ha).2
    have hi : (boxMan (K := ℚ) false).intdim a = 0 := hd.1
    have hr : (boxMan (K := ℚ) false).realdim a = 1 := hd.2
    have hdim : (boxMan (K := ℚ) false).dim a = 1 := by unfold Man.dim; rw [hi, hr]
    have hoff : (boxMan (K := ℚ) false).off a 0 = 1 := by unfold Man.off; rw [hdim, hi]; rfl
    have key := ((bd_sound.spec.expand a 0 1 hw (by rw [show bdInt.man = boxMan false from rfl, hdim]; norm_num) (by norm_num)).2.2 _).1 hx
    rw [show bdInt.man = boxMan false from rfl, hoff] at key
    have k0 := key 0 (Or.inl rfl)
    have k1 := key 1 (Or.inr ⟨0, by norm_num, rfl⟩)
    simp only [bdEx, List.mem_cons, List.not_mem_nil, or_false] at ha
    rcases ha with rfl | rfl
    · have := (bseg_gam.1 k1).2
      norm_num at this
    · have := (bseg_gam.1 k0).1
      norm_num at this

end Props
end Apron
