import Verif.Props.ZonoLattice

/-!
# C151: examples, and witnesses of defects
-/

set_option autoImplicit false
set_option linter.unusedSectionVars false
set_option linter.ambiguousOpen false

namespace Apron
namespace Props
open Bound T1p

/-- a box with the bounds `l`, `u` -/
def lbx (l u : ℚ) : Itv ℚ := ⟨fin (-l), fin u⟩

/-! ## Examples -/

/-- the points `(-1,…)` and `(1,…)`, with one manager -/
def ptA : Pr ℚ × T1 ℚ := ofBox Rnd.exact Pr.init 0 2 fun _ => Itv.point (-1)
def ptB : Pr ℚ × T1 ℚ := ofBox Rnd.exact ptA.1 0 2 fun _ => Itv.point 1

/-- their join has two new forms and the box `[-1,1] × [-1,1]`; the hypotheses of the theorems on joins hold -/
example : (T1p.join Rnd.exact ptB.1 ptA.2 ptB.2).map (fun r => (r.2.box 0, r.2.box 1, (List.range 2).all fun i =>
    r.2.paf i ≠ ptA.2.paf i ∧ r.2.paf i ≠ ptB.2.paf i ∧ ptA.2.paf i ≠ ptB.2.paf i)) = some (ub, ub, true) := by decide +kernel

example : WfPr ptB.1 ∧ (∀ i < 2, ptA.2.paf i < ptB.1.next) ∧ ∀ i < 2, ptB.2.paf i < ptB.1.next :=
  ⟨(ofBox_wf (ofBox_wf wfPr_init (fun _ _ => by simp [Itv.point])).1 (fun _ _ => by simp [Itv.point])).1, by decide +kernel, by decide +kernel⟩

/-- a meet of two values with half-lines keeps `[1, 2]`, with a new form -/
def hlA : Pr ℚ × T1 ℚ := ofBox Rnd.exact Pr.init 0 1 fun _ => ⟨fin (-1), pinf⟩
def hlB : Pr ℚ × T1 ℚ := ofBox Rnd.exact hlA.1 0 1 fun _ => ⟨pinf, fin 2⟩
example : (T1p.meet Rnd.exact hlB.1 hlA.2 hlB.2).map (fun r => (r.2.box 0, decide (r.2.paf 0 = hlB.1.next))) = some (lbx 1 2, true) := by
  decide +kernel

/-- inclusion with forms without symbols -/
example : (T1p.isLeq Rnd.exact hlB.1 hlB.2 hlA.2).map Prod.fst = some false ∧
    (T1p.isLeq Rnd.exact ptB.1 ptA.2 ptA.2).map Prod.fst = some true := by decide +kernel

/-! ## Defects -/

/-- `x ∈ [-1,1]`, `y := x` -/
def eqRun : Option (Pr ℚ × T1 ℚ) :=
  assignArray Rnd.exact mpqRoots zeps (ofBox Rnd.exact Pr.init 0 2 fun _ => ub).1 (ofBox Rnd.exact Pr.init 0 2 fun _ => ub).2 [(1, .dim 0)]

def halfBox (i : ℕ) : Itv ℚ := Itv.point (if i = 0 then 1 / 2 else -1 / 2)
def halfPt (i : ℕ) : ℚ := if i = 0 then 1 / 2 else -1 / 2

/-- what the manager and the value of the point `(1/2, -1/2)` look like -/
def halfLook (pr : Pr ℚ) (a : T1 ℚ) : Bool :=
  decide (a.n = 2 ∧ a.paf 0 ≠ a.paf 1) && (List.range 2).all fun i => decide (a.box i = halfBox i ∧ (pr.heap (a.paf i)).c = halfBox i) && (pr.heap (a.paf i)).q.isEmpty

theorem halfLook_gam {pr : Pr ℚ} {a : T1 ℚ} (h : halfLook pr a = true) : Gam pr a halfPt := by
  simp only [halfLook, Bool.and_eq_true, decide_eq_true_eq, List.all_eq_true, List.mem_range, List.isEmpty_iff] at h
  obtain ⟨⟨h1, h2⟩, h3⟩ := h
  have hm : ∀ i, halfPt i ∈ halfBox i := fun i => (Itv.mem_point _ _).2 rfl
  refine ⟨fun i hi j hj e _ => ?_, fun _ => 0, fun k => Itv.mem_muu.2 ⟨by norm_num, by norm_num⟩, fun i hi => ?_⟩
  · rw [h1] at hi hj
    have a1 : i = 0 ∨ i = 1 := by omega
    have a2 : j = 0 ∨ j = 1 := by omega
    rcases a1 with rfl | rfl <;> rcases a2 with rfl | rfl
    · rfl
    · exact absurd e h2
    · exact absurd e.symm h2
    · rfl
  · have := h3 i (by omega)
    refine ⟨by rw [this.1.1]; exact hm i, halfPt i, 0, by rw [this.1.2]; exact hm i, ?_, by ring⟩
    rw [this.2]; rfl

/-- two dimensions with one form have one value -/
theorem shared_not_gam {pr : Pr ℚ} {a : T1 ℚ} (h : decide (a.n = 2 ∧ a.paf 0 = a.paf 1 ∧ a.paf 0 ≠ topPtr) = true) {x : ℕ → ℚ} (hx : x 0 ≠ x 1) :
    ¬ Gam pr a x := by
  rw [decide_eq_true_eq] at h
  intro g
  exact hx (g.1 0 (by omega) 1 (by omega) h.2.1 h.2.2)

/-- C151: inclusion is tested dimension by dimension: the point `(1/2, -1/2)` is reported as included in
`x ∈ [-1,1], y := x`, of which it is not a point. -/
theorem C151_is_leq_unsound : ∃ (st p : Pr ℚ × T1 ℚ) (pr' : Pr ℚ), eqRun = some st ∧ p = ofBox Rnd.exact st.1 0 2 halfBox ∧
    T1p.isLeq Rnd.exact p.1 p.2 st.2 = some (true, pr') ∧ Gam p.1 p.2 halfPt ∧ ¬ Gam p.1 st.2 halfPt := by
  have hb : (eqRun.map fun st => ((T1p.isLeq Rnd.exact (ofBox Rnd.exact st.1 0 2 halfBox).1 (ofBox Rnd.exact st.1 0 2 halfBox).2 st.2).map Prod.fst,
      halfLook (ofBox Rnd.exact st.1 0 2 halfBox).1 (ofBox Rnd.exact st.1 0 2 halfBox).2,
      decide (st.2.n = 2 ∧ st.2.paf 0 = st.2.paf 1 ∧ st.2.paf 0 ≠ topPtr))) = some (some true, true, true) := by decide +kernel
  obtain ⟨st, h1, h2⟩ := Option.map_eq_some_iff.1 hb
  simp only [Prod.mk.injEq] at h2
  obtain ⟨⟨b, pr'⟩, h3, h4⟩ := Option.map_eq_some_iff.1 h2.1
  obtain rfl : b = true := h4
  exact ⟨st, _, pr', h1, rfl, h3, halfLook_gam h2.2.1, shared_not_gam h2.2.2 (by simp [halfPt]; norm_num)⟩

/-- the join of `(-1,-1)` and `(1,1)`, then `y := x` -/
def joinRun : Option (Pr ℚ × T1 ℚ) :=
  (T1p.join Rnd.exact ptB.1 ptA.2 ptB.2).bind fun s => assignArray Rnd.exact mpqRoots zeps s.1 s.2 [(1, .dim 0)]

/-- C151: the join of the point `(1/2, -1/2)` and of this value is this value: the point is lost. -/
theorem C151_join_unsound : ∃ st p r : Pr ℚ × T1 ℚ, joinRun = some st ∧ p = ofBox Rnd.exact st.1 0 2 halfBox ∧
    T1p.join Rnd.exact p.1 p.2 st.2 = some r ∧ Gam p.1 p.2 halfPt ∧ ¬ Gam r.1 r.2 halfPt := by
  have hb : (joinRun.map fun st => ((T1p.join Rnd.exact (ofBox Rnd.exact st.1 0 2 halfBox).1 (ofBox Rnd.exact st.1 0 2 halfBox).2 st.2).map
        fun r => decide (r.2.n = 2 ∧ r.2.paf 0 = r.2.paf 1 ∧ r.2.paf 0 ≠ topPtr),
      halfLook (ofBox Rnd.exact st.1 0 2 halfBox).1 (ofBox Rnd.exact st.1 0 2 halfBox).2)) = some (some true, true) := by decide +kernel
  obtain ⟨st, h1, h2⟩ := Option.map_eq_some_iff.1 hb
  simp only [Prod.mk.injEq] at h2
  obtain ⟨r, h3, h4⟩ := Option.map_eq_some_iff.1 h2.1
  exact ⟨st, _, r, h1, rfl, h3, halfLook_gam h2.2, shared_not_gam h4 (by simp [halfPt]; norm_num)⟩

/-- `x, y ∈ [0,+oo]`, and then `y := x` -/
def posSt : Pr ℚ × T1 ℚ := ofBox Rnd.exact Pr.init 0 2 fun _ => ⟨fin 0, pinf⟩
def posRun : Option (Pr ℚ × T1 ℚ) := assignArray Rnd.exact mpqRoots zeps posSt.1 posSt.2 [(1, .dim 0)]

/-- the forms of `posSt` in a manager -/
def posLook (pr : Pr ℚ) : Bool := decide (posSt.2.paf 0 ≠ posSt.2.paf 1) &&
  (List.range 2).all fun i => decide ((pr.heap (posSt.2.paf i)).c = ⟨fin 0, pinf⟩) && (pr.heap (posSt.2.paf i)).q.isEmpty

theorem posLook_gam {pr : Pr ℚ} (h : posLook pr = true) : Gam pr posSt.2 (fun i => (i : ℚ)) := by
  simp only [posLook, Bool.and_eq_true, decide_eq_true_eq, List.all_eq_true, List.mem_range, List.isEmpty_iff] at h
  obtain ⟨h2, h3⟩ := h
  have h1 : posSt.2.n = 2 := rfl
  have hm : ∀ i : ℕ, (i : ℚ) ∈ (⟨fin 0, pinf⟩ : Itv ℚ) := fun i => by simp [Itv.mem_def]
  refine ⟨fun i hi j hj e _ => ?_, fun _ => 0, fun k => Itv.mem_muu.2 ⟨by norm_num, by norm_num⟩, fun i hi => ?_⟩
  · rw [h1] at hi hj
    have a1 : i = 0 ∨ i = 1 := by omega
    have a2 : j = 0 ∨ j = 1 := by omega
    rcases a1 with rfl | rfl <;> rcases a2 with rfl | rfl
    · rfl
    · exact absurd e h2
    · exact absurd e.symm h2
    · rfl
  · have := h3 i (by omega)
    refine ⟨hm i, i, 0, by rw [this.1]; exact hm i, ?_, by ring⟩
    rw [this.2]; rfl

/-- C151: equality compares the contents of forms and not which dimensions share one.  `x, y ∈ [0,+oo]` and the same with
`y := x` are reported as equal, and the join of the second with the first loses the point `(0,1)`. -/
theorem C151_is_eq_sharing_wrong : ∃ st r : Pr ℚ × T1 ℚ, posRun = some st ∧ T1p.isEq st.1 st.2 posSt.2 = true ∧
    T1p.join Rnd.exact st.1 st.2 posSt.2 = some r ∧ Gam st.1 posSt.2 (fun i => (i : ℚ)) ∧ ¬ Gam st.1 st.2 (fun i => (i : ℚ)) ∧
    ¬ Gam r.1 r.2 (fun i => (i : ℚ)) := by
  have hb : (posRun.map fun st => (T1p.isEq st.1 st.2 posSt.2, (T1p.join Rnd.exact st.1 st.2 posSt.2).map
        fun r => decide (r.2.n = 2 ∧ r.2.paf 0 = r.2.paf 1 ∧ r.2.paf 0 ≠ topPtr),
      decide (st.2.n = 2 ∧ st.2.paf 0 = st.2.paf 1 ∧ st.2.paf 0 ≠ topPtr), posLook st.1)) = some (true, some true, true, true) := by decide +kernel
  obtain ⟨st, h1, h2⟩ := Option.map_eq_some_iff.1 hb
  simp only [Prod.mk.injEq] at h2
  obtain ⟨r, h3, h4⟩ := Option.map_eq_some_iff.1 h2.2.1
  exact ⟨st, r, h1, h2.1, h3, posLook_gam h2.2.2.2, shared_not_gam h2.2.2.1 (by norm_num), shared_not_gam h4 (by norm_num)⟩

/-- C151: a meet of two forms with symbols that differ is top, in the box too: the meet of `[0,2]` and `[1,3]` has the
point 4, which neither has. -/
theorem C151_meet_not_included : ∃ (p q r : Pr ℚ × T1 ℚ), p = ofBox Rnd.exact Pr.init 0 1 (fun _ => lbx 0 2) ∧
    q = ofBox Rnd.exact p.1 0 1 (fun _ => lbx 1 3) ∧ T1p.meet Rnd.exact q.1 p.2 q.2 = some r ∧ r.2.boundDim 0 = Itv.top ∧
    Gam r.1 r.2 (fun _ => 4) ∧ ¬ Gam q.1 p.2 (fun _ => 4) ∧ ¬ Gam q.1 q.2 (fun _ => 4) := by
  have hb : ((T1p.meet Rnd.exact (ofBox Rnd.exact (ofBox Rnd.exact Pr.init 0 1 fun _ => lbx 0 2).1 0 1 fun _ => lbx 1 3).1
      (ofBox Rnd.exact Pr.init 0 1 fun _ => lbx 0 2).2 (ofBox Rnd.exact (ofBox Rnd.exact Pr.init 0 1 fun _ => lbx 0 2).1 0 1 fun _ => lbx 1 3).2).map
      fun r => (decide (r.2.n = 1 ∧ r.2.paf 0 = topPtr ∧ r.2.box 0 = Itv.top ∧ (r.1.heap topPtr).c = Itv.top) && (r.1.heap topPtr).q.isEmpty)) = some true := by
    decide +kernel
  obtain ⟨r, h1, h2⟩ := Option.map_eq_some_iff.1 hb
  simp only [Bool.and_eq_true, decide_eq_true_eq, List.isEmpty_iff] at h2
  obtain ⟨⟨h3, h4, h5, h6⟩, h7⟩ := h2
  refine ⟨_, _, r, rfl, rfl, h1, h5, ⟨fun _ _ _ _ _ _ => rfl, fun _ => 0, fun k => Itv.mem_muu.2 ⟨by norm_num, by norm_num⟩, fun i hi => ?_⟩, ?_, ?_⟩
  · obtain rfl : i = 0 := by omega
    refine ⟨by rw [h5]; exact Itv.mem_top _, 4, 0, by rw [h4, h6]; exact Itv.mem_top _, ?_, by ring⟩
    rw [h4, h7]; rfl
  · rintro ⟨_, ε, _, g⟩
    have : (4 : ℚ) ∈ lbx 0 2 := (g 0 (by decide)).1
    simp [lbx, Itv.mem_def] at this
    norm_num at this
  · rintro ⟨_, ε, _, g⟩
    have : (4 : ℚ) ∈ lbx 1 3 := (g 0 (by decide)).1
    simp [lbx, Itv.mem_def] at this
    norm_num at this

end Props
end Apron
