import Verif.Props.ZonoWiden

/-!
# C152: examples, and witnesses of defects
-/

set_option autoImplicit false
set_option linter.unusedSectionVars false
set_option linter.ambiguousOpen false

namespace Apron
namespace Props
open Bound T1p

/-! ## Examples -/

/-- the widening of `[0,4]` by `[1,2]`: a new form, the box `[0,4]`; the hypotheses of the theorems hold -/
def wA : Pr ℚ × T1 ℚ := ofBox Rnd.exact Pr.init 0 1 fun _ => lbx 0 4
def wB : Pr ℚ × T1 ℚ := ofBox Rnd.exact wA.1 0 1 fun _ => lbx 1 2
example : (T1p.widen Rnd.exact wB.1 wA.2 wB.2).map (fun r => (r.2.box 0, decide (r.2.paf 0 = wB.1.next), (r.1.heap (r.2.paf 0)).c)) =
    some (lbx 0 4, true, Itv.point 2) := by decide +kernel
/-- in the other order the box is all the line -/
example : (T1p.widen Rnd.exact wB.1 wB.2 wA.2).map (fun r => r.2.box 0) = some Itv.top := by decide +kernel
example : WfPr wB.1 ∧ (∀ i < 1, wA.2.paf i < wB.1.next ∧ wA.2.paf i ≠ wB.2.paf i) ∧ ∀ i < 1, wB.2.paf i < wB.1.next :=
  ⟨(ofBox_wf (ofBox_wf wfPr_init (fun _ _ => by simp [lbx])).1 (fun _ _ => by simp [lbx])).1, by decide +kernel, by decide +kernel⟩
example : Canon (lbx 0 4) ∧ Canon (Itv.bottom : Itv ℚ) := ⟨by unfold Canon; decide +kernel, fun _ => rfl⟩

/-! ## Defects -/

/-- C152: the widening of a value with `x = y ∈ [-1,1]` by the point `(1/2, -1/2)` is this value: the point is lost. -/
theorem C152_widening_unsound : ∃ st p r : Pr ℚ × T1 ℚ, joinRun = some st ∧ p = ofBox Rnd.exact st.1 0 2 halfBox ∧
    T1p.widen Rnd.exact p.1 st.2 p.2 = some r ∧ Gam p.1 p.2 halfPt ∧ ¬ Gam r.1 r.2 halfPt := by
  have hb : (joinRun.map fun st => ((T1p.widen Rnd.exact (ofBox Rnd.exact st.1 0 2 halfBox).1 st.2 (ofBox Rnd.exact st.1 0 2 halfBox).2).map
        fun r => decide (r.2.n = 2 ∧ r.2.paf 0 = r.2.paf 1 ∧ r.2.paf 0 ≠ topPtr),
      halfLook (ofBox Rnd.exact st.1 0 2 halfBox).1 (ofBox Rnd.exact st.1 0 2 halfBox).2)) = some (some true, true) := by decide +kernel
  obtain ⟨st, h1, h2⟩ := Option.map_eq_some_iff.1 hb
  simp only [Prod.mk.injEq] at h2
  obtain ⟨r, h3, h4⟩ := Option.map_eq_some_iff.1 h2.1
  exact ⟨st, _, r, h1, rfl, h3, halfLook_gam h2.2, shared_not_gam h4 (by simp [halfPt]; norm_num)⟩

/-- C152: a widening always reports that its result is exact.  The widening of `[1,2]` by `[0,4]` has the point 5, which
neither has. -/
theorem C152_widening_flag_exact_wrong : ∃ r : Pr ℚ × T1 ℚ, T1p.widen Rnd.exact wB.1 wB.2 wA.2 = some r ∧ widenFlags.1 = true ∧
    Gam r.1 r.2 (fun _ => 5) ∧ ¬ Gam wB.1 wA.2 (fun _ => 5) ∧ ¬ Gam wB.1 wB.2 (fun _ => 5) := by
  have hb : ((T1p.widen Rnd.exact wB.1 wB.2 wA.2).map fun r => (decide (r.2.n = 1 ∧ r.2.box 0 = Itv.top ∧ (r.1.heap (r.2.paf 0)).c = Itv.top) &&
      (r.1.heap (r.2.paf 0)).q.isEmpty)) = some true := by decide +kernel
  obtain ⟨r, h1, h2⟩ := Option.map_eq_some_iff.1 hb
  simp only [Bool.and_eq_true, decide_eq_true_eq, List.isEmpty_iff] at h2
  obtain ⟨⟨h3, h5, h6⟩, h7⟩ := h2
  refine ⟨r, h1, rfl, ⟨fun _ _ _ _ _ _ => rfl, fun _ => 0, fun k => Itv.mem_muu.2 ⟨by norm_num, by norm_num⟩, fun i hi => ?_⟩, ?_, ?_⟩
  · obtain rfl : i = 0 := by omega
    refine ⟨by rw [h5]; exact Itv.mem_top _, 5, 0, by rw [h6]; exact Itv.mem_top _, ?_, by ring⟩
    rw [h7]; rfl
  · rintro ⟨_, ε, _, g⟩
    have : (5 : ℚ) ∈ lbx 0 4 := (g 0 (by decide)).1
    simp [lbx, Itv.mem_def] at this
    norm_num at this
  · rintro ⟨_, ε, _, g⟩
    have : (5 : ℚ) ∈ lbx 1 2 := (g 0 (by decide)).1
    simp [lbx, Itv.mem_def] at this
    norm_num at this

/-! ## Forms are never stationary -/

/-- one iteration: widening by a new value `[-1,1]` -/
def wIter (st : Pr ℚ × T1 ℚ) : Option (Pr ℚ × T1 ℚ) :=
  T1p.widen Rnd.exact (ofBox Rnd.exact st.1 0 1 fun _ => ub).1 st.2 (ofBox Rnd.exact st.1 0 1 fun _ => ub).2

theorem addItv_ub (n : ℕ) : addItv Rnd.exact n Aff.zero ub false = (⟨Itv.point 0, [⟨⟨n, false⟩, Itv.point 1⟩], Itv.point 0⟩, n + 1) := by
  have h1 : Itv.middev Rnd.exact ub = (Itv.point 0, Itv.point 1) := by decide +kernel
  have h2 : Itv.add Rnd.exact (Aff.zero : Aff ℚ).c (Itv.point 0) = Itv.point 0 := by decide +kernel
  have h3 : Itv.isLeq (Itv.point 1) (Itv.point (0 : ℚ)) = false := by decide +kernel
  have h4 : ub.isPoint = false := by decide +kernel
  unfold addItv
  rw [if_neg (by rw [h4]; simp)]
  simp only [h1, h2]
  unfold nsymCreate
  rw [if_neg (by rw [h3]; simp)]
  rfl

theorem ofBox_ub (pr : Pr ℚ) : ofBox Rnd.exact pr 0 1 (fun _ => ub) =
    (⟨Function.update pr.heap pr.next ⟨Itv.point 0, [⟨⟨pr.nsym, false⟩, Itv.point 1⟩], Itv.point 0⟩, pr.next + 1, pr.nsym + 1⟩,
      ⟨1, 0, Function.update (fun _ => topPtr) 0 pr.next, fun _ => ub⟩) := by
  have h1 : ub.isBottom = false := by decide +kernel
  have h2 : ub.isTop = false := by decide +kernel
  have h3 : ub.isPoint = false := by decide +kernel
  have h4 : ub.hasInfty = false := by decide +kernel
  have : List.range 1 = [0] := rfl
  simp only [ofBox, this, List.foldl_cons, List.foldl_nil, ofBoxStep, h1, h2, h3, h4, addItv_ub, Bool.not_false, if_true,
    Bool.false_eq_true, if_false]

/-- the state after the two terms -/
theorem wSt (k m : ℕ) (un : Bool) : ∃ c1 d1, (joinR Rnd.exact (joinL Rnd.exact (⟨Itv.point 0, Itv.point 0, Itv.point 0, Itv.point 0⟩ : JoinSt ℚ)
      ⟨⟨k, un⟩, Itv.point 1⟩) ⟨⟨m, false⟩, Itv.point 1⟩) = ⟨c1, ub, d1, Itv.point 0⟩ ∧
    ((c1 = ub ∧ d1 = Itv.point 0) ∨ (c1 = Itv.point 0 ∧ d1 = ub)) := by
  cases un
  · refine ⟨ub, Itv.point 0, ?_, .inl ⟨rfl, rfl⟩⟩
    simp only [joinL, joinR, JoinSt.addIn, Bool.false_eq_true, if_false, JoinSt.mk.injEq]
    exact ⟨by decide +kernel, by decide +kernel, trivial, trivial⟩
  · refine ⟨Itv.point 0, ub, ?_, .inr ⟨rfl, rfl⟩⟩
    simp only [joinL, joinR, JoinSt.addIn, Bool.false_eq_true, if_false, if_true, JoinSt.mk.injEq]
    exact ⟨by decide +kernel, by decide +kernel, by decide +kernel, trivial⟩

theorem joinEnd_unit (n : ℕ) (itv : Itv ℚ) {i1 s1 i2 s2 e1 e2 : ℚ} {x y : Bound ℚ}
    (h1 : max (max (max (-i1 + e1) (-i2 + e2)) (s1 + e1)) (s2 + e2) = 1) (h2 : max (max (max (i1 + e1) (i2 + e2)) (-s1 + e1)) (-s2 + e2) = 1)
    (h3 : max i1 i2 = 1) (h4 : max s1 s2 = 1) : joinEnd Rnd.exact n itv [] ⟨fin i1, fin s1⟩ ⟨fin i2, fin s2⟩ ⟨x, fin e1⟩ ⟨y, fin e2⟩ =
      some (.fresh ⟨Itv.point 0, [⟨⟨n, true⟩, Itv.point 1⟩], itv⟩ (n + 1)) := by
  have h0 : Itv.isLeq (Itv.point 1) (Itv.point (0 : ℚ)) = false := by decide +kernel
  have c0 : ((1 : ℚ) - 1) / 2 = 0 := by norm_num
  have b0 : ((1 : ℚ) + 1) / 2 = 1 := by norm_num
  unfold joinEnd
  simp only [numUp_exact, h1, h2, h3, h4, c0, b0]
  split
  · rename_i h; exfalso; rcases h with h | h <;> norm_num at h
  · unfold nsymCreate
    rw [if_neg (by rw [h0]; simp)]
    rfl

theorem joinEnd_ub (n : ℕ) (itv : Itv ℚ) {c1 d1 : Itv ℚ} (h : (c1 = ub ∧ d1 = Itv.point 0) ∨ (c1 = Itv.point 0 ∧ d1 = ub)) :
    joinEnd Rnd.exact n itv [] (Itv.add Rnd.exact c1 (Itv.middev Rnd.exact d1).1) (Itv.add Rnd.exact ub (Itv.middev Rnd.exact (Itv.point 0)).1)
      (Itv.middev Rnd.exact d1).2 (Itv.middev Rnd.exact (Itv.point 0)).2 = some (.fresh ⟨Itv.point 0, [⟨⟨n, true⟩, Itv.point 1⟩], itv⟩ (n + 1)) := by
  have z1 : Itv.middev Rnd.exact (Itv.point (0 : ℚ)) = (Itv.point 0, Itv.point 0) := by decide +kernel
  have u1 : Itv.middev Rnd.exact ub = (Itv.point 0, Itv.point 1) := by decide +kernel
  have a1 : Itv.add Rnd.exact ub (Itv.point 0) = ub := by decide +kernel
  have a2 : Itv.add Rnd.exact (Itv.point (0 : ℚ)) (Itv.point 0) = Itv.point 0 := by decide +kernel
  rcases h with ⟨rfl, rfl⟩ | ⟨rfl, rfl⟩
  · simp only [z1, a1]
    exact joinEnd_unit n itv (by norm_num) (by norm_num) (by norm_num) (by norm_num)
  · simp only [z1, u1, a1, a2]
    exact joinEnd_unit n itv (by norm_num) (by norm_num) (by norm_num) (by norm_num)

theorem widenForm_ub {k m n : ℕ} {un : Bool} (h : k < m) (i1 i2 : Itv ℚ) :
    widenForm Rnd.exact n ⟨Itv.point 0, [⟨⟨k, un⟩, Itv.point 1⟩], i1⟩ ⟨Itv.point 0, [⟨⟨m, false⟩, Itv.point 1⟩], i2⟩ =
      some (.fresh ⟨Itv.point 0, [⟨⟨n, true⟩, Itv.point 1⟩], Itv.join i1 i2⟩ (n + 1)) := by
  have h1 : k ≠ m := by omega
  obtain ⟨c1, d1, e1, e2⟩ := wSt k m un
  unfold widenForm
  simp only [List.isEmpty_cons, Bool.false_and, Bool.false_eq_true, if_false, List.length_cons, List.length_nil, widenLoop, h1, h, if_true, e1]
  exact joinEnd_ub n _ e2

/-- the form of the only dimension: centre 0 and one symbol with the coefficient 1 -/
structure WLook (st : Pr ℚ × T1 ℚ) : Prop where
  n : st.2.n = 1
  box : st.2.box 0 = ub
  lt : st.2.paf 0 < st.1.next
  form : ∃ k un i, k < st.1.nsym ∧ st.1.heap (st.2.paf 0) = ⟨Itv.point 0, [⟨⟨k, un⟩, Itv.point 1⟩], i⟩

theorem wLook_step {st : Pr ℚ × T1 ℚ} (h : WLook st) : ∃ r, wIter st = some r ∧ WLook r ∧ T1p.isEq r.1 st.2 r.2 = false := by
  obtain ⟨hn, hb, hl, k, un, i, hk, hf⟩ := h
  have f1 : ub.isTop = false := by decide +kernel
  have f2 : ub.isBottom = false := by decide +kernel
  have f3 : (Itv.widening ub ub).hasInfty = false := by decide +kernel
  have f4 : Itv.widening ub ub = ub := by decide +kernel
  have hl' : st.2.paf 0 ≠ st.1.next := by omega
  have hne : st.1.next ≠ st.2.paf 0 := hl'.symm
  have hkn : k ≠ st.1.nsym := by omega
  have r1 : List.range 1 = [0] := rfl
  have hq : affEq (⟨Itv.point 0, [⟨⟨k, un⟩, Itv.point 1⟩], i⟩ : Aff ℚ) ⟨Itv.point 0, [⟨⟨st.1.nsym, false⟩, Itv.point 1⟩], Itv.point 0⟩ = false := by
    rw [Bool.eq_false_iff, Ne, affEq_iff]; simp [hkn]
  have hE : T1p.isEq (ofBox Rnd.exact st.1 0 1 fun _ => ub).1 st.2 (ofBox Rnd.exact st.1 0 1 fun _ => ub).2 = false := by
    simp [T1p.isEq, ofBox_ub, hn, r1, hl', Function.update_of_ne, hf, hq]
  have ht : st.2.isTop = some false := by simp [T1.isTop, hn, r1, hb, f1]
  have hbt : st.2.isBottom = some false := by simp [T1.isBottom, hn, r1, hb, f2]
  have ht2 : (ofBox Rnd.exact st.1 0 1 fun _ => ub).2.isTop = some false := by simp [T1.isTop, ofBox_ub, r1, f1]
  have hbt2 : (ofBox Rnd.exact st.1 0 1 fun _ => ub).2.isBottom = some false := by simp [T1.isBottom, ofBox_ub, r1, f2]
  unfold wIter T1p.widen
  rw [if_neg (by rw [hE]; simp), ht, ht2, hbt, hbt2]
  simp only [Option.bind_some, Bool.or_self, Bool.false_eq_true, if_false, hn, r1, widenLoopDims]
  have hs : widenStep Rnd.exact st.2 (ofBox Rnd.exact st.1 0 1 fun _ => ub).2 (ofBox Rnd.exact st.1 0 1 fun _ => ub).1 0 =
      some (newAff (setItv (setItv (ofBox Rnd.exact st.1 0 1 fun _ => ub).1 (st.2.paf 0) ub) st.1.next ub)
        ⟨Itv.point 0, [⟨⟨st.1.nsym + 1, true⟩, Itv.point 1⟩], ub⟩ (st.1.nsym + 2), st.1.next + 1) := by
    unfold widenStep
    simp only [ofBox_ub, Function.update_self, Function.update_of_ne hl', hf, hb, f3, hq, Aff.isBottom, Aff.isTop, List.isEmpty_cons,
      Bool.and_false, Bool.or_self, Bool.false_eq_true, if_false, setItv, Function.update_of_ne hne]
    rw [widenForm_ub hk]
    have : Itv.join ub ub = ub := by decide +kernel
    rw [this]
  rw [hs]
  refine ⟨_, rfl, ⟨rfl, by simp [T1.set, hb, ofBox_ub, f4], ?_, st.1.nsym + 1, true, ub, ?_, ?_⟩, ?_⟩
  · simp [T1.set, newAff, setItv, ofBox_ub]
  · simp [newAff]
  · simp [T1.set, newAff, setItv, ofBox_ub]
  · rw [Bool.eq_false_iff, Ne, T1p.isEq_iff, hn]
    intro g
    have g := (g 0 (by omega)).2.1
    have e1 : st.2.paf 0 ≠ st.1.next + 1 := by omega
    simp [T1.set, newAff, setItv, ofBox_ub, Function.update_of_ne, e1, hl', hf] at g
    omega

/-- C152: the forms of a sequence of widenings never become stationary: widening again and again by `[-1,1]`, each value
differs from the one before, though the box is always `[-1,1]`. -/
theorem C152_widening_forms_not_stationary : ∃ s : ℕ → Pr ℚ × T1 ℚ, s 0 = ofBox Rnd.exact Pr.init 0 1 (fun _ => ub) ∧
    ∀ k, T1p.widen Rnd.exact (ofBox Rnd.exact (s k).1 0 1 fun _ => ub).1 (s k).2 (ofBox Rnd.exact (s k).1 0 1 fun _ => ub).2 = some (s (k + 1)) ∧
      (s k).2.box 0 = ub ∧ T1p.isEq (s (k + 1)).1 (s k).2 (s (k + 1)).2 = false := by
  have h0 : WLook (ofBox Rnd.exact Pr.init 0 1 fun _ => ub) := by
    rw [ofBox_ub]
    exact ⟨rfl, rfl, by simp, _, false, Itv.point 0, Nat.lt_succ_self _, by simp⟩
  choose f hf using fun st : {st : Pr ℚ × T1 ℚ // WLook st} => wLook_step st.2
  let s : ℕ → {st : Pr ℚ × T1 ℚ // WLook st} := fun k => Nat.rec ⟨_, h0⟩ (fun _ st => ⟨f st, (hf st).2.1⟩) k
  exact ⟨fun k => (s k).1, rfl, fun k => ⟨(hf (s k)).1, (s k).2.box, (hf (s k)).2.2⟩⟩

end Props
end Apron
