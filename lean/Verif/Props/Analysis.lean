import Verif.Client.Analysis
import Verif.Props.PkMan
import Verif.Props.PkWiden
import Verif.Props.PkUser
import Verif.Props.GenericInst
import Verif.Props.BoxConstraint
import Verif.Props.OctTransfer
import Verif.Props.OctReach
import Verif.Props.Level1Inst
/-!
# C136: analyses by iteration with widening terminate and are sound

The whole-analysis statement for which the operations of the library are designed: for boxes, octagons and polyhedra of newpolka over the
rationals, the forward analysis of *every* structured program (`Verif/Client/Analysis.lean`) terminates, calls no operation outside its precondition,
and its result contains every state that an execution of the program can reach.

The argument of an octagon operation is modified by the closures that the operation caches in it; these do not change the result of
the operations modelled here (`Wf` octagons, exact numbers), so the analysis is written with values.
-/
set_option autoImplicit false
set_option linter.unusedSectionVars false
set_option linter.ambiguousOpen false

namespace Apron.Props
open Apron.Client

/-! ## Any domain -/

section
variable {K : Type*} [LinearOrder K] [Field K] [IsStrictOrderedRing K] {A : Type*} {D : Dom K A} {Ok : A → Prop} {Gam : A → (ℕ → K) → Prop}
  {intdim : ℕ} {LA : List (ℕ × Linexpr K) → Prop} {LC : List (Lincons K) → Prop}

/-- every final state of every execution from a state described by the initial abstract value is described by the result -/
theorem C136_analysis_sound (S : D.Spec Ok Gam intdim LA LC) {s : Stmt K} (hs : s.Legal LA LC) {a r : A} (ha : Ok a) {f : ℕ}
    (h : run D f s a = some r) {x y : ℕ → K} (hx : Gam a x) (hi : ∀ d, d < intdim → ∃ n : ℤ, x d = n) (he : Exec intdim s x y) : Gam r y :=
  (run_sound S hs ha h).2 x y hi hx he

/-- the analysis terminates, without undefined behaviour, and its result does not depend on the bound of the recursion -/
theorem C136_analysis_terminates (S : D.Spec Ok Gam intdim LA LC) {s : Stmt K} (hs : s.Legal LA LC) {a : A} (ha : Ok a) :
    ∃ r, Ok r ∧ ∃ f, ∀ g, f ≤ g → run D g s a = some r := by
  obtain ⟨f, r, h⟩ := run_total S s hs a ha
  exact ⟨r, (run_sound S hs ha h).1, f, fun g hg => run_mono D h hg⟩

end

/-! ## Boxes -/

section Box
open Apron.Box

/-- the operations of the domain of boxes over the rationals -/
def boxDom (algo : ℕ) : Dom ℚ (Box ℚ) where
  assign a l := some (a.assignLinexprArray Rnd.exact l none)
  assume a l := some (a.meetLinconsArray Rnd.exact ILincons.reduceIntegerRat l algo)
  join a b := some (a.join b)
  widen a b := some (a.widening b)
  leq a b := a.isLeq b

/-- the boxes with `i` integer and `r` real dimensions -/
def BoxOk (i r : ℕ) (a : Box ℚ) : Prop := a.Wf ∧ a.intdim = i ∧ a.realdim = r

/-- legal assignments: distinct targets, expressions on existing dimensions that have values -/
def BoxLA (n : ℕ) (l : List (ℕ × Linexpr ℚ)) : Prop :=
  (l.map Prod.fst).Nodup ∧ (∀ q ∈ l, q.2.InDim n) ∧ ∀ q ∈ l, ∀ x, ∃ v, q.2.Val x v

/-- legal constraints -/
def BoxLC (n : ℕ) (l : List (Lincons ℚ)) : Prop := ∀ c ∈ l, c.expr.InDim n ∧ ∃ x v, c.expr.Val x v

theorem BoxOk.dim {i r : ℕ} {a : Box ℚ} (h : BoxOk i r a) : a.dim = i + r := by rw [Box.dim, h.2.1, h.2.2]

theorem boxDom_spec (algo i r : ℕ) : (boxDom algo).Spec (BoxOk i r) (fun a x => a.Gam x) i (BoxLA (i + r)) (BoxLC (i + r)) where
  assign a l ha hl := by
    refine ⟨_, rfl, ⟨C14_assign_linexpr_wf _ a ha.1 l hl.1 (by rw [ha.dim]; exact hl.2.1) hl.2.2, ?_⟩, fun x y hx _ hv hk =>
      C14_assign_linexpr_sound _ a l hl.1 (by rw [ha.dim]; exact hl.2.1) x y hx hv fun v _ hn => hk v hn⟩
    unfold Box.assignLinexprArray
    rcases a.p with _ | p
    · exact ha.2
    · exact ha.2
  assume a l ha hl := by
    have hd := box_meetLincons_dims Rnd.exact ILincons.reduceIntegerRat a l algo
    exact ⟨_, rfl, ⟨C16_meet_lincons_wf a ha.1 l (by rw [ha.dim]; exact fun c hc => (hl c hc).1) (fun c hc => (hl c hc).2) algo,
      hd.1.trans ha.2.1, hd.2.trans ha.2.2⟩, fun x hx hi hc =>
      C16_meet_lincons_sound a l (by rw [ha.dim]; exact fun c hc => (hl c hc).1) algo x hx (by rw [ha.2.1]; exact hi) hc⟩
  join a b ha hb :=
    have hd := box_join_dims a b
    ⟨_, rfl, ⟨C11_join_wf a b ha.1 hb.1 (ha.dim.trans hb.dim.symm), hd.1.trans ha.2.1, hd.2.trans ha.2.2⟩, fun x hx =>
      C11_join_upper a b (ha.dim.trans hb.dim.symm) x hx⟩
  widen a b ha hb hle := by
    refine ⟨_, rfl, ⟨C09_box_widening_wf a b ha.1 hb.1 (ha.dim.trans hb.dim.symm), ?_⟩, fun x hx =>
      C09_box_widening_covers a b (ha.dim.trans hb.dim.symm) x (fun h => ?_) (.inr hx)⟩
    · unfold Box.widening
      rcases a.p with _ | p
      · exact hb.2
      · rcases b.p with _ | q <;> exact ha.2
    · by_contra hb'
      rw [Bool.not_eq_false] at hb'
      exact (C10_is_bottom b hb.1).1 hb' x hx
  leq a b ha hb h := (C10_is_leq a b ha.1 hb.1 (ha.dim.trans hb.dim.symm)).1 h
  term x y hx hy hle hst := by
    have h := C09_box_widening_stabilises x y (hx 0).1 (fun n => ⟨(hy n).1, (hy n).2.1.trans (hx 0).2.1.symm, (hy n).2.2.trans (hx 0).2.2.symm⟩)
      fun n => (Option.some.inj (hst n)).symm
    obtain ⟨_, N, hN⟩ := h
    refine ⟨N, (C10_is_leq (y N) (x N) (hy N).1 (hx N).1 ((hy N).dim.trans (hx N).dim.symm)).2 fun p hp => ?_⟩
    rw [← hN (N + 1) (Nat.le_succ N), ← Option.some.inj (hst N)]
    refine C09_box_widening_covers _ _ ((hx N).dim.trans (hy N).dim.symm) p (fun h => ?_) (.inr hp)
    by_contra hb'
    rw [Bool.not_eq_false] at hb'
    exact (C10_is_bottom _ (hy N).1).1 hb' p hp

/-- the analysis of a program with boxes: it terminates and covers all the executions -/
theorem C136_box_analysis (algo i r : ℕ) {s : Stmt ℚ} (hs : s.Legal (BoxLA (i + r)) (BoxLC (i + r))) {a : Box ℚ} (ha : a.Wf)
    (hi : a.intdim = i) (hr : a.realdim = r) :
    ∃ b : Box ℚ, (∃ f, ∀ g, f ≤ g → run (boxDom algo) g s a = some b) ∧ b.Wf ∧
      ∀ x y : ℕ → ℚ, a.Gam x → (∀ d, d < i → ∃ n : ℤ, x d = n) → Exec i s x y → b.Gam y := by
  obtain ⟨b, hb, f, hf⟩ := C136_analysis_terminates (boxDom_spec algo i r) hs (a := a) ⟨ha, hi, hr⟩
  exact ⟨b, ⟨f, hf⟩, hb.1, fun x y hx hxi he => C136_analysis_sound (boxDom_spec algo i r) hs ⟨ha, hi, hr⟩ (hf f (le_refl f)) hx hxi he⟩

end Box

/-! ## Octagons -/

section Oct
open Apron.OctT Apron.Oct

/-- the operations of the domain of octagons over the rationals; `uninit` is the contents of the memory that `assign` allocates -/
def octDom (algo : ℤ) (uninit : Oct.Mem ℚ) : Dom ℚ (OctT ℚ) where
  assign a l := some (OctT.assignLinexprArray Rnd.exact algo uninit a l none)
  assume a l := some (OctT.meetLinconsArray Rnd.exact algo a l)
  join a b := some (OctT.join Rnd.exact algo a b)
  widen a b := some (OctT.widening Rnd.exact algo a b)
  leq a b := OctT.isLeq Rnd.exact algo a b

/-- the octagons with `n` dimensions, `i` of which are integer -/
def OctOk (n i : ℕ) (a : OctT ℚ) : Prop := OctT.Wf a ∧ a.dim = n ∧ a.intdim = i

/-- legal assignments; an assignment of a single dimension must not meet the defect `C41_assign_unsound`: its expression does not
mention the last dimension, or is `[l,u]` or `±y + [l,u]` -/
def OctLA (n : ℕ) (l : List (ℕ × Linexpr ℚ)) : Prop :=
  (l.map Prod.fst).Nodup ∧ (∀ p ∈ l, p.1 < n ∧ p.2.InDim n ∧ p.2.Proper) ∧
    ∀ d e, l = [(d, e)] → n - 1 ∉ e.terms.map Prod.fst ∨ e.UnitShape

def OctLC (n : ℕ) (l : List (Lincons ℚ)) : Prop := ∀ c ∈ l, c.expr.InDim n ∧ c.expr.Proper

theorem oct_widening_dims (algo : ℤ) (a b : OctT ℚ) (hd : a.dim = b.dim) (hi : a.intdim = b.intdim) :
    (OctT.widening Rnd.exact algo a b).dim = a.dim ∧ (OctT.widening Rnd.exact algo a b).intdim = a.intdim := by
  have h1 := OctT.cacheIf_dim Rnd.exact algo b
  have h2 := OctT.cacheIf_intdim Rnd.exact algo b
  unfold OctT.widening
  simp only []
  split
  · exact ⟨h1.trans hd.symm, h2.trans hi.symm⟩
  · exact ⟨rfl, rfl⟩
  · exact ⟨rfl, rfl⟩

theorem oct_assignArray_dims (algo : ℤ) (uninit : Oct.Mem ℚ) (a : OctT ℚ) (l : List (ℕ × Linexpr ℚ)) :
    (OctT.assignLinexprArray Rnd.exact algo uninit a l none).dim = a.dim ∧
    (OctT.assignLinexprArray Rnd.exact algo uninit a l none).intdim = a.intdim := by
  have h1 := OctT.cacheIf_dim Rnd.exact algo a
  have h2 := OctT.cacheIf_intdim Rnd.exact algo a
  by_cases hlen : l.length = 1
  · obtain ⟨⟨d, e⟩, rfl⟩ := List.length_eq_one_iff.1 hlen
    exact OctT.assignLinexpr_dim Rnd.exact algo a d e none
  · have hne : ∀ d e, l ≠ [(d, e)] := fun d e h => hlen (by rw [h]; rfl)
    rw [OctT.assignLinexprArray.eq_2 _ _ _ _ _ _ hne]
    dsimp only [OctT.bottom]
    repeat' first | split_ifs | split
    all_goals first | exact ⟨rfl, rfl⟩ | exact ⟨h1, h2⟩

theorem octDom_spec (algo : ℤ) (h0 : 0 ≤ algo) (h99 : algo ≠ 99) (uninit : Oct.Mem ℚ) (n i : ℕ) :
    (octDom algo uninit).Spec (OctOk n i) (fun a x => a.Gam x) i (OctLA n) (OctLC n) where
  assign a l ha hl := by
    obtain ⟨hw, rfl, rfl⟩ := ha
    refine ⟨_, rfl, ⟨C41_assign_array_wf algo uninit a hw l none hl.1 (fun p hp => (hl.2.1 p hp).1) (fun p hp => (hl.2.1 p hp).2)
      (by simp), oct_assignArray_dims algo uninit a l⟩, fun x y hx _ hv hk => ?_⟩
    by_cases hlen : l.length = 1
    · obtain ⟨⟨d, e⟩, rfl⟩ := List.length_eq_one_iff.1 hlen
      have h := C41_assign_partial Rnd.exact algo a d e x (y d) none (hl.2.1 (d, e) (by simp)).1 (hl.2.1 (d, e) (by simp)).2.1
        ((hl.2.2 d e rfl).imp id fun h => ⟨h, rfl, rfl⟩) hx (hv (d, e) (by simp)) (by simp)
      have e1 : y = Function.update x d (y d) := by
        funext v
        by_cases h : v = d
        · subst h; simp
        · rw [Function.update_of_ne h, hk v (by simpa using h)]
      rw [e1]
      exact h
    · exact C41_assign_array_sound Rnd.exact algo uninit a l x y none hlen hl.1 (fun p hp => (hl.2.1 p hp).2.1) hx hv hk (by simp)
  assume a l ha hl := by
    obtain ⟨hw, rfl, rfl⟩ := ha
    exact ⟨_, rfl, ⟨C40_meet_lincons_wf algo a hw l (fun c hc => (hl c hc).1) fun c hc => (hl c hc).2, C40_meet_lincons_dims _ algo a l⟩,
      fun x hx hi hc => C40_meet_lincons_sound Rnd.exact algo a l x (fun c hc => (hl c hc).1) (fun c hc _ => ⟨fun _ _ => rfl, fun _ _ _ _ => rfl⟩) hi hx hc⟩
  join a b ha hb :=
    have hd := oct_join_dims Rnd.exact algo a b
    ⟨_, rfl, ⟨wf_join algo ha.1 hb.1 (ha.2.1.trans hb.2.1.symm), hd.1.trans ha.2.1, hd.2.trans ha.2.2⟩, fun x hx =>
      C32_join_sound Rnd.exact algo a b (ha.2.1.trans hb.2.1.symm) x hx⟩
  widen a b ha hb _ :=
    have hd := oct_widening_dims algo a b (ha.2.1.trans hb.2.1.symm) (ha.2.2.trans hb.2.2.symm)
    ⟨_, rfl, ⟨wf_widening algo ha.1 hb.1 (ha.2.1.trans hb.2.1.symm), hd.1.trans ha.2.1, hd.2.trans ha.2.2⟩, fun x hx =>
      C33_widening_sound Rnd.exact algo a b ha.1.wfr (ha.2.1.trans hb.2.1.symm) x (.inr hx)⟩
  leq a b ha hb h := (C30_is_leq_exact algo h0 a b ha.1 (ha.2.1.trans hb.2.1.symm)).1 h
  term x y hx hy hle hst := by
    obtain ⟨N, hN⟩ := C33_widening_sets_stationary Rnd.exact algo ⟨h99, by omega⟩ n x y (fun k => (hy k).1.wfr) (fun k => (hy k).2.1)
      (hx 0).1.wfr (hx 0).2.1 fun k => (Option.some.inj (hst k)).symm
    refine ⟨N, (C30_is_leq_exact algo h0 _ _ (hy N).1 ((hy N).2.1.trans (hx N).2.1.symm)).2 fun p hp => ?_⟩
    rw [← hN (N + 1) (Nat.le_succ N), ← Option.some.inj (hst N)]
    exact C33_widening_sound Rnd.exact algo _ _ (hx N).1.wfr ((hx N).2.1.trans (hy N).2.1.symm) p (.inr hp)

/-- the analysis of a program with octagons: it terminates and covers all the executions -/
theorem C136_oct_analysis (algo : ℤ) (h0 : 0 ≤ algo) (h99 : algo ≠ 99) (uninit : Oct.Mem ℚ) {a : OctT ℚ} (ha : OctT.Wf a) {s : Stmt ℚ}
    (hs : s.Legal (OctLA a.dim) (OctLC a.dim)) :
    ∃ b : OctT ℚ, (∃ f, ∀ g, f ≤ g → run (octDom algo uninit) g s a = some b) ∧ OctT.Wf b ∧
      ∀ x y : ℕ → ℚ, a.Gam x → (∀ d, d < a.intdim → ∃ n : ℤ, x d = n) → Exec a.intdim s x y → b.Gam y := by
  have S := octDom_spec algo h0 h99 uninit a.dim a.intdim
  obtain ⟨b, hb, f, hf⟩ := C136_analysis_terminates S hs (a := a) ⟨ha, rfl, rfl⟩
  exact ⟨b, ⟨f, hf⟩, hb.1, fun x y hx hxi he => C136_analysis_sound S hs ⟨ha, rfl, rfl⟩ (hf f (le_refl f)) hx hxi he⟩

end Oct

/-! ## Polyhedra -/

section Pk
open Apron.Poly

/-- the operations of the domain of convex polyhedra; the dimensions of the results of join and widening are those of the first
argument (newpolka/pk_meetjoin.c:880-905, pk_widening.c:395-460) -/
def pkDom (destr : Bool) (alg : ℤ) (o : Opts) (mlzy : Bool) : Dom ℚ PkT where
  assign a l := a.asssubLinexpr true destr alg o mlzy l none
  assume a l := (a.rep.meetLincons a.dim a.intdim mlzy l).map fun r => ⟨a.intdim, a.realdim, r⟩
  join a b := (a.rep.join a.dim o destr b.rep).map fun r => ⟨a.intdim, a.realdim, r⟩
  widen a b := (a.rep.widening a.dim alg b.rep).map fun r => ⟨a.intdim, a.realdim, r⟩
  leq a b := a.rep.isLeq a.dim alg b.rep

def PkOk (i r : ℕ) (a : PkT) : Prop := a.Ok ℚ ∧ a.intdim = i ∧ a.realdim = r

/-- legal assignments; expressions that are all linear have finite coefficients -/
def PkLA (n : ℕ) (l : List (ℕ × Linexpr ℚ)) : Prop :=
  l ≠ [] ∧ (l.map Prod.fst).Nodup ∧ (∀ p ∈ l, p.1 < n ∧ GoodLin n p.2) ∧ n + l.length ≤ dimMax ∧
    ((∀ p ∈ l, p.2.isLinear = true) → ∀ p ∈ l, p.2.Numeric)

def PkLC (n : ℕ) (l : List (Lincons ℚ)) : Prop := ∀ c ∈ l, c.expr.InDim n

theorem pkGam_iff {a : PkT} {n : ℕ} (h : a.dim = n) (x : ℕ → ℚ) : a.Gam ℚ x ↔ a.rep.γ (fun i : Fin n => x i) := by subst h; exact Iff.rfl

theorem pkGam_dim {a b : PkT} (h : b.dim = a.dim) (x : ℕ → ℚ) : b.Gam ℚ x ↔ b.rep.γ (fun i : Fin a.dim => x i) := pkGam_iff h x

theorem pkGam_le {a b : PkT} (h : b.dim = a.dim) (hle : ∀ x : ℕ → ℚ, a.Gam ℚ x → b.Gam ℚ x) (x : Fin a.dim → ℚ) (hx : a.rep.γ x) :
    b.rep.γ x := by
  have h := (pkGam_dim h (ext x)).1 (hle (ext x) (by rw [PkT.Gam]; simpa only [ext_lt] using hx))
  simpa only [ext_lt] using h

theorem pkDom_spec (destr : Bool) (alg : ℤ) (o : Opts) (mlzy : Bool) (i r : ℕ) :
    (pkDom destr alg o mlzy).Spec (PkOk i r) (PkT.Gam ℚ) i (PkLA (i + r)) (PkLC (i + r)) where
  assign a l ha hl := by
    obtain ⟨hw, rfl, rfl⟩ := ha
    obtain ⟨b, e, h1, h2, h3, h4⟩ := C112_assign_linexpr_sound (destr := destr) (alg := alg) (o := o) (mlzy := mlzy) (a := a) (l := l)
      (dest := none) ⟨hw, hl.1, hl.2.1, hl.2.2.1, hl.2.2.2.1, by simp⟩ hl.2.2.2.2
    exact ⟨b, e, ⟨h1, h2, h3⟩, fun x y hx hi hv hk => h4 x y hx (by simp) hi hv fun v _ hn => hk v hn⟩
  assume a l ha hl := by
    obtain ⟨hw, rfl, rfl⟩ := ha
    obtain ⟨b, e, h1, _, h2⟩ := C91_meet_lincons_sound (intdim := a.intdim) (lzy := mlzy) (pa := a.rep) (n := a.dim) hw hl
    exact ⟨⟨a.intdim, a.realdim, b⟩, by simp only [pkDom, e, Option.map_some], ⟨h1, rfl, rfl⟩, fun x hx hi hc =>
      h2 _ (fun d hd => hi d hd) hx fun c hc' => holds_ext (hl c hc') x (hc c hc')⟩
  join a b ha hb := by
    obtain ⟨hw, rfl, rfl⟩ := ha
    obtain ⟨hw', h1, h2⟩ := hb
    have hd : b.dim = a.dim := by rw [PkT.dim, h1, h2]; rfl
    have hb' : b.rep.Wf ℚ a.dim := hd ▸ hw'
    obtain ⟨c, e, h3, h4, _⟩ := C89_join_least (o := o) (destr := destr) hw hb'
    refine ⟨⟨a.intdim, a.realdim, c⟩, by simp only [pkDom, e, Option.map_some], ⟨h3, rfl, rfl⟩, fun x hx => h4 _ (hx.imp id fun h => ?_)⟩
    exact (pkGam_dim hd x).1 h
  widen a b ha hb hle := by
    obtain ⟨hw, rfl, rfl⟩ := ha
    obtain ⟨hw', h1, h2⟩ := hb
    have hd : b.dim = a.dim := by rw [PkT.dim, h1, h2]; rfl
    have hb' : b.rep.Wf ℚ a.dim := hd ▸ hw'
    obtain ⟨c, e, h3, h4, _⟩ := C98_widening_upper_bound (alg := alg) hw hb' fun x hx => pkGam_le hd hle x hx
    exact ⟨⟨a.intdim, a.realdim, c⟩, by simp only [pkDom, e, Option.map_some], ⟨h3, rfl, rfl⟩, fun x hx =>
      h4 _ (.inr ((pkGam_dim hd x).1 hx))⟩
  leq a b ha hb h := by
    obtain ⟨hw, rfl, rfl⟩ := ha
    obtain ⟨hw', h1, h2⟩ := hb
    have hd : b.dim = a.dim := by rw [PkT.dim, h1, h2]; rfl
    have hb' : b.rep.Wf ℚ a.dim := hd ▸ hw'
    exact fun x hx => (pkGam_dim hd x).2 ((C90_is_leq_exact hw hb' alg).1 h _ hx)
  term x y hx hy hle hst := by
    have dx : ∀ k, (x k).dim = i + r := fun k => by rw [PkT.dim, (hx k).2.1, (hx k).2.2]
    have dy : ∀ k, (y k).dim = i + r := fun k => by rw [PkT.dim, (hy k).2.1, (hy k).2.2]
    have wx : ∀ k, (x k).rep.Wf ℚ (i + r) := fun k => dx k ▸ (hx k).1
    have wy : ∀ k, (y k).rep.Wf ℚ (i + r) := fun k => dy k ▸ (hy k).1
    have hl : ∀ k, ∀ p : Fin (i + r) → ℚ, (x k).rep.γ p → (y k).rep.γ p := fun k p hp => by
      have h := hle k (ext p) ((pkGam_iff (dx k) _).2 (by simpa only [ext_lt] using hp))
      simpa only [ext_lt] using (pkGam_iff (dy k) _).1 h
    have st : ∀ k, (x k).rep.widening (i + r) alg (y k).rep = some (x (k + 1)).rep := fun k => by
      have h := hst k
      simp only [pkDom, dx k] at h
      obtain ⟨c, e, h⟩ := Option.map_eq_some_iff.1 h
      rw [e, ← h]
    obtain ⟨N, hN⟩ := C99_widening_terminates (K := ℚ) (fun k => (x k).rep) (fun k => (y k).rep) (fun _ => alg) (wx 0) wy hl st
    refine ⟨N, ?_⟩
    show (y N).rep.isLeq (y N).dim alg (x N).rep = true
    rw [dy N]
    refine (C90_is_leq_exact (wy N) (wx N) alg).2 fun p hp => ?_
    rw [← hN (N + 1) (Nat.le_succ N)]
    obtain ⟨c, e, _, h4, _⟩ := C98_widening_upper_bound (alg := alg) (wx N) (wy N) (hl N)
    rw [st N] at e
    rw [Option.some.inj e]
    exact h4 p (.inr hp)

/-- the analysis of a program with convex polyhedra: it terminates and covers all the executions -/
theorem C136_pk_analysis (destr : Bool) (alg : ℤ) (o : Opts) (mlzy : Bool) {a : PkT} (ha : a.Ok ℚ) {s : Stmt ℚ}
    (hs : s.Legal (PkLA a.dim) (PkLC a.dim)) :
    ∃ b : PkT, (∃ f, ∀ g, f ≤ g → run (pkDom destr alg o mlzy) g s a = some b) ∧ b.Ok ℚ ∧
      ∀ x y : ℕ → ℚ, a.Gam ℚ x → (∀ d, d < a.intdim → ∃ n : ℤ, x d = n) → Exec a.intdim s x y → b.Gam ℚ y := by
  have S := pkDom_spec destr alg o mlzy a.intdim a.realdim
  obtain ⟨b, hb, f, hf⟩ := C136_analysis_terminates S hs (a := a) ⟨ha, rfl, rfl⟩
  exact ⟨b, ⟨f, hf⟩, hb.1, fun x y hx hxi he => C136_analysis_sound S hs ⟨ha, rfl, rfl⟩ (hf f (le_refl f)) hx hxi he⟩

end Pk

/-! ## A program -/

section Example
open Apron.Bound Apron.Poly

/-- `0`, `x0 + 1`, `9 - x0` and `x0 - 10` -/
def exZero : Linexpr ℚ := ⟨.scalar (fin 0), .sparse []⟩
def exSucc : Linexpr ℚ := ⟨.scalar (fin 1), .sparse [(0, .scalar (fin 1))]⟩
def exLe9 : Lincons ℚ := ⟨.supeq, ⟨.scalar (fin 9), .sparse [(0, .scalar (fin (-1)))]⟩⟩
def exGe10 : Lincons ℚ := ⟨.supeq, ⟨.scalar (fin (-10)), .sparse [(0, .scalar (fin 1))]⟩⟩

/-- `x0 := 0; while x0 <= 9 do x0 := x0 + 1` -/
def exProg : Stmt ℚ :=
  .seq (.assign [(0, exZero)]) (.seq (.loop (.seq (.assume [exLe9]) (.assign [(0, exSucc)]))) (.assume [exGe10]))

theorem exTerms : exZero.terms = [] ∧ exSucc.terms = [(0, .scalar (fin 1))] ∧ exLe9.expr.terms = [(0, .scalar (fin (-1)))] ∧
    exGe10.expr.terms = [(0, .scalar (fin 1))] := by decide +kernel

theorem exInDim : exZero.InDim 1 ∧ exSucc.InDim 1 ∧ exLe9.expr.InDim 1 ∧ exGe10.expr.InDim 1 := by
  obtain ⟨h1, h2, h3, h4⟩ := exTerms
  simp [Linexpr.InDim, h1, h2, h3, h4]

theorem exVal (x : ℕ → ℚ) : exZero.Val x 0 ∧ exSucc.Val x (x 0 + 1) ∧ exLe9.expr.Val x (9 - x 0) ∧ exGe10.expr.Val x (x 0 - 10) := by
  obtain ⟨h1, h2, h3, h4⟩ := exTerms
  refine ⟨?_, ?_, ?_, ?_⟩ <;> rw [Linexpr.Val]
  · rw [h1]; exact ⟨0, 0, rfl, rfl, by ring⟩
  · rw [h2]; exact ⟨1, x 0, rfl, ⟨1, 0, rfl, rfl, by ring⟩, by ring⟩
  · rw [h3]; exact ⟨9, -x 0, rfl, ⟨-1, 0, rfl, rfl, by ring⟩, by ring⟩
  · rw [h4]; exact ⟨-10, x 0, rfl, ⟨1, 0, rfl, rfl, by ring⟩, by ring⟩

/-- the program is legal for boxes -/
theorem exProg_box : exProg.Legal (BoxLA 1) (BoxLC 1) := by
  obtain ⟨h1, h2, h3, h4⟩ := exInDim
  simp only [exProg, Stmt.Legal, BoxLA, BoxLC, List.mem_singleton, forall_eq, List.map_cons, List.map_nil, List.nodup_singleton, true_and]
  exact ⟨⟨h1, fun x => ⟨_, (exVal x).1⟩⟩, ⟨⟨h3, fun _ => 0, _, (exVal _).2.2.1⟩, h2, fun x => ⟨_, (exVal x).2.1⟩⟩, h4, fun _ => 0, _,
    (exVal _).2.2.2⟩

/-- for octagons -/
theorem exProg_oct : exProg.Legal (OctLA 1) (OctLC 1) := by
  obtain ⟨h1, h2, h3, h4⟩ := exInDim
  obtain ⟨t1, t2, t3, t4⟩ := exTerms
  simp only [exProg, Stmt.Legal, OctLA, OctLC, List.mem_singleton, forall_eq, List.map_cons, List.map_nil, List.nodup_singleton, true_and,
    List.cons.injEq, Prod.mk.injEq, and_true, and_imp]
  refine ⟨⟨⟨by decide, h1, ?_⟩, ?_⟩, ⟨⟨h3, ?_⟩, ⟨by decide, h2, ?_⟩, ?_⟩, h4, ?_⟩
  · rw [Linexpr.Proper, t1]; simp [Coeff.Proper, infty, exZero]
  · rintro d e - rfl; exact .inr (by rw [Linexpr.UnitShape, t1]; simp)
  · rw [Linexpr.Proper, t3]; simp [Coeff.Proper, infty, exLe9]
  · rw [Linexpr.Proper, t2]; simp [Coeff.Proper, infty, exSucc]
  · rintro d e - rfl; exact .inr (by rw [Linexpr.UnitShape, t2]; simp)
  · rw [Linexpr.Proper, t4]; simp [Coeff.Proper, infty, exGe10]

/-- for polyhedra -/
theorem exProg_pk : exProg.Legal (PkLA 1) (PkLC 1) := by
  obtain ⟨h1, h2, h3, h4⟩ := exInDim
  obtain ⟨t1, t2, t3, t4⟩ := exTerms
  have key : ∀ e : Linexpr ℚ, e = exZero ∨ e = exSucc → PkLA 1 [(0, e)] := by
    intro e he
    simp only [PkLA, List.mem_singleton, forall_eq, List.map_cons, List.map_nil, List.nodup_singleton, true_and]
    refine ⟨by simp, ⟨by decide, ?_⟩, (by decide : 2 ≤ dimMax), fun _ => ?_⟩
    · rcases he with rfl | rfl
      · refine ⟨?_, by rw [t1]; simp, fun l h => by cases h⟩
        simp [Linexpr.Wf, exZero, Linexpr.SparseWf]
      · refine ⟨?_, by rw [t2]; simp, fun l h => by cases h⟩
        simp [Linexpr.Wf, exSucc, Linexpr.SparseWf]
    · rcases he with rfl | rfl
      · rw [Linexpr.Numeric, t1]; simp [exZero]
      · rw [Linexpr.Numeric, t2]; simp [exSucc]
  simp only [exProg, Stmt.Legal, PkLC, List.mem_singleton, forall_eq]
  exact ⟨key _ (.inl rfl), ⟨h3, key _ (.inr rfl)⟩, h4⟩

/-- an execution: from `x0 = 7` the final value is `10` -/
theorem exProg_exec : Exec 1 exProg (fun _ => 7) (Function.update (fun _ => 7) 0 10) := by
  have step : ∀ (k : ℕ), k ≤ 10 → Exec 1 (.loop (.seq (.assume [exLe9]) (.assign [(0, exSucc)])))
      (Function.update (fun _ => (7 : ℚ)) 0 ((10 : ℚ) - k)) (Function.update (fun _ => 7) 0 10) := by
    intro k
    induction k with
    | zero => intro _; simpa using Exec.stop _ _
    | succ k ih =>
      intro hk
      refine .step _ _ _ _ (.seq _ _ _ _ _ (.assume _ _ ?_) (.assign _ _ (Function.update (fun _ => (7 : ℚ)) 0 ((10 : ℚ) - k)) ?_ ?_ ?_)) (ih (by omega))
      · simp only [List.mem_singleton, forall_eq]
        refine ⟨_, (exVal _).2.2.1, ?_⟩
        have : (k : ℚ) + 1 ≤ 10 := by exact_mod_cast hk
        simp [Lincons.Rel, exLe9]
        linarith [(Nat.cast_nonneg k : (0 : ℚ) ≤ k)]
      · simp only [List.mem_singleton, forall_eq]
        have h := (exVal (Function.update (fun _ => (7 : ℚ)) 0 ((10 : ℚ) - (k + 1 : ℕ)))).2.1
        convert h using 1
        simp
        ring
      · intro v hv
        have : v ≠ 0 := by simpa using hv
        rw [Function.update_of_ne this, Function.update_of_ne this]
      · intro d hd
        obtain rfl : d = 0 := by omega
        exact ⟨10 - k, by simp⟩
  refine .seq _ _ _ (Function.update (fun _ => 7) 0 0) _ (.assign _ _ _ ?_ ?_ ?_) (.seq _ _ _ _ _ (by simpa using step 10 (le_refl _)) (.assume _ _ ?_))
  · simp only [List.mem_singleton, forall_eq]
    simpa using (exVal _).1
  · intro v hv
    have : v ≠ 0 := by simpa using hv
    rw [Function.update_of_ne this]
  · intro d hd
    obtain rfl : d = 0 := by omega
    exact ⟨0, by simp⟩
  · simp only [List.mem_singleton, forall_eq]
    refine ⟨_, (exVal _).2.2.2, ?_⟩
    simp [Lincons.Rel, exGe10]

/-- the result with boxes: `x0 >= 10` (the upper bound is lost by the widening) -/
example : (run (boxDom 1) 10 exProg (Box.top 1 0)).map (fun b => b.p.map fun p => p 0) = some (some ⟨fin (-10), pinf⟩) := by decide +kernel

/-- with octagons -/
example : (run (octDom 0 fun _ => pinf) 10 exProg (OctT.top 1 1)).map (fun b => b.best.map fun m => (m (Oct.matpos2 0 1), m (Oct.matpos2 1 0))) =
    some (some (fin (-20), pinf)) := by decide +kernel

/-- with polyhedra: the result contains the final state of the execution above -/
example : ∃ b : PkT, (∃ f, ∀ g, f ≤ g → run (pkDom false 0 ⟨false, false, 0⟩ false) g exProg ⟨1, 0, Rep.top 1⟩ = some b) ∧
    b.Gam ℚ (Function.update (fun _ => 7) 0 10) := by
  obtain ⟨b, h1, _, h2⟩ := C136_pk_analysis false 0 ⟨false, false, 0⟩ false (a := ⟨1, 0, Rep.top 1⟩) (C90_top (K := ℚ) (n := 1)).1 exProg_pk
  exact ⟨b, h1, h2 _ _ ((C90_top (K := ℚ) (n := 1)).2 _) (fun d _ => ⟨7, by simp⟩) exProg_exec⟩

end Example

end Apron.Props
