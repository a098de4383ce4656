import Verif.Avo.TransferLemmas
import Verif.Props.AvoLattice

/-!
# Property theorems: constraints on absolute-value octagons (C141)

`avo_meet_lincons_array`.  A constraint is *octagonal* here when the code does not classify it as
`OTHER`; the classification is that of `avo_uexpr_of_linexpr`.
-/

set_option autoImplicit false
set_option linter.unusedSectionVars false
set_option linter.ambiguousOpen false

namespace Apron
open Bound Oct Avo AvoT
variable {K : Type*} [LinearOrder K] [Field K] [IsStrictOrderedRing K] [FloorRing K]

/-- *partial*: every point of the value that satisfies the constraints is kept, when the constraints
are octagonal and none is a disequality.  Missing: disequalities (`C141_diseq_*`) and the general
constraints (`C141_meet_general_partial`, `C141_general_strict`). -/
theorem C141_meet_sound_partial (R : Rnd K) (alg algo : ℤ) (a : AvoT K) (ha : a.Wf)
    (ar : List (Lincons K)) (he : ∀ c ∈ ar, c.expr.InDim a.dim) (ht : ∀ c ∈ ar, c.typ ≠ .diseq)
    (ho : ∀ c ∈ ar, (uexprOf R c.expr 0).1.type ≠ .other) :
    ∃ b, AvoT.meetLinconsArray R alg algo a ar = some b ∧ b.Wf ∧ b.dim = a.dim ∧ b.intdim = a.intdim ∧
      ∀ x, a.Gam x → (∀ c ∈ ar, c.Holds x) → b.Gam x := by
  rcases hm : a.best with _ | m
  · exact ⟨_, meetLincons_none R hm ar, wf_bottom _ _, rfl, rfl, fun x hx => (gam_none hm x hx).elim⟩
  obtain ⟨n, hn, hd, hg⟩ := ha.view hm
  obtain ⟨b, h1, h2, h3, h4, h5⟩ := meetLincons_spec R (alg := alg) (algo := algo) ha he hm hn hd
  refine ⟨b, h1, h2, h3, h4, fun x hx hc => (h5 x).2 ?_⟩
  have ht' : ∀ c ∈ ar, SoundTyp c.typ := fun c hc => by
    have := ht c hc
    unfold SoundTyp isDiseqTyp
    cases h : c.typ <;> first | rfl | exact absurd h this
  obtain ⟨s, i1, i2⟩ := addLoop_keep R (alg := alg) (x := x) ar
    ⟨zip m n, 0, false, a.closed.isSome && decide (0 ≤ algo)⟩ he ht' ho hc ((hg x).1 hx) hd
    (pendOk_init _ _)
  exact addLincons_of_loop R he hd i1 i2

/-- *partial*: same for one constraint of any class, when no strict octagonal constraint is stored in
the value -/
theorem C141_meet_general_partial (R : Rnd K) (alg algo : ℤ) (a : AvoT K) (ha : a.Wf)
    (c : Lincons K) (he : c.expr.InDim a.dim) (ht : c.typ ≠ .diseq)
    (hns : ∀ n, a.nsc = some n → ∀ i j, i < 2 * a.dim → j / 2 ≤ i / 2 → n (matpos i j) = pinf) :
    ∃ b, AvoT.meetLinconsArray R alg algo a [c] = some b ∧ b.Wf ∧
      ∀ x, a.Gam x → c.Holds x → b.Gam x := by
  rcases hm : a.best with _ | m
  · exact ⟨_, meetLincons_none R hm _, wf_bottom _ _, fun x hx => (gam_none hm x hx).elim⟩
  obtain ⟨n, hn, hd, hg⟩ := ha.view hm
  have he' : ∀ c' ∈ [c], c'.expr.InDim a.dim := fun c' h => by rw [List.mem_singleton.1 h]; exact he
  obtain ⟨b, h1, h2, h3, h4, h5⟩ := meetLincons_spec R (alg := alg) (algo := algo) ha he' hm hn hd
  refine ⟨b, h1, h2, fun x hx hc => (h5 x).2 ?_⟩
  have ht' : SoundTyp c.typ := by
    unfold SoundTyp isDiseqTyp
    cases h : c.typ <;> first | rfl | exact absurd h ht
  obtain ⟨s, i1, i2⟩ := addOne_keep R (alg := alg)
    (s := ⟨zip m n, 0, false, a.closed.isSome && decide (0 ≤ algo)⟩) he ht'
    (fun _ i j hi hc => hns n hn i j hi hc) hc ((hg x).1 hx) hd (pendOk_init _ _)
  refine addLincons_of_loop R he' hd (s := s) ?_ i2
  unfold Avo.addLoop
  rw [i1]
  rfl

/-- the result is included in the argument, whatever the constraints -/
theorem C141_meet_le (R : Rnd K) (alg algo : ℤ) (a : AvoT K) (ha : a.Wf) (ar : List (Lincons K))
    (he : ∀ c ∈ ar, c.expr.InDim a.dim) :
    ∃ b, AvoT.meetLinconsArray R alg algo a ar = some b ∧ b.Wf ∧ ∀ x, b.Gam x → a.Gam x := by
  rcases hm : a.best with _ | m
  · exact ⟨_, meetLincons_none R hm ar, wf_bottom _ _, fun x hx => (gam_bottom _ _ x hx).elim⟩
  obtain ⟨n, hn, hd, hg⟩ := ha.view hm
  obtain ⟨b, h1, h2, h3, h4, h5⟩ := meetLincons_spec R (alg := alg) (algo := algo) ha he hm hn hd
  refine ⟨b, h1, h2, fun x hx => ?_⟩
  obtain ⟨r, hr, hs⟩ := (h5 x).1 hx
  exact (hg x).2 ((addLincons_sub R he hr).sat hs)

/-- with exact numbers, the equalities and inequalities, strict or not, that the code classifies as
octagonal are not approximated at all -/
theorem C141_meet_exact (alg algo : ℤ) (a : AvoT K) (ha : a.Wf) (ar : List (Lincons K))
    (he : ∀ c ∈ ar, c.expr.InDim a.dim) (ht : ∀ c ∈ ar, c.typ = .eq ∨ c.typ = .supeq ∨ c.typ = .sup)
    (ho : ∀ c ∈ ar, (uexprOf Rnd.exact c.expr 0).1.type ≠ .other) :
    ∃ b, AvoT.meetLinconsArray Rnd.exact alg algo a ar = some b ∧
      ∀ x, (∀ c ∈ ar, ∃ v, c.expr.Val x v) → (b.Gam x ↔ a.Gam x ∧ ∀ c ∈ ar, c.Holds x) := by
  obtain ⟨b, h1, -, -, -, h2⟩ := C141_meet_sound_partial Rnd.exact alg algo a ha ar he
    (fun c hc e => by rcases ht c hc with h | h | h <;> rw [h] at e <;> cases e) ho
  obtain ⟨b', h1', -, h3⟩ := C141_meet_le Rnd.exact alg algo a ha ar he
  rw [h1] at h1'
  obtain rfl := Option.some.inj h1'
  refine ⟨b, h1, fun x hv => ⟨fun hx => ⟨h3 x hx, ?_⟩, fun h => h2 x h.1 h.2⟩⟩
  rcases hm : a.best with _ | m
  · exact (gam_none hm x (h3 x hx)).elim
  obtain ⟨n, hn, hd, hg⟩ := ha.view hm
  obtain ⟨b', i1, -, -, -, i5⟩ := meetLincons_spec Rnd.exact (alg := alg) (algo := algo) ha he hm hn hd
  rw [h1] at i1
  obtain rfl := Option.some.inj i1
  obtain ⟨r, hr, hs⟩ := (i5 x).1 hx
  obtain ⟨s, k1, k2, -⟩ := addLincons_cases _ hr
  have hp := (addLoop_sub _ ar _ _ he (pendOk_init _ _) k1).2
  refine addLoop_exact ar _ _ he (fun c hc => ?_) ho hv (pendOk_init _ _) k1 ((flushIf_sub _ hp k2).sat hs)
  rcases ht c hc with h | h | h <;> rw [h] <;> trivial

/-! ### defects -/

/-- no closure is run when none is pending -/
theorem AvoT.flushIf_idle (R : Rnd K) (alg : ℤ) (dim : ℕ) (cond : Bool) (b : SMem K) (v : ℕ)
    (r : Bool) : Avo.flushIf R alg dim cond ⟨b, v, false, r⟩ = some b := by
  unfold Avo.flushIf
  cases cond <;> cases r <;> rfl

/-- a constraint that is not a congruence goes to the main switch -/
theorem AvoT.addOne_eq (R : Rnd K) (alg : ℤ) (dim : ℕ) (s : Avo.AddSt K) {c : Lincons K}
    (ht : ∀ k, c.typ ≠ .eqmod k) : Avo.addOne R alg dim s c =
      Avo.addCore R alg dim s (uexprOf R c.expr 0).1 (uexprOf R c.expr 0).2 c.typ := by
  unfold Avo.addOne
  cases h' : c.typ <;> first | rfl | exact absurd h' (ht _)

/-- a constraint on one variable whose class is unary: what the result says of the written cell -/
theorem AvoT.meet_one {alg algo : ℤ} {a : AvoT ℚ} (ha : a.Wf) {c : Lincons ℚ}
    (he : c.expr.InDim a.dim) {m n : Mem ℚ} (hm : a.best = some m) (hn : a.nsc = some n)
    {M : SMem ℚ} (hM : ∀ s, addOne Rnd.exact alg a.dim
      ⟨zip m n, 0, false, a.closed.isSome && decide (0 ≤ algo)⟩ c = some s → s.b = M)
    {b : AvoT ℚ} (h : AvoT.meetLinconsArray Rnd.exact alg algo a [c] = some b) {x : ℕ → ℚ}
    (hx : b.Gam x) : SSat a.dim M x := by
  have he' : ∀ c' ∈ [c], c'.expr.InDim a.dim := fun c' h => by rw [List.mem_singleton.1 h]; exact he
  obtain ⟨n', hn', hd, hg⟩ := ha.view hm
  obtain rfl : n = n' := Option.some.inj (hn.symm.trans hn')
  obtain ⟨b', i1, -, -, -, i5⟩ := meetLincons_spec Rnd.exact (alg := alg) (algo := algo) ha he' hm hn hd
  rw [h] at i1
  obtain rfl := Option.some.inj i1
  obtain ⟨r, hr, hs⟩ := (i5 x).1 hx
  obtain ⟨s, k1, k2, -⟩ := addLincons_cases _ hr
  have hp := (addLoop_sub _ _ _ _ he' (pendOk_init _ _) k1).2
  have hs' := (flushIf_sub _ hp k2).sat hs
  unfold Avo.addLoop at k1
  cases e : addOne Rnd.exact alg a.dim ⟨zip m n, 0, false, a.closed.isSome && decide (0 ≤ algo)⟩ c with
  | none => rw [e] at k1; simp at k1
  | some s1 =>
    rw [e] at k1
    obtain rfl : s1 = s := Option.some.inj k1
    rw [hM _ e] at hs'
    exact hs'

/-- the constraint `5 != 0` -/
def AvoT.cFive : Lincons ℚ := ⟨.diseq, ⟨.scalar (fin 5), .sparse []⟩⟩
/-- the constraint `-x + 5 != 0` -/
def AvoT.cUn : Lincons ℚ := ⟨.diseq, ⟨.scalar (fin 5), .sparse [(0, .scalar (fin (-1)))]⟩⟩
/-- the constraint `x + y != 0` -/
def AvoT.cBin : Lincons ℚ :=
  ⟨.diseq, ⟨.scalar (fin 0), .sparse [(0, .scalar (fin 1)), (1, .scalar (fin 1))]⟩⟩

theorem AvoT.top_wf (dim intdim : ℕ) : (AvoT.top dim intdim : AvoT ℚ).Wf :=
  wf_ofClosed (allocTop_Diag dim)

/-- **Defect.** `5 != 0` is true, yet the universe becomes empty: the test of the constant reads
`a > 0 || b < 0` where `[-a,b]` does not contain `0` when `a < 0 || b < 0`. -/
theorem C141_diseq_zero (alg algo : ℤ) :
    AvoT.meetLinconsArray Rnd.exact alg algo (AvoT.top 1 0) [cFive] = some (AvoT.bottom 1 0) ∧
      (AvoT.top 1 0 : AvoT ℚ).Gam (fun _ => 0) ∧ cFive.Holds fun _ => 0 := by
  refine ⟨?_, (C138_top_bottom 1 0 _).2.1, 5, ⟨5, 0, by simp [cFive, Coeff.Has], ?_, by norm_num⟩, ?_⟩
  · have e : ∀ s : Avo.AddSt ℚ, addOne Rnd.exact alg 1 s cFive = none := by
      intro s
      have h1 : (uexprOf Rnd.exact cFive.expr 0).1.type = .zero := by decide +kernel
      have h2 : zeroOk (ConsTyp.diseq : ConsTyp ℚ) (uexprOf Rnd.exact cFive.expr 0).2 = false := by
        decide +kernel
      rw [AvoT.addOne_eq _ _ _ _ (by intro k h; cases h)]
      unfold Avo.addCore
      rw [h1]
      exact if_neg (by rw [show cFive.typ = ConsTyp.diseq from rfl, h2]; decide)
    unfold AvoT.meetLinconsArray
    have e' : ∀ b r, Avo.addLincons Rnd.exact alg 1 b [cFive] r = none := fun b r => by
      unfold Avo.addLincons Avo.addLoop
      rw [e]
    show some _ = some _
    beta_reduce
    rw [show (AvoT.top 1 0 : AvoT ℚ).dim = 1 from rfl, e']
    rfl
  · exact rfl
  · show (5 : ℚ) ≠ 0
    norm_num

/-- **Defect.** `-x + 5 != 0` is turned into `|x| < 5`: the point `-7` satisfies the constraint and is
lost -/
theorem C141_diseq_unary (alg algo : ℤ) (b : AvoT ℚ)
    (h : AvoT.meetLinconsArray Rnd.exact alg algo (AvoT.top 1 0) [cUn] = some b) :
    (AvoT.top 1 0 : AvoT ℚ).Gam (fun _ => -7) ∧ cUn.Holds (fun _ => -7) ∧ ¬ b.Gam fun _ => -7 := by
  refine ⟨(C138_top_bottom 1 0 _).2.1, holds_unary (by decide) ?_, fun hx => ?_⟩
  · show (5 : ℚ) + -1 * -7 ≠ 0
    norm_num
  · have := meet_one (M := upd (Avo.allocTop 1) (matpos 3 2) (diseqCell (fin (-10)) (fin 10)))
      (top_wf 1 0) (c := cUn) (by unfold Linexpr.InDim; decide) rfl rfl ?_ h hx
    · have h1 := (this 3 2 (by decide) (by decide)).2 (by decide +kernel)
      have e : (upd (Avo.allocTop 1 : SMem ℚ) (matpos 3 2) (diseqCell (fin (-10)) (fin 10))
        (matpos 3 2)).1 = fin 10 := by decide +kernel
      rw [e] at h1
      simp [V, AvoT.top, AvoT.ofClosed, ext] at h1
      norm_num at h1
    · intro s hs
      have h1 : (uexprOf Rnd.exact cUn.expr 0).1 = ⟨.unary, 0, 0, -1, 0, false⟩ := by decide +kernel
      have h2 : mul2 Rnd.exact ((uexprOf Rnd.exact cUn.expr 0).2 0) = fin (-10) := by decide +kernel
      have h3 : mul2 Rnd.exact ((uexprOf Rnd.exact cUn.expr 0).2 1) = fin 10 := by decide +kernel
      rw [AvoT.addOne_eq _ _ _ _ (by intro k h; cases h)] at hs
      unfold Avo.addCore at hs
      rw [h1, h2, h3] at hs
      dsimp only at hs
      rw [AvoT.flushIf_idle] at hs
      obtain rfl := Option.some.inj hs
      rfl

/-- **Defect.** `x + y != 0` is turned into `x + y >= 0`: the point `(-1,-1)` is lost -/
theorem C141_diseq_binary (alg algo : ℤ) (b : AvoT ℚ)
    (h : AvoT.meetLinconsArray Rnd.exact alg algo (AvoT.top 2 0) [cBin] = some b) :
    (AvoT.top 2 0 : AvoT ℚ).Gam (fun _ => -1) ∧ cBin.Holds (fun _ => -1) ∧ ¬ b.Gam fun _ => -1 := by
  refine ⟨(C138_top_bottom 2 0 _).2.1, holds_binary (by decide) (by decide) ?_, fun hx => ?_⟩
  · show (0 : ℚ) + (1 * -1 + 1 * -1) ≠ 0
    norm_num
  · have := meet_one (M := upd (Avo.allocTop 2) (matpos2 2 1) (addCell .diseq (fin 0)))
      (top_wf 2 0) (c := cBin) (by unfold Linexpr.InDim; decide) rfl rfl ?_ h hx
    · have h1 := (this 2 1 (by decide) (by decide)).1
      have e : (upd (Avo.allocTop 2 : SMem ℚ) (matpos2 2 1) (addCell .diseq (fin 0))
        (matpos 2 1)).1 = fin 0 := by decide +kernel
      rw [e] at h1
      simp [V, AvoT.top, AvoT.ofClosed, ext] at h1
      norm_num at h1
    · intro s hs
      have h1 : (uexprOf Rnd.exact cBin.expr 0).1 = ⟨.binary, 0, 1, 1, 1, false⟩ := by decide +kernel
      have h3 : (uexprOf Rnd.exact cBin.expr 0).2 1 = fin 0 := by decide +kernel
      rw [AvoT.addOne_eq _ _ _ _ (by intro k h; cases h)] at hs
      unfold Avo.addCore at hs
      rw [h1, h3] at hs
      dsimp only at hs
      rw [AvoT.flushIf_idle] at hs
      obtain rfl := Option.some.inj hs
      rfl

/-- the value `x + y < 10`, `0 <= z <= 1` -/
def AvoT.exS : AvoT ℚ := ofM 3 0 fun q =>
  if q = matpos 3 0 then (fin 10, fin 0)
  else if q = matpos 5 4 then (fin 2, pinf)
  else if q = matpos 4 5 then (fin 0, pinf)
  else Avo.allocTop 3 q

/-- the constraint `-x - y + 2z >= 0` -/
def AvoT.cGen : Lincons ℚ := ⟨.supeq, ⟨.scalar (fin 0), .sparse
  [(0, .scalar (fin (-1))), (1, .scalar (fin (-1))), (2, .scalar (fin 2))]⟩⟩

theorem AvoT.exS_wf : exS.Wf := by
  refine wf_ofM fun i hi => ?_
  have e : ∀ a b, Cell a b → a ≠ b → matpos i i ≠ matpos a b := fun a b hc hne e => by
    obtain ⟨rfl, rfl⟩ := matpos_inj (show Cell i i by unfold Cell; omega) hc e
    exact hne rfl
  rw [if_neg (e _ _ (by decide) (by decide)), if_neg (e _ _ (by decide) (by decide)),
    if_neg (e _ _ (by decide) (by decide))]
  exact allocTop_Diag 3 i hi

theorem AvoT.exS_gam : exS.Gam fun _ => 1 := by
  unfold exS
  rw [gam_ofM]
  intro i j hi hc
  dsimp only
  split_ifs with h1 h2 h3
  · obtain ⟨rfl, rfl⟩ := matpos_inj hc (by decide) h1
    refine ⟨by simp [V, ext]; norm_num, fun _ => by simp [V, ext]; norm_num⟩
  · obtain ⟨rfl, rfl⟩ := matpos_inj hc (by decide) h2
    refine ⟨by simp [V, ext]; norm_num, fun h => absurd rfl h⟩
  · obtain ⟨rfl, rfl⟩ := matpos_inj hc (by decide) h3
    refine ⟨by simp [V, ext], fun h => absurd rfl h⟩
  · exact allocTop_sat 3 _ _ i j hi hc

/-- **Defect.** The general case lowers bounds without resetting their strictness marks: from
`x + y < 10`, `z <= 1` and `x + y <= 2z` the code derives `x + y < 2`, and the point `(1,1,1)` is
lost. -/
theorem C141_general_strict (alg algo : ℤ) (b : AvoT ℚ)
    (h : AvoT.meetLinconsArray Rnd.exact alg algo exS [cGen] = some b) :
    exS.Gam (fun _ => 1) ∧ cGen.Holds (fun _ => 1) ∧ ¬ b.Gam fun _ => 1 := by
  refine ⟨exS_gam, ?_, fun hx => ?_⟩
  · refine ⟨0, ⟨0, 0, by simp [cGen, Coeff.Has], ?_, by norm_num⟩, le_refl _⟩
    have ht : Linexpr.TermsVal [(0, Coeff.scalar (fin (-1 : ℚ))), (1, .scalar (fin (-1))), (2, .scalar (fin 2))]
        (fun _ => 1) 0 :=
      ⟨-1, 1, by simp [Coeff.Has], ⟨-1, 2, by simp [Coeff.Has], ⟨2, 0, by simp [Coeff.Has], rfl, by norm_num⟩,
        by norm_num⟩, by norm_num⟩
    exact ht
  · have he : cGen.expr.InDim 3 := by unfold Linexpr.InDim; decide
    have key := meet_one (alg := alg) (algo := algo) (M := fun q => (addOther Rnd.exact
        (uexprOf Rnd.exact cGen.expr 0).2 3 false (fun q => (zip (fun q => ((exS.m.getD fun _ => pinf) q))
          (exS.nsc.getD fun _ => pinf) q).1) q, (exS.nsc.getD fun _ => pinf) q))
      exS_wf he rfl rfl ?_ h hx
    · have h1 := (key 3 0 (by decide) (by decide)).2 (by decide +kernel)
      have e : addOther Rnd.exact (uexprOf Rnd.exact cGen.expr 0).2 3 false (fun q =>
        (zip (fun q => ((exS.m.getD fun _ => pinf) q))
          (exS.nsc.getD fun _ => pinf) q).1) (matpos 3 0) = fin 2 := by decide +kernel
      dsimp only at h1
      rw [e] at h1
      simp [V, exS, ofM, ext] at h1
      norm_num at h1
    · intro s hs
      have h1 : (uexprOf Rnd.exact cGen.expr 0).1.type = .other := by decide +kernel
      rw [AvoT.addOne_eq _ _ _ _ (by intro k h; cases h)] at hs
      unfold Avo.addCore at hs
      rw [h1] at hs
      obtain rfl := Option.some.inj hs
      rfl

/-- **Defect.** A binary constraint marks the result as closed (`*respect_closure = 1`) whatever the
argument, even one whose closure was never computed. -/
theorem C141_binary_claims_closed (R : Rnd K) (alg algo : ℤ) (a : AvoT K) (ha : a.Wf)
    (c : Lincons K) (ht : ∀ k, c.typ ≠ .eqmod k)
    (hb : (uexprOf R c.expr 0).1.type = .binary) (b : AvoT K)
    (h : AvoT.meetLinconsArray R alg algo a [c] = some b) : b.m = none := by
  rcases hm : a.best with _ | m
  · rw [meetLincons_none R hm] at h
    obtain rfl := Option.some.inj h
    rfl
  obtain ⟨n, hn, hd, hg⟩ := ha.view hm
  rcases meetLincons_view R (alg := alg) (algo := algo) ha (ar := [c]) hm hn with
    ⟨h1, h2⟩ | ⟨r, h1, ⟨h2, h3⟩ | ⟨h2, h3⟩⟩
  · rw [h] at h2; obtain rfl := Option.some.inj h2; rfl
  · exfalso
    obtain ⟨s, k1, -, k3⟩ := addLincons_cases _ h1
    rw [h3] at k3
    unfold Avo.addLoop at k1
    rw [AvoT.addOne_eq _ _ _ _ ht] at k1
    unfold Avo.addCore at k1
    rw [hb] at k1
    dsimp only at k1
    rcases hf : flushIf R alg a.dim _ ⟨zip m n, 0, false, a.closed.isSome && decide (0 ≤ algo)⟩ with _ | b'
    · rw [hf] at k1; simp at k1
    · rw [hf] at k1
      obtain rfl := Option.some.inj k1
      simp at k3
  · rw [h] at h2; obtain rfl := Option.some.inj h2; rfl

/-! ### the hypotheses are met -/

/-- `x - 2 > 0` on `1 <= x < 5` -/
example : ∃ b, AvoT.meetLinconsArray Rnd.exact 1 0 exA
    [⟨.sup, ⟨.scalar (fin (-2)), .sparse [(0, .scalar (fin 1))]⟩⟩] = some b ∧ b.Gam fun _ => 3 := by
  obtain ⟨b, h, -, -, -, hb⟩ := C141_meet_sound_partial Rnd.exact 1 0 exA exA_wf
    [⟨.sup, ⟨.scalar (fin (-2)), .sparse [(0, .scalar (fin 1))]⟩⟩]
    (by intro c hc; rw [List.mem_singleton.1 hc]; unfold Linexpr.InDim; decide)
    (by intro c hc; rw [List.mem_singleton.1 hc]; simp)
    (by intro c hc; rw [List.mem_singleton.1 hc]; decide +kernel)
  refine ⟨b, h, hb _ exA_gam fun c hc => ?_⟩
  rw [List.mem_singleton.1 hc]
  exact holds_unary (by decide) (by show (0 : ℚ) < _; norm_num)

end Apron
