import Verif.Props.Box
import Verif.Props.BoxOps
import Verif.Itv.QuasiSound
import Verif.Box.ConstraintLemmas

/-! # Property C16 (meet of a box with linear constraints) -/

set_option autoImplicit false
set_option linter.unusedSectionVars false
set_option linter.ambiguousOpen false

namespace Apron
open Bound ILincons
variable {K : Type*} [LinearOrder K] [Field K] [IsStrictOrderedRing K]

/-! ## C16: meet with linear constraints -/

section sound
variable [FloorRing K]

theorem boxizeArray_sound {R : Rnd K} {env : ℕ → Itv K} {intdim kmax : ℕ} {itvonly : Bool} {x : ℕ → K}
    {D : ℕ → Prop} (henv : ∀ d, D d → x d ∈ env d) (hint : ∀ d, D d → d < intdim → ∃ n : ℤ, x d = n)
    {l : List (ILincons K)} (hl : ∀ c ∈ l, OkFor R c ∧ c.Holds x ∧ ∀ t ∈ c.expr.terms, D t.dim) :
    (boxizeArray R l true env env intdim kmax itvonly).empty = false ∧
    ∀ d, D d → x d ∈ (boxizeArray R l true env env intdim kmax itvonly).res d := by
  unfold boxizeArray
  exact boxizeLoop_sound henv hint hl _ _ rfl henv

/-- common part of the soundness theorems -/
theorem meetLincons_sound_aux (R : Rnd K) (red : ILincons K → ℕ → ILincons K) (a : Box K) (l : List (Lincons K))
    (algo : ℕ) (x : ℕ → K) (hx : a.Gam x) (hint : ∀ d, d < a.intdim → ∃ n : ℤ, x d = n)
    (hl : ∀ c ∈ l, OkFor R (red (ILincons.ofAp R c) a.intdim) ∧ (red (ILincons.ofAp R c) a.intdim).Holds x ∧
      ∀ t ∈ (red (ILincons.ofAp R c) a.intdim).expr.terms, t.dim < a.dim) :
    (a.meetLinconsArray R red l algo).Gam x := by
  unfold Box.meetLinconsArray
  rcases h : a.p with _ | p
  · exact (Box.gam_none h hx).elim
  · simp only
    have hr := arrayReduce_holds (l := (l.map (ILincons.ofAp R)).map fun c => red c a.intdim)
      (fun c hc he => by
        simp only [List.map_map, List.mem_map, Function.comp] at hc
        obtain ⟨c0, hc0, rfl⟩ := hc
        exact (hl c0 hc0).1.cst he) (x := x)
      (fun c hc => by
        simp only [List.map_map, List.mem_map, Function.comp] at hc
        obtain ⟨c0, hc0, rfl⟩ := hc
        exact (hl c0 hc0).2.1)
    unfold arrayReduceInteger
    rw [if_neg hr.1]
    have hp := (Box.gam_some h).1 hx
    obtain ⟨h1, h2⟩ := boxizeArray_sound (R := R) (env := p) (intdim := a.intdim)
      (kmax := if algo < 1 then 2 else algo) (itvonly := false) (x := x) (D := fun d => d < a.dim) hp
      (fun d _ hd => hint d hd)
      (l := (arrayReduce true ((l.map (ILincons.ofAp R)).map fun c => red c a.intdim)).1)
      (fun c hc => by
        have := hr.2 c hc
        simp only [List.map_map, List.mem_map, Function.comp] at this
        obtain ⟨c0, hc0, rfl⟩ := this
        exact hl c0 hc0)
    rw [if_neg (by rw [h1]; simp)]
    exact Box.gam_mk.2 h2

/-- the dimensions of a converted constraint are those of the original -/
theorem ofAp_dims {R : Rnd K} {c : Lincons K} {n : ℕ} (hc : c.expr.InDim n) :
    ∀ t ∈ (ILincons.ofAp R c).expr.terms, t.dim < n := by
  intro t ht
  simp only [ILincons.ofAp, ILinexpr.ofAp, List.mem_filter, List.mem_map] at ht
  obtain ⟨⟨p, hp, rfl⟩, _⟩ := ht
  exact hc.2 _ (List.mem_map_of_mem hp)

/-- No point of the box is added, whatever the rounding and the variant of the integer tightening. -/
theorem C16_meet_lincons_le (R : Rnd K) (red : ILincons K → ℕ → ILincons K) (a : Box K) (l : List (Lincons K))
    (algo : ℕ) (x : ℕ → K) (hx : (a.meetLinconsArray R red l algo).Gam x) : a.Gam x := by
  unfold Box.meetLinconsArray at hx
  rcases h : a.p with _ | p
  · simp only [h] at hx; exact hx
  · simp only [h] at hx
    by_cases h1 : (arrayReduceInteger red (l.map (ILincons.ofAp R)) a.intdim).2 = .f
    · rw [if_pos h1] at hx; exact (Box.gam_none rfl hx).elim
    · rw [if_neg h1] at hx
      by_cases h2 : (boxizeArray R (arrayReduceInteger red (l.map (ILincons.ofAp R)) a.intdim).1 true p p a.intdim
          (if algo < 1 then 2 else algo) false).empty = true
      · rw [if_pos h2] at hx; exact (Box.gam_none rfl hx).elim
      · rw [if_neg h2] at hx
        rw [Box.gam_mk] at hx
        refine (Box.gam_some h).2 fun d hd => ?_
        have := boxizeLoop_le (R := R) true p a.intdim false
          (arrayReduceInteger red (l.map (ILincons.ofAp R)) a.intdim).1
          (if true then max (if algo < 1 then 2 else algo) 1 else 1) ⟨p, false, false⟩ d
        exact Itv.mem_of_le this.1 this.2 (hx d hd)

end sound

/-! ### rational numbers -/

theorem okFor_ofAp_exact (c : Lincons ℚ) : OkFor Rnd.exact (ILincons.ofAp Rnd.exact c) where
  flags := ILinexpr.flagsOk_ofAp _ _
  cst := fun _ => ILinexpr.cstOk_ofAp _ _
  exact := Or.inr rfl

/-- Rational numbers: every point of the box, integer on the integer dimensions, satisfying the
constraints (for some values of the interval coefficients) is kept, for any number of passes. -/
theorem C16_meet_lincons_sound (a : Box ℚ) (l : List (Lincons ℚ)) (hl : ∀ c ∈ l, c.expr.InDim a.dim) (algo : ℕ)
    (x : ℕ → ℚ) (hx : a.Gam x) (hint : ∀ d, d < a.intdim → ∃ n : ℤ, x d = n) (hc : ∀ c ∈ l, c.Holds x) :
    (a.meetLinconsArray Rnd.exact reduceIntegerRat l algo).Gam x :=
  meetLincons_sound_aux _ _ a l algo x hx hint fun c hm =>
    ⟨okFor_reduceIntegerRat (okFor_ofAp_exact c) _,
      reduceIntegerRat_sound (ILinexpr.flagsOk_ofAp _ _) (ILinexpr.cstOk_ofAp _ _) hint (holds_ofAp _ (hc c hm)),
      fun t ht => by
        obtain ⟨u, hu, e⟩ := dims_reduceIntegerRat ht
        rw [← e]; exact ofAp_dims (hl c hm) u hu⟩

/-- the result has no empty component -/
theorem C16_meet_lincons_wf (a : Box ℚ) (ha : a.Wf) (l : List (Lincons ℚ)) (hl : ∀ c ∈ l, c.expr.InDim a.dim)
    (hne : ∀ c ∈ l, ∃ x v, c.expr.Val x v) (algo : ℕ) :
    (a.meetLinconsArray Rnd.exact reduceIntegerRat l algo).Wf := by
  unfold Box.meetLinconsArray
  rcases h : a.p with _ | p
  · exact ha
  · simp only
    by_cases h1 : (arrayReduceInteger reduceIntegerRat (l.map (ILincons.ofAp Rnd.exact)) a.intdim).2 = .f
    · rw [if_pos h1]; exact Box.wf_none rfl
    · rw [if_neg h1]
      by_cases h2 : (boxizeArray Rnd.exact (arrayReduceInteger reduceIntegerRat (l.map (ILincons.ofAp Rnd.exact))
          a.intdim).1 true p p a.intdim (if algo < 1 then 2 else algo) false).empty = true
      · rw [if_pos h2]; exact Box.wf_none rfl
      · rw [if_neg h2]
        refine Box.wf_mk.2 ?_
        refine boxizeLoop_ne (D := fun d => d < a.dim) ?_ _ _ (ha p h) (by simpa [boxizeArray] using h2)
        intro c hc
        have := arrayReduce_mem h1 c hc
        simp only [List.map_map, List.mem_map, Function.comp] at this
        obtain ⟨c0, hc0, rfl⟩ := this
        refine ⟨okFor_reduceIntegerRat (okFor_ofAp_exact c0) _, ?_, fun t ht => ?_⟩
        · obtain ⟨x, v, hv⟩ := hne c0 hc0
          exact ne_reduceIntegerRat (ILinexpr.NE.of_val (ILinexpr.val_ofAp _ hv)) (ILinexpr.cstOk_ofAp _ _)
        · obtain ⟨u, hu, e⟩ := dims_reduceIntegerRat ht
          rw [← e]; exact ofAp_dims (hl c0 hc0) u hu
where
  ne_reduceIntegerRat {c : ILincons ℚ} (h : c.expr.NE) (hcst : c.expr.CstOk) {intdim : ℕ} :
      (reduceIntegerRat c intdim).expr.NE := by
    rcases reduceIntegerRat_eq c intdim with he | ⟨hr, _, den, num, hd0, hn0, hd, he⟩
    · rw [he]; exact h
    · rw [he]
      have hf : (0 : ℚ) < (den : ℚ) / (num : ℚ) := by positivity
      obtain ⟨⟨q, hq⟩, ht⟩ := h
      refine ne_constrainBounds ⟨⟨q * ((den : ℚ) / (num : ℚ)), ?_⟩, ?_⟩ ?_
      · exact (mem_mulBound_pos hf).2 hq
      · intro t ht'
        simp only [ratScaled, List.mem_map] at ht'
        obtain ⟨u, _, rfl⟩ := ht'
        exact ⟨_, (Itv.mem_point _ _).2 rfl⟩
      · intro h1 q1 hq1
        have h3 := hcst h1 q hq
        simp only [ratScaled] at hq1 ⊢
        rw [h3, mulBound_point_exact _ _ hf] at hq1 ⊢
        rw [Itv.mem_point] at hq1
        rw [hq1]

/-! ### other number types -/

/-- Any rounding of the arithmetic (floating-point numbers, fixed-size integers without overflow),
constraints with scalar representable coefficients.  Missing: constraints with interval or
non-representable coefficients, for which the code is wrong, see `C16_rounding_unsound`. -/
theorem C16_meet_lincons_rounded_partial [FloorRing K] (R : Rnd K) (hR : R.DivExact) (a : Box K)
    (l : List (Lincons K)) (hl : ∀ c ∈ l, c.expr.InDim a.dim)
    (hs : ∀ c ∈ l, (∀ b, c.expr.cst = .scalar b → ∀ q, b = fin q → R.up q = fin q) ∧
      ∀ p ∈ c.expr.terms, ∃ q, p.2 = .scalar (fin q) ∧ R.up q = fin q) (algo : ℕ)
    (x : ℕ → K) (hx : a.Gam x) (hint : ∀ d, d < a.intdim → ∃ n : ℤ, x d = n) (hc : ∀ c ∈ l, c.Holds x) :
    (a.meetLinconsArray R (reduceIntegerFlt R) l algo).Gam x := by
  refine meetLincons_sound_aux _ _ a l algo x hx hint fun c hm => ?_
  have hterm : ∀ t ∈ (ILincons.ofAp R c).expr.terms, t.eq = true ∧ ∃ q, t.itv = Itv.point q ∧ R.up q = fin q := by
    intro t ht
    simp only [ILincons.ofAp, ILinexpr.ofAp, List.mem_filter, List.mem_map] at ht
    obtain ⟨⟨p, hp, rfl⟩, _⟩ := ht
    obtain ⟨q, hq, hr⟩ := (hs c hm).2 p hp
    refine ⟨?_, q, ?_, hr⟩
    · simp [ITerm.ofCoeff, hq, Itv.setApEq, Itv.setApCoeffExact, boundSetApExact, hr, Coeff.isScalar]
    · simp [ITerm.ofCoeff, hq, Itv.setApCoeff, Itv.setApScalar, boundSetApExact, boundSetAp, hr, Itv.point]
  have hok : OkFor R (ILincons.ofAp R c) :=
    ⟨ILinexpr.flagsOk_ofAp _ _, fun _ => ILinexpr.cstOk_ofAp _ _, Or.inl fun t ht => (hterm t ht).1⟩
  have hrep : ReprOk R (ILincons.ofAp R c) := by
    refine ⟨fun t ht _ q hq => ?_, fun he q hq => ?_⟩
    · obtain ⟨q', h1, h2⟩ := (hterm t ht).2
      rw [h1, Itv.mem_point] at hq
      rw [hq]; exact h2
    · simp only [ILincons.ofAp, ILinexpr.ofAp] at he hq
      cases hcs : c.expr.cst with
      | interval l u => rw [hcs] at he; simp [Itv.setApEq, Coeff.isScalar] at he
      | scalar b =>
        rw [hcs] at he hq
        simp only [Itv.setApEq, Itv.setApCoeffExact, Coeff.isScalar, Bool.and_true] at he
        simp only [Itv.setApCoeff, Itv.setApScalar, he, if_true] at hq
        cases b with
        | ninf => have := hq.2; simp [boundSetAp] at this
        | pinf => have := hq.1; simp [boundSetAp] at this
        | fin b =>
          have hb := (hs c hm).1 _ hcs b rfl
          simp only [boundSetAp, hb] at hq
          have h1 := hq.1; have h2 := hq.2
          simp only [neg_fin, fin_le_fin] at h1 h2
          have : q = b := le_antisymm h2 (by linarith)
          rw [this]; exact hb
  have hho := holds_ofAp R (hc c hm)
  exact ⟨okFor_reduceIntegerFlt hok hR hrep _ hho,
    reduceIntegerFlt_sound (ILinexpr.flagsOk_ofAp _ _) (ILinexpr.cstOk_ofAp _ _) hR hrep hint hho,
    fun t ht => by
      obtain ⟨u, hu, e⟩ := dims_reduceIntegerFlt ht
      rw [← e]; exact ofAp_dims (hl c hm) u hu⟩

/-- arithmetic rounding to integers, a simple inexact number type -/
def rndCeil : Rnd ℚ := ⟨fun q => fin (⌈q⌉ : ℤ), fun q => by simpa using Int.le_ceil q⟩

/-- the box `x0 real` without constraint -/
example : rndCeil.DivExact := fun n m _ _ => by simp [rndCeil]

/-- The code violates the property for interval coefficients and inexact arithmetic: from
`[3,5]*x + 1 >= 0` on an unconstrained `x` it deduces `x >= 0` (the quotient `1/(-3)` is rounded
upwards and then negated), which loses `x = -1/4`. -/
theorem C16_rounding_unsound : ∃ (a : Box ℚ) (c : Lincons ℚ) (x : ℕ → ℚ), c.expr.InDim a.dim ∧ a.Gam x ∧
    a.intdim = 0 ∧ c.Holds x ∧ ¬ (a.meetLinconsArray rndCeil (reduceIntegerFlt rndCeil) [c] 0).Gam x := by
  refine ⟨Box.top 0 1, ⟨.supeq, ⟨.scalar (fin 1), .sparse [(0, .interval (fin 3) (fin 5))]⟩⟩, fun _ => -1/4,
    by simp [Linexpr.InDim, Linexpr.terms, Box.top, Box.dim, dimMax], Box.gam_mk.2 fun _ _ => Itv.mem_top _, rfl, ⟨1/4, ⟨1, -3/4, rfl, ⟨3, 0, ?_, rfl, by norm_num⟩,
      by norm_num⟩, by norm_num [Lincons.Rel]⟩, ?_⟩
  · exact ⟨le_refl _, by norm_num [fin_le_fin]⟩
  · intro h
    obtain ⟨p, hp, h⟩ := h
    have h0 := h 0 (by decide +kernel)
    have : ∀ p, ((Box.top 0 1 : Box ℚ).meetLinconsArray rndCeil (reduceIntegerFlt rndCeil)
        [⟨.supeq, ⟨.scalar (fin 1), .sparse [(0, .interval (fin 3) (fin 5))]⟩⟩] 0).p = some p → (p 0).inf = fin 0 := by
      intro p hp
      have e : (((Box.top 0 1 : Box ℚ).meetLinconsArray rndCeil (reduceIntegerFlt rndCeil)
        [⟨.supeq, ⟨.scalar (fin 1), .sparse [(0, .interval (fin 3) (fin 5))]⟩⟩] 0).p.map fun p => (p 0).inf) =
          some (fin 0) := by decide +kernel
      rw [hp] at e
      simpa using e
    have h1 := h0.1
    rw [this p hp] at h1
    norm_num at h1

/-! ### precision: constraints on one variable are handled exactly -/

theorem improve_le_new {b old : Bound K} : (improve (some b) old).1 ≤ b := by
  unfold improve
  simp only
  split_ifs with h
  · exact le_refl _
  · rw [cmp_lt_zero, not_lt] at h; exact h

/-- the one-term constraint, converted -/
abbrev unary (typ : ConsTyp ℚ) (q b : ℚ) (d : ℕ) : ILincons ℚ := ⟨typ, ⟨Itv.point b, true, [⟨d, true, Itv.point q⟩]⟩⟩

theorem unary_step (typ : ConsTyp ℚ) (hty : typ = .eq ∨ typ = .supeq) (q b : ℚ) (hq : q ≠ 0) (d : ℕ) (env : ℕ → Itv ℚ)
    (old : Itv ℚ) (y : ℚ) (hy : y ∈ (boxizeTerm Rnd.exact (unary typ q b d) env 0 false 0 ⟨d, true, Itv.point q⟩ old).1) :
    Lincons.Rel typ (q * y + b) := by
  have h0 : sgn (fin (0 : ℚ)) = 0 := by rw [sgn_zero_iff]
  have hev : (zeroAt (unary typ q b d).expr 0).eval Rnd.exact env = Itv.point b := by
    simp [zeroAt, ILinexpr.eval, ILinexpr.evalTerms, ILinexpr.evalStep, Itv.point, h0]
  have hdiv : ∀ p r : ℚ, r ≠ 0 → Bound.div Rnd.exact (fin p) (fin r) = fin (p / r) := fun p r hr =>
    div_up_fin rfl hr
  have hnt : (Itv.point b).isTop = false := by simp [Itv.isTop, Itv.point, infty]
  have key : ∀ (B : Bound ℚ) (o : Bound ℚ) (z : ℚ), fin z ≤ (improve (some B) o).1 → fin z ≤ B :=
    fun B o z h => le_trans h improve_le_new
  unfold boxizeTerm at hy
  rw [hev] at hy
  simp only [hnt, Bool.false_eq_true, and_false, or_self, if_false, Nat.not_lt_zero, decide_false] at hy
  obtain ⟨h1, h2⟩ := hy
  simp only at h1 h2
  have hs : ∀ r : ℚ, (0 < sgn (fin r) ↔ 0 < r) ∧ (sgn (fin r) < 0 ↔ r < 0) := fun r => by
    constructor
    · rw [sgn_pos_iff]; simp
    · rw [sgn_neg_iff]; simp
  have hi : intBound Rnd.exact typ false = id := by funext z; simp [intBound]
  simp only [hi, Option.map_id, id] at h1 h2
  rcases lt_or_gt_of_ne hq with hn | hp
  · have hnp : ¬ 0 < q := not_lt.2 hn.le
    have e2 : supBound Rnd.exact typ true (Itv.point q) (Itv.point b) = some (fin (b / -q)) := by
      simp only [supBound, Itv.point, neg_fin, if_true, (hs _).2, hn]
      rw [hdiv _ _ (by simpa using hq)]
    rw [e2] at h2
    have h2 := key _ _ _ h2
    rw [fin_le_fin, le_div_iff₀ (by linarith)] at h2
    rcases hty with rfl | rfl
    · have e1 : infBound Rnd.exact .eq true (Itv.point q) (Itv.point b) = some (fin (-b / -q)) := by
        simp only [infBound, Itv.point, neg_fin, if_true, (hs _).2, (hs _).1, hn, hnp, if_false, and_self]
        rw [hdiv _ _ (by simpa using hq)]
      rw [e1] at h1
      have h1 := key _ _ _ h1
      rw [fin_le_fin, le_div_iff₀ (by linarith)] at h1
      show q * y + b = 0
      nlinarith
    · show 0 ≤ q * y + b
      nlinarith
  · have hnn : ¬ q < 0 := not_lt.2 hp.le
    have e1 : infBound Rnd.exact typ true (Itv.point q) (Itv.point b) = some (fin (b / q)) := by
      simp only [infBound, Itv.point, if_true, (hs _).1, hp]
      rw [hdiv _ _ hq]
    rw [e1] at h1
    have h1 := key _ _ _ h1
    rw [fin_le_fin, le_div_iff₀ hp] at h1
    rcases hty with rfl | rfl
    · have e2 : supBound Rnd.exact .eq true (Itv.point q) (Itv.point b) = some (fin (-b / q)) := by
        simp only [supBound, Itv.point, neg_fin, if_true, (hs _).1, (hs _).2, hp, hnn, if_false, and_self]
        rw [hdiv _ _ hq]
      rw [e2] at h2
      have h2 := key _ _ _ h2
      rw [fin_le_fin, le_div_iff₀ hp] at h2
      show q * y + b = 0
      nlinarith
    · show 0 ≤ q * y + b
      nlinarith

theorem boxizeTerm_unchanged {c : ILincons ℚ} {env : ℕ → Itv ℚ} {intdim i : ℕ} {t : ITerm ℚ} {old : Itv ℚ}
      (h : (boxizeTerm Rnd.exact c env intdim false i t old).2 = false) :
      (boxizeTerm Rnd.exact c env intdim false i t old).1 = old := by
    unfold boxizeTerm at h ⊢
    simp only [Bool.false_eq_true, and_false, or_false] at h ⊢
    split_ifs at h ⊢ with h1
    · rfl
    · simp only [Bool.or_eq_false_iff] at h
      rw [improve_unchanged h.1, improve_unchanged h.2]

theorem unary_pass (typ : ConsTyp ℚ) (hty : typ = .eq ∨ typ = .supeq) (q b : ℚ) (hq : q ≠ 0) (d : ℕ)
    (env : ℕ → Itv ℚ) (s : BoxSt ℚ) (y : ℚ)
    (he : (boxizePass Rnd.exact true env 0 false [unary typ q b d] s).empty = false)
    (hy : y ∈ (boxizePass Rnd.exact true env 0 false [unary typ q b d] s).res d) :
    Lincons.Rel typ (q * y + b) := by
  have hst := unary_step typ hty q b hq d s.res (s.res d) y
  have e : boxizePass Rnd.exact true env 0 false [unary typ q b d] s =
      if (boxize Rnd.exact (unary typ q b d) true env s.res 0 false).empty then
        ⟨(boxize Rnd.exact (unary typ q b d) true env s.res 0 false).res, true, true⟩
      else ⟨(boxize Rnd.exact (unary typ q b d) true env s.res 0 false).res,
        (boxize Rnd.exact (unary typ q b d) true env s.res 0 false).change || s.change, false⟩ := by
    rcases hty with rfl | rfl <;> rfl
  rw [e] at he hy
  have hbx : boxize Rnd.exact (unary typ q b d) true env s.res 0 false =
      boxizeGo Rnd.exact (unary typ q b d) true env 0 false 0 [⟨d, true, Itv.point q⟩] ⟨s.res, false, false⟩ := by
    unfold boxize
    simp
  rw [hbx] at he hy
  simp only [boxizeGo, if_true] at he hy
  by_cases h2 : (boxizeTerm Rnd.exact (unary typ q b d) s.res 0 false 0 ⟨d, true, Itv.point q⟩ (s.res d)).2 = true
  · simp only [h2, if_true, Nat.not_lt_zero, decide_false] at he hy
    have hc : ∀ i : Itv ℚ, Itv.canonicalize i false = i := fun i => by simp [Itv.canonicalize]
    rw [hc] at he hy
    by_cases hb : (boxizeTerm Rnd.exact (unary typ q b d) s.res 0 false 0 ⟨d, true, Itv.point q⟩ (s.res d)).1.isBottom = true
    · simp [hb] at he
    · rw [if_neg hb] at he hy
      simp only [Bool.false_eq_true, if_false, Function.update_self] at hy
      exact hst hy
  · simp only [h2, Bool.false_eq_true, if_false] at he hy
    have hu := boxizeTerm_unchanged (Bool.eq_false_iff.2 h2)
    exact hst (by rw [hu]; exact hy)

/-- Meeting a box with `q*x_d + b = 0`, `q*x_d + b >= 0`, `q ≠ 0`, `x_d` a real dimension: the result is
exactly the points of the box satisfying the constraint. -/
theorem C16_meet_unary_exact (a : Box ℚ) (typ : ConsTyp ℚ) (hty : typ = .eq ∨ typ = .supeq) (q b : ℚ) (hq : q ≠ 0)
    (d : ℕ) (hd : d < a.dim) (hint : a.intdim = 0) (hdm : d < dimMax) (algo : ℕ) (x : ℕ → ℚ) :
    (a.meetLinconsArray Rnd.exact reduceIntegerRat [⟨typ, ⟨.scalar (fin b), .sparse [(d, .scalar (fin q))]⟩⟩] algo).Gam x
      ↔ a.Gam x ∧ Lincons.Rel typ (q * x d + b) := by
  constructor
  · intro h
    refine ⟨C16_meet_lincons_le _ _ _ _ _ _ h, ?_⟩
    have ha := C16_meet_lincons_le _ _ _ _ _ _ h
    obtain ⟨p, hp, _⟩ := ha
    unfold Box.meetLinconsArray at h
    rw [hp] at h
    simp only at h
    have hred : arrayReduceInteger reduceIntegerRat ([(⟨typ, ⟨.scalar (fin b), .sparse [(d, .scalar (fin q))]⟩⟩ : Lincons ℚ)].map
        (ILincons.ofAp Rnd.exact)) a.intdim = ([unary typ q b d], .top) := by
      have e1 : ILincons.ofAp Rnd.exact (⟨typ, ⟨.scalar (fin b), .sparse [(d, .scalar (fin q))]⟩⟩ : Lincons ℚ) =
          unary typ q b d := by
        simp [ILincons.ofAp, ILinexpr.ofAp, Linexpr.terms, hdm.ne, ITerm.ofCoeff, Itv.setApEq, Itv.setApCoeffExact,
          boundSetApExact, Itv.setApCoeff, Itv.setApScalar, boundSetAp, Rnd.exact, Coeff.isScalar, Itv.point, Itv.isZero,
          hq, sgn_zero_iff]
      have e2 : reduceIntegerRat (unary typ q b d) a.intdim = unary typ q b d := by
        unfold reduceIntegerRat
        rw [if_neg (by simp [reducible, ILinexpr.isInteger, hint])]
      simp only [List.map_cons, List.map_nil, arrayReduceInteger, e1, e2]
      simp [arrayReduce, reduceGo, useless]
    rw [hred, hint] at h
    simp only [reduceCtorEq, if_false] at h
    generalize hk : (if algo < 1 then 2 else algo) = k at h
    by_cases he : (boxizeArray Rnd.exact [unary typ q b d] true p p 0 k false).empty = true
    · rw [if_pos he] at h
      obtain ⟨_, h, _⟩ := h
      simp [Box.setBottom] at h
    · rw [if_neg he] at h
      have hx := Box.gam_mk.1 h d (by simpa [Box.dim, hint] using hd)
      have hk1 : ∃ m, max k 1 = m + 1 := ⟨max k 1 - 1, by omega⟩
      obtain ⟨m, hm⟩ := hk1
      unfold boxizeArray at he hx
      rw [if_pos rfl, hm] at he hx
      simp only [boxizeLoop] at he hx
      by_cases h1 : (boxizePass Rnd.exact true p 0 false [unary typ q b d] ⟨p, false, false⟩).empty = true
      · simp [h1] at he
      · refine unary_pass typ hty q b hq d p ⟨p, false, false⟩ (x d) (by simpa using h1) ?_
        rw [if_neg h1] at hx
        by_cases h2 : (boxizePass Rnd.exact true p 0 false [unary typ q b d] ⟨p, false, false⟩).change = true
        · rw [if_pos h2] at hx
          have := boxizeLoop_le (R := Rnd.exact) true p 0 false [unary typ q b d] m
            ⟨(boxizePass Rnd.exact true p 0 false [unary typ q b d] ⟨p, false, false⟩).res, true, false⟩ d
          exact ⟨le_trans hx.1 this.1, le_trans hx.2 this.2⟩
        · rw [if_neg h2] at hx; exact hx
  · rintro ⟨h1, h2⟩
    refine C16_meet_lincons_sound a _ ?_ _ x h1 (fun d hd => absurd hd (by omega)) ?_
    · intro c hc
      simp only [List.mem_singleton] at hc
      subst hc
      simp [Linexpr.InDim, Linexpr.terms, hd, hdm.ne]
    · intro c hc
      simp only [List.mem_singleton] at hc
      subst hc
      refine ⟨q * x d + b, ⟨b, q * x d, rfl, ?_, by ring⟩, h2⟩
      simp only [Linexpr.terms, List.takeWhile, hdm.ne, ne_eq, not_false_eq_true, decide_true]
      exact ⟨q, 0, rfl, rfl, by ring⟩

end Apron
