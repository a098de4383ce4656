import Verif.Texpr.Hc4
import Verif.Texpr.EvalLemmas

/-!
# Soundness of the HC4 propagation
-/

set_option autoImplicit false
set_option linter.unusedSectionVars false
set_option linter.ambiguousOpen false

namespace Apron
open Bound
variable {K : Type*} [LinearOrder K] [Field K] [IsStrictOrderedRing K] [FloorRing K]

/-- the n-th roots of the number layer are correct on non-negative numbers -/
def RootOps.NonnegOK (o : RootOps K) : Prop := ∀ q k, 0 ≤ q → k ≠ 0 → o.RootOKAt q k

/-- backward rounding is an over-approximation of the pre-image (see `C06_untrunc_unsound` and
`C06_from_int_unsound` for the other cases) -/
def RSafe : RType → RDir → Prop
  | .int, .up | .int, .down => True
  | .int, _ => False
  | _, _ => True

/-- the nodes for which backward refinement is correct: no rounding to an integer other than up or
down; powers only with type real and an even constant exponent -/
def Texpr.Safe : Texpr K → Prop
  | .cst _ => True
  | .dim _ => True
  | .un op t d a => Texpr.Safe a ∧ (op ≠ .neg → RSafe t d)
  | .bin op t d a b => Texpr.Safe a ∧ Texpr.Safe b ∧ (op ≠ .mod → RSafe t d) ∧
      (op = .pow → t = .real ∧ ∃ k : ℕ, b = .cst (.scalar (fin ((2 * k : ℕ) : K))))

namespace Itv

theorem mem_invPow_even {o : RootOps K} (ho : o.NonnegOK) {orga b n : Itv K} {x : K} {k : ℕ}
    (hx : x ∈ orga) (hxb : x ^ (2 * k) ∈ b) (hk : ((2 * k : ℕ) : K) ∈ n) : x ∈ invPow o orga b n := by
  unfold invPow
  rw [not_isBottom hxb, not_isBottom hk, not_isBottom hx]
  simp only [Bool.or_self, Bool.false_eq_true, if_false]
  cases h : expo n with
  | none => exact mem_top _
  | some m =>
    have := expo_spec h
    subst this
    rw [mem_point] at hk
    have hm : m = 2 * k := by exact_mod_cast hk.symm
    subst hm
    simp only
    by_cases h0 : 2 * k = 0
    · rw [if_pos h0]; exact mem_top _
    rw [if_neg h0]
    have hev : ¬ (2 * k) % 2 = 1 := by omega
    have hE : Even (2 * k) := even_two_mul k
    have hpow : 0 ≤ x ^ (2 * k) := hE.pow_nonneg x
    have habs : |x| ^ (2 * k) = x ^ (2 * k) := hE.pow_abs x
    -- the interval before the sign fix-up contains |x|
    have key : ∀ l : Bound K, (l = fin 0 ∨ l = Bound.neg b.inf ∧ b.inf ≤ fin 0) →
        |x| ∈ (⟨Bound.neg (Bound.rootDn o l (2 * k)), Bound.rootUp o b.sup (2 * k)⟩ : Itv K) := by
      intro l hl
      constructor
      · rcases hl with rfl | ⟨rfl, hb⟩
        · simp only [rootDn, Bound.neg, fin_le_fin, neg_le_neg_iff]
          exact ((ho 0 _ le_rfl h0) |x| (fun _ => abs_nonneg x)).1 (by rw [habs]; exact hpow)
        · have h1 := hxb.1
          obtain ⟨bi, bs⟩ := b
          cases bi with
          | fin q =>
            simp only [rootDn, Bound.neg, fin_le_fin, neg_le_neg_iff] at h1 hb ⊢
            exact ((ho (-q) _ (by linarith) h0) |x| (fun _ => abs_nonneg x)).1
              (by rw [habs]; linarith)
          | pinf => simp at hb
          | ninf => simp at h1
      · have h2 := hxb.2
        obtain ⟨bi, bs⟩ := b
        cases bs with
        | fin q =>
          simp only [rootUp, fin_le_fin] at h2 ⊢
          exact ((ho q _ (by linarith) h0) |x| (fun _ => abs_nonneg x)).2 (by rw [habs]; exact h2)
        | pinf => simp [rootUp]
        | ninf => simp at h2
    -- the sign fix-up
    have fixup : ∀ a : Itv K, |x| ∈ a → x ∈ invPow.fix orga (2 * k) a := by
      intro a ha
      unfold invPow.fix
      rw [if_neg hev]
      by_cases h1 : sgn orga.sup ≤ 0
      · rw [if_pos h1]
        have : x ≤ 0 := nonpos_of_sup hx ((sgn_le_zero_iff _).1 h1)
        rw [abs_of_nonpos this] at ha
        exact ⟨ha.2, by simpa using ha.1⟩
      · rw [if_neg h1]
        by_cases h2 : 0 ≤ sgn orga.inf
        · rw [if_pos h2]
          exact ⟨le_trans (by simpa using neg_le_abs x) ha.2, le_trans (by simpa using le_abs_self x) ha.2⟩
        · rw [if_neg h2]
          have : 0 ≤ x := nonneg_of_inf hx (by
            push Not at h2; rw [sgn_neg_iff] at h2; exact h2.le)
          rwa [abs_of_nonneg this] at ha
    by_cases h1 : (2 * k) % 2 = 1 ∨ sgn b.inf ≤ 0
    · rw [if_pos h1]
      refine fixup _ (key _ (Or.inr ⟨rfl, ?_⟩))
      rcases h1 with h1 | h1
      · exact absurd h1 hev
      · exact (sgn_le_zero_iff _).1 h1
    · rw [if_neg h1]
      have h2 : ¬ sgn b.sup < 0 := by
        intro h2
        rw [sgn_neg_iff] at h2
        have := neg_of_sup hxb h2
        linarith
      rw [if_neg h2]
      exact fixup _ (key _ (Or.inl rfl))

theorem ne_zero_of_mayZero {i : Itv K} {x : K} (h : i.mayZero = false) (hx : x ∈ i) : x ≠ 0 := by
  unfold mayZero at h
  rw [Bool.and_eq_false_iff] at h
  rcases h with h | h
  · simp only [decide_eq_false_iff_not, not_le] at h
    rw [sgn_neg_iff] at h
    exact (pos_of_inf hx h).ne'
  · simp only [decide_eq_false_iff_not, not_le] at h
    rw [sgn_neg_iff] at h
    exact (neg_of_sup hx h).ne

theorem eq_of_isEq {a b : Itv K} (h : isEq a b = true) : a = b := by
  obtain ⟨ai, as⟩ := a
  obtain ⟨bi, bs⟩ := b
  simp only [isEq, Bool.and_eq_true, decide_eq_true_eq] at h
  rw [h.1, h.2]

theorem mem_modScratch (R : Rnd K) {b c : Itv K} {x y : K} (hx : x ∈ b) (hy : y ∈ c) (hy0 : y ≠ 0) :
    x - |y| * ((numTrunc (x / |y|) : ℤ) : K) ∈ modScratch R b c := by
  have := mem_mod R false hx hy hy0 (by simp)
  unfold mod at this
  unfold modScratch
  simp only at this ⊢
  by_cases h : sgn (abs c).inf = 0
  · rw [if_pos h]; exact mem_top _
  · rw [if_neg h] at this ⊢
    exact (mem_meet.1 this).1

end Itv

namespace Texpr

theorem fromFlt_ge {f : K → Bound K} {b : Bound K} {v w : K}
    (hf : ∀ q, w ≤ q → q ≠ 0 → fin v ≤ f q) (h0 : w ≤ 0 → v ≤ 0) (h : fin w ≤ b) :
    fin v ≤ Bound.fromFlt f b := by
  unfold Bound.fromFlt
  cases b with
  | fin q =>
    by_cases hq : sgn (fin q) = 0
    · rw [if_pos hq]
      rw [sgn_zero_iff] at hq
      injection hq with hq
      subst hq
      simpa using h0 (by simpa using h)
    · rw [if_neg hq]
      rw [sgn_zero_iff] at hq
      exact hf q (by simpa using h) (fun h => hq (by rw [h]))
  | pinf => simp [sgn, Bound.nextFlt]
  | ninf => simp at h

theorem mem_unround {R : Rnd K} {F : FltOps K} {S : FltSem K} (hU : UnroundOK F S) {t : RType}
    {d : RDir} (hs : RSafe t d) {i : Itv K} {v w : K} (hv : v ∈ i) (h : Rounds S t d w v) :
    w ∈ unround R F t d i := by
  by_cases ht : t.isFlt = true
  · have hr := rounds_flt ht h
    have e : unround R F t d i =
        ⟨Bound.fromFlt (F.next t) i.inf, Bound.fromFlt (F.next t) i.sup⟩ := by
      cases t <;> simp_all [RType.isFlt, unround]
    rw [e]
    have hn := hU.no_underflow t d w v ht hr
    exact ⟨fromFlt_ge (fun q hq => hU.next_ge_neg t d w v q ht hr hq)
        (fun h0 => by simpa using hn.2 (by linarith)) hv.1,
      fromFlt_ge (fun q hq => hU.next_ge t d w v q ht hr hq) hn.1 hv.2⟩
  · cases t with
    | real => simp only [Rounds] at h; subst h; exact hv
    | int =>
      cases d with
      | up =>
        simp only [Rounds] at h
        rw [h] at hv
        show w ∈ Itv.unceil R i
        constructor
        · have h1 := hv.1
          rw [← Int.cast_neg] at h1
          have := fin_add_one_le_addNat R (fin_le_floor h1)
          refine le_trans ?_ this
          have := Int.ceil_lt_add_one w
          simp only [fin_le_fin]; push_cast; linarith
        · exact le_trans (by simpa using Int.le_ceil w) (fin_le_floor hv.2)
      | down =>
        simp only [Rounds] at h
        rw [h] at hv
        show w ∈ Itv.unfloor R i
        constructor
        · have h1 := hv.1
          rw [← Int.cast_neg] at h1
          refine le_trans ?_ (fin_le_floor h1)
          simp only [fin_le_fin]; push_cast; linarith [Int.floor_le w]
        · have := fin_add_one_le_addNat R (fin_le_floor hv.2)
          exact le_trans (by simpa using (Int.lt_floor_add_one w).le) this
      | zero => exact hs.elim
      | nearest => exact hs.elim
      | rnd => exact hs.elim
    | single => simp [RType.isFlt] at ht
    | double => simp [RType.isFlt] at ht
    | extended => simp [RType.isFlt] at ht
    | quad => simp [RType.isFlt] at ht

theorem mem_refineUn {R : Rnd K} {F : FltOps K} {S : FltSem K} (hU : UnroundOK F S) {op : UnOp}
    {t : RType} {d : RDir} (hs : op ≠ .neg → RSafe t d) {res arg : Itv K} {a w v : K} (ha : a ∈ arg)
    (hw : op.Val a w) (hr : if op = .neg then v = w else Rounds S t d w v) (hv : v ∈ res) :
    a ∈ refineUn R F op t d res arg := by
  cases op with
  | neg =>
    simp only [if_true, UnOp.Val] at hr hw
    subst hr; subst hw
    exact Itv.mem_meet.2 ⟨by simpa using Itv.mem_neg hv, ha⟩
  | cast =>
    simp only [reduceCtorEq, if_false, UnOp.Val] at hr hw
    subst hw
    exact Itv.mem_meet.2 ⟨mem_unround hU (hs (by simp)) hv hr, ha⟩
  | sqrt =>
    simp only [reduceCtorEq, if_false, UnOp.Val] at hr hw
    have hm := mem_unround (R := R) hU (hs (by simp)) hv hr
    refine Itv.mem_meet.2 ⟨?_, ha⟩
    rw [← hw.2]
    exact Itv.mem_mul R hm hm

theorem mem_refineBin {R : Rnd K} {o : RootOps K} (ho : o.NonnegOK) {F : FltOps K} {S : FltSem K}
    (hU : UnroundOK F S) {op : BinOp} {t : RType} {d : RDir} (hs : op ≠ .mod → RSafe t d)
    {res arg1 arg2 : Itv K} {a b w v : K} (ha : a ∈ arg1) (hb : b ∈ arg2)
    (hp : op = .pow → t = .real ∧ ∃ k : ℕ, b = ((2 * k : ℕ) : K))
    (hw : op.Val t a b w) (hr : if op = .mod then v = w else Rounds S t d w v) (hv : v ∈ res) :
    a ∈ (refineBin R o F op t d res arg1 arg2).1 ∧ b ∈ (refineBin R o F op t d res arg1 arg2).2 := by
  cases op with
  | add =>
    simp only [reduceCtorEq, if_false, BinOp.Val] at hr hw
    have hm := mem_unround (R := R) hU (hs (by simp)) hv hr
    subst hw
    exact ⟨Itv.mem_meet.2 ⟨by simpa using Itv.mem_sub R hm hb, ha⟩,
      Itv.mem_meet.2 ⟨by simpa using Itv.mem_sub R hm ha, hb⟩⟩
  | sub =>
    simp only [reduceCtorEq, if_false, BinOp.Val] at hr hw
    have hm := mem_unround (R := R) hU (hs (by simp)) hv hr
    subst hw
    exact ⟨Itv.mem_meet.2 ⟨by simpa using Itv.mem_add R hb hm, ha⟩,
      Itv.mem_meet.2 ⟨by simpa using Itv.mem_sub R ha hm, hb⟩⟩
  | mul =>
    simp only [reduceCtorEq, if_false, BinOp.Val] at hr hw
    have hm := mem_unround (R := R) hU (hs (by simp)) hv hr
    subst hw
    simp only [refineBin]
    constructor
    · split_ifs with h
      · exact ha
      · have h0 := Itv.ne_zero_of_mayZero (by simpa using h) hb
        refine Itv.mem_meet.2 ⟨?_, ha⟩
        have := Itv.mem_div R hm hb h0
        rwa [mul_div_cancel_right₀ _ h0] at this
    · split_ifs with h
      · exact hb
      · have h0 := Itv.ne_zero_of_mayZero (by simpa using h) ha
        refine Itv.mem_meet.2 ⟨?_, hb⟩
        have := Itv.mem_div R hm ha h0
        rwa [mul_div_cancel_left₀ _ h0] at this
  | div =>
    simp only [reduceCtorEq, if_false, BinOp.Val] at hr hw
    have hm := mem_unround (R := R) hU (hs (by simp)) hv hr
    obtain ⟨hb0, rfl⟩ := hw
    simp only [refineBin]
    constructor
    · refine Itv.mem_meet.2 ⟨?_, ha⟩
      have := Itv.mem_mul R hm hb
      rwa [div_mul_cancel₀ _ hb0] at this
    · split_ifs with h
      · exact hb
      · have h0 := Itv.ne_zero_of_mayZero (by simpa using h) hm
        refine Itv.mem_meet.2 ⟨?_, hb⟩
        have ha0 : a ≠ 0 := fun h => h0 (by rw [h, zero_div])
        have := Itv.mem_div R ha hm h0
        have e : a / (a / b) = b := by field_simp
        rwa [e] at this
  | mod => exact ⟨ha, hb⟩
  | pow =>
    simp only [reduceCtorEq, if_false, BinOp.Val] at hr hw
    obtain ⟨rfl, k, rfl⟩ := hp rfl
    simp only [Rounds] at hr
    subst hr
    rw [hw _ rfl] at hv
    exact ⟨Itv.mem_meet.2 ⟨Itv.mem_invPow_even ho ha hv hb, ha⟩, hb⟩

end Texpr

namespace AExpr

/-- the tree without its annotations -/
def strip : AExpr K → Texpr K
  | .cst c _ => .cst c
  | .dim d _ => .dim d
  | .un op t d a _ => .un op t d (strip a)
  | .bin op t d a b _ => .bin op t d (strip a) (strip b)

/-- `v` is a value of the tree at `x`, computed with intermediate values that all lie in the
annotations (that of the root excepted) -/
def Sub (S : FltSem K) : AExpr K → (ℕ → K) → K → Prop
  | .cst c _, _, v => c.Has v
  | .dim d _, x, v => v = x d
  | .un op t d a _, x, v => ∃ va w, Sub S a x va ∧ va ∈ a.val ∧ op.Val va w ∧
      (if op = .neg then v = w else Rounds S t d w v)
  | .bin op t d a b _, x, v => ∃ va vb w, Sub S a x va ∧ va ∈ a.val ∧ Sub S b x vb ∧ vb ∈ b.val ∧
      op.Val t va vb w ∧ (if op = .mod then v = w else Rounds S t d w v)

theorem strip_build (R : Rnd K) (o : RootOps K) (F : FltOps K) (env : ℕ → Itv K) (e : Texpr K) :
    strip (build R o F env e) = e := by
  induction e with
  | cst c => rfl
  | dim d => rfl
  | un op t d a ih => simp [build, strip, ih]
  | bin op t d a b iha ihb => simp [build, strip, iha, ihb]

/-- the parity of constant exponents rules out the failure of `itv_pow` -/
theorem safe_pow {e f : Texpr K} {op : BinOp} {t : RType} {d : RDir} (h : (Texpr.bin op t d e f).Safe)
    {S : FltSem K} {x : ℕ → K} {v : K} (hv : f.Val S x v) (hop : op = .pow) :
    t = .real ∧ ∃ k : ℕ, v = ((2 * k : ℕ) : K) := by
  obtain ⟨ht, k, rfl⟩ := h.2.2.2 hop
  refine ⟨ht, k, ?_⟩
  simp only [Texpr.Val, Coeff.Has] at hv
  injection hv with hv
  exact hv.symm

theorem sub_val {S : FltSem K} {a : AExpr K} {x : ℕ → K} {v : K} (h : a.Sub S x v) :
    a.strip.Val S x v := by
  induction a generalizing v with
  | cst c i => exact h
  | dim d i => exact h
  | un op t d a i ih =>
    obtain ⟨va, w, h1, _, h2, h3⟩ := h
    exact ⟨va, w, ih h1, h2, h3⟩
  | bin op t d a b i iha ihb =>
    obtain ⟨va, vb, w, h1, _, h2, _, h3, h4⟩ := h
    exact ⟨va, vb, w, iha h1, ihb h2, h3, h4⟩

theorem mem_evalBin_even {R : Rnd K} {F : FltOps K} {S : FltSem K} (hF : FltOK F S)
    {op : BinOp} {t : RType} {d : RDir} {i j : Itv K} {a b w v : K} (ha : a ∈ i) (hb : b ∈ j)
    (hp : op = .pow → t = .real ∧ ∃ k : ℕ, b = ((2 * k : ℕ) : K))
    (hw : op.Val t a b w) (hv : if op = .mod then v = w else Rounds S t d w v) :
    v ∈ Texpr.evalBin R F op t d i j := by
  by_cases hop : op = .pow
  · subst hop
    obtain ⟨rfl, k, rfl⟩ := hp rfl
    simp only [reduceCtorEq, if_false, BinOp.Val] at hv hw
    rw [hw _ rfl] at hv
    exact Texpr.mem_round hF (Itv.mem_pow R ha hb (by omega)) hv
  · exact Texpr.mem_evalBin hF ha hb hw hv (fun h => absurd h hop)

theorem mem_evalBinScratch {R : Rnd K} {F : FltOps K} {S : FltSem K} (hF : FltOK F S)
    {op : BinOp} {t : RType} {d : RDir} {i j : Itv K} {a b w v : K} (ha : a ∈ i) (hb : b ∈ j)
    (hp : op = .pow → t = .real ∧ ∃ k : ℕ, b = ((2 * k : ℕ) : K))
    (hw : op.Val t a b w) (hv : if op = .mod then v = w else Rounds S t d w v) :
    v ∈ Texpr.evalBinScratch R F op t d i j := by
  by_cases hop : op = .mod
  · subst hop
    simp only [if_true, BinOp.Val] at hv hw
    obtain ⟨h0, _, hw⟩ := hw
    subst hv
    rw [hw]
    have := Itv.mem_modScratch R ha hb h0
    show _ ∈ Itv.modScratch R i j
    convert this using 3
    unfold numTrunc
    split_ifs <;> rfl
  · have e : Texpr.evalBinScratch R F op t d i j = Texpr.evalBin R F op t d i j := by
      cases op <;> simp_all [Texpr.evalBinScratch]
    rw [e]
    exact mem_evalBin_even hF ha hb hp hw hv

section
variable {R : Rnd K} {o : RootOps K} (ho : o.SqrtOK) {F : FltOps K} {S : FltSem K} (hF : FltOK F S)
  {n : ℕ}
include ho hF

theorem build_sub {env : ℕ → Itv K} {x : ℕ → K} (hx : ∀ i, i < n → x i ∈ env i)
    {e : Texpr K} (hd : e.InDim n) (hs : e.Safe) {v : K} (hv : e.Val S x v) :
    (build R o F env e).Sub S x v ∧ v ∈ (build R o F env e).val := by
  induction e generalizing v with
  | cst c => exact ⟨hv, Itv.mem_setApCoeff R hv⟩
  | dim d =>
    refine ⟨hv, ?_⟩
    simp only [Texpr.Val] at hv
    subst hv
    exact hx d hd
  | un op t d a ih =>
    obtain ⟨va, w, h1, h2, h3⟩ := hv
    obtain ⟨i1, i2⟩ := ih hd hs.1 h1
    refine ⟨⟨va, w, i1, i2, h2, h3⟩, ?_⟩
    show v ∈ (if (build R o F env a).val.isBottom = true then Itv.bottom
      else Texpr.evalUn o F op t d (build R o F env a).val)
    rw [if_neg (by simp [Itv.not_isBottom i2])]
    exact Texpr.mem_evalUn ho hF i2 h2 h3
  | bin op t d a b iha ihb =>
    have hs' := hs
    obtain ⟨va, vb, w, h1, h2, h3, h4⟩ := hv
    obtain ⟨i1, i2⟩ := iha hd.1 hs.1 h1
    obtain ⟨j1, j2⟩ := ihb hd.2 hs.2.1 h2
    refine ⟨⟨va, vb, w, i1, i2, j1, j2, h3, h4⟩, ?_⟩
    show v ∈ (if ((build R o F env a).val.isBottom || (build R o F env b).val.isBottom) = true
      then Itv.bottom
      else Texpr.evalBin R F op t d (build R o F env a).val (build R o F env b).val)
    rw [if_neg (by simp [Itv.not_isBottom i2, Itv.not_isBottom j2])]
    exact mem_evalBin_even hF i2 j2 (safe_pow hs' h2) h3 h4

theorem bottomUp_sub {env : ℕ → Itv K} {x : ℕ → K} (hx : ∀ i, i < n → x i ∈ env i)
    {a : AExpr K} (hd : a.strip.InDim n) (hs : a.strip.Safe) {v : K} (hv : a.Sub S x v)
    (hm : v ∈ a.val) :
    (bottomUp R o F env a).1.Sub S x v ∧ v ∈ (bottomUp R o F env a).1.val ∧
      (bottomUp R o F env a).1.strip = a.strip := by
  induction a generalizing v with
  | cst c i => exact ⟨hv, hm, rfl⟩
  | dim d i =>
    have hv' : v = x d := hv
    simp only [bottomUp]
    split_ifs with h
    · exact ⟨hv, hm, rfl⟩
    · exact ⟨hv, Itv.mem_meet.2 ⟨hm, hv' ▸ hx d hd⟩, rfl⟩
  | un op t d a i ih =>
    obtain ⟨va, w, h1, h1', h2, h3⟩ := hv
    obtain ⟨i1, i2, i3⟩ := ih hd hs.1 h1 h1'
    have hsub : ∀ j, (AExpr.un op t d (bottomUp R o F env a).1 j).Sub S x v := fun j =>
      ⟨va, w, i1, i2, h2, h3⟩
    have hstrip : ∀ j, (AExpr.un op t d (bottomUp R o F env a).1 j).strip = (AExpr.un op t d a i).strip :=
      fun j => by simp [strip, i3]
    simp only [bottomUp]
    rw [if_neg (c := (bottomUp R o F env a).1.val.isBottom = true) (by simp [Itv.not_isBottom i2])]
    split_ifs with h
    · exact ⟨hsub _, hm, hstrip _⟩
    · exact ⟨hsub _, Itv.mem_meet.2 ⟨Texpr.mem_evalUn ho hF i2 h2 h3, hm⟩, hstrip _⟩
  | bin op t d a b i iha ihb =>
    obtain ⟨va, vb, w, h1, h1', h2, h2', h3, h4⟩ := hv
    obtain ⟨i1, i2, i3⟩ := iha hd.1 hs.1 h1 h1'
    obtain ⟨j1, j2, j3⟩ := ihb hd.2 hs.2.1 h2 h2'
    have hsub : ∀ j, (AExpr.bin op t d (bottomUp R o F env a).1 (bottomUp R o F env b).1 j).Sub S x v :=
      fun j => ⟨va, vb, w, i1, i2, j1, j2, h3, h4⟩
    have hstrip : ∀ j, (AExpr.bin op t d (bottomUp R o F env a).1 (bottomUp R o F env b).1 j).strip =
        (AExpr.bin op t d a b i).strip := fun j => by simp [strip, i3, j3]
    simp only [bottomUp]
    rw [if_neg (c := ((bottomUp R o F env a).1.val.isBottom || (bottomUp R o F env b).1.val.isBottom) = true)
      (by simp [Itv.not_isBottom i2, Itv.not_isBottom j2])]
    split_ifs with h
    · exact ⟨hsub _, hm, hstrip _⟩
    · refine ⟨hsub _, Itv.mem_meet.2 ⟨?_, hm⟩, hstrip _⟩
      exact mem_evalBinScratch hF i2 j2 (safe_pow hs (sub_val h2)) h3 h4

end

section
variable {R : Rnd K} {o : RootOps K} (ho : o.NonnegOK) {F : FltOps K} {S : FltSem K}
  (hU : UnroundOK F S) {n intdim : ℕ}
include ho hU

theorem topDown_sub {x : ℕ → K} (hint : ∀ i, i < n → i < intdim → ∃ m : ℤ, x i = m) {a : AExpr K}
    {j : Itv K} {env : ℕ → Itv K} (hx : ∀ i, i < n → x i ∈ env i)
    (hd : a.strip.InDim n) (hs : a.strip.Safe) {v : K} (hv : a.Sub S x v) (hm : v ∈ j) :
    (topDown R o F intdim a j env).expr.Sub S x v ∧ v ∈ (topDown R o F intdim a j env).expr.val ∧
      (topDown R o F intdim a j env).expr.strip = a.strip ∧
      ∀ i, i < n → x i ∈ (topDown R o F intdim a j env).env i := by
  induction a generalizing v j env with
  | cst c i => exact ⟨hv, hm, rfl, hx⟩
  | dim d i =>
    have hv' : v = x d := hv
    simp only [topDown]
    rw [Itv.not_isBottom hm, if_neg (by simp)]
    have hc : v ∈ Itv.canonicalize (Itv.meet (env d) j) (decide (d < intdim)) := by
      have h1 : v ∈ Itv.meet (env d) j := Itv.mem_meet.2 ⟨hv' ▸ hx d hd, hm⟩
      by_cases h : d < intdim
      · obtain ⟨m, hm'⟩ := hint d hd h
        rw [decide_eq_true h, hv', hm']
        rw [hv', hm'] at h1
        exact Itv.mem_canonicalize_int.2 h1
      · rw [decide_eq_false h]; exact h1
    split_ifs with h
    · exact ⟨hv, hc, rfl, hx⟩
    · refine ⟨hv, hc, rfl, fun i hi => ?_⟩
      by_cases hid : i = d
      · subst hid; simpa [hv'] using hc
      · simpa [hid] using hx i hi
  | un op t d a i ih =>
    obtain ⟨va, w, h1, h1', h2, h3⟩ := hv
    simp only [topDown]
    rw [Itv.not_isBottom hm, if_neg (by simp)]
    split_ifs with h
    · exact ⟨⟨va, w, h1, h1', h2, h3⟩, hm, rfl, hx⟩
    · obtain ⟨i1, i2, i3, i4⟩ := ih hx hd hs.1 h1 (Texpr.mem_refineUn (R := R) hU hs.2 h1' h2 h3 hm)
      exact ⟨⟨va, w, i1, i2, h2, h3⟩, hm, by simp [strip, i3], i4⟩
  | bin op t d a b i iha ihb =>
    obtain ⟨va, vb, w, h1, h1', h2, h2', h3, h4⟩ := hv
    simp only [topDown]
    rw [Itv.not_isBottom hm, if_neg (by simp)]
    have href := Texpr.mem_refineBin (R := R) ho hU hs.2.2.1 h1' h2' (safe_pow hs (sub_val h2)) h3 h4 hm
    generalize Texpr.refineBin R o F op t d j a.val b.val = e at href ⊢
    -- first operand
    have k1 : ∀ r : Down K, r = (if Itv.isEq e.1 a.val then ⟨a, env, false⟩
        else topDown R o F intdim a e.1 env) → r.expr.Sub S x va ∧ va ∈ r.expr.val ∧
        r.expr.strip = a.strip ∧ ∀ i, i < n → x i ∈ r.env i := by
      rintro r rfl
      split_ifs with h
      · exact ⟨h1, h1', rfl, hx⟩
      · exact iha hx hd.1 hs.1 h1 href.1
    generalize (if Itv.isEq e.1 a.val = true then (⟨a, env, false⟩ : Down K)
        else topDown R o F intdim a e.1 env) = r1 at k1 ⊢
    obtain ⟨i1, i2, i3, i4⟩ := k1 r1 rfl
    have k2 : ∀ r : Down K, r = (if Itv.isEq e.2 b.val then ⟨b, r1.env, false⟩
        else topDown R o F intdim b e.2 r1.env) → r.expr.Sub S x vb ∧ vb ∈ r.expr.val ∧
        r.expr.strip = b.strip ∧ ∀ i, i < n → x i ∈ r.env i := by
      rintro r rfl
      split_ifs with h
      · exact ⟨h2, h2', rfl, i4⟩
      · exact ihb i4 hd.2 hs.2.1 h2 href.2
    generalize (if Itv.isEq e.2 b.val = true then (⟨b, r1.env, false⟩ : Down K)
        else topDown R o F intdim b e.2 r1.env) = r2 at k2 ⊢
    obtain ⟨j1, j2, j3, j4⟩ := k2 r2 rfl
    exact ⟨⟨va, vb, w, i1, i2, j1, j2, h3, h4⟩, hm, by simp [strip, i3, j3], j4⟩

theorem refineCons_sub {x : ℕ → K} (hint : ∀ i, i < n → i < intdim → ∃ m : ℤ, x i = m) {a : AExpr K}
    {env : ℕ → Itv K} (hx : ∀ i, i < n → x i ∈ env i) (hd : a.strip.InDim n) (hs : a.strip.Safe)
    {v : K} (hv : a.Sub S x v) (hm : v ∈ a.val) {typ : ConsTyp K} (hr : Lincons.Rel typ v) :
    (refineCons R o F intdim typ a env).expr.Sub S x v ∧
      v ∈ (refineCons R o F intdim typ a env).expr.val ∧
      (refineCons R o F intdim typ a env).expr.strip = a.strip ∧
      ∀ i, i < n → x i ∈ (refineCons R o F intdim typ a env).env i := by
  have hself : ∀ c : Bool, (⟨a, env, c⟩ : Down K).expr.Sub S x v ∧ v ∈ (⟨a, env, c⟩ : Down K).expr.val ∧
      (⟨a, env, c⟩ : Down K).expr.strip = a.strip ∧ ∀ i, i < n → x i ∈ (⟨a, env, c⟩ : Down K).env i :=
    fun c => ⟨hv, hm, rfl, hx⟩
  have hnn : 0 ≤ v → v ∈ Itv.meet a.val (⟨fin 0, pinf⟩ : Itv K) := fun h =>
    Itv.mem_meet.2 ⟨hm, by simpa using h, by simp⟩
  cases typ with
  | eq =>
    simp only [refineCons]
    split_ifs with h
    · exact hself _
    · exact topDown_sub ho hU hint hx hd hs hv
        (Itv.mem_meet.2 ⟨hm, (Itv.mem_point v 0).2 hr⟩)
  | supeq =>
    simp only [refineCons]
    split_ifs with h
    · exact hself _
    · exact topDown_sub ho hU hint hx hd hs hv (hnn hr)
  | sup =>
    simp only [refineCons]
    split_ifs with h
    · exact hself _
    · exact topDown_sub ho hU hint hx hd hs hv (hnn (le_of_lt hr))
  | eqmod m => exact hself _
  | diseq => exact hself _

end
end AExpr

/-- the propagation state describes the constraints at `x` -/
def HcInv (S : FltSem K) (n : ℕ) (x : ℕ → K) (l : List (AExpr K × ConsTyp K)) : Prop :=
  ∀ p ∈ l, p.1.strip.InDim n ∧ p.1.strip.Safe ∧ ∃ v, p.1.Sub S x v ∧ v ∈ p.1.val ∧ Lincons.Rel p.2 v

section
variable {R : Rnd K} {o : RootOps K} (hq : o.SqrtOK) (ho : o.NonnegOK) {F : FltOps K} {S : FltSem K}
  (hF : FltOK F S) (hU : UnroundOK F S) {n intdim : ℕ}
include hq ho hF hU

theorem hc4Refine_inv {x : ℕ → K} (hint : ∀ i, i < n → i < intdim → ∃ m : ℤ, x i = m)
    {l : List (AExpr K × ConsTyp K)} {env : ℕ → Itv K} (hx : ∀ i, i < n → x i ∈ env i)
    (hl : HcInv S n x l) : HcInv S n x (hc4Refine R o F intdim l env).1 ∧
      ∀ i, i < n → x i ∈ (hc4Refine R o F intdim l env).2.1 i := by
  induction l generalizing env with
  | nil => exact ⟨hl, hx⟩
  | cons p l ih =>
    obtain ⟨e, typ⟩ := p
    obtain ⟨h1, h2, v, h3, h4, h5⟩ := hl (e, typ) (by simp)
    obtain ⟨i1, i2, i3, i4⟩ := AExpr.refineCons_sub (R := R) ho hU hint hx h1 h2 h3 h4 h5
    obtain ⟨j1, j2⟩ := ih i4 (fun p hp => hl p (by simp [hp]))
    simp only [hc4Refine]
    refine ⟨fun p hp => ?_, j2⟩
    rcases List.mem_cons.1 hp with rfl | hp
    · exact ⟨by simpa [i3] using h1, by simpa [i3] using h2, v, i1, i2, h5⟩
    · exact j1 p hp

theorem hc4Up_inv {x : ℕ → K} {l : List (AExpr K × ConsTyp K)} {env : ℕ → Itv K}
    (hx : ∀ i, i < n → x i ∈ env i) (hl : HcInv S n x l) :
    HcInv S n x (hc4Up R o F env l).1 ∧ (hc4Up R o F env l).2.2 = false := by
  induction l with
  | nil => exact ⟨hl, rfl⟩
  | cons p l ih =>
    obtain ⟨e, typ⟩ := p
    obtain ⟨h1, h2, v, h3, h4, h5⟩ := hl (e, typ) (by simp)
    obtain ⟨i1, i2, i3⟩ := AExpr.bottomUp_sub (R := R) hq hF hx h1 h2 h3 h4
    obtain ⟨j1, j2⟩ := ih (fun p hp => hl p (by simp [hp]))
    simp only [hc4Up]
    rw [Itv.not_isBottom i2]
    simp only [Bool.false_eq_true, if_false]
    refine ⟨fun p hp => ?_, j2⟩
    rcases List.mem_cons.1 hp with rfl | hp
    · exact ⟨by simpa [i3] using h1, by simpa [i3] using h2, v, i1, i2, h5⟩
    · exact j1 p hp

theorem hc4Loop_inv {x : ℕ → K} (hint : ∀ i, i < n → i < intdim → ∃ m : ℤ, x i = m) (k : ℕ)
    {l : List (AExpr K × ConsTyp K)} {env : ℕ → Itv K} (hx : ∀ i, i < n → x i ∈ env i)
    (hl : HcInv S n x l) : (∀ i, i < n → x i ∈ (hc4Loop R o F intdim k l env).1 i) ∧
      (hc4Loop R o F intdim k l env).2 = false := by
  induction k generalizing l env with
  | zero => exact ⟨hx, rfl⟩
  | succ k ih =>
    obtain ⟨h1, h2⟩ := hc4Refine_inv (R := R) hq ho hF hU hint hx hl
    obtain ⟨h3, h4⟩ := hc4Up_inv (R := R) hq ho hF hU h2 h1
    simp only [hc4Loop]
    by_cases c1 : (hc4Refine R o F intdim l env).2.2 = true
    · rw [if_pos c1, h4]
      simp only [Bool.false_eq_true, if_false]
      split_ifs
      · exact ih h2 h3
      · exact ⟨h2, rfl⟩
    · rw [if_neg c1]
      exact ⟨h2, rfl⟩

theorem hc4_sound {x : ℕ → K} (hint : ∀ i, i < n → i < intdim → ∃ m : ℤ, x i = m) (k : ℕ)
    {l : List (Tcons K)} {env : ℕ → Itv K} (hx : ∀ i, i < n → x i ∈ env i)
    (hl : ∀ c ∈ l, c.expr.InDim n ∧ c.expr.Safe ∧ c.Holds S x) :
    (∀ i, i < n → x i ∈ (hc4 R o F intdim l env k).1 i) ∧ (hc4 R o F intdim l env k).2 = false := by
  refine hc4Loop_inv hq ho hF hU hint k hx fun p hp => ?_
  obtain ⟨c, hc, rfl⟩ := List.mem_map.1 hp
  obtain ⟨h1, h2, v, h3, h4⟩ := hl c hc
  obtain ⟨i1, i2⟩ := AExpr.build_sub (R := R) hq hF hx h1 h2 h3
  exact ⟨by rwa [AExpr.strip_build], by rwa [AExpr.strip_build], v, i1, i2, h4⟩

end

/-! ## The propagation only shrinks the box -/

theorem Itv.mem_of_canonicalize {i : Itv K} {b : Bool} {x : K} (h : x ∈ Itv.canonicalize i b) :
    x ∈ i := by
  cases b with
  | false => exact h
  | true =>
    have fl : ∀ c : Bound K, Bound.floor c ≤ c := by
      intro c
      cases c with
      | fin q => simpa [Bound.floor] using Int.floor_le q
      | pinf => simp [Bound.floor]
      | ninf => simp [Bound.floor]
    exact ⟨le_trans h.1 (fl _), le_trans h.2 (fl _)⟩

section
variable (R : Rnd K) (o : RootOps K) (F : FltOps K) (intdim : ℕ)

theorem AExpr.topDown_le (a : AExpr K) (j : Itv K) (env : ℕ → Itv K) (i : ℕ) (x : K)
    (h : x ∈ (a.topDown R o F intdim j env).env i) : x ∈ env i := by
  induction a generalizing j env x with
  | cst c v => exact h
  | dim d v =>
    simp only [topDown] at h
    split_ifs at h with h1 h2
    · exact h
    · exact h
    · by_cases hid : i = d
      · subst hid
        simp only [Function.update_self] at h
        exact (Itv.mem_meet.1 (Itv.mem_of_canonicalize h)).1
      · simpa [hid] using h
  | un op t d a v ih =>
    simp only [topDown] at h
    split_ifs at h with h1 h2
    · exact h
    · exact h
    · exact ih _ _ _ h
  | bin op t d a b v iha ihb =>
    simp only [topDown] at h
    by_cases h1 : j.isBottom = true
    · rw [if_pos h1] at h; exact h
    rw [if_neg h1] at h
    simp only at h
    generalize Texpr.refineBin R o F op t d j a.val b.val = e at h
    have k1 : ∀ y, y ∈ (if Itv.isEq e.1 a.val = true then (⟨a, env, false⟩ : Down K)
        else topDown R o F intdim a e.1 env).env i → y ∈ env i := by
      intro y hy
      split_ifs at hy
      · exact hy
      · exact iha _ _ _ hy
    generalize (if Itv.isEq e.1 a.val = true then (⟨a, env, false⟩ : Down K)
        else topDown R o F intdim a e.1 env) = r1 at h k1
    split_ifs at h
    · exact k1 _ h
    · exact k1 _ (ihb _ _ _ h)

theorem AExpr.refineCons_le (typ : ConsTyp K) (a : AExpr K) (env : ℕ → Itv K) (i : ℕ) (x : K)
    (h : x ∈ (a.refineCons R o F intdim typ env).env i) : x ∈ env i := by
  cases typ with
  | eq =>
    simp only [refineCons] at h
    split_ifs at h
    · exact h
    · exact topDown_le R o F intdim _ _ _ _ _ h
  | supeq =>
    simp only [refineCons] at h
    split_ifs at h
    · exact h
    · exact topDown_le R o F intdim _ _ _ _ _ h
  | sup =>
    simp only [refineCons] at h
    split_ifs at h
    · exact h
    · exact topDown_le R o F intdim _ _ _ _ _ h
  | eqmod m => exact h
  | diseq => exact h

theorem hc4Refine_le (l : List (AExpr K × ConsTyp K)) (env : ℕ → Itv K) (i : ℕ) (x : K)
    (h : x ∈ (hc4Refine R o F intdim l env).2.1 i) : x ∈ env i := by
  induction l generalizing env with
  | nil => exact h
  | cons p l ih =>
    obtain ⟨e, typ⟩ := p
    exact AExpr.refineCons_le R o F intdim _ _ _ _ _ (ih _ h)

theorem hc4Loop_le (k : ℕ) (l : List (AExpr K × ConsTyp K)) (env : ℕ → Itv K) (i : ℕ) (x : K)
    (h : x ∈ (hc4Loop R o F intdim k l env).1 i) : x ∈ env i := by
  induction k generalizing l env with
  | zero => exact h
  | succ k ih =>
    simp only [hc4Loop] at h
    split_ifs at h
    · exact hc4Refine_le R o F intdim _ _ _ _ h
    · exact hc4Refine_le R o F intdim _ _ _ _ (ih _ _ h)
    · exact hc4Refine_le R o F intdim _ _ _ _ h
    · exact hc4Refine_le R o F intdim _ _ _ _ h

end
end Apron
