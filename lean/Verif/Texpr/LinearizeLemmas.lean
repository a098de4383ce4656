import Verif.Texpr.Linearize
import Verif.Texpr.EvalLemmas

/-!
# Soundness of the linearisation of expression trees
-/

set_option autoImplicit false
set_option linter.unusedSectionVars false
set_option linter.ambiguousOpen false

namespace Apron
open Bound
variable {K : Type*} [LinearOrder K] [Field K] [IsStrictOrderedRing K]

namespace Itv

theorem mem_convex {i : Itv K} {a b c : K} (ha : a ∈ i) (hb : b ∈ i) (h1 : a ≤ c) (h2 : c ≤ b) : c ∈ i :=
  ⟨le_trans ((fin_le_fin _ _).2 (by linarith)) ha.1, le_trans ((fin_le_fin _ _).2 h2) hb.2⟩

theorem mem_enlarge (R : Rnd K) {i : Itv K} {b : Bound K} {a e c : K} (ha : a ∈ i) (hb : fin e ≤ b)
    (hc : |c| ≤ e) : a + c ∈ enlargeBound R i b := by
  rw [abs_le] at hc
  constructor
  · have := add_ge R ha.1 hb
    exact le_trans ((fin_le_fin _ _).2 (by linarith)) this
  · have := add_ge R ha.2 hb
    exact le_trans ((fin_le_fin _ _).2 (by linarith)) this

theorem magnitude_mul_ge (R : Rnd K) {i : Itv K} {a u : K} (ha : a ∈ i) (hu : 0 ≤ u) :
    fin (|a| * u) ≤ Bound.mul R (magnitude i) (fin u) :=
  mul_ge R (le_trans ((fin_le_fin _ _).2 (abs_nonneg a)) (le_magnitude ha)) (le_magnitude ha) hu (le_refl _)

end Itv

namespace ILinexpr

theorem tval_convex {l : List (ITerm K)} {x : ℕ → K} {r s μ : K} (hr : TVal l x r) (hs : TVal l x s)
    (h0 : 0 ≤ μ) (h1 : μ ≤ 1) : TVal l x ((1 - μ) * r + μ * s) := by
  induction l generalizing r s with
  | nil => simp only [TVal] at *; subst hr; subst hs; ring
  | cons t l ih =>
    obtain ⟨q, r', hq, hr', rfl⟩ := hr
    obtain ⟨q', s', hq', hs', rfl⟩ := hs
    refine ⟨(1 - μ) * q + μ * q', _, ?_, ih hr' hs', by ring⟩
    rcases le_total q q' with h | h
    · exact Itv.mem_convex hq hq' (by nlinarith) (by nlinarith)
    · exact Itv.mem_convex hq' hq (by nlinarith) (by nlinarith)

theorem val_convex {e : ILinexpr K} {x : ℕ → K} {a b c : K} (ha : e.Val x a) (hb : e.Val x b) (h1 : a ≤ c)
    (h2 : c ≤ b) : e.Val x c := by
  rcases eq_or_lt_of_le (h1.trans h2) with h | h
  · have : c = a := le_antisymm (h ▸ h2) h1
    rw [this]; exact ha
  · obtain ⟨q, r, hq, hr, rfl⟩ := ha
    obtain ⟨q', r', hq', hr', rfl⟩ := hb
    have hpos : 0 < (q' + r') - (q + r) := by linarith
    set μ := (c - (q + r)) / ((q' + r') - (q + r)) with hμ
    have h0 : 0 ≤ μ := div_nonneg (by linarith) hpos.le
    have h1' : μ ≤ 1 := by rw [hμ, div_le_one hpos]; linarith
    have hc : c = (q + r) + μ * ((q' + r') - (q + r)) := by
      rw [hμ, div_mul_cancel₀ _ hpos.ne']; ring
    refine ⟨(1 - μ) * q + μ * q', (1 - μ) * r + μ * r', ?_, tval_convex hr hr' h0 h1', by rw [hc]; ring⟩
    rcases le_total q q' with h | h
    · exact Itv.mem_convex hq hq' (by nlinarith) (by nlinarith)
    · exact Itv.mem_convex hq' hq (by nlinarith) (by nlinarith)

/-- changing the constant only -/
theorem val_cst {e : ILinexpr K} {i : Itv K} {b : Bool} {x : ℕ → K} {v w : K} (hv : e.Val x v)
    (h : ∀ q ∈ e.cst, q + (w - v) ∈ i) : (⟨i, b, e.terms⟩ : ILinexpr K).Val x w := by
  obtain ⟨q, r, hq, hr, rfl⟩ := hv
  exact ⟨_, r, h q hq, hr, by ring⟩

theorem val_const {i : Itv K} {x : ℕ → K} {v : K} : (const i).Val x v ↔ v ∈ i := by
  constructor
  · rintro ⟨q, r, hq, hr, rfl⟩
    simp only [const, TVal] at hr
    subst hr
    simpa [const] using hq
  · intro h; exact ⟨v, 0, h, rfl, by ring⟩

theorem flagsOk_nil {i : Itv K} {b : Bool} : (⟨i, b, []⟩ : ILinexpr K).FlagsOk := by
  intro t ht; simp at ht

/-- the terms after the addition of a relative error: all errors of the same sign can be chosen
together -/
theorem tval_round (R : Rnd K) {ulp : K} (hu : 0 ≤ ulp) {l : List (ITerm K)} {x : ℕ → K} {r : K}
    (hr : TVal l x r) : ∃ s, |r| ≤ s ∧ ∀ μ, |μ| ≤ 1 →
      TVal (l.map fun t => (⟨t.dim, false,
        Itv.enlargeBound R t.itv (Bound.mul R (Itv.magnitude t.itv) (fin ulp))⟩ : ITerm K)) x
        (r + μ * (ulp * s)) := by
  induction l generalizing r with
  | nil =>
    simp only [TVal] at hr
    subst hr
    exact ⟨0, by simp, fun μ _ => by simp [TVal]⟩
  | cons t l ih =>
    obtain ⟨q, r', hq, hr', rfl⟩ := hr
    obtain ⟨s, hs, h⟩ := ih hr'
    refine ⟨|q| * |x t.dim| + s, ?_, fun μ hμ => ?_⟩
    · calc |q * x t.dim + r'| ≤ |q * x t.dim| + |r'| := abs_add_le _ _
        _ ≤ _ := by rw [abs_mul]; linarith
    · refine ⟨q + μ * (ulp * |q|) * (if 0 ≤ x t.dim then 1 else -1), _, ?_, h μ hμ, ?_⟩
      · have he := Itv.magnitude_mul_ge R hq hu
        refine Itv.mem_enlarge R hq he ?_
        have hnn : 0 ≤ ulp * |q| := mul_nonneg hu (abs_nonneg _)
        have : |μ * (ulp * |q|) * (if 0 ≤ x t.dim then (1 : K) else -1)| = |μ| * (ulp * |q|) := by
          split_ifs <;> simp [abs_mul, abs_of_nonneg hu]
        rw [this]
        nlinarith
      · show _ = (q + μ * (ulp * |q|) * (if 0 ≤ x t.dim then (1 : K) else -1)) * x t.dim + _
        split_ifs with h0
        · rw [abs_of_nonneg h0]; ring
        · rw [abs_of_neg (not_le.1 h0)]; ring

/-- a relative and an absolute error -/
theorem val_roundFloatLin (R : Rnd K) {e : ILinexpr K} {x : ℕ → K} {v w ulp mn : K} (hu : 0 ≤ ulp)
    (hm : 0 ≤ mn) (hv : e.Val x v) (hw : |w - v| ≤ ulp * |v| + mn) : (roundFloatLin R e ulp mn).Val x w := by
  obtain ⟨q, r, hq, hr, rfl⟩ := hv
  obtain ⟨s, hs, h⟩ := tval_round R hu hr
  have hE : |w - (q + r)| ≤ (ulp * |q| + mn) + ulp * s := by
    have h1 : ulp * |q + r| ≤ ulp * (|q| + s) :=
      mul_le_mul_of_nonneg_left ((abs_add_le _ _).trans (by linarith)) hu
    linarith [h1, mul_add ulp |q| s]
  set E := (ulp * |q| + mn) + ulp * s with hEd
  have hE0 : 0 ≤ E := (abs_nonneg _).trans hE
  have hq0 : 0 ≤ ulp * |q| + mn := add_nonneg (mul_nonneg hu (abs_nonneg _)) hm
  obtain ⟨μ, hμ, hw'⟩ : ∃ μ, |μ| ≤ 1 ∧ w - (q + r) = μ * E := by
    rcases eq_or_lt_of_le hE0 with h0 | h0
    · refine ⟨0, by simp, ?_⟩
      rw [← h0] at hE
      have : w - (q + r) = 0 := abs_eq_zero.1 (le_antisymm hE (abs_nonneg _))
      rw [this]; ring
    · refine ⟨(w - (q + r)) / E, ?_, by field_simp⟩
      rw [abs_div, abs_of_pos h0, div_le_one h0]; exact hE
  refine ⟨q + μ * (ulp * |q| + mn), _, ?_, h μ hμ, ?_⟩
  · have h1 : fin (|q| * ulp + mn) ≤
        Bound.add R (Bound.mul R (Itv.magnitude e.cst) (fin ulp)) (fin mn) :=
      add_ge R (Itv.magnitude_mul_ge R hq hu) (le_refl _)
    refine Itv.mem_enlarge R hq h1 ?_
    rw [abs_mul, abs_of_nonneg hq0]
    calc |μ| * (ulp * |q| + mn) ≤ 1 * (ulp * |q| + mn) := mul_le_mul_of_nonneg_right hμ hq0
      _ = _ := by ring
  · have : w = (q + r) + μ * E := by linarith
    rw [this, hEd]; ring

theorem flagsOk_roundFloatLin (R : Rnd K) (e : ILinexpr K) (u m : K) : (roundFloatLin R e u m).FlagsOk := by
  intro t ht
  simp only [roundFloatLin, List.mem_map] at ht
  obtain ⟨s, _, rfl⟩ := ht
  intro h; simp at h

variable [FloorRing K]

theorem val_toIntLin (R : Rnd K) {S : FltSem K} {e : ILinexpr K} {i : Itv K} {x : ℕ → K} {v w : K} {d : RDir}
    (hv : e.Val x v) (hi : v ∈ i) (h : Rounds S .int d v w) : (toIntLin R e i d).Val x w := by
  have hfl := Int.floor_le v
  have hfl' := Int.lt_floor_add_one v
  have hcl := Int.le_ceil v
  have hcl' := Int.ceil_lt_add_one v
  have up1 : ∀ {b : Bound K} {q δ : K}, fin q ≤ b → δ ≤ 1 → fin (q + δ) ≤ Bound.addNat R b 1 := fun h1 h2 =>
    le_trans ((fin_le_fin _ _).2 (by linarith)) (fin_add_one_le_addNat (R := R) h1)
  have up0 : ∀ {b : Bound K} {q δ : K}, fin q ≤ b → δ ≤ 0 → fin (q + δ) ≤ b := fun h1 h2 =>
    le_trans ((fin_le_fin _ _).2 (by linarith)) h1
  cases d with
  | up =>
    simp only [Rounds] at h
    subst h
    refine val_cst hv fun q hq => ⟨?_, up1 hq.2 (by linarith)⟩
    rw [neg_add]; exact up0 hq.1 (by linarith)
  | down =>
    simp only [Rounds] at h
    subst h
    refine val_cst hv fun q hq => ⟨?_, up0 hq.2 (by linarith)⟩
    rw [neg_add]; exact up1 hq.1 (by linarith)
  | rnd =>
    simp only [Rounds] at h
    refine val_cst hv fun q hq => ⟨?_, ?_⟩
    · rw [neg_add]; exact up1 hq.1 (by rcases h with rfl | rfl <;> linarith)
    · exact up1 hq.2 (by rcases h with rfl | rfl <;> linarith)
  | zero =>
    simp only [Rounds] at h
    refine val_cst hv fun q hq => ⟨?_, ?_⟩
    · show fin (-(q + (w - v))) ≤ if 0 < sgn i.sup then Bound.addNat R e.cst.inf 1 else e.cst.inf
      rw [neg_add]
      split_ifs with h1
      · exact up1 hq.1 (by rw [h]; split_ifs <;> linarith)
      · refine up0 hq.1 ?_
        have : v ≤ 0 := Itv.nonpos_of_sup hi ((sgn_le_zero_iff _).1 (not_lt.1 h1))
        rcases eq_or_lt_of_le this with h0 | h0
        · rw [h, h0]; simp
        · rw [h, if_neg (not_le.2 h0)]; linarith
    · show fin (q + (w - v)) ≤ if 0 < sgn i.inf then Bound.addNat R e.cst.sup 1 else e.cst.sup
      split_ifs with h1
      · exact up1 hq.2 (by rw [h]; split_ifs <;> linarith)
      · refine up0 hq.2 ?_
        have : 0 ≤ v := Itv.nonneg_of_inf hi ((sgn_le_zero_iff _).1 (not_lt.1 h1))
        rw [h, if_pos this]; linarith
  | nearest =>
    obtain ⟨n, rfl, hn⟩ := h
    rw [abs_le] at hn
    refine val_cst hv fun q hq => Itv.mem_add R hq ⟨?_, ?_⟩
    · exact le_trans ((fin_le_fin _ _).2 (by linarith [hn.1])) (R.up_ge _)
    · exact le_trans ((fin_le_fin _ _).2 (by linarith [hn.2])) (R.up_ge _)

theorem terms_toIntLin (R : Rnd K) (e : ILinexpr K) (i : Itv K) (d : RDir) : (toIntLin R e i d).terms = e.terms := by
  cases d <;> rfl

end ILinexpr

namespace Texpr
open ILinexpr
variable [FloorRing K]

/-- dimensions of an expression are below `n` -/
def TermsIn (n : ℕ) (l : ILinexpr K) : Prop := ∀ t ∈ l.terms, t.dim < n

/-- `w` is a value of both components -/
structure Both (l : ILinexpr K) (i : Itv K) (x : ℕ → K) (w : K) : Prop where
  mem : w ∈ i
  val : l.Val x w

/-- invariant of the linearisation: both components contain the value `v`, and the type describes
it -/
structure LInv (S : FltSem K) (n : ℕ) (x : ℕ → K) (l : ILinexpr K) (i : Itv K) (t : RType) (v : K) : Prop where
  both : Both l i x v
  flags : l.FlagsOk
  dims : TermsIn n l
  int : t = .int → Both l i x ((⌊v⌋ : ℤ) : K) ∧ Both l i x ((⌈v⌉ : ℤ) : K)
  flt : t.isFlt = true → S.repr t v

theorem Both.convex {l : ILinexpr K} {i : Itv K} {x : ℕ → K} {a b c : K} (ha : Both l i x a) (hb : Both l i x b)
    (h1 : a ≤ c) (h2 : c ≤ b) : Both l i x c :=
  ⟨Itv.mem_convex ha.mem hb.mem h1 h2, val_convex ha.val hb.val h1 h2⟩

theorem both_const {i : Itv K} {x : ℕ → K} {v : K} (h : v ∈ i) : Both (ILinexpr.const i) i x v :=
  ⟨h, val_const.2 h⟩

theorem LInv.const {S : FltSem K} {n : ℕ} {x : ℕ → K} {i : Itv K} {t : RType} {v : K} (h : v ∈ i)
    (hi : t = .int → ((⌊v⌋ : ℤ) : K) ∈ i ∧ ((⌈v⌉ : ℤ) : K) ∈ i) (hf : t.isFlt = true → S.repr t v) :
    LInv S n x (ILinexpr.const i) i t v :=
  ⟨both_const h, flagsOk_nil, by intro t ht; simp [ILinexpr.const] at ht,
    fun ht => ⟨both_const (hi ht).1, both_const (hi ht).2⟩, hf⟩

theorem both_roundLin (R : Rnd K) {F : FltOps K} {S : FltSem K} (hF : FltOK F S) {n : ℕ} {x : ℕ → K}
    {l : ILinexpr K} {i : Itv K} {org dst : RType} {d : RDir} {v w : K} (h : LInv S n x l i org v)
    (hr : Rounds S dst d v w) : Both (roundLin R F l i org dst d).1 (roundLin R F l i org dst d).2 x w := by
  have flt : ∀ t : RType, t.isFlt = true → dst = t →
      Both (if org.sub t then (l, i) else (roundFloatLin R l (F.ulp t) (F.min t), round F t d i)).1
        (if org.sub t then (l, i) else (roundFloatLin R l (F.ulp t) (F.min t), round F t d i)).2 x w := by
    intro t ht he
    subst he
    have hr' := rounds_flt ht hr
    split_ifs with hs
    · have ho : org.isFlt = true := by cases org <;> cases dst <;> simp_all [RType.sub, RType.isFlt]
      rw [hF.exact _ _ _ _ _ hs (h.flt ho) hr']
      exact h.both
    · exact ⟨mem_round hF h.both.mem hr, val_roundFloatLin R (hF.ulp_nonneg _) (hF.min_nonneg _) h.both.val
        (hF.err _ _ _ _ ht hr')⟩
  cases dst with
  | real => simp only [Rounds] at hr; subst hr; exact h.both
  | int =>
    simp only [roundLin]
    split_ifs with ho
    · obtain ⟨m, rfl, hm⟩ := rounds_int hr
      rcases hm with rfl | rfl
      · exact (h.int ho).1
      · exact (h.int ho).2
    · exact ⟨mem_round hF h.both.mem hr, val_toIntLin R h.both.val h.both.mem hr⟩
  | single => exact flt _ rfl rfl
  | double => exact flt _ rfl rfl
  | extended => exact flt _ rfl rfl
  | quad => exact flt _ rfl rfl

theorem flags_roundLin (R : Rnd K) (F : FltOps K) {l : ILinexpr K} (i : Itv K) (org dst : RType) (d : RDir)
    (h : l.FlagsOk) : (roundLin R F l i org dst d).1.FlagsOk := by
  cases dst <;> simp only [roundLin] <;> (try split_ifs) <;> first
    | exact h
    | exact flagsOk_roundFloatLin R _ _ _
    | (intro t ht; rw [terms_toIntLin] at ht; exact h t ht)

theorem dims_roundLin (R : Rnd K) (F : FltOps K) {l : ILinexpr K} (i : Itv K) (org dst : RType) (d : RDir)
    : (roundLin R F l i org dst d).1.terms.map ITerm.dim = l.terms.map ITerm.dim := by
  cases dst <;> simp only [roundLin] <;> (try split_ifs) <;> first
    | rfl
    | (rw [terms_toIntLin])
    | simp [roundFloatLin]

theorem TermsIn.of_dims {n : ℕ} {l l' : ILinexpr K} (h : TermsIn n l)
    (he : l'.terms.map ITerm.dim = l.terms.map ITerm.dim) : TermsIn n l' := by
  intro t ht
  have h1 : t.dim ∈ l'.terms.map ITerm.dim := List.mem_map_of_mem ht
  rw [he] at h1
  obtain ⟨s, hs, hd⟩ := List.mem_map.1 h1
  rw [← hd]; exact h s hs

theorem both_reduceLin (R : Rnd K) {env : ℕ → Itv K} {n : ℕ} {x : ℕ → K} (hx : ∀ i, i < n → x i ∈ env i)
    {l : ILinexpr K} {i : Itv K} {v : K} (hf : l.FlagsOk) (hd : TermsIn n l) (h : Both l i x v) :
    Both (reduceLin R env l i).1 (reduceLin R env l i).2 x v := by
  have h1 : v ∈ Itv.meet i (l.eval R env) :=
    Itv.mem_meet.2 ⟨h.mem, ILinexpr.mem_eval R hf h.val fun t ht => hx _ (hd t ht)⟩
  have h2 : l.cst.isBottom = false := by
    obtain ⟨q, r, hq, _⟩ := h.val
    exact Itv.not_isBottom hq
  simp only [reduceLin, Itv.not_isBottom h1, h2, Bool.or_self, Bool.false_eq_true, if_false]
  split_ifs with ht
  · exact ⟨h1, (ILincons.val_nil (e := ⟨Itv.meet i (l.eval R env), (Itv.meet i (l.eval R env)).isPoint,
      l.terms⟩) ht).2 h1⟩
  · exact ⟨h1, h.val⟩

theorem terms_reduceLin (R : Rnd K) (env : ℕ → Itv K) (l : ILinexpr K) (i : Itv K) :
    (reduceLin R env l i).1.terms = [] ∨ (reduceLin R env l i).1.terms = l.terms := by
  simp only [reduceLin]
  split_ifs
  · exact .inl rfl
  · exact .inr rfl
  · exact .inr rfl

theorem finish_inv (R : Rnd K) {F : FltOps K} {S : FltSem K} (hF : FltOK F S) {env : ℕ → Itv K} {n : ℕ}
    {x : ℕ → K} (hx : ∀ i, i < n → x i ∈ env i)
    {l : ILinexpr K} {i : Itv K} {org dst : RType} {d : RDir} {v w : K} (h : LInv S n x l i org v)
    (hr : Rounds S dst d v w) :
    LInv S n x (finishLin R F env l i org dst d).1 (finishLin R F env l i org dst d).2.1
      (finishLin R F env l i org dst d).2.2 w := by
  have hf := flags_roundLin R F i org dst d h.flags
  have hd := h.dims.of_dims (dims_roundLin R F i org dst d)
  have hb := both_reduceLin R hx hf hd (both_roundLin R hF h hr)
  have ht := terms_reduceLin R env (roundLin R F l i org dst d).1 (roundLin R F l i org dst d).2
  refine ⟨hb, ?_, ?_, fun he => ?_, fun he => ?_⟩
  · intro t htm
    simp only [finishLin] at htm
    rcases ht with ht | ht
    · rw [ht] at htm; simp at htm
    · rw [ht] at htm; exact hf t htm
  · intro t htm
    simp only [finishLin] at htm
    rcases ht with ht | ht
    · rw [ht] at htm; simp at htm
    · rw [ht] at htm; exact hd t htm
  · simp only [finishLin] at he
    subst he
    obtain ⟨m, rfl, _⟩ := rounds_int hr
    simp only [Int.floor_intCast, Int.ceil_intCast]
    exact ⟨hb, hb⟩
  · simp only [finishLin] at he
    exact hF.repr_rnd _ _ _ _ he (rounds_flt he hr)

/-- a product is between the products of the roundings -/
theorem mul_corners {a b : K} : ∃ c ∈ [((⌊a⌋ : ℤ) : K) * (⌊b⌋ : ℤ), ((⌊a⌋ : ℤ) : K) * (⌈b⌉ : ℤ),
    ((⌈a⌉ : ℤ) : K) * (⌊b⌋ : ℤ), ((⌈a⌉ : ℤ) : K) * (⌈b⌉ : ℤ)], c ≤ a * b := by
  have ha := Int.floor_le a; have ha' := Int.le_ceil a
  have hb := Int.floor_le b; have hb' := Int.le_ceil b
  rcases le_total 0 b with h | h
  · rcases le_total 0 ((⌊a⌋ : ℤ) : K) with h1 | h1
    · exact ⟨_, by simp, (by nlinarith : ((⌊a⌋ : ℤ) : K) * (⌊b⌋ : ℤ) ≤ a * b)⟩
    · exact ⟨((⌊a⌋ : ℤ) : K) * (⌈b⌉ : ℤ), by simp, by nlinarith⟩
  · rcases le_total 0 ((⌈a⌉ : ℤ) : K) with h1 | h1
    · exact ⟨((⌈a⌉ : ℤ) : K) * (⌊b⌋ : ℤ), by simp, by nlinarith⟩
    · exact ⟨((⌈a⌉ : ℤ) : K) * (⌈b⌉ : ℤ), by simp, by nlinarith⟩

theorem mul_corners' {a b : K} : ∃ c ∈ [((⌊a⌋ : ℤ) : K) * (⌊b⌋ : ℤ), ((⌊a⌋ : ℤ) : K) * (⌈b⌉ : ℤ),
    ((⌈a⌉ : ℤ) : K) * (⌊b⌋ : ℤ), ((⌈a⌉ : ℤ) : K) * (⌈b⌉ : ℤ)], a * b ≤ c := by
  have ha := Int.floor_le a; have ha' := Int.le_ceil a
  have hb := Int.floor_le b; have hb' := Int.le_ceil b
  rcases le_total 0 b with h | h
  · rcases le_total 0 ((⌈a⌉ : ℤ) : K) with h1 | h1
    · exact ⟨((⌈a⌉ : ℤ) : K) * (⌈b⌉ : ℤ), by simp, by nlinarith⟩
    · exact ⟨((⌈a⌉ : ℤ) : K) * (⌊b⌋ : ℤ), by simp, by nlinarith⟩
  · rcases le_total 0 ((⌊a⌋ : ℤ) : K) with h1 | h1
    · exact ⟨((⌊a⌋ : ℤ) : K) * (⌈b⌉ : ℤ), by simp, by nlinarith⟩
    · exact ⟨((⌊a⌋ : ℤ) : K) * (⌊b⌋ : ℤ), by simp, by nlinarith⟩

/-- invariant of an exact operation: it is enough to handle all pairs of values -/
theorem inv_exact {S : FltSem K} {n : ℕ} {x : ℕ → K} {l la lb : ILinexpr K} {i ia ib : Itv K} {ta tb : RType}
    {a b : K} (f : K → K → K) (ha : LInv S n x la ia ta a) (hb : LInv S n x lb ib tb b) (hfl : l.FlagsOk)
    (hd : TermsIn n l) (h : ∀ a b, Both la ia x a → Both lb ib x b → Both l i x (f a b))
    (hc : ∃ c d : ℤ, (c : K) ≤ f a b ∧ f a b ≤ d ∧
      (∃ p ∈ [((⌊a⌋ : ℤ) : K), ((⌈a⌉ : ℤ) : K)], ∃ q ∈ [((⌊b⌋ : ℤ) : K), ((⌈b⌉ : ℤ) : K)], (c : K) = f p q) ∧
      (∃ p ∈ [((⌊a⌋ : ℤ) : K), ((⌈a⌉ : ℤ) : K)], ∃ q ∈ [((⌊b⌋ : ℤ) : K), ((⌈b⌉ : ℤ) : K)], (d : K) = f p q)) :
    LInv S n x l i (exactType ta tb) (f a b) := by
  refine ⟨h _ _ ha.both hb.both, hfl, hd, fun he => ?_, fun he => ?_⟩
  · have ht : ta = .int ∧ tb = .int := by
      simp only [exactType] at he
      by_contra hn
      rw [if_neg hn] at he
      cases he
    have key : ∀ p ∈ [((⌊a⌋ : ℤ) : K), ((⌈a⌉ : ℤ) : K)], ∀ q ∈ [((⌊b⌋ : ℤ) : K), ((⌈b⌉ : ℤ) : K)],
        Both l i x (f p q) := by
      intro p hp q hq
      refine h _ _ ?_ ?_
      · simp only [List.mem_cons, List.not_mem_nil, or_false] at hp
        rcases hp with rfl | rfl
        · exact (ha.int ht.1).1
        · exact (ha.int ht.1).2
      · simp only [List.mem_cons, List.not_mem_nil, or_false] at hq
        rcases hq with rfl | rfl
        · exact (hb.int ht.2).1
        · exact (hb.int ht.2).2
    obtain ⟨c, d, h1, h2, ⟨p, hp, q, hq, hc⟩, ⟨p', hp', q', hq', hd'⟩⟩ := hc
    have hc' : Both l i x (c : K) := hc ▸ key p hp q hq
    have hd'' : Both l i x (d : K) := hd' ▸ key p' hp' q' hq'
    have hcf : c ≤ ⌊f a b⌋ := Int.le_floor.2 h1
    have hcd : ⌈f a b⌉ ≤ d := Int.ceil_le.2 h2
    have hfc := Int.floor_le_ceil (f a b)
    exact ⟨hc'.convex hd'' (by exact_mod_cast hcf) (by exact_mod_cast hfc.trans hcd),
      hc'.convex hd'' (by exact_mod_cast hcf.trans hfc) (by exact_mod_cast hcd)⟩
  · exfalso
    simp only [exactType] at he
    split_ifs at he <;> simp [RType.isFlt] at he

/-- the interval tested for emptiness is not empty when the constraint holds -/
theorem satBound_nonempty {typ : ConsTyp K} {i old : Itv K} {v : K} (hv : v ∈ i) (hr : Lincons.Rel typ v)
    (hold : ∃ q, q ∈ old) : ∃ q, q ∈ satBound typ i old := by
  cases typ with
  | eq => exact ⟨v, Itv.mem_meet.2 ⟨hv, (Itv.mem_point _ _).2 hr⟩⟩
  | supeq =>
    have h : (0 : K) ≤ v := hr
    exact ⟨v, Itv.mem_meet.2 ⟨hv, by simpa using h, by simp⟩⟩
  | sup =>
    have h : (0 : K) < v := hr
    exact ⟨v, Itv.mem_meet.2 ⟨hv, by simpa using h.le, by simp⟩⟩
  | _ => exact hold

theorem val_mk_nil {c : Itv K} {b : Bool} {l : List (ITerm K)} (h : l.isEmpty = true) {x : ℕ → K} {v : K} :
    (⟨c, b, l⟩ : ILinexpr K).Val x v ↔ v ∈ c := ILincons.val_nil (e := ⟨c, b, l⟩) h

theorem both_neg {l : ILinexpr K} {i : Itv K} {x : ℕ → K} {v : K} (h : Both l i x v) :
    Both l.neg i.neg x (-v) := ⟨Itv.mem_neg h.mem, val_neg h.val⟩

/-- the operations for which the linearisation is sound: the modulo is not rounded but declared of
its type, so that only the real and the integer ones are handled; the same holds for powers, which
moreover are wrong on some half-bounded intervals -/
def LinSafe (R : Rnd K) (o : RootOps K) (F : FltOps K) (env : ℕ → Itv K) (intdim : ℕ) : Texpr K → Prop
  | .cst _ => True
  | .dim _ => True
  | .un _ _ _ a => LinSafe R o F env intdim a
  | .bin op t _ a b => LinSafe R o F env intdim a ∧ LinSafe R o F env intdim b ∧
      (op = .mod → t = .real ∨ t = .int) ∧
      (op = .pow → t = .real ∧ ∀ e0 : Bool, ∀ k : ℕ, (k : K) ∈ (intlin R o F env intdim true b).2.1 → k % 2 = 1 →
        (intlin R o F env intdim e0 a).2.1.inf ≠ pinf)

theorem termsIn_map {n : ℕ} {l : ILinexpr K} (h : TermsIn n l) {c : Itv K} {b : Bool} {f : ITerm K → ITerm K}
    (hf : ∀ t, (f t).dim = t.dim) : TermsIn n (⟨c, b, l.terms.map f⟩ : ILinexpr K) := by
  intro t ht
  simp only [List.mem_map] at ht
  obtain ⟨s, hs, rfl⟩ := ht
  rw [hf]; exact h s hs

theorem termsIn_nil {n : ℕ} {c : Itv K} {b : Bool} : TermsIn n (⟨c, b, []⟩ : ILinexpr K) := by
  intro t ht; simp at ht

theorem termsIn_neg {n : ℕ} {l : ILinexpr K} (h : TermsIn n l) : TermsIn n l.neg := termsIn_map h fun _ => rfl

theorem termsIn_scale (R : Rnd K) {n : ℕ} {l : ILinexpr K} (h : TermsIn n l) (c : Itv K) :
    TermsIn n (l.scale R c) := by
  simp only [ILinexpr.scale]
  split_ifs
  · exact termsIn_nil
  · exact termsIn_nil
  · exact termsIn_map h fun _ => rfl

theorem termsIn_div (R : Rnd K) {n : ℕ} {l : ILinexpr K} (h : TermsIn n l) (c : Itv K) :
    TermsIn n (l.div R c) := termsIn_map h fun _ => rfl

theorem termsIn_add (R : Rnd K) {n : ℕ} {l l' : ILinexpr K} (h : TermsIn n l) (h' : TermsIn n l') :
    TermsIn n (l.add R l') := by
  simp only [ILinexpr.add]
  split_ifs
  · exact termsIn_nil
  · intro t ht
    rcases merge_mem R _ ht with ht | ht | ⟨u, hu, w, _, rfl⟩
    · exact h t ht
    · exact h' t ht
    · exact h u hu

theorem hasIntBounds_mem {i : Itv K} (h : i.hasIntBounds = true) {v : K} (hv : v ∈ i) :
    ((⌊v⌋ : ℤ) : K) ∈ i ∧ ((⌈v⌉ : ℤ) : K) ∈ i := by
  have key : ∀ {b : Bound K}, Bound.cmp (Bound.trunc b) b = 0 → ∀ {w : K}, fin w ≤ b → fin ((⌈w⌉ : ℤ) : K) ≤ b := by
    intro b hb w hw
    cases b with
    | ninf => simp at hw
    | pinf => simp
    | fin q =>
      have hq : ∃ m : ℤ, q = m := by
        rw [cmp_eq_zero] at hb
        exact ⟨numTrunc q, by simpa [Bound.trunc] using hb.symm⟩
      obtain ⟨m, rfl⟩ := hq
      rw [fin_le_fin] at hw ⊢
      exact_mod_cast Int.ceil_le.2 hw
  simp only [Itv.hasIntBounds, Bool.and_eq_true, decide_eq_true_eq] at h
  have h1 := key h.1 hv.2
  have h2 := key h.2 hv.1
  rw [Int.ceil_neg, Int.cast_neg] at h2
  have hfc : ((⌊v⌋ : ℤ) : K) ≤ ((⌈v⌉ : ℤ) : K) := by exact_mod_cast Int.floor_le_ceil v
  exact ⟨⟨h2, le_trans ((fin_le_fin _ _).2 hfc) h1⟩, ⟨le_trans ((fin_le_fin _ _).2 (by linarith)) h2, h1⟩⟩

theorem LInv.real {S : FltSem K} {n : ℕ} {x : ℕ → K} {l : ILinexpr K} {i : Itv K} {v : K} (h : Both l i x v)
    (hf : l.FlagsOk) (hd : TermsIn n l) : LInv S n x l i .real v :=
  ⟨h, hf, hd, (fun h => by cases h), (fun h => by simp [RType.isFlt] at h)⟩

theorem un_inv (R : Rnd K) {o : RootOps K} (ho : o.SqrtOK) {F : FltOps K} {S : FltSem K} (hF : FltOK F S)
    {env : ℕ → Itv K} {n : ℕ} {x : ℕ → K} (hx : ∀ i, i < n → x i ∈ env i) {op : UnOp} {t : RType} {d : RDir}
    {p : ILinexpr K × Itv K × RType} {a w v : K} (h : LInv S n x p.1 p.2.1 p.2.2 a) (hw : op.Val a w)
    (hv : if op = .neg then v = w else Rounds S t d w v) :
    LInv S n x (unLin R o F env op t d p).1 (unLin R o F env op t d p).2.1 (unLin R o F env op t d p).2.2 v := by
  cases op with
  | neg =>
    simp only [if_true, UnOp.Val] at hv hw
    subst hv; subst hw
    refine ⟨both_neg h.both, flagsOk_neg h.flags, termsIn_neg h.dims, fun he => ?_, fun he => ?_⟩
    · have := h.int he
      rw [Int.floor_neg, Int.ceil_neg, Int.cast_neg, Int.cast_neg]
      exact ⟨both_neg this.2, both_neg this.1⟩
    · exact hF.repr_neg _ _ (h.flt he)
  | cast =>
    simp only [UnOp.Val] at hw
    subst hw
    exact finish_inv R hF hx h (by simpa using hv)
  | sqrt =>
    have hr : Rounds S t d w v := by simpa using hv
    have hm := mem_round hF (Itv.mem_sqrt o ho h.both.mem hw.1 hw.2) hr
    show LInv S n x (ILinexpr.const _) _ t v
    refine LInv.const hm (fun he => ?_) fun he => hF.repr_rnd _ _ _ _ he (rounds_flt he hr)
    subst he
    obtain ⟨m, rfl, _⟩ := rounds_int hr
    simp only [Int.floor_intCast, Int.ceil_intCast]
    exact ⟨hm, hm⟩

theorem bin_inv (R : Rnd K) {F : FltOps K} {S : FltSem K} (hF : FltOK F S)
    {env : ℕ → Itv K} {n : ℕ} {x : ℕ → K} (hx : ∀ i, i < n → x i ∈ env i) {op : BinOp} {t : RType} {d : RDir}
    {p q : ILinexpr K × Itv K × RType} {a b w v : K} (ha : LInv S n x p.1 p.2.1 p.2.2 a)
    (hb : LInv S n x q.1 q.2.1 q.2.2 b) (hw : op.Val t a b w) (hv : if op = .mod then v = w else Rounds S t d w v)
    (hm : op = .mod → t = .real ∨ t = .int)
    (hp : op = .pow → t = .real ∧ ∀ k : ℕ, (k : K) ∈ q.2.1 → k % 2 = 1 → p.2.1.inf ≠ pinf) :
    LInv S n x (binLin R F env op t d p q).1 (binLin R F env op t d p q).2.1 (binLin R F env op t d p q).2.2 v := by
  have h1 := Itv.not_isBottom ha.both.mem
  have h2 := Itv.not_isBottom hb.both.mem
  simp only [binLin, h1, h2, Bool.or_self, Bool.false_eq_true, if_false]
  cases op with
  | add =>
    simp only [BinOp.Val] at hw
    subst hw
    refine finish_inv R hF hx ?_ (by simpa using hv)
    refine inv_exact (fun a b => a + b) ha hb (flagsOk_add R ha.flags hb.flags) (termsIn_add R ha.dims hb.dims)
      (fun a b h h' => ⟨Itv.mem_add R h.mem h'.mem, val_add R h.val h'.val⟩) ?_
    exact ⟨⌊a⌋ + ⌊b⌋, ⌈a⌉ + ⌈b⌉, by push_cast; linarith [Int.floor_le a, Int.floor_le b],
      by push_cast; linarith [Int.le_ceil a, Int.le_ceil b],
      ⟨_, List.mem_cons_self, _, List.mem_cons_self, by push_cast; rfl⟩, ⟨((⌈a⌉ : ℤ) : K), by simp, ((⌈b⌉ : ℤ) : K), by simp,
        by push_cast; rfl⟩⟩
  | sub =>
    simp only [BinOp.Val] at hw
    subst hw
    refine finish_inv R hF hx ?_ (by simpa using hv)
    refine inv_exact (fun a b => a - b) ha hb (flagsOk_sub R ha.flags hb.flags)
      (termsIn_add R ha.dims (termsIn_neg hb.dims))
      (fun a b h h' => ⟨Itv.mem_sub R h.mem h'.mem, val_sub R h.val h'.val⟩) ?_
    exact ⟨⌊a⌋ - ⌈b⌉, ⌈a⌉ - ⌊b⌋, by push_cast; linarith [Int.floor_le a, Int.le_ceil b],
      by push_cast; linarith [Int.le_ceil a, Int.floor_le b],
      ⟨((⌊a⌋ : ℤ) : K), by simp, ((⌈b⌉ : ℤ) : K), by simp, by push_cast; rfl⟩,
      ⟨((⌈a⌉ : ℤ) : K), by simp, ((⌊b⌋ : ℤ) : K), by simp, by push_cast; rfl⟩⟩
  | mul =>
    simp only [BinOp.Val] at hw
    subst hw
    refine finish_inv R hF hx ?_ (by simpa using hv)
    have hcor : ∃ c d : ℤ, (c : K) ≤ a * b ∧ a * b ≤ d ∧
        (∃ p ∈ [((⌊a⌋ : ℤ) : K), ((⌈a⌉ : ℤ) : K)], ∃ q ∈ [((⌊b⌋ : ℤ) : K), ((⌈b⌉ : ℤ) : K)], (c : K) = p * q) ∧
        (∃ p ∈ [((⌊a⌋ : ℤ) : K), ((⌈a⌉ : ℤ) : K)], ∃ q ∈ [((⌊b⌋ : ℤ) : K), ((⌈b⌉ : ℤ) : K)], (d : K) = p * q) := by
      have conv : ∀ c ∈ [((⌊a⌋ : ℤ) : K) * (⌊b⌋ : ℤ), ((⌊a⌋ : ℤ) : K) * (⌈b⌉ : ℤ),
          ((⌈a⌉ : ℤ) : K) * (⌊b⌋ : ℤ), ((⌈a⌉ : ℤ) : K) * (⌈b⌉ : ℤ)], ∃ m : ℤ, c = m ∧
          ∃ p ∈ [((⌊a⌋ : ℤ) : K), ((⌈a⌉ : ℤ) : K)], ∃ q ∈ [((⌊b⌋ : ℤ) : K), ((⌈b⌉ : ℤ) : K)], (m : K) = p * q := by
        intro c hc
        simp only [List.mem_cons, List.not_mem_nil, or_false] at hc
        rcases hc with rfl | rfl | rfl | rfl
        · exact ⟨⌊a⌋ * ⌊b⌋, by push_cast; rfl, _, List.mem_cons_self, _, List.mem_cons_self, by push_cast; rfl⟩
        · exact ⟨⌊a⌋ * ⌈b⌉, by push_cast; rfl, _, List.mem_cons_self, ((⌈b⌉ : ℤ) : K), by simp, by push_cast; rfl⟩
        · exact ⟨⌈a⌉ * ⌊b⌋, by push_cast; rfl, ((⌈a⌉ : ℤ) : K), by simp, _, List.mem_cons_self, by push_cast; rfl⟩
        · exact ⟨⌈a⌉ * ⌈b⌉, by push_cast; rfl, ((⌈a⌉ : ℤ) : K), by simp, ((⌈b⌉ : ℤ) : K), by simp, by push_cast; rfl⟩
      obtain ⟨c, hc, hc'⟩ := mul_corners (a := a) (b := b)
      obtain ⟨e, he, he'⟩ := mul_corners' (a := a) (b := b)
      obtain ⟨m, rfl, hm⟩ := conv c hc
      obtain ⟨m', rfl, hm'⟩ := conv e he
      exact ⟨m, m', hc', he', hm, hm'⟩
    split_ifs with hcmp
    · exact inv_exact (fun a b => a * b) ha hb (flagsOk_scale R _ _) (termsIn_scale R ha.dims _)
        (fun a b h h' => ⟨Itv.mem_mul R h.mem h'.mem, val_scale R h.val h'.mem⟩) hcor
    · exact inv_exact (fun a b => a * b) ha hb (flagsOk_scale R _ _) (termsIn_scale R hb.dims _)
        (fun a b h h' => ⟨Itv.mem_mul R h.mem h'.mem, by
          show ILinexpr.Val _ x (a * b)
          rw [mul_comm]; exact val_scale R h'.val h.mem⟩) hcor
  | div =>
    obtain ⟨h0, rfl⟩ := hw
    exact finish_inv R hF hx (LInv.real ⟨Itv.mem_div R ha.both.mem hb.both.mem h0, val_div R ha.both.val hb.both.mem h0⟩
      (flagsOk_div R _ _) (termsIn_div R ha.dims _)) (by simpa using hv)
  | mod =>
    simp only [if_true] at hv
    subst hv
    have hmem : v ∈ Itv.mod R p.2.1 q.2.1 (decide (t = .int)) := by
      have := mem_evalBin (R := R) (S := S) hF (d := d) (v := v) ha.both.mem hb.both.mem hw (by simp) (by simp)
      simpa [evalBin] using this
    show LInv S n x (ILinexpr.const _) _ t v
    refine LInv.const hmem (fun he => ?_) (fun he => ?_)
    · obtain ⟨_, hint, rfl⟩ := hw
      obtain ⟨m, k, rfl, rfl⟩ := hint he
      have : ∃ z : ℤ, ((m : K) - |(k : K)| * (if 0 ≤ (m : K) / |(k : K)| then ((⌊(m : K) / |(k : K)|⌋ : ℤ) : K)
          else ((⌈(m : K) / |(k : K)|⌉ : ℤ) : K))) = z := by
        split_ifs
        · exact ⟨m - |k| * ⌊(m : K) / |(k : K)|⌋, by push_cast; rfl⟩
        · exact ⟨m - |k| * ⌈(m : K) / |(k : K)|⌉, by push_cast; rfl⟩
      obtain ⟨z, hz⟩ := this
      rw [hz] at hmem ⊢
      simp only [Int.floor_intCast, Int.ceil_intCast]
      exact ⟨hmem, hmem⟩
    · rcases hm rfl with rfl | rfl <;> simp [RType.isFlt] at he
  | pow =>
    obtain ⟨rfl, hp'⟩ := hp rfl
    simp only [reduceCtorEq, if_false, Rounds] at hv
    subst hv
    show LInv S n x (ILinexpr.const _) _ .real v
    exact LInv.const (mem_pow_any R ha.both.mem hb.both.mem hw hp') (by simp) (by simp [RType.isFlt])

theorem intlin_inv (R : Rnd K) {o : RootOps K} (ho : o.SqrtOK) {F : FltOps K} {S : FltSem K} (hF : FltOK F S)
    {env : ℕ → Itv K} {n intdim : ℕ} {x : ℕ → K} (hx : ∀ i, i < n → x i ∈ env i)
    (hint : ∀ i, i < intdim → ∃ m : ℤ, x i = m) {e : Texpr K} (hd : e.InDim n)
    (hs : e.LinSafe R o F env intdim) (e0 : Bool) {v : K} (hv : e.Val S x v) :
    LInv S n x (intlin R o F env intdim e0 e).1 (intlin R o F env intdim e0 e).2.1
      (intlin R o F env intdim e0 e).2.2 v := by
  induction e generalizing v e0 with
  | cst c =>
    have hm := Itv.mem_setApCoeff R hv
    simp only [intlin]
    refine LInv.const hm (fun he => ?_) (fun he => ?_)
    · split_ifs at he with hb
      exact hasIntBounds_mem hb hm
    · split_ifs at he <;> simp [RType.isFlt] at he
  | dim d =>
    simp only [Texpr.Val] at hv
    subst hv
    have hb : Both (⟨Itv.point 0, e0, [⟨d, true, Itv.point 1⟩]⟩ : ILinexpr K) (env d) x (x d) :=
      ⟨hx d hd, 0, x d, (Itv.mem_point _ _).2 rfl, ⟨1, 0, (Itv.mem_point _ _).2 rfl, rfl, by ring⟩, by ring⟩
    simp only [intlin]
    refine ⟨hb, ?_, ?_, fun he => ?_, fun he => ?_⟩
    · intro t ht
      simp only [List.mem_singleton] at ht
      subst ht
      intro _ q hq
      simp only [Itv.mem_point] at hq
      simp [hq]
    · intro t ht
      simp only [List.mem_singleton] at ht
      subst ht
      exact hd
    · split_ifs at he with hlt
      obtain ⟨m, hm⟩ := hint d hlt
      rw [hm] at hb ⊢
      simp only [Int.floor_intCast, Int.ceil_intCast]
      exact ⟨hb, hb⟩
    · split_ifs at he <;> simp [RType.isFlt] at he
  | un op t d a ih =>
    obtain ⟨va, w, ha, hw, hr⟩ := hv
    exact un_inv R ho hF hx (ih hd hs e0 ha) hw hr
  | bin op t d a b iha ihb =>
    obtain ⟨va, vb, w, ha, hb, hw, hr⟩ := hv
    have hA := fun e0 => iha hd.1 hs.1 e0 ha
    have hB := fun e0 => ihb hd.2 hs.2.1 e0 hb
    cases op with
    | add => exact bin_inv R hF hx (hA true) (hB e0) hw hr (by simp) (by simp)
    | sub => exact bin_inv R hF hx (hA true) (hB e0) hw hr (by simp) (by simp)
    | mul => exact bin_inv R hF hx (hA true) (hB e0) hw hr (by simp) (by simp)
    | div => exact bin_inv R hF hx (hA e0) (hB true) hw hr (by simp) (by simp)
    | mod => exact bin_inv R hF hx (hA e0) (hB true) hw hr hs.2.2.1 (by simp)
    | pow =>
      exact bin_inv R hF hx (hA e0) (hB true) hw hr (by simp) fun h => ⟨(hs.2.2.2 h).1, (hs.2.2.2 h).2 e0⟩

end Texpr
end Apron
