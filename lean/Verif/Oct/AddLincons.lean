import Verif.Oct.AddLemmas

/-! # Helper lemmas: `hmat_add_lincons` -/

set_option autoImplicit false
set_option linter.unusedSectionVars false
set_option linter.ambiguousOpen false

namespace Apron
namespace Oct
open Bound Finset
variable {K : Type*} [LinearOrder K] [Field K] [IsStrictOrderedRing K] (R : Rnd K)

/-! ### values of classified expressions -/

theorem InD.zero {dst : ℕ → Bound K} {j : ℕ} {c : K} (h : InD dst (2 * j + 2) c) (hz : ZeroAt dst j) :
    c = 0 := by
  unfold InD at h
  rw [hz.1, show 2 * j + 2 + 1 = 2 * j + 3 from rfl, hz.2] at h
  simp only [fin_le_fin] at h
  linarith [h.1, h.2]

theorem InD.unit {dst : ℕ → Bound K} {j : ℕ} {c : K} {k : ℤ} (h : InD dst (2 * j + 2) c)
    (hz : UnitAt dst j k) : c = k := by
  unfold InD at h
  rw [hz.2.1, show 2 * j + 2 + 1 = 2 * j + 3 from rfl, hz.2.2] at h
  simp only [fin_le_fin] at h
  linarith [h.1, h.2]

theorem inD_zero {dst : ℕ → Bound K} {j : ℕ} (hz : ZeroAt dst j) : InD dst (2 * j + 2) 0 := by
  unfold InD
  rw [hz.1, show 2 * j + 2 + 1 = 2 * j + 3 from rfl, hz.2]; simp

theorem inD_unit {dst : ℕ → Bound K} {j : ℕ} {k : ℤ} (hz : UnitAt dst j k) :
    InD dst (2 * j + 2) (k : K) := by
  unfold InD
  rw [hz.2.1, show 2 * j + 2 + 1 = 2 * j + 3 from rfl, hz.2.2]; simp

theorem V_signed (x : ℕ → K) (i : ℕ) {k : ℤ} (hk : k = 1 ∨ k = -1) : V x (signed i k) = k * x i := by
  unfold signed
  rcases hk with rfl | rfl
  · rw [if_pos rfl, V_even]; simp
  · rw [if_neg (by decide), V_odd]; simp

theorem signed_div (i : ℕ) (k : ℤ) : signed i k / 2 = i := by unfold signed; split_ifs <;> omega
theorem signed_lt {i dim : ℕ} (k : ℤ) (h : i < dim) : signed i k < 2 * dim := by
  unfold signed; split_ifs <;> omega

theorem formVal_zero {dim : ℕ} {dst : ℕ → Bound K} (h : ∀ j, ZeroAt dst j) {x : ℕ → K} {v : K} :
    FormVal dim dst x v ↔ InD dst 0 v := by
  constructor
  · rintro ⟨c0, c, h0, hc, rfl⟩
    rw [Finset.sum_eq_zero fun j hj => by rw [(hc j (mem_range.1 hj)).zero (h j), zero_mul], add_zero]
    exact h0
  · intro h0
    exact ⟨v, fun _ => 0, h0, fun j _ => inD_zero (h j), by simp⟩

theorem formVal_unary {dim : ℕ} {dst : ℕ → Bound K} {i : ℕ} {k : ℤ} (hi : i < dim)
    (hu : UnitAt dst i k) (h : ∀ j, j ≠ i → ZeroAt dst j) {x : ℕ → K} {v : K} :
    FormVal dim dst x v ↔ InD dst 0 (v - V x (signed i k)) := by
  rw [V_signed x i hu.1]
  constructor
  · rintro ⟨c0, c, h0, hc, rfl⟩
    rw [Finset.sum_eq_single i (fun j hj hji => by
      rw [(hc j (mem_range.1 hj)).zero (h j hji), zero_mul]) (fun hn => absurd (mem_range.2 hi) hn),
      (hc i hi).unit hu, add_sub_cancel_right]
    exact h0
  · intro h0
    refine ⟨_, Function.update (fun _ => 0) i (k : K), h0, fun j _ => ?_, ?_⟩
    · by_cases e : j = i
      · subst e; rw [Function.update_self]; exact inD_unit hu
      · rw [Function.update_of_ne e]; exact inD_zero (h j e)
    · rw [sum_update dim (fun _ => 0) x hi rfl]
      simp

theorem formVal_binary {dim : ℕ} {dst : ℕ → Bound K} {i i' : ℕ} {k k' : ℤ} (hi : i < dim) (hi' : i' < dim)
    (hne : i ≠ i') (hu : UnitAt dst i k) (hu' : UnitAt dst i' k')
    (h : ∀ j, j ≠ i → j ≠ i' → ZeroAt dst j) {x : ℕ → K} {v : K} :
    FormVal dim dst x v ↔ InD dst 0 (v - (V x (signed i k) + V x (signed i' k'))) := by
  rw [V_signed x i hu.1, V_signed x i' hu'.1]
  constructor
  · rintro ⟨c0, c, h0, hc, rfl⟩
    rw [Finset.sum_eq_add_of_mem i i' (mem_range.2 hi) (mem_range.2 hi') hne (fun j hj hji => by
      rw [(hc j (mem_range.1 hj)).zero (h j hji.1 hji.2), zero_mul]),
      (hc i hi).unit hu, (hc i' hi').unit hu', add_sub_cancel_right]
    exact h0
  · intro h0
    refine ⟨_, Function.update (Function.update (fun _ => 0) i (k : K)) i' (k' : K), h0, fun j _ => ?_, ?_⟩
    · by_cases e' : j = i'
      · subst e'; rw [Function.update_self]; exact inD_unit hu'
      · rw [Function.update_of_ne e']
        by_cases e : j = i
        · subst e; rw [Function.update_self]; exact inD_unit hu
        · rw [Function.update_of_ne e]; exact inD_zero (h j e e')
    · rw [sum_update dim _ x hi' (Function.update_of_ne hne.symm _ _),
        sum_update dim (fun _ => 0) x hi rfl]
      simp

/-! ### splitting `addOne` -/

/-- the constraint is on integer dimensions: every integer dimension of `x` has an integer value -/
def IntPt (intdim : ℕ) (x : ℕ → K) : Prop := ∀ j, j < intdim → ∃ n : ℤ, x j = n

section
variable [FloorRing K]

/-- `addOne` after the classification and the strict-to-large conversion -/
def addCore (dim : ℕ) (s : AddSt K) (u : UExpr) (dst : ℕ → Bound K) (typ : ConsTyp K) : Option (AddSt K) :=
  match u.type with
  | .empty => some s
  | .zero =>
    let ok := match typ with
      | .supeq => decide (0 ≤ sgn (dst 1))
      | .sup => decide (0 < sgn (dst 1))
      | _ => decide (0 ≤ sgn (dst 0)) && decide (0 ≤ sgn (dst 1))
    if ok then some s else none
  | .unary =>
    match flushIf R dim (decide (s.varPending ≠ u.i)) s with
    | none => none
    | some b =>
      let ui := signed u.i u.coefI
      let b := b.bmin (matpos ui (ui ^^^ 1)) (mul2 R (dst 1))
      let b := if isEqTyp typ then b.bmin (matpos (ui ^^^ 1) ui) (mul2 R (dst 0)) else b
      some ⟨b, u.i, true, s.respect, s.exact && !isSupTyp typ⟩
  | .binary =>
    match flushIf R dim (decide (s.varPending ≠ u.i) && decide (s.varPending ≠ u.j)) s with
    | none => none
    | some b =>
      let ui := signed u.i u.coefI
      let uj := signed u.j u.coefJ
      let b := b.bmin (matpos2 uj (ui ^^^ 1)) (dst 1)
      let b := if isEqTyp typ then b.bmin (matpos2 (uj ^^^ 1) ui) (dst 0) else b
      some ⟨b, if s.varPending = u.j then u.j else u.i, true, s.respect, s.exact && !isSupTyp typ⟩
  | .other => some ⟨addOther R dst dim (isEqTyp typ) s.b, s.varPending, s.pending, false, false⟩

/-- the constant after the conversion of `e > 0` into `e - 1 ≥ 0` -/
def strictDst (dst : ℕ → Bound K) : ℕ → Bound K :=
  Function.update (Function.update dst 0 (addNat R (dst 0) 1)) 1 (subNat R (dst 1) 1)

theorem addOne_eq (intdim dim : ℕ) (s : AddSt K) (c : Lincons K) :
    addOne R intdim dim s c = match c.typ with
      | .eqmod _ => some { s with exact := false }
      | .diseq => some { s with exact := false }
      | .eq => addCore R dim s (uexprOf R c.expr intdim).1 (uexprOf R c.expr intdim).2 .eq
      | .supeq => addCore R dim s (uexprOf R c.expr intdim).1 (uexprOf R c.expr intdim).2 .supeq
      | .sup => if (uexprOf R c.expr intdim).1.isInt then
          addCore R dim s (uexprOf R c.expr intdim).1 (strictDst R (uexprOf R c.expr intdim).2) .supeq
        else addCore R dim s (uexprOf R c.expr intdim).1 (uexprOf R c.expr intdim).2 .sup := by
  unfold addOne
  cases c.typ with
  | eqmod m => rfl
  | diseq => rfl
  | eq => simp only [isSupTyp, Bool.and_false, Bool.false_eq_true, if_false]; rfl
  | supeq => simp only [isSupTyp, Bool.and_false, Bool.false_eq_true, if_false]; rfl
  | sup =>
    simp only [isSupTyp, Bool.and_true]
    cases (uexprOf R c.expr intdim).1.isInt
    · simp only [Bool.false_eq_true, if_false]; rfl
    · simp only [if_true]; rfl

theorem strictDst_other (dst : ℕ → Bound K) {p : ℕ} (hp : 2 ≤ p) : strictDst R dst p = dst p := by
  unfold strictDst
  rw [Function.update_of_ne (by omega), Function.update_of_ne (by omega)]

theorem classOk_congr {P : ℕ → Prop} {u : UExpr} {dst dst' : ℕ → Bound K}
    (h : ∀ p, 2 ≤ p → dst' p = dst p) : ClassOk P u dst' ↔ ClassOk P u dst := by
  have hz : ∀ j, ZeroAt dst' j ↔ ZeroAt dst j := fun j => by
    unfold ZeroAt; rw [h _ (by omega), h _ (by omega)]
  have hu : ∀ j k, UnitAt dst' j k ↔ UnitAt dst j k := fun j k => by
    unfold UnitAt; rw [h _ (by omega), h _ (by omega)]
  unfold ClassOk
  simp only [hz, hu]

theorem formVal_strict {dim : ℕ} {dst : ℕ → Bound K} {x : ℕ → K} {v : K} (h : FormVal dim dst x v) :
    FormVal dim (strictDst R dst) x (v - 1) := by
  obtain ⟨c0, c, h0, hc, rfl⟩ := h
  refine ⟨c0 - 1, c, ?_, fun j hj => ?_, by ring⟩
  · unfold InD at *
    unfold strictDst
    rw [Function.update_of_ne (by omega), Function.update_self, Function.update_self]
    constructor
    · have := h0.1
      cases hd : dst 0 with
      | ninf => rw [hd] at this; simp at this
      | pinf => simp [addNat]
      | fin q =>
        rw [hd] at this; simp only [fin_le_fin] at this
        refine le_trans ?_ (R.up_ge _)
        rw [fin_le_fin]; push_cast; linarith
    · have := h0.2
      rw [zero_add] at this
      cases hd : dst 1 with
      | ninf => rw [hd] at this; simp at this
      | pinf => simp [subNat]
      | fin q =>
        rw [hd] at this; simp only [fin_le_fin] at this
        refine le_trans ?_ (R.up_ge _)
        rw [fin_le_fin]; push_cast; linarith
  · have := hc j hj
    unfold InD at *
    rwa [strictDst_other R dst (by omega), strictDst_other R dst (by omega)]

theorem formVal_strict_exact {dim : ℕ} {dst : ℕ → Bound K} {x : ℕ → K} {v : K}
    (h : FormVal dim (strictDst Rnd.exact dst) x v) : FormVal dim dst x (v + 1) := by
  obtain ⟨c0, c, h0, hc, rfl⟩ := h
  refine ⟨c0 + 1, c, ?_, fun j hj => ?_, by ring⟩
  · unfold InD at *
    unfold strictDst at h0
    rw [Function.update_of_ne (by omega), Function.update_self, Function.update_self] at h0
    rw [zero_add]
    constructor
    · have := h0.1
      cases hd : dst 0 with
      | ninf => rw [hd] at this; simp [addNat] at this
      | pinf => simp
      | fin q =>
        rw [hd] at this; simp only [addNat, Rnd.exact, fin_le_fin] at this ⊢
        push_cast at this; linarith
    · have := h0.2
      cases hd : dst 1 with
      | ninf => rw [hd] at this; simp [subNat] at this
      | pinf => simp
      | fin q =>
        rw [hd] at this; simp only [subNat, Rnd.exact, fin_le_fin] at this ⊢
        push_cast at this; linarith
  · have := hc j hj
    unfold InD at *
    rwa [strictDst_other _ dst (by omega), strictDst_other _ dst (by omega)] at this

/-! ### soundness -/

def PendOk (dim : ℕ) (s : AddSt K) : Prop := s.pending = true → s.varPending < dim

theorem flushIf_sat {dim : ℕ} {cond : Bool} {s : AddSt K} {x : ℕ → K} (hs : Sat dim s.b x)
    (hp : PendOk dim s) : ∃ b, flushIf R dim cond s = some b ∧ Sat dim b x := by
  unfold flushIf
  split_ifs with h
  · simp only [Bool.and_eq_true] at h
    obtain ⟨h1, h2⟩ := closeIncremental_sat R (hp h.1.2) hs
    rcases hcl : closeIncremental R dim s.b s.varPending with ⟨f, m⟩
    rw [hcl] at h1 h2
    simp only at h1 h2
    subst h1
    exact ⟨m, rfl, h2⟩
  · exact ⟨s.b, rfl, hs⟩

theorem flushIf_le {dim : ℕ} {cond : Bool} {s : AddSt K} {b : Mem K}
    (h : flushIf R dim cond s = some b) (q : ℕ) : b q ≤ s.b q := by
  unfold flushIf at h
  split_ifs at h with hc
  · have := closeIncremental_le R dim s.b s.varPending q
    rcases hcl : closeIncremental R dim s.b s.varPending with ⟨f, m⟩
    rw [hcl] at h this
    cases f with
    | true => simp at h
    | false => simp only [Option.some.injEq] at h; subst h; exact this
  · simp only [Option.some.injEq] at h; subst h; exact le_refl _

/-- types handled by `addCore` -/
def CoreTyp : ConsTyp K → Prop
  | .eq => True
  | .supeq => True
  | .sup => True
  | _ => False

theorem rel_nonneg {typ : ConsTyp K} (ht : CoreTyp typ) {v : K} (h : Lincons.Rel typ v) : 0 ≤ v := by
  cases typ with
  | eq => exact le_of_eq h.symm
  | supeq => exact h
  | sup => exact le_of_lt h
  | eqmod m => exact ht.elim
  | diseq => exact ht.elim

theorem rel_eq {typ : ConsTyp K} {v : K} (h : Lincons.Rel typ v) (he : isEqTyp typ = true) : v = 0 := by
  cases typ <;> simp [isEqTyp] at he
  exact h

theorem addCore_sat {dim : ℕ} {s : AddSt K} {u : UExpr} {dst : ℕ → Bound K} {typ : ConsTyp K}
    {x : ℕ → K} {v : K} (ht : CoreTyp typ) (hcl : ClassOk (fun i => i < dim) u dst)
    (hf : FormVal dim dst x v) (hv : Lincons.Rel typ v) (hs : Sat dim s.b x) (hp : PendOk dim s) :
    ∃ s', addCore R dim s u dst typ = some s' ∧ Sat dim s'.b x ∧ PendOk dim s' := by
  have hv0 := rel_nonneg ht hv
  unfold ClassOk at hcl
  unfold addCore
  cases hty : u.type with
  | empty => exact ⟨s, rfl, hs, hp⟩
  | zero =>
    simp only [hty] at hcl ⊢
    rw [formVal_zero hcl] at hf
    obtain ⟨h0, h1⟩ := hf
    rw [zero_add] at h1
    rw [if_pos]
    · exact ⟨s, rfl, hs, hp⟩
    · cases typ with
      | eq =>
        simp only [Bool.and_eq_true, decide_eq_true_eq, sgn_nonneg_iff]
        rw [show v = 0 from hv] at h0 h1
        simp only [neg_zero] at h0
        exact ⟨h0, h1⟩
      | supeq =>
        simp only [decide_eq_true_eq, sgn_nonneg_iff]
        exact le_trans (by rw [fin_le_fin]; exact hv) h1
      | sup =>
        simp only [decide_eq_true_eq, sgn_pos_iff]
        exact lt_of_lt_of_le (by rw [fin_lt_fin]; exact hv) h1
      | eqmod m => exact ht.elim
      | diseq => exact ht.elim
  | unary =>
    simp only [hty] at hcl ⊢
    obtain ⟨hi, hu, hz⟩ := hcl
    rw [formVal_unary hi hu hz] at hf
    obtain ⟨h0, h1⟩ := hf
    rw [zero_add] at h1
    obtain ⟨b, hb, hbs⟩ := flushIf_sat R (cond := decide (s.varPending ≠ u.i)) hs hp
    rw [hb]
    refine ⟨_, rfl, ?_, fun _ => hi⟩
    have hb1 : Sat dim (b.bmin (matpos (signed u.i u.coefI) (signed u.i u.coefI ^^^ 1)) (mul2 R (dst 1))) x := by
      refine hbs.bmin (cell_self_xor _) (le_trans ?_ (mul2_ge R h1))
      rw [V_xor1, fin_le_fin]; linarith
    cases he : isEqTyp typ with
    | false => simpa using hb1
    | true =>
      have := rel_eq hv he
      simp only [if_true]
      refine hb1.bmin (cell_xor_self _) (le_trans ?_ (mul2_ge R h0))
      rw [V_xor1, fin_le_fin]; linarith
  | binary =>
    simp only [hty] at hcl ⊢
    obtain ⟨hi, hj, hij, hu, hu', hz⟩ := hcl
    rw [formVal_binary hi hj (by omega) hu hu' hz] at hf
    obtain ⟨h0, h1⟩ := hf
    rw [zero_add] at h1
    obtain ⟨b, hb, hbs⟩ := flushIf_sat R
      (cond := decide (s.varPending ≠ u.i) && decide (s.varPending ≠ u.j)) hs hp
    rw [hb]
    refine ⟨_, rfl, ?_, fun _ => ?_⟩
    · have hb1 : Sat dim (b.bmin (matpos2 (signed u.j u.coefJ) (signed u.i u.coefI ^^^ 1)) (dst 1)) x := by
        refine hbs.bmin2 (le_trans ?_ h1)
        rw [V_xor1, fin_le_fin]; linarith
      cases he : isEqTyp typ with
      | false => simpa using hb1
      | true =>
        have := rel_eq hv he
        simp only [if_true]
        refine hb1.bmin2 (le_trans ?_ h0)
        rw [V_xor1, fin_le_fin]; linarith
    · simp only; split_ifs <;> assumption
  | other =>
    exact ⟨_, rfl, addOther_sat R hs hf hv0 (rel_eq hv), hp⟩

/-- adding one constraint keeps the points that satisfy it -/
theorem addOne_sat {intdim dim : ℕ} {s : AddSt K} {c : Lincons K} {x : ℕ → K} (he : c.expr.InDim dim)
    (hx : IntPt intdim x) (hR : c.typ = .sup → Repr R c.expr) (hc : c.Holds x) (hs : Sat dim s.b x)
    (hp : PendOk dim s) :
    ∃ s', addOne R intdim dim s c = some s' ∧ Sat dim s'.b x ∧ PendOk dim s' := by
  obtain ⟨v, hv, hr⟩ := hc
  have hf := val_form R (intdim := intdim) he hv
  have hcl := uexpr_class R he intdim
  rw [addOne_eq]
  cases ht : c.typ with
  | eqmod m => exact ⟨_, rfl, hs, hp⟩
  | diseq => exact ⟨_, rfl, hs, hp⟩
  | eq => rw [ht] at hr; exact addCore_sat R trivial hcl hf hr hs hp
  | supeq => rw [ht] at hr; exact addCore_sat R trivial hcl hf hr hs hp
  | sup =>
    rw [ht] at hr
    simp only
    split_ifs with hi
    · obtain ⟨n, hn⟩ := uexpr_isInt R (hR ht) hi hx hv
      refine addCore_sat R trivial ((classOk_congr fun p hp => strictDst_other R _ hp).2 hcl)
        (formVal_strict R hf) ?_ hs hp
      change 0 ≤ v - 1
      have h0 : (0 : K) < n := by rw [← hn]; exact hr
      have h1 : (1 : K) ≤ n := by exact_mod_cast (Int.cast_pos.1 h0)
      rw [hn]; linarith
    · exact addCore_sat R trivial hcl hf hr hs hp

theorem addLoop_sat {intdim dim : ℕ} {x : ℕ → K} (hx : IntPt intdim x) (l : List (Lincons K)) :
    ∀ (s : AddSt K), (∀ c ∈ l, c.expr.InDim dim) → (∀ c ∈ l, c.typ = .sup → Repr R c.expr) →
      (∀ c ∈ l, c.Holds x) → Sat dim s.b x → PendOk dim s →
      ∃ s', addLoop R intdim dim l s = some s' ∧ Sat dim s'.b x ∧ PendOk dim s' := by
  induction l with
  | nil => intro s _ _ _ hs hp; exact ⟨s, rfl, hs, hp⟩
  | cons c l ih =>
    intro s he hR hc hs hp
    obtain ⟨s', h1, h2, h3⟩ := addOne_sat R (he c (by simp)) hx (hR c (by simp)) (hc c (by simp)) hs hp
    obtain ⟨s'', h4, h5, h6⟩ := ih s' (fun c h => he c (by simp [h])) (fun c h => hR c (by simp [h]))
      (fun c h => hc c (by simp [h])) h2 h3
    refine ⟨s'', ?_, h5, h6⟩
    unfold addLoop; rw [h1]; exact h4

theorem addLincons_sat {intdim dim : ℕ} {x : ℕ → K} (hx : IntPt intdim x) {l : List (Lincons K)}
    {b : Mem K} {respect : Bool} (he : ∀ c ∈ l, c.expr.InDim dim)
    (hR : ∀ c ∈ l, c.typ = .sup → Repr R c.expr) (hc : ∀ c ∈ l, c.Holds x) (hb : Sat dim b x) :
    ∃ r, addLincons R intdim dim b l respect = some r ∧ Sat dim r.1 x := by
  obtain ⟨s, h1, h2, h3⟩ := addLoop_sat R hx l ⟨b, 0, false, respect, true⟩ he hR hc hb
    (fun h => by simp at h)
  obtain ⟨b', h4, h5⟩ := flushIf_sat R (cond := true) h2 h3
  refine ⟨(b', s.exact, s.respect), ?_, h5⟩
  unfold addLincons; rw [h1]; simp only; rw [h4]

/-! ### the result is included in the argument -/

theorem otherHalf_le (dst : ℕ → Bound K) (dim : ℕ) (acc : Acc K) (b : Mem K) (q : ℕ) :
    otherHalf R dst dim acc b q ≤ b q := by
  unfold otherHalf
  split_ifs
  · exact le_refl _
  · unfold otherQuad
    refine foldl_inv (fun b' => b' q ≤ b q) _ _ (fun b' j _ h => ?_) b (le_refl _)
    cases pick dst b' j with
    | none => exact h
    | some p =>
      refine foldl_inv (fun b' => b' q ≤ b q) _ _ (fun b' j _ h => ?_) b' h
      cases pick dst b' j with
      | none => exact h
      | some p => exact le_trans (bmin_le _ _ _ _) h
  · unfold otherLin
    cases unitIdx dst acc.j1 with
    | none => exact le_refl _
    | some uj =>
      refine foldl_inv (fun b' => b' q ≤ b q) _ _ (fun b' j _ h => ?_) b (le_refl _)
      split_ifs
      · exact h
      · cases pick dst b' j with
        | none => exact h
        | some p => exact le_trans (bmin_le _ _ _ _) h
  · unfold otherOne
    cases unitIdx dst acc.j1 with
    | none => exact le_refl _
    | some ui =>
      cases unitIdx dst acc.j2 with
      | none => exact le_refl _
      | some uj => exact bmin_le _ _ _ _
  · exact le_refl _

theorem addOther_le (dst : ℕ → Bound K) (dim : ℕ) (isEq : Bool) (b : Mem K) (q : ℕ) :
    addOther R dst dim isEq b q ≤ b q := by
  unfold addOther
  split_ifs
  · exact le_trans (otherHalf_le R _ _ _ _ q) (otherHalf_le R _ _ _ _ q)
  · exact otherHalf_le R _ _ _ _ q

theorem addCore_le {dim : ℕ} {s s' : AddSt K} {u : UExpr} {dst : ℕ → Bound K} {typ : ConsTyp K}
    (h : addCore R dim s u dst typ = some s') (q : ℕ) : s'.b q ≤ s.b q := by
  unfold addCore at h
  cases hty : u.type with
  | empty => simp only [hty, Option.some.injEq] at h; subst h; exact le_refl _
  | zero =>
    simp only [hty] at h
    split_ifs at h
    · simp only [Option.some.injEq] at h; subst h; exact le_refl _
  | unary =>
    simp only [hty] at h
    cases hb : flushIf R dim (decide (s.varPending ≠ u.i)) s with
    | none => rw [hb] at h; simp at h
    | some b =>
      rw [hb] at h
      simp only [Option.some.injEq] at h
      subst h
      simp only
      refine le_trans ?_ (flushIf_le R hb q)
      split_ifs
      · exact le_trans (bmin_le _ _ _ _) (bmin_le _ _ _ _)
      · exact bmin_le _ _ _ _
  | binary =>
    simp only [hty] at h
    cases hb : flushIf R dim (decide (s.varPending ≠ u.i) && decide (s.varPending ≠ u.j)) s with
    | none => rw [hb] at h; simp at h
    | some b =>
      rw [hb] at h
      simp only [Option.some.injEq] at h
      subst h
      simp only
      refine le_trans ?_ (flushIf_le R hb q)
      split_ifs
      · exact le_trans (bmin_le _ _ _ _) (bmin_le _ _ _ _)
      · exact bmin_le _ _ _ _
  | other =>
    simp only [hty, Option.some.injEq] at h; subst h
    exact addOther_le R _ _ _ _ _

theorem addOne_le {intdim dim : ℕ} {s s' : AddSt K} {c : Lincons K}
    (h : addOne R intdim dim s c = some s') (q : ℕ) : s'.b q ≤ s.b q := by
  rw [addOne_eq] at h
  cases ht : c.typ with
  | eqmod m => simp only [ht, Option.some.injEq] at h; subst h; exact le_refl _
  | diseq => simp only [ht, Option.some.injEq] at h; subst h; exact le_refl _
  | eq => simp only [ht] at h; exact addCore_le R h q
  | supeq => simp only [ht] at h; exact addCore_le R h q
  | sup => simp only [ht] at h; split_ifs at h <;> exact addCore_le R h q

theorem addLoop_le {intdim dim : ℕ} (l : List (Lincons K)) (q : ℕ) :
    ∀ (s s' : AddSt K), addLoop R intdim dim l s = some s' → s'.b q ≤ s.b q := by
  induction l with
  | nil => intro s s' h; simp only [addLoop, Option.some.injEq] at h; subst h; exact le_refl _
  | cons c l ih =>
    intro s s' h
    unfold addLoop at h
    cases h1 : addOne R intdim dim s c with
    | none => rw [h1] at h; simp at h
    | some s1 => rw [h1] at h; exact le_trans (ih s1 s' h) (addOne_le R h1 q)

theorem addLincons_le {intdim dim : ℕ} {l : List (Lincons K)} {b : Mem K} {respect : Bool}
    {r : Mem K × Bool × Bool} (h : addLincons R intdim dim b l respect = some r) (q : ℕ) : r.1 q ≤ b q := by
  unfold addLincons at h
  cases h1 : addLoop R intdim dim l ⟨b, 0, false, respect, true⟩ with
  | none => rw [h1] at h; simp at h
  | some s =>
    rw [h1] at h
    simp only at h
    cases h2 : flushIf R dim true s with
    | none => rw [h2] at h; simp at h
    | some b' =>
      rw [h2] at h
      simp only [Option.some.injEq] at h
      subst h
      exact le_trans (flushIf_le R h2 q) (addLoop_le R l q _ _ h1)

theorem Sat.of_le {dim : ℕ} {m m' : Mem K} {x : ℕ → K} (h : Sat dim m x) (hle : ∀ q, m q ≤ m' q) :
    Sat dim m' x := h.mono fun _ _ _ _ => hle _

/-! ### exactness -/

theorem sat_bmin2_le {dim : ℕ} {m : Mem K} {x : ℕ → K} {i j : ℕ} {v : Bound K} (hi : i < 2 * dim)
    (hj : j < 2 * dim) (h : Sat dim (m.bmin (matpos2 i j) v) x) : fin (V x j - V x i) ≤ v :=
  le_trans (h.le2 hi hj) (bmin_self_le _ _ _)

theorem le_mul2_exact {b : Bound K} {q : K} (h : fin (2 * q) ≤ mul2 Rnd.exact b) : fin q ≤ b := by
  cases b with
  | ninf => simp [mul2] at h
  | pinf => simp
  | fin p => simp only [mul2, Rnd.exact, fin_le_fin] at h ⊢; linarith

theorem inD_max {dst : ℕ → Bound K} {q p : K} (h : InD dst 0 q) (hp : fin p ≤ dst 1) :
    InD dst 0 (max q p) := by
  unfold InD at *
  rw [zero_add] at *
  refine ⟨le_trans ?_ h.1, ?_⟩
  · rw [fin_le_fin]; exact neg_le_neg (le_max_left _ _)
  · rcases max_cases q p with ⟨e, -⟩ | ⟨e, -⟩ <;> rw [e]
    · exact h.2
    · exact hp

theorem addCore_exact {dim : ℕ} {s s' : AddSt K} {u : UExpr} {dst : ℕ → Bound K} {typ : ConsTyp K}
    {x : ℕ → K} {q : K} (ht : CoreTyp typ) (hcl : ClassOk (fun i => i < dim) u dst)
    (hne : u.type ≠ .empty) (hq : InD dst 0 q)
    (h : addCore Rnd.exact dim s u dst typ = some s') (hex : s'.exact = true) (hs : Sat dim s'.b x) :
    s.exact = true ∧ ∃ v, FormVal dim dst x v ∧ Lincons.Rel typ v := by
  unfold ClassOk at hcl
  unfold addCore at h
  cases hty : u.type with
  | empty => exact absurd hty hne
  | zero =>
    simp only [hty] at hcl h
    split_ifs at h with hok
    simp only [Option.some.injEq] at h; subst h
    refine ⟨hex, ?_⟩
    simp only [formVal_zero hcl]
    cases typ with
    | eq =>
      simp only [Bool.and_eq_true, decide_eq_true_eq, sgn_nonneg_iff] at hok
      exact ⟨0, ⟨by simpa using hok.1, hok.2⟩, rfl⟩
    | supeq =>
      simp only [decide_eq_true_eq, sgn_nonneg_iff] at hok
      exact ⟨_, inD_max hq hok, le_max_right _ _⟩
    | sup =>
      simp only [decide_eq_true_eq, sgn_pos_iff] at hok
      have hmk : ∃ p, 0 < p ∧ fin p ≤ dst 1 := by
        cases hd : dst 1 with
        | ninf => rw [hd] at hok; simp at hok
        | pinf => exact ⟨1, one_pos, by simp⟩
        | fin p => rw [hd] at hok; exact ⟨p, by simpa using hok, le_refl _⟩
      obtain ⟨p, hp0, hp⟩ := hmk
      exact ⟨_, inD_max hq hp, lt_of_lt_of_le hp0 (le_max_right _ _)⟩
    | eqmod m => exact ht.elim
    | diseq => exact ht.elim
  | unary =>
    simp only [hty] at hcl h
    obtain ⟨hi, hu, hz⟩ := hcl
    simp only [formVal_unary hi hu hz]
    have hl := signed_lt u.coefI hi
    generalize signed u.i u.coefI = ui at *
    cases hb : flushIf Rnd.exact dim (decide (s.varPending ≠ u.i)) s with
    | none => rw [hb] at h; simp at h
    | some b =>
      rw [hb] at h
      simp only [Option.some.injEq] at h
      subst h
      simp only [Bool.and_eq_true] at hex
      refine ⟨hex.1, ?_⟩
      simp only at hs
      rw [← matpos2_cell (cell_self_xor _), ← matpos2_cell (cell_xor_self _)] at hs
      have hb1 : Sat dim (b.bmin (matpos2 ui (ui ^^^ 1)) (mul2 Rnd.exact (dst 1))) x := by
        split_ifs at hs
        · exact hs.of_le (bmin_le _ _ _)
        · exact hs
      have h1 := sat_bmin2_le hl (xor1_lt hl) hb1
      rw [V_xor1, show -V x ui - V x ui = 2 * -V x ui by ring] at h1
      have h1 := le_mul2_exact h1
      cases typ with
      | eq =>
        simp only [isEqTyp, if_true] at hs
        have h2 := sat_bmin2_le (xor1_lt hl) hl hs
        rw [V_xor1, show V x ui - -V x ui = 2 * V x ui by ring] at h2
        have h2 := le_mul2_exact h2
        exact ⟨0, ⟨by simpa using h2, by simpa using h1⟩, rfl⟩
      | supeq =>
        refine ⟨max q (-V x ui) + V x ui, ?_, ?_⟩
        · rw [add_sub_cancel_right]; exact inD_max hq h1
        · change 0 ≤ _
          linarith [le_max_right q (-V x ui)]
      | sup => simp [isSupTyp] at hex
      | eqmod m => exact ht.elim
      | diseq => exact ht.elim
  | binary =>
    simp only [hty] at hcl h
    obtain ⟨hi, hj, hij, hu, hu', hz⟩ := hcl
    simp only [formVal_binary hi hj (by omega) hu hu' hz]
    have hl := signed_lt u.coefI hi
    have hl' := signed_lt u.coefJ hj
    generalize signed u.i u.coefI = ui at *
    generalize signed u.j u.coefJ = uj at *
    cases hb : flushIf Rnd.exact dim (decide (s.varPending ≠ u.i) && decide (s.varPending ≠ u.j)) s with
    | none => rw [hb] at h; simp at h
    | some b =>
      rw [hb] at h
      simp only [Option.some.injEq] at h
      subst h
      simp only [Bool.and_eq_true] at hex
      refine ⟨hex.1, ?_⟩
      simp only at hs
      have hb1 : Sat dim (b.bmin (matpos2 uj (ui ^^^ 1)) (dst 1)) x := by
        split_ifs at hs
        · exact hs.of_le (bmin_le _ _ _)
        · exact hs
      have h1 := sat_bmin2_le hl' (xor1_lt hl) hb1
      rw [V_xor1, show -V x ui - V x uj = -(V x ui + V x uj) by ring] at h1
      cases typ with
      | eq =>
        simp only [isEqTyp, if_true] at hs
        have h2 := sat_bmin2_le (xor1_lt hl') hl hs
        rw [V_xor1, show V x ui - -V x uj = V x ui + V x uj by ring] at h2
        exact ⟨0, ⟨by rw [zero_sub, _root_.neg_neg]; exact h2, by rw [zero_sub]; exact h1⟩, rfl⟩
      | supeq =>
        refine ⟨max q (-(V x ui + V x uj)) + (V x ui + V x uj), ?_, ?_⟩
        · rw [add_sub_cancel_right]; exact inD_max hq h1
        · change 0 ≤ _
          linarith [le_max_right q (-(V x ui + V x uj))]
      | sup => simp [isSupTyp] at hex
      | eqmod m => exact ht.elim
      | diseq => exact ht.elim
  | other =>
    simp only [hty, Option.some.injEq] at h; subst h
    simp at hex

theorem addOne_exact {intdim dim : ℕ} {s s' : AddSt K} {c : Lincons K} {x : ℕ → K}
    (he : c.expr.InDim dim) (hv : ∃ v, c.expr.Val x v)
    (h : addOne Rnd.exact intdim dim s c = some s') (hex : s'.exact = true) (hs : Sat dim s'.b x) :
    s.exact = true ∧ c.Holds x := by
  obtain ⟨v0, hv0⟩ := hv
  have hne : (uexprOf Rnd.exact c.expr intdim).1.type ≠ .empty := fun e => uexpr_empty _ e x v0 hv0
  obtain ⟨q, -, hq, -, -⟩ := val_form Rnd.exact (intdim := intdim) he hv0
  have hcl := uexpr_class Rnd.exact he intdim
  have fin' : ∀ typ, c.typ = typ → (s.exact = true ∧
      ∃ v, FormVal dim (uexprOf Rnd.exact c.expr intdim).2 x v ∧ Lincons.Rel typ v) →
      s.exact = true ∧ c.Holds x := by
    rintro typ ht ⟨h1, v, h2, h3⟩
    exact ⟨h1, v, form_val he h2, by rw [ht]; exact h3⟩
  rw [addOne_eq] at h
  cases ht : c.typ with
  | eqmod m => simp only [ht, Option.some.injEq] at h; subst h; simp at hex
  | diseq => simp only [ht, Option.some.injEq] at h; subst h; simp at hex
  | eq => simp only [ht] at h; exact fin' _ ht (addCore_exact trivial hcl hne hq h hex hs)
  | supeq => simp only [ht] at h; exact fin' _ ht (addCore_exact trivial hcl hne hq h hex hs)
  | sup =>
    simp only [ht] at h
    split_ifs at h
    · have hq' : InD (strictDst Rnd.exact (uexprOf Rnd.exact c.expr intdim).2) 0 (q - 1) := by
        have : FormVal 0 (uexprOf Rnd.exact c.expr intdim).2 x q := ⟨q, fun _ => 0, hq, by simp, by simp⟩
        obtain ⟨c0, c', h1, _, h2⟩ := formVal_strict Rnd.exact this
        simp only [Finset.range_zero, Finset.sum_empty, add_zero] at h2
        rwa [h2]
      obtain ⟨h1, v, h2, h3⟩ := addCore_exact (typ := .supeq) trivial
        ((classOk_congr fun p hp => strictDst_other _ _ hp).2 hcl) hne hq' h hex hs
      refine fin' _ ht ⟨h1, v + 1, formVal_strict_exact h2, ?_⟩
      have h3 : 0 ≤ v := h3
      change 0 < v + 1
      linarith
    · exact fin' _ ht (addCore_exact trivial hcl hne hq h hex hs)

theorem addLoop_exact {intdim dim : ℕ} {x : ℕ → K} (l : List (Lincons K)) :
    ∀ (s s' : AddSt K), (∀ c ∈ l, c.expr.InDim dim) → (∀ c ∈ l, ∃ v, c.expr.Val x v) →
      addLoop Rnd.exact intdim dim l s = some s' → s'.exact = true → Sat dim s'.b x →
      s.exact = true ∧ ∀ c ∈ l, c.Holds x := by
  induction l with
  | nil =>
    intro s s' _ _ h hex _
    simp only [addLoop, Option.some.injEq] at h; subst h
    exact ⟨hex, by simp⟩
  | cons c l ih =>
    intro s s' he hv h hex hs
    unfold addLoop at h
    cases h1 : addOne Rnd.exact intdim dim s c with
    | none => rw [h1] at h; simp at h
    | some s1 =>
      rw [h1] at h
      obtain ⟨i1, i2⟩ := ih s1 s' (fun c h => he c (by simp [h])) (fun c h => hv c (by simp [h])) h hex hs
      obtain ⟨j1, j2⟩ := addOne_exact (he c (by simp)) (hv c (by simp)) h1 i1
        (hs.of_le fun q => addLoop_le _ l q _ _ h)
      refine ⟨j1, fun c' hc' => ?_⟩
      rcases List.mem_cons.1 hc' with rfl | hc'
      · exact j2
      · exact i2 c' hc'

theorem addLincons_exact {intdim dim : ℕ} {x : ℕ → K} {l : List (Lincons K)} {b : Mem K} {respect : Bool}
    {r : Mem K × Bool × Bool} (he : ∀ c ∈ l, c.expr.InDim dim) (hv : ∀ c ∈ l, ∃ v, c.expr.Val x v)
    (h : addLincons Rnd.exact intdim dim b l respect = some r) (hex : r.2.1 = true) (hs : Sat dim r.1 x) :
    ∀ c ∈ l, c.Holds x := by
  unfold addLincons at h
  cases h1 : addLoop Rnd.exact intdim dim l ⟨b, 0, false, respect, true⟩ with
  | none => rw [h1] at h; simp at h
  | some s =>
    rw [h1] at h
    simp only at h
    cases h2 : flushIf Rnd.exact dim true s with
    | none => rw [h2] at h; simp at h
    | some b' =>
      rw [h2] at h
      simp only [Option.some.injEq] at h
      subst h
      exact (addLoop_exact l _ _ he hv h1 hex (hs.of_le (flushIf_le _ h2))).2

/-! ### closure is respected -/

theorem good_bmin2 {dim : ℕ} {m : Mem K} (h : OctT.Good dim m) {i j : ℕ} (hij : i ≠ j) {v : Bound K}
    (hv : v ≠ ninf) : OctT.Good dim (m.bmin (matpos2 i j) v) := by
  have hd : ∀ k, (m.bmin (matpos2 i j) v) (matpos k k) = m (matpos k k) := by
    intro k
    unfold Mem.bmin
    refine Mem.set_ne _ _ fun e => hij ?_
    rcases pos_eq_cases (cell_refl k) e.symm with ⟨rfl, rfl⟩ | ⟨rfl, rfl⟩ <;> rfl
  refine ⟨fun p hp => ?_, fun k hk => ?_, fun k hk => ?_⟩
  · unfold Mem.bmin Mem.set
    split_ifs with e
    · rw [bmin_eq_min]
      rcases min_choice (m (matpos2 i j)) v with h' | h' <;> rw [h']
      · rw [← e]; exact h.ne p hp
      · exact hv
    · exact h.ne p hp
  · rw [hd, hd]; exact h.coh k hk
  · rw [hd]; exact h.nn k hk

theorem sub_ne {a b : Bound K} (ha : infty a = false ∨ a = pinf) (hb : infty b = false) :
    sub R a b ≠ ninf := by
  obtain ⟨B, rfl⟩ := fin_of_not_infty hb
  rcases ha with ha | rfl
  · obtain ⟨A, rfl⟩ := fin_of_not_infty ha
    exact up_ne R _
  · simp [sub]

theorem ne_cases {a : Bound K} (h : a ≠ ninf) : infty a = false ∨ a = pinf := by
  cases a <;> simp_all [infty]

theorem pick_infty {dst : ℕ → Bound K} {m : Mem K} {j uj : ℕ} {bj : Bound K}
    (h : pick dst m j = some (bj, uj)) : infty bj = false ∧ uj / 2 = j := by
  unfold pick at h
  split_ifs at h with h1 h2 <;> simp only [Option.some.injEq, Prod.mk.injEq] at h <;>
    obtain ⟨rfl, rfl⟩ := h
  · exact ⟨h1.2, by omega⟩
  · exact ⟨h2.2, by omega⟩

theorem unitIdx_div {dst : ℕ → Bound K} {j uj : ℕ} (h : unitIdx dst j = some uj) : uj / 2 = j := by
  unfold unitIdx at h
  split_ifs at h <;> simp only [Option.some.injEq] at h <;> omega

theorem otherHalf_good {dim : ℕ} {dst : ℕ → Bound K} {acc : Acc K} {b : Mem K} (h : OctT.Good dim b)
    (hj : acc.cnt = 2 → acc.j1 ≠ acc.j2) : OctT.Good dim (otherHalf R dst dim acc b) := by
  unfold otherHalf
  split_ifs with q0 q1 q2 q3
  · exact h
  · have q0 : infty acc.sum = false := by simpa using q0
    unfold otherQuad
    refine foldl_inv (OctT.Good dim) _ _ (fun b j _ h => ?_) b h
    cases hp : pick dst b j with
    | none => exact h
    | some p =>
      obtain ⟨bj, uj⟩ := p
      obtain ⟨h1, h2⟩ := pick_infty hp
      refine foldl_inv (OctT.Good dim) _ _ (fun b k hk h => ?_) b h
      simp only [List.mem_range'_1] at hk
      cases hp' : pick dst b k with
      | none => exact h
      | some p =>
        obtain ⟨bk, uk⟩ := p
        obtain ⟨h3, h4⟩ := pick_infty hp'
        have hcell : Cell (uk ^^^ 1) uj := by unfold Cell; rw [xor1_div]; omega
        simp only
        rw [← matpos2_cell hcell]
        refine good_bmin2 h (fun e => ?_) (div2_ne R (sub_ne R (ne_cases (sub_ne R (Or.inl q0) h1)) h3))
        have := xor1_div uk
        omega
  · have q0 : infty acc.sum = false := by simpa using q0
    unfold otherLin
    cases hu1 : unitIdx dst acc.j1 with
    | none => exact h
    | some uj =>
      refine foldl_inv (OctT.Good dim) _ _ (fun b k hk h => ?_) b h
      split_ifs with hk1
      · exact h
      · cases hp' : pick dst b k with
        | none => exact h
        | some p =>
          obtain ⟨bk, uk⟩ := p
          obtain ⟨h3, h4⟩ := pick_infty hp'
          refine good_bmin2 h (fun e => ?_) (div2_ne R (sub_ne R (Or.inl q0) h3))
          have := xor1_div uk
          have := unitIdx_div hu1
          omega
  · have q0 : infty acc.sum = false := by simpa using q0
    unfold otherOne
    cases hu1 : unitIdx dst acc.j1 with
    | none => exact h
    | some ui =>
      cases hu2 : unitIdx dst acc.j2 with
      | none => exact h
      | some uj =>
        refine good_bmin2 h (fun e => ?_) (div2_ne R ?_)
        · have := xor1_div uj
          have := unitIdx_div hu1
          have := unitIdx_div hu2
          have := hj q3
          omega
        · intro e; rw [e] at q0; simp [infty] at q0
  · exact h

theorem accum_j12 (t : ℕ → Bound K) (n : ℕ) (init : Bound K) :
    (1 ≤ (accum R t n init).cnt → (accum R t n init).j1 < n) ∧
    ((accum R t n init).cnt = 2 → (accum R t n init).j1 ≠ (accum R t n init).j2) := by
  induction n with
  | zero => simp [accum]
  | succ n ih =>
    have hstep : accum R t (n + 1) init = if infty (t n) then
        ⟨(accum R t n init).sum, (accum R t n init).cnt + 1, n, (accum R t n init).j1⟩
        else { accum R t n init with sum := add R (accum R t n init).sum (t n) } := by
      unfold accum; rw [List.range_succ, List.foldl_append]; rfl
    rw [hstep]
    split_ifs
    · exact ⟨fun _ => by simp, fun h => by simp only at h; have := ih.1 (by omega); simp only; omega⟩
    · exact ⟨fun h => by have := ih.1 h; simp only; omega, ih.2⟩

theorem addOther_good {dim : ℕ} {dst : ℕ → Bound K} {isEq : Bool} {b : Mem K} (h : OctT.Good dim b) :
    OctT.Good dim (addOther R dst dim isEq b) := by
  unfold addOther
  simp only
  have h1 := otherHalf_good R (dst := dst) h
    (accum_j12 R (fun j => (prodBounds R dst b j).2) dim (mul2 R (dst 1))).2
  split_ifs
  · exact otherHalf_good R h1 (accum_j12 R (fun j => (prodBounds R dst b j).1) dim (mul2 R (dst 0))).2
  · exact h1

/-- invariant of the constraint loop: what `closed`/`pending` claim -/
structure AddInv (dim : ℕ) (s : AddSt K) : Prop where
  good : OctT.Good dim s.b
  pend : s.pending = true → s.varPending < dim
  clo : s.respect = true → s.pending = false → SC dim (G dim s.b)
  off : s.respect = true → s.pending = true → ClosedOff s.varPending (G dim s.b)

theorem closedOff_congr {dim v : ℕ} {m m' : Mem K} (h : ClosedOff v (G dim m))
    (hoff : ∀ i j, i / 2 ≠ v → j / 2 ≠ v → G dim m' i j = G dim m i j) : ClosedOff v (G dim m') := by
  intro i p j a b hi hp hj ha hb
  rw [hoff _ _ hi hp] at ha
  rw [hoff _ _ hp hj] at hb
  rw [hoff _ _ hi hj]
  exact h i p j a b hi hp hj ha hb

theorem closedOff_SC {dim v : ℕ} {m : Mem K} (h : SC dim (G dim m)) : ClosedOff v (G dim m) :=
  closedOff_of_SC h fun _ _ _ _ _ _ => rfl

theorem G_bmin_off {dim v : ℕ} {m : Mem K} {i j : ℕ} {b : Bound K} (hv : i / 2 = v ∨ j / 2 = v)
    (i' j' : ℕ) (hi : i' / 2 ≠ v) (hj : j' / 2 ≠ v) :
    G dim (m.bmin (matpos2 i j) b) i' j' = G dim m i' j' := by
  unfold G
  split_ifs with hl
  · unfold Mem.bmin
    refine Mem.set_ne _ _ fun e => ?_
    rw [matpos2_eq i j] at e
    have h1 := xor1_div i
    have h2 := xor1_div j
    have h1' := xor1_div (i ^^^ 1)
    have h2' := xor1_div (j ^^^ 1)
    split_ifs at e with hc
    · rcases pos_eq_cases hc e with ⟨rfl, rfl⟩ | ⟨rfl, rfl⟩ <;> omega
    · rcases pos_eq_cases ((cell_or_mirror i j).resolve_left hc) e with ⟨rfl, rfl⟩ | ⟨rfl, rfl⟩ <;> omega
  · rfl

/-- after the flush, the matrix is closed away from the dimension about to be modified -/
theorem flushIf_inv {dim : ℕ} {cond : Bool} {s : AddSt K} (hs : AddInv dim s) {b : Mem K}
    (h : flushIf Rnd.exact dim cond s = some b) :
    OctT.Good dim b ∧ (s.respect = true → (s.pending = true → cond = true) → SC dim (G dim b)) ∧
    (s.respect = true → s.pending = true → cond = false → ClosedOff s.varPending (G dim b)) := by
  unfold flushIf at h
  split_ifs at h with hc
  · simp only [Bool.and_eq_true] at hc
    have hsc := closeIncremental_SC (hs.pend hc.1.2) hs.good.ne hs.good.coh (hs.off hc.1.1 hc.1.2)
    rcases hcl : closeIncremental Rnd.exact dim s.b s.varPending with ⟨f, m⟩
    rw [hcl] at h hsc
    cases f with
    | true => simp at h
    | false =>
      simp only [Option.some.injEq] at h; subst h
      have hsc := hsc rfl
      exact ⟨OctT.SC_good hsc, fun _ _ => hsc, fun _ _ e => by simp [e] at hc⟩
  · simp only [Option.some.injEq] at h; subst h
    refine ⟨hs.good, fun hr hp => ?_, fun hr hp _ => hs.off hr hp⟩
    cases hpe : s.pending with
    | false => exact hs.clo hr hpe
    | true =>
      exfalso; exact hc (by simp [hr, hpe, hp hpe])

theorem addCore_inv {dim : ℕ} {s s' : AddSt K} {u : UExpr} {dst : ℕ → Bound K} {typ : ConsTyp K}
    (hcl : ClassOk (fun i => i < dim) u dst) (h0 : u.type ≠ .empty → dst 0 ≠ ninf)
    (h1 : u.type ≠ .empty → dst 1 ≠ ninf)
    (hs : AddInv dim s) (h : addCore Rnd.exact dim s u dst typ = some s') : AddInv dim s' := by
  unfold ClassOk at hcl
  unfold addCore at h
  cases hty : u.type with
  | empty => simp only [hty, Option.some.injEq] at h; subst h; exact hs
  | zero =>
    simp only [hty] at h
    split_ifs at h
    · simp only [Option.some.injEq] at h; subst h; exact hs
  | unary =>
    have h0 := h0 (by rw [hty]; simp)
    have h1 := h1 (by rw [hty]; simp)
    simp only [hty] at hcl h
    have hdiv := signed_div u.i u.coefI
    generalize signed u.i u.coefI = ui at *
    have hdiv' : (ui ^^^ 1) / 2 = u.i := by rw [xor1_div, hdiv]
    cases hb : flushIf Rnd.exact dim (decide (s.varPending ≠ u.i)) s with
    | none => rw [hb] at h; simp at h
    | some b =>
      rw [hb] at h
      simp only [Option.some.injEq] at h
      subst h
      obtain ⟨f1, f2, f3⟩ := flushIf_inv hs hb
      rw [← matpos2_cell (cell_self_xor _), ← matpos2_cell (cell_xor_self _)]
      have g1 := good_bmin2 f1 (i := ui) (j := ui ^^^ 1) (xor1_ne ui).symm (mul2_ne Rnd.exact h1)
      have hoff : s.respect = true → ClosedOff u.i (G dim b) := by
        intro hr
        by_cases hp : s.pending = true ∧ s.varPending = u.i
        · have := f3 hr hp.1 (by simp [hp.2])
          rwa [hp.2] at this
        · refine closedOff_SC (f2 hr fun hpe => ?_)
          simp only [decide_eq_true_eq]
          exact fun e => hp ⟨hpe, e⟩
      refine ⟨?_, fun _ => hcl.1, fun _ h => by simp at h, fun hr _ => ?_⟩
      · simp only
        split_ifs
        · exact good_bmin2 g1 (xor1_ne ui) (mul2_ne Rnd.exact h0)
        · exact g1
      · refine closedOff_congr (hoff hr) fun i j hi hj => ?_
        simp only at hi hj ⊢
        split_ifs
        · rw [G_bmin_off (Or.inl hdiv') i j hi hj, G_bmin_off (Or.inl hdiv) i j hi hj]
        · rw [G_bmin_off (Or.inl hdiv) i j hi hj]
  | binary =>
    have h0 := h0 (by rw [hty]; simp)
    have h1 := h1 (by rw [hty]; simp)
    simp only [hty] at hcl h
    have hdi := signed_div u.i u.coefI
    have hdj := signed_div u.j u.coefJ
    generalize signed u.i u.coefI = ui at *
    generalize signed u.j u.coefJ = uj at *
    have hdi' : (ui ^^^ 1) / 2 = u.i := by rw [xor1_div, hdi]
    have hdj' : (uj ^^^ 1) / 2 = u.j := by rw [xor1_div, hdj]
    have hij := hcl.2.2.1
    cases hb : flushIf Rnd.exact dim (decide (s.varPending ≠ u.i) && decide (s.varPending ≠ u.j)) s with
    | none => rw [hb] at h; simp at h
    | some b =>
      rw [hb] at h
      simp only [Option.some.injEq] at h
      subst h
      obtain ⟨f1, f2, f3⟩ := flushIf_inv hs hb
      have g1 := good_bmin2 f1 (i := uj) (j := ui ^^^ 1) (by intro e; omega) h1
      have hw : (if s.varPending = u.j then u.j else u.i) = u.i ∨
          (if s.varPending = u.j then u.j else u.i) = u.j := by split_ifs <;> simp
      have hoff : s.respect = true → ClosedOff (if s.varPending = u.j then u.j else u.i) (G dim b) := by
        intro hr
        by_cases hp : s.pending = true ∧ (s.varPending = u.i ∨ s.varPending = u.j)
        · have := f3 hr hp.1 (by rcases hp.2 with e | e <;> simp [e])
          rcases hp.2 with e | e
          · rw [e] at this; rw [e, if_neg (by omega)]; exact this
          · rw [e] at this; rw [e, if_pos rfl]; exact this
        · refine closedOff_SC (f2 hr fun hpe => ?_)
          simp only [Bool.and_eq_true, decide_eq_true_eq]
          exact ⟨fun e => hp ⟨hpe, Or.inl e⟩, fun e => hp ⟨hpe, Or.inr e⟩⟩
      refine ⟨?_, fun _ => ?_, fun _ h => by simp at h, fun hr _ => ?_⟩
      · simp only
        split_ifs
        · exact good_bmin2 g1 (by intro e; omega) h0
        · exact g1
      · simp only
        rcases hw with e | e <;> rw [e]
        · exact hcl.1
        · exact hcl.2.1
      · refine closedOff_congr (hoff hr) fun i j hi hj => ?_
        simp only at hi hj ⊢
        have k1 : uj / 2 = (if s.varPending = u.j then u.j else u.i) ∨
            (ui ^^^ 1) / 2 = (if s.varPending = u.j then u.j else u.i) := by
          rcases hw with e | e <;> rw [e] <;> omega
        have k2 : (uj ^^^ 1) / 2 = (if s.varPending = u.j then u.j else u.i) ∨
            ui / 2 = (if s.varPending = u.j then u.j else u.i) := by
          rcases hw with e | e <;> rw [e] <;> omega
        by_cases heq : isEqTyp typ = true
        · rw [if_pos heq, G_bmin_off k2 i j hi hj, G_bmin_off k1 i j hi hj]
        · rw [if_neg heq, G_bmin_off k1 i j hi hj]
  | other =>
    simp only [hty, Option.some.injEq] at h; subst h
    exact ⟨addOther_good _ hs.good, hs.pend, fun h => by simp at h, fun h => by simp at h⟩

theorem addOne_inv {intdim dim : ℕ} {s s' : AddSt K} {c : Lincons K} (he : c.expr.InDim dim)
    (hp : c.expr.Proper) (hs : AddInv dim s) (h : addOne Rnd.exact intdim dim s c = some s') :
    AddInv dim s' := by
  have hcl := uexpr_class Rnd.exact he intdim
  have hn : (uexprOf Rnd.exact c.expr intdim).1.type ≠ .empty →
      (uexprOf Rnd.exact c.expr intdim).2 0 ≠ ninf ∧ (uexprOf Rnd.exact c.expr intdim).2 1 ≠ ninf := by
    intro hne
    obtain ⟨q, hq⟩ := uexpr_cst Rnd.exact hp hne
    exact hq.ne
  have hx : ∀ b : Bool, AddInv dim ({ s with exact := b } : AddSt K) := fun b => ⟨hs.1, hs.2, hs.3, hs.4⟩
  rw [addOne_eq] at h
  cases ht : c.typ with
  | eqmod m => simp only [ht, Option.some.injEq] at h; subst h; exact hx _
  | diseq => simp only [ht, Option.some.injEq] at h; subst h; exact hx _
  | eq => simp only [ht] at h; exact addCore_inv hcl (fun e => (hn e).1) (fun e => (hn e).2) hs h
  | supeq => simp only [ht] at h; exact addCore_inv hcl (fun e => (hn e).1) (fun e => (hn e).2) hs h
  | sup =>
    simp only [ht] at h
    split_ifs at h
    · refine addCore_inv ((classOk_congr fun p hp => strictDst_other _ _ hp).2 hcl) (fun e => ?_) (fun e => ?_) hs h
      · have := (hn e).1
        unfold strictDst
        rw [Function.update_of_ne (by omega), Function.update_self]
        cases hd : (uexprOf Rnd.exact c.expr intdim).2 0 <;> simp_all [addNat, Rnd.exact]
      · have := (hn e).2
        unfold strictDst
        rw [Function.update_self]
        cases hd : (uexprOf Rnd.exact c.expr intdim).2 1 <;> simp_all [subNat, Rnd.exact]
    · exact addCore_inv hcl (fun e => (hn e).1) (fun e => (hn e).2) hs h

theorem addLincons_inv {intdim dim : ℕ} {l : List (Lincons K)} {b : Mem K} {respect : Bool}
    {r : Mem K × Bool × Bool} (he : ∀ c ∈ l, c.expr.InDim dim) (hp : ∀ c ∈ l, c.expr.Proper)
    (hg : OctT.Good dim b) (hc : respect = true → SC dim (G dim b))
    (h : addLincons Rnd.exact intdim dim b l respect = some r) :
    OctT.Good dim r.1 ∧ (r.2.2 = true → SC dim (G dim r.1)) := by
  have key : ∀ (l : List (Lincons K)), (∀ c ∈ l, c.expr.InDim dim) → (∀ c ∈ l, c.expr.Proper) →
      ∀ s s' : AddSt K, AddInv dim s → addLoop Rnd.exact intdim dim l s = some s' → AddInv dim s' := by
    intro l
    induction l with
    | nil => intro _ _ s s' hs h; simp only [addLoop, Option.some.injEq] at h; subst h; exact hs
    | cons c l ih =>
      intro he hp s s' hs h
      unfold addLoop at h
      cases h1 : addOne Rnd.exact intdim dim s c with
      | none => rw [h1] at h; simp at h
      | some s1 =>
        rw [h1] at h
        exact ih (fun c h => he c (by simp [h])) (fun c h => hp c (by simp [h])) s1 s'
          (addOne_inv (he c (by simp)) (hp c (by simp)) hs h1) h
  unfold addLincons at h
  cases h1 : addLoop Rnd.exact intdim dim l ⟨b, 0, false, respect, true⟩ with
  | none => rw [h1] at h; simp at h
  | some s =>
    have hs := key l he hp _ _ ⟨hg, fun h => by simp at h, fun h _ => hc h, fun _ h => by simp at h⟩ h1
    rw [h1] at h
    simp only at h
    cases h2 : flushIf Rnd.exact dim true s with
    | none => rw [h2] at h; simp at h
    | some b' =>
      rw [h2] at h
      simp only [Option.some.injEq] at h
      subst h
      obtain ⟨f1, f2, -⟩ := flushIf_inv hs h2
      exact ⟨f1, fun hr => f2 hr fun _ => rfl⟩

end

end Oct

namespace OctT
open Bound Oct
variable {K : Type*} [LinearOrder K] [Field K] [IsStrictOrderedRing K] [FloorRing K] (R : Rnd K)

theorem meetLincons_dim (algo : ℤ) (a : OctT K) (ar : List (Lincons K)) :
    (meetLinconsArray R algo a ar).dim = a.dim ∧ (meetLinconsArray R algo a ar).intdim = a.intdim := by
  unfold meetLinconsArray
  cases a.best with
  | none => exact ⟨rfl, rfl⟩
  | some m =>
    simp only
    split
    · exact ⟨rfl, rfl⟩
    · split_ifs <;> exact ⟨rfl, rfl⟩

theorem gam_pick (b : Bool) (m : Mem K) (dim intdim : ℕ) (x : ℕ → K) :
    (if b then (⟨none, some m, dim, intdim⟩ : OctT K) else ⟨some m, none, dim, intdim⟩).Gam x ↔ Sat dim m x := by
  cases b <;> simp [Gam]

theorem meetLincons_sound {algo : ℤ} {a : OctT K} {ar : List (Lincons K)} {x : ℕ → K}
    (he : ∀ c ∈ ar, c.expr.InDim a.dim) (hR : ∀ c ∈ ar, c.typ = .sup → Repr R c.expr)
    (hx : IntPt a.intdim x) (ha : a.Gam x) (hc : ∀ c ∈ ar, c.Holds x) :
    (meetLinconsArray R algo a ar).Gam x := by
  obtain ⟨m, hm, hs⟩ := gam_iff_best.1 ha
  obtain ⟨r, h1, h2⟩ := addLincons_sat R (respect := a.closed.isSome && decide (0 ≤ algo)) hx he hR hc hs
  unfold meetLinconsArray
  rw [hm]
  simp only
  rw [h1]
  exact (gam_pick _ _ _ _ _).2 h2

theorem meetLincons_le {algo : ℤ} {a : OctT K} {ar : List (Lincons K)} {x : ℕ → K}
    (h : (meetLinconsArray R algo a ar).Gam x) : a.Gam x := by
  unfold meetLinconsArray at h
  cases hm : a.best with
  | none => rw [hm] at h; exact absurd h (gam_bottom _ _ _)
  | some m =>
    rw [hm] at h
    simp only at h
    cases h1 : addLincons R a.intdim a.dim m ar (a.closed.isSome && decide (0 ≤ algo)) with
    | none => rw [h1] at h; exact absurd h (gam_bottom _ _ _)
    | some r =>
      rw [h1] at h
      exact gam_iff_best.2 ⟨m, hm, ((gam_pick _ _ _ _ _).1 h).of_le (addLincons_le R h1)⟩

theorem meetLincons_exact {algo : ℤ} {a : OctT K} {ar : List (Lincons K)} {x : ℕ → K}
    (he : ∀ c ∈ ar, c.expr.InDim a.dim) (hv : ∀ c ∈ ar, ∃ v, c.expr.Val x v)
    (hex : meetLinconsExact Rnd.exact algo a ar = true)
    (h : (meetLinconsArray Rnd.exact algo a ar).Gam x) : ∀ c ∈ ar, c.Holds x := by
  unfold meetLinconsArray at h
  unfold meetLinconsExact at hex
  cases hm : a.best with
  | none => rw [hm] at h; exact absurd h (gam_bottom _ _ _)
  | some m =>
    rw [hm] at h hex
    simp only at h hex
    cases h1 : addLincons Rnd.exact a.intdim a.dim m ar (a.closed.isSome && decide (0 ≤ algo)) with
    | none => rw [h1] at h; exact absurd h (gam_bottom _ _ _)
    | some r =>
      rw [h1] at h hex
      exact addLincons_exact he hv h1 hex ((gam_pick _ _ _ _ _).1 h)

theorem wf_meetLincons {algo : ℤ} {a : OctT K} (ha : Wf a) {ar : List (Lincons K)}
    (he : ∀ c ∈ ar, c.expr.InDim a.dim) (hp : ∀ c ∈ ar, c.expr.Proper) :
    Wf (meetLinconsArray Rnd.exact algo a ar) := by
  unfold meetLinconsArray
  cases hm : a.best with
  | none => exact wf_bottom _ _
  | some m =>
    simp only
    cases h1 : addLincons Rnd.exact a.intdim a.dim m ar (a.closed.isSome && decide (0 ≤ algo)) with
    | none => exact wf_bottom _ _
    | some r =>
      have := addLincons_inv he hp (ha.good_best hm) (fun hr => ?_) h1
      · obtain ⟨r1, r2, r3⟩ := r
        simp only at this ⊢
        cases r3 with
        | false => exact wf_of_good this.1
        | true => exact wf_of_SC (this.2 rfl)
      · simp only [Bool.and_eq_true, Option.isSome_iff_exists] at hr
        obtain ⟨⟨c, hc⟩, -⟩ := hr
        rw [best_of_closed hc, Option.some.injEq] at hm
        exact hm ▸ ha.sc c hc

end OctT
end Apron
