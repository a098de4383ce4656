import Verif.Texpr.Defs
import Verif.Itv.RoundLemmas
import Verif.Itv.LinexprLemmas

/-!
# Soundness of the interval evaluation of expression trees
-/

set_option autoImplicit false
set_option linter.unusedSectionVars false
set_option linter.ambiguousOpen false

namespace Apron
open Bound
variable {K : Type*} [LinearOrder K] [Field K] [IsStrictOrderedRing K] [FloorRing K]

theorem rounds_flt {S : FltSem K} {t : RType} {d : RDir} {v w : K} (ht : t.isFlt = true)
    (h : Rounds S t d v w) : S.rnd t d v w := by
  cases t <;> simp_all [RType.isFlt, Rounds]

/-- an integer at distance at most 1/2 is one of the two neighbours -/
theorem nearest_cases {v : K} {n : ℤ} (h : |v - n| ≤ 1 / 2) : n = ⌊v⌋ ∨ n = ⌈v⌉ := by
  rw [abs_le] at h
  by_cases hn : (n : K) ≤ v
  · left
    symm
    rw [Int.floor_eq_iff]
    exact ⟨hn, by linarith⟩
  · right
    symm
    rw [Int.ceil_eq_iff]
    push Not at hn
    exact ⟨by linarith, hn.le⟩

/-- rounding to an integer gives one of the two neighbours -/
theorem rounds_int {S : FltSem K} {d : RDir} {v w : K} (h : Rounds S .int d v w) :
    ∃ n : ℤ, w = n ∧ (n = ⌊v⌋ ∨ n = ⌈v⌉) := by
  cases d with
  | nearest =>
    obtain ⟨n, rfl, hn⟩ := h
    exact ⟨n, rfl, nearest_cases hn⟩
  | zero =>
    simp only [Rounds] at h
    split_ifs at h
    · exact ⟨_, h, Or.inl rfl⟩
    · exact ⟨_, h, Or.inr rfl⟩
  | up => exact ⟨_, h, Or.inr rfl⟩
  | down => exact ⟨_, h, Or.inl rfl⟩
  | rnd =>
    rcases h with h | h
    · exact ⟨_, h, Or.inl rfl⟩
    · exact ⟨_, h, Or.inr rfl⟩

theorem toFlt_ge {f : K → Bound K} {b : Bound K} {v w : K} (hf : ∀ q, v ≤ q → fin w ≤ f q)
    (h : fin v ≤ b) : fin w ≤ Bound.toFlt f b := by
  cases b with
  | fin q => exact hf q (by simpa using h)
  | pinf => simp [Bound.toFlt]
  | ninf => simp at h

namespace Texpr

theorem mem_round {F : FltOps K} {S : FltSem K} (hF : FltOK F S) {t : RType} {d : RDir} {i : Itv K}
    {v w : K} (hv : v ∈ i) (h : Rounds S t d v w) : w ∈ round F t d i := by
  by_cases ht : t.isFlt = true
  · have hr := rounds_flt ht h
    have e : round F t d i = ⟨Bound.toFlt (F.up t) i.inf, Bound.toFlt (F.up t) i.sup⟩ := by
      cases t <;> simp_all [RType.isFlt, round]
    rw [e]
    exact ⟨toFlt_ge (fun q hq => hF.up_ge_neg t d v w q ht hr hq) hv.1,
      toFlt_ge (fun q hq => hF.up_ge t d v w q ht hr hq) hv.2⟩
  · cases t with
    | real => simp only [Rounds] at h; subst h; exact hv
    | int =>
      obtain ⟨n, rfl, hn⟩ := rounds_int h
      cases d with
      | nearest => exact Itv.mem_toInt hv hn
      | zero =>
        have := Itv.mem_trunc hv
        simp only [Rounds] at h
        rw [h]
        unfold numTrunc at this
        show _ ∈ Itv.trunc i
        split_ifs with h0 <;> simpa [h0] using this
      | up => simp only [Rounds] at h; rw [h]; exact Itv.mem_ceil hv
      | down => simp only [Rounds] at h; rw [h]; exact Itv.mem_floor hv
      | rnd => exact Itv.mem_toInt hv hn
    | single => simp [RType.isFlt] at ht
    | double => simp [RType.isFlt] at ht
    | extended => simp [RType.isFlt] at ht
    | quad => simp [RType.isFlt] at ht

theorem mem_evalUn {o : RootOps K} (ho : o.SqrtOK) {F : FltOps K} {S : FltSem K} (hF : FltOK F S)
    {op : UnOp} {t : RType} {d : RDir} {i : Itv K} {a w v : K} (ha : a ∈ i) (hw : op.Val a w)
    (hv : if op = .neg then v = w else Rounds S t d w v) : v ∈ evalUn o F op t d i := by
  cases op with
  | neg =>
    simp only [if_true, UnOp.Val] at hv hw
    subst hv; subst hw
    exact Itv.mem_neg ha
  | cast =>
    simp only [reduceCtorEq, if_false, UnOp.Val] at hv hw
    subst hw
    exact mem_round hF ha hv
  | sqrt =>
    simp only [reduceCtorEq, if_false, UnOp.Val] at hv hw
    exact mem_round hF (Itv.mem_sqrt o ho ha hw.1 hw.2) hv

theorem mem_pow_any (R : Rnd K) {b n : Itv K} {x y w : K} (hx : x ∈ b) (hy : y ∈ n)
    (hw : ∀ k : ℕ, y = k → w = x ^ k)
    (hb : ∀ k : ℕ, (k : K) ∈ n → k % 2 = 1 → b.inf ≠ pinf) : w ∈ Itv.pow R b n := by
  by_cases hk : ∃ k : ℕ, y = k
  · obtain ⟨k, rfl⟩ := hk
    rw [hw k rfl]
    exact Itv.mem_pow R hx hy (hb k hy)
  · unfold Itv.pow
    rw [Itv.not_isBottom hx, Itv.not_isBottom hy]
    simp only [Bool.or_self, Bool.false_eq_true, if_false]
    cases h : Itv.expo n with
    | none => exact Itv.mem_top _
    | some m =>
      have := Itv.expo_spec h
      subst this
      rw [Itv.mem_point] at hy
      exact absurd ⟨m, hy⟩ hk

theorem mem_evalBin {R : Rnd K} {F : FltOps K} {S : FltSem K} (hF : FltOK F S)
    {op : BinOp} {t : RType} {d : RDir} {i j : Itv K} {a b w v : K} (ha : a ∈ i) (hb : b ∈ j)
    (hw : op.Val t a b w) (hv : if op = .mod then v = w else Rounds S t d w v)
    (hp : op = .pow → ∀ k : ℕ, (k : K) ∈ j → k % 2 = 1 → i.inf ≠ pinf) :
    v ∈ evalBin R F op t d i j := by
  cases op with
  | add =>
    simp only [reduceCtorEq, if_false, BinOp.Val] at hv hw
    subst hw
    exact mem_round hF (Itv.mem_add R ha hb) hv
  | sub =>
    simp only [reduceCtorEq, if_false, BinOp.Val] at hv hw
    subst hw
    exact mem_round hF (Itv.mem_sub R ha hb) hv
  | mul =>
    simp only [reduceCtorEq, if_false, BinOp.Val] at hv hw
    subst hw
    exact mem_round hF (Itv.mem_mul R ha hb) hv
  | div =>
    simp only [reduceCtorEq, if_false, BinOp.Val] at hv hw
    rw [hw.2] at hv
    exact mem_round hF (Itv.mem_div R ha hb hw.1) hv
  | mod =>
    simp only [if_true, BinOp.Val] at hv hw
    obtain ⟨h0, hint, hw⟩ := hw
    subst hv
    rw [hw]
    have := Itv.mem_mod R (decide (t = .int)) ha hb h0 (fun h => hint (by simpa using h))
    show _ ∈ Itv.mod R i j _
    convert this using 3
    unfold numTrunc
    split_ifs <;> rfl
  | pow =>
    simp only [reduceCtorEq, if_false, BinOp.Val] at hv hw
    exact mem_round hF (mem_pow_any R ha hb hw (hp rfl)) hv

/-- no odd power of an interval without lower bound is taken (see `C04_pow_unsound`) -/
def PowSafe (R : Rnd K) (o : RootOps K) (F : FltOps K) (env : ℕ → Itv K) : Texpr K → Prop
  | .cst _ => True
  | .dim _ => True
  | .un _ _ _ a => PowSafe R o F env a
  | .bin op _ _ a b => PowSafe R o F env a ∧ PowSafe R o F env b ∧
      (op = .pow → ∀ k : ℕ, (k : K) ∈ b.eval R o F env → k % 2 = 1 → (a.eval R o F env).inf ≠ pinf)

/-- the tree has no power -/
def NoPow : Texpr K → Prop
  | .cst _ => True
  | .dim _ => True
  | .un _ _ _ a => NoPow a
  | .bin op _ _ a b => NoPow a ∧ NoPow b ∧ op ≠ .pow

theorem NoPow.safe {R : Rnd K} {o : RootOps K} {F : FltOps K} {env : ℕ → Itv K} {e : Texpr K}
    (h : e.NoPow) : e.PowSafe R o F env := by
  induction e with
  | cst c => trivial
  | dim d => trivial
  | un op t d a ih => exact ih h
  | bin op t d a b iha ihb => exact ⟨iha h.1, ihb h.2.1, fun h' => absurd h' h.2.2⟩

theorem mem_eval {R : Rnd K} {o : RootOps K} (ho : o.SqrtOK) {F : FltOps K} {S : FltSem K}
    (hF : FltOK F S) {n : ℕ} {env : ℕ → Itv K} {x : ℕ → K} (hx : ∀ i, i < n → x i ∈ env i)
    {e : Texpr K} (hd : e.InDim n) (hs : e.PowSafe R o F env) {v : K} (hv : e.Val S x v) :
    v ∈ e.eval R o F env := by
  induction e generalizing v with
  | cst c => exact Itv.mem_setApCoeff R hv
  | dim d =>
    simp only [Val] at hv
    subst hv
    exact hx d hd
  | un op t d a ih =>
    obtain ⟨va, w, h1, h2, h3⟩ := hv
    have := ih hd hs h1
    have e : eval R o F env (.un op t d a) = if (eval R o F env a).isBottom then eval R o F env a else
      evalUn o F op t d (eval R o F env a) := rfl
    rw [e, Itv.not_isBottom this, if_neg (by simp)]
    exact mem_evalUn ho hF this h2 h3
  | bin op t d a b iha ihb =>
    obtain ⟨va, vb, w, h1, h2, h3, h4⟩ := hv
    have ha := iha hd.1 hs.1 h1
    have hb := ihb hd.2 hs.2.1 h2
    have e : eval R o F env (.bin op t d a b) =
      if (eval R o F env a).isBottom || (eval R o F env b).isBottom then Itv.bottom else
      evalBin R F op t d (eval R o F env a) (eval R o F env b) := rfl
    rw [e, Itv.not_isBottom ha, Itv.not_isBottom hb, if_neg (by simp)]
    exact mem_evalBin hF ha hb h3 h4 hs.2.2

end Texpr
end Apron
