import Verif.Zono.DivLemmas
import Verif.Zono.State

/-!
# Affine forms: soundness of the evaluation of trees and of the reduction
-/

set_option autoImplicit false
set_option linter.unusedSectionVars false
set_option linter.ambiguousOpen false

namespace Apron
open Bound
variable {K : Type*} [LinearOrder K] [Field K] [IsStrictOrderedRing K] {R : Rnd K} {o : RootOps K}

namespace T1p
variable {ε : ℕ → K}

/-- Conditions under which the evaluation of a tree is sound: all operations are on reals, no two equal intervals are
subtracted unless they are points, the entries that the product drops are points, and the constants of the division
and the square root are exact. -/
def SafeTree (R : Rnd K) (o : RootOps K) (paf : ℕ → Aff K) (ptr : ℕ → ℕ) : Texpr K → Prop
  | .cst _ => True
  | .dim _ => True
  | .un op t _ a => SafeTree R o paf ptr a ∧ (op = .sqrt → t = .real ∧
      ∀ A, evalTexpr R o NEnv.free paf ptr a = some A → Aff.SqrtSafe R A)
  | .bin op t _ a b => SafeTree R o paf ptr a ∧ SafeTree R o paf ptr b ∧ t = .real ∧
      ∀ A B, evalTexpr R o NEnv.free paf ptr a = some A → evalTexpr R o NEnv.free paf ptr b = some B →
        (op = .sub → Aff.SubSafe A B) ∧ (op = .mul → Aff.SkipSafe R A.q B.q) ∧ (op = .div → Aff.DivSafe R A B)

variable [FloorRing K]

theorem evalTexpr_sound (ho : o.SqrtOK) (S : FltSem K) (hε : Noise ε) {paf : ℕ → Aff K} {ptr : ℕ → ℕ} {n : ℕ} {x : ℕ → K}
    (hpaf : ∀ d < n, (paf d).Has ε (x d)) (hsort : ∀ d < n, SortedQ (paf d).q)
    (hcoh : ∀ i < n, ∀ j < n, ptr i = ptr j → (paf i).isTop = true ∨ paf i = paf j ∧ x i = x j)
    (t : Texpr K) : t.InDim n → SafeTree R o paf ptr t → ∀ {A : Aff K} {v : K},
    evalTexpr R o NEnv.free paf ptr t = some A → t.Val S x v → A.Has ε v ∧ SortedQ A.q := by
  have hg : ∀ k, ε k ∈ (NEnv.free : NEnv K).gamma k := fun k => hε k
  induction t with
  | cst c =>
    intro _ _ A v h hv
    simp only [evalTexpr, Option.some.injEq] at h
    subst h
    have := Itv.mem_setApCoeff R (show c.Has v from hv)
    exact ⟨⟨⟨v, 0, this, rfl, by ring⟩, this⟩, List.Pairwise.nil⟩
  | dim d =>
    intro hd _ A v h hv
    simp only [evalTexpr, Option.some.injEq] at h
    subst h
    have hv : v = x d := hv
    rw [hv]
    exact ⟨hpaf d hd, hsort d hd⟩
  | un op ty dr a ih =>
    intro hd hs A v h hv
    obtain ⟨va, w, hva, hop, hr⟩ := hv
    cases op with
    | neg =>
      simp only [evalTexpr, Option.map_eq_some_iff] at h
      obtain ⟨B, hB, rfl⟩ := h
      obtain ⟨h1, h2⟩ := ih hd hs.1 hB hva
      rw [if_pos rfl] at hr
      have hop : w = -va := hop
      rw [hr, hop]
      exact ⟨h1.neg, Aff.sortedQ_neg h2⟩
    | sqrt =>
      simp only [evalTexpr, Option.map_eq_some_iff] at h
      obtain ⟨B, hB, rfl⟩ := h
      obtain ⟨h1, h2⟩ := ih hd hs.1 hB hva
      obtain ⟨ht, hq⟩ := hs.2 rfl
      rw [if_neg (by decide), ht] at hr
      have hr : v = w := hr
      obtain ⟨hw, hww⟩ : 0 ≤ w ∧ w * w = va := hop
      rw [hr]
      rw [← hww] at h1
      exact ⟨h1.sqrt ho hw (hq B hB), Aff.sortedQ_sqrt h2⟩
    | cast => simp [evalTexpr] at h
  | bin op ty dr a b iha ihb =>
    intro hd hs A v h hv
    obtain ⟨va, vb, w, hva, hvb, hop, hr⟩ := hv
    obtain ⟨hsa, hsb, ht, hc⟩ := hs
    cases hA : evalTexpr R o NEnv.free paf ptr a with
    | none => simp [evalTexpr, hA] at h
    | some A' =>
      cases hB : evalTexpr R o NEnv.free paf ptr b with
      | none => simp [evalTexpr, hA, hB] at h
      | some B' =>
        obtain ⟨h1, h2⟩ := iha hd.1 hsa hA hva
        obtain ⟨h3, h4⟩ := ihb hd.2 hsb hB hvb
        obtain ⟨c1, c2, c3⟩ := hc A' B' hA hB
        cases op with
        | add =>
          simp only [evalTexpr, hA, hB, Option.some.injEq] at h
          rw [if_neg (by decide), ht] at hr
          have hr : v = w := hr
          have hop : w = va + vb := hop
          rw [← h, hr, hop]
          exact ⟨h1.add hg h3, Aff.sortedQ_add h2 h4⟩
        | sub =>
          simp only [evalTexpr, hA, hB, Option.some.injEq] at h
          rw [if_neg (by decide), ht] at hr
          have hr : v = w := hr
          have hop : w = va - vb := hop
          rw [← h, hr, hop]
          exact ⟨h1.sub hg (c1 rfl) h3, Aff.sortedQ_sub h2 h4⟩
        | mul =>
          simp only [evalTexpr, hA, hB, Option.some.injEq] at h
          rw [if_neg (by decide), ht] at hr
          have hr : v = w := hr
          have hop : w = va * vb := hop
          rw [← h, hr, hop]
          refine ⟨h1.mul hε rfl h2 h4 (c2 rfl) ?_ h3, Aff.sortedQ_mul h2 h4⟩
          intro hsame
          cases a with
          | dim i =>
            cases b with
            | dim j =>
              simp only [decide_eq_true_eq] at hsame
              simp only [evalTexpr, Option.some.injEq] at hA hB
              have e1 : va = x i := hva
              have e2 : vb = x j := hvb
              rw [← hA, ← hB, e1, e2]
              exact hcoh i hd.1 j hd.2 hsame
            | cst _ => simp at hsame
            | un _ _ _ _ => simp at hsame
            | bin _ _ _ _ _ => simp at hsame
          | cst _ => simp at hsame
          | un _ _ _ _ => simp at hsame
          | bin _ _ _ _ _ => simp at hsame
        | div =>
          simp only [evalTexpr, hA, hB, Option.some.injEq] at h
          rw [if_neg (by decide), ht] at hr
          have hr : v = w := hr
          obtain ⟨h0, hop⟩ : vb ≠ 0 ∧ w = va / vb := hop
          rw [← h, hr, hop]
          exact ⟨h1.div hε rfl h2 h4 (c3 rfl) h3 h0, Aff.sortedQ_div h2 h4⟩
        | mod => simp [evalTexpr, hA, hB] at h
        | pow => simp [evalTexpr, hA, hB] at h

theorem evalTexpr_below {paf : ℕ → Aff K} {ptr : ℕ → ℕ} {n k : ℕ} (hb : ∀ d < n, Below k (paf d).q)
    (t : Texpr K) : t.InDim n → ∀ {A : Aff K}, evalTexpr R o NEnv.free paf ptr t = some A → Below k A.q := by
  induction t with
  | cst c =>
    intro _ A h
    simp only [evalTexpr, Option.some.injEq] at h
    subst h; exact below_nil
  | dim d =>
    intro hd A h
    simp only [evalTexpr, Option.some.injEq] at h
    subst h; exact hb d hd
  | un op ty dr a ih =>
    intro hd A h
    cases op with
    | neg =>
      simp only [evalTexpr, Option.map_eq_some_iff] at h
      obtain ⟨B, hB, rfl⟩ := h
      exact Aff.below_neg (ih hd hB)
    | sqrt =>
      simp only [evalTexpr, Option.map_eq_some_iff] at h
      obtain ⟨B, hB, rfl⟩ := h
      exact Aff.below_sqrt (ih hd hB)
    | cast => simp [evalTexpr] at h
  | bin op ty dr a b iha ihb =>
    intro hd A h
    cases hA : evalTexpr R o NEnv.free paf ptr a with
    | none => simp [evalTexpr, hA] at h
    | some A' =>
      cases hB : evalTexpr R o NEnv.free paf ptr b with
      | none => simp [evalTexpr, hA, hB] at h
      | some B' =>
        have h1 := iha hd.1 hA
        have h2 := ihb hd.2 hB
        cases op <;> simp only [evalTexpr, hA, hB, Option.some.injEq, reduceCtorEq] at h
        · rw [← h]; exact Aff.below_add h1 h2
        · rw [← h]; exact Aff.below_sub h1 h2
        · rw [← h]; exact Aff.below_mul h1 h2
        · rw [← h]; exact Aff.below_div h1 h2

/-! ## Reduction -/

theorem TermsVal.congr {ε' : ℕ → K} {q : List (Term K)} {k : ℕ} (hb : Below k q) (h : ∀ j < k, ε j = ε' j) {y : K} :
    TermsVal ε q y → TermsVal ε' q y := by
  induction q generalizing y with
  | nil => exact id
  | cons t q ih =>
    rintro ⟨a, z, ha, hz, rfl⟩
    refine ⟨a, z, ha, ih (fun u hu => hb u (by simp [hu])) hz, ?_⟩
    rw [h _ (hb t (by simp))]

theorem Aff.Val.congr {ε' : ℕ → K} {a : Aff K} {k : ℕ} (hb : Below k a.q) (h : ∀ j < k, ε j = ε' j) {x : K} :
    a.Val ε x → a.Val ε' x := by
  rintro ⟨c, y, hc, hy, rfl⟩
  exact ⟨c, y, hc, hy.congr hb h, rfl⟩

theorem TermsVal.append {p q : List (Term K)} {y z : K} (hp : TermsVal ε p y) (hq : TermsVal ε q z) :
    TermsVal ε (p ++ q) (y + z) := by
  induction p generalizing y with
  | nil =>
    have hp : y = 0 := hp
    rw [hp, zero_add]; exact hq
  | cons t p ih =>
    obtain ⟨a, w, ha, hw, rfl⟩ := hp
    exact ⟨a, w + z, ha, ih hw, by ring⟩

/-- what remains of an interval after its replacement by its middle -/
theorem red1_spec {eps : K} {c s : Itv K} (hm : Itv.MidFin R c) {x r : K} (hx : x ∈ c) (hr : fin |r| ≤ s.sup) :
    ∃ m, m ∈ (red1 R eps c s).1 ∧ fin (|r| + |x - m|) ≤ (red1 R eps c s).2.sup := by
  unfold red1
  split_ifs with h
  · obtain ⟨m, h1, h2⟩ := Itv.mem_middev hm hx
    refine ⟨m, h1, ?_⟩
    have : fin |x - m| ≤ (Itv.middev R c).2.sup := by
      rw [Itv.mem_def] at h2
      rcases abs_cases (x - m) with ⟨e, _⟩ | ⟨e, _⟩
      · rw [e]; exact h2.2
      · rw [e]; exact h2.1
    exact Bound.add_ge R hr this
  · exact ⟨x, hx, by rw [sub_self, abs_zero, add_zero]; exact hr⟩

theorem redTerms_sound {eps : K} (hε : Noise ε) (l : List (Term K)) : ∀ {s : Itv K} {r y : K} {q : List (Term K)} {s' : Itv K},
    (∀ t ∈ l, Itv.MidFin R t.coef) → redTerms R eps l s = .ok q s' → fin |r| ≤ s.sup → TermsVal ε l y →
    ∃ z r', TermsVal ε q z ∧ fin |r'| ≤ s'.sup ∧ y + r = z + r' := by
  induction l with
  | nil =>
    intro s r y q s' _ h hr hy
    simp only [redTerms, Red.ok.injEq] at h
    obtain ⟨rfl, rfl⟩ := h
    exact ⟨y, r, hy, hr, rfl⟩
  | cons t l ih =>
    intro s r y q s' hm h hr hy
    obtain ⟨a, z, ha, hz, rfl⟩ := hy
    unfold redTerms at h
    split_ifs at h with h1 h2
    obtain ⟨m, hm1, hm2⟩ := red1_spec (eps := eps) (hm t (by simp)) ha hr
    dsimp only at h
    cases hrt : redTerms R eps l (red1 R eps t.coef s).2 with
    | top => rw [hrt] at h; simp at h
    | stop q' => rw [hrt] at h; simp at h
    | ok q' s'' =>
      rw [hrt] at h
      simp only [Red.ok.injEq] at h
      obtain ⟨rfl, rfl⟩ := h
      have hr' : fin |r + (a - m) * ε t.sym.index| ≤ (red1 R eps t.coef s).2.sup := by
        refine le_trans ?_ hm2
        rw [fin_le_fin]
        refine le_trans (abs_add_le _ _) ?_
        rw [abs_mul]
        have := abs_le.2 (Itv.mem_muu.1 (hε t.sym.index))
        have : |a - m| * |ε t.sym.index| ≤ |a - m| * 1 := mul_le_mul_of_nonneg_left this (abs_nonneg _)
        linarith
      obtain ⟨z', r', h3, h4, h5⟩ := ih (fun u hu => hm u (by simp [hu])) hrt hr' hz
      exact ⟨m * ε t.sym.index + z', r', ⟨m, z', hm1, h3, rfl⟩, h4, by linear_combination h5⟩

theorem redTerms_sorted {eps : K} (l : List (Term K)) : ∀ {s : Itv K},
    match redTerms R eps l s with
    | .top => True
    | .stop q => q.map Term.sym = l.map Term.sym
    | .ok q _ => q.map Term.sym = l.map Term.sym := by
  induction l with
  | nil => intro s; simp [redTerms]
  | cons t l ih =>
    intro s
    unfold redTerms
    split_ifs with h1 h2
    · trivial
    · rfl
    · dsimp only
      have := ih (s := (red1 R eps t.coef s).2)
      cases hrt : redTerms R eps l (red1 R eps t.coef s).2 with
      | top => trivial
      | stop q' => rw [hrt] at this; simp only [List.map_cons]; rw [this]
      | ok q' s'' => rw [hrt] at this; simp only [List.map_cons]; rw [this]

theorem sortedQ_of_syms {p q : List (Term K)} (h : p.map Term.sym = q.map Term.sym) (hq : SortedQ q) : SortedQ p := by
  have key : ∀ l : List (Term K), SortedQ l ↔ (l.map Term.sym).Pairwise (fun s t => s.index < t.index) := by
    intro l; unfold SortedQ; rw [List.pairwise_map]
  rw [key, h, ← key]; exact hq

theorem below_of_syms {p q : List (Term K)} {k : ℕ} (h : p.map Term.sym = q.map Term.sym) (hq : Below k q) : Below k p := by
  intro t ht
  have : t.sym ∈ p.map Term.sym := List.mem_map_of_mem ht
  rw [h] at this
  obtain ⟨u, hu, e⟩ := List.mem_map.1 this
  rw [← e]; exact hq u hu

/-- Conditions under which the reduction is sound: no overflow, and no coefficient with exactly one infinite bound next
to a finite centre. -/
def ReduceSafe (R : Rnd K) (eps : K) (a : Aff K) : Prop :=
  a.c.hasInfty = true ∨ (Itv.MidFin R a.c ∧ (∀ t ∈ a.q, Itv.MidFin R t.coef) ∧
    match redTerms R eps a.q (red1 R eps a.c (Itv.point 0)).2 with
    | .top => True
    | .stop _ => False
    | .ok _ s => s.sup ≠ pinf)

/-- a new term with a new symbol -/
theorem nsymCreate_sound (hε : Noise ε) {k : ℕ} {a : Aff K} (hb : Below k a.q) {x r : K} (ha : a.Val ε x) {s : Bound K} (hs : s ≠ pinf)
    (hr : fin |r| ≤ s) {un : Bool} : ∃ ε', Noise ε' ∧ (∀ j < k, ε' j = ε j) ∧
    (nsymCreate k a ⟨Bound.neg s, s⟩ un).1.Val ε' (x + r) := by
  cases s with
  | pinf => exact absurd rfl hs
  | ninf => simp at hr
  | fin q =>
    rw [fin_le_fin] at hr
    have hq : 0 ≤ q := le_trans (abs_nonneg r) hr
    unfold nsymCreate
    split_ifs with h
    · have : r = 0 := by
        have hq0 : q ≤ 0 := by
          unfold Itv.isLeq at h
          split_ifs at h with h1 h2
          · rw [Itv.isCanonicalBottom_iff] at h1
            simp only [Itv.bottom, Itv.mk.injEq, Bound.fin.injEq] at h1
            linarith [h1.2]
          · rw [Bool.and_eq_true, decide_eq_true_eq, Bound.cmp_le_zero] at h
            simpa [Itv.point] using h.1
        have : |r| = 0 := le_antisymm (le_trans hr hq0) (abs_nonneg _)
        exact abs_eq_zero.1 this
      exact ⟨ε, hε, fun _ _ => rfl, by rw [this, add_zero]; exact ha⟩
    · obtain ⟨η, h1, h2⟩ : ∃ η : K, (-1 ≤ η ∧ η ≤ 1) ∧ r = q * η := by
        rcases hq.lt_or_eq with hq | hq
        · refine ⟨r / q, ?_, by field_simp⟩
          rw [← abs_le, abs_div, abs_of_pos hq, div_le_one hq]; exact hr
        · refine ⟨0, by constructor <;> norm_num, ?_⟩
          rw [← hq] at hr ⊢
          rw [zero_mul]; exact abs_eq_zero.1 (le_antisymm hr (abs_nonneg _))
      obtain ⟨c, y, hc, hy, rfl⟩ := ha
      refine ⟨Function.update ε k η, ?_, fun j hj => Function.update_of_ne (by omega) _ _, c, y + (q * η + 0), hc, ?_, by rw [h2]; ring⟩
      · intro j
        by_cases hj : j = k
        · rw [hj, Function.update_self, Itv.mem_muu]; exact h1
        · rw [Function.update_of_ne hj]; exact hε j
      · refine TermsVal.append (hy.congr hb fun j hj => (Function.update_of_ne (by omega) _ _).symm) ?_
        refine ⟨q, 0, Itv.mem_sup_point, rfl, ?_⟩
        simp

theorem reduce_val {eps : K} (hε : Noise ε) {k : ℕ} {a : Aff K} (hb : Below k a.q) (hs : ReduceSafe R eps a) {x : K}
    (ha : a.Val ε x) : ∃ ε', Noise ε' ∧ (∀ j < k, ε' j = ε j) ∧ (reduce R eps k a).1.Val ε' x := by
  unfold reduce
  split_ifs with h
  · exact ⟨ε, hε, fun _ _ => rfl, ha⟩
  · obtain ⟨hm1, hm2, hm3⟩ := hs.resolve_left h
    obtain ⟨c, y, hc, hy, rfl⟩ := ha
    obtain ⟨m, h1, h2⟩ := red1_spec (eps := eps) (s := Itv.point 0) (r := 0) hm1 hc (by simp [Itv.point])
    dsimp only
    have hsy := redTerms_sorted (R := R) (eps := eps) a.q (s := (red1 R eps a.c (Itv.point 0)).2)
    cases hrt : redTerms R eps a.q (red1 R eps a.c (Itv.point 0)).2 with
    | top => exact ⟨ε, hε, fun _ _ => rfl, (Aff.Has.top _).1⟩
    | stop q => rw [hrt] at hm3; exact absurd hm3 (by simp)
    | ok q s =>
      rw [hrt] at hm3 hsy
      rw [abs_zero, zero_add] at h2
      obtain ⟨z, r', h3, h4, h5⟩ := redTerms_sound hε a.q hm2 hrt h2 hy
      have hval : (⟨(red1 R eps a.c (Itv.point 0)).1, q, a.itv⟩ : Aff K).Val ε (m + z) := ⟨m, z, h1, h3, rfl⟩
      have hxe : c + y = m + z + r' := by linear_combination h5
      dsimp only
      split_ifs with hz
      · rw [Itv.isZero_eq hz] at h4
        have : r' = 0 := by
          simp only [Itv.point, fin_le_fin] at h4
          exact abs_eq_zero.1 (le_antisymm h4 (abs_nonneg _))
        rw [this, add_zero] at hxe
        exact ⟨ε, hε, fun _ _ => rfl, by rw [hxe]; exact hval⟩
      · have hb' : Below k (⟨(red1 R eps a.c (Itv.point 0)).1, q, a.itv⟩ : Aff K).q := below_of_syms hsy hb
        obtain ⟨ε', h6, h7, h8⟩ := nsymCreate_sound hε hb' hval hm3 h4 (un := true)
        exact ⟨ε', h6, h7, by rw [hxe]; exact h8⟩

theorem reduce_itv {eps : K} {k : ℕ} {a : Aff K} :
    (reduce R eps k a).1.itv = a.itv ∨ (reduce R eps k a).1 = Aff.top := by
  unfold reduce
  split_ifs with h
  · exact .inl rfl
  · dsimp only
    cases hrt : redTerms R eps a.q (red1 R eps a.c (Itv.point 0)).2 with
    | top => exact .inr rfl
    | stop q => exact .inl rfl
    | ok q s =>
      left
      dsimp only
      split_ifs with hz
      · rfl
      · unfold nsymCreate; split_ifs <;> rfl

theorem reduce_sound {eps : K} (hε : Noise ε) {k : ℕ} {a : Aff K} (hb : Below k a.q) (hs : ReduceSafe R eps a) {x : K}
    (ha : a.Has ε x) : ∃ ε', Noise ε' ∧ (∀ j < k, ε' j = ε j) ∧ (reduce R eps k a).1.Has ε' x := by
  obtain ⟨ε', h1, h2, h3⟩ := reduce_val hε hb hs ha.1
  refine ⟨ε', h1, h2, h3, ?_⟩
  rcases reduce_itv (R := R) (eps := eps) (k := k) (a := a) with h | h
  · rw [h]; exact ha.2
  · rw [h]; exact (Aff.Has.top (ε := ε') x).2

theorem reduce_top {eps : K} {k : ℕ} : reduce R eps k (Aff.top : Aff K) = (Aff.top, k) := by
  unfold reduce
  rw [if_pos (by simp [Aff.top, Itv.hasInfty, Itv.top, Bound.infty])]

theorem nsymCreate_wf {k : ℕ} {a : Aff K} {c : Itv K} {un : Bool} (hb : Below k a.q) (hs : SortedQ a.q) :
    Below (nsymCreate k a c un).2 (nsymCreate k a c un).1.q ∧ SortedQ (nsymCreate k a c un).1.q ∧ k ≤ (nsymCreate k a c un).2 := by
  unfold nsymCreate
  split_ifs
  · exact ⟨hb, hs, le_refl _⟩
  · refine ⟨?_, ?_, Nat.le_succ _⟩
    · intro t ht
      rcases List.mem_append.1 ht with h | h
      · exact Nat.lt_succ_of_lt (hb t h)
      · rw [List.mem_singleton.1 h]; exact Nat.lt_succ_self _
    · refine List.pairwise_append.2 ⟨hs, by simp, fun t ht u hu => ?_⟩
      rw [List.mem_singleton.1 hu]; exact hb t ht

theorem reduce_wf {eps : K} {k : ℕ} {a : Aff K} (hb : Below k a.q) (hs : SortedQ a.q) :
    Below (reduce R eps k a).2 (reduce R eps k a).1.q ∧ SortedQ (reduce R eps k a).1.q ∧ k ≤ (reduce R eps k a).2 := by
  unfold reduce
  split_ifs with h
  · exact ⟨hb, hs, le_refl _⟩
  · dsimp only
    have hsy := redTerms_sorted (R := R) (eps := eps) a.q (s := (red1 R eps a.c (Itv.point 0)).2)
    cases hrt : redTerms R eps a.q (red1 R eps a.c (Itv.point 0)).2 with
    | top => exact ⟨below_nil, List.Pairwise.nil, le_refl _⟩
    | stop q => rw [hrt] at hsy; exact ⟨below_of_syms hsy hb, sortedQ_of_syms hsy hs, le_refl _⟩
    | ok q s =>
      rw [hrt] at hsy
      dsimp only
      split_ifs with hz
      · exact ⟨below_of_syms hsy hb, sortedQ_of_syms hsy hs, le_refl _⟩
      · exact nsymCreate_wf (a := (⟨(red1 R eps a.c (Itv.point 0)).1, q, a.itv⟩ : Aff K)) (below_of_syms hsy hb) (sortedQ_of_syms hsy hs)

end T1p
end Apron
