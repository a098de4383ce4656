import Verif.Box.Policy
import Verif.Box.ConstraintLemmas
import Verif.Itv.ReduceLemmas

/-! # Lemmas on policies -/

set_option autoImplicit false
set_option linter.unusedSectionVars false
set_option linter.ambiguousOpen false

namespace Apron
open Bound ILincons ILinexpr
variable {K : Type*} [LinearOrder K] [Field K] [IsStrictOrderedRing K] [FloorRing K] {R : Rnd K}

/-! ## the deduced bounds are those of the boxization -/

theorem div_exact_neg_left (b : Bound K) {q : K} (hq : q < 0) :
    Bound.div Rnd.exact (Bound.neg b) (fin q) = Bound.neg (Bound.div Rnd.exact b (fin q)) := by
  rcases b with _ | p | _
  · simp [Bound.div, Bound.neg, infty, sgn, ofSgn, hq]
  · rcases lt_trichotomy p 0 with h' | h' | h'
    · simp [Bound.div, Bound.neg, infty, sgn, Rnd.exact, hq, h', h'.ne, not_lt.2 h'.le, neg_div]
    · simp [Bound.div, Bound.neg, infty, sgn, h']
    · simp [Bound.div, Bound.neg, infty, sgn, Rnd.exact, hq, h', h'.ne', not_lt.2 h'.le, neg_div]
  · simp [Bound.div, Bound.neg, infty, sgn, ofSgn, hq]

theorem div_exact_neg_right (b : Bound K) {q : K} (hq : q < 0) :
    Bound.div Rnd.exact b (Bound.neg (fin q)) = Bound.neg (Bound.div Rnd.exact b (fin q)) := by
  have hq' : ¬ 0 < q := not_lt.2 hq.le
  rcases b with _ | p | _
  · simp [Bound.div, Bound.neg, infty, sgn, ofSgn, hq, hq', hq.ne]
  · rcases lt_trichotomy p 0 with h' | h' | h'
    · simp [Bound.div, Bound.neg, infty, sgn, Rnd.exact, hq, hq', hq.ne, h', div_neg]
    · simp [Bound.div, Bound.neg, infty, sgn, h']
    · simp [Bound.div, Bound.neg, infty, sgn, Rnd.exact, hq, hq', hq.ne, h'.ne', not_lt.2 h'.le, div_neg]
  · simp [Bound.div, Bound.neg, infty, sgn, ofSgn, hq, hq', hq.ne]

theorem coeffSgn_point (q : K) : coeffSgn (Itv.point q) = if 0 < q then 1 else if q < 0 then -1 else 0 := by
  unfold coeffSgn Itv.point
  simp only [sgn_neg_iff, fin_lt_fin, neg_lt_zero]

theorem polInf_eq {typ : ConsTyp K} {eq : Bool} {a ev : Itv K} {q : K} (hq : q ∈ a) (h0 : coeffSgn a ≠ 0)
    (hf : eq = true → a = Itv.point q) (hty : eq = true ∨ (typ ≠ .eq ∧ R = Rnd.exact)) :
    polInf R typ eq a ev = infBound R typ eq a ev := by
  unfold polInf infBound
  cases eq with
  | true =>
    rw [hf rfl] at h0 ⊢
    rw [coeffSgn_point] at h0 ⊢
    rcases lt_trichotomy q 0 with h | h | h
    · simp [h, not_lt.2 h.le, Itv.point, sgn, h.ne]
    · simp [h] at h0
    · simp [h, not_lt.2 h.le, Itv.point, sgn, h.ne']
  | false =>
    obtain ⟨ht, hR⟩ := hty.resolve_left (by simp)
    subst hR
    unfold coeffSgn at *
    by_cases h1 : sgn a.inf < 0
    · simp only [h1, if_true, true_or, Bool.false_eq_true, if_false, one_pos, zero_lt_one]
      split_ifs with h2
      · rfl
      · obtain ⟨m, hm⟩ : ∃ m, a.inf = fin m := by
          rcases hi : a.inf with _ | m | _
          · have := hq.1; rw [hi] at this; simp at this
          · exact ⟨m, rfl⟩
          · rw [hi] at h1; simp at h1
        rw [hm] at h1 ⊢
        rw [sgn_neg_iff, fin_lt_fin] at h1
        rw [div_exact_neg_left _ h1]
    · simp [h1, ht]
      intro h
      split_ifs at h <;> simp at h

theorem polSup_eq {typ : ConsTyp K} {eq : Bool} {a ev : Itv K} {q : K} (hq : q ∈ a) (h0 : coeffSgn a ≠ 0)
    (hf : eq = true → a = Itv.point q) (hty : eq = true ∨ (typ ≠ .eq ∧ R = Rnd.exact)) :
    polSup R typ eq a ev = supBound R typ eq a ev := by
  unfold polSup supBound
  cases eq with
  | true =>
    rw [hf rfl] at h0 ⊢
    rw [coeffSgn_point] at h0 ⊢
    rcases lt_trichotomy q 0 with h | h | h
    · simp [h, not_lt.2 h.le, Itv.point, sgn]
    · simp [h] at h0
    · simp [h, not_lt.2 h.le, Itv.point, sgn, h.ne']
  | false =>
    obtain ⟨ht, hR⟩ := hty.resolve_left (by simp)
    subst hR
    unfold coeffSgn at *
    by_cases h1 : sgn a.inf < 0
    · simp [h1, ht]
    · by_cases h2 : sgn a.sup < 0
      · simp only [h1, h2, if_true, if_false, Bool.false_eq_true, Int.reduceNeg, Int.neg_neg_iff_pos, zero_lt_one,
          true_or]
        split_ifs with h3
        · obtain ⟨m, hm⟩ : ∃ m, a.sup = fin m := by
            rcases hi : a.sup with _ | m | _
            · have := hq.2; rw [hi] at this; simp at this
            · exact ⟨m, rfl⟩
            · rw [hi] at h2; simp at h2
          rw [hm] at h2 ⊢
          rw [sgn_neg_iff, fin_lt_fin] at h2
          rw [div_exact_neg_right _ h2]
        · rfl
      · simp [h1, h2] at h0

/-! ## soundness -/

/-- what the soundness of the deductions needs: as for the boxization, and scalar coefficients in equalities -/
structure OkPol (R : Rnd K) (c : ILincons K) : Prop where
  ok : OkFor R c
  coef : ∀ t ∈ c.expr.terms, t.eq = true ∨ (c.typ ≠ .eq ∧ R = Rnd.exact)

theorem widen_ge {y : K} {b : Bound K} (c : Choice) (h : fin y ≤ b) : fin y ≤ c.widen b := by
  unfold Choice.widen; split_ifs; exacts [le_pinf _, h]

theorem replace_ge {y : K} {b : Bound K} {new : Option (Bound K)} (c : Choice) (h : fin y ≤ b)
    (hn : ∀ b', new = some b' → fin y ≤ b') : fin y ≤ c.replace new b := by
  unfold Choice.replace
  split_ifs
  · cases new with
    | none => exact h
    | some b' => exact hn b' rfl
  · exact h

theorem polTerm_sound {c : ILincons K} (hc : OkPol R c) (hb : c.basic = true) (π : PolDim) {env : ℕ → Itv K} {i : ℕ}
    {t : ITerm K} (ht : c.expr.terms[i]? = some t) {x : ℕ → K} (hx : c.Holds x)
    (henv : ∀ t ∈ c.expr.terms, x t.dim ∈ env t.dim) : x t.dim ∈ polTerm R π c env i t := by
  have htm : t ∈ c.expr.terms := List.mem_of_getElem? ht
  have hold := henv t htm
  unfold polTerm
  split_ifs with h0
  · exact ⟨widen_ge _ hold.1, widen_ge _ hold.2⟩
  · have hty : c.typ = .eq ∨ c.typ = .supeq ∨ c.typ = .sup := by
      unfold ILincons.basic at hb
      cases h : c.typ <;> simp [h] at hb ⊢
    obtain ⟨v, hv, hr⟩ := hx
    obtain ⟨q, w, hq, hw, rfl⟩ := val_split hv ht
    have hev : w ∈ (zeroAt c.expr i).eval R env := by
      refine mem_eval R (flagsOk_zeroAt hc.ok.flags i) hw ?_
      intro u hu
      rcases zeroAt_mem hu with hu | ⟨s, hs, rfl⟩
      · exact henv u hu
      · exact henv s hs
    have hf : t.eq = true → t.itv = Itv.point q := fun h => hc.ok.flags t htm h q hq
    have hR : t.eq = true ∨ R = Rnd.exact := (hc.coef t htm).imp id And.right
    refine ⟨replace_ge _ hold.1 fun b hb => ?_, replace_ge _ hold.2 fun b hb => ?_⟩
    · rw [polInf_eq hq h0 hf (hc.coef t htm)] at hb
      obtain ⟨y, h1, _, h3⟩ := infBound_sound hty hf hR hq hev hr hb
      exact le_trans ((fin_le_fin _ _).2 h1) h3
    · rw [polSup_eq hq h0 hf (hc.coef t htm)] at hb
      obtain ⟨y, h1, _, h3⟩ := supBound_sound hty hf hR hq hev hr hb
      exact le_trans ((fin_le_fin _ _).2 h1) h3

theorem polGo_sound {c : ILincons K} (hc : OkPol R c) (hb : c.basic = true) (π : ℕ → PolDim) {intdim : ℕ}
    {x : ℕ → K} (hx : c.Holds x) {D : ℕ → Prop} (hD : ∀ t ∈ c.expr.terms, D t.dim)
    (hint : ∀ d, D d → d < intdim → ∃ n : ℤ, x d = n) :
    ∀ (l : List (ITerm K)) (i : ℕ) (p : ℕ → Itv K), c.expr.terms.drop i = l → (∀ d, D d → x d ∈ p d) →
      ∃ p', polGo R π c intdim i l p = some p' ∧ ∀ d, D d → x d ∈ p' d := by
  intro l
  induction l with
  | nil => intro i p _ h; exact ⟨p, rfl, h⟩
  | cons t l ih =>
    intro i p hl hp
    have ht : c.expr.terms[i]? = some t := by rw [← List.head?_drop, hl]; rfl
    have hdrop : c.expr.terms.drop (i + 1) = l := by rw [← List.drop_drop, hl]; rfl
    have htm : t ∈ c.expr.terms := List.mem_of_getElem? ht
    have hstep := polTerm_sound hc hb (π t.dim) ht hx (env := p) fun u hu => hp _ (hD u hu)
    have hcan := mem_canonicalize (b := decide (t.dim < intdim)) hstep
      (fun h => hint _ (hD t htm) (by simpa using h))
    unfold polGo
    simp only
    rw [if_neg (by rw [Itv.not_isBottom hcan]; simp)]
    refine ih (i + 1) _ hdrop fun d hd => ?_
    by_cases h : d = t.dim
    · subst h; simpa using hcan
    · rw [Function.update_of_ne h]; exact hp d hd

theorem polUnsat_sound {c : ILincons K} (hc : OkPol R c) (he : c.expr.terms.isEmpty = true) {x : ℕ → K}
    (hx : c.Holds x) : polUnsat c = false := by
  obtain ⟨v, hv, hr⟩ := hx
  have hv := (val_nil he).1 hv
  have hcst := hc.ok.cst he
  unfold polUnsat
  have h1 := hv.1
  have h2 := hv.2
  cases ht : c.typ with
  | eq =>
    rw [ht] at hr
    simp only [Lincons.Rel] at hr
    subst hr
    simp only [decide_eq_false_iff_not, not_or, not_lt]
    rw [sgn_nonneg_iff]
    refine ⟨h2, ?_⟩
    split_ifs with heq
    · rw [hcst heq 0 hv]; simp [Itv.point]
    · have : 0 ≤ sgn c.expr.cst.inf := by rw [sgn_nonneg_iff]; simpa using h1
      omega
  | supeq =>
    rw [ht] at hr
    simp only [decide_eq_false_iff_not, not_lt]
    rw [sgn_nonneg_iff]
    exact le_trans ((fin_le_fin _ _).2 hr) h2
  | sup =>
    rw [ht] at hr
    simp only [decide_eq_false_iff_not, not_le]
    rw [sgn_pos_iff]
    exact lt_of_lt_of_le ((fin_lt_fin _ _).2 hr) h2
  | diseq => rfl
  | eqmod m => rfl

theorem polLincons_sound {c : ILincons K} (hc : OkPol R c) (hb : c.basic = true) (π : ℕ → PolDim) {intdim : ℕ}
    {x : ℕ → K} (hx : c.Holds x) {D : ℕ → Prop} (hD : ∀ t ∈ c.expr.terms, D t.dim)
    (hint : ∀ d, D d → d < intdim → ∃ n : ℤ, x d = n) {p : ℕ → Itv K} (hp : ∀ d, D d → x d ∈ p d) :
    ∃ p', polLincons R π c intdim p = some p' ∧ ∀ d, D d → x d ∈ p' d := by
  obtain ⟨p', h1, h2⟩ := polGo_sound hc hb π hx hD hint c.expr.terms 0 p rfl hp
  unfold polLincons
  rw [h1, Option.bind_some, if_neg (by
    rintro ⟨h, h'⟩
    rw [polUnsat_sound hc h hx] at h'
    simp at h')]
  refine ⟨_, rfl, fun d hd => ?_⟩
  split_ifs
  · exact ⟨widen_ge _ (h2 d hd).1, widen_ge _ (h2 d hd).2⟩
  · exact h2 d hd

theorem polRun_sound {intdim : ℕ} {x : ℕ → K} {D : ℕ → Prop} (hint : ∀ d, D d → d < intdim → ∃ n : ℤ, x d = n) :
    ∀ (l : List ((ℕ → PolDim) × Option (ILincons K))) (p : ℕ → Itv K) (r : Option (ℕ → Itv K)),
      (∀ s ∈ l, ∀ c, s.2 = some c → OkPol R c ∧ c.Holds x ∧ ∀ t ∈ c.expr.terms, D t.dim) →
      (∀ d, D d → x d ∈ p d) → polRun R intdim l p = some r → ∃ p', r = some p' ∧ ∀ d, D d → x d ∈ p' d := by
  intro l
  induction l with
  | nil =>
    intro p r _ hp h
    unfold polRun at h
    exact ⟨p, by simpa using h.symm, hp⟩
  | cons s l ih =>
    intro p r hl hp h
    obtain ⟨π, c⟩ := s
    cases c with
    | none => unfold polRun at h; simp at h
    | some c =>
      unfold polRun at h
      split_ifs at h with hb
      obtain ⟨h1, h2, h3⟩ := hl _ List.mem_cons_self c rfl
      obtain ⟨p', h4, h5⟩ := polLincons_sound h1 hb π h2 h3 hint hp
      rw [h4] at h
      exact ih p' r (fun s hs => hl s (List.mem_cons_of_mem _ hs)) h5 h

theorem mem_polSeq {kmax n : ℕ} {t : List (ILincons K)} {c : ILincons K} (h : some c ∈ polSeq kmax n t) : c ∈ t := by
  unfold polSeq at h
  simp only [List.mem_flatMap, List.mem_map] at h
  obtain ⟨_, _, i, _, h⟩ := h
  exact List.mem_of_getElem? h

/-! ## monotonicity -/

/-- rounding respects the order and keeps zero -/
structure RndMono (R : Rnd K) : Prop where
  mono : ∀ p q, p ≤ q → R.up p ≤ R.up q
  zero : R.up 0 = fin 0

theorem rndMono_exact : RndMono (Rnd.exact : Rnd K) := ⟨fun _ _ h => (fin_le_fin _ _).2 h, rfl⟩

theorem sgn_mono {a b : Bound K} (h : a ≤ b) : sgn a ≤ sgn b := by
  have h1 : sgn a = -1 ∨ sgn a = 0 ∨ sgn a = 1 := by
    rcases a with _ | q | _ <;> simp [sgn]; split_ifs <;> simp_all
  have h2 : sgn b = -1 ∨ sgn b = 0 ∨ sgn b = 1 := by
    rcases b with _ | q | _ <;> simp [sgn]; split_ifs <;> simp_all
  by_contra hn
  rcases h1 with h1 | h1 | h1 <;> rcases h2 with h2 | h2 | h2 <;> rw [h1, h2] at hn <;> try omega
  · rw [sgn_zero_iff] at h1
    have : sgn b < 0 := by omega
    rw [sgn_neg_iff] at this
    exact absurd (lt_of_le_of_lt h this) (by rw [h1]; simp)
  · have h1' : 0 < sgn a := by omega
    have : sgn b < 0 := by omega
    rw [sgn_neg_iff] at this
    rw [sgn_pos_iff] at h1'
    exact absurd (lt_trans (lt_of_lt_of_le h1' h) this) (lt_irrefl _)
  · have h1' : 0 < sgn a := by omega
    rw [sgn_zero_iff] at h2
    rw [sgn_pos_iff] at h1'
    rw [h2] at h
    exact absurd (lt_of_lt_of_le h1' h) (lt_irrefl _)

theorem add_mono (hR : RndMono R) {a b c d : Bound K} (h1 : a ≤ b) (h2 : c ≤ d) :
    Bound.add R a c ≤ Bound.add R b d := by
  rcases a with _ | p | _ <;> rcases b with _ | q | _ <;> rcases c with _ | p' | _ <;> rcases d with _ | q' | _ <;>
    simp [Bound.add] at h1 h2 ⊢
  exact hR.mono _ _ (by linarith)

theorem mul_fin_fin (hR : RndMono R) (p k : K) : Bound.mul R (fin p) (fin k) = R.up (p * k) := by
  unfold Bound.mul
  split_ifs with h
  · rw [sgn_zero_iff, sgn_zero_iff] at h
    rcases h with h | h <;> simp only [fin.injEq] at h <;> simp [h, hR.zero]
  · rfl

theorem mul_mono (hR : RndMono R) {a b c : Bound K} (hc : 0 ≤ sgn c) (h : a ≤ b) :
    Bound.mul R a c ≤ Bound.mul R b c := by
  rcases eq_or_lt_of_le hc with hc | hc
  · unfold Bound.mul; simp [← hc]
  rcases c with _ | k | _
  · simp at hc
  · rw [sgn_pos_iff, fin_lt_fin] at hc
    have hp : Bound.mul R pinf (fin k) = pinf := by
      simp [Bound.mul, sgn, ofSgn, hc.ne', not_lt.2 hc.le]
    have hn : Bound.mul R ninf (fin k) = ninf := by
      simp [Bound.mul, sgn, ofSgn, hc.ne', not_lt.2 hc.le]
    rcases a with _ | p | _
    · rw [hn]; simp
    · rcases b with _ | q | _
      · simp at h
      · rw [mul_fin_fin hR, mul_fin_fin hR]
        exact hR.mono _ _ (mul_le_mul_of_nonneg_right (by simpa using h) hc.le)
      · rw [hp]; simp
    · rcases b with _ | q | _
      · simp at h
      · simp at h
      · exact le_refl _
  · have hs := sgn_mono h
    have key : ∀ e : Bound K, Bound.mul R e pinf = if sgn e = 0 then fin 0 else ofSgn (sgn e) := by
      intro e
      rcases e with _ | q | _ <;> simp [Bound.mul]
    have h1 : sgn a = -1 ∨ sgn a = 0 ∨ sgn a = 1 := by
      rcases a with _ | q | _ <;> simp [sgn]; split_ifs <;> simp_all
    have h2 : sgn b = -1 ∨ sgn b = 0 ∨ sgn b = 1 := by
      rcases b with _ | q | _ <;> simp [sgn]; split_ifs <;> simp_all
    rw [key, key]
    rcases h1 with h1 | h1 | h1 <;> rcases h2 with h2 | h2 | h2 <;> rw [h1, h2] <;>
      first
      | (exfalso; rw [h1, h2] at hs; omega)
      | simp [ofSgn]

theorem div_mono (hR : RndMono R) {a b : Bound K} {k : K} (hk : 0 < k) (h : a ≤ b) :
    Bound.div R a (fin k) ≤ Bound.div R b (fin k) := by
  have hf : ∀ p, Bound.div R (fin p) (fin k) = R.up (p / k) := by
    intro p
    unfold Bound.div
    split_ifs with h1 h2
    · rw [sgn_zero_iff] at h1
      rcases h1 with h1 | h1
      · simp only [fin.injEq] at h1; simp [h1, hR.zero]
      · simp [infty] at h1
    · rw [sgn_zero_iff] at h2
      simp only [fin.injEq] at h2
      exact absurd h2 hk.ne'
    · rfl
  have hp : Bound.div R pinf (fin k) = pinf := by
    simp [Bound.div, sgn, ofSgn, hk.ne', not_lt.2 hk.le, infty]
  have hn : Bound.div R ninf (fin k) = ninf := by
    simp [Bound.div, sgn, ofSgn, hk.ne', not_lt.2 hk.le, infty]
  rcases a with _ | p | _
  · rw [hn]; simp
  · rcases b with _ | q | _
    · simp at h
    · rw [hf, hf]
      exact hR.mono _ _ (div_le_div_of_nonneg_right (by simpa using h) hk.le)
    · rw [hp]; simp
  · rcases b with _ | q | _
    · simp at h
    · simp at h
    · exact le_refl _

theorem floor_mono {a b : Bound K} (h : a ≤ b) : Bound.floor a ≤ Bound.floor b := by
  rcases a with _ | p | _ <;> rcases b with _ | q | _ <;> simp [Bound.floor] at h ⊢
  exact Int.floor_le_floor h

/-- order on intervals, bound by bound -/
def ItvLe (a b : Itv K) : Prop := a.inf ≤ b.inf ∧ a.sup ≤ b.sup

theorem canonicalize_mono {a b : Itv K} (h : ItvLe a b) (g : Bool) :
    ItvLe (Itv.canonicalize a g) (Itv.canonicalize b g) := by
  unfold Itv.canonicalize
  split_ifs
  · exact ⟨floor_mono h.1, floor_mono h.2⟩
  · exact h

theorem mulBound_mono (hR : RndMono R) {a b : Itv K} (h : ItvLe a b) (c : Bound K) :
    ItvLe (Itv.mulBound R a c) (Itv.mulBound R b c) := by
  unfold Itv.mulBound
  split_ifs with hc
  · exact ⟨mul_mono hR hc h.1, mul_mono hR hc h.2⟩
  · have : 0 ≤ sgn (Bound.neg c) := by
      rw [sgn_nonneg_iff] at hc ⊢
      have h0 : Bound.neg (fin (0 : K)) = fin 0 := by simp
      exact h0 ▸ (Bound.neg_le_neg (fin 0) c).2 (not_le.1 hc).le
    exact ⟨mul_mono hR this h.2, mul_mono hR this h.1⟩

theorem evalStep_mono (hR : RndMono R) {env env' : ℕ → Itv K} (he : ArrLe env env') {t : ITerm K} (ht : t.eq = true)
    {a b : Itv K} (h : ItvLe a b) : ItvLe (evalStep R env t a) (evalStep R env' t b) := by
  unfold evalStep
  rw [if_pos ht, if_pos ht]
  split_ifs
  · have := mulBound_mono hR (he t.dim) t.itv.sup
    exact ⟨add_mono hR h.1 this.1, add_mono hR h.2 this.2⟩
  · exact h

theorem evalStep_inf (env : ℕ → Itv K) {t : ITerm K} (ht : t.eq = true) {a : Itv K} :
    (infty a.inf = true → (evalStep R env t a).inf = a.inf) ∧
    (infty a.sup = true → (evalStep R env t a).sup = a.sup) := by
  unfold evalStep
  rw [if_pos ht]
  split_ifs
  · constructor <;> intro h
    · rcases hi : a.inf with _ | q | _ <;> simp [Itv.add, hi, Bound.add, infty] at h ⊢
    · rcases hi : a.sup with _ | q | _ <;> simp [Itv.add, hi, Bound.add, infty] at h ⊢
  · exact ⟨fun _ => rfl, fun _ => rfl⟩

theorem evalTerms_inf (env : ℕ → Itv K) : ∀ (l : List (ITerm K)) (a : Itv K), (∀ t ∈ l, t.eq = true) →
    (infty a.inf = true → (evalTerms R env l a).inf = a.inf) ∧
    (infty a.sup = true → (evalTerms R env l a).sup = a.sup) := by
  intro l
  induction l with
  | nil => intro a _; exact ⟨fun _ => rfl, fun _ => rfl⟩
  | cons t l ih =>
    intro a hl
    have h1 := evalStep_inf (R := R) env (hl t List.mem_cons_self) (a := a)
    have h2 := ih (evalStep R env t a) fun t ht => hl t (List.mem_cons_of_mem _ ht)
    unfold evalTerms
    split_ifs
    · exact h1
    · exact ⟨fun h => (h2.1 (by rw [h1.1 h]; exact h)).trans (h1.1 h),
        fun h => (h2.2 (by rw [h1.2 h]; exact h)).trans (h1.2 h)⟩

/-- evaluation without the early exit -/
theorem evalTerms_fold (env : ℕ → Itv K) : ∀ (l : List (ITerm K)) (a : Itv K), (∀ t ∈ l, t.eq = true) →
    evalTerms R env l a = l.foldl (fun a t => evalStep R env t a) a := by
  intro l
  induction l with
  | nil => intro a _; rfl
  | cons t l ih =>
    intro a hl
    have hl' : ∀ t ∈ l, t.eq = true := fun t ht => hl t (List.mem_cons_of_mem _ ht)
    rw [List.foldl_cons, ← ih _ hl']
    unfold evalTerms
    split_ifs with h
    · unfold Itv.isTop at h
      rw [Bool.and_eq_true] at h
      have := evalTerms_inf (R := R) env l (evalStep R env t a) hl'
      have e := Itv.mk.injEq _ _ _ _ ▸ (⟨this.1 h.1, this.2 h.2⟩ : _ ∧ _)
      have e1 := this.1 h.1
      have e2 := this.2 h.2
      cases l with
      | nil => rfl
      | cons u l' =>
        rcases hb : evalStep R env t a with ⟨i, s⟩
        rw [hb] at e1 e2
        rcases hc : evalTerms R env (u :: l') ⟨i, s⟩ with ⟨i', s'⟩
        rw [hc] at e1 e2
        simp only at e1 e2
        have : evalTerms R env (u :: l') ⟨i, s⟩ = ⟨i, s⟩ := by rw [hc, e1, e2]
        unfold evalTerms at this
        exact this.symm
    · cases l <;> rfl

theorem eval_mono (hR : RndMono R) {env env' : ℕ → Itv K} (he : ArrLe env env') {e : ILinexpr K}
    (ht : ∀ t ∈ e.terms, t.eq = true) : ItvLe (e.eval R env) (e.eval R env') := by
  unfold ILinexpr.eval
  rw [evalTerms_fold _ _ _ ht, evalTerms_fold _ _ _ ht]
  have key : ∀ (l : List (ITerm K)) (a b : Itv K), (∀ t ∈ l, t.eq = true) → ItvLe a b →
      ItvLe (l.foldl (fun a t => evalStep R env t a) a) (l.foldl (fun a t => evalStep R env' t a) b) := by
    intro l
    induction l with
    | nil => intro a b _ h; exact h
    | cons t l ih =>
      intro a b hl h
      exact ih _ _ (fun t ht => hl t (List.mem_cons_of_mem _ ht)) (evalStep_mono hR he (hl t List.mem_cons_self) h)
  exact key _ _ _ ht ⟨le_refl _, le_refl _⟩

/-! ## the choices of the improvement are the best ones -/

/-- scalar coefficients, one per dimension -/
structure PtOk (c : ILincons K) : Prop where
  pt : ∀ t ∈ c.expr.terms, t.eq = true ∧ ∃ q, t.itv = Itv.point q
  nodup : (c.expr.terms.map ITerm.dim).Nodup

theorem polInf_mono (hR : RndMono R) {typ : ConsTyp K} {q : K} (hq : q ≠ 0) {ev ev' : Itv K} (h : ItvLe ev ev')
    {b' : Bound K} (hb : polInf R typ true (Itv.point q) ev' = some b') :
    ∃ b, polInf R typ true (Itv.point q) ev = some b ∧ b ≤ b' := by
  unfold polInf at hb ⊢
  rw [coeffSgn_point] at hb ⊢
  rcases lt_or_gt_of_ne hq with h0 | h0
  · simp only [not_lt.2 h0.le, h0, if_true, if_false, Int.reduceNeg, Left.nonneg_neg_iff, Int.reduceLE, false_or,
      Left.neg_pos_iff, Int.reduceLT] at hb ⊢
    split_ifs at hb ⊢ with ht
    · simp only [Option.some.injEq] at hb ⊢
      subst hb
      exact ⟨_, rfl, div_mono hR (by simpa using h0) h.1⟩
  · simp only [h0, if_true, zero_lt_one, true_or, Option.some.injEq] at hb ⊢
    subst hb
    exact ⟨_, rfl, div_mono hR h0 h.2⟩

theorem polSup_mono (hR : RndMono R) {typ : ConsTyp K} {q : K} (hq : q ≠ 0) {ev ev' : Itv K} (h : ItvLe ev ev')
    {b' : Bound K} (hb : polSup R typ true (Itv.point q) ev' = some b') :
    ∃ b, polSup R typ true (Itv.point q) ev = some b ∧ b ≤ b' := by
  unfold polSup at hb ⊢
  rw [coeffSgn_point] at hb ⊢
  rcases lt_or_gt_of_ne hq with h0 | h0
  · simp only [not_lt.2 h0.le, h0, if_true, if_false, Int.reduceNeg, Left.neg_neg_iff, zero_lt_one, true_or,
      Option.some.injEq, Int.reduceLT] at hb ⊢
    subst hb
    exact ⟨_, rfl, div_mono hR (by simpa using h0) h.2⟩
  · simp only [h0, if_true, Int.reduceLT, false_or, if_false] at hb ⊢
    split_ifs at hb ⊢ with ht
    · simp only [Option.some.injEq] at hb ⊢
      subst hb
      exact ⟨_, rfl, div_mono hR h0 h.1⟩

theorem best_replace_le (old : Bool) (cur : Bound K) (new : Option (Bound K)) :
    (Choice.best old cur new).replace new cur ≤ cur ∧
    ∀ b, new = some b → (Choice.best old cur new).replace new cur ≤ b := by
  cases new with
  | none => exact ⟨by simp [Choice.best, Choice.replace], by simp⟩
  | some b =>
    simp only [Option.some.injEq, forall_eq', Choice.best]
    split_ifs with h1 h2
    · have := (Bound.cmp_eq_zero _ _).1 h1.1
      simp [Choice.replace, this]
    · have := (Bound.cmp_lt_zero _ _).1 h2
      simp [Choice.replace, this.le]
    · rw [Bound.cmp_lt_zero, not_lt] at h2
      simp [Choice.replace, h2]

theorem replace_best_le {cur cur' : Bound K} {new new' : Option (Bound K)} (old : Bool) (c : Choice) (hc : cur ≤ cur')
    (hn : ∀ b', new' = some b' → ∃ b, new = some b ∧ b ≤ b') :
    (Choice.best old cur new).replace new cur ≤ c.replace new' cur' := by
  obtain ⟨h1, h2⟩ := best_replace_le old cur new
  rw [show c.replace new' cur' = if c = .two then new'.getD cur' else cur' from rfl]
  split_ifs
  · cases new' with
    | none => exact h1.trans hc
    | some b' =>
      obtain ⟨b, hb, hle⟩ := hn b' rfl
      exact (h2 b hb).trans hle
  · exact h1.trans hc

theorem widen_one (b : Bound K) : Choice.one.widen b = b := rfl

theorem le_widen (c : Choice) (b : Bound K) : b ≤ c.widen b := by
  unfold Choice.widen; split_ifs; exacts [le_pinf _, le_refl _]

theorem zeroAt_eq {c : ILincons K} (hc : PtOk c) (i : ℕ) : ∀ t ∈ (zeroAt c.expr i).terms, t.eq = true := by
  intro t ht
  rcases zeroAt_mem ht with h | ⟨u, _, rfl⟩
  · exact (hc.pt t h).1
  · rfl

theorem polTerm_best_le (hR : RndMono R) {c : ILincons K} (hc : PtOk c) (old : Bool) (π : PolDim)
    {env env' : ℕ → Itv K} (he : ArrLe env env') (i : ℕ) {t : ITerm K} (ht : t ∈ c.expr.terms) :
    ItvLe (polTerm R (polBest R old c env i t) c env i t) (polTerm R π c env' i t) := by
  obtain ⟨heq, q, hq⟩ := hc.pt t ht
  have hev := eval_mono hR he (zeroAt_eq hc i)
  unfold polTerm polBest
  by_cases h0 : coeffSgn t.itv = 0
  · rw [if_pos h0, if_pos h0, if_pos (Or.inl h0)]
    exact ⟨((he _).1).trans (le_widen _ _), ((he _).2).trans (le_widen _ _)⟩
  · rw [if_neg h0, if_neg h0, if_neg (by simp [h0, heq])]
    have hq0 : q ≠ 0 := by
      rintro rfl
      rw [hq, coeffSgn_point] at h0
      simp at h0
    simp only [heq, hq]
    exact ⟨replace_best_le _ _ (he _).1 fun b' hb => polInf_mono hR hq0 hev hb,
      replace_best_le _ _ (he _).2 fun b' hb => polSup_mono hR hq0 hev hb⟩

theorem polTerm_best_dec (c : ILincons K) (old : Bool) (env : ℕ → Itv K) (i : ℕ) (t : ITerm K) :
    ItvLe (polTerm R (polBest R old c env i t) c env i t) (env t.dim) := by
  unfold polTerm polBest
  by_cases h0 : coeffSgn t.itv = 0
  · rw [if_pos h0, if_pos (Or.inl h0)]
    exact ⟨le_refl _, le_refl _⟩
  · rw [if_neg h0]
    by_cases h1 : t.eq = false
    · rw [if_pos (Or.inr h1)]
      exact ⟨le_refl _, le_refl _⟩
    · rw [if_neg (by simp [h0, h1])]
      exact ⟨(best_replace_le _ _ _).1, (best_replace_le _ _ _).1⟩

theorem arrLe_update {p p' : ℕ → Itv K} (h : ArrLe p p') (d : ℕ) {a b : Itv K} (hab : ItvLe a b) :
    ArrLe (Function.update p d a) (Function.update p' d b) := by
  intro e
  by_cases he : e = d
  · subst he; rw [Function.update_self, Function.update_self]; exact hab
  · rw [Function.update_of_ne he, Function.update_of_ne he]; exact h e

theorem polBestGo_dec (old : Bool) (c : ILincons K) (intdim : ℕ) :
    ∀ (l : List (ITerm K)) (i : ℕ) (ρ : ℕ → PolDim) (p r : ℕ → Itv K),
      (polBestGo R old c intdim i l ρ p).2 = some r → ArrLe r p := by
  intro l
  induction l with
  | nil => intro i ρ p r h; unfold polBestGo at h; simp only [Option.some.injEq] at h; subst h; exact ArrLe.refl _
  | cons t l ih =>
    intro i ρ p r h
    unfold polBestGo at h
    simp only at h
    split_ifs at h with hb
    refine (ih _ _ _ _ h).trans fun e => ?_
    by_cases he : e = t.dim
    · subst he
      rw [Function.update_self]
      have h1 := canonicalize_le (polTerm R (polBest R old c p i t) c p i t) (decide (t.dim < intdim))
      have h2 := polTerm_best_dec (R := R) c old p i t
      exact ⟨h1.1.trans h2.1, h1.2.trans h2.2⟩
    · rw [Function.update_of_ne he]; exact ⟨le_refl _, le_refl _⟩

theorem polBestGo_le (hR : RndMono R) {c : ILincons K} (hc : PtOk c) (old : Bool) (π : ℕ → PolDim) {intdim : ℕ}
    {x : ℕ → K} :
    ∀ (l : List (ITerm K)) (i : ℕ) (ρ : ℕ → PolDim) (p p' r : ℕ → Itv K), (∀ t ∈ l, t ∈ c.expr.terms) → ArrLe p p' →
      (∀ t ∈ l, x t.dim ∈ r t.dim) → (polBestGo R old c intdim i l ρ p).2 = some r →
      ∃ r', polGo R π c intdim i l p' = some r' ∧ ArrLe r r' := by
  intro l
  induction l with
  | nil =>
    intro i ρ p p' r _ hp _ h
    unfold polBestGo at h; simp only [Option.some.injEq] at h; subst h
    exact ⟨p', rfl, hp⟩
  | cons t l ih =>
    intro i ρ p p' r hl hp hx h
    unfold polBestGo at h
    simp only at h
    split_ifs at h with hb
    have hdec := polBestGo_dec _ _ _ _ _ _ _ _ h t.dim
    rw [Function.update_self] at hdec
    have hle := canonicalize_mono (polTerm_best_le hR hc old (π t.dim) hp i (hl t List.mem_cons_self))
      (decide (t.dim < intdim))
    have hxr := hx t List.mem_cons_self
    have hx1 := Itv.mem_of_le (hdec.1.trans hle.1) (hdec.2.trans hle.2) hxr
    unfold polGo
    simp only
    rw [if_neg (by rw [Itv.not_isBottom hx1]; simp)]
    exact ih (i + 1) _ _ _ r (fun t ht => hl t (List.mem_cons_of_mem _ ht)) (arrLe_update hp _ hle)
      (fun t ht => hx t (List.mem_cons_of_mem _ ht)) h

theorem polBestGo_off (old : Bool) (c : ILincons K) (intdim : ℕ) :
    ∀ (l : List (ITerm K)) (i : ℕ) (ρ : ℕ → PolDim) (p : ℕ → Itv K) (d : ℕ), d ∉ l.map ITerm.dim →
      (polBestGo R old c intdim i l ρ p).1 d = ρ d := by
  intro l
  induction l with
  | nil => intro i ρ p d _; rfl
  | cons t l ih =>
    intro i ρ p d hd
    simp only [List.map_cons, List.mem_cons, not_or] at hd
    unfold polBestGo
    simp only
    split_ifs
    · exact Function.update_of_ne hd.1 _ _
    · rw [ih _ _ _ _ hd.2]; exact Function.update_of_ne hd.1 _ _

theorem polGo_best (old : Bool) (c : ILincons K) (intdim : ℕ) :
    ∀ (l : List (ITerm K)) (i : ℕ) (ρ : ℕ → PolDim) (p : ℕ → Itv K), (l.map ITerm.dim).Nodup →
      polGo R (polBestGo R old c intdim i l ρ p).1 c intdim i l p = (polBestGo R old c intdim i l ρ p).2 := by
  intro l
  induction l with
  | nil => intro i ρ p _; rfl
  | cons t l ih =>
    intro i ρ p hd
    rw [List.map_cons, List.nodup_cons] at hd
    have ht : (polBestGo R old c intdim i (t :: l) ρ p).1 t.dim = polBest R old c p i t := by
      unfold polBestGo
      simp only
      split_ifs
      · simp
      · rw [polBestGo_off _ _ _ _ _ _ _ _ hd.1]; simp
    unfold polGo
    rw [ht]
    simp only
    by_cases hb : (Itv.canonicalize (polTerm R (polBest R old c p i t) c p i t) (decide (t.dim < intdim))).isBottom = true
    · rw [if_pos hb]
      unfold polBestGo
      simp only
      rw [if_pos hb]
    · rw [if_neg hb]
      have e : polBestGo R old c intdim i (t :: l) ρ p = polBestGo R old c intdim (i + 1) l
          (Function.update ρ t.dim (polBest R old c p i t)) (Function.update p t.dim
            (Itv.canonicalize (polTerm R (polBest R old c p i t) c p i t) (decide (t.dim < intdim)))) := by
        rw [polBestGo]
        exact if_neg hb
      rw [e]
      exact ih _ _ _ hd.2

theorem polLincons_best {c : ILincons K} (hc : PtOk c) (old : Bool) (intdim : ℕ) (p : ℕ → Itv K) :
    polLincons R (polLinconsBest R old c intdim p).1 c intdim p = (polLinconsBest R old c intdim p).2 := by
  unfold polLincons polLinconsBest
  simp only
  rw [polGo_best _ _ _ _ _ _ _ hc.nodup]
  congr 1
  funext p'
  split_ifs
  · rfl
  · congr 1
    funext j
    split_ifs with hj
    · rw [polBestGo_off _ _ _ _ _ _ _ _ (by
        unfold ILincons.untouched at hj
        simp only [List.all_eq_true, decide_eq_true_eq] at hj
        simp only [List.mem_map, not_exists, not_and]
        exact fun t ht => hj t ht)]
      rfl
    · rfl

theorem polLinconsBest_dec {c : ILincons K} {old : Bool} {intdim : ℕ} {p r : ℕ → Itv K}
    (h : (polLinconsBest R old c intdim p).2 = some r) : ArrLe r p := by
  unfold polLinconsBest at h
  simp only [Option.bind_eq_some_iff] at h
  obtain ⟨p', h1, h2⟩ := h
  split_ifs at h2
  simp only [Option.some.injEq] at h2
  subst h2
  exact polBestGo_dec _ _ _ _ _ _ _ _ h1

theorem polLinconsBest_le (hR : RndMono R) {c : ILincons K} (hc : PtOk c) {old : Bool} (π : ℕ → PolDim) {intdim : ℕ}
    {x : ℕ → K} {p p' r : ℕ → Itv K} (hp : ArrLe p p') (hx : ∀ t ∈ c.expr.terms, x t.dim ∈ r t.dim)
    (h : (polLinconsBest R old c intdim p).2 = some r) :
    ∃ r', polLincons R π c intdim p' = some r' ∧ ArrLe r r' := by
  unfold polLinconsBest at h
  simp only [Option.bind_eq_some_iff] at h
  obtain ⟨q, h1, h2⟩ := h
  split_ifs at h2 with hu
  simp only [Option.some.injEq] at h2
  subst h2
  obtain ⟨r', h3, h4⟩ := polBestGo_le hR hc old π c.expr.terms 0 _ p p' q (fun _ h => h) hp hx h1
  unfold polLincons
  rw [h3, Option.bind_some, if_neg hu]
  refine ⟨_, rfl, fun d => ?_⟩
  beta_reduce
  split_ifs
  · exact ⟨(h4 d).1.trans (le_widen _ _), (h4 d).2.trans (le_widen _ _)⟩
  · exact h4 d

/-- what follows the run of the improvement -/
theorem polRun_best (old : Bool) (intdim : ℕ) :
    ∀ (l : List (Option (ILincons K))) (p : ℕ → Itv K) (ρ : List (ℕ → PolDim)) (r : Option (ℕ → Itv K)),
      (∀ c, some c ∈ l → PtOk c) → polRunBest R old intdim l p = some (ρ, r) →
      ρ.length = l.length ∧ polRun R intdim (ρ.zip l) p = some r ∧ (∀ r', r = some r' → ArrLe r' p) := by
  intro l
  induction l with
  | nil =>
    intro p ρ r _ h
    unfold polRunBest at h
    simp only [Option.some.injEq, Prod.mk.injEq] at h
    obtain ⟨rfl, rfl⟩ := h
    refine ⟨rfl, rfl, fun r' h => ?_⟩
    simp only [Option.some.injEq] at h; subst h; exact ArrLe.refl _
  | cons c l ih =>
    intro p ρ r hl h
    cases c with
    | none => unfold polRunBest at h; simp at h
    | some c =>
      unfold polRunBest at h
      split_ifs at h with hb
      simp only at h
      have hpt := hl c List.mem_cons_self
      have hbest := polLincons_best (R := R) hpt old intdim p
      cases hr : (polLinconsBest R old c intdim p).2 with
      | none =>
        rw [hr] at h
        simp only [Option.some.injEq, Prod.mk.injEq] at h
        obtain ⟨rfl, rfl⟩ := h
        refine ⟨by simp, ?_, by simp⟩
        rw [List.zip_cons_cons]
        unfold polRun
        rw [if_pos hb, hbest, hr]
      | some p' =>
        rw [hr] at h
        simp only [Option.map_eq_some_iff, Prod.mk.injEq, Prod.exists] at h
        obtain ⟨ρ', r1, h1, rfl, rfl⟩ := h
        obtain ⟨i1, i2, i3⟩ := ih p' ρ' r1 (fun c hc => hl c (List.mem_cons_of_mem _ hc)) h1
        refine ⟨by simp [i1], ?_, fun r' h => (i3 r' h).trans (polLinconsBest_dec hr)⟩
        rw [List.zip_cons_cons]
        unfold polRun
        rw [if_pos hb, hbest, hr]
        exact i2

/-- the run of any policy is above the run of the improvement -/
theorem polRun_le (hR : RndMono R) (old : Bool) (intdim : ℕ) {x : ℕ → K} {D : ℕ → Prop} :
    ∀ (l : List (Option (ILincons K))) (π : List (ℕ → PolDim)) (p p' : ℕ → Itv K) (ρ : List (ℕ → PolDim))
      (r : ℕ → Itv K), π.length = l.length →
      (∀ c, some c ∈ l → PtOk c ∧ ∀ t ∈ c.expr.terms, D t.dim) → ArrLe p p' → (∀ d, D d → x d ∈ r d) →
      polRunBest R old intdim l p = some (ρ, some r) →
      ∃ r', polRun R intdim (π.zip l) p' = some (some r') ∧ ArrLe r r' := by
  intro l
  induction l with
  | nil =>
    intro π p p' ρ r _ _ hp _ h
    unfold polRunBest at h
    simp only [Option.some.injEq, Prod.mk.injEq] at h
    obtain ⟨_, rfl⟩ := h
    exact ⟨p', by simp [polRun], hp⟩
  | cons c l ih =>
    intro π p p' ρ r hlen hl hp hx h
    cases c with
    | none => unfold polRunBest at h; simp at h
    | some c =>
      cases π with
      | nil => simp at hlen
      | cons π0 π =>
        unfold polRunBest at h
        split_ifs at h with hb
        simp only at h
        obtain ⟨hpt, hD⟩ := hl c List.mem_cons_self
        cases hr : (polLinconsBest R old c intdim p).2 with
        | none => rw [hr] at h; simp at h
        | some p1 =>
          rw [hr] at h
          simp only [Option.map_eq_some_iff, Prod.mk.injEq, Prod.exists] at h
          obtain ⟨ρ', r1, h1, rfl, rfl⟩ := h
          have hl' : ∀ c, some c ∈ l → PtOk c := fun c hc => (hl c (List.mem_cons_of_mem _ hc)).1
          have hrp : ArrLe r p1 := (polRun_best old intdim l p1 ρ' (some r) hl' h1).2.2 r rfl
          obtain ⟨q, h2, h3⟩ := polLinconsBest_le hR hpt π0 hp (x := x)
            (fun t ht => Itv.mem_of_le (hrp _).1 (hrp _).2 (hx _ (hD t ht))) hr
          obtain ⟨r', h4, h5⟩ := ih π p1 q ρ' r (by simpa using hlen)
            (fun c hc => hl c (List.mem_cons_of_mem _ hc)) h3 hx h1
          refine ⟨r', ?_, h5⟩
          rw [List.zip_cons_cons]
          unfold polRun
          rw [if_pos hb, h2]
          exact h4

/-! ## the conversion and the reduction keep scalar coefficients -/

theorem constrainBounds_terms_eq (c : ILincons K) :
    (constrainBounds R c).expr.terms = c.expr.terms ∨ (constrainBounds R c).expr.terms = [] := by
  unfold constrainBounds
  simp only
  split
  · split_ifs <;> simp [setBool]
  · split_ifs <;> simp

theorem ptOk_reduceIntegerRat {c : ILincons ℚ} (h : PtOk c) (intdim : ℕ) : PtOk (reduceIntegerRat c intdim) := by
  rcases reduceIntegerRat_eq c intdim with he | ⟨_, _, den, num, _, _, _, he⟩
  · rw [he]; exact h
  · rw [he]
    rcases constrainBounds_terms_eq (R := Rnd.exact) (ratScaled c den num) with e | e
    · refine ⟨?_, ?_⟩
      · rw [e]
        intro t ht
        simp only [ratScaled, List.mem_map] at ht
        obtain ⟨u, hu, rfl⟩ := ht
        exact ⟨(h.pt u hu).1, _, rfl⟩
      · rw [e]
        simp only [ratScaled, List.map_map]
        exact h.nodup
    · exact ⟨by rw [e]; simp, by rw [e]; simp⟩

theorem coef_reduceIntegerRat {c : ILincons ℚ} (h : c.typ = .eq → ∀ t ∈ c.expr.terms, t.eq = true) (intdim : ℕ) :
    (reduceIntegerRat c intdim).typ = .eq → ∀ t ∈ (reduceIntegerRat c intdim).expr.terms, t.eq = true := by
  rcases reduceIntegerRat_eq c intdim with he | ⟨hr, _, den, num, _, _, _, he⟩
  · rw [he]; exact h
  · rw [he]
    intro _ t ht
    have ht := constrainBounds_terms _ ht
    simp only [ratScaled, List.mem_map] at ht
    obtain ⟨u, hu, rfl⟩ := ht
    exact (reducible_iff.1 hr).2.2 u hu

theorem length_polSeq (kmax n : ℕ) (t : List (ILincons K)) : (polSeq kmax n t).length = kmax * n := by
  unfold polSeq
  simp [List.length_flatMap]

end Apron
