import Verif.Box.Lemmas
import Verif.Itv.QuasiSound

/-! # Helper lemmas: boxization does not produce empty intervals silently -/

set_option autoImplicit false
set_option linter.unusedSectionVars false
set_option linter.ambiguousOpen false

namespace Apron
open Bound
variable {K : Type*} [LinearOrder K] [Field K] [IsStrictOrderedRing K]

/-- no coefficient of the expression is empty -/
def ILinexpr.NE (e : ILinexpr K) : Prop := (∃ q, q ∈ e.cst) ∧ ∀ t ∈ e.terms, ∃ q, q ∈ t.itv

theorem ILinexpr.NE.val {e : ILinexpr K} (h : e.NE) (x : ℕ → K) : ∃ v, e.Val x v := by
  obtain ⟨⟨q, hq⟩, ht⟩ := h
  have : ∀ l : List (ITerm K), (∀ t ∈ l, ∃ q, q ∈ t.itv) → ∃ r, TVal l x r := by
    intro l
    induction l with
    | nil => intro _; exact ⟨0, rfl⟩
    | cons t l ih =>
      intro hl
      obtain ⟨r, hr⟩ := ih fun t ht => hl t (by simp [ht])
      obtain ⟨q, hq⟩ := hl t (by simp)
      exact ⟨_, q, r, hq, hr, rfl⟩
  obtain ⟨r, hr⟩ := this _ ht
  exact ⟨_, q, r, hq, hr, rfl⟩

theorem ILinexpr.NE.of_val {e : ILinexpr K} {x : ℕ → K} {v : K} (h : e.Val x v) : e.NE := by
  obtain ⟨q, r, hq, hr, hv⟩ := h
  clear hv
  refine ⟨⟨q, hq⟩, ?_⟩
  generalize e.terms = l at hr
  induction l generalizing r with
  | nil => simp
  | cons t l ih =>
    obtain ⟨a, s, ha, hs, rfl⟩ := hr
    intro u hu
    rcases List.mem_cons.1 hu with rfl | hu
    · exact ⟨a, ha⟩
    · exact ih s hs u hu

namespace ILincons
open ILinexpr
variable [FloorRing K] {R : Rnd K}

theorem div_ne_ninf {b m : Bound K} (hb : b ≠ ninf) (hm : fin 0 < m) : Bound.div R b m ≠ ninf := by
  unfold Bound.div
  cases b with
  | ninf => exact absurd rfl hb
  | fin p =>
    cases m with
    | ninf => simp at hm
    | pinf => simp [infty]
    | fin q =>
      simp only [fin_lt_fin] at hm
      split_ifs
      · simp
      · rename_i h; rw [sgn_zero_iff] at h; simp at h; exact absurd h hm.ne'
      · exact R.up_ne_ninf _
  | pinf =>
    cases m with
    | ninf => simp at hm
    | pinf => simp [infty]
    | fin q =>
      simp only [fin_lt_fin] at hm
      have h1 : sgn (fin q) = 1 := by simp [Bound.sgn, hm.not_gt, hm.ne']
      have h2 : sgn (pinf : Bound K) = 1 := rfl
      simp [h1, h2, infty, Bound.ofSgn]

theorem neg_div_ne_ninf {b m : Bound K} (hb : b ≠ ninf) (hm : m < fin 0) (hm' : m ≠ ninf) :
    Bound.neg (Bound.div Rnd.exact b m) ≠ ninf := by
  cases m with
  | ninf => exact absurd rfl hm'
  | pinf => simp at hm
  | fin q =>
    simp only [fin_lt_fin] at hm
    have h1 : sgn (fin q) = -1 := by simp [Bound.sgn, hm, hm.not_gt]
    unfold Bound.div
    cases b with
    | ninf => exact absurd rfl hb
    | fin p =>
      by_cases hp : sgn (fin p) = 0
      · simp [hp]
      · rw [if_neg (by simp [hp, infty]), if_neg (by rw [h1]; decide)]; simp [Rnd.exact]
    | pinf =>
      have h2 : sgn (pinf : Bound K) = 1 := rfl
      simp [h1, h2, infty, Bound.ofSgn]

theorem infBound_ne {typ : ConsTyp K} {eq : Bool} {a ev : Itv K} {q e : K}
    (hR : eq = true ∨ R = Rnd.exact) (hf : eq = true → a = Itv.point q) (hq : q ∈ a) (he : e ∈ ev) {b : Bound K}
    (hb : infBound R typ eq a ev = some b) : b ≠ ninf := by
  have ei := Itv.inf_ne_ninf he
  have es := Itv.sup_ne_ninf he
  have ai := Itv.inf_ne_ninf hq
  have asup := Itv.sup_ne_ninf hq
  have hsum : a.sup < fin 0 → fin 0 < a.inf := by
    intro h
    have h1 := hq.1; have h2 := lt_of_le_of_lt hq.2 h
    refine lt_of_lt_of_le ?_ h1
    simp at h2 ⊢; exact h2
  have hsum' : a.inf < fin 0 → fin 0 < a.sup := by
    intro h
    have h1 := lt_of_le_of_lt hq.1 h; have h2 := hq.2
    refine lt_of_lt_of_le ?_ h2
    simp at h1 ⊢; exact h1
  unfold infBound at hb
  simp only [sgn_pos_iff, sgn_neg_iff, sgn_le_zero_iff] at hb
  cases eq with
  | true =>
    simp only [if_true] at hb
    split_ifs at hb with h1 h2
    · cases hb; exact div_ne_ninf es h1
    · cases hb; exact div_ne_ninf ei (hsum h2.1)
  | false =>
    have hR' : R = Rnd.exact := by simpa using hR
    subst hR'
    simp only [Bool.false_eq_true, if_false] at hb
    split_ifs at hb with h1 h2 h3 h4
    · cases hb; exact div_ne_ninf es (hsum' h1)
    · cases hb; exact neg_div_ne_ninf es h1 ai
    · cases hb; exact div_ne_ninf ei (hsum h3.1)
    · cases hb; exact neg_div_ne_ninf ei h3.1 asup

theorem supBound_ne {typ : ConsTyp K} {eq : Bool} {a ev : Itv K} {q e : K}
    (hR : eq = true ∨ R = Rnd.exact) (hf : eq = true → a = Itv.point q) (hq : q ∈ a) (he : e ∈ ev) {b : Bound K}
    (hb : supBound R typ eq a ev = some b) : b ≠ ninf := by
  have ei := Itv.inf_ne_ninf he
  have es := Itv.sup_ne_ninf he
  have ai := Itv.inf_ne_ninf hq
  have asup := Itv.sup_ne_ninf hq
  have hsum : a.sup < fin 0 → fin 0 < a.inf := by
    intro h
    have h1 := hq.1; have h2 := lt_of_le_of_lt hq.2 h
    refine lt_of_lt_of_le ?_ h1
    simp at h2 ⊢; exact h2
  have hsum' : a.inf < fin 0 → fin 0 < a.sup := by
    intro h
    have h1 := lt_of_le_of_lt hq.1 h; have h2 := hq.2
    refine lt_of_lt_of_le ?_ h2
    simp at h1 ⊢; exact h1
  unfold supBound at hb
  simp only [sgn_pos_iff, sgn_neg_iff, sgn_nonneg_iff] at hb
  cases eq with
  | true =>
    simp only [if_true] at hb
    split_ifs at hb with h1 h2
    · cases hb; exact div_ne_ninf es (hsum h1)
    · cases hb; exact div_ne_ninf ei h2.1
  | false =>
    have hR' : R = Rnd.exact := by simpa using hR
    subst hR'
    simp only [Bool.false_eq_true, if_false] at hb
    split_ifs at hb with h1 h2 h3 h4 h5
    · cases hb; exact neg_div_ne_ninf ei h1 ai
    · cases hb; exact div_ne_ninf ei (hsum' h1)
    · cases hb; exact neg_div_ne_ninf es h4 asup
    · cases hb; exact div_ne_ninf es (hsum h4)

theorem intBound_ne (typ : ConsTyp K) (isint : Bool) {b : Bound K} (h : b ≠ ninf) :
    intBound R typ isint b ≠ ninf := by
  unfold intBound
  split_ifs
  · cases b with
    | ninf => exact h
    | pinf => simp
    | fin q =>
      simp only
      split_ifs
      · exact R.up_ne_ninf _
      · simp
  · exact h

theorem improve_ne {new : Option (Bound K)} {old : Bound K} (ho : old ≠ ninf)
    (hn : ∀ b, new = some b → b ≠ ninf) : (improve new old).1 ≠ ninf := by
  unfold improve
  cases new with
  | none => exact ho
  | some b => simp only; split_ifs; exacts [hn b rfl, ho]

theorem ne_zeroAt {e : ILinexpr K} (h : e.NE) (i : ℕ) : (zeroAt e i).NE := by
  refine ⟨h.1, fun t ht => ?_⟩
  rcases zeroAt_mem ht with ht | ⟨u, _, rfl⟩
  · exact h.2 t ht
  · exact ⟨0, (Itv.mem_point 0 0).2 rfl⟩

theorem boxizeTerm_ne {c : ILincons K} (hc : OkFor R c) (hne : c.expr.NE) {env : ℕ → Itv K}
    {intdim : ℕ} {itvonly : Bool} {i : ℕ} {t : ITerm K} (ht : t ∈ c.expr.terms) {old : Itv K}
    (henv : ∀ t ∈ c.expr.terms, ∃ q, q ∈ env t.dim) (hold : ∃ q, q ∈ old) :
    (boxizeTerm R c env intdim itvonly i t old).1.inf ≠ ninf ∧
    (boxizeTerm R c env intdim itvonly i t old).1.sup ≠ ninf := by
  obtain ⟨o, ho⟩ := hold
  unfold boxizeTerm
  simp only
  split_ifs with h
  · exact ⟨Itv.inf_ne_ninf ho, Itv.sup_ne_ninf ho⟩
  · obtain ⟨q, hq⟩ := hne.2 t ht
    have hev : ∃ e, e ∈ (zeroAt c.expr i).eval R env := by
      classical
      let x : ℕ → K := fun d => if h : ∃ q, q ∈ env d then h.choose else 0
      obtain ⟨v, hv⟩ := (ne_zeroAt hne i).val x
      refine ⟨v, mem_eval R (flagsOk_zeroAt hc.flags i) hv fun s hs => ?_⟩
      have : ∃ q, q ∈ env s.dim := by
        rcases zeroAt_mem hs with hs | ⟨u, hu, rfl⟩
        · exact henv s hs
        · exact henv u hu
      simp only [x, dif_pos this]
      exact this.choose_spec
    obtain ⟨e, he⟩ := hev
    have hR : t.eq = true ∨ R = Rnd.exact := hc.exact.imp_left fun h => h t ht
    have hf : t.eq = true → t.itv = Itv.point q := fun h => hc.flags t ht h q hq
    constructor
    · refine improve_ne (Itv.inf_ne_ninf ho) fun b hb => ?_
      obtain ⟨b', hb', rfl⟩ := Option.map_eq_some_iff.1 hb
      exact intBound_ne _ _ (infBound_ne hR hf hq he hb')
    · refine improve_ne (Itv.sup_ne_ninf ho) fun b hb => ?_
      obtain ⟨b', hb', rfl⟩ := Option.map_eq_some_iff.1 hb
      exact intBound_ne _ _ (supBound_ne hR hf hq he hb')

theorem canonicalize_ne {a : Itv K} (h : a.inf ≠ ninf ∧ a.sup ≠ ninf) (b : Bool) :
    (Itv.canonicalize a b).inf ≠ ninf ∧ (Itv.canonicalize a b).sup ≠ ninf := by
  have hfl : ∀ x : Bound K, x ≠ ninf → Bound.floor x ≠ ninf := by
    intro x hx; cases x <;> simp_all [Bound.floor]
  unfold Itv.canonicalize
  split_ifs
  · exact ⟨hfl _ h.1, hfl _ h.2⟩
  · exact h

theorem boxizeGo_ne {c : ILincons K} (hc : OkFor R c) (hne : c.expr.NE) {env : ℕ → Itv K} {intdim : ℕ}
    {itvonly : Bool} {D : ℕ → Prop} (hD : ∀ t ∈ c.expr.terms, D t.dim) :
    ∀ (l : List (ITerm K)) (i : ℕ) (s : BoxSt K), (∀ t ∈ l, t ∈ c.expr.terms) →
      (∀ d, D d → ∃ q, q ∈ s.res d) →
      (boxizeGo R c true env intdim itvonly i l s).empty = false →
      ∀ d, D d → ∃ q, q ∈ (boxizeGo R c true env intdim itvonly i l s).res d := by
  intro l
  induction l with
  | nil => intro i s _ hs _; exact hs
  | cons t l ih =>
    intro i s hl hs
    have hb := boxizeTerm_ne hc hne (env := s.res) (intdim := intdim) (itvonly := itvonly) (i := i)
      (hl t (by simp)) (fun t ht => hs _ (hD t ht)) (hs _ (hD t (hl t (by simp))))
    unfold boxizeGo
    simp only [if_true]
    split_ifs with h1 h2
    · intro h; simp at h
    · refine ih (i + 1) _ (fun u hu => hl u (by simp [hu])) fun d hd => ?_
      by_cases e : d = t.dim
      · subst e
        simp only [Function.update_self]
        have := canonicalize_ne hb (decide (t.dim < intdim))
        exact Itv.exists_mem_of_isBottom this.1 this.2 (by simpa using h2)
      · simp only; rw [Function.update_of_ne e]; exact hs d hd
    · exact ih (i + 1) s (fun u hu => hl u (by simp [hu])) hs

theorem boxizePass_ne {env : ℕ → Itv K} {intdim : ℕ} {itvonly : Bool} {D : ℕ → Prop} :
    ∀ (l : List (ILincons K)) (s : BoxSt K),
      (∀ c ∈ l, OkFor R c ∧ c.expr.NE ∧ ∀ t ∈ c.expr.terms, D t.dim) →
      (∀ d, D d → ∃ q, q ∈ s.res d) →
      (boxizePass R true env intdim itvonly l s).empty = false →
      ∀ d, D d → ∃ q, q ∈ (boxizePass R true env intdim itvonly l s).res d := by
  intro l
  induction l with
  | nil => intro s _ hs _; exact hs
  | cons c l ih =>
    intro s hl hs
    obtain ⟨h1, h2, h3⟩ := hl c (by simp)
    have hl' := fun d hd => hl d (List.mem_cons_of_mem c hd)
    have hbox : (boxize R c true env s.res intdim itvonly).empty = false →
        ∀ d, D d → ∃ q, q ∈ (boxize R c true env s.res intdim itvonly).res d := by
      have := boxizeGo_ne h1 h2 (env := env) (intdim := intdim) (itvonly := itvonly) h3 c.expr.terms 0
        ⟨s.res, false, false⟩ (fun t ht => ht) hs
      unfold boxize
      simp only
      split_ifs with h
      · intro h; simp at h
      · exact this
    unfold boxizePass
    cases hty : c.typ <;> simp only
    case eqmod => exact ih s hl' hs
    case diseq => exact ih s hl' hs
    all_goals
      split_ifs with h
      · intro h; simp at h
      · exact ih _ hl' (hbox (by simpa using h))

theorem boxizeLoop_ne {env : ℕ → Itv K} {intdim : ℕ} {itvonly : Bool} {D : ℕ → Prop}
    {l : List (ILincons K)} (hl : ∀ c ∈ l, OkFor R c ∧ c.expr.NE ∧ ∀ t ∈ c.expr.terms, D t.dim) :
    ∀ (k : ℕ) (s : BoxSt K), (∀ d, D d → ∃ q, q ∈ s.res d) →
      (boxizeLoop R true env intdim itvonly l k s).empty = false →
      ∀ d, D d → ∃ q, q ∈ (boxizeLoop R true env intdim itvonly l k s).res d := by
  intro k
  induction k with
  | zero => intro s hs _; exact hs
  | succ k ih =>
    intro s hs
    have h1 := boxizePass_ne (R := R) (env := env) (intdim := intdim) (itvonly := itvonly) l
      ⟨s.res, false, false⟩ hl hs
    unfold boxizeLoop
    simp only
    split_ifs with h2 h3
    · intro h; simp at h
    · exact ih _ (h1 (by simpa using h2))
    · intro _; exact h1 (by simpa using h2)

theorem arrayReduce_mem {l : List (ILincons K)} (h : (arrayReduce true l).2 ≠ .f) :
    ∀ c ∈ (arrayReduce true l).1, c ∈ l := by
  unfold arrayReduce at h ⊢
  cases hr : reduceGo true (l.length + 1) [] l with
  | none => rw [hr] at h; simp at h
  | some r =>
    have hs := reduceGo_sub true _ hr
    match r with
    | [] => simp
    | [c] => simp only [List.mem_singleton, forall_eq]; simpa using hs c (by simp)
    | a :: b :: r => intro c hc; simpa using hs c hc

theorem ne_constrainBounds {c : ILincons K} (h : c.expr.NE) (hcst : c.expr.CstOk) :
    (constrainBounds R c).expr.NE := by
  obtain ⟨typ, ⟨inf, sup⟩, eq, terms⟩ := c
  obtain ⟨⟨q, hq⟩, ht⟩ := h
  have hi : inf ≠ ninf := Itv.inf_ne_ninf hq
  have hs : sup ≠ ninf := Itv.sup_ne_ninf hq
  have hset : ∀ b, (setBool b : ILincons K).expr.NE := fun b =>
    ⟨⟨_, (Itv.mem_point _ _).2 rfl⟩, by simp [setBool]⟩
  have hfl : ∀ x : Bound K, x ≠ ninf → Bound.floor x ≠ ninf := by
    intro x hx; cases x <;> simp_all [Bound.floor]
  have hrest : ∀ (t : ConsTyp K) (b : Bound K), b ≠ ninf →
      (if infty b = true then (⟨t, ⟨⟨inf, b⟩, eq, terms⟩⟩ : ILincons K)
      else ⟨t, ⟨⟨Bound.neg b, b⟩, true, terms⟩⟩).expr.NE := by
    intro t b hb
    split_ifs with h
    · cases b with
      | ninf => exact absurd rfl hb
      | fin s => simp [infty] at h
      | pinf => exact ⟨⟨q, hq.1, by simp⟩, ht⟩
    · cases b with
      | ninf => exact absurd rfl hb
      | pinf => simp [infty] at h
      | fin s => exact ⟨⟨s, by simp [Itv.mem_def]⟩, ht⟩
  have heq : (if Itv.isBottom ⟨if infty inf = true then inf else if eq = true then Bound.neg (Bound.floor sup)
        else Bound.floor inf, Bound.floor sup⟩ = true then (setBool false : ILincons K)
      else ⟨.eq, ⟨⟨if infty inf = true then inf else if eq = true then Bound.neg (Bound.floor sup)
        else Bound.floor inf, Bound.floor sup⟩, eq, terms⟩⟩).expr.NE := by
    have gen : ∀ inf' : Bound K, (Itv.isBottom ⟨inf', Bound.floor sup⟩ = false → ∃ q, q ∈ (⟨inf', Bound.floor sup⟩ : Itv K)) →
        (if Itv.isBottom ⟨inf', Bound.floor sup⟩ = true then (setBool false : ILincons K)
          else ⟨.eq, ⟨⟨inf', Bound.floor sup⟩, eq, terms⟩⟩).expr.NE := by
      intro inf' h
      split_ifs with hb
      · exact hset _
      · exact ⟨h (by simpa using hb), ht⟩
    apply gen
    intro h
    by_cases h1 : infty inf = true
    · rw [if_pos h1] at h ⊢
      exact Itv.exists_mem_of_isBottom hi (hfl _ hs) h
    · rw [if_neg h1] at h ⊢
      by_cases h2 : eq = true
      · rw [if_pos h2] at h ⊢
        have := hcst h2 q hq
        simp only [Itv.point, Itv.mk.injEq] at this
        exact ⟨((⌊q⌋ : ℤ) : K), by simp [this.2, Bound.floor, Itv.mem_def]⟩
      · rw [if_neg h2] at h ⊢
        exact Itv.exists_mem_of_isBottom (hfl _ hi) (hfl _ hs) h
  unfold constrainBounds
  cases sup with
  | ninf => exact absurd rfl hs
  | pinf => cases typ <;> first | exact heq | exact hrest _ _ (hfl _ hs)
  | fin s =>
    cases typ with
    | eq => exact heq
    | supeq => exact hrest _ _ (hfl _ hs)
    | diseq => exact hrest _ _ (hfl _ hs)
    | eqmod m => exact hrest _ _ (hfl _ hs)
    | sup =>
      refine hrest _ (if isInt s then subNat R (fin s) 1 else fin (⌊s⌋ : ℤ)) ?_
      split_ifs
      · exact R.up_ne_ninf _
      · simp

end ILincons
end Apron
