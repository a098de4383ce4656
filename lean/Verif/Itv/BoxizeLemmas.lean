import Verif.Itv.LinexprLemmas

/-! # Lemmas on boxization (deduction of bounds from interval linear constraints) -/

set_option autoImplicit false
set_option linter.unusedSectionVars false
set_option linter.ambiguousOpen false

namespace Apron
open Bound
variable {K : Type*} [LinearOrder K] [Field K] [IsStrictOrderedRing K] [FloorRing K] (R : Rnd K)

namespace ILincons
open ILinexpr

theorem isInt_iff (q : K) : isInt q = true ↔ ∃ n : ℤ, q = n := by
  simp only [isInt, decide_eq_true_eq]
  constructor
  · intro h; exact ⟨_, h.symm⟩
  · rintro ⟨n, rfl⟩; simp

theorem div_pos_ge {b : Bound K} {p a : K} (ha : 0 < a) (h : fin p ≤ b) :
    fin (p / a) ≤ Bound.div R b (fin a) := by
  cases b with
  | ninf => simp at h
  | pinf => rw [div_pinf_left R ha]; simp
  | fin c =>
    refine le_trans ?_ (div_fin_fin_ge R c ha.ne')
    simp at h ⊢; gcongr

theorem neg_div_exact_ge {E m : Bound K} {z y : K} (hE : fin 0 ≤ E) (hz : fin z ≤ E) (hy : fin (-y) ≤ m)
    (hm : m < fin 0) : fin (z / y) ≤ Bound.neg (Bound.div Rnd.exact E m) := by
  cases m with
  | ninf => simp at hy
  | pinf => simp at hm
  | fin m =>
    simp at hy hm
    have hl : 0 < -m := by linarith
    have h := Itv.div_ge_up Rnd.exact hE hz hl (by linarith : -m ≤ y)
    refine h.trans (le_of_eq ?_)
    cases E with
    | ninf => simp at hE
    | pinf =>
      rw [div_pinf_left _ hl]
      simp [Bound.div, infty, sgn_fin_of_neg hm, ofSgn]
    | fin e =>
      rw [div_fin_fin_exact _ hl.ne', div_fin_fin_exact _ hm.ne]
      simp [div_neg]

/-- the value `w` bounds `y`, strictly for a strict constraint -/
def Bounds (typ : ConsTyp K) (y : K) (b : Bound K) : Prop :=
  ∃ w, y ≤ w ∧ (typ = .sup → y < w) ∧ fin w ≤ b

theorem bounds_intBound {typ : ConsTyp K} {y : K} {b : Bound K} {isint : Bool}
    (h : Bounds typ y b) (hi : isint = true → ∃ n : ℤ, y = n) : fin y ≤ intBound R typ isint b := by
  obtain ⟨w, h1, h2, h3⟩ := h
  have hy : fin y ≤ b := le_trans (by simpa using h1) h3
  unfold intBound
  split_ifs with hint
  · obtain ⟨n, rfl⟩ := hi hint
    cases b with
    | ninf => simp at hy
    | pinf => simp
    | fin q =>
      simp only
      simp only [fin_le_fin] at h3 hy
      split_ifs with hs
      · obtain ⟨m, rfl⟩ := (isInt_iff q).1 hs.2
        have : (n : K) < m := lt_of_lt_of_le (h2 hs.1) h3
        have : n < m := by exact_mod_cast this
        have h' : ((n + 1 : ℤ) : K) ≤ m := by exact_mod_cast this
        have := fin_sub_one_le_subNat R (b := fin (m : K)) (x := ((n + 1 : ℤ) : K)) (by simpa using h')
        simpa using this
      · simp only [fin_le_fin, Int.cast_le]
        exact Int.le_floor.2 hy
  · exact hy

theorem rel_nonneg {typ : ConsTyp K} (ht : typ = .eq ∨ typ = .supeq ∨ typ = .sup) {v : K}
    (h : Lincons.Rel typ v) : 0 ≤ v ∧ (typ = .sup → 0 < v) := by
  rcases ht with rfl | rfl | rfl
  · simp only [Lincons.Rel] at h; subst h; simp
  · exact ⟨h, by simp⟩
  · exact ⟨le_of_lt h, fun _ => h⟩

variable {R}

theorem infBound_sound {typ : ConsTyp K} (ht : typ = .eq ∨ typ = .supeq ∨ typ = .sup) {eq : Bool}
    {a ev : Itv K} {x q e : K} (hf : eq = true → a = Itv.point q) (hR : eq = true ∨ R = Rnd.exact)
    (hq : q ∈ a) (he : e ∈ ev) (hr : Lincons.Rel typ (q * x + e)) {b : Bound K}
    (hb : infBound R typ eq a ev = some b) : Bounds typ (-x) b := by
  obtain ⟨hn, hs⟩ := rel_nonneg ht hr
  have kpos : 0 < q → -x ≤ e / q ∧ (typ = .sup → -x < e / q) := fun h0 =>
    ⟨by rw [le_div_iff₀ h0]; linarith, fun h => by rw [lt_div_iff₀ h0]; linarith [hs h]⟩
  have kneg : q < 0 → typ = .eq → -x = (-e) / (-q) := fun h0 h => by
    subst h; simp only [Lincons.Rel] at hr
    rw [neg_div_neg_eq, eq_div_iff h0.ne]; linarith
  unfold infBound at hb
  by_cases heq : eq = true
  · have ha1 : a.sup = fin q := by rw [hf heq]; rfl
    have ha2 : a.inf = fin (-q) := by rw [hf heq]; rfl
    simp only [heq, ↓reduceIte] at hb
    by_cases h1 : 0 < sgn a.sup
    · rw [if_pos h1] at hb
      rw [sgn_pos_iff] at h1; simp [ha1] at h1
      simp only [Option.some.injEq, ha1, ha2] at hb; subst hb
      exact ⟨e / q, (kpos h1).1, (kpos h1).2, div_pos_ge R h1 he.2⟩
    · rw [if_neg h1] at hb
      by_cases h2 : sgn a.sup < 0 ∧ typ = .eq
      swap
      · rw [if_neg h2] at hb; simp at hb
      rw [if_pos h2] at hb
      obtain ⟨h2, h3⟩ := h2
      rw [sgn_neg_iff] at h2; simp [ha1] at h2
      simp only [Option.some.injEq, ha1, ha2] at hb; subst hb
      refine ⟨(-e) / (-q), le_of_eq (kneg h2 h3), fun h => by simp [h3] at h, div_pos_ge R (by linarith) he.1⟩
  · simp only [heq, Bool.false_eq_true, false_or] at hR
    subst hR
    simp only [heq, Bool.false_eq_true, if_false] at hb
    split_ifs at hb with h1 h2 h2 h3 <;> simp only [Option.some.injEq] at hb <;> subst hb
    · rw [sgn_neg_iff] at h1
      have h0 := Itv.pos_of_inf hq h1
      rw [sgn_le_zero_iff] at h2
      exact ⟨e / q, (kpos h0).1, (kpos h0).2, Itv.div_ge_dn _ h2 he.2 h0 hq.2⟩
    · rw [sgn_neg_iff] at h1
      have h0 := Itv.pos_of_inf hq h1
      rw [sgn_le_zero_iff, not_le] at h2
      exact ⟨e / q, (kpos h0).1, (kpos h0).2, neg_div_exact_ge h2.le he.2 hq.1 h1⟩
    · obtain ⟨h2, h4⟩ := h2
      rw [sgn_neg_iff] at h2
      have h0 := Itv.neg_of_sup hq h2
      rw [sgn_le_zero_iff] at h3
      exact ⟨(-e) / (-q), le_of_eq (kneg h0 h4), fun h => by simp [h4] at h,
        Itv.div_ge_dn _ h3 he.1 (by linarith) hq.1⟩
    · obtain ⟨h2, h4⟩ := h2
      rw [sgn_neg_iff] at h2
      have h0 := Itv.neg_of_sup hq h2
      rw [sgn_le_zero_iff, not_le] at h3
      exact ⟨(-e) / (-q), le_of_eq (kneg h0 h4), fun h => by simp [h4] at h,
        neg_div_exact_ge h3.le he.1 (by simpa using hq.2) h2⟩

theorem supBound_sound {typ : ConsTyp K} (ht : typ = .eq ∨ typ = .supeq ∨ typ = .sup) {eq : Bool}
    {a ev : Itv K} {x q e : K} (hf : eq = true → a = Itv.point q) (hR : eq = true ∨ R = Rnd.exact)
    (hq : q ∈ a) (he : e ∈ ev) (hr : Lincons.Rel typ (q * x + e)) {b : Bound K}
    (hb : supBound R typ eq a ev = some b) : Bounds typ x b := by
  obtain ⟨hn, hs⟩ := rel_nonneg ht hr
  have kneg : q < 0 → x ≤ e / (-q) ∧ (typ = .sup → x < e / (-q)) := fun h0 => by
    have h0' : 0 < -q := by linarith
    exact ⟨by rw [le_div_iff₀ h0']; linarith, fun h => by rw [lt_div_iff₀ h0']; linarith [hs h]⟩
  have kpos : 0 < q → typ = .eq → x = (-e) / q := fun h0 h => by
    subst h; simp only [Lincons.Rel] at hr
    rw [eq_div_iff h0.ne']; linarith
  unfold supBound at hb
  by_cases heq : eq = true
  · have ha1 : a.sup = fin q := by rw [hf heq]; rfl
    have ha2 : a.inf = fin (-q) := by rw [hf heq]; rfl
    simp only [heq, ↓reduceIte] at hb
    by_cases h1 : sgn a.sup < 0
    · rw [if_pos h1] at hb
      rw [sgn_neg_iff] at h1; simp [ha1] at h1
      simp only [Option.some.injEq, ha1, ha2] at hb; subst hb
      exact ⟨e / (-q), (kneg h1).1, (kneg h1).2, div_pos_ge R (by linarith) he.2⟩
    · rw [if_neg h1] at hb
      by_cases h2 : 0 < sgn a.sup ∧ typ = .eq
      swap
      · rw [if_neg h2] at hb; simp at hb
      rw [if_pos h2] at hb
      obtain ⟨h2, h3⟩ := h2
      rw [sgn_pos_iff] at h2; simp [ha1] at h2
      simp only [Option.some.injEq, ha1, ha2] at hb; subst hb
      refine ⟨(-e) / q, le_of_eq (kpos h2 h3), fun h => by simp [h3] at h, div_pos_ge R (by linarith) he.1⟩
  · simp only [heq, Bool.false_eq_true, false_or] at hR
    subst hR
    simp only [heq, Bool.false_eq_true, if_false] at hb
    split_ifs at hb with h1 h2 h3 h2 h3 <;> simp only [Option.some.injEq] at hb <;> subst hb
    · rw [sgn_neg_iff] at h1
      have h0 := Itv.pos_of_inf hq h1
      rw [sgn_nonneg_iff] at h3
      exact ⟨(-e) / q, le_of_eq (kpos h0 h2), fun h => by simp [h2] at h,
        neg_div_exact_ge h3 he.1 hq.1 h1⟩
    · rw [sgn_neg_iff] at h1
      have h0 := Itv.pos_of_inf hq h1
      rw [sgn_nonneg_iff, not_le] at h3
      exact ⟨(-e) / q, le_of_eq (kpos h0 h2), fun h => by simp [h2] at h,
        Itv.div_ge_dn _ h3.le he.1 h0 hq.2⟩
    · rw [sgn_neg_iff] at h2
      have h0 := Itv.neg_of_sup hq h2
      rw [sgn_nonneg_iff] at h3
      exact ⟨e / (-q), (kneg h0).1, (kneg h0).2, neg_div_exact_ge h3 he.2 (by simpa using hq.2) h2⟩
    · rw [sgn_neg_iff] at h2
      have h0 := Itv.neg_of_sup hq h2
      rw [sgn_nonneg_iff, not_le] at h3
      exact ⟨e / (-q), (kneg h0).1, (kneg h0).2, Itv.div_ge_dn _ h3.le he.2 (by linarith) hq.1⟩

theorem improve_ge {new : Option (Bound K)} {old : Bound K} {y : K} (ho : fin y ≤ old)
    (hn : ∀ b, new = some b → fin y ≤ b) : fin y ≤ (improve new old).1 := by
  unfold improve
  cases new with
  | none => exact ho
  | some b => simp only; split_ifs; exacts [hn b rfl, ho]

theorem improve_le (new : Option (Bound K)) (old : Bound K) : (improve new old).1 ≤ old := by
  unfold improve
  cases new with
  | none => exact le_refl _
  | some b =>
    simp only; split_ifs with h
    · rw [cmp_lt_zero] at h; exact h.le
    · exact le_refl _

theorem improve_unchanged {new : Option (Bound K)} {old : Bound K} (h : (improve new old).2 = false) :
    (improve new old).1 = old := by
  unfold improve at *
  cases new with
  | none => rfl
  | some b => simp only at *; split_ifs at *; simp_all

/-- taking one term apart: `e = a x + e'` -/
theorem val_split {e : ILinexpr K} {x : ℕ → K} {v : K} (hv : e.Val x v) {i : ℕ} {t : ITerm K}
    (ht : e.terms[i]? = some t) :
    ∃ q w, q ∈ t.itv ∧ (zeroAt e i).Val x w ∧ v = q * x t.dim + w := by
  obtain ⟨c, r, hc, hr, rfl⟩ := hv
  have key : ∀ (l : List (ITerm K)) (i : ℕ) (r : K), l[i]? = some t → TVal l x r →
      ∃ q w, q ∈ t.itv ∧ TVal (l.modify i fun t => ⟨t.dim, true, Itv.point 0⟩) x w ∧
        r = q * x t.dim + w := by
    intro l
    induction l with
    | nil => intro i r h; simp at h
    | cons u l ih =>
      intro i r h hr
      obtain ⟨q, s, hq, hs, rfl⟩ := hr
      cases i with
      | zero =>
        simp only [List.getElem?_cons_zero, Option.some.injEq] at h
        subst h
        exact ⟨q, s, hq, ⟨0, s, by rw [Itv.mem_point], hs, by ring⟩, rfl⟩
      | succ i =>
        simp only [List.getElem?_cons_succ] at h
        obtain ⟨q', w, hq', hw, rfl⟩ := ih i s h hs
        exact ⟨q', q * x u.dim + w, hq', ⟨q, w, hq, hw, rfl⟩, by ring⟩
  obtain ⟨q, w, hq, hw, rfl⟩ := key e.terms i r ht hr
  exact ⟨q, c + w, hq, ⟨c, w, hc, hw, rfl⟩, by ring⟩

theorem zeroAt_mem {e : ILinexpr K} {i : ℕ} {t : ITerm K} (h : t ∈ (zeroAt e i).terms) :
    (t ∈ e.terms) ∨ ∃ u ∈ e.terms, t = ⟨u.dim, true, Itv.point 0⟩ := by
  simp only [zeroAt] at h
  generalize e.terms = l at *
  induction l generalizing i with
  | nil => simp at h
  | cons u l ih =>
    cases i with
    | zero =>
      simp only [List.modify_zero_cons, List.mem_cons] at h
      rcases h with h | h
      · exact Or.inr ⟨u, by simp, h⟩
      · exact Or.inl (by simp [h])
    | succ i =>
      simp only [List.modify_succ_cons, List.mem_cons] at h
      rcases h with h | h
      · exact Or.inl (by simp [h])
      · rcases ih h with h | ⟨w, hw, h⟩
        · exact Or.inl (by simp [h])
        · exact Or.inr ⟨w, by simp [hw], h⟩

theorem flagsOk_zeroAt {e : ILinexpr K} (h : e.FlagsOk) (i : ℕ) : (zeroAt e i).FlagsOk := by
  intro t ht
  rcases zeroAt_mem ht with ht | ⟨u, _, rfl⟩
  · exact h t ht
  · intro _ q hq
    rw [Itv.mem_point] at hq; subst hq; rfl

/-- what the deductions need from the constraint: flags tell the truth, and coefficients are
scalars or arithmetic is exact -/
structure OkFor (R : Rnd K) (c : ILincons K) : Prop where
  flags : c.expr.FlagsOk
  cst : c.expr.terms.isEmpty = true → c.expr.CstOk
  exact : (∀ t ∈ c.expr.terms, t.eq = true) ∨ R = Rnd.exact

theorem boxizeTerm_sound {c : ILincons K} (hc : OkFor R c)
    (hty : c.typ = .eq ∨ c.typ = .supeq ∨ c.typ = .sup) {env : ℕ → Itv K} {intdim : ℕ}
    {itvonly : Bool} {i : ℕ} {t : ITerm K} (ht : c.expr.terms[i]? = some t) {old : Itv K} {x : ℕ → K}
    (hx : c.Holds x) (henv : ∀ t ∈ c.expr.terms, x t.dim ∈ env t.dim) (hold : x t.dim ∈ old)
    (hint : t.dim < intdim → ∃ n : ℤ, x t.dim = n) :
    x t.dim ∈ (boxizeTerm R c env intdim itvonly i t old).1 := by
  obtain ⟨v, hv, hr⟩ := hx
  obtain ⟨q, w, hq, hw, rfl⟩ := val_split hv ht
  have htm : t ∈ c.expr.terms := List.mem_of_getElem? ht
  have hev : w ∈ (zeroAt c.expr i).eval R env := by
    refine mem_eval R (flagsOk_zeroAt hc.flags i) hw ?_
    intro u hu
    rcases zeroAt_mem hu with hu | ⟨s, hs, rfl⟩
    · exact henv u hu
    · exact henv s hs
  have hf : t.eq = true → t.itv = Itv.point q := fun h => hc.flags t htm h q hq
  have hR : t.eq = true ∨ R = Rnd.exact := by
    rcases hc.exact with h | h
    · exact Or.inl (h t htm)
    · exact Or.inr h
  have hint' : decide (t.dim < intdim) = true → ∃ n : ℤ, x t.dim = n := fun h => hint (by simpa using h)
  have hint'' : decide (t.dim < intdim) = true → ∃ n : ℤ, -x t.dim = n := fun h => by
    obtain ⟨n, hn⟩ := hint' h
    exact ⟨-n, by simp [hn]⟩
  unfold boxizeTerm
  simp only
  split_ifs with h
  · exact hold
  · refine ⟨improve_ge hold.1 ?_, improve_ge hold.2 ?_⟩
    · intro b hb
      simp only [Option.map_eq_some_iff] at hb
      obtain ⟨b0, hb0, rfl⟩ := hb
      exact bounds_intBound R (infBound_sound hty hf hR hq hev hr hb0) hint''
    · intro b hb
      simp only [Option.map_eq_some_iff] at hb
      obtain ⟨b0, hb0, rfl⟩ := hb
      exact bounds_intBound R (supBound_sound hty hf hR hq hev hr hb0) hint'

theorem boxizeTerm_le (c : ILincons K) (env : ℕ → Itv K) (intdim : ℕ)
    (itvonly : Bool) (i : ℕ) (t : ITerm K) (old : Itv K) :
    (boxizeTerm R c env intdim itvonly i t old).1.inf ≤ old.inf ∧
    (boxizeTerm R c env intdim itvonly i t old).1.sup ≤ old.sup := by
  unfold boxizeTerm
  simp only
  split_ifs with h
  · exact ⟨le_refl _, le_refl _⟩
  · exact ⟨improve_le _ _, improve_le _ _⟩

theorem canonicalize_le (a : Itv K) (b : Bool) :
    (Itv.canonicalize a b).inf ≤ a.inf ∧ (Itv.canonicalize a b).sup ≤ a.sup := by
  unfold Itv.canonicalize
  split_ifs
  · exact ⟨floor_le_bound _, floor_le_bound _⟩
  · exact ⟨le_refl _, le_refl _⟩

theorem mem_canonicalize {a : Itv K} {b : Bool} {y : K} (h : y ∈ a) (hi : b = true → ∃ n : ℤ, y = n) :
    y ∈ Itv.canonicalize a b := by
  cases b with
  | false => simpa [Itv.canonicalize] using h
  | true => obtain ⟨n, rfl⟩ := hi rfl; exact Itv.mem_canonicalize_int.2 h

/-- `s` follows from `s0`: no new point is allowed, and the solutions `x` are kept -/
theorem boxizeGo_sound {c : ILincons K} (hc : OkFor R c)
    (hty : c.typ = .eq ∨ c.typ = .supeq ∨ c.typ = .sup) {same : Bool} {env : ℕ → Itv K} {intdim : ℕ}
    {itvonly : Bool} {x : ℕ → K} (hx : c.Holds x) {D : ℕ → Prop} (hD : ∀ t ∈ c.expr.terms, D t.dim)
    (henv : ∀ d, D d → x d ∈ env d) (hint : ∀ d, D d → d < intdim → ∃ n : ℤ, x d = n) :
    ∀ (l : List (ITerm K)) (i : ℕ) (s : BoxSt K), c.expr.terms.drop i = l → s.empty = false →
      (∀ d, D d → x d ∈ s.res d) →
      (boxizeGo R c same env intdim itvonly i l s).empty = false ∧
      ∀ d, D d → x d ∈ (boxizeGo R c same env intdim itvonly i l s).res d := by
  intro l
  induction l with
  | nil => intro i s _ he hs; exact ⟨he, hs⟩
  | cons t l ih =>
    intro i s hl he hs
    have ht : c.expr.terms[i]? = some t := by
      rw [← List.head?_drop, hl]; rfl
    have hdrop : c.expr.terms.drop (i + 1) = l := by
      rw [← List.drop_drop, hl]; rfl
    have htm : t ∈ c.expr.terms := List.mem_of_getElem? ht
    have hstep := boxizeTerm_sound (itvonly := itvonly) (intdim := intdim)
      (env := if same then s.res else env) (old := s.res t.dim) hc hty ht hx (by
        intro u hu
        cases same
        · exact henv _ (hD u hu)
        · exact hs _ (hD u hu)) (hs _ (hD t htm)) (hint _ (hD t htm))
    have hcan := mem_canonicalize (b := decide (t.dim < intdim)) hstep
      (fun h => hint _ (hD t htm) (by simpa using h))
    have hup : ∀ d, D d → x d ∈ Function.update s.res t.dim (Itv.canonicalize
        (boxizeTerm R c (if same then s.res else env) intdim itvonly i t (s.res t.dim)).1
        (decide (t.dim < intdim))) d := by
      intro d hd
      by_cases h : d = t.dim
      · subst h; simpa using hcan
      · rw [Function.update_of_ne h]; exact hs d hd
    unfold boxizeGo
    simp only
    generalize (if same = true then s.res else env) = E at *
    split_ifs with h1 h2
    · rw [Itv.not_isBottom hcan] at h2; simp at h2
    · exact ih (i + 1) _ hdrop rfl hup
    · exact ih (i + 1) s hdrop he hs

/-- pointwise order on arrays of intervals -/
def ArrLe (a b : ℕ → Itv K) : Prop := ∀ d, (a d).inf ≤ (b d).inf ∧ (a d).sup ≤ (b d).sup

theorem ArrLe.refl (a : ℕ → Itv K) : ArrLe a a := fun _ => ⟨le_refl _, le_refl _⟩
theorem ArrLe.trans {a b c : ℕ → Itv K} (h : ArrLe a b) (h' : ArrLe b c) : ArrLe a c :=
  fun d => ⟨(h d).1.trans (h' d).1, (h d).2.trans (h' d).2⟩

theorem boxizeGo_le (c : ILincons K) (same : Bool) (env : ℕ → Itv K) (intdim : ℕ) (itvonly : Bool) :
    ∀ (l : List (ITerm K)) (i : ℕ) (s : BoxSt K),
      ArrLe (boxizeGo R c same env intdim itvonly i l s).res s.res := by
  intro l
  induction l with
  | nil => intro i s; exact ArrLe.refl _
  | cons t l ih =>
    intro i s
    have hb := boxizeTerm_le (R := R) c (if same then s.res else env) intdim itvonly i t (s.res t.dim)
    have hup : ArrLe (Function.update s.res t.dim (Itv.canonicalize
        (boxizeTerm R c (if same then s.res else env) intdim itvonly i t (s.res t.dim)).1
        (decide (t.dim < intdim)))) s.res := by
      intro d
      by_cases h : d = t.dim
      · subst h
        have := canonicalize_le (boxizeTerm R c (if same then s.res else env) intdim itvonly i t
          (s.res t.dim)).1 (decide (t.dim < intdim))
        simp only [Function.update_self]
        exact ⟨this.1.trans hb.1, this.2.trans hb.2⟩
      · rw [Function.update_of_ne h]; exact ⟨le_refl _, le_refl _⟩
    unfold boxizeGo
    simp only
    generalize (if same = true then s.res else env) = E at *
    split_ifs with h1 h2
    · exact hup
    · exact (ih (i + 1) _).trans hup
    · exact ih (i + 1) s

/-- property of the final array: an interval of each changed dimension is not empty -/
theorem boxizeGo_inv (P : Itv K → Prop) (hP : ∀ a, Itv.isBottom a = false → P a)
    (c : ILincons K) (same : Bool) (env : ℕ → Itv K) (intdim : ℕ) (itvonly : Bool) :
    ∀ (l : List (ITerm K)) (i : ℕ) (s : BoxSt K), (∀ d, P (s.res d)) →
      (boxizeGo R c same env intdim itvonly i l s).empty = false →
      ∀ d, P ((boxizeGo R c same env intdim itvonly i l s).res d) := by
  intro l
  induction l with
  | nil => intro i s hs _; exact hs
  | cons t l ih =>
    intro i s hs
    unfold boxizeGo
    simp only
    generalize (if same = true then s.res else env) = E at *
    split_ifs with h1 h2
    · intro h; simp at h
    · refine ih (i + 1) _ ?_
      intro d
      by_cases h : d = t.dim
      · subst h; simp only [Function.update_self]; exact hP _ (by simpa using h2)
      · simp only; rw [Function.update_of_ne h]; exact hs d
    · exact ih (i + 1) s hs

theorem boxize_sound {c : ILincons K} (hc : OkFor R c)
    (hty : c.typ = .eq ∨ c.typ = .supeq ∨ c.typ = .sup) {same : Bool} {env res : ℕ → Itv K} {intdim : ℕ}
    {itvonly : Bool} {x : ℕ → K} (hx : c.Holds x) {D : ℕ → Prop} (hD : ∀ t ∈ c.expr.terms, D t.dim)
    (henv : ∀ d, D d → x d ∈ env d) (hint : ∀ d, D d → d < intdim → ∃ n : ℤ, x d = n)
    (hres : ∀ d, D d → x d ∈ res d) :
    (boxize R c same env res intdim itvonly).empty = false ∧
    ∀ d, D d → x d ∈ (boxize R c same env res intdim itvonly).res d := by
  have := boxizeGo_sound (same := same) (itvonly := itvonly) hc hty hx hD henv hint c.expr.terms 0
    ⟨res, false, false⟩ (by simp) rfl hres
  unfold boxize
  simp only
  split_ifs with h
  · exact absurd hx (not_holds_of_evalCst'_f (hc.cst h.1) h.1 h.2 x)
  · exact this

theorem boxize_le (c : ILincons K) (same : Bool) (env res : ℕ → Itv K) (intdim : ℕ) (itvonly : Bool) :
    ArrLe (boxize R c same env res intdim itvonly).res res := by
  have := boxizeGo_le (R := R) c same env intdim itvonly c.expr.terms 0 ⟨res, false, false⟩
  unfold boxize
  simp only
  split_ifs <;> exact this

theorem boxize_inv (P : Itv K → Prop) (hP : ∀ a, Itv.isBottom a = false → P a) (c : ILincons K)
    (same : Bool) (env res : ℕ → Itv K) (intdim : ℕ) (itvonly : Bool) (hres : ∀ d, P (res d))
    (h : (boxize R c same env res intdim itvonly).empty = false) :
    ∀ d, P ((boxize R c same env res intdim itvonly).res d) := by
  unfold boxize at *
  simp only at *
  split_ifs at * with h1
  exact boxizeGo_inv P hP c same env intdim itvonly c.expr.terms 0 _ hres h

theorem boxizePass_sound {same : Bool} {env : ℕ → Itv K} {intdim : ℕ} {itvonly : Bool} {x : ℕ → K}
    {D : ℕ → Prop} (henv : ∀ d, D d → x d ∈ env d)
    (hint : ∀ d, D d → d < intdim → ∃ n : ℤ, x d = n) :
    ∀ (l : List (ILincons K)) (s : BoxSt K), (∀ c ∈ l, OkFor R c ∧ c.Holds x ∧ ∀ t ∈ c.expr.terms, D t.dim) →
      s.empty = false → (∀ d, D d → x d ∈ s.res d) →
      (boxizePass R same env intdim itvonly l s).empty = false ∧
      ∀ d, D d → x d ∈ (boxizePass R same env intdim itvonly l s).res d := by
  intro l
  induction l with
  | nil => intro s _ he hs; exact ⟨he, hs⟩
  | cons c l ih =>
    intro s hl he hs
    obtain ⟨hc, hx, hD⟩ := hl c (by simp)
    have hl' : ∀ c ∈ l, OkFor R c ∧ c.Holds x ∧ ∀ t ∈ c.expr.terms, D t.dim :=
      fun c h => hl c (by simp [h])
    have go : ∀ (hty : c.typ = .eq ∨ c.typ = .supeq ∨ c.typ = .sup),
        (let r := boxize R c same env s.res intdim itvonly
         if r.empty then (⟨r.res, true, true⟩ : BoxSt K)
         else boxizePass R same env intdim itvonly l ⟨r.res, r.change || s.change, false⟩).empty = false ∧
        ∀ d, D d → x d ∈ (let r := boxize R c same env s.res intdim itvonly
         if r.empty then (⟨r.res, true, true⟩ : BoxSt K)
         else boxizePass R same env intdim itvonly l ⟨r.res, r.change || s.change, false⟩).res d := by
      intro hty
      obtain ⟨h1, h2⟩ := boxize_sound (same := same) (itvonly := itvonly) hc hty hx hD henv hint hs
      simp only [h1, Bool.false_eq_true, if_false]
      exact ih _ hl' rfl h2
    unfold boxizePass
    split
    · exact go (Or.inl (by assumption))
    · exact go (Or.inr (Or.inl (by assumption)))
    · exact go (Or.inr (Or.inr (by assumption)))
    · exact ih s hl' he hs

theorem boxizePass_le (same : Bool) (env : ℕ → Itv K) (intdim : ℕ) (itvonly : Bool) :
    ∀ (l : List (ILincons K)) (s : BoxSt K),
      ArrLe (boxizePass R same env intdim itvonly l s).res s.res := by
  intro l
  induction l with
  | nil => intro s; exact ArrLe.refl _
  | cons c l ih =>
    intro s
    have h1 := boxize_le (R := R) c same env s.res intdim itvonly
    unfold boxizePass
    split
    case h_4 => exact ih s
    all_goals
      simp only
      split_ifs
      · exact h1
      · exact (ih _).trans h1

theorem boxizePass_inv (P : Itv K → Prop) (hP : ∀ a, Itv.isBottom a = false → P a)
    (same : Bool) (env : ℕ → Itv K) (intdim : ℕ) (itvonly : Bool) :
    ∀ (l : List (ILincons K)) (s : BoxSt K), (∀ d, P (s.res d)) →
      (boxizePass R same env intdim itvonly l s).empty = false →
      ∀ d, P ((boxizePass R same env intdim itvonly l s).res d) := by
  intro l
  induction l with
  | nil => intro s hs _; exact hs
  | cons c l ih =>
    intro s hs
    have h1 := boxize_inv (R := R) P hP c same env s.res intdim itvonly hs
    unfold boxizePass
    split
    case h_4 => exact ih s hs
    all_goals
      simp only
      split_ifs with h
      · intro h; simp at h
      · exact ih _ (h1 (by simpa using h))

theorem boxizeLoop_sound {same : Bool} {env : ℕ → Itv K} {intdim : ℕ} {itvonly : Bool} {x : ℕ → K}
    {D : ℕ → Prop} (henv : ∀ d, D d → x d ∈ env d)
    (hint : ∀ d, D d → d < intdim → ∃ n : ℤ, x d = n) {l : List (ILincons K)}
    (hl : ∀ c ∈ l, OkFor R c ∧ c.Holds x ∧ ∀ t ∈ c.expr.terms, D t.dim) :
    ∀ (k : ℕ) (s : BoxSt K), s.empty = false → (∀ d, D d → x d ∈ s.res d) →
      (boxizeLoop R same env intdim itvonly l k s).empty = false ∧
      ∀ d, D d → x d ∈ (boxizeLoop R same env intdim itvonly l k s).res d := by
  intro k
  induction k with
  | zero => intro s he hs; exact ⟨he, hs⟩
  | succ k ih =>
    intro s he hs
    obtain ⟨h1, h2⟩ := boxizePass_sound (same := same) (itvonly := itvonly) henv hint l
      ⟨s.res, false, false⟩ hl rfl hs
    unfold boxizeLoop
    simp only [h1, Bool.false_eq_true, if_false]
    split_ifs
    · exact ih _ rfl h2
    · exact ⟨rfl, h2⟩

theorem boxizeLoop_le (same : Bool) (env : ℕ → Itv K) (intdim : ℕ) (itvonly : Bool)
    (l : List (ILincons K)) : ∀ (k : ℕ) (s : BoxSt K),
      ArrLe (boxizeLoop R same env intdim itvonly l k s).res s.res := by
  intro k
  induction k with
  | zero => intro s; exact ArrLe.refl _
  | succ k ih =>
    intro s
    have h1 := boxizePass_le (R := R) same env intdim itvonly l ⟨s.res, false, false⟩
    unfold boxizeLoop
    simp only
    split_ifs
    · exact h1
    · exact (ih _).trans h1
    · exact h1

theorem boxizeLoop_inv (P : Itv K → Prop) (hP : ∀ a, Itv.isBottom a = false → P a)
    (same : Bool) (env : ℕ → Itv K) (intdim : ℕ) (itvonly : Bool) (l : List (ILincons K)) :
    ∀ (k : ℕ) (s : BoxSt K), (∀ d, P (s.res d)) →
      (boxizeLoop R same env intdim itvonly l k s).empty = false →
      ∀ d, P ((boxizeLoop R same env intdim itvonly l k s).res d) := by
  intro k
  induction k with
  | zero => intro s hs _; exact hs
  | succ k ih =>
    intro s hs
    have h1 := boxizePass_inv (R := R) P hP same env intdim itvonly l ⟨s.res, false, false⟩ hs
    unfold boxizeLoop
    simp only
    split_ifs with h2 h3
    · intro h; simp at h
    · exact ih _ (h1 (by simpa using h2))
    · intro _; exact h1 (by simpa using h2)

end ILincons
end Apron
