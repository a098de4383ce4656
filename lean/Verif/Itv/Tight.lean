import Verif.Itv.Lemmas

/-! # Helper lemmas: least upper bounds of products and quotients (exact arithmetic) -/

set_option autoImplicit false
set_option linter.unusedSectionVars false
set_option linter.ambiguousOpen false

namespace Apron
open Bound
variable {K : Type*} [LinearOrder K] [Field K] [IsStrictOrderedRing K]

/-- the set `P` reaches the upper bound `b`: attains it when finite, exceeds everything when `+oo` -/
def Reach (P : K → Prop) (b : Bound K) : Prop :=
  match b with
  | ninf => False
  | fin q => P q
  | pinf => ∀ t, ∃ x, t < x ∧ P x

theorem Reach.nonempty {P : K → Prop} {b : Bound K} (h : Reach P b) : ∃ x, P x := by
  cases b with
  | ninf => exact h.elim
  | fin q => exact ⟨q, h⟩
  | pinf => obtain ⟨x, -, hx⟩ := h 0; exact ⟨x, hx⟩

theorem Reach.le {P : K → Prop} {b d : Bound K} (h : Reach P b) (hd : ∀ x, P x → fin x ≤ d) :
    b ≤ d := by
  cases b with
  | ninf => exact h.elim
  | fin q => exact hd q h
  | pinf =>
    cases d with
    | ninf => obtain ⟨x, -, hx⟩ := h 0; exact absurd (hd x hx) (by simp)
    | fin d => obtain ⟨x, hx, hx'⟩ := h d; have := hd x hx'; simp at this; exact absurd this (not_le.2 hx)
    | pinf => simp

namespace Itv

theorem reach_sup {b : Itv K} {x : K} (h : x ∈ b) : Reach (· ∈ b) b.sup := by
  rcases b with ⟨i, s⟩
  obtain ⟨h1, h2⟩ := h
  cases s with
  | ninf => simp at h2
  | fin q => 
    simp at h2
    exact ⟨le_trans (by simpa using h2) h1, le_refl _⟩
  | pinf =>
    intro t
    refine ⟨max x t + 1, by linarith [le_max_right x t], le_trans ?_ h1, by simp⟩
    simp only [fin_le_fin]; linarith [le_max_left x t]

theorem reach_inf {b : Itv K} {x : K} (h : x ∈ b) : Reach (fun z => -z ∈ b) b.inf := by
  have e : (fun z => -z ∈ b) = (fun z => z ∈ neg b) := by
    funext z; rw [mem_neg_iff]
  rw [e]
  exact reach_sup (mem_neg h)

end Itv

theorem Reach.mul {P Q : K → Prop} {b c d : Bound K} (hP : Reach P b) (hQ : Reach Q c)
    (hd : ∀ x y, P x → Q y → fin (x * y) ≤ d) : Bound.mul Rnd.exact b c ≤ d := by
  obtain ⟨x0, hx0⟩ := hP.nonempty
  obtain ⟨y0, hy0⟩ := hQ.nonempty
  have hdn : d ≠ ninf := by rintro rfl; exact absurd (hd _ _ hx0 hy0) (by simp)
  cases b with
  | ninf => exact hP.elim
  | fin p =>
    cases c with
    | ninf => exact hQ.elim
    | fin q => rw [mul_fin_fin_exact]; exact hd _ _ hP hQ
    | pinf =>
      rcases lt_trichotomy p 0 with h | h | h
      · simp [Bound.mul, sgn_fin_of_neg h, ofSgn]
      · subst h; rw [mul_zero_left]; have := hd _ _ hP hy0; simpa using this
      · rw [mul_pinf_right _ (by simpa using h)]
        cases d with
        | ninf => simp at hdn
        | pinf => simp
        | fin d =>
          obtain ⟨y, hy, hQy⟩ := hQ (d / p)
          have := hd _ _ hP hQy
          rw [div_lt_iff₀ h] at hy
          simp at this; linarith
  | pinf =>
    cases c with
    | ninf => exact hQ.elim
    | fin q =>
      rcases lt_trichotomy q 0 with h | h | h
      · simp [Bound.mul, sgn_fin_of_neg h, ofSgn]
      · subst h; rw [mul_zero_right]; have := hd _ _ hx0 hQ; simpa using this
      · rw [mul_pinf_left _ (by simpa using h)]
        cases d with
        | ninf => simp at hdn
        | pinf => simp
        | fin d =>
          obtain ⟨x, hx, hPx⟩ := hP (d / q)
          have := hd _ _ hPx hQ
          rw [div_lt_iff₀ h] at hx
          simp at this; linarith
    | pinf =>
      rw [mul_pinf_left _ (by simp)]
      cases d with
      | ninf => simp at hdn
      | pinf => simp
      | fin d =>
        obtain ⟨x, hx, hPx⟩ := hP (max d 1)
        obtain ⟨y, hy, hQy⟩ := hQ 1
        have := hd _ _ hPx hQy
        have h1 := le_max_left d 1
        have h2 := le_max_right d 1
        simp at this; nlinarith

theorem Reach.add {P Q : K → Prop} {b c d : Bound K} (hP : Reach P b) (hQ : Reach Q c)
    (hd : ∀ x y, P x → Q y → fin (x + y) ≤ d) : Bound.add Rnd.exact b c ≤ d := by
  obtain ⟨x0, hx0⟩ := hP.nonempty
  obtain ⟨y0, hy0⟩ := hQ.nonempty
  have hdn : d ≠ ninf := by rintro rfl; exact absurd (hd _ _ hx0 hy0) (by simp)
  cases d with
  | ninf => simp at hdn
  | pinf => simp
  | fin d =>
    cases b with
    | ninf => exact hP.elim
    | pinf =>
      obtain ⟨x, hx, hPx⟩ := hP (d - y0)
      have := hd _ _ hPx hy0
      simp at this; linarith
    | fin p =>
      cases c with
      | ninf => exact hQ.elim
      | fin q => simp [Bound.add]; have := hd _ _ hP hQ; simpa using this
      | pinf =>
        obtain ⟨y, hy, hQy⟩ := hQ (d - p)
        have := hd _ _ hP hQy
        simp at this; linarith

/-- quotient of a bound `b` reached by `P` by a positive bound `c` reached by positive `Q` -/
theorem Reach.div {P Q : K → Prop} {b c d : Bound K} (hP : Reach P b) (hQ : Reach Q c)
    (hbc : b ≠ pinf ∨ c ≠ pinf) (hQ0 : ∀ y, Q y → 0 < y)
    (hd : ∀ x y, P x → Q y → fin (x / y) ≤ d) : Bound.div Rnd.exact b c ≤ d := by
  obtain ⟨x0, hx0⟩ := hP.nonempty
  obtain ⟨y0, hy0⟩ := hQ.nonempty
  have hdn : d ≠ ninf := by rintro rfl; exact absurd (hd _ _ hx0 hy0) (by simp)
  cases d with
  | ninf => simp at hdn
  | pinf => simp
  | fin d =>
    cases b with
    | ninf => exact hP.elim
    | pinf =>
      cases c with
      | ninf => exact hQ.elim
      | pinf => simp at hbc
      | fin q =>
        have h := hQ0 q hQ
        obtain ⟨x, hx, hPx⟩ := hP (d * q)
        have := hd _ _ hPx hQ
        simp only [fin_le_fin, div_le_iff₀ h] at this
        exact absurd this (not_le.2 hx)
    | fin p =>
      cases c with
      | ninf => exact hQ.elim
      | fin q => rw [div_fin_fin_exact _ (hQ0 q hQ).ne']; exact hd _ _ hP hQ
      | pinf =>
        rw [div_infty_right _ _ rfl]
        simp
        by_contra hc
        rw [not_le] at hc
        obtain ⟨y, hy, hQy⟩ := hQ (p / d)
        have hy0 := hQ0 y hQy
        have := hd _ _ hP hQy
        simp only [fin_le_fin, div_le_iff₀ hy0] at this
        rw [div_lt_iff_of_neg hc] at hy
        linarith

namespace Itv
open Bound

/-- Specification: `r` is the smallest interval containing the set `S`. -/
def IsHull (S : K → Prop) (r : Itv K) : Prop :=
  (∀ x, S x → x ∈ r) ∧ ∀ d : Itv K, (∀ x, S x → x ∈ d) → ∀ z, z ∈ r → z ∈ d

theorem mem_of_le {a b : Itv K} {x : K} (h1 : a.inf ≤ b.inf) (h2 : a.sup ≤ b.sup) (h : x ∈ a) :
    x ∈ b := ⟨le_trans h.1 h1, le_trans h.2 h2⟩

theorem mulp_tight {b c d : Itv K} {x0 y0 : K} (hx : x0 ∈ b) (hy : y0 ∈ c) (hc : c.inf ≤ fin 0)
    (hd : ∀ x y, x ∈ b → y ∈ c → x * y ∈ d) :
    (mulp Rnd.exact b c).inf ≤ d.inf ∧ (mulp Rnd.exact b c).sup ≤ d.sup := by
  have bs := reach_sup hx
  have bi := reach_inf hx
  have cs := reach_sup hy
  have ci := reach_inf hy
  obtain ⟨q, hq, -, -⟩ := exists_fin_of_le hy.1 hc
  unfold mulp
  split_ifs with h1 h2
  · rw [sgn_le_zero_iff] at h1
    constructor
    · have ci' : Reach (· ∈ c) (Bound.neg c.inf) := by rw [hq] at ci ⊢; simpa [Reach] using ci
      refine bi.mul ci' (fun x y hx hy => ?_)
      simpa using (hd _ _ hx hy).1
    · exact bs.mul cs (fun x y hx hy => (hd _ _ hx hy).2)
  · rw [sgn_le_zero_iff] at h2
    obtain ⟨p, hp, -, -⟩ := exists_fin_of_le hx.2 h2
    constructor
    · refine cs.mul bi (fun x y hx hy => ?_)
      have := (hd _ _ hy hx).1
      simpa [mul_comm] using this
    · have ci' : Reach (· ∈ c) (Bound.neg c.inf) := by rw [hq] at ci ⊢; simpa [Reach] using ci
      refine ci'.mul bs (fun x y hx hy => ?_)
      rw [mul_comm]; exact (hd _ _ hy hx).2
  · constructor
    · refine bi.mul cs (fun x y hx hy => ?_)
      simpa using (hd _ _ hx hy).1
    · exact bs.mul cs (fun x y hx hy => (hd _ _ hx hy).2)

theorem muln_tight {b c d : Itv K} {x0 y0 : K} (hx : x0 ∈ b) (hy : y0 ∈ c) (hc : c.sup ≤ fin 0)
    (hd : ∀ x y, x ∈ b → y ∈ c → x * y ∈ d) :
    (muln Rnd.exact b c).inf ≤ d.inf ∧ (muln Rnd.exact b c).sup ≤ d.sup := by
  have bs := reach_sup hx
  have bi := reach_inf hx
  have cs := reach_sup hy
  have ci := reach_inf hy
  obtain ⟨q, hq, -, -⟩ := exists_fin_of_le hy.2 hc
  unfold muln
  split_ifs with h1 h2
  · rw [sgn_le_zero_iff] at h1
    obtain ⟨p, hp, -, -⟩ := exists_fin_of_le hx.1 h1
    constructor
    · refine bs.mul ci (fun x y hx hy => ?_)
      simpa using (hd _ _ hx hy).1
    · have bi' : Reach (· ∈ b) (Bound.neg b.inf) := by rw [hp] at bi ⊢; simpa [Reach] using bi
      exact bi'.mul cs (fun x y hx hy => (hd _ _ hx hy).2)
  · rw [sgn_le_zero_iff] at h2
    constructor
    · have cs' : Reach (fun z => -z ∈ c) (Bound.neg c.sup) := by
        rw [hq] at cs ⊢; simpa [Reach] using cs
      refine bs.mul cs' (fun x y hx hy => ?_)
      simpa using (hd _ _ hx hy).1
    · refine bi.mul ci (fun x y hx hy => ?_)
      simpa using (hd _ _ hx hy).2
  · constructor
    · refine bs.mul ci (fun x y hx hy => ?_)
      simpa using (hd _ _ hx hy).1
    · refine bi.mul ci (fun x y hx hy => ?_)
      simpa using (hd _ _ hx hy).2

theorem mul_tight {b c d : Itv K} {x0 y0 : K} (hx : x0 ∈ b) (hy : y0 ∈ c)
    (hd : ∀ x y, x ∈ b → y ∈ c → x * y ∈ d) :
    (mul Rnd.exact b c).inf ≤ d.inf ∧ (mul Rnd.exact b c).sup ≤ d.sup := by
  unfold mul
  split_ifs with h1 h2 h3
  · exact mulp_tight hx hy ((sgn_le_zero_iff _).1 h1) hd
  · exact muln_tight hx hy ((sgn_le_zero_iff _).1 h2) hd
  · exact mulp_tight hy hx ((sgn_le_zero_iff _).1 h3) (fun x y hx hy => by
      rw [mul_comm]; exact hd _ _ hy hx)
  · rw [sgn_le_zero_iff, not_le] at h1 h2
    have hp := mulp_tight (c := ⟨fin 0, c.sup⟩) (y0 := 0) (d := d) hx ⟨by simp, h2.le⟩ (by simp)
      (fun x y hx hy => hd _ _ hx ⟨le_trans hy.1 h1.le, hy.2⟩)
    have hn := muln_tight (c := ⟨c.inf, fin 0⟩) (y0 := 0) (d := d) hx ⟨by simpa using h1.le, by simp⟩
      (by simp) (fun x y hx hy => hd _ _ hx ⟨hy.1, le_trans hy.2 h2.le⟩)
    unfold join
    split_ifs
    · exact hn
    · exact hp
    · simp [bmax_eq_max, hp, hn]

theorem divp_tight {b c d : Itv K} {x0 y0 : K} (hx : x0 ∈ b) (hy : y0 ∈ c) (hc : c.inf < fin 0)
    (hd : ∀ x y, x ∈ b → y ∈ c → x / y ∈ d) :
    (divp Rnd.exact b c).inf ≤ d.inf ∧ (divp Rnd.exact b c).sup ≤ d.sup := by
  have bs := reach_sup hx
  have bi := reach_inf hx
  have cs := reach_sup hy
  have ci := reach_inf hy
  have hpos : ∀ y, y ∈ c → 0 < y := fun y hy => pos_of_inf hy hc
  obtain ⟨q, hq, -, -⟩ := exists_fin_of_le hy.1 hc.le
  have hq0 : q ≠ 0 := by rintro rfl; simp [hq] at hc
  have ci' : Reach (· ∈ c) (Bound.neg c.inf) := by rw [hq] at ci ⊢; simpa [Reach] using ci
  have hn : Bound.neg c.inf ≠ pinf := by simp [hq]
  unfold divp
  split_ifs with h1 h2
  · rw [sgn_le_zero_iff] at h1
    obtain ⟨p, hp, -, -⟩ := exists_fin_of_le hx.1 h1
    constructor
    · refine bi.div cs (Or.inl (by simp [hp])) hpos (fun x y hx hy => ?_)
      simpa [neg_div] using (hd _ _ hx hy).1
    · exact bs.div ci' (Or.inr hn) hpos (fun x y hx hy => (hd _ _ hx hy).2)
  · rw [sgn_le_zero_iff] at h2
    obtain ⟨p, hp, -, -⟩ := exists_fin_of_le hx.2 h2
    constructor
    · show Bound.div Rnd.exact (Bound.neg b.inf) c.inf ≤ d.inf
      have : Bound.div Rnd.exact (Bound.neg b.inf) c.inf
          = Bound.div Rnd.exact b.inf (Bound.neg c.inf) := by
        have := bdiv_neg_neg Rnd.exact b.inf (-q) (by simpa using hq0)
        simpa [hq] using this
      rw [this]
      refine bi.div ci' (Or.inr hn) hpos (fun x y hx hy => ?_)
      simpa [neg_div] using (hd _ _ hx hy).1
    · exact bs.div cs (Or.inl (by simp [hp])) hpos (fun x y hx hy => (hd _ _ hx hy).2)
  · constructor
    · refine bi.div ci' (Or.inr hn) hpos (fun x y hx hy => ?_)
      simpa [neg_div] using (hd _ _ hx hy).1
    · exact bs.div ci' (Or.inr hn) hpos (fun x y hx hy => (hd _ _ hx hy).2)

theorem divn_tight {b c d : Itv K} {x0 y0 : K} (hx : x0 ∈ b) (hy : y0 ∈ c) (hc : c.sup < fin 0)
    (hd : ∀ x y, x ∈ b → y ∈ c → x / y ∈ d) :
    (divn Rnd.exact b c).inf ≤ d.inf ∧ (divn Rnd.exact b c).sup ≤ d.sup := by
  have bs := reach_sup hx
  have bi := reach_inf hx
  have cs := reach_sup hy
  have ci := reach_inf hy
  have hpos : ∀ y, -y ∈ c → 0 < y := fun y hy => by have := neg_of_sup hy hc; linarith
  obtain ⟨q, hq, -, -⟩ := exists_fin_of_le hy.2 hc.le
  have hq0 : q ≠ 0 := by rintro rfl; simp [hq] at hc
  have cs' : Reach (fun z => -z ∈ c) (Bound.neg c.sup) := by
    rw [hq] at cs ⊢; simpa [Reach] using cs
  have hn : Bound.neg c.sup ≠ pinf := by simp [hq]
  have e : ∀ b : Bound K, Bound.div Rnd.exact (Bound.neg b) c.sup
      = Bound.div Rnd.exact b (Bound.neg c.sup) := fun b => by
    have := bdiv_neg_neg Rnd.exact b (-q) (by simpa using hq0)
    simpa [hq] using this
  unfold divn
  split_ifs with h1 h2
  · rw [sgn_le_zero_iff] at h1
    obtain ⟨p, hp, -, -⟩ := exists_fin_of_le hx.1 h1
    constructor
    · show Bound.div Rnd.exact (Bound.neg b.sup) c.sup ≤ d.inf
      rw [e]
      refine bs.div cs' (Or.inr hn) hpos (fun x y hx hy => ?_)
      simpa [div_neg] using (hd _ _ hx hy).1
    · refine bi.div ci (Or.inl (by simp [hp])) hpos (fun x y hx hy => ?_)
      simpa using (hd _ _ hx hy).2
  · rw [sgn_le_zero_iff] at h2
    obtain ⟨p, hp, -, -⟩ := exists_fin_of_le hx.2 h2
    constructor
    · refine bs.div ci (Or.inl (by simp [hp])) hpos (fun x y hx hy => ?_)
      simpa [div_neg] using (hd _ _ hx hy).1
    · show Bound.div Rnd.exact (Bound.neg b.inf) c.sup ≤ d.sup
      rw [e]
      refine bi.div cs' (Or.inr hn) hpos (fun x y hx hy => ?_)
      simpa using (hd _ _ hx hy).2
  · constructor
    · refine bs.div cs' (Or.inr hn) hpos (fun x y hx hy => ?_)
      simpa [div_neg] using (hd _ _ hx hy).1
    · refine bi.div cs' (Or.inr hn) hpos (fun x y hx hy => ?_)
      simpa using (hd _ _ hx hy).2

end Itv
end Apron

namespace Apron
open Bound
variable {K : Type*} [LinearOrder K] [Field K] [IsStrictOrderedRing K]
namespace Itv

/-- termination measure of the interval widening -/
def widenMeasure (a : Itv K) : ℕ :=
  if isCanonicalBottom a then 3
  else (if a.inf = pinf then 0 else 1) + (if a.sup = pinf then 0 else 1)

theorem widenMeasure_le (a : Itv K) : widenMeasure a ≤ 3 := by
  unfold widenMeasure; split_ifs <;> simp

theorem widenMeasure_le2 (a : Itv K) (h : isCanonicalBottom a = false) : widenMeasure a ≤ 2 := by
  unfold widenMeasure; rw [h]; split_ifs <;> simp_all

theorem boundWidening_cases (u v : Bound K) : boundWidening u v = u ∨ boundWidening u v = pinf := by
  unfold boundWidening; split_ifs <;> simp

theorem widen_step (a b : Itv K) :
    widening a b = a ∨ widenMeasure (widening a b) < widenMeasure a := by
  by_cases h1 : isCanonicalBottom a = true
  · by_cases h2 : isCanonicalBottom b = true
    · left
      rw [isCanonicalBottom_iff] at h1 h2; subst h1; subst h2
      simp [widening, (isCanonicalBottom_iff (bottom : Itv K)).2 rfl]
    · right
      have h3 : widening a b = b := by unfold widening; rw [if_pos h1]
      have h4 : widenMeasure a = 3 := by unfold widenMeasure; rw [if_pos h1]
      have := widenMeasure_le2 b (by simpa using h2)
      rw [h3, h4]; omega
  · by_cases h2 : isCanonicalBottom b = true
    · left; unfold widening; rw [if_neg h1, if_pos h2]
    · have h3 : widening a b = ⟨boundWidening a.inf b.inf, boundWidening a.sup b.sup⟩ := by
        unfold widening; rw [if_neg h1, if_neg h2]
      rw [h3]
      rcases a with ⟨i, s⟩
      have nb : ∀ i' s' : Bound K, (i' = pinf ∨ s' = pinf) → isCanonicalBottom (⟨i', s'⟩ : Itv K) = false := by
        rintro i' s' (h | h) <;> subst h <;> simp [isCanonicalBottom]
      have m1 : widenMeasure (⟨i, s⟩ : Itv K) = (if i = pinf then 0 else 1) + (if s = pinf then 0 else 1) := by
        unfold widenMeasure; rw [if_neg h1]
      simp only
      rcases boundWidening_cases i b.inf with e1 | e1 <;> rcases boundWidening_cases s b.sup with e2 | e2
      · left; rw [e1, e2]
      · rw [e1, e2]
        by_cases hs : s = pinf
        · left; rw [hs]
        · right; rw [m1]; unfold widenMeasure; rw [nb _ _ (Or.inr rfl)]; simp [hs]
      · rw [e1, e2]
        by_cases hs : i = pinf
        · left; rw [hs]
        · right; rw [m1]; unfold widenMeasure; rw [nb _ _ (Or.inl rfl)]; simp [hs]
      · rw [e1, e2]
        by_cases hs : i = pinf ∧ s = pinf
        · left; rw [hs.1, hs.2]
        · right; rw [m1]; unfold widenMeasure; rw [nb _ _ (Or.inl rfl)]; simp
          by_cases hi : i = pinf
          · have : s ≠ pinf := fun h => hs ⟨hi, h⟩
            simp [this]
          · simp [hi]

end Itv
end Apron
