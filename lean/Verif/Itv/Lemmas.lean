import Verif.Num.BoundLemmas
import Verif.Itv.Defs

/-! # Helper lemmas on interval arithmetic -/

set_option autoImplicit false
set_option linter.unusedSectionVars false
set_option linter.ambiguousOpen false

namespace Apron
namespace Itv
open Bound
variable {K : Type*} [LinearOrder K] [Field K] [IsStrictOrderedRing K] (R : Rnd K)

theorem mem_top (x : K) : x ∈ (top : Itv K) := by simp [mem_def, top]
theorem not_mem_bottom (x : K) : x ∉ (bottom : Itv K) := by
  simp [mem_def, bottom]; intro h; linarith
theorem mem_point (x q : K) : x ∈ point q ↔ x = q := by
  simp [mem_def, point]
  constructor
  · rintro ⟨h1, h2⟩; exact le_antisymm h2 h1
  · rintro rfl; simp

theorem mem_add {b c : Itv K} {x y : K} (hx : x ∈ b) (hy : y ∈ c) : x + y ∈ add R b c := by
  refine ⟨?_, add_ge R hx.2 hy.2⟩
  have := add_ge R hx.1 hy.1
  rwa [show -(x + y) = -x + -y by ring]

theorem mem_sub {b c : Itv K} {x y : K} (hx : x ∈ b) (hy : y ∈ c) : x - y ∈ sub R b c := by
  refine ⟨?_, ?_⟩
  · have := add_ge R hx.1 hy.2
    rwa [show -(x - y) = -x + y by ring]
  · have := add_ge R hx.2 hy.1
    rwa [show x - y = x + -y by ring]

theorem mem_neg {b : Itv K} {x : K} (hx : x ∈ b) : -x ∈ neg b := by
  refine ⟨?_, hx.1⟩
  show fin (- -x) ≤ b.sup
  simpa using hx.2

theorem mem_neg_iff {b : Itv K} {x : K} : x ∈ neg b ↔ -x ∈ b := by
  constructor
  · intro h; have := mem_neg h; simpa [neg] using this
  · intro h; have := mem_neg h; simpa using this

theorem mem_meet {b c : Itv K} {x : K} : x ∈ meet b c ↔ x ∈ b ∧ x ∈ c := by
  simp [mem_def, meet, bmin_eq_min]; tauto

theorem isCanonicalBottom_iff (a : Itv K) : isCanonicalBottom a = true ↔ a = bottom := by
  cases a; simp [isCanonicalBottom, bottom]

theorem mem_join_left {b c : Itv K} {x : K} (h : x ∈ b) : x ∈ join b c := by
  unfold join
  split_ifs with h1 h2
  · rw [isCanonicalBottom_iff] at h1; subst h1; exact absurd h (not_mem_bottom x)
  · exact h
  · refine ⟨?_, ?_⟩ <;> simp [bmax_eq_max, h.1, h.2]

theorem mem_join_right {b c : Itv K} {x : K} (h : x ∈ c) : x ∈ join b c := by
  unfold join
  split_ifs with h1 h2
  · exact h
  · rw [isCanonicalBottom_iff] at h2; subst h2; exact absurd h (not_mem_bottom x)
  · refine ⟨?_, ?_⟩ <;> simp [bmax_eq_max, h.1, h.2]

theorem isBottom_iff (a : Itv K) (h1 : a.inf ≠ ninf) (h2 : a.sup ≠ ninf) :
    isBottom a = true ↔ ∀ x, x ∉ a := by
  rcases a with ⟨i, s⟩
  cases i with
  | ninf => simp at h1
  | pinf =>
    cases s with
    | ninf => simp at h2
    | pinf => simp [isBottom, mem_def]
    | fin s => simp [isBottom, mem_def]; exact ⟨s, le_refl s⟩
  | fin i =>
    cases s with
    | ninf => simp at h2
    | pinf => simp [isBottom, mem_def]; exact ⟨-i, by simp⟩
    | fin s =>
      simp [isBottom, mem_def]
      constructor
      · intro h x hx; linarith
      · intro h
        by_contra hc
        have := h (-i) (by simp)
        exact hc this

/-! ### sign facts -/

theorem nonneg_of_inf {b : Itv K} {x : K} (hx : x ∈ b) (h : b.inf ≤ fin 0) : 0 ≤ x := by
  have := le_trans hx.1 h; simpa using this
theorem nonpos_of_sup {b : Itv K} {x : K} (hx : x ∈ b) (h : b.sup ≤ fin 0) : x ≤ 0 := by
  have := le_trans hx.2 h; simpa using this
theorem pos_of_inf {b : Itv K} {x : K} (hx : x ∈ b) (h : b.inf < fin 0) : 0 < x := by
  have := lt_of_le_of_lt hx.1 h; simpa using this
theorem neg_of_sup {b : Itv K} {x : K} (hx : x ∈ b) (h : b.sup < fin 0) : x < 0 := by
  have := lt_of_le_of_lt hx.2 h; simpa using this

/-! ### multiplication -/

theorem mem_mulpp {b c : Itv K} {x y : K} (hx : x ∈ b) (hy : y ∈ c) (hb : b.inf ≤ fin 0)
    (hc : c.inf ≤ fin 0) : x * y ∈ mulpp R b c := by
  have hx0 := nonneg_of_inf hx hb
  have hy0 := nonneg_of_inf hy hc
  refine ⟨mul_neg_ge R hx.1 hb hy.1 hc, mul_ge R (le_trans (by simpa using hx0) hx.2) hx.2 hy0 hy.2⟩

theorem mem_mulnn {b c : Itv K} {x y : K} (hx : x ∈ b) (hy : y ∈ c) (hb : b.sup ≤ fin 0)
    (hc : c.sup ≤ fin 0) : x * y ∈ mulnn R b c := by
  have := mem_mulpp R (mem_neg hx) (mem_neg hy) hb hc
  simpa [mulpp, mulnn, neg] using this

theorem mem_mulpn {b c : Itv K} {x y : K} (hx : x ∈ b) (hy : y ∈ c) (hb : b.inf ≤ fin 0)
    (hc : c.sup ≤ fin 0) : x * y ∈ mulpn R b c := by
  have hx0 := nonneg_of_inf hx hb
  have hy0 := nonpos_of_sup hy hc
  refine ⟨?_, ?_⟩
  · have := mul_ge R (le_trans (by simpa using hx0) hx.2) hx.2 (neg_nonneg.2 hy0) hy.1
    simpa [mulpn] using this
  · have := mul_neg_ge' R hx.1 hb (x := x) (y := -y) (c := c.sup) (by simpa using hy.2) hc
    simpa [mulpn] using this

theorem mem_mulp {b c : Itv K} {x y : K} (hx : x ∈ b) (hy : y ∈ c) (hc : c.inf ≤ fin 0) :
    x * y ∈ mulp R b c := by
  unfold mulp
  split_ifs with h1 h2
  · exact mem_mulpp R hx hy ((sgn_le_zero_iff _).1 h1) hc
  · rw [mul_comm]; exact mem_mulpn R hy hx hc ((sgn_le_zero_iff _).1 h2)
  · rw [sgn_le_zero_iff, not_le] at h1 h2
    have hy0 := nonneg_of_inf hy hc
    refine ⟨?_, mul_ge R h2.le hx.2 hy0 hy.2⟩
    have := mul_ge R h1.le hx.1 hy0 hy.2
    simpa using this

theorem mem_muln {b c : Itv K} {x y : K} (hx : x ∈ b) (hy : y ∈ c) (hc : c.sup ≤ fin 0) :
    x * y ∈ muln R b c := by
  unfold muln
  split_ifs with h1 h2
  · exact mem_mulpn R hx hy ((sgn_le_zero_iff _).1 h1) hc
  · exact mem_mulnn R hx hy ((sgn_le_zero_iff _).1 h2) hc
  · rw [sgn_le_zero_iff, not_le] at h1 h2
    have hy0 := nonpos_of_sup hy hc
    refine ⟨?_, ?_⟩
    · have := mul_ge R h2.le hx.2 (neg_nonneg.2 hy0) hy.1
      simpa using this
    · have := mul_ge R h1.le hx.1 (neg_nonneg.2 hy0) hy.1
      simpa using this

theorem mem_mul {b c : Itv K} {x y : K} (hx : x ∈ b) (hy : y ∈ c) : x * y ∈ mul R b c := by
  unfold mul
  split_ifs with h1 h2 h3
  · exact mem_mulp R hx hy ((sgn_le_zero_iff _).1 h1)
  · exact mem_muln R hx hy ((sgn_le_zero_iff _).1 h2)
  · rw [mul_comm]; exact mem_mulp R hy hx ((sgn_le_zero_iff _).1 h3)
  · rcases le_total 0 y with h | h
    · apply mem_join_left
      exact mem_mulp R hx (c := ⟨fin 0, c.sup⟩) ⟨by simpa using h, hy.2⟩ (by simp)
    · apply mem_join_right
      exact mem_muln R hx (c := ⟨c.inf, fin 0⟩) ⟨hy.1, by simpa using h⟩ (by simp)

theorem mem_mulBound {b : Itv K} {x q : K} (hx : x ∈ b) : x * q ∈ mulBound R b (fin q) := by
  unfold mulBound
  split_ifs with h
  · rw [sgn_nonneg_iff] at h
    simp at h
    constructor
    · rcases b with ⟨i, s⟩
      have h1 := hx.1
      cases i with
      | ninf => simp at h1
      | fin p => 
        refine le_trans ?_ (mul_fin_fin_ge R _ _)
        simp at h1 ⊢; nlinarith
      | pinf =>
        rcases eq_or_lt_of_le h with h0 | h0
        · subst h0; simp [mul_zero_right]
        · simp [mul_pinf_left R (c := fin q) (by simpa using h0)]
    · rcases b with ⟨i, s⟩
      have h1 := hx.2
      cases s with
      | ninf => simp at h1
      | fin p => 
        refine le_trans ?_ (mul_fin_fin_ge R _ _)
        simp at h1 ⊢; nlinarith
      | pinf =>
        rcases eq_or_lt_of_le h with h0 | h0
        · subst h0; simp [mul_zero_right]
        · simp [mul_pinf_left R (c := fin q) (by simpa using h0)]
  · rw [sgn_nonneg_iff] at h
    simp at h
    constructor
    · rcases b with ⟨i, s⟩
      have h1 := hx.2
      cases s with
      | ninf => simp at h1
      | fin p => 
        refine le_trans ?_ (mul_fin_fin_ge R _ _)
        simp at h1 ⊢; nlinarith
      | pinf =>
        simp [mul_pinf_left R (c := fin (-q)) (by simpa using h)]
    · rcases b with ⟨i, s⟩
      have h1 := hx.1
      cases i with
      | ninf => simp at h1
      | fin p => 
        refine le_trans ?_ (mul_fin_fin_ge R _ _)
        simp at h1 ⊢; nlinarith
      | pinf =>
        simp [mul_pinf_left R (c := fin (-q)) (by simpa using h)]

/-! ### division -/

/-- upper bound of a quotient by a positive lower-bounded divisor, non-negative dividend bound -/
theorem div_ge_up {b : Bound K} {x y l : K} (hb0 : fin 0 ≤ b) (hb : fin x ≤ b) (hl : 0 < l)
    (hy : l ≤ y) : fin (x / y) ≤ Bound.div R b (fin l) := by
  have hy0 : 0 < y := lt_of_lt_of_le hl hy
  cases b with
  | ninf => simp at hb
  | pinf => simp [div_pinf_left R hl]
  | fin p =>
    refine le_trans ?_ (div_fin_fin_ge R _ hl.ne')
    simp at hb hb0 ⊢
    calc x / y ≤ p / y := by gcongr
      _ ≤ p / l := by gcongr

/-- upper bound of a quotient when the dividend bound is non-positive -/
theorem div_ge_dn {b c : Bound K} {x y : K} (hb0 : b ≤ fin 0) (hb : fin x ≤ b) (hy0 : 0 < y)
    (hy : fin y ≤ c) : fin (x / y) ≤ Bound.div R b c := by
  obtain ⟨p, rfl, hp, hp0⟩ := exists_fin_of_le hb hb0
  cases c with
  | ninf => simp at hy
  | pinf =>
    rw [div_infty_right R _ rfl]; simp
    exact div_nonpos_of_nonpos_of_nonneg (le_trans hp hp0) hy0.le
  | fin q =>
    simp at hy
    have hq0 : 0 < q := lt_of_lt_of_le hy0 hy
    refine le_trans ?_ (div_fin_fin_ge R _ hq0.ne')
    simp
    calc x / y ≤ p / y := by gcongr
      _ ≤ p / q := by
        rw [div_le_div_iff₀ hy0 hq0]
        nlinarith

theorem bdiv_neg_neg (b : Bound K) (q : K) (hq : q ≠ 0) :
    Bound.div R (Bound.neg b) (fin (-q)) = Bound.div R b (fin q) := by
  unfold Bound.div
  cases b with
  | ninf =>
    rcases lt_or_gt_of_ne hq with h | h
    · simp [infty, sgn_fin_of_neg h, sgn_fin_of_pos (neg_pos.2 h)]
    · simp [infty, sgn_fin_of_pos h, sgn_fin_of_neg (neg_neg_of_pos h)]
  | pinf =>
    rcases lt_or_gt_of_ne hq with h | h
    · simp [infty, sgn_fin_of_neg h, sgn_fin_of_pos (neg_pos.2 h)]
    · simp [infty, sgn_fin_of_pos h, sgn_fin_of_neg (neg_neg_of_pos h)]
  | fin p =>
    simp [infty, sgn_zero_iff, neg_div_neg_eq, hq]

theorem mem_divp {b c : Itv K} {x y : K} (hx : x ∈ b) (hy : y ∈ c) (hc : c.inf < fin 0) :
    x / y ∈ divp R b c := by
  obtain ⟨l, hl⟩ : ∃ l, c.inf = fin (-l) := by
    have h1 := hy.1
    cases h : c.inf with
    | ninf => simp [h] at h1
    | pinf => simp [h] at hc
    | fin q => exact ⟨-q, by simp⟩
  have hl0 : 0 < l := by simpa [hl] using hc
  have hly : l ≤ y := by have := hy.1; rw [hl] at this; simpa using this
  have hy0 : 0 < y := lt_of_lt_of_le hl0 hly
  unfold divp
  split_ifs with h1 h2
  · rw [sgn_le_zero_iff] at h1
    have hx0 := nonneg_of_inf hx h1
    refine ⟨?_, ?_⟩
    · have := div_ge_dn R h1 hx.1 hy0 hy.2
      simpa [divpp, neg_div] using this
    · simp only [divpp, hl, neg_fin, _root_.neg_neg]
      exact div_ge_up R (le_trans (by simpa using hx0) hx.2) hx.2 hl0 hly
  · rw [sgn_le_zero_iff] at h1 h2
    rw [not_le] at h1
    refine ⟨?_, ?_⟩
    · simp only [divnp, hl]
      have := div_ge_up R h1.le hx.1 hl0 hly
      rw [bdiv_neg_neg R _ l hl0.ne']
      simpa [neg_div] using this
    · exact div_ge_dn R h2 hx.2 hy0 hy.2
  · rw [sgn_le_zero_iff, not_le] at h1 h2
    simp only [hl, neg_fin, _root_.neg_neg]
    refine ⟨?_, div_ge_up R h2.le hx.2 hl0 hly⟩
    have := div_ge_up R h1.le hx.1 hl0 hly
    simpa [neg_div] using this

theorem mem_divn {b c : Itv K} {x y : K} (hx : x ∈ b) (hy : y ∈ c) (hc : c.sup < fin 0) :
    x / y ∈ divn R b c := by
  have key := mem_divp R (mem_neg hx) (mem_neg hy) hc
  rw [neg_div_neg_eq] at key
  obtain ⟨l, hl⟩ : ∃ l, c.sup = fin l := by
    have h1 := hy.2
    cases h : c.sup with
    | ninf => simp [h] at h1
    | pinf => simp [h] at hc
    | fin q => exact ⟨q, by simp⟩
  have hl0 : l < 0 := by simpa [hl] using hc
  have hyl : y ≤ l := by have := hy.2; rw [hl] at this; simpa using this
  have hy0 : y < 0 := lt_of_le_of_lt hyl hl0
  unfold divn
  split_ifs with h1 h2
  · rw [sgn_le_zero_iff] at h1
    have hx0 := nonneg_of_inf hx h1
    refine ⟨?_, ?_⟩
    · simp only [divpn, hl]
      have := div_ge_up R (le_trans (by simpa using hx0) hx.2) hx.2 (neg_pos.2 hl0) (neg_le_neg hyl)
      have e := bdiv_neg_neg R (Bound.neg b.sup) l hl0.ne
      rw [← e]
      simpa [div_neg] using this
    · have := div_ge_dn R h1 hx.1 (neg_pos.2 hy0) hy.1
      simpa [divpn] using this
  · rw [sgn_le_zero_iff] at h1 h2
    rw [not_le] at h1
    refine ⟨?_, ?_⟩
    · have := div_ge_dn R h2 hx.2 (neg_pos.2 hy0) hy.1
      simpa [divnn, div_neg] using this
    · simp only [divnn, hl]
      have := div_ge_up R h1.le hx.1 (neg_pos.2 hl0) (neg_le_neg hyl)
      have e := bdiv_neg_neg R (Bound.neg b.inf) l hl0.ne
      rw [← e]
      simpa using this
  · rw [sgn_le_zero_iff, not_le] at h1 h2
    simp only [hl, neg_fin]
    refine ⟨?_, ?_⟩
    · have := div_ge_up R h2.le hx.2 (neg_pos.2 hl0) (neg_le_neg hyl)
      simpa [div_neg] using this
    · have := div_ge_up R h1.le hx.1 (neg_pos.2 hl0) (neg_le_neg hyl)
      simpa using this

theorem mem_div {b c : Itv K} {x y : K} (hx : x ∈ b) (hy : y ∈ c) (_hy0 : y ≠ 0) :
    x / y ∈ div R b c := by
  unfold div
  split_ifs with h1 h2 h3
  · exact mem_divp R hx hy ((sgn_neg_iff _).1 h1)
  · exact mem_divn R hx hy ((sgn_neg_iff _).1 h2)
  · obtain ⟨h3, h4⟩ := h3
    rw [sgn_zero_iff] at h3 h4
    have a1 := hx.1; have a2 := hx.2
    rw [h3] at a1; rw [h4] at a2; simp at a1 a2
    have : x = 0 := le_antisymm a2 a1
    subst this
    simpa using hx
  · exact mem_top _

theorem mem_abs {b : Itv K} {x : K} (hx : x ∈ b) : |x| ∈ abs b := by
  unfold abs
  split_ifs with h1 h2
  · rw [sgn_le_zero_iff] at h1
    rwa [abs_of_nonneg (nonneg_of_inf hx h1)]
  · rw [sgn_le_zero_iff] at h2
    rw [abs_of_nonpos (nonpos_of_sup hx h2)]; exact mem_neg hx
  · refine ⟨by simp, ?_⟩
    simp only [bmax_eq_max]
    rcases le_total 0 x with h | h
    · rw [abs_of_nonneg h]; exact le_trans hx.2 (le_max_right _ _)
    · rw [abs_of_nonpos h]; exact le_trans hx.1 (le_max_left _ _)

theorem le_magnitude {b : Itv K} {x : K} (hx : x ∈ b) : fin |x| ≤ magnitude b := by
  unfold magnitude
  split_ifs with h1 h2
  · rw [sgn_le_zero_iff] at h1
    rw [abs_of_nonneg (nonneg_of_inf hx h1)]; exact hx.2
  · rw [sgn_le_zero_iff] at h2
    rw [abs_of_nonpos (nonpos_of_sup hx h2)]; exact hx.1
  · simp only [bmax_eq_max]
    rcases le_total 0 x with h | h
    · rw [abs_of_nonneg h]; exact le_trans hx.2 (le_max_right _ _)
    · rw [abs_of_nonpos h]; exact le_trans hx.1 (le_max_left _ _)

end Itv
end Apron
