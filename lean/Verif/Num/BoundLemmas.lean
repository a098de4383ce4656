import Verif.Num.Bound

/-! # Basic facts about bound arithmetic (helper lemmas) -/

set_option autoImplicit false
set_option linter.unusedSectionVars false

namespace Apron
namespace Bound
variable {K : Type*} [LinearOrder K] [Field K] [IsStrictOrderedRing K] (R : Rnd K)

theorem exists_fin_of_le {b : Bound K} {x y : K} (h : fin x ≤ b) (h' : b ≤ fin y) :
    ∃ q, b = fin q ∧ x ≤ q ∧ q ≤ y := by
  cases b <;> simp_all

theorem add_ge {b c : Bound K} {x y : K} (hb : fin x ≤ b) (hc : fin y ≤ c) :
    fin (x + y) ≤ add R b c := by
  cases b <;> cases c <;> simp_all [add]
  exact le_trans (by simpa using add_le_add hb hc) (R.up_ge _)

theorem sub_ge {b c : Bound K} {x y : K} (hb : fin x ≤ b) (hc : c ≤ fin y) :
    fin (x - y) ≤ sub R b c := by
  cases b <;> cases c <;> simp_all [sub]
  exact le_trans (by simpa using sub_le_sub hb hc) (R.up_ge _)

theorem add_exact_fin (p q : K) : add Rnd.exact (fin p) (fin q) = fin (p + q) := rfl

theorem ofSgn_one : (ofSgn 1 : Bound K) = pinf := rfl

theorem sgn_fin_of_pos {q : K} (h : 0 < q) : sgn (fin q) = 1 := by
  simp [sgn, not_lt.2 h.le, h.ne']
theorem sgn_fin_of_neg {q : K} (h : q < 0) : sgn (fin q) = -1 := by
  simp [sgn, h]
@[simp] theorem sgn_fin_zero : sgn (fin (0 : K)) = 0 := by simp [sgn]
@[simp] theorem sgn_pinf : sgn (pinf : Bound K) = 1 := rfl
@[simp] theorem sgn_ninf : sgn (ninf : Bound K) = -1 := rfl

theorem mul_zero_left (c : Bound K) : mul R (fin 0) c = fin 0 := by simp [mul]
theorem mul_zero_right (c : Bound K) : mul R c (fin 0) = fin 0 := by simp [mul]

theorem mul_fin_fin_ge (p q : K) : fin (p * q) ≤ mul R (fin p) (fin q) := by
  unfold mul
  split_ifs with h
  · rcases h with h | h <;> rw [sgn_zero_iff] at h <;> simp at h <;> simp [h]
  · exact R.up_ge _

theorem mul_fin_fin_exact (p q : K) : mul Rnd.exact (fin p) (fin q) = fin (p * q) := by
  unfold mul
  split_ifs with h
  · rcases h with h | h <;> rw [sgn_zero_iff] at h <;> simp at h <;> simp [h]
  · rfl

theorem mul_pinf_left {c : Bound K} (h : fin 0 < c) : mul R pinf c = pinf := by
  have h' := (sgn_pos_iff c).2 h
  unfold mul
  rw [if_neg (by simp; omega)]
  cases c <;> simp_all [ofSgn]

theorem mul_pinf_right {c : Bound K} (h : fin 0 < c) : mul R c pinf = pinf := by
  have h' := (sgn_pos_iff c).2 h
  unfold mul
  rw [if_neg (by simp; omega)]
  cases c <;> simp_all [ofSgn]

/-- product of upper bounds, the second value being non-negative -/
theorem mul_ge {b c : Bound K} {u y : K} (hb0 : fin 0 ≤ b) (hb : fin u ≤ b)
    (hy : 0 ≤ y) (hc : fin y ≤ c) : fin (u * y) ≤ mul R b c := by
  cases b with
  | ninf => simp at hb
  | fin p =>
    simp at hb hb0
    cases c with
    | ninf => simp at hc
    | fin q =>
      simp at hc
      refine le_trans ?_ (mul_fin_fin_ge R p q)
      simp
      exact mul_le_mul hb hc hy hb0
    | pinf =>
      rcases eq_or_lt_of_le hb0 with h0 | h0
      · subst h0
        rw [mul_zero_left]; simp
        exact mul_nonpos_of_nonpos_of_nonneg hb hy
      · rw [mul_pinf_right R (by simpa using h0)]; simp
  | pinf =>
    rcases eq_or_lt_of_le (show fin 0 ≤ c from le_trans (by simpa using hy) hc) with h0 | h0
    · rw [← h0] at hc ⊢
      simp at hc
      have : y = 0 := le_antisymm hc hy
      simp [mul_zero_right, this]
    · rw [mul_pinf_left R h0]; simp

/-- product of two non-positive upper bounds, negated: lower corner -/
theorem mul_neg_ge {b c : Bound K} {x y : K} (hb : fin (-x) ≤ b) (hb0 : b ≤ fin 0)
    (hc : fin (-y) ≤ c) (hc0 : c ≤ fin 0) : fin (-(x * y)) ≤ mul R b (neg c) := by
  obtain ⟨p, rfl, hp, hp0⟩ := exists_fin_of_le hb hb0
  obtain ⟨q, rfl, hq, hq0⟩ := exists_fin_of_le hc hc0
  refine le_trans ?_ (mul_fin_fin_ge R _ _)
  simp
  nlinarith [mul_nonneg (neg_nonneg.2 hp0) (neg_nonneg.2 hq0)]

theorem mul_neg_ge' {b c : Bound K} {x y : K} (hb : fin (-x) ≤ b) (hb0 : b ≤ fin 0)
    (hc : fin (-y) ≤ c) (hc0 : c ≤ fin 0) : fin (-(x * y)) ≤ mul R (neg b) c := by
  obtain ⟨p, rfl, hp, hp0⟩ := exists_fin_of_le hb hb0
  obtain ⟨q, rfl, hq, hq0⟩ := exists_fin_of_le hc hc0
  refine le_trans ?_ (mul_fin_fin_ge R _ _)
  simp
  nlinarith [mul_nonneg (neg_nonneg.2 hp0) (neg_nonneg.2 hq0)]

theorem div_zero_left (c : Bound K) : div R (fin 0) c = fin 0 := by simp [div]
theorem div_infty_right {c : Bound K} (b : Bound K) (h : infty c = true) :
    div R b c = fin 0 := by simp [div, h]

theorem div_fin_fin_ge (p : K) {q : K} (hq : q ≠ 0) : fin (p / q) ≤ div R (fin p) (fin q) := by
  unfold div
  split_ifs with h h'
  · rcases h with h | h
    · rw [sgn_zero_iff] at h; simp at h; simp [h]
    · simp [infty] at h
  · rw [sgn_zero_iff] at h'; simp at h'; exact absurd h' hq
  · exact R.up_ge _

theorem div_fin_fin_exact (p : K) {q : K} (hq : q ≠ 0) :
    div Rnd.exact (fin p) (fin q) = fin (p / q) := by
  unfold div
  split_ifs with h h'
  · rcases h with h | h
    · rw [sgn_zero_iff] at h; simp at h; simp [h]
    · simp [infty] at h
  · rw [sgn_zero_iff] at h'; simp at h'; exact absurd h' hq
  · rfl

theorem div_pinf_left {q : K} (h : 0 < q) : div R pinf (fin q) = pinf := by
  simp [div, infty, sgn_fin_of_pos h, ofSgn]

theorem div_ninf_left {q : K} (h : q < 0) : div R ninf (fin q) = pinf := by
  simp [div, infty, sgn_fin_of_neg h, ofSgn]

end Bound
end Apron
