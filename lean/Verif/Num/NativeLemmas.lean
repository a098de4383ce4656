import Verif.Num.Native
import Mathlib.Data.Int.Lemmas
import Mathlib.Algebra.Order.Ring.Abs
import Mathlib.Algebra.Order.Field.Basic
import Mathlib.Algebra.Order.Group.Unbundled.Int
import Mathlib.Tactic.FieldSimp
import Mathlib.Tactic.Push

/-! # Lemmas on native integers and rationals -/

set_option autoImplicit false
set_option linter.unusedSectionVars false
set_option linter.ambiguousOpen false

namespace Apron
namespace Native

variable {M : ℕ}

theorem chk_some {x y : ℤ} : chk M x = some y ↔ x = y ∧ Fits M y := by
  unfold chk
  split_ifs with h
  · simp only [Option.some.injEq]
    constructor
    · rintro rfl; exact ⟨rfl, h⟩
    · rintro ⟨rfl, _⟩; rfl
  · simp only [reduceCtorEq, false_iff]
    rintro ⟨rfl, h'⟩; exact h h'

theorem chk_of_fits {x : ℤ} (h : Fits M x) : chk M x = some x := if_pos h

theorem chk_of_abs {x : ℤ} (h : |x| ≤ M) : chk M x = some x := by
  have := abs_le.1 h
  exact if_pos ⟨by omega, by omega⟩

/-- the truncated quotient and remainder -/
theorem tdiv_spec (a b : ℤ) (hb : b ≠ 0) :
    b * a.tdiv b + a.tmod b = a ∧ |a.tmod b| < |b| ∧ (0 ≤ a → 0 ≤ a.tmod b) ∧ (a ≤ 0 → a.tmod b ≤ 0) ∧
      |a.tdiv b| * |b| + |a.tmod b| = |a| := by
  have h1 := Int.mul_tdiv_add_tmod a b
  have h2 : |a.tmod b| < |b| := by
    have := Int.natAbs_tmod a b
    have hlt : a.natAbs % b.natAbs < b.natAbs := Nat.mod_lt _ (Int.natAbs_pos.2 hb)
    rw [Int.abs_eq_natAbs, Int.abs_eq_natAbs, this]
    exact_mod_cast hlt
  refine ⟨h1, h2, fun h => Int.tmod_nonneg _ h, fun h => ?_, ?_⟩
  · have := Int.tmod_nonneg (a := -a) b (by omega)
    rw [Int.neg_tmod] at this; omega
  · have h3 := Int.natAbs_tdiv a b
    have h4 : a.natAbs / b.natAbs * b.natAbs + a.natAbs % b.natAbs = a.natAbs := Nat.div_add_mod' _ _
    have h6 := Int.natAbs_tmod a b
    rw [Int.abs_eq_natAbs, Int.abs_eq_natAbs, Int.abs_eq_natAbs, Int.abs_eq_natAbs, h3, h6]
    exact_mod_cast h4

theorem tdiv_fits {a b : ℤ} (hb : b ≠ 0) (ha : Fits M a) (hx : ¬ (a = -(M : ℤ) - 1 ∧ b = -1)) : Fits M (a.tdiv b) := by
  obtain ⟨h1, h2, h3, h4, h5⟩ := tdiv_spec a b hb
  have hb1 : 1 ≤ |b| := Int.one_le_abs hb
  have ha' : |a| ≤ M + 1 := abs_le.2 ⟨by have := ha.1; omega, by have := ha.2; omega⟩
  have hq : |a.tdiv b| ≤ |a| := by nlinarith [abs_nonneg (a.tdiv b), abs_nonneg (a.tmod b)]
  have hq' := abs_le.1 (hq.trans ha')
  refine ⟨by omega, ?_⟩
  by_contra hc
  have hqe : a.tdiv b = M + 1 := by omega
  rw [hqe, abs_of_nonneg (by omega : (0 : ℤ) ≤ M + 1)] at h5
  have hbe : |b| = 1 := by nlinarith [abs_nonneg (a.tmod b)]
  rw [hqe] at h1
  rw [hbe] at h2
  have hr : a.tmod b = 0 := abs_eq_zero.1 (by have := abs_nonneg (a.tmod b); omega)
  rcases (abs_eq (by norm_num : (0 : ℤ) ≤ 1)).1 hbe with h | h
  · rw [h] at h1 hr; have := ha.2; omega
  · rw [h] at h1 hr; exact hx ⟨by omega, h⟩

theorem tdivQ_eq {a b : ℤ} (hb : b ≠ 0) (ha : Fits M a) (hx : ¬ (a = -(M : ℤ) - 1 ∧ b = -1)) :
    tdivQ M a b = some (a.tdiv b) := by
  unfold tdivQ
  rw [if_neg hb]
  exact chk_of_fits (tdiv_fits hb ha hx)

theorem tdivQ_some {a b q : ℤ} (h : tdivQ M a b = some q) : b ≠ 0 ∧ q = a.tdiv b ∧ Fits M q := by
  unfold tdivQ at h
  split_ifs at h with hb
  obtain ⟨rfl, h'⟩ := chk_some.1 h
  exact ⟨hb, rfl, h'⟩

theorem sgn_mul (a b : ℤ) : (sgn a * sgn b < 0 ↔ a * b < 0) ∧ (sgn a * sgn b > 0 ↔ a * b > 0) := by
  unfold sgn
  rcases lt_trichotomy a 0 with ha | ha | ha <;> rcases lt_trichotomy b 0 with hb | hb | hb
  · have := mul_pos_of_neg_of_neg ha hb
    have e1 : ¬ a = 0 := by omega
    have e2 : ¬ a > 0 := by omega
    have e3 : ¬ b = 0 := by omega
    have e4 : ¬ b > 0 := by omega
    simp only [e1, e2, e3, e4, if_false]
    constructor <;> constructor <;> intro <;> first | assumption | omega
  · subst hb; simp
  · have := mul_neg_of_neg_of_pos ha hb
    have e1 : ¬ a = 0 := by omega
    have e2 : ¬ a > 0 := by omega
    have e3 : ¬ b = 0 := by omega
    simp only [e1, e2, e3, hb, if_false, if_true]
    constructor <;> constructor <;> intro <;> first | assumption | omega
  · subst ha; simp
  · subst ha; simp
  · subst ha; simp
  · have := mul_neg_of_pos_of_neg ha hb
    have e1 : ¬ a = 0 := by omega
    have e3 : ¬ b = 0 := by omega
    have e4 : ¬ b > 0 := by omega
    simp only [e1, e3, e4, ha, if_false, if_true]
    constructor <;> constructor <;> intro <;> first | assumption | omega
  · subst hb; simp
  · have := mul_pos ha hb
    have e1 : ¬ a = 0 := by omega
    have e3 : ¬ b = 0 := by omega
    simp only [e1, e3, ha, hb, if_false, if_true]
    constructor <;> constructor <;> intro <;> first | assumption | omega

/-- the floor of a quotient from a division with remainder -/
theorem floor_of {a b q : ℤ} (hb : b ≠ 0) (h1 : 0 < b → q * b ≤ a ∧ a < (q + 1) * b)
    (h2 : b < 0 → a ≤ q * b ∧ (q + 1) * b < a) : ⌊(a : ℚ) / b⌋ = q := by
  rw [Int.floor_eq_iff]
  rcases lt_or_gt_of_ne hb with h | h
  · have h' : (b : ℚ) < 0 := by exact_mod_cast h
    rw [le_div_iff_of_neg h', div_lt_iff_of_neg h']
    exact ⟨by exact_mod_cast (h2 h).1, by exact_mod_cast (h2 h).2⟩
  · have h' : (0 : ℚ) < b := by exact_mod_cast h
    rw [le_div_iff₀ h', div_lt_iff₀ h']
    exact ⟨by exact_mod_cast (h1 h).1, by exact_mod_cast (h1 h).2⟩

theorem ceil_of {a b q : ℤ} (hb : b ≠ 0) (h1 : 0 < b → (q - 1) * b < a ∧ a ≤ q * b)
    (h2 : b < 0 → a < (q - 1) * b ∧ q * b ≤ a) : ⌈(a : ℚ) / b⌉ = q := by
  rw [Int.ceil_eq_iff]
  rcases lt_or_gt_of_ne hb with h | h
  · have h' : (b : ℚ) < 0 := by exact_mod_cast h
    rw [lt_div_iff_of_neg h', div_le_iff_of_neg h']
    exact ⟨by exact_mod_cast (h2 h).1, by exact_mod_cast (h2 h).2⟩
  · have h' : (0 : ℚ) < b := by exact_mod_cast h
    rw [lt_div_iff₀ h', div_le_iff₀ h']
    exact ⟨by exact_mod_cast (h1 h).1, by exact_mod_cast (h1 h).2⟩

/-- a quotient with a remainder is small -/
theorem tdiv_small {a b : ℤ} (hb : b ≠ 0) (ha : Fits M a) (hr : a.tmod b ≠ 0) : 2 * |a.tdiv b| ≤ M := by
  obtain ⟨h1, h2, h3, h4, h5⟩ := tdiv_spec a b hb
  have hr1 := abs_pos.2 hr
  have hb1 : 2 ≤ |b| := by omega
  have ha' : |a| ≤ M + 1 := abs_le.2 ⟨by have := ha.1; omega, by have := ha.2; omega⟩
  nlinarith [abs_nonneg (a.tdiv b)]

/-! ## gcd -/

theorem gcdGo_eq : ∀ (fuel : ℕ) (a b : ℤ), 0 ≤ b → 0 ≤ a → b.natAbs < fuel → gcdGo fuel a b = Int.gcd a b := by
  intro fuel
  induction fuel with
  | zero => intro a b _ _ h; omega
  | succ fuel ih =>
    intro a b hb ha hf
    rw [gcdGo]
    split_ifs with h
    · have hb0 : 0 < b := by omega
      have hm := Int.tmod_nonneg b ha
      have hl := Int.tmod_lt_of_pos a hb0
      rw [ih b (a.tmod b) hm hb (by omega), Int.tmod_eq_emod_of_nonneg ha, Int.gcd_comm, Int.gcd_emod]
    · by_cases h0 : b = 0
      · subst h0; simp [Int.gcd, Int.natAbs_of_nonneg ha]
      · have : a = b := by
          by_contra hne; exact h ⟨h0, hne⟩
        subst this
        rw [Int.gcd_self, Int.natAbs_of_nonneg ha]

theorem gcd_some {a b g : ℤ} (h : gcd M a b = some g) : g = Int.gcd a b := by
  unfold gcd abs at h
  simp only [Option.bind_eq_some_iff, Option.map_eq_some_iff] at h
  obtain ⟨x, hx, y, hy, rfl⟩ := h
  obtain ⟨rfl, _⟩ := chk_some.1 hx
  obtain ⟨rfl, _⟩ := chk_some.1 hy
  have e : Int.gcd |a| |b| = Int.gcd a b := by
    rw [Int.gcd, Int.gcd, Int.natAbs_abs, Int.natAbs_abs]
  split_ifs with hc
  · rw [gcdGo_eq _ _ _ (abs_nonneg _) (abs_nonneg _) (by omega), e]
  · rw [gcdGo_eq _ _ _ (abs_nonneg _) (abs_nonneg _) (by omega), Int.gcd_comm, e]

theorem gcd_eq {a b : ℤ} (ha : |a| ≤ M) (hb : |b| ≤ M) : gcd M a b = some (Int.gcd a b : ℤ) := by
  have h1 : abs M a = some |a| := chk_of_abs (by rwa [abs_abs])
  have h2 : abs M b = some |b| := chk_of_abs (by rwa [abs_abs])
  have : ∃ g, gcd M a b = some g := by
    unfold gcd; rw [h1, h2]; exact ⟨_, rfl⟩
  obtain ⟨g, hg⟩ := this
  rw [hg, gcd_some hg]

theorem gcd_bounds {a b g : ℤ} (h : gcd M a b = some g) : |a| ≤ M ∧ |b| ≤ M := by
  unfold gcd abs at h
  simp only [Option.bind_eq_some_iff, Option.map_eq_some_iff] at h
  obtain ⟨x, hx, y, hy, rfl⟩ := h
  obtain ⟨rfl, h1⟩ := chk_some.1 hx
  obtain ⟨rfl, h2⟩ := chk_some.1 hy
  exact ⟨h1.2, h2.2⟩

theorem tdiv_gcd_left (a b : ℤ) : ∃ k, a = Int.gcd a b * k ∧ (0 < Int.gcd a b → a.tdiv (Int.gcd a b) = k) := by
  obtain ⟨k, hk⟩ := Int.gcd_dvd_left a b
  refine ⟨k, hk, fun h => ?_⟩
  generalize Int.gcd a b = g at hk h ⊢
  rw [hk]
  exact Int.mul_tdiv_cancel_left _ (by exact_mod_cast h.ne')

theorem tdiv_gcd_right (a b : ℤ) : ∃ k, b = Int.gcd a b * k ∧ (0 < Int.gcd a b → b.tdiv (Int.gcd a b) = k) := by
  obtain ⟨k, hk⟩ := Int.gcd_dvd_right a b
  refine ⟨k, hk, fun h => ?_⟩
  generalize Int.gcd a b = g at hk h ⊢
  rw [hk]
  exact Int.mul_tdiv_cancel_left _ (by exact_mod_cast h.ne')

theorem lcm_some {a b l : ℤ} (ha : 0 < a) (hb : 0 < b) (h : lcm M a b = some l) : l = Int.lcm a b ∧ l ≤ M := by
  unfold lcm abs mul at h
  simp only [Option.bind_eq_some_iff] at h
  obtain ⟨x, hx, y, hy, g, hg, q, hq, hl⟩ := h
  obtain ⟨rfl, _⟩ := chk_some.1 hx
  obtain ⟨rfl, _⟩ := chk_some.1 hy
  rw [abs_of_pos ha, abs_of_pos hb] at hg
  rw [abs_of_pos ha] at hq
  rw [abs_of_pos hb] at hl
  have hg' := gcd_some hg
  subst hg'
  obtain ⟨_, rfl, _⟩ := tdivQ_some hq
  obtain ⟨rfl, hf⟩ := chk_some.1 hl
  have hpos : 0 < Int.gcd a b := Int.gcd_pos_of_ne_zero_left _ ha.ne'
  refine ⟨?_, hf.2⟩
  obtain ⟨k, hk, hk2⟩ := tdiv_gcd_left a b
  rw [hk2 hpos]
  have h1 : ((Int.gcd a b : ℕ) : ℤ) * (Int.lcm a b : ℤ) = a * b := by
    have := Int.gcd_mul_lcm a b
    have h2 : ((Int.gcd a b * Int.lcm a b : ℕ) : ℤ) = ((a * b).natAbs : ℤ) := by rw [this, Int.natAbs_mul]
    rw [Int.natAbs_of_nonneg (mul_pos ha hb).le] at h2
    exact_mod_cast h2
  have h3 : ((Int.gcd a b : ℕ) : ℤ) * (k * b) = a * b := by rw [← mul_assoc, ← hk]
  have hne : ((Int.gcd a b : ℕ) : ℤ) ≠ 0 := by exact_mod_cast hpos.ne'
  exact mul_left_cancel₀ hne (h3.trans h1.symm)

theorem lcm_eq {a b : ℤ} (ha : 0 < a) (hb : 0 < b) (h : a * b ≤ M) : lcm M a b = some (Int.lcm a b : ℤ) := by
  have ha' : a ≤ M := by nlinarith
  have hb' : b ≤ M := by nlinarith
  have h1 : abs M a = some a := by
    unfold abs; rw [abs_of_pos ha]; exact chk_of_abs (by rwa [abs_of_pos ha])
  have h2 : abs M b = some b := by
    unfold abs; rw [abs_of_pos hb]; exact chk_of_abs (by rwa [abs_of_pos hb])
  have hg : gcd M a b = some (Int.gcd a b : ℤ) := gcd_eq (by rwa [abs_of_pos ha]) (by rwa [abs_of_pos hb])
  have hpos : 0 < Int.gcd a b := Int.gcd_pos_of_ne_zero_left _ ha.ne'
  have hq : tdivQ M a (Int.gcd a b) = some (a.tdiv (Int.gcd a b)) :=
    tdivQ_eq (by exact_mod_cast hpos.ne') ⟨by omega, by omega⟩ (by rintro ⟨h, _⟩; omega)
  have : ∃ l, lcm M a b = some l := by
    unfold lcm
    rw [h1, Option.bind_some, h2, Option.bind_some, hg, Option.bind_some, hq, Option.bind_some]
    refine ⟨_, chk_of_abs ?_⟩
    obtain ⟨k, hk, hk2⟩ := tdiv_gcd_left a b
    rw [hk2 hpos]
    have hg1 : (1 : ℤ) ≤ Int.gcd a b := by exact_mod_cast hpos
    have hk0 : 0 < k := by
      by_contra hc
      have : (Int.gcd a b : ℤ) * k ≤ 0 := by nlinarith
      omega
    have hka : k ≤ a := by nlinarith
    rw [abs_of_pos (mul_pos hk0 hb)]
    nlinarith
  obtain ⟨l, hl⟩ := this
  rw [hl, (lcm_some ha hb hl).1]

/-! ## powers and roots -/

theorem powGo_some : ∀ (fuel : ℕ) (r f : ℤ) (n : ℕ) (v : ℤ), powGo (mul M) fuel r f n = some (some v) → v = r * f ^ n := by
  intro fuel
  induction fuel with
  | zero => intro r f n v h; simp [powGo] at h
  | succ fuel ih =>
    intro r f n v h
    rw [powGo] at h
    split_ifs at h with h0 h1
    · subst h0; simp only [Option.some.injEq] at h; simp [h]
    · simp only [Option.bind_eq_some_iff] at h
      obtain ⟨r', hr, f', hf, h⟩ := h
      obtain ⟨rfl, _⟩ := chk_some.1 hr
      obtain ⟨rfl, _⟩ := chk_some.1 hf
      split_ifs at h with hc
      · simp at h
      · rw [ih _ _ _ _ h]
        conv_rhs => rw [← Nat.div_add_mod n 2, h1, pow_succ, pow_mul]
        rw [sq]; ring
    · simp only [Option.bind_eq_some_iff, Option.some.injEq] at h
      obtain ⟨r', rfl, f', hf, h⟩ := h
      obtain ⟨rfl, _⟩ := chk_some.1 hf
      split_ifs at h with hc
      · simp at h
      · rw [ih _ _ _ _ h]
        have h2 : n % 2 = 0 := by omega
        conv_rhs => rw [← Nat.div_add_mod n 2, h2, add_zero, pow_mul]
        rw [sq]

theorem powGo_fail : ∀ (fuel : ℕ) (r f : ℤ) (n : ℕ), powGo (mul M) fuel r f n = some none → f = 0 ∧ 0 < n := by
  intro fuel
  induction fuel with
  | zero => intro r f n h; simp [powGo] at h
  | succ fuel ih =>
    intro r f n h
    rw [powGo] at h
    by_cases h0 : n = 0
    · rw [if_pos h0] at h; simp at h
    · rw [if_neg h0] at h
      simp only [Option.bind_eq_some_iff] at h
      obtain ⟨r', hr, f', hf, h⟩ := h
      obtain ⟨rfl, _⟩ := chk_some.1 hf
      refine ⟨?_, by omega⟩
      split_ifs at h with hc
      · exact mul_self_eq_zero.1 (le_antisymm hc (mul_self_nonneg f))
      · exact absurd (ih _ _ _ h).1 (by omega)

theorem powGo_def : ∀ (fuel : ℕ) (r f : ℤ) (n : ℕ), n < fuel → r ≠ 0 → f ≠ 0 → |r| * |f| ^ (2 * n) ≤ M →
    ∃ v, powGo (mul M) fuel r f n = some (some v) := by
  intro fuel
  induction fuel with
  | zero => intro r f n h; omega
  | succ fuel ih =>
    intro r f n hn hr hf hM
    rw [powGo]
    by_cases h0 : n = 0
    · rw [if_pos h0]; exact ⟨_, rfl⟩
    · rw [if_neg h0]
      have hr1 : 1 ≤ |r| := Int.one_le_abs hr
      have hf1 : 1 ≤ |f| := Int.one_le_abs hf
      have hle : ∀ k, k ≤ 2 * n → |r| * |f| ^ k ≤ M := fun k hk =>
        (mul_le_mul_of_nonneg_left (pow_le_pow_right₀ hf1 hk) (abs_nonneg r)).trans hM
      have hff : mul M f f = some (f * f) := chk_of_abs (by
        rw [abs_mul]
        have := hle 2 (by omega)
        have h3 := one_le_pow₀ (n := 2) hf1
        nlinarith)
      have hfp : ¬ f * f ≤ 0 := by
        have := mul_self_pos.2 hf
        omega
      have habs : |f * f| = |f| ^ 2 := by rw [abs_mul, sq]
      by_cases h1 : n % 2 = 1
      · have hrf : mul M r f = some (r * f) := chk_of_abs (by
          rw [abs_mul]
          have := hle 1 (by omega)
          rwa [pow_one] at this)
        rw [if_pos h1, hrf, Option.bind_some, hff, Option.bind_some, if_neg hfp]
        refine ih _ _ _ (by omega) (mul_ne_zero hr hf) (mul_ne_zero hf hf) ?_
        rw [habs, abs_mul, mul_assoc, ← pow_mul, ← pow_succ']
        exact hle _ (by omega)
      · rw [if_neg h1, Option.bind_some, hff, Option.bind_some, if_neg hfp]
        refine ih _ _ _ (by omega) hr (mul_ne_zero hf hf) ?_
        rw [habs, ← pow_mul]
        exact hle _ (by omega)

theorem iroot_spec {n : ℕ} (hn : 0 < n) (a : ℕ) : iroot n a ^ n ≤ a ∧ a < (iroot n a + 1) ^ n := by
  have h1 : iroot n a ^ n ≤ a :=
    Nat.findGreatest_spec (P := fun k => k ^ n ≤ a) (m := 0) (Nat.zero_le _) (by simp [Nat.zero_pow hn])
  refine ⟨h1, ?_⟩
  by_cases h : iroot n a + 1 ≤ a
  · exact not_le.1 (Nat.findGreatest_is_greatest (P := fun k => k ^ n ≤ a) (Nat.lt_succ_self _) h)
  · have := Nat.le_self_pow hn.ne' (iroot n a + 1)
    omega

/-! ## rationals -/

/-- Specification: the value of a pair -/
def NRat.val (q : NRat) : ℚ := (q.n : ℚ) / q.d

/-- Specification: positive denominator, no common divisor -/
def NRat.Canon (q : NRat) : Prop := 0 < q.d ∧ Int.gcd q.n q.d = 1

/-- Specification: canonical, and the numerator and its opposite are representable -/
structure NRat.Ok (M : ℕ) (q : NRat) : Prop where
  den : 0 < q.d
  cop : Int.gcd q.n q.d = 1
  num : |q.n| ≤ M
  dM : q.d ≤ M

theorem canon_some {r q : NRat} (hd : 0 < r.d) (h : canon M r = some q) : q.Ok M ∧ q.val = r.val := by
  unfold canon at h
  simp only [Option.bind_eq_some_iff] at h
  obtain ⟨g, hg, h⟩ := h
  obtain ⟨hb1, hb2⟩ := gcd_bounds hg
  have hg' := gcd_some hg
  subst hg'
  have hpos : 0 < Int.gcd r.n r.d := Int.gcd_pos_of_ne_zero_right _ hd.ne'
  rw [if_neg (by exact_mod_cast hpos.ne')] at h
  simp only [Option.bind_eq_some_iff, Option.map_eq_some_iff] at h
  obtain ⟨n, hn, d, hd', rfl⟩ := h
  obtain ⟨_, rfl, hf1⟩ := tdivQ_some hn
  obtain ⟨_, rfl, hf2⟩ := tdivQ_some hd'
  obtain ⟨k, hk, hk2⟩ := tdiv_gcd_left r.n r.d
  obtain ⟨l, hl, hl2⟩ := tdiv_gcd_right r.n r.d
  rw [hk2 hpos, hl2 hpos]
  have hg1 : (1 : ℤ) ≤ Int.gcd r.n r.d := by exact_mod_cast hpos
  have hl0 : 0 < l := by
    by_contra hc
    have : (Int.gcd r.n r.d : ℤ) * l ≤ 0 := by nlinarith
    omega
  rw [hl2 hpos] at hf2
  refine ⟨⟨hl0, ?_, ?_, hf2.2⟩, ?_⟩
  · have h1 : Int.gcd r.n r.d = Int.gcd r.n r.d * Int.gcd k l := by
      have h0 := Int.gcd_mul_left (Int.gcd r.n r.d : ℤ) k l
      rw [← hk, ← hl, Int.natAbs_natCast] at h0
      exact h0
    have : Int.gcd r.n r.d * 1 = Int.gcd r.n r.d * Int.gcd k l := by omega
    exact (Nat.eq_of_mul_eq_mul_left hpos this).symm
  · have : |r.n| = Int.gcd r.n r.d * |k| := by
      conv_lhs => rw [hk]
      rw [abs_mul, abs_of_nonneg (by omega : (0 : ℤ) ≤ Int.gcd r.n r.d)]
    show |k| ≤ _
    nlinarith [abs_nonneg k]
  · unfold NRat.val
    simp only
    have e1 : (r.n : ℚ) = (Int.gcd r.n r.d : ℚ) * k := by exact_mod_cast hk
    have e2 : (r.d : ℚ) = (Int.gcd r.n r.d : ℚ) * l := by exact_mod_cast hl
    rw [e1, e2]
    have : ((Int.gcd r.n r.d : ℕ) : ℚ) ≠ 0 := by exact_mod_cast hpos.ne'
    rw [mul_div_mul_left _ _ this]

theorem canon_def {r : NRat} (hd : 0 < r.d) (hn : |r.n| ≤ M) (hdM : r.d ≤ M) : ∃ q, canon M r = some q := by
  have hg := gcd_eq (a := r.n) (b := r.d) hn (by rwa [abs_of_pos hd])
  have hpos : 0 < Int.gcd r.n r.d := Int.gcd_pos_of_ne_zero_right _ hd.ne'
  have hn' := abs_le.1 hn
  unfold canon
  rw [hg, Option.bind_some, if_neg (by exact_mod_cast hpos.ne'),
    tdivQ_eq (by exact_mod_cast hpos.ne') ⟨by omega, by omega⟩ (by rintro ⟨h, _⟩; omega), Option.bind_some,
    tdivQ_eq (by exact_mod_cast hpos.ne') ⟨by omega, by omega⟩ (by rintro ⟨h, _⟩; omega)]
  exact ⟨_, rfl⟩

/-- the products of `common` -/
theorem common_some {b c : NRat} {t : ℤ × ℤ × ℤ} (hb : 0 < b.d) (hc : 0 < c.d) (h : NRat.common M b c = some t) :
    0 < t.1 ∧ t.1 ≤ M ∧ (t.2.1 : ℚ) / t.1 = b.val ∧ (t.2.2 : ℚ) / t.1 = c.val := by
  unfold NRat.common mul at h
  simp only [Option.bind_eq_some_iff, Option.map_eq_some_iff] at h
  obtain ⟨d, hd, x, hx, bb, hbb, y, hy, cc, hcc, rfl⟩ := h
  obtain ⟨hd1, hd2⟩ := lcm_some hb hc hd
  obtain ⟨_, rfl, _⟩ := tdivQ_some hx
  obtain ⟨_, rfl, _⟩ := tdivQ_some hy
  obtain ⟨rfl, _⟩ := chk_some.1 hbb
  obtain ⟨rfl, _⟩ := chk_some.1 hcc
  have hdpos : 0 < d := by
    rw [hd1]; exact_mod_cast Int.lcm_pos hb.ne' hc.ne'
  obtain ⟨k, hk⟩ : b.d ∣ d := by rw [hd1]; exact Int.dvd_lcm_left _ _
  obtain ⟨l, hl⟩ : c.d ∣ d := by rw [hd1]; exact Int.dvd_lcm_right _ _
  have hkd : d.tdiv b.d = k := by rw [hk]; exact Int.mul_tdiv_cancel_left _ hb.ne'
  have hld : d.tdiv c.d = l := by rw [hl]; exact Int.mul_tdiv_cancel_left _ hc.ne'
  refine ⟨hdpos, hd2, ?_, ?_⟩
  · simp only [hkd]
    have : (d : ℚ) = b.d * k := by exact_mod_cast hk
    rw [this, NRat.val]
    have hk0 : (k : ℚ) ≠ 0 := by
      intro h0; rw [h0, mul_zero] at this
      exact hdpos.ne' (by exact_mod_cast this)
    push_cast
    rw [mul_div_mul_right _ _ hk0]
  · simp only [hld]
    have : (d : ℚ) = c.d * l := by exact_mod_cast hl
    rw [this, NRat.val]
    have hl0 : (l : ℚ) ≠ 0 := by
      intro h0; rw [h0, mul_zero] at this
      exact hdpos.ne' (by exact_mod_cast this)
    push_cast
    rw [mul_comm (l : ℚ), mul_div_mul_right _ _ hl0]

theorem common_def {b c : NRat} (hb : 0 < b.d) (hc : 0 < c.d) (hd : b.d * c.d ≤ M) (h1 : |b.n| * c.d ≤ M)
    (h2 : |c.n| * b.d ≤ M) : ∃ t, NRat.common M b c = some t ∧ |t.2.1| ≤ |b.n| * c.d ∧ |t.2.2| ≤ |c.n| * b.d ∧
      t.1 ≤ b.d * c.d := by
  have hl := lcm_eq hb hc hd
  have hdpos : (0 : ℤ) < Int.lcm b.d c.d := by exact_mod_cast Int.lcm_pos hb.ne' hc.ne'
  obtain ⟨k, hk⟩ : b.d ∣ (Int.lcm b.d c.d : ℤ) := Int.dvd_lcm_left _ _
  obtain ⟨l, hl'⟩ : c.d ∣ (Int.lcm b.d c.d : ℤ) := Int.dvd_lcm_right _ _
  have hle : (Int.lcm b.d c.d : ℤ) ≤ b.d * c.d :=
    Int.le_of_dvd (mul_pos hb hc) (Int.coe_lcm_dvd (Dvd.intro _ rfl) (Dvd.intro_left _ rfl))
  have hk0 : 0 < k := by
    by_contra h; have : b.d * k ≤ 0 := by nlinarith
    omega
  have hl0 : 0 < l := by
    by_contra h; have : c.d * l ≤ 0 := by nlinarith
    omega
  have hkc : k ≤ c.d := by
    by_contra h; have : b.d * c.d < b.d * k := by nlinarith
    omega
  have hlb : l ≤ b.d := by
    by_contra h; have : b.d * c.d < c.d * l := by nlinarith
    omega
  have hkd : (Int.lcm b.d c.d : ℤ).tdiv b.d = k := by rw [hk]; exact Int.mul_tdiv_cancel_left _ hb.ne'
  have hld : (Int.lcm b.d c.d : ℤ).tdiv c.d = l := by rw [hl']; exact Int.mul_tdiv_cancel_left _ hc.ne'
  have hlM : (Int.lcm b.d c.d : ℤ) ≤ M := hle.trans hd
  have q1 : tdivQ M (Int.lcm b.d c.d : ℤ) b.d = some k := by
    rw [tdivQ_eq hb.ne' ⟨by omega, by omega⟩ (by rintro ⟨h, _⟩; omega), hkd]
  have q2 : tdivQ M (Int.lcm b.d c.d : ℤ) c.d = some l := by
    rw [tdivQ_eq hc.ne' ⟨by omega, by omega⟩ (by rintro ⟨h, _⟩; omega), hld]
  have a1 : |b.n * k| ≤ |b.n| * c.d := by
    rw [abs_mul, abs_of_pos hk0]; nlinarith [abs_nonneg b.n]
  have a2 : |l * c.n| ≤ |c.n| * b.d := by
    rw [abs_mul, abs_of_pos hl0]; nlinarith [abs_nonneg c.n]
  refine ⟨((Int.lcm b.d c.d : ℤ), b.n * k, l * c.n), ?_, a1, a2, hle⟩
  unfold NRat.common mul
  rw [hl, Option.bind_some, q1, Option.bind_some, chk_of_abs (a1.trans h1), Option.bind_some, q2, Option.bind_some,
    chk_of_abs (a2.trans h2)]
  rfl

end Native
end Apron
