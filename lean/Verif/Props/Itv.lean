import Verif.Itv.Tight
import Verif.Itv.RoundLemmas
import Verif.Seq

/-!
# Property theorems: intervals (C01-C09)

The specification of an interval is its set of members (`x ∈ i`, i.e. `-inf ≤ x ≤ sup`).
`Rnd K` ranges over every upward rounding; `Rnd.exact` is exact arithmetic.
-/

set_option autoImplicit false
set_option linter.unusedSectionVars false
set_option linter.ambiguousOpen false

namespace Apron
open Bound Itv
variable {K : Type*} [LinearOrder K] [Field K] [IsStrictOrderedRing K]

/-! ## C01: addition, subtraction, negation -/

theorem C01_add_sound (R : Rnd K) (b c : Itv K) (x y : K) (hx : x ∈ b) (hy : y ∈ c) :
    x + y ∈ Itv.add R b c := mem_add R hx hy

theorem C01_sub_sound (R : Rnd K) (b c : Itv K) (x y : K) (hx : x ∈ b) (hy : y ∈ c) :
    x - y ∈ Itv.sub R b c := mem_sub R hx hy

theorem C01_neg_exact (b : Itv K) (x : K) : x ∈ Itv.neg b ↔ ∃ y ∈ b, x = -y := by
  rw [mem_neg_iff]
  constructor
  · intro h; exact ⟨-x, h, by simp⟩
  · rintro ⟨y, hy, rfl⟩; simpa using hy

/-- with exact arithmetic the sum is the smallest enclosing interval -/
theorem C01_add_tight (b c : Itv K) (hb : ∃ x, x ∈ b) (hc : ∃ y, y ∈ c) :
    IsHull (fun z => ∃ x ∈ b, ∃ y ∈ c, z = x + y) (Itv.add Rnd.exact b c) := by
  obtain ⟨x0, hx0⟩ := hb
  obtain ⟨y0, hy0⟩ := hc
  refine ⟨?_, fun d hd z hz => ?_⟩
  · rintro _ ⟨x, hx, y, hy, rfl⟩; exact mem_add _ hx hy
  · refine mem_of_le ?_ ?_ hz
    · refine (reach_inf hx0).add (reach_inf hy0) (fun x y hx hy => ?_)
      have := (hd _ ⟨_, hx, _, hy, rfl⟩).1
      rwa [show -(-x + -y) = x + y by ring] at this
    · exact (reach_sup hx0).add (reach_sup hy0) (fun x y hx hy => (hd _ ⟨_, hx, _, hy, rfl⟩).2)

/-- with exact arithmetic the difference is the smallest enclosing interval -/
theorem C01_sub_tight (b c : Itv K) (hb : ∃ x, x ∈ b) (hc : ∃ y, y ∈ c) :
    IsHull (fun z => ∃ x ∈ b, ∃ y ∈ c, z = x - y) (Itv.sub Rnd.exact b c) := by
  obtain ⟨x0, hx0⟩ := hb
  obtain ⟨y0, hy0⟩ := hc
  refine ⟨?_, fun d hd z hz => ?_⟩
  · rintro _ ⟨x, hx, y, hy, rfl⟩; exact mem_sub _ hx hy
  · refine mem_of_le ?_ ?_ hz
    · refine (reach_inf hx0).add (reach_sup hy0) (fun x y hx hy => ?_)
      have := (hd _ ⟨_, hx, _, hy, rfl⟩).1
      rwa [show -(-x - y) = x + y by ring] at this
    · refine (reach_sup hx0).add (reach_inf hy0) (fun x y hx hy => ?_)
      have := (hd _ ⟨_, hx, _, hy, rfl⟩).2
      rwa [show x - -y = x + y by ring] at this

-- non-vacuity: an unbounded and a bounded operand
example : (5 : ℚ) ∈ (⟨fin (-1), pinf⟩ : Itv ℚ) ∧ (-3 : ℚ) ∈ (⟨fin 3, fin 2⟩ : Itv ℚ) ∧
    Itv.add Rnd.exact (⟨fin (-1), pinf⟩ : Itv ℚ) ⟨fin 3, fin 2⟩ = ⟨fin 2, pinf⟩ := by decide +kernel

/-! ## C02: multiplication -/

theorem C02_mul_sound (R : Rnd K) (b c : Itv K) (x y : K) (hx : x ∈ b) (hy : y ∈ c) :
    x * y ∈ Itv.mul R b c := mem_mul R hx hy

theorem C02_mul_tight (b c : Itv K) (hb : ∃ x, x ∈ b) (hc : ∃ y, y ∈ c) :
    IsHull (fun z => ∃ x ∈ b, ∃ y ∈ c, z = x * y) (Itv.mul Rnd.exact b c) := by
  obtain ⟨x0, hx0⟩ := hb
  obtain ⟨y0, hy0⟩ := hc
  refine ⟨?_, fun d hd z hz => ?_⟩
  · rintro _ ⟨x, hx, y, hy, rfl⟩; exact mem_mul _ hx hy
  · have := mul_tight (d := d) hx0 hy0 (fun x y hx hy => hd _ ⟨x, hx, y, hy, rfl⟩)
    exact mem_of_le this.1 this.2 hz

/-- multiplication by a scalar -/
theorem C02_mul_num_sound (R : Rnd K) (b : Itv K) (x q : K) (hx : x ∈ b) :
    x * q ∈ Itv.mulBound R b (fin q) := mem_mulBound R hx

-- non-vacuity: both operands contain 0 strictly inside, one is unbounded
example : (-2 : ℚ) ∈ (⟨fin 2, fin 3⟩ : Itv ℚ) ∧ (4 : ℚ) ∈ (⟨fin 5, fin 7⟩ : Itv ℚ) ∧
    Itv.mul Rnd.exact (⟨fin 2, fin 3⟩ : Itv ℚ) ⟨fin 5, fin 7⟩ = ⟨fin 15, fin 21⟩ := by decide +kernel
example : Itv.mul Rnd.exact (⟨pinf, fin 0⟩ : Itv ℚ) ⟨fin 0, fin 7⟩ = ⟨pinf, fin 0⟩ := by decide +kernel

/-! ## C03: division -/

theorem C03_div_sound (R : Rnd K) (b c : Itv K) (x y : K) (hx : x ∈ b) (hy : y ∈ c) (hy0 : y ≠ 0) :
    x / y ∈ Itv.div R b c := mem_div R hx hy hy0

/-- with exact arithmetic and a divisor that excludes 0 the quotient is the smallest enclosing
interval -/
theorem C03_div_tight (b c : Itv K) (hb : ∃ x, x ∈ b) (hc : ∃ y, y ∈ c) (h0 : (0 : K) ∉ c) :
    IsHull (fun z => ∃ x ∈ b, ∃ y ∈ c, z = x / y) (Itv.div Rnd.exact b c) := by
  obtain ⟨x0, hx0⟩ := hb
  obtain ⟨y0, hy0⟩ := hc
  refine ⟨?_, fun d hd z hz => ?_⟩
  · rintro _ ⟨x, hx, y, hy, rfl⟩
    exact mem_div _ hx hy (fun h => h0 (h ▸ hy))
  · have hd' := fun x y hx hy => hd _ ⟨x, hx, y, hy, rfl⟩
    unfold Itv.div at hz
    have : c.inf < fin 0 ∨ c.sup < fin 0 := by
      by_contra hcon
      push Not at hcon
      exact h0 ⟨by simpa using hcon.1, hcon.2⟩
    split_ifs at hz with h1 h2 h3
    · have := divp_tight (d := d) hx0 hy0 ((sgn_neg_iff _).1 h1) hd'
      exact mem_of_le this.1 this.2 hz
    · have := divn_tight (d := d) hx0 hy0 ((sgn_neg_iff _).1 h2) hd'
      exact mem_of_le this.1 this.2 hz
    · rw [sgn_neg_iff] at h1 h2; tauto
    · rw [sgn_neg_iff] at h1 h2; tauto

example : (-2 : ℚ) ∈ (⟨fin 2, fin 3⟩ : Itv ℚ) ∧ (2 : ℚ) ∈ (⟨fin (-1), pinf⟩ : Itv ℚ) ∧
    (0 : ℚ) ∉ (⟨fin (-1), pinf⟩ : Itv ℚ) ∧
    Itv.div Rnd.exact (⟨fin 2, fin 3⟩ : Itv ℚ) ⟨fin (-1), pinf⟩ = ⟨fin 2, fin 3⟩ := by decide +kernel

/-! ## C04: power -/

/-- Full statement (false for the code, see `C04_pow_unsound`): for every interval, every natural
exponent and every member.  Missing: intervals unbounded below with an odd exponent. -/
theorem C04_pow_sound_partial [FloorRing K] (R : Rnd K) (b n : Itv K) (x : K) (k : ℕ) (hx : x ∈ b)
    (hk : (k : K) ∈ n) (hb : k % 2 = 1 → b.inf ≠ pinf) : x ^ k ∈ Itv.pow R b n :=
  mem_pow R hx hk hb

/-- The code violates the full property: `[-oo,5]^3` does not contain `2^3`. -/
theorem C04_pow_unsound : ∃ (b n : Itv ℚ) (x : ℚ) (k : ℕ), x ∈ b ∧ (k : ℚ) ∈ n ∧
    x ^ k ∉ Itv.pow Rnd.exact b n :=
  ⟨⟨pinf, fin 5⟩, point 3, 2, 3, by decide +kernel, by decide +kernel, by decide +kernel⟩

/-- the square root encloses all square roots, for any number layer with a correct square root -/
theorem C04_sqrt_sound (o : RootOps K) (ho : o.SqrtOK) (b : Itv K) (x y : K) (hx : x ∈ b)
    (hy : 0 ≤ y) (hxy : y * y = x) : y ∈ Itv.sqrt o b := mem_sqrt o ho hx hy hxy

/-- the GMP rational layer computes a correct square root -/
theorem C04_mpq_sqrt : mpqRoots.SqrtOK := mpq_sqrtOK

example : (3 : ℚ) ∈ (⟨fin 4, fin 3⟩ : Itv ℚ) ∧ Itv.pow Rnd.exact (⟨fin 4, fin 3⟩ : Itv ℚ) (point 2)
    = ⟨fin 0, fin 16⟩ ∧ Itv.pow Rnd.exact (⟨fin 4, fin 3⟩ : Itv ℚ) (point 3) = ⟨fin 64, fin 27⟩ := by
  decide +kernel
example : Itv.sqrt mpqRoots (⟨fin (-2), fin 9⟩ : Itv ℚ) = ⟨fin (-1), fin 3⟩ := by decide +kernel

/-! ## C05: rounding to integers -/

section
variable [FloorRing K]

theorem C05_round_sound (b : Itv K) (x : K) (hx : x ∈ b) :
    ((⌈x⌉ : ℤ) : K) ∈ Itv.ceil b ∧ ((⌊x⌋ : ℤ) : K) ∈ Itv.floor b ∧
    (0 ≤ x → ((⌊x⌋ : ℤ) : K) ∈ Itv.trunc b) ∧ (x ≤ 0 → ((⌈x⌉ : ℤ) : K) ∈ Itv.trunc b) ∧
    ((⌈x⌉ : ℤ) : K) ∈ Itv.toInt b ∧ ((⌊x⌋ : ℤ) : K) ∈ Itv.toInt b := by
  refine ⟨mem_ceil hx, mem_floor hx, fun h => ?_, fun h => ?_, mem_toInt hx (Or.inr rfl),
    mem_toInt hx (Or.inl rfl)⟩
  · have := mem_trunc hx
    rwa [numTrunc, if_pos h] at this
  · have := mem_trunc hx
    unfold numTrunc at this
    split_ifs at this with h'
    · have : x = 0 := le_antisymm h h'
      subst this; simpa using this
    · exact this

example : (5/2 : ℚ) ∈ (⟨fin (3/2), fin (5/2)⟩ : Itv ℚ) ∧
    Itv.trunc (⟨fin (3/2), fin (5/2)⟩ : Itv ℚ) = ⟨fin 1, fin 2⟩ ∧
    Itv.ceil (⟨fin (3/2), fin (5/2)⟩ : Itv ℚ) = ⟨fin 1, fin 3⟩ := by decide +kernel

/-! ## C06: backward rounding -/

theorem C06_unceil_sound (R : Rnd K) (b : Itv K) (x : K) (h : ((⌈x⌉ : ℤ) : K) ∈ b) :
    x ∈ Itv.unceil R b := by
  constructor
  · have h1 := h.1
    rw [← Int.cast_neg] at h1
    have := fin_add_one_le_addNat R (fin_le_floor h1)
    refine le_trans ?_ this
    have := Int.ceil_lt_add_one x
    simp only [fin_le_fin]; push_cast; linarith
  · exact le_trans (by simpa using Int.le_ceil x) (fin_le_floor h.2)

theorem C06_unfloor_sound (R : Rnd K) (b : Itv K) (x : K) (h : ((⌊x⌋ : ℤ) : K) ∈ b) :
    x ∈ Itv.unfloor R b := by
  constructor
  · have h1 := h.1
    rw [← Int.cast_neg] at h1
    refine le_trans ?_ (fin_le_floor h1)
    simp only [fin_le_fin]; push_cast; linarith [Int.floor_le x]
  · have := fin_add_one_le_addNat R (fin_le_floor h.2)
    exact le_trans (by simpa using (Int.lt_floor_add_one x).le) this

/-- Full statement (false for the code, see `C06_untrunc_unsound`): the same without the two
hypotheses that no rounded bound is exactly 0. -/
theorem C06_untrunc_sound_partial (R : Rnd K) (b : Itv K) (x : K)
    (h : ((numTrunc x : ℤ) : K) ∈ b) (h1 : Bound.floor b.inf ≠ fin 0)
    (h2 : Bound.floor b.sup ≠ fin 0) : x ∈ Itv.untrunc R b := by
  have e1 := h.1
  rw [← Int.cast_neg] at e1
  have f1 := fin_le_floor e1
  have f2 := fin_le_floor h.2
  have hlo : x < numTrunc x + 1 := by
    unfold numTrunc; split_ifs with hx
    · exact Int.lt_floor_add_one x
    · linarith [Int.le_ceil x]
  have hhi : (numTrunc x : K) - 1 < x := by
    unfold numTrunc; split_ifs with hx
    · linarith [Int.floor_le x]
    · linarith [Int.ceil_lt_add_one x]
  unfold Itv.untrunc
  simp only
  constructor
  · simp only
    split_ifs with h3
    · refine le_trans ?_ (fin_add_one_le_addNat R f1)
      simp only [fin_le_fin]; push_cast; linarith
    · rw [sgn_pos_iff, not_lt] at h3
      have h3' := lt_of_le_of_ne h3 h1
      -- the rounded value is positive, hence `trunc x ≤ x`
      have hpos : 0 < numTrunc x := by
        have := lt_of_le_of_lt f1 h3'; simp at this; exact_mod_cast this
      have hx : 0 ≤ x := by
        by_contra hc
        unfold numTrunc at hpos
        rw [if_neg hc] at hpos
        have : ⌈x⌉ ≤ 0 := Int.ceil_le.2 (by simpa using (not_le.1 hc).le)
        omega
      refine le_trans ?_ f1
      simp only [fin_le_fin, numTrunc, if_pos hx]; push_cast
      linarith [Int.floor_le x]
  · simp only
    split_ifs with h3
    · exact le_trans (by simpa using hlo.le) (fin_add_one_le_addNat R f2)
    · rw [sgn_pos_iff, not_lt] at h3
      have h3' := lt_of_le_of_ne h3 h2
      have hneg : numTrunc x < 0 := by
        have := lt_of_le_of_lt f2 h3'; simp at this; exact_mod_cast this
      have hx : ¬ 0 ≤ x := by
        intro hc
        unfold numTrunc at hneg
        rw [if_pos hc] at hneg
        have : 0 ≤ ⌊x⌋ := Int.floor_nonneg.2 hc
        omega
      refine le_trans ?_ f2
      simp only [fin_le_fin, numTrunc, if_neg hx]
      exact Int.le_ceil x

end

/-- The code violates the full property for truncation: `trunc(1/2) = 0 ∈ [0,0]` but `1/2` is
dropped. -/
theorem C06_untrunc_unsound : ∃ (b : Itv ℚ) (x : ℚ), ((numTrunc x : ℤ) : ℚ) ∈ b ∧
    x ∉ Itv.untrunc Rnd.exact b :=
  ⟨⟨fin 0, fin 0⟩, 1/2, by decide +kernel, by decide +kernel⟩

/-- The code violates the property for to-nearest (and unspecified) rounding: `3/5` rounds to 1
both to nearest and upward, but is dropped when refining from `[1,1]`. -/
theorem C06_from_int_unsound : ∃ (b : Itv ℚ) (x : ℚ), ((round x : ℤ) : ℚ) ∈ b ∧
    ((⌈x⌉ : ℤ) : ℚ) ∈ b ∧ x ∉ Itv.fromInt b :=
  ⟨⟨fin (-1), fin 1⟩, 3/5, by decide +kernel, by decide +kernel, by decide +kernel⟩

/-- What does hold for to-nearest: values that are already integers are kept. -/
theorem C06_from_int_partial [FloorRing K] (b : Itv K) (n : ℤ) (h : (n : K) ∈ b) :
    (n : K) ∈ Itv.fromInt b := by
  have := mem_toInt h (n := n) (by simp)
  exact this

example : ((⌈(3/2 : ℚ)⌉ : ℤ) : ℚ) ∈ (⟨fin (-2), fin 3⟩ : Itv ℚ) ∧
    Itv.unceil Rnd.exact (⟨fin (-2), fin 3⟩ : Itv ℚ) = ⟨fin (-1), fin 3⟩ := by decide +kernel
example : ((numTrunc (-3/2 : ℚ) : ℤ) : ℚ) ∈ (⟨fin 2, fin 3⟩ : Itv ℚ) ∧
    Bound.floor (fin (2 : ℚ)) ≠ fin 0 ∧ Bound.floor (fin (3 : ℚ)) ≠ fin 0 := by decide +kernel

/-! ## C07: modulo -/

/-- remainder of the truncated division, written with the floor of absolute values only -/
def truncRem [FloorRing K] (x y : K) : K :=
  if 0 ≤ x then x - |y| * (⌊x / |y|⌋ : ℤ) else -((-x) - |y| * (⌊(-x) / |y|⌋ : ℤ))

theorem C07_mod_sound [FloorRing K] (R : Rnd K) (b c : Itv K) (x y : K) (hx : x ∈ b) (hy : y ∈ c)
    (hy0 : y ≠ 0) : truncRem x y ∈ Itv.mod R b c false := by
  have := mem_mod R false hx hy hy0 (by simp)
  convert this using 1
  exact truncRem_eq x y hy0
where
  truncRem_eq (x y : K) (hy0 : y ≠ 0) :
      truncRem x y = x - |y| * (numTrunc (x / |y|) : ℤ) := by
    have hp : 0 < |y| := abs_pos.2 hy0
    unfold truncRem numTrunc
    by_cases h : 0 ≤ x
    · rw [if_pos h, if_pos (by positivity)]
    · rw [not_le] at h
      rw [if_neg (not_le.2 h), if_neg (not_le.2 (div_neg_of_neg_of_pos h hp))]
      rw [neg_div, Int.floor_neg]; push_cast; ring

theorem C07_mod_int_sound [FloorRing K] (R : Rnd K) (b c : Itv K) (m n : ℤ) (hx : (m : K) ∈ b)
    (hy : (n : K) ∈ c) (hy0 : n ≠ 0) : ((m.tmod n : ℤ) : K) ∈ Itv.mod R b c true := by
  have hn0 : (n : K) ≠ 0 := by exact_mod_cast hy0
  have := mem_mod R true hx hy hn0 (fun _ => ⟨m, n, rfl, rfl⟩)
  convert this using 1
  have hq : numTrunc ((m : K) / |(n : K)|) = m.tdiv |n| := by
    rw [← Int.cast_abs]
    unfold numTrunc
    have hp : (0 : K) < ((|n| : ℤ) : K) := by exact_mod_cast abs_pos.2 hy0
    have hpi : 0 < |n| := abs_pos.2 hy0
    have hf : ∀ z : ℤ, ⌊(z : K) / ((|n| : ℤ) : K)⌋ = z / |n| := fun z => by
      rw [Int.floor_eq_iff]
      have h1 := Int.mul_ediv_add_emod z |n|
      have h2 := Int.emod_nonneg z hpi.ne'
      have h3 := Int.emod_lt_of_pos z hpi
      constructor
      · rw [le_div_iff₀ hp]
        have : z / |n| * |n| ≤ z := by nlinarith
        exact_mod_cast this
      · rw [div_lt_iff₀ hp]
        have : z < (z / |n| + 1) * |n| := by nlinarith
        exact_mod_cast this
    by_cases h : 0 ≤ m
    · rw [if_pos (div_nonneg (by exact_mod_cast h) hp.le), hf,
        Int.tdiv_eq_ediv_of_nonneg h]
    · rw [not_le] at h
      rw [if_neg (not_le.2 (div_neg_of_neg_of_pos (by exact_mod_cast h) hp))]
      have h1 : ⌈(m : K) / ((|n| : ℤ) : K)⌉ = -⌊((-m : ℤ) : K) / ((|n| : ℤ) : K)⌋ := by
        rw [Int.cast_neg, neg_div, Int.floor_neg]; ring
      rw [h1, hf]
      have h2 : m.tdiv |n| = -((-m).tdiv |n|) := by rw [Int.neg_tdiv]; ring
      rw [h2, Int.tdiv_eq_ediv_of_nonneg (by omega)]
  rw [hq]
  have h3 : m.tmod n = m - |n| * m.tdiv |n| := by
    have := Int.tmod_add_mul_tdiv m |n|
    have h4 : m.tmod |n| = m.tmod n := by
      rcases abs_choice n with h | h <;> rw [h]
      exact Int.tmod_neg m n
    rw [h4] at this; linarith
  rw [h3]; push_cast; ring

example : (7 : ℚ) ∈ (⟨fin (-5), fin 8⟩ : Itv ℚ) ∧ (-3 : ℚ) ∈ (⟨fin 4, fin (-2)⟩ : Itv ℚ) ∧
    Itv.mod Rnd.exact (⟨fin (-5), fin 8⟩ : Itv ℚ) ⟨fin 4, fin (-2)⟩ true = ⟨fin 0, fin 3⟩ := by
  decide +kernel

/-! ## C08: lattice operations -/

/-- intervals the domains store: non-empty, or the canonical empty interval -/
def Itv.Wf (a : Itv K) : Prop := (∃ x, x ∈ a) ∨ a = Itv.bottom

theorem C08_meet (b c : Itv K) (x : K) : x ∈ Itv.meet b c ↔ x ∈ b ∧ x ∈ c := mem_meet

theorem C08_join_hull (b c : Itv K) (hb : b.Wf) (hc : c.Wf) :
    IsHull (fun x => x ∈ b ∨ x ∈ c) (Itv.join b c) := by
  refine ⟨?_, fun d hd z hz => ?_⟩
  · rintro x (h | h)
    · exact mem_join_left h
    · exact mem_join_right h
  · unfold Itv.join at hz
    split_ifs at hz with h1 h2
    · exact hd z (Or.inr hz)
    · exact hd z (Or.inl hz)
    · rw [isCanonicalBottom_iff] at h1 h2
      obtain ⟨x, hx⟩ := hb.resolve_right h1
      obtain ⟨y, hy⟩ := hc.resolve_right h2
      refine mem_of_le ?_ ?_ hz
      · simp only [bmax_eq_max]
        refine max_le ((reach_inf hx).le fun u hu => ?_) ((reach_inf hy).le fun u hu => ?_)
        · simpa using (hd _ (Or.inl hu)).1
        · simpa using (hd _ (Or.inr hu)).1
      · simp only [bmax_eq_max]
        exact max_le ((reach_sup hx).le fun u hu => (hd _ (Or.inl hu)).2)
          ((reach_sup hy).le fun u hu => (hd _ (Or.inr hu)).2)

theorem C08_leq (b c : Itv K) (hb : b.Wf) (hc : c.Wf) :
    Itv.isLeq b c = true ↔ ∀ x, x ∈ b → x ∈ c := by
  unfold Itv.isLeq
  split_ifs with h1 h2
  · rw [isCanonicalBottom_iff] at h1; subst h1
    simp only [true_iff]
    intro x hx; exact absurd hx (not_mem_bottom x)
  · rw [isCanonicalBottom_iff] at h1 h2; subst h2
    obtain ⟨x, hx⟩ := hb.resolve_right h1
    simp only [Bool.false_eq_true, false_iff]
    intro h; exact not_mem_bottom x (h x hx)
  · rw [isCanonicalBottom_iff] at h1
    obtain ⟨x, hx⟩ := hb.resolve_right h1
    simp only [Bool.and_eq_true, decide_eq_true_eq, cmp_le_zero]
    constructor
    · rintro ⟨h3, h4⟩ x hx; exact mem_of_le h4 h3 hx
    · intro h
      refine ⟨(reach_sup hx).le fun u hu => (h u hu).2, (reach_inf hx).le fun u hu => ?_⟩
      simpa using (h _ hu).1

theorem C08_eq (b c : Itv K) (hb : b.Wf) (hc : c.Wf) :
    Itv.isEq b c = true ↔ ∀ x, x ∈ b ↔ x ∈ c := by
  constructor
  · intro h x
    have : b = c := by
      cases b; cases c; simp [Itv.isEq] at h; simp [h.1, h.2]
    rw [this]
  · intro h
    rcases hb with ⟨x, hx⟩ | rfl
    · have hx' := (h x).1 hx
      have h1 : b.sup = c.sup := le_antisymm
        ((reach_sup hx).le fun u hu => ((h u).1 hu).2)
        ((reach_sup hx').le fun u hu => ((h u).2 hu).2)
      have h2 : b.inf = c.inf := le_antisymm
        ((reach_inf hx).le fun u hu => by simpa using ((h _).1 hu).1)
        ((reach_inf hx').le fun u hu => by simpa using ((h _).2 hu).1)
      simp [Itv.isEq, h1, h2]
    · rcases hc with ⟨x, hx⟩ | rfl
      · exact absurd ((h x).2 hx) (not_mem_bottom x)
      · simp [Itv.isEq]

/-- the emptiness test is exact on intervals whose bounds are not the wrong infinity -/
theorem C08_bottom (b : Itv K) (h1 : b.inf ≠ ninf) (h2 : b.sup ≠ ninf) :
    Itv.isBottom b = true ↔ ∀ x, x ∉ b := Itv.isBottom_iff b h1 h2

/-- normalising to integers keeps exactly the integer members -/
theorem C08_canonicalize_int [FloorRing K] (b : Itv K) (n : ℤ) :
    (n : K) ∈ Itv.canonicalize b true ↔ (n : K) ∈ b := mem_canonicalize_int

/-- after integer normalisation the interval is declared empty exactly when it has no integer
member -/
theorem C08_canonicalize_bottom [FloorRing K] (b : Itv K) (h1 : b.inf ≠ ninf) (h2 : b.sup ≠ ninf) :
    Itv.isBottom (Itv.canonicalize b true) = true ↔ ∀ n : ℤ, (n : K) ∉ b := by
  constructor
  · intro h n hn
    rw [← mem_canonicalize_int] at hn
    rw [not_isBottom hn] at h; simp at h
  · intro h
    rcases b with ⟨i, s⟩
    cases i with
    | ninf => simp at h1
    | pinf =>
      cases s with
      | ninf => simp at h2
      | pinf => exact absurd (mem_top (K := K) ((0 : ℤ) : K)) (h 0)
      | fin s => exact absurd ⟨by simp, by simpa using Int.floor_le s⟩ (h ⌊s⌋)
    | fin i =>
      cases s with
      | ninf => simp at h2
      | pinf => exact absurd ⟨by simp only [fin_le_fin]; push_cast; linarith [Int.floor_le i], by simp⟩ (h (-⌊i⌋))
      | fin s =>
        simp only [Itv.isBottom, Itv.canonicalize, if_true, Bound.floor, decide_eq_true_eq]
        by_contra hc
        rw [not_lt] at hc
        refine h (-⌊i⌋) ⟨?_, ?_⟩
        · simp only [fin_le_fin]; push_cast; linarith [Int.floor_le i]
        · simp only [fin_le_fin]; push_cast; linarith [Int.floor_le s]

example : Itv.Wf (⟨fin 2, fin 3⟩ : Itv ℚ) ∧ Itv.Wf (Itv.bottom : Itv ℚ) ∧
    Itv.join (⟨fin 2, fin 3⟩ : Itv ℚ) ⟨fin (-5), pinf⟩ = ⟨fin 2, pinf⟩ ∧
    Itv.isLeq (⟨fin (-5), fin 6⟩ : Itv ℚ) ⟨fin (-5), pinf⟩ = true ∧
    Itv.isBottom (Itv.canonicalize (⟨fin (-1/3), fin (2/3)⟩ : Itv ℚ) true) = true :=
  ⟨Or.inl ⟨0, by decide +kernel⟩, Or.inr rfl, by decide +kernel, by decide +kernel, by decide +kernel⟩

/-! ## C09: widening (interval level; boxes in `Verif.Props.Box`) -/

theorem C09_itv_widening_covers (b c : Itv K) (x : K) (h : x ∈ b ∨ x ∈ c) :
    x ∈ Itv.widening b c := by
  have bw : ∀ (u v : Bound K), u ≤ boundWidening u v ∧ v ≤ boundWidening u v := fun u v => by
    unfold boundWidening
    split_ifs with h
    · simp
    · simp at h; exact ⟨le_refl _, h.2⟩
  unfold Itv.widening
  split_ifs with h1 h2
  · rw [isCanonicalBottom_iff] at h1; subst h1
    exact h.resolve_left (not_mem_bottom x)
  · rw [isCanonicalBottom_iff] at h2; subst h2
    exact h.resolve_right (not_mem_bottom x)
  · rcases h with h | h
    · exact mem_of_le (bw _ _).1 (bw _ _).1 h
    · exact mem_of_le (bw _ _).2 (bw _ _).2 h

theorem C09_itv_widening_stabilises (x y : ℕ → Itv K) (h : ∀ n, x (n + 1) = Itv.widening (x n) (y n)) :
    Stabilises x 3 := by
  refine stabilises_of_measure x Itv.widenMeasure 3 (Itv.widenMeasure_le _) (fun n => ?_)
  rw [h n]
  exact Itv.widen_step _ _

example : Itv.widening (⟨fin 0, fin 1⟩ : Itv ℚ) ⟨fin 0, fin 2⟩ = ⟨fin 0, pinf⟩ := by decide +kernel

end Apron
