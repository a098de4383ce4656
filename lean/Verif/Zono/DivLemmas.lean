import Verif.Zono.MulLemmas

/-!
# Affine forms: soundness of the inverse, the division and the square root
-/

set_option autoImplicit false
set_option linter.unusedSectionVars false
set_option linter.ambiguousOpen false

namespace Apron
open Bound
variable {K : Type*} [LinearOrder K] [Field K] [IsStrictOrderedRing K] {R : Rnd K}

/-! ## Real analysis -/

/-- the range of `1/y + y/m²` on `[a, b]`, for `m` the middle -/
theorem inv_range {a b y : K} (ha : 0 < a) (h1 : a ≤ y) (h2 : y ≤ b) :
    |1 / y + y / ((a + b) / 2) ^ 2 - (2 * a / (a + b) ^ 2 + 1 / (2 * a) + 2 / (a + b))| ≤
      1 / (2 * a) - 2 * b / (a + b) ^ 2 := by
  have hy : 0 < y := lt_of_lt_of_le ha h1
  have hb : 0 < b := lt_of_lt_of_le hy h2
  have hs : 0 < a + b := by linarith
  rw [abs_le]
  constructor
  · have : 1 / y + y / ((a + b) / 2) ^ 2 - (2 * a / (a + b) ^ 2 + 1 / (2 * a) + 2 / (a + b)) + (1 / (2 * a) - 2 * b / (a + b) ^ 2)
        = (a + b - 2 * y) ^ 2 / (y * (a + b) ^ 2) := by field_simp; ring
    have h : 0 ≤ (a + b - 2 * y) ^ 2 / (y * (a + b) ^ 2) := by positivity
    linarith
  · have : (1 / (2 * a) - 2 * b / (a + b) ^ 2) - (1 / y + y / ((a + b) / 2) ^ 2 - (2 * a / (a + b) ^ 2 + 1 / (2 * a) + 2 / (a + b)))
        = (y - a) * ((a + b) ^ 2 - 4 * a * y) / (a * y * (a + b) ^ 2) := by field_simp; ring
    have h3 : 0 ≤ (a + b) ^ 2 - 4 * a * y := by nlinarith [sq_nonneg (b - a), mul_le_mul_of_nonneg_left h2 ha.le]
    have h : 0 ≤ (y - a) * ((a + b) ^ 2 - 4 * a * y) / (a * y * (a + b) ^ 2) :=
      div_nonneg (mul_nonneg (by linarith) h3) (by positivity)
    linarith

/-- the range of `√y - y/(2√m)` on `[a, b]`, for `m` the middle: `s = √m`, `ra = √a`, `r = √y` -/
theorem sqrt_range {a b ra s r : K} (hra : 0 ≤ ra) (hraa : ra * ra = a) (hs : 0 < s) (hss : s * s = (a + b) / 2)
    (hr : 0 ≤ r) (h1 : a ≤ r * r) (h2 : r * r ≤ b) :
    |r - 1 / (2 * s) * (r * r) - (s / 2 - (s / 2 - ra + a / (2 * s)) / 2)| ≤ (s / 2 - ra + a / (2 * s)) / 2 := by
  rw [abs_le]
  constructor
  · have e : r - 1 / (2 * s) * (r * r) - (s / 2 - (s / 2 - ra + a / (2 * s)) / 2) + (s / 2 - ra + a / (2 * s)) / 2
        = (r - ra) * (2 * s - (r + ra)) / (2 * s) := by
      rw [← hraa]; field_simp; ring
    have h3 : ra ≤ r := by
      by_contra hc
      push Not at hc
      nlinarith
    have h4 : r + ra ≤ 2 * s := by
      by_contra hc
      push Not at hc
      nlinarith [sq_nonneg (r - ra)]
    have : 0 ≤ (r - ra) * (2 * s - (r + ra)) / (2 * s) :=
      div_nonneg (mul_nonneg (by linarith) (by linarith)) (by linarith)
    linarith
  · have e : (s / 2 - ra + a / (2 * s)) / 2 - (r - 1 / (2 * s) * (r * r) - (s / 2 - (s / 2 - ra + a / (2 * s)) / 2))
        = (r - s) ^ 2 / (2 * s) := by
      field_simp; ring
    have : 0 ≤ (r - s) ^ 2 / (2 * s) := by positivity
    linarith

namespace Itv

theorem mem_half {b : Itv K} {x : K} (h : x ∈ b) : x / 2 ∈ half R b := by
  rcases b with ⟨i, s⟩
  rw [mem_def] at h ⊢
  obtain ⟨h1, h2⟩ := h
  have key : ∀ (z : K) (d : Bound K), fin z ≤ d → fin (z / 2) ≤ Bound.div2 R d := by
    intro z d hd
    cases d with
    | fin q =>
      rw [fin_le_fin] at hd
      refine le_trans ?_ (R.up_ge _)
      simpa using (by linarith : z / 2 ≤ q / 2)
    | pinf => simp [Bound.div2]
    | ninf => simp at hd
  refine ⟨?_, key _ _ h2⟩
  have := key (-x) i h1
  rwa [neg_div] at this

theorem mem_dbl {b : Itv K} {x : K} (h : x ∈ b) : 2 * x ∈ dbl R b := by
  rcases b with ⟨i, s⟩
  rw [mem_def] at h ⊢
  obtain ⟨h1, h2⟩ := h
  have key : ∀ (z : K) (d : Bound K), fin z ≤ d → fin (2 * z) ≤ Bound.mul2 R d := by
    intro z d hd
    cases d with
    | fin q =>
      rw [fin_le_fin] at hd
      refine le_trans ?_ (R.up_ge _)
      rw [fin_le_fin]; linarith
    | pinf => simp [Bound.mul2]
    | ninf => simp at hd
  refine ⟨?_, key _ _ h2⟩
  have := key (-x) i h1
  rwa [mul_neg] at this

/-- the middle of the interval is represented (no overflow of the sum of the bounds) -/
def MidFin (R : Rnd K) (b : Itv K) : Prop :=
  ∀ l u, b = ⟨fin l, fin u⟩ → ∃ m, Bound.div2 R (Bound.sub R (fin u) (fin l)) = fin m

/-- the centre and the radius that `itv_middev` computes cover the interval -/
theorem mem_middev {b : Itv K} (hm : MidFin R b) {x : K} (h : x ∈ b) : ∃ m, m ∈ (middev R b).1 ∧
    x - m ∈ (⟨(middev R b).2.sup, (middev R b).2.sup⟩ : Itv K) := by
  unfold middev
  split_ifs with h1 h2
  · exact ⟨x, h, by rw [sub_self]; simp [mem_def, point]⟩
  · exact ⟨x, mem_top _, by simp [mem_def, top]⟩
  · rcases b with ⟨i, s⟩
    rw [mem_def] at h
    obtain ⟨h3, h4⟩ := h
    rw [Bool.or_eq_true, not_or] at h2
    cases i with
    | pinf => simp [hasInfty, infty] at h2
    | ninf => simp at h3
    | fin l =>
      cases s with
      | pinf => simp [hasInfty, infty] at h2
      | ninf => simp at h4
      | fin u =>
        dsimp only
        obtain ⟨m, hm⟩ := hm l u rfl
        rw [hm]
        rw [fin_le_fin] at h3 h4
        refine ⟨m, by simp [mem_def, Bound.neg], ?_, ?_⟩
        · dsimp only
          rw [bmax_eq_max]
          refine le_trans ?_ (le_max_left _ _)
          refine le_trans ?_ (R.up_ge _)
          rw [fin_le_fin]; linarith
        · dsimp only
          rw [bmax_eq_max]
          refine le_trans ?_ (le_max_right _ _)
          refine le_trans ?_ (R.up_ge _)
          rw [fin_le_fin]; linarith

/-- the middle that `itv_middev` computes is the exact one -/
def MidExact (R : Rnd K) (b : Itv K) : Prop := ∀ l u, b = ⟨fin l, fin u⟩ → (middev R b).1 = point ((u - l) / 2)

theorem midExact_exact (b : Itv K) (h : b.isBottom = false) : MidExact Rnd.exact b := by
  rintro l u rfl
  unfold middev
  split_ifs with h1 h2
  · simp only [isPoint, decide_eq_true_eq] at h1
    simp only [point, Itv.mk.injEq, Bound.fin.injEq]
    constructor <;> linarith
  · rw [h] at h2; simp [hasInfty, infty] at h2
  · simp [Bound.div2, Bound.sub, Bound.neg, point]

theorem midFin_exact (b : Itv K) : MidFin Rnd.exact b := fun l u _ => ⟨(u - l) / 2, rfl⟩

theorem mem_inf_point {l : K} : -l ∈ (⟨fin l, Bound.neg (fin l)⟩ : Itv K) := by
  simp [mem_def, Bound.neg]
theorem mem_sup_point {u : K} : u ∈ (⟨Bound.neg (fin u), fin u⟩ : Itv K) := by
  simp [mem_def, Bound.neg]

theorem mem_sym {b : Itv K} {c r : K} (hc : c ∈ b) (h : |r| ≤ c) : r ∈ (⟨b.sup, b.sup⟩ : Itv K) := by
  rw [abs_le] at h
  refine ⟨le_trans ?_ hc.2, le_trans ?_ hc.2⟩ <;> rw [fin_le_fin] <;> linarith

/-- zero is in no interval that the test excludes -/
theorem ne_zero_of_isLeq {b : Itv K} {y : K} (hy : y ∈ b) (h : isLeq (point 0) b = false) : y ≠ 0 := by
  rintro rfl
  have h1 : isCanonicalBottom b = false := by
    cases hb : isCanonicalBottom b with
    | false => rfl
    | true => rw [(isCanonicalBottom_iff b).1 hb] at hy; exact absurd hy (not_mem_bottom _)
  have h2 : isCanonicalBottom (point (0 : K)) = false := by
    simp [isCanonicalBottom, point]
  rw [isLeq, h2, h1] at h
  simp only [Bool.false_eq_true, if_false, Bool.and_eq_false_iff, decide_eq_false_iff_not] at h
  rw [mem_def] at hy
  rcases h with h | h
  · exact h ((Bound.cmp_le_zero _ _).2 hy.2)
  · exact h ((Bound.cmp_le_zero _ _).2 hy.1)

end Itv

namespace T1p
namespace Aff
open Itv
variable {ε : ℕ → K} {e : NEnv K} {a b : Aff K} {x y : K}

theorem mem_invAlpha {l u : K} (hu : (u - l) / 2 ≠ 0) (hm : MidExact R (⟨fin l, fin u⟩ : Itv K)) :
    -(1 / ((u - l) / 2) ^ 2) ∈ invAlpha R (⟨fin l, fin u⟩ : Itv K) := by
  unfold invAlpha
  rw [hm l u rfl, pow_two]
  have h := Itv.mem_mul R ((Itv.mem_point ((u - l) / 2) _).2 rfl) ((Itv.mem_point ((u - l) / 2) _).2 rfl)
  exact Itv.mem_neg (Itv.mem_div R ((Itv.mem_point (1 : K) _).2 rfl) h (mul_ne_zero hu hu))

theorem mem_invBeta {a b : K} (ha : 0 < a) (hab : a ≤ b) :
    1 / (2 * a) - 2 * b / (a + b) ^ 2 ∈ invBeta R (⟨fin (-a), fin b⟩ : Itv K) := by
  have hb : 0 < b := lt_of_lt_of_le ha hab
  have hA : a ∈ (⟨fin (-a), Bound.neg (fin (-a))⟩ : Itv K) := by
    have := mem_inf_point (l := -a); rwa [_root_.neg_neg] at this
  have hB : b ∈ (⟨Bound.neg (fin b), fin b⟩ : Itv K) := mem_sup_point
  have h1 := Itv.mem_add R (Itv.mem_add R (mem_half (R := R) (Itv.mem_div R (Itv.mem_mul R hA hA) hB hb.ne')) (mem_half (R := R) hB)) hA
  have ht : a * a / b / 2 + b / 2 + a ≠ 0 := by positivity
  have h2 := Itv.mem_neg (Itv.mem_div R ((Itv.mem_point (1 : K) _).2 rfl) h1 ht)
  have h3 := mem_half (R := R) (Itv.mem_div R ((Itv.mem_point (1 : K) _).2 rfl) hA ha.ne')
  have := Itv.mem_add R h2 h3
  have e : 1 / (2 * a) - 2 * b / (a + b) ^ 2 = -(1 / (a * a / b / 2 + b / 2 + a)) + 1 / a / 2 := by
    have e1 : a * a / b / 2 + b / 2 + a = (a + b) ^ 2 / (2 * b) := by field_simp; ring
    have : a + b ≠ 0 := by positivity
    rw [e1]; field_simp; ring
  rw [e]; exact this

theorem mem_invZeta {a b : K} (ha : 0 < a) (hab : a ≤ b) (hm : MidExact R (⟨fin (-a), fin b⟩ : Itv K)) :
    2 * a / (a + b) ^ 2 + 1 / (2 * a) + 2 / (a + b) ∈ invZeta R (⟨fin (-a), fin b⟩ : Itv K) := by
  have hb : 0 < b := lt_of_lt_of_le ha hab
  have hA : a ∈ (⟨fin (-a), Bound.neg (fin (-a))⟩ : Itv K) := by
    have := mem_inf_point (l := -a); rwa [_root_.neg_neg] at this
  have hB : b ∈ (⟨Bound.neg (fin b), fin b⟩ : Itv K) := mem_sup_point
  have h1 := Itv.mem_add R (Itv.mem_add R (mem_half (R := R) (Itv.mem_div R (Itv.mem_mul R hB hB) hA ha.ne')) (mem_half (R := R) hA)) hB
  have ht : b * b / a / 2 + a / 2 + b ≠ 0 := by positivity
  have h2 := Itv.mem_div R ((Itv.mem_point (1 : K) _).2 rfl) h1 ht
  have h3 := mem_half (R := R) (Itv.mem_div R ((Itv.mem_point (1 : K) _).2 rfl) hA ha.ne')
  have hmm : (b - -a) / 2 ∈ (Itv.middev R (⟨fin (-a), fin b⟩ : Itv K)).1 := by
    rw [hm _ _ rfl, Itv.mem_point]
  have hm0 : (b - -a) / 2 ≠ 0 := by
    have : 0 < (b - -a) / 2 := by linarith
    exact this.ne'
  have h4 := Itv.mem_div R ((Itv.mem_point (1 : K) _).2 rfl) hmm hm0
  have := Itv.mem_add R (Itv.mem_add R h2 h3) h4
  have e : 2 * a / (a + b) ^ 2 + 1 / (2 * a) + 2 / (a + b) =
      1 / (b * b / a / 2 + a / 2 + b) + 1 / a / 2 + 1 / ((b - -a) / 2) := by
    have e1 : b * b / a / 2 + a / 2 + b = (a + b) ^ 2 / (2 * a) := by field_simp; ring
    have e2 : b - -a = a + b := by ring
    have : a + b ≠ 0 := by positivity
    rw [e1, e2]; field_simp
  rw [e]; exact this

/-- the affine form that replaces the inverse -/
theorem Has.inv (hb : b.Has ε y) {l u : K} (hitv : b.itv = ⟨fin l, fin u⟩) (h0 : isLeq (Itv.point 0) b.itv = false)
    (hm : MidExact R b.itv) (hm' : MidExact R (Itv.neg b.itv)) : (Aff.inv R b).Has ε (1 / y) := by
  have hy0 := ne_zero_of_isLeq hb.2 h0
  have hmem := hb.2
  rw [hitv, mem_def] at hmem
  simp only [fin_le_fin] at hmem
  refine ⟨?_, Itv.mem_div R ((Itv.mem_point (1 : K) _).2 rfl) hb.2 hy0⟩
  have h00 : ¬ ((0 : K) ≤ u ∧ 0 ≤ l) := by
    rintro ⟨h1, h2⟩
    rw [hitv] at h0
    refine ne_zero_of_isLeq (y := (0 : K)) ?_ h0 rfl
    rw [mem_def]; simp [h1, h2]
  unfold Aff.inv
  dsimp only
  have hneg : Itv.isNeg b.itv = decide (u ≤ 0) := by
    rw [hitv, Itv.isNeg]
    have : sgn (fin u) ≤ 0 ↔ u ≤ 0 := by rw [sgn_le_zero_iff]; simp
    simp [this]
  rw [hneg]
  by_cases hu : u ≤ 0
  · -- a negative divisor
    simp only [hu, decide_true, if_true]
    have hu' : u < 0 := by
      rcases lt_or_eq_of_le hu with h | h
      · exact h
      · exact absurd ⟨h.ge, by linarith [hmem.1, hmem.2]⟩ h00
    rw [hitv] at hm' ⊢
    have hbox : Itv.neg (⟨fin l, fin u⟩ : Itv K) = ⟨fin (-(-u)), fin l⟩ := by
      simp only [Itv.neg, _root_.neg_neg]
    rw [hbox] at hm' ⊢
    have ha : 0 < -u := by linarith
    have hab : -u ≤ l := by linarith [hmem.1, hmem.2]
    have hA := mem_invAlpha (R := R) (l := -(-u)) (u := l) (by
      have : 0 < (l - -(-u)) / 2 := by linarith
      exact this.ne') hm'
    have hB := mem_invBeta (R := R) ha hab
    have hZ := mem_invZeta (R := R) ha hab hm'
    obtain ⟨⟨c, t, hc, ht, hct⟩, _⟩ := Has.mulItv (R := R) hA hb
    have hr := inv_range (b := l) (y := -y) ha (by linarith [hmem.2]) (by linarith [hmem.1])
    set beta := 1 / (2 * -u) - 2 * l / (-u + l) ^ 2
    set zeta := 2 * -u / (-u + l) ^ 2 + 1 / (2 * -u) + 2 / (-u + l)
    have hs : -(1 / -y + -y / ((-u + l) / 2) ^ 2 - zeta) ∈ (⟨(invBeta R (⟨fin (-(-u)), fin l⟩ : Itv K)).sup, (invBeta R (⟨fin (-(-u)), fin l⟩ : Itv K)).sup⟩ : Itv K) :=
      mem_sym hB (by rw [abs_neg]; exact hr)
    refine ⟨_, t, Itv.mem_add R (Itv.mem_sub R hc hZ) hs, ht, ?_⟩
    have e : l - -(-u) = -u + l := by ring
    rw [e] at hct
    have e2 : c + t = y * -(1 / ((-u + l) / 2) ^ 2) := hct.symm
    have e3 : (1 : K) / -y = -(1 / y) := by rw [div_neg]
    rw [e3]
    linear_combination (-1 : K) * e2
  · -- a positive divisor
    simp only [hu, decide_false, Bool.false_eq_true, if_false]
    push Not at hu
    have hl : l < 0 := by
      by_contra h; push Not at h
      exact h00 ⟨hu.le, h⟩
    rw [hitv] at hm ⊢
    have hbox : (⟨fin l, fin u⟩ : Itv K) = ⟨fin (-(-l)), fin u⟩ := by rw [_root_.neg_neg]
    rw [hbox] at hm ⊢
    have ha : 0 < -l := by linarith
    have hab : -l ≤ u := by linarith [hmem.1, hmem.2]
    have hA := mem_invAlpha (R := R) (l := -(-l)) (u := u) (by
      have : 0 < (u - -(-l)) / 2 := by linarith
      exact this.ne') hm
    have hB := mem_invBeta (R := R) ha hab
    have hZ := mem_invZeta (R := R) ha hab hm
    obtain ⟨⟨c, t, hc, ht, hct⟩, _⟩ := Has.mulItv (R := R) hA hb
    have hr := inv_range (b := u) (y := y) ha (by linarith [hmem.1]) hmem.2
    set beta := 1 / (2 * -l) - 2 * u / (-l + u) ^ 2
    set zeta := 2 * -l / (-l + u) ^ 2 + 1 / (2 * -l) + 2 / (-l + u)
    have hs : 1 / y + y / ((-l + u) / 2) ^ 2 - zeta ∈ (⟨(invBeta R (⟨fin (-(-l)), fin u⟩ : Itv K)).sup, (invBeta R (⟨fin (-(-l)), fin u⟩ : Itv K)).sup⟩ : Itv K) :=
      mem_sym hB hr
    refine ⟨_, t, Itv.mem_add R (Itv.mem_add R hc hZ) hs, ht, ?_⟩
    have e : u - -(-l) = -l + u := by ring
    rw [e] at hct
    have e2 : c + t = y * -(1 / ((-l + u) / 2) ^ 2) := hct.symm
    linear_combination (-1 : K) * e2

theorem sortedQ_mulItv {lam : Itv K} (h : SortedQ a.q) : SortedQ (Aff.mulItv R a lam).q := by
  unfold Aff.mulItv
  split_ifs
  · exact List.Pairwise.nil
  · exact List.Pairwise.nil
  · exact List.Pairwise.nil
  · exact sortedQ_map h _

theorem sortedQ_inv (h : SortedQ b.q) : SortedQ (Aff.inv R b).q := sortedQ_mulItv h

/-- what the division needs of its divisor and dividend -/
def DivSafe (R : Rnd K) (a b : Aff K) : Prop :=
  MidExact R b.itv ∧ MidExact R (Itv.neg b.itv) ∧ SkipSafe R a.q (Aff.inv R b).q

theorem Has.div (hε : Noise ε) (hh : e.hyper = true) (hsa : SortedQ a.q) (hsb : SortedQ b.q)
    (hs : DivSafe R a b) (ha : a.Has ε x) (hb : b.Has ε y) (hy : y ≠ 0) :
    (Aff.div R e a b).Has ε (x / y) := by
  unfold Aff.div
  have h1 := Itv.mem_div R ((Itv.mem_point (1 : K) _).2 rfl) hb.2 hy
  rw [div_eq_mul_one_div]
  split_ifs with k1 k2 k3
  · exact Has.top _
  · exact Has.mulItv h1 ha
  · have hyc : y ∈ b.c := by
      obtain ⟨⟨c, t, hc, ht, rfl⟩, _⟩ := hb
      rw [List.isEmpty_iff] at k3
      rw [k3] at ht
      have ht : t = 0 := ht
      rw [ht, add_zero]; exact hc
    exact Has.mulItv (Itv.mem_div R ((Itv.mem_point (1 : K) _).2 rfl) hyc hy) ha
  · obtain ⟨l, u, hlu⟩ : ∃ l u, b.itv = ⟨fin l, fin u⟩ := by
      have hm := hb.2
      rcases hbi : b.itv with ⟨i, s⟩
      rw [hbi] at k2 hm
      rw [mem_def] at hm
      cases i <;> cases s <;> simp_all [hasInfty, infty]
    have hi := Has.inv (R := R) hb hlu (by simpa using k1) hs.1 hs.2.1
    have := Has.mul (R := R) hε hh hsa (sortedQ_inv hsb) hs.2.2 (same := false) (by simp) ha hi
    dsimp only
    refine ⟨this.1, Itv.mem_meet.2 ⟨this.2, ?_⟩⟩
    rw [← div_eq_mul_one_div]
    exact Itv.mem_div R ha.2 hb.2 hy

theorem sortedQ_div (hsa : SortedQ a.q) (hsb : SortedQ b.q) : SortedQ (Aff.div R e a b).q := by
  unfold Aff.div
  split_ifs
  · exact List.Pairwise.nil
  · exact sortedQ_mulItv hsa
  · exact sortedQ_mulItv hsa
  · exact sortedQ_mul hsa (sortedQ_inv hsb)

/-! ## The square root -/

variable {o : RootOps K}

/-- the square roots that the approximation of a root on `box` is built from exist -/
def SqrtRoots (box : Itv K) : Prop := ∀ l u, box = ⟨fin l, fin u⟩ → (∃ ra : K, 0 ≤ ra ∧ ra * ra = -l) ∧
  ∃ s : K, 0 ≤ s ∧ s * s = (u - l) / 2

theorem Has.sqrtOn (ho : o.SqrtOK) {box : Itv K} {r : K} (hx : r * r ∈ box) (hr : 0 ≤ r) (ha : a.Has ε (r * r))
    (hpos : 0 < sgn box.sup) (hle : sgn box.inf ≤ 0) (hm : MidExact R box) (hroot : SqrtRoots box) :
    (Aff.sqrtOn R o a box).Has ε r := by
  have hsq := Itv.mem_sqrt _ ho hx hr rfl
  have one : (1 : K) ∈ Itv.point (1 : K) := (Itv.mem_point _ _).2 rfl
  refine ⟨?_, hsq⟩
  rcases box with ⟨i, s⟩
  rw [mem_def] at hx
  cases i with
  | pinf => simp [sgn] at hle
  | ninf => simp at hx
  | fin l =>
    have hl : l ≤ 0 := by
      have := (sgn_le_zero_iff _).1 hle; simpa using this
    cases s with
    | ninf => simp at hx
    | pinf =>
      -- an infinite interval: the centre is the whole line
      have hmid : (Itv.middev R (⟨fin l, pinf⟩ : Itv K)).1 = Itv.top := by
        unfold Itv.middev; simp [Itv.isPoint, Itv.hasInfty, infty]
      have h1 : (1 : K) ∈ Itv.sqrt o (Itv.top : Itv K) := Itv.mem_sqrt _ ho (Itv.mem_top (1 : K)) zero_le_one (one_mul 1)
      have hal : (1 : K) / 1 / 2 ∈ sqrtAlpha R o (⟨fin l, pinf⟩ : Itv K) := by
        unfold sqrtAlpha
        rw [hmid]
        exact mem_half (Itv.mem_div R one h1 one_ne_zero)
      have hb0 : (Itv.half R (Itv.sqrt o (Itv.top : Itv K))).sup = pinf := by
        simp [Itv.half, Itv.sqrt, Itv.top, Itv.isBottom, sgn, Bound.sqrtUp, Bound.div2]
      have hbeta : (sqrtBeta R o (⟨fin l, pinf⟩ : Itv K)).sup = pinf := by
        unfold sqrtBeta
        dsimp only
        rw [hmid]
        split_ifs
        · simp only [Itv.half] at hb0 ⊢; rw [hb0]; rfl
        · simp only [Itv.half, Itv.add, Itv.sub] at hb0 ⊢; rw [hb0]; rfl
      have hzeta : sqrtZeta R o (⟨fin l, pinf⟩ : Itv K) = Itv.top := by
        unfold sqrtZeta
        rw [hmid, Itv.sub, hbeta, hb0]
        have : (Itv.half R (Itv.sqrt o (Itv.top : Itv K))).inf ≠ ninf := by
          have := mem_half (R := R) h1
          intro hc
          have h2 := this.1
          rw [hc] at h2
          simp at h2
        cases hc : (Itv.half R (Itv.sqrt o (Itv.top : Itv K))).inf with
        | ninf => exact absurd hc this
        | fin q => rfl
        | pinf => rfl
      obtain ⟨⟨c, t, hc, ht, hct⟩, _⟩ := Has.mulItv (R := R) hal ha
      unfold Aff.sqrtOn
      dsimp only
      refine ⟨_, t, Itv.mem_add R (Itv.mem_add R hc (by rw [hzeta]; exact Itv.mem_top (r - c - t))) (y := 0) ?_, ht, by ring⟩
      rw [hbeta, mem_def]; simp
    | fin u =>
      have hu : 0 < u := by
        have := (sgn_pos_iff _).1 hpos; simpa using this
      simp only [fin_le_fin] at hx
      obtain ⟨⟨ra, hra, hraa⟩, sm, hsm, hss⟩ := hroot l u rfl
      have hmid := hm l u rfl
      have hsm0 : 0 < sm := by
        rcases lt_or_eq_of_le hsm with h | h
        · exact h
        · rw [← h] at hss; nlinarith
      have hS : sm ∈ Itv.sqrt o (Itv.middev R (⟨fin l, fin u⟩ : Itv K)).1 := by
        refine Itv.mem_sqrt _ ho ?_ hsm hss
        rw [hmid, Itv.mem_point]
      have hal : (1 : K) / sm / 2 ∈ sqrtAlpha R o (⟨fin l, fin u⟩ : Itv K) :=
        mem_half (Itv.mem_div R one hS hsm0.ne')
      have hbeta : (sm / 2 - ra + -l / (2 * sm)) / 2 ∈ sqrtBeta R o (⟨fin l, fin u⟩ : Itv K) := by
        unfold sqrtBeta
        dsimp only
        refine mem_half ?_
        split_ifs with hz
        · have hl0 : l = 0 := by
            have := Itv.isZero_eq hz
            simp only [Itv.point, Itv.mk.injEq, Bound.fin.injEq] at this
            rw [this.1, neg_zero]
          have hra0 : ra = 0 := by
            rw [hl0, neg_zero] at hraa; exact mul_self_eq_zero.1 hraa
          have e : sm / 2 - ra + -l / (2 * sm) = sm / 2 := by rw [hl0, hra0]; simp
          rw [e]
          exact mem_half hS
        · have hA : -l ∈ (⟨fin l, Bound.neg (fin l)⟩ : Itv K) := mem_inf_point
          have hB : u ∈ (⟨Bound.neg (fin u), fin u⟩ : Itv K) := mem_sup_point
          have hl0 : 0 < -l := by
            rcases lt_or_eq_of_le hl with h | h
            · linarith
            · exact absurd (by rw [h]; simp [Itv.isZero, sgn, Bound.neg]) hz
          have h1 := Itv.mem_add R (Itv.mem_div R hB (Itv.mem_mul R hA hA) (mul_pos hl0 hl0).ne') (Itv.mem_div R one hA hl0.ne')
          have h2 := mem_dbl (R := R) h1
          have h3 : 2 * sm / -l ∈ Itv.sqrt o (Itv.dbl R (Itv.add R (Itv.div R ⟨Bound.neg (fin u), fin u⟩ (Itv.mul R ⟨fin l, Bound.neg (fin l)⟩ ⟨fin l, Bound.neg (fin l)⟩)) (Itv.div R (Itv.point 1) ⟨fin l, Bound.neg (fin l)⟩))) := by
            refine Itv.mem_sqrt _ ho h2 (by positivity) ?_
            have hss' : sm * sm = (u - l) / 2 := hss
            have hlne : l ≠ 0 := (neg_pos.1 hl0).ne
            field_simp
            linear_combination 2 * hss'
          have h4 := Itv.mem_div R one h3 (by positivity)
          have h5 : ra ∈ Itv.sqrt o (⟨fin l, Bound.neg (fin l)⟩ : Itv K) := Itv.mem_sqrt _ ho hA hra hraa
          have := Itv.mem_add R (Itv.mem_sub R (mem_half (R := R) hS) h5) h4
          convert this using 1
          have hlne : l ≠ 0 := (neg_pos.1 hl0).ne
          field_simp
      have hzeta := Itv.mem_sub R (mem_half (R := R) hS) hbeta
      obtain ⟨⟨c, t, hc, ht, hct⟩, _⟩ := Has.mulItv (R := R) hal ha
      have hrange := sqrt_range (a := -l) (b := u) hra hraa hsm0 (by rw [hss]; ring) hr (by linarith [hx.1]) hx.2
      unfold Aff.sqrtOn
      dsimp only
      refine ⟨_, t, Itv.mem_add R (Itv.mem_add R hc hzeta) (mem_sym hbeta hrange), ht, ?_⟩
      have e : c + t = r * r * (1 / sm / 2) := hct.symm
      have e2 : (1 : K) / (2 * sm) = 1 / sm / 2 := by rw [div_div, mul_comm]
      rw [e2]
      linear_combination (-1 : K) * e

/-- what the square root needs -/
def SqrtSafe (R : Rnd K) (a : Aff K) : Prop :=
  (MidExact R a.itv ∧ SqrtRoots a.itv) ∧ MidExact R (⟨fin 0, a.itv.sup⟩ : Itv K) ∧ SqrtRoots (⟨fin 0, a.itv.sup⟩ : Itv K)

theorem Has.sqrt (ho : o.SqrtOK) {r : K} (hr : 0 ≤ r) (ha : a.Has ε (r * r)) (hs : SqrtSafe R a) :
    (Aff.sqrt R o a).Has ε r := by
  unfold Aff.sqrt
  have hx := ha.2
  have hxx := hx
  rw [mem_def] at hx
  split_ifs with k1 k2 k3 k4 k5
  · rw [not_isBottom_of_has ha] at k1; simp at k1
  · have h0 : r * r ≤ 0 := by
      simp only [Itv.isNeg, decide_eq_true_eq] at k2
      have := le_trans hx.2 ((sgn_le_zero_iff _).1 k2)
      simpa using this
    have : r = 0 := by nlinarith
    rw [this]; exact Has.zero
  · have h0 : r * r ≤ 0 := by
      simp only [Itv.isNeg, decide_eq_true_eq] at k2
      have := le_trans hx.2 ((sgn_le_zero_iff _).1 k2)
      simpa using this
    exact absurd (le_antisymm h0 (mul_self_nonneg r)) (ne_zero_of_isLeq hxx (by simpa using k3))
  · have : r * r = 0 := zero_of_knownZero ha (by
      simp only [Aff.isZero, Bool.and_eq_true] at k5
      exact k5.2)
    rw [mul_self_eq_zero.1 this]; exact Has.zero
  · simp only [Itv.isNeg, Itv.isPos, decide_eq_true_eq] at k2 k4
    exact Has.sqrtOn ho hxx hr ha (by omega) k4 hs.1.1 hs.1.2
  · simp only [Itv.isNeg, Itv.isPos, decide_eq_true_eq] at k2 k4
    refine Has.sqrtOn ho ⟨?_, hx.2⟩ hr ha (by simp only; omega) (by simp [sgn]) hs.2.1 hs.2.2
    simp only [fin_le_fin]
    nlinarith

theorem sortedQ_sqrt (h : SortedQ a.q) : SortedQ (Aff.sqrt R o a).q := by
  unfold Aff.sqrt Aff.sqrtOn
  split_ifs
  · exact List.Pairwise.nil
  · exact List.Pairwise.nil
  · exact List.Pairwise.nil
  · exact List.Pairwise.nil
  · exact sortedQ_mulItv h
  · exact sortedQ_mulItv h

end Aff
end T1p
end Apron
