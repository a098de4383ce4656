import Verif.Itv.Lemmas
import Verif.Itv.Pow

/-! # Helper lemmas on rounding, modulo, power and roots -/

set_option autoImplicit false
set_option linter.unusedSectionVars false
set_option linter.ambiguousOpen false

namespace Apron
open Bound
variable {K : Type*} [LinearOrder K] [Field K] [IsStrictOrderedRing K] (R : Rnd K) (o : RootOps K)

section
variable [FloorRing K]

theorem fin_le_floor {b : Bound K} {n : ℤ} (h : fin (n : K) ≤ b) : fin (n : K) ≤ Bound.floor b := by
  cases b with
  | fin q => simp [Bound.floor] at *; exact Int.le_floor.2 h
  | pinf => simp [Bound.floor]
  | ninf => simp at h

theorem floor_le_bound (b : Bound K) : Bound.floor b ≤ b := by
  cases b with
  | fin q => simp [Bound.floor]; exact Int.floor_le q
  | _ => simp [Bound.floor]

theorem fin_floor_le_floor {b : Bound K} {x : K} (h : fin x ≤ b) :
    fin ((⌊x⌋ : ℤ) : K) ≤ Bound.floor b :=
  fin_le_floor (le_trans (by simpa using Int.floor_le x) h)

theorem fin_ceil_le_ceil {b : Bound K} {x : K} (h : fin x ≤ b) :
    fin ((⌈x⌉ : ℤ) : K) ≤ Bound.ceil b := by
  cases b with
  | fin q => simp [Bound.ceil] at *; exact Int.ceil_le_ceil h
  | pinf => simp [Bound.ceil]
  | ninf => simp at h

theorem le_ceil_bound (b : Bound K) : b ≤ Bound.ceil b := by
  cases b with
  | fin q => simp [Bound.ceil]; exact Int.le_ceil q
  | _ => simp [Bound.ceil]

theorem fin_add_one_le_addNat {b : Bound K} {x : K} (h : fin x ≤ b) :
    fin (x + 1) ≤ Bound.addNat R b 1 := by
  cases b with
  | fin q =>
    simp only [Bound.addNat]
    refine le_trans ?_ (R.up_ge _)
    simp at h ⊢; exact h
  | pinf => simp [Bound.addNat]
  | ninf => simp at h

theorem fin_sub_one_le_subNat {b : Bound K} {x : K} (h : fin x ≤ b) :
    fin (x - 1) ≤ Bound.subNat R b 1 := by
  cases b with
  | fin q =>
    simp only [Bound.subNat]
    refine le_trans ?_ (R.up_ge _)
    simp at h ⊢; exact h
  | pinf => simp [Bound.subNat]
  | ninf => simp at h

theorem numTrunc_neg (x : K) : numTrunc (-x) = -numTrunc x := by
  unfold numTrunc
  rcases lt_trichotomy x 0 with h | h | h
  · rw [if_pos (by linarith), if_neg (not_le.2 h), Int.floor_neg]
  · subst h; simp
  · rw [if_neg (by linarith), if_pos h.le, Int.ceil_neg]

theorem numTrunc_mono {x y : K} (h : x ≤ y) : numTrunc x ≤ numTrunc y := by
  unfold numTrunc
  split_ifs with h1 h2 h2
  · exact Int.floor_le_floor h
  · exact absurd (le_trans h1 h) h2
  · have : ⌈x⌉ ≤ 0 := Int.ceil_le.2 (by simpa using (not_le.1 h1).le)
    exact le_trans this (Int.floor_nonneg.2 h2)
  · exact Int.ceil_le_ceil h

theorem fin_trunc_le_trunc {b : Bound K} {x : K} (h : fin x ≤ b) :
    fin ((numTrunc x : ℤ) : K) ≤ Bound.trunc b := by
  cases b with
  | fin q => simp only [Bound.trunc, fin_le_fin, Int.cast_le] at *; exact numTrunc_mono h
  | pinf => simp [Bound.trunc]
  | ninf => simp at h

namespace Itv

theorem mem_trunc {b : Itv K} {x : K} (h : x ∈ b) : ((numTrunc x : ℤ) : K) ∈ trunc b := by
  refine ⟨?_, fin_trunc_le_trunc h.2⟩
  have := fin_trunc_le_trunc h.1
  rw [numTrunc_neg] at this
  simpa [trunc] using this

theorem mem_floor {b : Itv K} {x : K} (h : x ∈ b) : ((⌊x⌋ : ℤ) : K) ∈ floor b := by
  refine ⟨?_, fin_floor_le_floor h.2⟩
  have := fin_ceil_le_ceil h.1
  rw [Int.ceil_neg] at this
  simpa [floor] using this

theorem mem_ceil {b : Itv K} {x : K} (h : x ∈ b) : ((⌈x⌉ : ℤ) : K) ∈ ceil b := by
  refine ⟨?_, fin_ceil_le_ceil h.2⟩
  have := fin_floor_le_floor h.1
  rw [Int.floor_neg] at this
  simpa [ceil] using this

theorem mem_toInt {b : Itv K} {x : K} (h : x ∈ b) {n : ℤ} (hn : n = ⌊x⌋ ∨ n = ⌈x⌉) :
    (n : K) ∈ toInt b := by
  have h1 := fin_ceil_le_ceil h.1
  have h2 := fin_ceil_le_ceil h.2
  rw [Int.ceil_neg] at h1
  have hfc : ⌊x⌋ ≤ ⌈x⌉ := Int.floor_le_ceil x
  have hfc' : ((⌊x⌋ : ℤ) : K) ≤ ((⌈x⌉ : ℤ) : K) := by exact_mod_cast hfc
  rcases hn with rfl | rfl
  · exact ⟨by simpa [toInt] using h1, le_trans (by simpa using hfc) h2⟩
  · refine ⟨le_trans ?_ h1, h2⟩
    simp only [fin_le_fin, Int.cast_neg]
    linarith

theorem mem_canonicalize_int {b : Itv K} {n : ℤ} : (n : K) ∈ canonicalize b true ↔ (n : K) ∈ b := by
  constructor
  · intro h
    exact ⟨le_trans h.1 (floor_le_bound _), le_trans h.2 (floor_le_bound _)⟩
  · intro h
    refine ⟨?_, fin_le_floor h.2⟩
    have := h.1
    rw [← Int.cast_neg] at this ⊢
    exact fin_le_floor this

/-- bounds of the truncated remainder -/
theorem rem_bounds (x y : K) (hy : y ≠ 0) :
    |x - |y| * (numTrunc (x / |y|) : ℤ)| < |y| ∧
    (0 ≤ x → 0 ≤ x - |y| * (numTrunc (x / |y|) : ℤ)) ∧
    (x ≤ 0 → x - |y| * (numTrunc (x / |y|) : ℤ) ≤ 0) := by
  have hy0 : 0 < |y| := abs_pos.2 hy
  have e : x = |y| * (x / |y|) := by field_simp
  have hfl := Int.floor_le (x / |y|)
  have hfl' := Int.lt_floor_add_one (x / |y|)
  have hcl := Int.le_ceil (x / |y|)
  have hcl' := Int.ceil_lt_add_one (x / |y|)
  unfold numTrunc
  split_ifs with h
  · have hx : 0 ≤ x := by rw [e]; positivity
    have h1 : 0 ≤ x - |y| * (⌊x / |y|⌋ : ℤ) := by
      nlinarith
    refine ⟨?_, fun _ => h1, ?_⟩
    · rw [abs_of_nonneg h1]; nlinarith
    · intro hx'
      have : x = 0 := le_antisymm hx' hx
      subst this; simp
  · rw [not_le] at h
    have hx : x < 0 := by rw [e]; exact mul_neg_of_pos_of_neg hy0 h
    have h1 : x - |y| * (⌈x / |y|⌉ : ℤ) ≤ 0 := by nlinarith
    refine ⟨?_, fun h' => absurd h' (not_le.2 hx), fun _ => h1⟩
    rw [abs_of_nonpos h1]; nlinarith

theorem mem_mod {b c : Itv K} {x y : K} (isInt : Bool) (hx : x ∈ b) (hy : y ∈ c) (hy0 : y ≠ 0)
    (hint : isInt = true → ∃ m n : ℤ, x = m ∧ y = n) :
    x - |y| * (numTrunc (x / |y|) : ℤ) ∈ mod R b c isInt := by
  unfold mod
  simp only
  by_cases h : sgn (abs c).inf = 0
  · rw [if_pos h]; exact mem_top _
  rw [if_neg h]
  obtain ⟨hr, hr1, hr2⟩ := rem_bounds x y hy0
  have hay := mem_abs hy
  have hq := mem_trunc (mem_div R hx hay (abs_ne_zero.2 hy0))
  have hprod := mem_mul R hq hay
  rw [mul_comm] at hprod
  refine mem_meet.2 ⟨mem_sub R hx hprod, ?_⟩
  -- magnitude
  have hs : fin |x - |y| * (numTrunc (x / |y|) : ℤ)| ≤
      (if isInt = true then Bound.subNat R (abs c).sup 1 else (abs c).sup) := by
    by_cases hi : isInt = true
    · rw [if_pos hi]
      obtain ⟨m, n, rfl, rfl⟩ := hint hi
      have hle := fin_sub_one_le_subNat R hay.2
      refine le_trans ?_ hle
      simp only [fin_le_fin]
      have e : |(m : K) - |(n : K)| * (numTrunc ((m : K) / |(n : K)|) : ℤ)|
          = ((|m - |n| * numTrunc ((m : K) / |(n : K)|)| : ℤ) : K) := by push_cast; rfl
      rw [e] at hr ⊢
      rw [← Int.cast_abs] at hr ⊢
      have : |m - |n| * numTrunc ((m : K) / ((|n| : ℤ) : K))| < |n| := by exact_mod_cast hr
      have h2 : |m - |n| * numTrunc ((m : K) / ((|n| : ℤ) : K))| ≤ |n| - 1 := by omega
      exact_mod_cast h2
    · rw [if_neg hi]
      exact le_trans (by simpa using hr.le) hay.2
  generalize (if isInt = true then Bound.subNat R (abs c).sup 1 else (abs c).sup) = s at hs ⊢
  have habs := abs_le.1 (le_refl |x - |y| * (numTrunc (x / |y|) : ℤ)|)
  split_ifs with h1 h2
  · rw [sgn_neg_iff] at h1
    have hx0 := neg_of_sup hx h1
    exact ⟨le_trans (by simp only [fin_le_fin]; linarith) hs, by simpa using hr2 hx0.le⟩
  · exact ⟨le_trans (by simp only [fin_le_fin]; linarith) hs,
      le_trans (by simp only [fin_le_fin]; linarith) hs⟩
  · rw [sgn_pos_iff, not_lt] at h2
    have hx0 := nonneg_of_inf hx h2
    exact ⟨by simpa using hr1 hx0, le_trans (by simp only [fin_le_fin]; linarith) hs⟩

end Itv
end

namespace Itv

theorem not_isBottom {b : Itv K} {x : K} (h : x ∈ b) : isBottom b = false := by
  rcases b with ⟨i, s⟩
  obtain ⟨h1, h2⟩ := h
  cases i <;> cases s <;> simp_all [isBottom]
  linarith

theorem mem_sqrt (ho : o.SqrtOK) {b : Itv K} {x y : K} (hx : x ∈ b) (hy : 0 ≤ y) (hxy : y * y = x) :
    y ∈ sqrt o b := by
  unfold sqrt
  have hx0 : 0 ≤ x := by rw [← hxy]; positivity
  rw [not_isBottom hx]
  have h1 : ¬ sgn b.sup < 0 := by
    rw [sgn_neg_iff, not_lt]; exact le_trans (by simpa using hx0) hx.2
  simp only [h1, Bool.false_or, decide_false, Bool.false_eq_true, if_false]
  rcases b with ⟨i, s⟩
  refine ⟨?_, ?_⟩
  · simp only
    split_ifs with h2
    · simpa using hy
    · rw [sgn_nonneg_iff, not_le] at h2
      obtain ⟨q, rfl, hq, hq0⟩ := exists_fin_of_le hx.1 h2.le
      simp only [neg_fin, Bound.sqrtDn, fin_le_fin, _root_.neg_le_neg_iff]
      exact (ho (-q) y (by linarith) hy).1 (by linarith)
  · have h2 := hx.2
    cases s with
    | ninf => simp at h2
    | pinf => simp [Bound.sqrtUp]
    | fin q =>
      simp [Bound.sqrtUp] at h2 ⊢
      exact (ho q y (by linarith) hy).2 (by linarith)

section
variable [FloorRing K]

theorem expo_spec {n : Itv K} {x : ℕ} (h : expo n = some x) : n = point (x : K) := by
  rcases n with ⟨i, s⟩
  unfold expo at h
  cases i <;> cases s <;> simp at h
  rename_i l u
  obtain ⟨h1, ⟨h2, h3⟩, h4⟩ := h
  have : (x : K) = u := by
    rw [← h4]
    have : ((⌊u⌋.toNat : ℤ) : K) = (⌊u⌋ : K) := by rw [Int.toNat_of_nonneg h3]
    rw [h2] at this
    exact_mod_cast this
  subst h1
  simp [point, this]

theorem expo_point (x : ℕ) : expo (point (x : K)) = some x := by
  simp [expo, point]

theorem powUp_ge {b : Bound K} {u : K} {n : ℕ} (h : ∀ q, b = fin q → u ≤ q ^ n) :
    fin u ≤ Bound.powUp R b n := by
  cases b with
  | fin q =>
    simp only [Bound.powUp]
    split_ifs
    · simp
    · exact le_trans (by simpa using h q rfl) (R.up_ge _)
  | _ => simp [Bound.powUp]

theorem neg_powDn_ge {q u : K} {n : ℕ} (h : q ^ n ≤ u) (hu : n % 2 ≠ 1 → 0 ≤ u) :
    fin (-u) ≤ Bound.neg (Bound.powDn R (fin q) n) := by
  simp only [Bound.powDn]
  split_ifs with h1 h2
  · simp
  · simpa using hu h2
  · rw [Bound.neg_neg]
    exact le_trans (by simpa using h) (R.up_ge _)

theorem mem_powNat {b : Itv K} {x : K} {n : ℕ} (hx : x ∈ b) (hb : n % 2 = 1 → b.inf ≠ pinf) :
    x ^ n ∈ powNat R b n := by
  unfold powNat
  simp only
  by_cases hn : n % 2 = 1
  · rw [if_pos hn]
    have hodd : Odd n := Nat.odd_iff.2 hn
    obtain ⟨i, s⟩ := b
    have h1 := hx.1
    have h2 := hx.2
    constructor
    · cases i with
      | ninf => simp at h1
      | pinf => simp at hb; omega
      | fin l =>
        simp only [neg_fin]
        refine neg_powDn_ge R ?_ (fun h => absurd hn h)
        simp at h1
        exact hodd.strictMono_pow.monotone (by linarith)
    · refine powUp_ge R (fun q hq => ?_)
      simp only at hq; subst hq; simp at h2
      exact hodd.strictMono_pow.monotone h2
  · rw [if_neg hn]
    have heven : Even n := Nat.even_iff.2 (by omega)
    have ha := mem_abs hx
    have hi : (abs b).inf ≤ fin 0 := by
      unfold abs
      split_ifs with h1 h2
      · exact (sgn_le_zero_iff _).1 h1
      · exact (sgn_le_zero_iff _).1 h2
      · simp
    rw [← heven.pow_abs]
    obtain ⟨l, hl, hl1, hl0⟩ := exists_fin_of_le ha.1 hi
    constructor
    · rw [hl]
      simp only [neg_fin]
      refine neg_powDn_ge R ?_ (fun _ => by positivity)
      exact pow_le_pow_left₀ (by linarith) (by linarith) n
    · refine powUp_ge R (fun q hq => ?_)
      have h2 := ha.2
      rw [hq] at h2; simp at h2
      exact pow_le_pow_left₀ (by positivity) h2 n

theorem mem_pow {b n : Itv K} {x : K} {k : ℕ} (hx : x ∈ b) (hk : (k : K) ∈ n)
    (hb : k % 2 = 1 → b.inf ≠ pinf) : x ^ k ∈ pow R b n := by
  unfold pow
  rw [not_isBottom hx, not_isBottom hk]
  simp only [Bool.or_self, Bool.false_eq_true, if_false]
  cases h : expo n with
  | none => exact mem_top _
  | some m =>
    have := expo_spec h
    subst this
    rw [mem_point] at hk
    have : k = m := by exact_mod_cast hk
    subst this
    exact mem_powNat R hx hb

theorem mem_invPow {orga b n : Itv K} {x : K} {k : ℕ} (hx : x ∈ orga) (hxb : x ^ k ∈ b)
    (hk : (k : K) ∈ n) (hb : k % 2 = 1 → b.inf ≠ pinf)
    (ho1 : ∀ q, b.sup = fin q → o.RootOKAt q k) (ho2 : ∀ q, b.inf = fin q → o.RootOKAt (-q) k)
    (ho0 : o.RootOKAt 0 k) :
    x ∈ invPow o orga b n := by
  unfold invPow
  rw [not_isBottom hxb, not_isBottom hk, not_isBottom hx]
  simp only [Bool.or_self, Bool.false_eq_true, if_false]
  cases h : expo n with
  | none => exact mem_top _
  | some m =>
    have := expo_spec h
    subst this
    rw [mem_point] at hk
    have : k = m := by exact_mod_cast hk
    subst this
    simp only
    split_ifs with h0 h1 h2
    · exact mem_top _
    · -- common computation
      by_cases hodd : k % 2 = 1
      · simp only [invPow.fix, if_pos hodd]
        have he : ¬ Even k := by rw [Nat.even_iff]; omega
        obtain ⟨i, s⟩ := b
        have a1 := hxb.1
        have a2 := hxb.2
        constructor
        · cases i with
          | ninf => simp at a1
          | pinf => simp at hb; omega
          | fin l =>
            simp [Bound.rootDn] at a1 ⊢
            exact (ho2 l rfl x (fun h => absurd h he)).1 (by linarith)
        · cases s with
          | ninf => simp at a2
          | pinf => simp [Bound.rootUp]
          | fin u =>
            simp [Bound.rootUp] at a2 ⊢
            exact (ho1 u rfl x (fun h => absurd h he)).2 (by linarith)
      · have he : Even k := by rw [Nat.even_iff]; omega
        have h1' : sgn b.inf ≤ 0 := by tauto
        rw [sgn_le_zero_iff] at h1'
        obtain ⟨l, hl, hl1, hl0⟩ := exists_fin_of_le hxb.1 h1'
        have key : |x| ∈ (⟨Bound.neg (Bound.rootDn o (Bound.neg b.inf) k), Bound.rootUp o b.sup k⟩ : Itv K) := by
          rw [← he.pow_abs] at hxb hl1
          constructor
          · rw [hl]; simp [Bound.rootDn]
            exact (ho2 l hl _ (fun _ => abs_nonneg x)).1 (by linarith)
          · have a2 := hxb.2
            cases hs : b.sup with
            | ninf => simp [hs] at a2
            | pinf => simp [Bound.rootUp]
            | fin u =>
              simp [Bound.rootUp, hs] at a2 ⊢
              exact (ho1 u hs _ (fun _ => abs_nonneg x)).2 (by linarith)
        exact mem_fix hx hodd key
    · exfalso
      rw [sgn_neg_iff] at h2
      have hodd : ¬ k % 2 = 1 := by tauto
      have he : Even k := by rw [Nat.even_iff]; omega
      have := neg_of_sup hxb h2
      have h3 : 0 ≤ x ^ k := he.pow_nonneg x
      linarith
    · have hodd : ¬ k % 2 = 1 := by tauto
      have he : Even k := by rw [Nat.even_iff]; omega
      have key : |x| ∈ (⟨Bound.neg (Bound.rootDn o (fin 0) k), Bound.rootUp o b.sup k⟩ : Itv K) := by
        rw [← he.pow_abs] at hxb
        constructor
        · simp [Bound.rootDn]
          exact (ho0 _ (fun _ => abs_nonneg x)).1 (by positivity)
        · have a2 := hxb.2
          cases hs : b.sup with
          | ninf => simp [hs] at a2
          | pinf => simp [Bound.rootUp]
          | fin u =>
            simp [Bound.rootUp, hs] at a2 ⊢
            exact (ho1 u hs _ (fun _ => abs_nonneg x)).2 (by linarith)
      exact mem_fix hx hodd key
where
  mem_fix {orga a : Itv K} {x : K} {k : ℕ} (hx : x ∈ orga) (hodd : ¬ k % 2 = 1) (key : |x| ∈ a) :
      x ∈ invPow.fix orga k a := by
    unfold invPow.fix
    rw [if_neg hodd]
    split_ifs with h1 h2
    · rw [sgn_le_zero_iff] at h1
      have := nonpos_of_sup hx h1
      rw [abs_of_nonpos this] at key
      have := mem_neg key
      simpa [neg] using this
    · have h3 := neg_abs_le x
      have h4 := le_abs_self x
      exact ⟨le_trans (by simp only [fin_le_fin]; linarith) key.2,
        le_trans (by simp only [fin_le_fin]; linarith) key.2⟩
    · rw [sgn_nonneg_iff, not_le] at h2
      have := pos_of_inf hx h2
      rwa [abs_of_pos this] at key
end

end Itv

/-! ### The GMP number layer -/

theorem mpq_sqrtOK : mpqRoots.SqrtOK := by
  intro q y hq hy
  have hd : (0 : ℚ) < q.den := by exact_mod_cast q.den_pos
  have hn : ((q.num.natAbs : ℕ) : ℚ) = q.num := by
    have h0 : 0 ≤ q.num := Rat.num_nonneg.2 hq
    have : ((q.num.natAbs : ℤ) : ℚ) = q.num := by rw [Int.natAbs_of_nonneg h0]
    rwa [Int.cast_natCast] at this
  have hqe : q * q.den = q.num := by
    rw [mul_comm]; exact Rat.den_mul_eq_num q
  set m := q.num.natAbs * q.den with hm
  have hmq : (m : ℚ) = q * q.den * q.den := by rw [hm]; push_cast; rw [hn, hqe]
  have s1 : (Nat.sqrt m : ℚ) * Nat.sqrt m ≤ m := by exact_mod_cast Nat.sqrt_le m
  have s2 : (m : ℚ) < (Nat.sqrt m + 1) * (Nat.sqrt m + 1) := by exact_mod_cast Nat.lt_succ_sqrt m
  have mono : ∀ u v : ℚ, 0 ≤ v → u * u ≤ v * v → u ≤ v := fun u v hv h => by
    by_contra hc; rw [not_le] at hc; nlinarith
  have e : y * q.den * (y * q.den) = y * y * (q.den * q.den) := by ring
  have e' : (m : ℚ) = q * (q.den * q.den) := by rw [hmq]; ring
  have hdd : (0 : ℚ) < q.den * q.den := by positivity
  constructor
  · intro h
    simp only [mpqRoots, ← hm]
    rw [div_le_iff₀ hd]
    apply mono _ _ (by positivity)
    rw [e]; have := mul_le_mul_of_nonneg_right h hdd.le; linarith
  · intro h
    simp only [mpqRoots, ← hm]
    rw [le_div_iff₀ hd]
    split_ifs with hp
    · apply mono _ _ (by positivity)
      have : (Nat.sqrt m : ℚ) * Nat.sqrt m = m := by exact_mod_cast hp
      rw [this, e, e']; exact mul_le_mul_of_nonneg_right h hdd.le
    · apply mono _ _ (by positivity)
      rw [e]; have := mul_le_mul_of_nonneg_right h hdd.le; linarith

theorem iroot_pow_le (m : ℕ) {n : ℕ} (hn : n ≠ 0) : iroot m n ^ n ≤ m := by
  unfold iroot
  have := Nat.findGreatest_spec (P := fun r => r ^ n ≤ m) (Nat.zero_le m) (by simp [hn])
  exact this

theorem lt_iroot_succ_pow (m : ℕ) {n : ℕ} (hn : n ≠ 0) : m < (iroot m n + 1) ^ n := by
  by_contra hc
  rw [not_lt] at hc
  have hle : iroot m n + 1 ≤ m := le_trans (Nat.le_self_pow hn _) hc
  have := Nat.le_findGreatest (P := fun r => r ^ n ≤ m) hle hc
  unfold iroot at this
  omega

theorem zroot_nonneg (b : ℤ) (hb : 0 ≤ b) {n : ℕ} (hn : n ≠ 0) :
    0 ≤ zrootDn b n ∧ zrootDn b n ^ n ≤ b ∧ 0 ≤ zrootUp b n ∧ b ≤ zrootUp b n ^ n := by
  have hb' : ¬ b < 0 := not_lt.2 hb
  have e : (b.natAbs : ℤ) = b := Int.natAbs_of_nonneg hb
  have h1 := iroot_pow_le b.natAbs hn
  have h2 := lt_iroot_succ_pow b.natAbs hn
  unfold zrootDn zrootUp
  simp only [if_neg hb']
  refine ⟨by positivity, ?_, ?_, ?_⟩
  · rw [← e]; exact_mod_cast h1
  · split_ifs <;> positivity
  · split_ifs with h
    · rw [← e]; exact_mod_cast h.ge
    · rw [← e]; exact_mod_cast h2.le

theorem zroot_den_pos (d : ℕ) (hd : 0 < d) {n : ℕ} (hn : n ≠ 0) :
    0 < zrootDn d n ∧ 0 < zrootUp d n := by
  have hb : (0 : ℤ) ≤ d := by positivity
  obtain ⟨h1, h2, h3, h4⟩ := zroot_nonneg d hb hn
  have h5 : 0 < zrootUp (d : ℤ) n := by
    rcases eq_or_lt_of_le h3 with h | h
    · rw [← h, zero_pow hn] at h4
      have : (0 : ℤ) < d := by exact_mod_cast hd
      omega
    · exact h
  refine ⟨?_, h5⟩
  have := Nat.le_findGreatest (P := fun r => r ^ n ≤ d) (m := 1) (n := d) hd (by simp; omega)
  simp only [zrootDn, if_neg (not_lt.2 hb), iroot, Int.natAbs_natCast]
  exact_mod_cast this

theorem mpq_rootOK_nonneg (q : ℚ) (hq : 0 ≤ q) {n : ℕ} (hn : n ≠ 0) : mpqRoots.RootOKAt q n := by
  intro y hy
  have hnum : 0 ≤ q.num := Rat.num_nonneg.2 hq
  have hd : (0 : ℚ) < q.den := by exact_mod_cast q.den_pos
  obtain ⟨a1, a2, a3, a4⟩ := zroot_nonneg q.num hnum hn
  obtain ⟨b1, b2, b3, b4⟩ := zroot_nonneg q.den (by positivity) hn
  obtain ⟨c1, c2⟩ := zroot_den_pos q.den q.den_pos hn
  have c1' : (0 : ℚ) < zrootDn q.den n := by exact_mod_cast c1
  have c2' : (0 : ℚ) < zrootUp q.den n := by exact_mod_cast c2
  have a1' : (0 : ℚ) ≤ zrootDn q.num n := by exact_mod_cast a1
  have a2' : (zrootDn q.num n : ℚ) ^ n ≤ q.num := by exact_mod_cast a2
  have a3' : (0 : ℚ) ≤ zrootUp q.num n := by exact_mod_cast a3
  have a4' : (q.num : ℚ) ≤ (zrootUp q.num n : ℚ) ^ n := by exact_mod_cast a4
  have b2' : (zrootDn q.den n : ℚ) ^ n ≤ q.den := by exact_mod_cast b2
  have b4' : (q.den : ℚ) ≤ (zrootUp q.den n : ℚ) ^ n := by exact_mod_cast b4
  have hqe : q * q.den = q.num := by rw [mul_comm]; exact Rat.den_mul_eq_num q
  constructor
  · intro h
    simp only [mpqRoots]
    have hy0 : 0 ≤ y := by
      rcases Nat.even_or_odd n with he | ho
      · exact hy he
      · exact ho.pow_nonneg_iff.1 (le_trans hq h)
    rw [div_le_iff₀ c2']
    refine le_of_pow_le_pow_left₀ hn (by positivity) ?_
    rw [mul_pow]
    calc (zrootDn q.num n : ℚ) ^ n ≤ q.num := a2'
      _ = q * q.den := hqe.symm
      _ ≤ y ^ n * (zrootUp q.den n : ℚ) ^ n := by gcongr
  · intro h
    simp only [mpqRoots]
    rw [le_div_iff₀ c1']
    rcases le_or_gt y 0 with hy0 | hy0
    · exact le_trans (mul_nonpos_of_nonpos_of_nonneg hy0 c1'.le) a3'
    refine le_of_pow_le_pow_left₀ hn a3' ?_
    rw [mul_pow]
    calc y ^ n * (zrootDn q.den n : ℚ) ^ n ≤ q * q.den := by gcongr
      _ = q.num := hqe
      _ ≤ _ := a4'

end Apron
