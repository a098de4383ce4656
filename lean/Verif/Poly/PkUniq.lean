import Verif.Poly.PkCanonOk
import Verif.Poly.PkLeq
import Mathlib.LinearAlgebra.Finsupp.LinearCombination
import Mathlib.Tactic.LinearCombination

/-!
# Uniqueness of the normal form of a polyhedral cone

Two minimal representations of the same cone, with reduced equalities and lines and with rows of gcd 1, have the same rows.
-/

set_option autoImplicit false
set_option linter.unusedSectionVars false

namespace Apron.Poly

variable {K : Type*} [LinearOrder K] [Field K] [IsStrictOrderedRing K] {d n : ℕ}

/-! ## Rows of gcd 1 -/

/-- the row is null or its coefficients have no common divisor -/
def PrimRow (d : ℕ) (q : Row) : Prop :=
  ∀ g : ℤ, (∀ j, j < d → g ∣ q.at' (j + 1)) → g ∣ 1 ∨ ∀ j, j < d → q.at' (j + 1) = 0

/-- the same coefficients, status apart -/
def SameRow (d : ℕ) (p q : Row) : Prop := ∀ j, j < d → p.at' (j + 1) = q.at' (j + 1)

theorem SameRow.symm {p q : Row} (h : SameRow d p q) : SameRow d q p := fun j hj => (h j hj).symm

theorem SameRow.trans {p q r : Row} (h : SameRow d p q) (h' : SameRow d q r) : SameRow d p r :=
  fun j hj => (h j hj).trans (h' j hj)

theorem toV_eq_iff {p q : Row} : toV K d p = toV K d q ↔ SameRow d p q := by
  constructor
  · intro h j hj
    have := congrFun h ⟨j, hj⟩
    simp only [toV] at this
    exact_mod_cast this
  · intro h
    funext i
    simp only [toV]
    rw [h i i.2]

theorem toV_eq_zero_iff {p : Row} : toV K d p = 0 ↔ ∀ j, j < d → p.at' (j + 1) = 0 := by
  constructor
  · intro h j hj
    have := congrFun h ⟨j, hj⟩
    simp only [toV, Pi.zero_apply] at this
    exact_mod_cast this
  · intro h
    funext i
    simp only [toV, Pi.zero_apply]
    rw [h i i.2, Int.cast_zero]

/-- proportional rows of gcd 1 are equal -/
theorem PrimRow.unique {p q : Row} (hp : PrimRow d p) (hq : PrimRow d q) {a b : K} (ha : 0 < a) (hb : 0 < b)
    (h : a • toV K d p = b • toV K d q) : SameRow d p q := by
  have hc : ∀ j, j < d → a * (p.at' (j + 1) : K) = b * (q.at' (j + 1) : K) := by
    intro j hj
    have := congrFun h ⟨j, hj⟩
    simpa [toV] using this
  by_cases hz : ∀ j, j < d → p.at' (j + 1) = 0
  · intro j hj
    have h1 := hc j hj
    rw [hz j hj, Int.cast_zero, mul_zero] at h1
    have : (q.at' (j + 1) : K) = 0 := by
      rcases mul_eq_zero.1 h1.symm with h | h
      · exact absurd h hb.ne'
      · exact h
    rw [hz j hj]
    exact_mod_cast this.symm
  · push Not at hz
    obtain ⟨j0, hj0, hne⟩ := hz
    have hpos : 0 < p.at' (j0 + 1) * q.at' (j0 + 1) := by
      have h1 := hc j0 hj0
      have hne' : (p.at' (j0 + 1) : K) ≠ 0 := by exact_mod_cast hne
      have h2 : (0 : K) < (p.at' (j0 + 1) : K) * (q.at' (j0 + 1) : K) := by
        have h3 : (0 : K) < a * ((p.at' (j0 + 1) : K) * (p.at' (j0 + 1) : K)) := mul_pos ha (mul_self_pos.2 hne')
        have h4 : a * ((p.at' (j0 + 1) : K) * (p.at' (j0 + 1) : K)) = b * ((p.at' (j0 + 1) : K) * (q.at' (j0 + 1) : K)) := by
          linear_combination (p.at' (j0 + 1) : K) * h1
        rw [h4] at h3
        exact (pos_iff_pos_of_mul_pos h3).1 hb
      exact_mod_cast h2
    set A := q.at' (j0 + 1) with hA
    set B := p.at' (j0 + 1) with hB
    have hcross : ∀ j, j < d → A * p.at' (j + 1) = B * q.at' (j + 1) := by
      intro j hj
      have h1 := hc j hj
      have h2 := hc j0 hj0
      have h3 : (a * b) * ((A : K) * (p.at' (j + 1) : K)) = (a * b) * ((B : K) * (q.at' (j + 1) : K)) := by
        rw [← hA, ← hB] at h2
        linear_combination b * (A : K) * h1 - b * (q.at' (j + 1) : K) * h2
      have h4 := mul_left_cancel₀ (mul_pos ha hb).ne' h3
      exact_mod_cast h4
    have hA0 : A ≠ 0 := fun h0 => by rw [h0, mul_zero] at hpos; exact lt_irrefl _ hpos
    have hB0 : B ≠ 0 := hne
    have hg : (0 : ℤ) < Int.gcd A B := by exact_mod_cast Int.gcd_pos_of_ne_zero_left B hA0
    obtain ⟨A', hA'⟩ : ((Int.gcd A B : ℕ) : ℤ) ∣ A := Int.gcd_dvd_left _ _
    obtain ⟨B', hB'⟩ : ((Int.gcd A B : ℕ) : ℤ) ∣ B := Int.gcd_dvd_right _ _
    have hcop : IsCoprime A' B' := by
      have h1 := Int.gcd_div_gcd_div_gcd (i := A) (j := B) (by exact_mod_cast hg)
      rw [Int.isCoprime_iff_gcd_eq_one]
      have e1 : A / (Int.gcd A B : ℤ) = A' := Int.ediv_eq_of_eq_mul_right hg.ne' hA'
      have e2 : B / (Int.gcd A B : ℤ) = B' := Int.ediv_eq_of_eq_mul_right hg.ne' hB'
      rwa [e1, e2] at h1
    have hred : ∀ j, j < d → A' * p.at' (j + 1) = B' * q.at' (j + 1) := by
      intro j hj
      refine mul_left_cancel₀ hg.ne' ?_
      calc (Int.gcd A B : ℤ) * (A' * p.at' (j + 1)) = ((Int.gcd A B : ℤ) * A') * p.at' (j + 1) := by ring
        _ = A * p.at' (j + 1) := by rw [← hA']
        _ = B * q.at' (j + 1) := hcross j hj
        _ = ((Int.gcd A B : ℤ) * B') * q.at' (j + 1) := by rw [← hB']
        _ = _ := by ring
    have uA : A' ∣ 1 := by
      rcases hq A' (fun j hj => hcop.dvd_of_dvd_mul_left (Dvd.intro _ (hred j hj))) with h | h
      · exact h
      · exact absurd (h j0 hj0) hA0
    have uB : B' ∣ 1 := by
      rcases hp B' (fun j hj => hcop.symm.dvd_of_dvd_mul_left (Dvd.intro _ (hred j hj).symm)) with h | h
      · exact h
      · exact absurd (h j0 hj0) hB0
    have hs : 0 < B' * A' := by
      have h1 : B * A = ((Int.gcd A B : ℤ) * (Int.gcd A B : ℤ)) * (B' * A') := by
        calc B * A = ((Int.gcd A B : ℤ) * B') * ((Int.gcd A B : ℤ) * A') := by rw [← hA', ← hB']
          _ = _ := by ring
      rw [h1] at hpos
      exact (pos_iff_pos_of_mul_pos hpos).1 (mul_pos hg hg)
    have hAB : A' = B' := by
      rcases Int.isUnit_iff.1 (isUnit_of_dvd_one uA) with h | h <;> rcases Int.isUnit_iff.1 (isUnit_of_dvd_one uB) with h' | h' <;>
        rw [h, h'] at hs ⊢ <;> simp at hs
    have hA1 : A' ≠ 0 := fun h0 => by rw [h0, mul_zero] at hs; exact lt_irrefl _ hs
    intro j hj
    have h1 := hred j hj
    rw [← hAB] at h1
    exact mul_left_cancel₀ hA1 h1

/-! ## Reduced systems of equalities -/

/-- every row of `E` has a leading column in which all the other rows are null -/
def Reduced (d : ℕ) (E rows : List Row) : Prop :=
  ∀ q ∈ E, ∃ c, c < d ∧ 0 < q.at' (c + 1) ∧ (∀ j, c < j → j < d → q.at' (j + 1) = 0) ∧
    ∀ r ∈ rows, r ≠ q → r.at' (c + 1) = 0

theorem Reduced.mono {E E' rows rows' : List Row} (h : Reduced d E rows) (hE : ∀ q ∈ E', q ∈ E) (hr : ∀ q ∈ rows', q ∈ rows) :
    Reduced d E' rows' := by
  intro q hq
  obtain ⟨c, h1, h2, h3, h4⟩ := h q (hE q hq)
  exact ⟨c, h1, h2, h3, fun r hr' => h4 r (hr r hr')⟩

/-- `c` is the leading column of a row of `E` -/
def IsPiv (d : ℕ) (E : List Row) (c : ℕ) : Prop :=
  ∃ q ∈ E, c < d ∧ 0 < q.at' (c + 1) ∧ (∀ j, c < j → j < d → q.at' (j + 1) = 0) ∧ ∀ r ∈ E, r ≠ q → r.at' (c + 1) = 0

theorem rowSpan_sum {E : List Row} {v : Fin d → K} (hv : v ∈ rowSpan K d E) :
    ∃ a : Row → K, v = ∑ q ∈ E.toFinset, a q • toV K d q := by
  have : lineSet K d E = toV K d '' (E.toFinset : Set Row) := by
    ext v
    simp only [lineSet, Set.mem_setOf_eq, Set.mem_image, List.coe_toFinset]
    constructor
    · rintro ⟨l, hl, rfl⟩; exact ⟨l, hl, rfl⟩
    · rintro ⟨l, hl, rfl⟩; exact ⟨l, hl, rfl⟩
  rw [rowSpan, this, Submodule.mem_span_image_finset_iff_exists_fun'] at hv
  obtain ⟨c, hc⟩ := hv
  exact ⟨c, hc.symm⟩

theorem sum_at {E : List Row} (a : Row → K) {c : ℕ} (hc : c < d) {q : Row} (hq : q ∈ E)
    (h : ∀ r ∈ E, r ≠ q → r.at' (c + 1) = 0) :
    (∑ r ∈ E.toFinset, a r • toV K d r) ⟨c, hc⟩ = a q * (q.at' (c + 1) : K) := by
  rw [Finset.sum_apply, Finset.sum_eq_single q]
  · simp [toV]
  · intro r hr hne
    have := h r (List.mem_toFinset.1 hr) hne
    simp [toV, this]
  · intro hn
    exact absurd (List.mem_toFinset.2 hq) hn

/-- a vector of the span that vanishes on the pivots is null -/
theorem Reduced.eq_zero {E : List Row} (h : Reduced d E E) {v : Fin d → K} (hv : v ∈ rowSpan K d E)
    (hz : ∀ c, ∀ hc : c < d, IsPiv d E c → v ⟨c, hc⟩ = 0) : v = 0 := by
  obtain ⟨a, rfl⟩ := rowSpan_sum hv
  refine Finset.sum_eq_zero fun q hq => ?_
  have hq' := List.mem_toFinset.1 hq
  obtain ⟨c, hc, hpos, hz1, hz2⟩ := h q hq'
  have h1 := hz c hc ⟨q, hq', hc, hpos, hz1, hz2⟩
  rw [sum_at a hc hq' hz2] at h1
  rcases mul_eq_zero.1 h1 with h2 | h2
  · rw [h2, zero_smul]
  · have : q.at' (c + 1) = 0 := by exact_mod_cast h2
    omega

/-- the leading column of a vector of the span is a pivot -/
theorem Reduced.lead {E : List Row} (h : Reduced d E E) {v : Fin d → K} (hv : v ∈ rowSpan K d E) {c : ℕ} (hc : c < d)
    (h0 : v ⟨c, hc⟩ ≠ 0) (hl : ∀ j, c < j → ∀ hj : j < d, v ⟨j, hj⟩ = 0) : IsPiv d E c := by
  obtain ⟨a, rfl⟩ := rowSpan_sum hv
  by_contra hn
  apply h0
  rw [Finset.sum_apply]
  refine Finset.sum_eq_zero fun q hq => ?_
  have hq' := List.mem_toFinset.1 hq
  obtain ⟨c', hc', hpos, hz1, hz2⟩ := h q hq'
  rcases lt_trichotomy c' c with hlt | heq | hgt
  · have := hz1 c hlt hc
    simp [toV, this]
  · subst heq
    exact absurd ⟨q, hq', hc', hpos, hz1, hz2⟩ hn
  · have h1 := hl c' hgt hc'
    rw [sum_at a hc' hq' hz2] at h1
    rcases mul_eq_zero.1 h1 with h2 | h2
    · rw [h2, zero_smul]; rfl
    · have : q.at' (c' + 1) = 0 := by exact_mod_cast h2
      omega

theorem Reduced.piv_sub {E E' : List Row} (h' : Reduced d E' E')
    (hs : rowSpan K d E ≤ rowSpan K d E') {c : ℕ} (hc : IsPiv d E c) : IsPiv d E' c := by
  obtain ⟨q, hq, hcd, hpos, hz, -⟩ := hc
  refine h'.lead (K := K) (hs (mem_rowSpan hq)) hcd ?_ fun j hj hjd => ?_
  · have : q.at' (c + 1) ≠ 0 := by omega
    simpa [toV] using this
  · have := hz j hj hjd
    simp [toV, this]

/-- the reduced form of a system of equalities is unique -/
theorem Reduced.unique {E E' : List Row} (h : Reduced d E E) (h' : Reduced d E' E') (hp : ∀ q ∈ E, PrimRow d q)
    (hp' : ∀ q ∈ E', PrimRow d q) (hs : rowSpan K d E = rowSpan K d E') : ∀ q ∈ E, ∃ q' ∈ E', SameRow d q q' := by
  intro q hq
  obtain ⟨c, hc, hpos, hz1, hz2⟩ := h q hq
  obtain ⟨q', hq', -, hpos', hz1', hz2'⟩ := h'.piv_sub hs.le ⟨q, hq, hc, hpos, hz1, hz2⟩
  refine ⟨q', hq', ?_⟩
  have hposK : (0 : K) < (q.at' (c + 1) : K) := by exact_mod_cast hpos
  have hposK' : (0 : K) < (q'.at' (c + 1) : K) := by exact_mod_cast hpos'
  have hw : (q'.at' (c + 1) : K) • toV K d q - (q.at' (c + 1) : K) • toV K d q' ∈ rowSpan K d E' :=
    Submodule.sub_mem _ (Submodule.smul_mem _ _ (hs ▸ mem_rowSpan hq)) (Submodule.smul_mem _ _ (mem_rowSpan hq'))
  have h0 := h'.eq_zero hw (by
    intro c2 hc2 hpiv
    by_cases hcc : c2 = c
    · subst hcc
      simp [toV]; ring
    · have hpivE := h.piv_sub hs.ge hpiv
      have e1 : q.at' (c2 + 1) = 0 := by
        obtain ⟨r, hr, -, hrpos, hrz, hrz2⟩ := hpivE
        refine hrz2 q hq ?_
        rintro rfl
        rcases lt_or_gt_of_ne hcc with hlt | hgt
        · have := hrz c hlt hc; omega
        · have := hz1 c2 hgt hc2; omega
      have e2 : q'.at' (c2 + 1) = 0 := by
        obtain ⟨r, hr, -, hrpos, hrz, hrz2⟩ := hpiv
        refine hrz2 q' hq' ?_
        rintro rfl
        rcases lt_or_gt_of_ne hcc with hlt | hgt
        · have := hrz c hlt hc; omega
        · have := hz1' c2 hgt hc2; omega
      simp [toV, e1, e2])
  exact (hp q hq).unique (hp' q' hq') hposK' hposK (sub_eq_zero.1 h0)

/-! ## Extreme rays -/

theorem DDL.anti_of_ne {con lines : List Row} {rays : List SRow} (h : DDL K d con lines rays) {x y : Row}
    (hx : x ∈ rays.map SRow.row) (hy : y ∈ rays.map SRow.row) (hne : x ≠ y) : Anti2 d con x y := by
  haveI : Std.Symm (Anti2 d con) := ⟨fun _ _ hab => hab.symm⟩
  exact h.anti.forall hx hy hne

/-- the vectors that saturate all the constraints that `r` saturates -/
def SatBy (con : List Row) (r : Row) (y : Fin d → K) : Prop := ∀ q ∈ con, vprod d q r = 0 → dot q y = 0

theorem satBy_add {con : List Row} {r x : Row} {v : Fin d → K} {t : K} (hv : ∀ q ∈ con, 0 ≤ dot q v)
    (hx : ∀ q ∈ con, 0 ≤ vprod d q x) (ht : 0 ≤ t) (h : SatBy con r (v + t • toV K d x)) :
    SatBy con r v ∧ (t = 0 ∨ SatBy con r (toV K d x)) := by
  have key : ∀ q ∈ con, vprod d q r = 0 → dot q v = 0 ∧ t * dot q (toV K d x) = 0 := by
    intro q hq h0
    have h1 := h q hq h0
    rw [← lin_apply, map_add, map_smul, lin_apply, lin_apply, smul_eq_mul] at h1
    have h2 := hv q hq
    have h3 : 0 ≤ dot q (toV K d x) := by rw [dot_toV]; exact_mod_cast hx q hq
    have h4 := mul_nonneg ht h3
    constructor <;> linarith
  refine ⟨fun q hq h0 => (key q hq h0).1, ?_⟩
  by_cases ht0 : t = 0
  · exact Or.inl ht0
  · refine Or.inr fun q hq h0 => ?_
    rcases mul_eq_zero.1 (key q hq h0).2 with h | h
    · exact absurd h ht0
    · exact h

theorem DDL.dot_nonneg {con lines : List Row} {rays : List SRow} (h : DDL K d con lines rays) {v : Fin d → K}
    (hg : Gen lines (rays.map SRow.row) v) : ∀ q ∈ con, 0 ≤ dot q v := fun q hq => by
  refine dot_nonneg_of_gen (fun l hl => h.line l hl q hq) (fun r hr => ?_) hg
  obtain ⟨x, hx, rfl⟩ := List.mem_map.1 hr
  exact (h.ray x hx q hq).1

/-- the face of an extreme ray -/
theorem DDL.face {con lines : List Row} {rays : List SRow} (h : DDL K d con lines rays) {r : Row}
    (hr : r ∈ rays.map SRow.row) {y : Fin d → K} (hg : Gen lines (rays.map SRow.row) y) (hy : SatBy con r y) :
    ∃ a : K, 0 ≤ a ∧ y - a • toV K d r ∈ rowSpan K d lines := by
  induction hg with
  | zero => exact ⟨0, le_rfl, by simp⟩
  | @line v l t hv hl ih =>
    obtain ⟨a, ha, hm⟩ := ih fun q hq h0 => by
      have := hy q hq h0
      rw [← lin_apply, map_add, map_smul, lin_apply, lin_apply, dot_toV, h.line l hl q hq] at this
      simpa using this
    refine ⟨a, ha, ?_⟩
    have : v + t • toV K d l - a • toV K d r = (v - a • toV K d r) + t • toV K d l := by abel
    rw [this]
    exact Submodule.add_mem _ hm (Submodule.smul_mem _ _ (mem_rowSpan hl))
  | @ray v x t hv hx ht ih =>
    obtain ⟨h1, h2⟩ := satBy_add (h.dot_nonneg hv) (fun q hq => by
      obtain ⟨x', hx', rfl⟩ := List.mem_map.1 hx
      exact (h.ray x' hx' q hq).1) ht hy
    obtain ⟨a, ha, hm⟩ := ih h1
    rcases h2 with h2 | h2
    · exact ⟨a, ha, by rwa [h2, zero_smul, add_zero]⟩
    · by_cases hxr : x = r
      · refine ⟨a + t, add_nonneg ha ht, ?_⟩
        have : v + t • toV K d x - (a + t) • toV K d r = v - a • toV K d r := by rw [hxr, add_smul]; abel
        rwa [this]
      · obtain ⟨q, hq, h3, h4⟩ := (h.anti_of_ne hr hx (Ne.symm hxr)).1
        have := h2 q hq h3
        rw [dot_toV] at this
        exact absurd (by exact_mod_cast this) h4

theorem exists_ray_of_gen {con lines rays : List Row} (hl : ∀ l ∈ lines, ∀ q ∈ con, vprod d q l = 0)
    (hr : ∀ x ∈ rays, ∀ q ∈ con, 0 ≤ vprod d q x) {S : Submodule K (Fin d → K)} (hS : ∀ l ∈ lines, toV K d l ∈ S) {r : Row}
    {y : Fin d → K} (hg : Gen lines rays y) (hy : SatBy con r y) :
    y ∈ S ∨ ∃ x ∈ rays, SatBy con r (toV K d x) ∧ toV K d x ∉ S := by
  induction hg with
  | zero => exact Or.inl (Submodule.zero_mem _)
  | @line v l t hv hl' ih =>
    rcases ih fun q hq h0 => by
      have := hy q hq h0
      rw [← lin_apply, map_add, map_smul, lin_apply, lin_apply, dot_toV, hl l hl' q hq] at this
      simpa using this with h1 | h1
    · exact Or.inl (Submodule.add_mem _ h1 (Submodule.smul_mem _ _ (hS l hl')))
    · exact Or.inr h1
  | @ray v x t hv hx ht ih =>
    obtain ⟨h1, h2⟩ := satBy_add (con := con) (r := r)
      (fun q hq => dot_nonneg_of_gen (fun l hl' => hl l hl' q hq) (fun z hz => hr z hz q hq) hv) (fun q hq => hr x hx q hq) ht hy
    rcases ih h1 with h3 | h3
    · rcases h2 with h2 | h2
      · left; rwa [h2, zero_smul, add_zero]
      · by_cases hx' : toV K d x ∈ S
        · exact Or.inl (Submodule.add_mem _ h3 (Submodule.smul_mem _ _ hx'))
        · exact Or.inr ⟨x, hx, h2, hx'⟩
    · exact Or.inr h3

theorem DDL.line_of_sat {con con' lines' : List Row} {rays' : List SRow}
    (h' : DDL K d con' lines' rays') (hs : ∀ y : Fin d → K, Sat con y ↔ Sat con' y) : ∀ l ∈ lines', ∀ q ∈ con, vprod d q l = 0 := by
  intro l hl q hq
  have h1 := ((hs _).2 ((h'.gen_iff (toV K d l)).2 (Gen.of_line hl)) q hq).1
  have h2 := ((hs _).2 ((h'.gen_iff (-toV K d l)).2 (Gen.of_neg_line hl)) q hq).1
  rw [← lin_apply, map_neg, lin_apply] at h2
  rw [dot_toV] at h1 h2
  have h3 : ((vprod d q l : ℤ) : K) = 0 := le_antisymm (by linarith) h1
  exact_mod_cast h3

theorem DDL.ray_of_sat {con con' lines' : List Row} {rays' : List SRow}
    (h' : DDL K d con' lines' rays') (hs : ∀ y : Fin d → K, Sat con y ↔ Sat con' y) :
    ∀ x ∈ rays'.map SRow.row, ∀ q ∈ con, 0 ≤ vprod d q x := by
  intro x hx q hq
  have h1 := ((hs _).2 ((h'.gen_iff (toV K d x)).2 (Gen.of_ray hx)) q hq).1
  rw [dot_toV] at h1
  exact_mod_cast h1

/-- the lineality spaces of equal cones are equal -/
theorem DDL.span_le {con con' lines lines' : List Row} {rays rays' : List SRow} (h : DDL K d con lines rays)
    (h' : DDL K d con' lines' rays') (hs : ∀ y : Fin d → K, Sat con y ↔ Sat con' y) : rowSpan K d lines' ≤ rowSpan K d lines := by
  refine rowSpan_le fun l hl => Gen.mem_rowSpan ((h.lin_iff _).1 fun q hq => ?_)
  rw [dot_toV, h'.line_of_sat hs l hl q hq, Int.cast_zero]

/-- the extreme rays are unique up to a positive factor, modulo the lines -/
theorem DDL.ray_unique {con con' lines lines' : List Row} {rays rays' : List SRow} (h : DDL K d con lines rays)
    (h' : DDL K d con' lines' rays') (hs : ∀ y : Fin d → K, Sat con y ↔ Sat con' y) {r : Row} (hr : r ∈ rays.map SRow.row) :
    ∃ x ∈ rays'.map SRow.row, ∃ a : K, 0 < a ∧ toV K d x - a • toV K d r ∈ rowSpan K d lines := by
  have hrS : toV K d r ∉ rowSpan K d lines := by
    intro hm
    obtain ⟨x, hx, rfl⟩ := List.mem_map.1 hr
    obtain ⟨q, hq, hne⟩ := h.proper x hx
    have h0 := (h.lin_iff (toV K d x.row)).2 (Gen.of_span hm) q hq
    rw [dot_toV] at h0
    exact hne (by exact_mod_cast h0)
  have hself : SatBy con r (toV K d r) := fun q hq h0 => by rw [dot_toV, h0, Int.cast_zero]
  have hgr : Gen lines (rays.map SRow.row) (toV K d r) := by
    have := Gen.ray (K := K) (d := d) (lines := lines) (1 : K) Gen.zero hr zero_le_one
    simpa using this
  have hgr' : Gen lines' (rays'.map SRow.row) (toV K d r) := h'.gen _ ((hs _).1 ((h.gen_iff _).2 hgr))
  rcases exists_ray_of_gen (S := rowSpan K d lines) (h'.line_of_sat hs) (h'.ray_of_sat hs)
    (fun l hl => h.span_le h' hs (mem_rowSpan hl)) hgr' hself with h1 | ⟨x, hx, hxs, hxn⟩
  · exact absurd h1 hrS
  · have hgx : Gen lines (rays.map SRow.row) (toV K d x) := by
      refine h.gen _ ((hs _).2 ((h'.gen_iff _).2 ?_))
      have := Gen.ray (K := K) (d := d) (lines := lines') (1 : K) Gen.zero hx zero_le_one
      simpa using this
    obtain ⟨a, ha, hm⟩ := h.face hr hgx hxs
    refine ⟨x, hx, a, lt_of_le_of_ne ha ?_, hm⟩
    rintro rfl
    exact hxn (by simpa using hm)

end Apron.Poly
