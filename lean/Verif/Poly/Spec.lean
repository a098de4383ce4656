import Verif.Poly.Defs
import Verif.Poly.Cone
import Mathlib.Algebra.BigOperators.Fin
import Mathlib.Algebra.BigOperators.Pi

/-!
# Vectors of the polyhedra library: specification and basic lemmas

Constraints and generators of a cone of dimension `d` are rows with `d + 1` columns; column 0 is the status:
0 for an equality or a line, anything else for an inequality or a ray.
-/

set_option autoImplicit false
set_option linter.unusedSectionVars false

namespace Apron.Poly

variable {K : Type*} [LinearOrder K] [Field K] [IsStrictOrderedRing K] {d : ℕ}

/-- the vector of a row -/
def toV (K : Type*) [Field K] (d : ℕ) (q : Row) : Fin d → K := fun j => ((q.at' (j + 1) : ℤ) : K)

/-- the value of a row, seen as a linear form, at a point -/
def dot (q : Row) (x : Fin d → K) : K := ∑ j : Fin d, ((q.at' (j + 1) : ℤ) : K) * x j

/-- `x` satisfies all the constraints of the matrix -/
def Sat (C : List Row) (x : Fin d → K) : Prop :=
  ∀ q ∈ C, 0 ≤ dot q x ∧ (q.at' 0 = 0 → dot q x = 0)

/-- `x` is a sum of lines with any coefficients and of rays with non-negative coefficients -/
inductive Gen (lines rays : List Row) : (Fin d → K) → Prop
  | zero : Gen lines rays 0
  | line {x : Fin d → K} {l : Row} (t : K) : Gen lines rays x → l ∈ lines → Gen lines rays (x + t • toV K d l)
  | ray {x : Fin d → K} {r : Row} (t : K) : Gen lines rays x → r ∈ rays → 0 ≤ t → Gen lines rays (x + t • toV K d r)

/-! ## Rows -/

theorem at_ofFun (n : ℕ) (f : ℕ → ℤ) (j : ℕ) : (Row.ofFun n f).at' j = if j < n then f j else 0 := by
  simp only [Row.at', Row.ofFun, List.getD_eq_getElem?_getD, List.getElem?_map]
  by_cases h : j < n
  · rw [List.getElem?_range h, if_pos h]; rfl
  · rw [List.getElem?_eq_none (by simpa using h), if_neg h]; rfl

@[simp] theorem at_setStatus_zero (q : Row) (v : ℤ) : (q.setStatus v).at' 0 = v := rfl

@[simp] theorem at_setStatus_succ (q : Row) (v : ℤ) (j : ℕ) : (q.setStatus v).at' (j + 1) = q.at' (j + 1) := by
  cases q <;> simp [Row.setStatus, Row.at']

@[simp] theorem at_neg (q : Row) (j : ℕ) : q.neg.at' j = - q.at' j := by
  simp only [Row.at', Row.neg, List.getD_eq_getElem?_getD, List.getElem?_map]
  cases q[j]? <;> simp

/-! ## The gcd of a vector -/

/-- the gcd of a list -/
def lgcd (v : List ℕ) : ℕ := v.foldr Nat.gcd 0

theorem dvd_lgcd {v : List ℕ} {e : ℕ} : e ∣ lgcd v ↔ ∀ a ∈ v, e ∣ a := by
  induction v with
  | nil => simp [lgcd]
  | cons a v ih =>
    have : lgcd (a :: v) = Nat.gcd a (lgcd v) := rfl
    rw [this, Nat.dvd_gcd_iff, ih]; simp

theorem minNotZero_none {v : List ℕ} : minNotZero v = none ↔ ∀ a ∈ v, a = 0 := by
  induction v with
  | nil => simp [minNotZero]
  | cons a v ih =>
    rw [minNotZero]
    cases hm : minNotZero v with
    | none =>
      simp only [hm, true_iff] at ih
      by_cases ha : a = 0
      · simp only [ha, if_true, List.mem_cons, forall_eq_or_imp, true_and, true_iff]; exact ih
      · simp [ha]
    | some p =>
      obtain ⟨m, i⟩ := p
      simp only [hm, reduceCtorEq, false_iff] at ih
      constructor
      · intro h
        dsimp only at h
        split_ifs at h
      · intro h
        exact absurd (fun a ha => h a (List.mem_cons_of_mem _ ha)) ih

theorem minNotZero_some {v : List ℕ} {g i : ℕ} (h : minNotZero v = some (g, i)) :
    0 < g ∧ v[i]? = some g := by
  induction v generalizing g i with
  | nil => simp [minNotZero] at h
  | cons a v ih =>
    rw [minNotZero] at h
    cases hm : minNotZero v with
    | none =>
      rw [hm] at h
      dsimp only at h
      by_cases ha : a = 0
      · rw [if_pos ha] at h; simp at h
      · rw [if_neg ha] at h
        simp only [Option.some.injEq, Prod.mk.injEq] at h
        obtain ⟨rfl, rfl⟩ := h
        exact ⟨Nat.pos_of_ne_zero ha, rfl⟩
    | some p =>
      obtain ⟨m, j⟩ := p
      rw [hm] at h
      dsimp only at h
      by_cases ha : a ≠ 0 ∧ a ≤ m
      · rw [if_pos ha] at h
        simp only [Option.some.injEq, Prod.mk.injEq] at h
        obtain ⟨rfl, rfl⟩ := h
        exact ⟨Nat.pos_of_ne_zero ha.1, rfl⟩
      · rw [if_neg ha] at h
        simp only [Option.some.injEq, Prod.mk.injEq] at h
        obtain ⟨rfl, rfl⟩ := h
        obtain ⟨h1, h2⟩ := ih hm
        exact ⟨h1, by simpa using h2⟩

theorem minNotZero_le {v : List ℕ} {g i : ℕ} (h : minNotZero v = some (g, i)) : ∀ a ∈ v, a ≠ 0 → g ≤ a := by
  induction v generalizing g i with
  | nil => simp
  | cons a v ih =>
    rw [minNotZero] at h
    intro b hb hb0
    cases hm : minNotZero v with
    | none =>
      have h0 := minNotZero_none.1 hm
      rw [hm] at h
      dsimp only at h
      by_cases ha : a = 0
      · rw [if_pos ha] at h; simp at h
      · rw [if_neg ha] at h
        simp only [Option.some.injEq, Prod.mk.injEq] at h
        rcases List.mem_cons.1 hb with rfl | hb
        · exact h.1.ge
        · exact absurd (h0 b hb) hb0
    | some p =>
      obtain ⟨m, j⟩ := p
      rw [hm] at h
      dsimp only at h
      have := ih hm
      by_cases ha : a ≠ 0 ∧ a ≤ m
      · rw [if_pos ha] at h
        simp only [Option.some.injEq, Prod.mk.injEq] at h
        obtain ⟨rfl, rfl⟩ := h
        rcases List.mem_cons.1 hb with rfl | hb
        · exact le_rfl
        · exact ha.2.trans (this b hb hb0)
      · rw [if_neg ha] at h
        simp only [Option.some.injEq, Prod.mk.injEq] at h
        obtain ⟨rfl, rfl⟩ := h
        rcases List.mem_cons.1 hb with rfl | hb
        · by_contra hc
          exact ha ⟨hb0, by omega⟩
        · exact this b hb hb0

theorem sum_mapIdx_le (v : List ℕ) (f : ℕ → ℕ → ℕ) (hf : ∀ i a, f i a ≤ a) : (v.mapIdx f).sum ≤ v.sum := by
  induction v generalizing f with
  | nil => simp
  | cons a v ih =>
    rw [List.mapIdx_cons, List.sum_cons, List.sum_cons]
    exact Nat.add_le_add (hf 0 a) (ih _ fun i a => hf (i + 1) a)

theorem sum_mapIdx_lt (v : List ℕ) (f : ℕ → ℕ → ℕ) (hf : ∀ i a, f i a ≤ a) (hlt : ∃ i, ∃ h : i < v.length, f i v[i] < v[i]) :
    (v.mapIdx f).sum < v.sum := by
  induction v generalizing f with
  | nil => obtain ⟨i, h, _⟩ := hlt; simp at h
  | cons a v ih =>
    rw [List.mapIdx_cons, List.sum_cons, List.sum_cons]
    obtain ⟨i, h, hi⟩ := hlt
    cases i with
    | zero => exact Nat.add_lt_add_of_lt_of_le hi (sum_mapIdx_le v _ fun i a => hf (i + 1) a)
    | succ i =>
      refine Nat.add_lt_add_of_le_of_lt (hf 0 a) (ih _ (fun i a => hf (i + 1) a) ⟨i, ?_, ?_⟩)
      · simpa using h
      · simpa using hi

/-- the loop of `vector_gcd` computes the gcd -/
theorem gcdLoop_eq (n : ℕ) (v : List ℕ) (hn : v.sum < n) : gcdLoop n v = lgcd v := by
  induction n generalizing v with
  | zero => omega
  | succ n ih =>
    rw [gcdLoop]
    cases hm : minNotZero v with
    | none =>
      dsimp only
      have h0 := minNotZero_none.1 hm
      symm
      apply Nat.eq_zero_of_zero_dvd
      rw [dvd_lgcd]
      exact fun a ha => (h0 a ha).symm ▸ dvd_rfl
    | some p =>
      obtain ⟨g, index⟩ := p
      dsimp only
      obtain ⟨hg, hi⟩ := minNotZero_some hm
      have hle := minNotZero_le hm
      obtain ⟨hil, hig⟩ := List.getElem?_eq_some_iff.1 hi
      set f : ℕ → ℕ → ℕ := fun i a => if i ≠ index then a % g else a with hf
      have hgcd : lgcd (v.mapIdx f) = lgcd v := by
        apply Nat.dvd_antisymm
        · rw [dvd_lgcd]
          have h1 : ∀ a ∈ v.mapIdx f, lgcd (v.mapIdx f) ∣ a := dvd_lgcd.1 dvd_rfl
          have hgd : lgcd (v.mapIdx f) ∣ g := h1 g (by
            rw [List.mem_mapIdx]; exact ⟨index, hil, by simp [hf, hig]⟩)
          intro a ha
          obtain ⟨i, hi', rfl⟩ := List.getElem_of_mem ha
          by_cases he : i = index
          · subst he; rw [hig]; exact hgd
          · have := h1 (v[i] % g) (by rw [List.mem_mapIdx]; exact ⟨i, hi', by simp [hf, he]⟩)
            exact (Nat.dvd_mod_iff hgd).1 this
        · rw [dvd_lgcd]
          have h1 : ∀ a ∈ v, lgcd v ∣ a := dvd_lgcd.1 dvd_rfl
          have hgd : lgcd v ∣ g := h1 g (hig ▸ List.getElem_mem hil)
          intro a ha
          rw [List.mem_mapIdx] at ha
          obtain ⟨i, hi', rfl⟩ := ha
          simp only [hf]
          split_ifs
          · exact (Nat.dvd_mod_iff hgd).2 (h1 _ (List.getElem_mem hi'))
          · exact h1 _ (List.getElem_mem hi')
      split_ifs with hany
      · rw [ih, hgcd]
        refine lt_of_lt_of_le (sum_mapIdx_lt v f (fun i a => ?_) ?_) (by omega)
        · simp only [hf]; split_ifs
          · exact Nat.mod_le _ _
          · exact le_rfl
        · rw [List.any_eq_true] at hany
          obtain ⟨a, ha, ha0⟩ := hany
          rw [List.mem_eraseIdx_iff_getElem] at ha
          obtain ⟨i, hi', hne, rfl⟩ := ha
          rw [List.length_mapIdx] at hi'
          rw [List.getElem_mapIdx] at ha0
          refine ⟨i, hi', ?_⟩
          simp only [hf, ne_eq, hne, not_false_eq_true, if_true, decide_eq_true_eq] at ha0 ⊢
          have hvi : v[i] ≠ 0 := fun h0 => ha0 (by rw [h0]; exact Nat.zero_mod _)
          have := hle _ (List.getElem_mem hi') hvi
          exact lt_of_lt_of_le (Nat.mod_lt _ hg) this
      · rw [← hgcd]
        simp only [List.any_eq_true, not_exists, not_and, decide_eq_true_eq, not_not] at hany
        apply Nat.dvd_antisymm
        · rw [dvd_lgcd]
          intro a ha
          rw [List.mem_mapIdx] at ha
          obtain ⟨i, hi', rfl⟩ := ha
          by_cases he : i = index
          · subst he; simp [hf, hig]
          · have := hany (f i v[i]) (by
              rw [List.mem_eraseIdx_iff_getElem]
              exact ⟨i, by simpa using hi', he, by rw [List.getElem_mapIdx]⟩)
            rw [this]; exact dvd_zero _
        · exact dvd_lgcd.1 dvd_rfl g (by rw [List.mem_mapIdx]; exact ⟨index, hil, by simp [hf, hig]⟩)

theorem vectorGcd_eq (q : List ℤ) : vectorGcd q = lgcd (q.map Int.natAbs) :=
  gcdLoop_eq _ _ (Nat.lt_succ_self _)

theorem dvd_vectorGcd (q : List ℤ) : ∀ a ∈ q, (vectorGcd q : ℤ) ∣ a := by
  intro a ha
  rw [Int.natCast_dvd, vectorGcd_eq]
  exact dvd_lgcd.1 dvd_rfl _ (List.mem_map_of_mem ha)

/-! ## Normalisation and combination -/

/-- normalisation divides the columns from 1 on by a positive number -/
theorem normalize_spec (q : Row) (size : ℕ) (hq : ∀ j, size ≤ j → q.at' j = 0) :
    (normalize q size).at' 0 = q.at' 0 ∧ ∃ g : ℤ, 0 < g ∧ ∀ j, g * (normalize q size).at' (j + 1) = q.at' (j + 1) := by
  rw [normalize]
  split_ifs with h
  · refine ⟨?_, (vectorGcd ((List.range (size - 1)).map fun j => q.at' (j + 1)) : ℤ), by omega, fun j => ?_⟩
    · rw [at_ofFun]
      by_cases h0 : 0 < size
      · rw [if_pos h0, if_pos rfl]
      · rw [if_neg h0, hq 0 (by omega)]
    · rw [at_ofFun]
      by_cases h1 : j + 1 < size
      · rw [if_pos h1, if_neg (by omega)]
        refine Int.mul_ediv_cancel' (dvd_vectorGcd _ _ ?_)
        exact List.mem_map.2 ⟨j, by rw [List.mem_range]; omega, rfl⟩
      · rw [if_neg h1, mul_zero, hq _ (by omega)]
  · exact ⟨rfl, 1, one_pos, fun j => one_mul _⟩

theorem combine_spec (q1 q2 q3 : Row) (k size : ℕ) (hk : q1.at' k ≠ 0 ∨ q2.at' k ≠ 0) :
    (vectorCombine q1 q2 q3 k size).at' 0 = (if k = 0 ∨ size = 0 then 0 else q3.at' 0) ∧
    ∃ g : ℤ, 0 < g ∧ ∀ j, j + 1 < size →
      g * (vectorCombine q1 q2 q3 k size).at' (j + 1) = q2.at' k * q1.at' (j + 1) - q1.at' k * q2.at' (j + 1) := by
  rw [vectorCombine]
  obtain ⟨h0, g, hg, h⟩ := normalize_spec (Row.ofFun size fun j =>
    if j = k then 0 else if j = 0 then q3.at' 0 else
      q2.at' k / (Int.gcd (q1.at' k) (q2.at' k)) * q1.at' j - q1.at' k / (Int.gcd (q1.at' k) (q2.at' k)) * q2.at' j) size
    (fun j hj => by rw [at_ofFun, if_neg (by omega)])
  have hG : 0 < (Int.gcd (q1.at' k) (q2.at' k) : ℤ) := by
    have : Int.gcd (q1.at' k) (q2.at' k) ≠ 0 := by
      rw [Ne, Int.gcd_eq_zero_iff]; tauto
    omega
  refine ⟨?_, g * Int.gcd (q1.at' k) (q2.at' k), mul_pos hg hG, fun j hj => ?_⟩
  · rw [h0, at_ofFun]
    by_cases hs : size = 0
    · simp [hs]
    · by_cases hk0 : k = 0
      · subst hk0; simp
      · rw [if_pos (by omega), if_neg (by omega), if_pos rfl, if_neg (by tauto)]
  · have e := h j
    rw [at_ofFun, if_pos hj] at e
    rw [mul_right_comm, e]
    by_cases hjk : j + 1 = k
    · rw [if_pos hjk, hjk]; ring
    · rw [if_neg hjk, if_neg (by omega)]
      have e1 := Int.mul_ediv_cancel' (Int.gcd_dvd_left (q1.at' k) (q2.at' k))
      have e2 := Int.mul_ediv_cancel' (Int.gcd_dvd_right (q1.at' k) (q2.at' k))
      generalize (Int.gcd (q1.at' k) (q2.at' k) : ℤ) = G at *
      calc _ = (G * (q2.at' k / G)) * q1.at' (j + 1) - (G * (q1.at' k / G)) * q2.at' (j + 1) := by ring
        _ = _ := by rw [e1, e2]

/-! ## Products -/

theorem vprod_eq (q1 q2 : Row) : vprod d q1 q2 = ∑ j : Fin d, q1.at' (j + 1) * q2.at' (j + 1) := by
  rw [vprod, Fin.sum_univ_eq_sum_range (fun j => q1.at' (j + 1) * q2.at' (j + 1))]
  induction d with
  | zero => rfl
  | succ d ih => rw [List.sum_range_succ, Finset.sum_range_succ, ih]

theorem vprod_comm (q1 q2 : Row) : vprod d q1 q2 = vprod d q2 q1 := by
  rw [vprod_eq, vprod_eq]; exact Finset.sum_congr rfl fun j _ => mul_comm _ _

theorem vprod_congr {q r r' : Row} (h : ∀ j, j < d → r.at' (j + 1) = r'.at' (j + 1)) : vprod d q r = vprod d q r' := by
  rw [vprod_eq, vprod_eq]; exact Finset.sum_congr rfl fun j _ => by rw [h j j.2]

@[simp] theorem vprod_setStatus (q r : Row) (v : ℤ) : vprod d q (r.setStatus v) = vprod d q r :=
  vprod_congr fun j _ => at_setStatus_succ r v j

@[simp] theorem vprod_neg (q r : Row) : vprod d q r.neg = - vprod d q r := by
  rw [vprod_eq, vprod_eq, ← Finset.sum_neg_distrib]
  exact Finset.sum_congr rfl fun j _ => by rw [at_neg]; ring

theorem vprod_lin {q r r1 r2 : Row} {g a b : ℤ} (h : ∀ j, j < d → g * r.at' (j + 1) = a * r1.at' (j + 1) - b * r2.at' (j + 1)) :
    g * vprod d q r = a * vprod d q r1 - b * vprod d q r2 := by
  rw [vprod_eq, vprod_eq, vprod_eq, Finset.mul_sum, Finset.mul_sum, Finset.mul_sum, ← Finset.sum_sub_distrib]
  refine Finset.sum_congr rfl fun j _ => ?_
  calc _ = q.at' (j + 1) * (g * r.at' (j + 1)) := by ring
    _ = _ := by rw [h j j.2]; ring

@[simp] theorem toV_setStatus (q : Row) (v : ℤ) : toV K d (q.setStatus v) = toV K d q := by
  funext j; simp [toV]

theorem toV_lin {r r1 r2 : Row} {g a b : ℤ} (h : ∀ j, j < d → g * r.at' (j + 1) = a * r1.at' (j + 1) - b * r2.at' (j + 1)) :
    (g : K) • toV K d r = (a : K) • toV K d r1 - (b : K) • toV K d r2 := by
  funext j
  simp only [toV, Pi.smul_apply, Pi.sub_apply, smul_eq_mul]
  exact_mod_cast h j j.2

theorem toV_neg (q : Row) : toV K d q.neg = - toV K d q := by
  funext j; simp [toV]

theorem dot_toV (q r : Row) : dot q (toV K d r) = ((vprod d q r : ℤ) : K) := by
  rw [vprod_eq]; push_cast; rfl

@[simp] theorem dot_setStatus (q : Row) (v : ℤ) (x : Fin d → K) : dot (q.setStatus v) x = dot q x := by
  simp [dot]

/-- a row as a linear form -/
def lin (K : Type*) [Field K] (d : ℕ) (q : Row) : (Fin d → K) →ₗ[K] K where
  toFun x := dot q x
  map_add' x y := by simp [dot, mul_add, Finset.sum_add_distrib]
  map_smul' t x := by
    simp only [dot, Pi.smul_apply, smul_eq_mul, RingHom.id_apply, Finset.mul_sum]
    exact Finset.sum_congr rfl fun j _ => by ring

@[simp] theorem lin_apply (q : Row) (x : Fin d → K) : lin K d q x = dot q x := rfl

/-! ## Generated cones -/

section Gen
variable {lines rays : List Row}

theorem Gen.add {x y : Fin d → K} (hx : Gen lines rays x) (hy : Gen lines rays y) : Gen lines rays (x + y) := by
  induction hy with
  | zero => rwa [add_zero]
  | line t _ hl ih => rw [← add_assoc]; exact .line t ih hl
  | ray t _ hr ht ih => rw [← add_assoc]; exact .ray t ih hr ht

theorem Gen.smul {x : Fin d → K} {t : K} (ht : 0 ≤ t) (hx : Gen lines rays x) : Gen lines rays (t • x) := by
  induction hx with
  | zero => rw [smul_zero]; exact .zero
  | line s _ hl ih => rw [smul_add, smul_smul]; exact .line _ ih hl
  | ray s _ hr hs ih => rw [smul_add, smul_smul]; exact .ray _ ih hr (mul_nonneg ht hs)

theorem Gen.isCone : IsCone (K := K) (Gen (K := K) (d := d) lines rays) := ⟨.zero, Gen.add, Gen.smul⟩

theorem Gen.of_line {l : Row} (hl : l ∈ lines) : Gen lines rays (toV K d l) := by
  have := Gen.line (K := K) (d := d) (rays := rays) 1 .zero hl
  rwa [one_smul, zero_add] at this

theorem Gen.of_ray {r : Row} (hr : r ∈ rays) : Gen lines rays (toV K d r) := by
  have := Gen.ray (K := K) (d := d) (lines := lines) 1 .zero hr zero_le_one
  rwa [one_smul, zero_add] at this

theorem Gen.of_neg_line {l : Row} (hl : l ∈ lines) : Gen lines rays (-toV K d l) := by
  have := Gen.line (K := K) (d := d) (rays := rays) (-1) .zero hl
  rwa [neg_smul, one_smul, zero_add] at this

theorem Gen.of_span {x : Fin d → K} (hx : x ∈ Submodule.span K {v | ∃ l ∈ lines, v = toV K d l}) : Gen lines rays x := by
  refine And.left (b := Gen lines rays (-x)) ?_
  induction hx using Submodule.span_induction with
  | mem x h => obtain ⟨l, hl, rfl⟩ := h; exact ⟨.of_line hl, .of_neg_line hl⟩
  | zero => rw [neg_zero]; exact ⟨.zero, .zero⟩
  | add x y _ _ hx hy => rw [neg_add]; exact ⟨hx.1.add hy.1, hx.2.add hy.2⟩
  | smul a x _ hx =>
    rcases le_total 0 a with ha | ha
    · rw [← smul_neg]; exact ⟨hx.1.smul ha, hx.2.smul ha⟩
    · have h1 := hx.1.smul (neg_nonneg.2 ha)
      have h2 := hx.2.smul (neg_nonneg.2 ha)
      rw [neg_smul, smul_neg, neg_neg] at h2
      rw [neg_smul] at h1
      exact ⟨h2, h1⟩

/-- every set closed under the operations of a cone that contains the generators contains what they generate -/
theorem Gen.le {G : (Fin d → K) → Prop} (hG : IsCone (K := K) G) (hl : ∀ l ∈ lines, G (toV K d l) ∧ G (-toV K d l))
    (hr : ∀ r ∈ rays, G (toV K d r)) {x : Fin d → K} (hx : Gen lines rays x) : G x := by
  induction hx with
  | zero => exact hG.zero
  | line t _ h ih =>
    refine hG.add ih ?_
    rcases le_total 0 t with ht | ht
    · exact hG.smul ht (hl _ h).1
    · have := hG.smul (t := -t) (neg_nonneg.2 ht) (hl _ h).2
      rwa [smul_neg, neg_smul, neg_neg] at this
  | ray t _ h ht ih => exact hG.add ih (hG.smul ht (hr _ h))

end Gen

end Apron.Poly
