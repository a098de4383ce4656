import Verif.Fpp.Hull
import Verif.Props.FppElim

/-!
# C158: fppol, the join contains the convex hull
-/

set_option autoImplicit false
set_option linter.unusedSectionVars false
set_option linter.ambiguousOpen false

namespace Apron.Props

open Apron.Fpp

variable {K : Type*} [Field K] [LinearOrder K] [IsStrictOrderedRing K]

/-- The point `(x, y, s)` of `2 n + 1` variables. -/
def hullPt (n : ℕ) (x y : ℕ → K) (s : K) : ℕ → K :=
  fun j => if j < n then x j else if j < 2 * n then y (j - n) else s

/-- The value of the linear part of a row over `n` variables. -/
def lin (n : ℕ) (a ρ : ℕ → K) : K := ∑ k ∈ Finset.range n, a k * ρ k

theorem fsat_hull {n : ℕ} {c : K} {a x y : ℕ → K} {s : K} :
    FSat (2 * n + 1) c a (hullPt n x y s) ↔
      lin n a x + lin n (fun k => a (n + k)) y + a (2 * n) * s ≤ c := by
  unfold FSat lin
  rw [Finset.sum_range_succ, two_mul, Finset.sum_range_add]
  have e1 : ∑ k ∈ Finset.range n, a k * hullPt n x y s k = ∑ k ∈ Finset.range n, a k * x k := by
    apply Finset.sum_congr rfl
    intro k hk
    have := Finset.mem_range.1 hk
    simp [hullPt, this]
  have e2 : ∑ k ∈ Finset.range n, a (n + k) * hullPt n x y s (n + k) =
      ∑ k ∈ Finset.range n, a (n + k) * y k := by
    apply Finset.sum_congr rfl
    intro k hk
    have h1 := Finset.mem_range.1 hk
    have h2 : n + k < 2 * n := by omega
    simp [hullPt, h2]
  have e3 : hullPt n x y s (n + n) = s := by
    have h2 : ¬ n + n < 2 * n := by omega
    simp [hullPt, h2]
  rw [e1, e2, e3]

theorem lin_congr {n : ℕ} {a b ρ : ℕ → K} (h : ∀ k, k < n → a k = b k) : lin n a ρ = lin n b ρ :=
  Finset.sum_congr rfl fun k hk => by rw [h k (Finset.mem_range.1 hk)]

theorem hull_row1 {n : ℕ} {r : FRow K} {x y : ℕ → K} {s : K} :
    FSat (2 * n + 1) (hullRow1 n r).1 (hullRow1 n r).2 (hullPt n x y s) ↔ lin n r.2 y ≤ r.1 * s := by
  rw [fsat_hull]
  have e1 : lin n (hullRow1 n r).2 x = 0 := by
    rw [lin_congr (b := fun _ => 0) (fun k hk => by simp [hullRow1, hk])]
    simp [lin]
  have e2 : lin n (fun k => (hullRow1 n r).2 (n + k)) y = lin n r.2 y :=
    lin_congr fun k hk => by
      have : n + k < 2 * n := by omega
      simp [hullRow1, this]
  have e3 : (hullRow1 n r).2 (2 * n) = -r.1 := by
    have : ¬ 2 * n < n := by omega
    simp [hullRow1, this]
  rw [e1, e2, e3]
  simp only [hullRow1]
  constructor <;> intro h <;> linarith

theorem lin_neg {n : ℕ} {a ρ : ℕ → K} : lin n (fun k => -(a k)) ρ = -(lin n a ρ) := by
  unfold lin
  rw [← Finset.sum_neg_distrib]
  apply Finset.sum_congr rfl
  intros; ring

theorem hull_row2 {n : ℕ} {r : FRow K} {x y : ℕ → K} {s : K} :
    FSat (2 * n + 1) (hullRow2 n r).1 (hullRow2 n r).2 (hullPt n x y s) ↔
      lin n r.2 x - lin n r.2 y ≤ r.1 * (1 - s) := by
  rw [fsat_hull]
  have e1 : lin n (hullRow2 n r).2 x = lin n r.2 x :=
    lin_congr fun k hk => by simp [hullRow2, hk]
  have e2 : lin n (fun k => (hullRow2 n r).2 (n + k)) y = -(lin n r.2 y) := by
    rw [← lin_neg]
    exact lin_congr fun k hk => by
      have : n + k < 2 * n := by omega
      simp [hullRow2, this]
  have e3 : (hullRow2 n r).2 (2 * n) = r.1 := by
    have : ¬ 2 * n < n := by omega
    simp [hullRow2, this]
  rw [e1, e2, e3]
  simp only [hullRow2]
  constructor <;> intro h <;> linarith

theorem hull_sigma {n : ℕ} {x y : ℕ → K} {s : K} :
    (∀ r ∈ (hullSigma n : List (FRow K)), FSat (2 * n + 1) r.1 r.2 (hullPt n x y s)) ↔ 0 ≤ s ∧ s ≤ 1 := by
  have z : ∀ (v : K) (ρ : ℕ → K), lin n (fun j => if j = 2 * n then v else 0) ρ = 0 := by
    intro v ρ
    rw [lin_congr (b := fun _ => 0) (fun k hk => by
      have : k ≠ 2 * n := by omega
      simp [this])]
    simp [lin]
  have z' : ∀ (v : K) (ρ : ℕ → K), lin n (fun k => if n + k = 2 * n then v else 0) ρ = 0 := by
    intro v ρ
    rw [lin_congr (b := fun _ => 0) (fun k hk => by
      have : n + k ≠ 2 * n := by omega
      simp [this])]
    simp [lin]
  simp only [hullSigma, List.mem_cons, List.not_mem_nil, or_false, forall_eq_or_imp, forall_eq, fsat_hull,
    z, z', if_true]
  constructor
  · rintro ⟨h1, h2⟩; constructor <;> linarith
  · rintro ⟨h1, h2⟩; constructor <;> linarith

/-- The system of `fppol_construct_convex_hull`, spelled out. -/
theorem C158_hull_system (n : ℕ) (rs1 rs2 : List (FRow K)) (x y : ℕ → K) (s : K) :
    (∀ r ∈ hullRows n rs1 rs2, FSat (2 * n + 1) r.1 r.2 (hullPt n x y s)) ↔
      (∀ r ∈ rs1, lin n r.2 y ≤ r.1 * s) ∧ (∀ r ∈ rs2, lin n r.2 x - lin n r.2 y ≤ r.1 * (1 - s)) ∧
        0 ≤ s ∧ s ≤ 1 := by
  unfold hullRows
  simp only [List.mem_append, or_imp, forall_and, List.mem_map, forall_exists_index, and_imp,
    forall_apply_eq_imp_iff₂, hull_sigma]
  constructor
  · rintro ⟨⟨h1, h2⟩, h3⟩
    exact ⟨fun r hr => hull_row1.1 (h1 r hr), fun r hr => hull_row2.1 (h2 r hr), h3⟩
  · rintro ⟨h1, h2, h3⟩
    exact ⟨⟨fun r hr => hull_row1.2 (h1 r hr), fun r hr => hull_row2.2 (h2 r hr)⟩, h3⟩

theorem lin_comb {n : ℕ} {a x1 x2 : ℕ → K} {s t : K} :
    lin n a (fun k => s * x1 k + t * x2 k) = s * lin n a x1 + t * lin n a x2 := by
  unfold lin
  rw [Finset.mul_sum, Finset.mul_sum, ← Finset.sum_add_distrib]
  apply Finset.sum_congr rfl
  intros; ring

theorem lin_smul {n : ℕ} {a x : ℕ → K} {s : K} : lin n a (fun k => s * x k) = s * lin n a x := by
  unfold lin
  rw [Finset.mul_sum]
  apply Finset.sum_congr rfl
  intros; ring

/-- `fppol_construct_convex_hull`: a convex combination of a point of each argument, with its first
part and its weight, satisfies the constraints and the bounds. -/
theorem C158_hull_sound (n : ℕ) (rs1 rs2 : List (FRow K)) (B1 B2 : Bnds K) (x1 x2 : ℕ → K) (s : K)
    (h0 : 0 ≤ s) (h1 : s ≤ 1) (hb1 : InBnds n B1 x1) (hb2 : InBnds n B2 x2)
    (hs1 : ∀ r ∈ rs1, FSat n r.1 r.2 x1) (hs2 : ∀ r ∈ rs2, FSat n r.1 r.2 x2) :
    (∀ r ∈ hullRows n rs1 rs2, FSat (2 * n + 1) r.1 r.2
      (hullPt n (fun k => s * x1 k + (1 - s) * x2 k) (fun k => s * x1 k) s)) ∧
    InBnds (2 * n + 1) (hullBnds n B1 B2)
      (hullPt n (fun k => s * x1 k + (1 - s) * x2 k) (fun k => s * x1 k) s) := by
  have h1' : 0 ≤ 1 - s := by linarith
  constructor
  · rw [C158_hull_system]
    refine ⟨?_, ?_, h0, h1⟩
    · intro r hr
      rw [lin_smul, mul_comm r.1]
      exact mul_le_mul_of_nonneg_left (hs1 r hr) h0
    · intro r hr
      rw [lin_comb, lin_smul, mul_comm r.1]
      have := mul_le_mul_of_nonneg_left (hs2 r hr) h1'
      have e : ∑ k ∈ Finset.range n, r.2 k * x2 k = lin n r.2 x2 := rfl
      rw [e] at this
      linarith
  · intro j hj
    by_cases c1 : j < n
    · simp only [hullBnds, hullPt, if_pos c1]
      obtain ⟨a1, a2⟩ := hb1 j c1
      obtain ⟨b1, b2⟩ := hb2 j c1
      constructor
      · intro l hl
        cases e1 : B1.lo j with
        | none => rw [e1] at hl; simp at hl
        | some l1 =>
          cases e2 : B2.lo j with
          | none => rw [e1, e2] at hl; simp at hl
          | some l2 =>
            rw [e1, e2] at hl
            injection hl with hl
            have g1 := mul_le_mul_of_nonneg_left ((min_le_left l1 l2).trans (a1 l1 e1)) h0
            have g2 := mul_le_mul_of_nonneg_left ((min_le_right l1 l2).trans (b1 l2 e2)) h1'
            rw [← hl]
            linarith
      · intro l hl
        cases e1 : B1.hi j with
        | none => rw [e1] at hl; simp at hl
        | some l1 =>
          cases e2 : B2.hi j with
          | none => rw [e1, e2] at hl; simp at hl
          | some l2 =>
            rw [e1, e2] at hl
            injection hl with hl
            have g1 := mul_le_mul_of_nonneg_left ((a2 l1 e1).trans (le_max_left l1 l2)) h0
            have g2 := mul_le_mul_of_nonneg_left ((b2 l2 e2).trans (le_max_right l1 l2)) h1'
            rw [← hl]
            linarith
    · by_cases c2 : j < 2 * n
      · simp only [hullBnds, hullPt, if_neg c1, if_pos c2]
        obtain ⟨a1, a2⟩ := hb1 (j - n) (by omega)
        constructor
        · intro l hl
          rw [Option.map_eq_some_iff] at hl
          obtain ⟨l1, e1, rfl⟩ := hl
          have g := a1 l1 e1
          split_ifs with hl
          · exact mul_nonneg h0 (hl.trans g)
          · have h2 := mul_le_mul_of_nonneg_left g h0
            have h3 : l1 ≤ s * l1 := by nlinarith
            linarith
        · intro l hl
          rw [Option.map_eq_some_iff] at hl
          obtain ⟨l1, e1, rfl⟩ := hl
          have g := a2 l1 e1
          have h2 := mul_le_mul_of_nonneg_left g h0
          split_ifs with hl
          · have h3 : s * l1 ≤ l1 := by nlinarith
            linarith
          · have h3 : s * l1 ≤ 0 := mul_nonpos_of_nonneg_of_nonpos h0 (not_lt.1 hl)
            linarith
      · simp only [hullBnds, hullPt, if_neg c1, if_neg c2]
        exact ⟨fun l hl => by injection hl with hl; rw [← hl]; exact h0,
          fun l hl => by injection hl with hl; rw [← hl]; exact h1⟩

/-- Nothing else is in the hull: a point of the system whose weight is not 0 or 1 is a convex
combination of a point of each argument. -/
theorem C158_hull_exact (n : ℕ) (rs1 rs2 : List (FRow K)) (x y : ℕ → K) (s : K) (h0 : 0 < s) (h1 : s < 1)
    (h : ∀ r ∈ hullRows n rs1 rs2, FSat (2 * n + 1) r.1 r.2 (hullPt n x y s)) :
    ∃ x1 x2 : ℕ → K, (∀ r ∈ rs1, FSat n r.1 r.2 x1) ∧ (∀ r ∈ rs2, FSat n r.1 r.2 x2) ∧
      ∀ k, x k = s * x1 k + (1 - s) * x2 k := by
  rw [C158_hull_system] at h
  obtain ⟨g1, g2, -, -⟩ := h
  have h1' : 0 < 1 - s := by linarith
  refine ⟨fun k => s⁻¹ * y k, fun k => (1 - s)⁻¹ * x k + -(1 - s)⁻¹ * y k, ?_, ?_, ?_⟩
  · intro r hr
    have : lin n r.2 (fun k => s⁻¹ * y k) ≤ r.1 := by
      rw [lin_smul, inv_mul_le_iff₀ h0, mul_comm]
      exact g1 r hr
    exact this
  · intro r hr
    have : lin n r.2 (fun k => (1 - s)⁻¹ * x k + -(1 - s)⁻¹ * y k) ≤ r.1 := by
      rw [lin_comb]
      have e : (1 - s)⁻¹ * lin n r.2 x + -(1 - s)⁻¹ * lin n r.2 y =
          (1 - s)⁻¹ * (lin n r.2 x - lin n r.2 y) := by ring
      rw [e, inv_mul_le_iff₀ h1', mul_comm]
      exact g2 r hr
    exact this
  · intro k
    have e1 : s * (s⁻¹ * y k) = y k := by rw [← mul_assoc, mul_inv_cancel₀ h0.ne', one_mul]
    have e2 : (1 - s) * ((1 - s)⁻¹ * x k + -(1 - s)⁻¹ * y k) = x k - y k := by
      have : (1 - s) * ((1 - s)⁻¹ * x k + -(1 - s)⁻¹ * y k) = ((1 - s) * (1 - s)⁻¹) * (x k - y k) := by ring
      rw [this, mul_inv_cancel₀ h1'.ne', one_mul]
    rw [e1, e2]; ring

/-! ## The eliminations -/

theorem combine_keep {R : Rd K} (hz : R.up 0 = 0 ∧ R.down 0 = 0) {isInt : K → Bool} {big : K} {i j : ℕ}
    {p q : FRow K} (hp : p.2 j = 0) (hq : q.2 j = 0) : (combine R isInt big i p q).2 j = (0, 0) := by
  unfold combine
  simp only
  split_ifs <;> simp [addN, term, hp, hq, hz.1, hz.2]

theorem pairRow_keep {R : Rd K} (hz : R.up 0 = 0 ∧ R.down 0 = 0) {isInt : K → Bool} {big : K} {n i j : ℕ}
    {B : Bnds K} {p q : FRow K} (hp : p.2 j = 0) (hq : q.2 j = 0) {c : K} {a : ℕ → K}
    (h : pairRow R isInt big n i B p q = .con c a) : a j = 0 := by
  rw [quasi_coef h]
  simp [combine_keep hz hp hq, mid]

theorem pairLoop_keep {R : Rd K} (hz : R.up 0 = 0 ∧ R.down 0 = 0) {isInt : K → Bool} {big : K} {n i j : ℕ}
    {B : Bnds K} (ws : List (FRow K × FRow K)) (hw : ∀ w ∈ ws, w.1.2 j = 0 ∧ w.2.2 j = 0) :
    ∀ {l : List (FRow K)}, pairLoop R isInt big n i B ws = some l → ∀ r ∈ l, r.2 j = 0 := by
  induction ws with
  | nil => intro l h; simp [pairLoop] at h; simp [h]
  | cons w ws ih =>
    intro l h
    have ih := @ih fun w' hw' => hw w' (List.mem_cons_of_mem _ hw')
    obtain ⟨h1, h2⟩ := hw w List.mem_cons_self
    unfold pairLoop at h
    cases hr : pairRow R isInt big n i B w.1 w.2 with
    | taut => rw [hr] at h; exact ih h
    | unsat => rw [hr] at h; cases h
    | con c a =>
      rw [hr] at h
      simp only [Option.map_eq_some_iff] at h
      obtain ⟨l', hl', rfl⟩ := h
      intro r hrm
      rcases List.mem_cons.1 hrm with e | e
      · rw [e]; exact pairRow_keep hz h1 h2 hr
      · exact ih hl' r e

/-- Elimination clears the variable and brings back no other. -/
theorem fmElim_keep {R : Rd K} (hz : R.up 0 = 0 ∧ R.down 0 = 0) {isInt : K → Bool} {big : K} {n i : ℕ}
    {rs : List (FRow K)} {B : Bnds K} {l : List (FRow K)} {B' : Bnds K}
    (h : fmElim R isInt big n i rs B = .rows l B') :
    (∀ j, (∀ r ∈ rs, r.2 j = 0) → ∀ r ∈ l, r.2 j = 0) := by
  intro j hj
  unfold fmElim at h
  simp only at h
  split at h
  · cases h
  · split at h
    · injection h with h1 _
      subst h1
      intro r hr
      obtain ⟨r0, hr0, rfl⟩ := List.mem_map.1 hr
      simp [hj r0 hr0]
    · split at h
      · cases h
      · next l' hl' =>
        split at h
        · cases h
        · injection h with h1 _
          subst h1
          intro r hr
          rcases List.mem_append.1 hr with h | h
          · refine pairLoop_keep hz _ ?_ hl' r h
            intro w hw
            simp only [List.mem_flatMap, List.mem_map, List.mem_filter] at hw
            obtain ⟨p, ⟨hp, -⟩, q, ⟨hq, -⟩, rfl⟩ := hw
            exact ⟨hj p hp, hj q hq⟩
          · exact hj r (List.mem_filter.1 h).1

theorem fmElim_clears {R : Rd K} {isInt : K → Bool} {big : K} {n i : ℕ}
    {rs : List (FRow K)} {B : Bnds K} {l : List (FRow K)} {B' : Bnds K}
    (h : fmElim R isInt big n i rs B = .rows l B') : ∀ r ∈ l, r.2 i = 0 := by
  have hclear : ∀ ws : List (FRow K × FRow K), (∀ w ∈ ws, 0 < w.1.2 i ∧ w.2.2 i < 0) → ∀ l',
      pairLoop R isInt big n i B ws = some l' → ∀ r ∈ l', r.2 i = 0 := by
    intro ws
    induction ws with
    | nil => intro _ l' h; simp [pairLoop] at h; simp [h]
    | cons w ws ih =>
      intro hw l' h
      have ih := ih fun w' hw' => hw w' (List.mem_cons_of_mem _ hw')
      obtain ⟨h1, h2⟩ := hw w List.mem_cons_self
      unfold pairLoop at h
      cases hr : pairRow R isInt big n i B w.1 w.2 with
      | taut => rw [hr] at h; exact ih _ h
      | unsat => rw [hr] at h; cases h
      | con c a =>
        rw [hr] at h
        simp only [Option.map_eq_some_iff] at h
        obtain ⟨l2, hl2, rfl⟩ := h
        intro r hrm
        rcases List.mem_cons.1 hrm with e | e
        · rw [e]; exact pairRow_zero h1 h2 hr
        · exact ih _ hl2 r e
  unfold fmElim at h
  simp only at h
  split at h
  · cases h
  · split at h
    · injection h with h1 _
      subst h1
      intro r hr
      obtain ⟨r0, hr0, rfl⟩ := List.mem_map.1 hr
      simp
    · split at h
      · cases h
      · next l' hl' =>
        split at h
        · cases h
        · injection h with h1 _
          subst h1
          intro r hr
          rcases List.mem_append.1 hr with h | h
          · refine hclear _ ?_ l' hl' r h
            intro w hw
            simp only [List.mem_flatMap, List.mem_map, List.mem_filter, decide_eq_true_eq] at hw
            obtain ⟨p, ⟨-, hp⟩, q, ⟨-, hq⟩, rfl⟩ := hw
            exact ⟨hp, hq⟩
          · simpa using (List.mem_filter.1 h).2

theorem elimAll_sound {R : Rd K} (hz : R.up 0 = 0 ∧ R.down 0 = 0) {isInt : K → Bool} {big : K} {n : ℕ}
    {B : Bnds K} {drop : ℕ → List (FRow K) → List (FRow K)} (hdrop : ∀ i l, ∀ r ∈ drop i l, r ∈ l)
    {ρ : ℕ → K} (hB : InBnds n B ρ) (is : List ℕ) :
    ∀ (rs : List (FRow K)) (done : List ℕ), (∀ r ∈ rs, FSat n r.1 r.2 ρ) →
    (∀ j ∈ done, ∀ r ∈ rs, r.2 j = 0) →
    match elimAll R isInt big n B drop is rs with
    | .empty => False
    | .univ => True
    | .rows l _ => ∀ r ∈ l, FSat n r.1 r.2 ρ ∧ ∀ j, j ∈ done ∨ j ∈ is → r.2 j = 0 := by
  induction is with
  | nil => intro rs done hs hd r hr; exact ⟨hs r hr, fun j hj => by
      rcases hj with h | h
      · exact hd j h r hr
      · simp at h⟩
  | cons i is ih =>
    intro rs done hs hd
    have h := C155_elimination_sound R isInt big n i rs B ρ hB hs
    unfold elimAll
    cases he : fmElim R isInt big n i rs B with
    | empty => rw [he] at h; exact h
    | univ => trivial
    | rows l B' =>
      rw [he] at h
      simp only at h ⊢
      have hl : ∀ r ∈ l, FSat n r.1 r.2 ρ := by
        intro r hr
        have := (h (ρ i)).1 r hr
        rwa [Function.update_eq_self] at this
      have := ih (drop i l) (i :: done) (fun r hr => hl r (hdrop i l r hr)) (by
        intro j hj r hr
        rcases List.mem_cons.1 hj with e | e
        · rw [e]; exact fmElim_clears he r (hdrop i l r hr)
        · exact fmElim_keep hz he j (hd j e) r (hdrop i l r hr))
      revert this
      cases elimAll R isInt big n B drop is (drop i l) with
      | empty => exact id
      | univ => exact id
      | rows l' B2 =>
        intro h r hr
        obtain ⟨h1, h2⟩ := h r hr
        refine ⟨h1, ?_⟩
        intro j hj
        apply h2
        rcases hj with e | e
        · exact Or.inl (List.mem_cons_of_mem _ e)
        · rcases List.mem_cons.1 e with e | e
          · exact Or.inl (by rw [e]; exact List.mem_cons_self)
          · exact Or.inr e

/-- The join: when the variables of `y₁` and `σ₁` are eliminated, in any order and with any rounding
that keeps 0, whichever rows are dropped as redundant, every convex combination of a point of each argument satisfies the constraints over `x`
that are left, and the join is not empty. -/
theorem C158_join_sound (R : Rd K) (hz : R.up 0 = 0 ∧ R.down 0 = 0) (isInt : K → Bool) (big : K) (n : ℕ)
    (rs1 rs2 : List (FRow K)) (B1 B2 : Bnds K) (drop : ℕ → List (FRow K) → List (FRow K))
    (hdrop : ∀ i l, ∀ r ∈ drop i l, r ∈ l) (is : List ℕ) (his : ∀ j, n ≤ j → j ≤ 2 * n → j ∈ is)
    (x1 x2 : ℕ → K) (s : K) (h0 : 0 ≤ s) (h1 : s ≤ 1) (hb1 : InBnds n B1 x1) (hb2 : InBnds n B2 x2)
    (hs1 : ∀ r ∈ rs1, FSat n r.1 r.2 x1) (hs2 : ∀ r ∈ rs2, FSat n r.1 r.2 x2) :
    match elimAll R isInt big (2 * n + 1) (hullBnds n B1 B2) drop is (hullRows n rs1 rs2) with
    | .empty => False
    | .univ => True
    | .rows l _ => ∀ r ∈ l, FSat n r.1 r.2 (fun k => s * x1 k + (1 - s) * x2 k) := by
  obtain ⟨g1, g2⟩ := C158_hull_sound n rs1 rs2 B1 B2 x1 x2 s h0 h1 hb1 hb2 hs1 hs2
  have h := elimAll_sound (R := R) hz (isInt := isInt) (big := big) hdrop g2 is (hullRows n rs1 rs2) [] g1 (by simp)
  revert h
  cases elimAll R isInt big (2 * n + 1) (hullBnds n B1 B2) drop is (hullRows n rs1 rs2) with
  | empty => exact id
  | univ => exact id
  | rows l B' =>
    intro h r hr
    obtain ⟨a, b⟩ := h r hr
    rw [fsat_hull] at a
    have e1 : lin n (fun k => r.2 (n + k)) (fun k => s * x1 k) = 0 := by
      rw [lin_congr (b := fun _ => 0) (fun k hk => b (n + k) (Or.inr (his _ (by omega) (by omega))))]
      simp [lin]
    rw [e1, b (2 * n) (Or.inr (his _ (by omega) (by omega)))] at a
    have e2 : lin n r.2 (fun k => s * x1 k + (1 - s) * x2 k) ≤ r.1 := by linarith
    exact e2

/-- The reshaping of the coefficient of `σ₁` loses no point whose weight is between 0 and 1, if the
subtraction is exact, as it is for doubles that are close. -/
theorem C158_reshape_sigma (R : Rd K) (rnd : K → K) (qe : K) (n s : ℕ) (hs : s < n) (r : FRow K)
    (hex : R.up (rnd (r.2 s) - r.2 s) = rnd (r.2 s) - r.2 s) (ρ : ℕ → K) (h0 : 0 ≤ ρ s) (h1 : ρ s ≤ 1)
    (h : FSat n r.1 r.2 ρ) :
    FSat n (reshapeSigma R rnd qe s r).1 (reshapeSigma R rnd qe s r).2 ρ := by
  unfold reshapeSigma
  simp only
  split_ifs with c1 c2
  · exact h
  · unfold FSat at h ⊢
    simp only
    rw [hex]
    refine le_trans ?_ (R.le_up _)
    have e : ∀ a : ℕ → K, ∑ k ∈ Finset.range n, a k * ρ k =
        a s * ρ s + ∑ k ∈ (Finset.range n).erase s, a k * ρ k := fun a =>
      (Finset.add_sum_erase _ _ (Finset.mem_range.2 hs)).symm
    rw [e] at h ⊢
    have e2 : ∑ k ∈ (Finset.range n).erase s, Function.update r.2 s (rnd (r.2 s)) k * ρ k =
        ∑ k ∈ (Finset.range n).erase s, r.2 k * ρ k :=
      Finset.sum_congr rfl fun k hk => by rw [Function.update_of_ne (Finset.ne_of_mem_erase hk)]
    rw [e2, Function.update_self]
    have g1 := le_abs_self (rnd (r.2 s) - r.2 s)
    have g2 := abs_nonneg (rnd (r.2 s) - r.2 s)
    have g3 : (rnd (r.2 s) - r.2 s) * ρ s ≤ |rnd (r.2 s) - r.2 s| * 1 :=
      (mul_le_mul_of_nonneg_right g1 h0).trans (mul_le_mul_of_nonneg_left h1 g2)
    linarith
  · exact h

end Apron.Props
