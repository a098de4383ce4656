import Verif.Oct.ResizeLemmas

/-! # Helper lemmas: effect of expand and fold on the matrix cells -/

set_option autoImplicit false
set_option linter.unusedSectionVars false
set_option linter.ambiguousOpen false

namespace Apron
namespace Oct
open Bound
variable {K : Type*} [LinearOrder K] [Field K] [IsStrictOrderedRing K]

theorem set_matpos2 (m : Mem K) (r c : ℕ) (v : Bound K) (i j : ℕ) :
    (m.set (matpos2 r c) v) (matpos2 i j) =
      if (i = r ∧ j = c) ∨ (i / 2 ≠ j / 2 ∧ i = c ^^^ 1 ∧ j = r ^^^ 1) then v else m (matpos2 i j) := by
  split_ifs with h
  · rcases h with ⟨rfl, rfl⟩ | ⟨hne, h1, h2⟩
    · rw [Mem.set_self]
    · have : matpos2 i j = matpos2 r c := by
        rw [matpos2_mirror hne, h1, h2, xor1_xor1, xor1_xor1]
      rw [this, Mem.set_self]
  · rw [Mem.set_ne]
    exact fun e => h (matpos2_inj e)

/-- a loop copying entries that it does not overwrite -/
theorem foldl_copy2 (p1 p2 s1 s2 : ℕ → ℕ) (l : List ℕ) (hl : l.Nodup) (m : Mem K)
    (hs : ∀ j ∈ l, ∀ k ∈ l, s1 j ≠ p1 k ∧ s1 j ≠ p2 k ∧ s2 j ≠ p1 k ∧ s2 j ≠ p2 k)
    (hp : ∀ j ∈ l, ∀ k ∈ l, (p1 j = p1 k → j = k) ∧ (p2 j = p2 k → j = k) ∧ p1 j ≠ p2 k) (q : ℕ) :
    let r := l.foldl (fun (m : Mem K) j =>
      let m1 := m.set (p1 j) (m (s1 j))
      m1.set (p2 j) (m1 (s2 j))) m
    (∀ j ∈ l, r (p1 j) = m (s1 j) ∧ r (p2 j) = m (s2 j)) ∧
    ((∀ j ∈ l, q ≠ p1 j ∧ q ≠ p2 j) → r q = m q) := by
  induction l generalizing m q with
  | nil => simp
  | cons a l ih =>
    simp only [List.foldl_cons]
    rw [List.nodup_cons] at hl
    have hsl : ∀ j ∈ l, ∀ k ∈ l, s1 j ≠ p1 k ∧ s1 j ≠ p2 k ∧ s2 j ≠ p1 k ∧ s2 j ≠ p2 k :=
      fun j hj k hk => hs j (by simp [hj]) k (by simp [hk])
    have hpl : ∀ j ∈ l, ∀ k ∈ l, (p1 j = p1 k → j = k) ∧ (p2 j = p2 k → j = k) ∧ p1 j ≠ p2 k :=
      fun j hj k hk => hp j (by simp [hj]) k (by simp [hk])
    set m1 : Mem K := (m.set (p1 a) (m (s1 a))).set (p2 a) ((m.set (p1 a) (m (s1 a))) (s2 a)) with hm1
    have hsa := hs a (by simp) a (by simp)
    have hpa := hp a (by simp) a (by simp)
    have e1 : m1 (p1 a) = m (s1 a) := by rw [hm1, Mem.set_ne _ _ hpa.2.2, Mem.set_self]
    have e2 : m1 (p2 a) = m (s2 a) := by rw [hm1, Mem.set_self, Mem.set_ne _ _ hsa.2.2.1]
    have e3 : ∀ q, q ≠ p1 a → q ≠ p2 a → m1 q = m q := by
      intro q h1 h2; rw [hm1, Mem.set_ne _ _ h2, Mem.set_ne _ _ h1]
    refine ⟨fun j hj => ?_, fun hq => ?_⟩
    · rcases List.mem_cons.1 hj with rfl | hj
      · have h1 := (ih hl.2 m1 hsl hpl (p1 j)).2 (fun k hk => by
          have h1 := hp j (by simp) k (by simp [hk])
          exact ⟨fun e => hl.1 ((h1.1 e) ▸ hk), h1.2.2⟩)
        have h2 := (ih hl.2 m1 hsl hpl (p2 j)).2 (fun k hk => by
          have h1 := hp j (by simp) k (by simp [hk])
          have h2 := hp k (by simp [hk]) j (by simp)
          exact ⟨fun e => h2.2.2 e.symm, fun e => hl.1 ((h1.2.1 e) ▸ hk)⟩)
        exact ⟨h1.trans e1, h2.trans e2⟩
      · have h := (ih hl.2 m1 hsl hpl q).1 j hj
        have hh := hs j (by simp [hj]) a (by simp)
        exact ⟨h.1.trans (e3 _ hh.1 hh.2.1), h.2.trans (e3 _ hh.2.2.1 hh.2.2.2)⟩
    · have h := (ih hl.2 m1 hsl hpl q).2 (fun j hj => hq j (by simp [hj]))
      exact h.trans (e3 _ (hq a (by simp)).1 (hq a (by simp)).2)

/-! ## expand -/

section Expand

/-- entries of row `2d+a` -/
theorem row_read {d j : ℕ} (hj : 2 * d + 2 ≤ j) :
    matpos (j ^^^ 1) (2 * d + 1) = matpos2 (2 * d) j ∧ matpos (j ^^^ 1) (2 * d) = matpos2 (2 * d + 1) j := by
  constructor
  · rw [matpos2_mirror (by omega), xor1_even, matpos2_cell]
    unfold Cell; rw [xor1_div]; omega
  · rw [matpos2_mirror (by omega), xor1_odd, matpos2_cell]
    unfold Cell; rw [xor1_div]; omega

theorem matpos2_eq_iff {i j k l : ℕ} :
    matpos2 i j = matpos2 k l ↔ (i = k ∧ j = l) ∨ (i / 2 ≠ j / 2 ∧ i = l ^^^ 1 ∧ j = k ^^^ 1) := by
  refine ⟨matpos2_inj, ?_⟩
  rintro (⟨rfl, rfl⟩ | ⟨hne, h1, h2⟩)
  · rfl
  · rw [matpos2_mirror hne, h1, h2, xor1_xor1, xor1_xor1]

theorem xor1_cases (i : ℕ) : (i % 2 = 0 ∧ i ^^^ 1 = i + 1) ∨ (i % 2 = 1 ∧ (i ^^^ 1) + 1 = i) := by
  rw [xor1]; split_ifs <;> omega

/-- effect of copying the constraints of `d` to `q` -/
theorem expandVar_view {d q n : ℕ} (hd : d < q) (hq : q < n) (m : Mem K) {i j : ℕ} (hi : i < 2 * n)
    (hj : j < 2 * n) :
    expandVar d (2 * n) m q (matpos2 i j) =
      if i / 2 = q then
        if j / 2 = d then m (matpos2 i j)
        else if j / 2 = q ∧ i ≠ j then m (matpos2 (2 * d + i % 2) (2 * d + j % 2))
        else m (matpos2 (2 * d + i % 2) j)
      else if j / 2 = q then
        if i / 2 = d then m (matpos2 i j) else m (matpos2 i (2 * d + j % 2))
      else m (matpos2 i j) := by
  -- the loops as one copying loop
  have hloop : ∀ (m : Mem K) (l : List ℕ), l.Nodup → (∀ k ∈ l, k / 2 ≠ d) →
      (∀ k ∈ l, ∀ a, a < 2 → (l.foldl (fun (m : Mem K) j =>
        let m1 := m.set (matpos2 (2 * q) j) (m (matpos2 (2 * d) j))
        m1.set (matpos2 (2 * q + 1) j) (m1 (matpos2 (2 * d + 1) j))) m) (matpos2 (2 * q + a) k) =
          m (matpos2 (2 * d + a) k)) ∧
      (∀ p, (∀ k ∈ l, p ≠ matpos2 (2 * q) k ∧ p ≠ matpos2 (2 * q + 1) k) → (l.foldl (fun (m : Mem K) j =>
        let m1 := m.set (matpos2 (2 * q) j) (m (matpos2 (2 * d) j))
        m1.set (matpos2 (2 * q + 1) j) (m1 (matpos2 (2 * d + 1) j))) m) p = m p) := by
    intro m l hl hk
    have h := fun p => foldl_copy2 (fun j => matpos2 (2 * q) j) (fun j => matpos2 (2 * q + 1) j)
      (fun j => matpos2 (2 * d) j) (fun j => matpos2 (2 * d + 1) j) l hl m
      (by
        intro j hj k hk'
        have h1 := hk j hj; have h2 := hk k hk'
        have x1 := xor1_cases j; have x2 := xor1_cases k
        refine ⟨?_, ?_, ?_, ?_⟩ <;> simp only [Ne, matpos2_eq_iff, xor1_even, xor1_odd] <;> omega)
      (by
        intro j hj k hk'
        have h1 := hk j hj; have h2 := hk k hk'
        have x1 := xor1_cases j; have x2 := xor1_cases k
        refine ⟨?_, ?_, ?_⟩ <;> simp only [Ne, matpos2_eq_iff, xor1_even, xor1_odd] <;> omega) p
    refine ⟨fun k hk' a ha => ?_, fun p hp => (h p).2 hp⟩
    obtain rfl | rfl : a = 0 ∨ a = 1 := by omega
    · exact ((h 0).1 k hk').1
    · exact ((h 0).1 k hk').2
  unfold expandVar
  simp only
  have eq1 : (fun (m : Mem K) j =>
      (m.set (matpos2 (2 * q) j) (m (matpos (2 * d) j))).set (matpos2 (2 * q + 1) j)
        ((m.set (matpos2 (2 * q) j) (m (matpos (2 * d) j))) (matpos (2 * d + 1) j))) =
      fun (m : Mem K) j => (m.set (matpos2 (2 * q) j) (m (matpos (2 * d) j))).set (matpos2 (2 * q + 1) j)
        ((m.set (matpos2 (2 * q) j) (m (matpos (2 * d) j))) (matpos (2 * d + 1) j)) := rfl
  have f1 : (List.range (2 * d)).foldl (fun (m : Mem K) j =>
      (m.set (matpos2 (2 * q) j) (m (matpos (2 * d) j))).set (matpos2 (2 * q + 1) j)
        ((m.set (matpos2 (2 * q) j) (m (matpos (2 * d) j))) (matpos (2 * d + 1) j))) m =
      (List.range (2 * d)).foldl (fun (m : Mem K) j =>
        let m1 := m.set (matpos2 (2 * q) j) (m (matpos2 (2 * d) j))
        m1.set (matpos2 (2 * q + 1) j) (m1 (matpos2 (2 * d + 1) j))) m := by
    refine List.foldl_ext _ _ _ fun m k hk => ?_
    rw [List.mem_range] at hk
    simp only
    rw [matpos2_cell (i := 2 * d) (j := k) (by unfold Cell; omega),
      matpos2_cell (i := 2 * d + 1) (j := k) (by unfold Cell; omega)]
  rw [f1]
  set A := (List.range (2 * d)).foldl (fun (m : Mem K) j =>
        let m1 := m.set (matpos2 (2 * q) j) (m (matpos2 (2 * d) j))
        m1.set (matpos2 (2 * q + 1) j) (m1 (matpos2 (2 * d + 1) j))) m with hA
  have f2 : (List.range' (2 * d + 2) (2 * n - (2 * d + 2))).foldl (fun (m : Mem K) j =>
      (m.set (matpos2 (2 * q) j) (m (matpos (j ^^^ 1) (2 * d + 1)))).set (matpos2 (2 * q + 1) j)
        ((m.set (matpos2 (2 * q) j) (m (matpos (j ^^^ 1) (2 * d + 1)))) (matpos (j ^^^ 1) (2 * d)))) A =
      (List.range' (2 * d + 2) (2 * n - (2 * d + 2))).foldl (fun (m : Mem K) j =>
        let m1 := m.set (matpos2 (2 * q) j) (m (matpos2 (2 * d) j))
        m1.set (matpos2 (2 * q + 1) j) (m1 (matpos2 (2 * d + 1) j))) A := by
    refine List.foldl_ext _ _ _ fun m k hk => ?_
    rw [List.mem_range'_1] at hk
    simp only
    rw [(row_read hk.1).1, (row_read hk.1).2]
  rw [f2]
  set B := (List.range' (2 * d + 2) (2 * n - (2 * d + 2))).foldl (fun (m : Mem K) j =>
        let m1 := m.set (matpos2 (2 * q) j) (m (matpos2 (2 * d) j))
        m1.set (matpos2 (2 * q + 1) j) (m1 (matpos2 (2 * d + 1) j))) A with hB
  have hAl := hloop m (List.range (2 * d)) List.nodup_range (fun k hk => by
    rw [List.mem_range] at hk; omega)
  have hBl := hloop A (List.range' (2 * d + 2) (2 * n - (2 * d + 2))) (List.nodup_range') (fun k hk => by
    rw [List.mem_range'_1] at hk; omega)
  rw [← hA] at hAl
  rw [← hB] at hBl
  -- entries of A
  have hA0 : ∀ i j, ¬ (i / 2 = q ∧ j < 2 * d) → ¬ (j / 2 = q ∧ i < 2 * d) → A (matpos2 i j) = m (matpos2 i j) := by
    intro i j h1 h2
    refine hAl.2 _ fun k hk => ?_
    rw [List.mem_range] at hk
    have x1 := xor1_cases k
    constructor <;> simp only [Ne, matpos2_eq_iff, xor1_even, xor1_odd] <;> omega
  have hB0 : ∀ i j, ¬ (i / 2 = q ∧ 2 * d + 2 ≤ j ∧ j < 2 * n) → ¬ (j / 2 = q ∧ 2 * d + 2 ≤ i ∧ i < 2 * n) →
      B (matpos2 i j) = A (matpos2 i j) := by
    intro i j h1 h2
    refine hBl.2 _ fun k hk => ?_
    rw [List.mem_range'_1] at hk
    have x1 := xor1_cases k
    constructor <;> simp only [Ne, matpos2_eq_iff, xor1_even, xor1_odd] <;> omega
  have hBq : ∀ a k, a < 2 → k < 2 * n → k / 2 ≠ d → B (matpos2 (2 * q + a) k) = m (matpos2 (2 * d + a) k) := by
    intro a k ha hk hkd
    by_cases hkd' : k < 2 * d
    · rw [hB0 _ _ (by omega) (by omega)]
      exact hAl.1 k (List.mem_range.2 hkd') a ha
    · rw [hBl.1 k (by rw [List.mem_range'_1]; omega) a ha]
      exact hA0 _ _ (by omega) (by omega)
  have hBo : ∀ i j, i / 2 ≠ q → j / 2 ≠ q → B (matpos2 i j) = m (matpos2 i j) := by
    intro i j h1 h2
    rw [hB0 _ _ (by omega) (by omega), hA0 _ _ (by omega) (by omega)]
  have hBd : ∀ i j, i / 2 = q → j / 2 = d → B (matpos2 i j) = m (matpos2 i j) := by
    intro i j h1 h2
    rw [hB0 _ _ (by omega) (by omega), hA0 _ _ (by omega) (by omega)]
  rw [set_matpos2, set_matpos2, set_matpos2, hBo (2 * d + 1) (2 * d) (by omega) (by omega),
    hBo (2 * d) (2 * d + 1) (by omega) (by omega)]
  rw [if_neg (show ¬ ((2 * d + 1 = 2 * q ∧ 2 * d = 2 * q + 1) ∨ ((2 * d + 1) / 2 ≠ 2 * d / 2 ∧
    2 * d + 1 = (2 * q + 1) ^^^ 1 ∧ 2 * d = (2 * q) ^^^ 1)) by omega)]
  simp only [xor1_even, xor1_odd]
  by_cases h1 : i / 2 = q
  · rw [if_pos h1]
    by_cases h2 : j / 2 = d
    · rw [if_pos h2, if_neg (by omega), if_neg (by omega), hBd i j h1 h2]
    · rw [if_neg h2]
      by_cases h3 : j / 2 = q ∧ i ≠ j
      · rw [if_pos h3]
        rcases Nat.mod_two_eq_zero_or_one i with hm | hm
        · rw [if_neg (by omega), if_pos (by omega)]
          congr 2 <;> omega
        · rw [if_pos (by omega)]
          congr 2 <;> omega
      · rw [if_neg h3, if_neg (by omega), if_neg (by omega)]
        have := hBq (i % 2) j (by omega) hj h2
        rwa [show 2 * q + i % 2 = i by omega] at this
  · rw [if_neg h1]
    by_cases h2 : j / 2 = q
    · rw [if_pos h2, if_neg (by omega), if_neg (by omega)]
      by_cases h3 : i / 2 = d
      · rw [if_pos h3, matpos2_mirror (by omega), hBd _ _ (by rw [xor1_div]; exact h2) (by rw [xor1_div]; exact h3)]
      · rw [if_neg h3, matpos2_mirror (by omega)]
        have := hBq ((j ^^^ 1) % 2) (i ^^^ 1) (by omega) (xor1_lt hi) (by rw [xor1_div]; exact h3)
        rw [show 2 * q + (j ^^^ 1) % 2 = j ^^^ 1 by rw [← h2, lift_xor, Nat.div_add_mod]] at this
        rw [this, lift_xor, ← matpos2_mirror (by omega)]
    · rw [if_neg h2, if_neg (by omega), if_neg (by omega), hBo i j h1 h2]

/-- the variable whose constraints `u` received after `k` copies -/
def repv (p k d u : ℕ) : ℕ := if p ≤ u ∧ u < p + k then d else u

/-- the matrix after `k` copies -/
def expView (p k d : ℕ) (m : Mem K) (i j : ℕ) : Bound K :=
  if i / 2 = j / 2 then
    if p ≤ i / 2 ∧ i / 2 < p + k then
      if i = j then pinf else m (matpos2 (2 * d + i % 2) (2 * d + j % 2))
    else m (matpos2 i j)
  else if repv p k d (i / 2) = repv p k d (j / 2) then pinf
  else m (matpos2 (2 * repv p k d (i / 2) + i % 2) (2 * repv p k d (j / 2) + j % 2))

theorem expView_coh (p k d : ℕ) (m : Mem K) {i j : ℕ} (h : i / 2 ≠ j / 2) :
    expView p k d m i j = expView p k d m (j ^^^ 1) (i ^^^ 1) := by
  unfold expView
  simp only [xor1_div]
  rw [if_neg h, if_neg (Ne.symm h)]
  by_cases hr : repv p k d (i / 2) = repv p k d (j / 2)
  · rw [if_pos hr, if_pos hr.symm]
  · rw [if_neg hr, if_neg (Ne.symm hr), lift_xor, lift_xor, ← matpos2_mirror]
    omega

theorem expand_view {p d n N : ℕ} (hd : d < p) (hp : p + n ≤ N) (m : Mem K)
    (hm : ∀ i j, i < 2 * N → j < 2 * N → i / 2 ≠ j / 2 → (p ≤ i / 2 ∧ i / 2 < p + n) →
      m (matpos2 i j) = pinf) (k : ℕ) (hk : k ≤ n) {i j : ℕ} (hi : i < 2 * N) (hj : j < 2 * N) :
    ((List.range k).foldl (fun mm i => expandVar d (2 * N) mm (p + i)) m) (matpos2 i j) =
      expView p k d m i j := by
  induction k generalizing i j with
  | zero =>
    have hr : ∀ u, repv p 0 d u = u := by intro u; unfold repv; rw [if_neg (by omega)]
    unfold expView
    simp only [List.range_zero, List.foldl_nil, hr, Nat.div_add_mod]
    rw [if_neg (show ¬ (p ≤ i / 2 ∧ i / 2 < p + 0) by omega)]
    by_cases h1 : i / 2 = j / 2
    · rw [if_pos h1]
    · rw [if_neg h1, if_neg h1]
  | succ k ih =>
    rw [List.range_succ, List.foldl_append, List.foldl_cons, List.foldl_nil,
      expandVar_view (by omega) (by omega) _ hi hj]
    have ih' := fun {i j : ℕ} (hi : i < 2 * N) (hj : j < 2 * N) => ih (by omega) hi hj
    have hrq : repv p k d (p + k) = p + k := by unfold repv; rw [if_neg (by omega)]
    have hrd : ∀ k, repv p k d d = d := by intro k; unfold repv; rw [if_neg (by omega)]
    have hrq' : repv p (k + 1) d (p + k) = d := by unfold repv; rw [if_pos (by omega)]
    have hro : ∀ u, u ≠ p + k → repv p (k + 1) d u = repv p k d u := by
      intro u hu
      unfold repv
      by_cases h : p ≤ u ∧ u < p + k
      · rw [if_pos h, if_pos (by omega)]
      · rw [if_neg h, if_neg (by omega)]
    have main : ∀ i j, i < 2 * N → j < 2 * N → i / 2 = p + k → j / 2 ≠ d → j / 2 ≠ p + k →
        expView p k d m (2 * d + i % 2) j = expView p (k + 1) d m i j := by
      intro i j hi hj h1 h2 h3
      unfold expView
      have e1 : (2 * d + i % 2) / 2 = d := by omega
      have e2 : (2 * d + i % 2) % 2 = i % 2 := by omega
      rw [e1, e2, h1, hrq', hrd, hro _ h3, if_neg (show ¬ d = j / 2 from fun e => h2 e.symm),
        if_neg (show ¬ p + k = j / 2 from fun e => h3 e.symm)]
    by_cases h1 : i / 2 = p + k
    · rw [if_pos h1]
      by_cases h2 : j / 2 = d
      · rw [if_pos h2, ih' hi hj]
        unfold expView
        rw [if_neg (by omega), h1, h2, hrq, hrd, if_neg (by omega), if_neg (by omega), hrq', hrd, if_pos rfl]
        rw [hm _ _ (by omega) (by omega) (by omega) (by omega)]
      · rw [if_neg h2]
        by_cases h3 : j / 2 = p + k
        · by_cases hij : i = j
          · rw [if_neg (by tauto), ih' (by omega) hj]
            unfold expView
            have e1 : (2 * d + i % 2) / 2 = d := by omega
            rw [e1, if_neg (by omega), h3, hrd, hrq, if_neg (by omega), if_pos (by omega), if_pos (by omega),
              if_pos hij]
            rw [matpos2_mirror (by omega)]
            refine hm _ _ (xor1_lt (by omega)) (xor1_lt (by omega)) ?_ ?_ <;> rw [xor1_div] <;>
              try rw [xor1_div]
            · omega
            · omega
          · rw [if_pos ⟨h3, hij⟩, ih' (by omega) (by omega)]
            unfold expView
            have e1 : (2 * d + i % 2) / 2 = d := by omega
            have e2 : (2 * d + j % 2) / 2 = d := by omega
            rw [e1, e2, if_pos rfl, if_neg (by omega), if_pos (by omega), if_pos (by omega), if_neg hij]
        · rw [if_neg (by tauto), ih' (by omega) hj]
          exact main i j hi hj h1 h2 h3
    · rw [if_neg h1]
      by_cases h2 : j / 2 = p + k
      · rw [if_pos h2]
        by_cases h3 : i / 2 = d
        · rw [if_pos h3, ih' hi hj]
          unfold expView
          rw [if_neg (by omega), h3, h2, hrq, hrd, if_neg (by omega), if_neg (by omega), hrq', hrd, if_pos rfl]
          rw [matpos2_mirror (by omega)]
          refine hm _ _ (xor1_lt (by omega)) (xor1_lt (by omega)) ?_ ?_ <;> rw [xor1_div] <;>
            try rw [xor1_div]
          · omega
          · omega
        · rw [if_neg h3, ih' hi (by omega), expView_coh _ _ _ _ (by omega), ← lift_xor,
            main (j ^^^ 1) (i ^^^ 1) (xor1_lt hj) (xor1_lt hi) (by rw [xor1_div]; exact h2)
              (by rw [xor1_div]; exact h3) (by rw [xor1_div]; exact h1), ← expView_coh _ _ _ _ (by omega)]
      · rw [if_neg h2, ih' hi hj]
        unfold expView
        rw [hro _ h1, hro _ h2]
        by_cases hij : i / 2 = j / 2
        · rw [if_pos hij, if_pos hij]
          by_cases hc : p ≤ i / 2 ∧ i / 2 < p + k
          · rw [if_pos hc, if_pos (show p ≤ i / 2 ∧ i / 2 < p + (k + 1) by omega)]
          · rw [if_neg hc, if_neg (show ¬ (p ≤ i / 2 ∧ i / 2 < p + (k + 1)) by omega)]
        · rw [if_neg hij, if_neg hij]

/-- the points of the expanded matrix -/
theorem expand_sat {p d n N : ℕ} (hd : d < p) (hp : p + n ≤ N) {m M' : Mem K}
    (hm : ∀ i j, i < 2 * N → j < 2 * N → i / 2 ≠ j / 2 → (p ≤ i / 2 ∧ i / 2 < p + n) →
      m (matpos2 i j) = pinf)
    (hM : ∀ i j, i < 2 * N → j < 2 * N → M' (matpos2 i j) = expView p n d m i j)
    (hdiag : ∀ i j, i < 2 * N → p ≤ i / 2 ∧ i / 2 < p + n → i / 2 = j / 2 →
      m (matpos2 i j) = if i = j then fin 0 else pinf)
    (x : ℕ → K) :
    Sat N M' x ↔ Sat N m x ∧ ∀ k, k < n → Sat N m (Function.update x d (x (p + k))) := by
  have le2 : ∀ {m : Mem K} {x : ℕ → K}, Sat N m x → ∀ i j, i < 2 * N → j < 2 * N →
      fin (V x j - V x i) ≤ m (matpos2 i j) := fun h i j hi hj => h.le2 hi hj
  have hm' : ∀ i j, i < 2 * N → j < 2 * N → i / 2 ≠ j / 2 → (p ≤ j / 2 ∧ j / 2 < p + n) →
      m (matpos2 i j) = pinf := by
    intro i j hi hj hne h
    rw [matpos2_mirror hne]
    exact hm _ _ (xor1_lt hj) (xor1_lt hi) (by rw [xor1_div, xor1_div]; exact Ne.symm hne) (by rw [xor1_div]; exact h)
  have hV : ∀ k i, k < n → i / 2 ≠ d → V (Function.update x d (x (p + k))) i = V x i := by
    intro k i _ h; unfold V; rw [Function.update_of_ne h]
  have hVd : ∀ k i, k < n → i / 2 = d → V (Function.update x d (x (p + k))) i = V x (2 * (p + k) + i % 2) := by
    intro k i _ h; rw [V_lift]; unfold V; rw [h, Function.update_self]
  constructor
  · intro h
    have h' := le2 h
    have hbase : Sat N m x := by
      intro i j hi hc
      have hj : j < 2 * N := by unfold Cell at hc; omega
      rw [← matpos2_cell hc]
      have hx := h' i j hi hj
      rw [hM i j hi hj] at hx
      by_cases hcp : p ≤ i / 2 ∧ i / 2 < p + n
      · by_cases hij : i / 2 = j / 2
        · rw [hdiag i j hi hcp hij]
          split_ifs with e
          · subst e; simp
          · exact le_pinf _
        · rw [hm i j hi hj hij hcp]; exact le_pinf _
      · by_cases hcp' : p ≤ j / 2 ∧ j / 2 < p + n
        · rw [hm' i j hi hj (by omega) hcp']; exact le_pinf _
        · unfold expView at hx
          have r1 : repv p n d (i / 2) = i / 2 := by unfold repv; rw [if_neg hcp]
          have r2 : repv p n d (j / 2) = j / 2 := by unfold repv; rw [if_neg hcp']
          rw [r1, r2, Nat.div_add_mod, Nat.div_add_mod] at hx
          by_cases hij : i / 2 = j / 2
          · rwa [if_pos hij, if_neg hcp] at hx
          · rwa [if_neg hij, if_neg hij] at hx
    refine ⟨hbase, fun k hk i j hi hc => ?_⟩
    have hj : j < 2 * N := by unfold Cell at hc; omega
    rw [← matpos2_cell hc]
    have hb := le2 hbase i j hi hj
    by_cases hid : i / 2 = d
    · by_cases hjd : j / 2 = d
      · by_cases hij : i = j
        · subst hij; simpa using hb
        · rw [hVd k i hk hid, hVd k j hk hjd]
          have hx := h' (2 * (p + k) + i % 2) (2 * (p + k) + j % 2) (by omega) (by omega)
          rw [hM _ _ (by omega) (by omega)] at hx
          unfold expView at hx
          rw [if_pos (by omega), if_pos (by omega), if_neg (by omega)] at hx
          rwa [show 2 * d + (2 * (p + k) + i % 2) % 2 = i by omega,
            show 2 * d + (2 * (p + k) + j % 2) % 2 = j by omega] at hx
      · rw [hVd k i hk hid, hV k j hk hjd]
        by_cases hcp' : p ≤ j / 2 ∧ j / 2 < p + n
        · rw [hm' i j hi hj (by omega) hcp']; exact le_pinf _
        · have hx := h' (2 * (p + k) + i % 2) j (by omega) hj
          rw [hM _ _ (by omega) hj] at hx
          unfold expView at hx
          have r1 : repv p n d ((2 * (p + k) + i % 2) / 2) = d := by unfold repv; rw [if_pos (by omega)]
          have r2 : repv p n d (j / 2) = j / 2 := by unfold repv; rw [if_neg hcp']
          rw [r1, r2, if_neg (by omega), if_neg (by omega), Nat.div_add_mod] at hx
          rwa [show 2 * d + (2 * (p + k) + i % 2) % 2 = i by omega] at hx
    · by_cases hjd : j / 2 = d
      · rw [hV k i hk hid, hVd k j hk hjd]
        by_cases hcp' : p ≤ i / 2 ∧ i / 2 < p + n
        · rw [hm i j hi hj (by omega) hcp']; exact le_pinf _
        · have hx := h' i (2 * (p + k) + j % 2) hi (by omega)
          rw [hM _ _ hi (by omega)] at hx
          unfold expView at hx
          have r1 : repv p n d ((2 * (p + k) + j % 2) / 2) = d := by unfold repv; rw [if_pos (by omega)]
          have r2 : repv p n d (i / 2) = i / 2 := by unfold repv; rw [if_neg hcp']
          rw [r1, r2, if_neg (by omega), if_neg (by omega), Nat.div_add_mod] at hx
          rwa [show 2 * d + (2 * (p + k) + j % 2) % 2 = j by omega] at hx
      · rw [hV k i hk hid, hV k j hk hjd]; exact hb
  · rintro ⟨hbase, hk⟩ i j hi hc
    have hj : j < 2 * N := by unfold Cell at hc; omega
    rw [← matpos2_cell hc, hM i j hi hj]
    have hb := le2 hbase
    have hkk := fun k hk' => le2 (hk k hk')
    unfold expView
    by_cases hij : i / 2 = j / 2
    · rw [if_pos hij]
      by_cases hcp : p ≤ i / 2 ∧ i / 2 < p + n
      · rw [if_pos hcp]
        by_cases e : i = j
        · rw [if_pos e]; exact le_pinf _
        · rw [if_neg e]
          have hx := hkk (i / 2 - p) (by omega) (2 * d + i % 2) (2 * d + j % 2) (by omega) (by omega)
          rw [hVd _ _ (by omega) (by omega), hVd _ _ (by omega) (by omega)] at hx
          rwa [show 2 * (p + (i / 2 - p)) + (2 * d + i % 2) % 2 = i by omega,
            show 2 * (p + (i / 2 - p)) + (2 * d + j % 2) % 2 = j by omega] at hx
      · rw [if_neg hcp]; exact hb i j hi hj
    · rw [if_neg hij]
      by_cases hr : repv p n d (i / 2) = repv p n d (j / 2)
      · rw [if_pos hr]; exact le_pinf _
      · rw [if_neg hr]
        by_cases hcp : p ≤ i / 2 ∧ i / 2 < p + n
        · have r1 : repv p n d (i / 2) = d := by unfold repv; rw [if_pos hcp]
          by_cases hcp' : p ≤ j / 2 ∧ j / 2 < p + n
          · have r2 : repv p n d (j / 2) = d := by unfold repv; rw [if_pos hcp']
            rw [r1, r2] at hr; exact absurd rfl hr
          · have r2 : repv p n d (j / 2) = j / 2 := by unfold repv; rw [if_neg hcp']
            rw [r1, r2] at hr ⊢
            have hx := hkk (i / 2 - p) (by omega) (2 * d + i % 2) j (by omega) hj
            rw [hVd _ (2 * d + i % 2) (by omega) (by omega), hV _ j (by omega) (Ne.symm hr)] at hx
            rw [show 2 * (p + (i / 2 - p)) + (2 * d + i % 2) % 2 = i by omega] at hx
            rw [Nat.div_add_mod]
            exact hx
        · have r1 : repv p n d (i / 2) = i / 2 := by unfold repv; rw [if_neg hcp]
          by_cases hcp' : p ≤ j / 2 ∧ j / 2 < p + n
          · have r2 : repv p n d (j / 2) = d := by unfold repv; rw [if_pos hcp']
            rw [r1, r2] at hr ⊢
            have hx := hkk (j / 2 - p) (by omega) i (2 * d + j % 2) hi (by omega)
            rw [hVd _ (2 * d + j % 2) (by omega) (by omega), hV _ i (by omega) hr] at hx
            rw [show 2 * (p + (j / 2 - p)) + (2 * d + j % 2) % 2 = j by omega] at hx
            rw [Nat.div_add_mod]
            exact hx
          · have r2 : repv p n d (j / 2) = j / 2 := by unfold repv; rw [if_neg hcp']
            rw [r1, r2, Nat.div_add_mod, Nat.div_add_mod]
            exact hb i j hi hj

end Expand

/-! ## fold -/

section Fold

/-- maximum of a start value and finitely many others -/
def fmax (b : Bound K) (f : ℕ → Bound K) (ts : List ℕ) : Bound K := ts.foldl (fun t d => bmax t (f d)) b

theorem fmax_le {b c : Bound K} {f : ℕ → Bound K} {ts : List ℕ} :
    fmax b f ts ≤ c ↔ b ≤ c ∧ ∀ d ∈ ts, f d ≤ c := by
  induction ts generalizing b with
  | nil => simp [fmax]
  | cons d ts ih =>
    have : fmax b f (d :: ts) = fmax (bmax b (f d)) f ts := rfl
    rw [this, ih, bmax_eq_max, max_le_iff]
    simp only [List.mem_cons, forall_eq_or_imp]
    tauto

theorem le_fmax {b : Bound K} {f : ℕ → Bound K} {ts : List ℕ} :
    b ≤ fmax b f ts ∧ ∀ d ∈ ts, f d ≤ fmax b f ts := fmax_le.1 (le_refl _)

theorem fold_two (p1 p2 : ℕ) (hp : p1 ≠ p2) (f g : ℕ → Bound K) (ts : List ℕ) (t : Mem K) :
    (ts.foldl (fun (t : Mem K) d =>
      let t1 := t.set p1 (bmax (t p1) (f d))
      t1.set p2 (bmax (t1 p2) (g d))) t) p1 = fmax (t p1) f ts ∧
    (ts.foldl (fun (t : Mem K) d =>
      let t1 := t.set p1 (bmax (t p1) (f d))
      t1.set p2 (bmax (t1 p2) (g d))) t) p2 = fmax (t p2) g ts ∧
    ∀ q, q ≠ p1 → q ≠ p2 → (ts.foldl (fun (t : Mem K) d =>
      let t1 := t.set p1 (bmax (t p1) (f d))
      t1.set p2 (bmax (t1 p2) (g d))) t) q = t q := by
  induction ts generalizing t with
  | nil => simp [fmax]
  | cons d ts ih =>
    simp only [List.foldl_cons]
    obtain ⟨h1, h2, h3⟩ := ih ((t.set p1 (bmax (t p1) (f d))).set p2
      (bmax ((t.set p1 (bmax (t p1) (f d))) p2) (g d)))
    refine ⟨h1.trans ?_, h2.trans ?_, fun q hq1 hq2 => (h3 q hq1 hq2).trans ?_⟩
    · rw [Mem.set_ne _ _ hp, Mem.set_self]; rfl
    · rw [Mem.set_self, Mem.set_ne _ _ (Ne.symm hp)]; rfl
    · rw [Mem.set_ne _ _ hq2, Mem.set_ne _ _ hq1]

/-- a loop of independent merges -/
theorem foldl_foldCol (m : Mem K) (d0 : ℕ) (ts l : List ℕ) (hl : l.Nodup) (hk : ∀ k ∈ l, k / 2 ≠ d0)
    (t : Mem K) :
    (∀ k ∈ l, ∀ a, a < 2 → (l.foldl (foldCol m d0 ts) t) (matpos2 (2 * d0 + a) k) =
      fmax (t (matpos2 (2 * d0 + a) k)) (fun d => m (matpos2 (2 * d + a) k)) ts) ∧
    ∀ q, (∀ k ∈ l, q ≠ matpos2 (2 * d0) k ∧ q ≠ matpos2 (2 * d0 + 1) k) → (l.foldl (foldCol m d0 ts) t) q = t q := by
  have step : ∀ (t : Mem K) k, k / 2 ≠ d0 →
      (∀ a, a < 2 → foldCol m d0 ts t k (matpos2 (2 * d0 + a) k) =
        fmax (t (matpos2 (2 * d0 + a) k)) (fun d => m (matpos2 (2 * d + a) k)) ts) ∧
      ∀ q, q ≠ matpos2 (2 * d0) k → q ≠ matpos2 (2 * d0 + 1) k → foldCol m d0 ts t k q = t q := by
    intro t k hk
    unfold foldCol
    have hne : matpos2 (d0 * 2) k ≠ matpos2 (d0 * 2 + 1) k := by
      have x1 := xor1_cases k
      simp only [Ne, matpos2_eq_iff]
      rw [show d0 * 2 = 2 * d0 by ring, xor1_odd]
      omega
    have h := fold_two (matpos2 (d0 * 2) k) (matpos2 (d0 * 2 + 1) k) hne
      (fun d => m (matpos2 (d * 2) k)) (fun d => m (matpos2 (d * 2 + 1) k)) ts t
    refine ⟨fun a ha => ?_, fun q h1 h2 => h.2.2 q (by rw [show d0 * 2 = 2 * d0 by ring]; exact h1)
      (by rw [show d0 * 2 = 2 * d0 by ring]; exact h2)⟩
    obtain rfl | rfl : a = 0 ∨ a = 1 := by omega
    · have := h.1
      simp only [Nat.mul_comm _ 2, Nat.add_zero] at this ⊢
      exact this
    · have := h.2.1
      simp only [Nat.mul_comm _ 2] at this ⊢
      exact this
  have hdist : ∀ k k' a a', k / 2 ≠ d0 → k' / 2 ≠ d0 → a < 2 → a' < 2 → k ≠ k' →
      matpos2 (2 * d0 + a) k ≠ matpos2 (2 * d0 + a') k' := by
    intro k k' a a' h1 h2 ha ha' hne
    have x1 := xor1_cases k'
    simp only [Ne, matpos2_eq_iff]
    omega
  induction l generalizing t with
  | nil => simp
  | cons k l ih =>
    rw [List.nodup_cons] at hl
    rw [List.foldl_cons]
    have hkk := hk k (by simp)
    have hs := step t k hkk
    have ih' := ih hl.2 (fun k hk' => hk k (by simp [hk'])) (foldCol m d0 ts t k)
    refine ⟨fun k' hk' a ha => ?_, fun q hq => ?_⟩
    · rcases List.mem_cons.1 hk' with rfl | hk'
      · rw [ih'.2 _ fun k2 hk2 => ?_, hs.1 a ha]
        have hne : k' ≠ k2 := fun e => hl.1 (e ▸ hk2)
        have hk2' := hk k2 (by simp [hk2])
        exact ⟨hdist k' k2 a 0 hkk hk2' ha (by omega) hne, hdist k' k2 a 1 hkk hk2' ha (by omega) hne⟩
      · rw [ih'.1 k' hk' a ha]
        have hne : k' ≠ k := fun e => hl.1 (e ▸ hk')
        have hk2' := hk k' (by simp [hk'])
        rw [hs.2 _ (hdist k' k a 0 hk2' hkk ha (by omega) hne) (hdist k' k a 1 hk2' hkk ha (by omega) hne)]
    · rw [ih'.2 q fun k2 hk2 => hq k2 (by simp [hk2]), hs.2 q (hq k (by simp)).1 (hq k (by simp)).2]

/-- the merged matrix -/
theorem foldMerge_view {dim d0 : ℕ} (hd : d0 < dim) (m : Mem K) (ts : List ℕ) :
    (∀ k a, k < 2 * dim → k / 2 ≠ d0 → a < 2 → foldMerge dim m d0 ts (matpos2 (2 * d0 + a) k) =
      fmax (m (matpos2 (2 * d0 + a) k)) (fun d => m (matpos2 (2 * d + a) k)) ts) ∧
    (∀ a, a < 2 → foldMerge dim m d0 ts (matpos2 (2 * d0 + a) (2 * d0 + (1 - a))) =
      fmax (m (matpos2 (2 * d0 + a) (2 * d0 + (1 - a)))) (fun d => m (matpos2 (2 * d + a) (2 * d + (1 - a)))) ts) ∧
    (∀ i j, i / 2 ≠ d0 → j / 2 ≠ d0 → foldMerge dim m d0 ts (matpos2 i j) = m (matpos2 i j)) := by
  unfold foldMerge
  have hA := foldl_foldCol m d0 ts (List.range (2 * d0)) List.nodup_range
    (fun k hk => by rw [List.mem_range] at hk; omega) m
  set A := (List.range (2 * d0)).foldl (foldCol m d0 ts) m
  have hB := foldl_foldCol m d0 ts (List.range' (2 * (d0 + 1)) (2 * dim - 2 * (d0 + 1))) List.nodup_range'
    (fun k hk => by rw [List.mem_range'_1] at hk; omega) A
  set B := (List.range' (2 * (d0 + 1)) (2 * dim - 2 * (d0 + 1))).foldl (foldCol m d0 ts) A
  have hne : matpos2 (d0 * 2) (d0 * 2 + 1) ≠ matpos2 (d0 * 2 + 1) (d0 * 2) := by
    simp only [Ne, matpos2_eq_iff]; omega
  have hU := fold_two (matpos2 (d0 * 2) (d0 * 2 + 1)) (matpos2 (d0 * 2 + 1) (d0 * 2)) hne
    (fun d => m (matpos2 (d * 2) (d * 2 + 1))) (fun d => m (matpos2 (d * 2 + 1) (d * 2))) ts B
  have hB1 : ∀ k a, k < 2 * dim → k / 2 ≠ d0 → a < 2 → B (matpos2 (2 * d0 + a) k) =
      fmax (m (matpos2 (2 * d0 + a) k)) (fun d => m (matpos2 (2 * d + a) k)) ts := by
    intro k a hk hkd ha
    by_cases hlt : k < 2 * d0
    · rw [hB.2 _ fun k' hk' => ?_]
      · exact hA.1 k (List.mem_range.2 hlt) a ha
      · rw [List.mem_range'_1] at hk'
        have x1 := xor1_cases k'
        constructor <;> simp only [Ne, matpos2_eq_iff] <;> omega
    · rw [hB.1 k (by rw [List.mem_range'_1]; omega) a ha, hA.2 _ fun k' hk' => ?_]
      rw [List.mem_range] at hk'
      have x1 := xor1_cases k'
      constructor <;> simp only [Ne, matpos2_eq_iff] <;> omega
  have hB2 : ∀ i j, (i / 2 ≠ d0 ∧ j / 2 ≠ d0) ∨ (i / 2 = d0 ∧ j / 2 = d0) → B (matpos2 i j) = m (matpos2 i j) := by
    intro i j h
    rw [hB.2 _ fun k' hk' => ?_, hA.2 _ fun k' hk' => ?_]
    · rw [List.mem_range] at hk'
      have x1 := xor1_cases k'
      constructor <;> simp only [Ne, matpos2_eq_iff, xor1_even, xor1_odd] <;> omega
    · rw [List.mem_range'_1] at hk'
      have x1 := xor1_cases k'
      constructor <;> simp only [Ne, matpos2_eq_iff, xor1_even, xor1_odd] <;> omega
  have hU3 : ∀ i j, ¬ (i / 2 = d0 ∧ j / 2 = d0) → foldUnary m d0 ts B (matpos2 i j) = B (matpos2 i j) := by
    intro i j h
    refine hU.2.2 _ ?_ ?_ <;> simp only [Ne, matpos2_eq_iff, Nat.mul_comm d0 2, xor1_even, xor1_odd] <;> omega
  refine ⟨fun k a hk hkd ha => ?_, fun a ha => ?_, fun i j h1 h2 => ?_⟩
  · rw [hU3 _ _ (by omega), hB1 k a hk hkd ha]
  · obtain rfl | rfl : a = 0 ∨ a = 1 := by omega
    · have := hU.1
      rw [hB2 _ _ (Or.inr (by omega))] at this
      unfold foldUnary
      simp only [Nat.mul_comm _ 2, Nat.add_zero, Nat.sub_zero, Nat.sub_self] at this ⊢
      exact this
    · have := hU.2.1
      rw [hB2 _ _ (Or.inr (by omega))] at this
      unfold foldUnary
      simp only [Nat.mul_comm _ 2, Nat.add_zero, Nat.sub_zero, Nat.sub_self] at this ⊢
      exact this
  · rw [hU3 _ _ (by omega), hB2 _ _ (Or.inl ⟨h1, h2⟩)]

end Fold
end Oct
end Apron
