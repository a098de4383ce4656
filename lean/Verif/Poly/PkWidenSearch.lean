import Verif.Poly.PkWiden

/-!
# Widening of convex polyhedra: the search in the sorted saturation matrix
-/

set_option autoImplicit false
set_option linter.unusedSectionVars false

namespace Apron.Poly

theorem satKey_succ (m s : ℕ) : satKey (m + 1) s = 2 * satKey m s + if s.testBit m then 1 else 0 := by
  simp [satKey, List.range_succ, List.foldl_append]

theorem satKey_eq_iff {m s t : ℕ} : satKey m s = satKey m t ↔ ∀ b, b < m → s.testBit b = t.testBit b := by
  induction m with
  | zero => simp [satKey]
  | succ m ih =>
    rw [satKey_succ, satKey_succ]
    constructor
    · intro h
      have h1 : satKey m s = satKey m t := by
        split_ifs at h <;> omega
      have h2 : s.testBit m = t.testBit m := by
        rw [h1] at h
        cases hs : s.testBit m <;> cases ht : t.testBit m <;> simp [hs, ht] at h ⊢
      intro b hb
      rcases Nat.lt_succ_iff_lt_or_eq.1 hb with h | rfl
      · exact ih.1 h1 b h
      · exact h2
    · intro h
      rw [ih.2 fun b hb => h b (by omega), h m (by omega)]

theorem satLine_testBit (d : ℕ) (F : List Row) (q : Row) (b : ℕ) :
    (satLine d F q).testBit b = decide (b < F.length ∧ vprod d (F.getD b []) q ≠ 0) := by
  induction F generalizing b with
  | nil => simp [satLine]
  | cons f F ih =>
    rw [satLine]
    cases b with
    | zero =>
      rw [Nat.testBit_zero]
      by_cases h : vprod d f q = 0 <;> simp [h, Nat.add_mod]
    | succ b =>
      rw [Nat.testBit_succ]
      have e : (2 * satLine d F q + if vprod d f q ≠ 0 then 1 else 0) / 2 = satLine d F q := by split_ifs <;> omega
      rw [e, ih]
      simp

/-! ## Binary search -/

section
variable {tab : List (ℕ × ℕ)} {key : ℕ}

theorem bscan_some {k i r : ℕ} (h : bscan tab key k i = some r) : i ≤ r ∧ r < i + k ∧ (tab.getD r (0, 0)).1 = key := by
  induction k generalizing i with
  | zero => cases h
  | succ k ih =>
    rw [bscan] at h
    by_cases h1 : (tab.getD i (0, 0)).1 = key
    · rw [if_pos h1] at h; cases h; exact ⟨le_rfl, by omega, h1⟩
    · rw [if_neg h1] at h
      by_cases h2 : key < (tab.getD i (0, 0)).1
      · rw [if_pos h2] at h; cases h
      · rw [if_neg h2] at h
        obtain ⟨a, b, c⟩ := ih h
        exact ⟨by omega, by omega, c⟩

theorem bscan_none {k i : ℕ} (hs : ∀ a b, a ≤ b → b < i + k → (tab.getD a (0, 0)).1 ≤ (tab.getD b (0, 0)).1)
    (h : bscan tab key k i = none) {r : ℕ} (h1 : i ≤ r) (h2 : r < i + k) : (tab.getD r (0, 0)).1 ≠ key := by
  induction k generalizing i with
  | zero => omega
  | succ k ih =>
    rw [bscan] at h
    by_cases e1 : (tab.getD i (0, 0)).1 = key
    · rw [if_pos e1] at h; cases h
    · rw [if_neg e1] at h
      by_cases e2 : key < (tab.getD i (0, 0)).1
      · have := hs i r h1 h2; omega
      · rw [if_neg e2] at h
        rcases Nat.eq_or_lt_of_le h1 with rfl | h3
        · exact e1
        · exact ih (fun a b hab hb => hs a b hab (by omega)) h (by omega) (by omega)

theorem bsearch_some {k low high r : ℕ} (h : bsearch tab key k low high = some r) :
    low ≤ r ∧ r < high ∧ (tab.getD r (0, 0)).1 = key := by
  induction k generalizing low high with
  | zero => obtain ⟨a, b, c⟩ := bscan_some h; exact ⟨a, by omega, c⟩
  | succ k ih =>
    rw [bsearch] at h
    by_cases h0 : high - low ≤ 4
    · rw [if_pos h0] at h
      obtain ⟨a, b, c⟩ := bscan_some h; exact ⟨a, by omega, c⟩
    · rw [if_neg h0] at h
      dsimp only at h
      by_cases h1 : (tab.getD (low + (high - low) / 2) (0, 0)).1 < key
      · rw [if_pos h1] at h
        obtain ⟨a, b, c⟩ := ih h; exact ⟨by omega, b, c⟩
      · rw [if_neg h1] at h
        by_cases h2 : key < (tab.getD (low + (high - low) / 2) (0, 0)).1
        · rw [if_pos h2] at h
          obtain ⟨a, b, c⟩ := ih h; exact ⟨a, by omega, c⟩
        · rw [if_neg h2] at h; cases h
          exact ⟨by omega, by omega, by omega⟩

theorem bsearch_none {k low high : ℕ} (hs : ∀ a b, a ≤ b → b < high → (tab.getD a (0, 0)).1 ≤ (tab.getD b (0, 0)).1)
    (h : bsearch tab key k low high = none) {r : ℕ} (h1 : low ≤ r) (h2 : r < high) : (tab.getD r (0, 0)).1 ≠ key := by
  induction k generalizing low high with
  | zero => exact bscan_none (fun a b hab hb => hs a b hab (by omega)) h h1 (by omega)
  | succ k ih =>
    rw [bsearch] at h
    by_cases h0 : high - low ≤ 4
    · rw [if_pos h0] at h
      exact bscan_none (fun a b hab hb => hs a b hab (by omega)) h h1 (by omega)
    · rw [if_neg h0] at h
      dsimp only at h
      by_cases e1 : (tab.getD (low + (high - low) / 2) (0, 0)).1 < key
      · rw [if_pos e1] at h
        by_cases h3 : low + (high - low) / 2 + 1 ≤ r
        · exact ih hs h h3 h2
        · have := hs r (low + (high - low) / 2) (by omega) (by omega); omega
      · rw [if_neg e1] at h
        by_cases e2 : key < (tab.getD (low + (high - low) / 2) (0, 0)).1
        · rw [if_pos e2] at h
          by_cases h3 : r < low + (high - low) / 2
          · exact ih (fun a b hab hb => hs a b hab (by omega)) h h1 h3
          · have := hs (low + (high - low) / 2) r (by omega) (by omega); omega
        · rw [if_neg e2] at h; cases h

end

/-! ## The sorted table -/

theorem sortedTab_perm (f : Full) : f.sortedTab.Perm f.satTab := List.perm_insertionSort _ _

theorem sortedTab_length (f : Full) : f.sortedTab.length = f.C.length := by
  rw [(sortedTab_perm f).length_eq, Full.satTab, List.length_mapIdx]

theorem sortedTab_sorted (f : Full) : ∀ a b, a ≤ b → b < f.C.length →
    (f.sortedTab.getD a (0, 0)).1 ≤ (f.sortedTab.getD b (0, 0)).1 := by
  intro a b hab hb
  have hp : f.sortedTab.Pairwise fun a b : ℕ × ℕ => a.1 ≤ b.1 := by
    have : Std.Total fun a b : ℕ × ℕ => a.1 ≤ b.1 := ⟨fun a b => le_total a.1 b.1⟩
    have : IsTrans (ℕ × ℕ) fun a b => a.1 ≤ b.1 := ⟨fun a b c => le_trans⟩
    exact List.pairwise_insertionSort (r := fun a b : ℕ × ℕ => a.1 ≤ b.1) f.satTab
  have hb' : b < f.sortedTab.length := by rw [sortedTab_length]; exact hb
  rcases Nat.eq_or_lt_of_le hab with rfl | hlt
  · exact le_rfl
  · have := List.pairwise_iff_getElem.1 hp a b (by omega) hb' hlt
    rw [List.getD_eq_getElem?_getD, List.getD_eq_getElem?_getD, List.getElem?_eq_getElem hb', List.getElem?_eq_getElem (by omega)]
    exact this

/-- the saturation row of the constraint of index `i` -/
def Full.satRow (f : Full) (i : ℕ) : ℕ := if i < f.nbeq then 0 else (f.C.getD i ⟨[], 0⟩).sat

theorem mem_satTab {f : Full} {p : ℕ × ℕ} :
    p ∈ f.satTab ↔ p.2 < f.C.length ∧ p.1 = satKey f.F.length (f.satRow p.2) := by
  rw [Full.satTab, List.mem_mapIdx]
  constructor
  · rintro ⟨i, hi, rfl⟩
    refine ⟨hi, ?_⟩
    rw [Full.satRow, List.getD_eq_getElem?_getD, List.getElem?_eq_getElem hi]; rfl
  · rintro ⟨hi, e⟩
    refine ⟨p.2, hi, ?_⟩
    rw [Full.satRow, List.getD_eq_getElem?_getD, List.getElem?_eq_getElem hi] at e
    exact Prod.ext e.symm rfl

/-- what is found has the same saturation row -/
theorem findRow_some {n : ℕ} {f : Full} {q : Row} {i : ℕ} (h : f.findRow n q = some i) :
    i < f.C.length ∧ satKey f.F.length (f.satRow i) = satKey f.F.length (satLine (n + 1) f.frows q) := by
  rw [Full.findRow, Option.map_eq_some_iff] at h
  obtain ⟨r, hr, rfl⟩ := h
  obtain ⟨-, h2, h3⟩ := bsearch_some hr
  have hr' : r < f.sortedTab.length := by rw [sortedTab_length]; exact h2
  have hm : f.sortedTab.getD r (0, 0) ∈ f.satTab := by
    rw [← (sortedTab_perm f).mem_iff, List.getD_eq_getElem?_getD, List.getElem?_eq_getElem hr']
    exact List.getElem_mem hr'
  obtain ⟨a, b⟩ := mem_satTab.1 hm
  exact ⟨a, by rw [← b, h3]⟩

/-- a row of the table with the same saturation row is found -/
theorem findRow_ne_none {n : ℕ} {f : Full} {q : Row} {i : ℕ} (hi : i < f.C.length)
    (h : satKey f.F.length (f.satRow i) = satKey f.F.length (satLine (n + 1) f.frows q)) : f.findRow n q ≠ none := by
  intro hn
  rw [Full.findRow, Option.map_eq_none_iff] at hn
  have hm : (satKey f.F.length (f.satRow i), i) ∈ f.sortedTab := (sortedTab_perm f).mem_iff.2 (mem_satTab.2 ⟨hi, rfl⟩)
  obtain ⟨r, hr, e⟩ := List.getElem_of_mem hm
  refine bsearch_none (sortedTab_sorted f) hn (Nat.zero_le r) (by rw [← sortedTab_length]; exact hr) ?_
  rw [List.getD_eq_getElem?_getD, List.getElem?_eq_getElem hr, e]
  exact h

end Apron.Poly
