import Verif.Oct.ClosureSound

/-! # Helper lemmas: path algebra behind the closure (exact arithmetic)

A matrix is handled through its upper sets `A i j ≤ fin x`, so that linear arithmetic applies. -/

set_option autoImplicit false
set_option linter.unusedSectionVars false
set_option linter.ambiguousOpen false

namespace Apron
namespace Oct
open Bound
variable {K : Type*} [LinearOrder K] [Field K] [IsStrictOrderedRing K]

theorem add_exact_le {a b : Bound K} (ha : a ≠ ninf) (hb : b ≠ ninf) {x : K}
    (h : add Rnd.exact a b ≤ fin x) : ∃ y z, a ≤ fin y ∧ b ≤ fin z ∧ y + z ≤ x := by
  cases a <;> cases b <;> simp_all [add]
  rename_i p q
  exact ⟨p, le_refl _, q, le_refl _, h⟩

theorem add_exact_ne {a b : Bound K} (ha : a ≠ ninf) (hb : b ≠ ninf) :
    add Rnd.exact a b ≠ ninf := by
  cases a <;> cases b <;> simp_all [add]

theorem le_add_exact {a b : Bound K} {y z : K} (ha : a ≤ fin y) (hb : b ≤ fin z)
    (ha' : a ≠ ninf) (hb' : b ≠ ninf) : add Rnd.exact a b ≤ fin (y + z) := by
  cases a <;> cases b <;> simp_all [add]
  linarith

theorem eq_of_upper {a b : Bound K} (ha : a ≠ ninf) (hb : b ≠ ninf)
    (h : ∀ x, a ≤ fin x ↔ b ≤ fin x) : a = b := by
  cases a with
  | ninf => exact absurd rfl ha
  | pinf =>
    cases b with
    | ninf => exact absurd rfl hb
    | pinf => rfl
    | fin q => have := (h q).2 (le_refl _); simp at this
  | fin p =>
    cases b with
    | ninf => exact absurd rfl hb
    | pinf => have := (h p).1 (le_refl _); simp at this
    | fin q =>
      exact le_antisymm ((h q).2 (le_refl _)) ((h p).1 (le_refl _))

/-- coherence of a full matrix view: `(i,j)` and `(j^1,i^1)` are the same constraint -/
def Coh (A : ℕ → ℕ → Bound K) : Prop := ∀ i j, A i j = A (j ^^^ 1) (i ^^^ 1)

/-- the triangle inequality through `p` -/
def ClosedAt (A : ℕ → ℕ → Bound K) (p : ℕ) : Prop :=
  ∀ i j a b, A i p ≤ fin a → A p j ≤ fin b → A i j ≤ fin (a + b)

/-- `s` is one of the two pivots -/
def Pv (k s : ℕ) : Prop := s = k ∨ s = k ^^^ 1

theorem Pv.xor {k s : ℕ} (h : Pv k s) : Pv k (s ^^^ 1) := by
  rcases h with rfl | rfl
  · right; rfl
  · left; simp

theorem Pv.swap {k s : ℕ} : Pv (k ^^^ 1) s ↔ Pv k s := by
  unfold Pv; rw [xor1_xor1]; exact or_comm

theorem Pv.cases {k s t : ℕ} (hs : Pv k s) (ht : Pv k t) : t = s ∨ t = s ^^^ 1 := by
  rcases hs with rfl | rfl <;> rcases ht with rfl | rfl <;> simp

def D (A : ℕ → ℕ → Bound K) (s t : ℕ) (d : K) : Prop := if s = t then 0 ≤ d else A s t ≤ fin d

def CU (A : ℕ → ℕ → Bound K) (k i j : ℕ) (x : K) : Prop :=
  A i j ≤ fin x ∨ ∃ s t a d b, Pv k s ∧ Pv k t ∧ A i s ≤ fin a ∧ D A s t d ∧ A t j ≤ fin b ∧
    a + d + b ≤ x

/-- no negative cycle through the pivots -/
def NN (A : ℕ → ℕ → Bound K) (k : ℕ) : Prop :=
  ∀ s, Pv k s → (∀ a, A s s ≤ fin a → 0 ≤ a) ∧
    (∀ a b, A s (s ^^^ 1) ≤ fin a → A (s ^^^ 1) s ≤ fin b → 0 ≤ a + b)

variable {A : ℕ → ℕ → Bound K} {k : ℕ}

theorem D_refl (s : ℕ) : D A s s 0 := by simp [D]

theorem D_trans (hn : NN A k) {s t u : ℕ} {d e : K} (hs : Pv k s) (ht : Pv k t) (hu : Pv k u)
    (h1 : D A s t d) (h2 : D A t u e) : D A s u (d + e) := by
  unfold D at *
  by_cases e1 : s = t
  · subst e1
    rw [if_pos rfl] at h1
    split_ifs at h2 ⊢
    · linarith
    · exact le_trans h2 (by simp [h1])
  · rw [if_neg e1] at h1
    by_cases e2 : t = u
    · subst e2
      rw [if_pos rfl] at h2
      rw [if_neg e1]
      exact le_trans h1 (by simp [h2])
    · rw [if_neg e2] at h2
      have ht' := (hs.cases ht).resolve_left (Ne.symm e1)
      have hu' := (ht.cases hu).resolve_left (Ne.symm e2)
      subst ht'
      rw [xor1_xor1] at hu'
      subst hu'
      rw [if_pos rfl]
      exact (hn u hs).2 d e h1 h2

theorem D_absorb (hn : NN A k) {s t : ℕ} {d : K} (hs : Pv k s) (h : A s t ≤ fin d) : D A s t d := by
  unfold D
  split_ifs with e
  · subst e; exact (hn s hs).1 d h
  · exact h

theorem CU_mono {i j : ℕ} {x y : K} (hxy : x ≤ y) (h : CU A k i j x) : CU A k i j y := by
  rcases h with h | ⟨s, t, a, d, b, h1, h2, h3, h4, h5, h6⟩
  · exact Or.inl (le_trans h (by simpa using hxy))
  · exact Or.inr ⟨s, t, a, d, b, h1, h2, h3, h4, h5, le_trans h6 hxy⟩

theorem CU_left (hn : NN A k) {i s : ℕ} {x : K} (hs : Pv k s) (h : CU A k i s x) :
    ∃ s1 a d, Pv k s1 ∧ A i s1 ≤ fin a ∧ D A s1 s d ∧ a + d ≤ x := by
  rcases h with h | ⟨s1, t, a, d, b, h1, h2, h3, h4, h5, h6⟩
  · exact ⟨s, x, 0, hs, h, D_refl s, by simp⟩
  · exact ⟨s1, a, d + b, h1, h3, D_trans hn h1 h2 hs h4 (D_absorb hn h2 h5), by linarith⟩

theorem CU_right (hn : NN A k) {j s : ℕ} {x : K} (hs : Pv k s) (h : CU A k s j x) :
    ∃ t d b, Pv k t ∧ D A s t d ∧ A t j ≤ fin b ∧ d + b ≤ x := by
  rcases h with h | ⟨s1, t, a, d, b, h1, h2, h3, h4, h5, h6⟩
  · exact ⟨s, 0, x, hs, D_refl s, h, by simp⟩
  · exact ⟨t, a + d, b, h2, D_trans hn hs h1 h2 (D_absorb hn hs h3) h4, h5, by linarith⟩

theorem CU_closed (hn : NN A k) {i s j : ℕ} {x y : K} (hs : Pv k s) (h1 : CU A k i s x)
    (h2 : CU A k s j y) : CU A k i j (x + y) := by
  obtain ⟨s1, a, d, p1, p2, p3, p4⟩ := CU_left hn hs h1
  obtain ⟨t1, e, b, q1, q2, q3, q4⟩ := CU_right hn hs h2
  exact Or.inr ⟨s1, t1, a, d + e, b, p1, q1, p2, D_trans hn p1 hs q1 p3 q2, q3, by linarith⟩

theorem D_coh (hc : Coh A) {s t : ℕ} {d : K} (h : D A s t d) : D A (t ^^^ 1) (s ^^^ 1) d := by
  unfold D at *
  by_cases e : s = t
  · subst e; simpa using h
  · rw [if_neg e] at h
    rw [if_neg (by rw [xor1_inj]; exact Ne.symm e), ← hc s t]
    exact h

theorem CU_coh (hc : Coh A) {i j : ℕ} {x : K} (h : CU A k i j x) :
    CU A k (j ^^^ 1) (i ^^^ 1) x := by
  rcases h with h | ⟨s, t, a, d, b, h1, h2, h3, h4, h5, h6⟩
  · left; rw [← hc i j]; exact h
  · refine Or.inr ⟨t ^^^ 1, s ^^^ 1, b, d, a, h2.xor, h1.xor, ?_, D_coh hc h4, ?_, by linarith⟩
    · rw [← hc t j]; exact h5
    · rw [← hc i s]; exact h3

theorem CU_swap {i j : ℕ} {x : K} : CU A (k ^^^ 1) i j x ↔ CU A k i j x := by
  unfold CU; simp only [Pv.swap]

theorem NN_swap : NN A (k ^^^ 1) ↔ NN A k := by unfold NN; simp only [Pv.swap]

theorem CU_closed_other (hn : NN A k) {p : ℕ} (hp : ClosedAt A p) {i j : ℕ} {x y : K}
    (h1 : CU A k i p x) (h2 : CU A k p j y) : CU A k i j (x + y) := by
  rcases h1 with h1 | ⟨s, t, a, d, b, p1, p2, p3, p4, p5, p6⟩
  · rcases h2 with h2 | ⟨s', t', a', d', b', q1, q2, q3, q4, q5, q6⟩
    · exact Or.inl (hp _ _ _ _ h1 h2)
    · exact Or.inr ⟨s', t', x + a', d', b', q1, q2, hp _ _ _ _ h1 q3, q4, q5, by linarith⟩
  · rcases h2 with h2 | ⟨s', t', a', d', b', q1, q2, q3, q4, q5, q6⟩
    · exact Or.inr ⟨s, t, a, d, b + y, p1, p2, p3, p4, hp _ _ _ _ p5 h2, by linarith⟩
    · have e := D_absorb hn p2 (hp _ _ _ _ p5 q3)
      exact Or.inr ⟨s, t', a, (d + (b + a')) + d', b', p1, q2, p3,
        D_trans hn p1 q1 q2 (D_trans hn p1 p2 q1 p4 e) q4, q5, by linarith⟩

/-! ### Full view of a half-matrix -/

/-- full matrix view of the memory, `+oo` outside the dimensions -/
def G (dim : ℕ) (m : Mem K) (i j : ℕ) : Bound K :=
  if i < 2 * dim ∧ j < 2 * dim then m (matpos2 i j) else pinf

/-- no cell holds `-oo` -/
def NoNinf (dim : ℕ) (m : Mem K) : Prop := ∀ p, p < matsize dim → m p ≠ ninf

/-- the two copies of each diagonal entry agree -/
def DiagCoh (dim : ℕ) (m : Mem K) : Prop :=
  ∀ i, i < 2 * dim → m (matpos i i) = m (matpos (i ^^^ 1) (i ^^^ 1))

variable {dim : ℕ}

theorem G_cell (m : Mem K) {i j : ℕ} (hi : i < 2 * dim) (hc : Cell i j) :
    G dim m i j = m (matpos i j) := by
  unfold G; rw [if_pos ⟨hi, by unfold Cell at hc; omega⟩, matpos2_cell hc]

theorem G_mirror (m : Mem K) {i j : ℕ} (hj : j < 2 * dim) (hc : Cell (j ^^^ 1) (i ^^^ 1)) :
    G dim m (j ^^^ 1) (i ^^^ 1) = m (matpos (j ^^^ 1) (i ^^^ 1)) :=
  G_cell m (xor1_lt hj) hc

theorem G_lt {m : Mem K} {i j : ℕ} {x : K} (h : G dim m i j ≤ fin x) : i < 2 * dim ∧ j < 2 * dim := by
  unfold G at h; by_contra hc; rw [if_neg hc] at h; simp at h

theorem G_ne {m : Mem K} (h : NoNinf dim m) (i j : ℕ) : G dim m i j ≠ ninf := by
  unfold G; split_ifs with hc
  · exact h _ (matpos2_lt hc.1 hc.2)
  · simp

theorem G_coh {m : Mem K} (h : DiagCoh dim m) : Coh (G dim m) := by
  intro i j
  unfold G
  by_cases hc : i < 2 * dim ∧ j < 2 * dim
  · rw [if_pos hc, if_pos ⟨xor1_lt hc.2, xor1_lt hc.1⟩]
    by_cases e : i / 2 = j / 2
    · by_cases e' : i = j
      · subst e'
        rw [matpos2_cell (cell_refl i), matpos2_cell (cell_refl _)]
        exact h i hc.1
      · have : j = i ^^^ 1 := by rw [xor1]; split_ifs <;> omega
        subst this; simp
    · rw [matpos2_mirror e]
  · rw [if_neg hc, if_neg]
    rintro ⟨h1, h2⟩
    exact hc ⟨xor1_lt_iff.1 h2, xor1_lt_iff.1 h1⟩

theorem diagCoh_of_coh {m : Mem K} (h : Coh (G dim m)) : DiagCoh dim m := by
  intro i hi
  have := h i i
  rwa [G_cell m hi (cell_refl i), G_cell m (xor1_lt hi) (cell_refl _)] at this

theorem G_mono {m m' : Mem K} (h : ∀ q, m q ≤ m' q) (i j : ℕ) : G dim m i j ≤ G dim m' i j := by
  unfold G; split_ifs
  · exact h _
  · exact le_refl _

theorem pos_eq_cases {i j i' j' : ℕ} (hc : Cell i j) (e : matpos2 i' j' = matpos i j) :
    (i' = i ∧ j' = j) ∨ (i' = j ^^^ 1 ∧ j' = i ^^^ 1) := by
  rw [matpos2_eq] at e
  split_ifs at e with h
  · exact Or.inl (matpos_inj h hc e)
  · have := matpos_inj ((cell_or_mirror i' j').resolve_left h) hc e
    right
    rw [← this.1, ← this.2]; simp

/-- reading the view after an update -/
theorem G_bmin {m : Mem K} {i j i' j' : ℕ} (hc : Cell i j) {v : Bound K} {x : K}
    (h : G dim (m.bmin (matpos i j) v) i' j' ≤ fin x) :
    G dim m i' j' ≤ fin x ∨ (v ≤ fin x ∧ ((i' = i ∧ j' = j) ∨ (i' = j ^^^ 1 ∧ j' = i ^^^ 1))) := by
  have hl := G_lt h
  unfold G at *
  rw [if_pos hl] at *
  unfold Mem.bmin at h
  by_cases e : matpos2 i' j' = matpos i j
  · rw [e, Mem.set_self, bmin_eq_min, min_le_iff] at h
    rcases h with h | h
    · left; rw [e]; exact h
    · exact Or.inr ⟨h, pos_eq_cases hc e⟩
  · rw [Mem.set_ne _ _ e] at h; exact Or.inl h

theorem NoNinf.bmin {m : Mem K} (h : NoNinf dim m) {p : ℕ} {v : Bound K} (hv : v ≠ ninf) :
    NoNinf dim (m.bmin p v) := by
  intro q hq
  unfold Mem.bmin
  by_cases e : q = p
  · subst e
    rw [Mem.set_self, bmin_eq_min]
    rcases min_choice (m q) v with h' | h' <;> rw [h']
    · exact h q hq
    · exact hv
  · rw [Mem.set_ne _ _ e]; exact h q hq

theorem NoNinf.set {m : Mem K} (h : NoNinf dim m) {p : ℕ} {v : Bound K} (hv : v ≠ ninf) :
    NoNinf dim (m.set p v) := by
  intro q hq
  by_cases e : q = p
  · subst e; rw [Mem.set_self]; exact hv
  · rw [Mem.set_ne _ _ e]; exact h q hq

end Oct
end Apron
