import Verif.Fpp.BitVecs
import Verif.Props.FppElim

/-!
# C156: fppol, bit vectors are sets and Kohler's rule keeps a witness
-/

set_option autoImplicit false
set_option linter.unusedSectionVars false
set_option linter.ambiguousOpen false

namespace Apron.Props

open Apron.Fpp

/-- The vector has bit `m`. -/
def BMem (m : ℕ) (v : BV) : Prop := ((v[m / 8]?).getD 0#8).getLsbD (m % 8) = true

instance (m : ℕ) (v : BV) : Decidable (BMem m v) := by unfold BMem; infer_instance

theorem bmem_nil (m : ℕ) : ¬ BMem m [] := by simp [BMem]

theorem bmem_lo {m : ℕ} (hm : m < 8) (b : BitVec 8) (v : BV) : BMem m (b :: v) ↔ b.getLsbD m = true := by
  have h1 : m / 8 = 0 := by omega
  have h2 : m % 8 = m := by omega
  simp [BMem, h1, h2]

theorem bmem_hi (m : ℕ) (b : BitVec 8) (v : BV) : BMem (m + 8) (b :: v) ↔ BMem m v := by
  have h1 : (m + 8) / 8 = m / 8 + 1 := by omega
  have h2 : (m + 8) % 8 = m % 8 := by omega
  simp [BMem, h1, h2]

theorem forall_bits {P : ℕ → Prop} : (∀ m, P m) ↔ (∀ m, m < 8 → P m) ∧ ∀ m, P (m + 8) :=
  ⟨fun h => ⟨fun m _ => h m, fun m => h _⟩, fun h m => by
    by_cases hm : m < 8
    · exact h.1 m hm
    · have := h.2 (m - 8)
      rwa [show m - 8 + 8 = m by omega] at this⟩

theorem exists_bits {P : ℕ → Prop} : (∃ m, P m) ↔ (∃ m, m < 8 ∧ P m) ∨ ∃ m, P (m + 8) := by
  constructor
  · rintro ⟨m, h⟩
    by_cases hm : m < 8
    · exact Or.inl ⟨m, hm, h⟩
    · exact Or.inr ⟨m - 8, by rwa [show m - 8 + 8 = m by omega]⟩
  · rintro (⟨m, -, h⟩ | ⟨m, h⟩)
    · exact ⟨m, h⟩
    · exact ⟨_, h⟩

/-- `bv_or` is the union. -/
theorem C156_or (v w : BV) (h : v.length = w.length) : ∀ m, BMem m (bvOr v w) ↔ BMem m v ∨ BMem m w := by
  induction v generalizing w with
  | nil =>
    intro m
    cases w with
    | nil => simp [bvOr, bmem_nil]
    | cons b w => simp at h
  | cons a v ih =>
    cases w with
    | nil => simp at h
    | cons b w =>
      have ih := ih w (by simpa using h)
      rw [forall_bits]
      constructor
      · intro m hm
        simp only [bvOr, List.zipWith_cons_cons, bmem_lo hm]
        simp
      · intro m
        simp only [bvOr, List.zipWith_cons_cons, bmem_hi]
        exact ih m

theorem byte_subset (a b : BitVec 8) : (a &&& b) = a ↔ ∀ m, m < 8 → a.getLsbD m = true → b.getLsbD m = true := by
  constructor
  · intro h m _ ha
    rw [← h, BitVec.getLsbD_and] at ha
    simp at ha
    exact ha.2
  · intro h
    apply BitVec.eq_of_getLsbD_eq
    intro m hm
    rw [BitVec.getLsbD_and]
    have := h m hm
    cases ha : a.getLsbD m
    · rfl
    · simp [this ha]

/-- `bv_subset` is the inclusion. -/
theorem C156_subset (v w : BV) (h : v.length = w.length) :
    bvSubset v w = true ↔ ∀ m, BMem m v → BMem m w := by
  induction v generalizing w with
  | nil => simp [bvSubset, bmem_nil]
  | cons a v ih =>
    cases w with
    | nil => simp at h
    | cons b w =>
      have ih := ih w (by simpa using h)
      rw [forall_bits]
      unfold bvSubset
      have e1 : (∀ m, m < 8 → BMem m (a :: v) → BMem m (b :: w)) ↔ (a &&& b) = a := by
        rw [byte_subset]
        constructor
        · intro h m hm; have := h m hm; rwa [bmem_lo hm, bmem_lo hm] at this
        · intro h m hm; rw [bmem_lo hm, bmem_lo hm]; exact h m hm
      simp only [bmem_hi]
      rw [e1, ← ih]
      by_cases hab : (a &&& b) = a
      · simp [hab]
      · simp [hab]

theorem byte_zero (a : BitVec 8) : a = 0#8 ↔ ∀ m, m < 8 → a.getLsbD m = false := by
  constructor
  · intro h m _; rw [h]; simp
  · intro h
    apply BitVec.eq_of_getLsbD_eq
    intro m hm
    rw [h m hm]; simp

/-- `bv_andTest` tells whether two vectors have a common bit. -/
theorem C156_and_test (v w : BV) (h : v.length = w.length) :
    bvAndTest v w = true ↔ ∃ m, BMem m v ∧ BMem m w := by
  induction v generalizing w with
  | nil => simp [bvAndTest, bmem_nil]
  | cons a v ih =>
    cases w with
    | nil => simp at h
    | cons b w =>
      have ih := ih w (by simpa using h)
      rw [exists_bits]
      unfold bvAndTest
      have e1 : (∃ m, m < 8 ∧ BMem m (a :: v) ∧ BMem m (b :: w)) ↔ (a &&& b) ≠ 0#8 := by
        rw [Ne, byte_zero]
        constructor
        · rintro ⟨m, hm, h1, h2⟩ h
          rw [bmem_lo hm] at h1 h2
          have := h m hm
          rw [BitVec.getLsbD_and, h1, h2] at this
          simp at this
        · intro h
          by_contra hc
          apply h
          intro m hm
          by_contra hne
          apply hc
          refine ⟨m, hm, ?_⟩
          rw [bmem_lo hm, bmem_lo hm]
          rw [BitVec.getLsbD_and] at hne
          simpa using hne
      simp only [bmem_hi]
      rw [e1, ← ih]
      by_cases hab : (a &&& b) = 0#8
      · simp [hab]
      · simp [hab]

/-- The number of bits of a byte. -/
theorem byteOnes_eq : ∀ b : BitVec 8,
    byteOnes 8 b = ((List.range 8).filter fun m => b.getLsbD m).length := by
  decide +kernel

/-- `bv_1bits` is the number of bits. -/
theorem C156_ones (v : BV) :
    bvOnes v = ((List.range (8 * v.length)).filter fun m => decide (BMem m v)).length := by
  induction v with
  | nil => rfl
  | cons b v ih =>
    have e : List.range (8 * (b :: v).length) = List.range 8 ++ (List.range (8 * v.length)).map (8 + ·) := by
      rw [List.length_cons, show 8 * (v.length + 1) = 8 + 8 * v.length by omega, List.range_add]
    rw [e, List.filter_append, List.length_append, List.filter_map, List.length_map]
    have e1 : (List.range 8).filter (fun m => decide (BMem m (b :: v))) =
        (List.range 8).filter fun m => b.getLsbD m := by
      apply List.filter_congr
      intro m hm
      rw [Bool.eq_iff_iff, decide_eq_true_eq]
      exact bmem_lo (List.mem_range.1 hm) b v
    have e2 : (List.range (8 * v.length)).filter ((fun m => decide (BMem m (b :: v))) ∘ (8 + ·)) =
        (List.range (8 * v.length)).filter fun m => decide (BMem m v) := by
      apply List.filter_congr
      intro m _
      rw [Bool.eq_iff_iff, Function.comp, decide_eq_true_eq, decide_eq_true_eq, Nat.add_comm]
      exact bmem_hi m b v
    rw [e1, e2, ← ih, ← byteOnes_eq]
    show (if b ≠ 0#8 then byteOnes 8 b else 0) + bvOnes v = byteOnes 8 b + bvOnes v
    congr 1
    by_cases hb : b = 0#8
    · rw [hb]; rfl
    · rw [if_pos hb]

/-- The vector of a row at the start has one bit, that of the row. -/
theorem C156_unit (c i : ℕ) (hi : i < 8 * c) (m : ℕ) : BMem m (bvUnit c i) ↔ m = i := by
  have hb : i / 8 < c := by omega
  have hone : ∀ r, r < 8 → ∀ k, k < 8 →
      ((if r = 0 then 1#8 else 1#8 <<< r).getLsbD k = true ↔ k = r) := by decide +kernel
  unfold BMem bvUnit
  by_cases h : m / 8 = i / 8
  · rw [h, List.getElem?_set_self (by simpa using hb)]
    rw [Option.getD_some, hone (i % 8) (by omega) (m % 8) (by omega)]
    omega
  · rw [List.getElem?_set_ne (fun e => h e.symm)]
    have : ((List.replicate c 0#8)[m / 8]?).getD 0#8 = 0#8 := by
      by_cases hm : m / 8 < c <;> simp [hm, List.getElem?_replicate]
    rw [this]
    simp
    intro e; exact h (by rw [e])

/-! ## Kohler's rule -/

/-- Every row that is removed has a row that is kept, with a smaller set. -/
def Wit (v : ℕ → BV) (n : ℕ) (rr : ℕ → Bool) : Prop :=
  ∀ i, i < n → rr i = true → ∃ k, k < n ∧ rr k = false ∧ ∀ m, BMem m (v k) → BMem m (v i)

theorem wit_step {v : ℕ → BV} {n : ℕ} {rr : ℕ → Bool} (h : Wit v n rr) {i j : ℕ} (hj : j < n)
    (hji : j ≠ i) (hr : rr j = false) (hs : ∀ m, BMem m (v j) → BMem m (v i)) :
    Wit v n (Function.update rr i true) := by
  intro x hx hrx
  by_cases hxi : x = i
  · subst hxi
    exact ⟨j, hj, by rw [Function.update_of_ne hji]; exact hr, hs⟩
  · rw [Function.update_of_ne hxi] at hrx
    obtain ⟨k, hk, hrk, hsk⟩ := h x hx hrx
    by_cases hki : k = i
    · subst hki
      exact ⟨j, hj, by rw [Function.update_of_ne hji]; exact hr, fun m hm => hsk m (hs m hm)⟩
    · exact ⟨k, hk, by rw [Function.update_of_ne hki]; exact hrk, hsk⟩

/-- Two rows neither of which contains the other. -/
def Incomp (v : ℕ → BV) (i j : ℕ) : Prop :=
  (¬ ∀ m, BMem m (v i) → BMem m (v j)) ∧ ¬ ∀ m, BMem m (v j) → BMem m (v i)

theorem kohlerInner_spec {v : ℕ → BV} {c n : ℕ} (hl : ∀ i, i < n → (v i).length = c) {i : ℕ} (hi : i < n)
    (js : List ℕ) : ∀ (rr : ℕ → Bool), (∀ j ∈ js, i < j ∧ j < n) → Wit v n rr → rr i = false →
    Wit v n (kohlerInner v i js rr) ∧ (∀ x, rr x = true → kohlerInner v i js rr x = true) ∧
    (∀ x, x < i → kohlerInner v i js rr x = rr x) ∧
    (kohlerInner v i js rr i = false → ∀ j ∈ js, kohlerInner v i js rr j = false → Incomp v i j) := by
  induction js with
  | nil => intro rr _ hw _; exact ⟨hw, fun _ h => h, fun _ _ => rfl, by simp⟩
  | cons j js ih =>
    intro rr hjs hw hri
    obtain ⟨hij, hjn⟩ := hjs j List.mem_cons_self
    have hjs' : ∀ j ∈ js, i < j ∧ j < n := fun x hx => hjs x (List.mem_cons_of_mem _ hx)
    have s1 := C156_subset (v j) (v i) (by rw [hl j hjn, hl i hi])
    have s2 := C156_subset (v i) (v j) (by rw [hl j hjn, hl i hi])
    unfold kohlerInner
    by_cases c1 : rr j = true
    · rw [if_pos c1]
      obtain ⟨h1, h2, h3, h4⟩ := ih rr hjs' hw hri
      refine ⟨h1, h2, h3, ?_⟩
      intro hk x hx hkx
      rcases List.mem_cons.1 hx with e | e
      · subst e; rw [h2 x c1] at hkx; cases hkx
      · exact h4 hk x e hkx
    rw [if_neg c1]
    have c1' : rr j = false := by simpa using c1
    by_cases c2 : bvSubset (v j) (v i) = true
    · rw [if_pos c2]
      refine ⟨wit_step hw hjn (by omega) c1' (s1.1 c2), ?_, ?_, ?_⟩
      · intro x hx
        by_cases e : x = i
        · rw [e, Function.update_self]
        · rw [Function.update_of_ne e]; exact hx
      · intro x hx; rw [Function.update_of_ne (by omega)]
      · intro h; rw [Function.update_self] at h; cases h
    rw [if_neg c2]
    by_cases c3 : bvSubset (v i) (v j) = true
    · rw [if_pos c3]
      obtain ⟨h1, h2, h3, h4⟩ := ih (Function.update rr j true) hjs'
        (wit_step hw hi (by omega) hri (s2.1 c3)) (by rw [Function.update_of_ne (by omega)]; exact hri)
      refine ⟨h1, ?_, ?_, ?_⟩
      · intro x hx
        apply h2
        by_cases e : x = j
        · rw [e, Function.update_self]
        · rw [Function.update_of_ne e]; exact hx
      · intro x hx; rw [h3 x hx, Function.update_of_ne (by omega)]
      · intro hk x hx hkx
        rcases List.mem_cons.1 hx with e | e
        · subst e; rw [h2 x (Function.update_self _ _ _)] at hkx; cases hkx
        · exact h4 hk x e hkx
    · rw [if_neg c3]
      obtain ⟨h1, h2, h3, h4⟩ := ih rr hjs' hw hri
      refine ⟨h1, h2, h3, ?_⟩
      intro hk x hx hkx
      rcases List.mem_cons.1 hx with e | e
      · subst e; exact ⟨fun h => c3 (s2.2 h), fun h => c2 (s1.2 h)⟩
      · exact h4 hk x e hkx

theorem kohlerOuter_spec {v : ℕ → BV} {c n : ℕ} (hl : ∀ i, i < n → (v i).length = c) :
    ∀ (k s : ℕ) (rr : ℕ → Bool), s + k ≤ n → Wit v n rr →
    Wit v n (kohlerOuter v n (List.range' s k) rr) ∧
    (∀ x, rr x = true → kohlerOuter v n (List.range' s k) rr x = true) ∧
    (∀ x, x < s → kohlerOuter v n (List.range' s k) rr x = rr x) ∧
    ∀ i j, s ≤ i → i < s + k → i < j → j < n → kohlerOuter v n (List.range' s k) rr i = false →
      kohlerOuter v n (List.range' s k) rr j = false → Incomp v i j := by
  intro k
  induction k with
  | zero => intro s rr _ hw; exact ⟨hw, fun _ h => h, fun _ _ => rfl, by intros; omega⟩
  | succ k ih =>
    intro s rr hs hw
    rw [List.range'_succ]
    unfold kohlerOuter
    by_cases c1 : rr s = true
    · rw [if_pos c1]
      obtain ⟨h1, h2, h3, h4⟩ := ih (s + 1) rr (by omega) hw
      refine ⟨h1, h2, fun x hx => h3 x (by omega), ?_⟩
      intro i j h5 h6 h7 h8 h9 h10
      by_cases e : i = s
      · subst e; rw [h2 i c1] at h9; cases h9
      · exact h4 i j (by omega) (by omega) h7 h8 h9 h10
    · rw [if_neg c1]
      obtain ⟨g1, g2, g3, g4⟩ := kohlerInner_spec hl (i := s) (by omega)
        (List.range' (s + 1) (n - (s + 1))) rr
        (by intro j hj; simp only [List.mem_range'_1] at hj; omega) hw (by simpa using c1)
      obtain ⟨h1, h2, h3, h4⟩ := ih (s + 1) _ (by omega) g1
      refine ⟨h1, fun x hx => h2 x (g2 x hx), fun x hx => by rw [h3 x (by omega), g3 x hx], ?_⟩
      intro i j h5 h6 h7 h8 h9 h10
      by_cases e : i = s
      · subst e
        rw [h3 i (by omega)] at h9
        apply g4 h9 j (by simp only [List.mem_range'_1]; omega)
        by_contra hc
        rw [h2 j (by simpa using hc)] at h10
        cases h10
      · exact h4 i j (by omega) (by omega) h7 h8 h9 h10

/-- `bv_redundancy_removal_firstKs_byKohler` with one vector at least: the rows that are kept are
rows that were given, in their order; every row that is not kept has a row that is kept whose set is
included in its own; of two rows that are kept none includes the other. -/
theorem C156_kohler (v : ℕ → BV) (c n : ℕ) (hn : 0 < n) (hl : ∀ i, i < n → (v i).length = c) :
    ∃ l, kohler v n = some l ∧ l.Sublist (List.range n) ∧
      (∀ i, i < n → i ∉ l → ∃ k ∈ l, ∀ m, BMem m (v k) → BMem m (v i)) ∧
      ∀ i ∈ l, ∀ j ∈ l, i ≠ j → ¬ ∀ m, BMem m (v i) → BMem m (v j) := by
  obtain ⟨h1, -, -, h4⟩ := kohlerOuter_spec hl (n - 1) 0 (fun _ => false) (by omega)
    (by intro i _ h; cases h)
  rw [← List.range_eq_range'] at h1 h4
  refine ⟨_, by unfold kohler; rw [if_neg (by omega)], List.filter_sublist, ?_, ?_⟩
  · intro i hi hil
    simp only [List.mem_filter, List.mem_range, Bool.not_eq_true', not_and, Bool.not_eq_false] at hil
    obtain ⟨k, hk, hrk, hs⟩ := h1 i hi (hil hi)
    exact ⟨k, by simp [hk, hrk], hs⟩
  · intro i hi j hj hij
    simp only [List.mem_filter, List.mem_range, Bool.not_eq_true'] at hi hj
    rcases lt_or_gt_of_ne hij with h | h
    · exact (h4 i j (by omega) (by omega) h hj.1 hi.2 hj.2).1
    · exact (h4 j i (by omega) (by omega) h hi.1 hj.2 hi.2).2

theorem kohlerLazyLoop_spec {v : ℕ → BV} {c n z e : ℕ} (hl : ∀ i, i < n → (v i).length = c) (hz : z ≤ n)
    (is : List ℕ) : ∀ (rr : ℕ → Bool), (∀ i ∈ is, z ≤ i ∧ i < n) → Wit v n rr →
    (∀ x, x < z → rr x = false) → Wit v n (kohlerLazyLoop v n z e is rr) ∧
    ∀ x, x < z → kohlerLazyLoop v n z e is rr x = false := by
  induction is with
  | nil => intro rr _ hw h0; exact ⟨hw, h0⟩
  | cons i is ih =>
    intro rr his hw h0
    obtain ⟨hzi, hin⟩ := his i List.mem_cons_self
    have his' := fun x hx => his x (List.mem_cons_of_mem i hx)
    have h0' : ∀ x, x < z → Function.update rr i true x = false := fun x hx => by
      rw [Function.update_of_ne (by omega)]; exact h0 x hx
    unfold kohlerLazyLoop
    by_cases c1 : e + 1 < bvOnes (v i)
    · rw [if_pos c1]
      by_cases c2 : (List.range n).any (fun j => !(rr j || decide (j = i)) && bvSubset (v j) (v i)) = true
      · rw [if_pos c2]
        rw [List.any_eq_true] at c2
        obtain ⟨j, hj, hj2⟩ := c2
        simp only [Bool.and_eq_true, Bool.not_eq_true', Bool.or_eq_false_iff, decide_eq_false_iff_not] at hj2
        have hjn := List.mem_range.1 hj
        exact ih _ his' (wit_step hw hjn hj2.1.2 hj2.1.1
          ((C156_subset (v j) (v i) (by rw [hl j hjn, hl i hin])).1 hj2.2)) h0'
      · rw [if_neg c2]; exact ih rr his' hw h0
    · rw [if_neg c1]
      by_cases c2 : (List.range z).any (fun j => bvSubset (v j) (v i)) = true
      · rw [if_pos c2]
        rw [List.any_eq_true] at c2
        obtain ⟨j, hj, hj2⟩ := c2
        have hjz := List.mem_range.1 hj
        exact ih _ his' (wit_step hw (by omega) (by omega) (h0 j hjz)
          ((C156_subset (v j) (v i) (by rw [hl j (by omega), hl i hin])).1 hj2)) h0'
      · rw [if_neg c2]; exact ih rr his' hw h0

/-- `bv_redundancy_removal_byKohler_lazy`: the rows without the variable are all kept, the rows
that are kept are in their order, and every row that is not kept has a row that is kept whose set is
included in its own. -/
theorem C156_kohler_lazy (v : ℕ → BV) (c n z e : ℕ) (hz : z ≤ n) (hl : ∀ i, i < n → (v i).length = c) :
    (kohlerLazy v n z e).Sublist (List.range n) ∧ (∀ i, i < z → i ∈ kohlerLazy v n z e) ∧
      ∀ i, i < n → i ∉ kohlerLazy v n z e →
        ∃ k ∈ kohlerLazy v n z e, ∀ m, BMem m (v k) → BMem m (v i) := by
  obtain ⟨h1, h2⟩ := kohlerLazyLoop_spec (e := e) hl hz (List.range' z (n - z)) (fun _ => false)
    (by intro i hi; simp only [List.mem_range'_1] at hi; omega) (by intro i _ h; cases h) (fun _ _ => rfl)
  have hmem : ∀ k, k < n → kohlerLazyLoop v n z e (List.range' z (n - z)) (fun _ => false) k = false →
      k ∈ kohlerLazy v n z e := by
    intro k hk hr
    unfold kohlerLazy
    by_cases hkz : k < z
    · exact List.mem_append_left _ (List.mem_range.2 hkz)
    · apply List.mem_append_right
      simp only [List.mem_filter, List.mem_range'_1, hr]
      exact ⟨by omega, rfl⟩
  refine ⟨?_, fun i hi => List.mem_append_left _ (List.mem_range.2 hi), ?_⟩
  · have : List.range n = List.range z ++ List.range' z (n - z) := by
      rw [List.range_eq_range', List.range_eq_range', show n = z + (n - z) by omega, ← List.range'_append_1,
        Nat.zero_add, show z + (n - z) - z = n - z by omega]
    rw [this]
    exact List.Sublist.append (List.Sublist.refl _) List.filter_sublist
  · intro i hi hil
    have hr : kohlerLazyLoop v n z e (List.range' z (n - z)) (fun _ => false) i = true := by
      by_contra hc
      exact hil (hmem i hi (by simpa using hc))
    obtain ⟨k, hk, hrk, hs⟩ := h1 i hi hr
    exact ⟨k, hmem k hk hrk, hs⟩

/-! ## Histories -/

variable {K : Type*} [Field K] [LinearOrder K] [IsStrictOrderedRing K]

/-- The vector of a row covers where the row comes from: a point within the bounds that satisfies
the original rows of the vector satisfies the row. -/
def Covers (n : ℕ) (B : Bnds K) (orig : ℕ → FRow K) (v : BV) (r : FRow K) : Prop :=
  ∀ ρ, InBnds n B ρ → (∀ m, BMem m v → FSat n (orig m).1 (orig m).2 ρ) → FSat n r.1 r.2 ρ

/-- At the start, the vector of each row covers it. -/
theorem C156_history_start (n c : ℕ) (B : Bnds K) (orig : ℕ → FRow K) (i : ℕ) (hi : i < 8 * c) :
    Covers n B orig (bvUnit c i) (orig i) :=
  fun _ _ h => h i ((C156_unit c i hi i).2 rfl)

/-- Elimination: the union of the vectors of two rows covers their combination
(`fppol/fm.c:308-313`). -/
theorem C156_history_combine (R : Rd K) (isInt : K → Bool) (big : K) (n i : ℕ) (B : Bnds K)
    (orig : ℕ → FRow K) (v w : BV) (hvw : v.length = w.length) (p q : FRow K) (hp : 0 < p.2 i)
    (hq : q.2 i < 0) (cp : Covers n B orig v p) (cq : Covers n B orig w q) (c : K) (a : ℕ → K)
    (h : pairRow R isInt big n i B p q = .con c a) : Covers n B orig (bvOr v w) (c, a) := by
  intro ρ hB hs
  have := pairRow_sound (R := R) (isInt := isInt) (big := big) hp hq hB
    (cp ρ hB fun m hm => hs m ((C156_or v w hvw m).2 (Or.inl hm)))
    (cq ρ hB fun m hm => hs m ((C156_or v w hvw m).2 (Or.inr hm)))
  rw [h] at this
  exact this

end Apron.Props
