import Verif.Poly.BitLemmas

/-! # Property C145 (bitstrings and saturation matrices) -/

set_option autoImplicit false
set_option linter.unusedSectionVars false
set_option linter.ambiguousOpen false

namespace Apron
open Poly
variable {w : ℕ}

/-! ## indices -/

/-- Increment and decrement of an index agree with the flat index, in any word. -/
theorem C145_index (hw : 0 < w) (n : ℕ) :
    (BitIndex.init n : BitIndex w).inc = BitIndex.init (n + 1) ∧
    (BitIndex.init (n + 1) : BitIndex w).dec = BitIndex.init n ∧ (BitIndex.init n : BitIndex w).index = n :=
  ⟨init_inc hw n, init_dec hw n, rfl⟩

/-- The size is the least number of words that hold the bits. -/
theorem C145_size (hw : 0 < w) (n k : ℕ) : BitIndex.size w n ≤ k ↔ n ≤ w * k := by
  unfold BitIndex.size
  have h1 := Nat.div_add_mod n w
  have hr := Nat.mod_lt n hw
  split_ifs with h
  · constructor
    · intro hk
      have := Nat.mul_le_mul_left w hk
      rw [Nat.mul_add] at this
      omega
    · intro hk
      by_contra hlt
      have : k ≤ n / w := by omega
      have := Nat.mul_le_mul_left w this
      omega
  · constructor
    · intro hk
      have := Nat.mul_le_mul_left w hk
      omega
    · intro hk
      have h2 : w * (n / w) ≤ w * k := by omega
      exact Nat.le_of_mul_le_mul_left h2 hw

/-! ## bits of a bitstring -/

/-- Reading a bit of the array is defined, and is non-zero when the bit is set. -/
theorem C145_get (hw : 0 < w) (b : BitStr w) (n : ℕ) (h : n < w * b.length) :
    ∃ x, b.get (.init n) = some x ∧ (x ≠ 0 ↔ b.bitOf n = true) :=
  get_init hw (by rw [Nat.div_lt_iff_lt_mul hw, Nat.mul_comm]; exact h)

/-- Setting a bit is defined and changes no other bit. -/
theorem C145_set (hw : 0 < w) (b : BitStr w) (n : ℕ) (h : n < w * b.length) :
    ∃ r, b.set (.init n) = some r ∧ r.length = b.length ∧ r.bitOf n = true ∧ ∀ j, j ≠ n → r.bitOf j = b.bitOf j := by
  obtain ⟨r, h1, h2, h3⟩ := set_init hw (b := b) (n := n) (by rw [Nat.div_lt_iff_lt_mul hw, Nat.mul_comm]; exact h)
  exact ⟨r, h1, h2, by rw [h3]; simp, fun j hj => by rw [h3]; simp [hj]⟩

/-- Clearing a bit is defined and changes no other bit. -/
theorem C145_clr (hw : 0 < w) (b : BitStr w) (n : ℕ) (h : n < w * b.length) :
    ∃ r, b.clr (.init n) = some r ∧ r.length = b.length ∧ r.bitOf n = false ∧ ∀ j, j ≠ n → r.bitOf j = b.bitOf j := by
  obtain ⟨r, h1, h2, h3⟩ := clr_init hw (b := b) (n := n) (by rw [Nat.div_lt_iff_lt_mul hw, Nat.mul_comm]; exact h)
  exact ⟨r, h1, h2, by rw [h3]; simp, fun j hj => by rw [h3]; simp [hj]⟩

theorem bitOf_append {b c : BitStr w} (hw : 0 < w) (j : ℕ) :
    BitStr.bitOf (b ++ c) j = if j < w * b.length then b.bitOf j else c.bitOf (j - w * b.length) := by
  unfold BitStr.bitOf
  split_ifs with h
  · have : j / w < b.length := by rw [Nat.div_lt_iff_lt_mul hw, Nat.mul_comm]; exact h
    rw [List.getD_append _ _ _ _ this]
  · have h1 : b.length ≤ j / w := by rw [Nat.le_div_iff_mul_le hw, Nat.mul_comm]; omega
    rw [List.getD_append_right _ _ _ _ h1]
    have h2 : j = w * b.length + (j - w * b.length) := by omega
    have e1 : (j - w * b.length) / w = j / w - b.length := Nat.sub_mul_div j w b.length
    have e2 : (j - w * b.length) % w = j % w := by
      conv_rhs => rw [h2]
      rw [Nat.mul_add_mod]
    rw [e1, e2]

theorem bitOf_take (hw : 0 < w) (b : BitStr w) (n j : ℕ) :
    BitStr.bitOf (b.take n) j = (decide (j < w * n) && b.bitOf j) := by
  unfold BitStr.bitOf
  have h : (j / w < n) ↔ j < w * n := by rw [Nat.div_lt_iff_lt_mul hw, Nat.mul_comm]
  rw [List.getD_eq_getElem?_getD, List.getD_eq_getElem?_getD, List.getElem?_take]
  by_cases hj : j < w * n
  · rw [if_pos (h.2 hj)]; simp [hj]
  · rw [if_neg (fun h' => hj (h.1 h'))]; simp [hj]

/-- Clearing a string sets its first words to zero and keeps the others. -/
theorem C145_clear (hw : 0 < w) (b : BitStr w) (size : ℕ) (h : size ≤ b.length) :
    ∃ r, b.clear size = some r ∧ r.length = b.length ∧
      ∀ j, r.bitOf j = (decide (w * size ≤ j) && b.bitOf j) := by
  refine ⟨_, by unfold BitStr.clear; rw [if_pos h], by simp; omega, fun j => ?_⟩
  rw [bitOf_append hw, bitOf_zero]
  simp only [List.length_replicate]
  split_ifs with h1
  · have : ¬ w * size ≤ j := by omega
    simp [this]
  · have h2 : w * size ≤ j := by omega
    have := bitOf_append hw (b := b.take size) (c := b.drop size) j
    rw [List.take_append_drop, List.length_take, Nat.min_eq_left h, if_neg h1] at this
    rw [← this]; simp [h2]

/-- A copy has the bits of the source in its first words. -/
theorem C145_copy (hw : 0 < w) (b2 b1 : BitStr w) (size : ℕ) (h1 : size ≤ b1.length) (h2 : size ≤ b2.length) :
    ∃ r, b2.copy b1 size = some r ∧ r.length = b2.length ∧
      ∀ j, r.bitOf j = if j < w * size then b1.bitOf j else b2.bitOf j := by
  refine ⟨_, by unfold BitStr.copy; rw [if_pos ⟨h1, h2⟩], by simp; omega, fun j => ?_⟩
  rw [bitOf_append hw, List.length_take, Nat.min_eq_left h1]
  split_ifs with h
  · rw [bitOf_take hw]; simp [h]
  · have := bitOf_append hw (b := b2.take size) (c := b2.drop size) j
    rw [List.take_append_drop, List.length_take, Nat.min_eq_left h2, if_neg h] at this
    rw [this]

/-- The comparison is the order of the two sequences of bits: the first bit where they differ decides. -/
theorem C145_cmp (hw : 0 < w) : ∀ (n : ℕ) (a b : BitStr w), n ≤ a.length → n ≤ b.length →
    (BitStr.cmp n a b = some 0 ∧ (∀ j, j < w * n → a.bitOf j = b.bitOf j)) ∨
    (BitStr.cmp n a b = some (-1) ∧ ∃ k, k < w * n ∧ (∀ j, j < k → a.bitOf j = b.bitOf j) ∧
      a.bitOf k = false ∧ b.bitOf k = true) ∨
    (BitStr.cmp n a b = some 1 ∧ ∃ k, k < w * n ∧ (∀ j, j < k → a.bitOf j = b.bitOf j) ∧
      a.bitOf k = true ∧ b.bitOf k = false) := by
  have hhead : ∀ (x : BitVec w) (a : BitStr w) (j : ℕ), j < w → BitStr.bitOf (x :: a) j = x.getMsbD j := by
    intro x a j hj
    unfold BitStr.bitOf
    rw [Nat.div_eq_of_lt hj, Nat.mod_eq_of_lt hj]; rfl
  have htail : ∀ (x : BitVec w) (a : BitStr w) (j : ℕ), BitStr.bitOf (x :: a) (w + j) = a.bitOf j := by
    intro x a j
    have := bitOf_append hw (b := [x]) (c := a) (w + j)
    simpa using this
  have hlt : ∀ x y : BitVec w, x < y → ∃ k, k < w ∧ (∀ j, j < k → x.getMsbD j = y.getMsbD j) ∧
      x.getMsbD k = false ∧ y.getMsbD k = true := by
    intro x y hxy
    have hne : ∃ k, x.getMsbD k ≠ y.getMsbD k := by
      by_contra hcon
      push Not at hcon
      have : x = y := BitVec.eq_of_getMsbD_eq fun i _ => hcon i
      rw [this] at hxy
      exact BitVec.lt_irrefl _ hxy
    classical
    have hk := Nat.find_spec hne
    have hmin : ∀ j, j < Nat.find hne → x.getMsbD j = y.getMsbD j := fun j hj => not_not.1 (Nat.find_min hne hj)
    generalize Nat.find hne = k at hk hmin
    have hkw : k < w := by
      by_contra h
      exact hk (by simp [BitVec.getMsbD, h])
    refine ⟨k, hkw, hmin, ?_⟩
    have hcase : ∀ u v : BitVec w, (∀ j, j < k → u.getMsbD j = v.getMsbD j) → u.getMsbD k = false →
        v.getMsbD k = true → u < v := by
      intro u v h1 h2 h3
      have hu : ∀ (z : BitVec w) (i : ℕ), i < w → z.getMsbD i = z.toNat.testBit (w - 1 - i) := by
        intro z i hi
        simp [BitVec.getMsbD, hi, BitVec.getLsbD]
      rw [hu _ _ hkw] at h2 h3
      rw [BitVec.lt_def]
      refine Nat.lt_of_testBit _ h2 h3 fun j hj => ?_
      by_cases hjw : j < w
      · have := h1 (w - 1 - j) (by omega)
        rw [hu _ _ (by omega), hu _ _ (by omega)] at this
        have e : w - 1 - (w - 1 - j) = j := by omega
        rwa [e] at this
      · rw [BitVec.testBit_toNat, BitVec.testBit_toNat, BitVec.getLsbD_of_ge _ _ (by omega), BitVec.getLsbD_of_ge _ _ (by omega)]
    rcases hx : x.getMsbD k with _ | _ <;> rcases hy : y.getMsbD k with _ | _
    · exact absurd (hx.trans hy.symm) hk
    · exact ⟨rfl, rfl⟩
    · have := hcase y x (fun j hj => (hmin j hj).symm) hy hx
      exact absurd (BitVec.lt_trans hxy this) (BitVec.lt_irrefl _)
    · exact absurd (hx.trans hy.symm) hk
  intro n
  induction n with
  | zero => intro a b _ _; left; exact ⟨by simp [BitStr.cmp], by simp⟩
  | succ n ih =>
    intro a b ha hb
    rcases a with _ | ⟨x, a⟩
    · simp at ha
    rcases b with _ | ⟨y, b⟩
    · simp at hb
    have hmul : w * (n + 1) = w + w * n := by ring
    have htri : x < y ∨ x = y ∨ y < x := by
      rw [BitVec.lt_def, BitVec.lt_def, BitVec.toNat_eq]; omega
    rcases htri with hxy | hxy | hxy
    · obtain ⟨k, h1, h2, h3, h4⟩ := hlt x y hxy
      right; left
      refine ⟨by simp [BitStr.cmp, hxy], k, by rw [hmul]; omega, fun j hj => ?_, ?_, ?_⟩
      · rw [hhead _ _ _ (by omega), hhead _ _ _ (by omega)]; exact h2 j hj
      · rw [hhead _ _ _ h1]; exact h3
      · rw [hhead _ _ _ h1]; exact h4
    · subst hxy
      have hsame : ∀ m, (∀ j, j < m → BitStr.bitOf a j = BitStr.bitOf b j) →
          ∀ j, j < w + m → BitStr.bitOf (x :: a) j = BitStr.bitOf (x :: b) j := by
        intro m h j hj
        by_cases hjw : j < w
        · rw [hhead _ _ _ hjw, hhead _ _ _ hjw]
        · obtain ⟨i, rfl⟩ := Nat.exists_eq_add_of_le (Nat.le_of_not_lt hjw)
          rw [htail, htail]; exact h i (by omega)
      have hc : BitStr.cmp (n + 1) (x :: a) (x :: b) = BitStr.cmp n a b := by simp [BitStr.cmp]
      rw [hc, hmul]
      rcases ih a b (by simpa using ha) (by simpa using hb) with ⟨h0, h1⟩ | ⟨h0, k, h1, h2, h3, h4⟩ | ⟨h0, k, h1, h2, h3, h4⟩
      · left; exact ⟨h0, hsame _ h1⟩
      · right; left
        exact ⟨h0, w + k, by omega, hsame _ h2, by rw [htail]; exact h3, by rw [htail]; exact h4⟩
      · right; right
        exact ⟨h0, w + k, by omega, hsame _ h2, by rw [htail]; exact h3, by rw [htail]; exact h4⟩
    · obtain ⟨k, h1, h2, h3, h4⟩ := hlt y x hxy
      right; right
      have hn : ¬ x < y := fun h => BitVec.lt_irrefl _ (BitVec.lt_trans h hxy)
      refine ⟨by simp [BitStr.cmp, hxy, hn], k, by rw [hmul]; omega, fun j hj => ?_, ?_, ?_⟩
      · rw [hhead _ _ _ (by omega), hhead _ _ _ (by omega)]; exact (h2 j hj).symm
      · rw [hhead _ _ _ h1]; exact h4
      · rw [hhead _ _ _ h1]; exact h3

/-- The comparison returns zero exactly on strings with the same bits, unused bits of the last word included. -/
theorem C145_cmp_zero (hw : 0 < w) (n : ℕ) (a b : BitStr w) (ha : n ≤ a.length) (hb : n ≤ b.length) :
    BitStr.cmp n a b = some 0 ↔ ∀ j, j < w * n → a.bitOf j = b.bitOf j := by
  rcases C145_cmp hw n a b ha hb with ⟨h0, h1⟩ | ⟨h0, k, h1, h2, h3, h4⟩ | ⟨h0, k, h1, h2, h3, h4⟩
  · exact ⟨fun _ => h1, fun _ => h0⟩
  · refine ⟨fun h => by rw [h0] at h; simp at h, fun h => ?_⟩
    have := h k h1; rw [h3, h4] at this; simp at this
  · refine ⟨fun h => by rw [h0] at h; simp at h, fun h => ?_⟩
    have := h k h1; rw [h3, h4] at this; simp at this

/-- The comparison is antisymmetric. -/
theorem C145_cmp_swap (n : ℕ) : ∀ a b : BitStr w, BitStr.cmp n b a = (BitStr.cmp n a b).map (fun c => -c) := by
  induction n with
  | zero => intro a b; simp [BitStr.cmp]
  | succ n ih =>
    intro a b
    rcases a with _ | ⟨x, a⟩ <;> rcases b with _ | ⟨y, b⟩ <;> simp only [BitStr.cmp, Option.map_none]
    by_cases h1 : x < y
    · have h2 : ¬ y < x := fun h => BitVec.lt_irrefl _ (BitVec.lt_trans h h1)
      simp [h1, h2]
    · by_cases h2 : y < x
      · simp [h1, h2]
      · rw [if_neg h2, if_neg h1, if_neg h1, if_neg h2]; exact ih a b

/-- The comparison is transitive: sorting rows with it is well defined. -/
theorem C145_cmp_trans (hw : 0 < w) (n : ℕ) (a b c : BitStr w) (ha : n ≤ a.length) (hb : n ≤ b.length)
    (hc : n ≤ c.length) (h1 : BitStr.cmp n a b = some (-1)) (h2 : BitStr.cmp n b c = some (-1)) :
    BitStr.cmp n a c = some (-1) := by
  obtain ⟨k1, hk1, p1, q1, r1⟩ : ∃ k, k < w * n ∧ (∀ j, j < k → a.bitOf j = b.bitOf j) ∧
      a.bitOf k = false ∧ b.bitOf k = true := by
    rcases C145_cmp hw n a b ha hb with ⟨h0, _⟩ | ⟨_, h⟩ | ⟨h0, _⟩
    · rw [h0] at h1; simp at h1
    · exact h
    · rw [h0] at h1; simp at h1
  obtain ⟨k2, hk2, p2, q2, r2⟩ : ∃ k, k < w * n ∧ (∀ j, j < k → b.bitOf j = c.bitOf j) ∧
      b.bitOf k = false ∧ c.bitOf k = true := by
    rcases C145_cmp hw n b c hb hc with ⟨h0, _⟩ | ⟨_, h⟩ | ⟨h0, _⟩
    · rw [h0] at h2; simp at h2
    · exact h
    · rw [h0] at h2; simp at h2
  have hne : k1 ≠ k2 := by rintro rfl; rw [r1] at q2; simp at q2
  -- the first difference of `a` and `c`
  have key : ∃ k, k < w * n ∧ (∀ j, j < k → a.bitOf j = c.bitOf j) ∧ a.bitOf k = false ∧ c.bitOf k = true := by
    rcases Nat.lt_or_gt_of_ne hne with h | h
    · exact ⟨k1, hk1, fun j hj => (p1 j hj).trans (p2 j (by omega)), q1, (p2 k1 h) ▸ r1⟩
    · exact ⟨k2, hk2, fun j hj => (p1 j (by omega)).trans (p2 j hj), (p1 k2 h).trans q2, r2⟩
  obtain ⟨k, _, p, q, r⟩ := key
  rcases C145_cmp hw n a c ha hc with ⟨h0, h⟩ | ⟨h0, _⟩ | ⟨h0, k', hk', p', q', r'⟩
  · have := h k ‹_›; rw [q, r] at this; simp at this
  · exact h0
  · rcases Nat.lt_trichotomy k k' with h | h | h
    · have := p' k h; rw [q, r] at this; simp at this
    · subst h; rw [q] at q'; simp at q'
    · have := p k' h; rw [q', r'] at this; simp at this

/-! ## saturation matrices -/

/-- Reading a bit of a matrix. -/
theorem C145_mat_get (hw : 0 < w) (s : SatMat w) (hs : s.Wf) (i n : ℕ) (hi : i < s.p.length) (hn : n < w * s.nbcolumns) :
    ∃ x, s.get i (.init n) = some x ∧ (x ≠ 0 ↔ s.bitOf i n = true) :=
  satmat_get hw hs hi (by rw [Nat.div_lt_iff_lt_mul hw, Nat.mul_comm]; exact hn)

/-- Setting a bit of a matrix changes no other bit, and keeps the shape of the matrix. -/
theorem C145_mat_set (hw : 0 < w) (s : SatMat w) (hs : s.Wf) (i n : ℕ) (hi : i < s.p.length) (hn : n < w * s.nbcolumns) :
    ∃ r, s.set i (.init n) = some r ∧ r.Wf ∧ r.p.length = s.p.length ∧ r.nbcolumns = s.nbcolumns ∧
      r.nbrows = s.nbrows ∧ r.bitOf i n = true ∧ ∀ a b, (a ≠ i ∨ b ≠ n) → r.bitOf a b = s.bitOf a b := by
  obtain ⟨r, h1, h2, h3, h4, h5, h6⟩ :=
    satmat_set hw hs hi (n := n) (by rw [Nat.div_lt_iff_lt_mul hw, Nat.mul_comm]; exact hn)
  refine ⟨r, h1, h2, h3, h4, h5, by rw [h6]; simp, fun a b hab => ?_⟩
  rw [h6]
  rcases hab with h | h <;> simp [h]

/-- Clearing a bit of a matrix changes no other bit, and keeps the shape of the matrix. -/
theorem C145_mat_clr (hw : 0 < w) (s : SatMat w) (hs : s.Wf) (i n : ℕ) (hi : i < s.p.length) (hn : n < w * s.nbcolumns) :
    ∃ r, s.clr i (.init n) = some r ∧ r.Wf ∧ r.p.length = s.p.length ∧ r.nbcolumns = s.nbcolumns ∧
      r.nbrows = s.nbrows ∧ r.bitOf i n = false ∧ ∀ a b, (a ≠ i ∨ b ≠ n) → r.bitOf a b = s.bitOf a b := by
  obtain ⟨r, h1, h2, h3, h4, h5, h6⟩ :=
    satmat_clr hw hs hi (n := n) (by rw [Nat.div_lt_iff_lt_mul hw, Nat.mul_comm]; exact hn)
  refine ⟨r, h1, h2, h3, h4, h5, by rw [h6]; simp, fun a b hab => ?_⟩
  rw [h6]
  rcases hab with h | h <;> simp [h]

/-- A new matrix has all its bits at zero. -/
theorem C145_alloc (n m : ℕ) : (SatMat.alloc n m : SatMat w).Wf ∧ (SatMat.alloc n m : SatMat w).nbrows = n ∧
    (SatMat.alloc n m : SatMat w).nbcolumns = m ∧ (SatMat.alloc n m : SatMat w).p.length = n ∧
    ∀ i j, (SatMat.alloc n m : SatMat w).bitOf i j = false :=
  ⟨wf_alloc n m, rfl, rfl, by simp [SatMat.alloc], bitOf_alloc n m⟩

theorem satbit_eq (s : SatMat w) (i j : ℕ) : s.bitOf i j = ((s.p[i]?.map fun r => BitStr.bitOf r j).getD false) := by
  unfold SatMat.bitOf
  rw [List.getD_eq_getElem?_getD]
  rcases s.p[i]? with _ | r
  · exact bitOf_nil j
  · rfl

/-- Clearing a matrix sets the bits of its rows to zero. -/
theorem C145_mat_clear (s : SatMat w) (hs : s.Wf) : s.clear.Wf ∧ s.clear.nbrows = s.nbrows ∧
    s.clear.nbcolumns = s.nbcolumns ∧ s.clear.p.length = s.p.length ∧
    (∀ i j, i < s.nbrows → s.clear.bitOf i j = false) ∧ ∀ i j, s.nbrows ≤ i → s.clear.bitOf i j = s.bitOf i j := by
  have hl : s.clear.p.length = s.p.length := by
    have := hs.rows
    simp [SatMat.clear]; omega
  refine ⟨⟨by rw [hl]; exact hs.rows, ?_⟩, rfl, rfl, hl, ?_, ?_⟩
  · intro r hr
    simp only [SatMat.clear, List.mem_append, List.mem_map] at hr
    rcases hr with ⟨a, _, rfl⟩ | h
    · simp [SatMat.clear]
    · exact hs.cols _ (List.mem_of_mem_drop h)
  · intro i j hi
    rw [satbit_eq]
    have hi' : i < s.p.length := lt_of_lt_of_le hi hs.rows
    have hlt : i < ((s.p.take s.nbrows).map (fun _ => List.replicate s.nbcolumns (0 : BitVec w))).length := by
      simp; omega
    simp only [SatMat.clear]
    rw [List.getElem?_append_left hlt, List.getElem?_map, List.getElem?_take, if_pos hi, List.getElem?_eq_getElem hi']
    exact bitOf_zero _ _
  · intro i j hi
    rw [satbit_eq, satbit_eq]
    have := hs.rows
    have hm : ((s.p.take s.nbrows).map (fun _ => List.replicate s.nbcolumns (0 : BitVec w))).length = s.nbrows := by
      simp; omega
    simp only [SatMat.clear]
    rw [List.getElem?_append_right (by omega), hm, List.getElem?_drop]
    congr 3; omega

theorem bitOf_take_zero (hw : 0 < w) (b : BitStr w) (n m j : ℕ) :
    BitStr.bitOf (b.take n ++ List.replicate m 0) j = (decide (j < w * n) && b.bitOf j) := by
  rw [bitOf_append hw, bitOf_zero, bitOf_take hw, List.length_take]
  split_ifs with h
  · rfl
  · by_cases hn : j < w * n
    · have : ¬ n ≤ b.length := fun hle => h (by rw [Nat.min_eq_left hle]; exact hn)
      rw [Nat.min_eq_right (by omega)] at h
      rw [bitOf_ge hw (by omega)]; simp
    · simp [hn]

/-- Changing the number of columns keeps the bits that fit; the new ones are zero. -/
theorem C145_resize_cols (hw : 0 < w) (s : SatMat w) (hs : s.Wf) (n : ℕ) :
    (s.resizeCols n).Wf ∧ (s.resizeCols n).nbrows = s.nbrows ∧ (s.resizeCols n).nbcolumns = n ∧
    (s.resizeCols n).p.length = s.p.length ∧
    ∀ i j, (s.resizeCols n).bitOf i j = (decide (j < w * n) && s.bitOf i j) := by
  unfold SatMat.resizeCols
  split_ifs with h
  · refine ⟨⟨by simpa using hs.rows, ?_⟩, rfl, rfl, by simp, ?_⟩
    · intro r hr
      simp only [List.mem_map] at hr
      obtain ⟨a, ha, rfl⟩ := hr
      have := hs.cols a ha
      simp [this]; omega
    · intro i j
      rw [satbit_eq, satbit_eq]
      simp only [List.getElem?_map, Option.map_map]
      rcases s.p[i]? with _ | r
      · simp
      · simp only [Option.map_some, Option.getD_some, Function.comp]
        exact bitOf_take_zero hw r n _ j
  · have h' : n = s.nbcolumns := not_not.1 h
    refine ⟨hs, rfl, h'.symm, rfl, fun i j => ?_⟩
    by_cases hj : j < w * n
    · simp [hj]
    · rw [satbit_eq]
      rcases hr : s.p[i]? with _ | r
      · simp
      · have hlen := hs.cols r (List.mem_of_getElem? hr)
        simp only [Option.map_some, Option.getD_some]
        rw [bitOf_ge hw (by rw [hlen, ← h']; omega)]; simp [hj]

/-- A copy with more columns has the same bits on the rows in use. It is undefined with fewer columns. -/
theorem C145_copy_resize_cols (hw : 0 < w) (s : SatMat w) (hs : s.Wf) (n : ℕ) (hn : s.nbcolumns ≤ n) :
    ∃ r, s.copyResizeCols n = some r ∧ r.Wf ∧ r.nbrows = s.nbrows ∧ r.nbcolumns = n ∧ r.p.length = s.nbrows ∧
      ∀ i j, r.bitOf i j = (decide (i < s.nbrows) && s.bitOf i j) := by
  refine ⟨_, if_pos hn, ⟨by have := hs.rows; simp; omega, ?_⟩, rfl, rfl, by have := hs.rows; simp; omega, ?_⟩
  · intro r hr
    simp only [List.mem_map] at hr
    obtain ⟨a, ha, rfl⟩ := hr
    have := hs.cols a (List.mem_of_mem_take ha)
    simp [this]; omega
  · intro i j
    rw [satbit_eq, satbit_eq]
    simp only [List.getElem?_map, Option.map_map, List.getElem?_take]
    by_cases hi : i < s.nbrows
    · rw [if_pos hi]
      rcases hr : s.p[i]? with _ | r
      · simp
      · have hlen := hs.cols r (List.mem_of_getElem? hr)
        simp only [Option.map_some, Option.getD_some, Function.comp, hi, decide_true, Bool.true_and]
        rw [bitOf_take_zero hw]
        by_cases hj : j < w * s.nbcolumns
        · simp [hj]
        · rw [bitOf_ge hw (by rw [hlen]; omega)]; simp
    · rw [if_neg hi]; simp [hi]

/-- A copy has the same bits on the rows in use. -/
theorem C145_mat_copy (hw : 0 < w) (s : SatMat w) (hs : s.Wf) :
    s.copy.Wf ∧ s.copy.nbrows = s.nbrows ∧ s.copy.nbcolumns = s.nbcolumns ∧ s.copy.p.length = s.nbrows ∧
      ∀ i j, s.copy.bitOf i j = (decide (i < s.nbrows) && s.bitOf i j) := by
  obtain ⟨r, h1, h2⟩ := C145_copy_resize_cols hw s hs s.nbcolumns le_rfl
  have : r = s.copy := by
    unfold SatMat.copyResizeCols at h1
    rw [if_pos le_rfl] at h1
    rw [← Option.some.inj h1]
    simp [SatMat.copy]
  rw [← this]; exact h2

/-- Changing the number of rows keeps the rows in use that fit. Nothing is said of the new rows: they are not
initialised. -/
theorem C145_resize_rows (junk : ℕ → BitStr w) (s : SatMat w) (hs : s.Wf) (hj : ∀ i, (junk i).length = s.nbcolumns)
    (n : ℕ) :
    (s.resizeRows junk n).Wf ∧ (s.resizeRows junk n).nbrows = n ∧ (s.resizeRows junk n).nbcolumns = s.nbcolumns ∧
    (s.resizeRows junk n).p.length = n ∧
    ∀ i j, i < s.nbrows → i < n → (s.resizeRows junk n).bitOf i j = s.bitOf i j := by
  have hr := hs.rows
  unfold SatMat.resizeRows
  split_ifs with h
  · refine ⟨⟨by simp; omega, ?_⟩, rfl, rfl, by simp; omega, ?_⟩
    · intro r hm
      simp only [List.mem_append, List.mem_map] at hm
      rcases hm with hm | ⟨a, _, rfl⟩
      · exact hs.cols _ (List.mem_of_mem_take hm)
      · exact hj a
    · intro i j hi hn
      rw [satbit_eq, satbit_eq]
      simp only
      rw [List.getElem?_append_left (by simp; omega), List.getElem?_take, if_pos hi]
  · refine ⟨⟨by simp; omega, fun r hm => hs.cols _ (List.mem_of_mem_take hm)⟩, rfl, rfl, by simp; omega, ?_⟩
    intro i j hi hn
    rw [satbit_eq, satbit_eq]
    simp only
    rw [List.getElem?_take, if_pos hn]

/-- The transposed matrix: bit `(j, i)` is the bit `(i, j)` of the argument on the rows in use and the first `nbcols`
columns; the other bits are zero. -/
theorem C145_transpose (hw : 0 < w) (s : SatMat w) (hs : s.Wf) (nbcols : ℕ) (hn : nbcols ≤ w * s.nbcolumns) :
    ∃ r, s.transpose nbcols = some r ∧ r.Wf ∧ r.nbrows = nbcols ∧ r.nbcolumns = BitIndex.size w s.nbrows ∧
      ∀ j i, r.bitOf j i = (decide (j < nbcols ∧ i < s.nbrows) && s.bitOf i j) := by
  obtain ⟨r, h1, h2, h3, h4, h5, h6⟩ := transposeRows_spec hw hs (nbcols := nbcols)
    (fun k hk => by rw [Nat.div_lt_iff_lt_mul hw, Nat.mul_comm]; omega) s.nbrows 0
    (SatMat.alloc nbcols (BitIndex.size w s.nbrows)) (wf_alloc _ _) (by simp [SatMat.alloc])
    (by simpa using hs.rows) (fun k hk => lt_size hw (by omega))
  refine ⟨r, h1, h2, h5, h4, fun j i => ?_⟩
  rw [h6, bitOf_alloc]; simp

/-- Transposing twice gives back the bits of the rows in use. -/
theorem C145_transpose_transpose (hw : 0 < w) (s : SatMat w) (hs : s.Wf) (nbcols : ℕ) (hn : nbcols ≤ w * s.nbcolumns) :
    ∃ r r2, s.transpose nbcols = some r ∧ r.transpose s.nbrows = some r2 ∧
      ∀ i j, r2.bitOf i j = (decide (i < s.nbrows ∧ j < nbcols) && s.bitOf i j) := by
  obtain ⟨r, h1, h2, h3, h4, h5⟩ := C145_transpose hw s hs nbcols hn
  obtain ⟨r2, g1, g2, g3, g4, g5⟩ := C145_transpose hw r h2 s.nbrows (by
    rw [h4]; exact (C145_size hw s.nbrows _).1 le_rfl)
  refine ⟨r, r2, h1, g1, fun i j => ?_⟩
  rw [g5, h5, h3]
  by_cases hi : i < s.nbrows <;> by_cases hj : j < nbcols <;> simp [hi, hj]

/-- Moving rows: the rows reach their destination, no row is lost, and those outside of the two ranges stay. The
operation is undefined when the upper range leaves the matrix. -/
theorem C145_move_rows (s : SatMat w) (d o n : ℕ) (h : max d o + n ≤ s.p.length) :
    ∃ r, s.moveRows d o n = some r ∧ r.nbrows = s.nbrows ∧ r.nbcolumns = s.nbcolumns ∧ r.p.length = s.p.length ∧
      r.p.Perm s.p ∧ (∀ k, k < n → r.p[d + k]? = s.p[o + k]?) ∧
      ∀ k, ¬ (o ≤ k ∧ k < o + n) → ¬ (d ≤ k ∧ k < d + n) → r.p[k]? = s.p[k]? := by
  unfold SatMat.moveRows
  by_cases hd : o < d
  · rw [if_pos hd, if_pos (by omega)]
    exact moveUp_spec hd n s (by omega)
  · rw [if_neg hd, if_pos (by omega)]
    exact moveDown_spec n d o s (by omega) (by omega)

theorem C145_move_rows_none (s : SatMat w) (d o n : ℕ) (h : s.p.length < max d o + n) : s.moveRows d o n = none := by
  unfold SatMat.moveRows
  by_cases hd : o < d
  · rw [if_pos hd, if_neg (by omega)]
  · rw [if_neg hd, if_neg (by omega)]

/-- Exchanging two rows. -/
theorem C145_exch_rows (s : SatMat w) (i j : ℕ) (hi : i < s.p.length) (hj : j < s.p.length) :
    ∃ r, s.exchRows i j = some r ∧ r.nbrows = s.nbrows ∧ r.nbcolumns = s.nbcolumns ∧ r.p.Perm s.p ∧
      r.p[i]? = s.p[j]? ∧ r.p[j]? = s.p[i]? ∧ ∀ k, k ≠ i → k ≠ j → r.p[k]? = s.p[k]? := by
  obtain ⟨r, h1, h2, h3, h4, h5, h6⟩ := exchRows_spec hi hj
  refine ⟨r, h1, h2, h3, h5, by rw [h6]; simp, ?_, fun k h1 h2 => by rw [h6, if_neg h1, if_neg h2]⟩
  rw [h6]
  by_cases h : j = i
  · rw [if_pos h, h]
  · rw [if_neg h, if_pos rfl]

/-! ## the loops on words of the Chernikova algorithm compute the operations on sets of bits of the model -/

/-- The bits of a row are the bits of the number that stands for it in the model of the Chernikova algorithm. -/
theorem C145_mask (hw : 0 < w) (b : BitStr w) (n : ℕ) : b.mask.testBit n = b.bitOf n := testBit_mask hw b n

/-- Two rows of the same length have the same words exactly when their numbers are equal. -/
theorem C145_row_eq (hw : 0 < w) (a b : BitStr w) (h : a.length = b.length) : a = b ↔ a.mask = b.mask := by
  constructor
  · rintro rfl; rfl
  · intro hm
    apply List.ext_getElem h
    intro i h1 h2
    apply word_ext hw
    intro r hr
    have e1 := getD_bit a i hr
    have e2 := getD_bit b i hr
    rw [List.getD_eq_getElem _ _ h1] at e1
    rw [List.getD_eq_getElem _ _ h2] at e2
    rw [e1, e2, ← testBit_mask hw, ← testBit_mask hw, hm]

/-- Setting a bit of a row adds it to the number. -/
theorem C145_set_mask (hw : 0 < w) (b : BitStr w) (n : ℕ) (h : n < w * b.length) :
    ∃ r, b.set (.init n) = some r ∧ r.mask = b.mask ||| 1 <<< n := by
  obtain ⟨r, h1, h2, h3, h4⟩ := C145_set hw b n h
  refine ⟨r, h1, (mask_ext hw).2 fun j => ?_⟩
  rw [Nat.testBit_or, testBit_mask hw, Nat.testBit_shiftLeft]
  by_cases hj : j = n
  · subst hj; simp [h3]
  · rw [h4 j hj]
    rcases Nat.lt_or_gt_of_ne hj with hl | hl
    · have : ¬ n ≤ j := by omega
      simp [this]
    · have : Nat.testBit 1 (j - n) = false := by
        exact Nat.testBit_lt_two_pow (lt_of_lt_of_le (by norm_num : 1 < 2 ^ 1) (Nat.pow_le_pow_right (by norm_num) (by omega)))
      simp [this]

theorem union_bits (hw : 0 < w) (a b : BitStr w) (k n : ℕ) (hn : k / w < n) (j : ℕ) :
    (BitStr.union a b (.init k) n).bitOf j = (decide (j / w ≤ k / w) && (a.bitOf j || b.bitOf j)) := by
  unfold BitStr.union BitStr.bitOf
  rw [List.getD_eq_getElem?_getD, List.getElem?_map]
  by_cases hj : j / w < n
  · rw [List.getElem?_range hj]
    rw [Option.map_some, Option.getD_some]
    by_cases hk : j / w ≤ k / w
    · have hk' : j / w ≤ (BitIndex.init k : BitIndex w).word := hk
      rw [if_pos hk', BitVec.getMsbD_or]; simp [hk]
    · have hk' : ¬ j / w ≤ (BitIndex.init k : BitIndex w).word := hk
      rw [if_neg hk']; simp [hk]
  · have hk : ¬ j / w ≤ k / w := by omega
    rw [List.getElem?_eq_none (by simpa using hj)]
    simp [hk]

/-- The new row of the conversion is the union of the two rows, when these have no bit after the word of the current
constraint. -/
theorem C145_union (hw : 0 < w) (a b : BitStr w) (k n : ℕ) (hn : k / w < n)
    (ha : ∀ j, k < j → a.bitOf j = false) (hb : ∀ j, k < j → b.bitOf j = false) :
    (BitStr.union a b (.init k) n).length = n ∧ (BitStr.union a b (.init k) n).mask = a.mask ||| b.mask := by
  refine ⟨by simp [BitStr.union], (mask_ext hw).2 fun j => ?_⟩
  rw [union_bits hw a b k n hn, Nat.testBit_or, testBit_mask hw, testBit_mask hw]
  by_cases hj : j / w ≤ k / w
  · simp [hj]
  · have : k < j := by
      by_contra h
      exact hj (Nat.div_le_div_right (by omega))
    rw [ha j this, hb j this]; simp

/-- The loops on words and masks count the zero bits before the index. -/
theorem C145_count_zero (hw : 0 < w) (b : BitStr w) (k : ℕ) (h : k ≤ w * b.length) :
    b.countZero (.init k) = some (zeroBits k b.mask) := by
  have hdm := Nat.div_add_mod k w
  have hr := Nat.mod_lt k hw
  have h1 : k / w ≤ b.length := by
    have h2 := Nat.div_le_div_right (c := w) h
    rwa [Nat.mul_div_cancel_left _ hw] at h2
  have h2 : msb w >>> (k % w) ≠ msb w → k / w < b.length := by
    intro hne
    have h0 : k % w ≠ 0 := by
      intro h0; rw [h0] at hne; simp at hne
    rcases Nat.lt_or_ge (k / w) b.length with h3 | h3
    · exact h3
    · have := Nat.mul_le_mul_left w h3
      omega
  unfold BitStr.countZero
  rw [if_pos ⟨h1, h2⟩]
  congr 1
  rw [countWords hw]
  simp only [BitIndex.init]
  rw [countP_block hw _ _ _ hr.le, ← List.countP_append]
  unfold zeroBits
  have e : List.range (w * (k / w)) ++ List.range' (w * (k / w)) (k % w) = List.range k := by
    conv_rhs => rw [← hdm]
    rw [List.range_eq_range', List.range_eq_range', ← List.range'_append]; simp
  rw [e]
  apply List.countP_congr
  intro j _
  rw [testBit_mask hw]

/-- The test for inclusion of the words is the inclusion of the sets of bits. -/
theorem C145_included (hw : 0 < w) (b m : BitStr w) (n : ℕ) (hb : b.length ≤ n) :
    b.included m n = true ↔ b.mask ||| m.mask = m.mask := by
  have hs : (b.mask ||| m.mask = m.mask) ↔ ∀ j, b.bitOf j = true → m.bitOf j = true := by
    constructor
    · intro h j hj
      rw [← testBit_mask hw, ← h, Nat.testBit_or, testBit_mask hw, hj]; rfl
    · intro h
      apply Nat.eq_of_testBit_eq
      intro j
      rw [Nat.testBit_or, testBit_mask hw, testBit_mask hw]
      rcases hj : b.bitOf j with _ | _
      · simp
      · rw [h j hj]; rfl
  rw [hs]
  unfold BitStr.included
  simp only [List.all_eq_true, List.mem_range, decide_eq_true_eq]
  constructor
  · intro h j hj
    have hlt : j / w < n := by
      by_contra hc
      rw [bitOf_ge hw (by rw [Nat.mul_comm, ← Nat.le_div_iff_mul_le hw]; omega)] at hj
      simp at hj
    have h0 := congrArg (fun x => BitVec.getMsbD x (j % w)) (h _ hlt)
    have hr := Nat.mod_lt j hw
    simp only [BitVec.getMsbD_and, BitVec.getMsbD_not] at h0
    unfold BitStr.bitOf at hj ⊢
    rw [hj] at h0
    simpa [hr] using h0
  · intro h i _
    apply word_ext hw
    intro r hr
    rw [BitVec.getMsbD_and, BitVec.getMsbD_not, getD_bit b i hr, getD_bit m i hr]
    have := h (w * i + r)
    rcases hb2 : b.bitOf (w * i + r) with _ | _
    · simp
    · rw [this hb2]; simp

/-- A row is zero exactly when its number is: the test for equalities of the simplification. -/
theorem C145_zero_row (hw : 0 < w) (b : BitStr w) : (∀ x ∈ b, x = 0) ↔ b.mask = 0 := by
  have h0 : BitStr.mask (List.replicate b.length (0 : BitVec w)) = 0 :=
    (mask_ext hw).2 fun n => by rw [bitOf_zero]; simp
  have := C145_row_eq hw b (List.replicate b.length 0) (by simp)
  rw [← h0]
  rw [← this]
  exact List.eq_replicate_length.symm

/-- The transposition of the saturation matrix of the rays: the row of constraint `i` is the number `transposeSat` of
the model of the minimisation. The matrix has `nbline` zero rows, then the rows of the rays. -/
theorem C145_transpose_sat (hw : 0 < w) (s : SatMat w)
    (hs : s.Wf) (nbcols nbline : ℕ) (hn : nbcols ≤ w * s.nbcolumns) (rays : List SRow)
    (hr : s.nbrows = nbline + rays.length) (hz : ∀ i j, i < nbline → s.bitOf i j = false)
    (hm : ∀ i, i < rays.length → (s.p.getD (nbline + i) []).mask = (rays.getD i ⟨[], 0⟩).sat) :
    ∃ r, s.transpose nbcols = some r ∧ r.nbrows = nbcols ∧
      ∀ i, i < nbcols → (r.p.getD i []).mask = transposeSat nbline rays i := by
  obtain ⟨r, h1, h2, h3, h4, h5⟩ := C145_transpose hw s hs nbcols hn
  refine ⟨r, h1, h3, fun i hi => (mask_ext hw).2 fun j => ?_⟩
  have := h5 i j
  unfold SatMat.bitOf at this
  rw [this]
  unfold transposeSat
  rw [testBit_maskOf, ← hr]
  by_cases hj : j < s.nbrows
  · by_cases hl : nbline ≤ j
    · have h6 := hm (j - nbline) (by omega)
      have e : nbline + (j - nbline) = j := by omega
      rw [e] at h6
      rw [← h6, testBit_mask hw]
      simp [hi, hj, hl]
    · have := hz j i (by omega)
      unfold SatMat.bitOf at this
      rw [this]; simp [hl]
  · simp [hj]

/-! ## the hypotheses are met: words of 32 bits, a matrix of 3 rows in use (4 allocated) and 40 bits -/

/-- bits `(0, 0)`, `(1, 31)`, `(1, 32)` and `(2, 39)` are set -/
def exMat145 : SatMat 32 := ⟨[[0x80000000#32, 0], [1#32, 0x80000000#32], [0, 0x01000000#32], [7#32, 7#32]], 3, 2⟩

theorem exMat145_wf : exMat145.Wf := ⟨by decide, by decide⟩

example : exMat145.bitOf 1 31 = true ∧ exMat145.bitOf 1 32 = true ∧ exMat145.bitOf 2 39 = true ∧ exMat145.bitOf 2 38 = false := by
  decide +kernel
example : (BitIndex.init 31 : BitIndex 32).inc = ⟨32, 1, 0x80000000#32⟩ ∧ BitIndex.size 32 40 = 2 ∧ BitIndex.size 32 64 = 2 := by
  decide +kernel
example : 0 < 32 ∧ 40 ≤ 32 * exMat145.nbcolumns ∧ 39 < 32 * exMat145.nbcolumns := by decide
/-- the transposed matrix has 40 rows of one word -/
example : (exMat145.transpose 40).map (fun r => (r.nbrows, r.nbcolumns)) = some (40, 1) ∧
    (exMat145.transpose 40).map (fun r => [r.bitOf 0 0, r.bitOf 31 1, r.bitOf 32 1, r.bitOf 39 2, r.bitOf 31 2]) =
      some [true, true, true, true, false] := by decide +kernel
/-- too many columns are read: undefined -/
example : exMat145.transpose 65 = none := by decide +kernel
/-- the two directions of a move -/
example : (exMat145.moveRows 1 0 3).map (fun r => r.p.map (fun b => b.getD 1 0)) = some [7#32, 0#32, 0x80000000#32, 0x01000000#32] ∧
    max 1 0 + 3 ≤ exMat145.p.length := by decide +kernel
example : (exMat145.moveRows 0 2 2).map (fun r => r.p.map (fun b => b.getD 1 0)) = some [0x01000000#32, 7#32, 0#32, 0x80000000#32] ∧
    exMat145.moveRows 2 0 3 = none := by decide +kernel
example : BitStr.cmp 2 [1#32, 0] [1#32, 5] = some (-1) ∧ BitStr.cmp 2 [0x80000000#32, 0] [1#32, 5] = some 1 ∧
    BitStr.cmp 2 [1#32] [1#32, 5] = none := by decide +kernel
/-- the loops on the words on bits before 33 -/
example : BitStr.countZero [1#32, 0x80000000#32] (.init 33) = some 31 ∧ BitStr.countZero [1#32] (.init 33) = none ∧
    BitStr.countZero [1#32] (.init 32) = some 31 := by decide +kernel
example : BitStr.included [1#32, 0] [3#32, 1] 2 = true ∧ BitStr.included [1#32, 4] [3#32, 1] 2 = false := by decide +kernel
/-- rows without a bit after 33, as in `C145_union` -/
example : BitStr.union [1#32, 0, 0] [2#32, 0x80000000#32, 0] (.init 33) 3 = [3#32, 0x80000000#32, 0] := by decide +kernel
/-- a matrix that meets the hypotheses of `C145_transpose_sat`: a line, and two rays -/
example : ∃ (s : SatMat 32) (rays : List SRow), s.Wf ∧ s.nbrows = 1 + rays.length ∧ rays.length = 2 ∧
    (∀ i j, i < 1 → s.bitOf i j = false) ∧
    (∀ i, i < rays.length → (s.p.getD (1 + i) []).mask = (rays.getD i ⟨[], 0⟩).sat) := by
  refine ⟨⟨[[0], [0x80000000#32], [0x60000000#32]], 3, 1⟩, [⟨[], 1⟩, ⟨[], 6⟩], ⟨by decide, by decide⟩, rfl, rfl, ?_, ?_⟩
  · intro i j hi
    obtain rfl : i = 0 := by omega
    exact bitOf_zero 1 j
  · decide +kernel
example : (exMat145.resizeCols 1).bitOf 1 31 = true ∧ (exMat145.resizeCols 1).bitOf 1 32 = false ∧
    (exMat145.copyResizeCols 3).map (fun r => (r.p.length, r.bitOf 2 39)) = some (3, true) ∧ exMat145.copyResizeCols 1 = none := by
  decide +kernel

end Apron
