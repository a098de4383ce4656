import Verif.Poly.Bit
import Verif.Poly.MinOk

/-! # Lemmas on bitstrings and saturation matrices -/

set_option autoImplicit false
set_option linter.unusedSectionVars false
set_option linter.ambiguousOpen false

namespace Apron
namespace Poly

variable {w : ℕ}

/-- Specification: bit `n` of a bitstring; the first bit is the most significant one of the first word; the bits
outside of the array are zero -/
def BitStr.bitOf (b : BitStr w) (n : ℕ) : Bool := (b.getD (n / w) 0).getMsbD (n % w)

/-- Specification: bit `(i, j)` of a saturation matrix -/
def SatMat.bitOf (s : SatMat w) (i j : ℕ) : Bool := BitStr.bitOf (s.p.getD i []) j

/-! ## masks -/

theorem mask_eq (hw : 0 < w) {r : ℕ} (hr : r < w) : msb w >>> r = BitVec.twoPow w (w - 1 - r) := by
  apply BitVec.eq_of_getLsbD_eq
  intro i hi
  rw [BitVec.getLsbD_ushiftRight, msb, ← BitVec.twoPow_eq, BitVec.getLsbD_twoPow, BitVec.getLsbD_twoPow]
  simp only [Bool.and_eq_decide, decide_eq_decide]
  by_cases h : w - 1 - r = i
  · have : w - 1 = r + i := by omega
    simp [h, this]; omega
  · have : ¬ w - 1 = r + i := by omega
    simp [h, this]

theorem and_mask (hw : 0 < w) (x : BitVec w) {r : ℕ} (hr : r < w) : x &&& (msb w >>> r) ≠ 0 ↔ x.getMsbD r = true := by
  rw [mask_eq hw hr, BitVec.and_twoPow]
  have e : x.getMsbD r = x.getLsbD (w - 1 - r) := by simp [BitVec.getMsbD, hr]
  rw [e]
  split_ifs with h
  · simp only [ne_eq, h, iff_true]
    intro h0
    have := congrArg (fun y : BitVec w => y.getLsbD (w - 1 - r)) h0
    simp at this
    omega
  · simp [h]

theorem getMsbD_mask {r j : ℕ} (hr : r < w) (hj : j < w) :
    (BitVec.twoPow w (w - 1 - r)).getMsbD j = decide (j = r) := by
  rw [BitVec.getMsbD, BitVec.getLsbD_twoPow]
  have h1 : w - 1 - r < w := by omega
  have h2 : (w - 1 - r = w - 1 - j) ↔ j = r := by omega
  simp only [hj, h1, h2, decide_true, Bool.true_and]

theorem or_mask (hw : 0 < w) (x : BitVec w) {r : ℕ} (hr : r < w) (j : ℕ) :
    (x ||| (msb w >>> r)).getMsbD j = (x.getMsbD j || decide (j = r)) := by
  rw [mask_eq hw hr, BitVec.getMsbD_or]
  congr 1
  by_cases hj : j < w
  · exact getMsbD_mask hr hj
  · have : j ≠ r := by omega
    simp [BitVec.getMsbD, hj, this]

theorem andnot_mask (hw : 0 < w) (x : BitVec w) {r : ℕ} (hr : r < w) (j : ℕ) :
    (x &&& ~~~(msb w >>> r)).getMsbD j = (x.getMsbD j && !decide (j = r)) := by
  rw [mask_eq hw hr, BitVec.getMsbD_and, BitVec.getMsbD_not]
  by_cases hj : j < w
  · simp [getMsbD_mask hr hj, hj]
  · have : x.getMsbD j = false := by simp [BitVec.getMsbD, hj]
    simp [this]

/-! ## indices -/

theorem init_inc (hw : 0 < w) (n : ℕ) : (BitIndex.init n : BitIndex w).inc = BitIndex.init (n + 1) := by
  have hr : n % w < w := Nat.mod_lt _ hw
  unfold BitIndex.inc BitIndex.init
  simp only
  rw [← BitVec.shiftRight_add]
  by_cases h : n % w + 1 = w
  · have e1 : (n + 1) % w = 0 := by
      rw [Nat.add_mod]
      rcases Nat.lt_or_ge 1 w with h1 | h1
      · rw [Nat.mod_eq_of_lt h1, h, Nat.mod_self]
      · have : w = 1 := by omega
        subst this; omega
    have e2 : (n + 1) / w = n / w + 1 := by
      have := Nat.div_add_mod n w
      have h3 : n + 1 = w * (n / w + 1) := by rw [Nat.mul_add]; omega
      rw [h3, Nat.mul_div_cancel_left _ hw]
    have hz : msb w >>> (n % w + 1) = 0 := by
      apply BitVec.eq_of_getLsbD_eq
      intro i hi
      rw [BitVec.getLsbD_ushiftRight, BitVec.getLsbD_of_ge _ _ (by omega)]
      simp
    rw [if_pos hz, e1, e2]
    simp
  · have hr1 : n % w + 1 < w := by omega
    have e1 : (n + 1) % w = n % w + 1 := by
      rw [Nat.add_mod, Nat.mod_eq_of_lt (show 1 < w by omega), Nat.mod_eq_of_lt hr1]
    have e2 : (n + 1) / w = n / w := by
      have h3 := Nat.div_add_mod n w
      rw [Nat.div_eq_iff hw]
      constructor
      · have := Nat.mul_comm (n / w) w; omega
      · have := Nat.mul_comm (n / w) w; omega
    rw [if_neg, e1, e2]
    rw [mask_eq hw hr1]
    intro h0
    have := congrArg (fun y : BitVec w => y.getLsbD (w - 1 - (n % w + 1))) h0
    simp at this
    omega

theorem init_dec (hw : 0 < w) (n : ℕ) : (BitIndex.init (n + 1) : BitIndex w).dec = BitIndex.init n := by
  rw [← init_inc hw]
  have hr : n % w < w := Nat.mod_lt _ hw
  unfold BitIndex.inc BitIndex.dec BitIndex.init
  simp only
  rw [← BitVec.shiftRight_add]
  by_cases h : n % w + 1 = w
  · have hz : msb w >>> (n % w + 1) = 0 := by
      apply BitVec.eq_of_getLsbD_eq
      intro i hi
      rw [BitVec.getLsbD_ushiftRight, BitVec.getLsbD_of_ge _ _ (by omega)]
      simp
    rw [if_pos hz]
    simp only [ne_eq, not_true_eq_false, if_false, Nat.add_sub_cancel, BitIndex.mk.injEq, true_and]
    rw [mask_eq hw hr]
    have : w - 1 - n % w = 0 := by omega
    rw [this]
    simp [BitVec.twoPow]
  · have hr1 : n % w + 1 < w := by omega
    have hnz : ¬ msb w >>> (n % w + 1) = 0 := by
      rw [mask_eq hw hr1]
      intro h0
      have := congrArg (fun y : BitVec w => y.getLsbD (w - 1 - (n % w + 1))) h0
      simp at this
      omega
    rw [if_neg hnz]
    have hm : msb w >>> (n % w + 1) ≠ msb w := by
      rw [mask_eq hw hr1]
      intro h0
      have := congrArg (fun y : BitVec w => y.getLsbD (w - 1)) h0
      simp only [msb, ← BitVec.twoPow_eq, BitVec.getLsbD_twoPow] at this
      have h2 : ¬ (w - 1 - (n % w + 1) = w - 1) := by omega
      have h3 : w - 1 < w := by omega
      simp [h2, h3] at this
    simp only
    rw [if_pos hm]
    simp only [Nat.add_sub_cancel, BitIndex.mk.injEq, true_and]
    rw [mask_eq hw hr1, mask_eq hw hr]
    apply BitVec.eq_of_getLsbD_eq
    intro i hi
    rw [BitVec.getLsbD_shiftLeft, BitVec.getLsbD_twoPow, BitVec.getLsbD_twoPow]
    by_cases h0 : i = 0
    · subst h0
      have h2 : ¬ (w - 1 - n % w = 0) := by omega
      simp only [h2, decide_false, Bool.and_false]
      simp
    · have h2 : (w - 1 - (n % w + 1) = i - 1) ↔ (w - 1 - n % w = i) := by omega
      have h3 : w - 1 - (n % w + 1) < w := by omega
      have h4 : w - 1 - n % w < w := by omega
      have h5 : 1 ≤ i := by omega
      simp [h2, hi, h3, h4, h5, h0]

theorem lt_size {n k : ℕ} (hw : 0 < w) (h : k < n) : k / w < BitIndex.size w n := by
  unfold BitIndex.size
  have h1 := Nat.div_add_mod n w
  split_ifs with h2
  · have := Nat.div_le_div_right (c := w) h.le
    omega
  · have : n = n / w * w := by rw [Nat.mul_comm]; omega
    rw [Nat.div_lt_iff_lt_mul hw]
    omega

/-! ## access -/

theorem modify_bit {b : BitStr w} {k : ℕ} (hk : k < b.length) (f : BitVec w → BitVec w) (i : ℕ) :
    (b.modify k f).getD i 0 = if i = k then f (b.getD k 0) else b.getD i 0 := by
  rw [List.getD_eq_getElem?_getD, List.getD_eq_getElem?_getD, List.getD_eq_getElem?_getD, List.getElem?_modify]
  by_cases h : i = k
  · subst h; simp [List.getElem?_eq_getElem hk]
  · rw [if_neg h]
    have h' : ¬ k = i := fun e => h e.symm
    simp [h']

theorem div_mod_eq {j n : ℕ} : j / w = n / w ∧ j % w = n % w ↔ j = n := by
  constructor
  · rintro ⟨h1, h2⟩
    rw [← Nat.div_add_mod j w, ← Nat.div_add_mod n w, h1, h2]
  · rintro rfl; exact ⟨rfl, rfl⟩

theorem get_init (hw : 0 < w) {b : BitStr w} {n : ℕ} (h : n / w < b.length) :
    ∃ x, b.get (.init n) = some x ∧ (x ≠ 0 ↔ b.bitOf n = true) := by
  refine ⟨_, by simp [BitStr.get, BitIndex.init, List.getElem?_eq_getElem h]; rfl, ?_⟩
  rw [and_mask hw _ (Nat.mod_lt _ hw), BitStr.bitOf, List.getD_eq_getElem _ _ h]

theorem set_init (hw : 0 < w) {b : BitStr w} {n : ℕ} (h : n / w < b.length) :
    ∃ r, b.set (.init n) = some r ∧ r.length = b.length ∧ ∀ j, r.bitOf j = (b.bitOf j || decide (j = n)) := by
  refine ⟨b.modify (n / w) fun x => x ||| msb w >>> (n % w), if_pos h, by simp, fun j => ?_⟩
  unfold BitStr.bitOf
  rw [modify_bit h]
  split_ifs with h1
  · rw [or_mask hw _ (Nat.mod_lt _ hw), h1]
    congr 1
    rw [decide_eq_decide]
    exact ⟨fun h => div_mod_eq.1 ⟨h1, h⟩, fun h => by rw [h]⟩
  · have : j ≠ n := fun e => h1 (by rw [e])
    simp [this]

theorem clr_init (hw : 0 < w) {b : BitStr w} {n : ℕ} (h : n / w < b.length) :
    ∃ r, b.clr (.init n) = some r ∧ r.length = b.length ∧ ∀ j, r.bitOf j = (b.bitOf j && !decide (j = n)) := by
  refine ⟨b.modify (n / w) fun x => x &&& ~~~(msb w >>> (n % w)), if_pos h, by simp, fun j => ?_⟩
  unfold BitStr.bitOf
  rw [modify_bit h]
  split_ifs with h1
  · rw [andnot_mask hw _ (Nat.mod_lt _ hw), h1]
    congr 2
    rw [decide_eq_decide]
    exact ⟨fun h => div_mod_eq.1 ⟨h1, h⟩, fun h => by rw [h]⟩
  · have : j ≠ n := fun e => h1 (by rw [e])
    simp [this]

/-- Specification: all the rows have `nbcolumns` words, and the rows in use are allocated -/
structure SatMat.Wf (s : SatMat w) : Prop where
  rows : s.nbrows ≤ s.p.length
  cols : ∀ r ∈ s.p, r.length = s.nbcolumns

theorem SatMat.getD_length {s : SatMat w} (hs : s.Wf) {i : ℕ} (hi : i < s.p.length) :
    (s.p.getD i []).length = s.nbcolumns := by
  rw [List.getD_eq_getElem _ _ hi]
  exact hs.cols _ (List.getElem_mem hi)

theorem satmat_set (hw : 0 < w) {s : SatMat w} (hs : s.Wf) {i n : ℕ} (hi : i < s.p.length) (hn : n / w < s.nbcolumns) :
    ∃ r, s.set i (.init n) = some r ∧ r.Wf ∧ r.p.length = s.p.length ∧ r.nbcolumns = s.nbcolumns ∧
      r.nbrows = s.nbrows ∧ ∀ a b, r.bitOf a b = (s.bitOf a b || (decide (a = i) && decide (b = n))) := by
  have hlen := hs.cols _ (List.getElem_mem hi)
  obtain ⟨r, h1, h2, h3⟩ := set_init hw (b := s.p[i]) (n := n) (by rw [hlen]; exact hn)
  refine ⟨{ s with p := s.p.set i r }, ?_, ⟨by simpa using hs.rows, ?_⟩, by simp, rfl, rfl, ?_⟩
  · unfold SatMat.set
    rw [List.getElem?_eq_getElem hi, Option.bind_some, h1]; rfl
  · intro q hq
    rcases List.mem_or_eq_of_mem_set hq with h | h
    · exact hs.cols q h
    · rw [h, h2, hlen]
  · intro a b
    unfold SatMat.bitOf
    simp only
    by_cases h : a = i
    · subst h
      rw [List.getD_eq_getElem _ _ (by simpa using hi), List.getElem_set_self, h3, List.getD_eq_getElem _ _ hi]
      simp
    · have : (s.p.set i r).getD a [] = s.p.getD a [] := by
        rw [List.getD_eq_getElem?_getD, List.getD_eq_getElem?_getD, List.getElem?_set_ne (fun h' => h h'.symm)]
      rw [this]; simp [h]

theorem satmat_clr (hw : 0 < w) {s : SatMat w} (hs : s.Wf) {i n : ℕ} (hi : i < s.p.length) (hn : n / w < s.nbcolumns) :
    ∃ r, s.clr i (.init n) = some r ∧ r.Wf ∧ r.p.length = s.p.length ∧ r.nbcolumns = s.nbcolumns ∧
      r.nbrows = s.nbrows ∧ ∀ a b, r.bitOf a b = (s.bitOf a b && !(decide (a = i) && decide (b = n))) := by
  have hlen := hs.cols _ (List.getElem_mem hi)
  obtain ⟨r, h1, h2, h3⟩ := clr_init hw (b := s.p[i]) (n := n) (by rw [hlen]; exact hn)
  refine ⟨{ s with p := s.p.set i r }, ?_, ⟨by simpa using hs.rows, ?_⟩, by simp, rfl, rfl, ?_⟩
  · unfold SatMat.clr
    rw [List.getElem?_eq_getElem hi, Option.bind_some, h1]; rfl
  · intro q hq
    rcases List.mem_or_eq_of_mem_set hq with h | h
    · exact hs.cols q h
    · rw [h, h2, hlen]
  · intro a b
    unfold SatMat.bitOf
    simp only
    by_cases h : a = i
    · subst h
      rw [List.getD_eq_getElem _ _ (by simpa using hi), List.getElem_set_self, h3, List.getD_eq_getElem _ _ hi]
      simp
    · have : (s.p.set i r).getD a [] = s.p.getD a [] := by
        rw [List.getD_eq_getElem?_getD, List.getD_eq_getElem?_getD, List.getElem?_set_ne (fun h' => h h'.symm)]
      rw [this]; simp [h]

theorem satmat_get (hw : 0 < w) {s : SatMat w} (hs : s.Wf) {i n : ℕ} (hi : i < s.p.length) (hn : n / w < s.nbcolumns) :
    ∃ x, s.get i (.init n) = some x ∧ (x ≠ 0 ↔ s.bitOf i n = true) := by
  obtain ⟨x, h1, h2⟩ := get_init hw (b := s.p[i]) (n := n) (by rw [hs.cols _ (List.getElem_mem hi)]; exact hn)
  refine ⟨x, ?_, ?_⟩
  · unfold SatMat.get; rw [List.getElem?_eq_getElem hi, Option.bind_some, h1]
  · rw [h2, SatMat.bitOf, List.getD_eq_getElem _ _ hi]

theorem wf_alloc (n m : ℕ) : (SatMat.alloc n m : SatMat w).Wf :=
  ⟨by simp [SatMat.alloc], fun r hr => by
    simp only [SatMat.alloc, List.mem_replicate] at hr ⊢
    rw [hr.2]; simp⟩

theorem bitOf_zero (m j : ℕ) : BitStr.bitOf (List.replicate m (0 : BitVec w)) j = false := by
  unfold BitStr.bitOf
  have : (List.replicate m (0 : BitVec w)).getD (j / w) 0 = 0 := by
    rw [List.getD_eq_getElem?_getD, List.getElem?_replicate]
    split_ifs <;> rfl
  rw [this]; simp

theorem bitOf_nil (j : ℕ) : BitStr.bitOf ([] : BitStr w) j = false := bitOf_zero 0 j

theorem bitOf_alloc (n m i j : ℕ) : (SatMat.alloc n m : SatMat w).bitOf i j = false := by
  unfold SatMat.bitOf SatMat.alloc
  simp only
  rw [List.getD_eq_getElem?_getD, List.getElem?_replicate]
  split_ifs
  · exact bitOf_zero m j
  · exact bitOf_nil j

/-! ## transposition -/

theorem transposeCols_spec (hw : 0 < w) {org : SatMat w} (ho : org.Wf) {i : ℕ} (hi : i < org.p.length) :
    ∀ (n j : ℕ) (d : SatMat w), d.Wf → (j + n ≤ d.p.length) → (∀ k, k < j + n → k / w < org.nbcolumns) →
      i / w < d.nbcolumns → ∃ r, SatMat.transposeCols org (.init i) n (.init j) d = some r ∧ r.Wf ∧
        r.p.length = d.p.length ∧ r.nbcolumns = d.nbcolumns ∧ r.nbrows = d.nbrows ∧
        ∀ a b, r.bitOf a b = (d.bitOf a b || (decide (b = i ∧ j ≤ a ∧ a < j + n) && org.bitOf i a)) := by
  intro n
  induction n with
  | zero =>
    intro j d hd _ _ _
    refine ⟨d, rfl, hd, rfl, rfl, rfl, fun a b => ?_⟩
    have : ¬ (b = i ∧ j ≤ a ∧ a < j + 0) := by omega
    simp [this]
  | succ n ih =>
    intro j d hd hj hk hid
    obtain ⟨x, h1, h2⟩ := satmat_get hw ho hi (hk j (by omega))
    have key : ∃ d', (if x ≠ 0 then d.set j (.init i) else some d) = some d' ∧ d'.Wf ∧ d'.p.length = d.p.length ∧
        d'.nbcolumns = d.nbcolumns ∧ d'.nbrows = d.nbrows ∧
        ∀ a b, d'.bitOf a b = (d.bitOf a b || (decide (a = j) && decide (b = i) && org.bitOf i j)) := by
      by_cases hx : x ≠ 0
      · rw [if_pos hx]
        obtain ⟨r, s1, s2, s3, s4, s5, s6⟩ := satmat_set hw hd (i := j) (n := i) (by omega) hid
        refine ⟨r, s1, s2, s3, s4, s5, fun a b => ?_⟩
        rw [s6, h2.1 hx, Bool.and_true]
      · rw [if_neg hx]
        refine ⟨d, rfl, hd, rfl, rfl, rfl, fun a b => ?_⟩
        have : org.bitOf i j = false := by
          cases h : org.bitOf i j
          · rfl
          · exact absurd (h2.2 h) hx
        simp [this]
    obtain ⟨d', k1, k2, k3, k4, k5, k6⟩ := key
    obtain ⟨r, r1, r2, r3, r4, r5, r6⟩ := ih (j + 1) d' k2 (by omega) (fun k hk' => hk k (by omega)) (by omega)
    refine ⟨r, ?_, r2, r3.trans k3, r4.trans k4, r5.trans k5, fun a b => ?_⟩
    · unfold SatMat.transposeCols
      rw [show (BitIndex.init i : BitIndex w).index = i from rfl, show (BitIndex.init j : BitIndex w).index = j from rfl,
        h1, Option.bind_some, k1, Option.bind_some, init_inc hw]
      exact r1
    · rw [r6, k6, Bool.or_assoc]
      congr 1
      by_cases ha : a = j
      · subst ha
        by_cases hb : b = i
        · simp [hb]
        · simp [hb]
      · have : (j + 1 ≤ a ∧ a < j + 1 + n) ↔ (j ≤ a ∧ a < j + (n + 1)) := by omega
        simp only [this]
        simp [ha]

theorem transposeRows_spec (hw : 0 < w) {org : SatMat w} (ho : org.Wf) {nbcols : ℕ}
    (hk : ∀ k, k < nbcols → k / w < org.nbcolumns) :
    ∀ (n i : ℕ) (d : SatMat w), d.Wf → d.p.length = nbcols → i + n ≤ org.p.length →
      (∀ k, k < i + n → k / w < d.nbcolumns) →
      ∃ r, SatMat.transposeRows org nbcols n (.init i) d = some r ∧ r.Wf ∧
        r.p.length = d.p.length ∧ r.nbcolumns = d.nbcolumns ∧ r.nbrows = d.nbrows ∧
        ∀ a b, r.bitOf a b = (d.bitOf a b || (decide (a < nbcols ∧ i ≤ b ∧ b < i + n) && org.bitOf b a)) := by
  intro n
  induction n with
  | zero =>
    intro i d hd _ _ _
    refine ⟨d, rfl, hd, rfl, rfl, rfl, fun a b => ?_⟩
    have : ¬ (a < nbcols ∧ i ≤ b ∧ b < i + 0) := by omega
    simp [this]
  | succ n ih =>
    intro i d hd hl hi hid
    obtain ⟨d', k1, k2, k3, k4, k5, k6⟩ := transposeCols_spec hw ho (i := i) (by omega) nbcols 0 d hd (by omega)
      (fun k hk' => hk k (by omega)) (hid i (by omega))
    obtain ⟨r, r1, r2, r3, r4, r5, r6⟩ := ih (i + 1) d' k2 (by omega) (by omega) (fun k hk' => by
      rw [k4]; exact hid k (by omega))
    refine ⟨r, ?_, r2, r3.trans k3, r4.trans k4, r5.trans k5, fun a b => ?_⟩
    · unfold SatMat.transposeRows
      rw [k1, Option.bind_some, init_inc hw]
      exact r1
    · rw [r6, k6, Bool.or_assoc]
      congr 1
      by_cases hb : b = i
      · subst hb
        by_cases ha : a < nbcols <;> simp [ha]
      · have : (i + 1 ≤ b ∧ b < i + 1 + n) ↔ (i ≤ b ∧ b < i + (n + 1)) := by omega
        simp only [this]
        simp [hb]

/-! ## moving rows -/

theorem exchRows_spec {s : SatMat w} {i j : ℕ} (hi : i < s.p.length) (hj : j < s.p.length) :
    ∃ r, s.exchRows i j = some r ∧ r.nbrows = s.nbrows ∧ r.nbcolumns = s.nbcolumns ∧ r.p.length = s.p.length ∧
      r.p.Perm s.p ∧ ∀ k, r.p[k]? = if k = i then s.p[j]? else if k = j then s.p[i]? else s.p[k]? := by
  refine ⟨{ s with p := (s.p.set i s.p[j]).set j s.p[i] }, ?_, rfl, rfl, by simp, ?_, fun k => ?_⟩
  · unfold SatMat.exchRows
    rw [List.getElem?_eq_getElem hi, List.getElem?_eq_getElem hj]; rfl
  · exact List.set_set_perm hi hj
  · simp only
    rw [List.getElem?_set, List.getElem?_set]
    by_cases h1 : k = i
    · subst h1
      by_cases h2 : j = k
      · subst h2; simp [hj]
      · simp [h2, hi, hj]
    · by_cases h2 : k = j
      · subst h2; simp [h1, hi, hj]
      · have h1' : ¬ i = k := fun e => h1 e.symm
        have h2' : ¬ j = k := fun e => h2 e.symm
        simp [h1, h2, h1', h2']

theorem moveUp_spec {d o : ℕ} (hdo : o < d) :
    ∀ (n : ℕ) (s : SatMat w), d + n ≤ s.p.length →
      ∃ r, SatMat.moveUp d o n s = some r ∧ r.nbrows = s.nbrows ∧ r.nbcolumns = s.nbcolumns ∧
        r.p.length = s.p.length ∧ r.p.Perm s.p ∧ (∀ k, k < n → r.p[d + k]? = s.p[o + k]?) ∧
        ∀ k, ¬ (o ≤ k ∧ k < o + n) → ¬ (d ≤ k ∧ k < d + n) → r.p[k]? = s.p[k]? := by
  intro n
  induction n with
  | zero => intro s _; exact ⟨s, rfl, rfl, rfl, rfl, List.Perm.refl _, by simp, fun _ _ _ => rfl⟩
  | succ n ih =>
    intro s hs
    obtain ⟨s1, e1, e2, e3, e4, e5, e6⟩ := exchRows_spec (s := s) (i := d + n) (j := o + n) (by omega) (by omega)
    obtain ⟨r, r1, r2, r3, r4, r5, r6, r7⟩ := ih s1 (by omega)
    refine ⟨r, ?_, r2.trans e2, r3.trans e3, r4.trans e4, r5.trans e5, fun k hk => ?_, fun k h1 h2 => ?_⟩
    · unfold SatMat.moveUp
      rw [e1, Option.bind_some, r1]
    · by_cases h : k = n
      · subst h
        rw [r7 (d + k) (by omega) (by omega), e6, if_pos rfl]
      · rw [r6 k (by omega), e6, if_neg (by omega), if_neg (by omega)]
    · rw [r7 k (by omega) (by omega), e6, if_neg (by omega), if_neg (by omega)]

theorem moveDown_spec :
    ∀ (n d o : ℕ) (s : SatMat w), d ≤ o → o + n ≤ s.p.length →
      ∃ r, SatMat.moveDown d o n s = some r ∧ r.nbrows = s.nbrows ∧ r.nbcolumns = s.nbcolumns ∧
        r.p.length = s.p.length ∧ r.p.Perm s.p ∧ (∀ k, k < n → r.p[d + k]? = s.p[o + k]?) ∧
        ∀ k, ¬ (o ≤ k ∧ k < o + n) → ¬ (d ≤ k ∧ k < d + n) → r.p[k]? = s.p[k]? := by
  intro n
  induction n with
  | zero => intro d o s _ _; exact ⟨s, by simp [SatMat.moveDown], rfl, rfl, rfl, List.Perm.refl _, by simp, fun _ _ _ => rfl⟩
  | succ n ih =>
    intro d o s hdo hs
    obtain ⟨s1, e1, e2, e3, e4, e5, e6⟩ := exchRows_spec (s := s) (i := d) (j := o) (by omega) (by omega)
    obtain ⟨r, r1, r2, r3, r4, r5, r6, r7⟩ := ih (d + 1) (o + 1) s1 (by omega) (by omega)
    refine ⟨r, ?_, r2.trans e2, r3.trans e3, r4.trans e4, r5.trans e5, fun k hk => ?_, fun k h1 h2 => ?_⟩
    · unfold SatMat.moveDown
      rw [e1, Option.bind_some, r1]
    · by_cases h : k = 0
      · subst h
        rw [r7 (d + 0) (by omega) (by omega), e6, if_pos (by omega)]
        rfl
      · have h3 := r6 (k - 1) (by omega)
        rw [show d + 1 + (k - 1) = d + k by omega, show o + 1 + (k - 1) = o + k by omega] at h3
        rw [h3, e6, if_neg (by omega), if_neg (by omega)]
    · rw [r7 k (by omega) (by omega), e6, if_neg (by omega), if_neg (by omega)]

/-! ## refinement of the saturation rows of the conversion -/

/-- the row of the model of the conversion: bit `n` of the number is bit `n` of the bitstring -/
def BitStr.mask (b : BitStr w) : ℕ := maskOf b.bitOf (w * b.length)

theorem bitOf_ge (hw : 0 < w) {b : BitStr w} {n : ℕ} (h : w * b.length ≤ n) : b.bitOf n = false := by
  unfold BitStr.bitOf
  have : b.length ≤ n / w := by rw [Nat.le_div_iff_mul_le hw, Nat.mul_comm]; exact h
  rw [List.getD_eq_default _ _ this]; simp

theorem testBit_mask (hw : 0 < w) (b : BitStr w) (n : ℕ) : b.mask.testBit n = b.bitOf n := by
  unfold BitStr.mask
  rw [testBit_maskOf]
  by_cases h : n < w * b.length
  · simp [h]
  · rw [bitOf_ge hw (by omega)]; simp

theorem mask_ext (hw : 0 < w) {b : BitStr w} {m : ℕ} : b.mask = m ↔ ∀ n, b.bitOf n = m.testBit n := by
  constructor
  · rintro rfl n; rw [testBit_mask hw]
  · intro h
    apply Nat.eq_of_testBit_eq
    intro n
    rw [testBit_mask hw, h]

theorem word_ext (hw : 0 < w) {x y : BitVec w} (h : ∀ r, r < w → x.getMsbD r = y.getMsbD r) : x = y := by
  apply BitVec.eq_of_getLsbD_eq
  intro i hi
  have := h (w - 1 - i) (by omega)
  simp only [BitVec.getMsbD] at this
  have e : w - 1 - (w - 1 - i) = i := by omega
  have e2 : w - 1 - i < w := by omega
  simpa [e, e2] using this

theorem getD_bit (b : BitStr w) (i : ℕ) {r : ℕ} (hr : r < w) : (b.getD i 0).getMsbD r = b.bitOf (w * i + r) := by
  unfold BitStr.bitOf
  rw [Nat.mul_add_div (by omega), Nat.mul_add_mod, Nat.div_eq_of_lt hr, Nat.mod_eq_of_lt hr, Nat.add_zero]

theorem countMask_spec (hw : 0 < w) (x : BitVec w) : ∀ (n r : ℕ), r + n ≤ w →
    BitStr.countMask x n (msb w >>> r) = (List.range' r n).countP fun j => !x.getMsbD j := by
  intro n
  induction n with
  | zero => intro r _; rfl
  | succ n ih =>
    intro r hr
    unfold BitStr.countMask
    rw [← BitVec.shiftRight_add, ih (r + 1) (by omega), List.range'_succ, List.countP_cons, Nat.add_comm]
    congr 1
    have := and_mask hw x (r := r) (by omega)
    cases h : x.getMsbD r
    · rw [h] at this; simp at this; simp [this]
    · rw [h] at this; simp at this; simp [this]

theorem countP_block (hw : 0 < w) (b : BitStr w) (i n : ℕ) (hn : n ≤ w) :
    BitStr.countMask (b.getD i 0) n (msb w) = (List.range' (w * i) n).countP fun j => !b.bitOf j := by
  have h := countMask_spec hw (b.getD i 0) n 0 (by omega)
  rw [BitVec.ushiftRight_zero] at h
  rw [h]
  have e : List.range' (w * i) n = (List.range' 0 n).map (w * i + ·) := by
    rw [List.map_add_range']; simp
  rw [e, List.countP_map]
  apply List.countP_congr
  intro j hj
  rw [List.mem_range'_1] at hj
  simp only [Function.comp]
  rw [getD_bit b i (by omega)]

theorem countWords (hw : 0 < w) (b : BitStr w) : ∀ n : ℕ,
    ((List.range n).map fun i => BitStr.countMask (b.getD i 0) w (msb w)).sum =
      (List.range (w * n)).countP fun j => !b.bitOf j := by
  intro n
  induction n with
  | zero => simp
  | succ n ih =>
    rw [List.range_succ, List.map_append, List.sum_append, ih, List.map_singleton, List.sum_singleton,
      countP_block hw b n w le_rfl, Nat.mul_succ, List.range_eq_range', List.range_eq_range', ← List.countP_append]
    congr 1
    have := List.range'_append (s := 0) (m := w * n) (n := w) (step := 1)
    simpa using this

end Poly
end Apron
