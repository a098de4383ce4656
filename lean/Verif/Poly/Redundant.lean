import Verif.Poly.Minimize
import Verif.Poly.ConvLoop

/-!
# The removal of redundant rows in `cherni_simplify`
-/

set_option autoImplicit false
set_option linter.unusedSectionVars false

namespace Apron.Poly

/-- the rows saturated by `x` are saturated by `y`: `y` makes `x` redundant -/
def Dom (y x : SRow) : Prop := y.sat ||| x.sat = x.sat

theorem dom_iff {y x : SRow} : Dom y x ↔ ∀ b, y.sat.testBit b = true → x.sat.testBit b = true := by
  constructor
  · intro h b hb
    have := congrArg (fun m => m.testBit b) h
    simp only [Nat.testBit_or, hb, Bool.true_or] at this
    exact this.symm
  · intro h
    apply Nat.eq_of_testBit_eq
    intro b
    rw [Nat.testBit_or]
    cases hy : y.sat.testBit b
    · rw [Bool.false_or]
    · rw [h b hy, Bool.or_true]

theorem Dom.refl (x : SRow) : Dom x x := Nat.or_self _

theorem Dom.trans {x y z : SRow} (h1 : Dom x y) (h2 : Dom y z) : Dom x z :=
  dom_iff.2 fun b hb => dom_iff.1 h2 b (dom_iff.1 h1 b hb)

theorem Dom.antisymm {x y : SRow} (h1 : Dom x y) (h2 : Dom y x) : x.sat = y.sat :=
  Nat.eq_of_testBit_eq fun b => by
    have a1 := dom_iff.1 h1 b
    have a2 := dom_iff.1 h2 b
    cases hx : x.sat.testBit b <;> cases hy : y.sat.testBit b <;> simp_all

theorem zeroBits_anti {n a b : ℕ} (h : ∀ i, a.testBit i = true → b.testBit i = true) : zeroBits n b ≤ zeroBits n a := by
  rw [zeroBits, zeroBits]
  refine List.countP_mono_left ?_
  intro i _ hi
  simp only [Bool.not_eq_true'] at hi ⊢
  by_contra hc
  rw [Bool.not_eq_false] at hc
  rw [h i hc] at hi; exact absurd hi (by simp)

theorem zeroBits_lt {n a b : ℕ} (h : ∀ i, a.testBit i = true → b.testBit i = true) (hb : ∀ i, b.testBit i = true → i < n)
    (hne : a ≠ b) : zeroBits n b < zeroBits n a := by
  have hex : ∃ i, i < n ∧ b.testBit i = true ∧ a.testBit i = false := by
    by_contra hc
    apply hne
    apply Nat.eq_of_testBit_eq
    intro i
    cases hbi : b.testBit i
    · cases hai : a.testBit i
      · rfl
      · rw [h i hai] at hbi; exact absurd hbi (by simp)
    · cases hai : a.testBit i
      · exact absurd ⟨i, hb i hbi, hbi, hai⟩ hc
      · rfl
  obtain ⟨i, hi, hbi, hai⟩ := hex
  clear hne hb
  rw [zeroBits, zeroBits]
  induction n with
  | zero => omega
  | succ n ih =>
    rw [List.range_succ, List.countP_append, List.countP_append]
    have hm : ∀ m, List.countP (fun i => !b.testBit i) (List.range m) ≤ List.countP (fun i => !a.testBit i) (List.range m) :=
      fun m => zeroBits_anti (n := m) h
    simp only [List.countP_cons, List.countP_nil, Nat.zero_add]
    by_cases hin : i = n
    · subst hin
      rw [hbi, hai]
      have := hm i
      simp only [Bool.not_true, Bool.false_eq_true, if_false, Bool.not_false, if_true]; omega
    · have h1 := ih (by omega)
      have h2 : (if (!b.testBit n) = true then 1 else 0) ≤ (if (!a.testBit n) = true then 1 else 0) := by
        cases hbn : b.testBit n
        · have : a.testBit n = false := by
            cases han : a.testBit n
            · rfl
            · rw [h n han] at hbn; exact absurd hbn (by simp)
          rw [this]
        · simp
      omega

/-- the status column holds the number of saturating generators among the first `n` -/
structure Counted (n : ℕ) (x : SRow) : Prop where
  st : x.row.at' 0 = zeroBits n x.sat
  bits : ∀ i, x.sat.testBit i = true → i < n

theorem Dom.count {n : ℕ} {x y : SRow} (hx : Counted n x) (hy : Counted n y) (h : Dom y x) :
    x.row.at' 0 < y.row.at' 0 ∨ (x.row.at' 0 = y.row.at' 0 ∧ x.sat = y.sat) := by
  by_cases he : x.sat = y.sat
  · exact .inr ⟨by rw [hx.st, hy.st, he], he⟩
  · refine .inl ?_
    rw [hx.st, hy.st]
    exact_mod_cast zeroBits_lt (dom_iff.1 h) hx.bits (Ne.symm he)

/-! ## Exchange with the last row -/

theorem exchRemove_length (L : List SRow) (j : ℕ) : (exchRemove L j).length = L.length - 1 := by
  rw [exchRemove, List.length_dropLast, List.length_set]

theorem exchRemove_append (L : List SRow) (z : SRow) {j : ℕ} (hj : j < L.length) : exchRemove (L ++ [z]) j = L.set j z := by
  rw [exchRemove, List.set_append_left _ _ hj, List.dropLast_concat]
  congr 1
  simp

theorem exchRemove_append' (L : List SRow) (z : SRow) : exchRemove (L ++ [z]) L.length = L := by
  rw [exchRemove, List.set_append_right _ _ le_rfl, Nat.sub_self, List.set_cons_zero, List.dropLast_concat]

theorem exchRemove_perm (L : List SRow) {j : ℕ} (hj : j < L.length) : L.Perm (L[j] :: exchRemove L j) := by
  have hne : L ≠ [] := by rintro rfl; simp at hj
  obtain ⟨L0, z, rfl⟩ : ∃ L0 z, L = L0 ++ [z] := ⟨_, _, (List.dropLast_append_getLast hne).symm⟩
  rcases Nat.lt_or_ge j L0.length with h | h
  · rw [exchRemove_append _ _ h, List.getElem_append_left h]
    have h1 := (List.set_perm_cons_eraseIdx h z).cons L0[j]
    have h2 := List.getElem_cons_eraseIdx_perm h
    refine List.Perm.trans ?_ h1.symm
    refine (List.perm_append_singleton z L0).trans ?_
    refine (h2.symm.cons z).trans (List.Perm.swap _ _ _)
  · have : j = L0.length := by simp at hj; omega
    subst this
    rw [exchRemove_append']
    simp

theorem exchRemove_get (L : List SRow) {j p : ℕ} (hj : j < L.length) (hp : p < (exchRemove L j).length) (hpj : p ≠ j) :
    (exchRemove L j)[p] = L[p]'(by rw [exchRemove_length] at hp; omega) := by
  simp only [exchRemove, List.getElem_dropLast]
  rw [List.getElem_set_ne (Ne.symm hpj)]

theorem exchRemove_get_self (L : List SRow) {j : ℕ} (hp : j < (exchRemove L j).length) :
    (exchRemove L j)[j] = L[L.length - 1]'(by rw [exchRemove_length] at hp; omega) := by
  simp only [exchRemove, List.getElem_dropLast, List.getElem_set_self]
  have hne : L ≠ [] := by rintro rfl; simp [exchRemove] at hp
  rw [List.getLastD_eq_getLast?, List.getLast?_eq_some_getLast hne, Option.getD_some, List.getLast_eq_getElem]

/-! ## The inner loop -/

/-- row `p` is not made redundant by another row -/
def Strong (L : List SRow) (p : ℕ) : Prop :=
  ∀ (hp : p < L.length) (q : ℕ) (hq : q < L.length), q ≠ p → ¬ Dom L[q] L[p]

theorem getD_row {L : List SRow} {i : ℕ} (h : i < L.length) : L.getD i ⟨[], 0⟩ = L[i] := by
  rw [List.getD_eq_getElem?_getD, List.getElem?_eq_getElem h, Option.getD_some]

theorem Strong.exchRemove {L : List SRow} {p j : ℕ} (h : Strong L p) (hj : j < L.length) (hpj : p < j) :
    Strong (exchRemove L j) p := by
  intro hp q hq hqp
  have hp' := hp
  have hq' := hq
  rw [exchRemove_length] at hp' hq'
  rw [exchRemove_get L hj hp (by omega)]
  by_cases hqj : q = j
  · subst hqj
    rw [exchRemove_get_self]
    exact h (by omega) (L.length - 1) (by omega) (by omega)
  · rw [exchRemove_get L hj hq hqj]
    exact h (by omega) q (by omega) hqp

/-- what the inner loop preserves -/
structure ScanOk (i : ℕ) (L L' : List SRow) : Prop where
  sub : L'.Subperm L
  len : i < L'.length
  pre : ∀ p (h : p < L.length) (h' : p < L'.length), p ≤ i → L'[p] = L[p]
  dom : ∀ x ∈ L, ∃ y ∈ L', Dom y x
  strong : ∀ p < i, Strong L' p

theorem scan_ok {n : ℕ} (i : ℕ) (m : ℕ) (L : List SRow) (j : ℕ) (hc : ∀ x ∈ L, Counted n x) (hi : i < L.length)
    (hm : L.length ≤ m + j) (hs : ∀ p < i, Strong L p) (hsc : ∀ q (hq : q < L.length), q < j → q ≠ i → ¬ Dom L[q] L[i]) :
    ScanOk i L (scan i (L[i].row.at' 0) m L j).2 ∧
    ((scan i (L[i].row.at' 0) m L j).1 = true → ∀ h : i < (scan i (L[i].row.at' 0) m L j).2.length,
      ∃ q, ∃ hq : q < (scan i (L[i].row.at' 0) m L j).2.length, q ≠ i ∧
        Dom ((scan i (L[i].row.at' 0) m L j).2[q]) ((scan i (L[i].row.at' 0) m L j).2[i])) ∧
    ((scan i (L[i].row.at' 0) m L j).1 = false → Strong (scan i (L[i].row.at' 0) m L j).2 i) := by
  induction m generalizing L j with
  | zero =>
    rw [scan]
    refine ⟨⟨List.Subperm.refl _, hi, fun _ _ _ _ => rfl, fun x hx => ⟨x, hx, .refl x⟩, hs⟩, by simp, fun _ => ?_⟩
    intro _ q hq hqi
    dsimp only at hq
    exact hsc q hq (by omega) hqi
  | succ m ih =>
    rw [scan]
    by_cases hj : j < L.length
    · rw [if_pos hj]
      dsimp only
      rw [getD_row hi, getD_row hj]
      have hci := hc _ (List.getElem_mem hi)
      have hcj := hc _ (List.getElem_mem hj)
      have next : ¬ Dom L[j] L[i] ∨ j = i → _ := fun hnd => ih L (j + 1) hc hi (by omega) hs (fun q hq hqj hqi => by
        rcases Nat.lt_or_ge q j with h | h
        · exact hsc q hq h hqi
        · obtain rfl : q = j := by omega
          rcases hnd with hnd | hnd
          · exact hnd
          · exact absurd hnd hqi)
      by_cases hlt : L[i].row.at' 0 < L[j].row.at' 0
      · rw [if_pos hlt]
        by_cases hd : L[j].sat ||| L[i].sat = L[i].sat
        · rw [if_pos hd]
          refine ⟨⟨List.Subperm.refl _, hi, fun _ _ _ _ => rfl, fun x hx => ⟨x, hx, .refl x⟩, hs⟩, fun _ _ => ⟨j, hj, ?_, hd⟩, by simp⟩
          rintro rfl; exact lt_irrefl _ hlt
        · rw [if_neg hd]
          exact next (.inl hd)
      · rw [if_neg hlt]
        by_cases heq : L[j].row.at' 0 = L[i].row.at' 0 ∧ j ≠ i
        · rw [if_pos heq]
          by_cases hse : L[i].sat = L[j].sat
          · rw [if_pos hse]
            -- the rows before `i` are not redundant
            have hij : i < j := by
              rcases Nat.lt_or_ge j i with h | h
              · exact absurd (show Dom L[i] L[j] by rw [Dom, hse]; exact Nat.or_self _) (hs j h hj i hi (by omega))
              · exact lt_of_le_of_ne h (Ne.symm heq.2)
            have hlen := exchRemove_length L j
            have hi' : i < (exchRemove L j).length := by omega
            have hperm := exchRemove_perm L hj
            have hgi := exchRemove_get L hj hi' (by omega)
            have hmem : ∀ x ∈ exchRemove L j, x ∈ L := fun x hx => hperm.mem_iff.2 (List.mem_cons_of_mem _ hx)
            have key := ih (exchRemove L j) j (fun x hx => hc x (hmem x hx)) hi' (by omega)
              (fun p hp => (hs p hp).exchRemove hj (by omega))
              (fun q hq hqj hqi => by
                rw [hgi, exchRemove_get L hj hq (by omega)]
                exact hsc q (by omega) hqj hqi)
            rw [hgi] at key
            refine ⟨⟨?_, key.1.len, ?_, ?_, key.1.strong⟩, key.2⟩
            · exact key.1.sub.trans ((List.sublist_cons_self _ _).subperm.trans hperm.symm.subperm)
            · intro p h h' hp
              rw [key.1.pre p (by omega) h' hp, exchRemove_get L hj (by omega) (by omega)]
            · intro x hx
              rcases List.mem_cons.1 (hperm.mem_iff.1 hx) with rfl | hx'
              · have : L[i] ∈ exchRemove L j := by rw [← hgi]; exact List.getElem_mem _
                obtain ⟨y, hy, hyd⟩ := key.1.dom _ this
                exact ⟨y, hy, by rw [Dom] at hyd ⊢; rw [← hse]; exact hyd⟩
              · exact key.1.dom x hx'
          · rw [if_neg hse]
            refine next (.inl fun hd => ?_)
            rcases Dom.count hci hcj hd with h | h
            · exact hlt h
            · exact hse h.2
        · rw [if_neg heq]
          refine next ?_
          by_cases hji : j = i
          · exact .inr hji
          · refine .inl fun hd => ?_
            rcases Dom.count hci hcj hd with h | h
            · exact hlt h
            · exact heq ⟨h.1.symm, hji⟩
    · rw [if_neg hj]
      refine ⟨⟨List.Subperm.refl _, hi, fun _ _ _ _ => rfl, fun x hx => ⟨x, hx, .refl x⟩, hs⟩, by simp, fun _ => ?_⟩
      intro _ q hq hqi
      dsimp only at hq
      exact hsc q hq (by omega) hqi

theorem dropRedundant_ok {n : ℕ} (m : ℕ) (L : List SRow) (i : ℕ) (hc : ∀ x ∈ L, Counted n x) (hm : L.length ≤ m + i)
    (hs : ∀ p < i, Strong L p) :
    (dropRedundant m L i).Subperm L ∧ (∀ x ∈ L, ∃ y ∈ dropRedundant m L i, Dom y x) ∧ ∀ p, Strong (dropRedundant m L i) p := by
  induction m generalizing L i with
  | zero =>
    rw [dropRedundant]
    exact ⟨List.Subperm.refl _, fun x hx => ⟨x, hx, .refl x⟩, fun p hp => hs p (by omega) hp⟩
  | succ m ih =>
    rw [dropRedundant]
    by_cases hi : i < L.length
    · rw [if_pos hi]
      dsimp only
      rw [getD_row hi]
      obtain ⟨k1, k2, k3⟩ := scan_ok i L.length L 0 hc hi (by omega) hs (fun q _ hq => absurd hq (Nat.not_lt_zero q))
      generalize scan i (L[i].row.at' 0) L.length L 0 = r at *
      obtain ⟨b, L'⟩ := r
      dsimp only at k1 k2 k3 ⊢
      have hmem : ∀ x ∈ L', x ∈ L := fun x hx => k1.sub.subset hx
      have hlen := k1.sub.length_le
      cases b
      · rw [if_neg (by simp)]
        obtain ⟨a1, a2, a3⟩ := ih L' (i + 1) (fun x hx => hc x (hmem x hx)) (by omega) (fun p hp => by
          rcases Nat.lt_or_ge p i with h | h
          · exact k1.strong p h
          · obtain rfl : p = i := by omega
            exact k3 rfl)
        refine ⟨a1.trans k1.sub, fun x hx => ?_, a3⟩
        obtain ⟨y, hy, hyd⟩ := k1.dom x hx
        obtain ⟨z, hz, hzd⟩ := a2 y hy
        exact ⟨z, hz, hzd.trans hyd⟩
      · rw [if_pos rfl]
        have hlen' := exchRemove_length L' i
        have hperm := exchRemove_perm L' k1.len
        obtain ⟨a1, a2, a3⟩ := ih (exchRemove L' i) i (fun x hx => hc x (hmem x (hperm.mem_iff.2 (List.mem_cons_of_mem _ hx))))
          (by omega) (fun p hp => (k1.strong p hp).exchRemove k1.len hp)
        refine ⟨(a1.trans (List.sublist_cons_self _ _).subperm).trans (hperm.symm.subperm.trans k1.sub), fun x hx => ?_, a3⟩
        obtain ⟨y, hy, hyd⟩ := k1.dom x hx
        have : ∃ y' ∈ exchRemove L' i, Dom y' y := by
          rcases List.mem_cons.1 (hperm.mem_iff.1 hy) with rfl | hy'
          · obtain ⟨q, hq, hqi, hqd⟩ := k2 rfl k1.len
            refine ⟨L'[q], ?_, hqd⟩
            by_cases hql : q = L'.length - 1
            · have h1 : i < (exchRemove L' i).length := by have := k1.len; omega
              have := exchRemove_get_self L' h1
              subst hql
              rw [← this]; exact List.getElem_mem _
            · have h1 : q < (exchRemove L' i).length := by omega
              rw [← exchRemove_get L' k1.len h1 hqi]; exact List.getElem_mem _
          · exact ⟨y, hy', .refl y⟩
        obtain ⟨y', hy', hyd'⟩ := this
        obtain ⟨z, hz, hzd⟩ := a2 y' hy'
        exact ⟨z, hz, hzd.trans (hyd'.trans hyd)⟩
    · rw [if_neg hi]
      exact ⟨List.Subperm.refl _, fun x hx => ⟨x, hx, .refl x⟩, fun p hp => hs p (by omega) hp⟩

/-! ## The first loops -/

theorem dropFew_perm (bound : ℤ) (n : ℕ) (K T : List SRow) (hn : T.length ≤ n) :
    (dropFew bound n K T).Perm (K ++ T.filter fun x => decide (bound ≤ x.row.at' 0)) := by
  induction n generalizing K T with
  | zero =>
    obtain rfl : T = [] := by cases T <;> simp_all
    rw [dropFew]; simp
  | succ n ih =>
    cases T with
    | nil => rw [dropFew]; simp
    | cons x T =>
      rw [dropFew]
      rw [List.length_cons] at hn
      by_cases hx : x.row.at' 0 < bound
      · rw [if_pos hx]
        refine (ih _ _ (by rw [moveLast_length]; omega)).trans ?_
        rw [List.filter_cons_of_neg (by simpa using hx)]
        exact ((moveLast_perm T).filter _).append_left K
      · rw [if_neg hx]
        refine (ih _ _ (by omega)).trans ?_
        rw [List.filter_cons_of_pos (by simpa using hx)]
        simp

/-- the rows put with the equalities -/
def isEq (x : SRow) : Bool := decide (x.row.at' 0 = 0 ∨ x.sat = 0)

theorem classify_perm (n : ℕ) (T Q I : List SRow) :
    (classify n T Q I).1 = Q ++ (T.filter isEq).map (fun x => { x with row := x.row.setStatus 0 }) ∧
    (classify n T Q I).2.Perm
      (I ++ (T.filter fun x => !isEq x).map fun x => { x with row := x.row.setStatus (zeroBits n x.sat) }) := by
  induction T generalizing Q I with
  | nil => rw [classify]; simp
  | cons x T ih =>
    rw [classify]
    by_cases hx : x.row.at' 0 = 0 ∨ x.sat = 0
    · rw [if_pos hx]
      obtain ⟨h1, h2⟩ := ih (Q ++ [{ x with row := x.row.setStatus 0 }]) (rot I)
      have he : isEq x = true := by simpa [isEq] using hx
      rw [List.filter_cons_of_pos he, List.filter_cons_of_neg (by simp [he])]
      exact ⟨by rw [h1]; simp, h2.trans ((rot_perm I).append_right _)⟩
    · rw [if_neg hx]
      obtain ⟨h1, h2⟩ := ih Q (I ++ [{ x with row := x.row.setStatus (zeroBits n x.sat) }])
      have he : isEq x = false := by simpa [isEq] using hx
      rw [List.filter_cons_of_neg (by simp [he]), List.filter_cons_of_pos (by simp [he])]
      exact ⟨h1, h2.trans (by simp)⟩

theorem revTake_perm {α : Type*} (I : List α) (m : ℕ) : (I.reverse.take m ++ I.take (I.length - m)).Perm I := by
  rw [List.take_reverse]
  refine ((List.reverse_perm _).append_right _).trans ?_
  refine List.perm_append_comm.trans ?_
  rw [List.take_append_drop]

theorem testBit_maskOf (p : ℕ → Bool) (n i : ℕ) : (maskOf p n).testBit i = (decide (i < n) && p i) := by
  induction n with
  | zero => simp [maskOf]
  | succ n ih =>
    rw [maskOf, Nat.testBit_or, ih]
    by_cases hin : i = n
    · subst hin
      cases hp : p i <;> simp [Nat.testBit_shiftLeft]
    · cases hp : p n
      · simp only [Bool.false_eq_true, if_false, Nat.zero_testBit, Bool.or_false]
        congr 1; rw [decide_eq_decide]; omega
      · have : (1 <<< n).testBit i = false := by
          rw [Nat.one_shiftLeft, Nat.testBit_two_pow]; simpa using Ne.symm hin
        simp only [if_true, this, Bool.or_false]
        congr 1; rw [decide_eq_decide]; omega

end Apron.Poly
