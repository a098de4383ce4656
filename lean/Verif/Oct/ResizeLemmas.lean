import Verif.Oct.Emb
import Verif.Oct.LatticeLemmas

/-! # Helper lemmas: effect of forget, add, remove and permute on the matrix cells -/

set_option autoImplicit false
set_option linter.unusedSectionVars false
set_option linter.ambiguousOpen false

namespace Apron
namespace Oct
open Bound
variable {K : Type*} [LinearOrder K] [Field K] [IsStrictOrderedRing K]

/-! ## forget -/

theorem foldl_set2 (f g : ℕ → ℕ) (v : Bound K) (l : List ℕ) (m : Mem K) (q : ℕ) :
    (l.foldl (fun (m : Mem K) k => (m.set (f k) v).set (g k) v) m) q =
      open Classical in if ∃ k ∈ l, q = f k ∨ q = g k then v else m q := by
  induction l generalizing m with
  | nil => simp
  | cons a l ih =>
    rw [List.foldl_cons, ih]
    by_cases h : ∃ k ∈ l, q = f k ∨ q = g k
    · rw [if_pos h, if_pos (by obtain ⟨k, hk, h⟩ := h; exact ⟨k, by simp [hk], h⟩)]
    · rw [if_neg h]
      by_cases h2 : q = g a
      · subst h2
        rw [Mem.set_self, if_pos ⟨a, by simp, Or.inr rfl⟩]
      · rw [Mem.set_ne _ _ h2]
        by_cases h3 : q = f a
        · subst h3
          rw [Mem.set_self, if_pos ⟨a, by simp, Or.inl rfl⟩]
        · rw [Mem.set_ne _ _ h3, if_neg]
          rintro ⟨k, hk, hh⟩
          rcases List.mem_cons.1 hk with rfl | hk
          · tauto
          · exact h ⟨k, hk, hh⟩

theorem matpos_eq_iff {i j k l : ℕ} (h1 : Cell i j) (h2 : Cell k l) :
    matpos i j = matpos k l ↔ i = k ∧ j = l :=
  ⟨fun h => matpos_inj h1 h2 h, fun ⟨h, h'⟩ => by rw [h, h']⟩

theorem forgetVar_cell {dim : ℕ} (z : Bool) (m : Mem K) {d : ℕ} {i j : ℕ}
    (hi : i < 2 * dim) (hc : Cell i j) :
    forgetVar dim z m d (matpos i j) = if i / 2 = d ∨ j / 2 = d then
      if i = j then m (matpos i j) else if z = true ∧ i = j ^^^ 1 then fin 0 else pinf
      else m (matpos i j) := by
  classical
  unfold forgetVar
  have c1 : Cell (2 * d) (2 * d + 1) := by unfold Cell; omega
  have c2 : Cell (2 * d + 1) (2 * d) := by unfold Cell; omega
  by_cases e1 : i = 2 * d + 1 ∧ j = 2 * d
  · obtain ⟨rfl, rfl⟩ := e1
    rw [Mem.set_self, if_pos (show (2 * d + 1) / 2 = d ∨ (2 * d) / 2 = d by omega),
      if_neg (show ¬ 2 * d + 1 = 2 * d by omega)]
    cases z
    · simp
    · rw [if_pos rfl, if_pos ⟨rfl, by rw [xor1_even]⟩]
  · rw [Mem.set_ne _ _ (by rw [Ne, matpos_eq_iff hc c2]; exact e1)]
    by_cases e2 : i = 2 * d ∧ j = 2 * d + 1
    · obtain ⟨rfl, rfl⟩ := e2
      rw [Mem.set_self, if_pos (show (2 * d) / 2 = d ∨ (2 * d + 1) / 2 = d by omega),
      if_neg (show ¬ 2 * d = 2 * d + 1 by omega)]
      cases z
      · simp
      · rw [if_pos rfl, if_pos ⟨rfl, by rw [xor1_odd]⟩]
    · rw [Mem.set_ne _ _ (by rw [Ne, matpos_eq_iff hc c1]; exact e2), foldl_set2, foldl_set2]
      by_cases h1 : ∃ k ∈ List.range' (2 * d + 2) (2 * dim - (2 * d + 2)),
          matpos i j = matpos k (2 * d) ∨ matpos i j = matpos k (2 * d + 1)
      · rw [if_pos h1]
        obtain ⟨k, hk, h⟩ := h1
        rw [List.mem_range'_1] at hk
        rw [matpos_eq_iff hc (by unfold Cell; omega), matpos_eq_iff hc (by unfold Cell; omega)] at h
        rw [if_pos (by omega), if_neg (by omega), if_neg]
        rintro ⟨_, h'⟩
        have := congrArg (· / 2) h'
        simp only [xor1_div] at this
        omega
      · rw [if_neg h1]
        by_cases h2 : ∃ k ∈ List.range (2 * d),
            matpos i j = matpos (2 * d) k ∨ matpos i j = matpos (2 * d + 1) k
        · rw [if_pos h2]
          obtain ⟨k, hk, h⟩ := h2
          rw [List.mem_range] at hk
          rw [matpos_eq_iff hc (by unfold Cell; omega), matpos_eq_iff hc (by unfold Cell; omega)] at h
          rw [if_pos (by omega), if_neg (by omega), if_neg]
          rintro ⟨_, h'⟩
          have := congrArg (· / 2) h'
          simp only [xor1_div] at this
          omega
        · rw [if_neg h2]
          by_cases h3 : i / 2 = d ∨ j / 2 = d
          · rw [if_pos h3, if_pos]
            by_contra hij
            unfold Cell at hc
            rcases Nat.lt_trichotomy (i / 2) (j / 2) with hl | he | hg
            · omega
            · omega
            · rcases h3 with h3 | h3
              · refine h2 ⟨j, by rw [List.mem_range]; omega, ?_⟩
                rcases Nat.mod_two_eq_zero_or_one i with hm | hm
                · left; rw [show i = 2 * d by omega]
                · right; rw [show i = 2 * d + 1 by omega]
              · refine h1 ⟨i, by rw [List.mem_range'_1]; omega, ?_⟩
                rcases Nat.mod_two_eq_zero_or_one j with hm | hm
                · left; rw [show j = 2 * d by omega]
                · right; rw [show j = 2 * d + 1 by omega]
          · rw [if_neg h3]

/-- the kept variables -/
def keep (dim : ℕ) (tdim : List ℕ) (v : ℕ) : Option ℕ := if v < dim ∧ v ∉ tdim then some v else none

theorem keep_some {dim : ℕ} {tdim : List ℕ} {v w : ℕ} :
    keep dim tdim v = some w ↔ v = w ∧ v < dim ∧ v ∉ tdim := by
  unfold keep
  split_ifs with h
  · simp only [Option.some.injEq]; tauto
  · simp only [reduceCtorEq, false_iff]; tauto

theorem keep_none {dim : ℕ} {tdim : List ℕ} {v : ℕ} :
    keep dim tdim v = none ↔ ¬ (v < dim ∧ v ∉ tdim) := by
  unfold keep
  split_ifs with h
  · simp only [reduceCtorEq, false_iff, not_not]; exact h
  · simp only [true_iff]; exact h

theorem keep_legal (dim : ℕ) (tdim : List ℕ) : Legal dim dim (keep dim tdim) := fun v' v h => by
  rw [keep_some] at h; omega

theorem keep_inj (dim : ℕ) (tdim : List ℕ) : Inj (keep dim tdim) := fun v' w' v h h' => by
  rw [keep_some] at h h'; omega

theorem forget_emb (dim : ℕ) (z : Bool) (m : Mem K) (tdim : List ℕ) :
    CellsEq dim (tdim.foldl (forgetVar dim z) m)
      (emb z (fun i => m (matpos i i)) dim (keep dim tdim) (G dim m)) := by
  induction tdim using List.reverseRecOn with
  | nil =>
    intro i j hi hc
    have hj : j / 2 < dim := by unfold Cell at hc; omega
    rw [List.foldl_nil, emb_ss (keep_some.2 ⟨rfl, by omega, by simp⟩) (keep_some.2 ⟨rfl, hj, by simp⟩),
      Nat.div_add_mod, Nat.div_add_mod, G_cell m hi hc]
  | append_singleton l d ih =>
    intro i j hi hc
    have hj : j / 2 < dim := by unfold Cell at hc; omega
    have hi' : i / 2 < dim := by omega
    rw [List.foldl_append, List.foldl_cons, List.foldl_nil, forgetVar_cell z _ hi hc, ih i j hi hc]
    have hnone : ∀ {l' : List ℕ}, (i / 2 ∈ l' ∨ j / 2 ∈ l') →
        keep dim l' (i / 2) = none ∨ keep dim l' (j / 2) = none := by
      intro l' h
      rw [keep_none, keep_none]; tauto
    by_cases hl : i / 2 ∈ l ∨ j / 2 ∈ l
    · rw [emb_n (hnone hl), emb_n (hnone (l' := l ++ [d]) (by simp; tauto))]
      by_cases e : i = j
      · simp [e, hj]
      · simp only [e, and_false, if_false]
        split_ifs <;> simp_all
    · by_cases hd : i / 2 = d ∨ j / 2 = d
      · rw [if_pos hd, emb_n (hnone (l' := l ++ [d]) (by simp; tauto))]
        push Not at hl
        rw [emb_ss (keep_some.2 ⟨rfl, hi', hl.1⟩) (keep_some.2 ⟨rfl, hj, hl.2⟩), Nat.div_add_mod,
          Nat.div_add_mod, G_cell m hi hc]
        by_cases e : i = j
        · subst e; simp [hi]
        · simp [e, hi]
      · rw [if_neg hd]
        push Not at hl hd
        have h1 : i / 2 ∉ l ++ [d] := by simp; tauto
        have h2 : j / 2 ∉ l ++ [d] := by simp; tauto
        rw [emb_ss (keep_some.2 ⟨rfl, hi', hl.1⟩) (keep_some.2 ⟨rfl, hj, hl.2⟩),
          emb_ss (keep_some.2 ⟨rfl, hi', h1⟩) (keep_some.2 ⟨rfl, hj, h2⟩)]

/-! ## add -/

section Add
variable {dim : ℕ} {pos : List ℕ} {mult : ℕ}

theorem cntLe_all {v : ℕ} (h : ∀ q ∈ pos, q ≤ v) : cntLe pos v = pos.length := by
  unfold cntLe
  rw [List.filter_eq_self.2 (fun q hq => by simpa using h q hq)]

theorem cntLe_le (v : ℕ) : cntLe pos v ≤ pos.length := List.length_filter_le _ _

theorem src_add (hs : pos.Pairwise (· ≤ ·)) {v v' : ℕ} :
    src true mult dim pos v' = some v ↔ v < dim ∧ v' = v + mult * cntLe pos v := by
  rw [src_some (ok_add_of_sorted hs), vrel_add_iff (ok_add_of_sorted hs) (Nat.zero_le _)]
  simp

theorem src_add_legal (hs : pos.Pairwise (· ≤ ·)) :
    Legal (dim + mult * pos.length) dim (src true mult dim pos) := by
  intro v' v h
  rw [src_add hs] at h
  refine ⟨?_, h.1⟩
  have := Nat.mul_le_mul_left mult (cntLe_le (pos := pos) v)
  omega

/-- every index is the target of an old variable or a new variable -/
theorem vrel_add_cover {ps : List ℕ} {oi ni e : ℕ} (hok : Ok true mult ps oi) (he : ni ≤ e) :
    (∃ c, vrel true mult ps oi ni c e) ∨
      ∃ k s, k < ps.length ∧ s < mult ∧ e + oi = ps.getD k 0 + mult * k + s + ni := by
  induction ps generalizing oi ni with
  | nil => exact Or.inl ⟨e + oi - ni, by simp only [vrel]; omega⟩
  | cons p ps ih =>
    obtain ⟨h1, h2⟩ := hok
    simp only [if_true, Nat.add_zero] at h2
    by_cases c1 : e < ni + (p - oi)
    · left
      exact ⟨e + oi - ni, by simp only [vrel]; left; omega⟩
    · by_cases c2 : e < ni + (p - oi) + mult
      · right
        exact ⟨0, e - (ni + (p - oi)), by simp, by omega, by simp; omega⟩
      · rcases ih (ni := ni + (p - oi) + mult) h2 (by omega) with ⟨c, h⟩ | ⟨k, s, hk, hs, h⟩
        · exact Or.inl ⟨c, by simp only [vrel, if_true, Nat.add_zero]; exact Or.inr h⟩
        · right
          refine ⟨k + 1, s, by simpa using hk, hs, ?_⟩
          rw [List.getD_cons_succ, Nat.mul_add, Nat.mul_one]
          omega

theorem cntLe_lt_of {k v : ℕ} (hs : pos.Pairwise (· ≤ ·)) (hk : k < pos.length) (h : v < pos.getD k 0) :
    cntLe pos v ≤ k := by
  induction pos generalizing k with
  | nil => simp at hk
  | cons p ps ih =>
    rw [List.pairwise_cons] at hs
    rcases k with _ | k
    · rw [List.getD_cons_zero] at h
      have : cntLe (p :: ps) v = 0 := by
        unfold cntLe
        rw [List.length_eq_zero_iff, List.filter_eq_nil_iff]
        intro q hq
        rcases List.mem_cons.1 hq with rfl | hq
        · simp; omega
        · have := hs.1 q hq; simp; omega
      omega
    · rw [List.getD_cons_succ] at h
      have := ih hs.2 (by simpa using hk) h
      have h2 : cntLe (p :: ps) v ≤ cntLe ps v + 1 := by
        unfold cntLe; rw [List.filter_cons]; split_ifs <;> simp
      omega

theorem cntLe_ge_of {k v : ℕ} (hs : pos.Pairwise (· ≤ ·)) (hk : k < pos.length) (h : pos.getD k 0 ≤ v) :
    k + 1 ≤ cntLe pos v := by
  induction pos generalizing k with
  | nil => simp at hk
  | cons p ps ih =>
    rw [List.pairwise_cons] at hs
    rcases k with _ | k
    · rw [List.getD_cons_zero] at h
      simp [cntLe, h]
    · rw [List.getD_cons_succ] at h
      have hk' : k < ps.length := by simpa using hk
      have := ih hs.2 hk' h
      have hp : p ≤ v := by
        have := hs.1 (ps.getD k 0) (by
          rw [List.getD, List.getElem?_eq_getElem hk']; exact List.getElem_mem hk')
        omega
      have h2 : cntLe (p :: ps) v = cntLe ps v + 1 := by simp [cntLe, hp]
      omega

/-- the variables without source are the inserted ones -/
theorem src_add_none (hs : pos.Pairwise (· ≤ ·)) (hlt : ∀ q ∈ pos, q ≤ dim) {v' : ℕ}
    (hv : v' < dim + mult * pos.length) :
    src true mult dim pos v' = none ↔
      ∃ k s, k < pos.length ∧ s < mult ∧ v' = pos.getD k 0 + mult * k + s := by
  constructor
  · intro h
    rcases vrel_add_cover (ok_add_of_sorted (mult := mult) hs) (Nat.zero_le v') with ⟨c, hc⟩ | ⟨k, s, h1, h2, h3⟩
    · exfalso
      have hc' := hc
      rw [vrel_add_iff (ok_add_of_sorted hs) (Nat.zero_le _)] at hc'
      by_cases hcd : c < dim
      · have := (src_some (dim := dim) (ok_add_of_sorted hs)).2 ⟨hcd, hc⟩
        rw [h] at this; cases this
      · rw [cntLe_all (fun q hq => by have := hlt q hq; omega)] at hc'
        omega
    · exact ⟨k, s, h1, h2, by simpa using h3⟩
  · rintro ⟨k, s, h1, h2, h3⟩
    rcases hx : src true mult dim pos v' with _ | v
    · rfl
    · exfalso
      rw [src_add hs] at hx
      by_cases hc : pos.getD k 0 ≤ v
      · have := Nat.mul_le_mul_left mult (cntLe_ge_of hs h1 hc)
        rw [Nat.mul_add, Nat.mul_one] at this
        omega
      · have := Nat.mul_le_mul_left mult (cntLe_lt_of hs h1 (by omega : v < _))
        omega

theorem add_emb (m : Mem K) (hne : pos ≠ []) (hs : pos.Pairwise (· ≤ ·)) (hlt : ∀ q ∈ pos, q ≤ dim) :
    CellsEq (dim + mult * pos.length)
      (addrem true mult dim (allocTop (dim + mult * pos.length)) m pos)
      (emb false (fun _ => fin 0) (dim + mult * pos.length) (src true mult dim pos) (G dim m)) :=
  addrem_emb m _ hne (ok_add_of_sorted hs) hlt fun i j hi hc _ => allocTop_cell _ hi hc

theorem foldl_setp (f g : ℕ → ℕ) (v : Bound K) (l : List ℕ) (m : Mem K) (q : ℕ) :
    (l.foldl (fun (m : Mem K) k => (m.set (f k) v).set (g k) v) m) q =
      open Classical in if ∃ k ∈ l, q = f k ∨ q = g k then v else m q := foldl_set2 f g v l m q

/-- the zeros written by `project` -/
theorem add_emb_project (m : Mem K) (hne : pos ≠ []) (hs : pos.Pairwise (· ≤ ·))
    (hlt : ∀ q ∈ pos, q ≤ dim) :
    CellsEq (dim + pos.length)
      ((List.range pos.length).foldl (fun (mm : Mem K) i =>
        let v := 2 * (i + pos.getD i 0)
        (mm.set (matpos (v + 1) v) (fin 0)).set (matpos v (v + 1)) (fin 0))
        (addrem true 1 dim (allocTop (dim + pos.length)) m pos))
      (emb true (fun _ => fin 0) (dim + pos.length) (src true 1 dim pos) (G dim m)) := by
  classical
  intro i j hi hc
  have h0 := add_emb (mult := 1) m hne hs hlt
  rw [Nat.one_mul] at h0
  have h0 := h0 i j hi hc
  have hn := fun v' (h : v' < dim + pos.length) =>
    src_add_none (mult := 1) hs hlt (v' := v') (by omega)
  rw [foldl_set2 (fun i => matpos (2 * (i + pos.getD i 0) + 1) (2 * (i + pos.getD i 0)))
    (fun i => matpos (2 * (i + pos.getD i 0)) (2 * (i + pos.getD i 0) + 1)), h0]
  have hj : j / 2 < dim + pos.length := by unfold Cell at hc; omega
  have key : (∃ k ∈ List.range pos.length, matpos i j = matpos (2 * (k + pos.getD k 0) + 1) (2 * (k + pos.getD k 0))
      ∨ matpos i j = matpos (2 * (k + pos.getD k 0)) (2 * (k + pos.getD k 0) + 1)) ↔
      (src true 1 dim pos (i / 2) = none ∧ i = j ^^^ 1) := by
    rw [hn _ (by omega)]
    constructor
    · rintro ⟨k, hk, h⟩
      rw [List.mem_range] at hk
      rw [matpos_eq_iff hc (by unfold Cell; omega), matpos_eq_iff hc (by unfold Cell; omega)] at h
      refine ⟨⟨k, 0, hk, by omega, by omega⟩, ?_⟩
      rw [xor1]; split_ifs <;> omega
    · rintro ⟨⟨k, s, hk, hs', h⟩, e⟩
      refine ⟨k, List.mem_range.2 hk, ?_⟩
      rw [matpos_eq_iff hc (by unfold Cell; omega), matpos_eq_iff hc (by unfold Cell; omega)]
      rw [xor1] at e
      split_ifs at e <;> omega
  by_cases h : src true 1 dim pos (i / 2) = none ∨ src true 1 dim pos (j / 2) = none
  · rw [emb_n h, emb_n h]
    by_cases e : i = j ^^^ 1
    · have hh : src true 1 dim pos (i / 2) = none := by
        rw [e, xor1_div] at h ⊢; tauto
      have hne' : ¬ i = j := fun e' => xor1_ne j (by rw [← e, e'])
      rw [if_pos (key.2 ⟨hh, e⟩), if_neg (by tauto), if_pos ⟨rfl, hi, e⟩]
    · rw [if_neg (fun h' => e (key.1 h').2)]
      simp [e]
  · rw [if_neg (fun h' => h (Or.inl (key.1 h').1))]
    push Not at h
    obtain ⟨a, ha⟩ := Option.ne_none_iff_exists'.1 h.1
    obtain ⟨b, hb⟩ := Option.ne_none_iff_exists'.1 h.2
    rw [emb_ss ha hb, emb_ss ha hb]

end Add

/-! ## remove -/

section Remove
variable {dim : ℕ} {pos : List ℕ}

theorem src_rem (hs : pos.Pairwise (· < ·)) {v v' : ℕ} :
    src false 1 dim pos v' = some v ↔ v < dim ∧ v ∉ pos ∧ v' + cntLt pos v = v := by
  rw [src_some (ok_rem_of_sorted hs), vrel_rem_iff (ok_rem_of_sorted hs) (Nat.zero_le _)]
  simp

theorem ok_len {ps : List ℕ} {oi : ℕ} (hok : Ok false 1 ps oi) (hlt : ∀ q ∈ ps, q < dim) (ho : oi ≤ dim) :
    oi + ps.length ≤ dim := by
  induction ps generalizing oi with
  | nil => simpa using ho
  | cons p ps ih =>
    have := hlt p (by simp)
    have h2 := ih (oi := p + 1) (by simpa using hok.2) (fun q hq => hlt q (by simp [hq])) (by omega)
    have := hok.1
    simp only [List.length_cons]; omega

theorem vrel_rem_lt {ps : List ℕ} {oi ni c e : ℕ} (hok : Ok false 1 ps oi) (hlt : ∀ q ∈ ps, q < dim)
    (hc : c < dim) (h : vrel false 1 ps oi ni c e) : e + oi + ps.length < dim + ni := by
  induction ps generalizing oi ni with
  | nil => simp only [vrel] at h; simp; omega
  | cons p ps ih =>
    have hp := hlt p (by simp)
    have h2 : Ok false 1 ps (p + 1) := by simpa using hok.2
    have hl := ok_len h2 (fun q hq => hlt q (by simp [hq])) (by omega)
    have := hok.1
    simp only [vrel, Bool.false_eq_true, if_false, Nat.add_zero] at h
    rcases h with h | h
    · simp only [List.length_cons]; omega
    · have := ih h2 (fun q hq => hlt q (by simp [hq])) h
      simp only [List.length_cons]; omega

theorem vrel_rem_cover {ps : List ℕ} {oi ni e : ℕ} (hok : Ok false 1 ps oi) (hlt : ∀ q ∈ ps, q < dim)
    (hn : ni ≤ e) (he : e + oi + ps.length < dim + ni) : ∃ c, c < dim ∧ vrel false 1 ps oi ni c e := by
  induction ps generalizing oi ni with
  | nil => exact ⟨e + oi - ni, by simp at he; omega, by simp only [vrel]; omega⟩
  | cons p ps ih =>
    have hp := hlt p (by simp)
    have h2 : Ok false 1 ps (p + 1) := by simpa using hok.2
    have := hok.1
    simp only [List.length_cons] at he
    by_cases c1 : e < ni + (p - oi)
    · exact ⟨e + oi - ni, by omega, by simp only [vrel]; left; omega⟩
    · obtain ⟨c, hc, h⟩ := ih (ni := ni + (p - oi)) h2 (fun q hq => hlt q (by simp [hq])) (by omega) (by omega)
      exact ⟨c, hc, by simp only [vrel, Bool.false_eq_true, if_false, Nat.add_zero]; exact Or.inr h⟩

theorem rem_len (hs : pos.Pairwise (· < ·)) (hlt : ∀ q ∈ pos, q < dim) : pos.length ≤ dim := by
  have := ok_len (ok_rem_of_sorted hs) hlt (Nat.zero_le _); omega

theorem src_rem_legal (hs : pos.Pairwise (· < ·)) (hlt : ∀ q ∈ pos, q < dim) :
    Legal (dim - pos.length) dim (src false 1 dim pos) := by
  intro v' v h
  rw [src_some (ok_rem_of_sorted hs)] at h
  have := vrel_rem_lt (ok_rem_of_sorted hs) hlt h.1 h.2
  omega

theorem src_rem_cover (hs : pos.Pairwise (· < ·)) (hlt : ∀ q ∈ pos, q < dim) {v' : ℕ}
    (hv : v' < dim - pos.length) : ∃ v, src false 1 dim pos v' = some v := by
  obtain ⟨c, h⟩ := vrel_rem_cover (ok_rem_of_sorted hs) hlt (Nat.zero_le v') (by omega)
  exact ⟨c, (src_some (ok_rem_of_sorted hs)).2 h⟩

theorem rem_emb (m dst : Mem K) (hne : pos ≠ []) (hs : pos.Pairwise (· < ·)) (hlt : ∀ q ∈ pos, q < dim) :
    CellsEq (dim - pos.length) (addrem false 1 dim dst m pos)
      (emb false (fun _ => fin 0) (dim - pos.length) (src false 1 dim pos) (G dim m)) := by
  refine addrem_emb m _ hne (ok_rem_of_sorted hs) (fun q hq => (hlt q hq).le) fun i j hi hc h => ?_
  exfalso
  obtain ⟨v, hv⟩ := src_rem_cover hs hlt (show i / 2 < dim - pos.length by omega)
  obtain ⟨w, hw⟩ := src_rem_cover hs hlt (show j / 2 < dim - pos.length by unfold Cell at hc; omega)
  rw [hv, hw] at h
  simp at h

end Remove

/-! ## permute -/

section Permute
variable {n N : ℕ} {perm : ℕ → ℕ}

theorem matpos2_inj {i j k l : ℕ} (h : matpos2 i j = matpos2 k l) :
    (i = k ∧ j = l) ∨ (i / 2 ≠ j / 2 ∧ i = l ^^^ 1 ∧ j = k ^^^ 1) := by
  rw [matpos2_eq, matpos2_eq] at h
  split_ifs at h with h1 h2 h2
  · exact Or.inl (matpos_inj h1 h2 h)
  · have := matpos_inj h1 ((cell_or_mirror k l).resolve_left h2) h
    refine Or.inr ⟨?_, this.1, this.2⟩
    intro e
    rw [this.1, this.2, xor1_div, xor1_div] at e
    exact h2 (by unfold Cell; omega)
  · have := matpos_inj ((cell_or_mirror i j).resolve_left h1) h2 h
    refine Or.inr ⟨?_, ?_, ?_⟩
    · intro e; exact h1 (by unfold Cell; omega)
    · rw [← this.2, xor1_xor1]
    · rw [← this.1, xor1_xor1]
  · have := matpos_inj ((cell_or_mirror i j).resolve_left h1) ((cell_or_mirror k l).resolve_left h2) h
    rw [xor1_inj, xor1_inj] at this
    exact Or.inl ⟨this.2, this.1⟩

theorem set_upd (src dst : Mem K) (d s : ℕ) :
    Upd src dst (dst.set d (src s)) (fun p q => p = d ∧ q = s) := by
  constructor
  · rintro p q ⟨rfl, rfl⟩; rw [Mem.set_self]
  · intro p h
    rw [Mem.set_ne]
    rintro rfl; exact h s ⟨rfl, rfl⟩

/-- the writes of the loops: block `(i,j)` goes to block `(perm i, perm j)` -/
def PermRel (n : ℕ) (perm : ℕ → ℕ) (Q : ℕ → ℕ → Prop) (d s : ℕ) : Prop :=
  ∃ i j a b, (Q i j ∧ perm i < n ∧ perm j < n) ∧ j ≤ i ∧ a < 2 ∧ b < 2 ∧ d = matpos2 (2 * perm i + a) (2 * perm j + b) ∧
    s = matpos (2 * i + a) (2 * j + b)

/-- two blocks with the same target have the same source -/
theorem permRel_fun (hinj : ∀ i j, i < N → j < N → perm i < n → perm i = perm j → i = j) {Q Q' : ℕ → ℕ → Prop}
    (hQ : ∀ i j, Q i j → i < N) (hQ' : ∀ i j, Q' i j → i < N) {d s s' : ℕ}
    (h : PermRel n perm Q d s) (h' : PermRel n perm Q' d s') : s = s' := by
  obtain ⟨i, j, a, b, hq, hij, ha, hb, hd, hs⟩ := h
  obtain ⟨i', j', a', b', hq', hij', ha', hb', hd', hs'⟩ := h'
  have hi := hQ _ _ hq.1
  have hi' := hQ' _ _ hq'.1
  rw [hd] at hd'
  rcases matpos2_inj hd' with ⟨e1, e2⟩ | ⟨hne, e1, e2⟩
  · have := hinj i i' hi hi' (by omega)
    have := hinj j j' (by omega) (by omega) (by omega)
    rw [hs, hs']
    congr 1 <;> omega
  · exfalso
    have e1 := congrArg (· / 2) e1
    have e2 := congrArg (· / 2) e2
    simp only [xor1_div] at e1 e2
    have := hinj i j' hi (by omega) hq.2.1 (by omega)
    have := hinj j i' (by omega) (by omega) hq.2.2 (by omega)
    have : i = j := by omega
    subst this
    omega

theorem matpos_even (i j : ℕ) : matpos (2 * i) j = matsize i + j := by
  unfold matpos matsize
  have : (2 * i + 1) * (2 * i + 1) / 2 = 2 * i * (i + 1) := by
    rw [show (2 * i + 1) * (2 * i + 1) = 2 * (2 * i * (i + 1)) + 1 by ring]; omega
  rw [this]; omega

theorem matpos_odd (i j : ℕ) : matpos (2 * i + 1) j = matsize i + 2 * (i + 1) + j := by
  unfold matpos matsize
  have : (2 * i + 1 + 1) * (2 * i + 1 + 1) / 2 = 2 * i * (i + 1) + 2 * (i + 1) := by
    rw [show (2 * i + 1 + 1) * (2 * i + 1 + 1) = 2 * (2 * i * (i + 1) + 2 * (i + 1)) by ring]; omega
  rw [this]; omega

theorem permInner_upd (hinj : ∀ i j, i < N → j < N → perm i < n → perm i = perm j → i = j)
    (m : Mem K) {i : ℕ} (hi : i < N) (hpi : perm i < n) (k j0 : ℕ) (hj : j0 + k ≤ i + 1)
    (dst : Mem K) :
    Upd m dst (permInner n i m perm (List.range' j0 k) (matsize i + 2 * j0) dst)
      (PermRel n perm fun i' j => i' = i ∧ j0 ≤ j ∧ j < j0 + k) := by
  induction k generalizing j0 dst with
  | zero =>
    refine (Upd.refl m dst).congr fun d s => ?_
    simp only [false_iff]
    rintro ⟨_, _, _, _, h, _⟩; omega
  | succ k ih =>
    rw [List.range'_succ]
    unfold permInner
    rw [show matsize i + 2 * j0 + 2 = matsize i + 2 * (j0 + 1) by ring]
    by_cases hpj : perm j0 < n
    swap
    · rw [if_pos (by omega)]
      refine (ih (j0 + 1) (by omega) dst).congr fun d s => ?_
      constructor
      · rintro ⟨i', j', a, b, ⟨⟨h1, h2⟩, h3⟩, h⟩
        exact ⟨i', j', a, b, ⟨⟨h1, by omega⟩, h3⟩, h⟩
      · rintro ⟨i', j', a, b, ⟨⟨h1, h2⟩, h3⟩, h⟩
        have e : j' ≠ j0 := by rintro rfl; exact hpj h3.2
        exact ⟨i', j', a, b, ⟨⟨h1, by omega⟩, h3⟩, h⟩
    rw [if_neg (by omega)]
    have h2 := ih (j0 + 1) (by omega)
      ((((dst.set (matpos2 (2 * perm i) (2 * perm j0)) (m (matsize i + 2 * j0))).set
          (matpos2 (2 * perm i) (2 * perm j0 + 1)) (m (matsize i + 2 * j0 + 1))).set
          (matpos2 (2 * perm i + 1) (2 * perm j0)) (m (matsize i + 2 * j0 + 2 * (i + 1)))).set
          (matpos2 (2 * perm i + 1) (2 * perm j0 + 1)) (m (matsize i + 2 * j0 + (2 * (i + 1) + 1))))
    have w1 := set_upd m dst (matpos2 (2 * perm i) (2 * perm j0)) (matsize i + 2 * j0)
    have w2 := set_upd m (dst.set (matpos2 (2 * perm i) (2 * perm j0)) (m (matsize i + 2 * j0)))
      (matpos2 (2 * perm i) (2 * perm j0 + 1)) (matsize i + 2 * j0 + 1)
    have w3 := set_upd m ((dst.set (matpos2 (2 * perm i) (2 * perm j0)) (m (matsize i + 2 * j0))).set
          (matpos2 (2 * perm i) (2 * perm j0 + 1)) (m (matsize i + 2 * j0 + 1)))
      (matpos2 (2 * perm i + 1) (2 * perm j0)) (matsize i + 2 * j0 + 2 * (i + 1))
    have w4 := set_upd m (((dst.set (matpos2 (2 * perm i) (2 * perm j0)) (m (matsize i + 2 * j0))).set
          (matpos2 (2 * perm i) (2 * perm j0 + 1)) (m (matsize i + 2 * j0 + 1))).set
          (matpos2 (2 * perm i + 1) (2 * perm j0)) (m (matsize i + 2 * j0 + 2 * (i + 1))))
      (matpos2 (2 * perm i + 1) (2 * perm j0 + 1)) (matsize i + 2 * j0 + (2 * (i + 1) + 1))
    let Q : ℕ → ℕ → Prop := fun i' j => i' = i ∧ j = j0
    have hQ : ∀ i' j', Q i' j' → i' < N := by rintro i' j' ⟨rfl, _⟩; exact hi
    have r1 : PermRel n perm Q (matpos2 (2 * perm i) (2 * perm j0)) (matsize i + 2 * j0) :=
      ⟨i, j0, 0, 0, ⟨⟨rfl, rfl⟩, hpi, hpj⟩, by omega, by omega, by omega, rfl, by rw [Nat.add_zero (2 * i), matpos_even]; rfl⟩
    have r2 : PermRel n perm Q (matpos2 (2 * perm i) (2 * perm j0 + 1)) (matsize i + 2 * j0 + 1) :=
      ⟨i, j0, 0, 1, ⟨⟨rfl, rfl⟩, hpi, hpj⟩, by omega, by omega, by omega, rfl, by rw [Nat.add_zero (2 * i), matpos_even]; rfl⟩
    have r3 : PermRel n perm Q (matpos2 (2 * perm i + 1) (2 * perm j0)) (matsize i + 2 * j0 + 2 * (i + 1)) :=
      ⟨i, j0, 1, 0, ⟨⟨rfl, rfl⟩, hpi, hpj⟩, by omega, by omega, by omega, rfl, by rw [matpos_odd]; omega⟩
    have r4 : PermRel n perm Q (matpos2 (2 * perm i + 1) (2 * perm j0 + 1))
        (matsize i + 2 * j0 + (2 * (i + 1) + 1)) :=
      ⟨i, j0, 1, 1, ⟨⟨rfl, rfl⟩, hpi, hpj⟩, by omega, by omega, by omega, rfl, by rw [matpos_odd]; omega⟩
    have w12 := w1.comp w2 (by
      rintro d s s' ⟨rfl, rfl⟩ ⟨hd, rfl⟩
      exact permRel_fun hinj hQ hQ r1 (hd ▸ r2))
    have w123 := w12.comp w3 (by
      rintro d s s' (⟨rfl, rfl⟩ | ⟨rfl, rfl⟩) ⟨hd, rfl⟩
      · exact permRel_fun hinj hQ hQ r1 (hd ▸ r3)
      · exact permRel_fun hinj hQ hQ r2 (hd ▸ r3))
    have w1234 := w123.comp w4 (by
      rintro d s s' ((⟨rfl, rfl⟩ | ⟨rfl, rfl⟩) | ⟨rfl, rfl⟩) ⟨hd, rfl⟩
      · exact permRel_fun hinj hQ hQ r1 (hd ▸ r4)
      · exact permRel_fun hinj hQ hQ r2 (hd ▸ r4)
      · exact permRel_fun hinj hQ hQ r3 (hd ▸ r4))
    have w := w1234.congr (Q := PermRel n perm Q) (by
      intro d s
      constructor
      · rintro (((⟨rfl, rfl⟩ | ⟨rfl, rfl⟩) | ⟨rfl, rfl⟩) | ⟨rfl, rfl⟩)
        exacts [r1, r2, r3, r4]
      · rintro ⟨i', j', a, b, ⟨⟨rfl, rfl⟩, -⟩, _, ha, hb, hd, hs⟩
        obtain rfl | rfl : a = 0 ∨ a = 1 := by omega
        · obtain rfl | rfl : b = 0 ∨ b = 1 := by omega
          · left; left; left; exact ⟨hd, by rw [hs, Nat.add_zero (2 * i'), matpos_even]; rfl⟩
          · left; left; right; exact ⟨hd, by rw [hs, Nat.add_zero (2 * i'), matpos_even]; rfl⟩
        · obtain rfl | rfl : b = 0 ∨ b = 1 := by omega
          · left; right; exact ⟨hd, by rw [hs, matpos_odd]; omega⟩
          · right; exact ⟨hd, by rw [hs, matpos_odd]; omega⟩)
    refine (w.comp h2 fun d s s' h h' => permRel_fun hinj hQ (by rintro i' j' ⟨rfl, _⟩; exact hi) h h').congr
      fun d s => ?_
    constructor
    · rintro (⟨i', j', a, b, ⟨⟨h1, h2⟩, h3⟩, h⟩ | ⟨i', j', a, b, ⟨⟨h1, h2⟩, h3⟩, h⟩)
      · exact ⟨i', j', a, b, ⟨⟨h1, by omega⟩, h3⟩, h⟩
      · exact ⟨i', j', a, b, ⟨⟨h1, by omega⟩, h3⟩, h⟩
    · rintro ⟨i', j', a, b, ⟨⟨h1, h2⟩, h3⟩, h⟩
      by_cases e : j' = j0
      · exact Or.inl ⟨i', j', a, b, ⟨⟨h1, e⟩, h3⟩, h⟩
      · exact Or.inr ⟨i', j', a, b, ⟨⟨h1, by omega⟩, h3⟩, h⟩

theorem matsize_succ (i : ℕ) : matsize i + 2 * (i + 1) + 2 * (i + 1) = matsize (i + 1) := by
  unfold matsize; ring

theorem permOuter_upd (hinj : ∀ i j, i < N → j < N → perm i < n → perm i = perm j → i = j)
    (m : Mem K) (k i0 : ℕ) (hk : i0 + k ≤ N) (dst : Mem K) :
    Upd m dst (permOuter n m perm (List.range' i0 k) (matsize i0) dst)
      (PermRel n perm fun i _ => i0 ≤ i ∧ i < i0 + k) := by
  induction k generalizing i0 dst with
  | zero =>
    refine (Upd.refl m dst).congr fun d s => ?_
    simp only [false_iff]
    rintro ⟨_, _, _, _, h, _⟩; omega
  | succ k ih =>
    rw [List.range'_succ]
    unfold permOuter
    rw [matsize_succ, List.range_eq_range']
    by_cases hpi : perm i0 < n
    swap
    · rw [if_pos (by omega), show matsize i0 + 4 * (i0 + 1) = matsize (i0 + 1) by rw [← matsize_succ]; ring]
      refine (ih (i0 + 1) (by omega) dst).congr fun d s => ?_
      constructor
      · rintro ⟨i', j', a, b, ⟨h1, h3⟩, h⟩
        exact ⟨i', j', a, b, ⟨by omega, h3⟩, h⟩
      · rintro ⟨i', j', a, b, ⟨h1, h3⟩, h⟩
        have e : i' ≠ i0 := by rintro rfl; exact hpi h3.1
        exact ⟨i', j', a, b, ⟨by omega, h3⟩, h⟩
    rw [if_neg (by omega)]
    have h1 := permInner_upd hinj m (show i0 < N by omega) hpi (i0 + 1) 0 (by omega) dst
    rw [Nat.mul_zero, Nat.add_zero] at h1
    have h2 := ih (i0 + 1) (by omega) (permInner n i0 m perm (List.range' 0 (i0 + 1)) (matsize i0) dst)
    refine (h1.comp h2 fun d s s' h h' => permRel_fun hinj (by rintro i' j' ⟨rfl, _⟩; omega)
      (by rintro i' j' ⟨_, _⟩; omega) h h').congr fun d s => ?_
    constructor
    · rintro (⟨i', j', a, b, ⟨⟨h1, h2⟩, h3⟩, h⟩ | ⟨i', j', a, b, ⟨⟨h1, h2⟩, h3⟩, h⟩)
      · exact ⟨i', j', a, b, ⟨by omega, h3⟩, h⟩
      · exact ⟨i', j', a, b, ⟨by omega, h3⟩, h⟩
    · rintro ⟨i', j', a, b, ⟨⟨h1, h2⟩, h3⟩, h4, h⟩
      by_cases e : i' = i0
      · exact Or.inl ⟨i', j', a, b, ⟨⟨e, by omega⟩, h3⟩, h4, h⟩
      · exact Or.inr ⟨i', j', a, b, ⟨by omega, h3⟩, h4, h⟩

/-- the source of a permuted variable -/
noncomputable def permSrc (n : ℕ) (perm : ℕ → ℕ) (v' : ℕ) : Option ℕ :=
  open Classical in if h : ∃ v, v < n ∧ perm v = v' then some h.choose else none

theorem permSrc_some (hinj : ∀ i j, i < n → j < n → perm i = perm j → i = j) {v v' : ℕ} :
    permSrc n perm v' = some v ↔ v < n ∧ perm v = v' := by
  unfold permSrc
  split_ifs with h
  · constructor
    · intro e; cases e; exact h.choose_spec
    · rintro ⟨h1, h2⟩
      rw [hinj _ _ h1 h.choose_spec.1 (by rw [h2, h.choose_spec.2])]
  · simp only [reduceCtorEq, false_iff]
    exact fun h' => h ⟨v, h'⟩

/-- `hmat_permute` copies every cell of the target from its source -/
theorem permute_cell (hinj : ∀ i j, i < N → j < N → perm i < n → perm i = perm j → i = j) {inv : ℕ → ℕ}
    (hinv : ∀ v, v < n → inv v < N ∧ perm (inv v) = v) (m dst : Mem K) {i j : ℕ} (hi : i < 2 * n)
    (hc : Cell i j) : hmatPermute dst m n N perm (matpos i j) =
      m (matpos2 (2 * inv (i / 2) + i % 2) (2 * inv (j / 2) + j % 2)) := by
  have hU := permOuter_upd hinj m N 0 (by omega) dst
  rw [show matsize 0 = 0 from rfl] at hU
  have hget : ∀ i j a b, i < N → perm i < n → perm j < n → j ≤ i → a < 2 → b < 2 → hmatPermute dst m n N perm
      (matpos2 (2 * perm i + a) (2 * perm j + b)) = m (matpos (2 * i + a) (2 * j + b)) := by
    intro i j a b hi hpi hpj hj ha hb
    unfold hmatPermute
    rw [List.range_eq_range']
    exact hU.1 _ _ ⟨i, j, a, b, ⟨by omega, hpi, hpj⟩, hj, ha, hb, rfl, rfl⟩
  obtain ⟨hu, hu'⟩ := hinv (i / 2) (by omega)
  obtain ⟨hv, hv'⟩ := hinv (j / 2) (by unfold Cell at hc; omega)
  have hil : i / 2 < n := by omega
  have hjl : j / 2 < n := by unfold Cell at hc; omega
  generalize hue : inv (i / 2) = u at *
  generalize hve : inv (j / 2) = v at *
  by_cases hle : v ≤ u
  · rw [matpos2_cell (show Cell (2 * u + i % 2) (2 * v + j % 2) by unfold Cell; omega), ← matpos2_cell hc,
      ← hget u v (i % 2) (j % 2) hu (by omega) (by omega) hle (by omega) (by omega), hu', hv', Nat.div_add_mod, Nat.div_add_mod]
  · rw [matpos2_mirror (show (2 * u + i % 2) / 2 ≠ (2 * v + j % 2) / 2 by omega), matpos2_cell (by unfold Cell; rw [xor1_div, xor1_div]; omega)]
    rw [← lift_xor, ← lift_xor, ← hget v u _ _ hv (by omega) (by omega) (by omega) (by omega) (by omega), hu', hv']
    have e1 : 2 * (j / 2) + (j ^^^ 1) % 2 = j ^^^ 1 := by
      rw [lift_xor, Nat.div_add_mod]
    have e2 : 2 * (i / 2) + (i ^^^ 1) % 2 = i ^^^ 1 := by
      rw [lift_xor, Nat.div_add_mod]
    rw [e1, e2, ← matpos2_mirror, matpos2_cell hc]
    intro e
    rw [← hu', ← hv'] at e
    exact hle (le_of_eq (hinj _ _ hu hv (by omega) e).symm)

theorem permute_emb (hinj : ∀ i j, i < n → j < n → perm i = perm j → i = j)
    (hp : ∀ i, i < n → perm i < n) (m dst : Mem K) :
    CellsEq n (hmatPermute dst m n n perm) (emb false (fun _ => fin 0) n (permSrc n perm) (G n m)) := by
  have hU := permOuter_upd (n := n) (N := n) (fun i j h1 h2 _ => hinj i j h1 h2) m n 0 (by omega) dst
  rw [show matsize 0 = 0 from rfl] at hU
  have hsurj : ∀ v', v' < n → ∃ v, v < n ∧ perm v = v' := by
    intro v' hv'
    let f : Fin n → Fin n := fun i => ⟨perm i, hp i i.2⟩
    have hf : Function.Injective f := fun a b h => Fin.ext (hinj a b a.2 b.2 (by simpa [f] using h))
    obtain ⟨a, ha⟩ := (Finite.injective_iff_surjective.1 hf) ⟨v', hv'⟩
    exact ⟨a, a.2, by simpa [f] using congrArg Fin.val ha⟩
  have hget : ∀ i j a b, i < n → j ≤ i → a < 2 → b < 2 → hmatPermute dst m n n perm
      (matpos2 (2 * perm i + a) (2 * perm j + b)) = m (matpos (2 * i + a) (2 * j + b)) := by
    intro i j a b hi hj ha hb
    unfold hmatPermute
    rw [List.range_eq_range']
    exact hU.1 _ _ ⟨i, j, a, b, ⟨by omega, hp _ hi, hp _ (by omega)⟩, hj, ha, hb, rfl, rfl⟩
  intro i j hi hc
  obtain ⟨u, hu, hu'⟩ := hsurj (i / 2) (by omega)
  obtain ⟨v, hv, hv'⟩ := hsurj (j / 2) (by unfold Cell at hc; omega)
  rw [emb_ss ((permSrc_some hinj).2 ⟨hu, hu'⟩) ((permSrc_some hinj).2 ⟨hv, hv'⟩)]
  by_cases hle : v ≤ u
  · rw [G_cell m (by omega) (by unfold Cell; omega), ← matpos2_cell hc,
      ← hget u v (i % 2) (j % 2) hu hle (by omega) (by omega), hu', hv', Nat.div_add_mod, Nat.div_add_mod]
  · rw [G_coh_ne m (by omega), G_cell m (by rw [xor1_lt_iff]; omega) (by unfold Cell; rw [xor1_div, xor1_div]; omega)]
    rw [← lift_xor, ← lift_xor, ← hget v u _ _ hv (by omega) (by omega) (by omega), hu', hv']
    have e1 : 2 * (j / 2) + (j ^^^ 1) % 2 = j ^^^ 1 := by
      rw [lift_xor, Nat.div_add_mod]
    have e2 : 2 * (i / 2) + (i ^^^ 1) % 2 = i ^^^ 1 := by
      rw [lift_xor, Nat.div_add_mod]
    rw [e1, e2, ← matpos2_mirror, matpos2_cell hc]
    intro e
    rw [← hu', ← hv'] at e
    exact hle (le_of_eq (hinj _ _ hu hv e).symm)

end Permute

end Oct
end Apron
