import Verif.Oct.NoNinf
import Verif.Itv.Tight

/-! # Helper lemmas: intervals of an octagon, octagons from boxes -/

set_option autoImplicit false
set_option linter.unusedSectionVars false
set_option linter.ambiguousOpen false

namespace Apron
namespace OctT
open Bound Oct Itv
variable {K : Type*} [LinearOrder K] [Field K] [IsStrictOrderedRing K] (R : Rnd K)

theorem ofScalar_ge {b : Bound K} {q : K} (h : fin q ≤ b) : fin q ≤ ofScalar R b false := by
  cases b with
  | fin p => simp only [ofScalar]; exact h.trans (R.up_ge p)
  | pinf => simp [ofScalar]
  | ninf => simp at h

theorem ofScalar_dbl_ge {b : Bound K} {q : K} (h : fin q ≤ b) : fin (2 * q) ≤ ofScalar R b true := by
  have := ofScalar_ge R h
  cases b with
  | fin p => simp only [ofScalar, if_true, Bool.false_eq_true, if_false] at *; exact mul2_ge R this
  | pinf => simp [ofScalar, mul2]
  | ninf => simp at h

theorem upperScalar_half_ge {b : Bound K} {q : K} (h : fin (2 * q) ≤ b) :
    fin q ≤ upperScalar R b true := by
  unfold upperScalar
  rw [if_pos rfl]
  split_ifs
  · exact le_pinf _
  · have := div2_ge R h
    rwa [mul_div_cancel_left₀ q (two_ne_zero)] at this

theorem V_even (x : ℕ → K) (d : ℕ) : V x (2 * d) = x d := by unfold V; simp
theorem V_odd (x : ℕ → K) (d : ℕ) : V x (2 * d + 1) = -x d := by
  unfold V; rw [if_neg (by omega), show (2 * d + 1) / 2 = d by omega]

theorem cell_eo (d : ℕ) : Cell (2 * d) (2 * d + 1) := by unfold Cell; omega
theorem cell_oe (d : ℕ) : Cell (2 * d + 1) (2 * d) := by unfold Cell; omega

theorem mem_intervalOfBounds {dim : ℕ} {m : Mem K} {x : ℕ → K} (hx : Sat dim m x) {d : ℕ} (hd : d < dim) :
    x d ∈ intervalOfBounds R (m (matpos (2 * d) (2 * d + 1))) (m (matpos (2 * d + 1) (2 * d))) true := by
  have h1 := hx (2 * d) (2 * d + 1) (by omega) (cell_eo d)
  have h2 := hx (2 * d + 1) (2 * d) (by omega) (cell_oe d)
  rw [V_even, V_odd] at h1 h2
  constructor
  · exact upperScalar_half_ge R (by rwa [show 2 * -x d = -x d - x d by ring])
  · exact upperScalar_half_ge R (by rwa [show 2 * x d = x d - -x d by ring])

theorem upperScalar_exact_le {b : Bound K} {q : K} (hb : b ≠ ninf) (h : fin q ≤ upperScalar Rnd.exact b true) :
    fin (2 * q) ≤ b := by
  unfold upperScalar at h
  cases b with
  | ninf => exact absurd rfl hb
  | pinf => simp
  | fin p => simp [infty, div2] at h ⊢; linarith

theorem attain_value {dim : ℕ} {m : Mem K} (hsc : SC dim (G dim m)) {d : ℕ} (hd : d < dim) {z : K}
    (hz : z ∈ intervalOfBounds Rnd.exact (m (matpos (2 * d) (2 * d + 1)))
      (m (matpos (2 * d + 1) (2 * d))) true) : ∃ x, Sat dim m x ∧ x d = z := by
  have n1 := noNinf_iff.1 hsc.noNinf (2 * d) (2 * d + 1) (by omega) (cell_eo d)
  have n2 := noNinf_iff.1 hsc.noNinf (2 * d + 1) (2 * d) (by omega) (cell_oe d)
  have h1 := upperScalar_exact_le n1 hz.1
  have h2 := upperScalar_exact_le n2 hz.2
  rw [← G_cell (dim := dim) m (i := 2 * d) (by omega) (cell_eo d)] at h1
  rw [← G_cell (dim := dim) m (i := 2 * d + 1) (by omega) (cell_oe d)] at h2
  obtain ⟨x, hx, e⟩ := hsc.attain (i := 2 * d + 1) (j := 2 * d) (by omega) (by omega) (by omega)
    (q := 2 * z) h2 (by rwa [show -(2 * z) = 2 * -z by ring])
  rw [V_even, V_odd] at e
  exact ⟨x, satOn_iff.1 hx, by linarith⟩

theorem le_of_attained {dim : ℕ} {m : Mem K} (hsc : SC dim (G dim m)) {d : ℕ} (hd : d < dim) {i : Itv K}
    (h : ∀ z, z ∈ intervalOfBounds Rnd.exact (m (matpos (2 * d) (2 * d + 1)))
      (m (matpos (2 * d + 1) (2 * d))) true → z ∈ i) :
    (intervalOfBounds Rnd.exact (m (matpos (2 * d) (2 * d + 1)))
      (m (matpos (2 * d + 1) (2 * d))) true).inf ≤ i.inf ∧
    (intervalOfBounds Rnd.exact (m (matpos (2 * d) (2 * d + 1)))
      (m (matpos (2 * d + 1) (2 * d))) true).sup ≤ i.sup := by
  obtain ⟨x, hx⟩ := hsc.nonempty
  have hx := mem_intervalOfBounds Rnd.exact hx hd
  refine ⟨(reach_inf hx).le fun u hu => ?_, (reach_sup hx).le fun u hu => (h u hu).2⟩
  simpa using (h _ hu).1

/-! ### octagon from a box -/

/-- the matrix of `oct_of_box` before the strengthening step -/
def boxMat (dim : ℕ) (t : ℕ → Itv K) : Mem K :=
  (List.range dim).foldl (fun (m : Mem K) i =>
        (m.set (matpos (2 * i) (2 * i + 1)) (ofScalar R (t i).inf true)).set
          (matpos (2 * i + 1) (2 * i)) (ofScalar R (t i).sup true)) (allocTop dim)

theorem boxMat_cell (dim : ℕ) (t : ℕ → Itv K) {i j : ℕ} (hi : i < 2 * dim) (hc : Cell i j) :
    boxMat R dim t (matpos i j) =
      if i = j then fin 0 else if i / 2 = j / 2 then
        ofScalar R (if i % 2 = 0 then (t (i / 2)).inf else (t (i / 2)).sup) true else pinf := by
  have key : ∀ n, ((List.range n).foldl (fun (m : Mem K) i =>
        (m.set (matpos (2 * i) (2 * i + 1)) (ofScalar R (t i).inf true)).set
          (matpos (2 * i + 1) (2 * i)) (ofScalar R (t i).sup true)) (allocTop dim)) (matpos i j) =
      if i / 2 = j / 2 ∧ i ≠ j ∧ i / 2 < n then
        ofScalar R (if i % 2 = 0 then (t (i / 2)).inf else (t (i / 2)).sup) true
      else (allocTop dim : Mem K) (matpos i j) := by
    intro n
    induction n with
    | zero => simp
    | succ n ih =>
      rw [List.range_succ, List.foldl_append, List.foldl_cons, List.foldl_nil]
      by_cases h2 : matpos i j = matpos (2 * n + 1) (2 * n)
      · obtain ⟨rfl, rfl⟩ := matpos_inj hc (cell_oe n) h2
        rw [Mem.set_self, if_pos ⟨by omega, by omega, by omega⟩, if_neg (by omega),
          show (2 * n + 1) / 2 = n by omega]
      · rw [Mem.set_ne _ _ h2]
        by_cases h1 : matpos i j = matpos (2 * n) (2 * n + 1)
        · obtain ⟨rfl, rfl⟩ := matpos_inj hc (cell_eo n) h1
          rw [Mem.set_self, if_pos (show _ ∧ _ ∧ _ from ⟨by omega, by omega, by omega⟩), if_pos (by omega),
            show (2 * n) / 2 = n by omega]
        · rw [Mem.set_ne _ _ h1, ih]
          have : ¬ (i / 2 = j / 2 ∧ i ≠ j ∧ i / 2 = n) := by
            rintro ⟨e1, e2, e3⟩
            rcases Nat.mod_two_eq_zero_or_one i with e | e
            · have hi' : i = 2 * n := by omega
              have hj' : j = 2 * n + 1 := by omega
              rw [hi', hj'] at h1; exact h1 rfl
            · have hi' : i = 2 * n + 1 := by omega
              have hj' : j = 2 * n := by omega
              rw [hi', hj'] at h2; exact h2 rfl
          by_cases hlt : i / 2 = j / 2 ∧ i ≠ j ∧ i / 2 < n
          · rw [if_pos hlt, if_pos (show i / 2 = j / 2 ∧ i ≠ j ∧ i / 2 < n + 1 from ⟨hlt.1, hlt.2.1, by omega⟩)]
          · rw [if_neg hlt, if_neg (by rintro ⟨e1, e2, e3⟩; exact this ⟨e1, e2, by omega⟩)]
  unfold boxMat
  rw [key, allocTop_cell dim hi hc]
  by_cases e : i = j
  · simp [e]
  · by_cases e2 : i / 2 = j / 2
    · rw [if_pos ⟨e2, e, by omega⟩, if_neg e, if_pos e2]
    · rw [if_neg (by tauto), if_neg e, if_neg e, if_neg e2]

theorem boxMat_sat {dim : ℕ} {t : ℕ → Itv K} {x : ℕ → K} (hx : ∀ i < dim, x i ∈ t i) :
    Sat dim (boxMat R dim t) x := by
  intro i j hi hc
  rw [boxMat_cell R dim t hi hc]
  split_ifs with e e2 e3
  · subst e; simp
  · have hm := (hx (i / 2) (by omega)).1
    have := ofScalar_dbl_ge R hm
    have ei : i = 2 * (i / 2) := by omega
    have ej : j = 2 * (i / 2) + 1 := by omega
    have hV : V x j - V x i = 2 * -x (i / 2) := by
      rw [ej]; conv_lhs => rw [ei]
      rw [show (2 * (i / 2)) / 2 = i / 2 by omega, V_odd, V_even]; ring
    rw [hV]; exact this
  · have hm := (hx (i / 2) (by omega)).2
    have := ofScalar_dbl_ge R hm
    have ei : i = 2 * (i / 2) + 1 := by omega
    have ej : j = 2 * (i / 2) := by omega
    have hV : V x j - V x i = 2 * x (i / 2) := by
      rw [ej]; conv_lhs => rw [ei]
      rw [show (2 * (i / 2) + 1) / 2 = i / 2 by omega, V_odd, V_even]; ring
    rw [hV]; exact this
  · exact le_pinf _

theorem ofBox_eq (dim intdim : ℕ) (t : ℕ → Itv K) : ofBox R dim intdim (some t) =
    if (List.range dim).any (fun i => decide ((t i).sup < neg (t i).inf)) then bottom dim intdim
    else match sStep R dim (boxMat R dim t) with
      | (true, _) => bottom dim intdim
      | (false, c) => ⟨none, some c, dim, intdim⟩ := rfl

theorem ofBox_sound {dim intdim : ℕ} {t : ℕ → Itv K} {x : ℕ → K} (hx : ∀ i < dim, x i ∈ t i) :
    (ofBox R dim intdim (some t)).Gam x := by
  rw [ofBox_eq, if_neg]
  · have hs := sStep_sat R (boxMat_sat R hx)
    rcases e : sStep R dim (boxMat R dim t) with ⟨b, c⟩
    rw [e] at hs
    simp only at hs
    rw [hs.1]
    exact gam_closed.2 hs.2
  · simp only [List.any_eq_true, List.mem_range, decide_eq_true_eq, not_exists, not_and, not_lt]
    intro i hi
    have := hx i hi
    have h1 : neg (t i).inf ≤ fin (x i) := by
      have := this.1
      cases hh : (t i).inf <;> rw [hh] at this <;> simp_all [Bound.neg]
      linarith
    exact h1.trans this.2

theorem ofScalar_exact_dbl {b : Bound K} {q : K} (h : fin (2 * q) ≤ ofScalar Rnd.exact b true) : fin q ≤ b := by
  cases b <;> simp_all [ofScalar, mul2]

theorem ofBox_le {dim intdim : ℕ} {t : ℕ → Itv K} {x : ℕ → K}
    (hx : (ofBox Rnd.exact dim intdim (some t)).Gam x) : ∀ i < dim, x i ∈ t i := by
  rw [ofBox_eq] at hx
  split_ifs at hx with h
  · exact (gam_bottom _ _ _ hx).elim
  · have hle := sStep_le Rnd.exact dim (boxMat Rnd.exact dim t)
    rcases e : sStep Rnd.exact dim (boxMat Rnd.exact dim t) with ⟨b, c⟩
    rw [e] at hx hle
    cases b
    · simp only at hx hle
      rw [gam_closed] at hx
      have hs : Sat dim (boxMat Rnd.exact dim t) x := sat_of_le hx fun i j _ _ => hle _
      intro i hi
      have h1 := hs (2 * i) (2 * i + 1) (by omega) (cell_eo i)
      have h2 := hs (2 * i + 1) (2 * i) (by omega) (cell_oe i)
      rw [boxMat_cell _ _ _ (by omega) (cell_eo i), V_even, V_odd, if_neg (by omega),
        if_pos (by omega), if_pos (by omega), show 2 * i / 2 = i by omega] at h1
      rw [boxMat_cell _ _ _ (by omega) (cell_oe i), V_even, V_odd, if_neg (by omega),
        if_pos (by omega), if_neg (by omega), show (2 * i + 1) / 2 = i by omega] at h2
      exact ⟨ofScalar_exact_dbl (by rwa [show 2 * -x i = -x i - x i by ring]),
        ofScalar_exact_dbl (by rwa [show 2 * x i = x i - -x i by ring])⟩
    · exact (gam_bottom _ _ _ hx).elim

end OctT
end Apron
