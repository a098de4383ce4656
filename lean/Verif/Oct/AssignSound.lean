import Verif.Oct.AssignLemmas
import Verif.Oct.ResizeWf

/-! # Helper lemmas: soundness of assignments and substitutions on matrices -/

set_option autoImplicit false
set_option linter.unusedSectionVars false
set_option linter.ambiguousOpen false

namespace Apron
namespace Oct
open Bound Finset
variable {K : Type*} [LinearOrder K] [Field K] [IsStrictOrderedRing K] (R : Rnd K)

theorem rr_ge {dst : ℕ → Bound K} {x : ℕ → K} {d i : ℕ} {v c : K} (hc : InD dst 0 c) (hi : i / 2 = d)
    {e : K} (he : e = if i % 2 = 0 then -c else c) : fin e ≤ rr dst i := by
  subst he
  unfold rr InD at *
  rcases Nat.mod_two_eq_zero_or_one i with h | h <;> rw [h]
  · simpa using hc.1
  · simpa using hc.2

theorem V_upd (x : ℕ → K) (d : ℕ) (v : K) (i : ℕ) :
    V (Function.update x d v) i = if i / 2 = d then (if i % 2 = 0 then v else -v) else V x i := by
  split_ifs with h h'
  · have : i = 2 * d := by omega
    subst this; exact V_update_even _ _ _
  · have : i = 2 * d + 1 := by omega
    subst this; exact V_update_odd _ _ _
  · exact V_update_ne _ _ h

theorem V_eq (x : ℕ → K) (i : ℕ) : V x i = if i % 2 = 0 then x (i / 2) else -x (i / 2) := rfl

/-- setting the two unary cells of `d` -/
theorem sat_setUn {dim d : ℕ} {m : Mem K} {y : ℕ → K} {a b : Bound K}
    (h : ∀ i j, i < 2 * dim → Cell i j → ¬ (i / 2 = d ∧ j / 2 = d ∧ i ≠ j) →
      fin (V y j - V y i) ≤ m (matpos i j)) (ha : fin (-(2 * y d)) ≤ a) (hb : fin (2 * y d) ≤ b) :
    Sat dim ((m.set (matpos (2 * d) (2 * d + 1)) a).set (matpos (2 * d + 1) (2 * d)) b) y := by
  intro i j hi hc
  by_cases e1 : i = 2 * d + 1 ∧ j = 2 * d
  · obtain ⟨rfl, rfl⟩ := e1
    rw [Mem.set_self, V_even, V_odd, sub_neg_eq_add, ← two_mul]; exact hb
  · rw [Mem.set_ne _ _ (matpos_ne hc (cell_un d).1 e1)]
    by_cases e2 : i = 2 * d ∧ j = 2 * d + 1
    · obtain ⟨rfl, rfl⟩ := e2
      rw [Mem.set_self, V_even, V_odd, show -y d - y d = -(2 * y d) by ring]; exact ha
    · rw [Mem.set_ne _ _ (matpos_ne hc (cell_un d).2 e2)]
      exact h i j hi hc fun ⟨h1, h2, h3⟩ => by omega

/-- forgetting a dimension keeps the points whose other coordinates are unchanged -/
theorem forgetVar_sat {dim d : ℕ} {m : Mem K} {x : ℕ → K} (h : Sat dim m x) (v : K) :
    Sat dim (forgetVar dim false m d) (Function.update x d v) := by
  intro i j hi hc
  rw [forgetVar_cell false m hi hc]
  by_cases e : i / 2 = d ∨ j / 2 = d
  · rw [if_pos e]
    by_cases e' : i = j
    · subst e'; rw [if_pos rfl, sub_self]; exact OctT.sat_diag h hi
    · rw [if_neg e', if_neg (by simp)]; simp
  · rw [if_neg e]
    push Not at e
    rw [V_upd, V_upd, if_neg e.1, if_neg e.2]
    exact h i j hi hc

theorem un_ge {dim : ℕ} {m : Mem K} {x : ℕ → K} (h : Sat dim m x) {j : ℕ} (hj : j < 2 * dim) :
    fin (V x j) ≤ div2 R (m (matpos (j ^^^ 1) j)) ∧ fin (-V x j) ≤ div2 R (m (matpos j (j ^^^ 1))) := by
  have h1 := h (j ^^^ 1) j (xor1_lt hj) (cell_xor_self j)
  have h2 := h j (j ^^^ 1) hj (cell_self_xor j)
  rw [V_xor1] at h1 h2
  refine ⟨?_, ?_⟩
  · have := div2_ge R h1; rwa [show (V x j - -V x j) / 2 = V x j by ring] at this
  · have := div2_ge R h2; rwa [show (-V x j - V x j) / 2 = -V x j by ring] at this

theorem ss_ge {dst : ℕ → Bound K} {j : ℕ} {c : K} (hc : InD dst 0 c)
    {e : K} (he : e = if j % 2 = 0 then c else -c) : fin e ≤ ss dst j := by
  subst he
  unfold ss InD at *
  rcases Nat.mod_two_eq_zero_or_one j with h | h <;> rw [h]
  · simpa using hc.2
  · simpa using hc.1

/-- `X <- [-a,b]` -/
theorem assignZero_sat {dst : ℕ → Bound K} {dim d : ℕ} {m : Mem K} {x : ℕ → K} {v : K}
    (h : Sat dim m x) (hv : InD dst 0 v) (respect : Bool) :
    Sat dim (((if respect then assignZeroClosed R dst dim d m else forgetVar dim false m d).set
      (matpos (2 * d) (2 * d + 1)) (mul2 R (dst 0))).set (matpos (2 * d + 1) (2 * d)) (mul2 R (dst 1)))
      (Function.update x d v) := by
  refine sat_setUn (fun i j hi hc hno => ?_) ?_ ?_
  · cases respect with
    | false => exact forgetVar_sat h v i j hi hc
    | true =>
      rw [if_pos rfl, assignZeroClosed_cell R dst m hi hc]
      have hj : j < 2 * dim := by unfold Cell at hc; omega
      by_cases e1 : i / 2 = d ∧ j / 2 < d
      · rw [if_pos e1, V_upd, V_upd, if_neg (by omega), if_pos e1.1, sub_eq_add_neg]
        exact add_ge R (un_ge R h hj).1 (rr_ge (x := x) (v := v) hv e1.1 (by split_ifs <;> simp))
      · rw [if_neg e1]
        by_cases e2 : j / 2 = d ∧ d < i / 2
        · rw [if_pos e2, V_upd, V_upd, if_pos e2.1, if_neg (show ¬ i / 2 = d by omega), sub_eq_add_neg, add_comm]
          exact add_ge R (un_ge R h hi).2 (ss_ge hv rfl)
        · rw [if_neg e2, V_upd, V_upd]
          by_cases e3 : i = j
          · subst e3; rw [sub_self]; exact OctT.sat_diag h hi
          · unfold Cell at hc
            rw [if_neg (by omega), if_neg (by omega)]
            exact h i j hi hc
  · rw [Function.update_self, show -(2 * v) = 2 * -v by ring]; exact mul2_ge R hv.1
  · rw [Function.update_self]; exact mul2_ge R hv.2

/-- `X <- -X + [-a,b]` -/
theorem assignNeg_sat {dst : ℕ → Bound K} {dim d : ℕ} (hd : d < dim) {m : Mem K} {x : ℕ → K} {v : K}
    (h : Sat dim m x) (hv : InD dst 0 (v + x d)) : Sat dim (assignNeg R dst dim d m) (Function.update x d v) := by
  intro i j hi hc
  rw [assignNeg_cell R dst hd m hi hc]
  have hdi := xor1_div i
  have hdj := xor1_div j
  by_cases e1 : i / 2 = d ∧ j / 2 < d
  · rw [if_pos e1, V_upd, V_upd, if_neg (by omega), if_pos e1.1]
    have h1 := h (i ^^^ 1) j (xor1_lt hi) (by unfold Cell at *; omega)
    have h2 := add_ge R h1 (rr_ge (x := x) (v := v) hv e1.1 rfl)
    rw [V_xor1, V_eq x i, e1.1] at h2
    refine le_trans (le_of_eq ?_) h2
    congr 1; split_ifs <;> ring
  · rw [if_neg e1]
    by_cases e2 : j / 2 = d ∧ d < i / 2
    · rw [if_pos e2, V_upd, V_upd, if_pos e2.1, if_neg (show ¬ i / 2 = d by omega)]
      have h1 := h i (j ^^^ 1) hi (by unfold Cell at *; omega)
      have h2 := add_ge R h1 (ss_ge (j := j) hv rfl)
      rw [V_xor1, V_eq x j, e2.1] at h2
      refine le_trans (le_of_eq ?_) h2
      congr 1; split_ifs <;> ring
    · rw [if_neg e2]
      by_cases e3 : i / 2 = d ∧ j = i ^^^ 1
      · rw [if_pos e3, e3.2, V_xor1, V_upd, if_pos e3.1]
        have h1 := h (i ^^^ 1) i (xor1_lt hi) (cell_xor_self i)
        have h2 := add_ge R h1 (mul2_ge R (rr_ge (x := x) (v := v) hv e3.1 rfl))
        rw [V_xor1, V_eq x i, e3.1] at h2
        refine le_trans (le_of_eq ?_) h2
        congr 1; split_ifs <;> ring
      · rw [if_neg e3, V_upd, V_upd]
        by_cases e4 : i = j
        · subst e4; rw [sub_self]; exact OctT.sat_diag h hi
        · have : i / 2 ≠ d ∧ j / 2 ≠ d := by
            have := xor1 i
            unfold Cell at hc
            split_ifs at this <;> omega
          rw [if_neg this.1, if_neg this.2]
          exact h i j hi hc

/-- `X <- X + [-a,b]` -/
theorem assignShift_sat {dst : ℕ → Bound K} {dim d : ℕ} (hd : d < dim) {m : Mem K} {x : ℕ → K} {v : K}
    (h : Sat dim m x) (hv : InD dst 0 (v - x d)) : Sat dim (assignShift R dst dim d m) (Function.update x d v) := by
  intro i j hi hc
  rw [assignShift_cell R dst hd m hi hc]
  have hdi := xor1_div i
  have hdj := xor1_div j
  have h1 := h i j hi hc
  by_cases e1 : i / 2 = d ∧ j / 2 < d
  · rw [if_pos e1, V_upd, V_upd, if_neg (by omega), if_pos e1.1]
    have h2 := add_ge R h1 (rr_ge (x := x) (v := v) hv e1.1 rfl)
    rw [V_eq x i, e1.1] at h2
    refine le_trans (le_of_eq ?_) h2
    congr 1; split_ifs <;> ring
  · rw [if_neg e1]
    by_cases e2 : j / 2 = d ∧ d < i / 2
    · rw [if_pos e2, V_upd, V_upd, if_pos e2.1, if_neg (show ¬ i / 2 = d by omega)]
      have h2 := add_ge R h1 (ss_ge (j := j) hv rfl)
      rw [V_eq x j, e2.1] at h2
      refine le_trans (le_of_eq ?_) h2
      congr 1; split_ifs <;> ring
    · rw [if_neg e2]
      by_cases e3 : i / 2 = d ∧ j = i ^^^ 1
      · obtain ⟨e3, rfl⟩ := e3
        rw [if_pos ⟨e3, rfl⟩, V_xor1, V_upd, if_pos e3]
        have h2 := add_ge R h1 (mul2_ge R (rr_ge (x := x) (v := v) hv e3 rfl))
        rw [V_xor1, V_eq x i, e3] at h2
        refine le_trans (le_of_eq ?_) h2
        congr 1; split_ifs <;> ring
      · rw [if_neg e3, V_upd, V_upd]
        by_cases e4 : i = j
        · subst e4; rw [sub_self]; exact OctT.sat_diag h hi
        · have : i / 2 ≠ d ∧ j / 2 ≠ d := by
            have := xor1 i
            unfold Cell at hc
            split_ifs at this <;> omega
          rw [if_neg this.1, if_neg this.2]
          exact h1

/-! ### the general case -/

theorem pick1 {dim : ℕ} {dst : ℕ → Bound K} {m : Mem K} {x : ℕ → K} (h : Sat dim m x) {j : ℕ}
    (hj : j < dim) {c : K} (hc : InD dst (2 * j + 2) c) {A : K} (h1 : dst (2 * j + 2) ≤ fin (-1))
    (hA : m (matpos (2 * j + 1) (2 * j)) = fin A) :
    ∃ t, fin t ≤ (prodBounds R dst m j).2 ∧ 2 * (c * x j) - 2 * x j ≤ t - A := by
  have hup := h.up hj
  have hc3 := le_trans hc.1 h1
  rw [hA] at hup
  simp only [fin_le_fin] at hc3 hup
  refine ⟨A * c, boundsMul_sup R hc.2 hc.1 (fun _ => by rw [hA]) (fun h => by linarith), ?_⟩
  nlinarith

theorem pick2 {dim : ℕ} {dst : ℕ → Bound K} {m : Mem K} {x : ℕ → K} (h : Sat dim m x) {j : ℕ}
    (hj : j < dim) {c : K} (hc : InD dst (2 * j + 2) c) {A : K} (h1 : dst (2 * j + 3) ≤ fin (-1))
    (hA : m (matpos (2 * j) (2 * j + 1)) = fin A) :
    ∃ t, fin t ≤ (prodBounds R dst m j).2 ∧ 2 * (c * x j) + 2 * x j ≤ t - A := by
  have hlo := h.lo hj
  have hc3 := le_trans hc.2 h1
  rw [hA] at hlo
  simp only [fin_le_fin] at hc3 hlo
  refine ⟨-A * c, boundsMul_sup R hc.2 hc.1 (fun h => by linarith) (fun _ => by rw [hA, _root_.neg_neg]), ?_⟩
  nlinarith

/-- the sum of the upper bounds when they are all finite -/
theorem half_spec {dim : ℕ} {dst : ℕ → Bound K} {m : Mem K} {x : ℕ → K} {v : K}
    (hm : Sat dim m x) (hf : FormVal dim dst x v)
    (h0 : (accum R (fun j => (prodBounds R dst m j).2) dim (mul2 R (dst 1))).cnt = 0) :
    fin (2 * v) ≤ (accum R (fun j => (prodBounds R dst m j).2) dim (mul2 R (dst 1))).sum ∧
    (∀ j, j < dim → dst (2 * j + 2) ≤ fin (-1) → infty (m (matpos (2 * j + 1) (2 * j))) = false →
      fin (v - x j) ≤ div2 R (sub R (accum R (fun j => (prodBounds R dst m j).2) dim (mul2 R (dst 1))).sum
        (m (matpos (2 * j + 1) (2 * j))))) ∧
    (∀ j, j < dim → dst (2 * j + 3) ≤ fin (-1) → infty (m (matpos (2 * j) (2 * j + 1))) = false →
      fin (v + x j) ≤ div2 R (sub R (accum R (fun j => (prodBounds R dst m j).2) dim (mul2 R (dst 1))).sum
        (m (matpos (2 * j) (2 * j + 1))))) := by
  obtain ⟨c0, c, hc0, hc, hval⟩ := hf
  obtain ⟨a1, a2, -, -⟩ := accum_spec R (fun j => (prodBounds R dst m j).2) dim (mul2 R (dst 1))
    (s0 := 2 * c0) (mul2_ge R hc0.2)
  rw [h0] at a2
  have hfin : finSet (fun j => (prodBounds R dst m j).2) dim = range dim := by
    have he := Finset.card_eq_zero.1 a2.symm
    unfold infSet at he
    unfold finSet
    rw [Finset.filter_eq_empty_iff] at he
    exact Finset.filter_true_of_mem fun j hj => he hj
  rw [hfin] at a1
  have he1 : ∀ j, j < dim → fin (2 * (c j * x j)) ≤ (prodBounds R dst m j).2 :=
    fun j hj => prod_ge R hm hj (hc j hj)
  have hsum : 2 * c0 + ∑ j ∈ range dim, 2 * (c j * x j) = 2 * v := by
    rw [hval, ← Finset.mul_sum]; ring
  have hupd : ∀ j t, j < dim → fin t ≤ (prodBounds R dst m j).2 →
      fin (2 * v + (t - 2 * (c j * x j))) ≤
        (accum R (fun j => (prodBounds R dst m j).2) dim (mul2 R (dst 1))).sum := by
    intro j t hj ht
    have := a1 (Function.update (fun j => 2 * (c j * x j)) j t) fun k hk => by
      by_cases e : k = j
      · subst e; rw [Function.update_self]; exact ht
      · rw [Function.update_of_ne e]; exact he1 k hk
    rw [sum_update_mem (mem_range.2 hj), ← add_assoc, hsum] at this
    exact this
  refine ⟨?_, fun j hj h1 h2 => ?_, fun j hj h1 h2 => ?_⟩
  · have := a1 _ he1
    rwa [hsum] at this
  · obtain ⟨A, hA⟩ := fin_of_not_infty h2
    obtain ⟨t, ht, hle⟩ := pick1 R hm hj (hc j hj) h1 hA
    have := div2_ge R (sub_ge R (hupd j t hj ht) (le_of_eq hA))
    refine le_trans ?_ this
    rw [fin_le_fin]; linarith
  · obtain ⟨A, hA⟩ := fin_of_not_infty h2
    obtain ⟨t, ht, hle⟩ := pick2 R hm hj (hc j hj) h1 hA
    have := div2_ge R (sub_ge R (hupd j t hj ht) (le_of_eq hA))
    refine le_trans ?_ this
    rw [fin_le_fin]; linarith

/-- the unary cells of the other dimensions are unchanged -/
def UnOff (d dim : ℕ) (m b : Mem K) : Prop := ∀ k, k ≠ d → k < dim →
  b (matpos (2 * k + 1) (2 * k)) = m (matpos (2 * k + 1) (2 * k)) ∧
  b (matpos (2 * k) (2 * k + 1)) = m (matpos (2 * k) (2 * k + 1))

theorem UnOff.set2 {d dim : ℕ} {m b : Mem K} (h : UnOff d dim m b) {i j : ℕ} (hij : i / 2 ≠ j / 2) (v : Bound K) :
    UnOff d dim m (b.set (matpos2 i j) v) := by
  intro k hk hk'
  obtain ⟨h1, h2⟩ := matpos2_ne_un hij k
  rw [Mem.set_ne _ _ h1, Mem.set_ne _ _ h2]
  exact h k hk hk'

theorem UnOff.setUn {d dim : ℕ} {m b : Mem K} (h : UnOff d dim m b) {i j : ℕ} (hi : i / 2 = d) (hc : Cell i j)
    (v : Bound K) : UnOff d dim m (b.set (matpos i j) v) := by
  intro k hk hk'
  rw [Mem.set_ne _ _ (matpos_ne (cell_un k).1 hc (by omega)), Mem.set_ne _ _ (matpos_ne (cell_un k).2 hc (by omega))]
  exact h k hk hk'

theorem forget_unOff (d dim : ℕ) (m : Mem K) : UnOff d dim m (forgetVar dim false m d) := by
  intro k hk hk'
  rw [forgetVar_cell false m (by omega) (cell_un k).1, forgetVar_cell false m (by omega) (cell_un k).2,
    if_neg (by omega), if_neg (by omega)]
  exact ⟨rfl, rfl⟩

/-- the scratch cells do not look like a unit coefficient -/
def ScratchOk (s0 s1 : Bound K) : Prop := ¬ (s1 = fin 1 ∧ s0 = fin (-1)) ∧ ¬ (s1 = fin (-1) ∧ s0 = fin 1)

theorem assignUpper_sat {dim d : ℕ} (hd : d < dim) {dst : ℕ → Bound K} {m b : Mem K} {x : ℕ → K} {v : K}
    (hm : Sat dim m x) (hf : FormVal dim dst x v) {s0 s1 : Bound K}
    (hs : (accum R (fun j => (prodBounds R dst m j).2) dim (mul2 R (dst 1))).cnt = 1 → ScratchOk s0 s1)
    (hb : Sat dim b (Function.update x d v)) (hu : UnOff d dim m b) :
    Sat dim (assignUpper R dst dim d
      (accum R (fun j => (prodBounds R dst m j).2) dim (mul2 R (dst 1))) s0 s1 b) (Function.update x d v) ∧
    UnOff d dim m (assignUpper R dst dim d
      (accum R (fun j => (prodBounds R dst m j).2) dim (mul2 R (dst 1))) s0 s1 b) := by
  have hsp := half_spec R hm hf
  unfold assignUpper
  generalize accum R (fun j => (prodBounds R dst m j).2) dim (mul2 R (dst 1)) = acc at *
  by_cases e0 : acc.cnt = 0
  · obtain ⟨p0, p1, p2⟩ := hsp e0
    rw [if_pos e0]
    refine foldl_inv (fun b => Sat dim b (Function.update x d v) ∧ UnOff d dim m b) _ _ (fun b i hi hb => ?_) _ ?_
    · have hi : i < dim := by simpa using hi
      simp only [cmp_le_zero]
      split_ifs with g1 g2 g3
      · exact hb
      · refine ⟨hb.1.set2 ?_, hb.2.set2 (by omega) _⟩
        rw [(hb.2 i g1 hi).1] at g2 ⊢
        rw [V_even, V_even, Function.update_self, Function.update_of_ne g1]
        exact p1 i hi g2.1 g2.2
      · refine ⟨hb.1.set2 ?_, hb.2.set2 (by omega) _⟩
        rw [(hb.2 i g1 hi).2] at g3 ⊢
        rw [V_odd, V_even, Function.update_self, Function.update_of_ne g1, sub_neg_eq_add]
        exact p2 i hi g3.1 g3.2
      · exact hb
    · refine ⟨hb.set (cell_un d).1 ?_, hu.setUn (by omega) (cell_un d).1 _⟩
      rw [V_even, V_odd, Function.update_self, sub_neg_eq_add, ← two_mul]
      exact p0
  · rw [if_neg e0]
    by_cases e1 : acc.cnt = 1
    · rw [if_pos e1]
      have := hs e1
      simp only [cmp_eq_zero]
      split_ifs with g1 g2 g3
      · exact absurd g2 this.1
      · exact absurd g3 this.2
      · exact ⟨hb, hu⟩
      · exact ⟨hb, hu⟩
    · rw [if_neg e1]; exact ⟨hb, hu⟩

theorem lowAcc (dim : ℕ) (dst : ℕ → Bound K) (m : Mem K) :
    accum R (fun i => (prodBounds R dst m i).1) dim (mul2 R (dst 0)) =
    accum R (fun j => (prodBounds R (swapDst dst) m j).2) dim (mul2 R (swapDst dst 1)) := by
  rw [swapDst_1]
  congr 1
  funext j
  exact prodBounds_swap R dst m j

theorem assignLower_sat {dim d : ℕ} (hd : d < dim) {dst : ℕ → Bound K} {m b : Mem K} {x : ℕ → K} {v : K}
    (hm : Sat dim m x) (hf : FormVal dim dst x v) {s0 s1 : Bound K}
    (hs : (accum R (fun j => (prodBounds R dst m j).1) dim (mul2 R (dst 0))).cnt = 1 → ScratchOk s0 s1)
    (hb : Sat dim b (Function.update x d v)) (hu : UnOff d dim m b) :
    Sat dim (assignLower R dst dim d
      (accum R (fun j => (prodBounds R dst m j).1) dim (mul2 R (dst 0))) s0 s1 b) (Function.update x d v) := by
  have hsp := half_spec R hm (formVal_swap hf)
  rw [← lowAcc] at hsp
  unfold assignLower
  generalize accum R (fun j => (prodBounds R dst m j).1) dim (mul2 R (dst 0)) = acc at *
  by_cases e0 : acc.cnt = 0
  · obtain ⟨p0, p1, p2⟩ := hsp e0
    rw [if_pos e0]
    refine (foldl_inv (fun b => Sat dim b (Function.update x d v) ∧ UnOff d dim m b) _ _ (fun b i hi hb => ?_) _ ?_).1
    · have hi : i < dim := by simpa using hi
      simp only [cmp_le_zero]
      split_ifs with g1 g2 g3
      · exact hb
      · refine ⟨hb.1.set2 ?_, hb.2.set2 (by omega) _⟩
        rw [(hb.2 i g1 hi).2] at g2 ⊢
        rw [V_odd, V_odd, Function.update_self, Function.update_of_ne g1, sub_neg_eq_add]
        exact p2 i hi (by rw [swapDst_o]; exact g2.1) g2.2
      · refine ⟨hb.1.set2 ?_, hb.2.set2 (by omega) _⟩
        rw [(hb.2 i g1 hi).1] at g3 ⊢
        rw [V_odd, V_even, Function.update_self, Function.update_of_ne g1]
        exact p1 i hi (by rw [swapDst_e]; exact g3.1) g3.2
      · exact hb
    · refine ⟨hb.set (cell_un d).2 ?_, hu.setUn (by omega) (cell_un d).2 _⟩
      rw [V_even, V_odd, Function.update_self, show -v - v = 2 * -v by ring]
      exact p0
  · rw [if_neg e0]
    by_cases e1 : acc.cnt = 1
    · rw [if_pos e1]
      have := hs e1
      simp only [cmp_eq_zero]
      split_ifs with g1 g2 g3
      · exact absurd g2 this.1
      · exact absurd g3 this.2
      · exact hb
      · exact hb
    · rw [if_neg e1]; exact hb

/-- the general assignment is sound when the scratch cells are not read, or do not look like a unit
coefficient -/
def GenOk (dst : ℕ → Bound K) (dim : ℕ) (m : Mem K) : Prop :=
  ((accum R (fun j => (prodBounds R dst m j).2) dim (mul2 R (dst 1))).cnt = 1 ∨
    (accum R (fun j => (prodBounds R dst m j).1) dim (mul2 R (dst 0))).cnt = 1) →
  ScratchOk (mul R (m (matpos (2 * (dim - 1) + 1) (2 * (dim - 1)))) (dst (2 * (dim - 1) + 3)))
    (mul R (m (matpos (2 * (dim - 1)) (2 * (dim - 1) + 1))) (dst (2 * (dim - 1) + 2)))

theorem assignGen_sat {dim d : ℕ} (hd : d < dim) {dst : ℕ → Bound K} {m : Mem K} {x : ℕ → K} {v : K}
    (hm : Sat dim m x) (hf : FormVal dim dst x v) (hg : GenOk R dst dim m) :
    Sat dim (assignGen R dst dim d m) (Function.update x d v) := by
  unfold assignGen
  obtain ⟨h1, h2⟩ := assignUpper_sat R hd hm hf (fun h => hg (Or.inl h)) (forgetVar_sat (d := d) hm v)
    (forget_unOff d dim m)
  exact assignLower_sat R hd hm hf (fun h => hg (Or.inr h)) h1 h2

theorem genOk_of_zero {dim : ℕ} {dst : ℕ → Bound K} {m : Mem K} (hz : ZeroAt dst (dim - 1)) :
    GenOk R dst dim m := by
  intro _
  have h0 : ∀ b : Bound K, mul R b (fin 0) = fin 0 := fun b => by
    cases b <;> simp [mul, sgn]
  rw [hz.1, hz.2, h0, h0]
  unfold ScratchOk
  simp

/-- soundness of `hmat_assign` -/
theorem hmatAssign_sat {dim d : ℕ} (hd : d < dim) {u : UExpr} {dst : ℕ → Bound K} {m : Mem K} {x : ℕ → K}
    {v : K} (hm : Sat dim m x) (hcl : ClassOk (fun i => i < dim) u dst) (hf : FormVal dim dst x v)
    (hg : u.type = .binary ∨ u.type = .other → GenOk R dst dim m) (hne : u.type ≠ .empty) (respect : Bool) :
    Sat dim (hmatAssign R u dst dim d m respect).1 (Function.update x d v) := by
  unfold hmatAssign
  unfold ClassOk at hcl
  cases ht : u.type with
  | empty => exact absurd ht hne
  | zero =>
    rw [ht] at hcl
    rw [if_pos rfl]
    exact assignZero_sat R hm ((formVal_zero hcl).1 hf) respect
  | unary =>
    rw [ht] at hcl
    obtain ⟨hi, hu, hz⟩ := hcl
    have hv := (formVal_unary hi hu hz).1 hf
    rw [if_neg (by simp)]
    by_cases e : u.i = d
    · rw [if_neg (by simp [e])]
      rw [V_signed x u.i hu.1, e] at hv
      rcases hu.1 with h1 | h1
      · rw [if_neg (by simp [h1]), if_pos ⟨rfl, h1⟩]
        exact assignShift_sat R hd hm (by rw [h1] at hv; simpa using hv)
      · rw [if_pos ⟨rfl, h1⟩]
        exact assignNeg_sat R hd hm (by rw [h1] at hv; simpa using hv)
    · rw [if_pos ⟨rfl, e⟩]
      set k := signed u.i u.coefI with hk
      have hkd : k / 2 = u.i := signed_div _ _
      have hVk : V (Function.update x d v) k = V x k := V_update_ne _ _ (by omega)
      have hs : Sat dim (((forgetVar dim false m d).set (matpos2 (2 * d) k) (dst 0)).set
          (matpos2 k (2 * d)) (dst 1)) (Function.update x d v) := by
        refine ((forgetVar_sat hm v).set2 ?_).set2 ?_
        · rw [hVk, V_even, Function.update_self, show V x k - v = -(v - V x k) by ring]; exact hv.1
        · rw [hVk, V_even, Function.update_self]; exact hv.2
      cases respect with
      | false => exact hs
      | true => exact (closeIncremental_sat R hd hs).2
  | binary =>
    rw [if_neg (by simp), if_neg (by simp), if_neg (by simp), if_neg (by simp)]
    exact assignGen_sat R hd hm hf (hg (Or.inl ht))
  | other =>
    rw [if_neg (by simp), if_neg (by simp), if_neg (by simp), if_neg (by simp)]
    exact assignGen_sat R hd hm hf (hg (Or.inr ht))

end Oct
end Apron
