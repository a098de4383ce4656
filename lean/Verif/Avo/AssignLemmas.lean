import Verif.Avo.Assign
import Verif.Avo.ResizeSound
import Verif.Oct.AssignSound

/-!
# Helper lemmas: assignments of absolute-value octagons
-/

set_option autoImplicit false
set_option linter.unusedSectionVars false
set_option linter.ambiguousOpen false

namespace Apron
namespace Avo
open Bound Oct AvoT
variable {K : Type*} [LinearOrder K] [Field K] [IsStrictOrderedRing K] (R : Rnd K) {alg : ℤ}

/-- the cell is on `x_d` or `|x_d|` -/
def Touch (dim d i j : ℕ) : Prop := i / 2 = d ∨ i / 2 = d + dim ∨ j / 2 = d ∨ j / 2 = d + dim

theorem touch_of_mem {dim d i j : ℕ} (hc : Cell i j) (h : matpos i j ∈ forgetPos dim (2 * d)) :
    Touch dim d i j ∧ ¬ (i = j ∧ i / 2 = d) := by
  rw [mem_forgetPos, ← matpos2_cell hc] at h
  have key : ∀ a b, (a / 2 = d ∨ a / 2 = d + dim ∨ b / 2 = d ∨ b / 2 = d + dim) →
      ¬ (a = b ∧ a / 2 = d) → matpos2 i j = matpos2 a b → Touch dim d i j ∧ ¬ (i = j ∧ i / 2 = d) := by
    intro a b hab hne h
    unfold Touch
    rcases matpos2_inj h with ⟨rfl, rfl⟩ | ⟨h1, h2, h3⟩
    · exact ⟨hab, hne⟩
    · have e1 := xor1_div b
      have e2 := xor1_div a
      rw [← h2] at e1; rw [← h3] at e2
      refine ⟨by omega, fun e => h1 (by rw [e.1])⟩
  rcases h with ⟨k, h1, h⟩ | ⟨k, h1, h2, h⟩ <;> rcases h with h | h | h | h <;>
    exact key _ _ (by omega) (by omega) h

theorem cell_of_eq {i j a b : ℕ} (hc : Cell i j) (hab : a / 2 = b / 2) (h : matpos i j = matpos2 a b) :
    i = a ∧ j = b := by
  rw [← matpos2_cell hc] at h
  rcases matpos2_inj h with h | ⟨h1, h2, h3⟩
  · exact h
  · rw [h2, h3, xor1_div, xor1_div] at h1; exact absurd hab.symm h1

/-- the list of the last eight assignments of `avo_hmat_forget_var` -/
theorem touch_of_last {dim d i j : ℕ} (hd : d < dim) (hc : Cell i j)
    (h : matpos i j ∈ [matpos2 (2 * d) (2 * d + 1), matpos2 (2 * d + 1) (2 * d),
    matpos2 (2 * d + 2 * dim) (2 * d + 1 + 2 * dim), matpos2 (2 * d + 1 + 2 * dim) (2 * d + 2 * dim),
    matpos2 (2 * d) (2 * d + 1 + 2 * dim), matpos2 (2 * d + 1) (2 * d + 2 * dim), matpos2 (2 * d + 2 * dim) (2 * d + 1),
    matpos2 (2 * d + 1 + 2 * dim) (2 * d)]) : Touch dim d i j ∧ ¬ (i = j ∧ i / 2 = d) := by
  rw [← matpos2_cell hc] at h
  have key : ∀ a b, (a / 2 = d ∨ a / 2 = d + dim ∨ b / 2 = d ∨ b / 2 = d + dim) →
      ¬ (a = b ∧ a / 2 = d) → matpos2 i j = matpos2 a b → Touch dim d i j ∧ ¬ (i = j ∧ i / 2 = d) := by
    intro a b hab hne h
    unfold Touch
    rcases matpos2_inj h with ⟨rfl, rfl⟩ | ⟨h1, h2, h3⟩
    · exact ⟨hab, hne⟩
    · have e1 := xor1_div b
      have e2 := xor1_div a
      rw [← h2] at e1; rw [← h3] at e2
      refine ⟨by omega, fun e => h1 (by rw [e.1])⟩
  simp only [List.mem_cons, List.not_mem_nil, or_false] at h
  rcases h with h | h | h | h | h | h | h | h <;> exact key _ _ (by omega) (by omega) h

/-- `avo_hmat_forget_var` on a cell -/
theorem forgetVar_cell {dim d : ℕ} (hd : d < dim) (m : Mem K) {i j : ℕ} (hi : i < 4 * dim) (hc : Cell i j) :
    (Touch dim d i j ∧ ¬ (i = j ∧ i / 2 = d) ∧ Avo.forgetVar dim m d (matpos i j) = pinf) ∨
    ((Touch dim d i j → i = j ∧ i / 2 = d) ∧ Avo.forgetVar dim m d (matpos i j) = m (matpos i j)) := by
  unfold Avo.forgetVar
  rw [setAll_apply, setAll_apply]
  split_ifs with h1 h2
  · left
    exact ⟨(touch_of_last hd hc h1).1, (touch_of_last hd hc h1).2, rfl⟩
  · left
    exact ⟨(touch_of_mem hc h2).1, (touch_of_mem hc h2).2, rfl⟩
  · right
    refine ⟨fun ht => ?_, rfl⟩
    have h3 := (forgetPos_cover hd hi hc ht).resolve_right h2
    by_contra hne
    have : i = 2 * d ∧ j = 2 * d + 1 ∨ i = 2 * d + 1 ∧ j = 2 * d := by omega
    apply h1
    rcases this with ⟨rfl, rfl⟩ | ⟨rfl, rfl⟩ <;> rw [← matpos2_cell hc] <;> simp

/-- the clearing of `|x_d|` on a cell -/
theorem clearAbs_cell {dim d : ℕ} (hd : d < dim) (m : Mem K) {i j : ℕ} (hi : i < 4 * dim) (hc : Cell i j) :
    clearAbs dim m d (matpos i j) = if i / 2 = d + dim ∨ j / 2 = d + dim then pinf else m (matpos i j) := by
  unfold clearAbs
  rw [setAll_apply]
  have hj : j < 4 * dim := by unfold Cell at hc; omega
  congr 1
  rw [eq_iff_iff]
  simp only [List.mem_flatMap, List.mem_range, List.mem_cons, List.not_mem_nil, or_false]
  rw [← matpos2_cell hc]
  constructor
  · rintro ⟨k, hk, h⟩
    have key : ∀ a b, (a / 2 = d + dim ∨ b / 2 = d + dim) → matpos2 i j = matpos2 a b →
        i / 2 = d + dim ∨ j / 2 = d + dim := by
      intro a b hab h
      rcases matpos2_inj h with ⟨rfl, rfl⟩ | ⟨h1, h2, h3⟩
      · exact hab
      · have e1 := xor1_div b
        have e2 := xor1_div a
        rw [← h2] at e1; rw [← h3] at e2
        omega
    rcases h with h | h | h | h <;> exact key _ _ (by omega) h
  · intro h
    by_cases h1 : i / 2 = d + dim
    · refine ⟨j, hj, ?_⟩
      have : i = 2 * d + 2 * dim ∨ i = 2 * d + 2 * dim + 1 := by omega
      rcases this with rfl | rfl <;> simp
    · refine ⟨i, hi, ?_⟩
      have : j = 2 * d + 2 * dim ∨ j = 2 * d + 2 * dim + 1 := by omega
      rcases this with rfl | rfl <;> simp

/-! ### satisfaction -/

theorem ok_inf (v : K) (n : Bound K) : Ok v (pinf, n) := ⟨by simp, fun _ => by simp⟩

theorem V_congr {y y' : ℕ → K} {i : ℕ} (h : y' (i / 2) = y (i / 2)) : V y' i = V y i := by unfold V; rw [h]

/-- forgetting -/
theorem gsat_forget {dim d : ℕ} (hd : d < dim) {m n : Mem K} {y y' : ℕ → K} (h : GSat (2 * dim) (AvoT.zip m n) y)
    (hk : ∀ k, k ≠ d → k ≠ d + dim → y' k = y k) :
    GSat (2 * dim) (AvoT.zip (Avo.forgetVar dim m d) (Avo.forgetVar dim n d)) y' := by
  intro i j hi hc
  change Ok _ (Avo.forgetVar dim m d (matpos i j), Avo.forgetVar dim n d (matpos i j))
  rcases forgetVar_cell hd m (by omega) hc with ⟨_, _, e⟩ | ⟨ht, e⟩
  · rw [e]; exact ok_inf _ _
  · have hv : V y' j - V y' i = V y j - V y i := by
      by_cases t : Touch dim d i j
      · obtain ⟨rfl, -⟩ := ht t; simp
      · unfold Touch at t
        rw [V_congr (hk (j / 2) (by omega) (by omega)), V_congr (hk (i / 2) (by omega) (by omega))]
    have h0 := h i j hi hc
    rw [e, hv]
    rcases forgetVar_cell hd n (by omega) hc with ⟨_, _, e'⟩ | ⟨_, e'⟩
    · rw [e']; exact ⟨h0.1, fun e => absurd rfl e⟩
    · rw [e']; exact h0

/-- clearing the absolute value -/
theorem gsat_clear {dim d : ℕ} (hd : d < dim) {m n : Mem K} {y y' : ℕ → K} (h : GSat (2 * dim) (AvoT.zip m n) y)
    (hk : ∀ k, k ≠ d + dim → y' k = y k) :
    GSat (2 * dim) (AvoT.zip (clearAbs dim m d) (clearAbs dim n d)) y' := by
  intro i j hi hc
  change Ok _ (clearAbs dim m d (matpos i j), clearAbs dim n d (matpos i j))
  rw [clearAbs_cell hd m (by omega) hc, clearAbs_cell hd n (by omega) hc]
  split_ifs with t
  · exact ok_inf _ _
  · rw [V_congr (hk (j / 2) (by omega)), V_congr (hk (i / 2) (by omega))]
    exact h i j hi hc

theorem matpos2_rep {i j N : ℕ} (hi : i < N) (hj : j < N) (hN : N % 2 = 0) :
    ∃ a b, a < N ∧ Cell a b ∧ matpos2 i j = matpos a b ∧ ((a = i ∧ b = j) ∨ (a = j ^^^ 1 ∧ b = i ^^^ 1)) := by
  rw [matpos2_eq]
  split_ifs with hc
  · exact ⟨i, j, hi, hc, rfl, Or.inl ⟨rfl, rfl⟩⟩
  · refine ⟨j ^^^ 1, i ^^^ 1, ?_, (cell_or_mirror i j).resolve_left hc, rfl, Or.inr ⟨rfl, rfl⟩⟩
    have := xor1_div j
    omega

/-- a mark cleared by `avo_hmat_forget_var` -/
theorem forgetVar_mark {dim d : ℕ} (hd : d < dim) (n : Mem K) {i j : ℕ} (hi : i < 4 * dim) (hj : j < 4 * dim)
    (hij : i ≠ j) (ht : i / 2 = d ∨ j / 2 = d) : Avo.forgetVar dim n d (matpos2 i j) = pinf := by
  obtain ⟨a, b, ha, hc, e, hab⟩ := matpos2_rep hi hj (by omega)
  rw [e]
  rcases forgetVar_cell hd n ha hc with h | ⟨h, -⟩
  · exact h.2.2
  · exfalso
    have h1 := xor1_div j
    have h2 := xor1_div i
    have := h (by
      unfold Touch
      rcases hab with ⟨rfl, rfl⟩ | ⟨rfl, rfl⟩
      · omega
      · omega)
    rcases hab with ⟨rfl, rfl⟩ | ⟨rfl, rfl⟩
    · exact hij this.1
    · apply hij
      have := congrArg (· ^^^ 1) this.1
      simp only [xor1_xor1] at this
      exact this.symm

/-- writing the bound of an unmarked cell -/
theorem gsat_set {N : ℕ} {m n : Mem K} {y : ℕ → K} (h : GSat N (AvoT.zip m n) y) {i j : ℕ} {w : Bound K}
    (hw : fin (V y j - V y i) ≤ w) (hn : n (matpos2 i j) = pinf) :
    GSat N (AvoT.zip (m.set (matpos2 i j) w) n) y := by
  intro a b ha hc
  change Ok _ ((m.set (matpos2 i j) w) (matpos a b), n (matpos a b))
  by_cases e : matpos a b = matpos2 i j
  · rw [e, Mem.set_self, hn]
    refine ⟨?_, fun e => absurd rfl e⟩
    rw [← matpos2_cell hc] at e
    rcases matpos2_inj e with ⟨rfl, rfl⟩ | ⟨-, rfl, rfl⟩
    · exact hw
    · rw [V_xor1, V_xor1]
      refine le_trans (le_of_eq ?_) hw
      congr 1; ring
  · rw [Mem.set_ne _ _ e]
    exact h a b ha hc

/-- adding to a bound keeps strictness -/
theorem Ok.add {v c : K} {b n t : Bound K} (h : Ok v (b, n)) (ht : fin c ≤ t) :
    Ok (v + c) (Bound.add R b t, n) := by
  refine ⟨add_ge R h.1 ht, fun hn => ?_⟩
  have h1 := h.2 hn
  dsimp only at h1 ⊢
  cases b with
  | ninf => simp at h1
  | pinf => cases t <;> simp_all [Bound.add]
  | fin q =>
    cases t with
    | ninf => simp at ht
    | pinf => simp [Bound.add]
    | fin s =>
      simp only [fin_lt_fin, fin_le_fin] at h1 ht
      refine lt_of_lt_of_le ?_ (R.up_ge (q + s))
      simp only [fin_lt_fin]
      linarith

/-- `X <- X + [-a,b]` -/
theorem gsat_shift {dst : ℕ → Bound K} {N d : ℕ} (hd : d < N) {m n : Mem K} {x : ℕ → K} {v : K}
    (h : GSat N (AvoT.zip m n) x) (hv : InD dst 0 (v - x d)) :
    GSat N (AvoT.zip (assignShift R dst N d m) n) (Function.update x d v) := by
  intro i j hi hc
  change Ok _ (assignShift R dst N d m (matpos i j), n (matpos i j))
  rw [assignShift_cell R dst hd m hi hc]
  have hdi := xor1_div i
  have hdj := xor1_div j
  have h1 : Ok (V x j - V x i) (m (matpos i j), n (matpos i j)) := h i j hi hc
  by_cases e1 : i / 2 = d ∧ j / 2 < d
  · rw [if_pos e1, V_upd, V_upd, if_neg (by omega), if_pos e1.1]
    have h2 := h1.add R (rr_ge (x := x) (v := v) hv e1.1 rfl)
    rw [V_eq x i, e1.1] at h2
    refine (congrArg (fun q => Ok q _) ?_).mp h2
    split_ifs <;> ring
  · rw [if_neg e1]
    by_cases e2 : j / 2 = d ∧ d < i / 2
    · rw [if_pos e2, V_upd, V_upd, if_pos e2.1, if_neg (show ¬ i / 2 = d by omega)]
      have h2 := h1.add R (ss_ge (j := j) hv rfl)
      rw [V_eq x j, e2.1] at h2
      refine (congrArg (fun q => Ok q _) ?_).mp h2
      split_ifs <;> ring
    · rw [if_neg e2]
      by_cases e3 : i / 2 = d ∧ j = i ^^^ 1
      · obtain ⟨e3, rfl⟩ := e3
        rw [if_pos ⟨e3, rfl⟩, V_xor1, V_upd, if_pos e3]
        have h2 := h1.add R (mul2_ge R (rr_ge (x := x) (v := v) hv e3 rfl))
        rw [V_xor1, V_eq x i, e3] at h2
        refine (congrArg (fun q => Ok q _) ?_).mp h2
        split_ifs <;> ring
      · rw [if_neg e3, V_upd, V_upd]
        by_cases e4 : i = j
        · subst e4
          rw [sub_self] at h1 ⊢
          exact h1
        · have : i / 2 ≠ d ∧ j / 2 ≠ d := by
            have := xor1 i
            unfold Cell at hc
            split_ifs at this <;> omega
          rw [if_neg this.1, if_neg this.2]
          exact h1

/-! ### `X <- -X + [-a,b]` without strict constraints on `X` -/

/-- no constraint on `x_d` is marked strict -/
def NoMarks (dim d : ℕ) (n : Mem K) : Prop :=
  ∀ i j, i < 4 * dim → j < 4 * dim → (i / 2 = d ∨ j / 2 = d) → n (matpos2 i j) = pinf

theorem NoMarks.set {dim d : ℕ} {n : Mem K} (h : NoMarks dim d n) {p : ℕ} {v : Bound K} (hv : v = pinf) :
    NoMarks dim d (n.set p v) := by
  intro i j hi hj ht
  subst hv
  by_cases e : matpos2 i j = p
  · rw [e, Mem.set_self]
  · rw [Mem.set_ne _ _ e]; exact h i j hi hj ht

theorem negMarks_spec {dim d : ℕ} (hd : d < dim) {n : Mem K} (h : NoMarks dim d n) :
    NoMarks dim d (negMarks dim d n) ∧
    ∀ i j, Cell i j → i / 2 ≠ d → j / 2 ≠ d → negMarks dim d n (matpos i j) = n (matpos i j) := by
  have hne : ∀ i j a b, Cell i j → i / 2 ≠ d → j / 2 ≠ d → (a / 2 = d ∨ b / 2 = d) →
      matpos i j ≠ matpos2 a b := by
    intro i j a b hc h1 h2 hab e
    rw [← matpos2_cell hc] at e
    have e1 := xor1_div b
    have e2 := xor1_div a
    rcases matpos2_inj e with ⟨rfl, rfl⟩ | ⟨-, rfl, rfl⟩ <;> omega
  unfold negMarks
  refine foldl_inv (fun (n' : Mem K) => NoMarks dim d n' ∧ ∀ i j, Cell i j → i / 2 ≠ d → j / 2 ≠ d →
    n' (matpos i j) = n (matpos i j)) _ _ (fun n' k hk hn => ?_) _ ?_
  · rw [List.mem_range'_1] at hk
    have hk' : k < 4 * dim := by omega
    have s1 := hn.1.set (p := matpos2 k (2 * d)) (hn.1 k (2 * d + 1) hk' (by omega) (by omega))
    refine ⟨s1.set (s1 k (2 * d) hk' (by omega) (by omega)), fun i j hc h1 h2 => ?_⟩
    rw [Mem.set_ne _ _ (hne i j k (2 * d + 1) hc h1 h2 (by omega)),
      Mem.set_ne _ _ (hne i j k (2 * d) hc h1 h2 (by omega))]
    exact hn.2 i j hc h1 h2
  · refine foldl_inv (fun (n' : Mem K) => NoMarks dim d n' ∧ ∀ i j, Cell i j → i / 2 ≠ d → j / 2 ≠ d →
      n' (matpos i j) = n (matpos i j)) _ _ (fun n' k hk hn => ?_) _ ⟨h, fun _ _ _ _ _ => rfl⟩
    rw [List.mem_range] at hk
    have hk' : k < 4 * dim := by omega
    have s1 := hn.1.set (p := matpos2 (2 * d) k) (hn.1 (2 * d + 1) k (by omega) hk' (by omega))
    refine ⟨s1.set (s1 (2 * d) k (by omega) hk' (by omega)), fun i j hc h1 h2 => ?_⟩
    rw [Mem.set_ne _ _ (hne i j (2 * d + 1) k hc h1 h2 (by omega)),
      Mem.set_ne _ _ (hne i j (2 * d) k hc h1 h2 (by omega))]
    exact hn.2 i j hc h1 h2

/-- bounds only -/
theorem gsat_sat {N : ℕ} {m n : Mem K} {y : ℕ → K} (h : GSat N (AvoT.zip m n) y) : Sat N m y :=
  fun i j hi hc => (h i j hi hc).1

theorem gsat_neg {dst : ℕ → Bound K} {dim d : ℕ} (hd : d < dim) {m n : Mem K} {x : ℕ → K} {v : K}
    (h : GSat (2 * dim) (AvoT.zip m n) x) (hn : NoMarks dim d n) (hv : InD dst 0 (v + x d)) :
    GSat (2 * dim) (AvoT.zip (assignNeg R dst (2 * dim) d m) (negMarks dim d n)) (Function.update x d v) := by
  intro i j hi hc
  change Ok _ (assignNeg R dst (2 * dim) d m (matpos i j), negMarks dim d n (matpos i j))
  obtain ⟨s1, s2⟩ := negMarks_spec hd hn
  have hj : j < 4 * dim := by unfold Cell at hc; omega
  have hb := assignNeg_sat R (show d < 2 * dim by omega) (gsat_sat h) hv i j hi hc
  by_cases t : i / 2 = d ∨ j / 2 = d
  · rw [← matpos2_cell hc, s1 i j (by omega) hj t, matpos2_cell hc]
    exact ⟨hb, fun e => absurd rfl e⟩
  · push Not at t
    rw [s2 i j hc t.1 t.2]
    have h1 : Ok (V x j - V x i) (m (matpos i j), n (matpos i j)) := h i j hi hc
    rw [assignNeg_cell R dst (show d < 2 * dim by omega) m hi hc]
    rw [if_neg (by omega), if_neg (by omega), if_neg (by omega), V_upd, V_upd, if_neg t.1, if_neg t.2]
    exact h1

/-! ### the other cases, with the marks of `X` forgotten -/

/-- `X <- [-a,b]` -/
theorem gsat_zero {dst : ℕ → Bound K} {dim d : ℕ} (hd : d < dim) {m n : Mem K} {y : ℕ → K}
    (h : GSat (2 * dim) (AvoT.zip (Avo.forgetVar dim m d) (Avo.forgetVar dim n d)) y)
    (hv : InD dst 0 (y d)) :
    GSat (2 * dim) (AvoT.zip (((Avo.forgetVar dim m d).set (matpos (2 * d) (2 * d + 1)) (mul2 R (dst 0))).set
      (matpos (2 * d + 1) (2 * d)) (mul2 R (dst 1))) (Avo.forgetVar dim n d)) y := by
  rw [← matpos2_cell (cell_un d).1, ← matpos2_cell (cell_un d).2]
  refine gsat_set (gsat_set h ?_ ?_) ?_ ?_
  · rw [V_even, V_odd, show -y d - y d = 2 * -y d by ring]
    exact mul2_ge R hv.1
  · exact forgetVar_mark hd n (by omega) (by omega) (by omega) (by omega)
  · rw [V_even, V_odd, show y d - -y d = 2 * y d by ring]
    exact mul2_ge R hv.2
  · exact forgetVar_mark hd n (by omega) (by omega) (by omega) (by omega)

/-- `X <- +-Y + [-a,b]` -/
theorem gsat_unary {dst : ℕ → Bound K} {dim d k : ℕ} (hd : d < dim) (hk : k < 2 * dim) (hkd : k / 2 ≠ d)
    {m n : Mem K} {y : ℕ → K}
    (h : GSat (2 * dim) (AvoT.zip (Avo.forgetVar dim m d) (Avo.forgetVar dim n d)) y)
    (hv : InD dst 0 (y d - V y k)) :
    GSat (2 * dim) (AvoT.zip (((Avo.forgetVar dim m d).set (matpos2 (2 * d) k) (dst 0)).set
      (matpos2 k (2 * d)) (dst 1)) (Avo.forgetVar dim n d)) y := by
  refine gsat_set (gsat_set h ?_ ?_) ?_ ?_
  · rw [V_even, show V y k - y d = -(y d - V y k) by ring]
    exact hv.1
  · exact forgetVar_mark hd n (by omega) (by omega) (by omega) (by omega)
  · rw [V_even]
    exact hv.2
  · exact forgetVar_mark hd n (by omega) (by omega) (by omega) (by omega)

/-- a memory that differs from another one on the binary and unary constraints of `x_d` only -/
def Frame (dim d : ℕ) (b b' : Mem K) : Prop :=
  ∀ i j, Cell i j → b' (matpos i j) = b (matpos i j) ∨ (i < 2 * dim ∧ (i / 2 = d ∨ j / 2 = d) ∧ i ≠ j)

theorem Frame.set {dim d : ℕ} {b b' : Mem K} (h : Frame dim d b b') {k l : ℕ} (hk : k < 2 * dim) (hl : l < 2 * dim)
    (ht : k / 2 = d ∨ l / 2 = d) (hne : k ≠ l) (v : Bound K) : Frame dim d b (b'.set (matpos2 k l) v) := by
  intro i j hc
  by_cases e : matpos i j = matpos2 k l
  · right
    rw [← matpos2_cell hc] at e
    have e1 := xor1_div l
    have e2 := xor1_div k
    rcases matpos2_inj e with ⟨rfl, rfl⟩ | ⟨h1, rfl, rfl⟩
    · exact ⟨hk, ht, hne⟩
    · exact ⟨by omega, by omega, fun e => h1 (by rw [e])⟩
  · rw [Mem.set_ne _ _ e]
    exact h i j hc

theorem frame_upper {dst : ℕ → Bound K} {dim d : ℕ} (hd : d < dim) {acc : Acc K} {s0 s1 : Bound K}
    (hs : acc.cnt = 1 → ScratchOk s0 s1) {b b' : Mem K} (h : Frame dim d b b') :
    Frame dim d b (assignUpper R dst dim d acc s0 s1 b') := by
  unfold assignUpper
  split_ifs with e0 e1 e2 e3 e4
  · refine foldl_inv (Frame dim d b) _ _ (fun b' i hi hb => ?_) _ ?_
    · have hi : i < dim := by simpa using hi
      split_ifs with g1 g2 g3
      · exact hb
      · exact hb.set (by omega) (by omega) (by omega) (by omega) _
      · exact hb.set (by omega) (by omega) (by omega) (by omega) _
      · exact hb
    · rw [← matpos2_cell (cell_un d).1]
      exact h.set (by omega) (by omega) (by omega) (by omega) _
  · simp only [cmp_eq_zero] at e3
    exact absurd e3 (hs e1).1
  · simp only [cmp_eq_zero] at e4
    exact absurd e4 (hs e1).2
  · exact h
  · exact h
  · exact h

theorem frame_lower {dst : ℕ → Bound K} {dim d : ℕ} (hd : d < dim) {acc : Acc K} {s0 s1 : Bound K}
    (hs : acc.cnt = 1 → ScratchOk s0 s1) {b b' : Mem K} (h : Frame dim d b b') :
    Frame dim d b (assignLower R dst dim d acc s0 s1 b') := by
  unfold assignLower
  split_ifs with e0 e1 e2 e3 e4
  · refine foldl_inv (Frame dim d b) _ _ (fun b' i hi hb => ?_) _ ?_
    · have hi : i < dim := by simpa using hi
      split_ifs with g1 g2 g3
      · exact hb
      · exact hb.set (by omega) (by omega) (by omega) (by omega) _
      · exact hb.set (by omega) (by omega) (by omega) (by omega) _
      · exact hb
    · rw [← matpos2_cell (cell_un d).2]
      exact h.set (by omega) (by omega) (by omega) (by omega) _
  · simp only [cmp_eq_zero] at e3
    exact absurd e3 (hs e1).1
  · simp only [cmp_eq_zero] at e4
    exact absurd e4 (hs e1).2
  · exact h
  · exact h
  · exact h

/-- the general case; `y` are the quantities before the assignment -/
theorem gsat_gen {dst : ℕ → Bound K} {dim d : ℕ} (hd : d < dim) {m n : Mem K} {y y' : ℕ → K} {v : K}
    (hm : GSat (2 * dim) (AvoT.zip m n) y) (hf : FormVal dim dst y v) (hg : GenOk R dst dim m)
    (hk : ∀ k, k ≠ d → k ≠ d + dim → y' k = y k) (hvd : y' d = v) :
    GSat (2 * dim) (AvoT.zip (Avo.assignGen R dst dim d m) (Avo.forgetVar dim n d)) y' := by
  have hF := gsat_forget hd hm hk
  have hsub : ∀ {m : Mem K} {z z' : ℕ → K}, Sat (2 * dim) m z → (∀ k, k < dim → z' k = z k) → Sat dim m z' := by
    intro m z z' h hz i j hi hc
    have hj : j < 2 * dim := by unfold Cell at hc; omega
    rw [V_congr (hz (j / 2) (by omega)), V_congr (hz (i / 2) (by omega))]
    exact h i j (by omega) hc
  have h0 : Sat dim m y := hsub (gsat_sat hm) fun _ _ => rfl
  have hy : ∀ k, k < dim → Function.update y d v k = y' k := by
    intro k hk'
    by_cases e : k = d
    · subst e; rw [Function.update_self, hvd]
    · rw [Function.update_of_ne e, hk k e (by omega)]
  have hb : Sat dim (Avo.forgetVar dim m d) (Function.update y d v) := hsub (gsat_sat hF) hy
  have hun : UnOff d dim m (Avo.forgetVar dim m d) := by
    intro k hk1 hk2
    refine ⟨?_, ?_⟩
    · rcases forgetVar_cell hd m (show 2 * k + 1 < 4 * dim by omega) (cell_un k).1 with h | h
      · unfold Touch at h; omega
      · exact h.2
    · rcases forgetVar_cell hd m (show 2 * k < 4 * dim by omega) (cell_un k).2 with h | h
      · unfold Touch at h; omega
      · exact h.2
  unfold Avo.assignGen
  obtain ⟨h1, h2⟩ := assignUpper_sat R hd h0 hf (fun h => hg (Or.inl h)) hb hun
  have h3 := assignLower_sat R hd h0 hf (fun h => hg (Or.inr h)) h1 h2
  have hfr := frame_lower R hd (dst := dst) (fun h => hg (Or.inr h)) (frame_upper R hd (dst := dst)
    (fun h => hg (Or.inl h)) (b := Avo.forgetVar dim m d) (b' := Avo.forgetVar dim m d) fun _ _ _ => Or.inl rfl)
  intro i j hi hc
  rcases hfr i j hc with e | ⟨e1, e2, e3⟩
  · have := hF i j hi hc
    refine ⟨le_of_le_of_eq this.1 e.symm, fun hn => lt_of_lt_of_eq (this.2 hn) e.symm⟩
  · have hj : j < 2 * dim := by unfold Cell at hc; omega
    refine ⟨?_, fun hn => absurd ?_ hn⟩
    · have := h3 i j e1 hc
      rwa [V_congr (hy (j / 2) (by omega)), V_congr (hy (i / 2) (by omega))] at this
    · change Avo.forgetVar dim n d (matpos i j) = pinf
      rw [← matpos2_cell hc]
      exact forgetVar_mark hd n (by omega) (by omega) e3 e2

/-! ### the whole assignment -/

theorem ext_update {dim d : ℕ} (hd : d < dim) (x : ℕ → K) (v : K) :
    ext dim (Function.update x d v) = Function.update (Function.update (ext dim x) (d + dim) |v|) d v := by
  funext k
  by_cases h1 : k = d
  · subst h1; rw [Function.update_self]; unfold ext; rw [if_pos hd, Function.update_self]
  · rw [Function.update_of_ne h1]
    by_cases h2 : k = d + dim
    · subst h2
      rw [Function.update_self]
      unfold ext
      rw [if_neg (by omega), Nat.add_sub_cancel, Function.update_self]
    · rw [Function.update_of_ne h2]
      unfold ext
      split_ifs with h
      · rw [Function.update_of_ne h1]
      · rw [Function.update_of_ne (by omega)]

/-- the cases of `avo_hmat_assign` that are sound -/
def AssignOk (u : UExpr) (dst : ℕ → Bound K) (dim d : ℕ) (m n : Mem K) (respect : Bool) : Prop :=
  match u.type with
  | .empty => False
  | .zero => respect = false
  | .unary => (u.i ≠ d → respect = false) ∧ (u.i = d → u.coefI = -1 → NoMarks dim d n)
  | _ => GenOk R dst dim m

theorem genOk_clear {dst : ℕ → Bound K} {dim d : ℕ} (hd : d < dim) {m : Mem K} (h : GenOk R dst dim m) :
    GenOk R dst dim (clearAbs dim m d) := by
  have e : ∀ k, k < dim → clearAbs dim m d (matpos (2 * k + 1) (2 * k)) = m (matpos (2 * k + 1) (2 * k)) ∧
      clearAbs dim m d (matpos (2 * k) (2 * k + 1)) = m (matpos (2 * k) (2 * k + 1)) := by
    intro k hk
    rw [clearAbs_cell hd m (by omega) (cell_un k).1, clearAbs_cell hd m (by omega) (cell_un k).2,
      if_neg (by omega), if_neg (by omega)]
    exact ⟨rfl, rfl⟩
  have hp : ∀ k, k < dim → prodBounds R dst (clearAbs dim m d) k = prodBounds R dst m k := by
    intro k hk
    unfold prodBounds
    rw [(e k hk).1, (e k hk).2]
  have ha : ∀ (f : Bound K × Bound K → Bound K) (init : Bound K),
      accum R (fun i => f (prodBounds R dst (clearAbs dim m d) i)) dim init =
      accum R (fun i => f (prodBounds R dst m i)) dim init := by
    intro f init
    unfold accum
    refine List.foldl_ext _ _ _ fun a k hk => ?_
    simp only [hp k (by simpa using hk)]
  unfold GenOk at *
  have h1 := ha Prod.snd
  have h2 := ha Prod.fst
  rw [h1, h2, (e (dim - 1) (by omega)).1, (e (dim - 1) (by omega)).2]
  exact h

theorem noMarks_clear {dim d : ℕ} (hd : d < dim) {n : Mem K} (h : NoMarks dim d n) :
    NoMarks dim d (clearAbs dim n d) := by
  intro i j hi hj ht
  unfold clearAbs
  rw [setAll_apply]
  split_ifs
  · rfl
  · exact h i j hi hj ht

/-- soundness of `avo_hmat_assign` in these cases -/
theorem hmatAssign_ssat {dim d : ℕ} (hd : d < dim) {u : UExpr} {dst : ℕ → Bound K} {m n : Mem K} {x : ℕ → K}
    {v : K} (hm : SSat dim (AvoT.zip m n) x) (hcl : ClassOk (fun i => i < dim) u dst) (hf : FormVal dim dst x v)
    {respect : Bool} (hok : AssignOk R u dst dim d m n respect) :
    SSat dim (Avo.hmatAssign R alg u dst dim d m n respect) (Function.update x d v) := by
  unfold SSat at *
  rw [ext_update hd]
  set y := Function.update (ext dim x) (d + dim) |v| with hy
  have hC : GSat (2 * dim) (AvoT.zip (clearAbs dim m d) (clearAbs dim n d)) y :=
    gsat_clear hd hm fun k hk => by rw [hy, Function.update_of_ne hk]
  have hyx : ∀ k, k < dim → y k = x k := fun k hk => by
    rw [hy, Function.update_of_ne (by omega)]; unfold ext; rw [if_pos hk]
  have hF := gsat_forget hd hC (y' := Function.update y d v) fun k h1 _ => Function.update_of_ne h1 _ _
  have hf' : FormVal dim dst y v := by
    obtain ⟨c0, c, h0, h1, h2⟩ := hf
    refine ⟨c0, c, h0, h1, h2.trans ?_⟩
    congr 1
    exact Finset.sum_congr rfl fun j hj => by rw [hyx j (Finset.mem_range.1 hj)]
  unfold Avo.hmatAssign
  unfold ClassOk at hcl
  unfold AssignOk at hok
  cases ht : u.type with
  | empty => rw [ht] at hok; exact hok.elim
  | zero =>
    rw [ht] at hcl hok
    subst hok
    rw [if_pos rfl]
    exact gsat_zero R hd hF (by rw [Function.update_self]; exact (formVal_zero hcl).1 hf)
  | unary =>
    rw [ht] at hcl hok
    obtain ⟨hi, hu, hz⟩ := hcl
    have hv := (formVal_unary hi hu hz).1 hf'
    rw [if_neg (by simp)]
    by_cases e : u.i = d
    · rw [if_neg (by simp [e])]
      rw [V_signed y u.i hu.1, e] at hv
      rcases hu.1 with h1 | h1
      · rw [if_neg (by simp [h1]), if_pos ⟨rfl, h1⟩]
        exact gsat_shift R (by omega) hC (by rw [h1] at hv; simpa using hv)
      · rw [if_pos ⟨rfl, h1⟩]
        exact gsat_neg R hd hC (noMarks_clear hd (hok.2 e h1)) (by rw [h1] at hv; simpa using hv)
    · rw [if_pos ⟨rfl, e⟩]
      have hr := hok.1 e
      subst hr
      have hkd : signed u.i u.coefI / 2 = u.i := signed_div _ _
      refine gsat_unary hd (signed_lt _ hi) (by omega) hF ?_
      rw [Function.update_self, V_congr (Function.update_of_ne (by omega) _ _)]
      exact hv
  | binary =>
    rw [ht] at hok
    rw [if_neg (by simp), if_neg (by simp), if_neg (by simp), if_neg (by simp)]
    exact gsat_gen R hd hC hf' (genOk_clear R hd hok) (fun k h1 _ => Function.update_of_ne h1 _ _)
      (Function.update_self _ _ _)
  | other =>
    rw [ht] at hok
    rw [if_neg (by simp), if_neg (by simp), if_neg (by simp), if_neg (by simp)]
    exact gsat_gen R hd hC hf' (genOk_clear R hd hok) (fun k h1 _ => Function.update_of_ne h1 _ _)
      (Function.update_self _ _ _)

end Avo
end Apron
