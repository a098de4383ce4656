import Verif.Oct.AddLincons

/-! # Helper lemmas: assignments on matrices -/

set_option autoImplicit false
set_option linter.unusedSectionVars false
set_option linter.ambiguousOpen false

namespace Apron
namespace Oct
open Bound Finset
variable {K : Type*} [LinearOrder K] [Field K] [IsStrictOrderedRing K] (R : Rnd K)

/-- a loop writing two fresh positions per iteration -/
theorem foldl_cells (p q : ℕ → ℕ) (step : Mem K → ℕ → Mem K) (F H : ℕ → Mem K → Bound K)
    (L : List ℕ) : ∀ (b : Mem K), L.Nodup →
    (∀ b k, k ∈ L → step b k (p k) = F k b ∧ step b k (q k) = H k b ∧
      ∀ r, r ≠ p k → r ≠ q k → step b k r = b r) →
    (∀ k k', k ∈ L → k' ∈ L → k ≠ k' → p k ≠ p k' ∧ p k ≠ q k' ∧ q k ≠ p k' ∧ q k ≠ q k') →
    (∀ b b' k, k ∈ L → (∀ r, (∀ k' ∈ L, k' ≠ k → r ≠ p k' ∧ r ≠ q k') → b r = b' r) →
      F k b = F k b' ∧ H k b = H k b') →
    (∀ k ∈ L, L.foldl step b (p k) = F k b ∧ L.foldl step b (q k) = H k b) ∧
    ∀ r, (∀ k ∈ L, r ≠ p k ∧ r ≠ q k) → L.foldl step b r = b r := by
  induction L with
  | nil => intro b _ _ _ _; simp
  | cons k L ih =>
    intro b hn hstep hd hF
    rw [List.nodup_cons] at hn
    obtain ⟨s1, s2, s3⟩ := hstep b k (by simp)
    obtain ⟨i1, i2⟩ := ih (step b k) hn.2 (fun b k' hk' => hstep b k' (by simp [hk']))
      (fun k1 k2 h1 h2 => hd k1 k2 (by simp [h1]) (by simp [h2]))
      (fun b b' k' hk' h => hF b b' k' (by simp [hk']) fun r hr => h r fun k'' hk'' hne =>
        hr k'' (by simp [hk'']) hne)
    have hne : ∀ k' ∈ L, k ≠ k' := fun k' hk' e => hn.1 (e ▸ hk')
    refine ⟨fun k' hk' => ?_, fun r hr => ?_⟩
    · rw [List.foldl_cons]
      rcases List.mem_cons.1 hk' with rfl | hk'
      · rw [i2 _ fun k'' hk'' => ⟨(hd k' k'' (by simp) (by simp [hk'']) (hne _ hk'')).1,
          (hd k' k'' (by simp) (by simp [hk'']) (hne _ hk'')).2.1⟩,
          i2 _ fun k'' hk'' => ⟨(hd k' k'' (by simp) (by simp [hk'']) (hne _ hk'')).2.2.1,
          (hd k' k'' (by simp) (by simp [hk'']) (hne _ hk'')).2.2.2⟩]
        exact ⟨s1, s2⟩
      · obtain ⟨j1, j2⟩ := i1 k' hk'
        rw [j1, j2]
        refine hF _ _ k' (by simp [hk']) fun r hr => ?_
        obtain ⟨r1, r2⟩ := hr k (by simp) (hne _ hk')
        exact s3 r r1 r2
    · rw [List.foldl_cons, i2 r fun k' hk' => hr k' (by simp [hk'])]
      exact s3 r (hr k (by simp)).1 (hr k (by simp)).2

/-- the value read by an iteration for `k` depends only on its own two cells and on the cells that
do not involve `d` -/
def Local (d : ℕ) (p q : ℕ) (F : Mem K → Bound K) : Prop :=
  ∀ b b' : Mem K, (∀ i j, Cell i j → i / 2 ≠ d → j / 2 ≠ d → b (matpos i j) = b' (matpos i j)) →
    b p = b' p → b q = b' q → F b = F b'

theorem rowLoop (d : ℕ) (step : Mem K → ℕ → Mem K) (F H : ℕ → Mem K → Bound K) (b : Mem K)
    (hstep : ∀ b k, k < 2 * d → step b k (matpos (2 * d) k) = F k b ∧
      step b k (matpos (2 * d + 1) k) = H k b ∧
      ∀ r, r ≠ matpos (2 * d) k → r ≠ matpos (2 * d + 1) k → step b k r = b r)
    (hF : ∀ k, k < 2 * d → Local d (matpos (2 * d) k) (matpos (2 * d + 1) k) (F k) ∧
      Local d (matpos (2 * d) k) (matpos (2 * d + 1) k) (H k)) :
    (∀ k, k < 2 * d → (List.range (2 * d)).foldl step b (matpos (2 * d) k) = F k b ∧
      (List.range (2 * d)).foldl step b (matpos (2 * d + 1) k) = H k b) ∧
    ∀ i j, Cell i j → ¬ (i / 2 = d ∧ j / 2 < d) →
      (List.range (2 * d)).foldl step b (matpos i j) = b (matpos i j) := by
  have hc : ∀ k, k < 2 * d → Cell (2 * d) k ∧ Cell (2 * d + 1) k := fun k hk => by unfold Cell; omega
  have hd : ∀ k k', k < 2 * d → k' < 2 * d → k ≠ k' → matpos (2 * d) k ≠ matpos (2 * d) k' ∧
      matpos (2 * d) k ≠ matpos (2 * d + 1) k' ∧ matpos (2 * d + 1) k ≠ matpos (2 * d) k' ∧
      matpos (2 * d + 1) k ≠ matpos (2 * d + 1) k' := by
    intro k k' hk hk' hne
    refine ⟨?_, ?_, ?_, ?_⟩ <;> intro e
    · have := matpos_inj (hc k hk).1 (hc k' hk').1 e; omega
    · have := matpos_inj (hc k hk).1 (hc k' hk').2 e; omega
    · have := matpos_inj (hc k hk).2 (hc k' hk').1 e; omega
    · have := matpos_inj (hc k hk).2 (hc k' hk').2 e; omega
  obtain ⟨h1, h2⟩ := foldl_cells (matpos (2 * d)) (matpos (2 * d + 1)) step F H (List.range (2 * d)) b
    List.nodup_range (fun b k hk => hstep b k (by simpa using hk))
    (fun k k' hk hk' => hd k k' (by simpa using hk) (by simpa using hk'))
    (fun b b' k hk h => by
      have hk : k < 2 * d := by simpa using hk
      have a1 : ∀ i j, Cell i j → i / 2 ≠ d → j / 2 ≠ d → b (matpos i j) = b' (matpos i j) := by
        intro i j hij hi _
        refine h _ fun k' hk' _ => ?_
        have hk' : k' < 2 * d := by simpa using hk'
        refine ⟨?_, ?_⟩ <;> intro e
        · have := matpos_inj hij (hc k' hk').1 e; omega
        · have := matpos_inj hij (hc k' hk').2 e; omega
      have a2 : b (matpos (2 * d) k) = b' (matpos (2 * d) k) := h _ fun k' hk' hne => by
        have := hd k k' hk (by simpa using hk') hne.symm
        exact ⟨this.1, this.2.1⟩
      have a3 : b (matpos (2 * d + 1) k) = b' (matpos (2 * d + 1) k) := h _ fun k' hk' hne => by
        have := hd k k' hk (by simpa using hk') hne.symm
        exact ⟨this.2.2.1, this.2.2.2⟩
      exact ⟨(hF k hk).1 b b' a1 a2 a3, (hF k hk).2 b b' a1 a2 a3⟩)
  refine ⟨fun k hk => h1 k (by simpa using hk), fun i j hij hno => h2 _ fun k hk => ?_⟩
  have hk : k < 2 * d := by simpa using hk
  refine ⟨?_, ?_⟩ <;> intro e
  · have := matpos_inj hij (hc k hk).1 e; omega
  · have := matpos_inj hij (hc k hk).2 e; omega

theorem colLoop2 (d dim : ℕ) (step : Mem K → ℕ → Mem K) (F H : ℕ → Mem K → Bound K) (b : Mem K)
    (hstep : ∀ b k, 2 * d + 2 ≤ k → k < 2 * dim → step b k (matpos k (2 * d)) = F k b ∧
      step b k (matpos k (2 * d + 1)) = H k b ∧
      ∀ r, r ≠ matpos k (2 * d) → r ≠ matpos k (2 * d + 1) → step b k r = b r)
    (hF : ∀ k, 2 * d + 2 ≤ k → k < 2 * dim → Local d (matpos k (2 * d)) (matpos k (2 * d + 1)) (F k) ∧
      Local d (matpos k (2 * d)) (matpos k (2 * d + 1)) (H k)) :
    (∀ k, 2 * d + 2 ≤ k → k < 2 * dim →
      (List.range' (2 * d + 2) (2 * dim - (2 * d + 2))).foldl step b (matpos k (2 * d)) = F k b ∧
      (List.range' (2 * d + 2) (2 * dim - (2 * d + 2))).foldl step b (matpos k (2 * d + 1)) = H k b) ∧
    ∀ i j, i < 2 * dim → Cell i j → ¬ (j / 2 = d ∧ d < i / 2) →
      (List.range' (2 * d + 2) (2 * dim - (2 * d + 2))).foldl step b (matpos i j) = b (matpos i j) := by
  have hm : ∀ k, k ∈ List.range' (2 * d + 2) (2 * dim - (2 * d + 2)) ↔ 2 * d + 2 ≤ k ∧ k < 2 * dim := by
    intro k; rw [List.mem_range'_1]; omega
  have hc : ∀ k, 2 * d + 2 ≤ k → Cell k (2 * d) ∧ Cell k (2 * d + 1) := fun k hk => by unfold Cell; omega
  have hd : ∀ k k', 2 * d + 2 ≤ k → 2 * d + 2 ≤ k' → k ≠ k' → matpos k (2 * d) ≠ matpos k' (2 * d) ∧
      matpos k (2 * d) ≠ matpos k' (2 * d + 1) ∧ matpos k (2 * d + 1) ≠ matpos k' (2 * d) ∧
      matpos k (2 * d + 1) ≠ matpos k' (2 * d + 1) := by
    intro k k' hk hk' hne
    refine ⟨?_, ?_, ?_, ?_⟩ <;> intro e
    · have := matpos_inj (hc k hk).1 (hc k' hk').1 e; omega
    · have := matpos_inj (hc k hk).1 (hc k' hk').2 e; omega
    · have := matpos_inj (hc k hk).2 (hc k' hk').1 e; omega
    · have := matpos_inj (hc k hk).2 (hc k' hk').2 e; omega
  obtain ⟨h1, h2⟩ := foldl_cells (fun k => matpos k (2 * d)) (fun k => matpos k (2 * d + 1)) step F H
    (List.range' (2 * d + 2) (2 * dim - (2 * d + 2))) b
    List.nodup_range' (fun b k hk => hstep b k ((hm k).1 hk).1 ((hm k).1 hk).2)
    (fun k k' hk hk' => hd k k' ((hm k).1 hk).1 ((hm k').1 hk').1)
    (fun b b' k hk h => by
      have hk := (hm k).1 hk
      have a1 : ∀ i j, Cell i j → i / 2 ≠ d → j / 2 ≠ d → b (matpos i j) = b' (matpos i j) := by
        intro i j hij _ hj
        refine h _ fun k' hk' _ => ?_
        have hk' := (hm k').1 hk'
        refine ⟨?_, ?_⟩ <;> intro e
        · have := matpos_inj hij (hc k' hk'.1).1 e; omega
        · have := matpos_inj hij (hc k' hk'.1).2 e; omega
      have a2 : b (matpos k (2 * d)) = b' (matpos k (2 * d)) := h _ fun k' hk' hne => by
        have := hd k k' hk.1 ((hm k').1 hk').1 hne.symm
        exact ⟨this.1, this.2.1⟩
      have a3 : b (matpos k (2 * d + 1)) = b' (matpos k (2 * d + 1)) := h _ fun k' hk' hne => by
        have := hd k k' hk.1 ((hm k').1 hk').1 hne.symm
        exact ⟨this.2.2.1, this.2.2.2⟩
      exact ⟨(hF k hk.1 hk.2).1 b b' a1 a2 a3, (hF k hk.1 hk.2).2 b b' a1 a2 a3⟩)
  refine ⟨fun k hk hk' => h1 k ((hm k).2 ⟨hk, hk'⟩), fun i j hi hij hno => h2 _ fun k hk => ?_⟩
  have hk := (hm k).1 hk
  refine ⟨?_, ?_⟩ <;> intro e
  · have := matpos_inj hij (hc k hk.1).1 e; omega
  · have := matpos_inj hij (hc k hk.1).2 e; omega

/-- the stored bound used for row `i` of the assigned dimension -/
def rr (dst : ℕ → Bound K) (i : ℕ) : Bound K := dst (i % 2)
/-- the stored bound used for column `j` of the assigned dimension -/
def ss (dst : ℕ → Bound K) (j : ℕ) : Bound K := dst (1 - j % 2)

theorem set2_step (b : Mem K) {p q : ℕ} (hpq : p ≠ q) (v w : Bound K) :
    (b.set p v).set q w p = v ∧ (b.set p v).set q w q = w ∧
      ∀ r, r ≠ p → r ≠ q → (b.set p v).set q w r = b r := by
  refine ⟨?_, Mem.set_self _ _ _, fun r h1 h2 => ?_⟩
  · rw [Mem.set_ne _ _ hpq, Mem.set_self]
  · rw [Mem.set_ne _ _ h2, Mem.set_ne _ _ h1]

theorem row_ne {d k : ℕ} (hk : k < 2 * d) : matpos (2 * d) k ≠ matpos (2 * d + 1) k := fun e => by
  have := matpos_inj (i := 2 * d) (j := k) (i' := 2 * d + 1) (j' := k) (by unfold Cell; omega)
    (by unfold Cell; omega) e
  omega
theorem col_ne {d k : ℕ} (hk : 2 * d + 2 ≤ k) : matpos k (2 * d) ≠ matpos k (2 * d + 1) := fun e => by
  have := matpos_inj (i := k) (j := 2 * d) (i' := k) (j' := 2 * d + 1) (by unfold Cell; omega)
    (by unfold Cell; omega) e
  omega

theorem assignZeroClosed_cell (dst : ℕ → Bound K) {dim d : ℕ} (m : Mem K) {i j : ℕ}
    (hi : i < 2 * dim) (hc : Cell i j) :
    assignZeroClosed R dst dim d m (matpos i j) =
      if i / 2 = d ∧ j / 2 < d then add R (div2 R (m (matpos (j ^^^ 1) j))) (rr dst i)
      else if j / 2 = d ∧ d < i / 2 then add R (div2 R (m (matpos i (i ^^^ 1)))) (ss dst j)
      else m (matpos i j) := by
  unfold assignZeroClosed
  set m1 := (List.range (2 * d)).foldl _ m with hm1
  obtain ⟨r1, r2⟩ := rowLoop d (fun (m : Mem K) k =>
    (m.set (matpos (2 * d) k) (add R (div2 R (m (matpos (k ^^^ 1) k))) (dst 0))).set (matpos (2 * d + 1) k)
      (add R (div2 R (m (matpos (k ^^^ 1) k))) (dst 1)))
    (fun k m => add R (div2 R (m (matpos (k ^^^ 1) k))) (dst 0))
    (fun k m => add R (div2 R (m (matpos (k ^^^ 1) k))) (dst 1)) m
    (fun b k hk => set2_step b (row_ne hk) _ _)
    (fun k hk => by
      have hd := xor1_div k
      refine ⟨?_, ?_⟩ <;> intro b b' h _ _ <;> simp only <;>
        rw [h (k ^^^ 1) k (cell_xor_self k) (by omega) (by omega)])
  change (∀ k, k < 2 * d → m1 (matpos (2 * d) k) = _ ∧ m1 (matpos (2 * d + 1) k) = _) at r1
  change ∀ i j, Cell i j → _ → m1 (matpos i j) = _ at r2
  obtain ⟨c1, c2⟩ := colLoop2 d dim (fun (m : Mem K) k =>
    (m.set (matpos k (2 * d)) (add R (div2 R (m (matpos k (k ^^^ 1)))) (dst 1))).set (matpos k (2 * d + 1))
      (add R (div2 R (m (matpos k (k ^^^ 1)))) (dst 0)))
    (fun k m => add R (div2 R (m (matpos k (k ^^^ 1)))) (dst 1))
    (fun k m => add R (div2 R (m (matpos k (k ^^^ 1)))) (dst 0)) m1
    (fun b k hk _ => set2_step b (col_ne hk) _ _)
    (fun k hk _ => by
      have hd := xor1_div k
      refine ⟨?_, ?_⟩ <;> intro b b' h _ _ <;> simp only <;>
        rw [h k (k ^^^ 1) (cell_self_xor k) (by omega) (by omega)])
  have hdi := xor1_div i
  by_cases e2 : j / 2 = d ∧ d < i / 2
  · rw [if_neg (by omega), if_pos e2]
    have hu := r2 i (i ^^^ 1) (cell_self_xor i) (by omega)
    obtain ⟨k1, k2⟩ := c1 i (by omega) hi
    unfold ss
    rcases Nat.mod_two_eq_zero_or_one j with hj | hj
    · have : j = 2 * d := by omega
      subst this
      rw [hj, k1, hu]
    · have : j = 2 * d + 1 := by omega
      subst this
      rw [hj, k2, hu]
  · rw [if_neg e2]
    have := c2 i j hi hc e2
    rw [this]
    by_cases e1 : i / 2 = d ∧ j / 2 < d
    · rw [if_pos e1]
      obtain ⟨k1, k2⟩ := r1 j (by omega)
      unfold rr
      rcases Nat.mod_two_eq_zero_or_one i with hi | hi
      · have : i = 2 * d := by omega
        subst this
        rw [hi, k1]
      · have : i = 2 * d + 1 := by omega
        subst this
        rw [hi, k2]
    · rw [if_neg e1, r2 i j hc e1]

/-- exchange of the two indices of dimension `d` -/
def sw (d i : ℕ) : ℕ := if i / 2 = d then i ^^^ 1 else i

theorem unary_ne (d : ℕ) : matpos (2 * d + 1) (2 * d) ≠ matpos (2 * d) (2 * d + 1) := fun e => by
  have := matpos_inj (cell_un d).1 (cell_un d).2 e; omega

theorem matpos_ne {i j k l : ℕ} (h : Cell i j) (h' : Cell k l) (hne : ¬ (i = k ∧ j = l)) :
    matpos i j ≠ matpos k l := fun e => hne (matpos_inj h h' e)

theorem assignNeg_cell (dst : ℕ → Bound K) {dim d : ℕ} (hd : d < dim) (m : Mem K) {i j : ℕ}
    (hi : i < 2 * dim) (hc : Cell i j) :
    assignNeg R dst dim d m (matpos i j) =
      if i / 2 = d ∧ j / 2 < d then add R (m (matpos (i ^^^ 1) j)) (rr dst i)
      else if j / 2 = d ∧ d < i / 2 then add R (m (matpos i (j ^^^ 1))) (ss dst j)
      else if i / 2 = d ∧ j = i ^^^ 1 then add R (m (matpos j i)) (mul2 R (rr dst i))
      else m (matpos i j) := by
  unfold assignNeg
  set m1 := (List.range (2 * d)).foldl _ m with hm1
  obtain ⟨r1, r2⟩ := rowLoop d (fun (m : Mem K) k =>
    (m.set (matpos (2 * d) k) (add R (m (matpos (2 * d + 1) k)) (dst 0))).set (matpos (2 * d + 1) k)
      (add R (m (matpos (2 * d) k)) (dst 1)))
    (fun k m => add R (m (matpos (2 * d + 1) k)) (dst 0))
    (fun k m => add R (m (matpos (2 * d) k)) (dst 1)) m
    (fun b k hk => set2_step b (row_ne hk) _ _)
    (fun k hk => by refine ⟨?_, ?_⟩ <;> intro b b' _ h1 h2 <;> simp only [h1, h2])
  change (∀ k, k < 2 * d → m1 (matpos (2 * d) k) = _ ∧ m1 (matpos (2 * d + 1) k) = _) at r1
  change ∀ i j, Cell i j → _ → m1 (matpos i j) = _ at r2
  set m2 := (List.range' (2 * d + 2) (2 * dim - (2 * d + 2))).foldl _ m1 with hm2
  obtain ⟨c1, c2⟩ := colLoop2 d dim (fun (m : Mem K) k =>
    (m.set (matpos k (2 * d)) (add R (m (matpos k (2 * d + 1))) (dst 1))).set (matpos k (2 * d + 1))
      (add R (m (matpos k (2 * d))) (dst 0)))
    (fun k m => add R (m (matpos k (2 * d + 1))) (dst 1))
    (fun k m => add R (m (matpos k (2 * d))) (dst 0)) m1
    (fun b k hk _ => set2_step b (col_ne hk) _ _)
    (fun k hk _ => by refine ⟨?_, ?_⟩ <;> intro b b' _ h1 h2 <;> simp only [h1, h2])
  change (∀ k, 2 * d + 2 ≤ k → k < 2 * dim → m2 (matpos k (2 * d)) = _ ∧ m2 (matpos k (2 * d + 1)) = _) at c1
  change ∀ i j, i < 2 * dim → Cell i j → _ → m2 (matpos i j) = _ at c2
  have u1 : m2 (matpos (2 * d + 1) (2 * d)) = m (matpos (2 * d + 1) (2 * d)) := by
    rw [c2 _ _ (by omega) (cell_un d).1 (by omega), r2 _ _ (cell_un d).1 (by omega)]
  have u2 : m2 (matpos (2 * d) (2 * d + 1)) = m (matpos (2 * d) (2 * d + 1)) := by
    rw [c2 _ _ (by omega) (cell_un d).2 (by omega), r2 _ _ (cell_un d).2 (by omega)]
  rw [u1, u2]
  by_cases e3 : i / 2 = d ∧ j = i ^^^ 1
  · have hdi := xor1_div i
    rw [if_neg (by omega), if_neg (by omega), if_pos e3]
    unfold rr
    rcases Nat.mod_two_eq_zero_or_one i with hi' | hi'
    · have : i = 2 * d := by omega
      subst this
      rw [hi', e3.2, xor1_even, Mem.set_self]
    · have : i = 2 * d + 1 := by omega
      subst this
      rw [hi', e3.2, xor1_odd, Mem.set_ne _ _ (unary_ne d), Mem.set_self]
  · rw [if_neg e3]
    have n1 : matpos i j ≠ matpos (2 * d) (2 * d + 1) := matpos_ne hc (cell_un d).2 fun e => e3
      ⟨by omega, by rw [e.1, e.2, xor1_even]⟩
    have n2 : matpos i j ≠ matpos (2 * d + 1) (2 * d) := matpos_ne hc (cell_un d).1 fun e => e3
      ⟨by omega, by rw [e.1, e.2, xor1_odd]⟩
    rw [Mem.set_ne _ _ n1, Mem.set_ne _ _ n2]
    by_cases e2 : j / 2 = d ∧ d < i / 2
    · rw [if_neg (by omega), if_pos e2]
      obtain ⟨k1, k2⟩ := c1 i (by omega) hi
      unfold ss
      rcases Nat.mod_two_eq_zero_or_one j with hj | hj
      · have : j = 2 * d := by omega
        subst this
        rw [hj, k1, xor1_even, r2 i (2 * d + 1) (by unfold Cell; omega) (by omega)]
      · have : j = 2 * d + 1 := by omega
        subst this
        rw [hj, k2, xor1_odd, r2 i (2 * d) (by unfold Cell; omega) (by omega)]
    · rw [if_neg e2, c2 i j hi hc e2]
      by_cases e1 : i / 2 = d ∧ j / 2 < d
      · rw [if_pos e1]
        obtain ⟨k1, k2⟩ := r1 j (by omega)
        unfold rr
        rcases Nat.mod_two_eq_zero_or_one i with hi | hi
        · have : i = 2 * d := by omega
          subst this
          rw [hi, k1, xor1_even]
        · have : i = 2 * d + 1 := by omega
          subst this
          rw [hi, k2, xor1_odd]
      · rw [if_neg e1, r2 i j hc e1]

theorem assignShift_cell (dst : ℕ → Bound K) {dim d : ℕ} (hd : d < dim) (m : Mem K) {i j : ℕ}
    (hi : i < 2 * dim) (hc : Cell i j) :
    assignShift R dst dim d m (matpos i j) =
      if i / 2 = d ∧ j / 2 < d then add R (m (matpos i j)) (rr dst i)
      else if j / 2 = d ∧ d < i / 2 then add R (m (matpos i j)) (ss dst j)
      else if i / 2 = d ∧ j = i ^^^ 1 then add R (m (matpos i j)) (mul2 R (rr dst i))
      else m (matpos i j) := by
  unfold assignShift
  have hset : ∀ (m : Mem K) {p q : ℕ}, p ≠ q → ∀ v, (m.set p v) q = m q :=
    fun m p q h v => Mem.set_ne _ _ h.symm
  set m1 := (List.range (2 * d)).foldl _ m with hm1
  obtain ⟨r1, r2⟩ := rowLoop d (fun (m : Mem K) k =>
    (m.set (matpos (2 * d) k) (add R (m (matpos (2 * d) k)) (dst 0))).set (matpos (2 * d + 1) k)
      (add R ((m.set (matpos (2 * d) k) (add R (m (matpos (2 * d) k)) (dst 0))) (matpos (2 * d + 1) k)) (dst 1)))
    (fun k m => add R (m (matpos (2 * d) k)) (dst 0))
    (fun k m => add R (m (matpos (2 * d + 1) k)) (dst 1)) m
    (fun b k hk => by
      have := set2_step b (row_ne hk) (add R (b (matpos (2 * d) k)) (dst 0))
        (add R (b (matpos (2 * d + 1) k)) (dst 1))
      rw [hset b (row_ne hk)]
      exact this)
    (fun k hk => by refine ⟨?_, ?_⟩ <;> intro b b' _ h1 h2 <;> simp only [h1, h2])
  change (∀ k, k < 2 * d → m1 (matpos (2 * d) k) = _ ∧ m1 (matpos (2 * d + 1) k) = _) at r1
  change ∀ i j, Cell i j → _ → m1 (matpos i j) = _ at r2
  set m2 := (List.range' (2 * d + 2) (2 * dim - (2 * d + 2))).foldl _ m1 with hm2
  obtain ⟨c1, c2⟩ := colLoop2 d dim (fun (m : Mem K) k =>
    (m.set (matpos k (2 * d)) (add R (m (matpos k (2 * d))) (dst 1))).set (matpos k (2 * d + 1))
      (add R ((m.set (matpos k (2 * d)) (add R (m (matpos k (2 * d))) (dst 1))) (matpos k (2 * d + 1))) (dst 0)))
    (fun k m => add R (m (matpos k (2 * d))) (dst 1))
    (fun k m => add R (m (matpos k (2 * d + 1))) (dst 0)) m1
    (fun b k hk _ => by
      have := set2_step b (col_ne hk) (add R (b (matpos k (2 * d))) (dst 1))
        (add R (b (matpos k (2 * d + 1))) (dst 0))
      rw [hset b (col_ne hk)]
      exact this)
    (fun k hk _ => by refine ⟨?_, ?_⟩ <;> intro b b' _ h1 h2 <;> simp only [h1, h2])
  change (∀ k, 2 * d + 2 ≤ k → k < 2 * dim → m2 (matpos k (2 * d)) = _ ∧ m2 (matpos k (2 * d + 1)) = _) at c1
  change ∀ i j, i < 2 * dim → Cell i j → _ → m2 (matpos i j) = _ at c2
  have u1 : m2 (matpos (2 * d + 1) (2 * d)) = m (matpos (2 * d + 1) (2 * d)) := by
    rw [c2 _ _ (by omega) (cell_un d).1 (by omega), r2 _ _ (cell_un d).1 (by omega)]
  have u2 : m2 (matpos (2 * d) (2 * d + 1)) = m (matpos (2 * d) (2 * d + 1)) := by
    rw [c2 _ _ (by omega) (cell_un d).2 (by omega), r2 _ _ (cell_un d).2 (by omega)]
  rw [hset m2 (unary_ne d), u1, u2]
  by_cases e3 : i / 2 = d ∧ j = i ^^^ 1
  · have hdi := xor1_div i
    rw [if_neg (by omega), if_neg (by omega), if_pos e3]
    unfold rr
    rcases Nat.mod_two_eq_zero_or_one i with hi' | hi'
    · have : i = 2 * d := by omega
      subst this
      rw [hi', e3.2, xor1_even, Mem.set_self]
    · have : i = 2 * d + 1 := by omega
      subst this
      rw [hi', e3.2, xor1_odd, Mem.set_ne _ _ (unary_ne d), Mem.set_self]
  · rw [if_neg e3]
    have n1 : matpos i j ≠ matpos (2 * d) (2 * d + 1) := matpos_ne hc (cell_un d).2 fun e => e3
      ⟨by omega, by rw [e.1, e.2, xor1_even]⟩
    have n2 : matpos i j ≠ matpos (2 * d + 1) (2 * d) := matpos_ne hc (cell_un d).1 fun e => e3
      ⟨by omega, by rw [e.1, e.2, xor1_odd]⟩
    rw [Mem.set_ne _ _ n1, Mem.set_ne _ _ n2]
    by_cases e2 : j / 2 = d ∧ d < i / 2
    · rw [if_neg (by omega), if_pos e2]
      obtain ⟨k1, k2⟩ := c1 i (by omega) hi
      unfold ss
      rcases Nat.mod_two_eq_zero_or_one j with hj | hj
      · have : j = 2 * d := by omega
        subst this
        rw [hj, k1, r2 i (2 * d) (by unfold Cell; omega) (by omega)]
      · have : j = 2 * d + 1 := by omega
        subst this
        rw [hj, k2, r2 i (2 * d + 1) (by unfold Cell; omega) (by omega)]
    · rw [if_neg e2, c2 i j hi hc e2]
      by_cases e1 : i / 2 = d ∧ j / 2 < d
      · rw [if_pos e1]
        obtain ⟨k1, k2⟩ := r1 j (by omega)
        unfold rr
        rcases Nat.mod_two_eq_zero_or_one i with hi | hi
        · have : i = 2 * d := by omega
          subst this
          rw [hi, k1]
        · have : i = 2 * d + 1 := by omega
          subst this
          rw [hi, k2]
      · rw [if_neg e1, r2 i j hc e1]

end Oct
end Apron
