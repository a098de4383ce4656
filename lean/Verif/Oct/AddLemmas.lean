import Verif.Oct.FormLemmas
import Verif.Oct.NoNinf

/-! # Helper lemmas: adding linear constraints to an octagon -/

set_option autoImplicit false
set_option linter.unusedSectionVars false
set_option linter.ambiguousOpen false

namespace Apron
namespace Oct
open Bound Finset
variable {K : Type*} [LinearOrder K] [Field K] [IsStrictOrderedRing K] (R : Rnd K)

/-! ### products of intervals -/

theorem mul_corner {a b b' : Bound K} {y c : K} (ha : fin y ≤ a) (hc : 0 ≤ c) (hb : fin c ≤ b)
    (hb' : fin (-c) ≤ b') : fin (y * c) ≤ mul R a b ∨ fin (y * c) ≤ mul R (neg a) b' := by
  by_cases h0 : fin 0 ≤ a
  · exact Or.inl (mul_ge R h0 ha hc hb)
  · right
    cases a with
    | ninf => simp at ha
    | pinf => simp at h0
    | fin A =>
      simp only [fin_le_fin, not_le] at ha h0
      have hAc : fin (y * c) ≤ fin (A * c) := by
        rw [fin_le_fin]; exact mul_le_mul_of_nonneg_right ha hc
      refine le_trans hAc ?_
      have hA : (0 : K) ≤ -A := by linarith
      by_cases hb0 : fin 0 ≤ b'
      · by_cases hc0 : c = 0
        · subst hc0
          have := mul_ge R (b := fin (-A)) (c := b') (u := -A) (y := 0) (by simpa using hA) (le_refl _)
            (le_refl _) hb0
          simpa using this
        · have := mul_ge R (b := fin (-A)) (c := b') (u := 0) (y := 0) (by simpa using hA)
            (by simpa using hA) (le_refl _) hb0
          refine le_trans ?_ this
          simp only [mul_zero, fin_le_fin]
          nlinarith
      · have := mul_neg_ge R (b := b') (c := fin (-A)) (x := c) (y := -A) hb' (le_of_lt (not_le.1 hb0))
        cases b' with
        | ninf => simp at hb'
        | pinf => simp at hb0
        | fin B =>
          simp only [fin_le_fin, not_le] at hb' hb0
          refine le_trans ?_ (mul_fin_fin_ge R _ _)
          simp only [fin_le_fin]
          nlinarith

theorem boundsMul_sup {ainf asup binf bsup : Bound K} {y c : K} (hb : fin c ≤ bsup)
    (hb' : fin (-c) ≤ binf) (h1 : 0 ≤ c → fin y ≤ asup) (h2 : c ≤ 0 → fin (-y) ≤ ainf) :
    fin (y * c) ≤ (boundsMul R ainf asup binf bsup).2 := by
  unfold boundsMul
  simp only [bmax_eq_max, le_max_iff]
  rcases le_total 0 c with h | h
  · rcases mul_corner R (h1 h) h hb hb' with h' | h'
    · exact Or.inl (Or.inl (Or.inl h'))
    · exact Or.inl (Or.inr h')
  · have := mul_corner R (c := -c) (h2 h) (by linarith) hb' (by simpa using hb)
    rw [show -y * -c = y * c by ring] at this
    rcases this with h' | h'
    · exact Or.inl (Or.inl (Or.inr h'))
    · exact Or.inr h'

theorem boundsMul_swap (ainf asup binf bsup : Bound K) :
    (boundsMul R ainf asup binf bsup).1 = (boundsMul R ainf asup bsup binf).2 := by
  unfold boundsMul
  simp only [bmax_eq_max]
  ac_rfl

theorem boundsMul_inf {ainf asup binf bsup : Bound K} {y c : K} (hb : fin c ≤ bsup)
    (hb' : fin (-c) ≤ binf) (h1 : 0 ≤ c → fin (-y) ≤ ainf) (h2 : c ≤ 0 → fin y ≤ asup) :
    fin (-(y * c)) ≤ (boundsMul R ainf asup binf bsup).1 := by
  rw [boundsMul_swap, show -(y * c) = y * -c by ring]
  exact boundsMul_sup R (by simpa using hb') (by simpa using hb) (fun h => h2 (by linarith))
    (fun h => h1 (by linarith))

theorem swapDst_even (dst : ℕ → Bound K) (j : ℕ) : swapDst dst (2 * j) = dst (2 * j + 1) := by
  unfold swapDst; rw [xor1_even]
theorem swapDst_odd (dst : ℕ → Bound K) (j : ℕ) : swapDst dst (2 * j + 1) = dst (2 * j) := by
  unfold swapDst; rw [xor1_odd]

theorem swapDst_e (dst : ℕ → Bound K) (j : ℕ) : swapDst dst (2 * j + 2) = dst (2 * j + 3) :=
  swapDst_even dst (j + 1)
theorem swapDst_o (dst : ℕ → Bound K) (j : ℕ) : swapDst dst (2 * j + 3) = dst (2 * j + 2) :=
  swapDst_odd dst (j + 1)
theorem swapDst_0 (dst : ℕ → Bound K) : swapDst dst 0 = dst 1 := swapDst_even dst 0
theorem swapDst_1 (dst : ℕ → Bound K) : swapDst dst 1 = dst 0 := swapDst_odd dst 0

theorem prodBounds_swap (dst : ℕ → Bound K) (m : Mem K) (j : ℕ) :
    (prodBounds R dst m j).1 = (prodBounds R (swapDst dst) m j).2 := by
  unfold prodBounds
  rw [boundsMul_swap, swapDst_e, swapDst_o]

theorem formVal_swap {dim : ℕ} {dst : ℕ → Bound K} {x : ℕ → K} {v : K} (h : FormVal dim dst x v) :
    FormVal dim (swapDst dst) x (-v) := by
  obtain ⟨c0, c, h0, h1, rfl⟩ := h
  refine ⟨-c0, fun j => -c j, ?_, fun j hj => ?_, ?_⟩
  · unfold InD at *
    rw [swapDst_0, show (0 : ℕ) + 1 = 1 from rfl, swapDst_1, _root_.neg_neg]
    exact ⟨h0.2, h0.1⟩
  · have := h1 j hj
    unfold InD at *
    rw [swapDst_e, show 2 * j + 2 + 1 = 2 * j + 3 from rfl, swapDst_o, _root_.neg_neg]
    exact ⟨this.2, this.1⟩
  · simp only [neg_mul, Finset.sum_neg_distrib]; ring

/-! ### the summation loop -/

/-- the dimensions whose term is infinite -/
def infSet (t : ℕ → Bound K) (n : ℕ) : Finset ℕ := (range n).filter fun j => infty (t j) = true
def finSet (t : ℕ → Bound K) (n : ℕ) : Finset ℕ := (range n).filter fun j => ¬ infty (t j) = true

theorem accum_spec (t : ℕ → Bound K) (n : ℕ) (init : Bound K) {s0 : K} (h0 : fin s0 ≤ init) :
    (∀ t' : ℕ → K, (∀ j, j < n → fin (t' j) ≤ t j) →
      fin (s0 + ∑ j ∈ finSet t n, t' j) ≤ (accum R t n init).sum) ∧
    (accum R t n init).cnt = (infSet t n).card ∧
    (1 ≤ (accum R t n init).cnt → (accum R t n init).j1 ∈ infSet t n) ∧
    (2 ≤ (accum R t n init).cnt → (accum R t n init).j2 ∈ infSet t n ∧
      (accum R t n init).j1 ≠ (accum R t n init).j2) := by
  induction n with
  | zero => simp [accum, infSet, finSet, h0]
  | succ n ih =>
    obtain ⟨i1, i2, i3, i4⟩ := ih
    have hstep : accum R t (n + 1) init = if infty (t n) then
        ⟨(accum R t n init).sum, (accum R t n init).cnt + 1, n, (accum R t n init).j1⟩
        else { accum R t n init with sum := add R (accum R t n init).sum (t n) } := by
      unfold accum; rw [List.range_succ, List.foldl_append]; rfl
    have hF : finSet t (n + 1) = if infty (t n) then finSet t n else insert n (finSet t n) := by
      unfold finSet; rw [Finset.range_add_one, Finset.filter_insert]
      cases infty (t n) <;> simp
    have hI : infSet t (n + 1) = if infty (t n) then insert n (infSet t n) else infSet t n := by
      unfold infSet; rw [Finset.range_add_one, Finset.filter_insert]
    have hnI : n ∉ infSet t n := by simp [infSet]
    have hnF : n ∉ finSet t n := by simp [finSet]
    rw [hstep, hF, hI]
    cases hi : infty (t n)
    · simp only [Bool.false_eq_true, if_false]
      refine ⟨fun t' ht' => ?_, i2, i3, i4⟩
      rw [Finset.sum_insert hnF]
      have := add_ge R (i1 t' fun j hj => ht' j (by omega)) (ht' n (by omega))
      rwa [show s0 + (t' n + ∑ j ∈ finSet t n, t' j) = s0 + ∑ j ∈ finSet t n, t' j + t' n by ring]
    · simp only [if_true]
      refine ⟨fun t' ht' => i1 t' fun j hj => ht' j (by omega), ?_, fun _ => mem_insert_self _ _, fun h => ?_⟩
      · rw [Finset.card_insert_of_notMem hnI, i2]
      · have := i3 (by omega)
        exact ⟨mem_insert_of_mem this, fun e => hnI (by rw [← e] at this; exact this)⟩

theorem sum_update_mem {s : Finset ℕ} {j : ℕ} (hj : j ∈ s) (f : ℕ → K) (a : K) :
    ∑ k ∈ s, Function.update f j a k = ∑ k ∈ s, f k + (a - f j) := by
  rw [← Finset.add_sum_erase s _ hj, ← Finset.add_sum_erase s f hj, Function.update_self,
    Finset.sum_congr rfl fun k hk => Function.update_of_ne (Finset.ne_of_mem_erase hk) a f]
  ring

/-! ### the general case of `hmat_add_lincons` -/

theorem cell_un (j : ℕ) : Cell (2 * j + 1) (2 * j) ∧ Cell (2 * j) (2 * j + 1) := by
  unfold Cell; omega

theorem V_even (x : ℕ → K) (j : ℕ) : V x (2 * j) = x j := by
  unfold V; rw [if_pos (by omega)]; congr 1; omega
theorem V_odd (x : ℕ → K) (j : ℕ) : V x (2 * j + 1) = -x j := by
  unfold V; rw [if_neg (by omega)]; congr 2; omega

theorem Sat.up {dim : ℕ} {m : Mem K} {x : ℕ → K} (h : Sat dim m x) {j : ℕ} (hj : j < dim) :
    fin (2 * x j) ≤ m (matpos (2 * j + 1) (2 * j)) := by
  have := h (2 * j + 1) (2 * j) (by omega) (cell_un j).1
  rw [V_even, V_odd] at this
  rwa [show 2 * x j = x j - -x j by ring]
theorem Sat.lo {dim : ℕ} {m : Mem K} {x : ℕ → K} (h : Sat dim m x) {j : ℕ} (hj : j < dim) :
    fin (-(2 * x j)) ≤ m (matpos (2 * j) (2 * j + 1)) := by
  have := h (2 * j) (2 * j + 1) (by omega) (cell_un j).2
  rw [V_even, V_odd] at this
  rwa [show -(2 * x j) = -x j - x j by ring]

theorem Sat.bmin2 {dim : ℕ} {m : Mem K} {x : ℕ → K} (h : Sat dim m x) {i j : ℕ}
    {v : Bound K} (hv : fin (V x j - V x i) ≤ v) : Sat dim (m.bmin (matpos2 i j) v) x := by
  rw [matpos2_eq]
  split_ifs with hc
  · exact h.bmin hc hv
  · refine h.bmin ((cell_or_mirror i j).resolve_left hc) ?_
    rw [V_xor1, V_xor1]
    rwa [show -V x i - -V x j = V x j - V x i by ring]

theorem Sat.set2 {dim : ℕ} {m : Mem K} {x : ℕ → K} (h : Sat dim m x) {i j : ℕ}
    {v : Bound K} (hv : fin (V x j - V x i) ≤ v) : Sat dim (m.set (matpos2 i j) v) x := by
  rw [matpos2_eq]
  split_ifs with hc
  · exact h.set hc hv
  · refine h.set ((cell_or_mirror i j).resolve_left hc) ?_
    rw [V_xor1, V_xor1]
    rwa [show -V x i - -V x j = V x j - V x i by ring]

/-- the bounds of the variables are those of `m` -/
def SameUn (m b : Mem K) : Prop :=
  ∀ j, b (matpos (2 * j + 1) (2 * j)) = m (matpos (2 * j + 1) (2 * j)) ∧
    b (matpos (2 * j) (2 * j + 1)) = m (matpos (2 * j) (2 * j + 1))

theorem SameUn.refl (m : Mem K) : SameUn m m := fun _ => ⟨rfl, rfl⟩

theorem matpos2_ne_un {i j : ℕ} (h : i / 2 ≠ j / 2) (k : ℕ) :
    matpos (2 * k + 1) (2 * k) ≠ matpos2 i j ∧ matpos (2 * k) (2 * k + 1) ≠ matpos2 i j := by
  rw [matpos2_eq]
  split_ifs with hc
  · refine ⟨?_, ?_⟩ <;> intro e
    · obtain ⟨rfl, rfl⟩ := matpos_inj (cell_un k).1 hc e; omega
    · obtain ⟨rfl, rfl⟩ := matpos_inj (cell_un k).2 hc e; omega
  · have hc' := (cell_or_mirror i j).resolve_left hc
    have h1 := xor1_div i
    have h2 := xor1_div j
    refine ⟨?_, ?_⟩ <;> intro e
    · have := matpos_inj (cell_un k).1 hc' e; omega
    · have := matpos_inj (cell_un k).2 hc' e; omega

theorem SameUn.bmin2 {m b : Mem K} (h : SameUn m b) {i j : ℕ} (hij : i / 2 ≠ j / 2) (v : Bound K) :
    SameUn m (b.bmin (matpos2 i j) v) := by
  intro k
  obtain ⟨h1, h2⟩ := matpos2_ne_un hij k
  unfold Mem.bmin
  rw [Mem.set_ne _ _ h1, Mem.set_ne _ _ h2]
  exact h k

theorem pick_same {m b : Mem K} (h : SameUn m b) (dst : ℕ → Bound K) (j : ℕ) :
    pick dst b j = pick dst m j := by
  unfold pick; rw [(h j).1, (h j).2]

theorem fin_of_not_infty {b : Bound K} (h : infty b = false) : ∃ A, b = fin A := by
  cases b with
  | fin A => exact ⟨A, rfl⟩
  | ninf => simp [infty] at h
  | pinf => simp [infty] at h

theorem pick_spec {dim : ℕ} {dst : ℕ → Bound K} {m : Mem K} {x : ℕ → K} (h : Sat dim m x) {j : ℕ}
    (hj : j < dim) {c : K} (hc : InD dst (2 * j + 2) c) {bj : Bound K} {uj : ℕ}
    (hp : pick dst m j = some (bj, uj)) :
    ∃ A t, bj = fin A ∧ uj / 2 = j ∧ fin t ≤ (prodBounds R dst m j).2 ∧
      2 * (c * x j) + 2 * V x uj ≤ t - A := by
  obtain ⟨hc1, hc2⟩ := hc
  unfold pick at hp
  split_ifs at hp with h1 h2
  · simp only [Option.some.injEq, Prod.mk.injEq] at hp
    obtain ⟨rfl, rfl⟩ := hp
    obtain ⟨A, hA⟩ := fin_of_not_infty h1.2
    have hup := h.up hj
    rw [cmp_le_zero] at h1
    have hc3 := le_trans hc1 h1.1
    rw [hA] at hup
    simp only [fin_le_fin] at hc3 hup
    refine ⟨A, A * c, hA, by omega, boundsMul_sup R hc2 hc1 (fun _ => by rw [hA]) (fun h => by linarith), ?_⟩
    rw [V_odd]
    nlinarith
  · simp only [Option.some.injEq, Prod.mk.injEq] at hp
    obtain ⟨rfl, rfl⟩ := hp
    obtain ⟨A, hA⟩ := fin_of_not_infty h2.2
    have hlo := h.lo hj
    rw [cmp_le_zero] at h2
    have hc3 := le_trans hc2 h2.1
    rw [hA] at hlo
    simp only [fin_le_fin] at hc3 hlo
    refine ⟨A, -A * c, hA, by omega, boundsMul_sup R hc2 hc1 (fun h => by linarith)
      (fun _ => by rw [hA, _root_.neg_neg]), ?_⟩
    rw [V_even]
    nlinarith

theorem unitIdx_spec {dst : ℕ → Bound K} {x : ℕ → K} {j : ℕ} {c : K} (hc : InD dst (2 * j + 2) c)
    {uj : ℕ} (hp : unitIdx dst j = some uj) : uj / 2 = j ∧ 2 * (c * x j) + 2 * V x uj = 0 := by
  obtain ⟨hc1, hc2⟩ := hc
  unfold unitIdx at hp
  simp only [cmp_eq_zero] at hp
  split_ifs at hp with h1 h2
  · simp only [Option.some.injEq] at hp
    subst hp
    rw [h1.2] at hc1
    rw [show 2 * j + 2 + 1 = 2 * j + 3 from rfl, h1.1] at hc2
    simp only [fin_le_fin] at hc1 hc2
    have : c = -1 := by linarith
    subst this
    refine ⟨by omega, ?_⟩
    rw [V_even]; ring
  · simp only [Option.some.injEq] at hp
    subst hp
    rw [h2.2] at hc1
    rw [show 2 * j + 2 + 1 = 2 * j + 3 from rfl, h2.1] at hc2
    simp only [fin_le_fin] at hc1 hc2
    have : c = 1 := by linarith
    subst this
    refine ⟨by omega, ?_⟩
    rw [V_odd]; ring

theorem prod_ge {dim : ℕ} {dst : ℕ → Bound K} {m : Mem K} {x : ℕ → K} (h : Sat dim m x) {j : ℕ}
    (hj : j < dim) {c : K} (hc : InD dst (2 * j + 2) c) :
    fin (2 * (c * x j)) ≤ (prodBounds R dst m j).2 := by
  rw [show 2 * (c * x j) = 2 * x j * c by ring]
  exact boundsMul_sup R hc.2 hc.1 (fun _ => h.up hj) (fun _ => h.lo hj)

/-- one direction of the general case keeps every solution -/
theorem otherHalf_sat {dim : ℕ} {dst : ℕ → Bound K} {m b : Mem K} {x : ℕ → K} {v : K}
    (hm : Sat dim m x) (hf : FormVal dim dst x v) (hv : 0 ≤ v) (hb : Sat dim b x) (hu : SameUn m b) :
    Sat dim (otherHalf R dst dim
      (accum R (fun j => (prodBounds R dst m j).2) dim (mul2 R (dst 1))) b) x ∧
    SameUn m (otherHalf R dst dim
      (accum R (fun j => (prodBounds R dst m j).2) dim (mul2 R (dst 1))) b) := by
  obtain ⟨c0, c, h0, hc, hval⟩ := hf
  obtain ⟨a1, a2, a3, a4⟩ := accum_spec R (fun j => (prodBounds R dst m j).2) dim (mul2 R (dst 1))
    (s0 := 2 * c0) (mul2_ge R h0.2)
  generalize accum R (fun j => (prodBounds R dst m j).2) dim (mul2 R (dst 1)) = acc at *
  set e : ℕ → K := fun j => 2 * (c j * x j) with he
  have hesum : 2 * c0 + ∑ j ∈ range dim, e j = 2 * v := by
    rw [hval, he, ← Finset.mul_sum]; ring
  have he1 : ∀ j, j < dim → fin (e j) ≤ (prodBounds R dst m j).2 := fun j hj => prod_ge R hm hj (hc j hj)
  -- the finite and the infinite terms
  have hsplit : ∀ f : ℕ → K, ∑ j ∈ finSet (fun j => (prodBounds R dst m j).2) dim, f j +
      ∑ j ∈ infSet (fun j => (prodBounds R dst m j).2) dim, f j = ∑ j ∈ range dim, f j := by
    intro f
    unfold finSet infSet
    rw [add_comm]; exact Finset.sum_filter_add_sum_filter_not _ _ _
  set F := finSet (fun j => (prodBounds R dst m j).2) dim with hF
  set I := infSet (fun j => (prodBounds R dst m j).2) dim with hI
  have hFI : ∀ j, j < dim → j ∉ I → j ∈ F := by
    intro j hj hn
    rw [hF]; unfold finSet
    rw [hI] at hn; unfold infSet at hn
    simp only [mem_filter, mem_range, hj, true_and] at hn ⊢
    exact hn
  have hI1 : ∀ j, j ∈ I → j < dim := fun j hj => by
    rw [hI] at hj; unfold infSet at hj; simp only [mem_filter, mem_range] at hj; exact hj.1
  -- one picked dimension
  have one : ∀ j, j ∈ F → j < dim → ∀ t, fin t ≤ (prodBounds R dst m j).2 →
      fin (2 * c0 + (∑ k ∈ F, e k + (t - e j))) ≤ acc.sum := by
    intro j hj hjd t ht
    rw [← sum_update_mem hj]
    refine a1 _ fun k hk => ?_
    by_cases hkj : k = j
    · subst hkj; rwa [Function.update_self]
    · rw [Function.update_of_ne hkj]; exact he1 k hk
  unfold otherHalf
  split_ifs with q0 q1 q2 q3
  · exact ⟨hb, hu⟩
  · -- no infinite term
    have hI0 : I = ∅ := by rw [← Finset.card_eq_zero, ← a2, q1]
    have hFs : ∑ k ∈ F, e k = ∑ k ∈ range dim, e k := by
      have := hsplit e; rw [hI0] at this; simpa using this
    have hmem : ∀ j, j < dim → j ∈ F := fun j hj => hFI j hj (by rw [hI0]; simp)
    unfold otherQuad
    refine foldl_inv (fun b => Sat dim b x ∧ SameUn m b) _ _ (fun b j hj hI => ?_) b ⟨hb, hu⟩
    have hjd : j < dim := by simpa using hj
    rw [pick_same hI.2]
    cases hp : pick dst m j with
    | none => exact hI
    | some p =>
      obtain ⟨bj, uj⟩ := p
      obtain ⟨A, t, rfl, huj, ht, htA⟩ := pick_spec R hm hjd (hc j hjd) hp
      refine foldl_inv (fun b => Sat dim b x ∧ SameUn m b) _ _ (fun b k hk hI => ?_) b hI
      simp only [List.mem_range'_1] at hk
      have hkd : k < dim := by omega
      rw [pick_same hI.2]
      cases hp' : pick dst m k with
      | none => exact hI
      | some p =>
        obtain ⟨bk, uk⟩ := p
        obtain ⟨A', t', rfl, huk, ht', htA'⟩ := pick_spec R hm hkd (hc k hkd) hp'
        have hjk : j ≠ k := by omega
        have hcell : Cell (uk ^^^ 1) uj := by unfold Cell; rw [xor1_div]; omega
        simp only
        rw [← matpos2_cell hcell]
        refine ⟨hI.1.bmin2 ?_, hI.2.bmin2 (by rw [xor1_div]; omega) _⟩
        have hs : fin (2 * c0 + (∑ i ∈ F, e i + (t - e j) + (t' - e k))) ≤ acc.sum := by
          have h2 : ∑ i ∈ F, Function.update (Function.update e j t) k t' i =
              ∑ i ∈ F, e i + (t - e j) + (t' - e k) := by
            rw [sum_update_mem (hmem k hkd), sum_update_mem (hmem j hjd), Function.update_of_ne hjk.symm]
          rw [← h2]
          refine a1 _ fun i hi => ?_
          by_cases hik : i = k
          · subst hik; rwa [Function.update_self]
          · rw [Function.update_of_ne hik]
            by_cases hij : i = j
            · subst hij; rwa [Function.update_self]
            · rw [Function.update_of_ne hij]; exact he1 i hi
        have h3 := div2_ge R (sub_ge R (sub_ge R hs (le_refl (fin A))) (le_refl (fin A')))
        refine le_trans ?_ h3
        rw [V_xor1, fin_le_fin, hFs]
        have : e j = 2 * (c j * x j) := rfl
        have : e k = 2 * (c k * x k) := rfl
        linarith
  · -- one infinite term
    have hj1 := a3 (by omega)
    have hI0 : I = {acc.j1} := by
      obtain ⟨a, ha⟩ := Finset.card_eq_one.1 (a2.symm.trans q2)
      rw [ha] at hj1 ⊢
      rw [Finset.mem_singleton.1 hj1]
    have hFs : ∑ k ∈ F, e k = ∑ k ∈ range dim, e k - e acc.j1 := by
      have := hsplit e; rw [hI0, Finset.sum_singleton] at this; linarith
    unfold otherLin
    cases hu1 : unitIdx dst acc.j1 with
    | none => exact ⟨hb, hu⟩
    | some uj =>
      obtain ⟨huj, hz⟩ := unitIdx_spec (x := x) (hc _ (hI1 _ hj1)) hu1
      refine foldl_inv (fun b => Sat dim b x ∧ SameUn m b) _ _ (fun b k hk hI => ?_) b ⟨hb, hu⟩
      have hkd : k < dim := by simpa using hk
      split_ifs with hk1
      · exact hI
      · rw [pick_same hI.2]
        cases hp' : pick dst m k with
        | none => exact hI
        | some p =>
          obtain ⟨bk, uk⟩ := p
          obtain ⟨A', t', rfl, huk, ht', htA'⟩ := pick_spec R hm hkd (hc k hkd) hp'
          refine ⟨hI.1.bmin2 ?_, hI.2.bmin2 (by rw [xor1_div]; omega) _⟩
          have hs := one k (hFI k hkd (by rw [hI0]; simpa using hk1)) hkd t' ht'
          have h3 := div2_ge R (sub_ge R hs (le_refl (fin A')))
          refine le_trans ?_ h3
          rw [V_xor1, fin_le_fin, hFs]
          have : e acc.j1 = 2 * (c acc.j1 * x acc.j1) := rfl
          have : e k = 2 * (c k * x k) := rfl
          linarith
  · -- two infinite terms
    have hj1 := a3 (by omega)
    obtain ⟨hj2, hne⟩ := a4 (by omega)
    have hI0 : I = {acc.j1, acc.j2} := by
      symm
      refine Finset.eq_of_subset_of_card_le ?_ ?_
      · intro j hj
        simp only [mem_insert, mem_singleton] at hj
        rcases hj with rfl | rfl
        · exact hj1
        · exact hj2
      · rw [← a2, q3, Finset.card_pair hne]
    have hFs : ∑ k ∈ F, e k = ∑ k ∈ range dim, e k - e acc.j1 - e acc.j2 := by
      have := hsplit e; rw [hI0, Finset.sum_pair hne] at this; linarith
    unfold otherOne
    cases hu1 : unitIdx dst acc.j1 with
    | none => exact ⟨hb, hu⟩
    | some ui =>
      cases hu2 : unitIdx dst acc.j2 with
      | none => exact ⟨hb, hu⟩
      | some uj =>
        obtain ⟨hui, hz⟩ := unitIdx_spec (x := x) (hc _ (hI1 _ hj1)) hu1
        obtain ⟨huj, hz'⟩ := unitIdx_spec (x := x) (hc _ (hI1 _ hj2)) hu2
        refine ⟨hb.bmin2 ?_, hu.bmin2 (by rw [xor1_div]; omega) _⟩
        have hs := a1 e he1
        refine le_trans ?_ (div2_ge R hs)
        rw [V_xor1, fin_le_fin, hFs]
        have : e acc.j1 = 2 * (c acc.j1 * x acc.j1) := rfl
        have : e acc.j2 = 2 * (c acc.j2 * x acc.j2) := rfl
        linarith
  · exact ⟨hb, hu⟩

theorem addOther_sat {dim : ℕ} {dst : ℕ → Bound K} {b : Mem K} {x : ℕ → K} {v : K} {isEq : Bool}
    (hb : Sat dim b x) (hf : FormVal dim dst x v) (hv : 0 ≤ v) (he : isEq = true → v = 0) :
    Sat dim (addOther R dst dim isEq b) x := by
  unfold addOther
  obtain ⟨h1, h2⟩ := otherHalf_sat R hb hf hv hb (SameUn.refl b)
  cases isEq with
  | false => exact h1
  | true =>
    have hv0 := he rfl
    have h3 := (otherHalf_sat R hb (formVal_swap hf) (by linarith) h1 h2).1
    rw [swapDst_1] at h3
    simp only [if_true]
    rw [show (fun j => (prodBounds R dst b j).1) = fun j => (prodBounds R (swapDst dst) b j).2 from
      funext fun j => prodBounds_swap R dst b j]
    exact h3

end Oct
end Apron
