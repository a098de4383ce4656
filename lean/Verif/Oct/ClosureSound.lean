import Verif.Oct.Closure

/-! # Helper lemmas: every step of the closure keeps the set of points (any rounding) -/

set_option autoImplicit false
set_option linter.unusedSectionVars false
set_option linter.ambiguousOpen false

namespace Apron

theorem foldl_inv {α β : Type*} (P : β → Prop) (f : β → α → β) (l : List α)
    (h : ∀ b a, a ∈ l → P b → P (f b a)) (b : β) (hb : P b) : P (l.foldl f b) := by
  induction l generalizing b with
  | nil => exact hb
  | cons a l ih =>
    exact ih (fun b a' ha' => h b a' (List.mem_cons_of_mem _ ha')) _ (h b a (by simp) hb)

/-- a fold whose steps establish `Q a` at step `a` and keep it afterwards -/
theorem foldl_establish {α β : Type*} (P : β → Prop) (Q : α → β → Prop) (f : β → α → β)
    (l : List α) (hP : ∀ b a, a ∈ l → P b → P (f b a))
    (hQ : ∀ b a, a ∈ l → P b → Q a (f b a))
    (hK : ∀ b a a', a ∈ l → P b → Q a' b → Q a' (f b a)) (b : β) (hb : P b) :
    P (l.foldl f b) ∧ ∀ a ∈ l, Q a (l.foldl f b) := by
  refine ⟨foldl_inv P f l hP b hb, ?_⟩
  induction l generalizing b with
  | nil => simp
  | cons a l ih =>
    intro a' ha'
    rw [List.foldl_cons]
    rcases List.mem_cons.1 ha' with rfl | h'
    · have h0 : P (f b a') := hP b a' (by simp) hb
      exact (foldl_inv (fun b => P b ∧ Q a' b) f l (fun b x hx h =>
        ⟨hP b x (List.mem_cons_of_mem _ hx) h.1, hK b x a' (List.mem_cons_of_mem _ hx) h.1 h.2⟩)
        _ ⟨h0, hQ b a' (by simp) hb⟩).2
    · exact ih (fun b a ha => hP b a (List.mem_cons_of_mem _ ha))
        (fun b a ha => hQ b a (List.mem_cons_of_mem _ ha))
        (fun b a x ha => hK b a x (List.mem_cons_of_mem _ ha)) _ (hP b a (by simp) hb) a' h'

namespace Oct
open Bound
variable {K : Type*} [LinearOrder K] [Field K] [IsStrictOrderedRing K] (R : Rnd K)

theorem bmin_le (m : Mem K) (p : ℕ) (v : Bound K) (q : ℕ) : m.bmin p v q ≤ m q := by
  unfold Mem.bmin
  by_cases h : q = p
  · subst h; rw [Mem.set_self, bmin_eq_min]; exact min_le_left _ _
  · rw [Mem.set_ne _ _ h]

theorem bmin_self_le (m : Mem K) (p : ℕ) (v : Bound K) : m.bmin p v p ≤ v := by
  unfold Mem.bmin
  rw [Mem.set_self, bmin_eq_min]; exact min_le_right _ _

/-- the meaning is antitone: a smaller memory has fewer points -/
theorem Sat.mono {dim : ℕ} {m m' : Mem K} {x : ℕ → K} (h : Sat dim m x)
    (hle : ∀ i j, i < 2 * dim → Cell i j → m (matpos i j) ≤ m' (matpos i j)) : Sat dim m' x :=
  fun i j hi hc => le_trans (h i j hi hc) (hle i j hi hc)

theorem Sat.bmin {dim : ℕ} {m : Mem K} {x : ℕ → K} (h : Sat dim m x) {i j : ℕ} (hc : Cell i j)
    {v : Bound K} (hv : fin (V x j - V x i) ≤ v) : Sat dim (m.bmin (matpos i j) v) x := by
  intro i' j' hi' hc'
  unfold Mem.bmin
  by_cases e : matpos i' j' = matpos i j
  · obtain ⟨rfl, rfl⟩ := matpos_inj hc' hc e
    rw [Mem.set_self, bmin_eq_min]
    exact le_min (h _ _ hi' hc') hv
  · rw [Mem.set_ne _ _ e]; exact h _ _ hi' hc'

theorem Sat.set {dim : ℕ} {m : Mem K} {x : ℕ → K} (h : Sat dim m x) {i j : ℕ} (hc : Cell i j)
    {v : Bound K} (hv : fin (V x j - V x i) ≤ v) : Sat dim (m.set (matpos i j) v) x := by
  intro i' j' hi' hc'
  by_cases e : matpos i' j' = matpos i j
  · obtain ⟨rfl, rfl⟩ := matpos_inj hc' hc e
    rw [Mem.set_self]; exact hv
  · rw [Mem.set_ne _ _ e]; exact h _ _ hi' hc'

/-- reading the mirror cell -/
theorem Sat.mirror {dim : ℕ} {m : Mem K} {x : ℕ → K} (h : Sat dim m x) {i j : ℕ} (hj : j < 2 * dim)
    (hc : Cell (j ^^^ 1) (i ^^^ 1)) : fin (V x j - V x i) ≤ m (matpos (j ^^^ 1) (i ^^^ 1)) := by
  have := h (j ^^^ 1) (i ^^^ 1) (xor1_lt hj) hc
  rw [V_xor1, V_xor1] at this
  rwa [show V x j - V x i = -V x i - -V x j by ring]

theorem chain_le {x : ℕ → K} {i k j : ℕ} {a b : Bound K} (ha : fin (V x k - V x i) ≤ a)
    (hb : fin (V x j - V x k) ≤ b) : fin (V x j - V x i) ≤ add R a b := by
  have := add_ge R ha hb
  rwa [show V x k - V x i + (V x j - V x k) = V x j - V x i by ring] at this

theorem closeCell_le (k i : ℕ) (ik ik2 : Bound K) (m : Mem K) (j : ℕ) (q : ℕ) :
    closeCell R k i ik ik2 m j q ≤ m q := by
  unfold closeCell
  split_ifs
  · exact le_trans (bmin_le _ _ _ _) (bmin_le _ _ _ _)
  · exact le_trans (bmin_le _ _ _ _) (bmin_le _ _ _ _)

theorem closeCell_sat {dim k i j : ℕ} {m : Mem K} {x : ℕ → K} (hk : k < 2 * dim)
    (hj : Cell i j) (hi : i < 2 * dim) {ik ik2 : Bound K} (h1 : fin (V x k - V x i) ≤ ik)
    (h2 : fin (V x (k ^^^ 1) - V x i) ≤ ik2) (h : Sat dim m x) :
    Sat dim (closeCell R k i ik ik2 m j) x := by
  have hj2 : j < 2 * dim := by unfold Cell at hj; omega
  unfold closeCell
  split_ifs with hb
  · rw [le_min_iff] at hb
    have c1 : Cell k j := by unfold Cell; omega
    have c2 : Cell (k ^^^ 1) j := by unfold Cell; rw [xor1_div]; omega
    have s1 := h.bmin hj (chain_le R h1 (h k j hk c1))
    exact s1.bmin hj (chain_le R h2 (s1 _ j (xor1_lt hk) c2))
  · have hkj : k < j := by
      rw [le_min_iff, not_and_or] at hb
      have := le_or1_iff.2 hj
      omega
    have c1 : Cell (j ^^^ 1) (k ^^^ 1) := by unfold Cell; rw [xor1_div, xor1_div]; omega
    have c2 : Cell (j ^^^ 1) k := by unfold Cell; rw [xor1_div]; omega
    have s1 := h.bmin hj (chain_le R h1 (h.mirror hj2 c1))
    refine s1.bmin hj (chain_le R h2 ?_)
    have := s1.mirror (i := k ^^^ 1) hj2 (by rw [xor1_xor1]; exact c2)
    rwa [xor1_xor1] at this

theorem closeRow_le (k : ℕ) (m : Mem K) (i q : ℕ) : closeRow R k m i q ≤ m q := by
  unfold closeRow
  generalize m (matpos2 i k) = a
  generalize m (matpos2 i (k ^^^ 1)) = b
  exact foldl_inv (fun m' => m' q ≤ m q) _ _
    (fun m' j _ h => le_trans (closeCell_le R k i a b m' j q) h) m (le_refl _)

theorem closeRow_sat {dim k i : ℕ} {m : Mem K} {x : ℕ → K} (hk : k < 2 * dim) (hi : i < 2 * dim)
    (h : Sat dim m x) : Sat dim (closeRow R k m i) x := by
  unfold closeRow
  have h1 := h.le2 hi hk
  have h2 := h.le2 hi (xor1_lt hk)
  refine foldl_inv (Sat dim · x) _ _ (fun m' j hj hs => ?_) m h
  exact closeCell_sat R hk (le_or1_iff.1 (by simpa [Nat.lt_succ_iff] using hj)) hi h1 h2 hs

theorem closePivot_le (dim : ℕ) (m : Mem K) (k q : ℕ) : closePivot R dim m k q ≤ m q := by
  unfold closePivot
  exact foldl_inv (fun m' => m' q ≤ m q) _ _
    (fun m' i _ h => le_trans (closeRow_le R k m' i q) h) m (le_refl _)

theorem closePivot_sat {dim k : ℕ} {m : Mem K} {x : ℕ → K} (hk : k < 2 * dim) (h : Sat dim m x) :
    Sat dim (closePivot R dim m k) x := by
  unfold closePivot
  exact foldl_inv (Sat dim · x) _ _ (fun m' i hi hs => closeRow_sat R hk (by simpa using hi) hs) m h

theorem closeFW_le (dim : ℕ) (m : Mem K) (q : ℕ) : closeFW R dim m q ≤ m q := by
  unfold closeFW
  exact foldl_inv (fun m' => m' q ≤ m q) _ _
    (fun m' i _ h => le_trans (closePivot_le R dim m' i q) h) m (le_refl _)

theorem closeFW_sat {dim : ℕ} {m : Mem K} {x : ℕ → K} (h : Sat dim m x) :
    Sat dim (closeFW R dim m) x := by
  unfold closeFW
  exact foldl_inv (Sat dim · x) _ _ (fun m' k hk hs => closePivot_sat R (by simpa using hk) hs) m h

theorem div2_ge {b : Bound K} {u : K} (h : fin u ≤ b) : fin (u / 2) ≤ div2 R b := by
  cases b with
  | ninf => simp at h
  | pinf => simp [div2]
  | fin q =>
    simp only [div2]
    refine le_trans ?_ (R.up_ge _)
    simp at h ⊢; linarith

theorem cell_self_xor (i : ℕ) : Cell i (i ^^^ 1) := by unfold Cell; rw [xor1_div]
theorem cell_xor_self (i : ℕ) : Cell (i ^^^ 1) i := by unfold Cell; rw [xor1_div]
theorem cell_refl (i : ℕ) : Cell i i := by unfold Cell; omega

theorem sRow_le (m : Mem K) (i q : ℕ) : sRow R m i q ≤ m q := by
  unfold sRow
  generalize div2 R (m (matpos i (i ^^^ 1))) = a
  exact foldl_inv (fun m' => m' q ≤ m q) _ _
    (fun m' j _ h => le_trans (bmin_le _ _ _ _) h) m (le_refl _)

theorem sRow_sat {dim i : ℕ} {m : Mem K} {x : ℕ → K} (hi : i < 2 * dim)
    (h : Sat dim m x) : Sat dim (sRow R m i) x := by
  unfold sRow
  have h1 := div2_ge R (h i (i ^^^ 1) hi (cell_self_xor i))
  refine foldl_inv (Sat dim · x) _ _ (fun m' j hj hs => ?_) m h
  have hc : Cell i j := le_or1_iff.1 (by simpa [Nat.lt_succ_iff] using hj)
  have hj2 : j < 2 * dim := by unfold Cell at hc; omega
  have h2 := div2_ge R (hs (j ^^^ 1) j (xor1_lt hj2) (cell_xor_self j))
  refine hs.bmin hc ?_
  have := add_ge R h2 h1
  rw [V_xor1, V_xor1] at this
  rwa [show (V x j - -V x j) / 2 + (-V x i - V x i) / 2 = V x j - V x i by ring] at this

theorem sRows_le (dim : ℕ) (m : Mem K) (q : ℕ) :
    (List.range (2 * dim)).foldl (sRow R) m q ≤ m q :=
  foldl_inv (fun m' => m' q ≤ m q) _ _
    (fun m' i _ h => le_trans (sRow_le R m' i q) h) m (le_refl _)

theorem sRows_sat {dim : ℕ} {m : Mem K} {x : ℕ → K} (h : Sat dim m x) :
    Sat dim ((List.range (2 * dim)).foldl (sRow R) m) x :=
  foldl_inv (Sat dim · x) _ _ (fun m' k hk hs => sRow_sat R (by simpa using hk) hs) m h

theorem sDiag_sat {dim : ℕ} {x : ℕ → K} (l : List ℕ) (hl : ∀ i ∈ l, i < 2 * dim) {m : Mem K}
    (h : Sat dim m x) : (sDiag l m).1 = false ∧ Sat dim (sDiag l m).2 x := by
  induction l generalizing m with
  | nil => exact ⟨rfl, h⟩
  | cons i l ih =>
    have h0 := h i i (hl i (by simp)) (cell_refl i)
    simp only [sub_self] at h0
    unfold sDiag
    rw [if_neg (by rw [sgn_neg_iff]; exact not_lt.2 h0)]
    exact ih (fun j hj => hl j (by simp [hj])) (h.set (cell_refl i) (by simp))

/-- the checked diagonal only decreases non-negative entries to 0 -/
theorem sDiag_le (l : List ℕ) (m : Mem K) (q : ℕ) : (sDiag l m).2 q ≤ m q := by
  induction l generalizing m with
  | nil => exact le_refl _
  | cons i l ih =>
    unfold sDiag
    split_ifs with h
    · exact le_refl _
    · refine le_trans (ih _) ?_
      rw [sgn_neg_iff, not_lt] at h
      by_cases e : q = matpos i i
      · subst e; rw [Mem.set_self]; exact h
      · rw [Mem.set_ne _ _ e]

theorem sStep_sat {dim : ℕ} {m : Mem K} {x : ℕ → K} (h : Sat dim m x) :
    (sStep R dim m).1 = false ∧ Sat dim (sStep R dim m).2 x :=
  sDiag_sat _ (fun i hi => by simpa using hi) (sRows_sat R h)

theorem sStep_le (dim : ℕ) (m : Mem K) (q : ℕ) : (sStep R dim m).2 q ≤ m q :=
  le_trans (sDiag_le _ _ _) (sRows_le R dim m q)

theorem close_sat {dim : ℕ} {m : Mem K} {x : ℕ → K} (h : Sat dim m x) :
    (close R dim m).1 = false ∧ Sat dim (close R dim m).2 x := sStep_sat R (closeFW_sat R h)

theorem close_le (dim : ℕ) (m : Mem K) (q : ℕ) : (close R dim m).2 q ≤ m q :=
  le_trans (sStep_le R dim _ q) (closeFW_le R dim m q)

/-! ### incremental closure -/

theorem incColCell_le (k i : ℕ) (ik ik2 : Bound K) (m : Mem K) (j : ℕ) (q : ℕ) :
    incColCell R k i ik ik2 m j q ≤ m q := by
  unfold incColCell
  split_ifs
  · exact le_trans (bmin_le _ _ _ _) (bmin_le _ _ _ _)
  · exact le_trans (bmin_le _ _ _ _) (bmin_le _ _ _ _)

theorem incColCell_sat {dim k i j : ℕ} {m : Mem K} {x : ℕ → K} (hk : k < 2 * dim)
    (hij : i ≤ j) (hj : j < 2 * dim) {ik ik2 : Bound K} (h1 : fin (V x i - V x k) ≤ ik)
    (h2 : fin (V x i - V x (k ^^^ 1)) ≤ ik2) (h : Sat dim m x) :
    Sat dim (incColCell R k i ik ik2 m j) x := by
  have hc : Cell j i := by unfold Cell; omega
  have hi2 : i < 2 * dim := by omega
  have ch : ∀ {a b : Bound K} {k : ℕ}, fin (V x i - V x k) ≤ a → fin (V x k - V x j) ≤ b →
      fin (V x i - V x j) ≤ add R a b := by
    intro a b k ha hb
    have := add_ge R ha hb
    rwa [show V x i - V x k + (V x k - V x j) = V x i - V x j by ring] at this
  unfold incColCell
  split_ifs with hb
  · have c1 : Cell (k ^^^ 1) (j ^^^ 1) := by unfold Cell; rw [xor1_div, xor1_div]; omega
    have c2 : Cell k (j ^^^ 1) := by unfold Cell; rw [xor1_div]; omega
    have s1 := h.bmin hc (ch h1 (h.mirror hk c1))
    refine s1.bmin hc (ch h2 ?_)
    have := s1.mirror (i := j) (j := k ^^^ 1) (xor1_lt hk) (by rw [xor1_xor1]; exact c2)
    rwa [xor1_xor1] at this
  · have c1 : Cell j k := by unfold Cell; omega
    have c2 : Cell j (k ^^^ 1) := by unfold Cell; rw [xor1_div]; omega
    have s1 := h.bmin hc (ch h1 (h j k hj c1))
    exact s1.bmin hc (ch h2 (s1 _ _ hj c2))

theorem incCol_le (dim k : ℕ) (m : Mem K) (i q : ℕ) : incCol R dim k m i q ≤ m q := by
  unfold incCol
  generalize m (matpos2 k i) = a
  generalize m (matpos2 (k ^^^ 1) i) = b
  exact foldl_inv (fun m' => m' q ≤ m q) _ _
    (fun m' j _ h => le_trans (incColCell_le R k i a b m' j q) h) m (le_refl _)

theorem incCol_sat {dim k i : ℕ} {m : Mem K} {x : ℕ → K} (hk : k < 2 * dim) (hi : i < 2 * dim)
    (h : Sat dim m x) : Sat dim (incCol R dim k m i) x := by
  unfold incCol
  have h1 := h.le2 hk hi
  have h2 := h.le2 (xor1_lt hk) hi
  refine foldl_inv (Sat dim · x) _ _ (fun m' j hj hs => ?_) m h
  rw [List.mem_range'_1] at hj
  exact incColCell_sat R hk hj.1 (by omega) h1 h2 hs

theorem incEnd_le (dim v : ℕ) (m : Mem K) (k q : ℕ) : incEnd R dim v m k q ≤ m q := by
  unfold incEnd
  exact foldl_inv (fun m' => m' q ≤ m q) _ _
    (fun m' i _ h => le_trans (le_trans (incCol_le R dim k _ i q) (closeRow_le R k m' i q)) h) m
    (le_refl _)

theorem incEnd_sat {dim v k : ℕ} {m : Mem K} {x : ℕ → K} (hk : k < 2 * dim) (hv : v < dim)
    (h : Sat dim m x) : Sat dim (incEnd R dim v m k) x := by
  unfold incEnd
  refine foldl_inv (Sat dim · x) _ _ (fun m' i hi hs => ?_) m h
  have hi' : i < 2 * dim := by simp at hi; omega
  exact incCol_sat R hk hi' (closeRow_sat R hk hi' hs)

theorem closeIncremental_le (dim : ℕ) (m : Mem K) (v q : ℕ) :
    (closeIncremental R dim m v).2 q ≤ m q := by
  unfold closeIncremental
  refine le_trans (sStep_le R dim _ q) ?_
  have h2 : ((List.range (2 * dim)).foldl (incEnd R dim v) m) q ≤ m q :=
    foldl_inv (fun m' => m' q ≤ m q) _ _
      (fun m' k _ h => le_trans (incEnd_le R dim v m' k q) h) m (le_refl _)
  exact foldl_inv (fun m' => m' q ≤ m q) _ _
    (fun m' k _ h => le_trans (closePivot_le R dim m' k q) h) _ h2

theorem closeIncremental_sat {dim v : ℕ} {m : Mem K} {x : ℕ → K} (hv : v < dim)
    (h : Sat dim m x) :
    (closeIncremental R dim m v).1 = false ∧ Sat dim (closeIncremental R dim m v).2 x := by
  unfold closeIncremental
  refine sStep_sat R ?_
  refine foldl_inv (Sat dim · x) _ _ (fun m' k hk hs => closePivot_sat R (by simp at hk; omega) hs) _ ?_
  exact foldl_inv (Sat dim · x) _ _ (fun m' k hk hs => incEnd_sat R (by simpa using hk) hv hs) m h

end Oct
end Apron
