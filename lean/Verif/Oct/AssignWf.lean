import Verif.Oct.AssignSound

/-! # Helper lemmas: the representation invariant after an assignment -/

set_option autoImplicit false
set_option linter.unusedSectionVars false
set_option linter.ambiguousOpen false

namespace Apron
namespace Oct
open Bound Finset
variable {K : Type*} [LinearOrder K] [Field K] [IsStrictOrderedRing K] [FloorRing K] (R : Rnd K)

theorem good_set2 {dim : ℕ} {m : Mem K} (h : OctT.Good dim m) {i j : ℕ} (hij : i ≠ j) {v : Bound K}
    (hv : v ≠ ninf) : OctT.Good dim (m.set (matpos2 i j) v) := by
  have hd : ∀ k, (m.set (matpos2 i j) v) (matpos k k) = m (matpos k k) := by
    intro k
    refine Mem.set_ne _ _ fun e => hij ?_
    rcases pos_eq_cases (cell_refl k) e.symm with ⟨rfl, rfl⟩ | ⟨rfl, rfl⟩ <;> rfl
  refine ⟨fun p hp => ?_, fun k hk => ?_, fun k hk => ?_⟩
  · unfold Mem.set
    split_ifs with e
    · exact hv
    · exact h.ne p hp
  · rw [hd, hd]; exact h.coh k hk
  · rw [hd]; exact h.nn k hk

theorem good_set {dim : ℕ} {m : Mem K} (h : OctT.Good dim m) {i j : ℕ} (hc : Cell i j) (hij : i ≠ j)
    {v : Bound K} (hv : v ≠ ninf) : OctT.Good dim (m.set (matpos i j) v) := by
  rw [← matpos2_cell hc]; exact good_set2 h hij hv

theorem good_forget {dim : ℕ} {m : Mem K} (h : OctT.Good dim m) (d : ℕ) :
    OctT.Good dim (forgetVar dim false m d) := by
  have hG := emb_G (OctT.dg_coh h.coh) (keep_legal dim [d]) (G_coh h.coh) (OctT.forget_emb' dim false m [d])
  refine good_emb (keep_legal dim [d]) (OctT.dg_coh h.coh) (fun i hi => ?_) h hG
  unfold OctT.dg; rw [if_pos hi]; exact h.nn i hi

theorem SC_forget {dim : ℕ} {m : Mem K} (h : SC dim (G dim m)) (d : ℕ) :
    SC dim (G dim (forgetVar dim false m d)) := by
  have hg := OctT.SC_good h
  have hG := emb_G (OctT.dg_coh hg.coh) (keep_legal dim [d]) (G_coh hg.coh) (OctT.forget_emb' dim false m [d])
  change G dim (forgetVar dim false m d) = _ at hG
  rw [hG]
  refine SC_emb (keep_legal dim [d]) (fun i => ?_) h
  unfold OctT.dg
  split_ifs with hi
  · rw [← G_cell m hi (cell_refl i)]; exact h.diag i hi
  · rfl

theorem good_cell {dim : ℕ} {m : Mem K} (h : OctT.Good dim m) {i j : ℕ} (hi : i < 2 * dim) (hc : Cell i j) :
    m (matpos i j) ≠ ninf := noNinf_iff.1 h.ne i j hi hc

theorem good_zeroClosed {dim d : ℕ} (hd : d < dim) {dst : ℕ → Bound K} {m : Mem K} (h : OctT.Good dim m)
    (h0 : dst 0 ≠ ninf) (h1 : dst 1 ≠ ninf) : OctT.Good dim (assignZeroClosed R dst dim d m) := by
  unfold assignZeroClosed
  refine foldl_inv (OctT.Good dim) _ _ (fun b k hk h => ?_) _ ?_
  · rw [List.mem_range'_1] at hk
    have hu := div2_ne R (good_cell h (show k < 2 * dim by omega) (cell_self_xor k))
    exact good_set (good_set h (by unfold Cell; omega) (by omega) (add_ne R hu h1)) (by unfold Cell; omega)
      (by omega) (add_ne R hu h0)
  · refine foldl_inv (OctT.Good dim) _ _ (fun b k hk h => ?_) _ h
    have hk : k < 2 * d := by simpa using hk
    have hu := div2_ne R (good_cell h (show k ^^^ 1 < 2 * dim from xor1_lt (by omega)) (cell_xor_self k))
    exact good_set (good_set h (by unfold Cell; omega) (by omega) (add_ne R hu h0)) (by unfold Cell; omega)
      (by omega) (add_ne R hu h1)

theorem good_neg {dim d : ℕ} (hd : d < dim) {dst : ℕ → Bound K} {m : Mem K} (h : OctT.Good dim m)
    (h0 : dst 0 ≠ ninf) (h1 : dst 1 ≠ ninf) : OctT.Good dim (assignNeg R dst dim d m) := by
  unfold assignNeg
  have hg : OctT.Good dim ((List.range' (2 * d + 2) (2 * dim - (2 * d + 2))).foldl (fun (m : Mem K) k =>
      (m.set (matpos k (2 * d)) (add R (m (matpos k (2 * d + 1))) (dst 1))).set (matpos k (2 * d + 1))
        (add R (m (matpos k (2 * d))) (dst 0))) ((List.range (2 * d)).foldl (fun (m : Mem K) k =>
      (m.set (matpos (2 * d) k) (add R (m (matpos (2 * d + 1) k)) (dst 0))).set (matpos (2 * d + 1) k)
        (add R (m (matpos (2 * d) k)) (dst 1))) m)) := by
    refine foldl_inv (OctT.Good dim) _ _ (fun b k hk h => ?_) _ ?_
    · rw [List.mem_range'_1] at hk
      exact good_set (good_set h (by unfold Cell; omega) (by omega)
        (add_ne R (good_cell h (by omega) (by unfold Cell; omega)) h1)) (by unfold Cell; omega)
        (by omega) (add_ne R (good_cell h (by omega) (by unfold Cell; omega)) h0)
    · refine foldl_inv (OctT.Good dim) _ _ (fun b k hk h => ?_) _ h
      have hk : k < 2 * d := by simpa using hk
      exact good_set (good_set h (by unfold Cell; omega) (by omega)
        (add_ne R (good_cell h (by omega) (by unfold Cell; omega)) h0)) (by unfold Cell; omega)
        (by omega) (add_ne R (good_cell h (by omega) (by unfold Cell; omega)) h1)
  exact good_set (good_set hg (cell_un d).1 (by omega)
    (add_ne R (good_cell hg (by omega) (cell_un d).2) (mul2_ne R h1))) (cell_un d).2 (by omega)
    (add_ne R (good_cell hg (by omega) (cell_un d).1) (mul2_ne R h0))

theorem good_shift {dim d : ℕ} (hd : d < dim) {dst : ℕ → Bound K} {m : Mem K} (h : OctT.Good dim m)
    (h0 : dst 0 ≠ ninf) (h1 : dst 1 ≠ ninf) : OctT.Good dim (assignShift R dst dim d m) := by
  unfold assignShift
  have one : ∀ {b : Mem K} {i j : ℕ} {v : Bound K}, OctT.Good dim b → i < 2 * dim → Cell i j → i ≠ j → v ≠ ninf →
      OctT.Good dim (b.set (matpos i j) (add R (b (matpos i j)) v)) := fun hb hi hc hne hv =>
    good_set hb hc hne (add_ne R (good_cell hb hi hc) hv)
  have hg : OctT.Good dim ((List.range' (2 * d + 2) (2 * dim - (2 * d + 2))).foldl (fun (m : Mem K) k =>
      (m.set (matpos k (2 * d)) (add R (m (matpos k (2 * d))) (dst 1))).set (matpos k (2 * d + 1))
        (add R ((m.set (matpos k (2 * d)) (add R (m (matpos k (2 * d))) (dst 1))) (matpos k (2 * d + 1))) (dst 0)))
      ((List.range (2 * d)).foldl (fun (m : Mem K) k =>
      (m.set (matpos (2 * d) k) (add R (m (matpos (2 * d) k)) (dst 0))).set (matpos (2 * d + 1) k)
        (add R ((m.set (matpos (2 * d) k) (add R (m (matpos (2 * d) k)) (dst 0))) (matpos (2 * d + 1) k)) (dst 1))) m)) := by
    refine foldl_inv (OctT.Good dim) _ _ (fun b k hk h => ?_) _ ?_
    · rw [List.mem_range'_1] at hk
      exact one (one h (by omega) (by unfold Cell; omega) (by omega) h1) (by omega) (by unfold Cell; omega) (by omega) h0
    · refine foldl_inv (OctT.Good dim) _ _ (fun b k hk h => ?_) _ h
      have hk : k < 2 * d := by simpa using hk
      exact one (one h (by omega) (by unfold Cell; omega) (by omega) h0) (by omega) (by unfold Cell; omega) (by omega) h1
  exact one (one hg (by omega) (cell_un d).1 (by omega) (mul2_ne R h1)) (by omega) (cell_un d).2 (by omega) (mul2_ne R h0)

theorem accum_ne (t : ℕ → Bound K) (n : ℕ) {init : Bound K} (h : init ≠ ninf) : (accum R t n init).sum ≠ ninf := by
  unfold accum
  refine foldl_inv (fun s : Acc K => s.sum ≠ ninf) _ _ (fun s j _ hs => ?_) _ h
  split_ifs with e
  · exact hs
  · exact add_ne R hs fun e' => e (by rw [e']; rfl)

theorem good_gen {dim d : ℕ} {dst : ℕ → Bound K} {m : Mem K} (h : OctT.Good dim m)
    (h0 : dst 0 ≠ ninf) (h1 : dst 1 ≠ ninf) : OctT.Good dim (assignGen R dst dim d m) := by
  unfold assignGen
  have hup := accum_ne R (fun i => (prodBounds R dst m i).2) dim (mul2_ne R h1)
  have hlo := accum_ne R (fun i => (prodBounds R dst m i).1) dim (mul2_ne R h0)
  have h2 := good_forget h d
  simp only
  generalize mul R _ _ = s0
  generalize mul R _ _ = s1
  generalize accum R (fun i => (prodBounds R dst m i).2) dim (mul2 R (dst 1)) = up at *
  generalize accum R (fun i => (prodBounds R dst m i).1) dim (mul2 R (dst 0)) = lo at *
  generalize forgetVar dim false m d = b at *
  have h3 : OctT.Good dim (assignUpper R dst dim d up s0 s1 b) := by
    unfold assignUpper
    split_ifs with c0 c1 c2 c3 c4
    · refine foldl_inv (OctT.Good dim) _ _ (fun b i _ hb => ?_) _ (good_set h2 (cell_un d).1 (by omega) hup)
      split_ifs with g1 g2 g3
      · exact hb
      · exact good_set2 hb (by omega) (div2_ne R (sub_ne R (ne_cases hup) g2.2))
      · exact good_set2 hb (by omega) (div2_ne R (sub_ne R (ne_cases hup) g3.2))
      · exact hb
    · exact good_set2 h2 (by omega) (div2_ne R hup)
    · exact good_set2 h2 (by omega) (div2_ne R hup)
    all_goals exact h2
  generalize assignUpper R dst dim d up s0 s1 b = b at *
  unfold assignLower
  split_ifs with c0 c1 c2 c3 c4
  · refine foldl_inv (OctT.Good dim) _ _ (fun b i _ hb => ?_) _ (good_set h3 (cell_un d).2 (by omega) hlo)
    split_ifs with g1 g2 g3
    · exact hb
    · exact good_set2 hb (by omega) (div2_ne R (sub_ne R (ne_cases hlo) g2.2))
    · exact good_set2 hb (by omega) (div2_ne R (sub_ne R (ne_cases hlo) g3.2))
    · exact hb
  · exact good_set2 h3 (by omega) (div2_ne R hlo)
  · exact good_set2 h3 (by omega) (div2_ne R hlo)
  all_goals exact h3

/-! ### strong closure -/

theorem add_le_iff {a b : Bound K} (ha : a ≠ ninf) (hb : b ≠ ninf) {x : K} :
    add Rnd.exact a b ≤ fin x ↔ ∃ y z, a ≤ fin y ∧ b ≤ fin z ∧ y + z ≤ x :=
  ⟨add_exact_le ha hb, fun ⟨_, _, h1, h2, h3⟩ => le_trans (le_add_exact h1 h2 ha hb) (by simpa using h3)⟩

theorem mul2_le_iff {a : Bound K} (ha : a ≠ ninf) {x : K} : mul2 Rnd.exact a ≤ fin x ↔ a ≤ fin (x / 2) := by
  cases a with
  | ninf => exact absurd rfl ha
  | pinf => simp [mul2]
  | fin q => simp only [mul2, Rnd.exact, fin_le_fin]; constructor <;> intro h <;> linarith

theorem le_avg {a : Bound K} {p q : K} (h1 : a ≤ fin p) (h2 : a ≤ fin q) : a ≤ fin ((p + q) / 2) := by
  rcases le_total p q with h | h
  · exact le_trans h1 (by rw [fin_le_fin]; linarith)
  · exact le_trans h2 (by rw [fin_le_fin]; linarith)

/-- shifting and renaming the indices of a strongly closed matrix -/
theorem SC_shift {dim : ℕ} {A A' : ℕ → ℕ → Bound K} (hA : SC dim A) (σ : ℕ → ℕ)
    (hσl : ∀ i, i < 2 * dim → σ i < 2 * dim) (hσx : ∀ i, σ (i ^^^ 1) = σ i ^^^ 1)
    (r : ℕ → Bound K) (hr : ∀ p ρ ρ', r p ≤ fin ρ → r (p ^^^ 1) ≤ fin ρ' → 0 ≤ ρ + ρ')
    (hne : ∀ i j, A' i j ≠ ninf) (hdiag : ∀ i, i < 2 * dim → A' i i = fin 0) (hcoh : Coh A')
    (hout : ∀ i j a, A' i j ≤ fin a → i < 2 * dim ∧ j < 2 * dim)
    (h : ∀ i j a, i < 2 * dim → j < 2 * dim → i ≠ j → (A' i j ≤ fin a ↔ ∃ α ρ τ, A (σ i) (σ j) ≤ fin α ∧
      r i ≤ fin ρ ∧ r (j ^^^ 1) ≤ fin τ ∧ α + ρ + τ ≤ a)) : SC dim A' := by
  have hd0 : ∀ i a, A' i i ≤ fin a → 0 ≤ a := fun i a h' => by
    rw [hdiag i (hout _ _ _ h').1] at h'; simpa using h'
  have mono : ∀ i j a b, A' i j ≤ fin a → a ≤ b → A' i j ≤ fin b := fun i j a b h1 h2 =>
    le_trans h1 (by simpa using h2)
  refine ⟨hne, hdiag, hcoh, fun p i j a b ha hb => ?_, fun i j a b ha hb => ?_⟩
  · obtain ⟨hi, hp⟩ := hout _ _ _ ha
    obtain ⟨-, hj⟩ := hout _ _ _ hb
    by_cases e1 : i = p
    · subst e1; exact mono _ _ _ _ hb (by linarith [hd0 _ _ ha])
    by_cases e2 : p = j
    · subst e2; exact mono _ _ _ _ ha (by linarith [hd0 _ _ hb])
    obtain ⟨α, ρ, τ, a1, a2, a3, a4⟩ := (h i p a hi hp e1).1 ha
    obtain ⟨β, ρ', τ', b1, b2, b3, b4⟩ := (h p j b hp hj e2).1 hb
    have hA' := hA.tri (σ p) (σ i) (σ j) α β a1 b1
    have hp0 := hr p ρ' τ b2 a3
    by_cases e3 : i = j
    · subst e3
      rw [hdiag i hi, fin_le_fin]
      rw [hA.diag _ (hσl i hi), fin_le_fin] at hA'
      have := hr i ρ τ' a2 b3
      linarith
    · exact (h i j _ hi hj e3).2 ⟨α + β, ρ, τ', hA', a2, b3, by linarith⟩
  · obtain ⟨hi, hi'⟩ := hout _ _ _ ha
    obtain ⟨hj', hj⟩ := hout _ _ _ hb
    obtain ⟨α, ρ, ρ', a1, a2, a3, a4⟩ := (h i (i ^^^ 1) a hi hi' (xor1_ne i).symm).1 ha
    obtain ⟨β, τ, τ', b1, b2, b3, b4⟩ := (h (j ^^^ 1) j b hj' hj (xor1_ne j)).1 hb
    rw [hσx] at a1 b1
    rw [xor1_xor1] at a3
    by_cases e : i = j
    · subst e
      rw [hdiag i hi, fin_le_fin]
      have h1 := hA.tri (σ i ^^^ 1) (σ i) (σ i) α β a1 b1
      rw [hA.diag _ (hσl i hi), fin_le_fin] at h1
      have h2 := hr i ρ τ a2 b2
      have h3 := hr i ρ' τ' a3 b3
      linarith
    · refine (h i j _ hi hj e).2 ⟨_, _, _, hA.strong _ _ _ _ a1 b1, le_avg a2 a3, le_avg b2 b3, ?_⟩
      linarith

/-- independent choice of the value of dimension `d` -/
theorem SC_zero {dim d : ℕ} {A A' : ℕ → ℕ → Bound K} (hA : SC dim A) (w : ℕ → Bound K)
    (hw : ∀ p ρ ρ', w p ≤ fin ρ → w (p ^^^ 1) ≤ fin ρ' → 0 ≤ ρ + ρ')
    (hwA : ∀ p a, p / 2 ≠ d → (w p ≤ fin a ↔ A (p ^^^ 1) p ≤ fin (2 * a)))
    (hne : ∀ i j, A' i j ≠ ninf) (hdiag : ∀ i, i < 2 * dim → A' i i = fin 0) (hcoh : Coh A')
    (hout : ∀ i j a, A' i j ≤ fin a → i < 2 * dim ∧ j < 2 * dim)
    (h : ∀ i j a, i < 2 * dim → j < 2 * dim → i ≠ j → (i / 2 = d ∨ j / 2 = d) →
      (A' i j ≤ fin a ↔ ∃ α β, w (i ^^^ 1) ≤ fin α ∧ w j ≤ fin β ∧ α + β ≤ a))
    (h' : ∀ i j, i / 2 ≠ d → j / 2 ≠ d → A' i j = A i j) : SC dim A' := by
  have hd0 : ∀ i a, A' i i ≤ fin a → 0 ≤ a := fun i a h' => by
    rw [hdiag i (hout _ _ _ h').1] at h'; simpa using h'
  have mono : ∀ i j a b, A' i j ≤ fin a → a ≤ b → A' i j ≤ fin b := fun i j a b h1 h2 =>
    le_trans h1 (by simpa using h2)
  -- bounds implied by the unary bounds
  have hun : ∀ i j α β, i < 2 * dim → j < 2 * dim → w (i ^^^ 1) ≤ fin α → w j ≤ fin β → A' i j ≤ fin (α + β) := by
    intro i j α β hi hj h1 h2
    by_cases e : i = j
    · subst e
      rw [hdiag i hi, fin_le_fin]
      have := hw i β α h2 h1; linarith
    · by_cases ed : i / 2 = d ∨ j / 2 = d
      · exact (h i j _ hi hj e ed).2 ⟨α, β, h1, h2, le_refl _⟩
      · push Not at ed
        rw [h' i j ed.1 ed.2]
        rw [hwA _ _ (by rw [xor1_div]; exact ed.1), xor1_xor1] at h1
        rw [hwA _ _ ed.2] at h2
        have := hA.strong i j _ _ h1 h2
        rwa [show (2 * α + 2 * β) / 2 = α + β by ring] at this
  -- moving a unary bound along an edge
  have hstep : ∀ i p a β, i ≠ p → A' i p ≤ fin a → w i ≤ fin β → w p ≤ fin (a + β) := by
    intro i p a β hip ha hb
    obtain ⟨hi, hp⟩ := hout _ _ _ ha
    by_cases ed : i / 2 = d ∨ p / 2 = d
    · obtain ⟨α', β', h1, h2, h3⟩ := (h i p a hi hp hip ed).1 ha
      have := hw i β α' hb h1
      exact le_trans h2 (by rw [fin_le_fin]; linarith)
    · push Not at ed
      rw [h' i p ed.1 ed.2] at ha
      rw [hwA _ _ ed.1] at hb
      rw [hwA _ _ ed.2]
      have h1 := hA.tri i (i ^^^ 1) p _ _ hb ha
      have h2 : A (p ^^^ 1) (i ^^^ 1) ≤ fin a := by rw [← hA.coh]; exact ha
      have := hA.tri (i ^^^ 1) (p ^^^ 1) p _ _ h2 h1
      rwa [show a + (2 * β + a) = 2 * (a + β) by ring] at this
  refine ⟨hne, hdiag, hcoh, fun p i j a b ha hb => ?_, fun i j a b ha hb => ?_⟩
  · obtain ⟨hi, hp⟩ := hout _ _ _ ha
    obtain ⟨-, hj⟩ := hout _ _ _ hb
    by_cases e1 : i = p
    · subst e1; exact mono _ _ _ _ hb (by linarith [hd0 _ _ ha])
    by_cases e2 : p = j
    · subst e2; exact mono _ _ _ _ ha (by linarith [hd0 _ _ hb])
    by_cases c1 : i / 2 = d ∨ p / 2 = d
    · obtain ⟨α, β, h1, h2, h3⟩ := (h i p a hi hp e1 c1).1 ha
      exact mono _ _ _ _ (hun i j α (b + β) hi hj h1 (hstep p j b β e2 hb h2)) (by linarith)
    · push Not at c1
      by_cases c2 : j / 2 = d
      · obtain ⟨α, β, h1, h2, h3⟩ := (h p j b hp hj e2 (Or.inr c2)).1 hb
        have ha' : A' (p ^^^ 1) (i ^^^ 1) ≤ fin a := by rw [← hcoh]; exact ha
        have := hstep (p ^^^ 1) (i ^^^ 1) a α (fun e => e1 (by rw [← xor1_xor1 i, ← e, xor1_xor1])) ha' h1
        exact mono _ _ _ _ (hun i j (a + α) β hi hj this h2) (by linarith)
      · rw [h' i p c1.1 c1.2] at ha
        rw [h' p j c1.2 c2] at hb
        rw [h' i j c1.1 c2]
        exact hA.tri p i j a b ha hb
  · obtain ⟨hi, hi'⟩ := hout _ _ _ ha
    obtain ⟨hj', hj⟩ := hout _ _ _ hb
    have key : ∀ p a, A' (p ^^^ 1) p ≤ fin a → w p ≤ fin (a / 2) := by
      intro p a hp
      obtain ⟨k1, k2⟩ := hout _ _ _ hp
      by_cases ed : p / 2 = d
      · obtain ⟨α, β, h1, h2, h3⟩ := (h _ _ a k1 k2 (xor1_ne p) (Or.inr ed)).1 hp
        rw [xor1_xor1] at h1
        refine le_trans (le_avg h1 h2) (by rw [fin_le_fin]; linarith)
      · rw [h' _ _ (by rw [xor1_div]; exact ed) ed] at hp
        rw [hwA _ _ ed, show 2 * (a / 2) = a by ring]
        exact hp
    have h1 := key (i ^^^ 1) a (by rw [xor1_xor1]; exact ha)
    have h2 := key j b hb
    rw [show (a + b) / 2 = a / 2 + b / 2 by ring]
    exact hun i j _ _ hi hj h1 h2

/-- extending an entry-wise property from the stored cells to the whole view -/
theorem by_cells {dim : ℕ} {P : ℕ → ℕ → Prop} (hc : ∀ i j, i < 2 * dim → j < 2 * dim → Cell i j → P i j)
    (hs : ∀ i j, P (j ^^^ 1) (i ^^^ 1) → P i j) (i j : ℕ) (hi : i < 2 * dim) (hj : j < 2 * dim) : P i j := by
  rcases cell_or_mirror i j with h | h
  · exact hc i j hi hj h
  · exact hs i j (hc _ _ (xor1_lt hj) (xor1_lt hi) h)

/-- the bound added to row `i` -/
def rd (d : ℕ) (dst : ℕ → Bound K) (i : ℕ) : Bound K := if i / 2 = d then rr dst i else fin 0

theorem rr_xor (dst : ℕ → Bound K) (j : ℕ) : rr dst (j ^^^ 1) = ss dst j := by
  unfold rr ss; rw [xor1_mod]

theorem rd_nonneg {d : ℕ} {dst : ℕ → Bound K} {q : K} (hq : InD dst 0 q) (p : ℕ) (ρ ρ' : K)
    (h : rd d dst p ≤ fin ρ) (h' : rd d dst (p ^^^ 1) ≤ fin ρ') : 0 ≤ ρ + ρ' := by
  unfold rd at h h'
  rw [xor1_div, rr_xor] at h'
  split_ifs at h h' with e
  · have h1 := le_trans (rr_ge (x := fun _ => q) (v := q) hq e rfl) h
    have h2 := le_trans (ss_ge (j := p) hq rfl) h'
    rw [fin_le_fin] at h1 h2
    split_ifs at h1 h2 <;> linarith
  · rw [fin_le_fin] at h h'; linarith

theorem rd_ne {d : ℕ} {dst : ℕ → Bound K} {q : K} (hq : InD dst 0 q) (p : ℕ) : rd d dst p ≠ ninf := by
  unfold rd rr
  split_ifs
  · rcases Nat.mod_two_eq_zero_or_one p with h | h <;> rw [h]
    · exact hq.ne.1
    · exact hq.ne.2
  · simp

/-- common part of `X <- ±X + [-a,b]`: from the cells to strong closure -/
theorem SC_of_cells {dim d : ℕ} {m m' : Mem K} (hA : SC dim (G dim m)) (hg : OctT.Good dim m')
    {dst : ℕ → Bound K} {q : K} (hq : InD dst 0 q) (σ : ℕ → ℕ)
    (hσl : ∀ i, i < 2 * dim → σ i < 2 * dim) (hσx : ∀ i, σ (i ^^^ 1) = σ i ^^^ 1)
    (hdiag : ∀ i, i < 2 * dim → m' (matpos i i) = m (matpos i i))
    (h : ∀ i j, i < 2 * dim → Cell i j → i ≠ j → m' (matpos i j) =
      if i / 2 = d ∧ j / 2 < d then add Rnd.exact (G dim m (σ i) (σ j)) (rr dst i)
      else if j / 2 = d ∧ d < i / 2 then add Rnd.exact (G dim m (σ i) (σ j)) (ss dst j)
      else if i / 2 = d ∧ j = i ^^^ 1 then add Rnd.exact (G dim m (σ i) (σ j)) (mul2 Rnd.exact (rr dst i))
      else G dim m (σ i) (σ j)) : SC dim (G dim m') := by
  have hAne := hA.ne
  refine SC_shift hA σ hσl hσx (rd d dst) (fun p ρ ρ' => rd_nonneg hq p ρ ρ') (G_ne hg.ne)
    (fun i hi => ?_) (G_coh hg.coh) (fun i j a h => G_lt h) (fun i j a hi hj => ?_)
  · rw [G_cell m' hi (cell_refl i), hdiag i hi, ← G_cell m hi (cell_refl i), hA.diag i hi]
  · revert a
    refine by_cells (dim := dim) (P := fun i j => ∀ a, i ≠ j → (G dim m' i j ≤ fin a ↔
      ∃ α ρ τ, G dim m (σ i) (σ j) ≤ fin α ∧ rd d dst i ≤ fin ρ ∧ rd d dst (j ^^^ 1) ≤ fin τ ∧ α + ρ + τ ≤ a))
      (fun i j hi hj hc a hij => ?_) (fun i j hP a hij => ?_) i j hi hj
    · rw [G_cell m' hi hc, h i j hi hc hij]
      have hrn := rd_ne (d := d) hq i
      have hsn := rd_ne (d := d) hq (j ^^^ 1)
      by_cases e1 : i / 2 = d ∧ j / 2 < d
      · rw [if_pos e1]
        have k1 : rd d dst i = rr dst i := by unfold rd; rw [if_pos e1.1]
        have k2 : rd d dst (j ^^^ 1) = fin 0 := by unfold rd; rw [xor1_div, if_neg (by omega)]
        rw [k1] at hrn ⊢
        rw [k2, add_le_iff (hAne _ _) hrn]
        constructor
        · rintro ⟨y, z, h1, h2, h3⟩
          exact ⟨y, z, 0, h1, h2, le_refl _, by linarith⟩
        · rintro ⟨α, ρ, τ, h1, h2, h3, h4⟩
          rw [fin_le_fin] at h3
          exact ⟨α, ρ, h1, h2, by linarith⟩
      · rw [if_neg e1]
        by_cases e2 : j / 2 = d ∧ d < i / 2
        · rw [if_pos e2]
          have k1 : rd d dst i = fin 0 := by unfold rd; rw [if_neg (by omega)]
          have k2 : rd d dst (j ^^^ 1) = ss dst j := by unfold rd; rw [xor1_div, if_pos e2.1, rr_xor]
          rw [k2] at hsn ⊢
          rw [k1, add_le_iff (hAne _ _) hsn]
          constructor
          · rintro ⟨y, z, h1, h2, h3⟩
            exact ⟨y, 0, z, h1, le_refl _, h2, by linarith⟩
          · rintro ⟨α, ρ, τ, h1, h2, h3, h4⟩
            rw [fin_le_fin] at h2
            exact ⟨α, τ, h1, h3, by linarith⟩
        · rw [if_neg e2]
          by_cases e3 : i / 2 = d ∧ j = i ^^^ 1
          · rw [if_pos e3]
            have k1 : rd d dst i = rr dst i := by unfold rd; rw [if_pos e3.1]
            have k2 : rd d dst (j ^^^ 1) = rr dst i := by rw [e3.2, xor1_xor1, k1]
            rw [k1] at hrn ⊢
            rw [k2, add_le_iff (hAne _ _) (mul2_ne Rnd.exact hrn)]
            constructor
            · rintro ⟨y, z, h1, h2, h3⟩
              rw [mul2_le_iff hrn] at h2
              exact ⟨y, z / 2, z / 2, h1, h2, h2, by linarith⟩
            · rintro ⟨α, ρ, τ, h1, h2, h3, h4⟩
              refine ⟨α, ρ + τ, h1, ?_, by linarith⟩
              rw [mul2_le_iff hrn]
              exact le_avg h2 h3
          · rw [if_neg e3]
            have : i / 2 ≠ d ∧ j / 2 ≠ d := by
              have := xor1 i
              unfold Cell at hc
              split_ifs at this <;> omega
            have k1 : rd d dst i = fin 0 := by unfold rd; rw [if_neg this.1]
            have k2 : rd d dst (j ^^^ 1) = fin 0 := by unfold rd; rw [xor1_div, if_neg this.2]
            rw [k1, k2]
            constructor
            · intro h1
              exact ⟨a, 0, 0, h1, le_refl _, le_refl _, by linarith⟩
            · rintro ⟨α, ρ, τ, h1, h2, h3, h4⟩
              rw [fin_le_fin] at h2 h3
              exact le_trans h1 (by rw [fin_le_fin]; linarith)
    · have hij' : j ^^^ 1 ≠ i ^^^ 1 := fun e => hij (by rw [← xor1_xor1 i, ← e, xor1_xor1])
      have := hP a hij'
      rw [← G_coh hg.coh i j, hσx, hσx, ← hA.coh, xor1_xor1] at this
      rw [this]
      constructor
      · rintro ⟨α, ρ, τ, h1, h2, h3, h4⟩
        exact ⟨α, τ, ρ, h1, h3, h2, by linarith⟩
      · rintro ⟨α, ρ, τ, h1, h2, h3, h4⟩
        exact ⟨α, τ, ρ, h1, h3, h2, by linarith⟩

theorem SC_assignShift {dim d : ℕ} (hd : d < dim) {m : Mem K} (hA : SC dim (G dim m))
    {dst : ℕ → Bound K} {q : K} (hq : InD dst 0 q) :
    SC dim (G dim (assignShift Rnd.exact dst dim d m)) := by
  have hg := good_shift Rnd.exact hd (OctT.SC_good hA) hq.ne.1 hq.ne.2
  refine SC_of_cells (d := d) hA hg hq id (fun i hi => hi) (fun i => rfl) (fun i hi => ?_) (fun i j hi hc hij => ?_)
  · have := xor1_ne i
    rw [assignShift_cell _ dst hd m hi (cell_refl i), if_neg (by omega), if_neg (by omega), if_neg (by omega)]
  · rw [assignShift_cell _ dst hd m hi hc]
    simp only [id, G_cell m hi hc]

theorem sw_lt {d i dim : ℕ} (hi : i < 2 * dim) : sw d i < 2 * dim := by
  unfold sw; split_ifs
  · exact xor1_lt hi
  · exact hi

theorem sw_xor (d i : ℕ) : sw d (i ^^^ 1) = sw d i ^^^ 1 := by
  unfold sw; rw [xor1_div]; split_ifs <;> rfl

theorem SC_assignNeg {dim d : ℕ} (hd : d < dim) {m : Mem K} (hA : SC dim (G dim m))
    {dst : ℕ → Bound K} {q : K} (hq : InD dst 0 q) :
    SC dim (G dim (assignNeg Rnd.exact dst dim d m)) := by
  have hg := good_neg Rnd.exact hd (OctT.SC_good hA) hq.ne.1 hq.ne.2
  refine SC_of_cells (d := d) hA hg hq (sw d) (fun i hi => sw_lt hi) (sw_xor d) (fun i hi => ?_)
    (fun i j hi hc hij => ?_)
  · have := xor1_ne i
    rw [assignNeg_cell _ dst hd m hi (cell_refl i), if_neg (by omega), if_neg (by omega), if_neg (by omega)]
  · rw [assignNeg_cell _ dst hd m hi hc]
    have hdi := xor1_div i
    have hdj := xor1_div j
    by_cases e1 : i / 2 = d ∧ j / 2 < d
    · rw [if_pos e1, if_pos e1, ← G_cell m (xor1_lt hi) (by unfold Cell at *; omega)]
      unfold sw; rw [if_pos e1.1, if_neg (by omega)]
    · rw [if_neg e1, if_neg e1]
      by_cases e2 : j / 2 = d ∧ d < i / 2
      · rw [if_pos e2, if_pos e2, ← G_cell m hi (by unfold Cell at *; omega)]
        unfold sw; rw [if_neg (by omega), if_pos e2.1]
      · rw [if_neg e2, if_neg e2]
        by_cases e3 : i / 2 = d ∧ j = i ^^^ 1
        · rw [if_pos e3, if_pos e3]
          obtain ⟨e3, rfl⟩ := e3
          rw [← G_cell m (xor1_lt hi) (cell_xor_self i)]
          unfold sw; rw [if_pos e3, hdi, if_pos e3, xor1_xor1]
        · rw [if_neg e3, if_neg e3, ← G_cell m hi hc]
          have : i / 2 ≠ d ∧ j / 2 ≠ d := by
            have := xor1 i
            unfold Cell at hc
            split_ifs at this <;> omega
          unfold sw; rw [if_neg this.1, if_neg this.2]

theorem SC_assignZero {dim d : ℕ} (hd : d < dim) {m : Mem K} (hA : SC dim (G dim m))
    {dst : ℕ → Bound K} {q : K} (hq : InD dst 0 q) :
    SC dim (G dim (((assignZeroClosed Rnd.exact dst dim d m).set (matpos (2 * d) (2 * d + 1))
      (mul2 Rnd.exact (dst 0))).set (matpos (2 * d + 1) (2 * d)) (mul2 Rnd.exact (dst 1)))) := by
  have hg0 := OctT.SC_good hA
  have hg1 := good_zeroClosed Rnd.exact hd hg0 hq.ne.1 hq.ne.2
  have hg := good_set (good_set hg1 (cell_un d).2 (by omega) (mul2_ne Rnd.exact hq.ne.1)) (cell_un d).1 (by omega)
    (mul2_ne Rnd.exact hq.ne.2)
  set m' := ((assignZeroClosed Rnd.exact dst dim d m).set (matpos (2 * d) (2 * d + 1))
      (mul2 Rnd.exact (dst 0))).set (matpos (2 * d + 1) (2 * d)) (mul2 Rnd.exact (dst 1)) with hm'
  have hcell : ∀ i j, i < 2 * dim → Cell i j → m' (matpos i j) =
      if i / 2 = d ∧ j / 2 = d ∧ i ≠ j then mul2 Rnd.exact (ss dst j)
      else if i / 2 = d ∧ j / 2 < d then add Rnd.exact (div2 Rnd.exact (m (matpos (j ^^^ 1) j))) (rr dst i)
      else if j / 2 = d ∧ d < i / 2 then add Rnd.exact (div2 Rnd.exact (m (matpos i (i ^^^ 1)))) (ss dst j)
      else m (matpos i j) := by
    intro i j hi hc
    by_cases e1 : i / 2 = d ∧ j / 2 = d ∧ i ≠ j
    · rw [if_pos e1, hm']
      rcases Nat.mod_two_eq_zero_or_one j with hj | hj
      · have : j = 2 * d := by omega
        subst this
        have : i = 2 * d + 1 := by omega
        subst this
        rw [Mem.set_self]; unfold ss; rw [hj]
      · have : j = 2 * d + 1 := by omega
        subst this
        have : i = 2 * d := by omega
        subst this
        rw [Mem.set_ne _ _ (unary_ne d).symm, Mem.set_self]; unfold ss; rw [hj]
    · rw [if_neg e1, hm', Mem.set_ne _ _ (matpos_ne hc (cell_un d).1 (by omega)),
        Mem.set_ne _ _ (matpos_ne hc (cell_un d).2 (by omega)), assignZeroClosed_cell _ dst m hi hc]
  have hAne := hA.ne
  set w : ℕ → Bound K := fun j => if j / 2 = d then ss dst j else div2 Rnd.exact (G dim m (j ^^^ 1) j) with hw
  have hssne : ∀ j, ss dst j ≠ ninf := fun j => by
    unfold ss
    rcases Nat.mod_two_eq_zero_or_one j with h | h <;> rw [h]
    · exact hq.ne.2
    · exact hq.ne.1
  refine SC_zero (d := d) hA w (fun p ρ ρ' h1 h2 => ?_) (fun p a hp => ?_) (G_ne hg.ne) (fun i hi => ?_) (G_coh hg.coh)
    (fun i j a h => G_lt h) (fun i j a hi hj => ?_) (fun i j hi hj => ?_)
  · simp only [hw] at h1 h2
    rw [xor1_div, xor1_xor1] at h2
    split_ifs at h1 h2 with e
    · have k1 := le_trans (ss_ge (j := p) hq rfl) h1
      rw [← rr_xor, xor1_xor1] at h2
      have k2 := le_trans (rr_ge (x := fun _ => q) (v := q) hq e rfl) h2
      rw [fin_le_fin] at k1 k2
      split_ifs at k1 k2 <;> linarith
    · have k1 := div2_exact_le (hAne _ _) h1
      have k2 := div2_exact_le (hAne _ _) h2
      have := hA.tri (p ^^^ 1) p p _ _ k2 k1
      rw [hA.diag _ (G_lt k2).1, fin_le_fin] at this
      linarith
  · simp only [hw]
    rw [if_neg hp]
    constructor
    · exact div2_exact_le (hAne _ _)
    · intro h; have := le_div2_exact h; rwa [show 2 * a / 2 = a by ring] at this
  · rw [G_cell m' hi (cell_refl i), hcell i i hi (cell_refl i), if_neg (by simp), if_neg (by omega),
      if_neg (by omega), ← G_cell m hi (cell_refl i), hA.diag i hi]
  · revert a
    refine by_cells (dim := dim) (P := fun i j => ∀ a, i ≠ j → (i / 2 = d ∨ j / 2 = d) → (G dim m' i j ≤ fin a ↔
      ∃ α β, w (i ^^^ 1) ≤ fin α ∧ w j ≤ fin β ∧ α + β ≤ a)) (fun i j hi hj hc a hij hd' => ?_)
      (fun i j hP a hij hd' => ?_) i j hi hj
    · rw [G_cell m' hi hc, hcell i j hi hc]
      simp only [hw]
      rw [xor1_div, xor1_xor1]
      by_cases e1 : i / 2 = d ∧ j / 2 = d ∧ i ≠ j
      · have hji : i ^^^ 1 = j := by
          have := xor1 i
          split_ifs at this <;> omega
        rw [if_pos e1, if_pos e1.1, if_pos e1.2.1, hji, mul2_le_iff (hssne j)]
        constructor
        · intro h; exact ⟨a / 2, a / 2, h, h, by linarith⟩
        · rintro ⟨α, β, h1, h2, h3⟩
          exact le_trans (le_avg h1 h2) (by rw [fin_le_fin]; linarith)
      · rw [if_neg e1]
        by_cases e2 : i / 2 = d ∧ j / 2 < d
        · rw [if_pos e2, if_pos e2.1, if_neg (by omega), ← rr_xor, xor1_xor1,
            ← G_cell m (xor1_lt hj) (cell_xor_self j)]
          have hrn : rr dst i ≠ ninf := by
            have := hssne (i ^^^ 1); rwa [← rr_xor, xor1_xor1] at this
          rw [add_le_iff (div2_exact_ne (hAne _ _)) hrn]
          constructor
          · rintro ⟨y, z, h1, h2, h3⟩; exact ⟨z, y, h2, h1, by linarith⟩
          · rintro ⟨α, β, h1, h2, h3⟩; exact ⟨β, α, h2, h1, by linarith⟩
        · rw [if_neg e2]
          have e3 : j / 2 = d ∧ d < i / 2 := by unfold Cell at hc; omega
          rw [if_pos e3, if_neg (by omega), if_pos e3.1, ← G_cell m hi (cell_self_xor i),
            add_le_iff (div2_exact_ne (hAne _ _)) (hssne j)]
    · have hij' : j ^^^ 1 ≠ i ^^^ 1 := fun e => hij (by rw [← xor1_xor1 i, ← e, xor1_xor1])
      have := hP a hij' (by rw [xor1_div, xor1_div]; tauto)
      rw [← G_coh hg.coh i j, xor1_xor1] at this
      rw [this]
      constructor
      · rintro ⟨α, β, h1, h2, h3⟩; exact ⟨β, α, h2, h1, by linarith⟩
      · rintro ⟨α, β, h1, h2, h3⟩; exact ⟨β, α, h2, h1, by linarith⟩
  · by_cases hl : i < 2 * dim ∧ j < 2 * dim
    · revert hi hj
      refine by_cells (dim := dim) (P := fun i j => i / 2 ≠ d → j / 2 ≠ d → G dim m' i j = G dim m i j)
        (fun i j hi hj hc h1 h2 => ?_) (fun i j hP h1 h2 => ?_) i j hl.1 hl.2
      · rw [G_cell m' hi hc, hcell i j hi hc, if_neg (by omega), if_neg (by omega), if_neg (by omega),
          G_cell m hi hc]
      · have := hP (by rwa [xor1_div]) (by rwa [xor1_div])
        rwa [← G_coh hg.coh i j, ← hA.coh i j] at this
    · unfold G; rw [if_neg hl, if_neg hl]

/-- the representation invariant after `hmat_assign` -/
theorem hmatAssign_inv {dim d : ℕ} (hd : d < dim) {u : UExpr} {dst : ℕ → Bound K} {m : Mem K}
    (hm : OctT.Good dim m) (hcl : ClassOk (fun i => i < dim) u dst) {q : K} (hq : InD dst 0 q)
    {respect : Bool} (hr : respect = true → SC dim (G dim m)) :
    ((hmatAssign Rnd.exact u dst dim d m respect).2 = true →
      SC dim (G dim (hmatAssign Rnd.exact u dst dim d m respect).1)) ∧
    ((hmatAssign Rnd.exact u dst dim d m respect).2 = false →
      OctT.Good dim (hmatAssign Rnd.exact u dst dim d m respect).1) := by
  unfold hmatAssign
  unfold ClassOk at hcl
  have n0 := hq.ne.1
  have n1 := hq.ne.2
  rw [zero_add] at n1
  by_cases t1 : u.type = .zero
  · rw [if_pos t1]
    cases respect with
    | false =>
      exact ⟨fun h => by simp at h, fun _ => good_set (good_set (good_forget hm d) (cell_un d).2 (by omega)
        (mul2_ne _ n0)) (cell_un d).1 (by omega) (mul2_ne _ n1)⟩
    | true => exact ⟨fun _ => SC_assignZero hd (hr rfl) hq, fun h => by simp at h⟩
  rw [if_neg t1]
  by_cases t2 : u.type = .unary ∧ u.i ≠ d
  · rw [if_pos t2]
    rw [t2.1] at hcl
    obtain ⟨hi, hu, hz⟩ := hcl
    set k := signed u.i u.coefI with hk
    have hkd : k / 2 = u.i := signed_div _ _
    have hg := good_set2 (good_set2 (good_forget hm d) (show 2 * d ≠ k by omega) n0) (show k ≠ 2 * d by omega) n1
    cases respect with
    | false => exact ⟨fun h => by simp at h, fun _ => hg⟩
    | true =>
      refine ⟨fun _ => ?_, fun h => by simp at h⟩
      have hsc := hr rfl
      simp only [if_true]
      refine closeIncremental_SC hd hg.ne hg.coh (closedOff_of_SC hsc fun i j hi hc h1 h2 => ?_) ?_
      · have e1 : matpos i j ≠ matpos2 k (2 * d) := fun e => by
          have := xor1_div i; have := xor1_div j
          rcases pos_eq_cases hc e.symm with ⟨h3, h4⟩ | ⟨h3, h4⟩ <;> omega
        have e2 : matpos i j ≠ matpos2 (2 * d) k := fun e => by
          have := xor1_div i; have := xor1_div j
          rcases pos_eq_cases hc e.symm with ⟨h3, h4⟩ | ⟨h3, h4⟩ <;> omega
        rw [Mem.set_ne _ _ e1, Mem.set_ne _ _ e2, forgetVar_cell false m hi hc, if_neg (by omega)]
      · obtain ⟨x, hx⟩ := hsc.nonempty
        have hVk : V (Function.update x d (V x k + q)) k = V x k := V_update_ne _ _ (by omega)
        refine (closeIncremental_sat Rnd.exact hd (x := Function.update x d (V x k + q)) ?_).1
        refine ((forgetVar_sat hx _).set2 ?_).set2 ?_
        · rw [hVk, V_even, Function.update_self, show V x k - (V x k + q) = -q by ring]; exact hq.1
        · rw [hVk, V_even, Function.update_self, show V x k + q - V x k = q by ring]; exact hq.2
  rw [if_neg t2]
  by_cases t3 : u.type = .unary ∧ u.coefI = -1
  · rw [if_pos t3]
    cases respect with
    | false => exact ⟨fun h => by simp at h, fun _ => good_neg _ hd hm n0 n1⟩
    | true => exact ⟨fun _ => SC_assignNeg hd (hr rfl) hq, fun h => by simp at h⟩
  rw [if_neg t3]
  by_cases t4 : u.type = .unary ∧ u.coefI = 1
  · rw [if_pos t4]
    cases respect with
    | false => exact ⟨fun h => by simp at h, fun _ => good_shift _ hd hm n0 n1⟩
    | true => exact ⟨fun _ => SC_assignShift hd (hr rfl) hq, fun h => by simp at h⟩
  · rw [if_neg t4]
    exact ⟨fun h => by simp at h, fun _ => good_gen _ hm n0 n1⟩

end Oct
end Apron
