import Verif.Oct.ClosureComplete
import Mathlib.Data.Finset.Max

/-! # Helper lemmas: the strengthening step, strong closure, tightness of strongly closed matrices -/

set_option autoImplicit false
set_option linter.unusedSectionVars false
set_option linter.ambiguousOpen false

namespace Apron
namespace Oct
open Bound
variable {K : Type*} [LinearOrder K] [Field K] [IsStrictOrderedRing K]
variable {A : ℕ → ℕ → Bound K} {dim : ℕ}

/-- a strongly closed matrix -/
structure SC (dim : ℕ) (M : ℕ → ℕ → Bound K) : Prop where
  ne : ∀ i j, M i j ≠ ninf
  diag : ∀ i, i < 2 * dim → M i i = fin 0
  coh : Coh M
  tri : ∀ p, ClosedAt M p
  strong : ∀ i j a b, M i (i ^^^ 1) ≤ fin a → M (j ^^^ 1) j ≤ fin b → M i j ≤ fin ((a + b) / 2)

theorem div2_exact_le {a : Bound K} {x : K} (ha : a ≠ ninf) (h : div2 Rnd.exact a ≤ fin x) :
    a ≤ fin (2 * x) := by
  cases a <;> simp_all [div2]
  linarith

theorem le_div2_exact {a : Bound K} {x : K} (h : a ≤ fin x) : div2 Rnd.exact a ≤ fin (x / 2) := by
  cases a <;> simp_all [div2]
  linarith

theorem div2_exact_ne {a : Bound K} (ha : a ≠ ninf) : div2 Rnd.exact a ≠ ninf := by
  cases a <;> simp_all [div2]

/-- the strengthened matrix, by upper sets -/
def SU (A : ℕ → ℕ → Bound K) (i j : ℕ) (x : K) : Prop :=
  A i j ≤ fin x ∨ ∃ a b, A i (i ^^^ 1) ≤ fin a ∧ A (j ^^^ 1) j ≤ fin b ∧ (a + b) / 2 ≤ x

theorem SU_unary {i : ℕ} {x : K} (h : SU A i (i ^^^ 1) x) : A i (i ^^^ 1) ≤ fin x := by
  rcases h with h | ⟨a, b, h1, h2, h3⟩
  · exact h
  · rw [xor1_xor1] at h2
    rcases le_total a b with hab | hab
    · exact le_trans h1 (by simp; linarith)
    · exact le_trans h2 (by simp; linarith)

theorem SU_unary' {j : ℕ} {x : K} (h : SU A (j ^^^ 1) j x) : A (j ^^^ 1) j ≤ fin x := by
  have := SU_unary (A := A) (i := j ^^^ 1) (x := x) (by simpa using h)
  simpa using this

theorem SU_coh (hc : Coh A) {i j : ℕ} {x : K} (h : SU A i j x) : SU A (j ^^^ 1) (i ^^^ 1) x := by
  rcases h with h | ⟨a, b, h1, h2, h3⟩
  · left; rw [← hc i j]; exact h
  · right; refine ⟨b, a, by simpa using h2, by simpa using h1, by linarith⟩

theorem SU_mono {i j : ℕ} {x y : K} (hxy : x ≤ y) (h : SU A i j x) : SU A i j y := by
  rcases h with h | ⟨a, b, h1, h2, h3⟩
  · exact Or.inl (le_trans h (by simpa using hxy))
  · exact Or.inr ⟨a, b, h1, h2, le_trans h3 hxy⟩

def SLB (dim : ℕ) (A : ℕ → ℕ → Bound K) (m : Mem K) : Prop :=
  NoNinf dim m ∧ ∀ i j x, G dim m i j ≤ fin x → SU A i j x

theorem sCell_SLB (hc : Coh A) {m : Mem K} (h : SLB dim A m) {i j : ℕ} (hi : i < 2 * dim)
    (hcell : Cell i j) {u : Bound K} (hu : u ≠ ninf) (h1 : ∀ x, u ≤ fin x → A i (i ^^^ 1) ≤ fin (2 * x)) :
    SLB dim A (sCell Rnd.exact i u m j) := by
  have hj : j < 2 * dim := by unfold Cell at hcell; omega
  have hjn := h.1 _ (matpos_lt (xor1_lt hj) (cell_xor_self j))
  unfold sCell
  refine ⟨h.1.bmin (add_exact_ne (div2_exact_ne hjn) hu), fun i' j' x hx => ?_⟩
  have key : add Rnd.exact (div2 Rnd.exact (m (matpos (j ^^^ 1) j))) u ≤ fin x → SU A i j x := by
    intro hv
    obtain ⟨y, z, hy, hz, hyz⟩ := add_exact_le (div2_exact_ne hjn) hu hv
    have hy' := div2_exact_le hjn hy
    rw [← G_cell m (xor1_lt hj) (cell_xor_self j)] at hy'
    exact Or.inr ⟨2 * z, 2 * y, h1 z hz, SU_unary' (h.2 _ _ _ hy'), by linarith⟩
  rcases G_bmin hcell hx with h' | ⟨h', ⟨rfl, rfl⟩ | ⟨rfl, rfl⟩⟩
  · exact h.2 _ _ _ h'
  · exact key h'
  · exact SU_coh hc (key h')

theorem sRow_SLB (hc : Coh A) {m : Mem K} (h : SLB dim A m) {i : ℕ} (hi : i < 2 * dim) :
    SLB dim A (sRow Rnd.exact m i) := by
  unfold sRow
  have hin := h.1 _ (matpos_lt hi (cell_self_xor i))
  have h1 : ∀ x, div2 Rnd.exact (m (matpos i (i ^^^ 1))) ≤ fin x → A i (i ^^^ 1) ≤ fin (2 * x) := by
    intro x hx
    have := div2_exact_le hin hx
    rw [← G_cell m hi (cell_self_xor i)] at this
    exact SU_unary (h.2 _ _ _ this)
  refine foldl_inv (SLB dim A) _ _ (fun m' j hj h' => ?_) m h
  exact sCell_SLB hc h' hi (le_or1_iff.1 (by simpa [Nat.lt_succ_iff] using hj)) (div2_exact_ne hin) h1

theorem sRows_SLB {m : Mem K} (h : NoNinf dim m) (hc : Coh (G dim m)) :
    SLB dim (G dim m) ((List.range (2 * dim)).foldl (sRow Rnd.exact) m) := by
  refine foldl_inv (SLB dim (G dim m)) _ _ (fun m' i hi h' => sRow_SLB hc h' (by simpa using hi)) m ?_
  exact ⟨h, fun i j x hx => Or.inl hx⟩

theorem sRow_ne {m : Mem K} (h : NoNinf dim m) {i : ℕ} (hi : i < 2 * dim) :
    NoNinf dim (sRow Rnd.exact m i) := by
  unfold sRow
  have hin := h _ (matpos_lt hi (cell_self_xor i))
  refine foldl_inv (NoNinf dim) _ _ (fun m' j hj h' => ?_) m h
  have hc : Cell i j := le_or1_iff.1 (by simpa [Nat.lt_succ_iff] using hj)
  have hj2 : j < 2 * dim := by unfold Cell at hc; omega
  exact h'.bmin (add_exact_ne (div2_exact_ne (h' _ (matpos_lt (xor1_lt hj2) (cell_xor_self j))))
    (div2_exact_ne hin))

theorem sRows_UB {m : Mem K} (h : NoNinf dim m) {i j : ℕ} (hi : i < 2 * dim) (hcell : Cell i j)
    {a b : K} (ha : G dim m i (i ^^^ 1) ≤ fin a) (hb : G dim m (j ^^^ 1) j ≤ fin b) :
    ((List.range (2 * dim)).foldl (sRow Rnd.exact) m) (matpos i j) ≤ fin ((a + b) / 2) := by
  have key := foldl_establish (fun m' => NoNinf dim m' ∧ ∀ q, m' q ≤ m q)
    (fun i m' => ∀ j, Cell i j → ∀ a b, G dim m i (i ^^^ 1) ≤ fin a → G dim m (j ^^^ 1) j ≤ fin b →
      m' (matpos i j) ≤ fin ((a + b) / 2)) (sRow Rnd.exact)
    (List.range (2 * dim)) ?_ ?_ ?_ m ⟨h, fun _ => le_refl _⟩
  · exact key.2 i (by simpa using hi) j hcell a b ha hb
  · intro m' i hi h'
    exact ⟨sRow_ne h'.1 (by simpa using hi), fun q => le_trans (sRow_le _ _ _ _) (h'.2 q)⟩
  · intro m' i hi h' j hc a b ha hb
    have hi : i < 2 * dim := by simpa using hi
    have hin := h'.1 _ (matpos_lt hi (cell_self_xor i))
    rw [G_cell m hi (cell_self_xor i)] at ha
    have hu : div2 Rnd.exact (m' (matpos i (i ^^^ 1))) ≤ fin (a / 2) :=
      le_div2_exact (le_trans (h'.2 _) ha)
    unfold sRow
    have key2 := foldl_establish (fun m'' => NoNinf dim m'' ∧ ∀ q, m'' q ≤ m q)
      (fun j m'' => ∀ b, G dim m (j ^^^ 1) j ≤ fin b → m'' (matpos i j) ≤ fin ((a + b) / 2))
      (sCell Rnd.exact i (div2 Rnd.exact (m' (matpos i (i ^^^ 1)))))
      (List.range ((i ||| 1) + 1)) ?_ ?_ ?_ m' h'
    · exact key2.2 j (by have := le_or1_iff.2 hc; simp; omega) b hb
    · intro m'' j hj h''
      have hc : Cell i j := le_or1_iff.1 (by simpa [Nat.lt_succ_iff] using hj)
      have hj2 : j < 2 * dim := by unfold Cell at hc; omega
      refine ⟨h''.1.bmin (add_exact_ne (div2_exact_ne
        (h''.1 _ (matpos_lt (xor1_lt hj2) (cell_xor_self j)))) (div2_exact_ne hin)), fun q => ?_⟩
      exact le_trans (bmin_le _ _ _ _) (h''.2 q)
    · intro m'' j hj h'' b hb
      have hc : Cell i j := le_or1_iff.1 (by simpa [Nat.lt_succ_iff] using hj)
      have hj2 : j < 2 * dim := by unfold Cell at hc; omega
      rw [G_cell m (xor1_lt hj2) (cell_xor_self j)] at hb
      have hjn := h''.1 _ (matpos_lt (xor1_lt hj2) (cell_xor_self j))
      refine le_trans (bmin_self_le _ _ _) ?_
      have := le_add_exact (le_div2_exact (le_trans (h''.2 _) hb)) hu (div2_exact_ne hjn)
        (div2_exact_ne hin)
      rwa [show b / 2 + a / 2 = (a + b) / 2 by ring] at this
    · intro m'' j j' hj h'' hq b hb
      exact le_trans (bmin_le _ _ _ _) (hq b hb)
  · intro m' i i' hi h' hq j hc a b ha hb
    exact le_trans (sRow_le _ _ _ _) (hq j hc a b ha hb)

/-- exact content of the strengthened matrix -/
theorem sRows_spec {m : Mem K} (h : NoNinf dim m) (hc : Coh (G dim m)) (i j : ℕ) (x : K)
    (hi : i < 2 * dim) (hj : j < 2 * dim) :
    G dim ((List.range (2 * dim)).foldl (sRow Rnd.exact) m) i j ≤ fin x ↔ SU (G dim m) i j x := by
  refine ⟨(sRows_SLB h hc).2 i j x, ?_⟩
  rintro (hx | ⟨a, b, ha, hb, hx⟩)
  · exact le_trans (G_mono (sRows_le _ _ _) i j) hx
  · refine le_trans ?_ (show fin ((a + b) / 2) ≤ fin x by simpa using hx)
    by_cases hcell : Cell i j
    · rw [G_cell _ hi hcell]; exact sRows_UB h hi hcell ha hb
    · have hm := (cell_or_mirror i j).resolve_left hcell
      unfold G
      rw [if_pos ⟨hi, hj⟩, matpos2_eq, if_neg hcell]
      have := sRows_UB h (xor1_lt hj) hm (a := b) (b := a) (by simpa using hb) (by simpa using ha)
      rwa [add_comm] at this

theorem sDiag_false {l : List ℕ} {m : Mem K} (h : (sDiag l m).1 = false) (hl : l.Nodup) :
    (∀ i ∈ l, fin 0 ≤ m (matpos i i)) ∧
    ∀ q, (sDiag l m).2 q = if ∃ i ∈ l, q = matpos i i then fin 0 else m q := by
  induction l generalizing m with
  | nil => simp [sDiag]
  | cons i l ih =>
    unfold sDiag at h ⊢
    split_ifs at h ⊢ with hs
    rw [sgn_neg_iff, not_lt] at hs
    rw [List.nodup_cons] at hl
    obtain ⟨h1, h2⟩ := ih h hl.2
    constructor
    · intro i' hi'
      rcases List.mem_cons.1 hi' with rfl | hi'
      · exact hs
      · have := h1 i' hi'
        rwa [Mem.set_ne] at this
        intro e
        have := (matpos_inj (cell_refl _) (cell_refl _) e).1
        exact hl.1 (this ▸ hi')
    · intro q
      rw [h2 q]
      by_cases e : ∃ i ∈ l, q = matpos i i
      · rw [if_pos e, if_pos]
        obtain ⟨i', hi', e⟩ := e
        exact ⟨i', List.mem_cons_of_mem _ hi', e⟩
      · rw [if_neg e]
        by_cases e' : q = matpos i i
        · rw [e', Mem.set_self, if_pos ⟨i, by simp, rfl⟩]
        · rw [Mem.set_ne _ _ e', if_neg]
          rintro ⟨i', hi', e''⟩
          rcases List.mem_cons.1 hi' with rfl | hi'
          · exact e' e''
          · exact e ⟨i', hi', e''⟩

/-- `hmat_s_step` on a closed matrix gives a strongly closed matrix -/
theorem sStep_SC {m : Mem K} (h : NoNinf dim m) (hc : Coh (G dim m))
    (hcl : ∀ p, p < 2 * dim → ClosedAt (G dim m) p) (hf : (sStep Rnd.exact dim m).1 = false) :
    SC dim (G dim (sStep Rnd.exact dim m).2) := by
  unfold sStep at hf ⊢
  obtain ⟨hd, hv⟩ := sDiag_false hf List.nodup_range
  have hspec := sRows_spec h hc
  have hne := (sRows_SLB h hc).1
  generalize (List.range (2 * dim)).foldl (sRow Rnd.exact) m = S at *
  set M := (sDiag (List.range (2 * dim)) S).2 with hM
  -- the view of the result
  have hGM : ∀ i j, G dim M i j = if i = j ∧ i < 2 * dim then fin 0 else G dim S i j := by
    intro i j
    unfold G
    by_cases hl : i < 2 * dim ∧ j < 2 * dim
    · rw [if_pos hl, if_pos hl, hv]
      by_cases e : i = j
      · subst e
        have hw : ∃ p ∈ List.range (2 * dim), matpos2 i i = matpos p p :=
          ⟨i, by simpa using hl.1, matpos2_cell (cell_refl i)⟩
        rw [if_pos hw, if_pos ⟨rfl, hl.1⟩]
      · rw [if_neg (c := i = j ∧ i < 2 * dim) (by tauto), if_neg]
        rintro ⟨p, -, hp⟩
        rcases pos_eq_cases (cell_refl p) hp with h | h
        · exact e (h.1.trans h.2.symm)
        · exact e (h.1.trans h.2.symm)
    · rw [if_neg hl, if_neg hl, if_neg]
      rintro ⟨rfl, h⟩; exact hl ⟨h, h⟩
  have hSd : ∀ i a, G dim S i i ≤ fin a → 0 ≤ a := by
    intro i a ha
    have hi := (G_lt ha).1
    rw [G_cell S hi (cell_refl i)] at ha
    have := le_trans (hd i (by simpa using hi)) ha
    simpa using this
  have hSle : ∀ i j a, G dim m i j ≤ fin a → G dim S i j ≤ fin a := by
    intro i j a ha
    have hl := G_lt ha
    exact (hspec i j a hl.1 hl.2).2 (Or.inl ha)
  have hcl' : ∀ p, ClosedAt (G dim m) p := by
    intro p i j a b ha hb
    exact hcl p (G_lt ha).2 i j a b ha hb
  have hAd : ∀ i a, G dim m i i ≤ fin a → 0 ≤ a := fun i a ha => hSd i a (hSle _ _ _ ha)
  have hcyc : ∀ i j a b, G dim m i j ≤ fin a → G dim m j i ≤ fin b → 0 ≤ a + b :=
    fun i j a b ha hb => hAd i _ (hcl' j i i a b ha hb)
  have hSto : ∀ i j a, G dim S i j ≤ fin a → SU (G dim m) i j a := by
    intro i j a ha
    have hl := G_lt ha
    exact (hspec i j a hl.1 hl.2).1 ha
  have hSof : ∀ i j a, i < 2 * dim → j < 2 * dim → SU (G dim m) i j a → G dim S i j ≤ fin a :=
    fun i j a hi hj => (hspec i j a hi hj).2
  -- S is closed
  have hStri : ∀ p i j a b, G dim S i p ≤ fin a → G dim S p j ≤ fin b → G dim S i j ≤ fin (a + b) := by
    intro p i j a b ha hb
    refine hSof _ _ _ (G_lt ha).1 (G_lt hb).2 ?_
    rcases hSto _ _ _ ha with ha | ⟨a1, a2, ha1, ha2, ha3⟩ <;>
      rcases hSto _ _ _ hb with hb | ⟨b1, b2, hb1, hb2, hb3⟩
    · exact Or.inl (hcl' _ _ _ _ _ ha hb)
    · right
      have e1 := hcl' _ _ _ _ _ ha hb1
      have e2 : G dim m (p ^^^ 1) (i ^^^ 1) ≤ fin a := by rw [← hc i p]; exact ha
      exact ⟨a + b1 + a, b2, hcl' _ _ _ _ _ e1 e2, hb2, by linarith⟩
    · right
      have e2 : G dim m (j ^^^ 1) (p ^^^ 1) ≤ fin b := by rw [← hc p j]; exact hb
      have e1 := hcl' _ _ _ _ _ (hcl' _ _ _ _ _ e2 ha2) hb
      exact ⟨a1, b + a2 + b, ha1, e1, by linarith⟩
    · right
      exact ⟨a1, b2, ha1, hb2, by have := hcyc _ _ _ _ ha2 hb1; linarith⟩
  refine ⟨fun i j => ?_, fun i hi => ?_, fun i j => ?_, fun p i j a b ha hb => ?_,
    fun i j a b ha hb => ?_⟩
  · rw [hGM]; split_ifs
    · simp
    · exact G_ne hne i j
  · rw [hGM, if_pos ⟨rfl, hi⟩]
  · rw [hGM, hGM]
    by_cases e : i = j
    · subst e
      by_cases hi : i < 2 * dim
      · rw [if_pos ⟨rfl, hi⟩, if_pos ⟨rfl, xor1_lt hi⟩]
      · rw [if_neg (by tauto), if_neg (by rw [xor1_lt_iff]; tauto)]
        unfold G; rw [if_neg (by tauto), if_neg (by rw [xor1_lt_iff]; tauto)]
    · rw [if_neg (by tauto), if_neg (by rw [xor1_inj]; tauto)]
      by_cases hl : i < 2 * dim ∧ j < 2 * dim
      · refine eq_of_upper (G_ne hne _ _) (G_ne hne _ _) fun x => ?_
        rw [hspec _ _ _ hl.1 hl.2, hspec _ _ _ (xor1_lt hl.2) (xor1_lt hl.1)]
        refine ⟨SU_coh hc, fun hx => ?_⟩
        have := SU_coh hc hx
        simpa using this
      · unfold G; rw [if_neg hl, if_neg (by rw [xor1_lt_iff, xor1_lt_iff]; tauto)]
  · have hla := G_lt ha
    have hlb := G_lt hb
    rw [hGM] at ha hb ⊢
    by_cases e1 : i = p
    · subst e1
      rw [if_pos ⟨rfl, hla.1⟩] at ha
      have ha : 0 ≤ a := by simpa using ha
      exact le_trans hb (by simp [ha])
    · rw [if_neg (by tauto)] at ha
      by_cases e2 : p = j
      · subst e2
        rw [if_pos ⟨rfl, hla.2⟩] at hb
        have hb : 0 ≤ b := by simpa using hb
        rw [if_neg (by tauto)]
        exact le_trans ha (by simp [hb])
      · rw [if_neg (by tauto)] at hb
        have := hStri _ _ _ _ _ ha hb
        split_ifs with e3
        · obtain ⟨rfl, -⟩ := e3
          have := hSd _ _ this
          simpa using this
        · exact this
  · have hla := G_lt ha
    have hlb := G_lt hb
    rw [hGM, if_neg (by intro h; exact xor1_ne i h.1.symm)] at ha
    rw [hGM, if_neg (by intro h; exact xor1_ne j h.1)] at hb
    have ha' := SU_unary (hSto _ _ _ ha)
    have hb' := SU_unary' (hSto _ _ _ hb)
    have := hSof i j ((a + b) / 2) hla.1 hlb.2 (Or.inr ⟨a, b, ha', hb', le_refl _⟩)
    rw [hGM]
    split_ifs with e3
    · obtain ⟨rfl, -⟩ := e3
      have := hSd _ _ this
      simpa using this
    · exact this

/-- `hmat_close` gives a strongly closed matrix unless it reports emptiness -/
theorem close_SC {m : Mem K} (h : NoNinf dim m) (hd : DiagCoh dim m)
    (hf : (close Rnd.exact dim m).1 = false) : SC dim (G dim (close Rnd.exact dim m).2) := by
  unfold close at hf ⊢
  have hdiag : ∀ i, i < 2 * dim → fin 0 ≤ closeFW Rnd.exact dim m (matpos i i) := by
    intro i hi
    have := (sDiag_false hf List.nodup_range).1 i (by simpa using hi)
    exact le_trans this (sRows_le _ _ _ _)
  obtain ⟨h1, h2, h3⟩ := FW_closed h (G_coh hd) hdiag
  exact sStep_SC h1 h2 h3 hf

/-! ### tightness of strongly closed matrices -/

/-- a value satisfying finitely many upper and lower constraints -/
theorem exists_value {ι : Type*} (s : Finset ι) (up lo : ι → Bound K)
    (hu : ∀ i ∈ s, up i ≠ ninf) (hl : ∀ i ∈ s, lo i ≠ ninf)
    (h : ∀ i ∈ s, ∀ j ∈ s, ∀ a b, up i ≤ fin a → lo j ≤ fin b → 0 ≤ a + b) :
    ∃ y : K, ∀ i ∈ s, fin y ≤ up i ∧ fin (-y) ≤ lo i := by
  rcases s.eq_empty_or_nonempty with rfl | hne
  · exact ⟨0, by simp⟩
  obtain ⟨i0, hi0, hmin⟩ := Finset.exists_min_image s up hne
  obtain ⟨j0, hj0, hmin'⟩ := Finset.exists_min_image s lo hne
  suffices ∃ y : K, fin y ≤ up i0 ∧ fin (-y) ≤ lo j0 by
    obtain ⟨y, h1, h2⟩ := this
    exact ⟨y, fun i hi => ⟨le_trans h1 (hmin i hi), le_trans h2 (hmin' i hi)⟩⟩
  have hu0 := hu i0 hi0
  have hl0 := hl j0 hj0
  have h0 := h i0 hi0 j0 hj0
  cases hU : up i0 with
  | ninf => exact absurd hU hu0
  | pinf =>
    cases hL : lo j0 with
    | ninf => exact absurd hL hl0
    | pinf => exact ⟨0, by simp, by simp⟩
    | fin q => exact ⟨-q, by simp, by simp⟩
  | fin p =>
    cases hL : lo j0 with
    | ninf => exact absurd hL hl0
    | pinf => exact ⟨p, by simp, by simp⟩
    | fin q =>
      have := h0 p q (by rw [hU]) (by rw [hL])
      exact ⟨p, by simp, by simp; linarith⟩

/-- `x` satisfies every constraint between variables in `T` -/
def SatOn (M : ℕ → ℕ → Bound K) (T : ℕ → Prop) (x : ℕ → K) : Prop :=
  ∀ i j, T (i / 2) → T (j / 2) → fin (V x j - V x i) ≤ M i j

theorem V_update_ne (x : ℕ → K) {v : ℕ} (y : K) {i : ℕ} (h : i / 2 ≠ v) :
    V (Function.update x v y) i = V x i := by
  unfold V; simp [Function.update_of_ne h]

theorem V_update_even (x : ℕ → K) (v : ℕ) (y : K) : V (Function.update x v y) (2 * v) = y := by
  unfold V; simp

theorem V_update_odd (x : ℕ → K) (v : ℕ) (y : K) : V (Function.update x v y) (2 * v + 1) = -y := by
  unfold V
  rw [if_neg (by omega), show (2 * v + 1) / 2 = v by omega]; simp

/-- linear form of a lower bound that holds by comparison with all finite upper bounds -/
theorem fin_le_of_forall {b : Bound K} {y : K} (hb : b ≠ ninf) (h : ∀ q, b ≤ fin q → y ≤ q) : fin y ≤ b := by
  cases b with
  | ninf => exact absurd rfl hb
  | pinf => simp
  | fin q => simpa using h q (le_refl _)

/-- one more variable -/
theorem extend_one {M : ℕ → ℕ → Bound K} (hM : SC dim M) (T : ℕ → Prop) (hT : ∀ t, T t → t < dim)
    {v : ℕ} (hv : v < dim) (hvT : ¬ T v) {x : ℕ → K} (hx : SatOn M T x) :
    ∃ y, SatOn M (fun t => T t ∨ t = v) (Function.update x v y) := by
  classical
  -- constraints: index `i < 2*dim` with `T (i/2)`: y ≤ M i (2v) + V i, -y ≤ M i (2v+1) + V i;
  -- extra index `2*dim`: 2y ≤ M (2v+1) (2v), -2y ≤ M (2v) (2v+1)
  let up : ℕ → Bound K := fun i => if i < 2 * dim then add Rnd.exact (M i (2 * v)) (fin (V x i))
    else div2 Rnd.exact (M (2 * v + 1) (2 * v))
  let lo : ℕ → Bound K := fun i => if i < 2 * dim then add Rnd.exact (M i (2 * v + 1)) (fin (V x i))
    else div2 Rnd.exact (M (2 * v) (2 * v + 1))
  let s : Finset ℕ := (Finset.range (2 * dim + 1)).filter (fun i => T (i / 2) ∨ i = 2 * dim)
  have hup : ∀ {i : ℕ} {a : K}, i < 2 * dim → up i ≤ fin a → M i (2 * v) ≤ fin (a - V x i) := by
    intro i a hi h
    have h : add Rnd.exact (M i (2 * v)) (fin (V x i)) ≤ fin a := by simpa only [up, if_pos hi] using h
    have hne := hM.ne i (2 * v)
    cases hm : M i (2 * v) <;> rw [hm] at h hne <;> simp_all [add]
    linarith
  have hlo : ∀ {i : ℕ} {a : K}, i < 2 * dim → lo i ≤ fin a → M i (2 * v + 1) ≤ fin (a - V x i) := by
    intro i a hi h
    have h : add Rnd.exact (M i (2 * v + 1)) (fin (V x i)) ≤ fin a := by
      simpa only [lo, if_pos hi] using h
    have hne := hM.ne i (2 * v + 1)
    cases hm : M i (2 * v + 1) <;> rw [hm] at h hne <;> simp_all [add]
    linarith
  have hup' : ∀ {i : ℕ} {a : K}, ¬ i < 2 * dim → up i ≤ fin a → M (2 * v + 1) (2 * v) ≤ fin (2 * a) := by
    intro i a hi h
    exact div2_exact_le (hM.ne _ _) (by simpa only [up, if_neg hi] using h)
  have hlo' : ∀ {i : ℕ} {a : K}, ¬ i < 2 * dim → lo i ≤ fin a → M (2 * v) (2 * v + 1) ≤ fin (2 * a) := by
    intro i a hi h
    exact div2_exact_le (hM.ne _ _) (by simpa only [lo, if_neg hi] using h)
  have hcoh1 : ∀ i, M i (2 * v + 1) = M (2 * v) (i ^^^ 1) := by
    intro i; rw [hM.coh i (2 * v + 1), xor1_odd]
  have hcoh2 : ∀ i, M i (2 * v) = M (2 * v + 1) (i ^^^ 1) := by
    intro i; rw [hM.coh i (2 * v), xor1_even]
  have hsT : ∀ {i : ℕ}, i ∈ s → i < 2 * dim → T (i / 2) := by
    intro i hi hlt
    have := (Finset.mem_filter.1 hi).2
    rcases this with h | h
    · exact h
    · omega
  have hval := exists_value s up lo ?_ ?_ ?_
  · obtain ⟨y, hy⟩ := hval
    refine ⟨y, ?_⟩
    have hU : ∀ i, T (i / 2) → fin (y - V x i) ≤ M i (2 * v) := by
      intro i hi
      have hlt : i < 2 * dim := by have := hT _ hi; omega
      have := (hy i (Finset.mem_filter.2 ⟨by simp; omega, Or.inl hi⟩)).1
      refine fin_le_of_forall (hM.ne _ _) fun q hq => ?_
      have h2 : up i ≤ fin (q + V x i) := by
        simp only [up, if_pos hlt]
        exact le_add_exact hq (le_refl _) (hM.ne _ _) (by simp)
      have := le_trans this h2
      simp at this; linarith
    have hL : ∀ i, T (i / 2) → fin (-y - V x i) ≤ M i (2 * v + 1) := by
      intro i hi
      have hlt : i < 2 * dim := by have := hT _ hi; omega
      have := (hy i (Finset.mem_filter.2 ⟨by simp; omega, Or.inl hi⟩)).2
      refine fin_le_of_forall (hM.ne _ _) fun q hq => ?_
      have h2 : lo i ≤ fin (q + V x i) := by
        simp only [lo, if_pos hlt]
        exact le_add_exact hq (le_refl _) (hM.ne _ _) (by simp)
      have := le_trans this h2
      simp at this; linarith
    have h0 := hy (2 * dim) (Finset.mem_filter.2 ⟨by simp, Or.inr rfl⟩)
    simp only [up, lo, if_neg (lt_irrefl _)] at h0
    have hU2 : fin (y - -y) ≤ M (2 * v + 1) (2 * v) := by
      refine fin_le_of_forall (hM.ne _ _) fun q hq => ?_
      have := le_trans h0.1 (le_div2_exact hq)
      simp at this; linarith
    have hL2 : fin (-y - y) ≤ M (2 * v) (2 * v + 1) := by
      refine fin_le_of_forall (hM.ne _ _) fun q hq => ?_
      have := le_trans h0.2 (le_div2_exact hq)
      simp at this; linarith
    -- all pairs
    have key : ∀ i j, (T (i / 2) ∨ i / 2 = v) → j = 2 * v ∨ j = 2 * v + 1 →
        fin (V (Function.update x v y) j - V (Function.update x v y) i) ≤ M i j := by
      intro i j hi hj
      by_cases hiv : i / 2 = v
      · have hi' : i = 2 * v ∨ i = 2 * v + 1 := by omega
        have hd1 := hM.diag (2 * v) (by omega)
        have hd2 := hM.diag (2 * v + 1) (by omega)
        rcases hi' with rfl | rfl <;> rcases hj with rfl | rfl <;>
          simp only [V_update_even, V_update_odd]
        · rw [hd1]; simp
        · exact hL2
        · exact hU2
        · rw [hd2]; simp
      · have hi' := hi.resolve_right hiv
        rw [V_update_ne x y hiv]
        rcases hj with rfl | rfl
        · rw [V_update_even]; exact hU i hi'
        · rw [V_update_odd]; exact hL i hi'
    intro i j hi hj
    by_cases hjv : j / 2 = v
    · exact key i j hi (by omega)
    · have hj' := hj.resolve_right hjv
      by_cases hiv : i / 2 = v
      · have := key (j ^^^ 1) (i ^^^ 1) (by rw [xor1_div]; exact Or.inl hj')
          (by have := xor1_div i; omega)
        rw [← hM.coh i j, V_xor1, V_xor1] at this
        rwa [show ∀ a b : K, -a - -b = b - a by intros; ring] at this
      · rw [V_update_ne x y hiv, V_update_ne x y hjv]
        exact hx i j (hi.resolve_right hiv) hj'
  · intro i hi
    simp only [up]; split_ifs
    · exact add_exact_ne (hM.ne _ _) (by simp)
    · exact div2_exact_ne (hM.ne _ _)
  · intro i hi
    simp only [lo]; split_ifs
    · exact add_exact_ne (hM.ne _ _) (by simp)
    · exact div2_exact_ne (hM.ne _ _)
  · intro i hi j hj a b ha hb
    have sat : ∀ {i j : ℕ} {c : K}, T (i / 2) → T (j / 2) → M i j ≤ fin c → V x j - V x i ≤ c := by
      intro i j c hi hj h
      simpa using le_trans (hx i j hi hj) h
    by_cases hil : i < 2 * dim <;> by_cases hjl : j < 2 * dim
    · have h1 := hup hil ha
      have h2 := hlo hjl hb
      rw [hcoh1] at h2
      have := sat (hsT hi hil) (by rw [xor1_div]; exact hsT hj hjl) (hM.tri _ _ _ _ _ h1 h2)
      rw [V_xor1] at this; linarith
    · have h1 := hup hil ha
      have h2 := hlo' hjl hb
      have h3 := h1; rw [hcoh2] at h3
      have := sat (hsT hi hil) (by rw [xor1_div]; exact hsT hi hil)
        (hM.tri _ _ _ _ _ (hM.tri _ _ _ _ _ h1 h2) h3)
      rw [V_xor1] at this; linarith
    · have h1 := hup' hil ha
      have h2 := hlo hjl hb
      have h3 := h2; rw [hcoh1] at h3
      have := sat (hsT hj hjl) (by rw [xor1_div]; exact hsT hj hjl)
        (hM.tri _ _ _ _ _ (hM.tri _ _ _ _ _ h2 h1) h3)
      rw [V_xor1] at this; linarith
    · have h1 := hup' hil ha
      have h2 := hlo' hjl hb
      have := hM.tri _ _ _ _ _ h1 h2
      rw [hM.diag _ (by omega)] at this
      simp at this; linarith

theorem extend_all {M : ℕ → ℕ → Bound K} (hM : SC dim M) (T : ℕ → Prop) (hT : ∀ t, T t → t < dim)
    {x : ℕ → K} (hx : SatOn M T x) :
    ∃ x', (∀ t, T t → x' t = x t) ∧ SatOn M (fun t => t < dim) x' := by
  have key : ∀ n, n ≤ dim → ∃ x', (∀ t, T t → x' t = x t) ∧ SatOn M (fun t => T t ∨ t < n) x' := by
    intro n
    induction n with
    | zero => intro _; exact ⟨x, fun _ _ => rfl, fun i j hi hj => hx i j (by simpa using hi) (by simpa using hj)⟩
    | succ n ih =>
      intro hn
      obtain ⟨x', h1, h2⟩ := ih (by omega)
      by_cases hnT : T n
      · refine ⟨x', h1, fun i j hi hj => h2 i j ?_ ?_⟩
        · rcases hi with h | h
          · exact Or.inl h
          · by_cases e : i / 2 = n
            · left; rw [e]; exact hnT
            · right; omega
        · rcases hj with h | h
          · exact Or.inl h
          · by_cases e : j / 2 = n
            · left; rw [e]; exact hnT
            · right; omega
      · obtain ⟨y, hy⟩ := extend_one hM (fun t => T t ∨ t < n)
          (by rintro t (h | h); exact hT t h; omega) (v := n) (by omega)
          (by rintro (h | h); exact hnT h; omega) h2
        refine ⟨Function.update x' n y, fun t ht => ?_, fun i j hi hj => hy i j ?_ ?_⟩
        · rw [Function.update_of_ne (by rintro rfl; exact hnT ht)]; exact h1 t ht
        · rcases hi with h | h
          · exact Or.inl (Or.inl h)
          · by_cases e : i / 2 = n
            · exact Or.inr e
            · exact Or.inl (Or.inr (by omega))
        · rcases hj with h | h
          · exact Or.inl (Or.inl h)
          · by_cases e : j / 2 = n
            · exact Or.inr e
            · exact Or.inl (Or.inr (by omega))
  obtain ⟨x', h1, h2⟩ := key dim (le_refl _)
  exact ⟨x', h1, fun i j hi hj => h2 i j (Or.inr hi) (Or.inr hj)⟩

theorem satOn_iff {m : Mem K} {x : ℕ → K} : SatOn (G dim m) (fun t => t < dim) x ↔ Sat dim m x := by
  constructor
  · intro h i j hi hc
    have := h i j (by show i / 2 < dim; omega) (by show j / 2 < dim; unfold Cell at hc; omega)
    rwa [G_cell m hi hc] at this
  · intro h i j hi hj
    have hi' : i < 2 * dim := by have : i / 2 < dim := hi; omega
    have hj' : j < 2 * dim := by have : j / 2 < dim := hj; omega
    unfold G; rw [if_pos ⟨hi', hj'⟩]
    exact h.le2 hi' hj'

/-- a strongly closed matrix has a point -/
theorem SC.nonempty {m : Mem K} (h : SC dim (G dim m)) : ∃ x, Sat dim m x := by
  obtain ⟨x, -, hx⟩ := extend_all h (fun _ => False) (by simp) (x := fun _ => 0)
    (fun i j hi => absurd hi (by simp))
  exact ⟨x, satOn_iff.1 hx⟩

/-- every difference between the two opposite entries is attained -/
theorem SC.attain {M : ℕ → ℕ → Bound K} (hM : SC dim M) {i j : ℕ} (hi : i < 2 * dim)
    (hj : j < 2 * dim) (hij : i ≠ j) {q : K} (h1 : fin q ≤ M i j) (h2 : fin (-q) ≤ M j i) :
    ∃ x, SatOn M (fun t => t < dim) x ∧ V x j - V x i = q := by
  have low : ∀ {a : K}, M i j ≤ fin a → q ≤ a := fun h => by simpa using le_trans h1 h
  have low2 : ∀ {a : K}, M j i ≤ fin a → -q ≤ a := fun h => by simpa using le_trans h2 h
  by_cases e : i / 2 = j / 2
  · -- unary constraint: j = i^1, V j = -V i, so V i = -q/2
    have hj' : j = i ^^^ 1 := by rw [xor1]; split_ifs <;> omega
    subst hj'
    let x0 : ℕ → K := fun _ => if i % 2 = 0 then -q / 2 else q / 2
    have hVi : V x0 i = -q / 2 := by
      unfold V; simp only [x0]; split_ifs <;> ring
    have hs : SatOn M (fun t => t = i / 2) x0 := by
      have hd1 := hM.diag i hi
      have hd2 := hM.diag (i ^^^ 1) hj
      intro p r hp hr
      have hp' : p = i ∨ p = i ^^^ 1 := by have : p / 2 = i / 2 := hp; rw [xor1]; split_ifs <;> omega
      have hr' : r = i ∨ r = i ^^^ 1 := by have : r / 2 = i / 2 := hr; rw [xor1]; split_ifs <;> omega
      rcases hp' with rfl | rfl <;> rcases hr' with rfl | rfl
      · rw [hd1]; simp
      · rw [V_xor1, hVi, show -(-q / 2) - -q / 2 = q by ring]; exact h1
      · rw [V_xor1, hVi, show -q / 2 - -(-q / 2) = -q by ring]; exact h2
      · rw [hd2]; simp
    obtain ⟨x, hx1, hx2⟩ := extend_all hM _ (by rintro t rfl; omega) hs
    refine ⟨x, hx2, ?_⟩
    have hxi : V x i = V x0 i := by unfold V; rw [hx1 (i / 2) rfl]
    rw [V_xor1, hxi, hVi]; ring
  · -- two variables
    have cj : ∀ a b : ℕ, M a b = M (b ^^^ 1) (a ^^^ 1) := hM.coh
    -- choose u = V i
    have hcyc : ∀ {a b : ℕ} {c d : K}, a < 2 * dim → M a b ≤ fin c → M b a ≤ fin d → 0 ≤ c + d := by
      intro a b c d ha h h'
      have := hM.tri _ _ _ _ _ h h'
      rw [hM.diag a ha] at this
      simpa using this
    let up : ℕ → Bound K := fun t => if t = 0 then M (i ^^^ 1) i
      else if t = 1 then add Rnd.exact (M (i ^^^ 1) j) (fin (-q))
      else add Rnd.exact (M (j ^^^ 1) j) (fin (-(2 * q)))
    let lo : ℕ → Bound K := fun t => if t = 0 then M i (i ^^^ 1)
      else if t = 1 then add Rnd.exact (M i (j ^^^ 1)) (fin q)
      else add Rnd.exact (M j (j ^^^ 1)) (fin (2 * q))
    have addinv : ∀ {b : Bound K} {c a : K}, b ≠ ninf → add Rnd.exact b (fin c) ≤ fin a →
        b ≤ fin (a - c) := by
      intro b c a hb h
      clear low low2 h1 h2 cj hcyc
      cases b with
      | ninf => exact absurd rfl hb
      | pinf => simp [add] at h
      | fin p =>
        have : p + c ≤ a := by simpa [add] using h
        simp; linarith
    have addge : ∀ {b : Bound K} {c y : K}, fin y ≤ add Rnd.exact b (fin c) → fin (y - c) ≤ b := by
      intro b c y h
      cases b with
      | ninf => simp [add] at h
      | pinf => simp
      | fin p =>
        have : y ≤ p + c := by simpa [add] using h
        simp; linarith
    have hval := exists_value (Finset.range 3) up lo ?_ ?_ ?_
    · obtain ⟨w, hw⟩ := hval
      -- w = 2 u
      have w0 := hw 0 (by simp)
      have w1 := hw 1 (by simp)
      have w2 := hw 2 (by simp)
      simp only [up, lo, if_true, one_ne_zero, if_false, OfNat.ofNat_ne_zero,
        OfNat.ofNat_ne_one] at w0 w1 w2
      have a1 := addge w1.1
      have a2 := addge w1.2
      have a3 := addge w2.1
      have a4 := addge w2.2
      let u := w / 2
      let x0 : ℕ → K := fun t => if t = i / 2 then (if i % 2 = 0 then u else -u)
        else (if j % 2 = 0 then u + q else -(u + q))
      have hVi : V x0 i = u := by
        unfold V; simp only [x0, if_true]; split_ifs <;> ring
      have hVj : V x0 j = u + q := by
        unfold V; simp only [x0, if_neg (Ne.symm e)]; split_ifs <;> ring
      have hdiag : ∀ p, p < 2 * dim → fin (V x0 p - V x0 p) ≤ M p p := by
        intro p hp; rw [hM.diag p hp]; simp
      have hs : SatOn M (fun t => t = i / 2 ∨ t = j / 2) x0 := by
        have half : ∀ p r, (p = i ∨ p = i ^^^ 1) → (r = i ∨ r = i ^^^ 1 ∨ r = j ∨ r = j ^^^ 1) →
            fin (V x0 r - V x0 p) ≤ M p r := by
          intro p r hp hr
          rcases hp with rfl | rfl <;> rcases hr with rfl | rfl | rfl | rfl
          · exact hdiag _ hi
          · rw [V_xor1, hVi, show -u - u = -w by simp only [u]; ring]; exact w0.2
          · rw [hVi, hVj, show u + q - u = q by ring]; exact h1
          · rw [V_xor1, hVi, hVj, show -(u + q) - u = -w - q by simp only [u]; ring]; exact a2
          · rw [V_xor1, hVi, show u - -u = w by simp only [u]; ring]; exact w0.1
          · exact hdiag _ (xor1_lt hi)
          · rw [V_xor1, hVi, hVj, show u + q - -u = w - -q by simp only [u]; ring]; exact a1
          · rw [V_xor1, V_xor1, hVi, hVj, show -(u + q) - -u = -q by ring, ← cj]; exact h2
        have half2 : ∀ p r, (p = j ∨ p = j ^^^ 1) → (r = j ∨ r = j ^^^ 1) →
            fin (V x0 r - V x0 p) ≤ M p r := by
          intro p r hp hr
          rcases hp with rfl | rfl <;> rcases hr with rfl | rfl
          · exact hdiag _ hj
          · rw [V_xor1, hVj, show -(u + q) - (u + q) = -w - 2 * q by simp only [u]; ring]; exact a4
          · rw [V_xor1, hVj, show u + q - -(u + q) = w - -(2 * q) by simp only [u]; ring]; exact a3
          · exact hdiag _ (xor1_lt hj)
        have cls : ∀ p, (p / 2 = i / 2 ∨ p / 2 = j / 2) →
            (p = i ∨ p = i ^^^ 1) ∨ (p = j ∨ p = j ^^^ 1) := by
          intro p hp
          rcases hp with h | h
          · left; rw [xor1]; split_ifs <;> omega
          · right; rw [xor1]; split_ifs <;> omega
        intro p r hp hr
        rcases cls p hp with hp | hp
        · exact half p r hp (by rcases cls r hr with h | h; tauto; tauto)
        · rcases cls r hr with hr | hr
          · rw [cj]
            have := half (r ^^^ 1) (p ^^^ 1) (by rcases hr with rfl | rfl; simp; simp)
              (by rcases hp with rfl | rfl; simp; simp)
            rw [V_xor1, V_xor1] at this
            rwa [show ∀ a b : K, -a - -b = b - a by intros; ring] at this
          · exact half2 p r hp hr
      obtain ⟨x, hx1, hx2⟩ := extend_all hM _ (by rintro t (rfl | rfl) <;> omega) hs
      refine ⟨x, hx2, ?_⟩
      have hxi : V x i = V x0 i := by unfold V; rw [hx1 (i / 2) (Or.inl rfl)]
      have hxj : V x j = V x0 j := by unfold V; rw [hx1 (j / 2) (Or.inr rfl)]
      rw [hxi, hxj, hVi, hVj]; ring
    · intro t _; simp only [up]; split_ifs
      · exact hM.ne _ _
      · exact add_exact_ne (hM.ne _ _) (by simp)
      · exact add_exact_ne (hM.ne _ _) (by simp)
    · intro t _; simp only [lo]; split_ifs
      · exact hM.ne _ _
      · exact add_exact_ne (hM.ne _ _) (by simp)
      · exact add_exact_ne (hM.ne _ _) (by simp)
    · have hi1 := xor1_lt hi
      have hj1 := xor1_lt hj
      intro t _ t' _ a b ha hb
      simp only [up] at ha
      simp only [lo] at hb
      split_ifs at ha hb
      · have := hcyc hi1 ha hb; linarith
      · -- M(ī,i) ≤ a, M(i,j̄) ≤ b - q
        have hb := addinv (hM.ne _ _) hb
        have h3 := hM.tri _ _ _ _ _ ha hb
        rw [cj, xor1_xor1, xor1_xor1] at h3
        have := low2 h3; linarith
      · have hb := addinv (hM.ne _ _) hb
        have := low2 (hM.strong j i _ _ hb ha); linarith
      · have ha := addinv (hM.ne _ _) ha
        have := low (hM.tri _ _ _ _ _ hb ha); linarith
      · have ha := addinv (hM.ne _ _) ha
        have hb := addinv (hM.ne _ _) hb
        rw [cj, xor1_xor1] at ha
        have := hcyc hi hb ha; linarith
      · have ha := addinv (hM.ne _ _) ha
        have hb := addinv (hM.ne _ _) hb
        have h3 := hM.tri _ _ _ _ _ ha hb
        rw [cj, xor1_xor1, xor1_xor1] at h3
        have := low2 h3; linarith
      · have ha := addinv (hM.ne _ _) ha
        have := low (hM.strong i j _ _ hb ha); linarith
      · have ha := addinv (hM.ne _ _) ha
        have hb := addinv (hM.ne _ _) hb
        have := low (hM.tri _ _ _ _ _ hb ha); linarith
      · have ha := addinv (hM.ne _ _) ha
        have hb := addinv (hM.ne _ _) hb
        have := hcyc hj1 ha hb; linarith

/-- every entry is a least upper bound -/
theorem SC.tight {M : ℕ → ℕ → Bound K} (hM : SC dim M) {i j : ℕ} (hi : i < 2 * dim)
    (hj : j < 2 * dim) {b : Bound K}
    (hb : ∀ x, SatOn M (fun t => t < dim) x → fin (V x j - V x i) ≤ b) : M i j ≤ b := by
  by_cases hij : i = j
  · subst hij
    obtain ⟨x, -, hx⟩ := extend_all hM (fun _ => False) (by simp) (x := fun _ => 0)
      (fun i j hi => absurd hi (by simp))
    have := hb x hx
    rw [hM.diag i hi]; simpa using this
  · have hne := hM.ne j i
    have cyc : ∀ {c d : K}, M i j ≤ fin c → M j i ≤ fin d → 0 ≤ c + d := by
      intro c d h h'
      have := hM.tri _ _ _ _ _ h h'
      rw [hM.diag i hi] at this
      simpa using this
    cases h : M i j with
    | ninf => exact absurd h (hM.ne _ _)
    | fin q =>
      obtain ⟨x, hx, e⟩ := hM.attain hi hj hij (q := q) (by rw [h])
        (fin_le_of_forall hne fun d hd => by have := cyc (by rw [h]) hd; linarith)
      rw [← e]; exact hb x hx
    | pinf =>
      cases b with
      | pinf => exact le_refl _
      | ninf =>
        obtain ⟨x, -, hx⟩ := extend_all hM (fun _ => False) (by simp) (x := fun _ => 0)
          (fun i j hi => absurd hi (by simp))
        have := hb x hx
        simp at this
      | fin c =>
        exfalso
        obtain ⟨d, hd⟩ : ∃ d : K, fin d ≤ M j i := by
          cases hh : M j i with
          | ninf => exact absurd hh hne
          | fin d => exact ⟨d, le_refl _⟩
          | pinf => exact ⟨0, by simp⟩
        obtain ⟨x, hx, e⟩ := hM.attain hi hj hij (q := max (c + 1) (-d)) (by rw [h]; simp)
          (le_trans (by simp; have := le_max_right (c + 1) (-d); linarith) hd)
        have := hb x hx
        rw [e] at this
        simp at this
        linarith [this.1]

end Oct
end Apron
