import Verif.Avo.Resize
import Verif.Avo.ElemLemmas
import Verif.Oct.ResizeWf

/-! # Helper lemmas: changes of dimension of absolute-value octagons -/

set_option autoImplicit false
set_option linter.unusedSectionVars false
set_option linter.ambiguousOpen false

namespace Apron
namespace Avo
open Bound Oct AvoT
variable {K : Type*} [LinearOrder K] [Field K] [IsStrictOrderedRing K]

/-- a cell without information -/
def Free (i j : ℕ) (c : SB K) : Prop := c.2 = pinf ∧ (c.1 = pinf ∨ i = j ∧ c.1 = fin 0)

theorem Free.ok {i j : ℕ} {c : SB K} (h : Free i j c) (y : ℕ → K) : Ok (V y j - V y i) c := by
  refine ⟨?_, fun e => absurd h.1 e⟩
  rcases h.2 with e | ⟨rfl, e⟩
  · rw [e]; simp
  · rw [e, sub_self]

/-- the matrix `M'` over `N'` quantities takes its cells from `M`, the others hold no information -/
structure Copy (N' N : ℕ) (π : ℕ → Option ℕ) (M' M : SMem K) : Prop where
  legal : Legal N' N π
  inj : Inj π
  cp : ∀ i j, i < 2 * N' → j < 2 * N' → ∀ a b, π (i / 2) = some a → π (j / 2) = some b →
    M' (matpos2 i j) = M (matpos2 (2 * a + i % 2) (2 * b + j % 2))
  free : ∀ i j, i < 2 * N' → j < 2 * N' → (π (i / 2) = none ∨ π (j / 2) = none) →
    Free i j (M' (matpos2 i j))

theorem Copy.of_cells {N' N : ℕ} {π : ℕ → Option ℕ} {M' M : SMem K} (hL : Legal N' N π) (hI : Inj π)
    (hc : ∀ i j, i < 2 * N' → Cell i j → ∀ a b, π (i / 2) = some a → π (j / 2) = some b →
      M' (matpos i j) = M (matpos2 (2 * a + i % 2) (2 * b + j % 2)))
    (hf : ∀ i j, i < 2 * N' → Cell i j → (π (i / 2) = none ∨ π (j / 2) = none) →
      Free i j (M' (matpos i j))) : Copy N' N π M' M := by
  refine ⟨hL, hI, fun i j hi hj a b ha hb => ?_, fun i j hi hj h => ?_⟩
  · by_cases hcell : Cell i j
    · rw [matpos2_cell hcell]; exact hc i j hi hcell a b ha hb
    · have hm := (cell_or_mirror i j).resolve_left hcell
      have hne : i / 2 ≠ j / 2 := fun e => hcell (by unfold Cell; omega)
      have hab : a ≠ b := by rintro rfl; exact hne (hI _ _ _ ha hb)
      rw [matpos2_mirror hne, matpos2_cell hm, hc _ _ (xor1_lt hj) hm b a (by rw [xor1_div]; exact hb)
        (by rw [xor1_div]; exact ha), lift_xor, lift_xor,
        ← matpos2_mirror (i := 2 * a + i % 2) (j := 2 * b + j % 2) (by omega)]
  · by_cases hcell : Cell i j
    · rw [matpos2_cell hcell]; exact hf i j hi hcell h
    · have hm := (cell_or_mirror i j).resolve_left hcell
      have hne : i / 2 ≠ j / 2 := fun e => hcell (by unfold Cell; omega)
      have := hf _ _ (xor1_lt hj) hm (by rw [xor1_div, xor1_div]; exact h.symm)
      rw [matpos2_mirror hne, matpos2_cell hm]
      refine ⟨this.1, Or.inl (this.2.resolve_right ?_)⟩
      rintro ⟨e, -⟩
      rw [xor1_inj] at e
      exact hne (by rw [e])

theorem Copy.sat {N' N : ℕ} {π : ℕ → Option ℕ} {M' M : SMem K} (h : Copy N' N π M' M) {y' y : ℕ → K}
    (ha : Agree π y' y) (hs : GSat N M y) : GSat N' M' y' := by
  intro i j hi hc
  have hj : j < 2 * N' := by unfold Cell at hc; omega
  rw [← matpos2_cell hc]
  by_cases hn : π (i / 2) = none ∨ π (j / 2) = none
  · exact (h.free i j hi hj hn).ok y'
  · push Not at hn
    obtain ⟨a, ea⟩ := Option.ne_none_iff_exists'.1 hn.1
    obtain ⟨b, eb⟩ := Option.ne_none_iff_exists'.1 hn.2
    rw [h.cp i j hi hj a b ea eb, V_agree ha ea, V_agree ha eb]
    have h1 := (h.legal _ _ ea).2
    have h2 := (h.legal _ _ eb).2
    exact okT_pinf.1 ((gsatT_pinf.2 hs).rd (by omega) (by omega))

theorem Copy.sat_back {N' N : ℕ} {π : ℕ → Option ℕ} {M' M : SMem K} (h : Copy N' N π M' M)
    (hcov : ∀ v, v < N → ∃ v', π v' = some v) {y' y : ℕ → K} (ha : Agree π y' y)
    (hs : GSat N' M' y') : GSat N M y := by
  intro i j hi hc
  have hj : j < 2 * N := by unfold Cell at hc; omega
  obtain ⟨v, ev⟩ := hcov (i / 2) (by omega)
  obtain ⟨w, ew⟩ := hcov (j / 2) (by omega)
  have h1 := (h.legal _ _ ev).1
  have h2 := (h.legal _ _ ew).1
  have d1 : (2 * v + i % 2) / 2 = v := by omega
  have d2 : (2 * w + j % 2) / 2 = w := by omega
  have m1 : (2 * v + i % 2) % 2 = i % 2 := by omega
  have m2 : (2 * w + j % 2) % 2 = j % 2 := by omega
  have e := h.cp (2 * v + i % 2) (2 * w + j % 2) (by omega) (by omega) (i / 2) (j / 2)
    (by rw [d1]; exact ev) (by rw [d2]; exact ew)
  rw [m1, m2, Nat.div_add_mod, Nat.div_add_mod, matpos2_cell hc] at e
  rw [← e]
  have := okT_pinf.1 ((gsatT_pinf.2 hs).rd (i := 2 * v + i % 2) (j := 2 * w + j % 2)
    (by omega) (by omega))
  rw [V_agree ha (i := 2 * v + i % 2) (by rw [d1]; exact ev),
    V_agree ha (i := 2 * w + j % 2) (by rw [d2]; exact ew), m1, m2, Nat.div_add_mod,
    Nat.div_add_mod] at this
  exact this

/-- composition -/
def comp (π2 π1 : ℕ → Option ℕ) (v : ℕ) : Option ℕ := (π2 v).bind π1

theorem comp_some {π2 π1 : ℕ → Option ℕ} {v a : ℕ} : comp π2 π1 v = some a ↔
    ∃ w, π2 v = some w ∧ π1 w = some a := by unfold comp; simp [Option.bind_eq_some_iff]

theorem Copy.comp {N2 N1 N0 : ℕ} {π2 π1 : ℕ → Option ℕ} {M2 M1 M0 : SMem K}
    (h2 : Copy N2 N1 π2 M2 M1) (h1 : Copy N1 N0 π1 M1 M0) : Copy N2 N0 (Avo.comp π2 π1) M2 M0 := by
  refine ⟨fun v' v h => ?_, fun v' w' v h h' => ?_, fun i j hi hj a b ha hb => ?_,
    fun i j hi hj h => ?_⟩
  · obtain ⟨w, e1, e2⟩ := comp_some.1 h
    exact ⟨(h2.legal _ _ e1).1, (h1.legal _ _ e2).2⟩
  · obtain ⟨w, e1, e2⟩ := comp_some.1 h
    obtain ⟨w2, e3, e4⟩ := comp_some.1 h'
    have := h1.inj _ _ _ e2 e4
    subst this
    exact h2.inj _ _ _ e1 e3
  · obtain ⟨v, e1, e2⟩ := comp_some.1 ha
    obtain ⟨w, e3, e4⟩ := comp_some.1 hb
    have l1 := (h2.legal _ _ e1).2
    have l2 := (h2.legal _ _ e3).2
    rw [h2.cp i j hi hj v w e1 e3, h1.cp _ _ (by omega) (by omega) a b
      (by rw [show (2 * v + i % 2) / 2 = v by omega]; exact e2)
      (by rw [show (2 * w + j % 2) / 2 = w by omega]; exact e4)]
    congr 2 <;> omega
  · by_cases hn : π2 (i / 2) = none ∨ π2 (j / 2) = none
    · exact h2.free i j hi hj hn
    · push Not at hn
      obtain ⟨v, e1⟩ := Option.ne_none_iff_exists'.1 hn.1
      obtain ⟨w, e3⟩ := Option.ne_none_iff_exists'.1 hn.2
      have l1 := (h2.legal _ _ e1).2
      have l2 := (h2.legal _ _ e3).2
      rw [h2.cp i j hi hj v w e1 e3]
      have := h1.free (2 * v + i % 2) (2 * w + j % 2) (by omega) (by omega) (by
        rw [show (2 * v + i % 2) / 2 = v by omega, show (2 * w + j % 2) / 2 = w by omega]
        unfold Avo.comp at h
        rw [e1, e3] at h
        exact h)
      refine ⟨this.1, this.2.imp id fun ⟨e, e'⟩ => ⟨?_, e'⟩⟩
      have hvw : v = w := by omega
      subst hvw
      have := h2.inj _ _ _ e1 e3
      omega

/-! ### `addrem` -/

theorem addrem_copy {add : Bool} {dim dim' : ℕ} {pos : List ℕ} (hne : pos ≠ [])
    (hok : Oct.Ok add 1 pos 0) (hlt : ∀ q ∈ pos, q ≤ dim) (hL : Legal dim' dim (src add 1 dim pos))
    (m n dm dn : Mem K)
    (hf : ∀ i j, i < 2 * dim' → Cell i j →
      (src add 1 dim pos (i / 2) = none ∨ src add 1 dim pos (j / 2) = none) →
      Free i j (dm (matpos i j), dn (matpos i j))) :
    Copy dim' dim (src add 1 dim pos)
      (zip (addrem add 1 dim dm m pos) (addrem add 1 dim dn n pos)) (zip m n) := by
  refine Copy.of_cells hL (src_inj hok) (fun i j hi hc a b ha hb => ?_) (fun i j hi hc h => ?_)
  · rw [src_some hok] at ha hb
    have h1 : crel add 1 pos 0 0 (2 * a + i % 2) i :=
      ⟨by omega, by rw [show (2 * a + i % 2) / 2 = a by omega]; exact ha.2⟩
    have h2 : crel add 1 pos 0 0 (2 * b + j % 2) j :=
      ⟨by omega, by rw [show (2 * b + j % 2) / 2 = b by omega]; exact hb.2⟩
    have hcc := (crel_cell hok h1 h2).2 hc
    unfold zip
    rw [addrem_cell m dm hne hok hlt (by omega) h1 h2 hcc,
      addrem_cell n dn hne hok hlt (by omega) h1 h2 hcc, matpos2_cell hcc]
  · have hno : ¬ ((∃ r, r < 2 * dim ∧ crel add 1 pos 0 0 r i) ∧ ∃ c, crel add 1 pos 0 0 c j) := by
      rintro ⟨⟨r, hr, h1⟩, c, h2⟩
      have hcc := (crel_cell hok h1 h2).2 hc
      rcases h with h | h
      · have := (src_some (dim := dim) hok).2 ⟨show r / 2 < dim by omega, h1.2⟩
        rw [h] at this; cases this
      · have := (src_some (dim := dim) hok).2 ⟨show c / 2 < dim by unfold Cell at hcc; omega, h2.2⟩
        rw [h] at this; cases this
    unfold zip
    rw [addrem_other m dm hne hok hlt hc hno, addrem_other n dn hne hok hlt hc hno]
    exact hf i j hi hc h

theorem free_pinf (i j : ℕ) : Free i j ((pinf, pinf) : SB K) := ⟨rfl, Or.inl rfl⟩

theorem free_allocTop (dim : ℕ) {i j : ℕ} (hc : Cell i j) :
    Free i j ((Avo.allocTop dim (matpos i j) : SB K)) := by
  rcases allocTop_cell (K := K) dim (matpos i j) with ⟨h, k, e⟩ | h
  · obtain ⟨rfl, rfl⟩ := matpos_inj hc (cell_refl k) e
    rw [h]; exact ⟨rfl, Or.inr ⟨rfl, rfl⟩⟩
  · rw [h]; exact free_pinf i j

/-- positions of the absolute values -/
def absPos (k : ℕ) (pos : List ℕ) : List ℕ := pos.map fun p => p + k

section add
variable {dim : ℕ} {pos : List ℕ}

theorem absPos_le (hs : pos.Pairwise (· ≤ ·)) (k : ℕ) : (absPos k pos).Pairwise (· ≤ ·) := by
  unfold absPos
  rw [List.pairwise_map]
  exact hs.imp fun h => by omega

theorem absPos_lt (hs : pos.Pairwise (· < ·)) (k : ℕ) : (absPos k pos).Pairwise (· < ·) := by
  unfold absPos
  rw [List.pairwise_map]
  exact hs.imp fun h => by omega

theorem cntLe_abs (k v : ℕ) : cntLe (absPos k pos) v = if k ≤ v then cntLe pos (v - k) else 0 := by
  unfold cntLe absPos
  rw [List.filter_map, List.length_map]
  split_ifs with h
  · congr 2
    funext p
    simp only [Function.comp, decide_eq_decide]
    omega
  · rw [List.length_eq_zero_iff, List.filter_eq_nil_iff]
    intro p _
    simp only [Function.comp, decide_eq_true_eq]
    omega

theorem cntLt_abs (k v : ℕ) : cntLt (absPos k pos) v = if k ≤ v then cntLt pos (v - k) else 0 := by
  unfold cntLt absPos
  rw [List.filter_map, List.length_map]
  split_ifs with h
  · congr 2
    funext p
    simp only [Function.comp, decide_eq_decide]
    omega
  · rw [List.length_eq_zero_iff, List.filter_eq_nil_iff]
    intro p _
    simp only [Function.comp, decide_eq_true_eq]
    omega

theorem mem_abs (k v : ℕ) : v ∈ absPos k pos ↔ k ≤ v ∧ v - k ∈ pos := by
  unfold absPos
  rw [List.mem_map]
  constructor
  · rintro ⟨p, hp, rfl⟩; exact ⟨by omega, by simpa using hp⟩
  · rintro ⟨h, h'⟩; exact ⟨_, h', by omega⟩

/-- where the quantities of the result of an addition come from -/
noncomputable def addSrc (dim : ℕ) (pos : List ℕ) : ℕ → Option ℕ :=
  Avo.comp (src true 1 (2 * dim + pos.length) (absPos (dim + pos.length) pos)) (src true 1 (2 * dim) pos)

theorem addSrc_some (hs : pos.Pairwise (· ≤ ·)) (hlt : ∀ q ∈ pos, q ≤ dim) {v' v : ℕ} :
    addSrc dim pos v' = some v ↔ v < dim ∧ v' = v + cntLe pos v ∨
      (dim ≤ v ∧ v < 2 * dim) ∧ v' = v - dim + cntLe pos (v - dim) + (dim + pos.length) := by
  unfold addSrc
  rw [comp_some]
  simp only [src_add hs, src_add (absPos_le hs _), cntLe_abs, Nat.one_mul]
  have hle := fun v => cntLe_le (pos := pos) v
  have hall : ∀ v, dim ≤ v → cntLe pos v = pos.length := fun v hv =>
    cntLe_all fun q hq => (hlt q hq).trans hv
  constructor
  · rintro ⟨w, ⟨h1, h2⟩, h3, h4⟩
    by_cases hv : v < dim
    · left
      have := hle v
      rw [if_neg (by omega)] at h2
      exact ⟨hv, by omega⟩
    · right
      rw [hall v (by omega)] at h4
      rw [if_pos (by omega), show w - (dim + pos.length) = v - dim by omega] at h2
      exact ⟨⟨by omega, by omega⟩, by omega⟩
  · rintro (⟨h1, h2⟩ | ⟨h1, h2⟩)
    · have := hle v
      refine ⟨v + cntLe pos v, ⟨by omega, ?_⟩, by omega, rfl⟩
      rw [if_neg (by omega)]; omega
    · refine ⟨v + pos.length, ⟨by omega, ?_⟩, by omega, by rw [hall v h1.1]⟩
      rw [if_pos (by omega), show v + pos.length - (dim + pos.length) = v - dim by omega]
      omega

theorem addSrc_lo (hs : pos.Pairwise (· ≤ ·)) {v' : ℕ} (h : v' < dim + pos.length) :
    addSrc dim pos v' = src true 1 (2 * dim) pos v' := by
  unfold addSrc Avo.comp
  have : src true 1 (2 * dim + pos.length) (absPos (dim + pos.length) pos) v' = some v' := by
    rw [src_add (absPos_le hs _), cntLe_abs, if_neg (by omega)]
    exact ⟨by omega, by omega⟩
  rw [this]; rfl

theorem addAV_copy (hne : pos ≠ []) (hs : pos.Pairwise (· ≤ ·)) (hlt : ∀ q ∈ pos, q ≤ dim)
    (m n : Mem K) : Copy (2 * (dim + pos.length)) (2 * dim) (addSrc dim pos)
      (zip (addremAV true dim (fun q => (Avo.allocTop (dim + pos.length) q).1) m pos)
        (addremAV true dim (fun q => (Avo.allocTop (dim + pos.length) q).2) n pos)) (zip m n) := by
  unfold addremAV
  dsimp only
  rw [if_pos rfl, if_pos rfl]
  have e : (pos.map fun p => p + dim + pos.length) = absPos (dim + pos.length) pos := by
    unfold absPos; congr 1; funext p; omega
  rw [e]
  have hl1 := src_add_legal (dim := 2 * dim) (mult := 1) hs
  have hl2 := src_add_legal (dim := 2 * dim + pos.length) (mult := 1)
    (absPos_le hs (dim + pos.length))
  have e2 : (absPos (dim + pos.length) pos).length = pos.length := by unfold absPos; simp
  rw [e2] at hl2
  refine Copy.comp (N1 := 2 * dim + pos.length) (M1 := zip (addrem true 1 (2 * dim) (fun _ => pinf) m pos)
    (addrem true 1 (2 * dim) (fun _ => pinf) n pos)) ?_ ?_
  · refine addrem_copy (by unfold absPos; simpa using hne) (ok_add_of_sorted (absPos_le hs _))
      (fun q hq => ?_) ?_ _ _ _ _ fun i j hi hc _ => free_allocTop _ hc
    · rw [mem_abs] at hq
      have := hlt _ hq.2
      omega
    · exact fun v' v h => ⟨by have := (hl2 _ _ h).1; omega, (hl2 _ _ h).2⟩
  · refine addrem_copy hne (ok_add_of_sorted hs) (fun q hq => ?_) ?_ _ _ _ _
      fun i j hi hc _ => free_pinf _ _
    · have := hlt q hq; omega
    · exact fun v' v h => ⟨by have := (hl1 _ _ h).1; omega, (hl1 _ _ h).2⟩

theorem addSrc_agree (hs : pos.Pairwise (· ≤ ·)) (hlt : ∀ q ∈ pos, q ≤ dim) {x' x : ℕ → K}
    (h : ∀ v, v < dim → x' (v + cntLe pos v) = x v) :
    Agree (addSrc dim pos) (ext (dim + pos.length) x') (ext dim x) := by
  intro v' v hv
  unfold ext
  have hle := fun v => cntLe_le (pos := pos) v
  rcases (addSrc_some hs hlt).1 hv with ⟨h1, rfl⟩ | ⟨h1, rfl⟩
  · have := hle v
    rw [if_pos (by omega), if_pos h1, h v h1]
  · rw [if_neg (by omega), if_neg (by omega), ← h (v - dim) (by omega)]
    congr 2
    omega

theorem addSrc_cover (hs : pos.Pairwise (· ≤ ·)) (hlt : ∀ q ∈ pos, q ≤ dim) (v : ℕ) (hv : v < 2 * dim) :
    ∃ v', addSrc dim pos v' = some v := by
  by_cases h : v < dim
  · exact ⟨_, (addSrc_some hs hlt).2 (Or.inl ⟨h, rfl⟩)⟩
  · exact ⟨_, (addSrc_some hs hlt).2 (Or.inr ⟨⟨by omega, hv⟩, rfl⟩)⟩

/-- the new variables have no source -/
theorem addSrc_new (hs : pos.Pairwise (· ≤ ·)) (hlt : ∀ q ∈ pos, q ≤ dim) {k : ℕ} (hk : k < pos.length) :
    addSrc dim pos (k + pos.getD k 0) = none ∧ k + pos.getD k 0 < dim + pos.length := by
  have hmem : pos.getD k 0 ∈ pos := by
    rw [List.getD, List.getElem?_eq_getElem hk]; exact List.getElem_mem hk
  have := hlt _ hmem
  have h2 : k + pos.getD k 0 < dim + pos.length := by omega
  refine ⟨?_, h2⟩
  rw [addSrc_lo hs h2, src_add_none hs (fun q hq => by have := hlt q hq; omega) (by omega)]
  exact ⟨k, 0, hk, by omega, by omega⟩

/-- every quantity without source below `dim + nb` is a new variable -/
theorem addSrc_none (hs : pos.Pairwise (· ≤ ·)) (hlt : ∀ q ∈ pos, q ≤ dim) {v' : ℕ}
    (hv : v' < dim + pos.length) (h : addSrc dim pos v' = none) :
    ∃ k, k < pos.length ∧ v' = k + pos.getD k 0 := by
  rw [addSrc_lo hs hv, src_add_none hs (fun q hq => by have := hlt q hq; omega) (by omega)] at h
  obtain ⟨k, s, h1, h2, h3⟩ := h
  exact ⟨k, h1, by omega⟩

/-- writing information-free values on cells without source -/
theorem Copy.rewrite {N' N : ℕ} {π : ℕ → Option ℕ} {M' M'' M : SMem K} (h : Copy N' N π M' M)
    (hw : ∀ i j, i < 2 * N' → Cell i j → M'' (matpos i j) = M' (matpos i j) ∨
      (π (i / 2) = none ∨ π (j / 2) = none) ∧ Free i j (M'' (matpos i j))) : Copy N' N π M'' M := by
  refine Copy.of_cells h.legal h.inj (fun i j hi hc a b ha hb => ?_) (fun i j hi hc hn => ?_)
  · have hj : j < 2 * N' := by unfold Cell at hc; omega
    rcases hw i j hi hc with e | ⟨e | e, -⟩
    · rw [e, ← matpos2_cell hc]; exact h.cp i j hi hj a b ha hb
    · rw [e] at ha; cases ha
    · rw [e] at hb; cases hb
  · have hj : j < 2 * N' := by unfold Cell at hc; omega
    rcases hw i j hi hc with e | ⟨-, e⟩
    · rw [e, ← matpos2_cell hc]; exact h.free i j hi hj hn
    · exact e

/-- the bounds and marks of `avo_add_dimensions` without `project` -/
theorem addBounds_copy (hne : pos ≠ []) (hs : pos.Pairwise (· ≤ ·)) (hlt : ∀ q ∈ pos, q ≤ dim)
    (m n : Mem K) : Copy (2 * (dim + pos.length)) (2 * dim) (addSrc dim pos)
      (zip (addBounds dim m pos false)
        (addremAV true dim (fun q => (Avo.allocTop (dim + pos.length) q).2) n pos)) (zip m n) := by
  classical
  have h0 := addAV_copy hne hs hlt m n
  refine h0.rewrite fun i j hi hc => ?_
  unfold addBounds
  dsimp only
  rw [if_neg (by decide)]
  unfold zip
  rw [foldl_setp]
  split_ifs with hk
  · right
    obtain ⟨k, hk, he⟩ := hk
    rw [List.mem_range] at hk
    obtain ⟨h1, h2⟩ := addSrc_new hs hlt hk
    obtain ⟨e, rfl⟩ : i / 2 = k + pos.getD k 0 ∧ i = j := by
      rcases he with he | he
      · obtain ⟨rfl, rfl⟩ := matpos_inj hc (cell_refl _) he
        exact ⟨by omega, rfl⟩
      · obtain ⟨rfl, rfl⟩ := matpos_inj hc (cell_refl _) he
        exact ⟨by omega, rfl⟩
    refine ⟨Or.inl (by rw [e]; exact h1), ?_, Or.inr ⟨rfl, rfl⟩⟩
    have := (h0.free i i hi hi (Or.inl (by rw [e]; exact h1))).1
    rwa [matpos2_cell hc] at this
  · left; rfl

/-- `project` -/
theorem addBounds_project (hne : pos ≠ []) (hs : pos.Pairwise (· ≤ ·)) (hlt : ∀ q ∈ pos, q ≤ dim)
    (m n : Mem K) (y : ℕ → K) : GSat (2 * (dim + pos.length)) (zip (addBounds dim m pos true)
        (addremAV true dim (fun q => (Avo.allocTop (dim + pos.length) q).2) n pos)) y ↔
      GSat (2 * (dim + pos.length)) (zip (addBounds dim m pos false)
        (addremAV true dim (fun q => (Avo.allocTop (dim + pos.length) q).2) n pos)) y ∧
      ∀ k, k < pos.length → y (pos.getD k 0 + k) = 0 := by
  classical
  have h0 := addBounds_copy hne hs hlt m n
  set n' := addremAV true dim (fun q => (Avo.allocTop (dim + pos.length) q).2) n pos with hn'
  have e : ∀ q, addBounds dim m pos true q = if ∃ k ∈ List.range pos.length,
      q = matpos (2 * (k + pos.getD k 0) + 1) (2 * (k + pos.getD k 0)) ∨
      q = matpos (2 * (k + pos.getD k 0)) (2 * (k + pos.getD k 0) + 1) then fin 0
      else addBounds dim m pos false q := fun q => by
    unfold addBounds
    dsimp only
    rw [if_pos rfl, foldl_setp, if_neg (show ¬ (false = true) by decide)]
  have c1 : ∀ v, Cell (2 * v + 1) (2 * v) := fun v => by unfold Cell; omega
  have c2 : ∀ v, Cell (2 * v) (2 * v + 1) := fun v => by unfold Cell; omega
  have hmark : ∀ i j, i < 2 * (2 * (dim + pos.length)) → Cell i j →
      (addSrc dim pos (i / 2) = none ∨ addSrc dim pos (j / 2) = none) → n' (matpos i j) = pinf := by
    intro i j hi hc hn
    have := (h0.free i j hi (by unfold Cell at hc; omega) hn).1
    rwa [matpos2_cell hc] at this
  constructor
  · intro h
    refine ⟨fun i j hi hc => ?_, fun k hk => ?_⟩
    · have hc' := h i j hi hc
      unfold zip at hc' ⊢
      rw [e] at hc'
      by_cases hq : ∃ k ∈ List.range pos.length,
        matpos i j = matpos (2 * (k + pos.getD k 0) + 1) (2 * (k + pos.getD k 0)) ∨
        matpos i j = matpos (2 * (k + pos.getD k 0)) (2 * (k + pos.getD k 0) + 1)
      · obtain ⟨k, hk, he⟩ := hq
        rw [List.mem_range] at hk
        have h1 := (addSrc_new hs hlt hk).1
        have hi2 : i / 2 = k + pos.getD k 0 := by
          rcases he with he | he
          · obtain ⟨rfl, rfl⟩ := matpos_inj hc (c1 _) he; omega
          · obtain ⟨rfl, rfl⟩ := matpos_inj hc (c2 _) he; omega
        have := (h0.free i j hi (by unfold Cell at hc; omega) (Or.inl (by rw [hi2]; exact h1))).ok y
        rwa [matpos2_cell hc] at this
      · rwa [if_neg hq] at hc'
    · obtain ⟨-, h2⟩ := addSrc_new hs hlt hk
      have g1 := (h (2 * (k + pos.getD k 0) + 1) (2 * (k + pos.getD k 0)) (by omega) (c1 _)).1
      have g2 := (h (2 * (k + pos.getD k 0)) (2 * (k + pos.getD k 0) + 1) (by omega) (c2 _)).1
      unfold zip at g1 g2
      rw [e, if_pos ⟨k, List.mem_range.2 hk, Or.inl rfl⟩, V_even, V_odd, fin_le_fin] at g1
      rw [e, if_pos ⟨k, List.mem_range.2 hk, Or.inr rfl⟩, V_even, V_odd, fin_le_fin] at g2
      rw [Nat.add_comm]
      linarith
  · rintro ⟨h, hz⟩ i j hi hc
    have hc' := h i j hi hc
    unfold zip at hc' ⊢
    rw [e]
    split_ifs with hq
    · obtain ⟨k, hk, he⟩ := hq
      rw [List.mem_range] at hk
      have h1 := (addSrc_new hs hlt hk).1
      have hzk := hz k hk
      rw [Nat.add_comm] at hzk
      have hv : i / 2 = k + pos.getD k 0 ∧ V y j - V y i = 0 := by
        rcases he with he | he
        · obtain ⟨rfl, rfl⟩ := matpos_inj hc (c1 _) he
          exact ⟨by omega, by rw [V_even, V_odd, hzk]; simp⟩
        · obtain ⟨rfl, rfl⟩ := matpos_inj hc (c2 _) he
          exact ⟨by omega, by rw [V_even, V_odd, hzk]; simp⟩
      rw [hv.2]
      exact ⟨le_refl _, fun hne' => absurd (hmark i j hi hc (Or.inl (by rw [hv.1]; exact h1))) hne'⟩
    · exact hc'

/-- the diagonal of the result -/
theorem addBounds_diag (hne : pos ≠ []) (hs : pos.Pairwise (· ≤ ·)) (hlt : ∀ q ∈ pos, q ≤ dim)
    {m : Mem K} (hd : ∀ i, i < 4 * dim → m (matpos i i) ≤ fin 0) (project : Bool) {i : ℕ}
    (hi : i < 4 * (dim + pos.length)) : addBounds dim m pos project (matpos i i) ≤ fin 0 := by
  classical
  have key : addBounds dim m pos false (matpos i i) ≤ fin 0 := by
    have h0 := addBounds_copy hne hs hlt m (fun _ => pinf)
    rcases hp : addSrc dim pos (i / 2) with _ | a
    · by_cases hv : i / 2 < dim + pos.length
      · obtain ⟨k, hk, e⟩ := addSrc_none hs hlt hv hp
        unfold addBounds
        dsimp only
        rw [if_neg (by decide), foldl_setp, if_pos]
        refine ⟨k, List.mem_range.2 hk, ?_⟩
        rcases Nat.mod_two_eq_zero_or_one i with h | h
        · left; rw [← e, show 2 * (i / 2) = i by omega]
        · right; rw [← e, show 2 * (i / 2) + 1 = i by omega]
      · -- a new absolute value keeps the value of `avo_hmat_alloc_top`
        have hs2 := absPos_le hs (dim + pos.length)
        have hno : src true 1 (2 * dim + pos.length) (absPos (dim + pos.length) pos) (i / 2) = none := by
          rcases hq : src true 1 (2 * dim + pos.length) (absPos (dim + pos.length) pos) (i / 2) with _ | w
          · rfl
          · exfalso
            have hw := (src_add hs2).1 hq
            rw [cntLe_abs, Nat.one_mul] at hw
            split_ifs at hw with hc
            · have h3 : w - (dim + pos.length) < dim := by omega
              have : addSrc dim pos (i / 2) = some (w - (dim + pos.length) + dim) :=
                (addSrc_some hs hlt).2 (Or.inr ⟨⟨by omega, by omega⟩, by
                  rw [show w - (dim + pos.length) + dim - dim = w - (dim + pos.length) by omega]
                  omega⟩)
              rw [hp] at this; cases this
            · omega
        unfold addBounds
        dsimp only
        rw [if_neg (by decide), foldl_setp, if_neg]
        · unfold addremAV
          rw [if_pos rfl]
          have e : (pos.map fun p => p + dim + pos.length) = absPos (dim + pos.length) pos := by
            unfold absPos; congr 1; funext p; omega
          rw [e, addrem_other _ _ (by unfold absPos; simpa using hne) (ok_add_of_sorted hs2)
            (fun q hq => by rw [mem_abs] at hq; have := hlt _ hq.2; omega) (cell_refl i)]
          · rw [allocTop_diag (K := K) (dim + pos.length) i hi]
          · rintro ⟨⟨r, hr, h1⟩, -⟩
            have := (src_some (dim := 2 * dim + pos.length) (ok_add_of_sorted hs2)).2
              ⟨show r / 2 < _ by omega, h1.2⟩
            rw [hno] at this; cases this
        · rintro ⟨k, hk, he⟩
          obtain ⟨-, h2⟩ := addSrc_new hs hlt (List.mem_range.1 hk)
          rcases he with he | he
          · have := (matpos_inj (cell_refl i) (cell_refl _) he).1; omega
          · have := (matpos_inj (cell_refl i) (cell_refl _) he).1; omega
    · have := h0.cp i i (by omega) (by omega) a a hp hp
      rw [matpos2_cell (cell_refl _), matpos2_cell (cell_refl _)] at this
      have e := congrArg Prod.fst this
      change addBounds dim m pos false (matpos i i) = _ at e
      rw [e]
      have := (h0.legal _ _ hp).2
      exact hd _ (by omega)
  cases project
  · exact key
  · unfold addBounds
    dsimp only
    rw [if_pos rfl, foldl_setp, if_neg]
    · unfold addBounds at key
      dsimp only at key
      rw [if_neg (by decide)] at key
      exact key
    · rintro ⟨k, -, he⟩
      rcases he with he | he
      · have := matpos_inj (cell_refl i) (show Cell _ _ by unfold Cell; omega) he; omega
      · have := matpos_inj (cell_refl i) (show Cell _ _ by unfold Cell; omega) he; omega

end add

end Avo
end Apron
