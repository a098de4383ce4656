import Verif.Avo.ResizeLemmas

/-! # Helper lemmas: removal, permutation and projection for absolute-value octagons -/

set_option autoImplicit false
set_option linter.unusedSectionVars false
set_option linter.ambiguousOpen false

namespace Apron
namespace Avo
open Bound Oct AvoT
variable {K : Type*} [LinearOrder K] [Field K] [IsStrictOrderedRing K]

/-! ### removal -/

section rem
variable {dim : ℕ} {pos : List ℕ}

noncomputable def remSrc (dim : ℕ) (pos : List ℕ) : ℕ → Option ℕ :=
  Avo.comp (src false 1 (2 * dim - pos.length) (absPos (dim - pos.length) pos)) (src false 1 (2 * dim) pos)

theorem cntLt_le' (v : ℕ) : cntLt pos v ≤ pos.length := List.length_filter_le _ _

theorem cntLt_all {v : ℕ} (h : ∀ q ∈ pos, q < v) : cntLt pos v = pos.length := by
  unfold cntLt
  rw [List.filter_eq_self.2]
  intro q hq
  simpa using h q hq

theorem cntLt_le_self (hs : pos.Pairwise (· < ·)) (v : ℕ) : cntLt pos v ≤ v := by
  unfold cntLt
  refine rem_len (dim := v) (hs.sublist List.filter_sublist) fun q hq => ?_
  simpa using (List.mem_filter.1 hq).2

theorem remSrc_some (hs : pos.Pairwise (· < ·)) (hlt : ∀ q ∈ pos, q < dim) {v' v : ℕ}
    (h : remSrc dim pos v' = some v) : v' < dim - pos.length ∧ v < dim ∧ v ∉ pos ∧ v' = v - cntLt pos v ∨
      dim - pos.length ≤ v' ∧ (dim ≤ v ∧ v < 2 * dim) ∧ v - dim ∉ pos ∧
        v' - (dim - pos.length) = v - dim - cntLt pos (v - dim) := by
  unfold remSrc at h
  obtain ⟨w, h1, h2⟩ := comp_some.1 h
  have l1 := src_rem_legal hs hlt
  have hlen := rem_len hs hlt
  rw [src_rem (absPos_lt hs _), mem_abs, cntLt_abs] at h1
  have h2' := (src_rem hs).1 h2
  by_cases hv : v < dim
  · left
    have : w < dim - pos.length := (l1 w v ((src_rem hs).2 ⟨hv, h2'.2⟩)).1
    rw [if_neg (by omega)] at h1
    exact ⟨by omega, hv, h2'.2.1, by omega⟩
  · right
    have hall : cntLt pos v = pos.length := cntLt_all fun q hq => by have := hlt q hq; omega
    rw [hall] at h2'
    have e : w - (dim - pos.length) = v - dim := by omega
    rw [if_pos (by omega), e] at h1
    have hno : v - dim ∉ pos := fun hm => h1.2.1 ⟨by omega, hm⟩
    have hle := cntLt_le_self hs (v - dim)
    exact ⟨by omega, ⟨by omega, by omega⟩, hno, by omega⟩

theorem remAV_copy (hne : pos ≠ []) (hs : pos.Pairwise (· < ·)) (hlt : ∀ q ∈ pos, q < dim)
    (m n u u' : Mem K) : Copy (2 * (dim - pos.length)) (2 * dim) (remSrc dim pos)
      (zip (addremAV false dim u m pos) (addremAV false dim u' n pos)) (zip m n) := by
  have hlen := rem_len hs hlt
  unfold addremAV
  dsimp only
  rw [if_neg (by decide), if_neg (by decide)]
  have e : (pos.map fun p => p + dim - pos.length) = absPos (dim - pos.length) pos := by
    unfold absPos; congr 1; funext p; omega
  rw [e]
  have hlt1 : ∀ q ∈ pos, q < 2 * dim := fun q hq => by have := hlt q hq; omega
  have hs2 := absPos_lt hs (dim - pos.length)
  have hlt2 : ∀ q ∈ absPos (dim - pos.length) pos, q < 2 * dim - pos.length := fun q hq => by
    rw [mem_abs] at hq
    have := hlt _ hq.2; omega
  have e2 : (absPos (dim - pos.length) pos).length = pos.length := by unfold absPos; simp
  have hl1 := src_rem_legal hs hlt1
  have hl2 := src_rem_legal hs2 hlt2
  rw [e2] at hl2
  refine Copy.comp (N1 := 2 * dim - pos.length)
    (M1 := zip (addrem false 1 (2 * dim) (fun _ => pinf) m pos)
    (addrem false 1 (2 * dim) (fun _ => pinf) n pos)) ?_ ?_
  · refine addrem_copy (by unfold absPos; simpa using hne) (ok_rem_of_sorted hs2)
      (fun q hq => (hlt2 q hq).le) ?_ _ _ _ _ fun i j hi hc h => ?_
    · exact fun v' v h => ⟨by have := (hl2 _ _ h).1; omega, (hl2 _ _ h).2⟩
    · exfalso
      have c1 := src_rem_cover hs2 hlt2 (v' := i / 2) (by rw [e2]; omega)
      have c2 := src_rem_cover hs2 hlt2 (v' := j / 2) (by rw [e2]; unfold Cell at hc; omega)
      obtain ⟨_, c1⟩ := c1
      obtain ⟨_, c2⟩ := c2
      rcases h with h | h
      · rw [h] at c1; cases c1
      · rw [h] at c2; cases c2
  · exact addrem_copy hne (ok_rem_of_sorted hs) (fun q hq => (hlt1 q hq).le) hl1 _ _ _ _
      fun i j hi hc _ => free_pinf _ _

theorem remSrc_agree (hs : pos.Pairwise (· < ·)) (hlt : ∀ q ∈ pos, q < dim) {x' x : ℕ → K}
    (h : ∀ v, v < dim → v ∉ pos → x' (v - cntLt pos v) = x v) :
    Agree (remSrc dim pos) (ext (dim - pos.length) x') (ext dim x) := by
  intro v' v hv
  unfold ext
  rcases remSrc_some hs hlt hv with ⟨h0, h1, h2, h3⟩ | ⟨h0, h1, h2, h3⟩
  · rw [if_pos h0, if_pos h1, h3, h v h1 h2]
  · rw [if_neg (by omega), if_neg (by omega), h3, h (v - dim) (by omega) h2]

end rem

/-! ### permutation -/

theorem perm_inv {n : ℕ} {perm : ℕ → ℕ} (hinj : ∀ i j, i < n → j < n → perm i = perm j → i = j)
    (hp : ∀ i, i < n → perm i < n) : ∃ inv : ℕ → ℕ, ∀ v, v < n → inv v < n ∧ perm (inv v) = v := by
  have hsurj : ∀ v', v' < n → ∃ v, v < n ∧ perm v = v' := by
    intro v' hv'
    let f : Fin n → Fin n := fun i => ⟨perm i, hp i i.2⟩
    have hf : Function.Injective f := fun a b h => Fin.ext (hinj a b a.2 b.2 (by simpa [f] using h))
    obtain ⟨a, ha⟩ := (Finite.injective_iff_surjective.1 hf) ⟨v', hv'⟩
    exact ⟨a, a.2, by simpa [f] using congrArg Fin.val ha⟩
  classical
  exact ⟨fun v => if h : v < n then (hsurj v h).choose else 0, fun v hv => by
    beta_reduce; rw [dif_pos hv]; exact (hsurj v hv).choose_spec⟩

theorem perm_copy {n : ℕ} {perm : ℕ → ℕ} (hinj : ∀ i j, i < n → j < n → perm i = perm j → i = j)
    (hp : ∀ i, i < n → perm i < n) (m s u u' : Mem K) :
    Copy n n (permSrc n perm) (zip (hmatPermute u m n n perm) (hmatPermute u' s n n perm)) (zip m s) := by
  obtain ⟨inv, hinv⟩ := perm_inv hinj hp
  have hsrc : ∀ v, v < n → permSrc n perm v = some (inv v) := fun v hv =>
    (permSrc_some hinj).2 (hinv v hv)
  refine Copy.of_cells (OctT.permSrc_legal hinj hp) (OctT.permSrc_inj hinj) (fun i j hi hc a b ha hb => ?_)
    fun i j hi hc h => ?_
  · have e1 := hsrc (i / 2) (by omega)
    have e2 := hsrc (j / 2) (by unfold Cell at hc; omega)
    rw [ha] at e1
    rw [hb] at e2
    obtain rfl := Option.some.inj e1
    obtain rfl := Option.some.inj e2
    unfold zip
    rw [permute_cell (fun i j h1 h2 _ => hinj i j h1 h2) hinv m u hi hc,
      permute_cell (fun i j h1 h2 _ => hinj i j h1 h2) hinv s u' hi hc]
  · exfalso
    have e1 := hsrc (i / 2) (by omega)
    have e2 := hsrc (j / 2) (by unfold Cell at hc; omega)
    rcases h with h | h
    · rw [h] at e1; cases e1
    · rw [h] at e2; cases e2

/-- the permutation of the quantities -/
def perm2 (dim : ℕ) (perm : ℕ → ℕ) (i : ℕ) : ℕ := if i < dim then perm i else perm (i - dim) + dim

section perm
variable {dim : ℕ} {perm : ℕ → ℕ} (hinj : ∀ i j, i < dim → j < dim → perm i = perm j → i = j)
  (hp : ∀ i, i < dim → perm i < dim)
include hinj hp

theorem perm2_inj (i j : ℕ) (hi : i < 2 * dim) (hj : j < 2 * dim) (h : perm2 dim perm i = perm2 dim perm j) :
    i = j := by
  unfold perm2 at h
  split_ifs at h with h1 h2 h2
  · exact hinj i j h1 h2 h
  · have := hp i h1; omega
  · have := hp j h2; omega
  · have := hinj (i - dim) (j - dim) (by omega) (by omega) (by omega); omega

theorem perm2_lt (i : ℕ) (hi : i < 2 * dim) : perm2 dim perm i < 2 * dim := by
  unfold perm2
  split_ifs with h
  · have := hp i h; omega
  · have := hp (i - dim) (by omega); omega

theorem perm2_agree {x' : ℕ → K} : Agree (permSrc (2 * dim) (perm2 dim perm)) (ext dim x')
    (ext dim fun v => x' (perm v)) := by
  intro v' v h
  rw [permSrc_some (perm2_inj hinj hp)] at h
  obtain ⟨h1, rfl⟩ := h
  unfold ext perm2
  by_cases hv : v < dim
  · rw [if_pos hv, if_pos hv, if_pos (hp v hv)]
  · rw [if_neg hv, if_neg hv, if_neg (by omega), Nat.add_sub_cancel]

theorem perm2_sat (m s u u' : Mem K) (x' : ℕ → K) :
    SSat dim (zip (permuteAV u m dim perm) (permuteAV u' s dim perm)) x' ↔
      SSat dim (zip m s) fun v => x' (perm v) := by
  have hC := perm_copy (perm2_inj hinj hp) (perm2_lt hinj hp) m s u u'
  have ha := perm2_agree (K := K) hinj hp (x' := x')
  exact ⟨fun h => hC.sat_back (fun v hv => ⟨perm2 dim perm v,
    (permSrc_some (perm2_inj hinj hp)).2 ⟨hv, rfl⟩⟩) ha h, fun h => hC.sat ha h⟩

theorem perm2_diag {m : Mem K} (hd : ∀ i, i < 4 * dim → m (matpos i i) ≤ fin 0) (u : Mem K) {i : ℕ}
    (hi : i < 4 * dim) : permuteAV u m dim perm (matpos i i) ≤ fin 0 := by
  obtain ⟨inv, hinv⟩ := perm_inv (perm2_inj hinj hp) (perm2_lt hinj hp)
  have e := permute_cell (fun i j h1 h2 _ => perm2_inj hinj hp i j h1 h2) hinv m u
    (show i < 2 * (2 * dim) by omega) (cell_refl i)
  rw [matpos2_cell (cell_refl _)] at e
  unfold permuteAV
  change hmatPermute u m (2 * dim) (2 * dim) (perm2 dim perm) (matpos i i) ≤ _
  rw [e]
  have := (hinv (i / 2) (by omega)).1
  exact hd _ (by omega)

end perm

/-! ### projection -/

theorem setAll_apply (m : Mem K) (l : List ℕ) (v : Bound K) (q : ℕ) :
    setAll m l v q = if q ∈ l then v else m q := by
  unfold setAll
  induction l generalizing m with
  | nil => simp
  | cons p l ih =>
    rw [List.foldl_cons, ih]
    by_cases h : q ∈ l
    · rw [if_pos h, if_pos (List.mem_cons_of_mem _ h)]
    · rw [if_neg h]
      by_cases hq : q = p
      · subst hq; rw [if_pos (by simp)]; simp [Oct.Mem.set]
      · rw [if_neg (by simp [hq, h])]; simp [Oct.Mem.set, hq]

theorem mem_forgetPos {dim d2 q : ℕ} : q ∈ forgetPos dim d2 ↔
    (∃ k, k < d2 ∧ (q = matpos2 d2 k ∨ q = matpos2 (d2 + 1) k ∨ q = matpos2 (d2 + 2 * dim) k ∨
      q = matpos2 (d2 + 1 + 2 * dim) k)) ∨
    ∃ k, d2 + 2 ≤ k ∧ k < 4 * dim ∧ (q = matpos2 k d2 ∨ q = matpos2 k (d2 + 1) ∨
      q = matpos2 k (d2 + 2 * dim) ∨ q = matpos2 k (d2 + 1 + 2 * dim)) := by
  unfold forgetPos
  simp only [List.mem_append, List.mem_flatMap, List.mem_range, List.mem_cons, List.not_mem_nil, or_false,
    List.mem_range'_1]
  refine or_congr Iff.rfl ?_
  constructor
  · rintro ⟨k, hk, h⟩; exact ⟨k, hk.1, by omega, h⟩
  · rintro ⟨k, h1, h2, h⟩; exact ⟨k, ⟨h1, by omega⟩, h⟩

/-- every binary constraint on `x_d` or `|x_d|` is visited -/
theorem forgetPos_cover {dim d i j : ℕ} (hd : d < dim) (hi : i < 4 * dim) (hc : Cell i j)
    (ht : i / 2 = d ∨ i / 2 = d + dim ∨ j / 2 = d ∨ j / 2 = d + dim) :
    (i / 2 = d ∧ j / 2 = d) ∨ matpos i j ∈ forgetPos dim (2 * d) := by
  by_cases h0 : i / 2 = d ∧ j / 2 = d
  · exact Or.inl h0
  right
  have hj : j / 2 ≤ i / 2 := by unfold Cell at hc; omega
  rw [mem_forgetPos, ← matpos2_cell hc]
  by_cases hj2 : j < 2 * d
  · left
    refine ⟨j, hj2, ?_⟩
    have : i = 2 * d ∨ i = 2 * d + 1 ∨ i = 2 * d + 2 * dim ∨ i = 2 * d + 1 + 2 * dim := by omega
    rcases this with rfl | rfl | rfl | rfl <;> simp
  · right
    by_cases hjd : j / 2 = d ∨ j / 2 = d + dim
    · refine ⟨i, by omega, by omega, ?_⟩
      have : j = 2 * d ∨ j = 2 * d + 1 ∨ j = 2 * d + 2 * dim ∨ j = 2 * d + 1 + 2 * dim := by omega
      rcases this with rfl | rfl | rfl | rfl <;> simp
    · have hx : j ^^^ 1 = if j % 2 = 0 then j + 1 else j - 1 := xor1 j
      have hy : i ^^^ 1 = if i % 2 = 0 then i + 1 else i - 1 := xor1 i
      rw [matpos2_mirror (by omega)]
      refine ⟨j ^^^ 1, by split_ifs at hx <;> omega, by split_ifs at hx <;> omega, ?_⟩
      have : i ^^^ 1 = 2 * d + 2 * dim ∨ i ^^^ 1 = 2 * d + 1 + 2 * dim := by
        split_ifs at hy <;> omega
      rcases this with h | h <;> rw [h] <;> simp

theorem forget_diag {dim d : ℕ} (hd : d < dim) (project : Bool) {m n n' : Mem K}
    (hD : Diag (2 * dim) (zip m n)) : Diag (2 * dim) (zip (forgetBounds dim project m d) n') := by
  have hU' : ∀ i j, Cell i j → ∀ a b, a / 2 = b / 2 → matpos i j = matpos2 a b → i = a ∧ j = b := by
    intro i j hc a b hab h
    rw [← matpos2_cell hc] at h
    rcases matpos2_inj h with h | ⟨h1, h2, h3⟩
    · exact h
    · rw [h2, h3, xor1_div, xor1_div] at h1; exact absurd hab.symm h1
  intro i hi
  change forgetBounds dim project m d (matpos i i) ≤ fin 0
  by_cases hdx : i / 2 = d ∨ i / 2 = d + dim
  · -- the diagonal is reset
    have : forgetBounds dim project m d (matpos i i) = fin 0 := by
      have hmem : matpos i i ∈ [matpos2 (2 * d) (2 * d), matpos2 (2 * d + 1) (2 * d + 1),
          matpos2 (2 * d + 2 * dim) (2 * d + 2 * dim),
          matpos2 (2 * d + 2 * dim + 1) (2 * d + 2 * dim + 1)] := by
        have : i = 2 * d ∨ i = 2 * d + 1 ∨ i = 2 * d + 2 * dim ∨ i = 2 * d + 2 * dim + 1 := by omega
        rcases this with rfl | rfl | rfl | rfl <;> rw [← matpos2_cell (cell_refl _)] <;> simp
      unfold forgetBounds
      split_ifs
      · rw [setAll_apply, if_neg, setAll_apply, if_pos hmem]
        simp only [List.mem_cons, List.not_mem_nil, or_false]
        rintro (h | h) <;> (have := hU' i i (cell_refl i) _ _ (by omega) h; omega)
      · rw [setAll_apply, if_neg, setAll_apply, if_pos hmem]
        simp only [List.mem_cons, List.not_mem_nil, or_false]
        rintro (h | h | h | h) <;> (have := hU' i i (cell_refl i) _ _ (by omega) h; omega)
    rw [this]
  · have hq : ∀ a b, (a / 2 = b / 2 ∧ (a / 2 = d ∨ a / 2 = d + dim)) → matpos i i ≠ matpos2 a b := by
      intro a b hab h
      have := hU' i i (cell_refl i) a b hab.1 h
      omega
    -- no loop reaches the diagonal of another variable
    have hnp : matpos i i ∉ forgetPos dim (2 * d) := by
      rw [mem_forgetPos, ← matpos2_cell (cell_refl i)]
      have hne : ∀ a b, a / 2 ≠ b / 2 → matpos2 i i ≠ matpos2 a b := by
        intro a b hab h
        rcases matpos2_inj h with h | ⟨h1, -⟩
        · omega
        · exact h1 rfl
      rintro (⟨k, hk1, h⟩ | ⟨k, hk1, hk2, h⟩)
      · rcases h with h | h | h | h <;> exact hne _ _ (by omega) h
      · rcases h with h | h | h | h
        · exact hne _ _ (by omega) h
        · exact hne _ _ (by omega) h
        · by_cases hk3 : k / 2 = d + dim
          · rw [matpos2_cell (cell_refl i)] at h; exact hq _ _ (by omega) h
          · exact hne _ _ (by omega) h
        · by_cases hk3 : k / 2 = d + dim
          · rw [matpos2_cell (cell_refl i)] at h; exact hq _ _ (by omega) h
          · exact hne _ _ (by omega) h
    have : forgetBounds dim project m d (matpos i i) = m (matpos i i) := by
      unfold forgetBounds
      split_ifs
      · rw [setAll_apply, if_neg, setAll_apply, if_neg, setAll_apply, if_neg hnp]
        · simp only [List.mem_cons, List.not_mem_nil, or_false]
          rintro (h | h | h | h) <;> exact hq _ _ (by omega) h
        · simp only [List.mem_cons, List.not_mem_nil, or_false]
          rintro (h | h) <;> exact hq _ _ (by omega) h
      · rw [setAll_apply, if_neg, setAll_apply, if_neg, setAll_apply, if_neg hnp]
        · simp only [List.mem_cons, List.not_mem_nil, or_false]
          rintro (h | h | h | h) <;> exact hq _ _ (by omega) h
        · simp only [List.mem_cons, List.not_mem_nil, or_false]
          rintro (h | h | h | h) <;> exact hq _ _ (by omega) h
    rw [this]
    exact hD i hi

theorem forget_step {dim d : ℕ} (hd : d < dim) (project : Bool) {m n : Mem K} {x x' : ℕ → K}
    (hD : Diag (2 * dim) (zip m n)) (hx : SSat dim (zip m n) x)
    (hk : ∀ v, v < dim → v ≠ d → x' v = x v) (hp : project = true → x' d = 0) :
    SSat dim (zip (forgetBounds dim project m d) (forgetMarks dim n d)) x' := by
  have hU' : ∀ i j, Cell i j → ∀ a b, a / 2 = b / 2 → matpos i j = matpos2 a b → i = a ∧ j = b := by
    intro i j hc a b hab h
    rw [← matpos2_cell hc] at h
    rcases matpos2_inj h with h | ⟨h1, h2, h3⟩
    · exact h
    · rw [h2, h3, xor1_div, xor1_div] at h1; exact absurd hab.symm h1
  -- the marks
  have hmark : ∀ q, forgetMarks dim n d q = pinf ∨ forgetMarks dim n d q = n q ∧
      q ∉ forgetPos dim (2 * d) := by
    intro q
    unfold forgetMarks
    rw [setAll_apply, setAll_apply]
    split_ifs with h1 h2
    · exact Or.inl rfl
    · exact Or.inl rfl
    · exact Or.inr ⟨rfl, h2⟩
  have hmarkU : ∀ q, (q = matpos2 (2 * d) (2 * d + 1) ∨ q = matpos2 (2 * d + 1) (2 * d)) →
      forgetMarks dim n d q = pinf := by
    intro q hq
    unfold forgetMarks
    rw [setAll_apply, if_pos]
    rcases hq with rfl | rfl <;> simp
  have hdiag0 : ∀ i, i < 4 * dim → forgetMarks dim n d (matpos i i) = pinf := by
    intro i hi
    rcases hmark (matpos i i) with h | ⟨h, -⟩
    · exact h
    · rw [h]
      by_contra hne
      have h1 := (hx i i (by omega) (cell_refl i)).2 hne
      have h2 := hD i (by omega)
      rw [sub_self] at h1
      exact absurd h2 (not_le.2 h1)
  -- the bounds
  have hbound : ∀ i j, i < 4 * dim → Cell i j →
      (i = j ∧ forgetBounds dim project m d (matpos i j) = fin 0) ∨
      forgetBounds dim project m d (matpos i j) = pinf ∨
      (project = true ∧ (i = 2 * d ∧ j = 2 * d + 1 ∨ i = 2 * d + 1 ∧ j = 2 * d) ∧
        forgetBounds dim project m d (matpos i j) = fin 0) ∨
      (forgetBounds dim project m d (matpos i j) = m (matpos i j) ∧
        ¬ (i / 2 = d ∨ i / 2 = d + dim ∨ j / 2 = d ∨ j / 2 = d + dim)) := by
    intro i j hi hc
    unfold forgetBounds
    have key : ∀ m0 : Mem K, (m0 (matpos i j) = m (matpos i j)) →
        let q := matpos i j
        let m1 := setAll m0 (forgetPos dim (2 * d)) pinf
        let m2 := setAll m1 [matpos2 (2 * d) (2 * d), matpos2 (2 * d + 1) (2 * d + 1),
          matpos2 (2 * d + 2 * dim) (2 * d + 2 * dim),
          matpos2 (2 * d + 2 * dim + 1) (2 * d + 2 * dim + 1)] (fin 0)
        (i = j ∧ m2 q = fin 0) ∨ (m2 q = pinf) ∨ (m2 q = m q ∧
          ((i / 2 = d ∨ i / 2 = d + dim ∨ j / 2 = d ∨ j / 2 = d + dim) → i / 2 = d ∧ j / 2 = d ∧ i ≠ j)) := by
      intro m0 hm0
      dsimp only
      rw [setAll_apply, setAll_apply]
      split_ifs with h1 h2
      · left
        simp only [List.mem_cons, List.not_mem_nil, or_false] at h1
        refine ⟨?_, rfl⟩
        rcases h1 with h | h | h | h <;> (have := hU' i j hc _ _ rfl h; omega)
      · right; left; rfl
      · right; right
        refine ⟨hm0, fun ht => ?_⟩
        have := (forgetPos_cover hd hi hc ht).resolve_right h2
        refine ⟨this.1, this.2, ?_⟩
        rintro rfl
        apply h1
        have : i = 2 * d ∨ i = 2 * d + 1 := by omega
        rcases this with rfl | rfl <;> rw [← matpos2_cell (cell_refl _)] <;> simp
    have hk := key m rfl
    dsimp only at hk
    split_ifs with hpr
    · rw [setAll_apply]
      split_ifs with hq
      · right; right; left
        simp only [List.mem_cons, List.not_mem_nil, or_false] at hq
        refine ⟨hpr, ?_, rfl⟩
        rcases hq with h | h
        · exact Or.inl (hU' i j hc _ _ (by omega) h)
        · exact Or.inr (hU' i j hc _ _ (by omega) h)
      · rcases hk with hk | hk | ⟨hk, hk'⟩
        · exact Or.inl hk
        · exact Or.inr (Or.inl hk)
        · refine Or.inr (Or.inr (Or.inr ⟨hk, fun ht => hq ?_⟩))
          obtain ⟨h1, h2, h3⟩ := hk' ht
          have : i = 2 * d ∧ j = 2 * d + 1 ∨ i = 2 * d + 1 ∧ j = 2 * d := by omega
          rcases this with ⟨rfl, rfl⟩ | ⟨rfl, rfl⟩ <;> rw [← matpos2_cell hc] <;> simp
    · rw [setAll_apply]
      split_ifs with hq
      · right; left; rfl
      · rcases hk with hk | hk | ⟨hk, hk'⟩
        · exact Or.inl hk
        · exact Or.inr (Or.inl hk)
        · refine Or.inr (Or.inr (Or.inr ⟨hk, fun ht => hq ?_⟩))
          obtain ⟨h1, h2, h3⟩ := hk' ht
          have : i = 2 * d ∧ j = 2 * d + 1 ∨ i = 2 * d + 1 ∧ j = 2 * d := by omega
          rcases this with ⟨rfl, rfl⟩ | ⟨rfl, rfl⟩ <;> rw [← matpos2_cell hc] <;> simp
  have hV : ∀ i, i < 4 * dim → ¬ (i / 2 = d ∨ i / 2 = d + dim) → V (ext dim x') i = V (ext dim x) i := by
    intro i hi hn
    have : ext dim x' (i / 2) = ext dim x (i / 2) := by
      unfold ext
      split_ifs with h
      · exact hk _ h (by omega)
      · rw [hk (i / 2 - dim) (by omega) (by omega)]
    unfold V
    rw [this]
  intro i j hi hc
  change Ok _ (forgetBounds dim project m d (matpos i j), forgetMarks dim n d (matpos i j))
  have hj : j < 4 * dim := by unfold Cell at hc; omega
  rcases hbound i j (by omega) hc with ⟨rfl, h⟩ | h | ⟨h1, h2, h⟩ | ⟨h, h1⟩
  · rw [h, hdiag0 i (by omega), sub_self]
    exact ⟨le_refl _, fun e => absurd rfl e⟩
  · rw [h]
    exact ⟨by simp, fun _ => by simp⟩
  · have hz := hp h1
    have hv : V (ext dim x') j - V (ext dim x') i = 0 := by
      have : ext dim x' d = 0 := by unfold ext; rw [if_pos hd, hz]
      rcases h2 with ⟨rfl, rfl⟩ | ⟨rfl, rfl⟩ <;> rw [V_even, V_odd, this] <;> simp
    rw [h, hv, hmarkU (matpos i j) (by
      rw [← matpos2_cell hc]
      rcases h2 with ⟨rfl, rfl⟩ | ⟨rfl, rfl⟩
      · exact Or.inl rfl
      · exact Or.inr rfl)]
    exact ⟨le_refl _, fun e => absurd rfl e⟩
  · push Not at h1
    rw [h, hV i (by omega) (by omega), hV j hj (by omega)]
    have := hx i j hi hc
    rcases hmark (matpos i j) with e | ⟨e, -⟩
    · rw [e]; exact ⟨this.1, fun e => absurd rfl e⟩
    · rw [e]; exact this

theorem forget_sat {dim : ℕ} (project : Bool) (tdim : List ℕ) (hd : ∀ d ∈ tdim, d < dim) {m n : Mem K}
    {x x' : ℕ → K} (hD : Diag (2 * dim) (zip m n)) (hx : SSat dim (zip m n) x)
    (hk : ∀ v, v < dim → v ∉ tdim → x' v = x v) (hp : project = true → ∀ d ∈ tdim, x' d = 0) :
    SSat dim (zip (tdim.foldl (forgetBounds dim project) m) (tdim.foldl (forgetMarks dim) n)) x' := by
  induction tdim generalizing m n x with
  | nil =>
    intro i j hi hc
    have : ∀ i, i < 4 * dim → V (ext dim x') i = V (ext dim x) i := by
      intro i hi
      have : ext dim x' (i / 2) = ext dim x (i / 2) := by
        unfold ext
        split_ifs with h
        · exact hk _ h (by simp)
        · rw [hk (i / 2 - dim) (by omega) (by simp)]
      unfold V
      rw [this]
    rw [this i (by omega), this j (by unfold Cell at hc; omega)]
    exact hx i j hi hc
  | cons d l ih =>
    rw [List.foldl_cons, List.foldl_cons]
    have h1 := forget_diag (n' := forgetMarks dim n d) (hd d (by simp)) project hD
    have h2 := forget_step (hd d (by simp)) project (x' := Function.update x d (x' d)) hD hx
      (fun v _ hv => by rw [Function.update_of_ne hv]) (fun h => by
        rw [Function.update_self]; exact hp h d (by simp))
    refine ih (fun d' h => hd d' (by simp [h])) h1 h2 (fun v hv hn => ?_)
      fun h d' hd' => hp h d' (by simp [hd'])
    by_cases hvd : v = d
    · subst hvd; rw [Function.update_self]
    · rw [Function.update_of_ne hvd]; exact hk v hv (by simp [hvd, hn])

theorem forget_diags {dim : ℕ} (project : Bool) (tdim : List ℕ) (hd : ∀ d ∈ tdim, d < dim)
    {m n n' : Mem K} (hD : Diag (2 * dim) (zip m n)) :
    Diag (2 * dim) (zip (tdim.foldl (forgetBounds dim project) m) n') := by
  induction tdim generalizing m n with
  | nil => exact hD
  | cons d l ih =>
    rw [List.foldl_cons]
    exact ih (fun d' h => hd d' (by simp [h])) (forget_diag (n' := n) (hd d (by simp)) project hD)

end Avo
end Apron
