import Verif.Oct.ExpandFold

/-! # Helper lemmas: invariants and specification of the dimension-changing operations -/

set_option autoImplicit false
set_option linter.unusedSectionVars false
set_option linter.ambiguousOpen false

namespace Apron
namespace OctT
open Bound Oct
variable {K : Type*} [LinearOrder K] [Field K] [IsStrictOrderedRing K] (R : Rnd K)

theorem sat_congr {dim : ℕ} {m : Mem K} {x y : ℕ → K} (h : ∀ v, v < dim → x v = y v) :
    Sat dim m x ↔ Sat dim m y := by
  have hV : ∀ i, i < 2 * dim → V x i = V y i := by
    intro i hi; unfold V; rw [h (i / 2) (by omega)]
  unfold Sat
  constructor <;> intro hs i j hi hc
  · have hj : j < 2 * dim := by unfold Cell at hc; omega
    rw [← hV i hi, ← hV j hj]; exact hs i j hi hc
  · have hj : j < 2 * dim := by unfold Cell at hc; omega
    rw [hV i hi, hV j hj]; exact hs i j hi hc

theorem gam_congr {a : OctT K} {x y : ℕ → K} (h : ∀ v, v < a.dim → x v = y v) : a.Gam x ↔ a.Gam y := by
  rw [gam_iff_best, gam_iff_best]
  simp only [sat_congr h]

theorem sat_diag {dim : ℕ} {m : Mem K} {x : ℕ → K} (h : Sat dim m x) {i : ℕ} (hi : i < 2 * dim) :
    fin 0 ≤ m (matpos i i) := by simpa using h i i hi (cell_refl i)

/-- the diagonal, made total -/
def dg (dim : ℕ) (m : Mem K) (i : ℕ) : Bound K := if i < 2 * dim then m (matpos i i) else fin 0

theorem dg_coh {dim : ℕ} {m : Mem K} (h : DiagCoh dim m) (i : ℕ) : dg dim m (i ^^^ 1) = dg dim m i := by
  unfold dg
  by_cases hi : i < 2 * dim
  · rw [if_pos hi, if_pos (xor1_lt hi), h i hi]
  · rw [if_neg hi, if_neg (by rw [xor1_lt_iff]; exact hi)]

theorem forget_emb' (dim : ℕ) (z : Bool) (m : Mem K) (tdim : List ℕ) :
    CellsEq dim (tdim.foldl (forgetVar dim z) m) (emb z (dg dim m) dim (keep dim tdim) (G dim m)) := by
  intro i j hi hc
  rw [forget_emb dim z m tdim i j hi hc]
  by_cases h : keep dim tdim (i / 2) = none ∨ keep dim tdim (j / 2) = none
  · rw [emb_n h, emb_n h]
    unfold dg
    rw [if_pos hi]
  · push Not at h
    obtain ⟨a, ha⟩ := Option.ne_none_iff_exists'.1 h.1
    obtain ⟨b, hb⟩ := Option.ne_none_iff_exists'.1 h.2
    rw [emb_ss ha hb, emb_ss ha hb]

theorem wf_forgetArray (algo : ℤ) {a : OctT K} (ha : Wf a) (tdim : List ℕ) (project : Bool) :
    Wf (forgetArray Rnd.exact algo a tdim project) := by
  have hw := wf_cacheIf algo ha
  unfold forgetArray
  rcases h1 : (cacheIf Rnd.exact algo a).best with _ | m
  · simp only [h1]; exact wf_bottom _ _
  · simp only [h1]
    set d := (cacheIf Rnd.exact algo a).dim
    have hg := hw.good_best h1
    have hG := emb_G (dg_coh hg.coh) (keep_legal d tdim) (G_coh hg.coh) (forget_emb' d project m tdim)
    split_ifs with hc
    · simp only [Bool.and_eq_true, Bool.not_eq_true'] at hc
      obtain ⟨c, hc'⟩ := Option.isSome_iff_exists.1 hc.1
      have : m = c := by have := best_of_closed hc'; rw [h1] at this; simpa using this
      subst this
      have hsc := hw.sc m hc'
      have hp := hc.2
      subst hp
      refine wf_of_SC ?_
      rw [hG]
      refine SC_emb (keep_legal d tdim) (fun i => ?_) hsc
      unfold dg
      split_ifs with hi
      · rw [← G_cell m hi (cell_refl i)]; exact hsc.diag i hi
      · rfl
    · refine wf_of_good (good_emb (keep_legal d tdim) (dg_coh hg.coh) (fun i hi => ?_) hg hG)
      unfold dg; rw [if_pos hi]; exact hg.nn i hi

theorem forget_gam (algo : ℤ) (a : OctT K) (tdim : List ℕ) (project : Bool) {m : Mem K}
    (h1 : (cacheIf R algo a).best = some m) (x : ℕ → K) :
    (forgetArray R algo a tdim project).Gam x ↔ Sat a.dim (tdim.foldl (forgetVar a.dim project) m) x := by
  unfold forgetArray
  simp only [h1, cacheIf_dim]
  split_ifs
  · exact gam_closed
  · exact gam_m

theorem forget_gam_none (algo : ℤ) (a : OctT K) (tdim : List ℕ) (project : Bool)
    (h1 : (cacheIf R algo a).best = none) (x : ℕ → K) :
    ¬ (forgetArray R algo a tdim project).Gam x := by
  unfold forgetArray
  simp only [h1]
  exact gam_bottom _ _ _

theorem keep_agree {dim : ℕ} {tdim : List ℕ} {x' x : ℕ → K} :
    Agree (keep dim tdim) x' x ↔ ∀ v, v < dim → v ∉ tdim → x' v = x v := by
  unfold Agree
  constructor
  · intro h v h1 h2; exact h v v (keep_some.2 ⟨rfl, h1, h2⟩)
  · intro h v' v hv; obtain ⟨rfl, h1, h2⟩ := keep_some.1 hv; exact h v' h1 h2

/-! ### add -/

theorem addDimensions_gam (a : OctT K) {pos : List ℕ} (hne : pos ≠ []) (hs : pos.Pairwise (· ≤ ·))
    (hlt : ∀ q ∈ pos, q ≤ a.dim) (intadd : ℕ) (project : Bool) (x' : ℕ → K) :
    (addDimensions a pos intadd project).Gam x' ↔
      a.Gam (fun v => x' (v + cntLe pos v)) ∧
      (project = true → ∀ k, k < pos.length → x' (pos.getD k 0 + k) = 0) := by
  have hL := src_add_legal (mult := 1) (dim := a.dim) hs
  rw [Nat.one_mul] at hL
  have hinj := src_inj (dim := a.dim) (ok_add_of_sorted (mult := 1) hs)
  have hcov : ∀ v, v < a.dim → ∃ v', src true 1 a.dim pos v' = some v := fun v hv =>
    ⟨v + 1 * cntLe pos v, (src_add hs).2 ⟨hv, rfl⟩⟩
  have hag : Agree (src true 1 a.dim pos) x' (fun v => x' (v + cntLe pos v)) := by
    intro v' v h
    rw [src_add hs, Nat.one_mul] at h
    rw [h.2]
  have hnn : ∀ v', v' < a.dim + pos.length → (src true 1 a.dim pos v' = none ↔
      ∃ k, k < pos.length ∧ v' = pos.getD k 0 + k) := by
    intro v' h
    rw [src_add_none hs hlt (by omega)]
    constructor
    · rintro ⟨k, s, h1, h2, h3⟩; exact ⟨k, h1, by omega⟩
    · rintro ⟨k, h1, h2⟩; exact ⟨k, 0, h1, by omega, by omega⟩
  have hposlt : ∀ k, k < pos.length → pos.getD k 0 + k < a.dim + pos.length := by
    intro k hk
    have := hlt (pos.getD k 0) (by rw [List.getD, List.getElem?_eq_getElem hk]; exact List.getElem_mem hk)
    omega
  unfold addDimensions
  rcases h1 : a.best with _ | m
  · simp only [h1]
    constructor
    · intro h; exact (gam_bottom _ _ _ h).elim
    · rintro ⟨h, _⟩; exact (gam_best_none h1 h).elim
  · simp only [h1]
    rw [gam_best h1]
    cases project
    · simp only [Bool.not_false, Bool.and_true, Bool.false_eq_true, if_false, false_imp_iff, and_true]
      have hE := add_emb (mult := 1) m hne hs hlt
      rw [Nat.one_mul] at hE
      have key : Sat (a.dim + pos.length) (addrem true 1 a.dim (allocTop (a.dim + pos.length)) m pos) x' ↔
          Sat a.dim m (fun v => x' (v + cntLe pos v)) :=
        ⟨fun h => sat_emb_cover hE hL hinj hcov h hag,
          fun h => sat_emb_of hL hE (fun _ _ => le_refl _) h hag (by simp)⟩
      split_ifs
      · rw [gam_closed, key]
      · rw [gam_m, key]
    · simp only [Bool.not_true, Bool.and_false, Bool.false_eq_true, if_false, if_true, true_imp_iff]
      have hE := add_emb_project m hne hs hlt
      rw [gam_m]
      constructor
      · intro h
        exact ⟨sat_emb_cover hE hL hinj hcov h hag, fun k hk =>
          sat_emb_zero hE h (hposlt k hk) ((hnn _ (hposlt k hk)).2 ⟨k, hk, rfl⟩)⟩
      · rintro ⟨h, hz⟩
        refine sat_emb_of hL hE (fun _ _ => le_refl _) h hag (fun _ v hv hp => ?_)
        obtain ⟨k, hk, rfl⟩ := (hnn v hv).1 hp
        exact hz k hk

theorem wf_addDimensions {a : OctT K} (ha : Wf a) {pos : List ℕ} (hne : pos ≠ [])
    (hs : pos.Pairwise (· ≤ ·)) (hlt : ∀ q ∈ pos, q ≤ a.dim) (intadd : ℕ) (project : Bool) :
    Wf (addDimensions a pos intadd project) := by
  have hL := src_add_legal (mult := 1) (dim := a.dim) hs
  rw [Nat.one_mul] at hL
  unfold addDimensions
  rcases h1 : a.best with _ | m
  · simp only [h1]; exact wf_bottom _ _
  · simp only [h1]
    have hg := ha.good_best h1
    cases project
    · simp only [Bool.not_false, Bool.and_true, Bool.false_eq_true, if_false]
      have hE := add_emb (mult := 1) m hne hs hlt
      rw [Nat.one_mul] at hE
      have hG := emb_G (fun _ => rfl) hL (G_coh hg.coh) hE
      split_ifs with hc
      · obtain ⟨c, hc'⟩ := Option.isSome_iff_exists.1 hc
        have : m = c := by have := best_of_closed hc'; rw [h1] at this; simpa using this
        subst this
        refine wf_of_SC ?_
        rw [hG]
        exact SC_emb hL (fun _ => rfl) (ha.sc m hc')
      · exact wf_of_good (good_emb hL (fun _ => rfl) (fun _ _ => le_refl _) hg hG)
    · simp only [Bool.not_true, Bool.and_false, Bool.false_eq_true, if_false, if_true]
      have hE := add_emb_project m hne hs hlt
      have hG := emb_G (fun _ => rfl) hL (G_coh hg.coh) hE
      exact wf_of_good (good_emb hL (fun _ => rfl) (fun _ _ => le_refl _) hg hG)

/-! ### remove -/

theorem src_rem_agree {dim : ℕ} {pos : List ℕ} (hs : pos.Pairwise (· < ·)) {x' x : ℕ → K} :
    Agree (src false 1 dim pos) x' x ↔ ∀ v, v < dim → v ∉ pos → x' (v - cntLt pos v) = x v := by
  have hle : ∀ v, v < dim → v ∉ pos → cntLt pos v ≤ v := by
    have gen : ∀ (l : List ℕ) (o v : ℕ), Ok false 1 l o → o ≤ v → o + cntLt l v ≤ v := by
      intro l
      induction l with
      | nil => intro o v _ h; simpa [cntLt] using h
      | cons p l ih =>
        intro o v hok h
        have h2 : Ok false 1 l (p + 1) := by simpa using hok.2
        have hop := hok.1
        by_cases hp : p < v
        · have := ih (p + 1) v h2 (by omega)
          have e : cntLt (p :: l) v = cntLt l v + 1 := by simp [cntLt, hp]
          omega
        · have e : cntLt (p :: l) v = 0 := by
            unfold cntLt
            rw [List.length_eq_zero_iff, List.filter_eq_nil_iff]
            intro q hq
            rcases List.mem_cons.1 hq with rfl | hq
            · simpa using hp
            · have := ok_false_ge h2 q hq; simp; omega
          omega
    intro v _ _
    have := gen pos 0 v (ok_rem_of_sorted hs) (Nat.zero_le _)
    omega
  unfold Agree
  constructor
  · intro h v h1 h2
    refine h _ v ((src_rem hs).2 ⟨h1, h2, ?_⟩)
    have := hle v h1 h2; omega
  · intro h v' v hv
    rw [src_rem hs] at hv
    rw [← h v hv.1 hv.2.1]
    congr 1; omega

theorem removeDimensions_gam (algo : ℤ) (u : Mem K) (a : OctT K) (pos : List ℕ) (intrem : ℕ) {m : Mem K}
    (h1 : (cacheIf R algo a).best = some m) (x' : ℕ → K) :
    (removeDimensions R algo u a pos intrem).Gam x' ↔
      Sat (a.dim - pos.length) (addrem false 1 a.dim u m pos) x' := by
  unfold removeDimensions
  simp only [h1, cacheIf_dim]
  split_ifs
  · exact gam_closed
  · exact gam_m

theorem removeDimensions_none (algo : ℤ) (u : Mem K) (a : OctT K) (pos : List ℕ) (intrem : ℕ)
    (h1 : (cacheIf R algo a).best = none) (x' : ℕ → K) :
    ¬ (removeDimensions R algo u a pos intrem).Gam x' := by
  unfold removeDimensions
  simp only [h1]
  exact gam_bottom _ _ _

theorem wf_removeDimensions (algo : ℤ) (u : Mem K) {a : OctT K} (ha : Wf a) {pos : List ℕ}
    (hne : pos ≠ []) (hs : pos.Pairwise (· < ·)) (hlt : ∀ q ∈ pos, q < a.dim) (intrem : ℕ) :
    Wf (removeDimensions Rnd.exact algo u a pos intrem) := by
  have hw := wf_cacheIf algo ha
  have hd := cacheIf_dim (R := Rnd.exact) algo a
  unfold removeDimensions
  rcases h1 : (cacheIf Rnd.exact algo a).best with _ | m
  · simp only [h1]; exact wf_bottom _ _
  · simp only [h1]
    have hg := hw.good_best h1
    rw [hd] at hg ⊢
    have hL := src_rem_legal hs hlt
    have hG := emb_G (fun _ => rfl) hL (G_coh hg.coh) (rem_emb m u hne hs hlt)
    split_ifs with hc
    · obtain ⟨c, hc'⟩ := Option.isSome_iff_exists.1 hc
      have : m = c := by have := best_of_closed hc'; rw [h1] at this; simpa using this
      subst this
      have hsc := hw.sc m hc'
      rw [hd] at hsc
      refine wf_of_SC ?_
      rw [hG]
      exact SC_emb hL (fun _ => rfl) hsc
    · exact wf_of_good (good_emb hL (fun _ => rfl) (fun _ _ => le_refl _) hg hG)

/-! ### permute -/

theorem permSrc_legal {n : ℕ} {perm : ℕ → ℕ} (hinj : ∀ i j, i < n → j < n → perm i = perm j → i = j)
    (hp : ∀ i, i < n → perm i < n) : Legal n n (permSrc n perm) := by
  intro v' v h
  rw [permSrc_some hinj] at h
  exact ⟨h.2 ▸ hp v h.1, h.1⟩

theorem permSrc_inj {n : ℕ} {perm : ℕ → ℕ} (hinj : ∀ i j, i < n → j < n → perm i = perm j → i = j) :
    Inj (permSrc n perm) := by
  intro v' w' v h1 h2
  rw [permSrc_some hinj] at h1 h2
  rw [← h1.2, ← h2.2]

theorem permuteDimensions_gam (u : Mem K) (a : OctT K) {perm : ℕ → ℕ}
    (hinj : ∀ i j, i < a.dim → j < a.dim → perm i = perm j → i = j)
    (hp : ∀ i, i < a.dim → perm i < a.dim) (x' : ℕ → K) :
    (permuteDimensions u a perm).Gam x' ↔ a.Gam (fun v => x' (perm v)) := by
  have hag : Agree (permSrc a.dim perm) x' (fun v => x' (perm v)) := by
    intro v' v h
    rw [permSrc_some hinj] at h
    simp only [h.2]
  have hcov : ∀ v, v < a.dim → ∃ v', permSrc a.dim perm v' = some v := fun v hv =>
    ⟨perm v, (permSrc_some hinj).2 ⟨hv, rfl⟩⟩
  unfold permuteDimensions
  rcases h1 : a.best with _ | m
  · simp only [h1]
    exact ⟨fun h => (gam_bottom _ _ _ h).elim, fun h => (gam_best_none h1 h).elim⟩
  · simp only [h1]
    rw [gam_best h1]
    have hE := permute_emb hinj hp m u
    have key : Sat a.dim (hmatPermute u m a.dim a.dim perm) x' ↔ Sat a.dim m (fun v => x' (perm v)) :=
      ⟨fun h => sat_emb_cover hE (permSrc_legal hinj hp) (permSrc_inj hinj) hcov h hag,
        fun h => sat_emb_of (permSrc_legal hinj hp) hE (fun _ _ => le_refl _) h hag (by simp)⟩
    split_ifs
    · rw [gam_closed, key]
    · rw [gam_m, key]

theorem wf_permuteDimensions (u : Mem K) {a : OctT K} (ha : Wf a) {perm : ℕ → ℕ}
    (hinj : ∀ i j, i < a.dim → j < a.dim → perm i = perm j → i = j)
    (hp : ∀ i, i < a.dim → perm i < a.dim) : Wf (permuteDimensions u a perm) := by
  unfold permuteDimensions
  rcases h1 : a.best with _ | m
  · simp only [h1]; exact wf_bottom _ _
  · simp only [h1]
    have hg := ha.good_best h1
    have hL := permSrc_legal hinj hp
    have hG := emb_G (fun _ => rfl) hL (G_coh hg.coh) (permute_emb hinj hp m u)
    split_ifs with hc
    · obtain ⟨c, hc'⟩ := Option.isSome_iff_exists.1 hc
      have : m = c := by have := best_of_closed hc'; rw [h1] at this; simpa using this
      subst this
      refine wf_of_SC ?_
      rw [hG]
      exact SC_emb hL (fun _ => rfl) (ha.sc m hc')
    · exact wf_of_good (good_emb hL (fun _ => rfl) (fun _ _ => le_refl _) hg hG)

/-! ### expand -/

/-- position of the copies -/
def expandPos (a : OctT K) (d : ℕ) : ℕ := if d < a.intdim then a.intdim else a.dim

section
variable {a : OctT K} {d n : ℕ} (hd : d < a.dim) (hid : a.intdim ≤ a.dim)
include hd hid

theorem expandPos_facts : d < expandPos a d ∧ expandPos a d ≤ a.dim := by
  unfold expandPos; split_ifs <;> omega

theorem expand_single (hpos : True) : ([expandPos a d] : List ℕ).Pairwise (· ≤ ·) := by simp

theorem expand_src {v v' : ℕ} : src true n a.dim [expandPos a d] v' = some v ↔
    v < a.dim ∧ v' = if v < expandPos a d then v else v + n := by
  rw [src_add (by simp)]
  unfold cntLe
  by_cases h : expandPos a d ≤ v
  · simp [h, Nat.not_lt.2 h]
  · simp [h, Nat.lt_of_not_le h]

theorem expand_src_none {v' : ℕ} (hv : v' < a.dim + n) : src true n a.dim [expandPos a d] v' = none ↔
    expandPos a d ≤ v' ∧ v' < expandPos a d + n := by
  have hf := expandPos_facts hd hid
  rw [src_add_none (by simp) (by simpa using hf.2) (by simpa using hv)]
  constructor
  · rintro ⟨k, s, h1, h2, h3⟩
    have : k = 0 := by simpa using h1
    subst this
    simp at h3
    omega
  · rintro ⟨h1, h2⟩
    exact ⟨0, v' - expandPos a d, by simp, by omega, by simp; omega⟩

theorem expand_emb (m : Mem K) : CellsEq (a.dim + n)
    (addrem true n a.dim (allocTop (a.dim + n)) m [expandPos a d])
    (emb false (fun _ => fin 0) (a.dim + n) (src true n a.dim [expandPos a d]) (G a.dim m)) := by
  have hf := expandPos_facts hd hid
  have := add_emb (mult := n) (pos := [expandPos a d]) m (by simp) (by simp) (by simpa using hf.2)
  simpa using this

theorem expand_base_new (m : Mem K) {i j : ℕ} (hi : i < 2 * (a.dim + n)) (hj : j < 2 * (a.dim + n))
    (hc : expandPos a d ≤ i / 2 ∧ i / 2 < expandPos a d + n) :
    addrem true n a.dim (allocTop (a.dim + n)) m [expandPos a d] (matpos2 i j) =
      if i = j then fin 0 else pinf := by
  have hE := expand_emb (n := n) hd hid m
  have hn : src true n a.dim [expandPos a d] (i / 2) = none := (expand_src_none hd hid (by omega)).2 hc
  by_cases hcell : Cell i j
  · rw [matpos2_cell hcell, hE i j hi hcell, emb_n (Or.inl hn)]
    by_cases e : i = j
    · rw [if_pos ⟨hi, e⟩, if_pos e]
    · rw [if_neg (by tauto), if_neg (by simp), if_neg e]
  · have hcm := (cell_or_mirror i j).resolve_left hcell
    have hne : i / 2 ≠ j / 2 := fun e => hcell (by unfold Cell; omega)
    rw [matpos2_mirror hne, matpos2_cell hcm, hE _ _ (xor1_lt hj) hcm,
      emb_n (Or.inr (by rw [xor1_div]; exact hn))]
    have e1 : ¬ j ^^^ 1 = i ^^^ 1 := by rw [xor1_inj]; rintro rfl; exact hne rfl
    rw [if_neg (by tauto), if_neg (by simp), if_neg (by rintro rfl; exact hne rfl)]

theorem expand_gam (x' : ℕ → K) :
    (expand a d n).Gam x' ↔ ∀ y, (y = x' d ∨ ∃ k, k < n ∧ y = x' (expandPos a d + k)) →
      a.Gam (fun v => if v = d then y else if v < expandPos a d then x' v else x' (v + n)) := by
  have hf := expandPos_facts hd hid
  have e0 : (if d < a.intdim then a.intdim else a.dim) = expandPos a d := rfl
  unfold expand
  rw [e0]
  rcases h1 : a.best with _ | m
  · simp only [h1]
    exact ⟨fun h => (gam_bottom _ _ _ h).elim, fun h => (gam_best_none h1 (h _ (Or.inl rfl))).elim⟩
  · simp only [h1]
    rw [gam_m]
    set M1 := addrem true n a.dim (allocTop (a.dim + n)) m [expandPos a d] with hM1
    have hE := expand_emb (n := n) hd hid m
    rw [← hM1] at hE
    have hnew := fun {i j : ℕ} hi hj hc => expand_base_new (n := n) hd hid m (i := i) (j := j) hi hj hc
    rw [← hM1] at hnew
    have hv := fun (i j : ℕ) (hi : i < 2 * (a.dim + n)) (hj : j < 2 * (a.dim + n)) =>
      expand_view (m := M1) (n := n) hf.1 (show expandPos a d + n ≤ a.dim + n by omega)
        (fun i j hi hj hne hc => by rw [hnew hi hj hc, if_neg (by rintro rfl; exact hne rfl)]) n (le_refl _) hi hj
    rw [expand_sat (p := expandPos a d) (d := d) (n := n) hf.1 (show expandPos a d + n ≤ a.dim + n by omega)
      (fun i j hi hj hne hc => by rw [hnew hi hj hc, if_neg (by rintro rfl; exact hne rfl)]) hv
      (fun i j hi hc he => by rw [hnew hi (by omega) hc])]
    have hL := src_add_legal (mult := n) (dim := a.dim) (pos := [expandPos a d]) (by simp)
    rw [show a.dim + n * [expandPos a d].length = a.dim + n by simp] at hL
    have hinj := src_inj (dim := a.dim) (ok_add_of_sorted (mult := n) (ps := [expandPos a d]) (by simp))
    have hcov : ∀ v, v < a.dim → ∃ v', src true n a.dim [expandPos a d] v' = some v := fun v hv =>
      ⟨_, (expand_src hd hid).2 ⟨hv, rfl⟩⟩
    have key : ∀ (z : ℕ → K), Sat (a.dim + n) M1 z ↔
        Sat a.dim m (fun v => if v < expandPos a d then z v else z (v + n)) := by
      intro z
      have hag : Agree (src true n a.dim [expandPos a d]) z
          (fun v => if v < expandPos a d then z v else z (v + n)) := by
        intro v' v h
        rw [expand_src hd hid] at h
        rw [h.2]
        simp only
        split_ifs <;> rfl
      exact ⟨fun h => sat_emb_cover hE hL hinj hcov h hag,
          fun h => sat_emb_of hL hE (fun _ _ => le_refl _) h hag (by simp)⟩
    simp only [key, gam_best h1]
    have e1 : (fun v => if v < expandPos a d then x' v else x' (v + n)) =
        (fun v => if v = d then x' d else if v < expandPos a d then x' v else x' (v + n)) := by
      funext v
      by_cases h : v = d
      · subst h; rw [if_pos hf.1, if_pos rfl]
      · rw [if_neg h]
    have e2 : ∀ y, (fun v => if v < expandPos a d then Function.update x' d y v else
        Function.update x' d y (v + n)) =
        (fun v => if v = d then y else if v < expandPos a d then x' v else x' (v + n)) := by
      intro y
      funext v
      by_cases h : v = d
      · subst h; rw [if_pos hf.1, if_pos rfl, Function.update_self]
      · rw [if_neg h, Function.update_of_ne h]
        by_cases h2 : v < expandPos a d
        · rw [if_pos h2, if_pos h2]
        · rw [if_neg h2, if_neg h2, Function.update_of_ne (by omega)]
    rw [e1]
    simp only [e2]
    constructor
    · rintro ⟨h0, hk⟩ y (rfl | ⟨k, hk', rfl⟩)
      · exact h0
      · exact hk k hk'
    · intro h
      exact ⟨h _ (Or.inl rfl), fun k hk => h _ (Or.inr ⟨k, hk, rfl⟩)⟩

theorem wf_expand (ha : Wf a) : Wf (expand a d n) := by
  have hf := expandPos_facts hd hid
  have e0 : (if d < a.intdim then a.intdim else a.dim) = expandPos a d := rfl
  unfold expand
  rw [e0]
  rcases h1 : a.best with _ | m
  · simp only [h1]; exact wf_bottom _ _
  · simp only [h1]
    have hg := ha.good_best h1
    have hnew := fun {i j : ℕ} hi hj hc => expand_base_new (n := n) hd hid m (i := i) (j := j) hi hj hc
    have hL := src_add_legal (mult := n) (dim := a.dim) (pos := [expandPos a d]) (by simp)
    rw [show a.dim + n * [expandPos a d].length = a.dim + n by simp] at hL
    have hG := emb_G (fun _ => rfl) hL (G_coh hg.coh) (expand_emb (n := n) hd hid m)
    have hg1 := good_emb hL (fun _ => rfl) (fun _ _ => le_refl _) hg hG
    set M1 := addrem true n a.dim (allocTop (a.dim + n)) m [expandPos a d] with hM1
    have hv := fun (i j : ℕ) (hi : i < 2 * (a.dim + n)) (hj : j < 2 * (a.dim + n)) =>
      expand_view (m := M1) (n := n) hf.1 (show expandPos a d + n ≤ a.dim + n by omega)
        (fun i j hi hj hne hc => by rw [hnew hi hj hc, if_neg (by rintro rfl; exact hne rfl)]) n (le_refl _) hi hj
    have hne : ∀ i j, i < 2 * (a.dim + n) → j < 2 * (a.dim + n) → M1 (matpos2 i j) ≠ ninf := by
      intro i j hi hj
      have := G_ne hg1.ne i j
      unfold G at this
      rwa [if_pos ⟨hi, hj⟩] at this
    have hrep : ∀ u, u < a.dim + n → repv (expandPos a d) n d u < a.dim + n := by
      intro u hu; unfold repv; split_ifs <;> omega
    refine wf_of_good ⟨?_, ?_, ?_⟩
    · rw [noNinf_iff]
      intro i j hi hc
      have hj : j < 2 * (a.dim + n) := by unfold Cell at hc; omega
      rw [← matpos2_cell hc, hv i j hi hj]
      unfold expView
      have h1 := hrep (i / 2) (by omega)
      have h2 := hrep (j / 2) (by omega)
      split_ifs
      · simp
      · exact hne _ _ (by omega) (by omega)
      · exact hne _ _ hi hj
      · simp
      · exact hne _ _ (by omega) (by omega)
    · intro i hi
      rw [← matpos2_cell (cell_refl i), ← matpos2_cell (cell_refl (i ^^^ 1)), hv i i hi hi,
        hv _ _ (xor1_lt hi) (xor1_lt hi)]
      unfold expView
      simp only [if_true, xor1_div]
      split_ifs
      · rfl
      · rw [matpos2_cell (cell_refl i), matpos2_cell (cell_refl (i ^^^ 1))]
        exact hg1.coh i hi
    · intro i hi
      rw [← matpos2_cell (cell_refl i), hv i i hi hi]
      unfold expView
      simp only [if_true]
      split_ifs
      · simp
      · rw [matpos2_cell (cell_refl i)]; exact hg1.nn i hi

end

/-! ### fold -/

section
variable {dim d0 : ℕ} {ts : List ℕ} (hs : (d0 :: ts).Pairwise (· < ·)) (hlt : ∀ q ∈ d0 :: ts, q < dim)
  (hne : ts ≠ [])

include hs in
theorem fold_notmem : d0 ∉ ts := by
  rw [List.pairwise_cons] at hs
  intro h; have := hs.1 _ h; omega

include hs in
theorem fold_cnt : cntLt ts d0 = 0 := by
  rw [List.pairwise_cons] at hs
  unfold cntLt
  rw [List.length_eq_zero_iff, List.filter_eq_nil_iff]
  intro q hq
  have := hs.1 q hq
  simp; omega

/-- the merged value of an entry when `d0` is replaced by each folded variable -/
def substI (d0 d i : ℕ) : ℕ := if i / 2 = d0 then 2 * d + i % 2 else i

include hs hlt in
/-- entries of the merged matrix between remaining variables -/
theorem foldMerge_entry (m : Mem K) {i j : ℕ} (hi : i < 2 * dim) (hj : j < 2 * dim) (hij : i ≠ j)
    (hi' : i / 2 ∉ ts) (hj' : j / 2 ∉ ts) (c : Bound K) :
    foldMerge dim m d0 ts (matpos2 i j) ≤ c ↔
      ∀ d ∈ d0 :: ts, m (matpos2 (substI d0 d i) (substI d0 d j)) ≤ c := by
  have hd := hlt d0 (by simp)
  obtain ⟨h1, h2, h3⟩ := foldMerge_view hd m ts
  have hsub0 : ∀ i, substI d0 d0 i = i := by
    intro i; unfold substI; split_ifs with h
    · omega
    · rfl
  simp only [List.mem_cons, forall_eq_or_imp, hsub0]
  by_cases e1 : i / 2 = d0
  · have hii : i = 2 * d0 + i % 2 := by omega
    by_cases e2 : j / 2 = d0
    · have hjj : j = 2 * d0 + (1 - i % 2) := by omega
      have hs1 : ∀ d, substI d0 d i = 2 * d + i % 2 := fun d => by unfold substI; rw [if_pos e1]
      have hs2 : ∀ d, substI d0 d j = 2 * d + (1 - i % 2) := fun d => by
        unfold substI; rw [if_pos e2]; omega
      have := h2 (i % 2) (by omega)
      rw [← hii, ← hjj] at this
      rw [this, fmax_le]
      simp only [hs1, hs2]
    · have hs1 : ∀ d, substI d0 d i = 2 * d + i % 2 := fun d => by unfold substI; rw [if_pos e1]
      have hs2 : ∀ d, substI d0 d j = j := fun d => by unfold substI; rw [if_neg e2]
      have := h1 j (i % 2) hj e2 (by omega)
      rw [← hii] at this
      rw [this, fmax_le]
      simp only [hs1, hs2]
  · by_cases e2 : j / 2 = d0
    · have hs1 : ∀ d, substI d0 d i = i := fun d => by unfold substI; rw [if_neg e1]
      have hs2 : ∀ d, substI d0 d j = 2 * d + j % 2 := fun d => by unfold substI; rw [if_pos e2]
      have hxj : 2 * d0 + (j ^^^ 1) % 2 = j ^^^ 1 := by rw [← e2, lift_xor, Nat.div_add_mod]
      have := h1 (i ^^^ 1) ((j ^^^ 1) % 2) (xor1_lt hi) (by rw [xor1_div]; exact e1) (by omega)
      rw [hxj, ← matpos2_mirror (by omega)] at this
      rw [this, fmax_le]
      refine and_congr_right fun _ => forall_congr' fun d => forall_congr' fun hd' => ?_
      have hne' : i / 2 ≠ (2 * d + j % 2) / 2 := by
        intro e; apply hi'; rw [show i / 2 = d by omega]; exact hd'
      rw [hs1, hs2, lift_xor, ← matpos2_mirror hne']
    · have hs1 : ∀ d, substI d0 d i = i := fun d => by unfold substI; rw [if_neg e1]
      have hs2 : ∀ d, substI d0 d j = j := fun d => by unfold substI; rw [if_neg e2]
      rw [h3 i j e1 e2]
      simp only [hs1, hs2]
      exact ⟨fun h => ⟨h, fun _ _ => h⟩, fun h => h.1⟩

/-- the matrix computed by `fold` -/
def foldMat (dim : ℕ) (m : Mem K) (d0 : ℕ) (ts : List ℕ) : Mem K :=
  ((addrem false 1 dim (allocTop (dim - ts.length)) (foldMerge dim m d0 ts) ts).set
    (matpos (d0 * 2) (d0 * 2)) (fin 0)).set (matpos (d0 * 2 + 1) (d0 * 2 + 1)) (fin 0)

include hs hlt hne

theorem fold_d0_lt : d0 < dim - ts.length := by
  have hs' := List.pairwise_cons.1 hs
  have h := src_rem_legal hs'.2 (dim := dim) (fun q hq => hlt q (by simp [hq])) d0 d0
    ((src_rem hs'.2).2 ⟨hlt d0 (by simp), fold_notmem hs, by rw [fold_cnt hs]; omega⟩)
  exact h.1

/-- every cell of the result, in terms of the source matrix -/
theorem foldMat_cell (m : Mem K) {i j : ℕ} (hi : i < 2 * (dim - ts.length)) (hc : Cell i j) :
    ∃ u v, u < dim ∧ v < dim ∧ u ∉ ts ∧ v ∉ ts ∧ u - cntLt ts u = i / 2 ∧ v - cntLt ts v = j / 2 ∧
      ((u = d0 ↔ i / 2 = d0) ∧ (v = d0 ↔ j / 2 = d0) ∧ (u = v ↔ i / 2 = j / 2)) ∧
      foldMat dim m d0 ts (matpos i j) = if i = j then (if i / 2 = d0 then fin 0 else m (matpos2 (2 * u + i % 2) (2 * v + j % 2)))
        else foldMerge dim m d0 ts (matpos2 (2 * u + i % 2) (2 * v + j % 2)) := by
  have hs' := List.pairwise_cons.1 hs
  have hlt' : ∀ q ∈ ts, q < dim := fun q hq => hlt q (by simp [hq])
  have hj : j / 2 < dim - ts.length := by unfold Cell at hc; omega
  obtain ⟨u, hu⟩ := src_rem_cover hs'.2 hlt' (show i / 2 < dim - ts.length by omega)
  obtain ⟨v, hv⟩ := src_rem_cover hs'.2 hlt' hj
  have hd0 : src false 1 dim ts d0 = some d0 :=
    (src_rem hs'.2).2 ⟨hlt d0 (by simp), fold_notmem hs, by rw [fold_cnt hs]; omega⟩
  have hE := rem_emb (foldMerge dim m d0 ts) (allocTop (dim - ts.length)) hne hs'.2 hlt' i j hi hc
  rw [emb_ss hu hv] at hE
  have hu' := (src_rem hs'.2).1 hu
  have hv' := (src_rem hs'.2).1 hv
  have hok := ok_rem_of_sorted hs'.2
  have hinj := src_inj (dim := dim) hok
  have hfun : ∀ {a b w w'}, src false 1 dim ts w = some a → src false 1 dim ts w' = some b → (a = b ↔ w = w') := by
    intro a b w w' h1 h2
    constructor
    · rintro rfl; exact hinj _ _ _ h1 h2
    · rintro rfl; rw [h1] at h2; exact Option.some.inj h2
  have q1 : u = d0 ↔ i / 2 = d0 := hfun hu hd0
  have q2 : v = d0 ↔ j / 2 = d0 := hfun hv hd0
  have q3 : u = v ↔ i / 2 = j / 2 := hfun hu hv
  refine ⟨u, v, hu'.1, hv'.1, hu'.2.1, hv'.2.1, by omega, by omega, ⟨q1, q2, q3⟩, ?_⟩
  have hGm : G dim (foldMerge dim m d0 ts) (2 * u + i % 2) (2 * v + j % 2) =
      foldMerge dim m d0 ts (matpos2 (2 * u + i % 2) (2 * v + j % 2)) := by
    unfold G; rw [if_pos (by have := hu'.1; have := hv'.1; omega)]
  unfold foldMat
  have c0 : Cell (d0 * 2) (d0 * 2) := cell_refl _
  have c1 : Cell (d0 * 2 + 1) (d0 * 2 + 1) := cell_refl _
  by_cases hij : i = j
  · rw [if_pos hij]
    by_cases hid : i / 2 = d0
    · rw [if_pos hid]
      rcases Nat.mod_two_eq_zero_or_one i with hm | hm
      · rw [Mem.set_ne _ _ (by rw [Ne, matpos_eq_iff hc c1]; omega), show i = d0 * 2 by omega,
          show j = d0 * 2 by omega, Mem.set_self]
      · rw [show i = d0 * 2 + 1 by omega, show j = d0 * 2 + 1 by omega, Mem.set_self]
    · rw [if_neg hid, Mem.set_ne _ _ (by rw [Ne, matpos_eq_iff hc c1]; omega),
        Mem.set_ne _ _ (by rw [Ne, matpos_eq_iff hc c0]; omega), hE, hGm]
      have hud : ¬ u = d0 := fun e => hid (q1.1 e)
      have hvd : ¬ v = d0 := fun e => hid (by have := q2.1 e; omega)
      exact (foldMerge_view (hlt d0 (by simp)) m ts).2.2 _ _ (by omega) (by omega)
  · rw [if_neg hij, Mem.set_ne _ _ (by rw [Ne, matpos_eq_iff hc c1]; omega),
      Mem.set_ne _ _ (by rw [Ne, matpos_eq_iff hc c0]; omega), hE, hGm]

omit hne in
theorem fold_point_V {i u d : ℕ} {x x' : ℕ → K} (hu : u < dim) (hut : u ∉ ts) (hui : u - cntLt ts u = i / 2)
    (hud : u = d0 ↔ i / 2 = d0) (h0 : x' d0 = x d)
    (hx : ∀ v, v < dim → v ∉ ts → v ≠ d0 → x' (v - cntLt ts v) = x v) :
    V x' i = V x (substI d0 d (2 * u + i % 2)) := by
  unfold substI
  by_cases e : u = d0
  · rw [if_pos (by omega), V_lift, show (2 * u + i % 2) % 2 = i % 2 by omega]
    unfold V; rw [hud.1 e, h0]
  · rw [if_neg (by omega), V_lift]
    unfold V; rw [← hx u hu hut e, hui]

theorem foldMat_sat {m : Mem K} {x x' : ℕ → K} {d : ℕ} (hd : d ∈ d0 :: ts) (hm : Sat dim m x)
    (h0 : x' d0 = x d) (hx : ∀ v, v < dim → v ∉ ts → v ≠ d0 → x' (v - cntLt ts v) = x v) :
    Sat (dim - ts.length) (foldMat dim m d0 ts) x' := by
  intro i j hi hc
  obtain ⟨u, v, hu, hv, hut, hvt, hui, hvj, ⟨q1, q2, q3⟩, he⟩ := foldMat_cell hs hlt hne m hi hc
  rw [he]
  by_cases hij : i = j
  · subst hij
    rw [if_pos rfl, sub_self]
    have huv := q3.2 rfl
    subst huv
    split_ifs
    · exact le_refl _
    · have := hm.le2 (i := 2 * u + i % 2) (j := 2 * u + i % 2) (by omega) (by omega)
      simpa using this
  · rw [if_neg hij, fold_point_V hs hlt hu hut hui q1 h0 hx, fold_point_V hs hlt hv hvt hvj q2 h0 hx]
    have hdd := hlt d hd
    refine le_trans (hm.le2 ?_ ?_) ((foldMerge_entry hs hlt m (by omega) (by omega) ?_ ?_ ?_ _).1 (le_refl _) d hd)
    · unfold substI; split_ifs <;> omega
    · unfold substI; split_ifs <;> omega
    · intro e; apply hij
      have := q3.1 (by omega); omega
    · rwa [show (2 * u + i % 2) / 2 = u by omega]
    · rwa [show (2 * v + j % 2) / 2 = v by omega]

/-- every matrix satisfied by all folded points lies above -/
theorem foldMat_le {m mb : Mem K} (hm : SC dim (G dim m))
    (hb : ∀ x x' d, d ∈ d0 :: ts → Sat dim m x → x' d0 = x d →
      (∀ v, v < dim → v ∉ ts → v ≠ d0 → x' (v - cntLt ts v) = x v) → Sat (dim - ts.length) mb x')
    {i j : ℕ} (hi : i < 2 * (dim - ts.length)) (hc : Cell i j) :
    foldMat dim m d0 ts (matpos i j) ≤ mb (matpos i j) := by
  have hs' := List.pairwise_cons.1 hs
  have hlt' : ∀ q ∈ ts, q < dim := fun q hq => hlt q (by simp [hq])
  have hd0 : src false 1 dim ts d0 = some d0 :=
    (src_rem hs'.2).2 ⟨hlt d0 (by simp), fold_notmem hs, by rw [fold_cnt hs]; omega⟩
  have mk : ∀ (x : ℕ → K) d, ∃ x' : ℕ → K, x' d0 = x d ∧
      ∀ v, v < dim → v ∉ ts → v ≠ d0 → x' (v - cntLt ts v) = x v := by
    intro x d
    let y : ℕ → K := Function.update x d0 (x d)
    let x' : ℕ → K := fun w => match src false 1 dim ts w with
      | some v => y v
      | none => 0
    have hag : Agree (src false 1 dim ts) x' y := by
      intro v' v h; simp only [x', h]
    refine ⟨x', ?_, fun v h1 h2 h3 => ?_⟩
    · rw [hag _ _ hd0]; simp [y]
    · rw [(src_rem_agree hs'.2).1 hag v h1 h2]; simp only [y]; rw [Function.update_of_ne h3]
  obtain ⟨u, v, hu, hv, hut, hvt, hui, hvj, ⟨q1, q2, q3⟩, he⟩ := foldMat_cell hs hlt hne m hi hc
  rw [he]
  by_cases hij : i = j
  · subst hij
    have huv := q3.2 rfl
    subst huv
    have h0 : fin 0 ≤ mb (matpos i i) := by
      obtain ⟨x, hx⟩ := hm.nonempty
      obtain ⟨x', h1, h2⟩ := mk x d0
      exact sat_diag (hb x x' d0 (by simp) hx h1 h2) hi
    rw [if_pos rfl]
    split_ifs
    · exact h0
    · have hl : 2 * u + i % 2 < 2 * dim := by omega
      rw [matpos2_cell (cell_refl _), ← G_cell m hl (cell_refl _), hm.diag _ hl]
      exact h0
  · rw [if_neg hij, foldMerge_entry hs hlt m (by omega) (by omega)]
    · intro d hd
      have hdd := hlt d hd
      have l1 : substI d0 d (2 * u + i % 2) < 2 * dim := by unfold substI; split_ifs <;> omega
      have l2 : substI d0 d (2 * v + j % 2) < 2 * dim := by unfold substI; split_ifs <;> omega
      have := hm.tight l1 l2 (b := mb (matpos i j)) (fun x hx => by
        obtain ⟨x', h1, h2⟩ := mk x d
        rw [← fold_point_V hs hlt hu hut hui q1 h1 h2, ← fold_point_V hs hlt hv hvt hvj q2 h1 h2]
        exact hb x x' d hd (satOn_iff.1 hx) h1 h2 i j hi hc)
      unfold G at this
      rwa [if_pos ⟨l1, l2⟩] at this
    · intro e; apply hij
      have := q3.1 (by omega); omega
    · rwa [show (2 * u + i % 2) / 2 = u by omega]
    · rwa [show (2 * v + j % 2) / 2 = v by omega]

theorem foldMat_good {m : Mem K} (hm : Good dim m) : Good (dim - ts.length) (foldMat dim m d0 ts) := by
  have hGne : ∀ i j, i < 2 * dim → j < 2 * dim → m (matpos2 i j) ≠ ninf := by
    intro i j hi hj
    have := G_ne hm.ne i j
    unfold G at this
    rwa [if_pos ⟨hi, hj⟩] at this
  have hdiag : ∀ i, i < 2 * (dim - ts.length) → ∃ u, u < dim ∧ (u = d0 ↔ i / 2 = d0) ∧ u - cntLt ts u = i / 2 ∧ u ∉ ts ∧
      foldMat dim m d0 ts (matpos i i) = if i / 2 = d0 then fin 0 else m (matpos (2 * u + i % 2) (2 * u + i % 2)) := by
    intro i hi
    obtain ⟨u, v, hu, hv, hut, hvt, hui, hvj, ⟨q1, q2, q3⟩, he⟩ := foldMat_cell hs hlt hne m hi (cell_refl i)
    have huv := q3.2 rfl
    subst huv
    rw [if_pos rfl, matpos2_cell (cell_refl _)] at he
    exact ⟨u, hu, q1, hui, hut, he⟩
  refine ⟨?_, ?_, ?_⟩
  · rw [noNinf_iff]
    intro i j hi hc
    obtain ⟨u, v, hu, hv, hut, hvt, hui, hvj, ⟨q1, q2, q3⟩, he⟩ := foldMat_cell hs hlt hne m hi hc
    rw [he]
    split_ifs with h1 h2
    · simp
    · exact hGne _ _ (by omega) (by omega)
    · have hle := (foldMerge_entry hs hlt m (i := 2 * u + i % 2) (j := 2 * v + j % 2) (by omega) (by omega)
        (by intro e; apply h1; have := q3.1 (by omega); omega)
        (by rwa [show (2 * u + i % 2) / 2 = u by omega])
        (by rwa [show (2 * v + j % 2) / 2 = v by omega]) _).1 (le_refl _) d0 (by simp)
      refine ne_ninf_of_le hle (hGne _ _ ?_ ?_)
      · have := hlt d0 (by simp); unfold substI; split_ifs <;> omega
      · have := hlt d0 (by simp); unfold substI; split_ifs <;> omega
  · intro i hi
    obtain ⟨u, hu, q, hui, hut, he⟩ := hdiag i hi
    obtain ⟨u', hu', q', hui', hut', he'⟩ := hdiag (i ^^^ 1) (xor1_lt hi)
    rw [xor1_div] at *
    have hs' := List.pairwise_cons.1 hs
    have huu : u = u' := by
      obtain ⟨w, hw⟩ := src_rem_cover hs'.2 (dim := dim) (fun q hq => hlt q (by simp [hq])) (show i / 2 < dim - ts.length by omega)
      have hle : ∀ {x}, x < dim → x ∉ ts → x - cntLt ts x = i / 2 → src false 1 dim ts (i / 2) = some x := by
        intro x h1 h2 h3
        have hag : Agree (src false 1 dim ts) (fun w => match src false 1 dim ts w with | some v => (v : ℚ) | none => -1)
            (fun v => (v : ℚ)) := by
          intro v' v h; simp only [h]
        have := (src_rem_agree hs'.2).1 hag x h1 h2
        simp only [h3] at this
        rcases hx : src false 1 dim ts (i / 2) with _ | y
        · rw [hx] at this
          have h4 : (0 : ℚ) ≤ x := Nat.cast_nonneg x
          simp only at this
          linarith
        · rw [hx] at this
          simp only [Nat.cast_inj] at this
          rw [this]
      have h1 := hle hu hut hui
      have h2 := hle hu' hut' hui'
      rw [h1] at h2; exact Option.some.inj h2
    subst huu
    rw [he, he']
    split_ifs
    · rfl
    · rw [lift_xor]
      exact hm.coh _ (by omega)
  · intro i hi
    obtain ⟨u, hu, q, hui, hut, he⟩ := hdiag i hi
    rw [he]
    split_ifs
    · exact le_refl _
    · exact hm.nn _ (by omega)

end

theorem fold_gam (algo : ℤ) (a : OctT K) (d0 : ℕ) (ts : List ℕ) {m : Mem K}
    (h1 : (cacheIf R algo a).best = some m) (x' : ℕ → K) :
    (fold R algo a d0 ts).Gam x' ↔ Sat (a.dim - ts.length) (foldMat a.dim m d0 ts) x' := by
  unfold fold
  simp only [h1, cacheIf_dim]
  exact gam_m

theorem fold_none (algo : ℤ) (a : OctT K) (d0 : ℕ) (ts : List ℕ)
    (h1 : (cacheIf R algo a).best = none) (x' : ℕ → K) : ¬ (fold R algo a d0 ts).Gam x' := by
  unfold fold
  simp only [h1]
  exact gam_bottom _ _ _

theorem wf_fold (algo : ℤ) {a : OctT K} (ha : Wf a) {d0 : ℕ} {ts : List ℕ}
    (hs : (d0 :: ts).Pairwise (· < ·)) (hlt : ∀ q ∈ d0 :: ts, q < a.dim) (hne : ts ≠ []) :
    Wf (fold Rnd.exact algo a d0 ts) := by
  have hw := wf_cacheIf algo ha
  have hd := cacheIf_dim (R := Rnd.exact) algo a
  unfold fold
  rcases h1 : (cacheIf Rnd.exact algo a).best with _ | m
  · simp only [h1]; exact wf_bottom _ _
  · simp only [h1]
    have hg := hw.good_best h1
    rw [hd] at hg ⊢
    exact wf_of_good (foldMat_good hs hlt hne hg)

end OctT
end Apron
