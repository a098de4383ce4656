import Verif.Avo.ResizeSound
import Verif.Props.AvoLattice
import Verif.Props.OctResize

/-!
# Property theorems: projection and change of dimensions of absolute-value octagons (C142)
-/

set_option autoImplicit false
set_option linter.unusedSectionVars false
set_option linter.ambiguousOpen false

namespace Apron
open Bound Oct Avo AvoT
variable {K : Type*} [LinearOrder K] [Field K] [IsStrictOrderedRing K] (R : Rnd K) (alg : ℤ)

namespace AvoT

theorem wf_mk_m {m n : Mem K} {dim intdim : ℕ} (hd : Diag (2 * dim) (zip m n)) :
    Wf (⟨some m, none, some n, dim, intdim⟩ : AvoT K) :=
  wf_ofM (M := zip m n) hd

theorem wf_mk_c {m n : Mem K} {dim intdim : ℕ} (hd : Diag (2 * dim) (zip m n)) :
    Wf (⟨none, some m, some n, dim, intdim⟩ : AvoT K) :=
  wf_ofClosed (M := zip m n) hd

theorem gam_mk_m {m n : Mem K} {dim intdim : ℕ} {x : ℕ → K} :
    (⟨some m, none, some n, dim, intdim⟩ : AvoT K).Gam x ↔ SSat dim (zip m n) x :=
  gam_ofM (M := zip m n)

theorem gam_mk_c {m n : Mem K} {dim intdim : ℕ} {x : ℕ → K} :
    (⟨none, some m, some n, dim, intdim⟩ : AvoT K).Gam x ↔ SSat dim (zip m n) x :=
  gam_ofClosed (M := zip m n)

/-- the conditional storing of a result -/
theorem store {m n : Mem K} {dim intdim : ℕ} {c : Bool} (hd : Diag (2 * dim) (zip m n)) :
    let r : AvoT K := if c then ⟨none, some m, some n, dim, intdim⟩ else ⟨some m, none, some n, dim, intdim⟩
    Wf r ∧ r.dim = dim ∧ r.intdim = intdim ∧ ∀ x, r.Gam x ↔ SSat dim (zip m n) x := by
  dsimp only
  cases c
  · exact ⟨wf_mk_m hd, rfl, rfl, fun _ => gam_mk_m⟩
  · exact ⟨wf_mk_c hd, rfl, rfl, fun _ => gam_mk_c⟩

theorem cacheIf_dim' {algo : ℤ} {a b : AvoT K} (h : cacheIf R alg algo a = some b) : b.dim = a.dim := by
  unfold cacheIf at h
  split_ifs at h
  · unfold cache at h
    split at h
    · split at h
      · cases h
      · split at h <;> (obtain rfl := Option.some.inj h; rfl)
    · obtain rfl := Option.some.inj h; rfl
  · obtain rfl := Option.some.inj h; rfl

end AvoT

/-! ## forgetting -/

/-- `avo_forget_array` returns a value of the same dimensions that contains every point obtained by
changing the forgotten variables (setting them to 0 with `project`) -/
theorem C142_forget_sound (algo : ℤ) (a : AvoT K) (ha : Wf a) (halg : alg = 2 → a.dim ≤ 30)
    (tdim : List ℕ) (hd : ∀ d ∈ tdim, d < a.dim) (project : Bool) :
    ∃ a' r, AvoT.forgetArray R alg algo a tdim project = some (a', r) ∧ Wf r ∧ r.dim = a.dim ∧
      r.intdim = a.intdim ∧
      ∀ x x', a.Gam x → (∀ v, v < a.dim → v ∉ tdim → x' v = x v) →
        (project = true → ∀ d ∈ tdim, x' d = 0) → r.Gam x' := by
  obtain ⟨b, hb, hw, h1, h2, hg⟩ := cacheIf_spec R algo ha halg
  unfold AvoT.forgetArray
  rw [hb, Option.bind_some]
  rcases hm : b.best with _ | m
  · exact ⟨_, _, rfl, wf_bottom _ _, h1, h2, fun x x' hx _ _ =>
      absurd ((hg x).2 hx) (gam_none hm x)⟩
  · obtain ⟨n, hn, hD, hgx⟩ := hw.view hm
    rw [hn]
    rw [← h1] at hd
    have hs := store (c := b.closed.isSome && !project) (dim := b.dim) (intdim := b.intdim)
      (forget_diags (n' := tdim.foldl (forgetMarks b.dim) n) project tdim hd hD)
    refine ⟨_, _, rfl, hs.1, hs.2.1.trans h1, hs.2.2.1.trans h2, fun x x' hx hk hp => ?_⟩
    exact (hs.2.2.2 x').2 (forget_sat project tdim hd hD ((hgx x).1 ((hg x).2 hx))
      (by rw [h1]; exact hk) hp)

/-- DEFECT: a non-destructive call changes its argument, whose marks are written in place: `5` is not
in `1 <= x < 5` and belongs to that value after another value was computed from it by forgetting `x` -/
theorem C142_forget_changes_argument : ∃ (a : AvoT ℚ) (a' r : AvoT ℚ), Wf a ∧
    AvoT.forgetArray Rnd.exact 0 (-1) a [0] false = some (a', r) ∧
      (¬ a.Gam fun _ => 5) ∧ a'.Gam fun _ => 5 := by
  refine ⟨exA, _, _, exA_wf, rfl, ?_, ?_⟩
  · intro h
    have := (gam_ofM.1 h 1 0 (by decide) (by decide)).2
    rw [if_neg (by decide), if_pos (by decide)] at this
    have := this (by simp)
    simp [V, ext] at this
    norm_num at this
  · refine ⟨_, rfl, fun i j hi hc => ?_⟩
    have hlt : ∀ i, i < 4 → ∀ j, j < 4 → matpos i j < 12 := by decide
    have hmk : ∀ q, q < 12 → forgetMarks 1 (fun q => ((if q = 1 then (fin (-2), pinf) else if q = 2 then
      (fin 10, fin 0) else Avo.allocTop 1 q : SB ℚ)).2) 0 q = pinf := by decide +kernel
    have hi' : i < 4 := hi
    refine ⟨?_, fun h => absurd (hmk _ (hlt i hi' j (by unfold Cell at hc; omega))) h⟩
    change fin _ ≤ (if matpos i j = 1 then (fin (-2), pinf) else if matpos i j = 2 then
      (fin 10, fin 0) else Avo.allocTop 1 (matpos i j) : SB ℚ).1
    split_ifs with h h'
    · obtain ⟨rfl, rfl⟩ := matpos_inj hc (show Cell 0 1 by decide) h
      simp [V, ext]; norm_num
    · obtain ⟨rfl, rfl⟩ := matpos_inj hc (show Cell 1 0 by decide) h'
      simp [V, ext]; norm_num
    · exact (allocTop_sat 1 _ _ i j hi hc).1

/-! ## adding dimensions -/

/-- `avo_add_dimensions` inserts unconstrained variables (zero with `project`) and keeps the others:
variable `v` becomes `v` plus the number of insertions at or before `v` -/
theorem C142_add_exact (a : AvoT K) (ha : Wf a) (pos : List ℕ) (hne : pos ≠ [])
    (hs : pos.Pairwise (· ≤ ·)) (hlt : ∀ q ∈ pos, q ≤ a.dim) (intadd : ℕ) (project : Bool) :
    Wf (AvoT.addDimensions a pos intadd project) ∧
    (AvoT.addDimensions a pos intadd project).dim = a.dim + pos.length ∧
    (AvoT.addDimensions a pos intadd project).intdim = a.intdim + intadd ∧
    ∀ x', (AvoT.addDimensions a pos intadd project).Gam x' ↔
      (a.Gam fun v => x' (v + pos.countP (fun p => decide (p ≤ v)))) ∧
      (project = true → ∀ k, k < pos.length → x' (pos.getD k 0 + k) = 0) := by
  simp only [cntLe_eq]
  unfold AvoT.addDimensions
  dsimp only
  rcases hm : a.best with _ | m
  · dsimp only
    refine ⟨⟨?_, ?_, ?_, ?_⟩, rfl, rfl, fun x' => ?_⟩
    · intro h; simp [best] at h
    · intro c m h; simp at h
    · intro m h; simp at h
    · intro m h; simp at h
    · exact ⟨fun h => absurd h (gam_none rfl x'), fun h => absurd h.1 (gam_none hm _)⟩
  · obtain ⟨n, hn, hD, hg⟩ := ha.view hm
    dsimp only
    rw [hn, Option.map_some]
    have hst := store (c := a.closed.isSome && !project) (dim := a.dim + pos.length)
      (intdim := a.intdim + intadd) (m := addBounds a.dim m pos project)
      (n := addremAV true a.dim (fun q => (Avo.allocTop (a.dim + pos.length) q).2) n pos)
      (fun i hi => addBounds_diag hne hs hlt (fun i hi => hD i (by omega)) project (by omega))
    refine ⟨hst.1, hst.2.1, hst.2.2.1, fun x' => ?_⟩
    have hag := addSrc_agree (dim := a.dim) hs hlt (x' := x') (x := fun v => x' (v + cntLe pos v))
      fun v _ => rfl
    have hC := addBounds_copy hne hs hlt m n
    have hbase : SSat (a.dim + pos.length) (zip (addBounds a.dim m pos false)
        (addremAV true a.dim (fun q => (Avo.allocTop (a.dim + pos.length) q).2) n pos)) x' ↔
        a.Gam fun v => x' (v + cntLe pos v) := by
      rw [hg]
      exact ⟨fun h => hC.sat_back (fun v hv => addSrc_cover hs hlt v hv) hag h, fun h => hC.sat hag h⟩
    refine (hst.2.2.2 x').trans ?_
    cases project
    · rw [hbase]; simp
    · rw [← hbase]
      unfold SSat
      rw [addBounds_project hne hs hlt]
      refine and_congr Iff.rfl ⟨fun h _ k hk => ?_, fun h k hk => ?_⟩
      · have := h k hk
        have h2 := (addSrc_new hs hlt hk).2
        unfold ext at this
        rwa [if_pos (by omega)] at this
      · have := h rfl k hk
        have h2 := (addSrc_new hs hlt hk).2
        unfold ext
        rwa [if_pos (by omega)]

/-! ## removing dimensions -/

theorem C142_remove_sound (algo : ℤ) (u u' : Mem K) (a : AvoT K) (ha : Wf a) (halg : alg = 2 → a.dim ≤ 30)
    (pos : List ℕ) (hne : pos ≠ []) (hs : pos.Pairwise (· < ·)) (hlt : ∀ q ∈ pos, q < a.dim) (intrem : ℕ) :
    ∃ r, AvoT.removeDimensions R alg algo u u' a pos intrem = some r ∧ r.dim = a.dim - pos.length ∧
      r.intdim = a.intdim - intrem ∧
      ∀ x x', a.Gam x →
        (∀ v, v < a.dim → v ∉ pos → x' (v - pos.countP (fun p => decide (p < v))) = x v) → r.Gam x' := by
  simp only [cntLt_eq]
  obtain ⟨b, hb, hw, h1, h2, hg⟩ := cacheIf_spec R algo ha halg
  unfold AvoT.removeDimensions
  rw [hb, Option.map_some]
  refine ⟨_, rfl, ?_⟩
  dsimp only
  rcases hm : b.best with _ | m
  · refine ⟨by simp [AvoT.bottom, h1], by simp [AvoT.bottom, h2], fun x x' hx _ => ?_⟩
    exact absurd ((hg x).2 hx) (gam_none hm x)
  · obtain ⟨n, hn, hD, hgx⟩ := hw.view hm
    dsimp only
    rw [hn, Option.map_some]
    have hC := remAV_copy hne hs (dim := b.dim) (by rw [h1]; exact hlt) m n u u'
    have fin' : ∀ x x', a.Gam x → (∀ v, v < a.dim → v ∉ pos → x' (v - cntLt pos v) = x v) →
        SSat (b.dim - pos.length) (zip (addremAV false b.dim u m pos) (addremAV false b.dim u' n pos)) x' :=
      fun x x' hx hk => hC.sat (remSrc_agree hs (by rw [h1]; exact hlt) (by rw [h1]; exact hk))
        ((hgx x).1 ((hg x).2 hx))
    split_ifs
    · exact ⟨by simp [h1], by simp [h2], fun x x' hx hk => gam_mk_c.2 (fin' x x' hx hk)⟩
    · exact ⟨by simp [h1], by simp [h2], fun x x' hx hk => gam_mk_m.2 (fin' x x' hx hk)⟩

/-- adding dimensions and removing them again loses no point -/
theorem C142_add_remove (algo : ℤ) (u u' : Mem K) (a : AvoT K) (ha : Wf a) (p : ℕ) (hp : p ≤ a.dim)
    (halg : alg = 2 → a.dim + 1 ≤ 30) (intadd intrem : ℕ) (project : Bool) (x : ℕ → K) (hx : a.Gam x) :
    ∃ r, AvoT.removeDimensions R alg algo u u' (AvoT.addDimensions a [p] intadd project) [p] intrem = some r ∧
      r.dim = a.dim ∧ r.Gam x := by
  obtain ⟨hw, h1, h2, hg⟩ := C142_add_exact a ha [p] (by simp) (by simp) (by simpa using hp) intadd project
  obtain ⟨r, hr, h3, -, h4⟩ := C142_remove_sound R alg algo u u' (AvoT.addDimensions a [p] intadd project) hw
    (by rw [h1]; simpa using halg) [p] (by simp) (by simp) (by rw [h1]; simp; omega) intrem
  refine ⟨r, hr, by rw [h3, h1]; simp, ?_⟩
  refine h4 (fun v => if v = p then 0 else x (if v < p then v else v - 1)) x ((hg _).2 ⟨?_, ?_⟩) ?_
  · have : (fun v => (fun v => if v = p then 0 else x (if v < p then v else v - 1))
        (v + List.countP (fun p => decide (p ≤ v)) [p])) = x := by
      funext v
      by_cases h : p ≤ v
      · simp [h]
        rw [if_neg (by omega), if_neg (by omega)]
      · simp [h]
        rw [if_neg (by omega), if_pos (by omega)]
    rw [this]; exact hx
  · intro _ k hk
    obtain rfl : k = 0 := by simpa using hk
    simp
  · intro v _ hv
    have hvp : v ≠ p := by simpa using hv
    by_cases h : p < v
    · simp [h, hvp]
      rw [if_neg (by omega)]
    · simp [h, hvp]
      rw [if_pos (by omega)]

/-! ## permuting -/

theorem C142_permute_exact (u u' : Mem K) (a : AvoT K) (ha : Wf a) (perm : ℕ → ℕ)
    (hinj : ∀ i j, i < a.dim → j < a.dim → perm i = perm j → i = j)
    (hp : ∀ i, i < a.dim → perm i < a.dim) :
    Wf (AvoT.permuteDimensions u u' a perm) ∧ (AvoT.permuteDimensions u u' a perm).dim = a.dim ∧
      (AvoT.permuteDimensions u u' a perm).intdim = a.intdim ∧
      ∀ x', (AvoT.permuteDimensions u u' a perm).Gam x' ↔ a.Gam fun v => x' (perm v) := by
  unfold AvoT.permuteDimensions
  dsimp only
  rcases hm : a.best with _ | m
  · dsimp only
    refine ⟨⟨?_, ?_, ?_, ?_⟩, rfl, rfl, fun x' => ?_⟩
    · intro h; simp [best] at h
    · intro c m h; simp at h
    · intro m h; simp at h
    · intro m h; simp at h
    · exact ⟨fun h => absurd h (gam_none rfl x'), fun h => absurd h (gam_none hm _)⟩
  · obtain ⟨n, hn, hD, hg⟩ := ha.view hm
    dsimp only
    rw [hn, Option.map_some]
    have hst := store (c := a.closed.isSome) (dim := a.dim) (intdim := a.intdim)
      (m := permuteAV u m a.dim perm) (n := permuteAV u' n a.dim perm)
      (fun i hi => perm2_diag hinj hp (fun i hi => hD i (by omega)) u (by omega))
    refine ⟨hst.1, hst.2.1, hst.2.2.1, fun x' => ?_⟩
    rw [hg]
    exact (hst.2.2.2 x').trans (perm2_sat hinj hp m n u u' x')

/-! ## folding -/

/-- DEFECT: `avo_fold` writes the number 0 on the diagonal of the marks, where it means `x - x < 0`:
the result of folding contains no point, whatever the argument -/
theorem C142_fold_empty (algo : ℤ) (a : AvoT K) (d0 : ℕ) (ts : List ℕ) (hd : d0 < a.dim - ts.length)
    (r : AvoT K)
    (hr : AvoT.fold R alg algo a d0 ts = some r) (x : ℕ → K) : ¬ r.Gam x := by
  unfold AvoT.fold at hr
  obtain ⟨b, hb, hr⟩ := Option.bind_eq_some_iff.1 hr
  rw [← cacheIf_dim' R alg hb] at hd
  dsimp only at hr
  rcases hm : b.best with _ | m
  · rw [hm] at hr
    obtain rfl := Option.some.inj hr
    exact gam_bottom _ _ x
  · rw [hm] at hr
    obtain ⟨n, -, rfl⟩ := Option.map_eq_some_iff.1 hr
    rw [gam_mk_m]
    intro h
    have hc := (h (2 * d0) (2 * d0) (by omega) (cell_refl _))
    have e : ∀ top m : Mem K, foldArr b.dim top m d0 ts (matpos (2 * d0) (2 * d0)) = fin 0 := by
      intro top m
      unfold foldArr
      rw [Nat.mul_comm]
      have hne : matpos (2 * d0) (2 * d0) ≠ matpos (2 * d0 + 1) (2 * d0 + 1) := fun he => by
        have := matpos_inj (cell_refl _) (cell_refl _) he; omega
      simp [Oct.Mem.set, hne]
    unfold zip at hc
    rw [e, e, sub_self] at hc
    exact absurd (hc.2 (by simp)) (lt_irrefl _)

/-- folding `x1` onto `x0` in the unconstrained value loses every point -/
theorem C142_fold_unsound : ∃ r, AvoT.fold Rnd.exact 0 (-1) (AvoT.top 2 0 : AvoT ℚ) 0 [1] = some r ∧
    ((AvoT.top 2 0 : AvoT ℚ).Gam fun _ => 0) ∧ ¬ r.Gam fun _ => 0 := by
  refine ⟨_, rfl, (C138_top_bottom 2 0 fun _ => (0 : ℚ)).2.1, ?_⟩
  exact C142_fold_empty Rnd.exact 0 (-1) (AvoT.top 2 0 : AvoT ℚ) 0 [1] (by decide)
    _ rfl _

/-! ### the hypotheses are met -/

example : ∃ a' r, AvoT.forgetArray Rnd.exact 1 0 exA [0] true = some (a', r) ∧ r.Gam fun _ => 0 := by
  obtain ⟨a', r, h1, -, -, -, h2⟩ := C142_forget_sound Rnd.exact 1 0 exA exA_wf (by simp) [0]
    (by intro d hd; obtain rfl : d = 0 := by simpa using hd
        decide) true
  refine ⟨a', r, h1, h2 _ _ exA_gam (fun v hv hn => ?_) fun _ _ _ => rfl⟩
  obtain rfl : v = 0 := by
    have : v < 1 := hv
    omega
  simp at hn

example (intadd : ℕ) : (AvoT.addDimensions exA [0] intadd false).Gam fun _ => 3 :=
  ((C142_add_exact exA exA_wf [0] (by simp) (by simp) (by simp) intadd false).2.2.2 _).2
    ⟨exA_gam, by simp⟩

example (u u' : Mem ℚ) : ∃ r, AvoT.removeDimensions Rnd.exact 1 0 u u'
    (AvoT.addDimensions exA [0] 0 false) [0] 0 = some r ∧ r.dim = 1 ∧ r.Gam fun _ => 3 :=
  C142_add_remove Rnd.exact 1 0 u u' exA exA_wf 0 (by decide) (by simp) 0 0 false _ exA_gam

example (u u' : Mem ℚ) : (AvoT.permuteDimensions u u' exA id).Gam fun _ => 3 :=
  ((C142_permute_exact u u' exA exA_wf id (fun _ _ _ _ h => h) fun _ h => h).2.2.2 _).2 exA_gam

end Apron
