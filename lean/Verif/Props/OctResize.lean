import Verif.Oct.ResizeWf
import Verif.Props.OctLattice

/-!
# Property theorems: octagon projection, change of dimensions, expand and fold (C37-C39)

Points are functions from variable numbers to values; `a.Gam x` only depends on the first `a.dim` values.
`pos.countP (· ≤ v)` is the number of dimensions inserted before variable `v`, `pos.countP (· < v)` the
number of dimensions removed before it.
-/

set_option autoImplicit false
set_option linter.unusedSectionVars false
set_option linter.ambiguousOpen false

namespace Apron
open Bound Oct OctT Itv
variable {K : Type*} [LinearOrder K] [Field K] [IsStrictOrderedRing K] (R : Rnd K)

theorem cntLe_eq (pos : List ℕ) (v : ℕ) : pos.countP (fun p => decide (p ≤ v)) = cntLe pos v := by
  rw [List.countP_eq_length_filter]; rfl
theorem cntLt_eq (pos : List ℕ) (v : ℕ) : pos.countP (fun p => decide (p < v)) = cntLt pos v := by
  rw [List.countP_eq_length_filter]; rfl

/-! ## C37: forget -/

/-- changing the forgotten variables of a point stays inside (for every rounding and algorithm) -/
theorem C37_forget_sound (algo : ℤ) (a : OctT K) (tdim : List ℕ) (project : Bool) (x x' : ℕ → K)
    (hx : a.Gam x) (hkeep : ∀ v, v < a.dim → v ∉ tdim → x' v = x v)
    (hzero : project = true → ∀ v, v < a.dim → v ∈ tdim → x' v = 0) :
    (OctT.forgetArray R algo a tdim project).Gam x' := by
  rcases h1 : (cacheIf R algo a).best with _ | m
  · exact (gam_cached_none R h1 hx).elim
  · rw [forget_gam R algo a tdim project h1]
    have hs := (gam_cached R h1).1 hx
    refine sat_emb_of (keep_legal a.dim tdim) (forget_emb' a.dim project m tdim) (fun i hi => ?_) hs
      (keep_agree.2 hkeep) (fun hp v hv hn => ?_)
    · unfold dg; rw [if_pos hi]; exact sat_diag hs hi
    · rw [keep_none] at hn
      exact hzero hp v hv (by tauto)

/-- with exact arithmetic the result holds exactly the points obtained that way -/
theorem C37_forget_exact (algo : ℤ) (halgo : 0 ≤ algo) (a : OctT K) (ha : Wf a) (tdim : List ℕ)
    (project : Bool) (x' : ℕ → K) :
    (OctT.forgetArray Rnd.exact algo a tdim project).Gam x' ↔
      (∃ x, a.Gam x ∧ ∀ v, v < a.dim → v ∉ tdim → x' v = x v) ∧
      (project = true → ∀ v, v < a.dim → v ∈ tdim → x' v = 0) := by
  constructor
  · intro h
    rcases h1 : (cacheIf Rnd.exact algo a).best with _ | m
    · exact (forget_gam_none _ algo a tdim project h1 x' h).elim
    · rw [forget_gam _ algo a tdim project h1] at h
      have hE := forget_emb' a.dim project m tdim
      obtain ⟨x, hx, hag⟩ := sat_emb_exact hE (keep_legal a.dim tdim) (keep_inj a.dim tdim)
        (cached_SC ha halgo h1) h
      refine ⟨⟨x, (gam_cached _ h1).2 hx, keep_agree.1 hag⟩, fun hp v hv hm => ?_⟩
      subst hp
      exact sat_emb_zero hE h hv (keep_none.2 (by tauto))
  · rintro ⟨⟨x, hx, hk⟩, hz⟩
    exact C37_forget_sound _ algo a tdim project x x' hx hk hz

theorem C37_forget_dims (algo : ℤ) (a : OctT K) (tdim : List ℕ) (project : Bool) :
    (OctT.forgetArray R algo a tdim project).dim = a.dim ∧
    (OctT.forgetArray R algo a tdim project).intdim = a.intdim := by
  unfold OctT.forgetArray
  simp only
  split
  · simp [OctT.bottom, cacheIf_dim, cacheIf_intdim]
  · split_ifs <;> simp [cacheIf_dim, cacheIf_intdim]

/-- forgetting `x1` in `{x0 ≤ 3, x0 - x1 ≤ 1, x1 ≥ 5}` keeps the bound of `x0`; forgetting `x0` keeps
the bound of `x1`; projecting `x0` on 0 adds both bounds -/
example : ((OctT.forgetArray Rnd.exact 0 (⟨some exOct, none, 2, 0⟩ : OctT ℚ) [1] false).closed.map
    fun c => (c (matpos2 1 0), c (matpos2 2 3), c (matpos2 2 0))) = some (fin 6, pinf, pinf) := by
  decide +kernel
example : ((OctT.forgetArray Rnd.exact 0 (⟨some exOct, none, 2, 0⟩ : OctT ℚ) [0] true).m.map
    fun c => (c (matpos2 1 0), c (matpos2 0 1), c (matpos2 2 3))) = some (fin 0, fin 0, fin (-10)) := by
  decide +kernel
example : (0 : ℤ) ≤ 0 ∧ Wf (⟨some exOct, none, 2, 0⟩ : OctT ℚ) := ⟨le_refl _, wf_of_good exOct_good⟩

/-! ## C38: adding, removing and permuting dimensions -/

/-- adding dimensions: old variable `v` becomes `v + #{p ∈ pos | p ≤ v}`, the new ones are free, or 0
with `project` -/
theorem C38_add_exact (a : OctT K) (pos : List ℕ) (hne : pos ≠ []) (hs : pos.Pairwise (· ≤ ·))
    (hlt : ∀ q ∈ pos, q ≤ a.dim) (intadd : ℕ) (project : Bool) (x' : ℕ → K) :
    (OctT.addDimensions a pos intadd project).Gam x' ↔
      a.Gam (fun v => x' (v + pos.countP (fun p => decide (p ≤ v)))) ∧
      (project = true → ∀ k, k < pos.length → x' (pos.getD k 0 + k) = 0) := by
  simp only [cntLe_eq]
  exact addDimensions_gam a hne hs hlt intadd project x'

theorem C38_add_dims (a : OctT K) (pos : List ℕ) (intadd : ℕ) (project : Bool) :
    (OctT.addDimensions a pos intadd project).dim = a.dim + pos.length ∧
    (OctT.addDimensions a pos intadd project).intdim = a.intdim + intadd := by
  unfold OctT.addDimensions
  simp only
  split
  · simp [OctT.bottom]
  · split_ifs <;> simp

theorem C38_remove_sound (algo : ℤ) (u : Mem K) (a : OctT K) (pos : List ℕ) (hne : pos ≠ [])
    (hs : pos.Pairwise (· < ·)) (hlt : ∀ q ∈ pos, q < a.dim) (intrem : ℕ) (x x' : ℕ → K)
    (hx : a.Gam x)
    (hkeep : ∀ v, v < a.dim → v ∉ pos → x' (v - pos.countP (fun p => decide (p < v))) = x v) :
    (OctT.removeDimensions R algo u a pos intrem).Gam x' := by
  simp only [cntLt_eq] at hkeep
  rcases h1 : (cacheIf R algo a).best with _ | m
  · exact (gam_cached_none R h1 hx).elim
  · rw [removeDimensions_gam R algo u a pos intrem h1]
    exact sat_emb_of (src_rem_legal hs hlt) (rem_emb m u hne hs hlt) (fun _ _ => le_refl _)
      ((gam_cached R h1).1 hx) ((src_rem_agree hs).2 hkeep) (by simp)

/-- removing dimensions is the projection -/
theorem C38_remove_exact (algo : ℤ) (halgo : 0 ≤ algo) (u : Mem K) (a : OctT K) (ha : Wf a)
    (pos : List ℕ) (hne : pos ≠ []) (hs : pos.Pairwise (· < ·)) (hlt : ∀ q ∈ pos, q < a.dim)
    (intrem : ℕ) (x' : ℕ → K) :
    (OctT.removeDimensions Rnd.exact algo u a pos intrem).Gam x' ↔
      ∃ x, a.Gam x ∧
        ∀ v, v < a.dim → v ∉ pos → x' (v - pos.countP (fun p => decide (p < v))) = x v := by
  constructor
  · intro h
    rcases h1 : (cacheIf Rnd.exact algo a).best with _ | m
    · exact (removeDimensions_none _ algo u a pos intrem h1 x' h).elim
    · rw [removeDimensions_gam _ algo u a pos intrem h1] at h
      obtain ⟨x, hx, hag⟩ := sat_emb_exact (rem_emb m u hne hs hlt) (src_rem_legal hs hlt)
        (src_inj (ok_rem_of_sorted hs)) (cached_SC ha halgo h1) h
      refine ⟨x, (gam_cached _ h1).2 hx, ?_⟩
      simp only [cntLt_eq]
      exact (src_rem_agree hs).1 hag
  · rintro ⟨x, hx, hk⟩
    exact C38_remove_sound _ algo u a pos hne hs hlt intrem x x' hx hk

theorem C38_remove_dims (algo : ℤ) (u : Mem K) (a : OctT K) (pos : List ℕ) (intrem : ℕ) :
    (OctT.removeDimensions R algo u a pos intrem).dim = a.dim - pos.length ∧
    (OctT.removeDimensions R algo u a pos intrem).intdim = a.intdim - intrem := by
  unfold OctT.removeDimensions
  simp only
  split
  · simp [OctT.bottom, cacheIf_dim, cacheIf_intdim]
  · split_ifs <;> simp [cacheIf_dim, cacheIf_intdim]

/-- permuting: variable `v` becomes variable `perm v` -/
theorem C38_permute_exact (u : Mem K) (a : OctT K) (perm : ℕ → ℕ)
    (hinj : ∀ i j, i < a.dim → j < a.dim → perm i = perm j → i = j)
    (hp : ∀ i, i < a.dim → perm i < a.dim) (x' : ℕ → K) :
    (OctT.permuteDimensions u a perm).Gam x' ↔ a.Gam (fun v => x' (perm v)) :=
  permuteDimensions_gam u a hinj hp x'

/-- adding dimensions and removing them again gives the same set back -/
theorem C38_add_remove (algo : ℤ) (halgo : 0 ≤ algo) (u : Mem K) (a : OctT K) (ha : Wf a)
    (pos : List ℕ) (hne : pos ≠ []) (hs : pos.Pairwise (· ≤ ·)) (hlt : ∀ q ∈ pos, q ≤ a.dim)
    (intadd intrem : ℕ) (project : Bool) (pos' : List ℕ) (hs' : pos'.Pairwise (· < ·))
    (hpos' : ∀ v, v ∈ pos' ↔ ∃ k, k < pos.length ∧ v = pos.getD k 0 + k)
    (x : ℕ → K) :
    (OctT.removeDimensions Rnd.exact algo u (OctT.addDimensions a pos intadd project) pos' intrem).Gam x ↔
      a.Gam x := by
  have hne' : pos' ≠ [] := by
    obtain ⟨q, l, rfl⟩ := List.exists_cons_of_ne_nil hne
    intro e
    have := (hpos' q).2 ⟨0, by simp, by simp⟩
    rw [e] at this; simp at this
  have hd := (C38_add_dims a pos intadd project).1
  have hpl : ∀ k, k < pos.length → pos.getD k 0 ≤ a.dim := fun k hk =>
    hlt _ (by rw [List.getD, List.getElem?_eq_getElem hk]; exact List.getElem_mem hk)
  have hlt' : ∀ q ∈ pos', q < (OctT.addDimensions a pos intadd project).dim := by
    intro q hq
    obtain ⟨k, hk, rfl⟩ := (hpos' q).1 hq
    have := hpl k hk
    omega
  rw [C38_remove_exact algo halgo u _ (wf_addDimensions ha hne hs hlt intadd project) pos' hne' hs' hlt']
  -- the correspondences are inverse to each other
  have hL := src_add_legal (mult := 1) (dim := a.dim) hs
  have hsrcnone : ∀ v', v' < a.dim + pos.length → (src true 1 a.dim pos v' = none ↔ v' ∈ pos') := by
    intro v' hv'
    rw [src_add_none hs hlt (by omega), hpos']
    constructor
    · rintro ⟨k, s, h1, h2, h3⟩; exact ⟨k, h1, by omega⟩
    · rintro ⟨k, h1, h2⟩; exact ⟨k, 0, h1, by omega, by omega⟩
  have hcnt : ∀ v, cntLt pos' (v + cntLe pos v) = cntLe pos v := by
    intro v
    -- the inserted positions below the image of `v` are exactly the first `cntLe pos v` ones
    have hnd : pos'.Nodup := hs'.imp (fun h => Nat.ne_of_lt h)
    have hperm : (pos'.filter fun p => decide (p < v + cntLe pos v)).Perm
        ((List.range (cntLe pos v)).map fun k => pos.getD k 0 + k) := by
      have hmono : ∀ k k', k < k' → k' < pos.length → pos.getD k 0 ≤ pos.getD k' 0 := by
        intro k k' h1 h2
        rw [List.getD, List.getD, List.getElem?_eq_getElem h2, List.getElem?_eq_getElem (h1.trans h2)]
        exact List.pairwise_iff_getElem.1 hs k k' (h1.trans h2) h2 h1
      rw [List.perm_ext_iff_of_nodup (hnd.filter _)]
      · intro w
        simp only [List.mem_filter, decide_eq_true_eq, List.mem_map, List.mem_range, hpos']
        constructor
        · rintro ⟨⟨k, hk, rfl⟩, hlt2⟩
          refine ⟨k, ?_, rfl⟩
          by_contra hge
          by_cases hle : pos.getD k 0 ≤ v
          · have := cntLe_ge_of hs hk hle; omega
          · omega
        · rintro ⟨k, hk, rfl⟩
          have hkl : k < pos.length := lt_of_lt_of_le hk (cntLe_le v)
          refine ⟨⟨k, hkl, rfl⟩, ?_⟩
          by_cases hle : pos.getD k 0 ≤ v
          · omega
          · have := cntLe_lt_of hs hkl (Nat.lt_of_not_le hle); omega
      · rw [List.nodup_map_iff_inj_on List.nodup_range]
        intro k hk k' hk' e
        rw [List.mem_range] at hk hk'
        have h1 : k < pos.length := lt_of_lt_of_le hk (cntLe_le v)
        have h2 : k' < pos.length := lt_of_lt_of_le hk' (cntLe_le v)
        rcases Nat.lt_trichotomy k k' with h | h | h
        · have := hmono k k' h h2; omega
        · exact h
        · have := hmono k' k h h1; omega
    unfold cntLt
    rw [hperm.length_eq]; simp
  constructor
  · rintro ⟨y, hy, hk⟩
    rw [C38_add_exact a pos hne hs hlt intadd project y] at hy
    refine (gam_congr fun v hv => ?_).1 hy.1
    simp only [cntLe_eq, cntLt_eq] at hk ⊢
    have hmap : src true 1 a.dim pos (v + cntLe pos v) = some v := (src_add hs).2 ⟨hv, by omega⟩
    have hlt2 := (hL _ _ hmap).1
    rw [Nat.one_mul] at hlt2
    have := hk (v + cntLe pos v) (by rw [hd]; exact hlt2) (fun hm => by
      rw [← hsrcnone _ hlt2, hmap] at hm; cases hm)
    rw [hcnt, Nat.add_sub_cancel] at this
    exact this.symm
  · intro hx
    -- rebuild the larger point, 0 on the inserted variables
    let y : ℕ → K := fun w => match src true 1 a.dim pos w with
      | some v => x v
      | none => 0
    have hag : ∀ v, v < a.dim → y (v + cntLe pos v) = x v := by
      intro v hv
      have hmap : src true 1 a.dim pos (v + cntLe pos v) = some v := (src_add hs).2 ⟨hv, by omega⟩
      simp only [y, hmap]
    refine ⟨y, ?_, ?_⟩
    · rw [C38_add_exact a pos hne hs hlt intadd project y]
      refine ⟨(gam_congr fun v hv => ?_).2 hx, fun _ k hk => ?_⟩
      · simp only [cntLe_eq]; exact hag v hv
      · have hlt2 : pos.getD k 0 + k < a.dim + pos.length := by have := hpl k hk; omega
        have := (hsrcnone _ hlt2).2 ((hpos' _).2 ⟨k, hk, rfl⟩)
        simp only [y, this]
    · intro w hw hwn
      rw [hd] at hw
      rcases hsw : src true 1 a.dim pos w with _ | v
      · exact (hwn ((hsrcnone w hw).1 hsw)).elim
      · have h2 := (src_add hs).1 hsw
        rw [Nat.one_mul] at h2
        rw [h2.2, hag v h2.1, cntLt_eq, hcnt, Nat.add_sub_cancel]

/-- inserting a variable in front of each of the two variables, and removing the first variable -/
example : ((OctT.addDimensions (⟨some exOct, none, 2, 0⟩ : OctT ℚ) [0, 1] 0 false).m.map
    fun c => (c (matpos2 3 2), c (matpos2 6 7), c (matpos2 6 2), c (matpos2 1 0))) =
      some (fin 6, fin (-10), fin 1, pinf) := by decide +kernel
example : ((OctT.removeDimensions Rnd.exact 0 (allocTop 1) (⟨some exOct, none, 2, 0⟩ : OctT ℚ) [0] 0).closed.map
    fun c => (c (matpos2 0 1), c (matpos2 1 0))) = some (fin (-10), pinf) := by decide +kernel
example : ((OctT.permuteDimensions (allocTop 2) (⟨some exOct, none, 2, 0⟩ : OctT ℚ) (fun i => 1 - i)).m.map
    fun c => (c (matpos2 3 2), c (matpos2 0 1), c (matpos2 0 2))) =
      some (fin 6, fin (-10), fin 1) := by decide +kernel
example : ([0, 1] : List ℕ) ≠ [] ∧ ([0, 1] : List ℕ).Pairwise (· ≤ ·) ∧ (∀ q ∈ ([0, 1] : List ℕ), q ≤ 2) ∧
    ∀ v, v ∈ ([0, 2] : List ℕ) ↔ ∃ k, k < ([0, 1] : List ℕ).length ∧ v = ([0, 1] : List ℕ).getD k 0 + k := by
  refine ⟨by decide, by decide, by decide, fun v => ?_⟩
  constructor
  · intro h
    simp only [List.mem_cons, List.not_mem_nil, or_false] at h
    rcases h with rfl | rfl
    · exact ⟨0, by decide, by decide⟩
    · exact ⟨1, by decide, by decide⟩
  · rintro ⟨k, hk, rfl⟩
    have : k = 0 ∨ k = 1 := by simp at hk; omega
    rcases this with rfl | rfl <;> decide

/-! ## C39: expand and fold -/

/-- `expand`: a point satisfies the result exactly when the value of `d` and of each copy satisfies the
original octagon together with the other variables -/
theorem C39_expand_exact (a : OctT K) (d n : ℕ) (hd : d < a.dim) (hid : a.intdim ≤ a.dim) (x' : ℕ → K) :
    (OctT.expand a d n).Gam x' ↔
      ∀ y, (y = x' d ∨ ∃ k, k < n ∧ y = x' ((if d < a.intdim then a.intdim else a.dim) + k)) →
        a.Gam (fun v => if v = d then y
          else if v < (if d < a.intdim then a.intdim else a.dim) then x' v else x' (v + n)) :=
  expand_gam hd hid x'

theorem C39_expand_dims (a : OctT K) (d n : ℕ) : (OctT.expand a d n).dim = a.dim + n ∧
    (OctT.expand a d n).intdim = if d < a.intdim then a.intdim + n else a.intdim := by
  unfold OctT.expand
  rcases h : a.best with _ | m <;> simp [OctT.bottom, h]

/-- `fold`: `d0` may take the value of any folded variable; the others are removed -/
theorem C39_fold_sound (algo : ℤ) (a : OctT K) (d0 : ℕ) (ts : List ℕ) (hne : ts ≠ [])
    (hs : (d0 :: ts).Pairwise (· < ·)) (hlt : ∀ q ∈ d0 :: ts, q < a.dim) (x x' : ℕ → K)
    (hx : a.Gam x) (d : ℕ) (hd : d ∈ d0 :: ts) (h0 : x' d0 = x d)
    (hkeep : ∀ v, v < a.dim → v ∉ ts → v ≠ d0 →
      x' (v - ts.countP (fun p => decide (p < v))) = x v) :
    (OctT.fold R algo a d0 ts).Gam x' := by
  simp only [cntLt_eq] at hkeep
  rcases h1 : (cacheIf R algo a).best with _ | m
  · exact (gam_cached_none R h1 hx).elim
  · rw [fold_gam R algo a d0 ts h1]
    exact foldMat_sat hs hlt hne hd ((gam_cached R h1).1 hx) h0 hkeep

/-- with exact arithmetic the result is the smallest octagon holding all these points -/
theorem C39_fold_least (algo : ℤ) (halgo : 0 ≤ algo) (a : OctT K) (ha : Wf a) (d0 : ℕ) (ts : List ℕ)
    (hne : ts ≠ []) (hs : (d0 :: ts).Pairwise (· < ·)) (hlt : ∀ q ∈ d0 :: ts, q < a.dim)
    (b : OctT K) (hb : b.dim = a.dim - ts.length)
    (hall : ∀ x x' d, d ∈ d0 :: ts → a.Gam x → x' d0 = x d →
      (∀ v, v < a.dim → v ∉ ts → v ≠ d0 → x' (v - ts.countP (fun p => decide (p < v))) = x v) → b.Gam x')
    (x' : ℕ → K) (hx' : (OctT.fold Rnd.exact algo a d0 ts).Gam x') : b.Gam x' := by
  simp only [cntLt_eq] at hall
  rcases h1 : (cacheIf Rnd.exact algo a).best with _ | m
  · exact (fold_none _ algo a d0 ts h1 x' hx').elim
  · rw [fold_gam _ algo a d0 ts h1] at hx'
    have hsc := cached_SC ha halgo h1
    rcases h2 : b.best with _ | mb
    · exfalso
      obtain ⟨x, hx⟩ := hsc.nonempty
      -- some folded point exists, so `b` is not empty
      have hs' := List.pairwise_cons.1 hs
      let y : ℕ → K := fun w => match src false 1 a.dim ts w with
        | some v => x v
        | none => 0
      have hag : Agree (src false 1 a.dim ts) y x := by intro v' v h; simp only [y, h]
      have hd0 : src false 1 a.dim ts d0 = some d0 :=
        (src_rem hs'.2).2 ⟨hlt d0 (by simp), fold_notmem hs, by rw [fold_cnt hs]; omega⟩
      exact gam_best_none h2 (hall x y d0 (by simp) ((gam_cached _ h1).2 hx) (hag _ _ hd0)
        (fun v h1 h2 _ => (src_rem_agree hs'.2).1 hag v h1 h2))
    · rw [gam_best h2, hb]
      refine sat_of_le hx' fun i j hi hc => foldMat_le hs hlt hne hsc (fun x z d hd hx h0 hk => ?_) hi hc
      have := hall x z d hd ((gam_cached _ h1).2 hx) h0 hk
      rwa [gam_best h2, hb] at this

theorem C39_fold_dims (algo : ℤ) (a : OctT K) (d0 : ℕ) (ts : List ℕ) :
    (OctT.fold R algo a d0 ts).dim = a.dim - ts.length ∧
    (OctT.fold R algo a d0 ts).intdim = if d0 < a.intdim then a.intdim - ts.length else a.intdim := by
  unfold OctT.fold
  simp only
  split <;> simp [OctT.bottom, cacheIf_dim, cacheIf_intdim]

/-- expanding `x0` twice in `{x0 ≤ 3, x0 - x1 ≤ 1, x1 ≥ 5}` -/
example : ((OctT.expand (⟨some exOct, none, 2, 0⟩ : OctT ℚ) 0 2).m.map
    fun c => (c (matpos2 5 4), c (matpos2 7 6), c (matpos2 2 6), c (matpos2 4 6))) =
      some (fin 6, fin 6, fin 1, pinf) := by decide +kernel
/-- folding `x1` into `x0` in `{x0 = 1, x1 = 1, x2 = 2}`-like data: `{x0 ≤ 3, x1 ≥ 5}` gives no bound, the
point gives its value -/
example : ((OctT.fold Rnd.exact 0 (⟨some (exPt 1), none, 2, 0⟩ : OctT ℚ) 0 [1]).m.map
    fun c => (c (matpos2 1 0), c (matpos2 0 1))) = some (fin 2, fin (-2)) := by decide +kernel
example : ([1] : List ℕ) ≠ [] ∧ ([0, 1] : List ℕ).Pairwise (· < ·) ∧ ∀ q ∈ ([0, 1] : List ℕ), q < 2 := by
  decide

end Apron
