import Verif.Box.ResizeLemmas
import Verif.Props.Box
import Verif.Props.Itv
import Verif.Props.OctResize
import Mathlib.Tactic.IntervalCases

/-! # Properties C21, C22: adding, removing, permuting, forgetting, expanding and folding dimensions
of boxes -/

set_option autoImplicit false
set_option linter.unusedSectionVars false
set_option linter.ambiguousOpen false

namespace Apron
open Bound Box Oct
variable {K : Type*} [LinearOrder K] [Field K] [IsStrictOrderedRing K]

/-! ## C21: adding, removing and permuting dimensions -/

/-- adding dimensions: old variable `v` becomes `v + #{p ∈ pos | p ≤ v}`, the new ones are free, or 0
with `project` -/
theorem C21_add_exact (a : Box K) (destructive : Bool) (pos : List ℕ) (hs : pos.Pairwise (· ≤ ·))
    (hlt : ∀ q ∈ pos, q ≤ a.dim) (intadd : ℕ) (hi : intadd ≤ pos.length) (project : Bool) (x' : ℕ → K) :
    (addDimensions a destructive pos intadd project).Gam x' ↔
      a.Gam (fun v => x' (v + pos.countP (fun p => decide (p ≤ v)))) ∧
      (project = true → ∀ k, k < pos.length → x' (pos.getD k 0 + k) = 0) := by
  simp only [cntLe_eq]
  exact Box.addDimensions_gam a destructive hs hlt hi project x'

theorem C21_add_dims (a : Box K) (destructive : Bool) (pos : List ℕ) (intadd : ℕ) (project : Bool) :
    (addDimensions a destructive pos intadd project).intdim = a.intdim + intadd ∧
    (addDimensions a destructive pos intadd project).realdim = a.realdim + (pos.length - intadd) := by
  unfold addDimensions
  cases a.p <;> exact ⟨rfl, rfl⟩

theorem C21_add_wf (a : Box K) (ha : a.Wf) (destructive : Bool) (pos : List ℕ) (hs : pos.Pairwise (· ≤ ·))
    (hlt : ∀ q ∈ pos, q ≤ a.dim) (intadd : ℕ) (hi : intadd ≤ pos.length) (project : Bool) :
    (addDimensions a destructive pos intadd project).Wf :=
  Box.addDimensions_wf a ha destructive hs hlt hi project

/-- removing dimensions is the projection -/
theorem C21_remove_exact (a : Box K) (ha : a.Wf) (destructive : Bool) (pos : List ℕ)
    (hs : pos.Pairwise (· < ·)) (hlt : ∀ q ∈ pos, q < a.dim) (intrem : ℕ) (hi : intrem ≤ pos.length)
    (hi1 : intrem ≤ a.intdim) (hi2 : pos.length - intrem ≤ a.realdim) (x' : ℕ → K) :
    (removeDimensions a destructive pos intrem).Gam x' ↔
      ∃ x, a.Gam x ∧
        ∀ v, v < a.dim → v ∉ pos → x' (v - pos.countP (fun p => decide (p < v))) = x v := by
  simp only [cntLt_eq]
  exact Box.removeDimensions_gam a ha destructive hs hlt hi hi1 hi2 x'

theorem C21_remove_dims (a : Box K) (destructive : Bool) (pos : List ℕ) (intrem : ℕ) :
    (removeDimensions a destructive pos intrem).intdim = a.intdim - intrem ∧
    (removeDimensions a destructive pos intrem).realdim = a.realdim - (pos.length - intrem) := by
  unfold removeDimensions
  cases a.p <;> exact ⟨rfl, rfl⟩

theorem C21_remove_wf (a : Box K) (ha : a.Wf) (destructive : Bool) (pos : List ℕ)
    (hs : pos.Pairwise (· < ·)) (hlt : ∀ q ∈ pos, q < a.dim) (intrem : ℕ) (hi : intrem ≤ pos.length)
    (hi1 : intrem ≤ a.intdim) (hi2 : pos.length - intrem ≤ a.realdim) :
    (removeDimensions a destructive pos intrem).Wf :=
  Box.removeDimensions_wf a ha destructive hs hlt hi hi1 hi2

/-- permuting: variable `v` becomes variable `perm v` -/
theorem C21_permute_exact (a : Box K) (perm : ℕ → ℕ)
    (hinj : ∀ i j, i < a.dim → j < a.dim → perm i = perm j → i = j)
    (hp : ∀ i, i < a.dim → perm i < a.dim) (x' : ℕ → K) :
    (permuteDimensions a perm).Gam x' ↔ a.Gam (fun v => x' (perm v)) := by
  unfold permuteDimensions
  cases h : a.p with
  | none => simp only; exact ⟨fun hx => (gam_none h hx).elim, fun hx => (gam_none h hx).elim⟩
  | some p =>
    simp only [gam_mk]
    rw [gam_some h]
    constructor
    · intro hx v hv
      have := hx (perm v) (hp v hv)
      rwa [permute_at p hinj hv] at this
    · intro hx j hj
      obtain ⟨i, hi, rfl⟩ := perm_surj hinj hp (show j < a.dim from hj)
      rw [permute_at p hinj hi]
      exact hx i hi

theorem C21_permute_dims (a : Box K) (perm : ℕ → ℕ) :
    (permuteDimensions a perm).intdim = a.intdim ∧ (permuteDimensions a perm).realdim = a.realdim := by
  unfold permuteDimensions
  cases a.p <;> exact ⟨rfl, rfl⟩

theorem C21_permute_wf (a : Box K) (ha : a.Wf) (perm : ℕ → ℕ)
    (hinj : ∀ i j, i < a.dim → j < a.dim → perm i = perm j → i = j)
    (hp : ∀ i, i < a.dim → perm i < a.dim) : (permuteDimensions a perm).Wf := by
  unfold permuteDimensions
  cases h : a.p with
  | none => exact ha
  | some p =>
    refine wf_mk.2 fun j hj => ?_
    obtain ⟨i, hi, rfl⟩ := perm_surj hinj hp (show j < a.dim from hj)
    rw [permute_at p hinj hi]
    exact ha p h i hi

/-- adding dimensions and removing them again gives the same set back; `pos'` lists the positions of
the new dimensions after the insertion -/
theorem C21_add_remove (a : Box K) (ha : a.Wf) (d1 d2 : Bool) (pos pos' : List ℕ) (hs : pos.Pairwise (· ≤ ·))
    (hlt : ∀ q ∈ pos, q ≤ a.dim) (hs' : pos'.Pairwise (· < ·)) (hlen : pos'.length = pos.length)
    (hpos' : ∀ v, v ∈ pos' ↔ ∃ k, k < pos.length ∧ v = pos.getD k 0 + k) (n : ℕ) (hn : n ≤ pos.length)
    (project : Bool) (x : ℕ → K) :
    (removeDimensions (addDimensions a d1 pos n project) d2 pos' n).Gam x ↔ a.Gam x := by
  obtain ⟨e1, e2⟩ := C21_add_dims a d1 pos n project
  have hdim : (addDimensions a d1 pos n project).dim = a.dim + 1 * pos.length := by
    unfold Box.dim; rw [e1, e2]; omega
  have hltp : ∀ q ∈ pos', q < (addDimensions a d1 pos n project).dim := by
    intro q hq
    obtain ⟨k, hk, rfl⟩ := (hpos' q).1 hq
    have := hlt _ (getD_mem hk); omega
  rw [Box.removeDimensions_gam _ (C21_add_wf a ha d1 pos hs hlt n hn project) d2 hs' hltp (by omega) (by omega)
    (by omega)]
  -- the old variable `v` sits at `v + cntLe pos v`, before which exactly the new dimensions are removed
  have key : ∀ v, v < a.dim → (v + cntLe pos v) ∉ pos' ∧ cntLt pos' (v + cntLe pos v) = cntLe pos v := by
    intro v hv
    have hsrc : src true 1 a.dim pos (v + cntLe pos v) = some v := (src_add hs).2 ⟨hv, by omega⟩
    have hn' : (v + cntLe pos v) ∉ pos' := by
      intro hm
      obtain ⟨k, hk, e⟩ := (hpos' _).1 hm
      have : src true 1 a.dim pos (v + cntLe pos v) = none :=
        (src_add_none hs hlt (by have := cntLe_le (pos := pos) v; omega)).2
          ⟨k, 0, hk, by omega, by omega⟩
      rw [hsrc] at this; cases this
    refine ⟨hn', ?_⟩
    -- both lists are increasing, hence `pos' k = pos k + k`
    have hk : ∀ k, k < pos.length → pos'.getD k 0 = pos.getD k 0 + k := by
      intro k hk
      have e : pos' = (List.range pos.length).map fun k => pos.getD k 0 + k := by
        refine List.Perm.eq_of_pairwise (le := (· < ·)) (fun a b _ _ h1 h2 => by omega) hs' ?_ ?_
        · rw [List.pairwise_map, List.pairwise_iff_getElem]
          intro i j hi hj hij
          simp only [List.getElem_range, List.length_range] at hi hj ⊢
          have := getD_mono hs (show i ≤ j by omega) hj
          omega
        · rw [List.perm_ext_iff_of_nodup (hs'.imp fun h => Nat.ne_of_lt h)]
          · intro q
            rw [hpos' q, List.mem_map]
            constructor
            · rintro ⟨k, hk, rfl⟩; exact ⟨k, List.mem_range.2 hk, rfl⟩
            · rintro ⟨k, hk, rfl⟩; exact ⟨k, List.mem_range.1 hk, rfl⟩
          · refine List.Nodup.map_on (fun i hi j hj e => ?_) List.nodup_range
            rw [List.mem_range] at hi hj
            by_contra hne
            rcases Nat.lt_or_gt_of_ne hne with h | h
            · have := getD_mono hs h.le hj; omega
            · have := getD_mono hs h.le hi; omega
      rw [e, List.getD_eq_getElem?_getD, List.getElem?_eq_getElem (by simpa using hk)]
      simp
    have hc := cntLe_le (pos := pos) v
    refine cntLt_eq_of (by omega) (fun m hm => ?_) fun m hm hm' => ?_
    · rw [hk m (by omega)]
      have : pos.getD m 0 ≤ v := by
        by_contra hcon
        have := cntLe_lt_of (v := v) hs (show m < pos.length by omega) (by omega); omega
      omega
    · rw [hk m (by omega)]
      have : v < pos.getD m 0 := by
        by_contra hcon
        have := cntLe_ge_of (v := v) hs (show m < pos.length by omega) (by omega); omega
      omega
  constructor
  · rintro ⟨y, hy, hk⟩
    have h1 := ((Box.addDimensions_gam a d1 hs hlt hn project y).1 hy).1
    rcases h : a.p with _ | p
    · exact (gam_none h h1).elim
    · rw [gam_some h] at h1 ⊢
      intro v hv
      have h2 := hk (v + cntLe pos v) (by have := cntLe_le (pos := pos) v; omega) (key v hv).1
      rw [(key v hv).2, Nat.add_sub_cancel] at h2
      rw [h2]
      exact h1 v hv
  · intro hx
    refine ⟨fun w => match src true 1 a.dim pos w with | some v => x v | none => 0, ?_, ?_⟩
    · rw [Box.addDimensions_gam a d1 hs hlt hn project]
      constructor
      · rcases h : a.p with _ | p
        · exact (gam_none h hx).elim
        · rw [gam_some h] at hx ⊢
          intro v hv
          have hsrc : src true 1 a.dim pos (v + cntLe pos v) = some v := (src_add hs).2 ⟨hv, by omega⟩
          simp only [hsrc]
          exact hx v hv
      · intro _ k hk
        have hsrc : src true 1 a.dim pos (pos.getD k 0 + k) = none :=
          (src_add_none hs hlt (by have := hlt _ (getD_mem hk); omega)).2 ⟨k, 0, hk, by omega, by omega⟩
        simp only [hsrc]
    · intro w hw hn'
      rw [hdim] at hw
      cases hsrc : src true 1 a.dim pos w with
      | none =>
        obtain ⟨k, s, hk, hs1, e⟩ := (src_add_none hs hlt hw).1 hsrc
        exact absurd ((hpos' w).2 ⟨k, hk, by omega⟩) hn'
      | some v =>
        obtain ⟨hv, e⟩ := (src_add hs).1 hsrc
        rw [Nat.one_mul] at e
        subst e
        rw [(key v hv).2, Nat.add_sub_cancel]
        simp only [hsrc]

example : (addDimensions exBox true [0, 2, 2] 1 true).Gam
    (fun i => if i = 1 then 3 else if i = 2 then 5 else 0) ∧
    (removeDimensions exBox true [0] 1).intdim = 0 ∧
    ((removeDimensions exBox true [0] 1).p.map fun p => p 0) = exBox.p.map fun p => p 1 := by
  refine ⟨?_, rfl, rfl⟩
  rw [C21_add_exact _ _ _ (by decide) (by decide +kernel) _ (by decide)]
  refine ⟨?_, fun _ k hk => ?_⟩
  · refine gam_mk.2 fun i hi => ?_
    have hi : i < 2 := hi
    interval_cases i <;> decide +kernel
  · have hk : k < 3 := hk
    interval_cases k <;> decide +kernel

/-! ## C22: forgetting, expanding and folding dimensions -/

/-- `forget`: the variables of `tdim` take any value, or 0 with `project` -/
theorem C22_forget_exact (a : Box K) (ha : a.Wf) (tdim : List ℕ) (project : Bool) (x' : ℕ → K) :
    (forgetArray a tdim project).Gam x' ↔
      ∃ x, a.Gam x ∧ (∀ v, v < a.dim → v ∉ tdim → x' v = x v) ∧
        (project = true → ∀ v ∈ tdim, v < a.dim → x' v = 0) := by
  unfold forgetArray
  cases h : a.p with
  | none =>
    simp only
    refine ⟨fun hx => (gam_none h hx).elim, ?_⟩
    rintro ⟨x, hx, _⟩
    exact (gam_none h hx).elim
  | some p =>
    simp only [gam_mk, forget_at]
    constructor
    · intro hx
      choose! f hf using ha p h
      refine ⟨fun v => if v ∈ tdim then f v else x' v, (gam_some h).2 fun v hv => ?_,
        fun v _ hn => (if_neg hn).symm, fun hp v hm hv => ?_⟩
      · by_cases hm : v ∈ tdim
        · simp only [if_pos hm]; exact hf v hv
        · have := hx v hv
          rw [if_neg hm] at this
          simp only [if_neg hm]; exact this
      · have := hx v hv
        rw [if_pos hm, if_pos hp, Itv.mem_point] at this
        exact this
    · rintro ⟨x, hx, hk, hz⟩ v hv
      by_cases hm : v ∈ tdim
      · rw [if_pos hm]
        by_cases hp : project = true
        · rw [if_pos hp, Itv.mem_point]; exact hz hp v hm hv
        · rw [if_neg hp]; exact Itv.mem_top _
      · rw [if_neg hm, hk v hv hm]
        exact (gam_some h).1 hx v hv

theorem C22_forget_wf (a : Box K) (ha : a.Wf) (tdim : List ℕ) (project : Bool) :
    (forgetArray a tdim project).Wf := by
  unfold forgetArray
  cases h : a.p with
  | none => exact ha
  | some p =>
    refine wf_mk.2 fun v hv => ?_
    rw [forget_at]
    by_cases hm : v ∈ tdim
    · rw [if_pos hm]
      by_cases hp : project = true
      · rw [if_pos hp]; exact ⟨0, (Itv.mem_point 0 0).2 rfl⟩
      · rw [if_neg hp]; exact ⟨0, Itv.mem_top _⟩
    · rw [if_neg hm]; exact ha p h v hv

/-- the cells of an expanded box: the variables after `offset` shift by `n`, the copies hold the
interval of `d` -/
theorem expand_cells (a : Box K) (destructive : Bool) (d n : ℕ) (hd : d < a.dim) {p : ℕ → Itv K}
    (h : a.p = some p) : ∃ r, (expand a destructive d n).p = some r ∧
      (∀ v, v < a.dim → r (if v < (if d < a.intdim then a.intdim else a.dim) then v else v + n) = p v) ∧
      ∀ k, k < n → r ((if d < a.intdim then a.intdim else a.dim) + k) = p d := by
  have hoff : d < (if d < a.intdim then a.intdim else a.dim) := by split_ifs <;> assumption
  have hoff' : (if d < a.intdim then a.intdim else a.dim) ≤ a.dim := by
    unfold Box.dim; split_ifs <;> omega
  unfold expand
  generalize hof : (if d < a.intdim then a.intdim else a.dim) = off at hoff hoff'
  cases n with
  | zero => simp only [h]; exact ⟨p, rfl, fun v _ => by split_ifs <;> rfl, by omega⟩
  | succ n =>
    simp only [h]
    have hs : (List.replicate (n + 1) off).Pairwise (· ≤ ·) := by
      rw [List.pairwise_replicate]; right; exact le_refl _
    have hlt : ∀ q ∈ List.replicate (n + 1) off, q ≤ a.dim := by
      intro q hq; rw [List.eq_of_mem_replicate hq]; exact hoff'
    obtain ⟨h1, h2⟩ := addLoop_final hs hlt destructive p Itv.top
    have hcnt : ∀ v, cntLe (List.replicate (n + 1) off) v = if off ≤ v then n + 1 else 0 := by
      intro v
      rw [← cntLe_eq, List.countP_replicate]
      simp
    unfold addDimensions
    simp only [h, Option.map_some, Bool.false_eq_true, if_false]
    generalize hg : addLoop destructive p a.dim (List.replicate (n + 1) off) Itv.top (a.dim + 1)
      (List.replicate (n + 1) off).length p = g at h1 h2
    have hgd : g d = p d := by
      have := h1 d hd
      rwa [hcnt, if_neg (by omega), Nat.add_zero] at this
    have hloop : ∀ (l : List ℕ) (r : ℕ → Itv K), r d = p d →
        (∀ j, (∀ k ∈ l, j ≠ off + k) → l.foldl (fun r i => Function.update r (off + i) (r d)) r j = r j) ∧
        (∀ k ∈ l, l.foldl (fun r i => Function.update r (off + i) (r d)) r (off + k) = p d) := by
      intro l
      induction l using List.reverseRecOn with
      | nil => intro r _; simp
      | append_singleton l k ih =>
        intro r hr
        obtain ⟨i1, i2⟩ := ih r hr
        have hd' := i1 d fun k _ => by omega
        simp only [List.foldl_append, List.foldl_cons, List.foldl_nil]
        refine ⟨fun j hj => ?_, fun m hm => ?_⟩
        · rw [Function.update_of_ne (hj k (by simp))]
          exact i1 j fun k hk => hj k (by simp [hk])
        · by_cases e : m = k
          · subst e; rw [Function.update_self, hd', hr]
          · rw [Function.update_of_ne (by omega)]
            refine i2 m ?_
            rcases List.mem_append.1 hm with h | h
            · exact h
            · simp at h; omega
    obtain ⟨l1, l2⟩ := hloop (List.range (n + 1)) g hgd
    refine ⟨_, rfl, fun v hv => ?_, fun k hk => l2 k (List.mem_range.2 hk)⟩
    have h3 := h1 v hv
    rw [hcnt] at h3
    by_cases e : v < off
    · rw [if_neg (by omega), Nat.add_zero] at h3
      rw [if_pos e, l1 v fun k _ => by omega]; exact h3
    · rw [if_pos (by omega)] at h3
      rw [if_neg e, l1 _ fun k hk => by rw [List.mem_range] at hk; omega]; exact h3

theorem C22_expand_dims (a : Box K) (destructive : Bool) (d n : ℕ) :
    (expand a destructive d n).intdim = (if d < a.intdim then a.intdim + n else a.intdim) ∧
    (expand a destructive d n).realdim = (if d < a.intdim then a.realdim else a.realdim + n) := by
  unfold expand addDimensions
  cases h : a.p <;> cases n <;> by_cases hd : d < a.intdim <;> simp [hd]

/-- `expand`: every copy of `d`, as well as `d` itself, satisfies what `d` satisfied -/
theorem C22_expand_exact (a : Box K) (destructive : Bool) (d n : ℕ) (hd : d < a.dim) (x' : ℕ → K) :
    (expand a destructive d n).Gam x' ↔
      ∀ y, (y = x' d ∨ ∃ k, k < n ∧ y = x' ((if d < a.intdim then a.intdim else a.dim) + k)) →
        a.Gam (fun v => if v = d then y
          else if v < (if d < a.intdim then a.intdim else a.dim) then x' v else x' (v + n)) := by
  have hoff : d < (if d < a.intdim then a.intdim else a.dim) := by split_ifs <;> assumption
  have hoff' : (if d < a.intdim then a.intdim else a.dim) ≤ a.dim := by
    unfold Box.dim; split_ifs <;> omega
  have hdim : (expand a destructive d n).dim = a.dim + n := by
    obtain ⟨e1, e2⟩ := C22_expand_dims a destructive d n
    unfold Box.dim at *; rw [e1, e2]; split_ifs <;> omega
  rcases h : a.p with _ | p
  · refine ⟨fun hx => (gam_none ?_ hx).elim, fun hx => (gam_none h (hx _ (Or.inl rfl))).elim⟩
    unfold expand; simp only [h]
  · obtain ⟨r, hr, h1, h2⟩ := expand_cells a destructive d n hd h
    rw [gam_some hr, hdim]
    simp only [gam_some h]
    generalize (if d < a.intdim then a.intdim else a.dim) = off at *
    constructor
    · intro hx y hy v hv
      by_cases e : v = d
      · subst e
        rw [if_pos rfl]
        rcases hy with rfl | ⟨k, hk, rfl⟩
        · have := hx v (by omega)
          have h3 := h1 v hv
          rw [if_pos hoff] at h3
          rwa [h3] at this
        · have := hx (off + k) (by omega)
          rwa [h2 k hk] at this
      · rw [if_neg e]
        have h3 := h1 v hv
        by_cases e' : v < off
        · rw [if_pos e'] at h3 ⊢
          rw [← h3]; exact hx v (by omega)
        · rw [if_neg e'] at h3 ⊢
          rw [← h3]; exact hx (v + n) (by omega)
    · intro hx j hj
      by_cases e : j < off
      · have h3 := h1 j (by omega)
        rw [if_pos e] at h3
        have := hx _ (Or.inl rfl) j (by omega)
        rw [h3]
        by_cases e' : j = d
        · rw [if_pos e'] at this; rw [e'] at this ⊢; exact this
        · rwa [if_neg e', if_pos e] at this
      · by_cases e' : j < off + n
        · have h3 := h2 (j - off) (by omega)
          rw [show off + (j - off) = j by omega] at h3
          have := hx (x' j) (Or.inr ⟨j - off, by omega, by rw [show off + (j - off) = j by omega]⟩) d hd
          rw [if_pos rfl] at this
          rwa [h3]
        · have h3 := h1 (j - n) (by omega)
          rw [if_neg (by omega), Nat.sub_add_cancel (by omega)] at h3
          have := hx _ (Or.inl rfl) (j - n) (by omega)
          rw [if_neg (by omega), if_neg (by omega), Nat.sub_add_cancel (by omega)] at this
          rwa [h3]

theorem C22_expand_wf (a : Box K) (ha : a.Wf) (destructive : Bool) (d n : ℕ) (hd : d < a.dim) :
    (expand a destructive d n).Wf := by
  have hoff : d < (if d < a.intdim then a.intdim else a.dim) := by split_ifs <;> assumption
  have hoff' : (if d < a.intdim then a.intdim else a.dim) ≤ a.dim := by
    unfold Box.dim; split_ifs <;> omega
  have hdim : (expand a destructive d n).dim = a.dim + n := by
    obtain ⟨e1, e2⟩ := C22_expand_dims a destructive d n
    unfold Box.dim at *; rw [e1, e2]; split_ifs <;> omega
  rcases h : a.p with _ | p
  · refine wf_none ?_
    unfold expand; simp only [h]
  · obtain ⟨r, hr, h1, h2⟩ := expand_cells a destructive d n hd h
    intro q hq j hj
    rw [hr] at hq; cases hq
    rw [hdim] at hj
    generalize (if d < a.intdim then a.intdim else a.dim) = off at *
    by_cases e : j < off
    · have h3 := h1 j (by omega)
      rw [if_pos e] at h3
      rw [h3]; exact ha p h j (by omega)
    · by_cases e' : j < off + n
      · have h3 := h2 (j - off) (by omega)
        rw [show off + (j - off) = j by omega] at h3
        rw [h3]; exact ha p h d hd
      · have h3 := h1 (j - n) (by omega)
        rw [if_neg (by omega), Nat.sub_add_cancel (by omega)] at h3
        rw [h3]; exact ha p h (j - n) (by omega)

example : (expand exBox true 0 2).Gam (fun i => if i = 0 then 1 else if i = 1 then 3 else if i = 2 then 2 else 5) := by
  rw [C22_expand_exact _ _ _ _ (by decide +kernel)]
  rintro y (rfl | ⟨k, hk, rfl⟩) <;> refine gam_mk.2 fun i hi => ?_
  · have hi : i < 2 := hi
    interval_cases i <;> decide +kernel
  · have hi : i < 2 := hi
    interval_cases k <;> interval_cases i <;> decide +kernel

/-! ### folding -/

/-- the cells of `box_fold` before the removal -/
theorem fold_cells {d0 : ℕ} (ts : List ℕ) (hd : d0 ∉ ts) (p : ℕ → Itv K) :
    (∀ j, j ≠ d0 → ts.foldl (fun r t => Function.update r d0 ((r d0).join (r t))) p j = p j) ∧
    (∀ d ∈ d0 :: ts, ∀ y, y ∈ p d →
      y ∈ ts.foldl (fun r t => Function.update r d0 ((r d0).join (r t))) p d0) ∧
    ∀ c : Itv K, (∀ d ∈ d0 :: ts, ∃ y, y ∈ p d) → (∀ d ∈ d0 :: ts, ∀ y, y ∈ p d → y ∈ c) →
      ∀ y, y ∈ ts.foldl (fun r t => Function.update r d0 ((r d0).join (r t))) p d0 → y ∈ c := by
  induction ts using List.reverseRecOn with
  | nil => simp
  | append_singleton ts t ih =>
    simp only [List.mem_append, List.mem_singleton, not_or] at hd
    obtain ⟨h1, h2, h3⟩ := ih hd.1
    simp only [List.foldl_append, List.foldl_cons, List.foldl_nil]
    have ht := h1 t (Ne.symm hd.2)
    refine ⟨fun j hj => by rw [Function.update_of_ne hj, h1 j hj], fun d hm y hy => ?_, fun c hne hc y hy => ?_⟩
    · rw [Function.update_self, ht]
      rcases List.mem_cons.1 hm with rfl | hm
      · exact Itv.mem_join_left (h2 _ (by simp) y hy)
      · rcases List.mem_append.1 hm with hm | hm
        · exact Itv.mem_join_left (h2 d (by simp [hm]) y hy)
        · rw [List.mem_singleton.1 hm] at hy; exact Itv.mem_join_right hy
    · rw [Function.update_self, ht] at hy
      obtain ⟨y0, hy0⟩ := hne d0 (by simp)
      refine (C08_join_hull _ _ (Or.inl ⟨y0, h2 d0 (by simp) y0 hy0⟩) (Or.inl (hne t (by simp)))).2 c ?_ y hy
      rintro z (hz | hz)
      · refine h3 c (fun d hd => hne d ?_) (fun d hd => hc d ?_) z hz <;>
          · simp only [List.mem_cons, List.mem_append] at hd ⊢; tauto
      · exact hc t (by simp) z hz

/-- a folded list on one side of the integer/real frontier is not longer than that side -/
theorem fold_len {a : Box K} {d0 : ℕ} {ts : List ℕ} (hs : (d0 :: ts).Pairwise (· < ·))
    (hlt : ∀ q ∈ d0 :: ts, q < a.dim) (hty : ∀ t ∈ ts, (t < a.intdim ↔ d0 < a.intdim)) :
    (if d0 < a.intdim then ts.length else 0) ≤ ts.length ∧
    (if d0 < a.intdim then ts.length else 0) ≤ a.intdim ∧
    ts.length - (if d0 < a.intdim then ts.length else 0) ≤ a.realdim := by
  have hs' := (List.pairwise_cons.1 hs).2
  split_ifs with h
  · exact ⟨le_refl _, rem_len hs' fun q hq => (hty q hq).2 h, by omega⟩
  · refine ⟨by omega, by omega, ?_⟩
    have := rem_len (pos := ts.map (· - a.intdim)) (dim := a.realdim) ?_ ?_
    · rw [List.length_map] at this; omega
    · rw [List.pairwise_map]
      refine hs'.imp_of_mem fun {x y} hx hy hxy => ?_
      have h1 := (hty x hx).not.2 h
      omega
    · intro q hq
      rw [List.mem_map] at hq
      obtain ⟨t, ht, rfl⟩ := hq
      have h1 := (hty t ht).not.2 h
      have h2 := hlt t (by simp [ht])
      unfold Box.dim at h2
      omega

theorem fold_eq (a : Box K) (d0 : ℕ) (ts : List ℕ) (hne : ts ≠ []) {p : ℕ → Itv K} (h : a.p = some p) :
    Box.fold a d0 ts = removeDimensions ⟨some (ts.foldl
      (fun r t => Function.update r d0 ((r d0).join (r t))) p), a.intdim, a.realdim⟩ true ts
      (if d0 < a.intdim then ts.length else 0) := by
  unfold Box.fold
  cases ts with
  | nil => exact absurd rfl hne
  | cons t ts => simp only [h]

theorem fold_none (a : Box K) (d0 : ℕ) (ts : List ℕ) (h : a.p = none) : (Box.fold a d0 ts).p = none := by
  unfold Box.fold
  simp only [h]

theorem fold_wf' {a : Box K} (ha : a.Wf) {d0 : ℕ} {ts : List ℕ}
    (hs : (d0 :: ts).Pairwise (· < ·)) (hlt : ∀ q ∈ d0 :: ts, q < a.dim) {p : ℕ → Itv K} (h : a.p = some p) :
    (⟨some (ts.foldl (fun r t => Function.update r d0 ((r d0).join (r t))) p), a.intdim, a.realdim⟩ :
      Box K).Wf := by
  obtain ⟨c1, c2, _⟩ := fold_cells ts (OctT.fold_notmem hs) p
  refine wf_mk.2 fun j hj => ?_
  by_cases e : j = d0
  · subst e
    obtain ⟨y, hy⟩ := ha p h j hj
    exact ⟨y, c2 j (by simp) y hy⟩
  · rw [c1 j e]; exact ha p h j hj

/-- `fold`: `d0` may take the value of any folded variable; the others are removed -/
theorem C22_fold_sound (a : Box K) (ha : a.Wf) (d0 : ℕ) (ts : List ℕ) (hne : ts ≠ [])
    (hs : (d0 :: ts).Pairwise (· < ·)) (hlt : ∀ q ∈ d0 :: ts, q < a.dim)
    (hty : ∀ t ∈ ts, (t < a.intdim ↔ d0 < a.intdim)) (x x' : ℕ → K)
    (hx : a.Gam x) (d : ℕ) (hd : d ∈ d0 :: ts) (h0 : x' d0 = x d)
    (hkeep : ∀ v, v < a.dim → v ∉ ts → v ≠ d0 →
      x' (v - ts.countP (fun p => decide (p < v))) = x v) :
    (Box.fold a d0 ts).Gam x' := by
  simp only [cntLt_eq] at hkeep
  obtain ⟨l1, l2, l3⟩ := fold_len hs hlt hty
  rcases h : a.p with _ | p
  · exact (gam_none h hx).elim
  · rw [fold_eq a d0 ts hne h, Box.removeDimensions_gam _ (fold_wf' ha hs hlt h) true
      (List.pairwise_cons.1 hs).2 (fun q hq => hlt q (by simp [hq])) l1 l2 l3]
    obtain ⟨c1, c2, _⟩ := fold_cells ts (OctT.fold_notmem hs) p
    rw [gam_some h] at hx
    refine ⟨Function.update x d0 (x d), gam_mk.2 fun j hj => ?_, fun v hv hn => ?_⟩
    · by_cases e : j = d0
      · subst e
        rw [Function.update_self]
        exact c2 d hd _ (hx d (hlt d hd))
      · rw [Function.update_of_ne e, c1 j e]; exact hx j hj
    · by_cases e : v = d0
      · subst e
        rw [Function.update_self, OctT.fold_cnt hs]; exact h0
      · rw [Function.update_of_ne e]; exact hkeep v hv hn e

/-- the result is the smallest box holding all these points -/
theorem C22_fold_least (a : Box K) (ha : a.Wf) (d0 : ℕ) (ts : List ℕ) (hne : ts ≠ [])
    (hs : (d0 :: ts).Pairwise (· < ·)) (hlt : ∀ q ∈ d0 :: ts, q < a.dim)
    (hty : ∀ t ∈ ts, (t < a.intdim ↔ d0 < a.intdim)) (b : Box K) (hb : b.dim = a.dim - ts.length)
    (hall : ∀ x x' d, d ∈ d0 :: ts → a.Gam x → x' d0 = x d →
      (∀ v, v < a.dim → v ∉ ts → v ≠ d0 → x' (v - ts.countP (fun p => decide (p < v))) = x v) → b.Gam x')
    (x' : ℕ → K) (hx' : (Box.fold a d0 ts).Gam x') : b.Gam x' := by
  simp only [cntLt_eq] at hall
  obtain ⟨l1, l2, l3⟩ := fold_len hs hlt hty
  have hs' := (List.pairwise_cons.1 hs).2
  have hlt' : ∀ q ∈ ts, q < a.dim := fun q hq => hlt q (by simp [hq])
  rcases h : a.p with _ | p
  · exact (gam_none (fold_none a d0 ts h) hx').elim
  · have hd0 : src false 1 a.dim ts d0 = some d0 :=
      (src_rem hs').2 ⟨hlt d0 (by simp), OctT.fold_notmem hs, by rw [OctT.fold_cnt hs]; omega⟩
    -- the folded image of `x` taking the value of `d`
    have himg : ∀ x d, d ∈ d0 :: ts → a.Gam x →
        ∃ y, b.Gam y ∧ y d0 = x d ∧ ∀ v w, src false 1 a.dim ts w = some v → v ≠ d0 → y w = x v := by
      intro x d hd hx
      let y : ℕ → K := fun w => if w = d0 then x d else match src false 1 a.dim ts w with
        | some v => x v
        | none => 0
      have hy : ∀ v w, src false 1 a.dim ts w = some v → v ≠ d0 → y w = x v := by
        intro v w hw hv
        have : w ≠ d0 := by rintro rfl; rw [hd0] at hw; cases hw; exact hv rfl
        simp only [y, if_neg this, hw]
      refine ⟨y, hall x y d hd hx (by simp [y]) (fun v hv hn hvd => hy v _ ?_ hvd), by simp [y], hy⟩
      refine (src_rem hs').2 ⟨hv, hn, ?_⟩
      have := cntLt_le hs' v
      omega
    obtain ⟨x0, hx0⟩ := ha.point h
    obtain ⟨y0, hy0, _⟩ := himg x0 d0 (by simp) hx0
    obtain ⟨q, hq, _⟩ := hy0
    rw [fold_eq a d0 ts hne h, Box.removeDimensions_gam _ (fold_wf' ha hs hlt h) true hs' hlt' l1 l2 l3] at hx'
    obtain ⟨z, hz, hk⟩ := hx'
    rw [gam_mk] at hz
    obtain ⟨c1, _, c3⟩ := fold_cells ts (OctT.fold_notmem hs) p
    refine (gam_some hq).2 fun j hj => ?_
    rw [hb] at hj
    obtain ⟨v, hv⟩ := src_rem_cover hs' hlt' hj
    obtain ⟨v1, v2, v3⟩ := (src_rem hs').1 hv
    have hxz : x' j = z v := by
      have := hk v v1 v2
      rwa [show v - cntLt ts v = j by omega] at this
    rw [hxz]
    have hzv := hz v v1
    by_cases e : v = d0
    · subst e
      have hjd : j = v := by rw [OctT.fold_cnt hs] at v3; omega
      subst hjd
      refine c3 (q j) (fun d hd => ha p h d (hlt d hd)) (fun d hd y hy => ?_) _ hzv
      obtain ⟨w, hw, hw0, _⟩ := himg _ d hd (gam_update h hx0 d hy)
      have := (gam_some hq).1 hw j (by rw [hb]; exact hj)
      rw [hw0] at this
      simpa using this
    · rw [c1 v e] at hzv
      obtain ⟨w, hw, _, hw1⟩ := himg _ d0 (by simp) (gam_update h hx0 v hzv)
      have := (gam_some hq).1 hw j (by rw [hb]; exact hj)
      rw [hw1 v j hv e] at this
      simpa using this

theorem C22_fold_dims (a : Box K) (d0 : ℕ) (ts : List ℕ) :
    (Box.fold a d0 ts).intdim = (if d0 < a.intdim then a.intdim - ts.length else a.intdim) ∧
    (Box.fold a d0 ts).realdim = (if d0 < a.intdim then a.realdim else a.realdim - ts.length) := by
  unfold Box.fold removeDimensions
  cases h : a.p <;> cases ts <;> by_cases hd : d0 < a.intdim <;> simp [hd]

theorem C22_fold_wf (a : Box K) (ha : a.Wf) (d0 : ℕ) (ts : List ℕ) (hne : ts ≠ [])
    (hs : (d0 :: ts).Pairwise (· < ·)) (hlt : ∀ q ∈ d0 :: ts, q < a.dim)
    (hty : ∀ t ∈ ts, (t < a.intdim ↔ d0 < a.intdim)) : (Box.fold a d0 ts).Wf := by
  obtain ⟨l1, l2, l3⟩ := fold_len hs hlt hty
  rcases h : a.p with _ | p
  · exact wf_none (fold_none a d0 ts h)
  · rw [fold_eq a d0 ts hne h]
    exact Box.removeDimensions_wf _ (fold_wf' ha hs hlt h) true (List.pairwise_cons.1 hs).2
      (fun q hq => hlt q (by simp [hq])) l1 l2 l3

/-- folding `x2` into `x1` in `{0 ≤ x0 ≤ 1, 0 ≤ x1 ≤ 1, 5 ≤ x2 ≤ 6}` -/
example : ((Box.fold (⟨some fun i => if i = 2 then ⟨fin (-5), fin 6⟩ else ⟨fin 0, fin 1⟩, 1, 2⟩ : Box ℚ) 1 [2]).p.map
    fun p => (p 0, p 1)) = some (⟨fin 0, fin 1⟩, ⟨fin 0, fin 6⟩) := by decide +kernel

end Apron
