import Verif.Core.Level1Lemmas

/-!
# Lemmas on expansion and folding at level 1
-/

set_option autoImplicit false
set_option linter.unusedSectionVars false
set_option linter.ambiguousOpen false

namespace Apron
namespace Abs1

open Env Props

/-! ## Counting -/

theorem countP_gap {l : List ℕ} (h : l.Nodup) {v w : ℕ} (hv : v ∉ l) (hw : v < w) :
    l.countP (fun p => decide (p < w)) + v + 1 ≤ l.countP (fun p => decide (p < v)) + w := by
  induction w, hw using Nat.le_induction with
  | base =>
    have := countP_lt_succ h v
    rw [if_neg hv] at this
    rw [this]; omega
  | succ w _ ih =>
    have := countP_lt_succ h w
    rw [this]; split_ifs <;> omega

theorem countP_mono (l : List ℕ) {v w : ℕ} (hw : v ≤ w) :
    l.countP (fun p => decide (p < v)) ≤ l.countP (fun p => decide (p < w)) :=
  List.countP_mono_left fun x _ h => by simp only [decide_eq_true_eq] at h ⊢; omega

theorem countP_le_self {l : List ℕ} (h : l.Nodup) (v : ℕ) : l.countP (fun p => decide (p < v)) ≤ v := by
  induction v with
  | zero => simp
  | succ v ih => rw [countP_lt_succ h]; split_ifs <;> omega

theorem countP_zero_of_le {l : List ℕ} {v : ℕ} (h : ∀ p ∈ l, v ≤ p) : l.countP (fun p => decide (p < v)) = 0 := by
  rw [List.countP_eq_zero]
  intro p hp
  have := h p hp
  simp; omega

theorem countP_index {l : List ℕ} (h : l.Pairwise (· < ·)) {i d : ℕ} (hi : l[i]? = some d) :
    l.countP (fun p => decide (p < d)) = i := by
  induction l generalizing i with
  | nil => simp at hi
  | cons a l ih =>
    rw [List.pairwise_cons] at h
    cases i with
    | zero =>
      simp only [List.getElem?_cons_zero, Option.some.injEq] at hi
      subst hi
      rw [List.countP_cons, countP_zero_of_le fun p hp => (h.1 p hp).le]; simp
    | succ i =>
      simp only [List.getElem?_cons_succ] at hi
      rw [List.countP_cons, ih h.2 hi, if_pos (by
        have := h.1 d (List.mem_of_getElem? hi)
        simpa using this)]

/-! ## The permutation of `ap_abstract1_fold` -/

theorem foldPerm_loop (n t0 m : ℕ) (h : t0 + m < n) :
    ∃ p : List ℕ, (List.range' (t0 + 1) m).foldl
      (fun (p : Option (List ℕ)) rank =>
        p.bind fun p => if rank < p.length then some (p.set rank (rank - 1)) else none)
      (some (List.range n)) = some p ∧ p.length = n ∧
      ∀ r, r < n → p.getD r 0 = if t0 < r ∧ r ≤ t0 + m then r - 1 else r := by
  induction m with
  | zero =>
    refine ⟨List.range n, rfl, List.length_range, fun r hr => ?_⟩
    rw [if_neg (by omega), List.getD, List.getElem?_eq_getElem (by simpa using hr)]
    simp
  | succ m ih =>
    obtain ⟨p, h1, h2, h3⟩ := ih (by omega)
    refine ⟨p.set (t0 + 1 + m) (t0 + m), ?_, by simpa using h2, fun r hr => ?_⟩
    · rw [List.range'_1_concat, List.foldl_append, h1]
      simp only [List.foldl_cons, List.foldl_nil, Option.bind_some]
      rw [if_pos (by omega)]
      congr 2
      omega
    · rw [List.getD, List.getElem?_set]
      have h3' := h3 r hr
      rw [List.getD] at h3'
      by_cases e : t0 + 1 + m = r
      · rw [if_pos e, if_pos (by omega), if_pos (by omega)]; simp; omega
      · rw [if_neg e, h3']
        split_ifs <;> omega

theorem foldPerm_spec (n t0 dim index : ℕ) (h1 : t0 ≤ dim - index) (h2 : dim - index < n) :
    ∃ p, foldPerm n t0 dim index = some p ∧ Dim.IsPerm n p ∧
      ∀ r, r < n → p.getD r 0 = if r = t0 then dim - index
        else if t0 < r ∧ r ≤ dim - index then r - 1 else r := by
  obtain ⟨p, e1, e2, e3⟩ := foldPerm_loop n t0 (dim - index - t0) (by omega)
  have e4 : ∀ r, r < n → (p.set t0 (dim - index)).getD r 0 = if r = t0 then dim - index
        else if t0 < r ∧ r ≤ dim - index then r - 1 else r := by
    intro r hr
    rw [List.getD, List.getElem?_set]
    have e3' := e3 r hr
    rw [List.getD] at e3'
    by_cases e : t0 = r
    · rw [if_pos e, if_pos (by omega), if_pos e.symm]; rfl
    · rw [if_neg e, e3', if_neg (Ne.symm e)]
      split_ifs <;> omega
  refine ⟨p.set t0 (dim - index), ?_, Dim.isPerm_of (by simpa using e2) (fun i hi => ?_) (fun i j hi hj => ?_), e4⟩
  · rw [foldPerm]
    simp only [e1, Option.bind_some]
    rw [if_pos (by omega)]
  · rw [e4 i hi]; split_ifs <;> omega
  · rw [e4 i hi, e4 j hj]; split_ifs <;> omega

variable {V : Type*} [LinearOrder V] {K A : Type*} [Zero K] {M : Man K A} {Ok : A → Prop} {ex : Prop}

/-! ## Expansion -/

theorem expand_core (S : M.Spec Ok ex) {a : Abs1 V A} (ha : Wf M Ok a) {d : ℕ} {var : V}
    (hd : varOfDim a.env d = some var) {tvar : List V} (hne : 0 < tvar.length) {e' : Env V} {perm : List ℕ}
    {L : List V} (hp : Dim.IsPerm e'.size perm) (hL : ∀ k, k < e'.size → varOfDim e' (perm.getD k 0) = L[k]?)
    (hs : e'.size = a.env.size + tvar.length)
    (h1 : ∀ k, k < tvar.length → L[M.off a.val d + k]? = tvar[k]?)
    (h2 : ∀ v, v < a.env.size → L[if v < M.off a.val d then v else v + tvar.length]? = a.env.vars[v]?) :
    (Abs0.expand M a.val d tvar.length) = (M.expand a.val d tvar.length, false) ∧
    (Abs0.permuteDimensions M (M.expand a.val d tvar.length) perm) =
      (M.permute (M.expand a.val d tvar.length) perm, false) ∧
    Ok (M.permute (M.expand a.val d tvar.length) perm) ∧
    M.Dims (M.permute (M.expand a.val d tvar.length) perm)
      (if d < M.intdim a.val then M.intdim a.val + tvar.length else M.intdim a.val)
      (if d < M.intdim a.val then M.realdim a.val else M.realdim a.val + tvar.length) ∧
    ∀ ρ : V → K, M.Gam (M.permute (M.expand a.val d tvar.length) perm) (pt e' ρ) ↔
      ∀ y ∈ var :: tvar, Gam M a (Function.update ρ var (ρ y)) := by
  have hdim := ha.dim
  have hdl := varOfDim_lt hd
  have hoff : d < M.off a.val d ∧ M.off a.val d ≤ M.dim a.val := by
    unfold Man.off; rw [← hdim] at hdl; unfold Man.dim at *; split_ifs <;> omega
  obtain ⟨s1, s2, s3⟩ := S.expand a.val d tvar.length ha.ok (hdim ▸ hdl) hne
  have hed : M.dim (M.expand a.val d tvar.length) = e'.size := by
    rw [Man.dim, s2.1, s2.2, hs, ← hdim]; unfold Man.dim; split_ifs <;> omega
  have hp' : Dim.IsPerm (M.dim (M.expand a.val d tvar.length)) perm := by rw [hed]; exact hp
  obtain ⟨t1, t2, t3⟩ := S.permute _ perm s1 hp'
  refine ⟨by rw [Abs0.expand, if_neg (by omega), if_pos (hdim ▸ hdl)], Abs0.permuteDimensions_legal hp', t1,
    ⟨t2.1.trans s2.1, t2.2.trans s2.2⟩, fun ρ => ?_⟩
  rw [t3, s3]
  have hX : ∀ k u, k < e'.size → L[k]? = some u → pt e' ρ (perm.getD k 0) = ρ u := fun k u hk hu => by
    rw [pt_eq ρ ((hL k hk).trans hu)]
  have hXd : pt e' ρ (perm.getD d 0) = ρ var := by
    refine hX d var (by omega) ?_
    have := h2 d hdl
    rw [if_pos hoff.1] at this
    exact this.trans hd
  have hXk : ∀ k (hk : k < tvar.length), pt e' ρ (perm.getD (M.off a.val d + k) 0) = ρ tvar[k] := fun k hk => by
    exact hX _ _ (by omega) ((h1 k hk).trans (List.getElem?_eq_getElem hk))
  have hcong : ∀ y : K, M.Gam a.val (fun v => if v = d then y else if v < M.off a.val d then
      pt e' ρ (perm.getD v 0) else pt e' ρ (perm.getD (v + tvar.length) 0)) ↔
      Gam M a (Function.update ρ var y) := by
    intro y
    have : ∀ v, v < M.dim a.val → (if v = d then y else if v < M.off a.val d then
      pt e' ρ (perm.getD v 0) else pt e' ρ (perm.getD (v + tvar.length) 0)) =
        pt a.env (Function.update ρ var y) v := by
      intro v hv
      rw [hdim] at hv
      obtain ⟨u, hu⟩ := varOfDim_isSome.2 hv
      rw [pt_eq _ hu]
      by_cases e : v = d
      · subst e
        rw [if_pos rfl]
        rw [hd] at hu
        rw [← Option.some.inj hu, Function.update_self]
      · rw [if_neg e, Function.update_of_ne fun e' => e (varOfDim_inj ha.env hu (by rw [e']; exact hd))]
        have h2' := (h2 v hv).trans hu
        by_cases e' : v < M.off a.val d
        · rw [if_pos e'] at h2' ⊢
          exact hX _ _ (by omega) h2'
        · rw [if_neg e'] at h2' ⊢
          exact hX _ _ (by omega) h2'
    exact ⟨S.congr _ ha.ok _ _ this, S.congr _ ha.ok _ _ fun v hv => (this v hv).symm⟩
  simp only [hcong]
  constructor
  · intro h y hy
    rcases List.mem_cons.1 hy with rfl | hy
    · exact h _ (Or.inl hXd.symm)
    · obtain ⟨k, hk, rfl⟩ := List.getElem_of_mem hy
      exact h _ (Or.inr ⟨k, hk, (hXk k hk).symm⟩)
  · rintro h y (rfl | ⟨k, hk, rfl⟩)
    · rw [hXd]; exact h var (by simp)
    · rw [hXk k hk]; exact h _ (by simp)

/-! ## Folding -/

/-- folding, the dimension of `v0` after the fold and the permutation `perm` being that of `nenv` -/
theorem fold_core (S : M.Spec Ok ex) {a : Abs1 V A} (ha : Wf M Ok a) {v0 : V} {vs : List V} {nenv : Env V}
    (hn : nenv.Wf) (hnv : ∀ v, v ∈ nenv.vars → v ∈ a.env.vars ∧ v ∉ vs)
    (hve : ∀ v ∈ vs, v ∈ a.env.vars)
    {t0 : ℕ} {ts : List ℕ} (hne : ts ≠ []) (hs : (t0 :: ts).Pairwise (· < ·))
    (hmem : ∀ (d : ℕ) (u : V), varOfDim a.env d = some u → (d ∈ t0 :: ts ↔ u ∈ v0 :: vs))
    (hlt : ∀ t ∈ t0 :: ts, t < a.env.size)
    (hty : ∀ t ∈ ts, (t < a.env.intdim ↔ t0 < a.env.intdim))
    (hdi : nenv.intdim = if t0 < a.env.intdim then a.env.intdim - ts.length else a.env.intdim)
    (hdr : nenv.realdim = if t0 < a.env.intdim then a.env.realdim else a.env.realdim - ts.length)
    {perm : List ℕ} (hp : Dim.IsPerm nenv.size perm)
    (h0 : t0 < nenv.size ∧ varOfDim nenv (perm.getD t0 0) = some v0)
    (hk : ∀ v w, varOfDim a.env v = some w → v ∉ t0 :: ts →
      v - ts.countP (fun p => decide (p < v)) < nenv.size ∧
      varOfDim nenv (perm.getD (v - ts.countP (fun p => decide (p < v))) 0) = some w) :
    Abs0.fold M a.val t0 ts = (M.fold a.val t0 ts, false) ∧ Ok (M.fold a.val t0 ts) ∧
    M.Dims (M.fold a.val t0 ts) nenv.intdim nenv.realdim ∧
    (∀ (ρ : V → K) (u : V), Gam M a ρ → u ∈ v0 :: vs → M.Gam (M.fold a.val t0 ts)
      (fun p => pt nenv (Function.update ρ v0 (ρ u)) (perm.getD p 0))) ∧
    (ex → ∀ c : Abs1 V A, Wf M Ok c → c.env = nenv →
      (∀ (ρ : V → K) (u : V), Gam M a ρ → u ∈ v0 :: vs → Gam M c (Function.update ρ v0 (ρ u))) →
      ∀ ρ : V → K, M.Gam (M.fold a.val t0 ts) (fun p => pt nenv ρ (perm.getD p 0)) → Gam M c ρ) := by
  have hdim := ha.dim
  have hi : M.intdim a.val = a.env.intdim := ha.dims.1
  have hr : M.realdim a.val = a.env.realdim := ha.dims.2
  obtain ⟨s1, s2, s3, s4⟩ := S.fold a.val t0 ts ha.ok hne hs (by rw [hdim]; exact hlt) (by rw [hi]; exact hty)
  rw [hi, hr] at s2 s4
  rw [← hdi, ← hdr] at s2 s4
  -- the name at `t0 :: ts` and elsewhere
  have hv0e : v0 ∈ a.env.vars := (hnv v0 (mem_vars_iff.2 ⟨_, h0.2⟩)).1
  have hother : ∀ v w, varOfDim a.env v = some w → v ∉ t0 :: ts → w ≠ v0 := fun v w hw hm e =>
    hm ((hmem v w hw).2 (by simp [e]))
  refine ⟨?_, s1, s2, fun ρ u hρ hu => ?_, fun hex c hc hce hall ρ hρ => ?_⟩
  · have c1 : Abs0.checkDimArray M a.val (t0 :: ts) = true := by
      rw [Abs0.checkDimArray_iff, hdim]; exact hlt
    have c2 := (Abs0.strictSorted_iff (t0 :: ts)).2 hs
    have c3 : (decide (t0 < M.intdim a.val) && decide ((t0 :: ts).getD ts.length 0 ≥ M.intdim a.val)) = false := by
      rw [Bool.and_eq_false_iff, decide_eq_false_iff_not, decide_eq_false_iff_not, hi]
      by_cases h : t0 < a.env.intdim
      · right
        have : (t0 :: ts).getD ts.length 0 ∈ t0 :: ts := Dim.getD_mem' (by simp)
        rcases List.mem_cons.1 this with e | e
        · rw [e]; omega
        · have := (hty _ e).2 h; omega
      · left; exact h
    rw [Abs0.fold, c1, c2, c3]
    simp [hne]
  · obtain ⟨t, ht⟩ : ∃ t, varOfDim a.env t = some u := by
      have : u ∈ a.env.vars := by
        rcases List.mem_cons.1 hu with rfl | hu'
        · exact hv0e
        · exact hve u hu'
      exact mem_vars_iff.1 this
    have htm := (hmem t u ht).2 hu
    refine s3 (pt a.env ρ) _ t hρ htm ?_ fun v hv hm hne' => ?_
    · show pt nenv _ (perm.getD t0 0) = _
      rw [pt_eq _ h0.2, Function.update_self, pt_eq _ ht]
    · obtain ⟨w, hw⟩ := varOfDim_isSome.2 (hdim ▸ hv)
      have hm' : v ∉ t0 :: ts := by simp [hm, hne']
      show pt nenv _ (perm.getD _ 0) = _
      rw [pt_eq _ (hk v w hw hm').2, Function.update_of_ne (hother v w hw hm'), pt_eq _ hw]
  · -- the inverse permutation
    have hsurj : ∀ p, p < nenv.size → ∃ r, r < nenv.size ∧ perm.getD r 0 = p := fun p hp' => hp.surj hp'
    choose! q hq1 hq2 using hsurj
    have hcd : M.Dims c.val nenv.intdim nenv.realdim := hce ▸ hc.dims
    have hcdim : M.dim c.val = nenv.size := by rw [Man.dim, hcd.1, hcd.2]; rfl
    have hqg : ∀ p, p < nenv.size → ((List.range nenv.size).map q).getD p 0 = q p := fun p hp' => by
      rw [List.getD, List.getElem?_eq_getElem (by simpa using hp')]; simp
    have hqp : Dim.IsPerm (M.dim c.val) ((List.range nenv.size).map q) := by
      rw [hcdim]
      refine Dim.isPerm_of (by simp) (fun i hi' => ?_) (fun i j hi' hj => ?_)
      · rw [hqg i hi']; exact hq1 i hi'
      · rw [hqg i hi', hqg j hj]
        intro e
        rw [← hq2 i hi', e, hq2 j hj]
    obtain ⟨t1, t2, t3⟩ := S.permute c.val _ hc.ok hqp
    have key := s4 hex (M.permute c.val ((List.range nenv.size).map q)) t1
      ⟨t2.1.trans hcd.1, t2.2.trans hcd.2⟩ ?_ _ hρ
    · rw [t3] at key
      refine S.congr _ hc.ok _ _ (fun p hp' => ?_) key
      rw [hcdim] at hp'
      show pt nenv ρ (perm.getD (((List.range nenv.size).map q).getD p 0) 0) = pt c.env ρ p
      rw [hqg p hp', hq2 p hp', hce]
    · intro x x' t hx ht hx0 hxk
      rw [t3]
      obtain ⟨σ, hσ⟩ := exists_val ha.env x
      obtain ⟨u, hu⟩ := varOfDim_isSome.2 (hlt t ht)
      have hgx : Gam M a σ := S.congr _ ha.ok _ _ (fun d hd => (hσ d (hdim ▸ hd)).symm) hx
      have := hall σ u hgx ((hmem t u hu).1 ht)
      refine S.congr _ hc.ok _ _ (fun p hp' => ?_) this
      rw [hcdim] at hp'
      rw [hqg p hp', hce]
      obtain ⟨w, hw⟩ := varOfDim_isSome.2 hp'
      rw [pt_eq _ hw]
      have hqw : varOfDim nenv (perm.getD (q p) 0) = some w := by rw [hq2 p hp']; exact hw
      by_cases e : w = v0
      · subst e
        have : q p = t0 := hp.inj (hq1 p hp') h0.1 (varOfDim_inj hn hqw h0.2)
        rw [Function.update_self, this, hx0, ← hσ t (hlt t ht), pt_eq _ hu]
      · rw [Function.update_of_ne e]
        have hwe := hnv w (mem_vars_iff.2 ⟨p, hw⟩)
        obtain ⟨v, hv⟩ := mem_vars_iff.1 hwe.1
        have hvm : v ∉ t0 :: ts := fun hm => by
          have := (hmem v w hv).1 hm
          rcases List.mem_cons.1 this with rfl | h'
          · exact e rfl
          · exact hwe.2 h'
        obtain ⟨k1, k2⟩ := hk v w hv hvm
        have : q p = v - ts.countP (fun p => decide (p < v)) :=
          hp.inj (hq1 p hp') k1 (varOfDim_inj hn hqw k2)
        have hv' := varOfDim_lt hv
        rw [this, hxk v (hdim ▸ hv') (fun h => hvm (by simp [h])) (fun h => hvm (by simp [h])),
          ← hσ v hv', pt_eq _ hv]

end Abs1
end Apron
