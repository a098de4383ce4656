import Verif.Props.Level1Fold
import Verif.Props.BoxResize
import Verif.Props.Box
import Verif.Props.BoxOps
import Verif.Props.OctResize
import Verif.Props.OctLattice

/-!
# Level-1 values of boxes and octagons

The box and octagon domains keep the promises `Man.Spec`, so that the properties C70-C76 hold of them.
-/

set_option autoImplicit false
set_option linter.unusedSectionVars false
set_option linter.ambiguousOpen false

namespace Apron
namespace Props

variable {K : Type*} [LinearOrder K] [Field K] [IsStrictOrderedRing K]

theorem length_le_of_range {l : List ℕ} (hl : l.Nodup) {lo hi : ℕ} (h : ∀ d ∈ l, lo ≤ d ∧ d < hi) :
    l.length ≤ hi - lo := by
  have h1 : l.toFinset ⊆ Finset.Ico lo hi := fun d hd => Finset.mem_Ico.2 (h d (List.mem_toFinset.1 hd))
  have h2 := Finset.card_le_card h1
  rwa [List.toFinset_card_of_nodup hl, Nat.card_Ico] at h2

theorem legalRemove_counts {i r n : ℕ} {pos : List ℕ} (hn : n ≤ pos.length) (h : Dim.LegalRemove i r pos n) :
    n ≤ i ∧ pos.length - n ≤ r := by
  obtain ⟨h1, h2, h3, h4⟩ := h
  have hnd : pos.Nodup := h1.imp fun h => ne_of_lt h
  have a := length_le_of_range (lo := 0) (hi := i) (hnd.sublist (List.take_sublist n pos))
    (fun d hd => ⟨Nat.zero_le _, h3 d hd⟩)
  have b := length_le_of_range (lo := i) (hi := i + r) (hnd.sublist (List.drop_sublist n pos))
    (fun d hd => ⟨h4 d hd, h2 d (List.mem_of_mem_drop hd)⟩)
  simp only [List.length_take, List.length_drop] at a b
  omega

/-! ## Boxes -/

/-- the manager of boxes: box/box_internal.c:70-140; `destructive` is the flag passed to the functions -/
def boxMan (destructive : Bool) : Man K (Box K) where
  intdim := Box.intdim
  realdim := Box.realdim
  Gam := Box.Gam
  top := Box.top
  add a pos n project := Box.addDimensions a destructive pos n project
  remove a pos n := Box.removeDimensions a destructive pos n
  permute a perm := Box.permuteDimensions a (fun v => perm.getD v 0)
  meet := Box.meet
  join := Box.join
  expand a d n := Box.expand a destructive d n
  fold := Box.fold
  forget := Box.forgetArray
  unconstrained := Box.isDimUnconstrained

theorem box_meet_dims (a b : Box K) : (a.meet b).intdim = a.intdim ∧ (a.meet b).realdim = a.realdim := by
  unfold Box.meet Box.setBottom; split
  · split_ifs <;> exact ⟨rfl, rfl⟩
  · exact ⟨rfl, rfl⟩

theorem box_join_dims (a b : Box K) : (a.join b).intdim = a.intdim ∧ (a.join b).realdim = a.realdim := by
  unfold Box.join; split <;> exact ⟨rfl, rfl⟩

theorem box_forget_dims (a : Box K) (tdim : List ℕ) (project : Bool) :
    (a.forgetArray tdim project).intdim = a.intdim ∧ (a.forgetArray tdim project).realdim = a.realdim := by
  unfold Box.forgetArray; split <;> exact ⟨rfl, rfl⟩

theorem boxSpec (destructive : Bool) : (boxMan (K := K) destructive).Spec Box.Wf True where
  congr a _ x y h hx := by
    change Box.Gam a x at hx
    change Box.Gam a y
    rcases a with ⟨_ | p, i, r⟩
    · exact absurd hx (by simp [Box.Gam])
    · rw [Box.gam_mk] at hx ⊢
      intro j hj
      rw [← h j hj]; exact hx j hj
  top i r := ⟨fun p hp j hj => ⟨0, by
    simp only [boxMan, Box.top, Option.some.injEq] at hp
    rw [← hp]; exact Itv.mem_top 0⟩, ⟨rfl, rfl⟩, fun x => (C10_bottom_top i r x).2⟩
  add a pos n project ha hne hn h := by
    obtain ⟨h1, h2, _, _⟩ := h
    exact ⟨C21_add_wf a ha destructive pos h1 h2 n hn project, C21_add_dims a destructive pos n project,
      C21_add_exact a destructive pos h1 h2 n hn project⟩
  remove a pos n ha hne hn h := by
    obtain ⟨c1, c2⟩ := legalRemove_counts hn h
    obtain ⟨h1, h2, _, _⟩ := h
    have hex := C21_remove_exact a ha destructive pos h1 h2 n hn c1 c2
    exact ⟨C21_remove_wf a ha destructive pos h1 h2 n hn c1 c2, C21_remove_dims a destructive pos n,
      fun x x' hx hk => (hex x').2 ⟨x, hx, hk⟩, fun _ x' hx' => (hex x').1 hx'⟩
  permute a perm ha hp :=
    ⟨C21_permute_wf a ha _ (fun i j hi hj => hp.inj hi hj) (fun i hi => hp.getD_lt hi), C21_permute_dims a _,
      C21_permute_exact a _ (fun i j hi hj => hp.inj hi hj) (fun i hi => hp.getD_lt hi)⟩
  meet a b ha hb hd := by
    have hd' : a.dim = b.dim := by
      have h1 := hd.1; have h2 := hd.2
      simp only [boxMan] at h1 h2
      simp [Box.dim, h1, h2]
    exact ⟨C11_meet_wf a b ha hb hd', box_meet_dims a b, C11_meet a b ha hb hd'⟩
  join a b ha hb hd := by
    have hd' : a.dim = b.dim := by
      have h1 := hd.1; have h2 := hd.2
      simp only [boxMan] at h1 h2
      simp [Box.dim, h1, h2]
    refine ⟨C11_join_wf a b ha hb hd', box_join_dims a b, C11_join_upper a b hd', fun _ c _ hc hall =>
      C11_join_least a b c ha hb hd' ?_ (fun x hx => hall x (Or.inl hx)) (fun x hx => hall x (Or.inr hx))⟩
    have h1 := hc.1; have h2 := hc.2
    simp only [boxMan] at h1 h2
    simp [Box.dim, h1, h2]
  expand a d n ha hd hn :=
    ⟨C22_expand_wf a ha destructive d n hd, C22_expand_dims a destructive d n,
      C22_expand_exact a destructive d n hd⟩
  fold a d ts ha hne hs hlt hty := by
    refine ⟨C22_fold_wf a ha d ts hne hs hlt hty, C22_fold_dims a d ts, fun x x' t hx ht h0 hk =>
      C22_fold_sound a ha d ts hne hs hlt hty x x' hx t ht h0 hk, fun _ c _ hc hall =>
      C22_fold_least a ha d ts hne hs hlt hty c ?_ (fun x x' t ht hx h0 hk => hall x x' t hx ht h0 hk)⟩
    have h1 : c.intdim = if d < a.intdim then a.intdim - ts.length else a.intdim := hc.1
    have h2 : c.realdim = if d < a.intdim then a.realdim else a.realdim - ts.length := hc.2
    have hl := length_le_of_range (lo := 0) (hi := a.dim) (l := d :: ts) (hs.imp fun h => ne_of_lt h)
      (fun t ht => ⟨Nat.zero_le _, hlt t ht⟩)
    have hts : ts.Nodup := (List.nodup_cons.1 (hs.imp fun h => ne_of_lt h)).2
    by_cases hd : d < a.intdim
    · have := length_le_of_range (lo := 0) (hi := a.intdim) hts
        (fun t ht => ⟨Nat.zero_le _, (hty t ht).2 hd⟩)
      rw [if_pos hd] at h1 h2
      simp only [Box.dim, h1, h2]; omega
    · have := length_le_of_range (lo := a.intdim) (hi := a.dim) hts
        (fun t ht => ⟨not_lt.1 fun h => hd ((hty t ht).1 h), hlt t (by simp [ht])⟩)
      rw [if_neg hd] at h1 h2
      simp only [Box.dim, h1, h2] at this ⊢; omega
  forget a tdim project ha hlt := by
    have hex := C22_forget_exact a ha tdim project
    refine ⟨C22_forget_wf a ha tdim project, box_forget_dims a tdim project, fun x x' hx hk hz =>
      (hex x').2 ⟨x, hx, hk, fun hp v hv _ => hz hp v hv⟩, fun _ x' hx' => ?_⟩
    obtain ⟨x, h1, h2, h3⟩ := (hex x').1 hx'
    exact ⟨⟨x, h1, h2⟩, fun hp v hv => h3 hp v hv (hlt v hv)⟩
  unconstrained a d ha hd h := ((C10_is_dimension_unconstrained a ha d hd).1 h).2

/-! ## Octagons -/

variable (R : Rnd K)

/-- the manager of octagons: octagons/oct_internal.c; `algo` is `man->option.funopt[..].algorithm`, `u` the
content of fresh memory -/
def octMan (algo : ℤ) (u : Oct.Mem K) : Man K (OctT K) where
  intdim := OctT.intdim
  realdim a := a.dim - a.intdim
  Gam := OctT.Gam
  top i r := OctT.top (i + r) i
  add a pos n project := OctT.addDimensions a pos n project
  remove a pos n := OctT.removeDimensions R algo u a pos n
  permute a perm := OctT.permuteDimensions u a (fun v => perm.getD v 0)
  meet := OctT.meet
  join := OctT.join R algo
  expand := OctT.expand
  fold := OctT.fold R algo
  forget := OctT.forgetArray R algo
  unconstrained := OctT.isDimensionUnconstrained

theorem oct_meet_dims (a b : OctT K) : (OctT.meet a b).dim = a.dim ∧ (OctT.meet a b).intdim = a.intdim := by
  unfold OctT.meet OctT.bottom; split <;> exact ⟨rfl, rfl⟩

theorem oct_permute_dims (u : Oct.Mem K) (a : OctT K) (perm : ℕ → ℕ) :
    (OctT.permuteDimensions u a perm).dim = a.dim ∧ (OctT.permuteDimensions u a perm).intdim = a.intdim := by
  unfold OctT.permuteDimensions OctT.bottom; split
  · exact ⟨rfl, rfl⟩
  · simp only []; split_ifs <;> exact ⟨rfl, rfl⟩

theorem oct_join_dims (algo : ℤ) (a b : OctT K) :
    (OctT.join R algo a b).dim = a.dim ∧ (OctT.join R algo a b).intdim = a.intdim := by
  have h1 := OctT.cacheIf_dim R algo a
  have h2 := OctT.cacheIf_intdim R algo a
  unfold OctT.join OctT.bottom
  simp only []
  split
  · exact ⟨h1, h2⟩
  · exact ⟨h1, h2⟩
  · exact ⟨h1, h2⟩
  · split_ifs <;> exact ⟨h1, h2⟩

/-- octagons keep the promises, whatever the rounding of bounds (without exactness) -/
theorem octSpec (algo : ℤ) (u : Oct.Mem K) : (octMan R algo u).Spec (fun a => a.intdim ≤ a.dim) False where
  congr a _ x y h hx := by
    by_cases hd : a.intdim ≤ a.dim
    · exact (OctT.gam_congr fun v hv => h v (by simp only [octMan, Man.dim]; omega)).1 hx
    · exact (OctT.gam_congr fun v hv => h v (by simp only [octMan, Man.dim]; omega)).1 hx
  top i r := ⟨by simp [octMan, OctT.top], ⟨rfl, by simp [octMan, OctT.top]⟩, fun x => OctT.gam_top _ _ x⟩
  add a pos n project ha hne hn h := by
    obtain ⟨h1, h2, _, _⟩ := h
    have hd : a.intdim + (a.dim - a.intdim) = a.dim := by omega
    obtain ⟨d1, d2⟩ := C38_add_dims a pos n project
    refine ⟨?_, ⟨d2, ?_⟩, C38_add_exact a pos hne h1 (fun q hq => hd ▸ h2 q hq) n project⟩
    · show (OctT.addDimensions a pos n project).intdim ≤ (OctT.addDimensions a pos n project).dim
      rw [d1, d2]; omega
    · show (OctT.addDimensions a pos n project).dim - (OctT.addDimensions a pos n project).intdim = _
      simp only [octMan, d1, d2]; omega
  remove a pos n ha hne hn h := by
    have hd : a.intdim + (a.dim - a.intdim) = a.dim := by omega
    obtain ⟨c1, c2⟩ := legalRemove_counts hn h
    obtain ⟨h1, h2, _, _⟩ := h
    obtain ⟨d1, d2⟩ := C38_remove_dims R algo u a pos n
    simp only [octMan] at c1 c2
    refine ⟨?_, ⟨d2, ?_⟩, fun x x' hx hk => C38_remove_sound R algo u a pos hne h1 (fun q hq => hd ▸ h2 q hq)
      n x x' hx (fun v hv => hk v (by simp only [octMan, Man.dim]; omega)), False.elim⟩
    · show (OctT.removeDimensions R algo u a pos n).intdim ≤ (OctT.removeDimensions R algo u a pos n).dim
      rw [d1, d2]; omega
    · show (OctT.removeDimensions R algo u a pos n).dim - (OctT.removeDimensions R algo u a pos n).intdim = _
      simp only [octMan, d1, d2]; omega
  permute a perm ha hp := by
    have hd : (octMan R algo u).dim a = a.dim := by simp only [octMan, Man.dim]; omega
    rw [hd] at hp
    obtain ⟨d1, d2⟩ := oct_permute_dims u a (fun v => perm.getD v 0)
    refine ⟨?_, ⟨d2, ?_⟩, C38_permute_exact u a _ (fun i j hi hj => hp.inj hi hj) (fun i hi => hp.getD_lt hi)⟩
    · show (OctT.permuteDimensions u a fun v => perm.getD v 0).intdim ≤ (OctT.permuteDimensions u a fun v => perm.getD v 0).dim
      rw [d1, d2]; exact ha
    · show (OctT.permuteDimensions u a fun v => perm.getD v 0).dim -
        (OctT.permuteDimensions u a fun v => perm.getD v 0).intdim = _
      rw [d1, d2]; rfl
  meet a b ha hb hd := by
    obtain ⟨e1, e2⟩ := hd
    simp only [octMan] at e1 e2
    obtain ⟨d1, d2⟩ := oct_meet_dims a b
    refine ⟨?_, ⟨d2, ?_⟩, C31_meet_exact a b (by omega)⟩
    · show (OctT.meet a b).intdim ≤ (OctT.meet a b).dim
      rw [d1, d2]; exact ha
    · show (OctT.meet a b).dim - (OctT.meet a b).intdim = _
      rw [d1, d2]; rfl
  join a b ha hb hd := by
    obtain ⟨e1, e2⟩ := hd
    simp only [octMan] at e1 e2
    obtain ⟨d1, d2⟩ := oct_join_dims R algo a b
    refine ⟨?_, ⟨d2, ?_⟩, C32_join_sound R algo a b (by omega), False.elim⟩
    · show (OctT.join R algo a b).intdim ≤ (OctT.join R algo a b).dim
      rw [d1, d2]; exact ha
    · show (OctT.join R algo a b).dim - (OctT.join R algo a b).intdim = _
      rw [d1, d2]; rfl
  expand a d n ha hd hn := by
    have he : a.intdim + (a.dim - a.intdim) = a.dim := by omega
    obtain ⟨d1, d2⟩ := C39_expand_dims a d n
    refine ⟨?_, ⟨d2, ?_⟩, fun x => ?_⟩
    · show (OctT.expand a d n).intdim ≤ (OctT.expand a d n).dim
      rw [d1, d2]; split_ifs <;> omega
    · show (OctT.expand a d n).dim - (OctT.expand a d n).intdim = _
      rw [d1, d2]
      show _ = if d < a.intdim then a.dim - a.intdim else a.dim - a.intdim + n
      split_ifs <;> omega
    · have hoff : (octMan R algo u).off a d = if d < a.intdim then a.intdim else a.dim := by
        simp only [Man.off, octMan, Man.dim, he]
      rw [hoff]
      exact C39_expand_exact a d n (by have : d < a.intdim + (a.dim - a.intdim) := hd; omega) ha x
  fold a d ts ha hne hs hlt hty := by
    have he : a.intdim + (a.dim - a.intdim) = a.dim := by omega
    obtain ⟨d1, d2⟩ := C39_fold_dims R algo a d ts
    have hlt' : ∀ t ∈ d :: ts, t < a.dim := fun t ht => by
      have : t < a.intdim + (a.dim - a.intdim) := hlt t ht
      omega
    have hts : ts.Nodup := (List.nodup_cons.1 (hs.imp fun h => ne_of_lt h)).2
    have hcnt : (d < a.intdim → ts.length ≤ a.intdim) ∧ (¬ d < a.intdim → ts.length ≤ a.dim - a.intdim) := by
      constructor
      · intro hd
        have := length_le_of_range (lo := 0) (hi := a.intdim) hts
          (fun t ht => ⟨Nat.zero_le _, (hty t ht).2 hd⟩)
        omega
      · intro hd
        exact length_le_of_range (lo := a.intdim) (hi := a.dim) hts
          (fun t ht => ⟨not_lt.1 fun h => hd ((hty t ht).1 h), hlt' t (by simp [ht])⟩)
    refine ⟨?_, ⟨d2, ?_⟩, fun x x' t hx ht h0 hk => C39_fold_sound R algo a d ts hne hs hlt' x x' hx t ht h0
      (fun v hv => hk v (by simp only [octMan, Man.dim]; omega)), False.elim⟩
    · show (OctT.fold R algo a d ts).intdim ≤ (OctT.fold R algo a d ts).dim
      rw [d1, d2]; split_ifs with h
      · omega
      · have := hcnt.2 h; omega
    · show (OctT.fold R algo a d ts).dim - (OctT.fold R algo a d ts).intdim = _
      rw [d1, d2]
      show _ = if d < a.intdim then a.dim - a.intdim else a.dim - a.intdim - ts.length
      split_ifs with h
      · have := hcnt.1 h; omega
      · have := hcnt.2 h; omega
  forget a tdim project ha hlt := by
    obtain ⟨d1, d2⟩ := C37_forget_dims R algo a tdim project
    refine ⟨?_, ⟨d2, ?_⟩, fun x x' hx hk hz => C37_forget_sound R algo a tdim project x x' hx
      (fun v hv => hk v (by simp only [octMan, Man.dim]; omega)) (fun hp v _ hv => hz hp v hv), False.elim⟩
    · show (OctT.forgetArray R algo a tdim project).intdim ≤ (OctT.forgetArray R algo a tdim project).dim
      rw [d1, d2]; exact ha
    · show (OctT.forgetArray R algo a tdim project).dim - (OctT.forgetArray R algo a tdim project).intdim = _
      rw [d1, d2]; rfl
  unconstrained a d ha hd h x y hx := by
    have hd' : d < a.dim := by
      have : d < a.intdim + (a.dim - a.intdim) := hd
      omega
    exact (C30_unconstrained_exact a d hd' x hx).1 h x y hx

/-- with exact arithmetic, octagons are exact -/
theorem octSpecExact (algo : ℤ) (halgo : 0 ≤ algo) (u : Oct.Mem K) :
    (octMan Rnd.exact algo u).Spec (fun a => OctT.Wf a ∧ a.intdim ≤ a.dim) True := by
  have S := octSpec (Rnd.exact : Rnd K) algo u
  have hdim : ∀ a : OctT K, a.intdim ≤ a.dim → (octMan Rnd.exact algo u).dim a = a.dim := fun a ha => by
    simp only [octMan, Man.dim]; omega
  refine ⟨fun a ha => S.congr a ha.2, fun i r => ⟨⟨OctT.wf_top _ _, (S.top i r).1⟩, (S.top i r).2⟩, ?_, ?_, ?_, ?_, ?_, ?_, ?_, ?_,
    fun a d ha => S.unconstrained a d ha.2⟩
  · intro a pos n project ha hne hn h
    have s := S.add a pos n project ha.2 hne hn h
    refine ⟨⟨OctT.wf_addDimensions ha.1 hne h.1 (fun q hq => ?_) n project, s.1⟩, s.2⟩
    exact hdim a ha.2 ▸ h.2.1 q hq
  · intro a pos n ha hne hn h
    have s := S.remove a pos n ha.2 hne hn h
    have hlt : ∀ q ∈ pos, q < a.dim := fun q hq => hdim a ha.2 ▸ h.2.1 q hq
    refine ⟨⟨OctT.wf_removeDimensions algo u ha.1 hne h.1 hlt n, s.1⟩, s.2.1, s.2.2.1, fun _ x' hx' => ?_⟩
    rw [hdim a ha.2]
    exact (C38_remove_exact algo halgo u a ha.1 pos hne h.1 hlt n x').1 hx'
  · intro a perm ha hp
    have s := S.permute a perm ha.2 hp
    rw [hdim a ha.2] at hp
    exact ⟨⟨OctT.wf_permuteDimensions u ha.1 (fun i j hi hj => hp.inj hi hj) (fun i hi => hp.getD_lt hi), s.1⟩,
      s.2⟩
  · intro a b ha hb hd
    have s := S.meet a b ha.2 hb.2 hd
    obtain ⟨e1, e2⟩ := hd
    simp only [octMan] at e1 e2
    have hd' : a.dim = b.dim := by have := ha.2; have := hb.2; omega
    exact ⟨⟨OctT.wf_meet ha.1 hb.1 hd', s.1⟩, s.2⟩
  · intro a b ha hb hd
    have s := S.join a b ha.2 hb.2 hd
    obtain ⟨e1, e2⟩ := hd
    simp only [octMan] at e1 e2
    have hd' : a.dim = b.dim := by have := ha.2; have := hb.2; omega
    refine ⟨⟨OctT.wf_join algo ha.1 hb.1 hd', s.1⟩, s.2.1, s.2.2.1, fun _ c hc hcd hall =>
      C32_join_least algo halgo a b c ha.1 hb.1 hd' ?_ (fun x hx => hall x (Or.inl hx))
        (fun x hx => hall x (Or.inr hx))⟩
    obtain ⟨e1, e2⟩ := hcd
    simp only [octMan] at e1 e2
    have := ha.2; have := hc.2; omega
  · intro a d n ha hd hn
    have s := S.expand a d n ha.2 hd hn
    rw [hdim a ha.2] at hd
    exact ⟨⟨OctT.wf_expand hd ha.2 ha.1, s.1⟩, s.2⟩
  · intro a d ts ha hne hs hlt hty
    have s := S.fold a d ts ha.2 hne hs hlt hty
    have hlt' : ∀ t ∈ d :: ts, t < a.dim := fun t ht => hdim a ha.2 ▸ hlt t ht
    refine ⟨⟨OctT.wf_fold algo ha.1 hs hlt' hne, s.1⟩, s.2.1, s.2.2.1, fun _ c hc hcd hall =>
      C39_fold_least algo halgo a ha.1 d ts hne hs hlt' c ?_ (fun x x' t ht hx h0 hk =>
        hall x x' t hx ht h0 (by rw [hdim a ha.2]; exact hk))⟩
    have hsd := s.2.1
    have e1 := hcd.1.trans hsd.1.symm
    have e2 := hcd.2.trans hsd.2.symm
    have d1 := (C39_fold_dims (Rnd.exact : Rnd K) algo a d ts).1
    have i1 : (OctT.fold Rnd.exact algo a d ts).intdim ≤ (OctT.fold Rnd.exact algo a d ts).dim := s.1
    have e1' : c.intdim = (OctT.fold Rnd.exact algo a d ts).intdim := e1
    have e2' : c.dim - c.intdim =
      (OctT.fold Rnd.exact algo a d ts).dim - (OctT.fold Rnd.exact algo a d ts).intdim := e2
    have := hc.2
    omega
  · intro a tdim project ha hlt
    have s := S.forget a tdim project ha.2 hlt
    refine ⟨⟨OctT.wf_forgetArray algo ha.1 tdim project, s.1⟩, s.2.1, s.2.2.1, fun _ x' hx' => ?_⟩
    rw [hdim a ha.2] at hlt ⊢
    obtain ⟨h1, h2⟩ := (C37_forget_exact algo halgo a ha.1 tdim project x').1 hx'
    exact ⟨h1, fun hp v hv => h2 hp v (hlt v hv) hv⟩

/-! ## Examples -/

open Env Abs1

/-- two integer variables 1 and 5, two real ones 2 and 3 -/
def exEnv1 : Env ℕ := ⟨[1, 5], [2, 3]⟩

theorem exEnv1_wf : exEnv1.Wf := ⟨by decide, by decide, by decide⟩

/-- variable of dimension `i` in `[i, i + 1]` -/
def exAbs1 : Abs1 ℕ (Box ℚ) := ⟨exEnv1, ⟨some fun i => ⟨.fin (-(i : ℚ)), .fin (i + 1)⟩, 2, 2⟩⟩

theorem exAbs1_wf : Abs1.Wf (boxMan false) Box.Wf exAbs1 :=
  ⟨exEnv1_wf, by simp [exAbs1, exEnv1, Env.size, intdim, realdim, dimMax], fun p hp i _ => ⟨(i : ℚ), by
    simp only [exAbs1, Option.some.injEq] at hp
    rw [← hp]; simp [Itv.mem_def]⟩, rfl, rfl⟩

theorem exAbs1_gam : Gam (boxMan false) exAbs1 (fun v => if v = 1 then 0 else if v = 5 then 1 else v) := by
  show Box.Gam _ _
  refine Box.gam_mk.2 fun i hi => ?_
  have : i = 0 ∨ i = 1 ∨ i = 2 ∨ i = 3 := by
    change i < 2 + 2 at hi; omega
  rcases this with rfl | rfl | rfl | rfl <;>
    simp [exAbs1, exEnv1, pt, varOfDim, vars, Itv.mem_def]

/-- an octagon with an integer and a real variable, and its environment -/
def exAbs1o : Abs1 ℕ (OctT ℚ) := ⟨⟨[7], [4]⟩, OctT.top 2 1⟩

theorem exAbs1o_wf : Abs1.Wf (octMan (Rnd.exact : Rnd ℚ) 0 (fun _ => .pinf))
    (fun a => OctT.Wf a ∧ a.intdim ≤ a.dim) exAbs1o :=
  ⟨⟨by decide, by decide, by decide⟩, by simp [exAbs1o, Env.size, intdim, realdim, dimMax],
    ⟨OctT.wf_top _ _, by decide⟩, rfl, rfl⟩

example (Q : Qsort ℕ) : ∃ r, expand (boxMan false) Q 0 exAbs1 5 [4, 9] = .ok (r, false) ∧
    ∀ ρ : ℕ → ℚ, Gam (boxMan false) r ρ ↔ ∀ y ∈ [5, 4, 9], Gam (boxMan false) exAbs1 (Function.update ρ 5 (ρ y)) := by
  obtain ⟨r, h1, _, _, _, h2⟩ := (C73_expand (boxSpec false) Q 0 exAbs1 exAbs1_wf 5 [4, 9]
    (by simp [exAbs1, exEnv1, Env.size, intdim, realdim, dimMax])).2.2 (by simp) (by decide) (by decide) (by decide)
  exact ⟨r, h1, h2⟩

/-- folding where the kept variable is not the first one -/
example : ∃ r, Abs1.fold (boxMan false) exAbs1 [3, 2] = .ok (r, false) ∧ r.env = ⟨[1, 5], [3]⟩ := by
  obtain ⟨r, h1, _, h2, _⟩ := (C74_fold_partial (boxSpec false) exAbs1 exAbs1_wf 3 [2] (by simp)).2
    (by decide) (by decide) (Or.inr (by decide))
  exact ⟨r, h1, by rw [h2]; decide⟩

theorem exCompat : ¬ Incompatible exAbs1.env (⟨[5], [2, 8]⟩ : Env ℕ) := by
  rintro ⟨v, ⟨h1, h2⟩ | ⟨h1, h2⟩⟩ <;> simp [exAbs1, exEnv1] at h1 h2 <;> omega

/-- 1 and 3 are forgotten, 8 is new -/
example : ∃ r, changeEnvironment (boxMan false) 0 exAbs1 ⟨[5], [2, 8]⟩ true = .ok (r, false) ∧
    ∀ ρ : ℕ → ℚ, Gam (boxMan false) r ρ → ρ 8 = 0 := by
  obtain ⟨r, h1, _, _, _, h2⟩ := (C70_change_environment (boxSpec false) 0 exAbs1 exAbs1_wf ⟨[5], [2, 8]⟩
    ⟨by decide, by decide, by decide⟩ (by simp [Env.size, intdim, realdim, dimMax]) true).2 exCompat
  exact ⟨r, h1, fun ρ hρ => (h2 trivial ρ hρ).2 rfl 8 (by decide) (by decide)⟩

example : ∃ r, minimizeEnvironment (boxMan false) 0 exAbs1 = .ok (r, false) ∧
    Gam (boxMan false) r (fun v => if v = 1 then 0 else if v = 5 then 1 else v) := by
  obtain ⟨r, h, _, _, _, h1, _⟩ := C70_minimize_environment (boxSpec false) 0 exAbs1 exAbs1_wf
  exact ⟨r, h, h1 _ exAbs1_gam⟩

/-- exchange of two names -/
example (Q : Qsort ℕ) : ∃ r, renameArray (boxMan false) Q 0 exAbs1 [(2, 3), (3, 2)] = .ok (r, false) := by
  obtain ⟨r, h, _⟩ := (C71_rename (boxSpec false) Q 0 exAbs1 exAbs1_wf [(2, 3), (3, 2)]).1
    ⟨by decide, by decide⟩
  exact ⟨r, h⟩

/-- an undefined name -/
example (Q : Qsort ℕ) : renameArray (boxMan false) Q 0 exAbs1 [(4, 6)] = .ok (Abs1.top (boxMan false) exEnv1, true) :=
  (C71_rename (boxSpec false) Q 0 exAbs1 exAbs1_wf [(4, 6)]).2 (fun h => absurd (h.1 (4, 6) (by simp)) (by decide))

example : ∃ r, unify (boxMan false) 0 false exAbs1 ⟨⟨[5], [2, 8]⟩, Box.top 1 2⟩ = .ok (r, false) ∧
    Gam (boxMan false) r (fun v => if v = 1 then 0 else if v = 5 then 1 else v) := by
  obtain ⟨r, h, _, _, _, h1⟩ := (C72_unify (boxSpec false) 0 false exAbs1 ⟨⟨[5], [2, 8]⟩, Box.top 1 2⟩ exAbs1_wf
    (wf_top (boxSpec false) ⟨by decide, by decide, by decide⟩ (by simp [Env.size, intdim, realdim, dimMax]))
    (by simp) (by simp [exAbs1, exEnv1, Env.size, intdim, realdim, dimMax])).2 exCompat
  exact ⟨r, h, (h1 _).2 ⟨exAbs1_gam, ((boxSpec (K := ℚ) false).top 1 2).2.2 _⟩⟩

example : Gam (boxMan false) (forgetArray (boxMan false) exAbs1 [5, 3] false).1
    (fun v => if v = 1 then 0 else if v = 5 then 100 else v) := by
  refine ((C75_forget (boxSpec false) exAbs1 exAbs1_wf [5, 3] false).2 (by decide)).2.2.2.1 _ _ exAbs1_gam
    (fun v _ hv => ?_) (by simp)
  have : v ≠ 5 := fun h => hv (by simp [h])
  simp [this]

example (ρ : ℕ → ℚ) : Gam (octMan (Rnd.exact : Rnd ℚ) 0 (fun _ => .pinf))
    (meetjoin (octMan (Rnd.exact : Rnd ℚ) 0 (fun _ => .pinf)) OctT.meet false exAbs1o exAbs1o).1 ρ ↔
    Gam (octMan (Rnd.exact : Rnd ℚ) 0 (fun _ => .pinf)) exAbs1o ρ := by
  have := ((C72_meet (octSpecExact 0 le_rfl _) false exAbs1o exAbs1o exAbs1o_wf exAbs1o_wf (by simp)).1 rfl).2.2.2 ρ
  rw [and_self_iff] at this
  exact this

/-! ## Defects -/

/-- C74: folding an integer variable and a real one: the exception is raised, but the value returned has
one real dimension whereas its environment has one integer variable. -/
theorem C74_fold_mixed_types : ∃ a : Abs1 ℕ (Box ℚ), Abs1.Wf (boxMan false) Box.Wf a ∧
    (∀ v ∈ [1, 2], v ∈ a.env.vars) ∧
    ∃ r, Abs1.fold (boxMan false) a [1, 2] = .ok (r, true) ∧
      ¬ (boxMan false).Dims r.val r.env.intdim r.env.realdim := by
  refine ⟨⟨⟨[1], [2]⟩, Box.top 1 1⟩, wf_top (boxSpec false) ⟨by decide, by decide, by decide⟩
    (by simp [Env.size, intdim, realdim, dimMax]), by decide, ?_⟩
  have h : (match Abs1.fold (boxMan false) (⟨⟨[1], [2]⟩, Box.top 1 1⟩ : Abs1 ℕ (Box ℚ)) [1, 2] with
    | .ok (r, e) => e && decide (r.val.intdim = 0) && decide (r.env.intdim = 1)
    | _ => false) = true := by decide +kernel
  rcases hf : Abs1.fold (boxMan false) (⟨⟨[1], [2]⟩, Box.top 1 1⟩ : Abs1 ℕ (Box ℚ)) [1, 2] with
    ⟨r, e⟩ | _ | _ | _
  · rw [hf] at h
    simp only [Bool.and_eq_true, decide_eq_true_eq] at h
    obtain ⟨⟨rfl, h1⟩, h2⟩ := h
    refine ⟨r, rfl, fun hd => ?_⟩
    have : r.val.intdim = r.env.intdim := hd.1
    omega
  all_goals · rw [hf] at h; simp at h

end Props
end Apron
