import Verif.Core.LinexprLemmas
import Verif.Props.BoxResize
import Verif.Props.OctResize

/-!
# Dimension changes, permutations and their validation: properties C44, C45, C53, C67
-/

set_option autoImplicit false
set_option linter.unusedSectionVars false
set_option linter.ambiguousOpen false

namespace Apron
open Dim OctT
variable {K : Type*} [LinearOrder K] [Field K] [IsStrictOrderedRing K]

/-! ## C44: permutations -/

/-- `ap_dimperm_invert` of a permutation is the inverse permutation, whatever the result array held -/
theorem C44_invert {n : ℕ} {perm nperm : List ℕ} (h : IsPerm n perm) (hn : nperm.length = n) :
    ∃ q, invert nperm perm = some q ∧ IsPerm n q ∧
      (∀ i, i < n → q.getD (perm.getD i 0) 0 = i) ∧ (∀ i, i < n → perm.getD (q.getD i 0) 0 = i) := by
  obtain ⟨q, hq, hl, h1, -⟩ := invertFrom_spec perm 0 nperm (fun d hd => by rw [hn]; exact h.2.1 d hd) h.2.2
  have e1 : ∀ i, i < n → q.getD (perm.getD i 0) 0 = i := fun i hi => by
    rw [h1 i (by rw [h.1]; exact hi)]; omega
  have e2 : ∀ i, i < n → perm.getD (q.getD i 0) 0 = i ∧ q.getD i 0 < n := fun i hi => by
    obtain ⟨k, hk, rfl⟩ := h.surj hi
    rw [e1 k hk]; exact ⟨rfl, hk⟩
  refine ⟨q, hq, isPerm_of (by omega) (fun i hi => (e2 i hi).2) fun i j hi hj e => ?_, e1,
    fun i hi => (e2 i hi).1⟩
  rw [← (e2 i hi).1, e, (e2 j hj).1]

/-- two inversions give the permutation back -/
theorem C44_invert_invert {n : ℕ} {perm r1 r2 q : List ℕ} (h : IsPerm n perm) (h1 : r1.length = n)
    (h2 : r2.length = n) (hq : invert r1 perm = some q) : invert r2 q = some perm := by
  obtain ⟨q', e, hp, e1, e2⟩ := C44_invert h h1
  rw [e] at hq; cases hq
  obtain ⟨r, f, hr, f1, f2⟩ := C44_invert hp h2
  rw [f]
  congr 1
  refine List.ext_getElem? fun i => ?_
  by_cases hi : i < n
  · have : r.getD i 0 = perm.getD i 0 := by
      apply hp.inj (hr.getD_lt hi) (h.getD_lt hi)
      rw [f2 i hi, e1 i hi]
    rwa [List.getD, List.getD, List.getElem?_eq_getElem (by rw [hr.1]; exact hi),
      List.getElem?_eq_getElem (by rw [h.1]; exact hi), Option.getD_some, Option.getD_some, ← Option.some_inj,
      ← List.getElem?_eq_getElem, ← List.getElem?_eq_getElem] at this
  · rw [List.getElem?_eq_none (by rw [hr.1]; omega), List.getElem?_eq_none (by rw [h.1]; omega)]

/-- `ap_dimperm_compose`: the result sends `i` where the second permutation sends its image by the
first -/
theorem C44_compose {n : ℕ} {p q : List ℕ} (hp : IsPerm n p) (hq : IsPerm n q) :
    ∃ r, compose p q = some r ∧ IsPerm n r ∧ ∀ i, i < n → r.getD i 0 = q.getD (p.getD i 0) 0 := by
  refine ⟨p.map fun d => q.getD d 0, compose_eq fun d hd => by rw [hq.1]; exact hp.2.1 d hd, ?_⟩
  have e : ∀ i, i < n → (p.map fun d => q.getD d 0).getD i 0 = q.getD (p.getD i 0) 0 := by
    intro i hi
    have hi' : i < p.length := by rw [hp.1]; exact hi
    simp [List.getD, List.getElem?_eq_getElem hi']
  refine ⟨isPerm_of (by rw [List.length_map, hp.1]) (fun i hi => ?_) (fun i j hi hj h => ?_), e⟩
  · rw [e i hi]; exact hq.getD_lt (hp.getD_lt hi)
  · rw [e i hi, e j hj] at h
    exact hp.inj hi hj (hq.inj (hp.getD_lt hi) (hp.getD_lt hj) h)

/-- composing a permutation with its inverse, in either order, is the identity -/
theorem C44_compose_invert {n : ℕ} {p r q : List ℕ} (hp : IsPerm n p) (hr : r.length = n)
    (hq : invert r p = some q) : compose p q = some (setId n) ∧ compose q p = some (setId n) := by
  obtain ⟨q', e, hp', e1, e2⟩ := C44_invert hp hr
  rw [e] at hq; cases hq
  have key : ∀ {a b : List ℕ}, IsPerm n a → IsPerm n b → (∀ i, i < n → b.getD (a.getD i 0) 0 = i) →
      compose a b = some (setId n) := by
    intro a b ha hb h
    rw [compose_eq fun d hd => by rw [hb.1]; exact ha.2.1 d hd]
    congr 1
    refine List.ext_getElem (by simp [setId, ha.1]) fun i h1 h2 => ?_
    have hi : i < n := by simpa [setId] using h2
    have := h i hi
    have e : a.getD i 0 = a[i]'(by rw [ha.1]; exact hi) := by
      rw [List.getD, List.getElem?_eq_getElem, Option.getD_some]
    rw [e] at this
    rw [List.getElem_map, this]
    simp [setId]
  exact ⟨key hp hp' e1, key hp' hp e2⟩

/-- the identity is neutral -/
theorem C44_compose_id {n : ℕ} {p : List ℕ} (hp : IsPerm n p) :
    IsPerm n (setId n) ∧ compose (setId n) p = some p ∧ compose p (setId n) = some p := by
  refine ⟨⟨by simp [setId], by simp [setId], by simp [setId, List.nodup_range]⟩, ?_, ?_⟩
  · rw [compose_eq fun d hd => by rw [hp.1]; simpa [setId] using hd]
    congr 1
    refine List.ext_getElem (by simp [setId, hp.1]) fun i h1 h2 => ?_
    simp [setId, List.getD, List.getElem?_eq_getElem h2]
  · rw [compose_eq fun d hd => by simpa [setId] using hp.2.1 d hd]
    congr 1
    conv_rhs => rw [← List.map_id p]
    refine List.map_congr_left fun d hd => ?_
    simp [setId, List.getD, List.getElem?_range (hp.2.1 d hd)]

/-- composition is associative -/
theorem C44_compose_assoc {n : ℕ} {p q r pq qr : List ℕ} (hp : IsPerm n p) (hq : IsPerm n q)
    (hr : IsPerm n r) (h1 : compose p q = some pq) (h2 : compose q r = some qr) :
    compose pq r = compose p qr := by
  rw [compose_eq fun d hd => by rw [hq.1]; exact hp.2.1 d hd] at h1
  rw [compose_eq fun d hd => by rw [hr.1]; exact hq.2.1 d hd] at h2
  cases h1; cases h2
  rw [compose_eq, compose_eq]
  · rw [List.map_map]
    congr 1
    refine List.map_congr_left fun d hd => ?_
    have : d < q.length := by rw [hq.1]; exact hp.2.1 d hd
    simp [List.getD, List.getElem?_eq_getElem this]
  · intro d hd; rw [List.length_map, hq.1]; exact hp.2.1 d hd
  · intro d hd
    obtain ⟨e, he, rfl⟩ := List.mem_map.1 hd
    rw [hr.1]; exact hq.getD_lt (hp.2.1 e he)

/-- Boxes: permuting by the composition is permuting by the first then by the second, and permuting
by the inverse undoes the permutation. -/
theorem C44_box_action (a : Box K) {p q r s t : List ℕ} (hp : IsPerm a.dim p) (hq : IsPerm a.dim q)
    (hr : compose p q = some r) (ht : t.length = a.dim) (hs : invert t p = some s) (x : ℕ → K) :
    ((Box.permuteDimensions a fun i => r.getD i 0).Gam x ↔
      (Box.permuteDimensions (Box.permuteDimensions a fun i => p.getD i 0) fun i => q.getD i 0).Gam x) ∧
    ((Box.permuteDimensions (Box.permuteDimensions a fun i => p.getD i 0) fun i => s.getD i 0).Gam x ↔
      a.Gam x) := by
  have hd : ∀ f, (Box.permuteDimensions a f).dim = a.dim := fun f => by
    have := C21_permute_dims a f; unfold Box.dim; rw [this.1, this.2]
  have act : ∀ {b : Box K} {l : List ℕ} (_ : IsPerm b.dim l) (y : ℕ → K),
      (Box.permuteDimensions b fun i => l.getD i 0).Gam y ↔ b.Gam fun v => y (l.getD v 0) := fun h y =>
    C21_permute_exact _ _ (fun i j hi hj => h.inj hi hj) (fun i hi => h.getD_lt hi) y
  have ext : ∀ {b : Box K} {y z : ℕ → K}, (∀ v, v < b.dim → y v = z v) → (b.Gam y ↔ b.Gam z) := by
    intro b y z h
    cases hb : b.p with
    | none => exact ⟨fun hx => (Box.gam_none hb hx).elim, fun hx => (Box.gam_none hb hx).elim⟩
    | some f =>
      rw [Box.gam_some hb, Box.gam_some hb]
      exact forall_congr' fun v => forall_congr' fun hv => by rw [h v hv]
  obtain ⟨r', e, hr', er⟩ := C44_compose hp hq
  rw [e] at hr; cases hr
  obtain ⟨s', e', hs', es, es'⟩ := C44_invert hp ht
  rw [e'] at hs; cases hs
  have hq' : IsPerm (Box.permuteDimensions a fun i => p.getD i 0).dim q := by rw [hd]; exact hq
  have hs'' : IsPerm (Box.permuteDimensions a fun i => p.getD i 0).dim s := by rw [hd]; exact hs'
  rw [act hr', act hq', act hp, act hs'', act hp]
  exact ⟨ext fun v hv => by rw [er v hv], ext fun v hv => by rw [es v hv]⟩

/-- Octagons: the same. -/
theorem C44_oct_action (u : Oct.Mem K) (a : OctT K) {p q r s t : List ℕ} (hp : IsPerm a.dim p)
    (hq : IsPerm a.dim q) (hr : compose p q = some r) (ht : t.length = a.dim) (hs : invert t p = some s)
    (x : ℕ → K) :
    ((OctT.permuteDimensions u a fun i => r.getD i 0).Gam x ↔
      (OctT.permuteDimensions u (OctT.permuteDimensions u a fun i => p.getD i 0) fun i => q.getD i 0).Gam x) ∧
    ((OctT.permuteDimensions u (OctT.permuteDimensions u a fun i => p.getD i 0) fun i => s.getD i 0).Gam x ↔
      a.Gam x) := by
  have hd : ∀ f, (OctT.permuteDimensions u a f).dim = a.dim := fun f => by
    unfold OctT.permuteDimensions
    cases a.best with
    | none => rfl
    | some m => cases a.closed.isSome <;> rfl
  have act : ∀ {b : OctT K} {l : List ℕ} (_ : IsPerm b.dim l) (y : ℕ → K),
      (OctT.permuteDimensions u b fun i => l.getD i 0).Gam y ↔ b.Gam fun v => y (l.getD v 0) := fun h y =>
    C38_permute_exact _ _ _ (fun i j hi hj => h.inj hi hj) (fun i hi => h.getD_lt hi) y
  obtain ⟨r', e, hr', er⟩ := C44_compose hp hq
  rw [e] at hr; cases hr
  obtain ⟨s', e', hs', es, es'⟩ := C44_invert hp ht
  rw [e'] at hs; cases hs
  have hq' : IsPerm (OctT.permuteDimensions u a fun i => p.getD i 0).dim q := by rw [hd]; exact hq
  have hs'' : IsPerm (OctT.permuteDimensions u a fun i => p.getD i 0).dim s := by rw [hd]; exact hs'
  rw [act hr', act hq', act hp, act hs'', act hp]
  exact ⟨gam_congr fun v hv => by rw [er v hv], gam_congr fun v hv => by rw [es v hv]⟩

example : IsPerm 4 [2, 0, 3, 1] := by unfold IsPerm; decide
example : invert [9, 9, 9, 9] [2, 0, 3, 1] = some [1, 3, 0, 2] := by decide
example : compose [2, 0, 3, 1] [1, 3, 0, 2] = some [0, 1, 2, 3] := by decide
example : compose [1, 2, 0] [0, 2, 1] = some [2, 1, 0] := by decide

/-! ## C45: inverting an insertion -/

/-- `ap_dimchange_add_invert` gives the positions of the inserted dimensions, strictly increasing: a
position is in the result exactly when it is not the position `v + #{p ≤ v}` of an old dimension `v` -/
theorem C45_positions (dim : List ℕ) (hs : dim.Pairwise (· ≤ ·)) :
    (addInvert dim).length = dim.length ∧ (addInvert dim).Pairwise (· < ·) ∧
      ∀ w, w ∈ addInvert dim ↔ ∀ v, w ≠ v + dim.countP (fun p => decide (p ≤ v)) := by
  refine ⟨addInvertFrom_length _ _, addInvertFrom_sorted _ _ hs, fun w => ?_⟩
  unfold addInvert
  simp only [mem_addInvertFrom, cntLe_eq, Nat.zero_add]
  constructor
  · rintro ⟨k, hk, rfl⟩ v hv
    by_cases h : dim.getD k 0 ≤ v
    · have := Oct.cntLe_ge_of hs (v := v) hk h
      omega
    · have := Oct.cntLe_lt_of hs (v := v) hk (by omega)
      omega
  · intro h
    by_contra hc
    push Not at hc
    -- the number of new dimensions before `w`
    have key : ∀ m, m ≤ dim.length → (∀ k, k < m → dim.getD k 0 + k < w) →
        (∀ k, m ≤ k → k < dim.length → w < dim.getD k 0 + k) → False := by
      intro m hm h1 h2
      have hmw : m ≤ w := by
        rcases Nat.eq_zero_or_pos m with e | e
        · omega
        · have := h1 (m - 1) (by omega); omega
      refine h (w - m) ?_
      rw [Box.cntLe_eq_of hs hm (fun k hk => ?_) fun k hk hlt => ?_]
      · omega
      · have hlast := h1 (m - 1) (by omega)
        have := Box.getD_mono hs (show k ≤ m - 1 by omega) (by omega)
        omega
      · have h3 := h2 m (le_refl _) (by omega)
        have := Box.getD_mono hs hk hlt; omega
    have mono : ∀ k k', k ≤ k' → k' < dim.length → dim.getD k 0 + k ≤ dim.getD k' 0 + k' := by
      intro k k' hk hk'
      have := Box.getD_mono hs hk hk'; omega
    have : ∀ n, n ≤ dim.length → (∀ k, k < n → dim.getD k 0 + k < w) → False := by
      intro n hn
      induction hj : dim.length - n generalizing n with
      | zero => intro h1; exact key n hn h1 (fun k hk hk' => by omega)
      | succ j ih =>
        intro h1
        have hnlt : n < dim.length := by omega
        rcases lt_or_gt_of_ne (hc n hnlt) with h2 | h2
        · exact key n hn h1 fun k hk hk' => lt_of_lt_of_le h2 (mono n k hk hk')
        · refine ih (n + 1) (by omega) (by omega) fun k hk => ?_
          rcases Nat.lt_succ_iff_lt_or_eq.1 hk with e | e
          · exact h1 k e
          · subst e; exact h2
    exact this 0 (by omega) (fun k hk => by omega)

/-- Boxes: inserting dimensions, then removing the inverted change, restores the box -/
theorem C45_box (a : Box K) (ha : a.Wf) (d1 d2 : Bool) (pos : List ℕ) (hs : pos.Pairwise (· ≤ ·))
    (hlt : ∀ q ∈ pos, q ≤ a.dim) (n : ℕ) (hn : n ≤ pos.length) (project : Bool) (x : ℕ → K) :
    (Box.removeDimensions (Box.addDimensions a d1 pos n project) d2 (addInvert pos) n).Gam x ↔ a.Gam x := by
  refine C21_add_remove a ha d1 d2 pos _ hs hlt (addInvertFrom_sorted _ _ hs) (addInvertFrom_length _ _)
    (fun v => ?_) n hn project x
  rw [mem_addInvertFrom]
  simp only [Nat.zero_add]

/-- Octagons: the same -/
theorem C45_oct (algo : ℤ) (halgo : 0 ≤ algo) (u : Oct.Mem K) (a : OctT K) (ha : Wf a)
    (pos : List ℕ) (hne : pos ≠ []) (hs : pos.Pairwise (· ≤ ·)) (hlt : ∀ q ∈ pos, q ≤ a.dim)
    (n : ℕ) (project : Bool) (x : ℕ → K) :
    (OctT.removeDimensions Rnd.exact algo u (OctT.addDimensions a pos n project) (addInvert pos) n).Gam x ↔
      a.Gam x := by
  refine C38_add_remove algo halgo u a ha pos hne hs hlt n n project _ (addInvertFrom_sorted _ _ hs)
    (fun v => ?_) x
  rw [mem_addInvertFrom]
  simp only [Nat.zero_add]

example : addInvert [0, 0, 2, 3, 3] = [0, 1, 4, 6, 7] := by decide

/-! ## C53: validation of dimension changes and permutations -/

/-- What `ap_abstract0_check_ap_dimchange_add` misses: an array is legal exactly when it is accepted,
its first two elements are in order, and the real dimensions are inserted after the integer ones.
In particular every legal array is accepted. -/
theorem C53_add_partial (intdim realdim : ℕ) (dims : List ℕ) (nint : ℕ) :
    LegalAdd intdim realdim dims nint ↔ checkAdd intdim realdim dims nint = true ∧
      (∀ a b l, dims = a :: b :: l → a ≤ b) ∧ (∀ d ∈ dims.drop nint, intdim ≤ d) := by
  unfold LegalAdd checkAdd
  rw [Bool.and_eq_true, List.all_eq_true]
  simp only [decide_eq_true_eq]
  cases dims with
  | nil => simp
  | cons a dims =>
    rw [if_pos (by simp), Bool.and_eq_true, decide_eq_true_eq, List.drop_one, List.tail_cons, sortedAdd_iff,
      List.pairwise_cons]
    have hlast : (a :: dims).getD ((a :: dims).length - 1) 0 ∈ a :: dims := getD_mem' (by simp)
    constructor
    · rintro ⟨⟨h1, h2⟩, h3, h4, h5⟩
      exact ⟨⟨h4, ⟨fun _ _ => Nat.zero_le _, h2⟩, h3 _ hlast⟩,
        fun a' b l e => by cases e; exact h1 b (by simp), h5⟩
    · rintro ⟨⟨h4, ⟨-, h2⟩, h3⟩, h1, h5⟩
      have hs : (a :: dims).Pairwise (· ≤ ·) := by
        refine List.pairwise_cons.2 ⟨fun b hb => ?_, h2⟩
        cases dims with
        | nil => simp at hb
        | cons c dims =>
          have hac := h1 a c dims rfl
          rcases List.mem_cons.1 hb with rfl | hb
          · exact hac
          · exact hac.trans ((List.pairwise_cons.1 h2).1 b hb)
      refine ⟨List.pairwise_cons.1 hs, fun d hd => ?_, h4, h5⟩
      obtain ⟨i, hi, rfl⟩ := List.getElem_of_mem hd
      have := Box.getD_mono hs (show i ≤ (a :: dims).length - 1 by omega) (by simp)
      have e : (a :: dims).getD i 0 = (a :: dims)[i] := by
        rw [List.getD, List.getElem?_eq_getElem hi, Option.getD_some]
      omega

/-- What `ap_abstract0_check_ap_dimchange_remove` misses. -/
theorem C53_remove_partial (intdim realdim : ℕ) (dims : List ℕ) (nint : ℕ) :
    LegalRemove intdim realdim dims nint ↔ checkRemove intdim realdim dims nint = true ∧
      (∀ a b l, dims = a :: b :: l → a < b) ∧ (∀ d ∈ dims.drop nint, intdim ≤ d) := by
  unfold LegalRemove checkRemove
  rw [Bool.and_eq_true, List.all_eq_true]
  simp only [decide_eq_true_eq]
  cases dims with
  | nil => simp
  | cons a dims =>
    rw [if_pos (by simp), Bool.and_eq_true, decide_eq_true_eq, List.drop_one, List.tail_cons,
      sortedRemove_iff, List.pairwise_cons]
    have hlast : (a :: dims).getD ((a :: dims).length - 1) 0 ∈ a :: dims := getD_mem' (by simp)
    constructor
    · rintro ⟨⟨h1, h2⟩, h3, h4, h5⟩
      exact ⟨⟨h4, ⟨fun b hb => by have := h1 b hb; omega, h2⟩, h3 _ hlast⟩,
        fun a' b l e => by cases e; exact h1 b (by simp), h5⟩
    · rintro ⟨⟨h4, ⟨-, h2⟩, h3⟩, h1, h5⟩
      have hs : (a :: dims).Pairwise (· < ·) := by
        refine List.pairwise_cons.2 ⟨fun b hb => ?_, h2⟩
        cases dims with
        | nil => simp at hb
        | cons c dims =>
          have hac := h1 a c dims rfl
          rcases List.mem_cons.1 hb with rfl | hb
          · exact hac
          · exact hac.trans ((List.pairwise_cons.1 h2).1 b hb)
      refine ⟨List.pairwise_cons.1 hs, fun d hd => ?_, h4, h5⟩
      obtain ⟨i, hi, rfl⟩ := List.getElem_of_mem hd
      have := Box.getD_mono (hs.imp fun h => h.le) (show i ≤ (a :: dims).length - 1 by omega) (by simp)
      have e : (a :: dims).getD i 0 = (a :: dims)[i] := by
        rw [List.getD, List.getElem?_eq_getElem hi, Option.getD_some]
      omega

/-- What `ap_abstract0_check_dimperm` misses: repeated elements. -/
theorem C53_perm_partial (intdim realdim : ℕ) (perm : List ℕ) :
    IsPerm (intdim + realdim) perm ↔ checkPerm intdim realdim perm = true ∧ perm.Nodup := by
  unfold IsPerm checkPerm
  simp only [Bool.and_eq_true, decide_eq_true_eq, List.all_eq_true]
  constructor
  · rintro ⟨h1, h2, h3⟩; exact ⟨⟨h1.symm, h2⟩, h3⟩
  · rintro ⟨⟨h1, h2⟩, h3⟩; exact ⟨h1.symm, h2, h3⟩

/-- the claim fails: an unsorted insertion array, an array inserting a real dimension among the integer
ones, a removal array with a repetition or out of range, and a non-injective "permutation" are
accepted -/
theorem C53_accepts_illegal :
    (checkAdd 0 3 [3, 0] 0 = true ∧ ¬ LegalAdd 0 3 [3, 0] 0) ∧
    (checkAdd 2 1 [0] 0 = true ∧ ¬ LegalAdd 2 1 [0] 0) ∧
    (checkRemove 0 3 [1, 1] 0 = true ∧ ¬ LegalRemove 0 3 [1, 1] 0) ∧
    (checkRemove 0 3 [5, 1] 0 = true ∧ ¬ LegalRemove 0 3 [5, 1] 0) ∧
    (checkPerm 0 2 [0, 0] = true ∧ ¬ IsPerm 2 [0, 0]) := by
  unfold LegalAdd LegalRemove IsPerm
  decide

example : checkAdd 2 3 [0, 2, 2, 5] 2 = true ∧ checkAdd 2 3 [0, 2, 6] 2 = false ∧
    checkAdd 2 3 [0, 3, 2] 1 = false := by decide
example : checkRemove 2 3 [0, 1, 3] 2 = true ∧ checkRemove 2 3 [0, 2, 3] 2 = false := by decide
example : checkPerm 1 2 [2, 0, 1] = true ∧ checkPerm 1 2 [2, 0, 3] = false := by decide

/-! ## C67: validation of linear expressions -/

theorem sparseDim_spec {A : Type*} (n : ℕ) (l : List (ℕ × A)) (dim : ℕ) :
    (∀ p ∈ l, p.1 = dimMax) ∧ sparseDim n dim l = (if l = [] then dim else dimMax) ∨
    ∃ l1 p l2, l = l1 ++ p :: l2 ∧ (∀ q ∈ l1, q.1 = dimMax) ∧ p.1 ≠ dimMax ∧
      sparseDim n dim l = if p.1 < n then dimMax else p.1 := by
  induction l generalizing dim with
  | nil => left; simp [sparseDim]
  | cons p l ih =>
    rw [sparseDim]
    by_cases hp : p.1 = dimMax
    · rw [if_neg (by simpa using hp)]
      rcases ih p.1 with ⟨h1, h2⟩ | ⟨l1, q, l2, rfl, h1, h2, h3⟩
      · left
        refine ⟨fun q hq => ?_, ?_⟩
        · rcases List.mem_cons.1 hq with rfl | hq
          · exact hp
          · exact h1 q hq
        · rw [h2]; split_ifs <;> simp_all
      · right
        refine ⟨p :: l1, q, l2, rfl, fun r hr => ?_, h2, h3⟩
        rcases List.mem_cons.1 hr with rfl | hr
        · exact hp
        · exact h1 r hr
    · right
      exact ⟨[], p, l, rfl, by simp, hp, by rw [if_pos hp]⟩

/-- In a space with at least one dimension, `ap_abstract0_check_linexpr` accepts exactly the
expressions whose dimensions exist in the space (sparse expressions being sorted). -/
theorem C67_check_linexpr_partial (intdim realdim : ℕ) (hn : 0 < intdim + realdim) (e : Linexpr K)
    (he : e.Wf) :
    checkLinexpr intdim realdim e = true ↔ ∀ p ∈ e.terms, p.1 < intdim + realdim := by
  obtain ⟨c0, b⟩ := e
  unfold checkLinexpr checkLinexprDim
  rw [decide_eq_true_eq]
  cases b with
  | dense l =>
    simp only
    have hmem : ∀ d, d ∈ (Linexpr.terms ⟨c0, .dense l⟩).map Prod.fst ↔ d < l.length := by
      intro d; rw [Linexpr.terms_dense_dims, List.mem_range]
    have hl : l.length ≤ dimMax := he
    split_ifs with h
    · constructor
      · intro e; omega
      · intro hall
        obtain ⟨p, hp, e⟩ := List.mem_map.1 ((hmem (intdim + realdim)).2 h)
        have := hall p hp; omega
    · simp only [true_iff]
      intro p hp
      have := (hmem p.1).1 (List.mem_map.2 ⟨p, hp, rfl⟩)
      omega
  | sparse l =>
    have hw : Linexpr.SparseWf l := he
    simp only [hw.mem_terms]
    rcases sparseDim_spec (intdim + realdim) l.reverse 0 with ⟨h1, h2⟩ | ⟨l1, p, l2, hl, h1, h2, h3⟩
    · rw [h2]
      have : ∀ p ∈ l, p.1 = dimMax := fun p hp => h1 p (List.mem_reverse.2 hp)
      constructor
      · intro _ p hp; exact absurd (this p hp.1) hp.2
      · intro _; split_ifs <;> simp_all
    · rw [h3]
      have hl' : l = l2.reverse ++ p :: l1.reverse := by
        rw [← List.reverse_reverse l, hl]; simp
      have hp : p ∈ l := by rw [hl']; simp
      have hle : ∀ q ∈ l, q.1 ≠ dimMax → q.1 ≤ p.1 := by
        intro q hq hqm
        rw [hl'] at hq hw
        rw [Linexpr.sparseWf_append] at hw
        rcases List.mem_append.1 hq with hq | hq
        · rcases hw.2.2 q hq p (by simp) with e | e
          · exact e.le
          · exact absurd e h2
        · rcases List.mem_cons.1 hq with rfl | hq
          · exact le_refl _
          · exact absurd (h1 q (List.mem_reverse.1 hq)) hqm
      by_cases hlt : p.1 < intdim + realdim
      · rw [if_pos hlt]
        have : dimMax ≠ 0 := by decide
        rw [if_neg this]
        simp only [true_iff]
        intro q hq
        have := hle q hq.1 hq.2; omega
      · rw [if_neg hlt, if_neg (by omega)]
        constructor
        · intro e; exact absurd e h2
        · intro hall; exact absurd (hall p ⟨hp, h2⟩) hlt

/-- the claim fails in a space without dimensions: an expression on dimension 0 is accepted -/
theorem C67_accepts_dim_zero :
    let e : Linexpr ℚ := ⟨.scalar (.fin 1), .sparse [(0, .scalar (.fin 2))]⟩
    e.Wf ∧ checkLinexpr 0 0 e = true ∧ ∃ p ∈ e.terms, ¬ p.1 < 0 := by
  refine ⟨?_, by decide +kernel, (0, .scalar (.fin 2)), by decide +kernel, by decide⟩
  show Linexpr.SparseWf _
  simp [Linexpr.SparseWf]

example : checkLinexpr 1 1 (⟨.scalar (.fin 1), .sparse [(0, .scalar (.fin 2)), (3, .scalar (.fin 2)),
    (dimMax, .scalar (.fin 0))]⟩ : Linexpr ℚ) = false := by decide +kernel
example : checkLinexpr 1 1 (⟨.scalar (.fin 1), .sparse [(1, .scalar (.fin 2)),
    (dimMax, .scalar (.fin 0))]⟩ : Linexpr ℚ) = true := by decide +kernel

end Apron
