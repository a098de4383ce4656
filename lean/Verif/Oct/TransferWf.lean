import Verif.Oct.TransferSound

/-! # Helper lemmas: representation invariant and exactness of octagon assignments and substitutions -/

set_option autoImplicit false
set_option linter.unusedSectionVars false
set_option linter.ambiguousOpen false

namespace Apron
namespace Oct
open Bound Finset
variable {K : Type*} [LinearOrder K] [Field K] [IsStrictOrderedRing K] [FloorRing K] (R : Rnd K)

theorem hmatAssign_false {u : UExpr} {dst : ℕ → Bound K} {dim d : ℕ} {m : Mem K} :
    (hmatAssign R u dst dim d m false).2 = false := by
  unfold hmatAssign
  by_cases t1 : u.type = .zero
  · rw [if_pos t1]
  rw [if_neg t1]
  by_cases t2 : u.type = .unary ∧ u.i ≠ d
  · rw [if_pos t2]
  rw [if_neg t2]
  by_cases t3 : u.type = .unary ∧ u.coefI = -1
  · rw [if_pos t3]
  rw [if_neg t3]
  by_cases t4 : u.type = .unary ∧ u.coefI = 1
  · rw [if_pos t4]
  rw [if_neg t4]

/-- no `-oo` and a null diagonal -/
structure Good0 (dim : ℕ) (m : Mem K) : Prop where
  ne : NoNinf dim m
  diag : ∀ i, i < 2 * dim → m (matpos i i) = fin 0

theorem Good0.good {dim : ℕ} {m : Mem K} (h : Good0 dim m) : OctT.Good dim m :=
  ⟨h.ne, fun i hi => by rw [h.diag i hi, h.diag _ (xor1_lt hi)], fun i hi => by rw [h.diag i hi]⟩

theorem good0_of_SC {dim : ℕ} {m : Mem K} (h : SC dim (G dim m)) : Good0 dim m :=
  ⟨h.noNinf, fun i hi => by rw [← G_cell m hi (cell_refl i)]; exact h.diag i hi⟩

theorem good0_set2 {dim : ℕ} {m : Mem K} (h : Good0 dim m) {i j : ℕ} (hij : i ≠ j) {v : Bound K}
    (hv : v ≠ ninf) : Good0 dim (m.set (matpos2 i j) v) := by
  refine ⟨(good_set2 h.good hij hv).ne, fun k hk => ?_⟩
  rw [Mem.set_ne _ _ fun e => hij ?_]
  · exact h.diag k hk
  · rcases pos_eq_cases (cell_refl k) e.symm with ⟨rfl, rfl⟩ | ⟨rfl, rfl⟩ <;> rfl

/-- lowering a cell by a value that is nonnegative if the cell is on the diagonal -/
theorem good0_bmin2 {dim : ℕ} {m : Mem K} (h : Good0 dim m) {i j : ℕ} (hi : i < 2 * dim) (hj : j < 2 * dim) {v : Bound K}
    (hv : v ≠ ninf) (h0 : i = j → fin 0 ≤ v) : Good0 dim (m.bmin (matpos2 i j) v) := by
  by_cases hij : i = j
  · subst hij
    rw [matpos2_cell (cell_refl i)]
    have : m.bmin (matpos i i) v = m := by
      funext p
      unfold Mem.bmin
      by_cases e : p = matpos i i
      · rw [e, Mem.set_self, bmin_eq_min, h.diag i hi, min_eq_left (h0 rfl)]
      · rw [Mem.set_ne _ _ e]
    rw [this]; exact h
  · unfold Mem.bmin
    refine good0_set2 h hij ?_
    rw [bmin_eq_min]
    rcases min_choice (m (matpos2 i j)) v with e | e <;> rw [e]
    · exact h.ne _ (matpos2_lt hi hj)
    · exact hv

theorem good0_forget {dim : ℕ} {m : Mem K} (h : Good0 dim m) (d : ℕ) : Good0 dim (forgetVar dim false m d) := by
  refine ⟨(good_forget h.good d).ne, fun i hi => ?_⟩
  rw [forgetVar_cell false m hi (cell_refl i)]
  by_cases e : i / 2 = d ∨ i / 2 = d
  · rw [if_pos e, if_pos rfl]; exact h.diag i hi
  · rw [if_neg e]; exact h.diag i hi

theorem good0_extend {n k : ℕ} {m : Mem K} (h : Good0 n m) : Good0 (n + k) (OctT.extendTop n k m) := by
  refine ⟨noNinf_iff.2 fun i j hi hc => ?_, fun i hi => ?_⟩
  · rw [extendTop_cell m hi hc]
    split_ifs with h1
    · exact noNinf_iff.1 h.ne i j h1 hc
    · simp
    · simp
  · rw [extendTop_cell m hi (cell_refl i), if_pos rfl]
    split_ifs with h1
    · exact h.diag i h1
    · rfl

theorem good_extend {n k : ℕ} {m : Mem K} (h : OctT.Good n m) : OctT.Good (n + k) (OctT.extendTop n k m) := by
  have hd : ∀ i, i < 2 * (n + k) → OctT.extendTop n k m (matpos i i) =
      if i < 2 * n then m (matpos i i) else fin 0 := fun i hi => by
    rw [extendTop_cell m hi (cell_refl i), if_pos rfl]
  refine ⟨noNinf_iff.2 fun i j hi hc => ?_, fun i hi => ?_, fun i hi => ?_⟩
  · rw [extendTop_cell m hi hc]
    split_ifs with h1
    · exact noNinf_iff.1 h.ne i j h1 hc
    · simp
    · simp
  · rw [hd i hi, hd _ (xor1_lt hi)]
    have hx := xor1_div i
    by_cases e : i < 2 * n
    · rw [if_pos e, if_pos (by omega)]; exact h.coh i e
    · rw [if_neg e, if_neg (by omega)]
  · rw [hd i hi]
    split_ifs with h1
    · exact h.nn i h1
    · exact le_refl _

/-! ### substitutions keep the invariant -/

theorem sgn_nonneg {b : Bound K} (h : ¬ sgn b < 0) : fin 0 ≤ b := by
  rwa [sgn_neg_iff, not_lt] at h

theorem Mem.bmin_ne {m : Mem K} {p q : ℕ} (h : p ≠ q) (v : Bound K) : (m.bmin q v) p = m p := by
  unfold Mem.bmin; rw [Mem.set_ne _ _ h]

theorem substZero_good0 {dim d : ℕ} (hd : d < dim) {dst : ℕ → Bound K} (h0 : dst 0 ≠ ninf) (h1 : dst 1 ≠ ninf)
    {m r : Mem K} (hm : Good0 dim m) (h : substZero R dst dim d m = some r) : Good0 dim r := by
  unfold substZero at h
  simp only at h
  split_ifs at h
  cases h
  refine good0_forget ?_ d
  have hx : ∀ i : ℕ, i ≠ i ^^^ 1 := fun i => (xor1_ne i).symm
  refine foldl_inv (Good0 dim) _ _ (fun m i hi hm => ?_) _ (foldl_inv (Good0 dim) _ _ (fun m i hi hm => ?_) _ hm)
  · have hi : 2 * d + 2 ≤ i ∧ i < 2 * dim := by
      rw [List.mem_range'_1] at hi; omega
    have c1 := noNinf_iff.1 hm.ne i (2 * d) hi.2 (by unfold Cell; omega)
    have c2 := noNinf_iff.1 hm.ne i (2 * d + 1) hi.2 (by unfold Cell; omega)
    rw [← matpos2_cell (cell_self_xor i)]
    exact good0_bmin2 (good0_bmin2 hm hi.2 (xor1_lt hi.2) (mul2_ne R (add_ne R h0 c1)) (fun e => absurd e (hx i)))
      hi.2 (xor1_lt hi.2) (mul2_ne R (add_ne R h1 c2)) (fun e => absurd e (hx i))
  · have hi : i < 2 * d := by simpa using hi
    have hxl : (i ^^^ 1) < 2 * d := xor1_lt hi
    have c1 := noNinf_iff.1 hm.ne (2 * d + 1) (i ^^^ 1) (by omega) (by unfold Cell; omega)
    have c2 := noNinf_iff.1 hm.ne (2 * d) (i ^^^ 1) (by omega) (by unfold Cell; omega)
    rw [← matpos2_cell (cell_self_xor i)]
    exact good0_bmin2 (good0_bmin2 hm (by omega) (by omega) (mul2_ne R (add_ne R h0 c1)) (fun e => absurd e (hx i)))
      (by omega) (by omega) (mul2_ne R (add_ne R h1 c2)) (fun e => absurd e (hx i))

theorem substUnary_good0 {dim d k : ℕ} (hd : d < dim) (hk : k < 2 * dim) (hkd : k / 2 ≠ d) {dst : ℕ → Bound K}
    (h0 : dst 0 ≠ ninf) (h1 : dst 1 ≠ ninf)
    {m r : Mem K} (hm : Good0 dim m) (h : substUnary R dst dim d k m = some r) : Good0 dim r := by
  unfold substUnary at h
  simp only at h
  split_ifs at h with ht
  rw [not_or] at ht
  have g2 := sgn_nonneg ht.1
  have g3 := sgn_nonneg ht.2
  cases h
  refine good0_forget ?_ d
  have hxk := xor1_div k
  have hne : ∀ i : ℕ, i ≠ i ^^^ 1 := fun i => (xor1_ne i).symm
  -- the cells of dimension `d` are not modified
  let P : Mem K → Prop := fun b => Good0 dim b ∧ ∀ i j, Cell i j → i / 2 = d ∨ j / 2 = d → b (matpos i j) = m (matpos i j)
  have hP : ∀ (b : Mem K) (i j : ℕ) (v : Bound K), P b → i < 2 * dim → j < 2 * dim → i / 2 ≠ d → j / 2 ≠ d → v ≠ ninf →
      (i = j → fin 0 ≤ v) → P (b.bmin (matpos2 i j) v) := by
    intro b i j v hb hi hj hid hjd hv hv0
    refine ⟨good0_bmin2 hb.1 hi hj hv hv0, fun i' j' hc' h' => ?_⟩
    rw [Mem.bmin_ne, hb.2 i' j' hc' h']
    intro e
    rcases pos_eq_cases hc' e.symm with ⟨rfl, rfl⟩ | ⟨rfl, rfl⟩
    · rcases h' with h' | h' <;> contradiction
    · rw [xor1_div] at hid hjd
      rcases h' with h' | h' <;> contradiction
  have key : P _ := foldl_inv P (fun (m : Mem K) i =>
      (m.bmin (matpos2 (k ^^^ 1) i) (add R (dst 0) (m (matpos (i ^^^ 1) (2 * d))))).bmin (matpos2 k i)
        (add R (dst 1) (m (matpos (i ^^^ 1) (2 * d + 1)))))
      (List.range' (2 * d + 2) (2 * dim - (2 * d + 2))) (fun b i hi hb => ?_) _
    (foldl_inv P (fun (m : Mem K) i =>
      (m.bmin (matpos2 (k ^^^ 1) i) (add R (dst 0) (m (matpos (2 * d + 1) i)))).bmin (matpos2 k i)
        (add R (dst 1) (m (matpos (2 * d) i)))) (List.range (2 * d)) (fun b i hi hb => ?_) _
      ⟨hm, fun _ _ _ _ => rfl⟩)
  · have n1 := noNinf_iff.1 key.1.ne (2 * d + 1) (2 * d) (by omega) (cell_un d).1
    have n2 := noNinf_iff.1 key.1.ne (2 * d) (2 * d + 1) (by omega) (cell_un d).2
    rw [← matpos2_cell (cell_xor_self k), ← matpos2_cell (cell_self_xor k)]
    refine good0_bmin2 (good0_bmin2 key.1 (by have := xor1_lt hk; omega) hk (add_ne R (mul2_ne R h0) n1)
      fun e => absurd e.symm (hne k)) hk (xor1_lt hk) (add_ne R (mul2_ne R h1) n2) fun e => absurd e (hne k)
  · have hi : 2 * d + 2 ≤ i ∧ i < 2 * dim := by
      rw [List.mem_range'_1] at hi; omega
    have hx : (i ^^^ 1) / 2 = i / 2 := xor1_div i
    have hxl := xor1_lt hi.2
    have c1 : Cell (i ^^^ 1) (2 * d) := by unfold Cell; omega
    have c2 : Cell (i ^^^ 1) (2 * d + 1) := by unfold Cell; omega
    have e1 := hb.2 _ _ c1 (by omega)
    have e2 := hb.2 _ _ c2 (by omega)
    rw [e1, e2]
    have n1 := noNinf_iff.1 hm.ne _ _ hxl c1
    have n2 := noNinf_iff.1 hm.ne _ _ hxl c2
    refine hP _ _ _ _ (hP _ _ _ _ hb (xor1_lt hk) hi.2 (by omega) (by omega) (add_ne R h0 n1) ?_) hk hi.2 (by omega)
      (by omega) (add_ne R h1 n2) ?_
    · rintro rfl
      rw [xor1_xor1, ← matpos2_cell (show Cell k (2 * d) by unfold Cell; omega)]
      exact g2
    · rintro rfl
      rw [← matpos2_cell c2]
      have : matpos2 (k ^^^ 1) (2 * d + 1) = matpos2 (2 * d) k := by
        rw [matpos2_mirror (show (k ^^^ 1) / 2 ≠ (2 * d + 1) / 2 by omega), xor1_xor1, xor1_odd]
      rw [this]; exact g3
  · have hi : i < 2 * d := by simpa using hi
    have c1 : Cell (2 * d + 1) i := by unfold Cell; omega
    have c2 : Cell (2 * d) i := by unfold Cell; omega
    have e1 := hb.2 _ _ c1 (by omega)
    have e2 := hb.2 _ _ c2 (by omega)
    rw [e1, e2]
    have n1 := noNinf_iff.1 hm.ne _ _ (by omega) c1
    have n2 := noNinf_iff.1 hm.ne _ _ (by omega) c2
    refine hP _ _ _ _ (hP _ _ _ _ hb (xor1_lt hk) (by omega) (by omega) (by omega) (add_ne R h0 n1) ?_) hk (by omega) (by omega)
      (by omega) (add_ne R h1 n2) ?_
    · rintro rfl
      rw [← matpos2_cell c1]
      have : matpos2 (2 * d + 1) (k ^^^ 1) = matpos2 k (2 * d) := by
        rw [matpos2_mirror (show (2 * d + 1) / 2 ≠ (k ^^^ 1) / 2 by omega), xor1_xor1, xor1_odd]
      rw [this]; exact g2
    · rintro rfl
      rw [← matpos2_cell c2]; exact g3

theorem hmatSubst_good0 {dim d : ℕ} (hd : d < dim) {u : UExpr} {dst : ℕ → Bound K} {m : Mem K}
    (hcl : ClassOk (fun i => i < dim) u dst) {q : K} (hq : InD dst 0 q) (hm : Good0 dim m)
    (hud : u.type = .unary → u.i ≠ d) {r : Mem K × Bool} {respect : Bool}
    (h : hmatSubst R u dst dim d m respect = some r) : Good0 dim r.1 := by
  have n0 := hq.ne.1
  have n1 := hq.ne.2
  rw [zero_add] at n1
  unfold hmatSubst at h
  unfold ClassOk at hcl
  by_cases t1 : u.type = .zero
  · rw [if_pos t1] at h
    obtain ⟨b, hb, rfl⟩ := Option.map_eq_some_iff.1 h
    exact substZero_good0 R hd n0 n1 hm hb
  rw [if_neg t1] at h
  by_cases t2 : u.type = .unary
  · rw [if_pos ⟨t2, hud t2⟩] at h
    obtain ⟨b, hb, rfl⟩ := Option.map_eq_some_iff.1 h
    rw [t2] at hcl
    exact substUnary_good0 R hd (signed_lt _ hcl.1) (by rw [signed_div]; exact hud t2) n0 n1 hm hb
  · rw [if_neg (fun h => t2 h.1), if_neg (fun h => t2 h.1), if_neg (fun h => t2 h.1)] at h
    cases h
    exact good0_forget hm d

/-- the representation invariant after `hmat_subst` -/
theorem hmatSubst_inv {dim d : ℕ} (hd : d < dim) {u : UExpr} {dst : ℕ → Bound K} {m : Mem K}
    (hm : OctT.Good dim m) (hm0 : u.type ≠ .unary ∨ u.i ≠ d → Good0 dim m)
    (hcl : ClassOk (fun i => i < dim) u dst) {q : K} (hq : InD dst 0 q)
    {respect : Bool} (hr : respect = true → SC dim (G dim m)) {r : Mem K × Bool}
    (h : hmatSubst Rnd.exact u dst dim d m respect = some r) :
    (r.2 = true → SC dim (G dim r.1)) ∧ (r.2 = false → OctT.Good dim r.1) := by
  by_cases t : u.type = .unary ∧ u.i = d
  · have hcl' := hcl
    unfold hmatSubst at h
    unfold ClassOk at hcl
    rw [t.1] at hcl
    obtain ⟨hi, hu, hz⟩ := hcl
    rw [if_neg (by rw [t.1]; decide), if_neg (fun h => h.2 t.2)] at h
    rcases hu.1 with k1 | k1
    · rw [if_neg (fun h => by rw [k1] at h; exact absurd h.2 (by decide)), if_pos ⟨t.1, k1⟩] at h
      cases h
      refine hmatAssign_inv hd hm ?_ (q := -q) ?_ hr
      · unfold ClassOk
        rw [t.1]
        refine ⟨hi, ⟨hu.1, ?_, ?_⟩, fun j hj => ⟨?_, ?_⟩⟩
        · simp [Function.update, hu.2.1]
        · simp [Function.update, hu.2.2]
        · simp [Function.update, (hz j hj).1]
        · simp [Function.update, (hz j hj).2]
      · unfold InD at hq ⊢
        simp only [zero_add, Function.update_self, Function.update_of_ne (show (0:ℕ) ≠ 1 by decide)] at hq ⊢
        rw [_root_.neg_neg]; exact ⟨hq.2, hq.1⟩
    · rw [if_pos ⟨t.1, k1⟩] at h
      cases h
      exact hmatAssign_inv hd hm hcl' hq hr
  · have t' : u.type ≠ .unary ∨ u.i ≠ d := by
      by_cases e : u.type = .unary
      · right; intro e'; exact t ⟨e, e'⟩
      · left; exact e
    refine ⟨fun h2 => ?_, fun _ => (hmatSubst_good0 Rnd.exact hd hcl hq (hm0 t') (fun e => t'.resolve_left (by simpa using e)) h).good⟩
    unfold hmatSubst at h
    by_cases t1 : u.type = .zero
    · rw [if_pos t1] at h
      obtain ⟨b, hb, rfl⟩ := Option.map_eq_some_iff.1 h
      simp at h2
    rw [if_neg t1] at h
    by_cases t2 : u.type = .unary
    · rw [if_pos ⟨t2, t'.resolve_left (by simpa using t2)⟩] at h
      obtain ⟨b, hb, rfl⟩ := Option.map_eq_some_iff.1 h
      simp at h2
    · rw [if_neg (fun h => t2 h.1), if_neg (fun h => t2 h.1), if_neg (fun h => t2 h.1)] at h
      cases h
      exact SC_forget (hr h2) d

/-! ### the parallel versions -/

theorem assignAll_good {n intdim size : ℕ} : ∀ (es : List (Linexpr K)) (k : ℕ) (m r : Mem K),
    (∀ e ∈ es, e.InDim n ∧ e.Proper) → k + es.length ≤ size → OctT.Good (n + size) m →
    OctT.assignAll Rnd.exact n intdim size es k m = some r → OctT.Good (n + size) r := by
  intro es
  induction es with
  | nil => intro k m r _ _ hm h; cases h; exact hm
  | cons e es ih =>
    intro k m r he hk hm h
    simp only [List.length_cons] at hk
    unfold OctT.assignAll at h
    simp only at h
    by_cases t : (uexprOf Rnd.exact e intdim).1.type = .empty
    · rw [if_pos t] at h; cases h
    · rw [if_neg t] at h
      obtain ⟨h1, h2⟩ := he e (by simp)
      obtain ⟨q, hq⟩ := uexpr_cst Rnd.exact h2 t
      refine ih (k + 1) _ r (fun e' h' => he e' (by simp [h'])) (by omega) ?_ h
      exact (hmatAssign_inv (show n + k < n + size by omega) hm
        (uexpr_class Rnd.exact (h1.mono (Nat.le_add_right n size)) intdim) hq (by simp)).2 (hmatAssign_false _)

theorem substAll_good {n intdim size : ℕ} : ∀ (es : List (Linexpr K)) (k : ℕ) (m r : Mem K),
    (∀ e ∈ es, e.InDim n ∧ e.Proper) → k + es.length ≤ size → Good0 (n + size) m →
    OctT.substAll Rnd.exact n intdim size es k m = some r → Good0 (n + size) r := by
  intro es
  induction es with
  | nil => intro k m r _ _ hm h; cases h; exact hm
  | cons e es ih =>
    intro k m r he hk hm h
    simp only [List.length_cons] at hk
    unfold OctT.substAll at h
    simp only at h
    by_cases t : (uexprOf Rnd.exact e intdim).1.type = .empty
    · rw [if_pos t] at h; cases h
    · rw [if_neg t] at h
      obtain ⟨h1, h2⟩ := he e (by simp)
      obtain ⟨q, hq⟩ := uexpr_cst Rnd.exact h2 t
      have hcl := uexpr_class Rnd.exact h1 intdim
      cases hs : hmatSubst Rnd.exact (uexprOf Rnd.exact e intdim).1 (uexprOf Rnd.exact e intdim).2 (n + size) (n + k) m false with
      | none => rw [hs] at h; cases h
      | some b =>
        rw [hs] at h
        refine ih (k + 1) _ r (fun e' h' => he e' (by simp [h'])) (by omega) ?_ h
        refine hmatSubst_good0 Rnd.exact (show n + k < n + size by omega)
          (uexpr_class Rnd.exact (h1.mono (Nat.le_add_right n size)) intdim) hq hm (fun t2 => ?_) hs
        unfold ClassOk at hcl
        rw [t2] at hcl
        have := hcl.1; omega

theorem good0_of_sat {dim : ℕ} {m : Mem K} {x : ℕ → K} (h : Sat dim m x)
    (hd : ∀ i, i < 2 * dim → m (matpos i i) ≤ fin 0) : Good0 dim m :=
  ⟨noNinf_iff.2 fun i j hi hc e => by have := h i j hi hc; rw [e] at this; simp at this,
    fun i hi => le_antisymm (hd i hi) (by simpa using h i i hi (cell_refl i))⟩

theorem Mem.bmin_le {m : Mem K} {b : Bound K} {p : ℕ} (h : m p ≤ b) (q : ℕ) (v : Bound K) : (m.bmin q v) p ≤ b := by
  unfold Mem.bmin
  by_cases e : p = q
  · subst e; rw [Mem.set_self, bmin_eq_min]; exact le_trans (min_le_left _ _) h
  · rw [Mem.set_ne _ _ e]; exact h

theorem renameVar_diag {N t q i : ℕ} {m : Mem K} {b : Bound K} (hi : i < 2 * N) (h : m (matpos i i) ≤ b) :
    OctT.renameVar N m t q (matpos i i) ≤ b := by
  unfold OctT.renameVar
  simp only
  rw [forgetVar_cell false _ hi (cell_refl i)]
  rw [if_pos rfl, ite_self]
  refine Mem.bmin_le (Mem.bmin_le ?_ _ _) _ _
  refine foldl_inv (fun m : Mem K => m (matpos i i) ≤ b) _ _ (fun m j hj hm => Mem.bmin_le (Mem.bmin_le hm _ _) _ _) _
    (foldl_inv (fun m : Mem K => m (matpos i i) ≤ b) _ _ (fun m j hj hm => Mem.bmin_le (Mem.bmin_le hm _ _) _ _) _ h)

theorem renameAll_diag {n size i : ℕ} {b : Bound K} (hi : i < 2 * (n + size)) : ∀ (ts : List ℕ) (k : ℕ) (m : Mem K),
    m (matpos i i) ≤ b → OctT.renameAll n size ts k m (matpos i i) ≤ b := by
  intro ts
  induction ts with
  | nil => intro k m h; exact h
  | cons t ts ih =>
    intro k m h
    unfold OctT.renameAll
    exact ih _ _ (renameVar_diag hi h)

end Oct

namespace OctT
open Bound Oct
variable {K : Type*} [LinearOrder K] [Field K] [IsStrictOrderedRing K] [FloorRing K] (R : Rnd K)

/-- a well-formed destination of the right dimension -/
def DestWf (dest : Option (OctT K)) (dim : ℕ) : Prop := ∀ b, dest = some b → b.dim = dim ∧ Wf b

theorem good_meetDest {dest : Option (OctT K)} {dim : ℕ} (h : DestWf dest dim) {m : Mem K} (hm : Good dim m) :
    Good dim (meetDest dest m) := by
  cases dest with
  | none => exact hm
  | some b =>
    obtain ⟨hd, hb⟩ := h b rfl
    unfold meetDest
    simp only
    cases hm2 : b.best with
    | none => exact hm
    | some m2 =>
      simp only
      have h2 := hb.good_best hm2
      rw [hd] at h2
      refine ⟨fun p hp => ?_, fun i hi => ?_, fun i hi => ?_⟩
      · simp only [bmin_eq_min]
        rcases min_choice (m p) (m2 p) with e | e <;> rw [e]
        · exact hm.ne p hp
        · exact h2.ne p hp
      · simp only [hm.coh i hi, h2.coh i hi]
      · simp only [bmin_eq_min]
        exact le_min (hm.nn i hi) (h2.nn i hi)

theorem wf_pick {b : Bool} {m : Mem K} {dim intdim : ℕ} {dest : Option (OctT K)} (hd : DestWf dest dim)
    (h1 : b = true → SC dim (G dim m)) (h2 : b = false → Good dim m) (h3 : b = true → dest = none) :
    Wf (if b then (⟨none, some (meetDest dest m), dim, intdim⟩ : OctT K) else
      ⟨some (meetDest dest m), none, dim, intdim⟩) := by
  cases b with
  | true =>
    rw [h3 rfl]
    exact wf_of_SC (h1 rfl)
  | false => exact wf_of_good (good_meetDest hd (h2 rfl))

theorem hmatAssign_resp {u : UExpr} {dst : ℕ → Bound K} {dim d : ℕ} {m : Mem K} {b : Bool}
    (h : (hmatAssign R u dst dim d m b).2 = true) : b = true := by
  cases b with
  | true => rfl
  | false => rw [hmatAssign_false] at h; cases h

theorem hmatSubst_resp {u : UExpr} {dst : ℕ → Bound K} {dim d : ℕ} {m : Mem K} {b : Bool} {r : Mem K × Bool}
    (h : hmatSubst R u dst dim d m b = some r) (hr : r.2 = true) : b = true := by
  unfold hmatSubst at h
  by_cases t1 : u.type = .zero
  · rw [if_pos t1] at h
    obtain ⟨c, hc, rfl⟩ := Option.map_eq_some_iff.1 h
    simp at hr
  rw [if_neg t1] at h
  by_cases t2 : u.type = .unary ∧ u.i ≠ d
  · rw [if_pos t2] at h
    obtain ⟨c, hc, rfl⟩ := Option.map_eq_some_iff.1 h
    simp at hr
  rw [if_neg t2] at h
  by_cases t3 : u.type = .unary ∧ u.coefI = -1
  · rw [if_pos t3] at h
    cases h
    exact hmatAssign_resp R hr
  rw [if_neg t3] at h
  by_cases t4 : u.type = .unary ∧ u.coefI = 1
  · rw [if_pos t4] at h
    cases h
    exact hmatAssign_resp R hr
  · rw [if_neg t4] at h
    cases h
    exact hr

theorem wf_assignLinexpr {algo : ℤ} {a : OctT K} (ha : Wf a) {d : ℕ} {e : Linexpr K} {dest : Option (OctT K)}
    (hd : d < a.dim) (he : e.InDim a.dim) (hp : e.Proper) (hdest : DestWf dest a.dim) :
    Wf (assignLinexpr Rnd.exact algo a d e dest) := by
  unfold assignLinexpr
  simp only
  by_cases h1 : destEmpty dest = true
  · rw [if_pos h1]; exact wf_bottom _ _
  by_cases h2 : (uexprOf Rnd.exact e a.intdim).1.type = .empty
  · rw [if_neg h1, if_pos h2]; exact wf_bottom _ _
  rw [if_neg h1, if_neg h2]
  generalize ha' : (if (uexprOf Rnd.exact e a.intdim).1.type ≠ .unary ∨ (uexprOf Rnd.exact e a.intdim).1.i ≠ d then
    cacheIf Rnd.exact algo a else a) = a'
  have hdim : a'.dim = a.dim := by
    rw [← ha']; split_ifs
    · exact cacheIf_dim _ algo a
    · rfl
  have hw : Wf a' := by
    rw [← ha']; split_ifs
    · exact wf_cacheIf algo ha
    · exact ha
  cases hm : a'.best with
  | none => exact wf_bottom _ _
  | some m =>
    simp only
    obtain ⟨q, hq⟩ := uexpr_cst Rnd.exact hp h2
    have hinv := hmatAssign_inv (respect := a'.closed.isSome && decide (0 ≤ algo) && dest.isNone) (hdim ▸ hd)
      (hw.good_best hm) (by rw [hdim]; exact uexpr_class Rnd.exact he a.intdim) hq (fun hr => by
        simp only [Bool.and_eq_true, Option.isSome_iff_exists] at hr
        obtain ⟨⟨⟨c, hc⟩, -⟩, -⟩ := hr
        rw [best_of_closed hc] at hm
        cases hm
        exact hw.sc _ hc)
    refine wf_pick (by rw [hdim]; exact hdest) hinv.1 hinv.2 fun hr => ?_
    have := hmatAssign_resp _ hr
    simp only [Bool.and_eq_true] at this
    simpa using this.2

theorem good0_closed {algo : ℤ} {a : OctT K} (ha : Wf a) (h0 : 0 ≤ algo) {m : Mem K}
    (hm : (cacheIf Rnd.exact algo a).best = some m) : SC a.dim (G a.dim m) := by
  have hw := wf_cacheIf algo ha
  have hdim := cacheIf_dim Rnd.exact algo a
  have : (cacheIf Rnd.exact algo a).closed = some m := by
    unfold cacheIf at hm ⊢
    rw [if_pos h0] at hm ⊢
    rcases cached_cases Rnd.exact a with h | ⟨c, h⟩
    · rw [h] at hm; cases hm
    · rw [best_of_closed h] at hm; cases hm; exact h
  rw [← hdim]; exact hw.sc m this

theorem wf_substLinexpr {algo : ℤ} (h0 : 0 ≤ algo) {a : OctT K} (ha : Wf a) {d : ℕ} {e : Linexpr K}
    {dest : Option (OctT K)}
    (hd : d < a.dim) (he : e.InDim a.dim) (hp : e.Proper) (hdest : DestWf dest a.dim) :
    Wf (substLinexpr Rnd.exact algo a d e dest) := by
  unfold substLinexpr
  simp only
  by_cases h1 : destEmpty dest = true
  · rw [if_pos h1]; exact wf_bottom _ _
  by_cases h2 : (uexprOf Rnd.exact e a.intdim).1.type = .empty
  · rw [if_neg h1, if_pos h2]; exact wf_bottom _ _
  rw [if_neg h1, if_neg h2]
  generalize ha' : (if (uexprOf Rnd.exact e a.intdim).1.type ≠ .unary ∨ (uexprOf Rnd.exact e a.intdim).1.i ≠ d then
    cacheIf Rnd.exact algo a else a) = a'
  have hdim : a'.dim = a.dim := by
    rw [← ha']; split_ifs
    · exact cacheIf_dim _ algo a
    · rfl
  have hw : Wf a' := by
    rw [← ha']; split_ifs
    · exact wf_cacheIf algo ha
    · exact ha
  cases hm : a'.best with
  | none => exact wf_bottom _ _
  | some m =>
    simp only
    obtain ⟨q, hq⟩ := uexpr_cst Rnd.exact hp h2
    cases hs : hmatSubst Rnd.exact (uexprOf Rnd.exact e a.intdim).1 (uexprOf Rnd.exact e a.intdim).2 a'.dim d m
      (a'.closed.isSome && decide (0 ≤ algo) && dest.isNone) with
    | none => exact wf_bottom _ _
    | some r =>
      have hinv := hmatSubst_inv (hdim ▸ hd)
        (hw.good_best hm) (fun t => by
          rw [if_pos t] at ha'
          rw [hdim]
          exact good0_of_SC (good0_closed ha h0 (by rw [ha']; exact hm)))
        (by rw [hdim]; exact uexpr_class Rnd.exact he a.intdim) hq (fun hr => by
          simp only [Bool.and_eq_true, Option.isSome_iff_exists] at hr
          obtain ⟨⟨⟨c, hc⟩, -⟩, -⟩ := hr
          rw [best_of_closed hc] at hm
          cases hm
          exact hw.sc _ hc) hs
      refine wf_pick (by rw [hdim]; exact hdest) hinv.1 hinv.2 fun hr => ?_
      have := hmatSubst_resp _ hs hr
      simp only [Bool.and_eq_true] at this
      simpa using this.2

theorem closeIf_good {algo : ℤ} {n : ℕ} {m : Mem K} (h : Good n m)
    (hf : (if 0 ≤ algo then close Rnd.exact n m else (false, m)).1 = false) :
    Good n (if 0 ≤ algo then close Rnd.exact n m else (false, m)).2 := by
  by_cases h0 : 0 ≤ algo
  · rw [if_pos h0] at hf ⊢
    exact SC_good (close_SC h.ne h.coh hf)
  · rw [if_neg h0]; exact h

theorem wf_assignArray {algo : ℤ} {uninit : Mem K} {a : OctT K} (ha : Wf a) {te : List (ℕ × Linexpr K)}
    {dest : Option (OctT K)} (hn : (te.map Prod.fst).Nodup) (hd : ∀ p ∈ te, p.1 < a.dim)
    (he : ∀ p ∈ te, p.2.InDim a.dim ∧ p.2.Proper) (hdest : DestWf dest a.dim) :
    Wf (assignLinexprArray Rnd.exact algo uninit a te dest) := by
  unfold assignLinexprArray
  split
  · rename_i d e
    have := he (d, e) (by simp)
    exact wf_assignLinexpr ha (hd (d, e) (by simp)) this.1 this.2 hdest
  by_cases h1 : destEmpty dest = true
  · rw [if_pos h1]; exact wf_bottom _ _
  rw [if_neg h1]
  simp only
  have hw := wf_cacheIf algo ha
  rw [cacheIf_dim, cacheIf_intdim]
  cases hm : (cacheIf Rnd.exact algo a).best with
  | none => exact wf_bottom _ _
  | some m =>
    simp only
    have hg := hw.good_best hm
    rw [cacheIf_dim] at hg
    cases hA : assignAll Rnd.exact a.dim a.intdim te.length (te.map Prod.snd) 0 (extendTop a.dim te.length m) with
    | none => exact wf_bottom _ _
    | some mm =>
      simp only
      have h2 := assignAll_good _ _ _ _ (fun e hm => by
        obtain ⟨p, hp, rfl⟩ := List.mem_map.1 hm; exact he p hp) (by simp) (good_extend hg) hA
      cases hf : (if 0 ≤ algo then close Rnd.exact (a.dim + te.length) mm else (false, mm)).1 with
      | true => simp only [if_true]; exact wf_bottom _ _
      | false =>
        have h3 := closeIf_good h2 hf
        simp only [Bool.false_eq_true, if_false]
        refine wf_of_good (good_meetDest hdest ?_)
        refine permute_good (inv := arrayInv a.dim (te.map Prod.fst)) ?_ ?_ h3
        · intro i j h1 h2 h3 h4
          exact arrayPerm_inj hn i j (by simpa using h1) (by simpa using h2) h3 h4
        · intro v hv
          have := arrayPerm_inv (n := a.dim) (td := te.map Prod.fst) v hv
          rw [List.length_map] at this; exact this

theorem wf_substArray {algo : ℤ} (h0 : 0 ≤ algo) {a : OctT K} (ha : Wf a) {te : List (ℕ × Linexpr K)}
    {dest : Option (OctT K)} (hn : (te.map Prod.fst).Nodup) (hd : ∀ p ∈ te, p.1 < a.dim)
    (he : ∀ p ∈ te, p.2.InDim a.dim ∧ p.2.Proper) (hdest : DestWf dest a.dim) :
    Wf (substLinexprArray Rnd.exact algo a te dest) := by
  unfold substLinexprArray
  split
  · rename_i d e
    have := he (d, e) (by simp)
    exact wf_substLinexpr h0 ha (hd (d, e) (by simp)) this.1 this.2 hdest
  by_cases h1 : destEmpty dest = true
  · rw [if_pos h1]; exact wf_bottom _ _
  rw [if_neg h1]
  simp only
  have hw := wf_cacheIf algo ha
  rw [cacheIf_dim, cacheIf_intdim]
  cases hm : (cacheIf Rnd.exact algo a).best with
  | none => exact wf_bottom _ _
  | some m =>
    simp only
    have hsc := good0_closed ha h0 hm
    obtain ⟨y, hy⟩ := hsc.nonempty
    let vs : ℕ → K := fun k => y ((te.map Prod.fst).getD k 0)
    have hvs : ∀ i (h : i < te.length), vs i = y (te[i]).1 := fun i h => by
      simp only [vs]
      rw [List.getD, List.getElem?_eq_getElem (by simpa using h)]
      simp
    have hext : Sat (a.dim + te.length) (extendTop a.dim te.length m) (tmpPt y vs a.dim te.length) := by
      refine extendTop_sat ((sat_congr fun v hv => ?_).1 hy)
      unfold tmpPt; rw [if_neg (by omega)]
    have hr := renameAll_sat (x := y) (te.map Prod.fst) 0 _ _ (fun t ht => by
        obtain ⟨p, hp, rfl⟩ := List.mem_map.1 ht; exact hd p hp) hn (by simp) hext (fun i h => by
        have hi : i < te.length := by simpa using h
        have hdi := hd te[i] (List.getElem_mem hi)
        simp only [List.getElem_map]
        unfold tmpPt
        rw [if_pos (by omega), if_neg (by omega), show a.dim + (0 + i) - a.dim = i by omega, hvs i hi])
    have hg0 := good0_of_sat hr fun i hi => renameAll_diag hi _ _ _ (by
      rw [(good0_extend (good0_of_SC hsc)).diag i hi])
    cases hA : substAll Rnd.exact a.dim a.intdim te.length (te.map Prod.snd) 0
        (renameAll a.dim te.length (te.map Prod.fst) 0 (extendTop a.dim te.length m)) with
    | none => exact wf_bottom _ _
    | some mm =>
      simp only
      have h2 := substAll_good _ _ _ _ (fun e hm => by
        obtain ⟨p, hp, rfl⟩ := List.mem_map.1 hm; exact he p hp) (by simp) hg0 hA
      cases hf : (if 0 ≤ algo then close Rnd.exact (a.dim + te.length) mm else (false, mm)).1 with
      | true => simp only [if_true]; exact wf_bottom _ _
      | false =>
        have h3 := closeIf_good h2.good hf
        simp only [Bool.false_eq_true, if_false]
        refine wf_of_good (good_meetDest hdest ?_)
        exact ⟨noNinf_iff.2 fun i j hi hc => noNinf_iff.1 h3.ne i j (by omega) hc, fun i hi => h3.coh i (by omega),
          fun i hi => h3.nn i (by omega)⟩

end OctT
end Apron
