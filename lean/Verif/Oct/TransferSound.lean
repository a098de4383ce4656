import Verif.Oct.AssignWf

/-! # Helper lemmas: assignments and substitutions of octagon values -/

set_option autoImplicit false
set_option linter.unusedSectionVars false
set_option linter.ambiguousOpen false

namespace Apron

theorem Linexpr.InDim.mono {K : Type*} {e : Linexpr K} {n n' : ℕ} (h : e.InDim n) (hn : n ≤ n') : e.InDim n' :=
  ⟨h.1, fun d hd => lt_of_lt_of_le (h.2 d hd) hn⟩

theorem termsVal_congr {K : Type*} [LinearOrder K] [Field K] [IsStrictOrderedRing K] {x y : ℕ → K}
    (l : List (ℕ × Coeff K)) (h : ∀ d ∈ l.map Prod.fst, x d = y d) {r : K} (hv : Linexpr.TermsVal l x r) :
    Linexpr.TermsVal l y r := by
  induction l generalizing r with
  | nil => exact hv
  | cons t l ih =>
    obtain ⟨q, s, hq, hs, rfl⟩ := hv
    exact ⟨q, s, hq, ih (fun d hd => h d (by simp only [List.map_cons, List.mem_cons]; exact Or.inr hd)) hs,
      by rw [h t.1 (by simp)]⟩

theorem val_congr {K : Type*} [LinearOrder K] [Field K] [IsStrictOrderedRing K] {e : Linexpr K} {n : ℕ}
    (he : e.InDim n) {x y : ℕ → K} (h : ∀ d, d < n → x d = y d) {v : K} (hv : e.Val x v) : e.Val y v := by
  obtain ⟨q, r, hq, hr, rfl⟩ := hv
  exact ⟨q, r, hq, termsVal_congr _ (fun d hd => h d (he.2 d hd)) hr, rfl⟩

namespace Oct
open Bound Finset
variable {K : Type*} [LinearOrder K] [Field K] [IsStrictOrderedRing K] [FloorRing K] (R : Rnd K)

theorem sgn_nn {b : Bound K} (h : fin 0 ≤ b) : ¬ sgn b < 0 := by
  rw [sgn_neg_iff, not_lt]; exact h

theorem substZero_sat {dim d : ℕ} (hd : d < dim) {dst : ℕ → Bound K} {m : Mem K} {y : ℕ → K}
    (hm : Sat dim m y) (hc : InD dst 0 (y d)) (w : K) :
    ∃ r, substZero R dst dim d m = some r ∧ Sat dim r (Function.update y d w) := by
  unfold substZero
  have e0 : V y (2 * d) = y d := V_even _ _
  have e1 : V y (2 * d + 1) = -y d := V_odd _ _
  have c0 := hc.1
  have c1 := hc.2
  have hu := hm _ _ (show 2 * d + 1 < 2 * dim by omega) (cell_un d).1
  have hl := hm _ _ (show 2 * d < 2 * dim by omega) (cell_un d).2
  rw [e0, e1] at hu hl
  have t2 := add_ge R (mul2_ge R c0) hu
  have t3 := add_ge R (mul2_ge R c1) hl
  rw [show 2 * -y d + (y d - -y d) = 0 by ring] at t2
  rw [show 2 * y d + (-y d - y d) = 0 by ring] at t3
  simp only
  rw [if_neg (fun h => h.elim (sgn_nn t2) (sgn_nn t3))]
  refine ⟨_, rfl, forgetVar_sat ?_ w⟩
  refine foldl_inv (fun m => Sat dim m y) _ _ (fun m i hi hm => ?_) _
    (foldl_inv (fun m => Sat dim m y) _ _ (fun m i hi hm => ?_) _ hm)
  · have hi : 2 * d + 2 ≤ i ∧ i < 2 * dim := by
      rw [List.mem_range'_1] at hi; omega
    have h1 := hm i (2 * d) hi.2 (by unfold Cell; omega)
    have h2 := hm i (2 * d + 1) hi.2 (by unfold Cell; omega)
    rw [e0] at h1; rw [e1] at h2
    refine (hm.bmin (cell_self_xor i) ?_).bmin (cell_self_xor i) ?_
    · refine le_trans (le_of_eq ?_) (mul2_ge R (add_ge R c0 h1))
      rw [V_xor1]; congr 1; ring
    · refine le_trans (le_of_eq ?_) (mul2_ge R (add_ge R c1 h2))
      rw [V_xor1]; congr 1; ring
  · have hi : i < 2 * d := by simpa using hi
    have hx : (i ^^^ 1) < 2 * d := xor1_lt hi
    have h1 := hm (2 * d + 1) (i ^^^ 1) (by omega) (by unfold Cell; omega)
    have h2 := hm (2 * d) (i ^^^ 1) (by omega) (by unfold Cell; omega)
    rw [e1, V_xor1] at h1; rw [e0, V_xor1] at h2
    refine (hm.bmin (cell_self_xor i) ?_).bmin (cell_self_xor i) ?_
    · refine le_trans (le_of_eq ?_) (mul2_ge R (add_ge R c0 h1))
      rw [V_xor1]; congr 1; ring
    · refine le_trans (le_of_eq ?_) (mul2_ge R (add_ge R c1 h2))
      rw [V_xor1]; congr 1; ring

theorem substUnary_sat {dim d k : ℕ} (hd : d < dim) (hk : k < 2 * dim) {dst : ℕ → Bound K} {m : Mem K}
    {y : ℕ → K} (hm : Sat dim m y) (hc : InD dst 0 (y d - V y k)) (w : K) :
    ∃ r, substUnary R dst dim d k m = some r ∧ Sat dim r (Function.update y d w) := by
  unfold substUnary
  have e0 : V y (2 * d) = y d := V_even _ _
  have e1 : V y (2 * d + 1) = -y d := V_odd _ _
  have c0 := hc.1
  have c1 := hc.2
  rw [zero_add] at c1
  have hu := hm.le2 hk (show 2 * d < 2 * dim by omega)
  have hl := hm.le2 (show 2 * d < 2 * dim by omega) hk
  rw [e0] at hu hl
  have t2 := add_ge R c0 hu
  have t3 := add_ge R c1 hl
  rw [show -(y d - V y k) + (y d - V y k) = 0 by ring] at t2
  rw [show (y d - V y k) + (V y k - y d) = 0 by ring] at t3
  simp only
  rw [if_neg (fun h => h.elim (sgn_nn t2) (sgn_nn t3))]
  refine ⟨_, rfl, forgetVar_sat ?_ w⟩
  have key : Sat dim _ y := foldl_inv (fun m => Sat dim m y) (fun (m : Mem K) i =>
      (m.bmin (matpos2 (k ^^^ 1) i) (add R (dst 0) (m (matpos (i ^^^ 1) (2 * d))))).bmin (matpos2 k i)
        (add R (dst 1) (m (matpos (i ^^^ 1) (2 * d + 1)))))
      (List.range' (2 * d + 2) (2 * dim - (2 * d + 2))) (fun m i hi hm => ?_) _
    (foldl_inv (fun m => Sat dim m y) (fun (m : Mem K) i =>
      (m.bmin (matpos2 (k ^^^ 1) i) (add R (dst 0) (m (matpos (2 * d + 1) i)))).bmin (matpos2 k i)
        (add R (dst 1) (m (matpos (2 * d) i)))) (List.range (2 * d)) (fun m i hi hm => ?_) _ hm)
  · have hu := key _ _ (show 2 * d + 1 < 2 * dim by omega) (cell_un d).1
    have hl := key _ _ (show 2 * d < 2 * dim by omega) (cell_un d).2
    rw [e0, e1] at hu hl
    refine (key.bmin (cell_xor_self k) ?_).bmin (cell_self_xor k) ?_
    · refine le_trans (le_of_eq ?_) (add_ge R (mul2_ge R c0) hu)
      rw [V_xor1]; congr 1; ring
    · refine le_trans (le_of_eq ?_) (add_ge R (mul2_ge R c1) hl)
      rw [V_xor1]; congr 1; ring
  · have hi : 2 * d + 2 ≤ i ∧ i < 2 * dim := by
      rw [List.mem_range'_1] at hi; omega
    have hx : (i ^^^ 1) / 2 = i / 2 := xor1_div i
    have h1 := hm (i ^^^ 1) (2 * d) (xor1_lt hi.2) (by unfold Cell; omega)
    have h2 := hm (i ^^^ 1) (2 * d + 1) (xor1_lt hi.2) (by unfold Cell; omega)
    rw [e0, V_xor1] at h1; rw [e1, V_xor1] at h2
    refine (hm.bmin2 ?_).bmin2 ?_
    · refine le_trans (le_of_eq ?_) (add_ge R c0 h1)
      rw [V_xor1]; congr 1; ring
    · refine le_trans (le_of_eq ?_) (add_ge R c1 h2)
      congr 1; ring
  · have hi : i < 2 * d := by simpa using hi
    have h1 := hm (2 * d + 1) i (by omega) (by unfold Cell; omega)
    have h2 := hm (2 * d) i (by omega) (by unfold Cell; omega)
    rw [e1] at h1; rw [e0] at h2
    refine (hm.bmin2 ?_).bmin2 ?_
    · refine le_trans (le_of_eq ?_) (add_ge R c0 h1)
      rw [V_xor1]; congr 1; ring
    · refine le_trans (le_of_eq ?_) (add_ge R c1 h2)
      congr 1; ring

/-- soundness of `hmat_subst` -/
theorem hmatSubst_sat {dim d : ℕ} (hd : d < dim) {u : UExpr} {dst : ℕ → Bound K} {m : Mem K} {x : ℕ → K}
    {v : K} (hm : Sat dim m (Function.update x d v)) (hcl : ClassOk (fun i => i < dim) u dst)
    (hf : FormVal dim dst x v) (hne : u.type ≠ .empty) (respect : Bool) :
    ∃ r, hmatSubst R u dst dim d m respect = some r ∧ Sat dim r.1 x := by
  have hback : Function.update (Function.update x d v) d (x d) = x := by
    rw [Function.update_idem, Function.update_eq_self]
  unfold hmatSubst
  have hcl' := hcl
  unfold ClassOk at hcl
  by_cases t1 : u.type = .zero
  · rw [if_pos t1]
    rw [t1] at hcl
    obtain ⟨r, h1, h2⟩ := substZero_sat R hd hm (by
      rw [Function.update_self]; exact (formVal_zero hcl).1 hf) (x d)
    rw [hback] at h2
    exact ⟨(r, false), by rw [h1]; rfl, h2⟩
  rw [if_neg t1]
  by_cases t2 : u.type = .unary
  · rw [t2] at hcl
    obtain ⟨hi, hu, hz⟩ := hcl
    have hf' := (formVal_unary hi hu hz).1 hf
    by_cases e : u.i = d
    · rw [if_neg (fun h => h.2 e)]
      have hVk : V x (signed u.i u.coefI) = u.coefI * x d := by rw [V_signed x _ hu.1, e]
      rcases hu.1 with k1 | k1
      · rw [if_neg (fun h => by rw [k1] at h; exact absurd h.2 (by decide)), if_pos ⟨t2, k1⟩]
        refine ⟨_, rfl, ?_⟩
        have := hmatAssign_sat (u := u) (v := x d) (dst := Function.update (Function.update dst 0 (dst 1)) 1 (dst 0)) R hd hm ?_ ?_ ?_ hne respect
        · rw [hback] at this; exact this
        · unfold ClassOk
          rw [t2]
          refine ⟨hi, ⟨hu.1, ?_, ?_⟩, fun j hj => ⟨?_, ?_⟩⟩
          · simp [Function.update, hu.2.1]
          · simp [Function.update, hu.2.2]
          · simp [Function.update, (hz j hj).1]
          · simp [Function.update, (hz j hj).2]
        · have hu' : UnitAt (Function.update (Function.update dst 0 (dst 1)) 1 (dst 0)) u.i u.coefI :=
            ⟨hu.1, by simp [Function.update, hu.2.1], by simp [Function.update, hu.2.2]⟩
          have hz' : ∀ j, j ≠ u.i → ZeroAt (Function.update (Function.update dst 0 (dst 1)) 1 (dst 0)) j :=
            fun j hj => ⟨by simp [Function.update, (hz j hj).1], by simp [Function.update, (hz j hj).2]⟩
          rw [formVal_unary hi hu' hz', V_signed _ _ hu.1, e, Function.update_self, k1]
          rw [hVk, k1] at hf'
          unfold InD at hf' ⊢
          simp only [zero_add, Function.update_self, Function.update_of_ne (show (0:ℕ) ≠ 1 by decide)] at hf' ⊢
          push_cast at hf' ⊢
          constructor
          · convert hf'.2 using 2; ring
          · convert hf'.1 using 2; ring
        · intro h; rw [t2] at h; rcases h with h | h <;> cases h
      · rw [if_pos ⟨t2, k1⟩]
        refine ⟨_, rfl, ?_⟩
        have := hmatAssign_sat (u := u) (v := x d) (dst := dst) R hd hm hcl' ?_ ?_ hne respect
        · rw [hback] at this; exact this
        · rw [formVal_unary hi hu hz, V_signed _ _ hu.1, e, Function.update_self, k1]
          rw [hVk, k1] at hf'
          unfold InD at hf' ⊢
          push_cast at hf' ⊢
          constructor
          · convert hf'.1 using 2; ring
          · convert hf'.2 using 2; ring
        · intro h; rw [t2] at h; rcases h with h | h <;> cases h
    · rw [if_pos ⟨t2, e⟩]
      obtain ⟨r, h1, h2⟩ := substUnary_sat R hd (signed_lt u.coefI hi) (dst := dst) hm (by
        rw [Function.update_self, V_update_ne _ _ (by rw [signed_div]; exact e)]; exact hf') (x d)
      rw [hback] at h2
      exact ⟨(r, false), by rw [h1]; rfl, h2⟩
  · rw [if_neg (fun h => t2 h.1), if_neg (fun h => t2 h.1), if_neg (fun h => t2 h.1)]
    refine ⟨_, rfl, ?_⟩
    have := forgetVar_sat (d := d) hm (x d)
    rw [hback] at this
    exact this

/-! ### the additional dimensions of the parallel versions -/

theorem matpos_ge {i j n : ℕ} (hi : 2 * n ≤ i) : matsize n ≤ matpos i j := by
  obtain ⟨h, rfl | rfl⟩ : ∃ h, i = 2 * h ∨ i = 2 * h + 1 := ⟨i / 2, by omega⟩
  · rw [matpos_even]
    have : matsize n ≤ matsize h := by unfold matsize; gcongr <;> omega
    omega
  · rw [matpos_odd]
    have : matsize n ≤ matsize h := by unfold matsize; gcongr <;> omega
    omega

theorem extendTop_cell {n k : ℕ} (m : Mem K) {i j : ℕ} (hi : i < 2 * (n + k)) (hc : Cell i j) :
    OctT.extendTop n k m (matpos i j) =
      if i < 2 * n then m (matpos i j) else if i = j then fin 0 else pinf := by
  have h := copyArr_upd (allocTop (n + k) : Mem K) m 0 0 (matsize n)
  unfold OctT.extendTop
  split_ifs with h1 h2
  · exact h.1 _ _ ⟨matpos i j, matpos_lt h1 hc, by omega, by omega⟩
  · rw [h.2 _ (by rintro q ⟨r, hr, e, -⟩; have := matpos_ge (n := n) (j := j) (show 2 * n ≤ i by omega); omega),
      allocTop_cell _ hi hc, if_pos h2]
  · rw [h.2 _ (by rintro q ⟨r, hr, e, -⟩; have := matpos_ge (n := n) (j := j) (show 2 * n ≤ i by omega); omega),
      allocTop_cell _ hi hc, if_neg h2]

theorem extendTop_sat {n k : ℕ} {m : Mem K} {x : ℕ → K} (h : Sat n m x) : Sat (n + k) (OctT.extendTop n k m) x := by
  intro i j hi hc
  rw [extendTop_cell m hi hc]
  split_ifs with h1 h2
  · exact h i j h1 hc
  · subst h2; simp
  · simp

/-- a dimension that does not occur in the expression has coefficient zero -/
theorem uexpr_zeroAt {e : Linexpr K} {intdim j : ℕ} (h : j ∉ e.terms.map Prod.fst) :
    ZeroAt (uexprOf R e intdim).2 j := by
  unfold uexprOf
  refine ⟨?_, ?_⟩
  · rw [foldl_other R _ _ _ (fun t ht => ?_), coeffStep_ne R _ _ _ _ (by omega) (by omega)]
    have : t.1 ≠ j := fun e => h (e ▸ List.mem_map_of_mem ht)
    omega
  · rw [foldl_other R _ _ _ (fun t ht => ?_), coeffStep_ne R _ _ _ _ (by omega) (by omega)]
    have : t.1 ≠ j := fun e => h (e ▸ List.mem_map_of_mem ht)
    omega

/-- the point with the temporary dimensions `n..n+k-1` holding the values `vs` -/
def tmpPt (x vs : ℕ → K) (n k : ℕ) : ℕ → K := fun j => if n ≤ j ∧ j < n + k then vs (j - n) else x j

theorem tmpPt_succ (x vs : ℕ → K) (n k : ℕ) :
    Function.update (tmpPt x vs n k) (n + k) (vs k) = tmpPt x vs n (k + 1) := by
  funext j
  unfold tmpPt
  by_cases e : j = n + k
  · subst e
    rw [Function.update_self, if_pos (by omega)]
    congr 1; omega
  · rw [Function.update_of_ne e]
    by_cases h : n ≤ j ∧ j < n + k
    · rw [if_pos h, if_pos (by omega)]
    · rw [if_neg h, if_neg (by omega)]

theorem assignAll_sat {n intdim size : ℕ} {x vs : ℕ → K} : ∀ (es : List (Linexpr K)) (k : ℕ) (m : Mem K),
    (∀ e ∈ es, e.InDim n) → (∀ i (h : i < es.length), (es[i]).Val x (vs (k + i))) → k + es.length ≤ size →
    Sat (n + size) m (tmpPt x vs n k) →
    ∃ r, OctT.assignAll R n intdim size es k m = some r ∧ Sat (n + size) r (tmpPt x vs n (k + es.length)) := by
  intro es
  induction es with
  | nil => intro k m _ _ _ hm; exact ⟨m, rfl, hm⟩
  | cons e es ih =>
    intro k m he hv hk hm
    simp only [List.length_cons] at hk
    have hv0 : e.Val x (vs k) := hv 0 (by simp)
    have he0 := he e (by simp)
    have hv0' : e.Val (tmpPt x vs n k) (vs k) := val_congr he0 (fun d hd => by
      unfold tmpPt; rw [if_neg (by omega)]) hv0
    unfold OctT.assignAll
    have hne : (uexprOf R e intdim).1.type ≠ .empty := fun h => uexpr_empty R h _ _ hv0
    simp only
    rw [if_neg hne]
    have he1 := he0.mono (Nat.le_add_right n size)
    have hz : ZeroAt (uexprOf R e intdim).2 (n + size - 1) := uexpr_zeroAt R fun h => by
      have := he0.2 _ h; omega
    have hs := hmatAssign_sat R (show n + k < n + size by omega) hm (uexpr_class R he1 intdim)
      (val_form R he1 hv0') (fun _ => genOk_of_zero R hz) hne false
    rw [tmpPt_succ] at hs
    obtain ⟨r, h1, h2⟩ := ih (k + 1) _ (fun e' h' => he e' (by simp [h']))
      (fun i h => by
        have := hv (i + 1) (by simpa using h)
        rw [List.getElem_cons_succ] at this
        rw [show k + 1 + i = k + (i + 1) by omega]; exact this) (by omega) hs
    refine ⟨r, h1, ?_⟩
    rw [List.length_cons, show k + (es.length + 1) = k + 1 + es.length by omega]
    exact h2

theorem V_lift' (x : ℕ → K) (w i : ℕ) : V x (2 * w + i % 2) = if i % 2 = 0 then x w else -x w := by
  rw [V_eq]
  rw [show (2 * w + i % 2) / 2 = w by omega, show (2 * w + i % 2) % 2 = i % 2 by omega]

theorem permute_sat {n N : ℕ} {perm inv : ℕ → ℕ}
    (hinj : ∀ i j, i < N → j < N → perm i < n → perm i = perm j → i = j)
    (hinv : ∀ v, v < n → inv v < N ∧ perm (inv v) = v) {m dst : Mem K} {z y : ℕ → K} (hm : Sat N m z)
    (hy : ∀ v, v < n → y v = z (inv v)) : Sat n (hmatPermute dst m n N perm) y := by
  intro i j hi hc
  have hil : i / 2 < n := by omega
  have hjl : j / 2 < n := by unfold Cell at hc; omega
  have h1 := (hinv _ hil).1
  have h2 := (hinv _ hjl).1
  rw [permute_cell hinj hinv m dst hi hc]
  have := hm.le2 (show 2 * inv (i / 2) + i % 2 < 2 * N by omega) (show 2 * inv (j / 2) + j % 2 < 2 * N by omega)
  rw [V_lift', V_lift', ← hy _ hil, ← hy _ hjl] at this
  exact this

theorem permute_good {n N : ℕ} {perm inv : ℕ → ℕ}
    (hinj : ∀ i j, i < N → j < N → perm i < n → perm i = perm j → i = j)
    (hinv : ∀ v, v < n → inv v < N ∧ perm (inv v) = v) {m dst : Mem K} (hm : OctT.Good N m) :
    OctT.Good n (hmatPermute dst m n N perm) := by
  have hd : ∀ i, i < 2 * n → hmatPermute dst m n N perm (matpos i i) =
      m (matpos (2 * inv (i / 2) + i % 2) (2 * inv (i / 2) + i % 2)) := fun i hi => by
    rw [permute_cell hinj hinv m dst hi (cell_refl i), matpos2_cell (cell_refl _)]
  refine ⟨noNinf_iff.2 fun i j hi hc => ?_, fun i hi => ?_, fun i hi => ?_⟩
  · have hil : i / 2 < n := by omega
    have hjl : j / 2 < n := by unfold Cell at hc; omega
    have h1 := (hinv _ hil).1
    have h2 := (hinv _ hjl).1
    rw [permute_cell hinj hinv m dst hi hc]
    exact hm.ne _ (matpos2_lt (by omega) (by omega))
  · have h1 := (hinv (i / 2) (by omega)).1
    rw [hd i hi, hd _ (xor1_lt hi), xor1_div, lift_xor]
    exact hm.coh _ (by omega)
  · have h1 := (hinv (i / 2) (by omega)).1
    rw [hd i hi]; exact hm.nn _ (by omega)

/-- source of dimension `v` for the permutation of the parallel assignment -/
def arrayInv (n : ℕ) (td : List ℕ) : ℕ → ℕ := fun v => if v ∈ td then n + td.idxOf v else v

theorem arrayPerm_inj {n : ℕ} {td : List ℕ} (hn : td.Nodup) (i j : ℕ) (hi : i < n + td.length)
    (hj : j < n + td.length) (hp : OctT.arrayPerm n td i < n)
    (h : OctT.arrayPerm n td i = OctT.arrayPerm n td j) : i = j := by
  unfold OctT.arrayPerm at hp h
  have hget : ∀ k, n ≤ k → k < n + td.length → ∃ hk : k - n < td.length, td.getD (k - n) 0 = td[k - n] :=
    fun k h1 h2 => ⟨by omega, by rw [List.getD, List.getElem?_eq_getElem (by omega)]; rfl⟩
  by_cases h1 : n ≤ i
  · obtain ⟨k1, e1⟩ := hget i h1 hi
    rw [if_pos h1, e1] at hp h
    by_cases h2 : n ≤ j
    · obtain ⟨k2, e2⟩ := hget j h2 hj
      rw [if_pos h2, e2] at h
      have := (List.Nodup.getElem_inj_iff hn).1 h
      omega
    · rw [if_neg h2] at h
      by_cases h3 : j ∈ td
      · rw [if_pos h3] at h; omega
      · rw [if_neg h3] at h
        exact absurd (h ▸ List.getElem_mem k1) h3
  · rw [if_neg h1] at hp h
    by_cases h4 : i ∈ td
    · rw [if_pos h4] at hp; omega
    · rw [if_neg h4] at hp h
      by_cases h2 : n ≤ j
      · obtain ⟨k2, e2⟩ := hget j h2 hj
        rw [if_pos h2, e2] at h
        exact absurd (h ▸ List.getElem_mem k2) h4
      · rw [if_neg h2] at h
        by_cases h3 : j ∈ td
        · rw [if_pos h3] at h; omega
        · rw [if_neg h3] at h; exact h

theorem arrayPerm_inv {n : ℕ} {td : List ℕ} (v : ℕ) (hv : v < n) :
    arrayInv n td v < n + td.length ∧ OctT.arrayPerm n td (arrayInv n td v) = v := by
  unfold arrayInv OctT.arrayPerm
  by_cases h : v ∈ td
  · have := List.idxOf_lt_length_of_mem h
    rw [if_pos h, if_pos (by omega)]
    refine ⟨by omega, ?_⟩
    rw [List.getD, List.getElem?_eq_getElem (by omega)]
    simp
  · rw [if_neg h, if_neg (by omega), if_neg h]
    exact ⟨by omega, rfl⟩

/-! ### renaming in parallel substitution -/

theorem Sat.copy {N : ℕ} {m : Mem K} {z : ℕ → K} (hm : Sat N m z) {i j k l : ℕ} (hc : Cell i j) (hk : k < 2 * N)
    (hl : Cell k l) (e : V z j - V z i = V z l - V z k) : Sat N (m.bmin (matpos i j) (m (matpos k l))) z :=
  hm.bmin hc (by rw [e]; exact hm k l hk hl)

theorem renameVar_sat {N t q : ℕ} (ht : t < q) (hq : q < N) {m : Mem K} {z : ℕ → K} (hm : Sat N m z) (hz : z q = z t)
    (w : K) : Sat N (OctT.renameVar N m t q) (Function.update z t w) := by
  unfold OctT.renameVar
  simp only
  refine forgetVar_sat ?_ w
  have e0 : V z (2 * q) = V z (2 * t) := by rw [V_even, V_even, hz]
  have e1 : V z (2 * q + 1) = V z (2 * t + 1) := by rw [V_odd, V_odd, hz]
  have key : Sat N _ z := foldl_inv (fun m => Sat N m z) (fun (m : Mem K) j =>
      (m.bmin (matpos2 (2 * q + 1) j) (m (matpos (j ^^^ 1) (2 * t)))).bmin (matpos2 (2 * q) j)
        ((m.bmin (matpos2 (2 * q + 1) j) (m (matpos (j ^^^ 1) (2 * t)))) (matpos (j ^^^ 1) (2 * t + 1))))
      (List.range' (2 * t + 2) (2 * N - (2 * t + 2))) (fun m j hj hm => ?_) _
    (foldl_inv (fun m => Sat N m z) (fun (m : Mem K) j =>
      (m.bmin (matpos (2 * q + 1) j) (m (matpos (2 * t + 1) j))).bmin (matpos (2 * q) j)
        ((m.bmin (matpos (2 * q + 1) j) (m (matpos (2 * t + 1) j))) (matpos (2 * t) j)))
      (List.range (2 * t)) (fun m j hj hm => ?_) _ hm)
  · refine Sat.copy (Sat.copy key ?_ ?_ ?_ ?_) ?_ ?_ ?_ ?_
    all_goals first | (unfold Cell; omega) | omega | rw [e0, e1]
  · have hj : 2 * t + 2 ≤ j ∧ j < 2 * N := by
      rw [List.mem_range'_1] at hj; omega
    have hx : (j ^^^ 1) / 2 = j / 2 := xor1_div j
    have k1 : Sat N (m.bmin (matpos2 (2 * q + 1) j) (m (matpos (j ^^^ 1) (2 * t)))) z := hm.bmin2 (by
      refine le_trans (le_of_eq ?_) (hm (j ^^^ 1) (2 * t) (xor1_lt hj.2) (by unfold Cell; omega))
      rw [e1, V_xor1, V_even, V_odd]; congr 1; ring)
    refine k1.bmin2 ?_
    refine le_trans (le_of_eq ?_) (k1 (j ^^^ 1) (2 * t + 1) (xor1_lt hj.2) (by unfold Cell; omega))
    rw [e0, V_xor1, V_even, V_odd]; congr 1; ring
  · have hj : j < 2 * t := by simpa using hj
    have k1 : Sat N (m.bmin (matpos (2 * q + 1) j) (m (matpos (2 * t + 1) j))) z :=
      hm.bmin (by unfold Cell; omega) (by rw [e1]; exact hm _ _ (by omega) (by unfold Cell; omega))
    refine k1.bmin (by unfold Cell; omega) ?_
    rw [e0]; exact k1 _ _ (by omega) (by unfold Cell; omega)

/-- the renamings move the values of the targets to the temporary dimensions -/
theorem renameAll_sat {n size : ℕ} {x : ℕ → K} : ∀ (ts : List ℕ) (k : ℕ) (m : Mem K) (z : ℕ → K),
    (∀ t ∈ ts, t < n) → ts.Nodup → k + ts.length ≤ size → Sat (n + size) m z →
    (∀ i (h : i < ts.length), z (n + (k + i)) = z ts[i]) →
    Sat (n + size) (OctT.renameAll n size ts k m) (fun j => if j ∈ ts then x j else z j) := by
  intro ts
  induction ts with
  | nil => intro k m z _ _ _ hm _; simpa [OctT.renameAll] using hm
  | cons t ts ih =>
    intro k m z hl hn hk hm hz
    simp only [List.length_cons] at hk
    have ht : t < n := hl t (by simp)
    rw [List.nodup_cons] at hn
    unfold OctT.renameAll
    have h1 := renameVar_sat (show t < n + k by omega) (show n + k < n + size by omega) hm (hz 0 (by simp)) (x t)
    have h2 := ih (k + 1) _ (Function.update z t (x t)) (fun t' h' => hl t' (by simp [h'])) hn.2 (by omega) h1 ?_
    · convert h2 using 1
      funext j
      by_cases e : j = t
      · subst e; simp [hn.1]
      · simp [e]
    · intro i h
      have := hz (i + 1) (by simpa using h)
      rw [List.getElem_cons_succ] at this
      have hne : ts[i] ≠ t := fun e => hn.1 (e ▸ List.getElem_mem h)
      rw [Function.update_of_ne hne, Function.update_of_ne (by omega), show k + 1 + i = k + (i + 1) by omega]
      exact this

theorem substAll_sat {n intdim size : ℕ} {z : ℕ → K} : ∀ (es : List (Linexpr K)) (k : ℕ) (m : Mem K),
    (∀ e ∈ es, e.InDim n) → (∀ i (h : i < es.length), (es[i]).Val z (z (n + (k + i)))) → k + es.length ≤ size →
    Sat (n + size) m z →
    ∃ r, OctT.substAll R n intdim size es k m = some r ∧ Sat (n + size) r z := by
  intro es
  induction es with
  | nil => intro k m _ _ _ hm; exact ⟨m, rfl, hm⟩
  | cons e es ih =>
    intro k m he hv hk hm
    simp only [List.length_cons] at hk
    have hv0 : e.Val z (z (n + k)) := hv 0 (by simp)
    have he0 := he e (by simp)
    unfold OctT.substAll
    have hne : (uexprOf R e intdim).1.type ≠ .empty := fun h => uexpr_empty R h _ _ hv0
    simp only
    rw [if_neg hne]
    have he1 := he0.mono (Nat.le_add_right n size)
    obtain ⟨r, h1, h2⟩ := hmatSubst_sat R (show n + k < n + size by omega) (u := (uexprOf R e intdim).1)
      (v := z (n + k)) (x := z)
      (by rw [Function.update_eq_self]; exact hm) (uexpr_class R he1 intdim) (val_form R he1 hv0) hne false
    rw [h1]
    exact ih (k + 1) _ (fun e' h' => he e' (by simp [h']))
      (fun i h => by
        have := hv (i + 1) (by simpa using h)
        rw [List.getElem_cons_succ] at this
        rw [show k + 1 + i = k + (i + 1) by omega]; exact this) (by omega) h2

end Oct

namespace OctT
open Bound Oct
variable {K : Type*} [LinearOrder K] [Field K] [IsStrictOrderedRing K] [FloorRing K] (R : Rnd K)

/-- the destination, if any, has the right dimension and contains the point -/
def DestOk (dest : Option (OctT K)) (dim : ℕ) (y : ℕ → K) : Prop := ∀ b, dest = some b → b.dim = dim ∧ b.Gam y

theorem destEmpty_false {dest : Option (OctT K)} {dim : ℕ} {y : ℕ → K} (h : DestOk dest dim y) :
    destEmpty dest = false := by
  cases dest with
  | none => rfl
  | some b =>
    obtain ⟨m, hm, -⟩ := gam_iff_best.1 (h b rfl).2
    simp [destEmpty, hm]

theorem meetDest_sat {dest : Option (OctT K)} {dim : ℕ} {y : ℕ → K} (h : DestOk dest dim y) {m : Mem K}
    (hm : Sat dim m y) : Sat dim (meetDest dest m) y := by
  cases dest with
  | none => exact hm
  | some b =>
    obtain ⟨hd, hy⟩ := h b rfl
    obtain ⟨m2, hm2, hs⟩ := gam_iff_best.1 hy
    unfold meetDest
    simp only [hm2]
    rw [hd] at hs
    intro i j hi hc
    simp only [bmin_eq_min, le_min_iff]
    exact ⟨hm i j hi hc, hs i j hi hc⟩

theorem meetDest_le {dest : Option (OctT K)} {b : OctT K} (hb : dest = some b) {m m2 : Mem K}
    (hm2 : b.best = some m2) (p : ℕ) : meetDest dest m p ≤ m p ∧ meetDest dest m p ≤ m2 p := by
  subst hb
  unfold meetDest
  simp only [hm2, bmin_eq_min]
  exact ⟨min_le_left _ _, min_le_right _ _⟩

theorem assignLinexpr_dim (algo : ℤ) (a : OctT K) (d : ℕ) (e : Linexpr K) (dest : Option (OctT K)) :
    (assignLinexpr R algo a d e dest).dim = a.dim ∧ (assignLinexpr R algo a d e dest).intdim = a.intdim := by
  unfold assignLinexpr
  by_cases h1 : destEmpty dest
  · simp [h1, bottom]
  by_cases h2 : (uexprOf R e a.intdim).1.type = .empty
  · simp [h1, h2, bottom]
  simp only [h1, h2, if_false]
  generalize ha : (if (uexprOf R e a.intdim).1.type ≠ .unary ∨ (uexprOf R e a.intdim).1.i ≠ d then
    cacheIf R algo a else a) = a'
  have : a'.dim = a.dim ∧ a'.intdim = a.intdim := by
    rw [← ha]; split_ifs
    · exact ⟨cacheIf_dim R algo a, cacheIf_intdim R algo a⟩
    · exact ⟨rfl, rfl⟩
  cases a'.best with
  | none => exact this
  | some m => simp only; split_ifs <;> first | exact this | exact ⟨rfl, rfl⟩

/-- soundness of the assignment; `hg` excludes the defect of the general case -/
theorem assignLinexpr_sat {algo : ℤ} {a : OctT K} {d : ℕ} {e : Linexpr K} {dest : Option (OctT K)} {x : ℕ → K}
    {v : K} (hd : d < a.dim) (he : e.InDim a.dim)
    (hg : (uexprOf R e a.intdim).1.type = .binary ∨ (uexprOf R e a.intdim).1.type = .other →
      ∀ m, (cacheIf R algo a).best = some m → GenOk R (uexprOf R e a.intdim).2 a.dim m)
    (ha : a.Gam x) (hv : e.Val x v) (hdest : DestOk dest a.dim (Function.update x d v)) :
    (assignLinexpr R algo a d e dest).Gam (Function.update x d v) := by
  unfold assignLinexpr
  have hne : (uexprOf R e a.intdim).1.type ≠ .empty := fun h => uexpr_empty R h _ _ hv
  simp only
  rw [if_neg (by rw [destEmpty_false hdest]; simp), if_neg hne]
  generalize ha' : (if (uexprOf R e a.intdim).1.type ≠ .unary ∨ (uexprOf R e a.intdim).1.i ≠ d then
    cacheIf R algo a else a) = a'
  have hdim : a'.dim = a.dim := by
    rw [← ha']; split_ifs
    · exact cacheIf_dim R algo a
    · rfl
  have hgam : a'.Gam x := by
    rw [← ha']; split_ifs
    · exact (gam_cacheIf R algo a x).2 ha
    · exact ha
  obtain ⟨m, hm, hs⟩ := gam_iff_best.1 hgam
  rw [hdim] at hs
  rw [hm]
  simp only
  rw [gam_pick, hdim]
  refine meetDest_sat hdest (hmatAssign_sat R hd hs (uexpr_class R he _) (val_form R he hv) (fun ht => ?_) hne _)
  refine hg ht m ?_
  rw [← hm, ← ha', if_pos]
  left
  rcases ht with ht | ht <;> rw [ht] <;> decide

theorem substLinexpr_dim (algo : ℤ) (a : OctT K) (d : ℕ) (e : Linexpr K) (dest : Option (OctT K)) :
    (substLinexpr R algo a d e dest).dim = a.dim ∧ (substLinexpr R algo a d e dest).intdim = a.intdim := by
  unfold substLinexpr
  by_cases h1 : destEmpty dest
  · simp [h1, bottom]
  by_cases h2 : (uexprOf R e a.intdim).1.type = .empty
  · simp [h1, h2, bottom]
  simp only [h1, h2, if_false]
  generalize ha : (if (uexprOf R e a.intdim).1.type ≠ .unary ∨ (uexprOf R e a.intdim).1.i ≠ d then
    cacheIf R algo a else a) = a'
  have : a'.dim = a.dim ∧ a'.intdim = a.intdim := by
    rw [← ha]; split_ifs
    · exact ⟨cacheIf_dim R algo a, cacheIf_intdim R algo a⟩
    · exact ⟨rfl, rfl⟩
  cases a'.best with
  | none => exact this
  | some m =>
    simp only
    cases hmatSubst R (uexprOf R e a.intdim).1 (uexprOf R e a.intdim).2 a'.dim d m
      (a'.closed.isSome && decide (0 ≤ algo) && dest.isNone) with
    | none => exact this
    | some r => simp only; split_ifs <;> first | exact this | exact ⟨rfl, rfl⟩

theorem substLinexpr_sat {algo : ℤ} {a : OctT K} {d : ℕ} {e : Linexpr K} {dest : Option (OctT K)} {x : ℕ → K}
    {v : K} (hd : d < a.dim) (he : e.InDim a.dim)
    (ha : a.Gam (Function.update x d v)) (hv : e.Val x v) (hdest : DestOk dest a.dim x) :
    (substLinexpr R algo a d e dest).Gam x := by
  unfold substLinexpr
  have hne : (uexprOf R e a.intdim).1.type ≠ .empty := fun h => uexpr_empty R h _ _ hv
  simp only
  rw [if_neg (by rw [destEmpty_false hdest]; simp), if_neg hne]
  generalize ha' : (if (uexprOf R e a.intdim).1.type ≠ .unary ∨ (uexprOf R e a.intdim).1.i ≠ d then
    cacheIf R algo a else a) = a'
  have hdim : a'.dim = a.dim := by
    rw [← ha']; split_ifs
    · exact cacheIf_dim R algo a
    · rfl
  have hgam : a'.Gam (Function.update x d v) := by
    rw [← ha']; split_ifs
    · exact (gam_cacheIf R algo a _).2 ha
    · exact ha
  obtain ⟨m, hm, hs⟩ := gam_iff_best.1 hgam
  rw [hm]
  simp only
  rw [hdim] at hs ⊢
  obtain ⟨r, h1, h2⟩ := hmatSubst_sat R hd hs (uexpr_class R he _) (val_form R he hv) hne
    (a'.closed.isSome && decide (0 ≤ algo) && dest.isNone)
  rw [h1]
  simp only
  rw [gam_pick]
  exact meetDest_sat hdest h2

/-- Specification: `y` is a result of the parallel assignment `te` from `x` -/
def ParStep (te : List (ℕ × Linexpr K)) (x y : ℕ → K) : Prop :=
  (∀ p ∈ te, p.2.Val x (y p.1)) ∧ ∀ v, v ∉ te.map Prod.fst → y v = x v

theorem closeIf_sat {algo : ℤ} {n : ℕ} {m : Mem K} {x : ℕ → K} (h : Sat n m x) :
    (if 0 ≤ algo then close R n m else (false, m)).1 = false ∧
    Sat n (if 0 ≤ algo then close R n m else (false, m)).2 x := by
  split_ifs
  · exact close_sat R h
  · exact ⟨rfl, h⟩

theorem assignArray_sat {algo : ℤ} {uninit : Mem K} {a : OctT K} {te : List (ℕ × Linexpr K)}
    {dest : Option (OctT K)} {x y : ℕ → K} (hlen : te.length ≠ 1) (hn : (te.map Prod.fst).Nodup)
    (he : ∀ p ∈ te, p.2.InDim a.dim)
    (ha : a.Gam x) (hs : ParStep te x y) (hdest : DestOk dest a.dim y) :
    (assignLinexprArray R algo uninit a te dest).Gam y := by
  unfold assignLinexprArray
  split
  · simp at hlen
  rw [if_neg (by rw [destEmpty_false hdest]; simp)]
  obtain ⟨m, hm, hsat⟩ := gam_iff_best.1 ((gam_cacheIf R algo a x).2 ha)
  simp only
  rw [hm]
  simp only
  rw [cacheIf_dim] at hsat ⊢
  rw [cacheIf_intdim]
  let vs : ℕ → K := fun k => y ((te.map Prod.fst).getD k 0)
  have hext : Sat (a.dim + te.length) (extendTop a.dim te.length m) (tmpPt x vs a.dim 0) := by
    have : tmpPt x vs a.dim 0 = x := by funext j; unfold tmpPt; rw [if_neg (by omega)]
    rw [this]; exact extendTop_sat hsat
  obtain ⟨r, h1, h2⟩ := assignAll_sat R (intdim := a.intdim) (size := te.length) (x := x) (vs := vs)
    (te.map Prod.snd) 0 _ (fun e hm => by
      obtain ⟨p, hp, rfl⟩ := List.mem_map.1 hm; exact he p hp) (fun i h => by
      have hi : i < te.length := by simpa using h
      have := hs.1 te[i] (List.getElem_mem hi)
      simp only [List.getElem_map]
      have e : vs (0 + i) = y (te[i]).1 := by
        simp only [vs]
        rw [zero_add, List.getD, List.getElem?_eq_getElem (by simpa using hi)]
        simp
      rw [e]; exact this) (by simp) hext
  rw [h1]
  simp only
  obtain ⟨c1, c2⟩ := closeIf_sat R (algo := algo) h2
  rw [if_neg (by rw [c1]; simp)]
  rw [zero_add, List.length_map] at c2
  refine meetDest_sat hdest ?_
  refine permute_sat (inv := arrayInv a.dim (te.map Prod.fst)) ?_ ?_ c2 ?_
  · intro i j h1 h2 h3 h4
    exact arrayPerm_inj hn i j (by simpa using h1) (by simpa using h2) h3 h4
  · intro v hv
    have := arrayPerm_inv (n := a.dim) (td := te.map Prod.fst) v hv
    rw [List.length_map] at this; exact this
  · intro v hv
    unfold arrayInv tmpPt
    by_cases h : v ∈ te.map Prod.fst
    · have hl := List.idxOf_lt_length_of_mem h
      rw [if_pos h, if_pos (by rw [List.length_map] at hl; omega)]
      simp only [vs]
      rw [Nat.add_sub_cancel_left, List.getD, List.getElem?_eq_getElem hl]
      simp
    · rw [if_neg h, if_neg (by omega)]
      exact hs.2 v h

theorem substArray_sat {algo : ℤ} {a : OctT K} {te : List (ℕ × Linexpr K)}
    {dest : Option (OctT K)} {x y : ℕ → K} (hlen : te.length ≠ 1) (hn : (te.map Prod.fst).Nodup)
    (hd : ∀ p ∈ te, p.1 < a.dim) (he : ∀ p ∈ te, p.2.InDim a.dim)
    (ha : a.Gam y) (hs : ParStep te x y) (hdest : DestOk dest a.dim x) :
    (substLinexprArray R algo a te dest).Gam x := by
  unfold substLinexprArray
  split
  · simp at hlen
  rw [if_neg (by rw [destEmpty_false hdest]; simp)]
  obtain ⟨m, hm, hsat⟩ := gam_iff_best.1 ((gam_cacheIf R algo a y).2 ha)
  simp only
  rw [hm]
  simp only
  rw [cacheIf_dim] at hsat ⊢
  rw [cacheIf_intdim]
  let vs : ℕ → K := fun k => y ((te.map Prod.fst).getD k 0)
  have hvs : ∀ i (h : i < te.length), vs i = y (te[i]).1 := fun i h => by
    simp only [vs]
    rw [List.getD, List.getElem?_eq_getElem (by simpa using h)]
    simp
  have hext : Sat (a.dim + te.length) (extendTop a.dim te.length m) (tmpPt y vs a.dim te.length) := by
    refine extendTop_sat ((sat_congr fun v hv => ?_).1 hsat)
    unfold tmpPt; rw [if_neg (by omega)]
  have hr := renameAll_sat (x := x) (te.map Prod.fst) 0 _ _ (fun t ht => by
      obtain ⟨p, hp, rfl⟩ := List.mem_map.1 ht; exact hd p hp) hn (by simp) hext (fun i h => by
      have hi : i < te.length := by simpa using h
      have hdi := hd te[i] (List.getElem_mem hi)
      simp only [List.getElem_map]
      unfold tmpPt
      rw [if_pos (by omega), if_neg (by omega), show a.dim + (0 + i) - a.dim = i by omega, hvs i hi])
  have hlow : ∀ v, v < a.dim → x v = (fun j => if j ∈ te.map Prod.fst then x j else
      tmpPt y vs a.dim te.length j) v := by
    intro v hv
    simp only
    by_cases h : v ∈ te.map Prod.fst
    · rw [if_pos h]
    · rw [if_neg h]; unfold tmpPt; rw [if_neg (by omega)]; exact (hs.2 v h).symm
  obtain ⟨r, h1, h2⟩ := substAll_sat R (intdim := a.intdim) (size := te.length)
    (te.map Prod.snd) 0 _ (fun e hm => by
      obtain ⟨p, hp, rfl⟩ := List.mem_map.1 hm; exact he p hp) (fun i h => by
      have hi : i < te.length := by simpa using h
      have hmem := List.getElem_mem hi
      have := hs.1 te[i] hmem
      have hnot : ¬ a.dim + (0 + i) ∈ te.map Prod.fst := by
        intro hm'
        obtain ⟨p, hp, e⟩ := List.mem_map.1 hm'
        have := hd p hp; omega
      simp only [List.getElem_map]
      rw [if_neg hnot]
      unfold tmpPt
      rw [if_pos (by omega), show a.dim + (0 + i) - a.dim = i by omega, hvs i hi]
      exact val_congr (he _ hmem) hlow this) (by simp) hr
  rw [h1]
  simp only
  obtain ⟨c1, c2⟩ := closeIf_sat R (algo := algo) h2
  rw [if_neg (by rw [c1]; simp)]
  refine meetDest_sat hdest ?_
  refine (sat_congr hlow).2 fun i j hi hc => c2 i j (by omega) hc

end OctT
end Apron
