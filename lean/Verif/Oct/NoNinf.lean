import Verif.Oct.LatticeLemmas

/-! # Helper lemmas: `-oo` is never stored in a matrix, under any rounding -/

set_option autoImplicit false
set_option linter.unusedSectionVars false
set_option linter.ambiguousOpen false

namespace Apron
namespace Bound
variable {K : Type*} [LinearOrder K] [Field K] [IsStrictOrderedRing K] (R : Rnd K)

theorem infty_iff {b : Bound K} (h : b ≠ ninf) : infty b = true ↔ b = pinf := by
  cases b <;> simp_all [infty]

theorem up_ne (q : K) : R.up q ≠ ninf := fun e => by have := R.up_ge q; rw [e] at this; simp at this

theorem add_ne {a b : Bound K} (ha : a ≠ ninf) (hb : b ≠ ninf) : add R a b ≠ ninf := by
  cases a <;> cases b <;> simp_all [add, up_ne]

theorem div2_ne {a : Bound K} (ha : a ≠ ninf) : div2 R a ≠ ninf := by
  cases a <;> simp_all [div2, up_ne]

theorem mul2_ne {a : Bound K} (ha : a ≠ ninf) : mul2 R a ≠ ninf := by
  cases a <;> simp_all [mul2, up_ne]

theorem mul2_ge {b : Bound K} {q : K} (h : fin q ≤ b) : fin (2 * q) ≤ mul2 R b := by
  cases b with
  | ninf => simp at h
  | pinf => simp [mul2]
  | fin p =>
    simp only [mul2]
    refine le_trans ?_ (R.up_ge (2 * p))
    rw [fin_le_fin] at h ⊢; linarith

end Bound

namespace Oct
open Bound
variable {K : Type*} [LinearOrder K] [Field K] [IsStrictOrderedRing K] (R : Rnd K) {dim : ℕ}

theorem closeCell_nn {k i j : ℕ} {m : Mem K} (hk : k < 2 * dim) (hj : Cell i j) (hi : i < 2 * dim)
    {ik ik2 : Bound K} (h1 : ik ≠ ninf) (h2 : ik2 ≠ ninf) (h : NoNinf dim m) :
    NoNinf dim (closeCell R k i ik ik2 m j) := by
  have hj2 : j < 2 * dim := by unfold Cell at hj; omega
  unfold closeCell
  split_ifs with hb
  · rw [le_min_iff] at hb
    have c1 : Cell k j := by unfold Cell; omega
    have c2 : Cell (k ^^^ 1) j := by unfold Cell; rw [xor1_div]; omega
    have s1 := h.bmin (p := matpos i j) (add_ne R h1 (h _ (matpos_lt hk c1)))
    exact s1.bmin (add_ne R h2 (s1 _ (matpos_lt (xor1_lt hk) c2)))
  · have hkj : k < j := by
      rw [le_min_iff, not_and_or] at hb
      have := le_or1_iff.2 hj
      omega
    have c1 : Cell (j ^^^ 1) (k ^^^ 1) := by unfold Cell; rw [xor1_div, xor1_div]; omega
    have c2 : Cell (j ^^^ 1) k := by unfold Cell; rw [xor1_div]; omega
    have s1 := h.bmin (p := matpos i j) (add_ne R h1 (h _ (matpos_lt (xor1_lt hj2) c1)))
    exact s1.bmin (add_ne R h2 (s1 _ (matpos_lt (xor1_lt hj2) c2)))

theorem closeRow_nn {k i : ℕ} {m : Mem K} (hk : k < 2 * dim) (hi : i < 2 * dim) (h : NoNinf dim m) :
    NoNinf dim (closeRow R k m i) := by
  unfold closeRow
  refine foldl_inv (NoNinf dim) _ _ (fun m' j hj hs => ?_) m h
  exact closeCell_nn R hk (le_or1_iff.1 (by simpa [Nat.lt_succ_iff] using hj)) hi
    (h _ (matpos2_lt hi hk)) (h _ (matpos2_lt hi (xor1_lt hk))) hs

theorem closePivot_nn {k : ℕ} {m : Mem K} (hk : k < 2 * dim) (h : NoNinf dim m) :
    NoNinf dim (closePivot R dim m k) :=
  foldl_inv (NoNinf dim) _ _ (fun _ _ hi hs => closeRow_nn R hk (by simpa using hi) hs) m h

theorem sStep_nn {m : Mem K} (h : NoNinf dim m) : NoNinf dim (sStep R dim m).2 := by
  have hd : ∀ (l : List ℕ) (m : Mem K), NoNinf dim m → NoNinf dim (sDiag l m).2 := by
    intro l
    induction l with
    | nil => intro m h; exact h
    | cons i l ih =>
      intro m h
      unfold sDiag
      split_ifs
      · exact h
      · exact ih _ (h.set (by simp))
  refine hd _ _ (foldl_inv (NoNinf dim) _ _ (fun m i hi hs => ?_) m h)
  have hi' : i < 2 * dim := by simpa using hi
  unfold sRow
  have h0 := div2_ne R (hs _ (matpos_lt hi' (cell_self_xor i)))
  refine foldl_inv (NoNinf dim) _ _ (fun m' j hj hs' => ?_) m hs
  have hc : Cell i j := le_or1_iff.1 (by simpa [Nat.lt_succ_iff] using hj)
  have hj2 : j < 2 * dim := by unfold Cell at hc; omega
  exact hs'.bmin (add_ne R (div2_ne R (hs' _ (matpos_lt (xor1_lt hj2) (cell_xor_self j)))) h0)

theorem close_nn {m : Mem K} (h : NoNinf dim m) : NoNinf dim (close R dim m).2 :=
  sStep_nn R (foldl_inv (NoNinf dim) _ _ (fun _ _ hk hs => closePivot_nn R (by simpa using hk) hs) m h)

theorem incCol_nn {k i : ℕ} {m : Mem K} (hk : k < 2 * dim) (hi : i < 2 * dim) (h : NoNinf dim m) :
    NoNinf dim (incCol R dim k m i) := by
  unfold incCol
  have h1 := h _ (matpos2_lt hk hi)
  have h2 := h _ (matpos2_lt (xor1_lt hk) hi)
  refine foldl_inv (NoNinf dim) _ _ (fun m' j hj hs => ?_) m h
  have hj' : i ≤ j ∧ j < 2 * dim := by rw [List.mem_range'_1] at hj; omega
  unfold incColCell
  split_ifs with hjk
  · have c1 : Cell (k ^^^ 1) (j ^^^ 1) := by unfold Cell; rw [xor1_div, xor1_div]; omega
    have c2 : Cell k (j ^^^ 1) := by unfold Cell; rw [xor1_div]; omega
    have s1 := hs.bmin (p := matpos j i) (add_ne R h1 (hs _ (matpos_lt (xor1_lt hk) c1)))
    exact s1.bmin (add_ne R h2 (s1 _ (matpos_lt hk c2)))
  · have c1 : Cell j k := by unfold Cell; omega
    have c2 : Cell j (k ^^^ 1) := by unfold Cell; rw [xor1_div]; omega
    have s1 := hs.bmin (p := matpos j i) (add_ne R h1 (hs _ (matpos_lt hj'.2 c1)))
    exact s1.bmin (add_ne R h2 (s1 _ (matpos_lt hj'.2 c2)))

theorem closeIncremental_nn {v : ℕ} (hv : v < dim) {m : Mem K} (h : NoNinf dim m) :
    NoNinf dim (closeIncremental R dim m v).2 := by
  unfold closeIncremental
  have hvv : ∀ i ∈ [2 * v, 2 * v + 1], i < 2 * dim := by
    intro i hi; simp only [List.mem_cons, List.not_mem_nil, or_false] at hi; omega
  refine sStep_nn R (foldl_inv (NoNinf dim) _ _ (fun _ _ hk hs => closePivot_nn R (hvv _ hk) hs) _ ?_)
  refine foldl_inv (NoNinf dim) _ _ (fun m' k hk hs => ?_) m h
  have hk' : k < 2 * dim := by simpa using hk
  exact foldl_inv (NoNinf dim) _ _
    (fun _ i hi hs => incCol_nn R hk' (hvv i hi) (closeRow_nn R hk' (hvv i hi) hs)) _ hs

end Oct

namespace OctT
open Bound Oct
variable {K : Type*} [LinearOrder K] [Field K] [IsStrictOrderedRing K] (R : Rnd K)

/-- representation invariant under any rounding: `-oo` is never stored -/
def WfN (a : OctT K) : Prop := ∀ m, a.m = some m ∨ a.closed = some m → NoNinf a.dim m

theorem Wf.wfN {a : OctT K} (h : Wf a) : WfN a := fun m hm => by
  rcases hm with hm | hm
  · exact (h.good m hm).ne
  · exact (h.sc m hm).noNinf

theorem wfN_cacheClosure {a : OctT K} (h : WfN a) : WfN (cacheClosure R a) := by
  rcases a with ⟨m, c, dim, intdim⟩
  cases c with
  | some c => exact h
  | none =>
    cases m with
    | none => exact h
    | some m =>
      have hm : NoNinf dim m := h m (Or.inl rfl)
      have hc := close_nn R hm
      simp only [cacheClosure]
      rcases hcl : close R dim m with ⟨b, c⟩
      rw [hcl] at hc
      cases b
      · intro x hx
        simp only [Option.some.injEq] at hx
        rcases hx with rfl | rfl
        · exact hm
        · exact hc
      · intro x hx; simp at hx

theorem wfN_cacheIf (algo : ℤ) {a : OctT K} (h : WfN a) : WfN (cacheIf R algo a) := by
  unfold cacheIf; split_ifs
  · exact wfN_cacheClosure R h
  · exact h

theorem WfN.best {a : OctT K} (h : WfN a) {m : Mem K} (hm : a.best = some m) : NoNinf a.dim m := by
  refine h m ?_
  rcases a with ⟨m', c, dim, intdim⟩
  cases c with
  | some c => right; simpa [OctT.best] using hm
  | none => left; simpa [OctT.best] using hm

theorem WfN.orig {a : OctT K} (h : WfN a) {m : Mem K} (hm : a.orig = some m) : NoNinf a.dim m := by
  refine h m ?_
  rcases a with ⟨m', c, dim, intdim⟩
  cases m' with
  | some c => left; simpa [OctT.orig] using hm
  | none => right; simpa [OctT.orig] using hm

end OctT
end Apron
