import Verif.Props.PkResize
import Verif.Poly.PkExpandOps

/-!
# C106–C107: expansion and folding of dimensions of convex polyhedra

`Rep.γ r` is the set of points of the polyhedron `r`, `Rep.Wf` the invariant of the representation (see `PkLattice`).  Points are
given as functions on the natural numbers, of which only the first ones matter.
-/

set_option autoImplicit false
set_option linter.unusedSectionVars false
set_option linter.ambiguousOpen false

namespace Apron.Props

open Apron Apron.Poly Oct

section
variable {K : Type*} [LinearOrder K] [Field K] [IsStrictOrderedRing K] {n : ℕ}

/-! ## C106: expand -/

/-- `pk_expand`: a point is in the result iff the point obtained by giving to `dim` its own value, or the value of any of the
copies, is in the argument.  The copies are inserted after the dimensions of the type of `dim`. -/
theorem C106_expand_exact {destr : Bool} {alg : ℤ} {pa : Rep} (ha : pa.Wf K n) {intdim dim sup : ℕ} (hi : intdim ≤ n) (hd : dim < n)
    (hsup : 0 < sup) :
    (Rep.expand destr n intdim alg pa dim sup).Wf K (n + sup) ∧
      ∀ x : ℕ → K, (Rep.expand destr n intdim alg pa dim sup).γ (fun i : Fin (n + sup) => x i) ↔
        ∀ y, (y = x dim ∨ ∃ k, k < sup ∧ y = x ((if dim < intdim then intdim else n) + k)) →
          pa.γ (fun v : Fin n => if (v : ℕ) = dim then y else if (v : ℕ) < (if dim < intdim then intdim else n) then x v
            else x (v + sup)) :=
  expand_spec destr alg ha hi hd hsup

/-- the expansion by no dimension is the identity -/
theorem C106_expand_zero {destr : Bool} {alg : ℤ} {pa : Rep} {intdim dim : ℕ} : Rep.expand destr n intdim alg pa dim 0 = pa := by
  simp [Rep.expand]

/-! ## C107: fold -/

/-- `pk_fold` returns the least polyhedron that contains, for each point of the argument and each folded dimension `t`, the point
in which `d` takes the value of `t` and the other folded dimensions are removed: it contains them, and every system of linear
constraints that holds on them holds on the result -/
theorem C107_fold_least {alg : ℤ} {pa : Rep} (ha : pa.Wf K n) {d : ℕ} {ts : List ℕ} (hne : ts ≠ [])
    (hp : (d :: ts).Pairwise (· < ·)) (hlt : ∀ t ∈ d :: ts, t < n) :
    (Rep.fold n alg pa d ts).Wf K (n - ts.length) ∧
    (∀ (x x' : ℕ → K) (t : ℕ), pa.γ (fun i : Fin n => x i) → t ∈ d :: ts → x' d = x t →
      (∀ v, v < n → v ∉ ts → v ≠ d → x' (v - ts.countP (fun p => decide (p < v))) = x v) →
      (Rep.fold n alg pa d ts).γ (fun i : Fin (n - ts.length) => x' i)) ∧
    ∀ C : List Row, (∀ (x x' : ℕ → K) (t : ℕ), pa.γ (fun i : Fin n => x i) → t ∈ d :: ts → x' d = x t →
      (∀ v, v < n → v ∉ ts → v ≠ d → x' (v - ts.countP (fun p => decide (p < v))) = x v) →
      Sat C (hom fun i : Fin (n - ts.length) => x' i)) →
      ∀ x' : Fin (n - ts.length) → K, (Rep.fold n alg pa d ts).γ x' → Sat C (hom x') :=
  fold_spec hp hlt alg ha hne

/-- in particular the result is included in every polyhedron of the domain that contains these points -/
theorem C107_fold_lub {alg : ℤ} {pa q : Rep} (ha : pa.Wf K n) {d : ℕ} {ts : List ℕ} (hne : ts ≠ [])
    (hp : (d :: ts).Pairwise (· < ·)) (hlt : ∀ t ∈ d :: ts, t < n) (hq : q.Wf K (n - ts.length))
    (h : ∀ (x x' : ℕ → K) (t : ℕ), pa.γ (fun i : Fin n => x i) → t ∈ d :: ts → x' d = x t →
      (∀ v, v < n → v ∉ ts → v ≠ d → x' (v - ts.countP (fun p => decide (p < v))) = x v) →
      q.γ (fun i : Fin (n - ts.length) => x' i)) (x' : Fin (n - ts.length) → K) (hx : (Rep.fold n alg pa d ts).γ x') : q.γ x' := by
  obtain ⟨_, _, h3⟩ := C107_fold_least (alg := alg) ha hne hp hlt
  cases hc : (q.obtainC (n - ts.length)).C? with
  | none =>
    have hb := obtainC_none hc
    have hq' : ∀ x, ¬ q.γ x := fun x hx => by
      have := (obtainC_γ hq x).2 hx
      rw [hb] at this; exact this
    have := h3 [[1, -1]] (fun x x' t a b c e => absurd (h x x' t a b c e) (hq' _)) x' hx
    have := (this _ (List.mem_singleton_self _)).1
    rw [dot, Fin.sum_univ_succ] at this
    simp [Row.at', hom] at this
    linarith [zero_lt_one (α := K)]
  | some C =>
    rw [← obtainC_γ hq]
    exact (Rep.Wf.sat hc _).2 (h3 C (fun x x' t a b c e => (Rep.Wf.sat hc _).1 ((obtainC_γ hq _).2 (h x x' t a b c e))) x' hx)

/-- folding the copies made by an expansion gives the same set back -/
theorem C107_fold_expand {destr : Bool} {alg alg' : ℤ} {pa : Rep} (ha : pa.Wf K n) {intdim dim sup : ℕ} (hi : intdim ≤ n) (hd : dim < n)
    (hsup : 0 < sup) (x : ℕ → K) :
    (Rep.fold (n + sup) alg' (Rep.expand destr n intdim alg pa dim sup) dim
      (List.range' (if dim < intdim then intdim else n) sup)).γ (fun i : Fin n => x i) ↔ pa.γ (fun i : Fin n => x i) := by
  obtain ⟨hw, hγ⟩ := C106_expand_exact (destr := destr) (alg := alg) ha hi hd hsup
  have hdo : dim < if dim < intdim then intdim else n := by split_ifs <;> omega
  have hon : (if dim < intdim then intdim else n) ≤ n := by split_ifs <;> omega
  generalize (if dim < intdim then intdim else n) = off at *
  generalize Rep.expand destr n intdim alg pa dim sup = r at *
  have hmem : ∀ v, v ∈ List.range' off sup ↔ off ≤ v ∧ v < off + sup := fun v => List.mem_range'_1
  have hp : (dim :: List.range' off sup).Pairwise (· < ·) :=
    List.pairwise_cons.2 ⟨fun v hv => by have := (hmem v).1 hv; omega, List.pairwise_lt_range'⟩
  have hlt : ∀ t ∈ dim :: List.range' off sup, t < n + sup := by
    intro t ht
    rcases List.mem_cons.1 ht with rfl | ht
    · omega
    · have := (hmem t).1 ht; omega
  have hne : List.range' off sup ≠ [] := by rw [ne_eq, List.range'_eq_nil_iff]; omega
  have hlen : n + sup - (List.range' off sup).length = n := by rw [List.length_range']; omega
  have hcnt : ∀ v, v ∉ List.range' off sup → v - (List.range' off sup).countP (fun p => decide (p < v)) = if v < off then v else v - sup := by
    intro v hv
    rw [hmem] at hv
    by_cases h : v < off
    · rw [if_pos h, List.countP_eq_zero.2, Nat.sub_zero]
      intro p hp'
      have := (hmem p).1 hp'
      simp; omega
    · rw [if_neg h, List.countP_eq_length.2, List.length_range']
      intro p hp'
      have := (hmem p).1 hp'
      simp; omega
  obtain ⟨_, h2, _⟩ := C107_fold_least (alg := alg') hw hne hp hlt
  have h3 := C107_fold_lub (alg := alg') (q := pa) hw hne hp hlt
  rw [hlen] at h2 h3
  constructor
  · refine h3 ha (fun z z' t hz ht e1 e2 => ?_) _
    have h4 := (hγ z).1 hz (z t) (by
      rcases List.mem_cons.1 ht with rfl | ht
      · exact .inl rfl
      · have := (hmem t).1 ht
        exact .inr ⟨t - off, by omega, by congr 1; omega⟩)
    have e : (fun i : Fin n => z' i) = fun v : Fin n => if (v : ℕ) = dim then z t else if (v : ℕ) < off then z v else z (v + sup) := by
      funext v
      by_cases hvd : (v : ℕ) = dim
      · rw [if_pos hvd, hvd, e1]
      · rw [if_neg hvd]
        by_cases hvo : (v : ℕ) < off
        · have hn : (v : ℕ) ∉ List.range' off sup := by rw [hmem]; omega
          have := e2 v (by have := v.2; omega) hn hvd
          rw [hcnt v hn, if_pos hvo] at this
          rw [if_pos hvo, this]
        · have hn : (v : ℕ) + sup ∉ List.range' off sup := by rw [hmem]; omega
          have := e2 (v + sup) (by have := v.2; omega) hn (by omega)
          rw [hcnt _ hn, if_neg (by omega), Nat.add_sub_cancel] at this
          rw [if_neg hvo, this]
    rw [e]; exact h4
  · intro hx
    -- all the copies take the value of the dimension
    let z : ℕ → K := fun v => if v < off then x v else if v < off + sup then x dim else x (v - sup)
    have hzd : z dim = x dim := by simp only [z, if_pos hdo]
    refine h2 z x dim ((hγ z).2 fun y hy => ?_) List.mem_cons_self hzd.symm fun v hv hn hvd => ?_
    · have hy' : y = x dim := by
        rcases hy with rfl | ⟨k, hk, rfl⟩
        · exact hzd
        · simp only [z]; rw [if_neg (by omega), if_pos (by omega)]
      have e : (fun v : Fin n => if (v : ℕ) = dim then y else if (v : ℕ) < off then z v else z (v + sup)) = fun v : Fin n => x v := by
        funext v
        by_cases hvd : (v : ℕ) = dim
        · rw [if_pos hvd, hy', hvd]
        · rw [if_neg hvd]
          by_cases hvo : (v : ℕ) < off
          · rw [if_pos hvo]; simp only [z]; rw [if_pos hvo]
          · rw [if_neg hvo]; simp only [z]; rw [if_neg (by omega), if_neg (by omega), Nat.add_sub_cancel]
      rw [e]; exact hx
    · rw [hcnt v hn]
      rw [hmem] at hn
      simp only [z]
      by_cases hvo : v < off
      · rw [if_pos hvo, if_pos hvo]
      · rw [if_neg hvo, if_neg hvo, if_neg (by omega)]

/-- the segment `[-2, 2]` expanded: a square -/
example : Rep.expand false 1 0 0 seg 0 1 =
    .cons [[1, 2, -1, 0], [1, 2, 1, 0], [1, 2, 0, -1], [1, 2, 0, 1]] := by decide +kernel
example : seg.Wf ℚ 1 ∧ 0 ≤ 1 ∧ 0 < 1 := ⟨seg_wf, by omega, by omega⟩

/-- the point `(0, 2)` folded: the segment between 0 and 2 -/
def pt02 : Rep := .gens [[1, 1, 0, 2]]

theorem pt02_wf : pt02.Wf ℚ 2 := by
  have hr : ineqRows [([1, 1, 0, 2] : Row)] = [[1, 1, 0, 2]] := by decide
  have he : eqRows [([1, 1, 0, 2] : Row)] = [] := by decide
  have hv : toV ℚ 3 [1, 1, 0, 2] 0 = 1 := by simp [toV, Row.at']
  refine ⟨fun y hy => ?_, toV ℚ 3 [1, 1, 0, 2], ?_, by rw [hv]; norm_num⟩
  · refine Gen.le (G := fun y => 0 ≤ y 0) ⟨le_rfl, fun h1 h2 => by rw [Pi.add_apply]; exact add_nonneg h1 h2, fun h1 h2 => by
      rw [Pi.smul_apply]; exact mul_nonneg h1 h2⟩ (fun q hq => ?_) (fun q hq => ?_) hy
    · rw [he] at hq; exact absurd hq List.not_mem_nil
    · rw [hr, List.mem_singleton] at hq
      rw [hq, hv]; norm_num
  · exact Gen.of_ray (by rw [hr]; exact List.mem_singleton_self _)

example : Rep.fold 2 (-1) pt02 0 [1] = .gens [[1, 1, 0], [1, 1, 2]] := by decide +kernel
example : pt02.Wf ℚ 2 ∧ ([1] : List ℕ) ≠ [] ∧ ([0, 1] : List ℕ).Pairwise (· < ·) ∧ ∀ t ∈ ([0, 1] : List ℕ), t < 2 :=
  ⟨pt02_wf, by simp, by decide, by decide⟩

end

end Apron.Props
