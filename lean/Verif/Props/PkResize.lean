import Verif.Poly.PkResizeOps
import Verif.Props.PkUser
import Verif.Props.OctResize

/-!
# C101–C103: projection and change of dimensions of convex polyhedra

`Rep.γ r` is the set of points of the polyhedron `r`, `Rep.Wf` the invariant of the representation (see `PkLattice`).  For the
changes of dimensions points are given as functions on the natural numbers, of which only the first ones matter.
`pos.countP (· ≤ v)` is the number of dimensions inserted before variable `v`, `pos.countP (· < v)` the number of dimensions
removed before it.  A result `none` stands for a read out of bounds.
-/

set_option autoImplicit false
set_option linter.unusedSectionVars false
set_option linter.ambiguousOpen false

namespace Apron.Props

open Apron Apron.Poly Oct

section
variable {K : Type*} [LinearOrder K] [Field K] [IsStrictOrderedRing K] {n : ℕ}

/-! ## C101: forget and project -/

/-- `pk_forget_array` returns exactly the points obtained from a point of the argument by changing the given dimensions
arbitrarily; with `project` they become 0 -/
theorem C101_forget_exact {lzy : Bool} {pa : Rep} (ha : pa.Wf K n) {tdim : List ℕ} (ht : ∀ t ∈ tdim, t < n) (project : Bool) :
    ∃ r, Rep.forget n lzy pa tdim project = some r ∧ r.Wf K n ∧ ∀ x : Fin n → K, r.γ x ↔
      (∃ x0 : Fin n → K, pa.γ x0 ∧ ∀ v : Fin n, (v : ℕ) ∉ tdim → x v = x0 v) ∧
      (project = true → ∀ v : Fin n, (v : ℕ) ∈ tdim → x v = 0) :=
  forget_spec ha ht project

/-- forgetting twice is forgetting once -/
theorem C101_forget_idempotent {lzy : Bool} {pa r r' : Rep} (ha : pa.Wf K n) {tdim : List ℕ} (ht : ∀ t ∈ tdim, t < n)
    {project : Bool} (h : Rep.forget n lzy pa tdim project = some r) (h' : Rep.forget n lzy r tdim project = some r')
    (x : Fin n → K) : r'.γ x ↔ r.γ x := by
  obtain ⟨s, e, hw, hγ⟩ := C101_forget_exact (lzy := lzy) ha ht project
  rw [h] at e; cases e
  obtain ⟨s, e, _, hγ'⟩ := C101_forget_exact (lzy := lzy) hw ht project
  rw [h'] at e; cases e
  rw [hγ']
  constructor
  · rintro ⟨⟨x0, h0, hk⟩, hz⟩
    obtain ⟨⟨x1, h1, hk1⟩, _⟩ := (hγ x0).1 h0
    exact (hγ x).2 ⟨⟨x1, h1, fun v hv => (hk v hv).trans (hk1 v hv)⟩, hz⟩
  · exact fun hx => ⟨⟨x, hx, fun _ _ => rfl⟩, ((hγ x).1 hx).2⟩

/-- the polyhedron `-2 ≤ x0 ≤ 2`, as a line after forgetting and as the point 0 after projecting -/
example : Rep.forget 1 true seg [0] false = some (.gens [[0, 0, 1], [1, 1, -2], [1, 1, 2]]) := by decide +kernel
example : (Rep.forget 1 true seg [0] true) = some (.gens [[1, 1, 0], [1, 1, 0]]) := by decide +kernel
example : seg.Wf ℚ 1 ∧ ∀ t ∈ ([0] : List ℕ), t < 1 := ⟨seg_wf, by decide⟩

/-! ## C102: adding dimensions -/

/-- `pk_add_dimensions`: old variable `v` becomes `v + #{p ∈ pos | p ≤ v}`, the new ones are free, or 0 with `project` -/
theorem C102_add_exact {destr : Bool} {alg : ℤ} {pa : Rep} (ha : pa.Wf K n) {pos : List ℕ} (hne : pos ≠ [])
    (hs : pos.Pairwise (· ≤ ·)) (hlt : ∀ q ∈ pos, q ≤ n) (project : Bool) :
    ∃ r, Rep.addDimensions destr n alg pa pos project = some r ∧ r.Wf K (n + pos.length) ∧
      ∀ x : ℕ → K, r.γ (fun i : Fin (n + pos.length) => x i) ↔
        pa.γ (fun v : Fin n => x (v + pos.countP (fun p => decide (p ≤ (v : ℕ))))) ∧
        (project = true → ∀ k, k < pos.length → x (pos.getD k 0 + k) = 0) := by
  simp only [cntLe_eq]
  exact addDimensions_spec hs hlt destr alg ha hne project

/-- DEFECT (`pk_resize.c:256-258`): adding no dimension to a polyhedron whose generators are known compares the rows
`dimsup - 1` and `dimsup` of the matrix with `dimsup = 0` -/
theorem C102_add_nothing_out_of_bounds : ∃ pa : Rep, pa.Wf ℚ 1 ∧
    Rep.addDimensions false 1 0 pa [] false = none :=
  ⟨.gens [[0, 0, 1], [1, 1, -2], [1, 1, 2]], by
    obtain ⟨r, e, hw, _⟩ := C101_forget_exact (lzy := true) seg_wf (tdim := [0]) (by decide) false
    have e' : Rep.forget 1 true seg [0] false = some (.gens [[0, 0, 1], [1, 1, -2], [1, 1, 2]]) := by decide +kernel
    rw [e'] at e; cases e
    exact hw, by decide +kernel⟩

example : Rep.addDimensions false 1 0 half [0, 1] false = some (.cons [[1, 1, 0, 0, 0], [1, 0, 0, 1, 0]]) := by decide +kernel
example : Rep.addDimensions true 1 0 half [0, 1] true =
    some (.cons [[0, 0, 0, 0, 1], [0, 0, 1, 0, 0], [1, 1, 0, 0, 0], [1, 0, 0, 1, 0]]) := by decide +kernel
example : half.Wf ℚ 1 ∧ ([0, 1] : List ℕ) ≠ [] ∧ ([0, 1] : List ℕ).Pairwise (· ≤ ·) ∧ ∀ q ∈ ([0, 1] : List ℕ), q ≤ 1 :=
  ⟨half_wf, by decide, by decide, by decide⟩

/-! ## C103: removing and permuting dimensions -/

/-- `pk_remove_dimensions` is the projection on the other dimensions -/
theorem C103_remove_exact {destr : Bool} {alg : ℤ} {pa : Rep} (ha : pa.Wf K n) {pos : List ℕ} (hs : pos.Pairwise (· < ·))
    (hlt : ∀ q ∈ pos, q < n) :
    (Rep.removeDimensions destr n alg pa pos).Wf K (n - pos.length) ∧
      ∀ x' : ℕ → K, (Rep.removeDimensions destr n alg pa pos).γ (fun i : Fin (n - pos.length) => x' i) ↔
        ∃ x : ℕ → K, pa.γ (fun i : Fin n => x i) ∧
          ∀ v, v < n → v ∉ pos → x' (v - pos.countP (fun p => decide (p < v))) = x v := by
  simp only [cntLt_eq]
  exact removeDimensions_spec hs hlt destr alg ha

/-- `pk_permute_dimensions`: variable `v` becomes variable `perm v` -/
theorem C103_permute_exact {alg : ℤ} {pa : Rep} (ha : pa.Wf K n) {perm : ℕ → ℕ} (hp : ∀ i, i < n → perm i < n)
    (hinj : ∀ i j, i < n → j < n → perm i = perm j → i = j) :
    (Rep.permuteDimensions n alg pa perm).Wf K n ∧
      ∀ x : ℕ → K, (Rep.permuteDimensions n alg pa perm).γ (fun i : Fin n => x i) ↔ pa.γ (fun v : Fin n => x (perm v)) :=
  permuteDimensions_spec hp hinj alg ha

/-- adding dimensions and removing them again gives the same set back -/
theorem C103_add_remove {destr destr' : Bool} {alg alg' : ℤ} {pa r : Rep} (ha : pa.Wf K n) {pos pos' : List ℕ} (hne : pos ≠ [])
    (hs : pos.Pairwise (· ≤ ·)) (hlt : ∀ q ∈ pos, q ≤ n) {project : Bool} (hs' : pos'.Pairwise (· < ·))
    (hpos' : ∀ v, v ∈ pos' ↔ ∃ k, k < pos.length ∧ v = pos.getD k 0 + k)
    (h : Rep.addDimensions destr n alg pa pos project = some r) (x : ℕ → K) :
    (Rep.removeDimensions destr' (n + pos.length) alg' r pos').γ (fun i : Fin (n + pos.length - pos'.length) => x i) ↔
      pa.γ (fun i : Fin n => x i) := by
  obtain ⟨s, e, hw, hγ⟩ := addDimensions_spec hs hlt destr alg ha hne project
  rw [h] at e; cases e
  have hpl : ∀ k, k < pos.length → pos.getD k 0 ≤ n := fun k hk => hlt _ (Box.getD_mem hk)
  have hlt' : ∀ q ∈ pos', q < n + pos.length := by
    intro q hq
    obtain ⟨k, hk, rfl⟩ := (hpos' q).1 hq
    have := hpl k hk
    omega
  rw [(removeDimensions_spec hs' hlt' destr' alg' hw).2]
  have hcnt := cntLt_inserted hs hs' hpos'
  have hnone := src_add_inserted hs hlt hpos'
  have hmap : ∀ v, v < n → src true 1 n pos (v + cntLe pos v) = some v := fun v hv => (src_add hs).2 ⟨hv, by omega⟩
  constructor
  · rintro ⟨y, hy, hk⟩
    have h1 := ((hγ y).1 hy).1
    have h2 : (fun v : Fin n => y (v + cntLe pos v)) = fun v : Fin n => x v := by
      funext v
      have hb : (v : ℕ) + cntLe pos v < n + pos.length := by have := cntLe_le (pos := pos) v; have := v.2; omega
      have := hk (v + cntLe pos v) hb fun hm => by
        rw [← hnone _ hb, hmap v v.2] at hm; cases hm
      rw [hcnt, Nat.add_sub_cancel] at this
      exact this.symm
    rwa [h2] at h1
  · intro hx
    let y : ℕ → K := fun w => match src true 1 n pos w with
      | some v => x v
      | none => 0
    have hag : ∀ v, v < n → y (v + cntLe pos v) = x v := fun v hv => by simp only [y, hmap v hv]
    refine ⟨y, (hγ y).2 ⟨?_, fun _ k hk => ?_⟩, fun w hw' hwn => ?_⟩
    · have h2 : (fun v : Fin n => y (v + cntLe pos v)) = fun v : Fin n => x v := by funext v; exact hag v v.2
      rw [h2]; exact hx
    · have hb : pos.getD k 0 + k < n + pos.length := by have := hpl k hk; omega
      simp only [y, (hnone _ hb).2 ((hpos' _).2 ⟨k, hk, rfl⟩)]
    · rcases hsw : src true 1 n pos w with _ | v
      · exact (hwn ((hnone w hw').1 hsw)).elim
      · have h2 := (src_add hs).1 hsw
        rw [Nat.one_mul] at h2
        rw [h2.2, hag v h2.1, hcnt, Nat.add_sub_cancel]

example : Rep.removeDimensions false 2 0 (.gens [[1, 1, 3, 6], [1, 0, 2, 4]]) [0] = .gens [[1, 1, 6], [1, 0, 1]] := by decide +kernel
example : Rep.permuteDimensions 2 0 (.cons [[1, 1, 0, 0], [1, 0, 1, 2]]) (fun i => 1 - i) = .cons [[1, 1, 0, 0], [1, 0, 2, 1]] := by
  decide +kernel
example : ([0] : List ℕ).Pairwise (· < ·) ∧ (∀ q ∈ ([0] : List ℕ), q < 1) ∧ (∀ i, i < 2 → (1 - i : ℕ) < 2) ∧
    ∀ i j : ℕ, i < 2 → j < 2 → 1 - i = 1 - j → i = j :=
  ⟨by decide, by decide, fun i _ => by omega, fun i j _ _ h => by omega⟩

end

end Apron.Props
