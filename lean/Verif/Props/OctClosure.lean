import Verif.Oct.OctLemmas

/-!
# Property theorems: octagon layout and closure (C25-C29)

Specification: `Sat dim m x` (every stored constraint holds at `x`) and `OctT.Gam a x` (`x` is a point
of the octagon value `a`).  `OctT.Wf` is the representation invariant of reachable octagons
(preserved by every modelled operation, see `Verif.Props.OctReach`).
-/

set_option autoImplicit false
set_option linter.unusedSectionVars false
set_option linter.ambiguousOpen false

namespace Apron
open Bound Oct OctT
variable {K : Type*} [LinearOrder K] [Field K] [IsStrictOrderedRing K]

/-! ## C25: layout -/

/-- every stored cell lies inside the allocation -/
theorem C25_cell_in_bounds (dim i j : ℕ) (hi : i < 2 * dim) (hj : j / 2 ≤ i / 2) :
    matpos i j < matsize dim := matpos_lt hi hj

/-- the unconditional accessor stays inside the allocation for every legal pair -/
theorem C25_pair_in_bounds (dim i j : ℕ) (hi : i < 2 * dim) (hj : j < 2 * dim) :
    matpos2 i j < matsize dim := matpos2_lt hi hj

/-- two pairs share a cell only if they are the same constraint `v_j - v_i` written in its two
mirror forms, so writing one never changes the meaning of another -/
theorem C25_no_aliasing (i j i' j' : ℕ) (h : matpos2 i j = matpos2 i' j') :
    ∀ x : ℕ → K, V x j - V x i = V x j' - V x i' := by
  have key : (i' = i ∧ j' = j) ∨ (i' = j ^^^ 1 ∧ j' = i ^^^ 1) := by
    rw [matpos2_eq i j] at h
    split_ifs at h with hc
    · exact pos_eq_cases hc h.symm
    · have := pos_eq_cases ((cell_or_mirror i j).resolve_left hc) h.symm
      simpa [or_comm] using this
  intro x
  rcases key with ⟨rfl, rfl⟩ | ⟨rfl, rfl⟩
  · rfl
  · rw [V_xor1, V_xor1]; ring

/-- conversely each constraint between different variables has exactly one cell -/
theorem C25_mirror_shared (i j : ℕ) (h : i / 2 ≠ j / 2) :
    matpos2 i j = matpos2 (j ^^^ 1) (i ^^^ 1) := matpos2_mirror h

/-- the cells fill the allocation without gaps: every position is a cell -/
theorem C25_no_gap (dim p : ℕ) (h : p < matsize dim) :
    ∃ i j, i < 2 * dim ∧ j / 2 ≤ i / 2 ∧ p = matpos i j := exists_cell h

/-- rows are contiguous: a pointer incremented along `j = 0..i|1` and then over the rows visits the
cells `(i,j)` in order -/
theorem C25_row_contiguous (i : ℕ) : matpos (i + 1) 0 = matpos i (i ||| 1) + 1 := row_step i

example : matpos2 0 3 = matpos2 2 1 ∧ matpos2 5 2 = matpos 5 2 ∧ matsize 3 = 24 ∧ matpos 5 5 = 23 := by
  decide

/-! ## C26: closure never changes the set -/

/-- full closure of a matrix, any rounding: an emptiness verdict is right -/
theorem C26_close_empty_sound (R : Rnd K) (dim : ℕ) (m : Mem K) (h : (close R dim m).1 = true)
    (x : ℕ → K) : ¬ Sat dim m x := fun hs => by
  have := (close_sat R hs).1; rw [h] at this; simp at this

/-- full closure of a matrix, any rounding: same points -/
theorem C26_close_same_points (R : Rnd K) (dim : ℕ) (m : Mem K) (h : (close R dim m).1 = false)
    (x : ℕ → K) : Sat dim (close R dim m).2 x ↔ Sat dim m x :=
  (close_false_iff R (Prod.ext h rfl) x).symm

/-- incremental closure, any rounding, any matrix: an emptiness verdict is right -/
theorem C26_incremental_empty_sound (R : Rnd K) (dim : ℕ) (m : Mem K) (v : ℕ) (hv : v < dim)
    (h : (closeIncremental R dim m v).1 = true) (x : ℕ → K) : ¬ Sat dim m x := fun hs => by
  have := (closeIncremental_sat R hv hs).1; rw [h] at this; simp at this

/-- incremental closure, any rounding, any matrix: same points -/
theorem C26_incremental_same_points (R : Rnd K) (dim : ℕ) (m : Mem K) (v : ℕ) (hv : v < dim)
    (h : (closeIncremental R dim m v).1 = false) (x : ℕ → K) :
    Sat dim (closeIncremental R dim m v).2 x ↔ Sat dim m x := by
  constructor
  · intro hs; exact hs.mono fun i j _ _ => closeIncremental_le R dim m v _
  · intro hs; exact (closeIncremental_sat R hv hs).2

/-- the closure performed implicitly by the operations keeps the points of the value -/
theorem C26_cache_same_points (R : Rnd K) (a : OctT K) (x : ℕ → K) :
    (cacheClosure R a).Gam x ↔ a.Gam x := gam_cacheClosure R a x

/-- so does the closure that discards the original matrix -/
theorem C26_close_oct_same_points (R : Rnd K) (a : OctT K) (x : ℕ → K) :
    (closeOct R a).Gam x ↔ a.Gam x := gam_closeOct R a x

/-- a rounding that moves every result up by one -/
def Rnd.coarse : Rnd ℚ := ⟨fun q => fin (q + 1), fun q => by simp⟩

/-- `x0 ≤ 3, x0 - x1 ≤ 1, x1 ≥ 5` in dimension 2 -/
def exOct : Mem ℚ :=
  ((allocTop 2).set (matpos 1 0) (fin 6)).set (matpos 2 0) (fin 1) |>.set (matpos 2 3) (fin (-10))

example : (close Rnd.coarse 2 exOct).1 = false := by decide +kernel
example : (close Rnd.exact 2 exOct).1 = false := by decide +kernel
example : (close Rnd.exact 2 (exOct.set (matpos2 0 2) (fin 1))).1 = true := by decide +kernel

/-! ## C27: emptiness is exact -/

/-- with exact arithmetic `is_bottom` is true exactly for the octagons without points -/
theorem C27_is_bottom_exact (algo : ℤ) (halgo : 0 ≤ algo) (a : OctT K) (h : Wf a) :
    OctT.isBottom Rnd.exact algo a = true ↔ ∀ x, ¬ a.Gam x := by
  have hw := wf_cacheIf algo h
  have hg := gam_cacheIf Rnd.exact algo a
  have hcase := cached_cases Rnd.exact a
  unfold OctT.isBottom
  unfold cacheIf at *
  rw [if_pos halgo] at *
  simp only
  generalize cacheClosure Rnd.exact a = b at *
  rcases hcase with hb | ⟨c, hc⟩
  · have := best_none_iff.1 hb
    rw [this.1, this.2]
    simp only [true_iff]
    intro x hx
    rw [← hg, gam_iff_best, hb] at hx
    simp at hx
  · rw [hc]
    simp only [Bool.false_eq_true, false_iff, not_forall, not_not]
    obtain ⟨x, hx⟩ := (hw.sc c hc).nonempty
    refine ⟨x, ?_⟩
    rw [← hg, gam_iff_best]
    exact ⟨c, best_of_closed hc, hx⟩

/-- under every rounding and every algorithm setting a positive answer is right -/
theorem C27_is_bottom_sound (R : Rnd K) (algo : ℤ) (a : OctT K)
    (h : OctT.isBottom R algo a = true) (x : ℕ → K) : ¬ a.Gam x := by
  rw [← gam_cacheIf R algo]
  unfold OctT.isBottom at h
  simp only at h
  generalize cacheIf R algo a = b at *
  rcases b with ⟨m, c, dim, intdim⟩
  cases c <;> cases m <;> simp_all [Gam]

/-- matrix level: the closure reports emptiness exactly when no point satisfies the constraints -/
theorem C27_close_exact (dim : ℕ) (m : Mem K) (hne : NoNinf dim m) (hd : DiagCoh dim m) :
    (close Rnd.exact dim m).1 = true ↔ ∀ x, ¬ Sat dim m x := by
  constructor
  · exact C26_close_empty_sound _ dim m
  · intro h
    by_contra hf
    rw [Bool.not_eq_true] at hf
    obtain ⟨x, hx⟩ := (close_SC hne hd hf).nonempty
    exact h x ((C26_close_same_points _ dim m hf x).1 hx)

/-- setting an off-diagonal cell keeps a matrix good -/
theorem OctT.Good.set {dim : ℕ} {m : Mem K} (h : Good dim m) {i j : ℕ} (hc : Cell i j) (hij : i ≠ j)
    {v : Bound K} (hv : v ≠ ninf) : Good dim (m.set (matpos i j) v) := by
  have hd : ∀ p, matpos p p ≠ matpos i j := by
    intro p e
    obtain ⟨rfl, rfl⟩ := matpos_inj (cell_refl p) hc e
    exact hij rfl
  refine ⟨h.ne.set hv, fun p hp => ?_, fun p hp => ?_⟩
  · rw [Mem.set_ne _ _ (hd _), Mem.set_ne _ _ (hd _)]; exact h.coh p hp
  · rw [Mem.set_ne _ _ (hd _)]; exact h.nn p hp

theorem exOct_good : Good 2 exOct :=
  (((SC_good (allocTop_SC 2)).set (by decide) (by decide) (by simp)).set (by decide) (by decide)
    (by simp)).set (by decide) (by decide) (by simp)

example : Wf (⟨some exOct, none, 2, 0⟩ : OctT ℚ) := wf_of_good exOct_good
example : OctT.isBottom Rnd.exact 0 (⟨some exOct, none, 2, 0⟩ : OctT ℚ) = false := by decide +kernel
example : OctT.isBottom Rnd.exact 0
    (⟨some (exOct.set (matpos2 0 2) (fin 1)), none, 2, 0⟩ : OctT ℚ) = true := by decide +kernel

/-! ## C28: closure gives the tightest bounds -/

/-- every stored bound of the normal form is the least upper bound of `v_j - v_i` (`v` ranging over
the signed variables) over the points of the octagon -/
theorem C28_tightest (a : OctT K) (h : Wf a) (c : Mem K)
    (hc : (cacheClosure Rnd.exact a).closed = some c) (i j : ℕ) (hi : i < 2 * a.dim)
    (hj : j < 2 * a.dim) :
    (∀ x, a.Gam x → fin (V x j - V x i) ≤ c (matpos2 i j)) ∧
    ∀ b, (∀ x, a.Gam x → fin (V x j - V x i) ≤ b) → c (matpos2 i j) ≤ b := by
  have hw := (wf_cacheClosure h).sc c hc
  rw [(cacheClosure_dim Rnd.exact a).1] at hw
  have hg : ∀ x, a.Gam x ↔ Sat a.dim c x := by
    intro x
    rw [← gam_cacheClosure Rnd.exact, gam_iff_best, best_of_closed hc, (cacheClosure_dim _ a).1]
    simp
  have hG : G a.dim c i j = c (matpos2 i j) := by unfold G; rw [if_pos ⟨hi, hj⟩]
  refine ⟨fun x hx => ((hg x).1 hx).le2 hi hj, fun b hb => ?_⟩
  rw [← hG]
  exact hw.tight hi hj fun x hx => hb x ((hg x).2 (satOn_iff.1 hx))

/-- finite bounds are attained by a point of the octagon, infinite ones are exceeded -/
theorem C28_attained (a : OctT K) (h : Wf a) (c : Mem K)
    (hc : (cacheClosure Rnd.exact a).closed = some c) (i j : ℕ) (hi : i < 2 * a.dim)
    (hj : j < 2 * a.dim) (hij : i ≠ j) (q : K) (hq : fin q ≤ c (matpos2 i j))
    (hq' : fin (-q) ≤ c (matpos2 j i)) : ∃ x, a.Gam x ∧ V x j - V x i = q := by
  have hw := (wf_cacheClosure h).sc c hc
  rw [(cacheClosure_dim Rnd.exact a).1] at hw
  have hG : ∀ i j, i < 2 * a.dim → j < 2 * a.dim → G a.dim c i j = c (matpos2 i j) := by
    intro i j hi hj; unfold G; rw [if_pos ⟨hi, hj⟩]
  obtain ⟨x, hx, e⟩ := hw.attain hi hj hij (q := q) (by rwa [hG i j hi hj]) (by rwa [hG j i hj hi])
  refine ⟨x, ?_, e⟩
  rw [← gam_cacheClosure Rnd.exact, gam_iff_best, best_of_closed hc, (cacheClosure_dim _ a).1]
  exact ⟨c, rfl, satOn_iff.1 hx⟩

/-- the normal form depends only on the set of points -/
theorem C28_canonical (a b : OctT K) (ha : Wf a) (hb : Wf b) (hdim : a.dim = b.dim)
    (hs : ∀ x, a.Gam x ↔ b.Gam x) (ca cb : Mem K)
    (hca : (cacheClosure Rnd.exact a).closed = some ca)
    (hcb : (cacheClosure Rnd.exact b).closed = some cb) (i j : ℕ) (hi : i < 2 * a.dim)
    (hj : j < 2 * a.dim) : ca (matpos2 i j) = cb (matpos2 i j) := by
  obtain ⟨a1, a2⟩ := C28_tightest a ha ca hca i j hi hj
  obtain ⟨b1, b2⟩ := C28_tightest b hb cb hcb i j (hdim ▸ hi) (hdim ▸ hj)
  exact le_antisymm (a2 _ fun x hx => b1 x ((hs x).1 hx)) (b2 _ fun x hx => a1 x ((hs x).2 hx))

/-- in the example the implied bound `x1 - x0 ≥ 2` (not stored) is found: `v_0 - v_2 ≤ -2` -/
example : (cacheClosure Rnd.exact (⟨some exOct, none, 2, 0⟩ : OctT ℚ)).closed.map
    (fun c => c (matpos2 2 0)) = some (fin (-2)) := by decide +kernel

/-! ## C29: incremental closure -/

/-- changing constraints on one variable `v` of a normal form: the incremental closure gives the same
emptiness verdict as the full one -/
theorem C29_same_verdict (dim v : ℕ) (hv : v < dim) (c m : Mem K) (hc : SC dim (G dim c))
    (hm : Good dim m)
    (hoff : ∀ i j, i < 2 * dim → Cell i j → i / 2 ≠ v → j / 2 ≠ v → m (matpos i j) = c (matpos i j)) :
    (closeIncremental Rnd.exact dim m v).1 = (close Rnd.exact dim m).1 := by
  have ho := closedOff_of_SC hc hoff
  rcases h1 : (closeIncremental Rnd.exact dim m v).1 with _ | _ <;>
    rcases h2 : (close Rnd.exact dim m).1 with _ | _
  · rfl
  · exfalso
    obtain ⟨x, hx⟩ := (closeIncremental_SC hv hm.ne hm.coh ho h1).nonempty
    exact C26_close_empty_sound _ dim m h2 x ((C26_incremental_same_points _ dim m v hv h1 x).1 hx)
  · exfalso
    obtain ⟨x, hx⟩ := (close_SC hm.ne hm.coh h2).nonempty
    exact C26_incremental_empty_sound _ dim m v hv h1 x ((C26_close_same_points _ dim m h2 x).1 hx)
  · rfl

/-- ... and the same matrix -/
theorem C29_same_matrix (dim v : ℕ) (hv : v < dim) (c m : Mem K) (hc : SC dim (G dim c))
    (hm : Good dim m)
    (hoff : ∀ i j, i < 2 * dim → Cell i j → i / 2 ≠ v → j / 2 ≠ v → m (matpos i j) = c (matpos i j))
    (hf : (close Rnd.exact dim m).1 = false) (i j : ℕ) (hi : i < 2 * dim) (hj : j < 2 * dim) :
    (closeIncremental Rnd.exact dim m v).2 (matpos2 i j) = (close Rnd.exact dim m).2 (matpos2 i j) := by
  have ho := closedOff_of_SC hc hoff
  have hf' := (C29_same_verdict dim v hv c m hc hm hoff).trans hf
  have s1 := closeIncremental_SC hv hm.ne hm.coh ho hf'
  have s2 := close_SC hm.ne hm.coh hf
  have hs : ∀ x, Sat dim (closeIncremental Rnd.exact dim m v).2 x ↔ Sat dim (close Rnd.exact dim m).2 x :=
    fun x => (C26_incremental_same_points _ dim m v hv hf' x).trans
      (C26_close_same_points _ dim m hf x).symm
  rw [matpos2_eq]
  split_ifs with hcell
  · exact s1.eq_of_sat s2 hs hi hcell
  · exact s1.eq_of_sat s2 hs (xor1_lt hj) ((cell_or_mirror i j).resolve_left hcell)

/-- adding `x0 ≤ 3` to the normal form "everything" -/
example : SC 2 (G 2 (allocTop 2 : Mem ℚ)) ∧ Good 2 ((allocTop 2 : Mem ℚ).set (matpos 1 0) (fin 6)) ∧
    ((allocTop 2 : Mem ℚ).set (matpos 1 0) (fin 6)) (matpos 1 0) ≠ (allocTop 2 : Mem ℚ) (matpos 1 0) :=
  ⟨allocTop_SC 2, (SC_good (allocTop_SC 2)).set (by decide) (by decide) (by simp), by decide +kernel⟩

end Apron
