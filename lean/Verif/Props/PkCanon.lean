import Verif.Props.PkAssign
import Verif.Props.PkUser
import Verif.Poly.PkNice

/-!
# C108–C110: normal form, equality and unconstrained dimensions of convex polyhedra

`Rep.γ r` is the set of points of the polyhedron `r`, `Rep.Wf` the invariant of the representation (see `PkLattice`).
`Rep.Nice` says more about the matrices: the coefficients of a row have gcd 1, the status column of a matrix with both
representations is 0 for equalities and lines and 1 for the other rows, and the flags (`status`, `_sorted`) are truthful.
-/

set_option autoImplicit false
set_option linter.unusedSectionVars false
set_option linter.ambiguousOpen false

namespace Apron.Props

open Apron Apron.Poly Oct Bound

section
variable {K : Type*} [LinearOrder K] [Field K] [IsStrictOrderedRing K] {n : ℕ}

/-! ## C108: canonicalize, minimize -/

/-- `pk_canonicalize` keeps the set of points, for both algorithms; with the default one the result is canonical -/
theorem C108_canonicalize {alg : ℤ} {pa : Rep} (ha : pa.Wf K n) :
    (pa.canonicalize n alg).Wf K n ∧ (∀ x : Fin n → K, (pa.canonicalize n alg).γ x ↔ pa.γ x) ∧
      (0 ≤ alg → (pa.canonicalize n alg).isCanonical = true) := by
  rw [Rep.canonicalize]
  split_ifs with h
  · refine ⟨chernikova3_wf ha, chernikova3_γ ha, fun _ => ?_⟩
    rw [Rep.chernikova3]
    rcases chernikova_shape n pa with e | ⟨f, e⟩ <;> rw [e]
    · rfl
    · exact canon_canonical f
  · exact ⟨chernikova_wf ha, chernikova_γ ha, fun h' => absurd h' h⟩

/-- `pk_minimize` keeps the set of points and a single matrix -/
theorem C108_minimize {pa : Rep} (ha : pa.Wf K n) :
    (pa.minimize n).Wf K n ∧ (∀ x : Fin n → K, (pa.minimize n).γ x ↔ pa.γ x) ∧ ∀ f, pa.minimize n ≠ .both f := by
  refine ⟨(minimize_spec ha).1, (minimize_spec ha).2, fun f => ?_⟩
  rw [Rep.minimize]
  rcases chernikova_shape n pa with e | ⟨g, e⟩ <;> rw [e]
  · simp
  · dsimp only
    split_ifs <;> simp

/-- the coefficients read in a matrix with `n` dimensions -/
def entries (n : ℕ) (M : List Row) : List (List ℤ) := M.map fun q => (List.range (n + 2)).map q.at'

theorem entries_of_keys {A B : List Row} (h : A.map (vkey (n + 2)) = B.map (vkey (n + 2))) : entries n A = entries n B := by
  obtain ⟨hl, h⟩ := vkeys_eq h
  refine List.ext_getElem (by simpa [entries] using hl) fun i h1 h2 => ?_
  simp only [entries, List.length_map] at h1 h2
  simp only [entries, List.getElem_map]
  exact List.map_congr_left fun j hj => h i h1 h2 j (List.mem_range.1 hj)

/-- the normal form depends on the set of points only: two equal polyhedra are both empty, or get the same matrices of
constraints and of generators, row by row -/
theorem C108_canonical_unique {alg : ℤ} (halg : 0 ≤ alg) {pa pb : Rep} (ha : pa.Wf K n) (na : pa.Nice n) (hb : pb.Wf K n) (nb : pb.Nice n)
    (h : ∀ x : Fin n → K, pa.γ x ↔ pb.γ x) :
    (pa.canonicalize n alg = .bot ∧ pb.canonicalize n alg = .bot) ∨
      ∃ fa fb, pa.canonicalize n alg = .both fa ∧ pb.canonicalize n alg = .both fb ∧ entries n fa.crows = entries n fb.crows ∧
        entries n fa.frows = entries n fb.frows ∧ fa.nbeq = fb.nbeq ∧ fa.nbline = fb.nbline := by
  have h1 := chernikova3_wf ha
  have h2 := chernikova3_wf hb
  have e1 := na.chernikova
  have e2 := nb.chernikova
  have w1 := chernikova_wf ha
  have w2 := chernikova_wf hb
  have g : ∀ x : Fin n → K, (pa.chernikova3 n).γ x ↔ (pb.chernikova3 n).γ x := by
    intro x; rw [chernikova3_γ ha, chernikova3_γ hb]; exact h x
  simp only [Rep.canonicalize, if_pos halg]
  rw [Rep.chernikova3] at h1 g
  rw [Rep.chernikova3] at h2 g
  rw [Rep.chernikova3, Rep.chernikova3]
  rcases chernikova_shape n pa with ea | ⟨fa, ea⟩ <;> rcases chernikova_shape n pb with eb | ⟨fb, eb⟩ <;>
    rw [ea] at h1 g e1 w1 ⊢ <;> rw [eb] at h2 g e2 w2 ⊢
  · exact .inl ⟨rfl, rfl⟩
  · obtain ⟨x, hx⟩ := both_exists_point h2
    exact False.elim ((g x).2 hx)
  · obtain ⟨x, hx⟩ := both_exists_point h1
    exact False.elim ((g x).1 hx)
  · right
    have s1 : ∀ y : Fin (n + 1) → K, Sat (fa.canon n).crows y → Sat (fb.canon n).crows y := fun y => cone_le_of_γ h1 (fun x => (g x).1) y
    have s2 : ∀ y : Fin (n + 1) → K, Sat (fb.canon n).crows y → Sat (fa.canon n).crows y := fun y => cone_le_of_γ h2 (fun x => (g x).2) y
    obtain ⟨k1, k2⟩ := (Full.Nice.canon e1 w1.1).unique (Full.Nice.canon e2 w2.1) h1.1 h2.1 fun y => ⟨s1 y, s2 y⟩
    exact ⟨_, _, rfl, rfl, entries_of_keys k1, entries_of_keys k2, le_antisymm (h2.1.nbeq_le h1.1 s2) (h1.1.nbeq_le h2.1 s1),
      le_antisymm (h1.1.nbline_le h2.1 s1) (h2.1.nbline_le h1.1 s2)⟩

/-- operations that give matrices with rows of gcd 1 and truthful flags -/
theorem C108_nice_top : (Rep.top n).Nice n := top_nice
theorem C108_nice_of_box {intdim : ℕ} {box : ℕ → Itv ℚ} : (Rep.ofBox n intdim box).Nice n := ofBox_nice intdim box
theorem C108_nice_canonicalize {alg : ℤ} {pa : Rep} (ha : pa.Wf K n) (na : pa.Nice n) : (pa.canonicalize n alg).Nice n := by
  rw [Rep.canonicalize]; split_ifs
  · exact na.chernikova3 ha
  · exact na.chernikova
theorem C108_nice_minimize {pa : Rep} (na : pa.Nice n) : (pa.minimize n).Nice n := by
  have h := na.chernikova
  rw [Rep.minimize]
  rcases chernikova_shape n pa with e | ⟨g, e⟩ <;> rw [e] at h ⊢
  · trivial
  · dsimp only
    split_ifs
    · exact h.F rfl
    · exact h.C rfl
theorem C108_nice_meet {o : Opts} {destr : Bool} {pa pb r : Rep} (ha : pa.Wf K n) (na : pa.Nice n) (hb : pb.Wf K n) (nb : pb.Nice n)
    (h : Rep.meet n o destr pa pb = some r) : r.Nice n := meet_nice ha na hb nb h
theorem C108_nice_join {o : Opts} {destr : Bool} {pa pb r : Rep} (ha : pa.Wf K n) (na : pa.Nice n) (hb : pb.Wf K n) (nb : pb.Nice n)
    (h : Rep.join n o destr pa pb = some r) : r.Nice n := join_nice ha na hb nb h
theorem C108_nice_meet_lincons {intdim : ℕ} {lzy : Bool} {pa r : Rep} (ha : pa.Wf K n) (na : pa.Nice n) {l : List (Lincons ℚ)}
    (h : Rep.meetLincons n intdim lzy pa l = some r) : r.Nice n := meetLincons_nice ha na h
theorem C108_nice_add_rays {lzy : Bool} {pa r : Rep} (ha : pa.Wf K n) (na : pa.Nice n) {l : List (GenTyp × Linexpr ℚ)}
    (h : Rep.addRays n lzy pa l = some r) : r.Nice n := addRays_nice ha na h

/-! ## C109: equality -/

/-- `pk_is_eq` answers true on equal polyhedra only, for all the algorithms -/
theorem C109_is_eq_sound {alg leqAlg : ℤ} {pa pb : Rep} (ha : pa.Wf K n) (hb : pb.Wf K n) (h : Rep.isEq n alg leqAlg pa pb = true) :
    ∀ x : Fin n → K, pa.γ x ↔ pb.γ x := isEq_sound ha hb h

/-- `pk_is_eq` is the equality of the sets of points, for all the algorithms.
PARTIAL: the matrices must be normalised with truthful flags, which the destructive assignment of an expression with a
denominator breaks; see `C109_is_eq_wrong`. -/
theorem C109_is_eq_exact_partial {alg leqAlg : ℤ} {pa pb : Rep} (ha : pa.Wf K n) (na : pa.Nice n) (hb : pb.Wf K n) (nb : pb.Nice n) :
    Rep.isEq n alg leqAlg pa pb = true ↔ ∀ x : Fin n → K, pa.γ x ↔ pb.γ x := ⟨isEq_sound ha hb, isEq_complete ha hb na nb⟩

/-! ## C110: unconstrained dimensions -/

/-- `pk_is_dimension_unconstrained` answers true only if the dimension may take any value, whatever the others -/
theorem C110_is_dimension_unconstrained_sound {pa : Rep} (ha : pa.Wf K n) {dim : ℕ} (hd : dim < n) (h : pa.isDimUnconstrained n dim = true) :
    ∀ x : Fin n → K, pa.γ x → ∀ v, pa.γ (fun i : Fin n => if (i : ℕ) = dim then v else x i) := isDimUnconstrained_sound ha hd h

/-- it answers true iff the polyhedron is not empty and the dimension may take any value; it is enough that this holds at
one point -/
theorem C110_is_dimension_unconstrained_exact {pa : Rep} (ha : pa.Wf K n) (na : pa.Nice n) {dim : ℕ} (hd : dim < n) :
    pa.isDimUnconstrained n dim = true ↔ ∃ x : Fin n → K, pa.γ x ∧ ∀ v, pa.γ (fun i : Fin n => if (i : ℕ) = dim then v else x i) := by
  refine ⟨fun h => ?_, fun ⟨x, hx, hu⟩ => isDimUnconstrained_complete ha na hd hx hu⟩
  have h1 := chernikova3_wf ha
  have h2 := isDimUnconstrained_sound ha hd h
  have h3 := chernikova3_γ ha
  rw [Rep.isDimUnconstrained] at h
  revert h; revert h1; revert h3
  cases pa.chernikova3 n with
  | bot => intro _ _ h; simp at h
  | cons C => intro _ _ h; simp at h
  | gens C => intro _ _ h; simp at h
  | both f =>
    intro h3 h1 _
    obtain ⟨x, hx⟩ := both_exists_point h1
    exact ⟨x, (h3 x).1 hx, h2 x ((h3 x).1 hx)⟩

end

/-- the assignment `x0 := x0 / 2` -/
def asgHalf : List (ℕ × Linexpr ℚ) := [(0, ⟨.scalar (fin 0), .sparse [(0, .scalar (fin (1 / 2)))]⟩)]

theorem asgHalf_ok : AsgOk 1 asgHalf where
  nodup := by decide
  dims := by decide
  expr := by
    intro p hp
    rw [asgHalf, List.mem_singleton] at hp
    subst hp
    exact ⟨⟨by simp [Linexpr.terms, dimMax], by simp [Linexpr.terms, dimMax]⟩, ⟨0, rfl⟩, by simp [Linexpr.terms, dimMax]⟩

/-- the points 1 and 1/2 of one dimension -/
def ptOne : Rep := .both ⟨[⟨[0, -1, 1], 0⟩, ⟨[1, 1, 0], 1⟩], [⟨[1, 1, 1], 2⟩], 1, 0, true, true, true, true⟩
def ptHalf : Rep := .gens [[1, 2, 1]]

theorem ptGens_wf {a b : ℤ} (ha : 0 < a) : (Rep.gens [[1, a, b]]).Wf ℚ 1 := by
  have hr : ineqRows [([1, a, b] : Row)] = [[1, a, b]] := by simp [ineqRows, Row.at']
  have he : eqRows [([1, a, b] : Row)] = [] := by simp [eqRows, Row.at']
  have hv : toV ℚ 2 [1, a, b] 0 = a := by simp [toV, Row.at']
  have ha' : (0 : ℚ) < a := by exact_mod_cast ha
  refine ⟨fun y hy => ?_, toV ℚ 2 [1, a, b], ?_, by rw [hv]; exact ha'⟩
  · refine Gen.le (G := fun y => 0 ≤ y 0) ⟨le_rfl, fun h1 h2 => by rw [Pi.add_apply]; exact add_nonneg h1 h2, fun h1 h2 => by
      rw [Pi.smul_apply]; exact mul_nonneg h1 h2⟩ (fun q hq => ?_) (fun q hq => ?_) hy
    · rw [he] at hq; exact absurd hq List.not_mem_nil
    · rw [hr, List.mem_singleton] at hq
      subst hq
      rw [hv]; exact ha'.le
  · exact Gen.of_ray (by rw [hr]; exact List.mem_singleton_self _)

theorem ptOne_wf : ptOne.Wf ℚ 1 := by
  have e : (Rep.gens [[1, 1, 1]]).canonicalize 1 0 = ptOne := by decide +kernel
  exact e ▸ (C108_canonicalize (ptGens_wf one_pos)).1

/-- after the destructive assignment of `x0 / 2` to `x0`, whose status column is multiplied by the denominator, `pk_is_eq` of
the result and of the same point built otherwise is false when `algorithm` is positive, and after `pk_canonicalize` with
the default options (an assertion fails instead if the code is compiled with assertions) -/
theorem C109_is_eq_wrong :
    ∃ r : Rep, Rep.asssubLinear true true 1 ⟨true, false, 0⟩ ptOne asgHalf none = some r ∧ r.Wf ℚ 1 ∧ ptHalf.Wf ℚ 1 ∧
      (∀ x : Fin 1 → ℚ, r.γ x ↔ ptHalf.γ x) ∧ Rep.isEq 1 1 0 r ptHalf = false ∧
      Rep.isEq 1 0 0 (r.canonicalize 1 0) (ptHalf.canonicalize 1 0) = false := by
  have e : Rep.asssubLinear true true 1 ⟨true, false, 0⟩ ptOne asgHalf none = some (.both
      ⟨[⟨[0, -1, 2], 0⟩, ⟨[1, 1, 0], 1⟩], [⟨[2, 2, 1], 2⟩], 1, 0, false, false, false, false⟩) := by decide +kernel
  obtain ⟨r, h1, h2, h3⟩ := C104_assign_exact (destr := true) (o := ⟨true, false, 0⟩) (pa := ptOne) ptOne_wf (by simp [asgHalf]) asgHalf_ok
    (dest := none) (by simp)
  rw [e, Option.some.injEq] at h1
  subst h1
  refine ⟨_, e, h2, ptGens_wf two_pos, ?_, by decide +kernel, by decide +kernel⟩
  exact isEq_sound (alg := 0) (leqAlg := 0) h2 (ptGens_wf two_pos) (by decide +kernel)

/-! ## Examples -/

/-- the segment `[-2, 2]` given by its bounds, with a redundant one, and by its vertices -/
def segC : Rep := .cons [[1, 1, 0], [1, 2, 1], [1, 2, -1], [1, 3, 1]]
def segG : Rep := .gens [[1, 1, -2], [1, 1, 2], [1, 1, 0]]

theorem segC_wf : segC.Wf ℚ 1 := cons_wf (by decide)
theorem segC_nice : segC.Nice 1 := by
  intro q hq
  simp only [List.mem_cons, List.not_mem_nil, or_false] at hq
  rcases hq with rfl | rfl | rfl | rfl
  · exact primRow_of_at (j := 0) (by omega) rfl
  · exact primRow_of_at (j := 1) (by omega) rfl
  · have h : PrimRow (1 + 1) [1, -2, 1] := primRow_of_at (j := 1) (by omega) rfl
    exact h.neg.setStatus 1
  · exact primRow_of_at (j := 1) (by omega) rfl

example : segC.canonicalize 1 0 = .both ⟨[⟨[1, 2, -1], 1⟩, ⟨[1, 2, 1], 2⟩], [⟨[1, 1, -2], 1⟩, ⟨[1, 1, 2], 2⟩], 0, 0, true, true, true, true⟩ ∧
    segC.canonicalize 1 0 = segG.canonicalize 1 0 := by decide +kernel
example : segC.minimize 1 = .cons [[1, 2, -1], [1, 2, 1]] := by decide +kernel
example : Rep.isEq 1 0 0 segC segG = true ∧ Rep.isEq 1 1 0 segC segG = true ∧ Rep.isEq 1 1 0 segC half = false := by decide +kernel
example : Rep.isDimUnconstrained 1 (.top 1) 0 = true ∧ Rep.isDimUnconstrained 1 segC 0 = false := by decide +kernel
example : Rep.isDimUnconstrained 2 (.cons [[1, 1, 0, 0], [1, 0, 1, 0]]) 1 = true := by decide +kernel

end Apron.Props
