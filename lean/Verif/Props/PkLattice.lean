import Verif.Poly.PkArray

/-!
# C88, C89, C90: lattice operations and tests on convex polyhedra

`Rep.γ r` is the set of points of the polyhedron `r`; `Rep.Wf` is the invariant of the representation: the positivity
constraint `ξ ≥ 0` is implied, a generator matrix has a vertex, and if both matrices are present they are minimal and dual to
each other with independent equalities and lines.
-/

set_option autoImplicit false
set_option linter.unusedSectionVars false

namespace Apron.Props

open Apron.Poly

variable {K : Type*} [LinearOrder K] [Field K] [IsStrictOrderedRing K] {n : ℕ}

/-! ## C88: meet -/

/-- the segment `[-2, 2]` -/
def seg : Rep := .both ⟨[⟨[1, 2, -1], 2⟩, ⟨[1, 2, 1], 1⟩], [⟨[1, 1, 2], 2⟩, ⟨[1, 1, -2], 1⟩], 0, 0, true, false, false, false⟩

theorem seg_eq : Rep.chernikova 1 (.cons [[1, 1, 0], [1, 2, 1], [1, 2, -1]]) = seg := by decide +kernel

theorem wf_of_eq {r s : Rep} (e : r.chernikova n = s) (h : r.Wf K n) : s.Wf K n := e ▸ chernikova_wf h

theorem seg_wf : seg.Wf ℚ 1 := wf_of_eq seg_eq (cons_wf (by decide))

/-- `pk_meet` returns exactly the intersection, in the lazy and in the strict mode, whatever matrices are available.  The
destructive strict version must not be given a polyhedron whose only matrix is an unsatisfiable constraint matrix. -/
theorem C88_meet_exact {o : Opts} {destr : Bool} {pa pb : Rep} (ha : pa.Wf K n) (hb : pb.Wf K n)
    (hd : destr = true → o.lzy = false → ∀ C, pa = .cons C → (∃ x : Fin n → K, pa.γ x) ∨ pb = .bot) :
    ∃ r, pa.meet n o destr pb = some r ∧ r.Wf K n ∧ ∀ x : Fin n → K, r.γ x ↔ pa.γ x ∧ pb.γ x := by
  obtain ⟨r, h1, h2, h3⟩ := polyMeet_ok (meet := true) (o := o) (destr := destr) (pa := pa) (pb := pb) ha hb (fun h h' _ => hd h h')
  rw [if_pos rfl] at h3
  exact ⟨r, h1, h2, h3⟩

/-- `pk_meet` of an object with itself -/
theorem C88_meet_self {o : Opts} {pa : Rep} (ha : pa.Wf K n) :
    (pa.polyMeetSelf n true o).Wf K n ∧ ∀ x : Fin n → K, (pa.polyMeetSelf n true o).γ x ↔ pa.γ x := by
  obtain ⟨h2, h3⟩ := polyMeetSelf_ok (meet := true) (o := o) (pa := pa) ha
  refine ⟨h2, fun x => ?_⟩
  have := (show IsMeet K n pa pa _ by simpa using h3) x
  rw [this, and_self]

/-- `pk_meet_array` returns exactly the intersection of all the elements of a non-empty array; equal addresses hold the same
polyhedron -/
theorem C88_meet_array_exact {o : Opts} {ps : List (ℕ × Rep)} (hne : ps ≠ []) (hw : ∀ p ∈ ps, p.2.Wf K n)
    (hid : ∀ p ∈ ps, ∀ q ∈ ps, p.1 = q.1 → p.2 = q.2) :
    ∃ r, meetArray n o ps = some r ∧ r.Wf K n ∧ ∀ x : Fin n → K, r.γ x ↔ ∀ p ∈ ps, p.2.γ x := by
  obtain ⟨r, h1, h2, h3⟩ := meetArray_ok (o := o) hne hw hid
  refine ⟨r, h1, h2, fun x => ?_⟩
  rw [h3 x]
  simp only [List.mem_map, forall_exists_index, and_imp, forall_apply_eq_imp_iff₂]

/-- DEFECT (`pk_meetjoin.c:296-312`): the destructive strict `pk_meet` of an empty polyhedron known by its constraints only
(for instance `pk_of_box` of an empty box) with the universe dereferences the NULL generator matrix -/
theorem C88_meet_destructive_null_dereference :
    ∃ pa pb : Rep, pa.Wf ℚ 1 ∧ pb.Wf ℚ 1 ∧ pa.meet 1 ⟨false, false, 0⟩ true pb = none :=
  ⟨.cons [[1, 1, 0], [1, -1, 1], [1, 0, -1]], .top 1, cons_wf (by decide), top_wf, by decide +kernel⟩

/-- the hypotheses: the segments `[-2, 2]` and `[1/2, 3]`, the first with both matrices -/
example : ∃ f pb, (Rep.both f).Wf ℚ 1 ∧ pb.Wf ℚ 1 ∧ (Rep.both f).meet 1 ⟨false, true, 0⟩ true pb ≠ some .bot :=
  ⟨_, .cons [[1, 1, 0], [1, -1, 2], [1, 3, -1]], seg_wf, cons_wf (by decide), by decide +kernel⟩

/-! ## C89: join -/

/-- `pk_join` returns the least polyhedron that contains both arguments: it contains them, and every system of linear
constraints that holds on both holds on the result -/
theorem C89_join_least {o : Opts} {destr : Bool} {pa pb : Rep} (ha : pa.Wf K n) (hb : pb.Wf K n) :
    ∃ r, pa.join n o destr pb = some r ∧ r.Wf K n ∧ (∀ x : Fin n → K, pa.γ x ∨ pb.γ x → r.γ x) ∧
      ∀ C : List Row, (∀ x : Fin n → K, pa.γ x ∨ pb.γ x → Sat C (hom x)) → ∀ x : Fin n → K, r.γ x → Sat C (hom x) := by
  obtain ⟨r, h1, h2, h3⟩ := polyMeet_ok (K := K) (n := n) (meet := false) (o := o) (destr := destr) (pa := pa.dual) (pb := pb.dual)
    (by rw [Rep.view, if_neg (by simp), Rep.dual_dual]; exact ha) (by rw [Rep.view, if_neg (by simp), Rep.dual_dual]; exact hb) (by simp)
  simp only [Bool.false_eq_true, if_false, Rep.dual_dual] at h3
  refine ⟨r.dual, by rw [Rep.join, h1]; rfl, h2, h3.1, h3.2⟩

/-- in particular the result is included in every polyhedron of the domain that contains both -/
theorem C89_join_lub {o : Opts} {destr : Bool} {pa pb q : Rep} (ha : pa.Wf K n) (hb : pb.Wf K n) (hq : q.Wf K n)
    (h : ∀ x : Fin n → K, pa.γ x ∨ pb.γ x → q.γ x) :
    ∃ r, pa.join n o destr pb = some r ∧ ∀ x : Fin n → K, r.γ x → q.γ x := by
  obtain ⟨r, h1, h2, h3, h4⟩ := C89_join_least (o := o) (destr := destr) ha hb
  refine ⟨r, h1, fun x hx => ?_⟩
  cases hc : (q.obtainC n).C? with
  | none =>
    have hb : q.obtainC n = .bot := by
      by_contra hb
      exact obtainCDual_C (meet := true) (n := n) (r := q) hb hc
    have hq' : ∀ x : Fin n → K, ¬ q.γ x := fun x hx => by
      have := (obtainC_γ hq x).2 hx
      rw [hb] at this; exact this
    have := h4 [[1, -1]] (fun x hx => absurd (h x hx) (hq' x)) x hx
    have := (this _ (List.mem_singleton_self _)).1
    rw [dot, Fin.sum_univ_succ] at this
    simp [Row.at', hom] at this
    linarith [zero_lt_one (α := K)]
  | some C =>
    rw [← obtainC_γ hq]
    exact (Rep.Wf.sat hc _).2 (h4 C (fun x hx => (Rep.Wf.sat hc _).1 ((obtainC_γ hq x).2 (h x hx))) x hx)

/-- `pk_join` of an object with itself -/
theorem C89_join_self {o : Opts} {pa : Rep} (ha : pa.Wf K n) :
    (pa.dual.polyMeetSelf n false o).dual.Wf K n ∧ ∀ x : Fin n → K, (pa.dual.polyMeetSelf n false o).dual.γ x ↔ pa.γ x := by
  have h := polyMeetSelf_ok (K := K) (n := n) (meet := false) (o := o) (pa := pa.dual)
    (by rw [Rep.view, if_neg (by simp), Rep.dual_dual]; exact ha)
  refine ⟨h.1, fun x => ?_⟩
  rw [Rep.polyMeetSelf]
  split_ifs
  · rw [Rep.dual_dual]
  · have := chernikovaDual_γ (K := K) (n := n) (meet := false) (r := pa.dual)
      (by rw [Rep.view, if_neg (by simp), Rep.dual_dual]; exact ha) x
    rw [Rep.view, Rep.view, if_neg (by simp), if_neg (by simp), Rep.dual_dual] at this
    exact this

/-- `pk_join_array` returns the least polyhedron that contains all the elements of a non-empty array, provided no address
occurs more than twice in the array -/
theorem C89_join_array_least_partial {o : Opts} {ids : List ℕ} {heap : ℕ → Rep} (hne : ids ≠ []) (hw : ∀ i ∈ ids, (heap i).Wf K n)
    (hc : ∀ i, ids.count i ≤ 2) :
    ∃ r, joinArray n o ids heap = some r ∧ r.Wf K n ∧ (∀ i ∈ ids, ∀ x : Fin n → K, (heap i).γ x → r.γ x) ∧
      ∀ C : List Row, (∀ i ∈ ids, ∀ x : Fin n → K, (heap i).γ x → Sat C (hom x)) → ∀ x : Fin n → K, r.γ x → Sat C (hom x) := by
  obtain ⟨r, h1, h2, h3, h4⟩ := joinArray_ok (o := o) hne hw hc
  refine ⟨r, h1, h2, fun i hi => h3 _ (List.mem_map_of_mem hi), fun C hC => h4 C fun P hP => ?_⟩
  obtain ⟨i, hi, rfl⟩ := List.mem_map.1 hP
  exact hC i hi

theorem seg_join : joinArray 1 ⟨false, false, 0⟩ [0, 0, 0] (fun _ => seg) = some seg.dual := by decide +kernel

/-- DEFECT (`pk_meetjoin.c:651-665`): when an array holds the same object three times, one duplicate remains after their
removal, the object is dualised twice, and the result is the dual of the polyhedron: the join of `[-2, 2]` with itself is
`[-1/2, 1/2]` -/
theorem C89_join_array_three_aliases_unsound :
    ∃ (P r : Rep) (x : Fin 1 → ℚ), P.Wf ℚ 1 ∧ joinArray 1 ⟨false, false, 0⟩ [0, 0, 0] (fun _ => P) = some r ∧ P.γ x ∧ ¬ r.γ x := by
  refine ⟨seg, seg.dual, fun _ => 2, seg_wf, seg_join, ?_, ?_⟩
  · intro q hq
    simp only [Full.crows, List.map_cons, List.map_nil, List.mem_cons, List.not_mem_nil, or_false] at hq
    rcases hq with rfl | rfl <;> simp [dot, Fin.sum_univ_succ, Row.at', hom]
  · intro h
    have h1 := (h [1, 1, -2] (by simp [Full.crows, Full.dual])).1
    simp [dot, Fin.sum_univ_succ, Row.at', hom] at h1
    norm_num at h1

/-- the hypotheses: three segments, one of them twice -/
example : ∃ heap : ℕ → Rep, (∀ i ∈ [0, 1, 2, 1], (heap i).Wf ℚ 1) ∧ (∀ i, [0, 1, 2, 1].count i ≤ 2) ∧
    joinArray 1 ⟨false, false, 0⟩ [0, 1, 2, 1] heap ≠ some .bot := by
  refine ⟨fun i => .cons [[1, 1, 0], [1, -(i : ℤ), 1], [1, 4 + (i : ℤ), -2]],
    fun i _ => cons_wf (List.mem_cons.2 (.inl (by decide))), ?_, by decide +kernel⟩
  intro i
  simp only [List.count_cons, List.count_nil, beq_iff_eq]
  split_ifs <;> omega

/-! ## C90: tests and the universe -/

/-- `pk_is_leq` decides inclusion, for every value of the option `algorithm` and whatever matrices are available -/
theorem C90_is_leq_exact {pa pb : Rep} (ha : pa.Wf K n) (hb : pb.Wf K n) (alg : ℤ) :
    pa.isLeq n alg pb = true ↔ ∀ x : Fin n → K, pa.γ x → pb.γ x := isLeq_iff ha hb alg

/-- `pk_is_bottom` decides emptiness if `algorithm` is not negative -/
theorem C90_is_bottom_exact {r : Rep} (h : r.Wf K n) {alg : ℤ} (ha : 0 ≤ alg) :
    r.isBottom n alg = true ↔ ∀ x : Fin n → K, ¬ r.γ x := isBottom_iff h ha

/-- `pk_is_bottom` answers `true` on empty polyhedra only -/
theorem C90_is_bottom_sound {r : Rep} (h : r.Wf K n) {alg : ℤ} (hb : r.isBottom n alg = true) (x : Fin n → K) : ¬ r.γ x :=
  isBottom_sound h hb x

/-- `pk_is_top` decides universality if `algorithm` is not negative -/
theorem C90_is_top_exact {r : Rep} (h : r.Wf K n) {alg : ℤ} (ha : 0 ≤ alg) :
    r.isTop n alg = true ↔ ∀ x : Fin n → K, r.γ x := isTop_iff h ha

/-- `pk_is_top` answers `true` on the universe only -/
theorem C90_is_top_sound {r : Rep} (h : r.Wf K n) {alg : ℤ} (ht : r.isTop n alg = true) (x : Fin n → K) : r.γ x :=
  isTop_sound h ht x

/-- `pk_top` is a well-formed polyhedron that contains every point -/
theorem C90_top : (Rep.top n).Wf K n ∧ ∀ x : Fin n → K, (Rep.top n).γ x := ⟨top_wf, top_γ⟩

/-- the conversions used by all the operations change no point: `poly_chernikova`, `poly_obtain_C`, `poly_obtain_F` -/
theorem C90_conversions {r : Rep} (h : r.Wf K n) : (∀ x : Fin n → K, (r.chernikova n).γ x ↔ r.γ x) ∧
    (∀ x : Fin n → K, (r.obtainC n).γ x ↔ r.γ x) ∧ ∀ x : Fin n → K, (r.obtainF n).γ x ↔ r.γ x :=
  ⟨chernikova_γ h, obtainC_γ h, obtainF_γ h⟩

/-- the hypotheses: `[0, 1]` given by constraints is included in `[0, 3]` and not conversely -/
example : ∃ pa pb : Rep, pa.Wf ℚ 1 ∧ pb.Wf ℚ 1 ∧ pa.isLeq 1 0 pb = true ∧ pb.isLeq 1 0 pa = false ∧ pa.isBottom 1 0 = false ∧
    pa.isTop 1 0 = false :=
  ⟨.cons [[1, 1, 0], [1, 0, 1], [1, 1, -1]], .cons [[1, 1, 0], [1, 0, 1], [1, 3, -1]], cons_wf (by decide), cons_wf (by decide),
    by decide +kernel, by decide +kernel, by decide +kernel, by decide +kernel⟩

end Apron.Props
