import Verif.Poly.PkWidenOk
import Verif.Props.PkUser

/-!
# C98–C100: widening of convex polyhedra

`Rep.γ r` is the set of points of the polyhedron `r`, `Rep.Wf` the invariant of the representation (see `PkLattice`).  A
result `none` of `Rep.widening` stands for the dereference of a null pointer.  As documented, the first argument has to be
included in the second one.
-/

set_option autoImplicit false
set_option linter.unusedSectionVars false
set_option linter.ambiguousOpen false

namespace Apron.Props

open Apron Apron.Poly Bound

section
variable {K : Type*} [LinearOrder K] [Field K] [IsStrictOrderedRing K] {n : ℕ}

/-! ## C98: the widening is an upper bound and keeps the stable constraints -/

/-- `pk_widening` returns a polyhedron that contains both arguments; if the first argument is empty, the second one -/
theorem C98_widening_upper_bound {alg : ℤ} {pa pb : Rep} (ha : pa.Wf K n) (hb : pb.Wf K n)
    (hle : ∀ x : Fin n → K, pa.γ x → pb.γ x) :
    ∃ r, pa.widening n alg pb = some r ∧ r.Wf K n ∧ (∀ x : Fin n → K, pa.γ x ∨ pb.γ x → r.γ x) ∧
      ((∀ x : Fin n → K, ¬ pa.γ x) → ∀ x : Fin n → K, r.γ x → pb.γ x) := by
  rcases chernikova_shape n pa with e | ⟨f, e⟩
  · exact ⟨_, widening_bot alg e, chernikova_wf hb, fun x hx => (chernikova_γ hb x).2 (hx.elim (hle x) id), fun _ x hx =>
      (chernikova_γ hb x).1 hx⟩
  · obtain ⟨g, eg, hw, wf, wg, _⟩ := widening_both ha hb hle alg e
    refine ⟨_, hw, cons_wf (List.mem_cons_self ..), fun x hx => ?_, fun hem => ?_⟩
    · have hx' : Sat g.crows (hom x) := ((chernikova_both hb eg).2 _).2 (hx.elim (hle x) id)
      exact sat_keep hx' (by rw [hom_zero]; exact zero_le_one)
    · obtain ⟨x0, hx0⟩ := IsCone.exists_point (Sat.isCone f.crows) wf.2.2
      exact absurd (((chernikova_both ha e).2 _).1 hx0) (hem x0)

/-- every constraint of the minimal representation of the first argument that is satisfied by the second argument is
satisfied by the result -/
theorem C98_widening_keeps_stable_constraints {alg : ℤ} {pa pb r : Rep} (ha : pa.Wf K n) (hb : pb.Wf K n)
    (hle : ∀ x : Fin n → K, pa.γ x → pb.γ x) (hr : pa.widening n alg pb = some r) {C : List Row}
    (hC : (pa.chernikova n).C? = some C) {q : Row} (hq : q ∈ C)
    (hv : ∀ x : Fin n → K, pb.γ x → 0 ≤ dot q (hom x) ∧ (q.at' 0 = 0 → dot q (hom x) = 0)) :
    ∀ x : Fin n → K, r.γ x → 0 ≤ dot q (hom x) ∧ (q.at' 0 = 0 → dot q (hom x) = 0) := by
  rcases chernikova_shape n pa with e | ⟨f, e⟩
  · rw [e] at hC; cases hC
  · rw [e] at hC; cases hC
    obtain ⟨g, eg, hw, wf, wg, hcl⟩ := widening_both ha hb hle alg e
    rw [hw, Option.some.injEq] at hr
    subst hr
    intro x hx
    have hv' : ∀ y : Fin (n + 1) → K, Sat g.crows y → Sat [q] y :=
      cone_le wg fun x hx => by
        rw [Sat.cons_iff]
        exact ⟨hv x (((chernikova_both hb eg).2 _).1 hx), Sat.nil _⟩
    exact widening_keeps wf.1 wf.2.1 wf.2.2 hcl alg hq (fun y hy => hv' y hy q (List.mem_singleton_self _)) _ hx

/-- DEFECT outside of the documented precondition: if the first argument is not empty and the second one is, the null
matrix of constraints of the second one is dereferenced (`pk_widening.c:179`) -/
theorem C98_widening_null_dereference {alg : ℤ} {pa pb : Rep} (ha : pa.Wf K n) (hb : pb.Wf K n) (hne : ∃ x : Fin n → K, pa.γ x)
    (hem : ∀ x : Fin n → K, ¬ pb.γ x) : pa.widening n alg pb = none := by
  rcases chernikova_shape n pa with e | ⟨f, e⟩
  · obtain ⟨x, hx⟩ := hne
    exact absurd hx ((chernikova_bot_iff ha).1 e x)
  · rw [Rep.widening, e, (chernikova_bot_iff hb).2 hem]; rfl

/-! ## C99: the widening terminates -/

/-- any sequence of widenings `x (k+1) = pk_widening (x k) (y k)` is ultimately stationary, whatever the values `y k` (larger
than `x k`) and the option `algorithm` used at each step -/
theorem C99_widening_terminates (x y : ℕ → Rep) (alg : ℕ → ℤ) (hx : (x 0).Wf K n) (hy : ∀ k, (y k).Wf K n)
    (hle : ∀ k, ∀ p : Fin n → K, (x k).γ p → (y k).γ p)
    (hstep : ∀ k, (x k).widening n (alg k) (y k) = some (x (k + 1))) :
    ∃ N, ∀ k, N ≤ k → ∀ p : Fin n → K, (x k).γ p ↔ (x N).γ p := by
  have hw : ∀ k, (x k).Wf K n := by
    intro k
    induction k with
    | zero => exact hx
    | succ k ih =>
      obtain ⟨r, h1, h2, -, -⟩ := C98_widening_upper_bound (alg := alg k) ih (hy k) (hle k)
      rw [hstep k, Option.some.injEq] at h1
      rw [h1]; exact h2
  refine stationary [e0 K n] x hw (fun k p hp => ?_) fun k f hf => ?_
  · obtain ⟨r, h1, -, h3, -⟩ := C98_widening_upper_bound (alg := alg k) (hw k) (hy k) (hle k)
    rw [hstep k, Option.some.injEq] at h1
    rw [h1]; exact h3 p (.inl hp)
  · obtain ⟨g, -, h1, wf, -, -⟩ := widening_both (hw k) (hy k) (hle k) (alg k) hf
    rw [hstep k, Option.some.injEq] at h1
    refine ⟨_, h1, fun c hc => ?_⟩
    rcases List.mem_cons.1 hc with rfl | hc
    · left; rw [toV_posRow]; exact List.mem_singleton_self _
    · right; exact keeps_row wf.1 hc

end

/-! ## C100: widening with thresholds -/

section
variable {n : ℕ}

/-- `pk_widening_threshold`, the first argument being non-empty: the result contains both arguments and is included in the
result of the widening without thresholds -/
theorem C100_threshold_upper_bound {intdim : ℕ} {alg : ℤ} {pa pb : Rep} (ha : pa.Wf ℚ n) (hb : pb.Wf ℚ n)
    (hle : ∀ x : Fin n → ℚ, pa.γ x → pb.γ x) (hne : ∃ x : Fin n → ℚ, pa.γ x) (l : List (Lincons ℚ)) :
    ∃ r w, pa.wideningThreshold n intdim alg pb l = some r ∧ r.Wf ℚ n ∧ pa.widening n alg pb = some w ∧
      (∀ x : Fin n → ℚ, pa.γ x ∨ pb.γ x → r.γ x) ∧ ∀ x : Fin n → ℚ, r.γ x → w.γ x := by
  rcases chernikova_shape n pa with e | ⟨f, e⟩
  · obtain ⟨x, hx⟩ := hne
    exact absurd hx ((chernikova_bot_iff ha).1 e x)
  · obtain ⟨g, eg, hw, wf, wg, _⟩ := widening_both ha hb hle alg e
    refine ⟨.cons (posRow n :: g.crows.filter (f.keeps n alg) ++ thresholdRows n intdim g.frows l), _, ?_, ?_, hw, ?_, ?_⟩
    · rw [Rep.wideningThreshold, hw, Option.bind_some, eg]; rfl
    · exact cons_wf (List.mem_append_left _ (List.mem_cons_self ..))
    · intro x hx
      have hx' : Sat g.crows (hom x) := ((chernikova_both hb eg).2 _).2 (hx.elim (hle x) id)
      refine Sat.append_iff.2 ⟨sat_keep hx' (by rw [hom_zero]; exact zero_le_one), fun q hq => ?_⟩
      obtain ⟨c, -, -, -, -, h2⟩ := mem_thresholdRows.1 hq
      exact genSatVector_iff.1 h2 _ ((wg.1.sat_iff _).1 hx')
    · intro x hx
      exact (Sat.append_iff.1 hx).1

/-- on real dimensions, every threshold `e ≥ 0` with numeric coefficients that is satisfied by the second argument is
satisfied by the result.  Missing: strict thresholds (only `e ≥ 0` is kept) and integer dimensions (the threshold is first
tightened; it is not kept if the tightened constraint excludes a non-integer point). -/
theorem C100_threshold_kept_partial {alg : ℤ} {pa pb r : Rep} (ha : pa.Wf ℚ n) (hb : pb.Wf ℚ n)
    (hle : ∀ x : Fin n → ℚ, pa.γ x → pb.γ x) (hne : ∃ x : Fin n → ℚ, pa.γ x) {l : List (Lincons ℚ)}
    (hr : pa.wideningThreshold n 0 alg pb l = some r) {c : Lincons ℚ} (hc : c ∈ l) (hd : c.expr.InDim n) (hn : c.expr.Numeric)
    (hty : c.typ = .supeq) (hv : ∀ x : Fin n → ℚ, pb.γ x → c.Holds (ext x)) : ∀ x : Fin n → ℚ, r.γ x → c.Holds (ext x) := by
  rcases chernikova_shape n pa with e | ⟨f, e⟩
  · obtain ⟨x, hx⟩ := hne
    exact absurd hx ((chernikova_bot_iff ha).1 e x)
  · obtain ⟨g, eg, hw, wf, wg, _⟩ := widening_both ha hb hle alg e
    rw [Rep.wideningThreshold, hw, Option.bind_some, eg] at hr
    cases hr
    intro x hx
    have hs := scalarOk_ofAp hd hn (.inr hty)
    refine holds_of_ofAp ((rel_setLincons hs x).1 ?_)
    refine (Sat.append_iff.1 hx).2 _ (mem_thresholdRows.2 ⟨c, hc, .inl hty, ?_, rfl, ?_⟩)
    · obtain ⟨⟨a, ha⟩, h2⟩ := hn
      rw [Linexpr.isLinear, Bool.and_eq_true, List.all_eq_true]
      refine ⟨by rw [ha]; rfl, fun p hp => ?_⟩
      obtain ⟨b, hb⟩ := h2 p hp
      rw [hb]; rfl
    · refine (genSatVector_iff (K := ℚ)).2 fun y hy => ?_
      have hv' : ∀ y : Fin (n + 1) → ℚ, Sat g.crows y → Sat [setLincons n 0 (ILincons.ofAp Rnd.exact c)] y :=
        cone_le wg fun x hx => by
          rw [Sat.cons_iff]
          exact ⟨(rel_setLincons hs x).2 (Apron.ILincons.holds_ofAp _ (hv x (((chernikova_both hb eg).2 _).1 hx))), Sat.nil _⟩
      exact hv' y ((wg.1.sat_iff y).2 hy) _ (List.mem_singleton_self _)

/-- any sequence of widenings with the same thresholds, from a non-empty polyhedron, is ultimately stationary -/
theorem C100_threshold_terminates (x y : ℕ → Rep) (intdim : ℕ) (alg : ℕ → ℤ) (l : List (Lincons ℚ)) (hx : (x 0).Wf ℚ n)
    (hne : ∃ p : Fin n → ℚ, (x 0).γ p) (hy : ∀ k, (y k).Wf ℚ n) (hle : ∀ k, ∀ p : Fin n → ℚ, (x k).γ p → (y k).γ p)
    (hstep : ∀ k, (x k).wideningThreshold n intdim (alg k) (y k) l = some (x (k + 1))) :
    ∃ N, ∀ k, N ≤ k → ∀ p : Fin n → ℚ, (x k).γ p ↔ (x N).γ p := by
  have hw : ∀ k, (x k).Wf ℚ n ∧ ∃ p : Fin n → ℚ, (x k).γ p := by
    intro k
    induction k with
    | zero => exact ⟨hx, hne⟩
    | succ k ih =>
      obtain ⟨r, w, h1, h2, -, h3, -⟩ := C100_threshold_upper_bound (intdim := intdim) (alg := alg k) ih.1 (hy k) (hle k) ih.2 l
      rw [hstep k, Option.some.injEq] at h1
      obtain ⟨p, hp⟩ := ih.2
      rw [h1]; exact ⟨h2, p, h3 p (.inl hp)⟩
  refine stationary (e0 ℚ n :: l.map fun c => toV ℚ (n + 1) (setLincons n intdim (ILincons.ofAp Rnd.exact c))) x (fun k => (hw k).1)
    (fun k p hp => ?_) fun k f hf => ?_
  · obtain ⟨r, w, h1, -, -, h3, -⟩ := C100_threshold_upper_bound (intdim := intdim) (alg := alg k) (hw k).1 (hy k) (hle k) (hw k).2 l
    rw [hstep k, Option.some.injEq] at h1
    rw [h1]; exact h3 p (.inl hp)
  · obtain ⟨g, eg, h1, wf, -, -⟩ := widening_both (hw k).1 (hy k) (hle k) (alg k) hf
    have h2 := hstep k
    rw [Rep.wideningThreshold, h1, Option.bind_some, eg] at h2
    refine ⟨_, (Option.some.inj h2).symm, fun c hc => ?_⟩
    rcases List.mem_append.1 hc with hc | hc
    · rcases List.mem_cons.1 hc with rfl | hc
      · left; rw [toV_posRow]; exact List.mem_cons_self ..
      · right; exact keeps_row wf.1 hc
    · left
      obtain ⟨c', hc', -, -, rfl, -⟩ := mem_thresholdRows.1 hc
      exact List.mem_cons_of_mem _ (List.mem_map_of_mem hc')

/-- DEFECT (`pk_widening.c:226-265`): when the first argument is empty, the thresholds satisfied by the second argument are
appended to the matrix of constraints of a copy of it, which keeps the generators and the saturation matrix of before: the
saturation matrix has fewer rows than the matrix of constraints (here the segment `[-2, 2]` and the threshold `x + 3 ≥ 0`) -/
theorem C100_threshold_empty_inconsistent : ∃ (pa pb : Rep) (c : Lincons ℚ), pa.Wf ℚ 1 ∧ pb.Wf ℚ 1 ∧ c.expr.InDim 1 ∧
    c.expr.Numeric ∧ (∀ x : Fin 1 → ℚ, pa.γ x → pb.γ x) ∧ pa.wideningThreshold 1 0 0 pb [c] = none := by
  refine ⟨.bot, seg, ⟨.supeq, ⟨.scalar (fin 3), .sparse [(0, .scalar (fin 1))]⟩⟩, trivial, seg_wf, ?_, ?_, fun x hx => False.elim hx,
    by decide +kernel⟩
  · simp [Linexpr.InDim, Linexpr.terms, dimMax]
  · simp [Linexpr.Numeric, Linexpr.terms, dimMax]

end

/-! ## Examples -/

/-- the segment `[-2, 3]` -/
def seg3 : Rep := .cons [[1, 1, 0], [1, 2, 1], [1, 3, -1]]

theorem seg3_wf : seg3.Wf ℚ 1 := cons_wf (by decide)

theorem seg_le_seg3 (x : Fin 1 → ℚ) (hx : seg.γ x) : seg3.γ x := by
  change Sat [[1, 2, -1], [1, 2, 1]] (hom x) at hx
  change Sat [[1, 1, 0], [1, 2, 1], [1, 3, -1]] (hom x)
  simp [Sat, dot, Row.at', hom, Fin.sum_univ_succ] at hx ⊢
  constructor <;> linarith [hx.1, hx.2]

/-- the widening of `[-2, 2]` by `[-2, 3]` is `[-2, +oo)` -/
example : seg.Wf ℚ 1 ∧ seg3.Wf ℚ 1 ∧ (∀ x : Fin 1 → ℚ, seg.γ x → seg3.γ x) ∧
    seg.widening 1 0 seg3 = some (.cons [[1, 1, 0], [1, 2, 1]]) :=
  ⟨seg_wf, seg3_wf, seg_le_seg3, by decide +kernel⟩

/-- with the threshold `4 - x ≥ 0` it is `[-2, 4]` -/
example : seg.wideningThreshold 1 0 0 seg3 [⟨.supeq, ⟨.scalar (fin 4), .sparse [(0, .scalar (fin (-1)))]⟩⟩] =
    some (.cons [[1, 1, 0], [1, 2, 1], [1, 4, -1]]) := by decide +kernel

/-- a sequence of widenings: `[-2, 2]`, then `[-2, +oo)` for ever -/
example : ∃ x y : ℕ → Rep, (x 0).Wf ℚ 1 ∧ x 0 = seg ∧ (∀ k, (y k).Wf ℚ 1) ∧ (∀ k, ∀ p : Fin 1 → ℚ, (x k).γ p → (y k).γ p) ∧
    ∀ k, (x k).widening 1 0 (y k) = some (x (k + 1)) := by
  refine ⟨fun k => if k = 0 then seg else .cons [[1, 1, 0], [1, 2, 1]], fun k => if k = 0 then seg3 else .cons [[1, 1, 0], [1, 2, 1]],
    seg_wf, rfl, fun k => ?_, fun k p hp => ?_, fun k => ?_⟩
  · cases k with
    | zero => exact seg3_wf
    | succ k => exact cons_wf (by decide)
  · cases k with
    | zero => exact seg_le_seg3 p hp
    | succ k => exact hp
  · cases k with
    | zero => decide +kernel
    | succ k =>
      change Rep.widening 1 0 (.cons [[1, 1, 0], [1, 2, 1]]) (.cons [[1, 1, 0], [1, 2, 1]]) = some (.cons [[1, 1, 0], [1, 2, 1]])
      decide +kernel

end Apron.Props
