import Verif.Props.Zono

/-!
# Properties of abstract values of taylor1plus
-/

set_option autoImplicit false
set_option linter.unusedSectionVars false
set_option linter.ambiguousOpen false

namespace Apron
namespace Props
open Bound T1p

section
variable {K : Type*} [LinearOrder K] [Field K] [IsStrictOrderedRing K] [FloorRing K] (R : Rnd K) (o : RootOps K)

/-! ## C123: boxes, bounds, emptiness -/

/-- C123: the points of the abstract value of a box are the points of the box.  Condition on the rounding: the middle of
each interval is finite, and its deviation too. -/
theorem C123_of_box_points {pr : Pr K} (hpr : WfPr pr) (intdim n : ℕ) (b : ℕ → Itv K)
    (hb : ∀ i < n, (b i).inf ≠ ninf ∧ (b i).sup ≠ ninf) (hs : ∀ i < n, BoxSafe R (b i)) (x : ℕ → K) :
    Gam (ofBox R pr intdim n b).1 (ofBox R pr intdim n b).2 x ↔ ∀ i < n, x i ∈ b i := gam_ofBox hpr hb hs

/-- C123, in exact arithmetic -/
theorem C123_of_box_exact {pr : Pr K} (hpr : WfPr pr) (intdim n : ℕ) (b : ℕ → Itv K)
    (hb : ∀ i < n, (b i).inf ≠ ninf ∧ (b i).sup ≠ ninf) (x : ℕ → K) :
    Gam (ofBox Rnd.exact pr intdim n b).1 (ofBox Rnd.exact pr intdim n b).2 x ↔ ∀ i < n, x i ∈ b i :=
  gam_ofBox hpr hb fun i _ => boxSafe_exact _

/-- C123: the construction keeps the invariant of the manager and the points of all other abstract values. -/
theorem C123_of_box_others {pr : Pr K} (hpr : WfPr pr) (intdim n : ℕ) (b : ℕ → Itv K)
    (hb : ∀ i < n, (b i).inf ≠ ninf ∧ (b i).sup ≠ ninf) {c : T1 K} (hc : WfA pr c) :
    WfPr (ofBox R pr intdim n b).1 ∧ WfA (ofBox R pr intdim n b).1 (ofBox R pr intdim n b).2 ∧
      ∀ z, Gam (ofBox R pr intdim n b).1 c z ↔ Gam pr c z :=
  ⟨(ofBox_wf hpr hb).1, (ofBox_wf hpr hb).2.1, fun _ => ofBox_frame hpr hb hc⟩

/-- C123: every point is within the bounds of each dimension. -/
theorem C123_bound_dimension_sound {pr : Pr K} {a : T1 K} {x : ℕ → K} (h : Gam pr a x) {d : ℕ} (hd : d < a.n) : x d ∈ a.boundDim d := by
  obtain ⟨_, ε, _, h⟩ := h
  exact (h d hd).1

/-- C123: a value reported as empty has no point. -/
theorem C123_is_bottom_sound {pr : Pr K} {a : T1 K} (hb : ∀ i < a.n, (a.box i).inf ≠ ninf ∧ (a.box i).sup ≠ ninf) (h : a.isBottom = some true) (x : ℕ → K) :
    ¬ Gam pr a x := by
  rintro ⟨_, ε, _, hx⟩
  unfold T1.isBottom at h
  split_ifs at h with h0
  simp only [Option.some.injEq, List.all_eq_true, List.mem_range] at h
  have h1 := h 0 (by omega)
  rw [Itv.isBottom_iff _ (hb 0 (by omega)).1 (hb 0 (by omega)).2] at h1
  exact h1 _ (hx 0 (by omega)).1

/-- C123: top has all points, bottom none (with at least one dimension). -/
theorem C123_top_bottom {pr : Pr K} (hpr : WfPr pr) (intdim n : ℕ) :
    (∀ x, Gam pr (T1.top intdim n) x) ∧ (0 < n → ∀ x, ¬ Gam pr (T1.bottom intdim n) x) := by
  refine ⟨fun x => ⟨fun i _ j _ _ h => absurd rfl h, fun _ => 0, fun k => ?_, fun i _ => ⟨Itv.mem_top _, ?_⟩⟩, ?_⟩
  · exact Itv.mem_muu.2 ⟨by norm_num, by norm_num⟩
  · show (pr.heap topPtr).Val _ _
    rw [hpr.top]; exact (Aff.Has.top _).1
  · rintro hn x ⟨_, ε, _, hx⟩
    exact Itv.not_mem_bottom _ (hx 0 hn).1

/-! ## C124: assignment -/

/-- C124: assignment of an array of trees is sound, if at each node the conditions of C122 hold and operations are of type
real.  Missing: other cases, where the code can be wrong (`C124_assign_top_wrong`, `C124_assign_square_wrong`,
`C124_assign_type_wrong`); `dest`. -/
theorem C124_assign_sound_partial (ho : o.SqrtOK) (S : FltSem K) {eps : K} {pr pr' : Pr K} {a a' : T1 K} {l : List (ℕ × Texpr K)}
    {x : ℕ → K} {vs : List K} (hpr : WfPr pr) (ha : WfA pr a) (hd : ∀ p ∈ l, p.2.InDim a.n)
    (hs : ArraySafe R o eps a l (sync pr a, a)) (h : assignArray R o eps pr a l = some (pr', a'))
    (hx : Gam pr a x) (hv : List.Forall₂ (fun p v => p.2.Val S x v) l vs) : Gam pr' a' (assignAll x l vs) :=
  assignArray_sound ho S hpr ha hd hs h hx hv

/-- C124: assignment changes affine forms in place; every other abstract value, and the argument itself, keeps its points. -/
theorem C124_assign_others_partial {eps : K} {pr pr' : Pr K} {a a' b : T1 K} {l : List (ℕ × Texpr K)} (hpr : WfPr pr) (ha : WfA pr a)
    (hb : WfA pr b) (hd : ∀ p ∈ l, p.2.InDim a.n) (hs : ArraySafe R o eps a l (sync pr a, a))
    (h : assignArray R o eps pr a l = some (pr', a')) {z : ℕ → K} (hz : Gam pr b z) : Gam pr' b z :=
  assignArray_frame hpr ha hb hd hs h hz

/-- C124: assignment keeps the invariants and the number of dimensions. -/
theorem C124_assign_invariant {eps : K} {pr pr' : Pr K} {a a' : T1 K} {l : List (ℕ × Texpr K)} (hpr : WfPr pr) (ha : WfA pr a)
    (hd : ∀ p ∈ l, p.2.InDim a.n) (h : assignArray R o eps pr a l = some (pr', a')) : WfPr pr' ∧ WfA pr' a' ∧ a'.n = a.n :=
  ⟨(assignArray_wf hpr ha hd h).1, (assignArray_wf hpr ha hd h).2.1, (assignArray_wf hpr ha hd h).2.2.2⟩

/-- C124: a sequence of assignments from a box: all bounds hold for all executions, under the conditions of C122 at each
step. -/
theorem C124_program_sound_partial (ho : o.SqrtOK) (S : FltSem K) {eps : K} {pr : Pr K} (hpr : WfPr pr) {n intdim : ℕ} {b : ℕ → Itv K}
    (hb : ∀ i < n, (b i).inf ≠ ninf ∧ (b i).sup ≠ ninf) (hs : ∀ i < n, BoxSafe R (b i)) {prog : List (List (ℕ × Texpr K))}
    (hd : ∀ l ∈ prog, ∀ p ∈ l, p.2.InDim n) (hp : ProgSafe R o eps prog (ofBox R pr intdim n b)) {st' : Pr K × T1 K}
    (hr : runProg R o eps prog (ofBox R pr intdim n b) = some st') {x y : ℕ → K} (hx : ∀ i < n, x i ∈ b i) (he : Exec S prog x y)
    {d : ℕ} (hdn : d < n) : y d ∈ st'.2.boundDim d := by
  obtain ⟨_, _, hn, hg⟩ := prog_sound ho S prog (ofBox_wf hpr hb).1 (ofBox_wf hpr hb).2.1 rfl hd hp hr ((gam_ofBox hpr hb hs).2 hx) he
  exact C123_bound_dimension_sound hg (by rw [hn]; exact hdn)

/-! ## C125: linear programs -/

/-- C125: a sequence of arrays of linear assignments from a bounded box, in exact arithmetic.  The run succeeds; the bounds of
each dimension are exactly the values that the executions give it. -/
theorem C125_linear_program_exact (ho : o.SqrtOK) (S : FltSem K) {eps : K} (heps : 0 ≤ eps) {pr : Pr K} (hpr : WfPr pr) {n intdim : ℕ}
    {b : ℕ → Itv K} (hb : ∀ i < n, ∃ l u, b i = ⟨fin l, fin u⟩ ∧ -l ≤ u) {prog : List (List (ℕ × Texpr K))}
    (hd : ∀ l ∈ prog, ∀ p ∈ l, p.2.InDim n ∧ LinTree p.2) :
    ∃ st', runProg Rnd.exact o eps prog (ofBox Rnd.exact pr intdim n b) = some st' ∧
      ∀ d < n, ∀ w, w ∈ st'.2.boundDim d ↔ ∃ x y, (∀ i < n, x i ∈ b i) ∧ Exec S prog x y ∧ y d = w := by
  have hb' : ∀ i < n, (b i).inf ≠ ninf ∧ (b i).sup ≠ ninf := fun i hi => by
    obtain ⟨l, u, e, _⟩ := hb i hi
    rw [e]; exact ⟨by simp, by simp⟩
  obtain ⟨h1, h2⟩ := ofBox_lin (intdim := intdim) hpr hb
  obtain ⟨st', e, g1, g2, g3, g4, g5⟩ := lin_prog ho S heps prog h1 rfl hd
  refine ⟨st', e, fun d hdn w => ⟨fun hw => ?_, ?_⟩⟩
  · obtain ⟨ε, hε, hv⟩ := g1.tight d (by rw [g2]; exact hdn) w hw
    obtain ⟨x, hx, hg⟩ := h2 ε hε
    obtain ⟨y, hy⟩ := g5 x
    have hgy := g4 hg hy
    refine ⟨x, y, hx, hy, ?_⟩
    exact (g1.pt d (by rw [g2]; exact hdn)).unique (hgy.2.2 d (by rw [g2]; exact hdn)).2 hv
  · rintro ⟨x, y, hx, hy, rfl⟩
    exact C124_program_sound_partial (R := Rnd.exact) o ho S hpr hb' (fun _ _ => boxSafe_exact _) (fun l hl p hp => (hd l hl p hp).1) g3 e hx hy hdn

/-! ## C126: dimensions -/

/-- C126 (removal): positions in increasing order. The points of the result are obtained from the points of the argument. -/
theorem C126_remove_sound {pr : Pr K} {a : T1 K} {pos : List ℕ} {intrem : ℕ} (hs : pos.Pairwise (· < ·)) {x y : ℕ → K} (hx : Gam pr a x)
    (hy : ∀ v < a.n, v ∉ pos → y (v - Oct.cntLt pos v) = x v) : Gam pr (removeDimensions a pos intrem) y := by
  have hlt : ∀ {j v}, j < a.n - pos.length → j + Oct.cntLt pos v = v → v < a.n := by
    intro j v hj hv
    have : Oct.cntLt pos v ≤ pos.length := List.length_filter_le _ _
    omega
  obtain ⟨hc, ε, hε, hf⟩ := hx
  have key : ∀ j < a.n - pos.length, ∃ v < a.n, y j = x v ∧ (removeDimensions a pos intrem).paf j = a.paf v ∧
      (removeDimensions a pos intrem).box j = a.box v := by
    intro j hj
    obtain ⟨v, hv, he, h1, h2⟩ := removeDimensions_spec (a := a) (intrem := intrem) hs hj
    refine ⟨v, hlt hj he, ?_, h1, h2⟩
    have := hy v (hlt hj he) hv
    rwa [show v - Oct.cntLt pos v = j by omega] at this
  refine ⟨?_, ε, hε, ?_⟩
  · intro i hi j hj
    obtain ⟨v, hv, e1, e2, _⟩ := key i hi
    obtain ⟨w, hw, f1, f2, _⟩ := key j hj
    rw [e1, e2, f1, f2]; exact hc v hv w hw
  · intro i hi
    obtain ⟨v, hv, e1, e2, e3⟩ := key i hi
    rw [e1, e2, e3]; exact hf v hv

/-- C126 (addition): `k` dimensions inserted at the same position. Missing: several positions, where the code is wrong
(`C126_add_wrong`). -/
theorem C126_add_sound_partial {pr : Pr K} {a : T1 K} (hpr : WfPr pr) (ha : WfA pr a) {d k intadd : ℕ} (hd : d ≤ a.n) (project : Bool)
    {x y : ℕ → K} (hx : Gam pr a x) (h1 : ∀ i < d, y i = x i) (h2 : ∀ i, d ≤ i → y (i + k) = x i)
    (h3 : project = true → ∀ i, d ≤ i → i < d + k → y i = 0) :
    Gam (addDimensions pr a (List.replicate k d) intadd project).1 (addDimensions pr a (List.replicate k d) intadd project).2 y := by
  rw [addDimensions_eq]
  exact (addDimensions_rep d project k hpr ha hd hx h1 h2 h3).2.2

private theorem foldl_update {A : Type*} (v : A) (f : ℕ → A) (m : ℕ) :
    ∀ i, (List.range m).foldl (fun g d => Function.update g d v) f i = if i < m then v else f i := by
  induction m with
  | zero => intro i; simp
  | succ m ih =>
    intro i
    rw [List.range_succ, List.foldl_append, List.foldl_cons, List.foldl_nil]
    by_cases h : i = m
    · rw [h, Function.update_self, if_pos (Nat.lt_succ_self m)]
    · rw [Function.update_of_ne h, ih]
      by_cases h' : i < m
      · rw [if_pos h', if_pos (by omega)]
      · rw [if_neg h', if_neg (by omega)]

/-- C126 (forget): for the dimensions `0, …, k-1`.  Missing: other dimensions, and projection, where the code is wrong
(`C126_forget_wrong`, `C126_project_wrong`). -/
theorem C126_forget_sound_partial {pr : Pr K} {a : T1 K} (hpr : WfPr pr) {k : ℕ} {x y : ℕ → K} (hx : Gam pr a x)
    (hy : ∀ i, k ≤ i → y i = x i) : Gam (forgetArray pr a (List.range k) false).1 (forgetArray pr a (List.range k) false).2 y := by
  obtain ⟨hc, ε, hε, hf⟩ := hx
  have hp : ∀ i, (forgetArray pr a (List.range k) false).2.paf i = if i < k then topPtr else a.paf i := fun i => foldl_update _ _ _ i
  have hbx : ∀ i, (forgetArray pr a (List.range k) false).2.box i = if i < k then Itv.top else a.box i := fun i => by
    have := foldl_update (Itv.top : Itv K) a.box (List.range k).length i
    rw [List.length_range] at this
    rw [← this]
    show (List.range (List.range k).length).foldl (fun b i => Function.update b i Itv.top) a.box i = _
    rw [List.length_range]
  refine ⟨?_, ε, hε, ?_⟩
  · intro i hi j hj h ht
    rw [hp] at h ht
    rw [hp] at h
    by_cases hik : i < k
    · rw [if_pos hik] at ht; exact absurd rfl ht
    · rw [if_neg hik] at h ht
      by_cases hjk : j < k
      · rw [if_pos hjk] at h; exact absurd h ht
      · rw [if_neg hjk] at h
        rw [hy i (by omega), hy j (by omega)]
        exact hc i hi j hj h ht
  · intro i hi
    rw [hp, hbx]
    by_cases hik : i < k
    · rw [if_pos hik, if_pos hik]
      refine ⟨Itv.mem_top _, ?_⟩
      show (pr.heap topPtr).Val _ _
      rw [hpr.top]; exact (Aff.Has.top _).1
    · rw [if_neg hik, if_neg hik, hy i (by omega)]
      exact hf i hi

end

end Props
end Apron
