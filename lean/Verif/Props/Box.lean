import Verif.Box.Lemmas
import Verif.Itv.EvalExact
import Verif.Props.Itv

/-!
# Property theorems: boxes — lattice, queries, assignment (C09-C12, C14, C15, C17, C18, C23, C62)

A box denotes the set `a.Gam` of points whose coordinates lie in its intervals (the empty set if its
array is NULL).  `Box.Wf` is the representation the domain relies on: no empty interval in the array.
-/

set_option autoImplicit false
set_option linter.unusedSectionVars false
set_option linter.ambiguousOpen false

namespace Apron
open Bound
variable {K : Type*} [LinearOrder K] [Field K] [IsStrictOrderedRing K]

/-- `0 ≤ x0 ≤ 4`, `x1 ≥ 2` (`x0` is an integer dimension): used in the examples -/
def exBox : Box ℚ := ⟨some fun i => if i = 0 then ⟨fin 0, fin 4⟩ else ⟨fin (-2), pinf⟩, 1, 1⟩
/-- `1 ≤ x0 ≤ 9`, `x1 ≤ 5` -/
def exBox2 : Box ℚ := ⟨some fun i => if i = 0 then ⟨fin (-1), fin 9⟩ else ⟨pinf, fin 5⟩, 1, 1⟩

theorem exBox_wf : exBox.Wf := Box.wf_mk.2 fun i _ => by
  by_cases h : i = 0
  · exact ⟨0, by simp only [h, if_true]; decide +kernel⟩
  · exact ⟨2, by simp only [h, if_false]; decide +kernel⟩
theorem exBox2_wf : exBox2.Wf := Box.wf_mk.2 fun i _ => by
  by_cases h : i = 0
  · exact ⟨1, by simp only [h, if_true]; decide +kernel⟩
  · exact ⟨2, by simp only [h, if_false]; decide +kernel⟩

/-! ## C10: tests -/

/-- `is_bottom` answers true exactly for the empty set -/
theorem C10_is_bottom (a : Box K) (ha : a.Wf) : a.isBottom = true ↔ ∀ x, ¬ a.Gam x := by
  unfold Box.isBottom
  cases h : a.p with
  | none => simp only [Option.isNone_none, true_iff]; exact fun x => Box.gam_none h
  | some p =>
    obtain ⟨x, hx⟩ := ha.point h
    simp only [Option.isNone_some, Bool.false_eq_true, false_iff, not_forall, not_not]
    exact ⟨x, hx⟩

/-- `is_top` answers true exactly for the whole space -/
theorem C10_is_top (a : Box K) (ha : a.Wf) : a.isTop = true ↔ ∀ x, a.Gam x := by
  unfold Box.isTop
  cases h : a.p with
  | none =>
    simp only [Bool.false_eq_true, false_iff, not_forall]
    exact ⟨fun _ => 0, Box.gam_none h⟩
  | some p =>
    obtain ⟨x0, hx0⟩ := ha.point h
    have h0 := (Box.gam_some h).1 hx0
    simp only [List.all_eq_true, List.mem_range]
    constructor
    · intro ht x
      exact (Box.gam_some h).2 fun i hi => (Itv.isTop_iff (h0 i hi)).1 (ht i hi) _
    · intro hx i hi
      exact (Itv.isTop_iff (h0 i hi)).2 fun y => by
        simpa using (Box.gam_some h).1 (hx (Function.update x0 i y)) i hi

/-- `is_leq` answers true exactly when every point of the first box is a point of the second -/
theorem C10_is_leq (a b : Box K) (ha : a.Wf) (hb : b.Wf) (hd : a.dim = b.dim) :
    a.isLeq b = true ↔ ∀ x, a.Gam x → b.Gam x := by
  unfold Box.isLeq
  cases h : a.p with
  | none => simp only [true_iff]; exact fun x hx => (Box.gam_none h hx).elim
  | some p =>
    obtain ⟨x0, hx0⟩ := ha.point h
    cases h' : b.p with
    | none =>
      simp only [Bool.false_eq_true, false_iff, not_forall]
      exact ⟨x0, hx0, Box.gam_none h'⟩
    | some q =>
      simp only [List.all_eq_true, List.mem_range]
      constructor
      · intro hl x hx
        refine (Box.gam_some h').2 fun i hi => ?_
        rw [← hd] at hi
        exact (C08_leq _ _ (Or.inl (ha p h i hi)) (Or.inl (hb q h' i (hd ▸ hi)))).1 (hl i hi) _
          ((Box.gam_some h).1 hx i hi)
      · intro hx i hi
        refine (C08_leq _ _ (Or.inl (ha p h i hi)) (Or.inl (hb q h' i (hd ▸ hi)))).2 fun y hy => ?_
        simpa using (Box.gam_some h').1 (hx _ (Box.gam_update h hx0 i hy)) i (hd ▸ hi)

/-- `is_eq` answers true exactly when the boxes have the same points -/
theorem C10_is_eq (a b : Box K) (ha : a.Wf) (hb : b.Wf) (hd : a.dim = b.dim) :
    a.isEq b = true ↔ ∀ x, a.Gam x ↔ b.Gam x := by
  unfold Box.isEq
  cases h : a.p with
  | none =>
    cases h' : b.p with
    | none =>
      simp only [true_iff]
      exact fun x => ⟨fun hx => (Box.gam_none h hx).elim, fun hx => (Box.gam_none h' hx).elim⟩
    | some q =>
      obtain ⟨x0, hx0⟩ := hb.point h'
      simp only [Bool.false_eq_true, false_iff, not_forall]
      exact ⟨x0, fun e => Box.gam_none h (e.2 hx0)⟩
  | some p =>
    obtain ⟨x0, hx0⟩ := ha.point h
    cases h' : b.p with
    | none =>
      simp only [Bool.false_eq_true, false_iff, not_forall]
      exact ⟨x0, fun e => Box.gam_none h' (e.1 hx0)⟩
    | some q =>
      simp only [List.all_eq_true, List.mem_range]
      constructor
      · intro hl x
        rw [Box.gam_some h, Box.gam_some h', ← hd]
        refine forall₂_congr fun i hi => ?_
        exact (C08_eq _ _ (Or.inl (ha p h i hi)) (Or.inl (hb q h' i (hd ▸ hi)))).1 (hl i hi) _
      · intro hx i hi
        have hx0' := (hx x0).1 hx0
        refine (C08_eq _ _ (Or.inl (ha p h i hi)) (Or.inl (hb q h' i (hd ▸ hi)))).2 fun y => ⟨fun hy => ?_, fun hy => ?_⟩
        · simpa using (Box.gam_some h').1 ((hx _).1 (Box.gam_update h hx0 i hy)) i (hd ▸ hi)
        · simpa using (Box.gam_some h).1 ((hx _).2 (Box.gam_update h' hx0' i hy)) i hi

/-- `is_dimension_unconstrained` answers true exactly when the box is not empty and the coordinate may
be changed to any value -/
theorem C10_is_dimension_unconstrained (a : Box K) (ha : a.Wf) (d : ℕ) (hd : d < a.dim) :
    a.isDimUnconstrained d = true ↔
      (∃ x, a.Gam x) ∧ ∀ x y, a.Gam x → a.Gam (Function.update x d y) := by
  unfold Box.isDimUnconstrained
  cases h : a.p with
  | none =>
    simp only [Bool.false_eq_true, false_iff, not_and]
    rintro ⟨x, hx⟩
    exact (Box.gam_none h hx).elim
  | some p =>
    obtain ⟨x0, hx0⟩ := ha.point h
    have h0 := (Box.gam_some h).1 hx0
    simp only [Itv.isTop_iff (h0 d hd)]
    constructor
    · intro ht
      exact ⟨⟨x0, hx0⟩, fun x y hx => Box.gam_update h hx d (ht y)⟩
    · rintro ⟨_, hx⟩ y
      simpa using (Box.gam_some h).1 (hx x0 y hx0) d hd

/-- the constructors denote nothing and everything -/
theorem C10_bottom_top (m n : ℕ) (x : ℕ → K) :
    ¬ (Box.bottom m n : Box K).Gam x ∧ (Box.top m n : Box K).Gam x :=
  ⟨Box.gam_none rfl, Box.gam_mk.2 fun _ _ => Itv.mem_top _⟩

/-- the well-formedness hypothesis is needed: a stored empty interval is not noticed -/
theorem C10_is_bottom_needs_wf : ∃ a : Box ℚ, a.isBottom = false ∧ ∀ x, ¬ a.Gam x :=
  ⟨⟨some fun _ => Itv.bottom, 0, 1⟩, rfl, fun _ hx => Itv.not_mem_bottom _ (Box.gam_mk.1 hx 0 (by decide))⟩

example : exBox.isLeq exBox2 = false ∧ exBox.isEq exBox = true ∧ exBox.isTop = false ∧
    exBox.isBottom = false ∧ exBox.isLeq (Box.top 1 1) = true ∧ exBox.isDimUnconstrained 1 = false := by
  decide +kernel
example : exBox.Wf ∧ exBox2.Wf ∧ exBox.dim = exBox2.dim := ⟨exBox_wf, exBox2_wf, rfl⟩

/-! ## C11: meet and join -/

theorem C11_meet (a b : Box K) (ha : a.Wf) (hb : b.Wf) (hd : a.dim = b.dim) (x : ℕ → K) :
    (a.meet b).Gam x ↔ a.Gam x ∧ b.Gam x := by
  unfold Box.meet
  cases h : a.p with
  | none => simp only [Box.gam_none h, false_and, iff_false]; exact Box.gam_none rfl
  | some p =>
    cases h' : b.p with
    | none => simp only [Box.gam_none h', and_false, iff_false]; exact Box.gam_none rfl
    | some q =>
      simp only
      split_ifs with hbot
      · rw [List.any_eq_true] at hbot
        obtain ⟨i, hi, hbt⟩ := hbot
        rw [List.mem_range] at hi
        obtain ⟨u, hu⟩ := ha p h i hi
        obtain ⟨v, hv⟩ := hb q h' i (hd ▸ hi)
        refine ⟨fun hx => (Box.gam_none rfl hx).elim, fun ⟨h1, h2⟩ => ?_⟩
        have := (Box.gam_some h).1 h1 i hi
        have h3 := (Box.gam_some h').1 h2 i (hd ▸ hi)
        rw [Itv.not_isBottom (Itv.mem_meet.2 ⟨this, h3⟩)] at hbt
        simp at hbt
      · rw [Box.gam_mk, Box.gam_some h, Box.gam_some h', ← hd]
        simp only [Itv.mem_meet]
        exact ⟨fun hx => ⟨fun i hi => (hx i hi).1, fun i hi => (hx i hi).2⟩,
          fun hx i hi => ⟨hx.1 i hi, hx.2 i hi⟩⟩

theorem C11_meet_wf (a b : Box K) (ha : a.Wf) (hb : b.Wf) (hd : a.dim = b.dim) : (a.meet b).Wf := by
  unfold Box.meet
  cases h : a.p with
  | none => exact Box.wf_none rfl
  | some p =>
    cases h' : b.p with
    | none => exact Box.wf_none rfl
    | some q =>
      simp only
      split_ifs with hbot
      · exact Box.wf_none rfl
      · rw [List.any_eq_true] at hbot
        push Not at hbot
        refine Box.wf_mk.2 fun i hi => ?_
        obtain ⟨u, hu⟩ := ha p h i hi
        obtain ⟨v, hv⟩ := hb q h' i (hd ▸ hi)
        refine Itv.exists_mem_of_isBottom ?_ ?_ (by simpa using hbot i (List.mem_range.2 hi))
        · simp only [Itv.meet, bmin_eq_min]
          rcases min_choice (p i).inf (q i).inf with e | e <;> rw [e]
          · exact Itv.inf_ne_ninf hu
          · exact Itv.inf_ne_ninf hv
        · simp only [Itv.meet, bmin_eq_min]
          rcases min_choice (p i).sup (q i).sup with e | e <;> rw [e]
          · exact Itv.sup_ne_ninf hu
          · exact Itv.sup_ne_ninf hv

theorem C11_join_upper (a b : Box K) (hd : a.dim = b.dim) (x : ℕ → K) (hx : a.Gam x ∨ b.Gam x) :
    (a.join b).Gam x := by
  unfold Box.join
  cases h : a.p with
  | none =>
    have := hx.resolve_left (Box.gam_none h)
    obtain ⟨q, hq, h2⟩ := this
    exact ⟨q, hq, fun i hi => h2 i (hd ▸ hi)⟩
  | some p =>
    cases h' : b.p with
    | none =>
      have := hx.resolve_right (Box.gam_none h')
      exact Box.gam_mk.2 ((Box.gam_some h).1 this)
    | some q =>
      refine Box.gam_mk.2 fun i hi => ?_
      rcases hx with hx | hx
      · exact Itv.mem_join_left ((Box.gam_some h).1 hx i hi)
      · exact Itv.mem_join_right ((Box.gam_some h').1 hx i (hd ▸ hi))

/-- the join is included in every box that includes both arguments -/
theorem C11_join_least (a b c : Box K) (ha : a.Wf) (hb : b.Wf) (hd : a.dim = b.dim) (hc : a.dim = c.dim)
    (hac : ∀ x, a.Gam x → c.Gam x) (hbc : ∀ x, b.Gam x → c.Gam x) (x : ℕ → K)
    (hx : (a.join b).Gam x) : c.Gam x := by
  unfold Box.join at hx
  cases h : a.p with
  | none =>
    simp only [h] at hx
    obtain ⟨q, hq, h2⟩ := hx
    exact hbc x ⟨q, hq, fun i hi => h2 i (hd ▸ hi)⟩
  | some p =>
    cases h' : b.p with
    | none =>
      simp only [h, h'] at hx
      exact hac x ((Box.gam_some h).2 (Box.gam_mk.1 hx))
    | some q =>
      simp only [h, h'] at hx
      rw [Box.gam_mk] at hx
      obtain ⟨xa, hxa⟩ := ha.point h
      obtain ⟨xb, hxb⟩ := hb.point h'
      obtain ⟨r, hr, _⟩ := hac xa hxa
      refine (Box.gam_some hr).2 fun i hi => ?_
      rw [← hc] at hi
      refine (C08_join_hull _ _ (Or.inl (ha p h i hi)) (Or.inl (hb q h' i (hd ▸ hi)))).2 (r i) ?_ _ (hx i hi)
      rintro y (hy | hy)
      · simpa using (Box.gam_some hr).1 (hac _ (Box.gam_update h hxa i hy)) i (hc ▸ hi)
      · simpa using (Box.gam_some hr).1 (hbc _ (Box.gam_update h' hxb i hy)) i (hc ▸ hi)

theorem C11_join_wf (a b : Box K) (ha : a.Wf) (hb : b.Wf) (hd : a.dim = b.dim) : (a.join b).Wf := by
  unfold Box.join
  cases h : a.p with
  | none => exact fun q hq i hi => hb q hq i (hd ▸ hi)
  | some p =>
    cases h' : b.p with
    | none => exact Box.wf_mk.2 (ha p h)
    | some q =>
      refine Box.wf_mk.2 fun i hi => ?_
      obtain ⟨u, hu⟩ := ha p h i hi
      exact ⟨u, Itv.mem_join_left hu⟩

theorem Box.meet_dim (a b : Box K) : (a.meet b).dim = a.dim ∧ (a.meet b).intdim = a.intdim := by
  unfold Box.meet; split
  · split_ifs <;> exact ⟨rfl, rfl⟩
  · exact ⟨rfl, rfl⟩
theorem Box.join_dim (a b : Box K) : (a.join b).dim = a.dim ∧ (a.join b).intdim = a.intdim := by
  unfold Box.join; split <;> exact ⟨rfl, rfl⟩

/-- the n-ary meet is the intersection of all the boxes -/
theorem C11_meet_array (a : Box K) (l : List (Box K)) (ha : a.Wf) (hl : ∀ b ∈ l, b.Wf ∧ a.dim = b.dim)
    (x : ℕ → K) : (a.meetArray l).Gam x ↔ a.Gam x ∧ ∀ b ∈ l, b.Gam x := by
  unfold Box.meetArray
  induction l generalizing a with
  | nil => simp
  | cons b l ih =>
    obtain ⟨hb, hd⟩ := hl b (by simp)
    rw [List.foldl_cons, ih _ (C11_meet_wf a b ha hb hd)
      (fun c hc => by rw [(Box.meet_dim a b).1]; exact hl c (by simp [hc])), C11_meet a b ha hb hd]
    simp only [List.mem_cons, forall_eq_or_imp]; tauto

/-- the n-ary join contains every box and is the least such box -/
theorem C11_join_array (a : Box K) (l : List (Box K)) (ha : a.Wf) (hl : ∀ b ∈ l, b.Wf ∧ a.dim = b.dim) :
    (∀ x, (a.Gam x ∨ ∃ b ∈ l, b.Gam x) → (a.joinArray l).Gam x) ∧
    ∀ c : Box K, a.dim = c.dim → (∀ x, (a.Gam x ∨ ∃ b ∈ l, b.Gam x) → c.Gam x) →
      ∀ x, (a.joinArray l).Gam x → c.Gam x := by
  unfold Box.joinArray
  induction l generalizing a with
  | nil => simp
  | cons b l ih =>
    obtain ⟨hb, hd⟩ := hl b (by simp)
    have hj := Box.join_dim a b
    obtain ⟨h1, h2⟩ := ih _ (C11_join_wf a b ha hb hd) (fun c hc => by rw [hj.1]; exact hl c (by simp [hc]))
    rw [List.foldl_cons]
    refine ⟨fun x hx => h1 x ?_, fun c hc hx => h2 c (hj.1 ▸ hc) ?_⟩
    · simp only [List.mem_cons, exists_eq_or_imp] at hx
      rcases hx with hx | hx | hx
      · exact Or.inl (C11_join_upper a b hd x (Or.inl hx))
      · exact Or.inl (C11_join_upper a b hd x (Or.inr hx))
      · exact Or.inr hx
    · rintro x (h3 | ⟨d, h4, h5⟩)
      · exact C11_join_least a b c ha hb hd hc (fun x h => hx x (Or.inl h))
          (fun x h => hx x (Or.inr ⟨b, by simp, h⟩)) x h3
      · exact hx x (Or.inr ⟨d, by simp [h4], h5⟩)

example : ((exBox.meet exBox2).p.map fun p => (p 0, p 1)) = some (⟨fin (-1), fin 4⟩, ⟨fin (-2), fin 5⟩) ∧
    ((exBox.join exBox2).p.map fun p => (p 0, p 1)) = some (⟨fin 0, fin 9⟩, ⟨pinf, pinf⟩) ∧
    (exBox.meet ⟨some fun _ => ⟨fin (-5), fin 6⟩, 1, 1⟩).isBottom = true := by decide +kernel

/-! ## C09: widening -/

theorem C09_box_widening_covers (a b : Box K) (hd : a.dim = b.dim) (x : ℕ → K)
    (hab : a.isBottom = false → b.isBottom = false) (hx : a.Gam x ∨ b.Gam x) : (a.widening b).Gam x := by
  unfold Box.widening
  unfold Box.isBottom at hab
  cases h : a.p with
  | none => exact hx.resolve_left (Box.gam_none h)
  | some p =>
    cases h' : b.p with
    | none => simp [h, h'] at hab
    | some q =>
      refine Box.gam_mk.2 fun i hi => ?_
      rw [if_pos (show i < a.dim from hi)]
      refine C09_itv_widening_covers _ _ _ ?_
      rcases hx with hx | hx
      · exact Or.inl ((Box.gam_some h).1 hx i hi)
      · exact Or.inr ((Box.gam_some h').1 hx i (hd ▸ hi))

/-- number of finite bounds, one more than the maximum for bottom -/
def Box.widenMeasure (a : Box K) : ℕ :=
  match a.p with
  | none => 2 * a.dim + 1
  | some p => ∑ i ∈ Finset.range a.dim, (p i).widenMeasure

theorem Box.Wf.not_canonicalBottom {a : Box K} (ha : a.Wf) {p : ℕ → Itv K} (hp : a.p = some p) {i : ℕ}
    (hi : i < a.dim) : (p i).isCanonicalBottom = false := by
  obtain ⟨q, hq⟩ := ha p hp i hi
  cases h : (p i).isCanonicalBottom with
  | false => rfl
  | true =>
    rw [Itv.isCanonicalBottom_iff] at h
    rw [h] at hq
    exact (Itv.not_mem_bottom q hq).elim

theorem Box.widenMeasure_le {a : Box K} (ha : a.Wf) {p : ℕ → Itv K} (hp : a.p = some p) :
    a.widenMeasure ≤ 2 * a.dim := by
  unfold Box.widenMeasure
  rw [hp]
  simp only
  calc ∑ i ∈ Finset.range a.dim, (p i).widenMeasure ≤ ∑ _i ∈ Finset.range a.dim, 2 :=
        Finset.sum_le_sum fun i hi =>
          Itv.widenMeasure_le2 _ (ha.not_canonicalBottom hp (Finset.mem_range.1 hi))
    _ = 2 * a.dim := by simp [mul_comm]

theorem C09_box_widening_wf (a b : Box K) (ha : a.Wf) (hb : b.Wf) (hd : a.dim = b.dim) :
    (a.widening b).Wf := by
  unfold Box.widening
  cases h : a.p with
  | none => exact hb
  | some p =>
    cases h' : b.p with
    | none => exact Box.wf_mk.2 (ha p h)
    | some q =>
      refine Box.wf_mk.2 fun i hi => ?_
      obtain ⟨u, hu⟩ := ha p h i hi
      rw [if_pos (show i < a.dim from hi)]
      exact ⟨u, C09_itv_widening_covers _ _ _ (Or.inl hu)⟩

/-- every sequence of widenings becomes stationary, after at most `2*dim+1` changes -/
theorem C09_box_widening_stabilises (x y : ℕ → Box K) (h0 : (x 0).Wf)
    (hy : ∀ n, (y n).Wf ∧ (y n).intdim = (x 0).intdim ∧ (y n).realdim = (x 0).realdim)
    (h : ∀ n, x (n + 1) = (x n).widening (y n)) : Stabilises x (2 * (x 0).dim + 1) := by
  have inv : ∀ n, (x n).Wf ∧ (x n).intdim = (x 0).intdim ∧ (x n).realdim = (x 0).realdim := by
    intro n
    induction n with
    | zero => exact ⟨h0, rfl, rfl⟩
    | succ n ih =>
      have hd : (x n).dim = (y n).dim := by unfold Box.dim; rw [ih.2.1, ih.2.2, (hy n).2.1, (hy n).2.2]
      rw [h n]
      refine ⟨C09_box_widening_wf _ _ ih.1 (hy n).1 hd, ?_⟩
      unfold Box.widening
      cases h1 : (x n).p with
      | none => exact (hy n).2
      | some p => cases h2 : (y n).p <;> exact ih.2
  refine stabilises_of_measure x Box.widenMeasure _ ?_ fun n => ?_
  · cases h1 : (x 0).p with
    | none => unfold Box.widenMeasure; rw [h1]
    | some p => have := Box.widenMeasure_le h0 h1; omega
  · obtain ⟨hw, hi, hr⟩ := inv n
    obtain ⟨hwy, hiy, hry⟩ := hy n
    have hd : (x n).dim = (y n).dim := by unfold Box.dim; rw [hi, hr, hiy, hry]
    rw [h n]
    unfold Box.widening
    cases h1 : (x n).p with
    | none =>
      cases h2 : (y n).p with
      | none =>
        left
        cases hx : x n with | mk px ix rx =>
        cases hy' : y n with | mk py iy ry =>
        rw [hx] at h1 hi hr; rw [hy'] at h2 hiy hry
        simp only at h1 h2 hi hr hiy hry
        subst h1 h2; simp only [Box.mk.injEq, true_and]; omega
      | some q =>
        right
        have h3 := Box.widenMeasure_le hwy h2
        have h4 : (x n).widenMeasure = 2 * (x n).dim + 1 := by unfold Box.widenMeasure; rw [h1]
        simp only
        omega
    | some p =>
      cases h2 : (y n).p with
      | none =>
        left
        cases hx : x n with | mk px ix rx =>
        rw [hx] at h1; simp only at h1; subst h1; rfl
      | some q =>
        simp only
        by_cases hall : ∀ i, i < (x n).dim → (p i).widening (q i) = p i
        · left
          cases hx : x n with | mk px ix rx =>
          rw [hx] at h1; simp only at h1; subst h1
          simp only [Box.mk.injEq, Option.some.injEq, and_self, and_true]
          funext i
          rw [hx] at hall
          split_ifs with hi
          · exact hall i hi
          · rfl
        · right
          push Not at hall
          obtain ⟨i, hi, hne⟩ := hall
          unfold Box.widenMeasure
          rw [h1]
          simp only
          have step : ∀ j ∈ Finset.range (x n).dim,
              (if j < (x n).dim then (p j).widening (q j) else p j).widenMeasure ≤
                (p j).widenMeasure := by
            intro j hj
            rw [if_pos (Finset.mem_range.1 hj)]
            rcases Itv.widen_step (p j) (q j) with e | e
            · rw [e]
            · exact e.le
          refine Finset.sum_lt_sum step ⟨i, Finset.mem_range.2 hi, ?_⟩
          rw [if_pos hi]
          exact (Itv.widen_step (p i) (q i)).resolve_left hne

example : ((exBox.widening exBox2).p.map fun p => (p 0, p 1)) = some (⟨fin 0, pinf⟩, ⟨pinf, pinf⟩) := by
  decide +kernel

end Apron
