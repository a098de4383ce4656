import Verif.Props.Box

/-! # Property C24: conversion of boxes to generators -/

set_option autoImplicit false
set_option linter.unusedSectionVars false
set_option linter.ambiguousOpen false

namespace Apron
open Bound Box
variable {K : Type*} [LinearOrder K] [Field K] [IsStrictOrderedRing K]

/-- the points generated in dimension `n`: a convex combination of the vertices, plus non-negative
multiples of the rays, plus multiples of the lines; `w` lists the coefficients -/
def Generated (n : ℕ) (l : List (Gen K)) (x : ℕ → K) : Prop :=
  ∃ w : List K, w.length = l.length ∧ (∀ q ∈ w.zip l, q.2.typ ≠ GenTyp.line → 0 ≤ q.1) ∧
    (List.zipWith (fun t (g : Gen K) => if g.typ = GenTyp.vertex then t else 0) w l).sum = 1 ∧
    ∀ i, i < n → x i = (List.zipWith (fun t (g : Gen K) => t * g.coef i) w l).sum

/-! ### lists of weights -/

theorem zipWith_map_vertex {β : Type*} (f : K → Gen K → β) (w : List K) (vs : List (ℕ → K)) :
    List.zipWith f w (vs.map fun v => (⟨.vertex, v⟩ : Gen K)) = List.zipWith (fun t v => f t ⟨.vertex, v⟩) w vs := by
  rw [List.zipWith_map_right]

theorem sum_zipWith_scale (c : K) (f : (ℕ → K) → K) (w : List K) (vs : List (ℕ → K)) :
    (List.zipWith (fun t v => t * f v) (w.map (c * ·)) vs).sum =
      c * (List.zipWith (fun t v => t * f v) w vs).sum := by
  induction w generalizing vs with
  | nil => simp
  | cons a w ih =>
    cases vs with
    | nil => simp
    | cons v vs => simp only [List.map_cons, List.zipWith_cons_cons, List.sum_cons, ih vs]; ring

theorem sum_zipWith_const (c : K) (w : List K) (vs : List (ℕ → K)) (h : w.length = vs.length) :
    (List.zipWith (fun t _ => t * c) w vs).sum = w.sum * c := by
  induction w generalizing vs with
  | nil => simp
  | cons a w ih =>
    cases vs with
    | nil => simp at h
    | cons v vs =>
      simp only [List.zipWith_cons_cons, List.sum_cons, ih vs (by simpa using h)]; ring

theorem sum_map_scale (c : K) (w : List K) : (w.map (c * ·)).sum = c * w.sum := by
  induction w with
  | nil => simp
  | cons a w ih => simp only [List.map_cons, List.sum_cons, ih]; ring

/-- the weights of a point on the vertices of the first dimensions -/
theorem vertex_weights (p : ℕ → Itv K) (x : ℕ → K) (n : ℕ) (hx : ∀ i, i < n → x i ∈ p i) (m : ℕ) (hm : m ≤ n) :
    ∃ w : List K, w.length = ((List.range m).foldl (vertexStep p) [fun _ => 0]).length ∧ (∀ t ∈ w, 0 ≤ t) ∧
      w.sum = 1 ∧ ∀ i, (List.zipWith (fun t v => t * v i) w ((List.range m).foldl (vertexStep p) [fun _ => 0])).sum =
        if i < m ∧ infty (p i).inf = false ∧ infty (p i).sup = false then x i else 0 := by
  induction m with
  | zero => exact ⟨[1], by simp, by simp, by simp, fun i => by simp⟩
  | succ m ih =>
    obtain ⟨w, h1, h2, h3, h4⟩ := ih (by omega)
    rw [List.range_succ, List.foldl_append, List.foldl_cons, List.foldl_nil]
    generalize (List.range m).foldl (vertexStep p) [fun _ => 0] = vs at h1 h4
    by_cases hb : infty (p m).inf = false ∧ infty (p m).sup = false
    · obtain ⟨l, hl⟩ : ∃ l, (p m).inf = fin l := by
        cases h : (p m).inf <;> simp [h, infty] at hb; exact ⟨_, rfl⟩
      obtain ⟨u, hu⟩ : ∃ u, (p m).sup = fin u := by
        cases h : (p m).sup <;> simp [h, infty] at hb; exact ⟨_, rfl⟩
      have hxm := hx m (by omega)
      have e1 : -l ≤ x m := by
        have := hxm.1; rw [hl] at this
        simp only [Bound.fin_le_fin] at this; linarith
      have e2 : x m ≤ u := by
        have := hxm.2; rw [hu] at this
        simpa only [Bound.fin_le_fin] using this
      obtain ⟨t, ht0, ht1, hte⟩ : ∃ t : K, 0 ≤ t ∧ t ≤ 1 ∧ x m = (1 - t) * (-l) + t * u := by
        rcases eq_or_lt_of_le (e1.trans e2) with h | h
        · exact ⟨0, le_refl _, zero_le_one, by linarith⟩
        · have hpos : 0 < u + l := by linarith
          refine ⟨(x m + l) / (u + l), by apply div_nonneg <;> linarith, by rw [div_le_one hpos]; linarith, ?_⟩
          field_simp; ring
      have hvs : vertexStep p vs m = vs.map (fun v => Function.update v m (-l)) ++
          vs.map (fun v => Function.update v m u) := by unfold vertexStep; rw [hl, hu]
      rw [hvs]
      refine ⟨w.map ((1 - t) * ·) ++ w.map (t * ·), by simp [h1], ?_, ?_, fun i => ?_⟩
      · intro s hs
        rcases List.mem_append.1 hs with hs | hs <;> obtain ⟨r, hr, rfl⟩ := List.mem_map.1 hs
        · exact mul_nonneg (by linarith) (h2 r hr)
        · exact mul_nonneg ht0 (h2 r hr)
      · rw [List.sum_append, sum_map_scale, sum_map_scale, h3]; ring
      · rw [List.zipWith_append (by simp [h1]), List.sum_append, List.zipWith_map_right, List.zipWith_map_right]
        by_cases e : i = m
        · subst e
          simp only [Function.update_self]
          rw [sum_zipWith_const _ _ _ (by simp [h1]), sum_zipWith_const _ _ _ (by simp [h1]),
            sum_map_scale, sum_map_scale, h3, if_pos ⟨by omega, hb⟩, hte]
          ring
        · simp only [Function.update_of_ne e]
          rw [sum_zipWith_scale _ (fun v => v i), sum_zipWith_scale _ (fun v => v i), h4 i]
          have : (i < m + 1 ∧ infty (p i).inf = false ∧ infty (p i).sup = false) ↔
              (i < m ∧ infty (p i).inf = false ∧ infty (p i).sup = false) := by
            constructor <;> rintro ⟨h, h'⟩ <;> exact ⟨by omega, h'⟩
          simp only [this]; ring
    · have hvs : vertexStep p vs m = vs := by
        unfold vertexStep
        cases h : (p m).inf <;> cases h' : (p m).sup <;> simp [h, h', infty] at hb ⊢
      rw [hvs]
      refine ⟨w, h1, h2, h3, fun i => ?_⟩
      rw [h4 i]
      have : (i < m + 1 ∧ infty (p i).inf = false ∧ infty (p i).sup = false) ↔
          (i < m ∧ infty (p i).inf = false ∧ infty (p i).sup = false) := by
        constructor
        · rintro ⟨h, h'⟩
          refine ⟨?_, h'⟩
          rcases Nat.lt_succ_iff_lt_or_eq.1 h with h | rfl
          · exact h
          · exact absurd h' hb
        · rintro ⟨h, h'⟩; exact ⟨by omega, h'⟩
      simp only [this]

/-- every dimension is bounded on both sides or unbounded on both sides -/
def Box.NoHalf (p : ℕ → Itv K) (n : ℕ) : Prop := ∀ i, i < n → infty (p i).inf = infty (p i).sup

theorem rayOf_nohalf {p : ℕ → Itv K} {i : ℕ} (h : infty (p i).inf = infty (p i).sup) :
    rayOf p i = if infty (p i).inf then [⟨.line, Function.update (fun _ => 0) i 1⟩] else [] := by
  unfold rayOf
  cases h1 : (p i).inf <;> cases h2 : (p i).sup <;> simp [h1, h2, infty] at h ⊢

/-- the multiples of the lines -/
theorem line_weights (p : ℕ → Itv K) (x : ℕ → K) (n : ℕ) (hp : NoHalf p n) (m : ℕ) (hm : m ≤ n) :
    ∃ w : List K, w.length = ((List.range m).flatMap (rayOf p)).length ∧
      (∀ g ∈ (List.range m).flatMap (rayOf p), g.typ = GenTyp.line) ∧
      ∀ i, (List.zipWith (fun t (g : Gen K) => t * g.coef i) w ((List.range m).flatMap (rayOf p))).sum =
        if i < m ∧ infty (p i).inf = true then x i else 0 := by
  induction m with
  | zero => exact ⟨[], by simp, by simp, fun i => by simp⟩
  | succ m ih =>
    obtain ⟨w, h1, h2, h3⟩ := ih (by omega)
    rw [List.range_succ, List.flatMap_append, List.flatMap_singleton, rayOf_nohalf (hp m (by omega))]
    by_cases hi : infty (p m).inf = true
    · rw [if_pos hi]
      refine ⟨w ++ [x m], by simp [h1], fun g hg => ?_, fun i => ?_⟩
      · rcases List.mem_append.1 hg with hg | hg
        · exact h2 g hg
        · rw [List.mem_singleton.1 hg]
      · rw [List.zipWith_append h1, List.sum_append, h3]
        by_cases e : i = m
        · subst e
          simp [hi]
        · have : (i < m + 1 ∧ infty (p i).inf = true) ↔ (i < m ∧ infty (p i).inf = true) := by
            constructor <;> rintro ⟨h, h'⟩ <;> exact ⟨by omega, h'⟩
          simp only [this]
          simp [Function.update_of_ne e]
    · rw [if_neg hi, List.append_nil]
      refine ⟨w, h1, h2, fun i => ?_⟩
      rw [h3]
      have : (i < m + 1 ∧ infty (p i).inf = true) ↔ (i < m ∧ infty (p i).inf = true) := by
        constructor
        · rintro ⟨h, h'⟩
          refine ⟨?_, h'⟩
          rcases Nat.lt_succ_iff_lt_or_eq.1 h with h | rfl
          · exact h
          · exact absurd h' hi
        · rintro ⟨h, h'⟩; exact ⟨by omega, h'⟩
      simp only [this]

theorem vertex_mem (p : ℕ → Itv K) (hp : ∀ i, ∃ q, q ∈ p i) (m : ℕ) :
    ∀ v ∈ (List.range m).foldl (vertexStep p) [fun _ => 0], ∀ i, i < m → ∀ l u, (p i).inf = fin l →
      (p i).sup = fin u → -l ≤ v i ∧ v i ≤ u := by
  induction m with
  | zero => intro _ _ i hi; omega
  | succ m ih =>
    rw [List.range_succ, List.foldl_append, List.foldl_cons, List.foldl_nil]
    generalize (List.range m).foldl (vertexStep p) [fun _ => 0] = vs at ih
    intro v hv i hi l u hl hu
    have hlu : -l ≤ u := by
      obtain ⟨q, hq⟩ := hp i
      have h1 := hq.1; have h2 := hq.2
      rw [hl] at h1; rw [hu] at h2
      simp only [Bound.fin_le_fin] at h1 h2
      linarith
    have key : ∀ v0 ∈ vs, ∀ c, (c = -l ∨ c = u ∨ i ≠ m) → -l ≤ Function.update v0 m c i ∧ Function.update v0 m c i ≤ u := by
      intro v0 h0 c hc
      by_cases e : i = m
      · subst e
        rw [Function.update_self]
        rcases hc with rfl | rfl | h
        · exact ⟨le_refl _, hlu⟩
        · exact ⟨hlu, le_refl _⟩
        · exact absurd rfl h
      · rw [Function.update_of_ne e]; exact ih v0 h0 i (by omega) l u hl hu
    unfold vertexStep at hv
    by_cases e : i = m
    · subst e
      rw [hl, hu] at hv
      simp only [List.mem_append, List.mem_map] at hv
      rcases hv with ⟨v0, h0, rfl⟩ | ⟨v0, h0, rfl⟩
      · exact key v0 h0 _ (Or.inl rfl)
      · exact key v0 h0 _ (Or.inr (Or.inl rfl))
    · split at hv
      · simp only [List.mem_append, List.mem_map] at hv
        rcases hv with ⟨v0, h0, rfl⟩ | ⟨v0, h0, rfl⟩
        · exact key v0 h0 _ (Or.inr (Or.inr e))
        · exact key v0 h0 _ (Or.inr (Or.inr e))
      · exact ih v hv i (by omega) l u hl hu

/-- bounds of a combination of generators with vertices within the bounds and null rays -/
theorem comb_bounds (i : ℕ) (lo hi : K) : ∀ (w : List K) (l : List (Gen K)), w.length = l.length →
    (∀ q ∈ w.zip l, q.2.typ ≠ GenTyp.line → 0 ≤ q.1) →
    (∀ g ∈ l, (g.typ = .vertex ∧ lo ≤ g.coef i ∧ g.coef i ≤ hi) ∨ (g.typ ≠ .vertex ∧ g.coef i = 0)) →
    (List.zipWith (fun t (g : Gen K) => if g.typ = GenTyp.vertex then t else 0) w l).sum * lo ≤
      (List.zipWith (fun t (g : Gen K) => t * g.coef i) w l).sum ∧
    (List.zipWith (fun t (g : Gen K) => t * g.coef i) w l).sum ≤
      (List.zipWith (fun t (g : Gen K) => if g.typ = GenTyp.vertex then t else 0) w l).sum * hi := by
  intro w
  induction w with
  | nil => intro l _ _ _; simp
  | cons t w ih =>
    intro l hl hw hg
    cases l with
    | nil => simp at hl
    | cons g l =>
      obtain ⟨h1, h2⟩ := ih l (by simpa using hl) (fun q hq => hw q (by simp [hq])) fun g hg' => hg g (by simp [hg'])
      simp only [List.zipWith_cons_cons, List.sum_cons]
      rcases hg g (by simp) with ⟨e, e1, e2⟩ | ⟨e, e1⟩
      · have ht : 0 ≤ t := hw (t, g) (by simp) (by simp [e])
        rw [if_pos e]
        have := mul_le_mul_of_nonneg_left e1 ht
        have := mul_le_mul_of_nonneg_left e2 ht
        constructor <;> nlinarith
      · rw [if_neg e, e1]
        constructor <;> simpa using by assumption

/-- The generators of a box whose dimensions are bounded on both sides or on none generate the box.
Missing: half-bounded dimensions, for which the code is wrong, see `C24_half_bounded_wrong`. -/
theorem C24_generators_partial (a : Box K) (ha : a.Wf)
    (hh : ∀ p, a.p = some p → ∀ i, i < a.dim → infty (p i).inf = infty (p i).sup) (x : ℕ → K) :
    a.Gam x ↔ Generated a.dim a.toGenerators x := by
  unfold toGenerators
  rcases h : a.p with _ | p
  · constructor
    · exact fun hx => (gam_none h hx).elim
    · rintro ⟨w, _, _, hs, _⟩; simp at hs
  · simp only
    have hp := hh p h
    constructor
    · intro hx
      rw [gam_some h] at hx
      obtain ⟨w1, a1, a2, a3⟩ := line_weights p x a.dim hp a.dim (le_refl _)
      obtain ⟨w2, b1, b2, b3, b4⟩ := vertex_weights p x a.dim hx a.dim (le_refl _)
      refine ⟨w1 ++ w2, by simp [a1, b1], ?_, ?_, fun i hi => ?_⟩
      · intro q hq hq'
        rw [List.zip_append a1] at hq
        rcases List.mem_append.1 hq with hq | hq
        · exact absurd (a2 q.2 (List.of_mem_zip hq).2) hq'
        · exact b2 q.1 (List.of_mem_zip hq).1
      · rw [List.zipWith_append a1, List.sum_append, zipWith_map_vertex]
        have z1 : ∀ (w : List K) (l : List (Gen K)), (∀ g ∈ l, g.typ = GenTyp.line) →
            (List.zipWith (fun t (g : Gen K) => if g.typ = GenTyp.vertex then t else 0) w l).sum = 0 := by
          intro w
          induction w with
          | nil => simp
          | cons t w ih =>
            intro l hl
            cases l with
            | nil => simp
            | cons g l => simp [hl g (by simp), ih l fun g hg => hl g (by simp [hg])]
        rw [z1 _ _ a2, zero_add]
        have := sum_zipWith_const (1 : K) w2 _ b1
        simpa [b3] using this
      · rw [List.zipWith_append a1, List.sum_append, a3, zipWith_map_vertex, b4]
        have := hp i hi
        by_cases hf : infty (p i).inf = true
        · rw [if_pos ⟨hi, hf⟩, if_neg (by rw [hf]; simp)]; ring
        · simp only [Bool.not_eq_true] at hf
          rw [if_neg (by rw [hf]; simp), if_pos ⟨hi, hf, this ▸ hf⟩]; ring
    · rintro ⟨w, hl, hw, hs, hx⟩
      rw [gam_some h]
      intro i hi
      rw [hx i hi]
      obtain ⟨q, hq⟩ := ha p h i hi
      by_cases hf : infty (p i).inf = true
      · have e1 : (p i).inf = pinf := by
          cases e : (p i).inf
          · have := hq.1; rw [e] at this; simp at this
          · rw [e] at hf; simp [infty] at hf
          · rfl
        have e2 : (p i).sup = pinf := by
          rw [hp i hi] at hf
          cases e : (p i).sup
          · have := hq.2; rw [e] at this; simp at this
          · rw [e] at hf; simp [infty] at hf
          · rfl
        exact ⟨by rw [e1]; simp, by rw [e2]; simp⟩
      · have hf2 := hf
        rw [hp i hi] at hf2
        obtain ⟨l, hl'⟩ : ∃ l, (p i).inf = fin l := by
          cases e : (p i).inf <;> simp [e, infty] at hf; exact ⟨_, rfl⟩
        obtain ⟨u, hu'⟩ : ∃ u, (p i).sup = fin u := by
          cases e : (p i).sup <;> simp [e, infty] at hf2; exact ⟨_, rfl⟩
        -- outside `dim` the intervals may be anything: replace them
        have := comb_bounds i (-l) u w _ hl hw ?_
        · rw [hs, one_mul, one_mul] at this
          refine ⟨?_, ?_⟩
          · rw [hl']; simp only [Bound.fin_le_fin]; linarith
          · rw [hu']; simpa only [Bound.fin_le_fin] using this.2
        · intro g hg
          rcases List.mem_append.1 hg with hg | hg
          · right
            obtain ⟨j, hj, hg⟩ := List.mem_flatMap.1 hg
            rw [rayOf_nohalf (hp j (List.mem_range.1 hj))] at hg
            split_ifs at hg with hc
            · rw [List.mem_singleton.1 hg]
              refine ⟨by simp, ?_⟩
              have : i ≠ j := by rintro rfl; exact hf hc
              simp [Function.update_of_ne this]
            · simp at hg
          · left
            obtain ⟨v, hv, rfl⟩ := List.mem_map.1 hg
            have hcong : ∀ m, m ≤ a.dim → (List.range m).foldl (vertexStep p) [fun _ => 0] =
                (List.range m).foldl (vertexStep fun j => if j < a.dim then p j else Itv.top) [fun _ => 0] := by
              intro m
              induction m with
              | zero => intro _; rfl
              | succ m ih =>
                intro hm
                rw [List.range_succ, List.foldl_append, List.foldl_append, ← ih (by omega)]
                simp only [List.foldl_cons, List.foldl_nil]
                unfold vertexStep
                simp only [if_pos (show m < a.dim by omega)]
            rw [hcong a.dim (le_refl _)] at hv
            have := vertex_mem (fun j => if j < a.dim then p j else Itv.top) (fun j => by
              by_cases hj : j < a.dim
              · obtain ⟨q, hq⟩ := ha p h j hj
                exact ⟨q, by simpa only [if_pos hj] using hq⟩
              · exact ⟨0, by simpa only [if_neg hj] using Itv.mem_top _⟩) a.dim v hv i hi l u
              (by simp only [if_pos hi]; exact hl') (by simp only [if_pos hi]; exact hu')
            exact ⟨rfl, this⟩

/-- a two-dimensional instance of the hypotheses -/
example : ∃ a : Box ℚ, a.Wf ∧ a.toGenerators.length = 3 ∧
    ∀ p, a.p = some p → ∀ i, i < a.dim → infty (p i).inf = infty (p i).sup :=
  ⟨⟨some fun i => if i = 0 then ⟨fin 0, fin 4⟩ else Itv.top, 1, 1⟩,
    wf_mk.2 fun i _ => ⟨0, by by_cases h : i = 0 <;> simp only [h, if_true, if_false] <;> decide +kernel⟩,
    by decide +kernel, fun p hp i _ => by
      cases hp
      by_cases h : i = 0 <;> simp [h, infty, Itv.top]⟩

/-- The code violates the property: the generators of `[2,+oo)` are the vertex 0 and the ray 2, which
generate 0. -/
theorem C24_half_bounded_wrong : ∃ a : Box ℚ, a.Wf ∧ ∃ x, Generated a.dim a.toGenerators x ∧ ¬ a.Gam x := by
  refine ⟨⟨some fun _ => ⟨fin (-2), pinf⟩, 0, 1⟩, wf_mk.2 fun _ _ => ⟨2, by decide +kernel⟩, fun _ => 0,
    ⟨[0, 1], by decide +kernel, ?_, ?_, fun i _ => ?_⟩, ?_⟩
  · intro q hq _
    have hq : q ∈ [((0 : ℚ), (⟨.ray, Function.update (fun _ => 0) 0 (- -2)⟩ : Gen ℚ)),
        (1, ⟨.vertex, fun _ => 0⟩)] := hq
    simp only [List.mem_cons, List.not_mem_nil, or_false] at hq
    rcases hq with rfl | rfl <;> simp
  · simp [toGenerators, Box.dim, rayOf, vertexStep, List.range_succ]
  · simp [toGenerators, Box.dim, rayOf, vertexStep, List.range_succ]
  · intro h
    have := gam_mk.1 h 0 (by decide)
    revert this
    decide +kernel

/-- and it loses points too: the generators of `(-oo,0]` (ray 0) only generate 0 -/
theorem C24_half_bounded_unsound : ∃ a : Box ℚ, a.Wf ∧ ∃ x, a.Gam x ∧ ¬ Generated a.dim a.toGenerators x := by
  refine ⟨⟨some fun _ => ⟨pinf, fin 0⟩, 0, 1⟩, wf_mk.2 fun _ _ => ⟨0, by decide +kernel⟩, fun _ => -1,
    gam_mk.2 fun _ _ => by decide +kernel, ?_⟩
  rintro ⟨w, hl, _, _, hx⟩
  have := hx 0 (by decide)
  have e : (⟨some fun _ => ⟨pinf, fin 0⟩, 0, 1⟩ : Box ℚ).toGenerators =
      [⟨.ray, Function.update (fun _ => 0) 0 0⟩, ⟨.vertex, fun _ => 0⟩] := by
    simp [toGenerators, Box.dim, rayOf, vertexStep, List.range_succ]
  rw [e] at this hl
  match w, hl with
  | [s, t], _ => simp at this

end Apron
