import Verif.Poly.PkRayBox
import Verif.Props.PkLattice

/-!
# C91–C97: constraints, bounds, rays and boxes for convex polyhedra

`Rep.γ r` is the set of points of the polyhedron `r`, `Rep.Wf` the invariant of the representation (see `PkLattice`).  The
first `intdim` dimensions are integer; `IntPt intdim x` says that `x` is an integer on them.  A result `none` of a model
function stands for the dereference of a null pointer.
-/

set_option autoImplicit false
set_option linter.unusedSectionVars false
set_option linter.ambiguousOpen false

namespace Apron.Props

open Apron Apron.Poly Bound ILincons

variable {n : ℕ}

/-- the half-line `x ≥ 0` -/
def half : Rep := .cons [[1, 1, 0], [1, 0, 1]]

theorem half_wf : half.Wf ℚ 1 := cons_wf (by decide)

theorem half_γ (x : Fin 1 → ℚ) : half.γ x ↔ 0 ≤ x 0 := by
  change Sat [[1, 1, 0], [1, 0, 1]] (hom x) ↔ _
  simp [Sat, dot, Row.at', hom, Fin.sum_univ_succ]

/-! ## C91: meet with linear constraints -/

/-- `pk_meet_lincons_array` loses no point: a point of the polyhedron, integer on the integer dimensions, that satisfies
every constraint for some choice of its interval coefficients, is in the result; and the result is included in the
polyhedron.  Any constraints: interval coefficients, all types, strict or not. -/
theorem C91_meet_lincons_sound {intdim : ℕ} {lzy : Bool} {pa : Rep} (ha : pa.Wf ℚ n) {l : List (Lincons ℚ)}
    (hl : ∀ c ∈ l, c.expr.InDim n) :
    ∃ r, pa.meetLincons n intdim lzy l = some r ∧ r.Wf ℚ n ∧ (∀ x : Fin n → ℚ, r.γ x → pa.γ x) ∧
      ∀ x : Fin n → ℚ, IntPt intdim x → pa.γ x → (∀ c ∈ l, c.Holds (ext x)) → r.γ x := by
  obtain ⟨r, h1, h2, h3, h4, _⟩ := meetItvLincons_spec (intdim := intdim) (lzy := lzy) ha (l := l.map (ILincons.ofAp Rnd.exact))
    (fun c hc => by
      obtain ⟨k, hk, rfl⟩ := List.mem_map.1 hc
      exact consOk_ofAp (hl k hk))
  refine ⟨r, h1, h2, h3, fun x hx hp hc => h4 x hx hp fun c hc' => ?_⟩
  obtain ⟨k, hk, rfl⟩ := List.mem_map.1 hc'
  exact Apron.ILincons.holds_ofAp _ (hc k hk)

/-- with real dimensions only, and constraints `e = 0` and `e ≥ 0` with numeric coefficients, the result is exactly the
intersection.  Missing: integer dimensions (`C91_integer_equality_not_exact`), strict constraints
(`C91_strict_not_exact`). -/
theorem C91_meet_lincons_exact_partial {lzy : Bool} {pa : Rep} (ha : pa.Wf ℚ n) {l : List (Lincons ℚ)}
    (hl : ∀ c ∈ l, c.expr.InDim n ∧ c.expr.Numeric ∧ (c.typ = .eq ∨ c.typ = .supeq)) :
    ∃ r, pa.meetLincons n 0 lzy l = some r ∧ r.Wf ℚ n ∧
      ∀ x : Fin n → ℚ, r.γ x ↔ pa.γ x ∧ ∀ c ∈ l, c.Holds (ext x) := by
  obtain ⟨r, h1, h2, h3, h4, h5⟩ := meetItvLincons_spec (intdim := 0) (lzy := lzy) ha (l := l.map (ILincons.ofAp Rnd.exact))
    (fun c hc => by
      obtain ⟨k, hk, rfl⟩ := List.mem_map.1 hc
      exact consOk_ofAp (hl k hk).1)
  refine ⟨r, h1, h2, fun x => ⟨fun hx => ⟨h3 x hx, fun c hc => ?_⟩, fun ⟨hp, hc⟩ => ?_⟩⟩
  · refine holds_of_ofAp (h5 ?_ rfl x hx _ (List.mem_map.2 ⟨c, hc, rfl⟩))
    intro c hc
    obtain ⟨k, hk, rfl⟩ := List.mem_map.1 hc
    exact scalarOk_ofAp (hl k hk).1 (hl k hk).2.1 (hl k hk).2.2
  · refine h4 x (fun d hd => absurd hd (by omega)) hp fun c hc' => ?_
    obtain ⟨k, hk, rfl⟩ := List.mem_map.1 hc'
    exact Apron.ILincons.holds_ofAp _ (hc k hk)

/-- the point `q` of the line -/
def pt1 (q : ℚ) : Fin 1 → ℚ := fun _ => q

/-- DEFECT (`pk_meetjoin.c:521-575` sets `flag_exact`): with a strict constraint `x > 0` on a real dimension the result is
`x ≥ 0`, which contains a point that does not satisfy the constraint -/
theorem C91_strict_not_exact : ∃ (c : Lincons ℚ) (r : Rep), c.expr.InDim 1 ∧ c.expr.Numeric ∧
    Rep.meetLincons 1 0 true (.top 1) [c] = some r ∧ r.γ (pt1 0) ∧ ¬ c.Holds (ext (pt1 0)) := by
  refine ⟨⟨.sup, ⟨.scalar (fin 0), .sparse [(0, .scalar (fin 1))]⟩⟩, .cons [[1, 1, 0], [1, 0, 1]], ?_, ?_, by decide +kernel, ?_, ?_⟩
  · simp [Linexpr.InDim, Linexpr.terms, dimMax]
  · simp [Linexpr.Numeric, Linexpr.terms, dimMax]
  · exact (half_γ _).2 le_rfl
  · rintro ⟨v, ⟨q, r, hq, ⟨a, s, ha, hs, rfl⟩, rfl⟩, hv⟩
    cases hq; cases ha; cases hs
    have : (0 : ℚ) < 0 + (1 * ext (pt1 0) 0 + 0) := hv
    simp [ext, pt1] at this

/-- DEFECT: `2x + 1 = 0` with `x` integer has no solution, but the result contains the integer point `0` -/
theorem C91_integer_equality_not_exact : ∃ (c : Lincons ℚ) (r : Rep), c.typ = .eq ∧ c.expr.InDim 1 ∧ c.expr.Numeric ∧
    Rep.meetLincons 1 1 true (.top 1) [c] = some r ∧ r.γ (pt1 0) ∧ ¬ c.Holds (ext (pt1 0)) := by
  refine ⟨⟨.eq, ⟨.scalar (fin 1), .sparse [(0, .scalar (fin 2))]⟩⟩, .cons [[0, 0, 1], [1, 1, 0]], rfl, ?_, ?_, by decide +kernel, ?_, ?_⟩
  · simp [Linexpr.InDim, Linexpr.terms, dimMax]
  · simp [Linexpr.Numeric, Linexpr.terms, dimMax]
  · change Sat [[0, 0, 1], [1, 1, 0]] (hom _)
    simp [Sat, dot, Row.at', hom, Fin.sum_univ_succ, pt1]
  · rintro ⟨v, ⟨q, r, hq, ⟨a, s, ha, hs, rfl⟩, rfl⟩, hv⟩
    cases hq; cases ha; cases hs
    have : (1 : ℚ) + (2 * ext (pt1 0) 0 + 0) = 0 := hv
    simp [ext, pt1] at this

/-- the hypotheses: `[-2, 2]` with `2x - 1 ≥ 0` -/
example : ∃ (c : Lincons ℚ) (r : Rep), seg.Wf ℚ 1 ∧ c.expr.InDim 1 ∧ c.expr.Numeric ∧ c.typ = .supeq ∧
    seg.meetLincons 1 0 true [c] = some r ∧ r ≠ .bot := by
  refine ⟨⟨.supeq, ⟨.scalar (fin (-1)), .sparse [(0, .scalar (fin 2))]⟩⟩, _, seg_wf, ?_, ?_, rfl, (by decide +kernel :
    _ = some (.cons [[1, 2, -1], [1, 2, 1], [1, -1, 2]])), by simp⟩
  · simp [Linexpr.InDim, Linexpr.terms, dimMax]
  · simp [Linexpr.Numeric, Linexpr.terms, dimMax]

/-! ## C92: bounds of dimensions -/

/-- `pk_bound_dimension` returns an interval that contains every value of the dimension -/
theorem C92_bound_dimension_sound {alg : ℤ} {r : Rep} (h : r.Wf ℚ n) (d : Fin n) {x : Fin n → ℚ} (hx : r.γ x) :
    x d ∈ r.boundDim n alg d := by
  rw [Rep.boundDim]
  cases hF : (r.prepF n alg).F? with
  | none => exact absurd hx ((prepF_empty h).1 hF x)
  | some F => exact matBoundDim_sound (prepF_wf h alg) hF ((prepF_γ h alg x).2 hx) d

/-- `pk_bound_dimension` returns the smallest such interval: each of its bounds is the least upper bound of the values (or of
their opposites; lower bounds are stored negated); for an empty polyhedron the interval is empty -/
theorem C92_bound_dimension_best {alg : ℤ} {r : Rep} (h : r.Wf ℚ n) (d : Fin n) (i : Itv ℚ)
    (hi : i.inf ≠ ninf) (hs : i.sup ≠ ninf) (hx : ∀ x : Fin n → ℚ, r.γ x → x d ∈ i) : ∀ q, q ∈ r.boundDim n alg d → q ∈ i := by
  intro q hq
  rw [Rep.boundDim] at hq
  cases hF : (r.prepF n alg).F? with
  | none =>
    rw [hF] at hq
    have h1 := hq.1; have h2 := hq.2
    rw [Bound.fin_le_fin] at h1 h2
    linarith
  | some F =>
    rw [hF] at hq
    have hb := fun b => matBoundDim_best (prepF_wf h alg) hF d b
    have hx' : ∀ x : Fin n → ℚ, (r.prepF n alg).γ x → x d ∈ i := fun x h' => hx x ((prepF_γ h alg x).1 h')
    refine ⟨?_, ?_⟩
    · cases hc : i.inf with
      | ninf => exact absurd hc hi
      | pinf => simp
      | fin b =>
        refine hq.1.trans ((hb b).2.2 fun x h' => ?_)
        have := (hx' x h').1
        rwa [hc, Bound.fin_le_fin] at this
    · cases hc : i.sup with
      | ninf => exact absurd hc hs
      | pinf => simp
      | fin b =>
        refine hq.2.trans ((hb b).1.2 fun x h' => ?_)
        have := (hx' x h').2
        rwa [hc, Bound.fin_le_fin] at this

/-- `pk_to_box`: every point is in the box, and the box is included in every box that contains the polyhedron -/
theorem C92_to_box {alg : ℤ} {r : Rep} (h : r.Wf ℚ n) :
    (∀ x : Fin n → ℚ, r.γ x → ∀ d : Fin n, x d ∈ r.toBox n alg d) ∧
    ∀ (d : Fin n) (b : ℚ), ((∀ x : Fin n → ℚ, r.γ x → x d ≤ b) → ∀ q ∈ r.toBox n alg d, q ≤ b) ∧
      ((∀ x : Fin n → ℚ, r.γ x → b ≤ x d) → ∀ q ∈ r.toBox n alg d, b ≤ q) := by
  have e : ∃ alg', ∀ d, r.toBox n alg d = r.boundDim n alg' d := by
    by_cases ha : 0 ≤ alg
    · exact ⟨1, fun d => by simp [Rep.toBox, Rep.boundDim, Rep.prepF, ha]⟩
    · exact ⟨0, fun d => by simp [Rep.toBox, Rep.boundDim, Rep.prepF, ha]⟩
  obtain ⟨alg', e⟩ := e
  simp only [e]
  refine ⟨fun x hx d => C92_bound_dimension_sound h d hx, fun d b => ⟨fun hb q hq => ?_, fun hb q hq => ?_⟩⟩
  · have := C92_bound_dimension_best h d ⟨pinf, fin b⟩ (by simp) (by simp) (fun x hx => ⟨by simp, by rw [Bound.fin_le_fin]; exact hb x hx⟩) q hq
    exact (Bound.fin_le_fin _ _).1 this.2
  · have := C92_bound_dimension_best h d ⟨fin (-b), pinf⟩ (by simp) (by simp) (fun x hx => ⟨by rw [Bound.fin_le_fin]; linarith [hb x hx], by simp⟩) q hq
    have := (Bound.fin_le_fin _ _).1 this.1
    linarith

/-- concrete values: `[-2, 2]`, and `x ≥ 0` -/
example : seg.boundDim 1 0 0 = ⟨fin 2, fin 2⟩ ∧ half.boundDim 1 0 0 = ⟨fin 0, pinf⟩ := by decide +kernel

/-! ## C93: bounds of linear expressions -/

/-- `pk_bound_linexpr` returns an interval that contains every value of the expression, for every choice of its interval
coefficients -/
theorem C93_bound_linexpr_sound {alg : ℤ} {r : Rep} (h : r.Wf ℚ n) {e : Linexpr ℚ} (he : e.InDim n) {x : Fin n → ℚ} (hx : r.γ x)
    {v : ℚ} (hv : e.Val (ext x) v) : v ∈ r.boundLinexpr n alg e := by
  rw [Rep.boundLinexpr]
  cases hF : (r.prepF n alg).F? with
  | none => exact absurd hx ((prepF_empty h).1 hF x)
  | some F =>
    exact boundExpr_sound (prepF_wf h alg) hF (Poly.ofAp_dims he).1 ((prepF_γ h alg x).2 hx) (ILinexpr.val_ofAp _ hv)

/-- for numeric coefficients the bounds are the best ones.  Missing: interval coefficients, for which a ray with an uncertain
direction gives `[-oo, +oo]` (`C93_interval_not_best`). -/
theorem C93_bound_linexpr_best_partial {alg : ℤ} {r : Rep} (h : r.Wf ℚ n) {e : Linexpr ℚ} (he : e.InDim n) (hn : e.Numeric) (b : ℚ) :
    ((∀ x : Fin n → ℚ, r.γ x → ∀ v, e.Val (ext x) v → v ≤ b) → ∀ q ∈ r.boundLinexpr n alg e, q ≤ b) ∧
    ((∀ x : Fin n → ℚ, r.γ x → ∀ v, e.Val (ext x) v → b ≤ v) → ∀ q ∈ r.boundLinexpr n alg e, b ≤ q) := by
  rw [Rep.boundLinexpr]
  cases hF : (r.prepF n alg).F? with
  | none =>
    have hno : ∀ q, q ∉ (⟨fin (-1), fin (-1)⟩ : Itv ℚ) := by
      intro q hq
      have h1 := hq.1; have h2 := hq.2
      rw [Bound.fin_le_fin] at h1 h2
      linarith
    exact ⟨fun _ q hq => absurd hq (hno q), fun _ q hq => absurd hq (hno q)⟩
  | some F =>
    obtain ⟨⟨c, hc⟩, _, hp⟩ := ofAp_numeric hn
    have hb := fun b => boundExpr_best (prepF_wf h alg) hF (Poly.ofAp_dims he).1 hc (fun t ht => (hp t ht).2) b
    refine ⟨fun hx q hq => ?_, fun hx q hq => ?_⟩
    · have := (hb b).1.2 fun x hx' v hv => hx x ((prepF_γ h alg x).1 hx') v (ILinexpr.val_of_ofAp hv)
      exact (Bound.fin_le_fin _ _).1 (hq.2.trans this)
    · have := (hb (-b)).2.2 fun x hx' v hv => neg_le_neg (hx x ((prepF_γ h alg x).1 hx') v (ILinexpr.val_of_ofAp hv))
      have := (Bound.fin_le_fin _ _).1 (hq.1.trans this)
      linarith

/-- loss of precision: `[0, 1] * x` is never negative on `x ≥ 0`, but the interval returned has no lower bound -/
theorem C93_interval_not_best : ∃ (e : Linexpr ℚ), e.InDim 1 ∧ half.boundLinexpr 1 0 e = ⟨pinf, pinf⟩ ∧
    ∀ x : Fin 1 → ℚ, half.γ x → ∀ v, e.Val (ext x) v → 0 ≤ v := by
  refine ⟨⟨.scalar (fin 0), .sparse [(0, .interval (fin 0) (fin 1))]⟩, ?_, by decide +kernel, ?_⟩
  · simp [Linexpr.InDim, Linexpr.terms, dimMax]
  · rintro x hx v ⟨q, r, hq, ⟨a, s, ha, hs, rfl⟩, rfl⟩
    cases hq; cases hs
    have h1 : (0 : ℚ) ≤ a := (Bound.fin_le_fin _ _).1 ha.1
    have h2 := (half_γ x).1 hx
    have : ext x 0 = x 0 := ext_lt x 0
    rw [this]
    have := mul_nonneg h1 h2
    linarith

/-- concrete value: `3x + 1` on `[-2, 2]` -/
example : seg.boundLinexpr 1 0 ⟨.scalar (fin 1), .sparse [(0, .scalar (fin 3))]⟩ = ⟨fin 5, fin 7⟩ := by decide +kernel

/-! ## C94: addition of rays and lines -/

/-- `pk_add_ray_array` returns exactly the set of the points `x0 + Σ tᵢ dᵢ`, where `x0` is a point of the polyhedron and
`dᵢ` are the directions, with `tᵢ ≥ 0` for the rays -/
theorem C94_add_rays_exact {lzy : Bool} {pa : Rep} (ha : pa.Wf ℚ n) {l : List (GenTyp × Linexpr ℚ)}
    (hl : ∀ g ∈ l, g.1 ≠ .vertex ∧ g.2.InDim n ∧ g.2.Numeric) :
    ∃ r, pa.addRays n lzy l = some r ∧ r.Wf ℚ n ∧
      ∀ x : Fin n → ℚ, r.γ x ↔ ∃ x0 : Fin n → ℚ, pa.γ x0 ∧
        Comb (l.map fun g => (decide (g.1 = .ray ∨ g.1 = .raymod), fun d : Fin n => ((g.2.terms.filter fun p => p.1 = (d : ℕ)).map fun p => numref p.2.sup).sum))
          (x - x0) :=
  addRays_spec ha hl

/-- concrete value: a ray added to `[-2, 2]` gives `x ≥ -2` -/
example : ∃ r, seg.addRays 1 false [(.ray, ⟨.scalar (fin 0), .sparse [(0, .scalar (fin (1 / 2)))]⟩)] = some r ∧
    r.boundDim 1 0 0 = ⟨fin 2, pinf⟩ := ⟨_, rfl, by decide +kernel⟩

/-! ## C95: construction from a box -/

/-- `pk_of_box` is well formed and contains every point of the box that is integer on the integer dimensions -/
theorem C95_of_box_sound {intdim : ℕ} (box : ℕ → Itv ℚ) :
    (Rep.ofBox n intdim box).Wf ℚ n ∧
    ∀ x : Fin n → ℚ, IntPt intdim x → (∀ d : Fin n, x d ∈ box d) → (Rep.ofBox n intdim box).γ x :=
  ⟨ofBox_wf _ _ _, fun _ hx h => ofBox_sound hx h⟩

/-- with real dimensions only it contains nothing else.  Missing: integer dimensions, see `C95_integer_bound_not_exact`. -/
theorem C95_of_box_exact_partial {box : ℕ → Itv ℚ} (hb : ∀ d, d < n → (box d).inf ≠ ninf ∧ (box d).sup ≠ ninf) (x : Fin n → ℚ) :
    (Rep.ofBox n 0 box).γ x ↔ ∀ d : Fin n, x d ∈ box d := ofBox_exact hb

/-- DEFECT (`pk_user.c:55-57`): the lower bound is given negated but rounded up, so for an integer dimension the box
`[1/2, 3]` gives `x ≥ 0`, which contains the integer point `0` -/
theorem C95_integer_bound_not_exact : ∃ (box : ℕ → Itv ℚ), (Rep.ofBox 1 1 box).γ (pt1 0) ∧ IntPt 1 (pt1 0) ∧ ¬ pt1 0 0 ∈ box 0 := by
  refine ⟨fun _ => ⟨fin (-1 / 2), fin 3⟩, ?_, fun d _ => ⟨0, by simp [pt1]⟩, ?_⟩
  · have e : Rep.ofBox 1 1 (fun _ => ⟨fin (-1 / 2), fin 3⟩) = .cons [[1, 1, 0], [1, 0, 1], [1, 3, -1]] := by decide +kernel
    rw [e]
    change Sat [[1, 1, 0], [1, 0, 1], [1, 3, -1]] (hom _)
    simp [Sat, dot, Row.at', hom, Fin.sum_univ_succ, pt1]
  · intro h
    have := (Bound.fin_le_fin _ _).1 h.1
    norm_num [pt1] at this

/-- concrete value -/
example : Rep.ofBox 2 0 (fun d => if d = 0 then ⟨fin (-1 / 2), pinf⟩ else Itv.point 3) =
    .cons [[1, 1, 0, 0], [1, -1, 2, 0], [0, 3, 0, -1]] := by decide +kernel

/-! ## C96: satisfaction of a linear constraint -/

/-- when `pk_sat_lincons` answers true, every point satisfies the constraint for every choice of its coefficients; provided
that an equality has no interval coefficient on a dimension (`C96_sat_equality_unsound`) -/
theorem C96_sat_lincons_sound_partial {intdim : ℕ} {alg : ℤ} {r : Rep} (h : r.Wf ℚ n) {c : Lincons ℚ} (hd : c.expr.InDim n)
    (hq : c.typ = .eq → c.expr.isQuasilinear = true) (hs : r.satLincons n intdim alg c = true)
    {x : Fin n → ℚ} (hx : r.γ x) : c.HoldsAll (ext x) := satLincons_sound h hd hq hs hx

/-- for real dimensions and constraints `e = 0`, `e ≥ 0` with numeric coefficients, the answer is exact -/
theorem C96_sat_lincons_complete {alg : ℤ} {r : Rep} (h : r.Wf ℚ n) {c : Lincons ℚ} (hd : c.expr.InDim n) (hn : c.expr.Numeric)
    (ht : c.typ = .eq ∨ c.typ = .supeq) (hx : ∀ x : Fin n → ℚ, r.γ x → c.Holds (ext x)) : r.satLincons n 0 alg c = true := by
  rw [Rep.satLincons]
  have hw := prepF_wf h alg
  cases hF : (r.prepF n alg).F? with
  | none => rfl
  | some F =>
    have hsc := scalarOk_ofAp hd hn ht
    set k := ILincons.ofAp Rnd.exact c with hk
    have hq : c.expr.isQuasilinear = true := by
      rw [Linexpr.isQuasilinear, List.all_eq_true]
      intro p hp
      obtain ⟨a, ha⟩ := hn.2 p hp
      rw [ha]; rfl
    obtain ⟨q, hc⟩ := hsc.cst
    have hv : setLinconsSat n 0 k = some (setLincons n 0 k) := by
      rw [setLinconsSat, if_neg (by simp [hsc.eq]), hc, setLincons, hc]
      simp [Itv.point, infty, numref]
    have hval : genSatVector n F (setLincons n 0 k) false = true := by
      rw [genSatVector_iff (K := ℚ)]
      have hne := hw.nonEmpty (by rw [hF]; simp)
      have hbot : r.prepF n alg ≠ .bot := by intro e; rw [e] at hF; cases hF
      have hcone := Rep.cone_isCone (K := ℚ) (n := n) hbot
      have := fun y => hcone.sat (y := y) hw.pos (hcone.exists_point hne) (C := [setLincons n 0 k]) (fun x hx' => by
        rw [sat_iff_rowSat]
        intro p hp
        rw [List.mem_singleton] at hp
        subst hp
        rw [rel_setLincons hsc]
        exact Apron.ILincons.holds_ofAp _ (hx x ((prepF_γ h alg x).1 hx')))
      intro y hy
      exact this y ((hw.genM hF y).2 hy) _ (by simp)
    rcases ht with ht | ht <;> simp [ht, hq, ← hk, hv, hval]

/-- DEFECT (`pk_test.c:276-283`, with `C63_quasilinearize_array_unsound`): `[0, 1] * x = 0` is declared satisfied on `x = 1` -/
theorem C96_sat_equality_unsound : ∃ (r : Rep) (c : Lincons ℚ), r.Wf ℚ 1 ∧ c.expr.InDim 1 ∧ r.satLincons 1 0 0 c = true ∧
    r.γ (pt1 1) ∧ ¬ c.HoldsAll (ext (pt1 1)) := by
  refine ⟨.cons [[1, 1, 0], [0, 1, -1]], ⟨.eq, ⟨.scalar (fin 0), .sparse [(0, .interval (fin 0) (fin 1))]⟩⟩, cons_wf (by decide), ?_,
    by decide +kernel, ?_, ?_⟩
  · simp [Linexpr.InDim, Linexpr.terms, dimMax]
  · change Sat [[1, 1, 0], [0, 1, -1]] (hom _)
    simp [Sat, dot, Row.at', hom, Fin.sum_univ_succ, pt1]
  · intro h
    have : (0 : ℚ) + (1 * ext (pt1 1) 0 + 0) = 0 := h _ ⟨0, 1 * ext (pt1 1) 0 + 0, rfl,
      ⟨1, 0, ⟨by rw [Bound.fin_le_fin]; norm_num, le_rfl⟩, rfl, rfl⟩, rfl⟩
    simp [ext, pt1] at this

/-- concrete values on `[-2, 2]`: `x + 2 ≥ 0` holds, `x + 2 > 0` and `x ≥ 0` do not -/
example : seg.satLincons 1 0 0 ⟨.supeq, ⟨.scalar (fin 2), .sparse [(0, .scalar (fin 1))]⟩⟩ = true ∧
    seg.satLincons 1 0 0 ⟨.sup, ⟨.scalar (fin 2), .sparse [(0, .scalar (fin 1))]⟩⟩ = false ∧
    seg.satLincons 1 0 0 ⟨.supeq, ⟨.scalar (fin 0), .sparse [(0, .scalar (fin 1))]⟩⟩ = false := by decide +kernel

/-! ## C97: satisfaction of an interval -/

/-- `pk_sat_interval` decides whether a dimension stays in an interval -/
theorem C97_sat_interval_iff {alg : ℤ} {r : Rep} (h : r.Wf ℚ n) (d : Fin n) {i : Itv ℚ} (hi : i.inf ≠ ninf) (hs : i.sup ≠ ninf) :
    r.satInterval n alg d i = true ↔ ∀ x : Fin n → ℚ, r.γ x → x d ∈ i := satInterval_iff h d hi hs

/-- concrete values -/
example : seg.satInterval 1 0 0 ⟨fin 2, fin 3⟩ = true ∧ seg.satInterval 1 0 0 ⟨fin 1, pinf⟩ = false := by decide +kernel

end Apron.Props
