import Verif.Itv.QuasiSound

/-! # Properties C54 (integer tightening of constraints), C55 and C63 (quasilinearisation)

A constraint given through the API (`Lincons`) is first converted to a constraint with interval
coefficients (`ILincons.ofAp`), then transformed.  `Holds c x` is the specification: some choice of
the interval coefficients makes the constraint true at `x`. -/

set_option autoImplicit false
set_option linter.unusedSectionVars false
set_option linter.ambiguousOpen false

namespace Apron
open Bound ILincons
variable {K : Type*} [LinearOrder K] [Field K] [IsStrictOrderedRing K]

/-! ## C54: integer tightening -/

/-- Rational numbers: every solution that is integer on the integer dimensions remains. -/
theorem C54_reduce_keeps (c : Lincons ℚ) (intdim : ℕ) (x : ℕ → ℚ) (hx : ∀ d, d < intdim → ∃ n : ℤ, x d = n)
    (h : c.Holds x) : (reduceIntegerRat (ILincons.ofAp Rnd.exact c) intdim).Holds x :=
  reduceIntegerRat_sound (ILinexpr.flagsOk_ofAp _ _) (ILinexpr.cstOk_ofAp _ _) hx (holds_ofAp _ h)

/-- Floating-point and integer number types, coefficients that are representable numbers: every
solution remains. -/
theorem C54_reduce_keeps_rounded [FloorRing K] (R : Rnd K) (hR : R.DivExact) (c : Lincons K)
    (hrep : ReprOk R (ILincons.ofAp R c)) (intdim : ℕ) (x : ℕ → K) (hx : ∀ d, d < intdim → ∃ n : ℤ, x d = n)
    (h : c.Holds x) : (reduceIntegerFlt R (ILincons.ofAp R c) intdim).Holds x :=
  reduceIntegerFlt_sound (ILinexpr.flagsOk_ofAp _ _) (ILinexpr.cstOk_ofAp _ _) hR hrep hx (holds_ofAp _ h)

/-- a constraint is satisfied by the integer points satisfying its converted form -/
theorem holds_of_ofAp {c : Lincons K} {x : ℕ → K} (h : (ILincons.ofAp Rnd.exact c).Holds x) : c.Holds x := by
  obtain ⟨v, hv, hr⟩ := h
  exact ⟨v, ILinexpr.val_of_ofAp hv, hr⟩

theorem reduceIntegerRat_complete' {c : ILincons ℚ} {intdim : ℕ} (hf : c.expr.FlagsOk) (hcst : c.expr.CstOk)
    (hne : ∃ x v, c.expr.Val x v)
    (hE : c.typ = .eq → ∃ x0 : ℕ → ℚ, (∀ d, d < intdim → ∃ n : ℤ, x0 d = n) ∧ c.Holds x0) {x : ℕ → ℚ}
    (hx : ∀ d, d < intdim → ∃ n : ℤ, x d = n) (h : (reduceIntegerRat c intdim).Holds x) : c.Holds x := by
  rcases reduceIntegerRat_eq c intdim with he | ⟨hr, _, den, num, hd0, hn0, hd, he⟩
  · rw [he] at h; exact h
  · rw [he] at h
    rw [reducible_iff] at hr
    obtain ⟨hty, hdim, hq⟩ := hr
    have hfpos : (0 : ℚ) < (den : ℚ) / (num : ℚ) :=
      div_pos (by exact_mod_cast Nat.pos_of_ne_zero hd0) (by exact_mod_cast Nat.pos_of_ne_zero hn0)
    obtain ⟨y, v, q0, r0, hq0, hr0, rfl⟩ := hne
    have hp' : ∀ t ∈ c.expr.terms, ∃ a, t.itv = Itv.point a := by
      intro t ht
      obtain ⟨a, ha⟩ := tval_nonempty hr0 t ht
      exact ⟨a, hf t ht (hq t ht) a ha⟩
    refine (holds_scale hty hfpos (ratScaled_forall₂ hn0 hp' hd)).1 ?_
    refine constrainBounds_complete (c := ratScaled c den num) hty (ratScaled_int fun t ht => hx t.dim (hdim t ht))
      (q0 := q0 * ((den : ℚ) / (num : ℚ))) (Itv.mem_mulBound _ hq0) ?_ h
    intro h1 h2
    obtain ⟨x0, hx0, hh⟩ := hE h1
    obtain ⟨v, ⟨q, r, hq', hr', hv⟩, hrel⟩ := (holds_scale hty hfpos (ratScaled_forall₂ hn0 hp' hd)).2 hh
    obtain ⟨n, hn⟩ := ratScaled_int (fun t ht => hx0 t.dim (hdim t ht)) r hr'
    have hrel : v = 0 := by
      have h1' : c.typ = .eq := h1
      simpa only [h1', Lincons.Rel] using hrel
    refine ⟨-n, ?_⟩
    have hc0 := hcst h2 q0 hq0
    simp only [ratScaled] at hq' ⊢
    rw [hc0, mulBound_point_exact _ _ hfpos] at hq' ⊢
    rw [Itv.mem_point] at hq'
    rw [← hq']
    push_cast
    congr 1
    linarith

/-- Rational numbers: no solution is added, provided, for an equality, that it has at least one
integer solution.  Missing: equalities without integer solution, see `C54_equality_not_exact`. -/
theorem C54_reduce_exact_partial (c : Lincons ℚ) (hne : ∃ x v, c.expr.Val x v) (intdim : ℕ)
    (hE : c.typ = .eq → ∃ x0 : ℕ → ℚ, (∀ d, d < intdim → ∃ n : ℤ, x0 d = n) ∧ c.Holds x0)
    (x : ℕ → ℚ) (hx : ∀ d, d < intdim → ∃ n : ℤ, x d = n) :
    (reduceIntegerRat (ILincons.ofAp Rnd.exact c) intdim).Holds x ↔ c.Holds x := by
  refine ⟨fun h => ?_, C54_reduce_keeps c intdim x hx⟩
  refine holds_of_ofAp (reduceIntegerRat_complete' (ILinexpr.flagsOk_ofAp _ _) (ILinexpr.cstOk_ofAp _ _) ?_ ?_ hx h)
  · obtain ⟨y, v, hv⟩ := hne
    exact ⟨y, v, ILinexpr.val_ofAp _ hv⟩
  · intro h1
    obtain ⟨x0, h2, h3⟩ := hE h1
    exact ⟨x0, h2, holds_ofAp _ h3⟩

/-- `3*x0 + 6*x1 - 4 >= 0` -/
def exCons : Lincons ℚ := ⟨.supeq, ⟨.scalar (fin (-4)), .sparse [(0, .scalar (fin 3)), (1, .scalar (fin 6))]⟩⟩

/-- it is tightened to `x0 + 2*x1 - 2 >= 0` -/
example : reduceIntegerRat (ILincons.ofAp Rnd.exact exCons) 2 =
    ⟨.supeq, ⟨Itv.point (-2), true, [⟨0, true, Itv.point 1⟩, ⟨1, true, Itv.point 2⟩]⟩⟩ := by decide +kernel

/-- The code violates the exactness: `2*x0 + 1 = 0` has no integer solution, but it is transformed into
`x0 + 0 = 0` (the constant is rounded although the bounds of an equality cannot be). -/
theorem C54_equality_not_exact : ∃ (c : Lincons ℚ) (x : ℕ → ℚ), c.typ = .eq ∧ (∀ d, ∃ n : ℤ, x d = n) ∧
    (∀ y : ℕ → ℚ, (∀ d, ∃ n : ℤ, y d = n) → ¬ c.Holds y) ∧
    (reduceIntegerRat (ILincons.ofAp Rnd.exact c) 1).Holds x := by
  refine ⟨⟨.eq, ⟨.scalar (fin 1), .sparse [(0, .scalar (fin 2))]⟩⟩, fun _ => 0, rfl, fun _ => ⟨0, by simp⟩, ?_, ?_⟩
  · rintro y hy ⟨v, ⟨q, r, hq, hr, rfl⟩, hv⟩
    have hq : fin 1 = fin q := hq
    have hr : ∃ a s, fin (2 : ℚ) = fin a ∧ s = 0 ∧ r = a * y 0 + s := hr
    obtain ⟨a, s, ha, rfl, rfl⟩ := hr
    obtain ⟨n, hn⟩ := hy 0
    simp only [Bound.fin.injEq] at hq ha
    have hv : q + (a * y 0 + 0) = 0 := hv
    rw [← hq, ← ha, hn] at hv
    have : (1 : ℤ) + 2 * n = 0 := by exact_mod_cast (by linarith : (1 : ℚ) + 2 * n = 0)
    omega
  · have e : reduceIntegerRat (ILincons.ofAp Rnd.exact
        (⟨.eq, ⟨.scalar (fin 1), .sparse [(0, .scalar (fin 2))]⟩⟩ : Lincons ℚ)) 1 =
        ⟨.eq, ⟨Itv.point 0, true, [⟨0, true, Itv.point 1⟩]⟩⟩ := by decide +kernel
    rw [e]
    exact ⟨0, ⟨0, 0, (Itv.mem_point _ _).2 rfl, ⟨1, 0, (Itv.mem_point _ _).2 rfl, rfl, by norm_num⟩, by norm_num⟩, rfl⟩

/-! ## C55: quasilinearisation and linearisation -/

/-- Every value that the expression takes at a point of the box is taken by the quasilinear
expression, for every rounding of the arithmetic. -/
theorem C55_quasilinearize_sound (R : Rnd K) (e : Linexpr K) (env : ℕ → Itv K) (ineq : Bool) (x : ℕ → K)
    (hx : ∀ d ∈ e.terms.map Prod.fst, x d ∈ env d) (v : K) (hv : e.Val x v) :
    (quasi R (ILinexpr.ofAp R e) env ineq).Val x v := by
  refine quasi_sound R (fun t ht => ?_) (ILinexpr.val_ofAp R hv)
  simp only [ILinexpr.ofAp, List.mem_filter, List.mem_map] at ht
  obtain ⟨⟨p, hp, rfl⟩, _⟩ := ht
  exact hx _ (List.mem_map_of_mem hp)

/-- ... and this expression is quasilinear: the coefficients of the dimensions are numbers. -/
theorem C55_quasilinear (R : Rnd K) (e : Linexpr K) (env : ℕ → Itv K) (ineq : Bool) (t : ITerm K)
    (ht : t ∈ (quasi R (ILinexpr.ofAp R e) env ineq).terms) (q : K) (hq : q ∈ t.itv) : t.itv = Itv.point q :=
  flagsOk_quasi R (ILinexpr.flagsOk_ofAp R e) env ineq t ht (quasi_quasilinear R _ _ _ t ht) q hq

/-- The points satisfying an array of constraints satisfy the linearised array (used for a meet), in
which the constant is a number. -/
theorem C55_linearize_array_sound (R : Rnd K) (l : List (Lincons K)) (x : ℕ → K) (h : ∀ c ∈ l, c.Holds x) :
    ∀ c ∈ linearizeArray true (l.map (ILincons.ofAp R)), c.Holds x := by
  refine linearizeArray_sound (fun c hc _ => ?_) fun c hc => ?_
  all_goals
    simp only [List.mem_map] at hc
    obtain ⟨c, hc, rfl⟩ := hc
  · exact ILinexpr.cstOk_ofAp _ _
  · exact holds_ofAp _ (h c hc)

/-- `[1,3]*x0 + [0,1] = 0` over `x0 ∈ [-2,4]` becomes `2*x0 + [-4,5]`; as two inequalities in a meet -/
example : quasi Rnd.exact (ILinexpr.ofAp Rnd.exact
    (⟨.interval (fin 0) (fin 1), .sparse [(0, .interval (fin 1) (fin 3))]⟩ : Linexpr ℚ))
      (fun _ => ⟨fin 2, fin 4⟩) false = ⟨⟨fin 4, fin 5⟩, false, [⟨0, true, Itv.point 2⟩]⟩ := by decide +kernel

example : (quasiArray Rnd.exact [ILincons.ofAp Rnd.exact (⟨.eq, ⟨.interval (fin 0) (fin 1),
    .sparse [(0, .interval (fin 1) (fin 3))]⟩⟩ : Lincons ℚ)] (fun _ => ⟨fin 2, fin 4⟩) true).length = 2 := by
  decide +kernel

/-! ## C63: quasilinearisation of equalities with inexact arithmetic -/

/-- Exact arithmetic: the points of a box satisfying an array of constraints satisfy the
quasilinearised array (which may have more constraints), used for a meet.
Missing: other number types, see `C63_quasilinearize_array_unsound`. -/
theorem C63_quasilinearize_array_partial (l : List (Lincons K)) (env : ℕ → Itv K) (x : ℕ → K)
    (hx : ∀ c ∈ l, ∀ d ∈ c.expr.terms.map Prod.fst, x d ∈ env d) (h : ∀ c ∈ l, c.Holds x) :
    ∀ c ∈ quasiArray Rnd.exact (l.map (ILincons.ofAp Rnd.exact)) env true, c.Holds x := by
  refine quasiArray_sound fun c hc => ?_
  simp only [List.mem_map] at hc
  obtain ⟨c, hc, rfl⟩ := hc
  refine ⟨ILinexpr.flagsOk_ofAp _ _, ILinexpr.cstOk_ofAp _ _, fun t ht => ?_, holds_ofAp _ (h c hc)⟩
  simp only [ILincons.ofAp, ILinexpr.ofAp, List.mem_filter, List.mem_map] at ht
  obtain ⟨⟨p, hp, rfl⟩, _⟩ := ht
  exact hx c hc _ (List.mem_map_of_mem hp)

/-- arithmetic on the multiples of 1/4, rounded upwards -/
def rndQuarter : Rnd ℚ := ⟨fun q => fin ((⌈4 * q⌉ : ℤ) / 4), fun q => by
  rw [fin_le_fin, le_div_iff₀ (by norm_num)]
  have := Int.le_ceil (4 * q)
  linarith⟩

/-- The code violates the property: quasilinearising a constraint replaces the dimensions that are constant
in the box by their value, but leaves the flag `equality` of the constant, even when the products
are rounded to a proper interval.  `1/4*x0 - 1/4*x1 = 0` with `x0 = x1 = 1/4`, in an arithmetic on
multiples of 1/4: the constant becomes `[-1/4,1/4]`, still flagged as a single number, and the
constraint is declared unsatisfiable from its upper bound. -/
theorem C63_quasilinearize_array_unsound : ∃ (c : Lincons ℚ) (env : ℕ → Itv ℚ) (x : ℕ → ℚ),
    (∀ d, x d ∈ env d) ∧ c.Holds x ∧
    ∃ c' ∈ quasiArray rndQuarter [ILincons.ofAp rndQuarter c] env true, ¬ c'.Holds x := by
  refine ⟨⟨.eq, ⟨.scalar (fin 0), .sparse [(0, .scalar (fin (1/4))), (1, .scalar (fin (-1/4)))]⟩⟩,
    fun _ => Itv.point (1/4), fun _ => 1/4, fun _ => (Itv.mem_point _ _).2 rfl, ?_, ?_⟩
  · exact ⟨0, ⟨0, 0, rfl, ⟨1/4, -1/16, rfl, ⟨-1/4, 0, rfl, rfl, by norm_num⟩, by norm_num⟩, by norm_num⟩, rfl⟩
  · have e : quasiArray rndQuarter [ILincons.ofAp rndQuarter
        (⟨.eq, ⟨.scalar (fin 0), .sparse [(0, .scalar (fin (1/4))), (1, .scalar (fin (-1/4)))]⟩⟩ : Lincons ℚ)]
        (fun _ => Itv.point (1/4)) true = [setBool false] := by decide +kernel
    rw [e]
    exact ⟨_, by simp, not_holds_setBool _⟩

end Apron
