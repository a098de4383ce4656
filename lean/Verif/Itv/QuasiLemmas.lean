import Verif.Itv.ReduceLemmas

/-! # Lemmas on integer tightening in floating point, evaluation tightness, quasilinearisation -/

set_option autoImplicit false
set_option linter.unusedSectionVars false
set_option linter.ambiguousOpen false

namespace Apron
open Bound
variable {K : Type*} [LinearOrder K] [Field K] [IsStrictOrderedRing K]

/-- integers dividing a representable integer are representable (true of floating-point formats) -/
def Rnd.DivExact (R : Rnd K) : Prop :=
  ∀ n m : ℤ, R.up (n : K) = fin (n : K) → m ∣ n → R.up (m : K) = fin (m : K)

theorem Rnd.divExact_exact : (Rnd.exact (K := K)).DivExact := fun _ _ _ _ => rfl

namespace ILincons
open ILinexpr

section flt
variable [FloorRing K] {R : Rnd K}

/-- scalar coefficients are representable numbers -/
structure ReprOk (R : Rnd K) (c : ILincons K) : Prop where
  terms : ∀ t ∈ c.expr.terms, t.eq = true → ∀ q ∈ t.itv, R.up q = fin q
  cst : c.expr.eq = true → ∀ q ∈ c.expr.cst, R.up q = fin q

theorem div_up_fin {p q : K} (h : R.up (p / q) = fin (p / q)) (hq : q ≠ 0) :
    Bound.div R (fin p) (fin q) = fin (p / q) := by
  unfold Bound.div
  by_cases hp : p = 0
  · subst hp; simp
  · rw [if_neg (by simp [sgn_zero_iff, hp, infty]), if_neg (by simp [sgn_zero_iff, hq])]
    exact h

theorem mem_divBound_pos {i : Itv K} {q g : K} (hg : 0 < g) (h : q ∈ i) :
    q / g ∈ Itv.divBound R i (fin g) := by
  have hs : 0 ≤ sgn (fin g) := by rw [sgn_nonneg_iff]; simpa using hg.le
  rw [Itv.divBound, if_pos hs]
  refine ⟨?_, div_pos_ge R hg h.2⟩
  have := div_pos_ge R hg h.1
  rwa [neg_div] at this

theorem divBound_point {q g : K} (hg : 0 < g) (h1 : R.up (q / g) = fin (q / g))
    (h2 : R.up (-(q / g)) = fin (-(q / g))) :
    Itv.divBound R (Itv.point q) (fin g) = Itv.point (q / g) := by
  have hs : 0 ≤ sgn (fin g) := by rw [sgn_nonneg_iff]; simpa using hg.le
  rw [Itv.divBound, if_pos hs]
  simp only [Itv.point]
  rw [div_up_fin h1 hg.ne', div_up_fin (by rwa [neg_div]) hg.ne', neg_div]

/-- the constraint divided by the gcd -/
def fltScaled (R : Rnd K) (c : ILincons K) (g : ℕ) : ILincons K :=
  ⟨c.typ, ⟨Itv.divBound R c.expr.cst (fin (g : K)), c.expr.eq,
    c.expr.terms.map fun t => ⟨t.dim, t.eq, Itv.divBound R t.itv (fin (g : K))⟩⟩⟩

theorem reduceIntegerFlt_eq (c : ILincons K) (intdim : ℕ) :
    reduceIntegerFlt R c intdim = c ∨
    (reducible c intdim = true ∧ c.expr.terms ≠ [] ∧ ∃ g : ℕ, 0 < g ∧
      (∀ t ∈ c.expr.terms, (∃ n : ℤ, numref t.itv.sup = n) ∧ g ∣ ⌊numref t.itv.sup⌋.natAbs) ∧
      reduceIntegerFlt R c intdim = constrainBounds R (fltScaled R c g)) := by
  unfold reduceIntegerFlt
  split_ifs with h1 h2
  · simp only
    split_ifs with h3
    · exact Or.inl rfl
    · push Not at h3
      refine Or.inr ⟨h1, ?_, _, Nat.pos_of_ne_zero h3.1, ?_, rfl⟩
      · intro h; rw [h] at h3; simp at h3
      · intro t ht
        rw [List.all_eq_true] at h2
        exact ⟨(isInt_iff _).1 (h2 t ht),
          (foldl_gcd_dvd (fun t : ITerm K => ⌊numref t.itv.sup⌋.natAbs) _ 0).2 t ht⟩
  · exact Or.inl rfl
  · exact Or.inl rfl

/-- what is needed from one term: it is a representable integer, divisible by `g` -/
theorem flt_term {g : ℕ} (hg : 0 < g) (hR : R.DivExact) {t : ITerm K} {a : K} (ha : t.itv = Itv.point a)
    (hr : R.up a = fin a) (hi : ∃ n : ℤ, numref t.itv.sup = n)
    (hd : g ∣ ⌊numref t.itv.sup⌋.natAbs) :
    ∃ m : ℤ, a = m * g ∧ Itv.divBound R t.itv (fin (g : K)) = Itv.point (m : K) := by
  obtain ⟨n, hn⟩ := hi
  simp only [ha, Itv.point, numref] at hn hd
  subst hn
  simp only [Int.floor_intCast] at hd
  obtain ⟨m, hm⟩ := Int.natCast_dvd.2 hd
  have hg0 : (g : K) ≠ 0 := by exact_mod_cast hg.ne'
  have e : (n : K) / (g : K) = (m : K) := by
    rw [hm]; push_cast; rw [mul_div_cancel_left₀ _ hg0]
  refine ⟨m, by rw [hm]; push_cast; ring, ?_⟩
  rw [ha, ← e]
  refine divBound_point (by exact_mod_cast hg) ?_ ?_
  · rw [e]; exact hR n m hr ⟨g, by rw [hm]; ring⟩
  · rw [e]
    have := hR n (-m) hr ⟨-g, by rw [hm]; ring⟩
    simpa using this

theorem fltScaled_spec {c : ILincons K} {g : ℕ} (hg : 0 < g) (hR : R.DivExact)
    (hp : ∀ t ∈ c.expr.terms, ∃ a, t.itv = Itv.point a ∧ R.up a = fin a)
    (hd : ∀ t ∈ c.expr.terms, (∃ n : ℤ, numref t.itv.sup = n) ∧ g ∣ ⌊numref t.itv.sup⌋.natAbs) :
    List.Forall₂ (fun t t' => t'.dim = t.dim ∧ ∃ a, t.itv = Itv.point a ∧
      t'.itv = Itv.point (a * (1 / (g : K)))) c.expr.terms (fltScaled R c g).expr.terms := by
  simp only [fltScaled]
  generalize c.expr.terms = l at *
  induction l with
  | nil => simp
  | cons t l ih =>
    rw [List.map_cons]
    refine List.Forall₂.cons ⟨rfl, ?_⟩ (ih (fun t h => hp t (by simp [h])) (fun t h => hd t (by simp [h])))
    obtain ⟨a, ha, hr⟩ := hp t (by simp)
    obtain ⟨h1, h2⟩ := hd t (by simp)
    obtain ⟨m, hm, he⟩ := flt_term hg hR ha hr h1 h2
    have hg0 : (g : K) ≠ 0 := by exact_mod_cast hg.ne'
    refine ⟨a, ha, ?_⟩
    simp only [he]
    congr 1
    rw [hm]; field_simp

theorem flt_points {c : ILincons K} {intdim : ℕ} (hf : c.expr.FlagsOk) (hrep : ReprOk R c)
    (hr : reducible c intdim = true) {x : ℕ → K} (h : c.Holds x) :
    ∀ t ∈ c.expr.terms, ∃ a, t.itv = Itv.point a ∧ R.up a = fin a := by
  rw [reducible_iff] at hr
  obtain ⟨v, ⟨q, r, _, hv, _⟩, _⟩ := h
  intro t ht
  obtain ⟨a, ha⟩ := tval_nonempty hv t ht
  have heq := hr.2.2 t ht
  exact ⟨a, hf t ht heq a ha, hrep.terms t ht heq a ha⟩

theorem reduceIntegerFlt_sound {c : ILincons K} {intdim : ℕ} (hf : c.expr.FlagsOk) (hcst : c.expr.CstOk)
    (hR : R.DivExact) (hrep : ReprOk R c) {x : ℕ → K} (hx : ∀ d, d < intdim → ∃ n : ℤ, x d = n)
    (h : c.Holds x) : (reduceIntegerFlt R c intdim).Holds x := by
  rcases reduceIntegerFlt_eq (R := R) c intdim with he | ⟨hr, _, g, hg, hd, he⟩
  · rw [he]; exact h
  · rw [he]
    have hp := flt_points hf hrep hr h
    have hr' := reducible_iff.1 hr
    obtain ⟨hty, hdim, hq⟩ := hr'
    have hgK : (0 : K) < g := by exact_mod_cast hg
    refine constrainBounds_sound R (c := fltScaled R c g) hty ?_ ?_ ?_
    · intro r hv
      refine tval_int ?_ hv
      intro t ht
      simp only [fltScaled, List.mem_map] at ht
      obtain ⟨u, hu, rfl⟩ := ht
      obtain ⟨a, ha, hra⟩ := hp u hu
      obtain ⟨m, _, he⟩ := flt_term hg hR ha hra (hd u hu).1 (hd u hu).2
      exact ⟨⟨m, he⟩, hx u.dim (hdim u hu)⟩
    · intro hty heq n hn
      simp only [fltScaled] at hty heq hn ⊢
      obtain ⟨v, ⟨q, r, hqm, hv, rfl⟩, hrel⟩ := h
      have hpt := hcst heq q hqm
      have hrq := hrep.cst heq q hqm
      rw [hty] at hrel
      simp only [Lincons.Rel] at hrel
      have hint : ∃ k : ℤ, r = k * g := by
        have := (tval_scale_iff (x := x) (one_div_ne_zero hgK.ne') (fltScaled_spec hg hR hp hd)).1 hv
        obtain ⟨k, hk⟩ := tval_int (fun t ht => by
          simp only [fltScaled, List.mem_map] at ht
          obtain ⟨u, hu, rfl⟩ := ht
          obtain ⟨a, ha, hra⟩ := hp u hu
          obtain ⟨m, _, he⟩ := flt_term hg hR ha hra (hd u hu).1 (hd u hu).2
          exact ⟨⟨m, he⟩, hx u.dim (hdim u hu)⟩) this
        refine ⟨k, ?_⟩
        rw [← hk]; field_simp
      obtain ⟨k, hk⟩ := hint
      have hqk : q = ((-k * g : ℤ) : K) := by push_cast; linarith
      have e : q / (g : K) = ((-k : ℤ) : K) := by rw [hqk]; push_cast; field_simp
      have h1 : R.up (q / g) = fin (q / g) := by
        rw [e]; exact hR (-k * g) (-k) (by rw [← hqk]; exact hrq) ⟨g, rfl⟩
      have h2 : R.up (-(q / g)) = fin (-(q / g)) := by
        rw [e]
        have := hR (-k * g) k (by rw [← hqk]; exact hrq) ⟨-g, by ring⟩
        simpa using this
      rw [hpt, divBound_point hgK h1 h2] at hn ⊢
      rw [Itv.mem_point] at hn; rw [hn]; rfl
    · obtain ⟨v, ⟨q, r, hqm, hv, rfl⟩, hrel⟩ := h
      refine ⟨(q + r) / g, ⟨q / g, r / g, mem_divBound_pos hgK hqm, ?_, by ring⟩, ?_⟩
      · have := (tval_scale_iff (x := x) (one_div_ne_zero hgK.ne') (fltScaled_spec hg hR hp hd)).1 hv
        rwa [mul_one_div] at this
      · have := rel_mul_pos hty (v := (q + r) / g) hgK
        rw [div_mul_cancel₀ _ hgK.ne'] at this
        exact this.1 hrel

theorem okFor_reduceIntegerFlt {c : ILincons K} (h : OkFor R c) (hR : R.DivExact) (hrep : ReprOk R c)
    (intdim : ℕ) {x : ℕ → K} (hx : c.Holds x) : OkFor R (reduceIntegerFlt R c intdim) := by
  rcases reduceIntegerFlt_eq (R := R) c intdim with he | ⟨hr, hne, g, hg, hd, he⟩
  · rw [he]; exact h
  · rw [he]
    have hp := flt_points h.flags hrep hr hx
    refine okFor_constrainBounds _ (by simp [fltScaled, hne]) ?_
    intro t ht
    simp only [fltScaled, List.mem_map] at ht
    obtain ⟨u, hu, rfl⟩ := ht
    obtain ⟨a, ha, hra⟩ := hp u hu
    obtain ⟨m, _, he⟩ := flt_term hg hR ha hra (hd u hu).1 (hd u hu).2
    refine ⟨(reducible_iff.1 hr).2.2 u hu, ?_⟩
    intro _ q hq
    simp only [he] at hq ⊢
    rw [Itv.mem_point] at hq; rw [hq]

theorem dims_reduceIntegerFlt {c : ILincons K} {intdim : ℕ} {t : ITerm K}
    (ht : t ∈ (reduceIntegerFlt R c intdim).expr.terms) : ∃ u ∈ c.expr.terms, u.dim = t.dim := by
  rcases reduceIntegerFlt_eq (R := R) c intdim with he | ⟨_, _, g, _, _, he⟩
  · rw [he] at ht; exact ⟨t, ht, rfl⟩
  · rw [he] at ht
    have := constrainBounds_terms _ ht
    simp only [fltScaled, List.mem_map] at this
    obtain ⟨u, hu, rfl⟩ := this
    exact ⟨u, hu, rfl⟩

end flt
end ILincons
end Apron
