import Verif.Itv.EvalTight
import Verif.Itv.Tight

/-! # Helper lemmas: with exact arithmetic and scalar coefficients every value of the evaluated
interval is attained -/

set_option autoImplicit false
set_option linter.unusedSectionVars false
set_option linter.ambiguousOpen false

namespace Apron
open Bound

namespace Itv
variable {K : Type*} [LinearOrder K] [Field K] [IsStrictOrderedRing K]

/-- every member of a sum is a sum of members -/
theorem add_attained {a b : Itv K} {a0 b0 z : K} (ha : a0 ∈ a) (hb : b0 ∈ b)
    (hz : z ∈ add Rnd.exact a b) : ∃ x ∈ a, ∃ y ∈ b, z = x + y := by
  obtain ⟨ai, as⟩ := a
  obtain ⟨bi, bs⟩ := b
  suffices h : ∃ x, x ∈ (⟨ai, as⟩ : Itv K) ∧ z - x ∈ (⟨bi, bs⟩ : Itv K) by
    obtain ⟨x, h1, h2⟩ := h
    exact ⟨x, h1, z - x, h2, by ring⟩
  simp only [mem_def, add] at *
  obtain ⟨ha1, ha2⟩ := ha
  obtain ⟨hb1, hb2⟩ := hb
  obtain ⟨hz1, hz2⟩ := hz
  cases ai with
  | ninf => simp at ha1
  | fin ai =>
    cases bs with
    | ninf => simp at hb2
    | fin bs =>
      refine ⟨max (-ai) (z - bs), ⟨?_, ?_⟩, ?_, ?_⟩
      · simp only [fin_le_fin]; have := le_max_left (-ai) (z - bs); linarith
      · cases as with
        | ninf => simp at ha2
        | pinf => simp
        | fin as =>
          simp only [fin_le_fin, Bound.add, Rnd.exact] at *
          exact max_le (by linarith) (by linarith)
      · cases bi with
        | ninf => simp at hb1
        | pinf => simp
        | fin bi =>
          simp only [fin_le_fin, Bound.add, Rnd.exact] at *
          have : max (-ai) (z - bs) ≤ bi + z := max_le (by linarith) (by linarith)
          linarith
      · simp only [fin_le_fin]; have := le_max_right (-ai) (z - bs); linarith
    | pinf =>
      refine ⟨-ai, ⟨by simp, ?_⟩, ?_, by simp⟩
      · refine le_trans ?_ ha2; simp only [fin_le_fin] at *; linarith
      · cases bi with
        | ninf => simp at hb1
        | pinf => simp
        | fin bi => simp only [fin_le_fin, Bound.add, Rnd.exact] at *; linarith
  | pinf =>
    cases bs with
    | ninf => simp at hb2
    | fin bs =>
      refine ⟨z - bs, ⟨by simp, ?_⟩, ?_, by simp⟩
      · cases as with
        | ninf => simp at ha2
        | pinf => simp
        | fin as => simp only [fin_le_fin, Bound.add, Rnd.exact] at *; linarith
      · refine le_trans ?_ hb1; simp only [fin_le_fin] at *; linarith
    | pinf =>
      cases as with
      | ninf => simp at ha2
      | pinf =>
        cases bi with
        | ninf => simp at hb1
        | pinf => exact ⟨0, by simp, by simp⟩
        | fin bi => exact ⟨z + bi, by simp, by simp⟩
      | fin as =>
        cases bi with
        | ninf => simp at hb1
        | pinf => exact ⟨as, by simp, by simp⟩
        | fin bi =>
          refine ⟨min as (z + bi), ⟨by simp, ?_⟩, ?_, by simp⟩
          · simp
          · simp only [fin_le_fin]; have := min_le_right as (z + bi); linarith

/-- every member of a scaled interval is a scaled member -/
theorem mulBound_attained {b : Itv K} {b0 z q : K} (hb : b0 ∈ b) (hz : z ∈ mulBound Rnd.exact b (fin q)) :
    ∃ y ∈ b, z = q * y := by
  rcases eq_or_ne q 0 with rfl | hq
  · refine ⟨b0, hb, ?_⟩
    simp only [mulBound, sgn_fin_zero, le_refl, if_true, Bound.mul_zero_right, mem_def, fin_le_fin] at hz
    have := hz.1; have := hz.2
    rw [MulZeroClass.zero_mul]; linarith
  · refine ⟨z / q, ?_, by field_simp⟩
    obtain ⟨i, s⟩ := b
    have h1 := inf_ne hb.1
    have h2 := inf_ne hb.2
    unfold mulBound at hz
    rcases lt_or_gt_of_ne hq with hq | hq
    · rw [sgn_fin_of_neg hq, if_neg (by decide)] at hz
      obtain ⟨hz1, hz2⟩ := hz
      simp only [neg_fin] at hz1 hz2
      constructor
      · cases i with
        | ninf => simp at h1
        | pinf => simp
        | fin i =>
          simp only [mul_fin_fin_exact, fin_le_fin] at hz2 ⊢
          rw [← neg_div, div_le_iff_of_neg hq]; linarith
      · cases s with
        | ninf => simp at h2
        | pinf => simp
        | fin s =>
          simp only [mul_fin_fin_exact, fin_le_fin] at hz1 ⊢
          rw [div_le_iff_of_neg hq]; linarith
    · rw [sgn_fin_of_pos hq, if_pos (by decide)] at hz
      obtain ⟨hz1, hz2⟩ := hz
      constructor
      · cases i with
        | ninf => simp at h1
        | pinf => simp
        | fin i =>
          simp only [mul_fin_fin_exact, fin_le_fin] at hz1 ⊢
          rw [← neg_div, div_le_iff₀ hq]; linarith
      · cases s with
        | ninf => simp at h2
        | pinf => simp
        | fin s =>
          simp only [mul_fin_fin_exact, fin_le_fin] at hz2 ⊢
          rw [div_le_iff₀ hq]; linarith
where
  inf_ne {b : Bound K} {q : K} (h : fin q ≤ b) : b ≠ ninf := by rintro rfl; simp at h

end Itv

namespace ILinexpr
variable {K : Type*} [LinearOrder K] [Field K] [IsStrictOrderedRing K]

theorem evalTerms_attained {env : ℕ → Itv K} {l : List (ITerm K)}
    (hs : ∀ t ∈ l, t.eq = true ∧ ∃ q, t.itv = Itv.point q)
    (hdist : (l.map ITerm.dim).Nodup) {x0 : ℕ → K} (hx0 : ∀ t ∈ l, x0 t.dim ∈ env t.dim)
    {acc : Itv K} {a0 z : K} (ha : a0 ∈ acc) (hz : z ∈ evalTerms Rnd.exact env l acc) :
    ∃ x a r, a ∈ acc ∧ (∀ t ∈ l, x t.dim ∈ env t.dim) ∧ (∀ i, i ∉ l.map ITerm.dim → x i = x0 i) ∧
      TVal l x r ∧ z = a + r := by
  induction l generalizing acc a0 with
  | nil => exact ⟨x0, z, 0, hz, by simp, by simp, rfl, by ring⟩
  | cons t l ih =>
    obtain ⟨ht, q, hq⟩ := hs t (by simp)
    rw [List.map_cons, List.nodup_cons] at hdist
    have hmem : a0 + q * x0 t.dim ∈ evalStep Rnd.exact env t acc :=
      mem_evalStep _ (fun _ p hp => Itv.isPoint_eq (Itv.isPoint_iff.2 ⟨q, hq⟩) hp) ha
        (by rw [hq]; exact (Itv.mem_point q q).2 rfl) (hx0 t (by simp))
    have step : ∀ a', a' ∈ evalStep Rnd.exact env t acc → ∃ a ∈ acc, ∃ y ∈ env t.dim, a' = a + q * y := by
      intro a' ha'
      unfold evalStep at ha'
      rw [if_pos ht] at ha'
      have hsup : t.itv.sup = fin q := by rw [hq]; rfl
      split_ifs at ha' with h2
      · rw [hsup] at ha'
        have hx := hx0 t (by simp)
        obtain ⟨a, h3, w, h4, rfl⟩ := Itv.add_attained ha (Itv.mem_mulBound Rnd.exact (q := q) hx) ha'
        obtain ⟨y, hy, rfl⟩ := Itv.mulBound_attained hx h4
        exact ⟨a, h3, y, hy, rfl⟩
      · rw [not_not, hsup, sgn_zero_iff] at h2
        simp only [Bound.fin.injEq] at h2
        exact ⟨a', ha', x0 t.dim, hx0 t (by simp), by rw [h2]; ring⟩
    have fin : ∀ (x : ℕ → K) (a' r : K), a' ∈ evalStep Rnd.exact env t acc →
        (∀ t ∈ l, x t.dim ∈ env t.dim) → (∀ i, i ∉ l.map ITerm.dim → x i = x0 i) → TVal l x r →
        z = a' + r → ∃ x a r, a ∈ acc ∧ (∀ u ∈ t :: l, x u.dim ∈ env u.dim) ∧
        (∀ i, i ∉ (t :: l).map ITerm.dim → x i = x0 i) ∧ TVal (t :: l) x r ∧ z = a + r := by
      intro x a' r ha' hx ho hr hz
      obtain ⟨a, h3, y, hy, rfl⟩ := step a' ha'
      have hne : ∀ u ∈ l, u.dim ≠ t.dim := fun u hu e => hdist.1 (List.mem_map.2 ⟨u, hu, e⟩)
      refine ⟨Function.update x t.dim y, a, q * y + r, h3, ?_, ?_, ?_, by rw [hz]; ring⟩
      · intro u hu
        rcases List.mem_cons.1 hu with rfl | hu
        · simpa using hy
        · rw [Function.update_of_ne (hne u hu)]; exact hx u hu
      · intro i hi
        simp only [List.map_cons, List.mem_cons, not_or] at hi
        rw [Function.update_of_ne hi.1]; exact ho i hi.2
      · refine ⟨q, r, by rw [hq]; exact (Itv.mem_point q q).2 rfl, ?_, by simp⟩
        exact tval_congr (fun u hu => (Function.update_of_ne (hne u hu) _ _).symm) hr
    unfold evalTerms at hz
    split_ifs at hz with h1
    · -- everything is possible already
      have hv : ∃ r, TVal l x0 r := by
        clear ih step fin hdist hz
        induction l with
        | nil => exact ⟨0, rfl⟩
        | cons u l ih =>
          obtain ⟨r, hr⟩ := ih (fun v hv => hs v (by simp at hv ⊢; tauto))
            (fun v hv => hx0 v (by simp at hv ⊢; tauto))
          obtain ⟨_, p, hp⟩ := hs u (by simp)
          exact ⟨_, p, r, by rw [hp]; exact (Itv.mem_point p p).2 rfl, hr, rfl⟩
      obtain ⟨r, hr⟩ := hv
      exact fin x0 (z - r) r (Itv.mem_of_isTop h1 hmem _) (fun u hu => hx0 u (by simp [hu]))
        (fun _ _ => rfl) hr (by ring)
    · obtain ⟨x, a', r, h3, h4, h5, h6, h7⟩ := ih (fun u hu => hs u (by simp [hu])) hdist.2
        (fun u hu => hx0 u (by simp [hu])) hmem hz
      exact fin x a' r h3 h4 h5 h6 h7

/-- every member of the evaluation of an expression with scalar coefficients is a value at some point -/
theorem evalAp_attained {e : Linexpr K} {env : ℕ → Itv K} {dim : ℕ} (hdim : e.InDim dim)
    (hs : ∀ p ∈ e.terms, ∃ q, p.2 = .scalar (fin q)) {x0 : ℕ → K} (hx0 : ∀ i < dim, x0 i ∈ env i)
    (hc : ∃ q, e.cst.Has q) {z : K} (hz : z ∈ evalAp Rnd.exact e env) :
    ∃ x, (∀ i < dim, x i ∈ env i) ∧ e.Val x z := by
  obtain ⟨q0, hq0⟩ := hc
  have hmap : (e.terms.map (ITerm.ofCoeff Rnd.exact)).map ITerm.dim = e.terms.map Prod.fst := by
    rw [List.map_map]; rfl
  have hlt : ∀ t ∈ e.terms.map (ITerm.ofCoeff Rnd.exact), t.dim < dim := by
    intro t ht
    exact hdim.2 _ (hmap ▸ List.mem_map.2 ⟨t, ht, rfl⟩)
  obtain ⟨x, a, r, h1, h2, h3, h4, h5⟩ := evalTerms_attained (env := env)
    (l := e.terms.map (ITerm.ofCoeff Rnd.exact)) (x0 := x0) (acc := Itv.setApCoeff Rnd.exact e.cst)
    (by
      intro t ht
      obtain ⟨p, hp, rfl⟩ := List.mem_map.1 ht
      obtain ⟨q, hq⟩ := hs p hp
      simp [ITerm.ofCoeff, hq, Itv.setApEq, Itv.setApCoeffExact, Coeff.isScalar, Itv.setApCoeff,
        Itv.setApScalar, Itv.point])
    (by rw [hmap]; exact hdim.1.imp fun h => h.ne)
    (fun t ht => hx0 _ (hlt t ht)) (Itv.mem_setApCoeff _ hq0) hz
  refine ⟨x, fun i hi => ?_, a, r, Itv.has_of_mem_setApCoeff h1, termsVal_of_tval h4, h5⟩
  by_cases hm : i ∈ (e.terms.map (ITerm.ofCoeff Rnd.exact)).map ITerm.dim
  · obtain ⟨t, ht, rfl⟩ := List.mem_map.1 hm
    exact h2 t ht
  · rw [h3 i hm]; exact hx0 i hi

end ILinexpr
end Apron
