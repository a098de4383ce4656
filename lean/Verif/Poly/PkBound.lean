import Verif.Poly.PkRows
import Verif.Poly.PkMatrix
import Verif.Poly.PkLeq
import Verif.Poly.PkMeetCons

/-!
# Polyhedra: bounds computed from the generators
-/

set_option autoImplicit false
set_option linter.unusedSectionVars false
set_option linter.ambiguousOpen false

namespace Apron.Poly

open Apron Bound ILincons ILinexpr

variable {n : ℕ}

/-- a linear form is non-negative on a generated cone when it is on the generators -/
theorem genM_valid_iff {d : ℕ} {F : List Row} (l : (Fin d → ℚ) →ₗ[ℚ] ℚ) :
    (∀ y, GenM F y → 0 ≤ l y) ↔ ∀ q ∈ F, 0 ≤ l (toV ℚ d q) ∧ (q.at' 0 = 0 → l (toV ℚ d q) = 0) := by
  constructor
  · intro h q hq
    by_cases h0 : q.at' 0 = 0
    · have hm : q ∈ eqRows F := by rw [eqRows, List.mem_filter]; exact ⟨hq, by simpa using h0⟩
      have h1 := h _ (Gen.of_line hm)
      have h2 := h _ (Gen.of_neg_line hm)
      rw [map_neg] at h2
      exact ⟨h1, fun _ => by linarith⟩
    · have hm : q ∈ ineqRows F := by rw [ineqRows, List.mem_filter]; exact ⟨hq, by simpa using h0⟩
      exact ⟨h _ (Gen.of_ray hm), fun h => absurd h h0⟩
  · intro h y hy
    refine Gen.le (G := fun y => 0 ≤ l y) ⟨by simp, fun h1 h2 => by rw [map_add]; linarith, fun ht h => by
      rw [map_smul, smul_eq_mul]; exact mul_nonneg ht h⟩ (fun q hq => ?_) (fun q hq => ?_) hy
    · rw [eqRows, List.mem_filter] at hq
      have := (h q hq.1).2 (by simpa using hq.2)
      rw [map_neg, this]; simp
    · rw [ineqRows, List.mem_filter] at hq
      exact (h q hq.1).1

theorem toV_zero (q : Row) : toV ℚ (n + 1) q 0 = q.at' 1 := by simp [toV]

/-- the first coordinate of the lines is null, that of the other generators is not negative -/
theorem gen_first {F : List Row} (h : PosCone (K := ℚ) (n := n) (GenM F)) {q : Row} (hq : q ∈ F) :
    0 ≤ q.at' 1 ∧ (q.at' 0 = 0 → q.at' 1 = 0) := by
  have := (genM_valid_iff (d := n + 1) (F := F) (LinearMap.proj 0)).1 (fun y hy => h y hy) q hq
  simp only [LinearMap.proj_apply, toV_zero] at this
  exact_mod_cast this

/-- the numeric conditions on the generators behind a bound -/
def GBound (val : Row → ℚ) (b : ℚ) (q : Row) : Prop :=
  0 ≤ b * q.at' 1 - val q ∧ (q.at' 0 = 0 → b * q.at' 1 - val q = 0)

theorem boundGens_sup {val : Row → ℚ} {b : ℚ} : ∀ {F : List Row} {i : Itv ℚ},
    (∀ q ∈ F, 0 ≤ q.at' 1 ∧ (q.at' 0 = 0 → q.at' 1 = 0)) →
    ((boundGens val F i).sup ≤ fin b ↔ i.sup ≤ fin b ∧ ∀ q ∈ F, GBound val b q) := by
  intro F
  induction F with
  | nil => intro i _; simp [boundGens]
  | cons q F ih =>
    intro i hF
    have ih' := fun i => ih (i := i) (fun q hq => hF q (by simp [hq]))
    obtain ⟨h1, h2⟩ := hF q (by simp)
    rw [boundGens]
    by_cases h0 : q.at' 0 = 0
    · rw [if_pos h0]
      have e1 := h2 h0
      by_cases hv : val q ≠ 0
      · rw [if_pos hv]
        refine ⟨fun h => absurd h (by simp), fun h => ?_⟩
        have := (h.2 q (by simp)).2 h0
        rw [e1] at this
        exact absurd (by simpa using this) hv
      · rw [if_neg hv, ih']
        push Not at hv
        have : GBound val b q := ⟨by rw [e1, hv]; simp, fun _ => by rw [e1, hv]; simp⟩
        simp [this]
    · rw [if_neg h0]
      by_cases h3 : q.at' 1 = 0
      · rw [if_pos h3]
        have hg : GBound val b q ↔ val q ≤ 0 := by simp [GBound, h3, h0]
        by_cases hv : 0 < val q
        · rw [if_pos hv]
          have hn : ¬ GBound val b q := by rw [hg]; exact not_le.2 hv
          have hr : ¬ (i.sup ≤ fin b ∧ ∀ q_1 ∈ q :: F, GBound val b q_1) := fun h => hn (h.2 q (by simp))
          split_ifs with h4
          · exact ⟨fun h => absurd h (by simp), fun h => absurd h hr⟩
          · rw [ih']; exact ⟨fun h => absurd h.1 (by simp), fun h => absurd h hr⟩
        · rw [if_neg hv]
          have hg' : GBound val b q := hg.2 (not_lt.1 hv)
          by_cases hv' : val q < 0
          · rw [if_pos hv']
            split_ifs with h4
            · dsimp only; rw [h4]
              exact ⟨fun h => absurd h (by simp), fun h => absurd h.1 (by simp)⟩
            · rw [ih']; simp [hg']
          · rw [if_neg hv', ih']; simp [hg']
      · rw [if_neg h3]
        dsimp only
        have hq1 : (0 : ℚ) < q.at' 1 := by
          have : 0 < q.at' 1 := by omega
          exact_mod_cast this
        have hg : GBound val b q ↔ val q / q.at' 1 ≤ b := by
          simp only [GBound, h0, false_implies, and_true]
          rw [div_le_iff₀ hq1]; constructor <;> intro h <;> linarith
        rw [ih']
        dsimp only
        simp only [List.forall_mem_cons, hg]
        split_ifs with h4
        · rw [Bound.fin_le_fin]
          constructor
          · rintro ⟨h5, h6⟩; exact ⟨h4.le.trans ((Bound.fin_le_fin _ _).2 h5), h5, h6⟩
          · rintro ⟨_, h5, h6⟩; exact ⟨h5, h6⟩
        · push Not at h4
          constructor
          · rintro ⟨h5, h6⟩; exact ⟨h5, (Bound.fin_le_fin _ _).1 (h4.trans h5), h6⟩
          · rintro ⟨h5, _, h6⟩; exact ⟨h5, h6⟩

/-- the lower bound is the upper bound of the opposite -/
theorem boundGens_neg {val : Row → ℚ} : ∀ {F : List Row} {i : Itv ℚ},
    boundGens (fun q => - val q) F ⟨i.sup, i.inf⟩ = ⟨(boundGens val F i).sup, (boundGens val F i).inf⟩ := by
  intro F
  induction F with
  | nil => intro i; rfl
  | cons q F ih =>
    intro i
    rw [boundGens, boundGens]
    by_cases h0 : q.at' 0 = 0
    · rw [if_pos h0, if_pos h0]
      by_cases hv : val q ≠ 0
      · rw [if_pos hv, if_pos (neg_ne_zero.2 hv)]
      · rw [if_neg hv, if_neg (by simpa using hv), ih]
    · rw [if_neg h0, if_neg h0]
      by_cases h3 : q.at' 1 = 0
      · rw [if_pos h3, if_pos h3]
        rcases lt_trichotomy (val q) 0 with hv | hv | hv
        · rw [if_pos (show 0 < -val q by linarith), if_neg (show ¬ 0 < val q by linarith), if_pos hv]
          dsimp only
          by_cases h4 : i.sup = pinf
          · rw [if_pos h4, if_pos h4]
          · rw [if_neg h4, if_neg h4]; exact ih (i := ⟨pinf, i.sup⟩)
        · rw [if_neg (by rw [hv]; simp), if_neg (by rw [hv]; simp), if_neg (by rw [hv]; simp), if_neg (by rw [hv]; simp), ih]
        · rw [if_neg (show ¬ 0 < -val q by linarith), if_pos (show -val q < 0 by linarith), if_pos hv]
          dsimp only
          by_cases h4 : i.inf = pinf
          · rw [if_pos h4, if_pos h4]
          · rw [if_neg h4, if_neg h4]; exact ih (i := ⟨i.inf, pinf⟩)
      · rw [if_neg h3, if_neg h3]
        dsimp only
        rw [neg_div, _root_.neg_neg]
        exact ih (i := ⟨if i.inf < fin (-(val q / q.at' 1)) then _ else _, if i.sup < fin (val q / q.at' 1) then _ else _⟩)

/-- the bounds of a linear form on the cone -/
theorem boundGens_cone {F : List Row} (hF : PosCone (K := ℚ) (n := n) (GenM F)) (l : (Fin (n + 1) → ℚ) →ₗ[ℚ] ℚ) (b : ℚ) :
    ((boundGens (fun q => l (toV ℚ (n + 1) q)) F ⟨ninf, ninf⟩).sup ≤ fin b ↔ ∀ y : Fin (n + 1) → ℚ, GenM F y → l y ≤ b * y 0) ∧
    ((boundGens (fun q => l (toV ℚ (n + 1) q)) F ⟨ninf, ninf⟩).inf ≤ fin b ↔ ∀ y : Fin (n + 1) → ℚ, GenM F y → - l y ≤ b * y 0) := by
  have hfirst := fun q hq => gen_first hF (q := q) hq
  have key : ∀ l : (Fin (n + 1) → ℚ) →ₗ[ℚ] ℚ, (boundGens (fun q => l (toV ℚ (n + 1) q)) F ⟨ninf, ninf⟩).sup ≤ fin b ↔
      ∀ y : Fin (n + 1) → ℚ, GenM F y → l y ≤ b * y 0 := by
    intro l
    rw [boundGens_sup hfirst]
    have e : (∀ y : Fin (n + 1) → ℚ, GenM F y → l y ≤ b * y 0) ↔
        ∀ y : Fin (n + 1) → ℚ, GenM F y → 0 ≤ (b • (LinearMap.proj 0 : (Fin (n + 1) → ℚ) →ₗ[ℚ] ℚ) - l) y := by
      refine forall_congr' fun y => forall_congr' fun _ => ?_
      simp
    rw [e, genM_valid_iff]
    simp [GBound, toV_zero]
  refine ⟨key l, ?_⟩
  have := key (-l)
  have e : (fun q => (-l) (toV ℚ (n + 1) q)) = fun q => - l (toV ℚ (n + 1) q) := by funext q; simp
  rw [e] at this
  rw [show (⟨ninf, ninf⟩ : Itv ℚ) = ⟨(⟨ninf, ninf⟩ : Itv ℚ).sup, (⟨ninf, ninf⟩ : Itv ℚ).inf⟩ from rfl, boundGens_neg] at this
  simpa using this

/-- the bounds of a linear form on the polyhedron are the best ones -/
theorem boundGens_best {r : Rep} (h : r.Wf ℚ n) {F : List Row} (hF : r.F? = some F) (l : (Fin (n + 1) → ℚ) →ₗ[ℚ] ℚ) (b : ℚ) :
    ((boundGens (fun q => l (toV ℚ (n + 1) q)) F ⟨ninf, ninf⟩).sup ≤ fin b ↔ ∀ x : Fin n → ℚ, r.γ x → l (hom x) ≤ b) ∧
    ((boundGens (fun q => l (toV ℚ (n + 1) q)) F ⟨ninf, ninf⟩).inf ≤ fin b ↔ ∀ x : Fin n → ℚ, r.γ x → - l (hom x) ≤ b) := by
  have hp : PosCone (K := ℚ) (n := n) (GenM F) := fun y hy => h.pos y ((h.genM hF y).2 hy)
  have hc : IsCone (K := ℚ) (r.cone (n := n)) := Rep.cone_isCone (Rep.ne_bot_of_F hF)
  have hne := h.exists_point hF
  have key : ∀ l : (Fin (n + 1) → ℚ) →ₗ[ℚ] ℚ, (∀ y : Fin (n + 1) → ℚ, GenM F y → l y ≤ b * y 0) ↔ ∀ x : Fin n → ℚ, r.γ x → l (hom x) ≤ b := by
    intro l
    constructor
    · intro hy x hx
      have := hy _ ((h.genM hF _).1 hx)
      rwa [hom_zero, mul_one] at this
    · intro hx y hy
      have := hc.valid h.pos hne (l := b • (LinearMap.proj 0 : (Fin (n + 1) → ℚ) →ₗ[ℚ] ℚ) - l) (fun x h' => by
        have := hx x h'
        simp [hom_zero, this]) ((h.genM hF y).2 hy)
      simpa using this
  obtain ⟨h1, h2⟩ := boundGens_cone hp l b
  exact ⟨h1.trans (key l), h2.trans (key (-l))⟩

/-! ## Bounds of a dimension -/

theorem prepF_wf {r : Rep} (h : r.Wf ℚ n) (alg : ℤ) : (r.prepF n alg).Wf ℚ n := by
  rw [Rep.prepF]; split_ifs; exacts [chernikova_wf h, obtainF_wf h]

theorem prepF_γ {r : Rep} (h : r.Wf ℚ n) (alg : ℤ) (x : Fin n → ℚ) : (r.prepF n alg).γ x ↔ r.γ x := by
  rw [Rep.prepF]; split_ifs; exacts [chernikova_γ h x, obtainF_γ h x]

theorem prepF_none {r : Rep} {alg : ℤ} (h : (r.prepF n alg).F? = none) : r.prepF n alg = .bot := by
  rw [Rep.prepF] at h ⊢; split_ifs at h ⊢; exacts [chernikova_F_none h, obtainF_none h]

theorem prepF_empty {r : Rep} (h : r.Wf ℚ n) {alg : ℤ} : (r.prepF n alg).F? = none ↔ ∀ x : Fin n → ℚ, ¬ r.γ x := by
  constructor
  · intro hn x hx
    have := (prepF_γ h alg x).2 hx
    rw [prepF_none hn] at this
    exact this
  · intro hx
    cases hF : (r.prepF n alg).F? with
    | none => rfl
    | some F =>
      obtain ⟨x, h'⟩ := (prepF_wf h alg).exists_point hF
      exact absurd ((prepF_γ h alg x).1 h') (hx x)

theorem matBoundDim_best {r : Rep} (h : r.Wf ℚ n) {F : List Row} (hF : r.F? = some F) (d : Fin n) (b : ℚ) :
    ((matBoundDim F d).sup ≤ fin b ↔ ∀ x : Fin n → ℚ, r.γ x → x d ≤ b) ∧
    ((matBoundDim F d).inf ≤ fin b ↔ ∀ x : Fin n → ℚ, r.γ x → - x d ≤ b) := by
  have := boundGens_best h hF (LinearMap.proj d.succ) b
  have e : (fun q => (LinearMap.proj d.succ : (Fin (n + 1) → ℚ) →ₗ[ℚ] ℚ) (toV ℚ (n + 1) q)) = fun q => (q.at' (d + 2) : ℚ) := by
    funext q; simp [toV]
  rw [e] at this
  rw [matBoundDim]
  simpa [hom] using this

theorem mem_of_best {i : Itv ℚ} {v : ℚ} (h : ∀ b, (i.sup ≤ fin b → v ≤ b) ∧ (i.inf ≤ fin b → - v ≤ b)) : v ∈ i := by
  rw [Itv.mem_def]
  constructor
  · cases hi : i.inf with
    | ninf => have := (h (-v - 1)).2 (by rw [hi]; simp); linarith
    | fin b => exact (Bound.fin_le_fin _ _).2 ((h b).2 (by rw [hi]))
    | pinf => simp
  · cases hi : i.sup with
    | ninf => have := (h (v - 1)).1 (by rw [hi]; simp); linarith
    | fin b => exact (Bound.fin_le_fin _ _).2 ((h b).1 (by rw [hi]))
    | pinf => simp

theorem matBoundDim_sound {r : Rep} (h : r.Wf ℚ n) {F : List Row} (hF : r.F? = some F) {x : Fin n → ℚ} (hx : r.γ x) (d : Fin n) :
    x d ∈ matBoundDim F d :=
  mem_of_best fun b => ⟨fun hb => ((matBoundDim_best h hF d b).1.1 hb) x hx, fun hb => ((matBoundDim_best h hF d b).2.1 hb) x hx⟩

end Apron.Poly
