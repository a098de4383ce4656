import Verif.Poly.PkTexpr
import Verif.Poly.PkUserOps
import Verif.Texpr.LinearizeDims
import Verif.Itv.QuasiSound

/-!
# Polyhedra: lemmas on the operations with tree expressions
-/

set_option autoImplicit false
set_option linter.unusedSectionVars false
set_option linter.ambiguousOpen false

namespace Apron.Poly

open Apron Bound ILincons ILinexpr Texpr

variable {n : ℕ}

/-- the constraint `false` is not satisfied by a polyhedron with a point -/
theorem satVec_false {intdim : ℕ} {r : Rep} (hw : r.Wf ℚ n) {F : List Row} (hF : r.F? = some F) {st : Bool} {x : Fin n → ℚ} (hx : r.γ x) :
    satVec n intdim F st (setBool false : ILincons ℚ) = false := by
  by_contra hs
  have hs := Bool.not_eq_false _ ▸ hs
  have hb : ConsOk n (setBool false : ILincons ℚ) := ⟨by intro t ht; simp [setBool] at ht, by
    intro _ q hq; simp only [setBool] at hq ⊢; rw [Itv.mem_point] at hq; rw [hq], by simp [setBool], by simp [dims, setBool]⟩
  rw [satVec] at hs
  cases hv : setLinconsSat n intdim (setBool false : ILincons ℚ) with
  | none => rw [hv] at hs; cases hs
  | some v =>
    rw [hv] at hs
    have := setLinconsSat_sound hw hF (.inl rfl) hb (by simp [setBool]) hv (fun e => by simp [setBool] at e) hs hx
    have h0 := this 1 ⟨1, 0, by simp [setBool, Itv.mem_point], by simp [setBool, TVal], by norm_num⟩
    exact absurd (show (1 : ℚ) = 0 from h0) one_ne_zero

theorem satQuasi_sound {intdim : ℕ} {r : Rep} (hw : r.Wf ℚ n) {F : List Row} (hF : r.F? = some F) {k : ILincons ℚ}
    (hty : k.typ = .eq ∨ k.typ = .supeq ∨ k.typ = .sup) (hfl : k.expr.FlagsOk) (hcst : k.expr.isQuasilinear = true → k.expr.CstOk)
    (hlt : ∀ t ∈ k.expr.terms, t.dim < n) (hnod : k.dims.Nodup) (hq : k.typ = .eq → k.expr.isQuasilinear = true) {st : Bool}
    (hst : k.typ = .sup → st = true) (hs : satVec n intdim F st (quasiCons Rnd.exact k (matBoundDim F) false) = true)
    {x : Fin n → ℚ} (hx : r.γ x) : k.HoldsAll (ext x) := by
  have direct : ∀ k : ILincons ℚ, (k.typ = .eq ∨ k.typ = .supeq ∨ k.typ = .sup) → ConsOk n k → (∀ t ∈ k.expr.terms, t.eq = true) →
      (k.typ = .sup → st = true) → satVec n intdim F st k = true → k.HoldsAll (ext x) := by
    intro k ht hk hkq hst hk2
    rw [satVec] at hk2
    cases hv : setLinconsSat n intdim k with
    | none => rw [hv] at hk2; cases hk2
    | some v =>
      rw [hv] at hk2
      exact setLinconsSat_sound hw hF ht hk hkq hv hst hk2 hx
  by_cases hemp : k.expr.terms.isEmpty = true
  · have hemp' : k.expr.terms = [] := List.isEmpty_iff.1 hemp
    have hc := hcst (by simp [ILinexpr.isQuasilinear, hemp'])
    rw [quasiCons, if_pos hemp] at hs
    split_ifs at hs with h1 h2
    · intro v hv
      exact evalCst'_t hc h1 ((val_nil hemp).1 hv)
    · rw [satVec_false hw hF hx] at hs; cases hs
    · exact direct k hty ⟨hfl, hc, hlt, hnod⟩ (by rw [hemp']; simp) hst hs
  · have hkq : quasiCons Rnd.exact k (matBoundDim F) false = ⟨k.typ, quasi Rnd.exact k.expr (matBoundDim F) false⟩ := by
      rw [quasiCons, if_neg hemp]; simp
    have hnod' := quasiCons_dims Rnd.exact hnod (matBoundDim F) false
    have hfl' := quasiCons_flags Rnd.exact hfl (matBoundDim F) false
    have hqq := quasiCons_quasi Rnd.exact k (matBoundDim F) false
    have hlt' : ∀ t ∈ (quasiCons Rnd.exact k (matBoundDim F) false).expr.terms, t.dim < n :=
      dims_quasiCons Rnd.exact (D := fun d => d < n) hlt (matBoundDim F) false
    have hx'' : ∀ t ∈ k.expr.terms, ext x t.dim ∈ matBoundDim F t.dim := by
      intro t ht
      have := matBoundDim_sound hw hF hx ⟨t.dim, hlt t ht⟩
      rwa [← ext_lt x ⟨t.dim, hlt t ht⟩] at this
    intro v hv
    have hgen : (quasiCons Rnd.exact k (matBoundDim F) false).HoldsAll (ext x) := by
      by_cases hne : k.typ = .eq
      · have hall : ∀ t ∈ k.expr.terms, t.eq = true := by
          simpa [ILinexpr.isQuasilinear] using hq hne
        obtain ⟨a, s, ha, htv, _⟩ := hv
        refine direct _ (by rw [hkq]; exact hty) ⟨hfl', ?_, hlt', hnod'⟩ hqq (by rw [hkq]; exact hst) hs
        rw [hkq]
        intro heq q hqm
        obtain ⟨p, hp⟩ := quasiGo_cstOk (env := matBoundDim F) (ineq := false) (n := k.expr.terms.length + 1) (out := [])
          (c := (k.expr.cst, k.expr.eq)) (l := k.expr.terms) (fun t ht => by
            obtain ⟨q, hq⟩ := tval_ne htv t ht
            exact ⟨hall t ht, q, hfl t ht (hall t ht) q hq⟩)
          (fun he => ⟨a, hcst (hq hne) he a ha⟩) heq
        simp only [quasi] at hqm ⊢
        rw [hp, Itv.mem_point] at hqm
        rw [hp, hqm]
      · -- the flag of the constant does not matter
        generalize hk' : quasiCons Rnd.exact k (matBoundDim F) false = k' at *
        have hk't : k'.typ = k.typ := by rw [hkq]
        have e : satVec n intdim F st ⟨k'.typ, ⟨k'.expr.cst, false, k'.expr.terms⟩⟩ = satVec n intdim F st k' := by
          have h1 : ¬ (k'.typ = .eq ∧ false = false) := fun h => hne (hk't ▸ h.1)
          have h2 : ¬ (k'.typ = .eq ∧ k'.expr.eq = false) := fun h => hne (hk't ▸ h.1)
          rw [satVec, satVec, setLinconsSat, setLinconsSat]
          dsimp only
          rw [if_neg h1, if_neg h2]
        exact direct ⟨k'.typ, ⟨k'.expr.cst, false, k'.expr.terms⟩⟩ (hk't ▸ hty) ⟨hfl', by intro h; simp at h, hlt', hnod'⟩ hqq
          (hk't ▸ hst) (by rw [e]; exact hs)
    rw [hkq] at hgen
    exact hgen v (quasi_sound Rnd.exact hx'' hv)

/-- a constraint converted for the user and back has right flags and distinct dimensions -/
theorem consOk_ofItv {c : ILincons ℚ} (hn : n ≤ dimMax) (h : DimsOk n c) : ConsOk n (ILincons.ofAp Rnd.exact (Lincons.ofItv c)) := by
  have ht : (Lincons.ofItv c).expr.terms = c.expr.terms.map fun t => (t.dim, Coeff.ofItv t.itv) :=
    Linexpr.terms_ofItv fun t ht => by have := h.1 t ht; omega
  refine ⟨flagsOk_ofAp _ _, cstOk_ofAp _ _, ?_, ?_⟩
  · intro t htm
    simp only [ILincons.ofAp, ILinexpr.ofAp, List.mem_filter, List.mem_map] at htm
    obtain ⟨⟨p, hp, rfl⟩, _⟩ := htm
    rw [ht] at hp
    obtain ⟨u, hu, rfl⟩ := List.mem_map.1 hp
    exact h.1 u hu
  · have e1 : ((Lincons.ofItv c).expr.terms.map (ITerm.ofCoeff Rnd.exact)).map ITerm.dim = c.dims := by
      rw [ht, List.map_map, List.map_map]; rfl
    refine List.Nodup.sublist (List.Sublist.map _ List.filter_sublist) ?_
    rw [e1]; exact h.2

end Apron.Poly
