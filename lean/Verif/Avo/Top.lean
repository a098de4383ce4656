import Verif.Avo.OrthantLemmas

/-! # Helper lemmas: the matrix of the universe -/

set_option autoImplicit false
set_option linter.unusedSectionVars false
set_option linter.ambiguousOpen false

namespace Apron
namespace Avo
open Bound Oct
variable {K : Type*} [LinearOrder K] [Field K] [IsStrictOrderedRing K]

theorem allocTop_cell (dim q : ℕ) : (Avo.allocTop dim q : SB K) = (fin 0, pinf) ∧ (∃ k, q = matpos k k) ∨
    (Avo.allocTop dim q : SB K) = (pinf, pinf) := by
  unfold Avo.allocTop
  refine foldl_inv (fun (M : SMem K) => M q = (fin 0, pinf) ∧ (∃ k, q = matpos k k) ∨
    M q = (pinf, pinf)) _ _ ?_ _ (Or.inr rfl)
  intro M k _ hM
  unfold SMem.set
  split_ifs with h
  · exact Or.inl ⟨rfl, k, h⟩
  · exact hM

theorem allocTop_nsc (dim q : ℕ) : (Avo.allocTop dim q : SB K).2 = pinf := by
  rcases allocTop_cell (K := K) dim q with ⟨e, _⟩ | e <;> rw [e]

theorem allocTop_diag (dim i : ℕ) (hi : i < 4 * dim) :
    (Avo.allocTop dim (matpos i i) : SB K) = (fin 0, pinf) := by
  unfold Avo.allocTop
  refine (foldl_establish (fun (_ : SMem K) => True)
    (fun i (M : SMem K) => M (matpos i i) = (fin 0, pinf)) _ _ (fun _ _ _ _ => trivial)
    ?_ ?_ _ trivial).2 i (by simpa using hi)
  · intro M k _ _
    simp [SMem.set]
  · intro M k i _ _ hM
    unfold SMem.set
    split_ifs
    · rfl
    · exact hM

theorem allocTop_Diag (dim : ℕ) : Diag (2 * dim) (Avo.allocTop dim : SMem K) := fun i hi => by
  rw [allocTop_diag dim i (by omega)]

theorem allocTop_sat (dim : ℕ) (y : ℕ → K) (N : ℕ) : GSat N (Avo.allocTop dim) y := by
  intro i j hi hc
  rcases allocTop_cell (K := K) dim (matpos i j) with ⟨e, k, hk⟩ | e
  · obtain ⟨rfl, rfl⟩ := matpos_inj hc (cell_refl k) hk
    rw [e]
    exact ⟨by simp, fun h => absurd rfl h⟩
  · rw [e]
    exact ⟨by simp, fun h => absurd rfl h⟩

theorem allocTop1 (q : ℕ) : (Avo.allocTop 1 q : SB K) =
    if q = 0 ∨ q = 3 ∨ q = 6 ∨ q = 11 then (fin 0, pinf) else (pinf, pinf) := by
  have e0 : List.range (4 * 1) = [0, 1, 2, 3] := rfl
  have e1 : matpos 0 0 = 0 := rfl
  have e2 : matpos 1 1 = 3 := rfl
  have e3 : matpos 2 2 = 6 := rfl
  have e4 : matpos 3 3 = 11 := rfl
  unfold Avo.allocTop
  rw [e0]
  simp only [List.foldl, SMem.set, e1, e2, e3, e4]
  split_ifs <;> first | rfl | (exfalso; omega)

end Avo
end Apron
