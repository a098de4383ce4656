import Verif.Poly.PkAssign
import Verif.Poly.PkIso
import Verif.Poly.PkResizeLemmas

/-!
# Rows under assignment and substitution
-/

set_option autoImplicit false
set_option linter.unusedSectionVars false
set_option linter.ambiguousOpen false

namespace Apron.Poly

variable {K : Type*} [LinearOrder K] [Field K] [IsStrictOrderedRing K] {n : ℕ}

/-- the expression assigned to coordinate `i` (coordinate 0 is the homogenising one) -/
def affFind (l : List (ℕ × Row)) (i : ℕ) : Option Row := (l.find? fun p => p.1 + 1 == i).map Prod.snd

/-- the assignment as a linear map on the homogenised space -/
noncomputable def affL (K : Type*) [LinearOrder K] [Field K] [IsStrictOrderedRing K] (n : ℕ) (l : List (ℕ × Row)) :
    (Fin (n + 1) → K) →ₗ[K] (Fin (n + 1) → K) :=
  LinearMap.pi fun i => match affFind l i with
    | some t => ((t.at' 0 : ℤ) : K)⁻¹ • lin K (n + 1) t
    | none => LinearMap.proj i

theorem affL_some {l : List (ℕ × Row)} {i : Fin (n + 1)} {t : Row} (h : affFind l i = some t) (y : Fin (n + 1) → K) :
    affL K n l y i = ((t.at' 0 : ℤ) : K)⁻¹ * dot t y := by
  rw [affL, LinearMap.pi_apply, h]; rfl

theorem affL_none {l : List (ℕ × Row)} {i : Fin (n + 1)} (h : affFind l i = none) (y : Fin (n + 1) → K) :
    affL K n l y i = y i := by
  rw [affL, LinearMap.pi_apply, h]; rfl

theorem affFind_zero (l : List (ℕ × Row)) : affFind l 0 = none := by
  rw [affFind, Option.map_eq_none_iff, List.find?_eq_none]
  intro p _; simp

theorem affL_zero (l : List (ℕ × Row)) (y : Fin (n + 1) → K) : affL K n l y 0 = y 0 := affL_none (affFind_zero l) y

theorem affFind_single (dim : ℕ) (tab : Row) (i : ℕ) : affFind [(dim, tab)] i = if i = dim + 1 then some tab else none := by
  rw [affFind, List.find?_cons]
  by_cases h : i = dim + 1
  · simp [h]
  · rw [if_neg h]
    have : (dim + 1 == i) = false := by simpa using fun e => h e.symm
    rw [this]; rfl

theorem affL_single (dim : Fin n) (tab : Row) (y : Fin (n + 1) → K) :
    affL K n [((dim : ℕ), tab)] y = Function.update y dim.succ (((tab.at' 0 : ℤ) : K)⁻¹ * dot tab y) := by
  funext i
  by_cases h : i = dim.succ
  · subst h
    rw [Function.update_self, affL_some]
    rw [affFind_single, if_pos (by simp)]
  · rw [Function.update_of_ne h, affL_none]
    rw [affFind_single, if_neg]
    intro e; exact h (Fin.ext (by simpa using e))

theorem dot_update (q : Row) (y : Fin (n + 1) → K) (i : Fin (n + 1)) (w : K) :
    dot q (Function.update y i w) = dot q y + ((q.at' (i + 1) : ℤ) : K) * (w - y i) := by
  have : Function.update y i w = y + (w - y i) • Pi.single i 1 := by
    funext j
    by_cases h : j = i
    · subst h; simp
    · simp [Function.update_of_ne h, Pi.single_apply, h]
  have hs : linV (toV K (n + 1) q) (Pi.single i 1) = toV K (n + 1) q i := by
    rw [linV_apply, Finset.sum_eq_single i]
    · simp
    · intro b _ hb; rw [Pi.single_eq_of_ne hb, mul_zero]
    · intro hj; exact absurd (Finset.mem_univ i) hj
  rw [this, dot_linV, dot_linV, map_add, map_smul, smul_eq_mul, hs, toV]
  ring

/-- normalisation of a row given by its columns -/
theorem normalize_ofFun (f : ℕ → ℤ) :
    (normalize (Row.ofFun (n + 2) f) (n + 2)).at' 0 = f 0 ∧ ∃ g : K, 0 < g ∧
      ∀ i : Fin (n + 1), ((f (i + 1) : ℤ) : K) = g * toV K (n + 1) (normalize (Row.ofFun (n + 2) f) (n + 2)) i := by
  obtain ⟨h0, g, hg, h⟩ := normalize_spec (Row.ofFun (n + 2) f) (n + 2) (fun j hj => by rw [at_ofFun, if_neg (by omega)])
  refine ⟨by rw [h0, at_ofFun, if_pos (by omega)], (g : K), by exact_mod_cast hg, fun i => ?_⟩
  have := h i
  rw [at_ofFun, if_pos (by omega)] at this
  rw [← this, toV]; push_cast; rfl

theorem den_pos_of {tab : Row} (h : 0 < tab.at' 0) (v : ℤ) : (if 1 < tab.at' 0 then v * tab.at' 0 else v) = v * tab.at' 0 := by
  split_ifs
  · rfl
  · rw [show tab.at' 0 = 1 by omega, mul_one]

/-- the generators are mapped by the assignment -/
theorem asgRow_img (destr : Bool) (dim : Fin n) {tab : Row} (h0 : 0 < tab.at' 0) :
    ImgBy (affL K n [((dim : ℕ), tab)]) (asgRow destr n dim tab) := by
  intro q
  rw [asgRow]
  obtain ⟨e0, g, hg, h⟩ := normalize_ofFun (K := K) (n := n) fun j =>
    if j = dim + 2 then vprod (n + 1) q tab else if j = 0 ∧ destr = false then q.at' 0
    else if 1 < tab.at' 0 then q.at' j * tab.at' 0 else q.at' j
  set N := normalize _ (n + 2) with hN
  have h0' : (0 : K) < tab.at' 0 := by exact_mod_cast h0
  have est : N.at' 0 = q.at' 0 ∨ N.at' 0 = q.at' 0 * tab.at' 0 := by
    rw [e0, if_neg (by omega), den_pos_of h0]
    split_ifs
    · exact .inl rfl
    · exact .inr rfl
  refine ⟨?_, ?_, tab.at' 0 / g, div_pos h0' hg, ?_⟩
  · rcases est with e | e <;> rw [e]
    exact mul_pos_iff_of_pos_right h0
  · rcases est with e | e <;> rw [e]
    rw [mul_eq_zero]; exact ⟨fun h => h.resolve_right h0.ne', Or.inl⟩
  · rw [affL_single]
    funext i
    have hi := h i
    rw [Pi.smul_apply, smul_eq_mul, div_mul_eq_mul_div, eq_div_iff hg.ne', mul_comm _ g, ← hi]
    by_cases hd : i = dim.succ
    · subst hd
      rw [Function.update_self, if_pos (by simp), mul_inv_cancel_left₀ h0'.ne', dot_toV, vprod_comm]
    · have hd' : ¬ ((i : ℕ) + 1 = dim + 2) := fun e => hd (Fin.ext (by simp; omega))
      rw [Function.update_of_ne hd, if_neg hd', if_neg (by omega), den_pos_of h0, toV]
      push_cast; ring

/-- the constraints are composed with the assignment -/
theorem subRow_pre (dim : Fin n) {tab : Row} (h0 : 0 < tab.at' 0) :
    PreBy (affL K n [((dim : ℕ), tab)]) (subRow n dim tab) := by
  intro q
  have h0' : (0 : K) < tab.at' 0 := by exact_mod_cast h0
  have key : ∀ y : Fin (n + 1) → K, dot q (affL K n [((dim : ℕ), tab)] y) =
      dot q y + (q.at' (dim + 2) : ℤ) * (((tab.at' 0 : ℤ) : K)⁻¹ * dot tab y - y dim.succ) := fun y => by
    rw [affL_single, dot_update]; rfl
  rw [subRow]
  by_cases hq : q.at' (dim + 2) = 0
  · rw [if_neg (by simpa using hq)]
    refine ⟨Iff.rfl, Iff.rfl, 1, one_pos, fun y => ?_⟩
    rw [key, hq]; simp
  · rw [if_pos hq]
    obtain ⟨e0, g, hg, h⟩ := normalize_ofFun (K := K) (n := n) fun j =>
      if j = 0 then q.at' 0 else if j = dim + 2 then q.at' (dim + 2) * tab.at' (dim + 2)
      else (if 1 < tab.at' 0 then q.at' j * tab.at' 0 else q.at' j) + q.at' (dim + 2) * tab.at' j
    set N := normalize _ (n + 2) with hN
    rw [if_pos rfl] at e0
    refine ⟨by rw [e0], by rw [e0], tab.at' 0 / g, div_pos h0' hg, fun y => ?_⟩
    have e1 : g * dot N y = tab.at' 0 * dot q y + q.at' (dim + 2) * dot tab y - tab.at' 0 * q.at' (dim + 2) * y dim.succ := by
      have e2 : tab.at' 0 * q.at' (dim + 2) * y dim.succ =
          ∑ i : Fin (n + 1), if i = dim.succ then ((tab.at' 0 : ℤ) : K) * q.at' (i + 1) * y i else 0 := by
        rw [Finset.sum_ite_eq' Finset.univ dim.succ, if_pos (Finset.mem_univ _)]; simp
      rw [e2, dot, dot, dot, Finset.mul_sum, Finset.mul_sum, Finset.mul_sum, ← Finset.sum_add_distrib, ← Finset.sum_sub_distrib]
      refine Finset.sum_congr rfl fun i _ => ?_
      have hi := h i
      rw [toV, if_neg (by omega)] at hi
      rw [← mul_assoc g, ← hi]
      by_cases hd : i = dim.succ
      · subst hd
        rw [if_pos (by simp), if_pos rfl]; push_cast [Fin.val_succ]; ring
      · have hd' : ¬ ((i : ℕ) + 1 = dim + 2) := fun e => hd (Fin.ext (by simp; omega))
        rw [if_neg hd', if_neg hd, den_pos_of h0]; push_cast; ring
    rw [key, div_mul_eq_mul_div, eq_div_iff hg.ne', mul_comm _ g, e1]
    field_simp
    ring

/-! ## Inverse expression -/

theorem normalizeExpr_spec (q : Row) (size : ℕ) : ∃ g : ℤ, 0 < g ∧ ∀ j, j < size → g * (normalizeExpr q size).at' j = q.at' j := by
  rw [normalizeExpr]
  split_ifs with h
  · refine ⟨((vectorGcd ((List.range size).map q.at') : ℕ) : ℤ), (by exact_mod_cast (zero_lt_one.trans h)), fun j hj => ?_⟩
    rw [at_ofFun, if_pos hj]
    exact Int.mul_ediv_cancel' (dvd_vectorGcd _ _ (List.mem_map.2 ⟨j, List.mem_range.2 hj, rfl⟩))
  · exact ⟨1, one_pos, fun j _ => one_mul _⟩

theorem invExpr_spec (dim : Fin n) {tab : Row} (h0 : 0 < tab.at' 0) (hv : tab.at' (dim + 2) ≠ 0) :
    0 < (invExpr n dim tab).at' 0 ∧ ∀ y : Fin (n + 1) → K,
      (((invExpr n dim tab).at' 0 : ℤ) : K)⁻¹ * dot (invExpr n dim tab) y =
        ((tab.at' (dim + 2) : ℤ) : K)⁻¹ * (tab.at' 0 * y dim.succ - (dot tab y - tab.at' (dim + 2) * y dim.succ)) := by
  rw [invExpr]
  obtain ⟨g, hg, h⟩ := normalizeExpr_spec (Row.ofFun (n + 2) fun j =>
    if 0 < tab.at' (dim + 2) then
      if j = 0 then tab.at' (dim + 2) else if j = dim + 2 then tab.at' 0 else -tab.at' j
    else
      if j = 0 then -tab.at' (dim + 2) else if j = dim + 2 then -tab.at' 0 else tab.at' j) (n + 2)
  set N := normalizeExpr _ (n + 2) with hN
  have hg' : (0 : K) < g := by exact_mod_cast hg
  set s : ℤ := if 0 < tab.at' (dim + 2) then 1 else -1 with hs
  have hs1 : s = 1 ∨ s = -1 := by rw [hs]; split_ifs <;> simp
  have hss : 0 < s * tab.at' (dim + 2) := by
    rw [hs]; split_ifs with h1
    · rwa [one_mul]
    · rw [neg_one_mul, neg_pos]; omega
  have h' : ∀ j, j < n + 2 → g * N.at' j = s * (if j = 0 then tab.at' (dim + 2) else if j = dim + 2 then tab.at' 0 else -tab.at' j) := by
    intro j hj
    rw [h j hj, at_ofFun, if_pos hj, hs]
    split_ifs <;> simp
  have hN0 : g * N.at' 0 = s * tab.at' (dim + 2) := by rw [h' 0 (by omega), if_pos rfl]
  have hpos : 0 < N.at' 0 := by
    exact (mul_pos_iff_of_pos_left hg).1 (by rw [hN0]; exact hss)
  refine ⟨hpos, fun y => ?_⟩
  have e1 : g * dot N y = s * (tab.at' 0 * y dim.succ - (dot tab y - tab.at' (dim + 2) * y dim.succ)) := by
    have e2 : ((tab.at' 0 : ℤ) : K) * y dim.succ + tab.at' (dim + 2) * y dim.succ =
        ∑ i : Fin (n + 1), if i = dim.succ then (((tab.at' 0 : ℤ) : K) + tab.at' (i + 1)) * y i else 0 := by
      rw [Finset.sum_ite_eq' Finset.univ dim.succ, if_pos (Finset.mem_univ _)]; simp [add_mul]
    have e3 : (tab.at' 0 * y dim.succ - (dot tab y - tab.at' (dim + 2) * y dim.succ) : K) =
        (tab.at' 0 * y dim.succ + tab.at' (dim + 2) * y dim.succ) - dot tab y := by ring
    rw [e3, e2, dot, dot, Finset.mul_sum, ← Finset.sum_sub_distrib, Finset.mul_sum]
    refine Finset.sum_congr rfl fun i _ => ?_
    have hi := h' (i + 1) (by omega)
    rw [if_neg (by omega)] at hi
    have hi' : (g : K) * (N.at' (i + 1) : ℤ) = (s : K) * ((if (i : ℕ) + 1 = dim + 2 then tab.at' 0 else -tab.at' (i + 1) : ℤ) : K) := by
      exact_mod_cast hi
    rw [← mul_assoc, hi']
    by_cases hd : i = dim.succ
    · subst hd
      rw [if_pos (by simp), if_pos rfl]; ring
    · have hd' : ¬ ((i : ℕ) + 1 = dim + 2) := fun e => hd (Fin.ext (by simp; omega))
      rw [if_neg hd', if_neg hd]; push_cast; ring
  have hN0' : (g : K) * (N.at' 0 : ℤ) = s * (tab.at' (dim + 2) : ℤ) := by exact_mod_cast hN0
  have hv' : ((tab.at' (dim + 2) : ℤ) : K) ≠ 0 := by exact_mod_cast hv
  have hpos' : ((N.at' 0 : ℤ) : K) ≠ 0 := by exact_mod_cast hpos.ne'
  rw [inv_mul_eq_div, inv_mul_eq_div, div_eq_div_iff hpos' hv']
  have hsne : (s : K) ≠ 0 := by rcases hs1 with e | e <;> rw [e] <;> simp
  have hgs : (g : K) * s ≠ 0 := mul_ne_zero hg'.ne' hsne
  refine mul_left_cancel₀ hgs ?_
  linear_combination (s : K) * (tab.at' (dim + 2) : ℤ) * e1 - (s : K) * (tab.at' 0 * y dim.succ - (dot tab y - tab.at' (dim + 2) * y dim.succ)) * hN0'

theorem aff_inv (dim : Fin n) {tab : Row} (h0 : 0 < tab.at' 0) (hv : tab.at' (dim + 2) ≠ 0) :
    (∀ u : Fin (n + 1) → K, affL K n [((dim : ℕ), invExpr n dim tab)] (affL K n [((dim : ℕ), tab)] u) = u) ∧
    ∀ u : Fin (n + 1) → K, affL K n [((dim : ℕ), tab)] (affL K n [((dim : ℕ), invExpr n dim tab)] u) = u := by
  have hinv := (invExpr_spec (K := K) dim h0 hv).2
  have h0' : ((tab.at' 0 : ℤ) : K) ≠ 0 := by exact_mod_cast h0.ne'
  have hv' : ((tab.at' (dim + 2) : ℤ) : K) ≠ 0 := by exact_mod_cast hv
  have hs : ((dim.succ : Fin (n + 1)) : ℕ) + 1 = dim + 2 := by simp
  constructor <;> intro u
  · rw [affL_single, affL_single, hinv, dot_update, Function.update_self, Function.update_idem, hs]
    rw [Function.update_eq_self_iff]
    field_simp
    ring
  · rw [affL_single, affL_single, hinv, dot_update, Function.update_idem, hs]
    rw [Function.update_eq_self_iff]
    field_simp
    ring

end Apron.Poly
