import Verif.Poly.PkMap

/-!
# Images of minimised double descriptions under an invertible linear map
-/

set_option autoImplicit false
set_option linter.unusedSectionVars false
set_option linter.ambiguousOpen false

namespace Apron.Poly

variable {K : Type*} [LinearOrder K] [Field K] [IsStrictOrderedRing K] {d d' n : ℕ}

/-- the transposed map -/
noncomputable def trL (φ : (Fin d → K) →ₗ[K] (Fin d → K)) : (Fin d → K) →ₗ[K] (Fin d → K) :=
  LinearMap.pi fun j => linV (φ (Pi.single j 1))

theorem linV_trL (φ : (Fin d → K) →ₗ[K] (Fin d → K)) (u y : Fin d → K) : linV (φ u) y = linV u (trL φ y) := by
  have h : φ u = ∑ j, u j • φ (Pi.single j 1) := by
    rw [LinearMap.pi_apply_eq_sum_univ φ u]
    refine Finset.sum_congr rfl fun j _ => ?_
    congr 2
    funext k
    simp [Pi.single_apply, eq_comm]
  rw [linV_comm, h, map_sum, linV_apply]
  refine Finset.sum_congr rfl fun j _ => ?_
  rw [map_smul, smul_eq_mul, linV_comm]
  rfl

theorem linV_ext {u v : Fin d → K} (h : ∀ y, linV u y = linV v y) : u = v := by
  funext j
  have := h (Pi.single j 1)
  rw [linV_apply, linV_apply, Finset.sum_eq_single j, Finset.sum_eq_single j] at this
  · simpa using this
  · intro b _ hb; rw [Pi.single_eq_of_ne hb, mul_zero]
  · intro hj; exact absurd (Finset.mem_univ j) hj
  · intro b _ hb; rw [Pi.single_eq_of_ne hb, mul_zero]
  · intro hj; exact absurd (Finset.mem_univ j) hj

theorem trL_comp {φ ψ : (Fin d → K) →ₗ[K] (Fin d → K)} (h : ∀ u, φ (ψ u) = u) (y : Fin d → K) : trL ψ (trL φ y) = y := by
  refine linV_ext fun u => ?_
  rw [linV_comm, ← linV_trL, ← linV_trL, h, linV_comm]

/-- rows transformed as vectors by `φ` -/
def ImgBy (φ : (Fin d → K) →ₗ[K] (Fin d → K)) (T : Row → Row) : Prop :=
  ∀ q, (0 < (T q).at' 0 ↔ 0 < q.at' 0) ∧ ((T q).at' 0 = 0 ↔ q.at' 0 = 0) ∧ ∃ t : K, 0 < t ∧ toV K d (T q) = t • φ (toV K d q)

/-- rows transformed as linear forms by `ψ` -/
def PreBy (ψ : (Fin d → K) →ₗ[K] (Fin d → K)) (S : Row → Row) : Prop :=
  ∀ q, (0 < (S q).at' 0 ↔ 0 < q.at' 0) ∧ ((S q).at' 0 = 0 ↔ q.at' 0 = 0) ∧ ∃ t : K, 0 < t ∧ ∀ y : Fin d → K, dot (S q) y = t * dot q (ψ y)

theorem dot_linV (q : Row) (y : Fin d → K) : dot q y = linV (toV K d q) y := rfl

theorem ImgBy.pre {φ : (Fin d → K) →ₗ[K] (Fin d → K)} {T : Row → Row} (h : ImgBy φ T) : PreBy (trL φ) T := fun q => by
  obtain ⟨h1, h2, t, ht, e⟩ := h q
  refine ⟨h1, h2, t, ht, fun y => ?_⟩
  rw [dot_linV, e, linV_comm, map_smul, smul_eq_mul, linV_comm, linV_trL]; rfl

theorem PreBy.img {ψ : (Fin d → K) →ₗ[K] (Fin d → K)} {S : Row → Row} (h : PreBy ψ S) : ImgBy (trL ψ) S := fun q => by
  obtain ⟨h1, h2, t, ht, e⟩ := h q
  refine ⟨h1, h2, t, ht, linV_ext fun y => ?_⟩
  have h3 := e y
  rw [dot_linV, dot_linV] at h3
  rw [h3, linV_comm (t • _), map_smul, smul_eq_mul, ← linV_trL, linV_comm]

section
variable {φ ψ : (Fin d → K) →ₗ[K] (Fin d → K)} {T S : Row → Row} (h1 : ∀ u, ψ (φ u) = u) (h2 : ∀ u, φ (ψ u) = u)
  (hT : ImgBy φ T) (hS : PreBy ψ S)
include h1 hT hS

theorem vprod_map (q l : Row) : ∃ t : K, 0 < t ∧ ((vprod d (S q) (T l) : ℤ) : K) = t * ((vprod d q l : ℤ) : K) := by
  obtain ⟨_, _, t, ht, e⟩ := hS q
  obtain ⟨_, _, s, hs, e'⟩ := hT l
  refine ⟨t * s, mul_pos ht hs, ?_⟩
  rw [← dot_toV, ← dot_toV, e, e', map_smul, h1, dot_linV, dot_linV, map_smul, smul_eq_mul, mul_assoc]

theorem vprod_map_zero (q l : Row) : vprod d (S q) (T l) = 0 ↔ vprod d q l = 0 := by
  obtain ⟨t, ht, e⟩ := vprod_map h1 hT hS q l
  rw [← Int.cast_eq_zero (α := K), e, mul_eq_zero, Int.cast_eq_zero]
  exact ⟨fun h => h.resolve_left ht.ne', Or.inr⟩

theorem vprod_map_nonneg (q l : Row) : 0 ≤ vprod d (S q) (T l) ↔ 0 ≤ vprod d q l := by
  obtain ⟨t, ht, e⟩ := vprod_map h1 hT hS q l
  rw [← Int.cast_nonneg_iff (R := K), e, mul_nonneg_iff_of_pos_left ht, Int.cast_nonneg_iff]

include h2

theorem gen_mapL {L R : List Row} {y : Fin d → K} (h : Gen L R y) : Gen (L.map T) (R.map T) (φ y) := by
  induction h with
  | zero => rw [map_zero]; exact .zero
  | @line v l t _ hl ih =>
    obtain ⟨_, _, s, hs, e⟩ := hT l
    have : φ (v + t • toV K d l) = φ v + (t * s⁻¹) • toV K d (T l) := by
      rw [map_add, map_smul, e, smul_smul, mul_assoc, inv_mul_cancel₀ hs.ne', mul_one]
    rw [this]
    exact .line _ ih (List.mem_map_of_mem hl)
  | @ray v q t _ hq ht ih =>
    obtain ⟨_, _, s, hs, e⟩ := hT q
    have : φ (v + t • toV K d q) = φ v + (t * s⁻¹) • toV K d (T q) := by
      rw [map_add, map_smul, e, smul_smul, mul_assoc, inv_mul_cancel₀ hs.ne', mul_one]
    rw [this]
    exact .ray _ ih (List.mem_map_of_mem hq) (mul_nonneg ht (inv_nonneg.2 hs.le))

theorem sat_mapL {C : List Row} {y : Fin d → K} : Sat (C.map S) y ↔ Sat C (ψ y) :=
  sat_map ψ (fun q _ => (hS q).2.1) (fun q _ => (hS q).2.2) y

theorem anti_map {con : List Row} {r s : Row} (h : Anti d con r s) : Anti d (con.map S) (T r) (T s) := by
  obtain ⟨q, hq, g1, g2⟩ := h
  exact ⟨S q, List.mem_map_of_mem hq, (vprod_map_zero h1 hT hS q r).2 g1, fun h => g2 ((vprod_map_zero h1 hT hS q s).1 h)⟩

theorem DDL.map {con L : List Row} {R : List SRow} (h : DDL K d con L R) :
    DDL K d (con.map S) (L.map T) (R.map fun x => ⟨T x.row, x.sat⟩) := by
  have e : (R.map fun x => (⟨T x.row, x.sat⟩ : SRow)).map SRow.row = (R.map SRow.row).map T := by
    rw [List.map_map, List.map_map]; rfl
  refine ⟨?_, ?_, ?_, ?_, ?_, ?_⟩
  · intro l hl q hq
    obtain ⟨p, hp, rfl⟩ := List.mem_map.1 hq
    obtain ⟨l0, hl0, rfl⟩ := List.mem_map.1 hl
    exact (vprod_map_zero h1 hT hS p l0).2 (h.line l0 hl0 p hp)
  · intro x hx q hq
    obtain ⟨p, hp, rfl⟩ := List.mem_map.1 hq
    obtain ⟨x0, hx0, rfl⟩ := List.mem_map.1 hx
    exact ⟨(vprod_map_nonneg h1 hT hS p _).2 (h.ray x0 hx0 p hp).1, fun h0 =>
      (vprod_map_zero h1 hT hS p _).2 ((h.ray x0 hx0 p hp).2 ((hS p).2.1.1 h0))⟩
  · intro y hy
    rw [sat_mapL h1 h2 hT hS] at hy
    have := gen_mapL h1 h2 hT hS (h.gen _ hy)
    rwa [h2, ← e] at this
  · intro x hx
    obtain ⟨x0, hx0, rfl⟩ := List.mem_map.1 hx
    obtain ⟨q, hq, hne⟩ := h.proper x0 hx0
    exact ⟨S q, List.mem_map_of_mem hq, fun h => hne ((vprod_map_zero h1 hT hS q _).1 h)⟩
  · rw [e, List.pairwise_map]
    exact h.anti.imp fun hrs => ⟨anti_map h1 h2 hT hS hrs.1, anti_map h1 h2 hT hS hrs.2⟩
  · intro x hx
    obtain ⟨x0, hx0, rfl⟩ := List.mem_map.1 hx
    intro b
    dsimp only
    rw [h.sat x0 hx0 b, List.length_map]
    by_cases hb : b < con.length
    · have : (con.map S).getD b [] = S (con.getD b []) := by
        simp [List.getD_eq_getElem?_getD, List.getElem?_eq_getElem hb]
      rw [this]; simp only [ne_eq, vprod_map_zero h1 hT hS]
    · simp [hb]

theorem MinOk.map {E L : List Row} {I R : List SRow} (h : MinOk K d E I L R) :
    MinOk K d (E.map S) (I.map fun x => ⟨S x.row, x.sat⟩) (L.map T) (R.map fun x => ⟨T x.row, x.sat⟩) := by
  have e1 : E.map S ++ (I.map fun x => (⟨S x.row, x.sat⟩ : SRow)).map SRow.row = (E ++ I.map SRow.row).map S := by
    rw [List.map_append, List.map_map, List.map_map]; rfl
  have e2 : L.map T ++ (R.map fun x => (⟨T x.row, x.sat⟩ : SRow)).map SRow.row = (L ++ R.map SRow.row).map T := by
    rw [List.map_append, List.map_map, List.map_map]; rfl
  refine ⟨?_, ?_, ?_, ?_, by rw [e1]; exact DDL.map h1 h2 hT hS h.prim, by
    rw [e2]; exact DDL.map (trL_comp h1) (trL_comp h2) hS.img hT.pre h.dual⟩
  · intro q hq
    obtain ⟨p, hp, rfl⟩ := List.mem_map.1 hq
    exact (hS p).2.1.2 (h.eqs p hp)
  · intro x hx
    obtain ⟨x0, hx0, rfl⟩ := List.mem_map.1 hx
    exact (hS _).1.2 (h.ineqs x0 hx0)
  · intro q hq
    obtain ⟨p, hp, rfl⟩ := List.mem_map.1 hq
    exact (hT p).2.1.2 (h.lines p hp)
  · intro x hx
    obtain ⟨x0, hx0, rfl⟩ := List.mem_map.1 hx
    exact (hT _).1.2 (h.rays x0 hx0)

omit h2 hS in
theorem Indep.map {L : List Row} (h : Indep K d L) : Indep K d (L.map T) := by
  have e : rowSpan K d (L.map T) = (rowSpan K d L).map φ := by
    refine le_antisymm (rowSpan_le fun q hq => ?_) ?_
    · obtain ⟨p, hp, rfl⟩ := List.mem_map.1 hq
      obtain ⟨_, _, t, _, e⟩ := hT p
      rw [e, ← map_smul]
      exact Submodule.mem_map_of_mem (Submodule.smul_mem _ _ (mem_rowSpan hp))
    · rw [Submodule.map_le_iff_le_comap]
      refine rowSpan_le fun q hq => ?_
      obtain ⟨_, _, t, ht, e⟩ := hT q
      have e' : φ (toV K d q) = t⁻¹ • toV K d (T q) := by rw [e, smul_smul, inv_mul_cancel₀ ht.ne', one_smul]
      rw [Submodule.mem_comap, e']
      exact Submodule.smul_mem _ _ (mem_rowSpan (List.mem_map_of_mem hq))
  rw [Indep, e, List.length_map, ← h]
  exact (Submodule.equivMapOfInjective _ (Function.LeftInverse.injective h1) _).finrank_eq.symm

/-- both matrices under an invertible map -/
theorem Full.Ok.map {f g : Full} (h : f.Ok K d) (hC : g.C = f.C.map fun x => ⟨S x.row, x.sat⟩)
    (hF : g.F = f.F.map fun x => ⟨T x.row, x.sat⟩) (he : g.nbeq = f.nbeq) (hl : g.nbline = f.nbline) : g.Ok K d := by
  have e1 : g.eqs = f.eqs.map S := by
    rw [Full.eqs, Full.eqs, hC, he, ← List.map_take, List.map_map, List.map_map]; rfl
  have e2 : g.ineqs = f.ineqs.map fun x => ⟨S x.row, x.sat⟩ := by
    rw [Full.ineqs, Full.ineqs, hC, he, List.map_drop]
  have e3 : g.lines = f.lines.map T := by
    rw [Full.lines, Full.lines, hF, hl, ← List.map_take, List.map_map, List.map_map]; rfl
  have e4 : g.rays = f.rays.map fun x => ⟨T x.row, x.sat⟩ := by
    rw [Full.rays, Full.rays, hF, hl, List.map_drop]
  refine ⟨?_, ?_, ?_, ?_, ?_⟩
  · rw [he, hC, List.length_map]; exact h.leq
  · rw [hl, hF, List.length_map]; exact h.lel
  · rw [e1, e2, e3, e4]; exact h.min.map h1 h2 hT hS
  · rw [e1]; exact Indep.map (trL_comp h1) hS.img h.indE
  · rw [e3]; exact Indep.map h1 hT h.indL

end

end Apron.Poly
