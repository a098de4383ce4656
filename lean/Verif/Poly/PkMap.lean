import Verif.Poly.PkWidenOk
import Mathlib.LinearAlgebra.Pi

/-!
# Images of matrices of constraints and of generators under a linear map
-/

set_option autoImplicit false
set_option linter.unusedSectionVars false
set_option linter.ambiguousOpen false

namespace Apron.Poly

variable {K : Type*} [LinearOrder K] [Field K] [IsStrictOrderedRing K] {d d' n : ℕ}

/-- the rows of generators are transformed by a linear map: the generated cone is the image -/
theorem genM_map {T : Row → Row} (φ : (Fin d → K) →ₗ[K] (Fin d' → K)) {F : List Row}
    (h0 : ∀ q ∈ F, (T q).at' 0 = 0 ↔ q.at' 0 = 0) (h : ∀ q ∈ F, ∃ t : K, 0 < t ∧ toV K d' (T q) = t • φ (toV K d q))
    (y : Fin d' → K) : GenM (F.map T) y ↔ ∃ u, GenM F u ∧ y = φ u := by
  constructor
  · refine Gen.le (G := fun y => ∃ u, GenM F u ∧ y = φ u) ⟨⟨0, .zero, by simp⟩, ?_, ?_⟩ ?_ ?_
    · rintro _ _ ⟨u, hu, rfl⟩ ⟨v, hv, rfl⟩
      exact ⟨u + v, Gen.isCone.add hu hv, by rw [map_add]⟩
    · rintro _ s hs ⟨u, hu, rfl⟩
      exact ⟨s • u, Gen.isCone.smul hs hu, by rw [map_smul]⟩
    · intro q hq
      rw [eqRows, List.mem_filter] at hq
      obtain ⟨hq, hs⟩ := hq
      obtain ⟨p, hp, rfl⟩ := List.mem_map.1 hq
      obtain ⟨t, ht, e⟩ := h p hp
      have hm : p ∈ eqRows F := by
        rw [eqRows, List.mem_filter]; exact ⟨hp, by simpa using (h0 p hp).1 (by simpa using hs)⟩
      exact ⟨⟨t • toV K d p, Gen.isCone.smul ht.le (.of_line hm), by rw [e, map_smul]⟩,
        ⟨t • -toV K d p, Gen.isCone.smul ht.le (.of_neg_line hm), by rw [e, map_smul, map_neg, smul_neg]⟩⟩
    · intro q hq
      rw [ineqRows, List.mem_filter] at hq
      obtain ⟨hq, hs⟩ := hq
      obtain ⟨p, hp, rfl⟩ := List.mem_map.1 hq
      obtain ⟨t, ht, e⟩ := h p hp
      have hm : p ∈ ineqRows F := by
        rw [ineqRows, List.mem_filter]
        refine ⟨hp, ?_⟩
        have : (T p).at' 0 ≠ 0 := by simpa using hs
        simpa using fun h' => this ((h0 p hp).2 h')
      exact ⟨t • toV K d p, Gen.isCone.smul ht.le (.of_ray hm), by rw [e, map_smul]⟩
  · rintro ⟨u, hu, rfl⟩
    refine Gen.le (G := fun u => GenM (F.map T) (φ u)) ⟨by rw [map_zero]; exact .zero, ?_, ?_⟩ ?_ ?_ hu
    · intro u v hu hv; rw [map_add]; exact Gen.isCone.add hu hv
    · intro s u hs hu; rw [map_smul]; exact Gen.isCone.smul hs hu
    · intro p hp
      rw [eqRows, List.mem_filter] at hp
      obtain ⟨hp, hs⟩ := hp
      obtain ⟨t, ht, e⟩ := h p hp
      have hm : T p ∈ eqRows (F.map T) := by
        rw [eqRows, List.mem_filter]
        exact ⟨List.mem_map_of_mem hp, by simpa using (h0 p hp).2 (by simpa using hs)⟩
      have e' : φ (toV K d p) = t⁻¹ • toV K d' (T p) := by rw [e, smul_smul, inv_mul_cancel₀ ht.ne', one_smul]
      refine ⟨?_, ?_⟩
      · rw [e']; exact Gen.isCone.smul (inv_nonneg.2 ht.le) (.of_line hm)
      · rw [map_neg, e', ← smul_neg]; exact Gen.isCone.smul (inv_nonneg.2 ht.le) (.of_neg_line hm)
    · intro p hp
      rw [ineqRows, List.mem_filter] at hp
      obtain ⟨hp, hs⟩ := hp
      obtain ⟨t, ht, e⟩ := h p hp
      have hm : T p ∈ ineqRows (F.map T) := by
        rw [ineqRows, List.mem_filter]
        refine ⟨List.mem_map_of_mem hp, ?_⟩
        have : p.at' 0 ≠ 0 := by simpa using hs
        simpa using fun h' => this ((h0 p hp).1 h')
      have e' : φ (toV K d p) = t⁻¹ • toV K d' (T p) := by rw [e, smul_smul, inv_mul_cancel₀ ht.ne', one_smul]
      rw [e']; exact Gen.isCone.smul (inv_nonneg.2 ht.le) (.of_ray hm)

/-- the rows of constraints are composed with a function: the solutions are the inverse image -/
theorem sat_map {T : Row → Row} (ψ : (Fin d' → K) → (Fin d → K)) {C : List Row}
    (h0 : ∀ q ∈ C, (T q).at' 0 = 0 ↔ q.at' 0 = 0) (h : ∀ q ∈ C, ∃ t : K, 0 < t ∧ ∀ y, dot (T q) y = t * dot q (ψ y))
    (y : Fin d' → K) : Sat (C.map T) y ↔ Sat C (ψ y) := by
  simp only [Sat, List.forall_mem_map]
  refine forall_congr' fun q => forall_congr' fun hq => ?_
  obtain ⟨t, ht, e⟩ := h q hq
  rw [e, mul_nonneg_iff_of_pos_left ht, mul_eq_zero, h0 q hq]
  constructor
  · exact fun ⟨h1, h2⟩ => ⟨h1, fun h => (h2 h).resolve_left ht.ne'⟩
  · exact fun ⟨h1, h2⟩ => ⟨h1, fun h => .inr (h2 h)⟩

/-! ## Reindexing -/

/-- the coefficients of `q` are moved by `σ`, the other coefficients of `q'` are null -/
def Emb (σ : Fin d → Fin d') (q q' : Row) : Prop :=
  q'.at' 0 = q.at' 0 ∧ (∀ j : Fin d, q'.at' (σ j + 1) = q.at' (j + 1)) ∧ ∀ i : Fin d', i ∉ Set.range σ → q'.at' (i + 1) = 0

/-- extension of a vector by zeros -/
noncomputable def extL (K : Type*) [Field K] (σ : Fin d → Fin d') : (Fin d → K) →ₗ[K] (Fin d' → K) := Function.ExtendByZero.linearMap K σ

theorem extL_apply (σ : Fin d → Fin d') (u : Fin d → K) : extL K σ u = Function.extend σ u 0 := rfl

theorem extL_at {σ : Fin d → Fin d'} (hσ : Function.Injective σ) (u : Fin d → K) (j : Fin d) : extL K σ u (σ j) = u j := by
  rw [extL_apply, hσ.extend_apply]

theorem extL_out {σ : Fin d → Fin d'} (u : Fin d → K) {i : Fin d'} (hi : i ∉ Set.range σ) : extL K σ u i = 0 := by
  rw [extL_apply, Function.extend_apply' _ _ _ (by simpa using hi)]; rfl

theorem extL_inj {σ : Fin d → Fin d'} (hσ : Function.Injective σ) : Function.Injective (extL K σ) := by
  intro u v h
  funext j
  rw [← extL_at hσ u, h, extL_at hσ]

theorem Emb.toV {σ : Fin d → Fin d'} (hσ : Function.Injective σ) {q q' : Row} (h : Emb σ q q') :
    toV K d' q' = extL K σ (Apron.Poly.toV K d q) := by
  funext i
  by_cases hi : i ∈ Set.range σ
  · obtain ⟨j, rfl⟩ := hi
    rw [extL_at hσ, Apron.Poly.toV, Apron.Poly.toV, h.2.1]
  · rw [extL_out _ hi, Apron.Poly.toV, h.2.2 i hi]; simp

theorem Emb.dot {σ : Fin d → Fin d'} (hσ : Function.Injective σ) {q q' : Row} (h : Emb σ q q') (y : Fin d' → K) :
    dot q' y = Apron.Poly.dot q (y ∘ σ) := by
  rw [Apron.Poly.dot, Apron.Poly.dot]
  refine (Fintype.sum_of_injective σ hσ _ _ (fun i hi => ?_) fun j => ?_).symm
  · rw [h.2.2 i hi]; simp
  · rw [h.2.1]; rfl

theorem extL_comp {σ : Fin d → Fin d'} (hσ : Function.Injective σ) (u : Fin d → K) : extL K σ u ∘ σ = u :=
  funext fun j => extL_at hσ u j

theorem Emb.vprod {σ : Fin d → Fin d'} (hσ : Function.Injective σ) {q q' r r' : Row} (h : Emb σ q q') (hr : Emb σ r r') :
    vprod d' q' r' = Apron.Poly.vprod d q r := by
  have : ((Apron.Poly.vprod d' q' r' : ℤ) : ℚ) = (Apron.Poly.vprod d q r : ℤ) := by
    rw [← dot_toV, h.dot hσ, hr.toV hσ, extL_comp hσ, dot_toV]
  exact_mod_cast this

/-! ## Minimal representations with new columns -/

section
variable {σ : Fin d → Fin d'} {T : Row → Row} {U : List Row}

/-- the rows `U` are the unit vectors of the new columns -/
structure Units (σ : Fin d → Fin d') (U : List Row) : Prop where
  status : ∀ u ∈ U, u.at' 0 = 0
  unit : ∀ u ∈ U, ∃ i : Fin d', i ∉ Set.range σ ∧ ∀ j : Fin d', u.at' (j + 1) = if j = i then 1 else 0
  cover : ∀ i : Fin d', i ∉ Set.range σ → ∃ u ∈ U, ∀ j : Fin d', u.at' (j + 1) = if j = i then 1 else 0
  len : U.length + d ≤ d'

theorem unit_toV {u : Row} {i : Fin d'} (h : ∀ j : Fin d', u.at' (j + 1) = if j = i then 1 else 0) :
    toV K d' u = Pi.single i 1 := by
  funext j
  rw [toV, h, Pi.single_apply]
  split_ifs <;> simp

theorem dot_unit {u : Row} {i : Fin d'} (h : ∀ j : Fin d', u.at' (j + 1) = if j = i then 1 else 0) (y : Fin d' → K) :
    dot u y = y i := by
  rw [dot, Finset.sum_eq_single i]
  · rw [h, if_pos rfl]; simp
  · intro j _ hj; rw [h, if_neg hj]; simp
  · simp

theorem vprod_unit {u q : Row} {i : Fin d'} (h : ∀ j : Fin d', u.at' (j + 1) = if j = i then 1 else 0) :
    vprod d' u q = q.at' (i + 1) := by
  have : ((vprod d' u q : ℤ) : ℚ) = (q.at' (i + 1) : ℤ) := by
    rw [← dot_toV, dot_unit h, toV]
  exact_mod_cast this

variable (hσ : Function.Injective σ) (hT : ∀ q, Emb σ q (T q)) (hU : Units σ U)
include hσ hT

theorem sat_emb (C : List Row) (y : Fin d' → K) : Sat (C.map T) y ↔ Sat C (y ∘ σ) :=
  sat_map (fun y => y ∘ σ) (fun q _ => by rw [(hT q).1]) (fun q _ => ⟨1, one_pos, fun y => by rw [one_mul, (hT q).dot hσ]⟩) y

theorem genM_emb (F : List Row) (y : Fin d' → K) : GenM (F.map T) y ↔ ∃ u : Fin d → K, GenM F u ∧ y = extL K σ u :=
  genM_map (extL K σ) (fun q _ => by rw [(hT q).1]) (fun q _ => ⟨1, one_pos, by rw [one_smul, (hT q).toV hσ]⟩) y

include hU

/-- with the units of the new columns as equalities, the new coordinates are null -/
theorem sat_units (y : Fin d' → K) : Sat U y ↔ ∀ i, i ∉ Set.range σ → y i = 0 := by
  constructor
  · intro h i hi
    obtain ⟨u, hu, e⟩ := hU.cover i hi
    have := (h u hu).2 (hU.status u hu)
    rwa [dot_unit e] at this
  · intro h u hu
    obtain ⟨i, hi, e⟩ := hU.unit u hu
    rw [dot_unit e, h i hi]; simp

omit hT hσ in
theorem units_line {q : Row} {u : Row} (hu : u ∈ U) (hq : ∃ p, Emb σ p q) : vprod d' q u = 0 := by
  obtain ⟨i, hi, e⟩ := hU.unit u hu
  obtain ⟨p, hp⟩ := hq
  rw [vprod_comm, vprod_unit e]
  exact hp.2.2 i hi

/-- the units generate the vectors whose old coordinates are null -/
theorem gen_units {L R : List Row} (y : Fin d' → K) (h : ∀ j, y (σ j) = 0) : Gen (U ++ L) R y := by
  have e : y = ∑ i : Fin d', y i • (Pi.single i 1 : Fin d' → K) := by
    funext k
    rw [Finset.sum_apply, Finset.sum_eq_single k]
    · simp
    · intro j _ hj; simp [Pi.single_apply, hj.symm]
    · simp
  rw [e]
  have hs : ∀ s : Finset (Fin d'), Gen (U ++ L) R (∑ i ∈ s, y i • (Pi.single i 1 : Fin d' → K)) := by
    intro s
    induction s using Finset.induction_on with
    | empty => rw [Finset.sum_empty]; exact .zero
    | insert i s hi ih =>
      rw [Finset.sum_insert hi, add_comm]
      by_cases hr : i ∈ Set.range σ
      · obtain ⟨j, rfl⟩ := hr
        rw [h j, zero_smul, add_zero]; exact ih
      · obtain ⟨u, hu, eu⟩ := hU.cover i hr
        rw [← unit_toV eu]
        exact Gen.line _ ih (List.mem_append_left _ hu)
  exact hs _

omit hU in
theorem gen_emb {L R : List Row} {u : Fin d → K} (h : Gen L R u) : Gen (L.map T) (R.map T) (extL K σ u) := by
  induction h with
  | zero => rw [map_zero]; exact .zero
  | @line u l t _ hl ih =>
    rw [map_add, map_smul, ← (hT l).toV hσ]
    exact .line t ih (List.mem_map_of_mem hl)
  | @ray u r t _ hr ht ih =>
    rw [map_add, map_smul, ← (hT r).toV hσ]
    exact .ray t ih (List.mem_map_of_mem hr) ht

omit hU in
theorem anti_emb {con : List Row} {r s : Row} (h : Anti d con r s) : Anti d' (con.map T) (T r) (T s) := by
  obtain ⟨q, hq, h1, h2⟩ := h
  exact ⟨T q, List.mem_map_of_mem hq, by rw [(hT q).vprod hσ (hT r)]; exact h1, by rw [(hT q).vprod hσ (hT s)]; exact h2⟩

/-- double description with new lines -/
theorem DDL.embLines {con L : List Row} {R : List SRow} (h : DDL K d con L R) :
    DDL K d' (con.map T) (U ++ L.map T) (R.map fun x => ⟨T x.row, x.sat⟩) := by
  have e : (R.map fun x => (⟨T x.row, x.sat⟩ : SRow)).map SRow.row = (R.map SRow.row).map T := by
    rw [List.map_map, List.map_map]; rfl
  refine ⟨?_, ?_, ?_, ?_, ?_, ?_⟩
  · intro l hl q hq
    obtain ⟨p, hp, rfl⟩ := List.mem_map.1 hq
    rcases List.mem_append.1 hl with hl | hl
    · exact units_line hU hl ⟨p, hT p⟩
    · obtain ⟨l0, hl0, rfl⟩ := List.mem_map.1 hl
      rw [(hT p).vprod hσ (hT l0)]; exact h.line l0 hl0 p hp
  · intro x hx q hq
    obtain ⟨p, hp, rfl⟩ := List.mem_map.1 hq
    obtain ⟨x0, hx0, rfl⟩ := List.mem_map.1 hx
    dsimp only
    rw [(hT p).vprod hσ (hT _), (hT p).1]; exact h.ray x0 hx0 p hp
  · intro y hy
    rw [sat_emb hσ hT] at hy
    have h1 := gen_emb hσ hT (h.gen _ hy)
    have h2 := gen_units hσ hT hU (L := L.map T) (R := (R.map SRow.row).map T) (y - extL K σ (y ∘ σ)) (fun j => by
      rw [Pi.sub_apply, extL_at hσ]; simp)
    rw [e]
    have := Gen.isCone.add (Gen.mono (L' := U ++ L.map T) (fun q hq => List.mem_append_right _ hq) (fun q hq => hq) h1) h2
    rwa [add_sub_cancel] at this
  · intro x hx
    obtain ⟨x0, hx0, rfl⟩ := List.mem_map.1 hx
    obtain ⟨q, hq, hne⟩ := h.proper x0 hx0
    exact ⟨T q, List.mem_map_of_mem hq, by rw [(hT q).vprod hσ (hT _)]; exact hne⟩
  · rw [e, List.pairwise_map]
    exact h.anti.imp fun hrs => ⟨anti_emb hσ hT hrs.1, anti_emb hσ hT hrs.2⟩
  · intro x hx
    obtain ⟨x0, hx0, rfl⟩ := List.mem_map.1 hx
    intro b
    dsimp only
    rw [h.sat x0 hx0 b, List.length_map]
    by_cases hb : b < con.length
    · have : (con.map T).getD b [] = T (con.getD b []) := by
        simp [List.getD_eq_getElem?_getD, List.getElem?_eq_getElem hb]
      rw [this, (hT _).vprod hσ (hT _)]
    · simp [hb]

/-- double description with new equalities -/
theorem DDL.embEqs {con L : List Row} {R : List SRow} (h : DDL K d con L R) :
    DDL K d' (U ++ con.map T) (L.map T) (R.map fun x => ⟨T x.row, x.sat <<< U.length⟩) := by
  have e : (R.map fun x => (⟨T x.row, x.sat <<< U.length⟩ : SRow)).map SRow.row = (R.map SRow.row).map T := by
    rw [List.map_map, List.map_map]; rfl
  have hUT : ∀ u ∈ U, ∀ p, vprod d' u (T p) = 0 := fun u hu p => by
    rw [vprod_comm]; exact units_line hU hu ⟨p, hT p⟩
  have hanti : ∀ {r s : Row}, Anti d con r s → Anti d' (U ++ con.map T) (T r) (T s) := fun hrs => by
    obtain ⟨q, hq, h12⟩ := anti_emb hσ hT hrs
    exact ⟨q, List.mem_append_right _ hq, h12⟩
  refine ⟨?_, ?_, ?_, ?_, ?_, ?_⟩
  · intro l hl q hq
    obtain ⟨l0, hl0, rfl⟩ := List.mem_map.1 hl
    rcases List.mem_append.1 hq with hq | hq
    · exact hUT q hq l0
    · obtain ⟨p, hp, rfl⟩ := List.mem_map.1 hq
      rw [(hT p).vprod hσ (hT l0)]; exact h.line l0 hl0 p hp
  · intro x hx q hq
    obtain ⟨x0, hx0, rfl⟩ := List.mem_map.1 hx
    dsimp only
    rcases List.mem_append.1 hq with hq | hq
    · rw [hUT q hq]; simp
    · obtain ⟨p, hp, rfl⟩ := List.mem_map.1 hq
      rw [(hT p).vprod hσ (hT _), (hT p).1]; exact h.ray x0 hx0 p hp
  · intro y hy
    rw [Sat.append, sat_units hσ hT hU, sat_emb hσ hT] at hy
    have h1 := gen_emb hσ hT (h.gen _ hy.2)
    have e2 : extL K σ (y ∘ σ) = y := by
      funext i
      by_cases hi : i ∈ Set.range σ
      · obtain ⟨j, rfl⟩ := hi; rw [extL_at hσ]; rfl
      · rw [extL_out _ hi, hy.1 i hi]
    rw [e, ← e2]; exact h1
  · intro x hx
    obtain ⟨x0, hx0, rfl⟩ := List.mem_map.1 hx
    obtain ⟨q, hq, hne⟩ := h.proper x0 hx0
    exact ⟨T q, List.mem_append_right _ (List.mem_map_of_mem hq), by rw [(hT q).vprod hσ (hT _)]; exact hne⟩
  · rw [e, List.pairwise_map]
    exact h.anti.imp fun hrs => ⟨hanti hrs.1, hanti hrs.2⟩
  · intro x hx
    obtain ⟨x0, hx0, rfl⟩ := List.mem_map.1 hx
    intro b
    dsimp only
    rw [Nat.testBit_shiftLeft, h.sat x0 hx0]
    by_cases hb : U.length ≤ b
    · have e3 : (U ++ con.map T).getD b [] = (con.map T).getD (b - U.length) [] := by
        rw [List.getD_eq_getElem?_getD, List.getD_eq_getElem?_getD, List.getElem?_append_right hb]
      rw [e3, List.length_append, List.length_map]
      by_cases hb2 : b - U.length < con.length
      · have : (con.map T).getD (b - U.length) [] = T (con.getD (b - U.length) []) := by
          simp [List.getD_eq_getElem?_getD, List.getElem?_eq_getElem hb2]
        rw [this, (hT _).vprod hσ (hT _)]
        have h4 : b < U.length + con.length := by omega
        simp [hb, hb2, h4]
      · have h4 : ¬ b < U.length + con.length := by omega
        simp [hb2, h4]
    · have hm : (U ++ con.map T).getD b [] ∈ U := by
        rw [List.getD_eq_getElem?_getD, List.getElem?_append_left (by omega), List.getElem?_eq_getElem (by omega)]
        exact List.getElem_mem _
      rw [hUT _ hm]
      simp [hb]

/-- minimal representation with new columns: the units are lines -/
theorem MinOk.emb {E L : List Row} {I R : List SRow} (h : MinOk K d E I L R) :
    MinOk K d' (E.map T) (I.map fun x => ⟨T x.row, x.sat <<< U.length⟩) (U ++ L.map T) (R.map fun x => ⟨T x.row, x.sat⟩) := by
  have e1 : E.map T ++ (I.map fun x => (⟨T x.row, x.sat <<< U.length⟩ : SRow)).map SRow.row = (E ++ I.map SRow.row).map T := by
    rw [List.map_append, List.map_map, List.map_map]; rfl
  have e2 : U ++ L.map T ++ (R.map fun x => (⟨T x.row, x.sat⟩ : SRow)).map SRow.row = U ++ (L ++ R.map SRow.row).map T := by
    rw [List.map_append, List.map_map, List.map_map, List.append_assoc]; rfl
  refine ⟨?_, ?_, ?_, ?_, by rw [e1]; exact DDL.embLines hσ hT hU h.prim, by rw [e2]; exact DDL.embEqs hσ hT hU h.dual⟩
  · intro q hq
    obtain ⟨p, hp, rfl⟩ := List.mem_map.1 hq
    rw [(hT p).1]; exact h.eqs p hp
  · intro x hx
    obtain ⟨x0, hx0, rfl⟩ := List.mem_map.1 hx
    dsimp only
    rw [(hT _).1]; exact h.ineqs x0 hx0
  · intro q hq
    rcases List.mem_append.1 hq with hq | hq
    · exact hU.status q hq
    · obtain ⟨p, hp, rfl⟩ := List.mem_map.1 hq
      rw [(hT p).1]; exact h.lines p hp
  · intro x hx
    obtain ⟨x0, hx0, rfl⟩ := List.mem_map.1 hx
    dsimp only
    rw [(hT _).1]; exact h.rays x0 hx0

omit hU in
theorem rowSpan_emb (L : List Row) : rowSpan K d' (L.map T) = (rowSpan K d L).map (extL K σ) := by
  refine le_antisymm (rowSpan_le fun q hq => ?_) ?_
  · obtain ⟨p, hp, rfl⟩ := List.mem_map.1 hq
    rw [(hT p).toV hσ]
    exact Submodule.mem_map_of_mem (mem_rowSpan hp)
  · rw [Submodule.map_le_iff_le_comap]
    refine rowSpan_le fun q hq => ?_
    rw [Submodule.mem_comap, ← (hT q).toV hσ]
    exact mem_rowSpan (List.mem_map_of_mem hq)

omit hU in
theorem Indep.emb {L : List Row} (h : Indep K d L) : Indep K d' (L.map T) := by
  rw [Indep, rowSpan_emb hσ hT, List.length_map, ← h]
  exact (Submodule.equivMapOfInjective _ (extL_inj hσ) _).finrank_eq.symm

theorem Indep.embUnits {L : List Row} (h : Indep K d L) : Indep K d' (U ++ L.map T) := by
  refine le_antisymm (finrank_rowSpan_le _) ?_
  set f : (Fin d' → K) →ₗ[K] (Fin d → K) := LinearMap.funLeft K K σ with hf
  have hfa : ∀ y, f y = y ∘ σ := fun y => rfl
  have hsurj : LinearMap.range f = ⊤ := by
    rw [LinearMap.range_eq_top]
    exact fun u => ⟨extL K σ u, extL_comp hσ u⟩
  have hker : Module.finrank K (LinearMap.ker f) + d = d' := by
    have := LinearMap.finrank_range_add_finrank_ker f
    rw [hsurj, finrank_top, Module.finrank_fin_fun, Module.finrank_fin_fun] at this
    omega
  have hmemU : ∀ y ∈ LinearMap.ker f, y ∈ rowSpan K d' (U ++ L.map T) := by
    intro y hy
    have hg : Gen (U ++ L.map T) [] y := gen_units hσ hT hU y fun j => congrFun (LinearMap.mem_ker.1 hy) j
    have hle : ∀ y : Fin d' → K, Gen (U ++ L.map T) [] y → y ∈ rowSpan K d' (U ++ L.map T) := by
      intro y hg
      induction hg with
      | zero => exact Submodule.zero_mem _
      | line t _ hl ih => exact Submodule.add_mem _ ih (Submodule.smul_mem _ _ (mem_rowSpan hl))
      | ray t _ hr _ _ => simp at hr
    exact hle y hg
  have hmemL : ∀ u ∈ rowSpan K d L, extL K σ u ∈ rowSpan K d' (U ++ L.map T) := by
    intro u hu
    refine rowSpan_mono (fun q hq => List.mem_append_right _ hq) (?_ : _ ∈ rowSpan K d' (L.map T))
    rw [rowSpan_emb hσ hT]
    exact Submodule.mem_map_of_mem hu
  let g : (LinearMap.ker f × rowSpan K d L) →ₗ[K] rowSpan K d' (U ++ L.map T) :=
    { toFun := fun p => ⟨p.1.1 + extL K σ p.2.1, Submodule.add_mem _ (hmemU _ p.1.2) (hmemL _ p.2.2)⟩
      map_add' := fun p q => by
        apply Subtype.ext
        simp only [Prod.fst_add, Prod.snd_add, Submodule.coe_add, map_add]
        abel
      map_smul' := fun t p => by
        apply Subtype.ext
        simp only [Prod.smul_fst, Prod.smul_snd, Submodule.coe_smul, map_smul, RingHom.id_apply, smul_add] }
  have hg : Function.Injective g := by
    rw [← LinearMap.ker_eq_bot, LinearMap.ker_eq_bot']
    rintro ⟨⟨k, hk⟩, ⟨u, hu⟩⟩ h0
    have h0' : k + extL K σ u = 0 := congrArg Subtype.val h0
    have hu0 : u = 0 := by
      funext j
      have h1 := congrFun h0' (σ j)
      rw [Pi.add_apply, extL_at hσ] at h1
      have h2 : k (σ j) = 0 := congrFun (LinearMap.mem_ker.1 hk) j
      rw [h2, zero_add] at h1
      exact h1
    subst hu0
    rw [map_zero, add_zero] at h0'
    subst h0'
    rfl
  have h1 := LinearMap.finrank_le_finrank_of_injective hg
  rw [Module.finrank_prod, h] at h1
  have h2 := hU.len
  rw [List.length_append, List.length_map]
  omega

end

end Apron.Poly
