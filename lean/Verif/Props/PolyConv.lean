import Verif.Poly.MinFacts

/-!
# Properties of the double description algorithm of newpolka (C84 – C87)

A row `q` of a constraint matrix stands for `dot q x ≥ 0`, or `dot q x = 0` when its status (column 0) is 0 (`Sat`); rows
of a generator matrix generate a cone by sums with non-negative coefficients, arbitrary ones for the lines (`Gen`).
-/

set_option autoImplicit false
set_option linter.unusedSectionVars false

namespace Apron.Props

open Apron.Poly

variable {K : Type*} [LinearOrder K] [Field K] [IsStrictOrderedRing K] {d : ℕ}

/-! ## C84: vectors -/

/-- `vector_gcd` returns the greatest common divisor -/
theorem C84_vector_gcd (q : List ℤ) (e : ℕ) : e ∣ vectorGcd q ↔ ∀ a ∈ q, (e : ℤ) ∣ a := by
  rw [vectorGcd_eq, dvd_lgcd]
  simp only [List.mem_map, forall_exists_index, and_imp, forall_apply_eq_imp_iff₂, Int.natCast_dvd]

/-- `vector_normalize` divides the coefficients by a positive number, keeps the status, and leaves no common divisor -/
theorem C84_vector_normalize (q : Row) (size : ℕ) (hq : ∀ j, size ≤ j → q.at' j = 0) :
    (normalize q size).at' 0 = q.at' 0 ∧
    (∃ g : ℤ, 0 < g ∧ ∀ j, 0 < j → g * (normalize q size).at' j = q.at' j) ∧
    ∀ e : ℤ, (∀ j, 0 < j → j < size → e ∣ (normalize q size).at' j) → (∃ j, 0 < j ∧ j < size ∧ q.at' j ≠ 0) → e ∣ 1 := by
  obtain ⟨h0, g, hg, h⟩ := normalize_spec q size hq
  have h' : ∀ j, 0 < j → g * (normalize q size).at' j = q.at' j := by
    intro j hj
    obtain ⟨i, rfl⟩ : ∃ i, j = i + 1 := ⟨j - 1, by omega⟩
    exact h i
  refine ⟨h0, ⟨g, hg, h'⟩, ?_⟩
  intro e he hex
  obtain ⟨j, hj0, hj, hne⟩ := hex
  set L := (List.range (size - 1)).map (fun j => q.at' (j + 1)) with hL
  have hmem : ∀ a ∈ L, ∃ j, 0 < j ∧ j < size ∧ a = q.at' j := by
    intro a ha
    rw [hL, List.mem_map] at ha
    obtain ⟨i, hi, rfl⟩ := ha
    rw [List.mem_range] at hi
    exact ⟨i + 1, by omega, by omega, rfl⟩
  have hmem' : ∀ j, 0 < j → j < size → q.at' j ∈ L := by
    intro j h1 h2
    rw [hL, List.mem_map]
    refine ⟨j - 1, by rw [List.mem_range]; omega, ?_⟩
    rw [Nat.sub_add_cancel h1]
  have hG0 : vectorGcd L ≠ 0 := by
    intro h00
    have := dvd_vectorGcd L _ (hmem' j hj0 hj)
    rw [h00] at this
    exact hne (by simpa using this)
  -- the actual divisor
  have key : ∀ j, 0 < j → j < size → (vectorGcd L : ℤ) * (normalize q size).at' j = q.at' j := by
    intro j h1 h2
    rw [Apron.Poly.normalize]
    by_cases hgt : 1 < vectorGcd L
    · rw [if_pos hgt, at_ofFun, if_pos h2, if_neg (by omega)]
      exact Int.mul_ediv_cancel' (dvd_vectorGcd _ _ (hmem' j h1 h2))
    · rw [if_neg hgt]
      have : vectorGcd L = 1 := by omega
      rw [this]; simp
  have : (vectorGcd L : ℤ) * e.natAbs ∣ (vectorGcd L : ℤ) := by
    have h1 : vectorGcd L * e.natAbs ∣ vectorGcd L := by
      refine (C84_vector_gcd L _).2 fun a ha => ?_
      obtain ⟨j, h1, h2, rfl⟩ := hmem a ha
      rw [← key j h1 h2]
      push_cast
      exact mul_dvd_mul_left _ ((abs_dvd e _).2 (he j h1 h2))
    exact_mod_cast h1
  have hG : (vectorGcd L : ℤ) ≠ 0 := by exact_mod_cast hG0
  have h2 : (vectorGcd L : ℤ) * e.natAbs ∣ (vectorGcd L : ℤ) * 1 := by rwa [mul_one]
  have h3 := (mul_dvd_mul_iff_left hG).1 h2
  rw [Int.natCast_natAbs, abs_dvd] at h3
  exact h3

example : normalize [1, 6, -4, 0] 4 = [1, 3, -2, 0] := by decide +kernel
example : vectorGcd [12, -18, 0, 30] = 6 := by decide +kernel

/-- `vector_combine`: the result is the combination of the two vectors that cancels column `k`, up to a positive factor -/
theorem C84_vector_combine (q1 q2 q3 : Row) (k size : ℕ) (hk : q1.at' k ≠ 0 ∨ q2.at' k ≠ 0) :
    (k < size → (vectorCombine q1 q2 q3 k size).at' k = 0) ∧
    ∃ g : ℤ, 0 < g ∧ ∀ j, 0 < j → j < size →
      g * (vectorCombine q1 q2 q3 k size).at' j = q2.at' k * q1.at' j - q1.at' k * q2.at' j := by
  obtain ⟨h0, g, hg, h⟩ := combine_spec q1 q2 q3 k size hk
  have h' : ∀ j, 0 < j → j < size →
      g * (vectorCombine q1 q2 q3 k size).at' j = q2.at' k * q1.at' j - q1.at' k * q2.at' j := by
    intro j hj hjs
    obtain ⟨i, rfl⟩ : ∃ i, j = i + 1 := ⟨j - 1, by omega⟩
    exact h i hjs
  refine ⟨fun hks => ?_, g, hg, h'⟩
  rcases Nat.eq_zero_or_pos k with rfl | hk0
  · rw [h0]; simp
  · have := h' k hk0 hks
    rw [mul_comm (q2.at' k), sub_self] at this
    rcases mul_eq_zero.1 this with h1 | h1
    · omega
    · exact h1

example : vectorCombine [1, 2, 3] [1, 1, -6] [1] 2 3 = [1, -1, 0] := by decide +kernel

/-! ## C85: the conversion of constraints into generators -/

/-- The generators computed by `cherni_conversion` from scratch generate exactly the cone of the constraints. -/
theorem C85_conversion_exact (C : List Row) (x : Fin d → K) :
    Sat C x ↔ Gen (conversion (d + 1) (initConv (d + 1) C)).lines
      ((conversion (d + 1) (initConv (d + 1) C)).rays.map SRow.row) x := by
  obtain ⟨h1, h2, h3, h4, h5, h6, h7⟩ := conversion_ok (initConv (d + 1) C) (initConv_ok (K := K) C)
  rw [← h1.gen_iff x, h3 x]; exact Iff.rfl

/-- The lines generate exactly the linear space contained in the cone. -/
theorem C85_lines_exact (C : List Row) (x : Fin d → K) :
    (Sat C x ∧ Sat C (-x)) ↔ Gen (conversion (d + 1) (initConv (d + 1) C)).lines [] x := by
  obtain ⟨h1, h2, h3, h4, h5, h6, h7⟩ := conversion_ok (initConv (d + 1) C) (initConv_ok (K := K) C)
  have h3' : ∀ x : Fin d → K, Sat (conversion (d + 1) (initConv (d + 1) C)).done x ↔ Sat C x := fun x => h3 x
  rw [← h1.lin_iff x, ← h3', ← h3']
  constructor
  · rintro ⟨ha, hb⟩ q hq
    have a1 := (ha q hq).1
    have a2 := (hb q hq).1
    rw [← lin_apply, map_neg, lin_apply] at a2
    exact le_antisymm (by linarith) a1
  · intro h
    refine ⟨fun q hq => ⟨(h q hq).ge, fun _ => h q hq⟩, fun q hq => ?_⟩
    rw [← lin_apply, map_neg, lin_apply, h q hq]; simp

/-- No ray of the result is generated by the lines and the other rays. -/
theorem C85_rays_irredundant (C : List Row) (i : ℕ) (hi : i < (conversion (d + 1) (initConv (d + 1) C)).rays.length) :
    ¬ Gen (K := K) (d := d) (conversion (d + 1) (initConv (d + 1) C)).lines
      (((conversion (d + 1) (initConv (d + 1) C)).rays.eraseIdx i).map SRow.row)
      (toV K d ((conversion (d + 1) (initConv (d + 1) C)).rays[i]).row) :=
  (conversion_ok (initConv (d + 1) C) (initConv_ok (K := K) C)).1.irredundant i hi

/-- The constraints kept are some of the original ones, all have been treated, and bit `b` of the saturation row of a ray is
set exactly when constraint `b` is not saturated by the ray; the statuses are 0 for lines and 1 for rays. -/
theorem C85_saturation_exact (C : List Row) :
    (conversion (d + 1) (initConv (d + 1) C)).todo = [] ∧
    (conversion (d + 1) (initConv (d + 1) C)).done.Subperm C ∧
    (∀ x ∈ (conversion (d + 1) (initConv (d + 1) C)).rays, ∀ b, x.sat.testBit b = true ↔
      b < (conversion (d + 1) (initConv (d + 1) C)).done.length ∧
        dot (K := K) ((conversion (d + 1) (initConv (d + 1) C)).done.getD b []) (toV K d x.row) ≠ 0) ∧
    (∀ l ∈ (conversion (d + 1) (initConv (d + 1) C)).lines, l.at' 0 = 0) ∧
    (∀ x ∈ (conversion (d + 1) (initConv (d + 1) C)).rays, x.row.at' 0 = 1) := by
  obtain ⟨h1, h2, h3, h4, h5, h6, h7⟩ := conversion_ok (initConv (d + 1) C) (initConv_ok (K := K) C)
  refine ⟨h2, h4, fun x hx b => ?_, h6, h7⟩
  rw [h1.sat x hx b, decide_eq_true_eq, dot_toV]
  exact and_congr_right fun _ => not_congr Int.cast_eq_zero.symm

/-- the cone `x ≥ 0, y ≥ 0, x = z`: no line, two rays -/
example : (let s := conversion 4 (initConv 4 [[1, 1, 0, 0], [1, 0, 1, 0], [0, 1, 0, -1]]); (s.lines, s.rays.map SRow.row)) =
    ([], [[1, 1, 0, 1], [1, 0, 1, 0]]) := by decide +kernel

/-- the cone `x ≥ 0` of the space has two lines and a ray -/
example : (let s := conversion 4 (initConv 4 [[1, 1, 0, 0]]); (s.lines.length, s.rays.length)) = (2, 1) := by decide +kernel

/-! ## C86: minimisation -/

/-- `cherni_minimize`: the constraints, simplified, and the generators describe the cone of the initial constraints. -/
theorem C86_minimize_exact {dec : ℕ} {b : Bool} {C : List Row} {m : MinRep} (h : minimize (d + 1) dec b C = some m) (x : Fin d → K) :
    (Sat (m.C.map SRow.row) x ↔ Sat C x) ∧ (Gen (m.F.take m.nbline) (m.F.drop m.nbline) x ↔ Sat C x) := by
  obtain ⟨⟨a1, a2, a3, a4, a5⟩, h2⟩ := minimize_ok (K := K) h
  refine ⟨h2 x, ?_⟩
  rw [← h2 x]
  have := a5.prim.gen_iff x
  rw [resat_rows, ← List.map_append, List.take_append_drop] at this
  exact this.symm

/-- The constraints of the result come with the equalities (status 0) first, in reduced echelon form: each has a pivot
column, where its coefficient is positive and every other constraint is null. -/
theorem C86_minimize_echelon {dec : ℕ} {b : Bool} {C : List Row} {m : MinRep} (h : minimize (d + 1) dec b C = some m) :
    m.nbeq ≤ m.C.length ∧
    (∀ i < m.C.length, ((m.C.map SRow.row).getD i []).at' 0 = if i < m.nbeq then 0 else 1) ∧
    ∃ piv : ℕ → ℕ, ∀ k < m.nbeq, 0 < piv k ∧ piv k ≤ d ∧ 0 < ((m.C.map SRow.row).getD k []).at' (piv k) ∧
      (∀ i < m.C.length, i ≠ k → ((m.C.map SRow.row).getD i []).at' (piv k) = 0) ∧
      ∀ k' < k, piv k < piv k' := by
  obtain ⟨⟨a1, a2, a3, ⟨piv, hp, hb⟩, a5⟩, h2⟩ := minimize_ok (K := ℚ) h
  refine ⟨a1, fun i hi => ?_, fun k => piv.getD k 0, fun k hk => ?_⟩
  · rw [List.getD_eq_getElem?_getD, List.getElem?_map, List.getElem?_eq_getElem hi, Option.map_some, Option.getD_some]
    split_ifs with hin
    · refine a5.eqs _ (List.mem_map_of_mem (List.mem_iff_getElem.2 ⟨i, ?_, ?_⟩))
      · rw [List.length_take]; omega
      · rw [List.getElem_take]
    · refine a3.2.1 _ (List.mem_iff_getElem.2 ⟨i - m.nbeq, ?_, ?_⟩)
      · rw [List.length_drop]; omega
      · rw [List.getElem_drop]; congr 1; omega
  · rw [← hp] at hk
    have hpos := hb.ech.pos k hk
    rw [getD_take _ _ hk] at hpos
    refine ⟨(hb.ech.range k hk).1, (hb.ech.range k hk).2, hpos, fun i hi hik => ?_, fun k' hk' => hb.ech.dec k' k hk' hk⟩
    exact hb.col k (Nat.zero_le _) hk i (by simpa using hi) hik

/-- No constraint of the result is redundant: removing it gives a strictly larger cone. -/
theorem C86_minimize_irredundant {dec : ℕ} {b : Bool} {C : List Row} {m : MinRep} (h : minimize (d + 1) dec b C = some m) (i : ℕ)
    (hi : i < m.C.length) :
    ∃ x : Fin d → K, Sat ((m.C.map SRow.row).eraseIdx i) x ∧ ¬ Sat (m.C.map SRow.row) x := by
  obtain ⟨⟨a1, a2, a3, ⟨piv, hp, hb⟩, a5⟩, h2⟩ := minimize_ok (K := K) h
  have hsplit : m.C.map SRow.row = (m.C.take m.nbeq).map SRow.row ++ (m.C.drop m.nbeq).map SRow.row := by
    rw [← List.map_append, List.take_append_drop]
  have hlen : ((m.C.take m.nbeq).map SRow.row).length = m.nbeq := by rw [List.length_map, List.length_take]; exact min_eq_left a1
  have hmem : (m.C[i]).row ∈ m.C.map SRow.row := List.mem_map_of_mem (List.getElem_mem hi)
  by_cases hin : i < m.nbeq
  · have hie : i < ((m.C.take m.nbeq).map SRow.row).length := by omega
    have hget : ((m.C.take m.nbeq).map SRow.row)[i] = (m.C[i]).row := by rw [List.getElem_map, List.getElem_take]
    obtain ⟨x, hx, hne⟩ := a5.eq_needed i hie (by
      have := hb.indep (K := K) (i := i) (by omega)
      rw [hget]
      rw [List.getD_eq_getElem?_getD, List.getElem?_map, List.getElem?_eq_getElem hi, Option.map_some, Option.getD_some, hp,
        ← List.map_take] at this
      exact this)
    refine ⟨x, ?_, fun hs => hne ?_⟩
    · rw [hsplit, List.eraseIdx_append_of_lt_length hie]; exact hx
    · rw [hget]
      refine (hs _ hmem).2 ?_
      rw [← hget]; exact a5.eqs _ (List.getElem_mem hie)
  · have hid : i - m.nbeq < (m.C.drop m.nbeq).length := by rw [List.length_drop]; omega
    obtain ⟨x, hx, hne⟩ := a5.ineq_needed (i - m.nbeq) hid
    refine ⟨x, ?_, fun hs => hne ?_⟩
    · rw [hsplit, List.eraseIdx_append_of_length_le (by omega), hlen, List.eraseIdx_map]; exact hx
    · have e : (m.C.drop m.nbeq)[i - m.nbeq] = m.C[i] := by rw [List.getElem_drop]; congr 1; omega
      rw [e]; exact (hs _ hmem).1

/-- No ray of the result is generated by the lines and the other rays. -/
theorem C86_minimize_rays_irredundant {dec : ℕ} {b : Bool} {C : List Row} {m : MinRep} (h : minimize (d + 1) dec b C = some m) (i : ℕ)
    (hi : i < (m.F.drop m.nbline).length) :
    ¬ Gen (K := K) (d := d) (m.F.take m.nbline) ((m.F.drop m.nbline).eraseIdx i) (toV K d (m.F.drop m.nbline)[i]) := by
  obtain ⟨⟨a1, a2, a3, a4, a5⟩, h2⟩ := minimize_ok (K := K) h
  have hrows := resat_rows m.nbeq (m.C.drop m.nbeq) (m.F.drop m.nbline) m.nbline
  have hlen : i < (resat m.nbeq (m.C.drop m.nbeq) (m.F.drop m.nbline) m.nbline).length := by
    rw [← hrows, List.length_map] at hi; exact hi
  have := a5.prim.irredundant i hlen
  rw [← List.eraseIdx_map, hrows] at this
  have e : ((resat m.nbeq (m.C.drop m.nbeq) (m.F.drop m.nbline) m.nbline)[i]).row = (m.F.drop m.nbline)[i] := by
    simp [resat]
  rwa [e] at this

/-- Emptiness: when the constraints imply that the homogenising coordinate (column `dec - 1`) is non-negative,
`cherni_minimize` reports an empty polyhedron exactly when no solution has a positive coordinate. -/
theorem C86_minimize_empty {dec : ℕ} (hdec : 2 ≤ dec) (hd : dec ≤ d + 1) {C : List Row}
    (hpos : ∀ x : Fin d → K, Sat C x → 0 ≤ x ⟨dec - 2, by omega⟩) :
    minimize (d + 1) dec true C = none ↔ ¬ ∃ x : Fin d → K, Sat C x ∧ 0 < x ⟨dec - 2, by omega⟩ := by
  rw [minimize_none hdec hd hpos]
  push Not
  constructor
  · intro h x hx; exact (h x hx).le
  · intro h x hx; exact le_antisymm (h x hx) (hpos x hx)

/-- the constraints `ξ ≥ 0`, `x ≥ 0`, `x + ξ ≥ 0` (redundant), `ξ - x ≥ 0` -/
example : ((minimize 3 2 true [[1, 1, 0], [1, 0, 1], [1, 1, 1], [1, 1, -1]]).map fun m => (m.C.map SRow.row, m.F, m.nbeq, m.nbline)) =
    some ([[1, 1, -1], [1, 0, 1]], [[1, 1, 0], [1, 1, 1]], 0, 0) := by decide +kernel

/-- two opposite inequalities become an equality; the pivot is eliminated from the other constraint -/
example : ((minimize 4 2 true [[1, 1, 0, 0], [1, 0, 1, -1], [1, 0, -1, 1], [1, -1, 0, 1]]).map fun m =>
      (m.C.map SRow.row, m.nbeq, m.nbline)) =
    some ([[0, 0, -1, 1], [1, -1, 1, 0], [1, 1, 0, 0]], 1, 0) := by decide +kernel

/-- `x ≥ 1` and `x ≤ 0`: empty -/
example : minimize 3 2 true [[1, 1, 0], [1, -1, 1], [1, 0, -1]] = none := by decide +kernel

/-! ## C87: incremental addition of constraints or generators -/

/-- `cherni_add_and_minimize` on a minimal representation (`MinOk`: both sides minimal, exact saturation rows): the result is
again one, and describes the intersection with the new constraints. -/
theorem C87_add_exact {dec : ℕ} {b : Bool} {E newC L : List Row} {I R : List SRow} (hmin : MinOk K d E I L R) {m : MinRep}
    (h : addAndMinimize (d + 1) dec b (E ++ I.map SRow.row) newC L R = some m) :
    m.Ok K d ∧ ∀ x : Fin d → K,
      (Sat (m.C.map SRow.row) x ↔ Sat (E ++ I.map SRow.row) x ∧ Sat newC x) ∧
      (Gen (m.F.take m.nbline) (m.F.drop m.nbline) x ↔ Sat (E ++ I.map SRow.row) x ∧ Sat newC x) := by
  obtain ⟨h1, h2⟩ := addAndMinimize_ok hmin h
  refine ⟨h1, fun x => ⟨h2 x, ?_⟩⟩
  obtain ⟨a1, a2, a3, a4, a5⟩ := h1
  rw [← h2 x]
  have := a5.prim.gen_iff x
  rw [resat_rows, ← List.map_append, List.take_append_drop] at this
  exact this.symm

/-- The result of `cherni_minimize` is a minimal representation in this sense. -/
theorem C87_minimize_minOk {dec : ℕ} {b : Bool} {C : List Row} {m : MinRep} (h : minimize (d + 1) dec b C = some m) : m.Ok K d :=
  (minimize_ok h).1

/-- Emptiness is detected exactly. -/
theorem C87_add_empty {dec : ℕ} (hdec : 2 ≤ dec) (hd : dec ≤ d + 1) {E newC L : List Row} {I R : List SRow}
    (hmin : MinOk K d E I L R) (hpos : ∀ x : Fin d → K, Sat (E ++ I.map SRow.row) x → 0 ≤ x ⟨dec - 2, by omega⟩) :
    addAndMinimize (d + 1) dec true (E ++ I.map SRow.row) newC L R = none ↔
      ¬ ∃ x : Fin d → K, Sat (E ++ I.map SRow.row) x ∧ Sat newC x ∧ 0 < x ⟨dec - 2, by omega⟩ := by
  rw [addAndMinimize_none hdec hd hmin hpos]
  push Not
  constructor
  · intro h x hx hx'; exact (h x hx hx').le
  · intro h x hx hx'; exact le_antisymm (h x hx hx') (hpos x hx)

/-- Adding generators, i.e. the dual use of the same function (`con_to_ray = false`, matrices exchanged): the new generators
generate the sum of the old cone and of the cone of the added generators. -/
theorem C87_add_generators_exact {dec : ℕ} {E L newF : List Row} {I R : List SRow} (hmin : MinOk K d E I L R) :
    ∃ m, addAndMinimize (d + 1) dec false (L ++ R.map SRow.row) newF E I = some m ∧ m.Ok K d ∧ ∀ x : Fin d → K,
      (Gen (eqRows (m.C.map SRow.row)) (ineqRows (m.C.map SRow.row)) x ↔
        Gen (L ++ eqRows newF) (R.map SRow.row ++ ineqRows newF) x) ∧
      (Sat (m.F.take m.nbline ++ m.F.drop m.nbline) x ↔ Gen (L ++ eqRows newF) (R.map SRow.row ++ ineqRows newF) x) := by
  obtain ⟨m, hm⟩ : ∃ m, addAndMinimize (d + 1) dec false (L ++ R.map SRow.row) newF E I = some m := by
    rw [addAndMinimize, finishMin, if_neg (by simp)]; exact ⟨_, rfl⟩
  refine ⟨m, hm, ?_⟩
  obtain ⟨h1, h2⟩ := addAndMinimize_ok hmin.symm hm
  refine ⟨h1, fun x => ?_⟩
  have hdual : ∀ (A B : List Row) , (∀ v : Fin d → K, Sat A v ↔ Sat B v) → ∀ x : Fin d → K,
      Gen (eqRows A) (ineqRows A) x → Gen (eqRows B) (ineqRows B) x := by
    intro A B hAB x hx
    refine farkas_rows fun v hv => ?_
    have hv' := (hAB v).2 hv
    rw [linV_comm]
    refine Gen.le (G := fun x => 0 ≤ linV v x) ⟨by simp, fun h1 h2 => by rw [map_add]; exact add_nonneg h1 h2,
      fun ht h => by rw [map_smul, smul_eq_mul]; exact mul_nonneg ht h⟩ (fun l h => ?_) (fun r hr => ?_) hx
    · rw [eqRows, List.mem_filter] at h
      have := (hv' l h.1).2 (by simpa using h.2)
      rw [dot_eq_linV, linV_comm] at this
      rw [map_neg, this]; simp
    · rw [ineqRows, List.mem_filter] at hr
      have := (hv' r hr.1).1
      rwa [dot_eq_linV, linV_comm] at this
  have hs : ∀ v : Fin d → K, Sat (m.C.map SRow.row) v ↔ Sat (L ++ R.map SRow.row ++ newF) v := fun v =>
    (h2 v).trans Sat.append.symm
  have heq : ∀ x : Fin d → K, Gen (eqRows (L ++ R.map SRow.row ++ newF)) (ineqRows (L ++ R.map SRow.row ++ newF)) x ↔
      Gen (L ++ eqRows newF) (R.map SRow.row ++ ineqRows newF) x := by
    intro x
    have e1 : eqRows (L ++ R.map SRow.row ++ newF) = L ++ eqRows newF := by
      rw [eqRows, List.filter_append, List.filter_append, List.filter_eq_self.2 (fun q hq => by simp [hmin.lines q hq])]
      have : (R.map SRow.row).filter (fun q => q.at' 0 == 0) = [] := by
        rw [List.filter_eq_nil_iff]
        intro q hq
        obtain ⟨y, hy, rfl⟩ := List.mem_map.1 hq
        have := hmin.rays y hy; simp; omega
      rw [this, List.append_nil]; rfl
    have e2 : ineqRows (L ++ R.map SRow.row ++ newF) = R.map SRow.row ++ ineqRows newF := by
      rw [ineqRows, List.filter_append, List.filter_append]
      have h1 : L.filter (fun q => q.at' 0 != 0) = [] := by
        rw [List.filter_eq_nil_iff]
        intro q hq
        rw [hmin.lines q hq]; simp
      have h2 : (R.map SRow.row).filter (fun q => q.at' 0 != 0) = R.map SRow.row := by
        rw [List.filter_eq_self]
        intro q hq
        obtain ⟨y, hy, rfl⟩ := List.mem_map.1 hq
        have := hmin.rays y hy; simp; omega
      rw [h1, h2, List.nil_append]; rfl
    rw [e1, e2]
  have first : Gen (eqRows (m.C.map SRow.row)) (ineqRows (m.C.map SRow.row)) x ↔
      Gen (L ++ eqRows newF) (R.map SRow.row ++ ineqRows newF) x := by
    rw [← heq]
    exact ⟨hdual _ _ hs x, hdual _ _ (fun v => (hs v).symm) x⟩
  refine ⟨first, ?_⟩
  rw [← first]
  obtain ⟨a1, a2, a3, a4, a5⟩ := h1
  have h5 := a5.dual.gen_iff x
  rw [resat_rows] at h5
  rw [h5]
  have e1 : eqRows (m.C.map SRow.row) = (m.C.take m.nbeq).map SRow.row := by
    conv_lhs => rw [← List.take_append_drop m.nbeq m.C, List.map_append]
    rw [eqRows, List.filter_append, List.filter_eq_self.2 (fun q hq => by simp [a5.eqs q hq])]
    have : ((m.C.drop m.nbeq).map SRow.row).filter (fun q => q.at' 0 == 0) = [] := by
      rw [List.filter_eq_nil_iff]
      intro q hq
      obtain ⟨y, hy, rfl⟩ := List.mem_map.1 hq
      have := a5.ineqs y hy; simp; omega
    rw [this, List.append_nil]
  have e2 : ineqRows (m.C.map SRow.row) = (m.C.drop m.nbeq).map SRow.row := by
    conv_lhs => rw [← List.take_append_drop m.nbeq m.C, List.map_append]
    rw [ineqRows, List.filter_append]
    have h1 : ((m.C.take m.nbeq).map SRow.row).filter (fun q => q.at' 0 != 0) = [] := by
      rw [List.filter_eq_nil_iff]
      intro q hq
      rw [a5.eqs q hq]; simp
    have h2 : ((m.C.drop m.nbeq).map SRow.row).filter (fun q => q.at' 0 != 0) = (m.C.drop m.nbeq).map SRow.row := by
      rw [List.filter_eq_self]
      intro q hq
      obtain ⟨y, hy, rfl⟩ := List.mem_map.1 hq
      have := a5.ineqs y hy; simp; omega
    rw [h1, h2, List.nil_append]
  rw [e1, e2]

/-- the hypotheses: the representation of the segment `0 ≤ x ≤ 1` (column 1 is `ξ`) computed by `cherni_minimize` -/
example : ∃ E I L R, MinOk ℚ 2 E I L R ∧ addAndMinimize 3 2 true (E ++ I.map SRow.row) [[1, -1, 2]] L R ≠ none := by
  have hm : minimize 3 2 true [[1, 1, 0], [1, 0, 1], [1, 1, -1]] =
      some ⟨[⟨[1, 1, -1], 1⟩, ⟨[1, 0, 1], 2⟩], [[1, 1, 0], [1, 1, 1]], 0, 0⟩ := by decide +kernel
  obtain ⟨a1, a2, a3, a4, a5⟩ := C87_minimize_minOk (K := ℚ) (d := 2) hm
  exact ⟨_, _, _, _, a5, by decide +kernel⟩

end Apron.Props
