import Verif.Poly.PkMeet

/-!
# Polyhedra: the universe
-/

set_option autoImplicit false
set_option linter.unusedSectionVars false

namespace Apron.Poly

variable {K : Type*} [LinearOrder K] [Field K] [IsStrictOrderedRing K] {n d : ℕ}

theorem toV_posRow : toV K (n + 1) (posRow n) = e0 K n := by
  funext i
  refine Fin.cases ?_ (fun j => ?_) i
  · simp [toV, posRow, at_ofFun, e0]
  · simp [toV, posRow, at_ofFun, e0]

theorem dot_posRow (y : Fin (n + 1) → K) : dot (posRow n) y = y 0 := by
  rw [dot_eq_linV, toV_posRow, linV_e0]

theorem posRow_status : (posRow n).at' 0 = 1 := by simp [posRow, at_ofFun]

theorem sat_posRow (y : Fin (n + 1) → K) : Sat [posRow n] y ↔ 0 ≤ y 0 := by
  simp [Sat, dot_posRow, posRow_status]

/-- the line of a dimension -/
def topLine (n i : ℕ) : Row := Row.ofFun (n + 2) fun j => if j = 2 + n - 1 - i then 1 else 0

theorem toV_topLine {i : ℕ} (hi : i < n) : toV K (n + 1) (topLine n i) = Pi.single ⟨n - i, by omega⟩ 1 := by
  funext j
  have hj := j.2
  simp only [toV, topLine, at_ofFun, Pi.single_apply]
  rw [if_pos (by omega)]
  by_cases h : (j : ℕ) = n - i
  · rw [if_pos (by omega), if_pos (Fin.ext h)]; simp
  · rw [if_neg (by omega), if_neg (fun e => h (congrArg Fin.val e))]; simp

theorem vprod_int_cast (q r : Row) : ((vprod (n + 1) q r : ℤ) : K) = linV (toV K (n + 1) q) (toV K (n + 1) r) := by
  rw [← dot_toV, dot_eq_linV]

theorem vprod_posRow (q : Row) : vprod (n + 1) (posRow n) q = q.at' 1 := by
  have : ((vprod (n + 1) (posRow n) q : ℤ) : ℚ) = ((q.at' 1 : ℤ) : ℚ) := by
    rw [vprod_int_cast, toV_posRow, linV_e0]; simp [toV]
  exact_mod_cast this

/-- the fields of `poly_set_top` -/
def topFull (n : ℕ) : Full :=
  { C := [⟨posRow n, 1 <<< n⟩]
    F := ((List.range n).map fun i => ⟨topLine n i, 0⟩) ++ [⟨posRow n, 1⟩]
    nbeq := 0, nbline := n, consgauss := true, gengauss := true, sortedC := true, sortedF := true }

theorem top_eq : Rep.top n = .both (topFull n) := rfl

theorem topFull_lines : (topFull n).lines = (List.range n).map (topLine n) := by
  rw [Full.lines, topFull]
  dsimp only
  rw [List.take_append_of_le_length (by simp), List.take_of_length_le (by simp), List.map_map]
  rfl

theorem topFull_rays : (topFull n).rays = [⟨posRow n, 1⟩] := by
  rw [Full.rays, topFull]
  dsimp only
  rw [List.drop_append_of_le_length (by simp), List.drop_eq_nil_of_le (by simp), List.nil_append]

theorem topLine_one {i : ℕ} (hi : i < n) : (topLine n i).at' 1 = 0 := by
  simp only [topLine, at_ofFun]; rw [if_pos (by omega), if_neg (by omega)]

theorem topLine_zero {i : ℕ} (hi : i < n) : (topLine n i).at' 0 = 0 := by
  simp only [topLine, at_ofFun]; rw [if_pos (by omega), if_neg (by omega)]

theorem gen_topLines (y : Fin (n + 1) → K) (h : y 0 = 0) : y ∈ rowSpan K (n + 1) ((List.range n).map (topLine n)) := by
  have e : y = ∑ j : Fin n, y j.succ • toV K (n + 1) (topLine n (n - 1 - j)) := by
    funext i
    rw [Finset.sum_apply]
    refine Fin.cases ?_ (fun k => ?_) i
    · rw [h]; symm
      refine Finset.sum_eq_zero fun j _ => ?_
      have hj := j.2
      rw [toV_topLine (by omega), Pi.smul_apply, Pi.single_eq_of_ne, smul_zero]
      intro e; have := congrArg Fin.val e; simp at this; omega
    · rw [Finset.sum_eq_single k]
      · have hk := k.2
        rw [toV_topLine (by omega), Pi.smul_apply, Pi.single_apply, if_pos (Fin.ext (by simp; omega)), smul_eq_mul, mul_one]
      · intro j _ hjk
        have hj := j.2
        rw [toV_topLine (by omega), Pi.smul_apply, Pi.single_eq_of_ne, smul_zero]
        intro e
        have := congrArg Fin.val e
        simp at this
        exact hjk (Fin.ext (by omega))
      · intro h; exact absurd (Finset.mem_univ _) h
  rw [e]
  refine Submodule.sum_mem _ fun j _ => Submodule.smul_mem _ _ (mem_rowSpan (List.mem_map.2 ⟨n - 1 - j, ?_, rfl⟩))
  have := j.2
  simp; omega

theorem bit_zero (b : ℕ) : (1 : ℕ).testBit b = decide (b = 0) := by
  have := Nat.testBit_two_pow (n := 0) (m := b)
  rw [pow_zero] at this
  rw [this]; simp [eq_comm]

theorem topFull_ok : (topFull n).Ok K (n + 1) := by
  have hmem : ∀ l ∈ (List.range n).map (topLine n), ∃ i, i < n ∧ l = topLine n i := by
    intro l hl
    obtain ⟨i, hi, rfl⟩ := List.mem_map.1 hl
    exact ⟨i, by simpa using hi, rfl⟩
  have hpp : vprod (n + 1) (posRow n) (posRow n) = 1 := by
    rw [vprod_posRow]; simp [posRow, at_ofFun]
  have hpl : ∀ i, i < n → vprod (n + 1) (posRow n) (topLine n i) = 0 := fun i hi => by rw [vprod_posRow, topLine_one hi]
  have heq : (topFull n).eqs = [] := rfl
  have hin : (topFull n).ineqs = [⟨posRow n, 1 <<< n⟩] := rfl
  refine ⟨Nat.zero_le _, ?_, ?_, ?_, ?_⟩
  · simp [topFull]
  · rw [heq, hin, topFull_lines, topFull_rays]
    refine ⟨by simp, by simp [posRow_status], ?_, by simp [posRow_status], ?_, ?_⟩
    · intro q hq; obtain ⟨i, hi, rfl⟩ := hmem q hq; exact topLine_zero hi
    · refine ⟨?_, ?_, ?_, ?_, by simp, ?_⟩
      · intro l hl q hq
        obtain ⟨i, hi, rfl⟩ := hmem l hl
        simp only [List.map_cons, List.map_nil, List.nil_append, List.mem_singleton] at hq
        subst hq; exact hpl i hi
      · intro x hx q hq
        simp only [List.map_cons, List.map_nil, List.nil_append, List.mem_singleton] at hx hq
        subst hx hq
        rw [hpp]; exact ⟨by norm_num, fun h => by rw [posRow_status] at h; norm_num at h⟩
      · intro y hy
        simp only [List.map_cons, List.map_nil, List.nil_append] at hy ⊢
        rw [sat_posRow] at hy
        have hz := gen_topLines (y - y 0 • e0 K n) (by simp [e0])
        have h1 : Gen ((List.range n).map (topLine n)) [posRow n] (y - y 0 • e0 K n) := Gen.of_span hz
        have h2 := (Gen.of_ray (lines := (List.range n).map (topLine n)) (List.mem_singleton.2 (rfl : posRow n = posRow n))).smul (K := K) (d := n + 1) hy
        rw [toV_posRow] at h2
        have := h1.add h2
        rwa [sub_add_cancel] at this
      · intro x hx
        simp only [List.mem_singleton] at hx
        subst hx
        exact ⟨posRow n, by simp, by dsimp only; rw [hpp]; norm_num⟩
      · intro x hx
        simp only [List.mem_singleton] at hx
        subst hx
        intro b
        dsimp only
        rw [bit_zero]
        congr 1
        rw [eq_iff_iff]
        constructor
        · rintro rfl; refine ⟨by simp, ?_⟩; simp [hpp]
        · intro h; have := h.1; simp at this; exact this
    · refine ⟨by simp, ?_, ?_, ?_, by simp, ?_⟩
      · intro x hx q hq
        simp only [List.mem_singleton] at hx
        subst hx
        rcases List.mem_append.1 hq with hq | hq
        · obtain ⟨i, hi, rfl⟩ := hmem q hq
          rw [vprod_comm, hpl i hi]; exact ⟨le_rfl, fun _ => rfl⟩
        · simp only [List.map_cons, List.map_nil, List.mem_singleton] at hq
          subst hq
          rw [hpp]; exact ⟨by norm_num, fun h => by rw [posRow_status] at h; norm_num at h⟩
      · intro v hv
        simp only [List.map_cons, List.map_nil] at hv ⊢
        rw [Sat.append, sat_iff_polar] at hv
        have hlin : ∀ y : Fin (n + 1) → K, y 0 = 0 → linV v y = 0 := by
          intro y hy
          have hs := gen_topLines y hy
          have g1 : Gen ((List.range n).map (topLine n)) [] y := Gen.of_span hs
          have g2 : Gen ((List.range n).map (topLine n)) [] (-y) := Gen.of_span (Submodule.neg_mem _ hs)
          have conv : ∀ z : Fin (n + 1) → K, Gen ((List.range n).map (topLine n)) [] z → GenM ((List.range n).map (topLine n)) z := by
            intro z hz
            have := (genM_append (d := n + 1) (L := (List.range n).map (topLine n)) (R := []) (fun q hq => by
              obtain ⟨i, hi, rfl⟩ := hmem q hq; exact topLine_zero hi) (by simp) z).2 hz
            rwa [List.append_nil] at this
          have a1 := hv.1 y (conv y g1)
          have a2 := hv.1 (-y) (conv _ g2)
          rw [map_neg] at a2
          exact le_antisymm (by linarith) a1
        have hv0 : v = v 0 • e0 K n := by
          funext i
          refine Fin.cases ?_ (fun j => ?_) i
          · simp [e0]
          · have := hlin (Pi.single j.succ 1) (by simp)
            rw [linV_apply, Finset.sum_eq_single j.succ] at this
            · simpa [e0] using this
            · intro k _ hk; simp [hk]
            · intro h; exact absurd (Finset.mem_univ _) h
        have hp : 0 ≤ v 0 := by
          have := (hv.2 (posRow n) (by simp)).1
          rwa [dot_posRow] at this
        rw [hv0, ← toV_posRow]
        exact (Gen.of_ray (by simp)).smul hp
      · intro x hx
        simp only [List.mem_singleton] at hx
        subst hx
        exact ⟨posRow n, by simp, by dsimp only; rw [hpp]; norm_num⟩
      · intro x hx
        simp only [List.mem_singleton] at hx
        subst hx
        intro b
        dsimp only
        rw [Nat.one_shiftLeft, Nat.testBit_two_pow]
        congr 1
        rw [eq_iff_iff]
        constructor
        · rintro rfl
          refine ⟨by simp, ?_⟩
          rw [List.getD_append_right _ _ _ _ (by simp)]
          simp [hpp]
        · intro h
          have h1 := h.1
          simp at h1
          by_contra hb
          have hlt : b < n := by omega
          apply h.2
          rw [List.getD_append _ _ _ _ (by simpa using hlt), List.getD_eq_getElem?_getD, List.getElem?_map, List.getElem?_range hlt]
          simp only [Option.map_some, Option.getD_some]
          rw [vprod_comm, hpl b hlt]
  · rw [heq]; exact Nat.le_zero.1 (finrank_rowSpan_le [])
  · rw [topFull_lines]
    refine le_antisymm (finrank_rowSpan_le _) ?_
    -- the span is the kernel of the first coordinate
    have hle : ((⊤ : Submodule K (Fin (n + 1) → K))) ≤ rowSpan K (n + 1) ((List.range n).map (topLine n)) ⊔ Submodule.span K {e0 K n} := by
      intro y _
      have := gen_topLines (y - y 0 • e0 K n) (by simp [e0])
      have e : y = (y - y 0 • e0 K n) + y 0 • e0 K n := by rw [sub_add_cancel]
      rw [e]
      exact Submodule.add_mem_sup this (Submodule.smul_mem _ _ (Submodule.mem_span_singleton_self _))
    have h2 := Submodule.finrank_mono hle
    have h3 := Submodule.finrank_add_le_finrank_add_finrank (rowSpan K (n + 1) ((List.range n).map (topLine n))) (Submodule.span K {e0 K n})
    have h4 := finrank_span_finset_le_card (R := K) ({e0 K n} : Finset (Fin (n + 1) → K))
    rw [Finset.coe_singleton, Finset.card_singleton, Set.finrank] at h4
    rw [finrank_top, Module.finrank_fin_fun] at h2
    simp only [List.length_map, List.length_range]
    omega

theorem top_cone (y : Fin (n + 1) → K) : (Rep.top n).cone y ↔ 0 ≤ y 0 := by
  change Sat (topFull n).crows y ↔ _
  rw [← sat_posRow]; rfl

theorem top_wf : (Rep.top n).Wf K n := by
  refine ⟨topFull_ok, fun y hy => (top_cone y).1 hy, e0 K n, (top_cone _).2 ?_, ?_⟩ <;> simp [e0]

theorem top_γ (x : Fin n → K) : (Rep.top n).γ x := (top_cone _).2 (by rw [hom_zero]; exact zero_le_one)

/-- a constraint matrix that contains the row `ξ ≥ 0` is well formed -/
theorem cons_wf {C : List Row} (h : posRow n ∈ C) : (Rep.cons C).Wf K n := by
  intro y hy
  have := (hy _ h).1
  rwa [dot_posRow] at this

end Apron.Poly
