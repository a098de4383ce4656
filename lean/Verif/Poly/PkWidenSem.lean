import Verif.Poly.PkWidenSearch
import Verif.Poly.PkMatrix

/-!
# Widening of convex polyhedra: saturation and extremality
-/

set_option autoImplicit false
set_option linter.unusedSectionVars false

namespace Apron.Poly

variable {K : Type*} [LinearOrder K] [Field K] [IsStrictOrderedRing K] {n d : ℕ}

/-- what `v` saturates among the generators `G` is also saturated by `w` -/
def ZLe (G : List Row) (v w : Fin d → K) : Prop := ∀ g ∈ G, dot g v = 0 → dot g w = 0

/-- `v` saturates all the generators -/
def ZAll (G : List Row) (v : Fin d → K) : Prop := ∀ g ∈ G, dot g v = 0

theorem dot_add_right (g : Row) (v w : Fin d → K) : dot g (v + w) = dot g v + dot g w := by
  rw [← lin_apply, map_add, lin_apply, lin_apply]

theorem dot_smul_right (g : Row) (t : K) (v : Fin d → K) : dot g (t • v) = t * dot g v := by
  rw [← lin_apply, map_smul, lin_apply, smul_eq_mul]

theorem dot_neg_right (g : Row) (v : Fin d → K) : dot g (-v) = - dot g v := by
  rw [← lin_apply, map_neg, lin_apply]

theorem zAll_rowSpan {G E : List Row} (h : ∀ e ∈ E, ZAll (K := K) (d := d) G (toV K d e)) {v : Fin d → K} (hv : v ∈ rowSpan K d E) :
    ZAll G v := by
  intro g hg
  rw [rowSpan] at hv
  induction hv using Submodule.span_induction with
  | mem x hx => obtain ⟨e, he, rfl⟩ := hx; exact h e he g hg
  | zero => rw [← lin_apply, map_zero]
  | add x y _ _ hx hy => rw [dot_add_right, hx, hy, add_zero]
  | smul t x _ hx => rw [dot_smul_right, hx, mul_zero]

section MinOk
variable {E L : List Row} {I R : List SRow}

theorem MinOk.zAll_eq (h : MinOk K d E I L R) {e : Row} (he : e ∈ E) : ZAll (K := K) (d := d) (L ++ R.map SRow.row) (toV K d e) := by
  intro g hg
  rw [dot_toV, h.dual.line e he g hg, Int.cast_zero]

theorem MinOk.zAll_iff (h : MinOk K d E I L R) (v : Fin d → K) : ZAll (L ++ R.map SRow.row) v ↔ v ∈ rowSpan K d E :=
  ⟨fun hv => Gen.mem_rowSpan ((h.dual.lin_iff v).1 hv), fun hv => zAll_rowSpan (fun _ he => h.zAll_eq he) hv⟩

theorem MinOk.not_zAll (h : MinOk K d E I L R) {x : SRow} (hx : x ∈ I) : ¬ ZAll (K := K) (d := d) (L ++ R.map SRow.row) (toV K d x.row) := by
  obtain ⟨q, hq, hne⟩ := h.dual.proper x hx
  intro hz
  have := hz q hq
  rw [dot_toV] at this
  exact hne (by exact_mod_cast this)

theorem MinOk.polar_eq (h : MinOk K d E I L R) {e : Row} (he : e ∈ E) : Sat (K := K) (d := d) (L ++ R.map SRow.row) (toV K d e) := by
  intro g hg
  rw [h.zAll_eq he g hg]; exact ⟨le_rfl, fun _ => rfl⟩

theorem MinOk.polar_ineq (h : MinOk K d E I L R) {x : SRow} (hx : x ∈ I) :
    Sat (K := K) (d := d) (L ++ R.map SRow.row) (toV K d x.row) := by
  intro g hg
  obtain ⟨h1, h2⟩ := h.dual.ray x hx g hg
  rw [dot_toV]
  exact ⟨by exact_mod_cast h1, fun h0 => by rw [h2 h0, Int.cast_zero]⟩

/-- a valid constraint that saturates at least what an irredundant constraint saturates, and is not an equality, is a
positive multiple of it up to equalities -/
theorem MinOk.extreme (h : MinOk K d E I L R) {x : SRow} (hx : x ∈ I) {v : Fin d → K} (hv : Sat (L ++ R.map SRow.row) v)
    (hz : ZLe (L ++ R.map SRow.row) (toV K d x.row) v) (hn : ¬ ZAll (L ++ R.map SRow.row) v) :
    ∃ t : K, 0 < t ∧ v - t • toV K d x.row ∈ rowSpan K d E := by
  obtain ⟨i, hi, rfl⟩ := List.getElem_of_mem hx
  obtain ⟨l, hl, w, hw, e, hd⟩ := h.dual.toDD.decomp (sat_iff.1 hv)
  have h0 : ∀ j, j ≠ ⟨i, hi⟩ → w j = 0 := by
    intro j hj
    by_contra hne
    have hpos : 0 < w j := lt_of_le_of_ne (hw j) (Ne.symm hne)
    obtain ⟨b, hb, h1, h2⟩ := h.dual.toDD.anti ⟨i, hi⟩ j (Ne.symm hj)
    exact h2 (hd j hpos b hb (hz _ (getD_mem hb) h1))
  have e' : v = l + w ⟨i, hi⟩ • toV K d (I[i]).row := by
    rw [e, Finset.sum_eq_single ⟨i, hi⟩]
    · rfl
    · intro j _ hj; rw [h0 j hj, zero_smul]
    · intro hc; exact absurd (Finset.mem_univ _) hc
  refine ⟨w ⟨i, hi⟩, lt_of_le_of_ne (hw _) ?_, ?_⟩
  · intro hc
    rw [← hc, zero_smul, add_zero] at e'
    apply hn
    rw [e']
    exact (h.zAll_iff l).2 hl
  · rw [e', add_sub_cancel_right]; exact hl

/-- constraints equal up to a positive factor and equalities saturate the same generators -/
theorem MinOk.same_of_mod (h : MinOk K d E I L R) {v w : Fin d → K} {t : K} (ht : 0 < t) (he : v - t • w ∈ rowSpan K d E) :
    ∀ g ∈ L ++ R.map SRow.row, (dot g v = 0 ↔ dot g w = 0) := by
  intro g hg
  have h1 := (h.zAll_iff _).2 he g hg
  have h2 : dot g v = t * dot g w := by
    have : dot g v = dot g (v - t • w) + dot g (t • w) := by rw [← dot_add_right, sub_add_cancel]
    rw [this, h1, zero_add, dot_smul_right]
  rw [h2, mul_eq_zero]
  exact ⟨fun h => h.resolve_left ht.ne', fun h => .inr h⟩

/-- two irredundant constraints with comparable saturations are the same -/
theorem MinOk.anti_eq (h : MinOk K d E I L R) {x y : SRow} (hx : x ∈ I) (hy : y ∈ I)
    (hz : ZLe (K := K) (d := d) (L ++ R.map SRow.row) (toV K d x.row) (toV K d y.row)) : x = y := by
  by_contra hne
  obtain ⟨q, hq, h1, h2⟩ := h.dual.row_ne hx hy hne
  have h3 : dot (K := K) (d := d) q (toV K d x.row) = 0 := by rw [dot_toV, h1, Int.cast_zero]
  have h4 := hz q hq h3
  rw [dot_toV] at h4
  exact h2 (by exact_mod_cast h4)

end MinOk

/-- a constraint implied by valid ones is implied by those that saturate at least as much -/
theorem genM_face {C G : List Row} (hC : ∀ c ∈ C, Sat (K := K) (d := d) G (toV K d c))
    (hE : ∀ c ∈ C, c.at' 0 = 0 → ZAll (K := K) (d := d) G (toV K d c)) {v : Fin d → K} (hv : GenM C v)
    {S : (Fin d → K) → Prop} (hS : IsCone (K := K) S)
    (h : ∀ c ∈ C, ZLe G v (toV K d c) → S (toV K d c) ∧ (c.at' 0 = 0 → S (-toV K d c))) : S v := by
  suffices hs : Sat G v ∧ ((∀ c ∈ C, ZLe G v (toV K d c) → S (toV K d c) ∧ (c.at' 0 = 0 → S (-toV K d c))) → S v) from hs.2 h
  clear h
  refine Gen.le (G := fun v => Sat G v ∧
    ((∀ c ∈ C, ZLe G v (toV K d c) → S (toV K d c) ∧ (c.at' 0 = 0 → S (-toV K d c))) → S v)) ⟨?_, ?_, ?_⟩ ?_ ?_ hv
  · exact ⟨(Sat.isCone G).zero, fun _ => hS.zero⟩
  · rintro x y ⟨hx, hx'⟩ ⟨hy, hy'⟩
    refine ⟨(Sat.isCone G).add hx hy, fun h => hS.add (hx' fun c hc hz => h c hc ?_) (hy' fun c hc hz => h c hc ?_)⟩
    · intro g hg h0
      refine hz g hg ?_
      rw [dot_add_right] at h0
      have := (hx g hg).1; have := (hy g hg).1
      linarith
    · intro g hg h0
      refine hz g hg ?_
      rw [dot_add_right] at h0
      have := (hx g hg).1; have := (hy g hg).1
      linarith
  · rintro x t ht ⟨hx, hx'⟩
    refine ⟨(Sat.isCone G).smul ht hx, fun h => ?_⟩
    rcases ht.eq_or_lt with rfl | hpos
    · rw [zero_smul]; exact hS.zero
    · refine hS.smul ht (hx' fun c hc hz => h c hc fun g hg h0 => hz g hg ?_)
      rw [dot_smul_right, mul_eq_zero] at h0
      exact h0.resolve_left hpos.ne'
  · intro c hc
    rw [eqRows, List.mem_filter] at hc
    have h0 : c.at' 0 = 0 := by simpa using hc.2
    refine ⟨⟨hC c hc.1, fun h => (h c hc.1 fun g _ h => h).1⟩, ⟨?_, fun h => (h c hc.1 fun g hg h => ?_).2 h0⟩⟩
    · intro g hg
      rw [dot_neg_right, hE c hc.1 h0 g hg]; simp
    · exact hE c hc.1 h0 g hg
  · intro c hc
    rw [ineqRows, List.mem_filter] at hc
    exact ⟨hC c hc.1, fun h => (h c hc.1 fun g _ h => h).1⟩

/-! ## The rows of a polyhedron -/

theorem Full.Ok.eq_of_lt {f : Full} (h : f.Ok K d) {i : ℕ} (hi : i < f.nbeq) : f.crows.getD i [] ∈ f.eqs := by
  have h1 := h.eqs_length
  rw [crows_eq, List.getD_append _ _ _ _ (by omega)]
  exact getD_mem (by omega)

theorem Full.Ok.ineq_of_ge {f : Full} (h : f.Ok K d) {i : ℕ} (hi : f.nbeq ≤ i) (hl : i < f.C.length) :
    ∃ x ∈ f.ineqs, x = f.C.getD i ⟨[], 0⟩ ∧ f.crows.getD i [] = x.row := by
  have e : f.C.getD i ⟨[], 0⟩ = f.C[i] := by rw [List.getD_eq_getElem?_getD, List.getElem?_eq_getElem hl]; rfl
  refine ⟨f.C[i], ?_, e.symm, ?_⟩
  · rw [Full.ineqs]
    have : f.C[i] = (f.C.drop f.nbeq)[i - f.nbeq]'(by rw [List.length_drop]; omega) := by
      rw [List.getElem_drop]; congr 1; omega
    rw [this]; exact List.getElem_mem _
  · rw [Full.crows, List.getD_eq_getElem?_getD, List.getElem?_map, List.getElem?_eq_getElem hl]; rfl

/-- equal keys: the same generators are saturated -/
theorem satRow_iff {f : Full} (h : f.Ok K (n + 1)) {i : ℕ} (hi : i < f.C.length) (q : Row) :
    satKey f.F.length (f.satRow i) = satKey f.F.length (satLine (n + 1) f.frows q) ↔
      ∀ g ∈ f.frows, (dot (K := K) g (toV K (n + 1) (f.crows.getD i [])) = 0 ↔ dot (K := K) g (toV K (n + 1) q) = 0) := by
  have hlen : f.F.length = f.frows.length := by rw [Full.frows, List.length_map]
  have hbit : ∀ b, b < f.frows.length → ((f.satRow i).testBit b = decide (¬ vprod (n + 1) (f.frows.getD b []) (f.crows.getD i []) = 0)) := by
    intro b hb
    rw [Full.satRow]
    by_cases hlt : i < f.nbeq
    · rw [if_pos hlt, Nat.zero_testBit]
      have := h.min.dual.line _ (h.eq_of_lt hlt) (f.frows.getD b []) (by rw [← frows_eq]; exact getD_mem hb)
      exact (decide_eq_false (not_not.2 this)).symm
    · rw [if_neg hlt]
      obtain ⟨x, hx, e1, e2⟩ := h.ineq_of_ge (not_lt.1 hlt) hi
      rw [← e1, h.min.dual.sat x hx b, e2, ← frows_eq]
      simp [hb]
  rw [satKey_eq_iff, hlen]
  constructor
  · intro hk g hg
    obtain ⟨b, hb, rfl⟩ := List.getElem_of_mem hg
    have eg : f.frows[b] = f.frows.getD b [] := by rw [List.getD_eq_getElem?_getD, List.getElem?_eq_getElem hb]; rfl
    have := hk b hb
    rw [hbit b hb, satLine_testBit] at this
    rw [eg, dot_toV, dot_toV]
    simp only [hb, true_and, decide_eq_decide] at this
    constructor
    · intro h0
      have h0' : vprod (n + 1) (f.frows.getD b []) (f.crows.getD i []) = 0 := by exact_mod_cast h0
      by_contra hne
      exact this.2 (fun h => hne (by rw [h, Int.cast_zero])) h0'
    · intro h0
      have h0' : vprod (n + 1) (f.frows.getD b []) q = 0 := by exact_mod_cast h0
      by_contra hne
      exact this.1 (fun h => hne (by rw [h, Int.cast_zero])) h0'
  · intro hk b hb
    rw [hbit b hb, satLine_testBit]
    have := hk _ (getD_mem hb)
    rw [dot_toV, dot_toV] at this
    simp only [Int.cast_eq_zero] at this
    simp only [hb, true_and, decide_eq_decide, ne_eq]
    exact not_congr this

end Apron.Poly
