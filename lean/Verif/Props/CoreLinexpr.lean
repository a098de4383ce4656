import Verif.Core.LinexprAccess
import Verif.Props.CoreDim

/-!
# Linear expressions: properties C49, C50

`e.coeffAt d` (specification) is the coefficient of dimension `d` among the terms of the expression, 0
when there is none.  `e.Wf` is the documented invariant: sparse terms strictly sorted, free slots at the
end.
-/

set_option autoImplicit false
set_option linter.unusedSectionVars false
set_option linter.ambiguousOpen false

namespace Apron
open Bound Linexpr
variable {K : Type*} [LinearOrder K] [Field K] [IsStrictOrderedRing K]

/-! ## C49: reading and writing coefficients -/

/-- `ap_linexpr0_get_coeff` returns the coefficient of the dimension; it fails exactly on a dense
expression that is too short and on `AP_DIM_MAX` -/
theorem C49_get (e : Linexpr K) (he : e.Wf) (d : ℕ) :
    (∀ c, getCoeff e d = some c → c = e.coeffAt d) ∧
    (getCoeff e d = none ↔ d = dimMax ∨ ∃ l, e.body = .dense l ∧ l.length ≤ d) := by
  obtain ⟨c0, b⟩ := e
  cases b with
  | dense l =>
    have hl : l.length ≤ dimMax := he
    simp only [getCoeff]
    split_ifs with h
    · refine ⟨fun c hc => ?_, ?_⟩
      · cases hc
        symm
        apply coeffAt_of_mem he
        rw [mem_terms_dense, List.getD, List.getElem?_eq_getElem h]; rfl
      · simp only [reduceCtorEq, false_iff, not_or, not_exists, not_and]
        exact ⟨by omega, fun l' e => by cases e; omega⟩
    · exact ⟨by simp, by simp only [true_iff]; exact Or.inr ⟨l, rfl, by omega⟩⟩
  | sparse l =>
    have hw : SparseWf l := he
    by_cases hd : d = dimMax
    · simp [getCoeff, hd]
    · obtain ⟨h1, h2⟩ := getCoeff_sparse hw hd c0
      have : ∃ c, getCoeff ⟨c0, .sparse l⟩ d = some c ∧ c = coeffAt ⟨c0, .sparse l⟩ d := by
        by_cases hm : ∃ c, (d, c) ∈ l
        · obtain ⟨c, hc⟩ := hm
          exact ⟨c, h1 c hc, (coeffAt_of_mem he ((hw.mem_terms _).2 ⟨hc, hd⟩)).symm⟩
        · push Not at hm
          exact ⟨czero, h2 hm, (coeffAt_of_not_mem he fun c hc => hm c ((hw.mem_terms _).1 hc).1).symm⟩
      obtain ⟨c, e1, e2⟩ := this
      rw [e1]
      exact ⟨fun c' h => by cases h; exact e2, by simp [hd]⟩

/-- `ap_linexpr0_set_coeff` replaces the coefficient of the dimension, leaves every other coefficient and
the constant as they were, and keeps the invariant of the expression -/
theorem C49_set (e e' : Linexpr K) (he : e.Wf) (d : ℕ) (hd : d ≤ dimMax) (c : Coeff K)
    (h : setCoeff e d c = some e') :
    e'.Wf ∧ e'.cst = e.cst ∧ e'.coeffAt d = c ∧ ∀ k, k ≠ d → e'.coeffAt k = e.coeffAt k := by
  obtain ⟨c0, b⟩ := e
  cases b with
  | dense l =>
    have hl : l.length ≤ dimMax := he
    simp only [setCoeff, coeffref] at h
    split_ifs at h with hlt
    · simp only [Option.map_some, Option.some.injEq, writeAt] at h
      subst h
      have hw : (⟨c0, .dense (l.set d c)⟩ : Linexpr K).Wf := by
        show (l.set d c).length ≤ dimMax; rw [List.length_set]; exact hl
      refine ⟨hw, rfl, ?_, fun k hk => ?_⟩
      · apply coeffAt_of_mem hw; rw [mem_terms_dense, List.getElem?_set_self hlt]
      · by_cases hk' : k < l.length
        · have h1 : coeffAt ⟨c0, .dense l⟩ k = l[k] := by
            apply coeffAt_of_mem he; rw [mem_terms_dense, List.getElem?_eq_getElem hk']
          rw [h1]
          apply coeffAt_of_mem hw
          rw [mem_terms_dense, List.getElem?_set_ne (Ne.symm hk), List.getElem?_eq_getElem hk']
        · rw [coeffAt_of_not_mem he, coeffAt_of_not_mem hw]
          · intro c' hc'
            rw [mem_terms_dense, List.getElem?_eq_none (by rw [List.length_set]; omega)] at hc'
            cases hc'
          · intro c' hc'
            rw [mem_terms_dense, List.getElem?_eq_none (by omega)] at hc'
            cases hc'
    · simp at h
  | sparse l =>
    have hw : SparseWf l := he
    simp only [setCoeff, coeffref] at h
    split_ifs at h with hdm
    · simp at h
    · obtain ⟨lo, c1, hi, h1, h2, h3, h4, h5⟩ := coeffrefSparse_spec hw hdm hd
      simp only [Option.map_some, Option.some.injEq, writeAt, h1] at h
      have hset : (lo ++ (d, c1) :: hi).set lo.length (((lo ++ (d, c1) :: hi).getD lo.length (0, czero)).1, c) =
          lo ++ (d, c) :: hi := by
        simp [List.getD, List.getElem?_append_right]
      rw [hset] at h
      subst h
      have hmap : (lo ++ (d, c) :: hi).map Prod.fst = (lo ++ (d, c1) :: hi).map Prod.fst := by simp
      have hw' : SparseWf (lo ++ (d, c) :: hi) := by
        refine ⟨by rw [hmap]; exact h2.1, fun p hp => ?_⟩
        have : p.1 ∈ (lo ++ (d, c1) :: hi).map Prod.fst := by
          rw [← hmap]; exact List.mem_map.2 ⟨p, hp, rfl⟩
        obtain ⟨q, hq, e⟩ := List.mem_map.1 this
        rw [← e]; exact h2.2 q hq
      refine ⟨hw', rfl, ?_, fun k hk => ?_⟩
      · exact coeffAt_of_mem (e := ⟨c0, .sparse _⟩) hw' ((hw'.mem_terms _).2 ⟨by simp, hdm⟩)
      · have hmem : ∀ q, (k, q) ∈ terms ⟨c0, .sparse (lo ++ (d, c) :: hi)⟩ ↔ (k, q) ∈ terms ⟨c0, .sparse l⟩ := by
          intro q
          rw [hw'.mem_terms, hw.mem_terms]
          by_cases hkm : k = dimMax
          · simp [hkm]
          · rw [← h3 k q hkm hk]
            simp [hk]
        by_cases hm : ∃ q, (k, q) ∈ terms ⟨c0, .sparse l⟩
        · obtain ⟨q, hq⟩ := hm
          rw [coeffAt_of_mem he hq]
          exact coeffAt_of_mem (e := ⟨c0, .sparse _⟩) hw' ((hmem q).2 hq)
        · push Not at hm
          rw [coeffAt_of_not_mem he hm]
          exact coeffAt_of_not_mem (e := ⟨c0, .sparse _⟩) hw' fun q hq => hm q ((hmem q).1 hq)

/-- a write fails exactly when a read does -/
theorem C49_set_defined (e : Linexpr K) (d : ℕ) (c : Coeff K) :
    setCoeff e d c = none ↔ getCoeff e d = none := by
  obtain ⟨c0, b⟩ := e
  cases b with
  | dense l =>
    simp only [setCoeff, coeffref, getCoeff]
    split_ifs <;> simp
  | sparse l =>
    simp only [setCoeff, coeffref, getCoeff]
    split_ifs <;> simp

/-- what is written is read back -/
theorem C49_set_get (e e' : Linexpr K) (he : e.Wf) (d : ℕ) (hd : d ≤ dimMax) (c : Coeff K)
    (h : setCoeff e d c = some e') :
    getCoeff e' d = some c ∧ ∀ k, k ≠ d → getCoeff e' k = getCoeff e k := by
  obtain ⟨hw, hc, h1, h2⟩ := C49_set e e' he d hd c h
  have hb : ∀ k, getCoeff e' k = none ↔ getCoeff e k = none := by
    intro k
    rw [(C49_get e' hw k).2, (C49_get e he k).2]
    obtain ⟨c0, b⟩ := e
    cases b with
    | dense l =>
      simp only [setCoeff, coeffref] at h
      split_ifs at h with hlt
      · simp only [Option.map_some, Option.some.injEq, writeAt] at h
        subst h
        simp
      · simp at h
    | sparse l =>
      simp only [setCoeff, coeffref] at h
      split_ifs at h with hlt
      · simp at h
      · simp only [Option.map_some, Option.some.injEq, writeAt] at h
        subst h
        simp
  have hd' : getCoeff e d ≠ none := fun hn => by
    rw [(C49_set_defined e d c).2 hn] at h; cases h
  refine ⟨?_, fun k hk => ?_⟩
  · cases hg : getCoeff e' d with
    | none => exact absurd ((hb d).1 hg) hd'
    | some c' => rw [(C49_get e' hw d).1 c' hg, h1]
  · cases hg : getCoeff e k with
    | none => exact (hb k).2 hg
    | some c1 =>
      cases hg' : getCoeff e' k with
      | none => rw [(hb k).1 hg'] at hg; cases hg
      | some c2 => rw [(C49_get e' hw k).1 c2 hg', (C49_get e he k).1 c1 hg, h2 k hk]

/-- the value of an expression only depends on its constant and its coefficients: sparse and dense
expressions with the same coefficients agree -/
theorem C49_value (e e' : Linexpr K) (he : e.Wf) (he' : e'.Wf) (hc : e.cst = e'.cst)
    (h : ∀ d, e.coeffAt d = e'.coeffAt d) (x : ℕ → K) (v : K) : e.Val x v ↔ e'.Val x v := by
  unfold Val
  rw [hc]
  have := fun r => termsVal_congr he.terms_sorted he'.terms_sorted h x r
  simp only [this]

/-- new expressions are 0 -/
theorem C49_alloc (n : ℕ) (hn : n ≤ dimMax) :
    (allocDense n : Linexpr K).Wf ∧ (allocSparse n : Linexpr K).Wf ∧
    ∀ d, (allocDense n : Linexpr K).coeffAt d = .scalar (fin 0) ∧
      (allocSparse n : Linexpr K).coeffAt d = .scalar (fin 0) := by
  have h1 : (allocDense n : Linexpr K).Wf := by show (List.replicate n _).length ≤ dimMax; simpa using hn
  have h2 : SparseWf (List.replicate n (dimMax, (czero : Coeff K))) := by
    refine ⟨?_, fun p hp => by rw [(List.mem_replicate.1 hp).2]⟩
    rw [List.map_replicate, List.pairwise_replicate]
    right; right; rfl
  refine ⟨h1, h2, fun d => ⟨?_, ?_⟩⟩
  · by_cases hd : d < n
    · apply coeffAt_of_mem h1
      rw [allocDense, mem_terms_dense, List.getElem?_replicate, if_pos hd]; rfl
    · apply coeffAt_of_not_mem h1
      intro c hc
      rw [allocDense, mem_terms_dense, List.getElem?_replicate, if_neg hd] at hc
      cases hc
  · refine coeffAt_of_not_mem (e := allocSparse n) h2 fun c hc => ?_
    obtain ⟨h3, h4⟩ := (h2.mem_terms _).1 hc
    exact h4 (by rw [(List.mem_replicate.1 h3).2])

/-- a sparse expression with a free slot -/
def exSp : Linexpr ℚ := ⟨.scalar (fin 1), .sparse [(1, .scalar (fin 2)), (4, .interval (fin 0) (fin 3)),
  (dimMax, .scalar (fin 0))]⟩
/-- a dense expression -/
def exDn : Linexpr ℚ := ⟨.scalar (fin 1), .dense [.scalar (fin 0), .scalar (fin 2), .interval ninf (fin 1)]⟩

theorem exSp_wf : exSp.Wf := by
  show SparseWf _
  refine ⟨?_, ?_⟩ <;> decide +kernel
example : exDn.Wf := by show (3 : ℕ) ≤ dimMax; decide
example : (setCoeff exSp 2 (.scalar (fin 7))).map Linexpr.body = some (.sparse [(1, .scalar (fin 2)), (2, .scalar (fin 7)),
    (4, .interval (fin 0) (fin 3))]) := by decide +kernel
example : (setCoeff exSp 9 (.scalar (fin 7))).bind (fun e => getCoeff e 4) = some (.interval (fin 0) (fin 3)) := by
  decide +kernel
example : setCoeff exDn 3 (.scalar (fin 7)) = none := by decide +kernel

/-! ## C50: renumbering -/

theorem lookup_dense (c0 : Coeff K) (l : List (Coeff K)) (d : ℕ) :
    (terms ⟨c0, .dense l⟩).lookup d = l[d]? := by
  have hs : ((terms ⟨c0, .dense l⟩).map Prod.fst).Pairwise (· < ·) := by
    rw [terms_dense_dims]; exact List.pairwise_lt_range
  refine Option.ext fun c => ?_
  rw [lookup_eq_some hs, mem_terms_dense]

theorem takeWhile_map_of {A B : Type*} (f : A → B) (P : B → Bool) (Q : A → Bool) (l : List A)
    (h : ∀ a ∈ l, P (f a) = Q a) : (l.map f).takeWhile P = (l.takeWhile Q).map f := by
  induction l with
  | nil => rfl
  | cons a l ih =>
    have ih := ih fun b hb => h b (List.mem_cons_of_mem _ hb)
    have ha := h a (by simp)
    rw [List.map_cons, List.takeWhile_cons, List.takeWhile_cons, ha]
    cases Q a
    · rfl
    · simp only [if_true, List.map_cons, ih]

/-- `ap_linexpr0_add_dimensions`: the value of the result at a point is the value of the expression at
the point without the inserted coordinates.  Missing: dense expressions shorter than an insertion
position. -/
theorem C50_add_dimensions_partial (e : Linexpr K) (he : e.Wf) (pos : List ℕ) (hs : pos.Pairwise (· ≤ ·))
    (hdense : ∀ l, e.body = .dense l → ∀ p ∈ pos, p ≤ l.length)
    (hmax : ∀ p ∈ e.terms, p.1 + pos.length < dimMax) (x' : ℕ → K) (v : K) :
    (addDimensions e pos).Val x' v ↔ e.Val (fun d => x' (d + pos.countP (fun p => decide (p ≤ d)))) v := by
  simp only [cntLe_eq]
  obtain ⟨c0, b⟩ := e
  suffices h : ∀ r, TermsVal (addDimensions ⟨c0, b⟩ pos).terms x' r ↔
      TermsVal ((terms ⟨c0, b⟩).map fun p => (p.1 + Oct.cntLe pos p.1, p.2)) x' r by
    have hc : (addDimensions ⟨c0, b⟩ pos).cst = c0 := by cases b <;> rfl
    unfold Val
    simp only [h, hc, termsVal_map (fun d => d + Oct.cntLe pos d)]
  intro r
  cases b with
  | sparse l =>
    have hw : SparseWf l := he
    have ht : (addDimensions ⟨c0, .sparse l⟩ pos).terms =
        (terms ⟨c0, .sparse l⟩).map fun p => if p.1 = dimMax then p else (p.1 + Oct.cntLe pos p.1, p.2) := by
      show (addSparse pos 0 l).takeWhile _ = (l.takeWhile _).map _
      rw [addSparse_eq hs l 0 (Nat.zero_le _) hw (by omega)]
      refine takeWhile_map_of _ _ _ _ fun p hp => ?_
      by_cases hpm : p.1 = dimMax
      · simp [hpm]
      · have h1 := hmax p ((hw.mem_terms p).2 ⟨hp, hpm⟩)
        have h2 := Oct.cntLe_le (pos := pos) p.1
        rw [if_neg hpm]
        simp only [ne_eq, decide_not, hpm, decide_false, Bool.not_false, Bool.not_eq_eq_eq_not, Bool.not_true,
          decide_eq_false_iff_not]
        omega
    rw [ht]
    have : (terms ⟨c0, .sparse l⟩).map (fun p => if p.1 = dimMax then p else (p.1 + Oct.cntLe pos p.1, p.2)) =
        (terms ⟨c0, .sparse l⟩).map fun p => (p.1 + Oct.cntLe pos p.1, p.2) := by
      refine List.map_congr_left fun p hp => ?_
      rw [if_neg ((hw.mem_terms p).1 hp).2]
    rw [this]
  | dense l =>
    have hlt := hdense l rfl
    obtain ⟨g1, g2⟩ := Box.addLoop_final hs hlt true
      (fun i => (reallocDense l (l.length + pos.length)).getD i czero) (czero : Coeff K)
    have hget : ∀ i, i < l.length → (reallocDense l (l.length + pos.length)).getD i czero = l.getD i czero := by
      intro i hi
      unfold reallocDense
      rw [List.getD, List.getElem?_append_left (by rw [List.length_take]; omega), List.getElem?_take,
        if_pos (by omega)]
      rfl
    have hterm : ∀ d c, (d, c) ∈ (terms ⟨c0, .dense l⟩).map (fun p => (p.1 + Oct.cntLe pos p.1, p.2)) ↔
        ∃ w, l[w]? = some c ∧ d = w + Oct.cntLe pos w := by
      intro d c
      rw [List.mem_map]
      constructor
      · rintro ⟨⟨w, c'⟩, h1, h2⟩
        rw [Prod.mk.injEq] at h2
        obtain ⟨h2, rfl⟩ := h2
        exact ⟨w, mem_terms_dense.1 h1, h2.symm⟩
      · rintro ⟨w, h1, rfl⟩
        exact ⟨(w, c), mem_terms_dense.2 h1, rfl⟩
    have hsorted : (((terms ⟨c0, .dense l⟩).map fun p => (p.1 + Oct.cntLe pos p.1, p.2)).map
        Prod.fst).Pairwise (· < ·) := by
      have h1 : ((terms ⟨c0, .dense l⟩).map Prod.fst).Pairwise (· < ·) := by
        rw [terms_dense_dims]; exact List.pairwise_lt_range
      rw [List.map_map, List.pairwise_map]
      rw [List.pairwise_map] at h1
      refine h1.imp fun {a b} hab => ?_
      have := Box.cntLe_mono pos hab.le
      simp only [Function.comp_apply]; omega
    refine termsVal_congr (by
        show ((terms ⟨c0, .dense (addDense pos l)⟩).map Prod.fst).Pairwise _
        rw [terms_dense_dims]; exact List.pairwise_lt_range) hsorted (fun d => ?_) x' r
    rw [show (addDimensions ⟨c0, .dense l⟩ pos) = ⟨c0, .dense (addDense pos l)⟩ from rfl, lookup_dense]
    have hadd : ∀ j, j < l.length + pos.length → (addDense pos l)[j]? = some (Box.addLoop true
        (fun i => (reallocDense l (l.length + pos.length)).getD i czero) l.length pos czero (l.length + 1)
        pos.length (fun i => (reallocDense l (l.length + pos.length)).getD i czero) j) := by
      intro j hj
      unfold addDense
      rw [List.getElem?_map, List.getElem?_range hj]; rfl
    have hnone : ∀ {d}, (∀ w, w < l.length → d ≠ w + Oct.cntLe pos w) →
        ((terms ⟨c0, .dense l⟩).map fun p => (p.1 + Oct.cntLe pos p.1, p.2)).lookup d = none := by
      intro d h
      rw [Option.eq_none_iff_forall_ne_some]
      intro c hc
      obtain ⟨w, h1, h2⟩ := (hterm d c).1 ((lookup_eq_some hsorted).1 hc)
      exact h w (List.getElem?_eq_some_iff.1 h1).1 h2
    cases hsrc : Oct.src true 1 l.length pos d with
    | some w =>
      rw [Oct.src_add hs] at hsrc
      obtain ⟨hw, rfl⟩ := hsrc
      rw [Nat.one_mul, hadd _ (by have := Oct.cntLe_le (pos := pos) w; omega), g1 w hw, hget w hw,
        (lookup_eq_some hsorted).2 ((hterm _ _).2 ⟨w, List.getElem?_eq_getElem hw, rfl⟩)]
      simp [List.getElem?_eq_getElem hw]
    | none =>
      rw [hnone fun w hw e => by
        have := (Oct.src_add (dim := l.length) (mult := 1) hs (v := w) (v' := d)).2 ⟨hw, by omega⟩
        rw [hsrc] at this; cases this]
      by_cases hd : d < l.length + pos.length
      · rw [Oct.src_add_none hs hlt (by omega)] at hsrc
        obtain ⟨k, s, hk, hs1, rfl⟩ := hsrc
        have e : pos.getD k 0 + 1 * k + s = pos.getD k 0 + k := by omega
        rw [e] at hd ⊢
        rw [hadd _ hd, g2 k hk]; rfl
      · rw [List.getElem?_eq_none (by unfold addDense; simp; omega)]

/-- The claim fails on a dense expression that is shorter than an insertion position (such expressions
are legal): the coefficients after its end are copies of other coefficients instead of 0. -/
theorem C50_add_short_dense_wrong :
    addDimensions (⟨.scalar (fin 0), .dense [.scalar (fin 1)]⟩ : Linexpr ℚ) [2, 2] =
      ⟨.scalar (fin 0), .dense [.scalar (fin 1), .scalar (fin 0), .scalar (fin 1)]⟩ := by
  decide +kernel

theorem permSparse_eq {A : Type*} (perm : List ℕ) (l : List (ℕ × A))
    (h : ∀ p ∈ l, p.1 ≠ dimMax → p.1 < perm.length) :
    permSparse perm l = some (l.map fun p => if p.1 = dimMax then p else (perm.getD p.1 0, p.2)) := by
  induction l with
  | nil => rfl
  | cons p l ih =>
    have ih := ih fun q hq => h q (List.mem_cons_of_mem _ hq)
    rw [permSparse, ih, List.map_cons]
    by_cases hp : p.1 = dimMax
    · rw [if_pos hp, if_pos hp]; rfl
    · rw [if_neg hp, if_neg hp, List.getElem?_eq_getElem (h p (by simp) hp)]
      simp [List.getElem?_eq_getElem (h p (by simp) hp)]

theorem permDense_spec (perm : List ℕ) (hnd : perm.Nodup) (l : List (Coeff K)) (i : ℕ) (r : List (Coeff K))
    (hi : i + l.length ≤ perm.length) (hr : ∀ d ∈ perm, d < r.length) :
    ∃ q, permDense perm r i l = some q ∧ q.length = r.length ∧
      (∀ k, k < l.length → q[perm.getD (i + k) 0]? = l[k]?) ∧
      (∀ d, (∀ k, k < l.length → d ≠ perm.getD (i + k) 0) → q[d]? = r[d]?) := by
  induction l generalizing i r with
  | nil => exact ⟨r, rfl, rfl, by simp, fun _ _ => rfl⟩
  | cons c l ih =>
    simp only [List.length_cons] at hi
    have hi' : i < perm.length := by omega
    have hp : perm.getD i 0 < r.length := hr _ (Dim.getD_mem' hi')
    obtain ⟨q, hq, hl, h1, h2⟩ := ih (i + 1) (r.set (perm.getD i 0) c) (by omega)
      (fun d hd => by rw [List.length_set]; exact hr d hd)
    refine ⟨q, ?_, by rw [hl, List.length_set], fun k hk => ?_, fun d hd => ?_⟩
    · rw [permDense, List.getElem?_eq_getElem hi']
      have e : perm[i] = perm.getD i 0 := by
        rw [List.getD, List.getElem?_eq_getElem hi', Option.getD_some]
      simp only [e]
      rw [if_pos hp, hq]
    · cases k with
      | zero =>
        rw [Nat.add_zero, h2 _ fun k hk e => ?_, List.getElem?_set_self hp]; · rfl
        have := Dim.nodup_getD_inj hnd hi' (by omega) e
        omega
      | succ k =>
        have := h1 k (by simpa using hk)
        rw [show i + (k + 1) = i + 1 + k by omega, this]; simp
    · rw [h2 d fun k hk => by
        have := hd (k + 1) (by simpa using hk)
        rwa [show i + (k + 1) = i + 1 + k by omega] at this]
      exact List.getElem?_set_ne (fun e => hd 0 (by simp) (by simpa using e.symm))

/-- `ap_linexpr0_permute_dimensions`: the value of the result at a point is the value of the expression
at the permuted point; the result is well formed.  Missing: dense expressions whose size is not the
number of dimensions. -/
theorem C50_permute_dimensions_partial (e : Linexpr K) (he : e.Wf) (n : ℕ) (hn : n ≤ dimMax) (perm : List ℕ)
    (hp : Dim.IsPerm n perm) (hlt : ∀ p ∈ e.terms, p.1 < n)
    (hdense : ∀ l, e.body = .dense l → l.length = n) :
    ∃ e', permuteDimensions e perm = some e' ∧ e'.Wf ∧
      ∀ x' v, e'.Val x' v ↔ e.Val (fun d => x' (perm.getD d 0)) v := by
  obtain ⟨c0, b⟩ := e
  cases b with
  | sparse l =>
    have hw : SparseWf l := he
    have hlt' : ∀ p ∈ l, p.1 ≠ dimMax → p.1 < n := fun p h1 h2 => hlt p ((hw.mem_terms p).2 ⟨h1, h2⟩)
    have e1 := permSparse_eq perm l fun p h1 h2 => by rw [hp.1]; exact hlt' p h1 h2
    set f : ℕ × Coeff K → ℕ × Coeff K := fun p => if p.1 = dimMax then p else (perm.getD p.1 0, p.2) with hf
    set s := (l.map f).insertionSort fun a b => a.1 ≤ b.1 with hs
    have hperm : s.Perm (l.map f) := List.perm_insertionSort _ _
    have hfm : ∀ p ∈ l, (f p).1 = dimMax ↔ p.1 = dimMax := by
      intro p h1
      simp only [hf]
      split_ifs with h
      · exact Iff.rfl
      · have := hp.getD_lt (hlt' p h1 h)
        simp only [h, iff_false]; omega
    have hws : SparseWf s := by
      constructor
      · rw [List.pairwise_map]
        have h1 : s.Pairwise fun a b => a.1 ≤ b.1 := by
          haveI : Std.Total (fun a b : ℕ × Coeff K => a.1 ≤ b.1) := ⟨fun a b => le_total _ _⟩
          haveI : IsTrans (ℕ × Coeff K) (fun a b => a.1 ≤ b.1) := ⟨fun a b c => le_trans⟩
          exact List.pairwise_insertionSort _ _
        have h2 : s.Pairwise fun a b => a.1 ≠ b.1 ∨ b.1 = dimMax := by
          have hsym : ∀ {a b : ℕ × Coeff K}, (a.1 ≠ b.1 ∨ b.1 = dimMax) → (b.1 ≠ a.1 ∨ a.1 = dimMax) := by
            intro a b h; omega
          rw [hperm.pairwise_iff hsym, List.pairwise_map]
          have h3 := hw.1
          rw [List.pairwise_map] at h3
          refine h3.imp_of_mem fun {a b} ha hb hab => ?_
          by_cases hbm : b.1 = dimMax
          · exact Or.inr ((hfm b hb).2 hbm)
          · left
            have ham : a.1 ≠ dimMax := by have := hw.2 b hb; omega
            simp only [hf, if_neg ham, if_neg hbm]
            intro e
            have := hp.inj (hlt' a ha ham) (hlt' b hb hbm) e
            omega
        exact (h1.and h2).imp fun {a b} h => by omega
      · intro p hp1
        obtain ⟨q, hq, rfl⟩ := List.mem_map.1 (hperm.mem_iff.1 hp1)
        simp only [hf]
        split_ifs with h
        · exact hw.2 q hq
        · have := hp.getD_lt (hlt' q hq h); simp only; omega
    refine ⟨⟨c0, .sparse s⟩, by simp only [permuteDimensions, e1, Option.map_some]; rfl, hws, fun x' v => ?_⟩
    unfold Val
    have ht : ∀ r, TermsVal (terms ⟨c0, .sparse s⟩) x' r ↔
        TermsVal (terms ⟨c0, .sparse l⟩) (fun d => x' (perm.getD d 0)) r := by
      intro r
      rw [← termsVal_map (fun d => perm.getD d 0)]
      apply termsVal_perm
      show (s.takeWhile _).Perm ((l.takeWhile _).map _)
      rw [hws.takeWhile_eq_filter, hw.takeWhile_eq_filter]
      refine (hperm.filter _).trans ?_
      rw [List.filter_map]
      have e2 : l.filter ((fun p => decide (p.1 ≠ dimMax)) ∘ f) = l.filter fun p => decide (p.1 ≠ dimMax) := by
        refine List.filter_congr fun p h1 => ?_
        simp only [Function.comp_apply, ne_eq, hfm p h1]
      rw [e2]
      refine List.Perm.of_eq (List.map_congr_left fun p h1 => ?_)
      rw [List.mem_filter] at h1
      simp only [hf]
      rw [if_neg (by simpa using h1.2)]
    simp only [ht]
  | dense l =>
    have hl := hdense l rfl
    obtain ⟨q, hq, hql, h1, h2⟩ := permDense_spec perm hp.2.2 l 0 l (by rw [hp.1]; omega)
      (fun d hd => by rw [hl]; exact hp.2.1 d hd)
    refine ⟨⟨c0, .dense q⟩, by simp only [permuteDimensions, hq, Option.map_some], ?_, fun x' v => ?_⟩
    · show q.length ≤ dimMax; omega
    · unfold Val
      have ht : ∀ r, TermsVal (terms ⟨c0, .dense q⟩) x' r ↔
          TermsVal (terms ⟨c0, .dense l⟩) (fun d => x' (perm.getD d 0)) r := by
        intro r
        rw [← termsVal_map (fun d => perm.getD d 0)]
        apply termsVal_perm
        have hnd : ∀ m : List (Coeff K), (terms ⟨c0, .dense m⟩).Nodup := fun m =>
          List.Nodup.of_map Prod.fst (by rw [terms_dense_dims]; exact List.nodup_range)
        have hnd' : ((terms ⟨c0, .dense l⟩).map fun p => (perm.getD p.1 0, p.2)).Nodup := by
          refine List.Nodup.map_on (fun a ha b hb e => ?_) (hnd l)
          rw [Prod.mk.injEq] at e
          exact Prod.ext (hp.inj (hlt a ha) (hlt b hb) e.1) e.2
        rw [List.perm_ext_iff_of_nodup (hnd q) hnd']
        rintro ⟨d, c⟩
        rw [mem_terms_dense, List.mem_map]
        constructor
        · intro hc
          have hd : d < n := by have := (List.getElem?_eq_some_iff.1 hc).1; omega
          obtain ⟨i, hi, rfl⟩ := hp.surj hd
          have := h1 i (by omega)
          rw [Nat.zero_add] at this
          rw [this] at hc
          exact ⟨(i, c), mem_terms_dense.2 hc, rfl⟩
        · rintro ⟨⟨i, c'⟩, h3, h4⟩
          rw [Prod.mk.injEq] at h4
          obtain ⟨rfl, rfl⟩ := h4
          have h3 := mem_terms_dense.1 h3
          have := h1 i (List.getElem?_eq_some_iff.1 h3).1
          rw [Nat.zero_add] at this
          rw [this, h3]
      simp only [ht]

/-- The claim fails on a dense expression that is shorter than the permutation: the code writes outside
of the array of coefficients. -/
theorem C50_permute_short_dense_overflow :
    permuteDimensions (⟨.scalar (fin 0), .dense [.scalar (fin 1)]⟩ : Linexpr ℚ) [1, 0] = none := by
  decide +kernel

/-- `ap_linexpr0_minimize` keeps the values -/
theorem C50_minimize (e : Linexpr K) (he : e.Wf) (x : ℕ → K) (v : K) : (minimize e).Val x v ↔ e.Val x v := by
  obtain ⟨c0, b⟩ := e
  suffices h : ∀ r, TermsVal (minimize ⟨c0, b⟩).terms x r ↔ TermsVal (terms ⟨c0, b⟩) x r by
    have hc : (minimize ⟨c0, b⟩).cst = c0 := by cases b <;> rfl
    unfold Val
    simp only [h, hc]
  intro r
  rw [← termsVal_reduce (terms ⟨c0, b⟩)]
  cases b with
  | dense l =>
    have : (minimize ⟨c0, .dense l⟩).terms = (terms ⟨c0, .dense l⟩).map fun p => (p.1, p.2.reduce) := by
      show terms ⟨c0, .dense (l.map Coeff.reduce)⟩ = _
      rw [terms_dense, terms_dense, List.zipIdx_map, List.map_map, List.map_map]
      rfl
    rw [this]
  | sparse l =>
    have hw : SparseWf l := he
    have : (minimize ⟨c0, .sparse l⟩).terms =
        ((terms ⟨c0, .sparse l⟩).map fun p => (p.1, p.2.reduce)).filter fun p => !p.2.isZero := by
      show ((((l.map fun p => (p.1, p.2.reduce)).filter _).takeWhile _)) = ((l.takeWhile _).map _).filter _
      have hall : ∀ {A : Type _} (P : A → Bool) (m : List A), (∀ a ∈ m, P a = true) → m.takeWhile P = m := by
        intro A P m
        induction m with
        | nil => intro _; rfl
        | cons a m ih =>
          intro h
          rw [List.takeWhile_cons, if_pos (h a (by simp)), ih fun b hb => h b (List.mem_cons_of_mem _ hb)]
      rw [hw.takeWhile_eq_filter, hall]
      · rw [List.filter_map, List.filter_map, List.filter_filter]
        rfl
      · intro p hp
        rw [List.mem_filter] at hp
        have := hp.2
        simp only [Bool.and_eq_true] at this
        exact this.2
    rw [this]
    exact termsVal_dropZero _ _ (fun t _ ht => by simpa using ht) x r

example : addDimensions exSp [0, 2, 2] = ⟨.scalar (fin 1), .sparse [(2, .scalar (fin 2)),
    (7, .interval (fin 0) (fin 3)), (dimMax, .scalar (fin 0))]⟩ := by decide +kernel
example : addDimensions exDn [0, 2, 3] = ⟨.scalar (fin 1), .dense [.scalar (fin 0), .scalar (fin 0), .scalar (fin 2),
    .scalar (fin 0), .interval ninf (fin 1), .scalar (fin 0)]⟩ := by decide +kernel
example : permuteDimensions exSp [1, 4, 0, 2, 3] = some ⟨.scalar (fin 1), .sparse
    [(3, .interval (fin 0) (fin 3)), (4, .scalar (fin 2)), (dimMax, .scalar (fin 0))]⟩ := by decide +kernel
example : permuteDimensions exDn [1, 2, 0] = some ⟨.scalar (fin 1), .dense
    [.interval ninf (fin 1), .scalar (fin 0), .scalar (fin 2)]⟩ := by decide +kernel

/-! ## C69: classification of expressions -/

/-- `ap_linexpr0_is_linear`, `ap_linexpr0_is_quasilinear`, `ap_linexpr0_type` -/
theorem C69_type (e : Linexpr K) :
    (isLinear e = true ↔ e.cst.isScalar = true ∧ ∀ p ∈ e.terms, p.2.isScalar = true) ∧
    (isQuasilinear e = true ↔ ∀ p ∈ e.terms, p.2.isScalar = true) ∧
    (type e = .linear ↔ isLinear e = true) ∧
    (type e = .quasilinear ↔ isQuasilinear e = true ∧ ¬ isLinear e = true) ∧
    (type e = .intlinear ↔ ¬ isQuasilinear e = true) := by
  have h1 : isLinear e = true ↔ e.cst.isScalar = true ∧ ∀ p ∈ e.terms, p.2.isScalar = true := by
    simp [isLinear]
  have h2 : isQuasilinear e = true ↔ ∀ p ∈ e.terms, p.2.isScalar = true := by simp [isQuasilinear]
  have h3 : (e.terms.any fun p => !p.2.isScalar) = true ↔ ¬ ∀ p ∈ e.terms, p.2.isScalar = true := by
    simp
  refine ⟨h1, h2, ?_⟩
  rw [h1, h2]
  unfold type
  by_cases h4 : ∀ p ∈ e.terms, p.2.isScalar = true
  · rw [if_neg (by rw [h3]; exact not_not.2 h4)]
    have h6 : (∀ p ∈ e.terms, p.2.isScalar = true) = True := eq_true h4
    cases h5 : e.cst.isScalar <;> simp only [h6, Bool.not_false, Bool.not_true, if_true, Bool.false_eq_true, if_false, reduceCtorEq, and_true, and_false, false_and, true_and, not_true_eq_false, not_false_eq_true]
  · rw [if_pos (h3.2 h4)]
    have h6 : (∀ p ∈ e.terms, p.2.isScalar = true) = False := eq_false h4
    simp only [reduceCtorEq, h6, and_false, false_and, not_false_eq_true, and_self]

/-- the type of an array is the least type of its elements -/
theorem C69_array_type (l : List (Linexpr K)) :
    (∀ e ∈ l, (arrayType l).toNat ≤ (type e).toNat) ∧
    (arrayType l = .linear ∨ ∃ e ∈ l, arrayType l = type e) := by
  have key : ∀ (l : List (Linexpr K)) (res : LType), (arrayTypeLoop res l).toNat ≤ res.toNat ∧
      (∀ e ∈ l, (arrayTypeLoop res l).toNat ≤ (type e).toNat) ∧
      (arrayTypeLoop res l = res ∨ ∃ e ∈ l, arrayTypeLoop res l = type e) := by
    intro l
    induction l with
    | nil => intro res; exact ⟨le_refl _, by simp, Or.inl rfl⟩
    | cons e l ih =>
      intro res
      rw [arrayTypeLoop]
      set r := if (type e).toNat < res.toNat then type e else res with hr
      have h1 : r.toNat ≤ res.toNat ∧ r.toNat ≤ (type e).toNat ∧ (r = res ∨ r = type e) := by
        rw [hr]; split_ifs with h
        · exact ⟨h.le, le_refl _, Or.inr rfl⟩
        · exact ⟨le_refl _, by omega, Or.inl rfl⟩
      split_ifs with h
      · refine ⟨h1.1, fun e' _ => ?_, ?_⟩
        · rw [h]; exact Nat.zero_le _
        · rcases h1.2.2 with h2 | h2
          · exact Or.inl h2
          · exact Or.inr ⟨e, by simp, h2⟩
      · obtain ⟨g1, g2, g3⟩ := ih r
        refine ⟨g1.trans h1.1, fun e' he' => ?_, ?_⟩
        · rcases List.mem_cons.1 he' with rfl | he'
          · exact g1.trans h1.2.1
          · exact g2 e' he'
        · rcases g3 with g3 | ⟨e', he', g3⟩
          · rw [g3]
            rcases h1.2.2 with h2 | h2
            · exact Or.inl h2
            · exact Or.inr ⟨e, by simp, h2⟩
          · exact Or.inr ⟨e', List.mem_cons_of_mem _ he', g3⟩
  exact ⟨(key l .linear).2.1, (key l .linear).2.2⟩

/-- `ap_linexpr0_is_real`: no integer dimension has a non-zero coefficient -/
theorem C69_is_real (e : Linexpr K) (he : e.Wf) (intdim : ℕ) :
    isReal e intdim = true ↔ ∀ p ∈ e.terms, p.1 < intdim → p.2.isZero = true := by
  unfold isReal
  have hs := he.terms_sorted
  generalize e.terms = l at hs
  induction l with
  | nil => simp [isRealLoop]
  | cons p l ih =>
    rw [List.map_cons, List.pairwise_cons] at hs
    rw [isRealLoop]
    split_ifs with h1 h2
    · simp only [true_iff]
      intro q hq hlt
      rcases List.mem_cons.1 hq with rfl | hq
      · omega
      · have := hs.1 q.1 (List.mem_map.2 ⟨q, hq, rfl⟩); omega
    · simp only [Bool.false_eq_true, false_iff]
      intro h
      have := h p (by simp) (by omega)
      rw [this] at h2; simp at h2
    · refine (ih hs.2).trans ?_
      constructor
      · intro h q hq hlt
        rcases List.mem_cons.1 hq with rfl | hq
        · simpa using h2
        · exact h q hq hlt
      · exact fun h q hq => h q (List.mem_cons_of_mem _ hq)

/-- `ap_linexpr0_is_integer`: no real dimension has a non-zero coefficient -/
theorem C69_is_integer (e : Linexpr K) (intdim : ℕ) :
    isInteger e intdim = true ↔ ∀ p ∈ e.terms, intdim ≤ p.1 → p.2.isZero = true := by
  obtain ⟨c0, b⟩ := e
  cases b with
  | sparse l =>
    simp only [isInteger, List.all_eq_true]
    refine forall_congr' fun p => forall_congr' fun _ => ?_
    cases hz : p.2.isZero <;> simp
  | dense l =>
    simp only [isInteger, List.all_eq_true]
    constructor
    · rintro h ⟨d, c⟩ hp hd
      have hp := mem_terms_dense.1 hp
      refine h c (List.mem_iff_getElem?.2 ⟨d - intdim, ?_⟩)
      rw [List.getElem?_drop, ← hp]; congr 1; simp only at hd; omega
    · intro h c hc
      obtain ⟨i, hi⟩ := List.mem_iff_getElem?.1 hc
      rw [List.getElem?_drop] at hi
      exact h (intdim + i, c) (mem_terms_dense.2 hi) (by simp)

/-- a zero coefficient only has the value 0 -/
theorem C69_zero (c : Coeff K) : c.isZero = true ↔ c = .scalar (fin 0) ∨ c = .interval (fin 0) (fin 0) := by
  cases c <;> simp [Coeff.isZero, sgn_zero_iff]

example : type exSp = .intlinear ∧ type (⟨.interval ninf pinf, .dense [.scalar (fin 1)]⟩ : Linexpr ℚ) = .quasilinear ∧
    isInteger exDn 1 = false ∧ isReal exDn 1 = true ∧ isReal exDn 2 = false := by decide +kernel

end Apron
