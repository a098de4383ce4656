import Verif.Poly.PkUser
import Verif.Poly.PkTop
import Verif.Itv.ReduceLemmas
import Verif.Texpr.ApLinearizeLemmas
import Mathlib.Algebra.BigOperators.Fin
import Mathlib.Tactic.LinearCombination

/-!
# Polyhedra: meaning of the rows built from expressions and constraints
-/

set_option autoImplicit false
set_option linter.unusedSectionVars false
set_option linter.ambiguousOpen false

namespace Apron.Poly

open Apron Bound ILincons

variable {n : ℕ}

/-- a point of the polyhedron as an assignment of all the dimensions -/
def ext (x : Fin n → ℚ) (i : ℕ) : ℚ := if h : i < n then x ⟨i, h⟩ else 0

theorem ext_lt (x : Fin n → ℚ) (i : Fin n) : ext x i = x i := by simp [ext]

/-- the value of the terms, whose coefficients are numbers -/
def termSum (ts : List (ITerm ℚ)) (y : ℕ → ℚ) : ℚ := (ts.map fun t => numref t.itv.sup * y t.dim).sum

theorem dot_hom (q : Row) (x : Fin n → ℚ) : dot q (hom x) = q.at' 1 + ∑ d : Fin n, (q.at' (d + 2) : ℚ) * x d := by
  rw [dot, Fin.sum_univ_succ]
  simp [hom]

theorem sum_exprCoef (D : ℕ) (x : Fin n → ℚ) (ts : List (ITerm ℚ)) (hD : ∀ t ∈ ts, (numref t.itv.sup).den ∣ D)
    (hd : ∀ t ∈ ts, t.dim < n) (hn : (ts.map ITerm.dim).Nodup) :
    (∑ d : Fin n, (exprCoef D ts d : ℚ) * x d) = D * termSum ts (ext x) ∧
      ∀ d, d ∉ ts.map ITerm.dim → exprCoef D ts d = 0 := by
  induction ts using List.reverseRecOn with
  | nil => simp [exprCoef, termSum]
  | append_singleton ts t ih =>
    rw [List.map_append, List.nodup_append] at hn
    obtain ⟨ih1, ih2⟩ := ih (fun u hu => hD u (by simp [hu])) (fun u hu => hd u (by simp [hu])) hn.1
    have e : ∀ d, exprCoef D (ts ++ [t]) d =
        if t.dim = d then (D / (numref t.itv.sup).den : ℕ) * (numref t.itv.sup).num else exprCoef D ts d := by
      intro d; simp only [exprCoef, List.foldl_append, List.foldl_cons, List.foldl_nil]
    have hnot : t.dim ∉ ts.map ITerm.dim := fun h => hn.2.2 _ h t.dim (by simp) rfl
    have ht := hd t (by simp)
    constructor
    · have hval : (((D / (numref t.itv.sup).den : ℕ) : ℤ) * (numref t.itv.sup).num : ℤ) = ((D : ℚ) * numref t.itv.sup : ℚ) := by
        have h1 := hD t (by simp)
        obtain ⟨k, rfl⟩ := h1
        have hp := (numref t.itv.sup).den_pos
        rw [Nat.mul_div_cancel_left _ hp]
        push_cast
        have : ((numref t.itv.sup).den : ℚ) * numref t.itv.sup = (numref t.itv.sup).num := Rat.den_mul_eq_num _
        linear_combination (-(k : ℚ)) * this
      have hsum : (∑ d : Fin n, (exprCoef D (ts ++ [t]) d : ℚ) * x d) =
          ∑ d : Fin n, ((exprCoef D ts d : ℚ) * x d + if (⟨t.dim, ht⟩ : Fin n) = d then (D : ℚ) * numref t.itv.sup * x d else 0) := by
        refine Finset.sum_congr rfl fun d _ => ?_
        rw [e]
        by_cases h : t.dim = d
        · have h' : (⟨t.dim, ht⟩ : Fin n) = d := Fin.ext h
          rw [if_pos h, if_pos h', hval, ← h, ih2 _ hnot]; simp
        · have h' : ¬ (⟨t.dim, ht⟩ : Fin n) = d := fun e => h (congrArg Fin.val e)
          rw [if_neg h, if_neg h', add_zero]
      rw [hsum, Finset.sum_add_distrib, ih1, Finset.sum_ite_eq]
      simp only [Finset.mem_univ, if_true, termSum, List.map_append, List.sum_append, List.map_cons, List.map_nil, List.sum_cons,
        List.sum_nil, add_zero]
      rw [ext, dif_pos ht]; ring
    · intro d hdm
      simp only [List.map_append, List.mem_append, List.map_cons, List.map_nil, List.mem_singleton, not_or] at hdm
      rw [e, if_neg (fun h => hdm.2 h.symm)]
      exact ih2 d hdm.1

theorem exprDen_pos (c : ℚ) (ts : List (ITerm ℚ)) : 0 < exprDen c ts :=
  foldl_lcm_pos (fun t : ITerm ℚ => (numref t.itv.sup).den) (fun _ => Rat.den_pos _) ts _ c.den_pos

/-- the row of an expression is a positive multiple of it -/
theorem dot_setLinexpr (c : ℚ) (ts : List (ITerm ℚ)) (hd : ∀ t ∈ ts, t.dim < n) (hn : (ts.map ITerm.dim).Nodup)
    (x : Fin n → ℚ) : dot (setLinexpr n c ts) (hom x) = exprDen c ts * (c + termSum ts (ext x)) := by
  have hdvd := dvd_foldl_lcm (fun t : ITerm ℚ => (numref t.itv.sup).den) ts c.den
  obtain ⟨h1, _⟩ := sum_exprCoef (exprDen c ts) x ts hdvd.2 hd hn
  rw [dot_hom]
  have e : ∀ d : Fin n, (setLinexpr n c ts).at' (d + 2) = exprCoef (exprDen c ts) ts d := by
    intro d; rw [setLinexpr, at_ofFun, if_pos (by omega)]
  simp only [e, h1]
  have e1 : (setLinexpr n c ts).at' 1 = (exprDen c ts / c.den : ℕ) * c.num := by
    rw [setLinexpr, at_ofFun, if_pos (by omega)]
  rw [e1]
  have hk' : c.den ∣ exprDen c ts := hdvd.1
  obtain ⟨k, hk⟩ := hk'
  rw [hk, Nat.mul_div_cancel_left _ c.den_pos]
  have := Rat.den_mul_eq_num c
  push_cast
  rw [mul_add]
  linear_combination (-(k : ℚ)) * this

/-! ## Normalisation -/

theorem setLinexpr_big (c : ℚ) (ts : List (ITerm ℚ)) {j : ℕ} (hj : n + 2 ≤ j) : (setLinexpr n c ts).at' j = 0 := by
  rw [setLinexpr, at_ofFun, if_neg (by omega)]

theorem dot_normalize {q : Row} (hq : ∀ j, n + 2 ≤ j → q.at' j = 0) :
    (Apron.Poly.normalize q (n + 2)).at' 0 = q.at' 0 ∧ (∀ j, n + 2 ≤ j → (Apron.Poly.normalize q (n + 2)).at' j = 0) ∧
    (∀ j, (Apron.Poly.normalize q (n + 2)).at' (j + 1) = 0 ↔ q.at' (j + 1) = 0) ∧
    ∃ g : ℤ, 0 < g ∧ ∀ x : Fin n → ℚ, dot q (hom x) = g * dot (Apron.Poly.normalize q (n + 2)) (hom x) := by
  obtain ⟨h0, g, hg, h⟩ := normalize_spec q (n + 2) hq
  refine ⟨h0, fun j hj => ?_, fun j => ?_, g, hg, fun x => ?_⟩
  · cases j with
    | zero => omega
    | succ j =>
      have e := h j
      rw [hq _ hj] at e
      rcases mul_eq_zero.1 e with e | e
      · omega
      · exact e
  · rw [← h j]
    constructor
    · intro e; rw [e, mul_zero]
    · intro e
      rcases mul_eq_zero.1 e with e | e
      · omega
      · exact e
  · rw [dot_hom, dot_hom, mul_add, Finset.mul_sum, ← h 0]
    push_cast
    congr 1
    refine Finset.sum_congr rfl fun d _ => ?_
    rw [← h (d + 1)]; push_cast; ring

/-- a row on the integer dimensions takes integer values on the points with integer coordinates -/
theorem dot_int {intdim : ℕ} {q : Row} (h : rowIsInt n intdim q = true) {x : Fin n → ℚ}
    (hx : ∀ d : Fin n, (d : ℕ) < intdim → ∃ m : ℤ, x d = m) : ∃ m : ℤ, ∑ d : Fin n, (q.at' (d + 2) : ℚ) * x d = m := by
  have : ∀ d : Fin n, ∃ m : ℤ, (q.at' (d + 2) : ℚ) * x d = m := by
    intro d
    rw [rowIsInt, List.all_eq_true] at h
    have := h d (by simp)
    simp only [Bool.or_eq_true, decide_eq_true_eq, beq_iff_eq] at this
    rcases this with h1 | h1
    · obtain ⟨m, hm⟩ := hx d h1
      exact ⟨q.at' (d + 2) * m, by rw [hm]; push_cast; ring⟩
    · exact ⟨0, by rw [h1]; simp⟩
  choose m hm using this
  exact ⟨∑ d : Fin n, m d, by simp only [hm]; push_cast; rfl⟩

/-- the relation between a row and a point: equality for a null status -/
def RowSat (q : Row) (x : Fin n → ℚ) : Prop := 0 ≤ dot q (hom x) ∧ (q.at' 0 = 0 → dot q (hom x) = 0)

/-- integer tightening keeps the points whose integer coordinates are integers -/
theorem normConsInt_sound {intdim : ℕ} {q : Row} (hq : ∀ j, n + 2 ≤ j → q.at' j = 0) {x : Fin n → ℚ}
    (hx : ∀ d : Fin n, (d : ℕ) < intdim → ∃ m : ℤ, x d = m) (h : RowSat q x) : RowSat (normConsInt n intdim q) x := by
  rw [normConsInt]
  by_cases h1 : 0 < intdim ∧ rowIsInt n intdim q = true ∧ rowIsPos n q = false
  · rw [if_pos h1]
    dsimp only
    set g := vectorGcd ((List.range n).map fun d => q.at' (d + 2)) with hgdef
    have hdiv : ∀ d : Fin n, (g : ℤ) * (q.at' (d + 2) / g) = q.at' (d + 2) := by
      intro d
      exact Int.mul_ediv_cancel' (dvd_vectorGcd _ _ (List.mem_map.2 ⟨d, by simp, rfl⟩))
    -- the sum divided by `g` is an integer
    have hS : ∃ m : ℤ, ∑ d : Fin n, ((q.at' (d + 2) / g : ℤ) : ℚ) * x d = m := by
      have hi : rowIsInt n intdim (Row.ofFun (n + 2) fun j => if j = 0 then 0 else q.at' j / g) = true := by
        rw [rowIsInt, List.all_eq_true]
        intro d hd
        have := h1.2.1
        rw [rowIsInt, List.all_eq_true] at this
        have := this d hd
        rw [List.mem_range] at hd
        rw [at_ofFun, if_pos (by omega), if_neg (by omega)]
        simp only [Bool.or_eq_true, decide_eq_true_eq, beq_iff_eq] at this ⊢
        rcases this with h | h
        · exact Or.inl h
        · right; rw [h]; simp
      obtain ⟨m, hm⟩ := dot_int hi hx
      refine ⟨m, ?_⟩
      rw [← hm]
      refine Finset.sum_congr rfl fun d _ => ?_
      rw [at_ofFun, if_pos (by omega), if_neg (by omega)]
    obtain ⟨m, hm⟩ := hS
    have hdot : dot q (hom x) = ((q.at' 1 + g * m : ℤ) : ℚ) := by
      rw [dot_hom]; push_cast; rw [← hm, Finset.mul_sum]
      congr 1
      refine Finset.sum_congr rfl fun d _ => ?_
      rw [← mul_assoc]; congr 1
      exact_mod_cast (hdiv d).symm
    have hnew : ∀ s : ℤ, dot (Row.ofFun (n + 2) fun j => if j = 0 then s else q.at' j / g) (hom x) = ((q.at' 1 / g + m : ℤ) : ℚ) := by
      intro s
      rw [dot_hom, at_ofFun, if_pos (by omega), if_neg (by omega)]
      push_cast; rw [← hm]
      congr 1
      refine Finset.sum_congr rfl fun d _ => ?_
      rw [at_ofFun, if_pos (by omega), if_neg (by omega)]
    split_ifs with h2 h3 h4
    · -- equality with a constant that is not a multiple: no such point
      exfalso
      have := h.2 h3
      rw [hdot] at this
      have e : q.at' 1 + g * m = 0 := by exact_mod_cast this
      apply h4
      have : q.at' 1 = g * (-m) := by linarith
      rw [this]; simp
    · have := h.2 h3
      rw [hdot] at this
      have e : q.at' 1 + g * m = 0 := by exact_mod_cast this
      have e2 : q.at' 1 / g + m = 0 := by
        have : q.at' 1 = g * (-m) := by linarith
        rw [this, Int.mul_ediv_cancel_left _ (by omega)]; ring
      refine ⟨?_, fun _ => ?_⟩ <;> rw [hnew, e2] <;> simp
    · have h5 := h.1
      rw [hdot] at h5
      have e : 0 ≤ q.at' 1 + g * m := by exact_mod_cast h5
      have e2 : 0 ≤ q.at' 1 / g + m := by
        have : -m ≤ q.at' 1 / g := by
          rw [Int.le_ediv_iff_mul_le (by omega)]; linarith
        linarith
      refine ⟨by rw [hnew]; exact_mod_cast e2, fun h0 => ?_⟩
      rw [at_ofFun, if_pos (by omega), if_pos rfl] at h0
      exact absurd h0 h3
    · exact h
  · rw [if_neg h1]
    obtain ⟨a, _, _, g, hg, e⟩ := dot_normalize hq
    have hg' : (0 : ℚ) < g := by exact_mod_cast hg
    have := e x
    refine ⟨?_, fun h0 => ?_⟩
    · have := h.1; rw [e x] at this; exact nonneg_of_mul_nonneg_right this hg'
    · rw [a] at h0
      have := h.2 h0; rw [e x] at this
      rcases mul_eq_zero.1 this with h | h
      · exact absurd h hg'.ne'
      · exact h

theorem finishCons_sound {intdim : ℕ} {typ : ConsTyp ℚ} (hty : typ = .eq ∨ typ = .supeq ∨ typ = .sup) {q : Row}
    (hq : ∀ j, n + 2 ≤ j → q.at' j = 0) {x : Fin n → ℚ}
    (hx : ∀ d : Fin n, (d : ℕ) < intdim → ∃ m : ℤ, x d = m) (h : Lincons.Rel typ (dot q (hom x))) :
    RowSat (finishCons n intdim typ q) x := by
  obtain ⟨a, b, _, g, hg, e⟩ := dot_normalize hq
  have hg' : (0 : ℚ) < g := by exact_mod_cast hg
  set p := Apron.Poly.normalize q (n + 2) with hp
  have hb : ∀ s : ℤ, ∀ j, n + 2 ≤ j → (p.setStatus s).at' j = 0 := by
    intro s j hj
    cases j with
    | zero => omega
    | succ j => rw [at_setStatus_succ]; exact b _ hj
  have hrel : Lincons.Rel typ (dot p (hom x)) := by
    rw [e x] at h
    rcases hty with rfl | rfl | rfl
    · simp only [Lincons.Rel] at h ⊢
      rcases mul_eq_zero.1 h with h | h
      · exact absurd h hg'.ne'
      · exact h
    · exact nonneg_of_mul_nonneg_right h hg'
    · exact (pos_iff_pos_of_mul_pos h).1 hg'
  rw [finishCons, ← hp]
  set p' := p.setStatus (if typ = .eq then 0 else 1) with hp'
  have hd' : dot p' (hom x) = dot p (hom x) := by rw [hp', dot_setStatus]
  have hsat : RowSat p' x := by
    refine ⟨?_, fun h0 => ?_⟩
    · rw [hd']
      rcases hty with rfl | rfl | rfl
      · have : dot p (hom x) = 0 := hrel
        rw [this]
      · exact hrel
      · exact le_of_lt hrel
    · rw [hp', at_setStatus_zero] at h0
      split_ifs at h0 with ht
      · subst ht; rw [hd']; exact hrel
      · exact absurd h0 one_ne_zero
  by_cases hs : typ = .sup ∧ rowIsInt n intdim p' = true
  · rw [if_pos hs]
    refine normConsInt_sound (fun j hj => by rw [at_ofFun, if_neg (by omega)]) hx ?_
    obtain ⟨m, hm⟩ := dot_int hs.2 hx
    have hdot : dot p' (hom x) = ((p'.at' 1 + m : ℤ) : ℚ) := by rw [dot_hom, hm]; push_cast; rfl
    have hnew : dot (Row.ofFun (n + 2) fun j => if j = 1 then p'.at' 1 - 1 else p'.at' j) (hom x) = ((p'.at' 1 - 1 + m : ℤ) : ℚ) := by
      rw [dot_hom, at_ofFun, if_pos (by omega), if_pos rfl]
      push_cast; rw [← hm]
      congr 1
      refine Finset.sum_congr rfl fun d _ => ?_
      rw [at_ofFun, if_pos (by omega), if_neg (by omega)]
    have hpos : 0 < p'.at' 1 + m := by
      have h1 : Lincons.Rel (K := ℚ) .sup (dot p' (hom x)) := by rw [hd']; rw [hs.1] at hrel; exact hrel
      have h2 : (0 : ℚ) < dot p' (hom x) := h1
      rw [hdot] at h2; exact_mod_cast h2
    refine ⟨?_, fun h0 => ?_⟩
    · rw [hnew]; exact_mod_cast (by omega : 0 ≤ p'.at' 1 - 1 + m)
    · rw [at_ofFun, if_pos (by omega), if_neg (by omega), hp', at_setStatus_zero, hs.1] at h0
      simp at h0
  · rw [if_neg hs]
    exact normConsInt_sound (hb _) hx hsat

end Apron.Poly
