import Verif.Core.Env
import Verif.Oct.Emb

/-!
# Lemmas on environments
-/

set_option autoImplicit false
set_option linter.unusedSectionVars false
set_option linter.ambiguousOpen false

namespace Apron
namespace Env

variable {V : Type*} [LinearOrder V]

/-! ## Sorted lists of names -/

theorem check_iff (l : List V) : check l = false ↔ l.Pairwise (· < ·) := by
  fun_induction check l with
  | case1 a b l h =>
    simp only [Bool.true_eq_false, List.pairwise_cons, false_iff]
    intro h'
    exact absurd (h'.1 b (by simp)) (not_lt.2 h)
  | case2 a b l h ih =>
    have h := not_le.1 h
    rw [ih, List.pairwise_cons (a := a)]
    refine ⟨fun h' => ⟨fun c hc => ?_, h'⟩, fun h' => h'.2⟩
    rcases List.mem_cons.1 hc with rfl | hc
    · exact h
    · exact h.trans ((List.pairwise_cons.1 h').1 c hc)
  | case3 l h =>
    simp only [true_iff]
    match l, h with
    | [], _ => exact List.Pairwise.nil
    | [a], _ => simp
    | a :: b :: l, h => exact absurd rfl (h a b l)

theorem head_lt {a : V} {l : List V} (h : (a :: l).Pairwise (· < ·)) {v : V} (hv : v ∈ l) : a < v :=
  (List.pairwise_cons.1 h).1 v hv

theorem tail_sorted {a : V} {l : List V} (h : (a :: l).Pairwise (· < ·)) : l.Pairwise (· < ·) :=
  (List.pairwise_cons.1 h).2

theorem not_mem_of_lt {a b : V} {m : List V} (h : (b :: m).Pairwise (· < ·)) (hab : a < b) :
    a ∉ b :: m := by
  intro ha
  rcases List.mem_cons.1 ha with rfl | ha
  · exact lt_irrefl _ hab
  · exact lt_asymm hab (head_lt h ha)

theorem isInterEmpty_iff {l m : List V} (hl : l.Pairwise (· < ·)) (hm : m.Pairwise (· < ·)) :
    isInterEmpty l m = true ↔ ∀ v ∈ l, v ∉ m := by
  fun_induction isInterEmpty l m with
  | case1 l a m => simp
  | case2 a l b m hne hlt ih =>
    rw [ih hl (tail_sorted hm)]
    refine forall₂_congr fun v hv => ?_
    rw [List.mem_cons, not_or]
    refine ⟨fun h => ⟨?_, h⟩, fun h => h.2⟩
    rintro rfl
    exact not_mem_of_lt hl hlt hv
  | case3 a l b m hne hlt ih =>
    have hab : a < b := lt_of_le_of_ne (not_lt.1 hlt) hne
    rw [ih (tail_sorted hl) hm]
    simp only [List.mem_cons (b := a), forall_eq_or_imp]
    exact ⟨fun h => ⟨not_mem_of_lt hm hab, h⟩, fun h => h.2⟩
  | case4 => simp
  | case5 => simp

theorem leqOne_iff {a : V} {m : List V} (hm : m.Pairwise (· < ·)) (z : Bool) :
    leqOne a z m = true ↔ a ∈ m ∨ (m = [] ∧ z = true) := by
  induction m generalizing z with
  | nil => simp [leqOne]
  | cons b m ih =>
    rw [leqOne]
    split_ifs with h1 h2
    · simp only [false_and, or_false, false_iff]
      exact not_mem_of_lt hm h1
    · simp [h2]
    · rw [ih (tail_sorted hm)]
      simp [h2]

theorem nodup_of_sorted {l : List V} (h : l.Pairwise (· < ·)) : l.Nodup :=
  h.imp fun h => ne_of_lt h

theorem sorted_ext {l m : List V} (hl : l.Pairwise (· < ·)) (hm : m.Pairwise (· < ·))
    (h : ∀ v, v ∈ l ↔ v ∈ m) : l = m := by
  have hp : l.Perm m := (List.perm_ext_iff_of_nodup (nodup_of_sorted hl) (nodup_of_sorted hm)).2 h
  exact List.Perm.eq_of_pairwise' (hl.imp le_of_lt) (hm.imp le_of_lt) hp

theorem length_le_of_subset {l m : List V} (hl : l.Pairwise (· < ·)) (h : ∀ v ∈ l, v ∈ m) :
    l.length ≤ m.length :=
  ((List.subperm_of_subset (nodup_of_sorted hl) h).length_le)

theorem eq_of_subset_of_length {l m : List V} (hl : l.Pairwise (· < ·)) (hm : m.Pairwise (· < ·))
    (h : ∀ v ∈ l, v ∈ m) (hlen : m.length ≤ l.length) : l = m := by
  have hp : l.Perm m := (List.subperm_of_subset (nodup_of_sorted hl) h).perm_of_length_le hlen
  exact List.Perm.eq_of_pairwise' (hl.imp le_of_lt) (hm.imp le_of_lt) hp

theorem isLeqA_iff {l m : List V} (hl : l.Pairwise (· < ·)) (hm : m.Pairwise (· < ·)) :
    isLeqA l m = true ↔ ∀ v ∈ l, v ∈ m := by
  rw [isLeqA]
  split_ifs with h
  · rw [List.all_eq_true]
    refine forall₂_congr fun v hv => ?_
    rw [leqOne_iff hm]
    refine ⟨fun h' => ?_, Or.inl⟩
    rcases h' with h' | ⟨rfl, -⟩
    · exact h'
    · have : l = [] := List.length_eq_zero_iff.1 (by simpa using h)
      subst this
      simp at hv
  · simp only [false_iff]
    exact fun h' => h (length_le_of_subset hl h')

theorem mem_lceA {l m : List V} (v : V) : v ∈ lceA l m ↔ v ∈ l ∨ v ∈ m := by
  fun_induction lceA l m with
  | case1 a l b m h ih => rw [List.mem_cons, ih, List.mem_cons, List.mem_cons]; tauto
  | case2 a l b m h1 h2 ih => rw [List.mem_cons, ih, List.mem_cons, List.mem_cons]; tauto
  | case3 a l b m h1 h2 ih =>
    have : a = b := le_antisymm (not_lt.1 h1) (not_lt.1 h2)
    subst this
    rw [List.mem_cons, ih, List.mem_cons, List.mem_cons]; tauto
  | case4 => simp
  | case5 => simp

theorem lceA_sorted {l m : List V} (hl : l.Pairwise (· < ·)) (hm : m.Pairwise (· < ·)) :
    (lceA l m).Pairwise (· < ·) := by
  fun_induction lceA l m with
  | case1 a l b m h ih =>
    refine List.pairwise_cons.2 ⟨fun v hv => ?_, ih hl (tail_sorted hm)⟩
    rcases (mem_lceA v).1 hv with hv | hv
    · rcases List.mem_cons.1 hv with rfl | hv
      · exact h
      · exact h.trans (head_lt hl hv)
    · exact head_lt hm hv
  | case2 a l b m h1 h2 ih =>
    refine List.pairwise_cons.2 ⟨fun v hv => ?_, ih (tail_sorted hl) hm⟩
    rcases (mem_lceA v).1 hv with hv | hv
    · exact head_lt hl hv
    · rcases List.mem_cons.1 hv with rfl | hv
      · exact h2
      · exact h2.trans (head_lt hm hv)
  | case3 a l b m h1 h2 ih =>
    have : a = b := le_antisymm (not_lt.1 h1) (not_lt.1 h2)
    subst this
    refine List.pairwise_cons.2 ⟨fun v hv => ?_, ih (tail_sorted hl) (tail_sorted hm)⟩
    rcases (mem_lceA v).1 hv with hv | hv
    · exact head_lt hl hv
    · exact head_lt hm hv
  | case4 => exact hm
  | case5 => exact hl

/-! ## `env_lce_dimchange` -/

/-- when `l` is included in `m` the arguments are accepted and the written positions describe the
insertion of the names of `m` that are not in `l` -/
theorem lceDimGo_spec {rd i1 : ℕ} {z : Bool} {l m : List V} (hl : l.Pairwise (· < ·))
    (hm : m.Pairwise (· < ·)) (hsub : ∀ v ∈ l, v ∈ m) :
    (lceDimGo rd i1 z l m).2 = false ∧
    (lceDimGo rd i1 z l m).1.length + l.length = m.length ∧
    (lceDimGo rd i1 z l m).1.Pairwise (· ≤ ·) ∧
    (∀ w ∈ (lceDimGo rd i1 z l m).1, rd + i1 ≤ w ∧ w ≤ rd + i1 + l.length) ∧
    (∀ k, k < l.length →
      m[k + (lceDimGo rd i1 z l m).1.countP (fun p => decide (p ≤ rd + i1 + k))]? = l[k]?) := by
  fun_induction lceDimGo rd i1 z l m with
  | case1 i1 z m =>
    refine ⟨rfl, by simp, ?_, ?_, by simp⟩
    · rw [List.pairwise_map]; exact List.pairwise_of_forall fun _ _ => le_refl _
    · intro w hw
      obtain ⟨_, _, rfl⟩ := List.mem_map.1 hw
      simp
  | case2 i1 a l ih => exact absurd (hsub a (by simp)) (by simp)
  | case3 i1 z a l hz => exact absurd (hsub a (by simp)) (by simp)
  | case4 i1 z a l b m h => exact absurd (hsub a (by simp)) (not_mem_of_lt hm h)
  | case5 i1 z l b m h ih =>
    have hsub' : ∀ v ∈ l, v ∈ m := by
      intro v hv
      rcases List.mem_cons.1 (hsub v (by simp [hv])) with rfl | h'
      · exact absurd (head_lt hl hv) (lt_irrefl _)
      · exact h'
    obtain ⟨h1, h2, h3, h4, h5⟩ := ih (tail_sorted hl) (tail_sorted hm) hsub'
    refine ⟨h1, by simp only [List.length_cons]; omega, h3, ?_, ?_⟩
    · intro w hw
      have := h4 w hw
      simp only [List.length_cons]; omega
    · intro k hk
      cases k with
      | zero =>
        have : (lceDimGo rd (i1 + 1) true l m).1.countP (fun p => decide (p ≤ rd + i1 + 0)) = 0 := by
          rw [List.countP_eq_zero]
          intro w hw
          have := h4 w hw
          simp only [decide_eq_true_eq]; omega
        rw [this]; simp
      | succ k =>
        have := h5 k (by simpa using hk)
        rw [show rd + i1 + (k + 1) = rd + (i1 + 1) + k by omega, List.getElem?_cons_succ, ← this]
        rw [show k + 1 + (lceDimGo rd (i1 + 1) true l m).1.countP
          (fun p => decide (p ≤ rd + (i1 + 1) + k)) = k + (lceDimGo rd (i1 + 1) true l m).1.countP
          (fun p => decide (p ≤ rd + (i1 + 1) + k)) + 1 by omega, List.getElem?_cons_succ]
  | case6 i1 z a l b m h1 h2 r ih =>
    have hba : b < a := lt_of_le_of_ne (not_lt.1 h1) (fun h => h2 h.symm)
    have hsub' : ∀ v ∈ a :: l, v ∈ m := by
      intro v hv
      rcases List.mem_cons.1 (hsub v hv) with rfl | h'
      · exact absurd hv (not_mem_of_lt hl hba)
      · exact h'
    obtain ⟨g1, g2, g3, g4, g5⟩ := ih hl (tail_sorted hm) hsub'
    refine ⟨g1, by simp only [List.length_cons, r] at g2 ⊢; omega, ?_, ?_, ?_⟩
    · exact List.pairwise_cons.2 ⟨fun w hw => (g4 w hw).1, g3⟩
    · intro w hw
      rcases List.mem_cons.1 hw with rfl | hw
      · omega
      · exact g4 w hw
    · intro k hk
      rw [List.countP_cons_of_pos (by simp), ← Nat.add_assoc, List.getElem?_cons_succ]
      exact g5 k hk

theorem lceDim_spec {rd : ℕ} {l m : List V} (hl : l.Pairwise (· < ·))
    (hm : m.Pairwise (· < ·)) (hsub : ∀ v ∈ l, v ∈ m) :
    (lceDim rd l m).2 = false ∧
    (lceDim rd l m).1.length + l.length = m.length ∧
    (lceDim rd l m).1.Pairwise (· ≤ ·) ∧
    (∀ w ∈ (lceDim rd l m).1, rd ≤ w ∧ w ≤ rd + l.length) ∧
    (∀ k, k < l.length →
      m[k + (lceDim rd l m).1.countP (fun p => decide (p ≤ rd + k))]? = l[k]?) := by
  rw [lceDim, if_neg (not_lt.2 (length_le_of_subset hl hsub))]
  simpa using lceDimGo_spec (rd := rd) (i1 := 0) (z := true) hl hm hsub

/-! ## `bsearch` -/

theorem bsearch_sound {x : V} {a : List V} {lo hi i : ℕ} (h : bsearch x a lo hi = some i) :
    a[i]? = some x ∧ lo ≤ i ∧ i < hi := by
  fun_induction bsearch x a lo hi with
  | case1 => simp at h
  | case2 lo hi hlt y hy hxy ih => obtain ⟨h1, h2, h3⟩ := ih h; exact ⟨h1, h2, by omega⟩
  | case3 lo hi hlt y hy hxy hyx ih => obtain ⟨h1, h2, h3⟩ := ih h; exact ⟨h1, by omega, h3⟩
  | case4 lo hi hlt y hy hxy hyx =>
    simp only [Option.some.injEq] at h
    subst h
    rw [hy, le_antisymm (not_lt.1 hxy) (not_lt.1 hyx)]
    exact ⟨rfl, by omega, by omega⟩
  | case5 => simp at h

theorem sorted_getElem_lt {a : List V} (ha : a.Pairwise (· < ·)) {i j : ℕ} {x y : V}
    (hx : a[i]? = some x) (hy : a[j]? = some y) (h : x < y) : i < j := by
  by_contra hij
  rcases Nat.lt_or_eq_of_le (not_lt.1 hij) with hlt | heq
  · obtain ⟨hi, rfl⟩ := List.getElem?_eq_some_iff.1 hx
    obtain ⟨hj, rfl⟩ := List.getElem?_eq_some_iff.1 hy
    exact lt_asymm h (List.pairwise_iff_getElem.1 ha j i hj hi hlt)
  · subst heq
    rw [hx] at hy
    simp only [Option.some.injEq] at hy
    subst hy
    exact lt_irrefl _ h

theorem bsearch_complete {x : V} {a : List V} (ha : a.Pairwise (· < ·)) {lo hi i : ℕ}
    (hi' : a[i]? = some x) (h1 : lo ≤ i) (h2 : i < hi) (hlen : hi ≤ a.length) :
    bsearch x a lo hi = some i := by
  fun_induction bsearch x a lo hi with
  | case1 lo hi hlt hn =>
    rw [List.getElem?_eq_none_iff] at hn; omega
  | case2 lo hi hlt y hy hxy ih =>
    exact ih h1 (sorted_getElem_lt ha hi' hy hxy) (by omega)
  | case3 lo hi hlt y hy hxy hyx ih =>
    exact ih (sorted_getElem_lt ha hy hi' hyx) h2 hlen
  | case4 lo hi hlt y hy hxy hyx =>
    have : x = y := le_antisymm (not_lt.1 hyx) (not_lt.1 hxy)
    subst this
    obtain ⟨hi1, e1⟩ := List.getElem?_eq_some_iff.1 hi'
    obtain ⟨hj1, e2⟩ := List.getElem?_eq_some_iff.1 hy
    rw [(List.Nodup.getElem_inj_iff (nodup_of_sorted ha)).1 (e2.trans e1.symm)]
  | case5 lo hi hlt => omega

theorem bsearch_none {x : V} {a : List V} (ha : a.Pairwise (· < ·)) :
    bsearch x a 0 a.length = none ↔ x ∉ a := by
  constructor
  · intro h hx
    obtain ⟨i, hi, e⟩ := List.getElem_of_mem hx
    rw [bsearch_complete ha (by rw [List.getElem?_eq_getElem hi, e]) (Nat.zero_le _) hi le_rfl] at h
    simp at h
  · intro h
    rcases hb : bsearch x a 0 a.length with _ | i
    · rfl
    · exact absurd (List.mem_of_getElem? (bsearch_sound hb).1) h

theorem vars_length (e : Env V) : e.vars.length = e.size := by
  simp [vars, size, intdim, realdim]

theorem vars_left (e : Env V) {i : ℕ} (hi : i < e.intdim) : e.vars[i]? = e.ints[i]? := by
  rw [vars, List.getElem?_append_left hi]

theorem vars_right (e : Env V) (i : ℕ) : e.vars[e.intdim + i]? = e.reals[i]? := by
  rw [vars, List.getElem?_append_right (by simp [intdim])]
  simp [intdim]

theorem mem_vars (e : Env V) (v : V) : v ∈ e.vars ↔ v ∈ e.ints ∨ v ∈ e.reals := by
  simp [vars]

theorem nodup_vars {e : Env V} (he : e.Wf) : e.vars.Nodup :=
  List.Nodup.append (nodup_of_sorted he.ints) (nodup_of_sorted he.reals) fun _ h1 h2 => he.disj _ h1 h2

theorem dimOfVar_cases {e : Env V} (he : e.Wf) (v : V) :
    (v ∈ e.ints ∧ dimOfVar e v < e.intdim ∧ e.vars[dimOfVar e v]? = some v) ∨
    (v ∈ e.reals ∧ e.intdim ≤ dimOfVar e v ∧ dimOfVar e v < e.size ∧ e.vars[dimOfVar e v]? = some v) ∨
    (v ∉ e.vars ∧ dimOfVar e v = dimMax) := by
  unfold dimOfVar
  rcases h1 : bsearch v e.ints 0 e.intdim with _ | i
  · rcases h2 : bsearch v e.reals 0 e.realdim with _ | i
    · refine Or.inr (Or.inr ⟨?_, rfl⟩)
      rw [mem_vars]
      rintro (h | h)
      · exact (bsearch_none he.ints).1 h1 h
      · exact (bsearch_none he.reals).1 h2 h
    · obtain ⟨g1, -, g3⟩ := bsearch_sound h2
      refine Or.inr (Or.inl ⟨List.mem_of_getElem? g1, ?_, ?_, ?_⟩)
      · simp
      · simp only [size]; omega
      · simp only [vars_right, g1]
  · obtain ⟨g1, -, g3⟩ := bsearch_sound h1
    exact Or.inl ⟨List.mem_of_getElem? g1, g3, by simp only [vars_left e g3, g1]⟩

/-! ## `env_normalize` -/

theorem normalize_perm (l : List V) : (normalize l).Perm l := List.perm_insertionSort _ l

theorem normalize_sorted (l : List V) : (normalize l).Pairwise (· ≤ ·) :=
  List.pairwise_insertionSort _ l

theorem sorted_lt_iff_nodup {l : List V} (h : l.Pairwise (· ≤ ·)) :
    l.Pairwise (· < ·) ↔ l.Nodup := by
  constructor
  · exact nodup_of_sorted
  · intro hn
    exact (h.and hn).imp fun h => lt_of_le_of_ne h.1 h.2

theorem normalizePerm_spec (Q : Qsort V) (perm : List ℕ) (l : List V) (hp : perm.length = l.length) :
    ∃ s q, normalizePerm Q perm l = some (s, q) ∧ s.Perm l ∧ s.Pairwise (· ≤ ·) ∧
      Dim.IsPerm l.length q ∧ ∀ k, k < l.length → s[q.getD k 0]? = l[k]? := by
  have hperm := Q.perm l.zipIdx
  have hsnd : ((Q.run l.zipIdx).map Prod.snd).Perm (List.range l.length) := by
    refine (hperm.map Prod.snd).trans ?_
    rw [List.zipIdx_map_snd]
    rw [List.range_eq_range']
  have hlen : (Q.run l.zipIdx).length = l.length := by
    rw [hperm.length_eq, List.length_zipIdx]
  have hnd : ((Q.run l.zipIdx).map Prod.snd).Nodup := hsnd.nodup_iff.2 List.nodup_range
  obtain ⟨q, hq, hql, h1, -⟩ := Dim.invertFrom_spec ((Q.run l.zipIdx).map Prod.snd) 0 perm
    (fun d hd => by rw [hp]; exact List.mem_range.1 (hsnd.mem_iff.1 hd)) hnd
  have key : ∀ k, k < l.length → ∃ i, i < l.length ∧ q.getD k 0 = i ∧
      (Q.run l.zipIdx)[i]? = l[k]?.map fun v => (v, k) := by
    intro k hk
    have hk' : (l[k], k) ∈ Q.run l.zipIdx := by
      refine hperm.mem_iff.2 ?_
      rw [List.mk_mem_zipIdx_iff_getElem?, List.getElem?_eq_getElem hk]
    obtain ⟨i, hi, e⟩ := List.getElem_of_mem hk'
    refine ⟨i, by omega, ?_, ?_⟩
    · have := h1 i (by rw [List.length_map]; exact hi)
      have e2 : ((Q.run l.zipIdx).map Prod.snd).getD i 0 = k := by
        rw [List.getD, List.getElem?_map, List.getElem?_eq_getElem hi, e]; rfl
      rw [e2] at this
      simpa using this
    · rw [List.getElem?_eq_getElem hi, e, List.getElem?_eq_getElem hk]; rfl
  refine ⟨(Q.run l.zipIdx).map Prod.fst, q, by rw [normalizePerm]; simp only [hq]; rfl, ?_, ?_, ?_, ?_⟩
  · refine (hperm.map Prod.fst).trans ?_
    rw [List.zipIdx_map_fst]
  · rw [List.pairwise_map]; exact Q.sorted _
  · refine Dim.isPerm_of (by rw [hql, hp]) ?_ ?_
    · intro k hk
      obtain ⟨i, hi, e, -⟩ := key k hk
      rw [e]; exact hi
    · intro k j hk hj e
      obtain ⟨i, hi, e1, g1⟩ := key k hk
      obtain ⟨i', hi', e2, g2⟩ := key j hj
      rw [e1, e2] at e
      subst e
      rw [g1, List.getElem?_eq_getElem hk, List.getElem?_eq_getElem hj] at g2
      simp only [Option.map_some, Option.some.injEq, Prod.mk.injEq] at g2
      exact g2.2
  · intro k hk
    obtain ⟨i, hi, e, g⟩ := key k hk
    rw [e, List.getElem?_map, g, List.getElem?_eq_getElem hk]; rfl

end Env
end Apron
