import Verif.Poly.PkAssignLemmas

/-!
# Polyhedra: several assignments at once, and the polyhedra obtained by assignment and substitution
-/

set_option autoImplicit false
set_option linter.unusedSectionVars false
set_option linter.ambiguousOpen false

namespace Apron.Poly

variable {K : Type*} [LinearOrder K] [Field K] [IsStrictOrderedRing K] {n : ℕ}

/-! ## Sorting -/

theorem isortIns_perm (p : ℕ × Row) (l : List (ℕ × Row)) : (isortIns p l).Perm (p :: l) := by
  induction l with
  | nil => exact .refl _
  | cons x l ih =>
    rw [isortIns]
    split_ifs
    · exact (ih.cons x).trans (.swap p x l)
    · exact .refl _

theorem isortIns_sorted (p : ℕ × Row) (l : List (ℕ × Row)) (h : l.Pairwise fun a b => b.1 ≤ a.1) :
    (isortIns p l).Pairwise fun a b => b.1 ≤ a.1 := by
  induction l with
  | nil => simp [isortIns]
  | cons x l ih =>
    rw [List.pairwise_cons] at h
    rw [isortIns]
    split_ifs with hx
    · rw [List.pairwise_cons]
      refine ⟨fun a ha => ?_, ih h.2⟩
      rcases List.mem_cons.1 ((isortIns_perm p l).mem_iff.1 ha) with rfl | ha
      · omega
      · exact h.1 a ha
    · rw [List.pairwise_cons]
      refine ⟨fun a ha => ?_, List.pairwise_cons.2 h⟩
      rcases List.mem_cons.1 ha with rfl | ha
      · omega
      · exact (h.1 a ha).trans (by omega)

theorem isort_fold (l acc : List (ℕ × Row)) (h : acc.Pairwise fun a b => b.1 ≤ a.1) :
    (l.foldl (fun acc p => isortIns p acc) acc).Perm (l ++ acc) ∧
    (l.foldl (fun acc p => isortIns p acc) acc).Pairwise fun a b => b.1 ≤ a.1 := by
  induction l generalizing acc with
  | nil => exact ⟨.refl _, h⟩
  | cons p l ih =>
    obtain ⟨h1, h2⟩ := ih _ (isortIns_sorted p acc h)
    refine ⟨h1.trans ?_, h2⟩
    rw [List.cons_append]
    exact ((isortIns_perm p acc).append_left l).trans List.perm_middle

theorem isort_perm (l : List (ℕ × Row)) : (isort l).Perm l := by
  have := (isort_fold l [] (by simp)).1
  rw [List.append_nil] at this
  exact (List.reverse_perm _).trans this

theorem isort_sorted (l : List (ℕ × Row)) (hn : (l.map Prod.fst).Nodup) : (isort l).Pairwise fun a b => a.1 < b.1 := by
  have h1 : (isort l).Pairwise fun a b => a.1 ≤ b.1 := by
    rw [isort, List.pairwise_reverse]
    exact (isort_fold l [] (by simp)).2
  have h2 : ((isort l).map Prod.fst).Nodup := ((isort_perm l).map _).nodup_iff.2 hn
  rw [List.Nodup, List.pairwise_map] at h2
  exact (h1.and h2).imp fun h => lt_of_le_of_ne h.1 h.2

/-! ## Columns -/

theorem affFind_cons (d : ℕ) (t : Row) (l : List (ℕ × Row)) (i : ℕ) :
    affFind ((d, t) :: l) i = if i = d + 1 then some t else affFind l i := by
  rw [affFind, List.find?_cons]
  by_cases h : i = d + 1
  · simp [h]
  · rw [if_neg h]
    have : (d + 1 == i) = false := by simpa using fun e => h e.symm
    rw [this]; rfl

theorem affFind_none_iff (l : List (ℕ × Row)) (i : ℕ) : affFind l i = none ↔ ∀ p ∈ l, p.1 + 1 ≠ i := by
  rw [affFind, Option.map_eq_none_iff, List.find?_eq_none]
  simp

theorem affFind_some_iff {l : List (ℕ × Row)} (hn : (l.map Prod.fst).Nodup) (i : ℕ) (t : Row) :
    affFind l i = some t ↔ ∃ d, d + 1 = i ∧ (d, t) ∈ l := by
  induction l with
  | nil => simp [affFind]
  | cons p l ih =>
    obtain ⟨d, u⟩ := p
    rw [List.map_cons, List.nodup_cons] at hn
    rw [affFind_cons]
    split_ifs with h
    · constructor
      · intro e; cases e; exact ⟨d, h.symm, List.mem_cons_self ..⟩
      · rintro ⟨d', e, hm⟩
        obtain rfl : d' = d := by omega
        rcases List.mem_cons.1 hm with e2 | hm
        · cases e2; rfl
        · exact absurd (List.mem_map_of_mem (f := Prod.fst) hm) hn.1
    · rw [ih hn.2]
      refine exists_congr fun d' => and_congr_right fun e => ?_
      rw [List.mem_cons]
      refine ⟨Or.inr, fun hm => hm.resolve_left fun e2 => ?_⟩
      cases e2; exact h e.symm

theorem affFind_perm {l l' : List (ℕ × Row)} (hp : l.Perm l') (hn : (l.map Prod.fst).Nodup) (i : ℕ) : affFind l i = affFind l' i := by
  have hn' : (l'.map Prod.fst).Nodup := (hp.map _).nodup_iff.1 hn
  refine Option.ext fun t => ?_
  rw [affFind_some_iff hn, affFind_some_iff hn']
  exact exists_congr fun d => and_congr_right fun _ => hp.mem_iff

theorem affL_perm {l l' : List (ℕ × Row)} (hp : l.Perm l') (hn : (l.map Prod.fst).Nodup) : affL K n l = affL K n l' := by
  have : affFind l = affFind l' := funext fun i => affFind_perm hp hn i
  rw [affL, affL, this]

theorem asgCols_at (den : ℤ) (q : Row) (k : ℕ) : ∀ (j : ℕ) (l : List (ℕ × Row)), (l.Pairwise fun a b => a.1 < b.1) → (∀ p ∈ l, j ≤ p.1 + 1) →
    ∀ i, (asgCols n den q k (j + 1) l).getD i 0 = if i < k then
      (match affFind l (j + i) with | some t => vprod (n + 1) q t * (den / t.at' 0) | none => q.at' (j + 1 + i) * den) else 0 := by
  induction k with
  | zero => intro j l _ _ i; simp [asgCols]
  | succ k ih =>
    intro j l hs hj i
    cases l with
    | nil =>
      rw [asgCols]
      cases i with
      | zero => simp [affFind]
      | succ i =>
        rw [List.getD_cons_succ, ih (j + 1) [] (by simp) (by simp), show j + 1 + i = j + (i + 1) by omega, show j + 1 + 1 + i = j + 1 + (i + 1) by omega]
        simp only [Nat.add_lt_add_iff_right]
    | cons p l =>
      obtain ⟨d, t⟩ := p
      rw [List.pairwise_cons] at hs
      rw [asgCols]
      by_cases hd : d + 2 = j + 1
      · rw [if_pos hd]
        cases i with
        | zero =>
          have : affFind ((d, t) :: l) (j + 0) = some t := by rw [affFind_cons, if_pos (by omega)]
          rw [this]; simp
        | succ i =>
          have : affFind ((d, t) :: l) (j + (i + 1)) = affFind l (j + (i + 1)) := by rw [affFind_cons, if_neg (by omega)]
          rw [List.getD_cons_succ, ih (j + 1) l hs.2 (fun p hp => by have := hs.1 p hp; dsimp only at this; omega), this, show j + 1 + i = j + (i + 1) by omega, show j + 1 + 1 + i = j + 1 + (i + 1) by omega]
          simp only [Nat.add_lt_add_iff_right]
      · rw [if_neg hd]
        have hj0 := hj (d, t) (List.mem_cons_self ..)
        dsimp only at hj0
        cases i with
        | zero =>
          have : affFind ((d, t) :: l) (j + 0) = none := by
            rw [affFind_none_iff]
            intro p hp
            rcases List.mem_cons.1 hp with rfl | hp
            · dsimp only; omega
            · have := hs.1 p hp; dsimp only at this; omega
          rw [this]; simp
        | succ i =>
          rw [List.getD_cons_succ, ih (j + 1) ((d, t) :: l) (List.pairwise_cons.2 hs) (fun p hp => by
              rcases List.mem_cons.1 hp with rfl | hp
              · dsimp only; omega
              · have := hs.1 p hp; dsimp only at this; omega),
            show j + 1 + i = j + (i + 1) by omega, show j + 1 + 1 + i = j + 1 + (i + 1) by omega]
          simp only [Nat.add_lt_add_iff_right]

theorem subCols_at (den : ℤ) (q : Row) (k : ℕ) : ∀ (j : ℕ) (l : List (ℕ × Row)), (l.Pairwise fun a b => a.1 < b.1) → (∀ p ∈ l, j ≤ p.1 + 1) →
    ∀ i, (subCols den q k (j + 1) l).getD i 0 = if i < k then
      (match affFind l (j + i) with | some _ => 0 | none => q.at' (j + 1 + i) * den) else 0 := by
  induction k with
  | zero => intro j l _ _ i; simp [subCols]
  | succ k ih =>
    intro j l hs hj i
    cases l with
    | nil =>
      rw [subCols]
      cases i with
      | zero => simp [affFind]
      | succ i =>
        rw [List.getD_cons_succ, ih (j + 1) [] (by simp) (by simp), show j + 1 + i = j + (i + 1) by omega, show j + 1 + 1 + i = j + 1 + (i + 1) by omega]
        simp only [Nat.add_lt_add_iff_right]
    | cons p l =>
      obtain ⟨d, t⟩ := p
      rw [List.pairwise_cons] at hs
      rw [subCols]
      by_cases hd : d + 2 = j + 1
      · rw [if_pos hd]
        cases i with
        | zero =>
          have : affFind ((d, t) :: l) (j + 0) = some t := by rw [affFind_cons, if_pos (by omega)]
          rw [this]; simp
        | succ i =>
          have : affFind ((d, t) :: l) (j + (i + 1)) = affFind l (j + (i + 1)) := by rw [affFind_cons, if_neg (by omega)]
          rw [List.getD_cons_succ, ih (j + 1) l hs.2 (fun p hp => by have := hs.1 p hp; dsimp only at this; omega), this, show j + 1 + i = j + (i + 1) by omega, show j + 1 + 1 + i = j + 1 + (i + 1) by omega]
          simp only [Nat.add_lt_add_iff_right]
      · rw [if_neg hd]
        have hj0 := hj (d, t) (List.mem_cons_self ..)
        dsimp only at hj0
        cases i with
        | zero =>
          have : affFind ((d, t) :: l) (j + 0) = none := by
            rw [affFind_none_iff]
            intro p hp
            rcases List.mem_cons.1 hp with rfl | hp
            · dsimp only; omega
            · have := hs.1 p hp; dsimp only at this; omega
          rw [this]; simp
        | succ i =>
          rw [List.getD_cons_succ, ih (j + 1) ((d, t) :: l) (List.pairwise_cons.2 hs) (fun p hp => by
              rcases List.mem_cons.1 hp with rfl | hp
              · dsimp only; omega
              · have := hs.1 p hp; dsimp only at this; omega),
            show j + 1 + i = j + (i + 1) by omega, show j + 1 + 1 + i = j + 1 + (i + 1) by omega]
          simp only [Nat.add_lt_add_iff_right]

theorem commonDen_pos {l : List (ℕ × Row)} (h : ∀ p ∈ l, 0 < p.2.at' 0) : 0 < commonDen l := by
  rw [commonDen]
  refine List.prod_pos ?_
  intro a ha
  obtain ⟨p, hp, rfl⟩ := List.mem_map.1 ha
  exact h p hp

theorem dvd_commonDen {l : List (ℕ × Row)} {p : ℕ × Row} (hp : p ∈ l) : p.2.at' 0 ∣ commonDen l :=
  List.dvd_prod (List.mem_map_of_mem hp)

theorem affFind_mem {l : List (ℕ × Row)} {i : ℕ} {t : Row} (h : affFind l i = some t) : ∃ d, (d, t) ∈ l := by
  rw [affFind, Option.map_eq_some_iff] at h
  obtain ⟨p, hp, rfl⟩ := h
  exact ⟨p.1, List.mem_of_find?_eq_some hp⟩

/-- the quotient of the common denominator by one of the denominators -/
theorem den_div {l : List (ℕ × Row)} (h : ∀ p ∈ l, 0 < p.2.at' 0) {p : ℕ × Row} (hp : p ∈ l) :
    ((commonDen l / p.2.at' 0 : ℤ) : K) = (commonDen l : K) * ((p.2.at' 0 : ℤ) : K)⁻¹ := by
  have h0 : ((p.2.at' 0 : ℤ) : K) ≠ 0 := by exact_mod_cast (h p hp).ne'
  rw [Int.cast_div (dvd_commonDen hp) h0, div_eq_mul_inv]

/-- the generators are mapped by the parallel assignment -/
theorem asgRows_img {l : List (ℕ × Row)} (hs : l.Pairwise fun a b => a.1 < b.1) (h0 : ∀ p ∈ l, 0 < p.2.at' 0) :
    ImgBy (affL K n l) (asgRows n l) := by
  intro q
  have hat := asgCols_at (n := n) (commonDen l) q (n + 1) 0 l hs (fun _ _ => by omega)
  obtain ⟨e0, g, hg, h⟩ := normalize_spec (q.at' 0 :: asgCols n (commonDen l) q (n + 1) 1 l) (n + 2) (fun j hj => by
    obtain ⟨j, rfl⟩ : ∃ i, j = i + 1 := ⟨j - 1, by omega⟩
    rw [Row.at', List.getD_cons_succ, hat, if_neg (by omega)])
  rw [asgRows]
  set N := normalize _ (n + 2) with hN
  have hg' : (0 : K) < g := by exact_mod_cast hg
  have hd' : (0 : K) < commonDen l := by exact_mod_cast commonDen_pos h0
  have e0' : N.at' 0 = q.at' 0 := by rw [e0]; rfl
  refine ⟨by rw [e0'], by rw [e0'], commonDen l / g, div_pos hd' hg', ?_⟩
  funext i
  have hi := h i
  rw [Row.at', Row.at', List.getD_cons_succ, hat, if_pos (by omega)] at hi
  rw [Pi.smul_apply, smul_eq_mul, div_mul_eq_mul_div, eq_div_iff hg'.ne', mul_comm _ (g : K)]
  have hi' : (g : K) * toV K (n + 1) N i = ((match affFind l (0 + i) with
      | some t => vprod (n + 1) q t * (commonDen l / t.at' 0) | none => q.at' (0 + 1 + i) * commonDen l : ℤ) : K) := by
    rw [← hi, toV]; push_cast; rfl
  rw [hi', zero_add]
  cases hf : affFind l i with
  | none =>
    rw [affL_none hf, toV, show 0 + 1 + (i : ℕ) = i + 1 by omega]; push_cast; ring
  | some t =>
    obtain ⟨d, hm⟩ := affFind_mem hf
    rw [affL_some hf, dot_toV, vprod_comm, Int.cast_mul, den_div h0 hm]; ring

theorem sum_affFind (f : ℕ → Row → K) : ∀ l : List (ℕ × Row), (l.map Prod.fst).Nodup → (∀ p ∈ l, p.1 < n) →
    (∑ i : Fin (n + 1), match affFind l i with | some t => f i t | none => 0) = (l.map fun p => f (p.1 + 1) p.2).sum := by
  intro l
  induction l with
  | nil => intro _ _; simp [affFind]
  | cons p l ih =>
    obtain ⟨d, t⟩ := p
    intro hn hd
    rw [List.map_cons, List.nodup_cons] at hn
    rw [List.map_cons, List.sum_cons, ← ih hn.2 fun p hp => hd p (List.mem_cons_of_mem _ hp)]
    have hd0 : d < n := hd (d, t) (List.mem_cons_self ..)
    have hnone : affFind l (d + 1) = none := by
      rw [affFind_none_iff]
      intro p hp e
      exact hn.1 (List.mem_map.2 ⟨p, hp, by dsimp only; omega⟩)
    have key : ∀ i : Fin (n + 1), (match affFind ((d, t) :: l) i with | some t => f i t | none => (0 : K)) =
        (if i = (⟨d + 1, by omega⟩ : Fin (n + 1)) then f i t else 0) + match affFind l i with | some t => f i t | none => 0 := by
      intro i
      rw [affFind_cons]
      by_cases h : i = (⟨d + 1, by omega⟩ : Fin (n + 1))
      · subst h
        rw [if_pos rfl, if_pos rfl, hnone, add_zero]
      · have h' : ¬ ((i : ℕ) = d + 1) := fun e => h (Fin.ext e)
        rw [if_neg h', if_neg h, zero_add]
    rw [Finset.sum_congr rfl fun i _ => key i, Finset.sum_add_distrib, Finset.sum_ite_eq' Finset.univ, if_pos (Finset.mem_univ _)]

theorem foldl_subst (l : List (ℕ × Row)) (q : Row) (f : ℕ × Row → ℤ) (s : ℤ) :
    l.foldl (fun s p => if q.at' (p.1 + 2) ≠ 0 then s + q.at' (p.1 + 2) * f p else s) s =
      s + (l.map fun p => q.at' (p.1 + 2) * f p).sum := by
  induction l generalizing s with
  | nil => simp
  | cons p l ih =>
    rw [List.foldl_cons, ih, List.map_cons, List.sum_cons]
    split_ifs with h
    · ring
    · rw [not_not] at h; rw [h]; ring

theorem sum_map_sum {m : ℕ} (l : List (ℕ × Row)) (F : ℕ × Row → Fin m → K) :
    ∑ i, (l.map fun p => F p i).sum = (l.map fun p => ∑ i, F p i).sum := by
  induction l with
  | nil => simp
  | cons p l ih => simp only [List.map_cons, List.sum_cons, Finset.sum_add_distrib, ih]

/-- the constraints are composed with the parallel assignment -/
theorem subRows_pre {l : List (ℕ × Row)} (hs : l.Pairwise fun a b => a.1 < b.1) (hd : ∀ p ∈ l, p.1 < n) (h0 : ∀ p ∈ l, 0 < p.2.at' 0) :
    PreBy (affL K n l) (subRows n l) := by
  intro q
  have hnd : (l.map Prod.fst).Nodup := by
    rw [List.Nodup, List.pairwise_map]; exact hs.imp fun h => h.ne
  have hat := subCols_at (commonDen l) q (n + 1) 0 l hs (fun _ _ => by omega)
  rw [subRows]
  have hfun : (fun j : ℕ => if j = 0 then q.at' 0
      else l.foldl (fun s p => if q.at' (p.1 + 2) ≠ 0 then s + q.at' (p.1 + 2) * p.2.at' j * (commonDen l / p.2.at' 0) else s)
        (Row.at' (q.at' 0 :: subCols (commonDen l) q (n + 1) 1 l) j)) =
      fun j => if j = 0 then q.at' 0 else Row.at' (q.at' 0 :: subCols (commonDen l) q (n + 1) 1 l) j +
        (l.map fun p => q.at' (p.1 + 2) * (p.2.at' j * (commonDen l / p.2.at' 0))).sum := by
    funext j
    split_ifs
    · rfl
    · rw [← foldl_subst]; simp only [mul_assoc]
  rw [hfun]
  obtain ⟨e0, g, hg, h⟩ := normalize_ofFun (K := K) (n := n) fun j => if j = 0 then q.at' 0 else Row.at' (q.at' 0 :: subCols (commonDen l) q (n + 1) 1 l) j +
        (l.map fun p => q.at' (p.1 + 2) * (p.2.at' j * (commonDen l / p.2.at' 0))).sum
  set N := normalize _ (n + 2) with hN
  rw [if_pos rfl] at e0
  have hd' : (0 : K) < commonDen l := by exact_mod_cast commonDen_pos h0
  refine ⟨by rw [e0], by rw [e0], commonDen l / g, div_pos hd' hg, fun y => ?_⟩
  rw [div_mul_eq_mul_div, eq_div_iff hg.ne', mul_comm _ g]
  have e1 : g * dot N y = ∑ i : Fin (n + 1), ((match affFind l i with | some _ => 0 | none => (q.at' (i + 1) : K) * commonDen l) * y i +
      (l.map fun p => (q.at' (p.1 + 2) : K) * ((commonDen l : K) * ((p.2.at' 0 : ℤ) : K)⁻¹) * (p.2.at' (i + 1) * y i)).sum) := by
    rw [dot, Finset.mul_sum]
    refine Finset.sum_congr rfl fun i _ => ?_
    have hi := h i
    rw [toV, if_neg (by omega), Row.at', List.getD_cons_succ, hat, if_pos (by omega), zero_add, show 0 + 1 + (i : ℕ) = i + 1 by omega] at hi
    rw [← mul_assoc, ← hi, Int.cast_add, add_mul]
    congr 1
    · cases affFind l i <;> simp
    · have : ∀ l' : List (ℕ × Row), (∀ p ∈ l', p ∈ l) →
          (((l'.map fun p => q.at' (p.1 + 2) * (p.2.at' (i + 1) * (commonDen l / p.2.at' 0))).sum : ℤ) : K) * y i =
          (l'.map fun p => (q.at' (p.1 + 2) : K) * ((commonDen l : K) * ((p.2.at' 0 : ℤ) : K)⁻¹) * (p.2.at' (i + 1) * y i)).sum := by
        intro l'
        induction l' with
        | nil => intro _; simp
        | cons p l' ih =>
          intro hl
          rw [List.map_cons, List.map_cons, List.sum_cons, List.sum_cons, ← ih fun p hp => hl p (List.mem_cons_of_mem _ hp),
            Int.cast_add, add_mul, Int.cast_mul, Int.cast_mul, den_div h0 (hl p (List.mem_cons_self ..))]
          ring
      exact this l fun _ h => h
  rw [e1, Finset.sum_add_distrib, sum_map_sum]
  have e2 : (l.map fun p => ∑ i : Fin (n + 1), (q.at' (p.1 + 2) : K) * ((commonDen l : K) * ((p.2.at' 0 : ℤ) : K)⁻¹) * (p.2.at' (i + 1) * y i)).sum =
      ∑ i : Fin (n + 1), match affFind l i with
        | some t => (q.at' (i + 1) : K) * ((commonDen l : K) * ((t.at' 0 : ℤ) : K)⁻¹) * dot t y | none => 0 := by
    rw [sum_affFind (fun (j : ℕ) (t : Row) => (q.at' (j + 1) : K) * ((commonDen l : K) * ((t.at' 0 : ℤ) : K)⁻¹) * dot t y) l hnd hd]
    congr 1
    refine List.map_congr_left fun p _ => ?_
    simp only [dot, Finset.mul_sum]
  rw [e2, ← Finset.sum_add_distrib, dot, Finset.mul_sum]
  refine Finset.sum_congr rfl fun i _ => ?_
  cases hf : affFind l i with
  | none => rw [affL_none hf]; dsimp only; ring
  | some t => rw [affL_some hf]; dsimp only; ring

/-! ## Polyhedra -/

/-- the polyhedron whose constraints are composed with a map -/
theorem cons_pre {pa : Rep} (ha : pa.Wf K n) {C : List Row} (hC : pa.C? = some C) {ψ : (Fin (n + 1) → K) →ₗ[K] (Fin (n + 1) → K)} {S : Row → Row}
    (hS : PreBy ψ S) (hψ : ∀ u, ψ u 0 = u 0) :
    (Rep.cons (C.map S)).Wf K n ∧ ∀ x : Fin n → K, (Rep.cons (C.map S)).γ x ↔ ∃ x0 : Fin n → K, pa.γ x0 ∧ hom x0 = ψ (hom x) := by
  have hc : ∀ y, Sat (C.map S) y ↔ pa.cone (ψ y) := fun y => by
    rw [Rep.Wf.sat hC]
    exact sat_map ψ (fun q _ => (hS q).2.1) (fun q _ => (hS q).2.2) y
  refine ⟨fun y hy => ?_, fun x => ?_⟩
  · rw [← hψ y]; exact ha.pos _ ((hc y).1 hy)
  · change Sat (C.map S) (hom x) ↔ _
    rw [hc]
    constructor
    · intro h
      obtain ⟨x0, e⟩ := exists_hom (y := ψ (hom x)) (by rw [hψ]; rfl)
      exact ⟨x0, by rw [Rep.γ, ← e]; exact h, e.symm⟩
    · rintro ⟨x0, h, e⟩; rw [← e]; exact h

/-- the relation between the points before and after -/
def AsgRel (assign : Bool) (l : List (ℕ × Row)) (x0 x : Fin n → K) : Prop :=
  if assign then hom x = affL K n l (hom x0) else hom x0 = affL K n l (hom x)

/-- `poly_asssub_linexpr_det` -/
theorem asssubDet_spec {assign destr : Bool} {pa : Rep} (ha : pa.Wf K n) (dim : Fin n) {tab : Row} (h0 : 0 < tab.at' 0) :
    (Rep.asssubDet assign destr n pa dim tab).Wf K n ∧ ∀ x : Fin n → K, (Rep.asssubDet assign destr n pa dim tab).γ x ↔
      ∃ x0 : Fin n → K, pa.γ x0 ∧ AsgRel assign [((dim : ℕ), tab)] x0 x := by
  rw [Rep.asssubDet]
  dsimp only
  by_cases hz : tab.at' (dim + 2) = 0
  · rw [if_pos hz]
    cases assign with
    | true =>
      simp only [if_true, AsgRel]
      have hg := obtainF_γ ha
      cases hF : (pa.obtainF n).F? with
      | none =>
        refine ⟨trivial, fun x => ⟨fun h => h.elim, ?_⟩⟩
        rintro ⟨x0, hx0, -⟩
        rw [← hg, obtainF_none hF] at hx0; exact hx0
      | some F =>
        obtain ⟨h1, h2⟩ := gens_image (obtainF_wf ha) hF (affL K n [((dim : ℕ), tab)]) (fun u => affL_zero _ u)
          (fun q _ => (asgRow_img (K := K) destr dim h0 q).2.1) (fun q _ => (asgRow_img destr dim h0 q).2.2)
        refine ⟨h1, fun x => ?_⟩
        rw [h2]; simp only [hg]
    | false =>
      simp only [Bool.false_eq_true, if_false, AsgRel]
      have hg := obtainC_γ ha
      cases hC : (pa.obtainC n).C? with
      | none =>
        refine ⟨trivial, fun x => ⟨fun h => h.elim, ?_⟩⟩
        rintro ⟨x0, hx0, -⟩
        rw [← hg, obtainC_none hC] at hx0; exact hx0
      | some C =>
        obtain ⟨h1, h2⟩ := cons_pre (obtainC_wf ha) hC (subRow_pre dim h0) (fun u => affL_zero _ u)
        refine ⟨h1, fun x => ?_⟩
        rw [h2]; simp only [hg]
  · rw [if_neg hz]
    obtain ⟨i1, i2⟩ := aff_inv (K := K) dim h0 hz
    have hinv := (invExpr_spec (K := K) dim h0 hz).1
    obtain ⟨φ, ψ, hT, hS, h1, h2, hφ, hψ, hrel⟩ : ∃ φ ψ : (Fin (n + 1) → K) →ₗ[K] (Fin (n + 1) → K),
        ImgBy φ (if assign then asgRow destr n dim tab else asgRow destr n dim (invExpr n dim tab)) ∧
        PreBy ψ (if assign then subRow n dim (invExpr n dim tab) else subRow n dim tab) ∧
        (∀ u, ψ (φ u) = u) ∧ (∀ u, φ (ψ u) = u) ∧ (∀ u, φ u 0 = u 0) ∧ (∀ u, ψ u 0 = u 0) ∧
        ∀ x0 x : Fin n → K, AsgRel assign [((dim : ℕ), tab)] x0 x ↔ hom x0 = ψ (hom x) := by
      cases assign with
      | true =>
        refine ⟨_, _, asgRow_img destr dim h0, subRow_pre dim hinv, i1, i2, fun u => affL_zero _ u, fun u => affL_zero _ u, fun x0 x => ?_⟩
        rw [AsgRel, if_pos rfl]
        exact ⟨fun h => by rw [h, i1], fun h => by rw [h, i2]⟩
      | false =>
        refine ⟨_, _, asgRow_img destr dim hinv, subRow_pre dim h0, i2, i1, fun u => affL_zero _ u, fun u => affL_zero _ u, fun x0 x => ?_⟩
        rw [AsgRel, if_neg (by simp)]
    have hrel' : ∀ x0 x : Fin n → K, AsgRel assign [((dim : ℕ), tab)] x0 x ↔ hom x = φ (hom x0) := fun x0 x => by
      rw [hrel]; exact ⟨fun h => by rw [h, h2], fun h => by rw [h, h1]⟩
    cases pa with
    | bot => exact ⟨trivial, fun x => ⟨fun h => h.elim, fun ⟨_, h, _⟩ => h⟩⟩
    | cons C =>
      simp only [hrel]
      exact cons_pre ha rfl hS hψ
    | gens F =>
      simp only [hrel']
      exact gens_image ha rfl φ hφ (fun q _ => (hT q).2.1) (fun q _ => (hT q).2.2)
    | both f =>
      simp only [hrel]
      set g : Full := _ with hgdef
      change (Rep.both g).Wf K n ∧ _
      have hcr : g.crows = f.crows.map (if assign then subRow n dim (invExpr n dim tab) else subRow n dim tab) := by
        rw [Full.crows, Full.crows, hgdef, List.map_map, List.map_map]; rfl
      obtain ⟨c1, c2⟩ := cons_pre ha (C := f.crows) rfl hS hψ
      refine ⟨⟨Full.Ok.map h1 h2 hT hS ha.1 rfl rfl rfl rfl, ?_, ?_⟩, fun x => ?_⟩
      · rw [hcr]; exact c1
      · obtain ⟨y, hy, hpos⟩ := ha.2.2
        refine ⟨φ y, ?_, by rw [hφ]; exact hpos⟩
        rw [hcr]
        refine (sat_map ψ (fun q _ => (hS q).2.1) (fun q _ => (hS q).2.2) _).2 ?_
        rw [h1]; exact hy
      · rw [← c2]
        change Sat g.crows _ ↔ _
        rw [hcr]; rfl

/-- `poly_asssub_linexpr_array_det` -/
theorem asssubArrayDet_spec {assign : Bool} {pa : Rep} (ha : pa.Wf K n) {l : List (ℕ × Row)} (hl : l ≠ []) (hn : (l.map Prod.fst).Nodup)
    (hd : ∀ p ∈ l, p.1 < n) (h0 : ∀ p ∈ l, 0 < p.2.at' 0) :
    ∃ r, Rep.asssubArrayDet assign n pa l = some r ∧ r.Wf K n ∧ ∀ x : Fin n → K, r.γ x ↔
      ∃ x0 : Fin n → K, pa.γ x0 ∧ AsgRel assign l x0 x := by
  have hs := isort_sorted l hn
  have hperm := isort_perm l
  have he : affL K n (isort l) = affL K n l := affL_perm hperm ((hperm.map _).nodup_iff.2 hn)
  have h0' : ∀ p ∈ isort l, 0 < p.2.at' 0 := fun p hp => h0 p (hperm.mem_iff.1 hp)
  have hd' : ∀ p ∈ isort l, p.1 < n := fun p hp => hd p (hperm.mem_iff.1 hp)
  rw [Rep.asssubArrayDet]
  cases assign with
  | true =>
    simp only [if_true, AsgRel]
    have hg := obtainF_γ ha
    cases hF : (pa.obtainF n).F? with
    | none =>
      refine ⟨_, rfl, trivial, fun x => ⟨fun h => h.elim, ?_⟩⟩
      rintro ⟨x0, hx0, -⟩
      rw [← hg, obtainF_none hF] at hx0; exact hx0
    | some F =>
      dsimp only
      rw [if_neg hl]
      obtain ⟨h1, h2⟩ := gens_image (obtainF_wf ha) hF (affL K n (isort l)) (fun u => affL_zero _ u)
        (fun q _ => (asgRows_img (K := K) hs h0' q).2.1) (fun q _ => (asgRows_img hs h0' q).2.2)
      refine ⟨_, rfl, h1, fun x => ?_⟩
      rw [h2, he]; simp only [hg]
  | false =>
    simp only [Bool.false_eq_true, if_false, AsgRel]
    have hg := obtainC_γ ha
    cases hC : (pa.obtainC n).C? with
    | none =>
      refine ⟨_, rfl, trivial, fun x => ⟨fun h => h.elim, ?_⟩⟩
      rintro ⟨x0, hx0, -⟩
      rw [← hg, obtainC_none hC] at hx0; exact hx0
    | some C =>
      dsimp only
      rw [if_neg hl]
      obtain ⟨h1, h2⟩ := cons_pre (obtainC_wf ha) hC (subRows_pre hs hd' h0') (fun u => affL_zero _ u)
      refine ⟨_, rfl, h1, fun x => ?_⟩
      rw [h2, he]; simp only [hg]

end Apron.Poly
