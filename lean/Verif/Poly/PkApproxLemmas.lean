import Verif.Poly.PkApprox
import Verif.Poly.PkUserOps
import Verif.Poly.PkRayBox
import Verif.Poly.PkNice

/-!
# Lemmas on `pk_approximate`
-/

set_option autoImplicit false
set_option linter.unusedSectionVars false
set_option linter.ambiguousOpen false

namespace Apron.Poly

open Apron Bound ILincons

variable {n : ℕ}

/-! ## Rows -/

/-- only the columns below `n + 2` matter -/
theorem normConsInt_trunc (n intdim : ℕ) (q : Row) :
    ∀ j, j < n + 2 → (normConsInt n intdim (Row.ofFun (n + 2) q.at')).at' j = (normConsInt n intdim q).at' j := by
  have e : ∀ j, j < n + 2 → (Row.ofFun (n + 2) q.at').at' j = q.at' j := fun j hj => by rw [at_ofFun, if_pos hj]
  have e1 : rowIsInt n intdim (Row.ofFun (n + 2) q.at') = rowIsInt n intdim q := by
    rw [rowIsInt, rowIsInt, Bool.eq_iff_iff, List.all_eq_true, List.all_eq_true]
    refine forall_congr' fun d => forall_congr' fun hd => ?_
    rw [e _ (by rw [List.mem_range] at hd; omega)]
  have e2 : rowIsPos n (Row.ofFun (n + 2) q.at') = rowIsPos n q := by
    rw [rowIsPos, rowIsPos, e 0 (by omega)]
    congr 1
    rw [Bool.eq_iff_iff, List.all_eq_true, List.all_eq_true]
    refine forall_congr' fun d => forall_congr' fun hd => ?_
    rw [e _ (by rw [List.mem_range] at hd; omega)]
  have e3 : (List.range n).map (fun d => (Row.ofFun (n + 2) q.at').at' (d + 2)) = (List.range n).map fun d => q.at' (d + 2) :=
    List.map_congr_left fun d hd => e _ (by rw [List.mem_range] at hd; omega)
  have e4 : (List.range (n + 2 - 1)).map (fun j => (Row.ofFun (n + 2) q.at').at' (j + 1)) =
      (List.range (n + 2 - 1)).map fun j => q.at' (j + 1) :=
    List.map_congr_left fun d hd => e _ (by rw [List.mem_range] at hd; omega)
  intro j hj
  unfold normConsInt Apron.Poly.normalize
  dsimp only
  rw [e1, e2, e3, e4, e 0 (by omega), e 1 (by omega)]
  have e5 : ∀ g s : ℤ, (Row.ofFun (n + 2) fun j => if j = 0 then s else (Row.ofFun (n + 2) q.at').at' j / g).at' j =
      (Row.ofFun (n + 2) fun j => if j = 0 then s else q.at' j / g).at' j := by
    intro g s
    rw [at_ofFun, at_ofFun (n := n + 2) (f := fun j => if j = 0 then s else q.at' j / g), if_pos hj, if_pos hj, e j hj]
  split_ifs <;> first
    | rfl
    | exact e5 _ _
    | exact e j hj

theorem dot_congr_at {p q : Row} (h : ∀ j, j < n + 2 → p.at' j = q.at' j) (y : Fin (n + 1) → ℚ) : dot p y = dot q y := by
  rw [dot, dot]
  exact Finset.sum_congr rfl fun j _ => by rw [h _ (by omega)]

theorem rowSat_congr {p q : Row} (h : ∀ j, j < n + 2 → p.at' j = q.at' j) (x : Fin n → ℚ) : RowSat p x ↔ RowSat q x := by
  rw [RowSat, RowSat, dot_congr_at h, h 0 (by omega)]

theorem ofFun_big (f : ℕ → ℤ) : ∀ j, n + 2 ≤ j → (Row.ofFun (n + 2) f).at' j = 0 := fun j hj => by
  rw [at_ofFun, if_neg (by omega)]

theorem normConsInt_sound' {intdim : ℕ} {q : Row} {x : Fin n → ℚ} (hx : IntPt intdim x) (h : RowSat q x) :
    RowSat (normConsInt n intdim q) x := by
  rw [← rowSat_congr (normConsInt_trunc n intdim q)]
  refine normConsInt_sound (ofFun_big _) hx ?_
  rwa [rowSat_congr (q := q) fun j hj => by rw [at_ofFun, if_pos hj]]

theorem normConsInt_back' {intdim : ℕ} {q : Row} {x : Fin n → ℚ} (h : RowSat (normConsInt n intdim q) x) : RowSat q x := by
  rw [← rowSat_congr (normConsInt_trunc n intdim q)] at h
  have := (normConsInt_back (ofFun_big _) h).1
  rwa [rowSat_congr (q := q) fun j hj => by rw [at_ofFun, if_pos hj]] at this

/-- a primitive row that is not tightened is not changed -/
theorem normConsInt_id {intdim : ℕ} (hi : 0 < intdim) {q : Row} (hp : PrimRow (n + 1) q) (hc : normConsIntChange n intdim q = false) :
    normConsInt n intdim q = q := by
  rw [normConsInt]
  by_cases h1 : 0 < intdim ∧ rowIsInt n intdim q = true ∧ rowIsPos n q = false
  · rw [if_pos h1]
    rw [if_neg]
    intro h
    rw [normConsIntChange, h1.2.1, h1.2.2, decide_eq_true h, decide_eq_true hi] at hc
    exact absurd hc (by decide)
  · rw [if_neg h1, Apron.Poly.normalize]
    rw [if_neg]
    intro h
    set g := vectorGcd ((List.range (n + 2 - 1)).map fun j => q.at' (j + 1)) with hg
    have hd : ∀ j, j < n + 1 → (g : ℤ) ∣ q.at' (j + 1) := fun j hj =>
      dvd_vectorGcd _ _ (List.mem_map.2 ⟨j, by rw [List.mem_range]; omega, rfl⟩)
    rcases hp g hd with h2 | h2
    · have := Int.eq_one_of_dvd_one (by omega) h2
      omega
    · have : (List.range (n + 2 - 1)).map (fun j => q.at' (j + 1)) = (List.range (n + 2 - 1)).map fun _ => (0 : ℤ) :=
        List.map_congr_left fun j hj => h2 j (by rw [List.mem_range] at hj; omega)
      rw [this] at hg
      have h3 : ∀ m : ℕ, vectorGcd ((List.range m).map fun _ => (0 : ℤ)) = 0 := by
        intro m
        have := dvd_vectorGcd_iff ((List.range m).map fun _ => (0 : ℤ)) 0 (by intro a ha; obtain ⟨_, _, rfl⟩ := List.mem_map.1 ha; simp)
        exact_mod_cast zero_dvd_iff.1 this
      rw [h3] at hg
      omega

theorem rowSat_normalize {q : Row} (hq : ∀ j, n + 2 ≤ j → q.at' j = 0) (x : Fin n → ℚ) :
    RowSat (Apron.Poly.normalize q (n + 2)) x ↔ RowSat q x := by
  obtain ⟨a, _, _, g, hg, e⟩ := dot_normalize hq
  have hg' : (0 : ℚ) < g := by exact_mod_cast hg
  rw [RowSat, RowSat, e x, a]
  constructor
  · rintro ⟨h1, h2⟩
    exact ⟨mul_nonneg hg'.le h1, fun h => by rw [h2 h, mul_zero]⟩
  · rintro ⟨h1, h2⟩
    refine ⟨nonneg_of_mul_nonneg_right h1 hg', fun h => ?_⟩
    rcases mul_eq_zero.1 (h2 h) with h | h
    · exact absurd h hg'.ne'
    · exact h

/-! ## Bounds -/

theorem boundVec_best {r : Rep} (h : r.Wf ℚ n) {F : List Row} (hF : r.F? = some F) (v : Row) (b : ℚ) :
    ((boundVec n v F).sup ≤ fin b ↔ ∀ x : Fin n → ℚ, r.γ x → dot v (hom x) ≤ b) ∧
    ((boundVec n v F).inf ≤ fin b ↔ ∀ x : Fin n → ℚ, r.γ x → - dot v (hom x) ≤ b) := by
  have := boundGens_best h hF (linV (toV ℚ (n + 1) v)) b
  have e : (fun q => linV (toV ℚ (n + 1) v) (toV ℚ (n + 1) q)) = fun q => ((vprod (n + 1) v q : ℤ) : ℚ) := by
    funext q; rw [← dot_eq_linV, dot_toV]
  rw [e] at this
  rw [boundVec]
  simpa only [← dot_eq_linV] using this

theorem boundVec_ne {r : Rep} (h : r.Wf ℚ n) {F : List Row} (hF : r.F? = some F) (v : Row) :
    (boundVec n v F).sup ≠ ninf ∧ (boundVec n v F).inf ≠ ninf := by
  obtain ⟨x, hx⟩ := h.exists_point hF
  constructor
  · intro e
    have := (boundVec_best h hF v (dot v (hom x) - 1)).1.1 (by rw [e]; simp) x hx
    linarith
  · intro e
    have := (boundVec_best h hF v (-dot v (hom x) - 1)).2.1 (by rw [e]; simp) x hx
    linarith

theorem fin_of_not_infty {b : Bound ℚ} (h : ¬ infty b = true) : b = fin (numref b) := by
  cases b <;> simp [infty, numref] at h ⊢

theorem rowSat_ofFun (f : ℕ → ℤ) (x : Fin n → ℚ) : RowSat (Row.ofFun (n + 2) f) x ↔
    0 ≤ (f 1 : ℚ) + ∑ d : Fin n, (f (d + 2) : ℚ) * x d ∧ (f 0 = 0 → (f 1 : ℚ) + ∑ d : Fin n, (f (d + 2) : ℚ) * x d = 0) := by
  have e : ∀ j, j < n + 2 → (Row.ofFun (n + 2) f).at' j = f j := fun j hj => by rw [at_ofFun, if_pos hj]
  rw [RowSat, dot_hom, e 0 (by omega), e 1 (by omega)]
  have : ∀ d : Fin n, ((Row.ofFun (n + 2) f).at' (d + 2) : ℚ) * x d = (f (d + 2) : ℚ) * x d := fun d => by
    rw [e _ (by omega)]
  rw [Finset.sum_congr rfl fun d _ => this d]

theorem scaleDen (b : ℚ) (a : ℤ) : (if b.den ≠ 1 then a * (b.den : ℤ) else a) = a * b.den := by
  split_ifs with h
  · rfl
  · push Not at h; rw [h]; simp

/-- the row written for a lower bound: the value is at least `- b` -/
theorem setLinexprBound_inf {v : Row} (hv : v.at' 0 = 1) (b : ℚ) (x : Fin n → ℚ) :
    RowSat (setLinexprBound n v b (-1)) x ↔ - dot v (hom x) ≤ b := by
  have hden : (0 : ℚ) < b.den := by exact_mod_cast b.den_pos
  have hnum : b.den * b = b.num := by rw [mul_comm]; exact Rat.mul_den_eq_num b
  rw [setLinexprBound]
  simp only [scaleDen]
  rw [rowSat_normalize (ofFun_big _), rowSat_ofFun]
  have e : ((v.at' 1 * (b.den : ℤ) + b.num * v.at' 0 : ℤ) : ℚ) + ∑ d : Fin n, ((v.at' (d + 2) * (b.den : ℤ) : ℤ) : ℚ) * x d =
      b.den * (dot v (hom x) + b) := by
    rw [dot_hom, hv, mul_add, mul_add, Finset.mul_sum, hnum]
    have : ∀ d : Fin n, ((v.at' (d + 2) * (b.den : ℤ) : ℤ) : ℚ) * x d = b.den * ((v.at' (d + 2) : ℚ) * x d) := by
      intro d; push_cast; ring
    rw [Finset.sum_congr rfl fun d _ => this d]
    push_cast; ring
  simp only [Nat.succ_ne_self, OfNat.ofNat_ne_zero, one_ne_zero, if_true, if_false, Int.reduceNeg, Int.reduceLE, neg_eq_zero,
    Nat.add_eq_zero_iff, and_false, Nat.reduceEqDiff, IsEmpty.forall_iff, and_true]
  rw [e]
  constructor
  · intro h
    have := nonneg_of_mul_nonneg_right h hden
    linarith
  · intro h
    exact mul_nonneg hden.le (by linarith)

/-- the row written for an upper bound: the value is at most `- b`, instead of `b` -/
theorem setLinexprBound_sup {v : Row} (hv : v.at' 0 = 1) (h1 : v.at' 1 = 0) (b : ℚ) (x : Fin n → ℚ) :
    RowSat (setLinexprBound n v b 1) x ↔ dot v (hom x) ≤ - b := by
  have hden : (0 : ℚ) < b.den := by exact_mod_cast b.den_pos
  have hnum : b.den * b = b.num := by rw [mul_comm]; exact Rat.mul_den_eq_num b
  rw [setLinexprBound]
  simp only [scaleDen]
  rw [rowSat_normalize (ofFun_big _), rowSat_ofFun]
  have e : ((v.at' 1 * (b.den : ℤ) - b.num * v.at' 0 : ℤ) : ℚ) + ∑ d : Fin n, ((-(v.at' (d + 2) * (b.den : ℤ)) : ℤ) : ℚ) * x d =
      b.den * (- dot v (hom x) - b) := by
    rw [dot_hom, hv, h1, mul_sub, mul_neg, mul_add, Finset.mul_sum, hnum]
    have : ∀ d : Fin n, ((-(v.at' (d + 2) * (b.den : ℤ)) : ℤ) : ℚ) * x d = -(b.den * ((v.at' (d + 2) : ℚ) * x d)) := by
      intro d; push_cast; ring
    rw [Finset.sum_congr rfl fun d _ => this d, Finset.sum_neg_distrib]
    push_cast; ring
  simp only [Nat.succ_ne_self, OfNat.ofNat_ne_zero, one_ne_zero, if_true, if_false, Int.reduceNeg, Int.reduceLE, neg_eq_zero,
    Nat.add_eq_zero_iff, and_false, Nat.reduceEqDiff, IsEmpty.forall_iff, and_true]
  rw [e]
  constructor
  · intro h
    have := nonneg_of_mul_nonneg_right h hden
    linarith
  · intro h
    exact mul_nonneg hden.le (by linarith)

/-! ## Loops -/

theorem rotate_perm (l : List Row) : (rotate l).Perm l := by
  rw [rotate]
  cases h : l.getLast? with
  | none => rw [List.getLast?_eq_none_iff] at h; rw [h]
  | some x =>
    obtain ⟨l', rfl⟩ := List.getLast?_eq_some_iff.1 h
    rw [List.dropLast_concat]
    exact (List.perm_append_singleton x l').symm

theorem removeLoop_mem (p : Row → Bool) : ∀ (f : ℕ) (done rest : List Row), rest.length ≤ f → ∀ q,
    q ∈ removeLoop p f done rest ↔ q ∈ done ∨ (q ∈ rest ∧ p q = false) := by
  intro f
  induction f with
  | zero =>
    intro done rest h q
    have : rest = [] := List.length_eq_zero_iff.1 (by omega)
    subst this
    simp [removeLoop]
  | succ f ih =>
    intro done rest h q
    cases rest with
    | nil => simp [removeLoop]
    | cons a rest =>
      rw [removeLoop]
      simp only [List.length_cons, Nat.add_le_add_iff_right] at h
      by_cases ha : p a = true
      · rw [if_pos ha]
        have hp : (rotate rest).Perm rest := rotate_perm rest
        change q ∈ removeLoop p f done (rotate rest) ↔ _
        rw [ih _ _ (by rw [hp.length_eq]; exact h), hp.mem_iff, List.mem_cons]
        constructor
        · rintro (h | ⟨h, h'⟩)
          · exact .inl h
          · exact .inr ⟨.inr h, h'⟩
        · rintro (h | ⟨h | h, h'⟩)
          · exact .inl h
          · rw [h, ha] at h'; exact absurd h' (by decide)
          · exact .inr ⟨h, h'⟩
      · rw [if_neg ha, ih _ _ h, List.mem_append, List.mem_singleton, List.mem_cons]
        rw [Bool.not_eq_true] at ha
        constructor
        · rintro ((h | h) | ⟨h, h'⟩)
          · exact .inl h
          · exact .inr ⟨.inl h, h ▸ ha⟩
          · exact .inr ⟨.inr h, h'⟩
        · rintro (h | ⟨h | h, h'⟩)
          · exact .inl (.inl h)
          · exact .inl (.inr h)
          · exact .inr ⟨h, h'⟩

/-- every row of the result satisfies `P`, when the rows that are kept and the rows that are made do -/
theorem roundLoop_all (n m : ℕ) (F : List Row) (fallback combine : Bool) (P : Row → Prop) : ∀ (f : ℕ) (done rest extra : List Row),
    rest.length ≤ f → (∀ q ∈ done, P q) → (∀ q ∈ extra, P q) → (∀ q ∈ rest, tooBig n m q = false → P q) →
    (∀ q ∈ rest, tooBig n m q = true → ∀ q' ∈ innerRow n m F q, P q') →
    ((combine || fallback) = true → ∀ q ∈ rest, tooBig n m q = true → ∀ q' ∈ outerRow n m F q, P q') →
    ∀ q ∈ roundLoop n m F fallback combine f done rest extra, P q := by
  intro f
  induction f with
  | zero =>
    intro done rest extra h hd he _ _ _ q hq
    have : rest = [] := List.length_eq_zero_iff.1 (by omega)
    subst this
    rw [roundLoop, List.append_nil, List.mem_append] at hq
    exact hq.elim (hd q) (he q)
  | succ f ih =>
    intro done rest extra h hd he hk hi ho
    cases rest with
    | nil =>
      intro q hq
      rw [roundLoop, List.mem_append] at hq
      exact hq.elim (hd q) (he q)
    | cons a rest =>
      rw [roundLoop]
      simp only [List.length_cons, Nat.add_le_add_iff_right] at h
      have hk' := fun q hq => hk q (List.mem_cons_of_mem _ hq)
      have hi' := fun q hq => hi q (List.mem_cons_of_mem _ hq)
      have ho' := fun hc q hq => ho hc q (List.mem_cons_of_mem _ hq)
      by_cases ha : tooBig n m a = true
      · rw [if_pos ha]
        dsimp only
        have he2 : ∀ q ∈ (if (innerRow n m F a).isNone = true then rotate extra else extra), P q := by
          split_ifs
          · intro q hq; exact he q ((rotate_perm extra).mem_iff.1 hq)
          · exact he
        set e1 := (if (innerRow n m F a).isNone = true then rotate extra else extra) with he1
        have he3 : ∀ q ∈ (if (combine || (innerRow n m F a).isNone && fallback) = true then e1 ++ (outerRow n m F a).toList else e1), P q := by
          split_ifs with hc
          · intro q hq
            rw [List.mem_append, Option.mem_toList] at hq
            rcases hq with hq | hq
            · exact he2 q hq
            · refine ho ?_ a (List.mem_cons_self) ha q hq
              revert hc
              cases combine <;> cases fallback <;> simp
          · exact he2
        cases hin : innerRow n m F a with
        | some q' =>
          rw [hin] at he3
          refine ih _ _ _ h ?_ he3 hk' hi' ho'
          intro q hq
          rw [List.mem_append, List.mem_singleton] at hq
          rcases hq with hq | hq
          · exact hd q hq
          · rw [hq]; exact hi a List.mem_cons_self ha q' hin
        | none =>
          rw [hin] at he3
          have hp := rotate_perm rest
          exact ih _ _ _ (by rw [hp.length_eq]; exact h) hd he3 (fun q hq => hk' q (hp.mem_iff.1 hq))
            (fun q hq => hi' q (hp.mem_iff.1 hq)) (fun hc q hq => ho' hc q (hp.mem_iff.1 hq))
      · rw [if_neg ha]
        rw [Bool.not_eq_true] at ha
        refine ih _ _ _ h ?_ he hk' hi' ho'
        intro q hq
        rw [List.mem_append, List.mem_singleton] at hq
        rcases hq with hq | hq
        · exact hd q hq
        · rw [hq]; exact hk a List.mem_cons_self ha

/-! ## Rounded rows -/

theorem roundRow_sound {r : Rep} (h : r.Wf ℚ n) {F : List Row} (hF : r.F? = some F) {coef : ℕ → ℤ} {q : Row}
    (hq : q ∈ roundRow n F coef) {x : Fin n → ℚ} (hx : r.γ x) : RowSat q x := by
  rw [roundRow] at hq
  split_ifs at hq with hi
  · cases hq
  rw [Option.mem_some_iff] at hq
  subst hq
  rw [rowSat_normalize (ofFun_big _)]
  have hb := fin_of_not_infty hi
  set vec := Row.ofFun (n + 2) fun j => if j = 0 then 1 else if j = 1 then 0 else coef (j - 2) with hvec
  set b := numref (boundVec n vec F).inf
  have h1 := (boundVec_best h hF vec b).2.1 (le_of_eq hb) x hx
  have h2 : dot (Row.ofFun (n + 2) fun j => if j = 1 then -⌊-b⌋ else vec.at' j) (hom x) = dot vec (hom x) - ⌊-b⌋ := by
    rw [dot_hom, dot_hom, at_ofFun, if_pos (by omega), if_pos rfl, hvec, at_ofFun _ _ 1, if_pos (by omega), if_neg (by omega), if_pos rfl,
      ← hvec]
    have : ∀ d : Fin n, ((Row.ofFun (n + 2) fun j => if j = 1 then -⌊-b⌋ else vec.at' j).at' (d + 2) : ℚ) * x d = (vec.at' (d + 2) : ℚ) * x d := by
      intro d; rw [at_ofFun, if_pos (by omega), if_neg (by omega)]
    rw [Finset.sum_congr rfl fun d _ => this d]
    push_cast; ring
  have h0 : (Row.ofFun (n + 2) fun j => if j = 1 then -⌊-b⌋ else vec.at' j).at' 0 = 1 := by
    rw [at_ofFun, if_pos (by omega), if_neg (by omega), hvec, at_ofFun, if_pos (by omega), if_pos rfl]
  refine ⟨?_, fun h => by rw [h0] at h; exact absurd h (by decide)⟩
  rw [h2]
  have := Int.floor_le (-b)
  linarith

theorem size2_le {a : ℤ} {m : ℕ} (hm : 0 < m) : size2 a ≤ m ↔ a.natAbs < 2 ^ m := by
  rw [size2, Nat.succ_le_iff]
  by_cases h : a.natAbs = 0
  · rw [h]; simp [hm]
  · exact Nat.log2_lt h

theorem size2_mono {a b : ℤ} {m : ℕ} (hm : 0 < m) (h : a.natAbs ≤ b.natAbs) (hb : size2 b ≤ m) : size2 a ≤ m :=
  (size2_le hm).2 (h.trans_lt ((size2_le hm).1 hb))

theorem size2_le_maxSize {q : Row} {d : ℕ} (hd : d < n) : size2 (q.at' (d + 2)) ≤ maxSize n q := by
  rw [maxSize]
  have : ∀ (l : List ℕ) (s : ℕ), s ≤ l.foldl (fun s d => max s (size2 (q.at' (d + 2)))) s ∧
      ∀ d ∈ l, size2 (q.at' (d + 2)) ≤ l.foldl (fun s d => max s (size2 (q.at' (d + 2)))) s := by
    intro l
    induction l with
    | nil => intro s; simp
    | cons a l ih =>
      intro s
      rw [List.foldl_cons]
      obtain ⟨h1, h2⟩ := ih (max s (size2 (q.at' (a + 2))))
      refine ⟨(le_max_left _ _).trans h1, fun d hd => ?_⟩
      rcases List.mem_cons.1 hd with rfl | hd
      · exact (le_max_right _ _).trans h1
      · exact h2 d hd
  exact (this (List.range n) 0).2 d (List.mem_range.2 hd)

theorem size2_tdiv {a : ℤ} {M m : ℕ} (hm : 0 < m) (ha : size2 a ≤ M) : size2 (tdiv2 a (M - m)) ≤ m := by
  rw [size2_le hm, tdiv2, Int.natAbs_tdiv]
  have h1 : (2 ^ (M - m) : ℤ).natAbs = 2 ^ (M - m) := by rw [Int.natAbs_pow]; rfl
  change a.natAbs / (2 ^ (M - m) : ℤ).natAbs < 2 ^ m
  rw [h1, Nat.div_lt_iff_lt_mul (by positivity), ← pow_add]
  have hM : 0 < M := lt_of_lt_of_le (Nat.succ_pos _) ha
  exact ((size2_le hM).1 ha).trans_le (Nat.pow_le_pow_right (by decide) (by omega))

theorem roundRow_small {m : ℕ} (hm : 0 < m) {F : List Row} {coef : ℕ → ℤ} (hc : ∀ d, d < n → size2 (coef d) ≤ m) {q : Row}
    (hq : q ∈ roundRow n F coef) : tooBig n m q = false := by
  rw [roundRow] at hq
  split_ifs at hq with hi
  · cases hq
  rw [Option.mem_some_iff] at hq
  subst hq
  rw [tooBig, Bool.and_eq_false_iff]
  right
  rw [List.any_eq_false]
  intro d hd
  rw [List.mem_range] at hd
  rw [decide_eq_true_eq, not_lt]
  obtain ⟨_, g, hg, e⟩ := normalize_spec (Row.ofFun (n + 2) fun j => if j = 1 then
    -⌊-(numref (boundVec n (Row.ofFun (n + 2) fun j => if j = 0 then 1 else if j = 1 then 0 else coef (j - 2)) F).inf)⌋
    else (Row.ofFun (n + 2) fun j => if j = 0 then 1 else if j = 1 then 0 else coef (j - 2)).at' j) (n + 2) (ofFun_big _)
  refine size2_mono hm ?_ (hc d hd)
  have := e (d + 1)
  rw [at_ofFun, if_pos (by omega), if_neg (by omega), at_ofFun, if_pos (by omega), if_neg (by omega), if_neg (by omega)] at this
  rw [show d + 1 + 1 - 2 = d from by omega] at this
  rw [← this, Int.natAbs_mul]
  exact Nat.le_mul_of_pos_left _ (by omega)

theorem tooBig_posRow {m : ℕ} (hm : 0 < m) : tooBig n m (posRow n) = false := by
  rw [tooBig, Bool.and_eq_false_iff]
  right
  rw [List.any_eq_false]
  intro d hd
  rw [List.mem_range] at hd
  rw [decide_eq_true_eq, not_lt, size2_le hm, posRow, at_ofFun, if_pos (by omega), if_neg (by omega)]
  exact pow_pos (by decide) m

/-! ## Matrices -/

theorem approx1Rows_spec {m : ℕ} {C C' : List Row} (h : approx1Rows n m C = some C') :
    posRow n ∈ C' ∧ ∀ q, q ∈ C' ↔ (q ∈ C ∧ tooBig n m q = false) ∨ q = posRow n := by
  rw [approx1Rows] at h
  split_ifs at h
  cases h
  refine ⟨by simp, fun q => ?_⟩
  rw [List.mem_append, removeLoop_mem _ _ _ _ le_rfl, List.mem_singleton]
  simp

theorem approx1Rows_none {m : ℕ} {C : List Row} (h : approx1Rows n m C = none) : ∀ q ∈ C, tooBig n m q = false := by
  rw [approx1Rows] at h
  split_ifs at h with h1
  rw [List.any_eq_true] at h1
  intro q hq
  rw [← Bool.not_eq_true]
  exact fun hb => h1 ⟨q, hq, hb⟩

theorem approx1Rows_sound {m : ℕ} {C C' : List Row} (h : approx1Rows n m C = some C') {x : Fin n → ℚ} (hx : ∀ q ∈ C, RowSat q x) :
    ∀ q ∈ C', RowSat q x := by
  intro q hq
  rcases ((approx1Rows_spec h).2 q).1 hq with ⟨hq, _⟩ | rfl
  · exact hx q hq
  · exact rowSat_posRow x

theorem approx1xRows_spec {r : Rep} (h : r.Wf ℚ n) {F : List Row} (hF : r.F? = some F) {m : ℕ} {fb cb : Bool} {C C' : List Row}
    (e : approx1xRows n m F fb cb C = some C') :
    posRow n ∈ C' ∧ (∀ x : Fin n → ℚ, r.γ x → (∀ q ∈ C, RowSat q x) → ∀ q ∈ C', RowSat q x) ∧
    (0 < m → cb = false → fb = false → ∀ q ∈ C', tooBig n m q = false) := by
  rw [approx1xRows] at e
  split_ifs at e
  cases e
  refine ⟨by simp, fun x hx hC q hq => ?_, fun hm hc hf q hq => ?_⟩
  · rw [List.mem_append, List.mem_singleton] at hq
    rcases hq with hq | rfl
    · refine roundLoop_all n m F fb cb (fun q => RowSat q x) C.length [] C [] le_rfl (by simp) (by simp) (fun q hq _ => hC q hq) ?_ ?_ q hq
      · intro q _ _ q' hq'
        exact roundRow_sound h hF hq' hx
      · intro _ q _ _ q' hq'
        exact roundRow_sound h hF hq' hx
    · exact rowSat_posRow x
  · rw [List.mem_append, List.mem_singleton] at hq
    rcases hq with hq | rfl
    · refine roundLoop_all n m F fb cb (fun q => tooBig n m q = false) C.length [] C [] le_rfl (by simp) (by simp) (fun q _ hq => hq) ?_ ?_ q hq
      · intro q _ _ q' hq'
        exact roundRow_small hm (fun d hd => size2_tdiv hm (size2_le_maxSize hd)) hq'
      · intro hh
        rw [hc, hf] at hh
        exact absurd hh (by decide)
    · exact tooBig_posRow hm

theorem approx1xRows_none {m : ℕ} {F : List Row} {fb cb : Bool} {C : List Row} (h : approx1xRows n m F fb cb C = none) :
    ∀ q ∈ C, tooBig n m q = false := by
  rw [approx1xRows] at h
  split_ifs at h with h1
  rw [List.any_eq_true] at h1
  intro q hq
  rw [← Bool.not_eq_true]
  exact fun hb => h1 ⟨q, hq, hb⟩

theorem boxPart_spec {r : Rep} (h : r.Wf ℚ n) {F : List Row} (hF : r.F? = some F) :
    (∀ x : Fin n → ℚ, r.γ x → ∀ q ∈ boxPart n F, RowSat q x) ∧
    ∀ x : Fin n → ℚ, (∀ q ∈ boxPart n F, RowSat q x) → ∀ (d : Fin n) (b : ℚ),
      ((∀ y : Fin n → ℚ, r.γ y → y d ≤ b) → x d ≤ b) ∧ ((∀ y : Fin n → ℚ, r.γ y → - y d ≤ b) → - x d ≤ b) := by
  constructor
  · intro x hx q hq
    rw [boxPart, List.mem_flatMap] at hq
    obtain ⟨d, hd, hq⟩ := hq
    rw [List.mem_range] at hd
    rw [List.mem_append] at hq
    rcases hq with hq | hq
    · split_ifs at hq with hi
      · simp at hq
      · rw [Option.mem_toList] at hq
        exact (setDimBound_sound (intdim := 0) hd (fun d hd => absurd hd (Nat.not_lt_zero _)) _).2.1
          ((matBoundDim_best h hF ⟨d, hd⟩ _).2.1 (le_of_eq (fin_of_not_infty hi)) x hx) q hq
    · split_ifs at hq with hi
      · simp at hq
      · rw [Option.mem_toList] at hq
        exact (setDimBound_sound (intdim := 0) hd (fun d hd => absurd hd (Nat.not_lt_zero _)) _).1
          ((matBoundDim_best h hF ⟨d, hd⟩ _).1.1 (le_of_eq (fin_of_not_infty hi)) x hx) q hq
  · intro x hx d b
    obtain ⟨y, hy⟩ := h.exists_point hF
    have hmem : ∀ q, (q ∈ (if infty (matBoundDim F d).inf then [] else (setDimBound n 0 (-1) d (numref (matBoundDim F d).inf)).toList) ++
        (if infty (matBoundDim F d).sup then [] else (setDimBound n 0 1 d (numref (matBoundDim F d).sup)).toList)) → q ∈ boxPart n F := by
      intro q hq
      rw [boxPart, List.mem_flatMap]
      exact ⟨d, List.mem_range.2 d.2, hq⟩
    constructor
    · intro hb
      have h1 := (matBoundDim_best h hF d b).1.2 hb
      have hi : ¬ infty (matBoundDim F d).sup = true := by
        intro hi
        cases hs : (matBoundDim F d).sup with
        | fin _ => rw [hs] at hi; simp [infty] at hi
        | pinf => rw [hs] at h1; simp at h1
        | ninf =>
          have := (matBoundDim_best h hF d (y d - 1)).1.1 (by rw [hs]; simp) y hy
          linarith
      obtain ⟨q, hq⟩ := setDimBound_some n 1 d (numref (matBoundDim F d).sup)
      have := (setDimBound_exact d.2 x _).1 q hq (hx q (hmem q (by rw [List.mem_append]; right; rw [if_neg hi, hq]; simp)))
      rw [fin_of_not_infty hi, fin_le_fin] at h1
      exact _root_.le_trans this h1
    · intro hb
      have h1 := (matBoundDim_best h hF d b).2.2 hb
      have hi : ¬ infty (matBoundDim F d).inf = true := by
        intro hi
        cases hs : (matBoundDim F d).inf with
        | fin _ => rw [hs] at hi; simp [infty] at hi
        | pinf => rw [hs] at h1; simp at h1
        | ninf =>
          have := (matBoundDim_best h hF d (- y d - 1)).2.1 (by rw [hs]; simp) y hy
          linarith
      obtain ⟨q, hq⟩ := setDimBound_some n (-1) d (numref (matBoundDim F d).inf)
      have := (setDimBound_exact d.2 x _).2.1 q hq (hx q (hmem q (by rw [List.mem_append]; left; rw [if_neg hi, hq]; simp)))
      rw [fin_of_not_infty hi, fin_le_fin] at h1
      exact _root_.le_trans this h1

theorem dot_octVec {i j : ℕ} (hi : i < n) (hj : j < n) (hij : i < j) (s : ℤ) (x : Fin n → ℚ) :
    dot (octVec n i j s) (hom x) = x ⟨i, hi⟩ + s * x ⟨j, hj⟩ := by
  rw [dot_hom, octVec, at_ofFun, if_pos (by omega), if_neg (by omega), if_neg (by omega), if_neg (by omega)]
  have : ∀ d : Fin n, ((Row.ofFun (n + 2) fun k => if k = 0 then 1 else if k = i + 2 then 1 else if k = j + 2 then s else 0).at' (d + 2) : ℚ) * x d =
      (if d = ⟨i, hi⟩ then x d else 0) + (if d = ⟨j, hj⟩ then s * x d else 0) := by
    intro d
    rw [at_ofFun, if_pos (by omega), if_neg (by omega)]
    by_cases h1 : d = ⟨i, hi⟩
    · have h2 : d ≠ ⟨j, hj⟩ := by rw [h1]; simp [Fin.ext_iff]; omega
      rw [if_pos h1, if_neg h2, if_pos (by rw [h1])]; simp
    · rw [if_neg h1, if_neg (by rw [Fin.ext_iff] at h1; simp at h1; omega)]
      by_cases h2 : d = ⟨j, hj⟩
      · rw [if_pos h2, if_pos (by rw [h2])]; simp
      · rw [if_neg h2, if_neg (by rw [Fin.ext_iff] at h2; simp at h2; omega)]; simp
  rw [Finset.sum_congr rfl fun d _ => this d, Finset.sum_add_distrib, Finset.sum_ite_eq', Finset.sum_ite_eq']
  simp

/-- the octagonal rows hold when no upper bound is positive -/
theorem octPart_sound {r : Rep} (h : r.Wf ℚ n) {F : List Row} (hF : r.F? = some F)
    (hneg : ∀ (i j : Fin n) (s : ℤ), i < j → s = 1 ∨ s = -1 → (∃ b, ∀ x : Fin n → ℚ, r.γ x → x i + s * x j ≤ b) →
      ∀ x : Fin n → ℚ, r.γ x → x i + s * x j ≤ 0) {x : Fin n → ℚ} (hx : r.γ x) : ∀ q ∈ octPart n F, RowSat q x := by
  have key : ∀ (i j : ℕ) (hi : i < n) (hj : j < n) (s : ℤ), i < j → s = 1 ∨ s = -1 → ∀ q ∈ octRows n F i j s, RowSat q x := by
    intro i j hi hj s hij hs q hq
    have hv : (octVec n i j s).at' 0 = 1 := by rw [octVec, at_ofFun, if_pos (by omega), if_pos rfl]
    have hv1 : (octVec n i j s).at' 1 = 0 := by
      rw [octVec, at_ofFun, if_pos (by omega), if_neg (by omega), if_neg (by omega), if_neg (by omega)]
    rw [octRows, List.mem_append] at hq
    rcases hq with hq | hq
    · split_ifs at hq with hf
      · simp at hq
      · rw [List.mem_singleton] at hq
        subst hq
        rw [setLinexprBound_inf hv]
        exact (boundVec_best h hF _ _).2.1 (le_of_eq (fin_of_not_infty hf)) x hx
    · split_ifs at hq with hf
      · simp at hq
      · rw [List.mem_singleton] at hq
        subst hq
        rw [setLinexprBound_sup hv hv1]
        have hb := (boundVec_best h hF (octVec n i j s) _).1.1 (le_of_eq (fin_of_not_infty hf))
        have h0 := hneg ⟨i, hi⟩ ⟨j, hj⟩ s hij hs ⟨_, fun y hy => by rw [← dot_octVec hi hj hij]; exact hb y hy⟩
        have h1 := (boundVec_best h hF (octVec n i j s) 0).1.2 fun y hy => by rw [dot_octVec hi hj hij]; exact h0 y hy
        rw [fin_of_not_infty hf, fin_le_fin] at h1
        have := hb x hx
        linarith
  intro q hq
  rw [octPart, List.mem_flatMap] at hq
  obtain ⟨i, hi, hq⟩ := hq
  rw [List.mem_flatMap] at hq
  obtain ⟨j, hj, hq⟩ := hq
  rw [List.mem_filter, List.mem_range, decide_eq_true_eq] at hj
  rw [List.mem_range] at hi
  rw [List.mem_append] at hq
  rcases hq with hq | hq
  · exact key i j hi hj.1 (-1) hj.2 (.inr rfl) q hq
  · exact key i j hi hj.1 1 hj.2 (.inl rfl) q hq

end Apron.Poly
