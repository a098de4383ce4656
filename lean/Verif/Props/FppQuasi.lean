import Verif.Fpp.Quasi
import Mathlib.Tactic

/-!
# C154: fppol, constraints in floating point stay sound

Quasi-linearisation, the normalisations and bound propagation (`Fpp/Quasi.lean`) lose no point,
whatever the rounding.
-/

set_option autoImplicit false
set_option linter.unusedSectionVars false
set_option linter.ambiguousOpen false

namespace Apron.Props

open Apron.Fpp

variable {K : Type*} [Field K] [LinearOrder K] [IsStrictOrderedRing K]

/-- The point satisfies `Σ a k * V k ≤ c` over `n` variables. -/
def FSat (n : ℕ) (c : K) (a : ℕ → K) (ρ : ℕ → K) : Prop :=
  ∑ k ∈ Finset.range n, a k * ρ k ≤ c

/-- The point is within the bounds of the `n` variables. -/
def InBnds (n : ℕ) (B : Bnds K) (ρ : ℕ → K) : Prop :=
  ∀ k, k < n → (∀ l, B.lo k = some l → l ≤ ρ k) ∧ ∀ h, B.hi k = some h → ρ k ≤ h

theorem sum_list_range (n : ℕ) (f : ℕ → K) :
    ((List.range n).map f).sum = ∑ k ∈ Finset.range n, f k := by
  induction n with
  | zero => simp
  | succ n ih => rw [List.range_succ, List.map_append, List.sum_append, Finset.sum_range_succ, ih]; simp

theorem abs_le_magn {n : ℕ} {B : Bnds K} {ρ : ℕ → K} (h : InBnds n B ρ) {k : ℕ} (hk : k < n) {v : K}
    (hv : magn B k = some v) : |ρ k| ≤ v := by
  unfold magn at hv
  obtain ⟨h1, h2⟩ := h k hk
  cases hl : B.lo k with
  | none => simp [hl] at hv
  | some l =>
    cases hh : B.hi k with
    | none => simp [hl, hh] at hv
    | some u =>
      simp [hl, hh] at hv
      subst hv
      have h1 := h1 l hl
      have h2 := h2 u hh
      rw [abs_le]
      constructor
      · have := le_max_left (-l) u; linarith
      · exact h2.trans (le_max_right _ _)

/-- The point of the quasi-linearisation: the deviation covers the interval. -/
theorem dev_le (R : Rd K) {a b α : K} (h1 : a ≤ α) (h2 : α ≤ b) :
    |mid R a b - α| ≤ dev R a b (mid R a b) ∨ a = b := by
  by_cases hab : a = b
  · exact Or.inr hab
  left
  unfold dev
  rw [abs_le]
  have e1 := R.le_up (mid R a b - a)
  have e2 := R.le_up (b - mid R a b)
  have e3 := le_abs_self (R.up (mid R a b - a))
  have e4 := le_abs_self (R.up (b - mid R a b))
  have e5 := le_max_left |R.up (mid R a b - a)| |R.up (b - mid R a b)|
  have e6 := le_max_right |R.up (mid R a b - a)| |R.up (b - mid R a b)|
  constructor <;> linarith

theorem quasiLoop_sound (R : Rd K) {a b α ρ : ℕ → K} {m : ℕ → Option K} (L : List ℕ)
    (hα : ∀ k ∈ L, a k ≤ α k ∧ α k ≤ b k) (hm : ∀ k ∈ L, ∀ v, m k = some v → |ρ k| ≤ v) :
    ∀ {c c' : K}, quasiLoop R a b m L c = some c' →
      c + (L.map fun k => (mid R (a k) (b k) - α k) * ρ k).sum ≤ c' := by
  induction L with
  | nil => intro c c' h; simp [quasiLoop] at h; simp [h]
  | cons k L ih =>
    intro c c' h
    have ih := @ih (fun j hj => hα j (List.mem_cons_of_mem _ hj))
      (fun j hj => hm j (List.mem_cons_of_mem _ hj))
    obtain ⟨h1, h2⟩ := hα k List.mem_cons_self
    unfold quasiLoop at h
    by_cases hab : a k = b k
    · rw [if_pos hab] at h
      have := ih h
      have e : mid R (a k) (b k) = α k := by
        unfold mid; rw [if_pos hab]; apply le_antisymm h1; rw [hab]; exact h2
      simpa [e] using this
    · rw [if_neg hab] at h
      cases hmk : m k with
      | none => simp [hmk] at h
      | some v =>
        simp only [hmk] at h
        have := ih h
        have hv := hm k List.mem_cons_self v hmk
        have hd := (dev_le R h1 h2).resolve_right hab
        have hp : (mid R (a k) (b k) - α k) * ρ k ≤
            dev R (a k) (b k) (mid R (a k) (b k)) * v := by
          calc (mid R (a k) (b k) - α k) * ρ k ≤ |(mid R (a k) (b k) - α k) * ρ k| := le_abs_self _
            _ = |mid R (a k) (b k) - α k| * |ρ k| := abs_mul _ _
            _ ≤ _ := mul_le_mul hd hv (abs_nonneg _) ((abs_nonneg _).trans hd)
        have e1 := R.le_up (dev R (a k) (b k) (mid R (a k) (b k)) * v)
        have e2 := R.le_up (c + R.up (dev R (a k) (b k) (mid R (a k) (b k)) * v))
        simp only [List.map_cons, List.sum_cons]
        linarith

/-- `quasi_linearisation`: if a point within the bounds satisfies the inequality for some choice of
coefficients in the intervals, then it satisfies the linear inequality that is returned, and the
inequality is not reported as unsatisfiable. -/
theorem C154_quasi_sound (R : Rd K) (n : ℕ) (c : K) (a b α ρ : ℕ → K) (B : Option (Bnds K))
    (hB : ∀ B', B = some B' → InBnds n B' ρ)
    (hα : ∀ k, k < n → a k ≤ α k ∧ α k ≤ b k) (hs : FSat n c α ρ) :
    match quasi R n c a b B with
    | .taut => True
    | .unsat => False
    | .con c' a' => FSat n c' a' ρ := by
  unfold quasi
  cases hl : quasiLoop R a b (fun k => B.bind fun B => magn B k) (List.range n) c with
  | none => trivial
  | some c' =>
    have hsum := quasiLoop_sound R (ρ := ρ) (List.range n)
      (fun k hk => hα k (List.mem_range.1 hk))
      (fun k hk v hv => by
        cases hB' : B with
        | none => simp [hB'] at hv
        | some B' =>
          simp [hB'] at hv
          exact abs_le_magn (hB B' hB') (List.mem_range.1 hk) hv) hl
    rw [sum_list_range] at hsum
    have hmain : ∑ k ∈ Finset.range n, mid R (a k) (b k) * ρ k ≤ c' := by
      have e : ∑ k ∈ Finset.range n, (mid R (a k) (b k) - α k) * ρ k =
          ∑ k ∈ Finset.range n, mid R (a k) (b k) * ρ k - ∑ k ∈ Finset.range n, α k * ρ k := by
        rw [← Finset.sum_sub_distrib]; apply Finset.sum_congr rfl; intros; ring
      rw [e] at hsum
      have : ∑ k ∈ Finset.range n, α k * ρ k ≤ c := hs
      linarith
    by_cases hz : (List.range n).all (fun k => decide (mid R (a k) (b k) = 0)) = true
    · simp only [hz, if_true]
      have h0 : ∑ k ∈ Finset.range n, mid R (a k) (b k) * ρ k = 0 := by
        apply Finset.sum_eq_zero
        intro k hk
        have := List.all_eq_true.1 hz k (List.mem_range.2 (Finset.mem_range.1 hk))
        simp at this
        rw [this, zero_mul]
      by_cases hc : 0 ≤ c'
      · rw [if_pos hc]; trivial
      · exact absurd (h0 ▸ hmain) hc
    · simp only [Bool.not_eq_true] at hz
      simp only [hz, Bool.false_eq_true, if_false]
      exact hmain

/-- `quasi_linearisation` of an inequality whose coefficients are numbers changes nothing: the same
constant and coefficients, or the right answer if all coefficients are 0. -/
theorem C154_quasi_point (R : Rd K) (n : ℕ) (c : K) (a : ℕ → K) (B : Option (Bnds K)) :
    quasi R n c a a B =
      if ∀ k, k < n → a k = 0 then (if 0 ≤ c then .taut else .unsat) else .con c a := by
  have hloop : ∀ (L : List ℕ) (m : ℕ → Option K), quasiLoop R a a m L c = some c := by
    intro L m; induction L with
    | nil => rfl
    | cons k L ih => unfold quasiLoop; rw [if_pos rfl]; exact ih
  unfold quasi
  rw [hloop]
  simp only [mid, if_true]
  by_cases h : ∀ k, k < n → a k = 0
  · rw [if_pos h, if_pos]
    rw [List.all_eq_true]; intro k hk; simpa using h k (List.mem_range.1 hk)
  · rw [if_neg h, if_neg]
    intro hall
    apply h
    intro k hk
    simpa using List.all_eq_true.1 hall k (List.mem_range.2 hk)

theorem supMul_sound (R : Rd K) {x : K} {lo hi : Option K} {v s : K}
    (h1 : ∀ l, lo = some l → l ≤ v) (h2 : ∀ h, hi = some h → v ≤ h)
    (hs : supMul R x lo hi = some s) : x * v ≤ s := by
  unfold supMul at hs
  by_cases hx : 0 < x
  · rw [if_pos hx] at hs
    cases hh : hi with
    | none => simp [hh] at hs
    | some h =>
      have hv := mul_le_mul_of_nonneg_left (h2 h hh) hx.le
      have e := R.le_up (x * h)
      cases hl : lo with
      | none => simp [hh, hl] at hs; linarith
      | some l =>
        simp [hh, hl] at hs
        have := le_max_right (R.up (x * l)) (R.up (x * h))
        linarith
  · rw [if_neg hx] at hs
    cases hl : lo with
    | none => simp [hl] at hs
    | some l =>
      have hv : x * v ≤ x * l := mul_le_mul_of_nonpos_left (h1 l hl) (not_lt.1 hx)
      have e := R.le_up (x * l)
      cases hh : hi with
      | none => simp [hh, hl] at hs; linarith
      | some h =>
        simp [hh, hl] at hs
        have := le_max_left (R.up (x * l)) (R.up (x * h))
        linarith

theorem sum_erase (n : ℕ) (a ρ : ℕ → K) (k : ℕ) (d : K) (hk : k < n) :
    ∑ j ∈ Finset.range n, (if j = k then d else a j) * ρ j =
      ∑ j ∈ Finset.range n, a j * ρ j + (d - a k) * ρ k := by
  have : ∀ j, (if j = k then d else a j) * ρ j = a j * ρ j + (if j = k then (d - a k) * ρ k else 0) := by
    intro j
    by_cases h : j = k
    · subst h; simp; ring
    · simp [h]
  rw [Finset.sum_congr rfl (fun j _ => this j), Finset.sum_add_distrib]
  congr 1
  rw [Finset.sum_ite_eq' (Finset.range n) k (fun _ => (d - a k) * ρ k)]
  simp [hk]

theorem shiftTerm_sound (R : Rd K) {n : ℕ} {B : Bnds K} {c : K} {a ρ : ℕ → K} {k : ℕ} (hk : k < n)
    (hB : InBnds n B ρ) (hs : FSat n c a ρ) {r : K × (ℕ → K)} (h : shiftTerm R B c a k = some r) :
    FSat n r.1 r.2 ρ := by
  unfold shiftTerm at h
  cases hm : supMul R (-(a k)) (B.lo k) (B.hi k) with
  | none => simp [hm] at h
  | some s =>
    simp [hm] at h
    subst h
    have := supMul_sound R (hB k hk).1 (hB k hk).2 hm
    have e := R.le_up (c + s)
    unfold FSat at hs ⊢
    simp only
    rw [sum_erase n a ρ k 0 hk]
    linarith

theorem argExp_spec (exp : K → ℤ) (sgn : ℤ) (a : ℕ → K) (L : List ℕ) :
    ∀ {r : Option ℕ} {i : ℕ}, argExp exp sgn a L r = some i →
      (i ∈ L ∧ a i ≠ 0) ∨ r = some i := by
  induction L with
  | nil => intro r i h; exact Or.inr h
  | cons k L ih =>
    intro r i h
    unfold argExp at h
    by_cases h0 : a k = 0
    · rw [if_pos h0] at h
      rcases ih h with h | h
      · exact Or.inl ⟨List.mem_cons_of_mem _ h.1, h.2⟩
      · exact Or.inr h
    · rw [if_neg h0] at h
      cases r with
      | none =>
        rcases ih h with h | h
        · exact Or.inl ⟨List.mem_cons_of_mem _ h.1, h.2⟩
        · simp at h; subst h; exact Or.inl ⟨List.mem_cons_self, h0⟩
      | some j =>
        rcases ih h with h | h
        · exact Or.inl ⟨List.mem_cons_of_mem _ h.1, h.2⟩
        · by_cases hc : sgn * exp (a k) < sgn * exp (a j)
          · rw [if_pos hc] at h; simp at h; subst h; exact Or.inl ⟨List.mem_cons_self, h0⟩
          · rw [if_neg hc] at h; exact Or.inr h

theorem scale_sound (R : Rd K) {n : ℕ} {B : Bnds K} {c : K} {a ρ : ℕ → K} {m : K} (hm : 0 < m)
    (hB : InBnds n B ρ) (hs : FSat n c a ρ) {c' : K} {a' : ℕ → K}
    (h : quasi R n (R.up (c / m)) (fun k => R.down (a k / m)) (fun k => R.up (a k / m)) (some B)
      = .con c' a') : FSat n c' a' ρ := by
  have := C154_quasi_sound R n (R.up (c / m)) (fun k => R.down (a k / m)) (fun k => R.up (a k / m))
    (fun k => a k / m) ρ (some B) (by rintro B' ⟨⟩; exact hB)
    (fun k _ => ⟨R.down_le _, R.le_up _⟩) (by
      unfold FSat at hs ⊢
      have e : ∑ k ∈ Finset.range n, a k / m * ρ k = (∑ k ∈ Finset.range n, a k * ρ k) / m := by
        rw [Finset.sum_div]; apply Finset.sum_congr rfl; intros; ring
      rw [e]
      exact (div_le_div_of_nonneg_right hs hm.le).trans (R.le_up _))
  rw [h] at this
  exact this

/-- `normalise_steep_inequality`: a point within the bounds that satisfies the constraint satisfies
the normalised one. -/
theorem C154_steep_sound (R : Rd K) (exp : K → ℤ) (B : Bnds K) (n fuel : ℕ) (c : K) (a ρ : ℕ → K)
    (c' : K) (a' : ℕ → K) (hB : InBnds n B ρ) (hs : FSat n c a ρ)
    (h : steep R exp B n fuel c a = .ok c' a') : FSat n c' a' ρ := by
  induction fuel generalizing c a with
  | zero => simp [steep] at h
  | succ fuel ih =>
    unfold steep at h
    cases hi : argExp exp 1 a (List.range n) none with
    | none => simp [hi] at h
    | some i =>
      cases hj : argExp exp (-1) a (List.range n) none with
      | none => simp [hi, hj] at h
      | some j =>
        have hi' := (argExp_spec exp 1 a _ hi).resolve_right (by simp)
        have hj' := (argExp_spec exp (-1) a _ hj).resolve_right (by simp)
        simp only [hi, hj] at h
        split at h
        · split at h
          · rename_i c1 a1 hq
            simp only [NRes.ok.injEq] at h
            obtain ⟨rfl, rfl⟩ := h
            exact scale_sound R (abs_pos.2 hi'.2) hB hs hq
          · cases h
        · split at h
          · cases h
          · split at h
            · cases h
            · rename_i r hr
              have hk : (if exp (a j) - exp (a i) < 20 then i
                  else if (sumExp exp a (List.range n)).1.tdiv (sumExp exp a (List.range n)).2
                    - exp (a i) ≤ exp (a j) - (sumExp exp a (List.range n)).1.tdiv
                    (sumExp exp a (List.range n)).2 then j else i) < n := by
                have h1 := List.mem_range.1 hi'.1
                have h2 := List.mem_range.1 hj'.1
                split_ifs <;> assumption
              have hs' := shiftTerm_sound R hk hB hs hr
              cases hrec : steep R exp B n fuel r.1 r.2 with
              | unchanged =>
                simp only [hrec, NRes.after, NRes.ok.injEq] at h
                obtain ⟨rfl, rfl⟩ := h
                exact hs'
              | failed => simp [hrec, NRes.after] at h
              | more => simp [hrec, NRes.after] at h
              | ok c2 a2 =>
                simp only [hrec, NRes.after, NRes.ok.injEq] at h
                obtain ⟨rfl, rfl⟩ := h
                exact ih _ _ hs' hrec

/-- The recursion of `normalise_steep_inequality` ends: each call makes a coefficient 0, so that
`n + 1` calls are enough. -/
theorem C154_steep_terminates (R : Rd K) (exp : K → ℤ) (B : Bnds K) (n : ℕ) (c : K) (a : ℕ → K) :
    steep R exp B n (n + 1) c a ≠ .more := by
  suffices H : ∀ fuel (c : K) (a : ℕ → K),
      ((Finset.range n).filter fun k => a k ≠ 0).card < fuel → steep R exp B n fuel c a ≠ .more by
    apply H
    exact Nat.lt_succ_of_le ((Finset.card_filter_le _ _).trans (by simp))
  intro fuel
  induction fuel with
  | zero => intro c a h; omega
  | succ fuel ih =>
    intro c a hcard h
    unfold steep at h
    cases hi : argExp exp 1 a (List.range n) none with
    | none => simp [hi] at h
    | some i =>
      cases hj : argExp exp (-1) a (List.range n) none with
      | none => simp [hi, hj] at h
      | some j =>
        have hi' := (argExp_spec exp 1 a _ hi).resolve_right (by simp)
        have hj' := (argExp_spec exp (-1) a _ hj).resolve_right (by simp)
        simp only [hi, hj] at h
        split at h
        · split at h <;> cases h
        · split at h
          · cases h
          · split at h
            · cases h
            · rename_i r hr
              generalize hk : (if exp (a j) - exp (a i) < 20 then i
                  else if (sumExp exp a (List.range n)).1.tdiv (sumExp exp a (List.range n)).2
                    - exp (a i) ≤ exp (a j) - (sumExp exp a (List.range n)).1.tdiv
                    (sumExp exp a (List.range n)).2 then j else i) = k at hr
              have hkn : k ∈ List.range n ∧ a k ≠ 0 := by
                rw [← hk]; split_ifs <;> assumption
              have hr2 : r.2 = fun x => if x = k then 0 else a x := by
                unfold shiftTerm at hr
                cases hm : supMul R (-(a k)) (B.lo k) (B.hi k) with
                | none => simp [hm] at hr
                | some s => simp [hm] at hr; rw [← hr]
              have hlt : ((Finset.range n).filter fun x => r.2 x ≠ 0).card <
                  ((Finset.range n).filter fun x => a x ≠ 0).card := by
                apply Finset.card_lt_card
                rw [Finset.ssubset_iff_of_subset]
                · refine ⟨k, ?_, ?_⟩
                  · simp [List.mem_range.1 hkn.1, hkn.2]
                  · simp [hr2]
                · intro x hx
                  simp only [Finset.mem_filter, hr2] at hx ⊢
                  refine ⟨hx.1, ?_⟩
                  by_contra h0
                  apply hx.2
                  split_ifs
                  · rfl
                  · exact h0
              have := ih r.1 r.2 (by omega)
              cases hrec : steep R exp B n fuel r.1 r.2 with
              | more => exact this hrec
              | unchanged => simp [hrec, NRes.after] at h
              | failed => simp [hrec, NRes.after] at h
              | ok c2 a2 => simp [hrec, NRes.after] at h

theorem quasiInt_other (R : Rd K) (rnd : K → K) (eps : K) (B : Bnds K) (L : List ℕ) :
    ∀ (c : K) (a : ℕ → K) (j : ℕ), j ∉ L → (quasiInt R rnd eps B L c a).2 j = a j := by
  induction L with
  | nil => intro c a j _; rfl
  | cons k L ih =>
    intro c a j hj
    have h1 : j ∉ L := fun h => hj (List.mem_cons_of_mem _ h)
    have h2 : j ≠ k := fun h => hj (h ▸ List.mem_cons_self)
    unfold quasiInt
    split
    · exact ih _ _ _ h1
    · split
      · exact ih _ _ _ h1
      · rw [ih _ _ _ h1]; simp [h2]

/-- `normalise_quasiInteger_inequality` (before the division by the gcd): a point within the bounds
that satisfies the constraint satisfies the result, provided that the difference of each new
coefficient to the old one is not rounded towards 0 (it is exact for doubles that are close, and for
differences to 0). -/
theorem C154_quasi_integer_sound_partial (R : Rd K) (rnd : K → K) (eps : K) (B : Bnds K) (n : ℕ)
    (c : K) (a ρ : ℕ → K) (hB : InBnds n B ρ) (hs : FSat n c a ρ)
    (hx : ∀ k, k < n →
      |(quasiInt R rnd eps B (List.range n) c a).2 k - a k| ≤
        |R.up ((quasiInt R rnd eps B (List.range n) c a).2 k - a k)|) :
    FSat n (quasiInt R rnd eps B (List.range n) c a).1
      (quasiInt R rnd eps B (List.range n) c a).2 ρ := by
  suffices H : ∀ (L : List ℕ) (c : K) (a : ℕ → K), L.Nodup → (∀ k ∈ L, k < n) → FSat n c a ρ →
      (∀ k ∈ L, |(quasiInt R rnd eps B L c a).2 k - a k| ≤
        |R.up ((quasiInt R rnd eps B L c a).2 k - a k)|) →
      FSat n (quasiInt R rnd eps B L c a).1 (quasiInt R rnd eps B L c a).2 ρ from
    H _ c a List.nodup_range (fun k hk => List.mem_range.1 hk) hs
      (fun k hk => hx k (List.mem_range.1 hk))
  intro L
  induction L with
  | nil => intro c a _ _ hs _; exact hs
  | cons k L ih =>
    intro c a hnd hL hs hx
    have hkL : k ∉ L := (List.nodup_cons.1 hnd).1
    have hk : k < n := hL k List.mem_cons_self
    have ih := fun c a => ih c a (List.nodup_cons.1 hnd).2 (fun j hj => hL j (List.mem_cons_of_mem _ hj))
    unfold quasiInt at hx ⊢
    cases hm : magn B k with
    | none =>
      simp only [hm] at hx ⊢
      exact ih c a hs (fun j hj => hx j (List.mem_cons_of_mem _ hj))
    | some v =>
      cases ht : target R rnd eps a k with
      | none =>
        simp only [hm, ht] at hx ⊢
        exact ih c a hs (fun j hj => hx j (List.mem_cons_of_mem _ hj))
      | some d =>
        simp only [hm, ht] at hx ⊢
        apply ih
        · have h0 := hx k List.mem_cons_self
          rw [quasiInt_other _ _ _ _ _ _ _ _ hkL] at h0
          simp only [if_true] at h0
          have hv := abs_le_magn hB hk hm
          have hp : (d - a k) * ρ k ≤ |R.up (d - a k)| * v := by
            calc (d - a k) * ρ k ≤ |(d - a k) * ρ k| := le_abs_self _
              _ = |d - a k| * |ρ k| := abs_mul _ _
              _ ≤ _ := mul_le_mul h0 hv (abs_nonneg _) (abs_nonneg _)
          unfold FSat at hs ⊢
          rw [sum_erase n a ρ k d hk]
          have e1 := R.le_up (|R.up (d - a k)| * v)
          have e2 := R.le_up (c + R.up (|R.up (d - a k)| * v))
          linarith
        · intro j hj
          have := hx j (List.mem_cons_of_mem _ hj)
          have hne : j ≠ k := fun e => hkL (e ▸ hj)
          simpa [hne] using this

theorem ngcd_dvd (l : List ℤ) : ∀ z ∈ l, (ngcd l : ℤ) ∣ z := by
  induction l with
  | nil => intro z h; simp at h
  | cons x l ih =>
    intro z h
    rcases List.mem_cons.1 h with rfl | h
    · exact Int.natCast_dvd.2 (Nat.gcd_dvd_left _ _)
    · exact dvd_trans (Int.natCast_dvd_natCast.2 (Nat.gcd_dvd_right _ _)) (ih z h)

/-- `normalise_integer_inequality`: the points that satisfy the constraint satisfy the result, and
with exact arithmetic the points are the same.  The quotients of the coefficients are assumed to be
exact (they are for doubles). -/
theorem C154_integer_sound (R : Rd K) (n : ℕ) (c : K) (z : ℕ → ℤ) (ρ : ℕ → K) (c' : K) (a' : ℕ → K)
    (hex : ∀ k, k < n → ∀ g : ℕ, (g : ℤ) ∣ z k → R.up ((z k : K) / (g : K)) = (z k : K) / (g : K))
    (h : divGcd R n c z = some (c', a')) :
    (FSat n c (fun k => (z k : K)) ρ → FSat n c' a' ρ) ∧
      (R.up (c / (ngcd ((List.range n).map z) : K)) = c / (ngcd ((List.range n).map z) : K) →
        FSat n c' a' ρ → FSat n c (fun k => (z k : K)) ρ) := by
  unfold divGcd at h
  simp only at h
  split at h
  · cases h
  · rename_i hcond
    split at h
    · cases h
    · generalize hg : ngcd ((List.range n).map z) = g at h
      simp only [Option.some.injEq, Prod.mk.injEq] at h
      obtain ⟨rfl, rfl⟩ := h
      have hdvd : ∀ k, k < n → (g : ℤ) ∣ z k := by
        intro k hk
        rw [← hg]
        exact ngcd_dvd _ _ (List.mem_map.2 ⟨k, List.mem_range.2 hk, rfl⟩)
      have hg0 : g ≠ 0 := by
        intro h0
        apply hcond
        left
        rw [List.all_eq_true]
        intro x hx
        obtain ⟨k, hk, rfl⟩ := List.mem_map.1 hx
        have := hdvd k (List.mem_range.1 hk)
        rw [h0] at this
        simpa using this
      have hgp : (0 : K) < (g : K) := by exact_mod_cast Nat.pos_of_ne_zero hg0
      have e : ∑ k ∈ Finset.range n, R.up ((z k : K) / (g : K)) * ρ k =
          (∑ k ∈ Finset.range n, (z k : K) * ρ k) / (g : K) := by
        rw [Finset.sum_div]
        apply Finset.sum_congr rfl
        intro k hk
        rw [hex k (Finset.mem_range.1 hk) g (hdvd k (Finset.mem_range.1 hk))]; ring
      unfold FSat
      rw [e]
      constructor
      · intro hs
        exact (div_le_div_of_nonneg_right hs hgp.le).trans (R.le_up _)
      · intro hc hs
        rw [hc] at hs
        exact (div_le_div_iff_of_pos_right hgp).1 hs

theorem restLow_sound (R : Rd K) {n : ℕ} {B : Bnds K} {a ρ : ℕ → K} {k : ℕ} (hB : InBnds n B ρ)
    (L : List ℕ) (hL : ∀ j ∈ L, j < n) : ∀ {t t' : K}, restLow R B a k L t = some t' →
      t' ≤ t + (L.map fun j => if j = k then 0 else a j * ρ j).sum := by
  induction L with
  | nil => intro t t' h; simp [restLow] at h; simp [h]
  | cons j L ih =>
    intro t t' h
    have ih := @ih (fun i hi => hL i (List.mem_cons_of_mem _ hi))
    have hj := hB j (hL j List.mem_cons_self)
    unfold restLow at h
    simp only [List.map_cons, List.sum_cons]
    by_cases hk : j = k
    · rw [if_pos hk] at h
      have := ih h
      simpa [hk] using this
    · rw [if_neg hk] at h
      rw [if_neg hk]
      by_cases hp : 0 < a j
      · rw [if_pos hp] at h
        cases hl : B.lo j with
        | none => simp [hl] at h
        | some l =>
          simp [hl] at h
          have := ih h
          have e1 := R.down_le (t + R.down (a j * l))
          have e2 := R.down_le (a j * l)
          have e3 := mul_le_mul_of_nonneg_left (hj.1 l hl) hp.le
          linarith
      · rw [if_neg hp] at h
        by_cases hn : a j < 0
        · rw [if_pos hn] at h
          cases hh : B.hi j with
          | none => simp [hh] at h
          | some u =>
            simp [hh] at h
            have := ih h
            have e1 := R.down_le (t + R.down (a j * u))
            have e2 := R.down_le (a j * u)
            have e3 := mul_le_mul_of_nonpos_left (hj.2 u hh) hn.le
            linarith
        · rw [if_neg hn] at h
          have h0 : a j = 0 := le_antisymm (not_lt.1 hp) (not_lt.1 hn)
          have := ih h
          rw [h0]; linarith

theorem rest_le (R : Rd K) {n : ℕ} {B : Bnds K} {c : K} {a ρ : ℕ → K} {k : ℕ} (hk : k < n)
    (hB : InBnds n B ρ) (hs : FSat n c a ρ) {t : K}
    (h : restLow R B a k (List.range n) 0 = some t) : a k * ρ k ≤ R.up (c - t) := by
  have h1 := restLow_sound R hB (List.range n) (fun j hj => List.mem_range.1 hj) h
  rw [sum_list_range] at h1
  have h2 := sum_erase n a ρ k 0 hk
  have h3 : ∀ j, (if j = k then (0 : K) else a j) * ρ j = if j = k then 0 else a j * ρ j := by
    intro j; split_ifs <;> simp
  rw [Finset.sum_congr rfl (fun j _ => h3 j)] at h2
  have hs' : ∑ j ∈ Finset.range n, a j * ρ j ≤ c := hs
  have := R.le_up (c - t)
  linarith

/-- `bt_half_kthvar_by_bound_propagation`, upper bound: a point within the bounds that satisfies the
constraints satisfies the new bound, which is not worse than the old one. -/
theorem C154_tighten_upper (R : Rd K) (n k : ℕ) (B : Bnds K) (l : List (K × (ℕ → K))) (ρ : ℕ → K)
    (hk : k < n) (hB : InBnds n B ρ) (hs : ∀ p ∈ l, FSat n p.1 p.2 ρ) (mu : Option K)
    (hmu : ∀ m, mu = some m → ρ k ≤ m) :
    (∀ m, tightenHi R n k B l mu = some m → ρ k ≤ m) ∧
      ∀ m, mu = some m → ∃ m', tightenHi R n k B l mu = some m' ∧ m' ≤ m := by
  induction l generalizing mu with
  | nil => exact ⟨hmu, fun m hm => ⟨m, hm, le_refl _⟩⟩
  | cons p l ih =>
    obtain ⟨c, a⟩ := p
    have ih := fun mu hmu => ih (fun q hq => hs q (List.mem_cons_of_mem _ hq)) mu hmu
    unfold tightenHi
    by_cases hp : 0 < a k
    · rw [if_pos hp]
      cases ht : restLow R B a k (List.range n) 0 with
      | none => exact ih mu hmu
      | some t =>
        simp only
        have hle := rest_le R hk hB (hs (c, a) List.mem_cons_self) ht
        have hv : ρ k ≤ R.up (R.up (c - t) / a k) := by
          refine le_trans ?_ (R.le_up _)
          rw [le_div_iff₀ hp, mul_comm]; exact hle
        cases hm : mu with
        | none =>
          refine ⟨(ih _ (by intro m hm'; simp at hm'; rw [← hm']; exact hv)).1, ?_⟩
          intro m h; cases h
        | some m0 =>
          have hm0 := hmu m0 hm
          by_cases hc : R.up (R.up (c - t) / a k) < m0
          · simp only [if_pos hc]
            obtain ⟨i1, i2⟩ := ih (some (R.up (R.up (c - t) / a k)))
              (by intro m hm'; simp at hm'; rw [← hm']; exact hv)
            refine ⟨i1, ?_⟩
            rintro m ⟨⟩
            obtain ⟨m', e, h'⟩ := i2 _ rfl
            exact ⟨m', e, h'.trans hc.le⟩
          · simp only [if_neg hc]
            exact ih (some m0) (by intro m hm'; simp at hm'; rw [← hm']; exact hm0)
    · rw [if_neg hp]; exact ih mu hmu

/-- The same for the lower bound. -/
theorem C154_tighten_lower (R : Rd K) (n k : ℕ) (B : Bnds K) (l : List (K × (ℕ → K))) (ρ : ℕ → K)
    (hk : k < n) (hB : InBnds n B ρ) (hs : ∀ p ∈ l, FSat n p.1 p.2 ρ) (mu : Option K)
    (hmu : ∀ m, mu = some m → m ≤ ρ k) :
    (∀ m, tightenLo R n k B l mu = some m → m ≤ ρ k) ∧
      ∀ m, mu = some m → ∃ m', tightenLo R n k B l mu = some m' ∧ m ≤ m' := by
  induction l generalizing mu with
  | nil => exact ⟨hmu, fun m hm => ⟨m, hm, le_refl _⟩⟩
  | cons p l ih =>
    obtain ⟨c, a⟩ := p
    have ih := fun mu hmu => ih (fun q hq => hs q (List.mem_cons_of_mem _ hq)) mu hmu
    unfold tightenLo
    by_cases hp : a k < 0
    · rw [if_pos hp]
      cases ht : restLow R B a k (List.range n) 0 with
      | none => exact ih mu hmu
      | some t =>
        simp only
        have hle := rest_le R hk hB (hs (c, a) List.mem_cons_self) ht
        have hv : -(R.up (R.up (c - t) / -(a k))) ≤ ρ k := by
          have h1 : -(ρ k) ≤ R.up (c - t) / -(a k) := by
            rw [le_div_iff₀ (by linarith)]; simp only at hle; linarith
          have := R.le_up (R.up (c - t) / -(a k))
          linarith
        cases hm : mu with
        | none =>
          refine ⟨(ih _ (by intro m hm'; simp only [Option.some.injEq] at hm'; rw [← hm']; exact hv)).1, ?_⟩
          intro m h; cases h
        | some m0 =>
          have hm0 := hmu m0 hm
          by_cases hc : m0 < -(R.up (R.up (c - t) / -(a k)))
          · simp only [if_pos hc]
            obtain ⟨i1, i2⟩ := ih (some (-(R.up (R.up (c - t) / -(a k)))))
              (by intro m hm'; simp only [Option.some.injEq] at hm'; rw [← hm']; exact hv)
            refine ⟨i1, ?_⟩
            rintro m ⟨⟩
            obtain ⟨m', e, h'⟩ := i2 _ rfl
            exact ⟨m', e, hc.le.trans h'⟩
          · simp only [if_neg hc]
            exact ih (some m0) (by intro m hm'; simp at hm'; rw [← hm']; exact hm0)
    · rw [if_neg hp]; exact ih mu hmu

end Apron.Props
