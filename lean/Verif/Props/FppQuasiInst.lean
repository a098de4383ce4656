import Verif.Props.FppQuasi
import Mathlib.Algebra.Order.Round
import Mathlib.Data.Rat.Floor

/-!
# C154: instances and defects
-/

set_option autoImplicit false
set_option linter.unusedSectionVars false
set_option linter.ambiguousOpen false

namespace Apron.Props

open Apron.Fpp

/-- Bounds of two variables: `[-1, 10]` and `[0, 4]`. -/
def fqB : Bnds ℚ := ⟨fun k => if k = 0 then some (-1) else some 0,
  fun k => if k = 0 then some 10 else some 4⟩

/-- A rounding that is not exact: one eighth up or down. -/
def fqR : Rd ℚ := ⟨fun q => q + 1/8, fun q => q - 1/8, fun q => by linarith, fun q => by linarith⟩

theorem fqB_in : InBnds 2 fqB (fun k => if k = 0 then 3 else 4) := by
  intro k hk
  have : k = 0 ∨ k = 1 := by omega
  rcases this with rfl | rfl <;> simp [fqB] <;> norm_num

/-- The constant and the coefficients of a result. -/
def qShow (n : ℕ) : QRes ℚ → Option (ℚ × List ℚ)
  | .con c a => some (c, (List.range n).map a)
  | _ => none
/-- The constant and the coefficients of a result. -/
def nShow (n : ℕ) : NRes ℚ → Option (ℚ × List ℚ)
  | .ok c a => some (c, (List.range n).map a)
  | _ => none

/-- `C154_quasi_sound`: `[1,3] x + y ≤ 10` at `x = 3`, `y = 4` with the coefficient 2. -/
example := C154_quasi_sound fqR 2 10 (fun k => if k = 0 then 1 else 1)
  (fun k => if k = 0 then 3 else 1) (fun k => if k = 0 then 2 else 1)
  (fun k => if k = 0 then 3 else 4) (some fqB) (by rintro B ⟨⟩; exact fqB_in)
  (by intro k hk
      have : k = 0 ∨ k = 1 := by omega
      rcases this with rfl | rfl <;> norm_num)
  (by simp [FSat, Finset.sum_range_succ]; norm_num)
/-- In exact arithmetic it becomes `2 x + y ≤ 20`. -/
example : qShow 2 (quasi (Rd.exact ℚ) 2 10 (fun k => if k = 0 then 1 else 1)
    (fun k => if k = 0 then 3 else 1) (some fqB)) = some (20, [2, 1]) := by decide +kernel

/-- `C154_steep_sound`: the tiny coefficient is moved to the constant (exponents from `frexp`). -/
example : nShow 2 (steep (Rd.exact ℚ) (fun q => if q = 1 then 1 else -17) fqB 2 3 8
    (fun k => if k = 0 then 1/262144 else 1)) = some (8 + 1/262144, [0, 1]) := by decide +kernel
/-- Large coefficients are divided by the least. -/
example : nShow 2 (steep (Rd.exact ℚ) (fun _ => 19) fqB 2 3 262144
    (fun k => if k = 0 then 262144 else 393216)) = some (1, [1, 3/2]) := by decide +kernel

/-- `C154_integer_sound`: `4 x + 6 y ≤ 7` becomes `2 x + 3 y ≤ 7/2`. -/
example : (divGcd (Rd.exact ℚ) 2 7 (fun k => if k = 0 then 4 else 6)).map
    (fun r => (r.1, (List.range 2).map r.2)) = some (7/2, [2, 3]) := by decide +kernel
example := C154_integer_sound (Rd.exact ℚ) 2 7 (fun k => if k = 0 then 4 else 6) (fun _ => 0) _ _
  (by intros; rfl) (show divGcd (Rd.exact ℚ) 2 7 (fun k => if k = 0 then 4 else 6) = some _ from rfl)

/-- `C154_tighten_upper`, `C154_tighten_lower`: `2 x + y ≤ 9` with `y ≥ 0` gives `x ≤ 9/2`;
`- x + y ≤ 1` gives `-1 ≤ x`. -/
example := C154_tighten_upper fqR 2 0 fqB [(10, fun k => if k = 0 then 2 else 1)]
  (fun k => if k = 0 then 3 else 4) (by norm_num) fqB_in
  (by intro p hp; simp at hp; subst hp; simp [FSat, Finset.sum_range_succ]; norm_num)
  (some 10) (by rintro m ⟨⟩; norm_num)
example : tightenHi (Rd.exact ℚ) 2 0 fqB [(9, fun k => if k = 0 then 2 else 1)] (some 10)
    = some (9/2) := by decide +kernel
example : tightenLo (Rd.exact ℚ) 2 0 fqB [(1, fun k => if k = 0 then -1 else 1)] none
    = some (-1) := by decide +kernel

/-! ## Defects -/

/-- `normalise_quasiInteger_inequality` aligns a coefficient that is nearly an integer to 0, not to
this integer, whatever the integer: the test for coefficients that are nearly 0
(`dkInt == 0 || dkDif <= QSEPSILON`, `quasi_linear.c:274`; the copy in `quasi_linearisation_bak`
has `&&`) comes first. -/
theorem C154_quasi_integer_to_zero {K : Type*} [Field K] [LinearOrder K] [IsStrictOrderedRing K]
    (rnd : K → K) (eps : K) (a : ℕ → K) (k : ℕ) (h1 : a k ≠ rnd (a k))
    (h2 : |a k - rnd (a k)| ≤ eps) : target (Rd.exact K) rnd eps a k = some 0 := by
  unfold target
  simp only [if_neg h1]
  exact if_pos (Or.inr h2)

/-- So `2.00005 x ≤ 1` with `x` in `[-1, 10]` becomes `0 ≤ 21.0005`, which says nothing. -/
theorem C154_quasi_integer_loses_constraint :
    let r := quasiInt (Rd.exact ℚ) (fun q => (round q : ℚ)) (1/10000) fqB [0] 1
      (fun _ => 2 + 1/20000)
    r.1 = 21 + 1/2000 ∧ r.2 0 = 0 := by decide +kernel

/-- A coefficient below one half is dropped as well: `x / 4 ≤ 0` becomes `0 ≤ 5/2`. -/
theorem C154_quasi_integer_drops_small :
    let r := quasiInt (Rd.exact ℚ) (fun q => (round q : ℚ)) (1/10000) fqB [0] 0 (fun _ => 1/4)
    r.1 = 5/2 ∧ r.2 0 = 0 := by decide +kernel

/-- Without the exactness of the difference the function is not sound: rounding upward rounds
`dk - ak` towards 0 when `dk < ak`.  With a rounding that halves the numbers between -1 and 0,
`17/16 x ≤ -17` becomes `x ≤ -33/2`, although `x = -16` satisfies it.  (For doubles the difference
is exact because the two numbers are close.) -/
theorem C154_quasi_integer_needs_exact :
    ∃ (R : Rd ℚ) (B : Bnds ℚ) (ρ : ℕ → ℚ), InBnds 1 B ρ ∧ FSat 1 (-17) (fun _ => 17/16) ρ ∧
      let r := quasiInt R (fun q : ℚ => (round q : ℚ)) (3/50) B [0] (-17) (fun _ => 17/16)
      ¬ FSat 1 r.1 r.2 ρ := by
  refine ⟨⟨fun q => if -1 < q ∧ q < 0 then q / 2 else q, id, ?_, fun q => le_refl _⟩,
    ⟨fun _ => some (-16), fun _ => some 16⟩, fun _ => -16, ?_, ?_, ?_⟩
  · intro q; split_ifs <;> linarith
  · intro k _; norm_num
  · unfold FSat; rw [Finset.sum_range_one]; norm_num
  · intro r
    unfold FSat
    rw [Finset.sum_range_one]
    decide +kernel

/-- `normalise_integer_inequality_withConstant` writes outside of its buffer: it has one cell per
variable, but the constant is stored as well.  Here one variable, `3 x ≤ 2`. -/
theorem C154_with_constant_overflow : storeAbs 1 [2, 3] [] = none := by decide +kernel

/-- In general: when the constant and the coefficients have absolute values that are all different
and greater than 1, for any number of variables. -/
theorem C154_with_constant_overflow_all (l : List ℤ) (h1 : ∀ z ∈ l, 2 ≤ z) (h2 : l.Nodup)
    (h3 : l ≠ []) : storeAbs (l.length - 1) l [] = none := by
  have hpos : 0 < l.length := List.length_pos_iff.2 h3
  suffices H : ∀ (l : List ℤ) (acc : List ℕ) (d : ℕ), (∀ z ∈ l, 2 ≤ z) → l.Nodup →
      (∀ z ∈ l, z.natAbs ∉ acc) → acc.length ≤ d → d < acc.length + l.length →
      storeAbs d l acc = none from
    H l [] (l.length - 1) h1 h2 (by simp) (by simp) (by simp; omega)
  intro l
  induction l with
  | nil => intro acc d _ _ _ h4 h5; simp at h5; omega
  | cons z l ih =>
    intro acc d h1 h2 h3 h4 h5
    have hz := h1 z List.mem_cons_self
    obtain ⟨hn, hnd⟩ := List.nodup_cons.1 h2
    unfold storeAbs
    rw [if_neg (by omega), if_neg (by omega), if_neg (h3 z List.mem_cons_self)]
    by_cases hlt : acc.length < d
    · rw [if_pos hlt]
      apply ih
      · exact fun x hx => h1 x (List.mem_cons_of_mem _ hx)
      · exact hnd
      · intro x hx hm
        rcases List.mem_append.1 hm with hm | hm
        · exact h3 x (List.mem_cons_of_mem _ hx) hm
        · simp at hm
          have hx2 := h1 x (List.mem_cons_of_mem _ hx)
          have : x = z := by omega
          exact hn (this ▸ hx)
      · simp; omega
      · simp at h5 ⊢; omega
    · rw [if_neg hlt]

end Apron.Props
