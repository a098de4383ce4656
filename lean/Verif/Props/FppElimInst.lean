import Verif.Props.FppElim
import Verif.Props.FppQuasiInst

/-!
# C155: instances and defects
-/

set_option autoImplicit false
set_option linter.unusedSectionVars false
set_option linter.ambiguousOpen false

namespace Apron.Props

open Apron.Fpp

/-- Rounding to the eighths. -/
def fe8 : Rd ℚ := ⟨fun q => ⌈8 * q⌉ / 8, fun q => ⌊8 * q⌋ / 8,
  fun q => by have := Int.le_ceil (8 * q); linarith,
  fun q => by have := Int.floor_le (8 * q); linarith⟩

/-- `x + y ≤ 5`, `-3x + y ≤ -1`, `x - y ≤ 2`, `y ≤ 4`. -/
def feRows : List (FRow ℚ) :=
  [(5, fun _ => 1), (-1, fun k => if k = 0 then -3 else 1), (2, fun k => if k = 0 then 1 else -1),
   (4, fun k => if k = 0 then 0 else 1)]

/-- No bounds. -/
def feTop : Bnds ℚ := ⟨fun _ => none, fun _ => none⟩

/-- The point (2, 1). -/
def fePt : ℕ → ℚ := fun k => if k = 0 then 2 else 1

def feInt (q : ℚ) : Bool := decide (q.den = 1)

/-- The rows of a result. -/
def eShow (n : ℕ) : ERes ℚ → Option (List (ℚ × List ℚ))
  | .rows l _ => some (l.map fun r => (r.1, (List.range n).map r.2))
  | _ => none

/-- Elimination of `x` from the four rows: `4 y ≤ 14`, `-2 y ≤ 5`, `y ≤ 4`. -/
example : eShow 2 (fmElim fe8 feInt 1000000 2 0 feRows feTop) =
    some [(14, [0, 4]), (5, [0, -2]), (4, [0, 1])] := by decide +kernel
/-- The division: coefficients that are too large; nothing is exact. -/
example : eShow 2 (fmElim fe8 feInt 2 2 0
    [(5, fun k => if k = 0 then 3 else 1), (-1, fun k => if k = 0 then -7 else 1)] fqB) =
    some [(17/8, [0, 1/2])] := by decide +kernel
/-- `C155_elimination_sound`. -/
example := C155_elimination_sound fe8 feInt 1000000 2 0 feRows feTop fePt
  (by intro k _; simp [feTop]) (by
    intro r hr
    simp only [feRows, List.mem_cons, List.not_mem_nil, or_false] at hr
    rcases hr with rfl | rfl | rfl | rfl <;> simp [FSat, fePt, Finset.sum_range_succ] <;> norm_num)
/-- `C155_elimination_exact`: at `y = 1`. -/
example := C155_elimination_exact (Rd.exact ℚ) ⟨fun _ => rfl, fun _ => rfl⟩ feInt 1000000 2 0 (by omega)
  feRows feTop fePt
example := C155_elimination_exact_sound (Rd.exact ℚ) ⟨fun _ => rfl, fun _ => rfl⟩ feInt 1000000 2 0
  feRows feTop fePt 2 (by
    intro r hr
    simp only [feRows, List.mem_cons, List.not_mem_nil, or_false] at hr
    rcases hr with rfl | rfl | rfl | rfl <;> simp [FSat, fePt, Finset.sum_range_succ, Function.update] <;>
      norm_num)
/-- An empty polyhedron is found: `x ≤ 0`, `-x ≤ -1`. -/
example : (match fmElim fe8 feInt 1000000 1 0 [(0, fun _ => 1), (-1, fun _ => -1)] feTop with
    | .empty => true | _ => false) = true := by decide +kernel

/-- `x := 2 x + y + 1`: `x + y ≤ 5` becomes `x / 2 + y / 2 ≤ 11 / 2`. -/
example : (substRow fe8 2 0 1 (fun k => if k = 0 then 2 else 1) feTop (5, fun _ => 1)).map
    (fun r => (r.1, (List.range 2).map r.2)) = some (11/2, [1/2, 1/2]) := by decide +kernel
example := fun r' => C155_substitution_sound fe8 2 0 (by omega) 1 (fun k => if k = 0 then 2 else 1) (by norm_num)
  feTop (5, fun _ => 1) r' fePt (by simp [FSat, fePt, Finset.sum_range_succ]; norm_num)
  (by intro k _; simp [feTop])
example := C155_substitution_exists 2 0 (by omega) (1 : ℚ) (fun k => if k = 0 then 2 else 1) (by norm_num)
  (R := Rd.exact ℚ) ⟨fun _ => rfl, fun _ => rfl⟩ feTop (5, fun _ => 1)
/-- `x := y + 1` at `y = 1`. -/
example : ∀ r ∈ defRows 0 (1 : ℚ) (fun k => if k = 0 then 0 else 1),
    FSat 2 r.1 r.2 (Function.update fePt 0 2) :=
  (C155_definition_rows 2 0 (by omega) 1 _ (by norm_num) fePt 2).2
    (by simp [affVal, fePt, Finset.sum_range_succ]; norm_num)

/-! ## Defects -/

/-- `fppol_assign_bySubstitution` copies from NULL (`fppol/fppol_domain.c:1542-1543`): whenever the
quotient of the coefficients of the assigned variable is not a double and the variable has a bound
missing. -/
theorem C155_substitution_null (K : Type*) [Field K] [LinearOrder K] [IsStrictOrderedRing K] (R : Rd K)
    (n j : ℕ) (hj : j < n) (e0 : K) (e : ℕ → K) (B : Bnds K) (r : FRow K) (h0 : r.2 j ≠ 0)
    (hq : R.down (r.2 j / e j) ≠ R.up (r.2 j / e j)) (hb : B.lo j = none ∨ B.hi j = none) :
    substRow R n j e0 e B r = none := by
  have hm : magn B j = none := by
    unfold magn
    rcases hb with h | h
    · rw [h]
    · rw [h]; cases B.lo j <;> rfl
  have hloop : ∀ (a b : ℕ → K) (L : List ℕ), j ∈ L → a j ≠ b j → ∀ c,
      quasiLoop R a b (fun k => (some B).bind fun B => magn B k) L c = none := by
    intro a b L
    induction L with
    | nil => intro h; simp at h
    | cons k L ih =>
      intro hk hab c
      unfold quasiLoop
      rcases List.mem_cons.1 hk with e | e
      · subst e; rw [if_neg hab]; simp [hm]
      · split_ifs
        · exact ih e hab c
        · split
          · rfl
          · exact ih e hab _
  unfold substRow quasi
  rw [if_neg h0, hloop _ _ _ (List.mem_range.2 hj) (by simpa [divN] using hq)]

/-- `x := 3 x` on `x ≤ 1`, in eighths. -/
theorem C155_substitution_null_case :
    substRow fe8 1 0 0 (fun _ => 3) ⟨fun _ => none, fun _ => some 3⟩ (1, fun _ => 1) = none :=
  C155_substitution_null ℚ fe8 1 0 (by omega) 0 _ _ _ (by norm_num) (by decide +kernel) (Or.inl rfl)

/-- The bounds of a variable that occurs in no row become `[0, 0]` (`fppol/fm.c:106-118`): points
of the projection are outside the bounds of the result, and `fppol_factorization` undoes it in the
array that was just freed (`fppol/fppol_domain.c:499, 510-513`). -/
theorem C155_unused_variable_bounds (K : Type*) [Field K] [LinearOrder K] [IsStrictOrderedRing K] (R : Rd K)
    (isInt : K → Bool) (big : K) (n i : ℕ) (hi : i < n) (rs : List (FRow K)) (hne : rs ≠ [])
    (h0 : ∀ r ∈ rs, r.2 i = 0) (B : Bnds K) :
    ∃ l B', fmElim R isInt big n i rs B = .rows l B' ∧
      ∀ ρ : ℕ → K, ρ i ≠ 0 → ¬ InBnds n B' ρ := by
  have hp : (rs.filter fun r : FRow K => decide (0 < r.2 i)) = [] := by
    rw [List.filter_eq_nil_iff]; intro r hr; simp [h0 r hr]
  have hn : (rs.filter fun r : FRow K => decide (r.2 i < 0)) = [] := by
    rw [List.filter_eq_nil_iff]; intro r hr; simp [h0 r hr]
  have hz : (rs.filter fun r : FRow K => decide (r.2 i = 0)) = rs := by
    rw [List.filter_eq_self]; intro r hr; simp [h0 r hr]
  unfold fmElim
  simp only [hp, hn, hz]
  have hl : rs.length ≠ 0 := by rwa [Ne, List.length_eq_zero_iff]
  rw [if_neg (by simpa using hne), if_pos (by simp)]
  refine ⟨_, _, rfl, ?_⟩
  intro ρ hρ h
  obtain ⟨h1, h2⟩ := h i hi
  have a := h1 0 (by simp)
  have b := h2 0 (by simp)
  exact hρ (le_antisymm b a)

example := C155_unused_variable_bounds ℚ fe8 feInt 1000000 2 0 (by omega) [(4, fun k => if k = 0 then 0 else 1)]
  (by simp) (by simp) feTop

end Apron.Props
