import Verif.Fpp.Elim

/-!
# fppol: the convex hull

`fppol_construct_convex_hull` (`fppol/fppol_domain.c:382-484`) and the loop of eliminations of
`fppol_strong_join` (`fppol/fppol_domain.c:267-290`).

Simplifications.
* Variable `k` of the result is `k`, variable `k` of `y₁` is `n + k`, `σ₁` is `2 n`; an eliminated
  variable keeps its number with the coefficient 0 (the code removes the column).
* The choice of the variable to eliminate (`fm_select`) is an arbitrary list.
* The redundancy removals after each elimination, and Kohler's rule of the lazy variant (C157), are an
  arbitrary function `drop` that removes rows; the normalisations (C154) and the envelope are left out.
-/

set_option autoImplicit false
set_option linter.unusedSectionVars false
set_option linter.ambiguousOpen false

namespace Apron.Fpp

variable {K : Type*} [Field K] [LinearOrder K] [IsStrictOrderedRing K]

/-- `A₁ y₁ - b₁ σ₁ ≤ 0` (`fppol/fppol_domain.c:441-452`). -/
def hullRow1 (n : ℕ) (r : FRow K) : FRow K :=
  (0, fun j => if j < n then 0 else if j < 2 * n then r.2 (j - n) else if j = 2 * n then -r.1 else 0)

/-- `A₂ x - A₂ y₁ + b₂ σ₁ ≤ b₂` (`fppol/fppol_domain.c:454-470`). -/
def hullRow2 (n : ℕ) (r : FRow K) : FRow K :=
  (r.1, fun j => if j < n then r.2 j else if j < 2 * n then -(r.2 (j - n)) else if j = 2 * n then r.1 else 0)

/-- `-σ₁ ≤ 0` and `σ₁ ≤ 1` (`fppol/fppol_domain.c:471-481`). -/
def hullSigma (n : ℕ) : List (FRow K) :=
  [(0, fun j => if j = 2 * n then -1 else 0), (1, fun j => if j = 2 * n then 1 else 0)]

/-- The constraints of the hull. -/
def hullRows (n : ℕ) (rs1 rs2 : List (FRow K)) : List (FRow K) :=
  rs1.map (hullRow1 n) ++ rs2.map (hullRow2 n) ++ hullSigma n

/-- The bounds of the hull (`fppol/fppol_domain.c:410-435`). -/
def hullBnds (n : ℕ) (B1 B2 : Bnds K) : Bnds K where
  lo := fun j =>
    if j < n then match B1.lo j, B2.lo j with
      | some a, some b => some (min a b)
      | _, _ => none
    else if j < 2 * n then (B1.lo (j - n)).map fun l => if 0 ≤ l then 0 else l
    else some 0
  hi := fun j =>
    if j < n then match B1.hi j, B2.hi j with
      | some a, some b => some (max a b)
      | _, _ => none
    else if j < 2 * n then (B1.hi (j - n)).map fun h => if 0 < h then h else 0
    else some 1

/-- The loop of eliminations (`fppol/fppol_domain.c:267-290`); the bounds of the variables that are
left do not change. -/
def elimAll (R : Rd K) (isInt : K → Bool) (big : K) (n : ℕ) (B : Bnds K)
    (drop : ℕ → List (FRow K) → List (FRow K)) :
    List ℕ → List (FRow K) → ERes K
  | [], rs => .rows rs B
  | i :: is, rs =>
    match fmElim R isInt big n i rs B with
    | .empty => .empty
    | .univ => .univ
    | .rows l _ => elimAll R isInt big n B drop is (drop i l)

/-- The coefficient of `σ₁` is moved to the nearest integer `rnd` when it is close
(`fppol_reshape_steep_ineqs`, `fppol/fppol_domain.c:686-716`); `s` is the number of `σ₁`, `qe` is
`QSEPSILON`. The subtraction, the quotient and the sum are rounded upward. -/
def reshapeSigma (R : Rd K) (rnd : K → K) (qe : K) (s : ℕ) (r : FRow K) : FRow K :=
  let b := r.2 s
  let d := rnd b
  if b = d then r
  else if (d = 0 ∧ |R.up (b - d)| ≤ qe) ∨ R.up (|R.up (b - d)| / max |b| |d|) ≤ qe then
    (R.up (r.1 + |R.up (d - b)|), Function.update r.2 s d)
  else r

end Apron.Fpp
