import Verif.Fpp.Elim
import Verif.Fpp.BitVecs

/-!
# fppol: lazy Fourier-Motzkin elimination

`fm_elimination_lazy` (`fppol/fm.c:380-592`): the vectors of the combinations are computed first, and
Kohler's rule removes pairs before the rows are combined (`fm_elimination_combination`,
`fppol/fm.c:594-780`, is the text of `fm_elimination` line by line: `combine`).

Simplifications: those of `Fpp/Elim.lean` and `Fpp/BitVecs.lean`; the rows `cons` and the vectors
`bits` are two lists, as in the code, of the same length when the call is well formed.
-/

set_option autoImplicit false
set_option linter.unusedSectionVars false
set_option linter.ambiguousOpen false

namespace Apron.Fpp

variable {K : Type*} [Field K] [LinearOrder K] [IsStrictOrderedRing K]

/-- Row `k` of `cons`. -/
def rowAt (rs : List (FRow K)) (k : ℕ) : FRow K := rs.getD k (0, fun _ => 0)

/-- Vector `k` of `bits`. -/
def vecAt (vs : List BV) (k : ℕ) : BV := vs.getD k []

/-- The loop of quasi-linearisations (`fppol/fm.c:519-550`) over the pairs that are left: `out` is
`sigcons` up to `resq`, `vs` is `bv1`, from which the vector of a tautology is taken out by `memmove`
at index `nvecs-(nitvcons-i)`; `none` when a combination is unsatisfiable. -/
def lazyQuasi (R : Rd K) (isInt : K → Bool) (big : K) (n i : ℕ) (B : Bnds K) (rs : List (FRow K)) :
    List (ℕ × ℕ) → List (FRow K) → List BV → Option (List (FRow K) × List BV)
  | [], out, vs => some (out, vs)
  | w :: ws, out, vs =>
    match pairRow R isInt big n i B (rowAt rs w.1) (rowAt rs w.2) with
    | .unsat => none
    | .taut => lazyQuasi R isInt big n i B rs ws out (vs.eraseIdx (vs.length - (ws.length + 1)))
    | .con c a => lazyQuasi R isInt big n i B rs ws (out ++ [(c, a)]) vs

/-- The result: `EMPTY_POL`, `UNIVERSE_POL`, or rows and their vectors. -/
inductive LRes (K : Type*) where
  | empty
  | univ
  | rows (l : List (FRow K)) (vs : List BV)

/-- `fm_elimination_lazy` (`fppol/fm.c:380-592`); `e` is `nelimv`. -/
def lazyElim (R : Rd K) (isInt : K → Bool) (big : K) (n i e : ℕ) (B : Bnds K) (rs : List (FRow K))
    (vs : List BV) : LRes K :=
  let pos := (List.range rs.length).filter fun k => decide (0 < (rowAt rs k).2 i)
  let neg := (List.range rs.length).filter fun k => decide ((rowAt rs k).2 i < 0)
  let zero := (List.range rs.length).filter fun k => decide ((rowAt rs k).2 i = 0)
  if pos.length * neg.length + zero.length = 0 then .univ
  else if pos.length * neg.length = 0 then .rows (zero.map (rowAt rs)) (zero.map (vecAt vs))
  else
    let pairs := pos.flatMap fun p => neg.map fun q => (p, q)
    let fmp := zero.map (fun k => (k, k)) ++ pairs
    let bv1 := zero.map (vecAt vs) ++ pairs.map fun w => bvOr (vecAt vs w.1) (vecAt vs w.2)
    let kept := kohlerLazy (vecAt bv1) fmp.length zero.length e
    let fmp' := kept.map fun k => fmp.getD k (0, 0)
    match lazyQuasi R isInt big n i B rs (fmp'.filter fun w => decide (w.1 ≠ w.2))
        ((fmp'.filter fun w => decide (w.1 = w.2)).map fun w => rowAt rs w.1) (kept.map (vecAt bv1)) with
    | none => .empty
    | some (l, v) => if v.length = 0 then .univ else .rows l v

end Apron.Fpp
