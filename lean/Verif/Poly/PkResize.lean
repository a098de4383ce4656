import Verif.Poly.PkUser
import Verif.Box.Defs

/-!
# Polyhedra (newpolka): projection, addition, removal and permutation of dimensions

Sources: `newpolka/pk_project.c`, `pk_resize.c`.

Simplifications (see also `PkDefs`).
* The integer and real dimensions of the result are not part of `Rep`; `n` is their total number.
* The flag `_sorted` of a matrix of generators is known only when both matrices are present.
* A destructive call overwrites the rows in place; `destr` selects the contents of the destination before the loops.
* The flags `flag_best`, `flag_exact` are not modelled.
-/

set_option autoImplicit false
set_option linter.unusedSectionVars false

namespace Apron.Poly

/-! ## Vectors -/

/-- `vector_add_dimensions` (`pk_resize.c:66-89`); `n` is the number of dimensions of `q`; the loop is the one of
`box_add_dimensions` -/
def addRow (destr : Bool) (n : ℕ) (pos : List ℕ) (q : Row) : Row :=
  Row.ofFun (n + pos.length + 2) fun j =>
    if j < 2 then q.at' j
    else Box.addLoop destr (fun i => q.at' (i + 2)) n pos 0 (n + 1) pos.length
      (if destr then fun i => q.at' (i + 2) else fun _ => 0) (j - 2)

/-- `vector_remove_dimensions` (`pk_resize.c:91-112`), then `vector_normalize` (`pk_resize.c:172`); the loop is the one of
`box_remove_dimensions` -/
def remRow (destr : Bool) (n : ℕ) (pos : List ℕ) (q : Row) : Row :=
  normalize (Row.ofFun (n - pos.length + 2) fun j =>
    if j < 2 then q.at' j
    else Box.remLoop destr (fun i => q.at' (i + 2)) pos (n - pos.length) 0 0
      (if destr then fun i => q.at' (i + 2) else fun _ => 0) (j - 2)) (n - pos.length + 2)

/-- `vector_permute_dimensions` (`pk_resize.c:33-65`) -/
def permRow (n : ℕ) (perm : ℕ → ℕ) (q : Row) : Row :=
  Row.ofFun (n + 2) fun j =>
    if j < 2 then q.at' j
    else (List.range n).foldl (fun (r : ℕ → ℤ) i => Function.update r (perm i) (q.at' (i + 2))) (fun _ => 0) (j - 2)

/-- the columns `tdim` are set to zero, then the row is normalised (`pk_project.c:75-80`) -/
def projRow (n : ℕ) (tdim : List ℕ) (q : Row) : Row :=
  normalize (Row.ofFun (n + 2) fun j => tdim.foldl (fun r t => Function.update r (t + 2) 0) q.at' j) (n + 2)

/-! ## Projection -/

/-- `poly_projectforget_array` (`pk_project.c:28-130`), called by `pk_forget_array` (`pk_project.c:136-149`) -/
def Rep.forget (n : ℕ) (lzy : Bool) (pa : Rep) (tdim : List ℕ) (project : Bool) : Option Rep :=
  let pa := if lzy then pa.obtainF n else pa.chernikova n
  match pa.F? with
  | none => some .bot
  | some F =>
    if project then
      let r := Rep.gens (F.map (projRow n tdim))
      some (if lzy then r else r.chernikova n)
    else (Rep.meetMatrix n false lzy pa.dual (sortRows (n + 2) (tdim.map fun t => unitRow (n + 2) (t + 1)))).map Rep.dual

/-! ## Addition of dimensions -/

/-- the inner loop that writes the new lines (`pk_resize.c:249-253`); `k` counts the remaining positions, `N` is the
number of dimensions of the result -/
def lineInner (N : ℕ) (pos : List ℕ) (i : ℕ) : ℕ → ℕ × List Row
  | 0 => (0, [])
  | k + 1 =>
    if pos.getD k 0 = i then
      let s := lineInner N pos i k
      (s.1, unitRow (N + 2) (i + k + 1) :: s.2)
    else (k + 1, [])

/-- the new lines (`pk_resize.c:247-255`), from the index `i - 1` down to 0 -/
def lineLoop (N : ℕ) (pos : List ℕ) : ℕ → ℕ → List Row
  | 0, _ => []
  | i + 1, k =>
    let s := lineInner N pos i k
    s.2 ++ lineLoop N pos i s.1

/-- the rows inserted in front of the generators -/
def newLines (n : ℕ) (pos : List ℕ) : List Row := lineLoop (n + pos.length) pos (n + 1) pos.length

/-- `cherni_add_dimensions` (`pk_resize.c:207-294`).  The test of line 258 compares the rows `dimsup - 1` and `dimsup` of
a sorted matrix of generators: without new dimension the first index is out of bounds and the result is `none` -/
def Rep.cherniAdd (destr : Bool) (n : ℕ) (pos : List ℕ) : Rep → Option Rep
  | .bot => some .bot
  | .cons C => some (.cons (C.map (addRow destr n pos)))
  | .gens F => if pos = [] then none else some (.gens (newLines n pos ++ F.map (addRow destr n pos)))
  | .both f =>
    if pos = [] ∧ f.sortedF = true then none
    else
      let F := ((newLines n pos).map fun q => (⟨q, 0⟩ : SRow)) ++ f.F.map fun x => ⟨addRow destr n pos x.row, x.sat⟩
      some (.both
        { C := f.C.map fun x => ⟨addRow destr n pos x.row, x.sat <<< pos.length⟩
          F, nbeq := f.nbeq, nbline := f.nbline + pos.length, consgauss := f.consgauss, gengauss := f.gengauss
          sortedC := false
          sortedF := f.sortedF &&
            (vcmp (n + pos.length + 2) (F.getD (pos.length - 1) ⟨[], 0⟩).row (F.getD pos.length ⟨[], 0⟩).row == .lt) })

/-- `pk_add_dimensions` (`pk_resize.c:303-348`) -/
def Rep.addDimensions (destr : Bool) (n : ℕ) (alg : ℤ) (pa : Rep) (pos : List ℕ) (project : Bool) : Option Rep :=
  let pa := if 0 < alg then pa.chernikova n else pa
  if pa = .bot then some .bot
  else if project then (Rep.cherniAdd destr n pos pa.dual).map Rep.dual
  else Rep.cherniAdd destr n pos pa

/-! ## Removal and permutation -/

/-- `pk_remove_dimensions` (`pk_resize.c:350-406`) -/
def Rep.removeDimensions (destr : Bool) (n : ℕ) (alg : ℤ) (pa : Rep) (pos : List ℕ) : Rep :=
  match (pa.prepF n alg).F? with
  | none => .bot
  | some F =>
    let r := Rep.gens (F.map (remRow destr n pos))
    if 0 < alg then r.chernikova (n - pos.length) else r

/-- `pk_permute_dimensions` (`pk_resize.c:408-441`) -/
def Rep.permuteDimensions (n : ℕ) (alg : ℤ) (pa : Rep) (perm : ℕ → ℕ) : Rep :=
  match (if 0 < alg then pa.chernikova n else pa) with
  | .bot => .bot
  | .cons C => .cons (C.map (permRow n perm))
  | .gens F => .gens (F.map (permRow n perm))
  | .both f => .both
      { f with
        C := f.C.map fun x => ⟨permRow n perm x.row, x.sat⟩
        F := f.F.map fun x => ⟨permRow n perm x.row, x.sat⟩
        consgauss := false, gengauss := false, sortedC := false, sortedF := false }

end Apron.Poly
