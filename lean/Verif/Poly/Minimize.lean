import Verif.Poly.Defs

/-!
# Simplification and minimisation (newpolka)

Source: `newpolka/pk_cherni.c`, parts III and IV; the conventions are those of `Verif.Poly.Defs`.  A constraint
and its row of `satF` (bit `b` is set when generator `b` does not saturate it) form one `SRow`.
-/

set_option autoImplicit false
set_option linter.unusedSectionVars false

namespace Apron.Poly

/-! ## Gauss elimination -/

/-- the pivot row: normalised with a positive coefficient, status 0 (`pk_cherni.c:431-435`) -/
def gaussPivot (j : ℕ) (p : Row) : Row := (if p.at' j < 0 then p.neg else p).setStatus 0

/-- elimination of column `j` of row `q` with row `p` (`pk_cherni.c:436-439, 466-467`) -/
def elimCol (nbcols j : ℕ) (p q : Row) : Row := if q.at' j ≠ 0 then vectorCombine q p q j nbcols else q

/-- `cherni_gauss` (`pk_cherni.c:412-447`): columns `j, j-1, …, 1`; `D` are the rows below `rank`, `R` the rows
between `rank` and `nbeq`, `piv` is `cherni_intp` -/
def gauss (nbcols : ℕ) : ℕ → List Row → List Row → List ℕ → List Row × List Row × List ℕ
  | 0, D, R, piv => (D, R, piv)
  | j + 1, D, R, piv =>
    match R.dropWhile (fun q => q.at' (j + 1) == 0) with
    | [] => gauss nbcols j D R piv
    | p :: after =>
      let p' := gaussPivot (j + 1) p
      gauss nbcols j (D ++ [p'])
        (rot (R.takeWhile fun q => q.at' (j + 1) == 0) ++ after.map (elimCol nbcols (j + 1) p')) (piv ++ [j + 1])

/-- one iteration of `cherni_backsubstitute` (`pk_cherni.c:463-468`) -/
def backStep (nbcols k j : ℕ) (con : List Row) : List Row :=
  con.mapIdx fun i q => if i ≠ k then elimCol nbcols j (con.getD k []) q else q

/-- `cherni_backsubstitute` (`pk_cherni.c:458-470`), for `k = rank-1, …, 0` -/
def backsubstitute (nbcols : ℕ) (piv : List ℕ) : ℕ → List Row → List Row
  | 0, con => con
  | k + 1, con => backsubstitute nbcols piv k (backStep nbcols k (piv.getD k 0) con)

/-! ## cherni_simplify -/

/-- detection of the equalities and count of the saturated generators (`pk_cherni.c:510-549`); `Q` are the
equalities, `I` the inequalities already treated -/
def classify (nbrays : ℕ) : List SRow → List SRow → List SRow → List SRow × List SRow
  | [], Q, I => (Q, I)
  | x :: T, Q, I =>
    if x.row.at' 0 = 0 ∨ x.sat = 0 then
      classify nbrays T (Q ++ [{ x with row := x.row.setStatus 0 }]) (rot I)
    else
      classify nbrays T Q (I ++ [{ x with row := x.row.setStatus (zeroBits nbrays x.sat) }])

/-- removal of the inequalities with too few saturating generators (`pk_cherni.c:569-579`); the comparison is
between `long int`; `K` are the rows kept, the fuel is the number of rows -/
def dropFew (bound : ℤ) : ℕ → List SRow → List SRow → List SRow
  | 0, K, _ => K
  | _ + 1, K, [] => K
  | n + 1, K, x :: T =>
    if x.row.at' 0 < bound then dropFew bound n K (moveLast T) else dropFew bound n (K ++ [x]) T

/-- exchange of row `j` with the last one, which is removed -/
def exchRemove (L : List SRow) (j : ℕ) : List SRow := (L.set j (L.getLastD ⟨[], 0⟩)).dropLast

/-- the inner loop of the search of redundant inequalities (`pk_cherni.c:585-619`): the fuel bounds the number
of iterations -/
def scan (i : ℕ) (nb : ℤ) : ℕ → List SRow → ℕ → Bool × List SRow
  | 0, L, _ => (false, L)
  | n + 1, L, j =>
    if j < L.length then
      let x := L.getD i ⟨[], 0⟩
      let y := L.getD j ⟨[], 0⟩
      if nb < y.row.at' 0 then
        if y.sat ||| x.sat = x.sat then (true, L) else scan i nb n L (j + 1)
      else if y.row.at' 0 = nb ∧ j ≠ i then
        if x.sat = y.sat then scan i nb n (exchRemove L j) j else scan i nb n L (j + 1)
      else scan i nb n L (j + 1)
    else (false, L)

/-- the outer loop (`pk_cherni.c:581-626`) -/
def dropRedundant : ℕ → List SRow → ℕ → List SRow
  | 0, L, _ => L
  | n + 1, L, i =>
    if i < L.length then
      let r := scan i ((L.getD i ⟨[], 0⟩).row.at' 0) L.length L 0
      if r.1 then dropRedundant n (exchRemove r.2 i) i else dropRedundant n r.2 (i + 1)
    else L

/-- `cherni_simplify` (`pk_cherni.c:487-640`): the simplified constraints and the number of equalities -/
def simplify (nbcols nbrays : ℕ) (con : List SRow) : List SRow × ℕ :=
  let c := classify nbrays con [] []
  let g := gauss nbcols (nbcols - 1) [] (c.1.map SRow.row) []
  let D := g.1
  let m := g.2.1.length
  let I1 := c.2.reverse.take m ++ c.2.take (c.2.length - m)
  let I2 := dropFew ((nbcols : ℤ) - D.length - 2) I1.length [] I1
  let I3 := dropRedundant I2.length I2 0
  let I4 := I3.map fun x => { x with row := x.row.setStatus 1 }
  let sats := (c.1.map SRow.sat).take D.length ++ I4.map SRow.sat
  let rows := backsubstitute nbcols g.2.2 D.length (D ++ I4.map SRow.row)
  (List.zipWith SRow.mk rows sats, D.length)

/-! ## Minimisation -/

/-- the number with the bits `b < n` such that `p b` -/
def maskOf (p : ℕ → Bool) : ℕ → ℕ
  | 0 => 0
  | n + 1 => maskOf p n ||| (if p n then 1 <<< n else 0)

/-- column `i` of the saturation matrix of `lines ++ rays` (`satmat_transpose`, `pk_satmat.c:175-186`): the rows
of the lines are null -/
def transposeSat (nbline : ℕ) (rays : List SRow) (i : ℕ) : ℕ :=
  maskOf (fun j => decide (nbline ≤ j) && (rays.getD (j - nbline) ⟨[], 0⟩).sat.testBit i) (nbline + rays.length)

/-- a minimal representation: constraints with `satF`, generators, and the numbers of equalities and of lines -/
structure MinRep where
  C : List SRow
  F : List Row
  nbeq : ℕ
  nbline : ℕ
  deriving DecidableEq

/-- end of `cherni_minimize` and `cherni_add_and_minimize` (`pk_cherni.c:700-728, 783-812`): test of emptiness
when constraints are converted into generators (`dec` is the number of columns before the dimensions), then
transposition and simplification.  `none`: the polyhedron is empty. -/
def finishMin (nbcols dec : ℕ) (conToRay : Bool) (s : Conv) : Option MinRep :=
  if conToRay = true ∧ s.rays.all (fun x => decide (x.row.at' (dec - 1) ≤ 0)) = true then none
  else
    let con := s.done.mapIdx fun i q => (⟨q, transposeSat s.lines.length s.rays i⟩ : SRow)
    let r := simplify nbcols (s.lines.length + s.rays.length) con
    some { C := r.1, F := s.lines ++ s.rays.map SRow.row, nbeq := r.2, nbline := s.lines.length }

/-- `cherni_minimize` (`pk_cherni.c:665-729`) -/
def minimize (nbcols dec : ℕ) (conToRay : Bool) (C : List Row) : Option MinRep :=
  finishMin nbcols dec conToRay (conversion nbcols (initConv nbcols C))

/-- `cherni_add_and_minimize` (`pk_cherni.c:740-814`): the constraints `C` are taken into account in the
generators `lines`, `rays` (with the rows of `satC`), `newC` has to be added -/
def addAndMinimize (nbcols dec : ℕ) (conToRay : Bool) (C newC lines : List Row) (rays : List SRow) : Option MinRep :=
  finishMin nbcols dec conToRay (conversion nbcols ⟨C, newC, lines, rays⟩)

end Apron.Poly
