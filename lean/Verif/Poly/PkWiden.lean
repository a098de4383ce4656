import Verif.Poly.PkUser
import Verif.Poly.PkTop
import Verif.Poly.PkLeq

/-!
# Widening of convex polyhedra: model

Source: `newpolka/pk_widening.c`.

Simplifications: those of `Verif.Poly.PkDefs`; moreover
* `bitstring_cmp` compares the words in order, and the first column is the most significant bit of the first word
  (`pk_bit.h`): it is the comparison of the numbers whose most significant bit is the column 0 (`satKey`);
* the rows of `satF` of the equalities are null (an equality is saturated by all generators);
* rows of the saturation matrix that compare equal may be put in any order by a quick sort: only rows of equalities
  are equal, and the index found is used to test that a row is not an equality, so the order is not observable.
-/

set_option autoImplicit false
set_option linter.unusedSectionVars false

namespace Apron.Poly

/-! ## Model -/

/-- the number whose binary digits are the `m` first bits of `s`, the first one being the most significant -/
def satKey (m s : ℕ) : ℕ := (List.range m).foldl (fun acc b => 2 * acc + if s.testBit b then 1 else 0) 0

/-- `cherni_buildsatline` (`pk_cherni.c:825-837`) -/
def satLine (d : ℕ) : List Row → Row → ℕ
  | [], _ => 0
  | f :: F, q => 2 * satLine d F q + if vprod d f q ≠ 0 then 1 else 0

/-- `esatmat_of_satmat` (`pk_widening.c:31-42`) applied to `satF`: the rows with their indices -/
def Full.satTab (f : Full) : List (ℕ × ℕ) :=
  f.C.mapIdx fun i x => (satKey f.F.length (if i < f.nbeq then 0 else x.sat), i)

/-- `esatmat_sort_rows` (`pk_widening.c:44-90`) -/
def Full.sortedTab (f : Full) : List (ℕ × ℕ) := f.satTab.insertionSort fun a b => a.1 ≤ b.1

/-- the loop of `bsearch2` for small intervals (`pk_widening.c:106-117`): `k` rows from `i` -/
def bscan (tab : List (ℕ × ℕ)) (key : ℕ) : ℕ → ℕ → Option ℕ
  | 0, _ => none
  | k + 1, i =>
    if (tab.getD i (0, 0)).1 = key then some i
    else if key < (tab.getD i (0, 0)).1 then none
    else bscan tab key k (i + 1)

/-- `bsearch2` (`pk_widening.c:104-128`); the fuel is the number of rows -/
def bsearch (tab : List (ℕ × ℕ)) (key : ℕ) : ℕ → ℕ → ℕ → Option ℕ
  | 0, low, high => bscan tab key (high - low) low
  | k + 1, low, high =>
    if high - low ≤ 4 then bscan tab key (high - low) low
    else
      let mid := low + (high - low) / 2
      if (tab.getD mid (0, 0)).1 < key then bsearch tab key k (mid + 1) high
      else if key < (tab.getD mid (0, 0)).1 then bsearch tab key k low mid
      else some mid

/-- the index in `pa->C` of a constraint saturated by the same generators of `pa` (`pk_widening.c:187-191`) -/
def Full.findRow (n : ℕ) (f : Full) (q : Row) : Option ℕ :=
  (bsearch f.sortedTab (satKey f.F.length (satLine (n + 1) f.frows q)) f.C.length 0 f.C.length).map fun i =>
    (f.sortedTab.getD i (0, 0)).2

/-- a row of `pb->C` is kept (`pk_widening.c:187-202`) -/
def Full.keeps (n : ℕ) (alg : ℤ) (f : Full) (q : Row) : Bool :=
  match f.findRow n q with
  | none => false
  | some i => decide (0 < alg) || !rowIsPos n (f.crows.getD i [])

/-- `pk_widening` (`pk_widening.c:144-211`); `none`: the null pointer `pb->C` is dereferenced -/
def Rep.widening (n : ℕ) (alg : ℤ) (pa pb : Rep) : Option Rep :=
  match pa.chernikova n with
  | .both f => match (pb.chernikova n).C? with
    | none => none
    | some C => some (.cons (posRow n :: C.filter (f.keeps n alg)))
  | _ => some (pb.chernikova n)

/-- the rows added by `pk_widening_threshold` (`pk_widening.c:234-261`) -/
def thresholdRows (n intdim : ℕ) (F : List Row) (l : List (Lincons ℚ)) : List Row :=
  l.filterMap fun c => match c.typ with
    | .supeq | .sup =>
      if c.expr.isLinear then
        let v := setLincons n intdim (ILincons.ofAp Rnd.exact c)
        if genSatVector n F v false then some v else none
      else none
    | _ => none

/-- `pk_widening_threshold` (`pk_widening.c:216-266`); `none`: a null pointer is dereferenced, or (when `pa` is empty and
rows are added to a copy of `pb`) the saturation matrix of the result has fewer rows than its matrix of constraints -/
def Rep.wideningThreshold (n intdim : ℕ) (alg : ℤ) (pa pb : Rep) (l : List (Lincons ℚ)) : Option Rep :=
  (Rep.widening n alg pa pb).bind fun po =>
    match po with
    | .cons C => (pb.chernikova n).F?.map fun F => .cons (C ++ thresholdRows n intdim F l)
    | .both f => if thresholdRows n intdim f.frows l = [] then some po else none
    | _ => some po

end Apron.Poly
