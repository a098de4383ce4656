import Verif.Avo.Mat

/-!
# Absolute-value octagons: model of `avoct/avo_closure.c`

All algorithms are in place: every loop is a fold over the memory and cells are read at the same
moment as in the code.  Where the code scans `i` from `2*dim` the model uses `i = 2*dim+t`.
`avo_matpos2(i,j)` is `matpos2 i j`; where the code uses `avo_matpos` on a stored cell the model
writes `matpos`.
-/

set_option autoImplicit false
set_option linter.unusedSectionVars false
set_option linter.ambiguousOpen false

namespace Apron
namespace Avo
open Bound Oct
variable {K : Type*} [LinearOrder K] [Field K] [IsStrictOrderedRing K] (R : Rnd K)

/-! ### tightening between `x` and `|x|` -/

/-- `bound_bmin_nsc(m+p,nsc+p,m[q],nsc[q])` -/
def cp (M : SMem K) (p q : ℕ) : SMem K := M.bmin p (M q)

/-- first loop of `tighten_nsc`: avoct/avo_closure.c:75-93 -/
def tightSign (dim : ℕ) (M : SMem K) (i : ℕ) : SMem K :=
  let a := matpos2 (2 * i + 1) (2 * i)
  let b := matpos2 (2 * i) (2 * i + 1)
  let c := matpos2 (2 * dim + 2 * i) (2 * dim + 2 * i + 1)
  let d := matpos2 (2 * dim + 2 * i + 1) (2 * dim + 2 * i)
  let M1 := if (M a).1 ≤ fin 0 then cp (cp (cp (cp M a c) c a) b d) d b else M
  if (M1 b).1 ≤ fin 0 then cp (cp (cp (cp M1 b c) c b) a d) d a else M1

/-- second loop of `tighten_nsc`, cell `(2*dim+t, j)`, `j < 2*dim`: avoct/avo_closure.c:95-111 -/
def tightMixed (dim : ℕ) (M : SMem K) (t j : ℕ) : SMem K :=
  if t % 2 = 1 then
    M.bmin (matpos2 (2 * dim + t) j) (SB.max (M (matpos2 t j)) (M (matpos2 (t - 1) j)))
  else
    cp (cp M (matpos2 (2 * dim + t) j) (matpos2 t j)) (matpos2 (2 * dim + t) j) (matpos2 (t + 1) j)

/-- avoct/avo_closure.c:116-123 -/
def tightAbsA (dim : ℕ) (M : SMem K) (t u : ℕ) : SMem K :=
  if t % 2 = 1 then
    M.bmin (matpos2 (2 * dim + t) (2 * dim + u))
      (SB.max (M (matpos2 t (2 * dim + u))) (M (matpos2 (t - 1) (2 * dim + u))))
  else M

/-- avoct/avo_closure.c:124-129 -/
def tightAbsB (dim : ℕ) (M : SMem K) (t u : ℕ) : SMem K :=
  if u % 2 = 0 then
    M.bmin (matpos2 (2 * dim + t) (2 * dim + u))
      (SB.max (M (matpos2 (2 * dim + t) u)) (M (matpos2 (2 * dim + t) (u + 1))))
  else M

/-- avoct/avo_closure.c:147-151: `bound_cmp(b_zero,m[p])<0` -/
def capZero (M : SMem K) (p : ℕ) : SMem K :=
  if fin 0 < (M p).1 then M.set p (fin 0, pinf) else M

/-- avoct/avo_closure.c:132-137 -/
def tightAbsC1 (M : SMem K) (p t u : ℕ) : SMem K :=
  if u = t ^^^ 1 then cp (cp M p (matpos2 t (t ^^^ 1))) p (matpos2 (t ^^^ 1) t) else M

/-- avoct/avo_closure.c:130-152 -/
def tightAbsC (dim : ℕ) (M : SMem K) (t u : ℕ) : SMem K :=
  if t % 2 = 0 ∧ u % 2 = 1 then
    let p := matpos2 (2 * dim + t) (2 * dim + u)
    let M1 := tightAbsC1 M p t u
    let M2 := M1.bmin p (SB.half R (M1 (matpos2 ((2 * dim + u) ^^^ 1) (2 * dim + u))))
    let M3 := M2.bmin p (SB.half R (M2 (matpos2 (2 * dim + t) ((2 * dim + t) ^^^ 1))))
    capZero M3 p
  else M

/-- third loop of `tighten_nsc`, cell `(2*dim+t, 2*dim+u)`: avoct/avo_closure.c:113-154 -/
def tightAbs (dim : ℕ) (M : SMem K) (t u : ℕ) : SMem K :=
  tightAbsC R dim (tightAbsB dim (tightAbsA dim M t u) t u) t u

/-- `tighten_nsc`: avoct/avo_closure.c:66-155 -/
def tighten (dim : ℕ) (M : SMem K) : SMem K :=
  let M1 := (List.range dim).foldl (tightSign dim) M
  let M2 := (List.range (2 * dim)).foldl (fun M t =>
    (List.range (2 * dim)).foldl (fun M j => tightMixed dim M t j) M) M1
  (List.range (2 * dim)).foldl (fun M t =>
    (List.range ((t ||| 1) + 1)).foldl (fun M u => tightAbs R dim M t u) M) M2

/-! ### tightening a cell through one variable -/

/-- `tighten_nsc_IJviaK_fixedSignK`: avoct/avo_closure.c:160-185 -/
def viaFixed (dim : ℕ) (M : SMem K) (ii jj k : ℕ) : SMem K :=
  let p := matpos2 ii jj
  let M1 := M.bmin p (Bound.add R (div2 R (M (matpos2 (jj ^^^ 1) jj)).1)
      (div2 R (M (matpos2 ii (ii ^^^ 1))).1),
    bmin (M (matpos2 ii (ii ^^^ 1))).2 (M (matpos2 (jj ^^^ 1) jj)).2)
  if ii < 2 * dim ∧ jj < 2 * dim then M1
  else
    let M2 := M1.bmin p (SB.add R (M1 (matpos2 ii (2 * k))) (M1 (matpos2 (2 * k) jj)))
    M2.bmin p (SB.add R (M2 (matpos2 ii (2 * k + 1))) (M2 (matpos2 (2 * k + 1) jj)))

/-- `tighten_nsc_IJviaK_signK`: avoct/avo_closure.c:190-249; `s` is `positiveK` -/
def signK (dim : ℕ) (M : SMem K) (ii jj k : ℕ) (s : Bool) : SB K :=
  let k2 := if s then 2 * k else 2 * k + 1
  let k2' := if s then 2 * k + 1 else 2 * k
  let k4 := 2 * dim + k2
  let k4' := 2 * dim + k2'
  let sin1 := SB.min (M (matpos2 ii (ii ^^^ 1)))
    (SB.add R (M (matpos2 ii k2)) (M (matpos2 ii k4')))
  let sin2 := SB.min (M (matpos2 (jj ^^^ 1) jj))
    (SB.add R (M (matpos2 k2' jj)) (M (matpos2 k4 jj)))
  let sin := SB.half R (SB.add R sin1 sin2)
  let dou1 := SB.low (pinf, pinf)
    (SB.addNsc R (SB.min (M (matpos2 ii k2')) (M (matpos2 ii k4'))) (M (matpos2 k2' jj)))
  let dou2 := SB.low (pinf, pinf)
    (SB.addNsc R (SB.min (M (matpos2 k2 jj)) (M (matpos2 k4 jj))) (M (matpos2 ii k2)))
  SB.min (SB.min dou1 dou2) sin

/-- the body of the loop over `k`: avoct/avo_closure.c:654-668 and 930-944 -/
def viaK (dim : ℕ) (M : SMem K) (i j k : ℕ) : SMem K :=
  if (M (matpos2 (2 * k + 1) (2 * k))).1 ≤ fin 0 ∨ (M (matpos2 (2 * k) (2 * k + 1))).1 ≤ fin 0 then
    viaFixed R dim M i j k
  else
    M.bmin (matpos2 i j) (SB.max (signK R dim M i j k true) (signK R dim M i j k false))

/-! ### emptiness checks -/

/-- avoct/avo_closure.c:414-423, 498-507, 523-531: `true` when empty.  Only the bound of a
diagonal cell is reset, its strictness stays. -/
def diagCheck : List ℕ → SMem K → Bool × SMem K
  | [], M => (false, M)
  | i :: l, M =>
    if (M (matpos2 i i)).1 < fin 0 ∨ ((M (matpos2 i i)).1 = fin 0 ∧ (M (matpos2 i i)).2 < fin 0)
    then (true, M)
    else diagCheck l (M.set (matpos2 i i) (fin 0, (M (matpos2 i i)).2))

/-- avoct/avo_closure.c:691-695 (without the test of strictness) -/
def diagCheck' : List ℕ → SMem K → Bool × SMem K
  | [], M => (false, M)
  | i :: l, M =>
    if (M (matpos2 i i)).1 < fin 0 then (true, M)
    else diagCheck' l (M.set (matpos2 i i) (fin 0, (M (matpos2 i i)).2))

/-- `if (f(..)==true) return true;` -/
def andThen (r : Bool × SMem K) (f : SMem K → Bool × SMem K) : Bool × SMem K :=
  if r.1 then r else f r.2

/-! ### closure of an octagon with strictness -/

/-- one row of `oct_hmat_s_step`: avoct/avo_closure.c:398-409 (the strictness of the sum is the
one of the second term only) -/
def octSRow (M : SMem K) (i : ℕ) : SMem K :=
  let ij := div2 R (M (matpos2 i (i ^^^ 1))).1
  (List.range ((i ||| 1) + 1)).foldl (fun M j =>
    M.bmin (matpos i j) (Bound.add R (div2 R (M (matpos2 (j ^^^ 1) j)).1) ij,
      (M (matpos2 (j ^^^ 1) j)).2)) M

/-- `oct_hmat_s_step`: avoct/avo_closure.c:387-426 -/
def octSStep (n : ℕ) (M : SMem K) : Bool × SMem K :=
  diagCheck (List.range (2 * n)) ((List.range (2 * n)).foldl (octSRow R) M)

/-- cell `(i,j)` for pivot `k`: avoct/avo_closure.c:549-556 -/
def fwCell (k i : ℕ) (M : SMem K) (j : ℕ) : SMem K :=
  if j ≤ min k (i ||| 1) then
    let M1 := M.addTo R (matpos i j) (M (matpos2 i k)) (M (matpos k j))
    M1.addTo R (matpos i j) (M1 (matpos2 i (k ^^^ 1))) (M1 (matpos (k ^^^ 1) j))
  else
    let M1 := M.addTo R (matpos i j) (M (matpos2 i k)) (M (matpos (j ^^^ 1) (k ^^^ 1)))
    M1.addTo R (matpos i j) (M1 (matpos2 i (k ^^^ 1))) (M1 (matpos (j ^^^ 1) k))

/-- `avo_hmat_close_oct_part`: avoct/avo_closure.c:537-561 -/
def closeOctPart (n : ℕ) (M : SMem K) : Bool × SMem K :=
  octSStep R n ((List.range (2 * n)).foldl (fun M k =>
    (List.range (2 * n)).foldl (fun M i =>
      (List.range ((i ||| 1) + 1)).foldl (fwCell R k i) M) M) M)

/-! ### orthants -/

/-- `(flag[i])` of `orthant_encoding_nd`: avoct/avo_closure.c:45-57 (bit `i` of `r`) -/
def flag (r i : ℕ) : Bool := r / 2 ^ i % 2 = 1

/-- `(int)power(n)`, the number of executions of the loop `for(int r=0;r<(int)power(n);r++)`:
`2^n` when it is an `int`; the conversion of `2^31` gives a negative number, that of `2^n` with
`n >= 32` gives `0` (avoct/avo_closure.c:33-42, 582, 758). -/
def orthants (n : ℕ) : ℕ := if n ≤ 30 then 2 ^ n else 0

/-- `t_i[i]`: avoct/avo_closure.c:333-340 -/
def tIdx (dim : ℕ) (hash : ℕ → ℕ) (r i : ℕ) : ℕ :=
  2 * dim + 2 * hash (i / 2) + (if flag r (i / 2) then i % 2 else 1 - i % 2)

/-- `g_i[i]`: avoct/avo_closure.c:326-331 -/
def gIdx (hash : ℕ → ℕ) (i : ℕ) : ℕ := 2 * hash (i / 2) + i % 2

/-- `avo_to_oct_nsc_nvars`: avoct/avo_closure.c:319-374, for the orthant `r` -/
def avoToOct (dim : ℕ) (M : SMem K) (hash : ℕ → ℕ) (r n : ℕ) : SMem K :=
  let O1 := (List.range (2 * n)).foldl (fun O i =>
    (List.range ((i ||| 1) + 1)).foldl (fun (O : SMem K) j =>
      (((O.bmin (matpos2 i j) (M (matpos2 (gIdx hash i) (gIdx hash j)))).bmin (matpos2 i j)
        (M (matpos2 (tIdx dim hash r i) (gIdx hash j)))).bmin (matpos2 i j)
        (M (matpos2 (gIdx hash i) (tIdx dim hash r j)))).bmin (matpos2 i j)
        (M (matpos2 (tIdx dim hash r i) (tIdx dim hash r j)))) O) (fun _ => (pinf, pinf))
  (List.range n).foldl (fun O i =>
    if flag r i then capZero O (matpos2 (2 * i) (2 * i + 1))
    else capZero O (matpos2 (2 * i + 1) (2 * i))) O1

/-- the matrix built in both branches of `oct_to_avo_nsc_nvars`: avoct/avo_closure.c:266-278,
287-301.  The cell `(i,j)` with `i < 2*n` is a cell of the octagon (same position). -/
def liftOct (n : ℕ) (O : SMem K) : SMem K :=
  tighten R n fun p => if p < matsize n then O p else (pinf, pinf)

/-- `oct_to_avo_nsc_nvars`: avoct/avo_closure.c:260-311; `none` stands for `ti_time == 1` -/
def octToAvo (n : ℕ) (O : SMem K) (A : Option (SMem K)) : Option (SMem K) :=
  match A with
  | none => some (liftOct R n O)
  | some A => some fun p => if p < matsize (2 * n) then SB.max (A p) (liftOct R n O p) else A p

/-- the loop over the orthants: avoct/avo_closure.c:581-592, 758-768 -/
def orthLoop (dim : ℕ) (M : SMem K) (hash : ℕ → ℕ) (n : ℕ) : Option (SMem K) :=
  (List.range (orthants n)).foldl (fun A r =>
    match closeOctPart R n (avoToOct dim M hash r n) with
    | (true, _) => A
    | (false, O) => octToAvo R n O A) none

/-- `ha_i[i]`: avoct/avo_closure.c:594-603 -/
def haIdx (dim n : ℕ) (hash : ℕ → ℕ) (i : ℕ) : ℕ :=
  if i < 2 * n then 2 * hash (i / 2) + i % 2
  else 2 * hash ((i - 2 * n) / 2) + 2 * dim + i % 2

/-- `tighten_nsc_via_nvars`: avoct/avo_closure.c:568-618.  The function always returns `false`,
even when every orthant is infeasible. -/
def viaNvars (dim : ℕ) (M : SMem K) (hash : ℕ → ℕ) (n : ℕ) : SMem K :=
  match orthLoop R dim M hash n with
  | none => M
  | some A => (List.range (4 * n)).foldl (fun M i =>
      (List.range ((i ||| 1) + 1)).foldl (fun (M : SMem K) j =>
        M.bmin (matpos2 (haIdx dim n hash i) (haIdx dim n hash j)) (A (matpos2 i j))) M) M

/-! ### `avo_hmat_s_step` -/

/-- first loop: avoct/avo_closure.c:447-458 -/
def sRow1 (M : SMem K) (i : ℕ) : SMem K :=
  let ii := SB.half R (M (matpos2 i (i ^^^ 1)))
  (List.range ((i ||| 1) + 1)).foldl (fun M j =>
    if j = i ^^^ 1 then M
    else M.bmin (matpos2 i j) (SB.add R ii (SB.half R (M (matpos2 (j ^^^ 1) j))))) M

/-- body of the second loop: avoct/avo_closure.c:464-496 -/
def sCell2 (i : ℕ) (M : SMem K) (j : ℕ) : SMem K :=
  if j = i ∨ j = i ^^^ 1 then M
  else
    let p := matpos2 i (i ^^^ 1)
    let ij := M (matpos2 i j)
    let M1 := M.bmin p (SB.dbl R (SB.add R ij (SB.half R (M (matpos2 j (j ^^^ 1))))))
    let M2 := M1.bmin p (SB.add R ij (M1 (matpos2 i (j ^^^ 1))))
    M2.bmin p (SB.add R (M2 (matpos2 j (i ^^^ 1))) (M2 (matpos2 (j ^^^ 1) (i ^^^ 1))))

/-- the triple loop: avoct/avo_closure.c:513-519, also 683-689 -/
def fullFW (dim : ℕ) (M : SMem K) : SMem K :=
  (List.range (4 * dim)).foldl (fun M i =>
    (List.range ((i ||| 1) + 1)).foldl (fun M j =>
      (List.range (4 * dim)).foldl (fun (M : SMem K) k =>
        M.bmin (matpos2 i j) (SB.add R (M (matpos2 i k)) (M (matpos2 k j)))) M) M) M

/-- `avo_hmat_s_step`: avoct/avo_closure.c:435-533 -/
def sStep (dim : ℕ) (M : SMem K) : Bool × SMem K :=
  let M1 := (List.range (4 * dim)).foldl (sRow1 R) M
  let M2 := (List.range (4 * dim)).foldl (fun M i =>
    (List.range (4 * dim)).foldl (sCell2 R i) M) M1
  andThen (diagCheck (List.range (4 * dim)) M2) fun M3 =>
    diagCheck (List.range (4 * dim)) (fullFW R dim (tighten R dim M3))

/-! ### the closures -/

/-- the cells skipped by the loops over `i`, `j`: avoct/avo_closure.c:644-653 -/
def redundant (dim i j : ℕ) : Bool :=
  (2 * dim ≤ i && i % 2 = 1) || (2 * dim ≤ j && j % 2 = 0)

/-- `avo_hmat_close_weak_1sign`: avoct/avo_closure.c:620-700 -/
def closeWeak1 (dim : ℕ) (M : SMem K) : Bool × SMem K :=
  if dim ≤ 2 then sStep R dim (viaNvars R dim M id dim)
  else
    andThen (closeOctPart R dim (tighten R dim M)) fun M =>
      let M1 := (List.range (4 * dim)).foldl (fun M i =>
        (List.range ((i ||| 1) + 1)).foldl (fun M j =>
          if redundant dim i j then M
          else (List.range dim).foldl (fun M k => viaK R dim M i j k) M) M) M
      let M2 := (List.range (4 * dim)).foldl (fun M i =>
        (List.range ((i ||| 1) + 1)).foldl (fun (M : SMem K) j =>
          M.bmin (matpos2 i j)
            (SB.half R (SB.add R (M (matpos2 i (i ^^^ 1))) (M (matpos2 (j ^^^ 1) j))))) M) M1
      andThen (diagCheck' (List.range (4 * dim)) (fullFW R dim (tighten R dim M2))) (sStep R dim)

/-- `hash[0] = i; hash[1] = j; hash[2] = k` -/
def hash3 (i j k : ℕ) : ℕ → ℕ := fun t => if t = 0 then i else if t = 1 then j else k

/-- `avo_hmat_close_weak_3signs`: avoct/avo_closure.c:707-729 -/
def closeWeak3 (dim : ℕ) (M : SMem K) : Bool × SMem K :=
  sStep R dim
    (if dim ≤ 2 then viaNvars R dim M id dim
    else (List.range dim).foldl (fun M k => (List.range dim).foldl (fun M i =>
      (List.range dim).foldl (fun M j =>
        if i = j ∨ i = k ∨ j = k then M else viaNvars R dim M (hash3 i j k) 3) M) M) M)

/-- `avo_hmat_close_strong_all_signs`: avoct/avo_closure.c:732-786 -/
def closeStrong (dim : ℕ) (M : SMem K) : Bool × SMem K :=
  if dim ≤ 2 then sStep R dim (viaNvars R dim M id dim)
  else
    match orthLoop R dim M id dim with
    | none => (true, M)
    | some A => sStep R dim ((List.range (4 * dim)).foldl (fun M i =>
        (List.range ((i ||| 1) + 1)).foldl (fun (M : SMem K) j =>
          M.bmin (matpos2 i j) (A (matpos2 i j))) M) M)

/-- `avo_hmat_close`: avoct/avo_closure.c:793-801; `alg` is the global `avo_closure_alg` -/
def close (alg : ℤ) (dim : ℕ) (M : SMem K) : Bool × SMem K :=
  if alg = 2 then closeStrong R dim M
  else if alg = 1 then closeWeak3 R dim M
  else closeWeak1 R dim M

/-- `avo_hmat_close_incremental_weak_3signs`: avoct/avo_closure.c:812-833 -/
def closeInc3 (dim : ℕ) (M : SMem K) (v : ℕ) : Bool × SMem K :=
  sStep R dim
    (if dim ≤ 2 then viaNvars R dim M id dim
    else (List.range dim).foldl (fun M i => (List.range' i (dim - i)).foldl (fun M j =>
        if i = j ∨ i = v ∨ j = v then M else viaNvars R dim M (hash3 i j v) 3) M) M)

/-- `v` in second end-point position: avoct/avo_closure.c:866-881 -/
def incColCell (k i : ℕ) (M : SMem K) (j : ℕ) : SMem K :=
  if j < k then
    let M1 := M.addTo R (matpos j i) (M (matpos2 k i)) (M (matpos (k ^^^ 1) (j ^^^ 1)))
    M1.addTo R (matpos j i) (M1 (matpos2 (k ^^^ 1) i)) (M1 (matpos k (j ^^^ 1)))
  else
    let M1 := M.addTo R (matpos j i) (M (matpos2 k i)) (M (matpos j k))
    M1.addTo R (matpos j i) (M1 (matpos2 (k ^^^ 1) i)) (M1 (matpos j (k ^^^ 1)))

/-- the condition under which the row (column) `i` is skipped: avoct/avo_closure.c:918-929 -/
def fixedAbs (dim : ℕ) (M : SMem K) (i : ℕ) : Bool :=
  2 * dim < i && (decide ((M (matpos2 (i - 2 * dim) ((i - 2 * dim) ^^^ 1))).1 ≤ fin 0) ||
    decide ((M (matpos2 ((i - 2 * dim) ^^^ 1) (i - 2 * dim))).1 ≤ fin 0))

/-- `avo_hmat_close_incremental_weak_1sign`: avoct/avo_closure.c:835-950 -/
def closeInc1 (dim : ℕ) (M : SMem K) (v : ℕ) : Bool × SMem K :=
  let M1 := (List.range (2 * dim)).foldl (fun M k =>
    [2 * v, 2 * v + 1].foldl (fun M i =>
      (List.range' i (4 * dim - i)).foldl (incColCell R k i)
        ((List.range ((i ||| 1) + 1)).foldl (fwCell R k i) M)) M) (tighten R dim M)
  let M2 := [2 * v, 2 * v + 1].foldl (fun M k =>
    (List.range (4 * dim)).foldl (fun M i =>
      (List.range ((i ||| 1) + 1)).foldl (fwCell R k i) M) M) M1
  let M3 := (List.range (4 * dim)).foldl (fun M i =>
    if (2 * dim ≤ i ∧ i % 2 = 1) ∨ fixedAbs dim M i = true then M
    else (List.range ((i ||| 1) + 1)).foldl (fun M j =>
      if (2 * dim ≤ j ∧ j % 2 = 0) ∨ fixedAbs dim M j = true then M
      else viaK R dim M i j v) M) M2
  sStep R dim M3

/-- `avo_hmat_close_incremental`: avoct/avo_closure.c:957-963 -/
def closeIncremental (alg : ℤ) (dim : ℕ) (M : SMem K) (v : ℕ) : Bool × SMem K :=
  if 1 ≤ alg then closeInc3 R dim M v else closeInc1 R dim M v

end Avo
end Apron
