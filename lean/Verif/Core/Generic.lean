import Verif.Core.Level1Expr

/-!
# Generic functions of `apron/ap_generic.c`

The domains without parallel assignment or substitution of their own use the ones of `ap_generic.c`, which
work in a space with a second (primed) copy of the assigned dimensions: boxes for substitution
(box/box_assign.c:54-148), octagons for trees (octagons/oct_transfer.c:1180-1203), polyhedra.

The flags `exact` and `best` and the memory management are not modelled.
-/

set_option autoImplicit false
set_option linter.unusedSectionVars false
set_option linter.ambiguousOpen false

namespace Apron
namespace Generic

variable {K A E C : Type*}

/-! ## ap_generic_meetjoin_array -/

/-- `ap_generic_meetjoin_array`: apron/ap_generic.c:116-142; `none` for the read of `tab[0]` in an empty
array.  `f` is the function of the domain, `copy` is the identity. -/
def meetjoinArray (f : A → A → A) : List A → Option A
  | [] => none
  | [a] => some a
  | a :: b :: l => some (l.foldl f (f a b))

/-! ## ap_generic_asssub_linexpr_array, ap_generic_asssub_texpr_array -/

/-- the number of integer dimensions assigned, `dsup.intdim`: apron/ap_generic.c:277-284 -/
def numInt (i : ℕ) (ts : List ℕ) : ℕ := ts.countP fun t => decide (t < i)

/-- `dimchange.dim`: apron/ap_generic.c:286-290 -/
def positions (i r : ℕ) (ts : List ℕ) : List ℕ :=
  List.replicate (numInt i ts) i ++ List.replicate (ts.length - numInt i ts) (i + r)

/-- the loop building the permutation: apron/ap_generic.c:295-313 -/
def permLoop (i r ni : ℕ) : List ℕ → ℕ → ℕ → List ℕ → List ℕ
  | [], _, _, p => p
  | t :: ts, ii, ir, p =>
    if t < i then permLoop i r ni ts (ii + 1) ir ((p.set t (i + ii)).set (i + ii) t)
    else permLoop i r ni ts ii (ir + 1)
      ((p.set (t + ni) (i + ni + r + ir)).set (i + ni + r + ir) (t + ni))

/-- `permutation`: apron/ap_generic.c:292-314 -/
def perm (i r : ℕ) (ts : List ℕ) : List ℕ :=
  permLoop i r (numInt i ts) ts 0 0 (List.range (i + r + ts.length))

/-- the primed copy of the dimension `t`: apron/ap_generic.c:328-330 -/
def primed (i r : ℕ) (ts : List ℕ) (t : ℕ) : ℕ :=
  (perm i r ts).getD (if t ≥ i then t + numInt i ts else t) 0

/-- `ap_generic_asssub_linexpr_array`: apron/ap_generic.c:247-380, and `ap_generic_asssub_texpr_array`:
apron/ap_generic.c:382-530.  `mk pos d e` is the constraint that the dimension `d` is equal to the
expression `e` after insertion at `pos`, and `meetCons` is the meet with an array of constraints. -/
def asssub (M : Man K A) (isBottom : A → Bool) (mk : List ℕ → ℕ → E → C) (meetCons : A → List C → A)
    (assign : Bool) (a : A) (l : List (ℕ × E)) (dest : Option A) : A :=
  if isBottom a then a
  else
    let i := M.intdim a
    let r := M.realdim a
    let ts := l.map Prod.fst
    let ni := numInt i ts
    let pos := positions i r ts
    let q := perm i r ts
    let a2 := M.add a pos ni false
    let cs := l.map fun p => mk pos (primed i r ts p.1) p.2
    let a3 := if assign then a2 else M.permute a2 q
    let a4 := match dest with
      | none => a3
      | some b =>
        let b2 := M.add b pos ni false
        M.meet a3 (if assign then M.permute b2 q else b2)
    let a5 := meetCons a4 cs
    let a6 := if assign then M.permute a5 q else a5
    M.remove a6 (Dim.addInvert pos) ni

/-- the constraint `e - d = 0` of `ap_generic_asssub_linexpr_array`: apron/ap_generic.c:331-334; the failure
of `ap_linexpr0_set_coeff_scalar_double` is ignored -/
def mkLincons [Field K] [LinearOrder K] (pos : List ℕ) (d : ℕ) (e : Linexpr K) : Lincons K :=
  let e1 := e.addDimensions pos
  ⟨.eq, (e1.setCoeff d (.scalar (.fin (-1)))).getD e1⟩

/-- the constraint `e - d = 0` of `ap_generic_asssub_texpr_array`: apron/ap_generic.c:467-472 -/
def mkTcons (pos : List ℕ) (d : ℕ) (e : Texpr K) : Tcons K :=
  ⟨.eq, .bin .sub .real .rnd (e.addDimensions pos) (.dim d)⟩

/-! ## Widening with thresholds -/

/-- the partition loop of `ap_abstract0_widening_threshold`: apron/ap_abstract0.c:1538-1550; the constraints
that are not satisfied are exchanged with the last ones not examined.  `k` is `size - j`; the first argument
bounds the number of iterations.  The array and the final `i`. -/
def partitionLoop [Inhabited C] (sat : C → Bool) : ℕ → List C → ℕ → ℕ → List C × ℕ
  | 0, l, i, _ => (l, i)
  | fuel + 1, l, i, k =>
    if i < k then
      if sat (l.getD i default) then partitionLoop sat fuel l (i + 1) k
      else partitionLoop sat fuel ((l.set i (l.getD (k - 1) default)).set (k - 1) (l.getD i default)) i (k - 1)
    else (l, i)

/-- `ap_abstract0_widening_threshold`: apron/ap_abstract0.c:1520-1567; the result, the array of the caller
afterwards and whether an exception was raised.  `wid`, `sat` and `meetCons` are the functions of the
domain, `check` is that of a constraint (apron/ap_abstract0.c:347-371). -/
def wideningThreshold [Inhabited C] (M : Man K A) (check : ℕ → ℕ → C → Bool) (wid : A → A → A)
    (sat : A → C → Bool) (meetCons : A → List C → A) (a b : A) (l : List C) : A × List C × Bool :=
  if Abs0.checkAbstract2 M a b && l.all (check (M.intdim a) (M.realdim a)) then
    let value := wid a b
    let p := partitionLoop (sat b) l.length l 0 l.length
    (if 0 < p.2 then meetCons value (p.1.take p.2) else value, p.1, false)
  else (M.top (M.intdim a) (M.realdim a), l, true)

end Generic
end Apron
