import Verif.Avo.Defs

/-!
# Absolute-value octagons: constraints

Model of `avo_hmat_add_lincons` and `avo_meet_lincons_array` (`avoct/avo_transfer.c`).

* `avo_uexpr_of_linexpr` (avoct/avo_transfer.c:25-77) is `oct_uexpr_of_linexpr` without
  `ap_coeff_reduce`, without the flag `is_int` and without the case `AP_DIM_MAX`; reducing a
  coefficient does not change its bounds, so the model uses `Oct.uexprOf` with no integer dimension,
  on expressions without reserved dimensions;
* the general case (`OTHER`) is that of `hmat_add_lincons`, on the bounds only (`Oct.addOther`);
* the flags `exact`, `flag_incomplete`, ... are not modelled.
-/

set_option autoImplicit false
set_option linter.unusedSectionVars false
set_option linter.ambiguousOpen false

namespace Apron
namespace Avo
open Bound Oct
variable {K : Type*} [LinearOrder K] [Field K] [IsStrictOrderedRing K] (R : Rnd K) (alg : ℤ)

/-- `bound_abs`: num/bound_def.h -/
def absB : Bound K → Bound K
  | fin q => fin |q|
  | _ => pinf

/-- loop state of `avo_hmat_add_lincons`: avoct/avo_transfer.c:113-116 -/
structure AddSt (K : Type*) where
  b : SMem K
  varPending : ℕ
  pending : Bool
  respect : Bool

/-- the pending incremental closure: avoct/avo_transfer.c:160-162, 213-216; `none`: empty -/
def flushIf (dim : ℕ) (cond : Bool) (s : AddSt K) : Option (SMem K) :=
  if s.respect && s.pending && cond then
    match closeIncremental R alg dim s.b s.varPending with
    | (true, _) => none
    | (false, M) => some M
  else some s.b

/-- the upper bound of a unary or binary constraint: avoct/avo_transfer.c:186-198, 225-237 -/
def addCell (typ : ConsTyp K) (v : Bound K) (c : SB K) : SB K :=
  if v < c.1 then
    (v, match typ with
      | .supeq => pinf
      | .eq => pinf
      | .sup => fin 0
      | _ => c.2)
  else if v = c.1 ∧ isSupTyp typ ∧ fin 0 < c.2 then (c.1, fin 0)
  else c

/-- the lower bound of an equality: avoct/avo_transfer.c:202-208, 241-247 -/
def eqCell (v : Bound K) (c : SB K) : SB K := if v < c.1 then (v, pinf) else c

/-- `c_i X_i + [-a,b] != 0`: avoct/avo_transfer.c:175-184 -/
def diseqCell (t0 t1 : Bound K) (c : SB K) : SB K :=
  let v := bmin (absB t0) (absB t1)
  if v ≤ c.1 then (v, fin 0) else c

/-- change of one cell -/
def upd (M : SMem K) (p : ℕ) (f : SB K → SB K) : SMem K := M.set p (f (M p))

/-- the condition of the case `ZERO`: avoct/avo_transfer.c:142-150 -/
def zeroOk (typ : ConsTyp K) (dst : ℕ → Bound K) : Bool :=
  match typ with
  | .supeq => decide (0 ≤ sgn (dst 1))
  | .sup => decide (0 < sgn (dst 1))
  | .eq => decide (0 ≤ sgn (dst 0)) && decide (0 ≤ sgn (dst 1))
  | .diseq => decide (0 < sgn (dst 0)) || decide (sgn (dst 1) < 0)
  | .eqmod _ => false

def isDiseqTyp : ConsTyp K → Bool
  | .diseq => true
  | _ => false

/-- one constraint once classified: avoct/avo_transfer.c:136-428; `none`: empty.
Note `*respect_closure = 1` in the case `BINARY` (line 217). -/
def addCore (dim : ℕ) (s : AddSt K) (u : UExpr) (dst : ℕ → Bound K) (typ : ConsTyp K) :
    Option (AddSt K) :=
  match u.type with
  | .empty => some s
  | .zero => if zeroOk typ dst then some s else none
  | .unary =>
    match flushIf R alg dim (decide (s.varPending ≠ u.i)) s with
    | none => none
    | some b =>
      let ui := signed u.i u.coefI
      let t0 := mul2 R (dst 0)
      let t1 := mul2 R (dst 1)
      let b :=
        if isDiseqTyp typ then
          upd b (matpos (2 * dim + ui) ((2 * dim + ui) ^^^ 1)) (diseqCell t0 t1)
        else
          let b := upd b (matpos ui (ui ^^^ 1)) (addCell typ t1)
          if isEqTyp typ then upd b (matpos (ui ^^^ 1) ui) (eqCell t0) else b
      some ⟨b, u.i, true, s.respect⟩
  | .binary =>
    match flushIf R alg dim (decide (s.varPending ≠ u.i) && decide (s.varPending ≠ u.j)) s with
    | none => none
    | some b =>
      let ui := signed u.i u.coefI
      let uj := signed u.j u.coefJ
      let b := upd b (matpos2 uj (ui ^^^ 1)) (addCell typ (dst 1))
      let b := if isEqTyp typ then upd b (matpos2 (uj ^^^ 1) ui) (eqCell (dst 0)) else b
      some ⟨b, if s.varPending = u.j then u.j else u.i, true, true⟩
  | .other =>
    some ⟨fun q => (addOther R dst dim (isEqTyp typ) (fun q => (s.b q).1) q, (s.b q).2),
      s.varPending, s.pending, false⟩

/-- one constraint of `avo_hmat_add_lincons`: avoct/avo_transfer.c:119-429 -/
def addOne [FloorRing K] (dim : ℕ) (s : AddSt K) (c : Lincons K) : Option (AddSt K) :=
  match c.typ with
  | .eqmod _ => some s
  | typ => addCore R alg dim s (uexprOf R c.expr 0).1 (uexprOf R c.expr 0).2 typ

/-- the constraint loop -/
def addLoop [FloorRing K] (dim : ℕ) : List (Lincons K) → AddSt K → Option (AddSt K)
  | [], s => some s
  | c :: l, s =>
    match addOne R alg dim s c with
    | none => none
    | some s => addLoop dim l s

/-- `avo_hmat_add_lincons`: avoct/avo_transfer.c:109-436; the matrix and `*respect_closure` -/
def addLincons [FloorRing K] (dim : ℕ) (b : SMem K) (ar : List (Lincons K)) (respect : Bool) :
    Option (SMem K × Bool) :=
  match addLoop R alg dim ar ⟨b, 0, false, respect⟩ with
  | none => none
  | some s =>
    match flushIf R alg dim true s with
    | none => none
    | some b => some (b, s.respect)

end Avo

namespace AvoT
open Bound Oct Avo
variable {K : Type*} [LinearOrder K] [Field K] [IsStrictOrderedRing K] (R : Rnd K) (alg : ℤ)

/-- `avo_meet_lincons_array`: avoct/avo_transfer.c:500-534; the marks of a value
without marks are copied as `NULL` and dereferenced by the first unary or binary constraint (the model
says `none` for all arrays) -/
def meetLinconsArray [FloorRing K] (algo : ℤ) (a : AvoT K) (ar : List (Lincons K)) :
    Option (AvoT K) :=
  match a.best with
  | none => some (bottom a.dim a.intdim)
  | some m => a.nsc.map fun n =>
    match addLincons R alg a.dim (zip m n) ar (a.closed.isSome && decide (0 ≤ algo)) with
    | none => bottom a.dim a.intdim
    | some (M, true) => ofClosed a.dim a.intdim M
    | some (M, false) => ofM a.dim a.intdim M

end AvoT
end Apron
