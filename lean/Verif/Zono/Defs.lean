import Verif.Texpr.Defs
import Verif.Texpr.Linearize

/-!
# Affine forms: model of `taylor1plus`, arithmetic part

`t1p_aff_t` (taylor1plus/t1p_internal.h:62-76): a centre, a list of terms (noise symbol, interval
coefficient) and an interval that bounds the value.  This file models the arithmetic of
taylor1plus/t1p_fun.c, the evaluation of expression trees, and `t1p_aff_reduce`.

Simplifications.
* Linked lists are `List`s; the fields `end`, `l`, `lastu`, `pby` are derived or unused.
* The loops over two term lists that build the result in place are one function, `merge`, followed
  by the removal of the zero coefficients.
* The tests `a == pr->top` and `a == pr->bot` on pointers are dropped: they agree with the tests on
  the contents as long as nobody modifies these two objects.
* The SDP solver (`call_sdp`, algorithm `INT_MAX`) is not modelled; it is not compiled by default.
* `fesetround(FE_TONEAREST)` around the halving in `itv_middev` is not modelled: halving is exact.
-/

set_option autoImplicit false
set_option linter.unusedSectionVars false
set_option linter.ambiguousOpen false

namespace Apron
open Bound

namespace Itv
variable {K : Type*} [LinearOrder K] [Field K] [IsStrictOrderedRing K] (R : Rnd K)

/-- `itv_has_infty_bound`: taylor1plus/t1p_itv_utils.h:30-33 -/
def hasInfty (a : Itv K) : Bool := infty a.sup || infty a.inf

/-- `itv_mul_2exp(., ., -1)`: itv/itv.h:559-560 -/
def half (a : Itv K) : Itv K := ⟨Bound.div2 R a.inf, Bound.div2 R a.sup⟩

/-- `itv_mul_2exp(., ., 1)`: itv/itv.h:559-560 -/
def dbl (a : Itv K) : Itv K := ⟨Bound.mul2 R a.inf, Bound.mul2 R a.sup⟩

/-- `itv_cmp`: taylor1plus/t1p_itv_utils.h:111-119 -/
def cmpLe (a b : Itv K) : Bool := decide (a.sup ≤ Bound.neg b.inf)

/-- `itv_middev`: taylor1plus/t1p_itv_utils.h:46-108, the pair `(mid, dev)` -/
def middev (a : Itv K) : Itv K × Itv K :=
  if a.isPoint then (a, point 0)
  else if a.hasInfty || a.isBottom then (top, top)
  else
    let m := Bound.div2 R (Bound.sub R a.sup a.inf)
    let d := bmax (Bound.add R m a.inf) (Bound.sub R a.sup m)
    (⟨Bound.neg m, m⟩, ⟨Bound.neg d, d⟩)

/-- `pr->muu`: taylor1plus/t1p_internal.h:5284 -/
def muu : Itv K := ⟨fin 1, fin 1⟩

end Itv

namespace T1p

/-- `t1p_nsym_t`: taylor1plus/t1p_internal.h:41-50; `un` for a perturbation symbol (`UN`), otherwise
an input symbol (`IN`) -/
structure NSym where
  index : ℕ
  un : Bool
  deriving DecidableEq, Repr

/-- `t1p_aaterm_t`: taylor1plus/t1p_internal.h:56-60 -/
structure Term (K : Type*) where
  sym : NSym
  coef : Itv K
  deriving DecidableEq, Repr

/-- `t1p_aff_t`: taylor1plus/t1p_internal.h:65-73 -/
structure Aff (K : Type*) where
  c : Itv K
  q : List (Term K)
  itv : Itv K
  deriving DecidableEq, Repr

/-- the fields `hypercube`, `nsymcons`, `gamma` of `t1p_t`: taylor1plus/t1p_internal.h:162-174 -/
structure NEnv (K : Type*) where
  hyper : Bool
  cons : List (ℕ × Itv K)

section
variable {K : Type*} [LinearOrder K] [Field K] [IsStrictOrderedRing K]

/-- Specification: `y` is a value of the terms for the noise values `ε` -/
def TermsVal (ε : ℕ → K) : List (Term K) → K → Prop
  | [], y => y = 0
  | t :: l, y => ∃ a z, a ∈ t.coef ∧ TermsVal ε l z ∧ y = a * ε t.sym.index + z

/-- Specification: `x` is a value of the affine form for the noise values `ε` -/
def Aff.Val (A : Aff K) (ε : ℕ → K) (x : K) : Prop :=
  ∃ c y, c ∈ A.c ∧ TermsVal ε A.q y ∧ x = c + y

/-- Specification: `x` is a value of the affine form, and lies in its interval -/
def Aff.Has (A : Aff K) (ε : ℕ → K) (x : K) : Prop := A.Val ε x ∧ x ∈ A.itv

/-- Specification: the noise symbols may take the values `ε` -/
def Noise (ε : ℕ → K) : Prop := ∀ k, ε k ∈ (Itv.muu : Itv K)

variable (R : Rnd K) (o : RootOps K)

namespace NEnv
/-- `t1p_nsymcons_get_dimpos` (taylor1plus/t1p_internal.h:5383-5388; the dichotomy `findKR`, 5364-5381,
in a sorted array, is a look-up) -/
def find (e : NEnv K) (k : ℕ) : Option (Itv K) := (e.cons.find? fun p => p.1 == k).map (·.2)

/-- `t1p_nsymcons_get_gamma`: taylor1plus/t1p_internal.h:5397-5409 -/
def gamma (e : NEnv K) (k : ℕ) : Itv K :=
  if e.hyper then Itv.muu else (e.find k).getD Itv.muu

/-- no constraint on noise symbols -/
def free : NEnv K := ⟨true, []⟩

/-- Specification: the noise values `ε` satisfy the constraints -/
def Sat (e : NEnv K) (ε : ℕ → K) : Prop := Noise ε ∧ ∀ k, ε k ∈ e.gamma k
end NEnv

namespace Aff

/-- `t1p_aff_alloc_init` (taylor1plus/t1p_internal.h:222-233): the form 0 -/
def zero : Aff K := ⟨Itv.point 0, [], Itv.point 0⟩
/-- `t1p_aff_top`: taylor1plus/t1p_internal.h:477-483 -/
def top : Aff K := ⟨Itv.top, [], Itv.top⟩
/-- `t1p_aff_bottom`: taylor1plus/t1p_internal.h:484-490 -/
def bottom : Aff K := ⟨Itv.bottom, [], Itv.bottom⟩

/-- `t1p_aff_is_top`: taylor1plus/t1p_internal.h:5232-5239 -/
def isTop (a : Aff K) : Bool := a.c.isTop && a.itv.isTop && a.q.isEmpty
/-- `t1p_aff_is_bottom`: taylor1plus/t1p_internal.h:5240-5247 -/
def isBottom (a : Aff K) : Bool := a.c.isBottom && a.itv.isBottom && a.q.isEmpty
/-- `t1p_aff_is_known_to_be_zero`: taylor1plus/t1p_internal.h:502-506 -/
def knownZero (a : Aff K) : Bool := a.itv.isZero
/-- `t1p_aff_is_zero`: taylor1plus/t1p_internal.h:491-500 -/
def isZero (a : Aff K) : Bool := a.c.isZero && a.q.isEmpty && a.itv.isZero

/-- the loop over two term lists of `t1p_aff_add`, `t1p_aff_sub`, `t1p_aff_mul_non_constrained`, …
(e.g. taylor1plus/t1p_fun.c:50-74), with the number of iterations as fuel -/
def mergeF (fp fq : Itv K → Itv K) (fpq : Itv K → Itv K → Itv K) :
    ℕ → List (Term K) → List (Term K) → List (Term K)
  | 0, _, _ => []
  | _ + 1, [], qs => qs.map fun t => ⟨t.sym, fq t.coef⟩
  | _ + 1, p :: ps, [] => (p :: ps).map fun t => ⟨t.sym, fp t.coef⟩
  | n + 1, p :: ps, q :: qs =>
    if p.sym.index = q.sym.index then ⟨p.sym, fpq p.coef q.coef⟩ :: mergeF fp fq fpq n ps qs
    else if p.sym.index < q.sym.index then ⟨p.sym, fp p.coef⟩ :: mergeF fp fq fpq n ps (q :: qs)
    else ⟨q.sym, fq q.coef⟩ :: mergeF fp fq fpq n (p :: ps) qs

/-- the same, with enough fuel -/
def merge (fp fq : Itv K → Itv K) (fpq : Itv K → Itv K → Itv K) (ps qs : List (Term K)) :
    List (Term K) := mergeF fp fq fpq (ps.length + qs.length + 1) ps qs

/-- zero coefficients are not kept (e.g. taylor1plus/t1p_fun.c:75-80) -/
def keep (l : List (Term K)) : List (Term K) := l.filter fun t => !t.coef.isZero

/-- the accumulation of the bounds of the kept terms (e.g. taylor1plus/t1p_fun.c:86-88) -/
def boxOf (e : NEnv K) (c : Itv K) (l : List (Term K)) : Itv K :=
  l.foldl (fun b t => Itv.add R b (Itv.mul R (e.gamma t.sym.index) t.coef)) c

/-- `t1p_aff_add`: taylor1plus/t1p_fun.c:40-102 -/
def add (e : NEnv K) (a b : Aff K) : Aff K :=
  let c := Itv.add R a.c b.c
  let q := keep (merge id id (Itv.add R) a.q b.q)
  ⟨c, q, Itv.meet (Itv.add R a.itv b.itv) (boxOf R e c q)⟩

/-- the difference of `t1p_aff_sub`: 0 for equal intervals (taylor1plus/t1p_fun.c:110, 117) -/
def sub0 (x y : Itv K) : Itv K := if Itv.isEq x y then Itv.point 0 else Itv.sub R x y

/-- `t1p_aff_sub`: taylor1plus/t1p_fun.c:104-169 -/
def sub (e : NEnv K) (a b : Aff K) : Aff K :=
  let c := sub0 R a.c b.c
  let q := keep (merge id Itv.neg (sub0 R) a.q b.q)
  ⟨c, q, Itv.meet (Itv.sub R a.itv b.itv) (boxOf R e c q)⟩

/-- `t1p_aff_neg`: taylor1plus/t1p_fun.c:970-991 -/
def neg (a : Aff K) : Aff K :=
  ⟨Itv.neg a.c, a.q.map fun t => ⟨t.sym, Itv.neg t.coef⟩, Itv.neg a.itv⟩

/-- `t1p_aff_mul_itv`: taylor1plus/t1p_fun.c:171-205 -/
def mulItv (a : Aff K) (lam : Itv K) : Aff K :=
  if lam.isZero || a.knownZero then zero
  else if a.isBottom || lam.isBottom then bottom
  else if a.isTop || lam.isTop then top
  else ⟨Itv.mul R lam a.c, a.q.map fun t => ⟨t.sym, Itv.mul R lam t.coef⟩, Itv.mul R a.itv lam⟩

/-- the coefficient of a symbol: `t1p_aff_get_coeff`, taylor1plus/t1p_internal.h:678-696 -/
def coefOf (q : List (Term K)) (k : ℕ) : Option (Itv K) :=
  (q.find? fun t => t.sym.index == k).map (·.coef)

/-- an entry of `itv_matrix` in `square_dep`: taylor1plus/t1p_fun.c:1154-1163; the arrays start at 0 -/
def entry (p q : List (Term K)) (s t : ℕ) : Itv K :=
  match coefOf p s, coefOf q t with
  | some a, some b => Itv.mul R a b
  | _, _ => Itv.point 0

/-- the off-diagonal step of `square_dep`: taylor1plus/t1p_fun.c:1169-1176 -/
def offDiag (p q : List (Term K)) (s : ℕ) (res : Itv K) (t : ℕ) : Itv K :=
  if Itv.isEq (Itv.neg (entry R p q s t)) (entry R p q t s) then res
  else Itv.add R res (Itv.mul R (Itv.add R (entry R p q s t) (entry R p q t s)) Itv.muu)

/-- the double loop of `square_dep` with `gamma == NULL`: taylor1plus/t1p_fun.c:1164-1178; `pre` is
the list of the symbols with a smaller number -/
def squareGo (p q : List (Term K)) : List ℕ → List ℕ → Itv K → Itv K
  | _, [], res => res
  | pre, s :: l, res =>
    squareGo p q (pre ++ [s]) l
      (Itv.add R (pre.foldl (offDiag R p q s) res)
        (Itv.mul R (entry R p q s s) ⟨fin 0, fin 1⟩))

/-- the symbols of both forms in the order of their first occurrence in the loop: the array `hash` of
`t1p_aff_mul_non_constrained` (taylor1plus/t1p_fun.c:654-706) -/
def symsOf (p q : List (Term K)) : List ℕ :=
  (merge id id (fun a _ => a) p q).map fun t => t.sym.index

/-- the bound of the non-linear part in `t1p_aff_mul_non_constrained` (taylor1plus/t1p_fun.c:743-775);
`same` for `exprA == exprB` -/
def nlin (same : Bool) (p q : List (Term K)) : Itv K :=
  if p.isEmpty || q.isEmpty then Itv.point 0
  else
    let r := squareGo R p q [] (symsOf p q) (Itv.point 0)
    if same && decide (0 < sgn r.inf) then ⟨fin 0, r.sup⟩ else r

/-- `t1p_aff_mul_non_constrained`: taylor1plus/t1p_fun.c:647-784 -/
def mulFree (e : NEnv K) (same : Bool) (a b : Aff K) : Aff K :=
  let c := Itv.mul R a.c b.c
  let q := keep (merge (fun x => Itv.mul R x b.c) (fun y => Itv.mul R y a.c)
    (fun x y => Itv.add R (Itv.mul R y a.c) (Itv.mul R x b.c)) a.q b.q)
  let n := nlin R same a.q b.q
  if a.q.isEmpty || b.q.isEmpty then ⟨c, q, boxOf R e c q⟩
  else ⟨Itv.add R c n, q, Itv.add R (boxOf R e c q) n⟩

/-- `t1p_aff_bound`: taylor1plus/t1p_internal.h:1208-1254, when the domain of the noise symbols is the
box domain (the default of `t1p_manager_alloc`, taylor1plus/t1p_internal.c:39): the bound of the linear
expression is its interval evaluation -/
def bound (e : NEnv K) (a : Aff K) : Itv K :=
  if a.c.isTop then Itv.top
  else if e.hyper then
    a.q.foldl (fun b t => Itv.add R b (Itv.mul R t.coef Itv.muu)) a.c
  else
    let r := a.q.foldl (fun b t => match e.find t.sym.index with
      | some _ => b
      | none => Itv.add R b (Itv.mul R t.coef Itv.muu)) a.c
    let l := a.q.foldl (fun b t => match e.find t.sym.index with
      | some g => Itv.add R b (Itv.mul R t.coef g)
      | none => b) (Itv.point 0)
    Itv.add R r l

/-- `t1p_aff_boxize`: taylor1plus/t1p_internal.h:1158-1176 -/
def boxize (e : NEnv K) (a : Aff K) : Itv K := boxOf R e a.c a.q

/-- `gammabis` in `t1p_aff_mul_constrained` (taylor1plus/t1p_fun.c:508-517): the range of a symbol
around its middle -/
def gammaBis (e : NEnv K) (k : ℕ) : Itv K :=
  if e.hyper then Itv.muu else
  match e.find k with
  | some g => Itv.sub R g (Itv.middev R g).1
  | none => Itv.muu

/-- off-diagonal step of `square_dep` with `gamma != NULL`: taylor1plus/t1p_fun.c:1214-1221 -/
def offDiagG (g : ℕ → Itv K) (p q : List (Term K)) (s : ℕ) (res : Itv K) (t : ℕ) : Itv K :=
  if Itv.isEq (Itv.neg (entry R p q s t)) (entry R p q t s) then res
  else Itv.add R res (Itv.mul R (Itv.add R (entry R p q s t) (entry R p q t s))
    (Itv.mul R (g s) (g t)))

/-- diagonal step of `square_dep` with `gamma != NULL`: taylor1plus/t1p_fun.c:1209-1213; both factors
are 0 unless the symbol is in both forms -/
def diagG (g : ℕ → Itv K) (p q : List (Term K)) (s : ℕ) (res : Itv K) : Itv K :=
  let m := Itv.mul R (g s) (g s)
  Itv.add R res (Itv.mul R (entry R p q s s) (if 0 < sgn m.inf then ⟨fin 0, m.sup⟩ else m))

/-- the double loop of `square_dep` with `gamma != NULL`: taylor1plus/t1p_fun.c:1207-1224 -/
def squareGoG (g : ℕ → Itv K) (p q : List (Term K)) : List ℕ → List ℕ → Itv K → Itv K
  | _, [], res => res
  | pre, s :: l, res =>
    squareGoG g p q (pre ++ [s]) l (diagG R g p q s (pre.foldl (offDiagG R g p q s) res))

/-- `t1p_aff_mul_constrained`: taylor1plus/t1p_fun.c:434-645; only called when some noise symbol is
constrained -/
def mulCons (e : NEnv K) (same : Bool) (a b : Aff K) : Aff K :=
  let m1 := (Itv.middev R (bound R e a)).1
  let m2 := (Itv.middev R (bound R e b)).1
  let c := Itv.sub R (Itv.add R (Itv.mul R m1 b.c) (Itv.mul R m2 a.c)) (Itv.mul R m1 m2)
  let q := keep (merge (fun x => Itv.mul R x m2) (fun y => Itv.mul R y m1)
    (fun x y => Itv.add R (Itv.mul R x m2) (Itv.mul R y m1)) a.q b.q)
  if a.q.isEmpty || b.q.isEmpty then ⟨c, q, boxOf R e c q⟩
  else
    let r := squareGoG R (gammaBis R e) a.q b.q [] (symsOf a.q b.q) (Itv.point 0)
    let n := if same && decide (0 < sgn r.inf) then ⟨fin 0, r.sup⟩ else r
    ⟨Itv.add R c n, q, Itv.add R (boxOf R e c q) n⟩

/-- `t1p_aff_mul`: taylor1plus/t1p_fun.c:229-248 -/
def mul (e : NEnv K) (same : Bool) (a b : Aff K) : Aff K :=
  if a.knownZero || b.knownZero then zero
  else if a.isBottom || b.isBottom then bottom
  else if a.isTop || b.isTop then top
  else
    let r := if e.hyper then mulFree R e same a b else mulCons R e same a b
    ⟨r.c, r.q, Itv.meet r.itv (Itv.mul R a.itv b.itv)⟩

/-- the coefficients of the linear approximation of the inverse in `t1p_aff_div`
(taylor1plus/t1p_fun.c:828-866): `alpha`, `zeta` and `beta` for the interval `box` -/
def invAlpha (box : Itv K) : Itv K :=
  let mid := (Itv.middev R box).1
  Itv.neg (Itv.div R (Itv.point 1) (Itv.mul R mid mid))
/-- `beta`: taylor1plus/t1p_fun.c:836-848 -/
def invBeta (box : Itv K) : Itv K :=
  let a : Itv K := ⟨box.inf, Bound.neg box.inf⟩
  let b : Itv K := ⟨Bound.neg box.sup, box.sup⟩
  let t := Itv.add R (Itv.add R (Itv.half R (Itv.div R (Itv.mul R a a) b)) (Itv.half R b)) a
  Itv.add R (Itv.neg (Itv.div R (Itv.point 1) t)) (Itv.half R (Itv.div R (Itv.point 1) a))
/-- `zeta`: taylor1plus/t1p_fun.c:849-861 -/
def invZeta (box : Itv K) : Itv K :=
  let a : Itv K := ⟨box.inf, Bound.neg box.inf⟩
  let b : Itv K := ⟨Bound.neg box.sup, box.sup⟩
  let mid := (Itv.middev R box).1
  let t := Itv.add R (Itv.add R (Itv.half R (Itv.div R (Itv.mul R b b) a)) (Itv.half R a)) b
  Itv.add R (Itv.add R (Itv.div R (Itv.point 1) t) (Itv.half R (Itv.div R (Itv.point 1) a)))
    (Itv.div R (Itv.point 1) mid)

/-- the affine form of the inverse in `t1p_aff_div`: taylor1plus/t1p_fun.c:822-869 -/
def inv (b : Aff K) : Aff K :=
  let neg := Itv.isNeg b.itv
  let box := if neg then Itv.neg b.itv else b.itv
  let beta := invBeta R box
  let zeta := invZeta R box
  let i := mulItv R b (invAlpha R box)
  let c := if neg then Itv.sub R i.c zeta else Itv.add R i.c zeta
  ⟨Itv.add R c ⟨beta.sup, beta.sup⟩, i.q, Itv.div R (Itv.point 1) b.itv⟩

/-- `t1p_aff_div`: taylor1plus/t1p_fun.c:786-880 -/
def div (e : NEnv K) (a b : Aff K) : Aff K :=
  if Itv.isLeq (Itv.point 0) b.itv then top
  else if b.itv.hasInfty then mulItv R a (Itv.div R (Itv.point 1) b.itv)
  else if b.q.isEmpty then mulItv R a (Itv.div R (Itv.point 1) b.c)
  else
    let r := mul R e false a (inv R b)
    ⟨r.c, r.q, Itv.meet r.itv (Itv.div R a.itv b.itv)⟩

/-- `alpha` in `t1p_aff_sqrt`: taylor1plus/t1p_fun.c:929-932 -/
def sqrtAlpha (box : Itv K) : Itv K :=
  Itv.half R (Itv.div R (Itv.point 1) (Itv.sqrt o (Itv.middev R box).1))
/-- `beta` in `t1p_aff_sqrt`: taylor1plus/t1p_fun.c:934-947 -/
def sqrtBeta (box : Itv K) : Itv K :=
  let a : Itv K := ⟨box.inf, Bound.neg box.inf⟩
  let b : Itv K := ⟨Bound.neg box.sup, box.sup⟩
  let b0 := Itv.half R (Itv.sqrt o (Itv.middev R box).1)
  let b1 := if a.isZero then b0 else
    Itv.add R (Itv.sub R b0 (Itv.sqrt o a))
      (Itv.div R (Itv.point 1) (Itv.sqrt o (Itv.dbl R
        (Itv.add R (Itv.div R b (Itv.mul R a a)) (Itv.div R (Itv.point 1) a)))))
  Itv.half R b1
/-- `zeta` in `t1p_aff_sqrt`: taylor1plus/t1p_fun.c:949-951 -/
def sqrtZeta (box : Itv K) : Itv K :=
  Itv.sub R (Itv.half R (Itv.sqrt o (Itv.middev R box).1)) (sqrtBeta R o box)

/-- the last part of `t1p_aff_sqrt`: taylor1plus/t1p_fun.c:910-966 -/
def sqrtOn (a : Aff K) (box : Itv K) : Aff K :=
  let r := mulItv R a (sqrtAlpha R o box)
  let beta := sqrtBeta R o box
  ⟨Itv.add R (Itv.add R r.c (sqrtZeta R o box)) ⟨beta.sup, beta.sup⟩, r.q, Itv.sqrt o box⟩

/-- `t1p_aff_sqrt`: taylor1plus/t1p_fun.c:885-968 -/
def sqrt (a : Aff K) : Aff K :=
  if a.isBottom then bottom
  else if Itv.isNeg a.itv then
    if Itv.isLeq (Itv.point 0) a.itv then zero else bottom
  else if Itv.isPos a.itv then
    if a.isZero then zero else sqrtOn R o a a.itv
  else sqrtOn R o a ⟨fin 0, a.itv.sup⟩

end Aff

/-- `t1p_aff_eval_ap_texpr0`: taylor1plus/t1p_fun.c:1003-1133.  The types and rounding directions of the
nodes are not read.  `none`: the call aborts (`not_implemented`, `fatal`).  `paf` gives the affine form
of each dimension and `ptr` its address. -/
def evalTexpr (e : NEnv K) (paf : ℕ → Aff K) (ptr : ℕ → ℕ) : Texpr K → Option (Aff K)
  | .cst c => some ⟨Itv.setApCoeff R c, [], Itv.setApCoeff R c⟩
  | .dim d => some (paf d)
  | .un .neg _ _ a => (evalTexpr e paf ptr a).map Aff.neg
  | .un .sqrt _ _ a => (evalTexpr e paf ptr a).map (Aff.sqrt R o)
  | .un .cast _ _ _ => none
  | .bin op _ _ a b =>
    match evalTexpr e paf ptr a, evalTexpr e paf ptr b with
    | some A, some B =>
      match op with
      | .add => some (Aff.add R e A B)
      | .sub => some (Aff.sub R e A B)
      | .mul =>
        let same := match a, b with
          | .dim i, .dim j => decide (ptr i = ptr j)
          | _, _ => false
        some (Aff.mul R e same A B)
      | .div => some (Aff.div R e A B)
      | .mod | .pow => none
    | _, _ => none

end
end T1p
end Apron
