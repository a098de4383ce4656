import Verif.Props.CoreEnv

/-!
# Level-0 abstract values over any abstract domain

`apron/ap_abstract0.c`: the generic functions check their arguments and then call a function of the
underlying domain through the table of the manager (`man->funptr`).  A domain is here a record `Man` of
such functions; `Man.Spec` is what the documentation of the domains promises, and is proved for boxes and
octagons in `Verif.Props.Level1`.

The check that the value belongs to the manager (`ap_abstract0_checkman1`, `..2`) is assumed to succeed.
Each function also yields whether an exception `AP_EXC_INVALID_ARGUMENT` was raised.
-/

set_option autoImplicit false
set_option linter.unusedSectionVars false
set_option linter.ambiguousOpen false

namespace Apron

variable {K A : Type*}

/-- the functions of an abstract domain that are used below: apron/ap_manager.h:198 (`funptr`);
`Gam a x` tells whether the point `x` belongs to `a` -/
structure Man (K A : Type*) where
  intdim : A → ℕ
  realdim : A → ℕ
  Gam : A → (ℕ → K) → Prop
  top : ℕ → ℕ → A
  /-- insertion array, number of integer insertions, `project` -/
  add : A → List ℕ → ℕ → Bool → A
  remove : A → List ℕ → ℕ → A
  permute : A → List ℕ → A
  meet : A → A → A
  join : A → A → A
  expand : A → ℕ → ℕ → A
  /-- `tdim[0]`, then the rest of the array -/
  fold : A → ℕ → List ℕ → A
  forget : A → List ℕ → Bool → A
  unconstrained : A → ℕ → Bool

namespace Man

variable (M : Man K A)

/-- number of dimensions -/
def dim (a : A) : ℕ := M.intdim a + M.realdim a

/-- the dimensions of `a` are `(i, r)` -/
def Dims (a : A) (i r : ℕ) : Prop := M.intdim a = i ∧ M.realdim a = r

/-- the first dimension after those of the type of `d` -/
def off (a : A) (d : ℕ) : ℕ := if d < M.intdim a then M.intdim a else M.dim a

variable [Zero K]

/-- What the domain promises on legal arguments; `Ok` is its representation invariant, and the operations
that may over-approximate are the best ones when `ex` holds. -/
structure Spec (Ok : A → Prop) (ex : Prop) : Prop where
  congr : ∀ a, Ok a → ∀ x y, (∀ v, v < M.dim a → x v = y v) → M.Gam a x → M.Gam a y
  top : ∀ i r, Ok (M.top i r) ∧ M.Dims (M.top i r) i r ∧ ∀ x, M.Gam (M.top i r) x
  add : ∀ a pos n project, Ok a → pos ≠ [] → n ≤ pos.length →
    Dim.LegalAdd (M.intdim a) (M.realdim a) pos n →
    Ok (M.add a pos n project) ∧
    M.Dims (M.add a pos n project) (M.intdim a + n) (M.realdim a + (pos.length - n)) ∧
    ∀ x, M.Gam (M.add a pos n project) x ↔
      M.Gam a (fun v => x (v + pos.countP (fun p => decide (p ≤ v)))) ∧
      (project = true → ∀ k, k < pos.length → x (pos.getD k 0 + k) = 0)
  remove : ∀ a pos n, Ok a → pos ≠ [] → n ≤ pos.length →
    Dim.LegalRemove (M.intdim a) (M.realdim a) pos n →
    Ok (M.remove a pos n) ∧
    M.Dims (M.remove a pos n) (M.intdim a - n) (M.realdim a - (pos.length - n)) ∧
    (∀ x x', M.Gam a x →
      (∀ v, v < M.dim a → v ∉ pos → x' (v - pos.countP (fun p => decide (p < v))) = x v) →
      M.Gam (M.remove a pos n) x') ∧
    (ex → ∀ x', M.Gam (M.remove a pos n) x' → ∃ x, M.Gam a x ∧
      ∀ v, v < M.dim a → v ∉ pos → x' (v - pos.countP (fun p => decide (p < v))) = x v)
  permute : ∀ a perm, Ok a → Dim.IsPerm (M.dim a) perm →
    Ok (M.permute a perm) ∧ M.Dims (M.permute a perm) (M.intdim a) (M.realdim a) ∧
    ∀ x, M.Gam (M.permute a perm) x ↔ M.Gam a (fun v => x (perm.getD v 0))
  meet : ∀ a b, Ok a → Ok b → M.Dims b (M.intdim a) (M.realdim a) →
    Ok (M.meet a b) ∧ M.Dims (M.meet a b) (M.intdim a) (M.realdim a) ∧
    ∀ x, M.Gam (M.meet a b) x ↔ M.Gam a x ∧ M.Gam b x
  join : ∀ a b, Ok a → Ok b → M.Dims b (M.intdim a) (M.realdim a) →
    Ok (M.join a b) ∧ M.Dims (M.join a b) (M.intdim a) (M.realdim a) ∧
    (∀ x, M.Gam a x ∨ M.Gam b x → M.Gam (M.join a b) x) ∧
    (ex → ∀ c, Ok c → M.Dims c (M.intdim a) (M.realdim a) → (∀ x, M.Gam a x ∨ M.Gam b x → M.Gam c x) →
      ∀ x, M.Gam (M.join a b) x → M.Gam c x)
  expand : ∀ a d n, Ok a → d < M.dim a → 0 < n →
    Ok (M.expand a d n) ∧
    M.Dims (M.expand a d n) (if d < M.intdim a then M.intdim a + n else M.intdim a)
      (if d < M.intdim a then M.realdim a else M.realdim a + n) ∧
    ∀ x, M.Gam (M.expand a d n) x ↔
      ∀ y, (y = x d ∨ ∃ k, k < n ∧ y = x (M.off a d + k)) →
        M.Gam a (fun v => if v = d then y else if v < M.off a d then x v else x (v + n))
  fold : ∀ a d ts, Ok a → ts ≠ [] → (d :: ts).Pairwise (· < ·) → (∀ t ∈ d :: ts, t < M.dim a) →
    (∀ t ∈ ts, (t < M.intdim a ↔ d < M.intdim a)) →
    Ok (M.fold a d ts) ∧
    M.Dims (M.fold a d ts) (if d < M.intdim a then M.intdim a - ts.length else M.intdim a)
      (if d < M.intdim a then M.realdim a else M.realdim a - ts.length) ∧
    (∀ x x' t, M.Gam a x → t ∈ d :: ts → x' d = x t →
      (∀ v, v < M.dim a → v ∉ ts → v ≠ d → x' (v - ts.countP (fun p => decide (p < v))) = x v) →
      M.Gam (M.fold a d ts) x') ∧
    (ex → ∀ c, Ok c → M.Dims c (if d < M.intdim a then M.intdim a - ts.length else M.intdim a)
        (if d < M.intdim a then M.realdim a else M.realdim a - ts.length) →
      (∀ x x' t, M.Gam a x → t ∈ d :: ts → x' d = x t →
        (∀ v, v < M.dim a → v ∉ ts → v ≠ d → x' (v - ts.countP (fun p => decide (p < v))) = x v) →
        M.Gam c x') →
      ∀ x', M.Gam (M.fold a d ts) x' → M.Gam c x')
  forget : ∀ a tdim project, Ok a → (∀ d ∈ tdim, d < M.dim a) →
    Ok (M.forget a tdim project) ∧ M.Dims (M.forget a tdim project) (M.intdim a) (M.realdim a) ∧
    (∀ x x', M.Gam a x → (∀ v, v < M.dim a → v ∉ tdim → x' v = x v) →
      (project = true → ∀ v ∈ tdim, x' v = 0) → M.Gam (M.forget a tdim project) x') ∧
    (ex → ∀ x', M.Gam (M.forget a tdim project) x' →
      (∃ x, M.Gam a x ∧ ∀ v, v < M.dim a → v ∉ tdim → x' v = x v) ∧
      (project = true → ∀ v ∈ tdim, x' v = 0))
  unconstrained : ∀ a d, Ok a → d < M.dim a → M.unconstrained a d = true →
    ∀ x y, M.Gam a x → M.Gam a (Function.update x d y)

end Man

/-! ## ap_abstract0.c -/

namespace Abs0

variable (M : Man K A)

/-- `ap_abstract0_add_dimensions`: apron/ap_abstract0.c:1215-1244 -/
def addDimensions (a : A) (d : Dimchange) (project : Bool) : A × Bool :=
  if d.intdim + d.realdim = 0 then (a, false)
  else if Dim.checkAdd (M.intdim a) (M.realdim a) d.dim d.intdim then
    (M.add a d.dim d.intdim project, false)
  else (M.top (M.intdim a + d.intdim) (M.realdim a + d.realdim), true)

/-- `ap_abstract0_remove_dimensions`: apron/ap_abstract0.c:1245-1273 (subtraction is truncated) -/
def removeDimensions (a : A) (d : Dimchange) : A × Bool :=
  if d.intdim + d.realdim = 0 then (a, false)
  else if Dim.checkRemove (M.intdim a) (M.realdim a) d.dim d.intdim then
    (M.remove a d.dim d.intdim, false)
  else (M.top (M.intdim a - d.intdim) (M.realdim a - d.realdim), true)

/-- `ap_abstract0_permute_dimensions`: apron/ap_abstract0.c:1274-1292 -/
def permuteDimensions (a : A) (perm : List ℕ) : A × Bool :=
  if Dim.checkPerm (M.intdim a) (M.realdim a) perm then (M.permute a perm, false)
  else (M.top (M.intdim a) (M.realdim a), true)

/-- `ap_abstract0_check_dim_array`: apron/ap_abstract0.c:198-213 -/
def checkDimArray (a : A) (tdim : List ℕ) : Bool := tdim.all fun d => decide (d < M.dim a)

/-- `ap_abstract0_expand`: apron/ap_abstract0.c:1297-1326 -/
def expand (a : A) (d n : ℕ) : A × Bool :=
  if n = 0 then (a, false)
  else if d < M.dim a then (M.expand a d n, false)
  else (M.top (M.intdim a + if d < M.intdim a then n else 0)
    (M.realdim a + if d < M.intdim a then 0 else n), true)

/-- the sortedness test of `ap_abstract0_fold`: apron/ap_abstract0.c:1344-1353 -/
def strictSorted : List ℕ → Bool
  | a :: b :: l => if a ≥ b then false else strictSorted (b :: l)
  | _ => true

/-- subtraction on `size_t` (64 bits) -/
def subSize (a b : ℕ) : ℕ := if b ≤ a then a - b else a + 2 ^ 64 - b

/-- `ap_abstract0_fold`: apron/ap_abstract0.c:1327-1385, for a non-empty array -/
def fold (a : A) (d0 : ℕ) (ts : List ℕ) : A × Bool :=
  if checkDimArray M a (d0 :: ts) && strictSorted (d0 :: ts) &&
      !(decide (d0 < M.intdim a) && decide ((d0 :: ts).getD ts.length 0 ≥ M.intdim a)) then
    if ts.length = 0 then (a, false) else (M.fold a d0 ts, false)
  else (M.top (subSize (M.intdim a) (if d0 < M.intdim a then ts.length else 0))
    (subSize (M.realdim a) (if d0 < M.intdim a then 0 else ts.length)), true)

/-- `ap_abstract0_forget_array`: apron/ap_abstract0.c:1180-1209 -/
def forgetArray (a : A) (tdim : List ℕ) (project : Bool) : A × Bool :=
  if tdim.length = 0 then (a, false)
  else if checkDimArray M a tdim then (M.forget a tdim project, false)
  else (M.top (M.intdim a) (M.realdim a), true)

/-- `ap_abstract0_is_dimension_unconstrained`: apron/ap_abstract0.c:820-833; an exception (not kept here)
and `false` on a wrong dimension -/
def isDimensionUnconstrained (a : A) (d : ℕ) : Bool :=
  if d < M.dim a then M.unconstrained a d else false

/-- `ap_abstract0_check_abstract2`: apron/ap_abstract0.c:98-121 -/
def checkAbstract2 (a b : A) : Bool :=
  decide (M.intdim a = M.intdim b) && decide (M.realdim a = M.realdim b)

/-- `ap_abstract0_meet` and `ap_abstract0_join` (`ap_abstract0_meetjoin`):
apron/ap_abstract0.c:940-962 -/
def meetjoin (f : A → A → A) (a b : A) : A × Bool :=
  if checkAbstract2 M a b then (f a b, false) else (M.top (M.intdim a) (M.realdim a), true)

/-- `ap_abstract0_apply_dimchange2`: apron/ap_abstract0.c:1497-1516; the exception flags are merged -/
def applyDimchange2 (a : A) (add rem : Option Dimchange) (project : Bool) : A × Bool :=
  match add, rem with
  | some d, some d' =>
    let r := addDimensions M a d project
    let r' := removeDimensions M r.1 d'
    (r'.1, r.2 || r'.2)
  | some d, none => addDimensions M a d project
  | none, some d' => removeDimensions M a d'
  | none, none => (a, false)

end Abs0
end Apron
