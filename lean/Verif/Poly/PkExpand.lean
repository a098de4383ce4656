import Verif.Poly.PkResize

/-!
# Polyhedra (newpolka): expansion and folding of dimensions

Source: `newpolka/pk_expandfold.c`.

Simplifications: those of `PkDefs` and `PkResize`; `n` is the number of dimensions of the argument.
-/

set_option autoImplicit false
set_option linter.unusedSectionVars false

namespace Apron.Poly

/-! ## Expansion -/

/-- a copy of the row `q` in which the coefficient of `dim` is moved to the new dimension `j` (`pk_expandfold.c:76-80`); `N`
is the number of dimensions of the result -/
def dupRow (N dim j : ℕ) (q : Row) : Row :=
  Row.ofFun (N + 2) fun k => if k = dim + 2 then 0 else if k = j + 2 then q.at' (dim + 2) else q.at' k

/-- `pk_matrix_expand` (`pk_expandfold.c:34-88`) -/
def expandRows (destr : Bool) (n : ℕ) (C : List Row) (dim offset dimsup : ℕ) : List Row :=
  if dimsup = 0 then C
  else
    let E := C.map (addRow destr n (List.replicate dimsup offset))
    E ++ (E.filter fun q => q.at' (dim + 2) ≠ 0).flatMap fun q =>
      (List.range dimsup).map fun j => dupRow (n + dimsup) dim (offset + j) q

/-- the matrix of constraints, minimised unless the option `algorithm` is negative (`pk_expandfold.c:119-123`) -/
def Rep.lazyC (n : ℕ) (alg : ℤ) (r : Rep) : Rep := if alg < 0 then r.obtainC n else r.chernikova n

/-- the matrix of generators, minimised unless the option `algorithm` is negative (`pk_expandfold.c:262-265`) -/
def Rep.lazyF (n : ℕ) (alg : ℤ) (r : Rep) : Rep := if alg < 0 then r.obtainF n else r.chernikova n

/-- `pk_expand` (`pk_expandfold.c:94-178`); `intdim` is the number of integer dimensions of the argument -/
def Rep.expand (destr : Bool) (n intdim : ℕ) (alg : ℤ) (pa : Rep) (dim dimsup : ℕ) : Rep :=
  let nintdim := if dim < intdim then intdim + dimsup else intdim
  if dimsup = 0 then pa
  else
    match (pa.lazyC n alg).C? with
    | none => .bot
    | some C =>
      let offset := if dim + dimsup < nintdim then nintdim - dimsup else n + dimsup - dimsup
      let r := Rep.cons (expandRows destr n C dim offset dimsup)
      if 0 < alg then r.chernikova (n + dimsup) else r

/-! ## Folding -/

/-- the row `q` without the dimensions `ts`, in which the coefficient of `d` is the one of `t` in `q`
(`pk_expandfold.c:226-230`) -/
def foldRow (n d : ℕ) (ts : List ℕ) (t : ℕ) (q : Row) : Row :=
  normalize (Row.ofFun (n - ts.length + 2) fun j =>
    if j = d + 2 then q.at' (t + 2)
    else if j < 2 then q.at' j
    else Box.remLoop false (fun i => q.at' (i + 2)) ts (n - ts.length) 0 0 (fun _ => 0) (j - 2)) (n - ts.length + 2)

/-- `pk_matrix_fold` (`pk_expandfold.c:190-240`); `d` is `tdim[0]`, `ts` the rest of the array -/
def foldRows (n : ℕ) (F : List Row) (d : ℕ) (ts : List ℕ) : List Row :=
  if ts = [] then F
  else F.flatMap fun q =>
    remRow false n ts q :: (ts.filter fun t => q.at' (d + 2) ≠ q.at' (t + 2)).map fun t => foldRow n d ts t q

/-- `pk_fold` (`pk_expandfold.c:245-323`) -/
def Rep.fold (n : ℕ) (alg : ℤ) (pa : Rep) (d : ℕ) (ts : List ℕ) : Rep :=
  match (pa.lazyF n alg).F? with
  | none => .bot
  | some F =>
    let r := Rep.gens (foldRows n F d ts)
    if 0 < alg then r.chernikova (n - ts.length) else r

end Apron.Poly
