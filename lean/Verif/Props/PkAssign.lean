import Verif.Poly.PkAssignUser
import Verif.Props.PkUser

/-!
# C104–C105: assignment and substitution of linear expressions in convex polyhedra

`Assigns l x x'`: the point `x'` is obtained from `x` by giving to each dimension `d` with `(d, e) ∈ l` the value of the
expression `e` at `x`, in parallel, and keeping the other coordinates.  `AsgOk n l`: the target dimensions are distinct and exist,
the expressions are linear expressions with numeric coefficients over existing dimensions.  `none` stands for the use of an
invalid pointer.
-/

set_option autoImplicit false
set_option linter.unusedSectionVars false
set_option linter.ambiguousOpen false

namespace Apron.Props

open Apron Apron.Poly Bound

variable {n : ℕ}

/-! ## C104: exactness -/

/-- `pk_assign_linexpr_array` returns exactly the images of the points of the argument, restricted to the destination -/
theorem C104_assign_exact {destr : Bool} {o : Opts} {pa : Rep} (ha : pa.Wf ℚ n) {l : List (ℕ × Linexpr ℚ)} (hl : l ≠ []) (h : AsgOk n l)
    {dest : Option Rep} (hb : ∀ b, dest = some b → b.Wf ℚ n) :
    ∃ r, Rep.asssubLinear true destr n o pa l dest = some r ∧ r.Wf ℚ n ∧
      ∀ x : Fin n → ℚ, r.γ x ↔ (∃ x0 : Fin n → ℚ, pa.γ x0 ∧ Assigns l x0 x) ∧ ∀ b, dest = some b → b.γ x := by
  obtain ⟨r, h1, h2, h3⟩ := asssubLinear_spec (assign := true) (destr := destr) (o := o) ha hl h hb (by simp)
  exact ⟨r, h1, h2, by simpa using h3⟩

/-- `pk_substitute_linexpr_array` returns exactly the points whose image is in the argument, restricted to the destination.
PARTIAL: in strict mode (positive algorithm) with a destination the result must not be empty, or the destination be bottom; see
`C104_substitute_null_dereference`. -/
theorem C104_substitute_exact_partial {destr : Bool} {o : Opts} {pa : Rep} (ha : pa.Wf ℚ n) {l : List (ℕ × Linexpr ℚ)} (hl : l ≠ [])
    (h : AsgOk n l) {dest : Option Rep} (hb : ∀ b, dest = some b → b.Wf ℚ n)
    (hs : o.lzy = false → ∀ b, dest = some b → (∃ x x0 : Fin n → ℚ, pa.γ x0 ∧ Assigns l x x0) ∨ b = .bot) :
    ∃ r, Rep.asssubLinear false destr n o pa l dest = some r ∧ r.Wf ℚ n ∧
      ∀ x : Fin n → ℚ, r.γ x ↔ (∃ x0 : Fin n → ℚ, pa.γ x0 ∧ Assigns l x x0) ∧ ∀ b, dest = some b → b.γ x := by
  obtain ⟨r, h1, h2, h3⟩ := asssubLinear_spec (assign := false) (destr := destr) (o := o) ha hl h hb fun _ => hs
  exact ⟨r, h1, h2, by simpa using h3⟩

/-- the assignment `x0 := 0` of one dimension -/
def asgZero : List (ℕ × Linexpr ℚ) := [(0, ⟨.scalar (fin 0), .sparse []⟩)]

theorem asgZero_ok : AsgOk 1 asgZero where
  nodup := by simp [asgZero]
  dims := by simp [asgZero]
  expr := by
    intro p hp
    simp only [asgZero, List.mem_singleton] at hp
    subst hp
    exact ⟨⟨by simp [Linexpr.terms, dimMax], by simp [Linexpr.terms, dimMax]⟩, ⟨0, rfl⟩, by simp [Linexpr.terms, dimMax]⟩

/-- DEFECT (`pk_assign.c:638-655` with `pk_meetjoin.c:296-312`): in strict mode, the substitution of `0` for `x0` in `x0 ≥ 1` gives
an empty system of constraints, and the intersection with the destination (here the whole space) dereferences the NULL
generator matrix -/
theorem C104_substitute_null_dereference :
    ∃ (pa dest : Rep) (l : List (ℕ × Linexpr ℚ)), pa.Wf ℚ 1 ∧ dest.Wf ℚ 1 ∧ l ≠ [] ∧ AsgOk 1 l ∧
      Rep.asssubLinear false false 1 ⟨false, false, 0⟩ pa l (some dest) = none :=
  ⟨.cons [[1, 1, 0], [1, -1, 1]], .top 1, asgZero, cons_wf (by decide), top_wf, by simp [asgZero], asgZero_ok, by decide +kernel⟩

/-- the parallel assignment `x0, x1 := x1 / 2 + 1, x0` -/
def asgSwap : List (ℕ × Linexpr ℚ) := [(1, ⟨.scalar (fin 0), .sparse [(0, .scalar (fin 1))]⟩), (0, ⟨.scalar (fin 1), .sparse [(1, .scalar (fin (1 / 2)))]⟩)]

example : AsgOk 2 asgSwap where
  nodup := by decide
  dims := by decide
  expr := by
    intro p hp
    simp only [asgSwap, List.mem_cons, List.not_mem_nil, or_false] at hp
    rcases hp with rfl | rfl
    · exact ⟨⟨by simp [Linexpr.terms, dimMax], by simp [Linexpr.terms, dimMax]⟩, ⟨0, rfl⟩, by simp [Linexpr.terms, dimMax]⟩
    · exact ⟨⟨by simp [Linexpr.terms, dimMax], by simp [Linexpr.terms, dimMax]⟩, ⟨1, rfl⟩, by simp [Linexpr.terms, dimMax]⟩

/-- the point `(3, 5)` becomes `(7/2, 3)`, and the inverse image of `x0 ≥ 2` is `x1 ≥ 2` -/
example : Rep.asssubLinear true false 2 ⟨true, false, 0⟩ (.gens [[1, 1, 3, 5]]) asgSwap none = some (.gens [[1, 2, 7, 6]]) := by decide +kernel
example : Rep.asssubLinear false false 2 ⟨true, false, 0⟩ (.cons [[1, 1, 0, 0], [1, -2, 1, 0]]) asgSwap none =
    some (.cons [[1, 1, 0, 0], [1, -2, 0, 1]]) := by decide +kernel
/-- an invertible assignment `x0 := -2 x0 + 1` keeps both matrices -/
example : ∃ f, Rep.asssubLinear true true 1 ⟨false, false, 0⟩ seg [(0, ⟨.scalar (fin 1), .sparse [(0, .scalar (fin (-2)))]⟩)] none =
    some (.both f) ∧ f.frows = [[1, 1, -3], [1, 1, 5]] := ⟨_, rfl, by decide +kernel⟩

/-! ## C105: the substitution is the weakest precondition of the assignment -/

/-- the assignment of `p` is included in `q` if and only if `p` is included in the substitution in `q` -/
theorem C105_weakest_precondition {destr destr' : Bool} {o o' : Opts} {p q r s : Rep} (hp : p.Wf ℚ n) (hq : q.Wf ℚ n)
    {l : List (ℕ × Linexpr ℚ)} (hl : l ≠ []) (h : AsgOk n l)
    (hr : Rep.asssubLinear true destr n o p l none = some r) (hs : Rep.asssubLinear false destr' n o' q l none = some s) :
    (∀ x : Fin n → ℚ, r.γ x → q.γ x) ↔ ∀ x : Fin n → ℚ, p.γ x → s.γ x := by
  obtain ⟨r', e1, -, h1⟩ := C104_assign_exact (destr := destr) (o := o) hp hl h (dest := none) (by simp)
  obtain ⟨s', e2, -, h2⟩ := C104_substitute_exact_partial (destr := destr') (o := o') hq hl h (dest := none) (by simp) (by simp)
  rw [hr] at e1; cases e1
  rw [hs] at e2; cases e2
  have tot : ∀ x : Fin n → ℚ, ∃ x', Assigns l x x' := by
    intro x
    obtain ⟨x', e⟩ := exists_hom (y := affL ℚ n (asgTab n l) (hom x)) (by rw [affL_zero]; rfl)
    exact ⟨x', (assigns_iff h x x').2 e.symm⟩
  have fn : ∀ x x' x'' : Fin n → ℚ, Assigns l x x' → Assigns l x x'' → x' = x'' := by
    intro x x' x'' h' h''
    rw [assigns_iff h] at h' h''
    have : hom x' = hom x'' := h'.trans h''.symm
    funext i
    exact congrFun this i.succ
  constructor
  · intro hi x hx
    obtain ⟨x', hx'⟩ := tot x
    exact (h2 x).2 ⟨⟨x', hi x' ((h1 x').2 ⟨⟨x, hx, hx'⟩, by simp⟩), hx'⟩, by simp⟩
  · intro hi x hx
    obtain ⟨⟨x0, hx0, ha⟩, -⟩ := (h1 x).1 hx
    obtain ⟨⟨x1, hx1, ha1⟩, -⟩ := (h2 x0).1 (hi x0 hx0)
    rw [fn _ _ _ ha ha1]; exact hx1

/-- assigning distinct dimensions does not depend on the order of the array -/
theorem C105_assign_order {destr destr' : Bool} {o o' : Opts} {p r s : Rep} (hp : p.Wf ℚ n) {l l' : List (ℕ × Linexpr ℚ)} (hl : l ≠ [])
    (h : AsgOk n l) (hperm : l.Perm l')
    (hr : Rep.asssubLinear true destr n o p l none = some r) (hs : Rep.asssubLinear true destr' n o' p l' none = some s)
    (x : Fin n → ℚ) : r.γ x ↔ s.γ x := by
  have h' : AsgOk n l' := ⟨(hperm.map _).nodup_iff.1 h.nodup, fun q hq => h.dims q (hperm.mem_iff.2 hq), fun q hq => h.expr q (hperm.mem_iff.2 hq)⟩
  have hl' : l' ≠ [] := fun e => hl (by rw [e] at hperm; exact hperm.eq_nil)
  obtain ⟨r', e1, -, h1⟩ := C104_assign_exact (destr := destr) (o := o) hp hl h (dest := none) (by simp)
  obtain ⟨s', e2, -, h2⟩ := C104_assign_exact (destr := destr') (o := o') hp hl' h' (dest := none) (by simp)
  rw [hr] at e1; cases e1
  rw [hs] at e2; cases e2
  rw [h1, h2]
  refine and_congr (exists_congr fun x0 => and_congr_right fun _ => ?_) (by simp)
  rw [Assigns, Assigns]
  refine and_congr (forall_congr' fun q => by rw [hperm.mem_iff]) (forall_congr' fun d => by rw [(hperm.map Prod.fst).mem_iff])

/-- the hypotheses: `x0 := 0` on `x0 ≥ 0` -/
example : half.Wf ℚ 1 ∧ AsgOk 1 asgZero ∧ asgZero ≠ [] ∧ ∃ r, Rep.asssubLinear true false 1 ⟨true, false, 0⟩ half asgZero none = some r ∧
    r = .gens [[1, 0, 0], [1, 1, 0]] := ⟨half_wf, asgZero_ok, by simp [asgZero], _, rfl, by decide +kernel⟩

end Apron.Props
