import Verif.Poly.PkMan
import Verif.Props.PkLattice
import Verif.Props.PkResize
import Verif.Props.PkExpand
import Verif.Props.PkCanon
import Verif.Props.Level1Inst
import Verif.Props.PkUser
import Verif.Props.PkAssign
import Verif.Props.GenericInst

/-!
# C111, C112: the manager of convex polyhedra keeps the promises of an abstract domain, exactly; assignment and substitution of
arbitrary interval linear expressions
-/

set_option autoImplicit false
set_option linter.unusedSectionVars false
set_option linter.ambiguousOpen false

namespace Apron.Props
open Apron.Poly

variable {K : Type*} [LinearOrder K] [Field K] [IsStrictOrderedRing K]

/-- a set seen in a number of dimensions equal to another one -/
theorem pkGam_cast {r : Rep} {m n : ℕ} (e : m = n) (x : ℕ → K) :
    r.γ (fun i : Fin m => x i) ↔ r.γ (fun i : Fin n => x i) := by subst e; rfl

theorem γ_val {r : Rep} {n : ℕ} (P : (ℕ → K) → Prop) (h : ∀ x : Fin n → K, r.γ x → ∀ y : ℕ → K, (∀ i : Fin n, y i = x i) → P y)
    (y : ℕ → K) (hy : r.γ (fun i : Fin n => y i)) : P y := h _ hy y fun _ => rfl

/-- a function of naturals that extends a point -/
def extend {n : ℕ} (x : Fin n → K) (v : ℕ) : K := if h : v < n then x ⟨v, h⟩ else 0

theorem extend_val {n : ℕ} (x : Fin n → K) : (fun i : Fin n => extend x i) = x := by
  funext i; simp [extend]

/-- Convex polyhedra keep every promise, and are exact (meet, change of dimensions, expand, forget) or best (join, fold): whatever
the options. -/
theorem C111_manager (alg : ℤ) (o : Opts) : (pkMan K alg o).Spec (PkT.Ok K) True where
  congr a _ x y h hx := by
    have e : (fun i : Fin a.dim => x i) = fun i : Fin a.dim => y i := funext fun i => h i i.2
    show a.rep.γ _
    rw [← e]; exact hx
  top i r := ⟨top_wf, ⟨rfl, rfl⟩, fun x => top_γ _⟩
  add a pos n project ha hne hn h := by
    obtain ⟨r, e, hw, hγ⟩ := C102_add_exact (destr := false) (alg := alg) ha hne h.1 h.2.1 project
    have hd : a.intdim + n + (a.realdim + (pos.length - n)) = a.dim + pos.length := by
      simp only [PkT.dim]; omega
    refine ⟨?_, ⟨rfl, rfl⟩, fun x => ?_⟩
    · show Rep.Wf K _ _
      simp only [pkMan, e, Option.getD_some]
      simp only [PkT.dim] at hd ⊢
      rw [hd]; exact hw
    · show Rep.γ _ _ ↔ _
      simp only [pkMan, e, Option.getD_some]
      exact (pkGam_cast hd x).trans (hγ x)
  remove a pos n ha hne hn h := by
    obtain ⟨c1, c2⟩ := legalRemove_counts hn h
    obtain ⟨hw, hγ⟩ := C103_remove_exact (destr := false) (alg := alg) ha h.1 h.2.1
    have hd : a.intdim - n + (a.realdim - (pos.length - n)) = a.dim - pos.length := by
      simp only [pkMan] at c1 c2
      simp only [PkT.dim]; omega
    refine ⟨?_, ⟨rfl, rfl⟩, fun x x' hx hk => ?_, fun _ x' hx' => ?_⟩
    · show Rep.Wf K _ _
      simp only [pkMan, PkT.dim]
      rw [hd]; exact hw
    · exact (pkGam_cast hd x').2 ((hγ x').2 ⟨x, hx, hk⟩)
    · exact (hγ x').1 ((pkGam_cast hd x').1 hx')
  permute a perm ha hp := by
    obtain ⟨hw, hγ⟩ := C103_permute_exact (alg := alg) ha (perm := fun v => perm.getD v 0) (fun i hi => hp.getD_lt hi)
      (fun i j hi hj => hp.inj hi hj)
    exact ⟨hw, ⟨rfl, rfl⟩, hγ⟩
  meet a b ha hb hd := by
    have hd' : b.dim = a.dim := congrArg₂ (· + ·) hd.1 hd.2
    have hb' : b.rep.Wf K a.dim := hd' ▸ hb
    obtain ⟨r, e, hw, hγ⟩ := C88_meet_exact (o := o) (destr := false) ha hb' (by simp)
    refine ⟨?_, ⟨rfl, rfl⟩, fun x => ?_⟩
    · show Rep.Wf K _ _
      simp only [pkMan, e, Option.getD_some]; exact hw
    · show Rep.γ _ _ ↔ _
      simp only [pkMan, e, Option.getD_some]
      exact (hγ _).trans (and_congr Iff.rfl (pkGam_cast hd'.symm x))
  join a b ha hb hd := by
    have hd' : b.dim = a.dim := congrArg₂ (· + ·) hd.1 hd.2
    have hb' : b.rep.Wf K a.dim := hd' ▸ hb
    obtain ⟨r, e, hw, hγ, _⟩ := C89_join_least (o := o) (destr := false) ha hb'
    refine ⟨?_, ⟨rfl, rfl⟩, fun x hx => ?_, fun _ c hc hcd hall x hx => ?_⟩
    · show Rep.Wf K _ _
      simp only [pkMan, e, Option.getD_some]; exact hw
    · show Rep.γ _ _
      simp only [pkMan, e, Option.getD_some]
      exact hγ _ (hx.imp_right (pkGam_cast hd' x).1)
    · have hc' : c.dim = a.dim := congrArg₂ (· + ·) hcd.1 hcd.2
      obtain ⟨r', e', hq⟩ := C89_join_lub (o := o) (destr := false) ha hb' (q := c.rep) (hc' ▸ hc) (fun y hy => by
        have := hall (extend y) (hy.imp (fun h => by show Rep.γ _ _; rw [extend_val]; exact h)
          (fun h => (pkGam_cast hd' (extend y)).2 (by rw [extend_val]; exact h)))
        have := (pkGam_cast hc' (extend y)).1 this
        rwa [extend_val] at this)
      rw [e] at e'; cases e'
      have hx : Rep.γ _ _ := hx
      simp only [pkMan, e, Option.getD_some] at hx
      exact (pkGam_cast hc' x).2 (hq _ hx)
  expand a d n ha hd hn := by
    obtain ⟨hw, hγ⟩ := C106_expand_exact (destr := false) (alg := alg) ha (intdim := a.intdim) (Nat.le_add_right _ _) hd hn
    have hd' : (if d < a.intdim then a.intdim + n else a.intdim) + (if d < a.intdim then a.realdim else a.realdim + n) = a.dim + n := by
      simp only [PkT.dim]; split_ifs <;> omega
    refine ⟨?_, ⟨rfl, rfl⟩, fun x => ?_⟩
    · show Rep.Wf K _ _
      simp only [pkMan, PkT.dim]
      rw [hd']; exact hw
    · exact (pkGam_cast hd' x).trans (hγ x)
  fold a d ts ha hne hs hlt hty := by
    have hts : ts.Nodup := (List.nodup_cons.1 (hs.imp fun h => ne_of_lt h)).2
    have hd' : (if d < a.intdim then a.intdim - ts.length else a.intdim) +
        (if d < a.intdim then a.realdim else a.realdim - ts.length) = a.dim - ts.length := by
      simp only [PkT.dim]
      split_ifs with hd
      · have := length_le_of_range (lo := 0) (hi := a.intdim) hts (fun t ht => ⟨Nat.zero_le _, (hty t ht).2 hd⟩)
        omega
      · have := length_le_of_range (lo := a.intdim) (hi := a.intdim + a.realdim) hts
          (fun t ht => ⟨not_lt.1 fun h => hd ((hty t ht).1 h), hlt t (by simp [ht])⟩)
        omega
    obtain ⟨hw, hγ, _⟩ := C107_fold_least (alg := alg) ha hne hs hlt
    refine ⟨?_, ⟨rfl, rfl⟩, fun x x' t hx ht h0 hk => ?_, fun _ c hc hcd hall x' hx' => ?_⟩
    · show Rep.Wf K _ _
      simp only [pkMan, PkT.dim]
      rw [hd']; exact hw
    · exact (pkGam_cast hd' x').2 (hγ x x' t hx ht h0 hk)
    · have hc' : c.dim = a.dim - ts.length := (congrArg₂ (· + ·) hcd.1 hcd.2).trans hd'
      exact (pkGam_cast hc' x').2 (C107_fold_lub (alg := alg) ha hne hs hlt (q := c.rep) (hc' ▸ hc)
        (fun y y' t hy ht h0 hk => (pkGam_cast hc' y').1 (hall y y' t hy ht h0 hk)) _ ((pkGam_cast hd' x').1 hx'))
  forget a tdim project ha hlt := by
    obtain ⟨r, e, hw, hγ⟩ := C101_forget_exact (lzy := o.lzy) ha hlt project
    refine ⟨?_, ⟨rfl, rfl⟩, fun x x' hx hk hz => ?_, fun _ x' hx' => ?_⟩
    · show Rep.Wf K _ _
      simp only [pkMan, e, Option.getD_some]; exact hw
    · show Rep.γ _ _
      simp only [pkMan, e, Option.getD_some]
      exact (hγ _).2 ⟨⟨_, hx, fun v hv => hk v v.2 hv⟩, fun hp v hv => hz hp v hv⟩
    · have hx' : Rep.γ _ _ := hx'
      simp only [pkMan, e, Option.getD_some] at hx'
      obtain ⟨⟨x0, h1, h2⟩, h3⟩ := (hγ _).1 hx'
      refine ⟨⟨extend x0, by show Rep.γ _ _; rw [extend_val]; exact h1, fun v hv ht => ?_⟩, fun hp v hv => h3 hp ⟨v, hlt v hv⟩ hv⟩
      have := h2 ⟨v, hv⟩ ht
      have hv' : v < a.dim := hv
      rw [extend, dif_pos hv']; exact this
  unconstrained a d ha hd h x y hx := by
    have := C110_is_dimension_unconstrained_sound ha hd h _ hx y
    have e : (fun i : Fin a.dim => Function.update x d y i) = fun i : Fin a.dim => if (i : ℕ) = d then y else x i := by
      funext i; simp [Function.update_apply]
    show a.rep.γ _
    rw [e]; exact this

/-! ### Level 1: polyhedra over named variables -/

section Level1
variable {V : Type*} [LinearOrder V]
open Env Abs1

/-- changing the environment of a polyhedron: exactly the valuations that agree with one of the polyhedron on the common
variables, new variables being null with `project` -/
theorem C111_change_environment (alg : ℤ) (o : Opts) (junk : ℕ) (a : Abs1 V PkT) (ha : Abs1.Wf (pkMan K alg o) (PkT.Ok K) a) (nenv : Env V)
    (hn : nenv.Wf) (hsz : nenv.size ≤ dimMax) (project : Bool) (hc : ¬ Incompatible a.env nenv) :
    ∃ r, changeEnvironment (pkMan K alg o) junk a nenv project = .ok (r, false) ∧ r.env = nenv ∧ Abs1.Wf (pkMan K alg o) (PkT.Ok K) r ∧
      ∀ ρ' : V → K, Abs1.Gam (pkMan K alg o) r ρ' ↔
        (∃ ρ, Abs1.Gam (pkMan K alg o) a ρ ∧ ∀ v ∈ a.env.vars, v ∈ nenv.vars → ρ' v = ρ v) ∧
        (project = true → ∀ v ∈ nenv.vars, v ∉ a.env.vars → ρ' v = 0) := by
  obtain ⟨r, h1, h2, h3, h4, h5⟩ := (C70_change_environment (C111_manager alg o) junk a ha nenv hn hsz project).2 hc
  exact ⟨r, h1, h2, h3, fun ρ' => ⟨h5 trivial ρ', fun ⟨⟨ρ, k1, k2⟩, k3⟩ => h4 ρ ρ' k1 k2 k3⟩⟩

/-- removing the unconstrained variables of the environment of a polyhedron changes no valuation -/
theorem C111_minimize_environment (alg : ℤ) (o : Opts) (junk : ℕ) (a : Abs1 V PkT) (ha : Abs1.Wf (pkMan K alg o) (PkT.Ok K) a) :
    ∃ r, minimizeEnvironment (pkMan K alg o) junk a = .ok (r, false) ∧ Abs1.Wf (pkMan K alg o) (PkT.Ok K) r ∧
      ∀ ρ : V → K, Abs1.Gam (pkMan K alg o) r ρ ↔ Abs1.Gam (pkMan K alg o) a ρ := by
  obtain ⟨r, h1, h2, _, _, h3, h4⟩ := C70_minimize_environment (C111_manager alg o) junk a ha
  exact ⟨r, h1, h2, fun ρ => ⟨h4 trivial ρ, h3 ρ⟩⟩

/-- unification of two polyhedra over different environments: the conjunction -/
theorem C111_unify (alg : ℤ) (o : Opts) (junk : ℕ) (same : Bool) (a b : Abs1 V PkT) (ha : Abs1.Wf (pkMan K alg o) (PkT.Ok K) a)
    (hb : Abs1.Wf (pkMan K alg o) (PkT.Ok K) b) (hs : same = true → a.env = b.env) (hsz : a.env.size + b.env.size ≤ dimMax)
    (hc : ¬ Incompatible a.env b.env) :
    ∃ r, unify (pkMan K alg o) junk same a b = .ok (r, false) ∧ Abs1.Wf (pkMan K alg o) (PkT.Ok K) r ∧
      (∀ v, v ∈ r.env.vars ↔ v ∈ a.env.vars ∨ v ∈ b.env.vars) ∧
      ∀ ρ : V → K, Abs1.Gam (pkMan K alg o) r ρ ↔ Abs1.Gam (pkMan K alg o) a ρ ∧ Abs1.Gam (pkMan K alg o) b ρ := by
  obtain ⟨r, h1, h2, h3, h4, h5⟩ := (C72_unify (C111_manager alg o) junk same a b ha hb hs hsz).2 hc
  refine ⟨r, h1, h2, fun v => ?_, h5⟩
  have e : ∀ (E : Env V) v, v ∈ E.vars ↔ v ∈ E.ints ∨ v ∈ E.reals := fun E v => List.mem_append
  rw [e, e, e, h3, h4]
  constructor
  · rintro ((h | h) | (h | h)) <;> simp [h]
  · rintro ((h | h) | (h | h)) <;> simp [h]

end Level1

/-! ## C112: assignment and substitution -/

open Generic

theorem gam_ext {n : ℕ} (x : ℕ → ℚ) (d : ℕ) (hd : d < n) : ext (fun i : Fin n => x i) d = x d := by
  rw [ext, dif_pos hd]

theorem linval_congr {n : ℕ} {e : Linexpr ℚ} (h : e.InDim n) {x y : ℕ → ℚ} (hxy : ∀ d, d < n → x d = y d) {v : ℚ} (hv : e.Val x v) : e.Val y v :=
  linexpr_val_congr (fun p hp => hxy _ (h.2 p.1 (List.mem_map_of_mem hp))) hv

theorem holds_ext {n : ℕ} {c : Lincons ℚ} (h : c.expr.InDim n) (x : ℕ → ℚ) (hx : c.Holds x) : c.Holds (ext fun i : Fin n => x i) := by
  obtain ⟨v, hv, hr⟩ := hx
  exact ⟨v, linval_congr h (fun d hd => (gam_ext x d hd).symm) hv, hr⟩

theorem pkMeetLincons (alg : ℤ) (o : Opts) (mlzy : Bool) (P : Lincons ℚ → Prop) :
    MeetSpec (pkMan ℚ alg o) (PkT.Ok ℚ) (fun n c => GoodLin n c.expr ∧ P c) Lincons.Holds (fun v => ∃ n : ℤ, v = n) False
      (PkT.meetLincons mlzy) where
  ok a l ha hl := by
    obtain ⟨r, e, hw, _, _⟩ := C91_meet_lincons_sound (intdim := a.intdim) (lzy := mlzy) ha (l := l) (fun c hc => (hl c hc).1.inDim)
    refine ⟨?_, rfl, rfl⟩
    show Rep.Wf ℚ _ _
    simp only [PkT.meetLincons, e, Option.getD_some]; exact hw
  sound a l x ha hl hx hi hc := by
    obtain ⟨r, e, _, _, hs⟩ := C91_meet_lincons_sound (intdim := a.intdim) (lzy := mlzy) ha (l := l) (fun c hc => (hl c hc).1.inDim)
    show Rep.γ _ _
    simp only [PkT.meetLincons, e, Option.getD_some]
    exact hs _ (fun d hd => hi d hd) hx fun c hc' => holds_ext (hl c hc').1.inDim x (hc c hc')
  exact h := h.elim

theorem pk_isBottom_empty {alg : ℤ} {a : PkT} (ha : a.Ok ℚ) (h : a.isBottom alg = true) (x : ℕ → ℚ) : ¬ a.Gam ℚ x :=
  C90_is_bottom_sound ha h _

theorem prep_spec {o : Opts} {a : PkT} (ha : a.Ok ℚ) : (a.prep o).Ok ℚ ∧ (a.prep o).intdim = a.intdim ∧ (a.prep o).realdim = a.realdim ∧
    ∀ x, (a.prep o).Gam ℚ x ↔ a.Gam ℚ x := by
  rw [PkT.prep]
  split_ifs
  · exact ⟨ha, rfl, rfl, fun _ => Iff.rfl⟩
  · exact ⟨chernikova_wf ha, rfl, rfl, fun x => chernikova_γ ha _⟩

/-- the conditions on the arguments: targets and expressions within the dimensions, no target given twice, the whole below
`AP_DIM_MAX`, a destination with the same dimensions -/
structure ArgsOk (a : PkT) (l : List (ℕ × Linexpr ℚ)) (dest : Option PkT) : Prop where
  ok : a.Ok ℚ
  ne : l ≠ []
  nodup : (l.map Prod.fst).Nodup
  good : ∀ p ∈ l, p.1 < a.dim ∧ GoodLin a.dim p.2
  max : a.dim + l.length ≤ dimMax
  dest : ∀ b, dest = some b → b.Ok ℚ ∧ b.intdim = a.intdim ∧ b.realdim = a.realdim

theorem asssubGeneric_spec {assign : Bool} {alg : ℤ} {o : Opts} {mlzy : Bool} {a : PkT} {l : List (ℕ × Linexpr ℚ)} {dest : Option PkT}
    (h : ArgsOk a l dest) :
    (PkT.asssubGeneric assign alg o mlzy a l dest).Ok ℚ ∧ (PkT.asssubGeneric assign alg o mlzy a l dest).intdim = a.intdim ∧
    (PkT.asssubGeneric assign alg o mlzy a l dest).realdim = a.realdim ∧
    ∀ x y : ℕ → ℚ, a.Gam ℚ (if assign then x else y) → (∀ b, dest = some b → b.Gam ℚ (if assign then y else x)) →
      (∀ d, d < a.intdim → (∃ n : ℤ, x d = n) ∧ ∃ n : ℤ, y d = n) → (∀ p ∈ l, p.2.Val x (y p.1)) →
      (∀ v, v < a.dim → v ∉ l.map Prod.fst → y v = x v) →
      (PkT.asssubGeneric assign alg o mlzy a l dest).Gam ℚ (if assign then y else x) := by
  obtain ⟨h1, h2, h3, h4⟩ := prep_spec (o := o) h.ok
  rw [PkT.asssubGeneric]
  have hdim : (a.prep o).dim = a.dim := by simp only [PkT.dim, h2, h3]
  by_cases hb : (a.prep o).rep = .bot
  · rw [if_pos hb]
    refine ⟨trivial, h2, h3, fun x y hx => ?_⟩
    have := (h4 _).2 hx
    rw [PkT.Gam, hb] at this
    exact this.elim
  · rw [if_neg hb]
    obtain ⟨g1, g2, g3, _⟩ := asssub_aux (dimSpec_of (C111_manager (K := ℚ) alg o)) (Val := Linexpr.Val) (fun n e h => linexprSpec.congr n e h)
      mkLincons_spec (pkMeetLincons alg o mlzy _) assign (PkT.isBottom alg) (fun a ha h x => pk_isBottom_empty ha h x) (a.prep o) h1 l h.ne h.nodup
      (by rw [show (pkMan ℚ alg o).dim (a.prep o) = a.dim from hdim]; exact h.good)
      (by rw [show (pkMan ℚ alg o).dim (a.prep o) = a.dim from hdim]; exact h.max) dest
      (fun b hb => ⟨(h.dest b hb).1, (h.dest b hb).2.1.trans h2.symm, (h.dest b hb).2.2.trans h3.symm⟩)
    obtain ⟨k1, k2, k3, k4⟩ := prep_spec (o := o) g1
    refine ⟨k1, k2.trans (g2.1.trans h2), k3.trans (g2.2.trans h3), fun x y hx hd hi hv hk => (k4 _).2 (g3 x y ((h4 _).2 hx) hd ?_ ?_ hv ?_)⟩
    · intro d hd; exact (hi d (h2 ▸ hd)).1
    · intro d hd; exact (hi d (h2 ▸ hd)).2
    · rw [show (pkMan ℚ alg o).dim (a.prep o) = a.dim from hdim]; exact hk

theorem assigns_of {n : ℕ} {l : List (ℕ × Linexpr ℚ)} {x y : ℕ → ℚ} (hl : ∀ p ∈ l, p.2.InDim n) (hv : ∀ p ∈ l, p.2.Val x (y p.1))
    (hk : ∀ v, v < n → v ∉ l.map Prod.fst → y v = x v) : Assigns l (fun i : Fin n => x i) (fun i : Fin n => y i) :=
  ⟨fun p hp d hd => by
    have := linval_congr (hl p hp) (fun d hd => (gam_ext (n := n) x d hd).symm) (hv p hp)
    simpa only [hd] using this, fun d hd => hk d d.2 hd⟩

theorem asgOk_of {a : PkT} {l : List (ℕ × Linexpr ℚ)} {dest : Option PkT} (h : ArgsOk a l dest) (hnum : ∀ p ∈ l, p.2.Numeric) : AsgOk a.dim l :=
  ⟨h.nodup, fun p hp => (h.good p hp).1, fun p hp => ⟨(h.good p hp).2.inDim, hnum p hp⟩⟩

/-- `pk_assign_linexpr_array` with any interval linear expressions (linear coefficients must not be infinite), in every mode: the
result has the same dimensions and contains every point obtained from a point of the argument by giving to the targets values
of their expressions, if it is in the destination (points with integer values on the integer dimensions). -/
theorem C112_assign_linexpr_sound {destr : Bool} {alg : ℤ} {o : Opts} {mlzy : Bool} {a : PkT} {l : List (ℕ × Linexpr ℚ)} {dest : Option PkT}
    (h : ArgsOk a l dest) (hnum : (∀ p ∈ l, p.2.isLinear = true) → ∀ p ∈ l, p.2.Numeric) :
    ∃ r, a.asssubLinexpr true destr alg o mlzy l dest = some r ∧ r.Ok ℚ ∧ r.intdim = a.intdim ∧ r.realdim = a.realdim ∧
      ∀ x y : ℕ → ℚ, a.Gam ℚ x → (∀ b, dest = some b → b.Gam ℚ y) →
        (∀ d, d < a.intdim → (∃ n : ℤ, x d = n) ∧ ∃ n : ℤ, y d = n) → (∀ p ∈ l, p.2.Val x (y p.1)) →
        (∀ v, v < a.dim → v ∉ l.map Prod.fst → y v = x v) → r.Gam ℚ y := by
  rw [PkT.asssubLinexpr]
  by_cases hlin : (l.all fun p => p.2.isLinear) = true
  · rw [if_pos hlin]
    have hA := asgOk_of h (hnum (List.all_eq_true.1 hlin))
    obtain ⟨r, e, hw, hγ⟩ := C104_assign_exact (destr := destr) (o := o) h.ok h.ne hA (dest := dest.map PkT.rep) (fun b hb => by
      obtain ⟨b', hb', rfl⟩ := Option.map_eq_some_iff.1 hb
      obtain ⟨g1, g2, g3⟩ := h.dest b' hb'
      have : b'.dim = a.dim := congrArg₂ (· + ·) g2 g3
      exact this ▸ g1)
    refine ⟨⟨a.intdim, a.realdim, r⟩, by rw [e]; rfl, hw, rfl, rfl, fun x y hx hd _ hv hk => (hγ _).2 ⟨⟨_, hx, assigns_of (fun p hp => (hA.expr p hp).1) hv hk⟩, fun b hb => ?_⟩⟩
    obtain ⟨b', hb', rfl⟩ := Option.map_eq_some_iff.1 hb
    obtain ⟨g1, g2, g3⟩ := h.dest b' hb'
    exact (pkGam_cast (congrArg₂ (· + ·) g2 g3) y).1 (hd b' hb')
  · rw [if_neg hlin]
    obtain ⟨g1, g2, g3, g4⟩ := asssubGeneric_spec (assign := true) (alg := alg) (o := o) (mlzy := mlzy) h
    exact ⟨_, rfl, g1, g2, g3, fun x y hx hd hi hv hk => g4 x y hx hd hi hv hk⟩

/-- `pk_substitute_linexpr_array` with any interval linear expressions: the result contains every point of the destination from
which a point of the argument is reached by the assignment.
PARTIAL: `hs` excludes the defect `C104_substitute_null_dereference`. -/
theorem C112_substitute_linexpr_sound_partial {destr : Bool} {alg : ℤ} {o : Opts} {mlzy : Bool} {a : PkT} {l : List (ℕ × Linexpr ℚ)} {dest : Option PkT}
    (h : ArgsOk a l dest) (hnum : (∀ p ∈ l, p.2.isLinear = true) → ∀ p ∈ l, p.2.Numeric)
    (hs : o.lzy = false → ∀ b, dest = some b → (∃ x x0 : Fin a.dim → ℚ, a.rep.γ x0 ∧ Assigns l x x0) ∨ b.rep = .bot) :
    ∃ r, a.asssubLinexpr false destr alg o mlzy l dest = some r ∧ r.Ok ℚ ∧ r.intdim = a.intdim ∧ r.realdim = a.realdim ∧
      ∀ x y : ℕ → ℚ, a.Gam ℚ y → (∀ b, dest = some b → b.Gam ℚ x) →
        (∀ d, d < a.intdim → (∃ n : ℤ, x d = n) ∧ ∃ n : ℤ, y d = n) → (∀ p ∈ l, p.2.Val x (y p.1)) →
        (∀ v, v < a.dim → v ∉ l.map Prod.fst → y v = x v) → r.Gam ℚ x := by
  rw [PkT.asssubLinexpr]
  by_cases hlin : (l.all fun p => p.2.isLinear) = true
  · rw [if_pos hlin]
    have hA := asgOk_of h (hnum (List.all_eq_true.1 hlin))
    obtain ⟨r, e, hw, hγ⟩ := C104_substitute_exact_partial (destr := destr) (o := o) h.ok h.ne hA (dest := dest.map PkT.rep) (fun b hb => by
      obtain ⟨b', hb', rfl⟩ := Option.map_eq_some_iff.1 hb
      obtain ⟨g1, g2, g3⟩ := h.dest b' hb'
      have : b'.dim = a.dim := congrArg₂ (· + ·) g2 g3
      exact this ▸ g1) (fun hz b hb => by
        obtain ⟨b', hb', rfl⟩ := Option.map_eq_some_iff.1 hb
        exact hs hz b' hb')
    refine ⟨⟨a.intdim, a.realdim, r⟩, by rw [e]; rfl, hw, rfl, rfl, fun x y hx hd _ hv hk => (hγ _).2 ⟨⟨_, hx, assigns_of (fun p hp => (hA.expr p hp).1) hv hk⟩, fun b hb => ?_⟩⟩
    obtain ⟨b', hb', rfl⟩ := Option.map_eq_some_iff.1 hb
    obtain ⟨g1, g2, g3⟩ := h.dest b' hb'
    exact (pkGam_cast (congrArg₂ (· + ·) g2 g3) x).1 (hd b' hb')
  · rw [if_neg hlin]
    obtain ⟨g1, g2, g3, g4⟩ := asssubGeneric_spec (assign := false) (alg := alg) (o := o) (mlzy := mlzy) h
    exact ⟨_, rfl, g1, g2, g3, fun x y hx hd hi hv hk => g4 x y hx hd hi hv hk⟩

/-! ## Examples -/

/-- `x0 ∈ [-2, 2]`, `x1` free, both real -/
def exSlab : PkT := ⟨0, 2, .cons [[1, 1, 0, 0], [1, 2, 1, 0], [1, 2, -1, 0]]⟩

theorem exSlab_ok : exSlab.Ok ℚ := cons_wf (by decide)

/-- `x1 := [0, 1] + x0` -/
def exItv : Linexpr ℚ := ⟨.interval (.fin 0) (.fin 1), .sparse [(0, .scalar (.fin 1))]⟩

/-- the hypotheses of C112 are satisfied by an interval assignment, whose result bounds `x1` -/
example : ArgsOk exSlab [(1, exItv)] none ∧ ([(1, exItv)].all fun p => p.2.isLinear) = false := by
  refine ⟨⟨exSlab_ok, by simp, by simp, ?_, by simp [exSlab, PkT.dim, dimMax], by simp⟩, by decide⟩
  intro p hp
  simp only [List.mem_singleton] at hp
  subst hp
  refine ⟨by simp [exSlab, PkT.dim], ?_, ?_, ?_⟩
  · simp [Linexpr.Wf, Linexpr.SparseWf, exItv, dimMax]
  · decide +kernel
  · intro l h; cases h

example : (exSlab.asssubLinexpr true false 0 ⟨true, false, 0⟩ true [(1, exItv)] none).map (fun r => (r.rep.boundDim 2 0 1, r.rep.boundDim 2 0 0)) =
    some (⟨.fin 2, .fin 3⟩, ⟨.fin 2, .fin 2⟩) := by decide +kernel

/-- the join of `x0 ≤ 0` and `x0 ≥ 1` inside the slab, then the projection of `x0` -/
example : (pkMan ℚ 0 ⟨true, false, 0⟩).Spec (PkT.Ok ℚ) True ∧ ((pkMan ℚ 0 ⟨true, false, 0⟩).forget exSlab [0] false).rep.boundDim 2 0 0 = Itv.top :=
  ⟨C111_manager 0 _, by decide +kernel⟩

/-- a polyhedron over the variables 4 and 7, and its unification with one over 7 and 9 -/
example : ∃ r, Abs1.unify (pkMan ℚ 0 ⟨true, false, 0⟩) 0 false (⟨⟨[], [4, 7]⟩, exSlab⟩ : Abs1 ℕ PkT) ⟨⟨[], [7, 9]⟩, exSlab⟩ = .ok (r, false) ∧
    ∀ v, v ∈ r.env.vars ↔ v ∈ [4, 7] ∨ v ∈ [7, 9] := by
  obtain ⟨r, h1, _, h2, _⟩ := C111_unify (K := ℚ) (V := ℕ) 0 ⟨true, false, 0⟩ 0 false ⟨⟨[], [4, 7]⟩, exSlab⟩ ⟨⟨[], [7, 9]⟩, exSlab⟩
    ⟨⟨by decide, by decide, by decide⟩, by simp [Env.size, Env.intdim, Env.realdim, dimMax], exSlab_ok, rfl, rfl⟩
    ⟨⟨by decide, by decide, by decide⟩, by simp [Env.size, Env.intdim, Env.realdim, dimMax], exSlab_ok, rfl, rfl⟩ (by simp)
    (by simp [Env.size, Env.intdim, Env.realdim, dimMax]) (by rintro ⟨v, ⟨h1, h2⟩ | ⟨h1, h2⟩⟩ <;> simp at h1 h2)
  exact ⟨r, h1, h2⟩

end Apron.Props
