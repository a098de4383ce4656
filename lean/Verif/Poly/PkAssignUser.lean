import Verif.Poly.PkAssignOps
import Verif.Poly.PkUserOps
import Verif.Props.PkLattice

/-!
# Polyhedra: assignment and substitution of the expressions of the user
-/

set_option autoImplicit false
set_option linter.unusedSectionVars false
set_option linter.ambiguousOpen false

namespace Apron.Poly

open Apron ILincons ILinexpr Bound

variable {n : ℕ}

/-- the row of an expression gives its value -/
theorem exprRow_spec {e : Linexpr ℚ} (hd : e.InDim n) (hn : e.Numeric) :
    0 < (exprRow n e).at' 0 ∧ ∀ (x : Fin n → ℚ) (v : ℚ), e.Val (ext x) v ↔ v = (((exprRow n e).at' 0 : ℤ) : ℚ)⁻¹ * dot (exprRow n e) (hom x) := by
  obtain ⟨⟨c, hc⟩, -, h3⟩ := ofAp_numeric hn
  have hpos := exprDen_pos c (ILinexpr.ofAp Rnd.exact e).terms
  have hrow : exprRow n e = setLinexpr n c (ILinexpr.ofAp Rnd.exact e).terms := by
    rw [exprRow, hc]; rfl
  have h0 : (exprRow n e).at' 0 = exprDen c (ILinexpr.ofAp Rnd.exact e).terms := by
    rw [hrow, setLinexpr, at_ofFun, if_pos (by omega)]
  refine ⟨by rw [h0]; exact_mod_cast hpos, fun x v => ?_⟩
  have hne : ((exprDen c (ILinexpr.ofAp Rnd.exact e).terms : ℕ) : ℚ) ≠ 0 := by exact_mod_cast hpos.ne'
  rw [h0, hrow, dot_setLinexpr c _ (Poly.ofAp_dims hd).1 (Poly.ofAp_dims hd).2, Int.cast_natCast, inv_mul_cancel_left₀ hne]
  have key : (ILinexpr.ofAp Rnd.exact e).Val (ext x) v ↔ v = c + termSum (ILinexpr.ofAp Rnd.exact e).terms (ext x) := by
    rw [ILinexpr.Val, hc]
    constructor
    · rintro ⟨q, r, hq, hr, rfl⟩
      rw [(tval_points fun t ht => (h3 t ht).2).1 hr]
      rw [Itv.mem_point] at hq
      rw [hq]
    · rintro rfl
      exact ⟨c, _, (Itv.mem_point _ _).2 rfl, (tval_points fun t ht => (h3 t ht).2).2 rfl, rfl⟩
  rw [← key]
  exact ⟨fun h => val_ofAp _ h, fun h => val_of_ofAp h⟩

/-- Specification: `x'` is obtained from `x` by the parallel assignment of the expressions of `l` -/
def Assigns (l : List (ℕ × Linexpr ℚ)) (x x' : Fin n → ℚ) : Prop :=
  (∀ p ∈ l, ∀ d : Fin n, (d : ℕ) = p.1 → p.2.Val (ext x) (x' d)) ∧ ∀ d : Fin n, (d : ℕ) ∉ l.map Prod.fst → x' d = x d

/-- a legal array of linear assignments -/
structure AsgOk (n : ℕ) (l : List (ℕ × Linexpr ℚ)) : Prop where
  nodup : (l.map Prod.fst).Nodup
  dims : ∀ p ∈ l, p.1 < n
  expr : ∀ p ∈ l, p.2.InDim n ∧ p.2.Numeric

/-- the rows of the array -/
def asgTab (n : ℕ) (l : List (ℕ × Linexpr ℚ)) : List (ℕ × Row) := l.map fun p : ℕ × Linexpr ℚ => (p.1, exprRow n p.2)

theorem asgTab_fst (l : List (ℕ × Linexpr ℚ)) : (asgTab n l).map Prod.fst = l.map Prod.fst := by
  rw [asgTab, List.map_map]; rfl

theorem assigns_iff {l : List (ℕ × Linexpr ℚ)} (h : AsgOk n l) (x x' : Fin n → ℚ) :
    Assigns l x x' ↔ hom x' = affL ℚ n (asgTab n l) (hom x) := by
  have hn : ((asgTab n l).map Prod.fst).Nodup := by rw [asgTab_fst]; exact h.nodup
  have hpt : ∀ d : Fin n, hom x' d.succ = x' d := fun _ => rfl
  constructor
  · rintro ⟨h1, h2⟩
    funext i
    refine Fin.cases ?_ (fun d => ?_) i
    · rw [affL_zero]; rfl
    · cases hf : affFind (asgTab n l) (d.succ : Fin (n + 1)) with
      | none =>
        rw [affL_none hf, hpt, h2 d]; · rfl
        rw [affFind_none_iff] at hf
        intro hm
        obtain ⟨p, hp, e⟩ := List.mem_map.1 hm
        refine hf (p.1, exprRow n p.2) (List.mem_map_of_mem (f := fun p : ℕ × Linexpr ℚ => (p.1, exprRow n p.2)) hp) ?_
        simp [e]
      | some t =>
        rw [affL_some hf, hpt]
        obtain ⟨d', e, hm⟩ := (affFind_some_iff hn _ _).1 hf
        obtain ⟨p, hp, ep⟩ := List.mem_map.1 hm
        cases ep
        exact ((exprRow_spec (h.expr p hp).1 (h.expr p hp).2).2 x _).1 (h1 p hp d (by simpa using e.symm))
  · intro e
    have hi : ∀ d : Fin n, x' d = affL ℚ n (asgTab n l) (hom x) d.succ := fun d => by rw [← e]; rfl
    refine ⟨fun p hp d hd => ?_, fun d hd => ?_⟩
    · have hf : affFind (asgTab n l) (d.succ : Fin (n + 1)) = some (exprRow n p.2) :=
        (affFind_some_iff hn _ _).2 ⟨p.1, by simp [hd], List.mem_map_of_mem (f := fun p : ℕ × Linexpr ℚ => (p.1, exprRow n p.2)) hp⟩
      rw [(exprRow_spec (h.expr p hp).1 (h.expr p hp).2).2, hi, affL_some hf]
    · have hf : affFind (asgTab n l) (d.succ : Fin (n + 1)) = none := by
        rw [affFind_none_iff]
        rintro q hq e
        obtain ⟨p, hp, rfl⟩ := List.mem_map.1 hq
        exact hd (List.mem_map.2 ⟨p, hp, by simpa using e⟩)
      rw [hi, affL_none hf]; rfl

theorem asgRel_iff {l : List (ℕ × Linexpr ℚ)} (h : AsgOk n l) (assign : Bool) (x0 x : Fin n → ℚ) :
    AsgRel assign (asgTab n l) x0 x ↔ if assign then Assigns l x0 x else Assigns l x x0 := by
  rw [AsgRel]
  split_ifs
  · rw [assigns_iff h]
  · rw [assigns_iff h]

/-- the operation before the intersection with the destination -/
theorem asssub_det_spec {assign destr : Bool} {pa : Rep} (ha : pa.Wf ℚ n) {l : List (ℕ × Linexpr ℚ)} (hl : l ≠ []) (h : AsgOk n l) :
    ∃ r, Rep.asssubDets assign destr n pa l = some r ∧ r.Wf ℚ n ∧
      ∀ x : Fin n → ℚ, r.γ x ↔ ∃ x0 : Fin n → ℚ, pa.γ x0 ∧ if assign then Assigns l x0 x else Assigns l x x0 := by
  have hpos : ∀ p ∈ asgTab n l, 0 < p.2.at' 0 := by
    intro q hq
    obtain ⟨p, hp, rfl⟩ := List.mem_map.1 hq
    exact (exprRow_spec (h.expr p hp).1 (h.expr p hp).2).1
  simp only [← asgRel_iff h]
  have hgen := asssubArrayDet_spec (K := ℚ) (assign := assign) ha (l := asgTab n l) (by simpa [asgTab] using hl)
    (by rw [asgTab_fst]; exact h.nodup) (fun q hq => by
      obtain ⟨p, hp, rfl⟩ := List.mem_map.1 hq; exact h.dims p hp) hpos
  match l, hl, h, hpos, hgen with
  | [(d, e)], _, h, hpos, _ =>
    have := asssubDet_spec (K := ℚ) (assign := assign) (destr := destr) ha ⟨d, h.dims (d, e) (by simp)⟩
      (hpos (d, exprRow n e) (by simp [asgTab]))
    exact ⟨_, rfl, this.1, this.2⟩
  | (_ :: _ :: _), _, _, _, hgen => exact hgen

/-- in strict mode the result of an assignment has generators -/
theorem asssub_det_shape {destr : Bool} {pa : Rep} (hp : pa = .bot ∨ ∃ f, pa = .both f) {l : List (ℕ × Linexpr ℚ)} {r : Rep}
    (hr : Rep.asssubDets true destr n pa l = some r) (C : List Row) : r ≠ .cons C := by
  have h1 : ∀ (d : ℕ) (t : Row), Rep.asssubDet true destr n pa d t ≠ .cons C := by
    intro d t
    rw [Rep.asssubDet]
    dsimp only
    simp only [if_true]
    by_cases hz : t.at' (d + 2) = 0
    · rw [if_pos hz]; split <;> simp
    · rw [if_neg hz]; rcases hp with rfl | ⟨f, rfl⟩ <;> simp
  have h2 : ∀ t r, Rep.asssubArrayDet true n pa t = some r → r ≠ .cons C := by
    intro t r hr
    rw [Rep.asssubArrayDet, if_pos rfl] at hr
    revert hr
    split
    · rintro ⟨⟩; simp
    · split_ifs
      · simp
      · rintro ⟨⟩; simp
  unfold Rep.asssubDets at hr
  split at hr
  · cases hr; exact h1 _ _
  · exact h2 _ _ hr

/-- the whole operation -/
theorem asssubLinear_spec {assign destr : Bool} {o : Opts} {pa : Rep} (ha : pa.Wf ℚ n) {l : List (ℕ × Linexpr ℚ)} (hl : l ≠ []) (h : AsgOk n l)
    {pb : Option Rep} (hb : ∀ b, pb = some b → b.Wf ℚ n)
    (hs : assign = false → o.lzy = false → ∀ b, pb = some b →
      (∃ x x0 : Fin n → ℚ, pa.γ x0 ∧ Assigns l x x0) ∨ b = .bot) :
    ∃ r, Rep.asssubLinear assign destr n o pa l pb = some r ∧ r.Wf ℚ n ∧ ∀ x : Fin n → ℚ, r.γ x ↔
      (∃ x0 : Fin n → ℚ, pa.γ x0 ∧ if assign then Assigns l x0 x else Assigns l x x0) ∧ ∀ b, pb = some b → b.γ x := by
  rw [Rep.asssubLinear]
  have hp : (if o.lzy then pa else pa.chernikova n).Wf ℚ n ∧ (∀ x : Fin n → ℚ, (if o.lzy then pa else pa.chernikova n).γ x ↔ pa.γ x) ∧
      (o.lzy = false → (if o.lzy then pa else pa.chernikova n) = .bot ∨ ∃ f, (if o.lzy then pa else pa.chernikova n) = .both f) := by
    cases o.lzy
    · simp only [Bool.false_eq_true, if_false]
      exact ⟨chernikova_wf ha, fun x => chernikova_γ ha x, fun _ => chernikova_shape n pa⟩
    · simp only [if_true]
      exact ⟨ha, fun _ => trivial, by simp⟩
  dsimp only
  generalize (if o.lzy then pa else pa.chernikova n) = p at hp
  obtain ⟨hw, hγ, hsh⟩ := hp
  by_cases hbot : p = .bot
  · rw [if_pos hbot]
    refine ⟨_, rfl, trivial, fun x => ⟨fun h => h.elim, ?_⟩⟩
    rintro ⟨⟨x0, hx0, -⟩, -⟩
    rw [← hγ, hbot] at hx0; exact hx0
  · rw [if_neg hbot]
    obtain ⟨r, hr, hrw, hrγ⟩ := asssub_det_spec (assign := assign) (destr := destr) hw hl h
    simp only [hγ] at hrγ
    rw [hr]
    have fin : ∀ r' : Rep, r'.Wf ℚ n → (if o.lzy then r' else r'.chernikova n).Wf ℚ n ∧
        ∀ x : Fin n → ℚ, (if o.lzy then r' else r'.chernikova n).γ x ↔ r'.γ x := by
      intro r' h'
      cases o.lzy
      · simp only [Bool.false_eq_true, if_false]
        exact ⟨chernikova_wf h', fun x => chernikova_γ h' x⟩
      · simp only [if_true]; exact ⟨h', fun _ => trivial⟩
    cases pb with
    | none =>
      refine ⟨_, rfl, (fin r hrw).1, fun x => ?_⟩
      rw [(fin r hrw).2, hrγ]; simp
    | some b =>
      obtain ⟨m, hm, hmw, hmγ⟩ := Props.C88_meet_exact (K := ℚ) (n := n) (o := o) (destr := true) hrw (hb b rfl) (by
        intro _ hlz C hC
        cases assign with
        | true => exact absurd hC (asssub_det_shape (hsh hlz) hr C)
        | false =>
          refine (hs rfl hlz b rfl).imp ?_ id
          rintro ⟨x, x0, h1, h2⟩
          exact ⟨x, (hrγ x).2 ⟨x0, h1, by simpa using h2⟩⟩)
      refine ⟨_, by dsimp only; rw [Option.bind_some, hm]; rfl, (fin m hmw).1, fun x => ?_⟩
      rw [(fin m hmw).2, hmγ, hrγ]; simp

end Apron.Poly
