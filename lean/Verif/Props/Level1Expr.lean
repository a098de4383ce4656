import Verif.Core.Level1Expr
import Verif.Props.Level1Inst
import Verif.Props.TexprStruct
import Verif.Props.CoreLinexpr
import Verif.Props.BoxConstraint
import Verif.Props.OctTransfer
import Verif.Props.Texpr

/-!
# Level-1 expressions and constraints (C76)

An expression over a smaller environment is translated to one over the environment of the abstract value
having the same values under every valuation of the variables; hence the functions of level 1 inherit the
properties of the abstract domain, stated here on valuations of variables.
-/

set_option autoImplicit false
set_option linter.unusedSectionVars false
set_option linter.ambiguousOpen false
set_option linter.unusedVariables false

namespace Apron
namespace Props

open Env Abs1

/-! ## The promises of expressions -/

section Kinds
variable {K : Type*} [LinearOrder K] [Field K] [IsStrictOrderedRing K]

/-- linear expressions legal with `n` dimensions: the documented invariant, dimensions below `n`, and dense
arrays of size `n` (what `ap_linexpr1_make` builds).  On shorter dense arrays insertion is wrong
(`C50_add_short_dense_wrong`). -/
def GoodLin (n : ℕ) (e : Linexpr K) : Prop :=
  e.Wf ∧ (∀ p ∈ e.terms, p.1 < n) ∧ ∀ l, e.body = .dense l → l.length = n

theorem GoodLin.inDim {n : ℕ} {e : Linexpr K} (h : GoodLin n e) : e.InDim n := ⟨h.1.terms_sorted, fun d hd => by
  obtain ⟨p, hp, rfl⟩ := List.mem_map.1 hd; exact h.2.1 p hp⟩

theorem termsVal_congr_pt {l : List (ℕ × Coeff K)} {x y : ℕ → K} {r : K} (h : ∀ p ∈ l, x p.1 = y p.1)
    (hv : Linexpr.TermsVal l x r) : Linexpr.TermsVal l y r := by
  induction l generalizing r with
  | nil => exact hv
  | cons p l ih =>
    obtain ⟨q, r', h1, h2, h3⟩ := hv
    exact ⟨q, r', h1, ih (fun p hp => h p (by simp [hp])) h2, by rw [h3, h p (by simp)]⟩

theorem linexpr_val_congr {e : Linexpr K} {x y : ℕ → K} {v : K} (h : ∀ p ∈ e.terms, x p.1 = y p.1)
    (hv : e.Val x v) : e.Val y v := by
  obtain ⟨q, r, h1, h2, h3⟩ := hv
  exact ⟨q, r, h1, termsVal_congr_pt h h2, h3⟩

theorem checkLinexpr_of_good {i r : ℕ} {e : Linexpr K} (h : GoodLin (i + r) e) :
    Dim.checkLinexpr i r e = true := by
  by_cases h0 : 0 < i + r
  · exact (C67_check_linexpr_partial i r h0 e h.1).2 h.2.1
  · obtain ⟨c, b⟩ := e
    obtain ⟨h1, h2, h3⟩ := h
    unfold Dim.checkLinexpr Dim.checkLinexprDim
    rw [decide_eq_true_eq]
    cases b with
    | dense l => simp only; rw [if_neg (by rw [h3 l rfl]; omega)]
    | sparse l =>
      have hw : Linexpr.SparseWf l := h1
      have hall : ∀ p ∈ l.reverse, p.1 = dimMax := fun p hp => by
        by_contra hn
        have := h2 p ((hw.mem_terms p).2 ⟨List.mem_reverse.1 hp, hn⟩)
        omega
      rcases sparseDim_spec (i + r) l.reverse 0 with ⟨_, e⟩ | ⟨l1, p, l2, e, _, hp, _⟩
      · simp only [e]; split_ifs <;> simp_all
      · exact absurd (hall p (by rw [e]; simp)) hp

theorem good_addDimensions {n : ℕ} {e : Linexpr K} (h : GoodLin n e) {pos : List ℕ}
    (hs : pos.Pairwise (· ≤ ·)) (hn : n + pos.length ≤ dimMax) :
    GoodLin (n + pos.length) (e.addDimensions pos) := by
  obtain ⟨c, b⟩ := e
  obtain ⟨h1, h2, h3⟩ := h
  cases b with
  | dense l =>
    have hl := h3 l rfl
    have hlen : (Linexpr.addDense pos l).length = n + pos.length := by
      simp [Linexpr.addDense, hl]
    refine ⟨?_, ?_, ?_⟩
    · show (Linexpr.addDense pos l).length ≤ dimMax
      omega
    · intro p hp
      have hp' : p.1 ∈ (Linexpr.terms ⟨c, .dense (Linexpr.addDense pos l)⟩).map Prod.fst :=
        List.mem_map.2 ⟨p, hp, rfl⟩
      rw [Linexpr.terms_dense_dims, List.mem_range] at hp'
      omega
    · intro l' hl'
      simp only [Linexpr.addDimensions, Linbody.dense.injEq] at hl'
      rw [← hl', hlen]
  | sparse l =>
    have hw : Linexpr.SparseWf l := h1
    have heq := Linexpr.addSparse_eq hs l 0 (Nat.zero_le _) hw (by omega)
    have hlt : ∀ p ∈ l, p.1 ≠ dimMax → p.1 < n := fun p hp hn => h2 p ((hw.mem_terms p).2 ⟨hp, hn⟩)
    have hc := fun v => Oct.cntLe_le (pos := pos) v
    have hw' : Linexpr.SparseWf (Linexpr.addSparse pos 0 l) := by
      rw [heq]
      constructor
      · rw [List.map_map, List.pairwise_map]
        have := hw.1
        rw [List.pairwise_map] at this
        refine List.Pairwise.imp_of_mem (fun {a b} ha hb hab => ?_) this
        simp only [Function.comp]
        by_cases hb' : b.1 = dimMax
        · right; simp [hb']
        · left
          have hab' : a.1 < b.1 := by rcases hab with e | e; exact e; exact absurd e hb'
          have hb1 := hlt b hb hb'
          have ha' : a.1 ≠ dimMax := by omega
          rw [if_neg ha', if_neg hb']
          have := Box.cntLe_mono pos hab'.le
          simp only; omega
      · intro p hp
        obtain ⟨q, hq, rfl⟩ := List.mem_map.1 hp
        split_ifs with hm
        · exact hw.2 q hq
        · have := hlt q hq hm; have := hc q.1
          simp only; omega
    refine ⟨hw', fun p hp => ?_, fun l' hl' => ?_⟩
    · obtain ⟨hp, hpm⟩ := (hw'.mem_terms p).1 hp
      rw [heq] at hp
      obtain ⟨q, hq, rfl⟩ := List.mem_map.1 hp
      by_cases hm : q.1 = dimMax
      · simp [hm] at hpm
      · rw [if_neg hm]
        have := hlt q hq hm; have := hc q.1
        simp only; omega
    · simp [Linexpr.addDimensions] at hl'

theorem linexprSpec : (Kind.linexpr (K := K)).Spec GoodLin where
  congr n e h x y o hxy := linexpr_val_congr fun p hp => hxy _ (h.2.1 p hp)
  check i r e := checkLinexpr_of_good
  add n e pos h hs hle hn := ⟨good_addDimensions h hs hn, fun x o =>
    C50_add_dimensions_partial e h.1 pos hs (fun l hl p hp => by rw [h.2.2 l hl]; exact hle p hp)
      (fun p hp => by have := h.2.1 p hp; omega) x o⟩

theorem linconsSpec : (Kind.lincons (K := K)).Spec (fun n c => GoodLin n c.expr) where
  congr n e h x y o hxy hv := ⟨hv.1, linexprSpec.congr n _ h x y _ hxy hv.2⟩
  check i r e := checkLinexpr_of_good
  add n e pos h hs hle hn := ⟨good_addDimensions h hs hn, fun x o =>
    and_congr Iff.rfl ((linexprSpec.add n _ pos h hs hle hn).2 x o.2)⟩

theorem texprSpec [FloorRing K] (S : FltSem K) : (Kind.texpr S).Spec (fun n e => e.InDim n) where
  congr n e h x y o hxy hv := (val_congr S e x y o fun d hd => hxy d ((inDim_iff e n).1 h d hd)).1 hv
  check i r e h := (C67_check_texpr _ e).2 h
  add n e pos h hs _ _ := ⟨C77_add_dimensions_dims e pos n h, C77_add_dimensions S e pos hs⟩

theorem noPow_addDimensions (e : Texpr K) (pos : List ℕ) (h : e.NoPow) : (Texpr.addDimensions pos e).NoPow := by
  induction e with
  | cst c => trivial
  | dim d => trivial
  | un op t r a ih => exact ih h
  | bin op t r a b iha ihb => exact ⟨iha h.1, ihb h.2.1, h.2.2⟩

/-- trees without powers -/
theorem texprSpecNoPow [FloorRing K] (S : FltSem K) : (Kind.texpr S).Spec (fun n e => e.InDim n ∧ e.NoPow) where
  congr n e h := (texprSpec S).congr n e h.1
  check i r e h := (texprSpec S).check i r e h.1
  add n e pos h hs h1 h2 :=
    ⟨⟨((texprSpec S).add n e pos h.1 hs h1 h2).1, noPow_addDimensions e pos h.2⟩,
      ((texprSpec S).add n e pos h.1 hs h1 h2).2⟩

theorem tconsSpec [FloorRing K] (S : FltSem K) : (Kind.tcons S).Spec (fun n c => c.expr.InDim n) where
  congr n e h x y o hxy hv := ⟨hv.1, (texprSpec S).congr n _ h x y _ hxy hv.2⟩
  check i r e h := (C67_check_texpr _ e.expr).2 h
  add n e pos h hs _ _ := ⟨C77_add_dimensions_dims e.expr pos n h, fun x o =>
    and_congr Iff.rfl (C77_add_dimensions S e.expr pos hs x o.2)⟩

end Kinds

/-! ## Translation of expressions -/

section General
variable {V : Type*} [LinearOrder V] {K A E O R : Type*} [Zero K] {M : Man K A} {T : Kind K E O}
  {Good : ℕ → E → Prop} {Ok : A → Prop}

/-- the insertion of dimensions of `Moves e1 e d` translates expressions over `e1` to expressions over `e` -/
theorem add_expr_moves (S : T.Spec Good) {e1 e : Env V} (hsz : e.size ≤ dimMax) {d : Dimchange}
    (hm : Moves e1 e d) {x : E} (hg : Good e1.size x) :
    Good e.size (T.addDim x d.dim) ∧
    ∀ (ρ : V → K) o, T.Val (T.addDim x d.dim) (pt e ρ) o ↔ T.Val x (pt e1 ρ) o := by
  have hs := hm.size
  obtain ⟨g1, g2⟩ := S.add e1.size x d.dim hg hm.2.2.2.1.1 (fun p hp => hm.2.2.2.1.2.1 p hp) (by omega)
  rw [← hs] at g1
  refine ⟨g1, fun ρ o => (g2 _ o).trans ?_⟩
  have : ∀ k, k < e1.size → pt e ρ (k + d.dim.countP (fun p => decide (p ≤ k))) = pt e1 ρ k := fun k hk => by
    rw [pt, pt, hm.2.2.2.2 k hk]
  exact ⟨S.congr _ _ hg _ _ _ this, S.congr _ _ hg _ _ _ fun k hk => (this k hk).symm⟩

/-- An expression whose environment is included in `env` is translated to one over `env` with the same
values; it is refused only when its environment is not included. -/
theorem C76_extend (S : T.Spec Good) (junk : ℕ) (same : Bool) (env : Env V) (he : env.Wf)
    (hsz : env.size ≤ dimMax) (x : Expr1 V E) (hx : x.env.Wf) (hsame : same = true → env = x.env) :
    (Sub x.env env → Good x.env.size x.expr → ∃ e', extend T.addDim junk same env x = .ok e' ∧
      Good env.size e' ∧ ∀ (ρ : V → K) o, T.Val e' (pt env ρ) o ↔ x.Val T ρ o) ∧
    (extend T.addDim junk same env x = .null → ¬Sub x.env env) := by
  constructor
  · intro hsub hg
    unfold extend
    by_cases hq : isEq same env x.env = true
    · rw [if_pos hq]
      have := (C46_is_eq same env x.env hsame).1 hq
      exact ⟨_, rfl, this ▸ hg, fun ρ o => by rw [Expr1.Val, this]⟩
    · rw [if_neg hq]
      obtain ⟨d, hd, hm⟩ := (C47_dimchange_partial junk x.env env hx he).1 hsub
      rw [hd]
      obtain ⟨a, b⟩ := add_expr_moves S hsz hm hg
      exact ⟨_, rfl, a, b⟩
  · intro h hsub
    unfold extend at h
    split_ifs at h
    obtain ⟨d, hd, -⟩ := (C47_dimchange_partial junk x.env env hx he).1 hsub
    rw [hd] at h
    cases h

/-- `ap_linexpr1_extend_environment` and the like -/
theorem C76_extend_environment (S : T.Spec Good) (junk : ℕ) (nenv : Env V) (he : nenv.Wf)
    (hsz : nenv.size ≤ dimMax) (x : Expr1 V E) (hx : x.env.Wf) (hsub : Sub x.env nenv)
    (hg : Good x.env.size x.expr) :
    ∃ y, extendEnvironment T.addDim junk nenv x = .ok y ∧ y.env = nenv ∧ Good nenv.size y.expr ∧
      ∀ (ρ : V → K) o, y.Val T ρ o ↔ x.Val T ρ o := by
  obtain ⟨d, hd, hm⟩ := (C47_dimchange_partial junk x.env nenv hx he).1 hsub
  obtain ⟨a, b⟩ := add_expr_moves S hsz hm hg
  exact ⟨⟨nenv, T.addDim x.expr d.dim⟩, by rw [extendEnvironment, hd]; rfl, rfl, a, b⟩

/-- arrays of expressions, observed by index -/
def listKind (T : Kind K E O) : Kind K (List E) (ℕ × O) where
  addDim l pos := l.map (T.addDim · pos)
  check i r l := l.all (T.check i r)
  Val l x o := ∃ e, l[o.1]? = some e ∧ T.Val e x o.2

theorem listSpec (S : T.Spec Good) : (listKind T).Spec (fun n l => ∀ e ∈ l, Good n e) where
  congr n l h x y o hxy := by
    rintro ⟨e, he, hv⟩
    exact ⟨e, he, S.congr n e (h e (List.mem_of_getElem? he)) x y _ hxy hv⟩
  check i r l h := List.all_eq_true.2 fun e he => S.check i r e (h e he)
  add n l pos h hs hle hn := by
    refine ⟨fun e he => ?_, fun x o => ?_⟩
    · obtain ⟨e, he', rfl⟩ := List.mem_map.1 he
      exact (S.add n e pos (h e he') hs hle hn).1
    · constructor
      · rintro ⟨e, he, hv⟩
        simp only [listKind, List.getElem?_map, Option.map_eq_some_iff] at he
        obtain ⟨e, he, rfl⟩ := he
        exact ⟨e, he, ((S.add n e pos (h e (List.mem_of_getElem? he)) hs hle hn).2 x o.2).1 hv⟩
      · rintro ⟨e, he, hv⟩
        exact ⟨T.addDim e pos, by simp [listKind, he],
          ((S.add n e pos (h e (List.mem_of_getElem? he)) hs hle hn).2 x o.2).2 hv⟩

/-! ## Queries -/

/-- Bounding an expression or testing a constraint at level 1 is doing so at level 0 with an expression having
the same values.  On an environment that is refused the default answer is given, with an exception. -/
theorem C76_query (S : T.Spec Good) (f : A → E → R) (dflt : R) (junk : ℕ) (same : Bool) (a : Abs1 V A)
    (ha : Abs1.Wf M Ok a) (x : Expr1 V E) (hx : x.env.Wf) (hsame : same = true → a.env = x.env)
    (hsub : Sub x.env a.env) (hg : Good x.env.size x.expr) :
    ∃ e', query M T f dflt junk same a x = .ok (f a.val e', false) ∧ Good (M.dim a.val) e' ∧
      ∀ (ρ : V → K) o, T.Val e' (pt a.env ρ) o ↔ x.Val T ρ o := by
  obtain ⟨e', h1, h2, h3⟩ := (C76_extend S junk same a.env ha.env ha.size x hx hsame).1 hsub hg
  rw [← ha.dim] at h2
  refine ⟨e', ?_, h2, h3⟩
  rw [query, h1]
  simp only [Abs0.query]
  rw [if_pos (S.check _ _ e' h2)]

/-- Bounding a variable and the like: the level-0 answer on the dimension of the variable; the default and an
exception iff the variable is unknown. -/
theorem C76_query_var (f : A → ℕ → R) (dflt : R) (a : Abs1 V A) (ha : Abs1.Wf M Ok a) (v : V) :
    (v ∈ a.env.vars → ∃ d, queryVar M f dflt a v = (f a.val d, false) ∧ d < M.dim a.val ∧
      ∀ ρ : V → K, pt a.env ρ d = ρ v) ∧
    (v ∉ a.env.vars → queryVar M f dflt a v = (dflt, true)) := by
  obtain ⟨h1, h2⟩ := C48_dim_of_var a.env ha.env ha.size v
  constructor
  · intro hv
    obtain ⟨p1, p2, _, _⟩ := h1 hv
    have hsz := ha.size
    refine ⟨dimOfVar a.env v, ?_, ha.dim ▸ p1, fun ρ => pt_eq ρ p2⟩
    rw [queryVar, if_neg (by omega), Abs0.queryDim, if_pos (ha.dim ▸ p1)]
  · intro hv
    rw [queryVar, if_pos (h2.1 hv)]

/-! ## Meet with constraints -/

/-- Meeting with constraints at level 1 is doing so at level 0 with constraints having the same values; the
result with an exception is larger than the argument. -/
theorem C76_meet_cons {ex : Prop} (SM : M.Spec Ok ex) (S : T.Spec Good) (f : A → List E → A) (junk : ℕ) (same : Bool) (a : Abs1 V A)
    (ha : Abs1.Wf M Ok a) (x : Expr1 V (List E)) (hx : x.env.Wf) (hsame : same = true → a.env = x.env) :
    (Sub x.env a.env → (∀ c ∈ x.expr, Good x.env.size c) →
      ∃ l, meetCons M T f junk same a x = .ok (⟨a.env, f a.val l⟩, false) ∧ (∀ c ∈ l, Good (M.dim a.val) c) ∧
        List.Forall₂ (fun c c' => ∀ (ρ : V → K) o, T.Val c' (pt a.env ρ) o ↔ T.Val c (pt x.env ρ) o) x.expr l) ∧
    (∀ r, meetCons M T f junk same a x = .ok (r, true) → r.env = a.env ∧ ∀ ρ : V → K, Gam M a ρ → Gam M r ρ) := by
  have hE := C76_extend (listSpec S) junk same a.env ha.env ha.size x hx hsame
  constructor
  · intro hsub hg
    have hlen : ∀ l, extend (listKind T).addDim junk same a.env x = .ok l → l.length = x.expr.length := by
      intro l hl
      unfold extend at hl
      split_ifs at hl
      · cases hl; rfl
      · obtain ⟨d, hd, -⟩ := (C47_dimchange_partial junk x.env a.env hx ha.env).1 hsub
        rw [hd] at hl
        cases hl
        simp [listKind]
    obtain ⟨l, h1, h2, h3⟩ := hE.1 hsub hg
    have hl := hlen l h1
    rw [← ha.dim] at h2
    have h1' : extend (fun l pos => l.map (T.addDim · pos)) junk same a.env x = .ok l := h1
    refine ⟨l, ?_, h2, ?_⟩
    · rw [meetCons, h1']
      have hc : l.all (T.check (M.intdim a.val) (M.realdim a.val)) = true := (listSpec S).check _ _ l h2
      simp only [Abs0.meetCons, if_pos hc]
    · refine List.forall₂_iff_get.2 ⟨hl.symm, fun i hi hi' ρ o => ?_⟩
      have := h3 ρ (i, o)
      simp only [listKind, Expr1.Val] at this
      rw [List.getElem?_eq_getElem hi, List.getElem?_eq_getElem hi'] at this
      simpa using this
  · intro r hr
    rw [meetCons] at hr
    split at hr
    · simp only [Abs0.meetCons, Out.ok.injEq] at hr
      split_ifs at hr with hc
      · simp at hr
      · simp only [Prod.mk.injEq, and_true] at hr
        subst hr
        exact ⟨rfl, fun ρ _ => (SM.top _ _).2.2 _⟩
    · simp only [Out.ok.injEq, Prod.mk.injEq, and_true] at hr
      subst hr
      exact ⟨rfl, fun ρ h => h⟩
    · cases hr
    · cases hr

/-! ## Assignments and substitutions -/

theorem asssubArgs_spec (S : T.Spec Good) (junk : ℕ) (env : Env V) (he : env.Wf) (hsz : env.size ≤ dimMax)
    (l : List (V × Expr1 V E × Bool)) (hv : ∀ p ∈ l, p.1 ∈ env.vars)
    (hl : ∀ p ∈ l, p.2.1.env.Wf ∧ Sub p.2.1.env env ∧ (p.2.2 = true → env = p.2.1.env) ∧
      Good p.2.1.env.size p.2.1.expr) :
    ∃ l', asssubArgs T junk env l = .ok l' ∧
      List.Forall₂ (fun p q => q.1 < env.size ∧ varOfDim env q.1 = some p.1 ∧ Good env.size q.2 ∧
        ∀ (ρ : V → K) o, T.Val q.2 (pt env ρ) o ↔ p.2.1.Val T ρ o) l l' := by
  induction l with
  | nil => exact ⟨[], rfl, .nil⟩
  | cons p l ih =>
    obtain ⟨v, x, same⟩ := p
    obtain ⟨l', h1, h2⟩ := ih (fun p hp => hv p (by simp [hp])) (fun p hp => hl p (by simp [hp]))
    obtain ⟨g1, g2, g3, g4⟩ := hl (v, x, same) (by simp)
    obtain ⟨e', k1, k2, k3⟩ := (C76_extend S junk same env he hsz x g1 g3).1 g2 g4
    obtain ⟨p1, p2, _, _⟩ := (C48_dim_of_var env he hsz v).1 (hv (v, x, same) (by simp))
    refine ⟨(dimOfVar env v, e') :: l', ?_, .cons ⟨p1, p2, k2, k3⟩ h2⟩
    rw [asssubArgs, if_neg (by omega), k1, h1]
    rfl

/-- Parallel assignment or substitution at level 1 (at least one variable) is that of level 0 on the
dimensions of the variables, with expressions having the same values. -/
theorem C76_asssub (S : T.Spec Good) (f : A → List (ℕ × E) → Option A → A) (junk : ℕ) (same : Bool)
    (a : Abs1 V A) (ha : Abs1.Wf M Ok a) (l : List (V × Expr1 V E × Bool)) (hne : l ≠ [])
    (hv : ∀ p ∈ l, p.1 ∈ a.env.vars)
    (hl : ∀ p ∈ l, p.2.1.env.Wf ∧ Sub p.2.1.env a.env ∧ (p.2.2 = true → a.env = p.2.1.env) ∧
      Good p.2.1.env.size p.2.1.expr)
    (dest : Option (Abs1 V A))
    (hd : ∀ b, dest = some b → Abs1.Wf M Ok b ∧ b.env = a.env) :
    ∃ l', asssub M T f junk same a l dest = .ok (⟨a.env, f a.val l' (dest.map Abs1.val)⟩, false) ∧
      List.Forall₂ (fun p q => q.1 < M.dim a.val ∧ varOfDim a.env q.1 = some p.1 ∧ Good (M.dim a.val) q.2 ∧
        ∀ (ρ : V → K) o, T.Val q.2 (pt a.env ρ) o ↔ p.2.1.Val T ρ o) l l' := by
  obtain ⟨l', h1, h2⟩ := asssubArgs_spec S junk a.env ha.env ha.size l hv hl
  rw [← ha.dim] at h2
  refine ⟨l', ?_, h2⟩
  have hlen : l'.length = l.length := h2.length_eq.symm
  have hl0 : l.length ≠ 0 := by simpa using hne
  have hmem : ∀ q ∈ l', q.1 < M.dim a.val ∧ Good (M.dim a.val) q.2 := fun q hq => by
    obtain ⟨i, hi, rfl⟩ := List.mem_iff_getElem.1 hq
    have := (List.forall₂_iff_get.1 h2).2 i (by omega) hi
    exact ⟨this.1, this.2.2.1⟩
  have hdest : (match (generalizing := false) dest with | some b => isEq same a.env b.env | none => true) = true := by
    cases dest with
    | none => rfl
    | some b =>
      have := (hd b rfl).2
      simp only
      rw [this]
      cases same with
      | true => simp [isEq]
      | false => exact (C46_is_eq false _ _ (by simp)).2 rfl
  have hdest' : (match dest.map Abs1.val with | some b => Abs0.checkAbstract2 M a.val b | none => true) = true := by
    cases dest with
    | none => rfl
    | some b =>
      obtain ⟨hb, he⟩ := hd b rfl
      have h1 := ha.dims; have h2 := hb.dims
      rw [he] at h2
      simp only [Option.map_some, Abs0.checkAbstract2]
      simp [h1.1, h1.2, h2.1, h2.2]
  have hc1 : Abs0.checkDimArray M a.val (l'.map Prod.fst) = true := by
    refine Abs0.checkDimArray_iff.2 fun d hd => ?_
    obtain ⟨q, hq, rfl⟩ := List.mem_map.1 hd
    exact (hmem q hq).1
  have hc2 : l'.all (fun p => T.check (M.intdim a.val) (M.realdim a.val) p.2) = true :=
    List.all_eq_true.2 fun q hq => S.check _ _ _ (hmem q hq).2
  have h0 : Abs0.asssub M T f a.val l' (dest.map Abs1.val) = (f a.val l' (dest.map Abs1.val), false) := by
    unfold Abs0.asssub
    rw [if_neg (by omega), if_pos]
    rw [Bool.and_eq_true, Bool.and_eq_true]; exact ⟨⟨hdest', hc1⟩, hc2⟩
  unfold Abs1.asssub
  rw [if_neg hl0]
  refine (if_pos hdest).trans ?_
  rw [h1]
  simp only [h0]

/-- assignment of no variable: the argument, or its meet with the destination -/
theorem C76_asssub_nil {ex : Prop} (SM : M.Spec Ok ex) (f : A → List (ℕ × E) → Option A → A) (junk : ℕ) (same : Bool)
    (a : Abs1 V A) (ha : Abs1.Wf M Ok a) (dest : Option (Abs1 V A))
    (hd : ∀ b, dest = some b → Abs1.Wf M Ok b ∧ b.env = a.env) :
    ∃ r, asssub M T f junk same a [] dest = .ok (r, false) ∧ r.env = a.env ∧
      ∀ ρ : V → K, Gam M r ρ ↔ Gam M a ρ ∧ ∀ b, dest = some b → Gam M b ρ := by
  cases dest with
  | none => exact ⟨a, rfl, rfl, fun ρ => by simp⟩
  | some b =>
    obtain ⟨hb, he⟩ := hd b rfl
    have hq : isEq same a.env b.env = true := by
      rw [he]
      cases same with
      | true => simp [isEq]
      | false => exact (C46_is_eq false _ _ (by simp)).2 rfl
    have h1 := ha.dims; have h2 := hb.dims
    have h2' := he ▸ h2
    have hc : Abs0.checkAbstract2 M a.val b.val = true := by
      simp [Abs0.checkAbstract2, h1.1, h1.2, h2'.1, h2'.2]
    refine ⟨⟨a.env, M.meet a.val b.val⟩, ?_, rfl, fun ρ => ?_⟩
    · simp only [asssub, List.length_nil, if_true, meetjoin, if_pos hq, Abs0.meetjoin, if_pos hc]
    · have := (SM.meet a.val b.val ha.ok hb.ok ⟨h2'.1.trans h1.1.symm, h2'.2.trans h1.2.symm⟩).2.2 (pt a.env ρ)
      simp only [Gam]
      rw [this]
      simp [he]

end General

/-! ## Soundness on valuations -/

section Sound
variable {V : Type*} [LinearOrder V] {K A E : Type*} [Zero K] {M : Man K A} {T : Kind K E K}
  {Good : ℕ → E → Prop} {Ok : A → Prop}

/-- the array of level 0 describes on points what the array of level 1 does on valuations -/
theorem points_of_valuations {env : Env V} (he : env.Wf) {l : List (V × Expr1 V E × Bool)} {l' : List (ℕ × E)}
    (h2 : List.Forall₂ (fun p q => q.1 < env.size ∧ varOfDim env q.1 = some p.1 ∧ Good env.size q.2 ∧
        ∀ (ρ : V → K) o, T.Val q.2 (pt env ρ) o ↔ p.2.1.Val T ρ o) l l')
    (hn : (l.map Prod.fst).Nodup) (ρ ρ' : V → K) (hval : ∀ p ∈ l, p.2.1.Val T ρ (ρ' p.1))
    (hkeep : ∀ u ∈ env.vars, u ∉ l.map Prod.fst → ρ' u = ρ u) :
    (l'.map Prod.fst).Nodup ∧ (∀ q ∈ l', q.1 < env.size ∧ Good env.size q.2) ∧
    (∀ q ∈ l', T.Val q.2 (pt env ρ) (pt env ρ' q.1)) ∧
    ∀ d, d ∉ l'.map Prod.fst → pt env ρ' d = pt env ρ d := by
  have hmem : ∀ q ∈ l', ∃ p ∈ l, q.1 < env.size ∧ varOfDim env q.1 = some p.1 ∧ Good env.size q.2 ∧
        ∀ (ρ : V → K) o, T.Val q.2 (pt env ρ) o ↔ p.2.1.Val T ρ o := fun q hq => by
    obtain ⟨i, hi, rfl⟩ := List.mem_iff_getElem.1 hq
    have hl := h2.length_eq
    exact ⟨_, List.getElem_mem (by omega), (List.forall₂_iff_get.1 h2).2 i (by omega) hi⟩
  have hmem' : ∀ p ∈ l, ∃ q ∈ l', varOfDim env q.1 = some p.1 := fun p hp => by
    obtain ⟨i, hi, rfl⟩ := List.mem_iff_getElem.1 hp
    have hl := h2.length_eq
    exact ⟨_, List.getElem_mem (by omega), ((List.forall₂_iff_get.1 h2).2 i hi (by omega)).2.1⟩
  refine ⟨?_, fun q hq => ?_, fun q hq => ?_, fun d hd => ?_⟩
  · have : (l'.map Prod.fst).map (varOfDim env) = (l.map Prod.fst).map some := by
      clear hmem hmem' hval hkeep hn
      induction h2 with
      | nil => rfl
      | cons h _ ih => simp only [List.map_cons, h.2.1, ih]
    have h3 : ((l.map Prod.fst).map some).Nodup := hn.map (Option.some_injective _)
    rw [← this] at h3
    exact h3.of_map
  · obtain ⟨p, _, h⟩ := hmem q hq
    exact ⟨h.1, h.2.2.1⟩
  · obtain ⟨p, hp, h⟩ := hmem q hq
    rw [pt_eq ρ' h.2.1]
    exact (h.2.2.2 ρ _).2 (hval p hp)
  · rw [pt, pt]
    rcases hv : varOfDim env d with _ | u
    · rfl
    · refine hkeep u (mem_vars_iff.2 ⟨d, hv⟩) fun hu => hd ?_
      obtain ⟨p, hp, rfl⟩ := List.mem_map.1 hu
      obtain ⟨q, hq, hqv⟩ := hmem' p hp
      rw [varOfDim_inj he hv hqv]
      exact List.mem_map.2 ⟨q, hq, rfl⟩

/-- If the assignment of level 0 is sound on the value, that of level 1 contains each valuation obtained by
giving to each assigned variable one of the values of its expression, all evaluated before. -/
theorem C76_assign_sound (S : T.Spec Good) (f : A → List (ℕ × E) → Option A → A) (junk : ℕ) (same : Bool)
    (a : Abs1 V A) (ha : Abs1.Wf M Ok a) (l : List (V × Expr1 V E × Bool)) (hne : l ≠ [])
    (hv : ∀ p ∈ l, p.1 ∈ a.env.vars) (hn : (l.map Prod.fst).Nodup)
    (hl : ∀ p ∈ l, p.2.1.env.Wf ∧ Sub p.2.1.env a.env ∧ (p.2.2 = true → a.env = p.2.1.env) ∧
      Good p.2.1.env.size p.2.1.expr)
    (dest : Option (Abs1 V A)) (hd : ∀ b, dest = some b → Abs1.Wf M Ok b ∧ b.env = a.env)
    (hf : ∀ l' x y, l'.length = l.length → (l'.map Prod.fst).Nodup →
      (∀ q ∈ l', q.1 < M.dim a.val ∧ Good (M.dim a.val) q.2) →
      M.Gam a.val x → (∀ q ∈ l', T.Val q.2 x (y q.1)) → (∀ d, d ∉ l'.map Prod.fst → y d = x d) →
      (∀ b, dest = some b → M.Gam b.val y) → M.Gam (f a.val l' (dest.map Abs1.val)) y) :
    ∃ r, asssub M T f junk same a l dest = .ok (r, false) ∧ r.env = a.env ∧
      ∀ ρ ρ' : V → K, Gam M a ρ → (∀ p ∈ l, p.2.1.Val T ρ (ρ' p.1)) →
        (∀ u ∈ a.env.vars, u ∉ l.map Prod.fst → ρ' u = ρ u) → (∀ b, dest = some b → Gam M b ρ') → Gam M r ρ' := by
  obtain ⟨l', h1, h2⟩ := C76_asssub (K := K) S f junk same a ha l hne hv hl dest hd
  refine ⟨_, h1, rfl, fun ρ ρ' hρ hval hkeep hdest => ?_⟩
  have hlen := h2.length_eq.symm
  rw [ha.dim] at h2 hf
  obtain ⟨p1, p2, p3, p4⟩ := points_of_valuations ha.env h2 hn ρ ρ' hval hkeep
  refine hf l' (pt a.env ρ) (pt a.env ρ') hlen p1 p2 hρ p3 p4 fun b hb => ?_
  have := hdest b hb
  rw [Gam, (hd b hb).2] at this
  exact this

/-- If the substitution of level 0 is sound on the value, that of level 1 contains each valuation from which
the assignment may lead into the argument. -/
theorem C76_substitute_sound (S : T.Spec Good) (f : A → List (ℕ × E) → Option A → A) (junk : ℕ) (same : Bool)
    (a : Abs1 V A) (ha : Abs1.Wf M Ok a) (l : List (V × Expr1 V E × Bool)) (hne : l ≠ [])
    (hv : ∀ p ∈ l, p.1 ∈ a.env.vars) (hn : (l.map Prod.fst).Nodup)
    (hl : ∀ p ∈ l, p.2.1.env.Wf ∧ Sub p.2.1.env a.env ∧ (p.2.2 = true → a.env = p.2.1.env) ∧
      Good p.2.1.env.size p.2.1.expr)
    (dest : Option (Abs1 V A)) (hd : ∀ b, dest = some b → Abs1.Wf M Ok b ∧ b.env = a.env)
    (hf : ∀ l' x y, l'.length = l.length → (l'.map Prod.fst).Nodup →
      (∀ q ∈ l', q.1 < M.dim a.val ∧ Good (M.dim a.val) q.2) →
      M.Gam a.val y → (∀ q ∈ l', T.Val q.2 x (y q.1)) → (∀ d, d ∉ l'.map Prod.fst → y d = x d) →
      (∀ b, dest = some b → M.Gam b.val x) → M.Gam (f a.val l' (dest.map Abs1.val)) x) :
    ∃ r, asssub M T f junk same a l dest = .ok (r, false) ∧ r.env = a.env ∧
      ∀ ρ ρ' : V → K, Gam M a ρ' → (∀ p ∈ l, p.2.1.Val T ρ (ρ' p.1)) →
        (∀ u ∈ a.env.vars, u ∉ l.map Prod.fst → ρ' u = ρ u) → (∀ b, dest = some b → Gam M b ρ) → Gam M r ρ := by
  obtain ⟨l', h1, h2⟩ := C76_asssub (K := K) S f junk same a ha l hne hv hl dest hd
  refine ⟨_, h1, rfl, fun ρ ρ' hρ hval hkeep hdest => ?_⟩
  have hlen := h2.length_eq.symm
  rw [ha.dim] at h2 hf
  obtain ⟨p1, p2, p3, p4⟩ := points_of_valuations ha.env h2 hn ρ ρ' hval hkeep
  refine hf l' (pt a.env ρ) (pt a.env ρ') hlen p1 p2 hρ p3 p4 fun b hb => ?_
  have := hdest b hb
  rw [Gam, (hd b hb).2] at this
  exact this

end Sound

/-! ## Boxes -/

section BoxInst
variable {V : Type*} [LinearOrder V] {K : Type*} [LinearOrder K] [Field K] [IsStrictOrderedRing K]

/-- `ap_abstract1_bound_linexpr` on boxes: every value of the expression is in the result -/
theorem C76_box_bound_linexpr (R : Rnd K) (destr : Bool) (junk : ℕ) (same : Bool) (a : Abs1 V (Box K))
    (ha : Abs1.Wf (boxMan destr) Box.Wf a) (x : Expr1 V (Linexpr K)) (hx : x.env.Wf)
    (hsame : same = true → a.env = x.env) (hsub : Sub x.env a.env) (hg : GoodLin x.env.size x.expr) :
    ∃ i, query (boxMan destr) Kind.linexpr (Box.boundLinexpr R) Itv.top junk same a x = .ok (i, false) ∧
      ∀ ρ, Gam (boxMan destr) a ρ → ∀ v, x.Val Kind.linexpr ρ v → v ∈ i := by
  obtain ⟨e', h1, h2, h3⟩ := C76_query linexprSpec (Box.boundLinexpr R) Itv.top junk same a ha x hx hsame hsub hg
  exact ⟨_, h1, fun ρ hρ v hv => C12_bound_linexpr_sound R a.val e' h2.inDim _ hρ v ((h3 ρ v).2 hv)⟩

/-- `ap_abstract1_bound_variable` on boxes: exactly the values of the variable -/
theorem C76_box_bound_variable (destr : Bool) (a : Abs1 V (Box K)) (ha : Abs1.Wf (boxMan destr) Box.Wf a)
    (v : V) (hv : v ∈ a.env.vars) :
    ∃ i, queryVar (boxMan destr) Box.boundDimension Itv.top a v = (i, false) ∧
      ∀ y, y ∈ i ↔ ∃ ρ, Gam (boxMan destr) a ρ ∧ ρ v = y := by
  obtain ⟨d, h1, h2, h3⟩ := (C76_query_var (K := K) Box.boundDimension Itv.top a ha v).1 hv
  refine ⟨_, h1, fun y => (C12_bound_dimension a.val ha.ok d h2 y).1.trans ⟨?_, ?_⟩⟩
  · rintro ⟨x, hx, rfl⟩
    obtain ⟨ρ, hρ⟩ := exists_val ha.env x
    refine ⟨ρ, (boxSpec destr).congr _ ha.ok _ _ (fun k hk => (hρ k (ha.dim ▸ hk)).symm) hx, ?_⟩
    rw [← h3 ρ, hρ d (ha.dim ▸ h2)]
  · rintro ⟨ρ, hρ, rfl⟩
    exact ⟨_, hρ, h3 ρ⟩

/-- `ap_abstract1_sat_lincons` on boxes: a positive answer is right -/
theorem C76_box_sat_lincons (R : Rnd K) (destr : Bool) (junk : ℕ) (same : Bool) (a : Abs1 V (Box K))
    (ha : Abs1.Wf (boxMan destr) Box.Wf a) (x : Expr1 V (Lincons K)) (hx : x.env.Wf)
    (hsame : same = true → a.env = x.env) (hsub : Sub x.env a.env) (hg : GoodLin x.env.size x.expr.expr) :
    ∃ r, query (boxMan destr) Kind.lincons (Box.satLincons R) (some false) junk same a x = .ok (r, false) ∧
      (r = some true → ∀ ρ, Gam (boxMan destr) a ρ → x.expr.HoldsAll (pt x.env ρ)) := by
  obtain ⟨c, h1, h2, h3⟩ := C76_query linconsSpec (Box.satLincons R) (some false) junk same a ha x hx hsame hsub hg
  refine ⟨_, h1, fun hr ρ hρ v hv => ?_⟩
  obtain ⟨t, hv'⟩ := (h3 ρ (x.expr.typ, v)).2 ⟨rfl, hv⟩
  have := C17_sat_lincons_sound R a.val c h2.inDim hr _ hρ v hv'
  rwa [show c.typ = x.expr.typ from t] at this

/-- `ap_abstract1_meet_lincons_array` on rational boxes: the valuations (integer on integer variables) that
satisfy the constraints are kept -/
theorem C76_box_meet_lincons (destr : Bool) (algo junk : ℕ) (same : Bool) (a : Abs1 V (Box ℚ))
    (ha : Abs1.Wf (boxMan destr) Box.Wf a) (x : Expr1 V (List (Lincons ℚ))) (hx : x.env.Wf)
    (hsame : same = true → a.env = x.env) (hsub : Sub x.env a.env)
    (hg : ∀ c ∈ x.expr, GoodLin x.env.size c.expr) :
    ∃ r, meetCons (boxMan destr) Kind.lincons
        (fun b l => b.meetLinconsArray Rnd.exact ILincons.reduceIntegerRat l algo) junk same a x = .ok (r, false) ∧
      r.env = a.env ∧ (∀ ρ, Gam (boxMan destr) r ρ → Gam (boxMan destr) a ρ) ∧
      ∀ ρ, Gam (boxMan destr) a ρ → (∀ u ∈ a.env.ints, ∃ n : ℤ, ρ u = n) →
        (∀ c ∈ x.expr, c.Holds (pt x.env ρ)) → Gam (boxMan destr) r ρ := by
  obtain ⟨l, h1, h2, h3⟩ := (C76_meet_cons (boxSpec destr) linconsSpec
    (fun b l => b.meetLinconsArray Rnd.exact ILincons.reduceIntegerRat l algo) junk same a ha x hx hsame).1 hsub hg
  refine ⟨_, h1, rfl, fun ρ hρ => C16_meet_lincons_le _ _ _ _ _ _ hρ, fun ρ hρ hint hc => ?_⟩
  refine C16_meet_lincons_sound a.val l (fun c hc => (h2 c hc).inDim) algo _ hρ (fun d hd => ?_) fun c hc' => ?_
  · have hd' : d < a.env.intdim := ha.dims.1 ▸ hd
    have hd2 : d < a.env.ints.length := hd'
    have hv : varOfDim a.env d = some a.env.ints[d] := by
      rw [varOfDim, vars, List.getElem?_append_left hd2, List.getElem?_eq_getElem hd2]
    rw [pt_eq ρ hv]
    exact hint _ (List.getElem_mem hd2)
  · obtain ⟨i, hi, rfl⟩ := List.mem_iff_getElem.1 hc'
    have hl := h3.length_eq
    have h4 := (List.forall₂_iff_get.1 h3).2 i (by omega) hi
    obtain ⟨v, hv, hr⟩ := hc _ (List.getElem_mem (by omega : i < x.expr.length))
    obtain ⟨t, hv'⟩ := (h4 ρ (_, v)).2 ⟨rfl, hv⟩
    refine ⟨v, hv', ?_⟩
    have ht : l[i].typ = x.expr[i].typ := t
    rw [ht]; exact hr

/-- `ap_abstract1_assign_linexpr_array` on boxes -/
theorem C76_box_assign_linexpr (R : Rnd K) (destr : Bool) (junk : ℕ) (same : Bool)
    (a : Abs1 V (Box K)) (ha : Abs1.Wf (boxMan destr) Box.Wf a) (l : List (V × Expr1 V (Linexpr K) × Bool))
    (hne : l ≠ []) (hv : ∀ p ∈ l, p.1 ∈ a.env.vars) (hn : (l.map Prod.fst).Nodup)
    (hl : ∀ p ∈ l, p.2.1.env.Wf ∧ Sub p.2.1.env a.env ∧ (p.2.2 = true → a.env = p.2.1.env) ∧
      GoodLin p.2.1.env.size p.2.1.expr)
    (dest : Option (Abs1 V (Box K))) (hd : ∀ b, dest = some b → Abs1.Wf (boxMan destr) Box.Wf b ∧ b.env = a.env) :
    ∃ r, asssub (boxMan destr) Kind.linexpr (Box.assignLinexprArray R) junk same a l dest = .ok (r, false) ∧
      r.env = a.env ∧
      ∀ ρ ρ' : V → K, Gam (boxMan destr) a ρ → (∀ p ∈ l, p.2.1.Val Kind.linexpr ρ (ρ' p.1)) →
        (∀ u ∈ a.env.vars, u ∉ l.map Prod.fst → ρ' u = ρ u) → (∀ b, dest = some b → Gam (boxMan destr) b ρ') →
        Gam (boxMan destr) r ρ' := by
  refine C76_assign_sound linexprSpec _ junk same a ha l hne hv hn hl dest hd ?_
  intro l' x y _ hn' hl' hx hval hkeep hdest
  cases dest with
  | none =>
    exact C14_assign_linexpr_sound R a.val l' hn' (fun q hq => (hl' q hq).2.inDim) x y hx hval fun d _ hd => hkeep d hd
  | some b =>
    obtain ⟨hb, he⟩ := hd b rfl
    have hdim : a.val.dim = b.val.dim := by
      have h1 := ha.dims; have h2 := hb.dims
      rw [he] at h2
      show a.val.intdim + a.val.realdim = b.val.intdim + b.val.realdim
      have e1 : a.val.intdim = _ := h1.1
      have e2 : a.val.realdim = _ := h1.2
      have e3 : b.val.intdim = _ := h2.1
      have e4 : b.val.realdim = _ := h2.2
      rw [e1, e2, e3, e4]
    exact C14_assign_linexpr_dest_sound R a.val b.val ha.ok hb.ok hdim l' hn' (fun q hq => (hl' q hq).2.inDim) x y hx
      hval (fun d _ hd => hkeep d hd) (hdest b rfl)

/-- `ap_abstract1_bound_texpr` on boxes, on expressions without powers -/
theorem C76_box_bound_texpr_partial [FloorRing K] (R : Rnd K) (o : RootOps K) (ho : o.SqrtOK) (F : FltOps K)
    (S : FltSem K) (hF : FltOK F S) (destr : Bool) (junk : ℕ) (same : Bool) (a : Abs1 V (Box K))
    (ha : Abs1.Wf (boxMan destr) Box.Wf a) (x : Expr1 V (Texpr K)) (hx : x.env.Wf)
    (hsame : same = true → a.env = x.env) (hsub : Sub x.env a.env)
    (hg : x.expr.InDim x.env.size ∧ x.expr.NoPow) :
    ∃ i, query (boxMan destr) (Kind.texpr S) (Box.boundTexpr R o F) Itv.top junk same a x = .ok (i, false) ∧
      ∀ ρ, Gam (boxMan destr) a ρ → ∀ v, x.Val (Kind.texpr S) ρ v → v ∈ i := by
  obtain ⟨e', h1, h2, h3⟩ := C76_query (texprSpecNoPow S) (Box.boundTexpr R o F) Itv.top junk same a ha x hx hsame
    hsub hg
  exact ⟨_, h1, fun ρ hρ v hv => C13_bound_texpr_sound_nopow R o ho F S hF a.val e' h2.1 h2.2 _ hρ v ((h3 ρ v).2 hv)⟩

/-- `ap_abstract1_assign_texpr_array` on boxes, without destination, on expressions without powers
(whose evaluation may be wrong, `C13_bound_texpr_unsound`) -/
theorem C76_box_assign_texpr_partial [FloorRing K] (R : Rnd K) (o : RootOps K) (ho : o.SqrtOK) (F : FltOps K)
    (S : FltSem K) (hF : FltOK F S) (destr : Bool) (junk : ℕ) (same : Bool)
    (a : Abs1 V (Box K)) (ha : Abs1.Wf (boxMan destr) Box.Wf a) (l : List (V × Expr1 V (Texpr K) × Bool))
    (hne : l ≠ []) (hv : ∀ p ∈ l, p.1 ∈ a.env.vars) (hn : (l.map Prod.fst).Nodup)
    (hl : ∀ p ∈ l, p.2.1.env.Wf ∧ Sub p.2.1.env a.env ∧ (p.2.2 = true → a.env = p.2.1.env) ∧
      p.2.1.expr.InDim p.2.1.env.size ∧ p.2.1.expr.NoPow) :
    ∃ r, asssub (boxMan destr) (Kind.texpr S) (Box.assignTexprArray R o F) junk same a l none = .ok (r, false) ∧
      r.env = a.env ∧
      ∀ ρ ρ' : V → K, Gam (boxMan destr) a ρ → (∀ p ∈ l, p.2.1.Val (Kind.texpr S) ρ (ρ' p.1)) →
        (∀ u ∈ a.env.vars, u ∉ l.map Prod.fst → ρ' u = ρ u) → Gam (boxMan destr) r ρ' := by
  obtain ⟨r, h1, h2, h3⟩ := C76_assign_sound (texprSpecNoPow S) (Box.assignTexprArray R o F) junk same a ha l hne hv hn hl
    none (by simp) (fun l' x y _ hn' hl' hx hval hkeep _ =>
      C14_assign_texpr_sound_partial R o ho F S hF a.val l' hn' (fun q hq => (hl' q hq).2.1)
        (fun p hp q hq => (hl' q hq).2.2.safe) x y hx hval fun d _ hd => hkeep d hd)
  exact ⟨r, h1, h2, fun ρ ρ' hρ hval hkeep => h3 ρ ρ' hρ hval hkeep (by simp)⟩

end BoxInst

/-! ## Octagons -/

section OctInst
variable {V : Type*} [LinearOrder V] {K : Type*} [LinearOrder K] [Field K] [IsStrictOrderedRing K] [FloorRing K]
  (R : Rnd K)

theorem oct_dim {R : Rnd K} {algo : ℤ} {u : Oct.Mem K} {a : Abs1 V (OctT K)}
    (ha : Abs1.Wf (octMan R algo u) (fun a => a.intdim ≤ a.dim) a) : a.val.dim = a.env.size := by
  have h1 : a.val.intdim = _ := ha.dims.1
  have h2 : a.val.dim - a.val.intdim = _ := ha.dims.2
  have h3 : a.val.intdim ≤ a.val.dim := ha.ok
  rw [Env.size]; omega

/-- `ap_abstract1_meet_lincons_array` on octagons: the valuations (integer on integer variables) that satisfy
the constraints are kept (strict constraints need representable coefficients, see
`C40_meet_lincons_sound`) -/
theorem C76_oct_meet_lincons (algo : ℤ) (u : Oct.Mem K) (junk : ℕ) (same : Bool) (a : Abs1 V (OctT K))
    (ha : Abs1.Wf (octMan R algo u) (fun a => a.intdim ≤ a.dim) a) (x : Expr1 V (List (Lincons K))) (hx : x.env.Wf)
    (hsame : same = true → a.env = x.env) (hsub : Sub x.env a.env)
    (hg : ∀ c ∈ x.expr, GoodLin x.env.size c.expr ∧ c.typ ≠ .sup) :
    ∃ r, meetCons (octMan R algo u) Kind.lincons (OctT.meetLinconsArray R algo) junk same a x = .ok (r, false) ∧
      r.env = a.env ∧ (∀ ρ, Gam (octMan R algo u) r ρ → Gam (octMan R algo u) a ρ) ∧
      ∀ ρ, Gam (octMan R algo u) a ρ → (∀ v ∈ a.env.ints, ∃ n : ℤ, ρ v = n) →
        (∀ c ∈ x.expr, c.Holds (pt x.env ρ)) → Gam (octMan R algo u) r ρ := by
  have S : (Kind.lincons (K := K)).Spec (fun n c => GoodLin n c.expr ∧ c.typ ≠ .sup) :=
    ⟨fun n e h => linconsSpec.congr n e h.1, fun i r e h => linconsSpec.check i r e h.1,
      fun n e pos h hs h1 h2 => ⟨⟨(linconsSpec.add n e pos h.1 hs h1 h2).1, h.2⟩,
        (linconsSpec.add n e pos h.1 hs h1 h2).2⟩⟩
  obtain ⟨l, h1, h2, h3⟩ := (C76_meet_cons (octSpec R algo u) S
    (OctT.meetLinconsArray R algo) junk same a ha x hx hsame).1 hsub hg
  have hdim : (octMan R algo u).dim a.val = a.val.dim := ha.dim.trans (oct_dim ha).symm
  rw [hdim] at h2
  refine ⟨_, h1, rfl, fun ρ hρ => C40_meet_lincons_le R algo _ _ _ hρ, fun ρ hρ hint hc => ?_⟩
  refine C40_meet_lincons_sound R algo a.val l _ (fun c hc => (h2 c hc).1.inDim) (fun c hc ht => absurd ht (h2 c hc).2)
    (fun d hd => ?_) hρ fun c hc' => ?_
  · have hd' : d < a.env.intdim := ha.dims.1 ▸ hd
    have hd2 : d < a.env.ints.length := hd'
    have hv : varOfDim a.env d = some a.env.ints[d] := by
      rw [varOfDim, vars, List.getElem?_append_left hd2, List.getElem?_eq_getElem hd2]
    rw [pt_eq ρ hv]
    exact hint _ (List.getElem_mem hd2)
  · obtain ⟨i, hi, rfl⟩ := List.mem_iff_getElem.1 hc'
    have hl := h3.length_eq
    have h4 := (List.forall₂_iff_get.1 h3).2 i (by omega) hi
    obtain ⟨v, hv, hr⟩ := hc _ (List.getElem_mem (by omega : i < x.expr.length))
    obtain ⟨t, hv'⟩ := (h4 ρ (_, v)).2 ⟨rfl, hv⟩
    refine ⟨v, hv', ?_⟩
    have ht : l[i].typ = x.expr[i].typ := t
    rw [ht]; exact hr

/-- `ap_abstract1_assign_linexpr_array` on octagons, two variables or more (for one variable the code is
unsound, `C41_assign_unsound`) -/
theorem C76_oct_assign_linexpr_partial (algo : ℤ) (u : Oct.Mem K) (junk : ℕ) (same : Bool)
    (a : Abs1 V (OctT K)) (ha : Abs1.Wf (octMan R algo u) (fun a => a.intdim ≤ a.dim) a)
    (l : List (V × Expr1 V (Linexpr K) × Bool))
    (hlen : 2 ≤ l.length) (hv : ∀ p ∈ l, p.1 ∈ a.env.vars) (hn : (l.map Prod.fst).Nodup)
    (hl : ∀ p ∈ l, p.2.1.env.Wf ∧ Sub p.2.1.env a.env ∧ (p.2.2 = true → a.env = p.2.1.env) ∧
      GoodLin p.2.1.env.size p.2.1.expr)
    (dest : Option (Abs1 V (OctT K)))
    (hd : ∀ b, dest = some b → Abs1.Wf (octMan R algo u) (fun a => a.intdim ≤ a.dim) b ∧ b.env = a.env) :
    ∃ r, asssub (octMan R algo u) Kind.linexpr (OctT.assignLinexprArray R algo u) junk same a l dest = .ok (r, false) ∧
      r.env = a.env ∧
      ∀ ρ ρ' : V → K, Gam (octMan R algo u) a ρ → (∀ p ∈ l, p.2.1.Val Kind.linexpr ρ (ρ' p.1)) →
        (∀ v ∈ a.env.vars, v ∉ l.map Prod.fst → ρ' v = ρ v) →
        (∀ b, dest = some b → Gam (octMan R algo u) b ρ') → Gam (octMan R algo u) r ρ' := by
  have hdim : (octMan R algo u).dim a.val = a.val.dim := ha.dim.trans (oct_dim ha).symm
  refine C76_assign_sound linexprSpec _ junk same a ha l (by rintro rfl; simp at hlen) hv hn hl dest hd ?_
  rw [hdim]
  intro l' x y hl1 hn' hl' hx hval hkeep hdest
  refine C41_assign_array_sound R algo u a.val l' x y _ (by omega) hn' (fun p hp => (hl' p hp).2.inDim) hx hval hkeep
    fun b hb => ?_
  cases dest with
  | none => simp at hb
  | some b' =>
    simp only [Option.map_some, Option.some.injEq] at hb
    subst hb
    obtain ⟨hb', he⟩ := hd b' rfl
    exact ⟨by rw [oct_dim hb', oct_dim ha, he], hdest b' rfl⟩

/-- `ap_abstract1_substitute_linexpr_array` on octagons -/
theorem C76_oct_substitute_linexpr (algo : ℤ) (u : Oct.Mem K) (junk : ℕ) (same : Bool)
    (a : Abs1 V (OctT K)) (ha : Abs1.Wf (octMan R algo u) (fun a => a.intdim ≤ a.dim) a)
    (l : List (V × Expr1 V (Linexpr K) × Bool))
    (hne : l ≠ []) (hv : ∀ p ∈ l, p.1 ∈ a.env.vars) (hn : (l.map Prod.fst).Nodup)
    (hl : ∀ p ∈ l, p.2.1.env.Wf ∧ Sub p.2.1.env a.env ∧ (p.2.2 = true → a.env = p.2.1.env) ∧
      GoodLin p.2.1.env.size p.2.1.expr)
    (dest : Option (Abs1 V (OctT K)))
    (hd : ∀ b, dest = some b → Abs1.Wf (octMan R algo u) (fun a => a.intdim ≤ a.dim) b ∧ b.env = a.env) :
    ∃ r, asssub (octMan R algo u) Kind.linexpr (OctT.substLinexprArray R algo) junk same a l dest = .ok (r, false) ∧
      r.env = a.env ∧
      ∀ ρ ρ' : V → K, Gam (octMan R algo u) a ρ' → (∀ p ∈ l, p.2.1.Val Kind.linexpr ρ (ρ' p.1)) →
        (∀ v ∈ a.env.vars, v ∉ l.map Prod.fst → ρ' v = ρ v) →
        (∀ b, dest = some b → Gam (octMan R algo u) b ρ) → Gam (octMan R algo u) r ρ := by
  have hdim : (octMan R algo u).dim a.val = a.val.dim := ha.dim.trans (oct_dim ha).symm
  refine C76_substitute_sound linexprSpec _ junk same a ha l hne hv hn hl dest hd ?_
  rw [hdim]
  intro l' x y hl1 hn' hl' hy hval hkeep hdest
  refine C42_subst_array_sound R algo a.val l' _ x y hn' (fun p hp => (hl' p hp).1) (fun p hp => (hl' p hp).2.inDim)
    hy hval hkeep fun b hb => ?_
  cases dest with
  | none => simp at hb
  | some b' =>
    simp only [Option.map_some, Option.some.injEq] at hb
    subst hb
    obtain ⟨hb', he⟩ := hd b' rfl
    exact ⟨by rw [oct_dim hb', oct_dim ha, he], hdest b' rfl⟩

end OctInst
/-! ## Examples -/

open Bound

/-- `2 * v3 + v5 + 1` over the variables `5` (integer) and `3` (real) -/
def exExpr1 : Expr1 ℕ (Linexpr ℚ) :=
  ⟨⟨[5], [3]⟩, ⟨.scalar (fin 1), .dense [.scalar (fin 1), .scalar (fin 2)]⟩⟩

theorem exExpr1_ok : exExpr1.env.Wf ∧ Sub exExpr1.env exAbs1.env ∧ (false = true → exAbs1.env = exExpr1.env) ∧
    GoodLin exExpr1.env.size exExpr1.expr := by
  refine ⟨⟨by decide, by decide, by decide⟩, ⟨by decide, by decide⟩, by simp, by
    show [Coeff.scalar (fin (1 : ℚ)), .scalar (fin 2)].length ≤ dimMax
    simp [dimMax], ?_, ?_⟩
  · have : exExpr1.expr.terms = [(0, .scalar (fin 1)), (1, .scalar (fin 2))] := by decide +kernel
    rw [this]; simp [exExpr1, Env.size, intdim, realdim]
  · intro l hl
    simp only [exExpr1, Linbody.dense.injEq] at hl
    rw [← hl]; rfl

/-- the expression is 8 where `v3 = 3` and `v5 = 1` -/
theorem exExpr1_val : exExpr1.Val Kind.linexpr (fun v : ℕ => if v = 1 then 0 else if v = 5 then 1 else (v : ℚ)) 8 := by
  have : exExpr1.expr.terms = [(0, .scalar (fin 1)), (1, .scalar (fin 2))] := by decide +kernel
  refine ⟨1, 7, rfl, ?_, by norm_num⟩
  rw [this]
  refine ⟨1, 6, rfl, ⟨2, 0, rfl, rfl, ?_⟩, ?_⟩ <;>
    norm_num [exExpr1, pt, varOfDim, vars]

example : ∃ i, query (boxMan false) Kind.linexpr (Box.boundLinexpr Rnd.exact) Itv.top 9 false exAbs1 exExpr1 =
    .ok (i, false) ∧ (8 : ℚ) ∈ i := by
  obtain ⟨h1, h2, h3, h4⟩ := exExpr1_ok
  obtain ⟨i, e, h⟩ := C76_box_bound_linexpr Rnd.exact false 9 false exAbs1 exAbs1_wf exExpr1 h1 h3 h2 h4
  exact ⟨i, e, h _ exAbs1_gam 8 exExpr1_val⟩

/-- `v2 := 2 * v3 + v5 + 1` -/
example : ∃ r, asssub (boxMan false) Kind.linexpr (Box.assignLinexprArray Rnd.exact) 9 true exAbs1
    [(2, exExpr1, false)] none = .ok (r, false) ∧
    Gam (boxMan false) r (fun v => if v = 1 then 0 else if v = 5 then 1 else if v = 2 then 8 else (v : ℚ)) := by
  obtain ⟨r, h, _, hr⟩ := C76_box_assign_linexpr Rnd.exact false 9 true exAbs1 exAbs1_wf [(2, exExpr1, false)] (by simp)
    (by decide) (by decide) (by intro p hp; rw [List.mem_singleton.1 hp]; exact exExpr1_ok) none (by simp)
  refine ⟨r, h, hr _ _ exAbs1_gam (fun p hp => ?_) (fun u _ hu => ?_) (by simp)⟩
  · rw [List.mem_singleton.1 hp]; exact exExpr1_val
  · have : u ≠ 2 := fun h => hu (by simp [h])
    simp [this]

example : ∃ i, queryVar (boxMan false) Box.boundDimension Itv.top exAbs1 5 = (i, false) ∧
    ∀ y, y ∈ i ↔ ∃ ρ, Gam (boxMan false) exAbs1 ρ ∧ ρ 5 = y :=
  C76_box_bound_variable false exAbs1 exAbs1_wf 5 (by decide)

example : queryVar (boxMan false) Box.boundDimension Itv.top exAbs1 6 = (Itv.top, true) :=
  (C76_query_var (K := ℚ) Box.boundDimension Itv.top exAbs1 exAbs1_wf 6).2 (by decide)

/-! ## Defects -/

/-- C76: an expression naming a variable that is not in the environment of the abstract value may be accepted:
no exception is raised and the bounds are those of another variable.  The variable of the expression is `1`, of
value 10, but the result is the value of `0`. -/
theorem C76_wrong_environment_accepted : ∃ (a : Abs1 ℕ (Box ℚ)) (x : Expr1 ℕ (Linexpr ℚ)) (ρ : ℕ → ℚ) (i : Itv ℚ) (v : ℚ),
    Abs1.Wf (boxMan false) Box.Wf a ∧ x.env.Wf ∧ GoodLin x.env.size x.expr ∧ ¬ Sub x.env a.env ∧
    query (boxMan false) Kind.linexpr (Box.boundLinexpr Rnd.exact) Itv.top 9 false a x = .ok (i, false) ∧
    Gam (boxMan false) a ρ ∧ x.Val Kind.linexpr ρ v ∧ v ∉ i := by
  have ht : (⟨.scalar (fin 0), .sparse [(0, .scalar (fin 1))]⟩ : Linexpr ℚ).terms = [(0, .scalar (fin 1))] := by
    decide +kernel
  refine ⟨⟨⟨[0, 1], [5]⟩, ⟨some fun k => if k = 0 then ⟨fin 0, fin 0⟩ else ⟨fin (-10), fin 10⟩, 2, 1⟩⟩,
    ⟨⟨[1, 2], []⟩, ⟨.scalar (fin 0), .sparse [(0, .scalar (fin 1))]⟩⟩,
    fun v => if v = 0 then 0 else 10, ⟨fin 0, fin 0⟩, 10, ⟨⟨by decide, by decide, by decide⟩,
      by simp [Env.size, intdim, realdim, dimMax], ?_, rfl, rfl⟩, ⟨by decide, by decide, by decide⟩, ⟨?_, ?_, ?_⟩,
      ?_, ?_, ?_, ?_, ?_⟩
  · intro p hp k _
    simp only [Option.some.injEq] at hp
    rw [← hp]
    by_cases hk : k = 0
    · exact ⟨0, by norm_num [Itv.mem_def, hk]⟩
    · exact ⟨10, by norm_num [Itv.mem_def, hk]⟩
  · show Linexpr.SparseWf _
    simp [Linexpr.SparseWf]
  · rw [ht]; simp [Env.size, intdim, realdim]
  · intro l hl; simp at hl
  · rintro ⟨h, _⟩; exact absurd (h 2 (by simp)) (by decide)
  · decide +kernel
  · refine Box.gam_mk.2 fun k hk => ?_
    have : k = 0 ∨ k = 1 ∨ k = 2 := by change k < 2 + 1 at hk; omega
    rcases this with rfl | rfl | rfl <;> norm_num [pt, varOfDim, vars, Itv.mem_def]
  · refine ⟨0, 10, rfl, ?_, by norm_num⟩
    simp only [ht]
    exact ⟨1, 0, rfl, rfl, by norm_num [pt, varOfDim, vars]⟩
  · norm_num [Itv.mem_def]

end Props
end Apron
