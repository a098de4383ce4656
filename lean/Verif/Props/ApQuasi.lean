import Verif.Texpr.ApQuasi
import Verif.Itv.PipeLemmas
import Verif.Itv.EvalTight
import Verif.Props.ApLinearize
import Verif.Props.Constraint

/-! # Property C148: quasi-linearisation at levels 0 and 1 -/

set_option autoImplicit false
set_option linter.unusedSectionVars false
set_option linter.ambiguousOpen false

namespace Apron
open Bound ILincons ILinexpr Texpr
variable {K : Type*} [LinearOrder K] [Field K] [IsStrictOrderedRing K] [FloorRing K]

/-! ## Helpers -/

theorem ApQuasi.dims_ofAp (R : Rnd K) {e : Linexpr K} {n : ℕ} (hd : e.InDim n) : ∀ t ∈ (ILinexpr.ofAp R e).terms, t.dim < n := by
  intro t ht
  simp only [ILinexpr.ofAp, List.mem_filter, List.mem_map] at ht
  obtain ⟨⟨p, hp, rfl⟩, _⟩ := ht
  exact hd.2 _ (List.mem_map_of_mem hp)

theorem ApQuasi.dims_quasi (R : Rnd K) {e : ILinexpr K} {n : ℕ} (hd : ∀ t ∈ e.terms, t.dim < n) (env : ℕ → Itv K) (b : Bool) :
    ∀ t ∈ (quasi R e env b).terms, t.dim < n := by
  intro t ht
  rcases quasi_terms R ht with h | ⟨⟨u, hu, e, _⟩, _⟩
  · exact hd t h.1
  · exact e ▸ hd u hu

theorem ApQuasi.quasilinear_ofItv {e : ILinexpr K} {n : ℕ} (hn : n ≤ dimMax) (hd : ∀ t ∈ e.terms, t.dim < n) (hf : e.FlagsOk)
    (hq : ∀ t ∈ e.terms, t.eq = true) {x : ℕ → K} {v : K} (hv : e.Val x v) : (Linexpr.ofItv e).isQuasilinear = true := by
  rw [Linexpr.isQuasilinear, Linexpr.terms_ofItv fun t ht => by have := hd t ht; omega]
  simp only [List.all_map, List.all_eq_true, Function.comp]
  intro t ht
  obtain ⟨q, r, -, hr, -⟩ := hv
  obtain ⟨a, ha⟩ := tval_ne hr t ht
  have hp := hf t ht (hq t ht) a ha
  rw [hp, Coeff.ofItv, if_pos (Itv.isPoint_iff.2 ⟨a, rfl⟩)]
  rfl

theorem ApQuasi.quasiCons_ofAp (R : Rnd K) {c : Lincons K} {env : ℕ → Itv K} (meet : Bool) {x : ℕ → K}
    (hx : ∀ t ∈ (ILinexpr.ofAp R c.expr).terms, x t.dim ∈ env t.dim) (hc : c.Holds x) :
    (quasiCons R (ILincons.ofAp R c) env meet).Holds x := by
  have h0 : (ILincons.ofAp R c).Holds x := holds_ofAp R hc
  unfold quasiCons
  split_ifs with he h1 h2
  · exact holds_setBool_true x
  · obtain ⟨v, hv, hr⟩ := h0
    exact absurd hr (evalCst'_f_weak (fun _ => ILinexpr.cstOk_ofAp R _) h2 ((val_nil he).1 hv))
  · exact h0
  · obtain ⟨v, hv, hr⟩ := h0
    exact ⟨v, quasi_sound R hx hv, hr⟩

theorem ApQuasi.dims_quasiCons (R : Rnd K) {c : ILincons K} {n : ℕ} (hd : ∀ t ∈ c.expr.terms, t.dim < n) (env : ℕ → Itv K)
    (meet : Bool) : ∀ t ∈ (quasiCons R c env meet).expr.terms, t.dim < n := by
  unfold quasiCons
  split_ifs
  · simp [setBool]
  · simp [setBool]
  · exact hd
  · exact ApQuasi.dims_quasi R hd env _

section
variable {A : Type*} (Gam : A → (ℕ → K) → Prop) (isBottom : A → Bool) (toBox : A → ℕ → Itv K) (R : Rnd K)

/-! ## Level 0: results that are right -/

/-- The interval computed for an expression contains all its values on the abstract value. -/
theorem C148_eval_linexpr (a : A) (n : ℕ) (hbox : ∀ x, Gam a x → ∀ i, i < n → x i ∈ toBox a i) (e : Linexpr K)
    (hd : e.InDim n) : ∃ i, ApQuasi.evalLinexpr0 R toBox (.abs0 a) e = some i ∧ ∀ x v, Gam a x → e.Val x v → v ∈ i :=
  ⟨_, rfl, fun x _ hx hv => ILinexpr.mem_evalAp R hv fun p hp => hbox x hx _ (hd.2 _ (List.mem_map_of_mem hp))⟩

/-- With exact numbers it is the least interval for the bounding box of the abstract value. -/
theorem C148_eval_linexpr_tight (a : A) (n : ℕ) (e : Linexpr K) (hd : e.InDim n) (x0 : ℕ → K)
    (hx0 : ∀ i < n, x0 i ∈ toBox a i) (v0 : K) (hv0 : e.Val x0 v0) (d : Itv K)
    (hmem : ∀ x v, (∀ i < n, x i ∈ toBox a i) → e.Val x v → v ∈ d) :
    ∃ i, ApQuasi.evalLinexpr0 Rnd.exact toBox (.abs0 a) e = some i ∧ i.inf ≤ d.inf ∧ i.sup ≤ d.sup :=
  ⟨_, rfl, ILinexpr.evalAp_tight hd hx0 hv0 hmem⟩

/-- The quasi-linearised expression can be read, is quasi-linear and has all the values of the original one on the
abstract value. -/
theorem C148_linexpr (a : A) (hb : isBottom a = false) (n : ℕ) (hn : n ≤ dimMax)
    (hbox : ∀ x, Gam a x → ∀ i, i < n → x i ∈ toBox a i) (e : Linexpr K) (hd : e.InDim n) (x0 : ℕ → K) (hx0 : Gam a x0)
    (v0 : K) (hv0 : e.Val x0 v0) :
    ∃ r e', ApQuasi.linexpr0 R isBottom toBox (.abs0 a) e = some r ∧ r.get e = some e' ∧ e'.isQuasilinear = true ∧
      ∀ x v, Gam a x → e.Val x v → e'.Val x v := by
  unfold ApQuasi.linexpr0
  by_cases hq : e.isQuasilinear = true
  · exact ⟨.arg, e, by rw [if_pos hq], rfl, hq, fun _ _ _ h => h⟩
  · have hd1 := ApQuasi.dims_ofAp R hd
    have hd2 := ApQuasi.dims_quasi R hd1 (toBox a) false
    have hs : ∀ x v, Gam a x → e.Val x v → (quasi R (ILinexpr.ofAp R e) (toBox a) false).Val x v := fun x v hx hv =>
      quasi_sound R (fun t ht => hbox x hx _ (hd1 t ht)) (ILinexpr.val_ofAp R hv)
    refine ⟨.fresh _, _, by rw [if_neg hq]; simp [ApQuasi.quasiAlloc, hb]; rfl, rfl, ?_, ?_⟩
    · exact ApQuasi.quasilinear_ofItv hn hd2 (flagsOk_quasi R (ILinexpr.flagsOk_ofAp R e) _ _)
        (quasi_quasilinear R _ _ _) (hs x0 v0 hx0 hv0)
    · intro x v hx hv
      exact (Linexpr.val_ofItv fun t ht => by have := hd2 t ht; omega).2 (hs x v hx hv)

/-- The same for arrays of expressions, element by element. -/
theorem C148_linexpr_array (a : A) (hb : isBottom a = false) (n : ℕ) (hn : n ≤ dimMax)
    (hbox : ∀ x, Gam a x → ∀ i, i < n → x i ∈ toBox a i) (l : List (Linexpr K)) (hd : ∀ e ∈ l, e.InDim n) :
    ∃ r l', ApQuasi.linexpr0Array R isBottom toBox (.abs0 a) l = some r ∧ r.get l = some l' ∧
      List.Forall₂ (fun e e' => ((∃ x v, Gam a x ∧ e.Val x v) → e'.isQuasilinear = true) ∧
        ∀ x v, Gam a x → e.Val x v → e'.Val x v) l l' := by
  unfold ApQuasi.linexpr0Array
  by_cases hq : l.all Linexpr.isQuasilinear = true
  · refine ⟨.arg, l, by rw [if_pos hq], rfl, List.forall₂_same.2 fun e he => ⟨fun _ => ?_, fun _ _ _ h => h⟩⟩
    exact List.all_eq_true.1 hq e he
  · refine ⟨.fresh _, _, by rw [if_neg hq]; simp [ApQuasi.quasiAlloc, hb]; rfl, rfl, ?_⟩
    rw [List.forall₂_map_right_iff]
    refine List.forall₂_same.2 fun e he => ?_
    have hd1 := ApQuasi.dims_ofAp R (hd e he)
    have hd2 := ApQuasi.dims_quasi R hd1 (toBox a) false
    have hs : ∀ x v, Gam a x → e.Val x v → (quasi R (ILinexpr.ofAp R e) (toBox a) false).Val x v := fun x v hx hv =>
      quasi_sound R (fun t ht => hbox x hx _ (hd1 t ht)) (ILinexpr.val_ofAp R hv)
    refine ⟨?_, ?_⟩
    · rintro ⟨x, v, hx, hv⟩
      exact ApQuasi.quasilinear_ofItv hn hd2 (flagsOk_quasi R (ILinexpr.flagsOk_ofAp R e) _ _)
        (quasi_quasilinear R _ _ _) (hs x v hx hv)
    · intro x v hx hv
      exact (Linexpr.val_ofItv fun t ht => by have := hd2 t ht; omega).2 (hs x v hx hv)

/-- The quasi-linearised constraint can be read, is quasi-linear and is satisfied by the points of the abstract value
that satisfy the original one. -/
theorem C148_lincons (a : A) (hb : isBottom a = false) (n : ℕ) (hn : n ≤ dimMax)
    (hbox : ∀ x, Gam a x → ∀ i, i < n → x i ∈ toBox a i) (c : Lincons K) (hd : c.expr.InDim n) (meet : Bool) (x0 : ℕ → K)
    (hx0 : Gam a x0) (hc0 : c.Holds x0) :
    ∃ r c', ApQuasi.lincons0 R isBottom toBox (.abs0 a) c meet = some r ∧ r.get c = some c' ∧ c'.expr.isQuasilinear = true ∧
      ∀ x, Gam a x → c.Holds x → c'.Holds x := by
  unfold ApQuasi.lincons0
  by_cases hq : c.expr.isQuasilinear = true
  · exact ⟨.arg, c, by rw [if_pos hq], rfl, hq, fun _ _ h => h⟩
  · have hd1 := ApQuasi.dims_ofAp R hd
    have hd2 := ApQuasi.dims_quasiCons R (c := ILincons.ofAp R c) hd1 (toBox a) meet
    have hs : ∀ x, Gam a x → c.Holds x → (quasiCons R (ILincons.ofAp R c) (toBox a) meet).Holds x := fun x hx hc =>
      ApQuasi.quasiCons_ofAp R meet (fun t ht => hbox x hx _ (hd1 t ht)) hc
    refine ⟨.fresh _, _, by rw [if_neg hq]; simp [ApQuasi.quasiAlloc, hb]; rfl, rfl, ?_, ?_⟩
    · obtain ⟨v, hv, -⟩ := hs x0 hx0 hc0
      exact ApQuasi.quasilinear_ofItv hn hd2 (quasiCons_flags R (ILinexpr.flagsOk_ofAp R c.expr) _ _)
        (quasiCons_quasi R _ _ _) hv
    · intro x hx hc
      exact (Lincons.holds_ofItv fun t ht => by have := hd2 t ht; omega).2 (hs x hx hc)

/-- Arrays of constraints, with exact numbers and `linearize` false: the points of the abstract value that satisfy all
the constraints satisfy all the new ones, which are quasi-linear if there is such a point.  Full statement (false for the
code, see `C148_linearize_not_linear`, `C148_exact_not_written` and `C63_quasilinearize_array_unsound`): for all numbers;
the result is linear if `linearize` is true; the flag `exact` is set. -/
theorem C148_lincons_array_partial (a : A) (hb : isBottom a = false) (n : ℕ) (hn : n ≤ dimMax)
    (hbox : ∀ x, Gam a x → ∀ i, i < n → x i ∈ toBox a i) (l : List (Lincons K)) (hd : ∀ c ∈ l, c.expr.InDim n) :
    ∃ r b l', ApQuasi.lincons0Array Rnd.exact isBottom toBox (.abs0 a) l false true = some (r, b) ∧ r.get l = some l' ∧
      ∀ x, Gam a x → (∀ c ∈ l, c.Holds x) → ∀ c ∈ l', c.Holds x ∧ c.expr.isQuasilinear = true := by
  have hty : Lincons.arrayType l = .linear := by
    have key : ∀ l : List (Lincons K), Lincons.arrayTypeLoop .linear l = .linear := by
      intro l
      induction l with
      | nil => rfl
      | cons c l ih => simpa [Lincons.arrayTypeLoop] using ih
    exact key l
  refine ⟨_, _, _, by simp [ApQuasi.lincons0Array, hty, ApQuasi.quasiAlloc, hb]; exact ⟨rfl, rfl⟩, rfl, ?_⟩
  intro x hx hc c' hc'
  obtain ⟨c, hcm, rfl⟩ := List.mem_map.1 hc'
  have hQ : ∀ c ∈ l.map (ILincons.ofAp Rnd.exact), c.expr.FlagsOk ∧ ∀ t ∈ c.expr.terms, t.dim < n := by
    intro c hc
    obtain ⟨d, hdm, rfl⟩ := List.mem_map.1 hc
    exact ⟨ILinexpr.flagsOk_ofAp _ _, ApQuasi.dims_ofAp _ (hd d hdm)⟩
  have h1 : c.Holds x := C63_quasilinearize_array_partial l (toBox a) x
    (fun c hcl d hdm => hbox x hx d ((hd c hcl).2 d hdm)) hc c hcm
  have h2 : c.expr.FlagsOk ∧ (∀ t ∈ c.expr.terms, t.eq = true) ∧ ∀ t ∈ c.expr.terms, t.dim < n :=
    quasiArray_inv Rnd.exact (Q := fun c => c.expr.FlagsOk ∧ ∀ t ∈ c.expr.terms, t.dim < n)
      (P := fun c => c.expr.FlagsOk ∧ (∀ t ∈ c.expr.terms, t.eq = true) ∧ ∀ t ∈ c.expr.terms, t.dim < n) hQ
      ⟨by intro t ht; simp [setBool] at ht, by simp [setBool]⟩
      ⟨by intro t ht; simp [setBool] at ht, by simp [setBool], by simp [setBool]⟩
      (fun c h => h) (fun c h => ⟨flagsOk_neg h.1, by
        intro t ht
        simp only [ILinexpr.neg, List.mem_map] at ht
        obtain ⟨u, hu, rfl⟩ := ht
        exact h.2 u hu⟩)
      (fun c h => ⟨quasiCons_flags _ h.1 _ _, quasiCons_quasi _ c _ _, ApQuasi.dims_quasiCons _ h.2 _ _⟩) c hcm
  refine ⟨(Lincons.holds_ofItv fun t ht => by have := h2.2.2 t ht; omega).2 h1, ?_⟩
  obtain ⟨v, hv, -⟩ := h1
  exact ApQuasi.quasilinear_ofItv hn h2.2.2 h2.1 h2.2.1 hv

/-! ## Level 0: defects of the arrays of constraints -/

/-- The code violates the full property: the type of an array of constraints is always LINEAR (the type of an array is
the least type of its elements, as for expressions in `C69_array_type`). -/
theorem C148_array_type_always_linear (l : List (Lincons K)) : Lincons.arrayType l = .linear := by
  have key : ∀ l : List (Lincons K), Lincons.arrayTypeLoop .linear l = .linear := by
    intro l
    induction l with
    | nil => rfl
    | cons c l ih => simpa [Lincons.arrayTypeLoop] using ih
  exact key l

/-- With `linearize` true, the array is returned as it is and declared exact, whatever it is. -/
theorem C148_linearize_unchanged (h : Handle A) (l : List (Lincons K)) (meet : Bool) :
    ApQuasi.lincons0Array R isBottom toBox h l true meet = some (.arg, true) := by
  simp [ApQuasi.lincons0Array, C148_array_type_always_linear]

/-- With `linearize` false the flag `exact` is never written, even for an array that is already quasi-linear. -/
theorem C148_exact_not_written (h : Handle A) (l : List (Lincons K)) (meet : Bool) (r : Ref (List (Lincons K))) (b : Bool)
    (hr : ApQuasi.lincons0Array R isBottom toBox h l false meet = some (r, b)) : b = false ∧ r ≠ .arg := by
  simp only [ApQuasi.lincons0Array, C148_array_type_always_linear, Bool.false_and, Bool.false_or, reduceCtorEq,
    decide_false, Bool.false_eq_true, if_false, Option.map_eq_some_iff, Prod.mk.injEq] at hr
  obtain ⟨env, -, rfl, rfl⟩ := hr
  exact ⟨rfl, by simp⟩

/-- The generic meet on a non-empty array and a value that is not bottom: with `linearize` it hands over the array
unchanged, whatever it is, and without it its behaviour is undefined. -/
theorem C148_meet_generic (meet : A → List (Lincons K) → A) (a : A) (hb : isBottom a = false) (l : List (Lincons K))
    (hl : l ≠ []) : ApQuasi.meetGeneric R isBottom toBox meet a l true = some (meet a l) ∧
      ApQuasi.meetGeneric R isBottom toBox meet a l false = none := by
  have he : l.isEmpty = false := by simpa using hl
  refine ⟨?_, ?_⟩
  · simp [ApQuasi.meetGeneric, hb, hl, C148_linearize_unchanged, Ref.get]
  · simp [ApQuasi.meetGeneric, hb, hl, ApQuasi.lincons0Array, C148_array_type_always_linear, ApQuasi.quasiAlloc]

end

/-- The code violates the full property: `[1,2]*x0 >= 0` is "linearised" to itself. -/
theorem C148_linearize_not_linear : ∃ (l : List (Lincons ℚ)) (r : Ref (List (Lincons ℚ))) (b : Bool),
    ApQuasi.lincons0Array Rnd.exact (fun _ : Unit => false) (fun _ _ => Itv.top) (.abs0 ()) l true true = some (r, b) ∧
    ∃ l', r.get l = some l' ∧ ∃ c ∈ l', c.expr.isQuasilinear = false :=
  ⟨[⟨.supeq, ⟨.scalar (fin 0), .sparse [(0, .interval (fin 1) (fin 2))]⟩⟩], .arg, true, C148_linearize_unchanged _ _ _ _ _ _,
    _, rfl, _, List.mem_singleton.2 rfl, by decide +kernel⟩

/-- The code violates the expected form of results: the sparse expression that is returned need not be sorted.
`[1,2]*x0 + x1 + x2` where `x0 = 1`. -/
theorem C148_result_unsorted : ∃ (e e' : Linexpr ℚ) (env : ℕ → Itv ℚ), e.InDim 3 ∧
    ApQuasi.linexpr0 Rnd.exact (fun _ : Unit => false) (fun _ => env) (.abs0 ()) e = some (.fresh e') ∧ ¬ e'.InDim 3 := by
  refine ⟨⟨.scalar (fin 0), .sparse [(0, .interval (fin 1) (fin 2)), (1, .scalar (fin 1)), (2, .scalar (fin 1))]⟩,
    ⟨.interval (fin 1) (fin 2), .sparse [(2, .scalar (fin 1)), (1, .scalar (fin 1))]⟩,
    fun i => if i = 0 then Itv.point 1 else Itv.top, ?_, ?_, ?_⟩
  · unfold Linexpr.InDim; decide +kernel
  · decide +kernel
  · unfold Linexpr.InDim; decide +kernel

/-- `[1,2]*x0 + 1` on `x0` in `[0,4]`, and a constraint -/
example : ApQuasi.linexpr0 Rnd.exact (fun _ : Unit => false) (fun _ _ => (⟨fin 0, fin 4⟩ : Itv ℚ)) (.abs0 ())
      ⟨.scalar (fin 1), .sparse [(0, .interval (fin 1) (fin 2))]⟩ ≠ some .arg ∧
    ApQuasi.evalLinexpr0 Rnd.exact (fun _ _ => (⟨fin 0, fin 4⟩ : Itv ℚ)) (.abs0 ())
      ⟨.scalar (fin 1), .sparse [(0, .interval (fin 1) (fin 2))]⟩ = some ⟨fin (-1), fin 9⟩ ∧
    (ApQuasi.lincons0 Rnd.exact (fun _ : Unit => false) (fun _ _ => (⟨fin 0, fin 4⟩ : Itv ℚ)) (.abs0 ())
      ⟨.supeq, ⟨.scalar (fin 1), .sparse [(0, .interval (fin 1) (fin 2))]⟩⟩ true).isSome = true := by decide +kernel

/-! ## Trees -/

section
variable {A : Type*} (Gam : A → (ℕ → K) → Prop) (isBottom : A → Bool) (toBox : A → ℕ → Itv K) (intdim : A → ℕ) (R : Rnd K)
  (o : RootOps K) (F : FltOps K)

/-- The expression computed for a tree has all the values of the tree on the abstract value.  Full statement: without
`LinSafe` and `PowSafe` (see C13). -/
theorem C148_texpr_partial (ho : o.SqrtOK) (S : FltSem K) (hF : FltOK F S) (a : A) (n : ℕ) (hn : n ≤ dimMax)
    (hbox : ∀ x, Gam a x → ∀ i, i < n → x i ∈ toBox a i) (e : Texpr K) (hd : e.InDim n)
    (hs : e.LinSafe R o F (toBox a) (intdim a)) (hp : e.PowSafe R o F (fun _ => Itv.top)) (q : Bool) :
    ∃ l, ApQuasi.texpr0 R toBox o F intdim (.abs0 a) e q = some l ∧
      ∀ x v, Gam a x → (∀ i, i < intdim a → ∃ m : ℤ, x i = m) → e.Val S x v → l.Val x v := by
  refine ⟨apIntlinearize R o F (toBox a) (intdim a) e q, ?_, fun x v hx hint hv =>
    (apIntlinearize_sound R o ho F S hF hn hd hs hp (hbox x hx) hint hv q).1⟩
  unfold ApQuasi.texpr0 apIntlinearize
  by_cases h : e.isIntervalLinear = true
  · simp only [if_pos h]
    split_ifs <;> rfl
  · simp only [if_neg h]
    rfl

/-- The code violates the property: when the conversion of an interval linear tree succeeds, the behaviour of
`ap_intlinearize_texpr0_intlinear` is undefined; it succeeds on every interval linear tree. -/
theorem C148_texpr_intlinear_undefined (e : Texpr K) (h : e.isIntervalLinear = true) :
    ApQuasi.texpr0Intlinear R o F e = none := by
  obtain ⟨l, hl⟩ := Texpr.intlinear_some R o F h true
  simp [ApQuasi.texpr0Intlinear, hl]

/-! ## Level 1 -/

variable {V : Type*} [LinearOrder V] (junk : ℕ) (same : Bool) (a : Abs1 V A)

/-- The code violates the property: a level 1 expression that is not quasi-linear is never quasi-linearised; the behaviour
is undefined when the environments are equal, and when that of the expression can be extended. -/
theorem C148_quasilinear_of_intlinear_undefined (x : Expr1 V (Linexpr K)) (hq : x.expr.isQuasilinear = false)
    (he : Env.isEq same a.env x.env = true) :
    ApQuasi.quasilinearOfIntlinear R isBottom toBox junk same a x = .ok (none, false) := by
  simp [ApQuasi.quasilinearOfIntlinear, he, ApQuasi.linexpr0, hq, ApQuasi.quasiAlloc]

/-- The code violates the property: on equal environments the result for a quasi-linear expression is the argument itself,
so both cannot be freed. -/
theorem C148_quasilinear_of_intlinear_alias (x : Expr1 V (Linexpr K)) (hq : x.expr.isQuasilinear = true)
    (he : Env.isEq same a.env x.env = true) :
    ApQuasi.quasilinearOfIntlinear R isBottom toBox junk same a x = .ok (some .arg, false) := by
  simp [ApQuasi.quasilinearOfIntlinear, he, ApQuasi.linexpr0, hq]

/-- The code violates the property: when the environment of the expression has to be extended no result can be read:
the behaviour is undefined or the result is freed. -/
theorem C148_quasilinear_of_intlinear_extended (x : Expr1 V (Linexpr K)) (he : Env.isEq same a.env x.env = false)
    (d : Dimchange) (hd : Env.dimchange junk x.env a.env = .ok d) :
    ApQuasi.quasilinearOfIntlinear R isBottom toBox junk same a x = .ok (none, false) ∨
    ApQuasi.quasilinearOfIntlinear R isBottom toBox junk same a x = .ok (some .freed, false) := by
  by_cases hq : (Linexpr.addDimensions x.expr d.dim).isQuasilinear = true
  · exact .inr (by simp [ApQuasi.quasilinearOfIntlinear, he, hd, ApQuasi.linexpr0, hq])
  · exact .inl (by simp [ApQuasi.quasilinearOfIntlinear, he, hd, ApQuasi.linexpr0, hq, ApQuasi.quasiAlloc])

/-- When the environment of the expression does not extend to that of the abstract value, an exception is raised and the
result has all values. -/
theorem C148_level1_exception (x : Expr1 V (Linexpr K)) (t : Expr1 V (Texpr K)) (q : Bool)
    (h1 : Env.isEq same a.env x.env = false) (h2 : Env.dimchange junk x.env a.env = .null)
    (h3 : Env.isEq same a.env t.env = false) (h4 : Env.dimchange junk t.env a.env = .null) :
    ∃ e : Linexpr K, ApQuasi.quasilinearOfIntlinear R isBottom toBox junk same a x = .ok (some (.fresh e), true) ∧
      ApQuasi.intlinearOfTree R toBox o F intdim junk same a t q = .ok (some e, true) ∧ ∀ y v, e.Val y v := by
  refine ⟨ApQuasi.topExpr, by simp [ApQuasi.quasilinearOfIntlinear, h1, h2], by simp [ApQuasi.intlinearOfTree, h3, h4], ?_⟩
  intro y v
  exact ⟨v, 0, by constructor <;> simp, rfl, by ring⟩

/-- The code violates the property: on a tree that is not interval linear the behaviour is undefined. -/
theorem C148_intlinear_of_tree_undefined (x : Expr1 V (Texpr K)) (q : Bool) (hi : x.expr.isIntervalLinear = false)
    (he : Env.isEq same a.env x.env = true) :
    ApQuasi.intlinearOfTree R toBox o F intdim junk same a x q = .ok (none, false) := by
  simp [ApQuasi.intlinearOfTree, he, ApQuasi.texpr0, hi]

/-- On an interval linear tree, over the environment of the abstract value and without quasi-linearisation, the result has
all the values of the tree.  Full statement (false for the code, see `C148_intlinear_of_tree_undefined`): for all trees
and with quasi-linearisation. -/
theorem C148_intlinear_of_tree_partial (ho : o.SqrtOK) (S : FltSem K) (hF : FltOK F S) (n : ℕ) (hn : n ≤ dimMax)
    (x : Expr1 V (Texpr K)) (he : Env.isEq same a.env x.env = true) (hi : x.expr.isIntervalLinear = true) (hd : x.expr.InDim n)
    (hp : x.expr.PowSafe R o F (fun _ => Itv.top)) :
    ∃ l, ApQuasi.intlinearOfTree R toBox o F intdim junk same a x false = .ok (some l, false) ∧
      ∀ y v, x.expr.Val S y v → l.Val y v := by
  obtain ⟨l, hl⟩ := Texpr.intlinear_some R o F hi true
  refine ⟨Linexpr.ofItv l, by simp [ApQuasi.intlinearOfTree, he, ApQuasi.texpr0, hi, hl], ?_⟩
  intro y v hv
  have h := Texpr.intlinear_inv R ho hF hd hp hl hv
  exact (Linexpr.val_ofItv fun t ht => by have := h.2.2 t ht; omega).2 h.1

end

/-- environments that are equal, that must be extended and that are not comparable; an expression with an interval
coefficient and one without -/
example : Env.isEq false (⟨[], [0, 1]⟩ : Env ℕ) ⟨[], [0, 1]⟩ = true ∧
    Env.isEq false (⟨[], [0, 1]⟩ : Env ℕ) ⟨[], [1]⟩ = false ∧
    Env.dimchange 0 (⟨[], [1]⟩ : Env ℕ) ⟨[], [0, 1]⟩ = .ok ⟨[0], 0, 1⟩ ∧
    Env.dimchange 0 (⟨[], [0, 1, 2]⟩ : Env ℕ) ⟨[], [0, 1]⟩ = .null ∧
    (⟨.scalar (fin 1), .sparse [(0, .interval (fin 1) (fin 2))]⟩ : Linexpr ℚ).isQuasilinear = false ∧
    (⟨.interval (fin 1) (fin 2), .sparse [(0, .scalar (fin 1))]⟩ : Linexpr ℚ).isQuasilinear = true := by decide +kernel

/-- the extension of an expression over `y` to `x`, `y` gives a freed result -/
example : ApQuasi.quasilinearOfIntlinear Rnd.exact (fun _ : Unit => false) (fun _ _ => (Itv.top : Itv ℚ)) 0 false
    (⟨⟨[], [0, 1]⟩, ()⟩ : Abs1 ℕ Unit) ⟨⟨[], [1]⟩, ⟨.scalar (fin 1), .sparse [(0, .scalar (fin 1))]⟩⟩ = .ok (some .freed, false) := by
  decide +kernel

end Apron
