import Verif.Texpr.ApLinearizeLemmas
import Verif.Texpr.LinearizeFlags
import Verif.Itv.PipeLemmas

/-!
# Linearised trees: dimensions of the terms, for every tree
-/

set_option autoImplicit false
set_option linter.unusedSectionVars false
set_option linter.ambiguousOpen false

namespace Apron

variable {K : Type*} [LinearOrder K] [Field K] [IsStrictOrderedRing K] [FloorRing K]

namespace ILincons

/-- the dimensions are below `n` and distinct -/
def DimsOk (n : ℕ) (c : ILincons K) : Prop := (∀ t ∈ c.expr.terms, t.dim < n) ∧ c.dims.Nodup

theorem dimsOk_setBool (n : ℕ) (b : Bool) : DimsOk n (setBool b : ILincons K) :=
  ⟨by intro t ht; simp [setBool] at ht, by simp [dims, setBool]⟩

theorem dimsOk_of_ordered {n : ℕ} {c : ILincons K} (h : ∀ t ∈ c.expr.terms, t.dim < n) (ho : ILinexpr.Ordered c.expr.terms) : DimsOk n c :=
  ⟨h, List.Pairwise.imp (fun h => Nat.ne_of_lt h) ho⟩

theorem dimsOk_selectInf {n : ℕ} {c : ILincons K} (h : DimsOk n c) : DimsOk n (selectInf c) := by
  refine ⟨dims_selectInf (D := fun d => d < n) h.1, ?_⟩
  have : (selectInf c).dims = c.dims := by simp [dims, selectInf, Function.comp_def]
  rw [this]; exact h.2

theorem dimsOk_linearizeOne {n : ℕ} {c : ILincons K} (h : DimsOk n c) (meet : Bool) :
    DimsOk n (linearizeOne meet c).1 ∧ ∀ d, (linearizeOne meet c).2 = some d → DimsOk n d := by
  have h' : ∀ t : ConsTyp K, DimsOk n (⟨t, c.expr⟩ : ILincons K) := fun _ => h
  unfold linearizeOne
  by_cases he : c.expr.eq = true
  · rw [if_pos he]; exact ⟨h, by simp⟩
  · rw [if_neg he]
    cases c.typ <;> simp only
    · split_ifs
      · exact ⟨h' .supeq, fun d e => by
          simp only [Option.some.injEq] at e; exact e ▸ dimsOk_selectInf (h' _)⟩
      · exact ⟨h' .supeq, by simp⟩
      · exact ⟨dimsOk_selectInf (h' .supeq), by simp⟩
    · split_ifs <;> exact ⟨h' .supeq, by simp⟩
    · split_ifs <;> exact ⟨h' .sup, by simp⟩
    · exact ⟨h, by simp⟩
    · exact ⟨h, by simp⟩

theorem dimsOk_linearizeArray {n : ℕ} {l : List (ILincons K)} (h : ∀ c ∈ l, DimsOk n c) (meet : Bool) :
    ∀ c ∈ linearizeArray meet l, DimsOk n c := by
  have hr := arrayReduce_inv (meet := meet) h (dimsOk_setBool n false)
  unfold linearizeArray
  simp only
  split_ifs
  · exact hr
  · intro c hc
    rcases List.mem_append.1 hc with hc | hc
    · obtain ⟨d, hd, rfl⟩ := List.mem_map.1 hc
      exact (dimsOk_linearizeOne (hr d hd) meet).1
    · obtain ⟨d, hd, e⟩ := List.mem_filterMap.1 hc
      exact (dimsOk_linearizeOne (hr d hd) meet).2 c e

theorem dimsOk_quasiArray (R : Rnd K) {n : ℕ} {l : List (ILincons K)} (h : ∀ c ∈ l, DimsOk n c) (env : ℕ → Itv K) (meet : Bool) :
    ∀ c ∈ quasiArray R l env meet, DimsOk n c :=
  quasiArray_inv R h (dimsOk_setBool n false) (dimsOk_setBool n false) (fun _ h => h)
    (fun c h => ⟨fun t ht => by
      simp only [ILinexpr.neg, List.mem_map] at ht
      obtain ⟨u, hu, rfl⟩ := ht
      exact h.1 u hu, by rw [dims_neg]; exact h.2⟩)
    (fun c h => ⟨dims_quasiCons R (D := fun d => d < n) h.1 env meet, quasiCons_dims R h.2 env meet⟩)

theorem dimsOk_boundRows {n : ℕ} {env : ℕ → Itv K} {tc : TChange} : ∀ c ∈ boundRows n env tc, DimsOk n c := by
  intro c hc
  simp only [boundRows, List.mem_flatMap, List.mem_range] at hc
  obtain ⟨i, hi, hc⟩ := hc
  have one : ∀ (t : ConsTyp K) (k : Itv K) (b : Bool) (s : Itv K), DimsOk n (⟨t, ⟨k, b, [⟨i, true, s⟩]⟩⟩ : ILincons K) :=
    fun t k b s => ⟨by simpa using hi, by simp [dims]⟩
  unfold boundRow at hc
  split_ifs at hc <;> simp at hc
  · exact hc ▸ one _ _ _ _
  · rcases hc with rfl | rfl <;> exact one _ _ _ _
  · exact hc ▸ one _ _ _ _
  · exact hc ▸ one _ _ _ _

end ILincons

namespace Texpr
open ILincons ILinexpr
variable (R : Rnd K) (o : RootOps K) (F : FltOps K)

theorem termsIn_finish (env : ℕ → Itv K) {n : ℕ} {l : ILinexpr K} (i : Itv K) (org dst : RType)
    (d : RDir) (h : TermsIn n l) : TermsIn n (finishLin R F env l i org dst d).1 := by
  have h1 : TermsIn n (roundLin R F l i org dst d).1 := by
    intro t ht
    have := List.mem_map_of_mem (f := ITerm.dim) ht
    rw [dims_roundLin R F i org dst d] at this
    obtain ⟨u, hu, e⟩ := List.mem_map.1 this
    rw [← e]; exact h u hu
  simp only [finishLin]
  intro t ht
  rcases terms_reduceLin R env (roundLin R F l i org dst d).1 (roundLin R F l i org dst d).2 with h2 | h2
  · rw [h2] at ht; simp at ht
  · rw [h2] at ht; exact h1 t ht

theorem termsIn_const {n : ℕ} {i : Itv K} : TermsIn n (ILinexpr.const i) := by
  intro t ht; simp [ILinexpr.const] at ht

theorem termsIn_intlin (env : ℕ → Itv K) (intdim : ℕ) {n : ℕ} {e : Texpr K} (hd : e.InDim n) (e0 : Bool) :
    TermsIn n (intlin R o F env intdim e0 e).1 := by
  induction e generalizing e0 with
  | cst c => exact termsIn_const
  | dim d =>
    intro t ht
    simp only [intlin, List.mem_singleton] at ht
    rw [ht]; exact hd
  | un op t d a ih =>
    simp only [intlin]
    cases op with
    | neg => exact termsIn_neg (ih hd e0)
    | cast => exact termsIn_finish R F env _ _ _ _ (ih hd e0)
    | sqrt => exact termsIn_const
  | bin op t d a b iha ihb =>
    have key : ∀ p q : ILinexpr K × Itv K × RType, TermsIn n p.1 → TermsIn n q.1 →
        TermsIn n (binLin R F env op t d p q).1 := by
      intro p q hp hq
      simp only [binLin]
      split_ifs
      · exact termsIn_nil
      · cases op with
        | add => exact termsIn_finish R F env _ _ _ _ (termsIn_add R hp hq)
        | sub => exact termsIn_finish R F env _ _ _ _ (termsIn_add R hp (termsIn_neg hq))
        | mul =>
          refine termsIn_finish R F env _ _ _ _ ?_
          split_ifs
          · exact termsIn_scale R hp _
          · exact termsIn_scale R hq _
        | div => exact termsIn_finish R F env _ _ _ _ (termsIn_div R hp _)
        | mod => exact termsIn_const
        | pow => exact termsIn_const
    cases op <;> exact key _ _ (iha hd.1 _) (ihb hd.2 _)

theorem termsIn_intlinear {n : ℕ} {e : Texpr K} (hd : e.InDim n) : ∀ {e0 : Bool} {l : ILinexpr K}, intlinear R o F e0 e = some l →
    TermsIn n l := by
  induction e with
  | cst c => intro e0 l h; simp only [intlinear, Option.some.injEq] at h; subst h; exact termsIn_const
  | dim d =>
    intro e0 l h; simp only [intlinear, Option.some.injEq] at h; subst h
    intro t ht
    simp only [List.mem_singleton] at ht
    rw [ht]; exact hd
  | un op t d a ih =>
    intro e0 l h
    simp only [intlinear] at h
    by_cases hc : isIntervalCst (.un op t d a) = true
    · rw [if_pos hc] at h; simp only [Option.some.injEq] at h; subst h; exact termsIn_const
    · rw [if_neg hc] at h
      cases op with
      | neg =>
        obtain ⟨k, hk, rfl⟩ := Option.map_eq_some_iff.1 h
        exact termsIn_neg (ih hd hk)
      | cast =>
        simp only at h
        split_ifs at h
        exact ih hd h
      | sqrt => cases h
  | bin op t d a b iha ihb =>
    intro e0 l h
    simp only [intlinear] at h
    by_cases hc : isIntervalCst (.bin op t d a b) = true
    · rw [if_pos hc] at h; simp only [Option.some.injEq] at h; subst h; exact termsIn_const
    · rw [if_neg hc] at h
      by_cases ht : t ≠ .real
      · rw [if_pos ht] at h; cases h
      · rw [if_neg ht] at h
        cases op with
        | add =>
          obtain ⟨la, h1, h2⟩ := Option.bind_eq_some_iff.1 h
          obtain ⟨lb, h3, rfl⟩ := Option.map_eq_some_iff.1 h2
          exact termsIn_add R (iha hd.1 h1) (ihb hd.2 h3)
        | sub =>
          obtain ⟨la, h1, h2⟩ := Option.bind_eq_some_iff.1 h
          obtain ⟨lb, h3, rfl⟩ := Option.map_eq_some_iff.1 h2
          exact termsIn_add R (iha hd.1 h1) (termsIn_neg (ihb hd.2 h3))
        | mul =>
          simp only at h
          split_ifs at h
          · obtain ⟨k, hk, rfl⟩ := Option.map_eq_some_iff.1 h
            exact termsIn_scale R (iha hd.1 hk) _
          · obtain ⟨k, hk, rfl⟩ := Option.map_eq_some_iff.1 h
            exact termsIn_scale R (ihb hd.2 hk) _
        | div =>
          simp only at h
          split_ifs at h
          obtain ⟨k, hk, rfl⟩ := Option.map_eq_some_iff.1 h
          exact termsIn_scale R (iha hd.1 hk) _
        | mod => cases h
        | pow => cases h

/-- the terms of a linearised array -/
theorem dimsOk_intlinArrayGo (env : ℕ → Itv K) (intdim : ℕ) {n : ℕ} : ∀ {l : List (Tcons K)} {bound : Itv K} {r : List (ILincons K)},
    (∀ c ∈ l, c.expr.InDim n) → intlinArrayGo R o F env intdim bound l = some r → ∀ c ∈ r, DimsOk n c := by
  intro l
  induction l with
  | nil => intro bound r _ h; simp only [intlinArrayGo, Option.some.injEq] at h; subst h; simp
  | cons c l ih =>
    intro bound r hd h
    have hc : ∀ (k : ILinexpr K), k.terms = (intlin R o F env intdim true c.expr).1.terms → DimsOk n (⟨c.typ, k⟩ : ILincons K) := by
      intro k hk
      refine dimsOk_of_ordered ?_ ?_
      · intro t ht
        exact termsIn_intlin R o F env intdim (hd c (by simp)) true t (hk ▸ ht)
      · show Ordered k.terms
        rw [hk]; exact ordered_intlin R o F env intdim c.expr true
    simp only [intlinArrayGo] at h
    split_ifs at h
    all_goals
      obtain ⟨r', hr, rfl⟩ := Option.map_eq_some_iff.1 h
      intro k hk
      rcases List.mem_cons.1 hk with rfl | hk
      · exact hc _ rfl
      · exact ih (fun c hc => hd c (by simp [hc])) hr k hk

theorem dimsOk_intlinearizeArray (env : ℕ → Itv K) (intdim : ℕ) {n : ℕ} {l : List (Tcons K)} (hd : ∀ c ∈ l, c.expr.InDim n) :
    ∀ c ∈ intlinearizeArray R o F env intdim l, DimsOk n c := by
  unfold intlinearizeArray
  cases h : intlinArrayGo R o F env intdim (Itv.point 0) l with
  | none => simpa using dimsOk_setBool n false
  | some r => exact dimsOk_intlinArrayGo R o F env intdim hd h

theorem dimsOk_linStep {n : ℕ} {l : List (ILincons K)} (h : ∀ c ∈ l, DimsOk n c) (typ : LinType) (env : ℕ → Itv K) (meet : Bool) :
    ∀ c ∈ linStep R typ l env meet, DimsOk n c := by
  cases typ with
  | intlinear => exact h
  | quasilinear => exact dimsOk_quasiArray R h env meet
  | linear => exact dimsOk_linearizeArray (dimsOk_quasiArray R h env meet) meet

theorem dimsOk_body {n intdim : ℕ} {l : List (ILincons K)} (h : ∀ c ∈ l, DimsOk n c) (env : ℕ → Itv K) (typ : LinType) (meet boxize : Bool)
    (kmax : ℕ) (itvonly : Bool) : ∀ c ∈ apIntlinearizeArray.body R n intdim env typ meet boxize kmax itvonly l, DimsOk n c := by
  intro c hc
  unfold apIntlinearizeArray.body linFinish at hc
  have key : ∀ env', ∀ c ∈ linStep R typ l env' meet, DimsOk n c := fun env' => dimsOk_linStep R h typ env' meet
  by_cases hs : (meet && boxize && (!itvonly || !l.all fun c => c.expr.isQuasilinear)) = true
  · rw [if_pos hs] at hc
    generalize boxizeArrayT R l env intdim kmax itvonly = s at hc
    simp only at hc
    split_ifs at hc
    · exact key _ c hc
    · simp only [List.mem_singleton] at hc; exact hc ▸ dimsOk_setBool n false
    · rcases List.mem_append.1 hc with hc | hc
      · exact key _ c hc
      · exact dimsOk_boundRows c hc
    · exact key _ c hc
  · rw [if_neg hs] at hc
    simp only at hc
    split_ifs at hc <;> exact key _ c hc

/-- every constraint of `ap_intlinearize_tcons0_array` comes from an interval constraint with distinct dimensions -/
theorem dimsOk_apIntlinearizeArray (n intdim : ℕ) (env : ℕ → Itv K) {l : List (Tcons K)} (hd : ∀ c ∈ l, c.expr.InDim n)
    (typ : LinType) (meet boxize : Bool) (kmax : ℕ) (itvonly : Bool) :
    ∀ c ∈ apIntlinearizeArray R o F n intdim env l typ meet boxize kmax itvonly, ∃ k, c = Lincons.ofItv k ∧ DimsOk n k := by
  intro c hc
  have h := dimsOk_intlinearizeArray R o F env intdim hd
  unfold apIntlinearizeArray at hc
  simp only at hc
  generalize intlinearizeArray R o F env intdim l = T at hc h
  obtain ⟨k, hk, rfl⟩ := List.mem_map.1 hc
  refine ⟨k, rfl, ?_⟩
  have body := dimsOk_body R (intdim := intdim) h env typ meet boxize kmax itvonly
  match T, hk, h, body with
  | [], hk, _, body => exact body k hk
  | [c], hk, h, body =>
    simp only at hk
    split_ifs at hk
    · exact h k hk
    · exact body k hk
  | _ :: _ :: _, hk, _, body => exact body k hk

/-- the linear form of a tree is over the dimensions of the tree and sorted -/
theorem apIntlinearize_form {n : ℕ} (env : ℕ → Itv K) (intdim : ℕ) {e : Texpr K} (hd : e.InDim n) :
    ∃ l : ILinexpr K, apIntlinearize R o F env intdim e false = Linexpr.ofItv l ∧ Ordered l.terms ∧ TermsIn n l := by
  unfold apIntlinearize
  simp only [Bool.false_and, Bool.false_eq_true, if_false]
  refine ⟨_, rfl, ?_⟩
  by_cases h : e.isIntervalLinear = true
  · rw [if_pos h]
    cases hl : intlinear R o F true e with
    | none => exact ⟨by simp [Ordered], termsIn_nil⟩
    | some l => exact ⟨ordered_intlinear R o F hl, termsIn_intlinear R o F hd hl⟩
  · rw [if_neg h]
    have h1 := termsIn_intlin R o F env intdim hd true
    have h2 := ordered_intlin R o F env intdim e true
    simp only [intlinearize]
    split_ifs <;> exact ⟨h2, h1⟩

end Texpr

end Apron
