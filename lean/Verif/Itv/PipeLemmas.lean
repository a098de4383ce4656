import Verif.Itv.ReduceLemmas
import Verif.Itv.QuasiSound
import Verif.Texpr.ApLinearizeLemmas

/-!
# Constraints prepared for a meet: quasilinearised, linearised, reduced

What is needed to write the resulting constraints as rows of a matrix.
-/

set_option autoImplicit false
set_option linter.unusedSectionVars false
set_option linter.ambiguousOpen false

namespace Apron.ILincons
open Bound ILinexpr

variable {K : Type*} [LinearOrder K] [Field K] [IsStrictOrderedRing K]

/-- the dimensions of the terms -/
def dims (c : ILincons K) : List ℕ := c.expr.terms.map ITerm.dim

/-- a constraint satisfied by `x`, whose coefficients are numbers, on distinct dimensions below `n` -/
structure LinOk (n : ℕ) (x : ℕ → K) (c : ILincons K) : Prop where
  holds : c.Holds x
  flags : c.expr.FlagsOk
  quasi : ∀ t ∈ c.expr.terms, t.eq = true
  cst : c.typ = .eq → c.expr.CstOk
  lt : ∀ t ∈ c.expr.terms, t.dim < n
  nodup : c.dims.Nodup

/-! ## Quasilinearisation -/

theorem quasiGo_dims (R : Rnd K) (env : ℕ → Itv K) (ineq : Bool) (m : ℕ) :
    ∀ (out : List (ITerm K)) (c : Itv K × Bool) (l : List (ITerm K)), ((out ++ l).map ITerm.dim).Nodup →
      ((quasiGo R env ineq m out c l).terms.map ITerm.dim).Nodup := by
  induction m with
  | zero =>
    intro out c l h
    rw [List.map_append] at h
    exact (List.nodup_append.1 h).1
  | succ m ih =>
    intro out c l h
    cases l with
    | nil => simpa [quasiGo] using h
    | cons t l =>
      have hperm : ((out ++ swapRemove (t :: l)).map ITerm.dim).Nodup := by
        have hp : (swapRemove (t :: l)).Perm l := swapRemove_perm t l
        have h2 : ((out ++ l).map ITerm.dim).Nodup := by
          refine h.sublist (List.Sublist.map _ ?_)
          exact List.Sublist.append_left (List.sublist_cons_self t l) out
        exact ((hp.append_left out).map ITerm.dim).nodup_iff.2 h2
      have hdrop : ((out ++ l).map ITerm.dim).Nodup := by
        refine h.sublist (List.Sublist.map _ ?_)
        exact List.Sublist.append_left (List.sublist_cons_self t l) out
      unfold quasiGo
      dsimp only
      by_cases h1 : (env t.dim).isPoint = true
      · rw [if_pos h1]; exact ih _ _ _ hperm
      · rw [if_neg h1]
        by_cases h2 : t.eq = false
        · rw [if_pos h2]
          split_ifs
          · simp
          · refine ih _ _ _ ?_
            simpa [List.map_append] using h
          · exact ih _ _ _ hdrop
        · rw [if_neg h2]
          refine ih _ _ _ ?_
          simpa [List.map_append] using h

theorem quasiCons_dims (R : Rnd K) {c : ILincons K} (h : c.dims.Nodup) (env : ℕ → Itv K) (meet : Bool) :
    (quasiCons R c env meet).dims.Nodup := by
  unfold quasiCons
  split_ifs
  · simp [dims, setBool]
  · simp [dims, setBool]
  · exact h
  · exact quasiGo_dims R env _ _ [] _ _ h

theorem quasiCons_quasi (R : Rnd K) (c : ILincons K) (env : ℕ → Itv K) (meet : Bool) :
    ∀ t ∈ (quasiCons R c env meet).expr.terms, t.eq = true := by
  unfold quasiCons
  split_ifs with he
  · simp [setBool]
  · simp [setBool]
  · rw [List.isEmpty_iff] at he; simp [he]
  · exact quasi_quasilinear R _ _ _

theorem quasiCons_flags (R : Rnd K) {c : ILincons K} (h : c.expr.FlagsOk) (env : ℕ → Itv K) (meet : Bool) :
    (quasiCons R c env meet).expr.FlagsOk := by
  unfold quasiCons
  split_ifs
  · intro t ht; simp [setBool] at ht
  · intro t ht; simp [setBool] at ht
  · exact h
  · exact flagsOk_quasi R h _ _

/-- what holds of all the quasilinearised constraints of an array -/
theorem quasiArrayGo_inv (R : Rnd K) {Q P : ILincons K → Prop} (env : ℕ → Itv K) (meet : Bool)
    (hQ1 : ∀ c, Q c → Q ⟨.supeq, c.expr⟩) (hQ2 : ∀ c, Q c → Q ⟨.supeq, c.expr.neg⟩)
    (hP : ∀ c, Q c → P (quasiCons R c env meet)) (m : ℕ) :
    ∀ {done l r : List (ILincons K)}, (∀ c ∈ done, P c) → (∀ c ∈ l, Q c) → quasiArrayGo R env meet m done l = some r →
      ∀ c ∈ r, P c := by
  induction m with
  | zero => intro done l r hd _ e; simp only [quasiArrayGo, Option.some.injEq] at e; exact e ▸ hd
  | succ m ih =>
    intro done l r hd hl e
    cases l with
    | nil => simp only [quasiArrayGo, Option.some.injEq] at e; exact e ▸ hd
    | cons c l =>
      have hc := hl c (by simp)
      have key : ∀ (c1 : ILincons K) (l1 : List (ILincons K)), Q c1 → (∀ k ∈ l1, Q k) →
          (if (quasiCons R c1 env meet).expr.terms.isEmpty ∧ evalCst' (quasiCons R c1 env meet) = .f then none
            else quasiArrayGo R env meet m (done ++ [quasiCons R c1 env meet]) l1) = some r → ∀ c ∈ r, P c := by
        intro c1 l1 h1 h2 h3
        split_ifs at h3
        refine ih ?_ h2 h3
        intro k hk
        rcases List.mem_append.1 hk with hk | hk
        · exact hd k hk
        · simp only [List.mem_singleton] at hk; subst hk; exact hP c1 h1
      unfold quasiArrayGo at e
      dsimp only at e
      by_cases hs : meet = true ∧ c.typ = .eq ∧ c.expr.isQuasilinear = false
      · simp only [if_pos hs] at e
        refine key _ _ (hQ1 c hc) ?_ e
        intro k hk
        rcases List.mem_append.1 hk with hk | hk
        · exact hl k (by simp [hk])
        · simp only [List.mem_singleton] at hk; subst hk; exact hQ2 c hc
      · simp only [if_neg hs] at e
        exact key c l hc (fun k hk => hl k (by simp [hk])) e

theorem arrayReduce_inv {Q : ILincons K → Prop} {meet : Bool} {l : List (ILincons K)} (h : ∀ c ∈ l, Q c)
    (hF : Q (setBool false)) : ∀ c ∈ (arrayReduce meet l).1, Q c := by
  unfold arrayReduce
  cases hr : reduceGo meet (l.length + 1) [] l with
  | none => simpa using hF
  | some r =>
    have hs := reduceGo_sub meet _ hr
    match r with
    | [] => simp
    | [c] => intro k hk; exact h k (by simpa using hs k (by simpa using hk))
    | a :: b :: r => intro k hk; exact h k (by simpa using hs k (by simpa using hk))

theorem quasiArray_inv (R : Rnd K) {Q P : ILincons K → Prop} {env : ℕ → Itv K} {meet : Bool} {l : List (ILincons K)}
    (hl : ∀ c ∈ l, Q c) (hF : Q (setBool false)) (hF' : P (setBool false))
    (hQ1 : ∀ c, Q c → Q ⟨.supeq, c.expr⟩) (hQ2 : ∀ c, Q c → Q ⟨.supeq, c.expr.neg⟩)
    (hP : ∀ c, Q c → P (quasiCons R c env meet)) : ∀ c ∈ quasiArray R l env meet, P c := by
  unfold quasiArray
  dsimp only
  cases hr : quasiArrayGo R env meet (2 * (arrayReduce meet l).1.length + 1) [] (arrayReduce meet l).1 with
  | none => simpa using hF'
  | some r => exact quasiArrayGo_inv R env meet hQ1 hQ2 hP _ (by simp) (arrayReduce_inv hl hF) hr

theorem dims_neg (c : ILincons K) : dims ⟨.supeq, c.expr.neg⟩ = c.dims := by
  simp [dims, ILinexpr.neg, Function.comp_def]

/-- the quasilinearised array -/
theorem linOk_quasiArray [FloorRing K] {n : ℕ} {l : List (ILincons K)} {env : ℕ → Itv K} {x : ℕ → K}
    (hl : ∀ c ∈ l, c.expr.FlagsOk ∧ (c.expr.isQuasilinear = true → c.expr.CstOk) ∧ (∀ t ∈ c.expr.terms, t.dim < n) ∧ c.dims.Nodup)
    (hx : ∀ d, d < n → x d ∈ env d) (hc : ∀ c ∈ l, c.Holds x) :
    ∀ c ∈ quasiArray Rnd.exact l env true, LinOk n x c := by
  have h1 := quasiArray_sound' (l := l) (env := env) (x := x)
    (fun c hm => ⟨(hl c hm).1, (hl c hm).2.1, fun t ht => hx _ ((hl c hm).2.2.1 t ht), hc c hm⟩)
  have h2 := dims_quasiArray Rnd.exact (D := fun d => d < n) (fun c hm => (hl c hm).2.2.1) env true
  have h3 : ∀ c ∈ quasiArray Rnd.exact l env true, c.expr.FlagsOk ∧ (∀ t ∈ c.expr.terms, t.eq = true) ∧ c.dims.Nodup :=
    quasiArray_inv Rnd.exact (Q := fun c => c.expr.FlagsOk ∧ c.dims.Nodup)
      (fun c hm => ⟨(hl c hm).1, (hl c hm).2.2.2⟩) ⟨by intro t ht; simp [setBool] at ht, by simp [dims, setBool]⟩
      ⟨by intro t ht; simp [setBool] at ht, by simp [setBool], by simp [dims, setBool]⟩
      (fun c h => ⟨h.1, h.2⟩) (fun c h => ⟨flagsOk_neg h.1, by rw [dims_neg]; exact h.2⟩)
      (fun c h => ⟨quasiCons_flags _ h.1 env true, quasiCons_quasi _ c env true, quasiCons_dims _ h.2 env true⟩)
  exact fun c hm => ⟨(h1 c hm).1, (h3 c hm).1, (h3 c hm).2.1, (h1 c hm).2, h2 c hm, (h3 c hm).2.2⟩

/-! ## Linearisation -/

theorem arrayReduce_kept {l : List (ILincons K)} {x : ℕ → K}
    (hcst : ∀ c ∈ l, c.expr.terms.isEmpty = true → c.typ = .eq → c.expr.CstOk) (hl : ∀ c ∈ l, c.Holds x) :
    ∀ c ∈ (arrayReduce true l).1, c ∈ l ∧ useless c = false ∧ c.expr.terms.isEmpty = false := by
  have h1 := arrayReduce_holds' hcst hl
  have hkept : ∀ c ∈ (arrayReduce true l).1, useless c = false := by
    have h0 := h1.1
    unfold arrayReduce at h0 ⊢
    cases h : reduceGo true (l.length + 1) [] l with
    | none => rw [h] at h0; simp at h0
    | some r =>
      have := reduceGo_kept (by omega) h
      match r with
      | [] => simp
      | [c] => simpa using this
      | a :: b :: r => simpa using this
  intro c hc
  refine ⟨h1.2 c hc, hkept c hc, ?_⟩
  by_contra he
  simp only [Bool.not_eq_false] at he
  have := hkept c hc
  simp only [useless, he, if_true, decide_eq_false_iff_not, ne_eq, not_not] at this
  have hcl := h1.2 c hc
  exact not_holds_of_evalCst'_f' (hcst c hcl he) he this x (hl c hcl)

theorem arrayReduce_top {l : List (ILincons K)} (h : ∀ c ∈ (arrayReduce true l).1, c.expr.terms.isEmpty = false)
    (h2 : (arrayReduce true l).2 ≠ .top) : (arrayReduce true l).1 = [] := by
  revert h h2
  unfold arrayReduce
  cases hr : reduceGo true (l.length + 1) [] l with
  | none => intro h; simp [setBool] at h
  | some r =>
    match r with
    | [] => simp
    | [c] => intro h h2; simp at h; simp [h] at h2
    | a :: b :: r => intro _ h2; simp at h2

/-- moreover the constant of an equality is a number -/
structure LinOk2 (n : ℕ) (x : ℕ → K) (c : ILincons K) : Prop extends LinOk n x c where
  pt : c.typ = .eq → c.expr.eq = true ∧ ∃ q, c.expr.cst = Itv.point q

theorem linOk2_linearizeArray {n : ℕ} {l : List (ILincons K)} {x : ℕ → K} (hl : ∀ c ∈ l, LinOk n x c) :
    ∀ c ∈ linearizeArray true l, LinOk2 n x c := by
  have hk := arrayReduce_kept (l := l) (x := x) (fun c hc _ => (hl c hc).cst) (fun c hc => (hl c hc).holds)
  have hone : ∀ c ∈ (arrayReduce true l).1, LinOk2 n x (linearizeOne true c).1 ∧
      ∀ d, (linearizeOne true c).2 = some d → LinOk2 n x d := by
    intro c hc
    obtain ⟨h1, h2, h3⟩ := hk c hc
    have ho := hl c h1
    have hs := linearizeOne_sound h3 h2 ho.holds
    have negOk : ∀ t : ConsTyp K, (selectInf ⟨t, c.expr⟩).Holds x → t ≠ .eq → LinOk2 n x (selectInf ⟨t, c.expr⟩) := by
      intro t hh ht
      refine ⟨⟨hh, ?_, ?_, fun e => absurd e ht, ?_, ?_⟩, fun e => absurd e ht⟩
      · intro u hu
        simp only [selectInf, List.mem_map] at hu
        obtain ⟨v, hv, rfl⟩ := hu
        exact flagOk_neg (ho.flags v hv)
      · intro u hu
        simp only [selectInf, List.mem_map] at hu
        obtain ⟨v, hv, rfl⟩ := hu
        exact ho.quasi v hv
      · intro u hu
        simp only [selectInf, List.mem_map] at hu
        obtain ⟨v, hv, rfl⟩ := hu
        exact ho.lt v hv
      · have : (selectInf ⟨t, c.expr⟩ : ILincons K).dims = c.dims := by simp [dims, selectInf, Function.comp_def]
        rw [this]; exact ho.nodup
    have supOk : ∀ t : ConsTyp K, (selectSup ⟨t, c.expr⟩).Holds x → t ≠ .eq → LinOk2 n x (selectSup ⟨t, c.expr⟩) :=
      fun t hh ht => ⟨⟨hh, ho.flags, ho.quasi, fun e => absurd e ht, ho.lt, ho.nodup⟩, fun e => absurd e ht⟩
    revert hs
    unfold linearizeOne
    by_cases he : c.expr.eq = true
    · rw [if_pos he]
      intro _
      refine ⟨⟨ho, fun ht => ?_⟩, by simp⟩
      obtain ⟨v, ⟨q, r, hq, _, _⟩, _⟩ := ho.holds
      exact ⟨he, q, ho.cst ht he q hq⟩
    · rw [if_neg he]
      cases hty : c.typ with
      | eq =>
        dsimp only
        split_ifs
        · intro hs
          refine ⟨supOk .supeq hs.1 (by simp), ?_⟩
          rintro d ⟨⟩
          exact negOk .supeq (hs.2 _ rfl) (by simp)
        · intro hs; exact ⟨supOk .supeq hs.1 (by simp), by simp⟩
        · intro hs; exact ⟨negOk .supeq hs.1 (by simp), by simp⟩
      | supeq =>
        have := supOk .supeq
        rw [← hty] at this
        intro hs
        exact ⟨this hs.1 (by rw [hty]; simp), by simp⟩
      | sup =>
        have := supOk .sup
        rw [← hty] at this
        intro hs
        exact ⟨this hs.1 (by rw [hty]; simp), by simp⟩
      | eqmod m => intro hs; exact ⟨⟨ho, by rw [hty]; simp⟩, by simp⟩
      | diseq => intro hs; exact ⟨⟨ho, by rw [hty]; simp⟩, by simp⟩
  unfold linearizeArray
  dsimp only
  split_ifs with h
  · rw [arrayReduce_top (fun c hc => (hk c hc).2.2) h]; simp
  · intro c hc
    rcases List.mem_append.1 hc with hc | hc
    · obtain ⟨d, hd, rfl⟩ := List.mem_map.1 hc
      exact (hone d hd).1
    · obtain ⟨d, hd, e⟩ := List.mem_filterMap.1 hc
      exact (hone d hd).2 c e

/-! ## Integer reduction -/

theorem linOk2_reduceInteger {n intdim : ℕ} {c : ILincons ℚ} {x : ℕ → ℚ} (hx : ∀ d, d < intdim → ∃ m : ℤ, x d = m)
    (h : LinOk2 n x c) : LinOk2 n x (reduceIntegerRat c intdim) := by
  have hCst : c.expr.isQuasilinear = true → c.expr.CstOk ∨ c.typ ≠ .eq := by
    intro _
    by_cases ht : c.typ = .eq
    · exact .inl (h.cst ht)
    · exact .inr ht
  have hholds : (reduceIntegerRat c intdim).Holds x := by
    by_cases ht : c.typ = .eq
    · exact reduceIntegerRat_sound' h.flags (fun _ => h.cst ht) hx h.holds
    · -- the flag of the constant does not matter for inequalities
      rcases reduceIntegerRat_eq c intdim with he | ⟨hr, _, den, num, hd0, hn0, hd, he⟩
      · rw [he]; exact h.holds
      · rw [he]
        rw [reducible_iff] at hr
        obtain ⟨hty, hdim, hquasi⟩ := hr
        have hfpos : (0 : ℚ) < (den : ℚ) / (num : ℚ) :=
          div_pos (by exact_mod_cast Nat.pos_of_ne_zero hd0) (by exact_mod_cast Nat.pos_of_ne_zero hn0)
        have hp : ∀ t ∈ c.expr.terms, ∃ a, t.itv = Itv.point a := by
          obtain ⟨v, ⟨q, r, _, hr, _⟩, _⟩ := h.holds
          intro t ht
          obtain ⟨a, ha⟩ := tval_nonempty hr t ht
          exact ⟨a, h.flags t ht (hquasi t ht) a ha⟩
        refine constrainBounds_sound Rnd.exact (c := ratScaled c den num) hty
          (ratScaled_int fun t ht => hx t.dim (hdim t ht)) (fun e => absurd e ht)
          ((holds_scale hty hfpos (ratScaled_forall₂ hn0 hp hd)).2 h.holds)
  rcases reduceIntegerRat_eq c intdim with he | ⟨hr, hne, den, num, hd0, hn0, hd, he⟩
  · rw [he]; exact h
  · have hfpos : (0 : ℚ) < (den : ℚ) / (num : ℚ) :=
      div_pos (by exact_mod_cast Nat.pos_of_ne_zero hd0) (by exact_mod_cast Nat.pos_of_ne_zero hn0)
    rw [reducible_iff] at hr
    have hterms : (reduceIntegerRat c intdim).expr.terms = [] ∨ (reduceIntegerRat c intdim).expr.terms = (ratScaled c den num).expr.terms := by
      rw [he]; unfold constrainBounds; dsimp only
      split
      · split_ifs <;> simp [setBool]
      · split_ifs <;> simp
    have hptT : (reduceIntegerRat c intdim).typ = .eq →
        (reduceIntegerRat c intdim).expr.eq = true ∧ ∃ q, (reduceIntegerRat c intdim).expr.cst = Itv.point q := by
      rw [he]
      intro htyp
      by_cases ht : c.typ = .eq
      · obtain ⟨hE, q, hq⟩ := h.pt ht
        have e1 : (ratScaled c den num).expr.cst = Itv.point (q * ((den : ℚ) / num)) := by
          simp only [ratScaled]; rw [hq, mulBound_point_exact _ _ hfpos]
        have e2 : (ratScaled c den num).expr.eq = true := hE
        have e3 : (ratScaled c den num).typ = .eq := ht
        unfold constrainBounds
        rw [e3, e1, e2]
        simp only [Itv.point, Bound.floor, infty, Bool.false_eq_true, if_false, if_true]
        split_ifs
        · exact ⟨rfl, 1, by simp [setBool, Itv.point, Bound.neg]⟩
        · exact ⟨rfl, _, rfl⟩
      · exfalso
        have e3 : (ratScaled c den num).typ = c.typ := rfl
        revert htyp
        unfold constrainBounds
        rw [e3]
        rcases hr.1 with ht' | ht' | ht'
        · exact absurd ht' ht
        · rw [ht']; dsimp only; split_ifs <;> simp
        · rw [ht']; dsimp only
          by_cases hi : infty (ratScaled c den num).expr.cst.sup = true
          · simp only [hi, if_true]; split_ifs <;> simp
          · simp only [hi]; split_ifs <;> simp
    have hmem : ∀ t ∈ (reduceIntegerRat c intdim).expr.terms, ∃ u ∈ c.expr.terms, t.dim = u.dim ∧ t.eq = u.eq ∧ ∃ a, t.itv = Itv.point a := by
      intro t ht
      rcases hterms with e | e
      · rw [e] at ht; simp at ht
      · rw [e] at ht
        simp only [ratScaled, List.mem_map] at ht
        obtain ⟨u, hu, rfl⟩ := ht
        exact ⟨u, hu, rfl, rfl, _, rfl⟩
    refine ⟨⟨hholds, fun t ht => ?_, fun t ht => ?_, fun htyp => ?_, fun t ht => ?_, ?_⟩, hptT⟩
    · obtain ⟨u, hu, _, _, a, ha⟩ := hmem t ht
      intro _ q hq
      rw [ha, Itv.mem_point] at hq
      rw [ha, hq]
    · obtain ⟨u, hu, _, e, _⟩ := hmem t ht
      rw [e]; exact h.quasi u hu
    · obtain ⟨_, q, hq⟩ := hptT htyp
      intro _ p hp
      rw [hq, Itv.mem_point] at hp
      rw [hq, hp]
    · obtain ⟨u, hu, e, _⟩ := hmem t ht
      rw [e]; exact h.lt u hu
    · rcases hterms with e | e
      · simp [dims, e]
      · have : (reduceIntegerRat c intdim).dims = c.dims := by
          simp [dims, e, ratScaled, Function.comp_def]
        rw [this]; exact h.nodup

theorem linOk2_arrayReduceInteger {n intdim : ℕ} {l : List (ILincons ℚ)} {x : ℕ → ℚ} (hx : ∀ d, d < intdim → ∃ m : ℤ, x d = m)
    (h : ∀ c ∈ l, LinOk2 n x c) : ∀ c ∈ (arrayReduceInteger reduceIntegerRat l intdim).1, LinOk2 n x c := by
  have hm : ∀ c ∈ l.map (fun c => reduceIntegerRat c intdim), LinOk2 n x c := by
    intro c hc
    obtain ⟨d, hd, rfl⟩ := List.mem_map.1 hc
    exact linOk2_reduceInteger hx (h d hd)
  intro c hc
  have := arrayReduce_holds' (l := l.map (fun c => reduceIntegerRat c intdim)) (x := x)
    (fun c hc _ => (hm c hc).cst) (fun c hc => (hm c hc).holds)
  exact hm c (this.2 c hc)

end Apron.ILincons
