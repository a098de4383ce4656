import Verif.Itv.EvalTight

/-! # Lemmas on quasilinearisation and linearisation -/

set_option autoImplicit false
set_option linter.unusedSectionVars false
set_option linter.ambiguousOpen false

namespace Apron
open Bound
variable {K : Type*} [LinearOrder K] [Field K] [IsStrictOrderedRing K]

namespace ILincons
open ILinexpr

section
variable (R : Rnd K)

theorem quasiGo_sound {env : ℕ → Itv K} {ineq : Bool} {x : ℕ → K} {n : ℕ} {out l : List (ITerm K)}
    {c : Itv K × Bool} (hn : l.length ≤ n) (hx : ∀ t ∈ l, x t.dim ∈ env t.dim) {q r1 r2 : K}
    (hq : q ∈ c.1) (h1 : TVal out x r1) (h2 : TVal l x r2) :
    (quasiGo R env ineq n out c l).Val x (q + r1 + r2) := by
  induction n generalizing out l c q r1 r2 with
  | zero =>
    have : l = [] := List.length_eq_zero_iff.1 (by omega)
    subst this
    simp only [TVal] at h2; subst h2
    exact ⟨q, r1, hq, h1, by ring⟩
  | succ n ih =>
    cases l with
    | nil =>
      simp only [TVal] at h2; subst h2
      exact ⟨q, r1, hq, h1, by ring⟩
    | cons t l =>
      have hl : l.length ≤ n := by simp at hn; exact hn
      have hxl : ∀ t ∈ l, x t.dim ∈ env t.dim := fun u hu => hx u (by simp [hu])
      obtain ⟨a, s, ha, hs, rfl⟩ := h2
      have hxt := hx t (by simp)
      simp only [quasiGo]
      split_ifs with hp he htop hm
      · have hpt := Itv.isPoint_eq hp hxt
        have hsup : (env t.dim).sup = fin (x t.dim) := by rw [hpt]; rfl
        have hperm := swapRemove_perm t l
        have := ih (out := out) (l := swapRemove (t :: l))
          (c := (Itv.add R c.1 (Itv.mulBound R t.itv (env t.dim).sup), c.2))
          (by rw [hperm.length_eq]; exact hl) (fun u hu => hxl u (hperm.mem_iff.1 hu))
          (Itv.mem_add R hq (by rw [hsup]; exact Itv.mem_mulBound R ha)) h1 ((tval_perm hperm).2 hs)
        rwa [show q + r1 + (a * x t.dim + s) = q + a * x t.dim + r1 + s by ring]
      · have hc : q + (a - chooseMiddle R t.itv (env t.dim) ineq) * x t.dim ∈ Itv.add R c.1 (Itv.mul R
            (Itv.sub R t.itv (Itv.point (chooseMiddle R t.itv (env t.dim) ineq))) (env t.dim)) :=
          Itv.mem_add R hq (Itv.mem_mul R (Itv.mem_sub R ha ((Itv.mem_point _ _).2 rfl)) hxt)
        exact ⟨_, 0, Itv.mem_of_isTop htop hc (q + r1 + (a * x t.dim + s)), rfl, by ring⟩
      · have hc : q + (a - chooseMiddle R t.itv (env t.dim) ineq) * x t.dim ∈ Itv.add R c.1 (Itv.mul R
            (Itv.sub R t.itv (Itv.point (chooseMiddle R t.itv (env t.dim) ineq))) (env t.dim)) :=
          Itv.mem_add R hq (Itv.mem_mul R (Itv.mem_sub R ha ((Itv.mem_point _ _).2 rfl)) hxt)
        have h3 : TVal (out ++ [⟨t.dim, true, Itv.point (chooseMiddle R t.itv (env t.dim) ineq)⟩]) x
            (r1 + chooseMiddle R t.itv (env t.dim) ineq * x t.dim) :=
          tval_append.2 ⟨_, _, h1, tval_singleton.2 ⟨_, (Itv.mem_point _ _).2 rfl, rfl⟩, rfl⟩
        rw [show q + r1 + (a * x t.dim + s) = q + (a - chooseMiddle R t.itv (env t.dim) ineq) * x t.dim +
          (r1 + chooseMiddle R t.itv (env t.dim) ineq * x t.dim) + s by ring]
        exact ih hl hxl hc h3 hs
      · push Not at hm
        have hc : q + (a - chooseMiddle R t.itv (env t.dim) ineq) * x t.dim ∈ Itv.add R c.1 (Itv.mul R
            (Itv.sub R t.itv (Itv.point (chooseMiddle R t.itv (env t.dim) ineq))) (env t.dim)) :=
          Itv.mem_add R hq (Itv.mem_mul R (Itv.mem_sub R ha ((Itv.mem_point _ _).2 rfl)) hxt)
        rw [show q + r1 + (a * x t.dim + s) = q + (a - chooseMiddle R t.itv (env t.dim) ineq) * x t.dim +
          r1 + s by rw [hm]; ring]
        exact ih hl hxl hc h1 hs
      · have h3 : TVal (out ++ [t]) x (r1 + a * x t.dim) :=
          tval_append.2 ⟨_, _, h1, tval_singleton.2 ⟨_, ha, rfl⟩, rfl⟩
        have := ih (c := c) hl hxl hq h3 hs
        rwa [show q + r1 + (a * x t.dim + s) = q + (r1 + a * x t.dim) + s by ring]

theorem quasi_sound {e : ILinexpr K} {env : ℕ → Itv K} {ineq : Bool} {x : ℕ → K} {v : K}
    (hx : ∀ t ∈ e.terms, x t.dim ∈ env t.dim) (hv : e.Val x v) : (quasi R e env ineq).Val x v := by
  obtain ⟨q, r, hq, hr, rfl⟩ := hv
  have := quasiGo_sound R (env := env) (ineq := ineq) (n := e.terms.length + 1) (out := [])
    (c := (e.cst, e.eq)) (Nat.le_succ _) hx hq (r1 := 0) rfl hr
  rw [add_zero] at this
  exact this

/-- the terms of a quasilinearised expression: scalar terms of the original, or chosen points -/
theorem quasiGo_terms {env : ℕ → Itv K} {ineq : Bool} {n : ℕ} {out l : List (ITerm K)}
    {c : Itv K × Bool} {u : ITerm K} (hu : u ∈ (quasiGo R env ineq n out c l).terms) :
    u ∈ out ∨ (u ∈ l ∧ u.eq = true) ∨
      ((∃ t ∈ l, t.dim = u.dim ∧ t.eq = false) ∧ u.eq = true ∧ ∃ m, u.itv = Itv.point m) := by
  induction n generalizing out l c with
  | zero => exact Or.inl hu
  | succ n ih =>
    cases l with
    | nil => exact Or.inl hu
    | cons t l =>
      simp only [quasiGo] at hu
      split_ifs at hu with hp he htop hm
      · have hperm := swapRemove_perm t l
        rcases ih hu with h | h | ⟨⟨t', h, h'⟩, h''⟩
        · exact Or.inl h
        · exact Or.inr (Or.inl ⟨by simp [hperm.mem_iff.1 h.1], h.2⟩)
        · exact Or.inr (Or.inr ⟨⟨t', by simp [hperm.mem_iff.1 h], h'⟩, h''⟩)
      · simp at hu
      · rcases ih hu with h | h | ⟨⟨t', h, h'⟩, h''⟩
        · rcases List.mem_append.1 h with h | h
          · exact Or.inl h
          · simp only [List.mem_singleton] at h
            subst h
            exact Or.inr (Or.inr ⟨⟨t, by simp, rfl, he⟩, rfl, _, rfl⟩)
        · exact Or.inr (Or.inl ⟨by simp [h.1], h.2⟩)
        · exact Or.inr (Or.inr ⟨⟨t', by simp [h], h'⟩, h''⟩)
      · rcases ih hu with h | h | ⟨⟨t', h, h'⟩, h''⟩
        · exact Or.inl h
        · exact Or.inr (Or.inl ⟨by simp [h.1], h.2⟩)
        · exact Or.inr (Or.inr ⟨⟨t', by simp [h], h'⟩, h''⟩)
      · rcases ih hu with h | h | ⟨⟨t', h, h'⟩, h''⟩
        · rcases List.mem_append.1 h with h | h
          · exact Or.inl h
          · simp only [List.mem_singleton] at h
            subst h
            exact Or.inr (Or.inl ⟨by simp, by simpa using he⟩)
        · exact Or.inr (Or.inl ⟨by simp [h.1], h.2⟩)
        · exact Or.inr (Or.inr ⟨⟨t', by simp [h], h'⟩, h''⟩)

theorem quasi_terms {e : ILinexpr K} {env : ℕ → Itv K} {ineq : Bool} {u : ITerm K}
    (hu : u ∈ (quasi R e env ineq).terms) :
    (u ∈ e.terms ∧ u.eq = true) ∨
      ((∃ t ∈ e.terms, t.dim = u.dim ∧ t.eq = false) ∧ u.eq = true ∧ ∃ m, u.itv = Itv.point m) := by
  rcases quasiGo_terms R hu with h | h | h
  · simp at h
  · exact Or.inl h
  · exact Or.inr h

theorem quasi_quasilinear (e : ILinexpr K) (env : ℕ → Itv K) (ineq : Bool) :
    ∀ t ∈ (quasi R e env ineq).terms, t.eq = true := by
  intro t ht
  rcases quasi_terms R ht with h | h
  · exact h.2
  · exact h.2.1

theorem flagsOk_quasi {e : ILinexpr K} (hf : e.FlagsOk) (env : ℕ → Itv K) (ineq : Bool) :
    (quasi R e env ineq).FlagsOk := by
  intro t ht
  rcases quasi_terms R ht with h | ⟨_, _, m, hm⟩
  · exact hf t h.1
  · intro _ q hq
    rw [hm, Itv.mem_point] at hq
    rw [hm, hq]

end

theorem mul_fin_exact (a b : K) : Bound.mul Rnd.exact (fin a) (fin b) = fin (a * b) := by
  by_cases ha : a = 0
  · simp [Bound.mul, ha, sgn_zero_iff]
  · by_cases hb : b = 0
    · simp [Bound.mul, hb, sgn_zero_iff]
    · rw [Bound.mul]; simp [ha, hb, sgn_zero_iff, Rnd.exact]

theorem mulBound_point (a p : K) :
    Itv.mulBound Rnd.exact (Itv.point a) (fin p) = Itv.point (a * p) := by
  unfold Itv.mulBound
  split_ifs with h
  · simp only [Itv.point, mul_fin_exact, neg_mul]
  · simp only [Itv.point, neg_fin, mul_fin_exact, mul_neg, neg_mul, _root_.neg_neg]

theorem add_point (a p : K) : Itv.add Rnd.exact (Itv.point a) (Itv.point p) = Itv.point (a + p) := by
  simp [Itv.add, Itv.point, Bound.add, Rnd.exact]; ring

/-- with exact arithmetic and scalar terms, the constant stays a point if it was one -/
theorem quasiGo_cstOk {env : ℕ → Itv K} {ineq : Bool} {n : ℕ} {out l : List (ITerm K)}
    {c : Itv K × Bool} (hl : ∀ t ∈ l, t.eq = true ∧ ∃ a, t.itv = Itv.point a)
    (hc : c.2 = true → ∃ q, c.1 = Itv.point q) :
    (quasiGo Rnd.exact env ineq n out c l).eq = true →
      ∃ q, (quasiGo Rnd.exact env ineq n out c l).cst = Itv.point q := by
  induction n generalizing out l c with
  | zero => exact hc
  | succ n ih =>
    cases l with
    | nil => exact hc
    | cons t l =>
      obtain ⟨heq, a, ha⟩ := hl t (by simp)
      simp only [quasiGo]
      by_cases hp : (env t.dim).isPoint = true
      · rw [if_pos hp]
        refine ih (fun u hu => hl u (by simp [(swapRemove_perm t l).mem_iff.1 hu])) ?_
        intro h
        obtain ⟨q, hq⟩ := hc h
        obtain ⟨p, hp'⟩ := Itv.isPoint_iff.1 hp
        refine ⟨q + a * p, ?_⟩
        have hs : (env t.dim).sup = fin p := by rw [hp']; rfl
        simp only [hq, ha, hs]
        rw [mulBound_point, add_point]
      · rw [if_neg hp, if_neg (by simp [heq])]
        exact ih (fun u hu => hl u (by simp [hu])) hc

/-- what the quasilinearisation of an array needs to know about each constraint -/
structure QOk (c : ILincons K) : Prop where
  flags : c.expr.FlagsOk
  cst : c.typ = .eq → c.expr.isQuasilinear = true → c.expr.CstOk

theorem holds_setBool_true (x : ℕ → K) : (setBool true : ILincons K).Holds x :=
  ⟨0, (val_nil (by simp [setBool])).2 (by simp [setBool, Itv.mem_point]), by
    simp [setBool, Lincons.Rel]⟩

theorem quasiCons_sound {c : ILincons K} {env : ℕ → Itv K} (h : QOk c)
    (hs : c.typ = .eq → c.expr.isQuasilinear = true) {x : ℕ → K}
    (hx : ∀ t ∈ c.expr.terms, x t.dim ∈ env t.dim) (hc : c.Holds x) :
    (quasiCons Rnd.exact c env true).Holds x ∧
      ((quasiCons Rnd.exact c env true).typ = .eq → (quasiCons Rnd.exact c env true).expr.CstOk) := by
  unfold quasiCons
  have hq0 : c.expr.terms.isEmpty = true → c.expr.isQuasilinear = true := by
    intro he; rw [List.isEmpty_iff] at he; simp [ILinexpr.isQuasilinear, he]
  split_ifs with he h1 h2
  · exact ⟨holds_setBool_true x, fun _ _ q hq => by
      simp only [setBool, Itv.mem_point, if_true] at hq ⊢; rw [hq]⟩
  · obtain ⟨v, hv, hr⟩ := hc
    exact absurd hr (evalCst'_f_weak (fun e => h.cst e (hq0 he)) h2 ((val_nil he).1 hv))
  · exact ⟨hc, fun e => h.cst e (hq0 he)⟩
  · obtain ⟨v, hv, hr⟩ := hc
    refine ⟨⟨v, quasi_sound _ hx hv, hr⟩, ?_⟩
    intro hty heq q hq
    simp only at hty
    obtain ⟨a, r, ha, htv, rfl⟩ := hv
    have hall : ∀ t ∈ c.expr.terms, t.eq = true := by
      have := hs hty
      simpa [ILinexpr.isQuasilinear] using this
    obtain ⟨p, hp⟩ := quasiGo_cstOk (env := env) (ineq := _) (n := _) (out := [])
      (c := (c.expr.cst, c.expr.eq)) (l := c.expr.terms) (fun t ht => by
        obtain ⟨q, hq⟩ := tval_ne htv t ht
        exact ⟨hall t ht, q, h.flags t ht (hall t ht) q hq⟩)
      (fun he => ⟨a, h.cst hty (hs hty) he a ha⟩) heq
    simp only [quasi] at hq ⊢
    rw [hp, Itv.mem_point] at hq
    rw [hp, hq]

theorem quasiArrayGo_sound {env : ℕ → Itv K} {x : ℕ → K} {n : ℕ} {done l : List (ILincons K)}
    (hl : ∀ c ∈ l, QOk c ∧ (∀ t ∈ c.expr.terms, x t.dim ∈ env t.dim) ∧ c.Holds x)
    (hd : ∀ c ∈ done, c.Holds x ∧ (c.typ = .eq → c.expr.CstOk)) :
    ∃ r, quasiArrayGo Rnd.exact env true n done l = some r ∧
      ∀ c ∈ r, c.Holds x ∧ (c.typ = .eq → c.expr.CstOk) := by
  induction n generalizing done l with
  | zero => exact ⟨done, rfl, hd⟩
  | succ n ih =>
    cases l with
    | nil => exact ⟨done, rfl, hd⟩
    | cons c l =>
      obtain ⟨h1, h2, h3⟩ := hl c (by simp)
      have hl' : ∀ c ∈ l, QOk c ∧ (∀ t ∈ c.expr.terms, x t.dim ∈ env t.dim) ∧ c.Holds x :=
        fun c hc => hl c (by simp [hc])
      have key : ∀ (c1 : ILincons K) (l1 : List (ILincons K)), QOk c1 →
          (c1.typ = .eq → c1.expr.isQuasilinear = true) →
          (∀ t ∈ c1.expr.terms, x t.dim ∈ env t.dim) → c1.Holds x →
          (∀ c ∈ l1, QOk c ∧ (∀ t ∈ c.expr.terms, x t.dim ∈ env t.dim) ∧ c.Holds x) →
          ∃ r, (if (quasiCons Rnd.exact c1 env true).expr.terms.isEmpty ∧
              evalCst' (quasiCons Rnd.exact c1 env true) = .f then none
            else quasiArrayGo Rnd.exact env true n (done ++ [quasiCons Rnd.exact c1 env true]) l1) =
            some r ∧ ∀ c ∈ r, c.Holds x ∧ (c.typ = .eq → c.expr.CstOk) := by
        intro c1 l1 g1 g2 g3 g4 g5
        obtain ⟨k1, k2⟩ := quasiCons_sound g1 g2 g3 g4
        rw [if_neg]
        · refine ih g5 ?_
          intro c hc
          rcases List.mem_append.1 hc with hc | hc
          · exact hd c hc
          · simp only [List.mem_singleton] at hc; subst hc; exact ⟨k1, k2⟩
        · rintro ⟨e1, e2⟩
          obtain ⟨v, hv, hr⟩ := k1
          exact evalCst'_f_weak k2 e2 ((val_nil e1).1 hv) hr
      unfold quasiArrayGo
      by_cases hs : True ∧ c.typ = .eq ∧ c.expr.isQuasilinear = false
      · simp only [if_pos hs]
        obtain ⟨v, hv, hr⟩ := h3
        rw [hs.2.1] at hr
        simp only [Lincons.Rel] at hr
        subst hr
        refine key ⟨.supeq, c.expr⟩ _ ⟨h1.flags, by simp⟩ (by simp) h2 ⟨0, hv, le_refl _⟩ ?_
        intro d hd
        rcases List.mem_append.1 hd with hd | hd
        · exact hl' d hd
        · simp only [List.mem_singleton] at hd; subst hd
          refine ⟨⟨flagsOk_neg h1.flags, by simp⟩, ?_, ⟨-0, val_neg hv, by simp [Lincons.Rel]⟩⟩
          intro t ht
          simp only [ILinexpr.neg, List.mem_map] at ht
          obtain ⟨u, hu, rfl⟩ := ht
          exact h2 u hu
      · simp only [if_neg hs]
        refine key c l h1 ?_ h2 h3 hl'
        intro hty
        by_contra h
        exact hs ⟨trivial, hty, by simpa using h⟩

theorem quasiArray_sound' {l : List (ILincons K)} {env : ℕ → Itv K} {x : ℕ → K}
    (hl : ∀ c ∈ l, c.expr.FlagsOk ∧ (c.expr.isQuasilinear = true → c.expr.CstOk) ∧
      (∀ t ∈ c.expr.terms, x t.dim ∈ env t.dim) ∧ c.Holds x) :
    ∀ c ∈ quasiArray Rnd.exact l env true, c.Holds x ∧ (c.typ = .eq → c.expr.CstOk) := by
  have h1 := arrayReduce_holds' (l := l) (fun c hc he _ => (hl c hc).2.1 (by
    rw [List.isEmpty_iff] at he; simp [ILinexpr.isQuasilinear, he])) (fun c hc => (hl c hc).2.2.2)
  obtain ⟨r, hr, hall⟩ := quasiArrayGo_sound (env := env) (x := x)
    (n := 2 * (arrayReduce true l).1.length + 1) (done := []) (l := (arrayReduce true l).1)
    (fun c hc => by
      have := hl c (h1.2 c hc)
      exact ⟨⟨this.1, fun _ => this.2.1⟩, this.2.2⟩) (by simp)
  unfold quasiArray
  simp only [hr]
  exact hall

theorem quasiArray_sound {l : List (ILincons K)} {env : ℕ → Itv K} {x : ℕ → K}
    (hl : ∀ c ∈ l, c.expr.FlagsOk ∧ c.expr.CstOk ∧ (∀ t ∈ c.expr.terms, x t.dim ∈ env t.dim) ∧ c.Holds x) :
    ∀ c ∈ quasiArray Rnd.exact l env true, c.Holds x := fun c hc =>
  (quasiArray_sound' (fun c hc => ⟨(hl c hc).1, fun _ => (hl c hc).2.1, (hl c hc).2.2⟩) c hc).1

/-- one step of `itv_linearize_lincons_array`, for a meet -/
theorem linearizeOne_sound {c : ILincons K} {x : ℕ → K} (hne : c.expr.terms.isEmpty = false)
    (hu : useless c = false) (hc : c.Holds x) :
    (linearizeOne true c).1.Holds x ∧ ∀ d, (linearizeOne true c).2 = some d → d.Holds x := by
  obtain ⟨v, ⟨q, r, hq, hr, rfl⟩, hrel⟩ := hc
  have negT : ∀ l : List (ITerm K), ∀ r, TVal l x r →
      TVal (l.map fun t => ⟨t.dim, t.eq, Itv.neg t.itv⟩) x (-r) := by
    intro l
    induction l with
    | nil => intro r h; simp only [TVal] at h; subst h; simp [TVal]
    | cons t l ih =>
      rintro r ⟨a, s, ha, hs, rfl⟩
      exact ⟨-a, -s, Itv.mem_neg ha, ih s hs, by ring⟩
  have selS : ∀ typ : ConsTyp K, infty c.expr.cst.sup = false →
      (∀ s, q ≤ s → Lincons.Rel typ (s + r)) →
      (selectSup ⟨typ, c.expr⟩).Holds x := by
    intro typ hf h
    cases hs : c.expr.cst.sup with
    | fin s =>
      have hqs : q ≤ s := by have := hq.2; rw [hs] at this; simpa using this
      refine ⟨s + r, ⟨s, r, ?_, hr, rfl⟩, h s hqs⟩
      simp [selectSup, hs, Itv.mem_def]
    | _ => simp [hs, infty] at hf
  have selI : infty c.expr.cst.inf = false → q + r = 0 → (selectInf ⟨.supeq, c.expr⟩).Holds x := by
    intro hf h
    cases hs : c.expr.cst.inf with
    | fin s =>
      have hqs : -q ≤ s := by have := hq.1; rw [hs] at this; simpa using this
      refine ⟨s + -r, ⟨s, -r, ?_, negT _ _ hr, rfl⟩, ?_⟩
      · simp [selectInf, hs, Itv.mem_def]
      · simp only [selectInf, Lincons.Rel]; linarith
    | _ => simp [hs, infty] at hf
  unfold linearizeOne
  simp only [useless, hne, Bool.false_eq_true, if_false] at hu
  by_cases he : c.expr.eq = true
  · rw [if_pos he]
    exact ⟨⟨_, ⟨q, r, hq, hr, rfl⟩, hrel⟩, by simp⟩
  · rw [if_neg he]
    simp only [Bool.not_eq_true] at he
    rw [he] at hu
    cases hty : c.typ with
    | eq =>
      rw [hty] at hrel
      simp only [Lincons.Rel] at hrel
      rw [hty] at hu
      simp only [Bool.not_false, Bool.true_and, Bool.and_eq_false_iff] at hu
      simp only
      have hS := selS .supeq
      have hrel' : ∀ s, q ≤ s → Lincons.Rel (K := K) .supeq (s + r) := fun s hs => by
        simp only [Lincons.Rel]; linarith
      split_ifs with h1 h2
      · exact ⟨hS (by simpa using h1.2) hrel', by
          rintro d ⟨⟩; exact selI (by simpa using h1.1) hrel⟩
      · refine ⟨hS ?_ hrel', by simp⟩
        rcases hu with hu | hu
        · simp [hu] at h2
        · exact hu
      · exact ⟨selI (by simpa using h2) hrel, by simp⟩
    | supeq =>
      rw [hty] at hrel hu
      simp only [Lincons.Rel] at hrel
      simp only [Bool.not_false, Bool.true_and] at hu
      have := selS .supeq hu fun s hs => by simp only [Lincons.Rel]; linarith
      rw [← hty] at this
      exact ⟨this, by simp⟩
    | sup =>
      rw [hty] at hrel hu
      simp only [Lincons.Rel] at hrel
      simp only [Bool.not_false, Bool.true_and] at hu
      have := selS .sup hu fun s hs => by simp only [Lincons.Rel]; linarith
      rw [← hty] at this
      exact ⟨this, by simp⟩
    | eqmod m => exact ⟨⟨_, ⟨q, r, hq, hr, rfl⟩, hrel⟩, by simp⟩
    | diseq => exact ⟨⟨_, ⟨q, r, hq, hr, rfl⟩, hrel⟩, by simp⟩

theorem reduceGo_kept {n : ℕ} {done l r : List (ILincons K)} (hn : l.length ≤ n)
    (h : reduceGo true n done l = some r) : ∀ c ∈ r, c ∈ done ∨ useless c = false := by
  induction n generalizing done l with
  | zero =>
    cases h; exact fun c hc => Or.inl hc
  | succ n ih =>
    cases l with
    | nil => cases h; exact fun c hc => Or.inl hc
    | cons d l =>
      have hl : l.length ≤ n := by simp at hn; exact hn
      have hsw : (swapRemove (d :: l)).length ≤ n := by
        rw [(swapRemove_perm d l).length_eq]; exact hl
      unfold reduceGo at h
      split_ifs at h with h1 h2 h3 h4
      · exact ih hsw h
      · exact ih hsw h
      · intro c hc
        rcases ih hl h c hc with h5 | h5
        · rcases List.mem_append.1 h5 with h5 | h5
          · exact Or.inl h5
          · simp only [List.mem_singleton] at h5; subst h5
            simp only [true_and, Bool.not_eq_true] at h3
            exact Or.inr h3
        · exact Or.inr h5

theorem linearizeArray_sound' {l : List (ILincons K)} {x : ℕ → K}
    (hcst : ∀ c ∈ l, c.expr.terms.isEmpty = true → c.typ = .eq → c.expr.CstOk) (hl : ∀ c ∈ l, c.Holds x) :
    ∀ c ∈ linearizeArray true l, c.Holds x := by
  have h1 := arrayReduce_holds' hcst hl
  unfold linearizeArray
  have hkept : ∀ c ∈ (arrayReduce true l).1, useless c = false := by
    have hall := h1.2
    have h0 := h1.1
    unfold arrayReduce at h0 ⊢
    cases h : reduceGo true (l.length + 1) [] l with
    | none => rw [h] at h0; simp at h0
    | some r =>
      have := reduceGo_kept (by omega) h
      match r with
      | [] => simp
      | [c] => simpa using this
      | a :: b :: r => simpa using this
  have hne : ∀ c ∈ (arrayReduce true l).1, c.expr.terms.isEmpty = false := by
    intro c hc
    by_contra he
    simp only [Bool.not_eq_false] at he
    have := hkept c hc
    simp only [useless, he, if_true, decide_eq_false_iff_not, ne_eq, not_not] at this
    have hcl := h1.2 c hc
    exact not_holds_of_evalCst'_f' (hcst c hcl he) he this x (hl c hcl)
  simp only
  split_ifs with h
  · exact fun c hc => hl c (h1.2 c hc)
  · intro c hc
    rcases List.mem_append.1 hc with hc | hc
    · simp only [List.mem_map] at hc
      obtain ⟨d, hd, rfl⟩ := hc
      exact (linearizeOne_sound (hne d hd) (hkept d hd) (hl d (h1.2 d hd))).1
    · simp only [List.mem_filterMap] at hc
      obtain ⟨d, hd, hc⟩ := hc
      exact (linearizeOne_sound (hne d hd) (hkept d hd) (hl d (h1.2 d hd))).2 c hc

theorem linearizeArray_sound {l : List (ILincons K)} {x : ℕ → K}
    (hcst : ∀ c ∈ l, c.expr.terms.isEmpty = true → c.expr.CstOk) (hl : ∀ c ∈ l, c.Holds x) :
    ∀ c ∈ linearizeArray true l, c.Holds x :=
  linearizeArray_sound' (fun c hc he _ => hcst c hc he) hl

end ILincons
end Apron
