import Verif.Core.Linexpr
/-!
# A client of the library: forward analysis of structured programs

The code of this file is not in /repo: it is the client for which the abstract domains exist, the standard forward analysis of a
program by iteration with widening, written with the operations of `ap_abstract0.h`: `assign_linexpr_array`, `meet_lincons_array`,
`join`, `widening` and `is_leq`.  The documentation of `ap_abstract1_widening` (apron/apron.texi:3081-3083) asks that the first argument be included in
the second; the iteration below therefore joins before it widens.
-/
set_option autoImplicit false
set_option linter.unusedSectionVars false

namespace Apron
namespace Client

variable {K : Type*} [LinearOrder K] [Field K] [IsStrictOrderedRing K]

/-- structured programs over numeric variables: parallel linear assignments, guards, sequence, non-deterministic choice and
iteration (`while c do s` is `seq (loop (seq (assume [c]) s)) (assume [not c])`) -/
inductive Stmt (K : Type*) where
  | skip
  | assign (l : List (ℕ × Linexpr K))
  | assume (l : List (Lincons K))
  | seq (s t : Stmt K)
  | alt (s t : Stmt K)
  | loop (s : Stmt K)

/-- the concrete executions: `Exec intdim s x y` when `s` started in the state `x` can end in the state `y`.  The coefficients of an
assignment may be intervals, any value of which may be taken; the dimensions below `intdim` hold integers. -/
inductive Exec (intdim : ℕ) : Stmt K → (ℕ → K) → (ℕ → K) → Prop
  | skip (x : ℕ → K) : Exec intdim .skip x x
  | assign (l : List (ℕ × Linexpr K)) (x y : ℕ → K) (hv : ∀ p ∈ l, p.2.Val x (y p.1))
      (hk : ∀ v, v ∉ l.map Prod.fst → y v = x v) (hi : ∀ d, d < intdim → ∃ z : ℤ, y d = z) : Exec intdim (.assign l) x y
  | assume (l : List (Lincons K)) (x : ℕ → K) (h : ∀ c ∈ l, c.Holds x) : Exec intdim (.assume l) x x
  | seq (s t : Stmt K) (x y z : ℕ → K) (h1 : Exec intdim s x y) (h2 : Exec intdim t y z) : Exec intdim (.seq s t) x z
  | altL (s t : Stmt K) (x y : ℕ → K) (h : Exec intdim s x y) : Exec intdim (.alt s t) x y
  | altR (s t : Stmt K) (x y : ℕ → K) (h : Exec intdim t x y) : Exec intdim (.alt s t) x y
  | stop (s : Stmt K) (x : ℕ → K) : Exec intdim (.loop s) x x
  | step (s : Stmt K) (x y z : ℕ → K) (h1 : Exec intdim s x y) (h2 : Exec intdim (.loop s) y z) : Exec intdim (.loop s) x z

/-- the operations of an abstract domain that the analysis calls; `none` is undefined behaviour -/
structure Dom (K A : Type*) where
  assign : A → List (ℕ × Linexpr K) → Option A
  assume : A → List (Lincons K) → Option A
  join : A → A → Option A
  widen : A → A → Option A
  leq : A → A → Bool

variable {A : Type*}

/-- the analysis, with a bound on the depth of its recursion: `none` when the bound is reached or when an operation has undefined
behaviour -/
def run (D : Dom K A) : ℕ → Stmt K → A → Option A
  | 0, _, _ => none
  | _ + 1, .skip, a => some a
  | _ + 1, .assign l, a => D.assign a l
  | _ + 1, .assume l, a => D.assume a l
  | f + 1, .seq s t, a => (run D f s a).bind (run D f t)
  | f + 1, .alt s t, a => (run D f s a).bind fun b => (run D f t a).bind fun c => D.join b c
  | f + 1, .loop s, a => (run D f s a).bind fun b => (D.join a b).bind fun j =>
      if D.leq j a then some a else (D.widen a j).bind (run D f (.loop s))

/-- what the analysis needs of a domain.  `Ok` is the representation invariant, `Gam` the points, `LA` and `LC` are the assignments and
constraints that are legal arguments, `intdim` is the number of integer dimensions -/
structure Dom.Spec (D : Dom K A) (Ok : A → Prop) (Gam : A → (ℕ → K) → Prop) (intdim : ℕ) (LA : List (ℕ × Linexpr K) → Prop)
    (LC : List (Lincons K) → Prop) : Prop where
  assign : ∀ a l, Ok a → LA l → ∃ r, D.assign a l = some r ∧ Ok r ∧ ∀ x y : ℕ → K, Gam a x →
    (∀ d, d < intdim → (∃ n : ℤ, x d = n) ∧ ∃ n : ℤ, y d = n) → (∀ p ∈ l, p.2.Val x (y p.1)) → (∀ v, v ∉ l.map Prod.fst → y v = x v) →
    Gam r y
  assume : ∀ a l, Ok a → LC l → ∃ r, D.assume a l = some r ∧ Ok r ∧ ∀ x : ℕ → K, Gam a x → (∀ d, d < intdim → ∃ n : ℤ, x d = n) →
    (∀ c ∈ l, c.Holds x) → Gam r x
  join : ∀ a b, Ok a → Ok b → ∃ r, D.join a b = some r ∧ Ok r ∧ ∀ x, Gam a x ∨ Gam b x → Gam r x
  widen : ∀ a b, Ok a → Ok b → (∀ x, Gam a x → Gam b x) → ∃ r, D.widen a b = some r ∧ Ok r ∧ ∀ x, Gam b x → Gam r x
  leq : ∀ a b, Ok a → Ok b → D.leq a b = true → ∀ x, Gam a x → Gam b x
  term : ∀ x y : ℕ → A, (∀ k, Ok (x k)) → (∀ k, Ok (y k)) → (∀ k p, Gam (x k) p → Gam (y k) p) →
    (∀ k, D.widen (x k) (y k) = some (x (k + 1))) → ∃ k, D.leq (y k) (x k) = true

/-- all the assignments and guards of the program are legal arguments -/
def Stmt.Legal (LA : List (ℕ × Linexpr K) → Prop) (LC : List (Lincons K) → Prop) : Stmt K → Prop
  | .skip => True
  | .assign l => LA l
  | .assume l => LC l
  | .seq s t => s.Legal LA LC ∧ t.Legal LA LC
  | .alt s t => s.Legal LA LC ∧ t.Legal LA LC
  | .loop s => s.Legal LA LC

theorem Exec.int {intdim : ℕ} {s : Stmt K} {x y : ℕ → K} (h : Exec intdim s x y) (hx : ∀ d, d < intdim → ∃ n : ℤ, x d = n) :
    ∀ d, d < intdim → ∃ n : ℤ, y d = n := by
  induction h with
  | skip x => exact hx
  | assign l x y hv hk hi => exact hi
  | assume l x h => exact hx
  | seq s t x y z _ _ ih1 ih2 => exact ih2 (ih1 hx)
  | altL s t x y _ ih => exact ih hx
  | altR s t x y _ ih => exact ih hx
  | stop s x => exact hx
  | step s x y z _ _ ih1 ih2 => exact ih2 (ih1 hx)

theorem run_mono (D : Dom K A) : ∀ {f g : ℕ} {s : Stmt K} {a r : A}, run D f s a = some r → f ≤ g → run D g s a = some r
  | 0, _, _, _, _, h, _ => by rw [run] at h; cases h
  | f + 1, 0, _, _, _, _, h => by omega
  | f + 1, g + 1, .skip, a, r, h, _ => by simpa only [run] using h
  | f + 1, g + 1, .assign l, a, r, h, _ => by simpa only [run] using h
  | f + 1, g + 1, .assume l, a, r, h, _ => by simpa only [run] using h
  | f + 1, g + 1, .seq s t, a, r, h, hg => by
    rw [run] at h ⊢
    obtain ⟨b, h1, h2⟩ := Option.bind_eq_some_iff.1 h
    rw [run_mono D h1 (Nat.le_of_succ_le_succ hg)]
    exact run_mono D h2 (Nat.le_of_succ_le_succ hg)
  | f + 1, g + 1, .alt s t, a, r, h, hg => by
    rw [run] at h ⊢
    obtain ⟨b, h1, h2⟩ := Option.bind_eq_some_iff.1 h
    obtain ⟨c, h2, h3⟩ := Option.bind_eq_some_iff.1 h2
    rw [run_mono D h1 (Nat.le_of_succ_le_succ hg), run_mono D h2 (Nat.le_of_succ_le_succ hg)]
    exact h3
  | f + 1, g + 1, .loop s, a, r, h, hg => by
    rw [run] at h ⊢
    obtain ⟨b, h1, h2⟩ := Option.bind_eq_some_iff.1 h
    obtain ⟨j, h2, h3⟩ := Option.bind_eq_some_iff.1 h2
    rw [run_mono D h1 (Nat.le_of_succ_le_succ hg), Option.bind_some, h2, Option.bind_some]
    by_cases hl : D.leq j a = true
    · rw [if_pos hl] at h3 ⊢; exact h3
    · rw [if_neg hl] at h3 ⊢
      obtain ⟨w, h3, h4⟩ := Option.bind_eq_some_iff.1 h3
      rw [h3]
      exact run_mono D h4 (Nat.le_of_succ_le_succ hg)

variable {D : Dom K A} {Ok : A → Prop} {Gam : A → (ℕ → K) → Prop} {intdim : ℕ} {LA : List (ℕ × Linexpr K) → Prop}
  {LC : List (Lincons K) → Prop}

theorem run_sound (S : D.Spec Ok Gam intdim LA LC) : ∀ {f : ℕ} {s : Stmt K} {a r : A}, s.Legal LA LC → Ok a → run D f s a = some r →
    Ok r ∧ ∀ x y : ℕ → K, (∀ d, d < intdim → ∃ n : ℤ, x d = n) → Gam a x → Exec intdim s x y → Gam r y
  | 0, _, _, _, _, _, h => by rw [run] at h; cases h
  | f + 1, .skip, a, r, _, ha, h => by
    rw [run] at h; cases h
    exact ⟨ha, fun x y _ hx he => by cases he; exact hx⟩
  | f + 1, .assign l, a, r, hs, ha, h => by
    rw [run] at h
    obtain ⟨r', e, h1, h2⟩ := S.assign a l ha hs
    rw [h] at e; cases e
    exact ⟨h1, fun x y hi hx he => by
      cases he with
      | assign _ _ _ hv hk hi' => exact h2 x y hx (fun d hd => ⟨hi d hd, hi' d hd⟩) hv hk⟩
  | f + 1, .assume l, a, r, hs, ha, h => by
    rw [run] at h
    obtain ⟨r', e, h1, h2⟩ := S.assume a l ha hs
    rw [h] at e; cases e
    exact ⟨h1, fun x y hi hx he => by
      cases he with
      | assume _ _ hc => exact h2 x hx hi hc⟩
  | f + 1, .seq s t, a, r, hs, ha, h => by
    rw [run] at h
    obtain ⟨b, h1, h2⟩ := Option.bind_eq_some_iff.1 h
    obtain ⟨o1, g1⟩ := run_sound S hs.1 ha h1
    obtain ⟨o2, g2⟩ := run_sound S hs.2 o1 h2
    exact ⟨o2, fun x y hi hx he => by
      cases he with
      | seq _ _ _ z _ e1 e2 => exact g2 z y (e1.int hi) (g1 x z hi hx e1) e2⟩
  | f + 1, .alt s t, a, r, hs, ha, h => by
    rw [run] at h
    obtain ⟨b, h1, h2⟩ := Option.bind_eq_some_iff.1 h
    obtain ⟨c, h2, h3⟩ := Option.bind_eq_some_iff.1 h2
    obtain ⟨o1, g1⟩ := run_sound S hs.1 ha h1
    obtain ⟨o2, g2⟩ := run_sound S hs.2 ha h2
    obtain ⟨r', e, o3, g3⟩ := S.join b c o1 o2
    rw [h3] at e; cases e
    exact ⟨o3, fun x y hi hx he => by
      cases he with
      | altL _ _ _ _ e1 => exact g3 y (.inl (g1 x y hi hx e1))
      | altR _ _ _ _ e1 => exact g3 y (.inr (g2 x y hi hx e1))⟩
  | f + 1, .loop s, a, r, hs, ha, h => by
    rw [run] at h
    obtain ⟨b, h1, h2⟩ := Option.bind_eq_some_iff.1 h
    obtain ⟨j, h2, h3⟩ := Option.bind_eq_some_iff.1 h2
    obtain ⟨o1, g1⟩ := run_sound S (s := s) hs ha h1
    obtain ⟨j', e, o2, g2⟩ := S.join a b ha o1
    rw [h2] at e; cases e
    by_cases hl : D.leq j a = true
    · rw [if_pos hl] at h3; cases h3
      refine ⟨ha, ?_⟩
      have key : ∀ (s' : Stmt K) (x y : ℕ → K), Exec intdim s' x y → s' = .loop s → (∀ d, d < intdim → ∃ n : ℤ, x d = n) → Gam a x → Gam a y := by
        intro s' x y he
        induction he with
        | skip x => intro e; cases e
        | assign l x y hv hk hi => intro e; cases e
        | assume l x h => intro e; cases e
        | seq s t x y z _ _ ih1 ih2 => intro e; cases e
        | altL s t x y _ ih => intro e; cases e
        | altR s t x y _ ih => intro e; cases e
        | stop s x => exact fun _ _ hx => hx
        | step s' x y z e1 e2 ih1 ih2 =>
          intro e hi hx
          cases e
          exact ih2 rfl (e1.int hi) (S.leq j a o2 ha hl y (g2 y (.inr (g1 x y hi hx e1))))
      exact fun x y hi hx he => key _ x y he rfl hi hx
    · rw [if_neg hl] at h3
      obtain ⟨w, h3, h4⟩ := Option.bind_eq_some_iff.1 h3
      obtain ⟨w', e, o3, g3⟩ := S.widen a j ha o2 (fun x hx => g2 x (.inl hx))
      rw [h3] at e; cases e
      obtain ⟨o4, g4⟩ := run_sound S (s := .loop s) hs o3 h4
      exact ⟨o4, fun x y hi hx he => g4 x y hi (g3 x (g2 x (.inl hx))) he⟩

theorem run_total (S : D.Spec Ok Gam intdim LA LC) : ∀ (s : Stmt K), s.Legal LA LC → ∀ a, Ok a → ∃ f r, run D f s a = some r
  | .skip, _, a, _ => ⟨1, a, by rw [run]⟩
  | .assign l, hs, a, ha => by
    obtain ⟨r, e, _⟩ := S.assign a l ha hs
    exact ⟨1, r, by rw [run]; exact e⟩
  | .assume l, hs, a, ha => by
    obtain ⟨r, e, _⟩ := S.assume a l ha hs
    exact ⟨1, r, by rw [run]; exact e⟩
  | .seq s t, hs, a, ha => by
    obtain ⟨f, b, h1⟩ := run_total S s hs.1 a ha
    obtain ⟨g, r, h2⟩ := run_total S t hs.2 b (run_sound S hs.1 ha h1).1
    refine ⟨max f g + 1, r, ?_⟩
    rw [run, run_mono D h1 (le_max_left f g), Option.bind_some, run_mono D h2 (le_max_right f g)]
  | .alt s t, hs, a, ha => by
    obtain ⟨f, b, h1⟩ := run_total S s hs.1 a ha
    obtain ⟨g, c, h2⟩ := run_total S t hs.2 a ha
    obtain ⟨r, e, _⟩ := S.join b c (run_sound S hs.1 ha h1).1 (run_sound S hs.2 ha h2).1
    refine ⟨max f g + 1, r, ?_⟩
    rw [run, run_mono D h1 (le_max_left f g), Option.bind_some, run_mono D h2 (le_max_right f g), Option.bind_some, e]
  | .loop s, hs, a, ha => by
    by_contra hno
    have hstep : ∀ p : {a : A // Ok a ∧ ¬ ∃ f r, run D f (.loop s) a = some r}, ∃ (j : A)
        (q : {a : A // Ok a ∧ ¬ ∃ f r, run D f (.loop s) a = some r}), Ok j ∧ (∀ x, Gam p.1 x → Gam j x) ∧ D.leq j p.1 ≠ true ∧
        D.widen p.1 j = some q.1 := by
      rintro ⟨p, hp, hn⟩
      obtain ⟨f, b, h1⟩ := run_total S s hs p hp
      obtain ⟨j, ej, oj, gj⟩ := S.join p b hp (run_sound S (s := s) hs hp h1).1
      have hl : D.leq j p ≠ true := fun hl => hn ⟨f + 1, p, by rw [run, h1, Option.bind_some, ej, Option.bind_some, if_pos hl]⟩
      obtain ⟨w, ew, ow, _⟩ := S.widen p j hp oj fun x hx => gj x (.inl hx)
      refine ⟨j, ⟨w, ow, ?_⟩, oj, fun x hx => gj x (.inl hx), hl, ew⟩
      rintro ⟨g, r, h2⟩
      refine hn ⟨max f g + 1, r, ?_⟩
      rw [run, run_mono D h1 (le_max_left f g), Option.bind_some, ej, Option.bind_some, if_neg hl, ew, Option.bind_some,
        run_mono D h2 (le_max_right f g)]
    choose J N h1 h2 h3 h4 using hstep
    let x : ℕ → {a : A // Ok a ∧ ¬ ∃ f r, run D f (.loop s) a = some r} := fun k => N^[k] ⟨a, ha, hno⟩
    obtain ⟨k, hk⟩ := S.term (fun k => (x k).1) (fun k => J (x k)) (fun k => (x k).2.1) (fun k => h1 _) (fun k => h2 _)
      (fun k => by
        have e : x (k + 1) = N (x k) := Function.iterate_succ_apply' N k _
        show D.widen (x k).1 (J (x k)) = some (x (k + 1)).1
        rw [e]
        exact h4 (x k))
    exact h3 (x k) hk

end Client
end Apron
