import Verif.Itv.BoxizeLemmas
import Mathlib.Tactic.FieldSimp
import Mathlib.Data.Rat.Lemmas

/-! # Lemmas on the integer tightening of constraints (`itv_lincons_reduce_integer`) -/

set_option autoImplicit false
set_option linter.unusedSectionVars false
set_option linter.ambiguousOpen false

namespace Apron
open Bound
variable {K : Type*} [LinearOrder K] [Field K] [IsStrictOrderedRing K] [FloorRing K] (R : Rnd K)

namespace ILincons
open ILinexpr

theorem constrainBounds_sound {c : ILincons K} (hty : c.typ = .eq ∨ c.typ = .supeq ∨ c.typ = .sup)
    {x : ℕ → K} (hn : ∀ r, TVal c.expr.terms x r → ∃ n : ℤ, r = n)
    (hE : c.typ = .eq → c.expr.eq = true → ∀ n : ℤ, (n : K) ∈ c.expr.cst →
      c.expr.cst.sup = fin (n : K))
    (h : c.Holds x) : (constrainBounds R c).Holds x := by
  obtain ⟨typ, ⟨inf, sup⟩, eq, terms⟩ := c
  obtain ⟨v, ⟨q, r, hq, hr, rfl⟩, hrel⟩ := h
  obtain ⟨n, rfl⟩ := hn r hr
  simp only at hq hr hrel hE hty
  have hq1 : fin (-q) ≤ inf := hq.1
  have hq2 : fin q ≤ sup := hq.2
  rcases hty with rfl | rfl | rfl
  · simp only [Lincons.Rel] at hrel
    have hqn : q = ((-n : ℤ) : K) := by push_cast; linarith
    have h1 : fin q ≤ Bound.floor sup := by rw [hqn] at hq2 ⊢; exact fin_le_floor hq2
    have h2 : fin (-q) ≤ (if infty inf then inf else if eq then Bound.neg (Bound.floor sup)
        else Bound.floor inf) := by
      split_ifs with h3 h4
      · exact hq1
      · have := hE rfl h4 (-n) (by rw [← hqn]; exact hq)
        rw [this, hqn]
        simp only [Bound.floor, Int.floor_intCast, neg_fin, le_refl]
      · have e : -q = ((n : ℤ) : K) := by rw [hqn]; push_cast; ring
        rw [e] at hq1 ⊢; exact fin_le_floor hq1
    have hmem : q ∈ (⟨if infty inf then inf else if eq then Bound.neg (Bound.floor sup)
        else Bound.floor inf, Bound.floor sup⟩ : Itv K) := ⟨h2, h1⟩
    simp only [constrainBounds]
    rw [if_neg (by rw [Itv.not_isBottom hmem]; simp)]
    exact ⟨q + n, ⟨q, n, hmem, hr, rfl⟩, hrel⟩
  · simp only [Lincons.Rel] at hrel
    cases sup with
    | ninf => simp at hq2
    | pinf => exact ⟨q + n, ⟨q, n, hq, hr, rfl⟩, hrel⟩
    | fin s =>
      simp only [fin_le_fin] at hq2
      simp only [constrainBounds, Bound.floor, infty, Bool.false_eq_true, if_false]
      refine ⟨(⌊s⌋ : ℤ) + n, ⟨_, n, ?_, hr, rfl⟩, ?_⟩
      · simp [Itv.mem_def]
      · simp only [Lincons.Rel]
        have : ((-n : ℤ) : K) ≤ s := by push_cast; linarith
        have h' : -n ≤ ⌊s⌋ := Int.le_floor.2 this
        have : ((-n : ℤ) : K) ≤ (⌊s⌋ : ℤ) := by exact_mod_cast h'
        push_cast at this; linarith
  · simp only [Lincons.Rel] at hrel
    cases sup with
    | ninf => simp at hq2
    | pinf => exact ⟨q + n, ⟨q, n, hq, hr, rfl⟩, hrel⟩
    | fin s =>
      simp only [fin_le_fin] at hq2
      simp only [constrainBounds, infty, Bool.false_eq_true, if_false]
      by_cases hi : isInt s = true
      · obtain ⟨m, rfl⟩ := (isInt_iff s).1 hi
        simp only [hi, if_true]
        have hlt : (0 : K) < ((m + n : ℤ) : K) := by push_cast; linarith
        have hlt' : 0 < m + n := by exact_mod_cast hlt
        have hle : (0 : K) ≤ ((m + n - 1 : ℤ) : K) := by exact_mod_cast (by omega : 0 ≤ m + n - 1)
        have hsub := fin_sub_one_le_subNat R (b := fin (m : K)) (x := (m : K)) (le_refl _)
        cases hsn : subNat R (fin (m : K)) 1 with
        | ninf => rw [hsn] at hsub; simp at hsub
        | pinf =>
          simp only [↓reduceIte]
          exact ⟨q + n, ⟨q, n, ⟨hq1, by simp⟩, hr, rfl⟩, le_of_lt hrel⟩
        | fin s' =>
          rw [hsn] at hsub
          simp only [fin_le_fin] at hsub
          simp only [Bool.false_eq_true, if_false]
          refine ⟨s' + n, ⟨s', n, by simp [Itv.mem_def], hr, rfl⟩, ?_⟩
          simp only [Lincons.Rel]; push_cast at hle; linarith
      · simp only [hi, Bool.false_eq_true, if_false]
        refine ⟨(⌊s⌋ : ℤ) + n, ⟨_, n, by simp [Itv.mem_def], hr, rfl⟩, ?_⟩
        simp only [Lincons.Rel]
        have : ((-n : ℤ) : K) ≤ s := by push_cast; linarith
        have h' : -n ≤ ⌊s⌋ := Int.le_floor.2 this
        have : ((-n : ℤ) : K) ≤ (⌊s⌋ : ℤ) := by exact_mod_cast h'
        push_cast at this; linarith

/-- no solution is added, except when an equality has a non-integer constant -/
theorem constrainBounds_complete {c : ILincons K} (hty : c.typ = .eq ∨ c.typ = .supeq ∨ c.typ = .sup)
    {x : ℕ → K} (hn : ∀ r, TVal c.expr.terms x r → ∃ n : ℤ, r = n) {q0 : K} (hne : q0 ∈ c.expr.cst)
    (hE : c.typ = .eq → c.expr.eq = true → ∃ n : ℤ, c.expr.cst = Itv.point (n : K))
    (h : (constrainBounds Rnd.exact c).Holds x) : c.Holds x := by
  obtain ⟨typ, ⟨inf, sup⟩, eq, terms⟩ := c
  have hq1 : fin (-q0) ≤ inf := hne.1
  have hq2 : fin q0 ≤ sup := hne.2
  simp only at hn hty hE
  have hmem : ∀ s, sup = fin s → s ∈ (⟨inf, sup⟩ : Itv K) := by
    rintro s rfl
    simp only [fin_le_fin] at hq2
    exact ⟨le_trans (by simpa using hq2) hq1, by simp⟩
  rcases hty with rfl | rfl | rfl
  · simp only [constrainBounds] at h
    split_ifs at h with h1 h2 h3 h3 h3 <;> try exact absurd h (not_holds_setBool x)
    · obtain ⟨v, ⟨q, r, hq, hr, rfl⟩, hrel⟩ := h
      exact ⟨q + r, ⟨q, r, ⟨hq.1, hq.2.trans (floor_le_bound _)⟩, hr, rfl⟩, hrel⟩
    · obtain ⟨v, ⟨q, r, hq, hr, rfl⟩, hrel⟩ := h
      obtain ⟨m, hm⟩ := hE rfl (by assumption)
      simp only [Itv.point, Itv.mk.injEq] at hm
      obtain ⟨rfl, rfl⟩ := hm
      refine ⟨q + r, ⟨q, r, ?_, hr, rfl⟩, hrel⟩
      have h1 : fin (-q) ≤ Bound.neg (Bound.floor (fin (m : K))) := hq.1
      have h2 : fin q ≤ Bound.floor (fin (m : K)) := hq.2
      simp only [Bound.floor, Int.floor_intCast, neg_fin] at h1 h2
      exact ⟨h1, h2⟩
    · obtain ⟨v, ⟨q, r, hq, hr, rfl⟩, hrel⟩ := h
      exact ⟨q + r, ⟨q, r, ⟨hq.1.trans (floor_le_bound _), hq.2.trans (floor_le_bound _)⟩, hr, rfl⟩,
        hrel⟩
  · cases sup with
    | ninf => simp at hq2
    | pinf => exact h
    | fin s =>
      simp only [constrainBounds, Bound.floor, infty, Bool.false_eq_true, if_false] at h
      obtain ⟨v, ⟨q, r, hq, hr, rfl⟩, hrel⟩ := h
      have hq' : fin q ≤ fin ((⌊s⌋ : ℤ) : K) := hq.2
      simp only [fin_le_fin] at hq'
      simp only [Lincons.Rel] at hrel
      refine ⟨s + r, ⟨s, r, hmem s rfl, hr, rfl⟩, ?_⟩
      simp only [Lincons.Rel]
      have := Int.floor_le s
      linarith
  · cases sup with
    | ninf => simp at hq2
    | pinf => exact h
    | fin s =>
      simp only [constrainBounds, infty, Bool.false_eq_true, if_false] at h
      by_cases hi : isInt s = true
      · simp only [hi, if_true, subNat, Rnd.exact_up, Bool.false_eq_true, if_false] at h
        obtain ⟨v, ⟨q, r, hq, hr, rfl⟩, hrel⟩ := h
        have hq' : fin q ≤ fin (s - ((1 : ℕ) : K)) := hq.2
        simp only [fin_le_fin] at hq'
        simp only [Lincons.Rel] at hrel
        refine ⟨s + r, ⟨s, r, hmem s rfl, hr, rfl⟩, ?_⟩
        simp only [Lincons.Rel]; push_cast at hq'; linarith
      · simp only [hi, Bool.false_eq_true, if_false] at h
        obtain ⟨v, ⟨q, r, hq, hr, rfl⟩, hrel⟩ := h
        have hq' : fin q ≤ fin ((⌊s⌋ : ℤ) : K) := hq.2
        simp only [fin_le_fin] at hq'
        simp only [Lincons.Rel] at hrel
        refine ⟨s + r, ⟨s, r, hmem s rfl, hr, rfl⟩, ?_⟩
        simp only [Lincons.Rel]
        have h1 := Int.floor_le s
        have h2 : ((⌊s⌋ : ℤ) : K) ≠ s := fun h => hi ((isInt_iff s).2 ⟨_, h.symm⟩)
        have h3 := lt_of_le_of_ne h1 h2
        linarith

/-! ### scaling by a positive number -/

/-- multiplying all the coefficients of a list of scalar terms -/
theorem tval_scale_iff {l l' : List (ITerm K)} {x : ℕ → K} {f : K} (hf : f ≠ 0)
    (h : List.Forall₂ (fun t t' => t'.dim = t.dim ∧ ∃ a, t.itv = Itv.point a ∧ t'.itv = Itv.point (a * f)) l l')
    {r : K} : TVal l x r ↔ TVal l' x (r * f) := by
  induction h generalizing r with
  | nil => simp [TVal, hf]
  | @cons t t' l l' ht _ ih =>
    obtain ⟨hd, a, ha, ha'⟩ := ht
    simp only [TVal, ha, ha', Itv.mem_point, hd]
    constructor
    · rintro ⟨q, s, rfl, hs, rfl⟩
      exact ⟨q * f, s * f, rfl, ih.1 hs, by ring⟩
    · rintro ⟨q, s, rfl, hs, he⟩
      refine ⟨a, s / f, rfl, ih.2 (by rwa [div_mul_cancel₀ _ hf]), ?_⟩
      field_simp at he ⊢; linarith

theorem tval_int {l : List (ITerm K)} {x : ℕ → K}
    (h : ∀ t ∈ l, (∃ a : ℤ, t.itv = Itv.point (a : K)) ∧ ∃ n : ℤ, x t.dim = n) {r : K}
    (hr : TVal l x r) : ∃ n : ℤ, r = n := by
  induction l generalizing r with
  | nil => exact ⟨0, by simpa [TVal] using hr⟩
  | cons t l ih =>
    obtain ⟨q, s, hq, hs, rfl⟩ := hr
    obtain ⟨⟨a, ha⟩, n, hn⟩ := h t (by simp)
    obtain ⟨m, rfl⟩ := ih (fun t h' => h t (by simp [h'])) hs
    rw [ha, Itv.mem_point] at hq; subst hq
    exact ⟨a * n + m, by push_cast; rw [hn]⟩

theorem tval_nonempty {l : List (ITerm K)} {x : ℕ → K} {r : K} (h : TVal l x r) :
    ∀ t ∈ l, ∃ q, q ∈ t.itv := by
  induction l generalizing r with
  | nil => simp
  | cons t l ih =>
    obtain ⟨q, s, hq, hs, rfl⟩ := h
    intro u hu
    rcases List.mem_cons.1 hu with rfl | hu
    · exact ⟨q, hq⟩
    · exact ih hs u hu

theorem mem_mulBound_pos {i : Itv K} {q f : K} (hf : 0 < f) :
    q * f ∈ Itv.mulBound Rnd.exact i (fin f) ↔ q ∈ i := by
  constructor
  · intro h
    have hs : 0 ≤ sgn (fin f) := by rw [sgn_nonneg_iff]; simpa using hf.le
    rw [Itv.mulBound, if_pos hs] at h
    obtain ⟨h1, h2⟩ := h
    refine ⟨?_, ?_⟩
    · cases hi : i.inf with
      | pinf => simp
      | ninf =>
        simp only [hi, Bound.mul, sgn_ninf, sgn_fin_of_pos hf] at h1
        simp [ofSgn] at h1
      | fin l =>
        simp only [hi, mul_fin_fin_exact, fin_le_fin] at h1
        simp only [fin_le_fin]
        by_contra hc
        push Not at hc
        nlinarith
    · cases hi : i.sup with
      | pinf => simp
      | ninf =>
        simp only [hi, Bound.mul, sgn_ninf, sgn_fin_of_pos hf] at h2
        simp [ofSgn] at h2
      | fin l =>
        simp only [hi, mul_fin_fin_exact, fin_le_fin] at h2
        simp only [fin_le_fin]
        by_contra hc
        push Not at hc
        nlinarith
  · intro h; exact Itv.mem_mulBound _ h

theorem rel_mul_pos {typ : ConsTyp K} (hty : typ = .eq ∨ typ = .supeq ∨ typ = .sup) {v f : K}
    (hf : 0 < f) : Lincons.Rel typ (v * f) ↔ Lincons.Rel typ v := by
  rcases hty with rfl | rfl | rfl
  · simp [Lincons.Rel, hf.ne']
  · simp [Lincons.Rel, hf]
  · simp [Lincons.Rel, hf]

theorem holds_scale {typ : ConsTyp K} (hty : typ = .eq ∨ typ = .supeq ∨ typ = .sup) {cst : Itv K}
    {eq : Bool} {l l' : List (ITerm K)} {x : ℕ → K} {f : K} (hf : 0 < f)
    (h : List.Forall₂ (fun t t' => t'.dim = t.dim ∧ ∃ a, t.itv = Itv.point a ∧ t'.itv = Itv.point (a * f)) l l') :
    (⟨typ, ⟨Itv.mulBound Rnd.exact cst (fin f), eq, l'⟩⟩ : ILincons K).Holds x ↔
    (⟨typ, ⟨cst, eq, l⟩⟩ : ILincons K).Holds x := by
  constructor
  · rintro ⟨v, ⟨q, r, hq, hr, rfl⟩, hrel⟩
    refine ⟨(q + r) / f, ⟨q / f, r / f, ?_, ?_, by ring⟩, ?_⟩
    · rw [← mem_mulBound_pos hf, div_mul_cancel₀ _ hf.ne']; exact hq
    · rw [tval_scale_iff hf.ne' h, div_mul_cancel₀ _ hf.ne']; exact hr
    · simp only at hrel ⊢
      rw [← rel_mul_pos hty hf, div_mul_cancel₀ _ hf.ne']; exact hrel
  · rintro ⟨v, ⟨q, r, hq, hr, rfl⟩, hrel⟩
    exact ⟨(q + r) * f, ⟨q * f, r * f, (mem_mulBound_pos hf).2 hq, (tval_scale_iff hf.ne' h).1 hr,
      by ring⟩, (rel_mul_pos hty hf).2 hrel⟩

/-! ### gcd and lcm of a list -/

theorem foldl_gcd_dvd {A : Type*} (f : A → ℕ) (l : List A) (g : ℕ) :
    (l.foldl (fun g t => Nat.gcd g (f t)) g ∣ g) ∧ ∀ t ∈ l, l.foldl (fun g t => Nat.gcd g (f t)) g ∣ f t := by
  induction l generalizing g with
  | nil => simp
  | cons a l ih =>
    obtain ⟨h1, h2⟩ := ih (Nat.gcd g (f a))
    simp only [List.foldl_cons, List.mem_cons, forall_eq_or_imp]
    exact ⟨h1.trans (Nat.gcd_dvd_left _ _), h1.trans (Nat.gcd_dvd_right _ _), h2⟩

theorem dvd_foldl_lcm {A : Type*} (f : A → ℕ) (l : List A) (g : ℕ) :
    (g ∣ l.foldl (fun g t => Nat.lcm g (f t)) g) ∧ ∀ t ∈ l, f t ∣ l.foldl (fun g t => Nat.lcm g (f t)) g := by
  induction l generalizing g with
  | nil => simp
  | cons a l ih =>
    obtain ⟨h1, h2⟩ := ih (Nat.lcm g (f a))
    simp only [List.foldl_cons, List.mem_cons, forall_eq_or_imp]
    exact ⟨(Nat.dvd_lcm_left _ _).trans h1, (Nat.dvd_lcm_right _ _).trans h1, h2⟩

theorem foldl_lcm_pos {A : Type*} (f : A → ℕ) (hf : ∀ a, 0 < f a) (l : List A) (g : ℕ) (hg : 0 < g) :
    0 < l.foldl (fun g t => Nat.lcm g (f t)) g := by
  induction l generalizing g with
  | nil => simpa
  | cons a l ih => exact ih _ (Nat.lcm_pos hg (hf a))

/-! ### rational numbers -/

theorem rat_coeff (a : ℚ) (num den : ℕ) (hnum : num ≠ 0) (h1 : num ∣ a.num.natAbs) (h2 : a.den ∣ den) :
    ((a.num / (num : ℤ) * (den : ℤ) / (a.den : ℤ) : ℤ) : ℚ) = a * ((den : ℚ) / (num : ℚ)) := by
  have h1' : (num : ℤ) ∣ a.num := Int.natCast_dvd.2 h1
  have h2' : (a.den : ℤ) ∣ (den : ℤ) := Int.natCast_dvd_natCast.2 h2
  have hd : (a.den : ℚ) ≠ 0 := by exact_mod_cast a.den_nz
  have hn : (num : ℚ) ≠ 0 := by exact_mod_cast hnum
  rw [Int.cast_div (h2'.mul_left _) (by exact_mod_cast a.den_nz), Int.cast_mul,
    Int.cast_div h1' (by exact_mod_cast hnum)]
  have ha : a = (a.num : ℚ) / (a.den : ℚ) := (Rat.num_div_den a).symm
  push_cast
  conv_rhs => rw [ha]
  field_simp

theorem reducible_iff {c : ILincons K} {intdim : ℕ} : reducible c intdim = true ↔
    (c.typ = .eq ∨ c.typ = .supeq ∨ c.typ = .sup) ∧ (∀ t ∈ c.expr.terms, t.dim < intdim) ∧
      ∀ t ∈ c.expr.terms, t.eq = true := by
  unfold reducible
  simp only [Bool.and_eq_true, ILinexpr.isInteger, isQuasilinear, List.all_eq_true, decide_eq_true_eq]
  cases c.typ <;> simp

/-- the constraint before `constrainBounds` in the rational variant -/
def ratScaled (c : ILincons ℚ) (den num : ℕ) : ILincons ℚ :=
  ⟨c.typ, ⟨Itv.mulBound Rnd.exact c.expr.cst (fin ((den : ℚ) / (num : ℚ))), c.expr.eq,
    c.expr.terms.map fun t =>
      let n : ℤ := (numref t.itv.sup).num / (num : ℤ) * (den : ℤ) / ((numref t.itv.sup).den : ℤ)
      ⟨t.dim, t.eq, ⟨Bound.neg (fin (n : ℚ)), fin (n : ℚ)⟩⟩⟩⟩

theorem reduceIntegerRat_eq (c : ILincons ℚ) (intdim : ℕ) :
    reduceIntegerRat c intdim = c ∨
    (reducible c intdim = true ∧ c.expr.terms ≠ [] ∧ ∃ den num : ℕ, den ≠ 0 ∧ num ≠ 0 ∧
      (∀ t ∈ c.expr.terms, num ∣ (numref t.itv.sup).num.natAbs ∧ (numref t.itv.sup).den ∣ den) ∧
      reduceIntegerRat c intdim = constrainBounds Rnd.exact (ratScaled c den num)) := by
  unfold reduceIntegerRat
  split_ifs with h1
  · simp only
    split_ifs with h2
    · exact Or.inl rfl
    · refine Or.inr ⟨h1, ?_, _, _, ?_, h2, ?_, rfl⟩
      · intro h; rw [h] at h2; simp at h2
      · exact (foldl_lcm_pos (fun t : ITerm ℚ => (numref t.itv.sup).den) (fun t => Rat.den_pos _) _ 1
          (by simp)).ne'
      · intro t ht
        exact ⟨(foldl_gcd_dvd (fun t : ITerm ℚ => (numref t.itv.sup).num.natAbs) _ 0).2 t ht,
          (dvd_foldl_lcm (fun t : ITerm ℚ => (numref t.itv.sup).den) _ 1).2 t ht⟩
  · exact Or.inl rfl

theorem ratScaled_forall₂ {c : ILincons ℚ} {den num : ℕ} (hn : num ≠ 0)
    (hp : ∀ t ∈ c.expr.terms, ∃ a, t.itv = Itv.point a)
    (hd : ∀ t ∈ c.expr.terms, num ∣ (numref t.itv.sup).num.natAbs ∧ (numref t.itv.sup).den ∣ den) :
    List.Forall₂ (fun t t' => t'.dim = t.dim ∧ ∃ a, t.itv = Itv.point a ∧
      t'.itv = Itv.point (a * ((den : ℚ) / (num : ℚ)))) c.expr.terms (ratScaled c den num).expr.terms := by
  simp only [ratScaled]
  generalize c.expr.terms = l at *
  induction l with
  | nil => simp
  | cons t l ih =>
    rw [List.map_cons]
    refine List.Forall₂.cons ⟨rfl, ?_⟩ (ih (fun t h => hp t (by simp [h])) (fun t h => hd t (by simp [h])))
    obtain ⟨a, ha⟩ := hp t (by simp)
    obtain ⟨h1, h2⟩ := hd t (by simp)
    refine ⟨a, ha, ?_⟩
    simp only [ha, Itv.point, numref] at h1 h2 ⊢
    rw [rat_coeff a num den hn h1 h2]
    simp

theorem ratScaled_int {c : ILincons ℚ} {den num : ℕ} {x : ℕ → ℚ}
    (hx : ∀ t ∈ c.expr.terms, ∃ n : ℤ, x t.dim = n) :
    ∀ r, TVal (ratScaled c den num).expr.terms x r → ∃ n : ℤ, r = n := by
  intro r hr
  refine tval_int ?_ hr
  intro t ht
  simp only [ratScaled, List.mem_map] at ht
  obtain ⟨u, hu, rfl⟩ := ht
  exact ⟨⟨_, rfl⟩, hx u hu⟩

theorem mulBound_point_exact (q f : ℚ) (hf : 0 < f) :
    Itv.mulBound Rnd.exact (Itv.point q) (fin f) = Itv.point (q * f) := by
  have hs : 0 ≤ sgn (fin f) := by rw [sgn_nonneg_iff]; simpa using hf.le
  rw [Itv.mulBound, if_pos hs]
  simp [Itv.point, mul_fin_fin_exact]

/-- the rational variant keeps every integer solution -/
theorem reduceIntegerRat_sound' {c : ILincons ℚ} {intdim : ℕ} (hf : c.expr.FlagsOk)
    (hcst : c.expr.isQuasilinear = true → c.expr.CstOk)
    {x : ℕ → ℚ} (hx : ∀ d, d < intdim → ∃ n : ℤ, x d = n) (h : c.Holds x) :
    (reduceIntegerRat c intdim).Holds x := by
  rcases reduceIntegerRat_eq c intdim with he | ⟨hr, _, den, num, hd0, hn0, hd, he⟩
  · rw [he]; exact h
  · rw [he]
    rw [reducible_iff] at hr
    obtain ⟨hty, hdim, hquasi⟩ := hr
    have hfpos : (0 : ℚ) < (den : ℚ) / (num : ℚ) :=
      div_pos (by exact_mod_cast Nat.pos_of_ne_zero hd0) (by exact_mod_cast Nat.pos_of_ne_zero hn0)
    have hp : ∀ t ∈ c.expr.terms, ∃ a, t.itv = Itv.point a := by
      obtain ⟨v, ⟨q, r, _, hr, _⟩, _⟩ := h
      intro t ht
      obtain ⟨a, ha⟩ := tval_nonempty hr t ht
      exact ⟨a, hf t ht (hquasi t ht) a ha⟩
    refine constrainBounds_sound Rnd.exact (c := ratScaled c den num) hty
      (ratScaled_int fun t ht => hx t.dim (hdim t ht)) ?_ ?_
    · intro _ heq n hn
      simp only [ratScaled] at heq hn ⊢
      obtain ⟨v, ⟨q, r, hq, _, _⟩, _⟩ := h
      have := hcst (by simpa [ILinexpr.isQuasilinear] using hquasi) heq q hq
      rw [this, mulBound_point_exact _ _ hfpos] at hn ⊢
      rw [Itv.mem_point] at hn; rw [hn]; rfl
    · exact (holds_scale hty hfpos (ratScaled_forall₂ hn0 hp hd)).2 h

theorem reduceIntegerRat_sound {c : ILincons ℚ} {intdim : ℕ} (hf : c.expr.FlagsOk) (hcst : c.expr.CstOk)
    {x : ℕ → ℚ} (hx : ∀ d, d < intdim → ∃ n : ℤ, x d = n) (h : c.Holds x) :
    (reduceIntegerRat c intdim).Holds x := reduceIntegerRat_sound' hf (fun _ => hcst) hx h

/-- ... and adds no integer solution, except for an equality whose constant is not an integer
multiple of the gcd -/
theorem reduceIntegerRat_complete {c : ILincons ℚ} {intdim : ℕ}
    (hp : ∀ t ∈ c.expr.terms, t.eq = true → ∃ a, t.itv = Itv.point a) {q0 : ℚ} (hne : q0 ∈ c.expr.cst)
    (hE : c.typ = .eq → c.expr.eq = false) {x : ℕ → ℚ}
    (hx : ∀ d, d < intdim → ∃ n : ℤ, x d = n) (h : (reduceIntegerRat c intdim).Holds x) : c.Holds x := by
  rcases reduceIntegerRat_eq c intdim with he | ⟨hr, _, den, num, hd0, hn0, hd, he⟩
  · rw [he] at h; exact h
  · rw [he] at h
    rw [reducible_iff] at hr
    obtain ⟨hty, hdim, hq⟩ := hr
    have hfpos : (0 : ℚ) < (den : ℚ) / (num : ℚ) :=
      div_pos (by exact_mod_cast Nat.pos_of_ne_zero hd0) (by exact_mod_cast Nat.pos_of_ne_zero hn0)
    have hp' : ∀ t ∈ c.expr.terms, ∃ a, t.itv = Itv.point a := fun t ht => hp t ht (hq t ht)
    refine (holds_scale hty hfpos (ratScaled_forall₂ hn0 hp' hd)).1 ?_
    refine constrainBounds_complete (c := ratScaled c den num) hty (ratScaled_int fun t ht => hx t.dim (hdim t ht))
      (q0 := q0 * ((den : ℚ) / (num : ℚ))) (Itv.mem_mulBound _ hne) ?_ h
    intro h1 h2
    have h3 := hE h1
    simp only [ratScaled] at h2
    rw [h3] at h2; simp at h2

theorem constrainBounds_terms {c : ILincons K} {t : ITerm K}
    (ht : t ∈ (constrainBounds R c).expr.terms) : t ∈ c.expr.terms := by
  unfold constrainBounds at ht
  simp only at ht
  split at ht
  · split_ifs at ht <;> first | exact ht | simp [setBool] at ht
  · split_ifs at ht <;> exact ht

theorem constrainBounds_cst {c : ILincons K} (hne : c.expr.terms ≠ []) :
    (constrainBounds R c).expr.terms.isEmpty = true → (constrainBounds R c).expr.CstOk := by
  unfold constrainBounds
  simp only
  have hne' : c.expr.terms.isEmpty = false := by cases h : c.expr.terms <;> simp_all
  split
  · split_ifs <;> first | (intro h; simp [hne'] at h; done) | skip
    all_goals
      intro _ _ q hq
      simp only [setBool] at hq ⊢
      rw [Itv.mem_point] at hq; rw [hq]
  · split_ifs <;> intro h <;> simp [hne'] at h

theorem okFor_constrainBounds {c : ILincons K} (hne : c.expr.terms ≠ [])
    (hp : ∀ t ∈ c.expr.terms, t.eq = true ∧ t.FlagOk) : OkFor R (constrainBounds R c) where
  flags := fun t ht => (hp t (constrainBounds_terms R ht)).2
  cst := constrainBounds_cst R hne
  exact := Or.inl fun t ht => (hp t (constrainBounds_terms R ht)).1

theorem okFor_reduceIntegerRat {c : ILincons ℚ} (h : OkFor Rnd.exact c) (intdim : ℕ) :
    OkFor Rnd.exact (reduceIntegerRat c intdim) := by
  rcases reduceIntegerRat_eq c intdim with he | ⟨hr, hne, den, num, hd0, hn0, hd, he⟩
  · rw [he]; exact h
  · rw [he]
    rw [reducible_iff] at hr
    refine okFor_constrainBounds _ (by simp [ratScaled, hne]) ?_
    intro t ht
    simp only [ratScaled, List.mem_map] at ht
    obtain ⟨u, hu, rfl⟩ := ht
    refine ⟨hr.2.2 u hu, ?_⟩
    intro _ q hq
    simp only [neg_fin] at hq ⊢
    have : q ∈ Itv.point _ := hq
    rw [Itv.mem_point] at this; rw [this]; rfl

theorem dims_reduceIntegerRat {c : ILincons ℚ} {intdim : ℕ} {t : ITerm ℚ}
    (ht : t ∈ (reduceIntegerRat c intdim).expr.terms) : ∃ u ∈ c.expr.terms, u.dim = t.dim := by
  rcases reduceIntegerRat_eq c intdim with he | ⟨_, _, den, num, _, _, _, he⟩
  · rw [he] at ht; exact ⟨t, ht, rfl⟩
  · rw [he] at ht
    have := constrainBounds_terms _ ht
    simp only [ratScaled, List.mem_map] at this
    obtain ⟨u, hu, rfl⟩ := this
    exact ⟨u, hu, rfl⟩

end ILincons
end Apron
