import Verif.Fpp.Widen
import Verif.Props.FppPred

/-!
# C160: fppol, meet and widening
-/

set_option autoImplicit false
set_option linter.unusedSectionVars false
set_option linter.ambiguousOpen false

namespace Apron.Props

open Apron.Fpp

variable {K : Type*} [Field K] [LinearOrder K] [IsStrictOrderedRing K]

theorem meetBnds_in {n : ℕ} {B1 B2 : Bnds K} {ρ : ℕ → K} :
    InBnds n (meetBnds B1 B2) ρ ↔ InBnds n B1 ρ ∧ InBnds n B2 ρ := by
  have key : ∀ k, ((∀ l, (meetBnds B1 B2).lo k = some l → l ≤ ρ k) ∧
      (∀ h, (meetBnds B1 B2).hi k = some h → ρ k ≤ h)) ↔
      (((∀ l, B1.lo k = some l → l ≤ ρ k) ∧ (∀ h, B1.hi k = some h → ρ k ≤ h)) ∧
       ((∀ l, B2.lo k = some l → l ≤ ρ k) ∧ (∀ h, B2.hi k = some h → ρ k ≤ h))) := by
    intro k
    have e1 : (∀ l, (meetBnds B1 B2).lo k = some l → l ≤ ρ k) ↔
        (∀ l, B1.lo k = some l → l ≤ ρ k) ∧ (∀ l, B2.lo k = some l → l ≤ ρ k) := by
      simp only [meetBnds]
      cases B1.lo k <;> cases B2.lo k <;> simp
    have e2 : (∀ l, (meetBnds B1 B2).hi k = some l → ρ k ≤ l) ↔
        (∀ l, B1.hi k = some l → ρ k ≤ l) ∧ (∀ l, B2.hi k = some l → ρ k ≤ l) := by
      simp only [meetBnds]
      cases B1.hi k <;> cases B2.hi k <;> simp
    rw [e1, e2]
    constructor
    · rintro ⟨⟨a, b⟩, c, d⟩; exact ⟨⟨a, c⟩, b, d⟩
    · rintro ⟨⟨a, b⟩, c, d⟩; exact ⟨⟨a, c⟩, b, d⟩
  constructor
  · intro h
    exact ⟨fun k hk => ((key k).1 (h k hk)).1, fun k hk => ((key k).1 (h k hk)).2⟩
  · intro h k hk
    exact (key k).2 ⟨h.1 k hk, h.2 k hk⟩

theorem bndsCross_sound {n : ℕ} {B : Bnds K} (h : bndsCross n B = true) (ρ : ℕ → K) : ¬ InBnds n B ρ := by
  intro hb
  unfold bndsCross at h
  obtain ⟨k, hk, e⟩ := List.any_eq_true.1 h
  obtain ⟨h1, h2⟩ := hb k (List.mem_range.1 hk)
  revert e
  cases hl : B.lo k with
  | none => simp
  | some l =>
    cases hh : B.hi k with
    | none => simp
    | some u =>
      intro e
      have e : u < l := by simpa using e
      exact absurd ((h1 l hl).trans (h2 u hh)) (not_le.2 e)

theorem fmem_gen {n : ℕ} {rs : List (FRow K)} {B : Bnds K} {ρ : ℕ → K} :
    FMem n ⟨.gen, rs, B⟩ ρ ↔ ∀ r ∈ rs, FSat n r.1 r.2 ρ := Iff.rfl

theorem fmem_flag {n : ℕ} {p : FPol K} {ρ : ℕ → K} (h : p.flag = .gen) :
    FMem n p ρ ↔ ∀ r ∈ p.cons, FSat n r.1 r.2 ρ := by
  unfold FMem; rw [h]

/-- `fppol_intersection`: the points of both, if the bounds kept hold and the test of infeasibility is
right. -/
theorem C160_meet (n : ℕ) (infeas : List (FRow K) → Bool) (p q : FPol K)
    (hi : ∀ rs, infeas rs = true → ∀ ρ, ¬ ∀ r ∈ rs, FSat n r.1 r.2 ρ)
    (hp : ∀ ρ, FMem n p ρ → InBnds n p.bnds ρ) (hq : ∀ ρ, FMem n q ρ → InBnds n q.bnds ρ) (ρ : ℕ → K) :
    FMem n (fppMeet n infeas p q) ρ ↔ FMem n p ρ ∧ FMem n q ρ := by
  have hE : ∀ B : Bnds K, ¬ FMem n ⟨.empty, [], B⟩ ρ := fun _ h => h
  unfold fppMeet
  split_ifs with h1 h2 h3 h4 h5
  · have : FMem n p ρ := by unfold FMem; rw [h1]; trivial
    exact ⟨fun h => ⟨this, h⟩, fun h => h.2⟩
  · have : FMem n q ρ := by unfold FMem; rw [h2]; trivial
    exact ⟨fun h => ⟨h, this⟩, fun h => h.1⟩
  · refine ⟨fun h => absurd h (hE _), fun h => ?_⟩
    rcases h3 with e | e
    · have := h.1; unfold FMem at this; rw [e] at this; exact this.elim
    · have := h.2; unfold FMem at this; rw [e] at this; exact this.elim
  · exact ⟨fun h => absurd h (hE _), fun h =>
      absurd (meetBnds_in.2 ⟨hp ρ h.1, hq ρ h.2⟩) (bndsCross_sound h4 ρ)⟩
  all_goals
    have hpg : p.flag = .gen := by
      revert h1 h3; cases p.flag <;> simp
    have hqg : q.flag = .gen := by
      revert h2 h3; cases q.flag <;> simp
    rw [fmem_flag hpg, fmem_flag hqg]
  · refine ⟨fun h => absurd h (hE _), fun h => ?_⟩
    refine absurd ?_ (hi _ h5 ρ)
    intro r hr
    rcases List.mem_append.1 hr with e | e
    · exact h.1 r e
    · exact h.2 r e
  · rw [fmem_gen]
    simp only [List.mem_append, or_imp, forall_and]

/-- The bounds of the intersection hold. -/
theorem C160_meet_bounds (n : ℕ) (infeas : List (FRow K) → Bool) (p q : FPol K)
    (hi : ∀ rs, infeas rs = true → ∀ ρ, ¬ ∀ r ∈ rs, FSat n r.1 r.2 ρ)
    (hp : ∀ ρ, FMem n p ρ → InBnds n p.bnds ρ) (hq : ∀ ρ, FMem n q ρ → InBnds n q.bnds ρ) (ρ : ℕ → K)
    (h : FMem n (fppMeet n infeas p q) ρ) : InBnds n (fppMeet n infeas p q).bnds ρ := by
  have hm := (C160_meet n infeas p q hi hp hq ρ).1 h
  unfold fppMeet at h ⊢
  split_ifs at h ⊢ with h1 h2 h3 h4 h5
  · exact hq ρ hm.2
  · exact hp ρ hm.1
  · exact h.elim
  · exact h.elim
  · exact h.elim
  · exact meetBnds_in.2 ⟨hp ρ hm.1, hq ρ hm.2⟩

/-- The linear programs are right: an optimum is an upper bound of the objective over the rows. -/
def LPRight (n : ℕ) (lp : List (FRow K) → (ℕ → K) → LPEnd K) : Prop :=
  ∀ rs a mu, lp rs a = .opt mu → ∀ ρ, (∀ r ∈ rs, FSat n r.1 r.2 ρ) →
    ∑ k ∈ Finset.range n, a k * ρ k ≤ mu

theorem entails_sound {n : ℕ} {lp : List (FRow K) → (ℕ → K) → LPEnd K} (hlp : LPRight n lp)
    {rs : List (FRow K)} {r : FRow K} (h : entails lp rs r = true) {ρ : ℕ → K}
    (hs : ∀ r ∈ rs, FSat n r.1 r.2 ρ) : FSat n r.1 r.2 ρ := by
  unfold entails at h
  cases e : lp rs r.2 with
  | opt mu =>
    rw [e] at h
    exact (hlp rs r.2 mu e ρ hs).trans (by simpa using h)
  | null => rw [e] at h; simp at h
  | unbnd => rw [e] at h; simp at h
  | other => rw [e] at h; simp at h

theorem quasiMarks_sound {n : ℕ} {rs2 : List (FRow K)} {ρ : ℕ → K}
    (hs : ∀ r ∈ rs2, FSat n r.1 r.2 ρ) (rs1 : List (FRow K)) :
    ∀ c, ∀ m ∈ rs1.zip (quasiMarks n rs2 rs1 c), m.1 ∈ rs1 ∧ (m.2 = true → FSat n m.1.1 m.1.2 ρ) := by
  induction rs1 with
  | nil => intro c m hm; simp at hm
  | cons l ls ih =>
    intro c m hm
    unfold quasiMarks at hm
    simp only [List.zip_cons_cons] at hm
    rcases List.mem_cons.1 hm with e | e
    · subst e
      refine ⟨List.mem_cons_self, ?_⟩
      simp only
      cases hf : rs2.find? fun r => vecEq n l.2 r.2 with
      | none => simp
      | some r =>
        intro hc
        have hc : r.1 ≤ l.1 := by simpa using hc
        have hv := vecEq_iff.1 (by simpa using List.find?_some hf)
        exact fsat_of_eq (fun k hk => (hv k hk).symm) hc (hs r (List.mem_of_find?_eq_some hf))
    · have key : ∀ ms : List Bool, m ∈ ls.zip ms → (ms = (ls.map fun _ => false) ∨
          ∃ c', ms = quasiMarks n rs2 ls c') → m.1 ∈ l :: ls ∧ (m.2 = true → FSat n m.1.1 m.1.2 ρ) := by
        intro ms hms hh
        rcases hh with rfl | ⟨c', rfl⟩
        · have h1 := List.of_mem_zip (show (m.1, m.2) ∈ _ from hms)
          refine ⟨List.mem_cons_of_mem _ h1.1, fun ht => ?_⟩
          obtain ⟨_, _, e'⟩ := List.mem_map.1 h1.2
          rw [ht] at e'
          cases e'
        · obtain ⟨h1, h2⟩ := ih c' m hms
          exact ⟨List.mem_cons_of_mem _ h1, h2⟩
      refine key _ e ?_
      split_ifs
      all_goals first | exact Or.inl rfl | exact Or.inr ⟨_, rfl⟩

theorem envHalf_sound {n : ℕ} {lp : List (FRow K) → (ℕ → K) → LPEnd K} (hlp : LPRight n lp)
    {rs1 rs2 env : List (FRow K)} {nq : ℕ} (h : envHalf n lp rs1 rs2 = some (env, nq)) {ρ : ℕ → K}
    (hs : ∀ r ∈ rs2, FSat n r.1 r.2 ρ) : ∀ r ∈ env, FSat n r.1 r.2 ρ := by
  unfold envHalf at h
  split_ifs at h
  injection h with h
  injection h with h _
  subst h
  intro r hr
  rcases List.mem_append.1 hr with e | e
  · obtain ⟨m, hm, rfl⟩ := List.mem_map.1 e
    obtain ⟨h1, h2⟩ := List.mem_filter.1 hm
    exact (quasiMarks_sound hs rs1 0 m h1).2 h2
  · obtain ⟨m, hm, rfl⟩ := List.mem_map.1 e
    obtain ⟨h1, h2⟩ := List.mem_filter.1 hm
    rw [Bool.and_eq_true] at h2
    exact entails_sound hlp h2.2 hs

theorem envHalf_sub {n : ℕ} {lp : List (FRow K) → (ℕ → K) → LPEnd K}
    {rs1 rs2 env : List (FRow K)} {nq : ℕ} (h : envHalf n lp rs1 rs2 = some (env, nq)) :
    ∀ r ∈ env, r ∈ rs1 := by
  unfold envHalf at h
  split_ifs at h
  injection h with h
  injection h with h _
  subst h
  intro r hr
  rcases List.mem_append.1 hr with e | e
  all_goals
    obtain ⟨m, hm, rfl⟩ := List.mem_map.1 e
    exact (List.of_mem_zip (show (m.1, m.2) ∈ _ from (List.mem_filter.1 hm).1)).1

/-- `fppol_widen_standard`: if the first argument is in the second and the optima are upper bounds, the
result has the points of both. -/
theorem C160_widening_sound (n : ℕ) (lp : List (FRow K) → (ℕ → K) → LPEnd K) (hlp : LPRight n lp)
    (p q w : FPol K) (hinc : ∀ ρ, FMem n p ρ → FMem n q ρ)
    (h : fppWiden n lp p q = some w) (ρ : ℕ → K) (hm : FMem n p ρ ∨ FMem n q ρ) : FMem n w ρ := by
  have hq : FMem n q ρ := hm.elim (hinc ρ) id
  unfold fppWiden at h
  split_ifs at h with h1
  · injection h with h; rw [← h]; exact hq
  · cases he : envHalf n lp p.cons q.cons with
    | none => rw [he] at h; cases h
    | some v =>
      obtain ⟨env1, nq⟩ := v
      rw [he] at h
      simp only at h
      have hqg : q.flag = .gen := by
        revert h1 hq; unfold FMem; cases q.flag <;> simp
      have hs := (fmem_flag hqg).1 hq
      split_ifs at h with h2 h3
      · injection h with h; rw [← h]; exact hq
      · injection h with h; rw [← h]; trivial
      · injection h with h
        rw [← h, fmem_gen]
        intro r hr
        rcases List.mem_append.1 hr with e | e
        · exact envHalf_sound hlp he hs r e
        · exact hs r (List.mem_filter.1 e).1

/-- What is in the result of the widening, when it is not the second argument: rows of the first that
hold over the second, and rows of the second that hold over the first and can replace one of its rows. -/
theorem C160_widening_rows (n : ℕ) (lp : List (FRow K) → (ℕ → K) → LPEnd K) (hlp : LPRight n lp)
    (p q w : FPol K) (h : fppWiden n lp p q = some w) (hw : w ≠ q) (r : FRow K) (hr : r ∈ w.cons) :
    (r ∈ p.cons ∧ ∀ ρ, (∀ s ∈ q.cons, FSat n s.1 s.2 ρ) → FSat n r.1 r.2 ρ) ∨
    (r ∈ q.cons ∧ (∀ ρ, (∀ s ∈ p.cons, FSat n s.1 s.2 ρ) → FSat n r.1 r.2 ρ) ∧
      ∃ j, j < p.cons.length ∧ ∀ ρ, (∀ s ∈ p.cons.set j r, FSat n s.1 s.2 ρ) ↔
        (∀ s ∈ p.cons, FSat n s.1 s.2 ρ)) := by
  unfold fppWiden at h
  split_ifs at h with h1
  · injection h with h; exact absurd h.symm hw
  · cases he : envHalf n lp p.cons q.cons with
    | none => rw [he] at h; cases h
    | some v =>
      obtain ⟨env1, nq⟩ := v
      rw [he] at h
      simp only at h
      split_ifs at h with h2 h3
      · injection h with h; exact absurd h.symm hw
      · injection h with h; rw [← h] at hr; simp at hr
      · injection h with h
        rw [← h] at hr
        rcases List.mem_append.1 hr with e | e
        · exact Or.inl ⟨envHalf_sub he r e, fun ρ hs => envHalf_sound hlp he hs r e⟩
        · right
          obtain ⟨g1, g2⟩ := List.mem_filter.1 e
          rw [Bool.and_eq_true, Bool.and_eq_true] at g2
          obtain ⟨⟨-, g3⟩, g4⟩ := g2
          obtain ⟨j, hj, g5⟩ := List.any_eq_true.1 g4
          have hj := List.mem_range.1 hj
          have hent : ∀ ρ, (∀ s ∈ p.cons, FSat n s.1 s.2 ρ) → FSat n r.1 r.2 ρ :=
            fun ρ hs => entails_sound hlp g3 hs
          refine ⟨g1, hent, j, hj, fun ρ => ⟨fun hs s hsm => ?_, fun hs s hsm => ?_⟩⟩
          · obtain ⟨i, hi, rfl⟩ := List.mem_iff_getElem.1 hsm
            by_cases hij : i = j
            · subst hij
              have := entails_sound hlp g5 hs
              simpa [List.getD, List.getElem?_eq_getElem hi] using this
            · apply hs
              rw [List.mem_iff_getElem]
              exact ⟨i, by simpa using hi, List.getElem_set_ne (Ne.symm hij) _⟩
          · rcases List.mem_or_eq_of_mem_set hsm with e | e
            · exact hs s e
            · rw [e]; exact hent ρ hs

/-- `quasiInd` has 1000 entries and `ncons + 1` are cleared: with a second argument of 1000 rows or more
the widening writes over the stack. -/
theorem C160_widening_many (n : ℕ) (lp : List (FRow K) → (ℕ → K) → LPEnd K) (p q : FPol K)
    (hp : p.flag ≠ .empty) (hq : q.flag ≠ .univ) (h : 1000 ≤ q.cons.length) :
    fppWiden n lp p q = none := by
  unfold fppWiden envHalf
  rw [if_neg (by simp [hp, hq]), if_pos (by omega)]

end Apron.Props
