import Verif.Fpp.Pred
import Verif.Props.FppElim

/-!
# C159: fppol, inclusion and equality
-/

set_option autoImplicit false
set_option linter.unusedSectionVars false
set_option linter.ambiguousOpen false

namespace Apron.Props

open Apron.Fpp

variable {K : Type*} [Field K] [LinearOrder K] [IsStrictOrderedRing K]

/-- The points of a polyhedron. -/
def FMem (n : ℕ) (p : FPol K) (ρ : ℕ → K) : Prop :=
  match p.flag with
  | .empty => False
  | .univ => True
  | .gen => ∀ r ∈ p.cons, FSat n r.1 r.2 ρ

/-- The linear programs are right about `p`: an optimum is an upper bound of the objective. -/
def LPSound (n : ℕ) (p : FPol K) (lp : (ℕ → K) → LPEnd K) : Prop :=
  ∀ a mu, lp a = .opt mu → ∀ ρ, FMem n p ρ → ∑ k ∈ Finset.range n, a k * ρ k ≤ mu

theorem vecEq_iff {n : ℕ} {a b : ℕ → K} : vecEq n a b = true ↔ ∀ k, k < n → a k = b k := by
  simp [vecEq]

theorem fsat_of_eq {n : ℕ} {c d : K} {a b ρ : ℕ → K} (h : ∀ k, k < n → a k = b k) (hc : c ≤ d)
    (hs : FSat n c a ρ) : FSat n d b ρ := by
  unfold FSat at *
  have e : ∑ k ∈ Finset.range n, b k * ρ k = ∑ k ∈ Finset.range n, a k * ρ k :=
    Finset.sum_congr rfl fun k hk => by rw [h k (Finset.mem_range.1 hk)]
  rw [e]
  exact hs.trans hc

/-- What the first row with the coefficients of `r` says. -/
theorem find_entails {n : ℕ} {rs1 : List (FRow K)} {r l : FRow K}
    (h : rs1.find? (fun l => vecEq n l.2 r.2) = some l) (hl : ¬ r.1 < l.1) {ρ : ℕ → K}
    (hs : ∀ r ∈ rs1, FSat n r.1 r.2 ρ) : FSat n r.1 r.2 ρ :=
  fsat_of_eq (vecEq_iff.1 (by simpa using List.find?_some h)) (not_lt.1 hl)
    (hs l (List.mem_of_find?_eq_some h))

theorem leqSynLoop_le {n : ℕ} {rs1 : List (FRow K)} (rs : List (FRow K)) :
    ∀ {m m' : ℕ}, leqSynLoop n rs1 rs m = some m' → m' ≤ m + rs.length := by
  induction rs with
  | nil => intro m m' h; simp [leqSynLoop] at h; simp [h]
  | cons r rs ih =>
    intro m m' h
    unfold leqSynLoop at h
    rw [List.length_cons]
    cases hf : rs1.find? fun l => vecEq n l.2 r.2 with
    | none => rw [hf] at h; have := ih h; omega
    | some l =>
      rw [hf] at h
      simp only at h
      split_ifs at h
      have := ih h; omega

theorem leqSynLoop_sound {n : ℕ} {rs1 : List (FRow K)} {ρ : ℕ → K}
    (hs : ∀ r ∈ rs1, FSat n r.1 r.2 ρ) (rs : List (FRow K)) :
    ∀ {m m' : ℕ}, leqSynLoop n rs1 rs m = some m' →
      (m' = m + rs.length → ∀ r ∈ rs, FSat n r.1 r.2 ρ) ∧
      ∀ r ∈ rs, (rs1.any fun l => vecEq n l.2 r.2) = true → FSat n r.1 r.2 ρ := by
  induction rs with
  | nil => intro m m' h; simp
  | cons r rs ih =>
    intro m m' h
    unfold leqSynLoop at h
    cases hf : rs1.find? fun l => vecEq n l.2 r.2 with
    | none =>
      rw [hf] at h
      have hle := leqSynLoop_le rs h
      obtain ⟨-, h2⟩ := ih h
      refine ⟨fun e => ?_, ?_⟩
      · rw [List.length_cons] at e; omega
      · intro s hm ha
        rcases List.mem_cons.1 hm with e | e
        · rw [e] at ha
          obtain ⟨l, hl, hv⟩ := List.any_eq_true.1 ha
          exact absurd hv (by simpa using List.find?_eq_none.1 hf l hl)
        · exact h2 s e ha
    | some l =>
      rw [hf] at h
      simp only at h
      split_ifs at h with hc
      obtain ⟨h1, h2⟩ := ih h
      have hr := find_entails hf hc hs
      refine ⟨fun e => ?_, ?_⟩
      · have h1 := h1 (by rw [List.length_cons] at e; omega)
        intro s hm
        rcases List.mem_cons.1 hm with e | e
        · rw [e]; exact hr
        · exact h1 s e
      · intro s hm ha
        rcases List.mem_cons.1 hm with e | e
        · rw [e]; exact hr
        · exact h2 s e ha

/-- `fppol_is_leq_bySyntactic`: the answer 1 is right. -/
theorem C159_leq_syntactic (n : ℕ) (rs1 rs2 : List (FRow K)) (h : leqSyn n rs1 rs2 = 1) (ρ : ℕ → K)
    (hs : ∀ r ∈ rs1, FSat n r.1 r.2 ρ) : ∀ r ∈ rs2, FSat n r.1 r.2 ρ := by
  unfold leqSyn at h
  cases hl : leqSynLoop n rs1 rs2 0 with
  | none => rw [hl] at h; simp at h
  | some m =>
    rw [hl] at h
    simp only at h
    split_ifs at h with e
    · exact (leqSynLoop_sound hs rs2 hl).1 (by omega)
    · omega

theorem rlpLoop_sound {n : ℕ} {lp : (ℕ → K) → LPEnd K} {rs1 : List (FRow K)} {ρ : ℕ → K}
    (hlp : ∀ a mu, lp a = .opt mu → ∑ k ∈ Finset.range n, a k * ρ k ≤ mu) (rs : List (FRow K)) :
    (∀ r ∈ rs, (rs1.any fun l => vecEq n l.2 r.2) = true → FSat n r.1 r.2 ρ) →
    rlpLoop n lp rs1 rs = 1 → ∀ r ∈ rs, FSat n r.1 r.2 ρ := by
  induction rs with
  | nil => intro _ _; simp
  | cons r rs ih =>
    intro ha h s hm
    have ih := ih fun t ht => ha t (List.mem_cons_of_mem _ ht)
    unfold rlpLoop at h
    split_ifs at h with hc
    · rcases List.mem_cons.1 hm with e | e
      · rw [e]; exact ha r List.mem_cons_self hc
      · exact ih h s e
    · cases hl : lp r.2 with
      | opt mu =>
        rw [hl] at h
        simp only at h
        split_ifs at h with hmu
        rcases List.mem_cons.1 hm with e | e
        · rw [e]; exact (hlp r.2 mu hl).trans (not_lt.1 hmu)
        · exact ih h s e
      | null => rw [hl] at h; simp at h
      | unbnd => rw [hl] at h; simp at h
      | other => rw [hl] at h; simp at h

/-- `fppol_inclusion_byRLP`: the answer 1 is right, if the optima are upper bounds. -/
theorem C159_rlp_sound (n : ℕ) (lp : (ℕ → K) → LPEnd K) (p q : FPol K) (hlp : LPSound n p lp)
    (hp : p.flag ≠ .univ) (h : inclRLP n lp p q = 1) (ρ : ℕ → K) (hm : FMem n p ρ) : FMem n q ρ := by
  unfold inclRLP at h
  have hpg : p.flag = .gen := by
    revert hm hp
    unfold FMem
    cases p.flag <;> simp
  have hs : ∀ r ∈ p.cons, FSat n r.1 r.2 ρ := by
    have := hm
    unfold FMem at this
    rwa [hpg] at this
  split_ifs at h with h1 h2 h3 h4
  · rcases h1 with h1 | h1
    · rw [hpg] at h1; cases h1
    · unfold FMem; rw [h1]; trivial
  all_goals
    have hqg : q.flag = .gen := by
      revert h1 h2
      cases q.flag <;> simp
    unfold FMem
    rw [hqg]
  · exact C159_leq_syntactic n _ _ h ρ hs
  · have e : leqSyn n p.cons q.cons = 2 := by omega
    unfold leqSyn at e
    cases hl : leqSynLoop n p.cons q.cons 0 with
    | none => rw [hl] at e; simp at e
    | some m =>
      exact rlpLoop_sound (fun a mu ha => hlp a mu ha ρ hm) q.cons (leqSynLoop_sound hs q.cons hl).2 h

theorem epsLoop_sound {n : ℕ} {eps : K} {lp : (ℕ → K) → LPEnd K} {ρ : ℕ → K}
    (hlp : ∀ a mu, lp a = .opt mu → ∑ k ∈ Finset.range n, a k * ρ k ≤ mu) (rs : List (FRow K))
    (hend : ∀ r ∈ rs, lp r.2 ≠ .other) :
    epsLoop eps lp rs = 1 → ∀ r ∈ rs, ∃ mu, FSat n mu r.2 ρ ∧
      (mu ≤ r.1 ∨ (mu - r.1) / max (-r.1) mu ≤ eps) := by
  induction rs with
  | nil => intro _; simp
  | cons r rs ih =>
    intro h s hm
    have ih := ih fun t ht => hend t (List.mem_cons_of_mem _ ht)
    unfold epsLoop at h
    cases hl : lp r.2 with
    | opt mu =>
      rw [hl] at h
      simp only at h
      split_ifs at h with h1 h2
      · rcases List.mem_cons.1 hm with e | e
        · rw [e]; exact ⟨mu, hlp r.2 mu hl, Or.inr (not_lt.1 h2)⟩
        · exact ih h s e
      · rcases List.mem_cons.1 hm with e | e
        · rw [e]; exact ⟨mu, hlp r.2 mu hl, Or.inl (not_lt.1 h1)⟩
        · exact ih h s e
    | null => rw [hl] at h; simp at h
    | unbnd => rw [hl] at h; simp at h
    | other => exact absurd hl (hend r List.mem_cons_self)

/-- `fpp_is_leq`, what its answer 1 means: if the optima are upper bounds and every linear program ends
with an optimum or as unbounded, the points of the first argument satisfy each constraint of the
second, or that constraint enlarged by the relative tolerance. Missing: inclusion itself, and the answer
2, which is also true. -/
theorem C159_is_leq_partial (n : ℕ) (eps : K) (lp : (ℕ → K) → LPEnd K) (p q : FPol K)
    (hlp : LPSound n p lp) (hend : ∀ r ∈ q.cons, lp r.2 ≠ .other) (h : fppIsLeq n eps lp p q = 1)
    (hq : q.flag ≠ .univ) (ρ : ℕ → K) (hm : FMem n p ρ) :
    q.flag = .gen ∧ ∀ r ∈ q.cons, ∃ mu, FSat n mu r.2 ρ ∧
      (mu ≤ r.1 ∨ (mu - r.1) / max (-r.1) mu ≤ eps) := by
  unfold fppIsLeq at h
  have hpe : p.flag ≠ .empty := by
    intro e
    unfold FMem at hm
    rw [e] at hm
    exact hm
  rw [if_neg (by simp [hpe, hq])] at h
  by_cases h2 : q.flag = .empty
  · rw [if_pos h2] at h; simp at h
  rw [if_neg h2] at h
  by_cases h3 : p.flag = .univ ∧ q.flag ≠ .univ
  · rw [if_pos h3] at h; simp at h
  rw [if_neg h3] at h
  have hqg : q.flag = .gen := by
    revert hq h2
    cases q.flag <;> simp
  have hpg : p.flag = .gen := by
    revert hpe h3
    rw [hqg]
    cases p.flag <;> simp
  have hs : ∀ r ∈ p.cons, FSat n r.1 r.2 ρ := by
    have := hm
    unfold FMem at this
    rwa [hpg] at this
  refine ⟨hqg, ?_⟩
  split_ifs at h with h4 h5
  · intro r hr
    exact ⟨r.1, C159_leq_syntactic n _ _ h ρ hs r hr, Or.inl le_rfl⟩
  · exact epsLoop_sound (fun a mu ha => hlp a mu ha ρ hm) q.cons hend h

/-- The answers of the linear programs do not matter when the answer is 1 by comparison of the rows. -/
theorem C159_is_leq_refl (n : ℕ) (eps : K) (lp : (ℕ → K) → LPEnd K) (rs : List (FRow K)) (B : Bnds K)
    (hd : ∀ r ∈ rs, ∀ l ∈ rs, (∀ k, k < n → l.2 k = r.2 k) → l.1 ≤ r.1) :
    fppIsLeq n eps lp ⟨.gen, rs, B⟩ ⟨.gen, rs, B⟩ = 1 := by
  have hb : inclBound n B B = 2 := by
    unfold inclBound
    rw [if_neg]
    simp only [List.any_eq_true, not_exists, not_and, Bool.or_eq_true, not_or]
    intro k _
    constructor
    · cases B.lo k <;> simp
    · cases B.hi k <;> simp
  have hl : ∀ rs' : List (FRow K), (∀ r ∈ rs', r ∈ rs) → ∀ m,
      leqSynLoop n rs rs' m = some (m + rs'.length) := by
    intro rs'
    induction rs' with
    | nil => intro _ m; simp [leqSynLoop]
    | cons r rs' ih =>
      intro hsub m
      have hr := hsub r List.mem_cons_self
      unfold leqSynLoop
      cases hf : rs.find? fun l => vecEq n l.2 r.2 with
      | none =>
        have := List.find?_eq_none.1 hf r hr
        exact absurd (vecEq_iff.2 fun _ _ => rfl) this
      | some l =>
        have e := vecEq_iff.1 (by simpa using List.find?_some hf)
        have := hd r hr l (List.mem_of_find?_eq_some hf) e
        simp only
        rw [if_neg (not_lt.2 this), ih (fun t ht => hsub t (List.mem_cons_of_mem _ ht))]
        simp [Nat.add_assoc, Nat.add_comm]
  have hs : leqSyn n rs rs = 1 := by
    unfold leqSyn
    rw [hl rs (fun _ h => h) 0]
    simp
  simp [fppIsLeq, hb, hs]

/-- A row as far as it is compared. -/
def rowCode (n : ℕ) (r : FRow K) : K × List K := (r.1, (List.range n).map r.2)

theorem rowCode_eq {n : ℕ} {r s : FRow K} :
    rowCode n r = rowCode n s ↔ (r.1 = s.1 ∧ ∀ k, k < n → r.2 k = s.2 k) := by
  unfold rowCode
  rw [Prod.mk.injEq]
  simp [List.map_inj_left]

/-- `fpp_is_eq`: the answer true is right when no row of the first argument is there twice. -/
theorem C159_is_eq (n : ℕ) (p q : FPol K) (h : eqSyn n p q = true)
    (hd : (p.cons.map (rowCode n)).Nodup) (ρ : ℕ → K) : FMem n p ρ ↔ FMem n q ρ := by
  unfold eqSyn at h
  split_ifs at h with h1
  have hf : p.flag = q.flag := by
    by_contra c
    exact h1 (Or.inl c)
  have hlen : p.cons.length = q.cons.length := by
    by_contra c
    exact h1 (Or.inr c)
  have hsub : p.cons.map (rowCode n) ⊆ q.cons.map (rowCode n) := by
    intro c hc
    obtain ⟨r, hr, rfl⟩ := List.mem_map.1 hc
    obtain ⟨s, hs, e⟩ := List.any_eq_true.1 (List.all_eq_true.1 h r hr)
    rw [Bool.and_eq_true, decide_eq_true_eq] at e
    exact List.mem_map.2 ⟨s, hs, (rowCode_eq.2 ⟨e.1, vecEq_iff.1 e.2⟩).symm⟩
  have hperm := (List.subperm_of_subset hd hsub).perm_of_length_le (by simp [hlen])
  have key : ∀ l l' : List (FRow K), (∀ c ∈ l'.map (rowCode n), c ∈ l.map (rowCode n)) →
      (∀ r ∈ l, FSat n r.1 r.2 ρ) → ∀ r ∈ l', FSat n r.1 r.2 ρ := by
    intro l l' hll hs r hr
    obtain ⟨s, hs', e⟩ := List.mem_map.1 (hll _ (List.mem_map_of_mem hr))
    obtain ⟨e1, e2⟩ := rowCode_eq.1 e
    exact fsat_of_eq e2 e1.le (hs s hs')
  unfold FMem
  rw [← hf]
  cases p.flag with
  | empty => rfl
  | univ => rfl
  | gen => exact ⟨key _ _ fun c hc => hperm.mem_iff.2 hc, key _ _ fun c hc => hperm.mem_iff.1 hc⟩

/-- Without this hypothesis one inclusion is left: the second argument is in the first. -/
theorem C159_is_eq_half (n : ℕ) (p q : FPol K) (h : eqSyn n p q = true) (ρ : ℕ → K)
    (hm : FMem n q ρ) : FMem n p ρ := by
  unfold eqSyn at h
  split_ifs at h with h1
  have hf : p.flag = q.flag := by
    by_contra c
    exact h1 (Or.inl c)
  unfold FMem at *
  rw [hf]
  revert hm
  cases q.flag with
  | empty => exact id
  | univ => exact id
  | gen =>
    intro hm r hr
    obtain ⟨s, hs, e⟩ := List.any_eq_true.1 (List.all_eq_true.1 h r hr)
    rw [Bool.and_eq_true, decide_eq_true_eq] at e
    exact fsat_of_eq (fun k hk => (vecEq_iff.1 e.2 k hk).symm) e.1.symm.le (hm s hs)

end Apron.Props
