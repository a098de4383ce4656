import Mathlib.Data.Finset.Card
import Mathlib.Data.Finset.Filter
import Mathlib.Order.Interval.Finset.Nat
import Mathlib.Tactic.Linarith

/-! # Sequences with a natural measure that strictly decreases at every change (helper) -/

set_option autoImplicit false
namespace Apron

/-- Specification: an infinite sequence has at most `k` strict changes and is eventually
stationary. -/
def Stabilises {α : Type*} (x : ℕ → α) (k : ℕ) : Prop :=
  (∀ s : Finset ℕ, (∀ n ∈ s, x (n + 1) ≠ x n) → s.card ≤ k) ∧ ∃ N, ∀ n, N ≤ n → x n = x N

theorem stabilises_of_measure {α : Type*} (x : ℕ → α) (μ : α → ℕ) (k : ℕ) (h0 : μ (x 0) ≤ k)
    (h : ∀ n, x (n + 1) = x n ∨ μ (x (n + 1)) < μ (x n)) : Stabilises x k := by
  classical
  have hmono : ∀ n, μ (x (n + 1)) ≤ μ (x n) := fun n => by
    rcases h n with e | e
    · rw [e]
    · exact e.le
  have key : ∀ N, ((Finset.range N).filter (fun n => x (n + 1) ≠ x n)).card + μ (x N) ≤ k := by
    intro N
    induction N with
    | zero => simpa using h0
    | succ N ih =>
      rw [Finset.range_add_one, Finset.filter_insert]
      split_ifs with hc
      · rw [Finset.card_insert_of_notMem (by simp)]
        rcases h N with e | e
        · exact absurd e hc
        · omega
      · have := hmono N; omega
  constructor
  · intro s hs
    have hsub : s ⊆ (Finset.range (s.sup id + 1)).filter (fun n => x (n + 1) ≠ x n) := by
      intro n hn
      rw [Finset.mem_filter, Finset.mem_range]
      exact ⟨Nat.lt_succ_of_le (Finset.le_sup (f := id) hn), hs n hn⟩
    have := Finset.card_le_card hsub
    have := key (s.sup id + 1)
    omega
  · -- a minimal value of the measure is reached
    have hne : ∃ m, ∃ N, μ (x N) = m := ⟨_, 0, rfl⟩
    obtain ⟨N, hN⟩ := Nat.find_spec hne
    refine ⟨N, fun n hn => ?_⟩
    induction n, hn using Nat.le_induction with
    | base => rfl
    | succ n hn ih =>
      rcases h n with e | e
      · rw [e, ih]
      · exfalso
        have : Nat.find hne ≤ μ (x (n + 1)) := Nat.find_min' hne ⟨_, rfl⟩
        rw [ih] at e
        omega

end Apron
