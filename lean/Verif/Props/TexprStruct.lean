import Verif.Texpr.Struct
import Verif.Props.CoreLinexpr
import Verif.Core.CompareLemmas
import Mathlib.Algebra.MvPolynomial.Eval
import Mathlib.Tactic.FieldSimp
import Mathlib.Tactic.LinearCombination
import Mathlib.Tactic.Ring

/-!
# Structural operations on expression trees (C77, C78, C79)

C77: changes of dimensions, substitution, and dimensions of a tree; C78: conversion of linear expressions,
and the classes of trees; C79: equality and hashing.
-/

set_option autoImplicit false
set_option linter.unusedSectionVars false
set_option linter.ambiguousOpen false

namespace Apron
namespace Props
open Bound Texpr

variable {K : Type*} [LinearOrder K] [Field K] [IsStrictOrderedRing K] [FloorRing K] (S : FltSem K)

/-! ## C77: dimensions of a tree -/

/-- Specification: the leaf `d` occurs in the tree -/
inductive Occurs (d : ℕ) : Texpr K → Prop
  | dim : Occurs d (.dim d)
  | un (op : UnOp) (t : RType) (r : RDir) (a : Texpr K) : Occurs d a → Occurs d (.un op t r a)
  | left (op : BinOp) (t : RType) (r : RDir) (a b : Texpr K) : Occurs d a → Occurs d (.bin op t r a b)
  | right (op : BinOp) (t : RType) (r : RDir) (a b : Texpr K) : Occurs d b → Occurs d (.bin op t r a b)

theorem hasDim_iff (e : Texpr K) (d : ℕ) : e.hasDim d = true ↔ Occurs d e := by
  induction e with
  | cst c => simp only [hasDim, Bool.false_eq_true, false_iff]; rintro ⟨⟩
  | dim d' =>
    simp only [hasDim, decide_eq_true_eq]
    constructor
    · rintro rfl; exact .dim
    · rintro ⟨⟩; rfl
  | un op t r a ih =>
    simp only [hasDim, Bool.or_false, ih]
    exact ⟨.un op t r a, by rintro ⟨⟩; assumption⟩
  | bin op t r a b iha ihb =>
    simp only [hasDim, Bool.or_eq_true, iha, ihb]
    constructor
    · rintro (h | h)
      · exact .left op t r a b h
      · exact .right op t r a b h
    · rintro ⟨⟩
      · left; assumption
      · right; assumption

theorem val_congr (e : Texpr K) (x y : ℕ → K) (v : K) (h : ∀ d, Occurs d e → x d = y d) :
    e.Val S x v ↔ e.Val S y v := by
  induction e generalizing v with
  | cst c => rfl
  | dim d => simp only [Texpr.Val, h d .dim]
  | un op t r a ih =>
    simp only [Texpr.Val, ih _ fun d hd => h d (.un op t r a hd)]
  | bin op t r a b iha ihb =>
    simp only [Texpr.Val, iha _ fun d hd => h d (.left op t r a b hd),
      ihb _ fun d hd => h d (.right op t r a b hd)]

/-- C77: `ap_texpr0_has_dim` tells whether the dimension occurs; the value of a tree does not depend on the
dimensions that it does not have -/
theorem C77_has_dim (e : Texpr K) :
    (∀ d, e.hasDim d = true ↔ Occurs d e) ∧
    ∀ x y v, (∀ d, e.hasDim d = true → x d = y d) → (e.Val S x v ↔ e.Val S y v) :=
  ⟨hasDim_iff e, fun x y v h => val_congr S e x y v fun d hd => h d ((hasDim_iff e d).2 hd)⟩

theorem maxDimFrom_spec (e : Texpr K) (m n : ℕ) :
    maxDimFrom e m ≤ n ↔ m ≤ n ∧ ∀ d, Occurs d e → d < n := by
  induction e generalizing m with
  | cst c =>
    simp only [maxDimFrom]
    exact ⟨fun h => ⟨h, by rintro d ⟨⟩⟩, fun h => h.1⟩
  | dim d =>
    simp only [maxDimFrom]
    constructor
    · intro h
      split_ifs at h with h1
      · exact ⟨by omega, by rintro d ⟨⟩; omega⟩
      · exact ⟨h, by rintro d ⟨⟩; omega⟩
    · rintro ⟨h, h'⟩
      have := h' d .dim
      split_ifs <;> omega
  | un op t r a ih =>
    simp only [maxDimFrom, ih]
    exact ⟨fun h => ⟨h.1, by rintro d ⟨⟩; exact h.2 d ‹_›⟩, fun h => ⟨h.1, fun d hd => h.2 d (.un op t r a hd)⟩⟩
  | bin op t r a b iha ihb =>
    simp only [maxDimFrom, ihb, iha]
    constructor
    · rintro ⟨⟨h1, h2⟩, h3⟩
      refine ⟨h1, ?_⟩
      rintro d ⟨⟩
      · exact h2 d ‹_›
      · exact h3 d ‹_›
    · rintro ⟨h1, h2⟩
      exact ⟨⟨h1, fun d hd => h2 d (.left op t r a b hd)⟩, fun d hd => h2 d (.right op t r a b hd)⟩

theorem inDim_iff (e : Texpr K) (n : ℕ) : e.InDim n ↔ ∀ d, Occurs d e → d < n := by
  induction e with
  | cst c => exact ⟨fun _ => by rintro d ⟨⟩, fun _ => trivial⟩
  | dim d => exact ⟨fun h => by rintro d ⟨⟩; exact h, fun h => h d .dim⟩
  | un op t r a ih =>
    simp only [InDim, ih]
    exact ⟨fun h => by rintro d ⟨⟩; exact h d ‹_›, fun h d hd => h d (.un op t r a hd)⟩
  | bin op t r a b iha ihb =>
    simp only [InDim, ihb, iha]
    constructor
    · rintro ⟨h2, h3⟩ d ⟨⟩
      · exact h2 d ‹_›
      · exact h3 d ‹_›
    · intro h2
      exact ⟨fun d hd => h2 d (.left op t r a b hd), fun d hd => h2 d (.right op t r a b hd)⟩

/-- C77: `ap_texpr0_max_dim` is the least bound (excluded) on the dimensions of the tree -/
theorem C77_max_dim (e : Texpr K) :
    (∀ n, e.maxDim ≤ n ↔ ∀ d, Occurs d e → d < n) ∧ (e.maxDim ≠ 0 → Occurs (e.maxDim - 1) e) := by
  have h1 : ∀ n, e.maxDim ≤ n ↔ ∀ d, Occurs d e → d < n := fun n => by
    rw [maxDim, maxDimFrom_spec]; simp
  refine ⟨h1, fun h0 => ?_⟩
  by_contra hn
  have := (h1 (e.maxDim - 1)).2 fun d hd => by
    have h2 := (h1 e.maxDim).1 le_rfl d hd
    have : d ≠ e.maxDim - 1 := by rintro rfl; exact hn hd
    omega
  omega

/-- C67: a tree is accepted for a value of `n` dimensions iff all its dimensions are among them -/
theorem C67_check_texpr (n : ℕ) (e : Texpr K) : Texpr.check n e = true ↔ e.InDim n := by
  rw [inDim_iff, ← (C77_max_dim e).1, Texpr.check]
  simp

theorem dimlistFill_spec (e : Texpr K) (v : List Bool) (h : ∀ d, Occurs d e → d < v.length) :
    ∃ v', dimlistFill e v = some v' ∧ v'.length = v.length ∧
      ∀ i, v'.getD i false = true ↔ v.getD i false = true ∨ Occurs i e := by
  induction e generalizing v with
  | cst c => exact ⟨v, rfl, rfl, fun i => ⟨Or.inl, by rintro (h | h); exact h; cases h⟩⟩
  | dim d =>
    have hd := h d .dim
    refine ⟨v.set d true, by simp [dimlistFill, hd], by simp, fun i => ?_⟩
    rw [List.getD_eq_getElem?_getD, List.getD_eq_getElem?_getD, List.getElem?_set]
    constructor
    · split_ifs with h1
      · subst h1; exact fun _ => .inr .dim
      · exact .inl
    · rintro (h | h)
      · split_ifs with h1
        · rfl
        · exact h
      · cases h
        simp [hd]
  | un op t r a ih =>
    obtain ⟨v', h1, h2, h3⟩ := ih v fun d hd => h d (.un op t r a hd)
    refine ⟨v', h1, h2, fun i => (h3 i).trans (or_congr_right ⟨.un op t r a, by rintro ⟨⟩; assumption⟩)⟩
  | bin op t r a b iha ihb =>
    obtain ⟨v1, h1, h2, h3⟩ := iha v fun d hd => h d (.left op t r a b hd)
    obtain ⟨v2, h4, h5, h6⟩ := ihb v1 fun d hd => h2 ▸ h d (.right op t r a b hd)
    refine ⟨v2, by simp [dimlistFill, h1, h4], h5.trans h2, fun i => ?_⟩
    rw [h6, h3, or_assoc]
    refine or_congr_right ⟨?_, ?_⟩
    · rintro (h | h)
      · exact .left op t r a b h
      · exact .right op t r a b h
    · rintro ⟨⟩
      · left; assumption
      · right; assumption

/-- C77: `ap_texpr0_dimlist` never writes outside of its vector, and its result is the list of the
dimensions of the tree, each one once, in increasing order -/
theorem C77_dimlist (e : Texpr K) :
    ∃ l, e.dimlist = some l ∧ l.Pairwise (· < ·) ∧ ∀ d, d ∈ l ↔ Occurs d e := by
  obtain ⟨h1, h2⟩ := C77_max_dim e
  simp only [dimlist]
  split_ifs with h0
  · refine ⟨[], rfl, List.Pairwise.nil, fun d => ?_⟩
    simp only [List.not_mem_nil, false_iff]
    intro hd
    have := (h1 0).1 (by omega) d hd
    omega
  · obtain ⟨v, hv, hl, hs⟩ := dimlistFill_spec e (List.replicate e.maxDim false) fun d hd => by
      simpa using (h1 _).1 le_rfl d hd
    refine ⟨_, by rw [hv]; rfl, List.Pairwise.filter _ List.pairwise_lt_range, fun d => ?_⟩
    rw [List.mem_filter, List.mem_range, hs]
    constructor
    · rintro ⟨h, h' | h'⟩
      · rw [List.getD_eq_getElem?_getD, List.getElem?_replicate] at h'
        simp [h] at h'
      · exact h'
    · exact fun h => ⟨(h1 _).1 le_rfl d h, .inr h⟩

/-- C77: a tree has at most `size` operators on a branch, and it is a leaf when it has none -/
theorem C77_depth_size (e : Texpr K) :
    e.depth ≤ e.size ∧ (e.size = 0 ↔ (∃ c, e = .cst c) ∨ ∃ d, e = .dim d) := by
  constructor
  · induction e with
    | cst c => simp [depth]
    | dim d => simp [depth]
    | un op t r a ih => simp only [depth, size]; split_ifs <;> omega
    | bin op t r a b iha ihb => simp only [depth, size]; split_ifs <;> omega
  · cases e with
    | cst c => simp [size]
    | dim d => simp [size]
    | un op t r a => simp [size]
    | bin op t r a b => simp [size]

/-! ## C77: substitution -/

/-- C77: the values of `a[dim <- dst]` include those of `a` in a state where `dim` has a value of `dst`, and
are exactly those when `dst` has exactly one value -/
theorem C77_substitute (dim : ℕ) (dst a : Texpr K) (x : ℕ → K) (v : K) :
    (∀ w, dst.Val S x w → a.Val S (Function.update x dim w) v → (substitute dim dst a).Val S x v) ∧
    (∀ w, dst.Val S x w → (∀ w', dst.Val S x w' → w' = w) →
      ((substitute dim dst a).Val S x v ↔ a.Val S (Function.update x dim w) v)) ∧
    (a.hasDim dim = false → substitute dim dst a = a) := by
  refine ⟨?_, ?_, ?_⟩
  · intro w hw
    induction a generalizing v with
    | cst c => exact id
    | dim d =>
      intro h
      simp only [Texpr.Val] at h
      simp only [substitute]
      split_ifs with hd
      · rw [Function.update_of_ne hd] at h; exact h
      · push Not at hd
        subst hd
        rw [Function.update_self] at h
        exact h ▸ hw
    | un op t r a ih =>
      rintro ⟨va, w', h1, h2⟩
      exact ⟨va, w', ih va h1, h2⟩
    | bin op t r a b iha ihb =>
      rintro ⟨va, vb, w', h1, h2, h3⟩
      exact ⟨va, vb, w', iha va h1, ihb vb h2, h3⟩
  · intro w hw hu
    induction a generalizing v with
    | cst c => rfl
    | dim d =>
      simp only [substitute]
      split_ifs with hd
      · simp only [Texpr.Val, Function.update_of_ne hd]
      · push Not at hd
        subst hd
        simp only [Texpr.Val, Function.update_self]
        exact ⟨hu v, fun h => h ▸ hw⟩
    | un op t r a ih => simp only [substitute, Texpr.Val, ih]
    | bin op t r a b iha ihb => simp only [substitute, Texpr.Val, iha, ihb]
  · intro h
    induction a with
    | cst c => rfl
    | dim d =>
      simp only [hasDim, decide_eq_false_iff_not] at h
      simp only [substitute, if_pos h]
    | un op t r a ih => simp only [hasDim, Bool.or_false] at h; simp only [substitute, ih h]
    | bin op t r a b iha ihb =>
      simp only [hasDim, Bool.or_eq_false_iff] at h
      simp only [substitute, iha h.1, ihb h.2]

/-- C77: the dimensions of `a[dim <- dst]` -/
theorem C77_substitute_dims (dim d : ℕ) (dst a : Texpr K) :
    Occurs d (substitute dim dst a) ↔ (d ≠ dim ∧ Occurs d a) ∨ (Occurs dim a ∧ Occurs d dst) := by
  simp only [← hasDim_iff]
  induction a with
  | cst c => simp [substitute, hasDim]
  | dim d' =>
    simp only [substitute]
    split_ifs with h
    · simp only [hasDim, decide_eq_true_eq]
      constructor
      · rintro rfl; exact .inl ⟨h, rfl⟩
      · rintro (h' | h'); exact h'.2; exact absurd h'.1 h
    · push Not at h
      subst h
      simp only [hasDim, decide_eq_true_eq, true_and]
      constructor
      · exact .inr
      · rintro (h' | h'); exact absurd h'.2.symm h'.1; exact h'
  | un op t r a ih => simp only [substitute, hasDim, Bool.or_false, ih]
  | bin op t r a b iha ihb =>
    simp only [substitute, hasDim, Bool.or_eq_true, iha, ihb]
    tauto

/-! ## C77: changes of dimensions -/

theorem addShift_eq (d : ℕ) (pos : List ℕ) (k : ℕ) (hs : pos.Pairwise (· ≤ ·)) :
    addShift d pos k = k + pos.countP (fun p => decide (p ≤ d)) := by
  induction pos generalizing k with
  | nil => rfl
  | cons p l ih =>
    rw [List.pairwise_cons] at hs
    simp only [addShift]
    split_ifs with h
    · rw [ih _ hs.2, List.countP_cons_of_pos (by simpa using h)]; omega
    · rw [List.countP_cons_of_neg (by simpa using h), List.countP_eq_zero.2 fun q hq => ?_, Nat.add_zero]
      have := hs.1 q hq
      simp only [decide_eq_true_eq]; omega

/-- C77: `ap_texpr0_add_dimensions`: the value at a point of the larger space is the value at its
restriction -/
theorem C77_add_dimensions (e : Texpr K) (pos : List ℕ) (hs : pos.Pairwise (· ≤ ·)) (x' : ℕ → K) (v : K) :
    (addDimensions pos e).Val S x' v ↔
      e.Val S (fun d => x' (d + pos.countP (fun p => decide (p ≤ d)))) v := by
  induction e generalizing v with
  | cst c => rfl
  | dim d => simp only [addDimensions, Texpr.Val, addShift_eq d pos 0 hs, Nat.zero_add]
  | un op t r a ih => simp only [addDimensions, Texpr.Val, ih]
  | bin op t r a b iha ihb => simp only [addDimensions, Texpr.Val, iha, ihb]

theorem C77_add_dimensions_dims (e : Texpr K) (pos : List ℕ) (n : ℕ) (he : e.InDim n) :
    (addDimensions pos e).InDim (n + pos.length) := by
  have h : ∀ d (l : List ℕ) k, addShift d l k ≤ k + l.length := fun d l => by
    induction l with
    | nil => intro k; simp [addShift]
    | cons p l ih =>
      intro k
      simp only [addShift]
      split_ifs
      · have := ih (k + 1); simp only [List.length_cons]; omega
      · omega
  induction e with
  | cst c => trivial
  | dim d =>
    have := h d pos 0
    simp only [InDim] at he
    simp only [addDimensions, InDim]; omega
  | un op t r a ih => exact ih he
  | bin op t r a b iha ihb => exact ⟨iha he.1, ihb he.2⟩

theorem removeShift_eq (d : ℕ) (pos : List ℕ) (i : ℕ) (hs : pos.Pairwise (· < ·)) :
    removeShift d pos i = (i + pos.countP (fun p => decide (p < d)), decide (d ∈ pos)) := by
  induction pos generalizing i with
  | nil => rfl
  | cons p l ih =>
    rw [List.pairwise_cons] at hs
    simp only [removeShift]
    split_ifs with h
    · rw [ih _ hs.2, List.countP_cons_of_pos (by simpa using h)]
      have : (d ∈ p :: l) ↔ d ∈ l := by simp; omega
      simp only [this, Prod.mk.injEq, and_true]; omega
    · rw [List.countP_cons_of_neg (by simpa using h), List.countP_eq_zero.2 fun q hq => ?_, Nat.add_zero]
      · have : (d ∈ p :: l) ↔ d = p := by
          simp only [List.mem_cons, or_iff_left_iff_imp]
          intro hd
          have := hs.1 d hd
          omega
        simp only [this]
      · have := hs.1 q hq
        simp only [decide_eq_true_eq]; omega

/-- C77: `ap_texpr0_remove_dimensions`: the values of the result include those of the tree at every point
of the larger space; when no removed dimension occurs the values are the same; the dimensions of the result
are the new positions of the kept ones -/
theorem C77_remove_dimensions (e : Texpr K) (pos : List ℕ) (hs : pos.Pairwise (· < ·)) (x x' : ℕ → K)
    (hx : ∀ d, Occurs d e → d ∉ pos → x' (d - pos.countP (fun p => decide (p < d))) = x d) (v : K) :
    (e.Val S x v → (removeDimensions pos e).Val S x' v) ∧
    ((∀ d, Occurs d e → d ∉ pos) → (removeDimensions pos e).Val S x' v → e.Val S x v) ∧
    (∀ d, Occurs d (removeDimensions pos e) → ∃ d', Occurs d' e ∧ d' ∉ pos ∧
      d = d' - pos.countP (fun p => decide (p < d'))) := by
  have key : ∀ d, (removeDimensions pos (.dim d) : Texpr K) =
      if d ∈ pos then .cst (.interval ninf pinf) else .dim (d - pos.countP (fun p => decide (p < d))) := by
    intro d
    simp only [removeDimensions, removeShift_eq d pos 0 hs, Nat.zero_add, decide_eq_true_eq]
  induction e generalizing v with
  | cst c => exact ⟨id, fun _ => id, by rintro d ⟨⟩⟩
  | dim d =>
    rw [key]
    split_ifs with h
    · refine ⟨fun _ => ?_, fun h' => absurd h (h' d .dim), by rintro d ⟨⟩⟩
      simp [Texpr.Val, Coeff.Has]
    · have := hx d .dim h
      refine ⟨fun hv => ?_, fun _ hv => ?_, ?_⟩
      · simp only [Texpr.Val] at hv ⊢; rw [this, hv]
      · simp only [Texpr.Val] at hv ⊢; rw [← this, hv]
      · rintro d ⟨⟩; exact ⟨_, .dim, h, rfl⟩
  | un op t r a ih =>
    have ih := ih fun d hd => hx d (.un op t r a hd)
    refine ⟨?_, ?_, ?_⟩
    · rintro ⟨va, w, h1, h2⟩; exact ⟨va, w, (ih va).1 h1, h2⟩
    · rintro h ⟨va, w, h1, h2⟩
      exact ⟨va, w, (ih va).2.1 (fun d hd => h d (.un op t r a hd)) h1, h2⟩
    · rintro d ⟨⟩
      obtain ⟨d', h1, h2⟩ := (ih v).2.2 d ‹_›
      exact ⟨d', .un op t r a h1, h2⟩
  | bin op t r a b iha ihb =>
    have iha := iha fun d hd => hx d (.left op t r a b hd)
    have ihb := ihb fun d hd => hx d (.right op t r a b hd)
    refine ⟨?_, ?_, ?_⟩
    · rintro ⟨va, vb, w, h1, h2, h3⟩; exact ⟨va, vb, w, (iha va).1 h1, (ihb vb).1 h2, h3⟩
    · rintro h ⟨va, vb, w, h1, h2, h3⟩
      exact ⟨va, vb, w, (iha va).2.1 (fun d hd => h d (.left op t r a b hd)) h1,
        (ihb vb).2.1 (fun d hd => h d (.right op t r a b hd)) h2, h3⟩
    · rintro d ⟨⟩
      · obtain ⟨d', h1, h2⟩ := (iha v).2.2 d ‹_›
        exact ⟨d', .left op t r a b h1, h2⟩
      · obtain ⟨d', h1, h2⟩ := (ihb v).2.2 d ‹_›
        exact ⟨d', .right op t r a b h1, h2⟩

/-- C77: `ap_texpr0_permute_dimensions` reads the permutation only at the dimensions of the tree, and the
value at a permuted point is the value at the point -/
theorem C77_permute_dimensions (e : Texpr K) (perm : List ℕ) :
    ((permuteDimensions perm e).isSome = true ↔ e.InDim perm.length) ∧
    ∀ e', permuteDimensions perm e = some e' →
      ∀ x' v, e'.Val S x' v ↔ e.Val S (fun d => x' (perm.getD d 0)) v := by
  induction e with
  | cst c => exact ⟨by simp [permuteDimensions, InDim], by rintro _ ⟨⟩; exact fun x' v => Iff.rfl⟩
  | dim d =>
    refine ⟨by simp [permuteDimensions, InDim], fun e' h x' v => ?_⟩
    simp only [permuteDimensions, Option.map_eq_some_iff] at h
    obtain ⟨p, hp, rfl⟩ := h
    simp only [Texpr.Val, List.getD_eq_getElem?_getD, hp, Option.getD_some]
  | un op t r a ih =>
    refine ⟨by simpa [permuteDimensions, InDim] using ih.1, fun e' h x' v => ?_⟩
    simp only [permuteDimensions, Option.map_eq_some_iff] at h
    obtain ⟨a', ha, rfl⟩ := h
    simp only [Texpr.Val, ih.2 a' ha]
  | bin op t r a b iha ihb =>
    constructor
    · rw [InDim, ← iha.1, ← ihb.1]
      simp only [permuteDimensions]
      rcases permuteDimensions perm a <;> rcases permuteDimensions perm b <;> simp
    · intro e' h x' v
      simp only [permuteDimensions, Option.bind_eq_some_iff, Option.map_eq_some_iff] at h
      obtain ⟨a', ha, b', hb, rfl⟩ := h
      simp only [Texpr.Val, iha.2 a' ha, ihb.2 b' hb]

/-! ## C78: linear expressions as trees, classes of trees -/

theorem ofLinexpr_foldl (l : List (ℕ × Coeff K)) (e0 : Texpr K) (x : ℕ → K) (v : K) :
    (l.foldl (fun res p => .bin .add .real .rnd res (.bin .mul .real .rnd (.cst p.2) (.dim p.1))) e0).Val S x v ↔
      ∃ q r, e0.Val S x q ∧ Linexpr.TermsVal l x r ∧ v = q + r := by
  induction l generalizing e0 with
  | nil =>
    simp only [List.foldl_nil, Linexpr.TermsVal]
    constructor
    · intro h; exact ⟨v, 0, h, rfl, by ring⟩
    · rintro ⟨q, r, h, rfl, rfl⟩; rwa [add_zero]
  | cons p l ih =>
    obtain ⟨d, c⟩ := p
    rw [List.foldl_cons, ih]
    simp only [Texpr.Val, Rounds, BinOp.Val, Linexpr.TermsVal, reduceCtorEq, if_false]
    constructor
    · rintro ⟨q, r, ⟨va, vb, w, h1, ⟨va', vb', w', h2, rfl, rfl, rfl⟩, rfl, rfl⟩, h3, rfl⟩
      exact ⟨va, _, h1, ⟨va', r, h2, h3, rfl⟩, by ring⟩
    · rintro ⟨q, r, h1, ⟨q', s, h2, h3, rfl⟩, rfl⟩
      exact ⟨q + q' * x d, s, ⟨q, q' * x d, _, h1, ⟨q', x d, _, h2, rfl, rfl, rfl⟩, rfl, rfl⟩, h3, by ring⟩

/-- C78: the tree made from a linear expression has the same values -/
theorem C78_from_linexpr (e : Linexpr K) (x : ℕ → K) (v : K) :
    (ofLinexpr e).Val S x v ↔ e.Val x v := by
  rw [ofLinexpr, ofLinexpr_foldl]
  rfl

theorem isIntervalCst_iff (e : Texpr K) : e.isIntervalCst = true ↔ ∀ d, ¬ Occurs d e := by
  induction e with
  | cst c => simp only [isIntervalCst, true_iff]; rintro d ⟨⟩
  | dim d => simp only [isIntervalCst, Bool.false_eq_true, false_iff]; exact fun h => h d .dim
  | un op t r a ih =>
    simp only [isIntervalCst, Bool.and_true, ih]
    exact ⟨fun h => by rintro d ⟨⟩; exact h d ‹_›, fun h d hd => h d (.un op t r a hd)⟩
  | bin op t r a b iha ihb =>
    simp only [isIntervalCst, Bool.and_eq_true, iha, ihb]
    constructor
    · rintro ⟨h1, h2⟩ d ⟨⟩
      · exact h1 d ‹_›
      · exact h2 d ‹_›
    · exact fun h => ⟨fun d hd => h d (.left op t r a b hd), fun d hd => h d (.right op t r a b hd)⟩

/-- C78: `ap_texpr0_is_interval_cst` tells whether the tree has no dimension; its values are then the
same everywhere -/
theorem C78_is_interval_cst (e : Texpr K) :
    (e.isIntervalCst = true ↔ ∀ d, ¬ Occurs d e) ∧
    (e.isIntervalCst = true → ∀ x y v, e.Val S x v ↔ e.Val S y v) :=
  ⟨isIntervalCst_iff e, fun h x y v => val_congr S e x y v fun d hd => absurd hd ((isIntervalCst_iff e).1 h d)⟩

/-- Specification: every rounded node of the tree (neither a negation nor a modulo) is over the reals, and no
exponent is other than a natural number -/
inductive Exact : Texpr K → Prop
  | cst (c : Coeff K) : Exact (.cst c)
  | dim (d : ℕ) : Exact (.dim d)
  | neg (t : RType) (r : RDir) (a : Texpr K) : Exact a → Exact (.un .neg t r a)
  | un (op : UnOp) (r : RDir) (a : Texpr K) : Exact a → Exact (.un op .real r a)
  | mod (t : RType) (r : RDir) (a b : Texpr K) : Exact a → Exact b → Exact (.bin .mod t r a b)
  | bin (op : BinOp) (r : RDir) (a b : Texpr K) : op ≠ .pow → Exact a → Exact b → Exact (.bin op .real r a b)
  | pow (r : RDir) (a : Texpr K) (k : ℕ) : Exact a → Exact (.bin .pow .real r a (.cst (.scalar (fin (k : K)))))

/-- C78: a tree accepted by `ap_texpr0_is_scalar`, with no rounding, has at most one value at each point -/
theorem C78_is_scalar (e : Texpr K) (h : e.isScalar = true) (he : Exact e) (x : ℕ → K) (v w : K)
    (hv : e.Val S x v) (hw : e.Val S x w) : v = w := by
  induction he generalizing v w with
  | cst c =>
    cases c with
    | scalar a =>
      simp only [Texpr.Val, Coeff.Has] at hv hw
      have := hv.symm.trans hw
      simpa using this
    | interval l u =>
      simp only [isScalar, scalarEqual_iff] at h
      subst h
      simp only [Texpr.Val, Coeff.Has] at hv hw
      rcases l with _ | l | _
      · simp at hv
      · have h3 := le_antisymm hv.2 hv.1
        have h4 := le_antisymm hw.2 hw.1
        have := h3.trans h4.symm
        simpa using this
      · simp at hv
  | dim d => simp only [Texpr.Val] at hv hw; rw [hv, hw]
  | neg t r a _ ih =>
    obtain ⟨va, v', h1, h2, h3⟩ := hv
    obtain ⟨wa, w', h4, h5, h6⟩ := hw
    have := ih (by simpa [isScalar] using h) va wa h1 h4
    simp only [if_true] at h3 h6
    simp only [UnOp.Val] at h2 h5
    rw [h3, h6, h2, h5, this]
  | un op r a _ ih =>
    obtain ⟨va, v', h1, h2, h3⟩ := hv
    obtain ⟨wa, w', h4, h5, h6⟩ := hw
    have := ih (by simpa [isScalar] using h) va wa h1 h4
    subst this
    have h3 : v = v' := by split_ifs at h3; exact h3; exact h3
    have h6 : w = w' := by split_ifs at h6; exact h6; exact h6
    subst h3 h6
    cases op with
    | neg => simp only [UnOp.Val] at h2 h5; rw [h2, h5]
    | cast => simp only [UnOp.Val] at h2 h5; rw [h2, h5]
    | sqrt =>
      obtain ⟨ha, hb⟩ := h2
      obtain ⟨hc, hd⟩ := h5
      exact (mul_self_inj ha hc).1 (hb.trans hd.symm)
  | mod t r a b _ _ iha ihb =>
    obtain ⟨va, vb, v', h1, h1', h2, h3⟩ := hv
    obtain ⟨wa, wb, w', h4, h4', h5, h6⟩ := hw
    simp only [isScalar, Bool.and_eq_true] at h
    obtain rfl := iha h.1 va wa h1 h4
    obtain rfl := ihb h.2 vb wb h1' h4'
    simp only [if_true] at h3 h6
    simp only [BinOp.Val] at h2 h5
    rw [h3, h6, h2.2.2, h5.2.2]
  | bin op r a b hop _ _ iha ihb =>
    obtain ⟨va, vb, v', h1, h1', h2, h3⟩ := hv
    obtain ⟨wa, wb, w', h4, h4', h5, h6⟩ := hw
    simp only [isScalar, Bool.and_eq_true] at h
    obtain rfl := iha h.1 va wa h1 h4
    obtain rfl := ihb h.2 vb wb h1' h4'
    have h3 : v = v' := by split_ifs at h3; exact h3; exact h3
    have h6 : w = w' := by split_ifs at h6; exact h6; exact h6
    subst h3 h6
    cases op with
    | pow => exact absurd rfl hop
    | add => simp only [BinOp.Val] at h2 h5; rw [h2, h5]
    | sub => simp only [BinOp.Val] at h2 h5; rw [h2, h5]
    | mul => simp only [BinOp.Val] at h2 h5; rw [h2, h5]
    | div => simp only [BinOp.Val] at h2 h5; rw [h2.2, h5.2]
    | mod => simp only [BinOp.Val] at h2 h5; rw [h2.2.2, h5.2.2]
  | pow r a k _ ih =>
    obtain ⟨va, vb, v', h1, h1', h2, h3⟩ := hv
    obtain ⟨wa, wb, w', h4, h4', h5, h6⟩ := hw
    simp only [isScalar, Bool.and_true] at h
    have := ih h va wa h1 h4
    subst this
    simp only [reduceCtorEq, if_false, Rounds] at h3 h6
    subst h3 h6
    simp only [Texpr.Val, Coeff.Has] at h1' h4'
    have e1 : vb = k := by simpa using h1'.symm
    have e2 : wb = k := by simpa using h4'.symm
    rw [h2 k e1, h5 k e2]

/-- C78: a tree accepted by `ap_texpr0_is_interval_linear` takes at each point the values of a set of affine
functions, the same set at all points -/
theorem C78_is_interval_linear (e : Texpr K) (h : e.isIntervalLinear = true) :
    ∃ C : Set (K × (ℕ →₀ K)), ∀ x v, e.Val S x v ↔ ∃ f ∈ C, v = f.1 + f.2.sum fun d q => q * x d := by
  have cstC : ∀ a : Texpr K, a.isIntervalCst = true → ∀ x v, a.Val S x v ↔ a.Val S 0 v := fun a ha x v =>
    (C78_is_interval_cst S a).2 ha x 0 v
  have hsmul : ∀ (c : K) (g : ℕ →₀ K) (x : ℕ → K),
      ((c • g).sum fun d q => q * x d) = c * g.sum fun d q => q * x d := by
    intro c g x
    rw [Finsupp.sum_smul_index' (by simp), Finsupp.mul_sum]
    simp only [smul_eq_mul, mul_assoc]
  have hadd : ∀ (f g : ℕ →₀ K) (x : ℕ → K),
      ((f + g).sum fun d q => q * x d) = (f.sum fun d q => q * x d) + g.sum fun d q => q * x d := by
    intro f g x
    exact Finsupp.sum_add_index' (by simp) (by intros; ring)
  have addC : ∀ (s : K) (a b : Texpr K),
      (∃ C : Set (K × (ℕ →₀ K)), ∀ x v, a.Val S x v ↔ ∃ f ∈ C, v = f.1 + f.2.sum fun d q => q * x d) →
      (∃ C : Set (K × (ℕ →₀ K)), ∀ x v, b.Val S x v ↔ ∃ f ∈ C, v = f.1 + f.2.sum fun d q => q * x d) →
      ∃ C : Set (K × (ℕ →₀ K)), ∀ x v, (∃ va vb, a.Val S x va ∧ b.Val S x vb ∧ v = va + s * vb) ↔
        ∃ f ∈ C, v = f.1 + f.2.sum fun d q => q * x d := by
    rintro s a b ⟨C, hC⟩ ⟨D, hD⟩
    refine ⟨{f | ∃ g ∈ C, ∃ g' ∈ D, f = g + s • g'}, fun x v => ?_⟩
    constructor
    · rintro ⟨va, vb, h1, h2, rfl⟩
      obtain ⟨g, hg, rfl⟩ := (hC _ _).1 h1
      obtain ⟨g', hg', rfl⟩ := (hD _ _).1 h2
      refine ⟨_, ⟨g, hg, g', hg', rfl⟩, ?_⟩
      simp only [Prod.fst_add, Prod.snd_add, Prod.smul_fst, Prod.smul_snd, hadd, hsmul, smul_eq_mul]
      ring
    · rintro ⟨_, ⟨g, hg, g', hg', rfl⟩, rfl⟩
      refine ⟨_, _, (hC _ _).2 ⟨g, hg, rfl⟩, (hD _ _).2 ⟨g', hg', rfl⟩, ?_⟩
      simp only [Prod.fst_add, Prod.snd_add, Prod.smul_fst, Prod.smul_snd, hadd, hsmul, smul_eq_mul]
      ring
  have mulC : ∀ (P : K → Prop) (a : Texpr K),
      (∃ C : Set (K × (ℕ →₀ K)), ∀ x v, a.Val S x v ↔ ∃ f ∈ C, v = f.1 + f.2.sum fun d q => q * x d) →
      ∃ C : Set (K × (ℕ →₀ K)), ∀ x v, (∃ va c, a.Val S x va ∧ P c ∧ v = c * va) ↔
        ∃ f ∈ C, v = f.1 + f.2.sum fun d q => q * x d := by
    rintro P a ⟨C, hC⟩
    refine ⟨{f | ∃ g ∈ C, ∃ c, P c ∧ f = c • g}, fun x v => ?_⟩
    constructor
    · rintro ⟨va, c, h1, h2, rfl⟩
      obtain ⟨g, hg, rfl⟩ := (hC _ _).1 h1
      refine ⟨_, ⟨g, hg, c, h2, rfl⟩, ?_⟩
      simp only [Prod.smul_fst, Prod.smul_snd, hsmul, smul_eq_mul]
      ring
    · rintro ⟨_, ⟨g, hg, c, h2, rfl⟩, rfl⟩
      refine ⟨_, c, (hC _ _).2 ⟨g, hg, rfl⟩, h2, ?_⟩
      simp only [Prod.smul_fst, Prod.smul_snd, hsmul, smul_eq_mul]
      ring
  induction e with
  | cst c =>
    refine ⟨{f | f.2 = 0 ∧ c.Has f.1}, fun x v => ?_⟩
    constructor
    · intro hv; exact ⟨(v, 0), ⟨rfl, hv⟩, by simp⟩
    · rintro ⟨⟨q, g⟩, ⟨hg, hq⟩, rfl⟩
      simp only at hg hq
      subst hg
      simpa [Texpr.Val] using hq
  | dim d =>
    refine ⟨{(0, Finsupp.single d 1)}, fun x v => ?_⟩
    simp [Texpr.Val]
  | un op t r a ih =>
    cases op with
    | neg =>
      obtain ⟨C, hC⟩ := mulC (· = -1) a (ih (by simpa [isIntervalLinear] using h))
      refine ⟨C, fun x v => (Iff.trans ?_ (hC x v))⟩
      simp only [Texpr.Val, if_true, UnOp.Val]
      constructor
      · rintro ⟨va, w, h1, rfl, rfl⟩; exact ⟨va, -1, h1, rfl, by ring⟩
      · rintro ⟨va, c, h1, rfl, rfl⟩; exact ⟨va, -va, h1, rfl, by ring⟩
    | cast =>
      simp only [isIntervalLinear, exactUn, Bool.and_eq_true, Bool.or_eq_true, decide_eq_true_eq, reduceCtorEq,
        false_or] at h
      obtain ⟨rfl, h⟩ := h
      obtain ⟨C, hC⟩ := ih h
      refine ⟨C, fun x v => (Iff.trans ?_ (hC x v))⟩
      simp only [Texpr.Val, reduceCtorEq, if_false, UnOp.Val, Rounds]
      constructor
      · rintro ⟨va, w, h1, rfl, rfl⟩; exact h1
      · intro h1; exact ⟨v, v, h1, rfl, rfl⟩
    | sqrt => simp [isIntervalLinear] at h
  | bin op t r a b iha ihb =>
    cases op with
    | add =>
      simp only [isIntervalLinear, exactBin, Bool.and_eq_true, Bool.or_eq_true, decide_eq_true_eq, reduceCtorEq,
        false_or] at h
      obtain ⟨⟨rfl, h1⟩, h2⟩ := h
      obtain ⟨C, hC⟩ := addC 1 a b (iha h1) (ihb h2)
      refine ⟨C, fun x v => (Iff.trans ?_ (hC x v))⟩
      simp only [Texpr.Val, reduceCtorEq, if_false, BinOp.Val, Rounds]
      constructor
      · rintro ⟨va, vb, w, h1, h2, rfl, rfl⟩; exact ⟨va, vb, h1, h2, by ring⟩
      · rintro ⟨va, vb, h1, h2, rfl⟩; exact ⟨va, vb, _, h1, h2, rfl, by ring⟩
    | sub =>
      simp only [isIntervalLinear, exactBin, Bool.and_eq_true, Bool.or_eq_true, decide_eq_true_eq, reduceCtorEq,
        false_or] at h
      obtain ⟨⟨rfl, h1⟩, h2⟩ := h
      obtain ⟨C, hC⟩ := addC (-1) a b (iha h1) (ihb h2)
      refine ⟨C, fun x v => (Iff.trans ?_ (hC x v))⟩
      simp only [Texpr.Val, reduceCtorEq, if_false, BinOp.Val, Rounds]
      constructor
      · rintro ⟨va, vb, w, h1, h2, rfl, rfl⟩; exact ⟨va, vb, h1, h2, by ring⟩
      · rintro ⟨va, vb, h1, h2, rfl⟩; exact ⟨va, vb, _, h1, h2, rfl, by ring⟩
    | mul =>
      simp only [isIntervalLinear, exactBin, Bool.and_eq_true, Bool.or_eq_true, decide_eq_true_eq, reduceCtorEq,
        false_or] at h
      obtain ⟨rfl, ⟨h1, h2⟩ | ⟨h1, h2⟩⟩ := h
      · obtain ⟨C, hC⟩ := mulC (fun c => b.Val S 0 c) a (iha h1)
        refine ⟨C, fun x v => (Iff.trans ?_ (hC x v))⟩
        simp only [Texpr.Val, reduceCtorEq, if_false, BinOp.Val, Rounds]
        constructor
        · rintro ⟨va, vb, w, h1, h3, rfl, rfl⟩; exact ⟨va, vb, h1, (cstC b h2 _ _).1 h3, by ring⟩
        · rintro ⟨va, vb, h1, h3, rfl⟩; exact ⟨va, vb, _, h1, (cstC b h2 _ _).2 h3, rfl, by ring⟩
      · obtain ⟨C, hC⟩ := mulC (fun c => a.Val S 0 c) b (ihb h1)
        refine ⟨C, fun x v => (Iff.trans ?_ (hC x v))⟩
        simp only [Texpr.Val, reduceCtorEq, if_false, BinOp.Val, Rounds]
        constructor
        · rintro ⟨va, vb, w, h1, h3, rfl, rfl⟩; exact ⟨vb, va, h3, (cstC a h2 _ _).1 h1, by ring⟩
        · rintro ⟨vb, va, h1, h3, rfl⟩; exact ⟨va, vb, _, (cstC a h2 _ _).2 h3, h1, rfl, by ring⟩
    | div =>
      simp only [isIntervalLinear, exactBin, Bool.and_eq_true, Bool.or_eq_true, decide_eq_true_eq, reduceCtorEq,
        false_or] at h
      obtain ⟨⟨rfl, h1⟩, h2⟩ := h
      obtain ⟨C, hC⟩ := mulC (fun c => ∃ b', b.Val S 0 b' ∧ b' ≠ 0 ∧ c = b'⁻¹) a (iha h1)
      refine ⟨C, fun x v => (Iff.trans ?_ (hC x v))⟩
      simp only [Texpr.Val, reduceCtorEq, if_false, BinOp.Val, Rounds]
      constructor
      · rintro ⟨va, vb, w, h1, h3, ⟨h4, rfl⟩, rfl⟩
        exact ⟨va, _, h1, ⟨vb, (cstC b h2 _ _).1 h3, h4, rfl⟩, by field_simp⟩
      · rintro ⟨va, _, h1, ⟨vb, h3, h4, rfl⟩, rfl⟩
        exact ⟨va, vb, _, h1, (cstC b h2 _ _).2 h3, ⟨h4, rfl⟩, by field_simp⟩
    | mod => simp [isIntervalLinear] at h
    | pow => simp [isIntervalLinear] at h

theorem exactBin_iff {op : BinOp} {t : RType} (h : op ≠ .mod) : exactBin op t = true ↔ t = .real := by
  simp [exactBin, h]

/-- C78: a tree accepted by `ap_texpr0_is_interval_polynomial` takes at each point the values of a set of
polynomials, the same set at all points (an exponent that is not a natural number is accepted; its power may
have any value) -/
theorem C78_is_interval_polynomial (e : Texpr K) (h : e.isIntervalPolynomial = true) :
    ∃ C : Set (MvPolynomial ℕ K), ∀ x v, e.Val S x v ↔ ∃ f ∈ C, v = MvPolynomial.eval x f := by
  have cstC : ∀ a : Texpr K, a.isIntervalCst = true → ∀ x v, a.Val S x v ↔ a.Val S 0 v := fun a ha x v =>
    (C78_is_interval_cst S a).2 ha x 0 v
  induction e with
  | cst c =>
    refine ⟨{f | ∃ q, c.Has q ∧ f = MvPolynomial.C q}, fun x v => ?_⟩
    constructor
    · intro hv; exact ⟨_, ⟨v, hv, rfl⟩, by simp⟩
    · rintro ⟨_, ⟨q, hq, rfl⟩, rfl⟩; simpa [Texpr.Val] using hq
  | dim d => exact ⟨{MvPolynomial.X d}, fun x v => by simp [Texpr.Val]⟩
  | un op t r a ih =>
    cases op with
    | sqrt => simp [isIntervalPolynomial] at h
    | neg =>
      obtain ⟨C, hC⟩ := ih (by simpa [isIntervalPolynomial] using h)
      refine ⟨{f | ∃ g ∈ C, f = -g}, fun x v => ?_⟩
      simp only [Texpr.Val, if_true, UnOp.Val, hC]
      constructor
      · rintro ⟨va, w, ⟨f, hf, rfl⟩, rfl, rfl⟩; exact ⟨_, ⟨f, hf, rfl⟩, by simp⟩
      · rintro ⟨_, ⟨f, hf, rfl⟩, rfl⟩; exact ⟨_, _, ⟨f, hf, rfl⟩, rfl, by simp⟩
    | cast =>
      simp only [isIntervalPolynomial, exactUn, Bool.and_eq_true, Bool.or_eq_true, decide_eq_true_eq, reduceCtorEq,
        false_or] at h
      obtain ⟨rfl, h⟩ := h
      obtain ⟨C, hC⟩ := ih h
      refine ⟨C, fun x v => (Iff.trans ?_ (hC x v))⟩
      simp only [Texpr.Val, reduceCtorEq, if_false, UnOp.Val, Rounds]
      constructor
      · rintro ⟨va, w, h1, rfl, rfl⟩; exact h1
      · intro h1; exact ⟨v, v, h1, rfl, rfl⟩
  | bin op t r a b iha ihb =>
    cases op with
    | mod => simp [isIntervalPolynomial] at h
    | add =>
      simp only [isIntervalPolynomial, Bool.and_eq_true, exactBin_iff (op := .add) (by simp)] at h
      obtain ⟨⟨rfl, h1⟩, h2⟩ := h
      obtain ⟨C, hC⟩ := iha h1
      obtain ⟨D, hD⟩ := ihb h2
      refine ⟨{f | ∃ g ∈ C, ∃ g' ∈ D, f = g + g'}, fun x v => ?_⟩
      simp only [Texpr.Val, reduceCtorEq, if_false, BinOp.Val, Rounds, hC, hD]
      constructor
      · rintro ⟨_, _, _, ⟨f, hf, rfl⟩, ⟨g, hg, rfl⟩, rfl, rfl⟩; exact ⟨_, ⟨f, hf, g, hg, rfl⟩, by simp⟩
      · rintro ⟨_, ⟨f, hf, g, hg, rfl⟩, rfl⟩; exact ⟨_, _, _, ⟨f, hf, rfl⟩, ⟨g, hg, rfl⟩, rfl, by simp⟩
    | sub =>
      simp only [isIntervalPolynomial, Bool.and_eq_true, exactBin_iff (op := .sub) (by simp)] at h
      obtain ⟨⟨rfl, h1⟩, h2⟩ := h
      obtain ⟨C, hC⟩ := iha h1
      obtain ⟨D, hD⟩ := ihb h2
      refine ⟨{f | ∃ g ∈ C, ∃ g' ∈ D, f = g - g'}, fun x v => ?_⟩
      simp only [Texpr.Val, reduceCtorEq, if_false, BinOp.Val, Rounds, hC, hD]
      constructor
      · rintro ⟨_, _, _, ⟨f, hf, rfl⟩, ⟨g, hg, rfl⟩, rfl, rfl⟩; exact ⟨_, ⟨f, hf, g, hg, rfl⟩, by simp⟩
      · rintro ⟨_, ⟨f, hf, g, hg, rfl⟩, rfl⟩; exact ⟨_, _, _, ⟨f, hf, rfl⟩, ⟨g, hg, rfl⟩, rfl, by simp⟩
    | mul =>
      simp only [isIntervalPolynomial, Bool.and_eq_true, exactBin_iff (op := .mul) (by simp)] at h
      obtain ⟨⟨rfl, h1⟩, h2⟩ := h
      obtain ⟨C, hC⟩ := iha h1
      obtain ⟨D, hD⟩ := ihb h2
      refine ⟨{f | ∃ g ∈ C, ∃ g' ∈ D, f = g * g'}, fun x v => ?_⟩
      simp only [Texpr.Val, reduceCtorEq, if_false, BinOp.Val, Rounds, hC, hD]
      constructor
      · rintro ⟨_, _, _, ⟨f, hf, rfl⟩, ⟨g, hg, rfl⟩, rfl, rfl⟩; exact ⟨_, ⟨f, hf, g, hg, rfl⟩, by simp⟩
      · rintro ⟨_, ⟨f, hf, g, hg, rfl⟩, rfl⟩; exact ⟨_, _, _, ⟨f, hf, rfl⟩, ⟨g, hg, rfl⟩, rfl, by simp⟩
    | div =>
      simp only [isIntervalPolynomial, Bool.and_eq_true, exactBin_iff (op := .div) (by simp)] at h
      obtain ⟨⟨rfl, h1⟩, h2⟩ := h
      obtain ⟨C, hC⟩ := iha h1
      refine ⟨{f | ∃ g ∈ C, ∃ q, b.Val S 0 q ∧ q ≠ 0 ∧ f = g * MvPolynomial.C q⁻¹}, fun x v => ?_⟩
      simp only [Texpr.Val, reduceCtorEq, if_false, BinOp.Val, Rounds, hC]
      constructor
      · rintro ⟨_, q, _, ⟨f, hf, rfl⟩, hq, ⟨h0, rfl⟩, rfl⟩
        exact ⟨_, ⟨f, hf, q, (cstC b h2 _ _).1 hq, h0, rfl⟩, by simp [div_eq_mul_inv]⟩
      · rintro ⟨_, ⟨f, hf, q, hq, h0, rfl⟩, rfl⟩
        exact ⟨_, q, _, ⟨f, hf, rfl⟩, (cstC b h2 _ _).2 hq, ⟨h0, rfl⟩, by simp [div_eq_mul_inv]⟩
    | pow =>
      simp only [isIntervalPolynomial, Bool.and_eq_true, exactBin_iff (op := .pow) (by simp)] at h
      obtain ⟨⟨rfl, h1⟩, h2⟩ := h
      obtain ⟨C, hC⟩ := iha h1
      refine ⟨{f | ∃ g ∈ C, ∃ q, b.Val S 0 q ∧ ∀ k : ℕ, q = k → f = g ^ k}, fun x v => ?_⟩
      simp only [Texpr.Val, reduceCtorEq, if_false, BinOp.Val, Rounds, hC]
      constructor
      · rintro ⟨_, q, _, ⟨f, hf, rfl⟩, hq, h0, rfl⟩
        by_cases hk : ∃ k : ℕ, q = k
        · obtain ⟨k, rfl⟩ := hk
          refine ⟨f ^ k, ⟨f, hf, _, (cstC b h2 _ _).1 hq, fun k' hk' => ?_⟩, by simp [h0 k rfl]⟩
          rw [Nat.cast_injective hk']
        · exact ⟨MvPolynomial.C v, ⟨f, hf, q, (cstC b h2 _ _).1 hq, fun k hk' => absurd ⟨k, hk'⟩ hk⟩, by simp⟩
      · rintro ⟨f', ⟨f, hf, q, hq, h0⟩, rfl⟩
        exact ⟨_, q, _, ⟨f, hf, rfl⟩, (cstC b h2 _ _).2 hq, fun k hk => by rw [h0 k hk, map_pow], rfl⟩

/-- C78: a tree accepted by `ap_texpr0_is_interval_polyfrac` takes at each point the values of a set of
quotients of polynomials, the same set at all points -/
theorem C78_is_interval_polyfrac (e : Texpr K) (h : e.isIntervalPolyfrac = true) :
    ∃ C : Set (MvPolynomial ℕ K × MvPolynomial ℕ K), ∀ x v, e.Val S x v ↔ ∃ f ∈ C,
      MvPolynomial.eval x f.2 ≠ 0 ∧ v = MvPolynomial.eval x f.1 / MvPolynomial.eval x f.2 := by
  have cstC : ∀ a : Texpr K, a.isIntervalCst = true → ∀ x v, a.Val S x v ↔ a.Val S 0 v := fun a ha x v =>
    (C78_is_interval_cst S a).2 ha x 0 v
  induction e with
  | cst c =>
    refine ⟨{f | ∃ q, c.Has q ∧ f = (MvPolynomial.C q, 1)}, fun x v => ?_⟩
    constructor
    · intro hv; exact ⟨_, ⟨v, hv, rfl⟩, by simp⟩
    · rintro ⟨_, ⟨q, hq, rfl⟩, _, rfl⟩; simpa [Texpr.Val] using hq
  | dim d => exact ⟨{(MvPolynomial.X d, 1)}, fun x v => by simp [Texpr.Val]⟩
  | un op t r a ih =>
    cases op with
    | sqrt => simp [isIntervalPolyfrac] at h
    | neg =>
      obtain ⟨C, hC⟩ := ih (by simpa [isIntervalPolyfrac] using h)
      refine ⟨{f | ∃ g ∈ C, f = (-g.1, g.2)}, fun x v => ?_⟩
      simp only [Texpr.Val, if_true, UnOp.Val, hC]
      constructor
      · rintro ⟨va, w, ⟨f, hf, h0, rfl⟩, rfl, rfl⟩; exact ⟨_, ⟨f, hf, rfl⟩, h0, by simp [neg_div]⟩
      · rintro ⟨_, ⟨f, hf, rfl⟩, h0, rfl⟩; exact ⟨_, _, ⟨f, hf, h0, rfl⟩, rfl, by simp [neg_div]⟩
    | cast =>
      simp only [isIntervalPolyfrac, exactUn, Bool.and_eq_true, Bool.or_eq_true, decide_eq_true_eq, reduceCtorEq,
        false_or] at h
      obtain ⟨rfl, h⟩ := h
      obtain ⟨C, hC⟩ := ih h
      refine ⟨C, fun x v => (Iff.trans ?_ (hC x v))⟩
      simp only [Texpr.Val, reduceCtorEq, if_false, UnOp.Val, Rounds]
      constructor
      · rintro ⟨va, w, h1, rfl, rfl⟩; exact h1
      · intro h1; exact ⟨v, v, h1, rfl, rfl⟩
  | bin op t r a b iha ihb =>
    cases op with
    | mod => simp [isIntervalPolyfrac] at h
    | add =>
      simp only [isIntervalPolyfrac, Bool.and_eq_true, exactBin_iff (op := .add) (by simp)] at h
      obtain ⟨⟨rfl, h1⟩, h2⟩ := h
      obtain ⟨C, hC⟩ := iha h1
      obtain ⟨D, hD⟩ := ihb h2
      refine ⟨{f | ∃ g ∈ C, ∃ g' ∈ D, f = (g.1 * g'.2 + g.2 * g'.1, g.2 * g'.2)}, fun x v => ?_⟩
      simp only [Texpr.Val, reduceCtorEq, if_false, BinOp.Val, Rounds, hC, hD]
      constructor
      · rintro ⟨_, _, _, ⟨f, hf, h0, rfl⟩, ⟨g, hg, h0', rfl⟩, rfl, rfl⟩
        exact ⟨_, ⟨f, hf, g, hg, rfl⟩, by simp [h0, h0'], by simp only [map_add, map_mul]; field_simp⟩
      · rintro ⟨_, ⟨f, hf, g, hg, rfl⟩, h0, rfl⟩
        simp only [map_mul, ne_eq, mul_eq_zero, not_or] at h0
        obtain ⟨h0, h0'⟩ := h0
        exact ⟨_, _, _, ⟨f, hf, h0, rfl⟩, ⟨g, hg, h0', rfl⟩, rfl, by simp only [map_add, map_mul]; field_simp⟩
    | sub =>
      simp only [isIntervalPolyfrac, Bool.and_eq_true, exactBin_iff (op := .sub) (by simp)] at h
      obtain ⟨⟨rfl, h1⟩, h2⟩ := h
      obtain ⟨C, hC⟩ := iha h1
      obtain ⟨D, hD⟩ := ihb h2
      refine ⟨{f | ∃ g ∈ C, ∃ g' ∈ D, f = (g.1 * g'.2 - g.2 * g'.1, g.2 * g'.2)}, fun x v => ?_⟩
      simp only [Texpr.Val, reduceCtorEq, if_false, BinOp.Val, Rounds, hC, hD]
      constructor
      · rintro ⟨_, _, _, ⟨f, hf, h0, rfl⟩, ⟨g, hg, h0', rfl⟩, rfl, rfl⟩
        exact ⟨_, ⟨f, hf, g, hg, rfl⟩, by simp [h0, h0'], by simp only [map_sub, map_mul]; field_simp⟩
      · rintro ⟨_, ⟨f, hf, g, hg, rfl⟩, h0, rfl⟩
        simp only [map_mul, ne_eq, mul_eq_zero, not_or] at h0
        obtain ⟨h0, h0'⟩ := h0
        exact ⟨_, _, _, ⟨f, hf, h0, rfl⟩, ⟨g, hg, h0', rfl⟩, rfl, by simp only [map_sub, map_mul]; field_simp⟩
    | mul =>
      simp only [isIntervalPolyfrac, Bool.and_eq_true, exactBin_iff (op := .mul) (by simp)] at h
      obtain ⟨⟨rfl, h1⟩, h2⟩ := h
      obtain ⟨C, hC⟩ := iha h1
      obtain ⟨D, hD⟩ := ihb h2
      refine ⟨{f | ∃ g ∈ C, ∃ g' ∈ D, f = (g.1 * g'.1, g.2 * g'.2)}, fun x v => ?_⟩
      simp only [Texpr.Val, reduceCtorEq, if_false, BinOp.Val, Rounds, hC, hD]
      constructor
      · rintro ⟨_, _, _, ⟨f, hf, h0, rfl⟩, ⟨g, hg, h0', rfl⟩, rfl, rfl⟩
        exact ⟨_, ⟨f, hf, g, hg, rfl⟩, by simp [h0, h0'], by simp only [map_mul]; field_simp⟩
      · rintro ⟨_, ⟨f, hf, g, hg, rfl⟩, h0, rfl⟩
        simp only [map_mul, ne_eq, mul_eq_zero, not_or] at h0
        obtain ⟨h0, h0'⟩ := h0
        exact ⟨_, _, _, ⟨f, hf, h0, rfl⟩, ⟨g, hg, h0', rfl⟩, rfl, by simp only [map_mul]; field_simp⟩
    | div =>
      simp only [isIntervalPolyfrac, Bool.and_eq_true, exactBin_iff (op := .div) (by simp)] at h
      obtain ⟨⟨rfl, h1⟩, h2⟩ := h
      obtain ⟨C, hC⟩ := iha h1
      obtain ⟨D, hD⟩ := ihb h2
      refine ⟨{f | ∃ g ∈ C, ∃ g' ∈ D, f = (g.1 * g'.2 * g'.2, g.2 * g'.1 * g'.2)}, fun x v => ?_⟩
      simp only [Texpr.Val, reduceCtorEq, if_false, BinOp.Val, Rounds, hC, hD]
      constructor
      · rintro ⟨_, _, _, ⟨f, hf, h0, rfl⟩, ⟨g, hg, h0', rfl⟩, ⟨h3, rfl⟩, rfl⟩
        have h4 : MvPolynomial.eval x g.1 ≠ 0 := fun h => h3 (by rw [h, zero_div])
        exact ⟨_, ⟨f, hf, g, hg, rfl⟩, by simp [h0, h0', h4], by simp only [map_mul]; field_simp⟩
      · rintro ⟨_, ⟨f, hf, g, hg, rfl⟩, h0, rfl⟩
        simp only [map_mul, ne_eq, mul_eq_zero, not_or] at h0
        obtain ⟨⟨h0, h4⟩, h0'⟩ := h0
        exact ⟨_, _, _, ⟨f, hf, h0, rfl⟩, ⟨g, hg, h0', rfl⟩, ⟨div_ne_zero h4 h0', rfl⟩,
          by simp only [map_mul]; field_simp⟩
    | pow =>
      simp only [isIntervalPolyfrac, Bool.and_eq_true, exactBin_iff (op := .pow) (by simp)] at h
      obtain ⟨⟨rfl, h1⟩, h2⟩ := h
      obtain ⟨C, hC⟩ := iha h1
      refine ⟨{f | ∃ g ∈ C, ∃ q, b.Val S 0 q ∧ ((∃ k : ℕ, q = k ∧ f = (g.1 ^ k * g.2, g.2 ^ k * g.2)) ∨
        ((∀ k : ℕ, q ≠ k) ∧ ∃ c, f = (MvPolynomial.C c * g.2, g.2)))}, fun x v => ?_⟩
      simp only [Texpr.Val, reduceCtorEq, if_false, BinOp.Val, Rounds, hC]
      constructor
      · rintro ⟨_, q, _, ⟨f, hf, h3, rfl⟩, hq, h0, rfl⟩
        by_cases hk : ∃ k : ℕ, q = k
        · obtain ⟨k, rfl⟩ := hk
          refine ⟨_, ⟨f, hf, _, (cstC b h2 _ _).1 hq, .inl ⟨k, rfl, rfl⟩⟩, by simp [h3], ?_⟩
          rw [h0 k rfl, div_pow]; simp only [map_mul, map_pow]; field_simp
        · push Not at hk
          refine ⟨_, ⟨f, hf, q, (cstC b h2 _ _).1 hq, .inr ⟨hk, v, rfl⟩⟩, h3, ?_⟩
          simp only [map_mul, MvPolynomial.eval_C]; field_simp
      · rintro ⟨_, ⟨f, hf, q, hq, ⟨k, rfl, rfl⟩ | ⟨h4, c, rfl⟩⟩, h0, rfl⟩
        · have h3 : MvPolynomial.eval x f.2 ≠ 0 := fun h => h0 (by simp [h])
          refine ⟨_, _, _, ⟨f, hf, h3, rfl⟩, (cstC b h2 _ _).2 hq, fun k' hk' => ?_, rfl⟩
          rw [← Nat.cast_injective hk', div_pow]; simp only [map_mul, map_pow]; field_simp
        · exact ⟨_, q, _, ⟨f, hf, h0, rfl⟩, (cstC b h2 _ _).2 hq, fun k hk => absurd hk (h4 k), rfl⟩

theorem arrayIsTemplate_iff (f : Texpr K → Bool) (res : Bool) (l : List (Texpr K)) :
    arrayIsTemplate f res l = true ↔ (l = [] → res = true) ∧ ∀ e ∈ l, f e = true := by
  induction l generalizing res with
  | nil => simp [arrayIsTemplate]
  | cons e l ih =>
    simp only [arrayIsTemplate]
    rcases hf : f e with _ | _
    · simp [hf]
    · simp [hf, ih]

/-- C78: the tests on arrays hold iff they hold on all elements (also on the empty array) -/
theorem C78_array (f : Texpr K → Bool) (l : List (Texpr K)) :
    arrayIsTemplate f true l = true ↔ ∀ e ∈ l, f e = true := by
  rw [arrayIsTemplate_iff]; simp

/-! ## C79: equality and hashing -/

/-- Specification: no constant of the tree is an empty interval -/
def CstsNonempty : Texpr K → Prop
  | .cst c => c.Nonempty
  | .dim _ => True
  | .un _ _ _ a => CstsNonempty a
  | .bin _ _ _ a b => CstsNonempty a ∧ CstsNonempty b

theorem coeff_equal_iff {c c' : Coeff K} (h : c.Nonempty) : c.equal c' = true ↔ c = c' := by
  cases c with
  | scalar a => cases c' <;> simp [Coeff.equal, scalarEqual_iff]
  | interval l u =>
    cases c' with
    | scalar a => simp [Coeff.equal]
    | interval l' u' =>
      have h0 : l ≤ u := h
      have : intervalIsBottom l u = false := by
        rw [← Bool.not_eq_true, intervalIsBottom_iff]; exact not_lt.2 h0
      simp [Coeff.equal, intervalEqual, scalarEqual_iff, this]

theorem coeff_equal_has {c c' : Coeff K} (h : c.equal c' = true) (v : K) : c.Has v ↔ c'.Has v := by
  cases c with
  | scalar a =>
    cases c' with
    | scalar b => rw [Coeff.equal, scalarEqual_iff] at h; rw [h]
    | interval l u => simp [Coeff.equal] at h
  | interval l u =>
    cases c' with
    | scalar b => simp [Coeff.equal] at h
    | interval l' u' =>
      simp only [Coeff.equal, intervalEqual] at h
      split_ifs at h with h0
      · simp only [Bool.and_eq_true, scalarEqual_iff] at h0
        rw [h0.1, h0.2]
      · simp only [Bool.and_eq_true, intervalIsBottom_iff] at h
        obtain ⟨h1, h2⟩ := h
        constructor
        · intro hv; exact absurd (hv.1.trans hv.2) (not_le.2 h1)
        · intro hv; exact absurd (hv.1.trans hv.2) (not_le.2 h2)

/-- C79: `ap_texpr0_equal` is the equality of trees without empty constants -/
theorem C79_equal (a b : Texpr K) (ha : CstsNonempty a) : a.equal b = true ↔ a = b := by
  induction a generalizing b with
  | cst c => cases b <;> simp [Texpr.equal, coeff_equal_iff (show c.Nonempty from ha)]
  | dim d => cases b <;> simp [Texpr.equal]
  | un op t r a ih => cases b <;> simp [Texpr.equal, ih _ ha, and_assoc]
  | bin op t r a b iha ihb => cases b <;> simp [Texpr.equal, iha _ ha.1, ihb _ ha.2, and_assoc]

/-- C79: equal trees have the same values (whatever their constants) -/
theorem C79_equal_value (a b : Texpr K) (hab : a.equal b = true) (x : ℕ → K) (v : K) :
    a.Val S x v ↔ b.Val S x v := by
  induction a generalizing b v with
  | cst c => cases b <;> simp [Texpr.equal] at hab; exact coeff_equal_has hab v
  | dim d => cases b <;> simp [Texpr.equal] at hab; rw [hab]
  | un op t r a ih =>
    cases b <;> simp [Texpr.equal] at hab
    obtain ⟨⟨⟨rfl, rfl⟩, rfl⟩, h⟩ := hab
    simp only [Texpr.Val, ih _ h]
  | bin op t r a b iha ihb =>
    cases b <;> simp [Texpr.equal] at hab
    obtain ⟨⟨⟨⟨rfl, rfl⟩, rfl⟩, h⟩, h'⟩ := hab
    simp only [Texpr.Val, iha _ h, ihb _ h']

/-- C79: equal trees without empty constants have the same hash -/
theorem C79_equal_hash (h : Coeff K → ℤ) (a b : Texpr K) (ha : CstsNonempty a) (hab : a.equal b = true) :
    a.hash h = b.hash h := by
  rw [(C79_equal a b ha).1 hab]

/-! ## Examples -/

/-- `2 * x0 + [1,3] * x2` -/
def exLin : Texpr ℚ :=
  .bin .add .real .rnd (.bin .mul .real .rnd (.cst (.scalar (fin 2))) (.dim 0))
    (.bin .mul .real .rnd (.cst (.interval (fin 1) (fin 3))) (.dim 2))
/-- `(x1 * x1 + 1) / x0`, squared -/
def exFrac : Texpr ℚ :=
  .bin .pow .real .rnd (.bin .div .real .rnd
    (.bin .add .real .rnd (.bin .mul .real .rnd (.dim 1) (.dim 1)) (.cst (.scalar (fin 1)))) (.dim 0))
    (.cst (.scalar (fin 2)))

example : exLin.isIntervalLinear = true ∧ exLin.isIntervalPolynomial = true ∧ exLin.isScalar = false ∧
    exLin.maxDim = 3 ∧ exLin.dimlist = some [0, 2] ∧ exLin.depth = 2 ∧ exLin.size = 3 := by decide +kernel
example : exFrac.isIntervalPolyfrac = true ∧ exFrac.isIntervalPolynomial = false ∧ exFrac.isScalar = true ∧
    exFrac.isIntervalLinear = false := by decide +kernel
example : Exact exFrac :=
  .pow _ _ 2 (.bin _ _ _ _ (by simp) (.bin _ _ _ _ (by simp) (.bin _ _ _ _ (by simp) (.dim _) (.dim _)) (.cst _))
    (.dim _))
example : addDimensions [1, 2] exLin =
    .bin .add .real .rnd (.bin .mul .real .rnd (.cst (.scalar (fin 2))) (.dim 0))
      (.bin .mul .real .rnd (.cst (.interval (fin 1) (fin 3))) (.dim 4)) := by decide +kernel
example : removeDimensions [0, 1] exLin =
    .bin .add .real .rnd (.bin .mul .real .rnd (.cst (.scalar (fin 2))) (.cst (.interval ninf pinf)))
      (.bin .mul .real .rnd (.cst (.interval (fin 1) (fin 3))) (.dim 0)) := by decide +kernel
example : substitute 2 exFrac exLin =
    .bin .add .real .rnd (.bin .mul .real .rnd (.cst (.scalar (fin 2))) (.dim 0))
      (.bin .mul .real .rnd (.cst (.interval (fin 1) (fin 3))) exFrac) := by decide +kernel
example : permuteDimensions [2, 0, 1] exLin = some
    (.bin .add .real .rnd (.bin .mul .real .rnd (.cst (.scalar (fin 2))) (.dim 2))
      (.bin .mul .real .rnd (.cst (.interval (fin 1) (fin 3))) (.dim 1))) := by decide +kernel
example : permuteDimensions [1, 0] exLin = none := by decide +kernel
example : ofLinexpr (⟨.scalar (fin 5), .sparse [(1, .scalar (fin 2)), (dimMax, .scalar (fin 0))]⟩ : Linexpr ℚ) =
    .bin .add .real .rnd (.cst (.scalar (fin 5))) (.bin .mul .real .rnd (.cst (.scalar (fin 2))) (.dim 1)) := by
  decide +kernel

end Props
end Apron
