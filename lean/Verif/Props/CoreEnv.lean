import Verif.Core.EnvOps

/-!
# Properties of environments (C46, C47, C48)

`Q` is any implementation of `qsort`, `junk` the content of freshly allocated arrays.  Environments
satisfy the documented invariant `Env.Wf` and have at most `AP_DIM_MAX` variables.
-/

set_option autoImplicit false
set_option linter.unusedSectionVars false
set_option linter.ambiguousOpen false

namespace Apron
namespace Props

open Env

variable {V : Type*} [LinearOrder V]

/-- two integer and two real variables -/
def exEnv : Env ℕ := ⟨[2, 5], [1, 7]⟩
theorem exEnv_wf : exEnv.Wf :=
  ⟨by decide, by decide, by decide⟩

/-- a sorting function -/
def exQsort : Qsort ℕ where
  run l := l.insertionSort (fun a b => a.1 ≤ b.1)
  perm l := List.perm_insertionSort _ l
  sorted l := by
    have : Std.Total (fun a b : ℕ × ℕ => a.1 ≤ b.1) := ⟨fun a b => le_total a.1 b.1⟩
    have : IsTrans (ℕ × ℕ) (fun a b => a.1 ≤ b.1) := ⟨fun _ _ _ => le_trans⟩
    exact List.pairwise_insertionSort _ l

/-! ## C48: looking up a variable -/

/-- a known variable is found at its (unique) dimension, an unknown one is reported -/
theorem C48_dim_of_var (e : Env V) (he : e.Wf) (hsz : e.size ≤ dimMax) (v : V) :
    (v ∈ e.ints ++ e.reals → dimOfVar e v < e.size ∧ varOfDim e (dimOfVar e v) = some v ∧
      (dimOfVar e v < e.intdim ↔ v ∈ e.ints) ∧ ∀ d, varOfDim e d = some v → d = dimOfVar e v) ∧
    (v ∉ e.ints ++ e.reals ↔ dimOfVar e v = dimMax) := by
  have huniq : ∀ d, varOfDim e d = some v → d = dimOfVar e v := fun d hd => (dimOfVar_eq he hd).symm
  have hle : e.intdim ≤ e.size := by simp [size]
  rcases dimOfVar_cases he v with ⟨a, b, c⟩ | ⟨a, b, c, d⟩ | ⟨a, b⟩
  · exact ⟨fun _ => ⟨by omega, c, iff_of_true b a, huniq⟩,
      fun h => absurd (List.mem_append_left _ a) h, fun h => by omega⟩
  · exact ⟨fun _ => ⟨c, d, iff_of_false (by omega) (fun h => he.disj v h a), huniq⟩,
      fun h => absurd (List.mem_append_right _ a) h, fun h => by omega⟩
  · exact ⟨fun h => absurd h a, fun _ => b, fun _ => a⟩

example : exEnv.Wf ∧ exEnv.size ≤ dimMax ∧ dimOfVar exEnv 7 = 3 ∧ dimOfVar exEnv 2 = 0 ∧
    dimOfVar exEnv 3 = dimMax := ⟨exEnv_wf, by decide, by decide +kernel, by decide +kernel, by decide +kernel⟩

/-! ## C46: operations -/

theorem envCheck_iff (e : Env V) : envCheck e = false ↔ e.Wf := by
  unfold envCheck
  rcases h1 : check e.ints
  · rcases h2 : check e.reals
    · have s1 := (check_iff _).1 h1
      have s2 := (check_iff _).1 h2
      rcases h3 : isInterEmpty e.ints e.reals
      · simp only [Bool.false_eq_true, if_false, Bool.not_false, if_true, Bool.true_eq_false, false_iff]
        intro h
        rw [← Bool.not_eq_true, isInterEmpty_iff s1 s2] at h3
        exact h3 h.disj
      · simp only [Bool.false_eq_true, if_false, Bool.not_true, true_iff]
        exact ⟨s1, s2, (isInterEmpty_iff s1 s2).1 h3⟩
    · simp only [Bool.false_eq_true, if_false, if_true, Bool.true_eq_false, false_iff]
      intro h
      rw [(check_iff _).2 h.reals] at h2
      simp at h2
  · simp only [if_true, Bool.true_eq_false, false_iff]
    intro h
    rw [(check_iff _).2 h.ints] at h1
    simp at h1

/-- sorted arrays of names form a correct environment iff no name occurs twice -/
theorem wf_iff_nodup {e : Env V} (h1 : e.ints.Pairwise (· ≤ ·)) (h2 : e.reals.Pairwise (· ≤ ·)) :
    e.Wf ↔ (e.ints ++ e.reals).Nodup := by
  constructor
  · exact nodup_vars
  · intro h
    rw [List.nodup_append'] at h
    exact ⟨(sorted_lt_iff_nodup h1).2 h.1, (sorted_lt_iff_nodup h2).2 h.2.1, fun v a b => h.2.2 a b⟩

/-- `ap_environment_check` tells whether the invariant is broken -/
theorem C46_check (e : Env V) :
    envCheck e = false ↔ e.ints.Pairwise (· < ·) ∧ e.reals.Pairwise (· < ·) ∧ ∀ v ∈ e.ints, v ∉ e.reals := by
  rw [envCheck_iff]
  exact ⟨fun h => ⟨h.1, h.2, h.3⟩, fun h => ⟨h.1, h.2.1, h.2.2⟩⟩

theorem normalize_mem (l : List V) (v : V) : v ∈ normalize l ↔ v ∈ l := (normalize_perm l).mem_iff

/-- adding variables succeeds iff all names are distinct, and yields exactly the union, type by type -/
theorem C46_add (e : Env V) (newint newreal : List V) :
    ((add e newint newreal).isSome ↔ ((e.ints ++ newint) ++ (e.reals ++ newreal)).Nodup) ∧
    ∀ e', add e newint newreal = some e' → e'.Wf ∧
      (∀ v, v ∈ e'.ints ↔ v ∈ e.ints ∨ v ∈ newint) ∧ (∀ v, v ∈ e'.reals ↔ v ∈ e.reals ∨ v ∈ newreal) ∧
      e'.intdim = e.intdim + newint.length ∧ e'.realdim = e.realdim + newreal.length := by
  have hw : ∀ b, envCheck (⟨addA e.ints newint, addA e.reals newreal⟩ : Env V) = b →
      (b = false ↔ ((e.ints ++ newint) ++ (e.reals ++ newreal)).Nodup) := by
    rintro b rfl
    rw [envCheck_iff, wf_iff_nodup (normalize_sorted _) (normalize_sorted _)]
    exact ((normalize_perm _).append (normalize_perm _)).nodup_iff
  rw [add]
  rcases hc : envCheck (⟨addA e.ints newint, addA e.reals newreal⟩ : Env V)
  · refine ⟨by simpa using (hw _ hc).1 rfl, fun e' he' => ?_⟩
    simp only [Bool.false_eq_true, if_false, Option.some.injEq] at he'
    subst he'
    refine ⟨(envCheck_iff _).1 hc, fun v => ?_, fun v => ?_, ?_, ?_⟩
    · simp [addA, normalize_mem]
    · simp [addA, normalize_mem]
    · simp [intdim, addA, (normalize_perm _).length_eq]
    · simp [realdim, addA, (normalize_perm _).length_eq]
  · refine ⟨?_, fun e' he' => ?_⟩
    · have := (hw _ hc).not
      simp only [Bool.true_eq_false, not_false_eq_true, true_iff] at this
      simpa using this
    · simp at he'

example : add exEnv [3] [0, 4] = some ⟨[2, 3, 5], [0, 1, 4, 7]⟩ ∧ add exEnv [3] [3] = none := by
  decide +kernel

theorem vars_getElem_left {l m : List V} {k : ℕ} (h : k < l.length) : (l ++ m)[k]? = l[k]? :=
  List.getElem?_append_left h

/-- gluing of the permutations of the two slices -/
theorem glue_perm {a b : List V} {s t : List V} {p q : List ℕ}
    (hs : s.Perm a) (_ht : t.Perm b) (hp : Dim.IsPerm a.length p) (hq : Dim.IsPerm b.length q)
    (h1 : ∀ k, k < a.length → s[p.getD k 0]? = a[k]?) (h2 : ∀ k, k < b.length → t[q.getD k 0]? = b[k]?) :
    Dim.IsPerm (a.length + b.length) (p ++ q.map (· + a.length)) ∧
    (∀ k, k < a.length + b.length →
      (s ++ t)[(p ++ q.map (· + a.length)).getD k 0]? = (a ++ b)[k]?) ∧
    (∀ k, k < a.length + b.length →
      ((p ++ q.map (· + a.length)).getD k 0 < a.length ↔ k < a.length)) := by
  have g1 : ∀ k, k < a.length → (p ++ q.map (· + a.length)).getD k 0 = p.getD k 0 := by
    intro k hk
    rw [List.getD, List.getElem?_append_left (by rw [hp.1]; exact hk), ← List.getD]
  have g2 : ∀ k, k < b.length →
      (p ++ q.map (· + a.length)).getD (a.length + k) 0 = q.getD k 0 + a.length := by
    intro k hk
    rw [List.getD, List.getElem?_append_right (by rw [hp.1]; omega), hp.1, Nat.add_sub_cancel_left,
      List.getElem?_map, List.getD, List.getElem?_eq_getElem (by rw [hq.1]; exact hk)]
    rfl
  have cases' : ∀ k, k < a.length + b.length → k < a.length ∨ ∃ j, j < b.length ∧ k = a.length + j := by
    intro k hk
    by_cases h : k < a.length
    · exact Or.inl h
    · exact Or.inr ⟨k - a.length, by omega, by omega⟩
  refine ⟨Dim.isPerm_of ?_ ?_ ?_, ?_, ?_⟩
  · simp [hp.1, hq.1]
  · intro k hk
    rcases cases' k hk with h | ⟨j, hj, rfl⟩
    · rw [g1 k h]; have := hp.getD_lt h; omega
    · rw [g2 j hj]; have := hq.getD_lt hj; omega
  · intro i j hi hj e
    rcases cases' i hi with h | ⟨i', hi', rfl⟩ <;> rcases cases' j hj with h' | ⟨j', hj', rfl⟩
    · rw [g1 i h, g1 j h'] at e; exact hp.inj h h' e
    · rw [g1 i h, g2 j' hj'] at e; have := hp.getD_lt h; omega
    · rw [g2 i' hi', g1 j h'] at e; have := hp.getD_lt h'; omega
    · rw [g2 i' hi', g2 j' hj'] at e
      rw [hq.inj hi' hj' (by omega)]
  · intro k hk
    rcases cases' k hk with h | ⟨j, hj, rfl⟩
    · rw [g1 k h, List.getElem?_append_left (by rw [hs.length_eq]; exact hp.getD_lt h), h1 k h,
        List.getElem?_append_left h]
    · rw [g2 j hj, List.getElem?_append_right (by rw [hs.length_eq]; omega), hs.length_eq,
        Nat.add_sub_cancel, h2 j hj, List.getElem?_append_right (by omega), Nat.add_sub_cancel_left]
  · intro k hk
    rcases cases' k hk with h | ⟨j, hj, rfl⟩
    · rw [g1 k h]; exact iff_of_true (hp.getD_lt h) h
    · rw [g2 j hj]; exact iff_of_false (by omega) (by omega)

/-- adding variables with a permutation: the environment is that of `ap_environment_add`, and the
permutation moves the dimension of each variable, the new ones being at the end of their slice, to its
dimension in the result -/
theorem C46_add_perm (Q : Qsort V) (junk : ℕ) (e : Env V) (newint newreal : List V) :
    (∀ e', add e newint newreal = some e' → ∃ perm, addPerm Q junk e newint newreal = .ok (e', perm) ∧
      Dim.IsPerm e'.size perm ∧
      (∀ k, k < e'.size → varOfDim e' (perm.getD k 0) =
        ((e.ints ++ newint) ++ (e.reals ++ newreal))[k]?) ∧
      (∀ k, k < e'.size → (perm.getD k 0 < e'.intdim ↔ k < e'.intdim))) ∧
    (add e newint newreal = none → addPerm Q junk e newint newreal = .null) := by
  obtain ⟨s, p, n1, s1, s2, s3, s4⟩ := normalizePerm_spec Q
    (List.replicate (e.intdim + newint.length) junk) (e.ints ++ newint) (by simp [intdim])
  obtain ⟨t, q, n2, t1, t2, t3, t4⟩ := normalizePerm_spec Q
    (List.replicate (e.realdim + newreal.length) junk) (e.reals ++ newreal) (by simp [realdim])
  have es : s = addA e.ints newint :=
    List.Perm.eq_of_pairwise' s2 (normalize_sorted _) (s1.trans (normalize_perm _).symm)
  have et : t = addA e.reals newreal :=
    List.Perm.eq_of_pairwise' t2 (normalize_sorted _) (t1.trans (normalize_perm _).symm)
  obtain ⟨g1, g2, g3⟩ := glue_perm s1 t1 s3 t3 s4 t4
  have hn : (e.ints ++ newint).length = e.intdim + newint.length := by simp [intdim]
  have hm : (e.reals ++ newreal).length = e.realdim + newreal.length := by simp [realdim]
  rw [hn] at g1 g2 g3
  rw [hm] at g1 g2 g3
  rw [addPerm, add]
  simp only [n1, n2, Out.ofOption, Out.bind, es, et]
  rcases hc : envCheck (⟨addA e.ints newint, addA e.reals newreal⟩ : Env V)
  · refine ⟨fun e' he' => ?_, by simp⟩
    simp only [Bool.false_eq_true, if_false, Option.some.injEq] at he' ⊢
    subst he'
    have l1 : (addA e.ints newint).length = e.intdim + newint.length := by
      rw [addA, (normalize_perm _).length_eq, hn]
    have l2 : (addA e.reals newreal).length = e.realdim + newreal.length := by
      rw [addA, (normalize_perm _).length_eq, hm]
    refine ⟨_, rfl, ?_, ?_, ?_⟩
    · simpa only [size, intdim, realdim, l1, l2] using g1
    · intro k hk
      simp only [size, intdim, realdim, l1, l2] at hk
      have := g2 k hk
      rw [es, et] at this
      exact this
    · intro k hk
      simp only [size, intdim, realdim, l1, l2] at hk ⊢
      exact g3 k hk
  · simp

example : addPerm exQsort 9 exEnv [3] [0, 4] = .ok (⟨[2, 3, 5], [0, 1, 4, 7]⟩, [0, 2, 1, 4, 6, 3, 5]) := by
  decide +kernel

/-- removing variables succeeds iff they are known and distinct, and yields exactly the others -/
theorem C46_remove_partial (e : Env V) (he : e.Wf) (hsz : e.size ≤ dimMax) (tvar : List V) :
    (∀ e', remove e tvar = .ok e' ↔ (∀ v ∈ tvar, v ∈ e.ints ++ e.reals) ∧ tvar.Nodup ∧
      e' = ⟨e.ints.filter fun v => decide (v ∉ tvar), e.reals.filter fun v => decide (v ∉ tvar)⟩) ∧
    ((∃ v ∈ tvar, v ∉ e.ints ++ e.reals) → remove e tvar = .null) := by
  rw [remove]
  split_ifs with h0
  · have : tvar = [] := List.length_eq_zero_iff.1 h0
    subst this
    refine ⟨fun e' => ?_, by simp⟩
    simp only [Out.ok.injEq]
    constructor
    · rintro rfl; simp
    · rintro ⟨-, -, rfl⟩; simp
  · rcases splitLoop_spec he hsz tvar 0 tvar.length le_rfl (by simp)
      (by intro k hk v hv; rw [List.getElem?_eq_none hk] at hv; simp at hv) with
      ⟨g1, v, g2, g3⟩ | ⟨t', n, g1, g2, g3, g4, g5⟩
    · rw [g1]
      refine ⟨fun e' => ?_, fun _ => rfl⟩
      simp only [Out.bind, reduceCtorEq, false_iff]
      exact fun h => g3 (h.1 v g2)
    · rw [g1]
      simp only [Out.bind]
      have hall : ∀ v ∈ tvar, v ∈ e.ints ++ e.reals := by
        intro v hv
        have hv' := g2.mem_iff.2 hv
        rw [← List.take_append_drop n t'] at hv'
        rcases List.mem_append.1 hv' with h | h
        · exact List.mem_append_left _ (g4 v h)
        · exact List.mem_append_right _ (g5 v h)
      refine ⟨fun e' => ?_, fun ⟨v, hv, hv'⟩ => absurd (hall v hv) hv'⟩
      have hm : ∀ v, v ∈ tvar ↔ v ∈ t'.take n ∨ v ∈ t'.drop n := by
        intro v
        rw [← g2.mem_iff, ← List.mem_append, List.take_append_drop]
      have hnd : tvar.Nodup ↔ (t'.take n).Nodup ∧ (t'.drop n).Nodup := by
        rw [← g2.nodup_iff]
        conv_lhs => rw [← List.take_append_drop n t']
        rw [List.nodup_append']
        refine ⟨fun h => ⟨h.1, h.2.1⟩, fun h => ⟨h.1, h.2, fun v a b => ?_⟩⟩
        exact he.disj v (g4 v a) (g5 v b)
      have f1 : (e.ints.filter fun v => decide (v ∉ tvar)) =
          e.ints.filter fun v => decide (v ∉ t'.take n) := by
        refine List.filter_congr fun v hv => ?_
        have : v ∉ t'.drop n := fun h => he.disj v hv (g5 v h)
        simp [hm, this]
      have f2 : (e.reals.filter fun v => decide (v ∉ tvar)) =
          e.reals.filter fun v => decide (v ∉ t'.drop n) := by
        refine List.filter_congr fun v hv => ?_
        have : v ∉ t'.take n := fun h => he.disj v (g4 v h) hv
        simp [hm, this]
      constructor
      · intro h
        have key : ∃ li lr, removeA e.ints (t'.take n) = .ok li ∧ removeA e.reals (t'.drop n) = .ok lr := by
          revert h
          rcases removeA e.ints (t'.take n) with li | _ | _ | _ <;>
            rcases removeA e.reals (t'.drop n) with lr | _ | _ | _ <;> intro h <;>
            first | exact ⟨li, lr, rfl, rfl⟩ | (exfalso; revert h; simp)
        obtain ⟨li, lr, r1, r2⟩ := key
        obtain ⟨a1, a2⟩ := removeA_inv he.ints r1
        obtain ⟨b1, b2⟩ := removeA_inv he.reals r2
        rw [removeA_ok he.ints a1 a2, removeA_ok he.reals b1 b2] at h
        simp only [Out.ok.injEq] at h
        exact ⟨hall, hnd.2 ⟨a1, b1⟩, by rw [← h, f1, f2]⟩
      · rintro ⟨-, h2, rfl⟩
        rw [removeA_ok he.ints (hnd.1 h2).1 g4, removeA_ok he.reals (hnd.1 h2).2 g5, f1, f2]

example : remove exEnv [7, 2] = .ok ⟨[5], [1]⟩ := by decide +kernel

/-- DEFECT: a variable given twice makes the assertion of `env_remove` fail -/
theorem C46_remove_duplicate_aborts :
    ∃ (e : Env ℕ) (tvar : List ℕ), e.Wf ∧ (∀ v ∈ tvar, v ∈ e.vars) ∧ remove e tvar = .abort :=
  ⟨⟨[], [1, 2, 3]⟩, [1, 1], ⟨by decide, by decide, by decide⟩, by decide, by decide +kernel⟩

/-- the change from `e1` to `e` described by an insertion array: legal, of the right sizes, and such that
each variable of `e1` moves to its dimension in `e` -/
def Moves (e1 e : Env V) (d : Dimchange) : Prop :=
  d.dim.length = d.intdim + d.realdim ∧
  e1.intdim + d.intdim = e.intdim ∧ e1.realdim + d.realdim = e.realdim ∧
  Dim.LegalAdd e1.intdim e1.realdim d.dim d.intdim ∧
  ∀ k, k < e1.size → varOfDim e (k + d.dim.countP (fun p => decide (p ≤ k))) = varOfDim e1 k

theorem mkDimchange_moves (junk : ℕ) (strict : Bool) {e1 e : Env V} (h1 : e1.Wf) (h : e.Wf)
    (hsub : Sub e1 e) : ∃ d, mkDimchange junk strict e1 e = .ok d ∧ Moves e1 e d := by
  obtain ⟨d, a, b, c, d1, d2, d3, d4, d5⟩ := mkDimchange_spec junk strict h1 h hsub
  exact ⟨d, a, d1, d2, d3, d4, d5⟩

/-- the optional change of `ap_environment_lce` -/
theorem lceChange_spec (junk : ℕ) {e e1 : Env V} (h1 : e1.Wf) (h : e.Wf) (hsub : Sub e1 e) :
    (e = e1 ∧ lceChange junk e e1 = .ok none) ∨
    (e ≠ e1 ∧ ∃ d, lceChange junk e e1 = .ok (some d) ∧ Moves e1 e d) := by
  rw [lceChange]
  by_cases hs : sameSize e e1 = true
  · rw [if_pos hs]
    exact Or.inl ⟨(sameSize_iff h h1 hsub).1 hs, rfl⟩
  · rw [if_neg hs]
    obtain ⟨d, a, b⟩ := mkDimchange_moves junk false h1 h hsub
    refine Or.inr ⟨fun he => hs ((sameSize_iff h h1 hsub).2 he), d, by rw [a]; rfl, b⟩

/-- some variable has different types in the two environments -/
def Incompatible (e1 e2 : Env V) : Prop :=
  ∃ v, (v ∈ e1.ints ∧ v ∈ e2.reals) ∨ (v ∈ e2.ints ∧ v ∈ e1.reals)

theorem checkCompat_iff {e1 e2 : Env V} (h1 : e1.Wf) (h2 : e2.Wf) :
    checkCompat e1 e2 = true ↔ Incompatible e1 e2 := by
  rw [checkCompat, Bool.not_eq_true', Bool.and_eq_false_iff, ← Bool.not_eq_true, ← Bool.not_eq_true,
    isInterEmpty_iff h1.ints h2.reals, isInterEmpty_iff h2.ints h1.reals]
  unfold Incompatible
  push Not
  constructor
  · rintro (⟨v, a, b⟩ | ⟨v, a, b⟩)
    · exact ⟨v, Or.inl ⟨a, b⟩⟩
    · exact ⟨v, Or.inr ⟨a, b⟩⟩
  · rintro ⟨v, ⟨a, b⟩ | ⟨a, b⟩⟩
    · exact Or.inl ⟨v, a, b⟩
    · exact Or.inr ⟨v, a, b⟩

/-- the least common environment is refused iff a variable has two types; otherwise it contains exactly
the variables of both, and each dimension change is absent iff the environment is already the common one,
and otherwise moves each variable to its dimension there -/
theorem C46_lce (junk : ℕ) (e1 e2 : Env V) (h1 : e1.Wf) (h2 : e2.Wf) :
    (Incompatible e1 e2 → lce junk e1 e2 = .null) ∧
    (¬Incompatible e1 e2 → ∃ e d1 d2, lce junk e1 e2 = .ok (e, d1, d2) ∧ e.Wf ∧
      (∀ v, v ∈ e.ints ↔ v ∈ e1.ints ∨ v ∈ e2.ints) ∧ (∀ v, v ∈ e.reals ↔ v ∈ e1.reals ∨ v ∈ e2.reals) ∧
      (d1 = none ↔ e = e1) ∧ (d2 = none ↔ e = e2) ∧
      (∀ d, d1 = some d → Moves e1 e d) ∧ (∀ d, d2 = some d → Moves e2 e d)) := by
  refine ⟨fun h => by rw [lce, if_pos ((checkCompat_iff h1 h2).2 h)], fun h => ?_⟩
  have hc : checkCompat e1 e2 = false := by
    rw [← Bool.not_eq_true, checkCompat_iff h1 h2]; exact h
  have he := lceD_wf h1 h2 hc
  have s1 := lceD_sub_left e1 e2
  have s2 := lceD_sub_right e1 e2
  have hres : (if sameSize (lceD e1 e2) e1 = true then e1
      else if sameSize (lceD e1 e2) e2 = true then e2 else lceD e1 e2) = lceD e1 e2 := by
    split_ifs with c1 c2
    · exact ((sameSize_iff he h1 s1).1 c1).symm
    · exact ((sameSize_iff he h2 s2).1 c2).symm
    · rfl
  rw [lce, if_neg (by rw [hc]; simp)]
  simp only [hres]
  refine ⟨lceD e1 e2, ?_⟩
  have m1 : ∀ v, v ∈ (lceD e1 e2).ints ↔ v ∈ e1.ints ∨ v ∈ e2.ints := mem_lceA
  have m2 : ∀ v, v ∈ (lceD e1 e2).reals ↔ v ∈ e1.reals ∨ v ∈ e2.reals := mem_lceA
  rcases lceChange_spec junk h1 he s1 with ⟨a1, a2⟩ | ⟨a1, d1, a2, a3⟩ <;>
    rcases lceChange_spec junk h2 he s2 with ⟨b1, b2⟩ | ⟨b1, d2, b2, b3⟩ <;>
    rw [a2, b2] <;> simp only [Out.bind]
  · exact ⟨none, none, rfl, he, m1, m2, by simpa using a1, by simpa using b1, by simp, by simp⟩
  · exact ⟨none, some d2, rfl, he, m1, m2, by simpa using a1, by simpa using b1, by simp,
      by rintro d hd; rw [← Option.some.inj hd]; exact b3⟩
  · exact ⟨some d1, none, rfl, he, m1, m2, by simpa using a1, by simpa using b1,
      by rintro d hd; rw [← Option.some.inj hd]; exact a3, by simp⟩
  · exact ⟨some d1, some d2, rfl, he, m1, m2, by simpa using a1, by simpa using b1,
      by rintro d hd; rw [← Option.some.inj hd]; exact a3,
      by rintro d hd; rw [← Option.some.inj hd]; exact b3⟩

example : lce 9 exEnv ⟨[3, 5], [0, 9]⟩ =
    .ok (⟨[2, 3, 5], [0, 1, 7, 9]⟩, some ⟨[1, 2, 4], 1, 2⟩, some ⟨[0, 3, 3], 1, 2⟩) := by decide +kernel
example : lce 9 exEnv ⟨[7], []⟩ = .null := by decide +kernel

/-- `ap_environment_is_eq`: the same variables, with the same types and dimensions (`same` is the
equality of pointers, and thus implies that of contents) -/
theorem C46_is_eq (same : Bool) (e1 e2 : Env V) (hs : same = true → e1 = e2) :
    isEq same e1 e2 = true ↔ e1 = e2 := by
  rw [isEq]
  constructor
  · intro h
    rcases same
    · simp only [Bool.false_or, Bool.and_eq_true, decide_eq_true_eq, List.all_eq_true] at h
      obtain ⟨⟨a, b⟩, c⟩ := h
      have hl : e1.vars.length = e2.vars.length := by rw [vars_length, vars_length, size, size, a, b]
      have : e1.vars = e2.vars := by
        refine List.ext_getElem hl fun i i1 i2 => ?_
        have hi : i < (e1.vars.zip e2.vars).length := by rw [List.length_zip]; omega
        have := c _ (List.getElem_mem hi)
        rwa [List.getElem_zip] at this
      obtain ⟨p, q⟩ := List.append_inj this a
      cases e1; cases e2
      simp only [mk.injEq]
      exact ⟨p, q⟩
    · exact hs rfl
  · rintro rfl
    simp only [decide_true, Bool.true_and, Bool.or_eq_true, List.all_eq_true, decide_eq_true_eq]
    refine Or.inr fun p hp => ?_
    obtain ⟨i, hi, e'⟩ := List.getElem_of_mem hp
    rw [List.getElem_zip] at e'
    rw [← e']

/-- `ap_environment_is_leq`: inclusion, type by type -/
theorem C46_is_leq (same : Bool) (e1 e2 : Env V) (hs : same = true → e1 = e2) (h1 : e1.Wf) (h2 : e2.Wf) :
    isLeq same e1 e2 = true ↔ (∀ v ∈ e1.ints, v ∈ e2.ints) ∧ ∀ v ∈ e1.reals, v ∈ e2.reals := by
  rw [isLeq]
  constructor
  · intro h
    rcases same
    · simp only [Bool.false_or, Bool.and_eq_true, decide_eq_true_eq] at h
      exact ⟨(isLeqA_iff h1.ints h2.ints).1 h.2.1, (isLeqA_iff h1.reals h2.reals).1 h.2.2⟩
    · rw [hs rfl]; exact ⟨fun _ h => h, fun _ h => h⟩
  · rintro ⟨a, b⟩
    rw [(isLeqA_iff h1.ints h2.ints).2 a, (isLeqA_iff h1.reals h2.reals).2 b]
    have l1 : e1.intdim ≤ e2.intdim := length_le_of_subset h1.ints a
    have l2 : e1.realdim ≤ e2.realdim := length_le_of_subset h1.reals b
    simp [l1, l2]

example : isLeq false ⟨[5], [1]⟩ exEnv = true ∧ isLeq false ⟨[1], []⟩ exEnv = false := by decide +kernel

theorem eq_lce_iff {e e1 e2 : Env V} (he : e.Wf) (h1 : e1.Wf)
    (m1 : ∀ v, v ∈ e.ints ↔ v ∈ e1.ints ∨ v ∈ e2.ints)
    (m2 : ∀ v, v ∈ e.reals ↔ v ∈ e1.reals ∨ v ∈ e2.reals) : e = e1 ↔ Sub e2 e1 := by
  constructor
  · rintro rfl
    exact ⟨fun v hv => (m1 v).2 (Or.inr hv), fun v hv => (m2 v).2 (Or.inr hv)⟩
  · intro h
    cases e; cases e1
    simp only [mk.injEq]
    refine ⟨sorted_ext he.ints h1.ints fun v => ?_, sorted_ext he.reals h1.reals fun v => ?_⟩
    · exact (m1 v).trans ⟨fun h' => h'.elim id (h.1 v), Or.inl⟩
    · exact (m2 v).trans ⟨fun h' => h'.elim id (h.2 v), Or.inl⟩

/-- `ap_environment_compare` is the documented function -/
theorem C46_compare (junk : ℕ) (e1 e2 : Env V) (h1 : e1.Wf) (h2 : e2.Wf) :
    (Env.compare junk e1 e2 = -2 ↔ Incompatible e1 e2) ∧
    (Env.compare junk e1 e2 = 0 ↔ e1 = e2) ∧
    (Env.compare junk e1 e2 = -1 ↔ Sub e1 e2 ∧ ¬Sub e2 e1) ∧
    (Env.compare junk e1 e2 = 1 ↔ Sub e2 e1 ∧ ¬Sub e1 e2) ∧
    (Env.compare junk e1 e2 = 2 ↔ ¬Incompatible e1 e2 ∧ ¬Sub e1 e2 ∧ ¬Sub e2 e1) := by
  have incS : Incompatible e1 e2 → ¬Sub e1 e2 ∧ ¬Sub e2 e1 := by
    rintro ⟨v, ⟨a, b⟩ | ⟨a, b⟩⟩
    · exact ⟨fun h => h2.disj v (h.1 v a) b, fun h => h1.disj v a (h.2 v b)⟩
    · exact ⟨fun h => h2.disj v a (h.2 v b), fun h => h1.disj v (h.1 v a) b⟩
  have eqS : e1 = e2 ↔ Sub e1 e2 ∧ Sub e2 e1 := by
    constructor
    · rintro rfl; exact ⟨⟨fun _ h => h, fun _ h => h⟩, ⟨fun _ h => h, fun _ h => h⟩⟩
    · rintro ⟨a, b⟩
      cases e1; cases e2
      simp only [mk.injEq]
      exact ⟨sorted_ext h1.ints h2.ints fun v => ⟨a.1 v, b.1 v⟩,
        sorted_ext h1.reals h2.reals fun v => ⟨a.2 v, b.2 v⟩⟩
  by_cases hi : Incompatible e1 e2
  · have := incS hi
    rw [Env.compare, (C46_lce junk e1 e2 h1 h2).1 hi]
    simp only
    norm_num
    refine ⟨hi, ?_, ?_, ?_, ?_⟩
    · rw [eqS]; tauto
    · tauto
    · tauto
    · tauto
  · obtain ⟨e, d1, d2, l, he, m1, m2, q1, q2, -, -⟩ := (C46_lce junk e1 e2 h1 h2).2 hi
    have p1 := q1.trans (eq_lce_iff he h1 m1 m2)
    have p2 := q2.trans (eq_lce_iff (e2 := e1) he h2 (fun v => (m1 v).trans or_comm)
      (fun v => (m2 v).trans or_comm))
    rw [Env.compare, l, eqS]
    rcases d1 with _ | d1 <;> rcases d2 with _ | d2 <;> simp only [true_iff, reduceCtorEq, false_iff] at p1 p2 <;>
      simp only <;> norm_num <;> tauto

example : Env.compare 9 exEnv ⟨[5], [1]⟩ = 1 ∧ Env.compare 9 exEnv ⟨[5, 6], [1]⟩ = 2 := by decide +kernel

/-- the change between two environments: refused iff a variable has two types; otherwise the first part
moves the variables of `e1` to a common environment `e`, and the second one is the removal of the
dimensions of `e` that are not those of variables of `e2` -/
theorem C46_dimchange2 (junk : ℕ) (e1 e2 : Env V) (h1 : e1.Wf) (h2 : e2.Wf) :
    (Incompatible e1 e2 → dimchange2 junk e1 e2 = .null) ∧
    (¬Incompatible e1 e2 → ∃ e d1 d2, lce junk e1 e2 = .ok (e, d1, d2) ∧
      dimchange2 junk e1 e2 = .ok (d1, d2.map fun d => { d with dim := Dim.addInvert d.dim })) := by
  refine ⟨fun h => by rw [dimchange2, if_pos ((checkCompat_iff h1 h2).2 h)], fun h => ?_⟩
  have hc : checkCompat e1 e2 = false := by
    rw [← Bool.not_eq_true, checkCompat_iff h1 h2]; exact h
  obtain ⟨e, d1, d2, l, -⟩ := (C46_lce junk e1 e2 h1 h2).2 h
  refine ⟨e, d1, d2, l, ?_⟩
  rw [lce, if_neg (by rw [hc]; simp)] at l
  rw [dimchange2, if_neg (by rw [hc]; simp)]
  simp only [Out.bind] at l ⊢
  generalize lceChange junk (lceD e1 e2) e1 = r1 at l ⊢
  generalize lceChange junk (lceD e1 e2) e2 = r2 at l ⊢
  rcases r1 with a | _ | _ | _ <;> rcases r2 with b | _ | _ | _ <;>
    first
    | (simp only [Out.ok.injEq, Prod.mk.injEq] at l; rw [l.2.1, l.2.2])
    | (exfalso; revert l; simp)

/-- renaming succeeds iff the renamed variables are known and the resulting names are distinct; the
dimension of each variable is moved to that of its new name -/
theorem C46_rename (Q : Qsort V) (junk : ℕ) (e : Env V) (he : e.Wf) (hsz : e.size ≤ dimMax)
    (ps : List (V × V)) :
    (((∀ p ∈ ps, p.1 ∈ e.vars) ∧ (e.vars.map (renamed ps)).Nodup) →
      ∃ e' perm, rename Q junk e ps = .ok (e', perm) ∧ e'.Wf ∧
      e'.intdim = e.intdim ∧ e'.realdim = e.realdim ∧
      (∀ v, v ∈ e'.ints ↔ ∃ u ∈ e.ints, v = renamed ps u) ∧
      (∀ v, v ∈ e'.reals ↔ ∃ u ∈ e.reals, v = renamed ps u) ∧
      Dim.IsPerm e.size perm ∧
      (∀ k, k < e.size → varOfDim e' (perm.getD k 0) = (varOfDim e k).map (renamed ps)) ∧
      (∀ k, k < e.size → (perm.getD k 0 < e.intdim ↔ k < e.intdim))) ∧
    (¬((∀ p ∈ ps, p.1 ∈ e.vars) ∧ (e.vars.map (renamed ps)).Nodup) → rename Q junk e ps = .null) := by
  rw [rename]
  rcases renameLoop_spec he hsz ps (List.replicate e.size none) (by simp) with
    ⟨g1, p, g2, g3⟩ | ⟨cells, g1, g2, g3, g4⟩
  · rw [g1]
    exact ⟨fun h => absurd (h.1 p g2) g3, fun _ => rfl⟩
  · rw [g1]
    have hnames : List.zipWith (fun (c : Option V) v => c.getD v) cells e.vars =
        e.vars.map (renamed ps) := by
      refine List.ext_getElem (by simp [g3, vars_length]) fun d d1 d2 => ?_
      have hd : d < e.vars.length := by simpa using d2
      have hc : d < cells.length := by rw [g3, ← vars_length]; exact hd
      have := g4 d e.vars[d] (List.getElem?_eq_getElem hd)
      rw [List.getElem?_eq_getElem hc] at this
      rw [List.getElem_zipWith, List.getElem_map, Option.some.inj this, renamed]
      rcases ps.reverse.lookup e.vars[d] with _ | w
      · simp only [List.getD, Option.getD_none]
        rcases h : (List.replicate e.size (none : Option V))[d]? with _ | w
        · rfl
        · have := List.eq_of_mem_replicate (List.mem_of_getElem? h)
          subst this; rfl
      · rfl
    have hl1 : (e.vars.map (renamed ps)).take e.intdim = e.ints.map (renamed ps) := by
      rw [vars, List.map_append, List.take_left' (by simp [intdim])]
    have hl2 : (e.vars.map (renamed ps)).drop e.intdim = e.reals.map (renamed ps) := by
      rw [vars, List.map_append, List.drop_left' (by simp [intdim])]
    simp only [hnames, hl1, hl2]
    obtain ⟨s, p, n1, s1, s2, s3, s4⟩ := normalizePerm_spec Q
      (List.replicate e.intdim junk) (e.ints.map (renamed ps)) (by simp [intdim])
    obtain ⟨t, q, n2, t1, t2, t3, t4⟩ := normalizePerm_spec Q
      (List.replicate e.realdim junk) (e.reals.map (renamed ps)) (by simp [realdim])
    obtain ⟨k1, k2, k3⟩ := glue_perm s1 t1 s3 t3 s4 t4
    simp only [List.length_map] at k1 k2 k3
    simp only [n1, n2, Out.ofOption, Out.bind]
    have hw : (⟨s, t⟩ : Env V).Wf ↔ (e.vars.map (renamed ps)).Nodup := by
      rw [wf_iff_nodup s2 t2, vars, List.map_append]
      exact (s1.append t1).nodup_iff
    rcases hc : envCheck (⟨s, t⟩ : Env V)
    · have wf := (envCheck_iff _).1 hc
      refine ⟨fun _ => ⟨⟨s, t⟩, p ++ q.map (· + e.intdim), by simp, wf, ?_, ?_, ?_, ?_, k1, ?_, k3⟩,
        fun h => absurd ⟨g2, hw.1 wf⟩ h⟩
      · simp [intdim, s1.length_eq]
      · simp [realdim, t1.length_eq]
      · intro v
        rw [s1.mem_iff, List.mem_map]
        exact ⟨fun ⟨u, a, b⟩ => ⟨u, a, b.symm⟩, fun ⟨u, a, b⟩ => ⟨u, a, b.symm⟩⟩
      · intro v
        rw [t1.mem_iff, List.mem_map]
        exact ⟨fun ⟨u, a, b⟩ => ⟨u, a, b.symm⟩, fun ⟨u, a, b⟩ => ⟨u, a, b.symm⟩⟩
      · intro k hk
        have := k2 k hk
        rw [varOfDim, vars, varOfDim, vars, ← List.getElem?_map, List.map_append]
        exact this
    · have nwf : ¬(⟨s, t⟩ : Env V).Wf := by
        rw [← envCheck_iff, hc]; simp
      refine ⟨fun h => absurd (hw.2 h.2) nwf, fun _ => by simp⟩

/-- swapping the names of two variables, of the same type -/
example : rename exQsort 9 exEnv [(2, 5), (5, 2), (1, 9)] = .ok (⟨[2, 5], [7, 9]⟩, [1, 0, 3, 2]) := by
  decide +kernel

theorem lceChanges_spec (junk : ℕ) {e : Env V} (he : e.Wf) (t : List (Env V)) (ht : ∀ e1 ∈ t, e1.Wf)
    (hs : ∀ e1 ∈ t, Sub e1 e) :
    ∃ ds, lceChanges junk e t = .ok ds ∧ ds.length = t.length ∧
      ∀ (i : ℕ) (e1 : Env V), t[i]? = some e1 →
        (e = e1 ∧ ds[i]? = some none) ∨ (e ≠ e1 ∧ ∃ d, ds[i]? = some (some d) ∧ Moves e1 e d) := by
  induction t with
  | nil => exact ⟨[], rfl, rfl, by simp⟩
  | cons a t ih =>
    obtain ⟨ds, i1, i2, i3⟩ := ih (fun e1 h => ht e1 (by simp [h])) (fun e1 h => hs e1 (by simp [h]))
    have ha := lceChange_spec junk (ht a (by simp)) he (hs a (by simp))
    obtain ⟨d0, h0⟩ : ∃ d0, lceChange junk e a = .ok d0 := by
      rcases ha with ⟨-, h⟩ | ⟨-, d, h, -⟩
      · exact ⟨_, h⟩
      · exact ⟨_, h⟩
    refine ⟨d0 :: ds, by rw [lceChanges, h0, i1]; rfl, by simp [i2], ?_⟩
    intro i e1 hi
    cases i with
    | zero =>
      simp only [List.getElem?_cons_zero, Option.some.injEq] at hi ⊢
      subst hi
      rw [h0] at ha
      simpa using ha
    | succ i =>
      simp only [List.getElem?_cons_succ] at hi ⊢
      exact i3 i e1 hi

theorem firstFull_spec {e : Env V} (t : List (Env V)) (i j : ℕ) (h : firstFull e t i = some j) :
    i ≤ j ∧ ∃ e1, t[j - i]? = some e1 ∧ sameSize e e1 = true := by
  induction t generalizing i with
  | nil => simp [firstFull] at h
  | cons a t ih =>
    rw [firstFull] at h
    split_ifs at h with hc
    · simp only [Option.some.injEq] at h
      subst h
      exact ⟨le_rfl, a, by simp, hc⟩
    · obtain ⟨g1, e1, g2, g3⟩ := ih _ h
      refine ⟨by omega, e1, ?_, g3⟩
      rw [show j - i = (j - (i + 1)) + 1 by omega, List.getElem?_cons_succ, g2]

/-- least common environment of three environments or more: refused iff a variable has two types;
otherwise it contains exactly the variables of all, with the changes of each of them.  (When there is no
change, the array of changes may be absent.) -/
theorem C46_lce_array (junk : ℕ) (t : List (Env V)) (ht : ∀ e ∈ t, e.Wf) :
    ((∃ e1 ∈ t, ∃ e2 ∈ t, Incompatible e1 e2) → lceArrayMany junk t = .null) ∧
    (¬(∃ e1 ∈ t, ∃ e2 ∈ t, Incompatible e1 e2) →
      ∃ e ds, lceArrayMany junk t = .ok (e, ds) ∧ e.Wf ∧
        (∀ v, v ∈ e.ints ↔ ∃ e1 ∈ t, v ∈ e1.ints) ∧ (∀ v, v ∈ e.reals ↔ ∃ e1 ∈ t, v ∈ e1.reals) ∧
        (ds = none → ∀ e1 ∈ t, e1 = e) ∧
        (∀ l, ds = some l → l.length = t.length ∧
          ∀ (i : ℕ) (e1 : Env V), t[i]? = some e1 →
            (e = e1 ∧ l[i]? = some none) ∨ (e ≠ e1 ∧ ∃ d, l[i]? = some (some d) ∧ Moves e1 e d))) := by
  obtain ⟨m1, s1⟩ := lceArrayA_spec (t.map Env.ints) (by
    intro l hl; obtain ⟨e, he, rfl⟩ := List.mem_map.1 hl; exact (ht e he).ints)
  obtain ⟨m2, s2⟩ := lceArrayA_spec (t.map Env.reals) (by
    intro l hl; obtain ⟨e, he, rfl⟩ := List.mem_map.1 hl; exact (ht e he).reals)
  have n1 : ∀ v, v ∈ lceArrayA (t.map Env.ints) ↔ ∃ e1 ∈ t, v ∈ e1.ints := by simpa using m1
  have n2 : ∀ v, v ∈ lceArrayA (t.map Env.reals) ↔ ∃ e1 ∈ t, v ∈ e1.reals := by simpa using m2
  have hinc : (∃ e1 ∈ t, ∃ e2 ∈ t, Incompatible e1 e2) ↔
      ¬(⟨lceArrayA (t.map Env.ints), lceArrayA (t.map Env.reals)⟩ : Env V).Wf := by
    constructor
    · rintro ⟨e1, h1, e2, h2, v, ⟨a, b⟩ | ⟨a, b⟩⟩ h
      · exact h.disj v ((n1 v).2 ⟨e1, h1, a⟩) ((n2 v).2 ⟨e2, h2, b⟩)
      · exact h.disj v ((n1 v).2 ⟨e2, h2, a⟩) ((n2 v).2 ⟨e1, h1, b⟩)
    · intro h
      by_contra hn
      refine h ⟨s1, s2, fun v hv hv' => ?_⟩
      obtain ⟨e1, h1, a⟩ := (n1 v).1 hv
      obtain ⟨e2, h2, b⟩ := (n2 v).1 hv'
      exact hn ⟨e1, h1, e2, h2, v, Or.inl ⟨a, b⟩⟩
  generalize hE : (⟨lceArrayA (t.map Env.ints), lceArrayA (t.map Env.reals)⟩ : Env V) = E at *
  have k1 : ∀ v, v ∈ E.ints ↔ ∃ e1 ∈ t, v ∈ e1.ints := by rw [← hE]; exact n1
  have k2 : ∀ v, v ∈ E.reals ↔ ∃ e1 ∈ t, v ∈ e1.reals := by rw [← hE]; exact n2
  have hs : ∀ e1 ∈ t, Sub e1 E := fun e1 h =>
    ⟨fun v hv => (k1 v).2 ⟨e1, h, hv⟩, fun v hv => (k2 v).2 ⟨e1, h, hv⟩⟩
  have i1 : E.ints.Pairwise (· < ·) := by rw [← hE]; exact s1
  have i2 : E.reals.Pairwise (· < ·) := by rw [← hE]; exact s2
  -- an environment of the size of the common one is the common one, which is thus correct
  have full : ∀ e1 ∈ t, sameSize E e1 = true → E = e1 := by
    intro e1 h hs1
    simp only [sameSize, Bool.and_eq_true, decide_eq_true_eq] at hs1
    have a := eq_of_subset_of_length (ht e1 h).ints i1 (hs e1 h).1 (le_of_eq hs1.1)
    have b := eq_of_subset_of_length (ht e1 h).reals i2 (hs e1 h).2 (le_of_eq hs1.2)
    cases E; cases e1
    simp only [mk.injEq]
    exact ⟨a.symm, b.symm⟩
  -- the changes can be computed even for incompatible environments
  have hch : ∀ u : List (Env V), (∀ e ∈ u, e ∈ t) → ∃ ds, lceChanges junk E u = .ok ds := by
    intro u hu
    induction u with
    | nil => exact ⟨[], rfl⟩
    | cons a u ih =>
      obtain ⟨ds, hds⟩ := ih fun e h => hu e (by simp [h])
      have ha := hu a (by simp)
      obtain ⟨d, hd⟩ : ∃ d, lceChange junk E a = .ok d := by
        rw [lceChange]
        split_ifs
        · exact ⟨_, rfl⟩
        · obtain ⟨a1, a2, -⟩ := lceDim_spec (rd := 0) (ht a ha).ints i1 (hs a ha).1
          obtain ⟨b1, b2, -⟩ := lceDim_spec (rd := a.intdim) (ht a ha).reals i2 (hs a ha).2
          have hAl : (lceDim 0 a.ints E.ints).1.length = E.intdim - a.intdim := by
            simp only [intdim]; omega
          have hBl : (lceDim a.intdim a.reals E.reals).1.length = E.realdim - a.realdim := by
            simp only [realdim]; omega
          have := writeAt_two junk (lceDim 0 a.ints E.ints).1 (lceDim a.intdim a.reals E.reals).1
          rw [hAl, hBl] at this
          rw [mkDimchange]
          simp only [Bool.false_and, Bool.false_eq_true, if_false]
          revert this
          rcases writeAt (List.replicate (E.intdim - a.intdim + (E.realdim - a.realdim)) junk) 0
            (lceDim 0 a.ints E.ints).1 with x | _ | _ | _ <;> simp only [Out.bind] <;> intro this
          · rw [this]; exact ⟨_, rfl⟩
          all_goals simp at this
      exact ⟨d :: ds, by rw [lceChanges, hd, hds]; rfl⟩
  rw [lceArrayMany, hE]
  by_cases hwf : E.Wf
  · refine ⟨fun h => absurd hwf (hinc.1 h), fun _ => ?_⟩
    obtain ⟨ds, d1, d2, d3⟩ := lceChanges_spec junk hwf t ht hs
    rw [d1]
    simp only [Out.bind]
    have hnone : ds.any Option.isSome = false → ∀ e1 ∈ t, e1 = E := by
      intro h e1 h1
      obtain ⟨i, hi, rfl⟩ := List.getElem_of_mem h1
      rcases d3 i _ (List.getElem?_eq_getElem hi) with ⟨a, -⟩ | ⟨-, d, a, -⟩
      · exact a.symm
      · exfalso
        rw [← Bool.not_eq_true, List.any_eq_true] at h
        exact h ⟨some d, List.mem_of_getElem? a, rfl⟩
    have hbase : ∃ e ds', (if envCheck E = true then Out.null else Out.ok (E, some ds)) = .ok (e, ds') ∧ e.Wf ∧
        (∀ v, v ∈ e.ints ↔ ∃ e1 ∈ t, v ∈ e1.ints) ∧ (∀ v, v ∈ e.reals ↔ ∃ e1 ∈ t, v ∈ e1.reals) ∧
        (ds' = none → ∀ e1 ∈ t, e1 = e) ∧
        (∀ l, ds' = some l → l.length = t.length ∧
          ∀ (i : ℕ) (e1 : Env V), t[i]? = some e1 →
            (e = e1 ∧ l[i]? = some none) ∨ (e ≠ e1 ∧ ∃ d, l[i]? = some (some d) ∧ Moves e1 e d)) := by
      rw [(envCheck_iff E).2 hwf]
      refine ⟨E, some ds, rfl, hwf, k1, k2, by simp, ?_⟩
      rintro l hl
      rw [← Option.some.inj hl]
      exact ⟨d2, d3⟩
    rcases hff : firstFull E t 0 with _ | j
    · exact hbase
    · cases j with
      | zero => exact hbase
      | succ j =>
        obtain ⟨-, e1, f2, f3⟩ := firstFull_spec t 0 (j + 1) hff
        rw [Nat.sub_zero] at f2
        have := full e1 (List.mem_of_getElem? f2) f3
        subst this
        simp only [f2]
        refine ⟨E, _, rfl, hwf, k1, k2, ?_, ?_⟩
        · intro h
          rcases hany : ds.any Option.isSome
          · exact hnone hany
          · rw [hany] at h; simp at h
        · intro l hl
          rcases hany : ds.any Option.isSome <;> rw [hany] at hl
          · simp at hl
          · rw [← Option.some.inj hl]
            exact ⟨d2, d3⟩
  · refine ⟨fun _ => ?_, fun h => absurd (not_not.1 (fun h' => h (hinc.2 h'))) hwf⟩
    obtain ⟨ds, hds⟩ := hch t fun _ h => h
    rw [hds]
    simp only [Out.bind]
    have hc : envCheck E = true := by
      rw [← Bool.not_eq_false, envCheck_iff]; exact hwf
    rcases hff : firstFull E t 0 with _ | j
    · simp [hc]
    · cases j with
      | zero => simp [hc]
      | succ j =>
        exfalso
        obtain ⟨-, e1, f2, f3⟩ := firstFull_spec t 0 (j + 1) hff
        rw [Nat.sub_zero] at f2
        have hm := List.mem_of_getElem? f2
        rw [full e1 hm f3] at hwf
        exact hwf (ht e1 hm)

example : lceArrayMany 9 [exEnv, ⟨[3], [1]⟩, ⟨[2], [0]⟩] =
    .ok (⟨[2, 3, 5], [0, 1, 7]⟩, some [some ⟨[1, 2], 1, 1⟩, some ⟨[0, 1, 1, 2], 2, 2⟩,
      some ⟨[1, 1, 2, 2], 2, 2⟩]) := by decide +kernel

/-- the documentation promises a `NULL` array of changes when all the environments are the same; with
three distinct pointers to equal environments it is not `NULL` -/
theorem C46_lce_array_same_not_null :
    ∃ (t : List (ℕ × Env ℕ)) (e : Env ℕ) (l : List (Option Dimchange)), (∀ p ∈ t, p.2 = e) ∧ e.Wf ∧
      t.length = 3 ∧ lceArray 9 t = .ok (e, some l) :=
  ⟨[(1, exEnv), (2, exEnv), (3, exEnv)], exEnv, [none, none, none], by decide, exEnv_wf, rfl,
    by decide +kernel⟩

/-! ## C47: dimension change to a super-environment -/

/-- the change to a super-environment moves each variable to its dimension there.  Missing: the refusal of
an environment that is not a super-environment, which fails (below). -/
theorem C47_dimchange_partial (junk : ℕ) (e1 e : Env V) (h1 : e1.Wf) (h : e.Wf) :
    (Sub e1 e → ∃ d, dimchange junk e1 e = .ok d ∧ Moves e1 e d) ∧
    (dimchange junk e1 e = .null → ¬Sub e1 e) := by
  have key : Sub e1 e → ∃ d, dimchange junk e1 e = .ok d ∧ Moves e1 e d := by
    intro hs
    have l1 : e1.intdim ≤ e.intdim := length_le_of_subset h1.ints hs.1
    have l2 : e1.realdim ≤ e.realdim := length_le_of_subset h1.reals hs.2
    rw [dimchange, if_neg (by omega)]
    exact mkDimchange_moves junk true h1 h hs
  refine ⟨key, fun hn hs => ?_⟩
  obtain ⟨d, hd, -⟩ := key hs
  rw [hd] at hn
  simp at hn

example : dimchange 9 ⟨[5], [1]⟩ exEnv = .ok ⟨[0, 2], 1, 1⟩ := by decide +kernel

/-- number of values written by `env_lce_dimchange`: when its flag is `false` although some name is
missing, there are too many of them -/
theorem lceDimGo_writes {rd i1 : ℕ} {z : Bool} {l m : List V} (hl : l.Pairwise (· < ·))
    (hm : m.Pairwise (· < ·)) (hf : (lceDimGo rd i1 z l m).2 = false) (hn : ¬∀ v ∈ l, v ∈ m) :
    m.length < (lceDimGo rd i1 z l m).1.length + l.length := by
  fun_induction lceDimGo rd i1 z l m with
  | case1 => simp at hn
  | case2 i1 a l ih => simp
  | case3 => simp at hf
  | case4 => simp at hf
  | case5 i1 z l b m h ih =>
    have := ih (tail_sorted hl) (tail_sorted hm) hf (fun h' => hn fun v hv => by
      rcases List.mem_cons.1 hv with rfl | hv
      · simp
      · simp [h' v hv])
    simp only [List.length_cons]; omega
  | case6 i1 z a l b m h1 h2 r ih =>
    have := ih hl (tail_sorted hm) hf (fun h' => hn fun v hv => by simp [h' v hv])
    simp only [List.length_cons, r] at this ⊢; omega

/-- when both environments have the same integer variables, an environment that is not a
super-environment is never given a dimension change (but memory may have been overwritten) -/
theorem C47_dimchange_same_ints (junk : ℕ) (e1 e : Env V) (h1 : e1.Wf) (h : e.Wf)
    (hi : e1.ints = e.ints) (hn : ¬∀ v ∈ e1.reals, v ∈ e.reals) (d : Dimchange) :
    dimchange junk e1 e ≠ .ok d := by
  intro hd
  rw [dimchange] at hd
  split_ifs at hd with hc
  obtain ⟨a1, a2, -⟩ := lceDim_spec (rd := 0) h1.ints h.ints (by rw [hi]; exact fun _ h => h)
  have hA : (lceDim 0 e1.ints e.ints).1 = [] := List.length_eq_zero_iff.1 (by rw [hi] at a2 ⊢; omega)
  have hn0 : e.intdim - e1.intdim = 0 := by simp [intdim, hi]
  rw [mkDimchange] at hd
  simp only [hA, a1, hn0, Nat.zero_add, Bool.and_false, Bool.false_eq_true, if_false, writeAt,
    List.length_nil, Nat.add_zero, Nat.zero_le, if_true, List.take_zero, List.nil_append,
    List.drop_zero, Out.bind, List.length_replicate] at hd
  have hrl : ¬ e1.reals.length > e.reals.length := by
    have : e1.realdim ≤ e.realdim := by omega
    simpa [realdim] using this
  by_cases hf : (lceDim e1.intdim e1.reals e.reals).2 = true
  · rw [hf] at hd
    simp only [Bool.and_self, if_true] at hd
    split_ifs at hd
  · rw [Bool.not_eq_true] at hf
    have hf' := hf
    rw [lceDim, if_neg hrl] at hf'
    have := lceDimGo_writes h1.reals h.reals hf' hn
    split_ifs at hd with hw
    rw [lceDim, if_neg hrl] at hw
    simp only [realdim] at hw
    omega

/-- DEFECT: an environment that is not a super-environment may be accepted; the result then moves
variables to the wrong dimensions (here the integer variable `1`, of dimension 0, to that of `0`) -/
theorem C47_dimchange_accepts_wrong :
    ∃ (e1 e : Env ℕ) (d : Dimchange), e1.Wf ∧ e.Wf ∧ ¬(∀ v ∈ e1.ints, v ∈ e.ints) ∧
      dimchange 9 e1 e = .ok d ∧ varOfDim e1 0 = some 1 ∧
      varOfDim e (0 + d.dim.countP (fun p => decide (p ≤ 0))) = some 0 :=
  ⟨⟨[1, 2], []⟩, ⟨[0, 1], [5]⟩, ⟨[2], 0, 1⟩, ⟨by decide, by decide, by decide⟩,
    ⟨by decide, by decide, by decide⟩, by decide, by decide +kernel, by decide, by decide +kernel⟩

/-- DEFECT: on an environment that is not a super-environment, values may be written outside of the
allocated array, both when the arguments are then refused and when they are not -/
theorem C47_dimchange_overflow :
    (∃ e1 e : Env ℕ, e1.Wf ∧ e.Wf ∧ (lceDim e1.intdim e1.reals e.reals).2 = true ∧
      dimchange 9 e1 e = .oob) ∧
    (∃ e1 e : Env ℕ, e1.Wf ∧ e.Wf ∧ (lceDim e1.intdim e1.reals e.reals).2 = false ∧
      dimchange 9 e1 e = .oob) :=
  ⟨⟨⟨[], [3]⟩, ⟨[], [0]⟩, ⟨by decide, by decide, by decide⟩, ⟨by decide, by decide, by decide⟩,
      by decide +kernel, by decide +kernel⟩,
    ⟨⟨[], [1, 2]⟩, ⟨[], [0, 1]⟩, ⟨by decide, by decide, by decide⟩, ⟨by decide, by decide, by decide⟩,
      by decide +kernel, by decide +kernel⟩⟩

end Props
end Apron
