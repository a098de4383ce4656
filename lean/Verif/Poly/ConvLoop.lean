import Verif.Poly.Conv
import Mathlib.Data.List.TakeWhile

/-!
# Correctness of the conversion: the main loop
-/

set_option autoImplicit false
set_option linter.unusedSectionVars false

namespace Apron.Poly

variable {K : Type*} [LinearOrder K] [Field K] [IsStrictOrderedRing K] {d : ℕ}

/-! ## Permutations -/

theorem moveLast_perm {α : Type*} (l : List α) : (moveLast l).Perm l := by
  rw [moveLast]
  cases h : l.getLast? with
  | none => rw [List.getLast?_eq_none_iff] at h; subst h; exact .refl _
  | some z =>
    dsimp only
    have : l = l.dropLast ++ [z] := by
      have hne : l ≠ [] := by rintro rfl; simp at h
      have h2 := List.dropLast_append_getLast hne
      rw [List.getLast?_eq_some_getLast hne, Option.some.injEq] at h
      rw [h] at h2; exact h2.symm
    conv_rhs => rw [this]
    exact (List.perm_append_comm (l₁ := [z]) (l₂ := l.dropLast))

theorem moveLast_length {α : Type*} (l : List α) : (moveLast l).length = l.length := (moveLast_perm l).length_eq

theorem rot_perm {α : Type*} (l : List α) : (rot l).Perm l := by
  cases l with
  | nil => exact .refl _
  | cons a l => exact List.perm_append_comm (l₁ := l) (l₂ := [a])

theorem replaceTail_perm (kept A : List SRow) (b : ℕ) : (replaceTail kept A b).Perm (kept ++ A) := by
  rw [replaceTail]
  refine List.Perm.append_left _ ?_
  rw [List.take_reverse]
  refine ((List.reverse_perm _).append_right _).trans ?_
  refine List.perm_append_comm.trans ?_
  rw [List.take_append_drop]

theorem partition3_spec (n : ℕ) (E P U N : List SRow) (hn : U.length ≤ n)
    (hE : ∀ x ∈ E, x.row.at' 0 = 0) (hP : ∀ x ∈ P, 0 < x.row.at' 0) (hN : ∀ x ∈ N, x.row.at' 0 < 0) :
    ((partition3 n E P U N).1 ++ (partition3 n E P U N).2.1 ++ (partition3 n E P U N).2.2).Perm (E ++ P ++ U ++ N) ∧
    (∀ x ∈ (partition3 n E P U N).1, x.row.at' 0 = 0) ∧ (∀ x ∈ (partition3 n E P U N).2.1, 0 < x.row.at' 0) ∧
    (∀ x ∈ (partition3 n E P U N).2.2, x.row.at' 0 < 0) := by
  induction n generalizing E P U N with
  | zero =>
    obtain rfl : U = [] := by cases U <;> simp_all
    rw [partition3]; exact ⟨by simp, hE, hP, hN⟩
  | succ n ih =>
    cases U with
    | nil => rw [partition3]; exact ⟨by simp, hE, hP, hN⟩
    | cons u U =>
      rw [partition3]
      simp only [List.length_cons] at hn
      by_cases h0 : u.row.at' 0 = 0
      · rw [if_pos h0]
        obtain ⟨h1, h2⟩ := ih (E ++ [u]) (rot P) U N (by omega)
          (fun x hx => by
            rcases List.mem_append.1 hx with hx | hx
            · exact hE x hx
            · rw [List.mem_singleton.1 hx]; exact h0)
          (fun x hx => hP x ((rot_perm P).mem_iff.1 hx)) hN
        refine ⟨h1.trans ?_, h2⟩
        refine List.Perm.append_right _ ?_
        simp only [List.append_assoc]
        refine List.Perm.append_left _ ?_
        rw [List.singleton_append]
        refine (((rot_perm P).append_right U).cons u).trans ?_
        exact List.perm_middle.symm
      · rw [if_neg h0]
        by_cases hlt : u.row.at' 0 < 0
        · rw [if_pos hlt]
          obtain ⟨h1, h2⟩ := ih E P (moveLast U) (u :: N) (by rw [moveLast_length]; omega) hE hP
            (fun x hx => by
              rcases List.mem_cons.1 hx with rfl | hx
              · exact hlt
              · exact hN x hx)
          refine ⟨h1.trans ?_, h2⟩
          simp only [List.append_assoc]
          refine List.Perm.append_left _ (List.Perm.append_left _ ?_)
          refine ((moveLast_perm U).append_right _).trans ?_
          exact List.perm_middle
        · rw [if_neg hlt]
          obtain ⟨h1, h2⟩ := ih E (P ++ [u]) U N (by omega) hE
            (fun x hx => by
              rcases List.mem_append.1 hx with hx | hx
              · exact hP x hx
              · rw [List.mem_singleton.1 hx]; omega) hN
          refine ⟨h1.trans ?_, h2⟩
          simp

/-! ## The products -/

theorem Gen.congr_map {lines rays lines' rays' : List Row} (hl : lines'.map (toV K d) = lines.map (toV K d))
    (hr : rays'.map (toV K d) = rays.map (toV K d)) {x : Fin d → K} (h : Gen lines rays x) : Gen lines' rays' x := by
  have m1 : ∀ l ∈ lines, ∃ l' ∈ lines', toV K d l' = toV K d l := by
    intro l hl'
    have : toV K d l ∈ lines'.map (toV K d) := by rw [hl]; exact List.mem_map_of_mem hl'
    obtain ⟨l', h1, h2⟩ := List.mem_map.1 this
    exact ⟨l', h1, h2⟩
  have m2 : ∀ l ∈ rays, ∃ l' ∈ rays', toV K d l' = toV K d l := by
    intro l hl'
    have : toV K d l ∈ rays'.map (toV K d) := by rw [hr]; exact List.mem_map_of_mem hl'
    obtain ⟨l', h1, h2⟩ := List.mem_map.1 this
    exact ⟨l', h1, h2⟩
  refine Gen.le Gen.isCone (fun l hl' => ?_) (fun r hr' => ?_) h
  · obtain ⟨l', h1, h2⟩ := m1 l hl'
    rw [← h2]; exact ⟨.of_line h1, .of_neg_line h1⟩
  · obtain ⟨l', h1, h2⟩ := m2 r hr'
    rw [← h2]; exact .of_ray h1

/-- the status columns do not matter -/
theorem DDL.status {con lines : List Row} {rays : List SRow} (h : DDL K d con lines rays) (f g : Row → ℤ) :
    DDL K d con (lines.map fun q => q.setStatus (f q)) (rays.map fun x => { x with row := x.row.setStatus (g x.row) }) where
  line := by
    intro l hl q hq
    obtain ⟨l', hl', rfl⟩ := List.mem_map.1 hl
    rw [vprod_setStatus]; exact h.line l' hl' q hq
  ray := by
    intro x hx q hq
    obtain ⟨x', hx', rfl⟩ := List.mem_map.1 hx
    dsimp only
    rw [vprod_setStatus]; exact h.ray x' hx' q hq
  gen := by
    intro x hx
    refine Gen.congr_map ?_ ?_ (h.gen x hx)
    · rw [List.map_map]; exact List.map_congr_left fun q _ => toV_setStatus q _
    · rw [List.map_map, List.map_map, List.map_map]; exact List.map_congr_left fun q _ => toV_setStatus _ _
  proper := by
    intro x hx
    obtain ⟨x', hx', rfl⟩ := List.mem_map.1 hx
    dsimp only
    obtain ⟨q, hq, hne⟩ := h.proper x' hx'
    exact ⟨q, hq, by rw [vprod_setStatus]; exact hne⟩
  anti := by
    rw [List.map_map, List.pairwise_map]
    refine (List.pairwise_map.1 h.anti).imp ?_
    intro x y hxy
    simpa only [Anti2, Anti, Function.comp, vprod_setStatus] using hxy
  sat := by
    intro x hx
    obtain ⟨x', hx', rfl⟩ := List.mem_map.1 hx
    have := h.sat x' hx'
    simpa only [SatOk, vprod_setStatus] using this

theorem dot_nonneg_of_gen {lines : List Row} {rays : List Row} {c : Row} (hl : ∀ l ∈ lines, vprod d c l = 0)
    (hr : ∀ r ∈ rays, 0 ≤ vprod d c r) {x : Fin d → K} (h : Gen lines rays x) : 0 ≤ dot c x := by
  induction h with
  | zero => exact ((lin K d c).map_zero).ge
  | @line x l t _ hm ih =>
    have : dot c (x + t • toV K d l) = dot c x + t * dot c (toV K d l) := by
      rw [← lin_apply, map_add, map_smul]; rfl
    rw [this, dot_toV, hl _ hm]; simpa using ih
  | @ray x r t _ hm ht ih =>
    have : dot c (x + t • toV K d r) = dot c x + t * dot c (toV K d r) := by
      rw [← lin_apply, map_add, map_smul]; rfl
    rw [this, dot_toV]
    have h1 := hr _ hm
    have : (0 : K) ≤ (vprod d c r : ℤ) := by exact_mod_cast h1
    have := mul_nonneg ht this
    linarith

/-! ## One constraint -/

/-- what one step preserves -/
structure StepOk (K : Type*) [LinearOrder K] [Field K] [IsStrictOrderedRing K] (d : ℕ) (c : Row) (rest : List Row)
    (s s' : Conv) : Prop where
  dd : DDL K d s'.done s'.lines s'.rays
  len : s'.todo.length = rest.length
  same : ∀ x : Fin d → K, Sat (s'.done ++ s'.todo) x ↔ Sat (s.done ++ c :: rest) x
  sub : (s'.done ++ s'.todo).Subperm (s.done ++ c :: rest)
  pre : s.done <+: s'.done
  nline : s'.lines.length ≤ s.lines.length

theorem Sat.append {C C' : List Row} {x : Fin d → K} : Sat (C ++ C') x ↔ Sat C x ∧ Sat C' x := by
  constructor
  · intro h
    exact ⟨fun q hq => h q (List.mem_append_left _ hq), fun q hq => h q (List.mem_append_right _ hq)⟩
  · rintro ⟨h1, h2⟩ q hq
    rcases List.mem_append.1 hq with hq | hq
    · exact h1 q hq
    · exact h2 q hq

theorem Sat.perm {C C' : List Row} (h : C.Perm C') {x : Fin d → K} : Sat C x ↔ Sat C' x := by
  simp only [Sat, h.mem_iff]

theorem rayStep_ok {c : Row} {rest : List Row} {s : Conv} (h : DDL K d s.done s.lines s.rays)
    (hst : ∀ x ∈ s.rays, x.row.at' 0 = vprod d c x.row) (hl : ∀ l ∈ s.lines, vprod d c l = 0) :
    StepOk K d c rest s (rayStep (d + 1) c rest s) := by
  obtain ⟨hp, hE, hP, hN⟩ := partition3_spec s.rays.length [] [] s.rays [] le_rfl (by simp) (by simp) (by simp)
  rw [rayStep]
  dsimp only
  generalize hpe : partition3 s.rays.length [] [] s.rays [] = p at *
  obtain ⟨E, P, N⟩ := p
  dsimp only at hp hE hP hN ⊢
  simp only [List.nil_append, List.append_nil] at hp
  have hmem : ∀ x ∈ E ++ P ++ N, x ∈ s.rays := fun x hx => hp.mem_iff.1 hx
  have hst' : ∀ x ∈ E ++ P ++ N, x.row.at' 0 = vprod d c x.row := fun x hx => hst x (hmem x hx)
  have hE' : ∀ x ∈ E, vprod d c x.row = 0 := fun x hx => by
    rw [← hst' x (List.mem_append_left _ (List.mem_append_left _ hx))]; exact hE x hx
  have hP' : ∀ x ∈ P, 0 < vprod d c x.row := fun x hx => by
    rw [← hst' x (List.mem_append_left _ (List.mem_append_right _ hx))]; exact hP x hx
  have hN' : ∀ x ∈ N, vprod d c x.row < 0 := fun x hx => by
    rw [← hst' x (List.mem_append_right _ hx)]; exact hN x hx
  have h' := h.perm hp.symm
  by_cases hred : c.at' 0 ≠ 0 ∧ N = []
  · rw [if_pos hred]
    obtain ⟨hc, rfl⟩ := hred
    rw [List.append_nil] at h'
    refine ⟨h', moveLast_length rest, fun x => ?_, ?_, List.prefix_refl _, le_rfl⟩
    · simp only
      rw [Sat.append, Sat.append, Sat.perm (moveLast_perm rest)]
      constructor
      · rintro ⟨h1, h2⟩
        refine ⟨h1, fun q hq => ?_⟩
        rcases List.mem_cons.1 hq with rfl | hq
        · refine ⟨?_, fun e => absurd e hc⟩
          refine dot_nonneg_of_gen hl (fun r hr => ?_) (h'.gen x h1)
          obtain ⟨y, hy, rfl⟩ := List.mem_map.1 hr
          rcases List.mem_append.1 hy with hy | hy
          · exact (hE' y hy).ge
          · exact (hP' y hy).le
        · exact h2 q hq
      · rintro ⟨h1, h2⟩
        exact ⟨h1, fun q hq => h2 q (List.mem_cons_of_mem _ hq)⟩
    · simp only
      refine List.Perm.subperm ((moveLast_perm rest).append_left _) |>.trans ?_
      exact ((List.sublist_cons_self c rest).append_left _).subperm
  · rw [if_neg hred]
    have hsame : ∀ x : Fin d → K, Sat (s.done ++ [c] ++ rest) x ↔ Sat (s.done ++ c :: rest) x := by
      intro x; rw [List.append_assoc]; rfl
    have hsub : (s.done ++ [c] ++ rest).Subperm (s.done ++ c :: rest) := by
      rw [List.append_assoc]; exact List.Subperm.refl _
    refine ⟨?_, rfl, hsame, hsub, List.prefix_append _ _, le_rfl⟩
    have satlow : ∀ x ∈ E ++ P ++ N, ∀ b, b < s.done.length →
        x.sat.testBit b = decide (b < (s.done ++ [c]).length ∧ vprod d ((s.done ++ [c]).getD b []) x.row ≠ 0) := by
      intro x hx b hb
      rw [h'.sat x hx b, decide_eq_decide, List.getD_append _ _ _ _ hb, List.length_append, List.length_singleton]
      simp [hb, show b < s.done.length + 1 by omega]
    have sathigh : ∀ x ∈ E ++ P ++ N, ∀ b, s.done.length ≤ b → x.sat.testBit b = false := by
      intro x hx b hb
      rw [h'.sat x hx b, decide_eq_false_iff_not]; omega
    have elast : (s.done ++ [c]).getD s.done.length [] = c := by simp
    have okE : ∀ x ∈ E, SatOk d (s.done ++ [c]) x := by
      intro x hx b
      have hx' := List.mem_append_left N (List.mem_append_left P hx)
      rcases lt_trichotomy b s.done.length with hb | rfl | hb
      · exact satlow x hx' b hb
      · rw [sathigh x hx' _ le_rfl, elast, hE' x hx]; simp
      · rw [sathigh x hx' b hb.le, eq_comm, decide_eq_false_iff_not]; simp; omega
    have hnil : combos (d + 1) s.lines.length s.done.length [] [] N = [] := rfl
    simp only
    by_cases hEP : E = [] ∧ P = []
    · rw [if_pos hEP]
      obtain ⟨rfl, rfl⟩ := hEP
      have := h'.ray_step hst' hl hE' hP' hN' (kept := []) (by simp) (by simp) (by simp) (by simp)
      rwa [hnil] at this
    · rw [if_neg hEP]
      by_cases hc : c.at' 0 ≠ 0
      · rw [if_pos hc]
        refine DDL.perm ?_ (replaceTail_perm _ _ _).symm
        refine h'.ray_step hst' hl hE' hP' hN' (fun z hz => ?_) ?_ ?_ ?_
        · rcases List.mem_append.1 hz with hz | hz
          · exact ⟨⟨z, List.mem_append_left _ hz, rfl⟩, okE z hz, fun e => absurd e hc⟩
          · obtain ⟨x, hx, rfl⟩ := List.mem_map.1 hz
            refine ⟨⟨x, List.mem_append_right _ hx, rfl⟩, fun b => ?_, fun e => absurd e hc⟩
            have hx' := List.mem_append_left N (List.mem_append_right E hx)
            dsimp only
            rw [Nat.testBit_or, Nat.one_shiftLeft, Nat.testBit_two_pow]
            rcases lt_trichotomy b s.done.length with hb | rfl | hb
            · rw [satlow x hx' b hb, show decide (s.done.length = b) = false by simp; omega, Bool.or_false]
            · rw [elast]
              have := hP' x hx
              simp; omega
            · rw [sathigh x hx' b hb.le, show decide (s.done.length = b) = false by simp; omega, Bool.or_false, eq_comm,
                decide_eq_false_iff_not]
              simp; omega
        · rw [List.map_append, List.map_append, List.map_map]; exact List.Sublist.refl _
        · intro x hx; rw [List.map_append]; exact List.mem_append_left _ (List.mem_map_of_mem hx)
        · intro _ x hx; rw [List.map_append, List.map_map]; exact List.mem_append_right _ (List.mem_map.2 ⟨x, hx, rfl⟩)
      · rw [if_neg hc]
        refine DDL.perm ?_ (replaceTail_perm _ _ _).symm
        refine h'.ray_step hst' hl hE' hP' hN' (fun z hz => ?_) ?_ ?_ ?_
        · exact ⟨⟨z, List.mem_append_left _ hz, rfl⟩, okE z hz, fun _ => hE' z hz⟩
        · rw [List.map_append]; exact List.sublist_append_left _ _
        · intro x hx; exact List.mem_map_of_mem hx
        · intro e; exact absurd e hc

theorem convStep_ok {c : Row} {rest : List Row} {s : Conv} (h : DDL K d s.done s.lines s.rays) :
    StepOk K d c rest s (convStep (d + 1) c rest s) := by
  rw [convStep]
  simp only [Nat.add_sub_cancel]
  have h' := h.status (fun q => vprod d q c) (fun q => vprod d q c)
  have hst : ∀ x ∈ (products d c s).rays, x.row.at' 0 = vprod d c x.row := by
    intro x hx
    obtain ⟨y, _, rfl⟩ := List.mem_map.1 hx
    simp only [at_setStatus_zero, vprod_setStatus]; exact vprod_comm _ _
  have hstl : ∀ l ∈ (products d c s).lines, l.at' 0 = vprod d c l := by
    intro l hl
    obtain ⟨y, _, rfl⟩ := List.mem_map.1 hl
    simp only [at_setStatus_zero, vprod_setStatus]; exact vprod_comm _ _
  have hlen : (products d c s).lines.length = s.lines.length := List.length_map _
  have hdone : (products d c s).done = s.done := rfl
  have h'' : DDL K d (products d c s).done (products d c s).lines (products d c s).rays := h'
  generalize products d c s = t at *
  have hstep : ∀ s', StepOk K d c rest t s' → StepOk K d c rest s s' := by
    rintro s' ⟨a1, a2, a3, a4, a5, a6⟩
    rw [hdone] at a3 a4 a5
    exact ⟨a1, a2, a3, a4, a5, by omega⟩
  apply hstep
  cases hdw : t.lines.dropWhile (fun q => q.at' 0 == 0) with
  | nil =>
    refine rayStep_ok h'' hst fun l hl => ?_
    rw [List.dropWhile_eq_nil_iff] at hdw
    rw [← hstl l hl]; simpa using hdw l hl
  | cons l0 after =>
    dsimp only
    have hsplit : t.lines = t.lines.takeWhile (fun q => q.at' 0 == 0) ++ l0 :: after := by
      rw [← hdw]; exact List.takeWhile_append_dropWhile.symm
    have hne : l0.at' 0 ≠ 0 := by
      have := List.head_dropWhile_not (fun q : Row => q.at' 0 == 0) (l := t.lines) (by rw [hdw]; simp)
      simp only [hdw, List.head_cons] at this
      simpa using this
    have hperm : t.lines.Perm (l0 :: (t.lines.takeWhile (fun q => q.at' 0 == 0) ++ moveLast after)) := by
      conv_lhs => rw [hsplit]
      refine List.perm_middle.trans (List.Perm.cons _ ?_)
      exact (moveLast_perm after).symm.append_left _
    have := h''.line_step hperm hst hstl hne rfl
    rw [lineStep]
    refine ⟨?_, rfl, fun x => ?_, ?_, List.prefix_append _ _, ?_⟩
    · dsimp only
      by_cases hc : c.at' 0 ≠ 0
      · rw [if_pos hc] at this ⊢; exact this
      · rw [if_neg hc] at this ⊢
        exact this.perm (moveLast_perm _).symm
    · dsimp only; rw [List.append_assoc]; rfl
    · dsimp only; rw [List.append_assoc]; exact List.Subperm.refl _
    · dsimp only
      have := hperm.length_eq
      rw [List.length_map]
      simp only [List.length_cons] at this
      omega

theorem convLoop_ok (n : ℕ) (s : Conv) (hn : s.todo.length ≤ n) (h : DDL K d s.done s.lines s.rays) :
    DDL K d (convLoop (d + 1) n s).done (convLoop (d + 1) n s).lines (convLoop (d + 1) n s).rays ∧
    (convLoop (d + 1) n s).todo = [] ∧
    (∀ x : Fin d → K, Sat (convLoop (d + 1) n s).done x ↔ Sat (s.done ++ s.todo) x) ∧
    (convLoop (d + 1) n s).done.Subperm (s.done ++ s.todo) ∧ s.done <+: (convLoop (d + 1) n s).done := by
  induction n generalizing s with
  | zero =>
    have : s.todo = [] := by cases hs : s.todo <;> simp_all
    rw [convLoop, this, List.append_nil]
    exact ⟨h, rfl, fun _ => Iff.rfl, List.Subperm.refl _, List.prefix_refl _⟩
  | succ n ih =>
    rw [convLoop]
    cases hs : s.todo with
    | nil =>
      dsimp only
      rw [List.append_nil]
      exact ⟨h, hs, fun _ => Iff.rfl, List.Subperm.refl _, List.prefix_refl _⟩
    | cons c rest =>
      dsimp only
      obtain ⟨a1, a2, a3, a4, a5, _⟩ := convStep_ok (c := c) (rest := rest) h
      obtain ⟨b1, b2, b3, b4, b5⟩ := ih (convStep (d + 1) c rest s) (by rw [a2]; rw [hs] at hn; simp at hn; omega) a1
      exact ⟨b1, b2, fun x => (b3 x).trans (a3 x), b4.trans a4, a5.trans b5⟩

/-- correctness of `cherni_conversion` -/
theorem conversion_ok (s : Conv) (h : DDL K d s.done s.lines s.rays) :
    DDL K d (conversion (d + 1) s).done (conversion (d + 1) s).lines (conversion (d + 1) s).rays ∧
    (conversion (d + 1) s).todo = [] ∧
    (∀ x : Fin d → K, Sat (conversion (d + 1) s).done x ↔ Sat (s.done ++ s.todo) x) ∧
    (conversion (d + 1) s).done.Subperm (s.done ++ s.todo) ∧ s.done <+: (conversion (d + 1) s).done ∧
    (∀ l ∈ (conversion (d + 1) s).lines, l.at' 0 = 0) ∧ (∀ x ∈ (conversion (d + 1) s).rays, x.row.at' 0 = 1) := by
  obtain ⟨b1, b2, b3, b4, b5⟩ := convLoop_ok s.todo.length s le_rfl h
  rw [conversion]
  refine ⟨b1.status (fun _ => 0) (fun _ => 1), b2, b3, b4, b5, fun l hl => ?_, fun x hx => ?_⟩
  · obtain ⟨l', _, rfl⟩ := List.mem_map.1 hl; rfl
  · obtain ⟨x', _, rfl⟩ := List.mem_map.1 hx; rfl

/-- the initial state: the whole space -/
theorem initConv_ok (C : List Row) :
    DDL K d (initConv (d + 1) C).done (initConv (d + 1) C).lines (initConv (d + 1) C).rays where
  line := by intro l _ q hq; simp [initConv] at hq
  ray := by intro x hx; simp [initConv] at hx
  gen := by
    intro x _
    have e : x = ∑ i : Fin d, x i • toV K d (unitRow (d + 1) i) := by
      funext j
      rw [Finset.sum_apply]
      rw [Finset.sum_eq_single j]
      · simp [toV, unitRow, at_ofFun]
      · intro i _ hi
        have : ¬ (j : ℕ) = i := fun e => hi (Fin.ext e.symm)
        simp [toV, unitRow, at_ofFun, this]
      · simp
    rw [e]
    have : ∀ s : Finset (Fin d), Gen (initConv (d + 1) C).lines ((initConv (d + 1) C).rays.map SRow.row)
        (∑ i ∈ s, x i • toV K d (unitRow (d + 1) i)) := by
      classical
      intro s
      induction s using Finset.induction_on with
      | empty => exact .zero
      | insert a s ha ih =>
        rw [Finset.sum_insert ha, add_comm (x a • _)]
        exact .line _ ih (List.mem_map.2 ⟨a, by simp, rfl⟩)
    exact this _
  proper := by intro x hx; simp [initConv] at hx
  anti := by simp [initConv]
  sat := by intro x hx; simp [initConv] at hx

/-- no ray is generated by the others -/
theorem DDL.irredundant {con lines : List Row} {rays : List SRow} (h : DDL K d con lines rays) (i : ℕ) (hi : i < rays.length) :
    ¬ Gen (K := K) (d := d) lines ((rays.eraseIdx i).map SRow.row) (toV K d (rays[i]).row) := by
  intro hg
  obtain ⟨q0, hq0, hne0⟩ := h.proper _ (List.getElem_mem hi)
  -- a ray of the decomposition
  have key : ∀ v : Fin d → K, Gen lines ((rays.eraseIdx i).map SRow.row) v →
      (∀ q ∈ con, dot q v = 0) ∨ ∃ j, ∃ hj : j < rays.length, j ≠ i ∧ ∀ q ∈ con, dot q v = 0 → vprod d q (rays[j]).row = 0 := by
    intro v hv
    induction hv with
    | zero => exact .inl fun q _ => (lin K d q).map_zero
    | @line x l t hx hm ih =>
      have e : ∀ q ∈ con, dot q (x + t • toV K d l) = dot q x := by
        intro q hq
        have : dot q (x + t • toV K d l) = dot q x + t * dot q (toV K d l) := by
          rw [← lin_apply, map_add, map_smul]; rfl
        rw [this, dot_toV, h.line l hm q hq]; simp
      rcases ih with ih | ⟨j, hj, hji, ih⟩
      · exact .inl fun q hq => by rw [e q hq]; exact ih q hq
      · exact .inr ⟨j, hj, hji, fun q hq h0 => ih q hq (by rw [← e q hq]; exact h0)⟩
    | @ray x r t hx hm ht ih =>
      rcases ht.eq_or_lt with rfl | ht
      · rw [zero_smul, add_zero]; exact ih
      · obtain ⟨y, hy, rfl⟩ := List.mem_map.1 hm
        rw [List.mem_eraseIdx_iff_getElem] at hy
        obtain ⟨j, hj, hji, rfl⟩ := hy
        refine .inr ⟨j, hj, hji, fun q hq h0 => ?_⟩
        have e : dot q (x + t • toV K d (rays[j]).row) = dot q x + t * dot q (toV K d (rays[j]).row) := by
          rw [← lin_apply, map_add, map_smul]; rfl
        rw [e, dot_toV] at h0
        have h1 : 0 ≤ dot q x := by
          refine dot_nonneg_of_gen (fun l hl => h.line l hl q hq) (fun r hr => ?_) hx
          obtain ⟨y, hy, rfl⟩ := List.mem_map.1 hr
          exact (h.ray y (List.mem_of_mem_eraseIdx hy) q hq).1
        have h2 : (0 : K) ≤ (vprod d q (rays[j]).row : ℤ) := by exact_mod_cast (h.ray _ (List.getElem_mem hj) q hq).1
        have h3 := mul_nonneg ht.le h2
        have h4 : t * ((vprod d q (rays[j]).row : ℤ) : K) = 0 := by linarith
        exact_mod_cast (mul_eq_zero.1 h4).resolve_left ht.ne'
  rcases key _ hg with hz | ⟨j, hj, hji, hz⟩
  · have := hz q0 hq0
    rw [dot_toV] at this
    exact hne0 (by exact_mod_cast this)
  · have hne : rays[i] ≠ rays[j] := fun e => hji ((List.Nodup.getElem_inj_iff h.nodup).1 e.symm)
    obtain ⟨q, hq, e1, e2⟩ := h.row_ne (List.getElem_mem hi) (List.getElem_mem hj) hne
    exact e2 (hz q hq (by rw [dot_toV, e1]; simp))

end Apron.Poly
