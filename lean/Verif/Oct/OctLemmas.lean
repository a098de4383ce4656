import Verif.Oct.Defs
import Verif.Oct.Incremental
import Verif.Itv.Lemmas

/-! # Helper lemmas: octagon values, their invariant, lattice operations -/

set_option autoImplicit false
set_option linter.unusedSectionVars false
set_option linter.ambiguousOpen false

namespace Apron
namespace Oct
open Bound
variable {K : Type*} [LinearOrder K] [Field K] [IsStrictOrderedRing K]

theorem allocTop_cell (dim : ℕ) {i j : ℕ} (hi : i < 2 * dim) (hc : Cell i j) :
    (allocTop dim : Mem K) (matpos i j) = if i = j then fin 0 else pinf := by
  unfold allocTop
  have key := foldl_establish (fun m : Mem K => ∀ i j, Cell i j → i ≠ j → m (matpos i j) = pinf)
    (fun i m => m (matpos i i) = fin 0) (fun m i => m.set (matpos i i) (fin 0))
    (List.range (2 * dim)) ?_ ?_ ?_ (fun _ => pinf) (fun _ _ _ _ => rfl)
  · split_ifs with e
    · subst e; exact key.2 i (by simpa using hi)
    · exact key.1 i j hc e
  · intro m a _ h i j hc e
    rw [Mem.set_ne]
    · exact h i j hc e
    · intro e'
      obtain ⟨rfl, rfl⟩ := matpos_inj hc (cell_refl a) e'
      exact e rfl
  · intro m a _ _; exact Mem.set_self _ _ _
  · intro m a a' _ _ h
    by_cases e : a = a'
    · subst e; exact Mem.set_self _ _ _
    · rw [Mem.set_ne]
      · exact h
      · intro e'; exact e (matpos_inj (cell_refl _) (cell_refl _) e').1.symm

/-- every position below `matsize` is a cell -/
theorem exists_cell {dim p : ℕ} (h : p < matsize dim) : ∃ i j, i < 2 * dim ∧ Cell i j ∧ p = matpos i j := by
  have key : ∀ n, p < matpos n 0 → ∃ i j, i < n ∧ Cell i j ∧ p = matpos i j := by
    intro n
    induction n with
    | zero => intro h; simp [matpos] at h
    | succ n ih =>
      intro h
      by_cases h' : p < matpos n 0
      · obtain ⟨i, j, h1, h2, h3⟩ := ih h'
        exact ⟨i, j, by omega, h2, h3⟩
      · rw [row_step, matpos_eq n (n ||| 1)] at h
        refine ⟨n, p - matpos n 0, by omega, le_or1_iff.1 (by omega), ?_⟩
        rw [matpos_eq]; omega
  refine key (2 * dim) ?_
  have h3 : matpos (2 * dim) 0 = matsize dim := by
    unfold matpos matsize; rw [row_even]; omega
  omega

theorem noNinf_iff {dim : ℕ} {m : Mem K} :
    NoNinf dim m ↔ ∀ i j, i < 2 * dim → Cell i j → m (matpos i j) ≠ ninf := by
  constructor
  · intro h i j hi hc; exact h _ (matpos_lt hi hc)
  · intro h p hp
    obtain ⟨i, j, h1, h2, rfl⟩ := exists_cell hp
    exact h i j h1 h2

theorem allocTop_noNinf (dim : ℕ) : NoNinf dim (allocTop dim : Mem K) := by
  rw [noNinf_iff]; intro i j hi hc
  rw [allocTop_cell dim hi hc]; split_ifs <;> simp

theorem G_allocTop (dim i j : ℕ) :
    G dim (allocTop dim : Mem K) i j = if i = j ∧ i < 2 * dim then fin 0 else pinf := by
  unfold G
  by_cases hl : i < 2 * dim ∧ j < 2 * dim
  · rw [if_pos hl, matpos2_eq]
    split_ifs with hc e e
    · rw [allocTop_cell dim hl.1 hc, if_pos e.1]
    · rw [allocTop_cell dim hl.1 hc, if_neg (fun h => e ⟨h, hl.1⟩)]
    · exact absurd (e.1 ▸ cell_refl i) hc
    · rw [allocTop_cell dim (xor1_lt hl.2) ((cell_or_mirror i j).resolve_left hc), if_neg]
      rw [xor1_inj]; exact fun h => e ⟨h.symm, hl.1⟩
  · rw [if_neg hl, if_neg]; rintro ⟨rfl, h⟩; exact hl ⟨h, h⟩

theorem allocTop_SC (dim : ℕ) : SC dim (G dim (allocTop dim : Mem K)) := by
  refine ⟨G_ne (allocTop_noNinf dim), fun i hi => ?_, fun i j => ?_, fun p i j a b ha hb => ?_,
    fun i j a b ha hb => ?_⟩
  · rw [G_allocTop, if_pos ⟨rfl, hi⟩]
  · rw [G_allocTop, G_allocTop]
    by_cases e : i = j
    · subst e; simp only [xor1_lt_iff]
    · rw [if_neg (by tauto), if_neg (fun h => e (xor1_inj.1 h.1).symm)]
  · rw [G_allocTop] at ha hb ⊢
    split_ifs at ha hb with h1 h2 <;> simp at ha hb
    rw [if_pos ⟨h1.1.trans h2.1, h1.2⟩]
    simp; linarith
  · rw [G_allocTop, if_neg (by intro h; exact xor1_ne i h.1.symm)] at ha
    simp at ha

theorem allocTop_sat (dim : ℕ) (x : ℕ → K) : Sat dim (allocTop dim) x := by
  intro i j hi hc
  rw [allocTop_cell dim hi hc]
  split_ifs with e
  · subst e; simp
  · simp

theorem sat_min {dim : ℕ} {m1 m2 : Mem K} {x : ℕ → K} :
    Sat dim (fun p => bmin (m1 p) (m2 p)) x ↔ Sat dim m1 x ∧ Sat dim m2 x := by
  unfold Sat
  simp only [bmin_eq_min, le_min_iff]
  exact ⟨fun h => ⟨fun i j hi hc => (h i j hi hc).1, fun i j hi hc => (h i j hi hc).2⟩,
    fun h i j hi hc => ⟨h.1 i j hi hc, h.2 i j hi hc⟩⟩

theorem G_max (dim : ℕ) (m1 m2 : Mem K) (i j : ℕ) :
    G dim (fun p => bmax (m1 p) (m2 p)) i j = max (G dim m1 i j) (G dim m2 i j) := by
  unfold G; simp only [bmax_eq_max]; split_ifs <;> simp

theorem SC_max {dim : ℕ} {m1 m2 : Mem K} (h1 : SC dim (G dim m1)) (h2 : SC dim (G dim m2)) :
    SC dim (G dim (fun p => bmax (m1 p) (m2 p))) := by
  refine ⟨fun i j => ?_, fun i hi => ?_, fun i j => ?_, fun p i j a b ha hb => ?_,
    fun i j a b ha hb => ?_⟩
  · rw [G_max]
    rcases max_choice (G dim m1 i j) (G dim m2 i j) with h | h <;> rw [h]
    · exact h1.ne _ _
    · exact h2.ne _ _
  · rw [G_max, h1.diag i hi, h2.diag i hi]; simp
  · rw [G_max, G_max, h1.coh, h2.coh]
  · rw [G_max, max_le_iff] at *
    exact ⟨h1.tri _ _ _ _ _ ha.1 hb.1, h2.tri _ _ _ _ _ ha.2 hb.2⟩
  · rw [G_max, max_le_iff] at *
    exact ⟨h1.strong _ _ _ _ ha.1 hb.1, h2.strong _ _ _ _ ha.2 hb.2⟩

theorem SC.noNinf {dim : ℕ} {m : Mem K} (h : SC dim (G dim m)) : NoNinf dim m := by
  rw [noNinf_iff]; intro i j hi hc
  rw [← G_cell m hi hc]; exact h.ne _ _

end Oct

namespace OctT
open Bound Oct
variable {K : Type*} [LinearOrder K] [Field K] [IsStrictOrderedRing K] (R : Rnd K)

theorem allCells_iff {dim : ℕ} {p : ℕ → ℕ → Bool} :
    allCells dim p = true ↔ ∀ i j, i < 2 * dim → Cell i j → p i j = true := by
  unfold allCells
  simp only [List.all_eq_true, List.mem_range, Nat.lt_succ_iff, le_or1_iff]
  exact ⟨fun h i j hi hc => h i hi j hc, fun h i hi j hc => h i j hi hc⟩

/-- representation invariant under any rounding: both matrices denote the same points -/
def WfR (a : OctT K) : Prop :=
  ∀ m c, a.m = some m → a.closed = some c → ∀ x, Sat a.dim m x ↔ Sat a.dim c x

/-- original matrices: no `-oo`, equal diagonal copies, non-negative diagonal -/
structure Good (dim : ℕ) (m : Mem K) : Prop where
  ne : NoNinf dim m
  coh : DiagCoh dim m
  nn : ∀ i, i < 2 * dim → fin 0 ≤ m (matpos i i)

/-- representation invariant with exact arithmetic -/
structure Wf (a : OctT K) : Prop where
  wfr : WfR a
  good : ∀ m, a.m = some m → Good a.dim m
  sc : ∀ c, a.closed = some c → SC a.dim (G a.dim c)

theorem SC_good {dim : ℕ} {m : Mem K} (h : SC dim (G dim m)) : Good dim m where
  ne := h.noNinf
  coh := diagCoh_of_coh h.coh
  nn := fun i hi => by rw [← G_cell m hi (cell_refl i), h.diag i hi]

theorem gam_iff_best {a : OctT K} {x : ℕ → K} : a.Gam x ↔ ∃ m, a.best = some m ∧ Sat a.dim m x := by
  rcases a with ⟨m, c, dim, intdim⟩
  cases c <;> cases m <;> simp [Gam, best]

theorem gam_iff_orig {a : OctT K} (h : WfR a) {x : ℕ → K} :
    a.Gam x ↔ ∃ m, a.orig = some m ∧ Sat a.dim m x := by
  rcases a with ⟨m, c, dim, intdim⟩
  cases c <;> cases m <;> simp [Gam, orig]
  exact (h _ _ rfl rfl x).symm

theorem best_none_iff {a : OctT K} : a.best = none ↔ a.m = none ∧ a.closed = none := by
  rcases a with ⟨m, c, dim, intdim⟩
  cases c <;> cases m <;> simp [best]

theorem orig_none_iff {a : OctT K} : a.orig = none ↔ a.m = none ∧ a.closed = none := by
  rcases a with ⟨m, c, dim, intdim⟩
  cases c <;> cases m <;> simp [orig]

theorem close_true_empty {dim : ℕ} {m c : Mem K} (h : close R dim m = (true, c)) (x : ℕ → K) :
    ¬ Sat dim m x := by
  intro hs
  have := (close_sat R hs).1
  rw [h] at this; simp at this

theorem close_false_iff {dim : ℕ} {m c : Mem K} (h : close R dim m = (false, c)) (x : ℕ → K) :
    Sat dim m x ↔ Sat dim c x := by
  constructor
  · intro hs
    have := (close_sat R hs).2
    rw [h] at this; exact this
  · intro hs
    refine hs.mono fun i j _ _ => ?_
    have := close_le R dim m (matpos i j)
    rw [h] at this; exact this

theorem cacheClosure_dim (a : OctT K) : (cacheClosure R a).dim = a.dim ∧
    (cacheClosure R a).intdim = a.intdim := by
  unfold cacheClosure; repeat' split
  all_goals exact ⟨rfl, rfl⟩

theorem cacheIf_dim (algo : ℤ) (a : OctT K) : (cacheIf R algo a).dim = a.dim := by
  unfold cacheIf; split_ifs
  · exact (cacheClosure_dim R a).1
  · rfl

theorem cacheIf_intdim (algo : ℤ) (a : OctT K) : (cacheIf R algo a).intdim = a.intdim := by
  unfold cacheIf; split_ifs
  · exact (cacheClosure_dim R a).2
  · rfl

theorem gam_cacheClosure (a : OctT K) (x : ℕ → K) : (cacheClosure R a).Gam x ↔ a.Gam x := by
  rcases a with ⟨m, c, dim, intdim⟩
  cases c with
  | some c => simp [cacheClosure]
  | none =>
    cases m with
    | none => simp [cacheClosure]
    | some m =>
      simp only [cacheClosure]
      rcases hcl : close R dim m with ⟨b, c⟩
      cases b with
      | true => simpa [Gam] using close_true_empty R hcl x
      | false => simpa [Gam] using (close_false_iff R hcl x).symm

theorem wfR_cacheClosure {a : OctT K} (h : WfR a) : WfR (cacheClosure R a) := by
  rcases a with ⟨m, c, dim, intdim⟩
  cases c with
  | some c => simpa [cacheClosure] using h
  | none =>
    cases m with
    | none => simpa [cacheClosure] using h
    | some m =>
      simp only [cacheClosure]
      rcases hcl : close R dim m with ⟨b, c⟩
      cases b with
      | true => intro m' c' h1; simp at h1
      | false =>
        intro m' c' h1 h2 x
        simp at h1 h2; subst h1 h2
        exact close_false_iff R hcl x

theorem gam_cacheIf (algo : ℤ) (a : OctT K) (x : ℕ → K) : (cacheIf R algo a).Gam x ↔ a.Gam x := by
  unfold cacheIf; split_ifs
  · exact gam_cacheClosure R a x
  · exact Iff.rfl

theorem wfR_cacheIf (algo : ℤ) {a : OctT K} (h : WfR a) : WfR (cacheIf R algo a) := by
  unfold cacheIf; split_ifs
  · exact wfR_cacheClosure R h
  · exact h

theorem wf_cacheClosure {a : OctT K} (h : Wf a) : Wf (cacheClosure Rnd.exact a) := by
  refine ⟨wfR_cacheClosure _ h.wfr, ?_, ?_⟩
  · rcases a with ⟨m, c, dim, intdim⟩
    cases c with
    | some c => simpa [cacheClosure] using h.good
    | none =>
      cases m with
      | none => simp [cacheClosure]
      | some m =>
        simp only [cacheClosure]
        rcases hcl : close Rnd.exact dim m with ⟨b, c⟩
        cases b with
        | true => simp
        | false => simpa using h.good m rfl
  · rcases a with ⟨m, c, dim, intdim⟩
    cases c with
    | some c => simpa [cacheClosure] using h.sc
    | none =>
      cases m with
      | none => simp [cacheClosure]
      | some m =>
        simp only [cacheClosure]
        rcases hcl : close Rnd.exact dim m with ⟨b, c⟩
        cases b with
        | true => simp
        | false =>
          have hg := h.good m rfl
          have := close_SC hg.ne hg.coh (by rw [hcl])
          rw [hcl] at this
          simpa using this

theorem wf_cacheIf (algo : ℤ) {a : OctT K} (h : Wf a) : Wf (cacheIf Rnd.exact algo a) := by
  unfold cacheIf; split_ifs
  · exact wf_cacheClosure h
  · exact h

theorem wf_closeOct {a : OctT K} (h : Wf a) : Wf (closeOct Rnd.exact a) := by
  rcases a with ⟨m, c, dim, intdim⟩
  cases m with
  | none => simpa [closeOct] using h
  | some m =>
    cases c with
    | some c =>
      exact ⟨fun _ _ h1 => by simp [closeOct] at h1, fun _ h1 => by simp [closeOct] at h1, h.sc⟩
    | none =>
      have := wf_cacheClosure h
      simp only [closeOct, cacheClosure] at this ⊢
      rcases hcl : close Rnd.exact dim m with ⟨b, c⟩
      rw [hcl] at this
      cases b with
      | true => exact this
      | false => exact ⟨fun _ _ h1 => by simp at h1, fun _ h1 => by simp at h1, this.sc⟩

theorem gam_closeOct (a : OctT K) (x : ℕ → K) :
    (closeOct R a).Gam x ↔ a.Gam x := by
  rcases a with ⟨m, c, dim, intdim⟩
  cases m with
  | none => simp [closeOct]
  | some m =>
    cases c with
    | some c => simp [closeOct, Gam]
    | none =>
      simp only [closeOct]
      rcases hcl : close R dim m with ⟨b, c⟩
      cases b with
      | true => simpa [Gam] using close_true_empty R hcl x
      | false => simpa [Gam] using (close_false_iff R hcl x).symm

/-- after caching, an octagon is either empty or has a normal form -/
theorem cached_cases (a : OctT K) : (cacheClosure R a).best = none ∨
    ∃ c, (cacheClosure R a).closed = some c := by
  rcases a with ⟨m, c, dim, intdim⟩
  cases c with
  | some c => simp [cacheClosure]
  | none =>
    cases m with
    | none => simp [cacheClosure, best]
    | some m =>
      simp only [cacheClosure]
      rcases hcl : close R dim m with ⟨b, c⟩
      cases b <;> simp [best]

theorem best_of_closed {a : OctT K} {c : Mem K} (h : a.closed = some c) : a.best = some c := by
  simp [best, h]

theorem cmp_le_iff {a b : Bound K} : (!decide (0 < Bound.cmp a b)) = true ↔ a ≤ b := by
  rw [Bool.not_eq_true', decide_eq_false_iff_not, cmp_pos, not_lt]

/-- good original matrix -/
theorem Wf.good_best {a : OctT K} (h : Wf a) {m : Mem K} (hm : a.best = some m) : Good a.dim m := by
  rcases a with ⟨m', c, dim, intdim⟩
  cases c with
  | some c =>
    obtain rfl : c = m := by simpa [best] using hm
    exact SC_good (h.sc _ rfl)
  | none =>
    cases m' with
    | none => simp [best] at hm
    | some m' =>
      obtain rfl : m' = m := by simpa [best] using hm
      exact h.good _ rfl

theorem Wf.good_orig {a : OctT K} (h : Wf a) {m : Mem K} (hm : a.orig = some m) : Good a.dim m := by
  rcases a with ⟨m', c, dim, intdim⟩
  cases m' with
  | some c =>
    obtain rfl : c = m := by simpa [orig] using hm
    exact h.good _ rfl
  | none =>
    cases c with
    | none => simp [orig] at hm
    | some m' =>
      obtain rfl : m' = m := by simpa [orig] using hm
      exact SC_good (h.sc _ rfl)

/-- an octagon built from an original matrix only -/
theorem wf_of_good {m : Mem K} {dim intdim : ℕ} (h : Good dim m) : Wf (⟨some m, none, dim, intdim⟩ : OctT K) :=
  ⟨fun _ _ _ h => by simp at h, fun m' h' => by simp at h'; subst h'; exact h, fun c h => by simp at h⟩

theorem wf_of_SC {m : Mem K} {dim intdim : ℕ} (h : SC dim (G dim m)) :
    Wf (⟨none, some m, dim, intdim⟩ : OctT K) :=
  ⟨fun _ _ h => by simp at h, fun m' h' => by simp at h', fun c h' => by simp at h'; subst h'; exact h⟩

theorem wf_bottom (dim intdim : ℕ) : Wf (bottom dim intdim : OctT K) :=
  ⟨fun _ _ h => by simp [bottom] at h, fun m' h' => by simp [bottom] at h', fun c h' => by simp [bottom] at h'⟩

theorem wf_top (dim intdim : ℕ) : Wf (top dim intdim : OctT K) := wf_of_SC (allocTop_SC dim)

theorem gam_bottom (dim intdim : ℕ) (x : ℕ → K) : ¬ (bottom dim intdim : OctT K).Gam x := by
  simp [Gam, bottom]

theorem gam_top (dim intdim : ℕ) (x : ℕ → K) : (top dim intdim : OctT K).Gam x := by
  simpa [Gam, top] using allocTop_sat dim x

/-- the pointwise construction of good matrices -/
theorem good_pointwise {dim : ℕ} {m1 m2 : Mem K} (h1 : Good dim m1) (h2 : Good dim m2)
    (f : Bound K → Bound K → Bound K) (hn : ∀ a b, a ≠ ninf → b ≠ ninf → f a b ≠ ninf)
    (h0 : ∀ a b, fin 0 ≤ a → fin 0 ≤ b → fin 0 ≤ f a b) : Good dim (fun p => f (m1 p) (m2 p)) where
  ne := fun p hp => hn _ _ (h1.ne p hp) (h2.ne p hp)
  coh := fun i hi => by simp only; rw [h1.coh i hi, h2.coh i hi]
  nn := fun i hi => h0 _ _ (h1.nn i hi) (h2.nn i hi)

/-- a normal form lies below every other matrix satisfied by all its points -/
theorem SC_le_of_sat {dim : ℕ} {c m : Mem K} (hc : SC dim (G dim c))
    (h : ∀ x, Sat dim c x → Sat dim m x) {i j : ℕ} (hi : i < 2 * dim) (hcell : Cell i j) :
    c (matpos i j) ≤ m (matpos i j) := by
  have hj : j < 2 * dim := by unfold Cell at hcell; omega
  rw [← G_cell c hi hcell]
  exact hc.tight hi hj fun x hx => h x (satOn_iff.1 hx) i j hi hcell

end OctT
end Apron
