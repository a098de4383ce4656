import Verif.Oct.ReachLemmas
import Verif.Props.OctTransfer
import Verif.Props.OctResize

/-!
# C119: the octagons a program can build

`OctReach` gathers the octagons obtained from the constructors by any sequence of operations with legal arguments, with exact
arithmetic, and with any choice of the option `algorithm` at each step.
-/

set_option autoImplicit false
set_option linter.unusedSectionVars false
set_option linter.ambiguousOpen false

namespace Apron
open Bound Oct OctT
variable {K : Type*} [LinearOrder K] [Field K] [IsStrictOrderedRing K] [FloorRing K]

/-- the octagons built by the library; the normalisations done by tests (`oct_cache_closure`, `oct_close`) change their arguments, so
that they are steps as well -/
inductive OctReach : OctT K → Prop
  | bottom (dim intdim : ℕ) : OctReach (OctT.bottom dim intdim)
  | top (dim intdim : ℕ) : OctReach (OctT.top dim intdim)
  | ofBox (dim intdim : ℕ) (t : ℕ → Itv K) : (∀ i < dim, (t i).inf ≠ ninf ∧ (t i).sup ≠ ninf) →
      OctReach (OctT.ofBox Rnd.exact dim intdim (some t))
  | cache {a : OctT K} : OctReach a → OctReach (OctT.cacheClosure Rnd.exact a)
  | close {a : OctT K} : OctReach a → OctReach (OctT.closeOct Rnd.exact a)
  | meet {a b : OctT K} : OctReach a → OctReach b → a.dim = b.dim → OctReach (OctT.meet a b)
  | meetArray {a : OctT K} {l : List (OctT K)} : OctReach a → (∀ b ∈ l, OctReach b) → (∀ b ∈ l, b.dim = a.dim) →
      OctReach (OctT.meetArray a l)
  | join {a b : OctT K} (algo : ℤ) : OctReach a → OctReach b → a.dim = b.dim → OctReach (OctT.join Rnd.exact algo a b)
  | joinArray {a : OctT K} {l : List (OctT K)} (algo : ℤ) : OctReach a → (∀ b ∈ l, OctReach b) → (∀ b ∈ l, b.dim = a.dim) →
      OctReach (OctT.joinArray Rnd.exact algo a l)
  | widening {a b : OctT K} (algo : ℤ) : OctReach a → OctReach b → a.dim = b.dim → OctReach (OctT.widening Rnd.exact algo a b)
  | wideningThresholds {a b : OctT K} (algo : ℤ) (th : List (Bound K)) : OctReach a → OctReach b → a.dim = b.dim →
      OctReach (OctT.wideningThresholds Rnd.exact algo th a b)
  | narrowing {a b : OctT K} (algo : ℤ) : OctReach a → OctReach b → a.dim = b.dim → OctReach (OctT.narrowing Rnd.exact algo a b)
  | forget {a : OctT K} (algo : ℤ) (tdim : List ℕ) (project : Bool) : OctReach a →
      OctReach (OctT.forgetArray Rnd.exact algo a tdim project)
  | add {a : OctT K} (pos : List ℕ) (intadd : ℕ) (project : Bool) : OctReach a → pos ≠ [] → pos.Pairwise (· ≤ ·) →
      (∀ q ∈ pos, q ≤ a.dim) → OctReach (OctT.addDimensions a pos intadd project)
  | remove {a : OctT K} (algo : ℤ) (u : Mem K) (pos : List ℕ) (intrem : ℕ) : OctReach a → pos ≠ [] → pos.Pairwise (· < ·) →
      (∀ q ∈ pos, q < a.dim) → OctReach (OctT.removeDimensions Rnd.exact algo u a pos intrem)
  | permute {a : OctT K} (u : Mem K) (perm : ℕ → ℕ) : OctReach a →
      (∀ i j, i < a.dim → j < a.dim → perm i = perm j → i = j) → (∀ i, i < a.dim → perm i < a.dim) →
      OctReach (OctT.permuteDimensions u a perm)
  | expand {a : OctT K} (d n : ℕ) : OctReach a → d < a.dim → a.intdim ≤ a.dim → OctReach (OctT.expand a d n)
  | fold {a : OctT K} (algo : ℤ) (d : ℕ) (ts : List ℕ) : OctReach a → ts ≠ [] → (d :: ts).Pairwise (· < ·) →
      (∀ q ∈ d :: ts, q < a.dim) → OctReach (OctT.fold Rnd.exact algo a d ts)
  | meetLincons {a : OctT K} (algo : ℤ) (ar : List (Lincons K)) : OctReach a → (∀ c ∈ ar, c.expr.InDim a.dim) →
      (∀ c ∈ ar, c.expr.Proper) → OctReach (OctT.meetLinconsArray Rnd.exact algo a ar)
  | assign {a : OctT K} (algo : ℤ) (d : ℕ) (e : Linexpr K) (dest : Option (OctT K)) : OctReach a → d < a.dim → e.InDim a.dim →
      e.Proper → (∀ b, dest = some b → b.dim = a.dim) → (∀ b, dest = some b → OctReach b) →
      OctReach (OctT.assignLinexpr Rnd.exact algo a d e dest)
  | assignArray {a : OctT K} (algo : ℤ) (u : Mem K) (te : List (ℕ × Linexpr K)) (dest : Option (OctT K)) : OctReach a →
      (te.map Prod.fst).Nodup → (∀ p ∈ te, p.1 < a.dim) → (∀ p ∈ te, p.2.InDim a.dim ∧ p.2.Proper) →
      (∀ b, dest = some b → b.dim = a.dim) → (∀ b, dest = some b → OctReach b) →
      OctReach (OctT.assignLinexprArray Rnd.exact algo u a te dest)
  | subst {a : OctT K} (algo : ℤ) (d : ℕ) (e : Linexpr K) (dest : Option (OctT K)) : OctReach a → 0 ≤ algo → d < a.dim →
      e.InDim a.dim → e.Proper → (∀ b, dest = some b → b.dim = a.dim) → (∀ b, dest = some b → OctReach b) →
      OctReach (OctT.substLinexpr Rnd.exact algo a d e dest)
  | substArray {a : OctT K} (algo : ℤ) (te : List (ℕ × Linexpr K)) (dest : Option (OctT K)) : OctReach a → 0 ≤ algo →
      (te.map Prod.fst).Nodup → (∀ p ∈ te, p.1 < a.dim) → (∀ p ∈ te, p.2.InDim a.dim ∧ p.2.Proper) →
      (∀ b, dest = some b → b.dim = a.dim) → (∀ b, dest = some b → OctReach b) →
      OctReach (OctT.substLinexprArray Rnd.exact algo a te dest)

/-- every octagon that a program can build satisfies the representation invariant -/
theorem C119_reachable_wf {a : OctT K} (h : OctReach a) : Wf a := by
  induction h with
  | bottom => exact wf_bottom _ _
  | top => exact wf_top _ _
  | ofBox dim intdim t hn => exact wf_ofBox dim intdim t hn
  | cache _ ih => exact wf_cacheClosure ih
  | close _ ih => exact wf_closeOct ih
  | meet _ _ hd h1 h2 => exact wf_meet h1 h2 hd
  | meetArray _ _ hd h1 h2 => exact wf_meetArray h1 fun b hb => ⟨h2 b hb, hd b hb⟩
  | join algo _ _ hd h1 h2 => exact wf_join algo h1 h2 hd
  | joinArray algo _ _ hd h1 h2 => exact wf_joinArray algo h1 fun b hb => ⟨h2 b hb, hd b hb⟩
  | widening algo _ _ hd h1 h2 => exact wf_widening algo h1 h2 hd
  | wideningThresholds algo th _ _ hd h1 h2 => exact wf_wideningThresholds algo th h1 h2 hd
  | narrowing algo _ _ hd h1 h2 => exact wf_narrowing algo h1 h2 hd
  | forget algo tdim project _ ih => exact wf_forgetArray algo ih tdim project
  | add pos n project _ hne hs hlt ih => exact wf_addDimensions ih hne hs hlt n project
  | remove algo u pos n _ hne hs hlt ih => exact wf_removeDimensions algo u ih hne hs hlt n
  | permute u perm _ hi hp ih => exact wf_permuteDimensions u ih hi hp
  | expand d n _ hd hi ih => exact wf_expand hd hi ih
  | fold algo d ts _ hne hs hlt ih => exact wf_fold algo ih hs hlt hne
  | meetLincons algo ar _ he hp ih => exact wf_meetLincons ih he hp
  | assign algo d e dest _ hd he hp hdim _ ih h2 => exact wf_assignLinexpr ih hd he hp fun b hb => ⟨hdim b hb, h2 b hb⟩
  | assignArray algo u te dest _ hn hd he hdim _ ih h2 =>
    exact wf_assignArray ih hn hd he fun b hb => ⟨hdim b hb, h2 b hb⟩
  | subst algo d e dest _ h0 hd he hp hdim _ ih h2 =>
    exact wf_substLinexpr h0 ih hd he hp fun b hb => ⟨hdim b hb, h2 b hb⟩
  | substArray algo te dest _ h0 hn hd he hdim _ ih h2 =>
    exact wf_substArray h0 ih hn hd he fun b hb => ⟨hdim b hb, h2 b hb⟩

/-- A matrix kept as normalised really is: the octagon is not empty, and each entry is the least upper bound of `±x ± y` over its
points. -/
theorem C119_closed_matrix_is_tight {a : OctT K} (h : OctReach a) {c : Mem K} (hc : a.closed = some c) :
    (∃ x, a.Gam x) ∧
    ∀ i j, i < 2 * a.dim → j < 2 * a.dim → (∀ x, a.Gam x → fin (V x j - V x i) ≤ c (matpos2 i j)) ∧
      ∀ b, (∀ x, a.Gam x → fin (V x j - V x i) ≤ b) → c (matpos2 i j) ≤ b := by
  have hw := C119_reachable_wf h
  have hsc := hw.sc c hc
  have hg : ∀ x, a.Gam x ↔ Sat a.dim c x := fun x => by rw [gam_iff_best, best_of_closed hc]; simp
  refine ⟨?_, fun i j hi hj => ?_⟩
  · obtain ⟨x, hx⟩ := hsc.nonempty
    exact ⟨x, (hg x).2 hx⟩
  · have e : (OctT.cacheClosure Rnd.exact a).closed = some c := by
      unfold OctT.cacheClosure
      simp [hc]
    exact C28_tightest a hw c e i j hi hj

/-- The two matrices that an octagon may hold (the given one and the normalised one) describe the same set. -/
theorem C119_two_matrices_agree {a : OctT K} (h : OctReach a) {m c : Mem K} (hm : a.m = some m) (hc : a.closed = some c) (x : ℕ → K) :
    Sat a.dim m x ↔ Sat a.dim c x := (C119_reachable_wf h).wfr m c hm hc x

/-- Hence the tests of the library are right about every octagon that a program can build, whatever the history of the octagon. -/
theorem C119_tests_exact {a b : OctT K} (ha : OctReach a) (hb : OctReach b) (hd : a.dim = b.dim) (algo : ℤ) (h0 : 0 ≤ algo) :
    (OctT.isBottom Rnd.exact algo a = true ↔ ∀ x, ¬ a.Gam x) ∧
    (OctT.isTop a = true ↔ ∀ x, a.Gam x) ∧
    (OctT.isLeq Rnd.exact algo a b = true ↔ ∀ x, a.Gam x → b.Gam x) ∧
    (OctT.isEq Rnd.exact algo a b = true ↔ ∀ x, a.Gam x ↔ b.Gam x) := by
  have wa := C119_reachable_wf ha
  have wb := C119_reachable_wf hb
  exact ⟨C27_is_bottom_exact algo h0 a wa, C30_is_top_exact a wa, C30_is_leq_exact algo h0 a b wa hd,
    C30_is_eq_exact algo h0 a b wa wb hd⟩

/-- `[0,1] × [0,1]` -/
def exBoxReach : ℕ → Itv ℚ := fun _ => ⟨fin 0, fin 1⟩

theorem exReach_box : OctReach (OctT.ofBox Rnd.exact 2 0 (some exBoxReach)) :=
  .ofBox 2 0 _ fun _ _ => ⟨by simp [exBoxReach], by simp [exBoxReach]⟩

/-- a box is built already normalised: the first theorem applies to a stored matrix -/
example : (OctT.ofBox Rnd.exact 2 0 (some exBoxReach)).closed.isSome = true := by decide +kernel

/-- `[0,1] × [0,1]`, its first variable forgotten, joined with the meet of the square and of its normal form -/
example : OctReach (OctT.join Rnd.exact 0 (OctT.forgetArray Rnd.exact 0 (OctT.ofBox Rnd.exact 2 0 (some exBoxReach)) [0] false)
    (OctT.meet (OctT.ofBox Rnd.exact 2 0 (some exBoxReach)) (OctT.cacheClosure Rnd.exact (OctT.ofBox Rnd.exact 2 0 (some exBoxReach))))) :=
  .join 0 (.forget 0 [0] false exReach_box) (.meet exReach_box (.cache exReach_box) (by decide +kernel)) (by decide +kernel)

end Apron
