import Verif.Oct.OctLemmas
import Verif.Seq
import Mathlib.Algebra.BigOperators.Group.Finset.Basic
import Mathlib.Algebra.Order.BigOperators.Group.Finset

/-! # Helper lemmas: octagon lattice operations, widening -/

set_option autoImplicit false
set_option linter.unusedSectionVars false
set_option linter.ambiguousOpen false

namespace Apron
namespace OctT
open Bound Oct
variable {K : Type*} [LinearOrder K] [Field K] [IsStrictOrderedRing K] (R : Rnd K)

/-- membership through an arbitrary optional matrix -/
theorem gam_best {a : OctT K} {x : ℕ → K} {m : Mem K} (h : a.best = some m) :
    a.Gam x ↔ Sat a.dim m x := by rw [gam_iff_best, h]; simp

theorem gam_best_none {a : OctT K} {x : ℕ → K} (h : a.best = none) : ¬ a.Gam x := by
  rw [gam_iff_best, h]; simp

theorem gam_orig {a : OctT K} (hw : WfR a) {x : ℕ → K} {m : Mem K} (h : a.orig = some m) :
    a.Gam x ↔ Sat a.dim m x := by rw [gam_iff_orig hw, h]; simp

theorem gam_orig_none {a : OctT K} {x : ℕ → K} (h : a.orig = none) : ¬ a.Gam x :=
  gam_best_none (best_none_iff.2 (orig_none_iff.1 h))

theorem gam_m {m : Mem K} {dim intdim : ℕ} {x : ℕ → K} :
    (⟨some m, none, dim, intdim⟩ : OctT K).Gam x ↔ Sat dim m x := by simp [Gam]

theorem gam_closed {m : Mem K} {dim intdim : ℕ} {x : ℕ → K} :
    (⟨none, some m, dim, intdim⟩ : OctT K).Gam x ↔ Sat dim m x := by simp [Gam]

theorem wfR_m (m : Mem K) (dim intdim : ℕ) : WfR (⟨some m, none, dim, intdim⟩ : OctT K) :=
  fun _ _ _ h => by simp at h
theorem wfR_closed (m : Mem K) (dim intdim : ℕ) : WfR (⟨none, some m, dim, intdim⟩ : OctT K) :=
  fun _ _ h => by simp at h
theorem wfR_bottom (dim intdim : ℕ) : WfR (bottom dim intdim : OctT K) :=
  fun _ _ h => by simp [bottom] at h

theorem sat_of_le {dim : ℕ} {m m' : Mem K} {x : ℕ → K} (hs : Sat dim m x)
    (h : ∀ i j, i < 2 * dim → Cell i j → m (matpos i j) ≤ m' (matpos i j)) : Sat dim m' x :=
  fun i j hi hc => (hs i j hi hc).trans (h i j hi hc)

/-- normal form of a cached non-empty octagon -/
theorem cached_SC {a : OctT K} (h : Wf a) {algo : ℤ} (halgo : 0 ≤ algo) {m : Mem K}
    (hm : (cacheIf Rnd.exact algo a).best = some m) : SC a.dim (G a.dim m) := by
  have hw := wf_cacheIf algo h
  have hd := cacheIf_dim Rnd.exact algo a
  have hcase := cached_cases Rnd.exact a
  unfold cacheIf at hm hw hd
  rw [if_pos halgo] at hm hw hd
  rcases hcase with hb | ⟨c, hc⟩
  · rw [hb] at hm; simp at hm
  · rw [best_of_closed hc] at hm
    obtain rfl : c = m := by simpa using hm
    rw [← hd]; exact hw.sc c hc

theorem cached_closed {a : OctT K} {algo : ℤ} (halgo : 0 ≤ algo) {m : Mem K}
    (hm : (cacheIf R algo a).best = some m) : (cacheIf R algo a).closed = some m := by
  have hcase := cached_cases R a
  unfold cacheIf at *
  rw [if_pos halgo] at *
  rcases hcase with hb | ⟨c, hc⟩
  · rw [hb] at hm; simp at hm
  · rw [best_of_closed hc] at hm; rw [hc, ← hm]

theorem gam_cached {a : OctT K} {algo : ℤ} {m : Mem K} {x : ℕ → K}
    (hm : (cacheIf R algo a).best = some m) : a.Gam x ↔ Sat a.dim m x := by
  rw [← gam_cacheIf R algo, gam_best hm, cacheIf_dim]

theorem gam_cached_none {a : OctT K} {algo : ℤ} {x : ℕ → K}
    (hm : (cacheIf R algo a).best = none) : ¬ a.Gam x := by
  rw [← gam_cacheIf R algo]; exact gam_best_none hm

/-! ### invariants -/

theorem wf_meet {a b : OctT K} (ha : Wf a) (hb : Wf b) (hd : a.dim = b.dim) : Wf (meet a b) := by
  unfold meet
  rcases h1 : a.best with _ | m1
  · exact wf_bottom _ _
  · rcases h2 : b.best with _ | m2
    · exact wf_bottom _ _
    · refine wf_of_good (good_pointwise (ha.good_best h1) (hd ▸ hb.good_best h2) bmin ?_ ?_)
      · intro a b ha hb; rw [bmin_eq_min]; rcases min_choice a b with h | h <;> rw [h] <;> assumption
      · intro a b ha hb; rw [bmin_eq_min]; exact le_min ha hb

theorem wf_join (algo : ℤ) {a b : OctT K} (ha : Wf a) (hb : Wf b) (hd : a.dim = b.dim) :
    Wf (join Rnd.exact algo a b) := by
  have ha' := wf_cacheIf algo ha
  have hb' := wf_cacheIf algo hb
  have hda := cacheIf_dim Rnd.exact algo a
  have hdb := cacheIf_dim Rnd.exact algo b
  unfold join
  generalize cacheIf Rnd.exact algo a = a' at *
  generalize cacheIf Rnd.exact algo b = b' at *
  have hd' : a'.dim = b'.dim := by rw [hda, hdb, hd]
  simp only
  rcases h1 : a'.best with _ | m1 <;> rcases h2 : b'.best with _ | m2 <;> simp only
  · exact wf_bottom _ _
  · rw [hd']; exact ⟨hb'.wfr, hb'.good, hb'.sc⟩
  · exact ⟨ha'.wfr, ha'.good, ha'.sc⟩
  · split_ifs with hc
    · rw [Bool.and_eq_true, Option.isSome_iff_exists, Option.isSome_iff_exists] at hc
      obtain ⟨⟨c1, e1⟩, c2, e2⟩ := hc
      rw [best_of_closed e1] at h1
      rw [best_of_closed e2] at h2
      obtain rfl : c1 = m1 := by simpa using h1
      obtain rfl : c2 = m2 := by simpa using h2
      exact wf_of_SC (SC_max (ha'.sc _ e1) (hd' ▸ hb'.sc _ e2))
    · refine wf_of_good (good_pointwise (ha'.good_best h1) (hd' ▸ hb'.good_best h2) bmax ?_ ?_)
      · intro a b ha hb; rw [bmax_eq_max]; rcases max_choice a b with h | h <;> rw [h] <;> assumption
      · intro a b ha hb; rw [bmax_eq_max]; exact le_trans ha (le_max_left _ _)

theorem widenBound_ge (algo : ℤ) (b c : Bound K) : b ≤ widenBound algo b c ∧ c ≤ widenBound algo b c := by
  unfold widenBound
  split_ifs with h1 h2
  · rw [bmax_eq_max]; exact ⟨le_max_left _ _, le_max_right _ _⟩
  · refine ⟨le_refl _, ?_⟩
    by_contra hlt
    rw [not_le, ← cmp_lt_zero] at hlt
    omega
  · exact ⟨le_pinf _, le_pinf _⟩

theorem widenThBound_ge (th : List (Bound K)) (b c : Bound K) :
    b ≤ widenThBound th b c ∧ c ≤ widenThBound th b c := by
  unfold widenThBound
  split_ifs with h2
  · refine ⟨le_refl _, ?_⟩
    by_contra hlt
    rw [not_le, ← cmp_lt_zero] at hlt
    omega
  · have hbc : b ≤ c := by
      by_contra hlt
      rw [not_le, ← cmp_pos] at hlt
      omega
    suffices c ≤ (th.find? fun t => decide (Bound.cmp c t ≤ 0)).getD pinf from ⟨hbc.trans this, this⟩
    rcases hf : th.find? fun t => decide (Bound.cmp c t ≤ 0) with _ | t
    · exact le_pinf _
    · have := List.find?_some hf
      simpa using this

theorem ne_ninf_of_le {a b : Bound K} (h : a ≤ b) (ha : a ≠ ninf) : b ≠ ninf := by
  rintro rfl
  cases a <;> simp_all

theorem wf_pointwise_ge {a b : OctT K} {m1 m2 : Mem K} (hm1 : Good a.dim m1) (hm2 : Good a.dim m2)
    (f : Bound K → Bound K → Bound K) (hf : ∀ b c, b ≤ f b c) :
    Wf (⟨some fun p => f (m1 p) (m2 p), none, a.dim, a.intdim⟩ : OctT K) :=
  wf_of_good (good_pointwise hm1 hm2 f (fun b c hb _ => ne_ninf_of_le (hf b c) hb)
    (fun b c hb _ => hb.trans (hf b c)))

theorem wf_widening (algo : ℤ) {a b : OctT K} (ha : Wf a) (hb : Wf b) (hd : a.dim = b.dim) :
    Wf (widening Rnd.exact algo a b) := by
  have hb' := wf_cacheIf algo hb
  have hdb := cacheIf_dim Rnd.exact algo b
  unfold widening
  generalize cacheIf Rnd.exact algo b = b' at *
  simp only
  rcases h1 : a.orig with _ | m1
  · exact hb'
  · rcases h2 : b'.best with _ | m2
    · exact ha
    · exact wf_pointwise_ge (b := b) (ha.good_orig h1) (by rw [hd, ← hdb]; exact hb'.good_best h2) _
        fun b c => (widenBound_ge algo b c).1

theorem wf_wideningThresholds (algo : ℤ) (th : List (Bound K)) {a b : OctT K} (ha : Wf a) (hb : Wf b)
    (hd : a.dim = b.dim) : Wf (wideningThresholds Rnd.exact algo th a b) := by
  have hb' := wf_cacheIf algo hb
  have hdb := cacheIf_dim Rnd.exact algo b
  unfold wideningThresholds
  generalize cacheIf Rnd.exact algo b = b' at *
  simp only
  rcases h1 : a.orig with _ | m1
  · exact hb'
  · rcases h2 : b'.best with _ | m2
    · exact ha
    · exact wf_pointwise_ge (b := b) (ha.good_orig h1) (by rw [hd, ← hdb]; exact hb'.good_best h2) _
        fun b c => (widenThBound_ge _ b c).1

theorem wf_narrowing (algo : ℤ) {a b : OctT K} (ha : Wf a) (hb : Wf b) (hd : a.dim = b.dim) :
    Wf (narrowing Rnd.exact algo a b) := by
  have ha' := wf_cacheIf algo ha
  have hb' := wf_cacheIf algo hb
  have hda := cacheIf_dim Rnd.exact algo a
  have hdb := cacheIf_dim Rnd.exact algo b
  unfold narrowing
  rcases h1 : (cacheIf Rnd.exact algo a).best with _ | m1
  · exact wf_bottom _ _
  · rcases h2 : (cacheIf Rnd.exact algo b).best with _ | m2
    · exact wf_bottom _ _
    · refine wf_of_good (good_pointwise (hda ▸ ha'.good_best h1)
        (by rw [hd, ← hdb]; exact hb'.good_best h2) (fun b c => if infty b then c else b) ?_ ?_)
      · intro b c hb hc; split_ifs <;> assumption
      · intro b c hb hc; split_ifs <;> assumption

/-! ### widening sequences -/

/-- the stored original constraints, as a finite family -/
def cells (a : OctT K) (dim : ℕ) : Option (Fin (matsize dim) → Bound K) :=
  a.orig.map fun m p => m p

theorem gam_of_cells {a b : OctT K} (ha : WfR a) (hb : WfR b) (hd : a.dim = b.dim)
    (h : cells a a.dim = cells b a.dim) (x : ℕ → K) : a.Gam x ↔ b.Gam x := by
  unfold cells at h
  rcases h1 : a.orig with _ | m1 <;> rcases h2 : b.orig with _ | m2 <;> rw [h1, h2] at h
  · exact ⟨fun hx => (gam_orig_none h1 hx).elim, fun hx => (gam_orig_none h2 hx).elim⟩
  · simp at h
  · simp at h
  · rw [gam_orig ha h1, gam_orig hb h2, ← hd]
    simp only [Option.map_some, Option.some.injEq] at h
    have e : ∀ i j, i < 2 * a.dim → Cell i j → m1 (matpos i j) = m2 (matpos i j) :=
      fun i j hi hc => congrFun h ⟨matpos i j, matpos_lt hi hc⟩
    exact ⟨fun hs i j hi hc => e i j hi hc ▸ hs i j hi hc,
      fun hs i j hi hc => (e i j hi hc).symm ▸ hs i j hi hc⟩

/-- measure: how many values a cell may still take -/
def cellsMeasure {n : ℕ} (μ : Bound K → ℕ) (k : ℕ) : Option (Fin n → Bound K) → ℕ
  | none => n * k + 1
  | some m => ∑ p, μ (m p)

theorem cells_stabilise {n : ℕ} (μ : Bound K → ℕ) (k : ℕ) (hk : ∀ b, μ b ≤ k)
    (s : ℕ → Option (Fin n → Bound K))
    (h0 : ∀ i, s i ≠ none → s (i + 1) ≠ none)
    (h1 : ∀ i m m', s i = some m → s (i + 1) = some m' → ∀ p, m' p = m p ∨ μ (m' p) < μ (m p)) :
    Stabilises s (n * k + 1) := by
  have hb : ∀ m : Fin n → Bound K, ∑ p, μ (m p) ≤ n * k := fun m => by
    calc ∑ p, μ (m p) ≤ ∑ _p : Fin n, k := Finset.sum_le_sum fun p _ => hk _
      _ = n * k := by simp
  refine stabilises_of_measure s (cellsMeasure μ k) _ ?_ fun i => ?_
  · rcases s 0 with _ | m
    · exact le_refl _
    · have := hb m; simp only [cellsMeasure]; omega
  · rcases e1 : s i with _ | m <;> rcases e2 : s (i + 1) with _ | m'
    · left; rfl
    · right; have := hb m'; simp only [cellsMeasure]; omega
    · exact absurd e2 (h0 i (by rw [e1]; simp))
    · by_cases hm : m' = m
      · left; rw [hm]
      · right
        have hstep := h1 i m m' e1 e2
        obtain ⟨p, hp⟩ := Function.ne_iff.1 hm
        simp only [cellsMeasure]
        refine Finset.sum_lt_sum (fun q _ => ?_) ⟨p, Finset.mem_univ _, ?_⟩
        · rcases hstep q with e | e
          · rw [e]
          · exact e.le
        · exact (hstep p).resolve_left hp

/-- number of values in `l` strictly above `b` -/
def above (l : List (Bound K)) (b : Bound K) : ℕ := (l.filter fun t => decide (b < t)).length

theorem above_le (l : List (Bound K)) (b : Bound K) : above l b ≤ l.length := List.length_filter_le _ _

theorem above_lt {l : List (Bound K)} {b t : Bound K} (ht : t ∈ l) (h : b < t) : above l t < above l b := by
  unfold above
  induction l with
  | nil => simp at ht
  | cons u l ih =>
    have hmono : (l.filter fun u => decide (t < u)).length ≤ (l.filter fun u => decide (b < u)).length := by
      apply List.Sublist.length_le
      rw [show (l.filter fun u => decide (t < u)) =
        (l.filter fun u => decide (b < u)).filter fun u => decide (t < u) by
        rw [List.filter_filter]
        apply List.filter_congr
        intro u _
        by_cases hu : t < u
        · simp [hu, h.trans hu]
        · simp [hu]]
      exact List.filter_sublist
    rcases List.mem_cons.1 ht with rfl | ht'
    · simp only [List.filter_cons, lt_self_iff_false, decide_false, h, decide_true, if_true,
        List.length_cons]
      simp only [Bool.false_eq_true, if_false]
      omega
    · have := ih ht'
      simp only [List.filter_cons]
      by_cases hu : t < u
      · simp only [hu, h.trans hu, decide_true, if_true, List.length_cons]; omega
      · by_cases hbu : b < u
        · simp only [hu, hbu, decide_true, decide_false, if_true, List.length_cons]
          simp only [Bool.false_eq_true, if_false]; omega
        · simp only [hu, hbu, decide_false]
          simpa using this

theorem widenThBound_cases (th : List (Bound K)) (b c : Bound K) :
    widenThBound th b c = b ∨ (widenThBound th b c ∈ pinf :: th ∧ b < widenThBound th b c) := by
  have hge := (widenThBound_ge th b c).2
  unfold widenThBound at *
  by_cases h2 : 0 ≤ Bound.cmp b c
  · left; rw [if_pos h2]
  · rw [if_neg h2] at *
    have hbc : b < c := by rw [← cmp_lt_zero]; omega
    right
    refine ⟨?_, hbc.trans_le hge⟩
    rcases hf : th.find? fun t => decide (Bound.cmp c t ≤ 0) with _ | t
    · simp
    · simp [List.mem_of_find?_eq_some hf]

theorem widenBound_cases (algo : ℤ) (h99 : algo ≠ preWidening ∧ algo ≠ -preWidening) (b c : Bound K) :
    widenBound algo b c = b ∨ (widenBound algo b c ∈ [(pinf : Bound K)] ∧ b < widenBound algo b c) := by
  have hge := (widenBound_ge algo b c).2
  unfold widenBound at *
  rw [if_neg (by tauto)] at *
  by_cases h2 : 0 ≤ Bound.cmp b c
  · left; rw [if_pos h2]
  · rw [if_neg h2] at *
    have hbc : b < c := by rw [← cmp_lt_zero]; omega
    exact Or.inr ⟨by simp, hbc.trans_le hge⟩

end OctT
end Apron
