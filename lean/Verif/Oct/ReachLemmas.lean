import Verif.Oct.LatticeLemmas
import Verif.Oct.OfBox

/-! # Helper lemmas: the representation invariant for arrays and for octagons made from boxes -/

set_option autoImplicit false
set_option linter.unusedSectionVars false
set_option linter.ambiguousOpen false

namespace Apron
namespace OctT
open Bound Oct Itv
variable {K : Type*} [LinearOrder K] [Field K] [IsStrictOrderedRing K]

theorem wf_meetArray {a : OctT K} (ha : Wf a) {l : List (OctT K)} (hl : ∀ b ∈ l, Wf b ∧ b.dim = a.dim) :
    Wf (meetArray a l) := by
  unfold meetArray
  split_ifs with hn
  · exact wf_bottom _ _
  · rcases h1 : a.best with _ | m
    · exact wf_bottom _ _
    · refine wf_of_good ?_
      have hm := ha.good_best h1
      clear hn h1
      induction l generalizing m with
      | nil => exact hm
      | cons b l ih =>
        rw [List.foldl_cons]
        refine ih (fun c hc => hl c (by simp [hc])) _ ?_
        obtain ⟨hb, hd⟩ := hl b (by simp)
        rcases h2 : b.best with _ | mb
        · exact hm
        · refine good_pointwise hm (hd ▸ hb.good_best h2) bmin ?_ ?_
          · intro a b ha hb; rw [bmin_eq_min]; rcases min_choice a b with h | h <;> rw [h] <;> assumption
          · intro a b ha hb; rw [bmin_eq_min]; exact le_min ha hb

theorem good_max {dim : ℕ} {m1 m2 : Mem K} (h1 : Good dim m1) (h2 : Good dim m2) :
    Good dim (fun p => bmax (m1 p) (m2 p)) := by
  refine good_pointwise h1 h2 bmax ?_ ?_
  · intro a b ha hb; rw [bmax_eq_max]; rcases max_choice a b with h | h <;> rw [h] <;> assumption
  · intro a b ha hb; rw [bmax_eq_max]; exact le_trans ha (le_max_left _ _)

theorem wf_joinArray (algo : ℤ) {a : OctT K} (ha : Wf a) {l : List (OctT K)} (hl : ∀ b ∈ l, Wf b ∧ b.dim = a.dim) :
    Wf (joinArray Rnd.exact algo a l) := by
  have key : ∀ (l : List (OctT K)) (s : Option (Mem K) × Bool), (∀ b ∈ l, Wf b ∧ b.dim = a.dim) →
      (∀ m, s.1 = some m → Good a.dim m ∧ (s.2 = true → SC a.dim (G a.dim m))) →
      ∀ m, (l.foldl (joinArrayStep Rnd.exact algo) s).1 = some m →
        Good a.dim m ∧ ((l.foldl (joinArrayStep Rnd.exact algo) s).2 = true → SC a.dim (G a.dim m)) := by
    intro l
    induction l with
    | nil => exact fun s _ h => h
    | cons b l ih =>
      intro s hl h
      rw [List.foldl_cons]
      refine ih _ (fun c hc => hl c (by simp [hc])) ?_
      obtain ⟨hb, hd⟩ := hl b (by simp)
      have hb' := wf_cacheIf algo hb
      have hdb := cacheIf_dim Rnd.exact algo b
      unfold joinArrayStep
      generalize cacheIf Rnd.exact algo b = b' at *
      rw [hd] at hdb
      rcases h2 : b'.best with _ | mb
      · simpa only [h2] using h
      · simp only [h2]
        have hg : Good a.dim mb := hdb ▸ hb'.good_best h2
        have hs : b'.closed.isSome = true → SC a.dim (G a.dim mb) := fun hc => by
          obtain ⟨c, hc⟩ := Option.isSome_iff_exists.1 hc
          rw [best_of_closed hc] at h2
          obtain rfl : c = mb := by simpa using h2
          exact hdb ▸ hb'.sc _ hc
        rcases h3 : s.1 with _ | m
        · intro m hm
          simp only [Option.some.injEq] at hm
          subst hm
          exact ⟨hg, fun hc => hs (by simp only [Bool.and_eq_true] at hc; exact hc.2)⟩
        · obtain ⟨g1, g2⟩ := h m h3
          intro m' hm
          simp only [Option.some.injEq] at hm
          subst hm
          refine ⟨good_max g1 hg, fun hc => ?_⟩
          simp only [Bool.and_eq_true] at hc
          exact SC_max (g2 hc.1) (hs hc.2)
  have h := key (a :: l) (none, true) (by
    intro b hb
    rcases List.mem_cons.1 hb with rfl | hb
    · exact ⟨ha, rfl⟩
    · exact hl b hb) (by simp)
  unfold joinArray
  rcases e : (a :: l).foldl (joinArrayStep Rnd.exact algo) (none, true) with ⟨_ | m, _ | _⟩ <;> rw [e] at h <;> simp only
  · exact wf_bottom _ _
  · exact wf_bottom _ _
  · exact wf_of_good (h m rfl).1
  · exact wf_of_SC ((h m rfl).2 rfl)

/-! ### boxes -/

/-- the entries of the matrix of `oct_of_box` -/
theorem G_boxMat (dim : ℕ) (t : ℕ → Itv K) (i j : ℕ) : G dim (boxMat Rnd.exact dim t) i j =
    if i < 2 * dim ∧ j < 2 * dim then
      if i = j then fin 0 else if i / 2 = j / 2 then
        ofScalar Rnd.exact (if i % 2 = 0 then (t (i / 2)).inf else (t (i / 2)).sup) true else pinf
    else pinf := by
  unfold G
  by_cases hl : i < 2 * dim ∧ j < 2 * dim
  · rw [if_pos hl, if_pos hl]
    by_cases hc : Cell i j
    · rw [matpos2_cell hc, boxMat_cell _ _ _ hl.1 hc]
    · have hij : i < j := by unfold Cell at hc; omega
      have hc' : Cell (j ^^^ 1) (i ^^^ 1) := by unfold Cell at hc ⊢; rw [xor1_div, xor1_div]; omega
      unfold matpos2
      rw [if_pos hij, boxMat_cell _ _ _ (xor1_lt hl.2) hc', xor1_div, xor1_div]
      unfold Cell at hc
      rw [if_neg (fun h => by rw [xor1_inj] at h; omega), if_neg (by omega), if_neg (by omega), if_neg (by omega)]
  · rw [if_neg hl, if_neg hl]

theorem wf_ofBox (dim intdim : ℕ) (t : ℕ → Itv K) (hn : ∀ i < dim, (t i).inf ≠ ninf ∧ (t i).sup ≠ ninf) :
    Wf (ofBox Rnd.exact dim intdim (some t)) := by
  rw [ofBox_eq]
  split_ifs with h
  · exact wf_bottom _ _
  · simp only [List.any_eq_true, List.mem_range, decide_eq_true_eq, not_exists, not_and, not_lt] at h
    have hU : ∀ (b : Bound K), b ≠ ninf → ofScalar Rnd.exact b true ≠ ninf := by
      intro b hb
      cases b <;> simp_all [ofScalar, mul2]
    have hsum : ∀ i, i < 2 * dim → ∀ j, i / 2 = j / 2 → i ≠ j → ∀ a b,
        ofScalar Rnd.exact (if i % 2 = 0 then (t (i / 2)).inf else (t (i / 2)).sup) true ≤ fin a →
        ofScalar Rnd.exact (if j % 2 = 0 then (t (j / 2)).inf else (t (j / 2)).sup) true ≤ fin b → 0 ≤ a + b := by
      have key : ∀ (u : Itv K) (a b : K), neg u.inf ≤ u.sup → u.inf ≠ ninf → u.sup ≠ ninf →
          ofScalar Rnd.exact u.inf true ≤ fin a → ofScalar Rnd.exact u.sup true ≤ fin b → 0 ≤ a + b := by
        rintro ⟨u, v⟩ a b h1 h2 h3
        simp only at *
        cases u <;> cases v <;> simp_all [ofScalar, mul2, Bound.neg]
        intro h4 h5
        linarith
      intro i hi j hij hne a b h1 h2
      have hd : i / 2 < dim := by omega
      obtain ⟨n1, n2⟩ := hn _ hd
      rw [← hij] at h2
      by_cases hp : i % 2 = 0
      · rw [if_pos hp] at h1
        rw [if_neg (by omega)] at h2
        exact key _ a b (h _ hd) n1 n2 h1 h2
      · rw [if_neg hp] at h1
        rw [if_pos (by omega)] at h2
        rw [add_comm]
        exact key _ b a (h _ hd) n1 n2 h2 h1
    have hne : NoNinf dim (boxMat Rnd.exact dim t) := by
      rw [noNinf_iff]
      intro i j hi hc
      rw [boxMat_cell _ _ _ hi hc]
      obtain ⟨n1, n2⟩ := hn (i / 2) (by omega)
      split_ifs
      · simp
      · exact hU _ n1
      · exact hU _ n2
      · simp
    have hcoh : Coh (G dim (boxMat Rnd.exact dim t)) := by
      intro i j
      rw [G_boxMat, G_boxMat]
      by_cases hl : i < 2 * dim ∧ j < 2 * dim
      · rw [if_pos hl, if_pos (show j ^^^ 1 < 2 * dim ∧ i ^^^ 1 < 2 * dim from ⟨xor1_lt hl.2, xor1_lt hl.1⟩)]
        by_cases e : i = j
        · rw [if_pos e, if_pos (show j ^^^ 1 = i ^^^ 1 by rw [e])]
        · rw [if_neg e, if_neg (fun h => e (xor1_inj.1 h).symm)]
          by_cases e2 : i / 2 = j / 2
          · have : j ^^^ 1 = i := by rw [xor1]; split_ifs <;> omega
            rw [if_pos e2, if_pos (show (j ^^^ 1) / 2 = (i ^^^ 1) / 2 by rw [xor1_div, xor1_div, e2]), this]
          · rw [if_neg e2, if_neg (by rw [xor1_div, xor1_div]; omega)]
      · rw [if_neg hl, if_neg (fun h => hl ⟨xor1_lt_iff.1 h.2, xor1_lt_iff.1 h.1⟩)]
    have hcl : ∀ p, p < 2 * dim → ClosedAt (G dim (boxMat Rnd.exact dim t)) p := by
      intro p hp i j a b ha hb
      have hm : ∀ {c : Bound K} {u v : K}, c ≤ fin u → 0 ≤ v → c ≤ fin (u + v) := fun h h' =>
        h.trans (by simpa using h')
      by_cases e1 : i = p
      · subst e1
        rw [G_boxMat, if_pos ⟨hp, hp⟩, if_pos rfl] at ha
        rw [add_comm]
        exact hm hb (by simpa using ha)
      · by_cases e2 : p = j
        · subst e2
          rw [G_boxMat, if_pos ⟨hp, hp⟩, if_pos rfl] at hb
          exact hm ha (by simpa using hb)
        · rw [G_boxMat] at ha hb
          by_cases l1 : i < 2 * dim ∧ p < 2 * dim
          · by_cases l2 : p < 2 * dim ∧ j < 2 * dim
            · rw [if_pos l1, if_neg e1] at ha
              rw [if_pos l2, if_neg e2] at hb
              by_cases d1 : i / 2 = p / 2
              · by_cases d2 : p / 2 = j / 2
                · rw [if_pos d1] at ha
                  rw [if_pos d2] at hb
                  have : i = j := by omega
                  rw [G_boxMat, if_pos ⟨l1.1, l2.2⟩, if_pos this]
                  simpa using hsum i l1.1 p d1 e1 a b ha hb
                · rw [if_neg d2] at hb; simp at hb
              · rw [if_neg d1] at ha; simp at ha
            · rw [if_neg l2] at hb; simp at hb
          · rw [if_neg l1] at ha; simp at ha
    rcases e : sStep Rnd.exact dim (boxMat Rnd.exact dim t) with ⟨_ | _, c⟩ <;> simp only
    · have := sStep_SC hne hcoh hcl (by rw [e])
      rw [e] at this
      exact wf_of_SC this
    · exact wf_bottom _ _

end OctT
end Apron
