import Verif.Avo.MatLemmas

/-! # Helper lemmas: every step of the closures keeps the points -/

set_option autoImplicit false
set_option linter.unusedSectionVars false
set_option linter.ambiguousOpen false

namespace Apron
namespace Avo
open Bound Oct
variable {K : Type*} [LinearOrder K] [Field K] [IsStrictOrderedRing K] (R : Rnd K) {θ : Bound K}

theorem ref_foldl_range {N : ℕ} {y : ℕ → K} (f : SMem K → ℕ → SMem K) (n : ℕ)
    (h : ∀ M a, a < n → Ref θ N y M (f M a)) (M : SMem K) :
    Ref θ N y M ((List.range n).foldl f M) :=
  ref_foldl f _ (fun M a ha => h M a (by simpa using ha)) M

section
variable {dim : ℕ} {x : ℕ → K}

/-- value of the row `t` of the part without absolute values -/
theorem W_xor {t : ℕ} : V (ext dim x) (t ^^^ 1) = -V (ext dim x) t := V_xor1 _ _

theorem W_succ {t : ℕ} (h : t % 2 = 0) : V (ext dim x) (t + 1) = -V (ext dim x) t := by
  rw [← W_xor, xor1, if_pos h]

theorem W_pred {t : ℕ} (h : t % 2 = 1) : V (ext dim x) (t - 1) = -V (ext dim x) t := by
  rw [← W_xor, xor1, if_neg (by omega)]

theorem W_even {t : ℕ} (ht : t < 2 * dim) (h : t % 2 = 0) :
    V (ext dim x) (2 * dim + t) = |V (ext dim x) t| := by
  rw [V_ext_hi ht, if_pos h, V_ext_lo ht]

theorem W_odd {t : ℕ} (ht : t < 2 * dim) (h : t % 2 = 1) :
    V (ext dim x) (2 * dim + t) = -|V (ext dim x) t| := by
  rw [V_ext_hi ht, if_neg (by omega), V_ext_lo ht]

theorem ok_max_abs {w c : K} {a b : SB K} (ha : OkT θ (c + w) a) (hb : OkT θ (c - w) b) :
    OkT θ (c + |w|) (SB.max b a) := by
  refine SB.max_ok ?_
  rcases abs_choice w with e | e
  · rw [e]; exact Or.inr ha
  · rw [e]; exact Or.inl (by rwa [← sub_eq_add_neg])

theorem tightSign_ref {i : ℕ} (hi : i < dim) (M : SMem K) :
    Ref θ (2 * dim) (ext dim x) M (tightSign dim M i) := by
  have e0 : V (ext dim x) (2 * i + 1) = -V (ext dim x) (2 * i) := W_succ (by omega)
  have e1 : V (ext dim x) (2 * dim + 2 * i) = |V (ext dim x) (2 * i)| := W_even (by omega) (by omega)
  have e2 : V (ext dim x) (2 * dim + 2 * i + 1) = -|V (ext dim x) (2 * i)| := by
    rw [W_succ (by omega), e1]
  have h0 : 2 * i < 2 * (2 * dim) := by omega
  have h1 : 2 * i + 1 < 2 * (2 * dim) := by omega
  have h2 : 2 * dim + 2 * i < 2 * (2 * dim) := by omega
  have h3 : 2 * dim + 2 * i + 1 < 2 * (2 * dim) := by omega
  unfold tightSign
  dsimp only
  refine Ref.trans (M' := if (M (matpos2 (2 * i + 1) (2 * i))).1 ≤ fin 0 then
      cp (cp (cp (cp M (matpos2 (2 * i + 1) (2 * i))
        (matpos2 (2 * dim + 2 * i) (2 * dim + 2 * i + 1)))
        (matpos2 (2 * dim + 2 * i) (2 * dim + 2 * i + 1)) (matpos2 (2 * i + 1) (2 * i)))
        (matpos2 (2 * i) (2 * i + 1)) (matpos2 (2 * dim + 2 * i + 1) (2 * dim + 2 * i)))
        (matpos2 (2 * dim + 2 * i + 1) (2 * dim + 2 * i)) (matpos2 (2 * i) (2 * i + 1))
      else M) ?_ ?_
  · split_ifs with hc
    · refine ⟨fun hs => ?_, (below_bmin _ _ _).trans ((below_bmin _ _ _).trans
        ((below_bmin _ _ _).trans (below_bmin _ _ _)))⟩
      have hx : V (ext dim x) (2 * i) ≤ 0 := by
        have := (hs.rd h1 h0).1.trans hc
        rw [e0] at this
        have : V (ext dim x) (2 * i) - -V (ext dim x) (2 * i) ≤ 0 := by simpa using this
        linarith
      have ha := abs_of_nonpos hx
      refine (((hs.cp h1 h0 h2 h3 ?_).cp h2 h3 h1 h0 ?_).cp h0 h1 h3 h2 ?_).cp h3 h2 h0 h1 ?_ <;>
      · rw [e0, e1, e2, ha]; try linarith
    · exact Ref.refl _
  · generalize (if (M (matpos2 (2 * i + 1) (2 * i))).1 ≤ fin 0 then
      cp (cp (cp (cp M (matpos2 (2 * i + 1) (2 * i))
        (matpos2 (2 * dim + 2 * i) (2 * dim + 2 * i + 1)))
        (matpos2 (2 * dim + 2 * i) (2 * dim + 2 * i + 1)) (matpos2 (2 * i + 1) (2 * i)))
        (matpos2 (2 * i) (2 * i + 1)) (matpos2 (2 * dim + 2 * i + 1) (2 * dim + 2 * i)))
        (matpos2 (2 * dim + 2 * i + 1) (2 * dim + 2 * i)) (matpos2 (2 * i) (2 * i + 1))
      else M) = M1
    split_ifs with hc
    · refine ⟨fun hs => ?_, (below_bmin _ _ _).trans ((below_bmin _ _ _).trans
        ((below_bmin _ _ _).trans (below_bmin _ _ _)))⟩
      have hx : 0 ≤ V (ext dim x) (2 * i) := by
        have := (hs.rd h0 h1).1.trans hc
        rw [e0] at this
        have : -V (ext dim x) (2 * i) - V (ext dim x) (2 * i) ≤ 0 := by simpa using this
        linarith
      have ha := abs_of_nonneg hx
      refine (((hs.cp h0 h1 h2 h3 ?_).cp h2 h3 h0 h1 ?_).cp h1 h0 h3 h2 ?_).cp h3 h2 h1 h0 ?_ <;>
      · rw [e0, e1, e2, ha]; try linarith
    · exact Ref.refl _

theorem tightMixed_ref {t j : ℕ} (ht : t < 2 * dim) (hj : j < 2 * dim) (M : SMem K) :
    Ref θ (2 * dim) (ext dim x) M (tightMixed dim M t j) := by
  have hi' : 2 * dim + t < 2 * (2 * dim) := by omega
  have hj' : j < 2 * (2 * dim) := by omega
  have ht' : t < 2 * (2 * dim) := by omega
  unfold tightMixed
  split_ifs with hp
  · refine ref_bmin hi' hj' fun hs => ?_
    have r1 := hs.rd ht' hj'
    have r2 := hs.rd (show t - 1 < 2 * (2 * dim) by omega) hj'
    rw [W_pred hp] at r2
    rw [W_odd ht hp]
    rw [show V (ext dim x) j - -V (ext dim x) t = V (ext dim x) j + V (ext dim x) t by ring] at r2
    rw [show V (ext dim x) j - -|V (ext dim x) t| = V (ext dim x) j + |V (ext dim x) t| by ring]
    exact ok_max_abs r2 r1
  · have hp' : t % 2 = 0 := by omega
    refine (ref_cp hi' hj' ht' hj' ?_).trans
      (ref_cp hi' hj' (show t + 1 < 2 * (2 * dim) by omega) hj' ?_)
    · rw [W_even ht hp']; linarith [le_abs_self (V (ext dim x) t)]
    · rw [W_even ht hp', W_succ hp']; linarith [neg_le_abs (V (ext dim x) t)]

theorem tightAbs_ref {t u : ℕ} (ht : t < 2 * dim) (hu : u < 2 * dim) (M : SMem K) :
    Ref θ (2 * dim) (ext dim x) M (tightAbs R dim M t u) := by
  have hi : 2 * dim + t < 2 * (2 * dim) := by omega
  have hj : 2 * dim + u < 2 * (2 * dim) := by omega
  have ht' : t < 2 * (2 * dim) := by omega
  have hu' : u < 2 * (2 * dim) := by omega
  unfold tightAbs
  have hA : Ref θ (2 * dim) (ext dim x) M (tightAbsA dim M t u) := by
    unfold tightAbsA
    split_ifs with hp
    · refine ref_bmin hi hj fun hs => ?_
      have r1 := hs.rd ht' hj
      have r2 := hs.rd (show t - 1 < 2 * (2 * dim) by omega) hj
      rw [W_pred hp, sub_neg_eq_add] at r2
      rw [W_odd ht hp, sub_neg_eq_add]
      exact ok_max_abs r2 r1
    · exact Ref.refl _
  have hB : ∀ M, Ref θ (2 * dim) (ext dim x) M (tightAbsB dim M t u) := by
    intro M
    unfold tightAbsB
    split_ifs with hp
    · refine ref_bmin hi hj fun hs => ?_
      have r1 := hs.rd hi hu'
      have r2 := hs.rd hi (show u + 1 < 2 * (2 * dim) by omega)
      rw [W_succ hp] at r2
      rw [W_even hu hp]
      refine SB.max_ok ?_
      rcases abs_choice (V (ext dim x) u) with e | e
      · rw [e]; exact Or.inl r1
      · rw [e]; exact Or.inr r2
    · exact Ref.refl _
  have hC : ∀ M, Ref θ (2 * dim) (ext dim x) M (tightAbsC R dim M t u) := by
    intro M
    unfold tightAbsC
    split_ifs with hp
    · obtain ⟨hp, hq⟩ := hp
      have hv : V (ext dim x) (2 * dim + u) - V (ext dim x) (2 * dim + t)
          = -|V (ext dim x) u| - |V (ext dim x) t| := by rw [W_odd hu hq, W_even ht hp]
      have au := abs_nonneg (V (ext dim x) u)
      have at' := abs_nonneg (V (ext dim x) t)
      refine Ref.trans (M' := tightAbsC1 M (matpos2 (2 * dim + t) (2 * dim + u)) t u) ?_ ?_
      · unfold tightAbsC1
        split_ifs with he
        · have eu : |V (ext dim x) u| = |V (ext dim x) t| := by rw [he, W_xor, abs_neg]
          have hx : t ^^^ 1 < 2 * (2 * dim) := xor1_lt ht'
          refine (ref_cp hi hj ht' hx ?_).trans (ref_cp hi hj hx ht' ?_)
          · rw [hv, eu, W_xor]; linarith [le_abs_self (V (ext dim x) t)]
          · rw [hv, eu, W_xor]; linarith [neg_le_abs (V (ext dim x) t)]
        · exact Ref.refl _
      · dsimp only
        generalize tightAbsC1 M (matpos2 (2 * dim + t) (2 * dim + u)) t u = M1
        refine (ref_bmin hi hj fun hs => ?_).trans ((ref_bmin hi hj fun hs => ?_).trans
          (ref_capZero ?_))
        · refine (((hs.rd (xor1_lt hj) hj).half R).mono ?_)
          rw [W_xor, hv, W_odd hu hq]; linarith
        · refine (((hs.rd hi (xor1_lt hi)).half R).mono ?_)
          rw [W_xor, hv, W_even ht hp]; linarith
        · rw [hv]; linarith
    · exact Ref.refl _
  exact hA.trans ((hB _).trans (hC _))

theorem tighten_ref (M : SMem K) : Ref θ (2 * dim) (ext dim x) M (tighten R dim M) := by
  unfold tighten
  refine Ref.trans (ref_foldl_range _ _ (fun M i hi => tightSign_ref hi M) M) ?_
  refine Ref.trans (ref_foldl_range (fun M t => (List.range (2 * dim)).foldl
    (fun M j => tightMixed dim M t j) M) (2 * dim) (fun M t ht => ?_) _) ?_
  · exact ref_foldl_range _ _ (fun M j hj => tightMixed_ref ht hj M) M
  · refine ref_foldl_range _ _ (fun M t ht => ?_) _
    refine ref_foldl_range _ _ (fun M u hu => tightAbs_ref R ht ?_ M) M
    have : u / 2 ≤ t / 2 := le_or1_iff.1 (by omega)
    omega

/-! ### through one variable -/

theorem viaFixed_ref {i j k : ℕ} (hi : i < 4 * dim) (hj : j < 4 * dim) (hk : k < dim)
    (M : SMem K) : Ref θ (2 * dim) (ext dim x) M (viaFixed R dim M i j k) := by
  have hi' : i < 2 * (2 * dim) := by omega
  have hj' : j < 2 * (2 * dim) := by omega
  have h1 : Ref θ (2 * dim) (ext dim x) M (M.bmin (matpos2 i j)
      (Bound.add R (div2 R (M (matpos2 (j ^^^ 1) j)).1) (div2 R (M (matpos2 i (i ^^^ 1))).1),
        Bound.bmin (M (matpos2 i (i ^^^ 1))).2 (M (matpos2 (j ^^^ 1) j)).2)) := by
    refine ref_bmin hi' hj' fun hs => ?_
    have a := (hs.rd (xor1_lt hj') hj').half R
    have b := (hs.rd hi' (xor1_lt hi')).half R
    have c := a.add R b
    rw [W_xor, W_xor] at c
    have e : (V (ext dim x) j - -V (ext dim x) j) / 2 + (-V (ext dim x) i - V (ext dim x) i) / 2
      = V (ext dim x) j - V (ext dim x) i := by ring
    rw [e] at c
    refine ⟨c.1, fun hn => c.2 ?_⟩
    simp only [SB.add, SB.half, bmin_eq_min] at hn ⊢
    rw [min_comm]; exact hn
  unfold viaFixed
  dsimp only
  split_ifs
  · exact h1
  · refine h1.trans ?_
    refine Ref.trans (ref_bmin hi' hj' fun hs => ?_) (ref_bmin hi' hj' fun hs => ?_)
    · have hk2 : 2 * k < 2 * (2 * dim) := by omega
      exact ((hs.rd hi' hk2).add R (hs.rd hk2 hj')).mono (by linarith)
    · have hk2 : 2 * k + 1 < 2 * (2 * dim) := by omega
      exact ((hs.rd hi' hk2).add R (hs.rd hk2 hj')).mono (by linarith)

/-- the bound computed for one sign of `x_k` is right for the points with that sign -/
theorem signK_ok {M : SMem K} (hs : GSatT θ (2 * dim) M (ext dim x)) {i j k : ℕ} (hi : i < 4 * dim)
    (hj : j < 4 * dim) (hk : k < dim) (s : Bool) (hsg : if s then 0 ≤ x k else x k ≤ 0) :
    OkT θ (V (ext dim x) j - V (ext dim x) i) (signK R dim M i j k s) := by
  have hi' : i < 2 * (2 * dim) := by omega
  have hj' : j < 2 * (2 * dim) := by omega
  have e0 : V (ext dim x) (2 * k) = x k := by
    rw [V_ext_lo (by omega)]; unfold V
    rw [if_pos (by omega), show 2 * k / 2 = k by omega]
  have e1 : V (ext dim x) (2 * k + 1) = -x k := by rw [W_succ (by omega), e0]
  have e2 : V (ext dim x) (2 * dim + 2 * k) = |x k| := by rw [W_even (by omega) (by omega), e0]
  have e3 : V (ext dim x) (2 * dim + (2 * k + 1)) = -|x k| := by
    rw [W_odd (by omega) (by omega), e1, abs_neg]
  unfold signK
  dsimp only
  have b0 : (if s then 2 * k else 2 * k + 1) < 2 * (2 * dim) := by split_ifs <;> omega
  have b1 : (if s then 2 * k + 1 else 2 * k) < 2 * (2 * dim) := by split_ifs <;> omega
  have b2 : 2 * dim + (if s then 2 * k else 2 * k + 1) < 2 * (2 * dim) := by split_ifs <;> omega
  have b3 : 2 * dim + (if s then 2 * k + 1 else 2 * k) < 2 * (2 * dim) := by split_ifs <;> omega
  have f1 : V (ext dim x) (if s then 2 * k + 1 else 2 * k)
      = -V (ext dim x) (if s then 2 * k else 2 * k + 1) := by
    cases s
    · simp only [if_neg (show ¬ (false = true) by simp)]; rw [e0, e1, _root_.neg_neg]
    · simp only [if_true]; rw [e0, e1]
  have f3 : V (ext dim x) (2 * dim + if s then 2 * k + 1 else 2 * k)
      = -V (ext dim x) (2 * dim + if s then 2 * k else 2 * k + 1) := by
    cases s
    · simp only [if_neg (show ¬ (false = true) by simp)]; rw [e2, e3, _root_.neg_neg]
    · simp only [if_true]; rw [e2, e3]
  have f2 : V (ext dim x) (2 * dim + if s then 2 * k else 2 * k + 1)
        ≤ V (ext dim x) (if s then 2 * k else 2 * k + 1) ∧
      -V (ext dim x) (if s then 2 * k else 2 * k + 1)
        ≤ V (ext dim x) (2 * dim + if s then 2 * k else 2 * k + 1) := by
    cases s
    · simp only [if_neg (show ¬ (false = true) by simp)] at hsg ⊢
      rw [e1, e3, abs_of_nonpos hsg]; constructor <;> linarith
    · simp only [if_true] at hsg ⊢
      rw [e0, e2, abs_of_nonneg hsg]; constructor <;> linarith
  revert b0 b1 b2 b3 f1 f2 f3
  generalize (if s then 2 * k else 2 * k + 1) = k2
  generalize (if s then 2 * k + 1 else 2 * k) = k2'
  intro b0 b1 b2 b3 f1 f3 f2
  obtain ⟨f2, f2'⟩ := f2
  have sin1 : OkT θ (-2 * V (ext dim x) i) (SB.min (M (matpos2 i (i ^^^ 1)))
      (SB.add R (M (matpos2 i k2)) (M (matpos2 i (2 * dim + k2'))))) := by
    refine SB.min_ok ?_ (((hs.rd hi' b0).add R (hs.rd hi' b3)).mono ?_)
    · have := hs.rd hi' (xor1_lt hi')
      rw [W_xor] at this
      exact this.mono (by linarith)
    · rw [f3]; linarith
  have sin2 : OkT θ (2 * V (ext dim x) j) (SB.min (M (matpos2 (j ^^^ 1) j))
      (SB.add R (M (matpos2 k2' j)) (M (matpos2 (2 * dim + k2) j)))) := by
    refine SB.min_ok ?_ (((hs.rd b1 hj').add R (hs.rd b2 hj')).mono ?_)
    · have := hs.rd (xor1_lt hj') hj'
      rw [W_xor] at this
      exact this.mono (by linarith)
    · rw [f1]; linarith
  refine SB.min_ok (SB.min_ok ?_ ?_) (((sin1.add R sin2).half R).mono (by linarith))
  · refine SB.low_ok (ok_top _ _) (((SB.min_ok (u := V (ext dim x) k2' - V (ext dim x) i)
      (hs.rd hi' b1) ((hs.rd hi' b3).mono ?_)).addNsc R (hs.rd b1 hj')).mono ?_)
    · rw [f1, f3]; linarith
    · linarith
  · refine SB.low_ok (ok_top _ _) (((SB.min_ok (u := V (ext dim x) j - V (ext dim x) k2)
      (hs.rd b0 hj') ((hs.rd b2 hj').mono ?_)).addNsc R (hs.rd hi' b0)).mono ?_)
    · linarith
    · linarith

theorem viaK_ref {i j k : ℕ} (hi : i < 4 * dim) (hj : j < 4 * dim) (hk : k < dim)
    (M : SMem K) : Ref θ (2 * dim) (ext dim x) M (viaK R dim M i j k) := by
  unfold viaK
  split_ifs
  · exact viaFixed_ref R hi hj hk M
  · refine ref_bmin (by omega) (by omega) fun hs => SB.max_ok ?_
    rcases le_total 0 (x k) with h | h
    · exact Or.inl (signK_ok R hs hi hj hk true (by simpa using h))
    · exact Or.inr (signK_ok R hs hi hj hk false (by simpa using h))

end

/-! ### octagons with strictness -/

section oct
variable {N : ℕ} {y : ℕ → K}

theorem octSRow_ref {i : ℕ} (hi : i < 2 * N) (M : SMem K) : Ref θ N y M (octSRow R M i) := by
  unfold octSRow
  dsimp only
  by_cases hs0 : GSatT θ N M y
  · have a := (hs0.rd hi (xor1_lt hi)).half R
    refine ref_foldl_range _ _ (fun M' j hj => ?_) M
    have hc : Cell i j := le_or1_iff.1 (by omega)
    have hj' : j < 2 * N := by unfold Cell at hc; omega
    rw [← matpos2_cell hc]
    refine ref_bmin hi hj' fun hs => ?_
    have b := (hs.rd (xor1_lt hj') hj').half R
    have c := b.add R a
    rw [V_xor1, V_xor1] at c
    have e : (V y j - -V y j) / 2 + (-V y i - V y i) / 2 = V y j - V y i := by ring
    rw [e] at c
    refine ⟨c.1, fun hn => c.2 ?_⟩
    simp only [SB.add, SB.half, bmin_eq_min] at hn ⊢
    exact lt_of_le_of_lt (min_le_left _ _) hn
  · refine ⟨fun h => absurd h hs0, ?_⟩
    exact foldl_inv (fun M' => Below M' M) _ _ (fun M' j _ h => (below_bmin _ _ _).trans h) M
      (Below.refl _)

theorem octSStep_ref (hθ : fin 0 ≤ θ) {n : ℕ} (hn : n ≤ N) (M : SMem K) : RefB θ N y M (octSStep R n M) :=
  (ref_foldl_range _ _ (fun M i hi => octSRow_ref R (by omega) M) M).thenB
    (diagCheck_ref hθ _ (fun i hi => by have := List.mem_range.1 hi; omega) _)

theorem fwCell_ref {k i j : ℕ} (hk : k < 2 * N) (hi : i < 2 * N) (hc : Cell i j) (M : SMem K) :
    Ref θ N y M (fwCell R k i M j) := by
  have hj : j < 2 * N := by unfold Cell at hc; omega
  unfold fwCell
  rw [← matpos2_cell hc]
  split_ifs with hb
  · rw [le_min_iff] at hb
    have c1 : Cell k j := by unfold Cell; omega
    have c2 : Cell (k ^^^ 1) j := by unfold Cell; rw [xor1_div]; omega
    rw [← matpos2_cell c1, ← matpos2_cell c2]
    exact (ref_addTo R hi hj (fun h => h.rd hi hk) (fun h => h.rd hk hj)).trans
      (ref_addTo R hi hj (fun h => h.rd hi (xor1_lt hk)) (fun h => h.rd (xor1_lt hk) hj))
  · have hkj : k < j := by
      rw [le_min_iff, not_and_or] at hb
      have := le_or1_iff.2 hc
      omega
    have c1 : Cell (j ^^^ 1) (k ^^^ 1) := by unfold Cell; rw [xor1_div, xor1_div]; omega
    have c2 : Cell (j ^^^ 1) k := by unfold Cell; rw [xor1_div]; omega
    rw [← matpos2_cell c1, ← matpos2_cell c2]
    refine (ref_addTo R hi hj (fun h => h.rd hi hk) (fun h => ?_)).trans
      (ref_addTo R hi hj (fun h => h.rd hi (xor1_lt hk)) (fun h => ?_))
    · have := h.rd (xor1_lt hj) (xor1_lt hk)
      rw [V_xor1, V_xor1] at this
      exact this.mono (by linarith)
    · have := h.rd (xor1_lt hj) hk
      rw [V_xor1] at this
      rw [V_xor1]
      exact this.mono (by linarith)

theorem closeOctPart_ref (hθ : fin 0 ≤ θ) {n : ℕ} (hn : n ≤ N) (M : SMem K) :
    RefB θ N y M (closeOctPart R n M) := by
  refine Ref.thenB ?_ (octSStep_ref R hθ hn _)
  refine ref_foldl_range _ _ (fun M k hk => ?_) M
  refine ref_foldl_range _ _ (fun M i hi => ?_) M
  exact ref_foldl_range _ _ (fun M j hj =>
    fwCell_ref R (by omega) (by omega) (le_or1_iff.1 (by omega)) M) M

/-- the octagon part of a larger matrix -/
theorem GSatT.restrict {N' : ℕ} {M : SMem K} (h : GSatT θ N' M y) (hN : N ≤ N') : GSatT θ N M y :=
  fun i j hi hc => h i j (by omega) hc

end oct

end Avo
end Apron
