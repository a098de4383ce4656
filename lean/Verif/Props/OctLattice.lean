import Verif.Oct.LatticeLemmas
import Verif.Oct.OfBox
import Verif.Itv.Tight
import Verif.Props.OctClosure

/-!
# Property theorems: octagon tests, lattice operations, widening, narrowing, boxes (C30-C35)

`a.Gam x`: `x` is a point of the octagon `a`.  Optimality and exactness hold with exact arithmetic
(`Rnd.exact`) and the default algorithm (`0 ≤ algo`); soundness holds for every rounding.
-/

set_option autoImplicit false
set_option linter.unusedSectionVars false
set_option linter.ambiguousOpen false

namespace Apron
open Bound Oct OctT Itv
variable {K : Type*} [LinearOrder K] [Field K] [IsStrictOrderedRing K] (R : Rnd K)

/-! ## C30: inclusion and equality tests -/

theorem C30_is_leq_sound (algo : ℤ) (a b : OctT K) (hd : a.dim = b.dim)
    (h : OctT.isLeq R algo a b = true) (x : ℕ → K) (hx : a.Gam x) : b.Gam x := by
  unfold OctT.isLeq at h
  rcases h1 : (cacheIf R algo a).best with _ | m1
  · exact (gam_cached_none R h1 hx).elim
  · rcases h2 : b.best with _ | m2 <;> rw [h1, h2] at h
    · simp at h
    · simp only [allCells_iff, cmp_le_iff] at h
      rw [gam_best h2, ← hd]
      exact sat_of_le ((gam_cached R h1).1 hx) h

theorem C30_is_leq_exact (algo : ℤ) (halgo : 0 ≤ algo) (a b : OctT K) (ha : Wf a)
    (hd : a.dim = b.dim) :
    OctT.isLeq Rnd.exact algo a b = true ↔ ∀ x, a.Gam x → b.Gam x := by
  refine ⟨fun h x => C30_is_leq_sound _ algo a b hd h x, fun h => ?_⟩
  unfold OctT.isLeq
  rcases h1 : (cacheIf Rnd.exact algo a).best with _ | m1
  · rfl
  · have hsc := cached_SC ha halgo h1
    rcases h2 : b.best with _ | m2
    · obtain ⟨x, hx⟩ := hsc.nonempty
      exact (gam_best_none h2 (h x ((gam_cached _ h1).2 hx))).elim
    · simp only [allCells_iff, cmp_le_iff]
      intro i j hi hc
      refine SC_le_of_sat hsc (fun x hx => ?_) hi hc
      have := h x ((gam_cached _ h1).2 hx)
      rwa [gam_best h2, ← hd] at this

theorem C30_is_eq_sound (algo : ℤ) (a b : OctT K) (hd : a.dim = b.dim)
    (h : OctT.isEq R algo a b = true) (x : ℕ → K) : a.Gam x ↔ b.Gam x := by
  unfold OctT.isEq at h
  rcases h1 : (cacheIf R algo a).best with _ | m1 <;> rcases h2 : (cacheIf R algo b).best with _ | m2 <;>
    rw [h1, h2] at h
  · exact ⟨fun hx => (gam_cached_none R h1 hx).elim, fun hx => (gam_cached_none R h2 hx).elim⟩
  · simp at h
  · simp at h
  · simp only [allCells_iff, decide_eq_true_eq, cmp_eq_zero] at h
    rw [gam_cached R h1, gam_cached R h2, ← hd]
    exact ⟨fun hs => sat_of_le hs fun i j hi hc => (h i j hi hc).le,
      fun hs => sat_of_le hs fun i j hi hc => (h i j hi hc).ge⟩

theorem C30_is_eq_exact (algo : ℤ) (halgo : 0 ≤ algo) (a b : OctT K) (ha : Wf a) (hb : Wf b)
    (hd : a.dim = b.dim) :
    OctT.isEq Rnd.exact algo a b = true ↔ ∀ x, a.Gam x ↔ b.Gam x := by
  refine ⟨fun h x => C30_is_eq_sound _ algo a b hd h x, fun h => ?_⟩
  unfold OctT.isEq
  rcases h1 : (cacheIf Rnd.exact algo a).best with _ | m1 <;>
    rcases h2 : (cacheIf Rnd.exact algo b).best with _ | m2
  · rfl
  · obtain ⟨x, hx⟩ := (cached_SC hb halgo h2).nonempty
    exact (gam_cached_none _ h1 ((h x).2 ((gam_cached _ h2).2 hx))).elim
  · obtain ⟨x, hx⟩ := (cached_SC ha halgo h1).nonempty
    exact (gam_cached_none _ h2 ((h x).1 ((gam_cached _ h1).2 hx))).elim
  · have s1 := cached_SC ha halgo h1
    have s2 := cached_SC hb halgo h2
    rw [← hd] at s2
    have e : ∀ x, Sat a.dim m1 x ↔ Sat a.dim m2 x := fun x => by
      rw [← gam_cached Rnd.exact h1, h x, gam_cached Rnd.exact h2, hd]
    simp only [allCells_iff, decide_eq_true_eq, cmp_eq_zero]
    intro i j hi hc
    exact le_antisymm (SC_le_of_sat s1 (fun x => (e x).1) hi hc)
      (SC_le_of_sat s2 (fun x => (e x).2) hi hc)

/-- `is_top` is exact on represented octagons -/
theorem C30_is_top_exact (a : OctT K) (h : Wf a) :
    OctT.isTop a = true ↔ ∀ x, a.Gam x := by
  unfold OctT.isTop
  rcases h1 : a.orig with _ | m
  · simp only [Bool.false_eq_true, false_iff, not_forall]
    exact ⟨fun _ => 0, gam_orig_none h1⟩
  · have hg := h.good_orig h1
    simp only [gam_orig h.wfr h1, allCells_iff, Bool.or_eq_true, decide_eq_true_eq]
    constructor
    · intro hall x i j hi hc
      rcases hall i j hi hc with hp | rfl
      · rw [(infty_iff (noNinf_iff.1 hg.ne i j hi hc)).1 hp]; exact le_pinf _
      · simpa using hg.nn i hi
    · intro hall i j hi hc
      by_cases e : i = j
      · exact Or.inr e
      · left
        rw [infty_iff (noNinf_iff.1 hg.ne i j hi hc)]
        rcases hm : m (matpos i j) with _ | q | _
        · exact absurd hm (noNinf_iff.1 hg.ne i j hi hc)
        · exfalso
          -- move variable `j/2` far along the sign of `j`, keeping `V i ≤ 0`
          have hj : j < 2 * a.dim := by unfold Cell at hc; omega
          let y : K := |q| + 1
          have hy : q < y ∧ 0 < y := ⟨by have := le_abs_self q; simp only [y]; linarith, by positivity⟩
          let x : ℕ → K := Function.update (fun _ => (0 : K)) (j / 2) (if j % 2 = 0 then y else -y)
          have hVj : V x j = y := by
            unfold V; simp only [x, Function.update_self]; split_ifs <;> simp
          have hVi : V x i ≤ 0 := by
            by_cases hij : i / 2 = j / 2
            · have : i = j ^^^ 1 := by
                rw [xor1]; split_ifs <;> omega
              rw [this, V_xor1, hVj]; linarith [hy.2]
            · unfold V; simp only [x, Function.update_of_ne hij]; split_ifs <;> simp
          have := hall x i j hi hc
          rw [hm, fin_le_fin, hVj] at this
          linarith [hy.1]
        · rfl

/-- `is_dimension_unconstrained` on a non-empty octagon: true exactly when the variable can be changed
arbitrarily inside the set -/
theorem C30_unconstrained_exact (a : OctT K) (d : ℕ) (hd : d < a.dim) (x0 : ℕ → K) (h0 : a.Gam x0) :
    OctT.isDimensionUnconstrained a d = true ↔
      ∀ x y, a.Gam x → a.Gam (Function.update x d y) := by
  rcases h1 : a.best with _ | m
  · exact (gam_best_none h1 h0).elim
  unfold OctT.isDimensionUnconstrained
  rw [h1]
  simp only [gam_best h1, List.all_eq_true, List.mem_range, Bool.and_eq_true, Bool.or_eq_true,
    decide_eq_true_eq]
  rw [gam_best h1] at h0
  have hnn : ∀ i j, i < 2 * a.dim → j < 2 * a.dim → m (matpos2 i j) ≠ ninf := fun i j hi hj e => by
    have := h0.le2 hi hj; rw [e] at this; simp at this
  constructor
  · intro hall' x y hx i j hi hc
    have hall : ∀ i < 2 * a.dim, (m (matpos2 i (2 * d)) = pinf ∨ i = 2 * d) ∧
        (m (matpos2 i (2 * d + 1)) = pinf ∨ i = 2 * d + 1) := fun i hi => by
      have := hall' i hi
      rwa [infty_iff (hnn i _ hi (by omega)), infty_iff (hnn i _ hi (by omega))] at this
    have hj : j < 2 * a.dim := by unfold Cell at hc; omega
    by_cases hij : i = j
    · subst hij; have := hx i i hi hc; simpa using this
    rw [← matpos2_cell hc]
    by_cases hjd : j / 2 = d
    · have : m (matpos2 i j) = pinf := by
        rcases Nat.mod_two_eq_zero_or_one j with e | e
        · have hj2 : j = 2 * d := by omega
          rw [hj2] at hij ⊢; exact (hall i hi).1.resolve_right hij
        · have hj2 : j = 2 * d + 1 := by omega
          rw [hj2] at hij ⊢; exact (hall i hi).2.resolve_right hij
      rw [this]; exact le_pinf _
    · by_cases hid : i / 2 = d
      · have hne : i / 2 ≠ j / 2 := by omega
        rw [matpos2_mirror hne]
        have : m (matpos2 (j ^^^ 1) (i ^^^ 1)) = pinf := by
          have hh := hall (j ^^^ 1) (xor1_lt hj)
          have hne' : j ^^^ 1 ≠ i ^^^ 1 := fun e => hne (by rw [← xor1_div i, ← xor1_div j, e])
          rcases Nat.mod_two_eq_zero_or_one i with e | e
          · have hi2 : i ^^^ 1 = 2 * d + 1 := by rw [xor1, if_pos e]; omega
            rw [hi2] at hne' ⊢; exact hh.2.resolve_right hne'
          · have hi2 : i ^^^ 1 = 2 * d := by rw [xor1, if_neg (by omega)]; omega
            rw [hi2] at hne' ⊢; exact hh.1.resolve_right hne'
        rw [this]; exact le_pinf _
      · rw [V_update_ne x y hjd, V_update_ne x y hid, matpos2_cell hc]
        exact hx i j hi hc
  · intro hall
    have key : ∀ i j, i < 2 * a.dim → j < 2 * a.dim → j / 2 = d → i ≠ j → m (matpos2 i j) = pinf := by
      intro i j hi hj hjd hij
      rcases hm : m (matpos2 i j) with _ | q | _
      · have := h0.le2 hi hj; rw [hm] at this; simp at this
      · exfalso
        let y : K := |q| + |V x0 i| + 1
        let x := Function.update x0 d (if j % 2 = 0 then y else -y)
        have hx := hall x0 (if j % 2 = 0 then y else -y) h0
        have hVj : V x j = y := by
          unfold V; simp only [x, hjd, Function.update_self]; split_ifs <;> simp
        have hb := hx.le2 hi hj
        rw [hm, fin_le_fin] at hb
        have hVi : V x i ≤ |V x0 i| := by
          by_cases hid : i / 2 = d
          · have : i = j ^^^ 1 := by
              rw [xor1]; split_ifs <;> omega
            have e : V x i = - y := by rw [this, V_xor1, hVj]
            have h1 := abs_nonneg (V x0 i)
            have h2 := abs_nonneg q
            rw [e]; simp only [y]; linarith
          · rw [V_update_ne _ _ hid]; exact le_abs_self _
        have : V x j - V x i ≤ q := hb
        rw [hVj] at this
        have h2 := le_abs_self q
        simp only [y] at this
        linarith
      · rfl
    intro i hi
    rw [infty_iff (hnn i _ hi (by omega)), infty_iff (hnn i _ hi (by omega))]
    constructor
    · by_cases e : i = 2 * d
      · exact Or.inr e
      · exact Or.inl (key i _ hi (by omega) (by omega) e)
    · by_cases e : i = 2 * d + 1
      · exact Or.inr e
      · exact Or.inl (key i _ hi (by omega) (by omega) e)

/-- `{x0 ≤ 3, x0 - x1 ≤ 1, x1 ≥ 5}` is included in `{x1 - x0 ≥ 2}`, which has no syntactic counterpart -/
def exOct2 : Mem ℚ := (allocTop 2).set (matpos 2 0) (fin (-2))

example : OctT.isLeq Rnd.exact 0 (⟨some exOct, none, 2, 0⟩ : OctT ℚ) ⟨some exOct2, none, 2, 0⟩ = true ∧
    OctT.isLeq Rnd.exact 0 (⟨some exOct2, none, 2, 0⟩ : OctT ℚ) ⟨some exOct, none, 2, 0⟩ = false := by
  decide +kernel

theorem exOct2_good : Good 2 exOct2 :=
  (SC_good (allocTop_SC 2)).set (by decide) (by decide) (by simp)

/-! ## C31: meet -/

theorem C31_meet_exact (a b : OctT K) (hd : a.dim = b.dim) (x : ℕ → K) :
    (OctT.meet a b).Gam x ↔ a.Gam x ∧ b.Gam x := by
  unfold OctT.meet
  rcases h1 : a.best with _ | m1
  · simp [gam_bottom, gam_best_none h1]
  · rcases h2 : b.best with _ | m2
    · simp [gam_bottom, gam_best_none h2]
    · rw [gam_m, sat_min, gam_best h1, gam_best h2, hd]

theorem C31_meet_array_exact (a : OctT K) (l : List (OctT K)) (hd : ∀ b ∈ l, b.dim = a.dim)
    (x : ℕ → K) : (OctT.meetArray a l).Gam x ↔ a.Gam x ∧ ∀ b ∈ l, b.Gam x := by
  unfold OctT.meetArray
  split_ifs with hn
  · simp only [gam_bottom, false_iff, not_and]
    rw [List.any_eq_true] at hn
    obtain ⟨b, hb, he⟩ := hn
    have he' : b.best = none := by simpa using he
    rcases List.mem_cons.1 hb with rfl | hb
    · intro h; exact (gam_best_none he' h).elim
    · intro _ h; exact gam_best_none he' (h b hb)
  · rw [List.any_eq_true] at hn
    push Not at hn
    rcases h1 : a.best with _ | m
    · simp [gam_bottom, gam_best_none h1]
    · rw [gam_m, gam_best h1]
      have hsome : ∀ b ∈ l, b.best ≠ none := fun b hb => by
        have := hn b (List.mem_cons_of_mem _ hb); simpa using this
      clear hn h1
      induction l generalizing m with
      | nil => simp
      | cons b l ih =>
        rw [List.foldl_cons]
        refine (ih (fun c hc => hd c (List.mem_cons_of_mem _ hc)) _
          (fun c hc => hsome c (List.mem_cons_of_mem _ hc))).trans ?_
        rcases h2 : b.best with _ | mb
        · exact absurd h2 (hsome b List.mem_cons_self)
        · simp only [sat_min, List.forall_mem_cons, gam_best h2, hd b List.mem_cons_self]
          tauto

example : (OctT.meet (⟨some exOct, none, 2, 0⟩ : OctT ℚ) ⟨some exOct2, none, 2, 0⟩).Gam
    (fun i => if i = 0 then 3 else 5) := by
  rw [C31_meet_exact (K := ℚ) _ _ (by rfl), gam_m, gam_m]
  have key : ∀ m : Mem ℚ, allCells 2 (fun i j => decide (fin (V (fun i => if i = 0 then (3:ℚ) else 5) j
    - V (fun i => if i = 0 then (3:ℚ) else 5) i) ≤ m (matpos i j))) = true →
      Sat 2 m (fun i => if i = 0 then 3 else 5) := fun m h i j hi hc => by
    have := allCells_iff.1 h i j hi hc; simpa using this
  exact ⟨key _ (by decide +kernel), key _ (by decide +kernel)⟩

/-! ## C32: join -/

theorem C32_join_sound (algo : ℤ) (a b : OctT K) (hd : a.dim = b.dim) (x : ℕ → K)
    (hx : a.Gam x ∨ b.Gam x) : (OctT.join R algo a b).Gam x := by
  have hga := gam_cacheIf R algo a x
  have hgb := gam_cacheIf R algo b x
  have hda := cacheIf_dim R algo a
  have hdb := cacheIf_dim R algo b
  rw [← hga, ← hgb] at hx
  unfold OctT.join
  generalize cacheIf R algo a = a' at *
  generalize cacheIf R algo b = b' at *
  have hd' : a'.dim = b'.dim := by rw [hda, hdb, hd]
  simp only
  rcases h1 : a'.best with _ | m1 <;> rcases h2 : b'.best with _ | m2 <;> try simp only
  · exact (hx.elim (gam_best_none h1) (gam_best_none h2)).elim
  · rw [hd']; exact hx.resolve_left (gam_best_none h1)
  · exact hx.resolve_right (gam_best_none h2)
  · have : Sat a'.dim (fun p => bmax (m1 p) (m2 p)) x := by
      rcases hx with hx | hx
      · exact sat_of_le ((gam_best h1).1 hx) fun i j _ _ => by
          simp only [bmax_eq_max]; exact le_max_left _ _
      · rw [hd']
        exact sat_of_le ((gam_best h2).1 hx) fun i j _ _ => by
          simp only [bmax_eq_max]; exact le_max_right _ _
    split_ifs
    · exact gam_closed.2 this
    · exact gam_m.2 this

/-- every octagonal constraint set containing both arguments contains the join -/
theorem C32_join_least (algo : ℤ) (halgo : 0 ≤ algo) (a b c : OctT K) (ha : Wf a) (hb : Wf b)
    (hd : a.dim = b.dim) (hdc : a.dim = c.dim) (h1 : ∀ x, a.Gam x → c.Gam x)
    (h2 : ∀ x, b.Gam x → c.Gam x) (x : ℕ → K) (hx : (OctT.join Rnd.exact algo a b).Gam x) :
    c.Gam x := by
  have hga := gam_cacheIf Rnd.exact algo a
  have hgb := gam_cacheIf Rnd.exact algo b
  have hda := cacheIf_dim Rnd.exact algo a
  have hdb := cacheIf_dim Rnd.exact algo b
  have hs1 := fun m => cached_SC (m := m) ha halgo
  have hs2 := fun m => cached_SC (m := m) hb halgo
  have hc1 := fun m => cached_closed Rnd.exact (a := a) (m := m) halgo
  have hc2 := fun m => cached_closed Rnd.exact (a := b) (m := m) halgo
  unfold OctT.join at hx
  generalize cacheIf Rnd.exact algo a = a' at *
  generalize cacheIf Rnd.exact algo b = b' at *
  simp only at hx
  rcases e1 : a'.best with _ | m1 <;> rcases e2 : b'.best with _ | m2 <;>
    simp only [e1, e2] at hx
  · exact (gam_bottom _ _ _ hx).elim
  · rw [hda, hd, ← hdb] at hx
    exact h2 x ((hgb x).1 hx)
  · exact h1 x ((hga x).1 hx)
  · rw [hc1 _ e1, hc2 _ e2] at hx
    simp only [Option.isSome_some, Bool.and_self, if_true] at hx
    rw [gam_closed] at hx
    have s1 := hs1 _ e1
    have s2 := hs2 _ e2
    obtain ⟨x1, hx1⟩ := s1.nonempty
    have g1 : ∀ x, Sat a.dim m1 x → c.Gam x := fun x hx => h1 x ((hga x).1 ((gam_best e1).2 (hda ▸ hx)))
    have g2 : ∀ x, Sat a.dim m2 x → c.Gam x := fun x hx =>
      h2 x ((hgb x).1 ((gam_best e2).2 (by rw [hdb, ← hd]; exact hx)))
    rcases e3 : c.best with _ | mc
    · exact (gam_best_none e3 (g1 x1 hx1)).elim
    · rw [gam_best e3, ← hdc]
      rw [hda] at hx
      refine sat_of_le hx fun i j hi hc => ?_
      simp only [bmax_eq_max]
      refine max_le ?_ ?_
      · exact SC_le_of_sat s1 (fun x hx => by have := g1 x hx; rwa [gam_best e3, ← hdc] at this) hi hc
      · rw [← hd] at s2
        exact SC_le_of_sat s2 (fun x hx => by have := g2 x hx; rwa [gam_best e3, ← hdc] at this) hi hc

/-- the array version covers every element -/
theorem C32_join_array_sound (algo : ℤ) (a : OctT K) (l : List (OctT K)) (hd : ∀ b ∈ l, b.dim = a.dim)
    (b : OctT K) (hb : b ∈ a :: l) (x : ℕ → K) (hx : b.Gam x) : (OctT.joinArray R algo a l).Gam x := by
  have key : ∀ (l : List (OctT K)) (s : Option (Mem K) × Bool), (∀ b ∈ l, b.dim = a.dim) →
      ((∃ m, s.1 = some m ∧ Sat a.dim m x) ∨ ∃ b ∈ l, b.Gam x) →
      ∃ m, (l.foldl (joinArrayStep R algo) s).1 = some m ∧ Sat a.dim m x := by
    intro l
    induction l with
    | nil => intro s _ h; simpa using h
    | cons c l ih =>
      intro s hdl h
      rw [List.foldl_cons]
      apply ih _ (fun b hb => hdl b (List.mem_cons_of_mem _ hb))
      have hdc : c.dim = a.dim := hdl c List.mem_cons_self
      unfold joinArrayStep
      rcases e : (cacheIf R algo c).best with _ | mc <;> simp only [e]
      · rcases h with h | ⟨b, hb, hx⟩
        · exact Or.inl h
        · rcases List.mem_cons.1 hb with rfl | hb
          · exact (gam_cached_none R e hx).elim
          · exact Or.inr ⟨b, hb, hx⟩
      · by_cases hcx : c.Gam x
        · left
          rw [gam_cached R e, hdc] at hcx
          refine ⟨_, rfl, ?_⟩
          rcases s.1 with _ | m
          · exact hcx
          · exact sat_of_le hcx fun i j _ _ => by simp only [bmax_eq_max]; exact le_max_right _ _
        · rcases h with ⟨m, hm, hs⟩ | ⟨b, hb, hx⟩
          · left
            refine ⟨_, rfl, ?_⟩
            rw [hm]
            exact sat_of_le hs fun i j _ _ => by simp only [bmax_eq_max]; exact le_max_left _ _
          · rcases List.mem_cons.1 hb with rfl | hb
            · exact (hcx hx).elim
            · exact Or.inr ⟨b, hb, hx⟩
  obtain ⟨m, hm, hs⟩ := key (a :: l) (none, true)
    (by intro b hb; rcases List.mem_cons.1 hb with rfl | hb; · rfl
        exact hd b hb) (Or.inr ⟨b, hb, hx⟩)
  unfold OctT.joinArray
  rcases e : (a :: l).foldl (joinArrayStep R algo) (none, true) with ⟨o, f⟩
  rw [e] at hm
  simp only at hm
  subst hm
  cases f
  · exact gam_m.2 hs
  · exact gam_closed.2 hs

/-- join of `{x0 = 0, x1 = 0}` and `{x0 = 1, x1 = 1}` keeps `x0 = x1`, hypotheses of optimality hold -/
def exPt (q : ℚ) : Mem ℚ :=
  ((((allocTop 2).set (matpos 1 0) (fin (2 * q))).set (matpos 0 1) (fin (-(2 * q)))).set
    (matpos 3 2) (fin (2 * q))).set (matpos 2 3) (fin (-(2 * q)))

theorem exPt_wf (q : ℚ) : Wf (⟨some (exPt q), none, 2, 0⟩ : OctT ℚ) :=
  wf_of_good (((((SC_good (allocTop_SC 2)).set (by decide) (by decide) (by simp)).set (by decide)
    (by decide) (by simp)).set (by decide) (by decide) (by simp)).set (by decide) (by decide) (by simp))

example : ((OctT.join Rnd.exact 0 (⟨some (exPt 0), none, 2, 0⟩ : OctT ℚ)
    ⟨some (exPt 1), none, 2, 0⟩).closed.map fun c => (c (matpos2 0 2), c (matpos2 2 0), c (matpos2 1 0)))
    = some (fin 0, fin 0, fin 2) := by decide +kernel

/-! ## C33: widening -/

theorem C33_widening_sound (algo : ℤ) (a b : OctT K) (ha : WfR a) (hd : a.dim = b.dim) (x : ℕ → K)
    (hx : a.Gam x ∨ b.Gam x) : (OctT.widening R algo a b).Gam x := by
  have hgb := gam_cacheIf R algo b x
  have hdb := cacheIf_dim R algo b
  rw [← hgb] at hx
  unfold OctT.widening
  generalize cacheIf R algo b = b' at *
  simp only
  rcases h1 : a.orig with _ | m1
  · exact hx.resolve_left (gam_orig_none h1)
  · rcases h2 : b'.best with _ | m2
    · exact hx.resolve_right (gam_best_none h2)
    · rw [gam_m]
      rcases hx with hx | hx
      · exact sat_of_le ((gam_orig ha h1).1 hx) fun i j _ _ => (widenBound_ge algo _ _).1
      · rw [gam_best h2, hdb, ← hd] at hx
        exact sat_of_le hx fun i j _ _ => (widenBound_ge algo _ _).2

theorem C33_widening_thresholds_sound (algo : ℤ) (th : List (Bound K)) (a b : OctT K) (ha : WfR a)
    (hd : a.dim = b.dim) (x : ℕ → K) (hx : a.Gam x ∨ b.Gam x) :
    (OctT.wideningThresholds R algo th a b).Gam x := by
  have hgb := gam_cacheIf R algo b x
  have hdb := cacheIf_dim R algo b
  rw [← hgb] at hx
  unfold OctT.wideningThresholds
  generalize cacheIf R algo b = b' at *
  simp only
  rcases h1 : a.orig with _ | m1
  · exact hx.resolve_left (gam_orig_none h1)
  · rcases h2 : b'.best with _ | m2
    · exact hx.resolve_right (gam_best_none h2)
    · rw [gam_m]
      rcases hx with hx | hx
      · exact sat_of_le ((gam_orig ha h1).1 hx) fun i j _ _ => (widenThBound_ge _ _ _).1
      · rw [gam_best h2, hdb, ← hd] at hx
        exact sat_of_le hx fun i j _ _ => (widenThBound_ge _ _ _).2

/-- the stored constraints of an iteration `x := x widen y_n` change at most `2n(n+1)+1` times and are
eventually constant, whatever the (rounded) sequence `y` -/
theorem C33_widening_stabilises (algo : ℤ) (h99 : algo ≠ 99 ∧ algo ≠ -99) (dim : ℕ) (x y : ℕ → OctT K)
    (hstep : ∀ n, x (n + 1) = OctT.widening R algo (x n) (y n)) :
    Stabilises (fun n => cells (x n) dim) (matsize dim * 1 + 1) := by
  refine cells_stabilise (above [pinf]) 1 (fun b => above_le _ _) _ ?_ ?_
  · intro i hi
    simp only [cells, ne_eq, Option.map_eq_none_iff, hstep, OctT.widening] at hi ⊢
    rcases h1 : (x i).orig with _ | m1
    · exact absurd h1 hi
    · rcases h2 : (cacheIf R algo (y i)).best with _ | m2 <;> simp only [h2]
      · rw [h1]; simp
      · simp [orig]
  · intro i m m' hm hm' p
    simp only [cells, hstep, OctT.widening] at hm hm'
    rcases h1 : (x i).orig with _ | m1 <;> rw [h1] at hm
    · simp at hm
    · rcases h2 : (cacheIf R algo (y i)).best with _ | m2 <;> simp only [h1, h2] at hm'
      · simp only [h1, Option.map_some, Option.some.injEq] at hm hm'
        subst hm hm'; exact Or.inl rfl
      · simp only [orig, Option.some_or, Option.map_some, Option.some.injEq] at hm hm'
        subst hm hm'
        simp only
        rcases widenBound_cases algo h99 (m1 p) (m2 p) with e | ⟨e1, e2⟩
        · exact Or.inl e
        · exact Or.inr (above_lt e1 e2)

theorem C33_widening_thresholds_stabilises (algo : ℤ) (th : List (Bound K)) (dim : ℕ)
    (x y : ℕ → OctT K) (hstep : ∀ n, x (n + 1) = OctT.wideningThresholds R algo th (x n) (y n)) :
    Stabilises (fun n => cells (x n) dim) (matsize dim * (th.length + 1) + 1) := by
  refine cells_stabilise (above (pinf :: th.map fun t => ofScalar R t false)) (th.length + 1)
    (fun b => by simpa using above_le (pinf :: th.map fun t => ofScalar R t false) b) _ ?_ ?_
  · intro i hi
    simp only [cells, ne_eq, Option.map_eq_none_iff, hstep, OctT.wideningThresholds] at hi ⊢
    rcases h1 : (x i).orig with _ | m1
    · exact absurd h1 hi
    · rcases h2 : (cacheIf R algo (y i)).best with _ | m2 <;> simp only [h2]
      · rw [h1]; simp
      · simp [orig]
  · intro i m m' hm hm' p
    simp only [cells, hstep, OctT.wideningThresholds] at hm hm'
    rcases h1 : (x i).orig with _ | m1 <;> rw [h1] at hm
    · simp at hm
    · rcases h2 : (cacheIf R algo (y i)).best with _ | m2 <;> simp only [h1, h2] at hm'
      · simp only [h1, Option.map_some, Option.some.injEq] at hm hm'
        subst hm hm'; exact Or.inl rfl
      · simp only [orig, Option.some_or, Option.map_some, Option.some.injEq] at hm hm'
        subst hm hm'
        simp only
        rcases widenThBound_cases (th.map fun t => ofScalar R t false) (m1 p) (m2 p) with e | ⟨e1, e2⟩
        · exact Or.inl e
        · exact Or.inr (above_lt e1 e2)

/-- the denoted sets become stationary too -/
theorem C33_widening_sets_stationary (algo : ℤ) (h99 : algo ≠ 99 ∧ algo ≠ -99) (dim : ℕ)
    (x y : ℕ → OctT K) (hy : ∀ n, WfR (y n)) (hyd : ∀ n, (y n).dim = dim) (hx0 : WfR (x 0))
    (hxd : (x 0).dim = dim) (hstep : ∀ n, x (n + 1) = OctT.widening R algo (x n) (y n)) :
    ∃ N, ∀ n, N ≤ n → ∀ p, (x n).Gam p ↔ (x N).Gam p := by
  have hinv : ∀ n, WfR (x n) ∧ (x n).dim = dim := by
    intro n
    induction n with
    | zero => exact ⟨hx0, hxd⟩
    | succ n ih =>
      rw [hstep, OctT.widening]
      rcases h1 : (x n).orig with _ | m1 <;> try simp only
      · exact ⟨wfR_cacheIf R algo (hy n), by rw [cacheIf_dim, hyd]⟩
      · rcases h2 : (cacheIf R algo (y n)).best with _ | m2 <;> try simp only
        · exact ih
        · exact ⟨wfR_m _ _ _, ih.2⟩
  obtain ⟨N, hN⟩ := (C33_widening_stabilises R algo h99 dim x y hstep).2
  refine ⟨N, fun n hn p => gam_of_cells (hinv n).1 (hinv N).1 ((hinv n).2.trans (hinv N).2.symm) ?_ p⟩
  rw [(hinv n).2]; exact hN n hn

theorem C33_widening_thresholds_sets_stationary (algo : ℤ) (th : List (Bound K)) (dim : ℕ)
    (x y : ℕ → OctT K) (hy : ∀ n, WfR (y n)) (hyd : ∀ n, (y n).dim = dim) (hx0 : WfR (x 0))
    (hxd : (x 0).dim = dim) (hstep : ∀ n, x (n + 1) = OctT.wideningThresholds R algo th (x n) (y n)) :
    ∃ N, ∀ n, N ≤ n → ∀ p, (x n).Gam p ↔ (x N).Gam p := by
  have hinv : ∀ n, WfR (x n) ∧ (x n).dim = dim := by
    intro n
    induction n with
    | zero => exact ⟨hx0, hxd⟩
    | succ n ih =>
      rw [hstep, OctT.wideningThresholds]
      rcases h1 : (x n).orig with _ | m1 <;> try simp only
      · exact ⟨wfR_cacheIf R algo (hy n), by rw [cacheIf_dim, hyd]⟩
      · rcases h2 : (cacheIf R algo (y n)).best with _ | m2 <;> try simp only
        · exact ih
        · exact ⟨wfR_m _ _ _, ih.2⟩
  obtain ⟨N, hN⟩ := (C33_widening_thresholds_stabilises R algo th dim x y hstep).2
  refine ⟨N, fun n hn p => gam_of_cells (hinv n).1 (hinv N).1 ((hinv n).2.trans (hinv N).2.symm) ?_ p⟩
  rw [(hinv n).2]; exact hN n hn

/-- growing boxes `x0 ≤ n`: the first step of the iteration jumps to infinity, or to the threshold -/
example : ((OctT.widening Rnd.exact 0 (⟨some (exPt 0), none, 2, 0⟩ : OctT ℚ)
    ⟨some (exPt 1), none, 2, 0⟩).m.map fun m => (m (matpos 1 0), m (matpos 0 1))) = some (pinf, fin 0) ∧
  ((OctT.wideningThresholds Rnd.exact 0 [fin 1, fin 10] (⟨some (exPt 0), none, 2, 0⟩ : OctT ℚ)
    ⟨some (exPt 1), none, 2, 0⟩).m.map fun m => (m (matpos 1 0), m (matpos 0 1))) = some (fin 10, fin 0) := by
  decide +kernel

/-! ## C34: narrowing -/

theorem C34_narrowing_above (algo : ℤ) (a b : OctT K) (hd : a.dim = b.dim)
    (hle : ∀ x, b.Gam x → a.Gam x) (x : ℕ → K) (hx : b.Gam x) : (OctT.narrowing R algo a b).Gam x := by
  have hax := hle x hx
  unfold OctT.narrowing
  rcases h1 : (cacheIf R algo a).best with _ | m1
  · exact (gam_cached_none R h1 hax).elim
  · rcases h2 : (cacheIf R algo b).best with _ | m2
    · exact (gam_cached_none R h2 hx).elim
    · rw [gam_m]
      rw [gam_cached R h1] at hax
      rw [gam_cached R h2, ← hd] at hx
      intro i j hi hc
      simp only
      split_ifs
      · exact hx i j hi hc
      · exact hax i j hi hc

theorem C34_narrowing_below (algo : ℤ) (a b : OctT K) (ha : WfN a) (x : ℕ → K)
    (hx : (OctT.narrowing R algo a b).Gam x) : a.Gam x := by
  unfold OctT.narrowing at hx
  rcases h1 : (cacheIf R algo a).best with _ | m1
  · simp [h1, gam_bottom] at hx
  · rcases h2 : (cacheIf R algo b).best with _ | m2
    · simp [h1, h2, gam_bottom] at hx
    · simp only [h1, h2] at hx
      rw [gam_m] at hx
      rw [gam_cached R h1]
      intro i j hi hc
      have := hx i j hi hc
      simp only at this
      split_ifs at this with hinf
      · have hn := (wfN_cacheIf R algo ha).best h1
        rw [cacheIf_dim] at hn
        rw [(infty_iff (noNinf_iff.1 hn i j hi hc)).1 hinf]; exact le_pinf _
      · exact this

example : ((OctT.narrowing Rnd.exact 0 (⟨some exOct2, none, 2, 0⟩ : OctT ℚ)
    ⟨some exOct, none, 2, 0⟩).m.map fun m => (m (matpos 1 0), m (matpos 2 0))) = some (fin 6, fin (-2)) := by
  decide +kernel

/-! ## C35: bounds of a variable, boxes -/

theorem C35_bound_dimension_sound (algo : ℤ) (a : OctT K) (d : ℕ) (hd : d < a.dim) (x : ℕ → K)
    (hx : a.Gam x) : x d ∈ OctT.boundDimension R algo a d := by
  unfold OctT.boundDimension
  rcases h1 : (cacheIf R algo a).best with _ | m
  · exact (gam_cached_none R h1 hx).elim
  · rw [gam_cached R h1] at hx
    exact mem_intervalOfBounds R hx hd

/-- the interval is exactly the hull of the values of the variable -/
theorem C35_bound_dimension_exact (algo : ℤ) (halgo : 0 ≤ algo) (a : OctT K) (h : Wf a) (d : ℕ)
    (hd : d < a.dim) :
    IsHull (fun v => ∃ x, a.Gam x ∧ x d = v) (OctT.boundDimension Rnd.exact algo a d) := by
  refine ⟨fun v ⟨x, hx, e⟩ => e ▸ C35_bound_dimension_sound _ algo a d hd x hx, ?_⟩
  intro J hJ z hz
  unfold OctT.boundDimension at hz
  rcases h1 : (cacheIf Rnd.exact algo a).best with _ | m <;> rw [h1] at hz
  · exact (Itv.not_mem_bottom z hz).elim
  · have hsc := cached_SC h halgo h1
    obtain ⟨x, hx, e⟩ := attain_value hsc hd hz
    exact hJ z ⟨x, (gam_cached _ h1).2 hx, e⟩

/-- every value of the interval is taken by a point of the octagon -/
theorem C35_bound_dimension_attained (algo : ℤ) (halgo : 0 ≤ algo) (a : OctT K) (h : Wf a) (d : ℕ)
    (hd : d < a.dim) (z : K) : z ∈ OctT.boundDimension Rnd.exact algo a d ↔ ∃ x, a.Gam x ∧ x d = z := by
  constructor
  · intro hz
    unfold OctT.boundDimension at hz
    rcases h1 : (cacheIf Rnd.exact algo a).best with _ | m <;> rw [h1] at hz
    · exact (Itv.not_mem_bottom z hz).elim
    · obtain ⟨x, hx, e⟩ := attain_value (cached_SC h halgo h1) hd hz
      exact ⟨x, (gam_cached _ h1).2 hx, e⟩
  · rintro ⟨x, hx, rfl⟩; exact C35_bound_dimension_sound _ algo a d hd x hx

/-- the box conversion gives the same intervals -/
theorem C35_to_box (algo : ℤ) (a : OctT K) (d : ℕ) :
    OctT.toBox R algo a d = OctT.boundDimension R algo a d := by
  unfold OctT.toBox OctT.boundDimension
  rcases (cacheIf R algo a).best with _ | m <;> rfl

/-- building an octagon from a box: contains the box under every rounding -/
theorem C35_of_box_sound (dim intdim : ℕ) (t : ℕ → Itv K) (x : ℕ → K) (hx : ∀ i < dim, x i ∈ t i) :
    (OctT.ofBox R dim intdim (some t)).Gam x := ofBox_sound R hx

/-- ... and equals it with exact arithmetic -/
theorem C35_of_box_exact (dim intdim : ℕ) (t : ℕ → Itv K) (x : ℕ → K) :
    (OctT.ofBox Rnd.exact dim intdim (some t)).Gam x ↔ ∀ i < dim, x i ∈ t i :=
  ⟨ofBox_le, ofBox_sound _⟩

/-- the interval test answers exactly whether every point satisfies `x_d ∈ i` -/
theorem C35_sat_interval_exact (algo : ℤ) (halgo : 0 ≤ algo) (a : OctT K) (h : Wf a) (d : ℕ)
    (hd : d < a.dim) (i : Itv K) :
    OctT.satInterval Rnd.exact algo a d i = true ↔ ∀ x, a.Gam x → x d ∈ i := by
  unfold OctT.satInterval
  rcases h1 : (cacheIf Rnd.exact algo a).best with _ | m
  · simp only [true_iff]; exact fun x hx => (gam_cached_none _ h1 hx).elim
  · simp only [Bool.and_eq_true, decide_eq_true_eq, gam_cached _ h1]
    constructor
    · rintro ⟨e1, e2⟩ x hx
      exact mem_of_le e1 e2 (mem_intervalOfBounds Rnd.exact hx hd)
    · intro hall
      have hsc := cached_SC h halgo h1
      exact le_of_attained hsc hd fun z hz => by
        obtain ⟨x, hx, e⟩ := attain_value hsc hd hz
        exact e ▸ hall x hx

theorem C35_sat_interval_sound (algo : ℤ) (a : OctT K) (d : ℕ) (hd : d < a.dim) (i : Itv K)
    (h : OctT.satInterval R algo a d i = true) (x : ℕ → K) (hx : a.Gam x) : x d ∈ i := by
  unfold OctT.satInterval at h
  rcases h1 : (cacheIf R algo a).best with _ | m
  · exact (gam_cached_none R h1 hx).elim
  · rw [h1] at h
    simp only [Bool.and_eq_true, decide_eq_true_eq] at h
    rw [gam_cached R h1] at hx
    exact mem_of_le h.1 h.2 (mem_intervalOfBounds R hx hd)

/-- `x1 ∈ [5,+oo)`, `x0 ∈ (-oo,3]` in the running example -/
example : OctT.boundDimension Rnd.exact 0 (⟨some exOct, none, 2, 0⟩ : OctT ℚ) 0 = ⟨pinf, fin 3⟩ ∧
    OctT.boundDimension Rnd.exact 0 (⟨some exOct, none, 2, 0⟩ : OctT ℚ) 1 = ⟨fin (-5), pinf⟩ := by
  decide +kernel

end Apron
