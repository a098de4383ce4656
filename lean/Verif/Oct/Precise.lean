import Verif.Oct.ShapeLemmas

/-! # Helper lemmas: precision of octagon assignment and queries with exact numbers -/

set_option autoImplicit false
set_option linter.unusedSectionVars false
set_option linter.ambiguousOpen false

namespace Apron
namespace Oct
open Bound Finset
variable {K : Type*} [LinearOrder K] [Field K] [IsStrictOrderedRing K] [FloorRing K]

/-- a point of the projection of a closed matrix extends to a point of the matrix -/
theorem extend_off {dim d : ℕ} (hd : d < dim) {m : Mem K} (hm : SC dim (G dim m)) {y : ℕ → K}
    (hy : ∀ i j, i < 2 * dim → Cell i j → i / 2 ≠ d → j / 2 ≠ d → fin (V y j - V y i) ≤ m (matpos i j)) :
    ∃ t, Sat dim m (Function.update y d t) := by
  have hs : SatOn (G dim m) (fun t => t < dim ∧ t ≠ d) y := by
    intro i j hi hj
    have hi' : i < 2 * dim := by have : i / 2 < dim := hi.1; omega
    have hj' : j < 2 * dim := by have : j / 2 < dim := hj.1; omega
    rcases cell_or_mirror i j with h | h
    · rw [G_cell m hi' h]; exact hy i j hi' h hi.2 hj.2
    · rw [hm.coh i j, G_mirror m hj' h]
      have := hy (j ^^^ 1) (i ^^^ 1) (xor1_lt hj') h (by rw [xor1_div]; exact hj.2) (by rw [xor1_div]; exact hi.2)
      rw [V_xor1, V_xor1] at this
      rwa [show V y j - V y i = -V y i - -V y j by ring]
  obtain ⟨t, ht⟩ := extend_one hm (fun t => t < dim ∧ t ≠ d) (fun t h => h.1) hd (by simp) hs
  refine ⟨t, satOn_iff.1 fun i j hi hj => ht i j ?_ ?_⟩
  · by_cases e : i / 2 = d
    · exact Or.inr e
    · exact Or.inl ⟨hi, e⟩
  · by_cases e : j / 2 = d
    · exact Or.inr e
    · exact Or.inl ⟨hj, e⟩

theorem le_add_fin {a : Bound K} {p q : K} (h : fin p ≤ add Rnd.exact a (fin q)) (ha : a ≠ ninf) : fin (p - q) ≤ a := by
  cases a with
  | ninf => exact absurd rfl ha
  | pinf => simp
  | fin r => simp [add, Rnd.exact] at h ⊢; linarith

theorem update_shape (y : ℕ → K) (d : ℕ) (t : K) : Function.update (Function.update y d t) d (y d) = y := by
  rw [Function.update_idem, Function.update_eq_self]

/-- `X <- [-a,b]` with exact numbers: converse -/
theorem assignZero_exact {dst : ℕ → Bound K} {dim d : ℕ} (hd : d < dim) {m : Mem K} (hm : SC dim (G dim m))
    {y : ℕ → K} {respect : Bool}
    (h : Sat dim (((if respect then assignZeroClosed Rnd.exact dst dim d m else forgetVar dim false m d).set
      (matpos (2 * d) (2 * d + 1)) (mul2 Rnd.exact (dst 0))).set (matpos (2 * d + 1) (2 * d))
      (mul2 Rnd.exact (dst 1))) y) :
    ∃ t, Sat dim m (Function.update y d t) ∧ InD dst 0 (y d) := by
  have hoff := extend_off hd hm (y := y) fun i j hi hc e1 e2 => by
    have := h i j hi hc
    rw [Mem.set_ne _ _ (matpos_ne hc (cell_un d).1 (by omega)),
      Mem.set_ne _ _ (matpos_ne hc (cell_un d).2 (by omega))] at this
    cases respect with
    | false =>
      simp only [Bool.false_eq_true, if_false] at this
      rwa [forgetVar_cell false m hi hc, if_neg (by tauto)] at this
    | true =>
      simp only [if_true] at this
      rwa [assignZeroClosed_cell _ dst m hi hc, if_neg (by tauto), if_neg (by tauto)] at this
  obtain ⟨t, ht⟩ := hoff
  refine ⟨t, ht, ?_, ?_⟩
  · have := h (2 * d) (2 * d + 1) (by omega) (cell_un d).2
    rw [Mem.set_ne _ _ (unary_ne d).symm, Mem.set_self, V_even, V_odd,
      show -y d - y d = 2 * -y d by ring] at this
    exact le_mul2_exact this
  · have := h (2 * d + 1) (2 * d) (by omega) (cell_un d).1
    rw [Mem.set_self, V_even, V_odd, show y d - -y d = 2 * y d by ring] at this
    exact le_mul2_exact this

theorem rr_val {dst : ℕ → Bound K} {q : K} (h0 : dst 0 = fin (-q)) (h1 : dst 1 = fin q) (i : ℕ) :
    rr dst i = fin (if i % 2 = 0 then -q else q) := by
  unfold rr
  rcases Nat.mod_two_eq_zero_or_one i with h | h <;> simp [h, h0, h1]

theorem ss_val {dst : ℕ → Bound K} {q : K} (h0 : dst 0 = fin (-q)) (h1 : dst 1 = fin q) (i : ℕ) :
    ss dst i = fin (if i % 2 = 0 then q else -q) := by
  unfold ss
  rcases Nat.mod_two_eq_zero_or_one i with h | h <;> simp [h, h0, h1]

/-- `X <- X + q`, converse -/
theorem assignShift_exact {dst : ℕ → Bound K} {dim d : ℕ} (hd : d < dim) {m : Mem K} (hn : NoNinf dim m)
    {q : K} (h0 : dst 0 = fin (-q)) (h1 : dst 1 = fin q) {y : ℕ → K}
    (h : Sat dim (assignShift Rnd.exact dst dim d m) y) : Sat dim m (Function.update y d (y d - q)) := by
  intro i j hi hc
  have hk := h i j hi hc
  have hne := noNinf_iff.1 hn i j hi hc
  rw [assignShift_cell _ dst hd m hi hc] at hk
  rw [V_upd, V_upd]
  rw [V_eq y i, V_eq y j] at hk
  by_cases e1 : i / 2 = d ∧ j / 2 < d
  · rw [if_pos e1, rr_val h0 h1] at hk
    have := le_add_fin hk hne
    rw [if_neg (show ¬ j / 2 = d by omega), if_pos e1.1, V_eq y j]
    rw [e1.1] at this
    refine le_trans (le_of_eq ?_) this
    congr 1; split_ifs <;> ring
  · rw [if_neg e1] at hk
    by_cases e2 : j / 2 = d ∧ d < i / 2
    · rw [if_pos e2, ss_val h0 h1] at hk
      have := le_add_fin hk hne
      rw [if_pos e2.1, if_neg (show ¬ i / 2 = d by omega), V_eq y i]
      rw [e2.1] at this
      refine le_trans (le_of_eq ?_) this
      congr 1; split_ifs <;> ring
    · rw [if_neg e2] at hk
      by_cases e3 : i / 2 = d ∧ j = i ^^^ 1
      · rw [if_pos e3, rr_val h0 h1] at hk
        have hj2 : j / 2 = d := by rw [e3.2, xor1_div]; exact e3.1
        have hjm : j % 2 = 1 - i % 2 := by rw [e3.2, xor1_mod]
        have := le_add_fin (p := _) (q := 2 * (if i % 2 = 0 then -q else q)) (by
          refine le_trans hk (le_of_eq ?_)
          congr 1) hne
        rw [if_pos hj2, if_pos e3.1]
        rw [hj2, e3.1, hjm] at this
        rw [hjm]
        refine le_trans (le_of_eq ?_) this
        congr 1
        rcases Nat.mod_two_eq_zero_or_one i with h | h <;> simp [h] <;> ring
      · rw [if_neg e3] at hk
        by_cases e4 : i = j
        · subst e4; rw [sub_self] at hk ⊢; exact hk
        · have c1 : i / 2 ≠ d := by
            intro e
            unfold Cell at hc
            have hj : j / 2 = d := by omega
            refine e3 ⟨e, ?_⟩
            rw [xor1]; split_ifs <;> omega
          have c2 : j / 2 ≠ d := by intro e; unfold Cell at hc; omega
          rw [if_neg c1, if_neg c2]
          rwa [← V_eq y i, ← V_eq y j] at hk

/-- `X <- -X + q`, converse -/
theorem assignNeg_exact {dst : ℕ → Bound K} {dim d : ℕ} (hd : d < dim) {m : Mem K} (hn : NoNinf dim m)
    {q : K} (h0 : dst 0 = fin (-q)) (h1 : dst 1 = fin q) {y : ℕ → K}
    (h : Sat dim (assignNeg Rnd.exact dst dim d m) y) : Sat dim m (Function.update y d (q - y d)) := by
  have key : ∀ i j, i < 2 * dim → Cell i j → fin (V y j - V y i) ≤ assignNeg Rnd.exact dst dim d m (matpos i j) := h
  intro i j hi hc
  rw [V_upd, V_upd]
  by_cases e1 : i / 2 = d ∧ j / 2 < d
  · have hc' : Cell (i ^^^ 1) j := by unfold Cell; rw [xor1_div]; omega
    have hi' := xor1_lt hi
    have hk := key (i ^^^ 1) j hi' hc'
    rw [assignNeg_cell _ dst hd m hi' hc', if_pos ⟨by rw [xor1_div]; exact e1.1, e1.2⟩, xor1_xor1,
      rr_val h0 h1, V_xor1, xor1_mod] at hk
    have := le_add_fin hk (noNinf_iff.1 hn i j hi hc)
    rw [if_neg (show ¬ j / 2 = d by omega), if_pos e1.1]
    rw [V_eq y i, e1.1] at this
    refine le_trans (le_of_eq ?_) this
    congr 1; rcases Nat.mod_two_eq_zero_or_one i with h | h <;> simp [h] <;> ring
  · by_cases e2 : j / 2 = d ∧ d < i / 2
    · have hc' : Cell i (j ^^^ 1) := by unfold Cell; rw [xor1_div]; omega
      have hk := key i (j ^^^ 1) hi hc'
      rw [assignNeg_cell _ dst hd m hi hc', if_neg (by rw [xor1_div]; omega), if_pos ⟨by rw [xor1_div]; exact e2.1, e2.2⟩,
        xor1_xor1, ss_val h0 h1, V_xor1, xor1_mod] at hk
      have := le_add_fin hk (noNinf_iff.1 hn i j hi hc)
      rw [if_pos e2.1, if_neg (show ¬ i / 2 = d by omega)]
      rw [V_eq y j, e2.1] at this
      refine le_trans (le_of_eq ?_) this
      congr 1; rcases Nat.mod_two_eq_zero_or_one j with h | h <;> simp [h] <;> ring
    · by_cases e3 : i / 2 = d ∧ j = i ^^^ 1
      · have hj2 : j / 2 = d := by rw [e3.2, xor1_div]; exact e3.1
        have hjm : j % 2 = 1 - i % 2 := by rw [e3.2, xor1_mod]
        have hij : i = j ^^^ 1 := by rw [e3.2, xor1_xor1]
        have hj : j < 2 * dim := by omega
        have hc' : Cell j i := by unfold Cell at *; omega
        have hk := key j i hj hc'
        rw [assignNeg_cell _ dst hd m hj hc', if_neg (by omega), if_neg (by omega), if_pos ⟨hj2, hij⟩,
          rr_val h0 h1, V_eq y i, V_eq y j, hj2, e3.1, hjm] at hk
        have := le_add_fin (p := _) (q := 2 * (if (1 - i % 2) = 0 then -q else q)) (by
          refine le_trans hk (le_of_eq ?_)
          congr 1) (noNinf_iff.1 hn i j hi hc)
        rw [if_pos hj2, if_pos e3.1, hjm]
        refine le_trans (le_of_eq ?_) this
        congr 1
        rcases Nat.mod_two_eq_zero_or_one i with h | h <;> simp [h] <;> ring
      · by_cases e4 : i = j
        · subst e4
          have hk := key i i hi hc
          rw [assignNeg_cell _ dst hd m hi hc, if_neg e1, if_neg e2, if_neg e3] at hk
          rw [sub_self] at hk ⊢; exact hk
        · have hk := key i j hi hc
          rw [assignNeg_cell _ dst hd m hi hc, if_neg e1, if_neg e2, if_neg e3] at hk
          have c1 : i / 2 ≠ d := by
            intro e
            unfold Cell at hc
            have hj : j / 2 = d := by omega
            refine e3 ⟨e, ?_⟩
            rw [xor1]; split_ifs <;> omega
          have c2 : j / 2 ≠ d := by intro e; unfold Cell at hc; omega
          rw [if_neg c1, if_neg c2]; exact hk

/-- `hmat_assign` in the exact cases: converse of `hmatAssign_sat` -/
theorem hmatAssign_exact {dim d : ℕ} (hd : d < dim) {u : UExpr} {dst : ℕ → Bound K} {m : Mem K} {y : ℕ → K}
    (hcl : ClassOk (fun i => i < dim) u dst) (hty : u.type = .zero ∨ u.type = .unary)
    (hn : NoNinf dim m) (hsc : ¬ (u.type = .unary ∧ u.i = d) → SC dim (G dim m))
    (hq : u.type = .unary ∧ u.i = d → ∃ q, dst 0 = fin (-q) ∧ dst 1 = fin q) {respect : Bool}
    (h : Sat dim (hmatAssign Rnd.exact u dst dim d m respect).1 y) :
    ∃ t, Sat dim m (Function.update y d t) ∧ FormVal dim dst (Function.update y d t) (y d) := by
  unfold hmatAssign at h
  unfold ClassOk at hcl
  rcases hty with ht | ht
  · rw [ht] at hcl
    rw [if_pos ht] at h
    obtain ⟨t, h1, h2⟩ := assignZero_exact hd (hsc (by simp [ht])) h
    exact ⟨t, h1, (formVal_zero hcl).2 h2⟩
  · rw [ht] at hcl
    obtain ⟨hi, hu, hz⟩ := hcl
    rw [if_neg (by simp [ht])] at h
    by_cases e : u.i = d
    · rw [if_neg (by simp [e])] at h
      obtain ⟨q, q0, q1⟩ := hq ⟨ht, e⟩
      have hin : InD dst 0 q := ⟨by rw [q0], by rw [zero_add, q1]⟩
      rcases hu.1 with h1 | h1
      · rw [if_neg (by simp [h1]), if_pos ⟨ht, h1⟩] at h
        refine ⟨_, assignShift_exact hd hn q0 q1 h, (formVal_unary hi hu hz).2 ?_⟩
        rw [V_signed _ _ hu.1, h1, e, Function.update_self]
        convert hin using 1; push_cast; ring
      · rw [if_pos ⟨ht, h1⟩] at h
        refine ⟨_, assignNeg_exact hd hn q0 q1 h, (formVal_unary hi hu hz).2 ?_⟩
        rw [V_signed _ _ hu.1, h1, e, Function.update_self]
        convert hin using 1; push_cast; ring
    · rw [if_pos ⟨ht, e⟩] at h
      set k := signed u.i u.coefI with hk
      have hkd : k / 2 = u.i := signed_div _ _
      have hkl : k < 2 * dim := signed_lt _ hi
      have hs : Sat dim (((forgetVar dim false m d).set (matpos2 (2 * d) k) (dst 0)).set
          (matpos2 k (2 * d)) (dst 1)) y := by
        cases respect with
        | false => exact h
        | true => exact Sat.of_le h fun q => closeIncremental_le Rnd.exact dim _ d q
      have hne : matpos2 (2 * d) k ≠ matpos2 k (2 * d) := by
        intro e'
        rcases matpos2_inj e' with ⟨h1, h2⟩ | ⟨-, h1, h2⟩
        · omega
        · rw [xor1_even] at h1; omega
      have hoff := extend_off hd (hsc (by simp [e])) (y := y) fun i j hi hc e1 e2 => by
        have := hs i j hi hc
        have hh : ∀ a b, a / 2 = d ∨ b / 2 = d → matpos i j ≠ matpos2 a b := by
          intro a b hab e'
          rw [← matpos2_cell hc] at e'
          rcases matpos2_inj e' with ⟨h1, h2⟩ | ⟨-, h1, h2⟩
          · rw [h1] at e1; rw [h2] at e2; tauto
          · rw [h1, xor1_div] at e1; rw [h2, xor1_div] at e2; tauto
        rw [Mem.set_ne _ _ (hh _ _ (Or.inr (by omega))), Mem.set_ne _ _ (hh _ _ (Or.inl (by omega))),
          forgetVar_cell false m hi hc, if_neg (by tauto)] at this
        exact this
      obtain ⟨t, ht'⟩ := hoff
      refine ⟨t, ht', (formVal_unary hi hu hz).2 ?_⟩
      rw [← hk, V_update_ne _ _ (by omega)]
      constructor
      · have := hs.le2 (i := 2 * d) (j := k) (by omega) hkl
        rw [Mem.set_ne _ _ hne, Mem.set_self, V_even] at this
        rwa [show -(y d - V y k) = V y k - y d by ring]
      · have := hs.le2 (i := k) (j := 2 * d) hkl (by omega)
        rwa [Mem.set_self, V_even] at this

end Oct

namespace OctT
open Bound Oct Finset
variable {K : Type*} [LinearOrder K] [Field K] [IsStrictOrderedRing K] [FloorRing K]

theorem uexpr_dst0 {e : Linexpr K} (R : Rnd K) (intdim : ℕ) :
    (uexprOf R e intdim).2 0 = ofScalar R (neg e.cst.reduce.inf) false ∧
    (uexprOf R e intdim).2 1 = ofScalar R e.cst.reduce.sup false := by
  unfold uexprOf
  rw [foldl_other _ _ _ _ (fun t _ => by omega), foldl_other _ _ _ _ (fun t _ => by omega)]
  unfold coeffStep
  simp only
  rw [Function.update_of_ne (by omega), Function.update_self, zero_add, Function.update_self]
  exact ⟨rfl, rfl⟩

/-- the result of an assignment of unit shape contains nothing else than the assigned points -/
theorem assignLinexpr_exact {algo : ℤ} (h0 : 0 ≤ algo) {a : OctT K} (ha : Wf a) {d : ℕ} (hd : d < a.dim)
    {e : Linexpr K} (he : e.InDim a.dim) (hs : e.UnitShape)
    (hc : d ∈ e.terms.map Prod.fst → ∃ q, e.cst = .scalar (fin q)) {y : ℕ → K}
    (h : (assignLinexpr Rnd.exact algo a d e none).Gam y) :
    ∃ x v, a.Gam x ∧ e.Val x v ∧ y = Function.update x d v := by
  have hcl := uexpr_class Rnd.exact he a.intdim
  obtain ⟨n1, n2⟩ := uexpr_unit Rnd.exact hs rfl rfl a.intdim
  have hz := fun (h : d ∉ e.terms.map Prod.fst) => uexpr_zeroAt Rnd.exact (intdim := a.intdim) h
  have hcst := uexpr_dst0 (e := e) Rnd.exact a.intdim
  have hfv := fun (x : ℕ → K) (v : K) => form_val (x := x) (v := v) (intdim := a.intdim) he
  unfold assignLinexpr at h
  simp only at h
  rw [show destEmpty (none : Option (OctT K)) = false from rfl, if_neg (by simp)] at h
  generalize uexprOf Rnd.exact e a.intdim = ud at *
  obtain ⟨u, dst⟩ := ud
  simp only at *
  by_cases hemp : u.type = .empty
  · rw [if_pos hemp] at h; exact absurd h (gam_bottom _ _ _)
  rw [if_neg hemp] at h
  have hty : u.type = .zero ∨ u.type = .unary := by
    cases ht : u.type <;> simp_all
  -- the octagon read by the code
  have key : ∀ b : OctT K, b.dim = a.dim → (∀ x, b.Gam x ↔ a.Gam x) → Wf b →
      (¬ (u.type = .unary ∧ u.i = d) → ∀ m, b.best = some m → SC a.dim (G a.dim m)) →
      (match b.best with
        | none => bottom b.dim b.intdim
        | some m =>
          let r := hmatAssign Rnd.exact u dst b.dim d m (b.closed.isSome && decide (0 ≤ algo) && (none : Option (OctT K)).isNone)
          let m := meetDest none r.1
          if r.2 then ⟨none, some m, b.dim, b.intdim⟩ else ⟨some m, none, b.dim, b.intdim⟩ : OctT K).Gam y →
      ∃ x v, a.Gam x ∧ e.Val x v ∧ y = Function.update x d v := by
    intro b hb hg hw hsc h
    cases hm : b.best with
    | none => rw [hm] at h; exact absurd h (gam_bottom _ _ _)
    | some m =>
      rw [hm] at h
      simp only at h
      rw [gam_pick, hb] at h
      have hgood := hw.good_best hm
      rw [hb] at hgood
      have hx := hmatAssign_exact hd hcl hty hgood.ne (fun hn => hsc hn m hm) (fun hu => ?_) h
      · obtain ⟨t, h1, h2⟩ := hx
        refine ⟨Function.update y d t, y d, (hg _).1 (gam_iff_best.2 ⟨m, hm, by rwa [hb]⟩), hfv _ _ h2,
          (update_shape y d t).symm⟩
      · by_cases hdm : d ∈ e.terms.map Prod.fst
        · obtain ⟨q, hq⟩ := hc hdm
          refine ⟨q, ?_, ?_⟩
          · rw [hcst.1, hq]; simp [Coeff.reduce, Coeff.inf, ofScalar, Bound.neg, Rnd.exact]
          · rw [hcst.2, hq]; simp [Coeff.reduce, Coeff.sup, ofScalar, Rnd.exact]
        · exfalso
          have := hz hdm
          unfold ClassOk at hcl
          rw [hu.1] at hcl
          have h1 := hcl.2.1
          rw [hu.2] at h1
          obtain ⟨hk, hk1, -⟩ := h1
          rw [this.1] at hk1
          injection hk1 with hk1
          rcases hk with hk | hk <;> rw [hk] at hk1 <;> simp at hk1
  by_cases hun : u.type ≠ .unary ∨ u.i ≠ d
  · rw [if_pos hun] at h
    exact key _ (cacheIf_dim _ _ _) (gam_cacheIf _ algo a) (wf_cacheIf algo ha)
      (fun _ m hm => good0_closed ha h0 hm) h
  · rw [if_neg hun] at h
    exact key a rfl (fun _ => Iff.rfl) ha (fun hn => absurd (by push Not at hun; exact hun) hn) h

/-! ### precision of the queries -/

/-- the sum of the bounds of a constant and of a closed entry is a least upper bound -/
theorem tight_sum {dim : ℕ} {m : Mem K} (hm : SC dim (G dim m)) {i j : ℕ} (hi : i < 2 * dim) (hj : j < 2 * dim)
    {d0 d1 b : Bound K} {q0 : K} (hq0 : fin (-q0) ≤ d0 ∧ fin q0 ≤ d1)
    (h : ∀ x q, Sat dim m x → fin (-q) ≤ d0 → fin q ≤ d1 → fin (V x j - V x i - q) ≤ b) :
    add Rnd.exact d0 (G dim m i j) ≤ b := by
  obtain ⟨x0, hx0⟩ := hm.nonempty
  have h00 := h x0 q0 hx0 hq0.1 hq0.2
  cases b with
  | pinf => exact le_pinf _
  | ninf => simp at h00
  | fin t =>
    cases d0 with
    | ninf => simp at hq0
    | pinf =>
      -- the constant is unbounded: contradiction
      have := h x0 (min q0 (V x0 j - V x0 i - t - 1)) hx0 (le_pinf _)
        (le_trans (by rw [fin_le_fin]; exact min_le_left _ _) hq0.2)
      rw [fin_le_fin] at this
      have := min_le_right q0 (V x0 j - V x0 i - t - 1)
      linarith
    | fin p =>
      have h1 : G dim m i j ≤ fin (t - p) := hm.tight hi hj fun x hx => by
        have hpq : -p ≤ q0 := by have := hq0.1; rw [fin_le_fin] at this; linarith
        have := h x (-p) (satOn_iff.1 hx) (by simp) (le_trans (by rw [fin_le_fin]; exact hpq) hq0.2)
        rw [fin_le_fin] at this ⊢; linarith
      cases hG : G dim m i j with
      | pinf => rw [hG] at h1; simp at h1
      | ninf => simp [add]
      | fin g => rw [hG] at h1; simp [add, Rnd.exact] at h1 ⊢; linarith

theorem fin_mul2 {q : K} {b : Bound K} (h : fin q ≤ b) : fin (2 * q) ≤ mul2 Rnd.exact b := mul2_ge _ h

theorem ofScalar_dbl (b : Bound K) : ofScalar Rnd.exact b true = mul2 Rnd.exact (ofScalar Rnd.exact b false) := by
  cases b <;> simp [ofScalar, mul2, Rnd.exact]

theorem upperScalar_false (b : Bound K) (hb : b ≠ ninf) : upperScalar Rnd.exact b false = b := by
  cases b with
  | ninf => exact absurd rfl hb
  | pinf => simp [upperScalar, infty]
  | fin q => simp [upperScalar, infty, ofScalar, Rnd.exact]

theorem add_ne' {a b : Bound K} (ha : a ≠ ninf) (hb : b ≠ ninf) : add Rnd.exact a b ≠ ninf := by
  cases a <;> cases b <;> simp_all [add, Rnd.exact]

theorem mul2_ne' {a : Bound K} (ha : a ≠ ninf) : mul2 Rnd.exact a ≠ ninf := by
  cases a <;> simp_all [mul2, Rnd.exact]

/-- with exact numbers and a closed argument the interval of an expression of octagonal shape is
included in every interval containing the values of the expression -/
theorem boundLinexpr_tight {algo : ℤ} (h0 : 0 ≤ algo) {a : OctT K} (ha : Wf a)
    {e : Linexpr K} (he : e.InDim a.dim) (hs : e.OctShape) {q0 : K} (hq0 : e.cst.Has q0) {J : Itv K}
    (hJ : ∀ x v, a.Gam x → e.Val x v → v ∈ J) {v : K} (hv : v ∈ boundLinexpr Rnd.exact algo a e) : v ∈ J := by
  have hcl := uexpr_class Rnd.exact he a.intdim
  have n1 := uexpr_shape Rnd.exact hs rfl rfl a.intdim
  have hcst := uexpr_dst0 (e := e) Rnd.exact a.intdim
  have hfv := fun (x : ℕ → K) (v : K) => form_val (x := x) (v := v) (intdim := a.intdim) he
  obtain ⟨l0, r0⟩ := has_iff.1 (has_reduce.2 hq0)
  have hin : fin (-q0) ≤ (uexprOf Rnd.exact e a.intdim).2 0 ∧ fin q0 ≤ (uexprOf Rnd.exact e a.intdim).2 1 := by
    rw [hcst.1, hcst.2]
    exact ⟨Oct.ofScalar_ge _ (neg_le_iff.2 l0), Oct.ofScalar_ge _ r0⟩
  have hg : ∀ x, (cacheIf Rnd.exact algo a).Gam x ↔ a.Gam x := gam_cacheIf _ algo a
  unfold boundLinexpr at hv
  cases hm : (cacheIf Rnd.exact algo a).best with
  | none => rw [hm] at hv; simp [Itv.bottom, Itv.mem_def] at hv; linarith
  | some m =>
    rw [hm] at hv
    have hsc := good0_closed ha h0 hm
    simp only at hv
    rw [ofScalar_dbl, ofScalar_dbl, ← hcst.1, ← hcst.2] at hv
    generalize uexprOf Rnd.exact e a.intdim = ud at *
    obtain ⟨u, dst⟩ := ud
    simp only at *
    have hJ' : ∀ x v, Sat a.dim m x → FormVal a.dim dst x v → v ∈ J := fun x v hx hf =>
      hJ x v ((hg x).1 (gam_iff_best.2 ⟨m, hm, by rwa [cacheIf_dim]⟩)) (hfv x v hf)
    have d0n : dst 0 ≠ ninf := by intro e; rw [e] at hin; simp at hin
    have d1n : dst 1 ≠ ninf := by intro e; rw [e] at hin; simp at hin
    have hgne : ∀ i j, G a.dim m i j ≠ ninf := hsc.ne
    obtain ⟨x0, hx0⟩ := hsc.nonempty
    unfold ClassOk at hcl
    cases ht : u.type with
    | other => exact absurd ht n1
    | empty => rw [ht] at hv; simp [Itv.bottom, Itv.mem_def] at hv; linarith
    | zero =>
      rw [ht] at hv hcl
      obtain ⟨v1, v2⟩ := hv
      simp only [intervalOfBounds] at v1 v2
      rw [upperScalar_false _ d0n] at v1
      rw [upperScalar_false _ d1n] at v2
      exact hJ' x0 v hx0 ((formVal_zero hcl).2 ⟨v1, v2⟩)
    | unary =>
      rw [ht] at hv hcl
      obtain ⟨p1, p2, p3⟩ := hcl
      obtain ⟨v1, v2⟩ := hv
      simp only [intervalOfBounds] at v1 v2
      set ui := signed u.i u.coefI with hui
      have hul : ui < 2 * a.dim := signed_lt _ p1
      rw [← G_cell m hul (cell_un_xor ui).1] at v1
      rw [← G_cell m (xor1_lt hul) (cell_un_xor ui).2] at v2
      have f1 := upperScalar_exact_le (add_ne' (mul2_ne' d0n) (hgne _ _)) v1
      have f2 := upperScalar_exact_le (add_ne' (mul2_ne' d1n) (hgne _ _)) v2
      have hval : ∀ x q, Sat a.dim m x → fin (-q) ≤ mul2 Rnd.exact (dst 0) → fin q ≤ mul2 Rnd.exact (dst 1) →
          V x ui + q / 2 ∈ J := by
        intro x q hx h1 h2
        refine hJ' x _ hx ((formVal_unary p1 p2 p3).2 ?_)
        rw [← hui, add_sub_cancel_left]
        exact ⟨le_mul2_exact (by rwa [show 2 * -(q / 2) = -q by ring]),
          le_mul2_exact (by rwa [show 2 * (q / 2) = q by ring])⟩
      constructor
      · refine le_mul2_exact (f1.trans (tight_sum hsc hul (xor1_lt hul) (d1 := mul2 Rnd.exact (dst 1)) (q0 := 2 * q0)
          ⟨by rw [show -(2 * q0) = 2 * -q0 by ring]; exact fin_mul2 hin.1, fin_mul2 hin.2⟩ fun x q hx h1 h2 => ?_))
        have := fin_mul2 (hval x q hx h1 h2).1
        rw [V_xor1]; refine le_trans (le_of_eq ?_) this; congr 1; ring
      · refine le_mul2_exact (f2.trans (tight_sum hsc (xor1_lt hul) hul (d1 := mul2 Rnd.exact (dst 0)) (q0 := -(2 * q0))
          ⟨by rw [_root_.neg_neg]; exact fin_mul2 hin.2, by rw [show -(2 * q0) = 2 * -q0 by ring]; exact fin_mul2 hin.1⟩
          fun x q hx h1 h2 => ?_))
        have := fin_mul2 (hval x (-q) hx (by rwa [_root_.neg_neg]) h1).2
        rw [V_xor1]; refine le_trans (le_of_eq ?_) this; congr 1; ring
    | binary =>
      rw [ht] at hv hcl
      obtain ⟨p1, p2, p3, p4, p5, p6⟩ := hcl
      obtain ⟨v1, v2⟩ := hv
      simp only [intervalOfBounds] at v1 v2
      set ui := signed u.i u.coefI with hui
      set uj := signed u.j u.coefJ with huj
      have hil : ui < 2 * a.dim := signed_lt _ p1
      have hjl : uj < 2 * a.dim := signed_lt _ p2
      have g1 : m (matpos2 uj (ui ^^^ 1)) = G a.dim m uj (ui ^^^ 1) := by
        unfold G; rw [if_pos ⟨hjl, xor1_lt hil⟩]
      have g2 : m (matpos2 (uj ^^^ 1) ui) = G a.dim m (uj ^^^ 1) ui := by
        unfold G; rw [if_pos ⟨xor1_lt hjl, hil⟩]
      rw [g1, upperScalar_false _ (add_ne' d0n (hgne _ _))] at v1
      rw [g2, upperScalar_false _ (add_ne' d1n (hgne _ _))] at v2
      have hval : ∀ x q, Sat a.dim m x → fin (-q) ≤ dst 0 → fin q ≤ dst 1 → (V x ui + V x uj) + q ∈ J := by
        intro x q hx h1 h2
        refine hJ' x _ hx ((formVal_binary p1 p2 (ne_of_lt p3) p4 p5 p6).2 ?_)
        rw [← hui, ← huj, add_sub_cancel_left]
        exact ⟨h1, h2⟩
      constructor
      · refine v1.trans (tight_sum hsc hjl (xor1_lt hil) hin fun x q hx h1 h2 => ?_)
        have := (hval x q hx h1 h2).1
        rw [V_xor1]; refine le_trans (le_of_eq ?_) this; congr 1; ring
      · refine v2.trans (tight_sum hsc (xor1_lt hjl) hil (d1 := dst 0) (q0 := -q0)
          ⟨by rw [_root_.neg_neg]; exact hin.2, hin.1⟩ fun x q hx h1 h2 => ?_)
        have := (hval x (-q) hx (by rwa [_root_.neg_neg]) h1).2
        rw [V_xor1]; refine le_trans (le_of_eq ?_) this; congr 1; ring

/-- with exact numbers and a closed argument every valid inequality or equality of octagonal shape
is reported as satisfied -/
theorem satLincons_complete {algo : ℤ} (h0 : 0 ≤ algo) {a : OctT K} (ha : Wf a)
    {c : Lincons K} (he : c.expr.InDim a.dim) (hs : c.expr.OctShape) {q0 : K} (hq0 : c.expr.cst.Has q0)
    (hty : c.typ = .supeq ∨ c.typ = .eq) (hall : ∀ x, a.Gam x → c.HoldsAll x) :
    satLincons Rnd.exact algo a c = true := by
  obtain ⟨typ, e⟩ := c
  simp only at he hs hq0 hty
  have hcl := uexpr_class Rnd.exact he a.intdim
  have n1 := uexpr_shape Rnd.exact hs rfl rfl a.intdim
  have hcst := uexpr_dst0 (e := e) Rnd.exact a.intdim
  have hfv := fun (x : ℕ → K) (v : K) => form_val (x := x) (v := v) (intdim := a.intdim) he
  obtain ⟨l0, r0⟩ := has_iff.1 (has_reduce.2 hq0)
  have hin : fin (-q0) ≤ (uexprOf Rnd.exact e a.intdim).2 0 ∧ fin q0 ≤ (uexprOf Rnd.exact e a.intdim).2 1 := by
    rw [hcst.1, hcst.2]
    exact ⟨Oct.ofScalar_ge _ (neg_le_iff.2 l0), Oct.ofScalar_ge _ r0⟩
  have hg : ∀ x, (cacheIf Rnd.exact algo a).Gam x ↔ a.Gam x := gam_cacheIf _ algo a
  unfold satLincons
  cases hm : (cacheIf Rnd.exact algo a).best with
  | none => rfl
  | some m =>
    have hsc := good0_closed ha h0 hm
    generalize uexprOf Rnd.exact e a.intdim = ud at *
    obtain ⟨u, dst⟩ := ud
    simp only at *
    have hR : ∀ x v, Sat a.dim m x → FormVal a.dim dst x v → Lincons.Rel typ v := fun x v hx hf =>
      hall x ((hg x).1 (gam_iff_best.2 ⟨m, hm, by rwa [cacheIf_dim]⟩)) v (hfv x v hf)
    have hpos : ∀ x v, Sat a.dim m x → FormVal a.dim dst x v → fin (-v) ≤ fin 0 := fun x v hx hf => by
      have := hR x v hx hf
      rw [fin_le_fin]
      rcases hty with rfl | rfl
      · have : 0 ≤ v := this; linarith
      · have : v = 0 := this; rw [this]; simp
    have hneg : typ = .eq → ∀ x v, Sat a.dim m x → FormVal a.dim dst x v → fin v ≤ fin 0 := fun ht x v hx hf => by
      have := hR x v hx hf
      subst ht
      have : v = 0 := this
      rw [this]
    obtain ⟨x0, hx0⟩ := hsc.nonempty
    have test_true : ∀ t0 t1 : Bound K, t0 ≤ fin 0 → (typ = .eq → t1 ≤ fin 0) →
        (decide (sgn t0 ≤ 0) && (!isSupTyp typ || decide (sgn t0 < 0)) &&
          (!isEqTyp typ || decide (sgn t1 ≤ 0))) = true := by
      intro t0 t1 h1 h2
      simp only [Bool.and_eq_true, Bool.or_eq_true, decide_eq_true_eq, Bool.not_eq_true', sgn_le_zero_iff]
      rcases hty with rfl | rfl
      · exact ⟨⟨h1, Or.inl rfl⟩, Or.inl rfl⟩
      · exact ⟨⟨h1, Or.inl rfl⟩, Or.inr (h2 rfl)⟩
    unfold ClassOk at hcl
    cases ht : u.type with
    | other => exact absurd ht n1
    | empty => rcases hty with rfl | rfl <;> rfl
    | zero =>
      rw [ht] at hcl
      have z0 : dst 0 ≤ fin 0 := by
        by_contra hc
        push Not at hc
        -- a negative constant is possible
        cases hd : dst 0 with
        | ninf => rw [hd] at hc; simp at hc
        | fin p =>
          rw [hd, fin_lt_fin] at hc
          have h1 := hin; rw [hd, fin_le_fin] at h1
          have := hpos x0 (-p) hx0 ((formVal_zero hcl).2
            ⟨by rw [hd]; simp, le_trans (by rw [fin_le_fin]; linarith [h1.1]) h1.2⟩)
          simp at this; linarith
        | pinf =>
          have := hpos x0 (min q0 (-1)) hx0 ((formVal_zero hcl).2
            ⟨by rw [hd]; exact le_pinf _, le_trans (by rw [fin_le_fin]; exact min_le_left _ _) hin.2⟩)
          rw [fin_le_fin] at this
          have := min_le_right q0 (-1 : K); linarith
      rcases hty with rfl | rfl
      · simp only [decide_eq_true_eq, sgn_le_zero_iff]; exact z0
      · have hz := hneg rfl x0
        have z1 : dst 1 ≤ fin 0 := by
          by_contra hc
          push Not at hc
          cases hd : dst 1 with
          | ninf => rw [hd] at hc; simp at hc
          | fin p =>
            rw [hd, fin_lt_fin] at hc
            have h1 := hin; rw [hd, fin_le_fin] at h1
            have := hz p hx0 ((formVal_zero hcl).2
              ⟨le_trans (by rw [fin_le_fin]; linarith [h1.2]) h1.1, by rw [zero_add, hd]⟩)
            simp at this; linarith
          | pinf =>
            have := hz (max q0 1) hx0 ((formVal_zero hcl).2
              ⟨le_trans (by rw [fin_le_fin]; linarith [le_max_left q0 (1:K)]) hin.1, by rw [zero_add, hd]; exact le_pinf _⟩)
            rw [fin_le_fin] at this
            have := le_max_right q0 (1 : K); linarith
        have hq : q0 = 0 := by
          have h1 := hin.1.trans z0
          have h2 := hin.2.trans z1
          rw [fin_le_fin] at h1 h2; linarith
        subst hq
        simp only [Bool.and_eq_true, decide_eq_true_eq, sgn_zero_iff]
        exact ⟨le_antisymm z0 (by simpa using hin.1), le_antisymm z1 hin.2⟩
    | unary =>
      rw [ht] at hcl
      obtain ⟨p1, p2, p3⟩ := hcl
      set ui := signed u.i u.coefI with hui
      have hul : ui < 2 * a.dim := signed_lt _ p1
      have hval : ∀ x q, fin (-q) ≤ mul2 Rnd.exact (dst 0) → fin q ≤ mul2 Rnd.exact (dst 1) →
          FormVal a.dim dst x (V x ui + q / 2) := by
        intro x q h1 h2
        refine (formVal_unary p1 p2 p3).2 ?_
        rw [← hui, add_sub_cancel_left]
        exact ⟨le_mul2_exact (by rwa [show 2 * -(q / 2) = -q by ring]),
          le_mul2_exact (by rwa [show 2 * (q / 2) = q by ring])⟩
      have t := test_true (add Rnd.exact (mul2 Rnd.exact (dst 0)) (m (matpos ui (ui ^^^ 1))))
        (add Rnd.exact (mul2 Rnd.exact (dst 1)) (m (matpos (ui ^^^ 1) ui))) ?_ ?_
      · rcases hty with rfl | rfl <;> exact t
      · rw [← G_cell m hul (cell_un_xor ui).1]
        refine tight_sum hsc hul (xor1_lt hul) (d1 := mul2 Rnd.exact (dst 1)) (q0 := 2 * q0)
          ⟨by rw [show -(2 * q0) = 2 * -q0 by ring]; exact fin_mul2 hin.1, fin_mul2 hin.2⟩ fun x q hx h1 h2 => ?_
        have := hpos x _ hx (hval x q h1 h2)
        rw [fin_le_fin] at this ⊢; rw [V_xor1]; linarith
      · intro heq
        rw [← G_cell m (xor1_lt hul) (cell_un_xor ui).2]
        refine tight_sum hsc (xor1_lt hul) hul (d1 := mul2 Rnd.exact (dst 0)) (q0 := -(2 * q0))
          ⟨by rw [_root_.neg_neg]; exact fin_mul2 hin.2, by rw [show -(2 * q0) = 2 * -q0 by ring]; exact fin_mul2 hin.1⟩
          fun x q hx h1 h2 => ?_
        have := hneg heq x _ hx (hval x (-q) (by rwa [_root_.neg_neg]) h1)
        rw [fin_le_fin] at this ⊢; rw [V_xor1]; linarith
    | binary =>
      rw [ht] at hcl
      obtain ⟨p1, p2, p3, p4, p5, p6⟩ := hcl
      set ui := signed u.i u.coefI with hui
      set uj := signed u.j u.coefJ with huj
      have hil : ui < 2 * a.dim := signed_lt _ p1
      have hjl : uj < 2 * a.dim := signed_lt _ p2
      have hdi : ui / 2 = u.i := signed_div _ _
      have hdj : uj / 2 = u.j := signed_div _ _
      have hval : ∀ x q, fin (-q) ≤ dst 0 → fin q ≤ dst 1 → FormVal a.dim dst x ((V x ui + V x uj) + q) := by
        intro x q h1 h2
        refine (formVal_binary p1 p2 (ne_of_lt p3) p4 p5 p6).2 ?_
        rw [← hui, ← huj, add_sub_cancel_left]
        exact ⟨h1, h2⟩
      have t := test_true (add Rnd.exact (dst 0) (m (matpos uj (ui ^^^ 1))))
        (add Rnd.exact (dst 1) (m (matpos (uj ^^^ 1) ui))) ?_ ?_
      · rcases hty with rfl | rfl <;> exact t
      · rw [← G_cell m hjl (cell_of_div_lt (by rw [xor1_div]; omega))]
        refine tight_sum hsc hjl (xor1_lt hil) hin fun x q hx h1 h2 => ?_
        have := hpos x _ hx (hval x q h1 h2)
        rw [fin_le_fin] at this ⊢; rw [V_xor1]; linarith
      · intro heq
        rw [← G_cell m (xor1_lt hjl) (cell_of_div_lt (by rw [xor1_div]; omega))]
        refine tight_sum hsc (xor1_lt hjl) hil (d1 := dst 0) (q0 := -q0)
          ⟨by rw [_root_.neg_neg]; exact hin.2, hin.1⟩ fun x q hx h1 h2 => ?_
        have := hneg heq x _ hx (hval x (-q) (by rwa [_root_.neg_neg]) h1)
        rw [fin_le_fin] at this ⊢; rw [V_xor1]; linarith

end OctT
end Apron
