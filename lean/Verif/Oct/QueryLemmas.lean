import Verif.Oct.TransferWf
import Verif.Oct.OfBox

/-! # Helper lemmas: `sat_lincons`, `bound_linexpr` and `to_lincons_array` of octagons -/

set_option autoImplicit false
set_option linter.unusedSectionVars false
set_option linter.ambiguousOpen false

namespace Apron
namespace Oct
open Bound Finset
variable {K : Type*} [LinearOrder K] [Field K] [IsStrictOrderedRing K] [FloorRing K] (R : Rnd K)

/-- `val_form` keeping the constant as a coefficient of the user expression -/
theorem val_form_cst {e : Linexpr K} {dim intdim : ℕ} (he : e.InDim dim) {x : ℕ → K} {v : K}
    (hv : e.Val x v) : ∃ q, e.cst.Has q ∧ ∃ c : ℕ → K,
      (∀ j, j < dim → InD (uexprOf R e intdim).2 (2 * j + 2) (c j)) ∧
      v = q + ∑ j ∈ range dim, c j * x j := by
  obtain ⟨q, r, hq, hr, rfl⟩ := hv
  have hn : (e.terms.map Prod.fst).Nodup := he.1.imp (fun h => ne_of_lt h)
  obtain ⟨c', h1, h2⟩ := terms_form R (intdim := intdim) e.terms
    (coeffStep R e.cst 0 ⟨.zero, 0, 0, 0, 0, true⟩ (fun _ => fin 0)) (fun _ => 0) r hn
    (fun d hd => ⟨he.2 d hd, rfl⟩) (fun j _ => by
      unfold InD
      rw [coeffStep_ne R _ _ _ _ (by omega) (by omega), coeffStep_ne R _ _ _ _ (by omega) (by omega)]
      simp) hr
  exact ⟨q, hq, c', h1, by rw [h2]; simp⟩

theorem signed_xor_div (i : ℕ) (k : ℤ) : (signed i k ^^^ 1) / 2 = i := by
  rw [xor1]; unfold signed; split_ifs <;> omega

theorem cell_un_xor (i : ℕ) : Cell i (i ^^^ 1) ∧ Cell (i ^^^ 1) i := by
  unfold Cell; rw [xor1]; split_ifs <;> omega

theorem cell_of_div_lt {i j : ℕ} (h : j / 2 < i / 2) : Cell i j := by unfold Cell; omega

/-- the bounds on `V ui` read by the unary case -/
theorem sat_un {dim : ℕ} {m : Mem K} {x : ℕ → K} (h : Sat dim m x) {u : ℕ} (hu : u < 2 * dim) :
    fin (-(2 * V x u)) ≤ m (matpos u (u ^^^ 1)) ∧ fin (2 * V x u) ≤ m (matpos (u ^^^ 1) u) := by
  have h1 := h u (u ^^^ 1) hu (cell_un_xor u).1
  have h2 := h (u ^^^ 1) u (xor1_lt hu) (cell_un_xor u).2
  rw [V_xor1] at h1 h2
  exact ⟨by rwa [show -(2 * V x u) = -V x u - V x u by ring], by rwa [show 2 * V x u = V x u - -V x u by ring]⟩

/-- the bounds on `V ui + V uj` read by the binary case -/
theorem sat_bin {dim : ℕ} {m : Mem K} {x : ℕ → K} (h : Sat dim m x) {ui uj : ℕ} (hj : uj < 2 * dim)
    (hij : ui / 2 < uj / 2) :
    fin (-(V x ui + V x uj)) ≤ m (matpos uj (ui ^^^ 1)) ∧
      fin (V x ui + V x uj) ≤ m (matpos (uj ^^^ 1) ui) := by
  have e1 : (ui ^^^ 1) / 2 = ui / 2 := by rw [xor1]; split_ifs <;> omega
  have e2 : (uj ^^^ 1) / 2 = uj / 2 := by rw [xor1]; split_ifs <;> omega
  have h1 := h uj (ui ^^^ 1) hj (cell_of_div_lt (by omega))
  have h2 := h (uj ^^^ 1) ui (xor1_lt hj) (cell_of_div_lt (by omega))
  rw [V_xor1] at h1 h2
  exact ⟨by rwa [show -(V x ui + V x uj) = -V x ui - V x uj by ring],
    by rwa [show V x ui + V x uj = V x ui - -V x uj by ring]⟩

theorem sum_bound {dim : ℕ} {p : ℕ → Bound K} {f : ℕ → K} (h : ∀ j, j < dim → fin (f j) ≤ p j)
    {b : Bound K} {q : K} (hb : fin q ≤ b) :
    fin (q + ∑ j ∈ range dim, f j) ≤ (List.range dim).foldl (fun s i => add R s (p i)) b := by
  induction dim with
  | zero => simpa using hb
  | succ n ih =>
    rw [List.range_succ, List.foldl_append, sum_range_succ, ← add_assoc]
    exact add_ge R (ih fun j hj => h j (by omega)) (h n (by omega))

end Oct

namespace OctT
open Bound Oct Finset
variable {K : Type*} [LinearOrder K] [Field K] [IsStrictOrderedRing K] [FloorRing K] (R : Rnd K)

theorem upperScalar_ge {b : Bound K} {q : K} (h : fin q ≤ b) : fin q ≤ upperScalar R b false := by
  unfold upperScalar
  split_ifs
  · exact le_pinf _
  · simp at *
  · exact OctT.ofScalar_ge R h

private theorem nonneg_of {v : K} {t : Bound K} (h : fin (-v) ≤ t) (ht : t ≤ fin 0) : 0 ≤ v := by
  have := h.trans ht; rw [fin_le_fin] at this; linarith
private theorem pos_of {v : K} {t : Bound K} (h : fin (-v) ≤ t) (ht : t < fin 0) : 0 < v := by
  have := lt_of_le_of_lt h ht; rw [fin_lt_fin] at this; linarith

private theorem test_rel {typ : ConsTyp K} (h1 : ∀ q, typ ≠ .eqmod q) (h2 : typ ≠ .diseq) {t0 t1 : Bound K} {v w : K}
    (hw : v = w ∨ 2 * v = w)
    (h : (decide (sgn t0 ≤ 0) && (!isSupTyp typ || decide (sgn t0 < 0)) &&
          (!isEqTyp typ || decide (sgn t1 ≤ 0))) = true) (k0 : fin (-w) ≤ t0) (k1 : fin w ≤ t1) :
    Lincons.Rel typ v := by
  simp only [Bool.and_eq_true, Bool.or_eq_true, decide_eq_true_eq, Bool.not_eq_true'] at h
  obtain ⟨⟨a, b⟩, c⟩ := h
  rw [sgn_le_zero_iff] at a c
  rw [sgn_neg_iff] at b
  have hn := nonneg_of k0 a
  cases typ with
  | eqmod q => exact absurd rfl (h1 q)
  | diseq => exact absurd rfl h2
  | supeq => show 0 ≤ v; rcases hw with h | h <;> linarith
  | sup =>
    have := pos_of k0 (b.resolve_left (by simp [isSupTyp]))
    show 0 < v; rcases hw with h | h <;> linarith
  | eq =>
    have := k1.trans (c.resolve_left (by simp [isEqTyp]))
    rw [fin_le_fin] at this
    show v = 0; rcases hw with h | h <;> linarith

/-- a constraint reported satisfied holds at every point for every choice of coefficients -/
theorem satLincons_sound {algo : ℤ} {a : OctT K} {c : Lincons K} (he : c.expr.InDim a.dim)
    (h : satLincons R algo a c = true) {x : ℕ → K} (hx : a.Gam x) : c.HoldsAll x := by
  obtain ⟨m, hm, hs⟩ := gam_iff_best.1 ((gam_cacheIf R algo a x).2 hx)
  rw [cacheIf_dim] at hs
  intro v hv
  have hf := val_form R (intdim := a.intdim) he hv
  have hc := uexpr_class R he a.intdim
  unfold satLincons at h
  rw [hm] at h
  obtain ⟨typ, e⟩ := c
  simp only at h he hv hf hc
  have hty : (∀ q, typ ≠ .eqmod q) ∧ typ ≠ .diseq := by
    constructor
    · rintro q rfl; simp at h
    · rintro rfl; simp at h
  generalize hu : uexprOf R e a.intdim = ud at *
  obtain ⟨u, dst⟩ := ud
  simp only at h hf hc
  unfold ClassOk at hc
  cases ht : u.type with
  | empty => exact absurd hv (uexpr_empty R (by rw [hu]; exact ht) x v)
  | other => rw [ht] at h; cases typ <;> simp at h
  | zero =>
    rw [ht] at h hc
    rw [formVal_zero hc] at hf
    obtain ⟨k0, k1⟩ := hf
    cases typ with
    | eqmod q => exact absurd rfl (hty.1 q)
    | diseq => exact absurd rfl hty.2
    | supeq =>
      simp only [decide_eq_true_eq, sgn_le_zero_iff] at h
      exact nonneg_of k0 h
    | sup =>
      simp only [decide_eq_true_eq, sgn_neg_iff] at h
      exact pos_of k0 h
    | eq =>
      simp only [Bool.and_eq_true, decide_eq_true_eq, sgn_zero_iff] at h
      rw [h.1] at k0; rw [zero_add, h.2] at k1
      rw [fin_le_fin] at k0 k1
      show v = 0; linarith
  | unary =>
    rw [ht] at h hc
    obtain ⟨p1, p2, p3⟩ := hc
    rw [formVal_unary p1 p2 p3] at hf
    obtain ⟨k0, k1⟩ := hf
    obtain ⟨s0, s1⟩ := sat_un hs (signed_lt u.coefI p1)
    refine test_rel hty.1 hty.2 (v := v) (w := 2 * v) (Or.inr rfl)
      (t0 := add R (mul2 R (dst 0)) (m (matpos (signed u.i u.coefI) (signed u.i u.coefI ^^^ 1))))
      (t1 := add R (mul2 R (dst 1)) (m (matpos (signed u.i u.coefI ^^^ 1) (signed u.i u.coefI)))) ?_ ?_ ?_
    · cases typ with
      | eqmod q => exact absurd rfl (hty.1 q)
      | diseq => exact absurd rfl hty.2
      | _ => exact h
    · have := add_ge R (mul2_ge R k0) s0
      refine le_trans (le_of_eq ?_) this; congr 1; ring
    · have := add_ge R (mul2_ge R k1) s1
      refine le_trans (le_of_eq ?_) this; congr 1; ring
  | binary =>
    rw [ht] at h hc
    obtain ⟨p1, p2, p3, p4, p5, p6⟩ := hc
    rw [formVal_binary p1 p2 (ne_of_lt p3) p4 p5 p6] at hf
    obtain ⟨k0, k1⟩ := hf
    obtain ⟨s0, s1⟩ := sat_bin hs (ui := signed u.i u.coefI) (uj := signed u.j u.coefJ)
      (signed_lt u.coefJ p2) (by rw [signed_div, signed_div]; exact p3)
    refine test_rel hty.1 hty.2 (v := v) (w := v) (Or.inl rfl)
      (t0 := add R (dst 0) (m (matpos (signed u.j u.coefJ) (signed u.i u.coefI ^^^ 1))))
      (t1 := add R (dst 1) (m (matpos (signed u.j u.coefJ ^^^ 1) (signed u.i u.coefI)))) ?_ ?_ ?_
    · cases typ with
      | eqmod q => exact absurd rfl (hty.1 q)
      | diseq => exact absurd rfl hty.2
      | _ => exact h
    · have := add_ge R k0 s0
      refine le_trans (le_of_eq ?_) this; congr 1; ring
    · have := add_ge R k1 s1
      refine le_trans (le_of_eq ?_) this; congr 1; ring

/-- the interval returned for an expression contains all its values -/
theorem boundLinexpr_sound {algo : ℤ} {a : OctT K} {e : Linexpr K} (he : e.InDim a.dim)
    {x : ℕ → K} {v : K} (hx : a.Gam x) (hv : e.Val x v) : v ∈ boundLinexpr R algo a e := by
  obtain ⟨m, hm, hs⟩ := gam_iff_best.1 ((gam_cacheIf R algo a x).2 hx)
  rw [cacheIf_dim] at hs
  have hf := val_form R (intdim := a.intdim) he hv
  obtain ⟨q, hq, cq, hcq, hvq⟩ := val_form_cst R (intdim := a.intdim) he hv
  have hc := uexpr_class R he a.intdim
  unfold boundLinexpr
  rw [hm]
  simp only
  generalize hu : uexprOf R e a.intdim = ud at *
  obtain ⟨u, dst⟩ := ud
  simp only at hf hc hcq ⊢
  unfold ClassOk at hc
  cases ht : u.type with
  | empty => exact absurd hv (uexpr_empty R (by rw [hu]; exact ht) x v)
  | zero =>
    rw [ht] at hc
    rw [formVal_zero hc] at hf
    exact ⟨upperScalar_ge R hf.1, upperScalar_ge R hf.2⟩
  | unary =>
    rw [ht] at hc
    obtain ⟨p1, p2, p3⟩ := hc
    obtain ⟨s0, s1⟩ := sat_un hs (signed_lt u.coefI p1)
    have hsum : ∑ j ∈ range a.dim, cq j * x j = V x (signed u.i u.coefI) := by
      rw [V_signed x _ p2.1, Finset.sum_eq_single u.i (fun j hj hji => by
        rw [(hcq j (mem_range.1 hj)).zero (p3 j hji), zero_mul]) (fun hn => absurd (mem_range.2 p1) hn),
        (hcq _ p1).unit p2]
    rw [hsum] at hvq
    obtain ⟨l, r⟩ := has_iff.1 (has_reduce.2 hq)
    constructor
    · refine upperScalar_half_ge R ?_
      have := add_ge R (OctT.ofScalar_dbl_ge R (neg_le_iff.2 l)) s0
      refine le_trans (le_of_eq ?_) this; rw [hvq]; congr 1; ring
    · refine upperScalar_half_ge R ?_
      have := add_ge R (OctT.ofScalar_dbl_ge R r) s1
      refine le_trans (le_of_eq ?_) this; rw [hvq]; congr 1; ring
  | binary =>
    rw [ht] at hc
    obtain ⟨p1, p2, p3, p4, p5, p6⟩ := hc
    rw [formVal_binary p1 p2 (ne_of_lt p3) p4 p5 p6] at hf
    obtain ⟨k0, k1⟩ := hf
    have hlt : signed u.i u.coefI / 2 < signed u.j u.coefJ / 2 := by rw [signed_div, signed_div]; exact p3
    obtain ⟨s0, s1⟩ := sat_bin hs (signed_lt u.coefJ p2) hlt
    have e1 := signed_xor_div u.i u.coefI
    have e2 := signed_xor_div u.j u.coefJ
    rw [signed_div, signed_div] at hlt
    constructor
    · refine upperScalar_ge R ?_
      rw [matpos2_cell (cell_of_div_lt (by rw [e1, signed_div]; exact hlt))]
      have := add_ge R k0 s0
      refine le_trans (le_of_eq ?_) this; congr 1; ring
    · refine upperScalar_ge R ?_
      rw [matpos2_cell (cell_of_div_lt (by rw [e2, signed_div]; exact hlt))]
      have := add_ge R k1 s1
      refine le_trans (le_of_eq ?_) this; congr 1; ring
  | other =>
    obtain ⟨c0, c, h0, hcj, rfl⟩ := hf
    have hh : ∀ j, j < a.dim → fin (c j / 2) ≤ div2 R (dst (2 * j + 3)) ∧
        fin (-(c j / 2)) ≤ div2 R (dst (2 * j + 2)) := fun j hj =>
      ⟨div2_ge R (hcj j hj).2, by have := div2_ge R (hcj j hj).1; rwa [neg_div] at this⟩
    constructor
    · refine upperScalar_ge R ?_
      have := sum_bound R (dim := a.dim) (f := fun j => -(c j * x j))
        (p := fun i => (boundsMul R (m (matpos (2 * i) (2 * i + 1))) (m (matpos (2 * i + 1) (2 * i)))
          (div2 R (dst (2 * i + 2))) (div2 R (dst (2 * i + 3)))).1) (fun j hj => ?_) h0.1
      · refine le_trans (le_of_eq ?_) this
        congr 1; rw [sum_neg_distrib]; ring
      · rw [show -(c j * x j) = -(2 * x j * (c j / 2)) by ring]
        exact boundsMul_inf R (hh j hj).1 (hh j hj).2 (fun _ => hs.lo hj) (fun _ => hs.up hj)
    · refine upperScalar_ge R ?_
      have := sum_bound R (dim := a.dim) (f := fun j => c j * x j)
        (p := fun i => (boundsMul R (m (matpos (2 * i) (2 * i + 1))) (m (matpos (2 * i + 1) (2 * i)))
          (div2 R (dst (2 * i + 2))) (div2 R (dst (2 * i + 3)))).2) (fun j hj => ?_) h0.2
      · exact this
      · rw [show c j * x j = 2 * x j * (c j / 2) by ring]
        exact boundsMul_sup R (hh j hj).1 (hh j hj).2 (fun _ => hs.up hj) (fun _ => hs.lo hj)

/-! ### constraints -/

theorem scalar_upper {b : Bound K} {half : Bool} (hR : ∀ q, R.up q ≠ pinf) (hb : infty b = false) :
    ∃ p, upperScalar R b half = fin p := by
  cases b with
  | ninf => simp [infty] at hb
  | pinf => simp [infty] at hb
  | fin q =>
    have key : ∀ q, ∃ p, R.up q = fin p := fun q => by
      have h1 := hR q
      have h2 := R.up_ge q
      cases h : R.up q with
      | fin p => exact ⟨p, rfl⟩
      | pinf => exact absurd h h1
      | ninf => rw [h] at h2; simp at h2
    unfold upperScalar
    rw [if_neg (by simp [infty])]
    cases half
    · simpa [ofScalar] using key q
    · simpa [div2] using key (q / 2)

/-- left-hand side of the constraint produced for a cell -/
theorem holds_unary {p : K} {d : ℕ} {k : K} {x : ℕ → K} (hd : d ≠ dimMax) :
    Lincons.Holds (⟨.supeq, ⟨.scalar (fin p), .sparse [(d, .scalar (fin k))]⟩⟩ : Lincons K) x ↔
      0 ≤ p + k * x d := by
  constructor
  · rintro ⟨v, ⟨q, r, hq, hr, rfl⟩, hv⟩
    obtain ⟨q', r', hq', hr', rfl⟩ : Linexpr.TermsVal [(d, Coeff.scalar (fin k))] x r := by
      simpa [Linexpr.terms, hd] using hr
    have e1 : p = q := by simpa [Coeff.Has] using hq
    have e2 : k = q' := by simpa [Coeff.Has] using hq'
    have e3 : r' = 0 := hr'
    subst e1 e2 e3
    simpa [Lincons.Rel] using hv
  · intro h
    have ht : Linexpr.TermsVal [(d, Coeff.scalar (fin k))] x (k * x d + 0) :=
      ⟨k, 0, by simp [Coeff.Has], rfl, rfl⟩
    exact ⟨p + (k * x d + 0), ⟨p, _, by simp [Coeff.Has], by simpa [Linexpr.terms, hd] using ht, rfl⟩, by simpa [Lincons.Rel] using h⟩

theorem holds_binary {p : K} {d d' : ℕ} {k k' : K} {x : ℕ → K} (hd : d ≠ dimMax) (hd' : d' ≠ dimMax) :
    Lincons.Holds (⟨.supeq, ⟨.scalar (fin p), .sparse [(d, .scalar (fin k)), (d', .scalar (fin k'))]⟩⟩ : Lincons K) x ↔
      0 ≤ p + (k * x d + k' * x d') := by
  constructor
  · rintro ⟨v, ⟨q, r, hq, hr, rfl⟩, hv⟩
    obtain ⟨q', r', hq', ⟨q2, r2, hq2, hr2, rfl⟩, rfl⟩ :
      Linexpr.TermsVal [(d, Coeff.scalar (fin k)), (d', Coeff.scalar (fin k'))] x r := by
      simpa [Linexpr.terms, hd, hd'] using hr
    have e1 : p = q := by simpa [Coeff.Has] using hq
    have e2 : k = q' := by simpa [Coeff.Has] using hq'
    have e3 : k' = q2 := by simpa [Coeff.Has] using hq2
    have e4 : r2 = 0 := hr2
    subst e1 e2 e3 e4
    simpa [Lincons.Rel] using hv
  · intro h
    have ht : Linexpr.TermsVal [(d, Coeff.scalar (fin k)), (d', Coeff.scalar (fin k'))] x
        (k * x d + (k' * x d' + 0)) :=
      ⟨k, _, by simp [Coeff.Has], ⟨k', 0, by simp [Coeff.Has], rfl, rfl⟩, rfl⟩
    exact ⟨p + (k * x d + (k' * x d' + 0)), ⟨p, _, by simp [Coeff.Has],
      by simpa [Linexpr.terms, hd, hd'] using ht, rfl⟩, by simpa [Lincons.Rel] using h⟩

theorem V_coef (x : ℕ → K) (i : ℕ) : V x i = (if i % 2 = 1 then -1 else 1) * x (i / 2) := by
  unfold V
  rcases Nat.mod_two_eq_zero_or_one i with h | h <;> simp [h]

theorem linconsOfBound_sat (hR : ∀ q, R.up q ≠ pinf) {i j : ℕ} (hij : i ≠ j) {b : Bound K}
    (hdi : i / 2 ≠ dimMax) (hdj : j / 2 ≠ dimMax) (hb : infty b = false) {x : ℕ → K} (h : fin (V x j - V x i) ≤ b) :
    (linconsOfBound R i j b).Holds x := by
  unfold linconsOfBound
  rw [if_neg hij]
  by_cases e : i = j ^^^ 1
  · rw [if_pos e]
    obtain ⟨p, hp⟩ := scalar_upper R (half := true) hR hb
    have hj : V x j = -V x i := by rw [e, V_xor1]; simp
    rw [hp, holds_unary hdi, ← V_coef]
    have := upperScalar_half_ge R (b := b) (q := -V x i)
      (by rwa [show 2 * -V x i = V x j - V x i by rw [hj]; ring])
    rw [hp, fin_le_fin] at this
    linarith
  · rw [if_neg e]
    obtain ⟨p, hp⟩ := scalar_upper R (half := false) hR hb
    rw [hp, holds_binary hdj hdi]
    have := upperScalar_ge R h
    rw [hp, fin_le_fin] at this
    have h1 := V_coef x i
    have h2 : -V x j = (if j % 2 = 1 then 1 else -1) * x (j / 2) := by
      rw [V_coef]; split_ifs <;> ring
    rw [← h1, ← h2]; linarith

theorem linconsOfBound_exact {i j : ℕ} (hij : i ≠ j) {b : Bound K}
    (hdi : i / 2 ≠ dimMax) (hdj : j / 2 ≠ dimMax) (hb : infty b = false) {x : ℕ → K} (h : (linconsOfBound Rnd.exact i j b).Holds x) :
    fin (V x j - V x i) ≤ b := by
  cases b with
  | ninf => simp [infty] at hb
  | pinf => simp
  | fin p =>
    unfold linconsOfBound at h
    rw [if_neg hij] at h
    by_cases e : i = j ^^^ 1
    · rw [if_pos e] at h
      have hj : V x j = -V x i := by rw [e, V_xor1]; simp
      rw [show upperScalar (Rnd.exact (K := K)) (fin p) true = fin (p / 2) by
        simp [upperScalar, infty, div2, Rnd.exact], holds_unary hdi, ← V_coef] at h
      rw [fin_le_fin, hj]; linarith
    · rw [if_neg e] at h
      rw [show upperScalar (Rnd.exact (K := K)) (fin p) false = fin p by
        simp [upperScalar, infty, ofScalar, Rnd.exact], holds_binary hdj hdi] at h
      have h1 := V_coef x i
      have h2 : -V x j = (if j % 2 = 1 then 1 else -1) * x (j / 2) := by
        rw [V_coef]; split_ifs <;> ring
      rw [← h1, ← h2] at h
      rw [fin_le_fin]; linarith

theorem mem_toLincons {a : OctT K} {m : Mem K} (hm : a.best = some m) (c : Lincons K) :
    c ∈ toLinconsArray R a ↔ ∃ i j, i < 2 * a.dim ∧ Cell i j ∧ i ≠ j ∧
      infty (m (matpos i j)) = false ∧ c = linconsOfBound R i j (m (matpos i j)) := by
  unfold toLinconsArray
  rw [hm]
  simp only [List.mem_flatMap, List.mem_range, List.mem_filterMap]
  constructor
  · rintro ⟨i, hi, j, hj, h⟩
    split_ifs at h with hc
    push Not at hc
    refine ⟨i, j, hi, ?_, hc.1, by simpa using hc.2, by simpa using h.symm⟩
    rw [or1] at hj; unfold Cell; split_ifs at hj <;> omega
  · rintro ⟨i, j, hi, hc, hne, hb, rfl⟩
    refine ⟨i, hi, j, ?_, ?_⟩
    · rw [or1]; unfold Cell at hc; split_ifs <;> omega
    · rw [if_neg (by push Not; exact ⟨hne, by simpa using hb⟩)]

theorem toLincons_sound (hR : ∀ q, R.up q ≠ pinf) {a : OctT K} (hdim : a.dim ≤ dimMax) {x : ℕ → K} (hx : a.Gam x) :
    ∀ c ∈ toLinconsArray R a, c.Holds x := by
  obtain ⟨m, hm, hs⟩ := gam_iff_best.1 hx
  intro c hc
  obtain ⟨i, j, hi, hcell, hne, hb, rfl⟩ := (mem_toLincons R hm c).1 hc
  exact linconsOfBound_sat R hR hne (by omega) (by unfold Cell at hcell; omega) hb (hs i j hi hcell)

theorem unsat_holds (x : ℕ → K) : ¬ (unsatLincons : Lincons K).Holds x := by
  rintro ⟨v, ⟨q, r, hq, hr, rfl⟩, hv⟩
  have e1 : -1 = q := by simpa [Coeff.Has, unsatLincons] using hq
  have e2 : r = 0 := hr
  subst e1 e2
  have : (0 : K) ≤ -1 + 0 := hv
  linarith

theorem toLincons_exact {a : OctT K} (ha : Wf a) (hdim : a.dim ≤ dimMax) {x : ℕ → K}
    (h : ∀ c ∈ toLinconsArray Rnd.exact a, c.Holds x) : a.Gam x := by
  cases hm : a.best with
  | none =>
    unfold toLinconsArray at h
    rw [hm] at h
    exact absurd (h _ (by simp)) (unsat_holds x)
  | some m =>
    have hg := ha.good_best hm
    refine gam_iff_best.2 ⟨m, hm, fun i j hi hc => ?_⟩
    by_cases hij : i = j
    · subst hij
      have := hg.nn i hi
      simpa using this
    · cases hb : infty (m (matpos i j)) with
      | true =>
        have := noNinf_iff.1 hg.ne i j hi hc
        cases hv : m (matpos i j) with
        | fin q => rw [hv] at hb; simp [infty] at hb
        | ninf => exact absurd hv this
        | pinf => simp
      | false =>
        exact linconsOfBound_exact hij (by omega) (by unfold Cell at hc; omega) hb (h _ ((mem_toLincons _ hm _).2 ⟨i, j, hi, hc, hij, hb, rfl⟩))

end OctT
end Apron
