import Verif.Fpp.Elim
import Verif.Props.FppQuasi

/-!
# C155: fppol, elimination of a variable and assignment

Fourier-Motzkin elimination in floating point loses no point; in exact arithmetic it is the
projection.  Assignment by substitution loses no point (`Fpp/Elim.lean`).
-/

set_option autoImplicit false
set_option linter.unusedSectionVars false
set_option linter.ambiguousOpen false

namespace Apron.Props

open Apron.Fpp

variable {K : Type*} [Field K] [LinearOrder K] [IsStrictOrderedRing K]

/-- The number is in the interval. -/
def In2 (x : K) (w : K × K) : Prop := w.1 ≤ x ∧ x ≤ w.2

/-- Arithmetic is exact. -/
def RdExact (R : Rd K) : Prop := (∀ x, R.up x = x) ∧ ∀ x, R.down x = x

theorem in2_round (R : Rd K) (x : K) : In2 x (R.down x, R.up x) := ⟨R.down_le x, R.le_up x⟩

theorem in2_addI (R : Rd K) {x y : K} {f g : K × K} (hx : In2 x f) (hy : In2 y g) :
    In2 (x + y) (addI R f g) := by
  unfold In2 addI at *
  have e1 := R.down_le (f.1 + g.1)
  have e2 := R.le_up (f.2 + g.2)
  constructor <;> simp only <;> linarith [hx.1, hx.2, hy.1, hy.2]

theorem in2_subI (R : Rd K) {x y : K} {f g : K × K} (hx : In2 x f) (hy : In2 y g) :
    In2 (x - y) (subI R f g) := by
  unfold In2 subI at *
  have e1 := R.down_le (f.1 - g.2)
  have e2 := R.le_up (f.2 - g.1)
  constructor <;> simp only <;> linarith [hx.1, hx.2, hy.1, hy.2]

theorem in2_mulI (R : Rd K) (x : K) {y : K} {g : K × K} (hy : In2 y g) : In2 (x * y) (mulI R x g) := by
  unfold In2 mulI at *
  have d1 := R.down_le (x * g.1)
  have d2 := R.down_le (x * g.2)
  have u1 := R.le_up (x * g.1)
  have u2 := R.le_up (x * g.2)
  rcases le_total 0 x with hx | hx
  · have h1 := mul_le_mul_of_nonneg_left hy.1 hx
    have h2 := mul_le_mul_of_nonneg_left hy.2 hx
    exact ⟨(min_le_left _ _).trans (d1.trans h1), (h2.trans u2).trans (le_max_right _ _)⟩
  · have h1 := mul_le_mul_of_nonpos_left hy.1 hx
    have h2 := mul_le_mul_of_nonpos_left hy.2 hx
    exact ⟨(min_le_right _ _).trans (d2.trans h2), (h1.trans u1).trans (le_max_left _ _)⟩

theorem in2_term (R : Rd K) {a b s t : K} {f g : K × K} (hf : In2 (s * a) f) (hg : In2 (t * b) g) :
    In2 (s * a + t * b) (term R a b f g) := by
  unfold term
  by_cases ha : a = 0
  · by_cases hb : b = 0
    · rw [if_pos ha, if_pos hb, ha, hb]; simp [In2]
    · rw [if_pos ha, if_neg hb, ha]; simpa using hg
  · by_cases hb : b = 0
    · rw [if_neg ha, if_pos hb, hb]; simpa using hf
    · rw [if_neg ha, if_neg hb]; exact in2_addI R hf hg

theorem term_exact {R : Rd K} (hR : RdExact R) {a b : K} {f g : K × K} (hf : f.1 = f.2) (hg : g.1 = g.2) :
    (term R a b f g).1 = (term R a b f g).2 := by
  unfold term
  split_ifs <;> simp_all [addI, hR.1, hR.2]

/-- A combination of two rows that eliminates variable `i`: its intervals contain a sum of positive
multiples of the rows, and reduce to it in exact arithmetic. -/
def IsComb (R : Rd K) (i : ℕ) (p q : FRow K) (w : K × (ℕ → K × K)) : Prop :=
  ∃ s t : K, 0 < s ∧ 0 < t ∧ s * p.2 i + t * q.2 i = 0 ∧ s * p.1 + t * q.1 ≤ w.1 ∧
    (RdExact R → w.1 = s * p.1 + t * q.1) ∧ w.2 i = (0, 0) ∧
    (∀ k, In2 (s * p.2 k + t * q.2 k) (w.2 k)) ∧ (RdExact R → ∀ k, (w.2 k).1 = (w.2 k).2)

theorem combine_comb (R : Rd K) (isInt : K → Bool) (big : K) (i : ℕ) {p q : FRow K}
    (hp : 0 < p.2 i) (hq : q.2 i < 0) : IsComb R i p q (combine R isInt big i p q) := by
  have hq' : 0 < -(q.2 i) := by linarith
  have key : ∀ (s t c : K) (f : ℕ → K × K), 0 < s → 0 < t → s * p.2 i + t * q.2 i = 0 →
      s * p.1 + t * q.1 ≤ c → (RdExact R → c = s * p.1 + t * q.1) →
      (∀ k, In2 (s * p.2 k + t * q.2 k) (f k)) → (RdExact R → ∀ k, (f k).1 = (f k).2) →
      IsComb R i p q (c, fun k => if k = i then (0, 0) else f k) := by
    intro s t c f h1 h2 h3 h4 h5 h6 h7
    refine ⟨s, t, h1, h2, h3, h4, h5, by simp, ?_, ?_⟩
    · intro k
      by_cases hk : k = i
      · simp only [if_pos hk]; rw [hk, h3]; simp [In2]
      · simp only [if_neg hk]; exact h6 k
    · intro hR k
      by_cases hk : k = i
      · simp only [if_pos hk]
      · simp only [if_neg hk]; exact h7 hR k
  unfold combine
  simp only
  by_cases c1 : p.2 i = -(q.2 i)
  · rw [if_pos c1]
    apply key 1 1 _ _ one_pos one_pos (by linarith)
    · have := R.le_up (p.1 + q.1); linarith
    · intro hR; rw [hR.1]; ring
    · intro k; rw [one_mul, one_mul]; exact in2_round R _
    · intro hR k; simp [addN, hR.1, hR.2]
  rw [if_neg c1]
  split_ifs with c2 c3 c4
  · obtain ⟨hlt, -, he, hd⟩ := c2
    generalize R.up (p.2 i / -(q.2 i)) = t at he hd ⊢
    have ht : t * -(q.2 i) = p.2 i := by
      have e1 := R.le_up (t * -(q.2 i))
      have e2 := R.down_le (t * -(q.2 i))
      apply le_antisymm
      · rw [he] at e1; exact e1
      · rw [← hd, he] at e2; exact e2
    have tpos : 0 < t := by
      by_contra h
      have := mul_nonpos_of_nonpos_of_nonneg (not_lt.1 h) hq'.le
      linarith
    apply key 1 t _ _ one_pos tpos (by linarith)
    · have h1 := R.le_up (q.1 * t)
      have h2 := R.le_up (p.1 + R.up (q.1 * t))
      linarith
    · intro hR; rw [hR.1, hR.1]; ring
    · intro k
      apply in2_term R
      · rw [one_mul]; exact ⟨le_refl _, le_refl _⟩
      · exact in2_round R _
    · intro hR k; apply term_exact hR rfl; simp [mulN, hR.1, hR.2]
  · obtain ⟨hlt, -, he, hd⟩ := c3
    generalize R.up (-(q.2 i) / p.2 i) = t at he hd ⊢
    have ht : t * p.2 i = -(q.2 i) := by
      have e1 := R.le_up (t * p.2 i)
      have e2 := R.down_le (t * p.2 i)
      apply le_antisymm
      · rw [he] at e1; exact e1
      · rw [← hd, he] at e2; exact e2
    have tpos : 0 < t := by
      by_contra h
      have := mul_nonpos_of_nonpos_of_nonneg (not_lt.1 h) hp.le
      linarith
    apply key t 1 _ _ tpos one_pos (by linarith)
    · have h1 := R.le_up (p.1 * t)
      have h2 := R.le_up (R.up (p.1 * t) + q.1)
      linarith
    · intro hR; rw [hR.1, hR.1]; ring
    · intro k
      apply in2_term R
      · exact in2_round R _
      · rw [one_mul]; exact ⟨le_refl _, le_refl _⟩
    · intro hR k; refine term_exact hR ?_ rfl; simp [mulN, hR.1, hR.2]
  · apply key (-(q.2 i)) (p.2 i) _ _ hq' hp (by ring)
    · have h1 := R.le_up (p.1 * -(q.2 i))
      have h2 := R.le_up (q.1 * p.2 i)
      have h3 := R.le_up (R.up (p.1 * -(q.2 i)) + R.up (q.1 * p.2 i))
      linarith
    · intro hR; rw [hR.1, hR.1, hR.1]; ring
    · intro k
      split_ifs with h
      · have : -(q.2 i) * p.2 k + p.2 i * q.2 k = 0 := by
          rcases h with ⟨h1, h2⟩ | ⟨h1, h2⟩ <;> rw [h1, h2] <;> ring
        rw [this]; simp [In2]
      · apply in2_term R
        · rw [mul_comm]; exact in2_round R _
        · rw [mul_comm]; exact in2_round R _
    · intro hR k
      split_ifs with h
      · rfl
      · apply term_exact hR <;> simp [mulN, hR.1, hR.2]
  · apply key (p.2 i)⁻¹ (-(q.2 i))⁻¹ _ _ (inv_pos.2 hp) (inv_pos.2 hq')
    · have h1 : (p.2 i)⁻¹ * p.2 i = 1 := inv_mul_cancel₀ hp.ne'
      have h2 : (-(q.2 i))⁻¹ * -(q.2 i) = 1 := inv_mul_cancel₀ hq'.ne'
      linarith
    · have h1 := R.le_up (p.1 / p.2 i)
      have h2 := R.le_up (q.1 / -(q.2 i))
      have h3 := R.le_up (R.up (p.1 / p.2 i) + R.up (q.1 / -(q.2 i)))
      have e1 : (p.2 i)⁻¹ * p.1 = p.1 / p.2 i := by rw [mul_comm, div_eq_mul_inv]
      have e2 : (-(q.2 i))⁻¹ * q.1 = q.1 / -(q.2 i) := by rw [mul_comm, div_eq_mul_inv]
      rw [e1, e2]; linarith
    · intro hR; rw [hR.1, hR.1, hR.1, div_eq_mul_inv, div_eq_mul_inv]; ring
    · intro k
      apply in2_term R
      · rw [mul_comm, ← div_eq_mul_inv]; exact in2_round R _
      · rw [mul_comm, ← div_eq_mul_inv]; exact in2_round R _
    · intro hR k; apply term_exact hR <;> simp [divN, hR.1, hR.2]

theorem fsat_comb {n : ℕ} {p q : FRow K} {ρ : ℕ → K} {s t : K} (hs : 0 ≤ s) (ht : 0 ≤ t)
    (hp : FSat n p.1 p.2 ρ) (hq : FSat n q.1 q.2 ρ) :
    FSat n (s * p.1 + t * q.1) (fun k => s * p.2 k + t * q.2 k) ρ := by
  unfold FSat at *
  have e : ∑ k ∈ Finset.range n, (s * p.2 k + t * q.2 k) * ρ k =
      s * ∑ k ∈ Finset.range n, p.2 k * ρ k + t * ∑ k ∈ Finset.range n, q.2 k * ρ k := by
    rw [Finset.mul_sum, Finset.mul_sum, ← Finset.sum_add_distrib]
    apply Finset.sum_congr rfl; intros; ring
  rw [e]
  have := mul_le_mul_of_nonneg_left hp hs
  have := mul_le_mul_of_nonneg_left hq ht
  linarith

theorem FSat.mono {n : ℕ} {c c' : K} {a ρ : ℕ → K} (h : FSat n c a ρ) (hc : c ≤ c') : FSat n c' a ρ :=
  le_trans h hc

/-- The row has no term for variable `i`. -/
theorem fsat_update {n i : ℕ} {c v : K} {a ρ : ℕ → K} (h0 : a i = 0) :
    FSat n c a (Function.update ρ i v) ↔ FSat n c a ρ := by
  unfold FSat
  have : ∑ k ∈ Finset.range n, a k * Function.update ρ i v k = ∑ k ∈ Finset.range n, a k * ρ k := by
    apply Finset.sum_congr rfl
    intro k _
    by_cases hk : k = i
    · rw [hk, h0]; simp
    · rw [Function.update_of_ne hk]
  rw [this]

theorem quasi_coef {R : Rd K} {n : ℕ} {c : K} {a b : ℕ → K} {B : Option (Bnds K)} {c' : K} {a' : ℕ → K}
    (h : quasi R n c a b B = .con c' a') : a' = fun k => mid R (a k) (b k) := by
  unfold quasi at h
  split at h
  · simp at h
  · split at h
    · split at h <;> simp at h
    · simp at h; exact h.2.symm

theorem pairRow_zero {R : Rd K} {isInt : K → Bool} {big : K} {n i : ℕ} {B : Bnds K} {p q : FRow K}
    (hp : 0 < p.2 i) (hq : q.2 i < 0) {c : K} {a : ℕ → K}
    (h : pairRow R isInt big n i B p q = .con c a) : a i = 0 := by
  obtain ⟨s, t, -, -, -, -, -, h0, -, -⟩ := combine_comb R isInt big i hp hq
  have := quasi_coef h
  rw [this]
  simp [h0, mid]

theorem pairRow_sound {R : Rd K} {isInt : K → Bool} {big : K} {n i : ℕ} {B : Bnds K} {p q : FRow K}
    (hp : 0 < p.2 i) (hq : q.2 i < 0) {ρ : ℕ → K} (hB : InBnds n B ρ) (sp : FSat n p.1 p.2 ρ)
    (sq : FSat n q.1 q.2 ρ) :
    match pairRow R isInt big n i B p q with
    | .taut => True
    | .unsat => False
    | .con c' a' => FSat n c' a' ρ := by
  obtain ⟨s, t, hs, ht, -, hc, -, -, hI, -⟩ := combine_comb R isInt big i hp hq
  exact C154_quasi_sound R n _ _ _ (fun k => s * p.2 k + t * q.2 k) ρ (some B)
    (fun B' h => by cases h; exact hB) (fun k _ => hI k) ((fsat_comb hs.le ht.le sp sq).mono hc)

theorem pairLoop_sound {R : Rd K} {isInt : K → Bool} {big : K} {n i : ℕ} {B : Bnds K} {ρ : ℕ → K}
    (hB : InBnds n B ρ) (ws : List (FRow K × FRow K))
    (hw : ∀ w ∈ ws, 0 < w.1.2 i ∧ w.2.2 i < 0 ∧ FSat n w.1.1 w.1.2 ρ ∧ FSat n w.2.1 w.2.2 ρ) :
    ∃ l, pairLoop R isInt big n i B ws = some l ∧ ∀ r ∈ l, r.2 i = 0 ∧ FSat n r.1 r.2 ρ := by
  induction ws with
  | nil => exact ⟨[], rfl, by simp⟩
  | cons w ws ih =>
    obtain ⟨l, hl, h⟩ := ih fun w' hw' => hw w' (List.mem_cons_of_mem _ hw')
    obtain ⟨h1, h2, h3, h4⟩ := hw w List.mem_cons_self
    have hs := pairRow_sound (R := R) (isInt := isInt) (big := big) h1 h2 hB h3 h4
    have hz : ∀ c a, pairRow R isInt big n i B w.1 w.2 = .con c a → a i = 0 := fun c a => pairRow_zero h1 h2
    unfold pairLoop
    cases hr : pairRow R isInt big n i B w.1 w.2 with
    | taut => exact ⟨l, hl, h⟩
    | unsat => rw [hr] at hs; exact hs.elim
    | con c a =>
      rw [hr] at hs
      refine ⟨(c, a) :: l, by simp [hl], ?_⟩
      intro r hrm
      rcases List.mem_cons.1 hrm with e | e
      · subst e; exact ⟨hz c a hr, hs⟩
      · exact h r e

theorem pairs_ok {n : ℕ} (i : ℕ) {rs : List (FRow K)} {ρ : ℕ → K} (hs : ∀ r ∈ rs, FSat n r.1 r.2 ρ) :
    ∀ w ∈ (rs.filter fun r : FRow K => decide (0 < r.2 i)).flatMap fun p =>
        (rs.filter fun r : FRow K => decide (r.2 i < 0)).map fun q => (p, q),
      0 < w.1.2 i ∧ w.2.2 i < 0 ∧ FSat n w.1.1 w.1.2 ρ ∧ FSat n w.2.1 w.2.2 ρ := by
  intro w hw
  simp only [List.mem_flatMap, List.mem_map, List.mem_filter, decide_eq_true_eq] at hw
  obtain ⟨p, ⟨hp, hp'⟩, q, ⟨hq, hq'⟩, rfl⟩ := hw
  exact ⟨hp', hq', hs p hp, hs q hq⟩

/-- `fm_elimination`: a point within the bounds that satisfies the constraints satisfies the
constraints that are left once a variable is eliminated, whatever the variable becomes; the result
is not the empty polyhedron.  For all rounding. -/
theorem C155_elimination_sound (R : Rd K) (isInt : K → Bool) (big : K) (n i : ℕ) (rs : List (FRow K))
    (B : Bnds K) (ρ : ℕ → K) (hB : InBnds n B ρ) (hs : ∀ r ∈ rs, FSat n r.1 r.2 ρ) :
    match fmElim R isInt big n i rs B with
    | .empty => False
    | .univ => True
    | .rows l B' => ∀ v, (∀ r ∈ l, FSat n r.1 r.2 (Function.update ρ i v)) ∧
        ∀ k, k ≠ i → B'.lo k = B.lo k ∧ B'.hi k = B.hi k := by
  unfold fmElim
  simp only
  split
  · next h =>
    split at h
    · cases h
    · split at h
      · cases h
      · split at h
        · next hn =>
          obtain ⟨l, hl, -⟩ := pairLoop_sound (R := R) (isInt := isInt) (big := big) (i := i) hB _
            (pairs_ok i hs)
          rw [hl] at hn; cases hn
        · split at h <;> cases h
  · trivial
  · next l B' h =>
    intro v
    split at h
    · cases h
    · split at h
      · next hz =>
        injection h with h1 h2
        subst h1 h2
        refine ⟨?_, fun k hk => by simp [hk]⟩
        intro r hr
        obtain ⟨r0, hr0, rfl⟩ := List.mem_map.1 hr
        have hzero : r0.2 i = 0 := by
          have hp : (rs.filter fun r : FRow K => decide (0 < r.2 i)).length = 0 := by omega
          have hn : (rs.filter fun r : FRow K => decide (r.2 i < 0)).length = 0 := by omega
          rw [List.length_eq_zero_iff, List.filter_eq_nil_iff] at hp hn
          have a1 := hp r0 hr0
          have a2 := hn r0 hr0
          simp only [decide_eq_true_eq, not_lt] at a1 a2
          exact le_antisymm a1 a2
        have e : (fun k => if k = i then 0 else r0.2 k) = r0.2 := by
          funext k
          by_cases hk : k = i
          · rw [if_pos hk, hk, hzero]
          · rw [if_neg hk]
        simp only [e]
        exact (fsat_update hzero).2 (hs r0 hr0)
      · split at h
        · cases h
        · next l' hl' =>
          split at h
          · cases h
          · injection h with h1 h2
            subst h1 h2
            refine ⟨?_, fun k _ => ⟨rfl, rfl⟩⟩
            obtain ⟨l2, hl2, hall⟩ := pairLoop_sound (R := R) (isInt := isInt) (big := big) (i := i) hB _
              (pairs_ok i hs)
            rw [hl'] at hl2
            cases hl2
            intro r hr
            rcases List.mem_append.1 hr with h | h
            · exact (fsat_update (hall r h).1).2 (hall r h).2
            · simp only [List.mem_filter, decide_eq_true_eq] at h
              exact (fsat_update h.2).2 (hs r h.1)

/-! ## Exactness -/

theorem quasiLoop_point {R : Rd K} {a b : ℕ → K} {m : ℕ → Option K} (h : ∀ k, a k = b k) (L : List ℕ)
    (c : K) : quasiLoop R a b m L c = some c := by
  induction L with
  | nil => rfl
  | cons k L ih => unfold quasiLoop; rw [if_pos (h k)]; exact ih

/-- The pair of rows in exact arithmetic: the result says that the combination holds. -/
theorem pairRow_exact {R : Rd K} (hR : RdExact R) {isInt : K → Bool} {big : K} {n i : ℕ} {B : Bnds K}
    {p q : FRow K} (hp : 0 < p.2 i) (hq : q.2 i < 0) {ρ : ℕ → K}
    (h : match pairRow R isInt big n i B p q with
      | .taut => True
      | .unsat => False
      | .con c' a' => FSat n c' a' ρ) :
    ∃ s t : K, 0 < s ∧ 0 < t ∧ s * p.2 i + t * q.2 i = 0 ∧
      FSat n (s * p.1 + t * q.1) (fun k => s * p.2 k + t * q.2 k) ρ := by
  obtain ⟨s, t, hs, ht, h0, -, hc, -, hI, hE⟩ := combine_comb R isInt big i hp hq
  refine ⟨s, t, hs, ht, h0, ?_⟩
  have hc := hc hR
  have hE := hE hR
  unfold pairRow quasi at h
  simp only [quasiLoop_point hE] at h
  have hv : ∀ k, mid R ((combine R isInt big i p q).2 k).1 ((combine R isInt big i p q).2 k).2 =
      s * p.2 k + t * q.2 k := by
    intro k
    unfold mid
    rw [if_pos (hE k)]
    exact le_antisymm (hI k).1 (by rw [hE k]; exact (hI k).2)
  simp only [hv] at h
  rw [← hc]
  by_cases hz : (List.range n).all (fun k => decide (s * p.2 k + t * q.2 k = 0)) = true
  · simp only [hz, if_true] at h
    by_cases hc0 : 0 ≤ (combine R isInt big i p q).1
    · unfold FSat
      rw [Finset.sum_eq_zero]
      · exact hc0
      · intro k hk
        rw [List.all_eq_true] at hz
        have := hz k (List.mem_range.2 (Finset.mem_range.1 hk))
        rw [decide_eq_true_eq] at this
        simp only [this, zero_mul]
    · simp [hc0] at h
  · simp only [hz] at h
    exact h

theorem pairLoop_exact {R : Rd K} (hR : RdExact R) {isInt : K → Bool} {big : K} {n i : ℕ} {B : Bnds K}
    {ρ : ℕ → K} (ws : List (FRow K × FRow K)) (hw : ∀ w ∈ ws, 0 < w.1.2 i ∧ w.2.2 i < 0) {l : List (FRow K)}
    (hl : pairLoop R isInt big n i B ws = some l) (h : ∀ r ∈ l, FSat n r.1 r.2 ρ) :
    ∀ w ∈ ws, ∃ s t : K, 0 < s ∧ 0 < t ∧ s * w.1.2 i + t * w.2.2 i = 0 ∧
      FSat n (s * w.1.1 + t * w.2.1) (fun k => s * w.1.2 k + t * w.2.2 k) ρ := by
  induction ws generalizing l with
  | nil => simp
  | cons w ws ih =>
    have ih := @ih (fun w' hw' => hw w' (List.mem_cons_of_mem _ hw'))
    obtain ⟨h1, h2⟩ := hw w List.mem_cons_self
    unfold pairLoop at hl
    cases hr : pairRow R isInt big n i B w.1 w.2 with
    | taut =>
      rw [hr] at hl
      have := ih hl h
      intro w' hw'
      rcases List.mem_cons.1 hw' with e | e
      · subst e; exact pairRow_exact hR (isInt := isInt) (big := big) (B := B) h1 h2 (by rw [hr]; trivial)
      · exact this w' e
    | unsat => rw [hr] at hl; cases hl
    | con c a =>
      rw [hr] at hl
      simp only [Option.map_eq_some_iff] at hl
      obtain ⟨l', hl', rfl⟩ := hl
      have := ih hl' (fun r hr => h r (List.mem_cons_of_mem _ hr))
      intro w' hw'
      rcases List.mem_cons.1 hw' with e | e
      · subst e
        exact pairRow_exact hR (isInt := isInt) (big := big) (B := B) h1 h2
          (by rw [hr]; exact h (c, a) List.mem_cons_self)
      · exact this w' e

/-- A value between finitely many lower bounds and finitely many upper bounds. -/
theorem between_exists {α β : Type*} (L : List α) (U : List β) (lo : α → K) (hi : β → K)
    (h : ∀ x ∈ L, ∀ y ∈ U, lo x ≤ hi y) : ∃ v, (∀ x ∈ L, lo x ≤ v) ∧ ∀ y ∈ U, v ≤ hi y := by
  have hmin : ∀ U : List β, ∃ v, ∀ y ∈ U, v ≤ hi y := by
    intro U
    induction U with
    | nil => exact ⟨0, by simp⟩
    | cons y U ih =>
      obtain ⟨v, hv⟩ := ih
      refine ⟨min v (hi y), ?_⟩
      intro z hz
      rcases List.mem_cons.1 hz with e | e
      · rw [e]; exact min_le_right _ _
      · exact (min_le_left _ _).trans (hv z e)
  induction L with
  | nil => obtain ⟨v, hv⟩ := hmin U; exact ⟨v, by simp, hv⟩
  | cons x L ih =>
    obtain ⟨v, h1, h2⟩ := ih fun x' hx' => h x' (List.mem_cons_of_mem _ hx')
    refine ⟨max v (lo x), ?_, fun y hy => max_le (h2 y hy) (h x List.mem_cons_self y hy)⟩
    intro z hz
    rcases List.mem_cons.1 hz with e | e
    · rw [e]; exact le_max_right _ _
    · exact (h1 z e).trans (le_max_left _ _)

/-- The terms of a row but that of variable `i`. -/
def restSum (n i : ℕ) (a ρ : ℕ → K) : K := ∑ k ∈ (Finset.range n).erase i, a k * ρ k

theorem fsat_update_iff {n i : ℕ} (hi : i < n) {c v : K} {a ρ : ℕ → K} :
    FSat n c a (Function.update ρ i v) ↔ a i * v + restSum n i a ρ ≤ c := by
  unfold FSat restSum
  rw [← Finset.add_sum_erase _ _ (Finset.mem_range.2 hi)]
  have : ∑ k ∈ (Finset.range n).erase i, a k * Function.update ρ i v k =
      ∑ k ∈ (Finset.range n).erase i, a k * ρ k := by
    apply Finset.sum_congr rfl
    intro k hk
    rw [Function.update_of_ne (Finset.ne_of_mem_erase hk)]
  rw [this, Function.update_self]

theorem pair_bound {n i : ℕ} (hi : i < n) {p q : FRow K} {ρ : ℕ → K} (hp : 0 < p.2 i) (hq : q.2 i < 0)
    (h : ∃ s t : K, 0 < s ∧ 0 < t ∧ s * p.2 i + t * q.2 i = 0 ∧
      FSat n (s * p.1 + t * q.1) (fun k => s * p.2 k + t * q.2 k) ρ) :
    (q.1 - restSum n i q.2 ρ) / q.2 i ≤ (p.1 - restSum n i p.2 ρ) / p.2 i := by
  obtain ⟨s, t, hs, ht, h0, hf⟩ := h
  have hq' : 0 < -(q.2 i) := by linarith
  have e : restSum n i (fun k => s * p.2 k + t * q.2 k) ρ =
      s * restSum n i p.2 ρ + t * restSum n i q.2 ρ := by
    unfold restSum
    rw [Finset.mul_sum, Finset.mul_sum, ← Finset.sum_add_distrib]
    apply Finset.sum_congr rfl; intros; ring
  have hf : s * restSum n i p.2 ρ + t * restSum n i q.2 ρ ≤ s * p.1 + t * q.1 := by
    have := (fsat_update_iff (v := ρ i) hi).1 (by rw [Function.update_eq_self]; exact hf)
    simp only [h0, e] at this
    linarith
  have e2 : (q.1 - restSum n i q.2 ρ) / q.2 i = (restSum n i q.2 ρ - q.1) / -(q.2 i) := by
    rw [div_neg, ← neg_div, neg_sub]
  rw [e2, div_le_div_iff₀ hq' hp]
  have e3 : s * p.2 i = t * -(q.2 i) := by linarith
  have hA : t * (restSum n i q.2 ρ - q.1) ≤ s * (p.1 - restSum n i p.2 ρ) := by linarith
  have hB : (t * (restSum n i q.2 ρ - q.1)) * p.2 i ≤ (s * (p.1 - restSum n i p.2 ρ)) * p.2 i :=
    mul_le_mul_of_nonneg_right hA hp.le
  have hC : (s * (p.1 - restSum n i p.2 ρ)) * p.2 i = t * ((p.1 - restSum n i p.2 ρ) * -(q.2 i)) := by
    have : (s * (p.1 - restSum n i p.2 ρ)) * p.2 i = (s * p.2 i) * (p.1 - restSum n i p.2 ρ) := by ring
    rw [this, e3]; ring
  rw [hC] at hB
  have : t * ((restSum n i q.2 ρ - q.1) * p.2 i) ≤ t * ((p.1 - restSum n i p.2 ρ) * -(q.2 i)) := by
    linarith
  exact le_of_mul_le_mul_left this ht

theorem rows_extend {n i : ℕ} (hi : i < n) {rs : List (FRow K)} {ρ : ℕ → K}
    (hz : ∀ r ∈ rs, r.2 i = 0 → FSat n r.1 r.2 ρ)
    (hw : ∀ p ∈ rs, 0 < p.2 i → ∀ q ∈ rs, q.2 i < 0 → ∃ s t : K, 0 < s ∧ 0 < t ∧ s * p.2 i + t * q.2 i = 0 ∧
      FSat n (s * p.1 + t * q.1) (fun k => s * p.2 k + t * q.2 k) ρ) :
    ∃ v, ∀ r ∈ rs, FSat n r.1 r.2 (Function.update ρ i v) := by
  obtain ⟨v, h1, h2⟩ := between_exists (rs.filter fun r : FRow K => decide (r.2 i < 0))
    (rs.filter fun r : FRow K => decide (0 < r.2 i))
    (fun q => (q.1 - restSum n i q.2 ρ) / q.2 i) (fun p => (p.1 - restSum n i p.2 ρ) / p.2 i) (by
      intro q hq p hp
      simp only [List.mem_filter, decide_eq_true_eq] at hq hp
      exact pair_bound hi hp.2 hq.2 (hw p hp.1 hp.2 q hq.1 hq.2))
  refine ⟨v, ?_⟩
  intro r hr
  rcases lt_trichotomy (r.2 i) 0 with h | h | h
  · rw [fsat_update_iff hi]
    have := h1 r (by simp [hr, h])
    rw [div_le_iff_of_neg h] at this
    linarith
  · exact (fsat_update h).2 (hz r hr h)
  · rw [fsat_update_iff hi]
    have := h2 r (by simp [hr, h])
    rw [le_div_iff₀ h] at this
    linarith

/-- `fm_elimination` in exact arithmetic is the projection: a point satisfies the constraints that
are left exactly when some value of the variable makes it satisfy the constraints given, and all
points do when the result is the universe. -/
theorem C155_elimination_exact (R : Rd K) (hR : RdExact R) (isInt : K → Bool) (big : K) (n i : ℕ) (hi : i < n)
    (rs : List (FRow K)) (B : Bnds K) (ρ : ℕ → K) :
    match fmElim R isInt big n i rs B with
    | .empty => True
    | .univ => ∃ v, ∀ r ∈ rs, FSat n r.1 r.2 (Function.update ρ i v)
    | .rows l _ => (∀ r ∈ l, FSat n r.1 r.2 ρ) → ∃ v, ∀ r ∈ rs, FSat n r.1 r.2 (Function.update ρ i v) := by
  have hpairs : ∀ w ∈ (rs.filter fun r : FRow K => decide (0 < r.2 i)).flatMap fun p =>
      (rs.filter fun r : FRow K => decide (r.2 i < 0)).map fun q => (p, q), 0 < w.1.2 i ∧ w.2.2 i < 0 := by
    intro w hw
    simp only [List.mem_flatMap, List.mem_map, List.mem_filter, decide_eq_true_eq] at hw
    obtain ⟨p, ⟨hp, hp'⟩, q, ⟨hq, hq'⟩, rfl⟩ := hw
    exact ⟨hp', hq'⟩
  have hmem : ∀ p ∈ rs, 0 < p.2 i → ∀ q ∈ rs, q.2 i < 0 →
      (p, q) ∈ (rs.filter fun r : FRow K => decide (0 < r.2 i)).flatMap fun p =>
      (rs.filter fun r : FRow K => decide (r.2 i < 0)).map fun q => (p, q) := by
    intro p hp hp' q hq hq'
    simp only [List.mem_flatMap, List.mem_map, List.mem_filter, decide_eq_true_eq]
    exact ⟨p, ⟨hp, hp'⟩, q, ⟨hq, hq'⟩, rfl⟩
  have hmain : ∀ l, pairLoop R isInt big n i B ((rs.filter fun r : FRow K => decide (0 < r.2 i)).flatMap fun p =>
      (rs.filter fun r : FRow K => decide (r.2 i < 0)).map fun q => (p, q)) = some l →
      (∀ r ∈ l ++ rs.filter (fun r : FRow K => decide (r.2 i = 0)), FSat n r.1 r.2 ρ) →
      ∃ v, ∀ r ∈ rs, FSat n r.1 r.2 (Function.update ρ i v) := by
    intro l hl h
    apply rows_extend hi
    · intro r hr hz
      exact h r (List.mem_append_right _ (by simp [hr, hz]))
    · intro p hp hp' q hq hq'
      exact pairLoop_exact hR _ hpairs hl (fun r hr => h r (List.mem_append_left _ hr)) (p, q)
        (hmem p hp hp' q hq hq')
  unfold fmElim
  simp only
  split
  · trivial
  · next h =>
    split at h
    · next h0 =>
      apply rows_extend hi
      · intro r hr hz
        have : (rs.filter fun r : FRow K => decide (r.2 i = 0)).length = 0 := by omega
        rw [List.length_eq_zero_iff, List.filter_eq_nil_iff] at this
        exact absurd hz (by simpa using this r hr)
      · intro p hp hp' q hq hq'
        have := hmem p hp hp' q hq hq'
        have h1 : 0 < (rs.filter fun r : FRow K => decide (0 < r.2 i)).length :=
          List.length_pos_of_mem (a := p) (by simp [hp, hp'])
        have h2 : 0 < (rs.filter fun r : FRow K => decide (r.2 i < 0)).length :=
          List.length_pos_of_mem (a := q) (by simp [hq, hq'])
        have := Nat.mul_pos h1 h2
        omega
    · split at h
      · cases h
      · split at h
        · cases h
        · next l hl =>
          split at h
          · next he =>
            apply hmain l hl
            rw [List.isEmpty_iff] at he
            rw [he]; simp
          · cases h
  · next l B' h =>
    intro hl
    split at h
    · cases h
    · split at h
      · next hz =>
        injection h with h1 h2
        subst h1
        refine ⟨ρ i, ?_⟩
        intro r hr
        rw [Function.update_eq_self]
        have := hl _ (List.mem_map_of_mem hr)
        have hzero : r.2 i = 0 := by
          have hp : (rs.filter fun r : FRow K => decide (0 < r.2 i)).length = 0 := by omega
          have hn : (rs.filter fun r : FRow K => decide (r.2 i < 0)).length = 0 := by omega
          rw [List.length_eq_zero_iff, List.filter_eq_nil_iff] at hp hn
          have a1 := hp r hr
          have a2 := hn r hr
          simp only [decide_eq_true_eq, not_lt] at a1 a2
          exact le_antisymm a1 a2
        have e : (fun k => if k = i then 0 else r.2 k) = r.2 := by
          funext k
          by_cases hk : k = i
          · rw [if_pos hk, hk, hzero]
          · rw [if_neg hk]
        simp only [e] at this
        exact this
      · split at h
        · cases h
        · next l' hl' =>
          split at h
          · cases h
          · injection h with h1 h2
            subst h1
            exact hmain l' hl' hl

theorem pairLoop_bnds {R : Rd K} (hR : RdExact R) {isInt : K → Bool} {big : K} {n i : ℕ} (B B' : Bnds K)
    (ws : List (FRow K × FRow K)) (hw : ∀ w ∈ ws, 0 < w.1.2 i ∧ w.2.2 i < 0) :
    pairLoop R isInt big n i B ws = pairLoop R isInt big n i B' ws := by
  induction ws with
  | nil => rfl
  | cons w ws ih =>
    have ih := ih fun w' hw' => hw w' (List.mem_cons_of_mem _ hw')
    obtain ⟨h1, h2⟩ := hw w List.mem_cons_self
    obtain ⟨s, t, -, -, -, -, -, -, -, hE⟩ := combine_comb R isInt big i h1 h2
    have : pairRow R isInt big n i B w.1 w.2 = pairRow R isInt big n i B' w.1 w.2 := by
      unfold pairRow quasi
      simp only [quasiLoop_point (hE hR)]
    unfold pairLoop
    rw [this, ih]

/-- `fm_elimination` in exact arithmetic is the projection, the other direction: bounds play no part.
If some value of the variable makes a point satisfy the constraints given, then the point satisfies
those that are left; in particular the polyhedron is empty when it is reported so. -/
theorem C155_elimination_exact_sound (R : Rd K) (hR : RdExact R) (isInt : K → Bool) (big : K) (n i : ℕ)
    (rs : List (FRow K)) (B : Bnds K) (ρ : ℕ → K) (v : K)
    (hs : ∀ r ∈ rs, FSat n r.1 r.2 (Function.update ρ i v)) :
    match fmElim R isInt big n i rs B with
    | .empty => False
    | .univ => True
    | .rows l _ => ∀ r ∈ l, FSat n r.1 r.2 ρ := by
  have h := C155_elimination_sound R isInt big n i rs ⟨fun _ => none, fun _ => none⟩
    (Function.update ρ i v) (fun k _ => by simp) hs
  have e : pairLoop R isInt big n i B ((rs.filter fun r : FRow K => decide (0 < r.2 i)).flatMap fun p =>
      (rs.filter fun r : FRow K => decide (r.2 i < 0)).map fun q => (p, q)) =
      pairLoop R isInt big n i ⟨fun _ => none, fun _ => none⟩
        ((rs.filter fun r : FRow K => decide (0 < r.2 i)).flatMap fun p =>
      (rs.filter fun r : FRow K => decide (r.2 i < 0)).map fun q => (p, q)) :=
    pairLoop_bnds hR _ _ _ fun w hw => by
      have := pairs_ok i hs w hw
      exact ⟨this.1, this.2.1⟩
  unfold fmElim at h ⊢
  simp only at h ⊢
  rw [e]
  by_cases c1 : (rs.filter fun r : FRow K => decide (0 < r.2 i)).length *
      (rs.filter fun r : FRow K => decide (r.2 i < 0)).length +
      (rs.filter fun r : FRow K => decide (r.2 i = 0)).length = 0
  · rw [if_pos c1]; trivial
  · rw [if_neg c1] at h ⊢
    by_cases c2 : (rs.filter fun r : FRow K => decide (0 < r.2 i)).length +
        (rs.filter fun r : FRow K => decide (r.2 i < 0)).length = 0
    · rw [if_pos c2] at h ⊢
      simp only at h ⊢
      intro r hr
      simpa using (h (ρ i)).1 r hr
    · rw [if_neg c2] at h ⊢
      revert h
      generalize pairLoop R isInt big n i ⟨fun _ => none, fun _ => none⟩
        ((rs.filter fun r : FRow K => decide (0 < r.2 i)).flatMap fun p =>
      (rs.filter fun r : FRow K => decide (r.2 i < 0)).map fun q => (p, q)) = o
      cases o with
      | none => simp
      | some l =>
        simp only
        by_cases c3 : (l ++ rs.filter fun r : FRow K => decide (r.2 i = 0)).isEmpty = true
        · rw [if_pos c3, if_pos c3]; simp
        · rw [if_neg c3, if_neg c3]
          simp only
          intro h r hr
          simpa using (h (ρ i)).1 r hr

/-! ## Assignment -/

/-- The value of `Σ e k * V k + e0`. -/
def affVal (n : ℕ) (e0 : K) (e : ℕ → K) (ρ : ℕ → K) : K := e0 + ∑ k ∈ Finset.range n, e k * ρ k

/-- Invertible assignment `V j := Σ e k * V k + e0`: when the replaced row exists, the new point
satisfies it; `B` are bounds of the new point. -/
theorem C155_substitution_sound (R : Rd K) (n j : ℕ) (hj : j < n) (e0 : K) (e : ℕ → K) (hej : e j ≠ 0)
    (B : Bnds K) (r r' : FRow K) (ρ : ℕ → K) (hr : FSat n r.1 r.2 ρ)
    (hB : InBnds n B (Function.update ρ j (affVal n e0 e ρ)))
    (h : substRow R n j e0 e B r = some r') :
    FSat n r'.1 r'.2 (Function.update ρ j (affVal n e0 e ρ)) := by
  unfold substRow at h
  by_cases h0 : r.2 j = 0
  · rw [if_pos h0] at h
    cases h
    exact (fsat_update h0).2 hr
  rw [if_neg h0] at h
  have hs := C154_quasi_sound R n (addI R (r.1, r.1) (mulI R (r.2 j) (divN R e0 (e j)))).2
        (fun k => if k = j then (divN R (r.2 j) (e j)).1
          else (subI R (r.2 k, r.2 k) (mulI R (r.2 j) (divN R (e k) (e j)))).1)
        (fun k => if k = j then (divN R (r.2 j) (e j)).2
          else (subI R (r.2 k, r.2 k) (mulI R (r.2 j) (divN R (e k) (e j)))).2)
        (fun k => if k = j then r.2 j / e j else r.2 k - r.2 j * (e k / e j))
        (Function.update ρ j (affVal n e0 e ρ)) (some B) (fun B' hB' => by cases hB'; exact hB)
        (by
          intro k _
          by_cases hk : k = j
          · simp only [if_pos hk]; exact in2_round R _
          · simp only [if_neg hk]
            exact in2_subI R ⟨le_refl _, le_refl _⟩ (in2_mulI R _ (in2_round R _)))
        (by
          have hc : r.1 + r.2 j * (e0 / e j) ≤ (addI R (r.1, r.1) (mulI R (r.2 j) (divN R e0 (e j)))).2 :=
            (in2_addI R (x := r.1) ⟨le_refl _, le_refl _⟩ (in2_mulI R (r.2 j) (in2_round R (e0 / e j)))).2
          refine FSat.mono ?_ hc
          rw [fsat_update_iff hj]
          have hr := (fsat_update_iff (v := ρ j) hj).1 (by rw [Function.update_eq_self]; exact hr)
          have e1 : restSum n j (fun k => if k = j then r.2 j / e j else r.2 k - r.2 j * (e k / e j)) ρ =
              restSum n j r.2 ρ - r.2 j / e j * restSum n j e ρ := by
            unfold restSum
            rw [Finset.mul_sum, ← Finset.sum_sub_distrib]
            apply Finset.sum_congr rfl
            intro k hk
            simp only [if_neg (Finset.ne_of_mem_erase hk)]
            ring
          have e2 : affVal n e0 e ρ = e0 + (e j * ρ j + restSum n j e ρ) := by
            unfold affVal restSum
            rw [← Finset.add_sum_erase _ _ (Finset.mem_range.2 hj)]
          simp only [if_true]
          rw [e1, e2]
          have e3 : r.2 j / e j * (e j * ρ j) = r.2 j * ρ j := by field_simp
          have e4 : r.2 j / e j * (e0 + (e j * ρ j + restSum n j e ρ)) =
              r.2 j * (e0 / e j) + r.2 j / e j * (e j * ρ j) + r.2 j / e j * restSum n j e ρ := by ring
          rw [e4, e3]
          linarith)
  split at h
  · next c a hq => rw [hq] at hs; cases h; exact hs
  · cases h

/-- In exact arithmetic the replaced row exists: `memcpy` is not given NULL. -/
theorem C155_substitution_exists (R : Rd K) (n j : ℕ) (hj : j < n) (e0 : K) (e : ℕ → K) (hej : e j ≠ 0)
    (hR : RdExact R) (B : Bnds K) (r : FRow K) : (substRow R n j e0 e B r).isSome = true := by
  unfold substRow
  by_cases h0 : r.2 j = 0
  · rw [if_pos h0]; rfl
  rw [if_neg h0]
  unfold quasi
  rw [quasiLoop_point (by
    intro k
    by_cases hk : k = j
    · simp [hk, divN, hR.1, hR.2]
    · simp [hk, subI, mulI, divN, hR.1, hR.2])]
  have hne : ¬ (List.range n).all (fun k => decide (mid R
      (if k = j then (divN R (r.2 j) (e j)).1
          else (subI R (r.2 k, r.2 k) (mulI R (r.2 j) (divN R (e k) (e j)))).1)
      (if k = j then (divN R (r.2 j) (e j)).2
          else (subI R (r.2 k, r.2 k) (mulI R (r.2 j) (divN R (e k) (e j)))).2) = 0)) = true := by
    intro h
    rw [List.all_eq_true] at h
    have := h j (List.mem_range.2 hj)
    rw [decide_eq_true_eq] at this
    simp [divN, mid, hR.1, hR.2, h0, hej] at this
  simp only [hne]
  rfl

/-- Assignment that does not read `V j`: the new point satisfies the rows that define `V j`, beside
those left by the elimination (`C155_elimination_sound`). -/
theorem C155_definition_rows (n j : ℕ) (hj : j < n) (e0 : K) (e : ℕ → K) (hej : e j = 0) (ρ : ℕ → K) (v : K) :
    (∀ r ∈ defRows j e0 e, FSat n r.1 r.2 (Function.update ρ j v)) ↔ v = affVal n e0 e ρ := by
  have e2 : affVal n e0 e ρ = e0 + restSum n j e ρ := by
    unfold affVal restSum
    rw [← Finset.add_sum_erase _ _ (Finset.mem_range.2 hj), hej]; ring
  have e3 : restSum n j (fun k => if k = j then (-1 : K) else e k) ρ = restSum n j e ρ := by
    unfold restSum
    apply Finset.sum_congr rfl
    intro k hk; simp only [if_neg (Finset.ne_of_mem_erase hk)]
  have e4 : restSum n j (fun k => if k = j then (1 : K) else -(e k)) ρ = -(restSum n j e ρ) := by
    unfold restSum
    rw [← Finset.sum_neg_distrib]
    apply Finset.sum_congr rfl
    intro k hk; simp only [if_neg (Finset.ne_of_mem_erase hk)]; ring
  simp only [defRows, List.mem_cons, List.not_mem_nil, or_false, forall_eq_or_imp, forall_eq]
  rw [fsat_update_iff hj, fsat_update_iff hj, e2, e3, e4]
  simp only [if_true]
  constructor
  · rintro ⟨h1, h2⟩; apply le_antisymm <;> linarith
  · intro h; rw [h]; constructor <;> linarith

end Apron.Props
