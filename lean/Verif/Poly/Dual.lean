import Verif.Poly.ConvLoop

/-!
# Farkas' lemma and the dual description

No code is modelled here.
-/

set_option autoImplicit false
set_option linter.unusedSectionVars false

namespace Apron.Poly

section general
variable {K : Type*} [LinearOrder K] [Field K] [IsStrictOrderedRing K]
variable {V : Type*} [AddCommGroup V] [Module K V]

/-- Farkas' lemma: a linear form that is non-negative on the cone is a combination of the constraints -/
theorem farkas (k : ℕ) (A : ℕ → V →ₗ[K] K) (E : ℕ → Prop) (q : V →ₗ[K] K) (h : ∀ x, InC A E k x → 0 ≤ q x) :
    ∃ w : ℕ → K, (∀ b, b < k → ¬ E b → 0 ≤ w b) ∧ q = ∑ b ∈ Finset.range k, w b • A b := by
  classical
  induction k generalizing A q with
  | zero =>
    refine ⟨fun _ => 0, fun b hb => absurd hb (Nat.not_lt_zero b), ?_⟩
    ext x
    have h1 := h x (fun b hb => absurd hb (Nat.not_lt_zero b))
    have h2 := h (-x) (fun b hb => absurd hb (Nat.not_lt_zero b))
    rw [map_neg] at h2
    simp only [Finset.range_zero, Finset.sum_empty, LinearMap.zero_apply]
    linarith
  | succ k ih =>
    by_cases hq : ∀ x, InC A E k x → 0 ≤ q x
    · obtain ⟨w, hw, e⟩ := ih A q hq
      refine ⟨fun b => if b < k then w b else 0, fun b hb he => ?_, ?_⟩
      · dsimp only
        split_ifs with hbk
        · exact hw b hbk he
        · exact le_rfl
      · rw [Finset.sum_range_succ]
        dsimp only
        rw [if_neg (lt_irrefl k), zero_smul, add_zero, e]
        exact Finset.sum_congr rfl fun b hb => by rw [if_pos (Finset.mem_range.1 hb)]
    · push Not at hq
      obtain ⟨x0, hx0, hneg⟩ := hq
      have hA0 : A k x0 ≠ 0 ∧ (¬ E k → A k x0 < 0) := by
        constructor
        · intro e
          refine absurd (h x0 fun b hb => ?_) (not_le.2 hneg)
          rcases Nat.lt_succ_iff_lt_or_eq.1 hb with hb | rfl
          · exact hx0 b hb
          · rw [e]; exact ⟨le_rfl, fun _ => rfl⟩
        · intro he
          by_contra hc
          push Not at hc
          refine absurd (h x0 fun b hb => ?_) (not_le.2 hneg)
          rcases Nat.lt_succ_iff_lt_or_eq.1 hb with hb | rfl
          · exact hx0 b hb
          · exact ⟨hc, fun e => absurd e he⟩
      obtain ⟨hne, hlt⟩ := hA0
      let A' : ℕ → V →ₗ[K] K := fun b => A b - (A b x0 / A k x0) • A k
      let q' : V →ₗ[K] K := q - (q x0 / A k x0) • A k
      have hy : ∀ (f : V →ₗ[K] K) (x : V), f (x - (A k x / A k x0) • x0) = f x - f x0 / A k x0 * A k x := by
        intro f x; rw [map_sub, map_smul, smul_eq_mul]; ring
      obtain ⟨w, hw, e⟩ := ih A' q' (by
        intro x hx
        have := h (x - (A k x / A k x0) • x0) (by
          intro b hb
          rcases Nat.lt_succ_iff_lt_or_eq.1 hb with hb | rfl
          · have := hx b hb
            rw [hy]
            simpa only [A', LinearMap.sub_apply, LinearMap.smul_apply, smul_eq_mul] using this
          · rw [hy, div_self hne, one_mul, sub_self]; exact ⟨le_rfl, fun _ => rfl⟩)
        rw [hy] at this
        simpa only [q', LinearMap.sub_apply, LinearMap.smul_apply, smul_eq_mul] using this)
      refine ⟨fun b => if b < k then w b else (q x0 - ∑ b ∈ Finset.range k, w b * A b x0) / A k x0, fun b hb he => ?_, ?_⟩
      · dsimp only
        split_ifs with hbk
        · exact hw b hbk he
        · obtain rfl : b = k := by omega
          have : 0 ≤ ∑ b' ∈ Finset.range b, w b' * A b' x0 := by
            refine Finset.sum_nonneg fun b' hb' => ?_
            have hb' := Finset.mem_range.1 hb'
            by_cases he' : E b'
            · rw [(hx0 b' hb').2 he', mul_zero]
            · exact mul_nonneg (hw b' hb' he') (hx0 b' hb').1
          exact div_nonneg_of_nonpos (by linarith) (hlt he).le
      · rw [Finset.sum_range_succ]
        dsimp only
        rw [if_neg (lt_irrefl k)]
        have e3 : ∑ b ∈ Finset.range k, (if b < k then w b else (q x0 - ∑ b ∈ Finset.range k, w b * A b x0) / A k x0) • A b =
            ∑ b ∈ Finset.range k, w b • A b :=
          Finset.sum_congr rfl fun b hb => by rw [if_pos (Finset.mem_range.1 hb)]
        rw [e3]
        ext x
        have ex := congrArg (fun f => f x) e
        simp only [A', q', LinearMap.sum_apply, LinearMap.smul_apply, LinearMap.sub_apply, smul_eq_mul] at ex
        have e4 : ∑ b ∈ Finset.range k, w b * ((A b) x - A b x0 / A k x0 * A k x) =
            ∑ b ∈ Finset.range k, w b * A b x - (∑ b ∈ Finset.range k, w b * A b x0) / A k x0 * A k x := by
          rw [div_mul_eq_mul_div, div_eq_mul_inv, mul_assoc, Finset.sum_mul, ← Finset.sum_sub_distrib]
          exact Finset.sum_congr rfl fun b _ => by ring
        rw [e4] at ex
        simp only [LinearMap.add_apply, LinearMap.sum_apply, LinearMap.smul_apply, smul_eq_mul]
        rw [sub_div]
        linarith

/-- a generating system, possibly redundant -/
structure PreDD (A : ℕ → V →ₗ[K] K) (E : ℕ → Prop) (k : ℕ) (L : Set V) {ι : Type*} [Fintype ι] (r : ι → V) : Prop where
  line : ∀ l ∈ L, ∀ b, b < k → A b l = 0
  ray : ∀ i, InC A E k (r i)
  gen : ∀ x, InC A E k x → Span (K := K) L r x
  proper : ∀ i, ∃ b, b < k ∧ A b (r i) ≠ 0

section
variable {A : ℕ → V →ₗ[K] K} {E : ℕ → Prop} {k : ℕ} {L : Set V} {ι : Type*} [Fintype ι] {r : ι → V}

theorem PreDD.line_span (h : PreDD A E k L r) {l : V} (hl : l ∈ Submodule.span K L) {b : ℕ} (hb : b < k) : A b l = 0 := by
  refine Submodule.span_induction (p := fun x _ => A b x = 0) ?_ (map_zero _) ?_ ?_ hl
  · exact fun x hx => h.line x hx b hb
  · intro x y _ _ h1 h2; rw [map_add, h1, h2, add_zero]
  · intro a x _ h; rw [map_smul, h, smul_zero]

theorem PreDD.decomp (h : PreDD A E k L r) {x : V} (hx : InC A E k x) :
    ∃ l ∈ Submodule.span K L, ∃ w : ι → K, (∀ i, 0 ≤ w i) ∧ x = l + ∑ i, w i • r i ∧
      ∀ i, 0 < w i → ∀ b, b < k → A b x = 0 → A b (r i) = 0 := by
  obtain ⟨l, hl, w, hw, e⟩ := h.gen x hx
  refine ⟨l, hl, w, hw, e, fun i hi b hb h0 => ?_⟩
  have e1 : A b x = ∑ i, w i * A b (r i) := by
    rw [e, map_add, h.line_span hl hb, zero_add, map_sum]; simp only [map_smul, smul_eq_mul]
  rw [h0] at e1
  have := (Finset.sum_eq_zero_iff_of_nonneg fun i _ => mul_nonneg (hw i) ((h.ray i b hb).1)).1 e1.symm i (Finset.mem_univ i)
  rcases mul_eq_zero.1 this with h | h
  · exact absurd h hi.ne'
  · exact h

theorem PreDD.lin (h : PreDD A E k L r) {x : V} (hx : ∀ b, b < k → A b x = 0) : x ∈ Submodule.span K L := by
  obtain ⟨l, hl, w, hw, e, hd⟩ := h.decomp (x := x) (fun b hb => ⟨(hx b hb).ge, fun _ => hx b hb⟩)
  have : ∀ i, w i = 0 := by
    intro i
    by_contra hi
    obtain ⟨b, hb, hne⟩ := h.proper i
    exact hne (hd i (lt_of_le_of_ne (hw i) (Ne.symm hi)) b hb (hx b hb))
  rw [e]
  simpa [this] using hl

/-- it is enough to keep, for each generator, one that saturates at least as many constraints -/
theorem PreDD.reduce (h : PreDD A E k L r) {κ : ι → Prop}
    (hκ : ∀ i, ∃ j, κ j ∧ ∀ b, b < k → A b (r i) = 0 → A b (r j) = 0) {G : V → Prop} (hG : IsCone (K := K) G)
    (hGL : ∀ l ∈ Submodule.span K L, G l) (hGr : ∀ i, κ i → G (r i)) :
    ∀ (m : ℕ) {x : V}, unsat A k x = m → InC A E k x → G x := by
  intro m
  induction m using Nat.strong_induction_on with
  | _ m ih =>
    intro x hm hx
    by_cases hne : ∃ b, b < k ∧ A b x ≠ 0
    · obtain ⟨l, hl, w, hw, e, hd⟩ := h.decomp hx
      have hex : ∃ i, 0 < w i := by
        by_contra hno
        push Not at hno
        obtain ⟨b, hb, hbne⟩ := hne
        apply hbne
        have : ∀ i, w i = 0 := fun i => le_antisymm (hno i) (hw i)
        rw [e]; simp only [this, zero_smul, Finset.sum_const_zero, add_zero]
        exact h.line_span hl hb
      obtain ⟨i, hi⟩ := hex
      obtain ⟨j, hj, hz⟩ := hκ i
      obtain ⟨t, ht, m1, m2, m3⟩ := exists_max hx (h.ray j) (fun b hb e => hz b hb (hd i hi b hb e)) (h.proper j)
      have := ih _ (hm ▸ unsat_lt m2 m3) rfl m1
      have e : x = (x - t • r j) + t • r j := by abel
      rw [e]
      exact hG.add this (hG.smul ht.le (hGr j hj))
    · push Not at hne
      exact hGL x (h.lin hne)

/-- the number of saturated constraints -/
noncomputable def nsat (A : ℕ → V →ₗ[K] K) (k : ℕ) (x : V) : ℕ :=
  open Classical in ((Finset.range k).filter fun b => A b x = 0).card

/-- a generator whose set of saturated constraints is maximal saturates enough of them -/
theorem PreDD.count [FiniteDimensional K V] (h : PreDD A E k L r) {nl : ℕ} (hnl : ∃ s : Finset V, L ⊆ Submodule.span K (s : Set V) ∧ s.card ≤ nl)
    {i : ι} (hi : ∀ j, (∀ b, b < k → A b (r i) = 0 → A b (r j) = 0) → ∀ b, b < k → A b (r j) = 0 → A b (r i) = 0) :
    Module.finrank K V ≤ nsat A k (r i) + nl + 1 := by
  classical
  obtain ⟨s, hLs, hs⟩ := hnl
  have hLs' : Submodule.span K L ≤ Submodule.span K (s : Set V) := Submodule.span_le.2 hLs
  let Z := (Finset.range k).filter fun b => A b (r i) = 0
  let f : V →ₗ[K] (Z → K) := LinearMap.pi fun b => A b.1
  have h1 := LinearMap.finrank_range_add_finrank_ker f
  have h2 : Module.finrank K (LinearMap.range f) ≤ Z.card := by
    refine (Submodule.finrank_le _).trans ?_
    rw [Module.finrank_fintype_fun_eq_card, Fintype.card_coe]
  have hi' : r i ∈ Submodule.span K ((insert (r i) s : Finset V) : Set V) := Submodule.subset_span (by simp)
  have hsub : Submodule.span K (s : Set V) ≤ Submodule.span K ((insert (r i) s : Finset V) : Set V) :=
    Submodule.span_mono (by simp)
  -- every generator of the same face is a multiple of `r i` modulo the lines
  have hface : ∀ j, (∀ b, b < k → A b (r i) = 0 → A b (r j) = 0) →
      r j ∈ Submodule.span K ((insert (r i) s : Finset V) : Set V) := by
    intro j hj
    obtain ⟨t, ht, m1, m2, b0, hb0, hne0, hz0⟩ := exists_max (h.ray j) (h.ray i) (hi j hj) (h.proper i)
    have hl : r j - t • r i ∈ Submodule.span K L := by
      -- its decomposition only has generators of strictly smaller faces
      obtain ⟨l, hl, w, hw, e, hd⟩ := h.decomp m1
      have : ∀ m, w m = 0 := by
        intro m
        by_contra hm
        have hdm := hd m (lt_of_le_of_ne (hw m) (Ne.symm hm))
        have h3 := hi m (fun b hb e0 => hdm b hb (m2 b hb (hj b hb e0)))
        have h4 := h3 b0 hb0 (hdm b0 hb0 hz0)
        exact hne0 (hj b0 hb0 h4)
      rw [e]; simpa [this] using hl
    have e : r j = (r j - t • r i) + t • r i := by abel
    rw [e]
    exact Submodule.add_mem _ (hsub (hLs' hl)) (Submodule.smul_mem _ _ hi')
  have h3 : LinearMap.ker f ≤ Submodule.span K ((insert (r i) s : Finset V) : Set V) := by
    intro v hv
    have hv0 : ∀ b, b < k → A b (r i) = 0 → A b v = 0 := by
      intro b hb e1
      have := congrFun (LinearMap.mem_ker.1 hv) ⟨b, by simp [Z, hb, e1]⟩
      simpa [f] using this
    have hp := h.ray i
    obtain ⟨ε, hε, hc⟩ : ∃ ε : K, 0 < ε ∧ ∀ b, b < k → A b (r i) ≠ 0 → 0 ≤ A b (r i) + ε * A b v := by
      let S := (Finset.range k).filter fun b => A b (r i) ≠ 0
      have hS : S.Nonempty := by
        obtain ⟨b, hb, hne⟩ := h.proper i
        exact ⟨b, by simp [S, hb, hne]⟩
      obtain ⟨b0, hb0, hmin⟩ := S.exists_min_image (fun b => A b (r i) / (|A b v| + 1)) hS
      simp only [S, Finset.mem_filter, Finset.mem_range] at hb0 hmin
      have pb : ∀ b, b < k → A b (r i) ≠ 0 → 0 < A b (r i) := fun b hb h => lt_of_le_of_ne (hp b hb).1 (Ne.symm h)
      have q : ∀ b, 0 < |A b v| + 1 := fun b => by have := abs_nonneg (A b v); linarith
      refine ⟨A b0 (r i) / (|A b0 v| + 1), div_pos (pb b0 hb0.1 hb0.2) (q b0), fun b hb hne => ?_⟩
      have := hmin b ⟨hb, hne⟩
      rw [le_div_iff₀ (q b)] at this
      have hpos := div_pos (pb b0 hb0.1 hb0.2) (q b0)
      have h5 : - |A b v| ≤ A b v := neg_abs_le _
      have h6 : A b0 (r i) / (|A b0 v| + 1) * (-|A b v|) ≤ A b0 (r i) / (|A b0 v| + 1) * A b v :=
        mul_le_mul_of_nonneg_left h5 hpos.le
      nlinarith
    have hin : InC A E k (r i + ε • v) := by
      intro b hb
      rw [map_add, map_smul, smul_eq_mul]
      by_cases hb0 : A b (r i) = 0
      · rw [hb0, hv0 b hb hb0]; simp
      · exact ⟨hc b hb hb0, fun he => absurd ((hp b hb).2 he) hb0⟩
    obtain ⟨l, hl, w, hw, e, hd⟩ := h.decomp hin
    have hsum : ∑ m, w m • r m ∈ Submodule.span K ((insert (r i) s : Finset V) : Set V) := by
      refine Submodule.sum_mem _ fun m _ => ?_
      rcases (hw m).eq_or_lt with h0 | h0
      · rw [← h0, zero_smul]; exact Submodule.zero_mem _
      · refine Submodule.smul_mem _ _ (hface m fun b hb e1 => hd m h0 b hb ?_)
        rw [map_add, map_smul, hv0 b hb e1, e1]; simp
    have hv' : ε • v = l + ∑ m, w m • r m - r i := by rw [← e]; abel
    have hmem' : ε • v ∈ Submodule.span K ((insert (r i) s : Finset V) : Set V) := by
      rw [hv']
      exact Submodule.sub_mem _ (Submodule.add_mem _ (hsub (hLs' hl)) hsum) hi'
    have := Submodule.smul_mem _ ε⁻¹ hmem'
    rwa [smul_smul, inv_mul_cancel₀ hε.ne', one_smul] at this
  have h4 := (Submodule.finrank_mono h3).trans (finrank_span_finset_le_card _)
  have h5 := Finset.card_insert_le (r i) s
  have h7 : nsat A k (r i) = Z.card := rfl
  omega

end

end general

variable {K : Type*} [LinearOrder K] [Field K] [IsStrictOrderedRing K] {d : ℕ}

/-- equality rows -/
def eqRows (C : List Row) : List Row := C.filter fun q => q.at' 0 == 0

/-- inequality rows -/
def ineqRows (C : List Row) : List Row := C.filter fun q => q.at' 0 != 0

/-- the linear form of a vector -/
def linV (v : Fin d → K) : (Fin d → K) →ₗ[K] K where
  toFun x := ∑ j, v j * x j
  map_add' x y := by simp [mul_add, Finset.sum_add_distrib]
  map_smul' t x := by
    simp only [Pi.smul_apply, smul_eq_mul, RingHom.id_apply, Finset.mul_sum]
    exact Finset.sum_congr rfl fun j _ => by ring

theorem linV_apply (v x : Fin d → K) : linV v x = ∑ j, v j * x j := rfl

theorem linV_comm (v x : Fin d → K) : linV v x = linV x v := by
  rw [linV_apply, linV_apply]; exact Finset.sum_congr rfl fun j _ => mul_comm _ _

theorem dot_eq_linV (q : Row) (x : Fin d → K) : dot q x = linV (toV K d q) x := rfl

/-- Farkas' lemma for matrices: a vector that is a valid constraint is generated by the rows -/
theorem farkas_rows {C : List Row} {v : Fin d → K} (h : ∀ x : Fin d → K, Sat C x → 0 ≤ linV v x) :
    Gen (eqRows C) (ineqRows C) v := by
  obtain ⟨w, hw, e⟩ := farkas C.length (cA K d C) (cE C) (linV v) (fun x hx => h x (sat_iff.2 hx))
  have ev : v = ∑ b ∈ Finset.range C.length, w b • toV K d (C.getD b []) := by
    funext j
    have := congrArg (fun f => f (Pi.single j 1)) e
    simp only [LinearMap.sum_apply, LinearMap.smul_apply] at this
    rw [linV_apply] at this
    simp only [Pi.single_apply, mul_ite, mul_one, mul_zero, Finset.sum_ite_eq', Finset.mem_univ, if_true] at this
    rw [this, Finset.sum_apply]
    refine Finset.sum_congr rfl fun b _ => ?_
    rw [cA, lin_apply, dot]
    simp only [Pi.single_apply, mul_ite, mul_one, mul_zero, Finset.sum_ite_eq', Finset.mem_univ, if_true, Pi.smul_apply, smul_eq_mul]
    rfl
  rw [ev]
  have : ∀ s : Finset ℕ, (∀ b ∈ s, b < C.length) → Gen (eqRows C) (ineqRows C) (∑ b ∈ s, w b • toV K d (C.getD b [])) := by
    classical
    intro s
    induction s using Finset.induction_on with
    | empty => intro _; exact .zero
    | insert a s ha ih =>
      intro hs
      rw [Finset.sum_insert ha, add_comm (w a • _)]
      have hlt := hs a (Finset.mem_insert_self a s)
      have ih := ih fun b hb => hs b (Finset.mem_insert_of_mem hb)
      by_cases he : (C.getD a []).at' 0 = 0
      · exact .line _ ih (List.mem_filter.2 ⟨getD_mem hlt, by simpa using he⟩)
      · exact .ray _ ih (List.mem_filter.2 ⟨getD_mem hlt, by simpa using he⟩) (hw a hlt he)
  exact this _ fun b hb => Finset.mem_range.1 hb

end Apron.Poly
