import Mathlib.Algebra.Order.Field.Basic
import Mathlib.Algebra.Order.BigOperators.Group.Finset
import Mathlib.LinearAlgebra.FiniteDimensional.Basic
import Mathlib.LinearAlgebra.Dimension.Constructions
import Mathlib.LinearAlgebra.FiniteDimensional.Lemmas
import Mathlib.Data.Finset.Max
import Mathlib.Tactic.Linarith
import Mathlib.Tactic.FieldSimp
import Mathlib.Tactic.Ring
import Mathlib.Tactic.Module

/-!
# Polyhedral cones and the double description method

Mathematical content of Chernikova's algorithm: a cone given by finitely many linear constraints `A b`,
`b < k` (equalities when `E b`, inequalities otherwise) and generated by lines `L` and rays `r`.  No code is
modelled here.
-/

set_option autoImplicit false
set_option linter.unusedSectionVars false

namespace Apron.Poly

variable {K : Type*} [LinearOrder K] [Field K] [IsStrictOrderedRing K]
variable {V : Type*} [AddCommGroup V] [Module K V]

/-- `x` satisfies the first `k` constraints -/
def InC (A : ℕ → V →ₗ[K] K) (E : ℕ → Prop) (k : ℕ) (x : V) : Prop :=
  ∀ b, b < k → 0 ≤ A b x ∧ (E b → A b x = 0)

/-- `x` is a sum of lines with arbitrary coefficients and rays with non-negative coefficients -/
def Span (L : Set V) {ι : Type*} [Fintype ι] (r : ι → V) (x : V) : Prop :=
  ∃ l ∈ Submodule.span K L, ∃ w : ι → K, (∀ i, 0 ≤ w i) ∧ x = l + ∑ i, w i • r i

theorem InC.add {A : ℕ → V →ₗ[K] K} {E : ℕ → Prop} {k : ℕ} {x y : V} (hx : InC A E k x) (hy : InC A E k y) :
    InC A E k (x + y) := by
  intro b hb
  obtain ⟨h1, h2⟩ := hx b hb
  obtain ⟨h3, h4⟩ := hy b hb
  rw [map_add]
  exact ⟨by linarith, fun h => by rw [h2 h, h4 h, add_zero]⟩

theorem InC.smul {A : ℕ → V →ₗ[K] K} {E : ℕ → Prop} {k : ℕ} {x : V} (hx : InC A E k x) {t : K} (ht : 0 ≤ t) :
    InC A E k (t • x) := by
  intro b hb
  obtain ⟨h1, h2⟩ := hx b hb
  rw [map_smul, smul_eq_mul]
  exact ⟨mul_nonneg ht h1, fun h => by rw [h2 h, mul_zero]⟩

theorem InC.zero {A : ℕ → V →ₗ[K] K} {E : ℕ → Prop} {k : ℕ} : InC A E k (0 : V) := by
  intro b _; simp

section Span
variable {L : Set V} {ι : Type*} [Fintype ι] {r : ι → V}

theorem Span.zero : Span (K := K) L r 0 := ⟨0, Submodule.zero_mem _, fun _ => 0, fun _ => le_rfl, by simp⟩

theorem Span.add {x y : V} (hx : Span (K := K) L r x) (hy : Span (K := K) L r y) : Span (K := K) L r (x + y) := by
  obtain ⟨l, hl, w, hw, rfl⟩ := hx
  obtain ⟨l', hl', w', hw', rfl⟩ := hy
  refine ⟨l + l', Submodule.add_mem _ hl hl', fun i => w i + w' i, fun i => add_nonneg (hw i) (hw' i), ?_⟩
  simp only [add_smul, Finset.sum_add_distrib]
  abel

theorem Span.smul {x : V} (hx : Span (K := K) L r x) {t : K} (ht : 0 ≤ t) : Span (K := K) L r (t • x) := by
  obtain ⟨l, hl, w, hw, rfl⟩ := hx
  refine ⟨t • l, Submodule.smul_mem _ _ hl, fun i => t * w i, fun i => mul_nonneg ht (hw i), ?_⟩
  simp only [smul_add, Finset.smul_sum, mul_smul]

theorem Span.line {x : V} (hx : x ∈ Submodule.span K L) : Span (K := K) L r x :=
  ⟨x, hx, fun _ => 0, fun _ => le_rfl, by simp⟩

theorem Span.ray [DecidableEq ι] (i : ι) : Span (K := K) L r (r i) :=
  ⟨0, Submodule.zero_mem _, fun j => if j = i then 1 else 0, fun j => by dsimp only; split_ifs <;> simp, by simp [ite_smul]⟩

theorem Span.inC {A : ℕ → V →ₗ[K] K} {E : ℕ → Prop} {k : ℕ} (hL : ∀ l ∈ L, ∀ b, b < k → A b l = 0)
    (hr : ∀ i, InC A E k (r i)) {x : V} (hx : Span (K := K) L r x) : InC A E k x := by
  obtain ⟨l, hl, w, hw, rfl⟩ := hx
  have h0 : ∀ b, b < k → A b l = 0 := by
    intro b hb
    refine Submodule.span_induction (p := fun x _ => A b x = 0) ?_ (map_zero _) ?_ ?_ hl
    · exact fun x hx => hL x hx b hb
    · intro x y _ _ h1 h2; rw [map_add, h1, h2, add_zero]
    · intro a x _ h; rw [map_smul, h, smul_zero]
  intro b hb
  have e : A b (l + ∑ i, w i • r i) = ∑ i, w i * A b (r i) := by
    rw [map_add, h0 b hb, zero_add, map_sum]; simp only [map_smul, smul_eq_mul]
  rw [e]
  refine ⟨Finset.sum_nonneg fun i _ => mul_nonneg (hw i) ((hr i b hb).1), fun h => ?_⟩
  exact Finset.sum_eq_zero fun i _ => by rw [(hr i b hb).2 h, mul_zero]

end Span

/-- moving from `x` against a direction `y` of its face until a new constraint is saturated -/
theorem exists_max {A : ℕ → V →ₗ[K] K} {E : ℕ → Prop} {k : ℕ} {x y : V} (hx : InC A E k x) (hy : InC A E k y)
    (hz : ∀ b, b < k → A b x = 0 → A b y = 0) (hn : ∃ b, b < k ∧ A b y ≠ 0) :
    ∃ t : K, 0 < t ∧ InC A E k (x - t • y) ∧ (∀ b, b < k → A b x = 0 → A b (x - t • y) = 0) ∧
      ∃ b, b < k ∧ A b x ≠ 0 ∧ A b (x - t • y) = 0 := by
  classical
  let S := (Finset.range k).filter fun b => A b y ≠ 0
  have hS : S.Nonempty := by
    obtain ⟨b, hb, h⟩ := hn
    exact ⟨b, by simp [S, hb, h]⟩
  obtain ⟨b0, hb0, hmin⟩ := S.exists_min_image (fun b => A b x / A b y) hS
  simp only [S, Finset.mem_filter, Finset.mem_range] at hb0 hmin
  have pos : ∀ b, b < k → A b y ≠ 0 → 0 < A b y ∧ 0 < A b x := by
    intro b hb h
    refine ⟨lt_of_le_of_ne (hy b hb).1 (Ne.symm h), lt_of_le_of_ne (hx b hb).1 fun h0 => h (hz b hb h0.symm)⟩
  obtain ⟨p1, p2⟩ := pos b0 hb0.1 hb0.2
  refine ⟨A b0 x / A b0 y, div_pos p2 p1, ?_, ?_, b0, hb0.1, p2.ne', ?_⟩
  · intro b hb
    rw [map_sub, map_smul, smul_eq_mul]
    by_cases h : A b y = 0
    · rw [h, mul_zero, sub_zero]; exact hx b hb
    · obtain ⟨q1, q2⟩ := pos b hb h
      have := hmin b ⟨hb, h⟩
      rw [le_div_iff₀ q1] at this
      exact ⟨by linarith, fun he => absurd ((hy b hb).2 he) h⟩
  · intro b hb h
    rw [map_sub, map_smul, h, hz b hb h, smul_zero, sub_zero]
  · rw [map_sub, map_smul, smul_eq_mul, div_mul_cancel₀ _ p1.ne', sub_self]

/-- a pair (processed constraints, generators) in double description: the generators generate the cone, no
ray is a line, and no ray saturates all the constraints saturated by another one -/
structure DD (A : ℕ → V →ₗ[K] K) (E : ℕ → Prop) (k : ℕ) (L : Set V) {ι : Type*} [Fintype ι] (r : ι → V) : Prop where
  line : ∀ l ∈ L, ∀ b, b < k → A b l = 0
  ray : ∀ i, InC A E k (r i)
  gen : ∀ x, InC A E k x → Span (K := K) L r x
  proper : ∀ i, ∃ b, b < k ∧ A b (r i) ≠ 0
  anti : ∀ i j, i ≠ j → ∃ b, b < k ∧ A b (r i) = 0 ∧ A b (r j) ≠ 0

section step
variable {A : ℕ → V →ₗ[K] K} {E : ℕ → Prop} {k : ℕ} {L : Set V} {ι : Type*} [Fintype ι] {r : ι → V}

theorem DD.line_span (h : DD A E k L r) {l : V} (hl : l ∈ Submodule.span K L) {b : ℕ} (hb : b < k) : A b l = 0 := by
  refine Submodule.span_induction (p := fun x _ => A b x = 0) ?_ (map_zero _) ?_ ?_ hl
  · exact fun x hx => h.line x hx b hb
  · intro x y _ _ h1 h2; rw [map_add, h1, h2, add_zero]
  · intro a x _ h; rw [map_smul, h, smul_zero]

/-- a decomposition of `x` only uses rays of the face of `x` -/
theorem DD.decomp (h : DD A E k L r) {x : V} (hx : InC A E k x) :
    ∃ l ∈ Submodule.span K L, ∃ w : ι → K, (∀ i, 0 ≤ w i) ∧ x = l + ∑ i, w i • r i ∧
      ∀ i, 0 < w i → ∀ b, b < k → A b x = 0 → A b (r i) = 0 := by
  obtain ⟨l, hl, w, hw, e⟩ := h.gen x hx
  refine ⟨l, hl, w, hw, e, fun i hi b hb h0 => ?_⟩
  have e1 : A b x = ∑ i, w i * A b (r i) := by
    rw [e, map_add, h.line_span hl hb, zero_add, map_sum]; simp only [map_smul, smul_eq_mul]
  rw [h0] at e1
  have := (Finset.sum_eq_zero_iff_of_nonneg fun i _ => mul_nonneg (hw i) ((h.ray i b hb).1)).1 e1.symm i (Finset.mem_univ i)
  rcases mul_eq_zero.1 this with h | h
  · exact absurd h hi.ne'
  · exact h

/-- the lineality space -/
theorem DD.lin (h : DD A E k L r) {x : V} (hx : ∀ b, b < k → A b x = 0) : x ∈ Submodule.span K L := by
  obtain ⟨l, hl, w, hw, e, hd⟩ := h.decomp (x := x) (fun b hb => ⟨(hx b hb).ge, fun _ => hx b hb⟩)
  have : ∀ i, w i = 0 := by
    intro i
    by_contra hi
    obtain ⟨b, hb, hne⟩ := h.proper i
    exact hne (hd i (lt_of_le_of_ne (hw i) (Ne.symm hi)) b hb (hx b hb))
  rw [e]
  simpa [this] using hl

/-- the number of constraints saturated by both rays -/
noncomputable def common (A : ℕ → V →ₗ[K] K) (k : ℕ) (x y : V) : ℕ :=
  open Classical in ((Finset.range k).filter fun b => A b x = 0 ∧ A b y = 0).card

/-- two rays are adjacent in the sense of the algorithm: no other ray saturates all the constraints
saturated by both, and these are numerous enough -/
def Adj (A : ℕ → V →ₗ[K] K) (k : ℕ) (r : ι → V) (d nl : ℕ) (i j : ι) : Prop :=
  (∀ l, l ≠ i → l ≠ j → ∃ b, b < k ∧ A b (r i) = 0 ∧ A b (r j) = 0 ∧ A b (r l) ≠ 0) ∧
  d ≤ common A k (r i) (r j) + nl + 2

/-- the counting test never rejects a pair accepted by the other test -/
theorem count_ok [FiniteDimensional K V] (h : DD A E k L r) {nl : ℕ} (hnl : ∃ s : Finset V, L = s ∧ s.card ≤ nl) {i j : ι}
    (hij : ∀ l, l ≠ i → l ≠ j → ∃ b, b < k ∧ A b (r i) = 0 ∧ A b (r j) = 0 ∧ A b (r l) ≠ 0) :
    Module.finrank K V ≤ common A k (r i) (r j) + nl + 2 := by
  classical
  obtain ⟨s, rfl, hs⟩ := hnl
  let Z := (Finset.range k).filter fun b => A b (r i) = 0 ∧ A b (r j) = 0
  let f : V →ₗ[K] (Z → K) := LinearMap.pi fun b => A b.1
  have h1 := LinearMap.finrank_range_add_finrank_ker f
  have h2 : Module.finrank K (LinearMap.range f) ≤ Z.card := by
    refine (Submodule.finrank_le _).trans ?_
    rw [Module.finrank_fintype_fun_eq_card, Fintype.card_coe]
  have h3 : LinearMap.ker f ≤ Submodule.span K ((insert (r i) (insert (r j) s) : Finset V) : Set V) := by
    intro v hv
    have hv0 : ∀ b, b < k → A b (r i) = 0 → A b (r j) = 0 → A b v = 0 := by
      intro b hb e1 e2
      have := congrFun (LinearMap.mem_ker.1 hv) ⟨b, by simp [Z, hb, e1, e2]⟩
      simpa [f] using this
    -- a small multiple of `v` added to a point in the relative interior of the face
    let p := r i + r j
    have hp : InC A E k p := (h.ray i).add (h.ray j)
    have hp0 : ∀ b, b < k → A b p = 0 → A b (r i) = 0 ∧ A b (r j) = 0 := by
      intro b hb e
      have e1 := (h.ray i b hb).1
      have e2 := (h.ray j b hb).1
      have e3 : A b (r i) + A b (r j) = 0 := by rw [← map_add]; exact e
      constructor <;> linarith
    obtain ⟨ε, hε, hc⟩ : ∃ ε : K, 0 < ε ∧ ∀ b, b < k → A b p ≠ 0 → 0 ≤ A b p + ε * A b v := by
      let S := (Finset.range k).filter fun b => A b p ≠ 0
      by_cases hS : S.Nonempty
      · obtain ⟨b0, hb0, hmin⟩ := S.exists_min_image (fun b => A b p / (|A b v| + 1)) hS
        simp only [S, Finset.mem_filter, Finset.mem_range] at hb0 hmin
        have pb : ∀ b, b < k → A b p ≠ 0 → 0 < A b p := fun b hb h => lt_of_le_of_ne (hp b hb).1 (Ne.symm h)
        have q : ∀ b, 0 < |A b v| + 1 := fun b => by have := abs_nonneg (A b v); linarith
        refine ⟨A b0 p / (|A b0 v| + 1), div_pos (pb b0 hb0.1 hb0.2) (q b0), fun b hb hne => ?_⟩
        have := hmin b ⟨hb, hne⟩
        rw [le_div_iff₀ (q b)] at this
        have hpos := div_pos (pb b0 hb0.1 hb0.2) (q b0)
        have h5 : - |A b v| ≤ A b v := neg_abs_le _
        have h6 : A b0 p / (|A b0 v| + 1) * (-|A b v|) ≤ A b0 p / (|A b0 v| + 1) * A b v :=
          mul_le_mul_of_nonneg_left h5 hpos.le
        nlinarith
      · refine ⟨1, one_pos, fun b hb hne => ?_⟩
        exact absurd ⟨b, by simp [S, hb, hne]⟩ hS
    have hin : InC A E k (p + ε • v) := by
      intro b hb
      rw [map_add, map_smul, smul_eq_mul]
      by_cases hb0 : A b p = 0
      · obtain ⟨e1, e2⟩ := hp0 b hb hb0
        rw [hb0, hv0 b hb e1 e2]; simp
      · exact ⟨hc b hb hb0, fun he => absurd ((hp b hb).2 he) hb0⟩
    obtain ⟨l, hl, w, hw, e, hd⟩ := h.decomp hin
    have hw0 : ∀ m, m ≠ i → m ≠ j → w m = 0 := by
      intro m h1 h2
      by_contra hne
      obtain ⟨b, hb, e1, e2, e3⟩ := hij m h1 h2
      refine e3 (hd m (lt_of_le_of_ne (hw m) (Ne.symm hne)) b hb ?_)
      rw [map_add, map_smul, hv0 b hb e1 e2]
      simp [p, e1, e2]
    have hmem : ∀ y ∈ ({r i, r j} ∪ (s : Set V)), y ∈ Submodule.span K ((insert (r i) (insert (r j) s) : Finset V) : Set V) := by
      intro y hy
      apply Submodule.subset_span
      simp only [Set.mem_union, Set.mem_insert_iff, Set.mem_singleton_iff] at hy
      simp only [Finset.coe_insert, Set.mem_insert_iff]
      tauto
    have hi := hmem (r i) (by simp)
    have hj := hmem (r j) (by simp)
    have hl' : l ∈ Submodule.span K ((insert (r i) (insert (r j) s) : Finset V) : Set V) :=
      Submodule.span_mono (fun y hy => by simp only [Finset.coe_insert, Set.mem_insert_iff]; exact .inr (.inr hy)) hl
    have hsum : ∑ m, w m • r m ∈ Submodule.span K ((insert (r i) (insert (r j) s) : Finset V) : Set V) := by
      refine Submodule.sum_mem _ fun m _ => ?_
      by_cases h1 : m = i
      · subst h1; exact Submodule.smul_mem _ _ hi
      · by_cases h2 : m = j
        · subst h2; exact Submodule.smul_mem _ _ hj
        · rw [hw0 m h1 h2, zero_smul]; exact Submodule.zero_mem _
    have hv' : ε • v = l + ∑ m, w m • r m - (r i + r j) := by rw [← e]; simp [p]
    have hmem' : ε • v ∈ Submodule.span K ((insert (r i) (insert (r j) s) : Finset V) : Set V) := by
      rw [hv']
      exact Submodule.sub_mem _ (Submodule.add_mem _ hl' hsum) (Submodule.add_mem _ hi hj)
    have := Submodule.smul_mem _ ε⁻¹ hmem'
    rwa [smul_smul, inv_mul_cancel₀ hε.ne', one_smul] at this
  have h4 := (Submodule.finrank_mono h3).trans (finrank_span_finset_le_card _)
  have h5 := Finset.card_insert_le (r i) (insert (r j) s)
  have h6 := Finset.card_insert_le (r j) s
  have h7 : common A k (r i) (r j) = Z.card := rfl
  omega

/-- the point of the segment between two rays that saturates the new constraint -/
def comb (c : V →ₗ[K] K) (x y : V) : V := c x • y - c y • x

/-- a set closed under the operations of a cone -/
structure IsCone (G : V → Prop) : Prop where
  zero : G 0
  add : ∀ {x y}, G x → G y → G (x + y)
  smul : ∀ {x} {t : K}, 0 ≤ t → G x → G (t • x)

variable {c : V →ₗ[K] K}

theorem comb_map (c f : V →ₗ[K] K) (x y : V) : f (comb c x y) = c x * f y - c y * f x := by
  simp [comb]

/-- a combination lies on the new hyperplane, in the cone, and saturates what both rays saturate (and nothing
else) -/
theorem comb_facts (h : DD A E k L r) {i j : ι} (hi : 0 < c (r i)) (hj : c (r j) < 0) :
    c (comb c (r i) (r j)) = 0 ∧ InC A E k (comb c (r i) (r j)) ∧
    (∀ b, b < k → (A b (comb c (r i) (r j)) = 0 ↔ A b (r i) = 0 ∧ A b (r j) = 0)) ∧
    ∃ b, b < k ∧ A b (comb c (r i) (r j)) ≠ 0 := by
  have key : ∀ b, b < k → (A b (comb c (r i) (r j)) = 0 ↔ A b (r i) = 0 ∧ A b (r j) = 0) := by
    intro b hb
    rw [comb_map]
    have h1 := (h.ray i b hb).1
    have h2 := (h.ray j b hb).1
    constructor
    · intro e
      have p1 := mul_nonneg hi.le h2
      have p2 := mul_nonneg (neg_nonneg.2 hj.le) h1
      have q1 : c (r i) * A b (r j) = 0 := by nlinarith
      have q2 : -c (r j) * A b (r i) = 0 := by nlinarith
      rcases mul_eq_zero.1 q1 with q | q
      · exact absurd q hi.ne'
      · rcases mul_eq_zero.1 q2 with q' | q'
        · exact absurd q' (by linarith)
        · exact ⟨q', q⟩
    · rintro ⟨e1, e2⟩; rw [e1, e2]; ring
  refine ⟨by rw [comb_map]; ring, ?_, key, ?_⟩
  · have e : comb c (r i) (r j) = c (r i) • r j + (-c (r j)) • r i := by simp only [comb]; module
    rw [e]
    exact ((h.ray j).smul hi.le).add ((h.ray i).smul (by linarith))
  · obtain ⟨b, hb, hne⟩ := h.proper i
    exact ⟨b, hb, fun e => hne ((key b hb).1 e).1⟩

/-- the number of constraints (below `k`) not saturated by `x` -/
noncomputable def unsat (A : ℕ → V →ₗ[K] K) (k : ℕ) (x : V) : ℕ :=
  open Classical in ((Finset.range k).filter fun b => A b x ≠ 0).card

theorem unsat_lt {x y : V} (h1 : ∀ b, b < k → A b x = 0 → A b y = 0) (h2 : ∃ b, b < k ∧ A b x ≠ 0 ∧ A b y = 0) :
    unsat A k y < unsat A k x := by
  classical
  obtain ⟨b, hb, hx, hy⟩ := h2
  refine Finset.card_lt_card ⟨fun b' hb' => ?_, fun hs => ?_⟩
  · simp only [Finset.mem_filter, Finset.mem_range] at hb' ⊢
    exact ⟨hb'.1, fun e => hb'.2 (h1 b' hb'.1 e)⟩
  · have := hs (show b ∈ _ by simp only [Finset.mem_filter, Finset.mem_range]; exact ⟨hb, hx⟩)
    simp only [Finset.mem_filter, Finset.mem_range] at this
    exact this.2 hy

/-- two combinations with three different rays are independent modulo the lines -/
theorem indep_aux (h : DD A E k L r) {i j l : ι} (hil : i ≠ l) {α β γ : K} (hα : 0 < α) (hγ : 0 < γ)
    (e : ∀ b, b < k → α * A b (r i) + β * A b (r j) - γ * A b (r l) = 0) : False := by
  by_cases hβ : 0 ≤ β
  · -- what `l` saturates, `i` saturates
    obtain ⟨b, hb, e1, e2⟩ := h.anti l i (Ne.symm hil)
    have := e b hb
    have p1 := (h.ray i b hb).1
    have p2 := mul_nonneg hβ ((h.ray j b hb).1)
    rw [e1, mul_zero, sub_zero] at this
    have p3 := mul_pos hα (lt_of_le_of_ne p1 (Ne.symm e2))
    linarith
  · obtain ⟨b, hb, e1, e2⟩ := h.anti i l hil
    have := e b hb
    have p1 := (h.ray l b hb).1
    have p2 := mul_nonneg (neg_nonneg.2 (le_of_lt (not_le.1 hβ))) ((h.ray j b hb).1)
    rw [e1, mul_zero] at this
    have p3 := mul_pos hγ (lt_of_le_of_ne p1 (Ne.symm e2))
    nlinarith

/-- in the face of every point of the new hyperplane, outside the lineality space, there is a kept ray or
a combination of an adjacent pair -/
theorem exists_gen [FiniteDimensional K V] (h : DD A E k L r) {nl : ℕ} (hnl : ∃ s : Finset V, L = s ∧ s.card ≤ nl)
    (hcL : ∀ l ∈ L, c l = 0) : ∀ (m : ℕ) {x : V}, unsat A k x = m → InC A E k x → c x = 0 →
      (∃ b, b < k ∧ A b x ≠ 0) →
      ∃ y, (∃ b, b < k ∧ A b y ≠ 0) ∧ (∀ b, b < k → A b x = 0 → A b y = 0) ∧ c y = 0 ∧ InC A E k y ∧
        ((∃ i, y = r i) ∨ ∃ i j, 0 < c (r i) ∧ c (r j) < 0 ∧ Adj A k r (Module.finrank K V) nl i j ∧ y = comb c (r i) (r j)) := by
  classical
  intro m
  induction m using Nat.strong_induction_on with
  | _ m ih =>
    intro x hm hx hc hne
    have hcs : ∀ l ∈ Submodule.span K L, c l = 0 := by
      intro l hl
      refine Submodule.span_induction (p := fun x _ => c x = 0) hcL (map_zero _) ?_ ?_ hl
      · intro x y _ _ h1 h2; rw [map_add, h1, h2, add_zero]
      · intro a x _ h; rw [map_smul, h, smul_zero]
    by_cases h0 : ∃ i, c (r i) = 0 ∧ ∀ b, b < k → A b x = 0 → A b (r i) = 0
    · obtain ⟨i, hi, hz⟩ := h0
      exact ⟨r i, h.proper i, hz, hi, h.ray i, .inl ⟨i, rfl⟩⟩
    · push Not at h0
      obtain ⟨l, hl, w, hw, e, hd⟩ := h.decomp hx
      have hsum : ∑ i, w i * c (r i) = 0 := by
        have : c x = ∑ i, w i * c (r i) := by
          rw [e, map_add, hcs l hl, zero_add, map_sum]; simp only [map_smul, smul_eq_mul]
        rw [← this, hc]
      have hex : ∃ i, 0 < w i := by
        by_contra hno
        push Not at hno
        obtain ⟨b, hb, hbne⟩ := hne
        apply hbne
        have : ∀ i, w i = 0 := fun i => le_antisymm (hno i) (hw i)
        rw [e]; simp only [this, zero_smul, Finset.sum_const_zero, add_zero]
        exact h.line_span hl hb
      have hcne : ∀ i, 0 < w i → c (r i) ≠ 0 := by
        intro i hi e0
        obtain ⟨b, hb, e1, e2⟩ := h0 i e0
        exact e2 (hd i hi b hb e1)
      obtain ⟨i0, hi0⟩ := hex
      have hpos : ∃ i, 0 < w i ∧ 0 < c (r i) := by
        by_contra hno
        push Not at hno
        have hnp : ∀ i ∈ Finset.univ, w i * c (r i) ≤ 0 := by
          intro i _
          rcases (hw i).eq_or_lt with h1 | h1
          · rw [← h1, zero_mul]
          · exact mul_nonpos_of_nonneg_of_nonpos h1.le (hno i h1)
        have := (Finset.sum_eq_zero_iff_of_nonpos hnp).1 hsum i0 (Finset.mem_univ _)
        rcases mul_eq_zero.1 this with h1 | h1
        · exact hi0.ne' h1
        · exact hcne i0 hi0 h1
      have hneg : ∃ i, 0 < w i ∧ c (r i) < 0 := by
        by_contra hno
        push Not at hno
        have hnp : ∀ i ∈ Finset.univ, 0 ≤ w i * c (r i) := by
          intro i _
          rcases (hw i).eq_or_lt with h1 | h1
          · rw [← h1, zero_mul]
          · exact mul_nonneg h1.le (hno i h1)
        have := (Finset.sum_eq_zero_iff_of_nonneg hnp).1 hsum i0 (Finset.mem_univ _)
        rcases mul_eq_zero.1 this with h1 | h1
        · exact hi0.ne' h1
        · exact hcne i0 hi0 h1
      obtain ⟨i, hwi, hi⟩ := hpos
      obtain ⟨j, hwj, hj⟩ := hneg
      have hzi := hd i hwi
      have hzj := hd j hwj
      obtain ⟨f1, f2, f3, f4⟩ := comb_facts h hi hj
      by_cases hadj : ∀ l, l ≠ i → l ≠ j → ∃ b, b < k ∧ A b (r i) = 0 ∧ A b (r j) = 0 ∧ A b (r l) ≠ 0
      · exact ⟨_, f4, fun b hb h0 => (f3 b hb).2 ⟨hzi b hb h0, hzj b hb h0⟩, f1, f2,
          .inr ⟨i, j, hi, hj, ⟨hadj, count_ok h hnl hadj⟩, rfl⟩⟩
      · push Not at hadj
        obtain ⟨l, hli, hlj, hzl⟩ := hadj
        have hlc : c (r l) ≠ 0 := by
          intro e0
          obtain ⟨b, hb, e1, e2⟩ := h0 l e0
          exact e2 (hzl b hb (hzi b hb e1) (hzj b hb e1))
        -- a second combination in the same face
        obtain ⟨q2, g1, g2, g3, g4, g5⟩ : ∃ q2, c q2 = 0 ∧ InC A E k q2 ∧
            (∀ b, b < k → A b (r i) = 0 → A b (r j) = 0 → A b q2 = 0) ∧ (∃ b, b < k ∧ A b q2 ≠ 0) ∧
            ∀ t : K, 0 < t → ∃ b, b < k ∧ A b (comb c (r i) (r j) - t • q2) ≠ 0 := by
          rcases lt_or_gt_of_ne hlc with hl | hl
          · obtain ⟨g1, g2, g3, g4⟩ := comb_facts h hi hl
            refine ⟨_, g1, g2, fun b hb e1 e2 => (g3 b hb).2 ⟨e1, hzl b hb e1 e2⟩, g4, fun t ht => ?_⟩
            by_contra hno
            push Not at hno
            refine indep_aux h (i := j) (j := i) (l := l) (Ne.symm hlj) (α := c (r i)) (β := t * c (r l) - c (r j))
              (γ := t * c (r i)) hi (mul_pos ht hi) fun b hb => ?_
            have := hno b hb
            rw [map_sub, map_smul, comb_map, comb_map, smul_eq_mul] at this
            linarith
          · obtain ⟨g1, g2, g3, g4⟩ := comb_facts h hl hj
            refine ⟨_, g1, g2, fun b hb e1 e2 => (g3 b hb).2 ⟨hzl b hb e1 e2, e2⟩, g4, fun t ht => ?_⟩
            by_contra hno
            push Not at hno
            refine indep_aux h (i := i) (j := j) (l := l) (Ne.symm hli) (α := -c (r j)) (β := c (r i) - t * c (r l))
              (γ := t * -c (r j)) (by linarith) (mul_pos ht (by linarith)) fun b hb => ?_
            have := hno b hb
            rw [map_sub, map_smul, comb_map, comb_map, smul_eq_mul] at this
            linarith
        obtain ⟨t, ht, m1, m2, m3⟩ := exists_max f2 g2 (fun b hb e => by
          obtain ⟨e1, e2⟩ := (f3 b hb).1 e
          exact g3 b hb e1 e2) g4
        have hlt : unsat A k (comb c (r i) (r j) - t • q2) < m := by
          have h1 := unsat_lt m2 m3
          have h2 : unsat A k (comb c (r i) (r j)) ≤ unsat A k x := by
            refine Finset.card_le_card fun b hb => ?_
            simp only [Finset.mem_filter, Finset.mem_range] at hb ⊢
            exact ⟨hb.1, fun e => hb.2 ((f3 b hb.1).2 ⟨hzi b hb.1 e, hzj b hb.1 e⟩)⟩
          omega
        obtain ⟨y, y1, y2, y3⟩ := ih _ hlt rfl m1 (by rw [map_sub, map_smul, f1, g1]; simp) (g5 t ht)
        exact ⟨y, y1, fun b hb e => y2 b hb (m2 b hb ((f3 b hb).2 ⟨hzi b hb e, hzj b hb e⟩)), y3⟩

/-- the part of the cone on the new hyperplane is generated by the lines, the rays on the hyperplane, and the
combinations of adjacent pairs -/
theorem gen_zero [FiniteDimensional K V] (h : DD A E k L r) {nl : ℕ} (hnl : ∃ s : Finset V, L = s ∧ s.card ≤ nl)
    (hcL : ∀ l ∈ L, c l = 0) {G : V → Prop} (hG : IsCone (K := K) G) (hGL : ∀ l ∈ Submodule.span K L, G l)
    (hG0 : ∀ i, c (r i) = 0 → G (r i))
    (hG1 : ∀ i j, 0 < c (r i) → c (r j) < 0 → Adj A k r (Module.finrank K V) nl i j → G (comb c (r i) (r j))) :
    ∀ (m : ℕ) {x : V}, unsat A k x = m → InC A E k x → c x = 0 → G x := by
  intro m
  induction m using Nat.strong_induction_on with
  | _ m ih =>
    intro x hm hx hc
    by_cases hne : ∃ b, b < k ∧ A b x ≠ 0
    · obtain ⟨y, y1, y2, y3, y4, y5⟩ := exists_gen h hnl hcL _ rfl hx hc hne
      have hGy : G y := by
        rcases y5 with ⟨i, rfl⟩ | ⟨i, j, hi, hj, ha, rfl⟩
        · exact hG0 i y3
        · exact hG1 i j hi hj ha
      obtain ⟨t, ht, m1, m2, m3⟩ := exists_max hx y4 y2 y1
      have := ih _ (hm ▸ unsat_lt m2 m3) rfl m1 (by rw [map_sub, map_smul, hc, y3]; simp)
      have e : x = (x - t • y) + t • y := by abel
      rw [e]
      exact hG.add this (hG.smul ht.le hGy)
    · push Not at hne
      exact hGL x (h.lin hne)

/-- the part of the cone on the positive side: the rays of the positive side are needed too -/
theorem gen_pos [FiniteDimensional K V] (h : DD A E k L r) {nl : ℕ} (hnl : ∃ s : Finset V, L = s ∧ s.card ≤ nl)
    (hcL : ∀ l ∈ L, c l = 0) {G : V → Prop} (hG : IsCone (K := K) G) (hGL : ∀ l ∈ Submodule.span K L, G l)
    (hG0 : ∀ i, 0 ≤ c (r i) → G (r i))
    (hG1 : ∀ i j, 0 < c (r i) → c (r j) < 0 → Adj A k r (Module.finrank K V) nl i j → G (comb c (r i) (r j))) :
    ∀ (m : ℕ) {x : V}, unsat A k x = m → InC A E k x → 0 ≤ c x → G x := by
  classical
  intro m
  induction m using Nat.strong_induction_on with
  | _ m ih =>
    intro x hm hx hc
    rcases hc.eq_or_lt with hc0 | hcp
    · exact gen_zero h hnl hcL hG hGL (fun i hi => hG0 i hi.ge) hG1 _ rfl hx hc0.symm
    · obtain ⟨l, hl, w, hw, e, hd⟩ := h.decomp hx
      have hcs : c l = 0 := by
        refine Submodule.span_induction (p := fun x _ => c x = 0) hcL (map_zero _) ?_ ?_ hl
        · intro x y _ _ h1 h2; rw [map_add, h1, h2, add_zero]
        · intro a x _ h; rw [map_smul, h, smul_zero]
      have hsum : c x = ∑ i, w i * c (r i) := by
        rw [e, map_add, hcs, zero_add, map_sum]; simp only [map_smul, smul_eq_mul]
      have hpos : ∃ i, 0 < w i ∧ 0 < c (r i) := by
        by_contra hno
        push Not at hno
        have : c x ≤ 0 := by
          rw [hsum]
          refine Finset.sum_nonpos fun i _ => ?_
          rcases (hw i).eq_or_lt with h1 | h1
          · rw [← h1, zero_mul]
          · exact mul_nonpos_of_nonneg_of_nonpos h1.le (hno i h1)
        linarith
      obtain ⟨i, hwi, hi⟩ := hpos
      obtain ⟨t, ht, m1, m2, m3⟩ := exists_max hx (h.ray i) (hd i hwi) (h.proper i)
      have hGi : G (r i) := hG0 i hi.le
      by_cases hcase : 0 ≤ c (x - t • r i)
      · have := ih _ (hm ▸ unsat_lt m2 m3) rfl m1 hcase
        have e : x = (x - t • r i) + t • r i := by abel
        rw [e]
        exact hG.add this (hG.smul ht.le hGi)
      · -- stop on the hyperplane
        rw [map_sub, map_smul, smul_eq_mul, not_le] at hcase
        have hs : 0 < c x / c (r i) := div_pos hcp hi
        have hst : c x / c (r i) ≤ t := by rw [div_le_iff₀ hi]; linarith
        have hin : InC A E k (x - (c x / c (r i)) • r i) := by
          intro b hb
          have h1 := m1 b hb
          have h2 := h.ray i b hb
          rw [map_sub, map_smul, smul_eq_mul] at h1 ⊢
          have := mul_le_mul_of_nonneg_right hst h2.1
          refine ⟨by linarith [h1.1], fun he => ?_⟩
          have e1 := h1.2 he
          rw [h2.2 he, mul_zero, sub_zero] at e1 ⊢
          exact e1
        have := gen_zero h hnl hcL hG hGL (fun i hi => hG0 i hi.ge) hG1 _ rfl hin
          (by rw [map_sub, map_smul, smul_eq_mul, div_mul_cancel₀ _ hi.ne', sub_self])
        have e : x = (x - (c x / c (r i)) • r i) + (c x / c (r i)) • r i := by abel
        rw [e]
        exact hG.add this (hG.smul hs.le hGi)

end step

end Apron.Poly
