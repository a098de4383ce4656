import Verif.Texpr.LinearizeLemmas
import Verif.Itv.QuasiSound

/-!
# The linear forms computed by the linearisation: order of the terms, flags of the constants
-/

set_option autoImplicit false
set_option linter.unusedSectionVars false
set_option linter.ambiguousOpen false

namespace Apron
open Bound
variable {K : Type*} [LinearOrder K] [Field K] [IsStrictOrderedRing K]

namespace Itv

theorem mul_point_exact (a b : K) : mul Rnd.exact (point a) (point b) = point (a * b) := by
  simp only [mul, mulp, muln, mulpp, mulnn, mulpn, point, ILincons.mul_fin_exact, neg_fin, sgn_le_zero_iff, fin_le_fin]
  split_ifs <;> first
    | (simp only [Itv.mk.injEq, fin.injEq]; constructor <;> ring)
    | (simp only [Itv.mk.injEq, fin.injEq, and_true]; ring)
    | (exfalso; linarith)

theorem div_fin_exact (a b : K) (hb : b ≠ 0) : Bound.div Rnd.exact (fin a) (fin b) = fin (a / b) := by
  by_cases ha : a = 0
  · simp [Bound.div, ha]
  · rw [Bound.div]; simp [ha, hb, sgn_zero_iff, Rnd.exact, infty]

theorem div_point_exact (a b : K) (hb : b ≠ 0) : div Rnd.exact (point a) (point b) = point (a / b) := by
  have hb' : -b ≠ 0 := neg_ne_zero.2 hb
  simp only [div, divp, divn, divpp, divnn, divpn, divnp, point, div_fin_exact _ _ hb, div_fin_exact _ _ hb', neg_fin,
    sgn_le_zero_iff, fin_le_fin, sgn_neg_iff, fin_lt_fin, _root_.neg_neg]
  split_ifs <;> first
    | simp [neg_div, div_neg]
    | (exfalso; rcases lt_or_gt_of_ne hb with h | h <;> linarith)

/-- an interval with a single member is a point -/
theorem eq_point_of_unique {c : Itv K} {w : K} (hw : w ∈ c) (h : ∀ y ∈ c, y = w) : c = point w := by
  obtain ⟨a, b⟩ := c
  have h1 := hw.1; have h2 := hw.2
  have up : ∀ y, w ≤ y → fin y ≤ b → y = w := fun y hy hb =>
    h y ⟨le_trans ((fin_le_fin _ _).2 (by linarith)) h1, hb⟩
  have dn : ∀ y, y ≤ w → fin (-y) ≤ a → y = w := fun y hy ha =>
    h y ⟨ha, le_trans ((fin_le_fin _ _).2 hy) h2⟩
  have hb : b = fin w := by
    cases b with
    | ninf => simp at h2
    | pinf => have := up (w + 1) (by linarith) (by simp); linarith
    | fin q => rw [up q ((fin_le_fin _ _).1 h2) le_rfl]
  have ha : a = fin (-w) := by
    cases a with
    | ninf => simp at h1
    | pinf => have := dn (w - 1) (by linarith) (by simp); linarith
    | fin q =>
      have := dn (-q) (by have := (fin_le_fin _ _).1 h1; linarith) (by rw [_root_.neg_neg])
      rw [← this, _root_.neg_neg]
  rw [ha, hb]; rfl

theorem point_of_mul (R : Rnd K) {a w : K} {c : Itv K} (ha : a ≠ 0) (hw : w ∈ c) (h : (mul R (point a) c).isPoint = true) :
    c = point w := by
  refine eq_point_of_unique hw fun y hy => ?_
  have h1 := mem_mul R ((mem_point a a).2 rfl) hw
  have h2 := mem_mul R ((mem_point a a).2 rfl) hy
  rw [isPoint_eq h h1, mem_point] at h2
  exact mul_left_cancel₀ ha h2

theorem point_of_div (R : Rnd K) {a w : K} {c : Itv K} (ha : a ≠ 0) (hw : w ∈ c) (h0 : w ≠ 0)
    (h : (div R (point a) c).isPoint = true) : c = point w := by
  have key : ∀ y ∈ c, y ≠ 0 → y = w := by
    intro y hy hy0
    have h1 := mem_div R ((mem_point a a).2 rfl) hw h0
    have h2 := mem_div R ((mem_point a a).2 rfl) hy hy0
    rw [isPoint_eq h h1, mem_point, div_eq_div_iff hy0 h0] at h2
    exact (mul_left_cancel₀ ha h2).symm
  refine eq_point_of_unique hw fun y hy => ?_
  by_cases hy0 : y = 0
  · subst hy0
    exfalso
    have hm : w / 2 ∈ c := by
      rcases le_total 0 w with h | h
      · exact mem_convex hy hw (by linarith) (by linarith)
      · exact mem_convex hw hy (by linarith) (by linarith)
    have := key _ hm (by simpa using h0)
    exact h0 (by linarith)
  · exact key y hy hy0

end Itv

namespace ILinexpr

/-! ### order of the terms -/

/-- dimensions strictly increasing -/
def Ordered (l : List (ITerm K)) : Prop := (l.map ITerm.dim).Pairwise (· < ·)

theorem merge_lower (R : Rnd K) {m : ℕ} (n : ℕ) {a b : List (ITerm K)} (ha : ∀ t ∈ a, m < t.dim) (hb : ∀ t ∈ b, m < t.dim) :
    ∀ t ∈ merge R n a b, m < t.dim := by
  intro t ht
  rcases merge_mem R n ht with h | h | ⟨u, hu, w, _, rfl⟩
  · exact ha t h
  · exact hb t h
  · exact ha u hu

theorem ordered_cons {t : ITerm K} {l : List (ITerm K)} : Ordered (t :: l) ↔ (∀ s ∈ l, t.dim < s.dim) ∧ Ordered l := by
  simp [Ordered]

theorem ordered_merge (R : Rnd K) (n : ℕ) : ∀ {a b : List (ITerm K)}, Ordered a → Ordered b → Ordered (merge R n a b) := by
  induction n with
  | zero => intro a b _ _; simp [merge, Ordered]
  | succ n ih =>
    intro a b ha hb
    cases a with
    | nil =>
      cases b with
      | nil => simp [merge, Ordered]
      | cons w l =>
        rw [merge, ordered_cons]
        rw [ordered_cons] at hb
        exact ⟨merge_lower R n (by simp) hb.1, ih ha hb.2⟩
    | cons u k =>
      have ha' := ordered_cons.1 ha
      cases b with
      | nil =>
        rw [merge, ordered_cons]
        exact ⟨merge_lower R n ha'.1 (by simp), ih ha'.2 hb⟩
      | cons w l =>
        have hb' := ordered_cons.1 hb
        rw [merge]
        split_ifs with h1 h2 h3
        · rw [ordered_cons]
          refine ⟨merge_lower R n ?_ hb'.1, ih ha hb'.2⟩
          intro t ht
          rcases List.mem_cons.1 ht with rfl | ht
          · exact h1
          · exact h1.trans (ha'.1 t ht)
        · rw [ordered_cons]
          refine ⟨merge_lower R n ha'.1 ?_, ih ha'.2 hb⟩
          intro t ht
          rcases List.mem_cons.1 ht with rfl | ht
          · exact h2
          · exact h2.trans (hb'.1 t ht)
        · exact ih ha'.2 hb'.2
        · rw [ordered_cons]
          have he : u.dim = w.dim := by omega
          refine ⟨merge_lower R n ha'.1 ?_, ih ha'.2 hb'.2⟩
          intro t ht
          show u.dim < t.dim
          rw [he]; exact hb'.1 t ht

theorem ordered_map {l : List (ITerm K)} (h : Ordered l) {f : ITerm K → ITerm K} (hf : ∀ t, (f t).dim = t.dim) :
    Ordered (l.map f) := by
  have : (l.map f).map ITerm.dim = l.map ITerm.dim := by
    rw [List.map_map]; exact List.map_congr_left fun t _ => hf t
  unfold Ordered
  rw [this]; exact h

theorem ordered_neg {e : ILinexpr K} (h : Ordered e.terms) : Ordered e.neg.terms := ordered_map h fun _ => rfl

theorem ordered_scale (R : Rnd K) {e : ILinexpr K} (h : Ordered e.terms) (c : Itv K) : Ordered (e.scale R c).terms := by
  simp only [scale]
  split_ifs
  · simp [Ordered]
  · simp [Ordered]
  · exact ordered_map h fun _ => rfl

theorem ordered_div (R : Rnd K) {e : ILinexpr K} (h : Ordered e.terms) (c : Itv K) : Ordered (e.div R c).terms :=
  ordered_map h fun _ => rfl

theorem ordered_add (R : Rnd K) {a b : ILinexpr K} (ha : Ordered a.terms) (hb : Ordered b.terms) :
    Ordered (a.add R b).terms := by
  simp only [add]
  split_ifs
  · simp [Ordered]
  · exact ordered_merge R _ ha hb

end ILinexpr

namespace Texpr
open ILinexpr
variable [FloorRing K]

theorem ordered_of_dims {l l' : ILinexpr K} (h : Ordered l.terms) (he : l'.terms.map ITerm.dim = l.terms.map ITerm.dim) :
    Ordered l'.terms := by unfold Ordered; rw [he]; exact h

theorem ordered_finish (R : Rnd K) (F : FltOps K) (env : ℕ → Itv K) {l : ILinexpr K} (i : Itv K) (org dst : RType)
    (d : RDir) (h : Ordered l.terms) : Ordered (finishLin R F env l i org dst d).1.terms := by
  have h1 := ordered_of_dims h (dims_roundLin R F i org dst d)
  simp only [finishLin]
  rcases terms_reduceLin R env (roundLin R F l i org dst d).1 (roundLin R F l i org dst d).2 with ht | ht
  · rw [ht]; simp [Ordered]
  · rw [ht]; exact h1

theorem ordered_intlin (R : Rnd K) (o : RootOps K) (F : FltOps K) (env : ℕ → Itv K) (intdim : ℕ) (e : Texpr K)
    (e0 : Bool) : Ordered (intlin R o F env intdim e0 e).1.terms := by
  induction e generalizing e0 with
  | cst c => simp [intlin, ILinexpr.const, Ordered]
  | dim d => simp [intlin, Ordered]
  | un op t d a ih =>
    simp only [intlin]
    cases op with
    | neg => exact ordered_neg (ih e0)
    | cast => exact ordered_finish R F env _ _ _ _ (ih e0)
    | sqrt => simp [unLin, ILinexpr.const, Ordered]
  | bin op t d a b iha ihb =>
    have key : ∀ p q : ILinexpr K × Itv K × RType, Ordered p.1.terms → Ordered q.1.terms →
        Ordered (binLin R F env op t d p q).1.terms := by
      intro p q hp hq
      simp only [binLin]
      split_ifs
      · simp [Ordered]
      · cases op with
        | add => exact ordered_finish R F env _ _ _ _ (ordered_add R hp hq)
        | sub => exact ordered_finish R F env _ _ _ _ (ordered_add R hp (ordered_neg hq))
        | mul =>
          refine ordered_finish R F env _ _ _ _ ?_
          split_ifs
          · exact ordered_scale R hp _
          · exact ordered_scale R hq _
        | div => exact ordered_finish R F env _ _ _ _ (ordered_div R hp _)
        | mod => simp [opLin, ILinexpr.const, Ordered]
        | pow => simp [opLin, ILinexpr.const, Ordered]
    cases op <;> exact key _ _ (iha _) (ihb _)

/-! ### flags, with exact arithmetic -/

/-- coefficients flagged as scalars are non-zero points -/
def PtOk (l : ILinexpr K) : Prop := ∀ t ∈ l.terms, t.eq = true → ∃ a, a ≠ 0 ∧ t.itv = Itv.point a

/-- the flag of the constant is right when all coefficients are scalars -/
def CstQ (l : ILinexpr K) : Prop := l.isQuasilinear = true → l.CstOk

theorem isQuasilinear_iff {l : ILinexpr K} : l.isQuasilinear = true ↔ ∀ t ∈ l.terms, t.eq = true := by
  simp [isQuasilinear]

theorem merge_mem' (R : Rnd K) (n : ℕ) : ∀ {a b : List (ITerm K)} {t : ITerm K}, t ∈ merge R n a b →
    t ∈ a ∨ t ∈ b ∨ (t.itv.isZero = false ∧ ∃ u ∈ a, ∃ w ∈ b, t = addTerm R u w) := by
  induction n with
  | zero => intro a b t h; simp [merge] at h
  | succ n ih =>
    intro a b t h
    have key : ∀ {a' b'}, a' ⊆ a → b' ⊆ b → t ∈ merge R n a' b' →
        t ∈ a ∨ t ∈ b ∨ (t.itv.isZero = false ∧ ∃ u' ∈ a, ∃ w' ∈ b, t = addTerm R u' w') := by
      intro a' b' ha hb h
      rcases ih h with h | h | ⟨h0, u', hu, w', hw', e⟩
      · exact Or.inl (ha h)
      · exact Or.inr (Or.inl (hb h))
      · exact Or.inr (Or.inr ⟨h0, u', ha hu, w', hb hw', e⟩)
    cases a with
    | nil =>
      cases b with
      | nil => simp [merge] at h
      | cons w l =>
        rw [merge] at h
        rcases List.mem_cons.1 h with rfl | h
        · simp
        · exact key (by simp) (by simp) h
    | cons u k =>
      cases b with
      | nil =>
        rw [merge] at h
        rcases List.mem_cons.1 h with rfl | h
        · simp
        · exact key (by simp) (by simp) h
      | cons w l =>
        rw [merge] at h
        split_ifs at h with h1 h2 h3
        · rcases List.mem_cons.1 h with rfl | h
          · simp
          · exact key (by simp) (by simp) h
        · rcases List.mem_cons.1 h with rfl | h
          · simp
          · exact key (by simp) (by simp) h
        · exact key (by simp) (by simp) h
        · rcases List.mem_cons.1 h with rfl | h
          · exact Or.inr (Or.inr ⟨by simpa using h3, u, by simp, w, by simp, rfl⟩)
          · exact key (by simp) (by simp) h

theorem ptOk_add (R : Rnd K) {a b : ILinexpr K} (ha : PtOk a) (hb : PtOk b) : PtOk (a.add R b) := by
  simp only [ILinexpr.add]
  split_ifs
  · intro t ht; simp at ht
  · intro t ht he
    rcases merge_mem' R _ ht with h | h | ⟨h0, u, hu, w, hw, rfl⟩
    · exact ha t h he
    · exact hb t h he
    · simp only [addTerm, Bool.and_eq_true] at he h0 ⊢
      obtain ⟨q, hq⟩ := Itv.isPoint_iff.1 he.2
      refine ⟨q, ?_, hq⟩
      rintro rfl
      rw [hq] at h0
      simp [Itv.isZero, Itv.point] at h0

theorem ptOk_neg {a : ILinexpr K} (ha : PtOk a) : PtOk a.neg := by
  intro t ht he
  simp only [ILinexpr.neg, List.mem_map] at ht
  obtain ⟨s, hs, rfl⟩ := ht
  obtain ⟨q, hq, e⟩ := ha s hs he
  exact ⟨-q, neg_ne_zero.2 hq, by show Itv.neg s.itv = _; rw [e]; simp [Itv.neg, Itv.point]⟩

theorem cstQ_neg {a : ILinexpr K} (ha : CstQ a) : CstQ a.neg := by
  intro hq
  refine cstOk_neg (ha ?_)
  rw [isQuasilinear_iff] at hq ⊢
  intro t ht
  exact hq ⟨t.dim, t.eq, Itv.neg t.itv⟩ (by simp only [ILinexpr.neg, List.mem_map]; exact ⟨t, ht, rfl⟩)

/-- before the final reduction, the claim on the constant holds when a term is left -/
def CstQ' (l : ILinexpr K) : Prop := l.terms ≠ [] → CstQ l

theorem scale_flags {a : ILinexpr K} {c : Itv K} {w q0 : K} (ha : PtOk a) (hc : CstQ a) (hw : w ∈ c) (hq0 : q0 ∈ a.cst) :
    PtOk (a.scale Rnd.exact c) ∧ CstQ' (a.scale Rnd.exact c) := by
  simp only [ILinexpr.scale]
  split_ifs with h1 h2
  · exact ⟨by intro t ht; simp at ht, fun h => by simp at h⟩
  · exact ⟨by intro t ht; simp at ht, fun h => by simp at h⟩
  · have hpt : ∀ s ∈ a.terms, s.eq = true → (Itv.mul Rnd.exact s.itv c).isPoint = true →
        c = Itv.point w ∧ ∃ q, q ≠ 0 ∧ s.itv = Itv.point q := by
      intro s hs he hp
      obtain ⟨q, hq, e⟩ := ha s hs he
      rw [e] at hp
      exact ⟨Itv.point_of_mul _ hq hw hp, q, hq, e⟩
    constructor
    · intro t ht he
      simp only [List.mem_map] at ht
      obtain ⟨s, hs, rfl⟩ := ht
      simp only [Bool.and_eq_true] at he
      obtain ⟨hcw, q, hq, e⟩ := hpt s hs he.1 he.2
      refine ⟨q * w, ?_, by show Itv.mul _ s.itv c = _; rw [e, hcw, Itv.mul_point_exact]⟩
      have : w ≠ 0 := by
        rintro rfl
        rw [hcw] at h1
        simp [Itv.isZero, Itv.point] at h1
      exact mul_ne_zero hq this
    · intro hne hQ
      rw [isQuasilinear_iff] at hQ
      have hQ' : ∀ s ∈ a.terms, s.eq = true ∧ (Itv.mul Rnd.exact s.itv c).isPoint = true := by
        intro s hs
        have := hQ _ (List.mem_map_of_mem hs)
        simpa using this
      obtain ⟨s, hs⟩ : ∃ s, s ∈ a.terms := by
        cases h : a.terms with
        | nil => simp [h] at hne
        | cons s l => exact ⟨s, by simp⟩
      obtain ⟨hcw, _⟩ := hpt s hs (hQ' s hs).1 (hQ' s hs).2
      intro he q hq
      have := hc (isQuasilinear_iff.2 fun t ht => (hQ' t ht).1) he q0 hq0
      simp only [this, hcw, Itv.mul_point_exact, Itv.mem_point] at hq ⊢
      rw [hq]

theorem div_flags {a : ILinexpr K} {c : Itv K} {w q0 : K} (ha : PtOk a) (hc : CstQ a) (hw : w ∈ c) (hw0 : w ≠ 0)
    (hq0 : q0 ∈ a.cst) : PtOk (a.div Rnd.exact c) ∧ CstQ' (a.div Rnd.exact c) := by
  simp only [ILinexpr.div]
  have hpt : ∀ s ∈ a.terms, s.eq = true → (Itv.div Rnd.exact s.itv c).isPoint = true →
      c = Itv.point w ∧ ∃ q, q ≠ 0 ∧ s.itv = Itv.point q := by
    intro s hs he hp
    obtain ⟨q, hq, e⟩ := ha s hs he
    rw [e] at hp
    exact ⟨Itv.point_of_div _ hq hw hw0 hp, q, hq, e⟩
  constructor
  · intro t ht he
    simp only [List.mem_map] at ht
    obtain ⟨s, hs, rfl⟩ := ht
    simp only [Bool.and_eq_true] at he
    obtain ⟨hcw, q, hq, e⟩ := hpt s hs he.1 he.2
    exact ⟨q / w, div_ne_zero hq hw0, by
      show Itv.div _ s.itv c = _
      rw [e, hcw, Itv.div_point_exact _ _ hw0]⟩
  · intro hne hQ
    rw [isQuasilinear_iff] at hQ
    have hQ' : ∀ s ∈ a.terms, s.eq = true ∧ (Itv.div Rnd.exact s.itv c).isPoint = true := by
      intro s hs
      have := hQ _ (List.mem_map_of_mem hs)
      simpa using this
    obtain ⟨s, hs⟩ : ∃ s, s ∈ a.terms := by
      cases h : a.terms with
      | nil => simp [h] at hne
      | cons s l => exact ⟨s, by simp⟩
    obtain ⟨hcw, _⟩ := hpt s hs (hQ' s hs).1 (hQ' s hs).2
    intro he q hq
    have := hc (isQuasilinear_iff.2 fun t ht => (hQ' t ht).1) he q0 hq0
    simp only [this, hcw, Itv.div_point_exact _ _ hw0, Itv.mem_point] at hq ⊢
    rw [hq]

theorem cstOk_isPoint {i : Itv K} {l : List (ITerm K)} : (⟨i, i.isPoint, l⟩ : ILinexpr K).CstOk :=
  fun he _ hq => Itv.isPoint_eq he hq

theorem const_flags {i : Itv K} : PtOk (ILinexpr.const i) ∧ CstQ (ILinexpr.const i) :=
  ⟨fun t ht => by simp [ILinexpr.const] at ht, fun _ => cstOk_isPoint⟩

theorem round_flags (R : Rnd K) (F : FltOps K) {l : ILinexpr K} (i : Itv K) (org dst : RType) (d : RDir)
    (h : PtOk l) (hc : CstQ' l) : PtOk (roundLin R F l i org dst d).1 ∧ CstQ' (roundLin R F l i org dst d).1 := by
  have hint : PtOk (toIntLin R l i d) ∧ CstQ' (toIntLin R l i d) := by
    constructor
    · intro t ht; rw [terms_toIntLin] at ht; exact h t ht
    · intro _ _ he; cases d <;> simp [toIntLin] at he
  have hflt : ∀ u m, PtOk (roundFloatLin R l u m) ∧ CstQ' (roundFloatLin R l u m) := by
    intro u m
    constructor
    · intro t ht he
      simp only [roundFloatLin, List.mem_map] at ht
      obtain ⟨s, _, rfl⟩ := ht
      simp at he
    · intro _ _ he; simp [roundFloatLin] at he
  cases dst <;> simp only [roundLin] <;> (try split_ifs) <;> first
    | exact ⟨h, hc⟩
    | exact hint
    | exact hflt _ _

theorem finish_flags (R : Rnd K) (F : FltOps K) (env : ℕ → Itv K) {l : ILinexpr K} (i : Itv K) (org dst : RType) (d : RDir)
    (h : PtOk l) (hc : CstQ' l) :
    PtOk (finishLin R F env l i org dst d).1 ∧ CstQ (finishLin R F env l i org dst d).1 := by
  obtain ⟨h1, h2⟩ := round_flags R F i org dst d h hc
  simp only [finishLin, reduceLin]
  split_ifs with h3 h4
  · refine ⟨fun t ht => by simp at ht, fun _ _ q hq => ?_⟩
    exact absurd hq (Itv.not_mem_bottom q)
  · have h4' : (roundLin R F l i org dst d).1.terms = [] := by simpa using h4
    exact ⟨fun t ht => by simp [h4'] at ht, fun _ => cstOk_isPoint⟩
  · exact ⟨h1, h2 (by simpa using h4)⟩

/-- With exact arithmetic, the flag of the constant is right whenever all coefficients are scalars -/
theorem intlin_flags {o : RootOps K} (ho : o.SqrtOK) {F : FltOps K} {S : FltSem K} (hF : FltOK F S)
    {env : ℕ → Itv K} {n intdim : ℕ} {x : ℕ → K} (hx : ∀ i, i < n → x i ∈ env i)
    (hint : ∀ i, i < intdim → ∃ m : ℤ, x i = m) {e : Texpr K} (hd : e.InDim n)
    (hs : e.LinSafe Rnd.exact o F env intdim) (e0 : Bool) {v : K} (hv : e.Val S x v) :
    PtOk (intlin Rnd.exact o F env intdim e0 e).1 ∧ CstQ (intlin Rnd.exact o F env intdim e0 e).1 := by
  induction e generalizing v e0 with
  | cst c => exact const_flags
  | dim d =>
    refine ⟨fun t ht _ => ?_, fun _ _ q hq => ?_⟩
    · simp only [intlin, List.mem_singleton] at ht
      subst ht
      exact ⟨1, one_ne_zero, rfl⟩
    · simp only [intlin, Itv.mem_point] at hq ⊢
      rw [hq]
  | un op t d a ih =>
    obtain ⟨va, w, ha, hw, hr⟩ := hv
    have hi := ih hd hs e0 ha
    cases op with
    | neg => exact ⟨ptOk_neg hi.1, cstQ_neg hi.2⟩
    | cast => exact finish_flags _ F env _ _ _ _ hi.1 fun _ => hi.2
    | sqrt => exact const_flags
  | bin op t d a b iha ihb =>
    obtain ⟨va, vb, w, ha, hb, hw, hr⟩ := hv
    have hA := fun e0 => iha hd.1 hs.1 e0 ha
    have hB := fun e0 => ihb hd.2 hs.2.1 e0 hb
    have iA := fun e0 => (intlin_inv Rnd.exact ho hF hx hint hd.1 hs.1 e0 ha).both
    have iB := fun e0 => (intlin_inv Rnd.exact ho hF hx hint hd.2 hs.2.1 e0 hb).both
    have key : ∀ e1 e2, PtOk (binLin Rnd.exact F env op t d (intlin Rnd.exact o F env intdim e1 a)
          (intlin Rnd.exact o F env intdim e2 b)).1 ∧
        CstQ (binLin Rnd.exact F env op t d (intlin Rnd.exact o F env intdim e1 a)
          (intlin Rnd.exact o F env intdim e2 b)).1 := by
      intro e1 e2
      have h1 := Itv.not_isBottom (iA e1).mem
      have h2 := Itv.not_isBottom (iB e2).mem
      simp only [binLin, h1, h2, Bool.or_self, Bool.false_eq_true, if_false]
      cases op with
      | add => exact finish_flags _ F env _ _ _ _ (ptOk_add _ (hA e1).1 (hB e2).1) fun _ _ => cstOk_add _ _ _
      | sub =>
        exact finish_flags _ F env _ _ _ _ (ptOk_add _ (hA e1).1 (ptOk_neg (hB e2).1)) fun _ _ => cstOk_add _ _ _
      | mul =>
        simp only [opLin]
        split_ifs
        · obtain ⟨q, _, hq, _⟩ := (iA e1).val
          have := scale_flags (hA e1).1 (hA e1).2 (iB e2).mem hq
          exact finish_flags _ F env _ _ _ _ this.1 this.2
        · obtain ⟨q, _, hq, _⟩ := (iB e2).val
          have := scale_flags (hB e2).1 (hB e2).2 (iA e1).mem hq
          exact finish_flags _ F env _ _ _ _ this.1 this.2
      | div =>
        obtain ⟨q, _, hq, _⟩ := (iA e1).val
        have := div_flags (hA e1).1 (hA e1).2 (iB e2).mem hw.1 hq
        exact finish_flags _ F env _ _ _ _ this.1 this.2
      | mod => exact const_flags
      | pow => exact const_flags
    cases op <;> exact key _ _

/-- The flag of the constant is right for an expression without term, for every rounding. -/
theorem intlin_nil (R : Rnd K) (o : RootOps K) (F : FltOps K) (env : ℕ → Itv K) (intdim : ℕ) (e : Texpr K) (e0 : Bool)
    (h : (intlin R o F env intdim e0 e).1.terms = []) : (intlin R o F env intdim e0 e).1.CstOk := by
  have bot : ∀ b : Bool, (⟨Itv.bottom, b, []⟩ : ILinexpr K).CstOk := fun _ _ q hq => absurd hq (Itv.not_mem_bottom q)
  have fin : ∀ (l : ILinexpr K) (i : Itv K) (org dst : RType) (d : RDir),
      (finishLin R F env l i org dst d).1.terms = [] → (finishLin R F env l i org dst d).1.CstOk := by
    intro l i org dst d ht
    simp only [finishLin, reduceLin] at ht ⊢
    split_ifs at ht ⊢ with h1 h2
    · exact bot _
    · exact cstOk_isPoint
    · exact absurd ht (by simpa using h2)
  induction e generalizing e0 with
  | cst c => exact cstOk_isPoint
  | dim d => simp [intlin] at h
  | un op t d a ih =>
    simp only [intlin] at h ⊢
    cases op with
    | neg =>
      refine cstOk_neg (ih e0 ?_)
      simpa [unLin, ILinexpr.neg] using h
    | cast => exact fin _ _ _ _ _ h
    | sqrt => exact cstOk_isPoint
  | bin op t d a b _ _ =>
    have key : ∀ p q : ILinexpr K × Itv K × RType, (binLin R F env op t d p q).1.terms = [] →
        (binLin R F env op t d p q).1.CstOk := by
      intro p q hq
      simp only [binLin] at hq ⊢
      by_cases hb : (p.2.1.isBottom || q.2.1.isBottom) = true
      · rw [if_pos hb]; exact bot _
      · rw [if_neg hb] at hq ⊢
        cases op with
        | mod => exact cstOk_isPoint
        | pow => exact cstOk_isPoint
        | _ => exact fin _ _ _ _ _ hq
    cases op <;> exact key _ _ h

/-- the constraints of the array are the linear forms of the constraints -/
theorem intlinArray_go (R : Rnd K) {o : RootOps K} (ho : o.SqrtOK) {F : FltOps K} {S : FltSem K} (hF : FltOK F S)
    {env : ℕ → Itv K} {n intdim : ℕ} {x : ℕ → K} (hx : ∀ i, i < n → x i ∈ env i)
    (hint : ∀ i, i < intdim → ∃ m : ℤ, x i = m) {l : List (Tcons K)} (hd : ∀ c ∈ l, c.expr.InDim n)
    (hs : ∀ c ∈ l, c.expr.LinSafe R o F env intdim) (hc : ∀ c ∈ l, c.Holds S x)
    {bound : Itv K} (hb : ∃ q, q ∈ bound) :
    intlinArrayGo R o F env intdim bound l =
      some (l.map fun c => ⟨c.typ, (intlin R o F env intdim true c.expr).1⟩) := by
  induction l generalizing bound with
  | nil => rfl
  | cons c l ih =>
    obtain ⟨v, hv, hr⟩ := hc c (by simp)
    have hi := intlin_inv R ho hF hx hint (hd c (by simp)) (hs c (by simp)) true hv
    obtain ⟨q, r, hq, _, _⟩ := hi.both.val
    have h2 := Itv.not_isBottom hq
    obtain ⟨z, hz⟩ := satBound_nonempty hi.both.mem hr hb
    have h1 := Itv.not_isBottom hz
    have h3 : ((intlin R o F env intdim true c.expr).1.terms.isEmpty &&
        decide (ILincons.evalCst' ⟨c.typ, (intlin R o F env intdim true c.expr).1⟩ = .f)) = false := by
      by_contra hn
      simp only [Bool.not_eq_false, Bool.and_eq_true, decide_eq_true_eq] at hn
      exact ILincons.not_holds_of_evalCst'_f (c := ⟨c.typ, (intlin R o F env intdim true c.expr).1⟩)
        (intlin_nil R o F env intdim c.expr true (by simpa using hn.1)) hn.1 hn.2 x ⟨v, hi.both.val, hr⟩
    have := ih (fun c hc => hd c (by simp [hc])) (fun c hc => hs c (by simp [hc])) (fun d hd => hc d (by simp [hd]))
      ⟨z, hz⟩
    simp only [intlinArrayGo, h1, h2, h3, Bool.or_self, Bool.false_eq_true, if_false, this, Option.map_some,
      List.map_cons]

/-! ### interval linear trees -/

/-- a constant tree evaluates to an interval containing its values -/
theorem mem_eval_cst {R : Rnd K} {o : RootOps K} (ho : o.SqrtOK) {F : FltOps K} {S : FltSem K} (hF : FltOK F S)
    {n : ℕ} {x : ℕ → K} {e : Texpr K} (hd : e.InDim n) (hs : e.PowSafe R o F (fun _ => Itv.top)) {v : K}
    (hv : e.Val S x v) : v ∈ e.eval R o F (fun _ => Itv.top) :=
  mem_eval ho hF (n := n) (fun _ _ => Itv.mem_top _) hd hs hv

theorem intlinear_inv (R : Rnd K) {o : RootOps K} (ho : o.SqrtOK) {F : FltOps K} {S : FltSem K} (hF : FltOK F S)
    {n : ℕ} {x : ℕ → K} {e : Texpr K} (hd : e.InDim n) (hs : e.PowSafe R o F (fun _ => Itv.top)) {e0 : Bool}
    {l : ILinexpr K} (hl : intlinear R o F e0 e = some l) {v : K} (hv : e.Val S x v) :
    l.Val x v ∧ l.FlagsOk ∧ TermsIn n l := by
  induction e generalizing v e0 l with
  | cst c =>
    simp only [intlinear, Option.some.injEq] at hl
    subst hl
    exact ⟨val_const.2 (Itv.mem_setApCoeff R hv), flagsOk_nil, termsIn_nil⟩
  | dim d =>
    simp only [intlinear, Option.some.injEq] at hl
    simp only [Texpr.Val] at hv
    subst hl; subst hv
    refine ⟨⟨0, x d, (Itv.mem_point _ _).2 rfl, ⟨1, 0, (Itv.mem_point _ _).2 rfl, rfl, by ring⟩, by ring⟩, ?_, ?_⟩
    · intro t ht
      simp only [List.mem_singleton] at ht
      subst ht
      intro _ q hq
      simp only [Itv.mem_point] at hq
      simp [hq]
    · intro t ht
      simp only [List.mem_singleton] at ht
      subst ht
      exact hd
  | un op t d a ih =>
    simp only [intlinear] at hl
    by_cases hc : isIntervalCst (.un op t d a) = true
    · rw [if_pos hc, Option.some.injEq] at hl
      subst hl
      exact ⟨val_const.2 (mem_eval_cst ho hF (n := n) hd hs hv), flagsOk_nil, termsIn_nil⟩
    · rw [if_neg hc] at hl
      obtain ⟨va, w, ha, hw, hr⟩ := hv
      cases op with
      | neg =>
        simp only [Option.map_eq_some_iff] at hl
        obtain ⟨la, hla, rfl⟩ := hl
        obtain ⟨h1, h2, h3⟩ := ih hd hs hla ha
        simp only [if_true, UnOp.Val] at hr hw
        subst hr; subst hw
        exact ⟨val_neg h1, flagsOk_neg h2, termsIn_neg h3⟩
      | cast =>
        simp only at hl
        split_ifs at hl with ht
        subst ht
        simp only [reduceCtorEq, if_false, Rounds, UnOp.Val] at hr hw
        subst hr; subst hw
        exact ih hd hs hl ha
      | sqrt => simp at hl
  | bin op t d a b iha ihb =>
    simp only [intlinear] at hl
    by_cases hc : isIntervalCst (.bin op t d a b) = true
    · rw [if_pos hc, Option.some.injEq] at hl
      subst hl
      exact ⟨val_const.2 (mem_eval_cst ho hF (n := n) hd hs hv), flagsOk_nil, termsIn_nil⟩
    · rw [if_neg hc] at hl
      have ht' : t = .real := by
        by_contra ht
        rw [if_pos ht] at hl
        cases hl
      subst ht'
      rw [if_neg (by simp)] at hl
      obtain ⟨va, vb, w, ha, hb, hw, hr⟩ := hv
      cases op with
      | add =>
        simp only [Option.bind_eq_some_iff, Option.map_eq_some_iff] at hl
        obtain ⟨la, hla, lb, hlb, rfl⟩ := hl
        simp only [reduceCtorEq, if_false, Rounds, BinOp.Val] at hr hw
        subst hr; subst hw
        obtain ⟨h1, h2, h3⟩ := iha hd.1 hs.1 hla ha
        obtain ⟨k1, k2, k3⟩ := ihb hd.2 hs.2.1 hlb hb
        exact ⟨val_add R h1 k1, flagsOk_add R h2 k2, termsIn_add R h3 k3⟩
      | sub =>
        simp only [Option.bind_eq_some_iff, Option.map_eq_some_iff] at hl
        obtain ⟨la, hla, lb, hlb, rfl⟩ := hl
        simp only [reduceCtorEq, if_false, Rounds, BinOp.Val] at hr hw
        subst hr; subst hw
        obtain ⟨h1, h2, h3⟩ := iha hd.1 hs.1 hla ha
        obtain ⟨k1, k2, k3⟩ := ihb hd.2 hs.2.1 hlb hb
        exact ⟨val_sub R h1 k1, flagsOk_sub R h2 k2, termsIn_add R h3 (termsIn_neg k3)⟩
      | mul =>
        simp only [reduceCtorEq, if_false, Rounds, BinOp.Val] at hr hw
        subst hr; subst hw
        simp only at hl
        split_ifs at hl with h1 h2
        · simp only [Option.map_eq_some_iff] at hl
          obtain ⟨la, hla, rfl⟩ := hl
          obtain ⟨k1, k2, k3⟩ := iha hd.1 hs.1 hla ha
          exact ⟨val_scale R k1 (mem_eval_cst ho hF (n := n) hd.2 hs.2.1 hb), flagsOk_scale R _ _, termsIn_scale R k3 _⟩
        · simp only [Option.map_eq_some_iff] at hl
          obtain ⟨lb, hlb, rfl⟩ := hl
          obtain ⟨k1, k2, k3⟩ := ihb hd.2 hs.2.1 hlb hb
          rw [mul_comm]
          exact ⟨val_scale R k1 (mem_eval_cst ho hF (n := n) hd.1 hs.1 ha), flagsOk_scale R _ _, termsIn_scale R k3 _⟩
      | div =>
        simp only [reduceCtorEq, if_false, Rounds, BinOp.Val] at hr hw
        obtain ⟨h0, rfl⟩ := hw
        subst hr
        simp only at hl
        split_ifs at hl with h1
        simp only [Option.map_eq_some_iff] at hl
        obtain ⟨la, hla, rfl⟩ := hl
        obtain ⟨k1, k2, k3⟩ := iha hd.1 hs.1 hla ha
        rw [div_eq_mul_one_div]
        exact ⟨val_scale R k1 (Itv.mem_div R ((Itv.mem_point 1 1).2 rfl) (mem_eval_cst ho hF (n := n) hd.2 hs.2.1 hb) h0),
          flagsOk_scale R _ _, termsIn_scale R k3 _⟩
      | mod => simp at hl
      | pow => simp at hl

theorem intlinear_some (R : Rnd K) (o : RootOps K) (F : FltOps K) {e : Texpr K} (h : e.isIntervalLinear = true) (e0 : Bool) :
    ∃ l, intlinear R o F e0 e = some l := by
  induction e generalizing e0 with
  | cst c => exact ⟨_, rfl⟩
  | dim d => exact ⟨_, rfl⟩
  | un op t d a ih =>
    simp only [intlinear]
    by_cases hc : isIntervalCst (.un op t d a) = true
    · exact ⟨_, if_pos hc⟩
    · rw [if_neg hc]
      cases op with
      | neg =>
        obtain ⟨l, hl⟩ := ih (by simpa [isIntervalLinear] using h) e0
        exact ⟨_, by rw [hl]; rfl⟩
      | cast =>
        simp only [isIntervalLinear, exactUn, Bool.and_eq_true, Bool.or_eq_true, decide_eq_true_eq, reduceCtorEq,
          false_or] at h
        simp only [h.1, if_true]
        exact ih h.2 e0
      | sqrt => simp [isIntervalLinear] at h
  | bin op t d a b iha ihb =>
    simp only [intlinear]
    by_cases hc : isIntervalCst (.bin op t d a b) = true
    · exact ⟨_, if_pos hc⟩
    · rw [if_neg hc]
      have ht : t = .real := by
        by_contra ht
        cases op <;> simp [isIntervalLinear, exactBin, ht] at h
      rw [if_neg (by simpa using ht)]
      cases op with
      | add =>
        simp only [isIntervalLinear, Bool.and_eq_true] at h
        obtain ⟨l, hl⟩ := iha h.1.2 true
        obtain ⟨k, hk⟩ := ihb h.2 e0
        exact ⟨_, by simp only [hl, hk]; rfl⟩
      | sub =>
        simp only [isIntervalLinear, Bool.and_eq_true] at h
        obtain ⟨l, hl⟩ := iha h.1.2 true
        obtain ⟨k, hk⟩ := ihb h.2 e0
        exact ⟨_, by simp only [hl, hk]; rfl⟩
      | mul =>
        simp only [isIntervalLinear, Bool.and_eq_true, Bool.or_eq_true] at h
        simp only [isIntervalCst, Bool.and_eq_true, not_and] at hc
        simp only
        split_ifs with h1 h2
        · have ha : a.isIntervalCst ≠ true := fun ha => hc ha h1
          rcases h.2 with h | h
          · obtain ⟨l, hl⟩ := iha h.1 e0
            exact ⟨_, by rw [hl]; rfl⟩
          · exact absurd h.2 ha
        · rcases h.2 with h | h
          · exact absurd h.2 h1
          · obtain ⟨l, hl⟩ := ihb h.1 e0
            exact ⟨_, by rw [hl]; rfl⟩
        · rcases h.2 with h | h
          · exact absurd h.2 h1
          · exact absurd h.2 h2
      | div =>
        simp only [isIntervalLinear, Bool.and_eq_true] at h
        simp only [h.2, if_true]
        obtain ⟨l, hl⟩ := iha h.1.2 e0
        exact ⟨_, by rw [hl]; rfl⟩
      | mod => simp [isIntervalLinear] at h
      | pow => simp [isIntervalLinear] at h

end Texpr
end Apron
