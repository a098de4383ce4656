import Verif.Zono.Defs
import Verif.Itv.Lemmas
import Verif.Itv.RoundLemmas
import Verif.Itv.LinexprLemmas
import Mathlib.Tactic.LinearCombination
import Mathlib.Tactic.FieldSimp

/-!
# Affine forms: soundness of the linear operations
-/

set_option autoImplicit false
set_option linter.unusedSectionVars false
set_option linter.ambiguousOpen false

namespace Apron
open Bound
variable {K : Type*} [LinearOrder K] [Field K] [IsStrictOrderedRing K] {R : Rnd K}

namespace Itv

theorem isZero_eq {a : Itv K} (h : a.isZero = true) : a = point 0 := by
  rcases a with ⟨i, s⟩
  simp only [isZero, Bool.and_eq_true, decide_eq_true_eq] at h
  obtain ⟨h1, h2⟩ := h
  have key : ∀ b : Bound K, sgn b = 0 → b = fin 0 := by
    intro b hb
    cases b with
    | fin q =>
      simp only [sgn] at hb
      by_cases h1 : q < 0
      · rw [if_pos h1] at hb; omega
      · rw [if_neg h1] at hb
        by_cases h2 : q = 0
        · rw [h2]
        · rw [if_neg h2] at hb; omega
    | pinf => simp [sgn] at hb
    | ninf => simp [sgn] at hb
  rw [key i h1, key s h2, point, neg_zero]

theorem isEq_iff {a b : Itv K} : isEq a b = true ↔ a = b := by
  rcases a with ⟨i, s⟩; rcases b with ⟨i', s'⟩
  simp [isEq, and_comm]

theorem isPoint_ex {a : Itv K} (h : a.isPoint = true) : ∃ q, a = point q := isPoint_iff.1 h

theorem isTop_mem {a : Itv K} (h : a.isTop = true) {x : K} (hx : x ∈ a) : a = top := by
  rcases a with ⟨i, s⟩
  rw [mem_def] at hx
  cases i <;> cases s <;> simp_all [isTop, infty, top]

theorem mem_muu {x : K} : x ∈ (muu : Itv K) ↔ -1 ≤ x ∧ x ≤ 1 := by
  simp only [mem_def, muu, fin_le_fin]
  constructor <;> rintro ⟨h1, h2⟩ <;> exact ⟨by linarith, h2⟩

end Itv

namespace T1p

variable {ε : ℕ → K}

theorem TermsVal.map {k : K} {f : Itv K → Itv K} {l : List (Term K)}
    (hf : ∀ t ∈ l, ∀ a, a ∈ t.coef → k * a ∈ f t.coef) {y : K} (h : TermsVal ε l y) :
    TermsVal ε (l.map fun t => ⟨t.sym, f t.coef⟩) (k * y) := by
  induction l generalizing y with
  | nil =>
    have h : y = 0 := h
    subst h; exact mul_zero k
  | cons t l ih =>
    obtain ⟨a, z, ha, hz, rfl⟩ := h
    exact ⟨k * a, k * z, hf t (by simp) a ha, ih (fun t ht => hf t (by simp [ht])) hz, by ring⟩

/-- the values of a merge -/
theorem TermsVal.mergeF {u v : K} {fp fq : Itv K → Itv K} {fpq : Itv K → Itv K → Itv K}
    (n : ℕ) : ∀ {ps qs : List (Term K)},
    (∀ t ∈ ps, ∀ a, a ∈ t.coef → u * a ∈ fp t.coef) →
    (∀ t ∈ qs, ∀ b, b ∈ t.coef → v * b ∈ fq t.coef) →
    (∀ t ∈ ps, ∀ t' ∈ qs, t.sym.index = t'.sym.index → ∀ a b, a ∈ t.coef → b ∈ t'.coef → u * a + v * b ∈ fpq t.coef t'.coef) →
    ps.length + qs.length < n → ∀ {y z : K}, TermsVal ε ps y → TermsVal ε qs z →
    TermsVal ε (Aff.mergeF fp fq fpq n ps qs) (u * y + v * z) := by
  induction n with
  | zero => intro ps qs _ _ _ h; exact absurd h (by simp)
  | succ n ih =>
    intro ps qs hp hq hpq hn y z hy hz
    match ps, qs with
    | [], qs =>
      have hy : y = 0 := hy
      subst hy
      rw [mul_zero, zero_add]
      exact TermsVal.map hq hz
    | p :: ps, [] =>
      have hz : z = 0 := hz
      subst hz
      rw [mul_zero, add_zero]
      exact TermsVal.map hp hy
    | p :: ps, q :: qs =>
      have hn' : ps.length + 1 + (qs.length + 1) < n + 1 := by simpa using hn
      unfold Aff.mergeF
      split_ifs with h1 h2
      · obtain ⟨a, y', ha, hy', rfl⟩ := hy
        obtain ⟨b, z', hb, hz', rfl⟩ := hz
        refine ⟨u * a + v * b, u * y' + v * z', hpq p (by simp) q (by simp) h1 a b ha hb, ?_, ?_⟩
        · exact ih (fun t ht => hp t (by simp [ht])) (fun t ht => hq t (by simp [ht]))
            (fun t ht t' ht' => hpq t (by simp [ht]) t' (by simp [ht'])) (by omega) hy' hz'
        · simp only; rw [← h1]; ring
      · obtain ⟨a, y', ha, hy', rfl⟩ := hy
        refine ⟨u * a, u * y' + v * z, hp p (by simp) a ha, ?_, by simp only; ring⟩
        exact ih (fun t ht => hp t (by simp [ht])) hq
            (fun t ht t' ht' => hpq t (by simp [ht]) t' ht') (by simp; omega) hy' hz
      · obtain ⟨b, z', hb, hz', rfl⟩ := hz
        refine ⟨v * b, u * y + v * z', hq q (by simp) b hb, ?_, by simp only; ring⟩
        exact ih hp (fun t ht => hq t (by simp [ht]))
            (fun t ht t' ht' => hpq t ht t' (by simp [ht'])) (by simp; omega) hy hz'

theorem TermsVal.merge {u v : K} {fp fq : Itv K → Itv K} {fpq : Itv K → Itv K → Itv K}
    {ps qs : List (Term K)}
    (hp : ∀ t ∈ ps, ∀ a, a ∈ t.coef → u * a ∈ fp t.coef)
    (hq : ∀ t ∈ qs, ∀ b, b ∈ t.coef → v * b ∈ fq t.coef)
    (hpq : ∀ t ∈ ps, ∀ t' ∈ qs, t.sym.index = t'.sym.index → ∀ a b, a ∈ t.coef → b ∈ t'.coef → u * a + v * b ∈ fpq t.coef t'.coef)
    {y z : K} (hy : TermsVal ε ps y) (hz : TermsVal ε qs z) :
    TermsVal ε (Aff.merge fp fq fpq ps qs) (u * y + v * z) :=
  TermsVal.mergeF _ hp hq hpq (Nat.lt_succ_self _) hy hz

theorem TermsVal.keep {l : List (Term K)} {y : K} (h : TermsVal ε l y) : TermsVal ε (Aff.keep l) y := by
  induction l generalizing y with
  | nil => exact h
  | cons t l ih =>
    obtain ⟨a, z, ha, hz, rfl⟩ := h
    unfold Aff.keep
    by_cases ht : t.coef.isZero = true
    · rw [Itv.isZero_eq ht, Itv.mem_point] at ha
      rw [List.filter_cons_of_neg (by simp [ht]), ha, zero_mul, zero_add]
      exact ih hz
    · rw [List.filter_cons_of_pos (by simp [ht])]
      exact ⟨a, z, ha, ih hz, rfl⟩

theorem mem_boxOf {e : NEnv K} (he : ∀ k, ε k ∈ e.gamma k) {l : List (Term K)} {C : Itv K} {c y : K}
    (hc : c ∈ C) (h : TermsVal ε l y) : c + y ∈ Aff.boxOf R e C l := by
  unfold Aff.boxOf
  induction l generalizing C c y with
  | nil =>
    have h : y = 0 := h
    subst h; rw [add_zero]; exact hc
  | cons t l ih =>
    obtain ⟨a, z, ha, hz, rfl⟩ := h
    rw [List.foldl_cons, ← add_assoc]
    refine ih (Itv.mem_add _ hc ?_) hz
    rw [mul_comm]
    exact Itv.mem_mul _ (he _) ha

theorem mem_foldl_mul {g : ℕ → Itv K} (he : ∀ k, ε k ∈ g k) {l : List (Term K)} {C : Itv K} {c y : K}
    (hc : c ∈ C) (h : TermsVal ε l y) :
    c + y ∈ l.foldl (fun b t => Itv.add R b (Itv.mul R t.coef (g t.sym.index))) C := by
  induction l generalizing C c y with
  | nil =>
    have h : y = 0 := h
    subst h; rw [add_zero]; exact hc
  | cons t l ih =>
    obtain ⟨a, z, ha, hz, rfl⟩ := h
    rw [List.foldl_cons, ← add_assoc]
    exact ih (Itv.mem_add _ hc (Itv.mem_mul _ ha (he _))) hz

namespace Aff
variable {e : NEnv K} {a b : Aff K} {x y : K}

theorem Val.zero : (Aff.zero : Aff K).Val ε 0 := ⟨0, 0, (Itv.mem_point _ _).2 rfl, rfl, by ring⟩
theorem Has.zero : (Aff.zero : Aff K).Has ε 0 := ⟨Val.zero, (Itv.mem_point _ _).2 rfl⟩
theorem Has.top (x : K) : (Aff.top : Aff K).Has ε x := ⟨⟨x, 0, Itv.mem_top x, rfl, by ring⟩, Itv.mem_top x⟩

theorem not_isBottom_of_has (h : a.Has ε x) : a.isBottom = false := by
  unfold isBottom; rw [Itv.not_isBottom h.2]; simp

theorem zero_of_knownZero (h : a.Has ε x) (hz : a.knownZero = true) : x = 0 := by
  have := h.2
  rw [Itv.isZero_eq hz, Itv.mem_point] at this
  exact this

theorem Has.add (he : ∀ k, ε k ∈ e.gamma k) (ha : a.Has ε x) (hb : b.Has ε y) :
    (Aff.add R e a b).Has ε (x + y) := by
  obtain ⟨⟨c, u, hc, hu, rfl⟩, hx⟩ := ha
  obtain ⟨⟨d, v, hd, hv, rfl⟩, hy⟩ := hb
  have hT : TermsVal ε (Aff.merge id id (Itv.add R) a.q b.q) (1 * u + 1 * v) :=
    TermsVal.merge (by simp) (by simp) (fun t _ t' _ _ p q hp hq => by
      rw [one_mul, one_mul]; exact Itv.mem_add _ hp hq) hu hv
  have hT := TermsVal.keep hT
  have hC : c + d ∈ Itv.add R a.c b.c := Itv.mem_add _ hc hd
  refine ⟨⟨c + d, _, hC, hT, by ring⟩, Itv.mem_meet.2 ⟨Itv.mem_add _ hx hy, ?_⟩⟩
  have := mem_boxOf (R := R) he hC hT
  convert this using 1; ring

/-- no two equal intervals that are not points are subtracted -/
def SubSafe (a b : Aff K) : Prop :=
  (a.c = b.c → a.c.isPoint = true) ∧
  ∀ t ∈ a.q, ∀ t' ∈ b.q, t.sym.index = t'.sym.index → t.coef = t'.coef → t.coef.isPoint = true

theorem mem_sub0 {p q : Itv K} (h : p = q → p.isPoint = true) {u v : K} (hu : u ∈ p) (hv : v ∈ q) :
    u - v ∈ sub0 R p q := by
  unfold sub0
  split_ifs with he
  · have he := Itv.isEq_iff.1 he
    obtain ⟨r, hr⟩ := Itv.isPoint_ex (h he)
    subst he
    rw [hr, Itv.mem_point] at hu hv
    rw [hu, hv, Itv.mem_point]; ring
  · exact Itv.mem_sub _ hu hv

theorem Has.sub (he : ∀ k, ε k ∈ e.gamma k) (hs : SubSafe a b) (ha : a.Has ε x) (hb : b.Has ε y) :
    (Aff.sub R e a b).Has ε (x - y) := by
  obtain ⟨⟨c, u, hc, hu, rfl⟩, hx⟩ := ha
  obtain ⟨⟨d, v, hd, hv, rfl⟩, hy⟩ := hb
  have hT : TermsVal ε (Aff.merge id Itv.neg (sub0 R) a.q b.q) (1 * u + (-1) * v) :=
    TermsVal.merge (by simp) (fun t _ q hq => by rw [neg_one_mul]; exact Itv.mem_neg hq)
      (fun t ht t' ht' hi p q hp hq => by
        rw [one_mul, neg_one_mul, ← sub_eq_add_neg]; exact mem_sub0 (hs.2 t ht t' ht' hi) hp hq) hu hv
  have hT := TermsVal.keep hT
  have hC : c - d ∈ sub0 R a.c b.c := mem_sub0 hs.1 hc hd
  refine ⟨⟨c - d, _, hC, hT, by ring⟩, Itv.mem_meet.2 ⟨Itv.mem_sub _ hx hy, ?_⟩⟩
  have := mem_boxOf (R := R) he hC hT
  convert this using 1; ring

theorem Has.neg (ha : a.Has ε x) : (Aff.neg a).Has ε (-x) := by
  obtain ⟨⟨c, u, hc, hu, rfl⟩, hx⟩ := ha
  have hT : TermsVal ε (a.q.map fun t => ⟨t.sym, Itv.neg t.coef⟩) ((-1) * u) :=
    TermsVal.map (fun t _ q hq => by rw [neg_one_mul]; exact Itv.mem_neg hq) hu
  exact ⟨⟨-c, _, Itv.mem_neg hc, hT, by ring⟩, Itv.mem_neg hx⟩

/-- the values of the terms and centre of `mulItv`, when no shortcut is taken or the shortcut applies -/
theorem Has.mulItv {lam : Itv K} {k : K} (hk : k ∈ lam) (ha : a.Has ε x) : (Aff.mulItv R a lam).Has ε (x * k) := by
  unfold Aff.mulItv
  split_ifs with h1 h2 h3
  · rw [Bool.or_eq_true] at h1
    have : x * k = 0 := by
      rcases h1 with h1 | h1
      · rw [Itv.isZero_eq h1, Itv.mem_point] at hk; rw [hk, mul_zero]
      · rw [zero_of_knownZero ha h1, zero_mul]
    rw [this]; exact Has.zero
  · rw [not_isBottom_of_has ha, Itv.not_isBottom hk] at h2; simp at h2
  · exact Has.top _
  · obtain ⟨⟨c, u, hc, hu, rfl⟩, hx⟩ := ha
    have hT : TermsVal ε (a.q.map fun t => ⟨t.sym, Itv.mul R lam t.coef⟩) (k * u) :=
      TermsVal.map (fun t _ q hq => Itv.mem_mul _ hk hq) hu
    exact ⟨⟨k * c, _, Itv.mem_mul _ hk hc, hT, by ring⟩, Itv.mem_mul _ hx hk⟩

theorem mem_boxize (he : ∀ k, ε k ∈ e.gamma k) (ha : a.Val ε x) : x ∈ Aff.boxize R e a := by
  obtain ⟨c, u, hc, hu, rfl⟩ := ha
  exact mem_boxOf he hc hu

theorem mem_bound (he : e.Sat ε) (ha : a.Val ε x) : x ∈ Aff.bound R e a := by
  obtain ⟨c, u, hc, hu, rfl⟩ := ha
  unfold Aff.bound
  split_ifs with h1 h2
  · exact Itv.mem_top _
  · exact mem_foldl_mul (g := fun _ => Itv.muu) he.1 hc hu
  · have key : ∀ (l : List (Term K)) (C D : Itv K) (c d y : K), c ∈ C → d ∈ D → TermsVal ε l y →
        c + d + y ∈ Itv.add R
          (l.foldl (fun b t => match e.find t.sym.index with
            | some _ => b
            | none => Itv.add R b (Itv.mul R t.coef Itv.muu)) C)
          (l.foldl (fun b t => match e.find t.sym.index with
            | some g => Itv.add R b (Itv.mul R t.coef g)
            | none => b) D) := by
      intro l
      induction l with
      | nil =>
        intro C D c d y hc hd hy
        have hy : y = 0 := hy
        subst hy
        rw [add_zero]; exact Itv.mem_add _ hc hd
      | cons t l ih =>
        intro C D c d y hc hd hy
        obtain ⟨p, z, hp, hz, rfl⟩ := hy
        rw [List.foldl_cons, List.foldl_cons]
        cases hf : e.find t.sym.index with
        | none =>
          have := ih _ _ (c + p * ε t.sym.index) d z (Itv.mem_add R hc (Itv.mem_mul R hp (he.1 _))) hd hz
          convert this using 1; ring
        | some g =>
          have hg : ε t.sym.index ∈ g := by
            have := he.2 t.sym.index
            unfold NEnv.gamma at this
            rw [if_neg h2, hf] at this
            exact this
          have := ih _ _ c (d + p * ε t.sym.index) z hc (Itv.mem_add R hd (Itv.mem_mul R hp hg)) hz
          convert this using 1; ring
    have := key a.q a.c (Itv.point 0) c 0 u hc ((Itv.mem_point _ _).2 rfl) hu
    rw [add_zero] at this
    exact this

end Aff
end T1p
end Apron
