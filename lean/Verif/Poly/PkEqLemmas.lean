import Verif.Poly.PkEq
import Verif.Poly.PkTop
import Verif.Poly.MinFacts
import Mathlib.LinearAlgebra.AffineSpace.AffineSubspace.Basic
import Mathlib.LinearAlgebra.Dual.Lemmas
import Mathlib.RingTheory.Noetherian.Basic

/-!
# Linear equalities: affine hull of a minimal representation
-/

set_option autoImplicit false
set_option linter.unusedSectionVars false

namespace Apron.Poly

variable {K : Type*} [LinearOrder K] [Field K] [IsStrictOrderedRing K] {n d : ℕ}

/-! ## Affine sets -/

/-- a set of points is an affine subspace (possibly empty) -/
def IsAff (S : (Fin n → K) → Prop) : Prop := ∃ A : AffineSubspace K (Fin n → K), ∀ x, S x ↔ x ∈ A

/-- the least affine subspace that contains a set of points -/
def Hull (S : (Fin n → K) → Prop) (x : Fin n → K) : Prop := x ∈ affineSpan K {z | S z}

theorem IsAff.of_closed {S : (Fin n → K) → Prop} (h : ∀ (c : K) (p q r : Fin n → K), S p → S q → S r → S (c • (p - q) + r)) : IsAff S :=
  ⟨⟨{x | S x}, fun c p q r hp hq hr => h c p q r hp hq hr⟩, fun _ => Iff.rfl⟩

theorem IsAff.closed {S : (Fin n → K) → Prop} (h : IsAff S) {c : K} {p q r : Fin n → K} (hp : S p) (hq : S q) (hr : S r) : S (c • (p - q) + r) := by
  obtain ⟨A, hA⟩ := h
  rw [hA] at *
  exact A.smul_vsub_vadd_mem c hp hq hr

theorem hull_isAff (S : (Fin n → K) → Prop) : IsAff (Hull S) := ⟨_, fun _ => Iff.rfl⟩

theorem subset_hull {S : (Fin n → K) → Prop} {x : Fin n → K} (h : S x) : Hull S x := subset_affineSpan K _ h

theorem hull_le {S T : (Fin n → K) → Prop} (hT : IsAff T) (h : ∀ x, S x → T x) {x : Fin n → K} (hx : Hull S x) : T x := by
  obtain ⟨A, hA⟩ := hT
  rw [hA]
  exact (affineSpan_le.2 (fun z hz => (hA z).1 (h z hz)) : affineSpan K {z | S z} ≤ A) hx

theorem hull_eq {S : (Fin n → K) → Prop} (hS : IsAff S) (x : Fin n → K) : Hull S x ↔ S x :=
  ⟨fun h => hull_le hS (fun _ h => h) h, subset_hull⟩

theorem IsAff.congr {S T : (Fin n → K) → Prop} (hS : IsAff S) (h : ∀ x, T x ↔ S x) : IsAff T := by
  obtain ⟨A, hA⟩ := hS
  exact ⟨A, fun x => (h x).trans (hA x)⟩

theorem hull_congr {S T : (Fin n → K) → Prop} (h : ∀ x, T x ↔ S x) (x : Fin n → K) : Hull T x ↔ Hull S x := by
  have : T = S := funext fun x => propext (h x)
  rw [this]

theorem hom_comb (c : K) (p q r : Fin n → K) : hom (c • (p - q) + r) = c • (hom p - hom q) + hom r := by
  funext i
  refine Fin.cases ?_ (fun j => ?_) i
  · simp [hom]
  · simp [hom]

/-- the points of an affine set are those whose homogeneous coordinates are generated by the ones of the set -/
theorem hull_of_span {S : (Fin n → K) → Prop} {p : Fin n → K} (hp : S p) {x : Fin n → K}
    (h : hom x ∈ Submodule.span K (hom '' {z | S z})) : Hull S x := by
  have key : ∀ w ∈ Submodule.span K (hom '' {z | S z}), (fun i => w (Fin.succ i)) - w 0 • p ∈ vectorSpan K {z | S z} := by
    intro w hw
    induction hw using Submodule.span_induction with
    | mem w hw =>
      obtain ⟨z, hz, rfl⟩ := hw
      have : (fun i => hom z (Fin.succ i)) - hom z 0 • p = z -ᵥ p := by
        funext i; simp [hom]
      rw [this]
      exact vsub_mem_vectorSpan K hz hp
    | zero =>
      have : ((fun i => (0 : Fin (n + 1) → K) (Fin.succ i)) - (0 : Fin (n + 1) → K) 0 • p) = 0 := by funext i; simp
      rw [this]; exact Submodule.zero_mem _
    | add v w _ _ hv hw =>
      have : ((fun i => (v + w) (Fin.succ i)) - (v + w) 0 • p) =
          ((fun i => v (Fin.succ i)) - v 0 • p) + ((fun i => w (Fin.succ i)) - w 0 • p) := by funext i; simp; ring
      rw [this]; exact Submodule.add_mem _ hv hw
    | smul c v _ hv =>
      have : ((fun i => (c • v) (Fin.succ i)) - (c • v) 0 • p) = c • ((fun i => v (Fin.succ i)) - v 0 • p) := by funext i; simp; ring
      rw [this]; exact Submodule.smul_mem _ _ hv
  have hx := key _ h
  have e : (fun i => hom x (Fin.succ i)) - hom x 0 • p = x - p := by funext i; simp [hom]
  rw [e] at hx
  have := vadd_mem_affineSpan_of_mem_affineSpan_of_mem_vectorSpan (subset_affineSpan K {z | S z} hp) hx
  rw [vadd_eq_add, sub_add_cancel] at this
  exact this

/-- the solutions of a list of equations -/
def EqSol (E : List Row) (x : Fin n → K) : Prop := ∀ e ∈ E, dot e (hom x) = 0

theorem eqSol_isAff (E : List Row) : IsAff (K := K) (n := n) (EqSol E) := by
  refine .of_closed fun c p q r hp hq hr e he => ?_
  rw [hom_comb, ← lin_apply, map_add, map_smul, map_sub, lin_apply, lin_apply, lin_apply, hp e he, hq e he, hr e he]
  simp

theorem linV_single (f : (Fin d → K) →ₗ[K] K) : linV (fun i => f (Pi.single i 1)) = f := by
  refine LinearMap.ext fun y => ?_
  rw [linV_apply]
  conv_rhs => rw [LinearMap.pi_apply_eq_sum_univ f y]
  refine Finset.sum_congr rfl fun i _ => ?_
  rw [smul_eq_mul, mul_comm]
  congr 2
  funext j
  simp [Pi.single_apply, eq_comm]

section
variable {f : Full}

/-- a linear form that vanishes on the points of a minimal representation is a combination of its equalities -/
theorem gen_of_vanish (hf : (Rep.both f).Wf K n) {v : Fin (n + 1) → K}
    (hv : ∀ z : Fin n → K, (Rep.both f).γ z → linV v (hom z) = 0) : Gen f.eqs [] v := by
  obtain ⟨hok, hpos, hne⟩ := hf
  have hcone := Sat.isCone (K := K) (d := n + 1) f.crows
  have hpt := hcone.exists_point hne
  have hz : ∀ y : Fin (n + 1) → K, Sat f.crows y → linV v y = 0 := by
    intro y hy
    have h1 := hcone.valid hpos hpt (l := linV v) (fun x hx => (hv x hx).ge) hy
    have h2 := hcone.valid hpos hpt (l := -linV v) (fun x hx => by rw [LinearMap.neg_apply, hv x hx, neg_zero]) hy
    rw [LinearMap.neg_apply] at h2
    exact le_antisymm (by linarith) h1
  refine (hok.min.dual.lin_iff v).1 fun q hq => ?_
  rw [dot_eq_linV, linV_comm]
  refine hz _ ?_
  rw [hok.sat_iff, frows_eq, genM_append hok.min.lines fun q hq => ?_]
  · rcases List.mem_append.1 hq with h | h
    · exact .of_line h
    · exact .of_ray h
  · obtain ⟨x, hx, rfl⟩ := List.mem_map.1 hq
    exact (hok.min.rays x hx).ne'

theorem linV_of_gen_eqs {E : List Row} {v : Fin (n + 1) → K} (hg : Gen E [] v) {y : Fin (n + 1) → K} (hy : ∀ e ∈ E, dot e y = 0) : linV v y = 0 := by
  induction hg with
  | zero => rw [linV_comm, map_zero]
  | @line v l t _ hl ih => rw [linV_add_left, linV_smul_left, ih, ← dot_eq_linV, hy l hl]; simp
  | ray t _ h _ => simp at h

/-- the equalities of a minimal representation describe its affine hull -/
theorem eqs_hull (hf : (Rep.both f).Wf K n) (x : Fin n → K) : EqSol f.eqs x ↔ Hull (Rep.both f).γ x := by
  constructor
  · intro hx
    obtain ⟨p, hp⟩ := (Sat.isCone (K := K) (d := n + 1) f.crows).exists_point hf.2.2
    refine hull_of_span (S := (Rep.both f).γ) (p := p) hp ?_
    by_contra hc
    obtain ⟨φ, h1, h2⟩ := Submodule.exists_le_ker_of_notMem hc
    apply h1
    have hv : ∀ z : Fin n → K, (Rep.both f).γ z → linV (fun i => φ (Pi.single i 1)) (hom z) = 0 := by
      intro z hz
      rw [linV_single]
      exact h2 (Submodule.subset_span ⟨z, hz, rfl⟩)
    have := linV_of_gen_eqs (gen_of_vanish hf hv) hx
    rwa [linV_single] at this
  · intro hx
    refine hull_le (eqSol_isAff f.eqs) (fun z hz e he => ?_) hx
    have hs : Sat f.crows (hom z) := hz
    rw [crows_eq] at hs
    exact (hs e (List.mem_append_left _ he)).2 (hf.1.min.eqs e he)

/-- there is at least one inequality -/
theorem ineqs_ne_nil (hf : (Rep.both f).Wf K n) : f.ineqs ≠ [] := by
  intro h0
  obtain ⟨hok, hpos, hne⟩ := hf
  obtain ⟨y, hy, h1⟩ := hne
  have := hpos (-y) (by
    intro q hq
    rw [crows_eq, h0, List.map_nil, List.append_nil] at hq
    have e : dot q y = 0 := (hy q (by rw [crows_eq]; exact List.mem_append_left _ hq)).2 (hok.min.eqs q hq)
    have e' : dot q (-y) = 0 := by rw [← lin_apply, map_neg, lin_apply, e, neg_zero]
    rw [e']; exact ⟨le_rfl, fun _ => rfl⟩)
  rw [Pi.neg_apply] at this
  linarith

/-- a minimal representation with one inequality is an affine subspace -/
theorem one_ineq (hf : (Rep.both f).Wf K n) (h1 : f.C.length ≤ f.nbeq + 1) (x : Fin n → K) : (Rep.both f).γ x ↔ EqSol f.eqs x := by
  have hw := hf
  obtain ⟨hok, hpos, hne⟩ := hf
  constructor
  · intro hs e he
    have hs : Sat f.crows (hom x) := hs
    rw [crows_eq] at hs
    exact (hs e (List.mem_append_left _ he)).2 (hok.min.eqs e he)
  · intro hx
    have hlen : f.ineqs.length ≤ 1 := by rw [Full.ineqs, List.length_drop]; omega
    obtain ⟨i, hi⟩ : ∃ i, f.ineqs = [i] := by
      match hI : f.ineqs with
      | [] => exact absurd hI (ineqs_ne_nil hw)
      | [i] => exact ⟨i, rfl⟩
      | _ :: _ :: _ => rw [hI] at hlen; simp at hlen
    have hcr : f.crows = f.eqs ++ [i.row] := by rw [crows_eq, hi]; rfl
    -- the positivity constraint is generated by the rows
    have hg : GenM f.crows (e0 K n) := by
      rw [← hok.sat_dual, sat_iff_polar]
      intro y hy
      rw [linV_e0]
      exact hpos y ((hok.sat_iff y).2 hy)
    rw [hcr, genM_append hok.min.eqs (by
      intro q hq; rw [List.mem_singleton] at hq; subst hq
      exact (hok.min.ineqs i (by rw [hi]; simp)).ne')] at hg
    have key : ∀ v : Fin (n + 1) → K, Gen f.eqs [i.row] v → ∃ t : K, 0 ≤ t ∧ ∀ y, (∀ e ∈ f.eqs, dot e y = 0) → linV v y = t * dot i.row y := by
      intro v hv
      induction hv with
      | zero => exact ⟨0, le_rfl, fun y _ => by rw [linV_comm, map_zero, zero_mul]⟩
      | @line v l t _ hl ih =>
        obtain ⟨s, hs, h⟩ := ih
        exact ⟨s, hs, fun y hy => by rw [linV_add_left, linV_smul_left, h y hy, ← dot_eq_linV, hy l hl]; ring⟩
      | @ray v r t _ hr ht ih =>
        obtain ⟨s, hs, h⟩ := ih
        rw [List.mem_singleton] at hr
        subst hr
        exact ⟨s + t, add_nonneg hs ht, fun y hy => by rw [linV_add_left, linV_smul_left, h y hy, ← dot_eq_linV]; ring⟩
    obtain ⟨t, ht, h⟩ := key _ hg
    simp only [linV_e0] at h
    have e1 := h (hom x) hx
    rw [hom_zero] at e1
    change Sat f.crows (hom x)
    intro q hq
    rw [hcr, List.mem_append] at hq
    rcases hq with hq | hq
    · rw [hx q hq]; exact ⟨le_rfl, fun _ => rfl⟩
    · rw [List.mem_singleton] at hq
      subst hq
      have hpos' : 0 < dot i.row (hom x) := by
        by_contra hc
        push Not at hc
        have := mul_nonneg ht (neg_nonneg.2 hc)
        linarith
      exact ⟨hpos'.le, fun h0 => absurd h0 (hok.min.ineqs i (by rw [hi]; simp)).ne'⟩

/-- an affine subspace has one inequality -/
theorem ineqs_length (hf : (Rep.both f).Wf K n) (ha : IsAff (K := K) (n := n) (Rep.both f).γ) : f.C.length = f.nbeq + 1 := by
  have hw := hf
  obtain ⟨hok, hpos, hne⟩ := hf
  obtain ⟨p, hp⟩ := (Sat.isCone (K := K) (d := n + 1) f.crows).exists_point hne
  have hp' : (Rep.both f).γ p := hp
  -- an inequality is constant on the subspace
  have hconst : ∀ q ∈ f.ineqs, ∀ z : Fin n → K, (Rep.both f).γ z → dot q.row (hom z) = dot q.row (hom p) := by
    intro q hq z hz
    have hmem : q.row ∈ f.crows := by rw [crows_eq]; exact List.mem_append_right _ (List.mem_map_of_mem hq)
    by_contra hc
    have hd : dot q.row (hom z) - dot q.row (hom p) ≠ 0 := sub_ne_zero.2 hc
    have hc' := ha.closed (c := -(dot q.row (hom p) + 1) / (dot q.row (hom z) - dot q.row (hom p))) hz hp' hp'
    have := (hc' q.row hmem).1
    rw [hom_comb, ← lin_apply, map_add, map_smul, map_sub, lin_apply, lin_apply, smul_eq_mul, div_mul_cancel₀ _ hd] at this
    linarith
  -- hence, modulo the equalities, a multiple of the positivity constraint
  have hmul : ∀ q ∈ f.ineqs, Gen f.eqs [] (toV K (n + 1) q.row - dot q.row (hom p) • e0 K n) := by
    intro q hq
    refine gen_of_vanish hw fun z hz => ?_
    rw [sub_eq_add_neg, linV_add_left, linV_neg_left, linV_smul_left, linV_e0, hom_zero, ← dot_eq_linV, hconst q hq z hz]
    ring
  have hnn : ∀ q ∈ f.ineqs, 0 < dot q.row (hom p) := by
    intro q hq
    have hmem : q.row ∈ f.crows := by rw [crows_eq]; exact List.mem_append_right _ (List.mem_map_of_mem hq)
    rcases ((hp q.row hmem).1).lt_or_eq with h | h
    · exact h
    · exfalso
      have hg := hmul q hq
      rw [← h, zero_smul, sub_zero] at hg
      obtain ⟨r, hr, hne'⟩ := hok.min.dual.proper q hq
      apply hne'
      have := (hok.min.dual.lin_iff (toV K (n + 1) q.row)).2 hg r hr
      rw [dot_toV] at this
      exact_mod_cast this
  have h2 : ¬ 2 ≤ f.ineqs.length := by
    intro h2
    have h0 : 0 < f.ineqs.length := by omega
    refine hok.min.dual.irredundant 0 h0 ?_
    have m0 := List.getElem_mem h0
    have m1 := List.getElem_mem (show 1 < f.ineqs.length by omega)
    set a := dot (f.ineqs[0]).row (hom p) with hadef
    set b := dot (f.ineqs[1]).row (hom p) with hbdef
    have ha0 : 0 < a := hnn _ m0
    have hb0 : 0 < b := hnn _ m1
    have hmem : (f.ineqs[1]).row ∈ (f.ineqs.eraseIdx 0).map SRow.row :=
      List.mem_map_of_mem (List.mem_eraseIdx_iff_getElem.2 ⟨1, by omega, by omega, rfl⟩)
    have mono : ∀ {v : Fin (n + 1) → K}, Gen f.eqs [] v → Gen f.eqs ((f.ineqs.eraseIdx 0).map SRow.row) v :=
      fun h => Gen.mono (fun q hq => hq) (fun q hq => by simp at hq) h
    have C := Gen.isCone (K := K) (d := n + 1) (lines := f.eqs) (rays := (f.ineqs.eraseIdx 0).map SRow.row)
    have g0 := mono (hmul _ m0)
    -- the opposite of a combination of equalities is one
    have g1 : Gen f.eqs [] (-(toV K (n + 1) (f.ineqs[1]).row - b • e0 K n)) := by
      refine gen_of_vanish hw fun z hz => ?_
      rw [linV_neg_left, sub_eq_add_neg, linV_add_left, linV_neg_left, linV_smul_left, linV_e0, hom_zero, ← dot_eq_linV, hconst _ m1 z hz]
      ring
    have e : toV K (n + 1) (f.ineqs[0]).row = (toV K (n + 1) (f.ineqs[0]).row - a • e0 K n) +
        ((a / b) • (-(toV K (n + 1) (f.ineqs[1]).row - b • e0 K n)) + (a / b) • toV K (n + 1) (f.ineqs[1]).row) := by
      funext j
      simp only [Pi.add_apply, Pi.sub_apply, Pi.smul_apply, Pi.neg_apply, smul_eq_mul]
      field_simp
      ring
    rw [e]
    exact C.add g0 (C.add (C.smul (div_nonneg ha0.le hb0.le) (mono g1)) (C.smul (div_nonneg ha0.le hb0.le) (.of_ray hmem)))
  have h1 : f.ineqs.length ≠ 0 := fun h => ineqs_ne_nil hw (List.length_eq_zero_iff.1 h)
  have hl : f.ineqs.length = f.C.length - f.nbeq := by rw [Full.ineqs, List.length_drop]
  have := hok.leq
  omega

/-- an affine subspace has one ray -/
theorem rays_length (hf : (Rep.both f).Wf K n) (ha : IsAff (K := K) (n := n) (Rep.both f).γ) : f.F.length = f.nbline + 1 := by
  have hw := hf
  obtain ⟨hok, hpos, hne⟩ := hf
  have hcone := Sat.isCone (K := K) (d := n + 1) f.crows
  obtain ⟨p, hp⟩ := hcone.exists_point hne
  have hp' : (Rep.both f).γ p := hp
  have hE : ∀ y : Fin (n + 1) → K, (∀ e ∈ f.eqs, dot e y = 0) → 0 ≤ y 0 → Sat f.crows y := by
    intro y hy h0
    have hbase : ∀ z : Fin n → K, (∀ e ∈ f.eqs, dot e (hom z) = 0) → Sat f.crows (hom z) := fun z hz =>
      (one_ineq hw (ineqs_length hw ha).le z).2 hz
    rcases h0.lt_or_eq with h0 | h0
    · obtain ⟨z, e⟩ := exists_hom (y := (y 0)⁻¹ • y) (by simp [h0.ne'])
      have hs := hbase z fun q hq => by rw [← e, ← lin_apply, map_smul, lin_apply, hy q hq, smul_zero]
      have := hcone.smul h0.le hs
      rw [← e, smul_smul, mul_inv_cancel₀ h0.ne', one_smul] at this
      exact this
    · -- `y` is the limit of points
      refine hcone.sat (S := fun y => Sat f.crows y ) hpos ⟨p, hp⟩ (C := f.crows) (fun x hx => hx) ?_
      intro q hq
      have hpy : ∀ t : K, Sat f.crows (hom p + t • y) := by
        intro t
        obtain ⟨z, e⟩ := exists_hom (y := hom p + t • y) (by rw [Pi.add_apply, Pi.smul_apply, hom_zero, ← h0]; simp)
        rw [e]
        refine hbase z fun q hq => ?_
        have hpq : dot q (hom p) = 0 := (hp q (by rw [crows_eq]; exact List.mem_append_left _ hq)).2 (hok.min.eqs q hq)
        rw [← e, ← lin_apply, map_add, map_smul, lin_apply, lin_apply, hy q hq, hpq]; simp
      have hd : dot q y = 0 := by
        by_contra hc
        have h1 := (hpy (-(dot q (hom p) + 1) / dot q y) q hq).1
        rw [← lin_apply, map_add, map_smul, lin_apply, lin_apply, smul_eq_mul, div_mul_cancel₀ _ hc] at h1
        linarith
      rw [hd]; exact ⟨le_rfl, fun _ => rfl⟩
  have hray : ∀ r ∈ f.rays, Sat f.crows (toV K (n + 1) r.row) := by
    intro r hr
    rw [crows_eq, hok.min.prim.gen_iff]
    exact .of_ray (List.mem_map_of_mem hr)
  have hEr : ∀ y : Fin (n + 1) → K, Sat f.crows y → ∀ e ∈ f.eqs, dot e y = 0 := fun y hy e he =>
    (hy e (by rw [crows_eq]; exact List.mem_append_left _ he)).2 (hok.min.eqs e he)
  have hlin : ∀ y : Fin (n + 1) → K, (∀ e ∈ f.eqs, dot e y = 0) → y 0 = 0 → Gen f.lines [] y := by
    intro y hy h0
    rw [← hok.min.prim.lin_iff]
    intro q hq
    have h1 := (hE y hy h0.ge q (by rw [crows_eq]; exact hq)).1
    have h2 := (hE (-y) (fun e he => by rw [← lin_apply, map_neg, lin_apply, hy e he, neg_zero]) (by rw [Pi.neg_apply, h0, neg_zero]) q
      (by rw [crows_eq]; exact hq)).1
    rw [← lin_apply, map_neg, lin_apply] at h2
    exact le_antisymm (by linarith) h1
  have hr0 : ∀ r ∈ f.rays, 0 < toV K (n + 1) r.row 0 := by
    intro r hr
    rcases (hpos _ (hray r hr)).lt_or_eq with h | h
    · exact h
    · exfalso
      have hg := hlin _ (hEr _ (hray r hr)) h.symm
      obtain ⟨q, hq, hne'⟩ := hok.min.prim.proper r hr
      apply hne'
      have := (hok.min.prim.lin_iff (toV K (n + 1) r.row)).2 hg q hq
      rw [dot_toV] at this
      exact_mod_cast this
  have h2 : ¬ 2 ≤ f.rays.length := by
    intro h2
    have h0 : 0 < f.rays.length := by omega
    refine hok.min.prim.irredundant 0 h0 ?_
    have m0 := List.getElem_mem h0
    have m1 := List.getElem_mem (show 1 < f.rays.length by omega)
    set a := toV K (n + 1) (f.rays[0]).row with hadef
    set b := toV K (n + 1) (f.rays[1]).row with hbdef
    have ha0 : 0 < a 0 := hr0 _ m0
    have hb0 : 0 < b 0 := hr0 _ m1
    have hmem : (f.rays[1]).row ∈ (f.rays.eraseIdx 0).map SRow.row :=
      List.mem_map_of_mem (List.mem_eraseIdx_iff_getElem.2 ⟨1, by omega, by omega, rfl⟩)
    have C := Gen.isCone (K := K) (d := n + 1) (lines := f.lines) (rays := (f.rays.eraseIdx 0).map SRow.row)
    have g : Gen f.lines [] (a - (a 0 / b 0) • b) := by
      refine hlin _ (fun e he => ?_) ?_
      · rw [← lin_apply, map_sub, map_smul, lin_apply, lin_apply, hEr a (hray _ m0) e he, hEr b (hray _ m1) e he]; simp
      · rw [Pi.sub_apply, Pi.smul_apply, smul_eq_mul, div_mul_cancel₀ _ hb0.ne', sub_self]
    have e : a = (a - (a 0 / b 0) • b) + (a 0 / b 0) • b := by rw [sub_add_cancel]
    rw [e]
    exact C.add (Gen.mono (fun q hq => hq) (fun q hq => by simp at hq) g) (C.smul (div_nonneg ha0.le hb0.le) (.of_ray hmem))
  have h1 : f.rays.length ≠ 0 := by
    intro h
    have h0 : f.rays = [] := List.length_eq_zero_iff.1 h
    have hg := hok.min.prim.gen (hom p) (by rw [← crows_eq]; exact hp)
    rw [h0, List.map_nil] at hg
    have hg' : Gen f.lines [] (-hom p) := by
      rw [← hok.min.prim.lin_iff] at hg ⊢
      intro q hq
      rw [← lin_apply, map_neg, lin_apply, hg q hq, neg_zero]
    have hs : Sat f.crows (-hom p) := by
      rw [crows_eq, hok.min.prim.gen_iff, h0]; exact hg'
    have := hpos _ hs
    rw [Pi.neg_apply, hom_zero] at this
    linarith
  have hl : f.rays.length = f.F.length - f.nbline := by rw [Full.rays, List.length_drop]
  have := hok.lel
  omega

end

/-- the matrices of the result of `equality_reduce` -/
def Rep.Shape (r : Rep) : Prop := r = .bot ∨ ∃ f, r = .both f

theorem eqReduce_spec {r : Rep} (hr : r.Wf K n) (hs : r.Shape) :
    (r.eqReduce n).Wf K n ∧ (r.eqReduce n).Shape ∧ ∀ x : Fin n → K, (r.eqReduce n).γ x ↔ Hull r.γ x := by
  rcases hs with rfl | ⟨f, rfl⟩
  · refine ⟨trivial, .inl rfl, fun x => ⟨fun h => h.elim, fun h => ?_⟩⟩
    exact hull_le (T := fun _ => False) (.of_closed fun _ _ _ _ h => h.elim) (fun _ h => h) h
  · rw [Rep.eqReduce]
    split_ifs with h
    · have hw : (Rep.cons (f.eqs ++ [posRow n])).Wf K n := cons_wf (by simp)
      refine ⟨chernikova_wf hw, chernikova_shape _ _, fun x => ?_⟩
      rw [chernikova_γ hw, ← eqs_hull hr]
      change Sat (f.eqs ++ [posRow n]) (hom x) ↔ _
      constructor
      · intro hs e he
        exact (hs e (List.mem_append_left _ he)).2 (hr.1.min.eqs e he)
      · intro hx q hq
        rw [List.mem_append, List.mem_singleton] at hq
        rcases hq with hq | rfl
        · rw [hx q hq]; exact ⟨le_rfl, fun _ => rfl⟩
        · rw [dot_posRow, hom_zero, posRow_status]
          exact ⟨zero_le_one, fun h => by simp at h⟩
    · exact ⟨hr, .inr ⟨f, rfl⟩, fun x => by rw [one_ineq hr (by omega), eqs_hull hr]⟩

/-- the values of the domain of equalities -/
structure Rep.EqOk (K : Type*) [LinearOrder K] [Field K] [IsStrictOrderedRing K] (n : ℕ) (r : Rep) : Prop where
  wf : r.Wf K n
  shape : r.Shape
  aff : IsAff (K := K) (n := n) r.γ

theorem eqReduce_ok {r : Rep} (hr : r.Wf K n) (hs : r.Shape) : (r.eqReduce n).EqOk K n :=
  have h := eqReduce_spec hr hs
  ⟨h.1, h.2.1, (hull_isAff r.γ).congr h.2.2⟩

theorem Rep.EqOk.check {r : Rep} (h : r.EqOk K n) : r.eqCheck = true := by
  obtain ⟨hw, rfl | ⟨f, rfl⟩, ha⟩ := h
  · rfl
  · simp [Rep.eqCheck, ineqs_length hw ha, rays_length hw ha]

/-! ## Chains -/

/-- an increasing sequence of affine sets is stationary -/
theorem aff_chain {S : ℕ → (Fin n → K) → Prop} (hS : ∀ k, IsAff (S k)) (hm : ∀ k x, S k x → S (k + 1) x) :
    ∃ N, ∀ k, N ≤ k → ∀ x, S k x ↔ S N x := by
  let W : ℕ →o Submodule K (Fin (n + 1) → K) :=
    ⟨fun k => Submodule.span K (hom '' {z | S k z}), monotone_nat_of_le_succ fun k => Submodule.span_mono (Set.image_mono fun z hz => hm k z hz)⟩
  obtain ⟨N, hN⟩ := monotone_stabilizes_iff_noetherian.2 (inferInstance : IsNoetherian K (Fin (n + 1) → K)) W
  have hmono : ∀ k j, k ≤ j → ∀ x, S k x → S j x := fun k j h => Nat.le_induction (fun x hx => hx) (fun m _ ih x hx => hm m x (ih x hx)) j h
  refine ⟨N, fun k hk x => ⟨fun hx => ?_, hmono N k hk x⟩⟩
  have e : Submodule.span K (hom '' {z | S N z}) = Submodule.span K (hom '' {z | S k z}) := hN k hk
  have hx' : hom x ∈ Submodule.span K (hom '' {z | S N z}) := by
    rw [e]; exact Submodule.subset_span ⟨x, hx, rfl⟩
  by_cases hne : ∃ p, S N p
  · obtain ⟨p, hp⟩ := hne
    exact (hull_eq (hS N) x).1 (hull_of_span hp hx')
  · have hE : {z | S N z} = ∅ := Set.eq_empty_iff_forall_notMem.2 fun z hz => hne ⟨z, hz⟩
    rw [hE, Set.image_empty, Submodule.span_empty, Submodule.mem_bot] at hx'
    have := congrFun hx' 0
    rw [hom_zero] at this
    exact absurd this one_ne_zero

end Apron.Poly
