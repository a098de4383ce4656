import Verif.Poly.PkExtract
import Verif.Props.PkCanon
import Verif.Props.PkUser

/-!
# C134: conversion of convex polyhedra to constraints and generators, hashing

`Rep.γ r` is the set of points of the polyhedron `r`, `Rep.Wf` the invariant of the representation (see `PkLattice`), `Rep.Nice`
says that the rows are primitive and that the flags of the representation are truthful (see `PkCanon`).
-/

set_option autoImplicit false
set_option linter.unusedSectionVars false
set_option linter.ambiguousOpen false

namespace Apron.Props

open Apron Apron.Poly Bound Linexpr

variable {n : ℕ}

/-! ## Dense expressions -/

theorem terms_dense (n : ℕ) (c : ℚ) (f : ℕ → ℚ) :
    (denseExpr n c f).terms = (List.range n).map fun d => (d, Coeff.scalar (fin (f d))) := by
  refine List.ext_getElem (by simp [denseExpr, Linexpr.terms]) fun i h1 h2 => ?_
  simp [denseExpr, Linexpr.terms]

theorem termsVal_nums (f x : ℕ → ℚ) (l : List ℕ) (r : ℚ) :
    TermsVal (l.map fun d => (d, Coeff.scalar (fin (f d)))) x r ↔ r = (l.map fun d => f d * x d).sum := by
  induction l generalizing r with
  | nil => simp [TermsVal]
  | cons a l ih =>
    simp only [List.map_cons, TermsVal, ih, List.sum_cons, Coeff.Has, fin.injEq]
    constructor
    · rintro ⟨q, s, rfl, rfl, rfl⟩; rfl
    · rintro rfl; exact ⟨_, _, rfl, rfl, rfl⟩

theorem val_dense (c : ℚ) (f : ℕ → ℚ) (x : Fin n → ℚ) (v : ℚ) :
    (denseExpr n c f).Val (ext x) v ↔ v = c + ∑ d : Fin n, f d * x d := by
  rw [Linexpr.Val, terms_dense]
  simp only [termsVal_nums]
  have e : ((List.range n).map fun d => f d * ext x d).sum = ∑ d : Fin n, f d * x d := by
    rw [Fin.sum_univ_def]
    have : List.range n = (List.finRange n).map fun d : Fin n => (d : ℕ) := by
      refine List.ext_getElem (by simp) fun i h1 h2 => ?_
      simp
    rw [this, List.map_map]
    congr 1
    exact List.map_congr_left fun d _ => by simp [ext_lt]
  rw [e]
  constructor
  · rintro ⟨q, r, hq, rfl, rfl⟩
    simp only [denseExpr, Coeff.Has, fin.injEq] at hq
    rw [hq]
  · rintro rfl
    exact ⟨c, _, by simp [denseExpr, Coeff.Has], rfl, rfl⟩

/-! ## Constraints -/

theorem holds_linconsOfRow (q : Row) (x : Fin n → ℚ) : (linconsOfRow n q).Holds (ext x) ↔ RowSat q x := by
  rw [Lincons.Holds, RowSat, dot_hom]
  simp only [linconsOfRow, val_dense]
  constructor
  · rintro ⟨v, rfl, h⟩
    by_cases h0 : q.at' 0 = 0
    · rw [if_neg (by simpa using h0)] at h
      exact ⟨le_of_eq h.symm, fun _ => h⟩
    · rw [if_pos h0] at h
      exact ⟨h, fun h => absurd h h0⟩
  · rintro ⟨h1, h2⟩
    refine ⟨_, rfl, ?_⟩
    split_ifs with h0
    · exact h1
    · exact h2 (by simpa using h0)

/-- `pk_to_lincons_array`: the points of the polyhedron are those that satisfy the constraints -/
theorem C134_to_lincons {r : Rep} (h : r.Wf ℚ n) (x : Fin n → ℚ) : r.γ x ↔ ∀ c ∈ r.toLincons n, c.Holds (ext x) := by
  have hw := chernikova3_wf h
  rw [← chernikova3_γ h, Rep.toLincons]
  cases e : r.chernikova3 n with
  | both f =>
    rw [e] at hw
    dsimp only
    change (∀ q ∈ f.crows, RowSat q x) ↔ _
    constructor
    · intro hx c hc
      obtain ⟨q, hq, rfl⟩ := List.mem_map.1 hc
      exact (holds_linconsOfRow q x).2 (hx q (List.mem_filter.1 hq).1)
    · intro hx q hq
      by_cases hd : isDummyCons n q = true
      · obtain ⟨y, hy⟩ := both_exists_point hw
        have h1 := hy q hq
        rw [isDummyCons, Bool.and_eq_true, Bool.and_eq_true, List.all_eq_true] at hd
        obtain ⟨⟨h0, _⟩, ha⟩ := hd
        have ha' : ∀ d : Fin n, q.at' (d + 2) = 0 := fun d => by
          have := ha d (List.mem_range.2 d.2)
          simpa using this
        have e2 : ∀ z : Fin n → ℚ, dot q (hom z) = q.at' 1 := fun z => by rw [dot_hom]; simp [ha']
        have h1' : RowSat q y := h1
        rw [RowSat, e2] at h1' ⊢
        exact h1'
      · exact (holds_linconsOfRow q x).1 (hx _ (List.mem_map.2 ⟨q, List.mem_filter.2 ⟨hq, by simpa using hd⟩, rfl⟩))
  | bot =>
    dsimp only
    constructor
    · exact fun hx => False.elim hx
    · intro hx
      obtain ⟨v, ⟨q, s, hq, hs, rfl⟩, hr⟩ := hx _ (List.mem_singleton_self _)
      simp [Linexpr.terms, TermsVal, Coeff.Has, Lincons.Rel] at hq hs hr
      rw [hs, ← hq] at hr
      norm_num at hr
  | cons C => rw [Rep.chernikova3] at e; rcases chernikova_shape n r with e' | ⟨f, e'⟩ <;> rw [e'] at e <;> cases e
  | gens F => rw [Rep.chernikova3] at e; rcases chernikova_shape n r with e' | ⟨f, e'⟩ <;> rw [e'] at e <;> cases e

/-- the half-line -/
example : half.toLincons 1 = [⟨.supeq, denseExpr 1 0 fun _ => 1⟩] := by decide +kernel

/-- the empty polyhedron -/
example : (Rep.cons [[1, 1, 0], [1, -1, 0]]).toLincons 1 = [⟨.supeq, ⟨.scalar (fin (-1)), .sparse []⟩⟩] := by decide +kernel

/-! ## Generators -/

/-- the coordinates of a dense generator -/
def Coords (e : Linexpr ℚ) (v : Fin n → ℚ) : Prop := e.body = .dense (List.ofFn fun d => Coeff.scalar (fin (v d)))

/-- the combinations of generators: any multiple of the lines, non-negative multiples of the rays and vertices; the first argument is
the sum of the weights of the vertices -/
inductive GHull (l : List (GenTyp × Linexpr ℚ)) : ℚ → (Fin n → ℚ) → Prop
  | zero : GHull l 0 0
  | line {w : ℚ} {x v : Fin n → ℚ} {e : Linexpr ℚ} (t : ℚ) : GHull l w x → (.line, e) ∈ l → Coords e v → GHull l w (x + t • v)
  | ray {w : ℚ} {x v : Fin n → ℚ} {e : Linexpr ℚ} (t : ℚ) : GHull l w x → (.ray, e) ∈ l → Coords e v → 0 ≤ t → GHull l w (x + t • v)
  | vertex {w : ℚ} {x v : Fin n → ℚ} {e : Linexpr ℚ} (t : ℚ) : GHull l w x → (.vertex, e) ∈ l → Coords e v → 0 ≤ t →
      GHull l (w + t) (x + t • v)

theorem coords_dense (c : ℚ) (f : ℕ → ℚ) (v : Fin n → ℚ) : Coords (denseExpr n c f) v ↔ ∀ d : Fin n, v d = f d := by
  have e : (List.range n).map (fun d => Coeff.scalar (fin (f d))) = List.ofFn fun d : Fin n => Coeff.scalar (fin (f d)) := by
    refine List.ext_getElem (by simp) fun i h1 h2 => ?_
    simp
  rw [Coords, denseExpr, e]
  simp only [Linbody.dense.injEq, List.ofFn_inj, funext_iff, Coeff.scalar.injEq, fin.injEq]
  exact forall_congr' fun d => eq_comm

theorem toV_tail (q : Row) (d : Fin n) : toV ℚ (n + 1) q d.succ = q.at' (d + 2) := by simp [toV]

theorem ghull_of_genM {F : List Row} (hp : PosCone (K := ℚ) (n := n) (GenM F)) {y : Fin (n + 1) → ℚ} (hy : GenM F y) :
    GHull (F.map (genOfRow n)) (y 0) fun d : Fin n => y d.succ := by
  have key : ∀ z : Fin (n + 1) → ℚ, Gen (eqRows F) (ineqRows F) z → GHull (F.map (genOfRow n)) (z 0) fun d : Fin n => z d.succ := by
    intro z hz
    induction hz with
    | zero => exact .zero
    | @line x q t _ hq ih =>
      rw [eqRows, List.mem_filter, beq_iff_eq] at hq
      have h1 := (gen_first hp hq.1).2 hq.2
      have e1 : (genOfRow n q).1 = .line := by rw [genOfRow, if_pos hq.2]
      have := GHull.line t ih (e := (genOfRow n q).2) (by rw [← e1]; exact List.mem_map.2 ⟨q, hq.1, rfl⟩)
        (v := fun d : Fin n => (q.at' (d + 2) : ℚ)) (by
          rw [genOfRow, coords_dense]; intro d; rw [if_neg (by simpa using h1)])
      have e2 : (x + t • toV ℚ (n + 1) q) 0 = x 0 := by
        rw [Pi.add_apply, Pi.smul_apply, toV_zero, h1]; simp
      have e3 : (fun d : Fin n => (x + t • toV ℚ (n + 1) q) d.succ) = (fun d : Fin n => x d.succ) + t • fun d : Fin n => (q.at' (d + 2) : ℚ) := by
        funext d; simp [toV_tail]
      rw [e2, e3]; exact this
    | @ray x q t _ hq ht ih =>
      rw [ineqRows, List.mem_filter, bne_iff_ne] at hq
      have h1 := (gen_first hp hq.1).1
      by_cases h0 : q.at' 1 = 0
      · have e1 : (genOfRow n q).1 = .ray := by rw [genOfRow, if_neg hq.2, if_pos h0]
        have := GHull.ray t ih (e := (genOfRow n q).2) (by rw [← e1]; exact List.mem_map.2 ⟨q, hq.1, rfl⟩)
          (v := fun d : Fin n => (q.at' (d + 2) : ℚ)) (by
            rw [genOfRow, coords_dense]; intro d; rw [if_neg (by simpa using h0)]) ht
        have e2 : (x + t • toV ℚ (n + 1) q) 0 = x 0 := by
          rw [Pi.add_apply, Pi.smul_apply, toV_zero, h0]; simp
        have e3 : (fun d : Fin n => (x + t • toV ℚ (n + 1) q) d.succ) = (fun d : Fin n => x d.succ) + t • fun d : Fin n => (q.at' (d + 2) : ℚ) := by
          funext d; simp [toV_tail]
        rw [e2, e3]; exact this
      · have hpos : (0 : ℚ) < q.at' 1 := by exact_mod_cast lt_of_le_of_ne h1 (Ne.symm h0)
        have e1 : (genOfRow n q).1 = .vertex := by rw [genOfRow, if_neg hq.2, if_neg h0]
        have := GHull.vertex (t * q.at' 1) ih (e := (genOfRow n q).2) (by rw [← e1]; exact List.mem_map.2 ⟨q, hq.1, rfl⟩)
          (v := fun d : Fin n => (q.at' (d + 2) : ℚ) / q.at' 1) (by
            rw [genOfRow, coords_dense]; intro d; rw [if_pos h0]) (mul_nonneg ht hpos.le)
        have e2 : (x + t • toV ℚ (n + 1) q) 0 = x 0 + t * q.at' 1 := by
          rw [Pi.add_apply, Pi.smul_apply, toV_zero, smul_eq_mul]
        have e3 : (fun d : Fin n => (x + t • toV ℚ (n + 1) q) d.succ) =
            (fun d : Fin n => x d.succ) + (t * q.at' 1) • fun d : Fin n => (q.at' (d + 2) : ℚ) / q.at' 1 := by
          funext d
          simp only [Pi.add_apply, Pi.smul_apply, smul_eq_mul, toV_tail]
          field_simp
        rw [e2, e3]; exact this
  exact key y hy

theorem genM_of_ghull {F : List Row} (hp : PosCone (K := ℚ) (n := n) (GenM F)) {w : ℚ} {x : Fin n → ℚ}
    (h : GHull (F.map (genOfRow n)) w x) : GenM F (Fin.cons w x : Fin (n + 1) → ℚ) := by
  induction h with
  | zero =>
    have : (Fin.cons 0 0 : Fin (n + 1) → ℚ) = 0 := by
      funext d; refine Fin.cases ?_ (fun d => ?_) d <;> simp
    rw [this]; exact Gen.zero
  | @line w x v e t _ hm hv ih =>
    obtain ⟨q, hq, e'⟩ := List.mem_map.1 hm
    rw [genOfRow, Prod.mk.injEq] at e'
    have h0 : q.at' 0 = 0 := by
      by_contra h0
      have := e'.1
      rw [if_neg h0] at this
      split_ifs at this
    have h1 := (gen_first hp hq).2 h0
    rw [← e'.2, coords_dense] at hv
    have : (Fin.cons w (x + t • v) : Fin (n + 1) → ℚ) = Fin.cons w x + t • toV ℚ (n + 1) q := by
      funext d; refine Fin.cases ?_ (fun d => ?_) d
      · rw [Pi.add_apply, Pi.smul_apply, toV_zero, h1]; simp
      · simp only [Fin.cons_succ, Pi.add_apply, Pi.smul_apply, toV_tail, hv d, if_neg (show ¬ q.at' 1 ≠ 0 by simpa using h1)]
    rw [this]
    exact Gen.line t ih (List.mem_filter.2 ⟨hq, by simpa using h0⟩)
  | @ray w x v e t _ hm hv ht ih =>
    obtain ⟨q, hq, e'⟩ := List.mem_map.1 hm
    rw [genOfRow, Prod.mk.injEq] at e'
    have h0 : q.at' 0 ≠ 0 := by
      intro h0
      have := e'.1
      rw [if_pos h0] at this
      cases this
    have h1 : q.at' 1 = 0 := by
      by_contra h1
      have := e'.1
      rw [if_neg h0, if_neg h1] at this
      cases this
    rw [← e'.2, coords_dense] at hv
    have : (Fin.cons w (x + t • v) : Fin (n + 1) → ℚ) = Fin.cons w x + t • toV ℚ (n + 1) q := by
      funext d; refine Fin.cases ?_ (fun d => ?_) d
      · rw [Pi.add_apply, Pi.smul_apply, toV_zero, h1]; simp
      · simp only [Fin.cons_succ, Pi.add_apply, Pi.smul_apply, toV_tail, hv d, if_neg (show ¬ q.at' 1 ≠ 0 by simpa using h1)]
    rw [this]
    exact Gen.ray t ih (List.mem_filter.2 ⟨hq, by simpa using h0⟩) ht
  | @vertex w x v e t _ hm hv ht ih =>
    obtain ⟨q, hq, e'⟩ := List.mem_map.1 hm
    rw [genOfRow, Prod.mk.injEq] at e'
    have h0 : q.at' 0 ≠ 0 := by
      intro h0
      have := e'.1
      rw [if_pos h0] at this
      cases this
    have h1 : q.at' 1 ≠ 0 := by
      intro h1
      have := e'.1
      rw [if_neg h0, if_pos h1] at this
      cases this
    have hpos : (0 : ℚ) < q.at' 1 := by exact_mod_cast lt_of_le_of_ne (gen_first hp hq).1 (Ne.symm h1)
    rw [← e'.2, coords_dense] at hv
    have : (Fin.cons (w + t) (x + t • v) : Fin (n + 1) → ℚ) = Fin.cons w x + (t / q.at' 1) • toV ℚ (n + 1) q := by
      funext d; refine Fin.cases ?_ (fun d => ?_) d
      · rw [Pi.add_apply, Pi.smul_apply, toV_zero, smul_eq_mul, div_mul_cancel₀ _ hpos.ne']; simp
      · simp only [Fin.cons_succ, Pi.add_apply, Pi.smul_apply, toV_tail, hv d, if_pos h1, smul_eq_mul]
        field_simp
    rw [this]
    exact Gen.ray _ ih (List.mem_filter.2 ⟨hq, by simpa using h0⟩) (div_nonneg ht hpos.le)

theorem ghull_nil {w : ℚ} {x : Fin n → ℚ} (h : GHull [] w x) : w = 0 := by
  induction h with
  | zero => rfl
  | line _ _ hm => cases hm
  | ray _ _ hm => cases hm
  | vertex _ _ hm => cases hm

/-- `pk_to_generator_array`: the points of the polyhedron are the combinations of its generators in which the weights of the vertices
sum to 1 -/
theorem C134_to_generators {r : Rep} (h : r.Wf ℚ n) (x : Fin n → ℚ) : r.γ x ↔ GHull (r.toGenerators n) 1 x := by
  have hw := chernikova3_wf h
  rw [← chernikova3_γ h, Rep.toGenerators]
  cases e : r.chernikova3 n with
  | both f =>
    rw [e] at hw
    dsimp only
    have hg : ∀ y : Fin (n + 1) → ℚ, (Rep.both f).cone y ↔ GenM f.frows y := fun y => hw.genM (F := f.frows) rfl y
    have hp : PosCone (K := ℚ) (n := n) (GenM f.frows) := fun y hy => hw.2.1 y ((hg y).2 hy)
    change (Rep.both f).cone (hom x) ↔ _
    rw [hg]
    constructor
    · intro hx
      have := ghull_of_genM hp hx
      simpa [hom] using this
    · intro hx
      exact genM_of_ghull hp hx
  | bot =>
    constructor
    · exact fun hx => False.elim hx
    · intro hx
      exact absurd (ghull_nil hx) one_ne_zero
  | cons C => rw [Rep.chernikova3] at e; rcases chernikova_shape n r with e' | ⟨f, e'⟩ <;> rw [e'] at e <;> cases e
  | gens F => rw [Rep.chernikova3] at e; rcases chernikova_shape n r with e' | ⟨f, e'⟩ <;> rw [e'] at e <;> cases e

/-- the half-line: the vertex 0 and a ray -/
example : half.toGenerators 1 = [(.vertex, denseExpr 1 0 fun _ => 0), (.ray, denseExpr 1 0 fun _ => 1)] := by decide +kernel

/-! ## Hashing -/

theorem vectorHash_congr (toInt : ℤ → ℤ) {p q : Row} (h : ∀ j, j < n + 2 → p.at' j = q.at' j) :
    vectorHash toInt n p = vectorHash toInt n q := by
  rw [vectorHash, vectorHash, h 1 (by omega)]
  refine List.foldl_ext _ _ _ fun a d hd => ?_
  rw [strided, List.mem_filter, List.mem_range] at hd
  rw [h (d + 2) (by omega)]

theorem hashRows_congr (toInt : ℤ → ℤ) {A B : List Row} (h : entries n A = entries n B) (res : ℤ) :
    hashRows toInt n A res = hashRows toInt n B res := by
  have hl : A.length = B.length := by have := congrArg List.length h; simpa [entries] using this
  rw [hashRows, hashRows, hl]
  refine List.foldl_ext _ _ _ fun a i hi => ?_
  rw [strided, List.mem_filter, List.mem_range] at hi
  congr 1
  refine vectorHash_congr toInt fun j hj => ?_
  have h1 : i < A.length := by omega
  have h2 : i < B.length := hi.1
  have e : (entries n A)[i]'(by simpa [entries] using h1) = (entries n B)[i]'(by simpa [entries] using h2) := by
    congr 1
  simp only [entries, List.getElem_map] at e
  have := congrArg (fun l => l[j]?) e
  simp only [List.getElem?_map, List.getElem?_range hj, Option.map_some, Option.some.injEq] at this
  rw [List.getD_eq_getElem _ _ h1, List.getD_eq_getElem _ _ h2]
  exact this

/-- `pk_hash`: equal polyhedra have equal hash codes -/
theorem C134_hash (toInt : ℤ → ℤ) {intdim realdim : ℕ} {pa pb : Rep} (ha : pa.Wf ℚ (intdim + realdim)) (na : pa.Nice (intdim + realdim))
    (hb : pb.Wf ℚ (intdim + realdim)) (nb : pb.Nice (intdim + realdim))
    (h : ∀ x : Fin (intdim + realdim) → ℚ, pa.γ x ↔ pb.γ x) :
    pa.hash toInt intdim realdim = pb.hash toInt intdim realdim := by
  have := C108_canonical_unique (alg := 0) le_rfl ha na hb nb h
  simp only [Rep.canonicalize, le_refl, if_true] at this
  rw [Rep.hash, Rep.hash]
  rcases this with ⟨e1, e2⟩ | ⟨fa, fb, e1, e2, h1, h2, -, -⟩
  · rw [e1, e2]
  · rw [e1, e2]
    dsimp only
    have l1 : fa.crows.length = fb.crows.length := by have := congrArg List.length h1; simpa [entries] using this
    have l2 : fa.frows.length = fb.frows.length := by have := congrArg List.length h2; simpa [entries] using this
    rw [l1, l2, hashRows_congr toInt h1, hashRows_congr toInt h2]

theorem half_nice : half.Nice 1 := by
  intro q hq
  have : q = [1, 1, 0] ∨ q = [1, 0, 1] := by simpa using hq
  rcases this with rfl | rfl
  · exact fun g h => .inl (h 0 (by decide))
  · exact fun g h => .inl (h 1 (by decide))

/-- two descriptions of the half-line -/
example (toInt : ℤ → ℤ) : half.hash toInt 0 1 = (Rep.cons [[1, 3, 1], [1, 1, 0], [1, 0, 1]]).hash toInt 0 1 := by
  refine C134_hash toInt half_wf half_nice (cons_wf (by decide)) ?_ fun x => ?_
  · intro q hq
    have : q = [1, 3, 1] ∨ q = [1, 1, 0] ∨ q = [1, 0, 1] := by simpa using hq
    rcases this with rfl | rfl | rfl
    · exact fun g h => .inl (h 1 (by decide))
    · exact fun g h => .inl (h 0 (by decide))
    · exact fun g h => .inl (h 1 (by decide))
  · rw [half_γ]
    change _ ↔ Sat [[1, 3, 1], [1, 1, 0], [1, 0, 1]] (hom x)
    simp [Sat, dot, Row.at', hom, Fin.sum_univ_succ]
    intro h
    linarith

end Apron.Props
