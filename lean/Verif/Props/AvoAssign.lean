import Verif.Avo.AssignLemmas
import Verif.Props.AvoResize
import Verif.Oct.ShapeLemmas

/-!
# Property theorems: assignments of absolute-value octagons (C143)
-/

set_option autoImplicit false
set_option linter.unusedSectionVars false
set_option linter.ambiguousOpen false

namespace Apron
open Bound Oct Avo AvoT
variable {K : Type*} [LinearOrder K] [Field K] [IsStrictOrderedRing K] [FloorRing K] (R : Rnd K) (alg : ℤ)

namespace AvoT

/-- `dest` is a well-formed value of the same dimension containing the point -/
def DestOk (dest : Option (AvoT K)) (dim : ℕ) (y : ℕ → K) : Prop :=
  ∀ b, dest = some b → Wf b ∧ b.dim = dim ∧ b.Gam y

theorem meetDest_ssat {dest : Option (AvoT K)} {dim : ℕ} {M : SMem K}
    (hw : ∀ b, dest = some b → Wf b ∧ b.dim = dim ∧ b.best.isSome) :
    ∃ M', AvoT.meetDest M dest = some M' ∧ ∀ y, SSat dim M y → DestOk dest dim y → SSat dim M' y := by
  unfold AvoT.meetDest
  rcases dest with _ | b
  · exact ⟨M, rfl, fun y h _ => h⟩
  · obtain ⟨h1, h2, h3⟩ := hw b rfl
    obtain ⟨m2, hm⟩ := Option.isSome_iff_exists.1 h3
    obtain ⟨n2, hn, -, hg⟩ := h1.view hm
    dsimp only
    rw [hm, hn]
    refine ⟨_, rfl, fun y h hd => ?_⟩
    have hb := (hg y).1 (hd b rfl).2.2
    rw [h2] at hb
    intro i j hi hc
    exact okT_pinf.1 (SB.min_ok (okT_pinf.2 (h i j hi hc)) (okT_pinf.2 (hb i j hi hc)))

/-- soundness of `avo_assign_linexpr_d_fixed_sign` in the cases of `AssignOk` -/
theorem assignFixed_sound {algo : ℤ} {a : AvoT K} (ha : Wf a) (halg : alg = 2 → a.dim ≤ 30) {d : ℕ}
    (hd : d < a.dim) {e : Linexpr K} (he : e.InDim a.dim) {dest : Option (AvoT K)}
    (hdest : ∀ b, dest = some b → Wf b ∧ b.dim = a.dim)
    (hok : (uexprOf R e 0).1.type ≠ .empty → ∀ a' m n,
      (if (uexprOf R e 0).1.type ≠ .unary ∨ (uexprOf R e 0).1.i ≠ d then cacheIf R alg algo a else some a) = some a' →
      a'.best = some m → a'.nsc = some n →
      AssignOk R (uexprOf R e 0).1 (uexprOf R e 0).2 a.dim d m n
        (a'.closed.isSome && decide (0 ≤ algo) && dest.isNone)) :
    ∃ r, AvoT.assignFixed R alg algo a d e dest = some r ∧ r.dim = a.dim ∧ r.intdim = a.intdim ∧
      ∀ x v, a.Gam x → e.Val x v → DestOk dest a.dim (Function.update x d v) →
        r.Gam (Function.update x d v) := by
  unfold AvoT.assignFixed
  dsimp only
  by_cases h1 : (dest.map fun b => b.best.isNone) = some true
  · rw [if_pos h1]
    refine ⟨_, rfl, rfl, rfl, fun x v hx hv hD => ?_⟩
    rcases dest with _ | b
    · simp at h1
    · have : b.best = none := by simpa using h1
      exact absurd (hD b rfl).2.2 (gam_none this _)
  rw [if_neg h1]
  by_cases h2 : (uexprOf R e 0).1.type = .empty
  · rw [if_pos h2]
    exact ⟨_, rfl, rfl, rfl, fun x v hx hv hD => absurd hv (uexpr_empty R h2 _ _)⟩
  rw [if_neg h2]
  obtain ⟨a', ha', hw, hdim, hint, hgam⟩ : ∃ a', (if (uexprOf R e 0).1.type ≠ .unary ∨ (uexprOf R e 0).1.i ≠ d
      then cacheIf R alg algo a else some a) = some a' ∧ Wf a' ∧ a'.dim = a.dim ∧ a'.intdim = a.intdim ∧
      ∀ x, a'.Gam x ↔ a.Gam x := by
    split_ifs
    · exact cacheIf_spec R algo ha halg
    · exact ⟨a, rfl, ha, rfl, rfl, fun _ => Iff.rfl⟩
  have hok' := hok h2 a'
  rw [ha'] at hok' ⊢
  rw [Option.bind_some]
  rcases hm : a'.best with _ | m
  · exact ⟨_, rfl, hdim, hint, fun x v hx _ _ => absurd ((hgam x).2 hx) (gam_none hm x)⟩
  · obtain ⟨n, hn, -, hg⟩ := hw.view hm
    rw [hn]
    have hok'' := hok' m n rfl hm hn
    obtain ⟨M', hM, hs⟩ := meetDest_ssat (dest := dest) (dim := a.dim) (M := Avo.hmatAssign R alg (uexprOf R e 0).1 (uexprOf R e 0).2 a'.dim d m n
        (a'.closed.isSome && decide (0 ≤ algo) && dest.isNone)) (fun b hb => by
      refine ⟨(hdest b hb).1, (hdest b hb).2, ?_⟩
      rw [hb] at h1
      cases hbb : b.best with
      | none => simp [hbb] at h1
      | some _ => rfl)
    dsimp only
    rw [Option.bind_some, hM, Option.map_some]
    refine ⟨_, rfl, hdim, hint, fun x v hx hv hD => ?_⟩
    rw [gam_ofM, hdim]
    refine hs _ ?_ hD
    rw [hdim]
    refine hmatAssign_ssat R hd ?_ (uexpr_class R he _) (val_form R he hv) hok''
    have := (hg x).1 ((hgam x).2 hx)
    rwa [hdim] at this

/-- when the sign of the variable is known the assignment is done at once -/
theorem assignLinexpr_fixed {algo : ℤ} {a : AvoT K} {d : ℕ} {e : Linexpr K} {dest : Option (AvoT K)} {m : Mem K}
    (hm : a.best = some m)
    (hs : m (matpos2 (2 * d + 1) (2 * d)) ≤ fin 0 ∨ m (matpos2 (2 * d) (2 * d + 1)) ≤ fin 0) :
    AvoT.assignLinexpr R alg algo a d e dest = AvoT.assignFixed R alg algo a d e dest := by
  unfold AvoT.assignLinexpr
  rw [hm, Option.bind_some, if_pos hs]

end AvoT

/-- Partial (for C143): `x_d := e` is sound when the sign of `x_d` is known, the closure is not maintained
(no closure wanted, or a `dest` is given), the last variable does not occur in `e` or `e` has at most one
term, of coefficient 1 or -1, and either `x_d` does not occur in `e` or no constraint on `x_d` is strict.
Missing: the other cases, where the marks of strictness are not updated. -/
theorem C143_assign_partial (algo : ℤ) (a : AvoT K) (ha : Wf a) (halg : alg = 2 → a.dim ≤ 30) (d : ℕ)
    (hd : d < a.dim) (e : Linexpr K) (he : e.InDim a.dim) (dest : Option (AvoT K))
    (hdest : ∀ b, dest = some b → Wf b ∧ b.dim = a.dim) (m : Mem K) (hm : a.best = some m)
    (hs : m (matpos2 (2 * d + 1) (2 * d)) ≤ fin 0 ∨ m (matpos2 (2 * d) (2 * d + 1)) ≤ fin 0)
    (hmode : algo < 0 ∨ dest ≠ none)
    (hlast : a.dim - 1 ∉ e.terms.map Prod.fst ∨ (e.UnitShape ∧ R.up 1 = fin 1 ∧ R.up (-1) = fin (-1)))
    (hself : d ∉ e.terms.map Prod.fst ∨ ∀ n, a.nsc = some n → NoMarks a.dim d n) :
    ∃ r, AvoT.assignLinexpr R alg algo a d e dest = some r ∧ r.dim = a.dim ∧ r.intdim = a.intdim ∧
      ∀ x v, a.Gam x → e.Val x v →
        (∀ b, dest = some b → b.Gam (Function.update x d v)) → r.Gam (Function.update x d v) := by
  rw [assignLinexpr_fixed R alg hm hs]
  have hres : ∀ a' : AvoT K, (a'.closed.isSome && decide (0 ≤ algo) && dest.isNone) = false := by
    intro a'
    rcases hmode with h | h
    · rw [decide_eq_false (by omega)]; simp
    · cases dest with
      | none => exact absurd rfl h
      | some b => simp
  obtain ⟨r, h1, h2, h3, h4⟩ := AvoT.assignFixed_sound R alg (algo := algo) ha halg hd he hdest (by
    intro hne a' m' n' ha' hm' hn'
    unfold AssignOk
    have hcl := uexpr_class R he 0
    unfold ClassOk at hcl
    have hgen : (uexprOf R e 0).1.type = .binary ∨ (uexprOf R e 0).1.type = .other →
        GenOk R (uexprOf R e 0).2 a.dim m' := by
      intro ht
      rcases hlast with h | ⟨h, h1, h2⟩
      · exact genOk_of_zero R (uexpr_zeroAt R h)
      · obtain ⟨n1, n2⟩ := uexpr_unit R h h1 h2 0
        rcases ht with ht | ht
        · exact absurd ht n2
        · exact absurd ht n1
    cases ht : (uexprOf R e 0).1.type with
    | empty => exact absurd ht hne
    | zero => exact hres a'
    | unary =>
      rw [ht] at hcl
      refine ⟨fun _ => hres a', fun hi _ => ?_⟩
      rcases hself with h | h
      · have hz := uexpr_zeroAt R (intdim := 0) h
        have hu := hcl.2.1
        rw [hi] at hu
        unfold UnitAt at hu
        have e1 := hz.2.symm.trans hu.2.2
        rcases hu.1 with h1 | h1 <;> rw [h1] at e1 <;> simp at e1
      · rw [if_neg (by rw [ht, hi]; simp)] at ha'
        obtain rfl := Option.some.inj ha'
        exact h n' hn'
    | binary => exact hgen (Or.inl ht)
    | other => exact hgen (Or.inr ht))
  exact ⟨r, h1, h2, h3, fun x v hx hv hD => h4 x v hx hv fun b hb =>
    ⟨(hdest b hb).1, (hdest b hb).2, hD b hb⟩⟩

/-- `x_d := x_d + [l,u]` is sound for every algorithm when the sign of `x_d` is known -/
theorem C143_shift_sound (algo : ℤ) (a : AvoT K) (ha : Wf a) (halg : alg = 2 → a.dim ≤ 30) (d : ℕ)
    (hd : d < a.dim) (e : Linexpr K) (he : e.terms = [(d, .scalar (fin 1))])
    (hr1 : R.up 1 = fin 1) (hr2 : R.up (-1) = fin (-1)) (dest : Option (AvoT K))
    (hdest : ∀ b, dest = some b → Wf b ∧ b.dim = a.dim) (m : Mem K) (hm : a.best = some m)
    (hs : m (matpos2 (2 * d + 1) (2 * d)) ≤ fin 0 ∨ m (matpos2 (2 * d) (2 * d + 1)) ≤ fin 0) :
    ∃ r, AvoT.assignLinexpr R alg algo a d e dest = some r ∧ r.dim = a.dim ∧ r.intdim = a.intdim ∧
      ∀ x q, a.Gam x → e.cst.Has q →
        (∀ b, dest = some b → b.Gam (Function.update x d (x d + q))) →
        r.Gam (Function.update x d (x d + q)) := by
  rw [assignLinexpr_fixed R alg hm hs]
  have hin : e.InDim a.dim := by
    unfold Linexpr.InDim
    rw [he]
    simp [hd]
  obtain ⟨r, h1, h2, h3, h4⟩ := AvoT.assignFixed_sound R alg (algo := algo) ha halg hd hin hdest (by
    intro hne a' m' n' ha' hm' hn'
    unfold AssignOk
    have hcl := uexpr_class R hin 0
    unfold ClassOk at hcl
    have hdst : (uexprOf R e 0).2 (2 * d + 2) = fin (-1) ∧ (uexprOf R e 0).2 (2 * d + 3) = fin 1 := by
      unfold uexprOf
      rw [he, List.foldl_cons, List.foldl_nil]
      unfold termStep coeffStep
      dsimp only
      refine ⟨?_, ?_⟩
      · rw [Function.update_of_ne (by omega), Function.update_self]
        simp [Coeff.reduce, Coeff.inf, OctT.ofScalar, Bound.neg, hr2]
      · rw [Function.update_self]
        simp [Coeff.reduce, Coeff.sup, OctT.ofScalar, hr1]
    have hty : (uexprOf R e 0).1.type = .unary := by
      have : (uexprOf R e 0).1.type = nextTy (coeffStep R e.cst 0 ⟨.zero, 0, 0, 0, 0, true⟩ (fun _ => fin 0)).1.type := by
        unfold uexprOf
        rw [he, List.foldl_cons, List.foldl_nil]
        exact termStep_unit R hr1 hr2 _ d (Or.inl rfl)
      rcases cst_type R e with h | h
      · rw [this, h]; rfl
      · rw [h] at this; exact absurd this hne
    rw [hty] at hcl ⊢
    obtain ⟨-, hu, hz⟩ := hcl
    have hi : (uexprOf R e 0).1.i = d := by
      by_contra hne
      have := (hz d (fun h => hne h.symm)).2
      rw [hdst.2] at this
      simp at this
    refine ⟨fun h => absurd hi h, fun _ hc => ?_⟩
    have := hu.2.2
    rw [hi, hdst.2, hc] at this
    exfalso
    simp at this
    linarith [zero_lt_one (α := K)])
  refine ⟨r, h1, h2, h3, fun x q hx hq hD => h4 x _ hx ?_ fun b hb =>
    ⟨(hdest b hb).1, (hdest b hb).2, hD b hb⟩⟩
  refine ⟨q, x d, hq, ?_, by ring⟩
  rw [he]
  exact ⟨1, 0, rfl, rfl, by ring⟩

/-! ## defects -/

/-- the closed value `0 <= x < 5`, with all the constraints it implies between `x` and `|x|` -/
def AvoT.exC : AvoT ℚ := ofClosed 1 0 fun q =>
  if q = 2 ∨ q = 8 ∨ q = 10 then (fin 10, fin 0) else (fin 0, pinf)

theorem AvoT.exC_wf : exC.Wf := by
  refine wf_ofClosed fun i hi => ?_
  have : ∀ i, i < 4 → ¬ (matpos i i = 2 ∨ matpos i i = 8 ∨ matpos i i = 10) := by decide
  rw [if_neg (this i hi)]

theorem AvoT.exC_gam {q : ℚ} (h0 : 0 ≤ q) (h5 : q < 5) : exC.Gam fun _ => q := by
  unfold exC
  rw [gam_ofClosed]
  intro i j hi hc
  have ha : |q| = q := abs_of_nonneg h0
  have : (i = 0 ∨ i = 1 ∨ i = 2 ∨ i = 3) ∧ (j = 0 ∨ j = 1 ∨ j = 2 ∨ j = 3) := by unfold Cell at hc; omega
  obtain ⟨rfl | rfl | rfl | rfl, rfl | rfl | rfl | rfl⟩ := this <;>
    first
    | (exfalso; revert hc; decide)
    | (beta_reduce
       rw [if_pos (by decide)]
       refine ⟨?_, fun _ => ?_⟩ <;> simp [V, ext, ha] <;> linarith)
    | (beta_reduce
       rw [if_neg (by decide)]
       refine ⟨?_, fun h => absurd rfl h⟩
       simp [V, ext, ha] <;> linarith)

/-- the value of a result, read on one cell -/
def AvoT.peek (r : Option (AvoT ℚ)) (q : ℕ) : Option (ℕ × Bool × Bound ℚ × Bound ℚ) :=
  r.bind fun r => r.m.bind fun m => r.nsc.map fun n => (r.dim, r.closed.isNone, m q, n q)

theorem AvoT.peek_not {r : Option (AvoT ℚ)} {i j : ℕ} (hi : i < 4) (hc : Cell i j) {b n : Bound ℚ}
    (h : AvoT.peek r (matpos i j) = some (1, true, b, n)) :
    ∃ r', r = some r' ∧ ∀ x, r'.Gam x → Ok (V (ext 1 x) j - V (ext 1 x) i) (b, n) := by
  unfold peek at h
  rcases r with _ | r
  · simp at h
  rw [Option.bind_some] at h
  rcases hm : r.m with _ | m <;> rw [hm] at h
  · simp at h
  rw [Option.bind_some] at h
  rcases hn : r.nsc with _ | n' <;> rw [hn] at h
  · simp at h
  simp only [Option.map_some, Option.some.injEq, Prod.mk.injEq, Option.isNone_iff_eq_none] at h
  obtain ⟨h1, h2, h3, h4⟩ := h
  refine ⟨r, rfl, fun x hx => ?_⟩
  obtain ⟨m', hm', hs⟩ := hx
  have e : m' = m := by
    unfold best at hm'
    rw [h2, hm] at hm'
    simpa using hm'.symm
  subst e
  rw [hn] at hs
  have := hs i j (by rw [h1]; exact hi) hc
  rw [h1] at this
  change Ok _ (m' (matpos i j), n' (matpos i j)) at this
  rwa [h3, h4] at this

/-- DEFECT: `x := 3` on the closed value `0 <= x < 5` gives a value that does not contain `3`: the bound of
`x` is written, its mark of strictness is the old one (avoct/avo_transfer.c:665-668) -/
theorem C143_assign_constant_unsound : Wf exC ∧ (exC.Gam fun _ => 1) ∧
    (⟨.scalar (fin 3), .sparse []⟩ : Linexpr ℚ).Val (fun _ => 1) 3 ∧
    ∃ r, AvoT.assignLinexpr Rnd.exact 0 0 exC 0 ⟨.scalar (fin 3), .sparse []⟩ none = some r ∧
      ¬ r.Gam (Function.update (fun _ => 1) 0 3) := by
  refine ⟨exC_wf, exC_gam (by norm_num) (by norm_num), ⟨3, 0, rfl, rfl, by norm_num⟩, ?_⟩
  have hv : AvoT.peek (AvoT.assignLinexpr Rnd.exact 0 0 exC 0 ⟨.scalar (fin 3), .sparse []⟩ none)
      (matpos 1 0) = some (1, true, fin 6, fin 0) := by decide +kernel
  obtain ⟨r, hr, h⟩ := AvoT.peek_not (by decide) (by decide) hv
  refine ⟨r, hr, fun hg => ?_⟩
  have := (h _ hg).2 (by simp)
  simp [V, ext] at this
  norm_num at this

/-- DEFECT: `x := -x` on `0 <= x < 5` excludes the image `0` of `0`: the marks of the bounds of `x` are
not exchanged (avoct/avo_transfer.c:710-714) -/
theorem C143_assign_opposite_unsound : Wf exC ∧ (exC.Gam fun _ => 0) ∧
    (⟨.scalar (fin 0), .sparse [(0, .scalar (fin (-1)))]⟩ : Linexpr ℚ).Val (fun _ => 0) 0 ∧
    ∃ r, AvoT.assignLinexpr Rnd.exact 0 0 exC 0 ⟨.scalar (fin 0), .sparse [(0, .scalar (fin (-1)))]⟩ none = some r ∧
      ¬ r.Gam (Function.update (fun _ => 0) 0 0) := by
  refine ⟨exC_wf, exC_gam (by norm_num) (by norm_num), ⟨0, 0, rfl, ⟨-1, 0, rfl, rfl, by norm_num⟩, by norm_num⟩, ?_⟩
  have hv : AvoT.peek (AvoT.assignLinexpr Rnd.exact 0 0 exC 0 ⟨.scalar (fin 0), .sparse [(0, .scalar (fin (-1)))]⟩ none)
      (matpos 1 0) = some (1, true, fin 0, fin 0) := by decide +kernel
  obtain ⟨r, hr, h⟩ := AvoT.peek_not (by decide) (by decide) hv
  refine ⟨r, hr, fun hg => ?_⟩
  have := (h _ hg).2 (by simp)
  simp [V, ext] at this

/-- DEFECT: the function reads through a null pointer on every empty value -/
theorem C143_assign_bottom_undefined (algo : ℤ) (dim intdim d : ℕ) (e : Linexpr K) (dest : Option (AvoT K)) :
    AvoT.assignLinexpr R alg algo (AvoT.bottom dim intdim) d e dest = none := rfl

/-- DEFECT: the assignment leaves `+oo` on the diagonal of `|x|`, so its result does not meet the
invariant the other operations rely on -/
theorem C143_assign_loses_diagonal : ∃ r, Wf exC ∧
    AvoT.assignLinexpr Rnd.exact 0 0 exC 0 ⟨.scalar (fin 1), .sparse [(0, .scalar (fin 1))]⟩ none = some r ∧
    ¬ Wf r := by
  have hv : AvoT.peek (AvoT.assignLinexpr Rnd.exact 0 0 exC 0 ⟨.scalar (fin 1), .sparse [(0, .scalar (fin 1))]⟩ none)
      (matpos 2 2) = some (1, true, pinf, pinf) := by decide +kernel
  unfold peek at hv
  cases hr : AvoT.assignLinexpr Rnd.exact 0 0 exC 0 ⟨.scalar (fin 1), .sparse [(0, .scalar (fin 1))]⟩ none with
  | none => rw [hr] at hv; simp at hv
  | some r =>
    refine ⟨r, exC_wf, rfl, fun hw => ?_⟩
    rw [hr, Option.bind_some] at hv
    rcases hm : r.m with _ | m <;> rw [hm] at hv
    · simp at hv
    rw [Option.bind_some] at hv
    rcases hn : r.nsc with _ | n' <;> rw [hn] at hv
    · simp at hv
    simp only [Option.map_some, Option.some.injEq, Prod.mk.injEq] at hv
    have := hw.dm m hm 2 (by rw [hv.1]; decide)
    rw [hv.2.2.1] at this
    simp at this

/-! ## the hypotheses can be met -/

example : ∃ r, AvoT.assignLinexpr Rnd.exact 0 0 exC 0 ⟨.scalar (fin 1), .sparse [(0, .scalar (fin 1))]⟩ none = some r ∧
    r.Gam (Function.update (fun _ => 2) 0 (2 + 1)) := by
  obtain ⟨r, h, _, _, hg⟩ := C143_shift_sound Rnd.exact 0 0 exC exC_wf (by decide) 0 (by decide)
    ⟨.scalar (fin 1), .sparse [(0, .scalar (fin 1))]⟩ rfl rfl rfl none (by simp) _ rfl (Or.inr (by decide))
  exact ⟨r, h, hg (fun _ => 2) 1 (exC_gam (by norm_num) (by norm_num)) rfl (by simp)⟩

example : ∃ r, AvoT.assignLinexpr Rnd.exact 0 (-1) exC 0 ⟨.scalar (fin 3), .sparse []⟩ none = some r ∧
    r.Gam (Function.update (fun _ => 2) 0 3) := by
  obtain ⟨r, h, _, _, hg⟩ := C143_assign_partial Rnd.exact 0 (-1) exC exC_wf (by decide) 0 (by decide)
    ⟨.scalar (fin 3), .sparse []⟩ ⟨List.Pairwise.nil, by intro d hd; cases hd⟩ none (by simp) _ rfl
    (Or.inr (by decide)) (Or.inl (by decide)) (Or.inl (by decide)) (Or.inl (by decide))
  exact ⟨r, h, hg (fun _ => 2) 3 (exC_gam (by norm_num) (by norm_num)) ⟨3, 0, rfl, rfl, by norm_num⟩ (by simp)⟩

end Apron
