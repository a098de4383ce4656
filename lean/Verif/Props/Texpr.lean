import Verif.Texpr.Hc4Lemmas
import Verif.Texpr.InPlace
import Verif.Props.BoxOps

/-!
# Property theorems: expression trees on boxes (C13, C14, C17, C19, C20, C66)

`S : FltSem K` says what an execution may round to; `F : FltOps K` what the library computes.
-/

set_option autoImplicit false
set_option linter.unusedSectionVars false
set_option linter.ambiguousOpen false

namespace Apron
open Bound
variable {K : Type*} [LinearOrder K] [Field K] [IsStrictOrderedRing K] [FloorRing K]

/-! ## A concrete rounding: faithful rounding to multiples of 1/4, in every format -/

/-- the conversions the library would compute for that format -/
def gridOps : FltOps ℚ where
  toSingle q := fin (⌈q * 4⌉ / 4)
  toDouble q := fin (⌈q * 4⌉ / 4)
  nextSingle q := fin (q + 1 / 4)
  nextDouble q := fin (q + 1 / 4)
  ulp _ := 0
  min _ := 1 / 4

/-- the executions; with `nz`, only those where no non-zero value is rounded to zero -/
def gridSem (nz : Bool) : FltSem ℚ where
  rnd _ _ v w := (∃ m : ℤ, w * 4 = m) ∧ |w - v| < 1 / 4 ∧ (nz = true → w = 0 → v = 0)
  repr _ v := ∃ m : ℤ, v * 4 = m

theorem gridOK (nz : Bool) : FltOK gridOps (gridSem nz) where
  up_ge := by
    rintro t d v w q ht ⟨⟨m, hm⟩, hw, -⟩ hq
    have h : w ≤ ⌈q * 4⌉ / 4 := by
      rw [le_div_iff₀ (by norm_num), hm]
      rw [abs_lt] at hw
      have h1 : ((m - 1 : ℤ) : ℚ) < ⌈q * 4⌉ := lt_of_lt_of_le (by push_cast; linarith) (Int.le_ceil _)
      have := Int.cast_lt.1 h1
      exact_mod_cast (by omega : m ≤ ⌈q * 4⌉)
    cases t <;> simpa [FltOps.up, gridOps] using h
  up_ge_neg := by
    rintro t d v w q ht ⟨⟨m, hm⟩, hw, -⟩ hq
    have h : -w ≤ ⌈q * 4⌉ / 4 := by
      rw [le_div_iff₀ (by norm_num), neg_mul, hm]
      rw [abs_lt] at hw
      have h1 : ((-m - 1 : ℤ) : ℚ) < ⌈q * 4⌉ := lt_of_lt_of_le (by push_cast; linarith) (Int.le_ceil _)
      have := Int.cast_lt.1 h1
      exact_mod_cast (by omega : -m ≤ ⌈q * 4⌉)
    cases t <;> simpa [FltOps.up, gridOps] using h
  err := by
    rintro t d v w ht ⟨-, hw, -⟩
    simpa [gridOps] using hw.le
  ulp_nonneg _ := le_rfl
  min_nonneg _ := by simp [gridOps]
  repr_rnd := fun t d v w _ h => h.1
  exact := by
    rintro t t' d v w _ ⟨m, hm⟩ ⟨⟨n, hn⟩, hw, -⟩
    rw [abs_lt] at hw
    have h1 : ((n - m : ℤ) : ℚ) < (1 : ℤ) := by push_cast; linarith
    have h2 : ((-1 : ℤ) : ℚ) < (n - m : ℤ) := by push_cast; linarith
    have h3 : n = m := by have := Int.cast_lt.1 h1; have := Int.cast_lt.1 h2; omega
    subst h3
    linarith
  repr_neg := fun t v ⟨m, hm⟩ => ⟨-m, by push_cast; linarith⟩

theorem gridUnOK : UnroundOK gridOps (gridSem true) where
  next_ge := by
    rintro t d v w q ht ⟨-, hw, -⟩ hq -
    rw [abs_lt] at hw
    have h : v ≤ q + 1 / 4 := by linarith
    cases t <;> simpa [FltOps.next, gridOps] using h
  next_ge_neg := by
    rintro t d v w q ht ⟨-, hw, -⟩ hq -
    rw [abs_lt] at hw
    have h : -v ≤ q + 1 / 4 := by linarith
    cases t <;> simpa [FltOps.next, gridOps] using h
  no_underflow := by
    rintro t d v w ht ⟨⟨m, hm⟩, hw, hz⟩
    have hz := hz rfl
    rw [abs_lt] at hw
    have hq : ∀ k : ℤ, ((k : ℤ) : ℚ) < 0 → (k : ℚ) ≤ -1 := fun k hk => by
      have : k < 0 := by exact_mod_cast hk
      exact_mod_cast (by omega : k ≤ -1)
    have hp : ∀ k : ℤ, 0 < ((k : ℤ) : ℚ) → 1 ≤ (k : ℚ) := fun k hk => by
      have : 0 < k := by exact_mod_cast hk
      exact_mod_cast (by omega : 1 ≤ k)
    constructor
    · intro h
      rcases h.lt_or_eq with h | h
      · have := hq m (by linarith); linarith
      · exact (hz h).le
    · intro h
      rcases h.lt_or_eq with h | h
      · have := hp m (by linarith); linarith
      · exact (hz h.symm).ge

theorem mpq_nonnegOK : mpqRoots.NonnegOK := fun q _ hq hk => mpq_rootOK_nonneg q hq hk

/-- `sqrt(x0) + x1 * 1/2` with a single-precision sum -/
def exTree : Texpr ℚ := .bin .add .single .nearest (.un .sqrt .real .rnd (.dim 0))
  (.bin .mul .real .rnd (.dim 1) (.cst (.scalar (fin (1 / 2)))))

/-! ## C13: evaluation -/

/-- Full statement (false for the code, see `C13_bound_texpr_unsound`): the same without `hs`.
Missing: odd powers of an argument whose interval is unbounded below. -/
theorem C13_bound_texpr_sound_partial (R : Rnd K) (o : RootOps K) (ho : o.SqrtOK) (F : FltOps K)
    (S : FltSem K) (hF : FltOK F S) (a : Box K) (e : Texpr K) (he : e.InDim a.dim)
    (hs : ∀ p, a.p = some p → e.PowSafe R o F p) (x : ℕ → K) (hx : a.Gam x) (v : K)
    (hv : e.Val S x v) : v ∈ a.boundTexpr R o F e := by
  obtain ⟨p, hp, hx⟩ := hx
  unfold Box.boundTexpr
  rw [hp]
  exact Texpr.mem_eval ho hF hx he (hs p hp) hv

/-- trees without power: no restriction -/
theorem C13_bound_texpr_sound_nopow (R : Rnd K) (o : RootOps K) (ho : o.SqrtOK) (F : FltOps K)
    (S : FltSem K) (hF : FltOK F S) (a : Box K) (e : Texpr K) (he : e.InDim a.dim) (hs : e.NoPow)
    (x : ℕ → K) (hx : a.Gam x) (v : K) (hv : e.Val S x v) : v ∈ a.boundTexpr R o F e :=
  C13_bound_texpr_sound_partial R o ho F S hF a e he (fun _ _ => hs.safe) x hx v hv

/-- The code violates the full property: `x0^3` over `x0 ≤ 5` misses the value 8. -/
theorem C13_bound_texpr_unsound : ∃ (a : Box ℚ) (e : Texpr ℚ) (x : ℕ → ℚ) (v : ℚ), a.Wf ∧
    e.InDim a.dim ∧ a.Gam x ∧ e.Val (gridSem false) x v ∧
    v ∉ a.boundTexpr Rnd.exact mpqRoots gridOps e := by
  refine ⟨⟨some fun _ => ⟨pinf, fin 5⟩, 0, 1⟩,
    .bin .pow .real .rnd (.dim 0) (.cst (.scalar (fin 3))), fun _ => 2, 8,
    Box.wf_mk.2 fun _ _ => ⟨0, by decide +kernel⟩, ⟨Nat.one_pos, trivial⟩,
    Box.gam_mk.2 fun _ _ => by decide +kernel, ?_, by decide +kernel⟩
  refine ⟨2, 3, 8, rfl, rfl, ?_, rfl⟩
  intro k hk
  have : k = 3 := by exact_mod_cast hk.symm
  subst this
  norm_num

example : exTree.InDim exBox2.dim ∧ exTree.NoPow ∧
    ((⟨some fun i => if i = 0 then ⟨fin (-4), fin 9⟩ else ⟨fin (-1), fin (11/10)⟩, 0, 2⟩ : Box ℚ).boundTexpr
      Rnd.exact mpqRoots gridOps exTree) = ⟨fin (-5/2), fin (15/4)⟩ := by
  refine ⟨⟨show 0 < 2 by decide, show 1 < 2 by decide, trivial⟩, ⟨trivial, ⟨trivial, trivial, by simp⟩, by simp⟩,
    by decide +kernel⟩
example : exTree.Val (gridSem true) (fun i => if i = 0 then 4 else 11/10) (5/2) := by
  refine ⟨2, 11/20, 51/20, ⟨4, 2, rfl, ⟨by norm_num, by norm_num⟩, rfl⟩,
    ⟨11/10, 1/2, 11/20, rfl, rfl, by simp [BinOp.Val]; norm_num, rfl⟩, by simp [BinOp.Val]; norm_num, ?_⟩
  exact ⟨⟨10, by norm_num⟩, by norm_num [abs_lt], by norm_num⟩

/-! ## C14: assignment of trees -/

theorem assignTGo_other (R : Rnd K) (o : RootOps K) (F : FltOps K) (p : ℕ → Itv K)
    (l : List (ℕ × Texpr K)) (r : ℕ → Itv K) (i : ℕ) (h : ∀ q ∈ l, q.1 ≠ i) :
    Box.assignTGo R o F p l r i = r i := by
  induction l generalizing r with
  | nil => rfl
  | cons q l ih =>
    rw [Box.assignTGo, ih _ (fun q hq => h q (by simp [hq])),
      Function.update_of_ne (h q (by simp)).symm]

theorem assignTGo_target (R : Rnd K) (o : RootOps K) (F : FltOps K) (p : ℕ → Itv K)
    (l : List (ℕ × Texpr K)) (r : ℕ → Itv K) (hn : (l.map Prod.fst).Nodup) (q : ℕ × Texpr K)
    (hq : q ∈ l) : Box.assignTGo R o F p l r q.1 = q.2.eval R o F p := by
  induction l generalizing r with
  | nil => simp at hq
  | cons t l ih =>
    rw [List.map_cons, List.nodup_cons] at hn
    rw [Box.assignTGo]
    rcases List.mem_cons.1 hq with rfl | hq
    · rw [assignTGo_other _ _ _ _ _ _ _ (fun s hs he => hn.1 (List.mem_map.2 ⟨s, hs, he⟩))]
      simp
    · exact ih _ hn.2 hq

/-- Parallel assignment of trees covers every simultaneous successor.  Full statement (false for the
code because of `C13_bound_texpr_unsound`): the same without `hs`. -/
theorem C14_assign_texpr_sound_partial (R : Rnd K) (o : RootOps K) (ho : o.SqrtOK) (F : FltOps K)
    (S : FltSem K) (hF : FltOK F S) (a : Box K) (l : List (ℕ × Texpr K))
    (hn : (l.map Prod.fst).Nodup) (hl : ∀ q ∈ l, q.2.InDim a.dim)
    (hs : ∀ p, a.p = some p → ∀ q ∈ l, q.2.PowSafe R o F p) (x x' : ℕ → K) (hx : a.Gam x)
    (hassign : ∀ q ∈ l, q.2.Val S x (x' q.1)) (hkeep : ∀ i, i < a.dim → i ∉ l.map Prod.fst → x' i = x i) :
    (a.assignTexprArray R o F l none).Gam x' := by
  obtain ⟨p, hp, hx⟩ := hx
  unfold Box.assignTexprArray
  rw [hp]
  refine Box.gam_mk.2 fun i hi => ?_
  by_cases hm : i ∈ l.map Prod.fst
  · obtain ⟨q, hq, rfl⟩ := List.mem_map.1 hm
    rw [assignTGo_target R o F p l p hn q hq]
    exact Texpr.mem_eval ho hF hx (hl q hq) (hs p hp q hq) (hassign q hq)
  · rw [assignTGo_other, hkeep i hi hm]
    · exact hx i hi
    · rintro q hq rfl; exact hm (List.mem_map.2 ⟨q, hq, rfl⟩)

/-- with a destination: every successor lying in the destination is kept -/
theorem C14_assign_texpr_dest_sound_partial (R : Rnd K) (o : RootOps K) (ho : o.SqrtOK) (F : FltOps K)
    (S : FltSem K) (hF : FltOK F S) (a b : Box K) (hd : a.dim = b.dim) (l : List (ℕ × Texpr K))
    (hn : (l.map Prod.fst).Nodup) (hl : ∀ q ∈ l, q.2.InDim a.dim)
    (hs : ∀ p, a.p = some p → ∀ q ∈ l, q.2.PowSafe R o F p) (x x' : ℕ → K) (hx : a.Gam x)
    (hassign : ∀ q ∈ l, q.2.Val S x (x' q.1)) (hkeep : ∀ i, i < a.dim → i ∉ l.map Prod.fst → x' i = x i)
    (hx' : b.Gam x') : (a.assignTexprArray R o F l (some b)).Gam x' := by
  have h1 := C14_assign_texpr_sound_partial R o ho F S hF a l hn hl hs x x' hx hassign hkeep
  obtain ⟨p, hp, _⟩ := hx
  have hbx := hx'
  obtain ⟨q, hq, _⟩ := hx'
  unfold Box.assignTexprArray at h1 ⊢
  rw [hp] at h1 ⊢
  have hbb : b.isBottom = false := by simp [Box.isBottom, hq]
  simp only [hbb, Bool.false_eq_true, if_false] at h1 ⊢
  have hw : (⟨some (Box.assignTGo R o F p l p), a.intdim, a.realdim⟩ : Box K).Gam x' := h1
  unfold Box.meet
  rw [hq]
  simp only
  have hmem : ∀ i, i < a.dim → x' i ∈ (Box.assignTGo R o F p l p i).meet (q i) := fun i hi =>
    Itv.mem_meet.2 ⟨Box.gam_mk.1 hw i hi, (Box.gam_some hq).1 hbx i (hd ▸ hi)⟩
  rw [if_neg]
  · exact Box.gam_mk.2 hmem
  · rw [List.any_eq_true]
    rintro ⟨i, hi, hbt⟩
    rw [List.mem_range] at hi
    rw [Itv.not_isBottom (hmem i hi)] at hbt
    simp at hbt

example : (((⟨some fun i => if i = 0 then ⟨fin (-4), fin 9⟩ else ⟨fin (-1), fin (11/10)⟩, 0, 2⟩ : Box ℚ).assignTexprArray
      Rnd.exact mpqRoots gridOps [(0, exTree), (1, .dim 0)] none).p.map fun p => (p 0, p 1)) =
    some (⟨fin (-5/2), fin (15/4)⟩, ⟨fin (-4), fin 9⟩) := by decide +kernel

/-! ## C66: in-place evaluation -/

/-- Assigning in place gives the same box, component by component, as assigning in a copy. -/
theorem C66_assign_in_place (R : Rnd K) (o : RootOps K) (F : FltOps K) (a : Box K) (d : ℕ)
    (hd : d < a.dim) (e : Texpr K) (he : e.InDim a.dim) :
    (a.p = none → a.assignTexprInPlace R o F d e = a) ∧
    ∀ p, a.p = some p → ∃ r, (a.assignTexprInPlace R o F d e).p = some r ∧
      (a.assignTexprInPlace R o F d e).dim = a.dim ∧ r d = a.boundTexpr R o F e ∧
      ∀ i, i < a.dim → i ≠ d → r i = p i := by
  constructor
  · intro h; unfold Box.assignTexprInPlace; rw [h]
  · intro p hp
    refine ⟨e.evalIn R o F d a.dim p, by unfold Box.assignTexprInPlace; rw [hp],
      by unfold Box.assignTexprInPlace; rw [hp]; rfl, ?_, ?_⟩
    · unfold Box.boundTexpr
      rw [hp]
      exact (Texpr.evalIn_spec R o F e a.dim he d a.dim hd le_rfl p p fun _ _ => rfl).1
    · exact (Texpr.evalIn_spec R o F e a.dim he d a.dim hd le_rfl p p fun _ _ => rfl).2

/-- hence the two forms have the same points -/
theorem C66_assign_in_place_gamma (R : Rnd K) (o : RootOps K) (F : FltOps K) (a : Box K) (d : ℕ)
    (hd : d < a.dim) (e : Texpr K) (he : e.InDim a.dim) (x : ℕ → K) :
    (a.assignTexprInPlace R o F d e).Gam x ↔ (a.assignTexprArray R o F [(d, e)] none).Gam x := by
  cases hp : a.p with
  | none =>
    rw [(C66_assign_in_place R o F a d hd e he).1 hp]
    unfold Box.assignTexprArray
    rw [hp]
  | some p =>
    obtain ⟨r, h1, h2, h3, h4⟩ := (C66_assign_in_place R o F a d hd e he).2 p hp
    rw [Box.gam_some h1, h2]
    unfold Box.assignTexprArray
    rw [hp]
    simp only
    rw [Box.gam_mk]
    have key : ∀ i, i < a.dim → r i = Box.assignTGo R o F p [(d, e)] p i := by
      intro i hi
      simp only [Box.assignTGo]
      by_cases h : i = d
      · subst h
        rw [h3, Function.update_self]
        unfold Box.boundTexpr
        rw [hp]
      · rw [h4 i hi h, Function.update_of_ne h]
    exact ⟨fun h i hi => by rw [← key i hi]; exact h i hi, fun h i hi => by rw [key i hi]; exact h i hi⟩

/-- `x0 := (x0 - x1) * x0`, the assigned variable is read before and after other operands -/
example : (((⟨some fun i => if i = 0 then ⟨fin (-2), fin 3⟩ else ⟨fin 1, fin 1⟩, 0, 2⟩ : Box ℚ).assignTexprInPlace
    Rnd.exact mpqRoots gridOps 0 (.bin .mul .real .rnd (.bin .sub .real .rnd (.dim 0) (.dim 1)) (.dim 0))).p.map
      fun p => (p 0, p 1)) = some (⟨fin (-2), fin 12⟩, ⟨fin 1, fin 1⟩) := by decide +kernel

/-! ## C17: satisfaction -/

/-- A positive answer is right for every defined value of the tree.  Full statement (false because of
`C13_bound_texpr_unsound`): the same without `hs`. -/
theorem C17_sat_tcons_sound_partial (R : Rnd K) (o : RootOps K) (ho : o.SqrtOK) (F : FltOps K)
    (S : FltSem K) (hF : FltOK F S) (a : Box K) (c : Tcons K) (hc : c.expr.InDim a.dim)
    (hs : ∀ p, a.p = some p → c.expr.PowSafe R o F p) (h : a.satTcons R o F c = some true)
    (x : ℕ → K) (hx : a.Gam x) (v : K) (hv : c.expr.Val S x v) : Lincons.Rel c.typ v := by
  have hm := C13_bound_texpr_sound_partial R o ho F S hF a c.expr hc hs x hx v hv
  obtain ⟨p, hp, hx⟩ := hx
  unfold Box.satTcons at h
  unfold Box.boundTexpr at hm
  rw [hp] at h hm
  simp only [Option.map_eq_some_iff, decide_eq_true_eq] at h
  obtain ⟨tb, ht, rfl⟩ := h
  exact ILincons.evalCst_t (c := ⟨c.typ, ⟨_, _, []⟩⟩) (fun he q hq => Itv.isPoint_eq he hq) ht hm

example : ((⟨some fun i => if i = 0 then ⟨fin (-4), fin 9⟩ else ⟨fin (-1), fin (11/10)⟩, 0, 2⟩ : Box ℚ).satTcons
      Rnd.exact mpqRoots gridOps ⟨.sup, exTree⟩) = some true := by decide +kernel

/-! ## C19: meet with tree constraints (HC4 propagation) -/

/-- Full statement (false for the code, see `C19_…_unsound`): the same without `Safe` and without
`UnroundOK.no_underflow`.  Missing: backward refinement through roundings to integer towards zero, to
nearest or unspecified, through powers that are rounded or whose exponent is not an even constant, and
of values rounded to zero in a floating-point format.  The legacy algorithm is in Verif.Props.Linearize. -/
theorem C19_meet_tcons_sound_partial (R : Rnd K) (o : RootOps K) (hq : o.SqrtOK) (ho : o.NonnegOK)
    (F : FltOps K) (S : FltSem K) (hF : FltOK F S) (hU : UnroundOK F S) (a : Box K)
    (l : List (Tcons K)) (algo : ℕ) (hd : ∀ c ∈ l, c.expr.InDim a.dim) (hs : ∀ c ∈ l, c.expr.Safe)
    (x : ℕ → K) (hx : a.Gam x) (hint : ∀ i, i < a.intdim → ∃ m : ℤ, x i = m)
    (hl : ∀ c ∈ l, c.Holds S x) : (a.meetTconsHC4 R o F l algo).Gam x := by
  obtain ⟨p, hp, hx⟩ := hx
  unfold Box.meetTconsHC4
  rw [hp]
  obtain ⟨h1, h2⟩ := hc4_sound (R := R) (intdim := a.intdim) hq ho hF hU (fun i _ hi => hint i hi)
    (if algo - 100 < 1 then 2 else algo - 100) hx (fun c hc => ⟨hd c hc, hs c hc, hl c hc⟩)
  simp only
  rw [h2]
  exact Box.gam_mk.2 h1

/-- the result is included in the box -/
theorem C19_meet_tcons_le (R : Rnd K) (o : RootOps K) (F : FltOps K) (a : Box K) (l : List (Tcons K))
    (algo : ℕ) (x : ℕ → K) (hx : (a.meetTconsHC4 R o F l algo).Gam x) : a.Gam x := by
  unfold Box.meetTconsHC4 at hx
  cases h : a.p with
  | none => rw [h] at hx; exact hx
  | some p =>
    rw [h] at hx
    simp only at hx
    split_ifs at hx with h1 h2
    · exact (Box.gam_none rfl hx).elim
    · exact (Box.gam_some h).2 fun i hi => hc4Loop_le R o F _ _ _ _ i _ (Box.gam_mk.1 hx i hi)
    · exact (Box.gam_none rfl hx).elim
    · exact (Box.gam_some h).2 fun i hi => hc4Loop_le R o F _ _ _ _ i _ (Box.gam_mk.1 hx i hi)

/-- a box of one real dimension in `[l,u]` -/
def exBox1 (l u : ℚ) : Box ℚ := ⟨some fun _ => ⟨fin (-l), fin u⟩, 0, 1⟩

theorem exBox1_gam {l u : ℚ} {x : ℕ → ℚ} : (exBox1 l u).Gam x ↔ l ≤ x 0 ∧ x 0 ≤ u := by
  unfold exBox1
  rw [Box.gam_mk]
  constructor
  · intro h
    have := h 0 (by decide)
    exact ⟨by simpa using this.1, by simpa using this.2⟩
  · intro h i hi
    have : i = 0 := by simpa using hi
    subst this
    exact ⟨by simpa using h.1, by simpa using h.2⟩

/-- `x0^2 - 4 = 0`, in `[1,10]`: the hypotheses are met, and the box shrinks -/
example : ((exBox1 1 10).meetTconsHC4 Rnd.exact mpqRoots gridOps
    [⟨.eq, .bin .sub .real .rnd (.bin .pow .real .rnd (.dim 0) (.cst (.scalar (fin 2))))
      (.cst (.scalar (fin 4)))⟩] 100).p.map (· 0) = some ⟨fin (-2), fin 2⟩ := by decide +kernel
example : (Texpr.bin .sub .real .rnd (.bin .pow .real .rnd (.dim 0) (.cst (.scalar (fin ((2 * 1 : ℕ) : ℚ)))))
      (.cst (.scalar (fin (4 : ℚ))))).Safe :=
  ⟨⟨trivial, trivial, fun _ => trivial, fun _ => ⟨rfl, 1, by simp⟩⟩, trivial, fun _ => trivial,
    by simp⟩
example : mpqRoots.SqrtOK ∧ mpqRoots.NonnegOK ∧ FltOK gridOps (gridSem true) ∧
    UnroundOK gridOps (gridSem true) := ⟨mpq_sqrtOK, mpq_nonnegOK, gridOK true, gridUnOK⟩

/-- The code violates the property: `(int)x0 = 1`, rounded to nearest, loses `3/5`. -/
theorem C19_meet_tcons_nearest_unsound : ∃ (a : Box ℚ) (c : Tcons ℚ) (x : ℕ → ℚ), a.Wf ∧
    c.expr.InDim a.dim ∧ a.Gam x ∧ a.intdim = 0 ∧ c.Holds (gridSem true) x ∧
    ¬ (a.meetTconsHC4 Rnd.exact mpqRoots gridOps [c] 100).Gam x := by
  refine ⟨exBox1 0 3, ⟨.eq, .bin .sub .real .rnd (.un .cast .int .nearest (.dim 0))
      (.cst (.scalar (fin 1)))⟩, fun _ => 3/5, Box.wf_mk.2 fun _ _ => ⟨0, by decide +kernel⟩,
    ⟨Nat.one_pos, trivial⟩, exBox1_gam.2 (by norm_num), rfl, ⟨0, ⟨1, 1, 0, ?_, rfl, ?_, rfl⟩, rfl⟩, ?_⟩
  · exact ⟨3/5, 3/5, rfl, rfl, 1, by norm_num, by norm_num [abs_le]⟩
  · simp [BinOp.Val]
  · rintro ⟨p, hp, hx⟩
    have h : ((exBox1 0 3).meetTconsHC4 Rnd.exact mpqRoots gridOps
        [⟨.eq, .bin .sub .real .rnd (.un .cast .int .nearest (.dim 0)) (.cst (.scalar (fin 1)))⟩]
        100).p.map (· 0) = some ⟨fin (-1), fin 1⟩ := by decide +kernel
    rw [hp] at h
    have h0 := hx 0 (by decide +kernel)
    have h' : p 0 = ⟨fin (-1), fin 1⟩ := by simpa using h
    rw [h'] at h0
    exact absurd h0 (by decide +kernel)

/-- The code violates the property: `(int)x0 = 0`, rounded towards zero, loses `1/2`. -/
theorem C19_meet_tcons_trunc_unsound : ∃ (a : Box ℚ) (c : Tcons ℚ) (x : ℕ → ℚ), a.Wf ∧
    c.expr.InDim a.dim ∧ a.Gam x ∧ a.intdim = 0 ∧ c.Holds (gridSem true) x ∧
    ¬ (a.meetTconsHC4 Rnd.exact mpqRoots gridOps [c] 100).Gam x := by
  refine ⟨exBox1 0 3, ⟨.eq, .un .cast .int .zero (.dim 0)⟩, fun _ => 1/2,
    Box.wf_mk.2 fun _ _ => ⟨0, by decide +kernel⟩, Nat.one_pos, exBox1_gam.2 (by norm_num), rfl,
    ⟨0, ⟨1/2, 1/2, rfl, rfl, ?_⟩, rfl⟩, ?_⟩
  · show (0 : ℚ) = if 0 ≤ (1 / 2 : ℚ) then ((⌊(1 / 2 : ℚ)⌋ : ℤ) : ℚ) else ((⌈(1 / 2 : ℚ)⌉ : ℤ) : ℚ)
    norm_num
  · rintro ⟨p, hp, hx⟩
    have h : ((exBox1 0 3).meetTconsHC4 Rnd.exact mpqRoots gridOps
        [⟨.eq, .un .cast .int .zero (.dim 0)⟩] 100).p.map (· 0) = some ⟨fin 0, fin 0⟩ := by decide +kernel
    rw [hp] at h
    have h0 := hx 0 (by decide +kernel)
    have h' : p 0 = ⟨fin 0, fin 0⟩ := by simpa using h
    rw [h'] at h0
    exact absurd h0 (by decide +kernel)

/-- The code violates the property: `(float)x0 <= 0` loses the positive numbers that underflow to 0,
because `itv_from_float` leaves zero bounds unchanged.  (The format here has spacing 1/4, and its
successor function is right: only the treatment of the bound 0 is at fault.) -/
theorem C19_meet_tcons_underflow_unsound : ∃ (a : Box ℚ) (c : Tcons ℚ) (x : ℕ → ℚ), a.Wf ∧
    c.expr.InDim a.dim ∧ c.expr.Safe ∧ a.Gam x ∧ a.intdim = 0 ∧ c.Holds (gridSem false) x ∧
    ¬ (a.meetTconsHC4 Rnd.exact mpqRoots gridOps [c] 100).Gam x := by
  refine ⟨exBox1 0 3, ⟨.supeq, .un .neg .real .rnd (.un .cast .single .down (.dim 0))⟩, fun _ => 1/8,
    Box.wf_mk.2 fun _ _ => ⟨0, by decide +kernel⟩, Nat.one_pos, ⟨⟨trivial, fun _ => trivial⟩, by simp⟩,
    exBox1_gam.2 (by norm_num), rfl, ⟨0, ⟨0, 0, ⟨1/8, 1/8, rfl, rfl, ?_⟩, ?_, rfl⟩, le_rfl⟩, ?_⟩
  · exact ⟨⟨0, by norm_num⟩, by norm_num [abs_lt], by simp⟩
  · simp [UnOp.Val]
  · rintro ⟨p, hp, hx⟩
    have h : ((exBox1 0 3).meetTconsHC4 Rnd.exact mpqRoots gridOps
        [⟨.supeq, .un .neg .real .rnd (.un .cast .single .down (.dim 0))⟩] 100).p.map (· 0) =
        some ⟨fin 0, fin 0⟩ := by decide +kernel
    rw [hp] at h
    have h0 := hx 0 (by decide +kernel)
    have h' : p 0 = ⟨fin 0, fin 0⟩ := by simpa using h
    rw [h'] at h0
    exact absurd h0 (by decide +kernel)

/-! ## C20: backward power -/

/-- Full statement (false for the code, see `C20_pow_refine_unsound`): for every type, direction and
exponent.  Missing: rounded powers and odd exponents. -/
theorem C20_pow_refine_sound_partial (R : Rnd K) (o : RootOps K) (ho : o.NonnegOK) (F : FltOps K)
    (d : RDir) (res arg1 arg2 : Itv K) (x : K) (k : ℕ) (hx : x ∈ arg1) (hk : ((2 * k : ℕ) : K) ∈ arg2)
    (hr : x ^ (2 * k) ∈ res) : x ∈ (Texpr.refineBin R o F .pow .real d res arg1 arg2).1 :=
  Itv.mem_meet.2 ⟨Itv.mem_invPow_even ho hx hr hk, hx⟩

/-- the refinement never enlarges -/
theorem C20_pow_refine_le (R : Rnd K) (o : RootOps K) (F : FltOps K) (t : RType) (d : RDir)
    (res arg1 arg2 : Itv K) (x : K) (h : x ∈ (Texpr.refineBin R o F .pow t d res arg1 arg2).1) :
    x ∈ arg1 := (Itv.mem_meet.1 h).2

/-- The code violates the property: `(29/10)^2` rounded up to an integer is 9, but refining from
`[9,9]` gives `[3,3]`, since the power is inverted without undoing the rounding. -/
theorem C20_pow_refine_unsound : ∃ (res arg1 arg2 : Itv ℚ) (x : ℚ) (k : ℕ), x ∈ arg1 ∧
    ((2 * k : ℕ) : ℚ) ∈ arg2 ∧ ((⌈x ^ (2 * k)⌉ : ℤ) : ℚ) ∈ res ∧
    x ∉ (Texpr.refineBin Rnd.exact mpqRoots gridOps .pow .int .up res arg1 arg2).1 :=
  ⟨⟨fin (-9), fin 9⟩, ⟨fin (-1), fin 10⟩, Itv.point 2, 29/10, 1, by decide +kernel, by decide +kernel,
    by decide +kernel, by decide +kernel⟩

example : (Texpr.refineBin Rnd.exact mpqRoots gridOps 
    .pow .real .up ⟨fin (-4), fin 9⟩ ⟨fin (-1), fin 10⟩
    (Itv.point 2)).1 = ⟨fin (-2), fin 3⟩ := by decide +kernel

end Apron
