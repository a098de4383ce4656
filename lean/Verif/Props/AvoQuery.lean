import Verif.Props.AvoLattice
import Verif.Avo.TransferLemmas

/-!
# Property theorems: queries on absolute-value octagons (C140)

The queries that use the octagon part of a value are sound.  Those that compare or export whole
values ignore or misread the rows of the absolute values: `_partial` theorems say what remains, the
others give witnesses.
-/

set_option autoImplicit false
set_option linter.unusedSectionVars false
set_option linter.ambiguousOpen false

namespace Apron
open Bound Oct Avo AvoT
variable {K : Type*} [LinearOrder K] [Field K] [IsStrictOrderedRing K]

/-! ### sound queries -/

/-- `avo_is_bottom` answers without a `NULL` dereference, and `true` only for empty values -/
theorem C140_is_bottom (R : Rnd K) (alg algo : ℤ) (a : AvoT K) (ha : a.Wf)
    (halg : alg = 2 → a.dim ≤ 30) :
    ∃ r, AvoT.isBottom R alg algo a = some r ∧ (r = true → ∀ x, ¬ a.Gam x) := by
  obtain ⟨b, e, _, _, _, hg⟩ := cacheIf_spec R algo ha halg
  refine ⟨_, by rw [AvoT.isBottom, e]; rfl, fun h x hx => ?_⟩
  rw [Bool.and_eq_true, Option.isNone_iff_eq_none, Option.isNone_iff_eq_none] at h
  exact gam_none (a := b) (by simp [AvoT.best, h.1, h.2]) x ((hg x).2 hx)

/-- the values of a variable lie in the interval of `avo_bound_dimension` -/
theorem C140_bound_dimension (R : Rnd K) (alg algo : ℤ) (a : AvoT K) (ha : a.Wf)
    (halg : alg = 2 → a.dim ≤ 30) (d : ℕ) (hd : d < a.dim) :
    ∃ r, AvoT.boundDimension R alg algo a d = some r ∧ ∀ x, a.Gam x → x d ∈ r := by
  obtain ⟨b, e, _, hdim, _, hg⟩ := cacheIf_spec R algo ha halg
  refine ⟨_, by rw [AvoT.boundDimension, e]; rfl, fun x hx => ?_⟩
  obtain ⟨m, hm, hs⟩ := OctT.gam_iff_best.1 (oct_gam ((hg x).2 hx))
  unfold OctT.boundDimension
  beta_reduce
  rw [show OctT.cacheIf R (-1) b.oct = b.oct from rfl, hm]
  exact OctT.mem_intervalOfBounds R hs (show d < b.dim by omega)

/-- the box of a value contains it -/
theorem C140_to_box (R : Rnd K) (alg : ℤ) (a : AvoT K) (ha : a.Wf) (halg : alg = 2 → a.dim ≤ 30) :
    ∃ t, AvoT.toBox R alg a = some t ∧ ∀ x, a.Gam x → ∀ d < a.dim, x d ∈ t d := by
  obtain ⟨b, e, _, hdim, _, hg⟩ := cache_spec R ha halg
  refine ⟨_, by rw [AvoT.toBox, e]; rfl, fun x hx d hd => ?_⟩
  obtain ⟨m, hm, hs⟩ := OctT.gam_iff_best.1 (oct_gam ((hg x).2 hx))
  unfold OctT.toBox
  beta_reduce
  rw [show OctT.cacheIf R (-1) b.oct = b.oct from rfl, hm]
  exact OctT.mem_intervalOfBounds R hs (show d < b.dim by omega)

/-- `avo_sat_interval` answers `true` only if the variable stays in the interval -/
theorem C140_sat_interval (R : Rnd K) (alg algo : ℤ) (a : AvoT K) (ha : a.Wf)
    (halg : alg = 2 → a.dim ≤ 30) (d : ℕ) (hd : d < a.dim) (i : Itv K) :
    ∃ r, AvoT.satInterval R alg algo a d i = some r ∧ (r = true → ∀ x, a.Gam x → x d ∈ i) := by
  obtain ⟨b, e, _, hdim, _, hg⟩ := cacheIf_spec R algo ha halg
  refine ⟨_, by rw [AvoT.satInterval, e]; rfl, fun h x hx => ?_⟩
  obtain ⟨m, hm, hs⟩ := OctT.gam_iff_best.1 (oct_gam ((hg x).2 hx))
  unfold OctT.satInterval at h
  beta_reduce at h
  rw [show OctT.cacheIf R (-1) b.oct = b.oct from rfl, hm] at h
  dsimp only at h
  rw [Bool.and_eq_true, decide_eq_true_eq, decide_eq_true_eq] at h
  have := OctT.mem_intervalOfBounds R hs (show d < b.dim by omega)
  exact ⟨_root_.le_trans this.1 h.1, _root_.le_trans this.2 h.2⟩

/-- `avo_sat_lincons` answers `true` only if every point satisfies the constraint -/
theorem C140_sat_lincons [FloorRing K] (R : Rnd K) (alg algo : ℤ) (a : AvoT K) (ha : a.Wf)
    (halg : alg = 2 → a.dim ≤ 30) (c : Lincons K) (hc : c.expr.InDim a.dim) :
    ∃ r, AvoT.satLincons R alg algo a c = some r ∧ (r = true → ∀ x, a.Gam x → c.HoldsAll x) := by
  obtain ⟨b, e, _, hdim, _, hg⟩ := cacheIf_spec R algo ha halg
  refine ⟨_, by rw [AvoT.satLincons, e]; rfl, fun h x hx => ?_⟩
  exact OctT.satLincons_sound R (show c.expr.InDim b.dim by rw [hdim]; exact hc) h
    (oct_gam ((hg x).2 hx))

/-- the values of an expression lie in the interval of `avo_bound_linexpr` -/
theorem C140_bound_linexpr [FloorRing K] (R : Rnd K) (alg algo : ℤ) (a : AvoT K) (ha : a.Wf)
    (halg : alg = 2 → a.dim ≤ 30) (c : Linexpr K) (hc : c.InDim a.dim) :
    ∃ r, AvoT.boundLinexpr R alg algo a c = some r ∧
      ∀ x v, a.Gam x → c.Val x v → v ∈ r := by
  obtain ⟨b, e, _, hdim, _, hg⟩ := cacheIf_spec R algo ha halg
  refine ⟨_, by rw [AvoT.boundLinexpr, e]; rfl, fun x v hx hv => ?_⟩
  exact OctT.boundLinexpr_sound R (show c.InDim b.dim by rw [hdim]; exact hc)
    (oct_gam ((hg x).2 hx)) hv

/-- `avo_is_top` answers `true` only for the universe, for values with one matrix, without `-oo`, with
the diagonal `0` (not strict) -/
theorem C140_is_top (a : AvoT K) (m n : Mem K) (h1 : a.m = some m ∧ a.closed = none ∨
    a.m = none ∧ a.closed = some m) (hn : a.nsc = some n) (hinf : ∀ q, m q ≠ ninf)
    (hdiag : ∀ i < 4 * a.dim, m (matpos i i) = fin 0 ∧ n (matpos i i) = pinf)
    (h : AvoT.isTop a = true) (x : ℕ → K) : a.Gam x := by
  have ho : a.orig = some m := by rcases h1 with ⟨h, h'⟩ | ⟨h, h'⟩ <;> simp [AvoT.orig, h, h']
  have hb : a.best = some m := by rcases h1 with ⟨h, h'⟩ | ⟨h, h'⟩ <;> simp [AvoT.best, h, h']
  refine ⟨m, hb, ?_⟩
  rw [hn]
  unfold AvoT.isTop at h
  rw [ho] at h
  dsimp only at h
  rw [OctT.allCells_iff] at h
  intro i j hi hc
  have := h i j hi hc
  rw [Bool.or_eq_true, decide_eq_true_eq] at this
  rcases this with e | rfl
  · have e : m (matpos i j) = pinf := by
      rcases e' : m (matpos i j) with _ | q | _
      · exact absurd e' (hinf _)
      · rw [e'] at e; simp [infty] at e
      · rfl
    unfold AvoT.zip
    rw [e]
    exact okT_pinf.1 (ok_top _ _)
  · obtain ⟨e1, e2⟩ := hdiag i (by omega)
    exact ⟨by simp [AvoT.zip, e1], fun hne => absurd e2 hne⟩

/-! ### comparisons: what holds -/

theorem AvoT.leqCells_oct {dim : ℕ} {X Y : SMem K} (h : leqCells dim X Y = true) {i j : ℕ}
    (hi : i < 2 * dim) (hc : Cell i j) : LE (X (matpos i j)) (Y (matpos i j)) := by
  unfold leqCells at h
  rw [OctT.allCells_iff] at h
  have := h i j (by omega) hc
  have hj : j < 2 * dim := by unfold Cell at hc; omega
  have s1 : ∀ s : Mem K, skip dim s i = false := fun s => by
    simp [skip, show ¬ 2 * dim < i by omega]
  have s2 : ∀ s : Mem K, skip dim s j = false := fun s => by
    simp [skip, show ¬ 2 * dim < j by omega]
  simp only [s1, s2, Bool.false_or, Bool.not_eq_true', decide_eq_false_iff_not] at this
  push Not at this
  rcases lt_or_eq_of_le this.1 with hlt | heq
  · exact Or.inl hlt
  · exact Or.inr ⟨heq, this.2 heq⟩

/-- *partial*: `avo_is_leq` answers `true` only if every point of the first value satisfies the
constraints of the second that do not involve absolute values.  The full claim (inclusion of the
points) is false: `C140_is_leq_unsound`. -/
theorem C140_is_leq_partial (R : Rnd K) (alg algo : ℤ) (a b : AvoT K) (ha : a.Wf) (hb : b.Wf)
    (hd : a.dim = b.dim) (halg : alg = 2 → a.dim ≤ 30) :
    ∃ r, AvoT.isLeq R alg algo a b = some r ∧ (r = true → ∀ x, a.Gam x → ∃ m n, b.best = some m ∧
      b.nsc = some n ∧ ∀ i j, i < 2 * a.dim → j / 2 ≤ i / 2 →
        Ok (V x j - V x i) (m (matpos i j), n (matpos i j))) := by
  obtain ⟨a', ea, wa, da, _, ga⟩ := cacheIf_spec R algo ha halg
  unfold AvoT.isLeq
  rw [ea, Option.bind_some]
  simp only [← ga, ← da]
  rcases h1 : a'.best with _ | m1
  · exact ⟨_, rfl, fun _ x hx => (gam_none h1 x hx).elim⟩
  rcases h2 : b.best with _ | m2
  · exact ⟨_, rfl, fun h => by simp at h⟩
  obtain ⟨n1, e1, d1, g1⟩ := wa.view h1
  obtain ⟨n2, e2, d2, g2⟩ := hb.view h2
  rw [e1, e2]
  refine ⟨_, rfl, fun h x hx => ⟨m2, n2, rfl, rfl, fun i j hi hc => ?_⟩⟩
  have hle := leqCells_oct h hi hc
  have hok := (g1 x).1 hx i j (by omega) hc
  rw [V_ext_lo hi, V_ext_lo (by omega)] at hok
  exact okT_pinf.1 (hle.ok (okT_pinf.2 hok))

/-- *partial*: `avo_is_eq` answers `true` only if the constraints that do not involve absolute values
are the same.  The full claim (same points) is false: `C140_is_eq_unsound`. -/
theorem C140_is_eq_partial (R : Rnd K) (alg algo : ℤ) (a b : AvoT K) (ha : a.Wf) (hb : b.Wf)
    (hd : a.dim = b.dim) (halg : alg = 2 → a.dim ≤ 30) :
    ∃ r, AvoT.isEq R alg algo a b = some r ∧ (r = true → ∀ a' b', AvoT.cacheIf R alg algo a = some a' →
      AvoT.cacheIf R alg algo b = some b' → (a'.best = none ∧ b'.best = none) ∨
      ∃ m1 n1 m2 n2, a'.best = some m1 ∧ a'.nsc = some n1 ∧ b'.best = some m2 ∧ b'.nsc = some n2 ∧
        ∀ i j, i < 2 * a.dim → j / 2 ≤ i / 2 →
          m1 (matpos i j) = m2 (matpos i j) ∧ n1 (matpos i j) = n2 (matpos i j)) := by
  obtain ⟨a', ea, wa, da, _, _⟩ := cacheIf_spec R algo ha halg
  obtain ⟨b', eb, wb, db, _, _⟩ := cacheIf_spec R algo hb (hd ▸ halg)
  unfold AvoT.isEq
  rw [ea, Option.bind_some, eb, Option.bind_some]
  simp only [← da, Option.some.injEq]
  rcases h1 : a'.best with _ | m1 <;> rcases h2 : b'.best with _ | m2
  · refine ⟨_, rfl, ?_⟩
    rintro - _ _ rfl rfl
    exact Or.inl ⟨h1, h2⟩
  · exact ⟨_, rfl, fun h => by simp at h⟩
  · exact ⟨_, rfl, fun h => by simp at h⟩
  · obtain ⟨n1, e1, d1, g1⟩ := wa.view h1
    obtain ⟨n2, e2, d2, g2⟩ := wb.view h2
    rw [e1, e2]
    refine ⟨_, rfl, ?_⟩
    rintro h _ _ rfl rfl
    refine Or.inr ⟨m1, n1, m2, n2, h1, e1, h2, e2, fun i j hi hc => ?_⟩
    unfold eqCells at h
    rw [OctT.allCells_iff] at h
    have := h i j hi hc
    rw [Bool.and_eq_true, decide_eq_true_eq, decide_eq_true_eq] at this
    exact this

/-! ### comparisons: defects -/

/-- the value `|x| >= 1`: what the closure leaves of the join of `x >= 1` and `x <= -1` -/
def AvoT.far : AvoT ℚ := ofClosed 1 0 fun q =>
  if q = 7 then (fin (-2), pinf) else Avo.allocTop 1 q

theorem AvoT.far_gam (x : ℕ → ℚ) : far.Gam x ↔ 1 ≤ |x 0| := by
  unfold far
  rw [gam_ofClosed]
  constructor
  · intro h
    have := (h 2 3 (by decide) (by decide)).1
    have e : (if matpos 2 3 = 7 then ((fin (-2), pinf) : SB ℚ) else Avo.allocTop 1 (matpos 2 3)).1 =
      fin (-2) := rfl
    rw [e] at this
    simp [V, ext] at this
    linarith
  · intro h i j hi hc
    dsimp only
    split_ifs with h'
    · obtain ⟨rfl, rfl⟩ := matpos_inj hc (show Cell 2 3 by decide) h'
      exact ⟨by simp [V, ext]; linarith, fun hne => absurd rfl hne⟩
    · exact allocTop_sat 1 _ _ i j hi hc

theorem AvoT.far_wf : far.Wf := by
  refine wf_ofClosed fun i hi => ?_
  obtain rfl | rfl | rfl | rfl : i = 0 ∨ i = 1 ∨ i = 2 ∨ i = 3 := by omega
  all_goals exact le_of_eq rfl

/-- **Defect.** `avo_is_leq(top, |x| >= 1)` is `true`: the tests before `continue` skip the rows of the
absolute values as soon as an unrelated cell is infinite. -/
theorem C140_is_leq_unsound (R : Rnd ℚ) (alg algo : ℤ) :
    AvoT.isLeq R alg algo (AvoT.top 1 0) far = some true ∧
      (AvoT.top 1 0 : AvoT ℚ).Gam (fun _ => 0) ∧ ¬ far.Gam fun _ => 0 := by
  refine ⟨?_, (C138_top_bottom 1 0 _).2.1, fun h => ?_⟩
  · have e : AvoT.cacheIf R alg algo (AvoT.top 1 0) = some (AvoT.top 1 0 : AvoT ℚ) := by
      unfold AvoT.cacheIf
      split_ifs <;> rfl
    unfold AvoT.isLeq
    rw [e, Option.bind_some]
    have e2 : leqCells 1 (Avo.allocTop 1 : SMem ℚ)
        (fun q => if q = 7 then (fin (-2), pinf) else Avo.allocTop 1 q) = true := by decide +kernel
    exact congrArg some e2
  · rw [far_gam] at h
    norm_num at h

/-- **Defect.** `avo_is_eq(top, |x| >= 1)` is `true`: the rows of the absolute values are not compared -/
theorem C140_is_eq_unsound (R : Rnd ℚ) (alg algo : ℤ) :
    AvoT.isEq R alg algo (AvoT.top 1 0) far = some true ∧
      (AvoT.top 1 0 : AvoT ℚ).Gam (fun _ => 0) ∧ ¬ far.Gam fun _ => 0 := by
  refine ⟨?_, (C140_is_leq_unsound R alg algo).2⟩
  have e : AvoT.cacheIf R alg algo (AvoT.top 1 0) = some (AvoT.top 1 0 : AvoT ℚ) := by
    unfold AvoT.cacheIf
    split_ifs <;> rfl
  have e' : AvoT.cacheIf R alg algo far = some far := by
    unfold AvoT.cacheIf
    split_ifs <;> rfl
  unfold AvoT.isEq
  rw [e, Option.bind_some, e', Option.bind_some]
  have e2 : eqCells 1 (Avo.allocTop 1 : SMem ℚ)
      (fun q => if q = 7 then (fin (-2), pinf) else Avo.allocTop 1 q) = true := by decide +kernel
  exact congrArg some e2

/-- **Defect.** `avo_is_dimension_unconstrained(|x| >= 1, x)` is `true`: the rows of the absolute values
are not read -/
theorem C140_unconstrained_unsound : AvoT.isDimensionUnconstrained far 0 = true ∧
    far.Gam (fun _ => 1) ∧ ¬ far.Gam (Function.update (fun _ => 1) 0 0) := by
  refine ⟨by decide +kernel, ?_, ?_⟩
  · rw [far_gam]; norm_num
  · rw [far_gam]; norm_num

/-- **Defect (imprecision).** the trivial constraint `-2|x| <= 0`, which every closure writes, is enough
for `avo_is_top` to answer `false` on the universe -/
theorem C140_is_top_incomplete :
    let a : AvoT ℚ := ofClosed 1 0 fun q => if q = 7 then (fin 0, pinf) else Avo.allocTop 1 q
    AvoT.isTop a = false ∧ ∀ x, a.Gam x := by
  refine ⟨by decide +kernel, fun x => ?_⟩
  rw [gam_ofClosed]
  intro i j hi hc
  dsimp only
  split_ifs with h'
  · obtain ⟨rfl, rfl⟩ := matpos_inj hc (show Cell 2 3 by decide) h'
    refine ⟨?_, fun hne => absurd rfl hne⟩
    simp only [V, ext]
    norm_num
  · exact allocTop_sat 1 _ _ i j hi hc

/-! ### exported constraints -/

/-- *partial*: the constraint exported for a cell that involves no absolute value holds at every point,
strict where it is exported as strict.  (The rounding must not overflow and the dimensions must not be
the reserved one.)  Missing: the cells of absolute values, see `C140_to_lincons_unsound`. -/
theorem C140_to_lincons_partial [FloorRing K] (R : Rnd K) (hR : ∀ q, R.up q ≠ pinf) (a : AvoT K) (m n : Mem K)
    (hm : a.best = some m) (hn : a.nsc = some n) (i j : ℕ) (hi : i < 2 * a.dim) (hc : j / 2 ≤ i / 2)
    (hdim : a.dim ≤ dimMax) (ho : omitted a.dim m n i j = false) (x : ℕ → K) (hx : a.Gam x) :
    (AvoT.linconsOfBound R a.dim i j (m (matpos i j)) (n (matpos i j))).Holds x := by
  have hok : Ok (V x j - V x i) (m (matpos i j), n (matpos i j)) := by
    obtain ⟨m', hm', hs⟩ := hx
    rw [hm] at hm'
    obtain rfl := Option.some.inj hm'
    rw [hn] at hs
    have := hs i j (by omega) hc
    rw [V_ext_lo hi, V_ext_lo (by omega)] at this
    exact this
  have hij : i ≠ j := by
    rintro rfl
    simp [omitted] at ho
  have hinf : infty (m (matpos i j)) = false := by
    rcases e : infty (m (matpos i j)) with _ | _
    · rfl
    · simp [omitted, e] at ho
  generalize m (matpos i j) = b at *
  generalize n (matpos i j) = s at *
  clear ho hx hm hn
  have hj : j < 2 * a.dim := by omega
  obtain ⟨bv, rfl⟩ : ∃ q, b = fin q := by
    rcases b with _ | q | _
    · simp [infty] at hinf
    · exact ⟨q, rfl⟩
    · simp [infty] at hinf
  have hle : V x j - V x i ≤ bv := by simpa using hok.1
  have hlt : ¬ fin 1 < s → V x j - V x i < bv := fun hs => by
    have := hok.2 (by rintro rfl; simp at hs)
    simpa using this
  have rel : ∀ v : K, bv - (V x j - V x i) ≤ 2 * v ∨ bv - (V x j - V x i) ≤ v →
      Lincons.Rel (if fin 1 < s then ConsTyp.supeq else .sup) v := by
    intro v hv
    split_ifs with hs
    · show 0 ≤ v
      rcases hv with hv | hv <;> linarith
    · show 0 < v
      have := hlt hs
      rcases hv with hv | hv <;> linarith
  unfold AvoT.linconsOfBound
  dsimp only
  rw [if_neg hij]
  by_cases e : i = j ^^^ 1
  · rw [if_pos e, if_pos hi]
    obtain ⟨p, hp⟩ := OctT.scalar_upper R (half := true) hR hinf
    have hj : V x j = -V x i := by rw [e, V_xor1]; simp
    rw [hp]
    refine AvoT.holds_unary (by omega) (rel _ (Or.inl ?_))
    rw [← OctT.V_coef]
    have := OctT.upperScalar_half_ge R (b := fin bv) (q := bv / 2)
      (by rw [mul_div_cancel₀ _ (two_ne_zero)])
    rw [hp, fin_le_fin] at this
    rw [hj]
    linarith
  · rw [if_neg e, if_pos hi, if_pos hj]
    obtain ⟨p, hp⟩ := OctT.scalar_upper R (half := false) hR hinf
    rw [hp]
    refine AvoT.holds_binary (by omega) (by omega) (rel _ (Or.inr ?_))
    have := OctT.upperScalar_ge R (le_refl (fin bv))
    rw [hp, fin_le_fin] at this
    have h1 := OctT.V_coef x i
    have h2 : -V x j = (if j % 2 = 1 then 1 else -1) * x (j / 2) := by
      rw [OctT.V_coef]; split_ifs <;> ring
    rw [← h1, ← h2]; linarith

/-- **Defect.** An absolute value is exported with the coefficient 11 of the variable itself: for
`|x| >= 1` the array contains `11x - 1 >= 0`, which is false at the point `-1` of the value. -/
theorem C140_to_lincons_unsound :
    ∃ l, AvoT.toLinconsArray Rnd.exact far = some l ∧ far.Gam (fun _ => -1) ∧
      ∃ c ∈ l, ¬ c.Holds fun _ => -1 := by
  have e : AvoT.toLinconsArray Rnd.exact far =
      some [⟨.supeq, ⟨.scalar (fin (-1)), .sparse [(0, .scalar (fin 11))]⟩⟩] := by decide +kernel
  refine ⟨_, e, ?_, _, List.mem_singleton_self _, ?_⟩
  · rw [far_gam]; norm_num
  · rw [OctT.holds_unary (by decide)]
    norm_num

/-! ### the hypotheses are met -/

example : ∃ r, AvoT.boundDimension Rnd.exact 1 0 exA 0 = some r ∧ (3 : ℚ) ∈ r := by
  obtain ⟨r, h, hr⟩ := C140_bound_dimension Rnd.exact 1 0 exA exA_wf (by simp) 0 (by decide)
  exact ⟨r, h, hr _ exA_gam⟩

example : ∃ r, AvoT.isBottom Rnd.exact 1 0 exA = some r ∧ r ≠ true := by
  obtain ⟨r, h, hr⟩ := C140_is_bottom Rnd.exact 1 0 exA exA_wf (by simp)
  exact ⟨r, h, fun e => hr e _ exA_gam⟩

end Apron
