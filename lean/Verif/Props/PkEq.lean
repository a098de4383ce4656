import Verif.Poly.PkEqBest
import Verif.Props.PkUser
import Verif.Props.PkResize
import Verif.Props.PkExpand
import Verif.Props.PkAssign

/-!
# C131–C132: linear equalities (`newpolka/pkeq.c`)

`Rep.γ r` is the set of points of `r`.  `Rep.EqOk K n r`, the values of the domain: a well-formed polyhedron (`Rep.Wf`), with
both matrices or none (`Rep.Shape`), whose set of points is an affine subspace or empty (`IsAff`).  `affineSpan` is the least
affine subspace that contains a set.
-/

set_option autoImplicit false
set_option linter.unusedSectionVars false
set_option linter.ambiguousOpen false

namespace Apron.Props

open Apron Apron.Poly Bound ILincons

section
variable {K : Type*} [LinearOrder K] [Field K] [IsStrictOrderedRing K] {n : ℕ}

/-! ## C131: lattice operations, projections, changes of dimensions -/

/-- `equality_reduce` returns the affine hull -/
theorem C131_reduce {r : Rep} (h : r.Wf K n) (hs : r.Shape) :
    (r.eqReduce n).EqOk K n ∧ ∀ x : Fin n → K, (r.eqReduce n).γ x ↔ x ∈ affineSpan K {z : Fin n → K | r.γ z} :=
  ⟨eqReduce_ok h hs, (eqReduce_spec h hs).2.2⟩

/-- the values of the domain pass the check of the library: one constraint besides the equalities, one generator besides the
lines -/
theorem C131_check {r : Rep} (h : r.EqOk K n) : r.eqCheck = true := h.check

/-- the operations inherited from the polyhedra that build the whole space and the empty set -/
theorem C131_top_bottom : (Rep.top n).EqOk K n ∧ (∀ x : Fin n → K, (Rep.top n).γ x) ∧ Rep.bot.EqOk K n ∧ ∀ x : Fin n → K, ¬ Rep.bot.γ x :=
  ⟨⟨top_wf, .both _, .of_closed fun _ _ _ _ _ _ _ => top_γ _⟩, top_γ, ⟨trivial, .bot, .of_closed fun _ _ _ _ h => h.elim⟩, fun _ h => h⟩

/-- `pkeq_meet` is the intersection; the use of NULL that `pk_meet` may do in destructive strict mode does not happen -/
theorem C131_meet {o : Opts} {destr : Bool} {pa pb : Rep} (ha : pa.EqOk K n) (hb : pb.EqOk K n) :
    ∃ r, pa.eqMeet n o destr pb = some r ∧ r.EqOk K n ∧ ∀ x : Fin n → K, r.γ x ↔ pa.γ x ∧ pb.γ x := by
  obtain ⟨r, h1, h2, h3⟩ := C88_meet_exact (o := eqOpts o) (destr := destr) ha.wf hb.wf (fun _ _ C hC => by
    rcases ha.shape with e | ⟨f, e⟩ <;> rw [e] at hC <;> cases hC)
  exact ⟨r, h1, ⟨h2, meet_shape (by rfl) ha.shape hb.shape h1, (ha.aff.inter hb.aff).congr h3⟩, h3⟩

/-- `pkeq_meet_array` is the intersection of the elements.  PARTIAL: the result has both matrices only if the option
`algorithm` of `AP_FUNID_MEET_ARRAY` is not negative (`pkeq_meet_array` writes the option of another function) -/
theorem C131_meet_array_partial {o : Opts} {ps : List (ℕ × Rep)} (hne : ps ≠ []) (hw : ∀ p ∈ ps, p.2.EqOk K n)
    (hid : ∀ p ∈ ps, ∀ q ∈ ps, p.1 = q.1 → p.2 = q.2) :
    ∃ r, eqMeetArray n o ps = some r ∧ r.Wf K n ∧ (o.lzy = false → r.EqOk K n) ∧ ∀ x : Fin n → K, r.γ x ↔ ∀ p ∈ ps, p.2.γ x := by
  obtain ⟨r, h1, h2, h3⟩ := C88_meet_array_exact (o := o) hne (fun p hp => (hw p hp).wf) hid
  refine ⟨r, h1, h2, fun ho => ⟨h2, polyMeetArray_shape ho (fun p hp => (hw p hp).shape) h1, ?_⟩, h3⟩
  refine IsAff.congr (.of_closed fun c p q r hp hq hr s hs => ?_) h3
  exact (hw s hs).aff.closed (hp s hs) (hq s hs) (hr s hs)

/-- `pkeq_join` is the least value of the domain that contains both arguments -/
theorem C131_join_least {o : Opts} {destr : Bool} {pa pb : Rep} (ha : pa.EqOk K n) (hb : pb.EqOk K n) :
    ∃ r, pa.eqJoin n o destr pb = some r ∧ r.EqOk K n ∧ (∀ x : Fin n → K, pa.γ x ∨ pb.γ x → r.γ x) ∧
      ∀ q : Rep, q.EqOk K n → (∀ x : Fin n → K, pa.γ x ∨ pb.γ x → q.γ x) → ∀ x : Fin n → K, r.γ x → q.γ x := by
  obtain ⟨r, h1, h2, h3, -⟩ := C89_join_least (o := eqOpts o) (destr := destr) ha.wf hb.wf
  have hs : r.Shape := join_shape (by rfl) ha.shape hb.shape h1
  have hr := C131_reduce h2 hs
  refine ⟨r.eqReduce n, by rw [Rep.eqJoin, h1]; rfl, hr.1, fun x hx => (hr.2 x).2 (subset_hull (h3 x hx)), fun q hq h x hx => ?_⟩
  obtain ⟨r', e, hle⟩ := C89_join_lub (o := eqOpts o) (destr := destr) ha.wf hb.wf hq.wf h
  rw [h1] at e; cases e
  exact hull_le hq.aff hle ((hr.2 x).1 hx)

/-- over the rationals, `pkeq_join` is the affine hull of the union -/
theorem C131_join_hull {o : Opts} {destr : Bool} {pa pb : Rep} (ha : pa.EqOk ℚ n) (hb : pb.EqOk ℚ n) :
    ∃ r, pa.eqJoin n o destr pb = some r ∧ ∀ x : Fin n → ℚ, r.γ x ↔ x ∈ affineSpan ℚ {z : Fin n → ℚ | pa.γ z ∨ pb.γ z} := by
  obtain ⟨r, h1, h2, h3, h4⟩ := C89_join_least (o := eqOpts o) (destr := destr) ha.wf hb.wf
  have hs : r.Shape := join_shape (by rfl) ha.shape hb.shape h1
  refine ⟨r.eqReduce n, by rw [Rep.eqJoin, h1]; rfl, fun x => ((C131_reduce h2 hs).2 x).trans ?_⟩
  exact hull_between (S := fun z => pa.γ z ∨ pb.γ z) h3 (fun C hC x hx => h4 C hC x hx) x

/-- `pkeq_forget_array` is exact -/
theorem C131_forget {pa : Rep} (ha : pa.EqOk K n) {tdim : List ℕ} (ht : ∀ t ∈ tdim, t < n) (project : Bool) :
    ∃ r, pa.eqForget n tdim project = some r ∧ r.EqOk K n ∧ ∀ x : Fin n → K, r.γ x ↔
      (∃ x0 : Fin n → K, pa.γ x0 ∧ ∀ v : Fin n, (v : ℕ) ∉ tdim → x v = x0 v) ∧
      (project = true → ∀ v : Fin n, (v : ℕ) ∈ tdim → x v = 0) := by
  obtain ⟨r, h1, h2, h3⟩ := C101_forget_exact (lzy := false) ha.wf ht project
  have hr := C131_reduce h2 (forget_shape h1)
  have haff : IsAff (K := K) (n := n) r.γ := by
    refine IsAff.congr (.of_closed ?_) h3
    rintro c p q s ⟨⟨p0, hp, hp0⟩, hp'⟩ ⟨⟨q0, hq, hq0⟩, hq'⟩ ⟨⟨s0, hs, hs0⟩, hs'⟩
    refine ⟨⟨_, ha.aff.closed (c := c) hp hq hs, fun v hv => ?_⟩, fun hpr v hv => ?_⟩
    · simp [hp0 v hv, hq0 v hv, hs0 v hv]
    · simp [hp' hpr v hv, hq' hpr v hv, hs' hpr v hv]
  exact ⟨_, by rw [Rep.eqForget, h1]; rfl, hr.1, fun x => ((hr.2 x).trans (hull_eq haff x)).trans (h3 x)⟩

/-- `pkeq_remove_dimensions` is exact -/
theorem C131_remove {destr : Bool} {pa : Rep} (ha : pa.EqOk K n) {pos : List ℕ} (hs : pos.Pairwise (· < ·)) (hlt : ∀ q ∈ pos, q < n) :
    (Rep.eqRemove destr n pa pos).EqOk K (n - pos.length) ∧
      ∀ x' : ℕ → K, (Rep.eqRemove destr n pa pos).γ (fun i : Fin (n - pos.length) => x' i) ↔
        ∃ x : ℕ → K, pa.γ (fun i : Fin n => x i) ∧
          ∀ v, v < n → v ∉ pos → x' (v - pos.countP (fun p => decide (p < v))) = x v := by
  obtain ⟨h2, h3⟩ := C103_remove_exact (destr := destr) (alg := 1) ha.wf hs hlt
  have hr := C131_reduce h2 remove_shape
  refine ⟨hr.1, fun x' => ((hr.2 _).trans (hull_eq (.pull h3 ?_) _)).trans (h3 x')⟩
  rintro c p q r ⟨p0, hp, hp'⟩ ⟨q0, hq, hq'⟩ ⟨r0, hr, hr'⟩
  refine ⟨c • (p0 - q0) + r0, ha.aff.closed (c := c) hp hq hr, fun v hv hv' => ?_⟩
  simp [hp' v hv hv', hq' v hv hv', hr' v hv hv']

/-- `pkeq_expand` is exact -/
theorem C131_expand {destr : Bool} {pa : Rep} (ha : pa.EqOk K n) {intdim dim sup : ℕ} (hi : intdim ≤ n) (hd : dim < n) (hsup : 0 < sup) :
    (Rep.eqExpand destr n intdim pa dim sup).EqOk K (n + sup) ∧
      ∀ x : ℕ → K, (Rep.eqExpand destr n intdim pa dim sup).γ (fun i : Fin (n + sup) => x i) ↔
        ∀ y, (y = x dim ∨ ∃ k, k < sup ∧ y = x ((if dim < intdim then intdim else n) + k)) →
          pa.γ (fun v : Fin n => if (v : ℕ) = dim then y else if (v : ℕ) < (if dim < intdim then intdim else n) then x v
            else x (v + sup)) := by
  obtain ⟨h2, h3⟩ := C106_expand_exact (destr := destr) (alg := 1) ha.wf hi hd hsup
  have hr := C131_reduce h2 (expand_shape ha.shape)
  refine ⟨hr.1, fun x => ((hr.2 _).trans (hull_eq (.pull h3 ?_) _)).trans (h3 x)⟩
  generalize (if dim < intdim then intdim else n) = m
  intro c p q r hp hq hr y hy
  have key : ∀ j, (∀ z : ℕ → K, (z j = z dim ∨ ∃ k, k < sup ∧ z j = z (m + k))) →
      pa.γ (fun v : Fin n => if (v : ℕ) = dim then (c • (p - q) + r) j else if (v : ℕ) < m then (c • (p - q) + r) v
            else (c • (p - q) + r) (v + sup)) := by
    intro j hj
    convert ha.aff.closed (c := c) (hp (p j) (hj p)) (hq (q j) (hj q)) (hr (r j) (hj r)) using 1
    funext v
    simp only [Pi.add_apply, Pi.smul_apply, Pi.sub_apply, smul_eq_mul]
    split_ifs <;> rfl
  rcases hy with rfl | ⟨k, hk, rfl⟩
  · exact key dim fun z => .inl rfl
  · exact key (m + k) fun z => .inr ⟨k, hk, rfl⟩

/-- the expansion by no dimension -/
theorem C131_expand_zero {destr : Bool} {pa : Rep} (ha : pa.EqOk K n) {intdim dim : ℕ} :
    (Rep.eqExpand destr n intdim pa dim 0).EqOk K n ∧ ∀ x : Fin n → K, (Rep.eqExpand destr n intdim pa dim 0).γ x ↔ pa.γ x := by
  rw [Rep.eqExpand, C106_expand_zero]
  have hr := C131_reduce ha.wf ha.shape
  exact ⟨hr.1, fun x => (hr.2 x).trans (hull_eq ha.aff x)⟩

/-- the addition of dimensions, inherited from the polyhedra, gives values of the domain -/
theorem C131_add {destr : Bool} {alg : ℤ} {pa : Rep} (ha : pa.EqOk K n) {pos : List ℕ} (hne : pos ≠ [])
    (hs : pos.Pairwise (· ≤ ·)) (hlt : ∀ q ∈ pos, q ≤ n) (project : Bool) :
    ∃ r, Rep.addDimensions destr n alg pa pos project = some r ∧ r.EqOk K (n + pos.length) := by
  obtain ⟨r, h1, h2, h3⟩ := C102_add_exact (destr := destr) (alg := alg) ha.wf hne hs hlt project
  refine ⟨r, h1, h2, add_shape ha.shape h1, .pull h3 ?_⟩
  rintro c p q r ⟨hp, hp'⟩ ⟨hq, hq'⟩ ⟨hr, hr'⟩
  refine ⟨ha.aff.closed (c := c) hp hq hr, fun hpr k hk => ?_⟩
  rw [Pi.add_apply, Pi.smul_apply, Pi.sub_apply, hp' hpr k hk, hq' hpr k hk, hr' hpr k hk]
  simp

/-- the permutation of dimensions, inherited from the polyhedra, gives values of the domain -/
theorem C131_permute {alg : ℤ} {pa : Rep} (ha : pa.EqOk K n) {perm : ℕ → ℕ} (hp : ∀ i, i < n → perm i < n)
    (hinj : ∀ i j, i < n → j < n → perm i = perm j → i = j) : (Rep.permuteDimensions n alg pa perm).EqOk K n := by
  obtain ⟨h2, h3⟩ := C103_permute_exact (alg := alg) ha.wf hp hinj
  exact ⟨h2, permute_shape ha.shape, .pull h3 fun c p q r hp hq hr => ha.aff.closed (c := c) hp hq hr⟩

/-- `pkeq_fold` is the least value of the domain that contains the points obtained by choosing one of the folded dimensions -/
theorem C131_fold_least {pa : Rep} (ha : pa.EqOk K n) {d : ℕ} {ts : List ℕ} (hne : ts ≠ [])
    (hp : (d :: ts).Pairwise (· < ·)) (hlt : ∀ t ∈ d :: ts, t < n) :
    (Rep.eqFold n pa d ts).EqOk K (n - ts.length) ∧
    (∀ (x x' : ℕ → K) (t : ℕ), pa.γ (fun i : Fin n => x i) → t ∈ d :: ts → x' d = x t →
      (∀ v, v < n → v ∉ ts → v ≠ d → x' (v - ts.countP (fun p => decide (p < v))) = x v) →
      (Rep.eqFold n pa d ts).γ (fun i : Fin (n - ts.length) => x' i)) ∧
    ∀ q : Rep, q.EqOk K (n - ts.length) → (∀ (x x' : ℕ → K) (t : ℕ), pa.γ (fun i : Fin n => x i) → t ∈ d :: ts → x' d = x t →
      (∀ v, v < n → v ∉ ts → v ≠ d → x' (v - ts.countP (fun p => decide (p < v))) = x v) →
      q.γ (fun i : Fin (n - ts.length) => x' i)) →
      ∀ x' : Fin (n - ts.length) → K, (Rep.eqFold n pa d ts).γ x' → q.γ x' := by
  obtain ⟨h2, h3, h4⟩ := C107_fold_least (alg := 1) ha.wf hne hp hlt
  have hr := C131_reduce h2 fold_shape
  refine ⟨hr.1, fun x x' t h5 h6 h7 h8 => (hr.2 _).2 (subset_hull (h3 x x' t h5 h6 h7 h8)), fun q hq h x' hx' => ?_⟩
  refine hull_le hq.aff (fun z hz => ?_) ((hr.2 x').1 hx')
  obtain ⟨-, rfl | ⟨f, rfl⟩, -⟩ := hq
  · exfalso
    have := h4 [[1, -1]] (fun x x' t h5 h6 h7 h8 => (h x x' t h5 h6 h7 h8).elim) z hz [1, -1] (by simp)
    have e : dot ([1, -1] : Row) (hom z) = -1 := by
      rw [dot, Fin.sum_univ_succ, Finset.sum_eq_zero]
      · simp [Row.at', hom]
      · intro i _; simp [Row.at']
    rw [e] at this
    linarith [this.1]
  · exact h4 f.crows h z hz

/-- `pkeq_widening` is an upper bound of its second argument, hence of both in the usual case where the first is included in
the second -/
theorem C131_widening_upper {a b : Rep} (hb : b.EqOk K n) : (Rep.eqWidening a b).EqOk K n ∧ ∀ x : Fin n → K, b.γ x → (Rep.eqWidening a b).γ x :=
  ⟨hb, fun _ h => h⟩

/-- the iterations with `pkeq_widening` stabilise: every sequence of values whose terms are upper bounds of the previous ones
ends on a constant set of points -/
theorem C131_widening_terminates {a b : ℕ → Rep} (ha : ∀ k, (a k).EqOk K n) (hb : ∀ k x, (a k).γ x → (b k).γ (K := K) (n := n) x)
    (hw : ∀ k, a (k + 1) = Rep.eqWidening (a k) (b k)) : ∃ N, ∀ k, N ≤ k → ∀ x : Fin n → K, (a k).γ x ↔ (a N).γ x :=
  aff_chain (fun k => (ha k).aff) fun k x h => by rw [hw k]; exact hb k x h

/-- `pkeq_is_eq` reads no row outside of the matrices and answers true on equal sets only -/
theorem C131_is_eq_sound {pa pb : Rep} (ha : pa.EqOk K n) (hb : pb.EqOk K n) :
    ∃ b, pa.eqIsEq n pb = some b ∧ (b = true → ∀ x : Fin n → K, pa.γ x ↔ pb.γ x) := by
  obtain ⟨b, h1, h2, -⟩ := eqIsEq_spec ha hb
  exact ⟨b, h1, h2⟩

/-- it is exact.  PARTIAL: the matrices must be normalised with truthful flags, see `C109_is_eq_wrong` -/
theorem C131_is_eq_exact_partial {pa pb : Rep} (ha : pa.EqOk K n) (na : pa.Nice n) (hb : pb.EqOk K n) (nb : pb.Nice n) :
    pa.eqIsEq n pb = some true ↔ ∀ x : Fin n → K, pa.γ x ↔ pb.γ x := by
  obtain ⟨b, h1, h2, h3⟩ := eqIsEq_spec ha hb
  rw [h1]
  exact ⟨fun h => h2 (Option.some.inj h), fun h => congrArg some (h3 na nb h)⟩

/-- `equality_reduce` keeps the rows normalised -/
theorem C131_nice_reduce {r : Rep} (h : r.Nice n) : (r.eqReduce n).Nice n := eqReduce_nice h

end

variable {n : ℕ}

/-- `pkeq_meet_lincons_array` loses no point that satisfies the constraints, and is included in its argument -/
theorem C131_meet_lincons_sound {intdim : ℕ} {pa : Rep} (ha : pa.EqOk ℚ n) {l : List (Lincons ℚ)} (hl : ∀ c ∈ l, c.expr.InDim n) :
    ∃ r, pa.eqMeetLincons n intdim l = some r ∧ r.EqOk ℚ n ∧ (∀ x : Fin n → ℚ, r.γ x → pa.γ x) ∧
      ∀ x : Fin n → ℚ, IntPt intdim x → pa.γ x → (∀ c ∈ l, c.Holds (ext x)) → r.γ x := by
  obtain ⟨r, h1, h2, h3, h4⟩ := C91_meet_lincons_sound (intdim := intdim) (lzy := false) ha.wf hl
  have hr := C131_reduce h2 (meetLincons_shape h1)
  exact ⟨_, by rw [Rep.eqMeetLincons, h1]; rfl, hr.1, fun x hx => hull_le ha.aff h3 ((hr.2 x).1 hx),
    fun x h5 h6 h7 => (hr.2 x).2 (subset_hull (h4 x h5 h6 h7))⟩

/-- with real dimensions, and constraints `e = 0` and `e ≥ 0` with numeric coefficients, it is the affine hull of the
intersection.  Missing: integer dimensions, strict constraints. -/
theorem C131_meet_lincons_hull_partial {pa : Rep} (ha : pa.EqOk ℚ n) {l : List (Lincons ℚ)}
    (hl : ∀ c ∈ l, c.expr.InDim n ∧ c.expr.Numeric ∧ (c.typ = .eq ∨ c.typ = .supeq)) :
    ∃ r, pa.eqMeetLincons n 0 l = some r ∧ r.EqOk ℚ n ∧
      ∀ x : Fin n → ℚ, r.γ x ↔ x ∈ affineSpan ℚ {z : Fin n → ℚ | pa.γ z ∧ ∀ c ∈ l, c.Holds (ext z)} := by
  obtain ⟨r, h1, h2, h3⟩ := C91_meet_lincons_exact_partial (lzy := false) ha.wf hl
  have hr := C131_reduce h2 (meetLincons_shape h1)
  exact ⟨_, by rw [Rep.eqMeetLincons, h1]; rfl, hr.1, fun x => (hr.2 x).trans (hull_congr h3 x)⟩

/-- `pkeq_add_ray_array` is the affine hull of the argument extended by the rays and lines -/
theorem C131_add_rays_hull {pa : Rep} (ha : pa.EqOk ℚ n) {l : List (GenTyp × Linexpr ℚ)}
    (hl : ∀ g ∈ l, g.1 ≠ .vertex ∧ g.2.InDim n ∧ g.2.Numeric) :
    ∃ r, pa.eqAddRays n l = some r ∧ r.EqOk ℚ n ∧
      ∀ x : Fin n → ℚ, r.γ x ↔ x ∈ affineSpan ℚ {z : Fin n → ℚ | ∃ x0 : Fin n → ℚ, pa.γ x0 ∧
        Comb (l.map fun g => (decide (g.1 = .ray ∨ g.1 = .raymod), fun d : Fin n => ((g.2.terms.filter fun p => p.1 = (d : ℕ)).map fun p => numref p.2.sup).sum))
          (z - x0)} := by
  obtain ⟨r, h1, h2, h3⟩ := C94_add_rays_exact (lzy := false) ha.wf hl
  have hr := C131_reduce h2 (addRays_shape h1)
  exact ⟨_, by rw [Rep.eqAddRays, h1]; rfl, hr.1, fun x => (hr.2 x).trans (hull_congr h3 x)⟩

/-- `pkeq_of_box` contains the points of the box that are integer on the integer dimensions -/
theorem C131_of_box_sound {intdim : ℕ} {alg : ℤ} (box : ℕ → Itv ℚ) :
    (Rep.eqOfBox n intdim alg box).Wf ℚ n ∧ (Rep.eqOfBox n intdim alg box).Shape ∧
    ∀ x : Fin n → ℚ, IntPt intdim x → (∀ d : Fin n, x d ∈ box d) → (Rep.eqOfBox n intdim alg box).γ x :=
  ⟨(eqOfBox_ok intdim alg box).1, (eqOfBox_ok intdim alg box).2, fun _ hx h => eqOfBox_sound hx h⟩

/-- with real dimensions it keeps the dimensions whose interval is a point; for a non-empty box this is the affine hull of the
box.  Missing: integer dimensions, and the empty box, which is not recognised (`C131_of_box_empty_not_best`). -/
theorem C131_of_box_hull_partial {alg : ℤ} (box : ℕ → Itv ℚ) :
    (Rep.eqOfBox n 0 alg box).EqOk ℚ n ∧
    (∀ x : Fin n → ℚ, (Rep.eqOfBox n 0 alg box).γ x ↔ ∀ (d : Fin n) (q : ℚ), box d = Itv.point q → x d = q) ∧
    ((∃ p : Fin n → ℚ, ∀ d : Fin n, p d ∈ box d) → ∀ x : Fin n → ℚ,
      (Rep.eqOfBox n 0 alg box).γ x ↔ x ∈ affineSpan ℚ {z : Fin n → ℚ | ∀ d : Fin n, z d ∈ box d}) := by
  have haff : IsAff (K := ℚ) (n := n) (Rep.eqOfBox n 0 alg box).γ := by
    refine IsAff.congr (.of_closed fun c p q r hp hq hr d v hv => ?_) (eqOfBox_exact (alg := alg) (box := box))
    simp [hp d v hv, hq d v hv, hr d v hv]
  refine ⟨⟨(eqOfBox_ok 0 alg box).1, (eqOfBox_ok 0 alg box).2, haff⟩, eqOfBox_exact, fun ⟨p, hp⟩ x => ⟨fun h => ?_, fun h => ?_⟩⟩
  · exact box_hull hp ((eqOfBox_exact x).1 h)
  · exact hull_le haff (fun z hz => eqOfBox_sound (fun d hd => absurd hd (by omega)) hz) h

/-- the join of arrays contains the elements and is the least value of the domain.  PARTIAL: the option `algorithm` of
`AP_FUNID_JOIN_ARRAY` must not be negative, see `C131_join_array_lazy_not_affine`; each address occurs at most twice, see
`C89_join_array_three_aliases_unsound` -/
theorem C131_join_array_partial {K : Type*} [LinearOrder K] [Field K] [IsStrictOrderedRing K] {o : Opts} (ho : o.lzy = false) {ids : List ℕ}
    {heap : ℕ → Rep} (hne : ids ≠ []) (hw : ∀ i ∈ ids, (heap i).EqOk K n) (hc : ∀ i, ids.count i ≤ 2) :
    ∃ r, eqJoinArray n o ids heap = some r ∧ r.EqOk K n ∧ (∀ i ∈ ids, ∀ x : Fin n → K, (heap i).γ x → r.γ x) ∧
      ∀ q : Rep, q.EqOk K n → (∀ i ∈ ids, ∀ x : Fin n → K, (heap i).γ x → q.γ x) → ∀ x : Fin n → K, r.γ x → q.γ x := by
  obtain ⟨r, h1, h2, h3, h4⟩ := C89_join_array_least_partial (o := o) hne (fun i hi => (hw i hi).wf) hc
  have hr := C131_reduce h2 (joinArray_shape ho (fun i hi => (hw i hi).shape) h1)
  refine ⟨_, by rw [eqJoinArray, h1]; rfl, hr.1, fun i hi x hx => (hr.2 x).2 (subset_hull (h3 i hi x hx)), fun q hq h x hx => ?_⟩
  refine hull_le hq.aff (fun z hz => ?_) ((hr.2 x).1 hx)
  obtain ⟨-, rfl | ⟨f, rfl⟩, -⟩ := hq
  · exfalso
    have := h4 [[1, -1]] (fun i hi y hy => (h i hi y hy).elim) z hz [1, -1] (by simp)
    have e : dot ([1, -1] : Row) (hom z) = -1 := by
      rw [dot, Fin.sum_univ_succ, Finset.sum_eq_zero]
      · simp [Row.at', hom]
      · intro i _; simp [Row.at']
    rw [e] at this
    linarith [this.1]
  · exact h4 f.crows h z hz

/-- the points `0` and `1` of the line -/
def eqPts (i : ℕ) : Rep := Rep.eqOfBox 1 0 0 fun _ => Itv.point (if i = 0 then 0 else 1)

/-- DEFECT (`pkeq.c:289-297`): with a negative option for the join of arrays, the result of `pkeq_join_array` has no constraint
matrix, it is the convex hull and not an affine subspace: it contains `0` and `1` but not `2` -/
theorem C131_join_array_lazy_not_affine : (∀ i, (eqPts i).EqOk ℚ 1) ∧ ∃ r, eqJoinArray 1 ⟨true, false, 0⟩ [0, 1] eqPts = some r ∧
    r.γ (pt1 0) ∧ r.γ (pt1 1) ∧ ¬ r.γ (pt1 2) ∧ r.eqCheck = false := by
  refine ⟨fun i => (C131_of_box_hull_partial _).1, .gens [[1, 1, 0], [1, 1, 1]], by decide +kernel, ?_, ?_, ?_, rfl⟩
  · change GenM _ _
    rw [genM_iff_polar]
    intro z hz
    have h := (hz [1, 1, 0] (by simp)).1
    simp [dot, linV_apply, Fin.sum_univ_succ, Row.at', hom, pt1] at h ⊢
    exact h
  · change GenM _ _
    rw [genM_iff_polar]
    intro z hz
    have h := (hz [1, 1, 1] (by simp)).1
    simp [dot, linV_apply, Fin.sum_univ_succ, Row.at', hom, pt1] at h ⊢
    linarith
  · change ¬ GenM _ _
    rw [genM_iff_polar]
    intro h
    have := h ![1, -1] (by
      intro q hq
      simp only [List.mem_cons, List.not_mem_nil, or_false] at hq
      rcases hq with rfl | rfl <;> simp [dot, Fin.sum_univ_succ, Row.at'])
    simp [linV_apply, Fin.sum_univ_succ, hom, pt1] at this

/-- an empty box is not recognised: the interval `[1, 0]` gives the whole line -/
theorem C131_of_box_empty_not_best : (∀ x : ℚ, ¬ x ∈ (⟨fin (-1), fin 0⟩ : Itv ℚ)) ∧
    ∀ x : Fin 1 → ℚ, (Rep.eqOfBox 1 0 0 fun _ => ⟨fin (-1), fin 0⟩).γ x := by
  constructor
  · rintro x ⟨h1, h2⟩
    rw [fin_le_fin] at h1 h2
    linarith
  · intro x
    rw [(C131_of_box_hull_partial _).2.1]
    intro d q hq
    simp only [Itv.point, Itv.mk.injEq, fin.injEq] at hq
    linarith

/-! ## C132: assignment and substitution -/

/-- the hypotheses on an array of assignments: the targets are distinct and exist, and an expression whose constant is a scalar
has numeric coefficients -/
structure EqAsgOk (n : ℕ) (l : List (ℕ × Linexpr ℚ)) : Prop where
  nodup : (l.map Prod.fst).Nodup
  dims : ∀ p ∈ l, p.1 < n
  expr : ∀ p ∈ l, cstScalar p.2 = true → p.2.InDim n ∧ p.2.Numeric

theorem EqAsgOk.det {l : List (ℕ × Linexpr ℚ)} (h : EqAsgOk n l) : AsgOk n (l.filter fun p => cstScalar p.2) where
  nodup := h.nodup.sublist (List.filter_sublist.map _)
  dims := fun p hp => h.dims p (List.mem_of_mem_filter hp)
  expr := fun p hp => h.expr p (List.mem_of_mem_filter hp) (List.mem_filter.1 hp).2

theorem numeric_cstScalar {e : Linexpr ℚ} (h : e.Numeric) : cstScalar e = true := by
  obtain ⟨⟨q, hq⟩, -⟩ := h
  rw [cstScalar, hq]

/-- the image by a parallel assignment where the targets of the expressions with an interval constant are arbitrary -/
def EqAssigns (l : List (ℕ × Linexpr ℚ)) (x x' : Fin n → ℚ) : Prop :=
  (∀ p ∈ l, cstScalar p.2 = true → ∀ d : Fin n, (d : ℕ) = p.1 → p.2.Val (ext x) (x' d)) ∧ ∀ d : Fin n, (d : ℕ) ∉ l.map Prod.fst → x' d = x d

theorem assigns_aff {l : List (ℕ × Linexpr ℚ)} (h : AsgOk n l) (c : ℚ) (p q r p' q' r' : Fin n → ℚ) (hp : Assigns l p p') (hq : Assigns l q q')
    (hr : Assigns l r r') : Assigns l (c • (p - q) + r) (c • (p' - q') + r') := by
  rw [assigns_iff h] at *
  rw [hom_comb, hom_comb, hp, hq, hr, map_add, map_smul, map_sub]

theorem eqDet_spec {assign : Bool} {pa q : Rep} (ha : pa.EqOk ℚ n) {l : List (ℕ × Linexpr ℚ)} (h : AsgOk n l) (hq : q.Wf ℚ n)
    (hg : ∀ x : Fin n → ℚ, q.γ x ↔ ∃ x0 : Fin n → ℚ, pa.γ x0 ∧ if assign then Assigns l x0 x else Assigns l x x0) :
    ((q.chernikova n).eqReduce n).EqOk ℚ n ∧ ∀ x : Fin n → ℚ, ((q.chernikova n).eqReduce n).γ x ↔
      ∃ x0 : Fin n → ℚ, pa.γ x0 ∧ if assign then Assigns l x0 x else Assigns l x x0 := by
  have hr := C131_reduce (chernikova_wf hq) (chernikova_shape n q)
  have hg' : ∀ x : Fin n → ℚ, (q.chernikova n).γ x ↔ ∃ x0 : Fin n → ℚ, pa.γ x0 ∧ if assign then Assigns l x0 x else Assigns l x x0 :=
    fun x => (chernikova_γ hq x).trans (hg x)
  have haff : IsAff (K := ℚ) (n := n) (q.chernikova n).γ := by
    refine IsAff.congr (ha.aff.image (R := fun x0 x => if assign then Assigns l x0 x else Assigns l x x0) ?_) hg'
    intro c p q r p' q' r'
    cases assign
    · exact fun h1 h2 h3 => assigns_aff h c _ _ _ _ _ _ h1 h2 h3
    · exact fun h1 h2 h3 => assigns_aff h c _ _ _ _ _ _ h1 h2 h3
  exact ⟨hr.1, fun x => ((hr.2 x).trans (hull_eq haff x)).trans (hg' x)⟩

theorem eqDet1_spec {assign destr : Bool} {pa : Rep} (ha : pa.EqOk ℚ n) {d : ℕ} {e : Linexpr ℚ} (h : AsgOk n [(d, e)]) :
    (((Rep.asssubDet assign destr n pa d (exprRow n e)).chernikova n).eqReduce n).EqOk ℚ n ∧
      ∀ x : Fin n → ℚ, (((Rep.asssubDet assign destr n pa d (exprRow n e)).chernikova n).eqReduce n).γ x ↔
        ∃ x0 : Fin n → ℚ, pa.γ x0 ∧ if assign then Assigns [(d, e)] x0 x else Assigns [(d, e)] x x0 := by
  obtain ⟨q, h1, h2, h3⟩ := asssub_det_spec (assign := assign) (destr := destr) ha.wf (l := [(d, e)]) (by simp) h
  rw [Rep.asssubDets] at h1
  cases h1
  exact eqDet_spec ha h h2 h3

theorem eqDets_spec {assign : Bool} {pa : Rep} (ha : pa.EqOk ℚ n) {l : List (ℕ × Linexpr ℚ)} (hl : l ≠ []) (h : AsgOk n l) :
    ∃ q, Rep.asssubArrayDet assign n pa (l.map fun p : ℕ × Linexpr ℚ => (p.1, exprRow n p.2)) = some q ∧
      ((q.chernikova n).eqReduce n).EqOk ℚ n ∧ ∀ x : Fin n → ℚ, ((q.chernikova n).eqReduce n).γ x ↔
        ∃ x0 : Fin n → ℚ, pa.γ x0 ∧ if assign then Assigns l x0 x else Assigns l x x0 := by
  obtain ⟨q, h1, h2, h3⟩ := asssubArrayDet_spec (K := ℚ) (assign := assign) ha.wf (l := asgTab n l) (by simpa [asgTab] using hl)
    (by rw [asgTab_fst]; exact h.nodup) (fun q hq => by
      obtain ⟨p, hp, rfl⟩ := List.mem_map.1 hq; exact h.dims p hp) (fun q hq => by
      obtain ⟨p, hp, rfl⟩ := List.mem_map.1 hq
      exact (exprRow_spec (h.expr p hp).1 (h.expr p hp).2).1)
  simp only [asgRel_iff h] at h3
  exact ⟨q, h1, eqDet_spec ha h h2 h3⟩

/-- the operation followed by the intersection with the destination -/
theorem eqAsssub_of {assign destr : Bool} {o : Opts} {pa : Rep} {l : List (ℕ × Linexpr ℚ)} {P : (Fin n → ℚ) → Prop} {q : Rep}
    (h1 : pa.eqAsssubs assign destr n l = some q) (hq : q.EqOk ℚ n) (h : ∀ x, q.γ x ↔ P x)
    {dest : Option Rep} (hb : ∀ b, dest = some b → b.EqOk ℚ n) :
    ∃ r, pa.eqAsssub assign destr n o l dest = some r ∧ r.EqOk ℚ n ∧ ∀ x, r.γ x ↔ P x ∧ ∀ b, dest = some b → b.γ x := by
  rw [Rep.eqAsssub, h1]
  cases dest with
  | none => exact ⟨q, rfl, hq, fun x => by simp [h]⟩
  | some b =>
    obtain ⟨r, hr, hr', hr''⟩ := C131_meet (o := o) (destr := true) hq (hb b rfl)
    exact ⟨r, hr, hr', fun x => by simp [hr'', h]⟩

/-- `pkeq_assign_linexpr_array`, described exactly: the expressions with a scalar constant are assigned in parallel, the
targets of the others are forgotten.  PARTIAL: an expression with a scalar constant has numeric coefficients, see
`C132_assign_interval_coefficient_unsound` -/
theorem C132_assign_partial {destr : Bool} {o : Opts} {pa : Rep} (ha : pa.EqOk ℚ n) {l : List (ℕ × Linexpr ℚ)} (h : EqAsgOk n l)
    {dest : Option Rep} (hb : ∀ b, dest = some b → b.EqOk ℚ n) :
    ∃ r, pa.eqAsssub true destr n o l dest = some r ∧ r.EqOk ℚ n ∧
      ∀ x : Fin n → ℚ, r.γ x ↔ (∃ x0 : Fin n → ℚ, pa.γ x0 ∧ EqAssigns l x0 x) ∧ ∀ b, dest = some b → b.γ x := by
  have hbot : ∀ x : Fin n → ℚ, Rep.bot.γ x ↔ ∃ x0 : Fin n → ℚ, Rep.bot.γ x0 ∧ EqAssigns l x0 x :=
    fun x => ⟨fun h => h.elim, fun ⟨_, h, _⟩ => h.elim⟩
  -- the array
  have harr : ∃ q, pa.eqAsssubArray true n l = some q ∧ q.EqOk ℚ n ∧ ∀ x : Fin n → ℚ, q.γ x ↔ ∃ x0 : Fin n → ℚ, pa.γ x0 ∧ EqAssigns l x0 x := by
    rw [Rep.eqAsssubArray]
    by_cases hp : pa = .bot
    · rw [if_pos hp]; subst hp; exact ⟨_, rfl, ha, hbot⟩
    rw [if_neg hp]
    have hnd : ∀ t ∈ (l.filter fun p => !cstScalar p.2).map Prod.fst, t < n := by
      intro t ht
      obtain ⟨p, hp, rfl⟩ := List.mem_map.1 ht
      exact h.dims p (List.mem_of_mem_filter hp)
    have hmem : ∀ d : ℕ, d ∉ l.map Prod.fst ↔ d ∉ (l.filter fun p => cstScalar p.2).map Prod.fst ∧ d ∉ (l.filter fun p => !cstScalar p.2).map Prod.fst := by
      intro d
      simp only [List.mem_map, List.mem_filter, not_exists, not_and]
      constructor
      · exact fun h => ⟨fun p hp => h p hp.1, fun p hp => h p hp.1⟩
      · rintro ⟨h1, h2⟩ p hp
        cases hc : cstScalar p.2
        · exact h2 p ⟨hp, by simp [hc]⟩
        · exact h1 p ⟨hp, hc⟩
    have hsep : ∀ p ∈ l, cstScalar p.2 = true → p.1 ∉ (l.filter fun p => !cstScalar p.2).map Prod.fst := by
      intro p hp hc hm
      obtain ⟨p', hp', e⟩ := List.mem_map.1 hm
      obtain ⟨hp1, hp2⟩ := List.mem_filter.1 hp'
      have : p' = p := List.inj_on_of_nodup_map h.nodup hp1 hp e
      rw [this, hc] at hp2
      simp at hp2
    dsimp only
    by_cases hdet : l.filter (fun p => cstScalar p.2) ≠ []
    · rw [if_pos hdet]
      obtain ⟨q, h1, h2, h3⟩ := eqDets_spec (assign := true) ha hdet h.det
      simp only [if_true] at h3
      rw [h1]
      dsimp only [Option.bind_some]
      by_cases hn : (l.filter fun p => !cstScalar p.2).map Prod.fst ≠ []
      · rw [if_pos hn]
        obtain ⟨r, h4, h5, h6⟩ := C131_forget h2 hnd false
        refine ⟨r, h4, h5, fun x => ?_⟩
        rw [h6]
        simp only [Bool.false_eq_true, false_imp_iff, and_true, h3]
        constructor
        · rintro ⟨x1, ⟨x0, hx0, ha1, ha2⟩, hx1⟩
          refine ⟨x0, hx0, fun p hp hc d hd => ?_, fun d hd => ?_⟩
          · rw [hx1 d (by rw [hd]; exact hsep p hp hc)]
            exact ha1 p (List.mem_filter.2 ⟨hp, hc⟩) d hd
          · rw [hmem] at hd
            rw [hx1 d hd.2, ha2 d hd.1]
        · rintro ⟨x0, hx0, ha1, ha2⟩
          refine ⟨fun d => if (d : ℕ) ∈ (l.filter fun p => !cstScalar p.2).map Prod.fst then x0 d else x d, ⟨x0, hx0, fun p hp d hd => ?_, fun d hd => ?_⟩,
            fun d hd => by dsimp only; rw [if_neg hd]⟩
          · obtain ⟨hp1, hp2⟩ := List.mem_filter.1 hp
            dsimp only
            rw [if_neg (by rw [hd]; exact hsep p hp1 hp2)]
            exact ha1 p hp1 hp2 d hd
          · dsimp only
            split_ifs with hm
            · rfl
            · exact ha2 d ((hmem d).2 ⟨hd, hm⟩)
      · rw [if_neg hn]
        push Not at hn
        refine ⟨_, rfl, h2, fun x => ?_⟩
        rw [h3]
        refine exists_congr fun x0 => and_congr_right fun _ => and_congr ?_ ?_
        · constructor
          · exact fun hh p hp hc => hh p (List.mem_filter.2 ⟨hp, hc⟩)
          · exact fun hh p hp => hh p (List.mem_filter.1 hp).1 (List.mem_filter.1 hp).2
        · refine forall_congr' fun d => ?_
          rw [hmem, hn]
          simp
    · rw [if_neg hdet]
      push Not at hdet
      obtain ⟨r, h4, h5, h6⟩ := C131_forget ha hnd false
      refine ⟨r, h4, h5, fun x => ?_⟩
      rw [h6]
      simp only [Bool.false_eq_true, false_imp_iff, and_true]
      refine exists_congr fun x0 => and_congr_right fun _ => ?_
      constructor
      · intro hx
        refine ⟨fun p hp hc => ?_, fun d hd => hx d ((hmem d).1 hd).2⟩
        have : p ∈ l.filter (fun p => cstScalar p.2) := List.mem_filter.2 ⟨hp, hc⟩
        rw [hdet] at this
        simp at this
      · exact fun hx d hd => hx.2 d ((hmem d).2 ⟨by rw [hdet]; simp, hd⟩)
  have hall : ∃ q, pa.eqAsssubs true destr n l = some q ∧ q.EqOk ℚ n ∧ ∀ x : Fin n → ℚ, q.γ x ↔ ∃ x0 : Fin n → ℚ, pa.γ x0 ∧ EqAssigns l x0 x := by
    match l, h, harr, hbot with
    | [(d, e)], h, _, hbot =>
      rw [Rep.eqAsssubs, Rep.eqAsssub1]
      by_cases hp : pa = .bot
      · rw [if_pos hp]; subst hp; exact ⟨_, rfl, ha, hbot⟩
      rw [if_neg hp]
      by_cases hc : cstScalar e = true
      · rw [if_pos hc]
        have hok : AsgOk n [(d, e)] := ⟨h.nodup, h.dims, fun p hp => h.expr p hp (by
          rw [List.mem_singleton] at hp; subst hp; exact hc)⟩
        obtain ⟨h1, h2⟩ := eqDet1_spec (assign := true) (destr := destr) ha hok
        refine ⟨_, rfl, h1, fun x => ?_⟩
        rw [h2]
        simp only [if_true]
        refine exists_congr fun x0 => and_congr_right fun _ => and_congr ?_ Iff.rfl
        constructor
        · exact fun hh p hp _ => hh p hp
        · intro hh p hp
          exact hh p hp (by rw [List.mem_singleton] at hp; subst hp; exact hc)
      · rw [if_neg hc]
        obtain ⟨r, h4, h5, h6⟩ := C131_forget ha (tdim := [d]) (fun t ht => by
          rw [List.mem_singleton] at ht; subst ht; exact h.dims (t, e) (by simp)) false
        refine ⟨r, h4, h5, fun x => ?_⟩
        rw [h6]
        simp only [Bool.false_eq_true, false_imp_iff, and_true]
        refine exists_congr fun x0 => and_congr_right fun _ => ?_
        constructor
        · refine fun hh => ⟨fun p hp hc' => ?_, fun d hd => hh d (by simpa using hd)⟩
          rw [List.mem_singleton] at hp; subst hp; exact absurd hc' hc
        · exact fun hh d hd => hh.2 d (by simpa using hd)
    | [], _, harr, _ => exact harr
    | (_ :: _ :: _), _, harr, _ => exact harr
  obtain ⟨q, h1, h2, h3⟩ := hall
  exact eqAsssub_of h1 h2 h3 hb

/-- no image is lost, for all the choices of the interval constants -/
theorem C132_assign_sound_partial {destr : Bool} {o : Opts} {pa : Rep} (ha : pa.EqOk ℚ n) {l : List (ℕ × Linexpr ℚ)} (h : EqAsgOk n l)
    {dest : Option Rep} (hb : ∀ b, dest = some b → b.EqOk ℚ n) :
    ∃ r, pa.eqAsssub true destr n o l dest = some r ∧ r.EqOk ℚ n ∧ (∀ x : Fin n → ℚ, r.γ x → ∀ b, dest = some b → b.γ x) ∧
      ∀ x0 x : Fin n → ℚ, pa.γ x0 → Assigns l x0 x → (∀ b, dest = some b → b.γ x) → r.γ x := by
  obtain ⟨r, h1, h2, h3⟩ := C132_assign_partial (destr := destr) (o := o) ha h hb
  exact ⟨r, h1, h2, fun x hx => ((h3 x).1 hx).2, fun x0 x hx0 hx hd => (h3 x).2 ⟨⟨x0, hx0, fun p hp _ => hx.1 p hp, hx.2⟩, hd⟩⟩

/-- with numeric expressions the result is exactly the set of images, restricted to the destination -/
theorem C132_assign_exact {destr : Bool} {o : Opts} {pa : Rep} (ha : pa.EqOk ℚ n) {l : List (ℕ × Linexpr ℚ)} (h : AsgOk n l)
    {dest : Option Rep} (hb : ∀ b, dest = some b → b.EqOk ℚ n) :
    ∃ r, pa.eqAsssub true destr n o l dest = some r ∧ r.EqOk ℚ n ∧
      ∀ x : Fin n → ℚ, r.γ x ↔ (∃ x0 : Fin n → ℚ, pa.γ x0 ∧ Assigns l x0 x) ∧ ∀ b, dest = some b → b.γ x := by
  obtain ⟨r, h1, h2, h3⟩ := C132_assign_partial (destr := destr) (o := o) ha ⟨h.nodup, h.dims, fun p hp _ => h.expr p hp⟩ hb
  refine ⟨r, h1, h2, fun x => (h3 x).trans (and_congr_left fun _ => exists_congr fun x0 => and_congr_right fun _ => and_congr ?_ Iff.rfl)⟩
  exact ⟨fun hh p hp => hh p hp (numeric_cstScalar (h.expr p hp).2), fun hh p hp _ => hh p hp⟩

/-- `pkeq_substitute_linexpr_array` with numeric expressions returns exactly the points whose image is in the argument,
restricted to the destination.  PARTIAL: with expressions that have an interval constant, see `C132_substitute_forget` and
`C132_substitute_mixed_unsound` -/
theorem C132_substitute_exact_partial {destr : Bool} {o : Opts} {pa : Rep} (ha : pa.EqOk ℚ n) {l : List (ℕ × Linexpr ℚ)} (h : AsgOk n l)
    {dest : Option Rep} (hb : ∀ b, dest = some b → b.EqOk ℚ n) :
    ∃ r, pa.eqAsssub false destr n o l dest = some r ∧ r.EqOk ℚ n ∧
      ∀ x : Fin n → ℚ, r.γ x ↔ (∃ x0 : Fin n → ℚ, pa.γ x0 ∧ Assigns l x x0) ∧ ∀ b, dest = some b → b.γ x := by
  have hdet : l.filter (fun p => cstScalar p.2) = l := List.filter_eq_self.2 fun p hp => numeric_cstScalar (h.expr p hp).2
  have hnd : l.filter (fun p => !cstScalar p.2) = [] := List.filter_eq_nil_iff.2 fun p hp => by simp [numeric_cstScalar (h.expr p hp).2]
  have hbot : ∀ x : Fin n → ℚ, Rep.bot.γ x ↔ ∃ x0 : Fin n → ℚ, Rep.bot.γ x0 ∧ Assigns l x x0 :=
    fun x => ⟨fun h => h.elim, fun ⟨_, h, _⟩ => h.elim⟩
  have harr : ∃ q, pa.eqAsssubArray false n l = some q ∧ q.EqOk ℚ n ∧ ∀ x : Fin n → ℚ, q.γ x ↔ ∃ x0 : Fin n → ℚ, pa.γ x0 ∧ Assigns l x x0 := by
    rw [Rep.eqAsssubArray]
    by_cases hp : pa = .bot
    · rw [if_pos hp]; subst hp; exact ⟨_, rfl, ha, hbot⟩
    rw [if_neg hp, hdet, hnd]
    dsimp only
    by_cases hl : l ≠ []
    · rw [if_pos hl]
      obtain ⟨q, h1, h2, h3⟩ := eqDets_spec (assign := false) ha hl h
      rw [h1]
      exact ⟨_, rfl, h2, by simpa using h3⟩
    · rw [if_neg hl]
      push Not at hl
      subst hl
      obtain ⟨r, h4, h5, h6⟩ := C131_forget ha (tdim := []) (by simp) false
      refine ⟨r, h4, h5, fun x => ?_⟩
      rw [h6]
      simp only [Bool.false_eq_true, false_imp_iff, and_true, Assigns, List.not_mem_nil, false_imp_iff, implies_true, true_and, List.map_nil, not_false_eq_true, true_imp_iff]
      exact exists_congr fun x0 => and_congr_right fun _ => forall_congr' fun d => eq_comm
  have hall : ∃ q, pa.eqAsssubs false destr n l = some q ∧ q.EqOk ℚ n ∧ ∀ x : Fin n → ℚ, q.γ x ↔ ∃ x0 : Fin n → ℚ, pa.γ x0 ∧ Assigns l x x0 := by
    match l, h, harr, hbot with
    | [(d, e)], h, _, hbot =>
      rw [Rep.eqAsssubs, Rep.eqAsssub1]
      by_cases hp : pa = .bot
      · rw [if_pos hp]; subst hp; exact ⟨_, rfl, ha, hbot⟩
      rw [if_neg hp, if_pos (numeric_cstScalar (h.expr (d, e) (by simp)).2)]
      obtain ⟨h1, h2⟩ := eqDet1_spec (assign := false) (destr := destr) ha h
      exact ⟨_, rfl, h1, by simpa using h2⟩
    | [], _, harr, _ => exact harr
    | (_ :: _ :: _), _, harr, _ => exact harr
  obtain ⟨q, h1, h2, h3⟩ := hall
  exact eqAsssub_of h1 h2 h3 hb

/-- with interval constants only, the targets are forgotten: no point that has an image in the argument is lost -/
theorem C132_substitute_forget {destr : Bool} {o : Opts} {pa : Rep} (ha : pa.EqOk ℚ n) {l : List (ℕ × Linexpr ℚ)}
    (hd : ∀ p ∈ l, p.1 < n) (hc : ∀ p ∈ l, cstScalar p.2 = false) {dest : Option Rep} (hb : ∀ b, dest = some b → b.EqOk ℚ n) :
    ∃ r, pa.eqAsssub false destr n o l dest = some r ∧ r.EqOk ℚ n ∧
      ∀ x x0 : Fin n → ℚ, pa.γ x0 → Assigns l x x0 → (∀ b, dest = some b → b.γ x) → r.γ x := by
  have hdet : l.filter (fun p => cstScalar p.2) = [] := List.filter_eq_nil_iff.2 fun p hp => by simp [hc p hp]
  have hnd : l.filter (fun p => !cstScalar p.2) = l := List.filter_eq_self.2 fun p hp => by simp [hc p hp]
  obtain ⟨r, h4, h5, h6⟩ := C131_forget ha (tdim := l.map Prod.fst) (fun t ht => by
    obtain ⟨p, hp, rfl⟩ := List.mem_map.1 ht; exact hd p hp) false
  have hbot : ∀ x : Fin n → ℚ, pa = .bot → (Rep.bot.γ x ↔ r.γ x) := by
    intro x e
    rw [h6, e]
    exact ⟨fun h => h.elim, fun ⟨⟨_, h, _⟩, _⟩ => h.elim⟩
  have hall : ∃ q, pa.eqAsssubs false destr n l = some q ∧ q.EqOk ℚ n ∧ ∀ x : Fin n → ℚ, q.γ x ↔ r.γ x := by
    have harr : ∃ q, pa.eqAsssubArray false n l = some q ∧ q.EqOk ℚ n ∧ ∀ x : Fin n → ℚ, q.γ x ↔ r.γ x := by
      rw [Rep.eqAsssubArray]
      by_cases hp : pa = .bot
      · rw [if_pos hp]; exact ⟨_, rfl, hp ▸ ha, fun x => hbot x hp⟩
      rw [if_neg hp, hdet, hnd]
      exact ⟨r, h4, h5, fun _ => Iff.rfl⟩
    rcases l with _ | ⟨⟨d, e⟩, _ | ⟨p, l⟩⟩
    · exact harr
    · rw [Rep.eqAsssubs, Rep.eqAsssub1]
      by_cases hp : pa = .bot
      · rw [if_pos hp]; exact ⟨_, rfl, hp ▸ ha, fun x => hbot x hp⟩
      rw [if_neg hp, if_neg (by rw [hc (d, e) (by simp)]; simp)]
      exact ⟨r, h4, h5, fun _ => Iff.rfl⟩
    · exact harr
  obtain ⟨q, h1, h2, h3⟩ := hall
  obtain ⟨s, k1, k2, k3⟩ := eqAsssub_of (o := o) h1 h2 h3 hb
  refine ⟨s, k1, k2, fun x x0 hx0 hx hdst => (k3 x).2 ⟨(h6 x).2 ⟨⟨x0, hx0, fun v hv => (hx.2 v hv).symm⟩, by simp⟩, hdst⟩⟩

/-! ### Defects -/

/-- a value of the domain from a system of constraints -/
def eqOf (C : List Row) : Rep := ((Rep.cons (C ++ [[1, 1, 0, 0]])).chernikova 2).eqReduce 2

theorem eqOf_ok (C : List Row) : (eqOf C).EqOk ℚ 2 ∧ ∀ x : Fin 2 → ℚ, Sat C (hom x) → (eqOf C).γ x := by
  have hw : (Rep.cons (C ++ [[1, 1, 0, 0]])).Wf ℚ 2 := cons_wf (List.mem_append_right _ (by decide))
  have hr := C131_reduce (chernikova_wf hw) (chernikova_shape 2 _)
  refine ⟨hr.1, fun x hx => (hr.2 x).2 (subset_hull ((chernikova_γ hw x).2 ?_))⟩
  intro q hq
  rw [List.mem_append, List.mem_singleton] at hq
  rcases hq with hq | rfl
  · exact hx q hq
  · simp [dot, Fin.sum_univ_succ, Row.at', hom]

/-- the line `x0 = x1 + 1` -/
def eqLine : Rep := eqOf [[0, -1, 1, -1]]

/-- `x0 <- x1, x1 <- [-1000, 1000]` -/
def eqMixed : List (ℕ × Linexpr ℚ) :=
  [(0, ⟨.scalar (fin 0), .sparse [(1, .scalar (fin 1))]⟩), (1, ⟨.interval (fin (-1000)) (fin 1000), .sparse []⟩)]

/-- DEFECT (`pkeq.c:402-425`): the substitution in parallel of `x1` for `x0` and of `[-1000, 1000]` for `x1` in `x0 = x1 + 1` first
substitutes `x1` for `x0`, which gives the empty set, then forgets `x1`; but the image `(0, -1)` of the point `(0, 0)` is in
`x0 = x1 + 1` -/
theorem C132_substitute_mixed_unsound : eqLine.EqOk ℚ 2 ∧ EqAsgOk 2 eqMixed ∧
    eqLine.eqAsssub false false 2 ⟨false, false, 0⟩ eqMixed none = some .bot ∧
    ∃ x x0 : Fin 2 → ℚ, eqLine.γ x0 ∧ Assigns eqMixed x x0 := by
  refine ⟨(eqOf_ok _).1, ⟨by decide, by decide, ?_⟩, by decide +kernel, fun _ => 0, ![0, -1], (eqOf_ok _).2 _ ?_, ?_, ?_⟩
  · intro p hp hc
    simp only [eqMixed, List.mem_cons, List.not_mem_nil, or_false] at hp
    rcases hp with rfl | rfl
    · refine ⟨⟨by simp [Linexpr.terms, dimMax], by simp [Linexpr.terms, dimMax]⟩, ⟨0, rfl⟩, ?_⟩
      intro p hp
      simp [Linexpr.terms, dimMax] at hp
      subst hp
      exact ⟨1, rfl⟩
    · simp [cstScalar] at hc
  · intro q hq
    rw [List.mem_singleton] at hq
    subst hq
    simp [dot, Fin.sum_univ_succ, Row.at', hom]
  · intro p hp d hd
    simp only [eqMixed, List.mem_cons, List.not_mem_nil, or_false] at hp
    rcases hp with rfl | rfl
    · have : d = 0 := Fin.ext hd
      subst this
      exact ⟨0, 0, rfl, by simpa [Linexpr.terms, dimMax, Linexpr.TermsVal] using ⟨1, rfl, by simp [ext]⟩, by simp⟩
    · have : d = 1 := Fin.ext hd
      subst this
      refine ⟨-1, 0, ⟨?_, ?_⟩, by simp [Linexpr.terms, Linexpr.TermsVal], by simp⟩ <;> rw [fin_le_fin] <;> norm_num
  · intro d hd
    exfalso
    apply hd
    have : (d : ℕ) < 2 := d.2
    interval_cases h : (d : ℕ) <;> simp [eqMixed]

/-- the line `x1 = 1` -/
def eqOne : Rep := eqOf [[0, -1, 0, 1]]

/-- `x0 := [0, 1] * x1` -/
def eqItv : List (ℕ × Linexpr ℚ) := [(0, ⟨.scalar (fin 0), .sparse [(1, .interval (fin 0) (fin 1))]⟩)]

/-- DEFECT (`pkeq.c:333` with `pk_assign.c:776`): only the constant of an expression is tested for being an interval.  The
assignment `x0 := [0, 1] * x1` is done as `x0 := x1` (after the failure of an assertion if they are compiled): on `x1 = 1` the
image `(0, 1)` of the point `(0, 1)` is lost -/
theorem C132_assign_interval_coefficient_unsound : eqOne.EqOk ℚ 2 ∧ ∃ r, eqOne.eqAsssub true false 2 ⟨false, false, 0⟩ eqItv none = some r ∧
    ∃ x0 x : Fin 2 → ℚ, eqOne.γ x0 ∧ Assigns eqItv x0 x ∧ ¬ r.γ x := by
  have hx0 : eqOne.γ (![0, 1] : Fin 2 → ℚ) := (eqOf_ok _).2 _ (by
    intro q hq
    rw [List.mem_singleton] at hq
    subst hq
    simp [dot, Fin.sum_univ_succ, Row.at', hom])
  have hrow : eqOne.eqAsssub true false 2 ⟨false, false, 0⟩ eqItv none =
      eqOne.eqAsssub true false 2 ⟨false, false, 0⟩ [(0, ⟨.scalar (fin 0), .sparse [(1, .scalar (fin 1))]⟩)] none := by decide +kernel
  have hok : AsgOk 2 [(0, (⟨.scalar (fin 0), .sparse [(1, .scalar (fin 1))]⟩ : Linexpr ℚ))] := by
    refine ⟨by simp, by simp, ?_⟩
    intro p hp
    rw [List.mem_singleton] at hp
    subst hp
    refine ⟨⟨by simp [Linexpr.terms, dimMax], by simp [Linexpr.terms, dimMax]⟩, ⟨0, rfl⟩, ?_⟩
    intro p hp
    simp [Linexpr.terms, dimMax] at hp
    subst hp
    exact ⟨1, rfl⟩
  obtain ⟨r, h1, h2, h3⟩ := C132_assign_exact (destr := false) (o := ⟨false, false, 0⟩) (eqOf_ok [[0, -1, 0, 1]]).1 hok (dest := none) (by simp)
  refine ⟨(eqOf_ok _).1, r, hrow.trans h1, ![0, 1], ![0, 1], hx0, ⟨?_, ?_⟩, ?_⟩
  · intro p hp d hd
    rw [eqItv, List.mem_singleton] at hp
    subst hp
    have : d = 0 := Fin.ext hd
    subst this
    refine ⟨0, 0, rfl, ?_, by simp⟩
    simp only [Linexpr.terms, dimMax, List.takeWhile]
    refine ⟨0, 0, ⟨?_, ?_⟩, rfl, by simp⟩ <;> rw [fin_le_fin] <;> norm_num
  · exact fun d _ => rfl
  · rw [h3]
    rintro ⟨⟨x0, -, ha, hb⟩, -⟩
    have e1 : (![0, 1] : Fin 2 → ℚ) 1 = x0 1 := hb 1 (by simp)
    obtain ⟨q, s, hq, hs, e⟩ := ha _ (List.mem_singleton.2 rfl) (0 : Fin 2) rfl
    simp only [Linexpr.terms, dimMax, List.takeWhile] at hs
    obtain ⟨q', s', hq', hs', e'⟩ := hs
    cases hq
    cases hq'
    simp only [Linexpr.TermsVal] at hs'
    subst hs'
    simp [ext] at e e'
    rw [e'] at e
    rw [← e1] at e
    simp at e

/-- the hypotheses of C131 and C132: two distinct lines, their intersection and an assignment -/
example : eqLine.EqOk ℚ 2 ∧ eqOne.EqOk ℚ 2 ∧ eqLine.eqCheck = true ∧ eqLine.eqMeet 2 ⟨false, false, 0⟩ true eqOne ≠ some .bot ∧
    eqLine.eqIsEq 2 eqOne = some false :=
  ⟨(eqOf_ok _).1, (eqOf_ok _).1, by decide +kernel, by decide +kernel, by decide +kernel⟩

/-- concrete values: the join of the points `(0,0)`, `(1,1)` is the line `x0 = x1` -/
example : ∃ r, (eqOf [[0, 0, 1, 0], [0, 0, 0, 1]]).eqJoin 2 ⟨false, false, 0⟩ false (eqOf [[0, -1, 1, 0], [0, -1, 0, 1]]) = some r ∧
    r.eqIsEq 2 (eqOf [[0, 0, 1, -1]]) = some true := by
  refine ⟨_, rfl, by decide +kernel⟩

/-- concrete values: the inequality `x0 ≥ 0` is dropped by the meet, `x0 ≥ 0 ∧ -x0 ≥ 0` is kept -/
example : eqOne.eqMeetLincons 2 0 [⟨.supeq, ⟨.scalar (fin 0), .sparse [(0, .scalar (fin 1))]⟩⟩] = some eqOne ∧
    ((eqOne.eqMeetLincons 2 0 [⟨.supeq, ⟨.scalar (fin 0), .sparse [(0, .scalar (fin 1))]⟩⟩, ⟨.supeq, ⟨.scalar (fin 0), .sparse [(0, .scalar (fin (-1)))]⟩⟩]).bind
      fun r => r.eqIsEq 2 (eqOf [[0, 0, 1, 0], [0, -1, 0, 1]])) = some true := by
  constructor <;> decide +kernel

end Apron.Props
