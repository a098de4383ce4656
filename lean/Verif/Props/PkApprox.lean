import Verif.Poly.PkApproxLemmas
import Verif.Props.PkUser

/-!
# C135: approximation of convex polyhedra

`pk_approximate`: `Rep.approximate n intdim m alg r`, where `m` is `approximate_max_coeff_size`.  `Rep.γ r` is the set of points of
the polyhedron `r`, `Rep.Wf` the invariant of the representation (see `PkLattice`), `Rep.Nice` says that the rows are primitive and
the matrices normalized as their flags say (see `PkCanon`).
-/

set_option autoImplicit false
set_option linter.unusedSectionVars false
set_option linter.ambiguousOpen false

namespace Apron.Props

open Apron Apron.Poly Bound ILincons

variable {n : ℕ}

theorem approx1_spec {m : ℕ} {r : Rep} (h : r.Wf ℚ n) :
    (r.approx1 n m).Wf ℚ n ∧ (∀ x : Fin n → ℚ, r.γ x → (r.approx1 n m).γ x) ∧
    (0 < m → ∀ C, (r.approx1 n m).C? = some C → ∀ q ∈ C, tooBig n m q = false) := by
  have hw := obtainC_wf h
  rw [Rep.approx1]
  cases hC : (r.obtainC n).C? with
  | none =>
    dsimp only
    exact ⟨hw, fun x hx => (obtainC_γ h x).2 hx, fun _ C e => by rw [hC] at e; cases e⟩
  | some C =>
    dsimp only
    cases e : approx1Rows n m C with
    | none =>
      dsimp only
      refine ⟨hw, fun x hx => (obtainC_γ h x).2 hx, fun _ C' e' => ?_⟩
      rw [hC] at e'
      cases e'
      exact approx1Rows_none e
    | some C' =>
      dsimp only
      refine ⟨cons_wf (approx1Rows_spec e).1, fun x hx => ?_, fun hm C'' e' => ?_⟩
      · exact approx1Rows_sound e ((Rep.Wf.sat hC (hom x)).1 ((obtainC_γ h x).2 hx))
      · cases e'
        intro q hq
        rcases ((approx1Rows_spec e).2 q).1 hq with ⟨_, h⟩ | rfl
        · exact h
        · exact tooBig_posRow hm

theorem approx1x_spec {m : ℕ} {fb cb : Bool} {r : Rep} (h : r.Wf ℚ n) :
    (r.approx1x n m fb cb).Wf ℚ n ∧ (∀ x : Fin n → ℚ, r.γ x → (r.approx1x n m fb cb).γ x) ∧
    (0 < m → cb = false → fb = false → ∀ C, (r.approx1x n m fb cb).C? = some C → ∀ q ∈ C, tooBig n m q = false) := by
  have hw := chernikova_wf h
  rw [Rep.approx1x]
  rcases chernikova_shape n r with e | ⟨f, e⟩
  · rw [e]
    exact ⟨trivial, fun x hx => by have := (chernikova_γ h x).2 hx; rwa [e] at this, fun _ _ _ C hC => by cases hC⟩
  · have hγ : ∀ x : Fin n → ℚ, r.γ x → (Rep.both f).γ x := fun x hx => by have := (chernikova_γ h x).2 hx; rwa [e] at this
    rw [e] at hw ⊢
    dsimp only
    cases e' : approx1xRows n m f.frows fb cb f.crows with
    | none =>
      refine ⟨hw, hγ, fun _ _ _ C hC => ?_⟩
      cases hC
      exact approx1xRows_none e'
    | some C' =>
      obtain ⟨h1, h2, h3⟩ := approx1xRows_spec hw (F := f.frows) rfl e'
      refine ⟨cons_wf h1, fun x hx => h2 x (hγ x hx) ((Rep.Wf.sat (r := .both f) rfl (hom x)).1 (hγ x hx)), fun hm hc hf C hC => ?_⟩
      cases hC
      exact h3 hm hc hf

/-! ## Nothing to do -/

/-- other algorithms, a null size, no integer dimension: nothing is changed -/
theorem C135_unchanged {intdim m : ℕ} {alg : ℤ} {r : Rep}
    (h : (alg = -1 ∧ intdim = 0) ∨ (alg ≠ -1 ∧ m = 0) ∨ (alg ∉ [-1, 1, 2, 3, 10, 11, 12])) : r.approximate n intdim m alg = r := by
  rw [Rep.approximate]
  simp only [List.mem_cons, List.not_mem_nil, or_false, not_or] at h
  split_ifs <;> first | rfl | (exfalso; omega)

example : half.approximate 1 0 5 0 = half := C135_unchanged (.inr (.inr (by decide)))

/-! ## Over-approximations -/

/-- removing constraints (1), with the bounding box (2), rounding (10, 11, 12): the result contains the polyhedron -/
theorem C135_over {intdim m : ℕ} {alg : ℤ} {r : Rep} (h : r.Wf ℚ n) (ha : alg = 1 ∨ alg = 2 ∨ alg = 10 ∨ alg = 11 ∨ alg = 12) :
    (r.approximate n intdim m alg).Wf ℚ n ∧ ∀ x : Fin n → ℚ, r.γ x → (r.approximate n intdim m alg).γ x := by
  rw [Rep.approximate]
  split_ifs with h1 h2 h3 h4 h5 h6 h7 <;> try exact ⟨h, fun x hx => hx⟩
  · exfalso; omega
  · by_cases h8 : alg = 1
    · rw [Rep.approx123, if_pos h8]
      exact ⟨(approx1_spec h).1, (approx1_spec h).2.1⟩
    · rw [Rep.approx123, if_neg h8]
      dsimp only
      have hw := obtainC_wf h
      cases hC : (r.obtainC n).C? with
      | none => exact ⟨hw, fun x hx => (obtainC_γ h x).2 hx⟩
      | some C =>
        dsimp only
        cases e : approx1Rows n m C with
        | none => exact ⟨hw, fun x hx => (obtainC_γ h x).2 hx⟩
        | some C' =>
          dsimp only
          have hγ : ∀ x : Fin n → ℚ, r.γ x → ((r.obtainC n).obtainF n).γ x := fun x hx => (obtainF_γ hw x).2 ((obtainC_γ h x).2 hx)
          cases hF : ((r.obtainC n).obtainF n).F? with
          | none =>
            refine ⟨trivial, fun x hx => ?_⟩
            have := hγ x hx
            rwa [obtainF_none hF] at this
          | some F =>
            refine ⟨cons_wf (by rw [List.mem_append, List.mem_append]; exact .inl (.inl (approx1Rows_spec e).1)), fun x hx => ?_⟩
            dsimp only
            rw [if_pos (by omega), if_neg (by omega), List.append_nil]
            intro q hq
            rw [List.mem_append] at hq
            rcases hq with hq | hq
            · exact approx1Rows_sound e ((Rep.Wf.sat hC (hom x)).1 ((obtainC_γ h x).2 hx)) q hq
            · exact (boxPart_spec (obtainF_wf hw) hF).1 x (hγ x hx) q hq
  · exact ⟨(approx1x_spec h).1, (approx1x_spec h).2.1⟩

/-- the triangle `0 ≤ x, 0 ≤ y, 9 x + 8 y ≤ 40` -/
def tri : Rep := .cons [[1, 1, 0, 0], [1, 0, 1, 0], [1, 0, 0, 1], [1, 40, -9, -8]]

theorem tri_wf : tri.Wf ℚ 2 := cons_wf (by decide)

theorem tri_γ (x : Fin 2 → ℚ) : tri.γ x ↔ 0 ≤ x 0 ∧ 0 ≤ x 1 ∧ 9 * x 0 + 8 * x 1 ≤ 40 := by
  change Sat [[1, 1, 0, 0], [1, 0, 1, 0], [1, 0, 0, 1], [1, 40, -9, -8]] (hom x) ↔ _
  simp [Sat, dot, Row.at', hom, Fin.sum_univ_succ]
  intro _ _
  constructor <;> intro h <;> linarith

example : tri.approximate 2 0 3 1 = .cons [[1, 1, 0, 0], [1, 0, 1, 0], [1, 0, 0, 1], [1, 1, 0, 0]] := by decide +kernel

example : (tri.approximate 2 0 3 10).γ (![2, 2] : Fin 2 → ℚ) :=
  (C135_over tri_wf (by decide)).2 _ ((tri_γ _).2 (by norm_num))

/-- the second algorithm keeps the bounding box -/
theorem C135_box {intdim m : ℕ} {r : Rep} (h : r.Wf ℚ n) (d : Fin n) (b : ℚ) :
    ((∀ x : Fin n → ℚ, (r.approximate n intdim m 2).γ x → x d ≤ b) ↔ ∀ x : Fin n → ℚ, r.γ x → x d ≤ b) ∧
    ((∀ x : Fin n → ℚ, (r.approximate n intdim m 2).γ x → b ≤ x d) ↔ ∀ x : Fin n → ℚ, r.γ x → b ≤ x d) := by
  have hs := (C135_over (intdim := intdim) (m := m) h (.inr (.inl rfl))).2
  suffices hx : ∀ x : Fin n → ℚ, (r.approximate n intdim m 2).γ x →
      (∀ b, (∀ y : Fin n → ℚ, r.γ y → y d ≤ b) → x d ≤ b) ∧ ∀ b, (∀ y : Fin n → ℚ, r.γ y → - y d ≤ b) → - x d ≤ b by
    refine ⟨⟨fun hb x hr => hb x (hs x hr), fun hb x hr => (hx x hr).1 b hb⟩,
      ⟨fun hb x hr => hb x (hs x hr), fun hb x hr => ?_⟩⟩
    have := (hx x hr).2 (-b) fun y hy => neg_le_neg (hb y hy)
    linarith
  have triv : ∀ x : Fin n → ℚ, r.γ x → (∀ b, (∀ y : Fin n → ℚ, r.γ y → y d ≤ b) → x d ≤ b) ∧
      ∀ b, (∀ y : Fin n → ℚ, r.γ y → - y d ≤ b) → - x d ≤ b := fun x hx => ⟨fun b hb => hb x hx, fun b hb => hb x hx⟩
  intro x
  rw [Rep.approximate]
  split_ifs with h1 h2 h3 h4 h5 h6 h7 <;> try exact triv x
  · exact absurd h2 (by decide)
  · rw [Rep.approx123, if_neg (by decide)]
    dsimp only
    have hw := obtainC_wf h
    cases hC : (r.obtainC n).C? with
    | none => exact fun hx => triv x ((obtainC_γ h x).1 hx)
    | some C =>
      dsimp only
      cases e : approx1Rows n m C with
      | none => exact fun hx => triv x ((obtainC_γ h x).1 hx)
      | some C' =>
        dsimp only
        have hγ : ∀ x : Fin n → ℚ, ((r.obtainC n).obtainF n).γ x ↔ r.γ x := fun x => (obtainF_γ hw x).trans (obtainC_γ h x)
        cases hF : ((r.obtainC n).obtainF n).F? with
        | none => exact fun hx => False.elim hx
        | some F =>
          dsimp only
          rw [if_pos (by decide), if_neg (by decide), List.append_nil]
          intro hx
          have hb := (boxPart_spec (obtainF_wf hw) hF).2 x fun q hq => hx q (List.mem_append_right _ hq)
          exact ⟨fun b hb' => (hb d b).1 fun y hy => hb' y ((hγ y).1 hy), fun b hb' => (hb d b).2 fun y hy => hb' y ((hγ y).1 hy)⟩
  · exact absurd h4 (by decide)

example : ∀ x : Fin 2 → ℚ, (tri.approximate 2 0 3 2).γ x → x 1 ≤ 5 :=
  (C135_box tri_wf 1 5).1.2 fun x hx => by rw [tri_γ] at hx; obtain ⟨h1, h2, h3⟩ := hx; linarith

/-! ## Size of the coefficients -/

/-- after removal (1) or truncation (10), the inequalities of the result have coefficients of at most `m` bits -/
theorem C135_small {intdim m : ℕ} (hm : 0 < m) {alg : ℤ} (ha : alg = 1 ∨ alg = 10) {r : Rep} (h : r.Wf ℚ n) {C : List Row}
    (hC : (r.approximate n intdim m alg).C? = some C) {q : Row} (hq : q ∈ C) (h0 : q.at' 0 ≠ 0) {d : ℕ} (hd : d < n) :
    |q.at' (d + 2)| < 2 ^ m := by
  have key : tooBig n m q = false := by
    rw [Rep.approximate] at hC
    split_ifs at hC with h1 h2 h3 h5
    · rw [h1] at hC; cases hC
    · exfalso; omega
    · exfalso; omega
    · rw [Rep.approx123] at hC
      rw [if_pos (by omega)] at hC
      exact (approx1_spec h).2.2 hm C hC q hq
    · have e1 : decide (alg = 12) = false := by rw [decide_eq_false_iff_not]; omega
      have e2 : decide (alg = 11) = false := by rw [decide_eq_false_iff_not]; omega
      rw [e1, e2] at hC
      exact (approx1x_spec h).2.2 hm rfl rfl C hC q hq
    · exfalso; omega
  rw [tooBig, Bool.and_eq_false_iff] at key
  rcases key with key | key
  · simp at key; exact absurd key h0
  · rw [List.any_eq_false] at key
    have := key d (List.mem_range.2 hd)
    rw [decide_eq_true_eq, not_lt, size2_le hm] at this
    rw [Int.abs_eq_natAbs]
    exact_mod_cast this

/-- this fails for the outer rounding: `0 ≤ x, 0 ≤ y, 7 x + y ≥ 1` with 2 bits gives the coefficient 4 -/
theorem C135_outer_not_small :
    ∃ (r : Rep) (C : List Row) (q : Row), r.Wf ℚ 2 ∧ (r.approximate 2 0 2 12).C? = some C ∧ q ∈ C ∧ q.at' 0 ≠ 0 ∧ q.at' 2 = 2 ^ 2 := by
  have e : (Rep.cons [[1, 1, 0, 0], [1, 0, 1, 0], [1, 0, 0, 1], [1, -1, 7, 1]]).approximate 2 0 2 12 =
      .cons [[1, 1, 0, 0], [1, 0, 0, 1], [1, 0, 1, 0], [1, 0, 1, 0], [1, 0, 4, 1], [1, 1, 0, 0]] := by decide +kernel
  refine ⟨.cons [[1, 1, 0, 0], [1, 0, 1, 0], [1, 0, 0, 1], [1, -1, 7, 1]], _, [1, 0, 4, 1], cons_wf (by decide), by rw [e]; rfl,
    by simp, by decide, by decide⟩

/-! ## Integer constraints -/

/-- with integer dimensions (-1), the result is included in the polyhedron, and keeps the points that are integer on the integer
dimensions -/
theorem C135_integer {intdim m : ℕ} {r : Rep} (h : r.Wf ℚ n) (hn : r.Nice n) :
    (r.approximate n intdim m (-1)).Wf ℚ n ∧ (∀ x : Fin n → ℚ, (r.approximate n intdim m (-1)).γ x → r.γ x) ∧
    ∀ x : Fin n → ℚ, IntPt intdim x → r.γ x → (r.approximate n intdim m (-1)).γ x := by
  rw [Rep.approximate]
  split_ifs with h1 h2 h3 <;> try exact ⟨h, fun x hx => hx, fun x _ hx => hx⟩
  · rw [Rep.approxN1, if_neg (by omega)]
    dsimp only
    have hw := obtainC_wf h
    have hγ := obtainC_γ h
    cases hC : (r.obtainC n).C? with
    | none => exact ⟨hw, fun x hx => (hγ x).1 hx, fun x _ hx => (hγ x).2 hx⟩
    | some C =>
      dsimp only
      split_ifs with hch
      · refine ⟨cons_wf (by simp), fun x hx => ?_, fun x hi hx => ?_⟩
        · rw [← hγ x]
          refine (Rep.Wf.sat hC (hom x)).2 fun q hq => normConsInt_back' (intdim := intdim) ?_
          exact hx _ (List.mem_append_left _ (List.mem_map.2 ⟨q, hq, rfl⟩))
        · intro q hq
          rw [List.mem_append, List.mem_singleton, List.mem_map] at hq
          rcases hq with ⟨q, hq, rfl⟩ | rfl
          · exact normConsInt_sound' hi ((Rep.Wf.sat hC (hom x)).1 ((hγ x).2 hx) q hq)
          · exact rowSat_posRow x
      · have hid : ∀ q ∈ C, normConsInt n intdim q = q := by
          intro q hq
          refine normConsInt_id h3 (hn.obtainC.C hC q hq) ?_
          rw [List.any_eq_true] at hch
          rw [← Bool.not_eq_true]
          exact fun hb => hch ⟨q, hq, hb⟩
        have same : ∀ p, p = r.obtainC n → p.Wf ℚ n ∧ (∀ x : Fin n → ℚ, p.γ x → r.γ x) ∧
            ∀ x : Fin n → ℚ, IntPt intdim x → r.γ x → p.γ x := by
          rintro p rfl
          exact ⟨hw, fun x hx => (hγ x).1 hx, fun x _ hx => (hγ x).2 hx⟩
        cases e : r.obtainC n with
        | bot => rw [e] at hC; cases hC
        | gens F => rw [e] at hC; cases hC
        | cons C' =>
          rw [e] at hC
          cases hC
          refine same _ ?_
          rw [e]
          dsimp only
          congr 1
          conv_rhs => rw [← List.map_id C]
          exact List.map_congr_left hid
        | both f =>
          rw [e] at hC
          cases hC
          refine same _ ?_
          rw [e]
          dsimp only
          have : (f.C.map fun s => { s with row := normConsInt n intdim s.row }) = f.C := by
            conv_rhs => rw [← List.map_id f.C]
            refine List.map_congr_left fun s hs => ?_
            rw [hid s.row (List.mem_map.2 ⟨s, hs, rfl⟩)]
            rfl
          rw [this]
  · exfalso; omega

/-- `2 x ≥ 1` becomes `x ≥ 1` -/
example : (Rep.cons [[1, 1, 0], [1, -1, 2]]).approximate 1 1 0 (-1) = .cons [[1, 1, 0], [1, -1, 1], [1, 1, 0]] := by decide +kernel

/-! ## The octagonal constraints -/

/-- the third algorithm should keep the bounding octagon, but is not sound: it writes `x + y ≤ - 5` for the bound 5 of `x + y` in the
triangle, and the result is empty -/
theorem C135_octagon_unsound :
    ∃ (r : Rep) (x : Fin 2 → ℚ), r.Wf ℚ 2 ∧ r.γ x ∧ ¬ (r.approximate 2 0 3 3).γ x := by
  refine ⟨tri, ![1, 1], tri_wf, (tri_γ _).2 (by norm_num), fun h => ?_⟩
  have e : tri.approximate 2 0 3 3 = .cons ([[1, 1, 0, 0], [1, 0, 1, 0], [1, 0, 0, 1], [1, 1, 0, 0],
    [1, 0, 1, 0], [1, 40, -9, 0], [1, 0, 0, 1], [1, 5, 0, -1], [1, 5, 1, -1], [1, -40, -9, 9], [1, 0, 1, 1], [1, -5, -1, -1]]) := by
    decide +kernel
  rw [e] at h
  have := (h [1, -5, -1, -1] (by simp)).1
  simp [dot, Row.at', hom, Fin.sum_univ_succ] at this
  norm_num at this

/-- the third algorithm gives an over-approximation when no `x_i ± x_j` (`i < j`) has a positive upper bound.  Missing: the general
case, see `C135_octagon_unsound` -/
theorem C135_octagon_partial {intdim m : ℕ} {r : Rep} (h : r.Wf ℚ n)
    (hneg : ∀ (i j : Fin n) (s : ℤ), i < j → s = 1 ∨ s = -1 → (∃ b, ∀ x : Fin n → ℚ, r.γ x → x i + s * x j ≤ b) →
      ∀ x : Fin n → ℚ, r.γ x → x i + s * x j ≤ 0) :
    (r.approximate n intdim m 3).Wf ℚ n ∧ ∀ x : Fin n → ℚ, r.γ x → (r.approximate n intdim m 3).γ x := by
  rw [Rep.approximate]
  split_ifs with h1 h2 h3 h4 h5 h6 h7 <;> try exact ⟨h, fun x hx => hx⟩
  · exact absurd h2 (by decide)
  · rw [Rep.approx123, if_neg (by decide)]
    dsimp only
    have hw := obtainC_wf h
    cases hC : (r.obtainC n).C? with
    | none => exact ⟨hw, fun x hx => (obtainC_γ h x).2 hx⟩
    | some C =>
      dsimp only
      cases e : approx1Rows n m C with
      | none => exact ⟨hw, fun x hx => (obtainC_γ h x).2 hx⟩
      | some C' =>
        dsimp only
        have hγ : ∀ x : Fin n → ℚ, ((r.obtainC n).obtainF n).γ x ↔ r.γ x := fun x => (obtainF_γ hw x).trans (obtainC_γ h x)
        cases hF : ((r.obtainC n).obtainF n).F? with
        | none =>
          refine ⟨trivial, fun x hx => ?_⟩
          have := (hγ x).2 hx
          rwa [obtainF_none hF] at this
        | some F =>
          refine ⟨cons_wf (by rw [List.mem_append, List.mem_append]; exact .inl (.inl (approx1Rows_spec e).1)), fun x hx => ?_⟩
          dsimp only
          rw [if_pos (by decide), if_pos (by decide)]
          intro q hq
          rw [List.mem_append, List.mem_append] at hq
          rcases hq with (hq | hq) | hq
          · exact approx1Rows_sound e ((Rep.Wf.sat hC (hom x)).1 ((obtainC_γ h x).2 hx)) q hq
          · exact (boxPart_spec (obtainF_wf hw) hF).1 x ((hγ x).2 hx) q hq
          · refine octPart_sound (obtainF_wf hw) hF ?_ ((hγ x).2 hx) q hq
            rintro i j s hij hs ⟨b, hb⟩ y hy
            exact hneg i j s hij hs ⟨b, fun z hz => hb z ((hγ z).2 hz)⟩ y ((hγ y).1 hy)
  · exact absurd h4 (by decide)

/-- the hypothesis is met by the quadrant `x ≤ 0`, `y ≤ x` -/
example : (Rep.cons [[1, 1, 0, 0], [1, 0, -1, 0], [1, 0, 1, -1], [1, 9, -9, 0]]).Wf ℚ 2 ∧
    ∀ (i j : Fin 2) (s : ℤ), i < j → s = 1 ∨ s = -1 →
      (∃ b, ∀ x : Fin 2 → ℚ, (Rep.cons [[1, 1, 0, 0], [1, 0, -1, 0], [1, 0, 1, -1], [1, 9, -9, 0]]).γ x → x i + s * x j ≤ b) →
      ∀ x : Fin 2 → ℚ, (Rep.cons [[1, 1, 0, 0], [1, 0, -1, 0], [1, 0, 1, -1], [1, 9, -9, 0]]).γ x → x i + s * x j ≤ 0 := by
  have hγ : ∀ x : Fin 2 → ℚ, (Rep.cons [[1, 1, 0, 0], [1, 0, -1, 0], [1, 0, 1, -1], [1, 9, -9, 0]]).γ x ↔
      x 0 ≤ 0 ∧ x 1 ≤ x 0 ∧ 9 * x 0 ≤ 9 := by
    intro x
    change Sat [[1, 1, 0, 0], [1, 0, -1, 0], [1, 0, 1, -1], [1, 9, -9, 0]] (hom x) ↔ _
    simp [Sat, dot, Row.at', hom, Fin.sum_univ_succ]
  refine ⟨cons_wf (by decide), fun i j s hij hs hb x hx => ?_⟩
  have hi : i = 0 := by omega
  have hj : j = 1 := by omega
  subst hi hj
  rw [hγ] at hx
  obtain ⟨h1, h2, h3⟩ := hx
  rcases hs with rfl | rfl
  · push_cast; linarith
  · exfalso
    obtain ⟨b, hb⟩ := hb
    have := hb ![0, - |b| - 1] ((hγ _).2 ⟨by simp, by simp; have := abs_nonneg b; linarith, by simp⟩)
    simp at this
    have := le_abs_self b
    linarith

end Apron.Props
