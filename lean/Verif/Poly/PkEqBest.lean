import Verif.Poly.PkEqShape
import Verif.Poly.PkRayBox
import Verif.Poly.PkExpand
import Verif.Poly.PkAssignUser

/-!
# Linear equalities: least affine sets, boxes, equality test
-/

set_option autoImplicit false
set_option linter.unusedSectionVars false
set_option linter.ambiguousOpen false

namespace Apron.Poly

open Apron Bound ILincons

variable {K : Type*} [LinearOrder K] [Field K] [IsStrictOrderedRing K] {n d : ℕ}

/-- a row whose linear form is a multiple of a rational one -/
theorem exists_row (v : Fin d → ℚ) : ∃ (r : Row) (c : ℚ), 0 < c ∧ r.at' 0 = 0 ∧ ∀ y : Fin d → ℚ, dot r y = c * linV v y := by
  let D : ℕ := ∏ i, (v i).den
  have hD : 0 < D := Finset.prod_pos fun i _ => (v i).pos
  have hint : ∀ i, ∃ m : ℤ, (m : ℚ) = D * v i := by
    intro i
    obtain ⟨k, hk⟩ := Finset.dvd_prod_of_mem (fun i => (v i).den) (Finset.mem_univ i)
    refine ⟨k * (v i).num, ?_⟩
    have e : (D : ℚ) = (v i).den * k := by exact_mod_cast hk
    rw [e]
    push_cast
    conv_rhs => rw [mul_right_comm, mul_comm ((v i).den : ℚ), Rat.mul_den_eq_num]
    ring
  choose w hw using hint
  refine ⟨Row.ofFun (d + 1) fun j => if h : 0 < j ∧ j - 1 < d then w ⟨j - 1, h.2⟩ else 0, D, by exact_mod_cast hD, ?_, fun y => ?_⟩
  · rw [at_ofFun]; simp
  · rw [dot, linV_apply, Finset.mul_sum]
    refine Finset.sum_congr rfl fun i _ => ?_
    rw [at_ofFun, if_pos (by omega), dif_pos ⟨by omega, by simp⟩]
    have : (⟨(i : ℕ) + 1 - 1, by simp⟩ : Fin d) = i := by ext; simp
    rw [this, hw]; ring

/-- a point that satisfies all the constraints of a set of points is in its affine hull -/
theorem hull_of_rows {S : (Fin n → ℚ) → Prop} {x : Fin n → ℚ} (h : ∀ C : List Row, (∀ z, S z → Sat C (hom z)) → Sat C (hom x)) : Hull S x := by
  by_cases hne : ∃ p, S p
  · obtain ⟨p, hp⟩ := hne
    refine hull_of_span hp ?_
    by_contra hc
    obtain ⟨φ, h1, h2⟩ := Submodule.exists_le_ker_of_notMem hc
    apply h1
    obtain ⟨r, c, hc0, h0, hr⟩ := exists_row fun i => φ (Pi.single i 1)
    rw [linV_single] at hr
    have := (h [r] fun z hz q hq => by
      rw [List.mem_singleton] at hq
      subst hq
      have e : φ (hom z) = 0 := h2 (Submodule.subset_span ⟨z, hz, rfl⟩)
      rw [hr, e, mul_zero]
      exact ⟨le_rfl, fun _ => rfl⟩) r (by simp)
    have e := this.2 h0
    rw [hr] at e
    exact (mul_eq_zero.1 e).resolve_left hc0.ne'
  · exfalso
    have := (h [[1, -1]] fun z hz => absurd ⟨z, hz⟩ hne) [1, -1] (by simp)
    have e : dot ([1, -1] : Row) (hom x) = -1 := by
      rw [dot, Fin.sum_univ_succ, Finset.sum_eq_zero]
      · simp [Row.at', hom]
      · intro i _; simp [Row.at']
    rw [e] at this
    exact absurd this.1 (by norm_num)

/-- the affine hull of a set between a set of points and its polyhedral hull -/
theorem hull_between {S T : (Fin n → ℚ) → Prop} (h1 : ∀ x, S x → T x)
    (h2 : ∀ C : List Row, (∀ z, S z → Sat C (hom z)) → ∀ x, T x → Sat C (hom x)) (x : Fin n → ℚ) : Hull T x ↔ Hull S x :=
  ⟨fun h => hull_le (hull_isAff S) (fun z hz => hull_of_rows fun C hC => h2 C hC z hz) h,
   fun h => hull_le (hull_isAff T) (fun z hz => subset_hull (h1 z hz)) h⟩

/-- a value of the domain that contains a set contains what satisfies its constraints -/
theorem EqOk.of_rows {q : Rep} (hq : q.EqOk K n) {S T : (Fin n → K) → Prop} (hne : q ≠ .bot ∨ (∀ x, S x → T x) ∧ ((∃ x, T x) → ∃ x, S x))
    (h2 : ∀ C : List Row, (∀ z, S z → Sat C (hom z)) → ∀ x, T x → Sat C (hom x)) (hS : ∀ x, S x → q.γ x) (x : Fin n → K) (hx : T x) : q.γ x := by
  obtain ⟨-, rfl | ⟨f, rfl⟩, -⟩ := hq
  · rcases hne with h | ⟨_, h⟩
    · exact absurd rfl h
    · obtain ⟨z, hz⟩ := h ⟨x, hx⟩
      exact (hS z hz).elim
  · exact h2 f.crows hS x hx

/-! ## Boxes -/

theorem eqBoxRows_sound {intdim d : ℕ} (hd : d < n) {x : Fin n → ℚ} (hx : IntPt intdim x) {i : Itv ℚ} (h : x ⟨d, hd⟩ ∈ i) :
    ∃ l, eqBoxRows n intdim d i = some l ∧ ∀ r ∈ l, RowSat r x := by
  rw [eqBoxRows]
  by_cases h1 : i.isPoint = true
  · rw [if_pos h1]
    obtain ⟨a, rfl⟩ := Itv.isPoint_iff.1 h1
    rw [Itv.mem_point] at h
    obtain ⟨r, hr, hs⟩ := (setDimBound_sound hd hx a).2.2 h
    exact ⟨[r], by rw [show numref (Itv.point a : Itv ℚ).sup = a from rfl, hr]; rfl, by simpa using hs⟩
  · rw [if_neg h1]
    exact ⟨[], rfl, by simp⟩

theorem eqBoxRows_exact {d : ℕ} (hd : d < n) (x : Fin n → ℚ) (i : Itv ℚ) :
    ∃ l, eqBoxRows n 0 d i = some l ∧ ((∀ r ∈ l, RowSat r x) ↔ ∀ q, i = Itv.point q → x ⟨d, hd⟩ = q) := by
  rw [eqBoxRows]
  by_cases h1 : i.isPoint = true
  · rw [if_pos h1]
    obtain ⟨a, rfl⟩ := Itv.isPoint_iff.1 h1
    have hi : IntPt 0 x := fun d hd => absurd hd (by omega)
    obtain ⟨r, hr⟩ := setDimBound_some n 0 d a
    refine ⟨[r], by rw [show numref (Itv.point a : Itv ℚ).sup = a from rfl, hr]; rfl, fun h q hq => ?_, fun h => ?_⟩
    · have e : a = q := by have := congrArg Itv.sup hq; simpa [Itv.point] using this
      rw [← e]
      exact (setDimBound_exact hd x a).2.2 r hr (h r (by simp))
    · obtain ⟨r', hr', hs⟩ := (setDimBound_sound hd hi a).2.2 (h a rfl)
      rw [hr] at hr'; cases hr'
      simpa using hs
  · rw [if_neg h1]
    exact ⟨[], rfl, fun _ q hq => absurd (Itv.isPoint_iff.2 ⟨q, hq⟩) h1, by simp⟩

theorem eqOfBox_ok (intdim : ℕ) (alg : ℤ) (box : ℕ → Itv ℚ) : (Rep.eqOfBox n intdim alg box).Wf ℚ n ∧ (Rep.eqOfBox n intdim alg box).Shape := by
  rw [Rep.eqOfBox]
  split
  · exact ⟨trivial, .bot⟩
  · have hw : ∀ C : List Row, (Rep.cons (C ++ [posRow n])).Wf ℚ n := fun C => cons_wf (by simp)
    refine ⟨?_, canonicalize_shape⟩
    rw [Rep.canonicalize]
    split_ifs
    · exact chernikova3_wf (hw _)
    · exact chernikova_wf (hw _)

theorem eqOfBox_γ {intdim : ℕ} {alg : ℤ} {box : ℕ → Itv ℚ} {l : List (List Row)}
    (h : (List.range n).mapM (fun d => eqBoxRows n intdim d (box d)) = some l) (x : Fin n → ℚ) :
    (Rep.eqOfBox n intdim alg box).γ x ↔ ∀ r ∈ l.flatten, RowSat r x := by
  have hw : (Rep.cons (l.flatten ++ [posRow n])).Wf ℚ n := cons_wf (by simp)
  rw [Rep.eqOfBox, h]
  have e : ((Rep.cons (l.flatten ++ [posRow n])).canonicalize n alg).γ x ↔ (Rep.cons (l.flatten ++ [posRow n])).γ x := by
    rw [Rep.canonicalize]
    split_ifs
    · exact chernikova3_γ hw x
    · exact chernikova_γ hw x
  refine e.trans ?_
  change Sat (l.flatten ++ [posRow n]) (hom x) ↔ _
  constructor
  · intro hs r hr; exact hs r (List.mem_append_left _ hr)
  · intro hs r hr
    rw [List.mem_append, List.mem_singleton] at hr
    rcases hr with hr | rfl
    · exact hs r hr
    · exact rowSat_posRow x

theorem eqOfBox_sound {intdim : ℕ} {alg : ℤ} {box : ℕ → Itv ℚ} {x : Fin n → ℚ} (hx : IntPt intdim x) (h : ∀ d : Fin n, x d ∈ box d) :
    (Rep.eqOfBox n intdim alg box).γ x := by
  cases hm : (List.range n).mapM (fun d => eqBoxRows n intdim d (box d)) with
  | none =>
    obtain ⟨d, hd, e⟩ := mapM_none hm
    rw [List.mem_range] at hd
    obtain ⟨l, hl, _⟩ := eqBoxRows_sound hd hx (h ⟨d, hd⟩)
    rw [hl] at e; cases e
  | some l =>
    rw [eqOfBox_γ hm]
    intro q hq
    obtain ⟨m, hml, hqm⟩ := List.mem_flatten.1 hq
    obtain ⟨d, hd, e⟩ := forall₂_right (mapM_some hm) hml
    rw [List.mem_range] at hd
    obtain ⟨l', hl', hs⟩ := eqBoxRows_sound hd hx (h ⟨d, hd⟩)
    rw [hl'] at e; cases e
    exact hs q hqm

theorem eqOfBox_exact {alg : ℤ} {box : ℕ → Itv ℚ} (x : Fin n → ℚ) :
    (Rep.eqOfBox n 0 alg box).γ x ↔ ∀ (d : Fin n) (q : ℚ), box d = Itv.point q → x d = q := by
  cases hm : (List.range n).mapM (fun d => eqBoxRows n 0 d (box d)) with
  | none =>
    obtain ⟨d, hd, e⟩ := mapM_none hm
    rw [List.mem_range] at hd
    obtain ⟨l, hl, _⟩ := eqBoxRows_exact hd x (box d)
    rw [hl] at e; cases e
  | some l =>
    rw [eqOfBox_γ hm]
    constructor
    · intro h d
      obtain ⟨m, hml, e⟩ := forall₂_left (mapM_some hm) (List.mem_range.2 d.2)
      obtain ⟨l', hl', hs⟩ := eqBoxRows_exact d.2 x (box d)
      rw [hl'] at e; cases e
      exact hs.1 fun r hr => h r (List.mem_flatten.2 ⟨_, hml, hr⟩)
    · intro h q hq
      obtain ⟨m, hml, hqm⟩ := List.mem_flatten.1 hq
      obtain ⟨d, hd, e⟩ := forall₂_right (mapM_some hm) hml
      rw [List.mem_range] at hd
      obtain ⟨l', hl', hs⟩ := eqBoxRows_exact hd x (box d)
      rw [hl'] at e; cases e
      exact hs.2 (fun q hq => h ⟨d, hd⟩ q hq) q hqm

theorem two_points {i : Itv ℚ} {m : ℚ} (hm : m ∈ i) (hp : ∀ q, i ≠ Itv.point q) : ∃ m', m' ∈ i ∧ m' ≠ m := by
  obtain ⟨a, b⟩ := i
  obtain ⟨h1, h2⟩ := hm
  dsimp only at h1 h2
  cases b with
  | pinf => exact ⟨m + 1, ⟨_root_.le_trans (by simp) h1, by simp⟩, by simp⟩
  | ninf => simp at h2
  | fin b =>
    rw [fin_le_fin] at h2
    rcases h2.lt_or_eq with h2 | h2
    · exact ⟨b, ⟨_root_.le_trans (by simpa using h2.le) h1, by simp⟩, h2.ne'⟩
    · subst h2
      cases a with
      | pinf => exact ⟨m - 1, ⟨by simp, by simp⟩, by simp⟩
      | ninf => simp at h1
      | fin a =>
        rw [fin_le_fin] at h1
        rcases h1.lt_or_eq with h1 | h1
        · exact ⟨-a, ⟨by simp, by rw [fin_le_fin]; linarith⟩, by intro h; linarith⟩
        · subst h1
          exact absurd rfl (hp m)

/-- the affine hull of a non-empty box -/
theorem box_hull {box : ℕ → Itv ℚ} {p : Fin n → ℚ} (hp : ∀ d : Fin n, p d ∈ box d) {x : Fin n → ℚ}
    (hx : ∀ (d : Fin n) (q : ℚ), box d = Itv.point q → x d = q) : Hull (fun z : Fin n → ℚ => ∀ d : Fin n, z d ∈ box d) x := by
  have key : ∀ k, k ≤ n → Hull (fun z : Fin n → ℚ => ∀ d : Fin n, z d ∈ box d) (fun d : Fin n => if (d : ℕ) < k then x d else p d) := by
    intro k
    induction k with
    | zero => intro _; simpa using subset_hull (S := fun z : Fin n → ℚ => ∀ d : Fin n, z d ∈ box d) hp
    | succ k ih =>
      intro hk
      have h := ih (by omega)
      by_cases hq : ∃ q, box k = Itv.point q
      · obtain ⟨q, hq⟩ := hq
        have e1 := hx ⟨k, hk⟩ q hq
        have e2 := hp ⟨k, hk⟩
        rw [show box ((⟨k, hk⟩ : Fin n) : ℕ) = _ from hq, Itv.mem_point] at e2
        convert h using 2 with d
        by_cases hd : (d : ℕ) = k
        · have : d = ⟨k, hk⟩ := Fin.ext hd
          subst this
          simp [e1, e2]
        · by_cases h1 : (d : ℕ) < k
          · rw [if_pos h1, if_pos (by omega)]
          · rw [if_neg h1, if_neg (by omega)]
      · push Not at hq
        obtain ⟨m', hm', hne⟩ := two_points (hp ⟨k, hk⟩) hq
        have hmem : (∀ d : Fin n, Function.update p ⟨k, hk⟩ m' d ∈ box d) := by
          intro d
          by_cases hd : d = ⟨k, hk⟩
          · subst hd; simpa using hm'
          · rw [Function.update_of_ne hd]; exact hp d
        have hc := (hull_isAff (fun z : Fin n → ℚ => ∀ d : Fin n, z d ∈ box d)).closed
          (c := (x ⟨k, hk⟩ - p ⟨k, hk⟩) / (m' - p ⟨k, hk⟩)) (subset_hull hmem) (subset_hull hp) h
        convert hc using 1
        funext d
        simp only [Pi.add_apply, Pi.smul_apply, Pi.sub_apply, smul_eq_mul]
        by_cases hd : d = ⟨k, hk⟩
        · subst hd
          have : m' - p ⟨k, hk⟩ ≠ 0 := sub_ne_zero.2 hne
          simp
          field_simp
          ring
        · have hd' : (d : ℕ) ≠ k := fun e => hd (Fin.ext e)
          rw [Function.update_of_ne hd, sub_self, mul_zero, zero_add]
          by_cases h1 : (d : ℕ) < k
          · rw [if_pos h1, if_pos (by omega)]
          · rw [if_neg h1, if_neg (by omega)]
  simpa using key n le_rfl

/-! ## Equality test -/

theorem eqIsEq_spec {pa pb : Rep} (ha : pa.EqOk K n) (hb : pb.EqOk K n) :
    ∃ b, pa.eqIsEq n pb = some b ∧ (b = true → ∀ x : Fin n → K, pa.γ x ↔ pb.γ x) ∧
      (pa.Nice n → pb.Nice n → (∀ x : Fin n → K, pa.γ x ↔ pb.γ x) → b = true) := by
  have hca : (pa.eqCanonicalize n) = pa.chernikova3 n := by rw [Rep.eqCanonicalize, Rep.canonicalize, if_pos (by norm_num)]
  have hcb : (pb.eqCanonicalize n) = pb.chernikova3 n := by rw [Rep.eqCanonicalize, Rep.canonicalize, if_pos (by norm_num)]
  have sa : (pa.eqCanonicalize n).Shape := canonicalize_shape
  have sb : (pb.eqCanonicalize n).Shape := canonicalize_shape
  have wa : (pa.eqCanonicalize n).Wf K n := hca ▸ chernikova3_wf ha.wf
  have wb : (pb.eqCanonicalize n).Wf K n := hcb ▸ chernikova3_wf hb.wf
  have ga : ∀ x : Fin n → K, (pa.eqCanonicalize n).γ x ↔ pa.γ x := hca ▸ chernikova3_γ ha.wf
  have gb : ∀ x : Fin n → K, (pb.eqCanonicalize n).γ x ↔ pb.γ x := hcb ▸ chernikova3_γ hb.wf
  have na : pa.Nice n → ∀ f, pa.eqCanonicalize n = .both f → f.Norm (n + 1) := by
    intro h f e
    have := h.chernikova
    rw [hca, Rep.chernikova3] at e
    rcases chernikova_shape n pa with e' | ⟨g, e'⟩ <;> rw [e'] at e this
    · cases e
    · have hw := chernikova_wf ha.wf
      rw [e'] at hw
      cases e
      exact Full.Nice.canon this hw.1
  have nb : pb.Nice n → ∀ f, pb.eqCanonicalize n = .both f → f.Norm (n + 1) := by
    intro h f e
    have := h.chernikova
    rw [hcb, Rep.chernikova3] at e
    rcases chernikova_shape n pb with e' | ⟨g, e'⟩ <;> rw [e'] at e this
    · cases e
    · have hw := chernikova_wf hb.wf
      rw [e'] at hw
      cases e
      exact Full.Nice.canon this hw.1
  have fa : IsAff (K := K) (n := n) (pa.eqCanonicalize n).γ := ha.aff.congr ga
  have fb : IsAff (K := K) (n := n) (pb.eqCanonicalize n).γ := hb.aff.congr gb
  rw [Rep.eqIsEq]
  simp only [← ga, ← gb]
  generalize pa.eqCanonicalize n = A at *
  generalize pb.eqCanonicalize n = B at *
  rcases sa with rfl | ⟨f, rfl⟩ <;> rcases sb with rfl | ⟨g, rfl⟩
  · exact ⟨true, rfl, fun _ _ => Iff.rfl, fun _ _ _ => rfl⟩
  · refine ⟨false, rfl, by simp, fun _ _ h => ?_⟩
    obtain ⟨x, hx⟩ := both_exists_point wb
    exact ((h x).2 hx).elim
  · refine ⟨false, rfl, by simp, fun _ _ h => ?_⟩
    obtain ⟨x, hx⟩ := both_exists_point wa
    exact ((h x).1 hx).elim
  · have la := ineqs_length wa fa
    have lb := ineqs_length wb fb
    have hcomplete : pa.Nice n → pb.Nice n → (∀ x : Fin n → K, (Rep.both f).γ x ↔ (Rep.both g).γ x) →
        f.crows.map (vkey (n + 2)) = g.crows.map (vkey (n + 2)) ∧ f.frows.map (vkey (n + 2)) = g.frows.map (vkey (n + 2)) := by
      intro h1 h2 h
      exact (na h1 f rfl).unique (nb h2 g rfl) wa.1 wb.1 fun y => ⟨cone_le_of_γ wa (fun x => (h x).1) y, cone_le_of_γ wb (fun x => (h x).2) y⟩
    by_cases hd : f.nbeq ≠ g.nbeq ∨ f.nbline ≠ g.nbline
    · refine ⟨false, by dsimp only; rw [if_pos hd], by simp, fun h1 h2 h => ?_⟩
      obtain ⟨k1, k2⟩ := hcomplete h1 h2 h
      have l1 := congrArg List.length k1
      have l2 := congrArg List.length k2
      simp only [List.length_map, Full.crows, Full.frows] at l1 l2
      have ra := rays_length wa fa
      have rb := rays_length wb fb
      omega
    · have hl : f.C.length = g.C.length := by omega
      dsimp only
      rw [if_neg hd, if_neg (by omega)]
      have hm : Rep.matrixEqual (n + 2) f.crows g.crows =
          (List.zipWith (fun a b => (List.range (n + 2)).all fun j => a.at' j == b.at' j) f.crows g.crows).all id := by
        rw [Rep.matrixEqual]
        have : (f.crows.length == g.crows.length) = true := by simp [Full.crows, hl]
        rw [this, Bool.true_and]
      refine ⟨_, rfl, fun h => ?_, fun h1 h2 h => ?_⟩
      · rw [← hm, matrixEqual_iff] at h
        intro x
        exact sat_keys_iff h _
      · rw [← hm, matrixEqual_iff]
        exact (hcomplete h1 h2 h).1

end Apron.Poly
