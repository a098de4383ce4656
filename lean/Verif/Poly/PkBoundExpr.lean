import Verif.Poly.PkBound

/-!
# Polyhedra: bounds of an expression
-/

set_option autoImplicit false
set_option linter.unusedSectionVars false
set_option linter.ambiguousOpen false

namespace Apron.Poly

open Apron Bound ILincons ILinexpr

variable {n : ℕ}

/-- the value of the terms for chosen coefficients -/
def csum : List (ITerm ℚ) → List ℚ → (ℕ → ℚ) → ℚ
  | t :: ts, a :: as, y => a * y t.dim + csum ts as y
  | _, _, _ => 0

theorem tval_iff_csum {ts : List (ITerm ℚ)} {x : ℕ → ℚ} {r : ℚ} :
    TVal ts x r ↔ ∃ as, List.Forall₂ (fun t a => a ∈ t.itv) ts as ∧ r = csum ts as x := by
  induction ts generalizing r with
  | nil => simp [TVal, csum]
  | cons t ts ih =>
    simp only [TVal, ih]
    constructor
    · rintro ⟨q, s, hq, ⟨as, h1, rfl⟩, rfl⟩
      exact ⟨q :: as, .cons hq h1, rfl⟩
    · rintro ⟨as, h, rfl⟩
      cases h with
      | cons ha h => exact ⟨_, _, ha, ⟨_, h, rfl⟩, rfl⟩

/-- the same as a linear form on the homogeneous coordinates -/
noncomputable def csumL (n : ℕ) : List (ITerm ℚ) → List ℚ → (Fin (n + 1) → ℚ) →ₗ[ℚ] ℚ
  | t :: ts, a :: as => a • (if h : t.dim < n then LinearMap.proj ⟨t.dim + 1, by omega⟩ else 0) + csumL n ts as
  | _, _ => 0

theorem csumL_apply (ts : List (ITerm ℚ)) (as : List ℚ) (y : Fin (n + 1) → ℚ) :
    csumL n ts as y = csum ts as fun d => if h : d < n then y ⟨d + 1, by omega⟩ else 0 := by
  induction ts generalizing as with
  | nil => simp [csumL, csum]
  | cons t ts ih =>
    cases as with
    | nil => simp [csumL, csum]
    | cons a as =>
      simp only [csumL, csum, LinearMap.add_apply, LinearMap.smul_apply, smul_eq_mul, ih]
      split_ifs with h <;> simp

theorem csum_congr {ts : List (ITerm ℚ)} {y z : ℕ → ℚ} (h : ∀ t ∈ ts, y t.dim = z t.dim) (as : List ℚ) : csum ts as y = csum ts as z := by
  induction ts generalizing as with
  | nil => simp [csum]
  | cons t ts ih =>
    cases as with
    | nil => simp [csum]
    | cons a as => simp only [csum]; rw [h t (by simp), ih (fun t ht => h t (by simp [ht]))]

/-- the linear form of an expression, for chosen coefficients -/
noncomputable def exprL (n : ℕ) (c : ℚ) (ts : List (ITerm ℚ)) (as : List ℚ) : (Fin (n + 1) → ℚ) →ₗ[ℚ] ℚ :=
  c • LinearMap.proj 0 + csumL n ts as

theorem exprL_hom (c : ℚ) (ts : List (ITerm ℚ)) (as : List ℚ) (x : Fin n → ℚ) : exprL n c ts as (hom x) = c + csum ts as (ext x) := by
  simp only [exprL, LinearMap.add_apply, LinearMap.smul_apply, LinearMap.proj_apply, hom_zero, smul_eq_mul, mul_one, csumL_apply]
  congr 1

theorem exprL_toV (c : ℚ) {ts : List (ITerm ℚ)} (h : ∀ t ∈ ts, t.dim < n) (as : List ℚ) (q : Row) :
    exprL n c ts as (toV ℚ (n + 1) q) = c * q.at' 1 + csum ts as fun d => q.at' (d + 2) := by
  simp only [exprL, LinearMap.add_apply, LinearMap.smul_apply, LinearMap.proj_apply, toV_zero, smul_eq_mul, csumL_apply]
  congr 1
  refine csum_congr (fun t ht => ?_) as
  rw [dif_pos (h t ht)]; simp [toV]

/-! ## The bound at a generator -/

theorem mem_genFold {q : Row} : ∀ {ts : List (ITerm ℚ)} {as : List ℚ} {acc : Itv ℚ} {s : ℚ},
    List.Forall₂ (fun t a => a ∈ t.itv) ts as → s ∈ acc →
    s + csum ts as (fun d => q.at' (d + 2)) ∈ ts.foldl (fun acc t =>
      if q.at' (t.dim + 2) ≠ 0 then Itv.add Rnd.exact acc (Itv.mulBound Rnd.exact t.itv (fin (q.at' (t.dim + 2) : ℚ))) else acc) acc := by
  intro ts
  induction ts with
  | nil => intro as acc s _ hs; simpa [csum] using hs
  | cons t ts ih =>
    intro as acc s h hs
    cases h with
    | @cons _ a _ as ha h =>
      rw [List.foldl_cons, csum, ← add_assoc]
      refine ih h ?_
      split_ifs with h0
      · exact Itv.mem_add Rnd.exact hs (Itv.mem_mulBound Rnd.exact ha)
      · push Not at h0
        rw [h0]; simpa using hs

theorem genBound_sound {e : ILinexpr ℚ} {q : Row} (hq : 0 ≤ q.at' 1) {c : ℚ} {as : List ℚ} (hc : c ∈ e.cst)
    (ha : List.Forall₂ (fun t a => a ∈ t.itv) e.terms as) :
    (if q.at' 1 = 0 then c * q.at' 1 + csum e.terms as (fun d => q.at' (d + 2))
      else (c * q.at' 1 + csum e.terms as fun d => q.at' (d + 2)) / q.at' 1) ∈ genBound e q := by
  have h0 : (0 : ℚ) ∈ (Itv.point 0 : Itv ℚ) := (Itv.mem_point _ _).2 rfl
  have hs := mem_genFold (q := q) ha h0
  rw [zero_add] at hs
  rw [genBound]
  by_cases h1 : q.at' 1 = 0
  · rw [if_pos h1, if_neg (by simpa using h1), h1]
    simpa using hs
  · have hpos : (0 : ℚ) < q.at' 1 := by
      have : 0 < q.at' 1 := by omega
      exact_mod_cast this
    rw [if_neg h1, if_pos h1]
    have := Itv.mem_add Rnd.exact (mem_divBound_pos (R := Rnd.exact) hpos hs) hc
    convert this using 1
    field_simp
    ring

theorem sgn_fin_lt {q : ℚ} : sgn (fin q) < 0 ↔ q < 0 := by
  rw [sgn]; split_ifs with h h' <;> simp_all

theorem genFold_point {q : Row} : ∀ {ts : List (ITerm ℚ)} {s : ℚ}, (∀ t ∈ ts, ∃ a, t.itv = Itv.point a) →
    ts.foldl (fun acc t =>
      if q.at' (t.dim + 2) ≠ 0 then Itv.add Rnd.exact acc (Itv.mulBound Rnd.exact t.itv (fin (q.at' (t.dim + 2) : ℚ))) else acc) (Itv.point s)
    = Itv.point (s + csum ts (ts.map fun t => numref t.itv.sup) fun d => q.at' (d + 2)) := by
  intro ts
  induction ts with
  | nil => intro s _; simp [csum]
  | cons t ts ih =>
    intro s h
    obtain ⟨a, ha⟩ := h t (by simp)
    rw [List.foldl_cons, List.map_cons, csum, ← add_assoc, ← ih (fun t ht => h t (by simp [ht]))]
    congr 1
    rw [ha]
    split_ifs with h0
    · rw [mulBound_point, add_point]; rfl
    · push Not at h0
      rw [h0]; simp

theorem genBound_point {e : ILinexpr ℚ} {q : Row} (hq : 0 ≤ q.at' 1) {c : ℚ} (hc : e.cst = Itv.point c)
    (ha : ∀ t ∈ e.terms, ∃ a, t.itv = Itv.point a) :
    genBound e q = Itv.point (if q.at' 1 = 0 then c * q.at' 1 + csum e.terms (e.terms.map fun t => numref t.itv.sup) (fun d => q.at' (d + 2))
      else (c * q.at' 1 + csum e.terms (e.terms.map fun t => numref t.itv.sup) fun d => q.at' (d + 2)) / q.at' 1) := by
  rw [genBound, genFold_point ha, zero_add]
  by_cases h1 : q.at' 1 = 0
  · rw [if_pos h1, if_neg (by simpa using h1), h1]; simp
  · have hpos : (0 : ℚ) < q.at' 1 := by
      have : 0 < q.at' 1 := by omega
      exact_mod_cast this
    rw [if_neg h1, if_pos h1, divBound_point hpos rfl rfl, hc, add_point]
    congr 1
    field_simp
    ring

/-! ## The loop -/

theorem ne_bottom_of_mem {i : Itv ℚ} {v : ℚ} (h : v ∈ i) : i ≠ ⟨fin (-1), fin (-1)⟩ := by
  rintro rfl
  rw [Itv.mem_def, Bound.fin_le_fin, Bound.fin_le_fin] at h
  linarith [h.1, h.2]

theorem join_eq {i p : Itv ℚ} (hi : i ≠ ⟨fin (-1), fin (-1)⟩) (hp : p ≠ ⟨fin (-1), fin (-1)⟩) :
    Itv.join i p = ⟨max i.inf p.inf, max i.sup p.sup⟩ := by
  rw [Itv.join, if_neg, if_neg, bmax_eq_max, bmax_eq_max]
  · rw [Itv.isCanonicalBottom_iff]; exact hp
  · rw [Itv.isCanonicalBottom_iff]; exact hi

theorem isZero_mem {p : Itv ℚ} (h : p.isZero = true) {v : ℚ} (hv : v ∈ p) : v = 0 := by
  simp only [Itv.isZero, Bool.and_eq_true, decide_eq_true_eq, sgn_zero_iff] at h
  rw [Itv.mem_def, h.1, h.2, Bound.fin_le_fin, Bound.fin_le_fin] at hv
  linarith [hv.1, hv.2]

theorem boundExprGens_sound {e : ILinexpr ℚ} {w : Row → ℚ} {b : ℚ} : ∀ {F : List Row} {i : Itv ℚ},
    (∀ q ∈ F, 0 ≤ q.at' 1 ∧ (q.at' 0 = 0 → q.at' 1 = 0)) →
    (∀ q ∈ F, (if q.at' 1 = 0 then w q else w q / q.at' 1) ∈ genBound e q) → i ≠ ⟨fin (-1), fin (-1)⟩ →
    ((boundExprGens e F i).sup ≤ fin b → i.sup ≤ fin b ∧ ∀ q ∈ F, GBound w b q) ∧
    ((boundExprGens e F i).inf ≤ fin b → i.inf ≤ fin b ∧ ∀ q ∈ F, GBound (fun q => - w q) b q) := by
  intro F
  induction F with
  | nil => intro i _ _ _; simp [boundExprGens]
  | cons q F ih =>
    intro i hF hw hi
    have ih' := fun i => ih (i := i) (fun q hq => hF q (by simp [hq])) (fun q hq => hw q (by simp [hq]))
    obtain ⟨h1, h2⟩ := hF q (by simp)
    have hq := hw q (by simp)
    rw [boundExprGens]
    have top : ((⟨pinf, pinf⟩ : Itv ℚ).sup ≤ fin b → i.sup ≤ fin b ∧ ∀ q' ∈ q :: F, GBound w b q') ∧
        ((⟨pinf, pinf⟩ : Itv ℚ).inf ≤ fin b → i.inf ≤ fin b ∧ ∀ q' ∈ q :: F, GBound (fun q => - w q) b q') :=
      ⟨fun h => absurd h (by simp), fun h => absurd h (by simp)⟩
    by_cases h3 : q.at' 1 = 0
    · rw [if_pos h3] at hq
      have zero : (genBound e q).isZero = true → GBound w b q ∧ GBound (fun q => - w q) b q := by
        intro hz
        have := isZero_mem hz hq
        simp [GBound, h3, this]
      have rest : GBound w b q ∧ GBound (fun q => - w q) b q →
          ((boundExprGens e F i).sup ≤ fin b → i.sup ≤ fin b ∧ ∀ q' ∈ q :: F, GBound w b q') ∧
          ((boundExprGens e F i).inf ≤ fin b → i.inf ≤ fin b ∧ ∀ q' ∈ q :: F, GBound (fun q => - w q) b q') := by
        rintro ⟨g1, g2⟩
        obtain ⟨r1, r2⟩ := ih' i hi
        exact ⟨fun h => ⟨(r1 h).1, List.forall_mem_cons.2 ⟨g1, (r1 h).2⟩⟩, fun h => ⟨(r2 h).1, List.forall_mem_cons.2 ⟨g2, (r2 h).2⟩⟩⟩
      by_cases h0 : q.at' 0 = 0
      · rw [if_pos h0]
        split_ifs with hz
        · exact rest (zero hz)
        · exact top
      · rw [if_neg h0, if_pos h3]
        by_cases hz : (genBound e q).isZero = true
        · rw [if_pos hz]; exact rest (zero hz)
        · rw [if_neg hz]
          by_cases hn : sgn (genBound e q).inf < 0
          · rw [if_pos hn]
            have hpos : 0 < w q := by
              have := hq.1
              cases hb : (genBound e q).inf with
              | ninf => rw [hb] at this; exact absurd this (by simp)
              | fin c => rw [hb] at this hn; rw [Bound.fin_le_fin] at this; rw [sgn_fin_lt] at hn; linarith
              | pinf => rw [hb] at hn; simp [sgn] at hn
            have g2 : GBound (fun q => - w q) b q := by simp [GBound, h3, h0, hpos.le]
            split_ifs with h4
            · exact ⟨fun h => absurd h (by simp), fun h => absurd h (by simp [h4])⟩
            · obtain ⟨r1, r2⟩ := ih' ⟨i.inf, pinf⟩ (by simp)
              exact ⟨fun h => absurd (r1 h).1 (by simp), fun h => ⟨(r2 h).1, List.forall_mem_cons.2 ⟨g2, (r2 h).2⟩⟩⟩
          · rw [if_neg hn]
            by_cases hn' : sgn (genBound e q).sup < 0
            · rw [if_pos hn']
              have hneg : w q < 0 := by
                have := hq.2
                cases hb : (genBound e q).sup with
                | ninf => rw [hb] at this; exact absurd this (by simp)
                | fin c => rw [hb] at this hn'; rw [Bound.fin_le_fin] at this; rw [sgn_fin_lt] at hn'; linarith
                | pinf => rw [hb] at hn'; simp [sgn] at hn'
              have g1 : GBound w b q := by simp [GBound, h3, h0, hneg.le]
              split_ifs with h4
              · exact ⟨fun h => absurd h (by simp [h4]), fun h => absurd h (by simp)⟩
              · obtain ⟨r1, r2⟩ := ih' ⟨pinf, i.sup⟩ (by simp)
                exact ⟨fun h => ⟨(r1 h).1, List.forall_mem_cons.2 ⟨g1, (r1 h).2⟩⟩, fun h => absurd (r2 h).1 (by simp)⟩
            · rw [if_neg hn']; exact top
    · have h0 : q.at' 0 ≠ 0 := fun h => h3 (h2 h)
      rw [if_neg h0, if_neg h3]
      rw [if_neg h3] at hq
      have hq1 : (0 : ℚ) < q.at' 1 := by
        have : 0 < q.at' 1 := by omega
        exact_mod_cast this
      have hj := join_eq hi (ne_bottom_of_mem hq)
      obtain ⟨r1, r2⟩ := ih' (Itv.join i (genBound e q)) (ne_bottom_of_mem (Itv.mem_join_right hq))
      rw [hj] at r1 r2 ⊢
      dsimp only at r1 r2
      constructor
      · intro h
        obtain ⟨s1, s2⟩ := r1 h
        rw [max_le_iff] at s1
        have := (Bound.fin_le_fin _ _).1 (hq.2.trans s1.2)
        rw [div_le_iff₀ hq1] at this
        exact ⟨s1.1, List.forall_mem_cons.2 ⟨⟨by linarith, fun h => absurd h h0⟩, s2⟩⟩
      · intro h
        obtain ⟨s1, s2⟩ := r2 h
        rw [max_le_iff] at s1
        have := (Bound.fin_le_fin _ _).1 (hq.1.trans s1.2)
        rw [← neg_div, div_le_iff₀ hq1] at this
        exact ⟨s1.1, List.forall_mem_cons.2 ⟨⟨by linarith, fun h => absurd h h0⟩, s2⟩⟩

theorem isZero_point {a : ℚ} : (Itv.point a : Itv ℚ).isZero = true ↔ a = 0 := by
  simp [Itv.isZero, Itv.point, sgn_zero_iff]

/-- for an expression with numbers the loop is that of the bounds of a linear form -/
theorem boundExprGens_eq {e : ILinexpr ℚ} {w : Row → ℚ} : ∀ {F : List Row} {i : Itv ℚ},
    (∀ q ∈ F, genBound e q = Itv.point (if q.at' 1 = 0 then w q else w q / q.at' 1)) → (∀ q ∈ F, q.at' 0 = 0 → q.at' 1 = 0) →
    i ≠ ⟨fin (-1), fin (-1)⟩ → boundExprGens e F i = boundGens w F i := by
  intro F
  induction F with
  | nil => intro i _ _ _; rfl
  | cons q F ih =>
    intro i hw hF hi
    have ih' := fun i => ih (i := i) (fun q hq => hw q (by simp [hq])) (fun q hq => hF q (by simp [hq]))
    have hq := hw q (by simp)
    rw [boundExprGens, boundGens]
    dsimp only
    rw [hq]
    by_cases h3 : q.at' 1 = 0
    · rw [if_pos h3]
      by_cases h0 : q.at' 0 = 0
      · rw [if_pos h0, if_pos h0]
        by_cases hz : w q = 0
        · rw [if_pos (isZero_point.2 hz), if_neg (by simpa using hz), ih' i hi]
        · rw [if_neg (by rw [isZero_point]; exact hz), if_pos hz]
      · rw [if_neg h0, if_neg h0, if_pos h3, if_pos h3]
        rcases lt_trichotomy (w q) 0 with hv | hv | hv
        · rw [if_neg (by rw [isZero_point]; exact hv.ne), if_neg, if_pos, if_neg (show ¬ 0 < w q by linarith), if_pos hv]
          · by_cases h4 : i.sup = pinf
            · rw [if_pos h4, if_pos h4]
            · rw [if_neg h4, if_neg h4, ih' _ (by simp)]
          · exact sgn_fin_lt.2 hv
          · change ¬ sgn (fin (- w q)) < 0
            rw [sgn_fin_lt]; linarith
        · rw [if_pos (isZero_point.2 hv), if_neg (by rw [hv]; simp), if_neg (by rw [hv]; simp), ih' i hi]
        · rw [if_neg (by rw [isZero_point]; exact hv.ne'), if_pos, if_pos hv]
          · by_cases h4 : i.inf = pinf
            · rw [if_pos h4, if_pos h4]
            · rw [if_neg h4, if_neg h4, ih' _ (by simp)]
          · change sgn (fin (- w q)) < 0
            rw [sgn_fin_lt]; linarith
    · have h0 : q.at' 0 ≠ 0 := fun h => h3 (hF q (by simp) h)
      rw [if_neg h3, if_neg h0, if_neg h0, if_neg h3, if_neg h3]
      have hm : w q / q.at' 1 ∈ (Itv.point (w q / q.at' 1) : Itv ℚ) := (Itv.mem_point _ _).2 rfl
      have hj := join_eq hi (ne_bottom_of_mem hm)
      rw [ih' _ (ne_bottom_of_mem (Itv.mem_join_right hm)), hj]
      congr 1
      simp only [Itv.point, max_def]
      congr 1
      · split_ifs with h5 h6 h6
        · rfl
        · exact le_antisymm (not_lt.1 h6) h5
        · exact absurd h6.le h5
        · rfl
      · split_ifs with h5 h6 h6
        · rfl
        · exact le_antisymm (not_lt.1 h6) h5
        · exact absurd h6.le h5
        · rfl

/-! ## Bounds of an expression on a polyhedron -/

theorem boundExpr_sound {r : Rep} (h : r.Wf ℚ n) {F : List Row} (hF : r.F? = some F) {e : ILinexpr ℚ} (hd : ∀ t ∈ e.terms, t.dim < n)
    {x : Fin n → ℚ} (hx : r.γ x) {v : ℚ} (hv : e.Val (ext x) v) : v ∈ boundExprGens e F ⟨ninf, ninf⟩ := by
  obtain ⟨c, s, hc, hs, rfl⟩ := hv
  obtain ⟨as, ha, rfl⟩ := tval_iff_csum.1 hs
  have hp : PosCone (K := ℚ) (n := n) (GenM F) := fun y hy => h.pos y ((h.genM hF y).2 hy)
  have hm := (h.genM hF _).1 hx
  have hfirst := fun q hq => gen_first hp (q := q) hq
  set l := exprL n c e.terms as with hl
  have hlq : ∀ q, l (toV ℚ (n + 1) q) = c * q.at' 1 + csum e.terms as fun d => q.at' (d + 2) := exprL_toV c hd as
  rw [← exprL_hom, ← hl]
  refine mem_of_best fun b => ?_
  obtain ⟨s1, s2⟩ := boundExprGens_sound (e := e) (w := fun q => l (toV ℚ (n + 1) q)) (b := b) (F := F) (i := ⟨ninf, ninf⟩) hfirst
    (fun q hq => by rw [hlq]; exact genBound_sound (hfirst q hq).1 hc ha) (by simp)
  constructor
  · intro hb
    have := (genM_valid_iff (d := n + 1) (F := F) (b • LinearMap.proj 0 - l)).2 (fun q hq => by
      have := (s1 hb).2 q hq
      simpa [GBound, toV_zero] using this) _ hm
    simpa [hom_zero] using this
  · intro hb
    have := (genM_valid_iff (d := n + 1) (F := F) (b • LinearMap.proj 0 + l)).2 (fun q hq => by
      have := (s2 hb).2 q hq
      simpa [GBound, toV_zero] using this) _ hm
    simp [hom_zero] at this
    linarith

theorem boundExpr_best {r : Rep} (h : r.Wf ℚ n) {F : List Row} (hF : r.F? = some F) {e : ILinexpr ℚ} (hd : ∀ t ∈ e.terms, t.dim < n)
    {c : ℚ} (hc : e.cst = Itv.point c) (ha : ∀ t ∈ e.terms, ∃ a, t.itv = Itv.point a) (b : ℚ) :
    ((boundExprGens e F ⟨ninf, ninf⟩).sup ≤ fin b ↔ ∀ x : Fin n → ℚ, r.γ x → ∀ v, e.Val (ext x) v → v ≤ b) ∧
    ((boundExprGens e F ⟨ninf, ninf⟩).inf ≤ fin b ↔ ∀ x : Fin n → ℚ, r.γ x → ∀ v, e.Val (ext x) v → - v ≤ b) := by
  have hp : PosCone (K := ℚ) (n := n) (GenM F) := fun y hy => h.pos y ((h.genM hF y).2 hy)
  have hfirst := fun q hq => gen_first hp (q := q) hq
  set as := e.terms.map fun t => numref t.itv.sup with has
  set l := exprL n c e.terms as with hl
  have hlq : ∀ q, l (toV ℚ (n + 1) q) = c * q.at' 1 + csum e.terms as fun d => q.at' (d + 2) := exprL_toV c hd as
  have hall : List.Forall₂ (fun t a => a ∈ t.itv) e.terms as := by
    rw [has, List.forall₂_map_right_iff, List.forall₂_same]
    intro t ht
    obtain ⟨a, h⟩ := ha t ht
    rw [h, Itv.mem_point]; rfl
  have hval : ∀ x : Fin n → ℚ, ∀ v, e.Val (ext x) v ↔ v = l (hom x) := by
    intro x v
    rw [hl, exprL_hom]
    constructor
    · rintro ⟨c', s, h1, h2, rfl⟩
      rw [hc, Itv.mem_point] at h1
      have h3 : TVal e.terms (ext x) (csum e.terms as (ext x)) := tval_iff_csum.2 ⟨as, hall, rfl⟩
      rw [tval_points ha] at h2
      have h4 := (tval_points ha).1 h3
      rw [h1, h2, h4]
    · rintro rfl
      exact ⟨c, _, by rw [hc, Itv.mem_point], tval_iff_csum.2 ⟨as, hall, rfl⟩, rfl⟩
  have e1 := boundExprGens_eq (e := e) (w := fun q => l (toV ℚ (n + 1) q)) (F := F) (i := ⟨ninf, ninf⟩)
    (fun q hq => by rw [hlq]; exact genBound_point (hfirst q hq).1 hc ha) (fun q hq => (hfirst q hq).2) (by simp)
  rw [e1]
  have := boundGens_best h hF l b
  simp only [hval, forall_eq]
  exact this

end Apron.Poly
