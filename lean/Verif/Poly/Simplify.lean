import Verif.Poly.Gauss
import Verif.Poly.Dual

/-!
# Correctness of `cherni_simplify`
-/

set_option autoImplicit false
set_option linter.unusedSectionVars false

namespace Apron.Poly

variable {K : Type*} [LinearOrder K] [Field K] [IsStrictOrderedRing K] {d : ℕ}

/-- double description without the irredundancy of the rays -/
structure PDL (K : Type*) [LinearOrder K] [Field K] [IsStrictOrderedRing K] (d : ℕ) (con lines : List Row)
    (rays : List SRow) : Prop where
  line : ∀ l ∈ lines, ∀ q ∈ con, vprod d q l = 0
  ray : ∀ x ∈ rays, ∀ q ∈ con, 0 ≤ vprod d q x.row ∧ (q.at' 0 = 0 → vprod d q x.row = 0)
  gen : ∀ x : Fin d → K, Sat con x → Gen lines (rays.map SRow.row) x
  proper : ∀ x ∈ rays, ∃ q ∈ con, vprod d q x.row ≠ 0
  sat : ∀ x ∈ rays, SatOk d con x

theorem PDL.toPreDD {con lines : List Row} {rays : List SRow} (h : PDL K d con lines rays) :
    PreDD (cA K d con) (cE con) con.length (lineSet K d lines) (rayFam K d rays) where
  line := by
    rintro _ ⟨l, hl, rfl⟩ b hb
    rw [cA_toV, h.line l hl _ (getD_mem hb), Int.cast_zero]
  ray := by
    intro i b hb
    obtain ⟨h1, h2⟩ := h.ray _ (List.getElem_mem i.2) _ (getD_mem hb)
    rw [rayFam, cA_toV]
    exact ⟨by exact_mod_cast h1, fun he => by exact_mod_cast h2 he⟩
  gen := fun x hx => (h.gen x (sat_iff.2 hx)).span
  proper := by
    intro i
    obtain ⟨b, hb, hne⟩ := exists_mem_iff.1 (h.proper _ (List.getElem_mem i.2))
    exact ⟨b, hb, by rw [rayFam, cA_toV]; exact_mod_cast hne⟩

theorem SatOk.dom {con : List Row} {x y : SRow} (hx : SatOk d con x) (hy : SatOk d con y) :
    Dom y x ↔ ∀ b, b < con.length → cA K d con b (toV K d x.row) = 0 → cA K d con b (toV K d y.row) = 0 := by
  rw [dom_iff]
  simp only [cA_toV, Int.cast_eq_zero]
  constructor
  · intro h b hb hx0
    by_contra hne
    have h1 : y.sat.testBit b = true := by rw [hy b]; exact decide_eq_true ⟨hb, hne⟩
    have h2 := h b h1
    rw [hx b] at h2
    exact (of_decide_eq_true h2).2 hx0
  · intro h b hb
    rw [hy b] at hb
    obtain ⟨h1, h2⟩ := of_decide_eq_true hb
    rw [hx b]
    exact decide_eq_true ⟨h1, fun h0 => h2 (h b h1 h0)⟩

theorem PDL.nsat {con lines : List Row} {rays : List SRow} (h : PDL K d con lines rays) {x : SRow} (hx : x ∈ rays) :
    nsat (cA K d con) con.length (toV K d x.row) = zeroBits con.length x.sat := by
  have := zeroBits_eq (K := K) (h.sat x hx) (h.sat x hx)
  rw [Nat.or_self] at this
  rw [this, Apron.Poly.nsat, common]
  simp only [and_self]

/-- every ray is dominated by one that passes the test on the number of saturated constraints -/
theorem PDL.few {con lines : List Row} {rays : List SRow} (h : PDL K d con lines rays) {x : SRow} (hx : x ∈ rays) :
    ∃ y ∈ rays, Dom y x ∧ d ≤ zeroBits con.length y.sat + lines.length + 1 := by
  classical
  obtain ⟨y, hy, hmax⟩ := Finset.exists_max_image (rays.toFinset.filter fun y => Dom y x) (fun y => zeroBits con.length y.sat)
    ⟨x, by simp [hx, Dom.refl]⟩
  simp only [Finset.mem_filter, List.mem_toFinset] at hy hmax
  refine ⟨y, hy.1, hy.2, ?_⟩
  obtain ⟨i, hi, rfl⟩ := List.getElem_of_mem hy.1
  obtain ⟨s, hs1, hs2⟩ := lineSet_finite (K := K) (d := d) lines
  have := h.toPreDD.count (nl := lines.length) (i := ⟨i, hi⟩) ⟨s, by rw [hs1]; exact Submodule.subset_span, hs2⟩ (by
    intro j hj
    have hj1 : Dom rays[j.1] rays[i] := (SatOk.dom (K := K) (h.sat _ hy.1) (h.sat _ (List.getElem_mem j.2))).2 hj
    have hle := hmax _ ⟨List.getElem_mem j.2, hj1.trans hy.2⟩
    have hj2 : Dom rays[i] rays[j.1] := by
      by_contra hne
      have : rays[j.1].sat ≠ rays[i].sat := by
        intro e; apply hne; rw [Dom, e]; exact Nat.or_self _
      have := zeroBits_lt (n := con.length) (dom_iff.1 hj1) (fun b hb => by
        rw [h.sat _ hy.1 b] at hb; exact (of_decide_eq_true hb).1) this
      omega
    exact (SatOk.dom (K := K) (h.sat _ (List.getElem_mem j.2)) (h.sat _ hy.1)).1 hj2)
  rw [rayFam, Fin.getElem_fin, h.nsat (List.getElem_mem hi), Module.finrank_fin_fun] at this
  exact this

/-- removal of dominated rays -/
theorem PDL.reduce {con lines : List Row} {rays rays' : List SRow} (h : PDL K d con lines rays) (hsub : ∀ x ∈ rays', x ∈ rays)
    (hdom : ∀ x ∈ rays, ∃ y ∈ rays', Dom y x) : PDL K d con lines rays' where
  line := h.line
  ray := fun x hx => h.ray x (hsub x hx)
  gen := by
    intro x hx
    refine h.toPreDD.reduce (κ := fun i => rays[i.1] ∈ rays') ?_ (G := Gen lines (rays'.map SRow.row)) Gen.isCone ?_ ?_ _ rfl
      (sat_iff.1 hx)
    · intro i
      obtain ⟨y, hy, hyd⟩ := hdom _ (List.getElem_mem i.2)
      obtain ⟨j, hj, rfl⟩ := List.getElem_of_mem (hsub y hy)
      exact ⟨⟨j, hj⟩, hy, (SatOk.dom (K := K) (h.sat _ (List.getElem_mem i.2)) (h.sat _ (List.getElem_mem hj))).1 hyd⟩
    · intro l hl; exact Gen.of_span hl
    · intro i hi; exact Gen.of_ray (List.mem_map_of_mem hi)
  proper := fun x hx => h.proper x (hsub x hx)
  sat := fun x hx => h.sat x (hsub x hx)

theorem dot_toV_comm (q r : Row) : dot q (toV K d r) = dot r (toV K d q) := by
  rw [dot_toV, dot_toV, vprod_comm]

/-- another system of lines that generates the same space -/
theorem PDL.lines {con lines lines' : List Row} {rays : List SRow} (h : PDL K d con lines rays)
    (hs : rowSpan K d lines' = rowSpan K d lines) : PDL K d con lines' rays where
  line := by
    intro l hl q hq
    have h1 : toV K d l ∈ rowSpan K d lines := by rw [← hs]; exact mem_rowSpan hl
    have h2 : rowSpan K d lines ≤ LinearMap.ker (lin K d q) := rowSpan_le fun l' hl' => by
      rw [LinearMap.mem_ker, lin_apply, dot_toV, h.line l' hl' q hq, Int.cast_zero]
    have h3 := h2 h1
    rw [LinearMap.mem_ker, lin_apply, dot_toV] at h3
    exact_mod_cast h3
  ray := h.ray
  gen := by
    intro x hx
    refine Gen.le Gen.isCone (fun l hl => ?_) (fun r hr => .of_ray hr) (h.gen x hx)
    have : toV K d l ∈ rowSpan K d lines' := by rw [hs]; exact mem_rowSpan hl
    exact ⟨Gen.of_span this, Gen.of_span (Submodule.neg_mem _ this)⟩
  proper := h.proper
  sat := h.sat

theorem ElimRel.vprod {p q q' f : Row} (h : ElimRel d p q q') (hf : vprod d f p = 0) :
    (vprod d f q' = 0 ↔ vprod d f q = 0) ∧ (0 ≤ vprod d f q' ↔ 0 ≤ vprod d f q) := by
  obtain ⟨_, g, a, b, hg, ha, e⟩ := h
  have := vprod_lin (q := f) e
  rw [hf, mul_zero, sub_zero] at this
  constructor
  · constructor
    · intro h0; rw [h0, mul_zero] at this
      rcases mul_eq_zero.1 this.symm with h1 | h1
      · omega
      · exact h1
    · intro h0; rw [h0, mul_zero] at this
      rcases mul_eq_zero.1 this with h1 | h1
      · omega
      · exact h1
  · constructor
    · intro h0
      exact nonneg_of_mul_nonneg_right (this ▸ mul_nonneg hg.le h0) ha
    · intro h0
      exact nonneg_of_mul_nonneg_right (this.symm ▸ mul_nonneg ha.le h0) hg

/-- combination of all the rows with an equality -/
theorem PDL.elim {con E E' : List Row} {I I' : List SRow} (h : PDL K d con E I) {p : Row} (hp : p ∈ E) (hp' : p ∈ E')
    (hE : ∀ e ∈ E, ∃ e' ∈ E', ElimRel d p e e') (hE' : ∀ e' ∈ E', ∃ e ∈ E, ElimRel d p e e')
    (hI : ∀ x ∈ I, ∃ x' ∈ I', ElimRel d p x.row x'.row) (hI' : ∀ x' ∈ I', ∃ x ∈ I, ElimRel d p x.row x'.row ∧ x'.sat = x.sat) :
    PDL K d con E' I' where
  line := by
    intro l hl q hq
    obtain ⟨e, he, hr⟩ := hE' l hl
    exact (hr.vprod (h.line p hp q hq)).1.2 (h.line e he q hq)
  ray := by
    intro x hx q hq
    obtain ⟨y, hy, hr, _⟩ := hI' x hx
    have hv := hr.vprod (h.line p hp q hq)
    exact ⟨hv.2.2 (h.ray y hy q hq).1, fun h0 => hv.1.2 ((h.ray y hy q hq).2 h0)⟩
  gen := by
    intro x hx
    refine Gen.le Gen.isCone (fun l hl => ?_) (fun r hr => ?_) (h.gen x hx)
    · obtain ⟨e', he', hr⟩ := hE l hl
      have : toV K d l ∈ rowSpan K d E' := (hr.mem_span (mem_rowSpan hp')).1 (mem_rowSpan he')
      exact ⟨Gen.of_span this, Gen.of_span (Submodule.neg_mem _ this)⟩
    · obtain ⟨y, hy, rfl⟩ := List.mem_map.1 hr
      obtain ⟨y', hy', hr'⟩ := hI y hy
      obtain ⟨g, a, b, hg, ha, e⟩ := hr'.toV (K := K)
      have e1 : toV K d y.row = (a⁻¹ * g) • toV K d y'.row + (a⁻¹ * b) • toV K d p := by
        rw [mul_smul, mul_smul, ← smul_add, e, sub_add_cancel, smul_smul, inv_mul_cancel₀ ha.ne', one_smul]
      rw [e1]
      exact .line _ ((Gen.of_ray (List.mem_map_of_mem hy')).smul (mul_nonneg (inv_nonneg.2 ha.le) hg.le)) hp'
  proper := by
    intro x hx
    obtain ⟨y, hy, hr, _⟩ := hI' x hx
    obtain ⟨q, hq, hne⟩ := h.proper y hy
    exact ⟨q, hq, fun h0 => hne ((hr.vprod (h.line p hp q hq)).1.1 h0)⟩
  sat := by
    intro x hx b
    obtain ⟨y, hy, hr, hs⟩ := hI' x hx
    rw [hs, h.sat y hy b, decide_eq_decide]
    constructor
    · rintro ⟨h1, h2⟩
      exact ⟨h1, fun h0 => h2 ((hr.vprod (h.line p hp _ (getD_mem h1))).1.1 h0)⟩
    · rintro ⟨h1, h2⟩
      exact ⟨h1, fun h0 => h2 ((hr.vprod (h.line p hp _ (getD_mem h1))).1.2 h0)⟩

/-! ## The dual system -/

/-- the generators seen as the constraints of the dual cone: the vectors that satisfy them are the valid constraints -/
theorem valid_of_dual {C lines : List Row} {rays : List SRow} (dd : DDL K d C lines rays) (hl : ∀ l ∈ lines, l.at' 0 = 0)
    {v : Fin d → K} (hv : Sat (lines ++ rays.map SRow.row) v) {x : Fin d → K} (hx : Sat C x) : 0 ≤ linV v x := by
  refine Gen.le (G := fun x => 0 ≤ linV v x) ⟨by simp, fun h1 h2 => by rw [map_add]; exact add_nonneg h1 h2,
    fun ht h => by rw [map_smul, smul_eq_mul]; exact mul_nonneg ht h⟩ (fun l h => ?_) (fun r hr => ?_) (dd.gen x hx)
  · have := (hv l (List.mem_append_left _ h)).2 (hl l h)
    rw [dot_eq_linV, linV_comm] at this
    rw [map_neg, this]; simp
  · have := (hv r (List.mem_append_right _ hr)).1
    rwa [dot_eq_linV, linV_comm] at this

/-- the dual system after the detection of the equalities -/
theorem classify_pdl {C lines : List Row} {rays : List SRow} (dd : DDL K d C lines rays) (hl : ∀ l ∈ lines, l.at' 0 = 0)
    (hr : ∀ x ∈ rays, x.row.at' 0 ≠ 0) {con : List SRow} (hcon : con.map SRow.row = C)
    (hs : ∀ x ∈ con, SatOk d (lines ++ rays.map SRow.row) x) (n : ℕ) :
    PDL K d (lines ++ rays.map SRow.row) ((classify n con [] []).1.map SRow.row) (classify n con [] []).2 := by
  obtain ⟨e1, p2⟩ := classify_perm n con [] []
  rw [List.nil_append] at e1 p2
  have hmemC : ∀ x ∈ con, x.row ∈ C := fun x hx => by rw [← hcon]; exact List.mem_map_of_mem hx
  -- products of a constraint with the generators
  have hval : ∀ x ∈ con, ∀ f ∈ lines ++ rays.map SRow.row,
      0 ≤ vprod d f x.row ∧ (f.at' 0 = 0 → vprod d f x.row = 0) ∧ (x.row.at' 0 = 0 → vprod d f x.row = 0) := by
    intro x hx f hf
    rw [vprod_comm]
    rcases List.mem_append.1 hf with hf | hf
    · rw [dd.line f hf _ (hmemC x hx)]; simp
    · obtain ⟨y, hy, rfl⟩ := List.mem_map.1 hf
      have := dd.ray y hy _ (hmemC x hx)
      exact ⟨this.1, fun h0 => absurd h0 (hr y hy), this.2⟩
  have hQ : ∀ r ∈ (classify n con [] []).1.map SRow.row, ∃ x ∈ con, isEq x = true ∧ r = x.row.setStatus 0 := by
    intro r hr
    rw [e1, List.map_map] at hr
    obtain ⟨x, hx, rfl⟩ := List.mem_map.1 hr
    rw [List.mem_filter] at hx
    exact ⟨x, hx.1, hx.2, rfl⟩
  have hI : ∀ y ∈ (classify n con [] []).2, ∃ x ∈ con, isEq x = false ∧ y = { x with row := x.row.setStatus (zeroBits n x.sat) } := by
    intro y hy
    obtain ⟨x, hx, rfl⟩ := List.mem_map.1 (p2.mem_iff.1 hy)
    rw [List.mem_filter] at hx
    exact ⟨x, hx.1, by simpa using hx.2, rfl⟩
  refine ⟨?_, ?_, ?_, ?_, ?_⟩
  · intro r hr' f hf
    obtain ⟨x, hx, he, rfl⟩ := hQ r hr'
    rw [vprod_setStatus]
    rcases of_decide_eq_true he with h0 | h0
    · exact (hval x hx f hf).2.2 h0
    · obtain ⟨b, hb, rfl⟩ := List.getElem_of_mem hf
      have := hs x hx b
      rw [h0, Nat.zero_testBit] at this
      have := of_decide_eq_false this.symm
      rw [not_and_not_right, List.getD_eq_getElem?_getD, List.getElem?_eq_getElem hb] at this
      exact this hb
  · intro y hy f hf
    obtain ⟨x, hx, he, rfl⟩ := hI y hy
    simp only [vprod_setStatus]
    exact ⟨(hval x hx f hf).1, (hval x hx f hf).2.1⟩
  · intro v hv
    have hfk := farkas_rows (C := C) (v := v) fun x hx => valid_of_dual dd hl hv hx
    have mQ : ∀ x ∈ con, isEq x = true → x.row.setStatus 0 ∈ (classify n con [] []).1.map SRow.row := by
      intro x hx he
      rw [e1, List.map_map]
      exact List.mem_map.2 ⟨x, List.mem_filter.2 ⟨hx, he⟩, rfl⟩
    refine Gen.le Gen.isCone (fun q hq => ?_) (fun q hq => ?_) hfk
    · rw [eqRows, List.mem_filter] at hq
      rw [← hcon] at hq
      obtain ⟨x, hx, rfl⟩ := List.mem_map.1 hq.1
      have he : isEq x = true := decide_eq_true (.inl (by simpa using hq.2))
      rw [← toV_setStatus x.row 0]
      exact ⟨.of_line (mQ x hx he), .of_neg_line (mQ x hx he)⟩
    · rw [ineqRows, List.mem_filter] at hq
      rw [← hcon] at hq
      obtain ⟨x, hx, rfl⟩ := List.mem_map.1 hq.1
      cases he : isEq x
      · rw [← toV_setStatus x.row (zeroBits n x.sat)]
        refine .of_ray (List.mem_map.2 ⟨{ x with row := x.row.setStatus (zeroBits n x.sat) }, p2.mem_iff.2 ?_, rfl⟩)
        exact List.mem_map.2 ⟨x, List.mem_filter.2 ⟨hx, by simp [he]⟩, rfl⟩
      · rw [← toV_setStatus x.row 0]
        exact .of_line (mQ x hx he)
  · intro y hy
    obtain ⟨x, hx, he, rfl⟩ := hI y hy
    have hne : x.sat ≠ 0 := fun h0 => (of_decide_eq_false he) (.inr h0)
    obtain ⟨b, hb⟩ := Nat.exists_testBit_of_ne_zero hne
    rw [hs x hx b] at hb
    obtain ⟨h1, h2⟩ := of_decide_eq_true hb
    refine ⟨_, getD_mem h1, ?_⟩
    simp only [vprod_setStatus]; exact h2
  · intro y hy b
    obtain ⟨x, hx, he, rfl⟩ := hI y hy
    simp only [vprod_setStatus]
    exact hs x hx b

/-! ## cherni_simplify -/

/-- irredundancy, on the saturation rows -/
def SatAnti (a b : ℕ) : Prop := ¬ a ||| b = b ∧ ¬ b ||| a = a

theorem PDL.toDDL {con lines : List Row} {rays : List SRow} (h : PDL K d con lines rays)
    (ha : (rays.map SRow.sat).Pairwise SatAnti) : DDL K d con lines rays where
  line := h.line
  ray := h.ray
  gen := h.gen
  proper := h.proper
  anti := by
    rw [List.pairwise_map] at ha ⊢
    have key : ∀ x ∈ rays, ∀ y ∈ rays, ¬ y.sat ||| x.sat = x.sat → Anti d con x.row y.row := by
      intro x hx y hy hne
      by_contra hc
      apply hne
      refine (SatOk.dom (K := ℚ) (h.sat x hx) (h.sat y hy)).2 fun b hb h0 => ?_
      rw [cA_toV, Int.cast_eq_zero] at h0 ⊢
      by_contra h1
      exact hc ⟨_, getD_mem hb, h0, h1⟩
    refine ha.imp_of_mem fun {x y} hx hy hxy => ⟨key x hx y hy hxy.2, key y hy x hx hxy.1⟩
  sat := h.sat

theorem zipWith_mk (l : List SRow) : List.zipWith SRow.mk (l.map SRow.row) (l.map SRow.sat) = l := by
  rw [List.zipWith_map]
  induction l with
  | nil => rfl
  | cons a l ih => rw [List.zipWith_cons_cons, ih]

theorem map_row_zipWith {rows : List Row} {sats : List ℕ} (h : rows.length = sats.length) :
    (List.zipWith SRow.mk rows sats).map SRow.row = rows := by
  induction rows generalizing sats with
  | nil => rfl
  | cons a l ih =>
    cases sats with
    | nil => simp at h
    | cons b m =>
      rw [List.zipWith_cons_cons, List.map_cons, ih (by simpa using h)]

theorem map_sat_zipWith {rows : List Row} {sats : List ℕ} (h : rows.length = sats.length) :
    (List.zipWith SRow.mk rows sats).map SRow.sat = sats := by
  induction rows generalizing sats with
  | nil => cases sats <;> simp_all
  | cons a l ih =>
    cases sats with
    | nil => simp at h
    | cons b m =>
      rw [List.zipWith_cons_cons, List.map_cons, ih (by simpa using h)]

/-- one step of back-substitution keeps the double description -/
theorem StepRel.pdl {F con con' : List Row} {k nd : ℕ} {sats : List ℕ} (hs : StepRel d k con con') (hk : k < nd) (hnd : nd ≤ con.length)
    (hlen : (con.drop nd).length = sats.length)
    (h : PDL K d F (con.take nd) (List.zipWith SRow.mk (con.drop nd) sats)) :
    PDL K d F (con'.take nd) (List.zipWith SRow.mk (con'.drop nd) sats) := by
  have hlen' : (con'.drop nd).length = sats.length := by rw [← hlen]; simp [hs.len]
  have ht : ∀ l : List Row, l.length = con.length → ∀ i, i < nd → l.getD i [] ∈ l.take nd := by
    intro l hl i hi
    rw [← getD_take _ _ hi]
    exact getD_mem (by rw [List.length_take, hl]; omega)
  have ht' : ∀ l : List Row, l.length = con.length → ∀ q ∈ l.take nd, ∃ i, i < nd ∧ l.getD i [] = q := by
    intro l hl q hq
    obtain ⟨i, hi, rfl⟩ := List.getElem_of_mem hq
    have hi' : i < nd := by rw [List.length_take] at hi; omega
    refine ⟨i, hi', ?_⟩
    rw [← getD_take _ _ hi', List.getD_eq_getElem?_getD, List.getElem?_eq_getElem hi, Option.getD_some]
  have hz : ∀ l : List Row, l.length = con.length → ∀ x ∈ List.zipWith SRow.mk (l.drop nd) sats,
      ∃ i, nd + i < con.length ∧ x = ⟨l.getD (nd + i) [], sats.getD i 0⟩ := by
    intro l hl x hx
    obtain ⟨i, hi, rfl⟩ := List.getElem_of_mem hx
    rw [List.length_zipWith] at hi
    have hi1 : i < (l.drop nd).length := by omega
    have hi2 : i < sats.length := by omega
    rw [List.length_drop] at hi1
    refine ⟨i, by omega, ?_⟩
    rw [List.getElem_zipWith, List.getElem_drop, List.getD_eq_getElem?_getD, List.getElem?_eq_getElem (by omega),
      List.getD_eq_getElem?_getD, List.getElem?_eq_getElem hi2]; rfl
  have hz' : ∀ l : List Row, l.length = con.length → ∀ i, nd + i < con.length →
      (⟨l.getD (nd + i) [], sats.getD i 0⟩ : SRow) ∈ List.zipWith SRow.mk (l.drop nd) sats := by
    intro l hl i hi
    rw [List.length_drop] at hlen
    have hi2 : i < sats.length := by omega
    refine List.mem_iff_getElem.2 ⟨i, ?_, ?_⟩
    · rw [List.length_zipWith, List.length_drop, hl]; omega
    · rw [List.getElem_zipWith, List.getElem_drop, List.getD_eq_getElem?_getD, List.getElem?_eq_getElem (by omega),
        List.getD_eq_getElem?_getD, List.getElem?_eq_getElem hi2]; rfl
  refine h.elim (p := con.getD k []) (ht con rfl k hk) ?_ ?_ ?_ ?_ ?_
  · rw [← hs.keep]; exact ht con' hs.len k hk
  · intro e he
    obtain ⟨i, hi, rfl⟩ := ht' con rfl e he
    exact ⟨_, ht con' hs.len i hi, hs.rel i (by omega)⟩
  · intro e he
    obtain ⟨i, hi, rfl⟩ := ht' con' hs.len e he
    exact ⟨_, ht con rfl i hi, hs.rel i (by omega)⟩
  · intro x hx
    obtain ⟨i, hi, rfl⟩ := hz con rfl x hx
    exact ⟨_, hz' con' hs.len i hi, hs.rel _ hi⟩
  · intro x hx
    obtain ⟨i, hi, rfl⟩ := hz con' hs.len x hx
    exact ⟨_, hz' con rfl i hi, hs.rel _ hi, rfl⟩

theorem PDL.statuses {con lines : List Row} {rays : List SRow} (h : PDL K d con lines rays) (g : SRow → ℤ) :
    PDL K d con lines (rays.map fun x => { x with row := x.row.setStatus (g x) }) where
  line := h.line
  ray := by
    intro x hx q hq
    obtain ⟨x', hx', rfl⟩ := List.mem_map.1 hx
    simp only [vprod_setStatus]; exact h.ray x' hx' q hq
  gen := by
    intro x hx
    refine Gen.le Gen.isCone (fun l hl => ⟨.of_line hl, .of_neg_line hl⟩) (fun r hr => ?_) (h.gen x hx)
    obtain ⟨y, hy, rfl⟩ := List.mem_map.1 hr
    rw [← toV_setStatus y.row (g y)]
    exact .of_ray (List.mem_map.2 ⟨_, List.mem_map_of_mem hy, rfl⟩)
  proper := by
    intro x hx
    obtain ⟨x', hx', rfl⟩ := List.mem_map.1 hx
    simp only [vprod_setStatus]; exact h.proper x' hx'
  sat := by
    intro x hx b
    obtain ⟨x', hx', rfl⟩ := List.mem_map.1 hx
    simp only [vprod_setStatus]; exact h.sat x' hx' b

/-- the result of `cherni_simplify` -/
structure SimplifyOk (K : Type*) [LinearOrder K] [Field K] [IsStrictOrderedRing K] (d : ℕ) (F : List Row) (r : List SRow × ℕ) :
    Prop where
  le : r.2 ≤ r.1.length
  eqs : ∀ x ∈ r.1.take r.2, x.row.at' 0 = 0
  eqSat : ∀ x ∈ r.1.take r.2, x.sat = 0
  ineqs : ∀ x ∈ r.1.drop r.2, x.row.at' 0 = 1
  dd : DDL K d F ((r.1.take r.2).map SRow.row) (r.1.drop r.2)
  echelon : ∃ piv, piv.length = r.2 ∧ BackOk d (r.1.map SRow.row) piv 0

theorem simplify_ok {C lines : List Row} {rays : List SRow} (dd : DDL K d C lines rays) (hl : ∀ l ∈ lines, l.at' 0 = 0)
    (hr : ∀ x ∈ rays, x.row.at' 0 ≠ 0) {con : List SRow} (hcon : con.map SRow.row = C)
    (hs : ∀ x ∈ con, SatOk d (lines ++ rays.map SRow.row) x) :
    SimplifyOk K d (lines ++ rays.map SRow.row) (simplify (d + 1) (lines.length + rays.length) con) := by
  have hn : lines.length + rays.length = (lines ++ rays.map SRow.row).length := by simp
  have hp0 := classify_pdl dd hl hr hcon hs (lines.length + rays.length)
  obtain ⟨e1, p2⟩ := classify_perm (lines.length + rays.length) con [] []
  have hQs : ∀ x ∈ (classify (lines.length + rays.length) con [] []).1, x.sat = 0 := by
    intro x hx
    rw [e1, List.nil_append] at hx
    obtain ⟨y, hy, rfl⟩ := List.mem_map.1 hx
    rw [List.mem_filter] at hy
    rcases of_decide_eq_true hy.2 with h0 | h0
    · apply Nat.eq_of_testBit_eq
      intro b
      rw [Nat.zero_testBit, hs y hy.1 b]
      refine decide_eq_false ?_
      rintro ⟨hb, hne⟩
      apply hne
      have := hp0.line (y.row.setStatus 0) (by
        rw [e1, List.nil_append, List.map_map]; exact List.mem_map.2 ⟨y, List.mem_filter.2 hy, rfl⟩) _ (getD_mem hb)
      rwa [vprod_setStatus] at this
    · exact h0
  have hcnt : ∀ x ∈ (classify (lines.length + rays.length) con [] []).2, Counted (lines.length + rays.length) x := by
    intro x hx
    have hx' := p2.mem_iff.1 hx
    rw [List.nil_append] at hx'
    obtain ⟨y, hy, rfl⟩ := List.mem_map.1 hx'
    refine ⟨rfl, fun b hb => ?_⟩
    have := hp0.sat _ hx b
    rw [hb] at this
    rw [hn]; exact (of_decide_eq_true this.symm).1
  rw [simplify]
  rw [Nat.add_sub_cancel]
  generalize classify (lines.length + rays.length) con [] [] = cl at *
  obtain ⟨Q, I0⟩ := cl
  dsimp only at *
  obtain ⟨ge, gn, gst, gsp, gl⟩ := gauss_main (K := K) (d := d) (Q.map SRow.row)
  generalize gauss (d + 1) d [] (Q.map SRow.row) [] = g at *
  obtain ⟨D, R, piv⟩ := g
  dsimp only at *
  have hp1 := hp0.lines gsp
  rw [List.length_map] at gl
  -- the inequalities
  generalize hI1 : List.take R.length I0.reverse ++ List.take (I0.length - R.length) I0 = I1
  have p1 : I1.Perm I0 := hI1 ▸ revTake_perm I0 R.length
  have p2' := dropFew_perm (((d + 1 : ℕ) : ℤ) - D.length - 2) I1.length [] I1 le_rfl
  generalize dropFew (((d + 1 : ℕ) : ℤ) - D.length - 2) I1.length [] I1 = I2 at *
  rw [List.nil_append] at p2'
  have hI2 : ∀ x, x ∈ I2 ↔ x ∈ I0 ∧ ((d + 1 : ℕ) : ℤ) - D.length - 2 ≤ x.row.at' 0 := by
    intro x; rw [p2'.mem_iff, List.mem_filter, p1.mem_iff]; simp
  obtain ⟨s1, s2, s3⟩ := dropRedundant_ok (n := lines.length + rays.length) I2.length I2 0
    (fun x hx => hcnt x ((hI2 x).1 hx).1) (by omega) (fun p hp => absurd hp (Nat.not_lt_zero p))
  generalize dropRedundant I2.length I2 0 = I3 at *
  have hp3 : PDL K d (lines ++ rays.map SRow.row) D I3 := by
    refine hp1.reduce (fun x hx => ((hI2 x).1 (s1.subset hx)).1) (fun x hx => ?_)
    obtain ⟨y, hy, hyd, hyn⟩ := hp1.few hx
    obtain ⟨z, hz, hzd⟩ := s2 y ((hI2 y).2 ⟨hy, by rw [(hcnt y hy).st, hn]; push_cast; omega⟩)
    exact ⟨z, hz, hzd.trans hyd⟩
  have hanti : (I3.map SRow.sat).Pairwise SatAnti := by
    rw [List.pairwise_map, List.pairwise_iff_getElem]
    intro i j hi hj hij
    exact ⟨fun h => s3 j hj i hi (by omega) h, fun h => s3 i hi j hj (by omega) h⟩
  have hp4 := hp3.statuses (fun _ => 1)
  have hsat4 : (I3.map fun x => ({ x with row := x.row.setStatus 1 } : SRow)).map SRow.sat = I3.map SRow.sat := by
    rw [List.map_map]; rfl
  have hst4 : ∀ x ∈ I3.map (fun x => ({ x with row := x.row.setStatus 1 } : SRow)), x.row.at' 0 = 1 := by
    intro x hx; obtain ⟨y, _, rfl⟩ := List.mem_map.1 hx; rfl
  generalize I3.map (fun x => ({ x with row := x.row.setStatus 1 } : SRow)) = I4 at *
  rw [← hsat4] at hanti
  -- back-substitution
  obtain ⟨b1, b2, b3, b4⟩ := backsubstitute_ind (d := d) (piv := piv)
    (fun con' => con'.length = (D ++ I4.map SRow.row).length ∧
      (∀ i < (D ++ I4.map SRow.row).length, (con'.getD i []).at' 0 = ((D ++ I4.map SRow.row).getD i []).at' 0) ∧
      PDL K d (lines ++ rays.map SRow.row) (con'.take D.length) (List.zipWith SRow.mk (con'.drop D.length) (I4.map SRow.sat)))
    (by
      rintro c1 c2 k hk hle hstep ⟨a1, a2, a3⟩
      refine ⟨hstep.len.trans a1, fun i hi => ?_, ?_⟩
      · rw [(hstep.rel i (by rw [a1]; exact hi)).1]; exact a2 i hi
      · refine hstep.pdl (by rw [ge.len]; exact hk) (by rw [ge.len]; exact hle) ?_ a3
        rw [List.length_drop, a1]; simp)
    piv.length (D ++ I4.map SRow.row) le_rfl
    ⟨by rw [List.length_append, ge.len]; omega, by rw [← ge.len, List.take_left]; exact ge, fun k' h1 h2 => by omega⟩
    ⟨rfl, fun _ _ => rfl, by rw [List.take_left, List.drop_left, zipWith_mk]; exact hp4⟩
  rw [ge.len]
  rw [ge.len] at b4 gl
  generalize backsubstitute (d + 1) piv piv.length (D ++ I4.map SRow.row) = rows at *
  rw [List.length_append, List.length_map, ge.len] at b2
  have hrl : rows.length = (List.take piv.length (Q.map SRow.sat) ++ I4.map SRow.sat).length := by
    rw [b2]; simp; omega
  have hql : (List.take piv.length (Q.map SRow.sat)).length = piv.length := by simp; omega
  have htake : (List.zipWith SRow.mk rows (List.take piv.length (Q.map SRow.sat) ++ I4.map SRow.sat)).take piv.length =
      List.zipWith SRow.mk (rows.take piv.length) (List.take piv.length (Q.map SRow.sat)) := by
    rw [List.take_zipWith, List.take_append_of_le_length (by omega), List.take_of_length_le (le_of_eq hql)]
  have hdrop : (List.zipWith SRow.mk rows (List.take piv.length (Q.map SRow.sat) ++ I4.map SRow.sat)).drop piv.length =
      List.zipWith SRow.mk (rows.drop piv.length) (I4.map SRow.sat) := by
    rw [List.drop_zipWith]
    congr 1
    conv_lhs => rw [← hql]
    rw [hql, ← hql]
    simp
  have hstat : ∀ i < rows.length, (rows.getD i []).at' 0 = ((D ++ I4.map SRow.row).getD i []).at' 0 := by
    intro i hi; exact b3 i (by rw [List.length_append, List.length_map, ge.len]; omega)
  have hmaprow := map_row_zipWith hrl
  refine ⟨?_, ?_, ?_, ?_, ?_, ⟨piv, rfl, ?_⟩⟩
  · dsimp only; rw [List.length_zipWith, ← hrl, min_self, b2]; omega
  · dsimp only
    intro x hx
    rw [htake] at hx
    have hx' : x.row ∈ rows.take piv.length := by
      rw [← map_row_zipWith (rows := rows.take piv.length) (sats := List.take piv.length (Q.map SRow.sat))
        (by rw [hql, List.length_take]; omega)]
      exact List.mem_map_of_mem hx
    obtain ⟨i, hi, he⟩ := List.getElem_of_mem hx'
    have hi' : i < piv.length ∧ i < rows.length := by rw [List.length_take] at hi; omega
    rw [List.getElem_take] at he
    have := hstat i hi'.2
    rw [List.getD_eq_getElem?_getD, List.getElem?_eq_getElem hi'.2, Option.getD_some, he, List.getD_eq_getElem?_getD,
      List.getElem?_append_left (by rw [ge.len]; exact hi'.1), List.getElem?_eq_getElem (by rw [ge.len]; exact hi'.1),
      Option.getD_some] at this
    rw [this]; exact gst _ (List.getElem_mem _)
  · dsimp only
    intro x hx
    rw [htake] at hx
    have hx' : x.sat ∈ List.take piv.length (Q.map SRow.sat) := by
      rw [← map_sat_zipWith (rows := rows.take piv.length) (sats := List.take piv.length (Q.map SRow.sat))
        (by rw [hql, List.length_take]; omega)]
      exact List.mem_map_of_mem hx
    obtain ⟨y, hy, e⟩ := List.mem_map.1 (List.mem_of_mem_take hx')
    rw [← e]; exact hQs y hy
  · dsimp only
    intro x hx
    rw [hdrop] at hx
    have hx' : x.row ∈ rows.drop piv.length := by
      rw [← map_row_zipWith (rows := rows.drop piv.length) (sats := I4.map SRow.sat) (by rw [List.length_drop, b2]; simp)]
      exact List.mem_map_of_mem hx
    obtain ⟨i, hi, he⟩ := List.getElem_of_mem hx'
    rw [List.length_drop] at hi
    rw [List.getElem_drop] at he
    have := hstat (piv.length + i) (by omega)
    have hi4 : i < I4.length := by omega
    rw [List.getD_eq_getElem?_getD, List.getElem?_eq_getElem (by omega), Option.getD_some, he, List.getD_eq_getElem?_getD,
      List.getElem?_append_right (by rw [ge.len]; omega), ge.len, Nat.add_sub_cancel_left, List.getElem?_map,
      List.getElem?_eq_getElem hi4, Option.map_some, Option.getD_some] at this
    rw [this]; exact hst4 _ (List.getElem_mem _)
  · dsimp only
    rw [hdrop, htake, map_row_zipWith (by rw [hql, List.length_take]; omega)]
    refine b4.toDDL ?_
    rw [map_sat_zipWith (by rw [List.length_drop, b2]; simp)]
    exact hanti
  · dsimp only; rw [hmaprow]; exact b1

end Apron.Poly
