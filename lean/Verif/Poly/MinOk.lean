import Verif.Poly.Simplify

/-!
# Minimal representations: correctness of `cherni_minimize` and `cherni_add_and_minimize`
-/

set_option autoImplicit false
set_option linter.unusedSectionVars false

namespace Apron.Poly

variable {K : Type*} [LinearOrder K] [Field K] [IsStrictOrderedRing K] {d : ℕ}

/-- a system of equalities `E`, inequalities `I`, lines `L` and rays `R` that describe the same cone, each side being
the minimal description of the other one, with exact saturation rows; the definition is symmetric -/
structure MinOk (K : Type*) [LinearOrder K] [Field K] [IsStrictOrderedRing K] (d : ℕ) (E : List Row) (I : List SRow)
    (L : List Row) (R : List SRow) : Prop where
  eqs : ∀ q ∈ E, q.at' 0 = 0
  ineqs : ∀ x ∈ I, 0 < x.row.at' 0
  lines : ∀ q ∈ L, q.at' 0 = 0
  rays : ∀ x ∈ R, 0 < x.row.at' 0
  prim : DDL K d (E ++ I.map SRow.row) L R
  dual : DDL K d (L ++ R.map SRow.row) E I

theorem MinOk.symm {E L : List Row} {I R : List SRow} (h : MinOk K d E I L R) : MinOk K d L R E I :=
  ⟨h.lines, h.rays, h.eqs, h.ineqs, h.dual, h.prim⟩

/-- `q` is a valid constraint as soon as it is one for the generators -/
theorem gen_transfer {E I : List Row} {r s : Row} (hEr : ∀ e ∈ E, vprod d e r = 0) (hEs : ∀ e ∈ E, vprod d e s = 0)
    (hIr : ∀ e ∈ I, 0 ≤ vprod d e r) {v : Fin d → K} (hv : Gen E I v) :
    0 ≤ linV v (toV K d r) ∧ (linV v (toV K d r) = 0 → linV v (toV K d s) ≠ 0 → ∃ q ∈ I, vprod d q r = 0 ∧ vprod d q s ≠ 0) := by
  have hadd : ∀ (v : Fin d → K) (t : K) (q : Row) (y : Fin d → K), linV (v + t • toV K d q) y = linV v y + t * dot q y := by
    intro v t q y
    rw [linV_comm, map_add, map_smul, smul_eq_mul, linV_comm, linV_comm y (toV K d q)]; rfl
  induction hv with
  | zero =>
    refine ⟨by rw [linV_comm, map_zero], fun _ h => absurd (by rw [linV_comm, map_zero]) h⟩
  | @line v l t _ hl ih =>
    rw [hadd, hadd, dot_toV, dot_toV, hEr l hl, hEs l hl]
    simpa using ih
  | @ray v q t _ hq ht ih =>
    rw [hadd, hadd, dot_toV, dot_toV]
    have h0 : (0 : K) ≤ t * ((vprod d q r : ℤ) : K) := mul_nonneg ht (by exact_mod_cast hIr q hq)
    refine ⟨add_nonneg ih.1 h0, fun hz hne => ?_⟩
    have hz1 : linV v (toV K d r) = 0 := le_antisymm (by linarith [ih.1]) ih.1
    have hz2 : t * ((vprod d q r : ℤ) : K) = 0 := by linarith
    by_cases hs : linV v (toV K d s) = 0
    · rw [hs, zero_add] at hne
      have ht0 : t ≠ 0 := fun h => hne (by rw [h, zero_mul])
      refine ⟨q, hq, ?_, fun h => hne (by rw [h]; simp)⟩
      rcases mul_eq_zero.1 hz2 with h | h
      · exact absurd h ht0
      · exact_mod_cast h
    · exact ih.2 hz1 hs

section
variable {C E L : List Row} {I R : List SRow}

/-- the rows of the original constraints satisfy the dual system -/
theorem DDL.row_dual (dd : DDL K d C L R) (hR : ∀ x ∈ R, x.row.at' 0 ≠ 0) {q : Row} (hq : q ∈ C) :
    Sat (L ++ R.map SRow.row) (toV K d q) := by
  intro f hf
  rw [dot_toV, vprod_comm]
  rcases List.mem_append.1 hf with hf | hf
  · rw [dd.line f hf q hq]; simp
  · obtain ⟨y, hy, rfl⟩ := List.mem_map.1 hf
    exact ⟨by exact_mod_cast (dd.ray y hy q hq).1, fun h0 => absurd h0 (hR y hy)⟩

/-- the dual description describes the same cone -/
theorem DDL.sat_dual (dd : DDL K d C L R) (hL : ∀ q ∈ L, q.at' 0 = 0) (hR : ∀ x ∈ R, x.row.at' 0 ≠ 0) (hE : ∀ q ∈ E, q.at' 0 = 0)
    (hI : ∀ x ∈ I, x.row.at' 0 ≠ 0) (du : DDL K d (L ++ R.map SRow.row) E I) (x : Fin d → K) :
    Sat (E ++ I.map SRow.row) x ↔ Sat C x := by
  constructor
  · intro hx q hq
    have hle : ∀ v : Fin d → K, Gen E (I.map SRow.row) v → 0 ≤ linV v x := by
      intro v hv
      rw [linV_comm]
      refine Gen.le (G := fun v => 0 ≤ linV x v) ⟨by simp, fun h1 h2 => by rw [map_add]; exact add_nonneg h1 h2,
        fun ht h => by rw [map_smul, smul_eq_mul]; exact mul_nonneg ht h⟩ (fun l h => ?_) (fun r hr => ?_) hv
      · have := (hx l (List.mem_append_left _ h)).2 (hE l h)
        rw [dot_eq_linV, linV_comm] at this
        rw [map_neg, this]; simp
      · have := (hx r (List.mem_append_right _ hr)).1
        rwa [dot_eq_linV, linV_comm] at this
    have h1 := hle _ (du.gen _ (dd.row_dual hR hq))
    rw [← dot_eq_linV] at h1
    refine ⟨h1, fun h0 => le_antisymm ?_ h1⟩
    have hneg : Sat (L ++ R.map SRow.row) (-toV K d q) := by
      intro f hf
      have hz : dot f (toV K d q) = 0 := by
        rw [dot_toV, vprod_comm]
        rcases List.mem_append.1 hf with hf | hf
        · rw [dd.line f hf q hq]; simp
        · obtain ⟨y, hy, rfl⟩ := List.mem_map.1 hf
          rw [(dd.ray y hy q hq).2 h0]; simp
      rw [← lin_apply, map_neg, lin_apply, hz]; simp
    have h2 := hle _ (du.gen _ hneg)
    rw [linV_comm, map_neg, linV_comm, ← dot_eq_linV] at h2
    linarith
  · intro hx q hq
    have hg := dd.gen x hx
    rcases List.mem_append.1 hq with hq | hq
    · have h0 : ∀ f ∈ L ++ R.map SRow.row, vprod d q f = 0 := fun f hf => by rw [vprod_comm]; exact du.line q hq f hf
      have h1 := dot_nonneg_of_gen (c := q) (fun l hl => h0 l (List.mem_append_left _ hl))
        (fun r hr => (h0 r (List.mem_append_right _ hr)).ge) hg
      have h2 := dot_nonneg_of_gen (c := q.neg) (fun l hl => by rw [vprod_comm, vprod_neg, vprod_comm, h0 l (List.mem_append_left _ hl), neg_zero])
        (fun r hr => by rw [vprod_comm, vprod_neg, vprod_comm, h0 r (List.mem_append_right _ hr), neg_zero]) hg
      have h3 : dot q.neg x = - dot q x := by simp [dot]
      rw [h3] at h2
      exact ⟨h1, fun _ => le_antisymm (by linarith) h1⟩
    · obtain ⟨y, hy, rfl⟩ := List.mem_map.1 hq
      have h0 : ∀ f ∈ L ++ R.map SRow.row, 0 ≤ vprod d y.row f ∧ (f.at' 0 = 0 → vprod d y.row f = 0) :=
        fun f hf => by rw [vprod_comm]; exact du.ray y hy f hf
      exact ⟨dot_nonneg_of_gen (c := y.row) (fun l hl => (h0 l (List.mem_append_left _ hl)).2 (hL l hl))
        (fun r hr => (h0 r (List.mem_append_right _ hr)).1) hg, fun h => absurd h (hI y hy)⟩

/-- the minimal constraints with the generators: the saturation rows are recomputed -/
theorem DDL.change (dd : DDL K d C L R) (hL : ∀ q ∈ L, q.at' 0 = 0) (hR : ∀ x ∈ R, x.row.at' 0 ≠ 0) (hE : ∀ q ∈ E, q.at' 0 = 0)
    (hI : ∀ x ∈ I, x.row.at' 0 ≠ 0) (du : DDL K d (L ++ R.map SRow.row) E I) {R' : List SRow}
    (hrows : R'.map SRow.row = R.map SRow.row) (hsat : ∀ x ∈ R', SatOk d (E ++ I.map SRow.row) x) :
    DDL K d (E ++ I.map SRow.row) L R' := by
  have hmem : ∀ x ∈ R', ∃ y ∈ R, y.row = x.row := by
    intro x hx
    have : x.row ∈ R.map SRow.row := by rw [← hrows]; exact List.mem_map_of_mem hx
    obtain ⟨y, hy, e⟩ := List.mem_map.1 this
    exact ⟨y, hy, e⟩
  have hEr : ∀ f ∈ L ++ R.map SRow.row, ∀ e ∈ E, vprod d e f = 0 := fun f hf e he => by
    rw [vprod_comm]; exact du.line e he f hf
  have hIr : ∀ f ∈ L ++ R.map SRow.row, ∀ e ∈ I.map SRow.row, 0 ≤ vprod d e f ∧ (f.at' 0 = 0 → vprod d e f = 0) := by
    intro f hf e he
    obtain ⟨y, hy, rfl⟩ := List.mem_map.1 he
    rw [vprod_comm]; exact du.ray y hy f hf
  have hRF : ∀ y ∈ R, y.row ∈ L ++ R.map SRow.row := fun y hy => List.mem_append_right _ (List.mem_map_of_mem hy)
  refine ⟨?_, ?_, ?_, ?_, ?_, hsat⟩
  · intro l hl q hq
    have hlF : l ∈ L ++ R.map SRow.row := List.mem_append_left _ hl
    rcases List.mem_append.1 hq with hq | hq
    · exact hEr l hlF q hq
    · exact (hIr l hlF q hq).2 (hL l hl)
  · intro x hx q hq
    obtain ⟨y, hy, e⟩ := hmem x hx
    rw [← e]
    rcases List.mem_append.1 hq with hq | hq
    · rw [hEr _ (hRF y hy) q hq]; simp
    · refine ⟨(hIr _ (hRF y hy) q hq).1, fun h0 => ?_⟩
      obtain ⟨z, hz, rfl⟩ := List.mem_map.1 hq
      exact absurd h0 (hI z hz)
  · intro x hx
    rw [hrows]
    exact dd.gen x ((dd.sat_dual hL hR hE hI du x).1 hx)
  · intro x hx
    obtain ⟨y, hy, e⟩ := hmem x hx
    obtain ⟨q, hq, hne⟩ := dd.proper y hy
    rw [← e]
    by_contra hc
    push Not at hc
    have hg := du.gen _ (dd.row_dual hR hq)
    have : linV (toV K d q) (toV K d y.row) = 0 := by
      have hpos := (gen_transfer (s := y.row) (hEr _ (hRF y hy)) (hEr _ (hRF y hy)) (fun e he => (hIr _ (hRF y hy) e he).1) hg).1
      have hneg := (gen_transfer (r := y.row.neg) (s := y.row.neg) (fun e he => by rw [vprod_neg, hEr _ (hRF y hy) e he, neg_zero])
        (fun e he => by rw [vprod_neg, hEr _ (hRF y hy) e he, neg_zero])
        (fun e he => by rw [vprod_neg, hc e (List.mem_append_right _ he), neg_zero]) hg).1
      rw [toV_neg, map_neg] at hneg
      exact le_antisymm (by linarith) hpos
    rw [← dot_eq_linV, dot_toV] at this
    exact hne (by exact_mod_cast this)
  · rw [hrows]
    rw [List.pairwise_map]
    have h1 := List.pairwise_map.1 dd.anti
    have key : ∀ x ∈ R, ∀ y ∈ R, Anti d C x.row y.row → Anti d (E ++ I.map SRow.row) x.row y.row := by
      rintro x hx y hy ⟨q, hq, e1, e2⟩
      have hg := du.gen _ (dd.row_dual hR hq)
      obtain ⟨q', hq', e1', e2'⟩ := (gen_transfer (hEr _ (hRF x hx)) (hEr _ (hRF y hy)) (fun e he => (hIr _ (hRF x hx) e he).1) hg).2
        (by rw [← dot_eq_linV, dot_toV, e1, Int.cast_zero]) (by rw [← dot_eq_linV, dot_toV]; exact_mod_cast e2)
      exact ⟨q', List.mem_append_right _ hq', e1', e2'⟩
    exact h1.imp_of_mem fun {x y} hx hy h => ⟨key x hx y hy h.1, key y hy x hx h.2⟩

end

/-- the transposed saturation rows are exact -/
theorem satOk_transpose {C L : List Row} {R : List SRow} (dd : DDL K d C L R) {i : ℕ} (hi : i < C.length) :
    SatOk d (L ++ R.map SRow.row) ⟨C[i], transposeSat L.length R i⟩ := by
  intro b
  rw [transposeSat, testBit_maskOf]
  have hlen : (L ++ R.map SRow.row).length = L.length + R.length := by simp
  rw [hlen]
  by_cases hb : b < L.length + R.length
  · rw [decide_eq_true hb, Bool.true_and]
    by_cases hbl : b < L.length
    · rw [decide_eq_false (by omega), Bool.false_and]
      symm
      refine decide_eq_false ?_
      rintro ⟨_, hne⟩
      apply hne
      rw [List.getD_eq_getElem?_getD, List.getElem?_append_left hbl, List.getElem?_eq_getElem hbl, Option.getD_some, vprod_comm]
      exact dd.line _ (List.getElem_mem hbl) _ (List.getElem_mem hi)
    · have hbr : b - L.length < R.length := by omega
      rw [decide_eq_true (show L.length ≤ b by omega), Bool.true_and, getD_row hbr,
        dd.sat _ (List.getElem_mem hbr) i, decide_eq_decide]
      rw [List.getD_eq_getElem?_getD, List.getElem?_eq_getElem hi, Option.getD_some, List.getD_eq_getElem?_getD,
        List.getElem?_append_right (by omega), List.getElem?_map, List.getElem?_eq_getElem hbr, Option.map_some, Option.getD_some]
      rw [vprod_comm]
      constructor
      · rintro ⟨_, h⟩; exact ⟨hb, h⟩
      · rintro ⟨_, h⟩; exact ⟨hi, h⟩
  · rw [decide_eq_false hb, Bool.false_and]
    symm
    exact decide_eq_false fun h => hb h.1

/-- the saturation rows of the generators for the simplified constraints (`poly_obtain_satC`) -/
def resat (nbeq : ℕ) (I : List SRow) (R : List Row) (nbline : ℕ) : List SRow :=
  R.mapIdx fun i q => ⟨q, transposeSat nbeq I (nbline + i)⟩

theorem resat_rows (nbeq : ℕ) (I : List SRow) (R : List Row) (nbline : ℕ) : (resat nbeq I R nbline).map SRow.row = R := by
  apply List.ext_getElem
  · simp [resat]
  · intro i h1 h2; simp [resat]

theorem resat_ok {L E R : List Row} {I : List SRow} (du : DDL K d (L ++ R) E I) :
    ∀ x ∈ resat E.length I R L.length, SatOk d (E ++ I.map SRow.row) x := by
  intro x hx
  rw [resat, List.mem_mapIdx] at hx
  obtain ⟨i, hi, rfl⟩ := hx
  have := satOk_transpose du (i := L.length + i) (by simp; omega)
  rw [List.getElem_append_right (by omega)] at this
  simpa using this

/-- the equalities, inequalities, lines and rays of a minimal representation -/
def MinRep.Ok (K : Type*) [LinearOrder K] [Field K] [IsStrictOrderedRing K] (d : ℕ) (m : MinRep) : Prop :=
  m.nbeq ≤ m.C.length ∧ m.nbline ≤ m.F.length ∧ ((∀ x ∈ m.C.take m.nbeq, x.sat = 0) ∧ (∀ x ∈ m.C.drop m.nbeq, x.row.at' 0 = 1) ∧ ∀ q ∈ m.F.drop m.nbline, q.at' 0 = 1) ∧
  (∃ piv, piv.length = m.nbeq ∧ BackOk d (m.C.map SRow.row) piv 0) ∧
  MinOk K d ((m.C.take m.nbeq).map SRow.row) (m.C.drop m.nbeq) (m.F.take m.nbline)
    (resat m.nbeq (m.C.drop m.nbeq) (m.F.drop m.nbline) m.nbline)

theorem finishMin_ok {dec : ℕ} {b : Bool} {s : Conv} (dd : DDL K d s.done s.lines s.rays) (hl : ∀ l ∈ s.lines, l.at' 0 = 0)
    (hr : ∀ x ∈ s.rays, x.row.at' 0 = 1) {m : MinRep} (hm : finishMin (d + 1) dec b s = some m) :
    m.Ok K d ∧ (∀ x : Fin d → K, Sat (m.C.map SRow.row) x ↔ Sat s.done x) ∧ m.F = s.lines ++ s.rays.map SRow.row ∧
    m.nbline = s.lines.length := by
  rw [finishMin] at hm
  split_ifs at hm with hc
  rw [Option.some.injEq] at hm
  have hcon : (s.done.mapIdx fun i q => (⟨q, transposeSat s.lines.length s.rays i⟩ : SRow)).map SRow.row = s.done := by
    apply List.ext_getElem
    · simp
    · intro i h1 h2; simp
  have hso := simplify_ok dd hl (fun x hx => by rw [hr x hx]; exact one_ne_zero) hcon (by
    intro x hx
    rw [List.mem_mapIdx] at hx
    obtain ⟨i, hi, rfl⟩ := hx
    exact satOk_transpose dd hi)
  generalize simplify (d + 1) (s.lines.length + s.rays.length)
    (s.done.mapIdx fun i q => (⟨q, transposeSat s.lines.length s.rays i⟩ : SRow)) = r at *
  subst hm
  have hFt : (s.lines ++ s.rays.map SRow.row).take s.lines.length = s.lines := List.take_left
  have hFd : (s.lines ++ s.rays.map SRow.row).drop s.lines.length = s.rays.map SRow.row := List.drop_left
  have hE : ∀ q ∈ (r.1.take r.2).map SRow.row, q.at' 0 = 0 := by
    intro q hq
    obtain ⟨x, hx, rfl⟩ := List.mem_map.1 hq
    exact hso.eqs x hx
  have hI : ∀ x ∈ r.1.drop r.2, x.row.at' 0 ≠ 0 := fun x hx => by rw [hso.ineqs x hx]; exact one_ne_zero
  have hR : ∀ x ∈ s.rays, x.row.at' 0 ≠ 0 := fun x hx => by rw [hr x hx]; exact one_ne_zero
  have hsplit : (r.1.take r.2).map SRow.row ++ (r.1.drop r.2).map SRow.row = r.1.map SRow.row := by
    rw [← List.map_append, List.take_append_drop]
  refine ⟨⟨hso.le, by simp, ⟨hso.eqSat, hso.ineqs, ?_⟩, hso.echelon, ?_⟩, ?_, rfl, rfl⟩
  · intro q hq
    dsimp only at hq
    rw [hFd] at hq
    obtain ⟨y, hy, rfl⟩ := List.mem_map.1 hq
    exact hr y hy
  · dsimp only
    rw [hFt, hFd]
    have hlen : ((r.1.take r.2).map SRow.row).length = r.2 := by rw [List.length_map, List.length_take]; exact min_eq_left hso.le
    have hrs := resat_ok hso.dd
    rw [hlen] at hrs
    have hrr := resat_rows r.2 (r.1.drop r.2) (s.rays.map SRow.row) s.lines.length
    refine ⟨hE, fun x hx => by rw [hso.ineqs x hx]; exact one_pos, hl, ?_, dd.change hl hR hE hI hso.dd hrr hrs, ?_⟩
    · intro x hx
      have : x.row ∈ s.rays.map SRow.row := by rw [← hrr]; exact List.mem_map_of_mem hx
      obtain ⟨y, hy, e⟩ := List.mem_map.1 this
      rw [← e, hr y hy]; exact one_pos
    · rw [hrr]; exact hso.dd
  · intro x
    dsimp only
    rw [← hsplit]
    exact dd.sat_dual hl hR hE hI hso.dd x

/-- the emptiness test: no generator has a positive coefficient in column `dec - 1` -/
theorem finishMin_none {dec : ℕ} (hdec : 2 ≤ dec) (hd : dec ≤ d + 1) {s : Conv} (dd : DDL K d s.done s.lines s.rays)
    (hpos : ∀ x : Fin d → K, Sat s.done x → 0 ≤ x ⟨dec - 2, by omega⟩) :
    finishMin (d + 1) dec true s = none ↔ ∀ x : Fin d → K, Sat s.done x → x ⟨dec - 2, by omega⟩ = 0 := by
  have hsatray : ∀ y ∈ s.rays, Sat s.done (toV K d y.row) := by
    intro y hy q hq
    have := dd.ray y hy q hq
    rw [dot_toV]
    exact ⟨by exact_mod_cast this.1, fun h0 => by exact_mod_cast this.2 h0⟩
  have hcoord : ∀ q : Row, toV K d q ⟨dec - 2, by omega⟩ = ((q.at' (dec - 1) : ℤ) : K) := by
    intro q
    rw [toV]
    have : dec - 2 + 1 = dec - 1 := by omega
    simp only [this]
  rw [finishMin]
  simp only [true_and, ite_eq_left_iff, reduceCtorEq, imp_false, not_not, List.all_eq_true, decide_eq_true_eq]
  constructor
  · intro h x hx
    have hline : ∀ l ∈ s.lines, ((l.at' (dec - 1) : ℤ) : K) = 0 := by
      intro l hl
      have h1 : Sat s.done (toV K d l) := fun q hq => by rw [dot_toV, dd.line l hl q hq]; simp
      have h2 : Sat s.done (-toV K d l) := fun q hq => by
        rw [← lin_apply, map_neg, lin_apply, dot_toV, dd.line l hl q hq]; simp
      have e1 := hpos _ h1
      have e2 := hpos _ h2
      rw [Pi.neg_apply] at e2
      rw [hcoord] at e1 e2
      exact le_antisymm (by linarith) e1
    refine le_antisymm ?_ (hpos x hx)
    refine Gen.le (G := fun x : Fin d → K => x ⟨dec - 2, by omega⟩ ≤ 0)
      ⟨by simp, fun h1 h2 => by rw [Pi.add_apply]; linarith, fun ht h => by
        rw [Pi.smul_apply, smul_eq_mul]; exact mul_nonpos_of_nonneg_of_nonpos ht h⟩ (fun l hl => ?_) (fun r hr => ?_) (dd.gen x hx)
    · rw [Pi.neg_apply, hcoord, hline l hl]; simp
    · rw [hcoord]
      obtain ⟨y, hy, rfl⟩ := List.mem_map.1 hr
      exact_mod_cast h y hy
  · intro h y hy
    have := h _ (hsatray y hy)
    rw [hcoord] at this
    have : y.row.at' (dec - 1) = 0 := by exact_mod_cast this
    omega

/-- `cherni_minimize` -/
theorem minimize_ok {dec : ℕ} {b : Bool} {C : List Row} {m : MinRep} (h : minimize (d + 1) dec b C = some m) :
    m.Ok K d ∧ ∀ x : Fin d → K, Sat (m.C.map SRow.row) x ↔ Sat C x := by
  obtain ⟨h1, h2, h3, h4, h5, h6, h7⟩ := conversion_ok (initConv (d + 1) C) (initConv_ok (K := K) C)
  obtain ⟨a1, a2, _, _⟩ := finishMin_ok h1 h6 h7 h
  refine ⟨a1, fun x => (a2 x).trans ((h3 x).trans ?_)⟩
  exact Iff.rfl

theorem minimize_none {dec : ℕ} (hdec : 2 ≤ dec) (hd : dec ≤ d + 1) {C : List Row}
    (hpos : ∀ x : Fin d → K, Sat C x → 0 ≤ x ⟨dec - 2, by omega⟩) :
    minimize (d + 1) dec true C = none ↔ ∀ x : Fin d → K, Sat C x → x ⟨dec - 2, by omega⟩ = 0 := by
  obtain ⟨h1, h2, h3, h4, h5, h6, h7⟩ := conversion_ok (initConv (d + 1) C) (initConv_ok (K := K) C)
  have h3' : ∀ x : Fin d → K, Sat (conversion (d + 1) (initConv (d + 1) C)).done x ↔ Sat C x := fun x => h3 x
  rw [minimize, finishMin_none hdec hd h1 (fun x hx => hpos x ((h3' x).1 hx))]
  exact forall_congr' fun x => by rw [h3']

/-- `cherni_add_and_minimize` -/
theorem addAndMinimize_ok {dec : ℕ} {b : Bool} {E newC L : List Row} {I R : List SRow} (hmin : MinOk K d E I L R) {m : MinRep}
    (h : addAndMinimize (d + 1) dec b (E ++ I.map SRow.row) newC L R = some m) :
    m.Ok K d ∧ ∀ x : Fin d → K, Sat (m.C.map SRow.row) x ↔ Sat (E ++ I.map SRow.row) x ∧ Sat newC x := by
  obtain ⟨h1, h2, h3, h4, h5, h6, h7⟩ := conversion_ok ⟨E ++ I.map SRow.row, newC, L, R⟩ hmin.prim
  obtain ⟨a1, a2, _, _⟩ := finishMin_ok h1 h6 h7 h
  exact ⟨a1, fun x => (a2 x).trans ((h3 x).trans Sat.append)⟩

theorem addAndMinimize_none {dec : ℕ} (hdec : 2 ≤ dec) (hd : dec ≤ d + 1) {E newC L : List Row} {I R : List SRow}
    (hmin : MinOk K d E I L R) (hpos : ∀ x : Fin d → K, Sat (E ++ I.map SRow.row) x → 0 ≤ x ⟨dec - 2, by omega⟩) :
    addAndMinimize (d + 1) dec true (E ++ I.map SRow.row) newC L R = none ↔
      ∀ x : Fin d → K, Sat (E ++ I.map SRow.row) x → Sat newC x → x ⟨dec - 2, by omega⟩ = 0 := by
  obtain ⟨h1, h2, h3, h4, h5, h6, h7⟩ := conversion_ok ⟨E ++ I.map SRow.row, newC, L, R⟩ hmin.prim
  have h3' : ∀ x : Fin d → K, Sat (conversion (d + 1) ⟨E ++ I.map SRow.row, newC, L, R⟩).done x ↔
      Sat (E ++ I.map SRow.row) x ∧ Sat newC x := fun x => (h3 x).trans Sat.append
  rw [addAndMinimize, finishMin_none hdec hd h1 (fun x hx => hpos x ((h3' x).1 hx).1)]
  constructor
  · intro h x hx hx'; exact h x ((h3' x).2 ⟨hx, hx'⟩)
  · intro h x hx; exact h x ((h3' x).1 hx).1 ((h3' x).1 hx).2

end Apron.Poly
