import Verif.Poly.PkCanon
import Verif.Poly.PkSem

/-!
# Normal form of polyhedra: the meaning and the minimality are kept
-/

set_option autoImplicit false
set_option linter.unusedSectionVars false

namespace Apron.Poly

variable {K : Type*} [LinearOrder K] [Field K] [IsStrictOrderedRing K] {n d : ℕ}

/-! ## Gauss elimination of minimal matrices -/

theorem DDL.satAnti {con lines : List Row} {rays : List SRow} (h : DDL K d con lines rays) :
    (rays.map SRow.sat).Pairwise SatAnti := by
  have ha := h.anti
  rw [List.pairwise_map] at ha ⊢
  have key : ∀ x ∈ rays, ∀ y ∈ rays, Anti d con x.row y.row → ¬ y.sat ||| x.sat = x.sat := by
    rintro x hx y hy ⟨q, hq, h0, h1⟩ he
    obtain ⟨b, hb, rfl⟩ := List.getElem_of_mem hq
    have e1 := h.sat x hx b
    have e2 := h.sat y hy b
    rw [List.getD_eq_getElem?_getD, List.getElem?_eq_getElem hb, Option.getD_some] at e1 e2
    rw [decide_eq_false (by simp [h0])] at e1
    rw [decide_eq_true ⟨hb, h1⟩] at e2
    have := congrArg (fun m => m.testBit b) he
    simp only [Nat.testBit_or, e1, e2] at this
    cases this
  exact ha.imp_of_mem fun {x y} hx hy hxy => ⟨key y hy x hx hxy.2, key x hx y hy hxy.1⟩

theorem StepRel.rowSpan {con con' : List Row} {k : ℕ} (hs : StepRel d k con con') (hk : k < con.length) :
    rowSpan K d con' = rowSpan K d con := by
  have hg : ∀ l : List Row, ∀ i, i < l.length → l.getD i [] ∈ l := fun l i hi => getD_mem hi
  have hk' : k < con'.length := by rw [hs.len]; exact hk
  apply le_antisymm
  · refine rowSpan_le fun q hq => ?_
    obtain ⟨i, hi, rfl⟩ := List.getElem_of_mem hq
    have hi' : i < con.length := by rw [← hs.len]; exact hi
    have := (hs.rel i hi').mem_span (K := K) (S := Apron.Poly.rowSpan K d con) (mem_rowSpan (hg con k hk))
    rw [List.getD_eq_getElem?_getD (l := con'), List.getElem?_eq_getElem hi, Option.getD_some] at this
    exact this.2 (mem_rowSpan (hg con i hi'))
  · refine rowSpan_le fun q hq => ?_
    obtain ⟨i, hi, rfl⟩ := List.getElem_of_mem hq
    have := (hs.rel i hi).mem_span (K := K) (S := Apron.Poly.rowSpan K d con') (by rw [← hs.keep]; exact mem_rowSpan (hg con' k hk'))
    rw [List.getD_eq_getElem?_getD (l := con), List.getElem?_eq_getElem hi, Option.getD_some] at this
    exact this.1 (mem_rowSpan (hg con' i (by rw [hs.len]; exact hi)))

theorem Echelon.indep {D : List Row} {piv : List ℕ} (h : Echelon d D piv) : Indep K d D := by
  obtain ⟨h1, h2, h3⟩ := backsubstitute_ind (d := d) (piv := piv)
    (fun con' => con'.length = D.length ∧ Apron.Poly.rowSpan K d con' = Apron.Poly.rowSpan K d D)
    (by
      rintro c1 c2 k hk hle hstep ⟨a1, a2⟩
      exact ⟨hstep.len.trans a1, (hstep.rowSpan (by omega)).trans a2⟩)
    piv.length D le_rfl
    ⟨by rw [h.len], by rw [← h.len, List.take_length]; exact h, fun k' h1 h2 => by omega⟩ ⟨rfl, rfl⟩
  have := h1.indepE (K := K)
  rw [List.take_of_length_le (by rw [h2, h.len]), Indep, h3, h2] at this
  exact this

/-- what the elimination does to a matrix whose first `nb` rows are independent -/
theorem gaussRows_ok {con : List Row} {C : List SRow} {nb : ℕ} (hnb : nb ≤ C.length)
    (dd : DDL K d con ((C.take nb).map SRow.row) (C.drop nb)) (hi : Indep K d ((C.take nb).map SRow.row)) :
    (gaussRows (d + 1) nb C).length = C.length ∧
    (gaussRows (d + 1) nb C).map SRow.sat = C.map SRow.sat ∧
    (∀ x ∈ (gaussRows (d + 1) nb C).take nb, x.row.at' 0 = 0) ∧
    (∀ i, nb ≤ i → i < C.length →
      (((gaussRows (d + 1) nb C).map SRow.row).getD i []).at' 0 = ((C.map SRow.row).getD i []).at' 0) ∧
    DDL K d con (((gaussRows (d + 1) nb C).take nb).map SRow.row) ((gaussRows (d + 1) nb C).drop nb) ∧
    ∃ piv, piv.length = nb ∧ BackOk d ((gaussRows (d + 1) nb C).map SRow.row) piv 0 := by
  rw [gaussRows, Nat.add_sub_cancel]
  obtain ⟨ge, gn, gst, gsp, gl⟩ := gauss_main (K := K) (d := d) ((C.take nb).map SRow.row)
  have hql : ((C.take nb).map SRow.row).length = nb := by rw [List.length_map, List.length_take]; exact min_eq_left hnb
  have hD : (gauss (d + 1) d [] ((C.take nb).map SRow.row) []).1.length = nb := by
    have h1 := ge.indep (K := K)
    rw [Indep, gsp] at h1
    rw [← h1, hi, hql]
  rw [hD, hql] at gl
  have hR : (gauss (d + 1) d [] ((C.take nb).map SRow.row) []).2.1 = [] := List.length_eq_zero_iff.1 (by omega)
  have hp1 := dd.toPDL.lines gsp
  generalize gauss (d + 1) d [] ((C.take nb).map SRow.row) [] = g at *
  obtain ⟨D, R, piv⟩ := g
  dsimp only at *
  subst hR
  rw [List.append_nil]
  have hpl : piv.length = nb := by rw [← ge.len, hD]
  obtain ⟨b1, b2, b3, b4⟩ := backsubstitute_ind (d := d) (piv := piv)
    (fun con' => con'.length = (D ++ (C.drop nb).map SRow.row).length ∧
      (∀ i < (D ++ (C.drop nb).map SRow.row).length, (con'.getD i []).at' 0 = ((D ++ (C.drop nb).map SRow.row).getD i []).at' 0) ∧
      PDL K d con (con'.take D.length) (List.zipWith SRow.mk (con'.drop D.length) ((C.drop nb).map SRow.sat)))
    (by
      rintro c1 c2 k hk hle hstep ⟨a1, a2, a3⟩
      refine ⟨hstep.len.trans a1, fun i hi => ?_, ?_⟩
      · rw [(hstep.rel i (by rw [a1]; exact hi)).1]; exact a2 i hi
      · refine hstep.pdl (by rw [ge.len]; exact hk) (by rw [ge.len]; exact hle) ?_ a3
        rw [List.length_drop, a1]; simp)
    piv.length (D ++ (C.drop nb).map SRow.row) le_rfl
    ⟨by rw [List.length_append, ge.len]; omega, by rw [← ge.len, List.take_left]; exact ge, fun k' h1 h2 => by omega⟩
    ⟨rfl, fun _ _ => rfl, by rw [List.take_left, List.drop_left, zipWith_mk]; exact hp1⟩
  have hlen : (D ++ (C.drop nb).map SRow.row).length = C.length := by
    rw [List.length_append, List.length_map, List.length_drop, hD]; omega
  rw [hlen] at b2 b3
  rw [hD] at b4 ⊢
  rw [hpl] at b1 b2 b3 b4
  generalize backsubstitute (d + 1) piv nb (D ++ (C.drop nb).map SRow.row) = rows at *
  have hrl : rows.length = (C.map SRow.sat).length := by rw [b2]; simp
  have hmaprow := map_row_zipWith hrl
  have htake : (List.zipWith SRow.mk rows (C.map SRow.sat)).take nb =
      List.zipWith SRow.mk (rows.take nb) ((C.map SRow.sat).take nb) := List.take_zipWith
  have hdrop : (List.zipWith SRow.mk rows (C.map SRow.sat)).drop nb =
      List.zipWith SRow.mk (rows.drop nb) ((C.drop nb).map SRow.sat) := by
    rw [List.drop_zipWith, List.map_drop]
  refine ⟨?_, map_sat_zipWith hrl, ?_, ?_, ?_, piv, hpl, ?_⟩
  · rw [List.length_zipWith, ← hrl, min_self, b2]
  · intro x hx
    have hx' : x.row ∈ rows.take nb := by
      rw [← hmaprow, ← List.map_take]; exact List.mem_map_of_mem hx
    obtain ⟨i, hi', he⟩ := List.getElem_of_mem hx'
    have hi'' : i < nb ∧ i < rows.length := by rw [List.length_take] at hi'; omega
    rw [List.getElem_take] at he
    have := b3 i (by omega)
    rw [List.getD_eq_getElem?_getD, List.getElem?_eq_getElem hi''.2, Option.getD_some, he, List.getD_eq_getElem?_getD,
      List.getElem?_append_left (by rw [hD]; exact hi''.1), List.getElem?_eq_getElem (by rw [hD]; exact hi''.1),
      Option.getD_some] at this
    rw [this]; exact gst _ (List.getElem_mem _)
  · intro i h1 h2
    rw [hmaprow, b3 i h2, List.getD_eq_getElem?_getD, List.getElem?_append_right (by omega), hD, List.map_drop, List.getElem?_drop,
      ← List.getD_eq_getElem?_getD]
    congr 2; omega
  · rw [hdrop, htake, map_row_zipWith (by rw [List.length_take, List.length_take, hrl])]
    refine b4.toDDL ?_
    rw [map_sat_zipWith (by rw [List.length_drop, b2]; simp)]
    exact dd.satAnti
  · rw [hmaprow]; exact b1

/-! ## A new constraint matrix for the same generators -/

/-- the same generators, with other minimal constraints -/
theorem MinOk.replace {E E' L : List Row} {I I' R R' : List SRow} (h : MinOk K d E I L R) (hE : ∀ q ∈ E', q.at' 0 = 0)
    (hI : ∀ x ∈ I', 0 < x.row.at' 0) (du : DDL K d (L ++ R.map SRow.row) E' I') (hrows : R'.map SRow.row = R.map SRow.row)
    (hsat : ∀ x ∈ R', SatOk d (E' ++ I'.map SRow.row) x) : MinOk K d E' I' L R' := by
  have hR : ∀ x ∈ R', 0 < x.row.at' 0 := by
    intro x hx
    have : x.row ∈ R.map SRow.row := by rw [← hrows]; exact List.mem_map_of_mem hx
    obtain ⟨y, hy, e⟩ := List.mem_map.1 this
    rw [← e]; exact h.rays y hy
  exact ⟨hE, hI, h.lines, hR, h.prim.change h.lines (fun x hx => (h.rays x hx).ne') hE (fun x hx => (hI x hx).ne') du hrows hsat,
    by rw [hrows]; exact du⟩

theorem MinOk.sat_replace {E E' L : List Row} {I I' R : List SRow} (h : MinOk K d E I L R) (hE : ∀ q ∈ E', q.at' 0 = 0)
    (hI : ∀ x ∈ I', 0 < x.row.at' 0) (du : DDL K d (L ++ R.map SRow.row) E' I') (y : Fin d → K) :
    Sat (E' ++ I'.map SRow.row) y ↔ Sat (E ++ I.map SRow.row) y :=
  h.prim.sat_dual h.lines (fun x hx => (h.rays x hx).ne') hE (fun x hx => (hI x hx).ne') du y

/-- the saturation rows of the equalities are not relevant -/
theorem satOk_of_sats {E E' L : List Row} {I I' R : List SRow} (h : MinOk K d E I L R)
    (du : DDL K d (L ++ R.map SRow.row) E' I') (hlen : E'.length = E.length) (hs : I'.map SRow.sat = I.map SRow.sat)
    {x : SRow} (hx : x ∈ R) : SatOk d (E' ++ I'.map SRow.row) x := by
  intro b
  have hlI : I'.length = I.length := by simpa using congrArg List.length hs
  obtain ⟨j, hj, rfl⟩ := List.getElem_of_mem hx
  have hmem : R[j].row ∈ L ++ R.map SRow.row := List.mem_append_right _ (List.mem_map_of_mem hx)
  have hjL : L.length + j < (L ++ R.map SRow.row).length := by simp; omega
  have hget : (L ++ R.map SRow.row).getD (L.length + j) [] = R[j].row := by
    rw [List.getD_eq_getElem?_getD, List.getElem?_append_right (by omega), Nat.add_sub_cancel_left, List.getElem?_map,
      List.getElem?_eq_getElem hj]; rfl
  rw [h.prim.sat _ hx b, decide_eq_decide]
  have e1 : (E' ++ I'.map SRow.row).length = (E ++ I.map SRow.row).length := by simp [hlen, hlI]
  rw [e1]
  refine and_congr_right fun hb => ?_
  by_cases hbE : b < E.length
  · have z1 : vprod d ((E ++ I.map SRow.row).getD b []) R[j].row = 0 := by
      rw [List.getD_eq_getElem?_getD, List.getElem?_append_left hbE, List.getElem?_eq_getElem hbE, Option.getD_some, vprod_comm]
      exact h.dual.line _ (List.getElem_mem hbE) _ hmem
    have z2 : vprod d ((E' ++ I'.map SRow.row).getD b []) R[j].row = 0 := by
      rw [List.getD_eq_getElem?_getD, List.getElem?_append_left (by omega), List.getElem?_eq_getElem (by omega), Option.getD_some, vprod_comm]
      exact du.line _ (List.getElem_mem _) _ hmem
    rw [z1, z2]
  · have hbI : b - E.length < I.length := by
      rw [List.length_append, List.length_map] at hb; omega
    have hbI' : b - E.length < I'.length := by omega
    have g1 : (E ++ I.map SRow.row).getD b [] = (I[b - E.length]).row := by
      rw [List.getD_eq_getElem?_getD, List.getElem?_append_right (by omega), List.getElem?_map, List.getElem?_eq_getElem hbI]; rfl
    have g2 : (E' ++ I'.map SRow.row).getD b [] = (I'[b - E.length]).row := by
      rw [List.getD_eq_getElem?_getD, List.getElem?_append_right (by omega), List.getElem?_map, hlen, List.getElem?_eq_getElem hbI']; rfl
    have s1 := h.dual.sat _ (List.getElem_mem hbI) (L.length + j)
    have s2 := du.sat _ (List.getElem_mem hbI') (L.length + j)
    have hsat : (I'[b - E.length]).sat = (I[b - E.length]).sat := by
      have := congrArg (fun l : List ℕ => l[b - E.length]?) hs
      simpa [List.getElem?_map, List.getElem?_eq_getElem hbI, List.getElem?_eq_getElem hbI'] using this
    rw [hget] at s1 s2
    rw [hsat, s1, decide_eq_decide] at s2
    rw [g1, g2, vprod_comm, vprod_comm (I'[b - E.length]).row]
    constructor
    · exact fun h => (s2.1 ⟨hjL, h⟩).2
    · exact fun h => (s2.2 ⟨hjL, h⟩).2

/-! ## The order of the rows -/

theorem cmpList_total (l m : List ℤ) : cmpList l m ≠ .gt ∨ cmpList m l ≠ .gt := by
  induction l generalizing m with
  | nil => cases m <;> simp [cmpList]
  | cons a l ih =>
    cases m with
    | nil => simp [cmpList]
    | cons b m =>
      rw [cmpList, cmpList]
      rcases lt_trichotomy a b with h | h | h
      · simp [h]
      · subst h; simpa using ih m
      · simp [h]

theorem cmpList_trans {l m k : List ℤ} (h1 : cmpList l m ≠ .gt) (h2 : cmpList m k ≠ .gt) : cmpList l k ≠ .gt := by
  induction l generalizing m k with
  | nil => cases k <;> simp [cmpList]
  | cons a l ih =>
    cases m with
    | nil => simp [cmpList] at h1
    | cons b m =>
      cases k with
      | nil => simp [cmpList] at h2
      | cons c k =>
        rw [cmpList] at h1 h2 ⊢
        rcases lt_trichotomy a b with h | h | h
        · rcases lt_trichotomy b c with h' | h' | h'
          · rw [if_pos (h.trans h')]; simp
          · subst h'; rw [if_pos h]; simp
          · rw [if_neg (by omega), if_pos h'] at h2; exact absurd rfl h2
        · subst h
          rw [if_neg (lt_irrefl _), if_neg (lt_irrefl _)] at h1
          rcases lt_trichotomy a c with h' | h' | h'
          · rw [if_pos h']; simp
          · subst h'
            rw [if_neg (lt_irrefl _), if_neg (lt_irrefl _)] at h2 ⊢
            exact ih h1 h2
          · rw [if_neg (by omega), if_pos h'] at h2; exact absurd rfl h2
        · rw [if_neg (by omega), if_pos h] at h1; exact absurd rfl h1

theorem cmpList_antisymm {l m : List ℤ} (h1 : cmpList l m ≠ .gt) (h2 : cmpList m l ≠ .gt) : l = m := by
  induction l generalizing m with
  | nil => cases m with
    | nil => rfl
    | cons b m => simp [cmpList] at h2
  | cons a l ih =>
    cases m with
    | nil => simp [cmpList] at h1
    | cons b m =>
      rw [cmpList] at h1 h2
      rcases lt_trichotomy a b with h | h | h
      · rw [if_neg (by omega), if_pos h] at h2; exact absurd rfl h2
      · subst h
        rw [if_neg (lt_irrefl _), if_neg (lt_irrefl _)] at h1 h2
        rw [ih h1 h2]
      · rw [if_neg (by omega), if_pos h] at h1; exact absurd rfl h1

/-- the first coefficient compared is the status -/
theorem vcmp_status {size : ℕ} {p q : Row} (h : vcmp size p q ≠ .gt) : p.at' 0 ≤ q.at' 0 := by
  rw [vcmp, vkey, vkey, List.cons_append, List.cons_append, cmpList] at h
  by_contra hc
  rw [if_neg (by omega), if_pos (by omega)] at h
  exact h rfl

theorem sortSRows_perm (size : ℕ) (C : List SRow) : (sortSRows size C).Perm C := List.perm_insertionSort _ _

theorem sortSRows_sorted (size : ℕ) (C : List SRow) : (sortSRows size C).Pairwise fun a b => vcmp size a.row b.row ≠ .gt := by
  haveI : Std.Total (fun a b : SRow => vcmp size a.row b.row ≠ .gt) := ⟨fun a b => cmpList_total _ _⟩
  haveI : IsTrans SRow (fun a b : SRow => vcmp size a.row b.row ≠ .gt) := ⟨fun a b c => cmpList_trans⟩
  exact List.pairwise_insertionSort _ _

/-- sorting by status puts the equalities first -/
theorem take_drop_of_status {l : List SRow} (h : l.Pairwise fun a b => a.row.at' 0 ≤ b.row.at' 0) (h0 : ∀ x ∈ l, 0 ≤ x.row.at' 0) :
    l = l.filter (fun x => x.row.at' 0 == 0) ++ l.filter (fun x => x.row.at' 0 != 0) := by
  induction l with
  | nil => rfl
  | cons a l ih =>
    rw [List.pairwise_cons] at h
    by_cases ha : a.row.at' 0 = 0
    · rw [List.filter_cons_of_pos (by simpa using ha), List.filter_cons_of_neg (by simpa using ha), List.cons_append,
        ← ih h.2 fun x hx => h0 x (List.mem_cons_of_mem _ hx)]
    · have hp : ∀ x ∈ a :: l, x.row.at' 0 ≠ 0 := by
        intro x hx
        have h1 := h0 a List.mem_cons_self
        rcases List.mem_cons.1 hx with rfl | hx
        · exact ha
        · have := h.1 x hx; omega
      rw [List.filter_eq_nil_iff.2 (fun x hx => by simpa using hp x hx), List.filter_eq_self.2 (fun x hx => by simpa using hp x hx),
        List.nil_append]

/-- the equalities and the inequalities after sorting -/
theorem sortSRows_split {size nb : ℕ} {C : List SRow} (hnb : nb ≤ C.length) (hE : ∀ x ∈ C.take nb, x.row.at' 0 = 0)
    (hI : ∀ x ∈ C.drop nb, 0 < x.row.at' 0) :
    ((sortSRows size C).take nb).Perm (C.take nb) ∧ ((sortSRows size C).drop nb).Perm (C.drop nb) := by
  have hp := sortSRows_perm size C
  have h0 : ∀ x ∈ C, 0 ≤ x.row.at' 0 := by
    intro x hx
    rw [← List.take_append_drop nb C] at hx
    rcases List.mem_append.1 hx with hx | hx
    · rw [hE x hx]
    · exact (hI x hx).le
  have hs := take_drop_of_status ((sortSRows_sorted size C).imp fun h => vcmp_status h) (fun x hx => h0 x (hp.mem_iff.1 hx))
  have f1 : C.filter (fun x => x.row.at' 0 == 0) = C.take nb := by
    conv_lhs => rw [← List.take_append_drop nb C]
    rw [List.filter_append, List.filter_eq_self.2 (fun x hx => by simpa using hE x hx),
      List.filter_eq_nil_iff.2 (fun x hx => by simpa using (hI x hx).ne'), List.append_nil]
  have f2 : C.filter (fun x => x.row.at' 0 != 0) = C.drop nb := by
    conv_lhs => rw [← List.take_append_drop nb C]
    rw [List.filter_append, List.filter_eq_nil_iff.2 (fun x hx => by simpa using hE x hx),
      List.filter_eq_self.2 (fun x hx => by simpa using (hI x hx).ne'), List.nil_append]
  have p1 := hp.filter (fun x => x.row.at' 0 == 0)
  have p2 := hp.filter (fun x => x.row.at' 0 != 0)
  rw [f1] at p1
  rw [f2] at p2
  have hl : ((sortSRows size C).filter (fun x => x.row.at' 0 == 0)).length = nb := by
    rw [p1.length_eq, List.length_take]; exact min_eq_left hnb
  constructor
  · rw [hs, List.take_append_of_le_length (by rw [hl]), List.take_of_length_le (by rw [hl])]; exact p1
  · rw [hs, List.drop_append_of_le_length (by rw [hl]), List.drop_of_length_le (by rw [hl]), List.nil_append]; exact p2

theorem DDL.perm2 {con L L' : List Row} {R R' : List SRow} (h : DDL K d con L R) (hL : L'.Perm L) (hR : R'.Perm R) :
    DDL K d con L' R' where
  line := fun l hl => h.line l (hL.mem_iff.1 hl)
  ray := fun x hx => h.ray x (hR.mem_iff.1 hx)
  gen := fun x hx => (h.gen x hx).mono (fun q hq => hL.mem_iff.2 hq) (fun q hq => (hR.map _).mem_iff.2 hq)
  proper := fun x hx => h.proper x (hR.mem_iff.1 hx)
  anti := (List.Perm.pairwise_iff (fun {_ _} h => ⟨h.2, h.1⟩) (hR.map SRow.row)).2 h.anti
  sat := fun x hx => h.sat x (hR.mem_iff.1 hx)

/-! ## The steps of the normal form -/

theorem Full.Ok.eqs_take {f : Full} (h : f.Ok K d) : ∀ x ∈ f.C.take f.nbeq, x.row.at' 0 = 0 :=
  fun x hx => h.min.eqs _ (List.mem_map_of_mem hx)

theorem Full.Ok.of_gauss {f g : Full} (h : f.Ok K d) (hC : g.C = gaussRows (d + 1) f.nbeq f.C) (hF : g.F = f.F)
    (hE : g.nbeq = f.nbeq) (hL : g.nbline = f.nbline) :
    g.Ok K d ∧ (∀ y : Fin d → K, Sat g.crows y ↔ Sat f.crows y) ∧ ∃ piv, piv.length = g.nbeq ∧ BackOk d g.crows piv 0 := by
  obtain ⟨g1, g2, g3, g4, g5, piv, g6, g7⟩ := gaussRows_ok h.leq h.min.dual h.indE
  rw [← hC] at g1 g2 g3 g4 g5 g7
  have hlines : g.lines = f.lines := by rw [Full.lines, Full.lines, hF, hL]
  have hrays : g.rays = f.rays := by rw [Full.rays, Full.rays, hF, hL]
  have hEq : ∀ q ∈ g.eqs, q.at' 0 = 0 := by
    intro q hq
    rw [Full.eqs, hE] at hq
    obtain ⟨x, hx, rfl⟩ := List.mem_map.1 hq
    exact g3 x hx
  have hI : ∀ x ∈ g.ineqs, 0 < x.row.at' 0 := by
    intro x hx
    rw [Full.ineqs, hE] at hx
    obtain ⟨i, hi, rfl⟩ := List.getElem_of_mem hx
    have hi' : f.nbeq + i < g.C.length := by rw [List.length_drop] at hi; omega
    have hi'' : f.nbeq + i < f.C.length := by omega
    have := g4 (f.nbeq + i) (by omega) (by omega)
    rw [List.getD_eq_getElem?_getD, List.getElem?_map, List.getElem?_eq_getElem hi', List.getD_eq_getElem?_getD, List.getElem?_map,
      List.getElem?_eq_getElem hi''] at this
    rw [List.getElem_drop]
    have e : g.C[f.nbeq + i].row.at' 0 = f.C[f.nbeq + i].row.at' 0 := this
    rw [e]
    refine h.min.ineqs _ ?_
    rw [Full.ineqs, List.mem_iff_getElem]
    exact ⟨i, by rw [List.length_drop]; omega, by rw [List.getElem_drop]⟩
  have du : DDL K d (f.lines ++ f.rays.map SRow.row) g.eqs g.ineqs := by rw [Full.eqs, Full.ineqs, hE]; exact g5
  have hlen : g.eqs.length = f.eqs.length := by
    rw [Full.eqs, Full.eqs, hE, List.length_map, List.length_map, List.length_take, List.length_take, g1]
  have hs : g.ineqs.map SRow.sat = f.ineqs.map SRow.sat := by
    rw [Full.ineqs, Full.ineqs, hE, List.map_drop, List.map_drop, g2]
  have hb : BackOk d g.crows piv 0 := g7
  refine ⟨⟨by rw [hE, g1]; exact h.leq, by rw [hL, hF]; exact h.lel, ?_, ?_, by rw [hlines]; exact h.indL⟩, fun y => ?_, piv, by rw [g6, hE], hb⟩
  · rw [hlines, hrays]
    exact h.min.replace hEq hI du rfl fun x hx => satOk_of_sats h.min du hlen hs hx
  · have := hb.indepE (K := K)
    rwa [g6, ← hE, Full.crows, ← List.map_take] at this
  · rw [crows_eq, crows_eq]; exact h.min.sat_replace hEq hI du y

theorem Full.Ok.of_sort {f g : Full} (h : f.Ok K d) (hC : g.C = sortSRows (d + 1) f.C)
    (hF : g.F = ((f.F.take f.nbline).map fun x => (⟨x.row, 0⟩ : SRow)) ++
        resat f.nbeq (g.C.drop f.nbeq) ((f.F.drop f.nbline).map SRow.row) f.nbline)
    (hE : g.nbeq = f.nbeq) (hL : g.nbline = f.nbline) :
    g.Ok K d ∧ (∀ y : Fin d → K, Sat g.crows y ↔ Sat f.crows y) ∧ g.frows = f.frows ∧ g.eqs.Perm f.eqs ∧ g.ineqs.Perm f.ineqs := by
  obtain ⟨p1, p2⟩ := sortSRows_split (size := d + 1) h.leq h.eqs_take h.min.ineqs
  rw [← hC] at p1 p2
  have hp : g.C.Perm f.C := by rw [hC]; exact sortSRows_perm _ _
  have hl : ((f.F.take f.nbline).map fun x => (⟨x.row, 0⟩ : SRow)).length = f.nbline := by
    rw [List.length_map, List.length_take]; exact min_eq_left h.lel
  have e1 : g.lines = f.lines := by
    rw [Full.lines, Full.lines, hF, hL, List.take_append_of_le_length (by rw [hl]), List.take_of_length_le (by rw [hl]), List.map_map]
    rfl
  have e2 : g.rays = resat f.nbeq (g.C.drop f.nbeq) (f.rays.map SRow.row) f.nbline := by
    rw [Full.rays, hF, hL, List.drop_append_of_le_length (by rw [hl]), List.drop_of_length_le (by rw [hl]), List.nil_append]; rfl
  have pe : g.eqs.Perm f.eqs := by rw [Full.eqs, hE]; exact p1.map _
  have pi : g.ineqs.Perm f.ineqs := by rw [Full.ineqs, hE]; exact p2
  have du : DDL K d (f.lines ++ f.rays.map SRow.row) g.eqs g.ineqs := h.min.dual.perm2 pe pi
  have hel : g.eqs.length = f.nbeq := by
    rw [pe.length_eq, Full.eqs, List.length_map, List.length_take]; exact min_eq_left h.leq
  have hll : f.lines.length = f.nbline := by rw [Full.lines, List.length_map, List.length_take]; exact min_eq_left h.lel
  have hrows : g.rays.map SRow.row = f.rays.map SRow.row := by rw [e2, resat_rows]
  have hsat : ∀ x ∈ g.rays, SatOk d (g.eqs ++ g.ineqs.map SRow.row) x := by
    have := resat_ok du
    rw [hel, hll] at this
    rw [e2]
    rw [show g.C.drop f.nbeq = g.ineqs by rw [Full.ineqs, hE]]
    exact this
  refine ⟨⟨by rw [hE, hp.length_eq]; exact h.leq, ?_, ?_, h.indE.perm pe.symm, by rw [e1]; exact h.indL⟩, fun y => ?_, ?_, pe, pi⟩
  · rw [hL, hF, List.length_append, hl]; omega
  · rw [e1]
    exact h.min.replace (fun q hq => h.min.eqs q (pe.mem_iff.1 hq)) (fun x hx => h.min.ineqs x (pi.mem_iff.1 hx)) du hrows hsat
  · exact Sat.perm (hp.map SRow.row)
  · rw [frows_eq, frows_eq, e1, hrows]

/-- the matrices of the normal form -/
theorem Full.Ok.gaussC {f : Full} (h : f.Ok K (n + 1)) :
    (f.gaussC n).Ok K (n + 1) ∧ ∀ y : Fin (n + 1) → K, Sat (f.gaussC n).crows y ↔ Sat f.crows y := by
  rw [Full.gaussC]
  split_ifs
  · exact ⟨h, fun _ => Iff.rfl⟩
  · obtain ⟨h1, h2, _⟩ := h.of_gauss (g := { f with C := gaussRows (n + 2) f.nbeq f.C, sortedC := false }) rfl rfl rfl rfl
    exact ⟨h1, h2⟩

theorem Full.Ok.gaussF {f : Full} (h : f.Ok K (n + 1)) :
    (f.gaussF n).Ok K (n + 1) ∧ ∀ y : Fin (n + 1) → K, Sat (f.gaussF n).crows y ↔ Sat f.crows y := by
  rw [Full.gaussF]
  split_ifs
  · exact ⟨h, fun _ => Iff.rfl⟩
  · obtain ⟨h1, h2, _⟩ := h.dual.of_gauss (g := ({ f with F := gaussRows (n + 2) f.nbline f.F, sortedF := false } : Full).dual) rfl rfl rfl rfl
    exact ⟨h1.dual, fun y => Iff.rfl⟩

theorem Full.Ok.sortC {f : Full} (h : f.Ok K (n + 1)) :
    (f.sortC n).Ok K (n + 1) ∧ (∀ y : Fin (n + 1) → K, Sat (f.sortC n).crows y ↔ Sat f.crows y) ∧ (f.sortC n).frows = f.frows ∧
      (f.sortC n).eqs.Perm f.eqs ∧ (f.sortC n).ineqs.Perm f.ineqs := by
  rw [Full.sortC]
  split_ifs
  · exact ⟨h, fun _ => Iff.rfl, rfl, .refl _, .refl _⟩
  · exact h.of_sort rfl rfl rfl rfl

theorem Full.Ok.sortF {f : Full} (h : f.Ok K (n + 1)) :
    (f.sortF n).Ok K (n + 1) ∧ (∀ y : Fin (n + 1) → K, Sat (f.sortF n).crows y ↔ Sat f.crows y) ∧ (f.sortF n).crows = f.crows ∧
      (f.sortF n).lines.Perm f.lines ∧ (f.sortF n).rays.Perm f.rays := by
  obtain ⟨h1, h2, h3, h4, h5⟩ := h.dual.sortC
  have e : (f.sortF n).crows = f.crows := h3
  exact ⟨h1.dual, fun y => by rw [e], e, h4, h5⟩

theorem Full.Ok.canon {f : Full} (h : f.Ok K (n + 1)) :
    (f.canon n).Ok K (n + 1) ∧ ∀ y : Fin (n + 1) → K, Sat (f.canon n).crows y ↔ Sat f.crows y := by
  obtain ⟨h1, e1⟩ := h.gaussC
  obtain ⟨h2, e2⟩ := h1.gaussF
  obtain ⟨h3, e3, -⟩ := h2.sortC
  obtain ⟨h4, e4, -⟩ := h3.sortF
  refine ⟨⟨h4.leq, h4.lel, h4.min, h4.indE, h4.indL⟩, fun y => ?_⟩
  exact (e4 y).trans ((e3 y).trans ((e2 y).trans (e1 y)))

theorem chernikova3_wf {r : Rep} (h : r.Wf K n) : (r.chernikova3 n).Wf K n := by
  have hw := chernikova_wf h
  rw [Rep.chernikova3]
  rcases chernikova_shape n r with e | ⟨f, e⟩
  · rw [e]; trivial
  · rw [e] at hw ⊢
    obtain ⟨h1, h2⟩ := hw.1.canon
    refine ⟨h1, fun y hy => hw.2.1 y ((h2 y).1 hy), ?_⟩
    obtain ⟨y, hy, h0⟩ := hw.2.2
    exact ⟨y, (h2 y).2 hy, h0⟩

theorem chernikova3_γ {r : Rep} (h : r.Wf K n) (x : Fin n → K) : (r.chernikova3 n).γ x ↔ r.γ x := by
  have hw := chernikova_wf h
  rw [← chernikova_γ h, Rep.chernikova3]
  rcases chernikova_shape n r with e | ⟨f, e⟩
  · rw [e]
  · rw [e] at hw ⊢
    exact hw.1.canon.2 _

end Apron.Poly
