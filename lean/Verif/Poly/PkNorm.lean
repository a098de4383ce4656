import Verif.Poly.PkPrim

/-!
# The normal form of polyhedra

The flags of a polyhedron are truthful and its rows have gcd 1 (`Full.Nice`); `poly_chernikova3` then gives a form in which
everything is reduced and sorted (`Full.Norm`), which depends only on the cone.
-/

set_option autoImplicit false
set_option linter.unusedSectionVars false

namespace Apron.Poly

variable {K : Type*} [LinearOrder K] [Field K] [IsStrictOrderedRing K] {d n : ℕ}

theorem BackOk.reduced {con : List Row} {piv : List ℕ} (h : BackOk d con piv 0) : Reduced d (con.take piv.length) con := by
  intro q hq
  obtain ⟨k, hk, rfl⟩ := List.getElem_of_mem hq
  have hk2 : k < piv.length ∧ k < con.length := by rw [List.length_take] at hk; omega
  have hr := h.ech.range k hk2.1
  have hp := h.ech.pos k hk2.1
  have hn := h.ech.null k hk2.1
  have hg : (con.take piv.length).getD k [] = (con.take piv.length)[k] := by
    rw [List.getD_eq_getElem?_getD, List.getElem?_eq_getElem hk, Option.getD_some]
  rw [hg] at hp hn
  obtain ⟨c, hc⟩ : ∃ c, piv.getD k 0 = c + 1 := ⟨piv.getD k 0 - 1, by omega⟩
  rw [hc] at hr hp hn
  refine ⟨c, by omega, hp, fun j h1 h2 => hn (j + 1) (by omega) (by omega), fun r hr' hne => ?_⟩
  obtain ⟨i, hi, rfl⟩ := List.getElem_of_mem hr'
  have hik : i ≠ k := by
    rintro rfl
    exact hne (by rw [List.getElem_take])
  have := h.col k (Nat.zero_le _) hk2.1 i hi hik
  rwa [hc, List.getD_eq_getElem?_getD, List.getElem?_eq_getElem hi, Option.getD_some] at this

/-- the properties of one matrix: gcd 1, statuses 0 or 1, reduced (if `g`) and sorted (if `s`) -/
structure Half (d : ℕ) (C : List SRow) (nb : ℕ) (g s : Prop) : Prop where
  prim : SPrim d C
  stat : ∀ x ∈ C.drop nb, x.row.at' 0 = 1
  red : g → Reduced d ((C.take nb).map SRow.row) (C.map SRow.row)
  sort : s → (C.map SRow.row).Pairwise fun a b => vcmp (d + 1) a b ≠ .gt

theorem Half.congr {C C' : List SRow} {nb : ℕ} {g s : Prop} (h : Half d C nb g s) (e : C'.map SRow.row = C.map SRow.row) : Half d C' nb g s := by
  refine ⟨fun x hx => ?_, fun x hx => ?_, fun hg => ?_, fun hs => ?_⟩
  · have : x.row ∈ C.map SRow.row := e ▸ List.mem_map_of_mem hx
    obtain ⟨y, hy, e'⟩ := List.mem_map.1 this
    rw [← e']; exact h.prim y hy
  · have : x.row ∈ (C.drop nb).map SRow.row := by
      rw [List.map_drop, ← e, ← List.map_drop]; exact List.mem_map_of_mem hx
    obtain ⟨y, hy, e'⟩ := List.mem_map.1 this
    rw [← e']; exact h.stat y hy
  · have := h.red hg
    rw [List.map_take, ← e, ← List.map_take] at this
    exact this
  · rw [e]; exact h.sort hs

theorem Half.weaken {C : List SRow} {nb : ℕ} {g s g' s' : Prop} (h : Half d C nb g s) (hg : g' → g) (hs : s' → s) : Half d C nb g' s' :=
  ⟨h.prim, h.stat, fun x => h.red (hg x), fun x => h.sort (hs x)⟩

theorem Half.of_gauss {con : List Row} {C : List SRow} {nb : ℕ} {g s : Prop} (h : Half d C nb g s) (hnb : nb ≤ C.length)
    (dd : DDL K d con ((C.take nb).map SRow.row) (C.drop nb)) (hi : Indep K d ((C.take nb).map SRow.row)) :
    Half d (gaussRows (d + 1) nb C) nb True False := by
  obtain ⟨g1, g2, g3, g4, g5, piv, g6, g7⟩ := gaussRows_ok hnb dd hi
  refine ⟨gaussRows_prim h.prim, fun x hx => ?_, fun _ => ?_, fun hf => hf.elim⟩
  · obtain ⟨i, hi, rfl⟩ := List.getElem_of_mem hx
    rw [List.length_drop, g1] at hi
    have := g4 (nb + i) (by omega) (by omega)
    rw [List.getD_eq_getElem?_getD, List.getElem?_eq_getElem (by rw [List.length_map, g1]; omega), Option.getD_some,
      List.getD_eq_getElem?_getD, List.getElem?_eq_getElem (by rw [List.length_map]; omega), Option.getD_some] at this
    rw [List.getElem_drop]
    rw [List.getElem_map, List.getElem_map] at this
    rw [this]
    have hi2 : i < (C.drop nb).length := by rw [List.length_drop]; omega
    have h2 := h.stat ((C.drop nb)[i]) (List.getElem_mem hi2)
    rwa [List.getElem_drop] at h2
  · have := g7.reduced
    rwa [g6, ← List.map_take] at this

theorem Half.of_sort {C : List SRow} {nb : ℕ} {g s : Prop} (h : Half d C nb g s) (hnb : nb ≤ C.length)
    (hE : ∀ x ∈ C.take nb, x.row.at' 0 = 0) : Half d (sortSRows (d + 1) C) nb g True := by
  obtain ⟨p1, p2⟩ := sortSRows_split (size := d + 1) hnb hE (fun x hx => by rw [h.stat x hx]; exact one_pos)
  have hp := sortSRows_perm (d + 1) C
  refine ⟨fun x hx => h.prim x (hp.mem_iff.1 hx), fun x hx => h.stat x (p2.mem_iff.1 hx), fun hg => ?_, fun _ => ?_⟩
  · exact (h.red hg).mono (fun q hq => (p1.map SRow.row).mem_iff.1 hq) fun q hq => (hp.map SRow.row).mem_iff.1 hq
  · exact List.pairwise_map.2 (sortSRows_sorted (d + 1) C)

/-! ## Uniqueness -/

theorem Indep.nodup {L : List Row} (h : Indep K d L) : (L.map (toV K d)).Nodup := by
  classical
  by_contra hn
  have hs : lineSet K d L = ((L.map (toV K d)).toFinset : Set (Fin d → K)) := by
    ext v; simp [lineSet, eq_comm]
  have h1 : (L.map (toV K d)).toFinset.card < L.length := by
    have h2 : (L.map (toV K d)).toFinset.card ≠ (L.map (toV K d)).length := fun e =>
      hn (Multiset.coe_nodup.1 (Multiset.toFinset_card_eq_card_iff_nodup.1 e))
    have h3 := List.toFinset_card_le (L.map (toV K d))
    rw [List.length_map] at h2 h3
    omega
  have h4 := finrank_span_finset_le_card (R := K) (L.map (toV K d)).toFinset
  rw [Indep, rowSpan, hs] at h
  rw [Set.finrank] at h4
  omega

theorem vkey_congr {p q : Row} (h0 : p.at' 0 = q.at' 0) (h : SameRow (d + 1) p q) : vkey (d + 2) p = vkey (d + 2) q := by
  rw [vkey, vkey, h0]
  congr 1
  · congr 1
    refine List.map_congr_left fun j hj => ?_
    have := h (j + 1) (by have := List.mem_range.1 hj; omega)
    exact this
  · rw [h 0 (Nat.succ_pos _)]

theorem vkey_inj {p q : Row} (h : vkey (d + 2) p = vkey (d + 2) q) : ∀ j, j < d + 2 → p.at' j = q.at' j := by
  intro j hj
  refine vcmp_eq (size := d + 2) ?_ hj
  rw [vcmp, h]
  have h1 : cmpList (vkey (d + 2) q) (vkey (d + 2) q) = .eq := by
    generalize vkey (d + 2) q = l
    induction l with
    | nil => rfl
    | cons a l ih => rw [cmpList, if_neg (lt_irrefl _), if_neg (lt_irrefl _)]; exact ih
  exact h1

/-- the rows of a normal form are among those of any other normal form of the same cone -/
theorem gen_unique {con con' L L' : List Row} {R R' : List SRow} (h : DDL K d con L R) (h' : DDL K d con' L' R')
    (hs : ∀ y : Fin d → K, Sat con y ↔ Sat con' y) (hr : Reduced d L (L ++ R.map SRow.row)) (hr' : Reduced d L' (L' ++ R'.map SRow.row))
    (hp : AllPrim d (L ++ R.map SRow.row)) (hp' : AllPrim d (L' ++ R'.map SRow.row)) (hL : ∀ q ∈ L, q.at' 0 = 0)
    (hL' : ∀ q ∈ L', q.at' 0 = 0) (hR : ∀ x ∈ R, x.row.at' 0 = 1) (hR' : ∀ x ∈ R', x.row.at' 0 = 1) :
    ∀ q ∈ L ++ R.map SRow.row, ∃ q' ∈ L' ++ R'.map SRow.row, q.at' 0 = q'.at' 0 ∧ SameRow d q q' := by
  have hsp : rowSpan K d L = rowSpan K d L' := le_antisymm (h'.span_le h fun y => (hs y).symm) (h.span_le h' hs)
  have hL1 : ∀ q ∈ L, q ∈ L ++ R.map SRow.row := fun q hq => List.mem_append_left _ hq
  have hL1' : ∀ q ∈ L', q ∈ L' ++ R'.map SRow.row := fun q hq => List.mem_append_left _ hq
  have hrL := hr.mono (E' := L) (rows' := L) (fun _ h => h) hL1
  have hrL' := hr'.mono (E' := L') (rows' := L') (fun _ h => h) hL1'
  intro q hq
  rcases List.mem_append.1 hq with hq | hq
  · obtain ⟨q', hq', hsame⟩ := hrL.unique hrL' (fun q hq => hp q (hL1 q hq)) (fun q hq => hp' q (hL1' q hq)) hsp q hq
    exact ⟨q', hL1' q' hq', by rw [hL q hq, hL' q' hq'], hsame⟩
  · obtain ⟨x, hx, a, ha, hm⟩ := h.ray_unique h' hs hq
    have hx1 : x ∈ L' ++ R'.map SRow.row := List.mem_append_right _ hx
    have hq1 : q ∈ L ++ R.map SRow.row := List.mem_append_right _ hq
    have sq : q.at' 0 = 1 := by obtain ⟨y, hy, rfl⟩ := List.mem_map.1 hq; exact hR y hy
    have sx : x.at' 0 = 1 := by obtain ⟨y, hy, rfl⟩ := List.mem_map.1 hx; exact hR' y hy
    refine ⟨x, hx1, by rw [sq, sx], ?_⟩
    have key : ∀ {M : List Row} {S : List SRow}, Reduced d M (M ++ S.map SRow.row) → (∀ q ∈ M, q.at' 0 = 0) →
        ∀ z ∈ S.map SRow.row, z.at' 0 = 1 → ∀ c, IsPiv d M c → z.at' (c + 1) = 0 := by
      intro M S hred hst z hz hz1 c hc
      obtain ⟨p, hp, hcd, hpos, hz2, -⟩ := hc
      obtain ⟨c', hc', hpos', hz', hall⟩ := hred p hp
      have hcc : c' = c := by
        rcases lt_trichotomy c' c with hlt | heq | hgt
        · have := hz' c hlt hcd; omega
        · exact heq
        · have := hz2 c' hgt hc'; omega
      subst hcc
      refine hall z (List.mem_append_right _ hz) ?_
      rintro rfl
      have := hst z hp; omega
    have h0 := hrL.eq_zero hm (by
      intro c hc hpiv
      have e1 := key hr hL q hq sq c hpiv
      have e2 := key hr' hL' x hx sx c (hrL'.piv_sub hsp.le hpiv)
      simp [toV, e1, e2])
    have h1 : (1 : K) • toV K d x = a • toV K d q := by rw [one_smul]; exact sub_eq_zero.1 h0
    exact ((hp' x hx1).unique (hp q hq1) one_pos ha h1).symm

theorem keys_nodup {con : List Row} {F : List SRow} {nb : ℕ}
    (dd : DDL K (d + 1) con ((F.take nb).map SRow.row) (F.drop nb)) (hi : Indep K (d + 1) ((F.take nb).map SRow.row))
    (hL : ∀ x ∈ F.take nb, x.row.at' 0 = 0) (hR : ∀ x ∈ F.drop nb, x.row.at' 0 = 1) :
    ((F.map SRow.row).map (vkey (d + 2))).Nodup := by
  have e : F.map SRow.row = (F.take nb).map SRow.row ++ (F.drop nb).map SRow.row := by rw [← List.map_append, List.take_append_drop]
  rw [e, List.map_append, List.nodup_append]
  refine ⟨?_, ?_, ?_⟩
  · have h1 := hi.nodup
    rw [List.Nodup, List.pairwise_map] at h1 ⊢
    refine h1.imp fun {a b} hab hk => hab ?_
    exact toV_eq_iff.2 fun j hj => vkey_inj hk (j + 1) (by omega)
  · rw [List.Nodup, List.pairwise_map]
    refine dd.anti.imp fun {a b} hab hk => ?_
    obtain ⟨q, hq, h0, hne⟩ := hab.1
    refine hne ?_
    rw [← vprod_congr (q := q) (r := a) (r' := b) fun j hj => vkey_inj hk (j + 1) (by omega)]
    exact h0
  · intro a ha b hb hab
    obtain ⟨p, hp, rfl⟩ := List.mem_map.1 ha
    obtain ⟨q, hq, rfl⟩ := List.mem_map.1 hb
    obtain ⟨x, hx, rfl⟩ := List.mem_map.1 hp
    obtain ⟨y, hy, rfl⟩ := List.mem_map.1 hq
    have := vkey_inj hab 0 (by omega)
    rw [hL x hx, hR y hy] at this
    exact zero_ne_one this

/-- the normal form of one of the matrices is determined by the cone -/
theorem half_unique {con con' : List Row} {F F' : List SRow} {nb nb' : ℕ}
    (dd : DDL K (d + 1) con ((F.take nb).map SRow.row) (F.drop nb)) (dd' : DDL K (d + 1) con' ((F'.take nb').map SRow.row) (F'.drop nb'))
    (hs : ∀ y : Fin (d + 1) → K, Sat con y ↔ Sat con' y)
    (hi : Indep K (d + 1) ((F.take nb).map SRow.row)) (hi' : Indep K (d + 1) ((F'.take nb').map SRow.row))
    (hL : ∀ x ∈ F.take nb, x.row.at' 0 = 0) (hL' : ∀ x ∈ F'.take nb', x.row.at' 0 = 0)
    (h : Half (d + 1) F nb True True) (h' : Half (d + 1) F' nb' True True) :
    (F.map SRow.row).map (vkey (d + 2)) = (F'.map SRow.row).map (vkey (d + 2)) := by
  have e : ∀ (F : List SRow) (nb : ℕ), F.map SRow.row = (F.take nb).map SRow.row ++ (F.drop nb).map SRow.row := fun F nb => by
    rw [← List.map_append, List.take_append_drop]
  have sub : ∀ {con con' : List Row} {F F' : List SRow} {nb nb' : ℕ}
      (dd : DDL K (d + 1) con ((F.take nb).map SRow.row) (F.drop nb)) (dd' : DDL K (d + 1) con' ((F'.take nb').map SRow.row) (F'.drop nb'))
      (hs : ∀ y : Fin (d + 1) → K, Sat con y ↔ Sat con' y) (hL : ∀ x ∈ F.take nb, x.row.at' 0 = 0) (hL' : ∀ x ∈ F'.take nb', x.row.at' 0 = 0)
      (h : Half (d + 1) F nb True True) (h' : Half (d + 1) F' nb' True True),
      ∀ k ∈ (F.map SRow.row).map (vkey (d + 2)), k ∈ (F'.map SRow.row).map (vkey (d + 2)) := by
    intro con con' F F' nb nb' dd dd' hs hL hL' h h' k hk
    obtain ⟨q, hq, rfl⟩ := List.mem_map.1 hk
    have prim : ∀ {F : List SRow}, SPrim (d + 1) F → AllPrim (d + 1) (F.map SRow.row) := by
      intro F hF q hq
      obtain ⟨x, hx, rfl⟩ := List.mem_map.1 hq
      exact hF x hx
    have lin : ∀ {l : List SRow}, (∀ x ∈ l, x.row.at' 0 = 0) → ∀ q ∈ l.map SRow.row, q.at' 0 = 0 := by
      intro l hl q hq
      obtain ⟨x, hx, rfl⟩ := List.mem_map.1 hq
      exact hl x hx
    obtain ⟨q', hq', h0, hsame⟩ := gen_unique dd dd' hs (by rw [← e]; exact h.red trivial) (by rw [← e]; exact h'.red trivial)
      (by rw [← e]; exact prim h.prim) (by rw [← e]; exact prim h'.prim) (lin hL) (lin hL') h.stat h'.stat q (by rw [← e]; exact hq)
    rw [← e] at hq'
    exact List.mem_map.2 ⟨q', hq', (vkey_congr h0 hsame).symm⟩
  have hperm := (List.perm_ext_iff_of_nodup (keys_nodup dd hi hL h.stat) (keys_nodup dd' hi' hL' h'.stat)).2
    fun k => ⟨sub dd dd' hs hL hL' h h' k, sub dd' dd (fun y => (hs y).symm) hL' hL h' h k⟩
  refine hperm.eq_of_pairwise (le := fun a b => cmpList a b ≠ .gt) (fun a b _ _ h1 h2 => cmpList_antisymm h1 h2) ?_ ?_
  · exact List.pairwise_map.2 (h.sort trivial)
  · exact List.pairwise_map.2 (h'.sort trivial)

/-! ## Polyhedra with both matrices -/

/-- the rows have gcd 1, the statuses are 0 or 1 and the flags are truthful -/
def Full.Nice (d : ℕ) (f : Full) : Prop :=
  Half d f.C f.nbeq (f.consgauss = true) (f.sortedC = true) ∧ Half d f.F f.nbline (f.gengauss = true) (f.sortedF = true)

/-- the normal form: the matrices are reduced and sorted -/
def Full.Norm (d : ℕ) (f : Full) : Prop := Half d f.C f.nbeq True True ∧ Half d f.F f.nbline True True

/-- the same for the rows of any polyhedron -/
def Rep.Nice (n : ℕ) : Rep → Prop
  | .bot => True
  | .cons C => AllPrim (n + 1) C
  | .gens F => AllPrim (n + 1) F
  | .both f => f.Nice (n + 1)

theorem Full.Ok.lines_take {f : Full} (h : f.Ok K d) : ∀ x ∈ f.F.take f.nbline, x.row.at' 0 = 0 := h.dual.eqs_take

theorem Full.Nice.canon {f : Full} (hn : f.Nice (n + 1)) (h : f.Ok K (n + 1)) : (f.canon n).Norm (n + 1) := by
  change Half (n + 1) ((((f.gaussC n).gaussF n).sortC n).sortF n).C ((((f.gaussC n).gaussF n).sortC n).sortF n).nbeq True True ∧
    Half (n + 1) ((((f.gaussC n).gaussF n).sortC n).sortF n).F ((((f.gaussC n).gaussF n).sortC n).sortF n).nbline True True
  have a1 : Half (n + 1) (f.gaussC n).C (f.gaussC n).nbeq True ((f.gaussC n).sortedC = true) ∧
      Half (n + 1) (f.gaussC n).F (f.gaussC n).nbline ((f.gaussC n).gengauss = true) ((f.gaussC n).sortedF = true) := by
    rw [Full.gaussC]
    split_ifs with hg
    · exact ⟨hn.1.weaken (fun _ => hg) id, hn.2⟩
    · exact ⟨(hn.1.of_gauss h.leq h.min.dual h.indE).weaken id (by simp), hn.2⟩
  have o1 := h.gaussC.1
  generalize f.gaussC n = f1 at a1 o1
  have a2 : Half (n + 1) (f1.gaussF n).C (f1.gaussF n).nbeq True ((f1.gaussF n).sortedC = true) ∧
      Half (n + 1) (f1.gaussF n).F (f1.gaussF n).nbline True ((f1.gaussF n).sortedF = true) := by
    rw [Full.gaussF]
    split_ifs with hg
    · exact ⟨a1.1, a1.2.weaken (fun _ => hg) id⟩
    · exact ⟨a1.1, (a1.2.of_gauss o1.lel o1.min.prim o1.indL).weaken id (by simp)⟩
  have o2 := o1.gaussF.1
  generalize f1.gaussF n = f2 at a2 o2
  have a3 : Half (n + 1) (f2.sortC n).C (f2.sortC n).nbeq True True ∧
      Half (n + 1) (f2.sortC n).F (f2.sortC n).nbline True ((f2.sortC n).sortedF = true) := by
    have hfr := o2.sortC.2.2.1
    rw [Full.sortC] at hfr ⊢
    split_ifs at hfr ⊢ with hg
    · exact ⟨a2.1.weaken id (fun _ => hg), a2.2⟩
    · exact ⟨a2.1.of_sort o2.leq o2.eqs_take, a2.2.congr hfr⟩
  have o3 := o2.sortC.1
  generalize f2.sortC n = f3 at a3 o3
  have a4 : Half (n + 1) (f3.sortF n).C (f3.sortF n).nbeq True True ∧ Half (n + 1) (f3.sortF n).F (f3.sortF n).nbline True True := by
    have hfr : (f3.dual.sortC n).frows = f3.dual.frows := o3.dual.sortC.2.2.1
    rw [Full.sortF]
    rw [Full.sortC] at hfr ⊢
    split_ifs at hfr ⊢ with hg
    · exact ⟨a3.1, a3.2.weaken id (fun _ => hg)⟩
    · exact ⟨a3.1.congr hfr, a3.2.of_sort o3.lel o3.lines_take⟩
  exact a4

theorem ofMin_nice {m : MinRep} {b1 b2 : Bool} (h : m.Ok K d) (hp : SPrim d m.C ∧ AllPrim d m.F) :
    Half d (Full.ofMin m b1 b2).C (Full.ofMin m b1 b2).nbeq True False ∧
    Half d (Full.ofMin m b1 b2).F (Full.ofMin m b1 b2).nbline False False := by
  obtain ⟨h1, h2, ⟨-, h3, h4⟩, ⟨piv, h5, h6⟩, -⟩ := h
  have hrows : (Full.ofMin m b1 b2).F.map SRow.row = m.F := by
    rw [Full.ofMin]
    dsimp only
    rw [List.map_append, resat_rows, List.map_map]
    have : (SRow.row ∘ fun q => (⟨q, 0⟩ : SRow)) = id := rfl
    rw [this, List.map_id, List.take_append_drop]
  refine ⟨⟨hp.1, h3, fun _ => ?_, False.elim⟩, ⟨fun x hx => ?_, fun x hx => ?_, False.elim, False.elim⟩⟩
  · have := h6.reduced
    rw [h5, ← List.map_take] at this
    exact this
  · exact hp.2 _ (hrows ▸ List.mem_map_of_mem hx)
  · refine h4 _ ?_
    have : x.row ∈ ((Full.ofMin m b1 b2).F.map SRow.row).drop m.nbline := by
      rw [← List.map_drop]; exact List.mem_map_of_mem hx
    rwa [hrows] at this

theorem AllPrim.sortRows {C : List Row} (h : AllPrim d C) (size : ℕ) : AllPrim d (sortRows size C) :=
  h.sub fun q hq => (List.perm_insertionSort _ _).mem_iff.1 hq

/-- the conversion keeps the property of the rows and gives truthful flags -/
theorem Rep.Nice.chernikova {r : Rep} (h : r.Nice n) : (r.chernikova n).Nice n := by
  cases r with
  | bot => trivial
  | both f => exact h
  | cons C =>
    rw [Rep.chernikova]
    cases hm : Apron.Poly.minimize (n + 2) 2 true (Apron.Poly.sortRows (n + 2) C) with
    | none => trivial
    | some m =>
      obtain ⟨h1, h2⟩ := ofMin_nice (b1 := true) (b2 := false) (minimize_ok (K := ℚ) (d := n + 1) hm).1 (minimize_prim (AllPrim.sortRows h _) hm)
      exact ⟨h1.weaken (fun _ => trivial) (by simp [Full.ofMin]), h2.weaken (by simp [Full.ofMin]) (by simp [Full.ofMin])⟩
  | gens F =>
    rw [Rep.chernikova]
    cases hm : Apron.Poly.minimize (n + 2) 2 false (Apron.Poly.sortRows (n + 2) F) with
    | none => trivial
    | some m =>
      obtain ⟨h1, h2⟩ := ofMin_nice (b1 := false) (b2 := true) (minimize_ok (K := ℚ) (d := n + 1) hm).1 (minimize_prim (AllPrim.sortRows h _) hm)
      exact ⟨h2.weaken (by simp [Full.ofMin, Full.dual]) (by simp [Full.ofMin, Full.dual]), h1.weaken (fun _ => trivial) (by simp [Full.ofMin, Full.dual])⟩

theorem vkeys_eq {A B : List Row} (h : A.map (vkey (n + 2)) = B.map (vkey (n + 2))) : A.length = B.length ∧
    ∀ i, ∀ h1 : i < A.length, ∀ h2 : i < B.length, ∀ j, j < n + 2 → A[i].at' j = B[i].at' j := by
  have hl : A.length = B.length := by have := congrArg List.length h; simpa using this
  refine ⟨hl, fun i h1 h2 => ?_⟩
  have := congrArg (fun l => l[i]?) h
  simp only [List.getElem?_map, List.getElem?_eq_getElem h1, List.getElem?_eq_getElem h2, Option.map_some, Option.some.injEq] at this
  exact vkey_inj this

/-- the normal form is determined by the cone -/
theorem Full.Norm.unique {f g : Full} (hf : f.Norm (n + 1)) (hg : g.Norm (n + 1)) (of : f.Ok K (n + 1)) (og : g.Ok K (n + 1))
    (hs : ∀ y : Fin (n + 1) → K, Sat f.crows y ↔ Sat g.crows y) :
    f.crows.map (vkey (n + 2)) = g.crows.map (vkey (n + 2)) ∧ f.frows.map (vkey (n + 2)) = g.frows.map (vkey (n + 2)) := by
  have hs1 : ∀ y : Fin (n + 1) → K, Sat (f.eqs ++ f.ineqs.map SRow.row) y ↔ Sat (g.eqs ++ g.ineqs.map SRow.row) y := by
    intro y; rw [← crows_eq, ← crows_eq]; exact hs y
  have hs2 : ∀ y : Fin (n + 1) → K, Sat (f.lines ++ f.rays.map SRow.row) y ↔ Sat (g.lines ++ g.rays.map SRow.row) y := by
    intro y
    rw [← frows_eq, ← frows_eq, of.sat_dual, og.sat_dual, genM_iff_polar, genM_iff_polar]
    exact forall_congr' fun z => by rw [hs z]
  exact ⟨half_unique of.min.dual og.min.dual hs2 of.indE og.indE of.eqs_take og.eqs_take hf.1 hg.1,
    half_unique of.min.prim og.min.prim hs1 of.indL og.indL of.lines_take og.lines_take hf.2 hg.2⟩

end Apron.Poly
