import Verif.Poly.Spec

/-!
# Correctness of the conversion: the invariant and the steps
-/

set_option autoImplicit false
set_option linter.unusedSectionVars false

namespace Apron.Poly

variable {K : Type*} [LinearOrder K] [Field K] [IsStrictOrderedRing K] {d : ℕ}

/-- some constraint is saturated by the first row and not by the second one -/
def Anti (d : ℕ) (con : List Row) (r s : Row) : Prop := ∃ q ∈ con, vprod d q r = 0 ∧ vprod d q s ≠ 0

/-- no row saturates all the constraints saturated by another one -/
def Anti2 (d : ℕ) (con : List Row) (r s : Row) : Prop := Anti d con r s ∧ Anti d con s r

theorem Anti2.symm {con : List Row} {r s : Row} (h : Anti2 d con r s) : Anti2 d con s r := ⟨h.2, h.1⟩

/-- bit `b` of a saturation row tells whether constraint `b` is not saturated -/
def SatOk (d : ℕ) (con : List Row) (x : SRow) : Prop :=
  ∀ b, x.sat.testBit b = decide (b < con.length ∧ vprod d (con.getD b []) x.row ≠ 0)

/-- double description: the generators generate the cone of the constraints, and the rays are irredundant;
the saturation rows are exact -/
structure DDL (K : Type*) [LinearOrder K] [Field K] [IsStrictOrderedRing K] (d : ℕ) (con lines : List Row)
    (rays : List SRow) : Prop where
  line : ∀ l ∈ lines, ∀ q ∈ con, vprod d q l = 0
  ray : ∀ x ∈ rays, ∀ q ∈ con, 0 ≤ vprod d q x.row ∧ (q.at' 0 = 0 → vprod d q x.row = 0)
  gen : ∀ x : Fin d → K, Sat con x → Gen lines (rays.map SRow.row) x
  proper : ∀ x ∈ rays, ∃ q ∈ con, vprod d q x.row ≠ 0
  anti : (rays.map SRow.row).Pairwise (Anti2 d con)
  sat : ∀ x ∈ rays, SatOk d con x

/-! ## Link with the mathematical definitions -/

theorem exists_mem_iff {con : List Row} {p : Row → Prop} : (∃ q ∈ con, p q) ↔ ∃ b, b < con.length ∧ p (con.getD b []) := by
  constructor
  · rintro ⟨q, hq, hp⟩
    obtain ⟨b, hb, rfl⟩ := List.getElem_of_mem hq
    refine ⟨b, hb, ?_⟩
    rw [List.getD_eq_getElem?_getD, List.getElem?_eq_getElem hb]; exact hp
  · rintro ⟨b, hb, hp⟩
    rw [List.getD_eq_getElem?_getD, List.getElem?_eq_getElem hb] at hp
    exact ⟨_, List.getElem_mem hb, hp⟩

theorem getD_mem {con : List Row} {b : ℕ} (hb : b < con.length) : con.getD b [] ∈ con := by
  rw [List.getD_eq_getElem?_getD, List.getElem?_eq_getElem hb]; exact List.getElem_mem hb

/-- the constraints as linear forms -/
def cA (K : Type*) [Field K] (d : ℕ) (con : List Row) (b : ℕ) : (Fin d → K) →ₗ[K] K := lin K d (con.getD b [])

/-- the equalities -/
def cE (con : List Row) (b : ℕ) : Prop := (con.getD b []).at' 0 = 0

theorem sat_iff {con : List Row} {x : Fin d → K} : Sat con x ↔ InC (cA K d con) (cE con) con.length x := by
  constructor
  · intro h b hb; exact h _ (getD_mem hb)
  · intro h q hq
    obtain ⟨b, hb, rfl⟩ := List.getElem_of_mem hq
    have := h b hb
    simp only [cA, cE, lin_apply, List.getD_eq_getElem?_getD, List.getElem?_eq_getElem hb] at this
    exact this

theorem cA_toV (con : List Row) (b : ℕ) (r : Row) : cA K d con b (toV K d r) = ((vprod d (con.getD b []) r : ℤ) : K) :=
  dot_toV _ _

/-- the set of the vectors of the lines -/
def lineSet (K : Type*) [Field K] (d : ℕ) (lines : List Row) : Set (Fin d → K) := {v | ∃ l ∈ lines, v = toV K d l}

theorem lineSet_finite (lines : List Row) : ∃ s : Finset (Fin d → K), lineSet K d lines = s ∧ s.card ≤ lines.length := by
  classical
  refine ⟨(lines.map (toV K d)).toFinset, ?_, ?_⟩
  · ext v; simp only [lineSet, Set.mem_ofPred_eq, List.coe_toFinset, List.mem_map]
    constructor
    · rintro ⟨l, hl, rfl⟩; exact ⟨l, hl, rfl⟩
    · rintro ⟨l, hl, rfl⟩; exact ⟨l, hl, rfl⟩
  · exact (List.toFinset_card_le _).trans (by rw [List.length_map])

/-- the family of the rays -/
def rayFam (K : Type*) [Field K] (d : ℕ) (rays : List SRow) (i : Fin rays.length) : Fin d → K := toV K d (rays[i]).row

theorem Span.isCone {V : Type*} [AddCommGroup V] [Module K V] {L : Set V} {ι : Type*} [Fintype ι] {r : ι → V} :
    IsCone (K := K) (Span (K := K) L r) := ⟨Span.zero, Span.add, fun ht h => h.smul ht⟩

theorem Gen.span {lines : List Row} {rays : List SRow} {x : Fin d → K} (h : Gen lines (rays.map SRow.row) x) :
    Span (K := K) (lineSet K d lines) (rayFam K d rays) x := by
  classical
  refine Gen.le Span.isCone (fun l hl => ?_) (fun r hr => ?_) h
  · have : toV K d l ∈ Submodule.span K (lineSet K d lines) := Submodule.subset_span ⟨l, hl, rfl⟩
    exact ⟨Span.line this, Span.line (Submodule.neg_mem _ this)⟩
  · obtain ⟨y, hy, rfl⟩ := List.mem_map.1 hr
    obtain ⟨i, hi, rfl⟩ := List.getElem_of_mem hy
    exact Span.ray (r := rayFam K d rays) ⟨i, hi⟩

theorem DDL.toDD {con lines : List Row} {rays : List SRow} (h : DDL K d con lines rays) :
    DD (cA K d con) (cE con) con.length (lineSet K d lines) (rayFam K d rays) where
  line := by
    rintro _ ⟨l, hl, rfl⟩ b hb
    rw [cA_toV, h.line l hl _ (getD_mem hb), Int.cast_zero]
  ray := by
    intro i b hb
    obtain ⟨h1, h2⟩ := h.ray _ (List.getElem_mem i.2) _ (getD_mem hb)
    rw [rayFam, cA_toV]
    exact ⟨by exact_mod_cast h1, fun he => by exact_mod_cast h2 he⟩
  gen := fun x hx => (h.gen x (sat_iff.2 hx)).span
  proper := by
    intro i
    obtain ⟨b, hb, hne⟩ := exists_mem_iff.1 (h.proper _ (List.getElem_mem i.2))
    exact ⟨b, hb, by rw [rayFam, cA_toV]; exact_mod_cast hne⟩
  anti := by
    have key : ∀ i j : Fin rays.length, i ≠ j → Anti d con (rays[i]).row (rays[j]).row := by
      intro i j hij
      have hp := List.pairwise_iff_getElem.1 h.anti
      rcases lt_or_gt_of_ne (fun e => hij (Fin.ext e) : i.1 ≠ j.1) with hl | hl
      · have := (hp i.1 j.1 (by simp) (by simp) hl).1
        simpa using this
      · have := (hp j.1 i.1 (by simp) (by simp) hl).2
        simpa using this
    intro i j hij
    obtain ⟨b, hb, e1, e2⟩ := exists_mem_iff.1 (key i j hij)
    refine ⟨b, hb, ?_, ?_⟩
    · rw [rayFam, cA_toV, e1, Int.cast_zero]
    · rw [rayFam, cA_toV]; exact_mod_cast e2

theorem zeroBits_eq {con : List Row} {x y : SRow} (hx : SatOk d con x) (hy : SatOk d con y) :
    zeroBits con.length (x.sat ||| y.sat) = common (cA K d con) con.length (toV K d x.row) (toV K d y.row) := by
  classical
  rw [common, zeroBits]
  have : ∀ k, k ≤ con.length → List.countP (fun b => !(x.sat ||| y.sat).testBit b) (List.range k) =
      ((Finset.range k).filter fun b => cA K d con b (toV K d x.row) = 0 ∧ cA K d con b (toV K d y.row) = 0).card := by
    intro k
    induction k with
    | zero => intro _; simp
    | succ k ih =>
      intro hk
      rw [List.range_succ, List.countP_append, ih (by omega), Finset.range_add_one, Finset.filter_insert]
      have e : ((!(x.sat ||| y.sat).testBit k) = true) ↔
          cA K d con k (toV K d x.row) = 0 ∧ cA K d con k (toV K d y.row) = 0 := by
        rw [cA_toV, cA_toV, Nat.testBit_or, hx k, hy k]
        simp only [Nat.lt_of_succ_le hk, true_and, Bool.not_or, Bool.and_eq_true, Bool.not_eq_true', decide_eq_false_iff_not,
          ne_eq, not_not, Int.cast_eq_zero]
      by_cases hc : cA K d con k (toV K d x.row) = 0 ∧ cA K d con k (toV K d y.row) = 0
      · rw [if_pos hc, Finset.card_insert_of_notMem (by simp)]
        simp only [List.countP_cons, List.countP_nil, Nat.zero_add]
        rw [if_pos (e.2 hc)]
      · rw [if_neg hc]
        simp only [List.countP_cons, List.countP_nil, Nat.zero_add, Nat.add_eq_left]
        rw [if_neg (fun h => hc (e.1 h))]
  convert this con.length le_rfl

/-! ## The step on the rays -/

theorem DDL.perm {con lines : List Row} {rays rays' : List SRow} (h : DDL K d con lines rays) (hp : rays.Perm rays') :
    DDL K d con lines rays' where
  line := h.line
  ray := fun x hx => h.ray x (hp.mem_iff.2 hx)
  gen := by
    intro x hx
    refine Gen.le Gen.isCone (fun l hl => ⟨.of_line hl, .of_neg_line hl⟩) (fun r hr => .of_ray ?_) (h.gen x hx)
    exact (hp.map _).mem_iff.1 hr
  proper := fun x hx => h.proper x (hp.mem_iff.2 hx)
  anti := ((hp.map SRow.row).pairwise_iff (fun {_ _} h => h.symm)).1 h.anti
  sat := fun x hx => h.sat x (hp.mem_iff.2 hx)

theorem DDL.nodup {con lines : List Row} {rays : List SRow} (h : DDL K d con lines rays) : rays.Nodup := by
  refine List.Nodup.of_map SRow.row ?_
  refine h.anti.imp ?_
  rintro a b ⟨⟨q, _, e1, e2⟩, _⟩ rfl
  exact e2 e1

theorem DDL.row_ne {con lines : List Row} {rays : List SRow} (h : DDL K d con lines rays) {x y : SRow} (hx : x ∈ rays)
    (hy : y ∈ rays) (hne : x ≠ y) : Anti d con x.row y.row := by
  have h1 : rays.Pairwise (fun a b => Anti2 d con a.row b.row) := List.pairwise_map.1 h.anti
  obtain ⟨i, hi, rfl⟩ := List.getElem_of_mem hx
  obtain ⟨j, hj, rfl⟩ := List.getElem_of_mem hy
  have hp := List.pairwise_iff_getElem.1 h1
  rcases lt_trichotomy i j with hl | rfl | hl
  · exact (hp i j hi hj hl).1
  · exact absurd rfl hne
  · exact (hp j i hj hi hl).2

/-- adjacency of two rays -/
def AdjL (d : ℕ) (con lines : List Row) (rays : List SRow) (x y : SRow) : Prop :=
  (∀ z ∈ rays, z ≠ x → z ≠ y → ∃ q ∈ con, vprod d q x.row = 0 ∧ vprod d q y.row = 0 ∧ vprod d q z.row ≠ 0) ∧
  d ≤ zeroBits con.length (x.sat ||| y.sat) + lines.length + 2

theorem or_eq_iff {a m : ℕ} : a ||| m = m ↔ ∀ b, a.testBit b = true → m.testBit b = true := by
  constructor
  · intro h b hb
    rw [← h, Nat.testBit_or, hb]; rfl
  · intro h
    apply Nat.eq_of_testBit_eq
    intro b
    rw [Nat.testBit_or]
    cases ha : a.testBit b
    · rfl
    · rw [h b ha]; rfl

section
variable {con lines : List Row} {E P N : List SRow} (h : DDL K d con lines (E ++ P ++ N))
include h

theorem DDL.adjacent_iff {i j : ℕ} {x y : SRow} (hx : P[i]? = some x) (hy : N[j]? = some y) :
    adjacent (d + 1) lines.length con.length (x.sat ||| y.sat) (E ++ P.eraseIdx i ++ N.eraseIdx j) = true ↔
      2 ≤ d ∧ AdjL d con lines (E ++ P ++ N) x y := by
  have hnd := h.nodup
  obtain ⟨hi, rfl⟩ := List.getElem?_eq_some_iff.1 hx
  obtain ⟨hj, rfl⟩ := List.getElem?_eq_some_iff.1 hy
  have hxm : P[i] ∈ P := List.getElem_mem hi
  have hym : N[j] ∈ N := List.getElem_mem hj
  have hEP := (List.nodup_append.1 hnd).1
  have hNn := (List.nodup_append.1 hnd).2.1
  have hdis := (List.nodup_append.1 hnd).2.2
  have hPn := (List.nodup_append.1 hEP).2.1
  have hdis2 := (List.nodup_append.1 hEP).2.2
  have mem : ∀ z, z ∈ E ++ P.eraseIdx i ++ N.eraseIdx j ↔ z ∈ E ++ P ++ N ∧ z ≠ P[i] ∧ z ≠ N[j] := by
    intro z
    simp only [List.mem_append, List.mem_eraseIdx_iff_getElem]
    constructor
    · rintro ((hz | ⟨i', hi', hne, rfl⟩) | ⟨j', hj', hne, rfl⟩)
      · exact ⟨.inl (.inl hz), hdis2 z hz _ hxm, hdis z (List.mem_append_left _ hz) _ hym⟩
      · exact ⟨.inl (.inr (List.getElem_mem hi')), fun e => hne ((List.Nodup.getElem_inj_iff hPn).1 e),
          hdis _ (List.mem_append_right _ (List.getElem_mem hi')) _ hym⟩
      · exact ⟨.inr (List.getElem_mem hj'), fun e => hdis _ (List.mem_append_right _ hxm) _ (List.getElem_mem hj') e.symm,
          fun e => hne ((List.Nodup.getElem_inj_iff hNn).1 e)⟩
    · rintro ⟨(hz | hz) | hz, h1, h2⟩
      · exact .inl (.inl hz)
      · obtain ⟨i', hi', rfl⟩ := List.getElem_of_mem hz
        refine .inl (.inr ⟨i', hi', fun e => h1 (by subst e; rfl), rfl⟩)
      · obtain ⟨j', hj', rfl⟩ := List.getElem_of_mem hz
        exact .inr ⟨j', hj', fun e => h2 (by subst e; rfl), rfl⟩
  have hsx := h.sat P[i] (List.mem_append_left _ (List.mem_append_right _ hxm))
  have hsy := h.sat N[j] (List.mem_append_right _ hym)
  rw [adjacent, Bool.and_eq_true, decide_eq_true_eq, AdjL]
  have e2 : (!(List.any (E ++ P.eraseIdx i ++ N.eraseIdx j) fun z => z.sat ||| (P[i].sat ||| N[j].sat) == P[i].sat ||| N[j].sat)) = true ↔
      ∀ z ∈ E ++ P ++ N, z ≠ P[i] → z ≠ N[j] →
        ∃ q ∈ con, vprod d q P[i].row = 0 ∧ vprod d q N[j].row = 0 ∧ vprod d q z.row ≠ 0 := by
    rw [Bool.not_eq_true', List.any_eq_false]
    constructor
    · intro hh z hz h1 h2
      have := hh z ((mem z).2 ⟨hz, h1, h2⟩)
      rw [beq_iff_eq, or_eq_iff] at this
      push Not at this
      obtain ⟨b, hb1, hb2⟩ := this
      have hsz := h.sat z hz b
      rw [hb1, eq_comm, decide_eq_true_eq] at hsz
      rw [Nat.testBit_or, ne_eq, Bool.or_eq_true, not_or, hsx b, hsy b, decide_eq_true_eq, decide_eq_true_eq] at hb2
      refine exists_mem_iff.2 ⟨b, hsz.1, ?_, ?_, hsz.2⟩
      · by_contra hc; exact hb2.1 ⟨hsz.1, hc⟩
      · by_contra hc; exact hb2.2 ⟨hsz.1, hc⟩
    · intro hh z hz
      obtain ⟨hz, h1, h2⟩ := (mem z).1 hz
      obtain ⟨b, hb, e1, e2, e3⟩ := exists_mem_iff.1 (hh z hz h1 h2)
      rw [beq_iff_eq, or_eq_iff]
      intro hc
      have := hc b (by rw [h.sat z hz b, decide_eq_true_eq]; exact ⟨hb, e3⟩)
      rw [Nat.testBit_or, hsx b, hsy b, e1, e2] at this
      simp at this
  rw [e2]
  constructor
  · rintro ⟨⟨h1, h2⟩, h3⟩; exact ⟨by omega, h3, by omega⟩
  · rintro ⟨h1, h3, h2⟩; exact ⟨⟨by omega, by omega⟩, h3⟩

theorem DDL.mem_combos {z : SRow} : z ∈ combos (d + 1) lines.length con.length E P N ↔
    ∃ x ∈ P, ∃ y ∈ N, 2 ≤ d ∧ AdjL d con lines (E ++ P ++ N) x y ∧
      z = ⟨vectorCombine y.row x.row [] 0 (d + 1), x.sat ||| y.sat⟩ := by
  rw [combos, List.mem_flatMap]
  constructor
  · rintro ⟨⟨x, i⟩, hx, hz⟩
    rw [List.mem_filterMap] at hz
    obtain ⟨⟨y, j⟩, hy, hz⟩ := hz
    rw [List.mem_zipIdx_iff_getElem?] at hx hy
    dsimp only at hx hy hz
    split_ifs at hz with ha
    obtain ⟨h2, ha⟩ := (h.adjacent_iff hx hy).1 ha
    exact ⟨x, List.mem_of_getElem? hx, y, List.mem_of_getElem? hy, h2, ha, (Option.some.inj hz).symm⟩
  · rintro ⟨x, hx, y, hy, h2, ha, rfl⟩
    obtain ⟨i, hi⟩ := List.getElem?_of_mem hx
    obtain ⟨j, hj⟩ := List.getElem?_of_mem hy
    refine ⟨(x, i), List.mem_zipIdx_iff_getElem?.2 hi, List.mem_filterMap.2 ⟨(y, j), List.mem_zipIdx_iff_getElem?.2 hj, ?_⟩⟩
    dsimp only
    rw [if_pos ((h.adjacent_iff hi hj).2 ⟨h2, ha⟩)]

variable {c : Row} (hst : ∀ x ∈ E ++ P ++ N, x.row.at' 0 = vprod d c x.row) (hl : ∀ l ∈ lines, vprod d c l = 0)
  (hE : ∀ x ∈ E, vprod d c x.row = 0) (hP : ∀ x ∈ P, 0 < vprod d c x.row) (hN : ∀ x ∈ N, vprod d c x.row < 0)
include hst hP hN

/-- a new ray is the combination of its parents -/
theorem DDL.combo_spec {x y : SRow} (hx : x ∈ P) (hy : y ∈ N) :
    ∃ g : ℤ, 0 < g ∧
      (∀ j, j < d → g * (vectorCombine y.row x.row [] 0 (d + 1)).at' (j + 1) =
        vprod d c x.row * y.row.at' (j + 1) - vprod d c y.row * x.row.at' (j + 1)) := by
  have hx' : x ∈ E ++ P ++ N := List.mem_append_left _ (List.mem_append_right _ hx)
  have hy' : y ∈ E ++ P ++ N := List.mem_append_right _ hy
  obtain ⟨_, g, hg, hh⟩ := combine_spec y.row x.row [] 0 (d + 1) (.inr (by rw [hst x hx']; exact (hP x hx).ne'))
  refine ⟨g, hg, fun j hj => ?_⟩
  rw [hh j (by omega), hst x hx', hst y hy']

theorem DDL.combo_facts {x y : SRow} (hx : x ∈ P) (hy : y ∈ N) :
    vprod d c (vectorCombine y.row x.row [] 0 (d + 1)) = 0 ∧
    ∀ q ∈ con, 0 ≤ vprod d q (vectorCombine y.row x.row [] 0 (d + 1)) ∧
      (vprod d q (vectorCombine y.row x.row [] 0 (d + 1)) = 0 ↔ vprod d q x.row = 0 ∧ vprod d q y.row = 0) := by
  obtain ⟨g, hg, hh⟩ := h.combo_spec hst hP hN hx hy
  have hx' : x ∈ E ++ P ++ N := List.mem_append_left _ (List.mem_append_right _ hx)
  have hy' : y ∈ E ++ P ++ N := List.mem_append_right _ hy
  have p1 := hP x hx
  have p2 := hN y hy
  constructor
  · have := vprod_lin (q := c) hh
    have e : g * vprod d c (vectorCombine y.row x.row [] 0 (d + 1)) = 0 := by rw [this]; ring
    exact (mul_eq_zero.1 e).resolve_left hg.ne'
  · intro q hq
    have := vprod_lin (q := q) hh
    have h1 := (h.ray x hx' q hq).1
    have h2 := (h.ray y hy' q hq).1
    have q1 := mul_nonneg p1.le h2
    have q2 := mul_nonneg (neg_nonneg.2 p2.le) h1
    constructor
    · by_contra hc
      push Not at hc
      have := mul_neg_of_pos_of_neg hg hc
      nlinarith
    · constructor
      · intro e
        rw [e, mul_zero] at this
        have r1 : vprod d c x.row * vprod d q y.row = 0 := by nlinarith
        have r2 : -vprod d c y.row * vprod d q x.row = 0 := by nlinarith
        exact ⟨(mul_eq_zero.1 r2).resolve_left (by omega), (mul_eq_zero.1 r1).resolve_left p1.ne'⟩
      · rintro ⟨e1, e2⟩
        rw [e1, e2] at this
        have e : g * vprod d q (vectorCombine y.row x.row [] 0 (d + 1)) = 0 := by rw [this]; ring
        exact (mul_eq_zero.1 e).resolve_left hg.ne'

theorem DDL.combos_anti : ((combos (d + 1) lines.length con.length E P N).map SRow.row).Pairwise (Anti2 d (con ++ [c])) := by
  have hnd := h.nodup
  have hNn : N.Nodup := (List.nodup_append.1 hnd).2.1
  have hPn : P.Nodup := (List.nodup_append.1 (List.nodup_append.1 hnd).1).2.1
  have ne_xy : ∀ x ∈ P, ∀ y ∈ N, x ≠ y := by
    rintro x hx y hy rfl
    have := hP x hx; have := hN x hy; omega
  have key : ∀ x ∈ P, ∀ y ∈ N, ∀ x' ∈ P, ∀ y' ∈ N, AdjL d con lines (E ++ P ++ N) x y → x ≠ x' ∨ y ≠ y' →
      Anti d (con ++ [c]) (vectorCombine y.row x.row [] 0 (d + 1)) (vectorCombine y'.row x'.row [] 0 (d + 1)) := by
    intro x hx y hy x' hx' y' hy' ha hne
    have f := (h.combo_facts hst hP hN hx hy).2
    have f' := (h.combo_facts hst hP hN hx' hy').2
    rcases hne with hne | hne
    · obtain ⟨q, hq, e1, e2, e3⟩ := ha.1 x' (List.mem_append_left _ (List.mem_append_right _ hx')) (Ne.symm hne) (ne_xy x' hx' y hy)
      exact ⟨q, List.mem_append_left _ hq, (f q hq).2.2 ⟨e1, e2⟩, fun e => e3 ((f' q hq).2.1 e).1⟩
    · obtain ⟨q, hq, e1, e2, e3⟩ := ha.1 y' (List.mem_append_right _ hy') (Ne.symm (ne_xy x hx y' hy')) (Ne.symm hne)
      exact ⟨q, List.mem_append_left _ hq, (f q hq).2.2 ⟨e1, e2⟩, fun e => e3 ((f' q hq).2.1 e).2⟩
  rw [List.pairwise_map, combos, List.pairwise_flatMap]
  have nd1 : P.zipIdx.Pairwise (fun a b => a.1 ≠ b.1) := by
    have : (P.zipIdx.map Prod.fst).Nodup := by rw [List.zipIdx_map_fst]; exact hPn
    exact List.pairwise_map.1 this
  have nd2 : N.zipIdx.Pairwise (fun a b => a.1 ≠ b.1) := by
    have : (N.zipIdx.map Prod.fst).Nodup := by rw [List.zipIdx_map_fst]; exact hNn
    exact List.pairwise_map.1 this
  constructor
  · rintro ⟨x, i⟩ hx
    rw [List.mem_zipIdx_iff_getElem?] at hx
    dsimp only at hx ⊢
    rw [List.pairwise_filterMap]
    refine (List.Pairwise.and_mem.1 nd2).imp ?_
    rintro ⟨y, j⟩ ⟨y', j'⟩ ⟨hy, hy', hne⟩ z hz z' hz'
    rw [List.mem_zipIdx_iff_getElem?] at hy hy'
    dsimp only at hy hy' hne hz hz'
    split_ifs at hz with ha
    split_ifs at hz' with ha'
    obtain ⟨_, ha⟩ := (h.adjacent_iff hx hy).1 ha
    obtain ⟨_, ha'⟩ := (h.adjacent_iff hx hy').1 ha'
    obtain rfl := Option.some.inj hz
    obtain rfl := Option.some.inj hz'
    have m1 := List.mem_of_getElem? hx
    have m2 := List.mem_of_getElem? hy
    have m3 := List.mem_of_getElem? hy'
    exact ⟨key x m1 y m2 x m1 y' m3 ha (.inr hne), key x m1 y' m3 x m1 y m2 ha' (.inr (Ne.symm hne))⟩
  · refine (List.Pairwise.and_mem.1 nd1).imp ?_
    rintro ⟨x, i⟩ ⟨x', i'⟩ ⟨hx, hx', hne⟩ z hz z' hz'
    rw [List.mem_zipIdx_iff_getElem?] at hx hx'
    rw [List.mem_filterMap] at hz hz'
    obtain ⟨⟨y, j⟩, hy, hz⟩ := hz
    obtain ⟨⟨y', j'⟩, hy', hz'⟩ := hz'
    rw [List.mem_zipIdx_iff_getElem?] at hy hy'
    dsimp only at hx hx' hy hy' hne hz hz'
    split_ifs at hz with ha
    split_ifs at hz' with ha'
    obtain ⟨_, ha⟩ := (h.adjacent_iff hx hy).1 ha
    obtain ⟨_, ha'⟩ := (h.adjacent_iff hx' hy').1 ha'
    obtain rfl := Option.some.inj hz
    obtain rfl := Option.some.inj hz'
    have m0 := List.mem_of_getElem? hx
    have m1 := List.mem_of_getElem? hx'
    have m2 := List.mem_of_getElem? hy
    have m3 := List.mem_of_getElem? hy'
    exact ⟨key x m0 y m2 x' m1 y' m3 ha (.inl hne), key x' m1 y' m3 x m0 y m2 ha' (.inl (Ne.symm hne))⟩

include hl hE

/-- the step on the rays: `kept` are the rays kept with their new saturation rows -/
theorem DDL.ray_step {kept : List SRow} (hk : ∀ z ∈ kept, (∃ x ∈ E ++ P, z.row = x.row) ∧ SatOk d (con ++ [c]) z ∧
      (c.at' 0 = 0 → vprod d c z.row = 0))
    (hkp : List.Sublist (kept.map SRow.row) ((E ++ P).map SRow.row)) (hkE : ∀ x ∈ E, x.row ∈ kept.map SRow.row)
    (hkP : c.at' 0 ≠ 0 → ∀ x ∈ P, x.row ∈ kept.map SRow.row) :
    DDL K d (con ++ [c]) lines (kept ++ combos (d + 1) lines.length con.length E P N) := by
  have ne_xy : ∀ x ∈ E ++ P, ∀ y ∈ N, x ≠ y := by
    rintro x hx y hy rfl
    have h2 := hN x hy
    rcases List.mem_append.1 hx with hx | hx
    · have := hE x hx; omega
    · have := hP x hx; omega
  have pos : ∀ x ∈ E ++ P, 0 ≤ vprod d c x.row := by
    intro x hx
    rcases List.mem_append.1 hx with hx | hx
    · exact (hE x hx).ge
    · exact (hP x hx).le
  refine ⟨?_, ?_, ?_, ?_, ?_, ?_⟩
  · intro l hl' q hq
    rcases List.mem_append.1 hq with hq | hq
    · exact h.line l hl' q hq
    · obtain rfl := List.mem_singleton.1 hq; exact hl l hl'
  · intro z hz q hq
    rcases List.mem_append.1 hz with hz | hz
    · obtain ⟨⟨x, hx, e⟩, _, hc0⟩ := hk z hz
      rw [e] at hc0 ⊢
      rcases List.mem_append.1 hq with hq | hq
      · exact h.ray x (List.mem_append_left _ hx) q hq
      · obtain rfl := List.mem_singleton.1 hq
        exact ⟨pos x hx, hc0⟩
    · obtain ⟨x, hx, y, hy, _, _, rfl⟩ := h.mem_combos.1 hz
      obtain ⟨f1, f2⟩ := h.combo_facts hst hP hN hx hy
      rcases List.mem_append.1 hq with hq | hq
      · refine ⟨(f2 q hq).1, fun he => (f2 q hq).2.2 ⟨?_, ?_⟩⟩
        · exact (h.ray x (List.mem_append_left _ (List.mem_append_right _ hx)) q hq).2 he
        · exact (h.ray y (List.mem_append_right _ hy) q hq).2 he
      · obtain rfl := List.mem_singleton.1 hq
        exact ⟨f1.ge, fun _ => f1⟩
  · intro v hv
    have hv1 : Sat con v := fun q hq => hv q (List.mem_append_left _ hq)
    have hv2 := hv c (List.mem_append_right _ (List.mem_singleton_self c))
    set R := E ++ P ++ N with hR
    have hDD := h.toDD
    have hcv : ∀ i : Fin R.length, lin K d c (rayFam K d R i) = ((vprod d c (R[i]).row : ℤ) : K) := fun i => dot_toV _ _
    have hcL : ∀ l ∈ lineSet K d lines, lin K d c l = 0 := by
      rintro _ ⟨l, hl', rfl⟩
      rw [lin_apply, dot_toV, hl l hl', Int.cast_zero]
    have hGL : ∀ l ∈ Submodule.span K (lineSet K d lines),
        Gen lines ((kept ++ combos (d + 1) lines.length con.length E P N).map SRow.row) l := fun l hl => Gen.of_span hl
    have hpart : ∀ i : Fin R.length, R[i] ∈ R := fun i => List.getElem_mem i.2
    have hG1 : ∀ i j : Fin R.length, 0 < lin K d c (rayFam K d R i) → lin K d c (rayFam K d R j) < 0 →
        Adj (cA K d con) con.length (rayFam K d R) (Module.finrank K (Fin d → K)) lines.length i j →
        Gen lines ((kept ++ combos (d + 1) lines.length con.length E P N).map SRow.row)
          (comb (lin K d c) (rayFam K d R i) (rayFam K d R j)) := by
      intro i j hi hj ha
      rw [hcv] at hi hj
      have hi' : 0 < vprod d c (R[i]).row := by exact_mod_cast hi
      have hj' : vprod d c (R[j]).row < 0 := by exact_mod_cast hj
      have hx : R[i] ∈ P := by
        rcases List.mem_append.1 (hpart i) with hm | hm
        · rcases List.mem_append.1 hm with hm | hm
          · have := hE _ hm; omega
          · exact hm
        · have := hN _ hm; omega
      have hy : R[j] ∈ N := by
        rcases List.mem_append.1 (hpart j) with hm | hm
        · have := pos _ hm; omega
        · exact hm
      have hd2 : 2 ≤ d := by
        by_contra hd
        obtain ⟨q, hq, hne⟩ := h.proper _ (hpart i)
        have a1 := (h.ray _ (hpart i) q hq).1
        have a2 := (h.ray _ (hpart j) q hq).1
        interval_cases d
        · simp [vprod] at hne
        · simp only [vprod, List.range_one, List.map_cons, List.map_nil, List.sum_cons, List.sum_nil, add_zero, zero_add] at hi' hj' hne a1 a2
          generalize (R[i]).row.at' 1 = u at *
          generalize (R[j]).row.at' 1 = w at *
          generalize c.at' 1 = c1 at *
          generalize q.at' 1 = q1 at *
          have s1 : (c1 * u) * (c1 * w) < 0 := mul_neg_of_pos_of_neg hi' hj'
          have s2 : u * w < 0 := by
            by_contra hcon
            push Not at hcon
            have := mul_nonneg (mul_self_nonneg c1) hcon
            nlinarith
          have s3 : 0 ≤ (q1 * u) * (q1 * w) := mul_nonneg a1 a2
          have s4 : 0 < q1 * q1 := by
            have : q1 ≠ 0 := fun e => hne (by rw [e, zero_mul])
            exact mul_self_pos.2 this
          nlinarith [mul_neg_of_pos_of_neg s4 s2]
      have haL : AdjL d con lines R R[i] R[j] := by
        obtain ⟨a1, a2⟩ := ha
        refine ⟨fun z hz n1 n2 => ?_, ?_⟩
        · obtain ⟨l, hl', rfl⟩ := List.getElem_of_mem hz
          obtain ⟨b, hb, e1, e2, e3⟩ := a1 ⟨l, hl'⟩ (fun e => n1 (by rw [← e]; rfl)) (fun e => n2 (by rw [← e]; rfl))
          rw [rayFam, cA_toV] at e1 e2 e3
          exact exists_mem_iff.2 ⟨b, hb, by exact_mod_cast e1, by exact_mod_cast e2, by exact_mod_cast e3⟩
        · rw [Module.finrank_fin_fun] at a2
          rw [zeroBits_eq (K := K) (h.sat _ (hpart i)) (h.sat _ (hpart j))]
          exact a2
      have hz := h.mem_combos.2 ⟨_, hx, _, hy, hd2, haL, rfl⟩
      obtain ⟨g, hg, hh⟩ := h.combo_spec hst hP hN hx hy
      have e := toV_lin (K := K) hh
      have : comb (lin K d c) (rayFam K d R i) (rayFam K d R j) =
          (g : K) • toV K d (vectorCombine (R[j]).row (R[i]).row [] 0 (d + 1)) := by
        rw [e, comb, hcv, hcv]; rfl
      rw [this]
      refine Gen.smul (by exact_mod_cast hg.le) (Gen.of_ray ?_)
      exact List.mem_map.2 ⟨_, List.mem_append_right _ hz, rfl⟩
    have hG0 : ∀ i : Fin R.length, lin K d c (rayFam K d R i) = 0 →
        Gen lines ((kept ++ combos (d + 1) lines.length con.length E P N).map SRow.row) (rayFam K d R i) := by
      intro i hi
      rw [hcv] at hi
      have hi' : vprod d c (R[i]).row = 0 := by exact_mod_cast hi
      have hx : R[i] ∈ E := by
        rcases List.mem_append.1 (hpart i) with hm | hm
        · rcases List.mem_append.1 hm with hm | hm
          · exact hm
          · have := hP _ hm; omega
        · have := hN _ hm; omega
      refine Gen.of_ray ?_
      rw [List.map_append]
      exact List.mem_append_left _ (hkE _ hx)
    by_cases hc : c.at' 0 = 0
    · exact gen_zero hDD (lineSet_finite lines) hcL Gen.isCone hGL hG0 hG1 _ rfl (sat_iff.1 hv1) (hv2.2 hc)
    · refine gen_pos hDD (lineSet_finite lines) hcL Gen.isCone hGL (fun i hi => ?_) hG1 _ rfl (sat_iff.1 hv1) hv2.1
      rcases hi.eq_or_lt with hi | hi
      · exact hG0 i hi.symm
      · rw [hcv] at hi
        have hi' : 0 < vprod d c (R[i]).row := by exact_mod_cast hi
        have hx : R[i] ∈ P := by
          rcases List.mem_append.1 (hpart i) with hm | hm
          · rcases List.mem_append.1 hm with hm | hm
            · have := hE _ hm; omega
            · exact hm
          · have := hN _ hm; omega
        refine Gen.of_ray ?_
        rw [List.map_append]
        exact List.mem_append_left _ (hkP hc _ hx)
  · intro z hz
    rcases List.mem_append.1 hz with hz | hz
    · obtain ⟨⟨x, hx, e⟩, _, _⟩ := hk z hz
      obtain ⟨q, hq, hne⟩ := h.proper x (List.mem_append_left _ hx)
      exact ⟨q, List.mem_append_left _ hq, by rw [e]; exact hne⟩
    · obtain ⟨x, hx, y, hy, _, _, rfl⟩ := h.mem_combos.1 hz
      obtain ⟨f1, f2⟩ := h.combo_facts hst hP hN hx hy
      obtain ⟨q, hq, hne⟩ := h.proper x (List.mem_append_left _ (List.mem_append_right _ hx))
      exact ⟨q, List.mem_append_left _ hq, fun e => hne ((f2 q hq).2.1 e).1⟩
  · rw [List.map_append, List.pairwise_append]
    refine ⟨?_, h.combos_anti hst hP hN, ?_⟩
    · have h1 : ((E ++ P).map SRow.row).Pairwise (Anti2 d con) := by
        have := h.anti
        rw [List.map_append] at this
        exact (List.pairwise_append.1 this).1
      refine (h1.sublist hkp).imp ?_
      rintro a b ⟨⟨q, hq, e⟩, ⟨q', hq', e'⟩⟩
      exact ⟨⟨q, List.mem_append_left _ hq, e⟩, ⟨q', List.mem_append_left _ hq', e'⟩⟩
    · intro a ha b hb
      obtain ⟨z, hz, rfl⟩ := List.mem_map.1 ha
      obtain ⟨z', hz', rfl⟩ := List.mem_map.1 hb
      obtain ⟨⟨w, hw, e⟩, _, _⟩ := hk z hz
      obtain ⟨x, hx, y, hy, _, hadj, rfl⟩ := h.mem_combos.1 hz'
      obtain ⟨f1, f2⟩ := h.combo_facts hst hP hN hx hy
      rw [e]
      constructor
      · obtain ⟨q, hq, e1, e2⟩ := h.row_ne (List.mem_append_left _ hw) (List.mem_append_right _ hy) (ne_xy w hw y hy)
        exact ⟨q, List.mem_append_left _ hq, e1, fun e => e2 ((f2 q hq).2.1 e).2⟩
      · by_cases hwx : w = x
        · subst hwx
          exact ⟨c, List.mem_append_right _ (List.mem_singleton_self c), f1, (hP w hx).ne'⟩
        · obtain ⟨q, hq, e1, e2, e3⟩ := hadj.1 w (List.mem_append_left _ hw) hwx (ne_xy w hw y hy)
          exact ⟨q, List.mem_append_left _ hq, (f2 q hq).2.2 ⟨e1, e2⟩, e3⟩
  · intro z hz
    rcases List.mem_append.1 hz with hz | hz
    · exact (hk z hz).2.1
    · obtain ⟨x, hx, y, hy, _, _, rfl⟩ := h.mem_combos.1 hz
      obtain ⟨f1, f2⟩ := h.combo_facts hst hP hN hx hy
      intro b
      have sx := h.sat x (List.mem_append_left _ (List.mem_append_right _ hx)) b
      have sy := h.sat y (List.mem_append_right _ hy) b
      dsimp only
      rw [Nat.testBit_or, sx, sy]
      rcases lt_trichotomy b con.length with hb | hb | hb
      · have e : (con ++ [c]).getD b [] = con.getD b [] := List.getD_append _ _ _ _ hb
        rw [e, ← Bool.decide_or, decide_eq_decide]
        have := (f2 _ (getD_mem hb)).2
        simp only [List.length_append, List.length_singleton, hb, true_and, show b < con.length + 1 by omega]
        rw [ne_eq, ne_eq, ne_eq, this]
        tauto
      · subst hb
        have e : (con ++ [c]).getD con.length [] = c := by simp
        rw [e, f1]; simp
      · have : ¬ b < con.length := by omega
        have h2 : ¬ b < con.length + 1 := by omega
        simp [this, h2]

end

/-! ## The step on the lines -/

/-- eliminating a line: the rows are projected along the removed line -/
theorem elim_spec {c l0 q : Row} (h0 : l0.at' 0 = vprod d c l0) (hq : q.at' 0 = vprod d c q) (_ : l0.at' 0 ≠ 0) :
    ∃ g a b : ℤ, 0 < g ∧ (a = 1 ∧ b = 0 ∧ vprod d c q = 0 ∨ a = vprod d c l0 ∧ b = vprod d c q) ∧
      (∀ j, j < d → g * (elim (d + 1) l0 q).at' (j + 1) = a * q.at' (j + 1) - b * l0.at' (j + 1)) ∧
      vprod d c (elim (d + 1) l0 q) = 0 := by
  rw [elim]
  by_cases hz : q.at' 0 ≠ 0
  · rw [if_pos hz]
    obtain ⟨_, g, hg, hh⟩ := combine_spec q l0 q 0 (d + 1) (.inl hz)
    have hh' : ∀ j, j < d → g * (vectorCombine q l0 q 0 (d + 1)).at' (j + 1) =
        vprod d c l0 * q.at' (j + 1) - vprod d c q * l0.at' (j + 1) := fun j hj => by rw [hh j (by omega), h0, hq]
    refine ⟨g, _, _, hg, .inr ⟨rfl, rfl⟩, hh', ?_⟩
    have := vprod_lin (q := c) hh'
    have e : g * vprod d c (vectorCombine q l0 q 0 (d + 1)) = 0 := by rw [this]; ring
    exact (mul_eq_zero.1 e).resolve_left hg.ne'
  · rw [if_neg hz]
    push Not at hz
    rw [hq] at hz
    exact ⟨1, 1, 0, one_pos, .inl ⟨rfl, rfl, hz⟩, fun j _ => by ring, hz⟩

/-- projection along the removed line -/
def projL (K : Type*) [Field K] (d : ℕ) (c l0 : Row) (x : Fin d → K) : Fin d → K :=
  x - (dot c x / dot c (toV K d l0)) • toV K d l0

theorem projL_add (c l0 : Row) (x y : Fin d → K) : projL K d c l0 (x + y) = projL K d c l0 x + projL K d c l0 y := by
  have : dot c (x + y) = dot c x + dot c y := (lin K d c).map_add x y
  simp only [projL, this, add_div, add_smul]; abel

theorem projL_smul (c l0 : Row) (t : K) (x : Fin d → K) : projL K d c l0 (t • x) = t • projL K d c l0 x := by
  have : dot c (t • x) = t * dot c x := (lin K d c).map_smul t x
  simp only [projL, this, mul_div_assoc, mul_smul, smul_sub]

/-- the projection of a row is a multiple of the result of `elim` -/
theorem projL_elim {c l0 q : Row} (h0 : l0.at' 0 = vprod d c l0) (hq : q.at' 0 = vprod d c q) (hne : l0.at' 0 ≠ 0) :
    ∃ t : K, (0 < l0.at' 0 → 0 < t) ∧ projL K d c l0 (toV K d q) = t • toV K d (elim (d + 1) l0 q) := by
  obtain ⟨g, a, b, hg, hab, hh, _⟩ := elim_spec h0 hq hne
  have e := toV_lin (K := K) hh
  have hg' : (0 : K) < g := by exact_mod_cast hg
  have hc0 : ((vprod d c l0 : ℤ) : K) ≠ 0 := by rw [← h0]; exact_mod_cast hne
  have e' : toV K d (elim (d + 1) l0 q) = (g : K)⁻¹ • ((a : K) • toV K d q - (b : K) • toV K d l0) := by
    rw [← e, smul_smul, inv_mul_cancel₀ hg'.ne', one_smul]
  rw [projL, dot_toV, dot_toV]
  rcases hab with ⟨rfl, rfl, hz⟩ | ⟨rfl, rfl⟩
  · refine ⟨g, fun _ => hg', ?_⟩
    rw [e', smul_smul, mul_inv_cancel₀ hg'.ne', hz]
    simp
  · refine ⟨(g : K) / ((vprod d c l0 : ℤ) : K), fun hp => div_pos hg' (by rw [h0] at hp; exact_mod_cast hp), ?_⟩
    rw [e', smul_smul, smul_sub, smul_smul, smul_smul]
    congr 1
    · have : (g : K) / ((vprod d c l0 : ℤ) : K) * (g : K)⁻¹ * ((vprod d c l0 : ℤ) : K) = 1 := by field_simp
      rw [this, one_smul]
    · congr 1
      field_simp

section
variable {con lines : List Row} {rays : List SRow} {c l0 : Row}

/-- the step on the lines: `lines'` are the other lines, `l1` the oriented line -/
theorem DDL.line_step (h : DDL K d con lines rays) {lines' : List Row} (hp : lines.Perm (l0 :: lines'))
    (hst : ∀ x ∈ rays, x.row.at' 0 = vprod d c x.row) (hstl : ∀ l ∈ lines, l.at' 0 = vprod d c l) (hne : l0.at' 0 ≠ 0)
    {l1 : Row} (hl1 : l1 = if l0.at' 0 < 0 then l0.neg else l0) :
    DDL K d (con ++ [c]) (lines'.map (elim (d + 1) l0))
      ((if c.at' 0 ≠ 0 then [⟨l1, 1 <<< con.length⟩] else []) ++ rays.map fun x => { x with row := elim (d + 1) l1 x.row }) := by
  have hmem0 : l0 ∈ lines := hp.mem_iff.2 (List.mem_cons_self ..)
  have hmem' : ∀ l ∈ lines', l ∈ lines := fun l hl => hp.mem_iff.2 (List.mem_cons_of_mem _ hl)
  have h0 := hstl l0 hmem0
  have h1 : l1.at' 0 = vprod d c l1 ∧ 0 < l1.at' 0 ∧ (∀ q ∈ con, vprod d q l1 = 0) := by
    rw [hl1]
    by_cases hneg : l0.at' 0 < 0
    · rw [if_pos hneg, vprod_neg, at_neg, h0]
      exact ⟨rfl, by omega, fun q hq => by rw [vprod_neg, h.line l0 hmem0 q hq, neg_zero]⟩
    · rw [if_neg hneg]
      exact ⟨h0, by omega, h.line l0 hmem0⟩
  obtain ⟨h1s, h1p, h1q⟩ := h1
  -- the new rays
  have hr : ∀ x ∈ rays, ∀ q ∈ con, ∃ s : ℤ, ∃ g : ℤ, 0 < s ∧ 0 < g ∧ g * vprod d q (elim (d + 1) l1 x.row) = s * vprod d q x.row := by
    intro x hx q hq
    obtain ⟨g, a, b, hg, hab, hh, _⟩ := elim_spec h1s (hst x hx) h1p.ne'
    have := vprod_lin (q := q) hh
    rw [h1q q hq, mul_zero, sub_zero] at this
    refine ⟨a, g, ?_, hg, this⟩
    rcases hab with ⟨rfl, _⟩ | ⟨rfl, _⟩
    · exact one_pos
    · omega
  have hrz : ∀ x ∈ rays, ∀ q ∈ con, (0 ≤ vprod d q (elim (d + 1) l1 x.row)) ∧
      (vprod d q (elim (d + 1) l1 x.row) = 0 ↔ vprod d q x.row = 0) := by
    intro x hx q hq
    obtain ⟨s, g, hs, hg, e⟩ := hr x hx q hq
    have hp := (h.ray x hx q hq).1
    refine ⟨?_, ?_, ?_⟩
    · by_contra hc
      have := mul_neg_of_pos_of_neg hg (not_le.1 hc)
      have := mul_nonneg hs.le hp
      omega
    · intro e0; rw [e0, mul_zero] at e; exact (mul_eq_zero.1 e.symm).resolve_left hs.ne'
    · intro e0; rw [e0, mul_zero] at e; exact (mul_eq_zero.1 e).resolve_left hg.ne'
  have hrc : ∀ x ∈ rays, vprod d c (elim (d + 1) l1 x.row) = 0 := by
    intro x hx
    obtain ⟨g, a, b, hg, hab, hh, e⟩ := elim_spec h1s (hst x hx) h1p.ne'
    exact e
  have bit : ∀ b, (1 <<< con.length : ℕ).testBit b = decide (b = con.length) := by
    intro b; rw [Nat.one_shiftLeft, Nat.testBit_two_pow]; simp [eq_comm]
  have mem : ∀ z ∈ (if c.at' 0 ≠ 0 then [(⟨l1, 1 <<< con.length⟩ : SRow)] else []) ++
      rays.map (fun x => ({ x with row := elim (d + 1) l1 x.row } : SRow)),
      (c.at' 0 ≠ 0 ∧ z = ⟨l1, 1 <<< con.length⟩) ∨ ∃ x ∈ rays, z = { x with row := elim (d + 1) l1 x.row } := by
    intro z hz
    rcases List.mem_append.1 hz with hz | hz
    · by_cases hc : c.at' 0 ≠ 0
      · rw [if_pos hc] at hz; exact .inl ⟨hc, List.mem_singleton.1 hz⟩
      · rw [if_neg hc] at hz; simp at hz
    · obtain ⟨x, hx, rfl⟩ := List.mem_map.1 hz; exact .inr ⟨x, hx, rfl⟩
  refine ⟨?_, ?_, ?_, ?_, ?_, ?_⟩
  · intro l hl q hq
    obtain ⟨l', hl', rfl⟩ := List.mem_map.1 hl
    obtain ⟨g, a, b, hg, hab, hh, e⟩ := elim_spec h0 (hstl l' (hmem' l' hl')) hne
    rcases List.mem_append.1 hq with hq | hq
    · have := vprod_lin (q := q) hh
      rw [h.line l0 hmem0 q hq, h.line l' (hmem' l' hl') q hq, mul_zero, mul_zero, sub_zero] at this
      exact (mul_eq_zero.1 this).resolve_left hg.ne'
    · obtain rfl := List.mem_singleton.1 hq; exact e
  · intro z hz q hq
    rcases mem z hz with ⟨hc, rfl⟩ | ⟨x, hx, rfl⟩
    · rcases List.mem_append.1 hq with hq | hq
      · rw [h1q q hq]; exact ⟨le_rfl, fun _ => rfl⟩
      · obtain rfl := List.mem_singleton.1 hq
        dsimp only
        rw [← h1s]
        exact ⟨h1p.le, fun e => absurd e hc⟩
    · dsimp only
      rcases List.mem_append.1 hq with hq | hq
      · exact ⟨(hrz x hx q hq).1, fun e => (hrz x hx q hq).2.2 ((h.ray x hx q hq).2 e)⟩
      · obtain rfl := List.mem_singleton.1 hq
        rw [hrc x hx]; exact ⟨le_rfl, fun _ => rfl⟩
  · intro v hv
    have hv1 : Sat con v := fun q hq => hv q (List.mem_append_left _ hq)
    have hv2 := hv c (List.mem_append_right _ (List.mem_singleton_self c))
    have hc1 : (0 : K) < dot c (toV K d l1) := by rw [dot_toV, ← h1s]; exact_mod_cast h1p
    have hproj : projL K d c l0 = projL K d c l1 := by
      rw [hl1]
      by_cases hneg : l0.at' 0 < 0
      · rw [if_pos hneg]
        funext x
        have e : dot c (-toV K d l0) = - dot c (toV K d l0) := (lin K d c).map_neg _
        rw [projL, projL, toV_neg, e, div_neg, neg_smul_neg]
      · rw [if_neg hneg]
    set G : (Fin d → K) → Prop := fun y => Gen (lines'.map (elim (d + 1) l0))
      (((if c.at' 0 ≠ 0 then [(⟨l1, 1 <<< con.length⟩ : SRow)] else []) ++
        rays.map fun x => ({ x with row := elim (d + 1) l1 x.row } : SRow)).map SRow.row) (projL K d c l1 y) with hG
    have hcone : IsCone (K := K) G := by
      refine ⟨?_, ?_, ?_⟩
      · have := projL_smul (K := K) (d := d) c l1 0 0
        rw [smul_zero, zero_smul] at this
        simp only [hG, this]; exact .zero
      · intro x y hx hy; simp only [hG, projL_add] at *; exact hx.add hy
      · intro x t ht hx; simp only [hG, projL_smul] at *; exact hx.smul ht
    have hGv : G v := by
      refine Gen.le hcone (fun l hl => ?_) (fun r hr => ?_) (h.gen v hv1)
      · have key : ∃ t : K, projL K d c l1 (toV K d l) = t • toV K d (elim (d + 1) l0 l) ∧ (l ∈ lines' ∨ t = 0) := by
          rcases List.mem_cons.1 (hp.mem_iff.1 hl) with rfl | hl'
          · refine ⟨0, ?_, .inr rfl⟩
            rw [← hproj, projL, div_self, one_smul, sub_self, zero_smul]
            rw [dot_toV, ← h0]; exact_mod_cast hne
          · obtain ⟨t, _, e⟩ := projL_elim (K := K) h0 (hstl l hl) hne
            exact ⟨t, by rw [← hproj, e], .inl hl'⟩
        obtain ⟨t, e, ht⟩ := key
        have en : projL K d c l1 (-toV K d l) = (-t) • toV K d (elim (d + 1) l0 l) := by
          have := projL_smul (K := K) c l1 (-1) (toV K d l)
          rw [neg_one_smul, neg_one_smul] at this
          rw [this, e, neg_smul]
        simp only [hG, e, en]
        rcases ht with ht | rfl
        · have m := List.mem_map_of_mem (f := elim (d + 1) l0) ht
          have a1 := Gen.line (K := K) (d := d) (rays := (((if c.at' 0 ≠ 0 then [(⟨l1, 1 <<< con.length⟩ : SRow)] else []) ++
            rays.map fun x => ({ x with row := elim (d + 1) l1 x.row } : SRow)).map SRow.row)) t .zero m
          have a2 := Gen.line (K := K) (d := d) (rays := (((if c.at' 0 ≠ 0 then [(⟨l1, 1 <<< con.length⟩ : SRow)] else []) ++
            rays.map fun x => ({ x with row := elim (d + 1) l1 x.row } : SRow)).map SRow.row)) (-t) .zero m
          rw [zero_add] at a1 a2
          exact ⟨a1, a2⟩
        · rw [neg_zero, zero_smul]; exact ⟨.zero, .zero⟩
      · obtain ⟨x, hx, rfl⟩ := List.mem_map.1 hr
        obtain ⟨t, ht, e⟩ := projL_elim (K := K) h1s (hst x hx) h1p.ne'
        simp only [hG, e]
        refine Gen.smul (ht h1p).le (Gen.of_ray ?_)
        rw [List.map_append]
        exact List.mem_append_right _ (List.mem_map.2 ⟨_, List.mem_map.2 ⟨x, hx, rfl⟩, rfl⟩)
    have e : v = projL K d c l1 v + (dot c v / dot c (toV K d l1)) • toV K d l1 := by rw [projL]; abel
    rw [e]
    refine Gen.add hGv ?_
    by_cases hc : c.at' 0 = 0
    · rw [hv2.2 hc, zero_div, zero_smul]; exact .zero
    · refine Gen.smul (div_nonneg hv2.1 hc1.le) (Gen.of_ray ?_)
      rw [List.map_append, if_pos hc]
      exact List.mem_append_left _ (by simp)
  · intro z hz
    rcases mem z hz with ⟨hc, rfl⟩ | ⟨x, hx, rfl⟩
    · exact ⟨c, List.mem_append_right _ (List.mem_singleton_self c), by dsimp only; omega⟩
    · obtain ⟨q, hq, hne⟩ := h.proper x hx
      exact ⟨q, List.mem_append_left _ hq, fun e => hne ((hrz x hx q hq).2.1 e)⟩
  · rw [List.map_append, List.pairwise_append]
    refine ⟨?_, ?_, ?_⟩
    · by_cases hc : c.at' 0 ≠ 0
      · rw [if_pos hc]; simp
      · rw [if_neg hc]; simp
    · rw [List.map_map, List.pairwise_map]
      refine (List.Pairwise.and_mem.1 (List.pairwise_map.1 h.anti)).imp ?_
      rintro x y ⟨hx, hy, ⟨q, hq, e1, e2⟩, ⟨q', hq', e1', e2'⟩⟩
      exact ⟨⟨q, List.mem_append_left _ hq, (hrz x hx q hq).2.2 e1, fun e => e2 ((hrz y hy q hq).2.1 e)⟩,
        ⟨q', List.mem_append_left _ hq', (hrz y hy q' hq').2.2 e1', fun e => e2' ((hrz x hx q' hq').2.1 e)⟩⟩
    · intro a ha b hb
      obtain ⟨z, hz, rfl⟩ := List.mem_map.1 hb
      obtain ⟨x, hx, rfl⟩ := List.mem_map.1 hz
      have ha' : a = l1 := by
        by_cases hc : c.at' 0 ≠ 0
        · rw [if_pos hc] at ha; simpa using ha
        · rw [if_neg hc] at ha; simp at ha
      subst ha'
      refine ⟨?_, ⟨c, List.mem_append_right _ (List.mem_singleton_self c), hrc x hx, by omega⟩⟩
      obtain ⟨q, hq, hne⟩ := h.proper x hx
      exact ⟨q, List.mem_append_left _ hq, h1q q hq, fun e => hne ((hrz x hx q hq).2.1 e)⟩
  · intro z hz b
    have e1 : b < con.length → (con ++ [c]).getD b [] = con.getD b [] := fun hb => List.getD_append _ _ _ _ hb
    have e2 : (con ++ [c]).getD con.length [] = c := by simp
    rcases mem z hz with ⟨hc, rfl⟩ | ⟨x, hx, rfl⟩
    · dsimp only
      rw [bit, decide_eq_decide]
      rcases lt_trichotomy b con.length with hb | rfl | hb
      · rw [e1 hb, h1q _ (getD_mem hb)]; simp; omega
      · rw [e2]; simp; omega
      · simp; omega
    · dsimp only
      rw [h.sat x hx b, decide_eq_decide]
      rcases lt_trichotomy b con.length with hb | rfl | hb
      · rw [e1 hb, ne_eq, ne_eq, (hrz x hx _ (getD_mem hb)).2]
        simp only [List.length_append, List.length_singleton]
        constructor
        · rintro ⟨_, h2⟩; exact ⟨by omega, h2⟩
        · rintro ⟨_, h2⟩; exact ⟨hb, h2⟩
      · rw [e2, hrc x hx]; simp
      · simp only [List.length_append, List.length_singleton]
        constructor
        · rintro ⟨h2, _⟩; omega
        · rintro ⟨h2, _⟩; omega

end

end Apron.Poly
