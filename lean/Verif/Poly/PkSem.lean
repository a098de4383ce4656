import Verif.Poly.PkDefs
import Verif.Poly.Indep

/-!
# Polyhedra: meaning, well-formedness, conversion between the two representations
-/

set_option autoImplicit false
set_option linter.unusedSectionVars false

namespace Apron.Poly

variable {K : Type*} [LinearOrder K] [Field K] [IsStrictOrderedRing K] {n d : ℕ}

/-- the cone generated by the rows of a matrix of generators -/
def GenM (F : List Row) (y : Fin d → K) : Prop := Gen (eqRows F) (ineqRows F) y

/-- the homogeneous coordinates of a point -/
def hom (x : Fin n → K) : Fin (n + 1) → K := Fin.cons 1 x

/-- the cone described by the available matrices -/
def Rep.cone : Rep → (Fin (n + 1) → K) → Prop
  | .bot, _ => False
  | .cons C, y => Sat C y
  | .gens F, y => GenM F y
  | .both f, y => Sat f.crows y

/-- the meaning: the set of points of a polyhedron -/
def Rep.γ (r : Rep) (x : Fin n → K) : Prop := r.cone (hom x)

/-- both matrices are minimal and describe the same cone; the equalities and the lines are independent -/
structure Full.Ok (K : Type*) [LinearOrder K] [Field K] [IsStrictOrderedRing K] (d : ℕ) (f : Full) : Prop where
  leq : f.nbeq ≤ f.C.length
  lel : f.nbline ≤ f.F.length
  min : MinOk K d f.eqs f.ineqs f.lines f.rays
  indE : Indep K d f.eqs
  indL : Indep K d f.lines

/-- all the points of the cone have a non-negative first coordinate -/
def PosCone (S : (Fin (n + 1) → K) → Prop) : Prop := ∀ y, S y → 0 ≤ y 0

/-- some point of the cone has a positive first coordinate -/
def NonEmpty (S : (Fin (n + 1) → K) → Prop) : Prop := ∃ y, S y ∧ 0 < y 0

/-- well-formed polyhedra: the positivity constraint is implied; generators describe a non-empty polyhedron -/
def Rep.Wf (K : Type*) [LinearOrder K] [Field K] [IsStrictOrderedRing K] (n : ℕ) : Rep → Prop
  | .bot => True
  | .cons C => PosCone (K := K) (n := n) (Sat C)
  | .gens F => PosCone (K := K) (n := n) (GenM F) ∧ NonEmpty (K := K) (n := n) (GenM F)
  | .both f => f.Ok K (n + 1) ∧ PosCone (K := K) (n := n) (Sat f.crows) ∧ NonEmpty (K := K) (n := n) (Sat f.crows)

/-! ## Matrices -/

theorem crows_eq (f : Full) : f.crows = f.eqs ++ f.ineqs.map SRow.row := by
  rw [Full.crows, Full.eqs, Full.ineqs, ← List.map_append, List.take_append_drop]

theorem frows_eq (f : Full) : f.frows = f.lines ++ f.rays.map SRow.row := by
  rw [Full.frows, Full.lines, Full.rays, ← List.map_append, List.take_append_drop]

theorem Gen.mono {L L' R R' : List Row} (hL : ∀ q ∈ L, q ∈ L') (hR : ∀ q ∈ R, q ∈ R') {y : Fin d → K} (h : Gen L R y) :
    Gen L' R' y :=
  Gen.le Gen.isCone (fun q hq => ⟨.of_line (hL q hq), .of_neg_line (hL q hq)⟩) (fun q hq => .of_ray (hR q hq)) h

/-- the rows with a null status are lines, the others are rays -/
theorem genM_append {L R : List Row} (hL : ∀ q ∈ L, q.at' 0 = 0) (hR : ∀ q ∈ R, q.at' 0 ≠ 0) (y : Fin d → K) :
    GenM (L ++ R) y ↔ Gen L R y := by
  have e1 : eqRows (L ++ R) = L := by
    rw [eqRows, List.filter_append, List.filter_eq_self.2 (by simpa using hL), List.filter_eq_nil_iff.2 (by simpa using hR),
      List.append_nil]
  have e2 : ineqRows (L ++ R) = R := by
    rw [ineqRows, List.filter_append, List.filter_eq_nil_iff.2 (by simpa using hL), List.filter_eq_self.2 (by simpa using hR),
      List.nil_append]
  rw [GenM, e1, e2]

theorem GenM.perm {F F' : List Row} (h : F.Perm F') (y : Fin d → K) : GenM F y ↔ GenM F' y := by
  constructor
  · exact Gen.mono (fun q hq => ((h.filter _).mem_iff).1 hq) (fun q hq => ((h.filter _).mem_iff).1 hq)
  · exact Gen.mono (fun q hq => ((h.filter _).mem_iff).2 hq) (fun q hq => ((h.filter _).mem_iff).2 hq)

theorem Full.Ok.sat_iff {f : Full} (h : f.Ok K d) (y : Fin d → K) : Sat f.crows y ↔ GenM f.frows y := by
  rw [crows_eq, frows_eq, h.min.prim.gen_iff, genM_append h.min.lines]
  intro q hq
  obtain ⟨x, hx, rfl⟩ := List.mem_map.1 hq
  exact (h.min.rays x hx).ne'

theorem Full.Ok.sat_dual {f : Full} (h : f.Ok K d) (y : Fin d → K) : Sat f.frows y ↔ GenM f.crows y := by
  rw [crows_eq, frows_eq, h.min.dual.gen_iff, genM_append h.min.eqs]
  intro q hq
  obtain ⟨x, hx, rfl⟩ := List.mem_map.1 hq
  exact (h.min.ineqs x hx).ne'

theorem Full.dual_dual (f : Full) : f.dual.dual = f := rfl

theorem Rep.dual_dual (r : Rep) : r.dual.dual = r := by cases r <;> rfl

theorem Rep.dual_eq_bot {r : Rep} : r.dual = .bot ↔ r = .bot := by cases r <;> simp [Rep.dual]

theorem Full.Ok.dual {f : Full} (h : f.Ok K d) : f.dual.Ok K d := ⟨h.lel, h.leq, h.min.symm, h.indL, h.indE⟩

/-! ## Polarity -/

theorem linV_add_left (v w y : Fin d → K) : linV (v + w) y = linV v y + linV w y := by
  rw [linV_comm, map_add, linV_comm, linV_comm y w]

theorem linV_smul_left (t : K) (v y : Fin d → K) : linV (t • v) y = t * linV v y := by
  rw [linV_comm, map_smul, smul_eq_mul, linV_comm]

theorem linV_neg_left (v y : Fin d → K) : linV (-v) y = - linV v y := by
  rw [linV_comm, map_neg, linV_comm]

theorem Sat.isCone (C : List Row) : IsCone (K := K) (Sat (K := K) (d := d) C) where
  zero := fun q _ => by rw [← lin_apply, map_zero]; exact ⟨le_rfl, fun _ => rfl⟩
  add := fun {x y} hx hy q hq => by
    rw [← lin_apply, map_add, lin_apply, lin_apply]
    exact ⟨add_nonneg (hx q hq).1 (hy q hq).1, fun h => by rw [(hx q hq).2 h, (hy q hq).2 h, add_zero]⟩
  smul := fun {t x} ht hx q hq => by
    rw [← lin_apply, map_smul, lin_apply, smul_eq_mul]
    exact ⟨mul_nonneg ht (hx q hq).1, fun h => by rw [(hx q hq).2 h, mul_zero]⟩

/-- the generators are valid constraints of the polar cone -/
theorem sat_iff_polar (F : List Row) (v : Fin d → K) : Sat F v ↔ ∀ y : Fin d → K, GenM F y → 0 ≤ linV v y := by
  constructor
  · intro h y hy
    refine Gen.le (G := fun y => 0 ≤ linV v y) ⟨by simp, fun h1 h2 => by rw [map_add]; linarith, fun ht h => by
      rw [map_smul, smul_eq_mul]; exact mul_nonneg ht h⟩ (fun q hq => ?_) (fun q hq => ?_) hy
    · rw [eqRows, List.mem_filter] at hq
      have := (h q hq.1).2 (by simpa using hq.2)
      rw [dot_eq_linV, linV_comm] at this
      rw [map_neg, this]; simp
    · rw [ineqRows, List.mem_filter] at hq
      rw [linV_comm, ← dot_eq_linV]; exact (h q hq.1).1
  · intro h q hq
    by_cases h0 : q.at' 0 = 0
    · have hm : q ∈ eqRows F := by rw [eqRows, List.mem_filter]; exact ⟨hq, by simpa using h0⟩
      have h1 := h _ (Gen.of_line (rays := ineqRows F) hm)
      have h2 := h _ (Gen.of_neg_line (rays := ineqRows F) hm)
      rw [map_neg] at h2
      rw [dot_eq_linV, linV_comm]
      have : linV v (toV K d q) = 0 := le_antisymm (by linarith) h1
      rw [this]; exact ⟨le_rfl, fun _ => rfl⟩
    · have hm : q ∈ ineqRows F := by rw [ineqRows, List.mem_filter]; exact ⟨hq, by simpa using h0⟩
      have h1 := h _ (Gen.of_ray (lines := eqRows F) hm)
      rw [dot_eq_linV, linV_comm]
      exact ⟨h1, fun h => absurd h h0⟩

/-- the valid constraints of a cone are generated by its constraints -/
theorem genM_iff_polar (C : List Row) (v : Fin d → K) : GenM C v ↔ ∀ y : Fin d → K, Sat C y → 0 ≤ linV v y := by
  constructor
  · intro h y hy
    rw [linV_comm]
    exact (sat_iff_polar C y).1 hy v h
  · exact fun h => farkas_rows h

theorem Rep.cone_isCone {r : Rep} (hr : r ≠ .bot) : IsCone (K := K) (r.cone (K := K) (n := n)) := by
  cases r with
  | bot => exact absurd rfl hr
  | cons C => exact Sat.isCone C
  | gens F => exact Gen.isCone
  | both f => exact Sat.isCone _

/-- the cone of the dual polyhedron is the polar cone -/
theorem Rep.cone_dual {r : Rep} (hr : r ≠ .bot) (hok : ∀ f, r = .both f → f.Ok K (n + 1)) (v : Fin (n + 1) → K) :
    r.dual.cone v ↔ ∀ y, r.cone (n := n) y → 0 ≤ linV v y := by
  cases r with
  | bot => exact absurd rfl hr
  | cons C => exact genM_iff_polar C v
  | gens F => exact sat_iff_polar F v
  | both f =>
    have h := hok f rfl
    change Sat f.dual.crows v ↔ ∀ y, Sat f.crows y → _
    rw [← genM_iff_polar, ← h.sat_dual]; rfl

theorem Rep.Wf.ok {r : Rep} (h : r.Wf K n) : ∀ f, r = .both f → f.Ok K (n + 1) := by
  rintro f rfl; exact h.1

theorem Rep.Wf.pos {r : Rep} (h : r.Wf K n) : PosCone (K := K) (n := n) r.cone := by
  cases r with
  | bot => exact fun y hy => hy.elim
  | cons C => exact h
  | gens F => exact h.1
  | both f => exact h.2.1

theorem Rep.Wf.nonEmpty {r : Rep} (h : r.Wf K n) (hF : r.F? ≠ none) : NonEmpty (K := K) (n := n) r.cone := by
  cases r with
  | bot => exact absurd rfl hF
  | cons C => exact absurd rfl hF
  | gens F => exact h.2
  | both f => exact h.2.2

/-! ## Cones and polyhedra -/

theorem hom_zero (x : Fin n → K) : hom x 0 = 1 := rfl

theorem exists_hom {y : Fin (n + 1) → K} (h : y 0 = 1) : ∃ x : Fin n → K, y = hom x := by
  refine ⟨fun i => y i.succ, ?_⟩
  funext i
  refine Fin.cases ?_ (fun j => ?_) i
  · exact h
  · rfl

theorem IsCone.exists_point {S : (Fin (n + 1) → K) → Prop} (hS : IsCone (K := K) S) (h : NonEmpty S) : ∃ x : Fin n → K, S (hom x) := by
  obtain ⟨y, hy, h0⟩ := h
  obtain ⟨x, e⟩ := exists_hom (y := (y 0)⁻¹ • y) (by simp [h0.ne'])
  exact ⟨x, e ▸ hS.smul (inv_nonneg.2 h0.le) hy⟩

/-- a linear inequality valid on a non-empty polyhedron is valid on its cone -/
theorem IsCone.valid {S : (Fin (n + 1) → K) → Prop} (hS : IsCone (K := K) S) (hpos : PosCone S) (hne : ∃ x : Fin n → K, S (hom x))
    {l : (Fin (n + 1) → K) →ₗ[K] K} (h : ∀ x : Fin n → K, S (hom x) → 0 ≤ l (hom x)) {y : Fin (n + 1) → K} (hy : S y) : 0 ≤ l y := by
  rcases (hpos y hy).lt_or_eq with h0 | h0
  · obtain ⟨x, e⟩ := exists_hom (y := (y 0)⁻¹ • y) (by simp [h0.ne'])
    have := h x (e ▸ hS.smul (inv_nonneg.2 h0.le) hy)
    rw [← e, map_smul, smul_eq_mul] at this
    exact nonneg_of_mul_nonneg_right this (inv_pos.2 h0)
  · obtain ⟨x, hx⟩ := hne
    by_contra hneg
    push Not at hneg
    have ht : 0 ≤ (l (hom x) + 1) / (-(l y)) := div_nonneg (by linarith [h x hx]) (by linarith)
    have hmem := hS.add hx (hS.smul ht hy)
    obtain ⟨x', e⟩ := exists_hom (y := hom x + ((l (hom x) + 1) / (-(l y))) • y) (by
      rw [Pi.add_apply, Pi.smul_apply, hom_zero, ← h0]; simp)
    have := h x' (e ▸ hmem)
    rw [← e, map_add, map_smul, smul_eq_mul, div_mul_eq_mul_div, div_neg, mul_div_cancel_right₀ _ hneg.ne] at this
    linarith

theorem Sat.of_lin {C : List Row} {y : Fin d → K} :
    Sat C y ↔ ∀ q ∈ C, 0 ≤ lin K d q y ∧ (q.at' 0 = 0 → 0 ≤ (-lin K d q) y) := by
  simp only [Sat, LinearMap.neg_apply, lin_apply]
  refine forall_congr' fun q => forall_congr' fun _ => ⟨fun h => ⟨h.1, fun h0 => by rw [h.2 h0]; simp⟩, fun h => ⟨h.1, fun h0 => ?_⟩⟩
  exact le_antisymm (by linarith [h.2 h0]) h.1

/-- constraints valid on a non-empty polyhedron are valid on its cone -/
theorem IsCone.sat {S : (Fin (n + 1) → K) → Prop} (hS : IsCone (K := K) S) (hpos : PosCone S) (hne : ∃ x : Fin n → K, S (hom x))
    {C : List Row} (h : ∀ x : Fin n → K, S (hom x) → Sat C (hom x)) {y : Fin (n + 1) → K} (hy : S y) : Sat C y := by
  rw [Sat.of_lin]
  intro q hq
  exact ⟨hS.valid hpos hne (fun x hx => (Sat.of_lin.1 (h x hx) q hq).1) hy,
    fun h0 => hS.valid hpos hne (fun x hx => (Sat.of_lin.1 (h x hx) q hq).2 h0) hy⟩

/-! ## Sorting and merging -/

theorem sortRows_perm (size : ℕ) (C : List Row) : (sortRows size C).Perm C := List.perm_insertionSort _ _

theorem sat_sortRows (size : ℕ) (C : List Row) (y : Fin d → K) : Sat (sortRows size C) y ↔ Sat C y :=
  Sat.perm (sortRows_perm size C)

theorem cmpList_eq {l m : List ℤ} (h : cmpList l m = .eq) : l = m := by
  induction l generalizing m with
  | nil => cases m with
    | nil => rfl
    | cons b m => simp [cmpList] at h
  | cons a l ih =>
    cases m with
    | nil => simp [cmpList] at h
    | cons b m =>
      rw [cmpList] at h
      by_cases h1 : a < b
      · rw [if_pos h1] at h; simp at h
      · rw [if_neg h1] at h
        by_cases h2 : b < a
        · rw [if_pos h2] at h; simp at h
        · rw [if_neg h2] at h
          rw [ih h, le_antisymm (not_lt.1 h2) (not_lt.1 h1)]

theorem vcmp_eq {size : ℕ} {q1 q2 : Row} (h : vcmp size q1 q2 = .eq) {j : ℕ} (hj : j < size) : q1.at' j = q2.at' j := by
  have := cmpList_eq h
  rw [vkey, vkey, List.cons_append, List.cons_append, List.cons.injEq] at this
  obtain ⟨h0, h1⟩ := this
  have h2 := List.append_inj_left' h1 rfl
  have h3 := List.append_inj_right' h1 rfl
  match j, hj with
  | 0, _ => exact h0
  | 1, _ => simpa using h3
  | j + 2, hj =>
    have hj' : j < ((List.range (size - 2)).map fun j => q1.at' (j + 2)).length := by simp; omega
    have := List.getElem_of_eq h2 hj'
    simpa using this

theorem dot_congr {q q' : Row} (h : ∀ j, j < d → q.at' (j + 1) = q'.at' (j + 1)) (y : Fin d → K) : dot q y = dot q' y := by
  rw [dot, dot]; exact Finset.sum_congr rfl fun j _ => by rw [h j j.2]

theorem Sat.cons_iff {q : Row} {C : List Row} {y : Fin d → K} :
    Sat (q :: C) y ↔ (0 ≤ dot q y ∧ (q.at' 0 = 0 → dot q y = 0)) ∧ Sat C y := by
  simp [Sat]

theorem Sat.nil (y : Fin d → K) : Sat [] y := by simp [Sat]

theorem sat_mergeLoop (m : ℕ) (a b : List Row) (y : Fin d → K) : Sat (mergeLoop (d + 1) m a b) y ↔ Sat a y ∧ Sat b y := by
  induction m generalizing a b with
  | zero => rw [mergeLoop, Sat.append]
  | succ m ih =>
    cases a with
    | nil => rw [mergeLoop]; exact ⟨fun h => ⟨Sat.nil y, h⟩, fun h => h.2⟩
    | cons p a =>
      cases b with
      | nil => rw [mergeLoop]; exact ⟨fun h => ⟨h, Sat.nil y⟩, fun h => h.1⟩
      | cons q b =>
        rw [mergeLoop]
        cases hc : vcmp (d + 1) p q with
        | lt => dsimp only; rw [Sat.cons_iff, ih, Sat.cons_iff (q := p)]; exact and_assoc.symm
        | gt => dsimp only; rw [Sat.cons_iff, ih, Sat.cons_iff (q := q), and_left_comm]
        | eq =>
          dsimp only
          rw [Sat.cons_iff, ih, Sat.cons_iff (q := p), Sat.cons_iff (q := q)]
          rw [vcmp_eq hc (Nat.succ_pos _), dot_congr (fun j hj => vcmp_eq hc (Nat.succ_lt_succ hj)) y]
          constructor
          · rintro ⟨h1, h2, h3⟩; exact ⟨⟨h1, h2⟩, h1, h3⟩
          · rintro ⟨⟨h1, h2⟩, _, h3⟩; exact ⟨h1, h2, h3⟩

theorem sat_mergeRows (a b : List Row) (y : Fin d → K) : Sat (mergeRows (d + 1) a b) y ↔ Sat a y ∧ Sat b y := sat_mergeLoop _ _ _ _

/-! ## Conversion -/

theorem ofMin_ok {m : MinRep} {b1 b2 : Bool} (h : m.Ok K d) (hE : Indep K d ((m.C.take m.nbeq).map SRow.row))
    (hL : Indep K d (m.F.take m.nbline)) : (Full.ofMin m b1 b2).Ok K d := by
  have e1 : (Full.ofMin m b1 b2).lines = m.F.take m.nbline := by
    rw [Full.lines, Full.ofMin]
    dsimp only
    rw [List.take_append_of_le_length (by simpa using h.2.1), List.take_of_length_le (by simp), List.map_map]
    exact List.map_id' _
  have e2 : (Full.ofMin m b1 b2).rays = resat m.nbeq (m.C.drop m.nbeq) (m.F.drop m.nbline) m.nbline := by
    have hl : ((m.F.take m.nbline).map fun q => (⟨q, 0⟩ : SRow)).length = m.nbline := by
      rw [List.length_map, List.length_take]; exact min_eq_left h.2.1
    rw [Full.rays, Full.ofMin]
    dsimp only
    rw [List.drop_append_of_le_length (by rw [hl]), List.drop_eq_nil_of_le (by rw [hl]), List.nil_append]
  refine ⟨h.1, ?_, ?_, hE, ?_⟩
  · rw [Full.ofMin]; dsimp only; simp only [List.length_append, List.length_map, List.length_take]
    have := h.2.1
    omega
  · rw [e1, e2]; exact h.2.2.2.2
  · rw [e1]; exact hL

theorem ofMin_crows (m : MinRep) (b1 b2 : Bool) : (Full.ofMin m b1 b2).crows = m.C.map SRow.row := rfl

theorem minimize_false {C : List Row} {nb dec : ℕ} : minimize nb dec false C ≠ none := by
  rw [minimize, finishMin]; simp

theorem addAndMinimize_false {C newC L : List Row} {R : List SRow} {nb dec : ℕ} : addAndMinimize nb dec false C newC L R ≠ none := by
  rw [addAndMinimize, finishMin]; simp

theorem chernikova_shape (n : ℕ) (r : Rep) : r.chernikova n = .bot ∨ ∃ f, r.chernikova n = .both f := by
  cases r with
  | bot => exact .inl rfl
  | both f => exact .inr ⟨f, rfl⟩
  | cons C => rw [Rep.chernikova]; split <;> simp
  | gens F => rw [Rep.chernikova]; split <;> simp

/-- the conversion gives both representations of the same cone -/
theorem chernikova_both {r : Rep} (h : r.Wf K n) {f : Full} (hf : r.chernikova n = .both f) :
    (Rep.both f).Wf K n ∧ ∀ y : Fin (n + 1) → K, Sat f.crows y ↔ r.cone y := by
  cases r with
  | bot => simp [Rep.chernikova] at hf
  | both f' =>
    rw [Rep.chernikova] at hf
    · cases hf; exact ⟨h, fun y => Iff.rfl⟩
    all_goals simp
  | cons C =>
    rw [Rep.chernikova] at hf
    cases hm : minimize (n + 2) 2 true (sortRows (n + 2) C) with
    | none => rw [hm] at hf; cases hf
    | some m =>
      rw [hm] at hf
      cases hf
      obtain ⟨h1, h2⟩ := minimize_ok (K := K) (d := n + 1) hm
      obtain ⟨h3, h4⟩ := minimize_indep (K := K) (d := n + 1) hm
      have hiff : ∀ y : Fin (n + 1) → K, Sat (Full.ofMin m true false).crows y ↔ Sat C y := by
        intro y; rw [ofMin_crows, h2, sat_sortRows]
      refine ⟨⟨ofMin_ok h1 h3 h4, fun y hy => h y ((hiff y).1 hy), ?_⟩, hiff⟩
      have hne := (minimize_none (K := K) (d := n + 1) (dec := 2) (le_refl 2) (by omega) (C := sortRows (n + 2) C) (by
        intro y hy; exact h y ((sat_sortRows _ _ y).1 hy))).not.1 (by rw [hm]; simp)
      push Not at hne
      obtain ⟨y, hy, hy0⟩ := hne
      have hy' := (sat_sortRows _ _ y).1 hy
      exact ⟨y, (hiff y).2 hy', lt_of_le_of_ne (h y hy') (Ne.symm hy0)⟩
  | gens F =>
    rw [Rep.chernikova] at hf
    cases hm : minimize (n + 2) 2 false (sortRows (n + 2) F) with
    | none => rw [hm] at hf; cases hf
    | some m =>
      rw [hm] at hf
      cases hf
      obtain ⟨h1, h2⟩ := minimize_ok (K := K) (d := n + 1) hm
      obtain ⟨h3, h4⟩ := minimize_indep (K := K) (d := n + 1) hm
      have hok := ofMin_ok (b1 := false) (b2 := true) h1 h3 h4
      have hiff : ∀ y : Fin (n + 1) → K, Sat (Full.ofMin m false true).dual.crows y ↔ GenM F y := by
        intro y
        have e : (Full.ofMin m false true).dual.crows = (Full.ofMin m false true).frows := rfl
        rw [e, hok.sat_dual, genM_iff_polar, genM_iff_polar]
        refine forall_congr' fun z => ?_
        rw [ofMin_crows, h2, sat_sortRows]
      refine ⟨⟨hok.dual, fun y hy => h.1 y ((hiff y).1 hy), ?_⟩, hiff⟩
      obtain ⟨y, hy, h0⟩ := h.2
      exact ⟨y, (hiff y).2 hy, h0⟩

/-- the conversion finds no generator exactly for empty polyhedra -/
theorem chernikova_bot {r : Rep} (h : r.Wf K n) (hf : r.chernikova n = .bot) : ∀ y : Fin (n + 1) → K, r.cone y → y 0 = 0 := by
  cases r with
  | bot => exact fun y hy => hy.elim
  | both f' => simp [Rep.chernikova] at hf
  | cons C =>
    rw [Rep.chernikova] at hf
    cases hm : minimize (n + 2) 2 true (sortRows (n + 2) C) with
    | none =>
      have hne := (minimize_none (K := K) (d := n + 1) (dec := 2) (le_refl 2) (by omega) (C := sortRows (n + 2) C) (by
        intro y hy; exact h y ((sat_sortRows _ _ y).1 hy))).1 hm
      intro y hy
      exact hne y ((sat_sortRows _ _ y).2 hy)
    | some m => rw [hm] at hf; cases hf
  | gens F =>
    rw [Rep.chernikova] at hf
    cases hm : minimize (n + 2) 2 false (sortRows (n + 2) F) with
    | none => exact absurd hm minimize_false
    | some m => rw [hm] at hf; cases hf

theorem chernikova_wf {r : Rep} (h : r.Wf K n) : (r.chernikova n).Wf K n := by
  rcases chernikova_shape n r with e | ⟨f, e⟩
  · rw [e]; trivial
  · rw [e]; exact (chernikova_both h e).1

theorem chernikova_γ {r : Rep} (h : r.Wf K n) (x : Fin n → K) : (r.chernikova n).γ x ↔ r.γ x := by
  rcases chernikova_shape n r with e | ⟨f, e⟩
  · rw [e]
    refine ⟨fun hx => hx.elim, fun hx => ?_⟩
    exact absurd (chernikova_bot h e _ hx) (by rw [hom_zero]; exact one_ne_zero)
  · rw [e]; exact (chernikova_both h e).2 _

theorem chernikova_bot_iff {r : Rep} (h : r.Wf K n) : r.chernikova n = .bot ↔ ∀ x : Fin n → K, ¬ r.γ x := by
  constructor
  · intro e x hx
    rw [← chernikova_γ h, e] at hx; exact hx
  · intro he
    rcases chernikova_shape n r with e | ⟨f, e⟩
    · exact e
    · obtain ⟨hw, hc⟩ := chernikova_both h e
      obtain ⟨x, hx⟩ := (Sat.isCone f.crows).exists_point hw.2.2
      exact absurd ((hc _).1 hx) (he x)

theorem obtainF_wf {r : Rep} (h : r.Wf K n) : (r.obtainF n).Wf K n := by
  rw [Rep.obtainF]; split_ifs
  · exact chernikova_wf h
  · exact h

theorem obtainF_γ {r : Rep} (h : r.Wf K n) (x : Fin n → K) : (r.obtainF n).γ x ↔ r.γ x := by
  rw [Rep.obtainF]; split_ifs
  · exact chernikova_γ h x
  · exact Iff.rfl

theorem obtainC_wf {r : Rep} (h : r.Wf K n) : (r.obtainC n).Wf K n := by
  rw [Rep.obtainC]; split_ifs
  · exact chernikova_wf h
  · exact h

theorem obtainC_γ {r : Rep} (h : r.Wf K n) (x : Fin n → K) : (r.obtainC n).γ x ↔ r.γ x := by
  rw [Rep.obtainC]; split_ifs
  · exact chernikova_γ h x
  · exact Iff.rfl

end Apron.Poly
