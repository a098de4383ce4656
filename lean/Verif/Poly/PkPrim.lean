import Verif.Poly.PkUniq

/-!
# The rows computed by the conversion have gcd 1
-/

set_option autoImplicit false
set_option linter.unusedSectionVars false

namespace Apron.Poly

variable {K : Type*} [LinearOrder K] [Field K] [IsStrictOrderedRing K] {d n : ℕ}

theorem PrimRow.congr {p q : Row} (h : PrimRow d p) (hs : SameRow d p q) : PrimRow d q := by
  intro g hg
  rcases h g (fun j hj => by rw [hs j hj]; exact hg j hj) with h1 | h1
  · exact Or.inl h1
  · exact Or.inr fun j hj => by rw [← hs j hj]; exact h1 j hj

theorem sameRow_setStatus (q : Row) (v : ℤ) : SameRow d q (q.setStatus v) := fun j _ => (at_setStatus_succ q v j).symm

theorem PrimRow.setStatus {q : Row} (h : PrimRow d q) (v : ℤ) : PrimRow d (q.setStatus v) := h.congr (sameRow_setStatus q v)

theorem PrimRow.neg {q : Row} (h : PrimRow d q) : PrimRow d q.neg := by
  intro g hg
  rcases h g (fun j hj => by have := hg j hj; rw [at_neg] at this; exact (dvd_neg).1 this) with h1 | h1
  · exact Or.inl h1
  · exact Or.inr fun j hj => by rw [at_neg, h1 j hj, neg_zero]

theorem primRow_normalize (q : Row) : PrimRow d (Apron.Poly.normalize q (d + 1)) := by
  rw [Apron.Poly.normalize, Nat.add_sub_cancel]
  set l := (List.range d).map fun j => q.at' (j + 1) with hl
  have hmem : ∀ j, j < d → q.at' (j + 1) ∈ l := fun j hj => List.mem_map.2 ⟨j, List.mem_range.2 hj, rfl⟩
  have hall : ∀ m : ℤ, (∀ j, j < d → m ∣ q.at' (j + 1)) → m ∣ (vectorGcd l : ℤ) := by
    intro m hm
    rw [vectorGcd_eq]
    apply Int.natAbs_dvd.1
    apply Int.natCast_dvd_natCast.2
    rw [dvd_lgcd]
    intro a ha
    obtain ⟨b, hb, rfl⟩ := List.mem_map.1 ha
    obtain ⟨j, hj, rfl⟩ := List.mem_map.1 hb
    exact Int.natAbs_dvd_natAbs.2 (hm j (List.mem_range.1 hj))
  split_ifs with h1
  · intro m hm
    left
    have hg : (0 : ℤ) < (vectorGcd l : ℤ) := by exact_mod_cast zero_lt_one.trans h1
    have h2 : (vectorGcd l : ℤ) * m ∣ (vectorGcd l : ℤ) := by
      refine hall _ fun j hj => ?_
      have h3 := hm j hj
      rw [at_ofFun, if_pos (by omega), if_neg (by omega)] at h3
      have h4 := Int.mul_ediv_cancel' (dvd_vectorGcd l _ (hmem j hj))
      rw [← h4]
      exact mul_dvd_mul_left _ h3
    obtain ⟨c, hc⟩ := h2
    refine ⟨c, ?_⟩
    have h5 : (vectorGcd l : ℤ) * 1 = (vectorGcd l : ℤ) * (m * c) := by rw [mul_one, ← mul_assoc]; exact hc
    exact mul_left_cancel₀ hg.ne' h5
  · intro m hm
    rcases Nat.eq_zero_or_pos (vectorGcd l) with h0 | h0
    · right
      intro j hj
      have := dvd_vectorGcd l _ (hmem j hj)
      rw [h0] at this
      simpa using this
    · left
      have : vectorGcd l = 1 := by omega
      have h2 := hall m hm
      rwa [this, Nat.cast_one] at h2

theorem primRow_vectorCombine (q1 q2 q3 : Row) (k : ℕ) : PrimRow d (vectorCombine q1 q2 q3 k (d + 1)) := primRow_normalize _

theorem primRow_of_at {q : Row} {j : ℕ} (hj : j < d) (h : q.at' (j + 1) = 1) : PrimRow d q := fun g hg => by
  left; have := hg j hj; rwa [h] at this

/-- all the rows have gcd 1 -/
def AllPrim (d : ℕ) (l : List Row) : Prop := ∀ q ∈ l, PrimRow d q

theorem AllPrim.append {l m : List Row} (h : AllPrim d l) (h' : AllPrim d m) : AllPrim d (l ++ m) := by
  intro q hq
  rcases List.mem_append.1 hq with h1 | h1
  · exact h q h1
  · exact h' q h1

theorem AllPrim.sub {l m : List Row} (h : AllPrim d l) (hs : ∀ q ∈ m, q ∈ l) : AllPrim d m := fun q hq => h q (hs q hq)

theorem AllPrim.map {l : List Row} (h : AllPrim d l) {f : Row → Row} (hf : ∀ q, PrimRow d q → PrimRow d (f q)) : AllPrim d (l.map f) := by
  intro q hq
  obtain ⟨p, hp, rfl⟩ := List.mem_map.1 hq
  exact hf p (h p hp)

theorem PrimRow.elim {l q : Row} (h : PrimRow d q) : PrimRow d (elim (d + 1) l q) := by
  rw [Apron.Poly.elim]
  split_ifs
  · exact primRow_vectorCombine _ _ _ _
  · exact h

theorem PrimRow.elimCol {j : ℕ} {l q : Row} (h : PrimRow d q) : PrimRow d (elimCol (d + 1) j l q) := by
  rw [Apron.Poly.elimCol]
  split_ifs
  · exact primRow_vectorCombine _ _ _ _
  · exact h

theorem PrimRow.gaussPivot {j : ℕ} {q : Row} (h : PrimRow d q) : PrimRow d (gaussPivot j q) := by
  rw [Apron.Poly.gaussPivot]
  split_ifs
  · exact h.neg.setStatus 0
  · exact h.setStatus 0

theorem mem_takeWhile {α : Type*} {p : α → Bool} {l : List α} {x : α} (h : x ∈ l.takeWhile p) : x ∈ l :=
  (List.takeWhile_sublist p).subset h

theorem mem_dropWhile {α : Type*} {p : α → Bool} {l : List α} {x : α} (h : x ∈ l.dropWhile p) : x ∈ l :=
  (List.dropWhile_sublist p).subset h

theorem gauss_prim (j : ℕ) (D R : List Row) (piv : List ℕ) (hD : AllPrim d D) (hR : AllPrim d R) :
    AllPrim d (gauss (d + 1) j D R piv).1 ∧ AllPrim d (gauss (d + 1) j D R piv).2.1 := by
  induction j generalizing D R piv with
  | zero => rw [gauss]; exact ⟨hD, hR⟩
  | succ j ih =>
    rw [gauss]
    cases hd : R.dropWhile (fun q => q.at' (j + 1) == 0) with
    | nil => exact ih D R piv hD hR
    | cons p after =>
      have hp : ∀ q ∈ p :: after, q ∈ R := fun q hq => mem_dropWhile (hd ▸ hq)
      refine ih _ _ _ (hD.append fun q hq => ?_) (AllPrim.append (fun q hq => ?_) ?_)
      · rw [List.mem_singleton] at hq
        subst hq
        exact (hR p (hp p List.mem_cons_self)).gaussPivot
      · exact hR q (mem_takeWhile ((rot_perm _).mem_iff.1 hq))
      · exact AllPrim.map (fun q hq => hR q (hp q (List.mem_cons_of_mem _ hq))) fun q h => h.elimCol

theorem backStep_prim {k j : ℕ} {con : List Row} (h : AllPrim d con) : AllPrim d (backStep (d + 1) k j con) := by
  intro q hq
  rw [backStep] at hq
  obtain ⟨i, hi, rfl⟩ := List.getElem_of_mem hq
  rw [List.getElem_mapIdx]
  split_ifs
  · exact (h _ (List.getElem_mem _)).elimCol
  · exact h _ (List.getElem_mem _)

theorem backsubstitute_prim {piv : List ℕ} (k : ℕ) {con : List Row} (h : AllPrim d con) :
    AllPrim d (backsubstitute (d + 1) piv k con) := by
  induction k generalizing con with
  | zero => rw [backsubstitute]; exact h
  | succ k ih => rw [backsubstitute]; exact ih (backStep_prim h)

theorem mem_exchRemove {L : List SRow} {j : ℕ} {x : SRow} (h : x ∈ exchRemove L j) : x ∈ L := by
  rw [exchRemove] at h
  rcases List.mem_or_eq_of_mem_set (List.dropLast_subset _ h) with h1 | h1
  · exact h1
  · cases L with
    | nil => simp at h
    | cons a l => rw [h1, List.getLastD_eq_getLast?, List.getLast?_eq_some_getLast (by simp), Option.getD_some]; exact List.getLast_mem _

theorem mem_scan {i : ℕ} {nb : ℤ} (m : ℕ) {L : List SRow} {j : ℕ} {x : SRow} (h : x ∈ (scan i nb m L j).2) : x ∈ L := by
  induction m generalizing L j with
  | zero => rw [scan] at h; exact h
  | succ m ih =>
    rw [scan] at h
    dsimp only at h
    split_ifs at h
    · exact h
    · exact ih h
    · exact mem_exchRemove (ih h)
    · exact ih h
    · exact ih h
    · exact h

theorem mem_dropRedundant (m : ℕ) {L : List SRow} {i : ℕ} {x : SRow} (h : x ∈ dropRedundant m L i) : x ∈ L := by
  induction m generalizing L i with
  | zero => rw [dropRedundant] at h; exact h
  | succ m ih =>
    rw [dropRedundant] at h
    dsimp only at h
    split_ifs at h
    · exact mem_scan _ (mem_exchRemove (ih h))
    · exact mem_scan _ (ih h)
    · exact h

/-- all the rows have gcd 1 -/
def SPrim (d : ℕ) (l : List SRow) : Prop := ∀ x ∈ l, PrimRow d x.row

theorem simplify_prim {con : List SRow} {m : ℕ} (h : SPrim d con) : SPrim d (simplify (d + 1) m con).1 := by
  intro x hx
  rw [simplify, Nat.add_sub_cancel] at hx
  dsimp only at hx
  obtain ⟨e1, e2⟩ := classify_perm m con [] []
  have hQ : AllPrim d ((classify m con [] []).1.map SRow.row) := by
    rw [e1]
    intro q hq
    obtain ⟨y, hy, rfl⟩ := List.mem_map.1 hq
    rw [List.nil_append] at hy
    obtain ⟨z, hz, rfl⟩ := List.mem_map.1 hy
    exact (h z (List.mem_filter.1 hz).1).setStatus 0
  have hI : SPrim d (classify m con [] []).2 := by
    intro y hy
    rw [e2.mem_iff, List.nil_append] at hy
    obtain ⟨z, hz, rfl⟩ := List.mem_map.1 hy
    exact (h z (List.mem_filter.1 hz).1).setStatus _
  obtain ⟨hD, -⟩ := gauss_prim (d := d) d [] _ [] (by simp [AllPrim]) hQ
  obtain ⟨i, hi, rfl⟩ := List.getElem_of_mem hx
  rw [List.getElem_zipWith]
  refine backsubstitute_prim _ (hD.append ?_) _ (List.getElem_mem _)
  intro q hq
  obtain ⟨y, hy, rfl⟩ := List.mem_map.1 hq
  obtain ⟨z, hz, rfl⟩ := List.mem_map.1 hy
  refine (PrimRow.setStatus ?_ 1)
  have h1 := mem_dropRedundant _ hz
  rw [(dropFew_perm _ _ _ _ le_rfl).mem_iff, List.nil_append] at h1
  have h2 := (List.mem_filter.1 h1).1
  rcases List.mem_append.1 h2 with h3 | h3
  · exact hI _ (List.mem_reverse.1 (List.mem_of_mem_take h3))
  · exact hI _ (List.mem_of_mem_take h3)

/-- all the rows of the state of the conversion have gcd 1 -/
structure Conv.Prim (d : ℕ) (s : Conv) : Prop where
  done : AllPrim d s.done
  todo : AllPrim d s.todo
  lines : AllPrim d s.lines
  rays : SPrim d s.rays

theorem products_prim {c : Row} {s : Conv} (h : s.Prim d) : (products d c s).Prim d := by
  refine ⟨h.done, h.todo, h.lines.map fun q hq => hq.setStatus _, ?_⟩
  intro x hx
  obtain ⟨y, hy, rfl⟩ := List.mem_map.1 hx
  exact (h.rays y hy).setStatus _

theorem lineStep_prim {c : Row} {rest : List Row} {s : Conv} {before after : List Row} {l0 : Row} (h : s.Prim d) (hc : PrimRow d c)
    (hr : AllPrim d rest) (hb : AllPrim d before) (ha : AllPrim d after) (hl : PrimRow d l0) :
    (lineStep (d + 1) c rest s before l0 after).Prim d := by
  have hl1 : PrimRow d (if l0.at' 0 < 0 then l0.neg else l0) := by split_ifs; exacts [hl.neg, hl]
  have hrays : SPrim d (s.rays.map fun x => { x with row := Apron.Poly.elim (d + 1) (if l0.at' 0 < 0 then l0.neg else l0) x.row }) := by
    intro x hx
    obtain ⟨y, hy, rfl⟩ := List.mem_map.1 hx
    exact (h.rays y hy).elim
  refine ⟨h.done.append (by simpa [AllPrim] using hc), hr, AllPrim.map (hb.append fun q hq => ha q ((moveLast_perm _).mem_iff.1 hq)) fun q hq => hq.elim, ?_⟩
  rw [lineStep]
  dsimp only
  generalize (if l0.at' 0 < 0 then l0.neg else l0) = l1 at hl1 hrays ⊢
  split_ifs
  · intro x hx
    rcases List.mem_cons.1 hx with rfl | h1
    · exact hl1
    · exact hrays x h1
  · intro x hx
    exact hrays x ((moveLast_perm _).mem_iff.1 hx)

theorem combos_prim {nbl k : ℕ} {E P N : List SRow} : SPrim d (combos (d + 1) nbl k E P N) := by
  intro z hz
  rw [combos] at hz
  obtain ⟨x, hx, hz⟩ := List.mem_flatMap.1 hz
  obtain ⟨y, hy, hz⟩ := List.mem_filterMap.1 hz
  split_ifs at hz
  · cases hz; exact primRow_vectorCombine _ _ _ _

theorem rayStep_prim {c : Row} {rest : List Row} {s : Conv} (h : s.Prim d) (hc : PrimRow d c) (hr : AllPrim d rest) :
    (rayStep (d + 1) c rest s).Prim d := by
  rw [rayStep]
  have hp := (partition3_spec s.rays.length [] [] s.rays [] le_rfl (by simp) (by simp) (by simp)).1
  generalize partition3 s.rays.length [] [] s.rays [] = p at hp
  obtain ⟨E, P, N⟩ := p
  dsimp only at hp ⊢
  have hEPN : SPrim d (E ++ P ++ N) := fun x hx => h.rays x (by
    have := hp.mem_iff.1 hx; simpa using this)
  have hE : SPrim d E := fun x hx => hEPN x (by simp [hx])
  have hP : SPrim d P := fun x hx => hEPN x (by simp [hx])
  have hdone : AllPrim d (s.done ++ [c]) := h.done.append (by simpa [AllPrim] using hc)
  split_ifs
  · refine ⟨h.done, fun q hq => hr q ((moveLast_perm _).mem_iff.1 hq), h.lines, ?_⟩
    intro x hx
    rcases List.mem_append.1 hx with h1 | h1
    · exact hE x h1
    · exact hP x h1
  · exact ⟨hdone, hr, h.lines, by simp [SPrim]⟩
  · refine ⟨hdone, hr, h.lines, ?_⟩
    intro x hx
    have hx := (replaceTail_perm _ _ _).mem_iff.1 hx
    rcases List.mem_append.1 hx with h1 | h1
    · rcases List.mem_append.1 h1 with h2 | h2
      · exact hE x h2
      · obtain ⟨y, hy, rfl⟩ := List.mem_map.1 h2
        exact hP y hy
    · exact combos_prim x h1
  · refine ⟨hdone, hr, h.lines, ?_⟩
    intro x hx
    have hx := (replaceTail_perm _ _ _).mem_iff.1 hx
    rcases List.mem_append.1 hx with h1 | h1
    · exact hE x h1
    · exact combos_prim x h1

theorem convStep_prim {c : Row} {rest : List Row} {s : Conv} (h : s.Prim d) (hc : PrimRow d c) (hr : AllPrim d rest) :
    (convStep (d + 1) c rest s).Prim d := by
  rw [convStep, Nat.add_sub_cancel]
  have h1 := products_prim (c := c) h
  cases hd : (products d c s).lines.dropWhile (fun q => q.at' 0 == 0) with
  | nil => exact rayStep_prim h1 hc hr
  | cons l0 after =>
    have hm : ∀ q ∈ l0 :: after, q ∈ (products d c s).lines := fun q hq => mem_dropWhile (hd ▸ hq)
    exact lineStep_prim h1 hc hr (fun q hq => h1.lines q (mem_takeWhile hq))
      (fun q hq => h1.lines q (hm q (List.mem_cons_of_mem _ hq))) (h1.lines l0 (hm l0 List.mem_cons_self))

theorem convLoop_prim (m : ℕ) {s : Conv} (h : s.Prim d) : (convLoop (d + 1) m s).Prim d := by
  induction m generalizing s with
  | zero => rw [convLoop]; exact h
  | succ m ih =>
    rw [convLoop]
    cases ht : s.todo with
    | nil => exact h
    | cons c rest =>
      refine ih (convStep_prim h (h.todo c (by simp [ht])) fun q hq => h.todo q (by simp [ht, hq]))

theorem conversion_prim {s : Conv} (h : s.Prim d) : (conversion (d + 1) s).Prim d := by
  have h1 := convLoop_prim s.todo.length h
  refine ⟨h1.done, h1.todo, h1.lines.map fun q hq => hq.setStatus _, ?_⟩
  intro x hx
  obtain ⟨y, hy, rfl⟩ := List.mem_map.1 hx
  exact (h1.rays y hy).setStatus _

theorem finishMin_prim {dec : ℕ} {b : Bool} {s : Conv} (h : s.Prim d) {m : MinRep} (hm : finishMin (d + 1) dec b s = some m) :
    SPrim d m.C ∧ AllPrim d m.F := by
  rw [finishMin] at hm
  split_ifs at hm
  cases hm
  refine ⟨simplify_prim fun x hx => ?_, h.lines.append fun q hq => ?_⟩
  · obtain ⟨i, hi, rfl⟩ := List.getElem_of_mem hx
    rw [List.getElem_mapIdx]
    exact h.done _ (List.getElem_mem _)
  · obtain ⟨y, hy, rfl⟩ := List.mem_map.1 hq
    exact h.rays y hy

theorem minimize_prim {dec : ℕ} {b : Bool} {C : List Row} (h : AllPrim d C) {m : MinRep} (hm : minimize (d + 1) dec b C = some m) :
    SPrim d m.C ∧ AllPrim d m.F := by
  refine finishMin_prim (conversion_prim ⟨by simp [initConv, AllPrim], h, ?_, by simp [initConv, SPrim]⟩) hm
  intro q hq
  rw [initConv] at hq
  obtain ⟨i, hi, rfl⟩ := List.mem_map.1 hq
  rw [Nat.add_sub_cancel, List.mem_range] at hi
  exact primRow_of_at hi (by rw [unitRow, at_ofFun, if_pos (by omega), if_pos rfl])

theorem addAndMinimize_prim {dec : ℕ} {b : Bool} {C newC L : List Row} {R : List SRow} (hC : AllPrim d C) (hN : AllPrim d newC)
    (hL : AllPrim d L) (hR : SPrim d R) {m : MinRep} (hm : addAndMinimize (d + 1) dec b C newC L R = some m) :
    SPrim d m.C ∧ AllPrim d m.F :=
  finishMin_prim (conversion_prim ⟨hC, hN, hL, hR⟩) hm

theorem gaussRows_prim {nb : ℕ} {C : List SRow} (h : SPrim d C) : SPrim d (gaussRows (d + 1) nb C) := by
  intro x hx
  rw [gaussRows, Nat.add_sub_cancel] at hx
  obtain ⟨i, hi, rfl⟩ := List.getElem_of_mem hx
  rw [List.getElem_zipWith]
  obtain ⟨h1, h2⟩ := gauss_prim (d := d) d [] ((C.take nb).map SRow.row) [] (by simp [AllPrim]) (fun q hq => by
    obtain ⟨y, hy, rfl⟩ := List.mem_map.1 hq
    exact h y (List.mem_of_mem_take hy))
  refine backsubstitute_prim _ ((h1.append h2).append ?_) _ (List.getElem_mem _)
  intro q hq
  obtain ⟨y, hy, rfl⟩ := List.mem_map.1 hq
  exact h y (List.mem_of_mem_drop hy)

end Apron.Poly
