import Verif.Poly.PkTop

/-!
# Polyhedra: meet and join of arrays

Source: `newpolka/pk_meetjoin.c`.  The elements of an array are pairs of an address and a polyhedron, because the code
compares addresses.  The empty array, for which the code raises an exception, is not modelled.
-/

set_option autoImplicit false
set_option linter.unusedSectionVars false

namespace Apron.Poly

/-! ## Model -/

/-- conversion of the elements (`pk_meetjoin.c:357-402`); `none`: an element is empty and the operation is a meet.  An empty
element of a join is exchanged with the last one and removed.  The fuel is the number of elements. -/
def collect (n : ℕ) (meet : Bool) (o : Opts) : ℕ → List (ℕ × Rep) → List (ℕ × Rep) → Option (List (ℕ × Rep))
  | 0, acc, _ => some acc
  | _ + 1, acc, [] => some acc
  | k + 1, acc, p :: rest =>
    let r := if o.lzy then p.2.obtainCDual n meet else p.2.chernikovaDual n meet
    if r.C? = none then
      if meet then none else collect n meet o k acc (moveLast rest)
    else collect n meet o k (acc ++ [(p.1, r)]) rest

/-- `po[i]` is preferred to `po[j]` as start polyhedron (`pk_meetjoin.c:435-439`) -/
def Full.better (fi fj : Full) : Bool :=
  decide (fj.nbeq < fi.nbeq) ||
    (decide (fi.nbeq = fj.nbeq) && (decide (fi.nbline < fj.nbline) || decide (fj.C.length < fi.C.length)))

/-- selection of the start polyhedron (`pk_meetjoin.c:430-441`): the selected one and the others, in order -/
def selectStart : Full → List Full → List Full → List Full → Full × List Full
  | j, before, after, [] => (j, before ++ after)
  | j, before, after, i :: l =>
    if i.better j then selectStart i (before ++ j :: after) [] l else selectStart j before (after ++ [i]) l

/-- the matrices of the list, merged (`pk_meetjoin.c:446-451`) -/
def mergeAll (n : ℕ) (Cs : List (List Row)) : List Row :=
  Cs.foldl (fun M C => mergeRows (n + 2) M (sortRows (n + 2) C)) []

/-- the polyhedra that have both matrices -/
def fulls : List (ℕ × Rep) → List Full
  | [] => []
  | (_, .both f) :: l => f :: fulls l
  | _ :: l => fulls l

/-- `poly_meet` with a test of aliases -/
def polyMeet2 (n : ℕ) (meet : Bool) (o : Opts) (p q : ℕ × Rep) : Option Rep :=
  if p.1 = q.1 then some (Rep.polyMeetSelf n meet o p.2) else Rep.polyMeet n meet o false p.2 q.2

/-- `poly_meet_array` (`pk_meetjoin.c:318-481`) -/
def polyMeetArray (n : ℕ) (meet : Bool) (o : Opts) (ps : List (ℕ × Rep)) : Option Rep :=
  match ps with
  | [] => none
  | [p] => some (Rep.polyMeetSelf n meet o p.2)
  | [p, q] => polyMeet2 n meet o p q
  | ps =>
    match collect n meet o ps.length [] ps with
    | none => some .bot
    | some [] => some .bot
    | some [p] => some p.2
    | some [p, q] => if meet then none else polyMeet2 n meet o p q
    | some qs =>
      if o.lzy then some (.cons (mergeAll n (qs.filterMap fun q => q.2.C?)))
      else match fulls qs with
        | [] => none
        | f :: fs =>
          let s := selectStart f [] [] fs
          some (match addAndMinimize (n + 2) 2 meet s.1.crows (mergeAll n (s.2.map Full.crows)) s.1.lines s.1.rays with
            | none => .bot
            | some m => .both (.ofMin m meet (!meet)))

/-- `pk_meet_array` (`pk_meetjoin.c:509-517`) -/
def meetArray (n : ℕ) (o : Opts) (ps : List (ℕ × Rep)) : Option Rep := polyMeetArray n true o ps

/-- the loop "remove doublons" (`pk_meetjoin.c:651-658`): after a removal, the index is incremented -/
def dedup : List ℕ → List ℕ
  | [] => []
  | [a] => [a]
  | a :: b :: l => if a = b then a :: dedup l else a :: dedup (b :: l)

/-- `pk_join_array` (`pk_meetjoin.c:630-675`): the elements are the addresses `ids`; every element of the array without its
duplicates is dualised, which undoes the previous one for an address that is still present twice -/
def joinArray (n : ℕ) (o : Opts) (ids : List ℕ) (heap : ℕ → Rep) : Option Rep :=
  match ids with
  | [] => none
  | [i] => some (heap i)
  | ids =>
    let t := dedup (ids.insertionSort (· ≤ ·))
    let st := fun i => if t.count i % 2 = 1 then (heap i).dual else heap i
    (polyMeetArray n false o (t.map fun i => (i, st i))).map Rep.dual

/-! ## Correctness -/

variable {K : Type*} [LinearOrder K] [Field K] [IsStrictOrderedRing K] {n d : ℕ}

/-- the intersection of the polyhedra of a list -/
def IsMeetL (K : Type*) [LinearOrder K] [Field K] [IsStrictOrderedRing K] (n : ℕ) (Ps : List Rep) (R : Rep) : Prop :=
  ∀ x : Fin n → K, R.γ x ↔ ∀ P ∈ Ps, P.γ x

/-- the least polyhedron that contains the polyhedra of a list -/
def IsJoinL (K : Type*) [LinearOrder K] [Field K] [IsStrictOrderedRing K] (n : ℕ) (Ps : List Rep) (R : Rep) : Prop :=
  (∀ P ∈ Ps, ∀ x : Fin n → K, P.γ x → R.γ x) ∧
  ∀ C : List Row, (∀ P ∈ Ps, ∀ x : Fin n → K, P.γ x → Sat C (hom x)) → ∀ x : Fin n → K, R.γ x → Sat C (hom x)

/-- the specification of `poly_meet_array` -/
def ViewOkL (K : Type*) [LinearOrder K] [Field K] [IsStrictOrderedRing K] (n : ℕ) (meet : Bool) (Ps : List Rep) (r : Rep) : Prop :=
  (r.view meet).Wf K n ∧ if meet then IsMeetL K n Ps r else IsJoinL K n (Ps.map Rep.dual) r.dual

theorem ViewOk.list {meet : Bool} {pa pb r : Rep} (h : ViewOk K n meet pa pb r) : ViewOkL K n meet [pa, pb] r := by
  refine ⟨h.1, ?_⟩
  have h2 := h.2
  cases meet
  · simp only [Bool.false_eq_true, if_false] at h2 ⊢
    refine ⟨?_, fun C hC x hx => h2.2 C (fun x hx => ?_) x hx⟩
    · intro P hP x hx
      simp only [List.map_cons, List.map_nil, List.mem_cons, List.not_mem_nil, or_false] at hP
      rcases hP with rfl | rfl
      · exact h2.1 x (.inl hx)
      · exact h2.1 x (.inr hx)
    · rcases hx with hx | hx
      · exact hC pa.dual (by simp) x hx
      · exact hC pb.dual (by simp) x hx
  · simp only [if_true] at h2 ⊢
    intro x; rw [h2 x]; simp

theorem ViewOk.single {meet : Bool} {pa r : Rep} (h : ViewOk K n meet pa pa r) : ViewOkL K n meet [pa] r := by
  refine ⟨h.1, ?_⟩
  have h2 := h.list.2
  cases meet
  · simp only [Bool.false_eq_true, if_false] at h2 ⊢
    exact ⟨fun P hP => h2.1 P (by simpa using hP), fun C hC => h2.2 C fun P hP => hC P (by simpa using hP)⟩
  · simp only [if_true] at h2 ⊢
    intro x; rw [h2 x]; simp

/-- lists with the same points; empty polyhedra may be removed from a join -/
theorem ViewOkL.congr_false {Ps Qs : List Rep} {r : Rep} (h : ViewOkL K n false Qs r)
    (h1 : ∀ P ∈ Ps, ∀ x : Fin n → K, P.dual.γ x → ∃ Q ∈ Qs, Q.dual.γ x)
    (h2 : ∀ Q ∈ Qs, ∀ x : Fin n → K, Q.dual.γ x → ∃ P ∈ Ps, P.dual.γ x) : ViewOkL K n false Ps r := by
  refine ⟨h.1, ?_⟩
  have h3 := h.2
  simp only [Bool.false_eq_true, if_false] at h3 ⊢
  refine ⟨fun P hP x hx => ?_, fun C hC => h3.2 C fun Q hQ x hx => ?_⟩
  · obtain ⟨P', hP', rfl⟩ := List.mem_map.1 hP
    obtain ⟨Q, hQ, hQx⟩ := h1 P' hP' x hx
    exact h3.1 _ (List.mem_map_of_mem hQ) x hQx
  · obtain ⟨Q', hQ', rfl⟩ := List.mem_map.1 hQ
    obtain ⟨P, hP, hPx⟩ := h2 Q' hQ' x hx
    exact hC _ (List.mem_map_of_mem hP) x hPx

theorem ViewOkL.congr_true {Ps Qs : List Rep} {r : Rep} (h : ViewOkL K n true Qs r)
    (h1 : ∀ x : Fin n → K, (∀ P ∈ Ps, P.γ x) ↔ ∀ Q ∈ Qs, Q.γ x) : ViewOkL K n true Ps r := by
  refine ⟨h.1, ?_⟩
  have h3 := h.2
  simp only [if_true] at h3 ⊢
  intro x; rw [h3 x, h1]

/-- intersection of the polar cones: the join -/
theorem joinL_of_cone {Ps : List Rep} {r : Rep} (hne : Ps ≠ []) (hP : ∀ P ∈ Ps, P.Wf K n) (fP : ∀ P ∈ Ps, P.F? ≠ none) (hr : r.C? ≠ none)
    (hok : ∀ f, r = .both f → f.Ok K (n + 1)) (h : ∀ v : Fin (n + 1) → K, r.cone v ↔ ∀ P ∈ Ps, P.dual.cone v) :
    r.dual.Wf K n ∧ IsJoinL K n Ps r.dual := by
  have bP : ∀ P ∈ Ps, P ≠ .bot := by rintro P hP rfl; exact fP _ hP rfl
  have br : r ≠ .bot := by rintro rfl; exact hr rfl
  have hpol : ∀ v : Fin (n + 1) → K, r.cone v ↔ ∀ P ∈ Ps, ∀ y, P.cone y → 0 ≤ linV v y := by
    intro v; rw [h]
    exact forall_congr' fun P => forall_congr' fun hP' => Rep.cone_dual (bP P hP') (hP P hP').ok v
  have hdual : ∀ y : Fin (n + 1) → K, r.dual.cone y ↔ ∀ v, r.cone v → 0 ≤ linV y v := fun y => Rep.cone_dual br hok y
  have hokd : ∀ f, r.dual = .both f → f.Ok K (n + 1) := by
    intro f hf
    have : r = .both f.dual := by rw [← r.dual_dual, hf]; rfl
    exact (hok _ this).dual
  have brd : r.dual ≠ .bot := fun e => br (Rep.dual_eq_bot.1 e)
  have hback : ∀ v : Fin (n + 1) → K, r.cone v ↔ ∀ y, r.dual.cone y → 0 ≤ linV v y := by
    intro v
    have := Rep.cone_dual (n := n) brd hokd v
    rwa [Rep.dual_dual] at this
  have hPr : ∀ P ∈ Ps, ∀ y : Fin (n + 1) → K, P.cone y → r.dual.cone y := by
    intro P hP y hy; rw [hdual]; intro v hv; rw [linV_comm]; exact (hpol v).1 hv P hP y hy
  have hpos : PosCone (K := K) (n := n) r.dual.cone := by
    have : r.cone (e0 K n) := (hpol _).2 fun P hP' y hy => by rw [linV_e0]; exact (hP P hP').pos y hy
    intro y hy
    have := (hback _).1 this y hy
    rwa [linV_e0] at this
  have hne : NonEmpty (K := K) (n := n) r.dual.cone := by
    obtain ⟨P, hPm⟩ := List.exists_mem_of_ne_nil _ hne
    obtain ⟨y, hy, h0⟩ := (hP P hPm).nonEmpty (fP P hPm)
    exact ⟨y, hPr P hPm y hy, h0⟩
  refine ⟨?_, fun P hP x hx => hPr P hP _ hx, fun C hC x hx => ?_⟩
  · cases r with
    | bot => exact absurd rfl br
    | cons C => exact ⟨hpos, hne⟩
    | gens F => exact hpos
    | both f => exact ⟨(hok f rfl).dual, hpos, hne⟩
  · have sP : ∀ P ∈ Ps, ∀ y, P.cone y → Sat C y := fun P hP' y hy => (Rep.cone_isCone (bP P hP')).sat (hP P hP').pos
      ((Rep.cone_isCone (bP P hP')).exists_point ((hP P hP').nonEmpty (fP P hP'))) (fun x hx => hC P hP' x hx) hy
    have hx' : r.dual.cone (hom x) := hx
    intro q hq
    have c1 : r.cone (toV K (n + 1) q) := (hpol _).2 fun P hP' y hy => (sP P hP' y hy q hq).1
    have h1 : 0 ≤ dot q (hom x) := (hback _).1 c1 _ hx'
    refine ⟨h1, fun h0 => ?_⟩
    have c2 : r.cone (-toV K (n + 1) q) := (hpol _).2 fun P hP' y hy => by
      rw [linV_neg_left, ← dot_eq_linV, (sP P hP' y hy q hq).2 h0]; simp
    have h2 := (hback _).1 c2 _ hx'
    rw [linV_neg_left, ← dot_eq_linV] at h2
    exact le_antisymm (by linarith) h1

theorem sat_mergeAll (Cs : List (List Row)) (y : Fin (n + 1) → K) : Sat (mergeAll n Cs) y ↔ ∀ C ∈ Cs, Sat C y := by
  have key : ∀ (Cs : List (List Row)) (M : List Row),
      Sat (Cs.foldl (fun M C => mergeRows (n + 2) M (sortRows (n + 2) C)) M) y ↔ Sat M y ∧ ∀ C ∈ Cs, Sat C y := by
    intro Cs
    induction Cs with
    | nil => intro M; simp
    | cons C Cs ih =>
      intro M
      rw [List.foldl_cons, ih, sat_mergeRows (d := n + 1), sat_sortRows]
      simp [and_assoc]
  rw [mergeAll, key]
  exact ⟨fun h => h.2, fun h => ⟨Sat.nil y, h⟩⟩

theorem selectStart_perm (j : Full) (b a l : List Full) :
    ((selectStart j b a l).1 :: (selectStart j b a l).2).Perm (j :: (b ++ a ++ l)) := by
  induction l generalizing j b a with
  | nil => rw [selectStart, List.append_nil]
  | cons i l ih =>
    rw [selectStart]
    split_ifs
    · refine (ih _ _ _).trans ?_
      rw [List.append_nil, List.append_assoc, List.cons_append, List.append_assoc]
      refine (List.Perm.cons i List.perm_middle).trans ((List.Perm.swap _ _ _).trans (List.Perm.cons j ?_))
      rw [← List.append_assoc, ← List.append_assoc]
      exact List.perm_middle.symm
    · refine (ih _ _ _).trans ?_
      rw [← List.append_assoc, List.append_assoc _ [i] l]; exact List.Perm.refl _

/-- the collected polyhedra: converted, not empty -/
theorem collect_true {o : Opts} (k : ℕ) (acc ps : List (ℕ × Rep)) (hk : ps.length ≤ k) (hw : ∀ p ∈ ps, p.2.Wf K n) :
    match collect n true o k acc ps with
    | none => ∃ p ∈ ps, ∀ x : Fin n → K, ¬ p.2.γ x
    | some qs => ∃ rs, qs = acc ++ rs ∧ rs.length = ps.length ∧
        (∀ q ∈ rs, q.2.Wf K n ∧ q.2.C? ≠ none ∧ (o.lzy = false → ∃ f, q.2 = .both f)) ∧
        ∀ x : Fin n → K, (∀ p ∈ ps, p.2.γ x) ↔ ∀ q ∈ rs, q.2.γ x := by
  induction k generalizing acc ps with
  | zero =>
    obtain rfl := List.length_eq_zero_iff.1 (Nat.le_zero.1 hk)
    rw [collect]; exact ⟨[], by simp⟩
  | succ k ih =>
    cases ps with
    | nil => rw [collect]; exact ⟨[], by simp⟩
    | cons p rest =>
      rw [collect]
      have wp := hw p (by simp)
      have hr : (if o.lzy then p.2.obtainCDual n true else p.2.chernikovaDual n true).Wf K n ∧
          (∀ x : Fin n → K, (if o.lzy then p.2.obtainCDual n true else p.2.chernikovaDual n true).γ x ↔ p.2.γ x) ∧
          (o.lzy = false → (if o.lzy then p.2.obtainCDual n true else p.2.chernikovaDual n true).C? ≠ none →
            ∃ f, (if o.lzy then p.2.obtainCDual n true else p.2.chernikovaDual n true) = .both f) ∧
          ((if o.lzy then p.2.obtainCDual n true else p.2.chernikovaDual n true).C? = none →
            (if o.lzy then p.2.obtainCDual n true else p.2.chernikovaDual n true) = .bot) := by
        split_ifs with hl
        · refine ⟨obtainCDual_wf (meet := true) wp, obtainCDual_γ (meet := true) wp, fun h => absurd hl (by simp [h]), fun h => ?_⟩
          by_contra hb; exact obtainCDual_C hb h
        · refine ⟨chernikovaDual_wf (meet := true) wp, chernikovaDual_γ (meet := true) wp, fun _ hc => ?_, fun h => ?_⟩
          · rcases chernikovaDual_shape n true p.2 with e | h
            · rw [e] at hc; exact absurd rfl hc
            · exact h
          · rcases chernikovaDual_shape n true p.2 with e | ⟨f, e⟩
            · exact e
            · rw [e] at h; cases h
      generalize (if o.lzy then p.2.obtainCDual n true else p.2.chernikovaDual n true) = r at *
      obtain ⟨h1, h2, h3, h4⟩ := hr
      by_cases hc : r.C? = none
      · rw [if_pos hc, if_pos rfl]
        refine ⟨p, by simp, fun x hx => ?_⟩
        have := (h2 x).2 hx
        rw [h4 hc] at this; exact this
      · rw [if_neg hc]
        have := ih (acc ++ [(p.1, r)]) rest (by simpa using hk) (fun q hq => hw q (List.mem_cons_of_mem _ hq))
        revert this
        cases collect n true o k (acc ++ [(p.1, r)]) rest with
        | none =>
          rintro ⟨q, hq, h⟩; exact ⟨q, List.mem_cons_of_mem _ hq, h⟩
        | some qs =>
          rintro ⟨rs, e1, e2, e3, e4⟩
          refine ⟨(p.1, r) :: rs, by rw [e1, List.append_assoc]; rfl, by simp [e2], ?_, fun x => ?_⟩
          · intro q hq
            rcases List.mem_cons.1 hq with rfl | hq
            · exact ⟨h1, hc, fun hl => h3 hl hc⟩
            · exact e3 q hq
          · simp only [List.mem_cons, forall_eq_or_imp]
            rw [e4, h2]

theorem collect_false {o : Opts} (k : ℕ) (acc ps : List (ℕ × Rep)) (hk : ps.length ≤ k) (hw : ∀ p ∈ ps, p.2.dual.Wf K n) :
    ∃ rs, collect n false o k acc ps = some (acc ++ rs) ∧
        (∀ q ∈ rs, q.2.dual.Wf K n ∧ q.2.C? ≠ none ∧ (o.lzy = false → ∃ f, q.2 = .both f)) ∧
        (∀ p ∈ ps, ∀ x : Fin n → K, p.2.dual.γ x → ∃ q ∈ rs, q.2.dual.γ x) ∧
        (∀ q ∈ rs, ∀ x : Fin n → K, q.2.dual.γ x → ∃ p ∈ ps, p.2.dual.γ x) ∧
        (∀ q ∈ rs, ∃ p ∈ ps, q.1 = p.1 ∧ q.2 = if o.lzy then p.2.obtainCDual n false else p.2.chernikovaDual n false) := by
  induction k generalizing acc ps with
  | zero =>
    obtain rfl := List.length_eq_zero_iff.1 (Nat.le_zero.1 hk)
    rw [collect]; exact ⟨[], by simp⟩
  | succ k ih =>
    cases ps with
    | nil => rw [collect]; exact ⟨[], by simp⟩
    | cons p rest =>
      rw [collect]
      have wp := hw p (by simp)
      have hr : (if o.lzy then p.2.obtainCDual n false else p.2.chernikovaDual n false).dual.Wf K n ∧
          (∀ x : Fin n → K, (if o.lzy then p.2.obtainCDual n false else p.2.chernikovaDual n false).dual.γ x ↔ p.2.dual.γ x) ∧
          (o.lzy = false → (if o.lzy then p.2.obtainCDual n false else p.2.chernikovaDual n false).C? ≠ none →
            ∃ f, (if o.lzy then p.2.obtainCDual n false else p.2.chernikovaDual n false) = .both f) ∧
          ((if o.lzy then p.2.obtainCDual n false else p.2.chernikovaDual n false).C? = none →
            (if o.lzy then p.2.obtainCDual n false else p.2.chernikovaDual n false) = .bot) := by
        split_ifs with hl
        · refine ⟨obtainCDual_wf (meet := false) wp, obtainCDual_γ (meet := false) wp, fun h => absurd hl (by simp [h]), fun h => ?_⟩
          by_contra hb; exact obtainCDual_C hb h
        · refine ⟨chernikovaDual_wf (meet := false) wp, chernikovaDual_γ (meet := false) wp, fun _ hc => ?_, fun h => ?_⟩
          · rcases chernikovaDual_shape n false p.2 with e | h
            · rw [e] at hc; exact absurd rfl hc
            · exact h
          · rcases chernikovaDual_shape n false p.2 with e | ⟨f, e⟩
            · exact e
            · rw [e] at h; cases h
      generalize hreq : (if o.lzy then p.2.obtainCDual n false else p.2.chernikovaDual n false) = r at *
      obtain ⟨h1, h2, h3, h4⟩ := hr
      by_cases hc : r.C? = none
      · rw [if_pos hc, if_neg (by simp)]
        obtain ⟨rs, e1, e2, e3, e4, e5⟩ := ih acc (moveLast rest) (by rw [moveLast_length]; simpa using hk)
          (fun q hq => hw q (List.mem_cons_of_mem _ ((moveLast_perm rest).mem_iff.1 hq)))
        refine ⟨rs, e1, e2, ?_, ?_, ?_⟩
        · intro q hq x hx
          rcases List.mem_cons.1 hq with rfl | hq
          · have := (h2 x).2 hx
            rw [h4 hc] at this; exact this.elim
          · exact e3 q ((moveLast_perm rest).mem_iff.2 hq) x hx
        · intro q hq x hx
          obtain ⟨p', hp', h⟩ := e4 q hq x hx
          exact ⟨p', List.mem_cons_of_mem _ ((moveLast_perm rest).mem_iff.1 hp'), h⟩
        · intro q hq
          obtain ⟨p', hp', h⟩ := e5 q hq
          exact ⟨p', List.mem_cons_of_mem _ ((moveLast_perm rest).mem_iff.1 hp'), h⟩
      · rw [if_neg hc]
        obtain ⟨rs, e1, e2, e3, e4, e5⟩ := ih (acc ++ [(p.1, r)]) rest (by simpa using hk) (fun q hq => hw q (List.mem_cons_of_mem _ hq))
        refine ⟨(p.1, r) :: rs, by rw [e1, List.append_assoc]; rfl, ?_, ?_, ?_, ?_⟩
        · intro q hq
          rcases List.mem_cons.1 hq with rfl | hq
          · exact ⟨h1, hc, fun hl => h3 hl hc⟩
          · exact e2 q hq
        · intro q hq x hx
          rcases List.mem_cons.1 hq with rfl | hq
          · exact ⟨(q.1, r), by simp, (h2 x).2 hx⟩
          · obtain ⟨q', hq', h⟩ := e3 q hq x hx; exact ⟨q', List.mem_cons_of_mem _ hq', h⟩
        · intro q hq x hx
          rcases List.mem_cons.1 hq with rfl | hq
          · exact ⟨p, by simp, (h2 x).1 hx⟩
          · obtain ⟨q', hq', h⟩ := e4 q hq x hx; exact ⟨q', List.mem_cons_of_mem _ hq', h⟩
        · intro q hq
          rcases List.mem_cons.1 hq with rfl | hq
          · exact ⟨p, by simp, rfl, hreq.symm⟩
          · obtain ⟨q', hq', h⟩ := e5 q hq; exact ⟨q', List.mem_cons_of_mem _ hq', h⟩

theorem polyMeet2_ok {meet : Bool} {o : Opts} {p q : ℕ × Rep} (hp : (p.2.view meet).Wf K n) (hq : (q.2.view meet).Wf K n)
    (hid : p.1 = q.1 → p.2 = q.2) : ∃ r, polyMeet2 n meet o p q = some r ∧ ViewOk K n meet p.2 q.2 r := by
  rw [polyMeet2]
  split_ifs with h
  · refine ⟨_, rfl, ?_⟩
    rw [← hid h]; exact polyMeetSelf_ok hp
  · exact polyMeet_ok hp hq (by simp)

theorem fulls_eq {qs : List (ℕ × Rep)} (h : ∀ q ∈ qs, ∃ f, q.2 = .both f) : (fulls qs).map Rep.both = qs.map Prod.snd := by
  induction qs with
  | nil => rfl
  | cons q qs ih =>
    obtain ⟨i, r⟩ := q
    obtain ⟨f, e⟩ := h (i, r) (by simp)
    dsimp only at e
    subst e
    rw [fulls, List.map_cons, List.map_cons, ih fun q hq => h q (List.mem_cons_of_mem _ hq)]

/-- the general case, on the converted polyhedra -/
theorem array_tail {meet : Bool} {o : Opts} {qs : List (ℕ × Rep)} (hne : qs ≠ [])
    (hw : ∀ q ∈ qs, (q.2.view meet).Wf K n ∧ q.2.C? ≠ none ∧ (o.lzy = false → ∃ f, q.2 = .both f)) :
    ∃ r, (if o.lzy then some (.cons (mergeAll n (qs.filterMap fun q => q.2.C?)))
      else match fulls qs with
        | [] => none
        | f :: fs =>
          let s := selectStart f [] [] fs
          some (match addAndMinimize (n + 2) 2 meet s.1.crows (mergeAll n (s.2.map Full.crows)) s.1.lines s.1.rays with
            | none => Rep.bot
            | some m => .both (.ofMin m meet (!meet)))) = some r ∧ ViewOkL K n meet (qs.map Prod.snd) r := by
  have hP' : ∀ P ∈ (qs.map Prod.snd).map Rep.dual, ∃ q ∈ qs, P = q.2.dual := by
    intro P hP
    obtain ⟨Q, hQ, rfl⟩ := List.mem_map.1 hP
    obtain ⟨q, hq, rfl⟩ := List.mem_map.1 hQ
    exact ⟨q, hq, rfl⟩
  have joinCase : ∀ r : Rep, meet = false → r.C? ≠ none → (∀ f, r = .both f → f.Ok K (n + 1)) →
      (∀ v : Fin (n + 1) → K, r.cone v ↔ ∀ q ∈ qs, q.2.cone v) → ViewOkL K n meet (qs.map Prod.snd) r := by
    rintro r rfl hC hok hcone
    have := joinL_of_cone (K := K) (n := n) (Ps := (qs.map Prod.snd).map Rep.dual) (r := r) (by simpa using hne) (by
        intro P hP; obtain ⟨q, hq, rfl⟩ := hP' P hP; exact (hw q hq).1) (by
        intro P hP; obtain ⟨q, hq, rfl⟩ := hP' P hP; rw [Rep.dual_F]; exact (hw q hq).2.1) hC hok (fun v => by
        rw [hcone]
        constructor
        · intro h P hP; obtain ⟨q, hq, rfl⟩ := hP' P hP; rw [Rep.dual_dual]; exact h q hq
        · intro h q hq
          have := h q.2.dual (List.mem_map_of_mem (List.mem_map_of_mem hq))
          rwa [Rep.dual_dual] at this)
    exact ⟨this.1, by simpa using this.2⟩
  by_cases hl : o.lzy = true
  · rw [if_pos hl]
    refine ⟨_, rfl, ?_⟩
    have hcone : ∀ y : Fin (n + 1) → K, Sat (mergeAll n (qs.filterMap fun q => q.2.C?)) y ↔ ∀ q ∈ qs, q.2.cone y := by
      intro y
      rw [sat_mergeAll]
      constructor
      · intro h q hq
        cases hc : q.2.C? with
        | none => exact absurd hc (hw q hq).2.1
        | some C => rw [Rep.Wf.sat hc]; exact h C (List.mem_filterMap.2 ⟨q, hq, hc⟩)
      · intro h C hC
        obtain ⟨q, hq, hc⟩ := List.mem_filterMap.1 hC
        have := h q hq
        rwa [Rep.Wf.sat hc] at this
    generalize mergeAll n (qs.filterMap fun q => q.2.C?) = M at *
    cases meet
    · exact joinCase _ rfl (by simp [Rep.C?]) (by rintro f e; cases e) hcone
    · obtain ⟨q, hq⟩ := List.exists_mem_of_ne_nil _ hne
      refine ⟨fun y hy => (hw q hq).1.pos y ((hcone y).1 hy q hq), ?_⟩
      simp only [if_true]
      intro x
      change Sat M (hom x) ↔ _
      rw [hcone]
      simp only [List.mem_map, forall_exists_index, and_imp, forall_apply_eq_imp_iff₂, Rep.γ]
  · rw [if_neg hl]
    have hf := fulls_eq fun q hq => (hw q hq).2.2 (by simpa using hl)
    cases hfs : fulls qs with
    | nil => rw [hfs] at hf; exact absurd (by simpa using hf.symm) hne
    | cons f fs =>
      dsimp only
      refine ⟨_, rfl, ?_⟩
      have hperm := selectStart_perm f [] [] fs
      have hmem : ∀ g ∈ f :: fs, ∃ q ∈ qs, q.2 = .both g := by
        intro g hg
        have : Rep.both g ∈ qs.map Prod.snd := by rw [← hf, hfs]; exact List.mem_map_of_mem hg
        obtain ⟨q, hq, e⟩ := List.mem_map.1 this
        exact ⟨q, hq, e⟩
      have hmem' : ∀ q ∈ qs, ∃ g ∈ f :: fs, q.2 = .both g := by
        intro q hq
        have : q.2 ∈ (fulls qs).map Rep.both := by rw [hf]; exact List.mem_map_of_mem hq
        rw [hfs] at this
        obtain ⟨g, hg, e⟩ := List.mem_map.1 this
        exact ⟨g, hg, e.symm⟩
      generalize selectStart f [] [] fs = s at *
      obtain ⟨g, others⟩ := s
      dsimp only at hperm ⊢
      have hg : g ∈ f :: fs := hperm.mem_iff.1 (by simp)
      obtain ⟨q0, hq0, eq0⟩ := hmem g hg
      have wg := (hw q0 hq0).1
      rw [eq0] at wg
      have hok : g.Ok K (n + 1) := by
        cases meet
        · exact Full.dual_dual g ▸ Full.Ok.dual (f := g.dual) wg.1
        · exact wg.1
      have hall : ∀ y : Fin (n + 1) → K, (Sat g.crows y ∧ Sat (mergeAll n (others.map Full.crows)) y) ↔ ∀ q ∈ qs, q.2.cone y := by
        intro y
        rw [sat_mergeAll]
        constructor
        · rintro ⟨h1, h2⟩ q hq
          obtain ⟨g', hg', e⟩ := hmem' q hq
          rw [e]
          rcases List.mem_cons.1 (hperm.mem_iff.2 hg') with rfl | hg'
          · exact h1
          · exact h2 _ (List.mem_map_of_mem hg')
        · intro h
          refine ⟨?_, fun C hC => ?_⟩
          · have := h q0 hq0; rw [eq0] at this; exact this
          · obtain ⟨g', hg', rfl⟩ := List.mem_map.1 hC
            obtain ⟨q, hq, e⟩ := hmem g' (hperm.mem_iff.1 (List.mem_cons_of_mem _ hg'))
            have := h q hq; rw [e] at this; exact this
      cases hm : addAndMinimize (n + 2) 2 meet g.crows (mergeAll n (others.map Full.crows)) g.lines g.rays with
      | none =>
        dsimp only
        cases meet
        · exact absurd hm addAndMinimize_false
        · refine ⟨trivial, ?_⟩
          simp only [if_true]
          rw [crows_eq] at hm
          have hz := (addAndMinimize_none (K := K) (d := n + 1) (dec := 2) le_rfl (by omega) hok.min (by
            intro y hy; rw [← crows_eq] at hy; exact wg.2.1 y hy)).1 hm
          intro x
          refine ⟨fun hx => hx.elim, fun hx => ?_⟩
          have h1 := (hall (hom x)).2 fun q hq => hx q.2 (List.mem_map_of_mem hq)
          rw [crows_eq] at h1
          have := hz _ h1.1 h1.2
          exact absurd this (by change hom x 0 ≠ 0; rw [hom_zero]; exact one_ne_zero)
      | some m =>
        dsimp only
        have hm' := hm
        rw [crows_eq] at hm'
        obtain ⟨h1, h2⟩ := addAndMinimize_ok hok.min hm'
        obtain ⟨h3, h4⟩ := addAndMinimize_indep hok.min hok.indL hm'
        have hok' := ofMin_ok (b1 := meet) (b2 := !meet) h1 h3 h4
        have hcone : ∀ y : Fin (n + 1) → K, Sat (Full.ofMin m meet (!meet)).crows y ↔ ∀ q ∈ qs, q.2.cone y := by
          intro y; rw [ofMin_crows, h2, ← crows_eq, hall]
        generalize Full.ofMin m meet (!meet) = g' at *
        cases meet
        · exact joinCase _ rfl (by simp [Rep.C?]) (by rintro f' e; cases e; exact hok') hcone
        · refine ⟨⟨hok', fun y hy => (hw q0 hq0).1.pos y ((hcone y).1 hy q0 hq0), ?_⟩, ?_⟩
          · have hne := (addAndMinimize_none (K := K) (d := n + 1) (dec := 2) le_rfl (by omega) hok.min
              (newC := mergeAll n (others.map Full.crows)) (by
              intro y hy; rw [← crows_eq] at hy; exact wg.2.1 y hy)).not.1 (by rw [hm']; simp)
            push Not at hne
            obtain ⟨y, hy1, hy2, h0⟩ := hne
            rw [← crows_eq] at hy1
            exact ⟨y, (hcone y).2 ((hall y).1 ⟨hy1, hy2⟩), lt_of_le_of_ne (wg.2.1 y hy1) (Ne.symm h0)⟩
          · simp only [if_true]
            intro x
            change Sat g'.crows (hom x) ↔ _
            rw [hcone]
            simp only [List.mem_map, forall_exists_index, and_imp, forall_apply_eq_imp_iff₂, Rep.γ]

theorem meetArray_ok {o : Opts} {ps : List (ℕ × Rep)} (hne : ps ≠ []) (hw : ∀ p ∈ ps, p.2.Wf K n)
    (hid : ∀ p ∈ ps, ∀ q ∈ ps, p.1 = q.1 → p.2 = q.2) :
    ∃ r, meetArray n o ps = some r ∧ r.Wf K n ∧ IsMeetL K n (ps.map Prod.snd) r := by
  suffices h : ∃ r, polyMeetArray n true o ps = some r ∧ ViewOkL K n true (ps.map Prod.snd) r by
    obtain ⟨r, h1, h2⟩ := h
    exact ⟨r, h1, h2.1, by simpa using h2.2⟩
  match ps, hne with
  | [p], _ =>
    exact ⟨_, rfl, (polyMeetSelf_ok (meet := true) (hw p (by simp))).single⟩
  | [p, q], _ =>
    obtain ⟨r, h1, h2⟩ := polyMeet2_ok (meet := true) (o := o) (hw p (by simp)) (hw q (by simp)) (hid p (by simp) q (by simp))
    exact ⟨r, h1, h2.list⟩
  | p1 :: p2 :: p3 :: ps, _ =>
    have hc := collect_true (K := K) (o := o) (p1 :: p2 :: p3 :: ps).length [] (p1 :: p2 :: p3 :: ps) le_rfl hw
    have hlen : 3 ≤ (p1 :: p2 :: p3 :: ps).length := by simp
    rw [polyMeetArray.eq_def]
    dsimp only
    generalize p1 :: p2 :: p3 :: ps = Ps at *
    cases hcol : collect n true o Ps.length [] Ps with
    | none =>
      rw [hcol] at hc
      obtain ⟨p, hp, hpx⟩ := hc
      refine ⟨_, rfl, trivial, ?_⟩
      simp only [if_true]
      exact fun x => ⟨fun hx => False.elim hx, fun hx => absurd (hx _ (List.mem_map_of_mem hp)) (hpx x)⟩
    | some qs =>
      rw [hcol] at hc
      obtain ⟨rs, e1, e2, e3, e4⟩ := hc
      rw [List.nil_append] at e1
      subst e1
      match qs, e2 with
      | q1 :: q2 :: q3 :: qs, e2 =>
        dsimp only
        obtain ⟨r, hr, hv⟩ := array_tail (K := K) (n := n) (meet := true) (o := o) (qs := q1 :: q2 :: q3 :: qs) (by simp) e3
        refine ⟨r, hr, hv.congr_true fun x => ?_⟩
        simp only [List.mem_map, forall_exists_index, and_imp, forall_apply_eq_imp_iff₂]
        exact e4 x
      | [], e2 => simp at e2; omega
      | [_], e2 => simp at e2; omega
      | [_, _], e2 => simp at e2; omega

theorem joinArray_aux {o : Opts} {ps : List (ℕ × Rep)} (hne : ps ≠ []) (hw : ∀ p ∈ ps, p.2.dual.Wf K n)
    (hid : ∀ p ∈ ps, ∀ q ∈ ps, p.1 = q.1 → p.2 = q.2) :
    ∃ r, polyMeetArray n false o ps = some r ∧ ViewOkL K n false (ps.map Prod.snd) r := by
  match ps, hne with
  | [p], _ =>
    exact ⟨_, rfl, (polyMeetSelf_ok (meet := false) (hw p (by simp))).single⟩
  | [p, q], _ =>
    obtain ⟨r, h1, h2⟩ := polyMeet2_ok (meet := false) (o := o) (hw p (by simp)) (hw q (by simp)) (hid p (by simp) q (by simp))
    exact ⟨r, h1, h2.list⟩
  | p1 :: p2 :: p3 :: ps, _ =>
    obtain ⟨rs, e1, e2, e3, e4, e5⟩ := collect_false (K := K) (o := o) (p1 :: p2 :: p3 :: ps).length [] (p1 :: p2 :: p3 :: ps) le_rfl hw
    rw [polyMeetArray.eq_def]
    dsimp only
    generalize p1 :: p2 :: p3 :: ps = Ps at *
    rw [e1, List.nil_append]
    have conv : ∀ r, ViewOkL K n false (rs.map Prod.snd) r → ViewOkL K n false (Ps.map Prod.snd) r := by
      intro r h
      refine h.congr_false ?_ ?_
      · intro P hP x hx
        obtain ⟨p, hp, rfl⟩ := List.mem_map.1 hP
        obtain ⟨q, hq, h⟩ := e3 p hp x hx
        exact ⟨_, List.mem_map_of_mem hq, h⟩
      · intro P hP x hx
        obtain ⟨p, hp, rfl⟩ := List.mem_map.1 hP
        obtain ⟨q, hq, h⟩ := e4 p hp x hx
        exact ⟨_, List.mem_map_of_mem hq, h⟩
    have hid' : ∀ p ∈ rs, ∀ q ∈ rs, p.1 = q.1 → p.2 = q.2 := by
      intro p hp q hq h
      obtain ⟨p', hp', a1, a2⟩ := e5 p hp
      obtain ⟨q', hq', b1, b2⟩ := e5 q hq
      rw [a2, b2, hid p' hp' q' hq' (a1.symm.trans (h.trans b1))]
    match rs with
    | [] =>
      refine ⟨_, rfl, conv _ ⟨trivial, ?_⟩⟩
      simp only [Bool.false_eq_true, if_false]
      exact ⟨by simp, fun C _ x hx => False.elim hx⟩
    | [p] =>
      refine ⟨_, rfl, conv _ ⟨(e2 p (by simp)).1, ?_⟩⟩
      simp only [Bool.false_eq_true, if_false]
      exact ⟨by simp, fun C hC x hx => hC p.2.dual (by simp) x hx⟩
    | [p, q] =>
      dsimp only
      rw [if_neg (by simp)]
      obtain ⟨r, h1, h2⟩ := polyMeet2_ok (meet := false) (o := o) (e2 p (by simp)).1 (e2 q (by simp)).1 (hid' p (by simp) q (by simp))
      exact ⟨r, h1, conv _ h2.list⟩
    | q1 :: q2 :: q3 :: qs =>
      dsimp only
      obtain ⟨r, hr, hv⟩ := array_tail (K := K) (n := n) (meet := false) (o := o) (qs := q1 :: q2 :: q3 :: qs) (by simp) e2
      exact ⟨r, hr, conv _ hv⟩

/-- the removal of duplicates is complete if no address occurs more than twice -/
theorem dedup_ok (k : ℕ) : ∀ l : List ℕ, l.length ≤ k → l.Pairwise (· ≤ ·) → (∀ a, l.count a ≤ 2) →
    (dedup l).Nodup ∧ ∀ a, a ∈ dedup l ↔ a ∈ l := by
  induction k with
  | zero =>
    intro l hl _ _
    obtain rfl := List.length_eq_zero_iff.1 (Nat.le_zero.1 hl)
    simp [dedup]
  | succ k ih =>
    intro l hl hs hc
    match l with
    | [] => simp [dedup]
    | [a] => simp [dedup]
    | a :: b :: l =>
      rw [dedup]
      split_ifs with h
      · subst h
        obtain ⟨h1, h2⟩ := ih l (by simp at hl; omega) (List.pairwise_cons.1 (List.pairwise_cons.1 hs).2).2
          (fun x => le_trans (by simp only [List.count_cons]; omega) (hc x))
        have hn : a ∉ l := by
          intro ha
          have := hc a
          have h3 := List.count_pos_iff.2 ha
          simp at this; omega
        refine ⟨List.nodup_cons.2 ⟨fun h => hn ((h2 a).1 h), h1⟩, fun x => ?_⟩
        simp only [List.mem_cons, h2]; tauto
      · obtain ⟨h1, h2⟩ := ih (b :: l) (by simp at hl ⊢; omega) (List.pairwise_cons.1 hs).2
          (fun x => le_trans (by rw [List.count_cons (a := x) (b := a)]; omega) (hc x))
        have hn : a ∉ b :: l := by
          intro ha
          have hab := (List.pairwise_cons.1 hs).1 b (by simp)
          rcases List.mem_cons.1 ha with rfl | ha
          · exact h rfl
          · have := (List.pairwise_cons.1 (List.pairwise_cons.1 hs).2).1 a ha
            omega
        refine ⟨List.nodup_cons.2 ⟨fun h => hn ((h2 a).1 h), h1⟩, fun x => ?_⟩
        simp only [List.mem_cons, h2]

theorem joinArray_ok {o : Opts} {ids : List ℕ} {heap : ℕ → Rep} (hne : ids ≠ []) (hw : ∀ i ∈ ids, (heap i).Wf K n)
    (hc : ∀ i, ids.count i ≤ 2) :
    ∃ r, joinArray n o ids heap = some r ∧ r.Wf K n ∧ IsJoinL K n (ids.map heap) r := by
  match ids, hne with
  | [i], _ =>
    exact ⟨_, rfl, hw i (by simp), by simp, fun C hC => hC _ (by simp)⟩
  | i :: j :: l, _ =>
    rw [joinArray.eq_def]
    dsimp only
    generalize i :: j :: l = ids at *
    have hp := List.perm_insertionSort (· ≤ ·) ids
    obtain ⟨h1, h2⟩ := dedup_ok _ (ids.insertionSort (· ≤ ·)) le_rfl (List.pairwise_insertionSort (· ≤ ·) ids)
      (fun a => by rw [hp.count_eq]; exact hc a)
    generalize dedup (ids.insertionSort (· ≤ ·)) = t at *
    have hst : ∀ i ∈ t, (if t.count i % 2 = 1 then (heap i).dual else heap i) = (heap i).dual := by
      intro i hi; rw [List.count_eq_one_of_mem h1 hi]; rfl
    have hids : ∀ i, i ∈ t ↔ i ∈ ids := fun i => (h2 i).trans hp.mem_iff
    obtain ⟨r, hr, hv⟩ := joinArray_aux (K := K) (n := n) (o := o)
      (ps := t.map fun i => (i, if t.count i % 2 = 1 then (heap i).dual else heap i)) (by
        intro h
        obtain ⟨i, hi⟩ := List.exists_mem_of_ne_nil _ ‹ids ≠ []›
        rw [List.map_eq_nil_iff] at h
        rw [← hids, h] at hi; cases hi) (by
        intro p hp
        obtain ⟨i, hi, rfl⟩ := List.mem_map.1 hp
        rw [hst i hi, Rep.dual_dual]; exact hw i ((hids i).1 hi)) (by
        intro p hp q hq h
        obtain ⟨i, hi, rfl⟩ := List.mem_map.1 hp
        obtain ⟨j, hj, rfl⟩ := List.mem_map.1 hq
        have h : i = j := h
        rw [h])
    rw [hr]
    refine ⟨_, rfl, hv.1, ?_⟩
    have h3 := hv.2
    simp only [Bool.false_eq_true, if_false] at h3
    have hmem : ∀ P, P ∈ List.map Rep.dual (List.map Prod.snd
        (t.map fun i => (i, if t.count i % 2 = 1 then (heap i).dual else heap i))) ↔ P ∈ ids.map heap := by
      intro P
      rw [List.map_map, List.map_map, List.mem_map, List.mem_map]
      constructor
      · rintro ⟨i, hi, rfl⟩
        refine ⟨i, (hids i).1 hi, ?_⟩
        simp only [Function.comp]
        rw [hst i hi, Rep.dual_dual]
      · rintro ⟨i, hi, rfl⟩
        refine ⟨i, (hids i).2 hi, ?_⟩
        simp only [Function.comp]
        rw [hst i ((hids i).2 hi), Rep.dual_dual]
    exact ⟨fun P hP => h3.1 P ((hmem P).2 hP), fun C hC => h3.2 C fun P hP => hC P ((hmem P).1 hP)⟩

end Apron.Poly
