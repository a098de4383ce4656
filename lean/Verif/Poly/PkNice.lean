import Verif.Poly.PkEqTest
import Verif.Poly.PkMeet
import Verif.Poly.PkTop
import Verif.Poly.PkUser

/-!
# Polyhedra: operations that keep the rows of gcd 1 and the flags truthful
-/

set_option autoImplicit false
set_option linter.unusedSectionVars false

namespace Apron.Poly

open ILincons

variable {K : Type*} [LinearOrder K] [Field K] [IsStrictOrderedRing K] {d n : ℕ}

theorem AllPrim.mergeLoop (size m : ℕ) : ∀ {a b : List Row}, AllPrim d a → AllPrim d b → AllPrim d (mergeLoop size m a b) := by
  induction m with
  | zero => intro a b ha hb; rw [Apron.Poly.mergeLoop]; exact ha.append hb
  | succ m ih =>
    intro a b ha hb
    cases a with
    | nil => rw [Apron.Poly.mergeLoop]; exact hb
    | cons x a =>
      cases b with
      | nil => rw [Apron.Poly.mergeLoop]; exact ha
      | cons y b =>
        have ha' : AllPrim d a := ha.sub fun q hq => List.mem_cons_of_mem _ hq
        have hb' : AllPrim d b := hb.sub fun q hq => List.mem_cons_of_mem _ hq
        have hc : ∀ {q : Row} {l : List Row}, PrimRow d q → AllPrim d l → AllPrim d (q :: l) := by
          intro q l hq hl p hp
          rcases List.mem_cons.1 hp with rfl | hp
          · exact hq
          · exact hl p hp
        rw [Apron.Poly.mergeLoop]
        split
        · exact hc (ha x (List.mem_cons_self ..)) (ih ha' hb)
        · exact hc (ha x (List.mem_cons_self ..)) (ih ha' hb')
        · exact hc (hb y (List.mem_cons_self ..)) (ih ha hb')

theorem AllPrim.mergeRows (size : ℕ) {a b : List Row} (ha : AllPrim d a) (hb : AllPrim d b) : AllPrim d (mergeRows size a b) :=
  AllPrim.mergeLoop _ _ ha hb

theorem Rep.Nice.C {r : Rep} (h : r.Nice n) {C : List Row} (hc : r.C? = some C) : AllPrim (n + 1) C := by
  cases r with
  | bot => simp [Rep.C?] at hc
  | gens F => simp [Rep.C?] at hc
  | cons C' => simp only [Rep.C?, Option.some.injEq] at hc; exact hc ▸ h
  | both f =>
    simp only [Rep.C?, Option.some.injEq] at hc
    subst hc
    intro q hq
    obtain ⟨x, hx, rfl⟩ := List.mem_map.1 hq
    exact h.1.prim x hx

theorem Rep.Nice.F {r : Rep} (h : r.Nice n) {F : List Row} (hc : r.F? = some F) : AllPrim (n + 1) F := by
  cases r with
  | bot => simp [Rep.F?] at hc
  | cons F => simp [Rep.F?] at hc
  | gens C' => simp only [Rep.F?, Option.some.injEq] at hc; exact hc ▸ h
  | both f =>
    simp only [Rep.F?, Option.some.injEq] at hc
    subst hc
    intro q hq
    obtain ⟨x, hx, rfl⟩ := List.mem_map.1 hq
    exact h.2.prim x hx

/-- the matrix that `poly_meet` reads is `C` of the polyhedron or of its dual -/
theorem Rep.Nice.viewC {r : Rep} {meet : Bool} (h : (r.view meet).Nice n) {C : List Row} (hc : r.C? = some C) : AllPrim (n + 1) C := by
  cases meet
  · exact Rep.Nice.F (r := r.dual) h (by rw [Rep.dual_F]; exact hc)
  · exact Rep.Nice.C (r := r) h hc

/-- well-formed with rows of gcd 1 and truthful flags -/
def VN (K : Type*) [LinearOrder K] [Field K] [IsStrictOrderedRing K] (n : ℕ) (meet : Bool) (r : Rep) : Prop :=
  (r.view meet).Wf K n ∧ (r.view meet).Nice n

theorem VN.chernikovaDual {meet : Bool} {r : Rep} (h : VN K n meet r) (m : Bool) (hm : m = meet) : VN K n meet (r.chernikovaDual n m) := by
  subst hm
  exact ⟨chernikovaDual_wf h.1, by rw [chernikovaDual_view]; exact h.2.chernikova⟩

theorem VN.obtainCDual {meet : Bool} {r : Rep} (h : VN K n meet r) : VN K n meet (r.obtainCDual n meet) := by
  rw [Rep.obtainCDual]
  split_ifs
  · exact h.chernikovaDual _ rfl
  · exact h

theorem particular_nice {meet : Bool} {o : Opts} {pa pb r : Rep} (ha : VN K n meet pa) (hb : VN K n meet pb)
    (h : Rep.particular n meet o pa pb = some r) : (r.view meet).Nice n := by
  rw [Rep.particular] at h
  cases meet
  · simp only [Bool.false_eq_true, if_false] at h
    split_ifs at h <;> (simp only [Option.some.injEq] at h; subst h)
    · exact hb.2
    · exact (hb.chernikovaDual false rfl).2
    · exact ha.2
    · exact (ha.chernikovaDual false rfl).2
    · exact hb.2
    · exact ha.2
  · simp only [if_true] at h
    split_ifs at h
    simp only [Option.some.injEq] at h
    subst h
    trivial

theorem meetMatrix_nice {meet : Bool} {f : Full} (ha : VN K n meet (.both f)) {mat : List Row} (hm : AllPrim (n + 1) mat) {r : Rep}
    (h : Rep.meetMatrix n meet false (.both f) mat = some r) : (r.view meet).Nice n := by
  have hok : f.Ok K (n + 1) := by
    cases meet
    · exact Full.dual_dual f ▸ Full.Ok.dual (f := f.dual) ha.1.1
    · exact ha.1.1
  have hC : AllPrim (n + 1) f.crows := Rep.Nice.viewC ha.2 rfl
  have hF : SPrim (n + 1) f.F := by
    have h2 := ha.2
    cases meet
    · exact h2.1.prim
    · exact h2.2.prim
  simp only [Rep.meetMatrix, Bool.false_eq_true, if_false, Option.some.injEq] at h
  subst h
  cases hm' : addAndMinimize (n + 2) 2 meet f.crows mat f.lines f.rays with
  | none => cases meet <;> trivial
  | some m =>
    dsimp only
    have hp := addAndMinimize_prim hC hm (by
      intro q hq
      obtain ⟨x, hx, rfl⟩ := List.mem_map.1 hq
      exact hF x (List.mem_of_mem_take hx)) (fun x hx => hF x (List.mem_of_mem_drop hx)) hm'
    rw [crows_eq] at hm'
    obtain ⟨h1, -⟩ := addAndMinimize_ok hok.min hm'
    obtain ⟨g1, g2⟩ := ofMin_nice (b1 := meet) (b2 := !meet) h1 hp
    cases meet
    · exact ⟨g2.weaken (by simp [Full.ofMin, Full.dual]) (by simp [Full.ofMin, Full.dual]),
        g1.weaken (by simp [Full.ofMin, Full.dual]) (by simp [Full.ofMin, Full.dual])⟩
    · exact ⟨g1.weaken (fun _ => trivial) (by simp [Full.ofMin]), g2.weaken (by simp [Full.ofMin]) (by simp [Full.ofMin])⟩

theorem meetMatrix_lazy_nice {meet : Bool} {pa : Rep} (ha : (pa.view meet).Nice n) {mat : List Row} (hm : AllPrim (n + 1) mat) {r : Rep}
    (h : Rep.meetMatrix n meet true pa mat = some r) : (r.view meet).Nice n := by
  unfold Rep.meetMatrix at h
  rw [if_pos rfl] at h
  cases hC : pa.C? with
  | none => rw [hC] at h; simp at h
  | some C =>
    rw [hC] at h
    simp only [Option.map_some, Option.some.injEq] at h
    subst h
    have := AllPrim.mergeRows (n + 2) (AllPrim.sortRows (ha.viewC hC) (n + 2)) hm
    cases meet <;> exact this

theorem meetStart_nice {meet : Bool} {pa pb : Rep} (ha : VN K n meet pa) (hb : VN K n meet pb) {r : Rep}
    (h : Rep.meetStart n meet pa pb = some r) : (r.view meet).Nice n := by
  rw [Rep.meetStart] at h
  cases hC : pb.C? with
  | none => rw [hC] at h; simp at h
  | some C =>
    rw [hC] at h
    simp only [Option.bind_some] at h
    cases pa with
    | both f => exact meetMatrix_nice ha (AllPrim.sortRows (hb.2.viewC hC) _) h
    | bot => simp [Rep.meetMatrix] at h
    | cons _ => simp [Rep.meetMatrix] at h
    | gens _ => simp [Rep.meetMatrix] at h

theorem polyMeet_nice {meet : Bool} {o : Opts} {destr : Bool} {pa pb : Rep} (ha : VN K n meet pa) (hb : VN K n meet pb) {r : Rep}
    (h : Rep.polyMeet n meet o destr pa pb = some r) : (r.view meet).Nice n := by
  rw [Rep.polyMeet] at h
  cases h1 : Rep.particular n meet o pa pb with
  | some r' =>
    rw [h1] at h
    simp only [Option.some.injEq] at h
    subst h
    exact particular_nice ha hb h1
  | none =>
    rw [h1] at h
    dsimp only at h
    have va := ha.obtainCDual
    have vb := hb.obtainCDual
    generalize pa.obtainCDual n meet = qa at *
    generalize pb.obtainCDual n meet = qb at *
    cases h2 : Rep.particular n meet o qa qb with
    | some r' =>
      rw [h2] at h
      simp only [Option.some.injEq] at h
      subst h
      exact particular_nice va vb h2
    | none =>
      rw [h2] at h
      dsimp only at h
      by_cases hl : o.lzy = true
      · rw [if_pos hl] at h
        cases hC : qb.C? with
        | none => rw [hC] at h; simp at h
        | some C =>
          rw [hC] at h
          exact meetMatrix_lazy_nice va.2 (AllPrim.sortRows (vb.2.viewC hC) _) h
      · rw [if_neg hl] at h
        by_cases hdd : destr = true
        · rw [if_pos hdd] at h
          exact meetStart_nice (va.chernikovaDual _ rfl) vb h
        · rw [if_neg hdd] at h
          have hboth : ∀ (fa fb : Full), VN K n meet (.both fa) → VN K n meet (.both fb) →
              (if fa.startFirst fb then Rep.meetStart n meet (.both fa) (.both fb) else Rep.meetStart n meet (.both fb) (.both fa)) = some r →
                (r.view meet).Nice n := by
            intro fa fb va vb h
            split_ifs at h
            · exact meetStart_nice va vb h
            · exact meetStart_nice vb va h
          have hgen : ∀ (qa qb : Rep), VN K n meet qa → VN K n meet qb → (match Rep.particular n meet o (qa.chernikovaDual n meet) (qb.chernikovaDual n meet) with
              | some r => some r
              | none =>
                match qa.chernikovaDual n meet, qb.chernikovaDual n meet with
                | .both fa, .both fb => if fa.startFirst fb then Rep.meetStart n meet (qa.chernikovaDual n meet) (qb.chernikovaDual n meet)
                  else Rep.meetStart n meet (qb.chernikovaDual n meet) (qa.chernikovaDual n meet)
                | _, _ => none) = some r → (r.view meet).Nice n := by
            intro qa qb va vb h
            have va' := va.chernikovaDual meet rfl
            have vb' := vb.chernikovaDual meet rfl
            generalize qa.chernikovaDual n meet = ra at *
            generalize qb.chernikovaDual n meet = rb at *
            cases h3 : Rep.particular n meet o ra rb with
            | some r' =>
              rw [h3] at h
              simp only [Option.some.injEq] at h
              subst h
              exact particular_nice va' vb' h3
            | none =>
              rw [h3] at h
              dsimp only at h
              cases ra <;> cases rb <;> first
                | exact hboth _ _ va' vb' h
                | exact absurd h (by simp)
          cases qa <;> cases qb <;> first
            | exact hboth _ _ va vb h
            | exact meetStart_nice va vb h
            | exact meetStart_nice vb va h
            | exact hgen _ _ va vb h

theorem meet_nice {o : Opts} {destr : Bool} {pa pb r : Rep} (ha : pa.Wf K n) (na : pa.Nice n) (hb : pb.Wf K n) (nb : pb.Nice n)
    (h : Rep.meet n o destr pa pb = some r) : r.Nice n := polyMeet_nice (K := K) (meet := true) ⟨ha, na⟩ ⟨hb, nb⟩ h

theorem join_nice {o : Opts} {destr : Bool} {pa pb r : Rep} (ha : pa.Wf K n) (na : pa.Nice n) (hb : pb.Wf K n) (nb : pb.Nice n)
    (h : Rep.join n o destr pa pb = some r) : r.Nice n := by
  rw [Rep.join, Option.map_eq_some_iff] at h
  obtain ⟨r', h, rfl⟩ := h
  refine polyMeet_nice (K := K) (meet := false) (pa := pa.dual) (pb := pb.dual) ⟨?_, ?_⟩ ⟨?_, ?_⟩ h <;>
    (rw [view_dual_false, Rep.dual_dual]; assumption)

/-! ## Constraints -/

theorem dvd_vectorGcd_iff (l : List ℤ) (m : ℤ) (h : ∀ a ∈ l, m ∣ a) : m ∣ (vectorGcd l : ℤ) := by
  rw [vectorGcd_eq]
  apply Int.natAbs_dvd.1
  apply Int.natCast_dvd_natCast.2
  rw [dvd_lgcd]
  intro a ha
  obtain ⟨b, hb, rfl⟩ := List.mem_map.1 ha
  exact Int.natAbs_dvd_natAbs.2 (h b hb)

theorem primRow_normConsInt {intdim : ℕ} {q : Row} (h : q.at' 0 = 0 → PrimRow (n + 1) q) (h0 : 0 ≤ q.at' 0) : PrimRow (n + 1) (normConsInt n intdim q) := by
  rw [normConsInt]
  set l := (List.range n).map fun d => q.at' (d + 2) with hl
  have hmem : ∀ j, j < n → q.at' (j + 2) ∈ l := fun j hj => List.mem_map.2 ⟨j, List.mem_range.2 hj, rfl⟩
  dsimp only
  split_ifs with h1 h2 h3 h4
  · exact primRow_of_at (j := 0) (by omega) (by simp [at_ofFun])
  · have key : PrimRow (n + 1) (Row.ofFun (n + 2) fun j => if j = 0 then 0 else q.at' j / (vectorGcd l : ℤ)) := by
      intro m hm
      left
      have hg : (0 : ℤ) < (vectorGcd l : ℤ) := by exact_mod_cast zero_lt_one.trans h2
      have h5 : (vectorGcd l : ℤ) * m ∣ (vectorGcd l : ℤ) := by
        refine dvd_vectorGcd_iff l _ fun a ha => ?_
        obtain ⟨j, hj, rfl⟩ := List.mem_map.1 ha
        have h6 := hm (j + 1) (by have := List.mem_range.1 hj; omega)
        rw [at_ofFun, if_pos (by have := List.mem_range.1 hj; omega), if_neg (by omega)] at h6
        have h7 := Int.mul_ediv_cancel' (dvd_vectorGcd l _ ha)
        rw [← h7]
        exact mul_dvd_mul_left _ h6
      obtain ⟨c, hc⟩ := h5
      refine ⟨c, ?_⟩
      have h8 : (vectorGcd l : ℤ) * 1 = (vectorGcd l : ℤ) * (m * c) := by rw [mul_one, ← mul_assoc]; exact hc
      exact mul_left_cancel₀ hg.ne' h8
    exact key
  · intro m hm
    left
    have hg : (0 : ℤ) < (vectorGcd l : ℤ) := by exact_mod_cast zero_lt_one.trans h2
    have h5 : (vectorGcd l : ℤ) * m ∣ (vectorGcd l : ℤ) := by
      refine dvd_vectorGcd_iff l _ fun a ha => ?_
      obtain ⟨j, hj, rfl⟩ := List.mem_map.1 ha
      have h6 := hm (j + 1) (by have := List.mem_range.1 hj; omega)
      rw [at_ofFun, if_pos (by have := List.mem_range.1 hj; omega), if_neg (by omega)] at h6
      have h7 := Int.mul_ediv_cancel' (dvd_vectorGcd l _ ha)
      rw [← h7]
      exact mul_dvd_mul_left _ h6
    obtain ⟨c, hc⟩ := h5
    refine ⟨c, ?_⟩
    have h8 : (vectorGcd l : ℤ) * 1 = (vectorGcd l : ℤ) * (m * c) := by rw [mul_one, ← mul_assoc]; exact hc
    exact mul_left_cancel₀ hg.ne' h8
  · rcases Nat.eq_zero_or_pos (vectorGcd l) with h0' | h0'
    · have hz : ∀ j, j < n → q.at' (j + 2) = 0 := by
        intro j hj
        have := dvd_vectorGcd l _ (hmem j hj)
        rw [h0'] at this
        simpa using this
      refine h ?_
      by_contra hne
      have : rowIsPos n q = true := by
        rw [rowIsPos, Bool.and_eq_true, decide_eq_true_eq, List.all_eq_true]
        refine ⟨lt_of_le_of_ne h0 (Ne.symm hne), fun j hj => ?_⟩
        rw [beq_iff_eq]; exact hz j (List.mem_range.1 hj)
      rw [this] at h1
      simp at h1
    · have hg : vectorGcd l = 1 := by omega
      intro m hm
      left
      have := dvd_vectorGcd_iff l m fun a ha => by
        obtain ⟨j, hj, rfl⟩ := List.mem_map.1 ha
        exact hm (j + 1) (by have := List.mem_range.1 hj; omega)
      rwa [hg, Nat.cast_one] at this
  · exact primRow_normalize _

theorem primRow_finishCons {intdim : ℕ} (typ : ConsTyp ℚ) (v : Row) : PrimRow (n + 1) (finishCons n intdim typ v) := by
  rw [finishCons]
  have h0 : ∀ (v : Row) (s : ℤ), (v.setStatus s).at' 0 = s := fun v s => by simp [Row.setStatus, Row.at']
  split_ifs with h1 h2 h3
  · exact absurd (h1.symm.trans h2.1) (by simp)
  · refine primRow_normConsInt (fun _ => (primRow_normalize _).setStatus _) (by rw [h0])
  · refine primRow_normConsInt (fun h => ?_) ?_
    · rw [at_ofFun, if_pos (by omega), if_neg (by omega), h0] at h; simp at h
    · rw [at_ofFun, if_pos (by omega), if_neg (by omega), h0]; simp
  · refine primRow_normConsInt (fun _ => (primRow_normalize _).setStatus _) (by rw [h0]; simp)

theorem setLinconsArray_prim {intdim : ℕ} (l : List (ILincons ℚ)) : AllPrim (n + 1) (setLinconsArray n intdim l) := by
  intro q hq
  rw [setLinconsArray, List.mem_filterMap] at hq
  obtain ⟨c, -, h⟩ := hq
  split at h
  all_goals first
    | (split_ifs at h
       simp only [Option.some.injEq] at h
       subst h
       exact primRow_finishCons _ _)
    | exact absurd h (by simp)

theorem Rep.Nice.obtainC {r : Rep} (h : r.Nice n) : (r.obtainC n).Nice n := by
  rw [Rep.obtainC]; split_ifs
  · exact h.chernikova
  · exact h

theorem Rep.Nice.obtainF {r : Rep} (h : r.Nice n) : (r.obtainF n).Nice n := by
  rw [Rep.obtainF]; split_ifs
  · exact h.chernikova
  · exact h

theorem meetLincons_nice {intdim : ℕ} {lzy : Bool} {pa r : Rep} (ha : pa.Wf K n) (na : pa.Nice n) {l : List (Lincons ℚ)}
    (h : Rep.meetLincons n intdim lzy pa l = some r) : r.Nice n := by
  rw [Rep.meetLincons, Rep.meetItvLincons] at h
  dsimp only at h
  generalize l.map (ILincons.ofAp Rnd.exact) = l at h
  generalize (l.all fun c => c.expr.isQuasilinear) = quasi at h
  have hq : (if (lzy && quasi) = true then pa.obtainC n else pa.chernikova n).Wf K n ∧
      (if (lzy && quasi) = true then pa.obtainC n else pa.chernikova n).Nice n := by
    split_ifs
    · exact ⟨obtainC_wf ha, na.obtainC⟩
    · exact ⟨chernikova_wf ha, na.chernikova⟩
  generalize (if (lzy && quasi) = true then pa.obtainC n else pa.chernikova n) = qa at *
  by_cases hb : qa = .bot
  · rw [if_pos hb] at h
    simp only [Option.some.injEq] at h
    subst h; exact hq.2
  · rw [if_neg hb, Option.bind_eq_some_iff] at h
    obtain ⟨l', -, h⟩ := h
    have hm := AllPrim.sortRows (setLinconsArray_prim (n := n) (intdim := intdim)
      (ILincons.arrayReduceInteger reduceIntegerRat (linearizeArray true l') intdim).1) (n + 2)
    cases lzy
    · cases qa with
      | bot => exact absurd rfl hb
      | both f => exact meetMatrix_nice (K := K) (meet := true) hq hm h
      | cons _ => simp [Rep.meetMatrix] at h
      | gens _ => simp [Rep.meetMatrix] at h
    · exact meetMatrix_lazy_nice (meet := true) hq.2 hm h

theorem addRays_nice {lzy : Bool} {pa r : Rep} (ha : pa.Wf K n) (na : pa.Nice n) {l : List (GenTyp × Linexpr ℚ)}
    (h : Rep.addRays n lzy pa l = some r) : r.Nice n := by
  rw [Rep.addRays, Rep.addRayRows] at h
  have hm : AllPrim (n + 1) (l.map fun g => setGenerator n g.1 (ILinexpr.ofAp Rnd.exact g.2)) := by
    intro q hq
    obtain ⟨g, -, rfl⟩ := List.mem_map.1 hq
    exact primRow_normalize _
  have hm := AllPrim.sortRows hm (n + 2)
  have hq : (if lzy = true then pa.obtainF n else pa.chernikova n).Wf K n ∧
      (if lzy = true then pa.obtainF n else pa.chernikova n).Nice n := by
    split_ifs
    · exact ⟨obtainF_wf ha, na.obtainF⟩
    · exact ⟨chernikova_wf ha, na.chernikova⟩
  generalize (if lzy = true then pa.obtainF n else pa.chernikova n) = qa at *
  by_cases hb : qa = .bot
  · rw [if_pos hb] at h
    simp only [Option.some.injEq] at h
    subst h; exact hq.2
  · rw [if_neg hb, Option.map_eq_some_iff] at h
    obtain ⟨r', h, rfl⟩ := h
    cases lzy
    · cases qa with
      | bot => exact absurd rfl hb
      | both f => exact meetMatrix_nice (K := K) (meet := false) (f := f.dual) ⟨by rw [view_dual_false, Rep.dual, Full.dual_dual]; exact hq.1,
          by rw [view_dual_false, Rep.dual, Full.dual_dual]; exact hq.2⟩ hm h
      | cons _ => simp [Rep.meetMatrix, Rep.dual] at h
      | gens _ => simp [Rep.meetMatrix, Rep.dual] at h
    · exact meetMatrix_lazy_nice (meet := false) (by rw [view_dual_false, Rep.dual_dual]; exact hq.2) hm h

/-! ## Constructors -/

theorem posRow_prim : PrimRow (n + 1) (posRow n) := primRow_of_at (j := 0) (by omega) (by simp [posRow, at_ofFun])

theorem dimBoundRow_prim {mode : ℤ} {dim : ℕ} (hd : dim < n) {b : ℤ × ℤ} (h : Int.gcd b.1 b.2 = 1) : PrimRow (n + 1) (dimBoundRow n mode dim b) := by
  intro m hm
  left
  have h1 := hm 0 (by omega)
  have h2 := hm (dim + 1) (by omega)
  rw [dimBoundRow, at_ofFun, if_pos (by omega), if_neg (by omega), if_pos rfl] at h1
  rw [dimBoundRow, at_ofFun, if_pos (by omega), if_neg (by omega), if_neg (by omega), if_pos rfl] at h2
  have h3 : m ∣ b.2 := by
    split_ifs at h2
    · exact (dvd_neg).1 h2
    · exact h2
  have := Int.dvd_coe_gcd h1 h3
  rwa [h, Nat.cast_one] at this

theorem setDimBound_prim {intdim dim : ℕ} {mode : ℤ} (hd : dim < n) {q : ℚ} {r : Row} (h : setDimBound n intdim mode dim q = some r) : PrimRow (n + 1) r := by
  rw [setDimBound, Option.map_eq_some_iff] at h
  obtain ⟨b, hb, rfl⟩ := h
  refine dimBoundRow_prim hd ?_
  have hq : Int.gcd q.num q.den = 1 := q.reduced
  rw [dimBoundVal] at hb
  split_ifs at hb <;> (simp only [Option.some.injEq] at hb; subst hb)
  · simp
  · simp
  · exact hq
  · exact hq

theorem boxRows_prim {intdim dim : ℕ} (hd : dim < n) {i : Itv ℚ} {l : List Row} (h : boxRows n intdim dim i = some l) : AllPrim (n + 1) l := by
  rw [boxRows] at h
  by_cases hp : i.isPoint = true
  · rw [if_pos hp, Option.map_eq_some_iff] at h
    obtain ⟨r, hr, rfl⟩ := h
    intro q hq
    rw [List.mem_singleton] at hq
    subst hq
    exact setDimBound_prim hd hr
  · rw [if_neg hp, Option.some.injEq] at h
    subst h
    refine AllPrim.append ?_ ?_ <;>
    · intro q hq
      split_ifs at hq
      · simp at hq
      · rw [Option.mem_toList] at hq
        exact setDimBound_prim hd hq

theorem mapM_mem {α β : Type} {f : α → Option β} : ∀ {l : List α} {m : List β}, l.mapM f = some m → ∀ b ∈ m, ∃ a ∈ l, f a = some b := by
  intro l
  induction l with
  | nil => intro m h b hb; simp at h; subst h; simp at hb
  | cons a l ih =>
    intro m h b hb
    rw [List.mapM_cons] at h
    cases ha : f a with
    | none => rw [ha] at h; simp at h
    | some c =>
      rw [ha] at h
      cases hl : l.mapM f with
      | none => rw [hl] at h; simp at h
      | some k =>
        rw [hl] at h
        simp at h
        subst h
        rcases List.mem_cons.1 hb with rfl | hb
        · exact ⟨a, List.mem_cons_self .., ha⟩
        · obtain ⟨a', h1, h2⟩ := ih hl b hb
          exact ⟨a', List.mem_cons_of_mem _ h1, h2⟩

theorem ofBox_nice (intdim : ℕ) (box : ℕ → Itv ℚ) : (Rep.ofBox n intdim box).Nice n := by
  rw [Rep.ofBox]
  cases h : (List.range n).mapM (fun d => boxRows n intdim d (box d)) with
  | none => trivial
  | some l =>
    intro q hq
    rcases List.mem_cons.1 hq with rfl | hq
    · exact posRow_prim
    · obtain ⟨k, hk, hq⟩ := List.mem_flatten.1 hq
      obtain ⟨d, hd, h1⟩ := mapM_mem h k hk
      exact boxRows_prim (List.mem_range.1 hd) h1 q hq

theorem cmpList_range' {f g : ℕ → ℤ} {u v : List ℤ} (m : ℕ) : ∀ (s k : ℕ), s ≤ k → k < s + m → f k < g k → (∀ i, s ≤ i → i < k → f i = g i) →
    cmpList ((List.range' s m).map f ++ u) ((List.range' s m).map g ++ v) = .lt := by
  induction m with
  | zero => intro s k h1 h2; omega
  | succ m ih =>
    intro s k h1 h2 h3 h4
    rw [List.range'_succ, List.map_cons, List.map_cons, List.cons_append, List.cons_append, cmpList]
    by_cases hs : s = k
    · subst hs; rw [if_pos h3]
    · rw [h4 s le_rfl (by omega), if_neg (lt_irrefl _), if_neg (lt_irrefl _)]
      exact ih (s + 1) k (by omega) (by omega) h3 fun i hi => h4 i (by omega)

theorem topLine_at {i j : ℕ} (hj : j < n + 2) : (topLine n i).at' j = if j = 2 + n - 1 - i then 1 else 0 := by
  rw [topLine, at_ofFun, if_pos hj]

theorem top_norm : (topFull n).Norm (n + 1) := by
  refine ⟨⟨?_, ?_, fun _ => ?_, fun _ => ?_⟩, ⟨?_, ?_, fun _ => ?_, fun _ => ?_⟩⟩
  · intro x hx
    simp only [topFull, List.mem_singleton] at hx
    subst hx; exact posRow_prim
  · intro x hx
    simp only [topFull, List.drop_zero, List.mem_singleton] at hx
    subst hx; exact posRow_status
  · intro q hq; simp [topFull] at hq
  · simp [topFull]
  · intro x hx
    simp only [topFull, List.mem_append, List.mem_map, List.mem_range, List.mem_singleton] at hx
    rcases hx with ⟨i, hi, rfl⟩ | rfl
    · exact primRow_of_at (j := n - i) (by omega) (by rw [topLine_at (by omega), if_pos (by omega)])
    · exact posRow_prim
  · intro x hx
    have : x ∈ (topFull n).rays := hx
    rw [topFull_rays, List.mem_singleton] at this
    subst this; exact posRow_status
  · intro q hq
    have hq' : q ∈ (topFull n).lines := hq
    rw [topFull_lines, List.mem_map] at hq'
    obtain ⟨i, hi, rfl⟩ := hq'
    have hi := List.mem_range.1 hi
    refine ⟨n - i, by omega, ?_, ?_, ?_⟩
    · rw [topLine_at (by omega), if_pos (by omega)]; exact one_pos
    · intro j h1 h2
      rw [topLine_at (by omega), if_neg (by omega)]
    · intro r hr hne
      have hr' : r ∈ (topFull n).frows := hr
      rw [frows_eq, topFull_lines, topFull_rays, List.mem_append, List.mem_map] at hr'
      rcases hr' with ⟨k, hk, rfl⟩ | hr'
      · have hk := List.mem_range.1 hk
        rw [topLine_at (by omega), if_neg]
        intro e
        exact hne (by rw [show k = i by omega])
      · simp only [List.map_cons, List.map_nil, List.mem_singleton] at hr'
        subst hr'
        rw [posRow, at_ofFun, if_pos (by omega), if_neg (by omega)]
  · have : (topFull n).F.map SRow.row = (List.range n).map (topLine n) ++ [posRow n] := by
      change (topFull n).frows = _
      rw [frows_eq, topFull_lines, topFull_rays]; rfl
    rw [this, List.pairwise_append, List.pairwise_map]
    refine ⟨?_, List.pairwise_singleton _ _, ?_⟩
    · refine (List.pairwise_lt_range (n := n)).imp_of_mem fun {i j} hi hj hij => ?_
      have hi := List.mem_range.1 hi
      have hj := List.mem_range.1 hj
      rw [vcmp, vkey, vkey, topLine_zero hi, topLine_zero hj, List.cons_append, List.cons_append, cmpList, if_neg (lt_irrefl _), if_neg (lt_irrefl _),
        show n + 1 + 1 - 2 = n from rfl, List.range_eq_range']
      rw [cmpList_range' n 0 (n - 1 - j) (by omega) (by omega)]
      · simp
      · rw [topLine_at (by omega), topLine_at (by omega), if_neg (by omega), if_pos (by omega)]; exact one_pos
      · intro k _ hk
        rw [topLine_at (by omega), topLine_at (by omega), if_neg (by omega), if_neg (by omega)]
    · intro a ha b hb
      obtain ⟨i, hi, rfl⟩ := List.mem_map.1 ha
      rw [List.mem_singleton] at hb
      subst hb
      rw [vcmp, vkey, vkey, topLine_zero (List.mem_range.1 hi), posRow_status, List.cons_append, List.cons_append, cmpList, if_pos one_pos]
      simp

theorem top_nice : (Rep.top n).Nice n :=
  ⟨top_norm.1.weaken (fun _ => trivial) (fun _ => trivial), top_norm.2.weaken (fun _ => trivial) (fun _ => trivial)⟩

end Apron.Poly
