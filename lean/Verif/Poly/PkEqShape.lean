import Verif.Poly.PkEqLemmas
import Verif.Poly.PkNice
import Verif.Poly.PkCanonOk

/-!
# Linear equalities: the operations keep both matrices or none
-/

set_option autoImplicit false
set_option linter.unusedSectionVars false

namespace Apron.Poly

variable {K : Type*} [LinearOrder K] [Field K] [IsStrictOrderedRing K] {n d : ℕ}

theorem Rep.Shape.bot : Rep.Shape .bot := .inl rfl
theorem Rep.Shape.both (f : Full) : Rep.Shape (.both f) := .inr ⟨f, rfl⟩

theorem Rep.Shape.dual {r : Rep} (h : r.Shape) : r.dual.Shape := by
  rcases h with rfl | ⟨f, rfl⟩
  · exact .bot
  · exact .both _

theorem meetMatrix_shape {meet : Bool} {pa r : Rep} {mat : List Row} (h : pa.meetMatrix n meet false mat = some r) : r.Shape := by
  cases pa with
  | both f =>
    simp only [Rep.meetMatrix, Bool.false_eq_true, if_false, Option.some.injEq] at h
    subst h
    split
    · exact .bot
    · exact .both _
  | bot => simp [Rep.meetMatrix] at h
  | cons C => simp [Rep.meetMatrix] at h
  | gens F => simp [Rep.meetMatrix] at h

theorem meetStart_shape {meet : Bool} {pa pb r : Rep} (h : Rep.meetStart n meet pa pb = some r) : r.Shape := by
  rw [Rep.meetStart] at h
  obtain ⟨C, _, h⟩ := Option.bind_eq_some_iff.1 h
  exact meetMatrix_shape h

theorem particular_shape {meet : Bool} {o : Opts} (ho : o.lzy = false) {pa pb r : Rep} (ha : pa.Shape) (hb : pb.Shape)
    (h : Rep.particular n meet o pa pb = some r) : r.Shape := by
  rw [Rep.particular, ho] at h
  simp only [Bool.false_eq_true, if_false] at h
  split_ifs at h <;> cases h
  · exact .bot
  · exact chernikovaDual_shape _ _ _
  · exact chernikovaDual_shape _ _ _
  · exact hb
  · exact ha

theorem obtainCDual_shape {usual : Bool} {r : Rep} (h : r.Shape) : (r.obtainCDual n usual).Shape := by
  rw [Rep.obtainCDual]
  split_ifs
  · exact chernikovaDual_shape _ _ _
  · exact h

theorem polyMeet_shape {meet destr : Bool} {o : Opts} (ho : o.lzy = false) {pa pb r : Rep} (ha : pa.Shape) (hb : pb.Shape)
    (h : Rep.polyMeet n meet o destr pa pb = some r) : r.Shape := by
  unfold Rep.polyMeet at h
  split at h
  · next r' e => cases h; exact particular_shape ho ha hb e
  · dsimp only at h
    have ha' := obtainCDual_shape (n := n) (usual := meet) ha
    have hb' := obtainCDual_shape (n := n) (usual := meet) hb
    generalize pa.obtainCDual n meet = pa' at h ha'
    generalize pb.obtainCDual n meet = pb' at h hb'
    split at h
    · next r' e => cases h; exact particular_shape ho ha' hb' e
    · rw [ho] at h
      simp only [Bool.false_eq_true, if_false] at h
      split_ifs at h
      · exact meetStart_shape h
      · split at h
        · exact meetStart_shape h
        · exact meetStart_shape h
        · split_ifs at h <;> exact meetStart_shape h
        · split at h
          · next r' e => cases h; exact particular_shape ho (chernikovaDual_shape _ _ _) (chernikovaDual_shape _ _ _) e
          · split at h
            · split_ifs at h <;> exact meetStart_shape h
            · cases h

theorem meet_shape {destr : Bool} {o : Opts} (ho : o.lzy = false) {pa pb r : Rep} (ha : pa.Shape) (hb : pb.Shape)
    (h : Rep.meet n o destr pa pb = some r) : r.Shape := polyMeet_shape ho ha hb h

theorem join_shape {destr : Bool} {o : Opts} (ho : o.lzy = false) {pa pb r : Rep} (ha : pa.Shape) (hb : pb.Shape)
    (h : Rep.join n o destr pa pb = some r) : r.Shape := by
  rw [Rep.join] at h
  obtain ⟨m, hm, rfl⟩ := Option.map_eq_some_iff.1 h
  exact (polyMeet_shape ho ha.dual hb.dual hm).dual

theorem collect_shape {meet : Bool} {o : Opts} (ho : o.lzy = false) : ∀ {k : ℕ} {acc ps qs : List (ℕ × Rep)}, (∀ q ∈ acc, q.2.Shape) →
    collect n meet o k acc ps = some qs → ∀ q ∈ qs, q.2.Shape := by
  intro k
  induction k with
  | zero => intro acc ps qs ha h; rw [collect] at h; cases h; exact ha
  | succ k ih =>
    intro acc ps qs ha h
    cases ps with
    | nil => rw [collect] at h; cases h; exact ha
    | cons p rest =>
      rw [collect] at h
      simp only [ho, Bool.false_eq_true, if_false] at h
      split_ifs at h
      · exact ih ha h
      · refine ih (fun q hq => ?_) h
        rw [List.mem_append, List.mem_singleton] at hq
        rcases hq with hq | rfl
        · exact ha q hq
        · exact chernikovaDual_shape _ _ _

theorem polyMeetSelf_shape {meet : Bool} {o : Opts} (ho : o.lzy = false) (r : Rep) : (Rep.polyMeetSelf n meet o r).Shape := by
  rw [Rep.polyMeetSelf, ho]
  exact chernikovaDual_shape _ _ _

theorem polyMeet2_shape {meet : Bool} {o : Opts} (ho : o.lzy = false) {p q : ℕ × Rep} {r : Rep} (hp : p.2.Shape) (hq : q.2.Shape)
    (h : polyMeet2 n meet o p q = some r) : r.Shape := by
  rw [polyMeet2] at h
  split_ifs at h
  · cases h; exact polyMeetSelf_shape ho _
  · exact polyMeet_shape ho hp hq h

theorem polyMeetArray_shape {meet : Bool} {o : Opts} (ho : o.lzy = false) {ps : List (ℕ × Rep)} {r : Rep} (hp : ∀ p ∈ ps, p.2.Shape)
    (h : polyMeetArray n meet o ps = some r) : r.Shape := by
  unfold polyMeetArray at h
  split at h
  · cases h
  · cases h; exact polyMeetSelf_shape ho _
  · exact polyMeet2_shape ho (hp _ (by simp)) (hp _ (by simp)) h
  · next _ _ _ =>
    split at h
    · cases h; exact .bot
    · cases h; exact .bot
    · next e => cases h; exact collect_shape ho (by simp) e _ (by simp)
    · next e =>
      split_ifs at h
      exact polyMeet2_shape ho (collect_shape ho (by simp) e _ (by simp)) (collect_shape ho (by simp) e _ (by simp)) h
    · rw [ho] at h
      simp only [Bool.false_eq_true, if_false] at h
      split at h
      · cases h
      · cases h
        split
        · exact .bot
        · exact .both _

theorem mem_of_mem_dedup (k : ℕ) : ∀ (l : List ℕ), l.length ≤ k → ∀ {i : ℕ}, i ∈ dedup l → i ∈ l := by
  induction k with
  | zero => intro l hl i h; rw [List.length_eq_zero_iff.1 (Nat.le_zero.1 hl), dedup] at h; simp at h
  | succ k ih =>
    intro l hl i h
    match l, hl, h with
    | [], _, h => simp [dedup] at h
    | [a], _, h => simpa [dedup] using h
    | a :: b :: l, hl, h =>
      rw [dedup] at h
      simp only [List.length_cons] at hl
      split_ifs at h
      · rcases List.mem_cons.1 h with rfl | h
        · exact List.mem_cons_self
        · exact List.mem_cons_of_mem _ (List.mem_cons_of_mem _ (ih l (by omega) h))
      · rcases List.mem_cons.1 h with rfl | h
        · exact List.mem_cons_self
        · exact List.mem_cons_of_mem _ (ih (b :: l) (by simp; omega) h)

theorem joinArray_shape {o : Opts} (ho : o.lzy = false) {ids : List ℕ} {heap : ℕ → Rep} {r : Rep} (hp : ∀ i ∈ ids, (heap i).Shape)
    (h : joinArray n o ids heap = some r) : r.Shape := by
  unfold joinArray at h
  split at h
  · cases h
  · cases h; exact hp _ (by simp)
  · obtain ⟨m, hm, rfl⟩ := Option.map_eq_some_iff.1 h
    refine Rep.Shape.dual (polyMeetArray_shape ho (fun p hq => ?_) hm)
    obtain ⟨i, hi, rfl⟩ := List.mem_map.1 hq
    have hi' : i ∈ ids := by
      have := mem_of_mem_dedup _ _ le_rfl hi
      exact (List.mem_insertionSort _).1 this
    dsimp only
    split_ifs
    · exact (hp i hi').dual
    · exact hp i hi'

theorem meetLincons_shape {intdim : ℕ} {pa r : Rep} {l : List (Lincons ℚ)} (h : pa.meetLincons n intdim false l = some r) : r.Shape := by
  rw [Rep.meetLincons, Rep.meetItvLincons] at h
  simp only [Bool.false_and, Bool.false_eq_true, if_false] at h
  split at h
  · cases h; exact chernikova_shape _ _
  · obtain ⟨l', _, h⟩ := Option.bind_eq_some_iff.1 h
    exact meetMatrix_shape h

theorem addRays_shape {pa r : Rep} {l : List (GenTyp × Linexpr ℚ)} (h : pa.addRays n false l = some r) : r.Shape := by
  rw [Rep.addRays, Rep.addRayRows] at h
  simp only [Bool.false_eq_true, if_false] at h
  split at h
  · cases h; exact chernikova_shape _ _
  · obtain ⟨m, hm, rfl⟩ := Option.map_eq_some_iff.1 h
    exact (meetMatrix_shape hm).dual

theorem forget_shape {pa r : Rep} {tdim : List ℕ} {project : Bool} (h : Rep.forget n false pa tdim project = some r) : r.Shape := by
  rw [Rep.forget] at h
  simp only [Bool.false_eq_true, if_false] at h
  split at h
  · cases h; exact .bot
  · split_ifs at h
    · cases h; exact chernikova_shape _ _
    · obtain ⟨m, hm, rfl⟩ := Option.map_eq_some_iff.1 h
      exact (meetMatrix_shape hm).dual

theorem remove_shape {destr : Bool} {pa : Rep} {pos : List ℕ} : (Rep.removeDimensions destr n 1 pa pos).Shape := by
  rw [Rep.removeDimensions]
  split
  · exact .bot
  · simp only [zero_lt_one, if_true]; exact chernikova_shape _ _

theorem expand_shape {destr : Bool} {intdim : ℕ} {pa : Rep} (ha : pa.Shape) {dim sup : ℕ} : (Rep.expand destr n intdim 1 pa dim sup).Shape := by
  rw [Rep.expand]
  by_cases h : sup = 0
  · simp only [if_pos h]; exact ha
  · simp only [if_neg h]
    split
    · exact .bot
    · rw [if_pos zero_lt_one]; exact chernikova_shape _ _

theorem fold_shape {pa : Rep} {e : ℕ} {ts : List ℕ} : (Rep.fold n 1 pa e ts).Shape := by
  rw [Rep.fold]
  split
  · exact .bot
  · simp only [zero_lt_one, if_true]; exact chernikova_shape _ _

theorem add_shape {destr : Bool} {alg : ℤ} {pa r : Rep} (ha : pa.Shape) {pos : List ℕ} {project : Bool}
    (h : Rep.addDimensions destr n alg pa pos project = some r) : r.Shape := by
  have key : ∀ {p r : Rep}, p.Shape → Rep.cherniAdd destr n pos p = some r → r.Shape := by
    rintro p r (rfl | ⟨f, rfl⟩) h
    · cases h; exact .bot
    · rw [Rep.cherniAdd] at h
      split_ifs at h
      cases h; exact .both _
  rw [Rep.addDimensions] at h
  have hp : (if 0 < alg then pa.chernikova n else pa).Shape := by
    split_ifs
    · exact chernikova_shape _ _
    · exact ha
  generalize (if 0 < alg then pa.chernikova n else pa) = p at h hp
  split_ifs at h
  · cases h; exact .bot
  · obtain ⟨m, hm, rfl⟩ := Option.map_eq_some_iff.1 h
    exact (key hp.dual hm).dual
  · exact key hp h

theorem permute_shape {alg : ℤ} {pa : Rep} (ha : pa.Shape) {perm : ℕ → ℕ} : (Rep.permuteDimensions n alg pa perm).Shape := by
  rw [Rep.permuteDimensions]
  have hp : (if 0 < alg then pa.chernikova n else pa).Shape := by
    split_ifs
    · exact chernikova_shape _ _
    · exact ha
  generalize (if 0 < alg then pa.chernikova n else pa) = p at hp
  rcases hp with rfl | ⟨f, rfl⟩
  · exact .bot
  · exact .both _

theorem canonicalize_shape {alg : ℤ} {pa : Rep} : (pa.canonicalize n alg).Shape := by
  rw [Rep.canonicalize]
  split_ifs
  · rw [Rep.chernikova3]
    rcases chernikova_shape n pa with e | ⟨f, e⟩ <;> rw [e]
    · exact .bot
    · exact .both _
  · exact chernikova_shape _ _

/-! ## Affine relations -/

/-- the image of an affine set by an affine relation -/
theorem IsAff.image {m : ℕ} {S : (Fin n → K) → Prop} (hS : IsAff S) {R : (Fin n → K) → (Fin m → K) → Prop}
    (hR : ∀ (c : K) p q r p' q' r', R p p' → R q q' → R r r' → R (c • (p - q) + r) (c • (p' - q') + r')) :
    IsAff fun x' => ∃ x, S x ∧ R x x' := by
  refine .of_closed ?_
  rintro c p' q' r' ⟨p, hp, hp'⟩ ⟨q, hq, hq'⟩ ⟨r, hr, hr'⟩
  exact ⟨_, hS.closed hp hq hr, hR c p q r p' q' r' hp' hq' hr'⟩

theorem IsAff.inter {S T : (Fin n → K) → Prop} (hS : IsAff S) (hT : IsAff T) : IsAff fun x => S x ∧ T x :=
  .of_closed fun _ _ _ _ hp hq hr => ⟨hS.closed hp.1 hq.1 hr.1, hT.closed hp.2 hq.2 hr.2⟩

/-- a set of points described on all the coordinates -/
theorem IsAff.pull {S : (Fin n → K) → Prop} {P : (ℕ → K) → Prop} (hSP : ∀ x : ℕ → K, S (fun i : Fin n => x i) ↔ P x)
    (hP : ∀ (c : K) (p q r : ℕ → K), P p → P q → P r → P (c • (p - q) + r)) : IsAff S := by
  refine .of_closed fun c p q r hp hq hr => ?_
  have hex : ∀ x : Fin n → K, ∃ x' : ℕ → K, (fun i : Fin n => x' i) = x := fun x =>
    ⟨fun i => if h : i < n then x ⟨i, h⟩ else 0, by funext i; simp⟩
  obtain ⟨p', rfl⟩ := hex p
  obtain ⟨q', rfl⟩ := hex q
  obtain ⟨r', rfl⟩ := hex r
  have := (hSP _).2 (hP c p' q' r' ((hSP _).1 hp) ((hSP _).1 hq) ((hSP _).1 hr))
  exact this

/-! ## Normalised rows -/

theorem eqReduce_nice {r : Rep} (h : r.Nice n) : (r.eqReduce n).Nice n := by
  cases r with
  | both f =>
    rw [Rep.eqReduce]
    split_ifs
    · refine Rep.Nice.chernikova (r := .cons _) ?_
      intro q hq
      rw [List.mem_append, List.mem_singleton] at hq
      rcases hq with hq | rfl
      · obtain ⟨x, hx, rfl⟩ := List.mem_map.1 hq
        exact h.1.prim x (List.mem_of_mem_take hx)
      · exact posRow_prim
    · exact h
  | _ => exact h

end Apron.Poly
