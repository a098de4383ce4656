import Verif.Zono.EvalLemmas

/-!
# Affine forms: soundness of the operations on abstract values
-/

set_option autoImplicit false
set_option linter.unusedSectionVars false
set_option linter.ambiguousOpen false

namespace Apron
open Bound
variable {K : Type*} [LinearOrder K] [Field K] [IsStrictOrderedRing K] {R : Rnd K} {o : RootOps K}

namespace T1p
variable {ε : ℕ → K}

/-- invariant of the manager: `pr->top` is top, terms are sorted and use existing symbols -/
structure WfPr (pr : Pr K) : Prop where
  two : 2 ≤ pr.next
  top : pr.heap topPtr = Aff.top
  sorted : ∀ p < pr.next, SortedQ (pr.heap p).q
  below : ∀ p < pr.next, Below pr.nsym (pr.heap p).q

/-- invariant of an abstract value: existing objects; the box of a dimension with `pr->top` is top -/
def WfA (pr : Pr K) (a : T1 K) : Prop := ∀ i < a.n, a.paf i < pr.next ∧ (a.paf i = topPtr → a.box i = Itv.top)

theorem wfPr_init : WfPr (Pr.init : Pr K) := by
  refine ⟨le_refl _, rfl, ?_, ?_⟩
  · intro p _
    simp only [Pr.init]
    split_ifs <;> exact List.Pairwise.nil
  · intro p _
    simp only [Pr.init]
    split_ifs <;> exact below_nil

theorem Aff.Val.congr_form {A B : Aff K} (hc : A.c = B.c) (hq : A.q = B.q) {x : K} : A.Val ε x → B.Val ε x := by
  rintro ⟨c, y, h1, h2, h3⟩
  exact ⟨c, y, hc ▸ h1, hq ▸ h2, h3⟩

/-! ## `sync` -/

theorem sync_aux (a : T1 K) (l : List ℕ) : ∀ (h : ℕ → Aff K) (p : ℕ),
    let h' := l.foldl (fun h i => Function.update h (a.paf i) { h (a.paf i) with itv := a.box i }) h
    (h' p).c = (h p).c ∧ (h' p).q = (h p).q ∧
    (((h' p).itv = (h p).itv ∧ ∀ i ∈ l, a.paf i ≠ p) ∨ ∃ i ∈ l, a.paf i = p ∧ (h' p).itv = a.box i) := by
  induction l with
  | nil => intro h p; simp
  | cons j l ih =>
    intro h p
    have := ih (Function.update h (a.paf j) { h (a.paf j) with itv := a.box j }) p
    dsimp only at this ⊢
    rw [List.foldl_cons]
    obtain ⟨h1, h2, h3⟩ := this
    by_cases hj : p = a.paf j
    · rw [hj, Function.update_self] at h1 h2 h3
      rw [hj]
      refine ⟨h1, h2, .inr ?_⟩
      rcases h3 with ⟨h3, h4⟩ | ⟨i, h3, h4⟩
      · exact ⟨j, by simp, rfl, h3⟩
      · exact ⟨i, by simp [h3], h4⟩
    · rw [Function.update_of_ne hj] at h1 h2 h3
      refine ⟨h1, h2, ?_⟩
      rcases h3 with ⟨h3, h4⟩ | ⟨i, h3, h4⟩
      · left
        refine ⟨h3, fun i hi => ?_⟩
        rcases List.mem_cons.1 hi with rfl | hi
        · exact Ne.symm hj
        · exact h4 i hi
      · exact .inr ⟨i, by simp [h3], h4⟩

theorem sync_c (pr : Pr K) (a : T1 K) (p : ℕ) : ((sync pr a).heap p).c = (pr.heap p).c := (sync_aux a _ _ p).1
theorem sync_q (pr : Pr K) (a : T1 K) (p : ℕ) : ((sync pr a).heap p).q = (pr.heap p).q := (sync_aux a _ _ p).2.1
theorem sync_itv (pr : Pr K) (a : T1 K) (p : ℕ) :
    (((sync pr a).heap p).itv = (pr.heap p).itv ∧ ∀ i < a.n, a.paf i ≠ p) ∨
      ∃ i < a.n, a.paf i = p ∧ ((sync pr a).heap p).itv = a.box i := by
  rcases (sync_aux a (List.range a.n) pr.heap p).2.2 with ⟨h1, h2⟩ | ⟨i, h1, h2⟩
  · exact .inl ⟨h1, fun i hi => h2 i (List.mem_range.2 hi)⟩
  · exact .inr ⟨i, List.mem_range.1 h1, h2⟩

theorem wfPr_sync {pr : Pr K} {a : T1 K} (h : WfPr pr) (ha : WfA pr a) : WfPr (sync pr a) := by
  refine ⟨h.two, ?_, fun p hp => by rw [sync_q]; exact h.sorted p hp, fun p hp => by rw [sync_q]; exact h.below p hp⟩
  have hc := sync_c pr a topPtr
  have hq := sync_q pr a topPtr
  have hi : ((sync pr a).heap topPtr).itv = Itv.top := by
    rcases sync_itv pr a topPtr with ⟨h1, _⟩ | ⟨i, h1, h2, h3⟩
    · rw [h1, h.top]; rfl
    · rw [h3]; exact (ha i h1).2 h2
  rw [h.top] at hc hq
  have : (sync pr a).heap topPtr = ⟨((sync pr a).heap topPtr).c, ((sync pr a).heap topPtr).q, ((sync pr a).heap topPtr).itv⟩ := rfl
  rw [this, hc, hq, hi]; rfl

theorem gam_sync {pr : Pr K} {a b : T1 K} {x : ℕ → K} (h : Gam pr b x) : Gam (sync pr a) b x := by
  obtain ⟨h1, ε, h2, h3⟩ := h
  exact ⟨h1, ε, h2, fun i hi => ⟨(h3 i hi).1, (h3 i hi).2.congr_form (sync_c _ _ _).symm (sync_q _ _ _).symm⟩⟩

theorem sync_has {pr : Pr K} {a : T1 K} {x : ℕ → K} (hpr : WfPr pr) (ha : WfA pr a)
    (h1 : ∀ i < a.n, ∀ j < a.n, a.paf i = a.paf j → a.paf i ≠ topPtr → x i = x j)
    (h3 : ∀ i < a.n, x i ∈ a.box i ∧ (pr.heap (a.paf i)).Val ε (x i)) :
    ∀ i < a.n, ((sync pr a).heap (a.paf i)).Has ε (x i) := by
  intro i hi
  refine ⟨(h3 i hi).2.congr_form (sync_c _ _ _).symm (sync_q _ _ _).symm, ?_⟩
  by_cases ht : a.paf i = topPtr
  · rw [ht, (wfPr_sync hpr ha).top]; exact Itv.mem_top _
  · rcases sync_itv pr a (a.paf i) with ⟨_, h⟩ | ⟨j, hj, h, h'⟩
    · exact absurd rfl (h i hi)
    · rw [h', h1 i hi j hj h.symm ht]; exact (h3 j hj).1

/-! ## Assignment -/

variable [FloorRing K]

/-- conditions under which an array of assignments is sound: those of the trees, and those of the reductions -/
def ArraySafe (R : Rnd K) (o : RootOps K) (eps : K) (a : T1 K) : List (ℕ × Texpr K) → Pr K × T1 K → Prop
  | [], _ => True
  | p :: l, st => SafeTree R o (forms st.1 a) a.paf p.2 ∧
      (∀ A, evalTexpr R o NEnv.free (forms st.1 a) a.paf p.2 = some A → ReduceSafe R eps A) ∧
      ∀ st', assignStep R o eps a st p = some st' → ArraySafe R o eps a l st'

/-- the state of the loop: `x` is the point before the assignment, `y` the current point -/
structure StepInv (a : T1 K) (x y : ℕ → K) (st : Pr K × T1 K) (ε : ℕ → K) : Prop where
  noise : Noise ε
  wf : WfPr st.1
  wfa : WfA st.1 a
  wfr : WfA st.1 st.2
  n : st.2.n = a.n
  fa : ∀ i < a.n, (st.1.heap (a.paf i)).Has ε (x i)
  fr : ∀ i < a.n, y i ∈ st.2.box i ∧ (st.1.heap (st.2.paf i)).Val ε (y i)
  caa : ∀ i < a.n, ∀ j < a.n, a.paf i = a.paf j → a.paf i ≠ topPtr → x i = x j
  cra : ∀ i < a.n, ∀ j < a.n, st.2.paf i = a.paf j → st.2.paf i ≠ topPtr → y i = x j
  crr : ∀ i < a.n, ∀ j < a.n, st.2.paf i = st.2.paf j → st.2.paf i ≠ topPtr → y i = y j

/-- what one step does to the heap: at one address below the new limit, either new or the one of dimension `j` -/
theorem evalObj_cases (pr : Pr K) (a : T1 K) (A : Aff K) (t : Texpr K)
    (h : evalTexpr R o NEnv.free (forms pr a) a.paf t = some A) :
    ((∃ j, t = .dim j ∧ A = pr.heap (a.paf j) ∧ evalObj pr a A t = (a.paf j, pr)) ∨
      evalObj pr a A t = (pr.next, ⟨Function.update pr.heap pr.next A, pr.next + 1, pr.nsym⟩)) ∧
    (evalObj pr a A t).2.heap (evalObj pr a A t).1 = A := by
  cases t with
  | dim j =>
    simp only [evalTexpr, Option.some.injEq] at h
    exact ⟨.inl ⟨j, rfl, h.symm, rfl⟩, h⟩
  | cst c => exact ⟨.inr rfl, by simp [evalObj]⟩
  | un _ _ _ _ => exact ⟨.inr rfl, by simp [evalObj]⟩
  | bin _ _ _ _ _ => exact ⟨.inr rfl, by simp [evalObj]⟩

/-- the heap after a step: `p` is the address of the object, `A` its value -/
def setObj (R : Rnd K) (eps : K) (pr : Pr K) (p : ℕ) (A : Aff K) (next : ℕ) : Pr K :=
  ⟨Function.update pr.heap p (reduce R eps pr.nsym A).1, next, (reduce R eps pr.nsym A).2⟩

/-- the address that the dimension gets -/
def objAddr (B : Aff K) (p : ℕ) : ℕ := if B.isTop then topPtr else if B.isBottom then botPtr else p

theorem assignStep_eq {eps : K} {a : T1 K} {st st' : Pr K × T1 K} {p : ℕ × Texpr K}
    (h : assignStep R o eps a st p = some st') : ∃ A, evalTexpr R o NEnv.free (forms st.1 a) a.paf p.2 = some A ∧
    ∃ ad nx, ((∃ j, p.2 = .dim j ∧ A = st.1.heap (a.paf j) ∧ ad = a.paf j ∧ nx = st.1.next) ∨ ad = st.1.next ∧ nx = st.1.next + 1) ∧
    st' = (setObj R eps st.1 ad A nx,
      { st.2 with paf := Function.update st.2.paf p.1 (objAddr (reduce R eps st.1.nsym A).1 ad),
                  box := Function.update st.2.box p.1
                    ((setObj R eps st.1 ad A nx).heap (objAddr (reduce R eps st.1.nsym A).1 ad)).itv }) := by
  unfold assignStep at h
  cases hA : evalTexpr R o NEnv.free (forms st.1 a) a.paf p.2 with
  | none => rw [hA] at h; simp at h
  | some A =>
    rw [hA] at h
    dsimp only at h
    obtain ⟨h1, h2⟩ := evalObj_cases st.1 a A p.2 hA
    rw [h2] at h
    rcases h1 with ⟨j, e1, e2, e3⟩ | e3
    · refine ⟨A, rfl, a.paf j, st.1.next, .inl ⟨j, e1, e2, rfl, rfl⟩, ?_⟩
      rw [e3] at h
      simp only [Option.some.injEq] at h
      exact h.symm
    · refine ⟨A, rfl, st.1.next, st.1.next + 1, .inr ⟨rfl, rfl⟩, ?_⟩
      rw [e3] at h
      simp only [Option.some.injEq, Function.update_idem] at h
      exact h.symm

theorem isTop_top : (Aff.top : Aff K).isTop = true := by
  simp [Aff.top, Aff.isTop, Itv.isTop, Itv.top, Bound.infty]

theorem wfPr_setObj {eps : K} {pr : Pr K} {p nx : ℕ} {A : Aff K} (h : WfPr pr) (hs : SortedQ A.q) (hb : Below pr.nsym A.q)
    (hp : p < nx) (hn : nx = pr.next ∨ (nx = pr.next + 1 ∧ p = pr.next)) (ht : p = topPtr → A = Aff.top) : WfPr (setObj R eps pr p A nx) := by
  have hw := reduce_wf (R := R) (eps := eps) hb hs
  have h2 := h.two
  refine ⟨?_, ?_, ?_, ?_⟩
  · show 2 ≤ nx
    omega
  · show Function.update pr.heap p _ topPtr = _
    by_cases h0 : topPtr = p
    · rw [h0, Function.update_self, ht h0.symm, reduce_top]
    · rw [Function.update_of_ne h0]; exact h.top
  · intro k hk
    have hk : k < nx := hk
    show SortedQ (Function.update pr.heap p _ k).q
    by_cases h0 : k = p
    · rw [h0, Function.update_self]; exact hw.2.1
    · rw [Function.update_of_ne h0]; exact h.sorted k (by omega)
  · intro k hk
    have hk : k < nx := hk
    show Below (reduce R eps pr.nsym A).2 (Function.update pr.heap p _ k).q
    by_cases h0 : k = p
    · rw [h0, Function.update_self]; exact hw.1
    · rw [Function.update_of_ne h0]
      exact fun t htm => lt_of_lt_of_le (h.below k (by omega) t htm) hw.2.2

theorem evalTexpr_sorted {paf : ℕ → Aff K} {ptr : ℕ → ℕ} {n : ℕ} (hb : ∀ d < n, SortedQ (paf d).q)
    (t : Texpr K) : t.InDim n → ∀ {A : Aff K}, evalTexpr R o NEnv.free paf ptr t = some A → SortedQ A.q := by
  induction t with
  | cst c =>
    intro _ A h
    simp only [evalTexpr, Option.some.injEq] at h
    subst h; exact List.Pairwise.nil
  | dim d =>
    intro hd A h
    simp only [evalTexpr, Option.some.injEq] at h
    subst h; exact hb d hd
  | un op ty dr a ih =>
    intro hd A h
    cases op with
    | neg =>
      simp only [evalTexpr, Option.map_eq_some_iff] at h
      obtain ⟨B, hB, rfl⟩ := h
      exact Aff.sortedQ_neg (ih hd hB)
    | sqrt =>
      simp only [evalTexpr, Option.map_eq_some_iff] at h
      obtain ⟨B, hB, rfl⟩ := h
      exact Aff.sortedQ_sqrt (ih hd hB)
    | cast => simp [evalTexpr] at h
  | bin op ty dr a b iha ihb =>
    intro hd A h
    cases hA : evalTexpr R o NEnv.free paf ptr a with
    | none => simp [evalTexpr, hA] at h
    | some A' =>
      cases hB : evalTexpr R o NEnv.free paf ptr b with
      | none => simp [evalTexpr, hA, hB] at h
      | some B' =>
        have h1 := iha hd.1 hA
        have h2 := ihb hd.2 hB
        cases op <;> simp only [evalTexpr, hA, hB, Option.some.injEq, reduceCtorEq] at h
        · rw [← h]; exact Aff.sortedQ_add h1 h2
        · rw [← h]; exact Aff.sortedQ_sub h1 h2
        · rw [← h]; exact Aff.sortedQ_mul h1 h2
        · rw [← h]; exact Aff.sortedQ_div h1 h2

/-- one step, for given values of the noise symbols after the step -/
theorem assignStep_core {eps : K} {a : T1 K} {x y : ℕ → K} {st st' : Pr K × T1 K} {p : ℕ × Texpr K}
    (hi : StepInv a x y st ε) (S : FltSem K) (hd : p.2.InDim a.n) (h : assignStep R o eps a st p = some st') {v : K} (hv : p.2.Val S x v)
    {ε' : ℕ → K} (hn' : Noise ε') (hag : ∀ j < st.1.nsym, ε' j = ε j)
    (hB' : ∀ A, evalTexpr R o NEnv.free (forms st.1 a) a.paf p.2 = some A → (reduce R eps st.1.nsym A).1.Has ε' v) :
    StepInv a x (Function.update y p.1 v) st' ε' := by
  obtain ⟨A, hA, ad, nx, had, rfl⟩ := assignStep_eq h
  have hB := hB' A hA
  have hAs := evalTexpr_sorted (paf := forms st.1 a) (fun d hd => hi.wf.sorted _ (hi.wfa d hd).1) p.2 hd hA
  have hAb : Below st.1.nsym A.q := evalTexpr_below (paf := forms st.1 a) (fun d hd => hi.wf.below _ (hi.wfa d hd).1) p.2 hd hA
  have h2 := hi.wf.two
  -- the address
  have hnx : nx = st.1.next ∨ (nx = st.1.next + 1 ∧ ad = st.1.next) := by
    rcases had with ⟨j, _, _, _, h⟩ | ⟨h, h'⟩
    · exact .inl h
    · exact .inr ⟨h', h⟩
  have hle : st.1.next ≤ nx := by omega
  have hadn : ad < nx := by
    rcases had with ⟨j, e1, _, e3, e4⟩ | ⟨h, h'⟩
    · rw [e3, e4]
      rw [e1] at hd
      exact (hi.wfa j hd).1
    · omega
  have hadt : ad = topPtr → A = Aff.top := by
    intro ht
    rcases had with ⟨j, e1, e2, e3, e4⟩ | ⟨h, h'⟩
    · rw [e2, ← e3, ht, hi.wf.top]
    · rw [ht] at h; simp only [topPtr] at h; omega
  have hwf := wfPr_setObj (R := R) (eps := eps) hi.wf hAs hAb hadn hnx hadt
  -- the values of the objects other than `ad`, and of `ad`
  have hother : ∀ k < st.1.next, k ≠ ad → ∀ {z : K}, (st.1.heap k).Val ε z → ((setObj R eps st.1 ad A nx).heap k).Val ε' z := by
    intro k hk hkad z hz
    show (Function.update st.1.heap ad _ k).Val ε' z
    rw [Function.update_of_ne hkad]
    exact hz.congr (hi.wf.below k hk) fun j hj => (hag j hj).symm
  have hadobj : (setObj R eps st.1 ad A nx).heap ad = (reduce R eps st.1.nsym A).1 := Function.update_self _ _ _
  -- dimensions whose object is `ad` hold the value `v`, unless `ad` is top
  have hva : ∀ i < a.n, a.paf i = ad → ad ≠ topPtr → x i = v := by
    intro i hin hia hat
    rcases had with ⟨j, e1, e2, e3, e4⟩ | ⟨h, h'⟩
    · rw [e1] at hd hv
      have hv : v = x j := hv
      rw [hv]
      exact hi.caa i hin j hd (by rw [hia, e3]) (by rw [hia]; exact hat)
    · have := (hi.wfa i hin).1; omega
  have hvr : ∀ i < a.n, st.2.paf i = ad → ad ≠ topPtr → y i = v := by
    intro i hin hia hat
    rcases had with ⟨j, e1, e2, e3, e4⟩ | ⟨h, h'⟩
    · rw [e1] at hd hv
      have hv : v = x j := hv
      rw [hv]
      exact hi.cra i hin j hd (by rw [hia, e3]) (by rw [hia]; exact hat)
    · have := (hi.wfr i (by rw [hi.n]; exact hin)).1; omega
  have htop : (setObj R eps st.1 ad A nx).heap topPtr = Aff.top := hwf.top
  -- the address that the dimension gets
  have hnb : (reduce R eps st.1.nsym A).1.isBottom = false := Aff.not_isBottom_of_has hB
  have haddr : objAddr (reduce R eps st.1.nsym A).1 ad = topPtr ∨
      (objAddr (reduce R eps st.1.nsym A).1 ad = ad ∧ ad ≠ topPtr) := by
    unfold objAddr
    split_ifs with h1 h2'
    · exact .inl rfl
    · rw [hnb] at h2'; exact absurd h2' (by simp)
    · refine .inr ⟨rfl, fun ht => h1 ?_⟩
      rw [hadt ht, reduce_top]; exact isTop_top
  generalize hadr : objAddr (reduce R eps st.1.nsym A).1 ad = adr at haddr
  have hadrn : adr < nx := by
    rcases haddr with h | ⟨h, _⟩
    · rw [h]; simp only [topPtr]; omega
    · rw [h]; exact hadn
  have hadrv : ((setObj R eps st.1 ad A nx).heap adr).Has ε' v := by
    rcases haddr with h | ⟨h, _⟩
    · rw [h, htop]; exact Aff.Has.top _
    · rw [h, hadobj]; exact hB
  refine ⟨hn', hwf, ?_, ?_, hi.n, ?_, ?_, hi.caa, ?_, ?_⟩
  · exact fun i hin => ⟨lt_of_lt_of_le (hi.wfa i hin).1 hle, (hi.wfa i hin).2⟩
  · intro i hin
    dsimp only
    by_cases hid : i = p.1
    · rw [hid, Function.update_self, Function.update_self]
      exact ⟨hadrn, fun h => by rw [h, htop]; rfl⟩
    · rw [Function.update_of_ne hid, Function.update_of_ne hid]
      exact ⟨lt_of_lt_of_le (hi.wfr i hin).1 hle, (hi.wfr i hin).2⟩
  · intro i hin
    dsimp only
    by_cases hia : a.paf i = ad
    · by_cases hat : ad = topPtr
      · rw [hia.trans hat, htop]; exact Aff.Has.top _
      · rw [hia, hadobj, hva i hin hia hat]; exact hB
    · refine ⟨hother _ (hi.wfa i hin).1 hia (hi.fa i hin).1, ?_⟩
      show x i ∈ (Function.update st.1.heap ad _ (a.paf i)).itv
      rw [Function.update_of_ne hia]; exact (hi.fa i hin).2
  · intro i hin
    dsimp only
    by_cases hid : i = p.1
    · rw [hid, Function.update_self, Function.update_self, Function.update_self]
      exact ⟨hadrv.2, hadrv.1⟩
    · rw [Function.update_of_ne hid, Function.update_of_ne hid, Function.update_of_ne hid]
      refine ⟨(hi.fr i hin).1, ?_⟩
      by_cases hia : st.2.paf i = ad
      · by_cases hat : ad = topPtr
        · rw [hia.trans hat, htop]; exact (Aff.Has.top _).1
        · rw [hia, hadobj, hvr i hin hia hat]; exact hB.1
      · exact hother _ (hi.wfr i (by rw [hi.n]; exact hin)).1 hia (hi.fr i hin).2
  · intro i hin j hjn
    dsimp only
    by_cases hid : i = p.1
    · rw [hid, Function.update_self, Function.update_self]
      intro e1 e2
      rcases haddr with h | ⟨h, hat⟩
      · exact absurd h e2
      · exact (hva j hjn (by rw [← e1, h]) hat).symm
    · rw [Function.update_of_ne hid, Function.update_of_ne hid]
      exact hi.cra i hin j hjn
  · intro i hin j hjn
    dsimp only
    by_cases hid : i = p.1
    · by_cases hjd : j = p.1
      · intro _ _; rw [hid, hjd]
      · rw [hid, Function.update_self, Function.update_self, Function.update_of_ne hjd, Function.update_of_ne hjd]
        intro e1 e2
        rcases haddr with h | ⟨h, hat⟩
        · exact absurd h e2
        · exact (hvr j hjn (by rw [← e1, h]) hat).symm
    · by_cases hjd : j = p.1
      · rw [hjd, Function.update_self, Function.update_self, Function.update_of_ne hid, Function.update_of_ne hid]
        intro e1 e2
        rcases haddr with h | ⟨h, hat⟩
        · exact absurd (e1.trans h) e2
        · exact hvr i hin (by rw [e1, h]) hat
      · rw [Function.update_of_ne hid, Function.update_of_ne hjd, Function.update_of_ne hid, Function.update_of_ne hjd]
        exact hi.crr i hin j hjn

/-- the form of the tree holds its value -/
theorem StepInv.eval (ho : o.SqrtOK) (S : FltSem K) {a : T1 K} {x y : ℕ → K} {st : Pr K × T1 K} {t : Texpr K}
    (hi : StepInv a x y st ε) (hd : t.InDim a.n) (hs : SafeTree R o (forms st.1 a) a.paf t) {A : Aff K}
    (hA : evalTexpr R o NEnv.free (forms st.1 a) a.paf t = some A) {v : K} (hv : t.Val S x v) : A.Has ε v := by
  have hcoh : ∀ i < a.n, ∀ j < a.n, a.paf i = a.paf j → (forms st.1 a i).isTop = true ∨ forms st.1 a i = forms st.1 a j ∧ x i = x j := by
    intro i hin j hjn hij
    by_cases ht : a.paf i = topPtr
    · left
      show (st.1.heap (a.paf i)).isTop = true
      rw [ht, hi.wf.top]; exact isTop_top
    · exact .inr ⟨by show st.1.heap _ = st.1.heap _; rw [hij], hi.caa i hin j hjn hij ht⟩
  exact (evalTexpr_sound ho S hi.noise (paf := forms st.1 a) hi.fa
    (fun d hd => hi.wf.sorted _ (hi.wfa d hd).1) hcoh t hd hs hA hv).1

theorem assignStep_inv (ho : o.SqrtOK) (S : FltSem K) {eps : K} {a : T1 K} {x y : ℕ → K} {st st' : Pr K × T1 K} {p : ℕ × Texpr K}
    (hi : StepInv a x y st ε) (hd : p.2.InDim a.n) (hs : SafeTree R o (forms st.1 a) a.paf p.2)
    (hr : ∀ A, evalTexpr R o NEnv.free (forms st.1 a) a.paf p.2 = some A → ReduceSafe R eps A)
    (h : assignStep R o eps a st p = some st') {v : K} (hv : p.2.Val S x v) :
    ∃ ε', StepInv a x (Function.update y p.1 v) st' ε' := by
  obtain ⟨A, hA, _⟩ := assignStep_eq h
  have hAb : Below st.1.nsym A.q := evalTexpr_below (paf := forms st.1 a) (fun d hd => hi.wf.below _ (hi.wfa d hd).1) p.2 hd hA
  obtain ⟨ε', hn', hag, hB⟩ := reduce_sound hi.noise hAb (hr A hA) (hi.eval ho S hd hs hA hv)
  refine ⟨ε', assignStep_core hi S hd h hv hn' hag fun A' hA' => ?_⟩
  rw [hA] at hA'; cases hA'; exact hB

/-- Specification: the point after the assignments -/
def assignAll (y : ℕ → K) : List (ℕ × Texpr K) → List K → ℕ → K
  | p :: l, v :: vs => assignAll (Function.update y p.1 v) l vs
  | _, _ => y

theorem assignFold_inv (ho : o.SqrtOK) (S : FltSem K) {eps : K} {a : T1 K} {x : ℕ → K} (l : List (ℕ × Texpr K)) :
    ∀ {vs : List K} {y : ℕ → K} {st st' : Pr K × T1 K} {ε : ℕ → K}, StepInv a x y st ε → (∀ p ∈ l, p.2.InDim a.n) →
    ArraySafe R o eps a l st → List.Forall₂ (fun p v => p.2.Val S x v) l vs →
    l.foldlM (assignStep R o eps a) st = some st' → ∃ ε', StepInv a x (assignAll y l vs) st' ε' := by
  induction l with
  | nil =>
    intro vs y st st' ε hi _ _ hv h
    cases hv
    simp only [List.foldlM_nil, Option.pure_def, Option.some.injEq] at h
    subst h
    exact ⟨ε, hi⟩
  | cons p l ih =>
    intro vs y st st' ε hi hd hs hv h
    cases hv with
    | cons hv1 hv2 =>
      rw [List.foldlM_cons] at h
      cases hst : assignStep R o eps a st p with
      | none => rw [hst] at h; simp at h
      | some st1 =>
        rw [hst] at h
        simp only [Option.bind_eq_bind, Option.bind_some] at h
        obtain ⟨hs1, hs2, hs3⟩ := hs
        obtain ⟨ε', hi'⟩ := assignStep_inv ho S hi (hd p (by simp)) hs1 hs2 hst hv1
        exact ih hi' (fun q hq => hd q (by simp [hq])) (hs3 _ hst) hv2 h

theorem StepInv.start {pr : Pr K} {a : T1 K} {x : ℕ → K} (hpr : WfPr pr) (ha : WfA pr a) (h : Gam pr a x) :
    ∃ ε, StepInv a x x (sync pr a, a) ε := by
  obtain ⟨h1, ε, h2, h3⟩ := h
  refine ⟨ε, h2, wfPr_sync hpr ha, ha, ha, rfl, sync_has hpr ha h1 h3, fun i hi => ⟨(h3 i hi).1, (sync_has hpr ha h1 h3 i hi).1⟩, h1, h1, h1⟩

/-- the assignment is sound -/
theorem assignArray_sound (ho : o.SqrtOK) (S : FltSem K) {eps : K} {pr pr' : Pr K} {a a' : T1 K} {l : List (ℕ × Texpr K)}
    {x : ℕ → K} {vs : List K} (hpr : WfPr pr) (ha : WfA pr a) (hd : ∀ p ∈ l, p.2.InDim a.n)
    (hs : ArraySafe R o eps a l (sync pr a, a)) (h : assignArray R o eps pr a l = some (pr', a'))
    (hx : Gam pr a x) (hv : List.Forall₂ (fun p v => p.2.Val S x v) l vs) :
    Gam pr' a' (assignAll x l vs) := by
  obtain ⟨ε, hi⟩ := StepInv.start hpr ha hx
  obtain ⟨ε', hi'⟩ := assignFold_inv ho S l hi hd hs hv h
  exact ⟨by rw [hi'.n]; exact hi'.crr, ε', hi'.noise, by rw [hi'.n]; exact hi'.fr⟩

/-! ## The invariant, and other values on the same heap -/

/-- the invariant after a step, and the number of objects does not decrease -/
theorem assignStep_wf {eps : K} {a : T1 K} {st st' : Pr K × T1 K} {p : ℕ × Texpr K} (hw : WfPr st.1) (hwa : WfA st.1 a)
    (hwr : WfA st.1 st.2) (hd : p.2.InDim a.n) (h : assignStep R o eps a st p = some st') :
    WfPr st'.1 ∧ WfA st'.1 st'.2 ∧ st.1.next ≤ st'.1.next ∧ st'.2.n = st.2.n := by
  obtain ⟨A, hA, ad, nx, had, rfl⟩ := assignStep_eq h
  have hAs := evalTexpr_sorted (paf := forms st.1 a) (fun d hd => hw.sorted _ (hwa d hd).1) p.2 hd hA
  have hAb : Below st.1.nsym A.q := evalTexpr_below (paf := forms st.1 a) (fun d hd => hw.below _ (hwa d hd).1) p.2 hd hA
  have h2 := hw.two
  have hnx : nx = st.1.next ∨ (nx = st.1.next + 1 ∧ ad = st.1.next) := by
    rcases had with ⟨j, _, _, _, h⟩ | ⟨h, h'⟩
    · exact .inl h
    · exact .inr ⟨h', h⟩
  have hle : st.1.next ≤ nx := by omega
  have hadn : ad < nx := by
    rcases had with ⟨j, e1, _, e3, e4⟩ | ⟨h, h'⟩
    · rw [e3, e4]
      rw [e1] at hd
      exact (hwa j hd).1
    · omega
  have hadt : ad = topPtr → A = Aff.top := by
    intro ht
    rcases had with ⟨j, e1, e2, e3, e4⟩ | ⟨h, h'⟩
    · rw [e2, ← e3, ht, hw.top]
    · rw [ht] at h; simp only [topPtr] at h; omega
  have hwf := wfPr_setObj (R := R) (eps := eps) hw hAs hAb hadn hnx hadt
  refine ⟨hwf, ?_, hle, rfl⟩
  intro i hin
  dsimp only
  by_cases hid : i = p.1
  · rw [hid, Function.update_self, Function.update_self]
    refine ⟨?_, fun h => by rw [h, hwf.top]; rfl⟩
    unfold objAddr
    show _ < nx
    split_ifs
    · simp only [topPtr]; omega
    · simp only [botPtr]; omega
    · exact hadn
  · rw [Function.update_of_ne hid, Function.update_of_ne hid]
    exact ⟨lt_of_lt_of_le (hwr i hin).1 hle, (hwr i hin).2⟩

theorem WfA.mono {pr pr' : Pr K} {a : T1 K} (h : WfA pr a) (hn : pr.next ≤ pr'.next) : WfA pr' a :=
  fun i hi => ⟨lt_of_lt_of_le (h i hi).1 hn, (h i hi).2⟩

theorem assignFold_wf {eps : K} {a : T1 K} (l : List (ℕ × Texpr K)) : ∀ {st st' : Pr K × T1 K}, WfPr st.1 → WfA st.1 a →
    WfA st.1 st.2 → (∀ p ∈ l, p.2.InDim a.n) → l.foldlM (assignStep R o eps a) st = some st' →
    WfPr st'.1 ∧ WfA st'.1 st'.2 ∧ st.1.next ≤ st'.1.next ∧ st'.2.n = st.2.n := by
  induction l with
  | nil =>
    intro st st' h1 _ h3 _ h
    simp only [List.foldlM_nil, Option.pure_def, Option.some.injEq] at h
    subst h
    exact ⟨h1, h3, le_refl _, rfl⟩
  | cons p l ih =>
    intro st st' h1 h2 h3 hd h
    rw [List.foldlM_cons] at h
    cases hst : assignStep R o eps a st p with
    | none => rw [hst] at h; simp at h
    | some st1 =>
      rw [hst] at h
      simp only [Option.bind_eq_bind, Option.bind_some] at h
      obtain ⟨g1, g2, g3, g4⟩ := assignStep_wf h1 h2 h3 (hd p (by simp)) hst
      obtain ⟨k1, k2, k3, k4⟩ := ih g1 (h2.mono g3) g2 (fun q hq => hd q (by simp [hq])) h
      exact ⟨k1, k2, le_trans g3 k3, by rw [k4, g4]⟩

theorem assignArray_wf {eps : K} {pr pr' : Pr K} {a a' : T1 K} {l : List (ℕ × Texpr K)} (hpr : WfPr pr) (ha : WfA pr a)
    (hd : ∀ p ∈ l, p.2.InDim a.n) (h : assignArray R o eps pr a l = some (pr', a')) :
    WfPr pr' ∧ WfA pr' a' ∧ pr.next ≤ pr'.next ∧ a'.n = a.n :=
  assignFold_wf (st := (sync pr a, a)) l (wfPr_sync hpr ha) ha ha hd h

/-- a step keeps the points of every other value -/
theorem assignStep_frame {eps : K} {a b : T1 K} {st st' : Pr K × T1 K} {p : ℕ × Texpr K} (hw : WfPr st.1) (hwa : WfA st.1 a)
    (hwb : WfA st.1 b) (hd : p.2.InDim a.n)
    (hr : ∀ A, evalTexpr R o NEnv.free (forms st.1 a) a.paf p.2 = some A → ReduceSafe R eps A)
    (h : assignStep R o eps a st p = some st') {z : ℕ → K} (hz : Gam st.1 b z) : Gam st'.1 b z := by
  obtain ⟨A, hA, ad, nx, had, rfl⟩ := assignStep_eq h
  obtain ⟨hc, ε, hε, hf⟩ := hz
  have hAb : Below st.1.nsym A.q := evalTexpr_below (paf := forms st.1 a) (fun d hd => hw.below _ (hwa d hd).1) p.2 hd hA
  refine ⟨hc, ?_⟩
  by_cases hex : ∃ i < b.n, b.paf i = ad ∧ ad ≠ topPtr
  · obtain ⟨i, hin, hia, hat⟩ := hex
    obtain ⟨j, e1, e2, e3, e4⟩ := had.resolve_right (fun h => by have := (hwb i hin).1; omega)
    have hv := (hf i hin).2
    rw [hia, e3, ← e2] at hv
    obtain ⟨ε', hn', hag, hB⟩ := reduce_val hε hAb (hr A hA) hv
    refine ⟨ε', hn', fun k hk => ⟨(hf k hk).1, ?_⟩⟩
    show (Function.update st.1.heap ad _ (b.paf k)).Val ε' (z k)
    by_cases hka : b.paf k = ad
    · rw [hka, Function.update_self, hc k hk i hin (by rw [hka, hia]) (by rw [hka]; exact hat)]
      exact hB
    · rw [Function.update_of_ne hka]
      exact (hf k hk).2.congr (hw.below _ (hwb k hk).1) fun j hj => (hag j hj).symm
  · refine ⟨ε, hε, fun k hk => ⟨(hf k hk).1, ?_⟩⟩
    show (Function.update st.1.heap ad _ (b.paf k)).Val ε (z k)
    by_cases hka : b.paf k = ad
    · have hat : ad = topPtr := by
        by_contra hat
        exact hex ⟨k, hk, hka, hat⟩
      rw [hka, Function.update_self]
      rcases had with ⟨j, e1, e2, e3, e4⟩ | ⟨h, h'⟩
      · rw [e2, ← e3, hat, hw.top, reduce_top]; exact (Aff.Has.top _).1
      · have := hw.two
        rw [hat] at h; simp only [topPtr] at h; omega
    · rw [Function.update_of_ne hka]; exact (hf k hk).2

theorem assignFold_frame {eps : K} {a b : T1 K} (l : List (ℕ × Texpr K)) : ∀ {st st' : Pr K × T1 K}, WfPr st.1 → WfA st.1 a →
    WfA st.1 st.2 → WfA st.1 b → (∀ p ∈ l, p.2.InDim a.n) → ArraySafe R o eps a l st →
    l.foldlM (assignStep R o eps a) st = some st' → ∀ {z : ℕ → K}, Gam st.1 b z → Gam st'.1 b z := by
  induction l with
  | nil =>
    intro st st' _ _ _ _ _ _ h z hz
    simp only [List.foldlM_nil, Option.pure_def, Option.some.injEq] at h
    subst h
    exact hz
  | cons p l ih =>
    intro st st' h1 h2 h3 h4 hd hs h z hz
    rw [List.foldlM_cons] at h
    cases hst : assignStep R o eps a st p with
    | none => rw [hst] at h; simp at h
    | some st1 =>
      rw [hst] at h
      simp only [Option.bind_eq_bind, Option.bind_some] at h
      obtain ⟨g1, g2, g3, g4⟩ := assignStep_wf h1 h2 h3 (hd p (by simp)) hst
      exact ih g1 (h2.mono g3) g2 (h4.mono g3) (fun q hq => hd q (by simp [hq])) (hs.2.2 _ hst) h
        (assignStep_frame h1 h2 h4 (hd p (by simp)) hs.2.1 hst hz)

/-- the assignment keeps the points of every other value, and of its argument -/
theorem assignArray_frame {eps : K} {pr pr' : Pr K} {a a' b : T1 K} {l : List (ℕ × Texpr K)} (hpr : WfPr pr) (ha : WfA pr a)
    (hb : WfA pr b) (hd : ∀ p ∈ l, p.2.InDim a.n) (hs : ArraySafe R o eps a l (sync pr a, a))
    (h : assignArray R o eps pr a l = some (pr', a')) {z : ℕ → K} (hz : Gam pr b z) : Gam pr' b z :=
  assignFold_frame (st := (sync pr a, a)) l (wfPr_sync hpr ha) ha ha hb hd hs h (gam_sync hz)

end T1p
end Apron
