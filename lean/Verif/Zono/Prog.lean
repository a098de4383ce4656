import Verif.Zono.LinLemmas

/-!
# Affine forms: straight-line programs
-/

set_option autoImplicit false
set_option linter.unusedSectionVars false
set_option linter.ambiguousOpen false

namespace Apron
open Bound
variable {K : Type*} [LinearOrder K] [Field K] [IsStrictOrderedRing K] [FloorRing K] {R : Rnd K} {o : RootOps K}

namespace T1p
variable {ε : ℕ → K}

/-- a sequence of calls of `t1p_assign_texpr_array` (taylor1plus/t1p_assign.c:64-118) -/
def runProg (R : Rnd K) (o : RootOps K) (eps : K) : List (List (ℕ × Texpr K)) → Pr K × T1 K → Option (Pr K × T1 K)
  | [], st => some st
  | l :: p, st => (assignArray R o eps st.1 st.2 l).bind (runProg R o eps p)

/-- Specification: the executions of a sequence of parallel assignments -/
def Exec (S : FltSem K) : List (List (ℕ × Texpr K)) → (ℕ → K) → (ℕ → K) → Prop
  | [], x, y => y = x
  | l :: p, x, y => ∃ vs, List.Forall₂ (fun (p : ℕ × Texpr K) v => p.2.Val S x v) l vs ∧ Exec S p (assignAll x l vs) y

/-- the conditions of soundness hold at each assignment -/
def ProgSafe (R : Rnd K) (o : RootOps K) (eps : K) : List (List (ℕ × Texpr K)) → Pr K × T1 K → Prop
  | [], _ => True
  | l :: p, st => ArraySafe R o eps st.2 l (sync st.1 st.2, st.2) ∧
      ∀ st', assignArray R o eps st.1 st.2 l = some st' → ProgSafe R o eps p st'

theorem prog_sound (ho : o.SqrtOK) (S : FltSem K) {eps : K} {n : ℕ} (prog : List (List (ℕ × Texpr K))) :
    ∀ {st st' : Pr K × T1 K} {x y : ℕ → K}, WfPr st.1 → WfA st.1 st.2 → st.2.n = n → (∀ l ∈ prog, ∀ p ∈ l, p.2.InDim n) →
    ProgSafe R o eps prog st → runProg R o eps prog st = some st' → Gam st.1 st.2 x → Exec S prog x y →
    WfPr st'.1 ∧ WfA st'.1 st'.2 ∧ st'.2.n = n ∧ Gam st'.1 st'.2 y := by
  induction prog with
  | nil =>
    intro st st' x y h1 h2 hn _ _ h hx he
    simp only [runProg, Option.some.injEq] at h
    subst h
    have he : y = x := he
    rw [he]; exact ⟨h1, h2, hn, hx⟩
  | cons l prog ih =>
    intro st st' x y h1 h2 hn hd hs h hx he
    obtain ⟨vs, hv, he⟩ := he
    simp only [runProg] at h
    cases hst : assignArray R o eps st.1 st.2 l with
    | none => rw [hst] at h; simp at h
    | some st1 =>
      rw [hst] at h
      simp only [Option.bind_some] at h
      have hd' : ∀ p ∈ l, p.2.InDim st.2.n := fun p hp => by rw [hn]; exact hd l (by simp) p hp
      obtain ⟨g1, g2, g3, g4⟩ := assignArray_wf (pr' := st1.1) (a' := st1.2) h1 h2 hd' hst
      exact ih g1 g2 (by rw [g4, hn]) (fun l hl => hd l (by simp [hl])) (hs.2 _ hst) h
        (assignArray_sound ho S h1 h2 hd' hs.1 hst hx hv) he

/-! ## Linear programs -/

/-- the points of an abstract value for given noise values -/
def GamE (pr : Pr K) (a : T1 K) (ε : ℕ → K) (x : ℕ → K) : Prop :=
  (∀ i < a.n, ∀ j < a.n, a.paf i = a.paf j → a.paf i ≠ topPtr → x i = x j) ∧
  Noise ε ∧ ∀ i < a.n, x i ∈ a.box i ∧ (pr.heap (a.paf i)).Val ε (x i)

theorem gam_iff (pr : Pr K) (a : T1 K) (x : ℕ → K) : Gam pr a x ↔ ∃ ε, GamE pr a ε x :=
  ⟨fun ⟨h1, ε, h2, h3⟩ => ⟨ε, h1, h2, h3⟩, fun ⟨ε, h1, h2, h3⟩ => ⟨h1, ε, h2, h3⟩⟩

/-- all forms are point forms, and all bounds are attained -/
structure LinA (pr : Pr K) (a : T1 K) : Prop where
  wf : WfPr pr
  wfa : WfA pr a
  pt : ∀ i < a.n, PtF (pr.heap (a.paf i))
  tight : ∀ i < a.n, ∀ w, w ∈ a.box i → ∃ ε, Noise ε ∧ (pr.heap (a.paf i)).Val ε w

/-- the state of the loop -/
structure LinStep (a : T1 K) (st : Pr K × T1 K) : Prop where
  wf : WfPr st.1
  wfa : WfA st.1 a
  n : st.2.n = a.n
  pa : ∀ i < a.n, PtF (st.1.heap (a.paf i))
  ta : ∀ i < a.n, TightF (st.1.heap (a.paf i))
  r : LinA st.1 st.2

theorem lin_step {eps : K} (he : 0 ≤ eps) {a : T1 K} {st : Pr K × T1 K} (h : LinStep a st) {p : ℕ × Texpr K} (hd : p.2.InDim a.n)
    (hl : LinTree p.2) : ∃ st', assignStep Rnd.exact o eps a st p = some st' ∧ LinStep a st' ∧
      SafeTree Rnd.exact o (forms st.1 a) a.paf p.2 ∧
      (∀ A, evalTexpr Rnd.exact o NEnv.free (forms st.1 a) a.paf p.2 = some A → ReduceSafe Rnd.exact eps A ∧ PtF A) := by
  obtain ⟨A, hA, hp, hs, ht, _⟩ := lin_eval (o := o) (paf := forms st.1 a) (ptr := a.paf) h.pa (fun d hd => h.wf.sorted _ (h.wfa d hd).1) h.ta p.2 hd hl
  obtain ⟨st', hst⟩ : ∃ st', assignStep Rnd.exact o eps a st p = some st' := by
    unfold assignStep; rw [hA]; exact ⟨_, rfl⟩
  refine ⟨st', hst, ?_, hs, fun A' hA' => ?_⟩
  · obtain ⟨g1, g2, g3, g4⟩ := assignStep_wf h.wf h.wfa h.r.wfa hd hst
    obtain ⟨A', hA', ad, nx, had, rfl⟩ := assignStep_eq hst
    rw [hA] at hA'; cases hA'
    have hred := reduce_pt he hp st.1.nsym
    have hobj : objAddr (reduce Rnd.exact eps st.1.nsym A).1 ad = ad := by
      unfold objAddr; rw [hred, hp.not_isTop, hp.not_isBottom]; simp
    have hheap : ∀ k < st.1.next, (setObj Rnd.exact eps st.1 ad A nx).heap k = st.1.heap k := by
      intro k hk
      show Function.update st.1.heap ad _ k = _
      by_cases e : k = ad
      · rw [e, Function.update_self, hred]
        rcases had with ⟨j, e1, e2, e3, e4⟩ | ⟨h, h'⟩
        · rw [e2, e3]
        · omega
      · rw [Function.update_of_ne e]
    have had' : (setObj Rnd.exact eps st.1 ad A nx).heap ad = A := by
      show Function.update st.1.heap ad _ ad = _
      rw [Function.update_self, hred]
    refine ⟨g1, h.wfa.mono g3, h.n, ?_, ?_, g1, g2, ?_, ?_⟩
    · intro i hi
      dsimp only
      rw [hheap _ (h.wfa i hi).1]; exact h.pa i hi
    · intro i hi
      dsimp only
      rw [hheap _ (h.wfa i hi).1]; exact h.ta i hi
    · intro i hi
      dsimp only
      by_cases e : i = p.1
      · rw [e, Function.update_self, hobj, had']; exact hp
      · rw [Function.update_of_ne e, hheap _ (h.r.wfa i hi).1]; exact h.r.pt i hi
    · intro i hi w
      dsimp only
      by_cases e : i = p.1
      · rw [e, Function.update_self, Function.update_self, hobj, had']; exact ht w
      · rw [Function.update_of_ne e, Function.update_of_ne e, hheap _ (h.r.wfa i hi).1]; exact h.r.tight i hi w
  · rw [hA] at hA'; cases hA'
    exact ⟨reduceSafe_pt he hp, hp⟩

theorem linTree_total (S : FltSem K) (x : ℕ → K) (t : Texpr K) (h : LinTree t) : ∃ v, t.Val S x v := by
  induction t with
  | cst c => obtain ⟨q, rfl⟩ := h; exact ⟨q, by simp [Texpr.Val, Coeff.Has]⟩
  | dim d => exact ⟨x d, rfl⟩
  | un op ty dr a ih =>
    obtain ⟨rfl, hl⟩ := h
    obtain ⟨v, hv⟩ := ih hl
    exact ⟨-v, v, -v, hv, rfl, by rw [if_pos rfl]⟩
  | bin op ty dr a b iha ihb =>
    obtain ⟨rfl, hla, hlb, hop⟩ := h
    obtain ⟨u, hu⟩ := iha hla
    obtain ⟨v, hv⟩ := ihb hlb
    rcases hop with rfl | rfl | ⟨rfl, _⟩
    · exact ⟨u + v, u, v, u + v, hu, hv, rfl, by rw [if_neg (by decide)]; rfl⟩
    · exact ⟨u - v, u, v, u - v, hu, hv, rfl, by rw [if_neg (by decide)]; rfl⟩
    · exact ⟨u * v, u, v, u * v, hu, hv, rfl, by rw [if_neg (by decide)]; rfl⟩

theorem lin_fold (ho : o.SqrtOK) (S : FltSem K) {eps : K} (he : 0 ≤ eps) {a : T1 K} (l : List (ℕ × Texpr K)) : ∀ {st : Pr K × T1 K}, LinStep a st →
    (∀ p ∈ l, p.2.InDim a.n) → (∀ p ∈ l, LinTree p.2) → ∃ st', l.foldlM (assignStep Rnd.exact o eps a) st = some st' ∧ LinStep a st' ∧
    ArraySafe Rnd.exact o eps a l st ∧
    ∀ {ε x y vs}, StepInv a x y st ε → List.Forall₂ (fun (p : ℕ × Texpr K) v => p.2.Val S x v) l vs → StepInv a x (assignAll y l vs) st' ε := by
  induction l with
  | nil =>
    intro st h _ _
    exact ⟨st, rfl, h, trivial, fun hi hv => by cases hv; exact hi⟩
  | cons p l ih =>
    intro st h hd hl
    obtain ⟨st1, e1, h1, h2, h3⟩ := lin_step (o := o) he h (hd p (by simp)) (hl p (by simp))
    obtain ⟨st', e2, h4, h5, h6⟩ := ih h1 (fun q hq => hd q (by simp [hq])) (fun q hq => hl q (by simp [hq]))
    refine ⟨st', ?_, h4, ⟨h2, fun A hA => (h3 A hA).1, fun st'' e => ?_⟩, ?_⟩
    · rw [List.foldlM_cons, e1]; exact e2
    · rw [e1] at e; cases e; exact h5
    · intro ε x y vs hi hv
      cases hv with
      | cons hv1 hv2 =>
        refine h6 (assignStep_core hi S (hd p (by simp)) e1 hv1 hi.noise (fun _ _ => rfl) fun A hA => ?_) hv2
        rw [reduce_pt he (h3 A hA).2]
        exact hi.eval ho S (hd p (by simp)) h2 hA hv1

theorem linA_start {pr : Pr K} {a : T1 K} (h : LinA pr a) : LinStep a (sync pr a, a) := by
  have hpt : ∀ p, PtF (pr.heap p) → PtF ((sync pr a).heap p) := fun p hp => by
    unfold PtF; rw [sync_c, sync_q]; exact hp
  have htt : ∀ i < a.n, ∀ w, w ∈ a.box i → ∃ ε, Noise ε ∧ ((sync pr a).heap (a.paf i)).Val ε w := fun i hi w hw => by
    obtain ⟨ε, h1, h2⟩ := h.tight i hi w hw
    exact ⟨ε, h1, h2.congr_form (sync_c _ _ _).symm (sync_q _ _ _).symm⟩
  have hw := wfPr_sync h.wf h.wfa
  refine ⟨hw, h.wfa, rfl, fun i hi => hpt _ (h.pt i hi), ?_, hw, h.wfa, fun i hi => hpt _ (h.pt i hi), htt⟩
  intro i hi w hwi
  dsimp only at hwi ⊢
  rcases sync_itv pr a (a.paf i) with ⟨_, g⟩ | ⟨j, hj, g1, g2⟩
  · exact absurd rfl (g i hi)
  · rw [g2] at hwi
    have := htt j hj w hwi
    rwa [g1] at this

theorem lin_array (ho : o.SqrtOK) (S : FltSem K) {eps : K} (he : 0 ≤ eps) {pr : Pr K} {a : T1 K} (h : LinA pr a) {l : List (ℕ × Texpr K)}
    (hd : ∀ p ∈ l, p.2.InDim a.n) (hl : ∀ p ∈ l, LinTree p.2) : ∃ st', assignArray Rnd.exact o eps pr a l = some st' ∧
    LinA st'.1 st'.2 ∧ st'.2.n = a.n ∧ ArraySafe Rnd.exact o eps a l (sync pr a, a) ∧
    ∀ {ε x vs}, GamE pr a ε x → List.Forall₂ (fun (p : ℕ × Texpr K) v => p.2.Val S x v) l vs → GamE st'.1 st'.2 ε (assignAll x l vs) := by
  obtain ⟨st', h1, h2, h3, h4⟩ := lin_fold ho S he l (linA_start h) hd hl
  refine ⟨st', h1, h2.r, h2.n, h3, ?_⟩
  rintro ε x vs ⟨g1, g2, g3⟩ hv
  have hi : StepInv a x x (sync pr a, a) ε :=
    ⟨g2, wfPr_sync h.wf h.wfa, h.wfa, h.wfa, rfl, sync_has h.wf h.wfa g1 g3, fun i hi => ⟨(g3 i hi).1, (sync_has h.wf h.wfa g1 g3 i hi).1⟩, g1, g1, g1⟩
  have := h4 hi hv
  exact ⟨by rw [this.n]; exact this.crr, this.noise, by rw [this.n]; exact this.fr⟩

theorem lin_prog (ho : o.SqrtOK) (S : FltSem K) {eps : K} (he : 0 ≤ eps) {n : ℕ} (prog : List (List (ℕ × Texpr K))) :
    ∀ {st : Pr K × T1 K}, LinA st.1 st.2 → st.2.n = n → (∀ l ∈ prog, ∀ p ∈ l, p.2.InDim n ∧ LinTree p.2) →
    ∃ st', runProg Rnd.exact o eps prog st = some st' ∧ LinA st'.1 st'.2 ∧ st'.2.n = n ∧ ProgSafe Rnd.exact o eps prog st ∧
      (∀ {ε x y}, GamE st.1 st.2 ε x → Exec S prog x y → GamE st'.1 st'.2 ε y) ∧ ∀ x, ∃ y, Exec S prog x y := by
  induction prog with
  | nil =>
    intro st h hn _
    refine ⟨st, rfl, h, hn, trivial, fun hg he => ?_, fun x => ⟨x, rfl⟩⟩
    have he : _ = _ := he
    rw [he]; exact hg
  | cons l prog ih =>
    intro st h hn hp
    obtain ⟨st1, e1, h1, h2, h3, h4⟩ := lin_array ho S he h (l := l) (fun p hpl => by rw [hn]; exact (hp l (by simp) p hpl).1)
      (fun p hpl => (hp l (by simp) p hpl).2)
    obtain ⟨st', e2, g1, g2, g3, g4, g5⟩ := ih h1 (by rw [h2, hn]) (fun l hl => hp l (by simp [hl]))
    refine ⟨st', by simp [runProg, e1, e2], g1, g2, ⟨h3, fun st'' e => by rw [e1] at e; cases e; exact g3⟩, ?_, ?_⟩
    · rintro ε x y hg ⟨vs, hv, hx⟩
      exact g4 (h4 hg hv) hx
    · intro x
      have : ∃ vs, List.Forall₂ (fun (p : ℕ × Texpr K) v => p.2.Val S x v) l vs := by
        have hl : ∀ p ∈ l, LinTree p.2 := fun p hpl => (hp l (by simp) p hpl).2
        clear e1 h3 h4 hp
        induction l with
        | nil => exact ⟨[], .nil⟩
        | cons p l ih =>
          obtain ⟨v, hv⟩ := linTree_total S x p.2 (hl p (by simp))
          obtain ⟨vs, hvs⟩ := ih fun q hq => hl q (by simp [hq])
          exact ⟨v :: vs, .cons hv hvs⟩
      obtain ⟨vs, hv⟩ := this
      obtain ⟨y, hy⟩ := g5 (assignAll x l vs)
      exact ⟨y, vs, hv, hy⟩

/-! ## Bounded boxes -/

/-- the form of a bounded non-empty interval -/
theorem ofBoxStep_lin (b : ℕ → Itv K) (st : Pr K × (ℕ → ℕ)) (i : ℕ) {l u : K} (hb : b i = ⟨fin l, fin u⟩) (hlu : -l ≤ u) : ∃ A ns,
    ofBoxStep Rnd.exact b st i = (⟨Function.update st.1.heap st.1.next A, st.1.next + 1, ns⟩, Function.update st.2 i st.1.next) ∧
    PtF A ∧ ∀ ε, Noise ε → ∃ v, v ∈ b i ∧ A.Val ε v := by
  have h1 : (b i).isBottom = false := by rw [hb]; simp [Itv.isBottom, hlu]
  have h2 : (b i).isTop = false := by rw [hb]; simp [Itv.isTop, Bound.infty]
  have h4 : (b i).hasInfty = false := by rw [hb]; simp [Itv.hasInfty, Bound.infty]
  unfold ofBoxStep
  rw [h1, h2, h4]
  simp only [Bool.false_eq_true, if_false, Bool.not_false, if_true]
  split_ifs with h3
  · refine ⟨_, _, rfl, ⟨Itv.isPoint_ex h3, fun _ h => absurd h (by simp)⟩, fun ε hε => ?_⟩
    obtain ⟨q, e⟩ := Itv.isPoint_ex h3
    exact ⟨q, by rw [e]; exact (Itv.mem_point _ _).2 rfl, q, 0, by rw [e]; exact (Itv.mem_point _ _).2 rfl, rfl, by ring⟩
  · refine ⟨_, _, rfl, ?_⟩
    have hm : Itv.middev Rnd.exact (b i) = (Itv.point ((u - l) / 2), Itv.point ((u + l) / 2)) := by
      unfold Itv.middev
      rw [if_neg h3, h1, h4, hb]
      simp only [Bool.or_self, Bool.false_eq_true, if_false, Bound.div2, Bound.sub, Bound.add, Rnd.exact, Bound.neg, bmax_eq_max, Itv.point]
      have e1 : (u + -l) / 2 + l = (u + l) / 2 := by ring
      have e2 : u + -((u + -l) / 2) = (u + l) / 2 := by ring
      simp only [e1, e2, max_self, sub_eq_add_neg]
    unfold addItv nsymCreate
    rw [if_neg h3, hm]
    have hc : Itv.add Rnd.exact (Aff.zero : Aff K).c (Itv.point ((u - l) / 2)) = Itv.point (0 + (u - l) / 2) := Itv.add_points _ _
    dsimp only
    rw [hc]
    split_ifs with h5
    · refine ⟨⟨⟨_, rfl⟩, fun _ h => absurd h (by simp [Aff.zero])⟩, fun ε hε => ?_⟩
      refine ⟨0 + (u - l) / 2, ?_, 0 + (u - l) / 2, 0, (Itv.mem_point _ _).2 rfl, rfl, by ring⟩
      rw [hb, Itv.mem_def]; simp only [fin_le_fin]; constructor <;> linarith
    · refine ⟨⟨⟨_, rfl⟩, fun t ht => ?_⟩, fun ε hε => ?_⟩
      · simp only [Aff.zero, List.nil_append, List.mem_singleton] at ht
        rw [ht]; exact ⟨_, rfl⟩
      · refine ⟨0 + (u - l) / 2 + ((u + l) / 2 * ε st.1.nsym + 0), ?_, 0 + (u - l) / 2, (u + l) / 2 * ε st.1.nsym + 0, (Itv.mem_point _ _).2 rfl,
          ⟨(u + l) / 2, 0, (Itv.mem_point _ _).2 rfl, rfl, rfl⟩, rfl⟩
        have hn := Itv.mem_muu.1 (hε st.1.nsym)
        have hd : 0 ≤ (u + l) / 2 := by linarith
        rw [hb, Itv.mem_def]; simp only [fin_le_fin]
        have p1 := mul_le_mul_of_nonneg_left hn.1 hd
        have p2 := mul_le_mul_of_nonneg_left hn.2 hd
        constructor <;> linarith

theorem ofBox_lin_aux {pr : Pr K} (hpr : WfPr pr) {b : ℕ → Itv K} {n : ℕ} (hb : ∀ i < n, ∃ l u, b i = ⟨fin l, fin u⟩ ∧ -l ≤ u) :
    ∀ m ≤ n, let st := (List.range m).foldl (ofBoxStep Rnd.exact b) (pr, fun _ => topPtr)
      ∀ i < m, PtF (st.1.heap (st.2 i)) ∧ ∀ ε, Noise ε → ∃ v, v ∈ b i ∧ (st.1.heap (st.2 i)).Val ε v := by
  have hb' : ∀ i < n, (b i).inf ≠ ninf ∧ (b i).sup ≠ ninf := fun i hi => by
    obtain ⟨l, u, e, _⟩ := hb i hi
    rw [e]; exact ⟨by simp, by simp⟩
  intro m
  induction m with
  | zero => intro _ st i hi; exact absurd hi (by omega)
  | succ m ih =>
    intro hm
    rw [List.range_succ, List.foldl_append, List.foldl_cons, List.foldl_nil]
    have hv := ih (by omega)
    have hi := ofBox_inv (R := Rnd.exact) hpr b n hb' m (by omega)
    dsimp only at hv ⊢
    generalize (List.range m).foldl (ofBoxStep Rnd.exact b) (pr, fun _ => topPtr) = st at hi hv
    obtain ⟨l, u, hlu, hle⟩ := hb m (by omega)
    obtain ⟨A, ns, he, h1, h2⟩ := ofBoxStep_lin b st m hlu hle
    rw [he]
    intro i hin
    dsimp only
    by_cases e : i = m
    · rw [e, Function.update_self, Function.update_self]; exact ⟨h1, h2⟩
    · rw [Function.update_of_ne e, Function.update_of_ne (by have := (hi.ptr i (by omega)).1; omega)]
      exact hv i (by omega)

theorem ofBox_lin {pr : Pr K} (hpr : WfPr pr) {b : ℕ → Itv K} {n intdim : ℕ} (hb : ∀ i < n, ∃ l u, b i = ⟨fin l, fin u⟩ ∧ -l ≤ u) :
    LinA (ofBox Rnd.exact pr intdim n b).1 (ofBox Rnd.exact pr intdim n b).2 ∧
    ∀ ε, Noise ε → ∃ x, (∀ i < n, x i ∈ b i) ∧ GamE (ofBox Rnd.exact pr intdim n b).1 (ofBox Rnd.exact pr intdim n b).2 ε x := by
  have hb' : ∀ i < n, (b i).inf ≠ ninf ∧ (b i).sup ≠ ninf := fun i hi => by
    obtain ⟨l, u, e, _⟩ := hb i hi
    rw [e]; exact ⟨by simp, by simp⟩
  obtain ⟨w1, w2, _⟩ := ofBox_wf (R := Rnd.exact) (intdim := intdim) hpr hb'
  have hv := ofBox_lin_aux hpr hb n (le_refl _)
  have hi := ofBox_inv (R := Rnd.exact) hpr b n hb' n (le_refl _)
  have hne : ∃ x0 : ℕ → K, ∀ i < n, x0 i ∈ b i := by
    have : ∀ i, ∃ v, i < n → v ∈ b i := fun i => by
      by_cases h : i < n
      · obtain ⟨l, u, e, hle⟩ := hb i h
        exact ⟨u, fun _ => by rw [e, Itv.mem_def]; simp only [fin_le_fin]; exact ⟨by linarith, le_refl _⟩⟩
      · exact ⟨0, fun h' => absurd h' h⟩
    choose f hf using this
    exact ⟨f, hf⟩
  obtain ⟨x0, hx0⟩ := hne
  refine ⟨⟨w1, w2, fun i hi => (hv i hi).1, ?_⟩, ?_⟩
  · intro i hin w hw
    have hg : Gam (ofBox Rnd.exact pr intdim n b).1 (ofBox Rnd.exact pr intdim n b).2 (Function.update x0 i w) := by
      rw [gam_ofBox hpr hb' fun i _ => boxSafe_exact _]
      intro j hj
      by_cases e : j = i
      · rw [e, Function.update_self]; exact hw
      · rw [Function.update_of_ne e]; exact hx0 j hj
    obtain ⟨_, ε, h2, h3⟩ := hg
    have := (h3 i hin).2
    rw [Function.update_self] at this
    exact ⟨ε, h2, this⟩
  · intro ε hε
    have : ∀ i, ∃ v, i < n → v ∈ b i ∧ ((ofBox Rnd.exact pr intdim n b).1.heap ((ofBox Rnd.exact pr intdim n b).2.paf i)).Val ε v := fun i => by
      by_cases h : i < n
      · obtain ⟨v, h1, h2⟩ := (hv i h).2 ε hε
        exact ⟨v, fun _ => ⟨h1, h2⟩⟩
      · exact ⟨0, fun h' => absurd h' h⟩
    choose f hf using this
    refine ⟨f, fun i hin => (hf i hin).1, ?_, hε, hf⟩
    intro i hin j hjn he _
    have h1 := (hf i hin).2
    have h2 := (hf j hjn).2
    rw [he] at h1
    exact (hv j hjn).1.unique h1 h2

end T1p
end Apron
