import Verif.Zono.StateLemmas
import Verif.Box.ResizeLemmas

/-!
# Affine forms: soundness of the construction from a box and of changes of dimension
-/

set_option autoImplicit false
set_option linter.unusedSectionVars false
set_option linter.ambiguousOpen false

namespace Apron
open Bound Oct
variable {K : Type*} [LinearOrder K] [Field K] [IsStrictOrderedRing K] [FloorRing K] {R : Rnd K}

namespace T1p
variable {ε : ℕ → K}

/-- no overflow in the computation of the middle and the radius of an interval -/
def BoxSafe (R : Rnd K) (b : Itv K) : Prop := Itv.MidFin R b ∧
  ∀ l u, b = ⟨fin l, fin u⟩ → b.isBottom = false → (Itv.middev R b).2.sup ≠ pinf

theorem boxSafe_exact (b : Itv K) : BoxSafe Rnd.exact b := by
  refine ⟨Itv.midFin_exact b, ?_⟩
  rintro l u rfl hb
  unfold Itv.middev
  split_ifs with h1 h2
  · simp [Itv.point]
  · rw [hb] at h2; simp [Itv.hasInfty, Bound.infty] at h2
  · simp only [Bound.div2, Bound.sub, Bound.add, Rnd.exact, bmax_eq_max]
    rw [max_def]
    split_ifs <;> simp

/-- the state of the loop of `ofBox` after `m` dimensions -/
structure OfBoxInv (pr : Pr K) (b : ℕ → Itv K) (m : ℕ) (st : Pr K × (ℕ → ℕ)) : Prop where
  wf : WfPr st.1
  next : pr.next ≤ st.1.next
  frame : ∀ p < pr.next, st.1.heap p = pr.heap p
  ptr : ∀ i < m, st.2 i < st.1.next ∧ (st.2 i = topPtr → b i = Itv.top)
  inj : ∀ i < m, ∀ j < m, st.2 i = st.2 j → st.2 i ≠ topPtr → st.2 i ≠ botPtr → i = j
  bot : ∀ i < m, st.2 i = botPtr → (b i).isBottom = true

theorem wfPr_alloc {pr : Pr K} (h : WfPr pr) {A : Aff K} {ns : ℕ} (hs : SortedQ A.q) (hb : Below ns A.q) (hn : pr.nsym ≤ ns) :
    WfPr ⟨Function.update pr.heap pr.next A, pr.next + 1, ns⟩ := by
  have h2 := h.two
  refine ⟨by show 2 ≤ pr.next + 1; omega, ?_, ?_, ?_⟩
  · show Function.update pr.heap pr.next A topPtr = _
    rw [Function.update_of_ne (by simp only [topPtr]; omega)]; exact h.top
  · intro p hp
    have hp : p < pr.next + 1 := hp
    show SortedQ (Function.update pr.heap pr.next A p).q
    by_cases e : p = pr.next
    · rw [e, Function.update_self]; exact hs
    · rw [Function.update_of_ne e]; exact h.sorted p (by omega)
  · intro p hp
    have hp : p < pr.next + 1 := hp
    show Below ns (Function.update pr.heap pr.next A p).q
    by_cases e : p = pr.next
    · rw [e, Function.update_self]; exact hb
    · rw [Function.update_of_ne e]; exact fun t ht => lt_of_lt_of_le (h.below p (by omega) t ht) hn

/-- the step of `ofBox` allocates one object `A`; the dimension points to it, to top or to bottom -/
theorem ofBoxStep_cases (b : ℕ → Itv K) (st : Pr K × (ℕ → ℕ)) (i : ℕ) (hb : (b i).inf ≠ ninf ∧ (b i).sup ≠ ninf) : ∃ A ns ad,
    ofBoxStep R b st i = (⟨Function.update st.1.heap st.1.next A, st.1.next + 1, ns⟩, Function.update st.2 i ad) ∧
    SortedQ A.q ∧ Below ns A.q ∧ st.1.nsym ≤ ns ∧
    (ad = st.1.next ∨ (ad = topPtr ∧ b i = Itv.top) ∨ (ad = botPtr ∧ (b i).isBottom = true)) ∧
    ∀ x ε, x ∈ b i → Noise ε → BoxSafe R (b i) → 
      ∃ ε', Noise ε' ∧ (∀ j < st.1.nsym, ε' j = ε j) ∧ (ad ≠ topPtr → A.Val ε' x) := by
  unfold ofBoxStep
  dsimp only
  have h0 : ∀ x ε, x ∈ b i → Noise ε → ∃ ε', Noise ε' ∧ (∀ j < st.1.nsym, ε' j = ε j) ∧ (⟨b i, [], Itv.point 0⟩ : Aff K).Val ε' x :=
    fun x ε hx hε => ⟨ε, hε, fun _ _ => rfl, x, 0, hx, rfl, by ring⟩
  have h0' : ∀ (p : ℕ) x ε, x ∈ b i → Noise ε → ∃ ε', Noise ε' ∧ (∀ j < st.1.nsym, ε' j = ε j) ∧ (p ≠ topPtr → (⟨b i, [], Itv.point 0⟩ : Aff K).Val ε' x) :=
    fun p x ε hx hε => by obtain ⟨ε', h1, h2, h3⟩ := h0 x ε hx hε; exact ⟨ε', h1, h2, fun _ => h3⟩
  split_ifs with h1 h2 h3 h4
  · exact ⟨Aff.zero, st.1.nsym, botPtr, rfl, List.Pairwise.nil, below_nil, le_refl _, .inr (.inr ⟨rfl, h1⟩),
      fun x ε hx => absurd hx (by rw [Itv.isBottom_iff _ hb.1 hb.2] at h1; exact h1 x)⟩
  · have ht : b i = Itv.top := by
      obtain ⟨g1, g2⟩ := hb
      rcases hbi : b i with ⟨l, u⟩
      rw [hbi] at h2 g1 g2
      cases l <;> cases u <;> simp_all [Itv.isTop, Itv.top, Bound.infty]
    exact ⟨Aff.zero, st.1.nsym, topPtr, rfl, List.Pairwise.nil, below_nil, le_refl _, .inr (.inl ⟨rfl, ht⟩),
      fun x ε hx hε _ => ⟨ε, hε, fun _ _ => rfl, fun h => absurd rfl h⟩⟩
  · exact ⟨_, _, _, rfl, List.Pairwise.nil, below_nil, le_refl _, .inl rfl, fun x ε hx hε _ => h0' _ x ε hx hε⟩
  · have hw := nsymCreate_wf (k := st.1.nsym) (a := ⟨Itv.add R (Aff.zero : Aff K).c (Itv.middev R (b i)).1, [], (Aff.zero : Aff K).itv⟩)
      (c := (Itv.middev R (b i)).2) (un := false) below_nil List.Pairwise.nil
    unfold addItv
    rw [if_neg h3]
    dsimp only
    refine ⟨_, _, _, rfl, hw.2.1, hw.1, hw.2.2, .inl rfl, ?_⟩
    intro x ε hx hε hs
    obtain ⟨l, u, hlu⟩ : ∃ l u, b i = ⟨fin l, fin u⟩ := by
      rcases hbi : b i with ⟨l, u⟩
      rw [hbi] at h4
      cases l <;> cases u <;> simp_all [Itv.hasInfty, Bound.infty]
    obtain ⟨m, h5, h6⟩ := Itv.mem_middev hs.1 hx
    have hd := hs.2 l u hlu (by simpa using h1)
    have hform : (Itv.middev R (b i)).2 = ⟨Bound.neg (Itv.middev R (b i)).2.sup, (Itv.middev R (b i)).2.sup⟩ := by
      unfold Itv.middev
      rw [if_neg h3, if_neg]
      rw [Bool.or_eq_true, not_or]
      exact ⟨by simpa using h4, h1⟩
    rw [hform]
    have habs : fin |x - m| ≤ (Itv.middev R (b i)).2.sup := by
      rcases abs_cases (x - m) with ⟨e, _⟩ | ⟨e, _⟩
      · rw [e]; exact h6.2
      · rw [e]; exact h6.1
    obtain ⟨ε', g1, g2, g3⟩ := nsymCreate_sound (k := st.1.nsym)
      (a := ⟨Itv.add R (Aff.zero : Aff K).c (Itv.middev R (b i)).1, [], (Aff.zero : Aff K).itv⟩) hε below_nil (x := 0 + m)
      ⟨0 + m, 0, Itv.mem_add R ((Itv.mem_point _ _).2 rfl) h5, rfl, by ring⟩ hd habs (un := false)
    refine ⟨ε', g1, g2, fun _ => ?_⟩
    have : x = 0 + m + (x - m) := by ring
    rw [this]
    exact g3
  · exact ⟨_, _, _, rfl, List.Pairwise.nil, below_nil, le_refl _, .inl rfl, fun x ε hx hε _ => h0' _ x ε hx hε⟩

theorem ofBox_inv {pr : Pr K} (hpr : WfPr pr) (b : ℕ → Itv K) (n : ℕ) (hb : ∀ i < n, (b i).inf ≠ ninf ∧ (b i).sup ≠ ninf) :
    ∀ m ≤ n, OfBoxInv pr b m ((List.range m).foldl (ofBoxStep R b) (pr, fun _ => topPtr)) := by
  intro m
  induction m with
  | zero =>
    intro _
    exact ⟨hpr, le_refl _, fun _ _ => rfl, fun _ h => absurd h (by omega), fun _ h => absurd h (by omega), fun _ h => absurd h (by omega)⟩
  | succ m ih =>
    intro hm
    rw [List.range_succ, List.foldl_append, List.foldl_cons, List.foldl_nil]
    have hi := ih (by omega)
    generalize (List.range m).foldl (ofBoxStep R b) (pr, fun _ => topPtr) = st at hi
    obtain ⟨A, ns, ad, he, hs, hbe, hns, had, _⟩ := ofBoxStep_cases (R := R) b st m (hb m (by omega))
    rw [he]
    have h2 := hi.wf.two
    have hn := hi.next
    refine ⟨wfPr_alloc hi.wf hs hbe hns, by show pr.next ≤ st.1.next + 1; omega, ?_, ?_, ?_, ?_⟩
    · intro p hp
      show Function.update _ _ _ p = _
      rw [Function.update_of_ne (by omega)]; exact hi.frame p hp
    · intro i hin
      show Function.update st.2 m ad i < st.1.next + 1 ∧ (Function.update st.2 m ad i = topPtr → _)
      by_cases e : i = m
      · rw [e, Function.update_self]
        rcases had with h | ⟨h, h'⟩ | ⟨h, h'⟩
        · exact ⟨by omega, fun ht => by rw [ht] at h; simp only [topPtr] at h; omega⟩
        · exact ⟨by rw [h]; simp [topPtr], fun _ => h'⟩
        · exact ⟨by rw [h]; simp only [botPtr]; omega, fun ht => by rw [ht] at h; simp [topPtr, botPtr] at h⟩
      · rw [Function.update_of_ne e]
        have := hi.ptr i (by omega)
        exact ⟨by omega, this.2⟩
    · intro i hin j hjn
      show Function.update st.2 m ad i = Function.update st.2 m ad j → Function.update st.2 m ad i ≠ topPtr → Function.update st.2 m ad i ≠ botPtr → i = j
      by_cases e : i = m
      · by_cases e' : j = m
        · intro _ _ _; omega
        · rw [e, Function.update_self, Function.update_of_ne e']
          intro h1 h2 h3
          have := (hi.ptr j (by omega)).1
          rcases had with h | ⟨h, h'⟩ | ⟨h, h'⟩
          · omega
          · exact absurd h h2
          · exact absurd h h3
      · by_cases e' : j = m
        · rw [e', Function.update_self, Function.update_of_ne e]
          intro h1 h2 h3
          have := (hi.ptr i (by omega)).1
          rw [h1] at h2 h3
          rcases had with h | ⟨h, h'⟩ | ⟨h, h'⟩
          · omega
          · exact absurd h h2
          · exact absurd h h3
        · rw [Function.update_of_ne e, Function.update_of_ne e']
          exact hi.inj i (by omega) j (by omega)
    · intro i hin
      show Function.update st.2 m ad i = botPtr → _
      by_cases e : i = m
      · rw [e, Function.update_self]
        intro hbp
        rcases had with h | ⟨h, h'⟩ | ⟨h, h'⟩
        · rw [hbp] at h; simp only [botPtr] at h; omega
        · rw [hbp] at h; simp [topPtr, botPtr] at h
        · exact h'
      · rw [Function.update_of_ne e]; exact hi.bot i (by omega)

theorem ofBox_val {pr : Pr K} (hpr : WfPr pr) (b : ℕ → Itv K) (n : ℕ) (hb : ∀ i < n, (b i).inf ≠ ninf ∧ (b i).sup ≠ ninf)
    (hs : ∀ i < n, BoxSafe R (b i)) {x : ℕ → K} (hx : ∀ i < n, x i ∈ b i) :
    ∀ m ≤ n, ∃ ε, Noise ε ∧ ∀ i < m, (((List.range m).foldl (ofBoxStep R b) (pr, fun _ => topPtr)).1.heap
      (((List.range m).foldl (ofBoxStep R b) (pr, fun _ => topPtr)).2 i)).Val ε (x i) := by
  intro m
  induction m with
  | zero => intro _; exact ⟨fun _ => 0, fun _ => by rw [Itv.mem_muu]; constructor <;> norm_num, fun _ h => absurd h (by omega)⟩
  | succ m ih =>
    intro hm
    rw [List.range_succ, List.foldl_append, List.foldl_cons, List.foldl_nil]
    obtain ⟨ε, hε, hv⟩ := ih (by omega)
    have hi := ofBox_inv (R := R) hpr b n hb m (by omega)
    generalize (List.range m).foldl (ofBoxStep R b) (pr, fun _ => topPtr) = st at hi hv
    obtain ⟨A, ns, ad, he, _, _, _, had, hval⟩ := ofBoxStep_cases (R := R) b st m (hb m (by omega))
    obtain ⟨ε', g1, g2, g3⟩ := hval (x m) ε (hx m (by omega)) hε (hs m (by omega))
    rw [he]
    have h2 := hi.wf.two
    refine ⟨ε', g1, fun i hin => ?_⟩
    show (Function.update st.1.heap st.1.next A (Function.update st.2 m ad i)).Val ε' (x i)
    by_cases e : i = m
    · rw [e, Function.update_self]
      rcases had with h | ⟨h, h'⟩ | ⟨h, h'⟩
      · rw [h, Function.update_self]
        exact g3 (by rw [h]; simp only [topPtr]; omega)
      · rw [h, Function.update_of_ne (by simp only [topPtr]; omega), hi.wf.top]; exact (Aff.Has.top _).1
      · rw [Itv.isBottom_iff _ (hb m (by omega)).1 (hb m (by omega)).2] at h'
        exact absurd (hx m (by omega)) (h' _)
    · rw [Function.update_of_ne e]
      have hp := (hi.ptr i (by omega)).1
      rw [Function.update_of_ne (by omega)]
      exact (hv i (by omega)).congr (hi.wf.below _ hp) fun j hj => (g2 j hj).symm

/-- the abstract value of a box: invariants -/
theorem ofBox_wf {pr : Pr K} (hpr : WfPr pr) {b : ℕ → Itv K} {n intdim : ℕ} (hb : ∀ i < n, (b i).inf ≠ ninf ∧ (b i).sup ≠ ninf) :
    WfPr (ofBox R pr intdim n b).1 ∧ WfA (ofBox R pr intdim n b).1 (ofBox R pr intdim n b).2 ∧
      pr.next ≤ (ofBox R pr intdim n b).1.next := by
  have hi := ofBox_inv (R := R) hpr b n hb n (le_refl _)
  exact ⟨hi.wf, hi.ptr, hi.next⟩

/-- the abstract value of a box: its points are the points of the box -/
theorem gam_ofBox {pr : Pr K} (hpr : WfPr pr) {b : ℕ → Itv K} {n intdim : ℕ} (hb : ∀ i < n, (b i).inf ≠ ninf ∧ (b i).sup ≠ ninf)
    (hs : ∀ i < n, BoxSafe R (b i)) {x : ℕ → K} :
    Gam (ofBox R pr intdim n b).1 (ofBox R pr intdim n b).2 x ↔ ∀ i < n, x i ∈ b i := by
  constructor
  · rintro ⟨_, ε, _, h⟩ i hi
    exact (h i hi).1
  · intro hx
    have hi := ofBox_inv (R := R) hpr b n hb n (le_refl _)
    obtain ⟨ε, h1, h2⟩ := ofBox_val (R := R) hpr b n hb hs hx n (le_refl _)
    refine ⟨?_, ε, h1, fun i hin => ⟨hx i hin, h2 i hin⟩⟩
    intro i hin j hjn he ht
    have : i = j := by
      refine hi.inj i hin j hjn he ht fun hbp => ?_
      have := hi.bot i hin hbp
      rw [Itv.isBottom_iff _ (hb i hin).1 (hb i hin).2] at this
      exact this _ (hx i hin)
    rw [this]

/-- other values are not changed -/
theorem ofBox_frame {pr : Pr K} (hpr : WfPr pr) {b : ℕ → Itv K} {n intdim : ℕ} (hb : ∀ i < n, (b i).inf ≠ ninf ∧ (b i).sup ≠ ninf)
    {c : T1 K} (hc : WfA pr c) {z : ℕ → K} : Gam (ofBox R pr intdim n b).1 c z ↔ Gam pr c z := by
  have hi := ofBox_inv (R := R) hpr b n hb n (le_refl _)
  have : ∀ i < c.n, (ofBox R pr intdim n b).1.heap (c.paf i) = pr.heap (c.paf i) := fun i h => hi.frame _ (hc i h).1
  unfold Gam
  constructor
  · rintro ⟨h1, ε, h2, h3⟩
    exact ⟨h1, ε, h2, fun i h => by rw [← this i h]; exact h3 i h⟩
  · rintro ⟨h1, ε, h2, h3⟩
    exact ⟨h1, ε, h2, fun i h => by rw [this i h]; exact h3 i h⟩

/-! ## Removal -/

theorem remLoop_spec {pos : List ℕ} (hs : pos.Pairwise (· < ·)) (p0 : ℕ → ℕ) (b0 : ℕ → Itv K) :
    ∀ (m i k : ℕ) (p : ℕ → ℕ) (b : ℕ → Itv K), k ≤ pos.length → (∀ m, m < k → pos.getD m 0 < i + k) →
      (∀ m, k ≤ m → m < pos.length → i + k ≤ pos.getD m 0) →
      (∀ j, j < i → ∃ v, v ∉ pos ∧ j + cntLt pos v = v ∧ p j = p0 v ∧ b j = b0 v) →
      (∀ j, i + k ≤ j → p j = p0 j) → (∀ j, i + k ≤ j → b j = b0 j) →
      ∀ j, j < i + m → ∃ v, v ∉ pos ∧ j + cntLt pos v = v ∧ (remLoop pos m i k p b).1 j = p0 v ∧ (remLoop pos m i k p b).2 j = b0 v := by
  intro m
  induction m with
  | zero => intro i k p b _ _ _ h3 _ _ j hj; exact h3 j hj
  | succ n ih =>
    intro i k p b hk h1 h2 h3 h4 h5 j hj
    simp only [remLoop]
    have hkk : k ≤ Box.remInner pos i pos.length k := by
      have gen : ∀ n k, k ≤ Box.remInner pos i n k := by
        intro n
        induction n with
        | zero => intro k; exact le_refl _
        | succ n ih =>
          intro k
          simp only [Box.remInner]
          split_ifs
          · exact le_trans (Nat.le_succ _) (ih _)
          · exact le_refl _
      exact gen _ _
    obtain ⟨g1, g2, g3⟩ := Box.remInner_spec hs i pos.length k hk (by omega) h1 h2
    generalize Box.remInner pos i pos.length k = k1 at g1 g2 g3 hkk
    refine ih (i + 1) k1 _ _ g1 (fun m hm => by have := g2 m hm; omega)
      (fun m hm hm' => by have := g3 m hm hm'; omega) (fun j hj => ?_) (fun j hj => ?_) (fun j hj => ?_) j (by omega)
    · by_cases e : j = i
      · subst e
        refine ⟨j + k1, ?_, ?_, ?_, ?_⟩
        · intro hm
          obtain ⟨m, hm, e⟩ := Box.mem_getD hm
          by_cases hmk : m < k1
          · have := g2 m hmk; omega
          · have := g3 m (by omega) hm; omega
        · rw [Box.cntLt_eq_of g1 g2 fun m hm hm' => (g3 m hm hm').le]
        · by_cases h0 : j = j + k1
          · rw [← h0, Function.update_self]; exact h4 j (by omega)
          · rw [Function.update_of_ne h0, Function.update_self]; exact h4 _ (by omega)
        · rw [Function.update_self]; exact h5 _ (by omega)
      · rw [Function.update_of_ne (show j ≠ i + k1 by omega), Function.update_of_ne e, Function.update_of_ne e]
        exact h3 j (by omega)
    · rw [Function.update_of_ne (by omega), Function.update_of_ne (by omega)]
      exact h4 j (by omega)
    · rw [Function.update_of_ne (by omega)]
      exact h5 j (by omega)

/-- removal: dimension `v` becomes dimension `v - cntLt pos v` -/
theorem removeDimensions_spec {a : T1 K} {pos : List ℕ} {intrem : ℕ} (hs : pos.Pairwise (· < ·)) {j : ℕ} (hj : j < a.n - pos.length) :
    ∃ v, v ∉ pos ∧ j + cntLt pos v = v ∧ (removeDimensions a pos intrem).paf j = a.paf v ∧ (removeDimensions a pos intrem).box j = a.box v :=
  remLoop_spec hs a.paf a.box (a.n - pos.length) 0 0 a.paf a.box (by omega) (by omega) (by omega) (by omega)
    (fun _ _ => rfl) (fun _ _ => rfl) j (by omega)

/-! ## Addition at one place -/

theorem gam_insert {pr : Pr K} {a : T1 K} {d : ℕ} (hd : d ≤ a.n) {x y : ℕ → K} {ad : ℕ} {bx : Itv K} (h : Gam pr a x)
    (h1 : ∀ i < d, y i = x i) (h2 : ∀ i, d ≤ i → y (i + 1) = x i) (hbx : y d ∈ bx)
    (hnew : ∀ ε, (pr.heap ad).Val ε (y d)) (hco : ∀ i < a.n, a.paf i = ad → ad = topPtr) :
    Gam pr { a with n := a.n + 1, paf := insertAt d ad a.paf, box := insertAt d bx a.box } y := by
  obtain ⟨hc, ε, hε, hf⟩ := h
  -- position of an entry
  have key : ∀ i < a.n + 1, (i = d ∧ insertAt d ad a.paf i = ad ∧ insertAt d bx a.box i = bx) ∨
      ∃ k < a.n, y i = x k ∧ insertAt d ad a.paf i = a.paf k ∧ insertAt d bx a.box i = a.box k := by
    intro i hi
    rcases lt_trichotomy i d with h | h | h
    · exact .inr ⟨i, by omega, h1 i h, by simp [insertAt, h], by simp [insertAt, h]⟩
    · exact .inl ⟨h, by simp [insertAt, h], by simp [insertAt, h]⟩
    · refine .inr ⟨i - 1, by omega, ?_, by
        simp only [insertAt]; rw [if_neg (by omega), if_neg (by omega)], by
        simp only [insertAt]; rw [if_neg (by omega), if_neg (by omega)]⟩
      have := h2 (i - 1) (by omega)
      rwa [show i - 1 + 1 = i by omega] at this
  refine ⟨?_, ε, hε, ?_⟩
  · intro i hi j hj
    dsimp only at hi hj ⊢
    rcases key i hi with ⟨e1, e2, _⟩ | ⟨k, hk, e1, e2, _⟩ <;> rcases key j hj with ⟨f1, f2, _⟩ | ⟨l, hl, f1, f2, _⟩
    · intro _ _; rw [e1, f1]
    · rw [e2, f2]
      intro h h'
      exact absurd (hco l hl h.symm) h'
    · rw [e2, f2]
      intro h h'
      exact absurd (h.trans (hco k hk h)) h'
    · rw [e2, f2, e1, f1]
      exact hc k hk l hl
  · intro i hi
    dsimp only at hi ⊢
    rcases key i hi with ⟨e1, e2, e3⟩ | ⟨k, hk, e1, e2, e3⟩
    · rw [e2, e3, e1]; exact ⟨hbx, hnew ε⟩
    · rw [e2, e3, e1]; exact hf k hk

/-- the insertion of one dimension -/
theorem addDimensions_one (pr : Pr K) (a : T1 K) (d intadd : ℕ) (project : Bool) :
    addDimensions pr a [d] intadd project =
      if project then ((⟨Function.update pr.heap pr.next Aff.zero, pr.next + 1, pr.nsym⟩ : Pr K),
        (⟨a.n + 1, a.intdim + intadd, insertAt d pr.next a.paf, insertAt d (Itv.point 0) a.box⟩ : T1 K))
      else (pr, ⟨a.n + 1, a.intdim + intadd, insertAt d topPtr a.paf, insertAt d Itv.top a.box⟩) := by
  unfold addDimensions
  cases project <;> rfl

/-- one insertion: invariants and points -/
def addOne (pr : Pr K) (a : T1 K) (d : ℕ) (project : Bool) : Pr K × T1 K :=
  if project then ((⟨Function.update pr.heap pr.next Aff.zero, pr.next + 1, pr.nsym⟩ : Pr K),
        ({ a with n := a.n + 1, paf := insertAt d pr.next a.paf, box := insertAt d (Itv.point 0) a.box } : T1 K))
  else (pr, { a with n := a.n + 1, paf := insertAt d topPtr a.paf, box := insertAt d Itv.top a.box })

theorem addOne_wf {pr : Pr K} {a : T1 K} (hpr : WfPr pr) (ha : WfA pr a) {d : ℕ} (hd : d ≤ a.n) {project : Bool} :
    WfPr (addOne pr a d project).1 ∧ WfA (addOne pr a d project).1 (addOne pr a d project).2 ∧
      (addOne pr a d project).2.n = a.n + 1 ∧ pr.next ≤ (addOne pr a d project).1.next := by
  have h2 := hpr.two
  cases project with
  | true =>
    refine ⟨wfPr_alloc hpr (A := Aff.zero) List.Pairwise.nil below_nil (le_refl _), ?_, rfl, Nat.le_succ _⟩
    intro i hi
    have hi : i < a.n + 1 := hi
    show insertAt d pr.next a.paf i < pr.next + 1 ∧ (insertAt d pr.next a.paf i = topPtr → insertAt d (Itv.point 0) a.box i = Itv.top)
    unfold insertAt
    split_ifs with h1 h3
    · have := ha i (by omega); exact ⟨by omega, this.2⟩
    · exact ⟨by omega, fun h => by simp only [topPtr] at h; omega⟩
    · have := ha (i - 1) (by omega); exact ⟨by omega, this.2⟩
  | false =>
    refine ⟨hpr, ?_, rfl, le_refl _⟩
    intro i hi
    have hi : i < a.n + 1 := hi
    show insertAt d topPtr a.paf i < pr.next ∧ (insertAt d topPtr a.paf i = topPtr → insertAt d Itv.top a.box i = Itv.top)
    unfold insertAt
    split_ifs with h1 h3
    · exact ha i (by omega)
    · exact ⟨by simp only [topPtr]; omega, fun _ => rfl⟩
    · exact ha (i - 1) (by omega)

theorem addOne_gam {pr : Pr K} {a : T1 K} (hpr : WfPr pr) (ha : WfA pr a) {d : ℕ} (hd : d ≤ a.n) {project : Bool} {x y : ℕ → K}
    (h : Gam pr a x) (h1 : ∀ i < d, y i = x i) (h2 : ∀ i, d ≤ i → y (i + 1) = x i) (hp : project = true → y d = 0) :
    Gam (addOne pr a d project).1 (addOne pr a d project).2 y := by
  have h2' := hpr.two
  cases project with
  | true =>
    have hg : Gam (⟨Function.update pr.heap pr.next Aff.zero, pr.next + 1, pr.nsym⟩ : Pr K) a x := by
      obtain ⟨hc, ε, hε, hf⟩ := h
      refine ⟨hc, ε, hε, fun i hi => ⟨(hf i hi).1, ?_⟩⟩
      show (Function.update pr.heap pr.next Aff.zero (a.paf i)).Val ε (x i)
      rw [Function.update_of_ne (by have := (ha i hi).1; omega)]
      exact (hf i hi).2
    refine gam_insert hd hg h1 h2 ((Itv.mem_point _ _).2 (hp rfl)) ?_ ?_
    · intro ε
      show (Function.update pr.heap pr.next Aff.zero pr.next).Val ε (y d)
      rw [Function.update_self, hp rfl]; exact Aff.Val.zero
    · intro i hi e
      have := (ha i hi).1; omega
  | false =>
    refine gam_insert hd h h1 h2 (Itv.mem_top _) ?_ (fun _ _ _ => rfl)
    intro ε
    show (pr.heap topPtr).Val ε (y d)
    rw [hpr.top]; exact (Aff.Has.top _).1

/-- insertion of `k` dimensions at the same place -/
theorem addDimensions_rep (d : ℕ) (project : Bool) (k : ℕ) : ∀ {pr : Pr K} {a : T1 K} (_ : WfPr pr) (_ : WfA pr a) (_ : d ≤ a.n) {x y : ℕ → K}
    (_ : Gam pr a x) (_ : ∀ i < d, y i = x i) (_ : ∀ i, d ≤ i → y (i + k) = x i)
    (_ : project = true → ∀ i, d ≤ i → i < d + k → y i = 0),
    let r := (List.replicate k d).foldl (fun (st : Pr K × T1 K) d => addOne st.1 st.2 d project) (pr, a)
    WfPr r.1 ∧ WfA r.1 r.2 ∧ Gam r.1 r.2 y := by
  induction k with
  | zero =>
    intro pr a hpr ha hd x y h h1 h2 _
    refine ⟨hpr, ha, ?_⟩
    have : y = x := by
      funext i
      by_cases hi : i < d
      · exact h1 i hi
      · exact h2 i (by omega)
    rw [this]; exact h
  | succ k ih =>
    intro pr a hpr ha hd x y h h1 h2 hp
    rw [List.replicate_succ, List.foldl_cons]
    obtain ⟨w1, w2, w3, w4⟩ := addOne_wf hpr ha hd (project := project)
    have hg := addOne_gam hpr ha hd (project := project) (y := fun i => if i < d then x i else if i = d then y (d + k) else x (i - 1)) h
      (fun i hi => by simp [hi]) (fun i hi => by rw [if_neg (by omega), if_neg (by omega), Nat.add_sub_cancel])
      (fun hpt => by simp only [lt_irrefl, if_false, if_true]; exact hp hpt _ (by omega) (by omega))
    refine ih w1 w2 (by omega) hg (fun i hi => by rw [h1 i hi]; simp [hi]) (fun i hi => ?_) (fun hpt i h3 h4 => hp hpt i h3 (by omega))
    rw [if_neg (by omega)]
    split_ifs with e
    · rw [e]
    · have := h2 (i - 1) (by omega)
      rwa [show i - 1 + (k + 1) = i + k by omega] at this

theorem addDimensions_eq (pr : Pr K) (a : T1 K) (dims : List ℕ) (intadd : ℕ) (project : Bool) :
    addDimensions pr a dims intadd project =
      let r := dims.foldl (fun (st : Pr K × T1 K) d => addOne st.1 st.2 d project) (pr, a)
      (r.1, { r.2 with intdim := a.intdim + intadd }) := by
  unfold addDimensions addOne
  rfl

end T1p
end Apron
