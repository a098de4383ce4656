import Verif.Props.Generic
import Verif.Props.Texpr
import Verif.Props.OctTransfer

/-!
# C57, C58: the generic functions on boxes and octagons
-/

set_option autoImplicit false
set_option linter.unusedSectionVars false
set_option linter.ambiguousOpen false

namespace Apron
namespace Props
open Generic Bound

/-! ## Trees -/

section Tree
variable {K : Type*} [LinearOrder K] [Field K] [IsStrictOrderedRing K] [FloorRing K]

theorem safe_addDimensions (e : Texpr K) (pos : List ℕ) (h : e.Safe) : (Texpr.addDimensions pos e).Safe := by
  induction e with
  | cst c => trivial
  | dim d => trivial
  | un op t r a ih => exact ⟨ih h.1, h.2⟩
  | bin op t r a b iha ihb =>
    refine ⟨iha h.1, ihb h.2.1, h.2.2.1, fun hp => ?_⟩
    obtain ⟨h1, k, rfl⟩ := h.2.2.2 hp
    exact ⟨h1, k, rfl⟩

theorem mkTcons_holds (S : FltSem K) (e : Texpr K) (pos : List ℕ) (hs : pos.Pairwise (· ≤ ·)) (d : ℕ) (x : ℕ → K) :
    (mkTcons pos d e).Holds S x ↔ e.Val S (fun v => x (v + pos.countP (fun p => decide (p ≤ v)))) (x d) := by
  rw [← C77_add_dimensions S e pos hs x (x d)]
  constructor
  · rintro ⟨v, ⟨va, vb, w, h1, h2, h3, h4⟩, h5⟩
    have e2 : vb = x d := h2
    have e3 : w = va - vb := h3
    have e4 : v = w := h4
    have e5 : v = 0 := h5
    have : x d = va := by rw [← e2]; linarith
    rw [this]; exact h1
  · intro h
    exact ⟨0, ⟨x d, x d, 0, h, rfl, (sub_self _).symm, rfl⟩, rfl⟩

theorem mkTcons_spec (S : FltSem K) : MkSpec (fun n (e : Texpr K) => e.InDim n ∧ e.Safe) (Texpr.Val S)
    (fun n (c : Tcons K) => c.expr.InDim n ∧ c.expr.Safe) (Tcons.Holds S) mkTcons := by
  intro n e pos d he hs hle hmax hd hdN
  refine ⟨⟨⟨C77_add_dimensions_dims e pos n he.1, hdN⟩, safe_addDimensions e pos he.2, trivial, ?_, ?_⟩,
    fun x => mkTcons_holds S e pos hs d x⟩
  · intro _; trivial
  · intro h; cases h

end Tree

/-! ## Boxes -/

section Boxes
variable {K : Type*} [LinearOrder K] [Field K] [IsStrictOrderedRing K]

theorem wf_of_gam {a : Box K} {x : ℕ → K} (h : a.Gam x) : a.Wf := by
  intro p hp i hi
  exact ⟨x i, (Box.gam_some hp).1 h i hi⟩

/-- boxes that may have empty components -/
theorem boxDimSpec (destructive : Bool) : DimSpec (boxMan (K := K) destructive) (fun _ => True) False where
  congr a _ x y h hx := (boxSpec destructive).congr a (wf_of_gam hx) x y h hx
  add a pos n project _ hne hn h := by
    obtain ⟨h1, h2, _, _⟩ := h
    exact ⟨trivial, C21_add_dims a destructive pos n project, C21_add_exact a destructive pos h1 h2 n hn project⟩
  remove a pos n _ hne hn h := by
    obtain ⟨c1, c2⟩ := legalRemove_counts hn h
    obtain ⟨h1, h2, _, _⟩ := h
    exact ⟨trivial, C21_remove_dims a destructive pos n, fun x x' hx hk =>
      (C21_remove_exact a (wf_of_gam hx) destructive pos h1 h2 n hn c1 c2 x').2 ⟨x, hx, hk⟩, fun h => h.elim⟩
  permute a perm _ hp :=
    ⟨trivial, C21_permute_dims a _, C21_permute_exact a _ (fun i j hi hj => hp.inj hi hj) (fun i hi => hp.getD_lt hi)⟩
  meet a b _ _ hd := by
    have hd' : a.dim = b.dim := by
      have h1 := hd.1; have h2 := hd.2
      simp only [boxMan] at h1 h2
      simp [Box.dim, h1, h2]
    refine ⟨trivial, box_meet_dims a b, fun x => ?_⟩
    change (a.meet b).Gam x ↔ a.Gam x ∧ b.Gam x
    constructor
    · intro hx
      unfold Box.meet at hx
      cases h : a.p with
      | none => rw [h] at hx; exact (Box.gam_none rfl hx).elim
      | some p =>
        cases h' : b.p with
        | none => rw [h, h'] at hx; exact (Box.gam_none rfl hx).elim
        | some q =>
          rw [h, h'] at hx
          simp only at hx
          split_ifs at hx
          · exact (Box.gam_none rfl hx).elim
          · rw [Box.gam_mk] at hx
            rw [Box.gam_some h, Box.gam_some h', ← hd']
            exact ⟨fun i hi => (Itv.mem_meet.1 (hx i hi)).1, fun i hi => (Itv.mem_meet.1 (hx i hi)).2⟩
    · rintro ⟨h1, h2⟩
      exact (C11_meet a b (wf_of_gam h1) (wf_of_gam h2) hd' x).2 ⟨h1, h2⟩

theorem box_isBottom_empty (a : Box K) (h : a.isBottom = true) (x : ℕ → K) : ¬ a.Gam x := by
  unfold Box.isBottom at h
  cases hp : a.p with
  | none => exact Box.gam_none hp
  | some p => rw [hp] at h; cases h

theorem box_meetLincons_dims [FloorRing K] (R : Rnd K) (red : ILincons K → ℕ → ILincons K) (a : Box K) (l : List (Lincons K)) (algo : ℕ) :
    (a.meetLinconsArray R red l algo).intdim = a.intdim ∧ (a.meetLinconsArray R red l algo).realdim = a.realdim := by
  unfold Box.meetLinconsArray Box.setBottom
  split
  · exact ⟨rfl, rfl⟩
  · simp only []
    split_ifs <;> exact ⟨rfl, rfl⟩

theorem boxMeetLincons (destr : Bool) (algo : ℕ) (P : Lincons ℚ → Prop) :
    MeetSpec (boxMan (K := ℚ) destr) (fun _ => True) (fun n c => GoodLin n c.expr ∧ P c) Lincons.Holds (fun v => ∃ n : ℤ, v = n) False
    (fun b l => b.meetLinconsArray Rnd.exact ILincons.reduceIntegerRat l algo) where
  ok a l _ _ := ⟨trivial, box_meetLincons_dims _ _ a l algo⟩
  sound a l x _ hl hx hi hc := C16_meet_lincons_sound a l (fun c hc => (hl c hc).1.inDim) algo x hx hi hc
  exact h := h.elim

/-- `box_substitute_linexpr_array` (box/box_assign.c:54-66) on rational boxes: it contains every integral
point of the destination from which a point of the argument is reached -/
theorem C57_box_substitute_linexpr (destr : Bool) (algo : ℕ) (a : Box ℚ) (l : List (ℕ × Linexpr ℚ)) (hne : l ≠ [])
    (hn : (l.map Prod.fst).Nodup) (hl : ∀ p ∈ l, p.1 < a.dim ∧ GoodLin a.dim p.2) (hmax : a.dim + l.length ≤ dimMax)
    (dest : Option (Box ℚ)) (hd : ∀ b, dest = some b → b.intdim = a.intdim ∧ b.realdim = a.realdim)
    (x y : ℕ → ℚ) (hy : a.Gam y) (hv : ∀ p ∈ l, p.2.Val x (y p.1)) (hk : ∀ v, v < a.dim → v ∉ l.map Prod.fst → y v = x v)
    (hb : ∀ b, dest = some b → b.Gam x) (hi : ∀ d, d < a.intdim → (∃ n : ℤ, x d = n) ∧ ∃ n : ℤ, y d = n) :
    (asssub (boxMan destr) Box.isBottom mkLincons
      (fun b l => b.meetLinconsArray Rnd.exact ILincons.reduceIntegerRat l algo) false a l dest).Gam x :=
  (C57_substitute_array (boxDimSpec destr) (Val := Linexpr.Val) (fun n e h => linexprSpec.congr n e h) mkLincons_spec
    (boxMeetLincons destr algo _) Box.isBottom (fun a _ => box_isBottom_empty a) a trivial l hne hn hl hmax dest
    (fun b h => ⟨trivial, hd b h⟩)).2.2.1 x y hy hv hk hb hi

variable [FloorRing K]

theorem box_meetTcons_dims (R : Rnd K) (o : RootOps K) (F : FltOps K) (a : Box K) (l : List (Tcons K)) (algo : ℕ) :
    (a.meetTconsHC4 R o F l algo).intdim = a.intdim ∧ (a.meetTconsHC4 R o F l algo).realdim = a.realdim := by
  unfold Box.meetTconsHC4 Box.setBottom
  split
  · exact ⟨rfl, rfl⟩
  · simp only []
    split_ifs <;> exact ⟨rfl, rfl⟩

/-- `box_substitute_texpr_array` (box/box_assign.c:121-148) with the HC4 algorithm, on the trees for which
backward propagation is correct (`C19_meet_tcons_sound_partial`) -/
theorem C57_box_substitute_texpr_partial (R : Rnd K) (o : RootOps K) (hq : o.SqrtOK) (ho : o.NonnegOK)
    (F : FltOps K) (S : FltSem K) (hF : FltOK F S) (hU : UnroundOK F S) (destr : Bool) (algo : ℕ)
    (a : Box K) (l : List (ℕ × Texpr K)) (hne : l ≠ [])
    (hn : (l.map Prod.fst).Nodup) (hl : ∀ p ∈ l, p.1 < a.dim ∧ p.2.InDim a.dim ∧ p.2.Safe)
    (hmax : a.dim + l.length ≤ dimMax)
    (dest : Option (Box K)) (hd : ∀ b, dest = some b → b.intdim = a.intdim ∧ b.realdim = a.realdim)
    (x y : ℕ → K) (hy : a.Gam y) (hv : ∀ p ∈ l, p.2.Val S x (y p.1)) (hk : ∀ v, v < a.dim → v ∉ l.map Prod.fst → y v = x v)
    (hb : ∀ b, dest = some b → b.Gam x) (hi : ∀ d, d < a.intdim → (∃ n : ℤ, x d = n) ∧ ∃ n : ℤ, y d = n) :
    (asssub (boxMan destr) Box.isBottom mkTcons (fun b l => b.meetTconsHC4 R o F l algo) false a l dest).Gam x :=
  (C57_substitute_array (boxDimSpec destr) (Val := Texpr.Val S) (fun n e h => (texprSpec S).congr n e h.1)
    (mkTcons_spec S) (I := fun v => ∃ n : ℤ, v = n) (exc := False)
    { ok := fun a l _ _ => ⟨trivial, box_meetTcons_dims R o F a l algo⟩
      sound := fun a l x _ hl hx hi hc => C19_meet_tcons_sound_partial R o hq ho F S hF hU a l algo
        (fun c hc => (hl c hc).1) (fun c hc => (hl c hc).2) x hx hi hc
      exact := fun h => h.elim } Box.isBottom (fun a _ => box_isBottom_empty a) a trivial l hne hn hl hmax dest
    (fun b h => ⟨trivial, hd b h⟩)).2.2.1 x y hy hv hk hb hi

end Boxes

/-! ## Widening with thresholds -/

section Threshold
variable {K A C : Type*} [Inhabited C] {M : Man K A} {Ok : A → Prop}
  {Good : ℕ → C → Prop} {Holds : C → (ℕ → K) → Prop} {I : K → Prop} {ex : Prop} {f : A → List C → A}
  {check : ℕ → ℕ → C → Bool} {wid : A → A → A} {sat : A → C → Bool}

/-- `ap_abstract0_widening_threshold`: the plain widening of the arguments, cut by the constraints of the array that
`b` satisfies.  It contains the points of `b`, hence of `a` when `a` is included in `b`; it is included in the
plain widening; all of its points satisfy the constraints of the array satisfied by `b` when the meet is exact.
The array of the caller is permuted. -/
theorem C58_widening_threshold (F : MeetSpec M Ok Good Holds I ex f)
    (hle : ∀ a l x, Ok a → (∀ c ∈ l, Good (M.dim a) c) → M.Gam (f a l) x → M.Gam a x)
    (a b : A) (hd : M.Dims b (M.intdim a) (M.realdim a))
    (l : List C) (hl : ∀ c ∈ l, Good (M.dim a) c) (hcheck : ∀ c ∈ l, check (M.intdim a) (M.realdim a) c = true)
    (hw : Ok (wid a b)) (hwd : M.Dims (wid a b) (M.intdim a) (M.realdim a))
    (hwb : ∀ x, M.Gam b x → M.Gam (wid a b) x)
    (hsat : ∀ c ∈ l, sat b c = true → ∀ x, M.Gam b x → Holds c x) :
    ∃ r l', wideningThreshold M check wid sat f a b l = (r, l', false) ∧ l'.Perm l ∧ Ok r ∧
      M.Dims r (M.intdim a) (M.realdim a) ∧
      (∀ x, M.Gam b x → (∀ d, d < M.intdim a → I (x d)) → M.Gam r x) ∧
      (∀ x, M.Gam r x → M.Gam (wid a b) x) ∧
      (ex → ∀ x, M.Gam r x → ∀ c ∈ l, sat b c = true → Holds c x) := by
  obtain ⟨h1, h2, h3, h4⟩ := partitionLoop_spec (sat b) l.length l 0 l.length (Nat.zero_le _) (le_refl _)
    (by omega) (by intro m hm; omega) (by intro m h1 h2; omega)
  have hmem : ∀ c, c ∈ (partitionLoop (sat b) l.length l 0 l.length).1.take
      (partitionLoop (sat b) l.length l 0 l.length).2 ↔ c ∈ l ∧ sat b c = true := by
    intro c
    generalize partitionLoop (sat b) l.length l 0 l.length = p at *
    have hlen := h1.length_eq
    constructor
    · intro hc
      refine ⟨h1.mem_iff.1 (List.mem_of_mem_take hc), ?_⟩
      obtain ⟨m, hm, e⟩ := List.getElem_of_mem hc
      rw [List.length_take] at hm
      have := h3 m (by omega)
      rw [List.getD, List.getElem?_eq_getElem (by omega), Option.getD_some] at this
      rw [List.getElem_take] at e
      rwa [e] at this
    · rintro ⟨hc, hs⟩
      obtain ⟨m, hm, e⟩ := List.getElem_of_mem (h1.mem_iff.2 hc)
      by_cases hmi : m < p.2
      · rw [← e]
        have : m < (p.1.take p.2).length := by rw [List.length_take]; omega
        have e2 : (p.1.take p.2)[m] = p.1[m] := List.getElem_take
        rw [← e2]; exact List.getElem_mem this
      · have := h4 m (by omega) (by omega)
        rw [List.getD, List.getElem?_eq_getElem hm, Option.getD_some, e, hs] at this
        cases this
  have hdimw : M.dim (wid a b) = M.dim a := by rw [Man.dim, hwd.1, hwd.2]; rfl
  have hc1 : Abs0.checkAbstract2 M a b = true := by simp [Abs0.checkAbstract2, hd.1, hd.2]
  have hc2 : l.all (check (M.intdim a) (M.realdim a)) = true := List.all_eq_true.2 hcheck
  have hrun : wideningThreshold M check wid sat f a b l =
      (if 0 < (partitionLoop (sat b) l.length l 0 l.length).2 then f (wid a b)
        ((partitionLoop (sat b) l.length l 0 l.length).1.take (partitionLoop (sat b) l.length l 0 l.length).2)
        else wid a b, (partitionLoop (sat b) l.length l 0 l.length).1, false) := by
    unfold wideningThreshold
    rw [hc1, hc2]; rfl
  generalize partitionLoop (sat b) l.length l 0 l.length = p at *
  refine ⟨_, _, hrun, h1, ?_⟩
  have hgood : ∀ c ∈ p.1.take p.2, Good (M.dim (wid a b)) c := fun c hc => by
    rw [hdimw]; exact hl c ((hmem c).1 hc).1
  by_cases hp : 0 < p.2
  · rw [if_pos hp]
    obtain ⟨o, d⟩ := F.ok (wid a b) _ hw hgood
    rw [hwd.1, hwd.2] at d
    refine ⟨o, d, fun x hx hi => ?_, fun x hx => hle _ _ x hw hgood hx, fun he x hx c hc hs => ?_⟩
    · refine F.sound _ _ x hw hgood (hwb x hx) (by rw [hwd.1]; exact hi) fun c hc => ?_
      obtain ⟨c1, c2⟩ := (hmem c).1 hc
      exact hsat c c1 c2 x hx
    · exact (F.exact he _ _ x hw hgood hx).2 c ((hmem c).2 ⟨hc, hs⟩)
  · rw [if_neg hp]
    refine ⟨hw, hwd, fun x hx _ => hwb x hx, fun x hx => hx, fun he x hx c hc hs => ?_⟩
    have := (hmem c).2 ⟨hc, hs⟩
    rw [show p.2 = 0 by omega, List.take_zero] at this
    cases this

/-- wrong dimensions: an exception, and the array is untouched -/
theorem C58_widening_threshold_wrong (a b : A) (l : List C)
    (h : ¬ M.Dims b (M.intdim a) (M.realdim a) ∨ ∃ c ∈ l, check (M.intdim a) (M.realdim a) c = false) :
    wideningThreshold M check wid sat f a b l = (M.top (M.intdim a) (M.realdim a), l, true) := by
  unfold wideningThreshold
  rw [if_neg]
  intro hc
  rw [Bool.and_eq_true, List.all_eq_true] at hc
  rcases h with h | ⟨c, hc', h⟩
  · refine h ?_
    have := hc.1
    simp only [Abs0.checkAbstract2, Bool.and_eq_true, decide_eq_true_eq] at this
    exact ⟨this.1.symm, this.2.symm⟩
  · rw [hc.2 c hc'] at h; cases h

end Threshold

instance {K : Type*} [Zero K] : Inhabited (Lincons K) := ⟨⟨.eq, ⟨.scalar (fin 0), .dense []⟩⟩⟩

/-- `ap_abstract0_widening_threshold` on rational boxes -/
theorem C58_box_widening_threshold (destr : Bool) (algo : ℕ) (a b : Box ℚ)
    (hd : b.intdim = a.intdim ∧ b.realdim = a.realdim) (l : List (Lincons ℚ))
    (hl : ∀ c ∈ l, GoodLin a.dim c.expr ∧ ∀ x, ∃ v, c.expr.Val x v) :
    ∃ r l', wideningThreshold (boxMan destr) (fun i r c => Dim.checkLinexpr i r c.expr) Box.widening
        (fun b c => decide (b.satLincons Rnd.exact c = some true))
        (fun b l => b.meetLinconsArray Rnd.exact ILincons.reduceIntegerRat l algo) a b l = (r, l', false) ∧ l'.Perm l ∧
      (∀ x, b.Gam x → (∀ d, d < a.intdim → ∃ n : ℤ, x d = n) → r.Gam x) ∧ ∀ x, r.Gam x → (a.widening b).Gam x := by
  have hdim : a.dim = b.dim := by simp [Box.dim, hd.1, hd.2]
  obtain ⟨r, l', h1, h2, _, _, h3, h4, _⟩ := C58_widening_threshold (check := fun i r c => Dim.checkLinexpr i r c.expr)
    (wid := Box.widening) (sat := fun b c => decide (b.satLincons Rnd.exact c = some true))
    (boxMeetLincons destr algo fun c => ∀ x, ∃ v, c.expr.Val x v)
    (fun a l x _ _ hx => C16_meet_lincons_le _ _ a l algo x hx) a b hd l hl
    (fun c hc => by
      have := checkLinexpr_of_good (i := a.intdim) (r := a.realdim) (e := c.expr) (hl c hc).1
      exact this) trivial
    (by unfold Box.widening; split <;> first | exact ⟨rfl, rfl⟩ | exact hd)
    (fun x hx => C09_box_widening_covers a b hdim x (fun _ => by
      obtain ⟨p, hp, _⟩ := hx; simp [Box.isBottom, hp]) (Or.inr hx))
    (fun c hc hs x hx => by
      obtain ⟨v, hv⟩ := (hl c hc).2 x
      exact ⟨v, hv, C17_sat_lincons_sound _ b c (hdim ▸ (hl c hc).1.inDim) (of_decide_eq_true hs) x hx v hv⟩)
  exact ⟨r, l', h1, h2, h3, h4⟩

/-- `ap_abstract0_widening_threshold` on octagons, for every rounding of bounds -/
theorem C58_oct_widening_threshold {K : Type*} [LinearOrder K] [Field K] [IsStrictOrderedRing K] [FloorRing K]
    (R : Rnd K) (algo : ℤ) (u : Oct.Mem K) (a b : OctT K) (ha : OctT.WfR a) (hai : a.intdim ≤ a.dim)
    (hd : b.dim = a.dim ∧ b.intdim = a.intdim) (l : List (Lincons K))
    (hl : ∀ c ∈ l, GoodLin a.dim c.expr ∧ (∀ x, ∃ v, c.expr.Val x v) ∧ c.typ ≠ .sup) :
    ∃ r l', wideningThreshold (octMan R algo u) (fun i r c => Dim.checkLinexpr i r c.expr) (OctT.widening R algo)
        (OctT.satLincons R algo) (OctT.meetLinconsArray R algo) a b l = (r, l', false) ∧ l'.Perm l ∧
      (∀ x, b.Gam x → (∀ d, d < a.intdim → ∃ n : ℤ, x d = n) → r.Gam x) ∧
      ∀ x, r.Gam x → (OctT.widening R algo a b).Gam x := by
  have hdima : (octMan R algo u).dim a = a.dim := by simp only [Man.dim, octMan]; omega
  have hc2 : (OctT.cacheIf R algo b).dim = b.dim ∧ (OctT.cacheIf R algo b).intdim = b.intdim := by
    unfold OctT.cacheIf OctT.cacheClosure
    split_ifs
    · (repeat' split) <;> exact ⟨rfl, rfl⟩
    · exact ⟨rfl, rfl⟩
  have hdw : (OctT.widening R algo a b).dim = a.dim ∧ (OctT.widening R algo a b).intdim = a.intdim := by
    simp only [OctT.widening]
    split
    · exact ⟨hc2.1.trans hd.1, hc2.2.trans hd.2⟩
    · exact ⟨rfl, rfl⟩
    · exact ⟨rfl, rfl⟩
  have hok : (OctT.widening R algo a b).intdim ≤ (OctT.widening R algo a b).dim := by omega
  obtain ⟨r, l', h1, h2, _, _, h3, h4, _⟩ := C58_widening_threshold (M := octMan R algo u)
    (Ok := fun a => a.intdim ≤ a.dim) (I := fun v => ∃ n : ℤ, v = n) (ex := False) (Holds := Lincons.Holds)
    (f := OctT.meetLinconsArray R algo)
    (Good := fun n c => GoodLin n c.expr ∧ (∀ x, ∃ v, c.expr.Val x v) ∧ c.typ ≠ .sup)
    (check := fun i r c => Dim.checkLinexpr i r c.expr)
    (wid := OctT.widening R algo) (sat := OctT.satLincons R algo)
    { ok := fun a l ha _ => by
        have ha' : a.intdim ≤ a.dim := ha
        obtain ⟨d1, d2⟩ := C40_meet_lincons_dims R algo a l
        refine ⟨?_, d2, ?_⟩
        · show (OctT.meetLinconsArray R algo a l).intdim ≤ (OctT.meetLinconsArray R algo a l).dim
          omega
        · show (OctT.meetLinconsArray R algo a l).dim - (OctT.meetLinconsArray R algo a l).intdim = a.dim - a.intdim
          rw [d1, d2]
      sound := fun a l x ha hl hx hi hc => by
        have ha' : a.intdim ≤ a.dim := ha
        have e : (octMan R algo u).dim a = a.dim := by simp only [Man.dim, octMan]; omega
        rw [e] at hl
        exact C40_meet_lincons_sound R algo a l x (fun c hc => (hl c hc).1.inDim)
          (fun c hc ht => absurd ht (hl c hc).2.2) hi hx hc
      exact := fun h => h.elim }
    (fun a l x _ _ hx => C40_meet_lincons_le R algo a l x hx) a b
    ⟨hd.2, by simp only [octMan]; omega⟩ l (by rw [hdima]; exact hl)
    (fun c hc => checkLinexpr_of_good (by rw [show (octMan R algo u).intdim a + (octMan R algo u).realdim a = a.dim from hdima]; exact (hl c hc).1))
    hok ⟨hdw.2, by simp only [octMan]; omega⟩
    (fun x hx => C33_widening_sound R algo a b ha hd.1.symm x (Or.inr hx))
    (fun c hc hs x hx => by
      obtain ⟨v, hv⟩ := (hl c hc).2.1 x
      exact ⟨v, hv, C43_sat_sound R algo b c (hd.1 ▸ (hl c hc).1.inDim) hs x hx v hv⟩)
  exact ⟨r, l', h1, h2, h3, h4⟩

/-! ## Examples and defects -/

/-- `x0 := x0 + x1` backwards, on `x0 ∈ [1,3], x1 ∈ [1,2]` -/
def exSub : Box ℚ := ⟨some fun d => if d = 0 then ⟨fin (-1), fin 3⟩ else ⟨fin (-1), fin 2⟩, 0, 2⟩
def exAddLin : Linexpr ℚ := ⟨.scalar (fin 0), .sparse [(0, .scalar (fin 1)), (1, .scalar (fin 1))]⟩
def subBox (a : Box ℚ) (l : List (ℕ × Linexpr ℚ)) (dest : Option (Box ℚ)) : Box ℚ :=
  asssub (boxMan false) Box.isBottom mkLincons
    (fun b l => b.meetLinconsArray Rnd.exact ILincons.reduceIntegerRat l 0) false a l dest

example : (subBox exSub [(0, exAddLin)] none).p.map (fun p => (p 0, p 1)) =
    some (⟨fin 1, fin 2⟩, ⟨fin (-1), fin 2⟩) := by decide +kernel
example : GoodLin 2 exAddLin := by
  refine ⟨?_, ?_, ?_⟩
  · simp [Linexpr.Wf, Linexpr.SparseWf, exAddLin, dimMax]
  · decide +kernel
  · intro l h; cases h

/-- a dense expression that is shorter than the space (accepted by `ap_abstract0_check_linexpr`) -/
def exShort : Linexpr ℚ := ⟨.scalar (fin 5), .dense []⟩

/-- The coefficient of the primed dimension cannot be written in a short dense expression, and the failure is
ignored: the constraint of `x0 := 5` becomes `5 = 0`, and the result is empty although every point of the
space reaches a point of the argument. -/
theorem C57_short_dense_unsound : ∃ (a : Box ℚ) (x y : ℕ → ℚ), a.Wf ∧ exShort.Wf ∧
    Dim.checkLinexpr a.intdim a.realdim exShort = true ∧ a.Gam y ∧
    exShort.Val x (y 0) ∧ y 1 = x 1 ∧ a.dim = 2 ∧ ¬ (subBox a [(0, exShort)] none).Gam x := by
  refine ⟨⟨some fun _ => ⟨fin (-5), fin 6⟩, 0, 2⟩, fun d => if d = 0 then 0 else 5, fun _ => 5, ?_, ?_, ?_, ?_, ?_, rfl, rfl, ?_⟩
  · exact Box.wf_mk.2 fun i _ => ⟨5, by norm_num [Itv.mem_def, fin_le_fin]⟩
  · simp [Linexpr.Wf, exShort, dimMax]
  · decide +kernel
  · exact Box.gam_mk.2 fun i _ => by norm_num [Itv.mem_def, fin_le_fin]
  · exact ⟨5, 0, rfl, rfl, by norm_num⟩
  · have : (subBox ⟨some fun _ => ⟨fin (-5), fin 6⟩, 0, 2⟩ [(0, exShort)] none).p.isNone = true := by decide +kernel
    intro h
    obtain ⟨p, hp, _⟩ := h
    rw [hp] at this; cases this

/-- When a dimension appears twice among the targets (not checked by `ap_abstract0_check_dim_array`) the array
given to the permutation function is not a permutation. -/
theorem C57_duplicate_targets_not_permutation : ¬ Dim.IsPerm 4 (perm 0 2 [0, 0]) := by
  intro h
  have : perm 0 2 [0, 0] = [3, 1, 0, 0] := by decide +kernel
  rw [this] at h
  exact absurd h.2.2 (by decide)

end Props
end Apron
