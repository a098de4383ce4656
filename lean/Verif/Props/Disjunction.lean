import Verif.Core.DisjunctionLemmas

/-!
# C120: the lattice of finite disjunctions
-/

set_option autoImplicit false
set_option linter.unusedSectionVars false
set_option linter.ambiguousOpen false

namespace Apron
namespace Disj

variable {K A : Type*} [Zero K]

/-- the hypotheses on the underlying domain: its functions meet the contract, its tests are sound -/
structure Sound (I : DInt K A) (C : A → Prop) (ex : Prop) : Prop where
  spec : I.man.Spec C ex
  bottom : ∀ i r, C (I.bottom i r) ∧ I.man.Dims (I.bottom i r) i r ∧ ∀ x, ¬ I.man.Gam (I.bottom i r) x
  isBottom : ∀ a, C a → I.isBottom a = true → ∀ x, ¬ I.man.Gam a x
  isTop : ∀ a, C a → I.isTop a = true → ∀ x, I.man.Gam a x
  isEq : ∀ a b, C a → C b → I.man.Dims b (I.man.intdim a) (I.man.realdim a) → I.isEq a b = true → ∀ x, I.man.Gam a x ↔ I.man.Gam b x

end Disj

namespace Props
open Disj

/-! ## The array -/

/-- `ap_disjunction_resize` keeps exactly the entries that are not `NULL`, in their order, and no other. -/
theorem C120_resize {A : Type*} (p : List (Option A)) : resize p = p.filter Option.isSome := resize_eq p

/-- an array with holes at both ends and in the middle -/
example : resize [none, some 1, none, none, some 2, some 3, none] = [some 1, some 2, some 3] := by decide +kernel

variable {K A : Type*} [Zero K] {I : DInt K A} {C : A → Prop} {ex : Prop}

/-- `ap_disjunction_null_bottom_top` and `ap_disjunction_resize`: the points do not change, some disjunct is left, an empty disjunct is
left only if there is no other, and at most one full disjunct is left. -/
theorem C120_clean (S : Sound I C ex) {i r : ℕ} {l : List A} (hl : Ok I C i r l) :
    Ok I C i r (clean I l) ∧ (∀ x, Gam I (clean I l) x ↔ Gam I l x) ∧
    (∀ a ∈ clean I l, I.isBottom a = true → clean I l = [a]) ∧
    (clean I l).countP (fun a => !I.isBottom a && I.isTop a) ≤ 1 := by
  obtain ⟨h1, h2, h3, h4, h5, h6, h7⟩ := nullBottomTop_spec I (l.map some)
  have hmem : ∀ a, some a ∈ l.map some ↔ a ∈ l := fun a => by simp
  have hcnt : ∀ (f : A → Bool) (p : List (Option A)), (values p).countP f = p.countP (fun o => o.any f) := by
    intro f p
    rw [values_eq]
    induction p with
    | nil => rfl
    | cons o p ih =>
      cases o with
      | none => rw [List.countP_cons_of_neg (by simp)]; exact ih
      | some a =>
        change (a :: p.filterMap id).countP f = _
        rw [List.countP_cons, List.countP_cons, ih]
        rfl
  have hok : ∀ a ∈ clean I l, a ∈ l := fun a ha => (hmem a).1 (h1 a (mem_values.1 ha))
  obtain ⟨a0, ha0⟩ := List.exists_mem_of_ne_nil l hl.1
  refine ⟨⟨fun he => ?_, fun a ha => hl.2 a (hok a ha)⟩, fun x => ?_, fun a ha hab => ?_, ?_⟩
  · have hno : ∀ c, some c ∉ (nullBottomTop I (l.map some)).p := fun c hc => by
      have : c ∈ clean I l := mem_values.2 hc
      rw [he] at this; cases this
    by_cases hn : (nullBottomTop I (l.map some)).notbottom = true
    · obtain ⟨a, ha, hab⟩ := h3.1 hn
      rcases h2 a ha with h | h | ⟨_, c, hc, _⟩
      · exact hno a h
      · rw [hab] at h; cases h
      · exact hno c hc
    · obtain ⟨c, hc⟩ := h5 (by simpa using hn) a0 ((hmem a0).2 ha0)
      exact hno c hc
  · rw [clean, gam_values]
    constructor
    · rintro ⟨a, ha, hx⟩
      exact ⟨a, (hmem a).1 (h1 a ha), hx⟩
    · rintro ⟨a, ha, hx⟩
      rcases h2 a ((hmem a).2 ha) with h | h | ⟨_, c, hc, _, ht⟩
      · exact ⟨a, h, hx⟩
      · exact absurd hx (S.isBottom a (hl.2 a ha).1 h x)
      · exact ⟨c, hc, S.isTop c (hl.2 c ((hmem c).1 (h1 c hc))).1 ht x⟩
  · have hn : (nullBottomTop I (l.map some)).notbottom = false := by
      by_contra hn
      have := h4 (by simpa using hn) a (mem_values.1 ha)
      rw [hab] at this; cases this
    have hall : ∀ b ∈ clean I l, I.isBottom b = true := fun b hb => by
      by_contra hc
      have := h3.2 ⟨b, (hmem b).2 (hok b hb), by simpa using hc⟩
      rw [hn] at this; cases this
    have hlen : (clean I l).length ≤ 1 := by
      have : (clean I l).countP I.isBottom = (clean I l).length := List.countP_eq_length.2 hall
      rw [← this]
      exact (hcnt _ _).trans_le h6
    match hcl : clean I l with
    | [] => rw [hcl] at ha; cases ha
    | [b] => rw [hcl] at ha; rw [List.mem_singleton.1 ha]
    | b :: c :: t => rw [hcl] at hlen; simp at hlen
  · exact (hcnt _ _).trans_le h7

/-- `ap_disjunction_elim_redundant`: the points do not change, some disjunct is left, and the test of equality of the domain
distinguishes the disjuncts that are left, but for those that are full. -/
theorem C120_elim_redundant (S : Sound I C ex) {i r : ℕ} {l : List A} (hl : Ok I C i r l) :
    Ok I C i r (elimRedundant I l) ∧ (∀ x, Gam I (elimRedundant I l) x ↔ Gam I l x) ∧
    (∀ a ∈ elimRedundant I l, I.isBottom a = true → elimRedundant I l = [a]) ∧
    (elimRedundant I l).Pairwise (fun a b => I.isEq a b = false ∨ I.isTop a = true ∨ I.isTop b = true) := by
  obtain ⟨k1, k2, k3, k4⟩ := C120_clean S hl
  obtain ⟨h1, h2, h3, h4, h5, h6, h7⟩ := nullBottomTop_spec I (l.map some)
  by_cases hn : (nullBottomTop I (l.map some)).notbottom = true
  · have e : elimRedundant I l = values (elimLoop I (nullBottomTop I (l.map some)).top (nullBottomTop I (l.map some)).p.length 0
        (nullBottomTop I (l.map some)).p) := by
      unfold elimRedundant
      dsimp only
      rw [if_pos hn]
    have ht := nullBottomTop_top I (l.map some)
    rw [e]
    have hc : clean I l = values (nullBottomTop I (l.map some)).p := rfl
    set q := nullBottomTop I (l.map some) with hq
    obtain ⟨m1, m2⟩ := elimLoop_mem I q.top q.p.length 0 q.p
    set w := elimLoop I q.top q.p.length 0 q.p with hw
    have sub : ∀ a ∈ values w, a ∈ clean I l := fun a ha => by rw [hc]; exact mem_values.2 (m1 a (mem_values.1 ha))
    refine ⟨⟨fun he => ?_, fun a ha => k1.2 a (sub a ha)⟩, fun x => ?_, fun a ha hab => ?_, ?_⟩
    · obtain ⟨a, ha⟩ := List.exists_mem_of_ne_nil _ k1.1
      rw [hc] at ha
      rcases m2 a (mem_values.1 ha) with h | ⟨b, hb, _⟩
      · have := mem_values.2 h; rw [he] at this; cases this
      · have := mem_values.2 hb; rw [he] at this; cases this
    · rw [← k2 x]
      constructor
      · rintro ⟨a, ha, hx⟩
        exact ⟨a, sub a ha, hx⟩
      · rintro ⟨b, hb, hx⟩
        have hb' := hb
        rw [hc] at hb'
        rcases m2 b (mem_values.1 hb') with h | ⟨a, ha, he⟩
        · exact ⟨b, mem_values.2 h, hx⟩
        · have ha' := mem_values.2 ha
          obtain ⟨ca, da⟩ := k1.2 a (sub a ha')
          obtain ⟨cb, db⟩ := k1.2 b hb
          exact ⟨a, ha', (S.isEq a b ca cb ⟨db.1.trans da.1.symm, db.2.trans da.2.symm⟩ he x).2 hx⟩
    · have := h4 hn a (m1 a (mem_values.1 ha))
      rw [hab] at this; cases this
    · rw [values_eq, List.pairwise_filterMap, List.pairwise_iff_getElem]
      intro k m hk hm hkm a ha b hb
      have ea : w[k]? = some (some a) := by rw [List.getElem?_eq_getElem hk]; exact congrArg some ha
      have eb : w[m]? = some (some b) := by rw [List.getElem?_eq_getElem hm]; exact congrArg some hb
      rcases elimLoop_distinct I q.top q.p.length 0 q.p le_rfl k m a b hkm ea eb with h | h | h
      · exact Or.inl h
      · refine Or.inr (Or.inl (ht k (by rw [← h, Nat.zero_add]) a (elimLoop_get I q.top q.p.length 0 q.p k a ea)))
      · refine Or.inr (Or.inr (ht m (by rw [← h, Nat.zero_add]) b (elimLoop_get I q.top q.p.length 0 q.p m b eb)))
  · have e : elimRedundant I l = clean I l := by
      unfold elimRedundant clean
      dsimp only
      rw [if_neg hn]
    rw [e]
    refine ⟨k1, k2, k3, ?_⟩
    have hall : ∀ b ∈ clean I l, I.isBottom b = true := fun b hb => by
      by_contra hc
      exact hn (h3.2 ⟨b, h1 b (mem_values.1 hb), by simpa using hc⟩)
    obtain ⟨a, ha⟩ := List.exists_mem_of_ne_nil _ k1.1
    rw [k3 a ha (hall a ha)]
    exact List.pairwise_singleton _ _

/-! ## Constructors and tests -/

/-- `ap_disjunction_bottom` has no point and `ap_disjunction_top` has all of them. -/
theorem C120_bottom_top (S : Sound I C ex) (i r : ℕ) :
    (Ok I C i r (Disj.bottom I i r) ∧ ∀ x, ¬ Gam I (Disj.bottom I i r) x) ∧
    (Ok I C i r (Disj.top I i r) ∧ ∀ x, Gam I (Disj.top I i r) x) := by
  refine ⟨⟨⟨by simp [Disj.bottom], fun a ha => ?_⟩, fun x ⟨a, ha, hx⟩ => ?_⟩, ⟨by simp [Disj.top], fun a ha => ?_⟩, fun x => ?_⟩
  · obtain rfl : a = I.bottom i r := by simpa [Disj.bottom] using ha
    exact ⟨(S.bottom i r).1, (S.bottom i r).2.1⟩
  · obtain rfl : a = I.bottom i r := by simpa [Disj.bottom] using ha
    exact (S.bottom i r).2.2 x hx
  · obtain rfl : a = I.man.top i r := by simpa [Disj.top] using ha
    exact ⟨(S.spec.top i r).1, (S.spec.top i r).2.1⟩
  · exact ⟨I.man.top i r, by simp [Disj.top], (S.spec.top i r).2.2 x⟩

/-- `ap_disjunction_dimension` gives the dimensions of the value. -/
theorem C120_dimension {i r : ℕ} {l : List A} (hl : Ok I C i r l) : dimension I l = some (i, r) := by
  cases l with
  | nil => exact absurd rfl hl.1
  | cons a l =>
    obtain ⟨_, h1, h2⟩ := hl.2 a (by simp)
    simp [dimension, h1, h2]

/-- `ap_disjunction_is_bottom` is right when it answers true. -/
theorem C120_is_bottom_sound (S : Sound I C ex) {i r : ℕ} {l : List A} (hl : Ok I C i r l) (h : Disj.isBottom I l = true) (x : ℕ → K) :
    ¬ Gam I l x := by
  match l, h with
  | [a], h =>
    rintro ⟨b, hb, hx⟩
    obtain rfl : b = a := by simpa using hb
    exact S.isBottom b (hl.2 b (by simp)).1 h x hx

/-- `ap_disjunction_is_top` is right when it answers true. -/
theorem C120_is_top_sound (S : Sound I C ex) {i r : ℕ} {l : List A} (hl : Ok I C i r l) (h : Disj.isTop I l = true) (x : ℕ → K) :
    Gam I l x := by
  match l, h with
  | [a], h => exact ⟨a, by simp, S.isTop a (hl.2 a (by simp)).1 h x⟩

/-- `ap_disjunction_is_leq` and `ap_disjunction_is_eq` answer false even for a value and itself. -/
theorem C120_is_leq_not_reflexive (l : List A) : Disj.isLeq l l = false ∧ Disj.isEq l l = false := ⟨rfl, rfl⟩

/-! ## Join and meet -/

/-- `ap_disjunction_join`: the points of the join are those of the two values, exactly. -/
theorem C120_join (S : Sound I C ex) {i r : ℕ} {a b : List A} (ha : Ok I C i r a) (hb : Ok I C i r b) :
    Ok I C i r (join I a b) ∧ ∀ x, Gam I (join I a b) x ↔ Gam I a x ∨ Gam I b x := by
  unfold join
  by_cases h1 : Disj.isBottom I a = true
  · rw [if_pos h1]
    exact ⟨hb, fun x => ⟨Or.inr, fun h => h.resolve_left (C120_is_bottom_sound S ha h1 x)⟩⟩
  · rw [if_neg h1]
    by_cases h2 : Disj.isBottom I b = true
    · rw [if_pos h2]
      exact ⟨ha, fun x => ⟨Or.inl, fun h => h.resolve_right (C120_is_bottom_sound S hb h2 x)⟩⟩
    · rw [if_neg h2]
      have hab : Ok I C i r (a ++ b) := ⟨by simp [ha.1], fun c hc => by
        rcases List.mem_append.1 hc with h | h
        · exact ha.2 c h
        · exact hb.2 c h⟩
      obtain ⟨k1, k2, -, -⟩ := C120_clean S hab
      refine ⟨k1, fun x => (k2 x).trans ⟨fun ⟨c, hc, hx⟩ => ?_, ?_⟩⟩
      · rcases List.mem_append.1 hc with h | h
        · exact Or.inl ⟨c, h, hx⟩
        · exact Or.inr ⟨c, h, hx⟩
      · rintro (⟨c, hc, hx⟩ | ⟨c, hc, hx⟩)
        · exact ⟨c, List.mem_append_left _ hc, hx⟩
        · exact ⟨c, List.mem_append_right _ hc, hx⟩

theorem clean_holes (I : DInt K A) (l : List A) (n : ℕ) :
    values (nullBottomTop I (l.map some ++ List.replicate n none)).p = clean I l := by
  have key : ∀ (q : List (Option A)) (i : ℕ) (b t : Option ℕ) (nb : Bool),
      nbtLoop I (q ++ List.replicate n none) i b t nb =
        { nbtLoop I q i b t nb with p := (nbtLoop I q i b t nb).p ++ List.replicate n none } := by
    intro q
    induction q with
    | nil =>
      have hrep : ∀ m i b t nb, nbtLoop I (List.replicate m none) i b t nb = ⟨List.replicate m none, b, t, nb⟩ := by
        intro m
        induction m with
        | zero => intros; rfl
        | succ m ih => intro i b t nb; rw [List.replicate_succ, nbtLoop, ih]
      intro i b t nb
      exact hrep n i b t nb
    | cons o q ih =>
      intro i b t nb
      cases o with
      | none => simp only [List.cons_append, nbtLoop, ih]
      | some c =>
        simp only [List.cons_append, nbtLoop, ih]
        split_ifs <;> rfl
  have hlen := (nbtLoop_struct I (l.map some) 0 none none false).1
  have hb := (nbtLoop_struct I (l.map some) 0 none none false).2.2.2.2.2.1 rfl
  unfold clean nullBottomTop
  rw [key]
  set q := nbtLoop I (l.map some) 0 none none false with hq
  dsimp only
  have hv : ∀ p : List (Option A), values (p ++ List.replicate n none) = values p := fun p => by
    rw [values_eq, values_eq, List.filterMap_append]
    have : (List.replicate n (none : Option A)).filterMap id = [] := by
      rw [List.filterMap_eq_nil_iff]
      intro a ha
      rw [List.eq_of_mem_replicate ha]; rfl
    rw [this, List.append_nil]
  cases hqb : q.bottom with
  | none => dsimp only; rw [hv]
  | some k =>
    dsimp only
    by_cases hn : q.notbottom = true
    · rw [if_pos hn, if_pos hn]
      dsimp only
      obtain ⟨_, a, ha, _⟩ := hb k hqb
      rw [Nat.sub_zero] at ha
      have hlt := (List.getElem?_eq_some_iff.1 ha).1
      rw [List.set_append_left _ _ hlt, hv]
    · rw [if_neg hn, if_neg hn]
      dsimp only
      rw [hv]

/-- `ap_disjunction_join_array`: the points are those of the arguments, exactly; the result is a legal value unless there are three
arguments or more, all empty. -/
theorem C120_join_array_partial (S : Sound I C ex) {i r : ℕ} {tab : List (List A)} (hne : tab ≠ []) (ht : ∀ a ∈ tab, Ok I C i r a) :
    ∃ l, joinArray I tab = some l ∧ (∀ x, Gam I l x ↔ ∃ a ∈ tab, Gam I a x) ∧
      (tab.length ≤ 2 ∨ (∃ a ∈ tab, Disj.isBottom I a = false) → Ok I C i r l) := by
  match tab, hne, ht with
  | [a], _, ht => exact ⟨a, rfl, fun x => by simp, fun _ => ht a (by simp)⟩
  | [a, b], _, ht =>
    obtain ⟨h1, h2⟩ := C120_join S (ht a (by simp)) (ht b (by simp))
    exact ⟨_, rfl, fun x => by rw [h2]; simp, fun _ => h1⟩
  | a :: b :: c :: t, _, ht =>
    set tab := a :: b :: c :: t with htab
    have hsum : (tab.map List.length).sum ≠ 0 := by
      have : a.length ≠ 0 := fun h => (ht a (by simp [htab])).1 (List.length_eq_zero_iff.1 h)
      simp only [htab, List.map_cons, List.sum_cons]
      omega
    have e : joinArray I tab = some (clean I (tab.filter fun a => !Disj.isBottom I a).flatten) := by
      rw [htab, joinArray]
      · rw [← htab, if_neg hsum]
        dsimp only
        rw [clean_holes]
      all_goals simp
    set l := (tab.filter fun a => !Disj.isBottom I a).flatten with hl
    have hml : ∀ u, u ∈ l ↔ ∃ a ∈ tab, Disj.isBottom I a = false ∧ u ∈ a := fun u => by
      rw [hl, List.mem_flatten]
      simp only [List.mem_filter, Bool.not_eq_true', and_assoc]
    have hg : ∀ x, Gam I l x ↔ ∃ a ∈ tab, Gam I a x := by
      intro x
      constructor
      · rintro ⟨u, hu, hx⟩
        obtain ⟨a, ha, _, hua⟩ := (hml u).1 hu
        exact ⟨a, ha, u, hua, hx⟩
      · rintro ⟨a, ha, u, hua, hx⟩
        refine ⟨u, (hml u).2 ⟨a, ha, ?_, hua⟩, hx⟩
        by_contra hc
        exact C120_is_bottom_sound S (ht a ha) (by simpa using hc) x ⟨u, hua, hx⟩
    refine ⟨_, e, ?_, ?_⟩
    · by_cases hl0 : l = []
      · intro x
        rw [← hg x, hl0]
        have : clean I ([] : List A) = [] := rfl
        rw [this]
      · have hok : Ok I C i r l := ⟨hl0, fun u hu => by
          obtain ⟨a, ha, _, hua⟩ := (hml u).1 hu
          exact (ht a ha).2 u hua⟩
        intro x
        rw [(C120_clean S hok).2.1 x, hg x]
    · intro h
      have h' : ∃ a ∈ tab, Disj.isBottom I a = false := h.resolve_left (by simp [htab])
      obtain ⟨a, ha, hab⟩ := h'
      have hok : Ok I C i r l := by
        refine ⟨fun h0 => ?_, fun u hu => ?_⟩
        · obtain ⟨u, hu⟩ := List.exists_mem_of_ne_nil a (ht a ha).1
          have := (hml u).2 ⟨a, ha, hab, hu⟩
          rw [h0] at this; cases this
        · obtain ⟨a, ha, _, hua⟩ := (hml u).1 hu
          exact (ht a ha).2 u hua
      exact (C120_clean S hok).1

/-- With three empty arguments or more the result is an array of size 0: it is not a legal value, `is_bottom` answers false, and
`dimension` reads outside the array. -/
theorem C120_join_array_of_bottoms_wrong (a b c : A) (h : I.isBottom a = true ∧ I.isBottom b = true ∧ I.isBottom c = true) :
    joinArray I [[a], [b], [c]] = some [] ∧ Disj.isBottom I ([] : List A) = false ∧ dimension I ([] : List A) = none := by
  refine ⟨?_, rfl, rfl⟩
  simp [joinArray, Disj.isBottom, h.1, h.2.1, h.2.2, values_eq, nullBottomTop, nbtLoop, List.replicate]

theorem mem_meets (I : DInt K A) (a b : List A) (m : A) :
    m ∈ meets I a b ↔ ∃ u ∈ a, ∃ v ∈ b, I.man.meet u v = m ∧ I.isBottom m = false := by
  unfold meets
  simp only [List.mem_filter, List.mem_flatMap, List.mem_map, Bool.not_eq_true']
  constructor
  · rintro ⟨⟨u, hu, v, hv, e⟩, hm⟩
    exact ⟨u, hu, v, hv, e, hm⟩
  · rintro ⟨u, hu, v, hv, e, hm⟩
    exact ⟨⟨u, hu, v, hv, e⟩, hm⟩

theorem meets_facts (S : Sound I C ex) {i r : ℕ} {a b : List A} (ha : Ok I C i r a) (hb : Ok I C i r b) :
    (∀ m ∈ meets I a b, C m ∧ I.man.Dims m i r) ∧ ∀ x, Gam I (meets I a b) x ↔ Gam I a x ∧ Gam I b x := by
  have key : ∀ u ∈ a, ∀ v ∈ b, C (I.man.meet u v) ∧ I.man.Dims (I.man.meet u v) i r ∧
      ∀ x, I.man.Gam (I.man.meet u v) x ↔ I.man.Gam u x ∧ I.man.Gam v x := by
    intro u hu v hv
    obtain ⟨cu, du⟩ := ha.2 u hu
    obtain ⟨cv, dv⟩ := hb.2 v hv
    obtain ⟨h1, h2, h3⟩ := S.spec.meet u v cu cv ⟨dv.1.trans du.1.symm, dv.2.trans du.2.symm⟩
    exact ⟨h1, ⟨h2.1.trans du.1, h2.2.trans du.2⟩, h3⟩
  refine ⟨fun m hm => ?_, fun x => ⟨?_, ?_⟩⟩
  · obtain ⟨u, hu, v, hv, rfl, _⟩ := (mem_meets I a b m).1 hm
    exact ⟨(key u hu v hv).1, (key u hu v hv).2.1⟩
  · rintro ⟨m, hm, hx⟩
    obtain ⟨u, hu, v, hv, rfl, _⟩ := (mem_meets I a b m).1 hm
    obtain ⟨h1, h2⟩ := ((key u hu v hv).2.2 x).1 hx
    exact ⟨⟨u, hu, h1⟩, v, hv, h2⟩
  · rintro ⟨⟨u, hu, h1⟩, v, hv, h2⟩
    have hx := ((key u hu v hv).2.2 x).2 ⟨h1, h2⟩
    refine ⟨_, (mem_meets I a b _).2 ⟨u, hu, v, hv, rfl, ?_⟩, hx⟩
    by_contra hc
    exact S.isBottom _ (key u hu v hv).1 (by simpa using hc) x hx

/-- `ap_disjunction_meet`, when its behaviour is defined: the points are those in both values, exactly. -/
theorem C120_meet_partial (S : Sound I C ex) {i r : ℕ} {a b l : List A} (ha : Ok I C i r a) (hb : Ok I C i r b) (h : meet I a b = some l) :
    Ok I C i r l ∧ ∀ x, Gam I l x ↔ Gam I a x ∧ Gam I b x := by
  unfold meet at h
  by_cases h1 : Disj.isBottom I a = true
  · rw [if_pos h1] at h
    obtain rfl := Option.some.inj h
    exact ⟨ha, fun x => ⟨fun hx => absurd hx (C120_is_bottom_sound S ha h1 x), And.left⟩⟩
  · rw [if_neg h1] at h
    by_cases h2 : Disj.isBottom I b = true
    · rw [if_pos h2] at h
      obtain rfl := Option.some.inj h
      exact ⟨hb, fun x => ⟨fun hx => absurd hx (C120_is_bottom_sound S hb h2 x), And.right⟩⟩
    · rw [if_neg h2] at h
      obtain ⟨ea, ga, -, -⟩ := C120_elim_redundant S ha
      obtain ⟨eb, gb, -, -⟩ := C120_elim_redundant S hb
      obtain ⟨m1, m2⟩ := meets_facts S ea eb
      cases hm : meets I (elimRedundant I a) (elimRedundant I b) with
      | nil => rw [hm] at h; cases h
      | cons u t =>
        rw [hm] at h m1 m2
        dsimp only at h
        obtain rfl := Option.some.inj h
        obtain ⟨k1, k2, -, -⟩ := C120_elim_redundant S (l := u :: t) ⟨by simp, m1⟩
        exact ⟨k1, fun x => by rw [k2, m2, ga, gb]⟩

/-- The meet of two values without a common point has no defined behaviour, unless one of them is a single empty disjunct: the code
then hands values of the underlying domain to functions that expect another structure. -/
theorem C120_meet_of_disjoint_undefined (S : Sound I C ex) (hc : ∀ a, C a → (∀ x, ¬ I.man.Gam a x) → I.isBottom a = true) {i r : ℕ}
    {a b : List A} (ha : Ok I C i r a) (hb : Ok I C i r b) (h1 : Disj.isBottom I a = false) (h2 : Disj.isBottom I b = false)
    (hd : ∀ x, ¬ (Gam I a x ∧ Gam I b x)) : meet I a b = none := by
  unfold meet
  rw [if_neg (by simp [h1]), if_neg (by simp [h2])]
  obtain ⟨ea, ga, -, -⟩ := C120_elim_redundant S ha
  obtain ⟨eb, gb, -, -⟩ := C120_elim_redundant S hb
  obtain ⟨m1, m2⟩ := meets_facts S ea eb
  cases hm : meets I (elimRedundant I a) (elimRedundant I b) with
  | nil => rfl
  | cons u t =>
    exfalso
    have hu : u ∈ meets I (elimRedundant I a) (elimRedundant I b) := by rw [hm]; simp
    obtain ⟨_, _, _, _, _, hub⟩ := (mem_meets I _ _ u).1 hu
    have := hc u (m1 u hu).1 fun x hx => hd x (by
      have := (m2 x).1 ⟨u, hu, hx⟩
      rwa [ga, gb] at this)
    rw [hub] at this; cases this

end Props
end Apron
