import Verif.Props.Disjunction
import Verif.Props.Product2

/-!
# C121: tests, bounds and transfer functions of finite disjunctions
-/

set_option autoImplicit false
set_option linter.unusedSectionVars false
set_option linter.ambiguousOpen false

namespace Apron
open Bound

namespace Disj
variable {K A : Type*} [LinearOrder K] [Field K] [IsStrictOrderedRing K]
open RP (InItv InBox)

theorem joinWith_eq (a b : Bound K × Bound K) : joinWith a b = (min a.1 b.1, max a.2 b.2) := by
  unfold joinWith
  congr 1
  · by_cases h : scalarCmp a.1 b.1 > 0
    · rw [if_pos h]
      rw [scalarCmp_eq, gt_iff_lt, cmp_pos] at h
      exact (min_eq_right h.le).symm
    · rw [if_neg h]
      rw [scalarCmp_eq, gt_iff_lt, cmp_pos, not_lt] at h
      exact (min_eq_left h).symm
  · by_cases h : scalarCmp a.2 b.2 < 0
    · rw [if_pos h]
      rw [scalarCmp_eq, cmp_lt_zero] at h
      exact (max_eq_right h.le).symm
    · rw [if_neg h]
      rw [scalarCmp_eq, cmp_lt_zero, not_lt] at h
      exact (max_eq_left h).symm

theorem inItv_joinWith_left {a b : Bound K × Bound K} {v : K} (h : InItv a v) : InItv (joinWith a b) v := by
  rw [joinWith_eq]
  exact ⟨(min_le_left _ _).trans h.1, h.2.trans (le_max_left _ _)⟩

theorem inItv_joinWith_right {a b : Bound K × Bound K} {v : K} (h : InItv b v) : InItv (joinWith a b) v := by
  rw [joinWith_eq]
  exact ⟨(min_le_right _ _).trans h.1, h.2.trans (le_max_right _ _)⟩

theorem not_bottom_joinWith {a b : Bound K × Bound K} (h : a.1 ≤ a.2 ∨ b.1 ≤ b.2) :
    intervalIsBottom (joinWith a b).1 (joinWith a b).2 = false := by
  rw [Bool.eq_false_iff, ne_eq, intervalIsBottom_iff, joinWith_eq, not_lt]
  rcases h with h | h
  · exact (min_le_left _ _).trans (h.trans (le_max_left _ _))
  · exact (min_le_right _ _).trans (h.trans (le_max_right _ _))

/-- the loop once the interval is not empty -/
theorem boundLoop_eq (f : A → Bound K × Bound K) (l : List A) (g : Bound K × Bound K) (hg : g.1 ≤ g.2) :
    boundLoop f l g = l.foldl (fun m a => joinWith m (f a)) g := by
  induction l generalizing g with
  | nil => rfl
  | cons a l ih =>
    rw [boundLoop]
    have hb := not_bottom_joinWith (b := f a) (Or.inl hg)
    rw [if_neg (by rw [hb]; simp), List.foldl_cons]
    refine ih _ ?_
    rw [Bool.eq_false_iff, ne_eq, intervalIsBottom_iff, not_lt] at hb
    exact hb

theorem bound_eq (f : A → Bound K × Bound K) (a : A) (l : List A) (h : (f a).1 ≤ (f a).2) :
    bound f (a :: l) = (a :: l).foldl (fun m c => joinWith m (f c)) (fin 1, fin (-1)) := by
  unfold bound
  rw [boundLoop]
  have hb := not_bottom_joinWith (a := (fin 1, fin (-1))) (b := f a) (Or.inr h)
  rw [if_neg (by rw [hb]; simp), List.foldl_cons]
  refine boundLoop_eq f l _ ?_
  rw [Bool.eq_false_iff, ne_eq, intervalIsBottom_iff, not_lt] at hb
  exact hb

theorem inItv_foldl (f : A → Bound K × Bound K) (l : List A) (g : Bound K × Bound K) (v : K) (h : InItv g v ∨ ∃ a ∈ l, InItv (f a) v) :
    InItv (l.foldl (fun m a => joinWith m (f a)) g) v := by
  induction l generalizing g with
  | nil => exact h.resolve_right (by simp)
  | cons a l ih =>
    rw [List.foldl_cons]
    refine ih _ ?_
    rcases h with h | ⟨c, hc, hv⟩
    · exact Or.inl (inItv_joinWith_left h)
    · rcases List.mem_cons.1 hc with rfl | hc
      · exact Or.inl (inItv_joinWith_right hv)
      · exact Or.inr ⟨c, hc, hv⟩

/-- every interval of the list is non-empty -/
def NonEmpty (l : List (Bound K × Bound K)) : Prop := ∀ p ∈ l, p.1 ≤ p.2

theorem boxJoin_spec (g b : List (Bound K × Bound K)) (hl : g.length = b.length) (hg : NonEmpty g) :
    (boxJoin g b).2 = false ∧ NonEmpty (boxJoin g b).1 ∧ (boxJoin g b).1 = List.zipWith joinWith g b := by
  induction g generalizing b with
  | nil =>
    obtain rfl : b = [] := List.length_eq_zero_iff.1 hl.symm
    exact ⟨rfl, hg, rfl⟩
  | cons p g ih =>
    cases b with
    | nil => cases hl
    | cons q b =>
      obtain ⟨h1, h2, h3⟩ := ih b (by simpa using hl) (fun r hr => hg r (List.mem_cons_of_mem _ hr))
      have hb := not_bottom_joinWith (b := q) (Or.inl (hg p (by simp)))
      have e : boxJoin (p :: g) (q :: b) = (joinWith p q :: (boxJoin g b).1, (boxJoin g b).2) := by
        rw [boxJoin]
        dsimp only
        rw [if_neg (by rw [hb]; simp)]
      rw [Bool.eq_false_iff, ne_eq, intervalIsBottom_iff, not_lt] at hb
      rw [e]
      refine ⟨h1, fun r hr => ?_, by rw [h3]; rfl⟩
      rcases List.mem_cons.1 hr with rfl | hr
      · exact hb
      · exact h2 r hr

theorem inBox_zipWith (g b : List (Bound K × Bound K)) (hl : g.length = b.length) (x : ℕ → K) (h : InBox g x ∨ InBox b x) :
    InBox (List.zipWith joinWith g b) x := by
  intro k p hp
  rw [List.getElem?_zipWith] at hp
  cases hgk : g[k]? with
  | none => simp [hgk] at hp
  | some u =>
    cases hbk : b[k]? with
    | none => simp [hgk, hbk] at hp
    | some w =>
      simp only [hgk, hbk] at hp
      obtain rfl : joinWith u w = p := Option.some.inj hp
      rcases h with h | h
      · exact inItv_joinWith_left (h k u hgk)
      · exact inItv_joinWith_right (h k w hbk)

theorem boxLoop_sound (f : A → List (Bound K × Bound K)) (n : ℕ) (l : List A) (g : List (Bound K × Bound K)) (hgl : g.length = n)
    (hfl : ∀ a ∈ l, (f a).length = n) (hg : NonEmpty g) (x : ℕ → K) (h : InBox g x ∨ ∃ a ∈ l, InBox (f a) x) : InBox (boxLoop f l g) x := by
  induction l generalizing g with
  | nil => exact h.resolve_right (by simp)
  | cons a l ih =>
    have hl : g.length = (f a).length := hgl.trans (hfl a (by simp)).symm
    obtain ⟨h1, h2, h3⟩ := boxJoin_spec g (f a) hl hg
    rw [boxLoop]
    rw [if_neg (by rw [h1]; simp)]
    refine ih _ ?_ (fun c hc => hfl c (List.mem_cons_of_mem _ hc)) h2 ?_
    · rw [h3, List.length_zipWith, ← hl, min_self, hgl]
    · rw [h3]
      rcases h with h | ⟨c, hc, hv⟩
      · exact Or.inl (inBox_zipWith g (f a) hl x (Or.inl h))
      · rcases List.mem_cons.1 hc with rfl | hc
        · exact Or.inl (inBox_zipWith g (f c) hl x (Or.inr hv))
        · exact Or.inr ⟨c, hc, hv⟩

end Disj

namespace Props
open Disj RP

variable {K A : Type*} [LinearOrder K] [Field K] [IsStrictOrderedRing K] {I : DInt K A} {C : A → Prop} {ex : Prop}

/-! ## Tests and bounds -/

/-- `ap_disjunction_sat_lincons`, `.._sat_tcons`, `.._sat_interval` are right when they answer true, and as precise as the domain. -/
theorem C121_sat (t : A → Bool) (P : (ℕ → K) → Prop) (l : List A) :
    ((∀ a ∈ l, t a = true → ∀ x, I.man.Gam a x → P x) → sat t l = true → ∀ x, Disj.Gam I l x → P x) ∧
    ((∀ a ∈ l, (∀ x, I.man.Gam a x → P x) → t a = true) → (∀ x, Disj.Gam I l x → P x) → sat t l = true) := by
  have key : sat t l = true ↔ ∀ a ∈ l, t a = true := by
    induction l with
    | nil => simp [Disj.sat]
    | cons a l ih =>
      rw [Disj.sat]
      by_cases h : t a = true
      · rw [if_pos h, ih]; simp [h]
      · rw [if_neg h]; simp [h]
  rw [key]
  exact ⟨fun ht hs x ⟨a, ha, hx⟩ => ht a ha (hs a ha) x hx, fun ht h a ha => ht a ha fun x hx => h x ⟨a, ha, hx⟩⟩

/-- `ap_disjunction_bound_linexpr`, `.._bound_texpr`, `.._bound_dimension`: the interval contains the value of the expression at every
point, provided the interval of the first disjunct is not empty. -/
theorem C121_bound_sound_partial (f : A → Bound K × Bound K) (val : (ℕ → K) → K → Prop) (a : A) (l : List A)
    (hf : ∀ c ∈ a :: l, ∀ x v, I.man.Gam c x → val x v → InItv (f c) v) (h1 : (f a).1 ≤ (f a).2)
    (x : ℕ → K) (v : K) (hx : Disj.Gam I (a :: l) x) (hv : val x v) : InItv (bound f (a :: l)) v := by
  rw [bound_eq f a l h1]
  obtain ⟨c, hc, hg⟩ := hx
  exact inItv_foldl f _ _ v (Or.inr ⟨c, hc, hf c hc x v hg hv⟩)

/-- What that interval is: the join of the intervals of the disjuncts and of `1` and `-1`, from which the code starts. -/
theorem C121_bound_value (f : A → Bound K × Bound K) (a : A) (l : List A) (h1 : (f a).1 ≤ (f a).2) :
    bound f (a :: l) =
      (l.foldl (fun m c => min m (f c).1) (min (fin 1) (f a).1), l.foldl (fun m c => max m (f c).2) (max (fin (-1)) (f a).2)) := by
  rw [bound_eq f a l h1, List.foldl_cons, joinWith_eq]
  generalize min (fin (1 : K), fin (-1 : K)).1 (f a).1 = p
  generalize max (fin (1 : K), fin (-1 : K)).2 (f a).2 = q
  induction l generalizing p q with
  | nil => rfl
  | cons c l ih => rw [List.foldl_cons, joinWith_eq, ih]; rfl

/-- `ap_disjunction_to_box`: the box contains every point, provided no interval of the box of the first disjunct is empty. -/
theorem C121_to_box_sound_partial (f : A → List (Bound K × Bound K)) (n : ℕ) (a : A) (l : List A)
    (hn : ∀ c ∈ a :: l, (f c).length = n) (hf : ∀ c ∈ a :: l, ∀ x, I.man.Gam c x → InBox (f c) x) (h1 : NonEmpty (f a)) :
    ∃ b, Disj.toBox f (a :: l) = some b ∧ ∀ x, Disj.Gam I (a :: l) x → InBox b x := by
  refine ⟨_, rfl, fun x ⟨c, hc, hx⟩ => ?_⟩
  refine boxLoop_sound f n l (f a) (hn a (by simp)) (fun c hc => hn c (List.mem_cons_of_mem _ hc)) h1 x ?_
  rcases List.mem_cons.1 hc with rfl | hc'
  · exact Or.inl (hf c hc x hx)
  · exact Or.inr ⟨c, hc', hf c hc x hx⟩

/-- `ap_disjunction_to_lincons_array` is defined for one disjunct, whose points are then those of the constraints. -/
theorem C121_to_lincons {Cn : Type*} (f : A → List Cn) (sat : Cn → (ℕ → K) → Prop) (l : List A) (cs : List Cn)
    (hf : ∀ a ∈ l, ∀ x, I.man.Gam a x → ∀ c ∈ f a, sat c x) (h : toLincons f l = some cs) (x : ℕ → K) (hx : Disj.Gam I l x) :
    ∀ c ∈ cs, sat c x := by
  match l, h with
  | [a], h =>
    obtain rfl : f a = cs := Option.some.inj h
    obtain ⟨b, hb, hx⟩ := hx
    obtain rfl : b = a := by simpa using hb
    exact hf b hb x hx

/-! ## Operations on every disjunct -/

section Map
variable {i r i' r' : ℕ} {l : List A} {f : A → A}

theorem ok_map (hl : Disj.Ok I C i r l) (hf : ∀ a ∈ l, C (f a) ∧ I.man.Dims (f a) i' r') : Disj.Ok I C i' r' (l.map f) :=
  ⟨by simpa using hl.1, fun b hb => by
    obtain ⟨a, ha, rfl⟩ := List.mem_map.1 hb
    exact hf a ha⟩

theorem gam_map (x : ℕ → K) : Disj.Gam I (l.map f) x ↔ ∃ a ∈ l, I.man.Gam (f a) x :=
  ⟨fun ⟨b, hb, hx⟩ => by
    obtain ⟨a, ha, rfl⟩ := List.mem_map.1 hb
    exact ⟨a, ha, hx⟩, fun ⟨a, ha, hx⟩ => ⟨f a, List.mem_map_of_mem ha, hx⟩⟩

end Map

/-- `ap_disjunction_meet_lincons_array`, `.._meet_tcons_array`, `.._add_ray_array`: a point that is in a disjunct and in the image of that
disjunct is kept, and there are no other points than those of the images. -/
theorem C121_meet_cons (S : Disj.Sound I C ex) {i r : ℕ} {l : List A} (hl : Disj.Ok I C i r l) (f : A → A)
    (hf : ∀ a, C a → I.man.Dims a i r → C (f a) ∧ I.man.Dims (f a) i r) :
    Disj.Ok I C i r (mapClean I f l) ∧ ∀ x, Disj.Gam I (mapClean I f l) x ↔ ∃ a ∈ l, I.man.Gam (f a) x := by
  obtain ⟨k1, k2, -, -⟩ := C120_clean S (ok_map (f := f) hl fun a ha => hf a (hl.2 a ha).1 (hl.2 a ha).2)
  exact ⟨k1, fun x => (k2 x).trans (gam_map x)⟩

/-- hence the meet with constraints keeps every point that satisfies them, and only such points if the domain does -/
theorem C121_meet_constraints (S : Disj.Sound I C ex) {i r : ℕ} {l : List A} (hl : Disj.Ok I C i r l) (f : A → A) (P : (ℕ → K) → Prop)
    (hf : ∀ a, C a → I.man.Dims a i r → C (f a) ∧ I.man.Dims (f a) i r)
    (hs : ∀ a, C a → ∀ x, I.man.Gam a x → P x → I.man.Gam (f a) x) :
    (∀ x, Disj.Gam I l x → P x → Disj.Gam I (mapClean I f l) x) ∧
    ((∀ a, C a → ∀ x, I.man.Gam (f a) x → I.man.Gam a x ∧ P x) → ∀ x, Disj.Gam I (mapClean I f l) x → Disj.Gam I l x ∧ P x) := by
  obtain ⟨_, k2⟩ := C121_meet_cons S hl f hf
  refine ⟨fun x ⟨a, ha, hx⟩ hp => (k2 x).2 ⟨a, ha, hs a (hl.2 a ha).1 x hx hp⟩, fun he x hx => ?_⟩
  obtain ⟨a, ha, hx⟩ := (k2 x).1 hx
  obtain ⟨h1, h2⟩ := he a (hl.2 a ha).1 x hx
  exact ⟨⟨a, ha, h1⟩, h2⟩

/-- `ap_disjunction_assign_..`, `.._substitute_..`: refused with a destination; otherwise the image of every point is kept, and there are
no other points if the domain is exact.  `R x x'` tells that `x'` is the image of `x`. -/
theorem C121_asssub {E : Type*} {i r : ℕ} {l : List A} (hl : Disj.Ok I C i r l) (f : A → List (ℕ × E) → A) (e : List (ℕ × E))
    (R : (ℕ → K) → (ℕ → K) → Prop) (hf : ∀ a, C a → I.man.Dims a i r → C (f a e) ∧ I.man.Dims (f a e) i r)
    (hs : ∀ a, C a → ∀ x x', I.man.Gam a x → R x x' → I.man.Gam (f a e) x') :
    (∀ d, asssub f l e (some d) = none) ∧
    ∃ m, asssub f l e none = some m ∧ Disj.Ok I C i r m ∧ (∀ x x', Disj.Gam I l x → R x x' → Disj.Gam I m x') ∧
      ((∀ a, C a → ∀ x', I.man.Gam (f a e) x' → ∃ x, I.man.Gam a x ∧ R x x') →
        ∀ x', Disj.Gam I m x' → ∃ x, Disj.Gam I l x ∧ R x x') := by
  refine ⟨fun d => rfl, _, rfl, ok_map hl fun a ha => hf a (hl.2 a ha).1 (hl.2 a ha).2, fun x x' ⟨a, ha, hx⟩ hr =>
    (gam_map x').2 ⟨a, ha, hs a (hl.2 a ha).1 x x' hx hr⟩, fun he x' hx => ?_⟩
  obtain ⟨a, ha, hx⟩ := (gam_map x').1 hx
  obtain ⟨x, hx, hr⟩ := he a (hl.2 a ha).1 x' hx
  exact ⟨x, ⟨a, ha, hx⟩, hr⟩

/-- `ap_disjunction_add_dimensions` -/
theorem C121_add (S : Disj.Sound I C ex) {i r : ℕ} {l : List A} (hl : Disj.Ok I C i r l) (pos : List ℕ) (n : ℕ) (project : Bool)
    (h0 : pos ≠ []) (hn : n ≤ pos.length) (hp : Dim.LegalAdd i r pos n) :
    Disj.Ok I C (i + n) (r + (pos.length - n)) (Disj.add I l pos n project) ∧
    ∀ x, Disj.Gam I (Disj.add I l pos n project) x ↔
      Disj.Gam I l (fun v => x (v + pos.countP (fun p => decide (p ≤ v)))) ∧
      (project = true → ∀ k, k < pos.length → x (pos.getD k 0 + k) = 0) := by
  have key := fun a (ha : a ∈ l) => S.spec.add a pos n project (hl.2 a ha).1 h0 hn (by rw [(hl.2 a ha).2.1, (hl.2 a ha).2.2]; exact hp)
  refine ⟨ok_map hl fun a ha => ⟨(key a ha).1, ?_⟩, fun x => ?_⟩
  · have := (key a ha).2.1
    rwa [(hl.2 a ha).2.1, (hl.2 a ha).2.2] at this
  · rw [Disj.add, gam_map]
    constructor
    · rintro ⟨a, ha, hx⟩
      obtain ⟨h1, h2⟩ := ((key a ha).2.2 x).1 hx
      exact ⟨⟨a, ha, h1⟩, h2⟩
    · rintro ⟨⟨a, ha, h1⟩, h2⟩
      exact ⟨a, ha, ((key a ha).2.2 x).2 ⟨h1, h2⟩⟩

/-- `ap_disjunction_remove_dimensions` -/
theorem C121_remove (S : Disj.Sound I C ex) {i r : ℕ} {l : List A} (hl : Disj.Ok I C i r l) (pos : List ℕ) (n : ℕ)
    (h0 : pos ≠ []) (hn : n ≤ pos.length) (hp : Dim.LegalRemove i r pos n) :
    Disj.Ok I C (i - n) (r - (pos.length - n)) (Disj.remove I l pos n) ∧
    (∀ x x', Disj.Gam I l x → (∀ v, v < i + r → v ∉ pos → x' (v - pos.countP (fun p => decide (p < v))) = x v) →
      Disj.Gam I (Disj.remove I l pos n) x') ∧
    (ex → ∀ x', Disj.Gam I (Disj.remove I l pos n) x' → ∃ x, Disj.Gam I l x ∧
      ∀ v, v < i + r → v ∉ pos → x' (v - pos.countP (fun p => decide (p < v))) = x v) := by
  have hdim : ∀ a ∈ l, I.man.dim a = i + r := fun a ha => by
    unfold Man.dim
    rw [(hl.2 a ha).2.1, (hl.2 a ha).2.2]
  have key := fun a (ha : a ∈ l) => S.spec.remove a pos n (hl.2 a ha).1 h0 hn (by rw [(hl.2 a ha).2.1, (hl.2 a ha).2.2]; exact hp)
  have hok : Disj.Ok I C (i - n) (r - (pos.length - n)) (l.map fun a => I.man.remove a pos n) :=
    ok_map hl fun a ha => ⟨(key a ha).1, by
      have := (key a ha).2.1
      rwa [(hl.2 a ha).2.1, (hl.2 a ha).2.2] at this⟩
  obtain ⟨k1, k2, -, -⟩ := C120_elim_redundant S hok
  refine ⟨k1, fun x x' ⟨a, ha, hx⟩ h => (k2 x').2 ((gam_map x').2 ⟨a, ha, ?_⟩), fun he x' hx => ?_⟩
  · exact (key a ha).2.2.1 x x' hx (by rw [hdim a ha]; exact h)
  · obtain ⟨a, ha, hx⟩ := (gam_map x').1 ((k2 x').1 hx)
    obtain ⟨x, h1, h2⟩ := (key a ha).2.2.2 he x' hx
    rw [hdim a ha] at h2
    exact ⟨x, ⟨a, ha, h1⟩, h2⟩

/-- `ap_disjunction_permute_dimensions` -/
theorem C121_permute (S : Disj.Sound I C ex) {i r : ℕ} {l : List A} (hl : Disj.Ok I C i r l) (perm : List ℕ) (hp : Dim.IsPerm (i + r) perm) :
    Disj.Ok I C i r (Disj.permute I l perm) ∧
    ∀ x, Disj.Gam I (Disj.permute I l perm) x ↔ Disj.Gam I l (fun v => x (perm.getD v 0)) := by
  have hdim : ∀ a ∈ l, I.man.dim a = i + r := fun a ha => by
    unfold Man.dim
    rw [(hl.2 a ha).2.1, (hl.2 a ha).2.2]
  have key := fun a (ha : a ∈ l) => S.spec.permute a perm (hl.2 a ha).1 (by rw [hdim a ha]; exact hp)
  refine ⟨ok_map hl fun a ha => ⟨(key a ha).1, ?_⟩, fun x => ?_⟩
  · have := (key a ha).2.1
    rwa [(hl.2 a ha).2.1, (hl.2 a ha).2.2] at this
  · rw [Disj.permute, gam_map]
    exact ⟨fun ⟨a, ha, hx⟩ => ⟨a, ha, ((key a ha).2.2 x).1 hx⟩, fun ⟨a, ha, hx⟩ => ⟨a, ha, ((key a ha).2.2 x).2 hx⟩⟩

/-- `ap_disjunction_forget_array` -/
theorem C121_forget (S : Disj.Sound I C ex) {i r : ℕ} {l : List A} (hl : Disj.Ok I C i r l) (tdim : List ℕ) (project : Bool)
    (hd : ∀ d ∈ tdim, d < i + r) :
    Disj.Ok I C i r (Disj.forget I l tdim project) ∧
    (∀ x x', Disj.Gam I l x → (∀ v, v < i + r → v ∉ tdim → x' v = x v) → (project = true → ∀ v ∈ tdim, x' v = 0) →
      Disj.Gam I (Disj.forget I l tdim project) x') ∧
    (ex → ∀ x', Disj.Gam I (Disj.forget I l tdim project) x' →
      (∃ x, Disj.Gam I l x ∧ ∀ v, v < i + r → v ∉ tdim → x' v = x v) ∧ (project = true → ∀ v ∈ tdim, x' v = 0)) := by
  have hdim : ∀ a ∈ l, I.man.dim a = i + r := fun a ha => by
    unfold Man.dim
    rw [(hl.2 a ha).2.1, (hl.2 a ha).2.2]
  have key := fun a (ha : a ∈ l) => S.spec.forget a tdim project (hl.2 a ha).1 (by rw [hdim a ha]; exact hd)
  have hok : Disj.Ok I C i r (l.map fun a => I.man.forget a tdim project) :=
    ok_map hl fun a ha => ⟨(key a ha).1, by
      have := (key a ha).2.1
      rwa [(hl.2 a ha).2.1, (hl.2 a ha).2.2] at this⟩
  obtain ⟨k1, k2, -, -⟩ := C120_elim_redundant S hok
  refine ⟨k1, fun x x' ⟨a, ha, hx⟩ h hz => (k2 x').2 ((gam_map x').2 ⟨a, ha, ?_⟩), fun he x' hx => ?_⟩
  · exact (key a ha).2.2.1 x x' hx (by rw [hdim a ha]; exact h) hz
  · obtain ⟨a, ha, hx⟩ := (gam_map x').1 ((k2 x').1 hx)
    obtain ⟨⟨x, h1, h2⟩, h3⟩ := (key a ha).2.2.2 he x' hx
    rw [hdim a ha] at h2
    exact ⟨⟨x, ⟨a, ha, h1⟩, h2⟩, h3⟩

/-- `ap_disjunction_fold`: no point is lost -/
theorem C121_fold (S : Disj.Sound I C ex) {i r : ℕ} {l : List A} (hl : Disj.Ok I C i r l) (d : ℕ) (ts : List ℕ) (h0 : ts ≠ [])
    (hp : (d :: ts).Pairwise (· < ·)) (hd : ∀ t ∈ d :: ts, t < i + r) (ht : ∀ t ∈ ts, (t < i ↔ d < i)) :
    Disj.Ok I C (if d < i then i - ts.length else i) (if d < i then r else r - ts.length) (Disj.fold I l d ts) ∧
    ∀ x x' t, Disj.Gam I l x → t ∈ d :: ts → x' d = x t →
      (∀ v, v < i + r → v ∉ ts → v ≠ d → x' (v - ts.countP (fun p => decide (p < v))) = x v) → Disj.Gam I (Disj.fold I l d ts) x' := by
  have hdim : ∀ a ∈ l, I.man.dim a = i + r := fun a ha => by
    unfold Man.dim
    rw [(hl.2 a ha).2.1, (hl.2 a ha).2.2]
  have key := fun a (ha : a ∈ l) => S.spec.fold a d ts (hl.2 a ha).1 h0 hp (by rw [hdim a ha]; exact hd) (by rw [(hl.2 a ha).2.1]; exact ht)
  refine ⟨ok_map hl fun a ha => ⟨(key a ha).1, ?_⟩, fun x x' t ⟨a, ha, hx⟩ h1 h2 h3 => (gam_map x').2 ⟨a, ha, ?_⟩⟩
  · have := (key a ha).2.1
    rwa [(hl.2 a ha).2.1, (hl.2 a ha).2.2] at this
  · exact (key a ha).2.2.1 x x' t hx h1 h2 (by rw [hdim a ha]; exact h3)

/-- `ap_disjunction_expand`: the points of the result are expansions, but not all of them are there unless there is only one disjunct.
`x` is an expansion when each of the copies of the dimension `d` gives a point of the value. -/
theorem C121_expand_partial (S : Disj.Sound I C ex) {i r : ℕ} {l : List A} (hl : Disj.Ok I C i r l) (d n : ℕ) (hd : d < i + r) (hn : 0 < n) :
    Disj.Ok I C (if d < i then i + n else i) (if d < i then r else r + n) (Disj.expand I l d n) ∧
    ∀ x, (Disj.Gam I (Disj.expand I l d n) x →
      ∀ y, (y = x d ∨ ∃ k, k < n ∧ y = x ((if d < i then i else i + r) + k)) →
        Disj.Gam I l (fun v => if v = d then y else if v < (if d < i then i else i + r) then x v else x (v + n))) ∧
      (l.length = 1 →
      (∀ y, (y = x d ∨ ∃ k, k < n ∧ y = x ((if d < i then i else i + r) + k)) →
        Disj.Gam I l (fun v => if v = d then y else if v < (if d < i then i else i + r) then x v else x (v + n))) →
      Disj.Gam I (Disj.expand I l d n) x) := by
  have hdim : ∀ a ∈ l, I.man.dim a = i + r := fun a ha => by
    unfold Man.dim
    rw [(hl.2 a ha).2.1, (hl.2 a ha).2.2]
  have hoff : ∀ a ∈ l, I.man.off a d = if d < i then i else i + r := fun a ha => by
    unfold Man.off
    rw [hdim a ha, (hl.2 a ha).2.1]
  have key := fun a (ha : a ∈ l) => S.spec.expand a d n (hl.2 a ha).1 (by rw [hdim a ha]; exact hd) hn
  refine ⟨ok_map hl fun a ha => ⟨(key a ha).1, ?_⟩, fun x => ⟨fun hx y hy => ?_, fun h1 h => ?_⟩⟩
  · have := (key a ha).2.1
    rwa [(hl.2 a ha).2.1, (hl.2 a ha).2.2] at this
  · obtain ⟨a, ha, hx⟩ := (gam_map x).1 hx
    have := ((key a ha).2.2 x).1 hx
    rw [hoff a ha] at this
    exact ⟨a, ha, this y hy⟩
  · obtain ⟨a, rfl⟩ := List.length_eq_one_iff.1 h1
    refine (gam_map x).2 ⟨a, by simp, ((key a (by simp)).2.2 x).2 ?_⟩
    rw [hoff a (by simp)]
    intro y hy
    obtain ⟨b, hb, hx⟩ := h y hy
    obtain rfl : b = a := by simpa using hb
    exact hx

/-- `ap_disjunction_minimize`, `.._canonicalize` and `.._closure` apply a function to every disjunct: if it does not change the points of
a disjunct, it does not change those of the value. -/
theorem C121_minimize (S : Disj.Sound I C ex) {i r : ℕ} {l : List A} (hl : Disj.Ok I C i r l) (f : A → A)
    (hf : ∀ a, C a → ∀ x, I.man.Gam (f a) x ↔ I.man.Gam a x) (x : ℕ → K) :
    (Disj.Gam I (minimize I f l) x ↔ Disj.Gam I l x) ∧ (Disj.Gam I (closure f l) x ↔ Disj.Gam I l x) := by
  obtain ⟨k1, k2, -, -⟩ := C120_elim_redundant S hl
  have key : ∀ m : List A, (∀ a ∈ m, C a) → (Disj.Gam I (m.map f) x ↔ Disj.Gam I m x) := fun m hm => by
    rw [gam_map]
    exact ⟨fun ⟨a, ha, hx⟩ => ⟨a, ha, (hf a (hm a ha) x).1 hx⟩, fun ⟨a, ha, hx⟩ => ⟨a, ha, (hf a (hm a ha) x).2 hx⟩⟩
  exact ⟨(key _ fun a ha => (k1.2 a ha).1).trans (k2 x), key _ fun a ha => (hl.2 a ha).1⟩

end Props
end Apron
