import Verif.Props.Product

/-!
# C118: tests, bounds and transfer functions of reduced products
-/

set_option autoImplicit false
set_option linter.unusedSectionVars false
set_option linter.ambiguousOpen false

namespace Apron
open Bound

namespace RP
variable {K : Type*} [LinearOrder K] [Field K] [IsStrictOrderedRing K] {n : ℕ}

/-- membership in an interval given by its lower and upper bounds -/
def InItv (p : Bound K × Bound K) (v : K) : Prop := p.1 ≤ fin v ∧ fin v ≤ p.2

theorem inItv_meetWith (a b : Bound K × Bound K) (v : K) : InItv (meetWith a b) v ↔ InItv a v ∧ InItv b v := by
  have h1 : (meetWith a b).1 = max a.1 b.1 := by
    unfold meetWith
    by_cases h : scalarCmp a.1 b.1 < 0
    · rw [if_pos h]
      rw [scalarCmp_eq, cmp_lt_zero] at h
      exact (max_eq_right h.le).symm
    · rw [if_neg h]
      rw [scalarCmp_eq, cmp_lt_zero, not_lt] at h
      exact (max_eq_left h).symm
  have h2 : (meetWith a b).2 = min a.2 b.2 := by
    unfold meetWith
    by_cases h : scalarCmp a.2 b.2 > 0
    · rw [if_pos h]
      rw [scalarCmp_eq, gt_iff_lt, cmp_pos] at h
      exact (min_eq_right h.le).symm
    · rw [if_neg h]
      rw [scalarCmp_eq, gt_iff_lt, cmp_pos, not_lt] at h
      exact (min_eq_left h).symm
  unfold InItv
  rw [h1, h2, max_le_iff, le_min_iff]
  tauto

theorem not_inItv_of_bottom {a : Bound K × Bound K} (h : intervalIsBottom a.1 a.2 = true) (v : K) : ¬ InItv a v := by
  rw [intervalIsBottom_iff] at h
  exact fun hv => absurd (hv.1.trans hv.2) (not_le.2 h)

theorem boundLoop_spec (f : Fin (n + 1) → Bound K × Bound K) (l : List (Fin (n + 1))) (g : Bound K × Bound K) (v : K) :
    InItv (boundLoop f l g) v ↔ InItv g v ∧ ∀ i ∈ l, InItv (f i) v := by
  induction l generalizing g with
  | nil => simp [boundLoop]
  | cons i l ih =>
    rw [boundLoop]
    by_cases h : intervalIsBottom (meetWith g (f i)).1 (meetWith g (f i)).2 = true
    · rw [if_pos h]
      have hb := not_inItv_of_bottom h v
      refine ⟨fun h' => absurd h' hb, fun ⟨h1, h2⟩ => absurd ((inItv_meetWith _ _ _).2 ⟨h1, h2 i (by simp)⟩) hb⟩
    · rw [if_neg h, ih, inItv_meetWith, List.forall_mem_cons, and_assoc]

/-- membership in a box -/
def InBox (l : List (Bound K × Bound K)) (x : ℕ → K) : Prop := ∀ k, ∀ p, l[k]? = some p → InItv p (x k)

theorem inBox_cons (p : Bound K × Bound K) (l : List (Bound K × Bound K)) (x : ℕ → K) :
    InBox (p :: l) x ↔ InItv p (x 0) ∧ InBox l (fun k => x (k + 1)) := by
  constructor
  · exact fun h => ⟨h 0 p rfl, fun k q hq => h (k + 1) q (by simpa using hq)⟩
  · rintro ⟨h1, h2⟩ (_ | k) q hq
    · obtain rfl : p = q := by simpa using hq
      exact h1
    · exact h2 k q (by simpa using hq)

theorem boxMeet_spec (g b : List (Bound K × Bound K)) (hl : g.length = b.length) (x : ℕ → K) :
    (∀ r, boxMeet g b = some r → r.length = g.length ∧ (InBox r x ↔ InBox g x ∧ InBox b x)) ∧
    (boxMeet g b = none → ¬ (InBox g x ∧ InBox b x)) := by
  induction g generalizing b x with
  | nil =>
    obtain rfl : b = [] := by
      cases b with
      | nil => rfl
      | cons => simp at hl
    simp [boxMeet, InBox]
  | cons p g ih =>
    cases b with
    | nil => simp at hl
    | cons q b =>
      obtain ⟨i1, i2⟩ := ih b (by simpa using hl) (fun k => x (k + 1))
      rw [boxMeet]
      simp only [inBox_cons]
      by_cases h : intervalIsBottom (meetWith p q).1 (meetWith p q).2 = true
      · rw [if_pos h]
        refine ⟨fun r h => by simp at h, fun _ h' => ?_⟩
        exact not_inItv_of_bottom h (x 0) ((inItv_meetWith _ _ _).2 ⟨h'.1.1, h'.2.1⟩)
      · rw [if_neg h]
        constructor
        · intro r hr
          obtain ⟨r', hr', rfl⟩ := Option.map_eq_some_iff.1 hr
          obtain ⟨j1, j2⟩ := i1 r' hr'
          refine ⟨by simp [j1], ?_⟩
          rw [inBox_cons, inItv_meetWith, j2]
          tauto
        · intro hn h'
          exact i2 (Option.map_eq_none_iff.1 hn) ⟨h'.1.2, h'.2.2⟩

theorem boxLoop_spec (f : Fin (n + 1) → List (Bound K × Bound K)) (l : List (Fin (n + 1))) (g : List (Bound K × Bound K))
    (hl : ∀ i ∈ l, (f i).length = g.length) :
    (boxLoop f l g).length = g.length ∧
      ((∀ x, InBox (boxLoop f l g) x ↔ InBox g x ∧ ∀ i ∈ l, InBox (f i) x) ∨
        (∀ x, ¬ (InBox g x ∧ ∀ i ∈ l, InBox (f i) x)) ∧ boxLoop f l g = List.replicate g.length (.fin 1, .fin (-1))) := by
  induction l generalizing g with
  | nil => exact ⟨rfl, Or.inl fun x => by simp [boxLoop]⟩
  | cons i l ih =>
    have hi : g.length = (f i).length := (hl i (by simp)).symm
    rw [boxLoop]
    rcases h : boxMeet g (f i) with _ | g'
    · refine ⟨by simp, Or.inr ⟨fun x hx => ?_, rfl⟩⟩
      exact (boxMeet_spec g (f i) hi x).2 h ⟨hx.1, hx.2 i (by simp)⟩
    · have hs := fun x => (boxMeet_spec g (f i) hi x).1 g' h
      have hlen := (hs 0).1
      obtain ⟨j1, j2⟩ := ih g' (fun k hk => (hl k (by simp [hk])).trans hlen.symm)
      refine ⟨j1.trans hlen, ?_⟩
      have e : ∀ x, (InBox g' x ∧ ∀ i ∈ l, InBox (f i) x) ↔ InBox g x ∧ ∀ k ∈ i :: l, InBox (f k) x := fun x => by
        rw [(hs x).2, List.forall_mem_cons, and_assoc]
      rcases j2 with j2 | ⟨j2, j3⟩
      · exact Or.inl fun x => (j2 x).trans (e x)
      · exact Or.inr ⟨fun x hx => j2 x ((e x).2 hx), by simp only; rw [j3, hlen]⟩

end RP

namespace Props
open RP

variable {K : Type*} [LinearOrder K] [Field K] [IsStrictOrderedRing K] {n : ℕ} {A : Fin (n + 1) → Type*} {I : Intern K A}
  {C : ∀ i, A i → Prop} {ex : Fin (n + 1) → Prop}

/-! ## Tests -/

/-- A product said to be empty has no point. -/
theorem C118_is_bottom_sound (S : Sound I C ex) (a : RP A) (ha : Ok I C a) (h : RP.isBottom I a = true) (x : ℕ → K) :
    ¬ RP.Gam I a x := by
  have h0 := init_same S .isBottom ha
  obtain ⟨i, _, hi⟩ := List.any_eq_true.1 h
  exact fun hx => S.isBottom i _ (h0.comp i).1 hi x ((h0.2.2.2 x).2 hx i)

/-- The flag `exact` of a product is set exactly when all the components set theirs; then the result is exactly the intersection of
what the components had to compute. -/
theorem C118_flag_exact_components (fl : Fin (n + 1) → Bool) :
    (RP.flagExact fl = true ↔ ∀ i, fl i = true) ∧
    (RP.flagExact fl = true → ∀ (r : RP A) (T : ∀ _ : Fin (n + 1), (ℕ → K) → Prop),
      (∀ i, fl i = true → ∀ x, (I.man i).Gam (r.p i) x ↔ T i x) → ∀ x, RP.Gam I r x ↔ ∀ i, T i x) := by
  have h : RP.flagExact fl = true ↔ ∀ i, fl i = true := by simp [RP.flagExact]
  exact ⟨h, fun he r T hT x => forall_congr' fun i => hT i (h.1 he i) x⟩

/-- A product said to be everything has all points; conversely a product of components that all are, for tests that are exact and
without reduction -/
theorem C118_is_top_sound (S : Sound I C ex) (t : ∀ i, A i → Bool) (ht : ∀ i c, C i c → t i c = true → ∀ x, (I.man i).Gam c x)
    (a : RP A) (ha : Ok I C a) (h : RP.isTop I t a = true) (x : ℕ → K) : RP.Gam I a x := by
  have h0 := init_same S .isTop ha
  exact (h0.2.2.2 x).1 fun i => ht i _ (h0.comp i).1 (List.all_eq_true.1 h i (List.mem_finRange i)) x

/-- A positive answer of `is_leq` is right. -/
theorem C118_is_leq_sound (S : Sound I C ex) (t : ∀ i, A i → A i → Bool)
    (ht : ∀ i c d, C i c → C i d → (I.man i).Dims d ((I.man i).intdim c) ((I.man i).realdim c) → t i c d = true →
      ∀ x, (I.man i).Gam c x → (I.man i).Gam d x)
    (a b : RP A) (ha : Ok I C a) (hb : Ok I C b) (hd : intdim I b = intdim I a ∧ realdim I b = realdim I a)
    (h : RP.cmp2 I .isLeq t a b = true) (x : ℕ → K) (hx : RP.Gam I a x) : RP.Gam I b x := by
  have h0 := init_same S .isLeq ha
  have k0 := init_same S .isLeq hb
  refine (k0.2.2.2 x).1 fun i => ?_
  refine ht i _ _ (h0.comp i).1 (k0.comp i).1 ?_ (List.all_eq_true.1 h i (List.mem_finRange i)) x ((h0.2.2.2 x).2 hx i)
  rw [(h0.comp i).2.1, (h0.comp i).2.2.1]
  exact ⟨(k0.comp i).2.1.trans hd.1, (k0.comp i).2.2.1.trans hd.2⟩

/-- A positive answer of `is_eq` is right. -/
theorem C118_is_eq_sound (S : Sound I C ex) (t : ∀ i, A i → A i → Bool)
    (ht : ∀ i c d, C i c → C i d → (I.man i).Dims d ((I.man i).intdim c) ((I.man i).realdim c) → t i c d = true →
      ∀ x, (I.man i).Gam c x ↔ (I.man i).Gam d x)
    (a b : RP A) (ha : Ok I C a) (hb : Ok I C b) (hd : intdim I b = intdim I a ∧ realdim I b = realdim I a)
    (h : RP.cmp2 I .isEq t a b = true) (x : ℕ → K) : RP.Gam I a x ↔ RP.Gam I b x := by
  have h0 := init_same S .isEq ha
  have k0 := init_same S .isEq hb
  rw [← h0.2.2.2 x, ← k0.2.2.2 x]
  refine forall_congr' fun i => ?_
  refine ht i _ _ (h0.comp i).1 (k0.comp i).1 ?_ (List.all_eq_true.1 h i (List.mem_finRange i)) x
  rw [(h0.comp i).2.1, (h0.comp i).2.2.1]
  exact ⟨(k0.comp i).2.1.trans hd.1, (k0.comp i).2.2.1.trans hd.2⟩

/-- A positive answer about a property of all points is right (`sat_lincons`, `sat_tcons`, `sat_interval`). -/
theorem C118_sat_sound (S : Sound I C ex) (P : (ℕ → K) → Prop) (t : ∀ i, A i → Bool) (a : RP A) (ha : Ok I C a)
    (ht : ∀ i c, C i c → (I.man i).Dims c (intdim I a) (realdim I a) → t i c = true → ∀ x, (I.man i).Gam c x → P x)
    (h : RP.sat I t a = true) (x : ℕ → K) (hx : RP.Gam I a x) : P x := by
  have h0 := init_same S .sat ha
  obtain ⟨i, _, hi⟩ := List.any_eq_true.1 h
  exact ht i _ (h0.comp i).1 ⟨(h0.comp i).2.1, (h0.comp i).2.2.1⟩ hi x ((h0.2.2.2 x).2 hx i)

/-! ## Bounds and conversions -/

/-- The interval returned for an expression contains its value at every point. -/
theorem C118_bound_sound (S : Sound I C ex) (val : (ℕ → K) → K → Prop) (f : ∀ i, A i → Bound K × Bound K) (a : RP A) (ha : Ok I C a)
    (hf : ∀ i c, C i c → (I.man i).Dims c (intdim I a) (realdim I a) → ∀ x v, (I.man i).Gam c x → val x v → InItv (f i c) v)
    (x : ℕ → K) (v : K) (hx : RP.Gam I a x) (hv : val x v) : InItv (RP.bound I f a) v := by
  have h0 := init_same S .bound ha
  refine (boundLoop_spec _ _ _ _).2 ⟨by simp [InItv], fun i _ => ?_⟩
  exact hf i _ (h0.comp i).1 ⟨(h0.comp i).2.1, (h0.comp i).2.2.1⟩ x v ((h0.2.2.2 x).2 hx i) hv

/-- It is the intersection of those of the components, in the reduced product if the options ask for the reduction. -/
theorem C118_bound_is_intersection (f : ∀ i, A i → Bound K × Bound K) (a : RP A) (v : K) :
    InItv (RP.bound I f a) v ↔ ∀ i, InItv (f i ((RP.init I .bound a).p i)) v := by
  refine (boundLoop_spec _ _ _ _).trans ⟨fun h i => h.2 i (List.mem_finRange i), fun h => ⟨by simp [InItv], fun i _ => h i⟩⟩

/-- The box returned contains every point, and it has the right number of dimensions. -/
theorem C118_to_box_sound (S : Sound I C ex) (f : ∀ i, A i → List (Bound K × Bound K)) (a : RP A) (ha : Ok I C a)
    (hf : ∀ i c, C i c → (I.man i).Dims c (intdim I a) (realdim I a) →
      (f i c).length = intdim I a + realdim I a ∧ ∀ x, (I.man i).Gam c x → InBox (f i c) x) :
    (RP.toBox I f a).length = intdim I a + realdim I a ∧ ∀ x, RP.Gam I a x → InBox (RP.toBox I f a) x := by
  have h0 := init_same S .toBox ha
  have hi : ∀ i, _ := fun i => hf i ((RP.init I .toBox a).p i) (h0.comp i).1 ⟨(h0.comp i).2.1, (h0.comp i).2.2.1⟩
  obtain ⟨j1, j2⟩ := boxLoop_spec (fun i => f i ((RP.init I .toBox a).p i)) (List.finRange (n + 1)).tail
    (f 0 ((RP.init I .toBox a).p 0)) (fun i _ => (hi i).1.trans (hi 0).1.symm)
  refine ⟨j1.trans (hi 0).1, fun x hx => ?_⟩
  have hall : ∀ i, InBox (f i ((RP.init I .toBox a).p i)) x := fun i => (hi i).2 x ((h0.2.2.2 x).2 hx i)
  rcases j2 with j2 | ⟨j2, _⟩
  · exact (j2 x).2 ⟨hall 0, fun i _ => hall i⟩
  · exact absurd ⟨hall 0, fun i _ => hall i⟩ (j2 x)

/-- It is the intersection of the boxes of the components, in at least one dimension (in dimension 0 an empty component cannot be
seen in a box). -/
theorem C118_to_box_is_intersection (f : ∀ i, A i → List (Bound K × Bound K)) (a : RP A) (m : ℕ) (hm : 0 < m)
    (hl : ∀ i, (f i ((RP.init I .toBox a).p i)).length = m) (x : ℕ → K) :
    InBox (RP.toBox I f a) x ↔ ∀ i, InBox (f i ((RP.init I .toBox a).p i)) x := by
  obtain ⟨j1, j2⟩ := boxLoop_spec (fun i => f i ((RP.init I .toBox a).p i)) (List.finRange (n + 1)).tail
    (f 0 ((RP.init I .toBox a).p 0)) (fun i _ => (hl i).trans (hl 0).symm)
  have e : (InBox (f 0 ((RP.init I .toBox a).p 0)) x ∧
      ∀ i ∈ (List.finRange (n + 1)).tail, InBox (f i ((RP.init I .toBox a).p i)) x) ↔
      ∀ i, InBox (f i ((RP.init I .toBox a).p i)) x := by
    refine ⟨fun h i => ?_, fun h => ⟨h 0, fun i _ => h i⟩⟩
    have : i ∈ List.finRange (n + 1) := List.mem_finRange i
    rw [List.finRange_succ] at this h
    rcases List.mem_cons.1 this with rfl | h'
    · exact h.1
    · exact h.2 i h'
  rcases j2 with j2 | ⟨j2, j3⟩
  · exact (j2 x).trans e
  · refine ⟨fun h => ?_, fun h => absurd (e.2 h) (j2 x)⟩
    have h' : InBox (List.replicate m ((.fin 1, .fin (-1)) : Bound K × Bound K)) x := by
      rw [← hl 0, ← j3]; exact h
    have := h' 0 _ (by rw [List.getElem?_replicate, if_pos hm])
    simp only [InItv, fin_le_fin] at this
    exact absurd (this.1.trans this.2) (by norm_num)

/-- The constraints returned describe the product, if those of the components describe them. -/
theorem C118_to_cons (S : Sound I C ex) {Cs : Type*} (Holds : Cs → (ℕ → K) → Prop) (f : ∀ i, A i → List Cs) (a : RP A) (ha : Ok I C a)
    (hf : ∀ i c, C i c → (I.man i).Dims c (intdim I a) (realdim I a) → ∀ x, (I.man i).Gam c x ↔ ∀ d ∈ f i c, Holds d x)
    (x : ℕ → K) : RP.Gam I a x ↔ ∀ d ∈ RP.toCons I f a, Holds d x := by
  have h0 := init_same S .toLincons ha
  rw [← h0.2.2.2 x]
  unfold RP.toCons RP.Gam
  simp only [List.mem_flatMap, List.mem_finRange, true_and, forall_exists_index]
  exact ⟨fun h d i hd => (hf i _ (h0.comp i).1 ⟨(h0.comp i).2.1, (h0.comp i).2.2.1⟩ x).1 (h i) d hd,
    fun h i => (hf i _ (h0.comp i).1 ⟨(h0.comp i).2.1, (h0.comp i).2.2.1⟩ x).2 fun d hd => h d i hd⟩

/-! ## Operations -/

/-- conversion from a box: exact if that of the components is -/
theorem C118_of_box (S : Sound I C ex) (f : ∀ i, A i) (p q : ℕ) (P : (ℕ → K) → Prop)
    (hf : ∀ i, C i (f i) ∧ (I.man i).Dims (f i) p q ∧ ∀ x, (I.man i).Gam (f i) x ↔ P x) :
    Ok I C (RP.ofBox I f) ∧ intdim I (RP.ofBox I f) = p ∧ realdim I (RP.ofBox I f) = q ∧ ∀ x, RP.Gam I (RP.ofBox I f) x ↔ P x := by
  obtain ⟨h1, h2, h3, h4⟩ := mapStop_same S (red := false) (p := p) (q := q) (f := f) (fun i => ⟨(hf i).1, (hf i).2.1⟩)
  have h5 := finish_same S .ofBox h1
  refine ⟨h5.1, h5.2.1.trans h2, h5.2.2.1.trans h3, fun x => (h5.2.2.2 x).trans ((h4 x).trans ?_)⟩
  exact ⟨fun h => ((hf 0).2.2 x).1 (h 0), fun h i => ((hf i).2.2 x).2 h⟩

/-- a copy has the same points -/
theorem C118_copy (S : Sound I C ex) (a : RP A) (ha : Ok I C a) : Same I C (RP.copy I a) a :=
  (finish_same S .copy (init_same S .copy ha).1).trans (init_same S .copy ha)

/-- The meet with constraints keeps every point that satisfies them, and no point outside of the product. -/
theorem C118_meet_cons (S : Sound I C ex) {Cs : Type*} (P : (ℕ → K) → Prop) (f : ∀ i, A i → List Cs → A i) (a : RP A) (l : List Cs)
    (ha : Ok I C a)
    (hf : ∀ i c, C i c → (I.man i).Dims c (intdim I a) (realdim I a) → C i (f i c l) ∧ (I.man i).Dims (f i c l) (intdim I a) (realdim I a) ∧
      (∀ x, (I.man i).Gam c x → P x → (I.man i).Gam (f i c l) x) ∧ ∀ x, (I.man i).Gam (f i c l) x → (I.man i).Gam c x) :
    Ok I C (RP.meetCons I f a l) ∧ intdim I (RP.meetCons I f a l) = intdim I a ∧ realdim I (RP.meetCons I f a l) = realdim I a ∧
      (∀ x, RP.Gam I a x → P x → RP.Gam I (RP.meetCons I f a l) x) ∧ ∀ x, RP.Gam I (RP.meetCons I f a l) x → RP.Gam I a x := by
  have h0 := init_same S .meetCons ha
  have hg : ∀ i, _ := fun i => hf i ((RP.init I .meetCons a).p i) (h0.comp i).1 ⟨(h0.comp i).2.1, (h0.comp i).2.2.1⟩
  obtain ⟨h1, h2, h3, h4⟩ := mapStop_same S (red := false) (p := intdim I a) (q := realdim I a)
    (f := fun i => f i ((RP.init I .meetCons a).p i) l) (fun i => ⟨(hg i).1, (hg i).2.1⟩)
  have h5 := finish_same S .meetCons (a := ⟨false, (mapStop I (fun i => f i ((RP.init I .meetCons a).p i) l) false).p⟩) h1
  refine ⟨h5.1, h5.2.1.trans h2, h5.2.2.1.trans h3, fun x hx hp => (h5.2.2.2 x).2 ((h4 x).2 fun i => ?_), fun x hx => ?_⟩
  · exact (hg i).2.2.1 x ((h0.2.2.2 x).2 hx i) hp
  · refine (h0.2.2.2 x).1 fun i => (hg i).2.2.2 x ?_
    exact (h4 x).1 ((h5.2.2.2 x).1 hx) i

/-- Assignments and substitutions: the points that the operation must keep (`Step x y`: `y` must be kept if `x` is a point), if they are
in the destination. -/
theorem C118_asssub_sound (S : Sound I C ex) {E : Type*} (assign : Bool) (Step : (ℕ → K) → (ℕ → K) → Prop)
    (f : ∀ i, A i → List (ℕ × E) → Option (A i) → A i) (a : RP A) (l : List (ℕ × E)) (dest : Option (RP A)) (ha : Ok I C a)
    (hdest : ∀ d, dest = some d → Ok I C d ∧ intdim I d = intdim I a ∧ realdim I d = realdim I a)
    (hf : ∀ i c d, C i c → (I.man i).Dims c (intdim I a) (realdim I a) →
      (∀ e, d = some e → C i e ∧ (I.man i).Dims e (intdim I a) (realdim I a)) →
      C i (f i c l d) ∧ (I.man i).Dims (f i c l d) (intdim I a) (realdim I a) ∧
      ∀ x y, (I.man i).Gam c x → Step x y → (∀ e, d = some e → (I.man i).Gam e y) → (I.man i).Gam (f i c l d) y) :
    Ok I C (RP.asssub I assign f a l dest) ∧ intdim I (RP.asssub I assign f a l dest) = intdim I a ∧
      realdim I (RP.asssub I assign f a l dest) = realdim I a ∧
      ∀ x y, RP.Gam I a x → Step x y → (∀ d, dest = some d → RP.Gam I d y) → RP.Gam I (RP.asssub I assign f a l dest) y := by
  unfold RP.asssub
  dsimp only
  generalize (if assign = true then Fid.assign else Fid.substitute) = fid
  have h0 := init_same S fid ha
  have hd : ∀ d, dest.map (RP.init I fid) = some d → ∃ d0, dest = some d0 ∧ Same I C d d0 ∧ intdim I d0 = intdim I a ∧ realdim I d0 = realdim I a := by
    intro d hd
    obtain ⟨d0, e0, rfl⟩ := Option.map_eq_some_iff.1 hd
    exact ⟨d0, e0, init_same S fid (hdest d0 e0).1, (hdest d0 e0).2.1, (hdest d0 e0).2.2⟩
  generalize dest.map (RP.init I fid) = dst at *
  have hg : ∀ i, _ := fun i => hf i ((RP.init I fid a).p i) (dst.map fun d => d.p i) (h0.comp i).1 ⟨(h0.comp i).2.1, (h0.comp i).2.2.1⟩ (by
    intro e he
    obtain ⟨d, e1, rfl⟩ := Option.map_eq_some_iff.1 he
    obtain ⟨d0, _, s, s1, s2⟩ := hd d e1
    exact ⟨(s.comp i).1, (s.comp i).2.1.trans s1, (s.comp i).2.2.1.trans s2⟩)
  have hG : ∀ x y, RP.Gam I a x → Step x y → (∀ d, dest = some d → RP.Gam I d y) →
      ∀ i, (I.man i).Gam (f i ((RP.init I fid a).p i) l (dst.map fun d => d.p i)) y := by
    intro x y hx hs hdd i
    refine (hg i).2.2 x y ((h0.2.2.2 x).2 hx i) hs ?_
    intro e he
    obtain ⟨d, e1, rfl⟩ := Option.map_eq_some_iff.1 he
    obtain ⟨d0, e0, s, _, _⟩ := hd d e1
    exact (s.2.2.2 y).2 (hdd d0 e0) i
  by_cases hb : (dst.isSome || !assign) = true
  · rw [if_pos hb]
    obtain ⟨h1, h2, h3, h4⟩ := mapStop_same S (red := false) (p := intdim I a) (q := realdim I a)
      (f := fun i => f i ((RP.init I fid a).p i) l (dst.map fun d => d.p i)) (fun i => ⟨(hg i).1, (hg i).2.1⟩)
    have h5 := finish_same S fid (a := ⟨false, (mapStop I (fun i => f i ((RP.init I fid a).p i) l (dst.map fun d : RP A => d.p i)) false).p⟩) h1
    exact ⟨h5.1, h5.2.1.trans h2, h5.2.2.1.trans h3, fun x y hx hs hdd => (h5.2.2.2 y).2 ((h4 y).2 (hG x y hx hs hdd))⟩
  · rw [if_neg hb]
    obtain ⟨h1, h2, h3⟩ := ok_mk (I := I) (C := C) (red := false) (p := intdim I a) (q := realdim I a)
      (f := fun i => f i ((RP.init I fid a).p i) l (dst.map fun d => d.p i)) (fun i => ⟨(hg i).1, (hg i).2.1⟩)
    have h5 := finish_same S fid h1
    exact ⟨h5.1, h5.2.1.trans h2, h5.2.2.1.trans h3, fun x y hx hs hdd => (h5.2.2.2 y).2 (hG x y hx hs hdd)⟩

/-- Meets and joins of arrays. -/
theorem C118_meet_array (S : Sound I C ex) (f : ∀ i, List (A i) → A i) (l : List (RP A)) (p q : ℕ)
    (hl : ∀ a ∈ l, Ok I C a ∧ intdim I a = p ∧ realdim I a = q)
    (hf : ∀ i m, m.length = l.length → (∀ c ∈ m, C i c ∧ (I.man i).Dims c p q) → C i (f i m) ∧ (I.man i).Dims (f i m) p q ∧
      ∀ x, (I.man i).Gam (f i m) x ↔ ∀ c ∈ m, (I.man i).Gam c x) :
    Ok I C (RP.meetArray I f l) ∧ intdim I (RP.meetArray I f l) = p ∧ realdim I (RP.meetArray I f l) = q ∧
      ∀ x, RP.Gam I (RP.meetArray I f l) x ↔ ∀ a ∈ l, RP.Gam I a x := by
  have hs : ∀ a ∈ l, Same I C (RP.init I .meetArray a) a := fun a ha => init_same S .meetArray (hl a ha).1
  have hg : ∀ i, _ := fun i => hf i ((l.map (RP.init I .meetArray)).map fun a => a.p i) (by simp) (by
    intro c hc
    simp only [List.map_map, List.mem_map, Function.comp_apply] at hc
    obtain ⟨a, ha, rfl⟩ := hc
    exact ⟨((hs a ha).comp i).1, ((hs a ha).comp i).2.1.trans (hl a ha).2.1, ((hs a ha).comp i).2.2.1.trans (hl a ha).2.2⟩)
  obtain ⟨h1, h2, h3, h4⟩ := mapStop_same S (red := false) (p := p) (q := q)
    (f := fun i => f i ((l.map (RP.init I .meetArray)).map fun a => a.p i)) (fun i => ⟨(hg i).1, (hg i).2.1⟩)
  have h5 := finish_same S .meetArray h1
  refine ⟨h5.1, h5.2.1.trans h2, h5.2.2.1.trans h3, fun x => (h5.2.2.2 x).trans ((h4 x).trans ?_)⟩
  refine (forall_congr' fun i => (hg i).2.2 x).trans ?_
  simp only [List.map_map, List.mem_map, Function.comp_apply, forall_exists_index, and_imp, forall_apply_eq_imp_iff₂]
  exact ⟨fun h a ha => ((hs a ha).2.2.2 x).1 fun i => h i a ha, fun h i a ha => ((hs a ha).2.2.2 x).2 (h a ha) i⟩

@[inherit_doc C118_meet_array]
theorem C118_join_array (S : Sound I C ex) (f : ∀ i, List (A i) → A i) (l : List (RP A)) (p q : ℕ)
    (hl : ∀ a ∈ l, Ok I C a ∧ intdim I a = p ∧ realdim I a = q)
    (hf : ∀ i m, m.length = l.length → (∀ c ∈ m, C i c ∧ (I.man i).Dims c p q) → C i (f i m) ∧ (I.man i).Dims (f i m) p q ∧
      ∀ x, ∀ c ∈ m, (I.man i).Gam c x → (I.man i).Gam (f i m) x) :
    Ok I C (RP.joinArray I f l) ∧ intdim I (RP.joinArray I f l) = p ∧ realdim I (RP.joinArray I f l) = q ∧
      ∀ x, ∀ a ∈ l, RP.Gam I a x → RP.Gam I (RP.joinArray I f l) x := by
  have hs : ∀ a ∈ l, Same I C (RP.init I .joinArray a) a := fun a ha => init_same S .joinArray (hl a ha).1
  have hg : ∀ i, _ := fun i => hf i ((l.map (RP.init I .joinArray)).map fun a => a.p i) (by simp) (by
    intro c hc
    simp only [List.map_map, List.mem_map, Function.comp_apply] at hc
    obtain ⟨a, ha, rfl⟩ := hc
    exact ⟨((hs a ha).comp i).1, ((hs a ha).comp i).2.1.trans (hl a ha).2.1, ((hs a ha).comp i).2.2.1.trans (hl a ha).2.2⟩)
  obtain ⟨h1, h2, h3⟩ := ok_mk (I := I) (C := C) (red := false) (p := p) (q := q)
    (f := fun i => f i ((l.map (RP.init I .joinArray)).map fun a => a.p i)) (fun i => ⟨(hg i).1, (hg i).2.1⟩)
  have h5 := finish_same S .joinArray h1
  refine ⟨h5.1, h5.2.1.trans h2, h5.2.2.1.trans h3, fun x a ha hx => (h5.2.2.2 x).2 fun i => ?_⟩
  refine (hg i).2.2 x ((RP.init I .joinArray a).p i) ?_ (((hs a ha).2.2.2 x).2 hx i)
  simp only [List.map_map, List.mem_map, Function.comp_apply]
  exact ⟨a, ha, rfl⟩

/-! ## Widening -/

/-- The widening is above both arguments. -/
theorem C118_widening_sound (S : Sound I C ex) (w : ∀ i, A i → A i → A i) (a b : RP A) (ha : Ok I C a) (hb : Ok I C b)
    (hd : intdim I b = intdim I a ∧ realdim I b = realdim I a)
    (hw : ∀ i c d, C i c → C i d → (I.man i).Dims c (intdim I a) (realdim I a) → (I.man i).Dims d (intdim I a) (realdim I a) →
      C i (w i c d) ∧ (I.man i).Dims (w i c d) (intdim I a) (realdim I a) ∧
      ∀ x, (I.man i).Gam c x ∨ (I.man i).Gam d x → (I.man i).Gam (w i c d) x) :
    Ok I C (RP.widening I w a b) ∧ intdim I (RP.widening I w a b) = intdim I a ∧ realdim I (RP.widening I w a b) = realdim I a ∧
      ∀ x, RP.Gam I a x ∨ RP.Gam I b x → RP.Gam I (RP.widening I w a b) x := by
  have h0 := init_same S .widening ha
  have k0 := init_same S .widening hb
  have hg : ∀ i, _ := fun i => hw i ((RP.init I .widening a).p i) ((RP.init I .widening b).p i) (h0.comp i).1 (k0.comp i).1
    ⟨(h0.comp i).2.1, (h0.comp i).2.2.1⟩ ⟨(k0.comp i).2.1.trans hd.1, (k0.comp i).2.2.1.trans hd.2⟩
  obtain ⟨h1, h2, h3⟩ := ok_mk (I := I) (C := C) (red := false) (p := intdim I a) (q := realdim I a)
    (f := fun i => w i ((RP.init I .widening a).p i) ((RP.init I .widening b).p i)) (fun i => ⟨(hg i).1, (hg i).2.1⟩)
  have h5 := finish_same S .widening h1
  refine ⟨h5.1, h5.2.1.trans h2, h5.2.2.1.trans h3, fun x hx => (h5.2.2.2 x).2 fun i => ?_⟩
  exact (hg i).2.2 x (hx.imp (fun h => (h0.2.2.2 x).2 h i) (fun h => (k0.2.2.2 x).2 h i))

/-- Without reduction during the widening (the default), the iterations of a product end as soon as those of the components do. -/
theorem C118_widening_terminates (w : ∀ i, A i → A i → A i) (h0 : I.alg .widening = 0)
    (hw : ∀ i (s y : ℕ → A i), (∀ k, s (k + 1) = w i (s k) (y k)) → ∃ N, ∀ k, N ≤ k → ∀ x, (I.man i).Gam (s k) x ↔ (I.man i).Gam (s N) x)
    (s y : ℕ → RP A) (hs : ∀ k, s (k + 1) = RP.widening I w (s k) (y k)) :
    ∃ N, ∀ k, N ≤ k → ∀ x, RP.Gam I (s k) x ↔ RP.Gam I (s N) x := by
  have hi : ∀ a : RP A, RP.init I .widening a = a := fun a => by
    unfold RP.init; rw [if_neg]; rw [h0]; simp
  have hf : ∀ a : RP A, RP.finish I .widening a = a := fun a => by
    unfold RP.finish; rw [if_neg]; rw [h0]; simp
  have hc : ∀ i, ∃ N, ∀ k, N ≤ k → ∀ x, (I.man i).Gam ((s k).p i) x ↔ (I.man i).Gam ((s N).p i) x := fun i =>
    hw i (fun k => (s k).p i) (fun k => (y k).p i) fun k => by
      simp only [hs k, RP.widening, hi, hf]
  choose N hN using hc
  refine ⟨(Finset.univ : Finset (Fin (n + 1))).sup N, fun k hk x => forall_congr' fun i => ?_⟩
  have hle : N i ≤ (Finset.univ : Finset (Fin (n + 1))).sup N := Finset.le_sup (Finset.mem_univ i)
  rw [hN i k (hle.trans hk), hN i _ hle]

end Props
end Apron
