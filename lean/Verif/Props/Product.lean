import Verif.Core.Product
import Verif.Props.CoreCompare

/-!
# C117, C118: reduced products

The set of a product is the intersection of those of its components (`RP.Gam`).  The theorems hold for every number of components,
every domains that keep the promises `Man.Spec`, every option, and every reduction that changes neither the set nor the
dimensions (`RP.Sound`).
-/

set_option autoImplicit false
set_option linter.unusedSectionVars false
set_option linter.ambiguousOpen false

namespace Apron
open Bound

namespace RP

variable {K : Type*} [LinearOrder K] [Field K] {n : ℕ} {A : Fin (n + 1) → Type*}

/-- What is asked of the components besides `Man.Spec`, and of the reduction. -/
structure Sound (I : Intern K A) (C : ∀ i, A i → Prop) (ex : Fin (n + 1) → Prop) : Prop where
  spec : ∀ i, (I.man i).Spec (C i) (ex i)
  bottom : ∀ i p q, C i (I.bottom i p q) ∧ (I.man i).Dims (I.bottom i p q) p q ∧ ∀ x, ¬ (I.man i).Gam (I.bottom i p q) x
  isBottom : ∀ i a, C i a → I.isBottom i a = true → ∀ x, ¬ (I.man i).Gam a x
  reduce : ∀ a, Ok I C a → Ok I C (I.reduce a) ∧ intdim I (I.reduce a) = intdim I a ∧ realdim I (I.reduce a) = realdim I a ∧
    ∀ x, Gam I (I.reduce a) x ↔ Gam I a x

/-- two products with the same dimensions and the same set, the first one being legal -/
def Same (I : Intern K A) (C : ∀ i, A i → Prop) (a' a : RP A) : Prop :=
  Ok I C a' ∧ intdim I a' = intdim I a ∧ realdim I a' = realdim I a ∧ ∀ x, Gam I a' x ↔ Gam I a x

variable {I : Intern K A} {C : ∀ i, A i → Prop} {ex : Fin (n + 1) → Prop}

theorem Same.refl {a : RP A} (h : Ok I C a) : Same I C a a := ⟨h, rfl, rfl, fun _ => Iff.rfl⟩

theorem Same.trans {a b c : RP A} (h : Same I C a b) (h' : Same I C b c) : Same I C a c :=
  ⟨h.1, h.2.1.trans h'.2.1, h.2.2.1.trans h'.2.2.1, fun x => (h.2.2.2 x).trans (h'.2.2.2 x)⟩

theorem init_same (S : Sound I C ex) (f : Fid) {a : RP A} (h : Ok I C a) : Same I C (init I f a) a := by
  unfold init
  split_ifs
  · exact S.reduce a h
  · exact .refl h

theorem finish_same (S : Sound I C ex) (f : Fid) {a : RP A} (h : Ok I C a) : Same I C (finish I f a) a := by
  unfold finish
  split_ifs
  · exact S.reduce a h
  · exact .refl h

/-- a product built componentwise, of dimensions `(i, r)` -/
theorem ok_mk {red : Bool} {f : ∀ i, A i} {p q : ℕ} (h : ∀ i, C i (f i) ∧ (I.man i).Dims (f i) p q) :
    Ok I C ⟨red, f⟩ ∧ intdim I ⟨red, f⟩ = p ∧ realdim I ⟨red, f⟩ = q := by
  have h1 : intdim I ⟨red, f⟩ = p := (h 0).2.1
  have h2 : realdim I ⟨red, f⟩ = q := (h 0).2.2
  exact ⟨fun i => by rw [h1, h2]; exact h i, h1, h2⟩

theorem mapStop_same (S : Sound I C ex) {f : ∀ i, A i} {red : Bool} {p q : ℕ} (h : ∀ i, C i (f i) ∧ (I.man i).Dims (f i) p q) :
    Ok I C (mapStop I f red) ∧ intdim I (mapStop I f red) = p ∧ realdim I (mapStop I f red) = q ∧
      ∀ x, Gam I (mapStop I f red) x ↔ ∀ i, (I.man i).Gam (f i) x := by
  unfold mapStop
  split
  · rename_i k hk
    have hb := List.find?_some hk
    have hd := (h k).2
    have hok : ∀ i, C i ((setBottom I f k).p i) ∧ (I.man i).Dims ((setBottom I f k).p i) p q := fun i => by
      simp only [setBottom]
      split_ifs
      · exact h i
      · rw [hd.1, hd.2]; exact ⟨(S.bottom i p q).1, (S.bottom i p q).2.1⟩
    obtain ⟨h1, h2, h3⟩ := ok_mk (red := true) hok
    refine ⟨h1, h2, h3, fun x => ⟨fun hx => ?_, fun hx => ?_⟩⟩
    · have := hx k
      simp only [setBottom, if_true] at this
      exact absurd this (S.isBottom k _ (h k).1 hb x)
    · exact absurd (hx k) (S.isBottom k _ (h k).1 hb x)
  · obtain ⟨h1, h2, h3⟩ := ok_mk (red := red) h
    exact ⟨h1, h2, h3, fun x => Iff.rfl⟩

/-- the common scheme of the operations on one product -/
theorem map1_spec (S : Sound I C ex) (f : Fid) (keep : Bool) (g : ∀ i, A i → A i) {a : RP A} (ha : Ok I C a) {p q : ℕ}
    (hg : ∀ i c, C i c → (I.man i).Dims c (intdim I a) (realdim I a) → C i (g i c) ∧ (I.man i).Dims (g i c) p q) :
    ∃ a', Same I C a' a ∧ Ok I C (map1 I f keep g a) ∧ intdim I (map1 I f keep g a) = p ∧ realdim I (map1 I f keep g a) = q ∧
      ∀ x, Gam I (map1 I f keep g a) x ↔ ∀ i, (I.man i).Gam (g i (a'.p i)) x := by
  have h0 := init_same S f ha
  refine ⟨init I f a, h0, ?_⟩
  obtain ⟨h1, h2, h3⟩ := ok_mk (I := I) (C := C) (red := keep && (init I f a).reduced) (f := fun i => g i ((init I f a).p i)) (p := p) (q := q)
    (fun i => hg i _ (h0.1 i).1 (by have := (h0.1 i).2; rwa [h0.2.1, h0.2.2.1] at this))
  have h4 := finish_same S f h1
  exact ⟨h4.1, h4.2.1.trans h2, h4.2.2.1.trans h3, fun x => h4.2.2.2 x⟩

theorem Same.comp {a' a : RP A} (h : Same I C a' a) (i : Fin (n + 1)) :
    C i (a'.p i) ∧ (I.man i).intdim (a'.p i) = intdim I a ∧ (I.man i).realdim (a'.p i) = realdim I a ∧ (I.man i).dim (a'.p i) = intdim I a + realdim I a := by
  obtain ⟨h1, h2, h3⟩ := h.1 i
  rw [h.2.1] at h2; rw [h.2.2.1] at h3
  exact ⟨h1, h2, h3, by rw [Man.dim, h2, h3]⟩

end RP

namespace Props
open RP

variable {K : Type*} [LinearOrder K] [Field K] {n : ℕ} {A : Fin (n + 1) → Type*} {I : Intern K A} {C : ∀ i, A i → Prop}
  {ex : Fin (n + 1) → Prop}

theorem rp_dim (a : RP A) : (rpMan I).dim a = intdim I a + realdim I a := rfl

/-- A product keeps the promises of an abstract domain as soon as its components do: meet, insertion, permutation, expansion are
exact, the others are upper approximations; hence all theorems on level 0 and level 1 (C57, C58, C70-C76) apply to products. -/
theorem C117_product_is_a_domain (S : Sound I C ex) : (rpMan I).Spec (Ok I C) False := by
  -- dimensions of a component
  have dm : ∀ {i : Fin (n + 1)} {c : A i} {a : RP A}, (I.man i).Dims c (intdim I a) (realdim I a) →
      (I.man i).intdim c = intdim I a ∧ (I.man i).realdim c = realdim I a ∧ (I.man i).dim c = intdim I a + realdim I a :=
    fun h => ⟨h.1, h.2, by rw [Man.dim, h.1, h.2]⟩
  refine ⟨?_, ?_, ?_, ?_, ?_, ?_, ?_, ?_, ?_, ?_, ?_⟩
  · intro a ha x y h hx i
    refine (S.spec i).congr _ (ha i).1 x y (fun v hv => h v ?_) (hx i)
    rw [(dm (ha i).2).2.2] at hv
    exact hv
  · intro p q
    obtain ⟨h1, h2, h3⟩ := ok_mk (I := I) (C := C) (red := true) (f := fun k => (I.man k).top p q) (p := p) (q := q)
      (fun i => ⟨((S.spec i).top p q).1, ((S.spec i).top p q).2.1⟩)
    exact ⟨h1, ⟨h2, h3⟩, fun x i => ((S.spec i).top p q).2.2 x⟩
  · intro a pos k project ha hne hk hl
    have hg : ∀ i c, C i c → (I.man i).Dims c (intdim I a) (realdim I a) → _ := fun i c hc hd =>
      (S.spec i).add c pos k project hc hne hk (by rw [hd.1, hd.2]; exact hl)
    obtain ⟨a', h0, h1, h2, h3, h4⟩ := map1_spec S .add true (fun i c => (I.man i).add c pos k project) ha (p := intdim I a + k)
      (q := realdim I a + (pos.length - k)) (fun i c hc hd => by
        obtain ⟨g1, g2, _⟩ := hg i c hc hd
        rw [hd.1, hd.2] at g2
        exact ⟨g1, g2⟩)
    refine ⟨h1, ⟨h2, h3⟩, fun x => (h4 x).trans ?_⟩
    have hi : ∀ i, _ := fun i => (hg i (a'.p i) (h0.comp i).1 ⟨(h0.comp i).2.1, (h0.comp i).2.2.1⟩).2.2 x
    constructor
    · intro h
      exact ⟨(h0.2.2.2 _).1 fun i => ((hi i).1 (h i)).1, ((hi 0).1 (h 0)).2⟩
    · rintro ⟨g1, g2⟩ i
      exact (hi i).2 ⟨(h0.2.2.2 _).2 g1 i, g2⟩
  · intro a pos k ha hne hk hl
    have hg : ∀ i c, C i c → (I.man i).Dims c (intdim I a) (realdim I a) → _ := fun i c hc hd =>
      (S.spec i).remove c pos k hc hne hk (by rw [hd.1, hd.2]; exact hl)
    obtain ⟨a', h0, h1, h2, h3, h4⟩ := map1_spec S .remove false (fun i c => (I.man i).remove c pos k) ha (p := intdim I a - k)
      (q := realdim I a - (pos.length - k)) (fun i c hc hd => by
        obtain ⟨g1, g2, _⟩ := hg i c hc hd
        rw [hd.1, hd.2] at g2
        exact ⟨g1, g2⟩)
    refine ⟨h1, ⟨h2, h3⟩, fun x x' hx hk => (h4 x').2 fun i => ?_, False.elim⟩
    obtain ⟨c1, c2, c3, c4⟩ := h0.comp i
    refine (hg i (a'.p i) c1 ⟨c2, c3⟩).2.2.1 x x' ((h0.2.2.2 x).2 hx i) ?_
    rw [c4]; exact hk
  · intro a perm ha hp
    have hg : ∀ i c, C i c → (I.man i).Dims c (intdim I a) (realdim I a) → _ := fun i c hc hd =>
      (S.spec i).permute c perm hc (by rw [(dm hd).2.2]; exact hp)
    obtain ⟨a', h0, h1, h2, h3, h4⟩ := map1_spec S .permute true (fun i c => (I.man i).permute c perm) ha (p := intdim I a)
      (q := realdim I a) (fun i c hc hd => by
        obtain ⟨g1, g2, _⟩ := hg i c hc hd
        rw [hd.1, hd.2] at g2
        exact ⟨g1, g2⟩)
    refine ⟨h1, ⟨h2, h3⟩, fun x => (h4 x).trans ?_⟩
    have hi : ∀ i, _ := fun i => (hg i (a'.p i) (h0.comp i).1 ⟨(h0.comp i).2.1, (h0.comp i).2.2.1⟩).2.2 x
    exact (forall_congr' hi).trans (h0.2.2.2 _)
  · intro a b ha hb hd
    have h0 := init_same S .meet ha
    have k0 := init_same S .meet hb
    have hg : ∀ i, _ := fun i => (S.spec i).meet _ _ (h0.comp i).1 (k0.comp i).1
      (by rw [(h0.comp i).2.1, (h0.comp i).2.2.1]
          exact ⟨(k0.comp i).2.1.trans hd.1, (k0.comp i).2.2.1.trans hd.2⟩)
    obtain ⟨h1, h2, h3, h4⟩ := mapStop_same S (red := false) (p := intdim I a) (q := realdim I a)
      (f := fun i => (I.man i).meet ((init I .meet a).p i) ((init I .meet b).p i)) (fun i => by
        obtain ⟨g1, g2, _⟩ := hg i
        rw [(h0.comp i).2.1, (h0.comp i).2.2.1] at g2
        exact ⟨g1, g2⟩)
    have h5 := finish_same S .meet h1
    refine ⟨h5.1, ⟨h5.2.1.trans h2, h5.2.2.1.trans h3⟩, fun x => (h5.2.2.2 x).trans ((h4 x).trans ?_)⟩
    have : (∀ i, (I.man i).Gam ((I.man i).meet ((init I .meet a).p i) ((init I .meet b).p i)) x) ↔ _ :=
      forall_congr' fun i => (hg i).2.2 x
    rw [this]
    exact forall_and.trans (and_congr (h0.2.2.2 x) (k0.2.2.2 x))
  · intro a b ha hb hd
    have h0 := init_same S .join ha
    have k0 := init_same S .join hb
    have hg : ∀ i, _ := fun i => (S.spec i).join _ _ (h0.comp i).1 (k0.comp i).1
      (by rw [(h0.comp i).2.1, (h0.comp i).2.2.1]
          exact ⟨(k0.comp i).2.1.trans hd.1, (k0.comp i).2.2.1.trans hd.2⟩)
    obtain ⟨h1, h2, h3⟩ := ok_mk (I := I) (C := C) (red := (init I .join a).reduced && (init I .join b).reduced) (p := intdim I a) (q := realdim I a)
      (f := fun i => (I.man i).join ((init I .join a).p i) ((init I .join b).p i)) (fun i => by
        obtain ⟨g1, g2, _⟩ := hg i
        rw [(h0.comp i).2.1, (h0.comp i).2.2.1] at g2
        exact ⟨g1, g2⟩)
    have h5 := finish_same S .join h1
    refine ⟨h5.1, ⟨h5.2.1.trans h2, h5.2.2.1.trans h3⟩, fun x hx => (h5.2.2.2 x).2 fun i => ?_, False.elim⟩
    exact (hg i).2.2.1 x (hx.imp (fun h => (h0.2.2.2 x).2 h i) (fun h => (k0.2.2.2 x).2 h i))
  · intro a d k ha hd hk
    have hg : ∀ i c, C i c → (I.man i).Dims c (intdim I a) (realdim I a) → _ := fun i c hc hd' =>
      (S.spec i).expand c d k hc (by rw [(dm hd').2.2]; exact hd) hk
    obtain ⟨a', h0, h1, h2, h3, h4⟩ := map1_spec S .expand true (fun i c => (I.man i).expand c d k) ha
      (p := if d < intdim I a then intdim I a + k else intdim I a)
      (q := if d < intdim I a then realdim I a else realdim I a + k) (fun i c hc hd => by
        obtain ⟨g1, g2, _⟩ := hg i c hc hd
        rw [hd.1, hd.2] at g2
        exact ⟨g1, g2⟩)
    refine ⟨h1, ⟨h2, h3⟩, fun x => (h4 x).trans ?_⟩
    have hoff : ∀ i, (I.man i).off (a'.p i) d = (rpMan I).off a d := fun i => by
      obtain ⟨_, c2, _, c4⟩ := h0.comp i
      rw [Man.off, Man.off, c2, c4]; rfl
    have hi : ∀ i, _ := fun i => (hg i (a'.p i) (h0.comp i).1 ⟨(h0.comp i).2.1, (h0.comp i).2.2.1⟩).2.2 x
    simp only [hoff] at hi
    constructor
    · exact fun h y hy => (h0.2.2.2 _).1 fun i => (hi i).1 (h i) y hy
    · exact fun h i => (hi i).2 fun y hy => (h0.2.2.2 _).2 (h y hy) i
  · intro a d ts ha hne hs hlt hty
    have hg : ∀ i c, C i c → (I.man i).Dims c (intdim I a) (realdim I a) → _ := fun i c hc hd' =>
      (S.spec i).fold c d ts hc hne hs (by rw [(dm hd').2.2]; exact hlt) (by rw [hd'.1]; exact hty)
    obtain ⟨a', h0, h1, h2, h3, h4⟩ := map1_spec S .fold false (fun i c => (I.man i).fold c d ts) ha
      (p := if d < intdim I a then intdim I a - ts.length else intdim I a)
      (q := if d < intdim I a then realdim I a else realdim I a - ts.length) (fun i c hc hd => by
        obtain ⟨g1, g2, _⟩ := hg i c hc hd
        rw [hd.1, hd.2] at g2
        exact ⟨g1, g2⟩)
    refine ⟨h1, ⟨h2, h3⟩, fun x x' t hx ht hd hk => (h4 x').2 fun i => ?_, False.elim⟩
    obtain ⟨c1, c2, c3, c4⟩ := h0.comp i
    refine (hg i (a'.p i) c1 ⟨c2, c3⟩).2.2.1 x x' t ((h0.2.2.2 x).2 hx i) ht hd ?_
    rw [c4]; exact hk
  · intro a tdim project ha hlt
    have hg : ∀ i c, C i c → (I.man i).Dims c (intdim I a) (realdim I a) → _ := fun i c hc hd' =>
      (S.spec i).forget c tdim project hc (by rw [(dm hd').2.2]; exact hlt)
    obtain ⟨a', h0, h1, h2, h3, h4⟩ := map1_spec S .forget true (fun i c => (I.man i).forget c tdim project) ha (p := intdim I a)
      (q := realdim I a) (fun i c hc hd => by
        obtain ⟨g1, g2, _⟩ := hg i c hc hd
        rw [hd.1, hd.2] at g2
        exact ⟨g1, g2⟩)
    refine ⟨h1, ⟨h2, h3⟩, fun x x' hx hk hz => (h4 x').2 fun i => ?_, False.elim⟩
    obtain ⟨c1, c2, c3, c4⟩ := h0.comp i
    refine (hg i (a'.p i) c1 ⟨c2, c3⟩).2.2.1 x x' ((h0.2.2.2 x).2 hx i) ?_ hz
    rw [c4]; exact hk
  · intro a d ha hd h x y hx
    have h0 := init_same S .isDimUnconstrained ha
    refine (h0.2.2.2 _).1 fun i => ?_
    obtain ⟨c1, c2, c3, c4⟩ := h0.comp i
    refine (S.spec i).unconstrained _ d c1 (by rw [c4]; exact hd) ?_ x y ((h0.2.2.2 x).2 hx i)
    exact List.all_eq_true.1 h i (List.mem_finRange i)

end Props
end Apron
