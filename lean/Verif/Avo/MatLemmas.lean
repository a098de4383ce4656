import Verif.Avo.Closure
import Verif.Oct.NoNinf

/-! # Helper lemmas: bounds with strictness -/

set_option autoImplicit false
set_option linter.unusedSectionVars false
set_option linter.ambiguousOpen false

namespace Apron
namespace Avo
open Bound Oct
variable {K : Type*} [LinearOrder K] [Field K] [IsStrictOrderedRing K] (R : Rnd K) {θ : Bound K}

/-- `v` satisfies the constraint, read as strict only when the mark is below `θ`: with `θ = +oo`
this is `Ok` -/
def OkT (θ : Bound K) (v : K) (b : SB K) : Prop := fin v ≤ b.1 ∧ (b.2 < θ → fin v < b.1)

/-- same for all constraints -/
def GSatT (θ : Bound K) (N : ℕ) (M : SMem K) (y : ℕ → K) : Prop :=
  ∀ i j, i < 2 * N → Cell i j → OkT θ (V y j - V y i) (M (matpos i j))

theorem okT_pinf {v : K} {b : SB K} : OkT pinf v b ↔ Ok v b := by
  unfold OkT Ok
  have : b.2 < pinf ↔ b.2 ≠ pinf := by cases b.2 <;> simp
  rw [this]

theorem gsatT_pinf {N : ℕ} {M : SMem K} {y : ℕ → K} : GSatT pinf N M y ↔ GSat N M y := by
  unfold GSatT GSat
  simp only [okT_pinf]

theorem OkT.mono {v v' : K} {b : SB K} (h : OkT θ v b) (hv : v' ≤ v) : OkT θ v' b := by
  have h0 : (fin v' : Bound K) ≤ fin v := by simpa using hv
  exact ⟨h0.trans h.1, fun hn => h0.trans_lt (h.2 hn)⟩

theorem ok_top (v : K) (n : Bound K) : OkT θ v (pinf, n) := ⟨by simp, fun _ => by simp⟩

theorem add_gt {b c : Bound K} {x y : K} (hb : fin x < b) (hc : fin y ≤ c) :
    fin (x + y) < add R b c := by
  cases b <;> cases c <;> simp_all [add]
  exact lt_of_lt_of_le (by simpa using add_lt_add_of_lt_of_le hb hc) (R.up_ge _)

theorem add_gt' {b c : Bound K} {x y : K} (hb : fin x ≤ b) (hc : fin y < c) :
    fin (x + y) < add R b c := by
  cases b <;> cases c <;> simp_all [add]
  exact lt_of_lt_of_le (by simpa using add_lt_add_of_le_of_lt hb hc) (R.up_ge _)

theorem div2_gt {b : Bound K} {u : K} (h : fin u < b) : fin (u / 2) < div2 R b := by
  cases b with
  | ninf => simp at h
  | pinf => simp [div2]
  | fin q =>
    simp only [div2]
    refine lt_of_lt_of_le ?_ (R.up_ge _)
    simp at h ⊢; linarith

theorem mul2_gt {b : Bound K} {u : K} (h : fin u < b) : fin (2 * u) < mul2 R b := by
  cases b with
  | ninf => simp at h
  | pinf => simp [mul2]
  | fin q =>
    simp only [mul2]
    refine lt_of_lt_of_le ?_ (R.up_ge _)
    simp at h ⊢; linarith

theorem bmin_lt {a b θ : Bound K} (h : bmin a b < θ) : a < θ ∨ b < θ := by
  rwa [bmin_eq_min, min_lt_iff] at h

theorem not_pinf_lt (θ : Bound K) : ¬ (pinf : Bound K) < θ := by cases θ <;> simp

theorem OkT.add {u v : K} {a b : SB K} (ha : OkT θ u a) (hb : OkT θ v b) : OkT θ (u + v) (SB.add R a b) := by
  refine ⟨add_ge R ha.1 hb.1, fun hn => ?_⟩
  rcases bmin_lt hn with h | h
  · exact add_gt R (ha.2 h) hb.1
  · exact add_gt' R ha.1 (hb.2 h)

theorem OkT.addNsc {u v : K} {a b : SB K} (ha : OkT θ u a) (hb : OkT θ v b) :
    OkT θ (u + v) (SB.addNsc R a b) := by
  have h := ha.add R hb
  refine ⟨h.1, fun hn => ?_⟩
  unfold SB.addNsc at hn
  dsimp only at hn
  split_ifs at hn with hi
  · exact absurd hn (not_pinf_lt _)
  · exact h.2 hn

theorem OkT.half {u : K} {a : SB K} (ha : OkT θ u a) : OkT θ (u / 2) (SB.half R a) :=
  ⟨div2_ge R ha.1, fun hn => div2_gt R (ha.2 hn)⟩

theorem OkT.dbl {u : K} {a : SB K} (ha : OkT θ u a) : OkT θ (2 * u) (SB.dbl R a) :=
  ⟨mul2_ge R ha.1, fun hn => mul2_gt R (ha.2 hn)⟩

/-- the order in which `bound_bmin_nsc` minimises -/
def LE (a b : SB K) : Prop := a.1 < b.1 ∨ (a.1 = b.1 ∧ a.2 ≤ b.2)

theorem LE.refl (a : SB K) : LE a a := Or.inr ⟨rfl, le_rfl⟩

theorem LE.trans {a b c : SB K} (h : LE a b) (h' : LE b c) : LE a c := by
  rcases h with h | ⟨h, h2⟩ <;> rcases h' with h' | ⟨h', h2'⟩
  · exact Or.inl (h.trans h')
  · exact Or.inl (h' ▸ h)
  · exact Or.inl (h ▸ h')
  · exact Or.inr ⟨h.trans h', h2.trans h2'⟩

theorem LE.fst {a b : SB K} (h : LE a b) : a.1 ≤ b.1 := by
  rcases h with h | ⟨h, -⟩
  · exact h.le
  · exact h.le

theorem LE.ok {a b : SB K} (h : LE a b) {v : K} (hv : OkT θ v a) : OkT θ v b := by
  rcases h with h | ⟨h, h2⟩
  · exact ⟨hv.1.trans h.le, fun _ => hv.1.trans_lt h⟩
  · exact ⟨h ▸ hv.1, fun hn => h ▸ hv.2 (h2.trans_lt hn)⟩

theorem SB.lt_iff {a b : SB K} : SB.lt a b ↔ ¬ LE b a := by
  unfold SB.lt LE
  constructor
  · rintro (h | ⟨h, h2⟩) (h' | ⟨h', h2'⟩)
    · exact lt_asymm h h'
    · exact h.ne' h'
    · exact h'.ne' h
    · exact absurd h2 (not_lt.2 h2')
  · intro h
    push Not at h
    rcases lt_or_eq_of_le h.1 with h1 | h1
    · exact Or.inl h1
    · exact Or.inr ⟨h1, h.2 h1.symm⟩

theorem SB.lt.le {a b : SB K} (h : SB.lt a b) : LE a b := by
  rcases h with h | ⟨h, h2⟩
  · exact Or.inl h
  · exact Or.inr ⟨h, h2.le⟩

theorem SB.min_le (d v : SB K) : LE (SB.min d v) d := by
  unfold SB.min
  split_ifs with h1 h2
  · exact LE.refl _
  · exact h2.le
  · exact LE.refl _

theorem SB.low_le (d v : SB K) : LE (SB.low d v) d := by
  unfold SB.low
  split_ifs with h2
  · exact h2.le
  · exact LE.refl _

theorem SB.min_ok {u : K} {d v : SB K} (hd : OkT θ u d) (hv : OkT θ u v) : OkT θ u (SB.min d v) := by
  unfold SB.min; split_ifs <;> assumption

theorem SB.low_ok {u : K} {d v : SB K} (hd : OkT θ u d) (hv : OkT θ u v) : OkT θ u (SB.low d v) := by
  unfold SB.low; split_ifs <;> assumption

theorem SB.le_max_left (d v : SB K) : LE d (SB.max d v) := by
  unfold SB.max
  split_ifs with h
  · exact h.le
  · exact LE.refl _

theorem SB.le_max_right (d v : SB K) : LE v (SB.max d v) := by
  unfold SB.max
  split_ifs with h
  · exact LE.refl _
  · rw [SB.lt_iff, not_not] at h; exact h

theorem SB.max_ok {u : K} {d v : SB K} (h : OkT θ u d ∨ OkT θ u v) : OkT θ u (SB.max d v) := by
  rcases h with h | h
  · exact (SB.le_max_left d v).ok h
  · exact (SB.le_max_right d v).ok h

/-! ### memories -/

/-- every cell of `M'` is at least as tight as in `M` -/
def Below (M' M : SMem K) : Prop := ∀ q, LE (M' q) (M q)

theorem Below.refl (M : SMem K) : Below M M := fun _ => LE.refl _
theorem Below.trans {M M' M'' : SMem K} (h : Below M'' M') (h' : Below M' M) : Below M'' M :=
  fun q => (h q).trans (h' q)

theorem Below.sat {N : ℕ} {y : ℕ → K} {M M' : SMem K} (h : Below M' M) (hs : GSatT θ N M' y) :
    GSatT θ N M y := fun i j hi hc => (h _).ok (hs i j hi hc)

/-- the diagonal cells are at most `0` -/
def Diag (N : ℕ) (M : SMem K) : Prop := ∀ i, i < 2 * N → (M (matpos i i)).1 ≤ fin 0

theorem Below.diag {N : ℕ} {M M' : SMem K} (h : Below M' M) (hd : Diag N M) : Diag N M' :=
  fun i hi => (h _).fst.trans (hd i hi)

theorem below_bmin (M : SMem K) (p : ℕ) (v : SB K) : Below (M.bmin p v) M := by
  intro q
  unfold SMem.bmin
  split_ifs with h
  · rw [h]; exact SB.min_le _ _
  · exact LE.refl _

theorem below_addTo (M : SMem K) (p : ℕ) (a b : SB K) : Below (M.addTo R p a b) M := by
  intro q
  unfold SMem.addTo
  split_ifs with h
  · rw [h]; exact SB.low_le _ _
  · exact LE.refl _

theorem below_capZero (M : SMem K) (p : ℕ) : Below (capZero M p) M := by
  unfold capZero
  split_ifs with h0
  · intro q
    unfold SMem.set
    split_ifs with h
    · rw [h]; exact Or.inl h0
    · exact LE.refl _
  · exact Below.refl _

section sat
variable {N : ℕ} {y : ℕ → K} {M : SMem K}

theorem GSatT.rd (h : GSatT θ N M y) {i j : ℕ} (hi : i < 2 * N) (hj : j < 2 * N) :
    OkT θ (V y j - V y i) (M (matpos2 i j)) := by
  rw [matpos2_eq]
  split_ifs with hc
  · exact h i j hi hc
  · have := h _ _ (xor1_lt hj) ((cell_or_mirror i j).resolve_left hc)
    rw [V_xor1, V_xor1] at this
    rwa [show V y j - V y i = -V y i - -V y j by ring]

/-- changing one cell to a constraint that holds -/
theorem GSatT.upd (h : GSatT θ N M y) {i j : ℕ} {v : SB K}
    (hv : OkT θ (V y j - V y i) v) :
    GSatT θ N (fun q => if q = matpos2 i j then v else M q) y := by
  intro i' j' hi' hc'
  dsimp only
  split_ifs with e
  · rw [matpos2_eq] at e
    split_ifs at e with hc
    · obtain ⟨rfl, rfl⟩ := matpos_inj hc' hc e
      exact hv
    · obtain ⟨rfl, rfl⟩ := matpos_inj hc' ((cell_or_mirror i j).resolve_left hc) e
      rw [V_xor1, V_xor1, show -V y i - -V y j = V y j - V y i by ring]
      exact hv
  · exact h i' j' hi' hc'

theorem GSatT.bmin (h : GSatT θ N M y) {i j : ℕ} (hi : i < 2 * N) (hj : j < 2 * N) {v : SB K}
    (hv : OkT θ (V y j - V y i) v) : GSatT θ N (M.bmin (matpos2 i j) v) y :=
  h.upd (SB.min_ok (h.rd hi hj) hv)

theorem GSatT.cp (h : GSatT θ N M y) {i j : ℕ} (hi : i < 2 * N) (hj : j < 2 * N) {k l : ℕ}
    (hk : k < 2 * N) (hl : l < 2 * N) (hv : V y j - V y i ≤ V y l - V y k) :
    GSatT θ N (Avo.cp M (matpos2 i j) (matpos2 k l)) y :=
  h.bmin hi hj ((h.rd hk hl).mono hv)

theorem GSatT.set (h : GSatT θ N M y) {i j : ℕ} {v : SB K}
    (hv : OkT θ (V y j - V y i) v) : GSatT θ N (M.set (matpos2 i j) v) y := h.upd hv

theorem GSatT.addTo (h : GSatT θ N M y) {i j : ℕ} (hi : i < 2 * N) (hj : j < 2 * N) {k : ℕ}
    {a b : SB K} (ha : OkT θ (V y k - V y i) a) (hb : OkT θ (V y j - V y k) b) :
    GSatT θ N (M.addTo R (matpos2 i j) a b) y := by
  refine h.upd (SB.low_ok (h.rd hi hj) ?_)
  have := ha.addNsc R hb
  rwa [show V y k - V y i + (V y j - V y k) = V y j - V y i by ring] at this

theorem GSatT.capZero (h : GSatT θ N M y) {i j : ℕ} (hv : V y j - V y i ≤ 0) :
    GSatT θ N (Avo.capZero M (matpos2 i j)) y := by
  unfold Avo.capZero
  split_ifs
  · exact h.set ⟨by simpa using hv, fun hn => absurd hn (not_pinf_lt _)⟩
  · exact h

end sat

/-- a step that keeps `y` and only tightens -/
def Ref (θ : Bound K) (N : ℕ) (y : ℕ → K) (M M' : SMem K) : Prop := (GSatT θ N M y → GSatT θ N M' y) ∧ Below M' M

section ref
variable {N : ℕ} {y : ℕ → K}

theorem Ref.refl (M : SMem K) : Ref θ N y M M := ⟨fun h => h, Below.refl _⟩
theorem Ref.trans {M M' M'' : SMem K} (h : Ref θ N y M M') (h' : Ref θ N y M' M'') : Ref θ N y M M'' :=
  ⟨fun hs => h'.1 (h.1 hs), h'.2.trans h.2⟩

theorem ref_foldl {α : Type*} (f : SMem K → α → SMem K) (l : List α)
    (h : ∀ M a, a ∈ l → Ref θ N y M (f M a)) (M : SMem K) : Ref θ N y M (l.foldl f M) :=
  foldl_inv (fun M' => Ref θ N y M M') f l (fun M' a ha hM => hM.trans (h M' a ha)) M (Ref.refl M)

theorem ref_bmin {M : SMem K} {i j : ℕ} (hi : i < 2 * N) (hj : j < 2 * N) {v : SB K}
    (hv : GSatT θ N M y → OkT θ (V y j - V y i) v) : Ref θ N y M (M.bmin (matpos2 i j) v) :=
  ⟨fun h => h.bmin hi hj (hv h), below_bmin _ _ _⟩

theorem ref_cp {M : SMem K} {i j k l : ℕ} (hi : i < 2 * N) (hj : j < 2 * N) (hk : k < 2 * N)
    (hl : l < 2 * N) (hv : V y j - V y i ≤ V y l - V y k) :
    Ref θ N y M (cp M (matpos2 i j) (matpos2 k l)) :=
  ⟨fun h => h.cp hi hj hk hl hv, below_bmin _ _ _⟩

theorem ref_capZero {M : SMem K} {i j : ℕ} (hv : V y j - V y i ≤ 0) :
    Ref θ N y M (capZero M (matpos2 i j)) := ⟨fun h => h.capZero hv, below_capZero _ _⟩

theorem ref_addTo {M : SMem K} {i j k : ℕ} (hi : i < 2 * N) (hj : j < 2 * N) {a b : SB K}
    (ha : GSatT θ N M y → OkT θ (V y k - V y i) a) (hb : GSatT θ N M y → OkT θ (V y j - V y k) b) :
    Ref θ N y M (M.addTo R (matpos2 i j) a b) :=
  ⟨fun h => h.addTo R hi hj (ha h) (hb h), below_addTo _ _ _ _ _⟩

end ref

/-- a step with an emptiness test -/
def RefB (θ : Bound K) (N : ℕ) (y : ℕ → K) (M : SMem K) (r : Bool × SMem K) : Prop :=
  (Diag N M → GSatT θ N M y → r.1 = false ∧ GSatT θ N r.2 y) ∧ Below r.2 M

section refb
variable {N : ℕ} {y : ℕ → K}

theorem Ref.thenB {M M' : SMem K} {r : Bool × SMem K} (h : Ref θ N y M M') (h' : RefB θ N y M' r) :
    RefB θ N y M r :=
  ⟨fun hd hs => h'.1 (h.2.diag hd) (h.1 hs), h'.2.trans h.2⟩

theorem RefB.bind {M : SMem K} {r : Bool × SMem K} (h : RefB θ N y M r)
    {f : SMem K → Bool × SMem K} (h' : ∀ M', RefB θ N y M' (f M')) :
    RefB θ N y M (andThen r f) := by
  obtain ⟨b, M'⟩ := r
  unfold andThen
  cases b
  · exact ⟨fun hd hs => (h' M').1 (h.2.diag hd) (h.1 hd hs).2, (h' M').2.trans h.2⟩
  · exact ⟨fun hd hs => absurd (h.1 hd hs).1 (by simp), h.2⟩

theorem diagCheck_ref (hθ : fin 0 ≤ θ) (l : List ℕ) (hl : ∀ i ∈ l, i < 2 * N) (M : SMem K) :
    RefB θ N y M (diagCheck l M) := by
  induction l generalizing M with
  | nil => exact ⟨fun _ h => ⟨rfl, h⟩, Below.refl _⟩
  | cons i l ih =>
    have hi := hl i (by simp)
    have ih := ih fun j hj => hl j (by simp [hj])
    rw [diagCheck]
    have e : matpos2 i i = matpos i i := matpos2_cell (cell_refl i)
    rw [e]
    split_ifs with hc
    · refine ⟨fun hd hs => ?_, Below.refl _⟩
      exfalso
      have h := hs i i hi (cell_refl i)
      rw [sub_self] at h
      rcases hc with hc | ⟨hc, hn⟩
      · exact absurd h.1 (not_le.2 hc)
      · have := h.2 (hn.trans_le hθ)
        rw [hc] at this
        exact lt_irrefl _ this
    · have hb : Below (M.set (matpos i i) (fin 0, (M (matpos i i)).2)) M := by
        intro q
        unfold SMem.set
        split_ifs with h
        · rw [h]
          push Not at hc
          rcases lt_or_eq_of_le hc.1 with h1 | h1
          · exact Or.inl h1
          · exact Or.inr ⟨h1, le_rfl⟩
        · exact LE.refl _
      refine ⟨fun hd hs => (ih _).1 (hb.diag hd) ?_, (ih _).2.trans hb⟩
      have h := hs i i hi (cell_refl i)
      have h0 : (M (matpos i i)).1 = fin 0 :=
        le_antisymm (hd i hi) (by have := h.1; rwa [sub_self] at this)
      have he : M.set (matpos i i) (fin 0, (M (matpos i i)).2) = M := by
        funext q
        unfold SMem.set
        split_ifs with h
        · rw [h, ← h0]
        · rfl
      rw [he]; exact hs

theorem diagCheck'_ref (l : List ℕ) (hl : ∀ i ∈ l, i < 2 * N) (M : SMem K) :
    RefB θ N y M (diagCheck' l M) := by
  induction l generalizing M with
  | nil => exact ⟨fun _ h => ⟨rfl, h⟩, Below.refl _⟩
  | cons i l ih =>
    have hi := hl i (by simp)
    have ih := ih fun j hj => hl j (by simp [hj])
    rw [diagCheck']
    have e : matpos2 i i = matpos i i := matpos2_cell (cell_refl i)
    rw [e]
    split_ifs with hc
    · refine ⟨fun hd hs => ?_, Below.refl _⟩
      exfalso
      have h := hs i i hi (cell_refl i)
      rw [sub_self] at h
      exact absurd h.1 (not_le.2 hc)
    · have hb : Below (M.set (matpos i i) (fin 0, (M (matpos i i)).2)) M := by
        intro q
        unfold SMem.set
        split_ifs with h
        · rw [h]
          push Not at hc
          rcases lt_or_eq_of_le hc with h1 | h1
          · exact Or.inl h1
          · exact Or.inr ⟨h1, le_rfl⟩
        · exact LE.refl _
      refine ⟨fun hd hs => (ih _).1 (hb.diag hd) ?_, (ih _).2.trans hb⟩
      have h := hs i i hi (cell_refl i)
      have h0 : (M (matpos i i)).1 = fin 0 :=
        le_antisymm (hd i hi) (by have := h.1; rwa [sub_self] at this)
      have he : M.set (matpos i i) (fin 0, (M (matpos i i)).2) = M := by
        funext q
        unfold SMem.set
        split_ifs with h
        · rw [h, ← h0]
        · rfl
      rw [he]; exact hs

end refb

/-! ### the quantities `x`, `|x|` -/

section ext
variable {dim : ℕ} {x : ℕ → K}

theorem V_ext_lo {t : ℕ} (ht : t < 2 * dim) : V (ext dim x) t = V x t := by
  unfold V ext
  rw [if_pos (show t / 2 < dim by omega)]

theorem V_ext_hi {t : ℕ} (ht : t < 2 * dim) :
    V (ext dim x) (2 * dim + t) = if t % 2 = 0 then |V x t| else -|V x t| := by
  unfold V ext
  have h1 : (2 * dim + t) / 2 = dim + t / 2 := by omega
  have h2 : (2 * dim + t) % 2 = t % 2 := by omega
  rw [h1, h2, if_neg (show ¬ dim + t / 2 < dim by omega),
    show dim + t / 2 - dim = t / 2 by omega]
  split_ifs <;> simp

end ext

end Avo
end Apron
