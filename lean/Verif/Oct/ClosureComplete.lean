import Verif.Oct.ClosureAlg

/-! # Helper lemmas: the closure computes the strong closure (exact arithmetic) -/

set_option autoImplicit false
set_option linter.unusedSectionVars false
set_option linter.ambiguousOpen false

namespace Apron
namespace Oct
open Bound
variable {K : Type*} [LinearOrder K] [Field K] [IsStrictOrderedRing K]
variable {A : ℕ → ℕ → Bound K} {k : ℕ} {dim : ℕ}

/-- position `r` stores the constraint `(i,j)` -/
def Reads (dim r i j : ℕ) : Prop :=
  (r = matpos i j ∧ Cell i j ∧ i < 2 * dim) ∨
  (r = matpos (j ^^^ 1) (i ^^^ 1) ∧ Cell (j ^^^ 1) (i ^^^ 1) ∧ j < 2 * dim)

theorem Reads.symm {r i j : ℕ} (h : Reads dim r i j) : Reads dim r (j ^^^ 1) (i ^^^ 1) := by
  rcases h with ⟨h1, h2, h3⟩ | ⟨h1, h2, h3⟩
  · right; simp only [xor1_xor1]; exact ⟨h1, h2, xor1_lt h3⟩
  · left; exact ⟨h1, h2, xor1_lt h3⟩

theorem Reads.lt {r i j : ℕ} (h : Reads dim r i j) : r < matsize dim := by
  rcases h with ⟨rfl, h2, h3⟩ | ⟨rfl, h2, h3⟩
  · exact matpos_lt h3 h2
  · exact matpos_lt (xor1_lt h3) h2

theorem Reads.pos2 {i j : ℕ} (hi : i < 2 * dim) (hj : j < 2 * dim) : Reads dim (matpos2 i j) i j := by
  rw [matpos2_eq]
  split_ifs with h
  · left; exact ⟨rfl, h, hi⟩
  · right; exact ⟨rfl, (cell_or_mirror i j).resolve_left h, hj⟩

theorem Reads.view {m : Mem K} {r i j : ℕ} (h : Reads dim r i j) :
    m r = G dim m i j ∨ m r = G dim m (j ^^^ 1) (i ^^^ 1) := by
  rcases h with ⟨rfl, h2, h3⟩ | ⟨rfl, h2, h3⟩
  · left; rw [G_cell m h3 h2]
  · right; rw [G_cell m (xor1_lt h3) h2]

/-- every stored copy of the constraint `(i,j)` is at most `x` -/
def RU (dim : ℕ) (m : Mem K) (i j : ℕ) (x : K) : Prop := ∀ r, Reads dim r i j → m r ≤ fin x

theorem RU.symm {m : Mem K} {i j : ℕ} {x : K} (h : RU dim m i j x) :
    RU dim m (j ^^^ 1) (i ^^^ 1) x := fun r hr => h r (by simpa using hr.symm)

theorem RU.of_le {m : Mem K} (hc : Coh (G dim m)) {i j : ℕ} {x : K} (h : G dim m i j ≤ fin x) :
    RU dim m i j x := by
  intro r hr
  rcases hr.view (m := m) with e | e <;> rw [e]
  · exact h
  · rw [← hc i j]; exact h

theorem RU.le {m : Mem K} {i j : ℕ} {x : K} (hi : i < 2 * dim) (hj : j < 2 * dim)
    (h : RU dim m i j x) : G dim m i j ≤ fin x := by
  unfold G; rw [if_pos ⟨hi, hj⟩]; exact h _ (Reads.pos2 hi hj)

theorem RU.anti {m m' : Mem K} {i j : ℕ} {x : K} (hle : ∀ q, m' q ≤ m q) (h : RU dim m i j x) :
    RU dim m' i j x := fun r hr => le_trans (hle r) (h r hr)

/-- common shape of the loop bodies -/
def upd2 (m : Mem K) (p : ℕ) (u1 : Bound K) (r1 : ℕ) (u2 : Bound K) (r2 : ℕ) : Mem K :=
  (m.bmin p (add Rnd.exact u1 (m r1))).bmin p
    (add Rnd.exact u2 ((m.bmin p (add Rnd.exact u1 (m r1))) r2))

theorem closeCell_form {i j : ℕ} (hk : k < 2 * dim) (hi : i < 2 * dim) (hc : Cell i j)
    (ik ik2 : Bound K) (m : Mem K) :
    ∃ r1 r2, closeCell Rnd.exact k i ik ik2 m j = upd2 m (matpos i j) ik r1 ik2 r2 ∧
      Reads dim r1 k j ∧ Reads dim r2 (k ^^^ 1) j := by
  have hj2 : j < 2 * dim := by unfold Cell at hc; omega
  unfold closeCell
  split_ifs with hb
  · rw [le_min_iff] at hb
    refine ⟨_, _, rfl, Or.inl ⟨rfl, ?_, hk⟩, Or.inl ⟨rfl, ?_, xor1_lt hk⟩⟩
    · unfold Cell; omega
    · unfold Cell; rw [xor1_div]; omega
  · have hkj : k < j := by
      rw [le_min_iff, not_and_or] at hb
      have := le_or1_iff.2 hc
      omega
    refine ⟨_, _, rfl, Or.inr ⟨rfl, ?_, hj2⟩, Or.inr ⟨by rw [xor1_xor1], ?_, hj2⟩⟩
    · unfold Cell; rw [xor1_div, xor1_div]; omega
    · unfold Cell; rw [xor1_div, xor1_div, xor1_div]; omega

theorem incColCell_form {i j : ℕ} (hk : k < 2 * dim) (hj : j < 2 * dim)
    (ik ik2 : Bound K) (m : Mem K) :
    ∃ r1 r2, incColCell Rnd.exact k i ik ik2 m j = upd2 m (matpos j i) ik r1 ik2 r2 ∧
      Reads dim r1 j k ∧ Reads dim r2 j (k ^^^ 1) := by
  unfold incColCell
  split_ifs with hb
  · refine ⟨_, _, rfl, Or.inr ⟨rfl, ?_, hk⟩, Or.inr ⟨by rw [xor1_xor1], ?_, xor1_lt hk⟩⟩
    · unfold Cell; rw [xor1_div, xor1_div]; omega
    · unfold Cell; rw [xor1_div, xor1_div, xor1_div]; omega
  · refine ⟨_, _, rfl, Or.inl ⟨rfl, ?_, hj⟩, Or.inl ⟨rfl, ?_, hj⟩⟩
    · unfold Cell; omega
    · unfold Cell; rw [xor1_div]; omega

/-! ### Lower bound: no in-place value goes below the pair-pivot closure -/

def LB (dim : ℕ) (A : ℕ → ℕ → Bound K) (k : ℕ) (m : Mem K) : Prop :=
  ∀ i j x, G dim m i j ≤ fin x → CU A k i j x

theorem LB.bmin {m : Mem K} (hc : Coh A) (h : LB dim A k m) {i j : ℕ} (hcell : Cell i j)
    {v : Bound K} (hv : ∀ x, v ≤ fin x → CU A k i j x) : LB dim A k (m.bmin (matpos i j) v) := by
  intro i' j' x hx
  rcases G_bmin hcell hx with h1 | ⟨h1, ⟨rfl, rfl⟩ | ⟨rfl, rfl⟩⟩
  · exact h _ _ _ h1
  · exact hv x h1
  · exact CU_coh hc (hv x h1)

theorem LB.read {m : Mem K} (hc : Coh A) (h : LB dim A k m) {r i j : ℕ} (hr : Reads dim r i j)
    {x : K} (hx : m r ≤ fin x) : CU A k i j x := by
  rcases hr.view (m := m) with e | e <;> rw [e] at hx
  · exact h _ _ _ hx
  · have := CU_coh hc (h _ _ _ hx); simpa using this

theorem upd2_LB {m : Mem K} (hc : Coh A) (hn : NN A k) (h : LB dim A k m ∧ NoNinf dim m)
    {i j s1 s2 : ℕ} (hcell : Cell i j) {u1 u2 : Bound K} {r1 r2 : ℕ} (hs1 : Pv k s1)
    (hs2 : Pv k s2) (hr1 : Reads dim r1 s1 j) (hr2 : Reads dim r2 s2 j) (hu1 : u1 ≠ ninf)
    (hu2 : u2 ≠ ninf) (h1 : ∀ x, u1 ≤ fin x → CU A k i s1 x)
    (h2 : ∀ x, u2 ≤ fin x → CU A k i s2 x) :
    LB dim A k (upd2 m (matpos i j) u1 r1 u2 r2) ∧ NoNinf dim (upd2 m (matpos i j) u1 r1 u2 r2) := by
  have step : ∀ {m : Mem K} {s r : ℕ} {u : Bound K}, LB dim A k m ∧ NoNinf dim m → Pv k s →
      Reads dim r s j → u ≠ ninf → (∀ x, u ≤ fin x → CU A k i s x) →
      LB dim A k (m.bmin (matpos i j) (add Rnd.exact u (m r))) ∧
        NoNinf dim (m.bmin (matpos i j) (add Rnd.exact u (m r))) := by
    intro m s r u h hs hr hu hx
    refine ⟨h.1.bmin hc hcell fun x hv => ?_, h.2.bmin (add_exact_ne hu (h.2 r hr.lt))⟩
    obtain ⟨y, z, hy, hz, hyz⟩ := add_exact_le hu (h.2 r hr.lt) hv
    exact CU_mono hyz (CU_closed hn hs (hx y hy) (h.1.read hc hr hz))
  exact step (step h hs1 hr1 hu1 h1) hs2 hr2 hu2 h2

/-- column version: the path goes `i → s → j` with `u` covering `s → j` -/
theorem upd2_LB' {m : Mem K} (hc : Coh A) (hn : NN A k) (h : LB dim A k m ∧ NoNinf dim m)
    {i j s1 s2 : ℕ} (hcell : Cell i j) {u1 u2 : Bound K} {r1 r2 : ℕ} (hs1 : Pv k s1)
    (hs2 : Pv k s2) (hr1 : Reads dim r1 i s1) (hr2 : Reads dim r2 i s2) (hu1 : u1 ≠ ninf)
    (hu2 : u2 ≠ ninf) (h1 : ∀ x, u1 ≤ fin x → CU A k s1 j x)
    (h2 : ∀ x, u2 ≤ fin x → CU A k s2 j x) :
    LB dim A k (upd2 m (matpos i j) u1 r1 u2 r2) ∧ NoNinf dim (upd2 m (matpos i j) u1 r1 u2 r2) := by
  have step : ∀ {m : Mem K} {s r : ℕ} {u : Bound K}, LB dim A k m ∧ NoNinf dim m → Pv k s →
      Reads dim r i s → u ≠ ninf → (∀ x, u ≤ fin x → CU A k s j x) →
      LB dim A k (m.bmin (matpos i j) (add Rnd.exact u (m r))) ∧
        NoNinf dim (m.bmin (matpos i j) (add Rnd.exact u (m r))) := by
    intro m s r u h hs hr hu hx
    refine ⟨h.1.bmin hc hcell fun x hv => ?_, h.2.bmin (add_exact_ne hu (h.2 r hr.lt))⟩
    obtain ⟨y, z, hy, hz, hyz⟩ := add_exact_le hu (h.2 r hr.lt) hv
    exact CU_mono (by linarith) (CU_closed hn hs (h.1.read hc hr hz) (hx y hy))
  exact step (step h hs1 hr1 hu1 h1) hs2 hr2 hu2 h2

theorem closeRow_LB {m : Mem K} (hc : Coh A) (hn : NN A k) {s : ℕ} (hs : Pv k s)
    (hs2 : s < 2 * dim) {i : ℕ} (hi : i < 2 * dim) (h : LB dim A k m ∧ NoNinf dim m) :
    LB dim A k (closeRow Rnd.exact s m i) ∧ NoNinf dim (closeRow Rnd.exact s m i) := by
  unfold closeRow
  have r1 := Reads.pos2 hi hs2
  have r2 := Reads.pos2 hi (xor1_lt hs2)
  have e1 := h.2 _ r1.lt
  have e2 := h.2 _ r2.lt
  have c1 : ∀ x, m (matpos2 i s) ≤ fin x → CU A k i s x := fun x hx => h.1.read hc r1 hx
  have c2 : ∀ x, m (matpos2 i (s ^^^ 1)) ≤ fin x → CU A k i (s ^^^ 1) x :=
    fun x hx => h.1.read hc r2 hx
  refine foldl_inv (fun m => LB dim A k m ∧ NoNinf dim m) _ _ (fun m' j hj h' => ?_) m h
  have hcell : Cell i j := le_or1_iff.1 (by simpa [Nat.lt_succ_iff] using hj)
  obtain ⟨q1, q2, e, hq1, hq2⟩ := closeCell_form hs2 hi hcell (m (matpos2 i s))
    (m (matpos2 i (s ^^^ 1))) m'
  rw [e]
  exact upd2_LB hc hn h' hcell hs hs.xor hq1 hq2 e1 e2 c1 c2

theorem incCol_LB {m : Mem K} (hc : Coh A) (hn : NN A k) {s : ℕ} (hs : Pv k s)
    (hs2 : s < 2 * dim) {i : ℕ} (hi : i < 2 * dim) (h : LB dim A k m ∧ NoNinf dim m) :
    LB dim A k (incCol Rnd.exact dim s m i) ∧ NoNinf dim (incCol Rnd.exact dim s m i) := by
  unfold incCol
  have r1 := Reads.pos2 hs2 hi
  have r2 := Reads.pos2 (xor1_lt hs2) hi
  have e1 := h.2 _ r1.lt
  have e2 := h.2 _ r2.lt
  have c1 : ∀ x, m (matpos2 s i) ≤ fin x → CU A k s i x := fun x hx => h.1.read hc r1 hx
  have c2 : ∀ x, m (matpos2 (s ^^^ 1) i) ≤ fin x → CU A k (s ^^^ 1) i x :=
    fun x hx => h.1.read hc r2 hx
  refine foldl_inv (fun m => LB dim A k m ∧ NoNinf dim m) _ _ (fun m' j hj h' => ?_) m h
  rw [List.mem_range'_1] at hj
  have hcell : Cell j i := by unfold Cell; omega
  obtain ⟨q1, q2, e, hq1, hq2⟩ := incColCell_form (i := i) hs2 (show j < 2 * dim by omega)
    (m (matpos2 s i)) (m (matpos2 (s ^^^ 1) i)) m'
  rw [e]
  exact upd2_LB' hc hn h' hcell hs hs.xor hq1 hq2 e1 e2 c1 c2

theorem closePivot_LB {m : Mem K} (hc : Coh A) (hn : NN A k) {s : ℕ} (hs : Pv k s)
    (hs2 : s < 2 * dim) (h : LB dim A k m ∧ NoNinf dim m) :
    LB dim A k (closePivot Rnd.exact dim m s) ∧ NoNinf dim (closePivot Rnd.exact dim m s) := by
  unfold closePivot
  exact foldl_inv (fun m => LB dim A k m ∧ NoNinf dim m) _ _
    (fun m' i hi h' => closeRow_LB hc hn hs hs2 (by simpa using hi) h') m h

/-! ### no `-oo` without assumption on cycles -/

theorem upd2_ne {m : Mem K} (h : NoNinf dim m) {p r1 r2 : ℕ} {u1 u2 : Bound K} (hu1 : u1 ≠ ninf)
    (hu2 : u2 ≠ ninf) (hr1 : r1 < matsize dim) (hr2 : r2 < matsize dim) :
    NoNinf dim (upd2 m p u1 r1 u2 r2) := by
  have h1 := h.bmin (p := p) (add_exact_ne hu1 (h r1 hr1))
  exact h1.bmin (add_exact_ne hu2 (h1 r2 hr2))

theorem closeRow_ne {m : Mem K} {s : ℕ} (hs2 : s < 2 * dim) {i : ℕ} (hi : i < 2 * dim)
    (h : NoNinf dim m) : NoNinf dim (closeRow Rnd.exact s m i) := by
  unfold closeRow
  have e1 := h _ (Reads.pos2 hi hs2).lt
  have e2 := h _ (Reads.pos2 hi (xor1_lt hs2)).lt
  refine foldl_inv (NoNinf dim) _ _ (fun m' j hj h' => ?_) m h
  have hcell : Cell i j := le_or1_iff.1 (by simpa [Nat.lt_succ_iff] using hj)
  obtain ⟨q1, q2, e, hq1, hq2⟩ := closeCell_form hs2 hi hcell (m (matpos2 i s))
    (m (matpos2 i (s ^^^ 1))) m'
  rw [e]
  exact upd2_ne h' e1 e2 hq1.lt hq2.lt

theorem closePivot_ne {m : Mem K} {s : ℕ} (hs2 : s < 2 * dim)
    (h : NoNinf dim m) : NoNinf dim (closePivot Rnd.exact dim m s) := by
  unfold closePivot
  exact foldl_inv (NoNinf dim) _ _ (fun m' i hi h' => closeRow_ne hs2 (by simpa using hi) h') m h

/-! ### Upper bound: one pass performs all the relaxations through its pivots -/

theorem upd2_le1 {m : Mem K} {p r1 r2 : ℕ} {u1 u2 : Bound K} {a b : K} (hu : u1 ≤ fin a)
    (hr : m r1 ≤ fin b) (hu' : u1 ≠ ninf) (hr' : m r1 ≠ ninf) :
    upd2 m p u1 r1 u2 r2 p ≤ fin (a + b) :=
  le_trans (bmin_le _ _ _ _) (le_trans (bmin_self_le _ _ _) (le_add_exact hu hr hu' hr'))

theorem upd2_le2 {m : Mem K} {p r1 r2 : ℕ} {u1 u2 : Bound K} {a b : K} (hu : u2 ≤ fin a)
    (hr : m r2 ≤ fin b) (h0 : NoNinf dim m) (hu1 : u1 ≠ ninf) (hr1 : r1 < matsize dim)
    (hu' : u2 ≠ ninf) (hr2 : r2 < matsize dim) :
    upd2 m p u1 r1 u2 r2 p ≤ fin (a + b) := by
  refine le_trans (bmin_self_le _ _ _) (le_add_exact hu (le_trans (bmin_le _ _ _ _) hr) hu' ?_)
  exact h0.bmin (add_exact_ne hu1 (h0 r1 hr1)) r2 hr2

theorem upd2_le {m : Mem K} {p r1 r2 : ℕ} {u1 u2 : Bound K} (q : ℕ) :
    upd2 m p u1 r1 u2 r2 q ≤ m q :=
  le_trans (bmin_le _ _ _ _) (bmin_le _ _ _ _)

/-- the cell `(i,j)` is relaxed through both pivots of `m0` -/
def Relaxed (dim : ℕ) (m0 : Mem K) (k i j : ℕ) (m : Mem K) : Prop :=
  ∀ s, Pv k s → ∀ a b, RU dim m0 i s a → RU dim m0 s j b → m (matpos i j) ≤ fin (a + b)

theorem closeRow_UB {m0 m : Mem K} (hk : k < 2 * dim) {i : ℕ} (hi : i < 2 * dim)
    (h : NoNinf dim m) (hle : ∀ q, m q ≤ m0 q) :
    ∀ j, Cell i j → Relaxed dim m0 k i j (closeRow Rnd.exact k m i) := by
  unfold closeRow
  have r1 := Reads.pos2 hi hk
  have r2 := Reads.pos2 hi (xor1_lt hk)
  have e1 := h _ r1.lt
  have e2 := h _ r2.lt
  have key := foldl_establish (fun m' => NoNinf dim m' ∧ ∀ q, m' q ≤ m0 q)
    (fun j m' => Relaxed dim m0 k i j m')
    (closeCell Rnd.exact k i (m (matpos2 i k)) (m (matpos2 i (k ^^^ 1))))
    (List.range ((i ||| 1) + 1)) ?_ ?_ ?_ m ⟨h, hle⟩
  · intro j hj
    exact key.2 j (by have := le_or1_iff.2 hj; simp; omega)
  · intro m' j hj h'
    have hcell : Cell i j := le_or1_iff.1 (by simpa [Nat.lt_succ_iff] using hj)
    obtain ⟨q1, q2, e, hq1, hq2⟩ := closeCell_form hk hi hcell (m (matpos2 i k))
      (m (matpos2 i (k ^^^ 1))) m'
    rw [e]
    exact ⟨upd2_ne h'.1 e1 e2 hq1.lt hq2.lt, fun q => le_trans (upd2_le q) (h'.2 q)⟩
  · intro m' j hj h'
    have hcell : Cell i j := le_or1_iff.1 (by simpa [Nat.lt_succ_iff] using hj)
    obtain ⟨q1, q2, e, hq1, hq2⟩ := closeCell_form hk hi hcell (m (matpos2 i k))
      (m (matpos2 i (k ^^^ 1))) m'
    show Relaxed dim m0 k i j (closeCell _ _ _ _ _ _ _)
    rw [e]
    intro s hs a b ha hb
    rcases hs with rfl | rfl
    · exact upd2_le1 (le_trans (hle _) (ha _ r1)) (le_trans (h'.2 _) (hb _ hq1)) e1 (h'.1 _ hq1.lt)
    · exact upd2_le2 (le_trans (hle _) (ha _ r2)) (le_trans (h'.2 _) (hb _ hq2)) h'.1 e1 hq1.lt e2
        hq2.lt
  · intro m' j j' hj h' hq s hs a b ha hb
    exact le_trans (closeCell_le _ _ _ _ _ _ _ _) (hq s hs a b ha hb)

theorem closePivot_UB {m : Mem K} (hk : k < 2 * dim) (h : NoNinf dim m) {i j s : ℕ}
    (hi : i < 2 * dim) (hj : j < 2 * dim) (hs : Pv k s) {a b : K} (ha : RU dim m i s a)
    (hb : RU dim m s j b) : RU dim (closePivot Rnd.exact dim m k) i j (a + b) := by
  have key := foldl_establish (fun m' => NoNinf dim m' ∧ ∀ q, m' q ≤ m q)
    (fun i m' => ∀ j, Cell i j → Relaxed dim m k i j m') (closeRow Rnd.exact k)
    (List.range (2 * dim)) ?_ ?_ ?_ m ⟨h, fun _ => le_refl _⟩
  · have cellcase : ∀ {i j s : ℕ} {a b : K}, i < 2 * dim → Pv k s → RU dim m i s a →
        RU dim m s j b → Cell i j → closePivot Rnd.exact dim m k (matpos i j) ≤ fin (a + b) := by
      intro i j s a b hi hs ha hb hcell
      exact key.2 i (by simpa using hi) j hcell s hs a b ha hb
    rintro r (⟨rfl, hcell, -⟩ | ⟨rfl, hcell, -⟩)
    · exact cellcase hi hs ha hb hcell
    · have := cellcase (xor1_lt hj) hs.xor hb.symm ha.symm hcell
      rwa [add_comm] at this
  · intro m' i hi h'
    exact ⟨closeRow_ne hk (by simpa using hi) h'.1,
      fun q => le_trans (closeRow_le _ _ _ _ _) (h'.2 q)⟩
  · intro m' i hi h'
    exact closeRow_UB hk (by simpa using hi) h'.1 h'.2
  · intro m' i i' hi h' hq j hc s hs a b ha hb
    exact le_trans (closeRow_le _ _ _ _ _) (hq j hc s hs a b ha hb)

/-! ### The pair of passes -/

/-- after the two passes of a pivot pair, the matrix is exactly the pair-pivot closure -/
theorem pair_spec {m : Mem K} (hk : k < 2 * dim) (h : NoNinf dim m) (hd : Coh (G dim m))
    (hn : NN (G dim m) k) :
    let m2 := closePivot Rnd.exact dim (closePivot Rnd.exact dim m k) (k ^^^ 1)
    NoNinf dim m2 ∧ ∀ i j x, G dim m2 i j ≤ fin x ↔ CU (G dim m) k i j x := by
  intro m2
  have l0 : LB dim (G dim m) k m ∧ NoNinf dim m := ⟨fun i j x hx => Or.inl hx, h⟩
  have l1 := closePivot_LB hd hn (Or.inl rfl) hk l0
  have l2 := closePivot_LB hd hn (Or.inr rfl) (xor1_lt hk) l1
  refine ⟨l2.2, fun i j x => ⟨l2.1 i j x, ?_⟩⟩
  have hm1 : ∀ q, closePivot Rnd.exact dim m k q ≤ m q := closePivot_le _ _ _ _
  have hm2 : ∀ q, m2 q ≤ closePivot Rnd.exact dim m k q := closePivot_le _ _ _ _
  rintro (hx | ⟨s, t, a, d, b, hs, ht, ha, hD, hb, hx⟩)
  · exact le_trans (G_mono (fun q => le_trans (hm2 q) (hm1 q)) i j) hx
  · have hi := (G_lt ha).1
    have hj := (G_lt hb).2
    have ra := RU.of_le hd ha
    have rb := RU.of_le hd hb
    unfold D at hD
    split_ifs at hD with e
    · subst e
      have := closePivot_UB hk h hi hj hs ra rb
      refine le_trans ((this.anti hm2).le hi hj) ?_
      simp; linarith
    · have ht2 := (G_lt hb).1
      have h1 := closePivot_UB hk h hi ht2 hs ra (RU.of_le hd hD)
      have h2 : RU dim (closePivot Rnd.exact dim m k) t j b := rb.anti hm1
      have := closePivot_UB (xor1_lt hk) l1.2 hi hj (Pv.swap.2 ht) h1 h2
      exact le_trans (this.le hi hj) (by simpa using hx)

theorem pair_coh {m : Mem K} (hk : k < 2 * dim) (h : NoNinf dim m) (hd : Coh (G dim m))
    (hn : NN (G dim m) k) :
    Coh (G dim (closePivot Rnd.exact dim (closePivot Rnd.exact dim m k) (k ^^^ 1))) := by
  obtain ⟨h1, h2⟩ := pair_spec hk h hd hn
  intro i j
  refine eq_of_upper (G_ne h1 _ _) (G_ne h1 _ _) fun x => ?_
  rw [h2, h2]
  refine ⟨CU_coh hd, fun hx => ?_⟩
  have := CU_coh hd hx
  simpa using this

theorem pair_closed {m : Mem K} (hk : k < 2 * dim) (h : NoNinf dim m) (hd : Coh (G dim m))
    (hn : NN (G dim m) k) {p : ℕ} (hp : Pv k p ∨ ClosedAt (G dim m) p) :
    ClosedAt (G dim (closePivot Rnd.exact dim (closePivot Rnd.exact dim m k) (k ^^^ 1))) p := by
  obtain ⟨h1, h2⟩ := pair_spec hk h hd hn
  intro i j a b ha hb
  rw [h2] at ha hb ⊢
  rcases hp with hp | hp
  · exact CU_closed hn hp ha hb
  · exact CU_closed_other hn hp ha hb

/-- the cycle condition follows from a non-negative diagonal later on -/
theorem NN_of_diag {m mF : Mem K} (hk : k < 2 * dim) (h : NoNinf dim m) (hd : Coh (G dim m))
    (hle : ∀ q, mF q ≤ closePivot Rnd.exact dim m k q)
    (hF : ∀ i, i < 2 * dim → fin 0 ≤ mF (matpos i i)) : NN (G dim m) k := by
  intro s hs
  have hs2 : s < 2 * dim := by rcases hs with rfl | rfl; exact hk; exact xor1_lt hk
  constructor
  · intro a ha
    rw [G_cell m hs2 (cell_refl s)] at ha
    have := le_trans (hF s hs2) (le_trans (hle _) (le_trans (closePivot_le _ _ _ _ _) ha))
    simpa using this
  · intro a b ha hb
    have := closePivot_UB hk h hs2 hs2 hs.xor (RU.of_le hd ha) (RU.of_le hd hb)
    have := le_trans (hF s hs2) (le_trans (hle _) (this _ (Or.inl ⟨rfl, cell_refl s, hs2⟩)))
    simpa using this

/-! ### the whole Floyd-Warshall loop -/

theorem foldl_range_pair {β : Type*} (f : β → ℕ → β) (b : β) (a : ℕ) :
    (List.range (2 * (a + 1))).foldl f b =
      f (f ((List.range (2 * a)).foldl f b) (2 * a)) (2 * a + 1) := by
  rw [show 2 * (a + 1) = 2 * a + 1 + 1 by ring, List.range_succ, List.foldl_append,
    List.range_succ, List.foldl_append]
  rfl

theorem foldl_pivot_le (l : List ℕ) (m : Mem K) (q : ℕ) :
    l.foldl (closePivot Rnd.exact dim) m q ≤ m q :=
  foldl_inv (fun m' => m' q ≤ m q) _ _
    (fun m' k _ h => le_trans (closePivot_le _ _ _ _ _) h) m (le_refl _)

theorem foldl_prefix_le {m : Mem K} {a n : ℕ} (h : a ≤ n) (q : ℕ) :
    (List.range n).foldl (closePivot Rnd.exact dim) m q ≤
      (List.range a).foldl (closePivot Rnd.exact dim) m q := by
  obtain ⟨c, rfl⟩ := Nat.exists_eq_add_of_le h
  rw [List.range_add, List.foldl_append]
  exact foldl_pivot_le _ _ _

theorem FW_closed {m : Mem K} (h : NoNinf dim m) (hd : Coh (G dim m))
    (hF : ∀ i, i < 2 * dim → fin 0 ≤ closeFW Rnd.exact dim m (matpos i i)) :
    NoNinf dim (closeFW Rnd.exact dim m) ∧ Coh (G dim (closeFW Rnd.exact dim m)) ∧
      ∀ p, p < 2 * dim → ClosedAt (G dim (closeFW Rnd.exact dim m)) p := by
  have key : ∀ a, a ≤ dim →
      NoNinf dim ((List.range (2 * a)).foldl (closePivot Rnd.exact dim) m) ∧
      Coh (G dim ((List.range (2 * a)).foldl (closePivot Rnd.exact dim) m)) ∧
      ∀ p, p < 2 * a → ClosedAt (G dim ((List.range (2 * a)).foldl (closePivot Rnd.exact dim) m)) p := by
    intro a
    induction a with
    | zero => intro _; exact ⟨h, hd, fun p hp => by omega⟩
    | succ a ih =>
      intro ha
      obtain ⟨i1, i2, i3⟩ := ih (by omega)
      have hle : ∀ q, closeFW Rnd.exact dim m q ≤
          closePivot Rnd.exact dim ((List.range (2 * a)).foldl (closePivot Rnd.exact dim) m) (2 * a) q := by
        intro q
        have := foldl_prefix_le (dim := dim) (m := m) (show 2 * a + 1 ≤ 2 * dim by omega) q
        rwa [List.range_succ, List.foldl_append] at this
      rw [foldl_range_pair]
      generalize hM : (List.range (2 * a)).foldl (closePivot Rnd.exact dim) m = M at *
      have hk : 2 * a < 2 * dim := by omega
      have hn := NN_of_diag hk i1 i2 hle hF
      rw [← xor1_even]
      refine ⟨(pair_spec hk i1 i2 hn).1, pair_coh hk i1 i2 hn, fun p hp => ?_⟩
      refine pair_closed hk i1 i2 hn ?_
      by_cases e : p < 2 * a
      · exact Or.inr (i3 p e)
      · left; unfold Pv; rw [xor1_even]; omega
  exact key dim (le_refl _)

end Oct
end Apron
