import Verif.Oct.StrongClosure

/-! # Helper lemmas: incremental closure (exact arithmetic) -/

set_option autoImplicit false
set_option linter.unusedSectionVars false
set_option linter.ambiguousOpen false

namespace Apron
namespace Oct
open Bound
variable {K : Type*} [LinearOrder K] [Field K] [IsStrictOrderedRing K]
variable {A : ℕ → ℕ → Bound K} {k dim v : ℕ}

theorem incCol_ne {m : Mem K} {s : ℕ} (hs2 : s < 2 * dim) {i : ℕ} (hi : i < 2 * dim)
    (h : NoNinf dim m) : NoNinf dim (incCol Rnd.exact dim s m i) := by
  unfold incCol
  have e1 := h _ (Reads.pos2 hs2 hi).lt
  have e2 := h _ (Reads.pos2 (xor1_lt hs2) hi).lt
  refine foldl_inv (NoNinf dim) _ _ (fun m' j hj h' => ?_) m h
  rw [List.mem_range'_1] at hj
  obtain ⟨q1, q2, e, hq1, hq2⟩ := incColCell_form (i := i) hs2 (show j < 2 * dim by omega)
    (m (matpos2 s i)) (m (matpos2 (s ^^^ 1) i)) m'
  rw [e]
  exact upd2_ne h' e1 e2 hq1.lt hq2.lt

theorem incEnd_ne {m : Mem K} (hk : k < 2 * dim) (hv : v < dim) (h : NoNinf dim m) :
    NoNinf dim (incEnd Rnd.exact dim v m k) := by
  unfold incEnd
  refine foldl_inv (NoNinf dim) _ _ (fun m' i hi h' => ?_) m h
  have hi' : i < 2 * dim := by simp at hi; omega
  exact incCol_ne hk hi' (closeRow_ne hk hi' h')

theorem incEnd_LB {m : Mem K} (hc : Coh A) (hn : NN A k) {s : ℕ} (hs : Pv k s)
    (hs2 : s < 2 * dim) (hv : v < dim) (h : LB dim A k m ∧ NoNinf dim m) :
    LB dim A k (incEnd Rnd.exact dim v m s) ∧ NoNinf dim (incEnd Rnd.exact dim v m s) := by
  unfold incEnd
  refine foldl_inv (fun m => LB dim A k m ∧ NoNinf dim m) _ _ (fun m' i hi h' => ?_) m h
  have hi' : i < 2 * dim := by simp at hi; omega
  exact incCol_LB hc hn hs hs2 hi' (closeRow_LB hc hn hs hs2 hi' h')

/-- the column loop relaxes its cells -/
theorem incCol_UB {m0 m : Mem K} (hk : k < 2 * dim) {i : ℕ} (hi : i < 2 * dim)
    (h : NoNinf dim m) (hle : ∀ q, m q ≤ m0 q) :
    ∀ j, i ≤ j → j < 2 * dim → Relaxed dim m0 k j i (incCol Rnd.exact dim k m i) := by
  unfold incCol
  have r1 := Reads.pos2 hk hi
  have r2 := Reads.pos2 (xor1_lt hk) hi
  have e1 := h _ r1.lt
  have e2 := h _ r2.lt
  have key := foldl_establish (fun m' => NoNinf dim m' ∧ ∀ q, m' q ≤ m0 q)
    (fun j m' => Relaxed dim m0 k j i m')
    (incColCell Rnd.exact k i (m (matpos2 k i)) (m (matpos2 (k ^^^ 1) i)))
    (List.range' i (2 * dim - i)) ?_ ?_ ?_ m ⟨h, hle⟩
  · intro j hj hj2
    exact key.2 j (by rw [List.mem_range'_1]; omega)
  · intro m' j hj h'
    rw [List.mem_range'_1] at hj
    obtain ⟨q1, q2, e, hq1, hq2⟩ := incColCell_form (i := i) hk (show j < 2 * dim by omega)
      (m (matpos2 k i)) (m (matpos2 (k ^^^ 1) i)) m'
    rw [e]
    exact ⟨upd2_ne h'.1 e1 e2 hq1.lt hq2.lt, fun q => le_trans (upd2_le q) (h'.2 q)⟩
  · intro m' j hj h'
    rw [List.mem_range'_1] at hj
    obtain ⟨q1, q2, e, hq1, hq2⟩ := incColCell_form (i := i) hk (show j < 2 * dim by omega)
      (m (matpos2 k i)) (m (matpos2 (k ^^^ 1) i)) m'
    show Relaxed dim m0 k j i (incColCell _ _ _ _ _ _ _)
    rw [e]
    intro s hs a b ha hb
    rw [add_comm a b]
    rcases hs with rfl | rfl
    · exact upd2_le1 (le_trans (hle _) (hb _ r1)) (le_trans (h'.2 _) (ha _ hq1)) e1 (h'.1 _ hq1.lt)
    · exact upd2_le2 (le_trans (hle _) (hb _ r2)) (le_trans (h'.2 _) (ha _ hq2)) h'.1 e1 hq1.lt e2
        hq2.lt
  · intro m' j j' hj h' hq s hs a b ha hb
    exact le_trans (incColCell_le _ _ _ _ _ _ _ _) (hq s hs a b ha hb)

theorem incEnd_cells {m : Mem K} (hk : k < 2 * dim) (hv : v < dim) (h : NoNinf dim m) :
    ∀ i ∈ [2 * v, 2 * v + 1],
      (∀ j, Cell i j → Relaxed dim m k i j (incEnd Rnd.exact dim v m k)) ∧
      (∀ j, i ≤ j → j < 2 * dim → Relaxed dim m k j i (incEnd Rnd.exact dim v m k)) := by
  have key := foldl_establish (fun m' => NoNinf dim m' ∧ ∀ q, m' q ≤ m q)
    (fun i m' => (∀ j, Cell i j → Relaxed dim m k i j m') ∧
      (∀ j, i ≤ j → j < 2 * dim → Relaxed dim m k j i m'))
    (fun m i => incCol Rnd.exact dim k (closeRow Rnd.exact k m i) i)
    [2 * v, 2 * v + 1] ?_ ?_ ?_ m ⟨h, fun _ => le_refl _⟩
  · exact key.2
  · intro m' i hi h'
    have hi' : i < 2 * dim := by simp at hi; omega
    exact ⟨incCol_ne hk hi' (closeRow_ne hk hi' h'.1), fun q =>
      le_trans (incCol_le _ _ _ _ _ _) (le_trans (closeRow_le _ _ _ _ _) (h'.2 q))⟩
  · intro m' i hi h'
    have hi' : i < 2 * dim := by simp at hi; omega
    refine ⟨fun j hc s hs a b ha hb => le_trans (incCol_le _ _ _ _ _ _)
      (closeRow_UB hk hi' h'.1 h'.2 j hc s hs a b ha hb), ?_⟩
    exact incCol_UB hk hi' (closeRow_ne hk hi' h'.1)
      (fun q => le_trans (closeRow_le _ _ _ _ _) (h'.2 q))
  · intro m' i i' hi h' hq
    have hle : ∀ q, incCol Rnd.exact dim k (closeRow Rnd.exact k m' i) i q ≤ m' q := fun q =>
      le_trans (incCol_le _ _ _ _ _ _) (closeRow_le _ _ _ _ _)
    exact ⟨fun j hc s hs a b ha hb => le_trans (hle _) (hq.1 j hc s hs a b ha hb),
      fun j h1 h2 s hs a b ha hb => le_trans (hle _) (hq.2 j h1 h2 s hs a b ha hb)⟩

theorem mem_pair {i : ℕ} : i ∈ [2 * v, 2 * v + 1] ↔ i / 2 = v := by
  simp; omega

/-- one pass of the first nest relaxes every constraint on `v` -/
theorem incEnd_UB {m : Mem K} (hk : k < 2 * dim) (hv : v < dim) (h : NoNinf dim m) {i j s : ℕ}
    (hi : i < 2 * dim) (hj : j < 2 * dim) (hij : i / 2 = v ∨ j / 2 = v) (hs : Pv k s) {a b : K}
    (ha : RU dim m i s a) (hb : RU dim m s j b) :
    RU dim (incEnd Rnd.exact dim v m k) i j (a + b) := by
  have cellcase : ∀ {i j s : ℕ} {a b : K}, i < 2 * dim → (i / 2 = v ∨ j / 2 = v) → Pv k s →
      RU dim m i s a → RU dim m s j b → Cell i j →
      incEnd Rnd.exact dim v m k (matpos i j) ≤ fin (a + b) := by
    intro i j s a b hi hij hs ha hb hcell
    by_cases e : i / 2 = v
    · exact (incEnd_cells hk hv h i (mem_pair.2 e)).1 j hcell s hs a b ha hb
    · have e' := hij.resolve_left e
      refine (incEnd_cells hk hv h j (mem_pair.2 e')).2 i ?_ hi s hs a b ha hb
      unfold Cell at hcell; omega
  rintro r (⟨rfl, hcell, -⟩ | ⟨rfl, hcell, -⟩)
  · exact cellcase hi hij hs ha hb hcell
  · have := cellcase (xor1_lt hj) (by rw [xor1_div, xor1_div]; exact hij.symm) hs.xor hb.symm
      ha.symm hcell
    rwa [add_comm] at this

/-- the first nest never writes a constraint that does not involve `v` -/
theorem incEnd_other (R : Rnd K) {m : Mem K} {i j : ℕ} (hi : i / 2 ≠ v) (hj : j / 2 ≠ v)
    (hc : Cell i j) : incEnd R dim v m k (matpos i j) = m (matpos i j) := by
  have hb : ∀ (m : Mem K) (a b : ℕ) (w : Bound K), Cell a b → (a / 2 = v ∨ b / 2 = v) →
      m.bmin (matpos a b) w (matpos i j) = m (matpos i j) := by
    intro m a b w hab h
    unfold Mem.bmin
    rw [Mem.set_ne]
    intro e
    obtain ⟨rfl, rfl⟩ := matpos_inj hc hab e
    tauto
  unfold incEnd
  refine foldl_inv (fun m' => m' (matpos i j) = m (matpos i j)) _ _ (fun m' p hp h' => ?_) m rfl
  have hp' := mem_pair.1 hp
  rw [← h']
  have hrow : closeRow R k m' p (matpos i j) = m' (matpos i j) := by
    unfold closeRow
    generalize m' (matpos2 p k) = a
    generalize m' (matpos2 p (k ^^^ 1)) = b
    refine foldl_inv (fun m'' => m'' (matpos i j) = m' (matpos i j)) _ _ (fun m'' r hr h'' => ?_)
      m' rfl
    have hcell : Cell p r := le_or1_iff.1 (by simpa [Nat.lt_succ_iff] using hr)
    rw [← h'']
    unfold closeCell
    split_ifs
    · rw [hb _ _ _ _ hcell (Or.inl hp'), hb _ _ _ _ hcell (Or.inl hp')]
    · rw [hb _ _ _ _ hcell (Or.inl hp'), hb _ _ _ _ hcell (Or.inl hp')]
  rw [← hrow]
  generalize closeRow R k m' p = m1
  unfold incCol
  generalize m1 (matpos2 k p) = a
  generalize m1 (matpos2 (k ^^^ 1) p) = b
  refine foldl_inv (fun m'' => m'' (matpos i j) = m1 (matpos i j)) _ _ (fun m'' r hr h'' => ?_)
    m1 rfl
  rw [List.mem_range'_1] at hr
  have hcell : Cell r p := by unfold Cell; omega
  rw [← h'']
  unfold incColCell
  split_ifs
  · rw [hb _ _ _ _ hcell (Or.inr hp'), hb _ _ _ _ hcell (Or.inr hp')]
  · rw [hb _ _ _ _ hcell (Or.inr hp'), hb _ _ _ _ hcell (Or.inr hp')]

theorem incEnd_G_other (R : Rnd K) {m : Mem K} {i j : ℕ} (hi : i / 2 ≠ v) (hj : j / 2 ≠ v) :
    G dim (incEnd R dim v m k) i j = G dim m i j := by
  unfold G
  split_ifs with hl
  · rw [matpos2_eq]
    split_ifs with hc
    · exact incEnd_other R hi hj hc
    · exact incEnd_other R (by rwa [xor1_div]) (by rwa [xor1_div]) ((cell_or_mirror i j).resolve_left hc)
  · rfl

/-- the constraints that do not involve `v` are closed -/
def ClosedOff (v : ℕ) (A : ℕ → ℕ → Bound K) : Prop :=
  ∀ i p j a b, i / 2 ≠ v → p / 2 ≠ v → j / 2 ≠ v → A i p ≤ fin a → A p j ≤ fin b → A i j ≤ fin (a + b)

/-- exact content after a pair of passes of the first nest -/
theorem incPair_spec {m : Mem K} (hk : k < 2 * dim) (hv : v < dim) (h : NoNinf dim m)
    (hd : Coh (G dim m)) (hn : NN (G dim m) k) :
    let m2 := incEnd Rnd.exact dim v (incEnd Rnd.exact dim v m k) (k ^^^ 1)
    NoNinf dim m2 ∧ (∀ i j x, (i / 2 = v ∨ j / 2 = v) → (G dim m2 i j ≤ fin x ↔ CU (G dim m) k i j x)) ∧
      ∀ i j, i / 2 ≠ v → j / 2 ≠ v → G dim m2 i j = G dim m i j := by
  intro m2
  have l0 : LB dim (G dim m) k m ∧ NoNinf dim m := ⟨fun i j x hx => Or.inl hx, h⟩
  have l1 := incEnd_LB hd hn (Or.inl rfl) hk hv l0
  have l2 := incEnd_LB hd hn (Or.inr rfl) (xor1_lt hk) hv l1
  refine ⟨l2.2, fun i j x hij => ⟨l2.1 i j x, ?_⟩, fun i j hi hj => ?_⟩
  · have hm1 : ∀ q, incEnd Rnd.exact dim v m k q ≤ m q := incEnd_le _ _ _ _ _
    have hm2 : ∀ q, m2 q ≤ incEnd Rnd.exact dim v m k q := incEnd_le _ _ _ _ _
    have hm12 : ∀ q, m2 q ≤ m q := fun q => le_trans (hm2 q) (hm1 q)
    rintro (hx | ⟨s, t, a, d, b, hs, ht, ha, hD, hb, hx⟩)
    · exact le_trans (G_mono hm12 i j) hx
    · have hi := (G_lt ha).1
      have hj := (G_lt hb).2
      have ra := RU.of_le hd ha
      have rb := RU.of_le hd hb
      unfold D at hD
      split_ifs at hD with e
      · subst e
        have := incEnd_UB hk hv h hi hj hij hs ra rb
        refine le_trans ((this.anti hm2).le hi hj) ?_
        simp; linarith
      · have ht2 := (G_lt hb).1
        have hs2 := (G_lt ha).2
        have rD := RU.of_le hd hD
        rcases hij with hi' | hj'
        · have h1 := incEnd_UB hk hv h hi ht2 (Or.inl hi') hs ra rD
          have := incEnd_UB (xor1_lt hk) hv l1.2 hi hj (Or.inl hi') (Pv.swap.2 ht) h1 (rb.anti hm1)
          exact le_trans (this.le hi hj) (by simpa using hx)
        · have h1 := incEnd_UB hk hv h hs2 hj (Or.inr hj') ht rD rb
          have := incEnd_UB (xor1_lt hk) hv l1.2 hi hj (Or.inr hj') (Pv.swap.2 hs) (ra.anti hm1) h1
          exact le_trans (this.le hi hj) (by simp; linarith)
  · rw [incEnd_G_other _ hi hj, incEnd_G_other _ hi hj]

theorem incPair_coh {m : Mem K} (hk : k < 2 * dim) (hv : v < dim) (h : NoNinf dim m)
    (hd : Coh (G dim m)) (hn : NN (G dim m) k) :
    Coh (G dim (incEnd Rnd.exact dim v (incEnd Rnd.exact dim v m k) (k ^^^ 1))) := by
  obtain ⟨h1, h2, h3⟩ := incPair_spec hk hv h hd hn
  intro i j
  by_cases hij : i / 2 = v ∨ j / 2 = v
  · refine eq_of_upper (G_ne h1 _ _) (G_ne h1 _ _) fun x => ?_
    rw [h2 _ _ _ hij, h2 _ _ _ (by rw [xor1_div, xor1_div]; exact hij.symm)]
    refine ⟨CU_coh hd, fun hx => ?_⟩
    have := CU_coh hd hx
    simpa using this
  · push Not at hij
    rw [h3 _ _ hij.1 hij.2, h3 _ _ (by rw [xor1_div]; exact hij.2) (by rw [xor1_div]; exact hij.1)]
    exact hd i j

theorem incPair_closed {m : Mem K} (hk : k < 2 * dim) (hv : v < dim) (h : NoNinf dim m)
    (hd : Coh (G dim m)) (hn : NN (G dim m) k) (ho : ClosedOff v (G dim m)) {p : ℕ}
    (hpv : p / 2 ≠ v) (hp : Pv k p ∨ ClosedAt (G dim m) p) :
    ClosedAt (G dim (incEnd Rnd.exact dim v (incEnd Rnd.exact dim v m k) (k ^^^ 1))) p := by
  obtain ⟨h1, h2, h3⟩ := incPair_spec hk hv h hd hn
  have toCU : ∀ i j x, G dim (incEnd Rnd.exact dim v (incEnd Rnd.exact dim v m k) (k ^^^ 1)) i j ≤ fin x →
      CU (G dim m) k i j x := by
    intro i j x hx
    by_cases hij : i / 2 = v ∨ j / 2 = v
    · exact (h2 _ _ _ hij).1 hx
    · push Not at hij
      rw [h3 _ _ hij.1 hij.2] at hx
      exact Or.inl hx
  intro i j a b ha hb
  by_cases hij : i / 2 = v ∨ j / 2 = v
  · rw [h2 _ _ _ hij]
    rcases hp with hp | hp
    · exact CU_closed hn hp (toCU _ _ _ ha) (toCU _ _ _ hb)
    · exact CU_closed_other hn hp (toCU _ _ _ ha) (toCU _ _ _ hb)
  · push Not at hij
    rw [h3 _ _ hij.1 hij.2]
    rw [h3 _ _ hij.1 hpv] at ha
    rw [h3 _ _ hpv hij.2] at hb
    exact ho _ _ _ _ _ hij.1 hpv hij.2 ha hb

theorem incNN {m mF : Mem K} (hk : k < 2 * dim) (hv : v < dim) (h : NoNinf dim m)
    (hd : Coh (G dim m)) (ho : ClosedOff v (G dim m))
    (hle : ∀ q, mF q ≤ incEnd Rnd.exact dim v m k q)
    (hF : ∀ i, i < 2 * dim → fin 0 ≤ mF (matpos i i)) : NN (G dim m) k := by
  intro s hs
  have hs2 : s < 2 * dim := by rcases hs with rfl | rfl; exact hk; exact xor1_lt hk
  have hdiag : ∀ a, G dim m s s ≤ fin a → 0 ≤ a := by
    intro a ha
    rw [G_cell m hs2 (cell_refl s)] at ha
    have := le_trans (hF s hs2) (le_trans (hle _) (le_trans (incEnd_le _ _ _ _ _ _) ha))
    simpa using this
  refine ⟨hdiag, fun a b ha hb => ?_⟩
  by_cases e : s / 2 = v
  · have := incEnd_UB hk hv h hs2 hs2 (Or.inl e) hs.xor (RU.of_le hd ha) (RU.of_le hd hb)
    have := le_trans (hF s hs2) (le_trans (hle _) (this _ (Or.inl ⟨rfl, cell_refl s, hs2⟩)))
    simpa using this
  · exact hdiag _ (ho s (s ^^^ 1) s a b e (by rwa [xor1_div]) e ha hb)

theorem foldl_incEnd_le (l : List ℕ) (m : Mem K) (q : ℕ) :
    l.foldl (incEnd Rnd.exact dim v) m q ≤ m q :=
  foldl_inv (fun m' => m' q ≤ m q) _ _
    (fun _ _ _ h => le_trans (incEnd_le _ _ _ _ _ _) h) m (le_refl _)

theorem inc_nest1 {m mF : Mem K} (hv : v < dim) (h : NoNinf dim m) (hd : Coh (G dim m))
    (ho : ClosedOff v (G dim m))
    (hle : ∀ q, mF q ≤ (List.range (2 * dim)).foldl (incEnd Rnd.exact dim v) m q)
    (hF : ∀ i, i < 2 * dim → fin 0 ≤ mF (matpos i i)) :
    let m1 := (List.range (2 * dim)).foldl (incEnd Rnd.exact dim v) m
    NoNinf dim m1 ∧ Coh (G dim m1) ∧ ∀ p, p < 2 * dim → p / 2 ≠ v → ClosedAt (G dim m1) p := by
  have key : ∀ a, a ≤ dim →
      NoNinf dim ((List.range (2 * a)).foldl (incEnd Rnd.exact dim v) m) ∧
      Coh (G dim ((List.range (2 * a)).foldl (incEnd Rnd.exact dim v) m)) ∧
      ClosedOff v (G dim ((List.range (2 * a)).foldl (incEnd Rnd.exact dim v) m)) ∧
      ∀ p, p < 2 * a → p / 2 ≠ v →
        ClosedAt (G dim ((List.range (2 * a)).foldl (incEnd Rnd.exact dim v) m)) p := by
    intro a
    induction a with
    | zero => intro _; exact ⟨h, hd, ho, fun p hp => by omega⟩
    | succ a ih =>
      intro ha
      obtain ⟨i1, i2, i3, i4⟩ := ih (by omega)
      have hle' : ∀ q, mF q ≤
          incEnd Rnd.exact dim v ((List.range (2 * a)).foldl (incEnd Rnd.exact dim v) m) (2 * a) q := by
        intro q
        refine le_trans (hle q) ?_
        obtain ⟨c, hc⟩ := Nat.exists_eq_add_of_le (show 2 * a + 1 ≤ 2 * dim by omega)
        rw [hc, List.range_add, List.foldl_append]
        refine le_trans (foldl_incEnd_le _ _ _) ?_
        rw [List.range_succ, List.foldl_append]
        exact le_refl _
      rw [foldl_range_pair]
      generalize hM : (List.range (2 * a)).foldl (incEnd Rnd.exact dim v) m = M at *
      have hk : 2 * a < 2 * dim := by omega
      have hn := incNN hk hv i1 i2 i3 hle' hF
      rw [← xor1_even]
      obtain ⟨s1, s2, s3⟩ := incPair_spec hk hv i1 i2 hn
      refine ⟨s1, incPair_coh hk hv i1 i2 hn, ?_, fun p hp hpv => ?_⟩
      · intro i p j x y hi hp hj hx hy
        rw [s3 _ _ hi hp] at hx
        rw [s3 _ _ hp hj] at hy
        rw [s3 _ _ hi hj]
        exact i3 _ _ _ _ _ hi hp hj hx hy
      · refine incPair_closed hk hv i1 i2 hn i3 hpv ?_
        by_cases e : p < 2 * a
        · exact Or.inr (i4 p e hpv)
        · left; unfold Pv; rw [xor1_even]; omega
  obtain ⟨k1, k2, -, k4⟩ := key dim (le_refl _)
  exact ⟨k1, k2, k4⟩

/-- `hmat_close_incremental` gives a strongly closed matrix unless it reports emptiness -/
theorem closeIncremental_SC {m : Mem K} (hv : v < dim) (h : NoNinf dim m) (hd : DiagCoh dim m)
    (ho : ClosedOff v (G dim m)) (hf : (closeIncremental Rnd.exact dim m v).1 = false) :
    SC dim (G dim (closeIncremental Rnd.exact dim m v).2) := by
  unfold closeIncremental at hf ⊢
  have hdiag := fun i hi => (sDiag_false hf List.nodup_range).1 i hi
  set m1 := (List.range (2 * dim)).foldl (incEnd Rnd.exact dim v) m with hm1
  simp only [List.foldl_cons, List.foldl_nil] at hf hdiag ⊢
  rw [← xor1_even] at hf hdiag ⊢
  have hdiag' : ∀ i, i < 2 * dim → fin 0 ≤
      closePivot Rnd.exact dim (closePivot Rnd.exact dim m1 (2 * v)) (2 * v ^^^ 1) (matpos i i) := by
    intro i hi
    exact le_trans (hdiag i (by simpa using hi)) (sRows_le _ _ _ _)
  obtain ⟨n1, n2, n3⟩ := inc_nest1 hv h (G_coh hd) ho
    (fun q => le_trans (closePivot_le _ _ _ _ _) (closePivot_le _ _ _ _ _)) hdiag'
  rw [← hm1] at n1 n2 n3
  have hk : 2 * v < 2 * dim := by omega
  have hn := NN_of_diag hk n1 n2 (fun q => closePivot_le _ _ _ _ _) hdiag'
  refine sStep_SC (pair_spec hk n1 n2 hn).1 (pair_coh hk n1 n2 hn) (fun p hp => ?_) hf
  refine pair_closed hk n1 n2 hn ?_
  by_cases e : p / 2 = v
  · left; unfold Pv; rw [xor1_even]; omega
  · exact Or.inr (n3 p hp e)

theorem closedOff_of_SC {c m : Mem K} (hc : SC dim (G dim c))
    (hoff : ∀ i j, i < 2 * dim → Cell i j → i / 2 ≠ v → j / 2 ≠ v → m (matpos i j) = c (matpos i j)) :
    ClosedOff v (G dim m) := by
  have e : ∀ i j, i / 2 ≠ v → j / 2 ≠ v → G dim m i j = G dim c i j := by
    intro i j hi hj
    unfold G
    split_ifs with hl
    · rw [matpos2_eq]
      split_ifs with hcell
      · exact hoff _ _ hl.1 hcell hi hj
      · exact hoff _ _ (xor1_lt hl.2) ((cell_or_mirror i j).resolve_left hcell)
          (by rwa [xor1_div]) (by rwa [xor1_div])
    · rfl
  intro i p j a b hi hp hj ha hb
  rw [e _ _ hi hp] at ha
  rw [e _ _ hp hj] at hb
  rw [e _ _ hi hj]
  exact hc.tri _ _ _ _ _ ha hb

/-- two strongly closed matrices with the same points are equal -/
theorem SC.eq_of_sat {m m' : Mem K} (h : SC dim (G dim m)) (h' : SC dim (G dim m'))
    (hs : ∀ x, Sat dim m x ↔ Sat dim m' x) {i j : ℕ} (hi : i < 2 * dim) (hc : Cell i j) :
    m (matpos i j) = m' (matpos i j) := by
  have hj : j < 2 * dim := by unfold Cell at hc; omega
  rw [← G_cell m hi hc, ← G_cell m' hi hc]
  refine le_antisymm (h.tight hi hj fun x hx => ?_) (h'.tight hi hj fun x hx => ?_)
  · have := (hs x).1 (satOn_iff.1 hx) i j hi hc
    rwa [← G_cell m' hi hc] at this
  · have := (hs x).2 (satOn_iff.1 hx) i j hi hc
    rwa [← G_cell m hi hc] at this

end Oct
end Apron
