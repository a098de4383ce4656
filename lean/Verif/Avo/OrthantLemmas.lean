import Verif.Avo.ClosureLemmas

/-! # Helper lemmas: enumeration of orthants and the closures of absolute-value octagons -/

set_option autoImplicit false
set_option linter.unusedSectionVars false
set_option linter.ambiguousOpen false

namespace Apron
namespace Avo
open Bound Oct
variable {K : Type*} [LinearOrder K] [Field K] [IsStrictOrderedRing K] (R : Rnd K) {θ : Bound K}

/-- every choice of signs is enumerated -/
theorem exists_flag (p : ℕ → Bool) (n : ℕ) : ∃ r, r < 2 ^ n ∧ ∀ i < n, flag r i = p i := by
  induction n generalizing p with
  | zero => exact ⟨0, by simp, by simp⟩
  | succ n ih =>
    obtain ⟨r, hr, hf⟩ := ih fun i => p (i + 1)
    refine ⟨2 * r + (if p 0 then 1 else 0), ?_, fun i hi => ?_⟩
    · rw [pow_succ]; split_ifs <;> omega
    · unfold flag
      cases i with
      | zero =>
        cases h : p 0
        · simp
        · simp only [if_true, pow_zero, Nat.div_one, decide_eq_true_eq]; omega
      | succ i =>
        have := hf i (by omega)
        unfold flag at this
        rw [← this, pow_succ', ← Nat.div_div_eq_div_mul,
          show (2 * r + if p 0 then 1 else 0) / 2 = r by split_ifs <;> omega]

section
variable {dim n : ℕ} {x : ℕ → K} {hash : ℕ → ℕ} {r : ℕ}

theorem V_gIdx (hh : ∀ k < n, hash k < dim) {i : ℕ} (hi : i < 2 * n) :
    V (ext dim x) (gIdx hash i) = V (fun k => x (hash k)) i := by
  have := hh (i / 2) (by omega)
  unfold gIdx
  rw [V_ext_lo (by omega)]
  unfold V
  rw [show (2 * hash (i / 2) + i % 2) % 2 = i % 2 by omega,
    show (2 * hash (i / 2) + i % 2) / 2 = hash (i / 2) by omega]

theorem gIdx_lt (hh : ∀ k < n, hash k < dim) {i : ℕ} (hi : i < 2 * n) :
    gIdx hash i < 2 * (2 * dim) := by
  have := hh (i / 2) (by omega)
  unfold gIdx; omega

theorem tIdx_lt (hh : ∀ k < n, hash k < dim) {i : ℕ} (hi : i < 2 * n) :
    tIdx dim hash r i < 2 * (2 * dim) := by
  have := hh (i / 2) (by omega)
  unfold tIdx; split_ifs <;> omega

/-- in the orthant `r` the rows `t_i` are the rows of the variables -/
theorem V_tIdx (hh : ∀ k < n, hash k < dim)
    (hr : ∀ k < n, flag r k = decide (0 ≤ x (hash k))) {i : ℕ} (hi : i < 2 * n) :
    V (ext dim x) (tIdx dim hash r i) = V (fun k => x (hash k)) i := by
  have hd := hh (i / 2) (by omega)
  have hf := hr (i / 2) (by omega)
  unfold tIdx
  rw [hf, add_assoc]
  by_cases hx : 0 ≤ x (hash (i / 2))
  · rw [decide_eq_true hx, if_pos rfl, V_ext_hi (by omega)]
    unfold V
    rw [show (2 * hash (i / 2) + i % 2) % 2 = i % 2 by omega,
      show (2 * hash (i / 2) + i % 2) / 2 = hash (i / 2) by omega]
    split_ifs
    · exact abs_of_nonneg hx
    · rw [abs_neg, abs_of_nonneg hx]
  · rw [decide_eq_false hx, if_neg (by simp), V_ext_hi (by omega)]
    have hx' := abs_of_neg (not_le.1 hx)
    unfold V
    rcases Nat.mod_two_eq_zero_or_one i with h | h
    · rw [h, if_neg (by omega), if_neg (by omega), if_pos rfl,
        show (2 * hash (i / 2) + (1 - 0)) / 2 = hash (i / 2) by omega, abs_neg, hx', _root_.neg_neg]
    · rw [h, if_pos (by omega), if_pos (by omega), if_neg (by omega),
        show (2 * hash (i / 2) + (1 - 1)) / 2 = hash (i / 2) by omega, hx']

theorem avoToOct_sat {M : SMem K} (hs : GSatT θ (2 * dim) M (ext dim x)) (hh : ∀ k < n, hash k < dim)
    (hr : ∀ k < n, flag r k = decide (0 ≤ x (hash k))) :
    GSatT θ n (avoToOct dim M hash r n) (fun k => x (hash k)) := by
  unfold avoToOct
  dsimp only
  refine foldl_inv (fun O => GSatT θ n O (fun k => x (hash k))) _ _ (fun O i hi h => ?_) _
    (foldl_inv (fun O => GSatT θ n O (fun k => x (hash k))) _ _ (fun O i hi h => ?_) _ ?_)
  · have hi' : i < n := by simpa using hi
    have e0 : V (fun k => x (hash k)) (2 * i) = x (hash i) := by
      unfold V; rw [if_pos (by omega), show 2 * i / 2 = i by omega]
    have e1 : V (fun k => x (hash k)) (2 * i + 1) = -x (hash i) := by
      unfold V; rw [if_neg (by omega), show (2 * i + 1) / 2 = i by omega]
    split_ifs with hf
    · rw [hr i hi', decide_eq_true_eq] at hf
      exact h.capZero (by rw [e0, e1]; linarith)
    · rw [hr i hi', decide_eq_true_eq, not_le] at hf
      exact h.capZero (by rw [e0, e1]; linarith)
  · have hi' : i < 2 * n := by simpa using hi
    refine foldl_inv (fun O => GSatT θ n O (fun k => x (hash k))) _ _ (fun O j hj h => ?_) _ h
    have hj' : j < 2 * n := by
      have : j / 2 ≤ i / 2 := le_or1_iff.1 (by have := List.mem_range.1 hj; omega)
      omega
    refine (((h.bmin hi' hj' ?_).bmin hi' hj' ?_).bmin hi' hj' ?_).bmin hi' hj' ?_
    · rw [← V_gIdx hh hi', ← V_gIdx hh hj']
      exact hs.rd (gIdx_lt hh hi') (gIdx_lt hh hj')
    · rw [← V_tIdx hh hr hi', ← V_gIdx hh hj']
      exact hs.rd (tIdx_lt hh hi') (gIdx_lt hh hj')
    · rw [← V_gIdx hh hi', ← V_tIdx hh hr hj']
      exact hs.rd (gIdx_lt hh hi') (tIdx_lt hh hj')
    · rw [← V_tIdx hh hr hi', ← V_tIdx hh hr hj']
      exact hs.rd (tIdx_lt hh hi') (tIdx_lt hh hj')
  · intro i j _ _
    exact ok_top _ _

/-- the cell of `O` at `(i,j)` is at most the cell `(g_i,g_j)` of `M` -/
theorem avoToOct_diag {M : SMem K} (hd : Diag (2 * dim) M) (hs : GSatT θ (2 * dim) M (ext dim x))
    (hh : ∀ k < n, hash k < dim) : Diag n (avoToOct dim M hash r n) := by
  unfold avoToOct
  dsimp only
  refine foldl_inv (Diag n) _ _ (fun O i _ h => ?_) _ ?_
  · split_ifs
    · exact (below_capZero _ _).diag h
    · exact (below_capZero _ _).diag h
  · intro i hi
    have hb : ∀ (O : SMem K) (a j : ℕ), Below ((((O.bmin (matpos2 a j)
        (M (matpos2 (gIdx hash a) (gIdx hash j)))).bmin (matpos2 a j)
        (M (matpos2 (tIdx dim hash r a) (gIdx hash j)))).bmin (matpos2 a j)
        (M (matpos2 (gIdx hash a) (tIdx dim hash r j)))).bmin (matpos2 a j)
        (M (matpos2 (tIdx dim hash r a) (tIdx dim hash r j)))) O := fun O a j =>
      (below_bmin _ _ _).trans ((below_bmin _ _ _).trans ((below_bmin _ _ _).trans
        (below_bmin _ _ _)))
    refine (foldl_establish (l := List.range (2 * n)) (fun _ => True) (fun i (O : SMem K) => i < 2 * n → (O (matpos i i)).1 ≤ fin 0) _
      (fun _ _ _ _ => trivial) (fun O a _ _ ha => ?_) (fun O a i' _ _ hO hi' => ?_) _ trivial).2 i
      (by simpa using hi) hi
    · refine (foldl_establish (fun _ => True) (fun j (O : SMem K) => j = a → (O (matpos a a)).1 ≤ fin 0) _ _
        (fun _ _ _ _ => trivial) (fun O j _ _ hj => ?_) (fun O j j' _ _ hO hj' => ?_) _ trivial).2 a
        (by rw [List.mem_range]; have : a ≤ a ||| 1 := le_or1_iff.2 le_rfl
            omega) rfl
      · subst hj
        refine ((below_bmin _ _ _).trans ((below_bmin _ _ _).trans
          (below_bmin _ _ _)) (matpos j j)).fst.trans ?_
        have hg := gIdx_lt hh ha
        have h0 := hd _ hg
        rw [← matpos2_cell (cell_refl (gIdx hash j))] at h0
        have h1 := (hs.rd hg hg).1
        rw [sub_self] at h1
        have hv : (M (matpos2 (gIdx hash j) (gIdx hash j))).1 = fin 0 := le_antisymm h0 h1
        rw [← matpos2_cell (cell_refl j)]
        unfold SMem.bmin
        rw [if_pos rfl]
        unfold SB.min
        rw [hv, if_neg (by simp [infty])]
        split_ifs with hl
        · exact hv.le
        · rw [SB.lt_iff, not_not] at hl
          exact hl.fst.trans hv.le
      · exact (hb O a j (matpos a a)).fst.trans (hO hj')
    · refine foldl_inv (fun (O : SMem K) => (O (matpos i' i')).1 ≤ fin 0) _ _ (fun O j _ h => ?_) _ (hO hi')
      exact (hb O a j _).fst.trans h

theorem liftOct_sat {O : SMem K} {y : ℕ → K} (h : GSatT θ n O y) :
    GSatT θ (2 * n) (liftOct R n O) (ext n y) := by
  unfold liftOct
  refine (tighten_ref R _).1 ?_
  intro i j hi hc
  dsimp only
  split_ifs with hp
  · have hi' : i < 2 * n := by
      by_contra hcon
      have h1 := row_mono (show 2 * n ≤ i by omega)
      have h3 : matpos (2 * n) 0 = matsize n := by
        unfold matpos matsize; rw [row_even]; omega
      have h4 := matpos_eq i j
      omega
    have hj' : j < 2 * n := by unfold Cell at hc; omega
    rw [V_ext_lo hi', V_ext_lo hj']
    exact h i j hi' hc
  · exact ok_top _ _

/-- the loop over the orthants reaches the one of `x` -/
theorem orthLoop_sat (hθ : fin 0 ≤ θ) {M : SMem K} (hd : Diag (2 * dim) M) (hs : GSatT θ (2 * dim) M (ext dim x))
    (hh : ∀ k < n, hash k < dim) (hn : n ≤ 30) :
    ∃ A, orthLoop R dim M hash n = some A ∧ GSatT θ (2 * n) A (ext n fun k => x (hash k)) := by
  obtain ⟨r, hr, hf⟩ := exists_flag (fun k => decide (0 ≤ x (hash k))) n
  have key := (foldl_establish (fun _ => True)
    (fun a (A : Option (SMem K)) => a = r → ∃ A', A = some A' ∧
      GSatT θ (2 * n) A' (ext n fun k => x (hash k)))
    (fun A r =>
      match closeOctPart R n (avoToOct dim M hash r n) with
      | (true, _) => A
      | (false, O) => octToAvo R n O A) (List.range (orthants n))
    (fun _ _ _ _ => trivial) (fun A a _ _ ha => ?_) (fun A a a' _ _ hA ha' => ?_) none trivial).2 r
    (by simp [orthants, hn, hr]) rfl
  · exact key
  · subst ha
    obtain ⟨h1, h2⟩ := (closeOctPart_ref R hθ le_rfl (avoToOct dim M hash a n)).1
      (avoToOct_diag hd hs hh) (avoToOct_sat hs hh hf)
    rcases e : closeOctPart R n (avoToOct dim M hash a n) with ⟨b, O⟩
    rw [e] at h1 h2
    dsimp only at h1 h2
    subst h1
    dsimp only
    cases A with
    | none => exact ⟨_, rfl, liftOct_sat R h2⟩
    | some A =>
      refine ⟨_, rfl, fun i j hi hc => ?_⟩
      rw [if_pos (matpos_lt hi hc)]
      exact SB.max_ok (Or.inr (liftOct_sat R h2 i j hi hc))
  · obtain ⟨A', rfl, hA'⟩ := hA ha'
    rcases e : closeOctPart R n (avoToOct dim M hash a n) with ⟨b, O⟩
    cases b
    · refine ⟨_, rfl, fun i j hi hc => ?_⟩
      rw [if_pos (matpos_lt hi hc)]
      exact SB.max_ok (Or.inl (hA' i j hi hc))
    · exact ⟨A', rfl, hA'⟩

theorem haIdx_lt (hh : ∀ k < n, hash k < dim) {i : ℕ} (hi : i < 4 * n) :
    haIdx dim n hash i < 2 * (2 * dim) := by
  unfold haIdx
  split_ifs with h
  · have := hh (i / 2) (by omega)
    omega
  · have := hh ((i - 2 * n) / 2) (by omega)
    omega

theorem V_haIdx (hh : ∀ k < n, hash k < dim) {i : ℕ} (hi : i < 4 * n) :
    V (ext dim x) (haIdx dim n hash i) = V (ext n fun k => x (hash k)) i := by
  unfold haIdx
  split_ifs with h
  · rw [V_ext_lo h, ← V_gIdx hh h]; rfl
  · obtain ⟨t, rfl⟩ := Nat.exists_eq_add_of_le (not_lt.1 h)
    have ht : t < 2 * n := by omega
    have hd := hh (t / 2) (by omega)
    rw [V_ext_hi ht, show 2 * n + t - 2 * n = t by omega,
      show 2 * hash (t / 2) + 2 * dim + (2 * n + t) % 2 = 2 * dim + gIdx hash t by
        unfold gIdx; omega, V_ext_hi (by unfold gIdx; omega), ← V_gIdx hh ht,
      V_ext_lo (by unfold gIdx; omega), show gIdx hash t % 2 = t % 2 by unfold gIdx; omega]

theorem viaNvars_below (M : SMem K) : Below (viaNvars R dim M hash n) M := by
  unfold viaNvars
  split
  · exact Below.refl _
  · refine foldl_inv (fun M' => Below M' M) _ _ (fun M' i _ h => ?_) M (Below.refl _)
    exact foldl_inv (fun M' => Below M' M) _ _ (fun M' j _ h => (below_bmin _ _ _).trans h) M' h

theorem viaNvars_sat (hθ : fin 0 ≤ θ) {M : SMem K} (hd : Diag (2 * dim) M) (hs : GSatT θ (2 * dim) M (ext dim x))
    (hh : ∀ k < n, hash k < dim) (hn : n ≤ 30) :
    GSatT θ (2 * dim) (viaNvars R dim M hash n) (ext dim x) := by
  obtain ⟨A, e, hA⟩ := orthLoop_sat R hθ hd hs hh hn
  unfold viaNvars
  rw [e]
  dsimp only
  refine foldl_inv (fun M' => GSatT θ (2 * dim) M' (ext dim x)) _ _ (fun M' i hi h => ?_) M hs
  refine foldl_inv (fun M' => GSatT θ (2 * dim) M' (ext dim x)) _ _ (fun M' j hj h => ?_) M' h
  have hi' : i < 4 * n := by simpa using hi
  have hj' : j < 4 * n := by
    have : j / 2 ≤ i / 2 := le_or1_iff.1 (by have := List.mem_range.1 hj; omega)
    omega
  refine h.bmin (haIdx_lt hh hi') (haIdx_lt hh hj') ?_
  rw [V_haIdx hh hi', V_haIdx hh hj']
  exact hA.rd (by omega) (by omega)

end

/-! ### `avo_hmat_s_step` and the closures -/

section
variable {dim : ℕ} {x : ℕ → K}

theorem sRow1_ref {i : ℕ} (hi : i < 2 * (2 * dim)) (M : SMem K) :
    Ref θ (2 * dim) (ext dim x) M (sRow1 R M i) := by
  unfold sRow1
  dsimp only
  by_cases hs0 : GSatT θ (2 * dim) M (ext dim x)
  · have a := (hs0.rd hi (xor1_lt hi)).half R
    refine ref_foldl_range _ _ (fun M' j hj => ?_) M
    have hj' : j < 2 * (2 * dim) := by
      have : j / 2 ≤ i / 2 := le_or1_iff.1 (by omega)
      omega
    split_ifs
    · exact Ref.refl _
    · refine ref_bmin hi hj' fun hs => ?_
      refine (a.add R ((hs.rd (xor1_lt hj') hj').half R)).mono ?_
      rw [W_xor, W_xor]; linarith
  · refine ⟨fun h => absurd h hs0, ?_⟩
    refine foldl_inv (fun M' => Below M' M) _ _ (fun M' j _ h => ?_) M (Below.refl _)
    split_ifs
    · exact h
    · exact (below_bmin _ _ _).trans h

theorem sCell2_ref {i j : ℕ} (hi : i < 2 * (2 * dim)) (hj : j < 2 * (2 * dim)) (M : SMem K) :
    Ref θ (2 * dim) (ext dim x) M (sCell2 R i M j) := by
  unfold sCell2
  split_ifs
  · exact Ref.refl _
  · have hx := xor1_lt hi
    have hy := xor1_lt hj
    by_cases hs0 : GSatT θ (2 * dim) M (ext dim x)
    · have a := hs0.rd hi hj
      refine (ref_bmin hi hx fun hs => ?_).trans ((ref_bmin hi hx fun hs => ?_).trans
        (ref_bmin hi hx fun hs => ?_))
      · refine ((a.add R ((hs.rd hj hy).half R)).dbl R).mono ?_
        rw [W_xor, W_xor]; linarith
      · refine (a.add R (hs.rd hi hy)).mono ?_
        rw [W_xor, W_xor]; linarith
      · refine ((hs.rd hj hx).add R (hs.rd hy hx)).mono ?_
        rw [W_xor, W_xor]; linarith
    · exact ⟨fun h => absurd h hs0, (below_bmin _ _ _).trans ((below_bmin _ _ _).trans
        (below_bmin _ _ _))⟩

theorem fullFW_ref (M : SMem K) : Ref θ (2 * dim) (ext dim x) M (fullFW R dim M) := by
  unfold fullFW
  refine ref_foldl_range _ _ (fun M i hi => ?_) M
  refine ref_foldl_range _ _ (fun M j hj => ?_) M
  refine ref_foldl_range _ _ (fun M k hk => ?_) M
  have hj' : j < 2 * (2 * dim) := by
    have : j / 2 ≤ i / 2 := le_or1_iff.1 (by omega)
    omega
  have hi' : i < 2 * (2 * dim) := by omega
  have hk' : k < 2 * (2 * dim) := by omega
  exact ref_bmin hi' hj' fun hs => ((hs.rd hi' hk').add R (hs.rd hk' hj')).mono (by linarith)

theorem range4_lt : ∀ i ∈ List.range (4 * dim), i < 2 * (2 * dim) := by
  intro i hi
  have := List.mem_range.1 hi
  omega

theorem sStep_ref (hθ : fin 0 ≤ θ) (M : SMem K) : RefB θ (2 * dim) (ext dim x) M (sStep R dim M) := by
  unfold sStep
  dsimp only
  refine Ref.thenB (M' := (List.range (4 * dim)).foldl (sRow1 R) M)
    (ref_foldl_range _ _ (fun M i hi => sRow1_ref R (by omega) M) M) ?_
  refine Ref.thenB (M' := (List.range (4 * dim)).foldl (fun M i =>
    (List.range (4 * dim)).foldl (sCell2 R i) M) _) (ref_foldl_range _ _ (fun M i hi => ?_) _) ?_
  · exact ref_foldl_range _ _ (fun M j hj => sCell2_ref R (by omega) (by omega) M) M
  · refine RefB.bind (diagCheck_ref hθ _ range4_lt _) fun M' => ?_
    exact (tighten_ref R M').thenB ((fullFW_ref R _).thenB (diagCheck_ref hθ _ range4_lt _))

/-- `viaNvars` under the invariant -/
theorem viaNvars_thenB (hθ : fin 0 ≤ θ) {n : ℕ} {hash : ℕ → ℕ} (hh : ∀ k < n, hash k < dim) (hn : n ≤ 30)
    {M : SMem K} {r : Bool × SMem K}
    (h : RefB θ (2 * dim) (ext dim x) (viaNvars R dim M hash n) r) :
    RefB θ (2 * dim) (ext dim x) M r :=
  ⟨fun hd hs => h.1 ((viaNvars_below R M).diag hd) (viaNvars_sat R hθ hd hs hh hn),
    h.2.trans (viaNvars_below R M)⟩

/-- what a step keeping the invariant brings -/
def RefD (θ : Bound K) (N : ℕ) (y : ℕ → K) (M M' : SMem K) : Prop :=
  (Diag N M → GSatT θ N M y → GSatT θ N M' y) ∧ Below M' M

theorem RefD.trans {N : ℕ} {y : ℕ → K} {M M' M'' : SMem K} (h : RefD θ N y M M')
    (h' : RefD θ N y M' M'') : RefD θ N y M M'' :=
  ⟨fun hd hs => h'.1 (h.2.diag hd) (h.1 hd hs), h'.2.trans h.2⟩

theorem refD_foldl {N : ℕ} {y : ℕ → K} {α : Type*} (f : SMem K → α → SMem K) (l : List α)
    (h : ∀ M a, a ∈ l → RefD θ N y M (f M a)) (M : SMem K) : RefD θ N y M (l.foldl f M) :=
  foldl_inv (fun M' => RefD θ N y M M') f l (fun M' a ha hM => hM.trans (h M' a ha)) M
    ⟨fun _ h => h, Below.refl M⟩

theorem RefD.thenB {N : ℕ} {y : ℕ → K} {M M' : SMem K} {r : Bool × SMem K}
    (h : RefD θ N y M M') (h' : RefB θ N y M' r) : RefB θ N y M r :=
  ⟨fun hd hs => h'.1 (h.2.diag hd) (h.1 hd hs), h'.2.trans h.2⟩

theorem viaNvars_refD (hθ : fin 0 ≤ θ) {n : ℕ} {hash : ℕ → ℕ} (hh : ∀ k < n, hash k < dim) (hn : n ≤ 30)
    (M : SMem K) : RefD θ (2 * dim) (ext dim x) M (viaNvars R dim M hash n) :=
  ⟨fun hd hs => viaNvars_sat R hθ hd hs hh hn, viaNvars_below R M⟩

theorem hash3_lt {i j k : ℕ} (hi : i < dim) (hj : j < dim) (hk : k < dim) :
    ∀ t < 3, hash3 i j k t < dim := by
  intro t _
  unfold hash3; split_ifs <;> assumption

theorem small_step (hθ : fin 0 ≤ θ) (hdim : dim ≤ 2) (M : SMem K) :
    RefB θ (2 * dim) (ext dim x) M (sStep R dim (viaNvars R dim M id dim)) :=
  (viaNvars_refD R hθ (fun _ h => h) (by omega) M).thenB (sStep_ref R hθ _)

theorem closeWeak1_ref (hθ : fin 0 ≤ θ) (M : SMem K) : RefB θ (2 * dim) (ext dim x) M (closeWeak1 R dim M) := by
  unfold closeWeak1
  split_ifs with h2
  · exact small_step R hθ h2 M
  · refine (tighten_ref R M).thenB ?_
    refine RefB.bind (closeOctPart_ref R hθ (by omega) _) fun M' => ?_
    refine Ref.thenB (ref_foldl_range (fun M i => (List.range ((i ||| 1) + 1)).foldl (fun M j =>
          if redundant dim i j then M
          else (List.range dim).foldl (fun M k => viaK R dim M i j k) M) M) (4 * dim)
        (fun M i hi => ?_) M') ?_
    · refine ref_foldl_range _ _ (fun M j hj => ?_) M
      have hj' : j < 4 * dim := by
        have : j / 2 ≤ i / 2 := le_or1_iff.1 (by omega)
        omega
      split_ifs
      · exact Ref.refl _
      · exact ref_foldl_range _ _ (fun M k hk => viaK_ref R hi hj' hk M) M
    · refine Ref.thenB (ref_foldl_range (fun M i =>
        (List.range ((i ||| 1) + 1)).foldl (fun (M : SMem K) j =>
          M.bmin (matpos2 i j)
            (SB.half R (SB.add R (M (matpos2 i (i ^^^ 1))) (M (matpos2 (j ^^^ 1) j))))) M)
          (4 * dim) (fun M i hi => ?_) _) ?_
      · refine ref_foldl_range _ _ (fun M j hj => ?_) M
        have hj' : j < 2 * (2 * dim) := by
          have : j / 2 ≤ i / 2 := le_or1_iff.1 (by omega)
          omega
        have hi' : i < 2 * (2 * dim) := by omega
        refine ref_bmin hi' hj' fun hs => ?_
        refine (((hs.rd hi' (xor1_lt hi')).add R (hs.rd (xor1_lt hj') hj')).half R).mono ?_
        rw [W_xor, W_xor]; linarith
      · refine (tighten_ref R _).thenB ((fullFW_ref R _).thenB ?_)
        exact RefB.bind (diagCheck'_ref _ range4_lt _) fun M' => sStep_ref R hθ M'

theorem closeWeak3_ref (hθ : fin 0 ≤ θ) (M : SMem K) : RefB θ (2 * dim) (ext dim x) M (closeWeak3 R dim M) := by
  unfold closeWeak3
  split_ifs with h2
  · exact small_step R hθ h2 M
  · refine RefD.thenB ?_ (sStep_ref R hθ _)
    refine refD_foldl _ _ (fun M k hk => ?_) M
    refine refD_foldl _ _ (fun M i hi => ?_) M
    refine refD_foldl _ _ (fun M j hj => ?_) M
    split_ifs
    · exact ⟨fun _ h => h, Below.refl _⟩
    · exact viaNvars_refD R hθ (hash3_lt (by simpa using hi) (by simpa using hj) (by simpa using hk))
        (by omega) M

theorem closeStrong_ref (hθ : fin 0 ≤ θ) (hdim : dim ≤ 30) (M : SMem K) :
    RefB θ (2 * dim) (ext dim x) M (closeStrong R dim M) := by
  unfold closeStrong
  split_ifs with h2
  · exact small_step R hθ h2 M
  · rcases e : orthLoop R dim M id dim with _ | A
    · refine ⟨fun hd hs => ?_, Below.refl _⟩
      obtain ⟨A, e', -⟩ := orthLoop_sat R hθ (n := dim) (hash := id) hd hs (fun _ h => h) hdim
      rw [e] at e'
      cases e'
    · refine RefD.thenB ⟨fun hd hs => ?_, ?_⟩ (sStep_ref R hθ _)
      · obtain ⟨A', e', hA⟩ := orthLoop_sat R hθ (n := dim) (hash := id) hd hs (fun _ h => h) hdim
        rw [e] at e'
        obtain rfl : A = A' := by simpa using e'
        refine foldl_inv (fun M' => GSatT θ (2 * dim) M' (ext dim x)) _ _ (fun M' i hi h => ?_) M hs
        refine foldl_inv (fun M' => GSatT θ (2 * dim) M' (ext dim x)) _ _ (fun M' j hj h => ?_) M' h
        have hi' : i < 2 * (2 * dim) := by have := List.mem_range.1 hi; omega
        have hj' : j < 2 * (2 * dim) := by
          have : j / 2 ≤ i / 2 := le_or1_iff.1 (by have := List.mem_range.1 hj; omega)
          omega
        exact h.bmin hi' hj' (hA.rd hi' hj')
      · refine foldl_inv (fun M' => Below M' M) _ _ (fun M' i _ h => ?_) M (Below.refl _)
        exact foldl_inv (fun M' => Below M' M) _ _
          (fun M' j _ h => (below_bmin _ _ _).trans h) M' h

theorem close_ref (hθ : fin 0 ≤ θ) {alg : ℤ} (halg : alg = 2 → dim ≤ 30) (M : SMem K) :
    RefB θ (2 * dim) (ext dim x) M (close R alg dim M) := by
  unfold close
  split_ifs with h1 h2
  · exact closeStrong_ref R hθ (halg h1) M
  · exact closeWeak3_ref R hθ M
  · exact closeWeak1_ref R hθ M

theorem closeInc3_ref (hθ : fin 0 ≤ θ) {v : ℕ} (hv : v < dim) (M : SMem K) :
    RefB θ (2 * dim) (ext dim x) M (closeInc3 R dim M v) := by
  unfold closeInc3
  split_ifs with h2
  · exact small_step R hθ h2 M
  · refine RefD.thenB ?_ (sStep_ref R hθ _)
    refine refD_foldl _ _ (fun M i hi => ?_) M
    refine refD_foldl _ _ (fun M j hj => ?_) M
    split_ifs
    · exact ⟨fun _ h => h, Below.refl _⟩
    · have hi' : i < dim := by simpa using hi
      have hj' : j < dim := by
        have := List.mem_range'_1.1 hj
        omega
      exact viaNvars_refD R hθ (hash3_lt hi' hj' hv) (by omega) M

theorem incColCell_ref {N : ℕ} {y : ℕ → K} {k i j : ℕ} (hk : k < 2 * N) (hj : j < 2 * N)
    (hij : i ≤ j) (M : SMem K) : Ref θ N y M (incColCell R k i M j) := by
  have hi : i < 2 * N := by omega
  have hc : Cell j i := by unfold Cell; omega
  unfold incColCell
  rw [← matpos2_cell hc]
  have hkx := xor1_lt hk
  split_ifs with hb
  · have c1 : Cell (k ^^^ 1) (j ^^^ 1) := by unfold Cell; rw [xor1_div, xor1_div]; omega
    have c2 : Cell k (j ^^^ 1) := by unfold Cell; rw [xor1_div]; omega
    rw [← matpos2_cell c1, ← matpos2_cell c2]
    have key : ∀ (M : SMem K) (l : ℕ), l < 2 * N → Ref θ N y M (M.addTo R (matpos2 j i)
        (M (matpos2 l i)) (M (matpos2 (l ^^^ 1) (j ^^^ 1)))) := by
      intro M l hl
      refine ⟨fun h => h.upd (SB.low_ok (h.rd hj hi) ?_), below_addTo _ _ _ _ _⟩
      refine ((h.rd hl hi).addNsc R (h.rd (xor1_lt hl) (xor1_lt hj))).mono ?_
      rw [V_xor1, V_xor1]; linarith
    refine (key M k hk).trans ?_
    have := key (M.addTo R (matpos2 j i) (M (matpos2 k i)) (M (matpos2 (k ^^^ 1) (j ^^^ 1))))
      (k ^^^ 1) hkx
    rwa [xor1_xor1] at this
  · have c1 : Cell j k := by unfold Cell; omega
    have c2 : Cell j (k ^^^ 1) := by unfold Cell; rw [xor1_div]; omega
    rw [← matpos2_cell c1, ← matpos2_cell c2]
    have key : ∀ (M : SMem K) (l : ℕ), l < 2 * N → Ref θ N y M (M.addTo R (matpos2 j i)
        (M (matpos2 l i)) (M (matpos2 j l))) := by
      intro M l hl
      refine ⟨fun h => h.upd (SB.low_ok (h.rd hj hi) ?_), below_addTo _ _ _ _ _⟩
      exact ((h.rd hl hi).addNsc R (h.rd hj hl)).mono (by linarith)
    exact (key M k hk).trans (key _ _ hkx)

theorem closeInc1_ref (hθ : fin 0 ≤ θ) {v : ℕ} (hv : v < dim) (M : SMem K) :
    RefB θ (2 * dim) (ext dim x) M (closeInc1 R dim M v) := by
  unfold closeInc1
  dsimp only
  have hvi : ∀ i ∈ [2 * v, 2 * v + 1], i < 2 * (2 * dim) := by
    intro i hi
    simp only [List.mem_cons, List.not_mem_nil, or_false] at hi
    omega
  refine (tighten_ref R M).thenB ?_
  refine Ref.thenB (ref_foldl_range (fun M k => [2 * v, 2 * v + 1].foldl (fun M i =>
      (List.range' i (4 * dim - i)).foldl (incColCell R k i)
        ((List.range ((i ||| 1) + 1)).foldl (fwCell R k i) M)) M) (2 * dim)
      (fun M k hk => ref_foldl _ _ (fun M i hi => ?_) M) _) ?_
  · have hi' := hvi i hi
    refine (ref_foldl_range _ _ (fun M j hj => fwCell_ref R (by omega) hi'
      (le_or1_iff.1 (by omega)) M) M).trans (ref_foldl _ _ (fun M j hj => ?_) _)
    have := List.mem_range'_1.1 hj
    exact incColCell_ref R (by omega) (by omega) (by omega) M
  · refine Ref.thenB (ref_foldl (fun M k => (List.range (4 * dim)).foldl (fun M i =>
      (List.range ((i ||| 1) + 1)).foldl (fwCell R k i) M) M) [2 * v, 2 * v + 1]
      (fun M k hk => ref_foldl_range _ _ (fun M i hi => ref_foldl_range _ _ (fun M j hj =>
        fwCell_ref R (hvi k hk) (by omega) (le_or1_iff.1 (by omega)) M) M) M) _) ?_
    refine Ref.thenB (ref_foldl_range _ _ (fun M i hi => ?_) _) (sStep_ref R hθ _)
    split_ifs
    · exact Ref.refl _
    · refine ref_foldl_range _ _ (fun M j hj => ?_) M
      have hj' : j < 4 * dim := by
        have : j / 2 ≤ i / 2 := le_or1_iff.1 (by omega)
        omega
      split_ifs
      · exact Ref.refl _
      · exact viaK_ref R hi hj' hv M

theorem closeIncremental_ref (hθ : fin 0 ≤ θ) {alg : ℤ} {v : ℕ} (hv : v < dim) (M : SMem K) :
    RefB θ (2 * dim) (ext dim x) M (closeIncremental R alg dim M v) := by
  unfold closeIncremental
  split_ifs
  · exact closeInc3_ref R hθ hv M
  · exact closeInc1_ref R hθ hv M

end

end Avo
end Apron
