import Verif.Avo.Transfer
import Verif.Avo.ElemLemmas
import Verif.Oct.AddLincons

/-!
# Absolute-value octagons: lemmas on constraints
-/

set_option autoImplicit false
set_option linter.unusedSectionVars false
set_option linter.ambiguousOpen false

namespace Apron
namespace Avo
open Bound Oct
variable {K : Type*} [LinearOrder K] [Field K] [IsStrictOrderedRing K] [FloorRing K] (R : Rnd K)

/-- at least as strong a constraint -/
def CLe (a b : SB K) : Prop := a.1 ≤ b.1 ∧ ∀ v, Ok v a → Ok v b

theorem CLe.refl (a : SB K) : CLe a a := ⟨le_rfl, fun _ h => h⟩
theorem CLe.trans {a b c : SB K} (h : CLe a b) (h' : CLe b c) : CLe a c :=
  ⟨_root_.le_trans h.1 h'.1, fun v hv => h'.2 v (h.2 v hv)⟩
theorem LE.cle {a b : SB K} (h : LE a b) : CLe a b :=
  ⟨h.fst, fun _ hv => okT_pinf.1 (h.ok (okT_pinf.2 hv))⟩

/-- every constraint at least as strong -/
def Sub (M' M : SMem K) : Prop := ∀ q, CLe (M' q) (M q)

theorem Sub.refl (M : SMem K) : Sub M M := fun _ => CLe.refl _
theorem Sub.trans {A B C : SMem K} (h : Sub A B) (h' : Sub B C) : Sub A C := fun q => (h q).trans (h' q)
theorem Sub.sat {A B : SMem K} (h : Sub A B) {dim : ℕ} {x : ℕ → K} (hs : SSat dim A x) : SSat dim B x :=
  fun i j hi hc => (h _).2 _ (hs i j hi hc)
theorem Sub.diag {A B : SMem K} (h : Sub A B) {N : ℕ} (hs : Diag N B) : Diag N A :=
  fun i hi => _root_.le_trans (h _).1 (hs i hi)
theorem Below.sub {A B : SMem K} (h : Below A B) : Sub A B := fun q => (h q).cle

theorem upd_sub (M : SMem K) (p : ℕ) {f : SB K → SB K} (h : ∀ c, CLe (f c) c) : Sub (upd M p f) M := by
  intro q
  unfold upd SMem.set
  split_ifs with e
  · rw [e]; exact h _
  · exact CLe.refl _

theorem addCell_sub (typ : ConsTyp K) (v : Bound K) (c : SB K) : CLe (addCell typ v c) c := by
  unfold addCell
  split_ifs with h1 h2
  · exact LE.cle (Or.inl h1)
  · exact LE.cle (Or.inr ⟨rfl, le_of_lt h2.2.2⟩)
  · exact CLe.refl _

theorem eqCell_sub (v : Bound K) (c : SB K) : CLe (eqCell v c) c := by
  unfold eqCell
  split_ifs with h1
  · exact LE.cle (Or.inl h1)
  · exact CLe.refl _

theorem diseqCell_sub (t0 t1 : Bound K) (c : SB K) : CLe (diseqCell t0 t1 c) c := by
  unfold diseqCell
  dsimp only
  split_ifs with h1
  · refine ⟨h1, fun v hv => ⟨_root_.le_trans hv.1 h1, fun _ => lt_of_lt_of_le (hv.2 (by simp)) h1⟩⟩
  · exact CLe.refl _

theorem addCell_ok {typ : ConsTyp K} (ht : CoreTyp typ) {v : Bound K} {c : SB K} {w : K} (hw : Ok w c)
    (h : fin w ≤ v) (hs : isSupTyp typ = true → fin w < v) : Ok w (addCell typ v c) := by
  unfold addCell
  split_ifs with h1 h2
  · refine ⟨h, ?_⟩
    cases typ with
    | eq => exact fun hn => absurd rfl hn
    | supeq => exact fun hn => absurd rfl hn
    | sup => exact fun _ => hs rfl
    | eqmod m => exact ht.elim
    | diseq => exact ht.elim
  · exact ⟨hw.1, fun _ => h2.1 ▸ hs h2.2.1⟩
  · exact hw

theorem eqCell_ok {v : Bound K} {c : SB K} {w : K} (hw : Ok w c) (h : fin w ≤ v) : Ok w (eqCell v c) := by
  unfold eqCell
  split_ifs with h1
  · exact ⟨h, fun hn => absurd rfl hn⟩
  · exact hw

/-- what the new upper bound says, provided the old mark does not go below `0` -/
theorem addCell_says {typ : ConsTyp K} {v : Bound K} {c : SB K} {w : K} (hw : Ok w (addCell typ v c)) :
    fin w ≤ v ∧ (isSupTyp typ = true → fin w < v) := by
  unfold addCell at hw
  split_ifs at hw with h1 h2
  · refine ⟨hw.1, fun hs => hw.2 ?_⟩
    cases typ <;> simp_all [isSupTyp]
  · exact ⟨_root_.le_trans hw.1 (le_of_eq h2.1.symm), fun _ => lt_of_lt_of_eq (hw.2 (by simp)) h2.1.symm⟩
  · refine ⟨_root_.le_trans hw.1 (not_lt.1 h1), fun hs => ?_⟩
    rcases eq_or_lt_of_le (not_lt.1 h1) with e | e
    · have : ¬ fin 0 < c.2 := fun hc => h2 ⟨e.symm, hs, hc⟩
      have hne : c.2 ≠ pinf := by rintro e'; rw [e'] at this; simp at this
      exact lt_of_lt_of_eq (hw.2 hne) e
    · exact lt_of_le_of_lt hw.1 e

theorem eqCell_says {v : Bound K} {c : SB K} {w : K} (hw : Ok w (eqCell v c)) : fin w ≤ v := by
  unfold eqCell at hw
  split_ifs at hw with h1
  · exact hw.1
  · exact _root_.le_trans hw.1 (not_lt.1 h1)

theorem accum_lt (t : ℕ → Bound K) (n : ℕ) (init : Bound K) :
    1 ≤ (accum R t n init).cnt → (accum R t n init).j1 < n ∧ (accum R t n init).j2 < n := by
  have h0 : ∀ n, (accum R t n init).cnt = 0 → (accum R t n init).j1 = 0 := by
    intro n
    induction n with
    | zero => exact fun _ => rfl
    | succ n ih =>
      have hstep : accum R t (n + 1) init = if infty (t n) then
          ⟨(accum R t n init).sum, (accum R t n init).cnt + 1, n, (accum R t n init).j1⟩
          else { accum R t n init with sum := add R (accum R t n init).sum (t n) } := by
        unfold accum; rw [List.range_succ, List.foldl_append]; rfl
      rw [hstep]
      split_ifs
      · simp
      · exact ih
  induction n with
  | zero => simp [accum]
  | succ n ih =>
    have hstep : accum R t (n + 1) init = if infty (t n) then
        ⟨(accum R t n init).sum, (accum R t n init).cnt + 1, n, (accum R t n init).j1⟩
        else { accum R t n init with sum := add R (accum R t n init).sum (t n) } := by
      unfold accum; rw [List.range_succ, List.foldl_append]; rfl
    rw [hstep]
    split_ifs
    · refine fun _ => ⟨by simp, ?_⟩
      dsimp only
      rcases Nat.eq_zero_or_pos (accum R t n init).cnt with h | h
      · rw [h0 n h]; omega
      · have := (ih h).1; omega
    · intro h
      have := ih h
      dsimp only
      omega

theorem bmin_off {m : Mem K} {p q : ℕ} (h : p ≠ q) (v : Bound K) : m.bmin p v q = m q := by
  unfold Mem.bmin
  exact if_neg (Ne.symm h)

theorem otherHalf_off {dst : ℕ → Bound K} {dim : ℕ} {acc : Acc K} {b : Mem K} {q : ℕ}
    (hq : matsize dim ≤ q) (hj : 1 ≤ acc.cnt → acc.j1 < dim ∧ acc.j2 < dim) :
    otherHalf R dst dim acc b q = b q := by
  have key : ∀ {m : Mem K} {i j : ℕ} (v : Bound K), i < 2 * dim → j < 2 * dim →
      m.bmin (matpos2 i j) v q = m q := fun v hi hj =>
    bmin_off (by have := matpos2_lt hi hj; omega) v
  unfold otherHalf
  split_ifs with q0 q1 q2 q3
  · rfl
  · unfold otherQuad
    refine foldl_inv (fun b' => b' q = b q) _ _ (fun b' j hj0 h => ?_) b rfl
    simp only [List.mem_range] at hj0
    cases hp : pick dst b' j with
    | none => exact h
    | some p =>
      obtain ⟨bj, uj⟩ := p
      obtain ⟨h1, h2⟩ := pick_infty hp
      refine foldl_inv (fun b' => b' q = b q) _ _ (fun b' k hk h => ?_) b' h
      simp only [List.mem_range'_1] at hk
      cases hp' : pick dst b' k with
      | none => exact h
      | some p =>
        obtain ⟨bk, uk⟩ := p
        obtain ⟨h3, h4⟩ := pick_infty hp'
        have hcell : Cell (uk ^^^ 1) uj := by unfold Cell; rw [xor1_div]; omega
        simp only
        rw [← matpos2_cell hcell, key _ (xor1_lt (by omega)) (by omega)]
        exact h
  · obtain ⟨hj1, -⟩ := hj (by omega)
    unfold otherLin
    cases hu1 : unitIdx dst acc.j1 with
    | none => rfl
    | some uj =>
      have := unitIdx_div hu1
      refine foldl_inv (fun b' => b' q = b q) _ _ (fun b' k hk h => ?_) b rfl
      simp only [List.mem_range] at hk
      split_ifs with hk1
      · exact h
      · cases hp' : pick dst b' k with
        | none => exact h
        | some p =>
          obtain ⟨bk, uk⟩ := p
          obtain ⟨h3, h4⟩ := pick_infty hp'
          simp only
          rw [key _ (xor1_lt (by omega)) (by omega)]
          exact h
  · obtain ⟨hj1, hj2⟩ := hj (by omega)
    unfold otherOne
    cases hu1 : unitIdx dst acc.j1 with
    | none => rfl
    | some ui =>
      cases hu2 : unitIdx dst acc.j2 with
      | none => rfl
      | some uj =>
        have := unitIdx_div hu1
        have := unitIdx_div hu2
        exact key _ (xor1_lt (by omega)) (by omega)
  · rfl

/-- the general case writes only the octagonal part -/
theorem addOther_off {dst : ℕ → Bound K} {dim : ℕ} {isEq : Bool} {b : Mem K} {i j : ℕ}
    (hi : 2 * dim ≤ i) : addOther R dst dim isEq b (matpos i j) = b (matpos i j) := by
  have hq : matsize dim ≤ matpos i j := by
    have h3 : matpos (2 * dim) 0 = matsize dim := by
      unfold matpos matsize; rw [row_even]; omega
    have h4 := row_mono hi
    have : matpos i 0 ≤ matpos i j := by unfold matpos; omega
    omega
  unfold addOther
  have h1 := otherHalf_off R (dst := dst) (b := b) hq
    (accum_lt R (fun j => (prodBounds R dst b j).2) dim (mul2 R (dst 1)))
  split_ifs
  · rw [otherHalf_off R hq (accum_lt R (fun j => (prodBounds R dst b j).1) dim (mul2 R (dst 0))), h1]
  · exact h1

section
variable {alg : ℤ} {dim : ℕ} {x : ℕ → K}

theorem upd_ok {M : SMem K} (h : SSat dim M x) {i j : ℕ} (hi : i < 2 * dim) (hj : j < 2 * dim)
    {f : SB K → SB K} (hf : ∀ c, Ok (V x j - V x i) c → Ok (V x j - V x i) (f c)) :
    SSat dim (upd M (matpos2 i j) f) x := by
  have h' := gsatT_pinf.2 h
  refine gsatT_pinf.1 (h'.set (okT_pinf.2 ?_))
  rw [V_ext_lo hi, V_ext_lo hj]
  refine hf _ ?_
  have := okT_pinf.1 (h'.rd (i := i) (j := j) (by omega) (by omega))
  rwa [V_ext_lo hi, V_ext_lo hj] at this

theorem upd_says {M : SMem K} {i j : ℕ} (hi : i < 2 * dim) (hj : j < 2 * dim)
    {f : SB K → SB K} (h : SSat dim (upd M (matpos2 i j) f) x) :
    Ok (V x j - V x i) (f (M (matpos2 i j))) := by
  have := okT_pinf.1 ((gsatT_pinf.2 h).rd (i := i) (j := j) (by omega) (by omega))
  rw [V_ext_lo hi, V_ext_lo hj] at this
  unfold upd SMem.set at this
  rwa [if_pos rfl] at this

/-- the pending variable is a dimension -/
def PendOk (dim : ℕ) (s : AddSt K) : Prop := s.pending = true → s.varPending < dim

theorem flushIf_keep {cond : Bool} {s : AddSt K} (hs : SSat dim s.b x) (hd : Diag (2 * dim) s.b)
    (hp : PendOk dim s) : ∃ b, flushIf R alg dim cond s = some b ∧ SSat dim b x ∧ Diag (2 * dim) b := by
  unfold flushIf
  split_ifs with h
  · simp only [Bool.and_eq_true] at h
    have key := closeIncremental_ref (x := x) (alg := alg) R (θ := pinf) (by simp) (hp h.1.2) s.b
    obtain ⟨h1, h2⟩ := key.1 hd (gsatT_pinf.2 hs)
    have h3 := key.2.diag hd
    rcases e : closeIncremental R alg dim s.b s.varPending with ⟨b, M⟩
    rw [e] at h1 h2 h3
    dsimp only at h1 h2 h3
    subst h1
    exact ⟨M, rfl, gsatT_pinf.1 h2, h3⟩
  · exact ⟨_, rfl, hs, hd⟩

theorem flushIf_sub {cond : Bool} {s : AddSt K} (hp : PendOk dim s) {b : SMem K}
    (h : flushIf R alg dim cond s = some b) : Sub b s.b := by
  unfold flushIf at h
  split_ifs at h with h0
  · simp only [Bool.and_eq_true] at h0
    have key := closeIncremental_ref (x := fun _ => 0) (alg := alg) R (θ := pinf) (by simp) (hp h0.1.2) s.b
    rcases e : closeIncremental R alg dim s.b s.varPending with ⟨c, M⟩
    rw [e] at h key
    rcases c with _ | _
    · obtain rfl := Option.some.inj h
      exact key.2.sub
    · simp at h
  · obtain rfl := Option.some.inj h
    exact Sub.refl _

/-- cells of the octagonal part have no strictness mark -/
def NoStrict (dim : ℕ) (M : SMem K) : Prop := ∀ i j, i < 2 * dim → Cell i j → (M (matpos i j)).2 = pinf

theorem addCore_keep {s : AddSt K} {u : UExpr} {dst : ℕ → Bound K} {typ : ConsTyp K} {v : K}
    (ht : CoreTyp typ) (hcl : ClassOk (fun i => i < dim) u dst) (hf : FormVal dim dst x v)
    (hv : Lincons.Rel typ v) (ho : u.type = .other → NoStrict dim s.b)
    (hs : SSat dim s.b x) (hd : Diag (2 * dim) s.b) (hp : PendOk dim s) :
    ∃ s', addCore R alg dim s u dst typ = some s' ∧ SSat dim s'.b x := by
  have hv0 := rel_nonneg ht hv
  have hsup : isSupTyp typ = true → 0 < v := by
    cases typ <;> simp [isSupTyp]
    exact hv
  have hnd : isDiseqTyp typ = false := by cases typ <;> first | rfl | exact ht.elim
  unfold ClassOk at hcl
  unfold addCore
  cases hty : u.type with
  | empty => exact ⟨s, rfl, hs⟩
  | zero =>
    simp only [hty] at hcl ⊢
    rw [formVal_zero hcl] at hf
    obtain ⟨h0, h1⟩ := hf
    rw [zero_add] at h1
    rw [if_pos]
    · exact ⟨s, rfl, hs⟩
    · cases typ with
      | eq =>
        simp only [zeroOk, Bool.and_eq_true, decide_eq_true_eq, sgn_nonneg_iff]
        rw [show v = 0 from hv] at h0 h1
        simp only [neg_zero] at h0
        exact ⟨h0, h1⟩
      | supeq =>
        simp only [zeroOk, decide_eq_true_eq, sgn_nonneg_iff]
        exact _root_.le_trans (by rw [fin_le_fin]; exact hv) h1
      | sup =>
        simp only [zeroOk, decide_eq_true_eq, sgn_pos_iff]
        exact lt_of_lt_of_le (by rw [fin_lt_fin]; exact hv) h1
      | eqmod m => exact ht.elim
      | diseq => exact ht.elim
  | unary =>
    simp only [hty] at hcl ⊢
    obtain ⟨hi, hu, hz⟩ := hcl
    rw [formVal_unary hi hu hz] at hf
    obtain ⟨h0, h1⟩ := hf
    rw [zero_add] at h1
    obtain ⟨b, hb, hbs, -⟩ := flushIf_keep R (alg := alg) (cond := decide (s.varPending ≠ u.i)) hs hd hp
    have hl := signed_lt u.coefI hi
    rw [hb]
    refine ⟨_, rfl, ?_⟩
    dsimp only
    rw [hnd]
    simp only [Bool.false_eq_true, if_false]
    rw [← matpos2_cell (cell_self_xor _), ← matpos2_cell (cell_xor_self _)]
    have hb1 : SSat dim (upd b (matpos2 (signed u.i u.coefI) (signed u.i u.coefI ^^^ 1))
        (addCell typ (mul2 R (dst 1)))) x := by
      refine upd_ok hbs hl (xor1_lt hl) fun c hc => addCell_ok ht hc ?_ fun hsp => ?_
      · refine _root_.le_trans ?_ (mul2_ge R h1)
        rw [V_xor1, fin_le_fin]; linarith
      · refine lt_of_lt_of_le ?_ (mul2_ge R h1)
        have := hsup hsp
        rw [V_xor1, fin_lt_fin]; linarith
    cases he : isEqTyp typ with
    | false => simpa using hb1
    | true =>
      have := rel_eq hv he
      simp only [if_true]
      refine upd_ok hb1 (xor1_lt hl) hl fun c hc => eqCell_ok hc (_root_.le_trans ?_ (mul2_ge R h0))
      rw [V_xor1, fin_le_fin]; linarith
  | binary =>
    simp only [hty] at hcl ⊢
    obtain ⟨hi, hj, hij, hu, hu', hz⟩ := hcl
    rw [formVal_binary hi hj (by omega) hu hu' hz] at hf
    obtain ⟨h0, h1⟩ := hf
    rw [zero_add] at h1
    obtain ⟨b, hb, hbs, -⟩ := flushIf_keep R (alg := alg)
      (cond := decide (s.varPending ≠ u.i) && decide (s.varPending ≠ u.j)) hs hd hp
    have hl := signed_lt u.coefI hi
    have hl' := signed_lt u.coefJ hj
    rw [hb]
    refine ⟨_, rfl, ?_⟩
    dsimp only
    have hb1 : SSat dim (upd b (matpos2 (signed u.j u.coefJ) (signed u.i u.coefI ^^^ 1))
        (addCell typ (dst 1))) x := by
      refine upd_ok hbs hl' (xor1_lt hl) fun c hc => addCell_ok ht hc ?_ fun hsp => ?_
      · refine _root_.le_trans ?_ h1
        rw [V_xor1, fin_le_fin]; linarith
      · refine lt_of_lt_of_le ?_ h1
        have := hsup hsp
        rw [V_xor1, fin_lt_fin]; linarith
    cases he : isEqTyp typ with
    | false => simpa using hb1
    | true =>
      have := rel_eq hv he
      simp only [if_true]
      refine upd_ok hb1 (xor1_lt hl') hl fun c hc => eqCell_ok hc (_root_.le_trans ?_ h0)
      rw [V_xor1, fin_le_fin]; linarith
  | other =>
    refine ⟨_, rfl, ?_⟩
    have key := addOther_sat R (AvoT.oct_sat hs) hf hv0 (rel_eq hv)
    intro i j hi hc
    dsimp only
    have old := hs i j hi hc
    by_cases hl : i < 2 * dim
    · have hj : j < 2 * dim := by unfold Cell at hc; omega
      have := key i j hl hc
      refine ⟨by rw [V_ext_lo hl, V_ext_lo hj]; exact this, fun hn => absurd (ho hty i j hl hc) hn⟩
    · rw [addOther_off R (by omega)]
      exact old

theorem addCore_sub {s s' : AddSt K} {u : UExpr} {dst : ℕ → Bound K} {typ : ConsTyp K}
    (hcl : ClassOk (fun i => i < dim) u dst) (hp : PendOk dim s)
    (h : addCore R alg dim s u dst typ = some s') : Sub s'.b s.b ∧ PendOk dim s' := by
  unfold ClassOk at hcl
  unfold addCore at h
  cases hty : u.type with
  | empty =>
    simp only [hty] at h
    obtain rfl := Option.some.inj h
    exact ⟨Sub.refl _, hp⟩
  | zero =>
    simp only [hty] at h
    split_ifs at h
    obtain rfl := Option.some.inj h
    exact ⟨Sub.refl _, hp⟩
  | unary =>
    simp only [hty] at h hcl
    cases hb : flushIf R alg dim (decide (s.varPending ≠ u.i)) s with
    | none => rw [hb] at h; simp at h
    | some b =>
      rw [hb] at h
      dsimp only at h
      obtain rfl := Option.some.inj h
      refine ⟨Sub.trans ?_ (flushIf_sub R hp hb), fun _ => hcl.1⟩
      dsimp only
      split_ifs
      · exact upd_sub _ _ (diseqCell_sub _ _)
      · exact (upd_sub _ _ (eqCell_sub _)).trans (upd_sub _ _ (addCell_sub _ _))
      · exact upd_sub _ _ (addCell_sub _ _)
  | binary =>
    simp only [hty] at h hcl
    cases hb : flushIf R alg dim (decide (s.varPending ≠ u.i) && decide (s.varPending ≠ u.j)) s with
    | none => rw [hb] at h; simp at h
    | some b =>
      rw [hb] at h
      dsimp only at h
      obtain rfl := Option.some.inj h
      refine ⟨Sub.trans ?_ (flushIf_sub R hp hb), fun _ => ?_⟩
      · dsimp only
        split_ifs
        · exact (upd_sub _ _ (eqCell_sub _)).trans (upd_sub _ _ (addCell_sub _ _))
        · exact upd_sub _ _ (addCell_sub _ _)
      · dsimp only
        split_ifs
        · exact hcl.2.1
        · exact hcl.1
  | other =>
    simp only [hty] at h
    obtain rfl := Option.some.inj h
    refine ⟨fun q => ?_, hp⟩
    have := addOther_le R dst dim (isEqTyp typ) (fun q => (s.b q).1) q
    exact ⟨this, fun v hv => ⟨_root_.le_trans hv.1 this, fun hn => lt_of_lt_of_le (hv.2 hn) this⟩⟩

/-- with exact numbers a unary or binary constraint is not approximated -/
theorem addCore_exact {s s' : AddSt K} {u : UExpr} {dst : ℕ → Bound K} {typ : ConsTyp K} {q : K}
    (ht : CoreTyp typ) (hcl : ClassOk (fun i => i < dim) u dst)
    (hne : u.type ≠ .empty) (hno : u.type ≠ .other) (hq : InD dst 0 q)
    (h : addCore Rnd.exact alg dim s u dst typ = some s') (hs : SSat dim s'.b x) :
    ∃ v, FormVal dim dst x v ∧ Lincons.Rel typ v := by
  have hnd : isDiseqTyp typ = false := by cases typ <;> first | rfl | exact ht.elim
  have pick_lt : ∀ {w : K}, fin w < dst 1 → ∃ p, w < p ∧ fin p ≤ dst 1 := by
    intro w hw
    cases hd : dst 1 with
    | ninf => rw [hd] at hw; simp at hw
    | pinf => exact ⟨w + 1, by linarith, by simp⟩
    | fin p => rw [hd] at hw; exact ⟨p, by simpa using hw, le_refl _⟩
  unfold ClassOk at hcl
  unfold addCore at h
  cases hty : u.type with
  | empty => exact absurd hty hne
  | zero =>
    simp only [hty] at hcl h
    split_ifs at h with hok
    simp only [formVal_zero hcl]
    cases typ with
    | eq =>
      simp only [zeroOk, Bool.and_eq_true, decide_eq_true_eq, sgn_nonneg_iff] at hok
      exact ⟨0, ⟨by simpa using hok.1, hok.2⟩, rfl⟩
    | supeq =>
      simp only [zeroOk, decide_eq_true_eq, sgn_nonneg_iff] at hok
      exact ⟨_, inD_max hq hok, le_max_right _ _⟩
    | sup =>
      simp only [zeroOk, decide_eq_true_eq, sgn_pos_iff] at hok
      obtain ⟨p, hp0, hp⟩ := pick_lt hok
      exact ⟨_, inD_max hq hp, lt_of_lt_of_le hp0 (le_max_right _ _)⟩
    | eqmod m => exact ht.elim
    | diseq => exact ht.elim
  | unary =>
    simp only [hty] at hcl h
    obtain ⟨hi, hu, hz⟩ := hcl
    simp only [formVal_unary hi hu hz]
    have hl := signed_lt u.coefI hi
    generalize signed u.i u.coefI = ui at *
    cases hb : flushIf Rnd.exact alg dim (decide (s.varPending ≠ u.i)) s with
    | none => rw [hb] at h; simp at h
    | some b =>
      rw [hb] at h
      dsimp only at h
      obtain rfl := Option.some.inj h
      dsimp only at hs
      rw [hnd] at hs
      simp only [Bool.false_eq_true, if_false] at hs
      rw [← matpos2_cell (cell_self_xor _), ← matpos2_cell (cell_xor_self _)] at hs
      have hb1 : SSat dim (upd b (matpos2 ui (ui ^^^ 1)) (addCell typ (mul2 Rnd.exact (dst 1)))) x := by
        split_ifs at hs
        · exact (upd_sub _ _ (eqCell_sub _)).sat hs
        · exact hs
      obtain ⟨h1, h1s⟩ := addCell_says (upd_says hl (xor1_lt hl) hb1)
      rw [V_xor1, show -V x ui - V x ui = 2 * -V x ui by ring] at h1 h1s
      have h1 := le_mul2_exact h1
      cases typ with
      | eq =>
        simp only [isEqTyp, if_true] at hs
        have h2 := eqCell_says (upd_says (xor1_lt hl) hl hs)
        rw [V_xor1, show V x ui - -V x ui = 2 * V x ui by ring] at h2
        have h2 := le_mul2_exact h2
        exact ⟨0, ⟨by simpa using h2, by simpa using h1⟩, rfl⟩
      | supeq =>
        refine ⟨max q (-V x ui) + V x ui, ?_, ?_⟩
        · rw [add_sub_cancel_right]; exact inD_max hq h1
        · change 0 ≤ _
          linarith [le_max_right q (-V x ui)]
      | sup =>
        have h2 : fin (-V x ui) < dst 1 := by
          have := h1s rfl
          cases hd : dst 1 with
          | ninf => rw [hd] at h1; simp at h1
          | pinf => simp
          | fin p =>
            rw [hd] at this
            simp [mul2, Rnd.exact] at this ⊢
            linarith
        obtain ⟨p, hp0, hp⟩ := pick_lt h2
        refine ⟨max q p + V x ui, ?_, ?_⟩
        · rw [add_sub_cancel_right]; exact inD_max hq hp
        · change 0 < _
          linarith [le_max_right q p]
      | eqmod m => exact ht.elim
      | diseq => exact ht.elim
  | binary =>
    simp only [hty] at hcl h
    obtain ⟨hi, hj, hij, hu, hu', hz⟩ := hcl
    simp only [formVal_binary hi hj (by omega) hu hu' hz]
    have hl := signed_lt u.coefI hi
    have hl' := signed_lt u.coefJ hj
    generalize signed u.i u.coefI = ui at *
    generalize signed u.j u.coefJ = uj at *
    cases hb : flushIf Rnd.exact alg dim (decide (s.varPending ≠ u.i) && decide (s.varPending ≠ u.j)) s with
    | none => rw [hb] at h; simp at h
    | some b =>
      rw [hb] at h
      dsimp only at h
      obtain rfl := Option.some.inj h
      dsimp only at hs
      have hb1 : SSat dim (upd b (matpos2 uj (ui ^^^ 1)) (addCell typ (dst 1))) x := by
        split_ifs at hs
        · exact (upd_sub _ _ (eqCell_sub _)).sat hs
        · exact hs
      obtain ⟨h1, h1s⟩ := addCell_says (upd_says hl' (xor1_lt hl) hb1)
      rw [V_xor1, show -V x ui - V x uj = -(V x ui + V x uj) by ring] at h1 h1s
      cases typ with
      | eq =>
        simp only [isEqTyp, if_true] at hs
        have h2 := eqCell_says (upd_says (xor1_lt hl') hl hs)
        rw [V_xor1, show V x ui - -V x uj = V x ui + V x uj by ring] at h2
        exact ⟨0, ⟨by rw [zero_sub, _root_.neg_neg]; exact h2, by rw [zero_sub]; exact h1⟩, rfl⟩
      | supeq =>
        refine ⟨max q (-(V x ui + V x uj)) + (V x ui + V x uj), ?_, ?_⟩
        · rw [add_sub_cancel_right]; exact inD_max hq h1
        · change 0 ≤ _
          linarith [le_max_right q (-(V x ui + V x uj))]
      | sup =>
        obtain ⟨p, hp0, hp⟩ := pick_lt (h1s rfl)
        refine ⟨max q p + (V x ui + V x uj), ?_, ?_⟩
        · rw [add_sub_cancel_right]; exact inD_max hq hp
        · change 0 < _
          linarith [le_max_right q p]
      | eqmod m => exact ht.elim
      | diseq => exact ht.elim
  | other => exact absurd hty hno

/-! ### lists of constraints -/

/-- the types that are handled soundly: all but the disequality -/
def SoundTyp (typ : ConsTyp K) : Prop := isDiseqTyp typ = false

theorem addOne_keep {s : AddSt K} {c : Lincons K} (he : c.expr.InDim dim) (ht : SoundTyp c.typ)
    (ho : (uexprOf R c.expr 0).1.type = .other → NoStrict dim s.b) (hc : c.Holds x)
    (hs : SSat dim s.b x) (hd : Diag (2 * dim) s.b) (hp : PendOk dim s) :
    ∃ s', addOne R alg dim s c = some s' ∧ SSat dim s'.b x := by
  obtain ⟨v, hv, hr⟩ := hc
  have hf := val_form R (intdim := 0) he hv
  have hcl := uexpr_class R he 0
  unfold addOne
  cases h : c.typ with
  | eqmod m => exact ⟨_, rfl, hs⟩
  | diseq => rw [h] at ht; simp [SoundTyp, isDiseqTyp] at ht
  | eq => rw [h] at hr; exact addCore_keep R trivial hcl hf hr ho hs hd hp
  | supeq => rw [h] at hr; exact addCore_keep R trivial hcl hf hr ho hs hd hp
  | sup => rw [h] at hr; exact addCore_keep R trivial hcl hf hr ho hs hd hp

theorem addOne_sub {s s' : AddSt K} {c : Lincons K} (he : c.expr.InDim dim) (hp : PendOk dim s)
    (h : addOne R alg dim s c = some s') : Sub s'.b s.b ∧ PendOk dim s' := by
  have hcl := uexpr_class R he 0
  unfold addOne at h
  cases ht : c.typ <;> simp only [ht] at h
  case eqmod => obtain rfl := Option.some.inj h; exact ⟨Sub.refl _, hp⟩
  all_goals exact addCore_sub R hcl hp h

theorem addOne_exact {s s' : AddSt K} {c : Lincons K} (he : c.expr.InDim dim) (ht : CoreTyp c.typ)
    (ho : (uexprOf Rnd.exact c.expr 0).1.type ≠ .other) (hv : ∃ v, c.expr.Val x v)
    (h : addOne Rnd.exact alg dim s c = some s') (hs : SSat dim s'.b x) : c.Holds x := by
  obtain ⟨v0, hv0⟩ := hv
  have hne : (uexprOf Rnd.exact c.expr 0).1.type ≠ .empty := fun e => uexpr_empty _ e x v0 hv0
  obtain ⟨q, -, hq, -, -⟩ := val_form Rnd.exact (intdim := 0) he hv0
  have hcl := uexpr_class Rnd.exact he 0
  have key : ∃ v, FormVal dim (uexprOf Rnd.exact c.expr 0).2 x v ∧ Lincons.Rel c.typ v := by
    unfold addOne at h
    cases h' : c.typ <;> simp only [h'] at h <;> rw [h'] at ht
    case eqmod => exact ht.elim
    case diseq => exact ht.elim
    all_goals exact addCore_exact trivial hcl hne ho hq h hs
  obtain ⟨v, h1, h2⟩ := key
  exact ⟨v, form_val he h1, h2⟩

theorem addLoop_sub (l : List (Lincons K)) : ∀ (s s' : AddSt K), (∀ c ∈ l, c.expr.InDim dim) →
    PendOk dim s → addLoop R alg dim l s = some s' → Sub s'.b s.b ∧ PendOk dim s' := by
  induction l with
  | nil =>
    intro s s' _ hp h
    obtain rfl := Option.some.inj h
    exact ⟨Sub.refl _, hp⟩
  | cons c l ih =>
    intro s s' he hp h
    unfold addLoop at h
    cases h1 : addOne R alg dim s c with
    | none => rw [h1] at h; simp at h
    | some s1 =>
      rw [h1] at h
      obtain ⟨i1, i2⟩ := addOne_sub R (he c (by simp)) hp h1
      obtain ⟨j1, j2⟩ := ih s1 s' (fun c h => he c (by simp [h])) i2 h
      exact ⟨j1.trans i1, j2⟩

theorem addLoop_keep (l : List (Lincons K)) : ∀ (s : AddSt K), (∀ c ∈ l, c.expr.InDim dim) →
    (∀ c ∈ l, SoundTyp c.typ) → (∀ c ∈ l, (uexprOf R c.expr 0).1.type ≠ .other) →
    (∀ c ∈ l, c.Holds x) → SSat dim s.b x → Diag (2 * dim) s.b → PendOk dim s →
    ∃ s', addLoop R alg dim l s = some s' ∧ SSat dim s'.b x := by
  induction l with
  | nil => intro s _ _ _ _ hs _ _; exact ⟨s, rfl, hs⟩
  | cons c l ih =>
    intro s he ht ho hc hs hd hp
    obtain ⟨s1, h1, h2⟩ := addOne_keep R (alg := alg) (he c (by simp)) (ht c (by simp))
      (fun h => absurd h (ho c (by simp))) (hc c (by simp)) hs hd hp
    obtain ⟨i1, i2⟩ := addOne_sub R (he c (by simp)) hp h1
    unfold addLoop
    rw [h1]
    exact ih s1 (fun c h => he c (by simp [h])) (fun c h => ht c (by simp [h]))
      (fun c h => ho c (by simp [h])) (fun c h => hc c (by simp [h])) h2 (i1.diag hd) i2

theorem addLoop_exact (l : List (Lincons K)) : ∀ (s s' : AddSt K), (∀ c ∈ l, c.expr.InDim dim) →
    (∀ c ∈ l, CoreTyp c.typ) → (∀ c ∈ l, (uexprOf Rnd.exact c.expr 0).1.type ≠ .other) →
    (∀ c ∈ l, ∃ v, c.expr.Val x v) → PendOk dim s → addLoop Rnd.exact alg dim l s = some s' →
    SSat dim s'.b x → ∀ c ∈ l, c.Holds x := by
  induction l with
  | nil => intro _ _ _ _ _ _ _ _ _; simp
  | cons c l ih =>
    intro s s' he ht ho hv hp h hs
    unfold addLoop at h
    cases h1 : addOne Rnd.exact alg dim s c with
    | none => rw [h1] at h; simp at h
    | some s1 =>
      rw [h1] at h
      obtain ⟨i1, i2⟩ := addOne_sub _ (he c (by simp)) hp h1
      have j := addLoop_sub Rnd.exact (alg := alg) l s1 s' (fun c h => he c (by simp [h])) i2 h
      have k := ih s1 s' (fun c h => he c (by simp [h])) (fun c h => ht c (by simp [h]))
        (fun c h => ho c (by simp [h])) (fun c h => hv c (by simp [h])) i2 h hs
      intro c' hc'
      rcases List.mem_cons.1 hc' with rfl | hc'
      · exact addOne_exact (he _ (by simp)) (ht _ (by simp)) (ho _ (by simp)) (hv _ (by simp)) h1
          (j.1.sat hs)
      · exact k c' hc'

/-- what `avo_hmat_add_lincons` returns comes from a state of the loop and a closure -/
theorem addLincons_cases {b : SMem K} {ar : List (Lincons K)} {respect : Bool} {r : SMem K × Bool}
    (h : addLincons R alg dim b ar respect = some r) :
    ∃ s, addLoop R alg dim ar ⟨b, 0, false, respect⟩ = some s ∧
      flushIf R alg dim true s = some r.1 ∧ r.2 = s.respect := by
  unfold addLincons at h
  cases h1 : addLoop R alg dim ar ⟨b, 0, false, respect⟩ with
  | none => rw [h1] at h; simp at h
  | some s =>
    rw [h1] at h
    dsimp only at h
    cases h2 : flushIf R alg dim true s with
    | none => rw [h2] at h; simp at h
    | some b' =>
      rw [h2] at h
      obtain rfl := Option.some.inj h
      exact ⟨s, rfl, h2, rfl⟩

theorem pendOk_init (b : SMem K) (respect : Bool) : PendOk dim (⟨b, 0, false, respect⟩ : AddSt K) :=
  fun h => by simp at h

theorem addLincons_sub {b : SMem K} {ar : List (Lincons K)} {respect : Bool} {r : SMem K × Bool}
    (he : ∀ c ∈ ar, c.expr.InDim dim) (h : addLincons R alg dim b ar respect = some r) : Sub r.1 b := by
  obtain ⟨s, h1, h2, -⟩ := addLincons_cases R h
  obtain ⟨i1, i2⟩ := addLoop_sub R ar _ _ he (pendOk_init b respect) h1
  exact (flushIf_sub R i2 h2).trans i1

theorem addLincons_of_loop {b : SMem K} {ar : List (Lincons K)} {respect : Bool} {s : AddSt K}
    (he : ∀ c ∈ ar, c.expr.InDim dim) (hd : Diag (2 * dim) b)
    (h : addLoop R alg dim ar ⟨b, 0, false, respect⟩ = some s) (hs : SSat dim s.b x) :
    ∃ r, addLincons R alg dim b ar respect = some r ∧ SSat dim r.1 x := by
  obtain ⟨i1, i2⟩ := addLoop_sub R ar _ _ he (pendOk_init b respect) h
  obtain ⟨b', h3, h4, -⟩ := flushIf_keep R (alg := alg) (cond := true) hs (i1.diag hd) i2
  refine ⟨(b', s.respect), ?_, h4⟩
  unfold addLincons
  rw [h]
  dsimp only
  rw [h3]

end
end Avo

namespace AvoT
open Bound Oct Avo
variable {K : Type*} [LinearOrder K] [Field K] [IsStrictOrderedRing K] [FloorRing K] (R : Rnd K) {alg : ℤ}

theorem meetLincons_view {algo : ℤ} {a : AvoT K} (ha : a.Wf) {ar : List (Lincons K)} {m n : Mem K}
    (hm : a.best = some m) (hn : a.nsc = some n) :
    (addLincons R alg a.dim (zip m n) ar (a.closed.isSome && decide (0 ≤ algo)) = none ∧
      meetLinconsArray R alg algo a ar = some (bottom a.dim a.intdim)) ∨
    ∃ r, addLincons R alg a.dim (zip m n) ar (a.closed.isSome && decide (0 ≤ algo)) = some r ∧
      (meetLinconsArray R alg algo a ar = some (ofM a.dim a.intdim r.1) ∧ r.2 = false ∨
       meetLinconsArray R alg algo a ar = some (ofClosed a.dim a.intdim r.1) ∧ r.2 = true) := by
  unfold meetLinconsArray
  rw [hm, hn]
  dsimp only [Option.map_some]
  rcases addLincons R alg a.dim (zip m n) ar (a.closed.isSome && decide (0 ≤ algo)) with _ | ⟨M, _ | _⟩
  · exact Or.inl ⟨rfl, rfl⟩
  · exact Or.inr ⟨_, rfl, Or.inl ⟨rfl, rfl⟩⟩
  · exact Or.inr ⟨_, rfl, Or.inr ⟨rfl, rfl⟩⟩

/-- the result in terms of the matrix -/
theorem meetLincons_spec {algo : ℤ} {a : AvoT K} (ha : a.Wf) {ar : List (Lincons K)}
    (he : ∀ c ∈ ar, c.expr.InDim a.dim) {m n : Mem K} (hm : a.best = some m) (hn : a.nsc = some n)
    (hd : Diag (2 * a.dim) (zip m n)) :
    ∃ b, meetLinconsArray R alg algo a ar = some b ∧ b.Wf ∧ b.dim = a.dim ∧ b.intdim = a.intdim ∧
      ∀ x, b.Gam x ↔ ∃ r, addLincons R alg a.dim (zip m n) ar
        (a.closed.isSome && decide (0 ≤ algo)) = some r ∧ SSat a.dim r.1 x := by
  rcases meetLincons_view R (alg := alg) (algo := algo) ha (ar := ar) hm hn with
    ⟨h1, h2⟩ | ⟨r, h1, ⟨h2, -⟩ | ⟨h2, -⟩⟩
  · refine ⟨_, h2, wf_bottom _ _, rfl, rfl, fun x => ⟨fun h => (gam_bottom _ _ x h).elim, ?_⟩⟩
    rintro ⟨r, hr, -⟩
    rw [h1] at hr; cases hr
  · refine ⟨_, h2, wf_ofM ((addLincons_sub R he h1).diag hd), rfl, rfl, fun x => ?_⟩
    rw [gam_ofM, h1]
    exact ⟨fun h => ⟨r, rfl, h⟩, fun ⟨r', e, h⟩ => by rw [Option.some.inj e]; exact h⟩
  · refine ⟨_, h2, wf_ofClosed ((addLincons_sub R he h1).diag hd), rfl, rfl, fun x => ?_⟩
    rw [gam_ofClosed, h1]
    exact ⟨fun h => ⟨r, rfl, h⟩, fun ⟨r', e, h⟩ => by rw [Option.some.inj e]; exact h⟩

theorem meetLincons_none {algo : ℤ} {a : AvoT K} (h : a.best = none) (ar : List (Lincons K)) :
    meetLinconsArray R alg algo a ar = some (bottom a.dim a.intdim) := by
  unfold meetLinconsArray
  rw [h]

/-- satisfying a constraint with one or two terms -/
theorem holds_unary {typ : ConsTyp K} {p : K} {d : ℕ} {k : K} {x : ℕ → K} (hd : d ≠ dimMax)
    (h : Lincons.Rel typ (p + k * x d)) :
    Lincons.Holds (⟨typ, ⟨.scalar (fin p), .sparse [(d, .scalar (fin k))]⟩⟩ : Lincons K) x := by
  have ht : Linexpr.TermsVal [(d, Coeff.scalar (fin k))] x (k * x d + 0) :=
    ⟨k, 0, by simp [Coeff.Has], rfl, rfl⟩
  exact ⟨p + (k * x d + 0), ⟨p, _, by simp [Coeff.Has], by simpa [Linexpr.terms, hd] using ht, rfl⟩,
    by simpa using h⟩

theorem holds_binary {typ : ConsTyp K} {p : K} {d d' : ℕ} {k k' : K} {x : ℕ → K}
    (hd : d ≠ dimMax) (hd' : d' ≠ dimMax) (h : Lincons.Rel typ (p + (k * x d + k' * x d'))) :
    Lincons.Holds (⟨typ, ⟨.scalar (fin p),
      .sparse [(d, .scalar (fin k)), (d', .scalar (fin k'))]⟩⟩ : Lincons K) x := by
  have ht : Linexpr.TermsVal [(d, Coeff.scalar (fin k)), (d', Coeff.scalar (fin k'))] x
      (k * x d + (k' * x d' + 0)) :=
    ⟨k, _, by simp [Coeff.Has], ⟨k', 0, by simp [Coeff.Has], rfl, rfl⟩, rfl⟩
  exact ⟨p + (k * x d + (k' * x d' + 0)), ⟨p, _, by simp [Coeff.Has],
    by simpa [Linexpr.terms, hd, hd'] using ht, rfl⟩, by simpa using h⟩

end AvoT
end Apron
