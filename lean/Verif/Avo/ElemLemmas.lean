import Verif.Avo.Defs
import Verif.Avo.Top
import Verif.Oct.QueryLemmas
import Verif.Oct.OfBox

/-! # Helper lemmas: values of absolute-value octagons -/

set_option autoImplicit false
set_option linter.unusedSectionVars false
set_option linter.ambiguousOpen false

namespace Apron
namespace AvoT
open Bound Oct Avo
variable {K : Type*} [LinearOrder K] [Field K] [IsStrictOrderedRing K] (R : Rnd K) {alg : ℤ}

/-- representation invariant -/
structure Wf (a : AvoT K) : Prop where
  marks : a.best.isSome → a.nsc.isSome
  le : ∀ c m, a.closed = some c → a.m = some m → ∀ q, c q ≤ m q
  dm : ∀ m, a.m = some m → ∀ i, i < 4 * a.dim → m (matpos i i) ≤ fin 0
  dc : ∀ c, a.closed = some c → ∀ i, i < 4 * a.dim → c (matpos i i) ≤ fin 0

theorem Wf.view {a : AvoT K} (h : Wf a) {m : Mem K} (hm : a.best = some m) :
    ∃ n, a.nsc = some n ∧ Diag (2 * a.dim) (zip m n) ∧ ∀ x, a.Gam x ↔ SSat a.dim (zip m n) x := by
  have hs := h.marks (by rw [hm]; rfl)
  obtain ⟨n, hn⟩ := Option.isSome_iff_exists.1 hs
  refine ⟨n, hn, ?_, fun x => ?_⟩
  · intro i hi
    unfold best at hm
    rcases hc : a.closed with _ | c
    · rw [hc] at hm
      exact h.dm m (by simpa using hm) i (by omega)
    · rw [hc] at hm
      obtain rfl : c = m := by simpa using hm
      exact h.dc c hc i (by omega)
  · unfold Gam
    rw [hm, hn]
    simp

theorem gam_none {a : AvoT K} (h : a.best = none) (x : ℕ → K) : ¬ a.Gam x := by
  rintro ⟨m, hm, _⟩
  rw [h] at hm
  cases hm

/-- the original matrix has at least the points of the value -/
theorem Wf.viewOrig {a : AvoT K} (h : Wf a) {m : Mem K} (hm : a.orig = some m) :
    ∃ n, a.nsc = some n ∧ Diag (2 * a.dim) (zip m n) ∧ ∀ x, a.Gam x → SSat a.dim (zip m n) x := by
  rcases hb : a.best with _ | b
  · exfalso
    unfold orig at hm; unfold best at hb
    rcases h1 : a.m with _ | m1 <;> rcases h2 : a.closed with _ | m2 <;> rw [h1, h2] at hm hb <;>
      simp at hm hb
  obtain ⟨n, hn, hd, hg⟩ := h.view hb
  rcases h1 : a.m with _ | m1
  · have e : m = b := by
      unfold orig at hm; unfold best at hb
      rw [h1] at hm hb
      rcases h2 : a.closed with _ | m2 <;> rw [h2] at hm hb <;> simp at hm hb
      rw [← hm, ← hb]
    subst e
    exact ⟨n, hn, hd, fun x hx => (hg x).1 hx⟩
  · have e : m1 = m := by
      unfold orig at hm
      rw [h1] at hm
      simpa using hm
    subst e
    refine ⟨n, hn, fun i hi => h.dm m1 h1 i (by omega), fun x hx => ?_⟩
    have hx := (hg x).1 hx
    rcases h2 : a.closed with _ | c
    · have : m1 = b := by
        unfold best at hb
        rw [h1, h2] at hb
        simpa using hb
      subst this
      exact hx
    · have : c = b := by
        unfold best at hb
        rw [h2] at hb
        simpa using hb
      subst this
      intro i j hi hc
      have := hx i j hi hc
      have hle := h.le c m1 h2 h1 (matpos i j)
      exact ⟨_root_.le_trans this.1 hle, fun hne => lt_of_lt_of_le (this.2 hne) hle⟩

theorem orig_none {a : AvoT K} : a.orig = none ↔ a.best = none := by
  unfold orig best
  rcases a.m with _ | m <;> rcases a.closed with _ | c <;> simp

theorem wf_bottom (dim intdim : ℕ) : Wf (bottom dim intdim : AvoT K) :=
  ⟨fun h => by simp [bottom, best] at h, fun _ _ h => by simp [bottom] at h,
   fun _ h => by simp [bottom] at h, fun _ h => by simp [bottom] at h⟩

theorem gam_bottom (dim intdim : ℕ) (x : ℕ → K) : ¬ (bottom dim intdim : AvoT K).Gam x :=
  gam_none rfl x

theorem wf_ofM {dim intdim : ℕ} {M : SMem K} (h : Diag (2 * dim) M) : Wf (ofM dim intdim M) := by
  refine ⟨fun _ => rfl, fun _ _ h => by simp [ofM] at h, fun m hm i hi => ?_, fun _ h => by simp [ofM] at h⟩
  obtain rfl : (fun q => (M q).1) = m := by simpa [ofM] using hm
  exact h i (by simp only [ofM] at hi; omega)

theorem wf_ofClosed {dim intdim : ℕ} {M : SMem K} (h : Diag (2 * dim) M) :
    Wf (ofClosed dim intdim M) := by
  refine ⟨fun _ => rfl, fun _ _ _ h => by simp [ofClosed] at h, fun _ h => by simp [ofClosed] at h,
    fun m hm i hi => ?_⟩
  obtain rfl : (fun q => (M q).1) = m := by simpa [ofClosed] using hm
  exact h i (by simp only [ofClosed] at hi; omega)

theorem gam_ofM {dim intdim : ℕ} {M : SMem K} {x : ℕ → K} :
    (ofM dim intdim M).Gam x ↔ SSat dim M x := by
  unfold Gam ofM best
  simp only [Option.none_or, Option.some.injEq, exists_eq_left', Option.getD_some]
  rfl

theorem gam_ofClosed {dim intdim : ℕ} {M : SMem K} {x : ℕ → K} :
    (ofClosed dim intdim M).Gam x ↔ SSat dim M x := by
  unfold Gam ofClosed best
  simp only [Option.some_or, Option.some.injEq, exists_eq_left', Option.getD_some]
  rfl

/-! ### closures -/

theorem cache_spec {a : AvoT K} (h : Wf a) (halg : alg = 2 → a.dim ≤ 30) :
    ∃ b, cache R alg a = some b ∧ Wf b ∧ b.dim = a.dim ∧ b.intdim = a.intdim ∧
      ∀ x, b.Gam x ↔ a.Gam x := by
  unfold cache
  rcases hc : a.closed with _ | c
  · rcases hm : a.m with _ | m
    · exact ⟨a, rfl, h, rfl, rfl, fun _ => Iff.rfl⟩
    · have hb : a.best = some m := by simp [best, hc, hm]
      obtain ⟨n, hn, hd, hg⟩ := h.view hb
      rw [hn]
      dsimp only
      have key : ∀ x, RefB pinf (2 * a.dim) (ext a.dim x) (zip m n) (Avo.close R alg a.dim (zip m n)) :=
        fun x => close_ref R (by simp) halg (zip m n)
      rcases e : Avo.close R alg a.dim (zip m n) with ⟨f, M⟩
      rw [e] at key
      cases f
      · dsimp only
        have hbelow := (key fun _ => 0).2
        refine ⟨_, rfl, ⟨fun _ => rfl, ?_, ?_, ?_⟩, rfl, rfl, fun x => ?_⟩
        · intro c' m' h1 h2 q
          obtain rfl : (fun q => (M q).1) = c' := by simpa using h1
          obtain rfl : m = m' := by simpa using h2
          exact (hbelow q).fst
        · intro m' h2 i hi
          obtain rfl : m = m' := by simpa using h2
          exact hd i (by dsimp only at hi; omega)
        · intro c' h1 i hi
          obtain rfl : (fun q => (M q).1) = c' := by simpa using h1
          exact hbelow.diag hd i (by dsimp only at hi; omega)
        · rw [hg]
          have this : ∀ y, (AvoT.mk (some m) (some fun q => (M q).1) (some fun q => (M q).2)
              a.dim a.intdim).Gam y ↔ SSat a.dim M y := by
            intro y
            unfold Gam best
            simp only [Option.some_or, Option.some.injEq, exists_eq_left', Option.getD_some]
            rfl
          rw [this]
          exact ⟨fun hx => gsatT_pinf.1 ((key x).2.sat (gsatT_pinf.2 hx)),
            fun hx => gsatT_pinf.1 ((key x).1 hd (gsatT_pinf.2 hx)).2⟩
      · refine ⟨_, rfl, wf_bottom _ _, rfl, rfl, fun x => ?_⟩
        refine ⟨fun hx => (gam_bottom _ _ x hx).elim, fun hx => ?_⟩
        have := ((key x).1 hd (gsatT_pinf.2 ((hg x).1 hx))).1
        simp at this
  · exact ⟨a, by rcases a.m <;> rfl, h, rfl, rfl, fun _ => Iff.rfl⟩

theorem cacheIf_spec (algo : ℤ) {a : AvoT K} (h : Wf a) (halg : alg = 2 → a.dim ≤ 30) :
    ∃ b, cacheIf R alg algo a = some b ∧ Wf b ∧ b.dim = a.dim ∧ b.intdim = a.intdim ∧
      ∀ x, b.Gam x ↔ a.Gam x := by
  unfold cacheIf
  split_ifs
  · exact cache_spec R h halg
  · exact ⟨a, rfl, h, rfl, rfl, fun _ => Iff.rfl⟩

/-- what is known of the strengthening step -/
theorem sStep_spec {dim : ℕ} {M : SMem K} (hd : Diag (2 * dim) M) :
    Diag (2 * dim) (Avo.sStep R dim M).2 ∧ (∀ x, SSat dim (Avo.sStep R dim M).2 x ↔ SSat dim M x) ∧
      ((Avo.sStep R dim M).1 = true → ∀ x, ¬ SSat dim M x) := by
  have key : ∀ x, RefB pinf (2 * dim) (ext dim x) M (Avo.sStep R dim M) :=
    fun x => sStep_ref R (by simp) M
  refine ⟨(key fun _ => 0).2.diag hd, fun x => ⟨fun hx => ?_, fun hx => ?_⟩, fun hb x hx => ?_⟩
  · exact gsatT_pinf.1 ((key x).2.sat (gsatT_pinf.2 hx))
  · exact gsatT_pinf.1 ((key x).1 hd (gsatT_pinf.2 hx)).2
  · have := ((key x).1 hd (gsatT_pinf.2 hx)).1
    rw [hb] at this
    simp at this

/-! ### pointwise operations -/

theorem pointwise_some {f : SB K → SB K → SB K} {m1 m2 n1 n2 : Mem K} :
    pointwise f m1 m2 (some n1) (some n2) = some fun q => f (zip m1 n1 q) (zip m2 n2 q) := rfl

theorem ok_min_iff {u : K} {d v : SB K} (hv : v.1 ≠ ninf) : Ok u (SB.min d v) ↔ Ok u d ∧ Ok u v := by
  constructor
  · intro h
    refine ⟨okT_pinf.1 ((SB.min_le d v).ok (okT_pinf.2 h)), ?_⟩
    unfold SB.min at h
    split_ifs at h with h1 h2
    · obtain ⟨v1, v2⟩ := v
      cases v1
      · exact absurd rfl hv
      · simp [infty] at h1
      · exact okT_pinf.1 (ok_top u v2)
    · exact h
    · have : LE d v := by
        by_contra hh
        exact h2 (SB.lt_iff.2 hh)
      exact okT_pinf.1 (this.ok (okT_pinf.2 h))
  · exact fun h => okT_pinf.1 (SB.min_ok (okT_pinf.2 h.1) (okT_pinf.2 h.2))

theorem ok_max {u : K} {d v : SB K} (h : Ok u d ∨ Ok u v) : Ok u (SB.max d v) :=
  okT_pinf.1 (SB.max_ok (h.imp okT_pinf.2 okT_pinf.2))

theorem diag_min {N : ℕ} {A B : SMem K} (hA : Diag N A) : Diag N fun q => SB.min (A q) (B q) :=
  fun i hi => _root_.le_trans (SB.min_le _ _).fst (hA i hi)

theorem max_fst (d v : SB K) : (SB.max d v).1 = Max.max d.1 v.1 := by
  apply le_antisymm
  · unfold SB.max
    split_ifs
    · exact le_max_right _ _
    · exact le_max_left _ _
  · exact max_le (SB.le_max_left d v).fst (SB.le_max_right d v).fst

theorem diag_max {N : ℕ} {A B : SMem K} (hA : Diag N A) (hB : Diag N B) :
    Diag N fun q => SB.max (A q) (B q) := fun i hi => by
  dsimp only
  rw [max_fst]
  exact max_le (hA i hi) (hB i hi)

theorem ok_fst_mono {u : K} {a b : SB K} (h : Ok u a) (h1 : a.1 ≤ b.1) (h2 : a.2 ≤ b.2) : Ok u b :=
  ⟨_root_.le_trans h.1 h1, fun hne => lt_of_lt_of_le (h.2 fun e => hne (by
    have := h2; rw [e] at this; exact le_antisymm (by simp) this)) h1⟩

theorem ok_widen {pre : Bool} {u : K} {d v : SB K} (h : Ok u d ∨ Ok u v) : Ok u (widenCell pre d v) := by
  unfold widenCell
  split_ifs with h0 h1 h2
  · simp only [bmax_eq_max]
    rcases h with h | h
    · exact ok_fst_mono h (le_max_left _ _) (le_max_left _ _)
    · exact ok_fst_mono h (le_max_right _ _) (le_max_right _ _)
  · rcases h with h | h
    · exact h
    · exact ⟨(lt_of_le_of_lt h.1 h1).le, fun _ => lt_of_le_of_lt h.1 h1⟩
  · simp only [bmax_eq_max]
    rcases h with h | h
    · exact ok_fst_mono h le_rfl (le_max_left _ _)
    · exact ok_fst_mono h h2.ge (le_max_right _ _)
  · exact okT_pinf.1 (ok_top _ _)

theorem find_ge {th : List (Bound K)} {b : Bound K} :
    b ≤ (th.find? fun t => decide (b ≤ t)).getD pinf := by
  rcases e : th.find? fun t => decide (b ≤ t) with _ | t
  · simp
  · simpa using List.find?_some e

theorem ok_widenTh {th : List (Bound K)} {u : K} {d v : SB K} (h : Ok u d ∨ Ok u v) :
    Ok u (widenThCell th d v) := by
  unfold widenThCell
  split_ifs with h1 h2 h3 h3
  · rcases h with h | h
    · exact h
    · exact ⟨(lt_of_le_of_lt h.1 h1).le, fun _ => lt_of_le_of_lt h.1 h1⟩
  · rcases h with h | h
    · exact ok_fst_mono h le_rfl le_rfl
    · exact ok_fst_mono h h2.ge h3
  · rcases h with h | h
    · exact ok_fst_mono h le_rfl (not_le.1 h3).le
    · exact ok_fst_mono h h2.ge le_rfl
  · have hlt : d.1 < v.1 := lt_of_le_of_ne (not_lt.1 h1) h2
    refine ⟨?_, fun hne => absurd rfl hne⟩
    refine _root_.le_trans ?_ find_ge
    rcases h with h | h
    · exact (lt_of_le_of_lt h.1 hlt).le
    · exact h.1

/-! ### boxes -/

theorem box_set {dim : ℕ} {M : SMem K} {x : ℕ → K} {i j : ℕ} {v : Bound K} (hi : i < 2 * dim)
    (hc : Cell i j) (hij : i ≠ j) (hv : fin (V x j - V x i) ≤ v)
    (h : Diag (2 * dim) M ∧ SSat dim M x ∧ ∀ q, (M q).2 = pinf) :
    Diag (2 * dim) (M.set (matpos i j) (v, (M (matpos i j)).2)) ∧
      SSat dim (M.set (matpos i j) (v, (M (matpos i j)).2)) x ∧
      ∀ q, ((M.set (matpos i j) (v, (M (matpos i j)).2)) q).2 = pinf := by
  obtain ⟨h1, h2, h3⟩ := h
  refine ⟨fun k hk => ?_, fun k l hk hkl => ?_, fun q => ?_⟩
  · unfold SMem.set
    split_ifs with e
    · obtain ⟨rfl, rfl⟩ := matpos_inj (cell_refl k) hc e
      exact absurd rfl hij
    · exact h1 k hk
  · unfold SMem.set
    split_ifs with e
    · obtain ⟨rfl, rfl⟩ := matpos_inj hkl hc e
      rw [V_ext_lo hi, V_ext_lo (by unfold Cell at hc; omega)]
      exact ⟨hv, fun hne => absurd (h3 _) hne⟩
    · exact h2 k l hk hkl
  · unfold SMem.set
    split_ifs with e
    · exact h3 _
    · exact h3 _

theorem boxMat_spec {dim : ℕ} {t : ℕ → Itv K} {x : ℕ → K} (hx : ∀ i < dim, x i ∈ t i) :
    Diag (2 * dim) (boxMat R dim t) ∧ SSat dim (boxMat R dim t) x := by
  have key : Diag (2 * dim) (boxMat R dim t) ∧ SSat dim (boxMat R dim t) x ∧
      ∀ q, (boxMat R dim t q).2 = pinf := by
    unfold boxMat
    refine foldl_inv (fun (M : SMem K) => Diag (2 * dim) M ∧ SSat dim M x ∧ ∀ q, (M q).2 = pinf)
      _ _ ?_ _ ⟨allocTop_Diag dim, allocTop_sat dim _ _, allocTop_nsc dim⟩
    intro M i hi hM
    have hi := List.mem_range.1 hi
    dsimp only
    refine box_set (by omega) (OctT.cell_oe i) (by omega) ?_
      (box_set (by omega) (OctT.cell_eo i) (by omega) ?_ hM)
    · have := OctT.ofScalar_dbl_ge R (hx i hi).2
      rw [V_even, V_odd]
      convert this using 2
      ring
    · have := OctT.ofScalar_dbl_ge R (hx i hi).1
      rw [V_even, V_odd]
      convert this using 2
      ring
  exact ⟨key.1, key.2.1⟩

/-! ### queries -/

theorem oct_sat {dim : ℕ} {M : SMem K} {x : ℕ → K} (h : SSat dim M x) :
    Sat dim (fun q => (M q).1) x := by
  intro i j hi hc
  have := (h i j (by omega) hc).1
  rw [V_ext_lo hi, V_ext_lo (by unfold Cell at hc; omega)] at this
  exact this

theorem oct_gam {a : AvoT K} {x : ℕ → K} (h : a.Gam x) : a.oct.Gam x := by
  obtain ⟨m, hm, hs⟩ := h
  exact OctT.gam_iff_best.2 ⟨m, hm, oct_sat hs⟩

end AvoT
end Apron
