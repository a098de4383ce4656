import Verif.Oct.Resize
import Verif.Oct.OctLemmas

/-! # Helper lemmas: effect of `hmat_addrem_dimensions` on cells -/

set_option autoImplicit false
set_option linter.unusedSectionVars false
set_option linter.ambiguousOpen false

namespace Apron
namespace Oct
open Bound
variable {K : Type*} [LinearOrder K] [Field K] [IsStrictOrderedRing K]

/-- `dst'` is `dst` with `dst[d] := src[s]` for all related `d`, `s` -/
def Upd (src dst dst' : Mem K) (P : ℕ → ℕ → Prop) : Prop :=
  (∀ d s, P d s → dst' d = src s) ∧ ∀ d, (∀ s, ¬ P d s) → dst' d = dst d

theorem Upd.comp {src a b c : Mem K} {P Q : ℕ → ℕ → Prop} (h1 : Upd src a b P) (h2 : Upd src b c Q)
    (hd : ∀ d s s', P d s → Q d s' → s = s') : Upd src a c (fun d s => P d s ∨ Q d s) := by
  constructor
  · intro d s h
    by_cases hq : ∃ s', Q d s'
    · obtain ⟨s', hs'⟩ := hq
      rw [h2.1 d s' hs']
      rcases h with h | h
      · rw [hd d s s' h hs']
      · rw [← h2.1 d s' hs', h2.1 d s h]
    · push Not at hq
      rw [h2.2 d hq]
      exact h1.1 d s (h.resolve_right (hq s))
  · intro d h
    rw [h2.2 d fun s hs => h s (Or.inr hs), h1.2 d fun s hs => h s (Or.inl hs)]

theorem Upd.congr {src a b : Mem K} {P Q : ℕ → ℕ → Prop} (h : Upd src a b P)
    (e : ∀ d s, P d s ↔ Q d s) : Upd src a b Q :=
  ⟨fun d s hq => h.1 d s ((e d s).2 hq), fun d hq => h.2 d fun s hp => hq s ((e d s).1 hp)⟩

theorem Upd.refl (src a : Mem K) : Upd src a a (fun _ _ => False) :=
  ⟨fun _ _ h => h.elim, fun _ _ => rfl⟩

theorem copyArr_upd (dst src : Mem K) (d s n : ℕ) :
    Upd src dst (copyArr dst d src s n) (fun p q => ∃ k, k < n ∧ p = d + k ∧ q = s + k) := by
  constructor
  · rintro _ _ ⟨k, hk, rfl, rfl⟩
    unfold copyArr
    rw [if_pos ⟨by omega, by omega⟩, show d + k - d = k by omega]
  · intro p h
    unfold copyArr
    rw [if_neg]
    rintro ⟨h1, h2⟩
    exact h _ ⟨p - d, by omega, by omega, rfl⟩

/-- correspondence old index / new index established by the copying loops -/
def vrel (add : Bool) (mult : ℕ) : List ℕ → ℕ → ℕ → ℕ → ℕ → Prop
  | [], oi, ni, c, e => oi ≤ c ∧ e + oi = c + ni
  | p :: ps, oi, ni, c, e => (oi ≤ c ∧ c < p ∧ e + oi = c + ni) ∨
      vrel add mult ps (p + (if add then 0 else mult)) (ni + (p - oi) + (if add then mult else 0)) c e

/-- the positions are ordered, with room for the removed variables -/
def Ok (add : Bool) (mult : ℕ) : List ℕ → ℕ → Prop
  | [], _ => True
  | p :: ps, oi => oi ≤ p ∧ Ok add mult ps (p + (if add then 0 else mult))

variable {add : Bool} {mult : ℕ}

theorem vrel_ge {ps : List ℕ} {oi ni c e : ℕ} (hok : Ok add mult ps oi) (h : vrel add mult ps oi ni c e) :
    oi ≤ c ∧ ni ≤ e := by
  induction ps generalizing oi ni with
  | nil => simp only [vrel] at h; omega
  | cons p ps ih =>
    simp only [vrel, Ok] at h hok
    rcases h with h | h
    · omega
    · have := ih hok.2 h; omega

/-- the correspondence is strictly increasing -/
theorem vrel_mono {ps : List ℕ} {oi ni c e c' e' : ℕ} (hok : Ok add mult ps oi)
    (h : vrel add mult ps oi ni c e) (h' : vrel add mult ps oi ni c' e') : c < c' ↔ e < e' := by
  induction ps generalizing oi ni with
  | nil => simp only [vrel] at h h'; omega
  | cons p ps ih =>
    simp only [vrel, Ok] at h h' hok
    rcases h with h | h <;> rcases h' with h' | h'
    · omega
    · have := vrel_ge hok.2 h'
      constructor
      · intro _; omega
      · intro _; omega
    · have := vrel_ge hok.2 h
      constructor
      · intro _; omega
      · intro _; omega
    · exact ih hok.2 h h'

theorem vrel_inj {ps : List ℕ} {oi ni c e c' e' : ℕ} (hok : Ok add mult ps oi)
    (h : vrel add mult ps oi ni c e) (h' : vrel add mult ps oi ni c' e') : c = c' ↔ e = e' := by
  have h1 := vrel_mono hok h h'
  have h2 := vrel_mono hok h' h
  omega

/-- the same correspondence on signed indices -/
def crel (add : Bool) (mult : ℕ) (ps : List ℕ) (oi ni c e : ℕ) : Prop :=
  c % 2 = e % 2 ∧ vrel add mult ps oi ni (c / 2) (e / 2)

theorem crel_mono {ps : List ℕ} {oi ni c e c' e' : ℕ} (hok : Ok add mult ps oi)
    (h : crel add mult ps oi ni c e) (h' : crel add mult ps oi ni c' e') : c < c' ↔ e < e' := by
  have h1 := vrel_mono hok h.2 h'.2
  have h2 := vrel_mono hok h'.2 h.2
  have := h.1; have := h'.1
  omega

theorem crel_inj {ps : List ℕ} {oi ni c e c' e' : ℕ} (hok : Ok add mult ps oi)
    (h : crel add mult ps oi ni c e) (h' : crel add mult ps oi ni c' e') : c = c' ↔ e = e' := by
  have h1 := crel_mono hok h h'
  have h2 := crel_mono hok h' h
  omega

theorem crel_cell {ps : List ℕ} {oi ni c e c' e' : ℕ} (hok : Ok add mult ps oi)
    (h : crel add mult ps oi ni c e) (h' : crel add mult ps oi ni c' e') : Cell c c' ↔ Cell e e' := by
  have h1 := vrel_mono hok h.2 h'.2
  have h2 := vrel_mono hok h'.2 h.2
  unfold Cell; omega

theorem crel_xor {ps : List ℕ} {oi ni c e : ℕ} (h : crel add mult ps oi ni c e) :
    crel add mult ps oi ni (c ^^^ 1) (e ^^^ 1) := by
  refine ⟨?_, by rw [xor1_div, xor1_div]; exact h.2⟩
  have := h.1
  rw [xor1, xor1]; split_ifs <;> omega

theorem crel_cons {p : ℕ} {ps : List ℕ} {oi ni c e : ℕ} :
    crel add mult (p :: ps) oi ni c e ↔ (2 * oi ≤ c ∧ c < 2 * p ∧ e + 2 * oi = c + 2 * ni) ∨
      crel add mult ps (p + (if add then 0 else mult)) (ni + (p - oi) + (if add then mult else 0)) c e := by
  unfold crel
  simp only [vrel]
  constructor
  · rintro ⟨h1, h2 | h2⟩
    · left; omega
    · exact Or.inr ⟨h1, h2⟩
  · rintro (h | h)
    · exact ⟨by omega, Or.inl (by omega)⟩
    · exact ⟨h.1, Or.inr h.2⟩

theorem crel_nil {oi ni c e : ℕ} :
    crel add mult [] oi ni c e ↔ 2 * oi ≤ c ∧ e + 2 * oi = c + 2 * ni := by
  unfold crel; simp only [vrel]; omega

/-- effect of the column loop -/
theorem colLoop_upd (src : Mem K) (oc nc szo : ℕ) (ps : List ℕ) (oi ni : ℕ) (dst : Mem K)
    (hok : Ok add mult ps oi) :
    Upd src dst (colLoop add mult src oc nc szo ps (2 * oi) (2 * ni) dst)
      (fun d s => ∃ c e, crel add mult ps oi ni c e ∧ c < szo ∧ d = nc + e ∧ s = oc + c) := by
  induction ps generalizing oi ni dst with
  | nil =>
    refine (copyArr_upd dst src _ _ _).congr fun d s => ?_
    constructor
    · rintro ⟨k, hk, rfl, rfl⟩
      exact ⟨2 * oi + k, 2 * ni + k, crel_nil.2 (by omega), by omega, by omega, by omega⟩
    · rintro ⟨c, e, h, h1, h2, h3⟩
      rw [crel_nil] at h
      exact ⟨c - 2 * oi, by omega, by omega, by omega⟩
  | cons p ps ih =>
    simp only [Ok] at hok
    unfold colLoop
    split_ifs with hb ha
    · refine (copyArr_upd dst src _ _ _).congr fun d s => ?_
      constructor
      · rintro ⟨k, hk, rfl, rfl⟩
        exact ⟨2 * oi + k, 2 * ni + k, crel_cons.2 (Or.inl (by omega)), by omega, by omega, by omega⟩
      · rintro ⟨c, e, h, h1, h2, h3⟩
        rw [crel_cons] at h
        rcases h with h | h
        · exact ⟨c - 2 * oi, by omega, by omega, by omega⟩
        · have := vrel_ge hok.2 h.2; omega
    all_goals
      have hc := copyArr_upd dst src (nc + 2 * ni) (oc + 2 * oi) (2 * p - 2 * oi)
    · have h2 := ih p (ni + (p - oi) + mult)
        (copyArr dst (nc + 2 * ni) src (oc + 2 * oi) (2 * p - 2 * oi)) (by simpa [ha] using hok.2)
      rw [show 2 * (ni + (p - oi) + mult) = 2 * ni + (2 * p - 2 * oi) + 2 * mult by omega] at h2
      refine (hc.comp h2 ?_).congr fun d s => ?_
      · rintro d s s' ⟨k, hk, rfl, rfl⟩ ⟨c, e, h, h1, h2, h3⟩
        have := vrel_ge (by simpa [ha] using hok.2) h.2
        omega
      · constructor
        · rintro (⟨k, hk, rfl, rfl⟩ | ⟨c, e, h, h1, h2, h3⟩)
          · exact ⟨2 * oi + k, 2 * ni + k, crel_cons.2 (Or.inl (by omega)), by omega, by omega, by omega⟩
          · exact ⟨c, e, crel_cons.2 (Or.inr (by simpa [ha] using h)), h1, h2, h3⟩
        · rintro ⟨c, e, h, h1, h2, h3⟩
          rw [crel_cons] at h
          rcases h with h | h
          · exact Or.inl ⟨c - 2 * oi, by omega, by omega, by omega⟩
          · exact Or.inr ⟨c, e, by simpa [ha] using h, h1, h2, h3⟩
    · have h2 := ih (p + mult) (ni + (p - oi))
        (copyArr dst (nc + 2 * ni) src (oc + 2 * oi) (2 * p - 2 * oi)) (by simpa [ha] using hok.2)
      rw [show 2 * (ni + (p - oi)) = 2 * ni + (2 * p - 2 * oi) by omega,
        show 2 * (p + mult) = 2 * p + 2 * mult by omega] at h2
      refine (hc.comp h2 ?_).congr fun d s => ?_
      · rintro d s s' ⟨k, hk, rfl, rfl⟩ ⟨c, e, h, h1, h2, h3⟩
        have := vrel_ge (by simpa [ha] using hok.2) h.2
        omega
      · constructor
        · rintro (⟨k, hk, rfl, rfl⟩ | ⟨c, e, h, h1, h2, h3⟩)
          · exact ⟨2 * oi + k, 2 * ni + k, crel_cons.2 (Or.inl (by omega)), by omega, by omega, by omega⟩
          · exact ⟨c, e, crel_cons.2 (Or.inr (by simpa [ha] using h)), h1, h2, h3⟩
        · rintro ⟨c, e, h, h1, h2, h3⟩
          rw [crel_cons] at h
          rcases h with h | h
          · exact Or.inl ⟨c - 2 * oi, by omega, by omega, by omega⟩
          · exact Or.inr ⟨c, e, by simpa [ha] using h, h1, h2, h3⟩

/-- cells copied from rows `r` (old) to rows `r'` (new) related by `Rr` -/
def CellRel (add : Bool) (mult : ℕ) (pos : List ℕ) (Rr : ℕ → ℕ → Prop) (d s : ℕ) : Prop :=
  ∃ r r' c c', Rr r r' ∧ crel add mult pos 0 0 c c' ∧ Cell r c ∧ d = matpos r' c' ∧ s = matpos r c

theorem lineSize (i : ℕ) : i + 2 - i % 2 = (i ||| 1) + 1 := by rw [or1]; split_ifs <;> omega

theorem lt_lineSize {i j : ℕ} : j < i + 2 - i % 2 ↔ Cell i j := by
  rw [lineSize, Nat.lt_succ_iff, le_or1_iff]; rfl

theorem row_next (i : ℕ) : matpos i 0 + (i + 2 - i % 2) = matpos (i + 1) 0 := by
  rw [row_step, lineSize, matpos_eq i (i ||| 1)]; omega

/-- effect of the line loop; `Rr` covers the processed rows -/
theorem lineLoop_upd (src : Mem K) (pos : List ℕ) (hok : Ok add mult pos 0) (n oj nj : ℕ) (dst : Mem K)
    (hrow : ∀ k, k < n → crel add mult pos 0 0 (oj + k) (nj + k)) :
    Upd src dst (lineLoop add mult src pos n oj nj (matpos oj 0) (matpos nj 0) dst)
      (CellRel add mult pos fun r r' => ∃ k, k < n ∧ r = oj + k ∧ r' = nj + k) := by
  induction n generalizing oj nj dst with
  | zero =>
    refine (Upd.refl src dst).congr fun d s => ?_
    constructor
    · exact fun h => h.elim
    · rintro ⟨r, r', c, c', ⟨k, hk, _⟩, _⟩; omega
  | succ n ih =>
    unfold lineLoop
    simp only
    rw [row_next, row_next]
    have h1 := colLoop_upd (add := add) (mult := mult) src (matpos oj 0) (matpos nj 0) (oj + 2 - oj % 2) pos 0 0 dst hok
    have h2 := ih (oj + 1) (nj + 1)
      (colLoop add mult src (matpos oj 0) (matpos nj 0) (oj + 2 - oj % 2) pos 0 0 dst)
      (fun k hk => by have := hrow (k + 1) (by omega); rwa [show oj + (k + 1) = oj + 1 + k by omega,
        show nj + (k + 1) = nj + 1 + k by omega] at this)
    have h0 := hrow 0 (by omega)
    refine (h1.comp h2 ?_).congr fun d s => ?_
    · rintro d s s' ⟨c, e, h, h1, rfl, rfl⟩ ⟨r, r', c2, c2', ⟨k, hk, rfl, rfl⟩, g, gc, gd, gs⟩
      exfalso
      have hce : Cell nj e := (crel_cell hok h0 h).1 (lt_lineSize.1 h1)
      have := matpos_lt_next hce
      have := row_mono (show nj + 1 ≤ nj + 1 + k by omega)
      have e3 := matpos_eq nj e
      have e4 := matpos_eq (nj + 1 + k) c2'
      omega
    · constructor
      · rintro (⟨c, e, h, h1, rfl, rfl⟩ | ⟨r, r', c2, c2', ⟨k, hk, rfl, rfl⟩, g⟩)
        · exact ⟨oj, nj, c, e, ⟨0, by omega, rfl, rfl⟩, h, lt_lineSize.1 h1, (matpos_eq _ _).symm,
            (matpos_eq _ _).symm⟩
        · exact ⟨_, _, c2, c2', ⟨k + 1, by omega, by omega, by omega⟩, g⟩
      · rintro ⟨r, r', c, c', ⟨k, hk, rfl, rfl⟩, g, gc, gd, gs⟩
        rcases Nat.eq_zero_or_pos k with rfl | hk0
        · left
          exact ⟨c, c', g, lt_lineSize.2 gc, by rw [gd]; exact matpos_eq _ _, by rw [gs]; exact matpos_eq _ _⟩
        · right
          exact ⟨_, _, c, c', ⟨k - 1, by omega, rfl, rfl⟩, g, by
            rwa [show oj + 1 + (k - 1) = oj + k by omega], by
            rwa [show nj + 1 + (k - 1) = nj + k by omega], by
            rwa [show oj + 1 + (k - 1) = oj + k by omega]⟩

theorem matsize_row (i : ℕ) : matsize i = matpos (2 * i) 0 := by
  unfold matpos matsize; rw [row_even]; omega

/-- effect of the block loop -/
theorem blockLoop_upd (src : Mem K) (dim : ℕ) (pos : List ℕ) (hok : Ok add mult pos 0) (p : ℕ)
    (ps : List ℕ) (nj : ℕ) (dst : Mem K) (hps : Ok add mult (p :: ps) 0) (hlt : ∀ q ∈ ps, q ≤ dim)
    (hsub : ∀ c e, vrel add mult ps (p + (if add then 0 else mult)) (nj + (if add then mult else 0)) c e →
      vrel add mult pos 0 0 c e) :
    Upd src dst (blockLoop add mult dim src pos (p :: ps) (2 * p) (2 * nj) dst)
      (CellRel add mult pos fun r r' => r < 2 * dim ∧
        crel add mult ps (p + (if add then 0 else mult)) (nj + (if add then mult else 0)) r r') := by
  induction ps generalizing p nj dst with
  | nil =>
    unfold blockLoop blockLoop
    simp only [List.head?_nil, Option.getD_none]
    set oj := p + (if add then 0 else mult) with hoj
    set nj' := nj + (if add then mult else 0) with hnj
    have e1 : (if add = true then 2 * p else 2 * p + 2 * mult) = 2 * oj := by
      rw [hoj]; split_ifs <;> omega
    have e2 : (if add = true then 2 * nj + 2 * mult else 2 * nj) = 2 * nj' := by
      rw [hnj]; split_ifs <;> omega
    rw [e1, e2, show 2 * oj / 2 = oj by omega, show 2 * nj' / 2 = nj' by omega, matsize_row, matsize_row]
    refine (lineLoop_upd src pos hok _ _ _ dst ?_).congr fun d s => ?_
    · intro k hk
      exact ⟨by omega, hsub _ _ (by simp only [vrel]; omega)⟩
    · unfold CellRel
      constructor
      · rintro ⟨r, r', c, c', ⟨k, hk, rfl, rfl⟩, g⟩
        exact ⟨_, _, c, c', ⟨by omega, crel_nil.2 (by omega)⟩, g⟩
      · rintro ⟨r, r', c, c', ⟨hr, hk⟩, g⟩
        rw [crel_nil] at hk
        exact ⟨_, _, c, c', ⟨r - 2 * oj, by omega, by omega, by omega⟩, g⟩
  | cons q ps ih =>
    unfold blockLoop
    simp only [List.head?_cons, Option.getD_some]
    set oj := p + (if add then 0 else mult) with hoj
    set nj' := nj + (if add then mult else 0) with hnj
    have e1 : (if add = true then 2 * p else 2 * p + 2 * mult) = 2 * oj := by
      rw [hoj]; split_ifs <;> omega
    have e2 : (if add = true then 2 * nj + 2 * mult else 2 * nj) = 2 * nj' := by
      rw [hnj]; split_ifs <;> omega
    simp only [Ok] at hps
    have hq : oj ≤ q := hps.2.1
    have hqd : q ≤ dim := hlt q (by simp)
    rw [e1, e2, show 2 * oj / 2 = oj by omega, show 2 * nj' / 2 = nj' by omega, matsize_row, matsize_row]
    have h1 := lineLoop_upd src pos hok (2 * q - 2 * oj) (2 * oj) (2 * nj') dst (fun k hk =>
      ⟨by omega, hsub _ _ (by simp only [vrel]; left; omega)⟩)
    have h2 := ih q (nj' + (q - oj)) (lineLoop add mult src pos (2 * q - 2 * oj) (2 * oj) (2 * nj')
      (matpos (2 * oj) 0) (matpos (2 * nj') 0) dst) (by simp only [Ok]; exact ⟨by omega, hps.2.2⟩)
      (fun x hx => hlt x (by simp [hx]))
      (fun c e h => hsub c e (by simp only [vrel]; right; convert h using 2))
    rw [show 2 * oj + (2 * q - 2 * oj) = 2 * q by omega,
      show 2 * nj' + (2 * q - 2 * oj) = 2 * (nj' + (q - oj)) by omega]
    refine (h1.comp h2 ?_).congr fun d s => ?_
    · rintro d s s' ⟨r, r', c, c', ⟨k, hk, rfl, rfl⟩, g, gc, rfl, rfl⟩ ⟨r2, r2', c2, c2', ⟨hr2, g2⟩, f, fc, fd, fs⟩
      have hr : crel add mult pos 0 0 (2 * oj + k) (2 * nj' + k) :=
        ⟨by omega, hsub _ _ (by simp only [vrel]; left; omega)⟩
      have hr' : crel add mult pos 0 0 r2 r2' :=
        ⟨g2.1, hsub _ _ (by simp only [vrel]; right; convert g2.2 using 2)⟩
      obtain ⟨e1, e2⟩ := matpos_inj ((crel_cell hok hr g).1 gc) ((crel_cell hok hr' f).1 fc) fd
      rw [fs, (crel_inj hok hr hr').2 e1, (crel_inj hok g f).2 e2]
    · unfold CellRel
      constructor
      · rintro (⟨r, r', c, c', ⟨k, hk, rfl, rfl⟩, g⟩ | ⟨r, r', c, c', ⟨hr, hk⟩, g⟩)
        · exact ⟨_, _, c, c', ⟨by omega, crel_cons.2 (Or.inl (by omega))⟩, g⟩
        · exact ⟨_, _, c, c', ⟨hr, crel_cons.2 (Or.inr (by convert hk using 2))⟩, g⟩
      · rintro ⟨r, r', c, c', ⟨hr, hk⟩, g⟩
        rw [crel_cons] at hk
        rcases hk with hk | hk
        · exact Or.inl ⟨_, _, c, c', ⟨r - 2 * oj, by omega, by omega, by omega⟩, g⟩
        · exact Or.inr ⟨_, _, c, c', ⟨hr, by convert hk using 2⟩, g⟩

/-- effect of the whole function: cell `(r,c)` goes to `(r',c')` for related indices -/
theorem addrem_upd (src dst : Mem K) (dim : ℕ) (pos : List ℕ) (hne : pos ≠ []) (hok : Ok add mult pos 0)
    (hlt : ∀ q ∈ pos, q ≤ dim) :
    Upd src dst (addrem add mult dim dst src pos)
      (CellRel add mult pos fun r r' => r < 2 * dim ∧ crel add mult pos 0 0 r r') := by
  obtain ⟨p, ps, rfl⟩ := List.exists_cons_of_ne_nil hne
  unfold addrem
  simp only
  have hpd : p ≤ dim := hlt p (by simp)
  have h1 := copyArr_upd dst src 0 0 (matsize p)
  have h2 := blockLoop_upd src dim (p :: ps) hok p ps p (copyArr dst 0 src 0 (matsize p)) hok
    (fun q hq => hlt q (by simp [hq])) (fun c e h => by
      simp only [vrel]; right; simpa using h)
  have hid : ∀ r r', r < 2 * p → (crel add mult (p :: ps) 0 0 r r' ↔ r = r') := by
    intro r r' hr
    rw [crel_cons]
    constructor
    · rintro (h | h)
      · omega
      · have := vrel_ge hok.2 h.2; omega
    · intro h; left; omega
  refine (h1.comp h2 ?_).congr fun d s => ?_
  · rintro d s s' ⟨k, hk, rfl, rfl⟩ ⟨r, r', c, c', ⟨hr, g⟩, f, fc, fd, fs⟩
    exfalso
    have hg := vrel_ge hok.2 g.2
    have : matpos (2 * p) 0 ≤ matpos r' 0 := row_mono (by omega)
    rw [matsize_row] at hk
    rw [matpos_eq] at fd
    omega
  · constructor
    · rintro (⟨k, hk, rfl, rfl⟩ | ⟨r, r', c, c', ⟨hr, g⟩, f⟩)
      · obtain ⟨i, j, hi, hc, e⟩ := exists_cell hk
        have hj : j < 2 * p := by unfold Cell at hc; omega
        exact ⟨i, i, j, j, ⟨by omega, (hid i i hi).2 rfl⟩, (hid j j hj).2 rfl, hc, by omega, by omega⟩
      · exact ⟨r, r', c, c', ⟨hr, crel_cons.2 (Or.inr (by simpa using g))⟩, f⟩
    · rintro ⟨r, r', c, c', ⟨hr, g⟩, f, fc, fd, fs⟩
      by_cases hrp : r < 2 * p
      · left
        obtain rfl := (hid r r' hrp).1 g
        have hcp : c < 2 * p := by unfold Cell at fc; omega
        obtain rfl := (hid c c' hcp).1 f
        exact ⟨matpos r c, matpos_lt hrp fc, by omega, by omega⟩
      · right
        rw [crel_cons] at g
        refine ⟨r, r', c, c', ⟨hr, ?_⟩, f, fc, fd, fs⟩
        rcases g with g | g
        · omega
        · simpa using g

/-- the copied cells -/
theorem addrem_cell (src dst : Mem K) {dim : ℕ} {pos : List ℕ} (hne : pos ≠ []) (hok : Ok add mult pos 0)
    (hlt : ∀ q ∈ pos, q ≤ dim) {r r' c c' : ℕ} (hr : r < 2 * dim) (h1 : crel add mult pos 0 0 r r')
    (h2 : crel add mult pos 0 0 c c') (hc : Cell r c) :
    addrem add mult dim dst src pos (matpos r' c') = src (matpos r c) :=
  (addrem_upd src dst dim pos hne hok hlt).1 _ _ ⟨r, r', c, c', ⟨hr, h1⟩, h2, hc, rfl, rfl⟩

/-- the untouched cells -/
theorem addrem_other (src dst : Mem K) {dim : ℕ} {pos : List ℕ} (hne : pos ≠ []) (hok : Ok add mult pos 0)
    (hlt : ∀ q ∈ pos, q ≤ dim) {r' c' : ℕ} (hc : Cell r' c')
    (h : ¬ ((∃ r, r < 2 * dim ∧ crel add mult pos 0 0 r r') ∧ ∃ c, crel add mult pos 0 0 c c')) :
    addrem add mult dim dst src pos (matpos r' c') = dst (matpos r' c') := by
  refine (addrem_upd src dst dim pos hne hok hlt).2 _ fun s => ?_
  rintro ⟨r, r2, c, c2, ⟨hr, h1⟩, h2, hcc, hd, hs⟩
  obtain ⟨rfl, rfl⟩ := matpos_inj hc ((crel_cell hok h1 h2).1 hcc) hd
  exact h ⟨⟨r, hr, h1⟩, c, h2⟩

end Oct
end Apron
