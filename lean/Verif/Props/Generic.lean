import Verif.Core.GenericLemmas
import Verif.Props.Level1Expr

/-!
# C57, C58: generic functions of `ap_generic.c` and widening with thresholds
-/

set_option autoImplicit false
set_option linter.unusedSectionVars false
set_option linter.ambiguousOpen false

namespace Apron
namespace Props
open Generic

variable {K A E C : Type*}

/-- What a domain promises of the meet with an array of constraints, for points satisfying `I` on the integer
dimensions; `Holds c x` tells whether the constraint `c` may hold at `x`.  Nothing but the points
satisfying the constraints remains when `ex` holds. -/
structure MeetSpec (M : Man K A) (Ok : A → Prop) (Good : ℕ → C → Prop) (Holds : C → (ℕ → K) → Prop)
    (I : K → Prop) (ex : Prop) (f : A → List C → A) : Prop where
  ok : ∀ a l, Ok a → (∀ c ∈ l, Good (M.dim a) c) → Ok (f a l) ∧ M.Dims (f a l) (M.intdim a) (M.realdim a)
  sound : ∀ a l x, Ok a → (∀ c ∈ l, Good (M.dim a) c) → M.Gam a x → (∀ d, d < M.intdim a → I (x d)) →
    (∀ c ∈ l, Holds c x) → M.Gam (f a l) x
  exact : ex → ∀ a l x, Ok a → (∀ c ∈ l, Good (M.dim a) c) → M.Gam (f a l) x →
    M.Gam a x ∧ ∀ c ∈ l, Holds c x

/-- the part of `Man.Spec` used by the generic functions -/
structure DimSpec [Zero K] (M : Man K A) (Ok : A → Prop) (ex : Prop) : Prop where
  congr : ∀ a, Ok a → ∀ x y, (∀ v, v < M.dim a → x v = y v) → M.Gam a x → M.Gam a y
  add : ∀ a pos n project, Ok a → pos ≠ [] → n ≤ pos.length →
    Dim.LegalAdd (M.intdim a) (M.realdim a) pos n →
    Ok (M.add a pos n project) ∧
    M.Dims (M.add a pos n project) (M.intdim a + n) (M.realdim a + (pos.length - n)) ∧
    ∀ x, M.Gam (M.add a pos n project) x ↔
      M.Gam a (fun v => x (v + pos.countP (fun p => decide (p ≤ v)))) ∧
      (project = true → ∀ k, k < pos.length → x (pos.getD k 0 + k) = 0)
  remove : ∀ a pos n, Ok a → pos ≠ [] → n ≤ pos.length →
    Dim.LegalRemove (M.intdim a) (M.realdim a) pos n →
    Ok (M.remove a pos n) ∧
    M.Dims (M.remove a pos n) (M.intdim a - n) (M.realdim a - (pos.length - n)) ∧
    (∀ x x', M.Gam a x →
      (∀ v, v < M.dim a → v ∉ pos → x' (v - pos.countP (fun p => decide (p < v))) = x v) →
      M.Gam (M.remove a pos n) x') ∧
    (ex → ∀ x', M.Gam (M.remove a pos n) x' → ∃ x, M.Gam a x ∧
      ∀ v, v < M.dim a → v ∉ pos → x' (v - pos.countP (fun p => decide (p < v))) = x v)
  permute : ∀ a perm, Ok a → Dim.IsPerm (M.dim a) perm →
    Ok (M.permute a perm) ∧ M.Dims (M.permute a perm) (M.intdim a) (M.realdim a) ∧
    ∀ x, M.Gam (M.permute a perm) x ↔ M.Gam a (fun v => x (perm.getD v 0))
  meet : ∀ a b, Ok a → Ok b → M.Dims b (M.intdim a) (M.realdim a) →
    Ok (M.meet a b) ∧ M.Dims (M.meet a b) (M.intdim a) (M.realdim a) ∧
    ∀ x, M.Gam (M.meet a b) x ↔ M.Gam a x ∧ M.Gam b x

theorem dimSpec_of [Zero K] {M : Man K A} {Ok : A → Prop} {ex : Prop} (S : M.Spec Ok ex) : DimSpec M Ok ex :=
  ⟨S.congr, S.add, S.remove, S.permute, S.meet⟩

/-- `mk pos d e` is the constraint that the new dimension `d` is equal to `e` -/
def MkSpec (Good : ℕ → E → Prop) (Val : E → (ℕ → K) → K → Prop) (GoodC : ℕ → C → Prop)
    (Holds : C → (ℕ → K) → Prop) (mk : List ℕ → ℕ → E → C) : Prop :=
  ∀ n e pos d, Good n e → pos.Pairwise (· ≤ ·) → (∀ p ∈ pos, p ≤ n) → n + pos.length ≤ dimMax →
    d ∈ Dim.addInvert pos → d < n + pos.length →
    GoodC (n + pos.length) (mk pos d e) ∧
    ∀ x, Holds (mk pos d e) x ↔ Val e (fun v => x (v + pos.countP (fun p => decide (p ≤ v)))) (x d)

section Points
variable [Zero K]

/-- a point of the extended space from one of the old space (`X`) and the values of the primed copies -/
theorem exists_point {i r : ℕ} {ts q : List ℕ} (hq : PermSpec i r ts q) (X Y : ℕ → K) (I : K → Prop)
    (hlt : ∀ t ∈ ts, t < i + r)
    (hX : ∀ d, d < i → I (X d)) (hY : ∀ d, d < i → I (Y d)) (hoff : ∀ v, v < i + r → v ∉ ts → Y v = X v) :
    ∃ w : ℕ → K, (∀ v, v < i + r → w (up i (numInt i ts) v) = X v) ∧
      (∀ v, v < i + r → w (q.getD (up i (numInt i ts) v) 0) = Y v) ∧
      ∀ d, d < i + numInt i ts → I (w d) := by
  classical
  let ni := numInt i ts
  let w : ℕ → K := fun d =>
    if h : ∃ v, v < i + r ∧ d = up i ni v then X h.choose
    else if h : ∃ t, t ∈ ts ∧ d = q.getD (up i ni t) 0 then Y h.choose else 0
  have h1 : ∀ v, v < i + r → w (up i ni v) = X v := fun v hv => by
    have h : ∃ v', v' < i + r ∧ up i ni v = up i ni v' := ⟨v, hv, rfl⟩
    simp only [w]
    rw [dif_pos h, ← up_inj h.choose_spec.2]
  have hupN : ∀ v, v < i + r → up i ni v < i + r + ts.length := fun v hv => by
    have := numInt_le i ts
    simp only [up, ni]; split_ifs <;> omega
  have h2 : ∀ t, t ∈ ts → w (q.getD (up i ni t) 0) = Y t := fun t ht => by
    have hn : ¬ ∃ v, v < i + r ∧ q.getD (up i ni t) 0 = up i ni v := fun ⟨v, hv, e⟩ => (hq.target t ht).2 v hv e
    have h : ∃ t', t' ∈ ts ∧ q.getD (up i ni t) 0 = q.getD (up i ni t') 0 := ⟨t, ht, rfl⟩
    simp only [w]
    rw [dif_neg hn, dif_pos h]
    obtain ⟨a, b⟩ := h.choose_spec
    have := hq.isPerm.inj (hupN t (hlt t ht)) (hupN _ (hlt _ a)) b
    rw [← up_inj this]
  refine ⟨w, h1, fun v hv => ?_, fun d hd => ?_⟩
  · by_cases hvt : v ∈ ts
    · exact h2 v hvt
    · rw [hq.other v hv hvt, h1 v hv, hoff v hv hvt]
  · by_cases h : ∃ v, v < i + r ∧ d = up i ni v
    · obtain ⟨v, hv, rfl⟩ := h
      rw [h1 v hv]
      refine hX v ?_
      simp only [up, ni] at hd; split_ifs at hd <;> omega
    · push Not at h
      obtain ⟨t, ht, e, hti⟩ := hq.fresh d (by have := numInt_le i ts; omega) h
      rw [e, h2 t ht]
      exact hY t (hti hd)

end Points

section Main
variable [Zero K] {M : Man K A} {Ok : A → Prop} {exr : Prop} (S : DimSpec M Ok exr)
  {Good : ℕ → E → Prop} {Val : E → (ℕ → K) → K → Prop}
  (hval : ∀ n e, Good n e → ∀ x y v, (∀ d, d < n → x d = y d) → Val e x v → Val e y v)
  {GoodC : ℕ → C → Prop} {Holds : C → (ℕ → K) → Prop} {mk : List ℕ → ℕ → E → C} (hmk : MkSpec Good Val GoodC Holds mk)
  {I : K → Prop} {exc : Prop} {f : A → List C → A} (F : MeetSpec M Ok GoodC Holds I exc f)

include S hval hmk F

theorem asssub_aux (assign : Bool) (isBottom : A → Bool) (hbot : ∀ a, Ok a → isBottom a = true → ∀ x, ¬ M.Gam a x) (a : A)
    (ha : Ok a) (l : List (ℕ × E)) (hne : l ≠ []) (hn : (l.map Prod.fst).Nodup)
    (hl : ∀ p ∈ l, p.1 < M.dim a ∧ Good (M.dim a) p.2) (hmax : M.dim a + l.length ≤ dimMax)
    (dest : Option A) (hd : ∀ b, dest = some b → Ok b ∧ M.Dims b (M.intdim a) (M.realdim a)) :
    Ok (asssub M isBottom mk f assign a l dest) ∧
    M.Dims (asssub M isBottom mk f assign a l dest) (M.intdim a) (M.realdim a) ∧
    (∀ x y : ℕ → K, M.Gam a (if assign then x else y) → (∀ b, dest = some b → M.Gam b (if assign then y else x)) →
      (∀ d, d < M.intdim a → I (x d)) → (∀ d, d < M.intdim a → I (y d)) →
      (∀ p ∈ l, Val p.2 x (y p.1)) → (∀ v, v < M.dim a → v ∉ l.map Prod.fst → y v = x v) →
      M.Gam (asssub M isBottom mk f assign a l dest) (if assign then y else x)) ∧
    (exr → exc → ∀ z, M.Gam (asssub M isBottom mk f assign a l dest) z →
      ∃ x y : ℕ → K, z = (if assign then y else x) ∧ M.Gam a (if assign then x else y) ∧
      (∀ b, dest = some b → M.Gam b (if assign then y else x)) ∧
      (∀ p ∈ l, Val p.2 x (y p.1)) ∧ (∀ v, v < M.dim a → v ∉ l.map Prod.fst → y v = x v)) := by
  by_cases hb : isBottom a = true
  · have e : asssub M isBottom mk f assign a l dest = a := if_pos hb
    rw [e]
    refine ⟨ha, ⟨rfl, rfl⟩, fun x y hx => (hbot a ha hb _ hx).elim, fun _ _ z hz => (hbot a ha hb _ hz).elim⟩
  generalize hi : M.intdim a = i at *
  generalize hr : M.realdim a = r at *
  have hdima : M.dim a = i + r := by rw [Man.dim, hi, hr]
  rw [hdima] at hl hmax ⊢
  generalize hts : l.map Prod.fst = ts at *
  have hlen : ts.length = l.length := by rw [← hts]; simp
  have hlt : ∀ t ∈ ts, t < i + r := fun t ht => by
    rw [← hts] at ht
    obtain ⟨p, hp, rfl⟩ := List.mem_map.1 ht
    exact (hl p hp).1
  have hq := perm_spec i r ts hn hlt
  have hpl := positions_length i r ts
  have hleg := positions_legal i r ts
  have hps := positions_sorted i r ts
  have hnle : numInt i ts ≤ (positions i r ts).length := by rw [hpl]; exact numInt_le i ts
  have hpne : positions i r ts ≠ [] := by
    intro e
    rw [e] at hpl
    have : l.length = 0 := by rw [← hlen, ← hpl]; rfl
    exact hne (List.length_eq_zero_iff.1 this)
  have hN : i + numInt i ts + (r + ((positions i r ts).length - numInt i ts)) = i + r + ts.length := by
    rw [hpl] at hnle ⊢; omega
  have hupN : ∀ v, v < i + r → up i (numInt i ts) v < i + r + ts.length := fun v hv => by
    have := numInt_le i ts
    unfold up; split_ifs <;> omega
  have hqN : ∀ v, v < i + r + ts.length → (perm i r ts).getD v 0 < i + r + ts.length := fun v hv =>
    hq.isPerm.getD_lt hv
  -- extension of a value
  have hadd : ∀ b, Ok b → M.Dims b i r → Ok (M.add b (positions i r ts) (numInt i ts) false) ∧
      M.Dims (M.add b (positions i r ts) (numInt i ts) false) (i + numInt i ts)
        (r + ((positions i r ts).length - numInt i ts)) ∧
      ∀ w u, (∀ v, v < i + r → w (up i (numInt i ts) v) = u v) →
        (M.Gam (M.add b (positions i r ts) (numInt i ts) false) w ↔ M.Gam b u) := by
    intro b hb' hdb
    obtain ⟨h1, h2, h3⟩ := S.add b (positions i r ts) (numInt i ts) false hb' hpne hnle
      (by rw [hdb.1, hdb.2]; exact hleg)
    rw [hdb.1, hdb.2] at h2
    refine ⟨h1, h2, fun w u hu => ?_⟩
    rw [h3]
    have hdimb : M.dim b = i + r := by rw [Man.dim, hdb.1, hdb.2]
    refine (and_iff_left (by simp)).trans ⟨S.congr b (by assumption) _ _ fun v hv => ?_, S.congr b (by assumption) _ _ fun v hv => ?_⟩
    · rw [hdimb] at hv
      simp only [positions_shift i r ts hv, hu v hv]
    · rw [hdimb] at hv
      simp only [positions_shift i r ts hv, hu v hv]
  have hperm : ∀ b, Ok b → M.Dims b (i + numInt i ts) (r + ((positions i r ts).length - numInt i ts)) →
      Ok (M.permute b (perm i r ts)) ∧
      M.Dims (M.permute b (perm i r ts)) (i + numInt i ts) (r + ((positions i r ts).length - numInt i ts)) ∧
      ∀ x, M.Gam (M.permute b (perm i r ts)) x ↔ M.Gam b (fun v => x ((perm i r ts).getD v 0)) := by
    intro b hb' hdb
    have := S.permute b (perm i r ts) hb' (by rw [Man.dim, hdb.1, hdb.2, hN]; exact hq.isPerm)
    rwa [hdb.1, hdb.2] at this
  -- the two values before the meet
  have key : ∃ a4 a5, asssub M isBottom mk f assign a l dest =
        M.remove (if assign then M.permute a5 (perm i r ts) else a5) (Dim.addInvert (positions i r ts)) (numInt i ts) ∧
      a5 = f a4 (l.map fun p => mk (positions i r ts) (primed i r ts p.1) p.2) ∧ Ok a4 ∧
      M.Dims a4 (i + numInt i ts) (r + ((positions i r ts).length - numInt i ts)) ∧
      ∀ w X Y : ℕ → K, (∀ v, v < i + r → w (up i (numInt i ts) v) = X v) →
        (∀ v, v < i + r → w ((perm i r ts).getD (up i (numInt i ts) v) 0) = Y v) →
        (M.Gam a4 w ↔ M.Gam a (if assign then X else Y) ∧ ∀ b, dest = some b → M.Gam b (if assign then Y else X)) := by
    obtain ⟨ok2, dim2, gam2⟩ := hadd a ha ⟨hi, hr⟩
    have h3 : ∃ a3, (a3 = if assign then M.add a (positions i r ts) (numInt i ts) false
          else M.permute (M.add a (positions i r ts) (numInt i ts) false) (perm i r ts)) ∧ Ok a3 ∧
        M.Dims a3 (i + numInt i ts) (r + ((positions i r ts).length - numInt i ts)) ∧
        ∀ w X Y : ℕ → K, (∀ v, v < i + r → w (up i (numInt i ts) v) = X v) →
          (∀ v, v < i + r → w ((perm i r ts).getD (up i (numInt i ts) v) 0) = Y v) →
          (M.Gam a3 w ↔ M.Gam a (if assign then X else Y)) := by
      cases assign with
      | true => exact ⟨_, rfl, ok2, dim2, fun w X Y hX hY => gam2 w X hX⟩
      | false =>
        obtain ⟨o, d, g⟩ := hperm _ ok2 dim2
        exact ⟨_, rfl, o, d, fun w X Y hX hY => (g w).trans (gam2 _ Y hY)⟩
    obtain ⟨a3, e3, ok3, dim3, gam3⟩ := h3
    cases dest with
    | none =>
      refine ⟨a3, _, ?_, rfl, ok3, dim3, fun w X Y hX hY => by simpa using gam3 w X Y hX hY⟩
      refine (if_neg hb).trans ?_
      simp only [hi, hr, hts, e3]
    | some b =>
      obtain ⟨okb, dimb⟩ := hd b rfl
      obtain ⟨okb2, dimb2, gamb2⟩ := hadd b okb dimb
      have hb3 : ∃ b3, (b3 = if assign then M.permute (M.add b (positions i r ts) (numInt i ts) false) (perm i r ts)
            else M.add b (positions i r ts) (numInt i ts) false) ∧ Ok b3 ∧
          M.Dims b3 (i + numInt i ts) (r + ((positions i r ts).length - numInt i ts)) ∧
          ∀ w X Y : ℕ → K, (∀ v, v < i + r → w (up i (numInt i ts) v) = X v) →
            (∀ v, v < i + r → w ((perm i r ts).getD (up i (numInt i ts) v) 0) = Y v) →
            (M.Gam b3 w ↔ M.Gam b (if assign then Y else X)) := by
        cases assign with
        | false => exact ⟨_, rfl, okb2, dimb2, fun w X Y hX hY => gamb2 w X hX⟩
        | true =>
          obtain ⟨o, d, g⟩ := hperm _ okb2 dimb2
          exact ⟨_, rfl, o, d, fun w X Y hX hY => (g w).trans (gamb2 _ Y hY)⟩
      obtain ⟨b3, eb3, okb3, dimb3, gamb3⟩ := hb3
      obtain ⟨o4, d4, g4⟩ := S.meet a3 b3 ok3 okb3 (by rw [dim3.1, dim3.2]; exact dimb3)
      rw [dim3.1, dim3.2] at d4
      refine ⟨M.meet a3 b3, _, ?_, rfl, o4, d4, fun w X Y hX hY => ?_⟩
      · refine (if_neg hb).trans ?_
        simp only [hi, hr, hts, e3, eb3]
      · rw [g4, gam3 w X Y hX hY, gamb3 w X Y hX hY]
        simp
  obtain ⟨a4, a5, e6, e5, ok4, dim4, gam4⟩ := key
  have hdim4 : M.dim a4 = i + r + ts.length := by rw [Man.dim, dim4.1, dim4.2, hN]
  -- the constraints
  have hpr : ∀ t ∈ ts, primed i r ts t = (perm i r ts).getD (up i (numInt i ts) t) 0 := fun t _ => by
    unfold primed up
    by_cases h : t < i
    · rw [if_neg (by omega), if_pos h]
    · rw [if_pos (by omega), if_neg h]
  have hmem : ∀ t ∈ ts, primed i r ts t ∈ Dim.addInvert (positions i r ts) ∧
      primed i r ts t < i + r + ts.length := fun t ht => by
    rw [hpr t ht]
    refine ⟨((C45_positions _ hps).2.2 _).2 fun v => ?_, (hq.target t ht).1⟩
    by_cases hv : v < i + r
    · rw [positions_shift i r ts hv]; exact (hq.target t ht).2 v hv
    · rw [positions_shift_ge i r ts (by omega)]
      have := (hq.target t ht).1
      omega
  have hcons : ∀ p ∈ l, GoodC (M.dim a4) (mk (positions i r ts) (primed i r ts p.1) p.2) ∧
      ∀ w X Y : ℕ → K, (∀ v, v < i + r → w (up i (numInt i ts) v) = X v) →
        (∀ v, v < i + r → w ((perm i r ts).getD (up i (numInt i ts) v) 0) = Y v) →
        (Holds (mk (positions i r ts) (primed i r ts p.1) p.2) w ↔ Val p.2 X (Y p.1)) := by
    intro p hp
    have hpt : p.1 ∈ ts := by rw [← hts]; exact List.mem_map_of_mem hp
    obtain ⟨h1, h2⟩ := hmk (i + r) p.2 (positions i r ts) (primed i r ts p.1) (hl p hp).2 hps hleg.2.1
      (by rw [hpl, hlen]; exact hmax) (hmem p.1 hpt).1 (by rw [hpl]; exact (hmem p.1 hpt).2)
    rw [hpl] at h1
    refine ⟨by rw [hdim4]; exact h1, fun w X Y hX hY => ?_⟩
    rw [h2, hpr p.1 hpt, hY p.1 (hl p hp).1]
    constructor
    · exact hval _ _ (hl p hp).2 _ _ _ fun v hv => by rw [positions_shift i r ts hv, hX v hv]
    · exact hval _ _ (hl p hp).2 _ _ _ fun v hv => by rw [positions_shift i r ts hv, hX v hv]
  have hgood : ∀ c ∈ l.map (fun p => mk (positions i r ts) (primed i r ts p.1) p.2), GoodC (M.dim a4) c := by
    intro c hc
    obtain ⟨p, hp, rfl⟩ := List.mem_map.1 hc
    exact (hcons p hp).1
  obtain ⟨ok5, dim5⟩ := F.ok a4 _ ok4 hgood
  rw [← e5] at ok5 dim5
  rw [dim4.1, dim4.2] at dim5
  have h6 : ∃ a6, (a6 = if assign then M.permute a5 (perm i r ts) else a5) ∧ Ok a6 ∧
      M.Dims a6 (i + numInt i ts) (r + ((positions i r ts).length - numInt i ts)) ∧
      ∀ w, M.Gam a6 w ↔ M.Gam a5 (if assign then fun v => w ((perm i r ts).getD v 0) else w) := by
    cases assign with
    | false => exact ⟨_, rfl, ok5, dim5, fun w => Iff.rfl⟩
    | true =>
      obtain ⟨o, d, g⟩ := hperm _ ok5 dim5
      exact ⟨_, rfl, o, d, g⟩
  obtain ⟨a6, ea6, ok6, dim6, gam6⟩ := h6
  rw [← ea6] at e6
  have hleg' := Dim.legalRemove_addInvert hleg hnle
  obtain ⟨ok7, dim7, rem1, rem2⟩ := S.remove a6 (Dim.addInvert (positions i r ts)) (numInt i ts) ok6
    (by intro h; exact hpne (List.length_eq_zero_iff.1 (by rw [← Dim.addInvertFrom_length _ 0]; rw [Dim.addInvert] at h; rw [h]; rfl)))
    (by rw [Dim.addInvert, Dim.addInvertFrom_length]; exact hnle) (by rw [dim6.1, dim6.2]; exact hleg')
  rw [← e6] at ok7 dim7 rem1 rem2
  have hdim6 : M.dim a6 = i + r + ts.length := by rw [Man.dim, dim6.1, dim6.2, hN]
  -- the dimensions that are kept
  have hkeep : ∀ w z : ℕ → K, (∀ v, v < M.dim a6 → v ∉ Dim.addInvert (positions i r ts) →
      z (v - (Dim.addInvert (positions i r ts)).countP (fun p => decide (p < v))) = w v) ↔
      ∀ v, v < i + r → z v = w (up i (numInt i ts) v) := by
    intro w z
    rw [hdim6]
    have hunshift : ∀ v, v < i + r → up i (numInt i ts) v -
        (Dim.addInvert (positions i r ts)).countP (fun p => decide (p < up i (numInt i ts) v)) = v := fun v hv => by
      have h1 := Dim.countP_addInvert (positions i r ts) v hps
      rw [positions_shift i r ts hv] at h1
      rw [h1, ← positions_shift i r ts hv]; omega
    constructor
    · intro h v hv
      have h1 := h (up i (numInt i ts) v) (hupN v hv) fun hm =>
        ((C45_positions _ hps).2.2 _).1 hm v (positions_shift i r ts hv).symm
      rwa [hunshift v hv] at h1
    · intro h v hv hvn
      rw [(C45_positions _ hps).2.2] at hvn
      push Not at hvn
      obtain ⟨u, rfl⟩ := hvn
      have hu : u < i + r := by
        by_contra hc
        rw [positions_shift_ge i r ts (by omega)] at hv
        omega
      rw [positions_shift i r ts hu, hunshift u hu]
      exact h u hu
  refine ⟨ok7, ?_, fun x y hx hdest hix hiy hv hoff => ?_, fun hr1 hc1 z hz => ?_⟩
  · rw [dim6.1, dim6.2, Dim.addInvert, Dim.addInvertFrom_length] at dim7
    have e1 : i + numInt i ts - numInt i ts = i := by omega
    have e2 : r + ((positions i r ts).length - numInt i ts) - ((positions i r ts).length - numInt i ts) = r := by omega
    rwa [e1, e2] at dim7
  · obtain ⟨w, hw1, hw2, hw3⟩ := exists_point hq x y I hlt hix hiy hoff
    have g4 : M.Gam a4 w := (gam4 w x y hw1 hw2).2 ⟨hx, hdest⟩
    have g5 : M.Gam a5 w := by
      rw [e5]
      refine F.sound a4 _ w ok4 hgood g4 (by rw [dim4.1]; exact hw3) fun c hc => ?_
      obtain ⟨p, hp, rfl⟩ := List.mem_map.1 hc
      exact ((hcons p hp).2 w x y hw1 hw2).2 (hv p hp)
    cases assign with
    | false => exact rem1 w x ((gam6 w).2 g5) ((hkeep w x).2 fun v hv => (hw1 v hv).symm)
    | true =>
      refine rem1 (fun v => w ((perm i r ts).getD v 0)) y ((gam6 _).2 ?_) ((hkeep _ _).2 fun v hv => (hw2 v hv).symm)
      refine S.congr a5 (by assumption) w _ (fun v hv => ?_) g5
      rw [Man.dim, dim5.1, dim5.2, hN] at hv
      exact congrArg w (hq.invol v hv).symm
  · obtain ⟨w', hw', hk⟩ := rem2 hr1 z hz
    rw [hkeep] at hk
    rw [gam6] at hw'
    obtain ⟨w, hw5, hwz⟩ : ∃ w, M.Gam a5 w ∧ ∀ v, v < i + r → z v = if assign
        then w ((perm i r ts).getD (up i (numInt i ts) v) 0) else w (up i (numInt i ts) v) := by
      refine ⟨_, hw', fun v hv => ?_⟩
      rw [hk v hv]
      cases assign with
      | false => rfl
      | true =>
        simp only [if_true]
        rw [hq.invol _ (hupN v hv)]
    let X : ℕ → K := fun v => if v < i + r then w (up i (numInt i ts) v) else z v
    let Y : ℕ → K := fun v => if v < i + r then w ((perm i r ts).getD (up i (numInt i ts) v) 0) else z v
    have hX : ∀ v, v < i + r → w (up i (numInt i ts) v) = X v := fun v hv => by simp only [X]; rw [if_pos hv]
    have hY : ∀ v, v < i + r → w ((perm i r ts).getD (up i (numInt i ts) v) 0) = Y v := fun v hv => by
      simp only [Y]; rw [if_pos hv]
    have g5 := hw5
    rw [e5] at g5
    have g4 := (gam4 w X Y hX hY).1 (F.exact hc1 a4 _ w ok4 hgood g5).1
    refine ⟨X, Y, ?_, g4.1, g4.2, fun p hp => ?_, fun v hv hvt => ?_⟩
    · funext v
      by_cases hv : v < i + r
      · rw [hwz v hv]
        cases assign with
        | false => exact hX v hv
        | true => exact hY v hv
      · cases assign with
        | false => simp only [Bool.false_eq_true, if_false, X]; rw [if_neg hv]
        | true => simp only [if_true, Y]; rw [if_neg hv]
    · exact ((hcons p hp).2 w X Y hX hY).1 ((F.exact hc1 a4 _ w ok4 hgood g5).2 _ (List.mem_map_of_mem hp))
    · rw [← hX v hv, ← hY v hv, hq.other v hv hvt]

/-- Parallel assignment of `ap_generic.c`, over any domain: the result contains every point obtained from a
point of the argument by giving to each target a value of its expression and keeping the other dimensions,
if that point is in the destination.  Nothing else when projection and the meet with the constraints are
exact (as with polyhedra). -/
theorem C57_assign_array (isBottom : A → Bool) (hbot : ∀ a, Ok a → isBottom a = true → ∀ x, ¬ M.Gam a x) (a : A)
    (ha : Ok a) (l : List (ℕ × E)) (hne : l ≠ []) (hn : (l.map Prod.fst).Nodup)
    (hl : ∀ p ∈ l, p.1 < M.dim a ∧ Good (M.dim a) p.2) (hmax : M.dim a + l.length ≤ dimMax)
    (dest : Option A) (hd : ∀ b, dest = some b → Ok b ∧ M.Dims b (M.intdim a) (M.realdim a)) :
    Ok (asssub M isBottom mk f true a l dest) ∧
    M.Dims (asssub M isBottom mk f true a l dest) (M.intdim a) (M.realdim a) ∧
    (∀ x y : ℕ → K, M.Gam a x → (∀ p ∈ l, Val p.2 x (y p.1)) →
      (∀ v, v < M.dim a → v ∉ l.map Prod.fst → y v = x v) → (∀ b, dest = some b → M.Gam b y) →
      (∀ d, d < M.intdim a → I (x d) ∧ I (y d)) → M.Gam (asssub M isBottom mk f true a l dest) y) ∧
    (exr → exc → ∀ y, M.Gam (asssub M isBottom mk f true a l dest) y →
      ∃ x : ℕ → K, M.Gam a x ∧ (∀ p ∈ l, Val p.2 x (y p.1)) ∧
        (∀ v, v < M.dim a → v ∉ l.map Prod.fst → y v = x v) ∧ ∀ b, dest = some b → M.Gam b y) := by
  obtain ⟨h1, h2, h3, h4⟩ := asssub_aux S hval hmk F true isBottom hbot a ha l hne hn hl hmax dest hd
  refine ⟨h1, h2, fun x y hx hv hk hb hi => h3 x y hx hb (fun d hd => (hi d hd).1) (fun d hd => (hi d hd).2) hv hk,
    fun e1 e2 z hz => ?_⟩
  obtain ⟨x, y, rfl, g1, g2, g3, g4⟩ := h4 e1 e2 z hz
  exact ⟨x, g1, g3, g4, g2⟩

/-- Parallel substitution of `ap_generic.c`, over any domain: the result contains every point of the
destination from which a point of the argument is reached by giving to each target a value of its
expression.  Nothing else when projection and the meet with the constraints are exact. -/
theorem C57_substitute_array (isBottom : A → Bool) (hbot : ∀ a, Ok a → isBottom a = true → ∀ x, ¬ M.Gam a x) (a : A)
    (ha : Ok a) (l : List (ℕ × E)) (hne : l ≠ []) (hn : (l.map Prod.fst).Nodup)
    (hl : ∀ p ∈ l, p.1 < M.dim a ∧ Good (M.dim a) p.2) (hmax : M.dim a + l.length ≤ dimMax)
    (dest : Option A) (hd : ∀ b, dest = some b → Ok b ∧ M.Dims b (M.intdim a) (M.realdim a)) :
    Ok (asssub M isBottom mk f false a l dest) ∧
    M.Dims (asssub M isBottom mk f false a l dest) (M.intdim a) (M.realdim a) ∧
    (∀ x y : ℕ → K, M.Gam a y → (∀ p ∈ l, Val p.2 x (y p.1)) →
      (∀ v, v < M.dim a → v ∉ l.map Prod.fst → y v = x v) → (∀ b, dest = some b → M.Gam b x) →
      (∀ d, d < M.intdim a → I (x d) ∧ I (y d)) → M.Gam (asssub M isBottom mk f false a l dest) x) ∧
    (exr → exc → ∀ x, M.Gam (asssub M isBottom mk f false a l dest) x →
      ∃ y : ℕ → K, M.Gam a y ∧ (∀ p ∈ l, Val p.2 x (y p.1)) ∧
        (∀ v, v < M.dim a → v ∉ l.map Prod.fst → y v = x v) ∧ ∀ b, dest = some b → M.Gam b x) := by
  obtain ⟨h1, h2, h3, h4⟩ := asssub_aux S hval hmk F false isBottom hbot a ha l hne hn hl hmax dest hd
  refine ⟨h1, h2, fun x y hx hv hk hb hi => h3 x y hx hb (fun d hd => (hi d hd).1) (fun d hd => (hi d hd).2) hv hk,
    fun e1 e2 z hz => ?_⟩
  obtain ⟨x, y, rfl, g1, g2, g3, g4⟩ := h4 e1 e2 z hz
  exact ⟨y, g1, g3, g4, g2⟩

end Main

/-! ## Arrays of values -/

section Arrays
variable {M : Man K A} {Ok : A → Prop}

/-- `ap_generic_meet_array` on a non-empty array: the intersection.  On an empty one it reads `tab[0]`. -/
theorem C57_meet_array
    (hm : ∀ a b, Ok a → Ok b → M.Dims b (M.intdim a) (M.realdim a) →
      Ok (M.meet a b) ∧ M.Dims (M.meet a b) (M.intdim a) (M.realdim a) ∧
      ∀ x, M.Gam (M.meet a b) x ↔ M.Gam a x ∧ M.Gam b x) (l : List A) (i r : ℕ)
    (hl : ∀ a ∈ l, Ok a ∧ M.Dims a i r) :
    (meetjoinArray M.meet l = none ↔ l = []) ∧
    ∀ m, meetjoinArray M.meet l = some m → Ok m ∧ M.Dims m i r ∧ ∀ x, M.Gam m x ↔ ∀ a ∈ l, M.Gam a x := by
  have key : ∀ (l : List A) (a : A), Ok a → M.Dims a i r → (∀ b ∈ l, Ok b ∧ M.Dims b i r) →
      Ok (l.foldl M.meet a) ∧ M.Dims (l.foldl M.meet a) i r ∧
      ∀ x, M.Gam (l.foldl M.meet a) x ↔ M.Gam a x ∧ ∀ b ∈ l, M.Gam b x := by
    intro l
    induction l with
    | nil => intro a h1 h2 _; exact ⟨h1, h2, by simp⟩
    | cons b l ih =>
      intro a h1 h2 h3
      obtain ⟨hb1, hb2⟩ := h3 b (by simp)
      obtain ⟨g1, g2, g3⟩ := hm a b h1 hb1 (by rw [h2.1, h2.2]; exact hb2)
      rw [h2.1, h2.2] at g2
      obtain ⟨k1, k2, k3⟩ := ih (M.meet a b) g1 g2 (fun c hc => h3 c (List.mem_cons_of_mem _ hc))
      refine ⟨k1, k2, fun x => ?_⟩
      rw [List.foldl_cons, k3, g3, List.forall_mem_cons]
      exact and_assoc
  rcases l with _ | ⟨a, _ | ⟨b, l⟩⟩
  · simp [meetjoinArray]
  · refine ⟨by simp [meetjoinArray], fun m hm => ?_⟩
    simp only [meetjoinArray, Option.some.injEq] at hm
    subst hm
    exact ⟨(hl a (by simp)).1, (hl a (by simp)).2, by simp⟩
  · refine ⟨by simp [meetjoinArray], fun m hm' => ?_⟩
    simp only [meetjoinArray, Option.some.injEq] at hm'
    subst hm'
    obtain ⟨k1, k2, k3⟩ := key (b :: l) a (hl a (by simp)).1 (hl a (by simp)).2
      (fun c hc => hl c (List.mem_cons_of_mem _ hc))
    exact ⟨k1, k2, fun x => by rw [List.forall_mem_cons]; exact k3 x⟩

/-- `ap_generic_join_array` on a non-empty array: it contains every element, and is included in every value
containing them all when the join is the best one -/
theorem C57_join_array {ex : Prop}
    (hj : ∀ a b, Ok a → Ok b → M.Dims b (M.intdim a) (M.realdim a) →
      Ok (M.join a b) ∧ M.Dims (M.join a b) (M.intdim a) (M.realdim a) ∧
      (∀ x, M.Gam a x ∨ M.Gam b x → M.Gam (M.join a b) x) ∧
      (ex → ∀ c, Ok c → M.Dims c (M.intdim a) (M.realdim a) → (∀ x, M.Gam a x ∨ M.Gam b x → M.Gam c x) →
        ∀ x, M.Gam (M.join a b) x → M.Gam c x)) (l : List A) (i r : ℕ)
    (hl : ∀ a ∈ l, Ok a ∧ M.Dims a i r) :
    (meetjoinArray M.join l = none ↔ l = []) ∧
    ∀ m, meetjoinArray M.join l = some m → Ok m ∧ M.Dims m i r ∧ (∀ a ∈ l, ∀ x, M.Gam a x → M.Gam m x) ∧
      (ex → ∀ c, Ok c → M.Dims c i r → (∀ a ∈ l, ∀ x, M.Gam a x → M.Gam c x) → ∀ x, M.Gam m x → M.Gam c x) := by
  have key : ∀ (l : List A) (a : A), Ok a → M.Dims a i r → (∀ b ∈ l, Ok b ∧ M.Dims b i r) →
      Ok (l.foldl M.join a) ∧ M.Dims (l.foldl M.join a) i r ∧
      (∀ x, (M.Gam a x ∨ ∃ b ∈ l, M.Gam b x) → M.Gam (l.foldl M.join a) x) ∧
      (ex → ∀ c, Ok c → M.Dims c i r → (∀ x, (M.Gam a x ∨ ∃ b ∈ l, M.Gam b x) → M.Gam c x) →
        ∀ x, M.Gam (l.foldl M.join a) x → M.Gam c x) := by
    intro l
    induction l with
    | nil => intro a h1 h2 _; exact ⟨h1, h2, by simp, fun _ c _ _ h x hx => h x (Or.inl hx)⟩
    | cons b l ih =>
      intro a h1 h2 h3
      obtain ⟨hb1, hb2⟩ := h3 b (by simp)
      obtain ⟨g1, g2, g3, g4⟩ := hj a b h1 hb1 (by rw [h2.1, h2.2]; exact hb2)
      rw [h2.1, h2.2] at g2 g4
      obtain ⟨k1, k2, k3, k4⟩ := ih (M.join a b) g1 g2 (fun c hc => h3 c (List.mem_cons_of_mem _ hc))
      refine ⟨k1, k2, fun x hx => k3 x ?_, fun he c hc hcd hall => k4 he c hc hcd fun x hx => ?_⟩
      · rcases hx with hx | ⟨c, hc, hx⟩
        · exact Or.inl (g3 x (Or.inl hx))
        · rcases List.mem_cons.1 hc with rfl | hc
          · exact Or.inl (g3 x (Or.inr hx))
          · exact Or.inr ⟨c, hc, hx⟩
      · rcases hx with hx | ⟨c', hc', hx⟩
        · refine g4 he c hc hcd (fun z hz => hall z ?_) x hx
          rcases hz with hz | hz
          · exact Or.inl hz
          · exact Or.inr ⟨b, by simp, hz⟩
        · exact hall x (Or.inr ⟨c', List.mem_cons_of_mem _ hc', hx⟩)
  rcases l with _ | ⟨a, _ | ⟨b, l⟩⟩
  · simp [meetjoinArray]
  · refine ⟨by simp [meetjoinArray], fun m hm => ?_⟩
    simp only [meetjoinArray, Option.some.injEq] at hm
    subst hm
    refine ⟨(hl a (by simp)).1, (hl a (by simp)).2, by simp, fun _ c _ _ h x hx => h a (by simp) x hx⟩
  · refine ⟨by simp [meetjoinArray], fun m hm' => ?_⟩
    simp only [meetjoinArray, Option.some.injEq] at hm'
    subst hm'
    obtain ⟨k1, k2, k3, k4⟩ := key (b :: l) a (hl a (by simp)).1 (hl a (by simp)).2
      (fun c hc => hl c (List.mem_cons_of_mem _ hc))
    refine ⟨k1, k2, fun c hc x hx => k3 x ?_, fun he c hc hcd hall x hx => k4 he c hc hcd (fun z hz => ?_) x hx⟩
    · rcases List.mem_cons.1 hc with rfl | hc
      · exact Or.inl hx
      · exact Or.inr ⟨c, hc, hx⟩
    · rcases hz with hz | ⟨d, hd, hz⟩
      · exact hall a (by simp) z hz
      · exact hall d (List.mem_cons_of_mem _ hd) z hz

end Arrays

/-! ## The constraints -/

section Cons
variable {K : Type*} [LinearOrder K] [Field K] [IsStrictOrderedRing K]
open Linexpr Bound

/-- writing a coefficient in an expression of `N` dimensions -/
theorem good_setCoeff {N : ℕ} {e : Linexpr K} (h : GoodLin N e) (hN : N ≤ dimMax) {d : ℕ} (hd : d < N) (c : Coeff K) :
    ∃ e', setCoeff e d c = some e' ∧ GoodLin N e' := by
  obtain ⟨c0, b⟩ := e
  obtain ⟨h1, h2, h3⟩ := h
  cases b with
  | dense l =>
    have hl := h3 l rfl
    refine ⟨⟨c0, .dense (l.set d c)⟩, ?_, ?_, fun p hp => ?_, fun l' hl' => ?_⟩
    · simp only [setCoeff, coeffref]
      rw [if_pos (by omega)]
      rfl
    · show (l.set d c).length ≤ dimMax
      rw [List.length_set]; exact h1
    · have : p.1 ∈ (terms ⟨c0, .dense (l.set d c)⟩).map Prod.fst := List.mem_map_of_mem hp
      rw [terms_dense_dims, List.mem_range, List.length_set] at this
      omega
    · simp only [Linbody.dense.injEq] at hl'
      rw [← hl', List.length_set]; exact hl
  | sparse l =>
    have hw : SparseWf l := h1
    have hdm : d ≠ dimMax := by omega
    obtain ⟨lo, c1, hi, g1, g2, g3, g4, g5⟩ := coeffrefSparse_spec hw hdm (by omega)
    have hset : (lo ++ (d, c1) :: hi).set lo.length (((lo ++ (d, c1) :: hi).getD lo.length (0, czero)).1, c) =
        lo ++ (d, c) :: hi := by
      simp [List.getD]
    have hsome : setCoeff ⟨c0, .sparse l⟩ d c = some ⟨c0, .sparse (lo ++ (d, c) :: hi)⟩ := by
      simp only [setCoeff, coeffref]
      rw [if_neg hdm]
      simp only [Option.map_some, writeAt, g1, hset]
    obtain ⟨w, _⟩ := C49_set ⟨c0, .sparse l⟩ _ h1 d (by omega) c hsome
    have w' : SparseWf (lo ++ (d, c) :: hi) := w
    refine ⟨_, hsome, w, fun p hp => ?_, fun l' hl' => by simp at hl'⟩
    obtain ⟨k, q⟩ := p
    obtain ⟨hp, hpm⟩ := (w'.mem_terms _).1 hp
    by_cases hk : k = d
    · subst hk; exact hd
    · refine h2 (k, q) ((hw.mem_terms _).2 ⟨(g3 k q hpm hk).1 ?_, hpm⟩)
      simpa [hk] using hp

/-- the value after a coefficient 0 has been replaced -/
theorem val_setCoeff {N : ℕ} {e e' : Linexpr K} (h : GoodLin N e) (h' : GoodLin N e') (hN : N ≤ dimMax) {d : ℕ}
    (hd : d < N) (q : K) (hs : setCoeff e d (.scalar (fin q)) = some e') (h0 : e.coeffAt d = czero) (x : ℕ → K) (v : K) :
    e'.Val x v ↔ e.Val x (v - q * x d) := by
  obtain ⟨_, hc, g1, g2⟩ := C49_set e e' h.1 d (by omega) _ hs
  have hq : ∀ t, (e'.coeffAt d).Has t ↔ t = q := fun t => by
    rw [g1]; simp only [Coeff.Has, Bound.fin.injEq]; exact eq_comm
  have hz : ∀ t, (e.coeffAt d).Has t ↔ t = 0 := fun t => by rw [h0]; exact has_czero
  have hsum : ∀ (f g : ℕ → K), (∀ k, k ≠ d → f k = g k) → f d = q → g d = 0 →
      ∑ k ∈ Finset.range N, f k * x k = ∑ k ∈ Finset.range N, g k * x k + q * x d := by
    intro f g hk hf hg
    have hm : d ∈ Finset.range N := Finset.mem_range.2 hd
    rw [← Finset.add_sum_erase _ _ hm, ← Finset.add_sum_erase (Finset.range N) (fun k => g k * x k) hm, hf, hg,
      Finset.sum_congr rfl fun k hk' => by rw [hk k (Finset.ne_of_mem_erase hk')]]
    ring
  unfold Linexpr.Val
  rw [hc]
  constructor
  · rintro ⟨b, r, hb, ht, e1⟩
    obtain ⟨f, hf, rfl⟩ := (termsVal_iff h'.1.terms_sorted h'.2.1).1 ht
    refine ⟨b, ∑ k ∈ Finset.range N, (if k = d then 0 else f k) * x k, hb,
      (termsVal_iff h.1.terms_sorted h.2.1).2 ⟨fun k => if k = d then 0 else f k, fun k => ?_, rfl⟩, ?_⟩
    · show (e.coeffAt k).Has (if k = d then 0 else f k)
      by_cases hk : k = d
      · rw [if_pos hk, hk]; exact (hz 0).2 rfl
      · rw [if_neg hk]
        have := hf k
        change (e'.coeffAt k).Has _ at this
        rw [g2 k hk] at this; exact this
    · rw [e1, hsum f (fun k => if k = d then 0 else f k) (fun k hk => by rw [if_neg hk]) ((hq _).1 (hf d)) (if_pos rfl)]
      ring
  · rintro ⟨b, r, hb, ht, e1⟩
    obtain ⟨f, hf, rfl⟩ := (termsVal_iff h.1.terms_sorted h.2.1).1 ht
    refine ⟨b, ∑ k ∈ Finset.range N, (if k = d then q else f k) * x k, hb,
      (termsVal_iff h'.1.terms_sorted h'.2.1).2 ⟨fun k => if k = d then q else f k, fun k => ?_, rfl⟩, ?_⟩
    · show (e'.coeffAt k).Has (if k = d then q else f k)
      by_cases hk : k = d
      · rw [if_pos hk, hk]; exact (hq q).2 rfl
      · rw [if_neg hk]
        rw [g2 k hk]; exact hf k
    · rw [hsum (fun k => if k = d then q else f k) f (fun k hk => by rw [if_neg hk]) (if_pos rfl) ((hz _).1 (hf d))]
      linear_combination e1

/-- new dimensions have the coefficient 0 -/
theorem coeffAt_fresh {n : ℕ} {e : Linexpr K} (h : GoodLin n e) {pos : List ℕ} (hs : pos.Pairwise (· ≤ ·))
    (hle : ∀ p ∈ pos, p ≤ n) (hn : n + pos.length ≤ dimMax) {d : ℕ} (hd : d ∈ Dim.addInvert pos) :
    (e.addDimensions pos).coeffAt d = czero := by
  have hg := good_addDimensions h hs hn
  obtain ⟨c0, b⟩ := e
  cases b with
  | dense l =>
    have hl := h.2.2 l rfl
    obtain ⟨k, hk, rfl⟩ := (Dim.mem_addInvertFrom _ _ _).1 hd
    have hp := hle _ (Dim.getD_mem' hk)
    obtain ⟨g1, g2⟩ := Box.addLoop_final hs (fun p hp => (by rw [hl]; exact hle p hp : p ≤ l.length)) true
      (fun i => (reallocDense l (l.length + pos.length)).getD i czero) (czero : Coeff K)
    refine coeffAt_of_mem hg.1 ?_
    rw [show (addDimensions ⟨c0, .dense l⟩ pos) = ⟨c0, .dense (addDense pos l)⟩ from rfl, mem_terms_dense]
    unfold addDense
    rw [List.getElem?_map, List.getElem?_range (by omega), Nat.zero_add]
    simp only [Option.map_some]
    rw [g2 k hk]
  | sparse l =>
    have hw : SparseWf l := h.1
    have hw' : SparseWf (addSparse pos 0 l) := hg.1
    refine coeffAt_of_not_mem hg.1 fun c hc => ?_
    obtain ⟨hc, hcm⟩ := (hw'.mem_terms _).1 hc
    rw [addSparse_eq hs l 0 (Nat.zero_le _) hw (by omega)] at hc
    obtain ⟨p, hp, e⟩ := List.mem_map.1 hc
    split_ifs at e with hm
    · rw [e] at hm; exact hcm hm
    · have := ((C45_positions pos hs).2.2 d).1 hd p.1
      rw [cntLe_eq] at this
      exact this (Prod.mk.inj e).1.symm

theorem mkLincons_spec : MkSpec GoodLin (Linexpr.Val (K := K)) (fun n (c : Lincons K) => GoodLin n c.expr ∧ c.typ = .eq)
    Lincons.Holds mkLincons := by
  intro n e pos d he hs hle hmax hd hdN
  have hg := good_addDimensions he hs hmax
  obtain ⟨e', h1, h2⟩ := good_setCoeff hg hmax hdN (.scalar (fin (-1)))
  have e1 : mkLincons pos d e = ⟨.eq, e'⟩ := by unfold mkLincons; simp only [h1, Option.getD_some]
  rw [e1]
  refine ⟨⟨h2, rfl⟩, fun x => ?_⟩
  have hv := val_setCoeff hg h2 hmax hdN (-1) h1 (coeffAt_fresh he hs hle hmax hd) x
  refine Iff.trans ?_ ((linexprSpec.add n e pos he hs hle hmax).2 x (x d))
  change (∃ v, Linexpr.Val e' x v ∧ v = 0) ↔ (addDimensions e pos).Val x (x d)
  constructor
  · rintro ⟨v, h, rfl⟩
    have := (hv 0).1 h
    rwa [show (0 : K) - -1 * x d = x d by ring] at this
  · intro h
    refine ⟨0, (hv 0).2 ?_, rfl⟩
    rwa [show (0 : K) - -1 * x d = x d by ring]

end Cons

end Props
end Apron
