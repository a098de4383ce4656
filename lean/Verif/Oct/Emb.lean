import Verif.Oct.OctLemmas
import Verif.Oct.Addrem

/-! # Helper lemmas: matrices whose variables are taken from another matrix -/

set_option autoImplicit false
set_option linter.unusedSectionVars false
set_option linter.ambiguousOpen false

namespace Apron
namespace Oct
open Bound
variable {K : Type*} [LinearOrder K] [Field K] [IsStrictOrderedRing K]

/-- variable `v'` of the result is variable `π v'` of `A`; variables without source are free (or equal
to 0 when `z`), their diagonal is `δ` -/
def emb (z : Bool) (δ : ℕ → Bound K) (dim' : ℕ) (π : ℕ → Option ℕ) (A : ℕ → ℕ → Bound K) (i j : ℕ) :
    Bound K :=
  match π (i / 2), π (j / 2) with
  | some a, some b => A (2 * a + i % 2) (2 * b + j % 2)
  | _, _ => if i < 2 * dim' ∧ i = j then δ i
      else if z = true ∧ i < 2 * dim' ∧ i = j ^^^ 1 then fin 0 else pinf

/-- sources and targets are legal variables -/
def Legal (dim' dim : ℕ) (π : ℕ → Option ℕ) : Prop := ∀ v' v, π v' = some v → v' < dim' ∧ v < dim

theorem xor1_mod (i : ℕ) : (i ^^^ 1) % 2 = 1 - i % 2 := by rw [xor1]; split_ifs <;> omega

theorem lift_xor (a i : ℕ) : 2 * a + (i ^^^ 1) % 2 = (2 * a + i % 2) ^^^ 1 := by
  rw [xor1_mod, xor1 (2 * a + i % 2)]; split_ifs <;> omega

variable {z : Bool} {δ : ℕ → Bound K} {dim' dim : ℕ} {π : ℕ → Option ℕ} {A : ℕ → ℕ → Bound K}

theorem emb_ss {i j a b : ℕ} (hi : π (i / 2) = some a) (hj : π (j / 2) = some b) :
    emb z δ dim' π A i j = A (2 * a + i % 2) (2 * b + j % 2) := by unfold emb; rw [hi, hj]

theorem emb_n {i j : ℕ} (h : π (i / 2) = none ∨ π (j / 2) = none) :
    emb z δ dim' π A i j = if i < 2 * dim' ∧ i = j then δ i
      else if z = true ∧ i < 2 * dim' ∧ i = j ^^^ 1 then fin 0 else pinf := by
  unfold emb
  rcases h with h | h <;> rcases h1 : π (i / 2) with _ | a <;> rcases h2 : π (j / 2) with _ | b <;>
    simp_all

theorem emb_coh (hδ : ∀ i, δ (i ^^^ 1) = δ i) (hA : Coh A) : Coh (emb z δ dim' π A) := by
  intro i j
  by_cases h : π (i / 2) = none ∨ π (j / 2) = none
  · rw [emb_n h, emb_n (by rw [xor1_div, xor1_div]; exact h.symm)]
    simp only [xor1_inj, xor1_xor1, xor1_div]
    by_cases e : i = j
    · subst e
      have h1 : ¬ i = i ^^^ 1 := fun h => xor1_ne i h.symm
      have h2 : ¬ i ^^^ 1 = i := xor1_ne i
      simp only [h1, h2, and_true, and_false, if_false, ← xor1_lt_iff (n := dim') (i := i), hδ]
    · have e' : ¬ j = i := fun h => e h.symm
      by_cases e2 : i = j ^^^ 1
      · have e3 : j ^^^ 1 = i := e2.symm
        have e4 : j < 2 * dim' ↔ i < 2 * dim' := by rw [e2]; exact xor1_lt_iff.symm
        simp only [e, e', e2, xor1_xor1, and_false, if_false, and_true]
        simp only [← e2, e4, and_true]
        have e5 : ¬ j = j ^^^ 1 := fun h => xor1_ne j h.symm
        simp [e, e5, e', e4, xor1_lt_iff]
      · have e3 : ¬ j ^^^ 1 = i := fun h => e2 h.symm
        simp only [e, e', e2, e3, and_false, if_false]
  · push Not at h
    obtain ⟨a, ha⟩ := Option.ne_none_iff_exists'.1 h.1
    obtain ⟨b, hb⟩ := Option.ne_none_iff_exists'.1 h.2
    rw [emb_ss ha hb, emb_ss (i := j ^^^ 1) (j := i ^^^ 1) (by rw [xor1_div]; exact hb)
      (by rw [xor1_div]; exact ha), lift_xor, lift_xor]
    exact hA _ _

/-- the full view of a matrix given cell by cell -/
theorem G_eq_of_cell {M' : Mem K} {B : ℕ → ℕ → Bound K} (hB : Coh B)
    (hout : ∀ i j, ¬ (i < 2 * dim' ∧ j < 2 * dim') → B i j = pinf)
    (h : ∀ i j, i < 2 * dim' → Cell i j → M' (matpos i j) = B i j) : G dim' M' = B := by
  funext i j
  unfold G
  split_ifs with hc
  · rw [matpos2_eq]
    split_ifs with hcell
    · exact h i j hc.1 hcell
    · rw [hB i j]
      exact h _ _ (xor1_lt hc.2) ((cell_or_mirror i j).resolve_left hcell)
  · exact (hout i j hc).symm

theorem emb_out (hL : Legal dim' dim π) (i j : ℕ) (hc : ¬ (i < 2 * dim' ∧ j < 2 * dim')) :
    emb z δ dim' π A i j = pinf := by
  have h : π (i / 2) = none ∨ π (j / 2) = none := by
    by_contra h
    push Not at h
    obtain ⟨a, ha⟩ := Option.ne_none_iff_exists'.1 h.1
    obtain ⟨b, hb⟩ := Option.ne_none_iff_exists'.1 h.2
    have := (hL _ _ ha).1; have := (hL _ _ hb).1
    omega
  rw [emb_n h, if_neg, if_neg]
  · rintro ⟨_, h1, rfl⟩; exact hc ⟨h1, xor1_lt_iff.1 h1⟩
  · rintro ⟨h1, rfl⟩; exact hc ⟨h1, h1⟩

theorem lift_lt {a i : ℕ} (h : a < dim) : 2 * a + i % 2 < 2 * dim := by omega

/-- strongly closed matrices stay so -/
theorem SC_emb (hL : Legal dim' dim π) (hδ : ∀ i, δ i = fin 0) (hA : SC dim A) :
    SC dim' (emb false δ dim' π A) := by
  have hn : ∀ {i j : ℕ}, (π (i / 2) = none ∨ π (j / 2) = none) →
      emb false δ dim' π A i j = if i < 2 * dim' ∧ i = j then fin 0 else pinf := by
    intro i j h
    rw [emb_n h]
    by_cases e : i < 2 * dim' ∧ i = j
    · rw [if_pos e, if_pos e, hδ]
    · rw [if_neg e, if_neg e, if_neg (by simp)]
  refine ⟨fun i j => ?_, fun i hi => ?_, emb_coh (fun i => by rw [hδ, hδ]) hA.coh, fun p i j a b ha hb => ?_,
    fun i j a b ha hb => ?_⟩
  · by_cases h : π (i / 2) = none ∨ π (j / 2) = none
    · rw [hn h]; split_ifs <;> simp
    · push Not at h
      obtain ⟨u, hu⟩ := Option.ne_none_iff_exists'.1 h.1
      obtain ⟨v, hv⟩ := Option.ne_none_iff_exists'.1 h.2
      rw [emb_ss hu hv]; exact hA.ne _ _
  · rcases hp : π (i / 2) with _ | u
    · rw [hn (Or.inl hp), if_pos ⟨hi, rfl⟩]
    · rw [emb_ss hp hp]
      exact hA.diag _ (lift_lt (hL _ _ hp).2)
  · by_cases h1 : π (i / 2) = none ∨ π (p / 2) = none
    · rw [hn h1] at ha
      split_ifs at ha with hip
      · obtain ⟨_, rfl⟩ := hip
        rw [fin_le_fin] at ha
        exact hb.trans (by rw [fin_le_fin]; linarith)
      · simp at ha
    · by_cases h2 : π (p / 2) = none ∨ π (j / 2) = none
      · rw [hn h2] at hb
        split_ifs at hb with hip
        · obtain ⟨_, rfl⟩ := hip
          rw [fin_le_fin] at hb
          exact ha.trans (by rw [fin_le_fin]; linarith)
        · simp at hb
      · push Not at h1 h2
        obtain ⟨u, hu⟩ := Option.ne_none_iff_exists'.1 h1.1
        obtain ⟨v, hv⟩ := Option.ne_none_iff_exists'.1 h1.2
        obtain ⟨w, hw⟩ := Option.ne_none_iff_exists'.1 h2.2
        rw [emb_ss hu hv] at ha
        rw [emb_ss hv hw] at hb
        rw [emb_ss hu hw]
        exact hA.tri _ _ _ _ _ ha hb
  · rcases hi : π (i / 2) with _ | u
    · rw [hn (Or.inl hi), if_neg (by rintro ⟨_, h⟩; exact xor1_ne i h.symm)] at ha
      simp at ha
    · rcases hj : π (j / 2) with _ | w
      · rw [hn (Or.inr hj), if_neg (by rintro ⟨_, h⟩; exact xor1_ne j h)] at hb
        simp at hb
      · rw [emb_ss hi (by rw [xor1_div]; exact hi), lift_xor] at ha
        rw [emb_ss (i := j ^^^ 1) (by rw [xor1_div]; exact hj) hj, lift_xor] at hb
        rw [emb_ss hi hj]
        exact hA.strong _ _ _ _ ha hb

/-- good matrices stay good -/
theorem good_emb {M' m : Mem K} (hL : Legal dim' dim π) (hδc : ∀ i, δ (i ^^^ 1) = δ i) (hδ : ∀ i, i < 2 * dim' → fin 0 ≤ δ i)
    (hm : OctT.Good dim m) (hG : G dim' M' = emb z δ dim' π (G dim m)) : OctT.Good dim' M' := by
  have hnn : ∀ i, i < 2 * dim' → fin 0 ≤ emb z δ dim' π (G dim m) i i := by
    intro i hi
    rcases hp : π (i / 2) with _ | u
    · rw [emb_n (Or.inl hp), if_pos ⟨hi, rfl⟩]; exact hδ _ hi
    · rw [emb_ss hp hp, G_cell m (lift_lt (hL _ _ hp).2) (cell_refl _)]
      exact hm.nn _ (lift_lt (hL _ _ hp).2)
  refine ⟨?_, ?_, fun i hi => ?_⟩
  · rw [noNinf_iff]
    intro i j hi hc
    rw [← G_cell M' hi hc, hG]
    by_cases h : π (i / 2) = none ∨ π (j / 2) = none
    · rw [emb_n h]
      split_ifs with e e2
      · intro e3; have := hδ i hi; rw [e3] at this; simp at this
      · simp
      · simp
    · push Not at h
      obtain ⟨u, hu⟩ := Option.ne_none_iff_exists'.1 h.1
      obtain ⟨v, hv⟩ := Option.ne_none_iff_exists'.1 h.2
      rw [emb_ss hu hv]; exact G_ne hm.ne _ _
  · exact diagCoh_of_coh (hG ▸ emb_coh hδc (G_coh hm.coh))
  · rw [← G_cell M' hi (cell_refl i), hG]; exact hnn i hi

/-- the two points agree on related variables -/
def Agree (π : ℕ → Option ℕ) (x' x : ℕ → K) : Prop := ∀ v' v, π v' = some v → x' v' = x v

theorem V_lift (x : ℕ → K) (a i : ℕ) : V x (2 * a + i % 2) = if i % 2 = 0 then x a else -x a := by
  unfold V
  rw [show (2 * a + i % 2) / 2 = a by omega, show (2 * a + i % 2) % 2 = i % 2 by omega]

theorem V_agree {x' x : ℕ → K} (h : Agree π x' x) {i a : ℕ} (hi : π (i / 2) = some a) :
    V x' i = V x (2 * a + i % 2) := by
  rw [V_lift]; unfold V; rw [h _ _ hi]

/-- the matrix, cell by cell -/
def CellsEq (dim' : ℕ) (M' : Mem K) (B : ℕ → ℕ → Bound K) : Prop :=
  ∀ i j, i < 2 * dim' → Cell i j → M' (matpos i j) = B i j

theorem sat_of_cells {M' : Mem K} {B : ℕ → ℕ → Bound K} (hG : CellsEq dim' M' B) {x : ℕ → K} :
    Sat dim' M' x ↔ ∀ i j, i < 2 * dim' → Cell i j → fin (V x j - V x i) ≤ B i j :=
  ⟨fun h i j hi hc => hG i j hi hc ▸ h i j hi hc, fun h i j hi hc => (hG i j hi hc).symm ▸ h i j hi hc⟩

theorem emb_G (hδ : ∀ i, δ (i ^^^ 1) = δ i) (hL : Legal dim' dim π) (hA : Coh A) {M' : Mem K}
    (hG : CellsEq dim' M' (emb z δ dim' π A)) : G dim' M' = emb z δ dim' π A :=
  G_eq_of_cell (emb_coh hδ hA) (emb_out hL) hG

/-- any solution of the source gives a solution -/
theorem sat_emb_of {M' m : Mem K} (hL : Legal dim' dim π)
    (hG : CellsEq dim' M' (emb z δ dim' π (G dim m)))
    (hδ : ∀ i, i < 2 * dim' → fin 0 ≤ δ i) {x x' : ℕ → K} (hx : Sat dim m x) (ha : Agree π x' x)
    (hz : z = true → ∀ v, v < dim' → π v = none → x' v = 0) : Sat dim' M' x' := by
  rw [sat_of_cells hG]
  intro i j hi hj
  by_cases h : π (i / 2) = none ∨ π (j / 2) = none
  · rw [emb_n h]
    split_ifs with e e2
    · obtain ⟨_, rfl⟩ := e; simpa using hδ i (by omega)
    · obtain ⟨h0, hlt, rfl⟩ := e2
      have h' : π (j / 2) = none := by rw [xor1_div] at h; tauto
      rw [V_xor1]
      have : V x' j = 0 := by
        unfold V; rw [hz h0 (j / 2) (by have := xor1_lt_iff.1 hlt; omega) h']; simp
      rw [this]; simp
    · exact le_pinf _
  · push Not at h
    obtain ⟨u, hu⟩ := Option.ne_none_iff_exists'.1 h.1
    obtain ⟨v, hv⟩ := Option.ne_none_iff_exists'.1 h.2
    rw [emb_ss hu hv, V_agree ha hu, V_agree ha hv]
    have hl1 := lift_lt (i := i) (hL _ _ hu).2
    have hl2 := lift_lt (i := j) (hL _ _ hv).2
    unfold G
    rw [if_pos ⟨hl1, hl2⟩]
    exact hx.le2 hl1 hl2

/-- the zero constraints -/
theorem sat_emb_zero {M' m : Mem K}
    (hG : CellsEq dim' M' (emb true δ dim' π (G dim m)))
    {x' : ℕ → K} (hx : Sat dim' M' x') {v : ℕ} (hv : v < dim') (hp : π v = none) : x' v = 0 := by
  rw [sat_of_cells hG] at hx
  have h1 := hx (2 * v) (2 * v + 1) (by omega) (by unfold Cell; omega)
  have h2 := hx (2 * v + 1) (2 * v) (by omega) (by unfold Cell; omega)
  rw [emb_n (Or.inl (by rw [show 2 * v / 2 = v by omega]; exact hp)), if_neg (by omega),
    if_pos ⟨rfl, by omega, by rw [xor1_odd]⟩] at h1
  rw [emb_n (Or.inl (by rw [show (2 * v + 1) / 2 = v by omega]; exact hp)), if_neg (by omega),
    if_pos ⟨rfl, by omega, by rw [xor1_even]⟩] at h2
  have a1 : V x' (2 * v) = x' v := by
    unfold V; rw [if_pos (by omega), show 2 * v / 2 = v by omega]
  have a2 : V x' (2 * v + 1) = - x' v := by
    unfold V; rw [if_neg (by omega), show (2 * v + 1) / 2 = v by omega]
  rw [a1, a2, fin_le_fin] at h1 h2
  linarith

theorem G_coh_ne (m : Mem K) {i j : ℕ} (h : i / 2 ≠ j / 2) :
    G dim m i j = G dim m (j ^^^ 1) (i ^^^ 1) := by
  unfold G
  by_cases hc : i < 2 * dim ∧ j < 2 * dim
  · rw [if_pos hc, if_pos ⟨xor1_lt hc.2, xor1_lt hc.1⟩, matpos2_mirror h]
  · rw [if_neg hc, if_neg (by rw [xor1_lt_iff, xor1_lt_iff]; tauto)]

def Inj (π : ℕ → Option ℕ) : Prop := ∀ v' w' v, π v' = some v → π w' = some v → v' = w'

/-- the constraints on related variables -/
theorem emb_satOn {M' m : Mem K} (hG : CellsEq dim' M' (emb z δ dim' π (G dim m)))
    (hL : Legal dim' dim π) (hinj : Inj π)
    {x x' : ℕ → K} (hx : Sat dim' M' x') (ha : Agree π x' x) :
    SatOn (G dim m) (fun v => ∃ v', π v' = some v) x := by
  rw [sat_of_cells hG] at hx
  have key : ∀ i j v' w', π v' = some (i / 2) → π w' = some (j / 2) → w' ≤ v' →
      fin (V x j - V x i) ≤ G dim m i j := by
    intro i j v' w' hv' hw' hle
    have := hx (2 * v' + i % 2) (2 * w' + j % 2) (lift_lt (hL _ _ hv').1) (by unfold Cell; omega)
    have e1 : (2 * v' + i % 2) / 2 = v' := by omega
    have e2 : (2 * w' + j % 2) / 2 = w' := by omega
    have p1 : π ((2 * v' + i % 2) / 2) = some (i / 2) := by rw [e1]; exact hv'
    have p2 : π ((2 * w' + j % 2) / 2) = some (j / 2) := by rw [e2]; exact hw'
    rw [emb_ss p1 p2, V_agree ha p1, V_agree ha p2] at this
    rwa [show 2 * (i / 2) + (2 * v' + i % 2) % 2 = i by omega,
      show 2 * (j / 2) + (2 * w' + j % 2) % 2 = j by omega] at this
  rintro i j ⟨v', hv'⟩ ⟨w', hw'⟩
  rcases Nat.lt_or_ge v' w' with hlt | hle
  · have hne : i / 2 ≠ j / 2 := by
      intro e
      rw [e] at hv'
      have := hinj _ _ _ hv' hw'
      omega
    rw [G_coh_ne m hne]
    have := key (j ^^^ 1) (i ^^^ 1) w' v' (by rw [xor1_div]; exact hw') (by rw [xor1_div]; exact hv')
      hlt.le
    rw [V_xor1, V_xor1] at this
    convert this using 2
    ring
  · exact key i j v' w' hv' hw' hle

/-- when every variable of the source occurs, nothing is lost -/
theorem sat_emb_cover {M' m : Mem K} (hG : CellsEq dim' M' (emb z δ dim' π (G dim m)))
    (hL : Legal dim' dim π) (hinj : Inj π)
    (hcov : ∀ v, v < dim → ∃ v', π v' = some v) {x x' : ℕ → K} (hx : Sat dim' M' x')
    (ha : Agree π x' x) : Sat dim m x := by
  rw [← satOn_iff]
  intro i j hi hj
  exact emb_satOn hG hL hinj hx ha i j (hcov _ hi) (hcov _ hj)

/-- from a normal form, every point of the result comes from a point of the source -/
theorem sat_emb_exact {M' m : Mem K} (hG : CellsEq dim' M' (emb z δ dim' π (G dim m)))
    (hL : Legal dim' dim π) (hinj : Inj π) (hm : SC dim (G dim m)) {x' : ℕ → K}
    (hx : Sat dim' M' x') : ∃ x, Sat dim m x ∧ Agree π x' x := by
  classical
  let x : ℕ → K := fun v => if h : ∃ v', π v' = some v then x' h.choose else 0
  have ha : Agree π x' x := by
    intro v' v h
    have he : ∃ v', π v' = some v := ⟨v', h⟩
    simp only [x, dif_pos he]
    rw [hinj _ _ _ h he.choose_spec]
  obtain ⟨y, hy, hs⟩ := extend_all hm (fun v => ∃ v', π v' = some v)
    (fun t ⟨v', h⟩ => (hL _ _ h).2) (emb_satOn hG hL hinj hx ha)
  exact ⟨y, satOn_iff.1 hs, fun v' v h => by rw [ha _ _ h, hy v ⟨v', h⟩]⟩

/-! ## The variable correspondence of the copying loops -/

/-- number of positions `≤ v` -/
def cntLe (pos : List ℕ) (v : ℕ) : ℕ := (pos.filter fun p => decide (p ≤ v)).length
/-- number of positions `< v` -/
def cntLt (pos : List ℕ) (v : ℕ) : ℕ := (pos.filter fun p => decide (p < v)).length

theorem vrel_add_iff {mult : ℕ} {ps : List ℕ} {oi ni c e : ℕ} (hok : Ok true mult ps oi) (hoi : oi ≤ c) :
    vrel true mult ps oi ni c e ↔ e + oi = c + ni + mult * cntLe ps c := by
  induction ps generalizing oi ni with
  | nil => simp [vrel, cntLe, hoi]
  | cons p ps ih =>
    obtain ⟨h1, h2⟩ := hok
    simp only [if_true, Nat.add_zero] at h2
    simp only [vrel, if_true, Nat.add_zero]
    by_cases hc : p ≤ c
    · rw [ih h2 hc]
      have : cntLe (p :: ps) c = cntLe ps c + 1 := by simp [cntLe, hc]
      rw [this, Nat.mul_add]
      omega
    · have hz : cntLe (p :: ps) c = 0 := by
        have : ∀ q ∈ p :: ps, ¬ q ≤ c := by
          have gen : ∀ (l : List ℕ) (o : ℕ), c < o → Ok true mult l o → ∀ q ∈ l, ¬ q ≤ c := by
            intro l
            induction l with
            | nil => simp
            | cons a l ih2 =>
              intro o ho hl q hq
              obtain ⟨ha, hl⟩ := hl
              simp only [if_true, Nat.add_zero] at hl
              rcases List.mem_cons.1 hq with rfl | hq
              · omega
              · exact ih2 _ (by omega) hl q hq
          intro q hq
          rcases List.mem_cons.1 hq with rfl | hq
          · exact hc
          · exact gen ps p (by omega) h2 q hq
        unfold cntLe
        rw [List.length_eq_zero_iff, List.filter_eq_nil_iff]
        intro q hq
        simpa using this q hq
      rw [hz]
      constructor
      · rintro (h | h)
        · omega
        · have := vrel_ge (by simpa using h2) h; omega
      · intro h; left; omega

theorem ok_false_ge {l : List ℕ} {o : ℕ} (h : Ok false 1 l o) : ∀ q ∈ l, o ≤ q := by
  induction l generalizing o with
  | nil => simp
  | cons a l ih =>
    obtain ⟨h1, h2⟩ := h
    intro q hq
    rcases List.mem_cons.1 hq with rfl | hq
    · exact h1
    · have := ih h2 q hq
      simp at this
      omega

theorem vrel_rem_iff {ps : List ℕ} {oi ni c e : ℕ} (hok : Ok false 1 ps oi) (hoi : oi ≤ c) :
    vrel false 1 ps oi ni c e ↔ c ∉ ps ∧ e + oi + cntLt ps c = c + ni := by
  induction ps generalizing oi ni with
  | nil => simp [vrel, cntLt, hoi]
  | cons p ps ih =>
    obtain ⟨h1, h2⟩ := hok
    simp only [Bool.false_eq_true, if_false] at h2
    simp only [vrel, Bool.false_eq_true, if_false, Nat.add_zero]
    have hge := ok_false_ge h2
    rcases Nat.lt_trichotomy c p with hc | hc | hc
    · have hz : cntLt (p :: ps) c = 0 := by
        unfold cntLt
        rw [List.length_eq_zero_iff, List.filter_eq_nil_iff]
        intro q hq
        rcases List.mem_cons.1 hq with rfl | hq
        · simp; omega
        · have := hge q hq; simp; omega
      have hn : c ∉ p :: ps := by
        intro hq
        rcases List.mem_cons.1 hq with rfl | hq
        · omega
        · have := hge c hq; omega
      rw [hz]
      constructor
      · rintro (h | h)
        · exact ⟨hn, by omega⟩
        · have := vrel_ge (by simpa using h2) h; omega
      · rintro ⟨_, h⟩; left; omega
    · subst hc
      simp only [List.mem_cons, true_or, not_true, false_and, iff_false]
      rintro (h | h)
      · omega
      · have := vrel_ge (by simpa using h2) h; omega
    · rw [ih h2 (by omega)]
      have : cntLt (p :: ps) c = cntLt ps c + 1 := by simp [cntLt, hc]
      rw [this]
      have hne : c ≠ p := by omega
      simp only [List.mem_cons, hne, false_or]
      constructor
      · rintro (h | ⟨h, h'⟩)
        · omega
        · exact ⟨h, by omega⟩
      · rintro ⟨h, h'⟩; right; exact ⟨h, by omega⟩

theorem ok_add_of_sorted {mult : ℕ} {ps : List ℕ} (h : ps.Pairwise (· ≤ ·)) : Ok true mult ps 0 := by
  have gen : ∀ (l : List ℕ) (o : ℕ), (∀ q ∈ l, o ≤ q) → l.Pairwise (· ≤ ·) → Ok true mult l o := by
    intro l
    induction l with
    | nil => intros; trivial
    | cons a l ih =>
      intro o ho hp
      rw [List.pairwise_cons] at hp
      exact ⟨ho a (by simp), ih _ (by simpa using hp.1) hp.2⟩
  exact gen ps 0 (by simp) h

theorem ok_rem_of_sorted {ps : List ℕ} (h : ps.Pairwise (· < ·)) : Ok false 1 ps 0 := by
  have gen : ∀ (l : List ℕ) (o : ℕ), (∀ q ∈ l, o ≤ q) → l.Pairwise (· < ·) → Ok false 1 l o := by
    intro l
    induction l with
    | nil => intros; trivial
    | cons a l ih =>
      intro o ho hp
      rw [List.pairwise_cons] at hp
      exact ⟨ho a (by simp), ih _ (fun q hq => by have := hp.1 q hq; simp; omega) hp.2⟩
  exact gen ps 0 (by simp) h

/-- the source of a variable under `addrem` -/
noncomputable def src (add : Bool) (mult dim : ℕ) (pos : List ℕ) (v' : ℕ) : Option ℕ :=
  open Classical in if h : ∃ v, v < dim ∧ vrel add mult pos 0 0 v v' then some h.choose else none

variable {add : Bool} {mult : ℕ} {pos : List ℕ}

theorem src_some (hok : Ok add mult pos 0) {v v' : ℕ} :
    src add mult dim pos v' = some v ↔ v < dim ∧ vrel add mult pos 0 0 v v' := by
  unfold src
  split_ifs with h
  · constructor
    · intro e; cases e; exact h.choose_spec
    · rintro ⟨h1, h2⟩
      rw [(vrel_inj hok h2 h.choose_spec.2).2 rfl]
  · simp only [reduceCtorEq, false_iff]
    exact fun h' => h ⟨v, h'⟩

theorem src_inj (hok : Ok add mult pos 0) : Inj (src add mult dim pos) := by
  intro v' w' v h1 h2
  rw [src_some hok] at h1 h2
  exact (vrel_inj hok h1.2 h2.2).1 rfl

/-- the whole effect of `addrem` -/
theorem addrem_emb (m dst : Mem K) (hne : pos ≠ []) (hok : Ok add mult pos 0)
    (hlt : ∀ q ∈ pos, q ≤ dim) {dim' : ℕ}
    (hdst : ∀ i j, i < 2 * dim' → Cell i j →
      (src add mult dim pos (i / 2) = none ∨ src add mult dim pos (j / 2) = none) →
      dst (matpos i j) = if i = j then fin 0 else pinf) :
    CellsEq dim' (addrem add mult dim dst m pos)
      (emb false (fun _ => fin 0) dim' (src add mult dim pos) (G dim m)) := by
  intro i j hi hc
  by_cases h : src add mult dim pos (i / 2) = none ∨ src add mult dim pos (j / 2) = none
  · rw [emb_n h, addrem_other m dst hne hok hlt hc, hdst i j hi hc h]
    · by_cases e : i = j
      · rw [if_pos e, if_pos ⟨hi, e⟩]
      · rw [if_neg e, if_neg (by tauto), if_neg (by simp)]
    · rintro ⟨⟨r, hr, h1⟩, c, h2⟩
      have hcc := (crel_cell hok h1 h2).2 hc
      rcases h with h | h
      · have := (src_some (dim := dim) hok).2 ⟨show r / 2 < dim by omega, h1.2⟩
        rw [h] at this; cases this
      · have := (src_some (dim := dim) hok).2 ⟨show c / 2 < dim by unfold Cell at hcc; omega, h2.2⟩
        rw [h] at this; cases this
  · push Not at h
    obtain ⟨a, ha⟩ := Option.ne_none_iff_exists'.1 h.1
    obtain ⟨b, hb⟩ := Option.ne_none_iff_exists'.1 h.2
    rw [emb_ss ha hb]
    rw [src_some hok] at ha hb
    have h1 : crel add mult pos 0 0 (2 * a + i % 2) i :=
      ⟨by omega, by rw [show (2 * a + i % 2) / 2 = a by omega]; exact ha.2⟩
    have h2 : crel add mult pos 0 0 (2 * b + j % 2) j :=
      ⟨by omega, by rw [show (2 * b + j % 2) / 2 = b by omega]; exact hb.2⟩
    have hcc := (crel_cell hok h1 h2).2 hc
    rw [addrem_cell m dst hne hok hlt (by omega) h1 h2 hcc, G_cell m (by omega) hcc]

end Oct
end Apron
