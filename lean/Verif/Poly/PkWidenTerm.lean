import Verif.Poly.PkWidenSem

/-!
# Widening of convex polyhedra: constraints kept, termination
-/

set_option autoImplicit false
set_option linter.unusedSectionVars false

namespace Apron.Poly

variable {K : Type*} [LinearOrder K] [Field K] [IsStrictOrderedRing K] {n d : ℕ}

theorem Full.Ok.polar_of_valid {f : Full} (h : f.Ok K d) {v : Fin d → K} :
    Sat f.frows v ↔ ∀ y : Fin d → K, Sat f.crows y → 0 ≤ linV v y := by
  rw [sat_iff_polar]
  exact ⟨fun hv y hy => hv y ((h.sat_iff y).1 hy), fun hv y hy => hv y ((h.sat_iff y).2 hy)⟩

/-- the rows of a larger polyhedron are valid -/
theorem Full.Ok.polar_row {f : Full} (h : f.Ok K d) {C : List Row} (hle : ∀ y : Fin d → K, Sat f.crows y → Sat C y) {c : Row}
    (hc : c ∈ C) : Sat (K := K) (d := d) f.frows (toV K d c) :=
  h.polar_of_valid.2 fun y hy => by rw [← dot_eq_linV]; exact (hle y hy c hc).1

theorem Full.Ok.zAll_row {f : Full} (h : f.Ok K d) {C : List Row} (hle : ∀ y : Fin d → K, Sat f.crows y → Sat C y) {c : Row}
    (hc : c ∈ C) (h0 : c.at' 0 = 0) : ZAll (K := K) (d := d) f.frows (toV K d c) := by
  have h1 : Sat (K := K) (d := d) f.frows (-toV K d c) :=
    h.polar_of_valid.2 fun y hy => by rw [linV_neg_left, ← dot_eq_linV, (hle y hy c hc).2 h0, neg_zero]
  intro g hg
  have h2 := (h.polar_row hle hc g hg).1
  have h3 := (h1 g hg).1
  rw [dot_neg_right] at h3
  linarith

theorem Full.Ok.zAll_iff {f : Full} (h : f.Ok K d) (v : Fin d → K) : ZAll f.frows v ↔ v ∈ rowSpan K d f.eqs := by
  rw [frows_eq]; exact h.min.zAll_iff v

theorem rowIsPos_status {q : Row} (h : rowIsPos n q = true) : 0 < q.at' 0 := by
  rw [rowIsPos, Bool.and_eq_true, decide_eq_true_iff] at h; exact h.1

theorem rowIsPos_toV {q : Row} (h : rowIsPos n q = true) : toV K (n + 1) q = (q.at' 1 : K) • e0 K n := by
  rw [rowIsPos, Bool.and_eq_true, List.all_eq_true] at h
  funext j
  refine Fin.cases ?_ (fun j => ?_) j
  · simp [toV, e0]
  · have := h.2 j (List.mem_range.2 j.2)
    simp only [beq_iff_eq] at this
    simp [toV, e0, this]

/-- every constraint of the minimal representation of `pa` satisfied by `pb` is satisfied by the widening -/
theorem widening_keeps {f : Full} (h : f.Ok K (n + 1)) (hp : PosCone (K := K) (n := n) (Sat f.crows))
    (hne : NonEmpty (K := K) (n := n) (Sat f.crows)) {C : List Row}
    (hle : ∀ y : Fin (n + 1) → K, Sat f.crows y → Sat C y) (alg : ℤ) {q : Row} (hq : q ∈ f.crows)
    (hv : ∀ y : Fin (n + 1) → K, Sat C y → 0 ≤ dot q y ∧ (q.at' 0 = 0 → dot q y = 0)) :
    ∀ y : Fin (n + 1) → K, Sat (posRow n :: C.filter (f.keeps n alg)) y → 0 ≤ dot q y ∧ (q.at' 0 = 0 → dot q y = 0) := by
  have hpol := fun c hc => h.polar_row hle (c := c) hc
  have hzal := fun c hc => h.zAll_row hle (c := c) hc
  -- a row that saturates all the generators is kept or null
  have hall : ∀ c ∈ C, ZAll (K := K) (d := n + 1) f.frows (toV K (n + 1) c) → toV K (n + 1) c = 0 ∨ f.keeps n alg c = true := by
    intro c hc hz
    by_cases hE : f.nbeq = 0
    · left
      have h1 := (h.zAll_iff _).1 hz
      have h2 : f.eqs = [] := by rw [← List.length_eq_zero_iff, h.eqs_length, hE]
      rw [h2, rowSpan] at h1
      simpa [lineSet] using h1
    · right
      have hlt : 0 < f.C.length := by have := h.leq; omega
      have hfind : f.findRow n c ≠ none := by
        refine findRow_ne_none (i := 0) hlt ((satRow_iff (K := K) h hlt c).2 fun g hg => ?_)
        rw [hz g hg, (h.zAll_iff _).2 (mem_rowSpan (h.eq_of_lt (i := 0) (by omega))) g hg]
      obtain ⟨j, hj⟩ := Option.ne_none_iff_exists'.1 hfind
      obtain ⟨hjl, hjk⟩ := findRow_some hj
      have hs := (satRow_iff (K := K) h hjl c).1 hjk
      have hjz : ZAll (K := K) (d := n + 1) f.frows (toV K (n + 1) (f.crows.getD j [])) := fun g hg => (hs g hg).2 (hz g hg)
      rw [Full.keeps, hj]
      dsimp only
      rw [Bool.or_eq_true]; right
      by_contra hc'
      have hpos : rowIsPos n (f.crows.getD j []) = true := by simpa using hc'
      have hst := rowIsPos_status hpos
      by_cases hjlt : j < f.nbeq
      · have := h.min.eqs _ (h.eq_of_lt hjlt); omega
      · obtain ⟨x, hx, -, e⟩ := h.ineq_of_ge (not_lt.1 hjlt) hjl
        rw [e, frows_eq] at hjz
        exact h.min.not_zAll hx hjz
  set S : (Fin (n + 1) → K) → Prop := GenM (posRow n :: C.filter (f.keeps n alg)) with hSdef
  have hS : IsCone (K := K) S := Gen.isCone
  have keepS : ∀ c ∈ C, (toV K (n + 1) c = 0 ∨ f.keeps n alg c = true) → S (toV K (n + 1) c) ∧ (c.at' 0 = 0 → S (-toV K (n + 1) c)) := by
    rintro c hc (h0 | hk)
    · rw [h0, neg_zero]; exact ⟨hS.zero, fun _ => hS.zero⟩
    · have hm : c ∈ posRow n :: C.filter (f.keeps n alg) := List.mem_cons_of_mem _ (List.mem_filter.2 ⟨hc, hk⟩)
      by_cases h0 : c.at' 0 = 0
      · have hme : c ∈ eqRows (posRow n :: C.filter (f.keeps n alg)) := List.mem_filter.2 ⟨hm, by simpa using h0⟩
        exact ⟨.of_line hme, fun _ => .of_neg_line hme⟩
      · have hme : c ∈ ineqRows (posRow n :: C.filter (f.keeps n alg)) := List.mem_filter.2 ⟨hm, by simpa using h0⟩
        exact ⟨.of_ray hme, fun h => absurd h h0⟩
  -- in terms of generated constraints
  suffices hg : S (toV K (n + 1) q) ∧ (q.at' 0 = 0 → S (-toV K (n + 1) q)) by
    intro y hy
    have h1 := (genM_iff_polar _ _).1 hg.1 y hy
    rw [← dot_eq_linV] at h1
    refine ⟨h1, fun h0 => le_antisymm ?_ h1⟩
    have h2 := (genM_iff_polar _ _).1 (hg.2 h0) y hy
    rw [linV_neg_left, ← dot_eq_linV] at h2
    linarith
  have g1 : GenM C (toV K (n + 1) q) := (genM_iff_polar _ _).2 fun y hy => by rw [← dot_eq_linV]; exact (hv y hy).1
  have hq' := hq
  rw [crows_eq, List.mem_append] at hq'
  rcases hq' with he | hi
  · have h0 := h.min.eqs q he
    have g2 : GenM C (-toV K (n + 1) q) := (genM_iff_polar _ _).2 fun y hy => by
      rw [linV_neg_left, ← dot_eq_linV, (hv y hy).2 h0, neg_zero]
    have hz := (h.zAll_iff _).2 (mem_rowSpan (K := K) he)
    refine ⟨genM_face hpol hzal g1 hS fun c hc hzl => keepS c hc (hall c hc fun g hg => hzl g hg (hz g hg)), fun _ =>
      genM_face hpol hzal g2 hS fun c hc hzl => keepS c hc (hall c hc fun g hg => hzl g hg ?_)⟩
    rw [dot_neg_right, hz g hg, neg_zero]
  · obtain ⟨x, hx, rfl⟩ := List.mem_map.1 hi
    have hst := h.min.ineqs x hx
    refine ⟨?_, fun h0 => by omega⟩
    by_cases hpx : rowIsPos n x.row = true
    · -- the positivity constraint
      have e := rowIsPos_toV (K := K) hpx
      have hk : (0 : K) ≤ (x.row.at' 1 : K) := by
        obtain ⟨y, hy, hy0⟩ := hne
        have h1 := (hy x.row hq).1
        rw [dot_eq_linV, e, linV_smul_left, linV_e0] at h1
        by_contra hneg
        have := mul_neg_of_neg_of_pos (not_le.1 hneg) hy0
        linarith
      rw [e]
      refine hS.smul hk ?_
      rw [← toV_posRow]
      exact .of_ray (List.mem_filter.2 ⟨List.mem_cons_self .., by simp [posRow_status]⟩)
    · refine genM_face hpol hzal g1 hS fun c hc hzl => keepS c hc ?_
      by_cases hza : ZAll (K := K) (d := n + 1) f.frows (toV K (n + 1) c)
      · exact hall c hc hza
      · right
        have hsat := hpol c hc
        rw [frows_eq] at hsat hzl hza
        obtain ⟨t, ht, hmod⟩ := h.min.extreme hx hsat hzl hza
        have hsame := h.min.same_of_mod ht hmod
        rw [← frows_eq] at hsame
        obtain ⟨i, hi, rfl⟩ := List.getElem_of_mem hx
        have hil : f.nbeq + i < f.C.length := by
          have : f.ineqs.length = f.C.length - f.nbeq := by rw [Full.ineqs, List.length_drop]
          omega
        obtain ⟨z, hz, ez, erow⟩ := h.ineq_of_ge (i := f.nbeq + i) (by omega) hil
        have ezi : z = f.ineqs[i] := by
          rw [ez, List.getD_eq_getElem?_getD, List.getElem?_eq_getElem hil]
          simp [Full.ineqs]
        subst ezi
        have hfind : f.findRow n c ≠ none := by
          refine findRow_ne_none (i := f.nbeq + i) hil ((satRow_iff (K := K) h hil c).2 fun g hg => ?_)
          rw [erow]; exact (hsame g hg).symm
        obtain ⟨j, hj⟩ := Option.ne_none_iff_exists'.1 hfind
        obtain ⟨hjl, hjk⟩ := findRow_some hj
        have hs := (satRow_iff (K := K) h hjl c).1 hjk
        rw [Full.keeps, hj]
        dsimp only
        rw [Bool.or_eq_true]; right
        by_cases hjlt : j < f.nbeq
        · have h0 := h.min.eqs _ (h.eq_of_lt hjlt)
          rw [rowIsPos, h0]; simp
        · obtain ⟨w, hw, -, e⟩ := h.ineq_of_ge (not_lt.1 hjlt) hjl
          have : f.ineqs[i] = w := by
            refine h.min.anti_eq (K := K) hx hw ?_
            rw [← frows_eq]
            intro g hg h0
            rw [← e]; exact (hs g hg).2 ((hsame g hg).2 h0)
          rw [e, ← this]
          simpa using hpx

/-! ## Termination -/

open Classical in
/-- the inequalities that are not one of the constraints `T` -/
noncomputable def Full.proper {n : ℕ} (T : List (Fin (n + 1) → K)) (f : Full) : Finset (Fin f.ineqs.length) :=
  Finset.univ.filter fun i => ¬ ∃ v ∈ T, ∃ t : K, 0 < t ∧ v - t • toV K (n + 1) (f.ineqs[i]).row ∈ rowSpan K (n + 1) f.eqs

open Classical in
/-- the constraints `T` that are satisfied -/
noncomputable def Full.valid {n : ℕ} (T : List (Fin (n + 1) → K)) (f : Full) : Finset (Fin T.length) :=
  Finset.univ.filter fun i => ∀ y : Fin (n + 1) → K, Sat f.crows y → 0 ≤ linV T[i] y

/-- the measure that decreases -/
noncomputable def Full.meas {n : ℕ} (T : List (Fin (n + 1) → K)) (f : Full) : ℕ ×ₗ ℕ ×ₗ ℕ :=
  toLex (f.nbeq, toLex ((f.valid T).card, (f.proper T).card))

theorem mod_trans {E : List Row} {u v w : Fin d → K} {s t : K} (h1 : u - s • v ∈ rowSpan K d E) (h2 : v - t • w ∈ rowSpan K d E) :
    u - (s * t) • w ∈ rowSpan K d E := by
  have : u - (s * t) • w = (u - s • v) + s • (v - t • w) := by rw [smul_sub, smul_smul]; abel
  rw [this]; exact Submodule.add_mem _ h1 (Submodule.smul_mem _ _ h2)

theorem mod_symm {E : List Row} {u v : Fin d → K} {t : K} (ht : 0 < t) (h : u - t • v ∈ rowSpan K d E) :
    v - t⁻¹ • u ∈ rowSpan K d E := by
  have : v - t⁻¹ • u = (-t⁻¹) • (u - t • v) := by
    rw [smul_sub, smul_smul, neg_mul, inv_mul_cancel₀ ht.ne', neg_smul, neg_smul, one_smul]; abel
  rw [this]; exact Submodule.smul_mem _ _ h

/-- one step: `g` represents the polyhedron of constraints `C`, each of them being one of the constraints `T` or having the
same saturation as a constraint of `f` -/
theorem meas_step {T : List (Fin (n + 1) → K)} {f g : Full} (hf : f.Ok K (n + 1)) (hg : g.Ok K (n + 1)) {C : List Row}
    (hC : ∀ y : Fin (n + 1) → K, Sat g.crows y ↔ Sat C y) (hle : ∀ y : Fin (n + 1) → K, Sat f.crows y → Sat g.crows y)
    (hrow : ∀ c ∈ C, toV K (n + 1) c ∈ T ∨ ∃ i, i < f.C.length ∧ ∀ r ∈ f.frows, (dot (K := K) r (toV K (n + 1) (f.crows.getD i [])) = 0 ↔
      dot (K := K) r (toV K (n + 1) c) = 0)) :
    g.meas T ≤ f.meas T ∧ (g.meas T = f.meas T → ∀ y : Fin (n + 1) → K, Sat g.crows y → Sat f.crows y) := by
  classical
  have hnb : g.nbeq ≤ f.nbeq := hf.nbeq_le hg hle
  rcases hnb.lt_or_eq with hlt | heq
  · have : g.meas T < f.meas T := by rw [Full.meas, Full.meas, Prod.Lex.toLex_lt_toLex]; exact .inl hlt
    exact ⟨this.le, fun h => absurd h this.ne⟩
  have hsub : g.valid T ⊆ f.valid T := by
    intro i hi
    rw [Full.valid, Finset.mem_filter] at hi ⊢
    exact ⟨hi.1, fun y hy => hi.2 y (hle y hy)⟩
  rcases (Finset.card_le_card hsub).lt_or_eq with hlt | hvc
  · have : g.meas T < f.meas T := by
      rw [Full.meas, Full.meas, Prod.Lex.toLex_lt_toLex]
      refine .inr ⟨heq, ?_⟩
      rw [Prod.Lex.toLex_lt_toLex]; exact .inl hlt
    exact ⟨this.le, fun h => absurd h this.ne⟩
  have hval : g.valid T = f.valid T := Finset.eq_of_subset_of_card_le hsub hvc.ge
  -- the same equalities
  have hleE : rowSpan K (n + 1) g.eqs ≤ rowSpan K (n + 1) f.eqs := by
    refine rowSpan_le fun e he => (hf.zAll_iff _).1 (hf.zAll_row hle (C := g.crows) ?_ (hg.min.eqs e he))
    rw [crows_eq]; exact List.mem_append_left _ he
  have hE : rowSpan K (n + 1) g.eqs = rowSpan K (n + 1) f.eqs := by
    refine Submodule.eq_of_le_of_finrank_eq hleE ?_
    have h1 := hf.indE; have h2 := hg.indE
    rw [Indep] at h1 h2
    rw [h1, h2, hf.eqs_length, hg.eqs_length, heq]
  have hCv : ∀ c ∈ C, Sat (K := K) (d := n + 1) g.frows (toV K (n + 1) c) := fun c hc => hg.polar_row (fun y hy => (hC y).1 hy) hc
  have hCz : ∀ c ∈ C, c.at' 0 = 0 → ZAll (K := K) (d := n + 1) g.frows (toV K (n + 1) c) := fun c hc => hg.zAll_row (fun y hy => (hC y).1 hy) hc
  -- every inequality of the result is a multiple of a row of `C`
  have hx1 : ∀ x ∈ g.ineqs, ∃ c ∈ C, ∃ t : K, 0 < t ∧ toV K (n + 1) c - t • toV K (n + 1) x.row ∈ rowSpan K (n + 1) f.eqs := by
    intro x hx
    have hgen : GenM C (toV K (n + 1) x.row) := (genM_iff_polar _ _).2 fun y hy => by
      rw [← dot_eq_linV]
      refine ((hC y).2 hy x.row ?_).1
      rw [crows_eq]; exact List.mem_append_right _ (List.mem_map_of_mem hx)
    have hnz := hg.min.not_zAll (K := K) hx
    rw [← frows_eq] at hnz
    by_contra hcon
    push Not at hcon
    refine hnz (genM_face hCv hCz hgen (S := ZAll g.frows) ⟨?_, ?_, ?_⟩ ?_)
    · intro r _; rw [← lin_apply, map_zero]
    · intro u v hu hv r hr; rw [dot_add_right, hu r hr, hv r hr, add_zero]
    · intro u t _ hu r hr; rw [dot_smul_right, hu r hr, mul_zero]
    · intro c hc hz
      have hza : ZAll (K := K) (d := n + 1) g.frows (toV K (n + 1) c) := by
        by_contra hza
        have hv := hCv c hc
        rw [frows_eq] at hv hz hza
        obtain ⟨t, ht, hm⟩ := hg.min.extreme hx hv hz hza
        rw [hE] at hm
        exact hcon c hc t ht hm
      exact ⟨hza, fun _ r hr => by rw [dot_neg_right, hza r hr, neg_zero]⟩
  -- hence of an inequality of `f`
  have hx2 : ∀ i ∈ g.proper T, ∃ j ∈ f.proper T, ∃ t : K, 0 < t ∧
      toV K (n + 1) (f.ineqs[j]).row - t • toV K (n + 1) (g.ineqs[i]).row ∈ rowSpan K (n + 1) f.eqs := by
    intro i hi
    rw [Full.proper, Finset.mem_filter] at hi
    obtain ⟨c, hc, t, ht, hm⟩ := hx1 _ (List.getElem_mem i.2)
    rcases hrow c hc with hcT | ⟨k, hk, hs⟩
    · exact absurd ⟨_, hcT, t, ht, hE ▸ hm⟩ hi.2
    · -- `c` is not an equality of `f`
      have hnc : ¬ ZAll (K := K) (d := n + 1) f.frows (toV K (n + 1) c) := by
        intro hz
        have h1 := (hf.zAll_iff _).1 hz
        have h2 : toV K (n + 1) (g.ineqs[i]).row ∈ rowSpan K (n + 1) f.eqs := by
          have h3 := mod_symm ht hm
          have : toV K (n + 1) (g.ineqs[i]).row = (toV K (n + 1) (g.ineqs[i]).row - t⁻¹ • toV K (n + 1) c) + t⁻¹ • toV K (n + 1) c := by abel
          rw [this]; exact Submodule.add_mem _ h3 (Submodule.smul_mem _ _ h1)
        rw [← hE] at h2
        exact hg.min.not_zAll (K := K) (List.getElem_mem i.2) ((hg.min.zAll_iff _).2 h2)
      have hkn : ¬ k < f.nbeq := fun hlt => hnc fun r hr => (hs r hr).1 ((hf.zAll_iff _).2 (mem_rowSpan (hf.eq_of_lt hlt)) r hr)
      obtain ⟨x, hx, -, ex⟩ := hf.ineq_of_ge (not_lt.1 hkn) hk
      have hcv : Sat (K := K) (d := n + 1) f.frows (toV K (n + 1) c) := hf.polar_row (fun y hy => (hC y).1 (hle y hy)) hc
      have hzl : ZLe (K := K) (d := n + 1) f.frows (toV K (n + 1) x.row) (toV K (n + 1) c) := fun r hr h0 => (hs r hr).1 (by rw [ex]; exact h0)
      rw [frows_eq] at hcv hzl hnc
      obtain ⟨s, hs0, hsm⟩ := hf.min.extreme hx hcv hzl hnc
      obtain ⟨j, hj, rfl⟩ := List.getElem_of_mem hx
      have hjm := mod_trans (mod_symm hs0 hsm) hm
      have hts : 0 < s⁻¹ * t := mul_pos (inv_pos.2 hs0) ht
      refine ⟨⟨j, hj⟩, ?_, s⁻¹ * t, hts, hjm⟩
      rw [Full.proper, Finset.mem_filter]
      refine ⟨Finset.mem_univ _, ?_⟩
      rintro ⟨v, hv, u, hu, hum⟩
      refine hi.2 ⟨v, hv, u * (s⁻¹ * t), mul_pos hu hts, ?_⟩
      rw [hE]
      exact mod_trans hum hjm
  have hx3 : ∀ i : {i // i ∈ g.proper T}, ∃ j, j ∈ f.proper T ∧ ∃ t : K, 0 < t ∧
      toV K (n + 1) (f.ineqs[j]).row - t • toV K (n + 1) (g.ineqs[i.1]).row ∈ rowSpan K (n + 1) f.eqs := fun i => hx2 i.1 i.2
  choose φ hφ1 hφ2 using hx3
  have hinj : Function.Injective φ := by
    intro i i' e
    obtain ⟨t, ht, hm⟩ := hφ2 i
    obtain ⟨t', ht', hm'⟩ := hφ2 i'
    rw [e] at hm
    have h1 := mod_trans (mod_symm ht hm) hm'
    rw [← hE] at h1
    have h2 := hg.min.same_of_mod (mul_pos (inv_pos.2 ht) ht') h1
    have h3 : g.ineqs[i.1] = g.ineqs[i'.1] :=
      hg.min.anti_eq (K := K) (List.getElem_mem i.1.2) (List.getElem_mem i'.1.2) fun r hr h0 => (h2 r hr).1 h0
    exact Subtype.ext (Fin.ext ((List.Nodup.getElem_inj_iff hg.min.dual.nodup).1 h3))
  have hcard : (g.proper T).card ≤ (f.proper T).card := by
    rw [← Finset.card_attach (s := g.proper T)]
    exact Finset.card_le_card_of_injOn φ (fun i _ => hφ1 i) hinj.injOn
  have hmle : g.meas T ≤ f.meas T := by
    rw [Full.meas, Full.meas, Prod.Lex.toLex_le_toLex]
    refine .inr ⟨heq, ?_⟩
    rw [Prod.Lex.toLex_le_toLex]; exact .inr ⟨hvc, hcard⟩
  refine ⟨hmle, fun hm => ?_⟩
  have hcard' : (f.proper T).card = (g.proper T).card := by
    rw [Full.meas, Full.meas, EmbeddingLike.apply_eq_iff_eq, Prod.mk.injEq, EmbeddingLike.apply_eq_iff_eq, Prod.mk.injEq] at hm
    exact hm.2.2.symm
  have himg : (g.proper T).attach.image φ = f.proper T := by
    refine Finset.eq_of_subset_of_card_le ?_ ?_
    · intro j hj
      obtain ⟨i, -, rfl⟩ := Finset.mem_image.1 hj
      exact hφ1 i
    · rw [Finset.card_image_of_injective _ hinj, hcard', Finset.card_attach]
  -- every row of `f` is valid on `g`
  have hEz : ∀ v ∈ rowSpan K (n + 1) f.eqs, ∀ y : Fin (n + 1) → K, Sat g.crows y → linV v y = 0 := by
    intro v hv y hy
    rw [← hE] at hv
    have hz := (hg.zAll_iff v).2 hv
    have s1 : Sat g.frows v := fun r hr => by rw [hz r hr]; exact ⟨le_rfl, fun _ => rfl⟩
    have s2 : Sat g.frows (-v) := fun r hr => by rw [dot_neg_right, hz r hr, neg_zero]; exact ⟨le_rfl, fun _ => rfl⟩
    have a1 := hg.polar_of_valid.1 s1 y hy
    have a2 := hg.polar_of_valid.1 s2 y hy
    rw [linV_neg_left] at a2
    linarith
  have hmod : ∀ (u v : Fin (n + 1) → K) (t : K), u - t • v ∈ rowSpan K (n + 1) f.eqs → ∀ y : Fin (n + 1) → K, Sat g.crows y →
      linV u y = t * linV v y := by
    intro u v t hm y hy
    have h1 := hEz _ hm y hy
    have h2 : u = (u - t • v) + t • v := by abel
    rw [h2, linV_add_left, h1, zero_add, linV_smul_left]
  have hmod' : ∀ v ∈ rowSpan K (n + 1) f.eqs, ∀ y : Fin (n + 1) → K, Sat f.crows y → linV v y = 0 :=
    fun v hv y hy => hEz v hv y (hle y hy)
  intro y hy q hq
  rw [crows_eq, List.mem_append] at hq
  rcases hq with he | hi
  · have := hEz _ (mem_rowSpan he) y hy
    rw [← dot_eq_linV] at this
    rw [this]; exact ⟨le_rfl, fun _ => rfl⟩
  · obtain ⟨x, hx, rfl⟩ := List.mem_map.1 hi
    have hst := hf.min.ineqs x hx
    refine ⟨?_, fun h0 => by omega⟩
    obtain ⟨j, hj, rfl⟩ := List.getElem_of_mem hx
    rw [dot_eq_linV]
    by_cases hjp : (⟨j, hj⟩ : Fin f.ineqs.length) ∈ f.proper T
    · rw [← himg] at hjp
      obtain ⟨i, -, e⟩ := Finset.mem_image.1 hjp
      obtain ⟨t, ht, hm⟩ := hφ2 i
      rw [e] at hm
      have := hmod _ _ t hm y hy
      rw [show toV K (n + 1) f.ineqs[j].row = toV K (n + 1) (f.ineqs[(⟨j, hj⟩ : Fin f.ineqs.length)]).row from rfl, this]
      refine mul_nonneg ht.le ?_
      rw [← dot_eq_linV]
      refine (hy _ ?_).1
      rw [crows_eq]; exact List.mem_append_right _ (List.mem_map_of_mem (List.getElem_mem i.1.2))
    · rw [Full.proper, Finset.mem_filter] at hjp
      push Not at hjp
      obtain ⟨v, hv, t, ht, hm⟩ := hjp (Finset.mem_univ _)
      obtain ⟨k, hk, rfl⟩ := List.getElem_of_mem hv
      have hkf : (⟨k, hk⟩ : Fin T.length) ∈ f.valid T := by
        rw [Full.valid, Finset.mem_filter]
        refine ⟨Finset.mem_univ _, fun y hy => ?_⟩
        change 0 ≤ linV T[k] y
        have h1 := hmod' _ hm y hy
        have h2 : T[k] = (T[k] - t • toV K (n + 1) (f.ineqs[j]).row) + t • toV K (n + 1) (f.ineqs[j]).row := by abel
        rw [h2, linV_add_left, linV_smul_left]
        refine add_nonneg h1.ge (mul_nonneg ht.le ?_)
        rw [← dot_eq_linV]
        refine (hy _ ?_).1
        rw [crows_eq]; exact List.mem_append_right _ (List.mem_map_of_mem hx)
      rw [← hval, Full.valid, Finset.mem_filter] at hkf
      have := hmod _ _ _ (mod_symm ht hm) y hy
      rw [show toV K (n + 1) f.ineqs[j].row = toV K (n + 1) (f.ineqs[(⟨j, hj⟩ : Fin f.ineqs.length)]).row from rfl, this]
      exact mul_nonneg (inv_pos.2 ht).le (hkf.2 y hy)

end Apron.Poly
