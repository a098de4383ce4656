import Verif.Poly.PkUserOps

/-!
# Polyhedra: addition of rays, construction from a box
-/

set_option autoImplicit false
set_option linter.unusedSectionVars false
set_option linter.ambiguousOpen false

namespace Apron.Poly

open Apron Bound ILincons ILinexpr

variable {n : ℕ}

/-! ## Rays -/

/-- sums of multiples of directions; the multiples of rays are not negative -/
def Comb : List (Bool × (Fin n → ℚ)) → (Fin n → ℚ) → Prop
  | [], v => v = 0
  | (ray, d) :: l, v => ∃ t : ℚ, (ray = true → 0 ≤ t) ∧ Comb l (v - t • d)

theorem genM_single {q : Row} {y : Fin (n + 1) → ℚ} :
    GenM [q] y ↔ ∃ t : ℚ, (q.at' 0 ≠ 0 → 0 ≤ t) ∧ y = t • toV ℚ (n + 1) q := by
  constructor
  · intro h
    refine Gen.le (G := fun y => ∃ t : ℚ, (q.at' 0 ≠ 0 → 0 ≤ t) ∧ y = t • toV ℚ (n + 1) q) ⟨⟨0, by simp, by simp⟩, ?_, ?_⟩ ?_ ?_ h
    · rintro _ _ ⟨s, hs, rfl⟩ ⟨t, ht, rfl⟩
      exact ⟨s + t, fun h => add_nonneg (hs h) (ht h), by rw [add_smul]⟩
    · rintro _ s hs ⟨t, ht, rfl⟩
      exact ⟨s * t, fun h => mul_nonneg hs (ht h), by rw [mul_smul]⟩
    · intro p hp
      rw [eqRows, List.mem_filter] at hp
      obtain ⟨h1, h2⟩ := hp
      simp only [List.mem_singleton] at h1
      subst h1
      have h0 : p.at' 0 = 0 := by simpa using h2
      exact ⟨⟨1, fun h => absurd h0 h, by simp⟩, ⟨-1, fun h => absurd h0 h, by simp⟩⟩
    · intro p hp
      rw [ineqRows, List.mem_filter] at hp
      obtain ⟨h1, h2⟩ := hp
      simp only [List.mem_singleton] at h1
      subst h1
      exact ⟨1, fun _ => zero_le_one, by simp⟩
  · rintro ⟨t, ht, rfl⟩
    by_cases h0 : q.at' 0 = 0
    · have hm : q ∈ eqRows [q] := by rw [eqRows, List.mem_filter]; simp [h0]
      rcases le_total 0 t with h | h
      · exact (Gen.of_line hm).smul h
      · have := (Gen.of_neg_line (K := ℚ) (rays := ineqRows [q]) (d := n + 1) hm).smul (neg_nonneg.2 h)
        rw [smul_neg, neg_smul, _root_.neg_neg] at this
        exact this
    · have hm : q ∈ ineqRows [q] := by rw [ineqRows, List.mem_filter]; simp [h0]
      exact (Gen.of_ray hm).smul (ht h0)

/-- the direction written in an expression -/
def dirVec (n : ℕ) (e : Linexpr ℚ) : Fin n → ℚ := fun d => ((e.terms.filter fun p => p.1 = (d : ℕ)).map fun p => numref p.2.sup).sum

theorem termSum_single {ts : List (ITerm ℚ)} (hd : ∀ t ∈ ts, t.dim < n) (d : Fin n) :
    termSum ts (ext (Pi.single d 1 : Fin n → ℚ)) = ((ts.filter fun t => t.dim = (d : ℕ)).map fun t => numref t.itv.sup).sum := by
  induction ts with
  | nil => simp [termSum]
  | cons t ts ih =>
    have ih' := ih (fun t ht => hd t (by simp [ht]))
    have e : termSum (t :: ts) (ext (Pi.single d 1 : Fin n → ℚ)) = numref t.itv.sup * ext (Pi.single d 1 : Fin n → ℚ) t.dim +
        termSum ts (ext (Pi.single d 1 : Fin n → ℚ)) := by simp [termSum]
    rw [e, ih']
    have ht : ext (Pi.single d 1 : Fin n → ℚ) t.dim = if t.dim = (d : ℕ) then 1 else 0 := by
      rw [Poly.ext, dif_pos (hd t (by simp)), Pi.single_apply]
      simp [Fin.ext_iff]
    rw [ht]
    by_cases h : t.dim = (d : ℕ)
    · simp [h]
    · simp [h]

theorem ofAp_dirVec {e : Linexpr ℚ} (hn : e.Numeric) (d : Fin n) :
    ((((ILinexpr.ofAp Rnd.exact e).terms.filter fun t => t.dim = (d : ℕ)).map fun t => numref t.itv.sup).sum : ℚ) = dirVec n e d := by
  rw [dirVec, ILinexpr.ofAp]
  dsimp only
  have h2 := hn.2
  generalize e.terms = l at h2
  induction l with
  | nil => simp
  | cons p l ih =>
    obtain ⟨a, ha⟩ := h2 p (by simp)
    have ih' := ih (fun p hp => h2 p (by simp [hp]))
    have e1 : (ITerm.ofCoeff Rnd.exact p) = ⟨p.1, true, Itv.point a⟩ := by
      rw [ITerm.ofCoeff, ha, (setAp_scalar a).1, (setAp_scalar a).2]
    have e2 : numref p.2.sup = a := by rw [ha]; rfl
    rw [List.map_cons, e1]
    by_cases hz : a = 0
    · have : (Itv.point a : Itv ℚ).isZero = true := isZero_point.2 hz
      rw [List.filter_cons, if_neg (by simp [this]), ih']
      by_cases hd : p.1 = (d : ℕ)
      · simp [hd, e2, hz]
      · simp [hd]
    · have : (Itv.point a : Itv ℚ).isZero = false := by
        rw [Bool.eq_false_iff]; intro h; exact hz (isZero_point.1 h)
      rw [List.filter_cons, if_pos (by simp [this])]
      by_cases hd : p.1 = (d : ℕ)
      · rw [List.filter_cons, if_pos (by simpa using hd), List.filter_cons, if_pos (by simpa using hd), List.map_cons, List.map_cons,
          List.sum_cons, List.sum_cons, ih', e2]
        rfl
      · rw [List.filter_cons, if_neg (by simpa using hd), List.filter_cons, if_neg (by simpa using hd), ih']

/-- the row of a generator: a positive multiple of its direction -/
theorem toV_setGenerator {g : GenTyp} {e : Linexpr ℚ} (hd : e.InDim n) (hn : e.Numeric) :
    ((setGenerator n g (ILinexpr.ofAp Rnd.exact e)).at' 0 = if g = .line ∨ g = .linemod then 0 else 1) ∧
    (setGenerator n g (ILinexpr.ofAp Rnd.exact e)).at' 1 = 0 ∧
    ∃ s : ℚ, 0 < s ∧ toV ℚ (n + 1) (setGenerator n g (ILinexpr.ofAp Rnd.exact e)) = s • (Fin.cons 0 (dirVec n e) : Fin (n + 1) → ℚ) := by
  set E := ILinexpr.ofAp Rnd.exact e with hE
  set c := numref E.cst.sup with hc
  obtain ⟨hlt, hnd⟩ := ofAp_dims hd
  rw [setGenerator, ← hc]
  set v := (setLinexpr n c E.terms).setStatus (if g = .line ∨ g = .linemod then 0 else 1) with hv
  set w := Row.ofFun (n + 2) fun j => if j = 1 then 0 else v.at' j with hw
  obtain ⟨a, gg, hg, h⟩ := normalize_spec w (n + 2) (fun j hj => by rw [hw, at_ofFun, if_neg (by omega)])
  have hg' : (0 : ℚ) < gg := by exact_mod_cast hg
  have hden : (0 : ℚ) < exprDen c E.terms := by exact_mod_cast exprDen_pos c _
  have hdvd := dvd_foldl_lcm (fun t : ITerm ℚ => (numref t.itv.sup).den) E.terms c.den
  have hw1 : w.at' 1 = 0 := by rw [hw, at_ofFun, if_pos (by omega), if_pos rfl]
  have hn1 : (Apron.Poly.normalize w (n + 2)).at' 1 = 0 := by
    have := h 0
    rw [zero_add, hw1] at this
    rcases mul_eq_zero.1 this with h' | h'
    · exact absurd h' hg.ne'
    · exact h'
  refine ⟨?_, hn1, exprDen c E.terms / gg, div_pos hden hg', ?_⟩
  · rw [a, hw, at_ofFun, if_pos (by omega), if_neg (by omega), hv, at_setStatus_zero]
  · funext j
    refine Fin.cases ?_ (fun d => ?_) j
    · rw [toV_zero, hn1]; simp
    · have h1 := h (d + 1)
      have h2 : w.at' (d + 1 + 1) = exprCoef (exprDen c E.terms) E.terms d := by
        rw [hw, at_ofFun, if_pos (by omega), if_neg (by omega), hv, at_setStatus_succ, setLinexpr, at_ofFun, if_pos (by omega)]
      have h3 : (exprCoef (exprDen c E.terms) E.terms d : ℚ) = exprDen c E.terms * dirVec n e d := by
        have := (sum_exprCoef (exprDen c E.terms) (Pi.single d 1 : Fin n → ℚ) E.terms hdvd.2 hlt hnd).1
        rw [Finset.sum_eq_single d, Pi.single_eq_same, mul_one, termSum_single hlt d, ofAp_dirVec hn d] at this
        · exact this
        · intro b _ hb; rw [Pi.single_eq_of_ne hb, mul_zero]
        · intro hd; exact absurd (Finset.mem_univ _) hd
      have h4 : ((w.at' (d + 1 + 1) : ℤ) : ℚ) = gg * (Apron.Poly.normalize w (n + 2)).at' (d + 1 + 1) := by rw [← h1]; push_cast; rfl
      rw [h2, h3] at h4
      have e1 : toV ℚ (n + 1) (Apron.Poly.normalize w (n + 2)) d.succ = (Apron.Poly.normalize w (n + 2)).at' (d + 1 + 1) := by simp [toV]
      rw [e1, Pi.smul_apply, Fin.cons_succ, smul_eq_mul]
      field_simp
      linarith

/-- the directions of a list of generators -/
def genDirs (n : ℕ) (l : List (GenTyp × Linexpr ℚ)) : List (Bool × (Fin n → ℚ)) :=
  l.map fun g => (decide (g.1 = .ray ∨ g.1 = .raymod), dirVec n g.2)

theorem genM_gens {l : List (GenTyp × Linexpr ℚ)} (hl : ∀ g ∈ l, g.1 ≠ .vertex ∧ g.2.InDim n ∧ g.2.Numeric) (y : Fin (n + 1) → ℚ) :
    GenM (l.map fun g => setGenerator n g.1 (ILinexpr.ofAp Rnd.exact g.2)) y ↔
      ∃ v : Fin n → ℚ, y = Fin.cons 0 v ∧ Comb (genDirs n l) v := by
  induction l generalizing y with
  | nil =>
    simp only [List.map_nil, genDirs, Comb]
    constructor
    · intro h
      have : y = 0 := by
        refine Gen.le (G := fun y => y = (0 : Fin (n + 1) → ℚ)) ⟨rfl, ?_, ?_⟩ (by simp [eqRows]) (by simp [ineqRows]) h
        · rintro _ _ rfl rfl; exact add_zero _
        · rintro _ _ _ rfl; exact smul_zero _
      refine ⟨0, ?_, rfl⟩
      rw [this]; funext j; refine Fin.cases ?_ (fun d => ?_) j <;> simp
    · rintro ⟨v, rfl, rfl⟩
      have : (Fin.cons 0 (0 : Fin n → ℚ) : Fin (n + 1) → ℚ) = 0 := by
        funext j; refine Fin.cases ?_ (fun d => ?_) j <;> simp
      rw [this]; exact Gen.zero
  | cons g l ih =>
    have ih' := ih (fun g hg => hl g (by simp [hg]))
    obtain ⟨hv, hd, hn⟩ := hl g (by simp)
    obtain ⟨h0, _, s, hs, hto⟩ := toV_setGenerator (g := g.1) hd hn
    rw [List.map_cons, ← List.singleton_append, genM_append_iff]
    have hgray : (setGenerator n g.1 (ILinexpr.ofAp Rnd.exact g.2)).at' 0 ≠ 0 ↔ (g.1 = .ray ∨ g.1 = .raymod) := by
      rw [h0]
      cases hg : g.1 <;> simp_all
    have hcomb : ∀ v, Comb (genDirs n (g :: l)) v ↔ ∃ t : ℚ, (g.1 = .ray ∨ g.1 = .raymod → 0 ≤ t) ∧ Comb (genDirs n l) (v - t • dirVec n g.2) := by
      intro v; simp [genDirs, Comb]
    constructor
    · rintro ⟨u, w, h1, h2, rfl⟩
      rw [genM_single, hgray] at h1
      obtain ⟨t, ht, rfl⟩ := h1
      obtain ⟨v, rfl, hc⟩ := (ih' w).1 h2
      refine ⟨(t * s) • dirVec n g.2 + v, ?_, ?_⟩
      · rw [hto, smul_smul]
        funext j; refine Fin.cases ?_ (fun d => ?_) j <;> simp
      · rw [hcomb]
        exact ⟨t * s, fun h => mul_nonneg (ht h) hs.le, by rwa [add_sub_cancel_left]⟩
    · rintro ⟨v, rfl, hc⟩
      rw [hcomb] at hc
      obtain ⟨t, ht, hc⟩ := hc
      refine ⟨(t / s) • toV ℚ (n + 1) (setGenerator n g.1 (ILinexpr.ofAp Rnd.exact g.2)), Fin.cons 0 (v - t • dirVec n g.2), ?_, (ih' _).2 ⟨_, rfl, hc⟩, ?_⟩
      · rw [genM_single, hgray]
        exact ⟨t / s, fun h => div_nonneg (ht h) hs.le, rfl⟩
      · rw [hto, smul_smul, div_mul_cancel₀ _ hs.ne']
        funext j; refine Fin.cases ?_ (fun d => ?_) j <;> simp

theorem addRays_spec {lzy : Bool} {pa : Rep} (ha : pa.Wf ℚ n) {l : List (GenTyp × Linexpr ℚ)}
    (hl : ∀ g ∈ l, g.1 ≠ .vertex ∧ g.2.InDim n ∧ g.2.Numeric) :
    ∃ r, pa.addRays n lzy l = some r ∧ r.Wf ℚ n ∧
      ∀ x : Fin n → ℚ, r.γ x ↔ ∃ x0 : Fin n → ℚ, pa.γ x0 ∧ Comb (genDirs n l) (x - x0) := by
  rw [Rep.addRays, Rep.addRayRows]
  set p := if lzy = true then pa.obtainF n else pa.chernikova n with hp
  have hpw : p.Wf ℚ n := by rw [hp]; split_ifs; exacts [obtainF_wf ha, chernikova_wf ha]
  have hpγ : ∀ x : Fin n → ℚ, p.γ x ↔ pa.γ x := by
    intro x; rw [hp]; split_ifs; exacts [obtainF_γ ha x, chernikova_γ ha x]
  by_cases hbot : p = .bot
  · rw [if_pos hbot]
    refine ⟨p, rfl, hpw, fun x => ⟨fun hx => ?_, ?_⟩⟩
    · rw [hbot] at hx; exact False.elim hx
    · rintro ⟨x0, h0, _⟩
      have := (hpγ x0).2 h0
      rw [hbot] at this; exact False.elim this
  · rw [if_neg hbot]
    obtain ⟨F, hF⟩ : ∃ F, p.F? = some F := by
      cases hF : p.F? with
      | some F => exact ⟨F, rfl⟩
      | none =>
        exfalso; apply hbot
        rw [hp] at hF ⊢
        split_ifs at hF ⊢
        exacts [obtainF_none hF, chernikova_F_none hF]
    have hs : lzy = false → ∃ f, p = .both f := by
      intro hz
      rw [hp, hz] at hbot ⊢
      rcases chernikova_shape n pa with e | ⟨f, e⟩
      · exact absurd e hbot
      · exact ⟨f, e⟩
    set rows := l.map fun g => setGenerator n g.1 (ILinexpr.ofAp Rnd.exact g.2) with hrows
    have hperm := sortRows_perm (n + 2) rows
    obtain ⟨r, h1, h2, _, h3⟩ := meetMatrix_gens (K := ℚ) hpw hF hs (sortRows (n + 2) rows) (fun q hq => by
      rw [hperm.mem_iff, hrows, List.mem_map] at hq
      obtain ⟨g, hg, rfl⟩ := hq
      exact (toV_setGenerator (hl g hg).2.1 (hl g hg).2.2).2.1)
    refine ⟨r, h1, h2, fun x => ?_⟩
    rw [h3]
    constructor
    · rintro ⟨x0, hx0, v, hv, e⟩
      rw [GenM.perm hperm, genM_gens hl] at hv
      obtain ⟨w, rfl, hc⟩ := hv
      refine ⟨x0, (hpγ x0).1 hx0, ?_⟩
      have : x - x0 = w := by
        funext d
        have := congrFun e d.succ
        simp [hom] at this
        simp [this]
      rwa [this]
    · rintro ⟨x0, hx0, hc⟩
      refine ⟨x0, (hpγ x0).2 hx0, Fin.cons 0 (x - x0), ?_, ?_⟩
      · rw [GenM.perm hperm, genM_gens hl]; exact ⟨_, rfl, hc⟩
      · funext j; refine Fin.cases ?_ (fun d => ?_) j <;> simp [hom]

/-! ## Boxes -/

theorem dot_dimBound (mode : ℤ) (b : ℤ × ℤ) {d : ℕ} (hd : d < n) (x : Fin n → ℚ) :
    dot (dimBoundRow n mode d b) (hom x) = b.1 + ((if 0 ≤ mode then -b.2 else b.2 : ℤ) : ℚ) * x ⟨d, hd⟩ := by
  rw [dot_hom, dimBoundRow, at_ofFun, if_pos (by omega), if_neg (by omega), if_pos rfl, Finset.sum_eq_single ⟨d, hd⟩]
  · rw [at_ofFun, if_pos (by dsimp only; omega), if_neg (by omega), if_neg (by omega), if_pos rfl]
  · intro j _ hj
    rw [at_ofFun, if_pos (by omega), if_neg (by omega), if_neg (by omega), if_neg]
    · simp
    · intro h; apply hj; apply Fin.ext; dsimp only; omega
  · intro h; exact absurd (Finset.mem_univ _) h

theorem dimBoundRow_zero (mode : ℤ) (b : ℤ × ℤ) (d : ℕ) : (dimBoundRow n mode d b).at' 0 = if mode = 0 then 0 else 1 := by
  rw [dimBoundRow, at_ofFun, if_pos (by omega), if_pos rfl]

/-- meaning of the three kinds of rows -/
theorem rowSat_dimBound (b : ℤ × ℤ) {d : ℕ} (hd : d < n) (x : Fin n → ℚ) :
    (RowSat (dimBoundRow n 1 d b) x ↔ b.2 * x ⟨d, hd⟩ ≤ b.1) ∧
    (RowSat (dimBoundRow n (-1) d b) x ↔ - (b.2 * x ⟨d, hd⟩) ≤ b.1) ∧
    (RowSat (dimBoundRow n 0 d b) x ↔ b.2 * x ⟨d, hd⟩ = b.1) := by
  refine ⟨?_, ?_, ?_⟩
  · rw [RowSat, dot_dimBound 1 b hd, dimBoundRow_zero, if_pos (by norm_num), if_neg (by norm_num)]
    push_cast
    constructor
    · rintro ⟨h, _⟩; linarith
    · intro h; exact ⟨by linarith, fun h => by simp at h⟩
  · rw [RowSat, dot_dimBound (-1) b hd, dimBoundRow_zero, if_neg (by norm_num), if_neg (by norm_num)]
    constructor
    · rintro ⟨h, _⟩; linarith
    · intro h; exact ⟨by linarith, fun h => by simp at h⟩
  · rw [RowSat, dot_dimBound 0 b hd, dimBoundRow_zero, if_pos le_rfl, if_pos rfl]
    push_cast
    constructor
    · rintro ⟨_, h⟩; have := h (by simp); linarith
    · intro h; exact ⟨by linarith, fun _ => by linarith⟩

theorem den_mul_le {q y : ℚ} : (q.den : ℤ) * y ≤ q.num ↔ y ≤ q := by
  have hden : (0 : ℚ) < q.den := by exact_mod_cast q.den_pos
  have hnum : q.den * q = q.num := by rw [mul_comm]; exact Rat.mul_den_eq_num q
  rw [← hnum]; push_cast
  exact mul_le_mul_iff_right₀ hden

theorem den_mul_eq {q y : ℚ} : (q.den : ℤ) * y = q.num ↔ y = q := by
  have hden : (0 : ℚ) < q.den := by exact_mod_cast q.den_pos
  have hnum : q.den * q = q.num := by rw [mul_comm]; exact Rat.mul_den_eq_num q
  rw [← hnum]; push_cast
  exact mul_right_inj' hden.ne'

theorem setDimBound_sound {intdim : ℕ} {d : ℕ} (hd : d < n) {x : Fin n → ℚ} (hx : IntPt intdim x) (q : ℚ) :
    (x ⟨d, hd⟩ ≤ q → ∀ r ∈ setDimBound n intdim 1 d q, RowSat r x) ∧
    (- x ⟨d, hd⟩ ≤ q → ∀ r ∈ setDimBound n intdim (-1) d q, RowSat r x) ∧
    (x ⟨d, hd⟩ = q → ∃ r, setDimBound n intdim 0 d q = some r ∧ RowSat r x) := by
  refine ⟨fun h r hr => ?_, fun h r hr => ?_, fun h => ?_⟩
  · rw [setDimBound, Option.mem_def, Option.map_eq_some_iff] at hr
    obtain ⟨b, hb, rfl⟩ := hr
    rw [(rowSat_dimBound b hd x).1]
    by_cases h1 : d < intdim
    · simp only [dimBoundVal, h1, decide_true, if_true, zero_lt_one, Option.some.injEq] at hb
      subst hb
      obtain ⟨m, hm⟩ := hx ⟨d, hd⟩ h1
      rw [hm] at h ⊢
      have := Int.le_floor.2 h
      push_cast
      rw [one_mul]
      exact_mod_cast this
    · simp only [dimBoundVal, h1, decide_false, Bool.false_eq_true, if_false, Option.some.injEq] at hb
      subst hb
      exact den_mul_le.2 h
  · rw [setDimBound, Option.mem_def, Option.map_eq_some_iff] at hr
    obtain ⟨b, hb, rfl⟩ := hr
    rw [(rowSat_dimBound b hd x).2.1]
    by_cases h1 : d < intdim
    · have h2 : ¬ ((0 : ℤ) < -1) := by norm_num
      have h3 : ((-1 : ℤ) < 0) := by norm_num
      simp only [dimBoundVal, h1, decide_true, if_true, h2, h3, if_false, Option.some.injEq] at hb
      subst hb
      have := Int.le_ceil q
      push_cast
      linarith
    · simp only [dimBoundVal, h1, decide_false, Bool.false_eq_true, if_false, Option.some.injEq] at hb
      subst hb
      rw [← mul_neg]
      exact den_mul_le.2 h
  · have hb : dimBoundVal (decide (d < intdim)) 0 q = some (q.num, (q.den : ℤ)) := by
      rw [dimBoundVal]
      by_cases h1 : d < intdim
      · obtain ⟨m, hm⟩ := hx ⟨d, hd⟩ h1
        rw [h] at hm
        have h3 : q.den = 1 := by rw [hm]; simp
        simp [h1, h3]
      · simp [h1]
    refine ⟨_, by rw [setDimBound, hb]; rfl, ?_⟩
    rw [(rowSat_dimBound _ hd x).2.2]
    exact den_mul_eq.2 h

theorem dimBoundVal_real (mode : ℤ) (d : ℕ) (q : ℚ) : setDimBound n 0 mode d q = some (dimBoundRow n mode d (q.num, q.den)) := by
  simp [setDimBound, dimBoundVal]

theorem setDimBound_exact {d : ℕ} (hd : d < n) (x : Fin n → ℚ) (q : ℚ) :
    (∀ r ∈ setDimBound n 0 1 d q, RowSat r x → x ⟨d, hd⟩ ≤ q) ∧
    (∀ r ∈ setDimBound n 0 (-1) d q, RowSat r x → - x ⟨d, hd⟩ ≤ q) ∧
    (∀ r ∈ setDimBound n 0 0 d q, RowSat r x → x ⟨d, hd⟩ = q) := by
  refine ⟨fun r hr hs => ?_, fun r hr hs => ?_, fun r hr hs => ?_⟩ <;>
    rw [dimBoundVal_real, Option.mem_some_iff] at hr <;> subst hr
  · exact den_mul_le.1 ((rowSat_dimBound _ hd x).1.1 hs)
  · have := (rowSat_dimBound _ hd x).2.1.1 hs
    rw [← mul_neg] at this
    exact den_mul_le.1 this
  · exact den_mul_eq.1 ((rowSat_dimBound _ hd x).2.2.1 hs)

theorem setDimBound_some (n : ℕ) (mode : ℤ) (d : ℕ) (q : ℚ) :
    ∃ r, setDimBound n 0 mode d q = some r := ⟨_, dimBoundVal_real mode d q⟩

theorem boxRows_sound {intdim d : ℕ} (hd : d < n) {x : Fin n → ℚ} (hx : IntPt intdim x) {i : Itv ℚ} (h : x ⟨d, hd⟩ ∈ i) :
    ∃ l, boxRows n intdim d i = some l ∧ ∀ r ∈ l, RowSat r x := by
  rw [boxRows]
  by_cases h1 : i.isPoint = true
  · rw [if_pos h1]
    obtain ⟨a, rfl⟩ := Itv.isPoint_iff.1 h1
    rw [Itv.mem_point] at h
    obtain ⟨r, hr, hs⟩ := (setDimBound_sound hd hx a).2.2 h
    exact ⟨[r], by rw [show numref (Itv.point a : Itv ℚ).sup = a from rfl, hr]; rfl, by simpa using hs⟩
  · rw [if_neg h1]
    refine ⟨_, rfl, fun r hr => ?_⟩
    rw [List.mem_append] at hr
    rcases hr with hr | hr
    · split_ifs at hr with h2
      · simp at hr
      · obtain ⟨b, hb⟩ : ∃ b, i.inf = fin b := by
          cases hi : i.inf <;> rw [hi] at h2 <;> simp [infty] at h2 ⊢
        rw [hb] at hr
        have := h.1
        rw [hb, Bound.fin_le_fin] at this
        exact (setDimBound_sound hd hx b).2.1 this r (by simpa [numref] using hr)
    · split_ifs at hr with h2
      · simp at hr
      · obtain ⟨b, hb⟩ : ∃ b, i.sup = fin b := by
          cases hi : i.sup <;> rw [hi] at h2 <;> simp [infty] at h2 ⊢
        rw [hb] at hr
        have := h.2
        rw [hb, Bound.fin_le_fin] at this
        exact (setDimBound_sound hd hx b).1 this r (by simpa [numref] using hr)

theorem boxRows_exact {d : ℕ} (hd : d < n) {x : Fin n → ℚ} {i : Itv ℚ} (hi : i.inf ≠ ninf) (hs : i.sup ≠ ninf) :
    ∃ l, boxRows n 0 d i = some l ∧ ((∀ r ∈ l, RowSat r x) → x ⟨d, hd⟩ ∈ i) := by
  rw [boxRows]
  by_cases h1 : i.isPoint = true
  · rw [if_pos h1]
    obtain ⟨a, rfl⟩ := Itv.isPoint_iff.1 h1
    obtain ⟨r, hr⟩ := setDimBound_some n 0 d a
    refine ⟨[r], by rw [show numref (Itv.point a : Itv ℚ).sup = a from rfl, hr]; rfl, fun h => ?_⟩
    rw [Itv.mem_point]
    exact (setDimBound_exact hd x a).2.2 r hr (h r (by simp))
  · rw [if_neg h1]
    refine ⟨_, rfl, fun h => ⟨?_, ?_⟩⟩
    · cases hc : i.inf with
      | ninf => exact absurd hc hi
      | pinf => simp
      | fin b =>
        obtain ⟨r, hr⟩ := setDimBound_some n (-1) d b
        rw [Bound.fin_le_fin]
        refine (setDimBound_exact hd x b).2.1 r hr (h r ?_)
        simp [hc, infty, numref, hr]
    · cases hc : i.sup with
      | ninf => exact absurd hc hs
      | pinf => simp
      | fin b =>
        obtain ⟨r, hr⟩ := setDimBound_some n 1 d b
        rw [Bound.fin_le_fin]
        refine (setDimBound_exact hd x b).1 r hr (h r ?_)
        simp [hc, infty, numref, hr]

theorem forall₂_left {A B : Type*} {R : A → B → Prop} {l : List A} {m : List B} (h : List.Forall₂ R l m) {a : A} (ha : a ∈ l) :
    ∃ b, b ∈ m ∧ R a b := by
  induction h with
  | nil => simp at ha
  | cons h _ ih =>
    rw [List.mem_cons] at ha
    rcases ha with rfl | ha
    · exact ⟨_, by simp, h⟩
    · obtain ⟨b, hb, e⟩ := ih ha; exact ⟨b, by simp [hb], e⟩

theorem forall₂_right {A B : Type*} {R : A → B → Prop} {l : List A} {m : List B} (h : List.Forall₂ R l m) {b : B} (hb : b ∈ m) :
    ∃ a, a ∈ l ∧ R a b := by
  induction h with
  | nil => simp at hb
  | cons h _ ih =>
    rw [List.mem_cons] at hb
    rcases hb with rfl | hb
    · exact ⟨_, by simp, h⟩
    · obtain ⟨a, ha, e⟩ := ih hb; exact ⟨a, by simp [ha], e⟩

theorem mapM_some {A B : Type*} {f : A → Option B} : ∀ {l : List A} {m : List B}, l.mapM f = some m →
    List.Forall₂ (fun a b => f a = some b) l m := by
  intro l
  induction l with
  | nil => intro m h; simp at h; subst h; exact .nil
  | cons a l ih =>
    intro m h
    rw [List.mapM_cons] at h
    cases hf : f a with
    | none => rw [hf] at h; simp at h
    | some b =>
      rw [hf] at h
      cases hl : l.mapM f with
      | none => rw [hl] at h; simp at h
      | some m' => rw [hl] at h; simp at h; subst h; exact .cons hf (ih hl)

theorem mapM_none {A B : Type*} {f : A → Option B} : ∀ {l : List A}, l.mapM f = none → ∃ a ∈ l, f a = none := by
  intro l
  induction l with
  | nil => intro h; simp at h
  | cons a l ih =>
    intro h
    rw [List.mapM_cons] at h
    cases hf : f a with
    | none => exact ⟨a, by simp, hf⟩
    | some b =>
      rw [hf] at h
      cases hl : l.mapM f with
      | none => obtain ⟨c, hc, e⟩ := ih hl; exact ⟨c, by simp [hc], e⟩
      | some m' => rw [hl] at h; simp at h

theorem ofBox_wf (n intdim : ℕ) (box : ℕ → Itv ℚ) : (Rep.ofBox n intdim box).Wf ℚ n := by
  rw [Rep.ofBox]
  split
  · trivial
  · exact cons_wf (by simp)

theorem rowSat_posRow (x : Fin n → ℚ) : RowSat (posRow n) x := by
  have e : dot (posRow n) (hom x) = 1 := by
    rw [dot_hom]
    have h1 : (posRow n).at' 1 = 1 := by rw [posRow, at_ofFun]; simp
    rw [h1, Finset.sum_eq_zero]
    · simp
    · intro d _; rw [posRow, at_ofFun]; simp
  refine ⟨by rw [e]; exact zero_le_one, fun h => ?_⟩
  have h0 : (posRow n).at' 0 = 1 := by rw [posRow, at_ofFun]; simp
  rw [h0] at h; exact absurd h one_ne_zero

theorem ofBox_sound {intdim : ℕ} {box : ℕ → Itv ℚ} {x : Fin n → ℚ} (hx : IntPt intdim x) (h : ∀ d : Fin n, x d ∈ box d) :
    (Rep.ofBox n intdim box).γ x := by
  rw [Rep.ofBox]
  cases hm : (List.range n).mapM (fun d => boxRows n intdim d (box d)) with
  | none =>
    obtain ⟨d, hd, e⟩ := mapM_none hm
    rw [List.mem_range] at hd
    obtain ⟨l, hl, _⟩ := boxRows_sound hd hx (h ⟨d, hd⟩)
    rw [hl] at e; cases e
  | some l =>
    change Sat (posRow n :: l.flatten) (hom x)
    intro q hq
    rw [List.mem_cons] at hq
    rcases hq with rfl | hq
    · exact rowSat_posRow x
    · obtain ⟨m, hml, hqm⟩ := List.mem_flatten.1 hq
      obtain ⟨d, hd, e⟩ := forall₂_right (mapM_some hm) hml
      rw [List.mem_range] at hd
      obtain ⟨l', hl', hs⟩ := boxRows_sound hd hx (h ⟨d, hd⟩)
      rw [hl'] at e; cases e
      exact hs q hqm

theorem ofBox_exact {box : ℕ → Itv ℚ} (hb : ∀ d, d < n → (box d).inf ≠ ninf ∧ (box d).sup ≠ ninf) {x : Fin n → ℚ} :
    (Rep.ofBox n 0 box).γ x ↔ ∀ d : Fin n, x d ∈ box d := by
  refine ⟨fun h d => ?_, fun h => ofBox_sound (fun d hd => absurd hd (by omega)) h⟩
  rw [Rep.ofBox] at h
  cases hm : (List.range n).mapM (fun d => boxRows n 0 d (box d)) with
  | none => rw [hm] at h; exact False.elim h
  | some l =>
    rw [hm] at h
    obtain ⟨m, hml, e⟩ := forall₂_left (mapM_some hm) (List.mem_range.2 d.2)
    obtain ⟨l', hl', hs⟩ := boxRows_exact d.2 (x := x) (hb d d.2).1 (hb d d.2).2
    rw [hl'] at e; cases e
    refine hs fun r hr => ?_
    exact h r (List.mem_cons_of_mem _ (List.mem_flatten.2 ⟨_, hml, hr⟩))

end Apron.Poly
