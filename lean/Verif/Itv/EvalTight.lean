import Verif.Itv.QuasiLemmas

/-! # With exact arithmetic, evaluating a linear expression over a box gives its exact range -/

set_option autoImplicit false
set_option linter.unusedSectionVars false
set_option linter.ambiguousOpen false

namespace Apron
open Bound
variable {K : Type*} [LinearOrder K] [Field K] [IsStrictOrderedRing K]

namespace Itv

/-- the interval `d - r` -/
def shift (d : Itv K) (r : K) : Itv K :=
  ⟨Bound.add Rnd.exact d.inf (fin r), Bound.add Rnd.exact d.sup (fin (-r))⟩

theorem mem_shift {d : Itv K} {r y : K} : y ∈ shift d r ↔ y + r ∈ d := by
  obtain ⟨i, s⟩ := d
  simp only [shift, mem_def]
  refine and_congr ?_ ?_
  · cases i with
    | fin i =>
      simp only [Bound.add, Rnd.exact, fin_le_fin]
      constructor <;> intro h <;> linarith
    | _ => simp [Bound.add]
  · cases s with
    | fin i =>
      simp only [Bound.add, Rnd.exact, fin_le_fin]
      constructor <;> intro h <;> linarith
    | _ => simp [Bound.add]

theorem add_tight {a b d : Itv K} {x0 y0 : K} (hx : x0 ∈ a) (hy : y0 ∈ b)
    (hd : ∀ x y, x ∈ a → y ∈ b → x + y ∈ d) :
    (add Rnd.exact a b).inf ≤ d.inf ∧ (add Rnd.exact a b).sup ≤ d.sup := by
  constructor
  · refine Reach.add (reach_inf hx) (reach_inf hy) fun x y h1 h2 => ?_
    have := (hd _ _ h1 h2).1
    simpa [add_comm] using this
  · exact Reach.add (reach_sup hx) (reach_sup hy) fun x y h1 h2 => (hd _ _ h1 h2).2

theorem mulBound_tight {b d : Itv K} {x0 q : K} (hx : x0 ∈ b)
    (hd : ∀ x, x ∈ b → x * q ∈ d) :
    (mulBound Rnd.exact b (fin q)).inf ≤ d.inf ∧ (mulBound Rnd.exact b (fin q)).sup ≤ d.sup := by
  unfold mulBound
  split_ifs with h
  · constructor
    · refine Reach.mul (Q := (· = q)) (reach_inf hx) rfl fun x y h1 h2 => ?_
      have := (hd _ h1).1
      subst h2; simpa using this
    · exact Reach.mul (Q := (· = q)) (reach_sup hx) rfl fun x y h1 h2 => by
        subst h2; exact (hd _ h1).2
  · rw [neg_fin]
    constructor
    · refine Reach.mul (Q := (· = -q)) (reach_sup hx) rfl fun x y h1 h2 => ?_
      have := (hd _ h1).1
      subst h2; simpa using this
    · refine Reach.mul (Q := (· = -q)) (reach_inf hx) rfl fun x y h1 h2 => ?_
      have := (hd _ h1).2
      subst h2; simpa using this

/-- `a` is contained in `d` bound by bound -/
def LeB (a d : Itv K) : Prop := a.inf ≤ d.inf ∧ a.sup ≤ d.sup

theorem LeB.mem {a d : Itv K} (h : LeB a d) {x : K} (hx : x ∈ a) : x ∈ d :=
  mem_of_le h.1 h.2 hx

theorem leB_of_top {a d : Itv K} {r : K} (ht : a.isTop = true) {x0 : K} (hx : x0 ∈ a)
    (h : LeB a (shift d r)) : LeB a d := by
  obtain ⟨ai, as⟩ := a
  obtain ⟨di, ds⟩ := d
  simp only [isTop, Bool.and_eq_true] at ht
  obtain ⟨h1, h2⟩ := hx
  obtain ⟨h3, h4⟩ := h
  simp only [shift] at *
  cases ai <;> cases as <;> simp [infty] at ht h1 h2
  cases di <;> cases ds <;> simp [Bound.add, Rnd.exact] at h3 h4
  exact ⟨le_refl _, le_refl _⟩

end Itv

namespace ILinexpr
open Itv

theorem tval_congr {l : List (ITerm K)} {x y : ℕ → K} {r : K} (h : ∀ t ∈ l, x t.dim = y t.dim)
    (hv : TVal l x r) : TVal l y r := by
  induction l generalizing r with
  | nil => exact hv
  | cons t l ih =>
    obtain ⟨q, s, hq, hs, rfl⟩ := hv
    exact ⟨q, s, hq, ih (fun t ht => h t (by simp [ht])) hs, by rw [h t (by simp)]⟩

theorem tval_ne {l : List (ITerm K)} {x : ℕ → K} {r : K} (h : TVal l x r) :
    ∀ t ∈ l, ∃ q, q ∈ t.itv := by
  induction l generalizing r with
  | nil => simp
  | cons t l ih =>
    obtain ⟨q, s, hq, hs, rfl⟩ := h
    intro u hu
    rcases List.mem_cons.1 hu with rfl | hu
    · exact ⟨q, hq⟩
    · exact ih hs u hu

theorem evalStep_tight {env : ℕ → Itv K} {t : ITerm K} {acc d : Itv K} (hf : t.FlagOk)
    {a0 q0 y0 : K} (ha : a0 ∈ acc) (hq : q0 ∈ t.itv) (hy : y0 ∈ env t.dim)
    (hd : ∀ a q y, a ∈ acc → q ∈ t.itv → y ∈ env t.dim → a + q * y ∈ d) :
    LeB (evalStep Rnd.exact env t acc) d := by
  unfold evalStep
  split_ifs with h1 h2
  · have hp := hf h1 q0 hq
    have hs : t.itv.sup = fin q0 := by rw [hp]; rfl
    rw [hs]
    refine add_tight ha (Itv.mem_mulBound _ hy) fun a p h3 h4 => ?_
    have : LeB (mulBound Rnd.exact (env t.dim) (fin q0)) (shift d a) :=
      mulBound_tight hy fun y hy => by
        rw [mem_shift, add_comm, mul_comm]; exact hd a q0 y h3 hq hy
    have := this.mem h4
    rw [mem_shift] at this; rwa [add_comm]
  · have hp := hf h1 q0 hq
    have hs : t.itv.sup = fin q0 := by rw [hp]; rfl
    rw [hs] at h2
    push Not at h2
    rw [sgn_zero_iff] at h2
    simp only [fin.injEq] at h2
    refine ⟨Reach.le (reach_inf ha) fun z hz => ?_, Reach.le (reach_sup ha) fun z hz => ?_⟩
    · have := (hd _ _ _ hz hq hy).1
      rw [h2] at this; simpa using this
    · have := (hd _ _ _ hz hq hy).2
      rw [h2] at this; simpa using this
  · refine add_tight ha (Itv.mem_mul _ hy hq) fun a p h3 h4 => ?_
    have : LeB (Itv.mul Rnd.exact (env t.dim) t.itv) (shift d a) :=
      mul_tight hy hq fun y q hy hq => by
        rw [mem_shift, add_comm, mul_comm]; exact hd a q y h3 hq hy
    have := this.mem h4
    rw [mem_shift] at this; rwa [add_comm]

theorem evalTerms_tight {env : ℕ → Itv K} {l : List (ITerm K)} (hf : ∀ t ∈ l, t.FlagOk)
    (hne : ∀ t ∈ l, (∃ q, q ∈ t.itv)) (hdist : (l.map ITerm.dim).Nodup) {x0 : ℕ → K}
    (hx0 : ∀ i, (∃ t ∈ l, t.dim = i) → x0 i ∈ env i) {acc d : Itv K} {a0 : K} (ha : a0 ∈ acc)
    (hd : ∀ a r x, a ∈ acc → (∀ i, (∃ t ∈ l, t.dim = i) → x i ∈ env i) →
      (∀ i, (¬ ∃ t ∈ l, t.dim = i) → x i = x0 i) → TVal l x r → a + r ∈ d) :
    LeB (evalTerms Rnd.exact env l acc) d := by
  induction l generalizing acc d a0 with
  | nil =>
    simp only [evalTerms]
    refine ⟨Reach.le (reach_inf ha) fun z hz => ?_, Reach.le (reach_sup ha) fun z hz => ?_⟩
    · have := (hd _ 0 x0 hz (by simp) (by simp) rfl).1
      simpa using this
    · have := (hd _ 0 x0 hz (by simp) (by simp) rfl).2
      simpa using this
  | cons t l ih =>
    rw [List.map_cons, List.nodup_cons] at hdist
    have hnot : ∀ u ∈ l, u.dim ≠ t.dim := fun u hu h => hdist.1 (h ▸ List.mem_map_of_mem hu)
    obtain ⟨q0, hq0⟩ := hne t (by simp)
    have hy0 := hx0 t.dim ⟨t, by simp, rfl⟩
    -- for every value of the rest, one step is below `d - r`
    have key : ∀ r x, (∀ i, (∃ t ∈ l, t.dim = i) → x i ∈ env i) →
        (∀ i, (¬ ∃ t ∈ l, t.dim = i) → x i = x0 i) → TVal l x r →
        LeB (evalStep Rnd.exact env t acc) (shift d r) := by
      intro r x hx hxo hv
      refine evalStep_tight (hf t (by simp)) ha hq0 hy0 fun a q y h1 h2 h3 => ?_
      rw [mem_shift]
      have := hd a (q * y + r) (Function.update x t.dim y) h1 ?_ ?_ ?_
      · rwa [← add_assoc] at this
      · rintro i ⟨u, hu, rfl⟩
        rcases List.mem_cons.1 hu with rfl | hu
        · simpa using h3
        · rw [Function.update_of_ne (hnot u hu)]; exact hx _ ⟨u, hu, rfl⟩
      · intro i hi
        have h4 : i ≠ t.dim := fun h => hi ⟨t, by simp, h.symm⟩
        rw [Function.update_of_ne h4]
        exact hxo i fun ⟨u, hu, h⟩ => hi ⟨u, by simp [hu], h⟩
      · refine ⟨q, r, h2, tval_congr (fun u hu => ?_) hv, by simp⟩
        rw [Function.update_of_ne (hnot u hu)]
    have hs := mem_evalStep Rnd.exact (x := x0) (hf t (by simp)) ha hq0 hy0
    have hx0' : ∀ i, (∃ t ∈ l, t.dim = i) → x0 i ∈ env i := fun i ⟨u, hu, h⟩ =>
      hx0 i ⟨u, by simp [hu], h⟩
    unfold evalTerms
    split_ifs with htop
    · obtain ⟨r, hr⟩ : ∃ r, TVal l x0 r := by
        clear ih key hd hx0' hnot hdist
        induction l with
        | nil => exact ⟨0, rfl⟩
        | cons u l ih =>
          obtain ⟨q, hq⟩ := hne u (by simp)
          obtain ⟨r, hr⟩ := ih (fun v hv => hf v (by simp at hv ⊢; tauto))
            (fun v hv => hne v (by simp at hv ⊢; tauto))
            (fun i ⟨v, hv, h⟩ => hx0 i ⟨v, by simp at hv ⊢; tauto, h⟩)
          exact ⟨_, q, r, hq, hr, rfl⟩
      exact leB_of_top htop hs (key r x0 hx0' (fun _ _ => rfl) hr)
    · refine ih (fun u hu => hf u (by simp [hu])) (fun u hu => hne u (by simp [hu])) hdist.2 hx0' hs ?_
      intro a r x h1 h2 h3 h4
      have := (key r x h2 h3 h4).mem h1
      rwa [mem_shift] at this

/-- `itv_eval_ap_linexpr0` with exact arithmetic: every interval containing the values of the
expression on the box contains the result -/
theorem evalAp_tight {e : Linexpr K} {env : ℕ → Itv K} {dim : ℕ} (hdim : e.InDim dim) {x0 : ℕ → K}
    (hx0 : ∀ i < dim, x0 i ∈ env i) {v0 : K} (hv0 : e.Val x0 v0) {d : Itv K}
    (hd : ∀ x v, (∀ i < dim, x i ∈ env i) → e.Val x v → v ∈ d) :
    LeB (evalAp Rnd.exact e env) d := by
  obtain ⟨q0, r0, hq0, hr0, -⟩ := hv0
  have hin : ∀ i, (∃ t ∈ e.terms.map (ITerm.ofCoeff Rnd.exact), t.dim = i) → i < dim := by
    rintro i ⟨t, ht, rfl⟩
    simp only [List.mem_map] at ht
    obtain ⟨p, hp, rfl⟩ := ht
    exact hdim.2 _ (List.mem_map_of_mem hp)
  refine evalTerms_tight (x0 := x0) ?_ ?_ ?_ (fun i hi => hx0 i (hin i hi))
    (Itv.mem_setApCoeff _ hq0) ?_
  · intro t ht
    simp only [List.mem_map] at ht
    obtain ⟨p, _, rfl⟩ := ht
    exact ITerm.flagOk_ofCoeff _ p
  · exact fun t ht => tval_ne (tval_ofCoeff _ hr0) t ht
  · have : (e.terms.map (ITerm.ofCoeff Rnd.exact)).map ITerm.dim = e.terms.map Prod.fst := by
      rw [List.map_map]; rfl
    rw [this]
    exact hdim.1.imp fun h => ne_of_lt h
  · intro a r x ha hx hxo hv
    refine hd x (a + r) ?_ ⟨a, r, Itv.has_of_mem_setApCoeff ha, termsVal_of_tval hv, rfl⟩
    intro i hi
    by_cases h : ∃ t ∈ e.terms.map (ITerm.ofCoeff Rnd.exact), t.dim = i
    · exact hx i h
    · rw [hxo i h]; exact hx0 i hi

end ILinexpr
end Apron
