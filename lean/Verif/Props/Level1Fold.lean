import Verif.Core.FoldLemmas
import Verif.Props.Level1

/-!
# Properties of level-1 expansion and folding (C73, C74)
-/

set_option autoImplicit false
set_option linter.unusedSectionVars false
set_option linter.ambiguousOpen false

namespace Apron
namespace Props

open Env Abs1

variable {V : Type*} [LinearOrder V] {K A : Type*} [Zero K] {M : Man K A} {Ok : A → Prop} {ex : Prop}

/-! ## C73: expansion -/

/-- Expanding `var` into `var` and the new variables `tvar`: a valuation belongs to the result iff replacing
the value of `var` by that of any one of them yields a valuation of the argument.  The new variables have
the type of `var`.  If `var` is unknown, or the new names clash, an exception is raised and the result is
top, on the environment of the argument. -/
theorem C73_expand (S : M.Spec Ok ex) (Q : Qsort V) (junk : ℕ) (a : Abs1 V A) (ha : Abs1.Wf M Ok a) (var : V)
    (tvar : List V) (hsz : a.env.size + tvar.length ≤ dimMax) :
    (tvar = [] → expand M Q junk a var tvar = .ok (a, false)) ∧
    (tvar ≠ [] → (var ∉ a.env.vars ∨ ¬ tvar.Nodup ∨ ∃ v ∈ tvar, v ∈ a.env.vars) →
      expand M Q junk a var tvar = .ok (Abs1.top M a.env, true)) ∧
    (tvar ≠ [] → var ∈ a.env.vars → tvar.Nodup → (∀ v ∈ tvar, v ∉ a.env.vars) →
      ∃ r, expand M Q junk a var tvar = .ok (r, false) ∧ Abs1.Wf M Ok r ∧
        (∀ v, v ∈ r.env.ints ↔ v ∈ a.env.ints ∨ (var ∈ a.env.ints ∧ v ∈ tvar)) ∧
        (∀ v, v ∈ r.env.reals ↔ v ∈ a.env.reals ∨ (var ∈ a.env.reals ∧ v ∈ tvar)) ∧
        ∀ ρ : V → K, Gam M r ρ ↔ ∀ y ∈ var :: tvar, Gam M a (Function.update ρ var (ρ y))) := by
  obtain ⟨hd1, hd2⟩ := C48_dim_of_var a.env ha.env ha.size var
  have hnd0 : (a.env.ints ++ a.env.reals).Nodup := ha.env.nodup
  have hperm : ((a.env.ints ++ tvar) ++ (a.env.reals ++ [])).Perm ((a.env.ints ++ a.env.reals) ++ tvar) := by
    rw [List.append_nil, List.append_assoc, List.append_assoc]
    exact (List.perm_append_comm).append_left _
  have hiff : ((a.env.ints ++ a.env.reals) ++ tvar).Nodup ↔ tvar.Nodup ∧ ∀ v ∈ tvar, v ∉ a.env.vars := by
    rw [List.nodup_append]
    constructor
    · rintro ⟨_, h2, h3⟩
      exact ⟨h2, fun v hv hv' => h3 v hv' v hv rfl⟩
    · rintro ⟨h2, h3⟩
      exact ⟨hnd0, h2, fun v hv w hw e => h3 w hw (e ▸ hv)⟩
  have hiffI : ((a.env.ints ++ tvar) ++ (a.env.reals ++ [])).Nodup ↔
      tvar.Nodup ∧ ∀ v ∈ tvar, v ∉ a.env.vars := hperm.nodup_iff.trans hiff
  have hiffR : ((a.env.ints ++ []) ++ (a.env.reals ++ tvar)).Nodup ↔
      tvar.Nodup ∧ ∀ v ∈ tvar, v ∉ a.env.vars := by
    rw [List.append_nil, ← List.append_assoc]; exact hiff
  refine ⟨fun h => by rw [Abs1.expand, if_pos (by simp [h])], fun hne h => ?_, fun hne hv hn1 hn2 => ?_⟩
  · have hl : tvar.length ≠ 0 := by simpa using hne
    simp only [Abs1.expand]
    rw [if_neg hl]
    by_cases hv : var ∈ a.env.vars
    · have hbad : ¬ (tvar.Nodup ∧ ∀ v ∈ tvar, v ∉ a.env.vars) := by
        rintro ⟨b1, b2⟩
        rcases h with h | h | ⟨v, h1, h2⟩
        · exact h hv
        · exact h b1
        · exact b2 v h1 h2
      obtain ⟨k1, k2, k3, k4⟩ := hd1 hv
      have hs := ha.size
      rw [if_neg (by omega)]
      have n1 : add a.env tvar [] = none := by
        rcases e : add a.env tvar [] with _ | e'
        · rfl
        · exact absurd (hiffI.1 ((C46_add a.env tvar []).1.1 (by simp [e]))) hbad
      have n2 : add a.env [] tvar = none := by
        rcases e : add a.env [] tvar with _ | e'
        · rfl
        · exact absurd (hiffR.1 ((C46_add a.env [] tvar).1.1 (by simp [e]))) hbad
      split_ifs
      · rw [(C46_add_perm Q junk a.env tvar []).2 n1]
      · rw [(C46_add_perm Q junk a.env [] tvar).2 n2]
    · rw [if_pos (hd2.1 hv)]
  · have hl : tvar.length ≠ 0 := by simpa using hne
    obtain ⟨k1, k2, k3, k4⟩ := hd1 hv
    have hs := ha.size
    have hi : M.intdim a.val = a.env.intdim := ha.dims.1
    have hr : M.realdim a.val = a.env.realdim := ha.dims.2
    simp only [Abs1.expand]
    rw [if_neg hl, if_neg (by omega)]
    by_cases hint : dimOfVar a.env var < a.env.intdim
    · obtain ⟨e', he'⟩ := Option.isSome_iff_exists.1 ((C46_add a.env tvar []).1.2 (hiffI.2 ⟨hn1, hn2⟩))
      obtain ⟨w1, w2, w3, w4, w5⟩ := (C46_add a.env tvar []).2 e' he'
      obtain ⟨perm, p1, p2, p3, _⟩ := (C46_add_perm Q junk a.env tvar []).1 e' he'
      have hoff : M.off a.val (dimOfVar a.env var) = a.env.intdim := by rw [Man.off, hi, if_pos hint]
      have hsize : e'.size = a.env.size + tvar.length := by
        simp only [Env.size, w4, w5, List.length_nil]; omega
      obtain ⟨c1, c2, c3, c4, c5⟩ := expand_core S ha k2 (by omega) p2 p3 hsize
        (fun k hk => by
          rw [hoff, List.append_nil, List.getElem?_append_left (by simp [intdim]; omega),
            List.getElem?_append_right (by simp [intdim])]
          simp [intdim])
        (fun v hv' => by
          rw [hoff, List.append_nil]
          split_ifs with hlt
          · rw [List.getElem?_append_left (by simp [intdim] at hlt ⊢; omega),
              List.getElem?_append_left (by simpa [intdim] using hlt), vars_left _ hlt]
          · rw [List.getElem?_append_right (by simp [intdim] at hlt ⊢; omega)]
            obtain ⟨j, rfl⟩ := Nat.exists_eq_add_of_le (not_lt.1 hlt)
            rw [vars_right]
            congr 1
            simp [intdim]; omega)
      rw [if_pos hint, p1, c1]
      simp only [c2]
      rw [hi, if_pos hint, if_pos hint, hr] at c4
      have hvi := k3.1 hint
      have hvr : var ∉ a.env.reals := ha.env.disj var hvi
      refine ⟨_, rfl, ⟨w1, by simpa [hsize] using hsz, c3, ?_⟩, fun v => ?_, fun v => ?_, c5⟩
      · show M.Dims _ e'.intdim e'.realdim
        rw [w4, w5]; simpa using c4
      · show v ∈ e'.ints ↔ _
        rw [w2]; simp [hvi]
      · show v ∈ e'.reals ↔ _
        rw [w3]; simp [hvr]
    · obtain ⟨e', he'⟩ := Option.isSome_iff_exists.1 ((C46_add a.env [] tvar).1.2 (hiffR.2 ⟨hn1, hn2⟩))
      obtain ⟨w1, w2, w3, w4, w5⟩ := (C46_add a.env [] tvar).2 e' he'
      obtain ⟨perm, p1, p2, p3, _⟩ := (C46_add_perm Q junk a.env [] tvar).1 e' he'
      have hoff : M.off a.val (dimOfVar a.env var) = a.env.size := by
        rw [Man.off, hi, if_neg hint, ha.dim]
      have hsize : e'.size = a.env.size + tvar.length := by
        simp only [Env.size, w4, w5, List.length_nil]; omega
      obtain ⟨c1, c2, c3, c4, c5⟩ := expand_core S ha k2 (by omega) p2 p3 hsize
        (fun k hk => by
          rw [hoff, List.append_nil, ← List.append_assoc,
            List.getElem?_append_right (by simp [Env.size, intdim, realdim])]
          simp [Env.size, intdim, realdim])
        (fun v hv' => by
          rw [hoff, if_pos hv', List.append_nil, ← List.append_assoc,
            List.getElem?_append_left (by simp [Env.size, intdim, realdim] at hv' ⊢; omega)]
          rfl)
      rw [if_neg hint, p1, c1]
      simp only [c2]
      rw [hi, if_neg hint, if_neg hint, hr] at c4
      have hvi : var ∉ a.env.ints := fun h => hint (k3.2 h)
      have hvr : var ∈ a.env.reals := ((mem_vars _ _).1 hv).resolve_left hvi
      refine ⟨_, rfl, ⟨w1, by simpa [hsize] using hsz, c3, ?_⟩, fun v => ?_, fun v => ?_, c5⟩
      · show M.Dims _ e'.intdim e'.realdim
        rw [w4, w5]; simpa using c4
      · show v ∈ e'.ints ↔ _
        rw [w2]; simp [hvi]
      · show v ∈ e'.reals ↔ _
        rw [w3]; simp [hvr]

/-! ## C74: folding -/

theorem length_filter_notMem {l vs : List V} (hl : l.Nodup) (hv : vs.Nodup) (h : ∀ v ∈ vs, v ∈ l) :
    (l.filter fun v => decide (v ∉ vs)).length = l.length - vs.length := by
  have h1 : (l.filter fun v => decide (v ∈ vs)).Perm vs :=
    (List.perm_ext_iff_of_nodup (hl.filter _) hv).2 fun v => by
      rw [List.mem_filter, decide_eq_true_eq]
      exact ⟨fun h => h.2, fun h' => ⟨h v h', h'⟩⟩
  have h2 := List.length_eq_length_filter_add (l := l) (fun v => decide (v ∈ vs))
  have h3 : (l.filter fun v => !decide (v ∈ vs)) = l.filter fun v => decide (v ∉ vs) :=
    List.filter_congr fun v _ => by simp
  rw [h1.length_eq, h3] at h2
  omega

theorem length_filter_disj {l vs : List V} (h : ∀ v ∈ vs, v ∉ l) :
    (l.filter fun v => decide (v ∉ vs)).length = l.length := by
  rw [List.filter_eq_self.2]
  intro v hv
  simpa using fun h' => h v h' hv

theorem forall₂_nodup' {e : Env V} {l : List ℕ} {vs : List V}
    (h : List.Forall₂ (fun d v => varOfDim e d = some v) l vs) (hl : vs.Nodup) : l.Nodup := by
  induction h with
  | nil => exact List.nodup_nil
  | @cons d v l vs hd h ih =>
    rw [List.nodup_cons] at hl ⊢
    refine ⟨fun hm => hl.1 ?_, ih hl.2⟩
    clear ih hl
    induction h with
    | nil => simp at hm
    | @cons d' v' l vs hd' _ ih =>
      rcases List.mem_cons.1 hm with rfl | hm
      · rw [hd] at hd'; simp [Option.some.inj hd']
      · exact List.mem_cons_of_mem _ (ih hm)

/-- Folding the variables `v0 :: vs`, which are known, distinct and of the same type: the result is on the
environment without `vs`; it contains the valuations where `v0` takes the value of any one of the folded
variables, and is the least such value of the domain when it is exact.
Missing: repeated variables make the function abort (`C46_remove_duplicate_aborts`), and variables of
different types yield an ill-formed value (`C74_fold_mixed_types`). -/
theorem C74_fold_partial (S : M.Spec Ok ex) (a : Abs1 V A) (ha : Abs1.Wf M Ok a) (v0 : V) (vs : List V)
    (hne : vs ≠ []) :
    ((∃ v ∈ v0 :: vs, v ∉ a.env.vars) → Abs1.fold M a (v0 :: vs) = .ok (Abs1.top M a.env, true)) ∧
    ((∀ v ∈ v0 :: vs, v ∈ a.env.vars) → (v0 :: vs).Nodup →
      ((∀ v ∈ v0 :: vs, v ∈ a.env.ints) ∨ (∀ v ∈ v0 :: vs, v ∈ a.env.reals)) →
      ∃ r, Abs1.fold M a (v0 :: vs) = .ok (r, false) ∧ Abs1.Wf M Ok r ∧
        r.env = ⟨a.env.ints.filter fun v => decide (v ∉ vs), a.env.reals.filter fun v => decide (v ∉ vs)⟩ ∧
        (∀ (ρ : V → K) (u : V), Gam M a ρ → u ∈ v0 :: vs → Gam M r (Function.update ρ v0 (ρ u))) ∧
        (ex → ∀ c : Abs1 V A, Abs1.Wf M Ok c → c.env = r.env →
          (∀ (ρ : V → K) (u : V), Gam M a ρ → u ∈ v0 :: vs → Gam M c (Function.update ρ v0 (ρ u))) →
          ∀ ρ : V → K, Gam M r ρ → Gam M c ρ)) := by
  obtain ⟨w, ws, rfl⟩ := List.exists_cons_of_ne_nil hne
  generalize hvs : w :: ws = vs at *
  have hfold : Abs1.fold M a (v0 :: vs) = (
    if dimOfVar a.env v0 = dimMax then .ok (Abs1.top M a.env, true)
    else match remove a.env vs with
      | .null => .ok (Abs1.top M a.env, true)
      | .abort => .abort
      | .oob => .oob
      | .ok nenv =>
        match dimsOfVars a.env vs with
        | none => .ok (Abs1.top M a.env, true)
        | some ds =>
          match (dimOfVar a.env v0 :: ds).insertionSort (· ≤ ·) with
          | [] => .oob
          | t0 :: ts =>
            if dimOfVar a.env v0 = t0 then
              let r := Abs0.fold M a.val t0 ts
              .ok (⟨nenv, r.1⟩, r.2)
            else match bsearch (dimOfVar a.env v0) ts 0 ts.length with
              | none => .abort
              | some i =>
                (Out.ofOption (foldPerm nenv.size t0 (dimOfVar a.env v0) (i + 1))).bind fun perm =>
                  let r := Abs0.fold M a.val t0 ts
                  let r' := Abs0.permuteDimensions M r.1 perm
                  .ok (⟨nenv, r'.1⟩, r.2 || r'.2)) := by
    subst hvs; rfl
  clear hvs
  obtain ⟨hd1, hd2⟩ := C48_dim_of_var a.env ha.env ha.size v0
  obtain ⟨g1, g2⟩ := C46_remove_partial a.env ha.env ha.size vs
  have hs := ha.size
  have hi : M.intdim a.val = a.env.intdim := ha.dims.1
  have hr : M.realdim a.val = a.env.realdim := ha.dims.2
  refine ⟨fun ⟨v, hv, hv'⟩ => ?_, fun hk hnd hty => ?_⟩
  · rw [hfold]
    by_cases h0 : v0 ∈ a.env.vars
    · rw [if_neg (by have := (hd1 h0).1; omega)]
      rcases List.mem_cons.1 hv with rfl | hv
      · exact absurd h0 hv'
      · rw [g2 ⟨v, hv, hv'⟩]
    · rw [if_pos (hd2.1 h0)]
  · rw [List.nodup_cons] at hnd
    obtain ⟨hn0, hnd⟩ := hnd
    have hkv : ∀ v ∈ vs, v ∈ a.env.vars := fun v hv => hk v (by simp [hv])
    obtain ⟨k1, k2, k3, k4⟩ := hd1 (hk v0 (by simp))
    obtain ⟨ds, e1, e2, -⟩ := (dimsOfVars_spec ha.env ha.size vs).1 hkv
    rw [hfold, if_neg (by omega), (g1 _).2 ⟨hkv, hnd, rfl⟩, e1]
    clear hfold
    simp only []
    generalize hdim0 : dimOfVar a.env v0 = dim at *
    generalize hnenv : (⟨a.env.ints.filter fun v => decide (v ∉ vs),
      a.env.reals.filter fun v => decide (v ∉ vs)⟩ : Env V) = nenv at *
    have hnwf : nenv.Wf := hnenv ▸ wf_filter ha.env _
    have hnv : ∀ v, v ∈ nenv.vars → v ∈ a.env.vars ∧ v ∉ vs := by
      intro v hv
      rw [← hnenv, mem_vars, List.mem_filter, List.mem_filter, decide_eq_true_eq] at hv
      rw [mem_vars]
      rcases hv with ⟨h1, h2⟩ | ⟨h1, h2⟩
      · exact ⟨Or.inl h1, h2⟩
      · exact ⟨Or.inr h1, h2⟩
    -- the dimensions
    have hdl : ds.length = vs.length := e2.length_eq
    have hmemds : ∀ d v, varOfDim a.env d = some v → (d ∈ ds ↔ v ∈ vs) := by
      intro d v hv
      rw [forall₂_mem e2]
      exact ⟨fun hd => ⟨d, hd, hv⟩, fun ⟨d', hd', hv'⟩ => varOfDim_inj ha.env hv hv' ▸ hd'⟩
    have hdsnd : ds.Nodup := forall₂_nodup' e2 hnd
    have hdn : dim ∉ ds := fun h => hn0 ((hmemds dim v0 k2).1 h)
    have hdslt : ∀ d ∈ ds, ∃ v ∈ vs, varOfDim a.env d = some v := by
      intro d0 hd0
      clear hmemds hdsnd hdn hnv hnenv g1 g2 e1 hdl hty hkv hk hnd hn0 hne
      revert d0
      induction e2 with
      | nil => simp
      | @cons d v ds vs hd _ ih =>
        intro d' hd'
        rcases List.mem_cons.1 hd' with rfl | hd'
        · exact ⟨v, by simp, hd⟩
        · obtain ⟨u, hu, h⟩ := ih d' hd'
          exact ⟨u, by simp [hu], h⟩
    have hnames : ∀ t ∈ dim :: ds, ∃ v ∈ v0 :: vs, varOfDim a.env t = some v := by
      intro t ht
      rcases List.mem_cons.1 ht with rfl | ht
      · exact ⟨v0, by simp, k2⟩
      · obtain ⟨v, h1, h2⟩ := hdslt t ht
        exact ⟨v, by simp [h1], h2⟩
    have hsp := List.perm_insertionSort (· ≤ ·) (dim :: ds)
    have hso : ((dim :: ds).insertionSort (· ≤ ·)).Pairwise (· ≤ ·) := List.pairwise_insertionSort _ _
    rcases hsort : (dim :: ds).insertionSort (· ≤ ·) with _ | ⟨t0, ts⟩
    · rw [hsort] at hsp
      exact absurd hsp.length_eq (by simp)
    simp only []
    rw [hsort] at hsp hso
    have hndt : (t0 :: ts).Nodup := hsp.nodup_iff.2 (List.nodup_cons.2 ⟨hdn, hdsnd⟩)
    have hst : (t0 :: ts).Pairwise (· < ·) := by
      have := List.pairwise_and_iff.2 ⟨hso, hndt⟩
      exact this.imp fun h => lt_of_le_of_ne h.1 h.2
    have hst' := List.pairwise_cons.1 hst
    have htsnd : ts.Nodup := (List.nodup_cons.1 hndt).2
    have hlen : ts.length = vs.length := by
      have := hsp.length_eq; simp only [List.length_cons] at this; omega
    have htne : ts ≠ [] := by
      intro e; rw [e] at hlen; exact hne (List.length_eq_zero_iff.1 hlen.symm)
    have hmem : ∀ (d : ℕ) (u : V), varOfDim a.env d = some u → (d ∈ t0 :: ts ↔ u ∈ v0 :: vs) := by
      intro d u hu
      rw [hsp.mem_iff, List.mem_cons, List.mem_cons, hmemds d u hu]
      have : d = dim ↔ u = v0 := by
        constructor
        · rintro rfl
          rw [k2] at hu; exact (Option.some.inj hu).symm
        · rintro rfl
          exact varOfDim_inj ha.env hu k2
      rw [this]
    have hlt : ∀ t ∈ t0 :: ts, t < a.env.size := fun t ht => by
      obtain ⟨v, _, hv⟩ := hnames t (hsp.mem_iff.1 ht)
      exact varOfDim_lt hv
    have hintiff : ∀ t v, varOfDim a.env t = some v → (t < a.env.intdim ↔ v ∈ a.env.ints) := by
      intro t v hv
      obtain ⟨_, _, q3, q4⟩ := (C48_dim_of_var a.env ha.env ha.size v).1 (mem_vars_iff.2 ⟨t, hv⟩)
      rw [q4 t hv]; exact q3
    -- all of the same type
    have htyd : (∀ t ∈ t0 :: ts, t < a.env.intdim) ∨ (∀ t ∈ t0 :: ts, ¬ t < a.env.intdim) := by
      rcases hty with h | h
      · left
        intro t ht
        obtain ⟨v, hv, hv'⟩ := hnames t (hsp.mem_iff.1 ht)
        exact (hintiff t v hv').2 (h v hv)
      · right
        intro t ht hl
        obtain ⟨v, hv, hv'⟩ := hnames t (hsp.mem_iff.1 ht)
        exact ha.env.disj v ((hintiff t v hv').1 hl) (h v hv)
    have htyt : ∀ t ∈ ts, (t < a.env.intdim ↔ t0 < a.env.intdim) := by
      intro t ht
      rcases htyd with h | h
      · exact iff_of_true (h t (by simp [ht])) (h t0 (by simp))
      · exact iff_of_false (h t (by simp [ht])) (h t0 (by simp))
    have hdims : nenv.intdim = (if t0 < a.env.intdim then a.env.intdim - ts.length else a.env.intdim) ∧
        nenv.realdim = (if t0 < a.env.intdim then a.env.realdim else a.env.realdim - ts.length) := by
      have hii : a.env.ints.Nodup := nodup_of_sorted ha.env.ints
      have hrr : a.env.reals.Nodup := nodup_of_sorted ha.env.reals
      rw [← hnenv, hlen]
      have ht0 := hnames t0 (hsp.mem_iff.1 (by simp))
      obtain ⟨v, hv, hv'⟩ := ht0
      have := hintiff t0 v hv'
      rcases hty with h | h
      · rw [if_pos (this.2 (h v hv)), if_pos (this.2 (h v hv))]
        exact ⟨length_filter_notMem hii hnd fun v hv => h v (by simp [hv]),
          length_filter_disj fun v hv => ha.env.disj v (h v (by simp [hv]))⟩
      · have hnot : ¬ t0 < a.env.intdim := fun h' => ha.env.disj v (this.1 h') (h v hv)
        rw [if_neg hnot, if_neg hnot]
        exact ⟨length_filter_disj fun v hv hv' => ha.env.disj v hv' (h v (by simp [hv])),
          length_filter_notMem hrr hnd fun v hv => h v (by simp [hv])⟩
    have hnsize : nenv.size ≤ a.env.size := by
      simp only [Env.size, hdims.1, hdims.2]; split_ifs <;> omega
    -- the position of the remaining variables
    have hpos : ∀ v u, varOfDim a.env v = some u → v ∉ ds →
        varOfDim nenv (v - ds.countP (fun p => decide (p < v))) = some u := by
      intro v u hv hn
      rw [← hnenv]
      exact varOfDim_filter hdsnd hmemds hv hn
    have hcount : ∀ v, ds.countP (fun p => decide (p < v)) + (if dim < v then 1 else 0) =
        ts.countP (fun p => decide (p < v)) + (if t0 < v then 1 else 0) := by
      intro v
      have := hsp.countP_eq (fun p => decide (p < v))
      simp only [List.countP_cons, decide_eq_true_eq] at this
      exact this.symm
    have hfin : ∀ (perm : List ℕ) (r : A), Dim.IsPerm nenv.size perm →
        (t0 < nenv.size ∧ varOfDim nenv (perm.getD t0 0) = some v0) →
        (∀ v u, varOfDim a.env v = some u → v ∉ t0 :: ts →
          v - ts.countP (fun p => decide (p < v)) < nenv.size ∧
          varOfDim nenv (perm.getD (v - ts.countP (fun p => decide (p < v))) 0) = some u) →
        (Ok (M.fold a.val t0 ts) → M.Dims (M.fold a.val t0 ts) nenv.intdim nenv.realdim →
          Ok r ∧ M.Dims r nenv.intdim nenv.realdim ∧
          ∀ ρ : V → K, M.Gam r (pt nenv ρ) ↔
            M.Gam (M.fold a.val t0 ts) (fun p => pt nenv ρ (perm.getD p 0))) →
        Abs1.Wf M Ok (⟨nenv, r⟩ : Abs1 V A) ∧ (⟨nenv, r⟩ : Abs1 V A).env = nenv ∧
        (∀ (ρ : V → K) (u : V), Gam M a ρ → u ∈ v0 :: vs → Gam M ⟨nenv, r⟩ (Function.update ρ v0 (ρ u))) ∧
        (ex → ∀ c : Abs1 V A, Abs1.Wf M Ok c → c.env = nenv →
          (∀ (ρ : V → K) (u : V), Gam M a ρ → u ∈ v0 :: vs → Gam M c (Function.update ρ v0 (ρ u))) →
          ∀ ρ : V → K, Gam M ⟨nenv, r⟩ ρ → Gam M c ρ) := by
      intro perm r hp hp0 hpk hres
      obtain ⟨_, f2, f3, f4, f5⟩ := fold_core S ha hnwf hnv hkv htne hst hmem hlt htyt hdims.1 hdims.2 hp hp0 hpk
      obtain ⟨q1, q2, q3⟩ := hres f2 f3
      refine ⟨⟨hnwf, ?_, q1, q2⟩, rfl, fun ρ u hρ hu => (q3 _).2 (f4 ρ u hρ hu), fun hex c hc hce hall ρ hρ =>
        f5 hex c hc hce hall ρ ((q3 ρ).1 hρ)⟩
      show nenv.size ≤ dimMax
      omega
    have hrun : Abs0.fold M a.val t0 ts = (M.fold a.val t0 ts, false) ∧
        M.Dims (M.fold a.val t0 ts) nenv.intdim nenv.realdim ∧ Ok (M.fold a.val t0 ts) := by
      obtain ⟨s1, s2, -⟩ := S.fold a.val t0 ts ha.ok htne hst (by rw [ha.dim]; exact hlt) (by rw [hi]; exact htyt)
      rw [hi, hr, ← hdims.1, ← hdims.2] at s2
      refine ⟨?_, s2, s1⟩
      rw [Abs0.fold, (Abs0.checkDimArray_iff).2 (by rw [ha.dim]; exact hlt), (Abs0.strictSorted_iff _).2 hst]
      have c3 : (decide (t0 < M.intdim a.val) &&
          decide ((t0 :: ts).getD ts.length 0 ≥ M.intdim a.val)) = false := by
        rw [Bool.and_eq_false_iff, decide_eq_false_iff_not, decide_eq_false_iff_not, hi]
        have : (t0 :: ts).getD ts.length 0 ∈ t0 :: ts := Dim.getD_mem' (by simp)
        rcases htyd with h | h
        · right; have := h _ this; omega
        · left; exact h t0 (by simp)
      rw [c3]
      simp [htne]
    have htlt : ∀ v, v ≤ t0 → ts.countP (fun p => decide (p < v)) = 0 := fun v hv =>
      countP_zero_of_le fun p hp => by have := hst'.1 p hp; omega
    rw [hrun.1]
    simp only []
    by_cases hd0 : dim = t0
    · rw [if_pos hd0]
      refine ⟨_, rfl, ?_⟩
      have hrange : ∀ p, p < nenv.size → (List.range nenv.size).getD p 0 = p := fun p hp => by
        rw [List.getD, List.getElem?_eq_getElem (by simpa using hp)]; simp
      have hcnt : ∀ v, ds.countP (fun p => decide (p < v)) = ts.countP (fun p => decide (p < v)) := by
        intro v; have := hcount v; rw [hd0] at this; omega
      have hnds : ∀ v, v ∉ t0 :: ts → v ∉ ds := fun v hv h => hv (hsp.mem_iff.2 (by simp [h]))
      refine hfin (List.range nenv.size) _ ?_ ?_ (fun v u hv hn => ?_) fun h1 h2 => ⟨h1, h2, fun ρ => ?_⟩
      · refine Dim.isPerm_of (by simp) (fun i hi => ?_) (fun i j hi hj => ?_)
        · rw [hrange i hi]; exact hi
        · rw [hrange i hi, hrange j hj]; exact id
      · have := hpos dim v0 k2 hdn
        rw [hcnt, htlt dim hd0.le, hd0, Nat.sub_zero] at this
        exact ⟨varOfDim_lt this, by rw [hrange _ (varOfDim_lt this)]; exact this⟩
      · have := hpos v u hv (hnds v hn)
        rw [hcnt] at this
        exact ⟨varOfDim_lt this, by rw [hrange _ (varOfDim_lt this)]; exact this⟩
      · have hsz' : M.dim (M.fold a.val t0 ts) = nenv.size := by rw [Man.dim, h2.1, h2.2]; rfl
        have : ∀ v, v < M.dim (M.fold a.val t0 ts) →
            pt nenv ρ v = pt nenv ρ ((List.range nenv.size).getD v 0) := fun v hv => by
          rw [hrange v (hsz' ▸ hv)]
        exact ⟨S.congr _ (by first | assumption | exact ha.ok) _ _ this, S.congr _ (by first | assumption | exact ha.ok) _ _ fun v hv => (this v hv).symm⟩
    · rw [if_neg hd0]
      have hdts : dim ∈ ts := by
        have : dim ∈ t0 :: ts := hsp.mem_iff.2 (by simp)
        exact (List.mem_cons.1 this).resolve_left hd0
      have ht0d : t0 < dim := hst'.1 dim hdts
      obtain ⟨i, hil, hie⟩ := List.getElem_of_mem hdts
      have hi' : ts[i]? = some dim := by rw [List.getElem?_eq_getElem hil, hie]
      rw [bsearch_complete hst'.2 hi' (Nat.zero_le _) hil le_rfl]
      simp only []
      have hci : ts.countP (fun p => decide (p < dim)) = i := countP_index hst'.2 hi'
      have hcd : ds.countP (fun p => decide (p < dim)) = i + 1 := by
        have := hcount dim
        rw [if_neg (lt_irrefl _), if_pos ht0d, hci] at this
        omega
      have hpd := hpos dim v0 k2 hdn
      rw [hcd] at hpd
      have hpl := varOfDim_lt hpd
      have ht0n : t0 ∉ ts := (List.nodup_cons.1 hndt).1
      have hge : t0 ≤ dim - (i + 1) := by
        have := countP_gap htsnd ht0n ht0d
        rw [hci, htlt t0 le_rfl] at this
        omega
      obtain ⟨perm, q1, q2, q3⟩ := foldPerm_spec nenv.size t0 dim (i + 1) hge hpl
      rw [q1]
      simp only [Out.ofOption, Out.bind]
      have hsz' : M.dim (M.fold a.val t0 ts) = nenv.size := by rw [Man.dim, hrun.2.1.1, hrun.2.1.2]; rfl
      have q2' : Dim.IsPerm (M.dim (M.fold a.val t0 ts)) perm := by rw [hsz']; exact q2
      rw [Abs0.permuteDimensions_legal q2']
      refine ⟨_, rfl, ?_⟩
      refine hfin perm _ q2 ?_ (fun v u hv hn => ?_) fun h1 h2 => ?_
      · refine ⟨by omega, ?_⟩
        rw [q3 t0 (by omega), if_pos rfl]; exact hpd
      · have hvds : v ∉ ds := fun h => hn (hsp.mem_iff.2 (by simp [h]))
        have hvd : v ≠ dim := fun h => hn (hsp.mem_iff.2 (by simp [h]))
        have hvt0 : v ≠ t0 := fun h => hn (by simp [h])
        have hvts : v ∉ ts := fun h => hn (by simp [h])
        have hp := hpos v u hv hvds
        have hpl' := varOfDim_lt hp
        have hc := hcount v
        rcases lt_or_gt_of_ne hvt0 with h | h
        · -- before `t0`
          rw [if_neg (by omega), if_neg (by omega), htlt v h.le] at hc
          rw [htlt v h.le, Nat.sub_zero]
          rw [show ds.countP (fun p => decide (p < v)) = 0 by omega, Nat.sub_zero] at hp hpl'
          refine ⟨hpl', ?_⟩
          rw [q3 v hpl', if_neg hvt0, if_neg (by omega)]
          exact hp
        · rw [if_pos h] at hc
          have g1 := countP_gap htsnd ht0n h
          rw [htlt t0 le_rfl] at g1
          rcases lt_or_gt_of_ne hvd with h' | h'
          · -- between `t0` and `dim`
            rw [if_neg (by omega)] at hc
            have g2 := countP_gap htsnd hvts h'
            rw [hci] at g2
            have hlt' : v - ts.countP (fun p => decide (p < v)) < nenv.size := by omega
            refine ⟨hlt', ?_⟩
            rw [q3 _ hlt', if_neg (by omega), if_pos (by omega)]
            rw [show v - ts.countP (fun p => decide (p < v)) - 1 =
              v - ds.countP (fun p => decide (p < v)) by omega]
            exact hp
          · -- after `dim`
            rw [if_pos h'] at hc
            have hceq : ds.countP (fun p => decide (p < v)) = ts.countP (fun p => decide (p < v)) := by omega
            have g2 : ts.countP (fun p => decide (p < v)) + dim + 1 ≤ i + 1 + v := by
              have := countP_gap (l := ts.erase dim) (htsnd.erase _) (v := dim) (w := v)
                (fun h => (htsnd.mem_erase_iff.1 h).1 rfl) h'
              have hpe := (List.perm_cons_erase hdts).countP_eq (fun p => decide (p < v))
              have hpe' := (List.perm_cons_erase hdts).countP_eq (fun p => decide (p < dim))
              simp only [List.countP_cons, decide_eq_true_eq] at hpe hpe'
              rw [if_pos h'] at hpe
              rw [if_neg (lt_irrefl _), hci] at hpe'
              omega
            rw [hceq] at hp hpl'
            refine ⟨hpl', ?_⟩
            rw [q3 _ hpl', if_neg (by omega), if_neg (by omega)]
            exact hp
      · obtain ⟨t1, t2, t3⟩ := S.permute _ perm h1 q2'
        exact ⟨t1, ⟨t2.1.trans h2.1, t2.2.trans h2.2⟩, fun ρ => t3 _⟩

end Props
end Apron
