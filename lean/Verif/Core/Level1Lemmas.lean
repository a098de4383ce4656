import Verif.Core.Level1
import Verif.Props.CoreDim

/-!
# Lemmas on level-1 abstract values: from names to dimensions and back
-/

set_option autoImplicit false
set_option linter.unusedSectionVars false
set_option linter.ambiguousOpen false

namespace Apron
namespace Dim

/-- among the inserted dimensions, those before the new position of `v` are those inserted before `v` -/
theorem countP_addInvertFrom (l : List ℕ) (i v : ℕ) (hs : l.Pairwise (· ≤ ·)) :
    (addInvertFrom i l).countP (fun p => decide (p < v + i + l.countP (fun p => decide (p ≤ v)))) =
      l.countP (fun p => decide (p ≤ v)) := by
  induction l generalizing i with
  | nil => rfl
  | cons d l ih =>
    rw [List.pairwise_cons] at hs
    simp only [addInvertFrom, List.countP_cons]
    have h := ih (i + 1) hs.2
    by_cases hd : d ≤ v
    · simp only [hd, decide_true, if_true]
      have e : v + i + (List.countP (fun p => decide (p ≤ v)) l + 1) =
          v + (i + 1) + List.countP (fun p => decide (p ≤ v)) l := by omega
      rw [e, h, if_pos (by simp; omega)]
    · have h0 : l.countP (fun p => decide (p ≤ v)) = 0 := by
        rw [List.countP_eq_zero]
        intro p hp
        have := hs.1 p hp
        simp; omega
      simp only [hd, decide_false, h0]
      rw [if_neg (by simp), if_neg (by simp; omega)]
      simp only [Nat.add_zero, List.countP_eq_zero, decide_eq_true_eq]
      intro p hp
      obtain ⟨k, hk, rfl⟩ := (mem_addInvertFrom _ _ _).1 hp
      have := hs.1 _ (getD_mem' hk)
      omega

theorem countP_addInvert (l : List ℕ) (v : ℕ) (hs : l.Pairwise (· ≤ ·)) :
    (addInvert l).countP (fun p => decide (p < v + l.countP (fun p => decide (p ≤ v)))) =
      l.countP (fun p => decide (p ≤ v)) := by
  have := countP_addInvertFrom l 0 v hs
  simpa [addInvert] using this

/-- the removal undoing a legal insertion is legal -/
theorem legalRemove_addInvert {i r n : ℕ} {l : List ℕ} (h : LegalAdd i r l n) (hn : n ≤ l.length) :
    LegalRemove (i + n) (r + (l.length - n)) (addInvert l) n := by
  obtain ⟨h1, h2, h3, h4⟩ := h
  have hg : ∀ k, k < l.length → (addInvert l).getD k 0 = l.getD k 0 + k := fun k hk => by
    have := addInvertFrom_getD l 0 k hk
    simpa [addInvert] using this
  have hlen : (addInvert l).length = l.length := addInvertFrom_length _ _
  refine ⟨addInvertFrom_sorted _ _ h1, fun d hd => ?_, fun d hd => ?_, fun d hd => ?_⟩
  · obtain ⟨k, hk, rfl⟩ := (mem_addInvertFrom _ _ _).1 hd
    have := h2 _ (getD_mem' hk)
    omega
  · obtain ⟨k, hk, rfl⟩ := List.getElem_of_mem hd
    rw [List.length_take] at hk
    rw [List.getElem_take]
    have e := hg k (by omega)
    rw [List.getD, List.getElem?_eq_getElem (by omega), Option.getD_some] at e
    rw [e]
    have := h3 (l.getD k 0) (by
      rw [List.getD, List.getElem?_eq_getElem (by omega), Option.getD_some]
      exact List.mem_take_iff_getElem.2 ⟨k, by omega, rfl⟩)
    omega
  · obtain ⟨k, hk, rfl⟩ := List.getElem_of_mem hd
    rw [List.length_drop] at hk
    rw [List.getElem_drop]
    have e := hg (n + k) (by omega)
    rw [List.getD, List.getElem?_eq_getElem (by omega), Option.getD_some] at e
    rw [e]
    have := h4 (l.getD (n + k) 0) (by
      rw [List.getD, List.getElem?_eq_getElem (by omega), Option.getD_some]
      exact List.mem_drop_iff_getElem.2 ⟨k, by omega, rfl⟩)
    omega

end Dim

namespace Abs0

variable {K A : Type*} [Zero K] {M : Man K A} {Ok : A → Prop} {ex : Prop}

theorem addDimensions_legal {a : A} {d : Dimchange} (project : Bool) (hne : d.dim ≠ [])
    (hl : d.dim.length = d.intdim + d.realdim)
    (h : Dim.LegalAdd (M.intdim a) (M.realdim a) d.dim d.intdim) :
    addDimensions M a d project = (M.add a d.dim d.intdim project, false) := by
  have h0 : d.intdim + d.realdim ≠ 0 := by rw [← hl]; simpa using hne
  rw [addDimensions, if_neg h0, if_pos ((C53_add_partial _ _ _ _).1 h).1]

theorem removeDimensions_legal {a : A} {d : Dimchange} (hne : d.dim ≠ [])
    (hl : d.dim.length = d.intdim + d.realdim)
    (h : Dim.LegalRemove (M.intdim a) (M.realdim a) d.dim d.intdim) :
    removeDimensions M a d = (M.remove a d.dim d.intdim, false) := by
  have h0 : d.intdim + d.realdim ≠ 0 := by rw [← hl]; simpa using hne
  rw [removeDimensions, if_neg h0, if_pos ((C53_remove_partial _ _ _ _).1 h).1]

theorem permuteDimensions_legal {a : A} {perm : List ℕ} (h : Dim.IsPerm (M.dim a) perm) :
    permuteDimensions M a perm = (M.permute a perm, false) := by
  rw [permuteDimensions, if_pos ((C53_perm_partial _ _ _).1 h).1]

theorem strictSorted_iff (l : List ℕ) : strictSorted l = true ↔ l.Pairwise (· < ·) := by
  induction l with
  | nil => simp [strictSorted]
  | cons a l ih =>
    cases l with
    | nil => simp [strictSorted]
    | cons b l =>
      rw [strictSorted]
      by_cases h : a ≥ b
      · rw [if_pos h]
        simp only [Bool.false_eq_true, false_iff]
        intro hp
        have := (List.pairwise_cons.1 hp).1 b (by simp)
        omega
      · rw [if_neg h, ih]
        constructor
        · intro hp
          refine List.pairwise_cons.2 ⟨fun x hx => ?_, hp⟩
          rcases List.mem_cons.1 hx with rfl | hx
          · omega
          · have := (List.pairwise_cons.1 hp).1 x hx; omega
        · exact fun hp => (List.pairwise_cons.1 hp).2

theorem checkDimArray_iff {a : A} {l : List ℕ} : checkDimArray M a l = true ↔ ∀ d ∈ l, d < M.dim a := by
  simp [checkDimArray]

end Abs0

open Props

namespace Env

variable {V : Type*} [LinearOrder V]

theorem Wf.nodup {e : Env V} (h : e.Wf) : e.vars.Nodup := by
  rw [vars, List.nodup_append]
  refine ⟨?_, ?_, fun a ha b hb e => h.disj a ha (e ▸ hb)⟩
  · exact h.ints.imp fun h => ne_of_lt h
  · exact h.reals.imp fun h => ne_of_lt h

theorem varOfDim_isSome {e : Env V} {d : ℕ} : (∃ v, varOfDim e d = some v) ↔ d < e.size := by
  rw [← vars_length, varOfDim]
  constructor
  · rintro ⟨v, hv⟩
    exact (List.getElem?_eq_some_iff.1 hv).1
  · intro h; exact ⟨_, List.getElem?_eq_getElem h⟩

theorem varOfDim_lt {e : Env V} {d : ℕ} {v : V} (h : varOfDim e d = some v) : d < e.size :=
  varOfDim_isSome.1 ⟨v, h⟩

theorem mem_vars_iff {e : Env V} {v : V} : v ∈ e.vars ↔ ∃ d, varOfDim e d = some v := by
  rw [List.mem_iff_getElem?]; rfl

theorem varOfDim_inj {e : Env V} (h : e.Wf) {c d : ℕ} {v : V} (hc : varOfDim e c = some v)
    (hd : varOfDim e d = some v) : c = d := by
  have l := varOfDim_lt hc
  have l' := varOfDim_lt hd
  rw [← vars_length] at l l'
  exact (List.getElem?_inj l h.nodup).1 (hc.trans hd.symm)

theorem _root_.Apron.Props.Moves.dim_le {e1 e : Env V} {d : Dimchange} (h : Moves e1 e d) : d.intdim ≤ d.dim.length := by
  have := h.1; omega

theorem _root_.Apron.Props.Moves.size {e1 e : Env V} {d : Dimchange} (h : Moves e1 e d) : e.size = e1.size + d.dim.length := by
  obtain ⟨h1, h2, h3, _⟩ := h
  simp only [Env.size]; omega

/-- each dimension of the larger environment is either inserted or the new position of one -/
theorem _root_.Apron.Props.Moves.split {e1 e : Env V} {d : Dimchange} (h : Moves e1 e d) {w : ℕ} (hw : w < e.size)
    (hn : w ∉ Dim.addInvert d.dim) :
    ∃ v, v < e1.size ∧ w = v + d.dim.countP (fun p => decide (p ≤ v)) := by
  have hsz := h.size
  obtain ⟨_, _, _, hl, _⟩ := h
  rw [(C45_positions d.dim hl.1).2.2] at hn
  push Not at hn
  obtain ⟨v, hv⟩ := hn
  refine ⟨v, ?_, hv⟩
  by_contra hc
  have : d.dim.countP (fun p => decide (p ≤ v)) = d.dim.length := by
    rw [List.countP_eq_length]
    intro p hp
    have := hl.2.1 p hp
    simp only [Env.size] at hc
    simp; omega
  omega

theorem _root_.Apron.Props.Moves.notMem {e1 e : Env V} {d : Dimchange} (h : Moves e1 e d) (v : ℕ) :
    v + d.dim.countP (fun p => decide (p ≤ v)) ∉ Dim.addInvert d.dim := by
  obtain ⟨_, _, _, hl, _⟩ := h
  rw [(C45_positions d.dim hl.1).2.2]
  push Not
  exact ⟨v, rfl⟩

theorem _root_.Apron.Props.Moves.lt {e1 e : Env V} {d : Dimchange} (h : Moves e1 e d) {v : ℕ} (hv : v < e1.size) :
    v + d.dim.countP (fun p => decide (p ≤ v)) < e.size := by
  have h1 := h.2.2.2.2 v hv
  obtain ⟨u, hu⟩ := varOfDim_isSome.2 hv
  exact varOfDim_lt (h1.trans hu)

/-- the inserted dimensions are those of the variables that are not in the smaller environment -/
theorem _root_.Apron.Props.Moves.new_iff {e1 e : Env V} (he : e.Wf) {d : Dimchange} (h : Moves e1 e d)
    {w : ℕ} {u : V} (hw : varOfDim e w = some u) : w ∈ Dim.addInvert d.dim ↔ u ∉ e1.vars := by
  constructor
  · intro hm hu
    obtain ⟨v, hv⟩ := mem_vars_iff.1 hu
    have hv' := varOfDim_lt hv
    have := varOfDim_inj he hw ((h.2.2.2.2 v hv').trans hv)
    exact h.notMem v (this ▸ hm)
  · intro hu
    by_contra hn
    obtain ⟨v, hv, rfl⟩ := h.split (varOfDim_lt hw) hn
    rw [h.2.2.2.2 v hv] at hw
    exact hu (mem_vars_iff.2 ⟨v, hw⟩)

theorem _root_.Apron.Props.Moves.sub {e1 e : Env V} {d : Dimchange} (h : Moves e1 e d) {u : V} (hu : u ∈ e1.vars) :
    u ∈ e.vars := by
  obtain ⟨v, hv⟩ := mem_vars_iff.1 hu
  exact mem_vars_iff.2 ⟨_, (h.2.2.2.2 v (varOfDim_lt hv)).trans hv⟩

end Env

namespace Abs1

open Env

variable {V : Type*} [LinearOrder V] {K A : Type*} [Zero K] {M : Man K A} {Ok : A → Prop} {ex : Prop}

theorem pt_eq {e : Env V} {d : ℕ} {v : V} (ρ : V → K) (h : varOfDim e d = some v) : pt e ρ d = ρ v := by
  rw [pt, h]

theorem pt_congr {e : Env V} {ρ σ : V → K} (h : ∀ v ∈ e.vars, ρ v = σ v) (d : ℕ) : pt e ρ d = pt e σ d := by
  unfold pt
  rcases hd : varOfDim e d with _ | v
  · rfl
  · exact h v (mem_vars_iff.2 ⟨d, hd⟩)

/-- any point is that of a valuation -/
theorem exists_val {e : Env V} (he : e.Wf) (x : ℕ → K) : ∃ ρ : V → K, ∀ d, d < e.size → pt e ρ d = x d := by
  classical
  refine ⟨fun v => if h : ∃ d, varOfDim e d = some v then x h.choose else 0, fun d hd => ?_⟩
  obtain ⟨v, hv⟩ := varOfDim_isSome.2 hd
  have h : ∃ d, varOfDim e d = some v := ⟨d, hv⟩
  rw [pt_eq _ hv, dif_pos h, varOfDim_inj he h.choose_spec hv]

theorem gam_congr (S : M.Spec Ok ex) {a : Abs1 V A} (ha : Ok a.val) {ρ σ : V → K}
    (h : ∀ v ∈ a.env.vars, ρ v = σ v) : Gam M a ρ ↔ Gam M a σ :=
  ⟨S.congr _ (by assumption) _ _ fun d _ => pt_congr h d, S.congr _ (by assumption) _ _ fun d _ => (pt_congr h d).symm⟩

theorem Wf.dim {a : Abs1 V A} (h : Wf M Ok a) : M.dim a.val = a.env.size := by
  rw [Man.dim, h.dims.1, h.dims.2]; rfl

theorem wf_top (S : M.Spec Ok ex) {e : Env V} (he : e.Wf) (hs : e.size ≤ dimMax) : Wf M Ok (top M e) :=
  ⟨he, hs, (S.top _ _).1, (S.top _ _).2.1⟩

/-- insertion of dimensions: from an environment to a larger one -/
theorem add_moves (S : M.Spec Ok ex) {e1 e : Env V} (he : e.Wf) {d : Dimchange} (h : Moves e1 e d)
    {a : A} (ha : Ok a) (hd : M.Dims a e1.intdim e1.realdim) (project : Bool) :
    (Abs0.addDimensions M a d project).2 = false ∧
    Ok (Abs0.addDimensions M a d project).1 ∧
    M.Dims (Abs0.addDimensions M a d project).1 e.intdim e.realdim ∧
    ∀ σ : V → K, M.Gam (Abs0.addDimensions M a d project).1 (pt e σ) ↔
      M.Gam a (pt e1 σ) ∧ (project = true → ∀ v ∈ e.vars, v ∉ e1.vars → σ v = 0) := by
  have hdim : M.dim a = e1.size := by rw [Man.dim, hd.1, hd.2]; rfl
  have hcongr : ∀ σ : V → K, M.Gam a (fun v => pt e σ (v + d.dim.countP (fun p => decide (p ≤ v)))) ↔
      M.Gam a (pt e1 σ) := fun σ => by
    have hpt : ∀ v, v < M.dim a → pt e σ (v + d.dim.countP (fun p => decide (p ≤ v))) = pt e1 σ v := by
      intro v hv
      rw [pt, h.2.2.2.2 v (hdim ▸ hv), pt]
    exact ⟨S.congr _ (by assumption) _ _ hpt, S.congr _ (by assumption) _ _ fun v hv => (hpt v hv).symm⟩
  by_cases hne : d.dim = []
  · have hz : d.intdim + d.realdim = 0 := by rw [← h.1, hne]; rfl
    have e0 : Abs0.addDimensions M a d project = (a, false) := by rw [Abs0.addDimensions, if_pos hz]
    rw [e0]
    have h2 := h.2.1
    have h3 := h.2.2.1
    refine ⟨rfl, ha, ⟨by rw [hd.1]; omega, by rw [hd.2]; omega⟩, fun σ => ?_⟩
    have hg := hcongr σ
    rw [hne] at hg
    simp only [List.countP_nil, Nat.add_zero] at hg
    show M.Gam a (pt e σ) ↔ _
    rw [hg]
    refine ⟨fun h' => ⟨h', fun _ v hv hn => ?_⟩, fun h' => h'.1⟩
    obtain ⟨w, hw⟩ := mem_vars_iff.1 hv
    have := (h.new_iff he hw).2 hn
    rw [hne] at this
    simp [Dim.addInvert, Dim.addInvertFrom] at this
  · have hl := h.2.2.2.1
    rw [← hd.1, ← hd.2] at hl
    rw [Abs0.addDimensions_legal project hne h.1 hl]
    obtain ⟨s1, s2, s3⟩ := S.add a d.dim d.intdim project ha hne h.dim_le hl
    refine ⟨rfl, s1, ⟨?_, ?_⟩, fun σ => ?_⟩
    · rw [s2.1, hd.1]; exact h.2.1
    · rw [s2.2, hd.2, ← h.2.2.1, h.1]; congr 1; omega
    · show M.Gam (M.add a d.dim d.intdim project) (pt e σ) ↔ _
      rw [s3, hcongr]
      refine and_congr Iff.rfl (forall_congr' fun _ => ⟨fun h' v hv hn => ?_, fun h' k hk => ?_⟩)
      · obtain ⟨w, hw⟩ := mem_vars_iff.1 hv
        obtain ⟨k, hk, hkw⟩ := (Dim.mem_addInvertFrom _ _ _).1 ((h.new_iff he hw).2 hn)
        have := h' k hk
        rw [Nat.zero_add] at hkw
        rwa [← hkw, pt_eq _ hw] at this
      · have hm : d.dim.getD k 0 + k ∈ Dim.addInvert d.dim :=
          (Dim.mem_addInvertFrom _ _ _).2 ⟨k, hk, by omega⟩
        unfold pt
        rcases hw : varOfDim e (d.dim.getD k 0 + k) with _ | u
        · rfl
        · exact h' u (mem_vars_iff.2 ⟨_, hw⟩) ((h.new_iff he hw).1 hm)

/-- removal of dimensions: from an environment to a smaller one -/
theorem remove_moves (S : M.Spec Ok ex) {n e : Env V} (he : e.Wf) {d : Dimchange} (h : Moves n e d)
    {a : A} (ha : Ok a) (hd : M.Dims a e.intdim e.realdim) :
    (Abs0.removeDimensions M a { d with dim := Dim.addInvert d.dim }).2 = false ∧
    Ok (Abs0.removeDimensions M a { d with dim := Dim.addInvert d.dim }).1 ∧
    M.Dims (Abs0.removeDimensions M a { d with dim := Dim.addInvert d.dim }).1 n.intdim n.realdim ∧
    (∀ σ : V → K, M.Gam a (pt e σ) →
      M.Gam (Abs0.removeDimensions M a { d with dim := Dim.addInvert d.dim }).1 (pt n σ)) ∧
    (ex → ∀ ρ : V → K, M.Gam (Abs0.removeDimensions M a { d with dim := Dim.addInvert d.dim }).1 (pt n ρ) →
      ∃ σ : V → K, M.Gam a (pt e σ) ∧ ∀ v ∈ n.vars, ρ v = σ v) := by
  have hdim : M.dim a = e.size := by rw [Man.dim, hd.1, hd.2]; rfl
  have hlen : (Dim.addInvert d.dim).length = d.dim.length := Dim.addInvertFrom_length _ _
  have h2 := h.2.1
  have h3 := h.2.2.1
  by_cases hne : d.dim = []
  · have hz : d.intdim + d.realdim = 0 := by rw [← h.1, hne]; rfl
    have e0 : Abs0.removeDimensions M a { d with dim := Dim.addInvert d.dim } = (a, false) := by
      rw [Abs0.removeDimensions, if_pos hz]
    rw [e0]
    have hpt : ∀ (σ : V → K) v, v < M.dim a → pt e σ v = pt n σ v := fun σ v hv => by
      have hsz := h.size
      rw [hne] at hsz
      have := h.2.2.2.2 v (by rw [hdim, hsz] at hv; simpa using hv)
      rw [hne] at this
      simp only [List.countP_nil, Nat.add_zero] at this
      rw [pt, this, pt]
    refine ⟨rfl, ha, ⟨by rw [hd.1]; omega, by rw [hd.2]; omega⟩, fun σ hσ => S.congr _ (by assumption) _ _ (hpt σ) hσ,
      fun _ ρ hρ => ⟨ρ, S.congr _ (by assumption) _ _ (fun v hv => (hpt ρ v hv).symm) hρ, fun _ _ => rfl⟩⟩
  · have hne' : Dim.addInvert d.dim ≠ [] := by
      intro e0; rw [e0] at hlen; exact hne (List.length_eq_zero_iff.1 hlen.symm)
    have hl := Dim.legalRemove_addInvert h.2.2.2.1 h.dim_le
    have e1 : n.intdim + d.intdim = M.intdim a := by rw [hd.1]; exact h2
    have e2 : n.realdim + (d.dim.length - d.intdim) = M.realdim a := by rw [hd.2, ← h3, h.1]; congr 1; omega
    rw [e1, e2] at hl
    rw [Abs0.removeDimensions_legal (d := { d with dim := Dim.addInvert d.dim }) hne'
      (by simp only; rw [hlen, h.1]) hl]
    obtain ⟨s1, s2, s3, s4⟩ := S.remove a (Dim.addInvert d.dim) d.intdim ha hne' (by rw [hlen]; exact h.dim_le) hl
    -- the two descriptions of the points agree
    have key : ∀ (ρ : V → K) (x : ℕ → K),
        (∀ v, v < M.dim a → v ∉ Dim.addInvert d.dim →
          pt n ρ (v - (Dim.addInvert d.dim).countP (fun p => decide (p < v))) = x v) ↔
        ∀ w, w < n.size → pt n ρ w = x (w + d.dim.countP (fun p => decide (p ≤ w))) := by
      intro ρ x
      constructor
      · intro hx w hw
        have := hx _ (by rw [hdim]; exact h.lt hw) (h.notMem w)
        rw [Dim.countP_addInvert _ _ h.2.2.2.1.1, Nat.add_sub_cancel] at this
        exact this
      · intro hx v hv hm
        obtain ⟨w, hw, rfl⟩ := h.split (by rw [← hdim]; exact hv) hm
        rw [Dim.countP_addInvert _ _ h.2.2.2.1.1, Nat.add_sub_cancel]
        exact hx w hw
    refine ⟨rfl, s1, ⟨?_, ?_⟩, fun σ hσ => ?_, fun hex ρ hρ => ?_⟩
    · rw [s2.1]; omega
    · rw [s2.2, hlen]; omega
    · refine s3 _ _ hσ ((key σ _).2 fun w hw => ?_)
      rw [pt, pt, h.2.2.2.2 w hw]
    · obtain ⟨x, hx, hk⟩ := s4 hex _ hρ
      rw [key] at hk
      obtain ⟨σ, hσ⟩ := exists_val he x
      refine ⟨σ, S.congr _ (by assumption) _ _ (fun v hv => (hσ v (hdim ▸ hv)).symm) hx, fun v hv => ?_⟩
      obtain ⟨w, hw⟩ := mem_vars_iff.1 hv
      have hw' := varOfDim_lt hw
      have := hk w hw'
      rw [pt_eq _ hw, ← hσ _ (h.lt hw'), pt_eq _ ((h.2.2.2.2 w hw').trans hw)] at this
      exact this


/-- the optional insertion of the changes of `ap_environment_lce` -/
def addO (M : Man K A) (a : A) (d : Option Dimchange) (project : Bool) : A × Bool :=
  match d with
  | some d => Abs0.addDimensions M a d project
  | none => (a, false)

/-- the optional removal -/
def remO (M : Man K A) (a : A) (d : Option Dimchange) : A × Bool :=
  match d with
  | some d => Abs0.removeDimensions M a { d with dim := Dim.addInvert d.dim }
  | none => (a, false)

theorem applyDimchange2_eq (a : A) (d1 d2 : Option Dimchange) (project : Bool) :
    Abs0.applyDimchange2 M a d1 (d2.map fun d => { d with dim := Dim.addInvert d.dim }) project =
      ((remO M (addO M a d1 project).1 d2).1, (addO M a d1 project).2 || (remO M (addO M a d1 project).1 d2).2) := by
  rcases d1 with _ | d1 <;> rcases d2 with _ | d2 <;>
    simp [Abs0.applyDimchange2, addO, remO]

theorem addO_spec (S : M.Spec Ok ex) {e1 e : Env V} (he : e.Wf) {d : Option Dimchange}
    (hn : d = none ↔ e = e1) (hm : ∀ d', d = some d' → Moves e1 e d')
    {a : A} (ha : Ok a) (hd : M.Dims a e1.intdim e1.realdim) (project : Bool) :
    (addO M a d project).2 = false ∧ Ok (addO M a d project).1 ∧
    M.Dims (addO M a d project).1 e.intdim e.realdim ∧
    ∀ σ : V → K, M.Gam (addO M a d project).1 (pt e σ) ↔
      M.Gam a (pt e1 σ) ∧ (project = true → ∀ v ∈ e.vars, v ∉ e1.vars → σ v = 0) := by
  rcases d with _ | d
  · have e0 := hn.1 rfl
    subst e0
    exact ⟨rfl, ha, hd, fun σ => ⟨fun h => ⟨h, fun _ v hv hn => (hn hv).elim⟩, fun h => h.1⟩⟩
  · exact add_moves S he (hm d rfl) ha hd project

theorem remO_spec (S : M.Spec Ok ex) {n e : Env V} (he : e.Wf) {d : Option Dimchange}
    (hn : d = none ↔ e = n) (hm : ∀ d', d = some d' → Moves n e d')
    {a : A} (ha : Ok a) (hd : M.Dims a e.intdim e.realdim) :
    (remO M a d).2 = false ∧ Ok (remO M a d).1 ∧ M.Dims (remO M a d).1 n.intdim n.realdim ∧
    (∀ σ : V → K, M.Gam a (pt e σ) → M.Gam (remO M a d).1 (pt n σ)) ∧
    (ex → ∀ ρ : V → K, M.Gam (remO M a d).1 (pt n ρ) →
      ∃ σ : V → K, M.Gam a (pt e σ) ∧ ∀ v ∈ n.vars, ρ v = σ v) := by
  rcases d with _ | d
  · have e0 := hn.1 rfl
    subst e0
    exact ⟨rfl, ha, hd, fun σ h => h, fun _ ρ h => ⟨ρ, h, fun _ _ => rfl⟩⟩
  · exact remove_moves S he (hm d rfl) ha hd

/-- changing unconstrained dimensions -/
theorem gam_unconstrained (S : M.Spec Ok ex) {a : A} (ha : Ok a) (l : List ℕ)
    (hl : ∀ d ∈ l, d < M.dim a ∧ M.unconstrained a d = true) (x y : ℕ → K)
    (h : ∀ v, v < M.dim a → v ∉ l → x v = y v) (hx : M.Gam a x) : M.Gam a y := by
  induction l generalizing x with
  | nil => exact S.congr _ (by assumption) _ _ (fun v hv => h v hv (by simp)) hx
  | cons d l ih =>
    have hd := hl d (by simp)
    refine ih (fun d' hd' => hl d' (by simp [hd'])) (Function.update x d (y d)) (fun v hv hn => ?_)
      (S.unconstrained a d ha hd.1 hd.2 x (y d) hx)
    by_cases e : v = d
    · subst e; rw [Function.update_self]
    · rw [Function.update_of_ne e]; exact h v hv (by simp [e, hn])

/-- names of a list of dimensions -/
theorem mapM_varOfDim (e : Env V) (l : List ℕ) (hl : ∀ d ∈ l, d < e.size) :
    ∃ vs, l.mapM (varOfDim e) = some vs ∧ List.Forall₂ (fun d v => varOfDim e d = some v) l vs := by
  induction l with
  | nil => exact ⟨[], rfl, .nil⟩
  | cons d l ih =>
    obtain ⟨vs, h1, h2⟩ := ih fun d hd => hl d (by simp [hd])
    obtain ⟨v, hv⟩ := varOfDim_isSome.2 (hl d (by simp))
    exact ⟨v :: vs, by simp [List.mapM_cons, h1, hv], .cons hv h2⟩

theorem forall₂_mem {e : Env V} {l : List ℕ} {vs : List V}
    (h : List.Forall₂ (fun d v => varOfDim e d = some v) l vs) (v : V) :
    v ∈ vs ↔ ∃ d ∈ l, varOfDim e d = some v := by
  induction h with
  | nil => simp
  | @cons d u l vs hd _ ih =>
    simp only [List.mem_cons, ih]
    constructor
    · rintro (rfl | ⟨c, hc, h⟩)
      · exact ⟨d, Or.inl rfl, hd⟩
      · exact ⟨c, Or.inr hc, h⟩
    · rintro ⟨c, rfl | hc, h⟩
      · rw [hd] at h; exact Or.inl (Option.some.inj h).symm
      · exact Or.inr ⟨c, hc, h⟩

theorem forall₂_nodup {e : Env V} (_he : e.Wf) {l : List ℕ} {vs : List V}
    (h : List.Forall₂ (fun d v => varOfDim e d = some v) l vs) (hl : l.Nodup) : vs.Nodup := by
  induction h with
  | nil => exact List.nodup_nil
  | @cons d u l vs hd hr ih =>
    rw [List.nodup_cons] at hl ⊢
    refine ⟨fun hm => ?_, ih hl.2⟩
    obtain ⟨c, hc, hu⟩ := (forall₂_mem hr u).1 hm
    exact hl.1 (varOfDim_inj _he hd hu ▸ hc)

theorem dimsOfVars_spec {e : Env V} (he : e.Wf) (hsz : e.size ≤ dimMax) (l : List V) :
    ((∀ v ∈ l, v ∈ e.vars) → ∃ ds, dimsOfVars e l = some ds ∧
      List.Forall₂ (fun d v => varOfDim e d = some v) ds l ∧ ds = l.map (dimOfVar e)) ∧
    ((∃ v ∈ l, v ∉ e.vars) → dimsOfVars e l = none) := by
  induction l with
  | nil => exact ⟨fun _ => ⟨[], rfl, .nil, rfl⟩, by simp⟩
  | cons v l ih =>
    obtain ⟨h1, h2⟩ := C48_dim_of_var e he hsz v
    constructor
    · intro h
      obtain ⟨ds, e1, e2, e3⟩ := ih.1 fun u hu => h u (by simp [hu])
      obtain ⟨a1, a2, _⟩ := h1 (h v (by simp))
      exact ⟨dimOfVar e v :: ds, by rw [dimsOfVars, if_neg (by omega), e1]; rfl, .cons a2 e2, by rw [e3]; rfl⟩
    · rintro ⟨u, hu, hn⟩
      rw [dimsOfVars]
      split_ifs with h
      · rfl
      · have hv : v ∈ e.vars := by
          by_contra hv; exact h (h2.1 hv)
        rcases List.mem_cons.1 hu with rfl | hu
        · exact (hn hv).elim
        · rw [ih.2 ⟨u, hu, hn⟩]; rfl

/-! ## Positions in a filtered environment -/

theorem countP_lt_succ {l : List ℕ} (h : l.Nodup) (v : ℕ) :
    l.countP (fun p => decide (p < v + 1)) = l.countP (fun p => decide (p < v)) + if v ∈ l then 1 else 0 := by
  induction l with
  | nil => rfl
  | cons d l ih =>
    rw [List.nodup_cons] at h
    rw [List.countP_cons, List.countP_cons, ih h.2]
    by_cases e : v = d
    · subst e
      simp [h.1]
    · have e1 : (d < v + 1) = (d < v) := by
        apply propext; constructor <;> intro <;> omega
      have e2 : (v ∈ d :: l) = (v ∈ l) := by simp [e]
      simp only [e1, e2]; omega

theorem filter_pos {l vs : List V} {ds : List ℕ} (hnd : ds.Nodup)
    (hm : ∀ (d : ℕ) (u : V), l[d]? = some u → (d ∈ ds ↔ u ∈ vs)) (v : ℕ) (hv : v ≤ l.length) :
    (l.take v).countP (fun u => decide (u ∉ vs)) + ds.countP (fun p => decide (p < v)) = v := by
  induction v with
  | zero => simp
  | succ v ih =>
    have ih := ih (by omega)
    have hv' : v < l.length := by omega
    rw [countP_lt_succ hnd, List.take_add_one, List.getElem?_eq_getElem hv', List.countP_append]
    have := hm v l[v] (List.getElem?_eq_getElem hv')
    simp only [Option.toList_some, List.countP_singleton]
    by_cases h : l[v] ∈ vs
    · rw [if_pos (this.2 h), if_neg (by simpa using h)]; omega
    · have h' : v ∉ ds := fun h' => h (this.1 h')
      rw [if_neg h', if_pos (by simpa using h)]; omega

theorem getElem?_filter (l : List V) (p : V → Bool) (v : ℕ) (u : V) (h : l[v]? = some u) (hp : p u = true) :
    (l.filter p)[(l.take v).countP p]? = some u := by
  induction l generalizing v with
  | nil => simp at h
  | cons a l ih =>
    cases v with
    | zero =>
      simp only [List.getElem?_cons_zero, Option.some.injEq] at h
      subst h
      simp [hp]
    | succ v =>
      simp only [List.getElem?_cons_succ] at h
      have := ih v h
      by_cases ha : p a = true
      · simpa [List.filter_cons, ha] using this
      · simpa [List.filter_cons, ha] using this

/-- the dimension of a remaining variable after a removal -/
theorem varOfDim_filter {e : Env V} {vs : List V} {ds : List ℕ} (hnd : ds.Nodup)
    (hm : ∀ (d : ℕ) (u : V), varOfDim e d = some u → (d ∈ ds ↔ u ∈ vs)) {v : ℕ} {u : V}
    (hv : varOfDim e v = some u) (hn : v ∉ ds) :
    varOfDim ⟨e.ints.filter fun v => decide (v ∉ vs), e.reals.filter fun v => decide (v ∉ vs)⟩
      (v - ds.countP (fun p => decide (p < v))) = some u := by
  have hl := varOfDim_lt hv
  rw [← vars_length] at hl
  have h1 := filter_pos hnd hm v (by omega)
  have h2 := getElem?_filter e.vars (fun v => decide (v ∉ vs)) v u hv
    (by simpa using fun h => hn ((hm v u hv).2 h))
  have h3 : v - ds.countP (fun p => decide (p < v)) = (e.vars.take v).countP (fun u => decide (u ∉ vs)) := by
    omega
  rw [h3]
  rw [varOfDim, vars, ← List.filter_append]
  exact h2

theorem wf_filter {e : Env V} (he : e.Wf) (p : V → Bool) : Env.Wf ⟨e.ints.filter p, e.reals.filter p⟩ :=
  ⟨he.ints.filter _, he.reals.filter _, fun v hv hv' => he.disj v (List.mem_of_mem_filter hv)
    (List.mem_of_mem_filter hv')⟩

end Abs1
end Apron
