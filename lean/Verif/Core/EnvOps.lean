import Verif.Core.EnvLemmas

/-!
# Lemmas on operations on environments: dimension changes, removal, renaming, arrays
-/

set_option autoImplicit false
set_option linter.unusedSectionVars false
set_option linter.ambiguousOpen false

namespace Apron
namespace Env

variable {V : Type*} [LinearOrder V]

/-! ## Dimension change to a larger environment -/

/-- inclusion of environments, type by type -/
def Sub (e1 e : Env V) : Prop := (∀ v ∈ e1.ints, v ∈ e.ints) ∧ ∀ v ∈ e1.reals, v ∈ e.reals

theorem writeAt_two (junk : ℕ) (a b : List ℕ) :
    ((writeAt (List.replicate (a.length + b.length) junk) 0 a).bind fun arr =>
      writeAt arr a.length b) = .ok (a ++ b) := by
  simp [writeAt, Out.bind]

theorem mkDimchange_spec (junk : ℕ) (strict : Bool) {e1 e : Env V} (h1 : e1.Wf) (h : e.Wf)
    (hsub : Sub e1 e) :
    ∃ d, mkDimchange junk strict e1 e = .ok d ∧
      d.intdim = e.intdim - e1.intdim ∧ d.realdim = e.realdim - e1.realdim ∧
      d.dim.length = d.intdim + d.realdim ∧
      e1.intdim + d.intdim = e.intdim ∧ e1.realdim + d.realdim = e.realdim ∧
      Dim.LegalAdd e1.intdim e1.realdim d.dim d.intdim ∧
      ∀ k, k < e1.size → e.vars[k + d.dim.countP (fun p => decide (p ≤ k))]? = e1.vars[k]? := by
  obtain ⟨a1, a2, a3, a4, a5⟩ := lceDim_spec (rd := 0) h1.ints h.ints hsub.1
  obtain ⟨b1, b2, b3, b4, b5⟩ := lceDim_spec (rd := e1.intdim) h1.reals h.reals hsub.2
  generalize hA : lceDim 0 e1.ints e.ints = A at *
  generalize hB : lceDim e1.intdim e1.reals e.reals = B at *
  have hAl : A.1.length = e.intdim - e1.intdim := by simp only [intdim]; omega
  have hBl : B.1.length = e.realdim - e1.realdim := by simp only [realdim]; omega
  refine ⟨⟨A.1 ++ B.1, e.intdim - e1.intdim, e.realdim - e1.realdim⟩, ?_, rfl, rfl, ?_, ?_, ?_, ?_, ?_⟩
  · have := writeAt_two junk A.1 B.1
    rw [hAl, hBl] at this
    rw [mkDimchange]
    simp only [hA, hB, a1, b1, Bool.and_false, Bool.false_eq_true, if_false]
    revert this
    rcases writeAt (List.replicate (e.intdim - e1.intdim + (e.realdim - e1.realdim)) junk) 0 A.1 with
      x | _ | _ | _ <;> simp only [Out.bind] <;> intro this
    · rw [this]
    all_goals simp at this
  · simp [hAl, hBl]
  · simp only [intdim] at *; omega
  · simp only [realdim] at *; omega
  · refine ⟨List.pairwise_append.2 ⟨a3, b3, fun x hx y hy => ?_⟩, fun x hx => ?_, fun x hx => ?_,
      fun x hx => ?_⟩
    · have := a4 x hx; have := b4 y hy
      simp only [intdim] at *; omega
    · rcases List.mem_append.1 hx with hx | hx
      · have := a4 x hx; simp only [intdim, realdim] at *; omega
      · have := b4 x hx; simp only [intdim, realdim] at *; omega
    · rw [← hAl, List.take_left'  rfl] at hx
      have := a4 x hx; simp only [intdim] at *; omega
    · rw [← hAl, List.drop_left' rfl] at hx
      exact (b4 x hx).1
  · intro k hk
    simp only [List.countP_append]
    by_cases hki : k < e1.intdim
    · have z : B.1.countP (fun p => decide (p ≤ k)) = 0 := by
        rw [List.countP_eq_zero]
        intro w hw
        have := b4 w hw
        simp only [decide_eq_true_eq]; omega
      have := a5 k hki
      simp only [Nat.zero_add] at this
      rw [z, Nat.add_zero, vars_left e1 hki, ← this, vars_left]
      rw [List.getElem?_eq_getElem (show k < e1.ints.length from hki)] at this
      exact (List.getElem?_eq_some_iff.1 this).1
    · obtain ⟨j, rfl⟩ : ∃ j, k = e1.intdim + j := ⟨k - e1.intdim, by omega⟩
      have z : A.1.countP (fun p => decide (p ≤ e1.intdim + j)) = A.1.length := by
        rw [List.countP_eq_length]
        intro w hw
        have := a4 w hw
        rw [decide_eq_true_eq]; simp only [intdim]; omega
      have := b5 j (by simp only [size, realdim] at *; omega)
      have hAl' : A.1.length + e1.intdim = e.intdim := a2
      rw [z, vars_right, ← this, ← vars_right]
      congr 1
      omega

theorem lceD_wf {e1 e2 : Env V} (h1 : e1.Wf) (h2 : e2.Wf) (hc : checkCompat e1 e2 = false) :
    (lceD e1 e2).Wf := by
  simp only [checkCompat, Bool.not_eq_false', Bool.and_eq_true] at hc
  refine ⟨lceA_sorted h1.ints h2.ints, lceA_sorted h1.reals h2.reals, fun v hv hv' => ?_⟩
  have c1 := (isInterEmpty_iff h1.ints h2.reals).1 hc.1
  have c2 := (isInterEmpty_iff h2.ints h1.reals).1 hc.2
  rcases (mem_lceA v).1 hv with a | a <;> rcases (mem_lceA v).1 hv' with b | b
  · exact h1.disj v a b
  · exact c1 v a b
  · exact c2 v a b
  · exact h2.disj v a b

theorem lceD_sub_left (e1 e2 : Env V) : Sub e1 (lceD e1 e2) :=
  ⟨fun v hv => (mem_lceA v).2 (Or.inl hv), fun v hv => (mem_lceA v).2 (Or.inl hv)⟩

theorem lceD_sub_right (e1 e2 : Env V) : Sub e2 (lceD e1 e2) :=
  ⟨fun v hv => (mem_lceA v).2 (Or.inr hv), fun v hv => (mem_lceA v).2 (Or.inr hv)⟩

theorem sameSize_iff {e e1 : Env V} (he : e.Wf) (h1 : e1.Wf) (hs : Sub e1 e) :
    sameSize e e1 = true ↔ e = e1 := by
  simp only [sameSize, Bool.and_eq_true, decide_eq_true_eq]
  constructor
  · rintro ⟨a, b⟩
    cases e; cases e1
    simp only [mk.injEq]
    exact ⟨(eq_of_subset_of_length h1.ints he.ints hs.1 (le_of_eq a)).symm,
      (eq_of_subset_of_length h1.reals he.reals hs.2 (le_of_eq b)).symm⟩
  · rintro rfl; exact ⟨rfl, rfl⟩

/-! ## Removal -/

theorem getElem_mem_drop {l : List V} {j : ℕ} (h : j < l.length) : l[j] ∈ l.drop j := by
  rw [List.drop_eq_getElem_cons h]; exact List.mem_cons_self

theorem removeSkip_spec {env var : List V} {i j : ℕ} (hE : env.Pairwise (· < ·))
    (hW : var.Pairwise (· < ·)) (hj : j ≤ var.length)
    (hsub : ∀ w ∈ var.drop j, w ∈ env.drop (i + j)) :
    ∃ j', removeSkip env var i j = .ok j' ∧ j' ≤ var.length ∧
      (∃ P, env.drop (i + j) = P ++ env.drop (i + j') ∧ var.drop j = P ++ var.drop j') ∧
      (∀ w ∈ var.drop j', w ∈ env.drop (i + j')) ∧
      (∀ v E, env.drop (i + j') = v :: E → v ∉ var.drop j') := by
  fun_induction removeSkip env var i j with
  | case1 j h hn =>
    exfalso
    have := hsub var[j] (getElem_mem_drop h)
    rw [List.drop_eq_nil_of_le (List.getElem?_eq_none_iff.1 hn)] at this
    simp at this
  | case2 j h v hv hlt =>
    exfalso
    obtain ⟨hb, rfl⟩ := List.getElem?_eq_some_iff.1 hv
    have := hsub var[j] (getElem_mem_drop h)
    have hs : (env.drop (i + j)).Pairwise (· < ·) := hE.drop
    rw [List.drop_eq_getElem_cons hb] at this hs
    exact not_mem_of_lt hs hlt this
  | case3 j h hv hirr ih =>
    obtain ⟨hb, e⟩ := List.getElem?_eq_some_iff.1 hv
    have dE := List.drop_eq_getElem_cons hb
    have dW := List.drop_eq_getElem_cons h
    rw [e] at dE
    have hsE : (env.drop (i + j)).Pairwise (· < ·) := hE.drop
    have hsW : (var.drop j).Pairwise (· < ·) := hW.drop
    obtain ⟨j', g1, g2, ⟨P, g3, g3'⟩, g4, g5⟩ := ih (by omega) (by
      intro w hw
      have := hsub w (by rw [dW]; exact List.mem_cons_of_mem _ hw)
      rw [dE] at this
      rw [dW] at hsW
      rcases List.mem_cons.1 this with rfl | h'
      · exact absurd (head_lt hsW hw) (lt_irrefl _)
      · exact h')
    refine ⟨j', g1, g2, ⟨var[j] :: P, ?_, ?_⟩, g4, g5⟩
    · rw [dE, ← Nat.add_assoc] at *
      rw [g3]; rfl
    · rw [dW, g3']; rfl
  | case4 j h v hv h1 h2 =>
    refine ⟨j, rfl, hj, ⟨[], rfl, rfl⟩, hsub, fun u E he => ?_⟩
    obtain ⟨hb, e⟩ := List.getElem?_eq_some_iff.1 hv
    rw [List.drop_eq_getElem_cons hb, e] at he
    simp only [List.cons.injEq] at he
    obtain ⟨rfl, -⟩ := he
    have hsW : (var.drop j).Pairwise (· < ·) := hW.drop
    rw [List.drop_eq_getElem_cons h] at hsW ⊢
    exact not_mem_of_lt hsW (lt_of_le_of_ne (not_lt.1 h1) h2)
  | case5 j h =>
    refine ⟨j, rfl, hj, ⟨[], rfl, rfl⟩, hsub, fun u E he => ?_⟩
    rw [List.drop_eq_nil_of_le (not_lt.1 h)]; simp

theorem removeLoop_spec {env var : List V} (hE : env.Pairwise (· < ·)) (hW : var.Pairwise (· < ·))
    (n : ℕ) : ∀ i j, j ≤ var.length → (∀ w ∈ var.drop j, w ∈ env.drop (i + j)) →
    (env.drop (i + j)).length = n + (var.drop j).length →
    ∃ F j', removeLoop env var n i j = .ok (F, j') ∧ j' ≤ var.length ∧
      env.drop (i + n + j') = var.drop j' ∧ F.Pairwise (· < ·) ∧
      ∀ v, v ∈ F ↔ v ∈ env.drop (i + j) ∧ v ∉ var.drop j := by
  induction n with
  | zero =>
    intro i j hj hsub hlen
    have hsE : (env.drop (i + j)).Pairwise (· < ·) := hE.drop
    have hsW : (var.drop j).Pairwise (· < ·) := hW.drop
    have e := eq_of_subset_of_length hsW hsE hsub (by omega)
    refine ⟨[], j, rfl, hj, by simpa using e.symm, List.Pairwise.nil, fun v => ?_⟩
    rw [e]; simp
  | succ n ih =>
    intro i j hj hsub hlen
    obtain ⟨j1, g1, g2, ⟨P, g3, g3'⟩, g4, g5⟩ := removeSkip_spec hE hW hj hsub
    have hsE : (env.drop (i + j)).Pairwise (· < ·) := hE.drop
    have hl1 : (env.drop (i + j1)).length = n + 1 + (var.drop j1).length := by
      have e1 := congrArg List.length g3
      have e2 := congrArg List.length g3'
      rw [List.length_append] at e1 e2
      omega
    have hb : i + j1 < env.length := by
      rw [List.length_drop] at hl1; omega
    have dE := List.drop_eq_getElem_cons hb
    have hnv := g5 _ _ dE
    have hsub2 : ∀ w ∈ var.drop j1, w ∈ env.drop (i + 1 + j1) := by
      intro w hw
      have := g4 w hw
      rw [dE] at this
      rcases List.mem_cons.1 this with rfl | h
      · exact absurd hw hnv
      · rwa [show i + 1 + j1 = i + j1 + 1 by omega]
    obtain ⟨F, j', f1, f2, f3, f4, f5⟩ := ih (i + 1) j1 g2 hsub2 (by
      rw [dE, List.length_cons] at hl1
      rw [show i + 1 + j1 = i + j1 + 1 by omega]; omega)
    have hs1 : (env.drop (i + j1)).Pairwise (· < ·) := hE.drop
    rw [dE] at hs1
    refine ⟨env[i + j1] :: F, j', ?_, f2, ?_, ?_, ?_⟩
    · rw [removeLoop, g1]
      simp only [Out.bind, List.getElem?_eq_getElem hb, f1]
    · rw [← f3]; congr 1; omega
    · refine List.pairwise_cons.2 ⟨fun v hv => ?_, f4⟩
      have := ((f5 v).1 hv).1
      rw [show i + 1 + j1 = i + j1 + 1 by omega] at this
      exact head_lt hs1 this
    · intro v
      have hd : ∀ u ∈ P, u ∉ env.drop (i + j1) := by
        rw [g3] at hsE
        intro u hu hu'
        exact lt_irrefl _ ((List.pairwise_append.1 hsE).2.2 u hu u hu')
      rw [List.mem_cons, f5, g3, g3', List.mem_append, List.mem_append, dE, List.mem_cons,
        show i + 1 + j1 = i + j1 + 1 by omega]
      constructor
      · rintro (rfl | ⟨h1, h2⟩)
        · exact ⟨Or.inr (Or.inl rfl), fun h => h.elim (fun h => hd _ h (getElem_mem_drop hb)) hnv⟩
        · exact ⟨Or.inr (Or.inr h1), fun h => h.elim (fun h => hd _ h (by rw [dE]; exact List.mem_cons_of_mem _ h1)) h2⟩
      · rintro ⟨h1 | h1 | h1, h2⟩
        · exact absurd (Or.inl h1) h2
        · exact Or.inl h1
        · exact Or.inr ⟨h1, fun h => h2 (Or.inr h)⟩

theorem removeEnd_spec {env var : List V} {n j : ℕ} (h : env.drop (n + j) = var.drop j) :
    removeEnd env var n j = .ok () := by
  fun_induction removeEnd env var n j with
  | case1 j hj hn =>
    exfalso
    rw [List.drop_eq_nil_of_le (List.getElem?_eq_none_iff.1 hn), List.drop_eq_getElem_cons hj] at h
    exact List.cons_ne_nil _ _ h.symm
  | case2 j hj hv ih =>
    obtain ⟨hb, e⟩ := List.getElem?_eq_some_iff.1 hv
    rw [List.drop_eq_getElem_cons hb, List.drop_eq_getElem_cons hj] at h
    exact ih (List.cons.inj h).2
  | case3 j hj v hv hne =>
    exfalso
    obtain ⟨hb, e⟩ := List.getElem?_eq_some_iff.1 hv
    rw [List.drop_eq_getElem_cons hb, List.drop_eq_getElem_cons hj, e] at h
    exact hne (List.cons.inj h).1
  | case4 => rfl

theorem removeA_ok {env var0 : List V} (hE : env.Pairwise (· < ·)) (hn : var0.Nodup)
    (hsub : ∀ v ∈ var0, v ∈ env) :
    removeA env var0 = .ok (env.filter fun v => decide (v ∉ var0)) := by
  have hp := normalize_perm var0
  have hle : var0.length ≤ env.length := (List.subperm_of_subset hn hsub).length_le
  rw [removeA, if_neg (not_lt.2 hle)]
  split_ifs with h0
  · have : var0 = [] := List.length_eq_zero_iff.1 h0
    subst this
    simp
  · have hW : (normalize var0).Pairwise (· < ·) :=
      (sorted_lt_iff_nodup (normalize_sorted var0)).2 (hp.nodup_iff.2 hn)
    obtain ⟨F, j', f1, f2, f3, f4, f5⟩ := removeLoop_spec hE hW (env.length - (normalize var0).length)
      0 0 (Nat.zero_le _) (by simpa using fun w hw => hsub w (hp.mem_iff.1 hw))
      (by simp only [Nat.add_zero, List.drop_zero, hp.length_eq]; omega)
    simp only [f1, Out.bind]
    rw [removeEnd_spec (by rw [← f3]; congr 1; omega)]
    refine congrArg Out.ok ?_
    refine sorted_ext f4 (hE.filter _) fun v => ?_
    rw [f5, List.mem_filter]
    simp [hp.mem_iff]

theorem removeSkip_inv {env var : List V} {i j j' : ℕ} (h : removeSkip env var i j = .ok j') :
    j ≤ j' ∧ ∃ P, env.drop (i + j) = P ++ env.drop (i + j') ∧ var.drop j = P ++ var.drop j' := by
  fun_induction removeSkip env var i j with
  | case1 => simp at h
  | case2 => simp at h
  | case3 j hj hv hirr ih =>
    obtain ⟨g0, P, g1, g2⟩ := ih h
    obtain ⟨hb, e⟩ := List.getElem?_eq_some_iff.1 hv
    refine ⟨by omega, var[j] :: P, ?_, ?_⟩
    · rw [List.drop_eq_getElem_cons hb, e, show i + j + 1 = i + (j + 1) by omega, g1]; rfl
    · rw [List.drop_eq_getElem_cons hj, g2]; rfl
  | case4 => simp only [Out.ok.injEq] at h; subst h; exact ⟨le_rfl, [], rfl, rfl⟩
  | case5 => simp only [Out.ok.injEq] at h; subst h; exact ⟨le_rfl, [], rfl, rfl⟩

theorem removeLoop_inv {env var : List V} (n : ℕ) : ∀ i j r, removeLoop env var n i j = .ok r →
    ∃ P Q, env.drop (i + j) = P ++ env.drop (i + n + r.2) ∧ var.drop j = Q ++ var.drop r.2 ∧
      Q.Sublist P := by
  induction n with
  | zero =>
    intro i j r h
    simp only [removeLoop, Out.ok.injEq] at h
    subst h
    exact ⟨[], [], rfl, rfl, List.Sublist.slnil⟩
  | succ n ih =>
    intro i j r h
    rw [removeLoop] at h
    rcases h1 : removeSkip env var i j with j1 | _ | _ | _ <;> rw [h1] at h <;>
      simp only [Out.bind, reduceCtorEq] at h
    obtain ⟨-, P, p1, p2⟩ := removeSkip_inv h1
    rcases hv : env[i + j1]? with _ | v <;> rw [hv] at h <;> simp only [reduceCtorEq] at h
    obtain ⟨hb, e⟩ := List.getElem?_eq_some_iff.1 hv
    rcases h2 : removeLoop env var n (i + 1) j1 with r1 | _ | _ | _ <;> rw [h2] at h <;>
      simp only [reduceCtorEq, Out.ok.injEq] at h
    subst h
    obtain ⟨P', Q', q1, q2, q3⟩ := ih _ _ _ h2
    refine ⟨P ++ v :: P', P ++ Q', ?_, ?_, (List.Sublist.refl P).append (q3.cons v)⟩
    · rw [p1, List.drop_eq_getElem_cons hb, e, show i + j1 + 1 = i + 1 + j1 by omega, q1]
      simp only [List.append_assoc, List.cons_append, List.append_cancel_left_eq, List.cons.injEq,
        true_and]
      congr 2; omega
    · rw [p2, q2]; simp

theorem removeEnd_inv {env var : List V} {n j : ℕ} (h : removeEnd env var n j = .ok ()) :
    (var.drop j).Sublist (env.drop (n + j)) := by
  fun_induction removeEnd env var n j with
  | case1 => simp at h
  | case2 j hj hv ih =>
    obtain ⟨hb, e⟩ := List.getElem?_eq_some_iff.1 hv
    rw [List.drop_eq_getElem_cons hb, List.drop_eq_getElem_cons hj, e]
    exact (ih h).cons_cons _
  | case3 => simp at h
  | case4 j hj => rw [List.drop_eq_nil_of_le (not_lt.1 hj)]; simp

theorem removeA_inv {env var0 r : List V} (hE : env.Pairwise (· < ·)) (h : removeA env var0 = .ok r) :
    var0.Nodup ∧ ∀ v ∈ var0, v ∈ env := by
  rw [removeA] at h
  split_ifs at h with h1 h0
  · have : var0 = [] := List.length_eq_zero_iff.1 h0
    subst this; simp
  · have hp := normalize_perm var0
    simp only at h
    rcases h2 : removeLoop env (normalize var0) (env.length - (normalize var0).length) 0 0 with
      r1 | _ | _ | _ <;> rw [h2] at h <;> simp only [Out.bind, reduceCtorEq] at h
    rcases h3 : removeEnd env (normalize var0) (env.length - (normalize var0).length) r1.2 with
      _ | _ | _ | _ <;> rw [h3] at h <;> simp only [reduceCtorEq] at h
    obtain ⟨P, Q, q1, q2, q3⟩ := removeLoop_inv _ _ _ _ h2
    have q4 := removeEnd_inv h3
    have hs : (normalize var0).Sublist env := by
      have := q3.append q4
      rw [Nat.zero_add, Nat.zero_add] at q1
      rw [← q1, ← q2] at this
      simpa using this
    exact ⟨hp.nodup_iff.1 (hs.nodup (nodup_of_sorted hE)),
      fun v hv => hs.subset (hp.mem_iff.2 hv)⟩

theorem splitLoop_spec {e : Env V} (he : e.Wf) (hsz : e.size ≤ dimMax) (t : List V) (i intdim : ℕ)
    (hi : intdim ≤ t.length) (h1 : ∀ k, k < i → k < intdim → ∀ v, t[k]? = some v → v ∈ e.ints)
    (h2 : ∀ k, intdim ≤ k → ∀ v, t[k]? = some v → v ∈ e.reals) :
    (splitLoop e t i intdim = .null ∧ ∃ v ∈ t, v ∉ e.vars) ∨
    ∃ t' n, splitLoop e t i intdim = .ok (t', n) ∧ t'.Perm t ∧ n ≤ t'.length ∧
      (∀ v ∈ t'.take n, v ∈ e.ints) ∧ (∀ v ∈ t'.drop n, v ∈ e.reals) := by
  fun_induction splitLoop e t i intdim with
  | case1 t i intdim hc hn => rw [List.getElem?_eq_none_iff] at hn; omega
  | case2 t i intdim hc v hv dim hd =>
    refine Or.inl ⟨rfl, v, List.mem_of_getElem? hv, fun hmem => ?_⟩
    rcases dimOfVar_cases he v with ⟨-, a, -⟩ | ⟨-, -, a, -⟩ | ⟨a, -⟩
    · have : e.intdim ≤ e.size := by simp [size]
      simp only [dim] at hd; omega
    · simp only [dim] at hd; omega
    · exact a hmem
  | case3 t i intdim hc v hv dim hd hge hn => rw [List.getElem?_eq_none_iff] at hn; omega
  | case4 t i intdim hc v hv dim hd hge w hw ih =>
    obtain ⟨hb1, e1⟩ := List.getElem?_eq_some_iff.1 hv
    obtain ⟨hb2, e2⟩ := List.getElem?_eq_some_iff.1 hw
    have hp : ((t.set i w).set (intdim - 1) v).Perm t := by
      rw [← e1, ← e2]; exact List.set_set_perm hb1 hb2
    have hvr : v ∈ e.reals := by
      rcases dimOfVar_cases he v with ⟨-, a, -⟩ | ⟨a, -⟩ | ⟨-, a⟩
      · simp only [dim] at hge; omega
      · exact a
      · exact absurd a hd
    rcases ih (by simp only [List.length_set]; omega) (by
        intro k hk hk' u hu
        rw [List.getElem?_set_ne (by omega), List.getElem?_set_ne (by omega)] at hu
        exact h1 k hk (by omega) u hu) (by
        intro k hk u hu
        by_cases hkk : k = intdim - 1
        · subst hkk
          rw [List.getElem?_set_self (by simp only [List.length_set]; omega)] at hu
          simp only [Option.some.injEq] at hu
          subst hu; exact hvr
        · rw [List.getElem?_set_ne (by omega), List.getElem?_set_ne (by omega)] at hu
          exact h2 k (by omega) u hu) with ⟨g1, u, g2, g3⟩ | ⟨t', n, g1, g2, g3⟩
    · exact Or.inl ⟨g1, u, hp.mem_iff.1 g2, g3⟩
    · exact Or.inr ⟨t', n, g1, g2.trans hp, g3⟩
  | case5 t i intdim hc v hv dim hd hge ih =>
    have hvi : v ∈ e.ints := by
      rcases dimOfVar_cases he v with ⟨a, -⟩ | ⟨-, a, -⟩ | ⟨-, a⟩
      · exact a
      · simp only [dim] at hge; omega
      · exact absurd a hd
    refine ih hi ?_ h2
    intro k hk hk' u hu
    by_cases hki : k = i
    · subst hki
      rw [hv] at hu
      simp only [Option.some.injEq] at hu
      subst hu; exact hvi
    · exact h1 k (by omega) hk' u hu
  | case6 t i intdim hc =>
    refine Or.inr ⟨t, intdim, rfl, List.Perm.refl _, hi, fun v hv => ?_, fun v hv => ?_⟩
    · obtain ⟨k, hk, e'⟩ := List.getElem_of_mem hv
      rw [List.length_take] at hk
      rw [List.getElem_take] at e'
      exact h1 k (by omega) (by omega) v (by rw [List.getElem?_eq_getElem (by omega), e'])
    · obtain ⟨k, hk, e'⟩ := List.getElem_of_mem hv
      rw [List.length_drop] at hk
      rw [List.getElem_drop] at e'
      exact h2 (intdim + k) (by omega) v (by rw [List.getElem?_eq_getElem (by omega), e'])

/-! ## Least common environment of an array -/

theorem minName_le (name : V) (t : List (List V)) :
    minName name t ≤ name ∧ ∀ a l, a :: l ∈ t → minName name t ≤ a := by
  induction t generalizing name with
  | nil => simp [minName]
  | cons m t ih =>
    rcases m with _ | ⟨b, m⟩
    · refine ⟨(ih name).1, fun a l h => ?_⟩
      rcases List.mem_cons.1 h with h | h
      · simp at h
      · exact (ih name).2 a l h
    · rw [minName]
      split_ifs with hb
      · refine ⟨(ih b).1.trans hb.le, fun a l h => ?_⟩
        rcases List.mem_cons.1 h with h | h
        · rw [(List.cons.inj h).1]; exact (ih b).1
        · exact (ih b).2 a l h
      · refine ⟨(ih name).1, fun a l h => ?_⟩
        rcases List.mem_cons.1 h with h | h
        · rw [(List.cons.inj h).1]; exact (ih name).1.trans (not_lt.1 hb)
        · exact (ih name).2 a l h

theorem firstName_none {t : List (List V)} (h : firstName t = none) : ∀ l ∈ t, l = [] := by
  induction t with
  | nil => simp
  | cons m t ih =>
    rcases m with _ | ⟨b, m⟩
    · simpa using ih h
    · simp [firstName] at h

theorem min_le_all {t : List (List V)} {a : V} (h : firstName t = some a)
    (hs : ∀ l ∈ t, l.Pairwise (· < ·)) :
    ∀ l ∈ t, ∀ v ∈ l, minName a t.tail ≤ v := by
  have heads : ∀ b l, b :: l ∈ t → minName a t.tail ≤ b := by
    intro b l hb
    rcases t with _ | ⟨m, t⟩
    · simp at hb
    · rcases List.mem_cons.1 hb with hb | hb
      · subst hb
        simp only [firstName, Option.some.injEq] at h
        subst h
        exact (minName_le b t).1
      · exact (minName_le a t).2 b l hb
  intro l hl v hv
  rcases l with _ | ⟨b, l⟩
  · simp at hv
  · have := heads b l hl
    rcases List.mem_cons.1 hv with rfl | hv
    · exact this
    · exact this.trans (head_lt (hs _ hl) hv).le

theorem advance_sorted {name : V} {t : List (List V)} (hs : ∀ l ∈ t, l.Pairwise (· < ·)) :
    ∀ l ∈ advance name t, l.Pairwise (· < ·) := by
  intro l hl
  obtain ⟨m, hm, rfl⟩ := List.mem_map.1 hl
  have := hs m hm
  rcases m with _ | ⟨b, m⟩
  · exact List.Pairwise.nil
  · simp only
    split_ifs
    · exact tail_sorted this
    · exact this

theorem mem_advance {name : V} {t : List (List V)} (hs : ∀ l ∈ t, l.Pairwise (· < ·))
    (hle : ∀ l ∈ t, ∀ v ∈ l, name ≤ v) (v : V) :
    (∃ l ∈ advance name t, v ∈ l) ↔ (∃ l ∈ t, v ∈ l) ∧ v ≠ name := by
  have key : ∀ m ∈ t, (v ∈ (match m with
    | [] => []
    | a :: l => if name = a then l else a :: l : List V)) ↔ v ∈ m ∧ v ≠ name := by
    intro m hm
    have hs' := hs m hm
    have hle' := hle m hm
    rcases m with _ | ⟨b, m⟩
    · simp
    · simp only
      split_ifs with h
      · subst h
        refine ⟨fun hv => ⟨by simp [hv], (head_lt hs' hv).ne'⟩, fun hv => ?_⟩
        rcases List.mem_cons.1 hv.1 with h | h
        · exact absurd h hv.2
        · exact h
      · refine ⟨fun hv => ⟨hv, ?_⟩, fun hv => hv.1⟩
        rintro rfl
        rcases List.mem_cons.1 hv with h' | h'
        · exact h h'
        · exact lt_irrefl _ ((head_lt hs' h').trans_le (hle' b (by simp)))
  constructor
  · rintro ⟨l, hl, hv⟩
    obtain ⟨m, hm, rfl⟩ := List.mem_map.1 hl
    exact ⟨⟨m, hm, ((key m hm).1 hv).1⟩, ((key m hm).1 hv).2⟩
  · rintro ⟨⟨m, hm, hv⟩, hne⟩
    exact ⟨_, List.mem_map.2 ⟨m, hm, rfl⟩, (key m hm).2 ⟨hv, hne⟩⟩

theorem lceArrayA_spec (t : List (List V)) (hs : ∀ l ∈ t, l.Pairwise (· < ·)) :
    (∀ v, v ∈ lceArrayA t ↔ ∃ l ∈ t, v ∈ l) ∧ (lceArrayA t).Pairwise (· < ·) := by
  fun_induction lceArrayA t with
  | case1 t h =>
    refine ⟨fun v => ?_, List.Pairwise.nil⟩
    simp only [List.not_mem_nil, false_iff]
    rintro ⟨l, hl, hv⟩
    rw [firstName_none h l hl] at hv
    simp at hv
  | case2 t name h ih =>
    have hle := min_le_all h hs
    obtain ⟨i1, i2⟩ := ih (advance_sorted hs)
    obtain ⟨l0, hl0⟩ := minName_mem t.tail (firstName_mem h) fun l hl => List.mem_of_mem_tail hl
    have hmem : ∀ v, v ∈ lceArrayA (advance (minName name t.tail) t) ↔
        (∃ l ∈ t, v ∈ l) ∧ v ≠ minName name t.tail := fun v => by
      rw [i1, mem_advance hs hle]
    refine ⟨fun v => ?_, List.pairwise_cons.2 ⟨fun v hv => ?_, i2⟩⟩
    · rw [List.mem_cons, hmem]
      constructor
      · rintro (rfl | h')
        · exact ⟨_, hl0, by simp⟩
        · exact h'.1
      · intro h'
        by_cases hv : v = minName name t.tail
        · exact Or.inl hv
        · exact Or.inr ⟨h', hv⟩
    · obtain ⟨⟨l, hl, hv⟩, hne⟩ := (hmem v).1 hv
      exact lt_of_le_of_ne (hle l hl v hv) (Ne.symm hne)

/-! ## Renaming -/

/-- the substitution of the pairs of a renaming: the last pair for a name wins -/
def renamed (ps : List (V × V)) (v : V) : V := (ps.reverse.lookup v).getD v

theorem dimOfVar_eq {e : Env V} (he : e.Wf) {d : ℕ} {v : V} (hd : e.vars[d]? = some v) :
    dimOfVar e v = d := by
  have hv : v ∈ e.vars := List.mem_of_getElem? hd
  have : e.vars[dimOfVar e v]? = some v := by
    rcases dimOfVar_cases he v with ⟨-, -, a⟩ | ⟨-, -, -, a⟩ | ⟨a, -⟩
    · exact a
    · exact a
    · exact absurd hv a
  obtain ⟨h1, e1⟩ := List.getElem?_eq_some_iff.1 this
  obtain ⟨h2, e2⟩ := List.getElem?_eq_some_iff.1 hd
  exact (List.Nodup.getElem_inj_iff (nodup_vars he)).1 (e1.trans e2.symm)

theorem dimOfVar_max_iff {e : Env V} (he : e.Wf) (hsz : e.size ≤ dimMax) (v : V) :
    dimOfVar e v = dimMax ↔ v ∉ e.vars := by
  rcases dimOfVar_cases he v with ⟨a, b, -⟩ | ⟨a, -, b, -⟩ | ⟨a, b⟩
  · have : e.intdim ≤ e.size := by simp [size]
    exact iff_of_false (by omega) (fun h => h ((mem_vars e v).2 (Or.inl a)))
  · exact iff_of_false (by omega) (fun h => h ((mem_vars e v).2 (Or.inr a)))
  · exact iff_of_true b a

theorem renameLoop_spec {e : Env V} (he : e.Wf) (hsz : e.size ≤ dimMax) (ps : List (V × V)) :
    ∀ res : List (Option V), res.length = e.size →
    ((renameLoop e res ps = none ∧ ∃ p ∈ ps, p.1 ∉ e.vars) ∨
    ∃ cells, renameLoop e res ps = some cells ∧ (∀ p ∈ ps, p.1 ∈ e.vars) ∧ cells.length = e.size ∧
      ∀ d v, e.vars[d]? = some v → cells[d]? =
        some (match ps.reverse.lookup v with | some w => some w | none => res.getD d none)) := by
  induction ps with
  | nil =>
    intro res hl
    refine Or.inr ⟨res, rfl, by simp, hl, fun d v hd => ?_⟩
    have : d < res.length := by
      rw [hl, ← vars_length]; exact (List.getElem?_eq_some_iff.1 hd).1
    simp [List.getD, List.getElem?_eq_getElem this]
  | cons p ps ih =>
    intro res hl
    rw [renameLoop]
    by_cases hp : p.1 ∈ e.vars
    · rw [if_neg (fun h => (dimOfVar_max_iff he hsz p.1).1 h hp)]
      rcases ih (res.set (dimOfVar e p.1) (some p.2)) (by rw [List.length_set, hl]) with
        ⟨g1, q, g2, g3⟩ | ⟨cells, g1, g2, g3, g4⟩
      · exact Or.inl ⟨g1, q, by simp [g2], g3⟩
      · refine Or.inr ⟨cells, g1, ?_, g3, fun d v hd => ?_⟩
        · intro q hq
          rcases List.mem_cons.1 hq with rfl | hq
          · exact hp
          · exact g2 q hq
        · rw [g4 d v hd, List.reverse_cons, List.lookup_append]
          rcases hlk : ps.reverse.lookup v with _ | w
          · simp only [Option.none_or]
            have hdl : d < res.length := by
              rw [hl, ← vars_length]; exact (List.getElem?_eq_some_iff.1 hd).1
            by_cases hpv : v = p.1
            · subst hpv
              rw [dimOfVar_eq he hd]
              simp [List.lookup, List.getD, List.getElem?_set_self hdl]
            · have : dimOfVar e p.1 ≠ d := by
                intro hh
                have h3 : e.vars[dimOfVar e p.1]? = some p.1 := by
                  rcases dimOfVar_cases he p.1 with ⟨-, -, a⟩ | ⟨-, -, -, a⟩ | ⟨a, -⟩
                  · exact a
                  · exact a
                  · exact absurd hp a
                rw [hh, hd] at h3
                exact hpv (Option.some.inj h3)
              have hb : (v == p.1) = false := by simpa using hpv
              simp [List.lookup, hb, List.getD, List.getElem?_set_ne this]
          · simp
    · rw [if_pos ((dimOfVar_max_iff he hsz p.1).2 hp)]
      exact Or.inl ⟨rfl, p, by simp, hp⟩

end Env
end Apron
