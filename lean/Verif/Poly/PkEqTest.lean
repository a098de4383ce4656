import Verif.Poly.PkNorm

/-!
# Polyhedra: equality test, unconstrained dimensions, minimisation
-/

set_option autoImplicit false
set_option linter.unusedSectionVars false

namespace Apron.Poly

variable {K : Type*} [LinearOrder K] [Field K] [IsStrictOrderedRing K] {d n : ℕ}

theorem both_γ (f : Full) (x : Fin n → K) : (Rep.both f).γ x ↔ Sat f.crows (hom x) := Iff.rfl

theorem both_exists_point {f : Full} (h : (Rep.both f).Wf K n) : ∃ x : Fin n → K, (Rep.both f).γ x := h.exists_point (F := f.frows) rfl

/-- equal polyhedra have equal cones -/
theorem cone_le_of_γ {f g : Full} (hf : (Rep.both f).Wf K n)
    (h : ∀ x : Fin n → K, (Rep.both f).γ x → (Rep.both g).γ x) (y : Fin (n + 1) → K) (hy : Sat f.crows y) : Sat g.crows y :=
  IsCone.sat (S := Sat f.crows) (Sat.isCone _) hf.pos (both_exists_point hf) (fun x hx => h x hx) hy

theorem minimize_spec {r : Rep} (h : r.Wf K n) : (Rep.minimize n r).Wf K n ∧ ∀ x : Fin n → K, (Rep.minimize n r).γ x ↔ r.γ x := by
  have hw := chernikova_wf h
  have hg : ∀ x : Fin n → K, (r.chernikova n).γ x ↔ r.γ x := chernikova_γ h
  rw [Rep.minimize]
  rcases chernikova_shape n r with e | ⟨f, e⟩
  · rw [e] at hw hg ⊢; exact ⟨hw, hg⟩
  · rw [e] at hw hg ⊢
    dsimp only
    split_ifs
    · refine ⟨⟨fun y hy => hw.2.1 y ((hw.1.sat_iff y).2 hy), ?_⟩, fun x => ?_⟩
      · obtain ⟨y, hy, h0⟩ := hw.2.2
        exact ⟨y, (hw.1.sat_iff y).1 hy, h0⟩
      · rw [← hg]
        exact (hw.1.sat_iff (hom x)).symm
    · exact ⟨hw.2.1, hg⟩

/-! ## Equality -/

theorem matrixEqual_iff {A B : List Row} : Rep.matrixEqual (n + 2) A B = true ↔ A.map (vkey (n + 2)) = B.map (vkey (n + 2)) := by
  rw [Rep.matrixEqual, Bool.and_eq_true, beq_iff_eq]
  constructor
  · rintro ⟨hl, h⟩
    refine List.ext_getElem (by simpa using hl) fun i h1 h2 => ?_
    rw [List.length_map] at h1 h2
    rw [List.getElem_map, List.getElem_map]
    rw [List.all_eq_true] at h
    have h3 := h ((List.range (n + 2)).all fun j => A[i].at' j == B[i].at' j) (by
      refine List.mem_iff_getElem.2 ⟨i, by rw [List.length_zipWith]; omega, ?_⟩
      rw [List.getElem_zipWith])
    have h4 : ∀ j, j < n + 2 → A[i].at' j = B[i].at' j := by
      intro j hj
      have := List.all_eq_true.1 h3 j (List.mem_range.2 hj)
      exact of_decide_eq_true this
    exact vkey_congr (h4 0 (by omega)) fun j hj => h4 (j + 1) (by omega)
  · intro h
    obtain ⟨hl, h⟩ := vkeys_eq h
    refine ⟨hl, ?_⟩
    rw [List.all_eq_true]
    intro b hb
    obtain ⟨i, hi, rfl⟩ := List.getElem_of_mem hb
    rw [List.length_zipWith] at hi
    rw [List.getElem_zipWith]
    refine List.all_eq_true.2 fun j hj => ?_
    rw [beq_iff_eq]
    exact h i (by omega) (by omega) j (List.mem_range.1 hj)

theorem sat_of_keys {A B : List Row} (h : A.map (vkey (n + 2)) = B.map (vkey (n + 2))) (y : Fin (n + 1) → K) (hy : Sat A y) : Sat B y := by
  intro q hq
  obtain ⟨hl, h⟩ := vkeys_eq h
  obtain ⟨i, hi, rfl⟩ := List.getElem_of_mem hq
  have h1 := hy (A[i]'(by omega)) (List.getElem_mem _)
  have h2 := h i (by omega) hi
  rw [h2 0 (by omega), dot_congr (fun j hj => h2 (j + 1) (by omega)) y] at h1
  exact h1

theorem sat_keys_iff {A B : List Row} (h : A.map (vkey (n + 2)) = B.map (vkey (n + 2))) (y : Fin (n + 1) → K) : Sat A y ↔ Sat B y :=
  ⟨sat_of_keys h y, sat_of_keys h.symm y⟩

theorem genM_keys_iff {A B : List Row} (h : A.map (vkey (n + 2)) = B.map (vkey (n + 2))) (y : Fin (n + 1) → K) : GenM A y ↔ GenM B y := by
  rw [genM_iff_polar, genM_iff_polar]
  exact forall_congr' fun z => by rw [sat_keys_iff h z]

theorem Full.Nice.norm {f : Full} (h : f.Nice d) (hc : (Rep.both f).isCanonical = true) : f.Norm d := by
  rw [Rep.isCanonical] at hc
  simp only [Bool.and_eq_true] at hc
  exact ⟨h.1.weaken (fun _ => hc.1.2) (fun _ => hc.1.1.1), h.2.weaken (fun _ => hc.2) (fun _ => hc.1.1.2)⟩

theorem Rep.Nice.chernikova3 {r : Rep} (h : r.Nice n) (hw : r.Wf K n) : (r.chernikova3 n).Nice n := by
  have h1 := h.chernikova
  have h2 := chernikova_wf hw
  rw [Rep.chernikova3]
  rcases chernikova_shape n r with e | ⟨f, e⟩
  · rw [e]; trivial
  · rw [e] at h1 h2 ⊢
    have := Full.Nice.canon h1 h2.1
    exact ⟨this.1.weaken (fun _ => trivial) (fun _ => trivial), this.2.weaken (fun _ => trivial) (fun _ => trivial)⟩

theorem sortC_sorted (f : Full) : (f.sortC n).sortedC = true ∧ (f.sortC n).sortedF = f.sortedF := by
  rw [Full.sortC]; split_ifs with h <;> simp [h]

theorem canon_canonical (f : Full) : (Rep.both (f.canon n)).isCanonical = true := by
  have h1 := sortC_sorted (n := n) (((f.gaussC n).gaussF n))
  have h2 := sortC_sorted (n := n) ((((f.gaussC n).gaussF n).sortC n).dual)
  have e1 : (f.canon n).sortedC = true := by
    change ((((((f.gaussC n).gaussF n).sortC n).dual).sortC n).dual).sortedC = true
    change (((((f.gaussC n).gaussF n).sortC n).dual).sortC n).sortedF = true
    rw [h2.2]; exact h1.1
  have e2 : (f.canon n).sortedF = true := h2.1
  have e3 : (f.canon n).consgauss = true := rfl
  have e4 : (f.canon n).gengauss = true := rfl
  rw [Rep.isCanonical, e1, e2, e3, e4]; rfl

theorem canonical_test {fa fb : Full} (wa : (Rep.both fa).Wf K n) (wb : (Rep.both fb).Wf K n) :
    (fa.C.length == fb.C.length && (fa.F.length == fb.F.length &&
          if fa.C.length ≤ fa.F.length then Rep.matrixEqual (n + 2) fa.crows fb.crows else Rep.matrixEqual (n + 2) fa.frows fb.frows)) = true →
    ∀ x : Fin n → K, (Rep.both fa).γ x ↔ (Rep.both fb).γ x := by
  intro h x
  rw [Bool.and_eq_true, Bool.and_eq_true] at h
  obtain ⟨-, -, h⟩ := h
  rw [both_γ, both_γ]
  split_ifs at h
  · exact sat_keys_iff (matrixEqual_iff.1 h) _
  · rw [wa.1.sat_iff, wb.1.sat_iff]; exact genM_keys_iff (matrixEqual_iff.1 h) _

theorem canonical_test_complete {fa fb : Full} (wa : (Rep.both fa).Wf K n) (wb : (Rep.both fb).Wf K n) (na : fa.Norm (n + 1)) (nb : fb.Norm (n + 1))
    (h : ∀ x : Fin n → K, (Rep.both fa).γ x ↔ (Rep.both fb).γ x) :
    (fa.C.length == fb.C.length && (fa.F.length == fb.F.length &&
          if fa.C.length ≤ fa.F.length then Rep.matrixEqual (n + 2) fa.crows fb.crows else Rep.matrixEqual (n + 2) fa.frows fb.frows)) = true := by
  obtain ⟨h1, h2⟩ := na.unique nb wa.1 wb.1 fun y => ⟨cone_le_of_γ wa (fun x => (h x).1) y, cone_le_of_γ wb (fun x => (h x).2) y⟩
  have l1 := (vkeys_eq h1).1
  have l2 := (vkeys_eq h2).1
  rw [Full.crows, Full.crows, List.length_map, List.length_map] at l1
  rw [Full.frows, Full.frows, List.length_map, List.length_map] at l2
  rw [Bool.and_eq_true, Bool.and_eq_true, beq_iff_eq, beq_iff_eq]
  refine ⟨l1, l2, ?_⟩
  split_ifs
  · exact matrixEqual_iff.2 h1
  · exact matrixEqual_iff.2 h2

theorem eqTest_sound {pa pb : Rep} (ha : pa.Wf K n) (hb : pb.Wf K n) {leqAlg : ℤ} (h : Rep.eqTest n leqAlg pa pb = true) (x : Fin n → K) :
    pa.γ x ↔ pb.γ x := by
  unfold Rep.eqTest at h
  by_cases hc : (pa.isCanonical && pb.isCanonical) = true
  · rw [if_pos hc] at h
    cases pa <;> cases pb <;> first
      | exact Iff.rfl
      | exact canonical_test ha hb h x
      | exact absurd h Bool.false_ne_true
  · rw [if_neg hc, Bool.and_eq_true] at h
    exact ⟨(isLeq_iff ha hb _).1 h.1 x, (isLeq_iff hb ha _).1 h.2 x⟩

theorem eqTest_complete {pa pb : Rep} (ha : pa.Wf K n) (hb : pb.Wf K n) (na : pa.Nice n) (nb : pb.Nice n) {leqAlg : ℤ}
    (h : ∀ x : Fin n → K, pa.γ x ↔ pb.γ x) : Rep.eqTest n leqAlg pa pb = true := by
  unfold Rep.eqTest
  by_cases hc : (pa.isCanonical && pb.isCanonical) = true
  · rw [if_pos hc]
    rw [Bool.and_eq_true] at hc
    cases pa <;> cases pb <;> first
      | rfl
      | exact canonical_test_complete ha hb (Full.Nice.norm na hc.1) (Full.Nice.norm nb hc.2) h
      | exact absurd hc.1 Bool.false_ne_true
      | exact absurd hc.2 Bool.false_ne_true
      | (obtain ⟨x, hx⟩ := both_exists_point ha; exact ((h x).1 hx).elim)
      | (obtain ⟨x, hx⟩ := both_exists_point hb; exact ((h x).2 hx).elim)
  · rw [if_neg hc, Bool.and_eq_true]
    exact ⟨(isLeq_iff ha hb _).2 fun x => (h x).1, (isLeq_iff hb ha _).2 fun x => (h x).2⟩

theorem isEq_unfold (n : ℕ) (alg leqAlg : ℤ) (pa pb : Rep) :
    Rep.isEq n alg leqAlg pa pb = (!Rep.eqDiff pa pb && Rep.eqTest n leqAlg (if 0 < alg then pa.chernikova3 n else pa) (if 0 < alg then pb.chernikova3 n else pb)) := by
  rw [Rep.isEq]
  cases Rep.eqDiff pa pb <;> rfl

theorem isEq_sound {pa pb : Rep} (ha : pa.Wf K n) (hb : pb.Wf K n) {alg leqAlg : ℤ} (h : Rep.isEq n alg leqAlg pa pb = true) (x : Fin n → K) :
    pa.γ x ↔ pb.γ x := by
  rw [isEq_unfold, Bool.and_eq_true] at h
  have h1 := h.2
  split_ifs at h1
  · rw [← chernikova3_γ ha, ← chernikova3_γ hb]
    exact eqTest_sound (chernikova3_wf ha) (chernikova3_wf hb) h1 x
  · exact eqTest_sound ha hb h1 x

theorem isEq_complete {pa pb : Rep} (ha : pa.Wf K n) (hb : pb.Wf K n) (na : pa.Nice n) (nb : pb.Nice n) {alg leqAlg : ℤ}
    (h : ∀ x : Fin n → K, pa.γ x ↔ pb.γ x) : Rep.isEq n alg leqAlg pa pb = true := by
  rw [isEq_unfold, Bool.and_eq_true]
  constructor
  · cases pa <;> cases pb <;> try rfl
    rename_i fa fb
    have h1 : ∀ y : Fin (n + 1) → K, Sat fa.crows y → Sat fb.crows y := fun y => cone_le_of_γ ha (fun x => (h x).1) y
    have h2 : ∀ y : Fin (n + 1) → K, Sat fb.crows y → Sat fa.crows y := fun y => cone_le_of_γ hb (fun x => (h x).2) y
    have e1 : fa.nbeq = fb.nbeq := le_antisymm (hb.1.nbeq_le ha.1 h2) (ha.1.nbeq_le hb.1 h1)
    have e2 : fa.nbline = fb.nbline := le_antisymm (ha.1.nbline_le hb.1 h1) (hb.1.nbline_le ha.1 h2)
    simp [Rep.eqDiff, e1, e2]
  · split_ifs
    · refine eqTest_complete (chernikova3_wf ha) (chernikova3_wf hb) (na.chernikova3 ha) (nb.chernikova3 hb) fun x => ?_
      rw [chernikova3_γ ha, chernikova3_γ hb]; exact h x
    · exact eqTest_complete ha hb na nb h

/-! ## Unconstrained dimensions -/

/-- the unit vector of dimension `dim`, in the cone -/
def unitV (K : Type*) [LinearOrder K] [Field K] [IsStrictOrderedRing K] (n dim : ℕ) : Fin (n + 1) → K := fun i => if (i : ℕ) = dim + 1 then 1 else 0

theorem hom_update (x : Fin n → K) {dim : ℕ} (hd : dim < n) (v : K) :
    hom (fun i : Fin n => if (i : ℕ) = dim then v else x i) = hom x + (v - x ⟨dim, hd⟩) • unitV K n dim := by
  funext i
  refine Fin.cases ?_ (fun j => ?_) i
  · simp [hom, unitV]
  · simp only [hom, Fin.cons_succ, Pi.add_apply, Pi.smul_apply, unitV, Fin.val_succ, smul_eq_mul, Nat.add_right_cancel_iff]
    split_ifs with h
    · have : j = ⟨dim, hd⟩ := Fin.ext h
      subst this
      ring
    · ring

theorem isDimUnconstrained_sound {r : Rep} (h : r.Wf K n) {dim : ℕ} (hd : dim < n) (hu : r.isDimUnconstrained n dim = true) :
    ∀ x : Fin n → K, r.γ x → ∀ v, r.γ (fun i : Fin n => if (i : ℕ) = dim then v else x i) := by
  have hw := chernikova3_wf h
  intro x hx v
  rw [← chernikova3_γ h] at hx ⊢
  rw [Rep.isDimUnconstrained] at hu
  revert hu; revert hx; revert hw
  cases hr : r.chernikova3 n with
  | bot => intro _ hx _; exact False.elim hx
  | cons C => intro _ _ hu; simp at hu
  | gens C => intro _ _ hu; simp at hu
  | both f =>
    intro hw hx hu
    dsimp only at hu
    cases hf : f.lines.find? fun l => l.at' (2 + dim) ≠ 0 with
    | none => rw [hf] at hu; simp at hu
    | some l =>
      rw [hf] at hu
      have hl := List.mem_of_find?_eq_some hf
      have hne := List.find?_some hf
      simp only [ne_eq, decide_not, Bool.not_eq_eq_eq_not, Bool.not_true, decide_eq_false_iff_not] at hne
      have hz : ∀ j, j < n → j ≠ dim → l.at' (j + 2) = 0 := by
        intro j hj hjd
        have := List.all_eq_true.1 hu j (List.mem_range.2 hj)
        rw [Bool.or_eq_true, decide_eq_true_eq, beq_iff_eq] at this
        rcases this with h1 | h1
        · exact absurd h1 hjd
        · rw [Nat.add_comm]; exact h1
      have hsl : Sat f.crows (toV K (n + 1) l) := (hw.1.min.prim.gen_iff _ |>.2 (Gen.of_line hl)) |> fun h => by rw [crows_eq]; exact h
      have hsl' : Sat f.crows (-toV K (n + 1) l) := (hw.1.min.prim.gen_iff _ |>.2 (Gen.of_neg_line hl)) |> fun h => by rw [crows_eq]; exact h
      have h0 : l.at' 1 = 0 := by
        have p1 := hw.2.1 _ hsl
        have p2 := hw.2.1 _ hsl'
        rw [Pi.neg_apply] at p2
        have p3 : toV K (n + 1) l 0 = 0 := le_antisymm (by linarith) p1
        simp only [toV, Fin.val_zero, Nat.zero_add] at p3
        exact_mod_cast p3
      have he : toV K (n + 1) l = (l.at' (dim + 2) : K) • unitV K n dim := by
        funext i
        refine Fin.cases ?_ (fun j => ?_) i
        · simp [toV, unitV, h0]
        · simp only [toV, Fin.val_succ, Pi.smul_apply, unitV, smul_eq_mul, Nat.add_right_cancel_iff]
          split_ifs with hj
          · rw [hj, mul_one]
          · rw [hz j j.2 hj]; simp
      have hc : (l.at' (dim + 2) : K) ≠ 0 := by
        rw [Nat.add_comm] at hne
        exact_mod_cast hne
      rw [both_γ] at hx ⊢
      rw [hom_update x hd v]
      have hall : ∀ t : K, Sat f.crows (t • toV K (n + 1) l) := by
        intro t
        have hC := Sat.isCone (K := K) (d := n + 1) f.crows
        rcases le_total 0 t with ht | ht
        · exact hC.smul ht hsl
        · have := hC.smul (neg_nonneg.2 ht) hsl'
          rwa [neg_smul_neg] at this
      have := (Sat.isCone (K := K) (d := n + 1) f.crows).add hx (hall ((v - x ⟨dim, hd⟩) / (l.at' (dim + 2) : K)))
      rwa [he, smul_smul, div_mul_cancel₀ _ hc] at this

theorem isDimUnconstrained_complete {r : Rep} (h : r.Wf K n) (hn : r.Nice n) {dim : ℕ} (hd : dim < n) {x0 : Fin n → K} (hx0 : r.γ x0)
    (hu : ∀ v, r.γ (fun i : Fin n => if (i : ℕ) = dim then v else x0 i)) : r.isDimUnconstrained n dim = true := by
  have hw := chernikova3_wf h
  have hnorm : ∀ f, r.chernikova3 n = .both f → f.Norm (n + 1) := by
    intro f hf
    have h1 := hn.chernikova
    have h2 := chernikova_wf h
    rw [Rep.chernikova3] at hf
    rcases chernikova_shape n r with e | ⟨f', e⟩
    · rw [e] at hf; cases hf
    · rw [e] at hf h1 h2
      cases hf
      exact Full.Nice.canon h1 h2.1
  rw [Rep.isDimUnconstrained]
  simp only [← chernikova3_γ h] at hx0 hu
  revert hu; revert hx0; revert hnorm; revert hw
  rcases chernikova_shape n r with e | ⟨f', e⟩
  · have : r.chernikova3 n = .bot := by rw [Rep.chernikova3, e]
    rw [this]
    intro _ _ hx _; exact False.elim hx
  · obtain ⟨f, hf⟩ : ∃ f, r.chernikova3 n = .both f := ⟨f'.canon n, by rw [Rep.chernikova3, e]⟩
    rw [hf]
    intro hw hnorm hx0 hu
    have hN := hnorm f rfl
    have hlin : unitV K n dim ∈ rowSpan K (n + 1) f.lines := by
      refine Gen.mem_rowSpan ((hw.1.min.prim.lin_iff _).1 fun q hq => ?_)
      rw [← crows_eq] at hq
      have key : ∀ t : K, 0 ≤ dot q (hom x0) + t * dot q (unitV K n dim) := by
        intro t
        have h1 := (hu (t + x0 ⟨dim, hd⟩) q hq).1
        rw [hom_update x0 hd, add_sub_cancel_right, ← lin_apply, map_add, map_smul, lin_apply, lin_apply, smul_eq_mul] at h1
        exact h1
      by_contra hne
      have h2 := key (-(dot q (hom x0) + 1) / dot q (unitV K n dim))
      rw [div_mul_cancel₀ _ hne] at h2
      linarith
    have hred : Reduced (n + 1) f.lines f.frows := hN.2.red trivial
    have hredL : Reduced (n + 1) f.lines f.lines := hred.mono (fun _ h => h) fun q hq => by
      rw [frows_eq]; exact List.mem_append_left _ hq
    have hv1 : unitV K n dim ⟨dim + 1, by omega⟩ = 1 := by simp [unitV]
    obtain ⟨q0, hq0, hcd, hpos, hz, hother⟩ := hredL.lead hlin (c := dim + 1) (by omega) (by rw [hv1]; exact one_ne_zero) (by
      intro j hj hjd
      simp only [unitV]
      rw [if_neg (by omega)])
    have hw0 : toV K (n + 1) q0 - (q0.at' (dim + 2) : K) • unitV K n dim = 0 := by
      refine hredL.eq_zero (Submodule.sub_mem _ (mem_rowSpan hq0) (Submodule.smul_mem _ _ hlin)) ?_
      intro c hc hpiv
      by_cases hcc : c = dim + 1
      · subst hcc
        simp [toV, unitV]
      · have e1 : q0.at' (c + 1) = 0 := by
          obtain ⟨p, hp, -, hppos, hpz, hpo⟩ := hpiv
          refine hpo q0 hq0 ?_
          rintro rfl
          rcases lt_or_gt_of_ne hcc with hlt | hgt
          · have := hpz (dim + 1) hlt hcd; omega
          · have := hz c hgt hc; omega
        simp [toV, unitV, e1, hcc]
    dsimp only
    have hfind : f.lines.find? (fun l => l.at' (2 + dim) ≠ 0) = some q0 := by
      cases hfi : f.lines.find? (fun l => l.at' (2 + dim) ≠ 0) with
      | none =>
        have := List.find?_eq_none.1 hfi q0 hq0
        simp only [ne_eq, decide_not, Bool.not_eq_eq_eq_not, Bool.not_true, decide_eq_false_iff_not, not_not] at this
        rw [Nat.add_comm 2 dim] at this
        rw [show dim + 1 + 1 = dim + 2 from rfl] at hpos
        omega
      | some l =>
        have hl := List.mem_of_find?_eq_some hfi
        have hne := List.find?_some hfi
        simp only [ne_eq, decide_not, Bool.not_eq_eq_eq_not, Bool.not_true, decide_eq_false_iff_not] at hne
        by_contra hlq
        have := hother l hl fun e => hlq (by rw [e])
        rw [Nat.add_comm 2 dim] at hne
        exact hne this
    rw [hfind]
    dsimp only
    rw [List.all_eq_true]
    intro j hj
    have hjn := List.mem_range.1 hj
    rw [Bool.or_eq_true, decide_eq_true_eq, beq_iff_eq]
    by_cases hjd : j = dim
    · exact Or.inl hjd
    · right
      have := congrFun hw0 ⟨j + 1, by omega⟩
      simp [toV, unitV, hjd] at this
      rw [Nat.add_comm]; exact this

end Apron.Poly
