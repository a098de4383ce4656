import Verif.Avo.ElemLemmas

/-!
# Property theorems: lattice operations and widening of absolute-value octagons (C138-C139)

Specification: `AvoT.Gam a x` - the point `x` belongs to the value `a`.  `AvoT.Wf` is the
representation invariant (non-empty values have marks, the cached matrix is below the original one,
diagonals are at most `0`); the theorems say that the operations keep it.  A result `none` is a
`NULL` dereference.
-/

set_option autoImplicit false
set_option linter.unusedSectionVars false
set_option linter.ambiguousOpen false

namespace Apron
open Bound Oct Avo AvoT
variable {K : Type*} [LinearOrder K] [Field K] [IsStrictOrderedRing K]

/-! ## C138: constructors, meet, join -/

/-- the universe has every point, the empty value none -/
theorem C138_top_bottom (dim intdim : ℕ) (x : ℕ → K) :
    (AvoT.top dim intdim : AvoT K).Wf ∧ (AvoT.top dim intdim : AvoT K).Gam x ∧
      ¬ (AvoT.bottom dim intdim : AvoT K).Gam x :=
  ⟨wf_ofClosed (allocTop_Diag dim), gam_ofClosed.2 (allocTop_sat dim _ _), gam_bottom _ _ x⟩

/-- computing the closure of a value does not change it -/
theorem C138_cache (R : Rnd K) (alg : ℤ) (a : AvoT K) (h : a.Wf) (halg : alg = 2 → a.dim ≤ 30) :
    ∃ b, AvoT.cache R alg a = some b ∧ b.Wf ∧ ∀ x, b.Gam x ↔ a.Gam x :=
  let ⟨b, h1, h2, _, _, h3⟩ := cache_spec R h halg
  ⟨b, h1, h2, h3⟩

/-- a box is included in its conversion -/
theorem C138_of_box (R : Rnd K) (dim intdim : ℕ) (t : ℕ → Itv K) (x : ℕ → K)
    (hx : ∀ i < dim, x i ∈ t i) :
    (AvoT.ofBox R dim intdim (some t)).Wf ∧ (AvoT.ofBox R dim intdim (some t)).Gam x := by
  have hne : ¬ (List.range dim).any (fun i => decide ((t i).sup < neg (t i).inf)) = true := by
    rw [List.any_eq_true]
    rintro ⟨i, hi, hlt⟩
    have := hx i (List.mem_range.1 hi)
    rw [decide_eq_true_eq] at hlt
    have h1 : neg (t i).inf ≤ fin (x i) := by
      have := this.1
      cases hh : (t i).inf <;> rw [hh] at this <;> simp_all [Bound.neg]
      linarith
    exact absurd (h1.trans this.2) (not_le.2 hlt)
  obtain ⟨hd, hs⟩ := boxMat_spec R hx
  have hr := tighten_ref (θ := pinf) (dim := dim) (x := x) R (AvoT.boxMat R dim t)
  have hd' := hr.2.diag hd
  have hs' : SSat dim (tighten R dim (AvoT.boxMat R dim t)) x :=
    gsatT_pinf.1 (hr.1 (gsatT_pinf.2 hs))
  have key := sStep_spec R hd'
  unfold AvoT.ofBox
  simp only [hne]
  rcases e : Avo.sStep R dim (tighten R dim (AvoT.boxMat R dim t)) with ⟨b, M⟩
  rw [e] at key
  cases b
  · exact ⟨wf_ofClosed key.1, gam_ofClosed.2 ((key.2.1 x).2 hs')⟩
  · exact (key.2.2 rfl x hs').elim

/-- **meet** is the intersection, and it is computed without a `NULL` dereference.  (Bounds are never
`-oo` in the library: `hn`.) -/
theorem C138_meet (R : Rnd K) (a b : AvoT K) (ha : a.Wf) (hb : b.Wf) (hd : a.dim = b.dim)
    (hn : ∀ m, b.best = some m → ∀ q, m q ≠ ninf) :
    ∃ r, AvoT.meet R a b = some r ∧ r.Wf ∧ ∀ x, r.Gam x ↔ a.Gam x ∧ b.Gam x := by
  unfold AvoT.meet
  rcases h1 : a.best with _ | m1
  · exact ⟨_, rfl, wf_bottom _ _, fun x =>
      ⟨fun h => (gam_bottom _ _ x h).elim, fun h => (gam_none h1 x h.1).elim⟩⟩
  rcases h2 : b.best with _ | m2
  · exact ⟨_, rfl, wf_bottom _ _, fun x =>
      ⟨fun h => (gam_bottom _ _ x h).elim, fun h => (gam_none h2 x h.2).elim⟩⟩
  obtain ⟨n1, e1, d1, g1⟩ := ha.view h1
  obtain ⟨n2, e2, d2, g2⟩ := hb.view h2
  rw [e1, e2]; dsimp only; rw [pointwise_some]
  have key := sStep_spec R (diag_min (B := AvoT.zip m2 n2) d1)
  refine ⟨_, rfl, wf_ofM key.1, fun x => ?_⟩
  rw [gam_ofM, key.2.1, g1, g2, ← hd]
  refine ⟨fun h => ⟨fun i j hi hc => ?_, fun i j hi hc => ?_⟩, fun h i j hi hc => ?_⟩
  · exact ((ok_min_iff (hn m2 h2 _)).1 (h i j hi hc)).1
  · exact ((ok_min_iff (hn m2 h2 _)).1 (h i j hi hc)).2
  · exact (ok_min_iff (hn m2 h2 _)).2 ⟨h.1 i j hi hc, h.2 i j hi hc⟩

/-- **join** is an upper bound, for both values of the option `algorithm` -/
theorem C138_join (R : Rnd K) (alg algo : ℤ) (a b : AvoT K) (ha : a.Wf) (hb : b.Wf)
    (hd : a.dim = b.dim) (halg : alg = 2 → a.dim ≤ 30) :
    ∃ r, AvoT.join R alg algo a b = some r ∧ r.Wf ∧ ∀ x, a.Gam x ∨ b.Gam x → r.Gam x := by
  obtain ⟨a', ea, wa, da, _, ga⟩ := cacheIf_spec R algo ha halg
  obtain ⟨b', eb, wb, db, _, gb⟩ := cacheIf_spec R algo hb (hd ▸ halg)
  unfold AvoT.join
  rw [ea, Option.bind_some, eb, Option.bind_some]
  simp only [← ga, ← gb]
  have hd' : a'.dim = b'.dim := by rw [da, db, hd]
  clear ea eb ga gb da db ha hb
  unfold joinCached
  rcases h1 : a'.best with _ | m1 <;> rcases h2 : b'.best with _ | m2
  · exact ⟨_, rfl, wf_bottom _ _, fun x h => (h.elim (gam_none h1 x) (gam_none h2 x)).elim⟩
  · exact ⟨_, rfl, wb, fun x h => h.elim (fun h => (gam_none h1 x h).elim) id⟩
  · exact ⟨_, rfl, wa, fun x h => h.elim id (fun h => (gam_none h2 x h).elim)⟩
  · obtain ⟨n1, e1, d1, g1⟩ := wa.view h1
    obtain ⟨n2, e2, d2, g2⟩ := wb.view h2
    rw [e1, e2]; dsimp only; rw [pointwise_some]
    rw [← hd'] at d2
    have key := sStep_spec R (diag_max d1 d2)
    have hs : ∀ x, a'.Gam x ∨ b'.Gam x →
        SSat a'.dim (Avo.sStep R a'.dim fun q => SB.max (AvoT.zip m1 n1 q) (AvoT.zip m2 n2 q)).2 x := by
      intro x hx
      rw [key.2.1]
      intro i j hi hc
      refine ok_max (hx.imp (fun h => (g1 x).1 h i j hi hc) fun h => ?_)
      have := (g2 x).1 h
      rw [← hd'] at this
      exact this i j hi hc
    dsimp only [Option.map]
    split_ifs
    · exact ⟨_, rfl, wf_ofClosed key.1, fun x hx => gam_ofClosed.2 (hs x hx)⟩
    · exact ⟨_, rfl, wf_ofM key.1, fun x hx => gam_ofM.2 (hs x hx)⟩

/-- the loop of the join of an array -/
theorem AvoT.joinLoop_spec (R : Rnd K) (alg algo : ℤ) (dim : ℕ) (halg : alg = 2 → dim ≤ 30) :
    ∀ (l : List (AvoT K)) (s : Option (SMem K) × Bool), (∀ b ∈ l, b.Wf ∧ b.dim = dim) →
      (∀ M, s.1 = some M → Diag (2 * dim) M) →
      ∃ r, joinLoop R alg algo l s = some r ∧ (∀ M, r.1 = some M → Diag (2 * dim) M) ∧
        ∀ x, ((∃ M, s.1 = some M ∧ SSat dim M x) ∨ ∃ b ∈ l, b.Gam x) →
          ∃ M, r.1 = some M ∧ SSat dim M x
  | [], s, _, hs => ⟨s, rfl, hs, fun x h => h.elim id (by simp)⟩
  | b :: l, s, hl, hs => by
    obtain ⟨wb, db⟩ := hl b (by simp)
    obtain ⟨b', eb, wb', db', _, gb⟩ := cacheIf_spec R algo wb (alg := alg) (by rw [db]; exact halg)
    rw [db] at db'
    unfold joinLoop
    rw [eb, Option.bind_some]
    have hl' : ∀ b ∈ l, b.Wf ∧ b.dim = dim := fun c hc => hl c (by simp [hc])
    rcases h1 : b'.best with _ | m
    · obtain ⟨r, h2, h3, h4⟩ := AvoT.joinLoop_spec R alg algo dim halg l s hl' hs
      refine ⟨r, h2, h3, fun x hx => h4 x ?_⟩
      rcases hx with hx | ⟨c, hc, hx⟩
      · exact Or.inl hx
      · rcases List.mem_cons.1 hc with rfl | hc
        · exact (gam_none h1 x ((gb x).2 hx)).elim
        · exact Or.inr ⟨c, hc, hx⟩
    · obtain ⟨n, hn, hd, hg⟩ := wb'.view h1
      rw [db'] at hd
      dsimp only
      rw [hn, Option.bind_some]
      obtain ⟨r, h2, h3, h4⟩ := AvoT.joinLoop_spec R alg algo dim halg l
        (joinStep s.1 (AvoT.zip m n), s.2 && b'.closed.isSome) hl' (by
          intro M hM
          unfold joinStep at hM
          rcases e : s.1 with _ | A
          · rw [e] at hM
            obtain rfl : AvoT.zip m n = M := by simpa using hM
            exact hd
          · rw [e] at hM
            obtain rfl : (fun q => SB.max (A q) (AvoT.zip m n q)) = M := by simpa using hM
            exact diag_max (hs A e) hd)
      refine ⟨r, h2, h3, fun x hx => h4 x ?_⟩
      have stepx : ∀ M, (∃ A, s.1 = some A ∧ SSat dim A x) ∨ SSat dim (AvoT.zip m n) x →
          joinStep s.1 (AvoT.zip m n) = some M → SSat dim M x := by
        intro M hx hM
        unfold joinStep at hM
        rcases e : s.1 with _ | A
        · rw [e] at hM hx
          obtain rfl : AvoT.zip m n = M := by simpa using hM
          exact hx.elim (fun h => by simp at h) id
        · rw [e] at hM hx
          obtain rfl : (fun q => SB.max (A q) (AvoT.zip m n q)) = M := by simpa using hM
          intro i j hi hc
          refine ok_max (hx.imp (fun h => ?_) fun h => h i j hi hc)
          obtain ⟨A', hA, h⟩ := h
          obtain rfl : A = A' := by simpa using hA
          exact h i j hi hc
      rcases hx with hx | ⟨c, hc, hx⟩
      · exact Or.inl ⟨_, rfl, stepx _ (Or.inl hx) rfl⟩
      · rcases List.mem_cons.1 hc with rfl | hc
        · have := (hg x).1 ((gb x).2 hx)
          rw [db'] at this
          exact Or.inl ⟨_, rfl, stepx _ (Or.inr this) rfl⟩
        · exact Or.inr ⟨c, hc, hx⟩

/-- **join of an array** is an upper bound of every element -/
theorem C138_join_array (R : Rnd K) (alg algo : ℤ) (a : AvoT K) (l : List (AvoT K))
    (hw : ∀ b ∈ a :: l, b.Wf ∧ b.dim = a.dim) (halg : alg = 2 → a.dim ≤ 30) :
    ∃ r, AvoT.joinArray R alg algo a l = some r ∧ r.Wf ∧ ∀ b ∈ a :: l, ∀ x, b.Gam x → r.Gam x := by
  obtain ⟨⟨s, f⟩, h1, h2, h3⟩ := AvoT.joinLoop_spec R alg algo a.dim halg (a :: l) (none, true) hw
    (fun M h => by simp at h)
  unfold AvoT.joinArray
  rw [h1]
  rcases s with _ | M
  · exact ⟨_, rfl, wf_bottom _ _, fun b hb x hx => by
      obtain ⟨M, hM, _⟩ := h3 x (Or.inr ⟨b, hb, hx⟩)
      simp at hM⟩
  · have hg : ∀ b ∈ a :: l, ∀ x, b.Gam x → SSat a.dim M x := fun b hb x hx => by
      obtain ⟨M', hM, hs⟩ := h3 x (Or.inr ⟨b, hb, hx⟩)
      obtain rfl : M = M' := by simpa using hM
      exact hs
    cases f
    · exact ⟨_, rfl, wf_ofM (h2 M rfl), fun b hb x hx => gam_ofM.2 (hg b hb x hx)⟩
    · exact ⟨_, rfl, wf_ofClosed (h2 M rfl), fun b hb x hx => gam_ofClosed.2 (hg b hb x hx)⟩

/-- **Defect.** The meet of an array of non-empty values has no strictness marks: the next operation
that closes it dereferences `NULL`. -/
theorem C138_meet_array_null (R : Rnd K) (alg algo : ℤ) (halgo : 0 ≤ algo) (a : AvoT K)
    (l : List (AvoT K)) (hne : ∀ b ∈ a :: l, b.best.isSome) :
    AvoT.isBottom R alg algo (AvoT.meetArray a l) = none := by
  have h0 : ¬ ((a :: l).any fun b => b.best.isNone) = true := by
    rw [List.any_eq_true]
    rintro ⟨b, hb, h⟩
    have := hne b hb
    rw [Option.isNone_iff_eq_none] at h
    rw [h] at this
    simp at this
  obtain ⟨m, hm⟩ := Option.isSome_iff_exists.1 (hne a (by simp))
  unfold AvoT.meetArray
  rw [if_neg h0, hm]
  simp [AvoT.isBottom, AvoT.cacheIf, halgo, AvoT.cache]

/-! ## C139: widening and narrowing -/

/-- both forms of widening, whatever is done with a cell, cover their arguments -/
theorem AvoT.widenWith_spec {f : SB K → SB K → SB K}
    (hf : ∀ u d v, Ok u d ∨ Ok u v → Ok u (f d v)) {a b : AvoT K} (ha : a.Wf) (hb : b.Wf)
    (hd : a.dim = b.dim) :
    ∃ r, widenWith f a b = some r ∧ ∀ x, a.Gam x ∨ b.Gam x → r.Gam x := by
  unfold widenWith
  rcases h1 : a.orig with _ | m1
  · exact ⟨_, rfl, fun x h => h.elim (fun h => (gam_none (orig_none.1 h1) x h).elim) id⟩
  rcases h2 : b.best with _ | m2
  · exact ⟨_, rfl, fun x h => h.elim id (fun h => (gam_none h2 x h).elim)⟩
  obtain ⟨n1, e1, d1, g1⟩ := ha.viewOrig h1
  obtain ⟨n2, e2, d2, g2⟩ := hb.view h2
  rw [e1, e2]; dsimp only; rw [pointwise_some]
  refine ⟨_, rfl, fun x hx => gam_ofM.2 fun i j hi hc => ?_⟩
  refine hf _ _ _ (hx.imp (fun h => g1 x h i j hi hc) fun h => ?_)
  have := (g2 x).1 h
  rw [← hd] at this
  exact this i j hi hc

/-- **widening** covers both arguments -/
theorem C139_widening (R : Rnd K) (alg algo : ℤ) (a b : AvoT K) (ha : a.Wf) (hb : b.Wf)
    (hd : a.dim = b.dim) (halg : alg = 2 → a.dim ≤ 30) :
    ∃ r, AvoT.widening R alg algo a b = some r ∧ ∀ x, a.Gam x ∨ b.Gam x → r.Gam x := by
  obtain ⟨b', eb, wb, db, _, gb⟩ := cacheIf_spec R algo hb (hd ▸ halg)
  unfold AvoT.widening
  rw [eb, Option.bind_some]
  simp only [← gb]
  exact AvoT.widenWith_spec (fun u d v h => ok_widen h) ha wb (by rw [db, hd])

/-- **widening with thresholds** covers both arguments, for any array of thresholds -/
theorem C139_widening_thresholds (R : Rnd K) (alg algo : ℤ) (th : List (Bound K)) (a b : AvoT K)
    (ha : a.Wf) (hb : b.Wf) (hd : a.dim = b.dim) (halg : alg = 2 → a.dim ≤ 30) :
    ∃ r, AvoT.wideningThresholds R alg algo th a b = some r ∧
      ∀ x, a.Gam x ∨ b.Gam x → r.Gam x := by
  obtain ⟨b', eb, wb, db, _, gb⟩ := cacheIf_spec R algo hb (hd ▸ halg)
  unfold AvoT.wideningThresholds
  rw [eb, Option.bind_some]
  simp only [← gb]
  exact AvoT.widenWith_spec (fun u d v h => ok_widenTh h) ha wb (by rw [db, hd])

/-- the result of a widening is well-formed as soon as the first argument has a point -/
theorem C139_widening_wf (R : Rnd K) (alg algo : ℤ) (a b : AvoT K) (ha : a.Wf) (hb : b.Wf)
    (hd : a.dim = b.dim) (halg : alg = 2 → a.dim ≤ 30) (x : ℕ → K) (hx : a.Gam x) (r : AvoT K)
    (hr : AvoT.widening R alg algo a b = some r) : r.Wf := by
  obtain ⟨b', eb, wb, db, _, gb⟩ := cacheIf_spec R algo hb (hd ▸ halg)
  unfold AvoT.widening at hr
  rw [eb, Option.bind_some] at hr
  unfold widenWith at hr
  rcases h1 : a.orig with _ | m1
  · rw [h1] at hr
    obtain rfl : b' = r := by simpa using hr
    exact wb
  rcases h2 : b'.best with _ | m2
  · rw [h1, h2] at hr
    obtain rfl : a = r := by simpa using hr
    exact ha
  obtain ⟨n1, e1, d1, g1⟩ := ha.viewOrig h1
  obtain ⟨n2, e2, d2, g2⟩ := wb.view h2
  rw [h1, h2, e1, e2] at hr
  simp only [pointwise_some, Option.map_some, Option.some.injEq] at hr
  subst hr
  refine wf_ofM fun i hi => ?_
  have h0 := (g1 x hx i i hi (cell_refl i)).1
  have h3 := d1 i hi
  have h4 := d2 i (by omega)
  have h5 : (AvoT.zip m1 n1 (matpos i i)).1 = fin 0 := le_antisymm h3 (by simpa using h0)
  unfold widenCell
  split_ifs with c0 c1 c2
  · simp only [bmax_eq_max]
    exact max_le h3 h4
  · exact h3
  · exact h3
  · exact absurd (le_antisymm (not_lt.1 c1) (by rw [h5]; exact h4)) c2

/-- **narrowing** lies between the intersection and the first argument -/
theorem C139_narrowing (R : Rnd K) (alg algo : ℤ) (a b : AvoT K) (ha : a.Wf) (hb : b.Wf)
    (hd : a.dim = b.dim) (halg : alg = 2 → a.dim ≤ 30) :
    ∃ r, AvoT.narrowing R alg algo a b = some r ∧ r.Wf ∧ (∀ x, a.Gam x → b.Gam x → r.Gam x) ∧
      ((∀ a', AvoT.cacheIf R alg algo a = some a' → ∀ m, a'.best = some m → ∀ q, m q ≠ ninf) →
        ∀ x, r.Gam x → a.Gam x) := by
  obtain ⟨a', ea, wa, da, _, ga⟩ := cacheIf_spec R algo ha halg
  obtain ⟨b', eb, wb, db, _, gb⟩ := cacheIf_spec R algo hb (hd ▸ halg)
  unfold AvoT.narrowing
  rw [ea, Option.bind_some, eb, Option.bind_some]
  simp only [← ga, ← gb]
  have hd' : a'.dim = b'.dim := by rw [da, db, hd]
  clear eb ga gb da db ha hb
  rcases h1 : a'.best with _ | m1
  · exact ⟨_, rfl, wf_bottom _ _, fun x h => (gam_none h1 x h).elim, fun _ x h =>
      (gam_bottom _ _ x h).elim⟩
  rcases h2 : b'.best with _ | m2
  · exact ⟨_, rfl, wf_bottom _ _, fun x _ h => (gam_none h2 x h).elim, fun _ x h =>
      (gam_bottom _ _ x h).elim⟩
  obtain ⟨n1, e1, d1, g1⟩ := wa.view h1
  obtain ⟨n2, e2, d2, g2⟩ := wb.view h2
  rw [e1, e2]; dsimp only; rw [pointwise_some]
  rw [← hd'] at d2
  refine ⟨_, rfl, wf_ofM fun i hi => ?_, fun x hx hy => gam_ofM.2 fun i j hi hc => ?_, fun hn x hx => ?_⟩
  · unfold narrowCell
    split_ifs
    · exact d2 i hi
    · exact d1 i hi
  · unfold narrowCell
    have h3 := (g1 x).1 hx i j hi hc
    have h4 := (g2 x).1 hy
    rw [← hd'] at h4
    split_ifs
    · exact h4 i j hi hc
    · exact h3
  · rw [gam_ofM] at hx
    rw [g1]
    intro i j hi hc
    have h3 := hx i j hi hc
    have h4 := hn a' rfl m1 h1 (matpos i j)
    dsimp only at h3
    unfold narrowCell at h3
    split_ifs at h3 with h5
    · have e : m1 (matpos i j) = pinf := by
        have h5 : infty (m1 (matpos i j)) = true := h5
        rcases e : m1 (matpos i j) with _ | q | _
        · exact absurd e h4
        · rw [e] at h5; simp [infty] at h5
        · rfl
      unfold AvoT.zip
      rw [e]
      exact okT_pinf.1 (ok_top _ _)
    · exact h3

/-- the stored original constraints with their marks, as a finite family -/
def AvoT.cells (a : AvoT K) (dim : ℕ) : Option (Fin (matsize (2 * dim)) → SB K) :=
  a.orig.bind fun m => a.nsc.map fun n p => AvoT.zip m n p

/-- the marks of a value are those the library writes: `0` (strict) and `+oo` (non-strict) -/
def AvoT.Marks (a : AvoT K) : Prop := ∀ n, a.nsc = some n → ∀ q, n q = fin 0 ∨ n q = pinf

/-- how often a cell may still change -/
def AvoT.rank (b : SB K) : ℕ := (if b.1 = pinf then 0 else 2) + (if b.2 = pinf then 0 else 1)

theorem AvoT.rank_le (b : SB K) : rank b ≤ 3 := by
  unfold rank
  split_ifs <;> omega

theorem AvoT.widenCell_rank {b1 b2 : SB K} (h1 : b1.2 = fin 0 ∨ b1.2 = pinf)
    (h2 : b2.2 = fin 0 ∨ b2.2 = pinf) :
    ((widenCell false b1 b2).2 = fin 0 ∨ (widenCell false b1 b2).2 = pinf) ∧
      (widenCell false b1 b2 = b1 ∨ rank (widenCell false b1 b2) < rank b1) := by
  obtain ⟨v1, n1⟩ := b1
  obtain ⟨v2, n2⟩ := b2
  unfold widenCell
  simp only [Bool.false_eq_true, if_false]
  split_ifs with c1 c2
  · exact ⟨h1, Or.inl rfl⟩
  · simp only [bmax_eq_max] at *
    rcases h1 with rfl | rfl <;> rcases h2 with rfl | rfl
    · simp
    · simp [rank]
    · simp
    · simp
  · refine ⟨Or.inr rfl, ?_⟩
    have hv : v1 ≠ pinf := by
      rintro rfl
      exact c2 (le_antisymm (not_lt.1 c1) (by simp))
    right
    simp [rank, hv]

theorem AvoT.cells_stabilise {n : ℕ} (s : ℕ → Option (Fin n → SB K))
    (h0 : ∀ i, s i ≠ none → s (i + 1) ≠ none)
    (h1 : ∀ i m m', s i = some m → s (i + 1) = some m' →
      ∀ p, m' p = m p ∨ rank (m' p) < rank (m p)) : Stabilises s (n * 3 + 1) := by
  have hb : ∀ m : Fin n → SB K, ∑ p, rank (m p) ≤ n * 3 := fun m => by
    calc ∑ p, rank (m p) ≤ ∑ _p : Fin n, 3 := Finset.sum_le_sum fun p _ => rank_le _
      _ = n * 3 := by simp
  refine stabilises_of_measure s (fun o => match o with
    | none => n * 3 + 1
    | some m => ∑ p, rank (m p)) _ ?_ fun i => ?_
  · rcases s 0 with _ | m
    · exact le_refl _
    · have := hb m; dsimp only; omega
  · rcases e1 : s i with _ | m <;> rcases e2 : s (i + 1) with _ | m'
    · left; rfl
    · right; have := hb m'; dsimp only; omega
    · exact absurd e2 (h0 i (by rw [e1]; simp))
    · by_cases hm : m' = m
      · left; rw [hm]
      · right
        have hstep := h1 i m m' e1 e2
        obtain ⟨p, hp⟩ := Function.ne_iff.1 hm
        dsimp only
        refine Finset.sum_lt_sum (fun q _ => ?_) ⟨p, Finset.mem_univ _, ?_⟩
        · rcases hstep q with e | e
          · rw [e]
          · exact e.le
        · exact (hstep p).resolve_left hp

/-- **termination**: in a sequence `x := x widen y_n` the stored constraints, bounds and marks, change
at most `3*matsize+1` times and are eventually constant, whatever the sequence `y` of values with the
marks of the library -/
theorem C139_widening_stabilises (R : Rnd K) (alg algo : ℤ) (h99 : algo ≠ 99 ∧ algo ≠ -99) (dim : ℕ)
    (x y : ℕ → AvoT K) (hx0 : (x 0).Marks)
    (hy : ∀ n b, AvoT.cacheIf R alg algo (y n) = some b → b.Marks)
    (hstep : ∀ n, AvoT.widening R alg algo (x n) (y n) = some (x (n + 1))) :
    Stabilises (fun n => AvoT.cells (x n) dim) (matsize (2 * dim) * 3 + 1) := by
  have hpre : (decide (algo = preWidening) || decide (algo = -preWidening)) = false := by
    simp [preWidening, h99.1, h99.2]
  have step : ∀ n, ∃ b, AvoT.cacheIf R alg algo (y n) = some b ∧
      widenWith (widenCell false) (x n) b = some (x (n + 1)) := fun n => by
    have h := hstep n
    unfold AvoT.widening at h
    rw [hpre] at h
    rcases e : AvoT.cacheIf R alg algo (y n) with _ | b
    · rw [e] at h; simp at h
    · rw [e] at h
      exact ⟨b, rfl, h⟩
  -- what one step does
  have cases : ∀ n, ((x n).orig = none ∧ ∃ b, AvoT.cacheIf R alg algo (y n) = some b ∧ x (n + 1) = b) ∨
      x (n + 1) = x n ∨ ∃ m1 m2 n1 n2 b, AvoT.cacheIf R alg algo (y n) = some b ∧
        (x n).orig = some m1 ∧ (x n).nsc = some n1 ∧ b.nsc = some n2 ∧
        x (n + 1) = ofM (x n).dim (x n).intdim
          fun q => widenCell false (AvoT.zip m1 n1 q) (AvoT.zip m2 n2 q) := fun n => by
    obtain ⟨b, e, h⟩ := step n
    unfold widenWith at h
    rcases h1 : (x n).orig with _ | m1
    · rw [h1] at h
      exact Or.inl ⟨rfl, b, e, (by simpa using h.symm)⟩
    · rcases h2 : b.best with _ | m2
      · rw [h1, h2] at h
        exact Or.inr (Or.inl (by simpa using h.symm))
      · rw [h1, h2] at h
        dsimp only at h
        rcases h3 : (x n).nsc with _ | n1
        · rw [h3] at h; simp [pointwise] at h
        · rcases h4 : b.nsc with _ | n2
          · rw [h3, h4] at h; simp [pointwise] at h
          · rw [h3, h4, pointwise_some] at h
            exact Or.inr (Or.inr ⟨m1, m2, n1, n2, b, e, rfl, rfl, h4, by simpa using h.symm⟩)
  have marks : ∀ n, (x n).Marks := by
    intro n
    induction n with
    | zero => exact hx0
    | succ n ih =>
      rcases cases n with ⟨_, b, e, h⟩ | h | ⟨m1, m2, n1, n2, b, e, _, h2, h3, h⟩
      · rw [h]; exact hy n b e
      · rw [h]; exact ih
      · rw [h]
        intro k hk q
        obtain rfl : (fun q => (widenCell false (AvoT.zip m1 n1 q) (AvoT.zip m2 n2 q)).2) = k := by
          simpa [ofM] using hk
        exact (widenCell_rank (ih n1 h2 q) (hy n b e n2 h3 q)).1
  refine AvoT.cells_stabilise _ (fun n hn => ?_) (fun n m m' hm hm' p => ?_)
  · rcases cases n with ⟨h0, _⟩ | h | ⟨m1, m2, n1, n2, b, e, _, h2, h3, h⟩
    · exact absurd (by simp [AvoT.cells, h0]) hn
    · rw [h]; exact hn
    · rw [h]
      simp [AvoT.cells, ofM, AvoT.orig]
  · rcases cases n with ⟨h0, _⟩ | h | ⟨m1, m2, n1, n2, b, e, h1, h2, h3, h⟩
    · simp [AvoT.cells, h0] at hm
    · rw [h] at hm'
      rw [hm] at hm'
      left
      simp only [Option.some.injEq] at hm'
      rw [hm']
    · have hm1 : m p = AvoT.zip m1 n1 p := by
        simp only [AvoT.cells, h1, h2, Option.bind_some, Option.map_some, Option.some.injEq] at hm
        rw [← hm]
      have hm2 : m' p = widenCell false (AvoT.zip m1 n1 p) (AvoT.zip m2 n2 p) := by
        rw [h] at hm'
        simp only [AvoT.cells, ofM, AvoT.orig, Option.some_or, Option.bind_some, Option.map_some,
          Option.some.injEq] at hm'
        rw [← hm']
        rfl
      rw [hm1, hm2]
      exact (widenCell_rank (marks n n1 h2 _) (hy n b e n2 h3 _)).2

/-! ### the hypotheses are met -/

/-- the interval `1 <= x < 5` -/
def AvoT.exA : AvoT ℚ := ofM 1 0 fun q =>
  if q = 1 then (fin (-2), pinf) else if q = 2 then (fin 10, fin 0) else Avo.allocTop 1 q

theorem AvoT.exA_wf : exA.Wf := by
  refine wf_ofM fun i hi => ?_
  obtain rfl | rfl | rfl | rfl : i = 0 ∨ i = 1 ∨ i = 2 ∨ i = 3 := by omega
  all_goals exact le_of_eq rfl

theorem AvoT.exA_gam : exA.Gam fun _ => 3 := by
  refine gam_ofM.2 fun i j hi hc => ?_
  split_ifs with h h'
  · obtain ⟨rfl, rfl⟩ := matpos_inj hc (show Cell 0 1 by decide) h
    exact ⟨by simp [V, ext]; norm_num, fun h => absurd rfl h⟩
  · obtain ⟨rfl, rfl⟩ := matpos_inj hc (show Cell 1 0 by decide) h'
    exact ⟨by simp [V, ext]; norm_num, fun _ => by simp [V, ext]; norm_num⟩
  · exact allocTop_sat 1 _ _ i j hi hc

example : ∃ r, AvoT.meet Rnd.exact exA exA = some r ∧ r.Gam fun _ => 3 := by
  obtain ⟨r, h1, _, h2⟩ := C138_meet Rnd.exact exA exA exA_wf exA_wf rfl (by
    intro m hm q
    obtain rfl : _ = m := Option.some.inj hm
    dsimp only
    split_ifs
    · simp
    · simp
    · rw [Avo.allocTop1]
      split_ifs <;> simp)
  exact ⟨r, h1, (h2 _).2 ⟨exA_gam, exA_gam⟩⟩

example : ∃ r, AvoT.widening Rnd.exact 1 0 exA (AvoT.top 1 0) = some r ∧ r.Gam fun _ => 3 := by
  obtain ⟨r, h1, h2⟩ := C139_widening Rnd.exact 1 0 exA (AvoT.top 1 0) exA_wf
    (C138_top_bottom 1 0 fun _ => 0).1 rfl (by simp)
  exact ⟨r, h1, h2 _ (Or.inl exA_gam)⟩

end Apron
