import Verif.Zono.DimLemmas

/-!
# Affine forms: linear programs in exact arithmetic

With point constants and the operations `+`, `-` and multiplication by a constant, all centres and coefficients stay
points: the conditions of the soundness theorem hold, and the bounds are the exact ones.
-/

set_option autoImplicit false
set_option linter.unusedSectionVars false
set_option linter.ambiguousOpen false

namespace Apron
open Bound
variable {K : Type*} [LinearOrder K] [Field K] [IsStrictOrderedRing K] [FloorRing K] {o : RootOps K}

namespace Itv

theorem add_points (p q : K) : Itv.add Rnd.exact (point p) (point q) = point (p + q) := by
  simp [Itv.add, point, Bound.add, Rnd.exact]; ring
theorem sub_points (p q : K) : Itv.sub Rnd.exact (point p) (point q) = point (p - q) := by
  simp [Itv.sub, point, Bound.sub, Bound.add, Bound.neg, Rnd.exact]
  try constructor <;> ring
theorem neg_point (p : K) : Itv.neg (point p) = point (-p) := by
  simp [Itv.neg, point]

theorem mul_points (p q : K) : Itv.mul Rnd.exact (point p) (point q) = point (p * q) := by
  unfold Itv.mul mulp muln
  simp only [point, sgn_le_zero_iff, fin_le_fin]
  split_ifs <;> simp only [mulpp, mulpn, mulnn, Bound.neg, mul_fin_fin_exact, Itv.mk.injEq, Bound.fin.injEq]
  all_goals first
    | (exfalso; linarith)
    | (refine ⟨?_, ?_⟩ <;> first | trivial | ring1)

theorem mul_muu (a : K) : Itv.mul Rnd.exact muu (point a) = ⟨fin |a|, fin |a|⟩ := by
  unfold Itv.mul mulp muln
  simp only [point, muu, sgn_le_zero_iff, fin_le_fin]
  split_ifs <;> simp only [mulpp, mulpn, mulnn, Bound.neg, mul_fin_fin_exact, Itv.mk.injEq, Bound.fin.injEq]
  all_goals first
    | (exfalso; linarith)
    | (rw [abs_of_nonneg (by linarith)]; constructor <;> ring)
    | (rw [abs_of_nonpos (by linarith)]; constructor <;> ring)

theorem isPoint_point (p : K) : (point p).isPoint = true := isPoint_iff.2 ⟨p, rfl⟩
theorem point_not_infty (p : K) : (point p).hasInfty = false := by simp [hasInfty, point, infty]
theorem point_not_bottom (p : K) : (point p).isBottom = false := by simp [isBottom, point]
theorem point_not_top (p : K) : (point p).isTop = false := by simp [isTop, point, infty]
theorem isZero_point : (point (0 : K)).isZero = true := by simp [isZero, point, (sgn_zero_iff _).2]
end Itv

namespace T1p
variable {ε : ℕ → K}

/-- centre and coefficients are points -/
def PtF (A : Aff K) : Prop := (∃ p, A.c = Itv.point p) ∧ ∀ t ∈ A.q, ∃ p, t.coef = Itv.point p

/-- linear trees: constants, dimensions, `-`, `+`, and products with a constant -/
def LinTree : Texpr K → Prop
  | .cst c => ∃ q, c = .scalar (fin q)
  | .dim _ => True
  | .un op _ _ a => op = .neg ∧ LinTree a
  | .bin op t _ a b => t = .real ∧ LinTree a ∧ LinTree b ∧
      (op = .add ∨ op = .sub ∨ (op = .mul ∧ ((∃ q, a = .cst (.scalar (fin q))) ∨ ∃ q, b = .cst (.scalar (fin q)))))

theorem mergeF_pt {fp fq : Itv K → Itv K} {fpq : Itv K → Itv K → Itv K} (h1 : ∀ p, ∃ r, fp (Itv.point p) = Itv.point r)
    (h2 : ∀ p, ∃ r, fq (Itv.point p) = Itv.point r) (h3 : ∀ p q, ∃ r, fpq (Itv.point p) (Itv.point q) = Itv.point r) (n : ℕ) :
    ∀ {ps qs : List (Term K)}, (∀ t ∈ ps, ∃ p, t.coef = Itv.point p) → (∀ t ∈ qs, ∃ p, t.coef = Itv.point p) →
    ∀ t ∈ Aff.mergeF fp fq fpq n ps qs, ∃ p, t.coef = Itv.point p := by
  induction n with
  | zero => intro ps qs _ _ t ht; simp [Aff.mergeF] at ht
  | succ n ih =>
    intro ps qs hp hq t ht
    cases ps with
    | nil =>
      simp only [Aff.mergeF, List.mem_map] at ht
      obtain ⟨u, hu, rfl⟩ := ht
      obtain ⟨p, e⟩ := hq u hu
      rw [e]; exact h2 p
    | cons a ps =>
      cases qs with
      | nil =>
        simp only [Aff.mergeF] at ht
        obtain ⟨u, hu, rfl⟩ := List.mem_map.1 ht
        obtain ⟨p, e⟩ := hp u hu
        rw [e]; exact h1 p
      | cons b qs =>
        unfold Aff.mergeF at ht
        have ha := hp a (by simp)
        have hb := hq b (by simp)
        have hp' : ∀ t ∈ ps, ∃ p, t.coef = Itv.point p := fun t ht => hp t (by simp [ht])
        have hq' : ∀ t ∈ qs, ∃ p, t.coef = Itv.point p := fun t ht => hq t (by simp [ht])
        obtain ⟨pa, ea⟩ := ha
        obtain ⟨pb, eb⟩ := hb
        split_ifs at ht
        · rcases List.mem_cons.1 ht with rfl | ht
          · rw [ea, eb]; exact h3 pa pb
          · exact ih hp' hq' t ht
        · rcases List.mem_cons.1 ht with rfl | ht
          · rw [ea]; exact h1 pa
          · exact ih hp' hq t ht
        · rcases List.mem_cons.1 ht with rfl | ht
          · rw [eb]; exact h2 pb
          · exact ih hp hq' t ht

theorem keep_pt {q : List (Term K)} (h : ∀ t ∈ q, ∃ p, t.coef = Itv.point p) : ∀ t ∈ Aff.keep q, ∃ p, t.coef = Itv.point p :=
  fun t ht => h t (List.mem_of_mem_filter ht)

theorem PtF.zero : PtF (Aff.zero : Aff K) := ⟨⟨0, rfl⟩, fun _ h => absurd h (by simp [Aff.zero])⟩

theorem PtF.neg {A : Aff K} (h : PtF A) : PtF (Aff.neg A) := by
  obtain ⟨⟨p, e⟩, h2⟩ := h
  refine ⟨⟨-p, by simp only [Aff.neg]; rw [e, Itv.neg_point]⟩, fun t ht => ?_⟩
  simp only [Aff.neg, List.mem_map] at ht
  obtain ⟨u, hu, rfl⟩ := ht
  obtain ⟨r, e⟩ := h2 u hu
  exact ⟨-r, by dsimp only; rw [e, Itv.neg_point]⟩

theorem PtF.add {e : NEnv K} {A B : Aff K} (ha : PtF A) (hb : PtF B) : PtF (Aff.add Rnd.exact e A B) := by
  obtain ⟨⟨p, e1⟩, h1⟩ := ha
  obtain ⟨⟨q, e2⟩, h2⟩ := hb
  refine ⟨⟨p + q, by simp only [Aff.add]; rw [e1, e2, Itv.add_points]⟩, ?_⟩
  exact keep_pt (mergeF_pt (fun p => ⟨p, rfl⟩) (fun p => ⟨p, rfl⟩) (fun p q => ⟨p + q, Itv.add_points p q⟩) _ h1 h2)

theorem sub0_points (p q : K) : ∃ r, Aff.sub0 Rnd.exact (Itv.point p) (Itv.point q) = Itv.point r := by
  unfold Aff.sub0
  split_ifs
  · exact ⟨0, rfl⟩
  · exact ⟨p - q, Itv.sub_points p q⟩

theorem PtF.sub {e : NEnv K} {A B : Aff K} (ha : PtF A) (hb : PtF B) : PtF (Aff.sub Rnd.exact e A B) := by
  obtain ⟨⟨p, e1⟩, h1⟩ := ha
  obtain ⟨⟨q, e2⟩, h2⟩ := hb
  refine ⟨by simp only [Aff.sub]; rw [e1, e2]; exact sub0_points p q, ?_⟩
  exact keep_pt (mergeF_pt (fun p => ⟨p, rfl⟩) (fun p => ⟨-p, Itv.neg_point p⟩) (fun p q => sub0_points p q) _ h1 h2)

theorem PtF.subSafe {A B : Aff K} (ha : PtF A) : Aff.SubSafe A B := by
  obtain ⟨⟨p, e1⟩, h1⟩ := ha
  refine ⟨fun _ => by rw [e1]; exact Itv.isPoint_point p, fun t ht _ _ _ _ => ?_⟩
  obtain ⟨r, e⟩ := h1 t ht
  rw [e]; exact Itv.isPoint_point r

theorem PtF.not_isTop {A : Aff K} (ha : PtF A) : A.isTop = false := by
  obtain ⟨⟨p, e1⟩, _⟩ := ha
  simp [Aff.isTop, e1, Itv.point_not_top]
theorem PtF.not_isBottom {A : Aff K} (ha : PtF A) : A.isBottom = false := by
  obtain ⟨⟨p, e1⟩, _⟩ := ha
  simp [Aff.isBottom, e1, Itv.point_not_bottom]

/-- a product with a form without terms -/
theorem PtF.mul_eq {e : NEnv K} (he : e.hyper = true) {same : Bool} {A B : Aff K} (ha : PtF A) (hb : PtF B)
    (hq : A.q = [] ∨ B.q = []) : Aff.mul Rnd.exact e same A B = if (A.knownZero || B.knownZero) = true then Aff.zero else
      let c := Itv.mul Rnd.exact A.c B.c
      let q := Aff.keep (Aff.merge (fun x => Itv.mul Rnd.exact x B.c) (fun y => Itv.mul Rnd.exact y A.c)
        (fun x y => Itv.add Rnd.exact (Itv.mul Rnd.exact y A.c) (Itv.mul Rnd.exact x B.c)) A.q B.q)
      ⟨c, q, Itv.meet (Aff.boxOf Rnd.exact e c q) (Itv.mul Rnd.exact A.itv B.itv)⟩ := by
  have hm : (A.q.isEmpty || B.q.isEmpty) = true := by rcases hq with h | h <;> simp [h]
  unfold Aff.mul
  by_cases hz : (A.knownZero || B.knownZero) = true
  · rw [if_pos hz, if_pos hz]
  · rw [if_neg hz, if_neg hz, if_neg (by simp [ha.not_isBottom, hb.not_isBottom]), if_neg (by simp [ha.not_isTop, hb.not_isTop])]
    rw [if_pos he]
    unfold Aff.mulFree
    dsimp only
    rw [if_pos hm]

theorem PtF.mul {e : NEnv K} (he : e.hyper = true) {same : Bool} {A B : Aff K} (ha : PtF A) (hb : PtF B)
    (hq : A.q = [] ∨ B.q = []) : PtF (Aff.mul Rnd.exact e same A B) := by
  rw [ha.mul_eq he hb hq]
  obtain ⟨⟨p, e1⟩, h1⟩ := ha
  obtain ⟨⟨q, e2⟩, h2⟩ := hb
  split_ifs with h
  · exact PtF.zero
  · refine ⟨⟨p * q, by dsimp only; rw [e1, e2, Itv.mul_points]⟩, ?_⟩
    dsimp only
    rw [e1, e2]
    exact keep_pt (mergeF_pt (fun r => ⟨r * q, Itv.mul_points r q⟩) (fun r => ⟨r * p, Itv.mul_points r p⟩)
      (fun r r' => ⟨r' * p + r * q, by rw [Itv.mul_points, Itv.mul_points, Itv.add_points]⟩) _ h1 h2)

theorem skipSafe_nil {p q : List (Term K)} (h : p = [] ∨ q = []) : Aff.SkipSafe Rnd.exact p q := by
  intro s t _
  have : Aff.entry Rnd.exact p q s t = Itv.point 0 := by
    unfold Aff.entry
    rcases h with h | h <;> rw [h]
    · simp [Aff.coefOf]
    · cases Aff.coefOf p s <;> simp [Aff.coefOf]
  rw [this]; exact Itv.isPoint_point 0

/-- all values of the interval are values of the form -/
def TightF (A : Aff K) : Prop := ∀ w, w ∈ A.itv → ∃ ε, Noise ε ∧ A.Val ε w

/-- the accumulated interval is exact -/
theorem boxOf_tight (l : List (Term K)) : ∀ {i s : K}, -i ≤ s → (∀ t ∈ l, ∃ p, t.coef = Itv.point p) → SortedQ l → ∀ {w : K},
    w ∈ l.foldl (fun b t => Itv.add Rnd.exact b (Itv.mul Rnd.exact (NEnv.free.gamma t.sym.index) t.coef)) ⟨fin i, fin s⟩ →
    ∃ u ε y, u ∈ (⟨fin i, fin s⟩ : Itv K) ∧ Noise ε ∧ TermsVal ε l y ∧ w = u + y := by
  induction l with
  | nil =>
    intro i s _ _ _ w hw
    exact ⟨w, fun _ => 0, 0, hw, fun _ => by rw [Itv.mem_muu]; constructor <;> norm_num, rfl, by ring⟩
  | cons t l ih =>
    intro i s his hp hs w hw
    obtain ⟨a, ha⟩ := hp t (by simp)
    have hs' := List.pairwise_cons.1 hs
    rw [List.foldl_cons] at hw
    have hb : Itv.add Rnd.exact ⟨fin i, fin s⟩ (Itv.mul Rnd.exact (NEnv.free.gamma t.sym.index) t.coef) = (⟨fin (i + |a|), fin (s + |a|)⟩ : Itv K) := by
      rw [ha, show (NEnv.free : NEnv K).gamma t.sym.index = Itv.muu from rfl, Itv.mul_muu]; rfl
    rw [hb] at hw
    have hab := abs_nonneg a
    obtain ⟨u', ε, y, hu, hε, hy, rfl⟩ := ih (by linarith) (fun t ht => hp t (by simp [ht])) hs'.2 hw
    rw [Itv.mem_def] at hu
    simp only [fin_le_fin] at hu
    obtain ⟨hu1, hu2⟩ := hu
    -- split the value
    obtain ⟨u, z, h1, h2, h3, h4⟩ : ∃ u z : K, -i ≤ u ∧ u ≤ s ∧ |z| ≤ |a| ∧ u' = u + z := by
      by_cases c1 : u' < -i
      · exact ⟨-i, u' + i, le_refl _, his, by rw [abs_le]; constructor <;> linarith, by ring⟩
      · by_cases c2 : s < u'
        · exact ⟨s, u' - s, his, le_refl _, by rw [abs_le]; constructor <;> linarith, by ring⟩
        · exact ⟨u', 0, by linarith, by linarith, by rw [abs_zero]; exact hab, by ring⟩
    obtain ⟨η, g1, g2⟩ : ∃ η : K, (-1 ≤ η ∧ η ≤ 1) ∧ z = a * η := by
      by_cases ha0 : a = 0
      · rw [ha0, abs_zero] at h3
        have : z = 0 := abs_eq_zero.1 (le_antisymm h3 (abs_nonneg _))
        exact ⟨0, by constructor <;> norm_num, by rw [this]; ring⟩
      · refine ⟨z / a, ?_, by field_simp⟩
        rw [← abs_le, abs_div, div_le_one (abs_pos.2 ha0)]; exact h3
    refine ⟨u, Function.update ε t.sym.index η, a * η + y, ?_, ?_, ?_, by rw [h4, g2]; ring⟩
    · rw [Itv.mem_def]; simp only [fin_le_fin]; constructor <;> linarith
    · intro k
      by_cases hk : k = t.sym.index
      · rw [hk, Function.update_self, Itv.mem_muu]; exact g1
      · rw [Function.update_of_ne hk]; exact hε k
    · refine ⟨a, y, by rw [ha]; exact (Itv.mem_point _ _).2 rfl, ?_, by rw [Function.update_self]⟩
      have : ∀ (m : List (Term K)), (∀ t' ∈ m, t'.sym.index ≠ t.sym.index) → ∀ {y : K}, TermsVal ε m y → TermsVal (Function.update ε t.sym.index η) m y := by
        intro m
        induction m with
        | nil => intro _ y h; exact h
        | cons b m ihm =>
          rintro hm y ⟨c, z, hc, hz, rfl⟩
          exact ⟨c, z, hc, ihm (fun t' ht' => hm t' (by simp [ht'])) hz, by rw [Function.update_of_ne (hm b (by simp))]⟩
      exact this l (fun t' ht' => (hs'.1 t' ht').ne') hy

theorem PtF.tight_of_boxOf {A : Aff K} (h : PtF A) (hs : SortedQ A.q) {w : K} (hw : w ∈ Aff.boxOf Rnd.exact NEnv.free A.c A.q) :
    ∃ ε, Noise ε ∧ A.Val ε w := by
  obtain ⟨⟨p, e⟩, h2⟩ := h
  unfold Aff.boxOf at hw
  rw [e] at hw
  obtain ⟨u, ε, y, h3, h4, h5, h6⟩ := boxOf_tight A.q (i := -p) (s := p) (by linarith) h2 hs hw
  exact ⟨ε, h4, u, y, by rw [e]; exact h3, h5, h6⟩

theorem TermsVal.unique {l : List (Term K)} (h : ∀ t ∈ l, ∃ p, t.coef = Itv.point p) : ∀ {y z : K}, TermsVal ε l y → TermsVal ε l z → y = z := by
  induction l with
  | nil => intro y z h1 h2; exact Eq.trans h1 (Eq.symm h2)
  | cons t l ih =>
    rintro y z ⟨a, u, h1, h2, rfl⟩ ⟨b, v, h3, h4, rfl⟩
    obtain ⟨p, e⟩ := h t (by simp)
    rw [e, Itv.mem_point] at h1 h3
    rw [h1, h3, ih (fun t ht => h t (by simp [ht])) h2 h4]

theorem PtF.unique {A : Aff K} (h : PtF A) {x y : K} (hx : A.Val ε x) (hy : A.Val ε y) : x = y := by
  obtain ⟨⟨p, e⟩, h2⟩ := h
  obtain ⟨a, u, h3, h4, rfl⟩ := hx
  obtain ⟨b, v, h5, h6, rfl⟩ := hy
  rw [e, Itv.mem_point] at h3 h5
  rw [h3, h5, TermsVal.unique h2 h4 h6]

/-- the evaluation of a linear tree on point forms succeeds, is safe, gives a point form, and exact bounds -/
theorem lin_eval {paf : ℕ → Aff K} {ptr : ℕ → ℕ} {n : ℕ} (hp : ∀ d < n, PtF (paf d)) (hs : ∀ d < n, SortedQ (paf d).q)
    (ht : ∀ d < n, TightF (paf d)) (t : Texpr K) :
    t.InDim n → LinTree t → ∃ A, evalTexpr Rnd.exact o NEnv.free paf ptr t = some A ∧ PtF A ∧ SafeTree Rnd.exact o paf ptr t ∧
      TightF A ∧ (∀ q, t = .cst (.scalar (fin q)) → A.q = []) := by
  induction t with
  | cst c =>
    rintro _ ⟨q, rfl⟩
    have e : Itv.setApCoeff Rnd.exact (.scalar (fin q)) = Itv.point q := by
      simp [Itv.setApCoeff, Itv.setApScalar, boundSetApExact, boundSetAp, Rnd.exact, Bound.neg, Itv.point]
    refine ⟨_, rfl, ⟨⟨q, e⟩, fun _ h => absurd h (by simp)⟩, trivial, ?_, fun _ _ => rfl⟩
    intro w hw
    exact ⟨fun _ => 0, fun _ => by rw [Itv.mem_muu]; constructor <;> norm_num, w, 0, hw, rfl, by ring⟩
  | dim d =>
    intro hd _
    exact ⟨_, rfl, hp d hd, trivial, ht d hd, fun q h => by simp at h⟩
  | un op ty dr a ih =>
    rintro hd ⟨rfl, hl⟩
    obtain ⟨A, h1, h2, h3, h4, _⟩ := ih hd hl
    refine ⟨Aff.neg A, by simp [evalTexpr, h1], h2.neg, ⟨h3, fun h => by simp at h⟩, ?_, fun q h => by simp at h⟩
    intro w hw
    obtain ⟨ε, g1, g2⟩ := h4 (-w) ((Itv.mem_neg_iff (b := A.itv)).1 hw)
    refine ⟨ε, g1, ?_⟩
    have : (Aff.neg ⟨A.c, A.q, Itv.top⟩).Has ε (-(-w)) := Aff.Has.neg ⟨g2.congr_form rfl rfl, Itv.mem_top _⟩
    rw [_root_.neg_neg] at this
    exact this.1.congr_form rfl rfl
  | bin op ty dr a b iha ihb =>
    rintro hd ⟨rfl, hla, hlb, hop⟩
    obtain ⟨A, a1, a2, a3, a4, a5⟩ := iha hd.1 hla
    obtain ⟨B, b1, b2, b3, b4, b5⟩ := ihb hd.2 hlb
    have sA := evalTexpr_sorted hs a hd.1 a1
    have sB := evalTexpr_sorted hs b hd.2 b1
    have uni : ∀ (P : Aff K → Aff K → Prop), P A B → ∀ A' B', evalTexpr Rnd.exact o NEnv.free paf ptr a = some A' →
        evalTexpr Rnd.exact o NEnv.free paf ptr b = some B' → P A' B' := by
      intro P h A' B' e1 e2
      rw [a1] at e1; rw [b1] at e2; cases e1; cases e2; exact h
    rcases hop with rfl | rfl | ⟨rfl, hc⟩
    · refine ⟨Aff.add Rnd.exact NEnv.free A B, by simp [evalTexpr, a1, b1], a2.add b2, ⟨a3, b3, rfl, uni _ ⟨fun h => by simp at h, fun h => by simp at h, fun h => by simp at h⟩⟩, ?_, fun q h => by simp at h⟩
      intro w hw
      exact (a2.add b2).tight_of_boxOf (Aff.sortedQ_add sA sB) ((Itv.mem_meet.1 hw).2)
    · refine ⟨Aff.sub Rnd.exact NEnv.free A B, by simp [evalTexpr, a1, b1], a2.sub b2, ⟨a3, b3, rfl, uni _ ⟨fun _ => a2.subSafe, fun h => by simp at h, fun h => by simp at h⟩⟩, ?_, fun q h => by simp at h⟩
      intro w hw
      exact (a2.sub b2).tight_of_boxOf (Aff.sortedQ_sub sA sB) ((Itv.mem_meet.1 hw).2)
    · have hq : A.q = [] ∨ B.q = [] := by
        rcases hc with ⟨q, e⟩ | ⟨q, e⟩
        · exact .inl (a5 q e)
        · exact .inr (b5 q e)
      have he : ∃ same, evalTexpr Rnd.exact o NEnv.free paf ptr (.bin .mul .real dr a b) = some (Aff.mul Rnd.exact NEnv.free same A B) := by
        simp only [evalTexpr, a1, b1]
        exact ⟨_, rfl⟩
      obtain ⟨same, he⟩ := he
      refine ⟨_, he, a2.mul rfl b2 hq, ⟨a3, b3, rfl, uni _ ⟨fun h => by simp at h, fun _ => skipSafe_nil hq, fun h => by simp at h⟩⟩, ?_, fun q h => by simp at h⟩
      intro w hw
      have hpt := a2.mul (e := NEnv.free) rfl (same := same) b2 hq
      have hso : SortedQ (Aff.mul Rnd.exact NEnv.free same A B).q := Aff.sortedQ_mul sA sB
      rw [a2.mul_eq rfl b2 hq] at hw hpt hso ⊢
      split_ifs at hw hpt hso ⊢ with hz
      · rw [show (Aff.zero : Aff K).itv = Itv.point 0 from rfl, Itv.mem_point] at hw
        rw [hw]
        exact ⟨fun _ => 0, fun _ => by rw [Itv.mem_muu]; constructor <;> norm_num, Aff.Val.zero⟩
      · exact PtF.tight_of_boxOf hpt hso (Itv.mem_meet.1 hw).1

/-- the reduction does not change a point form -/
theorem red1_pt {eps : K} (he : 0 ≤ eps) (p : K) (s : Itv K) : red1 Rnd.exact eps (Itv.point p) s = (Itv.point p, s) := by
  unfold red1
  rw [if_neg]
  simp [Itv.point, Bound.add, Rnd.exact, he]

theorem redTerms_pt {eps : K} (he : 0 ≤ eps) (l : List (Term K)) (h : ∀ t ∈ l, ∃ p, t.coef = Itv.point p) (s : Itv K) :
    redTerms Rnd.exact eps l s = .ok l s := by
  induction l with
  | nil => rfl
  | cons t l ih =>
    obtain ⟨p, e⟩ := h t (by simp)
    rcases t with ⟨sy, c⟩
    dsimp only at e
    subst e
    unfold redTerms
    rw [Itv.point_not_infty]
    dsimp only
    rw [red1_pt he]
    dsimp only
    rw [ih fun t ht => h t (by simp [ht])]
    simp

theorem reduce_pt {eps : K} (he : 0 ≤ eps) {A : Aff K} (h : PtF A) (k : ℕ) : reduce Rnd.exact eps k A = (A, k) := by
  obtain ⟨⟨p, e⟩, h2⟩ := h
  unfold reduce
  rw [e, Itv.point_not_infty]
  dsimp only
  rw [red1_pt he]
  dsimp only
  rw [redTerms_pt he _ h2]
  dsimp only
  rw [Itv.isZero_point]
  simp [← e]

theorem reduceSafe_pt {eps : K} (he : 0 ≤ eps) {A : Aff K} (h : PtF A) : ReduceSafe Rnd.exact eps A := by
  obtain ⟨⟨p, e⟩, h2⟩ := h
  right
  refine ⟨Itv.midFin_exact _, fun _ _ => Itv.midFin_exact _, ?_⟩
  rw [e, red1_pt he]
  dsimp only
  rw [redTerms_pt he _ h2]
  simp [Itv.point]

end T1p
end Apron
