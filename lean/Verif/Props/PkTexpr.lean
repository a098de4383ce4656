import Verif.Poly.PkTexprLemmas
import Verif.Props.PkMan
import Verif.Props.ApLinearize

/-!
# C113 to C116: tree expressions and constraints on convex polyhedra
-/

set_option autoImplicit false
set_option linter.unusedSectionVars false
set_option linter.ambiguousOpen false

namespace Apron.Props
open Apron.Poly Bound Texpr Generic ILincons ILinexpr

variable {n : ℕ}

section
variable (o : RootOps ℚ) (ho : o.SqrtOK) (F : FltOps ℚ) (S : FltSem ℚ) (hF : FltOK F S)
include ho hF

/-! ## C113: satisfaction of a constraint -/

/-- A positive answer of `pk_sat_tcons` means that every value of the tree at every point of the polyhedron (integer on the integer
dimensions) satisfies the constraint.
PARTIAL: `hq` (an equality must have a linear form with scalar coefficients) excludes the defect `C113_sat_tcons_unsound`;
`LinSafe` as in C56. -/
theorem C113_sat_tcons_sound_partial {intdim : ℕ} {alg : ℤ} {r : Rep} (h : r.Wf ℚ n) {c : Tcons ℚ} (hd : c.expr.InDim n)
    (hs : ∀ env, c.expr.LinSafe Rnd.exact o F env intdim)
    (hq : c.typ = .eq → ∀ env, (intlin Rnd.exact o F env intdim true c.expr).1.isQuasilinear = true)
    (hsat : r.satTcons o F n intdim alg c = true) {x : Fin n → ℚ} (hx : r.γ x) (hint : IntPt intdim x) {v : ℚ}
    (hv : c.expr.Val S (ext x) v) : Lincons.Rel c.typ v := by
  rw [Rep.satTcons] at hsat
  have hw := prepF_wf h alg
  have hx' := (prepF_γ h alg x).2 hx
  cases hM : (r.prepF n alg).F? with
  | none => rw [prepF_none hM] at hx'; exact False.elim hx'
  | some M =>
    rw [hM] at hsat
    dsimp only at hsat
    have hty : c.typ = .eq ∨ c.typ = .supeq ∨ c.typ = .sup := by
      revert hsat
      cases c.typ <;> simp
    have hs2 : satVec n intdim M (decide (c.typ = .sup)) (quasiCons Rnd.exact
        (intlinearizeCons Rnd.exact o F (matBoundDim M) intdim c).1 (matBoundDim M) false) = true := by
      revert hsat
      rcases hty with h | h | h <;> rw [h] <;> exact id
    clear hsat
    have hbox : ∀ i, i < n → ext x i ∈ matBoundDim M i := by
      intro i hi
      have := matBoundDim_sound hw hM hx' ⟨i, hi⟩
      rwa [← ext_lt x ⟨i, hi⟩] at this
    have hi := intlin_inv Rnd.exact ho hF hbox hint.ext hd (hs _) true hv
    have hfl := intlin_flags ho hF hbox hint.ext hd (hs _) true hv
    have hord : ILinexpr.Ordered (intlin Rnd.exact o F (matBoundDim M) intdim true c.expr).1.terms := ordered_intlin _ o F _ intdim c.expr true
    have hq' := fun e => hq e (matBoundDim M)
    rw [intlinearizeCons] at hs2
    generalize hr : intlin Rnd.exact o F (matBoundDim M) intdim true c.expr = p at hs2 hi hfl hord hq'
    dsimp only at hs2
    split_ifs at hs2 with h1 h2
    · have hmem := Itv.mem_meet.2 ⟨(val_nil h2).1 hi.both.val, hi.both.mem⟩
      have hnil : p.1.terms = [] := List.isEmpty_iff.1 h2
      refine satQuasi_sound hw hM (k := ⟨c.typ, ⟨Itv.meet p.1.cst p.2.1, (Itv.meet p.1.cst p.2.1).isPoint, p.1.terms⟩⟩) hty
        hi.flags ?_ hi.dims ?_ ?_ ?_ hs2 hx' v ?_
      · intro _ he q hqm
        obtain ⟨a, ha⟩ := Itv.isPoint_iff.1 he
        dsimp only at hqm ⊢
        rw [ha, Itv.mem_point] at hqm
        rw [ha, hqm]
      · simp [dims, hnil]
      · intro _; simp [ILinexpr.isQuasilinear, hnil]
      · intro e; simpa using e
      · exact (val_mk_nil h2).2 hmem
    · refine satQuasi_sound hw hM (k := ⟨c.typ, p.1⟩) hty hi.flags hfl.2 hi.dims ?_ hq' ?_ hs2 hx' v hi.both.val
      · exact List.Pairwise.imp (fun h => Nat.ne_of_lt h) hord
      · intro e; simpa using e
    · exfalso
      have e : quasiCons Rnd.exact (setBool false : ILincons ℚ) (matBoundDim M) false = setBool false := by
        rw [quasiCons, if_pos (show (setBool false : ILincons ℚ).expr.terms.isEmpty = true from rfl), if_neg (by decide +kernel), if_pos (by decide +kernel)]
      rw [e, satVec_false hw hM hx'] at hs2
      cases hs2

/-! ## C114: bounds of a tree -/

/-- Every value of a tree at a point of the polyhedron (integer on the integer dimensions) is in the interval returned by
`pk_bound_texpr`.
PARTIAL: `LinSafe` and `PowSafe`, as in C56 and C46. -/
theorem C114_bound_texpr_sound_partial {intdim : ℕ} {alg : ℤ} {r : Rep} (h : r.Wf ℚ n) {e : Texpr ℚ} (hd : e.InDim n)
    (hs : ∀ env, e.LinSafe Rnd.exact o F env intdim) (hp : ∀ env, e.PowSafe Rnd.exact o F env)
    {x : Fin n → ℚ} (hx : r.γ x) (hint : IntPt intdim x) {v : ℚ} (hv : e.Val S (ext x) v) :
    v ∈ r.boundTexpr o F n intdim alg e := by
  rw [Rep.boundTexpr]
  have hw := prepF_wf h alg
  have hx' := (prepF_γ h alg x).2 hx
  cases hM : (r.prepF n alg).F? with
  | none => rw [prepF_none hM] at hx'; exact False.elim hx'
  | some M =>
    have hbox : ∀ i, i < n → ext x i ∈ matBoundDim M i := by
      intro i hi
      have := matBoundDim_sound hw hM hx' ⟨i, hi⟩
      rwa [← ext_lt x ⟨i, hi⟩] at this
    dsimp only
    refine Itv.mem_meet.2 ⟨?_, Texpr.mem_eval ho hF hbox hd (hp _) hv⟩
    refine boundExpr_sound hw hM ?_ hx' (C56_intlinearize_sound_partial Rnd.exact o ho F S hF n intdim _ e hd (hs _) _ hbox hint.ext v hv true).1
    have := termsIn_intlin Rnd.exact o F (matBoundDim M) intdim hd true
    simp only [intlinearize]
    split_ifs <;> exact this

end

/-- the interval is empty for an empty polyhedron -/
theorem C114_bound_texpr_empty {o : RootOps ℚ} {F : FltOps ℚ} {intdim : ℕ} {alg : ℤ} {r : Rep} (h : r.Wf ℚ n) (e : Texpr ℚ)
    (hx : ∀ x : Fin n → ℚ, ¬ r.γ x) (v : ℚ) : v ∉ r.boundTexpr o F n intdim alg e := by
  rw [Rep.boundTexpr, (prepF_empty h).2 hx]
  dsimp only
  rintro ⟨h1, h2⟩
  rw [Bound.fin_le_fin] at h1 h2
  linarith

/-! ## C115: meet with constraints -/

/-- trees without power, whose remainders are on integers or reals -/
def _root_.Apron.Texpr.Plain {K : Type*} : Texpr K → Prop
  | .cst _ => True
  | .dim _ => True
  | .un _ _ _ a => Plain a
  | .bin op t _ a b => Plain a ∧ Plain b ∧ op ≠ .pow ∧ (op = .mod → t = .real ∨ t = .int)

theorem plain_linSafe {R : Rnd ℚ} {o : RootOps ℚ} {F : FltOps ℚ} {env : ℕ → Itv ℚ} {intdim : ℕ} {e : Texpr ℚ} (h : e.Plain) :
    e.LinSafe R o F env intdim := by
  induction e with
  | cst c => trivial
  | dim d => trivial
  | un op t r a ih => exact ih h
  | bin op t r a b iha ihb => exact ⟨iha h.1, ihb h.2.1, h.2.2.2, fun e => absurd e h.2.2.1⟩

theorem plain_noPow {e : Texpr ℚ} (h : e.Plain) : e.NoPow := by
  induction e with
  | cst c => trivial
  | dim d => trivial
  | un op t r a ih => exact ih h
  | bin op t r a b iha ihb => exact ⟨iha h.1, ihb h.2.1, h.2.2.1⟩

theorem plain_addDimensions {e : Texpr ℚ} (pos : List ℕ) (h : e.Plain) : (Texpr.addDimensions pos e).Plain := by
  induction e with
  | cst c => trivial
  | dim d => trivial
  | un op t r a ih => exact ih h
  | bin op t r a b iha ihb => exact ⟨iha h.1, ihb h.2.1, h.2.2⟩

section
variable (o : RootOps ℚ) (F : FltOps ℚ)

theorem meetTcons_form {alg : ℤ} {lzy : Bool} {a : PkT} (ha : a.Ok ℚ) (hn : a.dim ≤ dimMax) {l : List (Tcons ℚ)} (hd : ∀ c ∈ l, c.expr.InDim a.dim) :
    ∃ L, (L = apIntlinearizeArray Rnd.exact o F a.dim a.intdim (a.rep.toBox a.dim alg) l .linear true true 2 false) ∧
    ∃ r, a.rep.meetLincons a.dim a.intdim lzy L = some r ∧ r.Wf ℚ a.dim ∧ (∀ x : Fin a.dim → ℚ, r.γ x → a.rep.γ x) ∧
      ∀ x : Fin a.dim → ℚ, IntPt a.intdim x → a.rep.γ x → (∀ c ∈ L, c.Holds (ext x)) → r.γ x := by
  refine ⟨_, rfl, ?_⟩
  have hok := dimsOk_apIntlinearizeArray Rnd.exact o F a.dim a.intdim (a.rep.toBox a.dim alg) hd .linear true true 2 false
  generalize apIntlinearizeArray Rnd.exact o F a.dim a.intdim (a.rep.toBox a.dim alg) l .linear true true 2 false = L at hok
  obtain ⟨r, e, hw, h1, h2, _⟩ := meetItvLincons_spec (intdim := a.intdim) (lzy := lzy) ha (l := L.map (ILincons.ofAp Rnd.exact)) (by
    intro c hc
    obtain ⟨k, hk, rfl⟩ := List.mem_map.1 hc
    obtain ⟨k', rfl, hk'⟩ := hok k hk
    exact consOk_ofItv hn hk')
  refine ⟨r, e, hw, h1, fun x hi hx hc => h2 x hi hx ?_⟩
  intro c hcm
  obtain ⟨k, hk, rfl⟩ := List.mem_map.1 hcm
  obtain ⟨v, hv, hr⟩ := hc k hk
  exact ⟨v, val_ofAp _ hv, hr⟩

theorem tval_congr' {S : FltSem ℚ} {n : ℕ} {e : Texpr ℚ} (h : e.InDim n) {x y : ℕ → ℚ} (hxy : ∀ d, d < n → x d = y d) {v : ℚ} (hv : e.Val S x v) : e.Val S y v := by
  induction e generalizing v with
  | cst c => exact hv
  | dim d =>
    have hv : v = x d := hv
    show v = y d
    rw [hv, hxy d h]
  | un op t r a ih =>
    obtain ⟨va, w, h1, h2⟩ := hv
    exact ⟨va, w, ih h h1, h2⟩
  | bin op t r a b iha ihb =>
    obtain ⟨va, vb, w, h1, h2, h3⟩ := hv
    exact ⟨va, vb, w, iha h.1 h1, ihb h.2 h2, h3⟩

/-- `pk_meet_tcons_array` returns a polyhedron with the same dimensions, included in the argument. -/
theorem C115_meet_tcons_included {alg : ℤ} {lzy : Bool} {a : PkT} (ha : a.Ok ℚ) (hn : a.dim ≤ dimMax) {l : List (Tcons ℚ)}
    (hd : ∀ c ∈ l, c.expr.InDim a.dim) :
    (a.meetTcons o F alg lzy l).Ok ℚ ∧ (a.meetTcons o F alg lzy l).intdim = a.intdim ∧ (a.meetTcons o F alg lzy l).realdim = a.realdim ∧
      ∀ x, (a.meetTcons o F alg lzy l).Gam ℚ x → a.Gam ℚ x := by
  unfold PkT.meetTcons Generic.meetTcons
  split_ifs
  · exact ⟨ha, rfl, rfl, fun _ h => h⟩
  · obtain ⟨L, rfl, r, e, hw, h1, _⟩ := meetTcons_form o F (alg := alg) (lzy := lzy) ha hn hd
    refine ⟨?_, rfl, rfl, fun x hx => ?_⟩
    · show Rep.Wf ℚ _ _
      simp only [PkT.meetLincons, e, Option.getD_some]; exact hw
    · have hx : Rep.γ _ _ := hx
      simp only [PkT.meetLincons, e, Option.getD_some] at hx
      exact h1 _ hx

/-- `pk_meet_tcons_array` keeps every point of the polyhedron (integer on the integer dimensions) satisfying the constraints.
PARTIAL: `LinSafe`, as in C56. -/
theorem C115_meet_tcons_sound_partial (ho : o.SqrtOK) (S : FltSem ℚ) (hF : FltOK F S) {alg : ℤ} {lzy : Bool} {a : PkT} (ha : a.Ok ℚ) (hn : a.dim ≤ dimMax) {l : List (Tcons ℚ)}
    (hd : ∀ c ∈ l, c.expr.InDim a.dim) (hs : ∀ c ∈ l, ∀ env, c.expr.LinSafe Rnd.exact o F env a.intdim)
    {x : ℕ → ℚ} (hx : a.Gam ℚ x) (hint : ∀ i, i < a.intdim → ∃ m : ℤ, x i = m) (hc : ∀ c ∈ l, c.Holds S x) :
    (a.meetTcons o F alg lzy l).Gam ℚ x := by
  unfold PkT.meetTcons Generic.meetTcons
  split_ifs
  · exact hx
  · obtain ⟨L, hL, r, e, hw, _, h2⟩ := meetTcons_form o F (alg := alg) (lzy := lzy) ha hn hd
    rw [← hL]
    show Rep.γ _ _
    simp only [PkT.meetLincons, e, Option.getD_some]
    have hI : ∀ i, i < a.intdim → i < a.dim := fun i hi => by simp only [PkT.dim]; omega
    refine h2 _ (fun d hd => hint d hd) hx ?_
    intro c hcm
    rw [hL] at hcm
    have hbox : ∀ i, i < a.dim → ext (fun i : Fin a.dim => x i) i ∈ a.rep.toBox a.dim alg i := fun i hi => by
      rw [gam_ext x i hi]
      exact (C92_to_box (alg := alg) ha).1 _ hx ⟨i, hi⟩
    refine (C83_intlinearize_array_sound_partial o ho F S hF a.dim a.intdim hn _ l hd (fun c hc => hs c hc _) .linear true 2 false
      _ hbox (fun i hi => ?_) (fun c hc' => ?_) c hcm).1
    · rw [gam_ext x i (hI i hi)]; exact hint i hi
    · obtain ⟨v, hv, hr⟩ := hc c hc'
      exact ⟨v, tval_congr' (hd c hc') (fun d hd => (gam_ext x d hd).symm) hv, hr⟩

/-! ## C116: assignment and substitution -/

theorem mkTcons_plain (S : FltSem ℚ) : MkSpec (fun n (e : Texpr ℚ) => e.InDim n ∧ e.Plain) (Texpr.Val S)
    (fun n (c : Tcons ℚ) => n ≤ dimMax ∧ c.expr.InDim n ∧ c.expr.Plain) (Tcons.Holds S) mkTcons := by
  intro n e pos d he hs hle hmax hd hdN
  exact ⟨⟨hmax, ⟨C77_add_dimensions_dims e pos n he.1, hdN⟩, plain_addDimensions pos he.2, trivial, by simp, by simp⟩,
    fun x => mkTcons_holds S e pos hs d x⟩

theorem pkMeetTcons (ho : o.SqrtOK) (S : FltSem ℚ) (hF : FltOK F S) (alg : ℤ) (opts : Opts) (mlzy : Bool) :
    MeetSpec (pkMan ℚ alg opts) (PkT.Ok ℚ) (fun n (c : Tcons ℚ) => n ≤ dimMax ∧ c.expr.InDim n ∧ c.expr.Plain) (Tcons.Holds S)
      (fun v => ∃ n : ℤ, v = n) False (PkT.meetTcons o F alg mlzy) where
  ok a l ha hl := by
    cases l with
    | nil => 
      have e : PkT.meetTcons o F alg mlzy a [] = a := by simp [PkT.meetTcons, Generic.meetTcons]
      rw [e]; exact ⟨ha, rfl, rfl⟩
    | cons c l =>
      obtain ⟨h1, h2, h3, _⟩ := C115_meet_tcons_included o F (alg := alg) (lzy := mlzy) ha (hl c (by simp)).1 (fun c hc => (hl c hc).2.1)
      exact ⟨h1, h2, h3⟩
  sound a l x ha hl hx hi hc := by
    cases l with
    | nil => 
      have e : PkT.meetTcons o F alg mlzy a [] = a := by simp [PkT.meetTcons, Generic.meetTcons]
      rw [e]; exact hx
    | cons c l =>
      exact C115_meet_tcons_sound_partial o F ho S hF ha (hl c (by simp)).1 (fun c hc => (hl c hc).2.1)
        (fun c hc _ => plain_linSafe (hl c hc).2.2) hx hi hc
  exact h := h.elim

theorem apIntlinearize_linear (ho : o.SqrtOK) (S : FltSem ℚ) (hF : FltOK F S) (hn : n ≤ dimMax) {env : ℕ → Itv ℚ} {intdim : ℕ}
    {e : Texpr ℚ} (hd : e.InDim n) (hp : e.Plain) (hl : e.isIntervalLinear = true) {x : ℕ → ℚ} {v : ℚ} (hv : e.Val S x v) :
    (apIntlinearize Rnd.exact o F env intdim e false).Val x v := by
  obtain ⟨k, hk⟩ := intlinear_some Rnd.exact o F hl true
  have h1 := intlinear_inv Rnd.exact ho hF hd (plain_noPow hp).safe hk hv
  have e : apIntlinearize Rnd.exact o F env intdim e false = Linexpr.ofItv k := by
    simp [apIntlinearize, hl, hk]
  rw [e]
  exact (Linexpr.val_ofItv fun t ht => by have := h1.2.2 t ht; omega).2 h1.1

theorem goodLin_apIntlinearize (hn : n ≤ dimMax) (env : ℕ → Itv ℚ) (intdim : ℕ) {e : Texpr ℚ} (hd : e.InDim n) :
    GoodLin n (apIntlinearize Rnd.exact o F env intdim e false) ∧
    ((apIntlinearize Rnd.exact o F env intdim e false).isLinear = true → (apIntlinearize Rnd.exact o F env intdim e false).Numeric) := by
  obtain ⟨l, e1, ho, ht⟩ := apIntlinearize_form Rnd.exact o F env intdim hd
  rw [e1]
  have ht' : (Linexpr.ofItv l).terms = l.terms.map fun t => (t.dim, Coeff.ofItv t.itv) :=
    Linexpr.terms_ofItv fun t h => by have := ht t h; omega
  have num : ∀ i : Itv ℚ, (Coeff.ofItv i).isScalar = true → ∃ c, Coeff.ofItv i = .scalar (fin c) := by
    intro i hi
    unfold Coeff.ofItv at hi ⊢
    by_cases hp : i.isPoint = true
    · rw [if_pos hp]
      obtain ⟨q, hq⟩ := Itv.isPoint_iff.1 hp
      exact ⟨q, by rw [hq]; rfl⟩
    · rw [if_neg hp] at hi; simp [Coeff.isScalar] at hi
  refine ⟨⟨⟨?_, ?_⟩, ?_, by intro l h; cases h⟩, fun h => ?_⟩
  · have e2 : (l.terms.map fun t => (t.dim, Coeff.ofItv t.itv)).map Prod.fst = l.terms.map ITerm.dim := by
      rw [List.map_map]; rfl
    rw [e2]
    exact ho.imp fun h => .inl h
  · intro p hp
    obtain ⟨t, h, rfl⟩ := List.mem_map.1 hp
    have := ht t h
    show t.dim ≤ _
    omega
  · rw [ht']
    intro p hp
    obtain ⟨t, h, rfl⟩ := List.mem_map.1 hp
    exact ht t h
  · rw [Linexpr.isLinear, Bool.and_eq_true, List.all_eq_true] at h
    refine ⟨num _ h.1, fun p hp => ?_⟩
    have := h.2 p hp
    rw [ht'] at hp
    obtain ⟨t, _, rfl⟩ := List.mem_map.1 hp
    exact num _ this

/-- the conditions on the arguments: targets and trees within the dimensions, no target given twice, no power in the trees, the whole
below `AP_DIM_MAX`, a destination with the same dimensions -/
structure TArgsOk (a : PkT) (l : List (ℕ × Texpr ℚ)) (dest : Option PkT) : Prop where
  ok : a.Ok ℚ
  ne : l ≠ []
  nodup : (l.map Prod.fst).Nodup
  good : ∀ p ∈ l, p.1 < a.dim ∧ p.2.InDim a.dim ∧ p.2.Plain
  max : a.dim + l.length ≤ dimMax
  dest : ∀ b, dest = some b → b.Ok ℚ ∧ b.intdim = a.intdim ∧ b.realdim = a.realdim

/-- `y` is reached from `x` by giving to the targets values of their trees; integer dimensions have integer values -/
def Steps (S : FltSem ℚ) (a : PkT) (l : List (ℕ × Texpr ℚ)) (x y : ℕ → ℚ) : Prop :=
  (∀ d, d < a.intdim → (∃ n : ℤ, x d = n) ∧ ∃ n : ℤ, y d = n) ∧ (∀ p ∈ l, p.2.Val S x (y p.1)) ∧
    ∀ v, v < a.dim → v ∉ l.map Prod.fst → y v = x v

theorem asssubTexpr_spec (ho : o.SqrtOK) (S : FltSem ℚ) (hF : FltOK F S) {assign destr : Bool} {alg : ℤ} {opts : Opts} {mlzy : Bool} {a : PkT} {l : List (ℕ × Texpr ℚ)}
    {dest : Option PkT} (h : TArgsOk a l dest)
    (hs : opts.lzy = false → ∀ b, dest = some b → (∃ x y, a.Gam ℚ (if assign then x else y) ∧ Steps S a l x y) ∨ b.rep = .bot) :
    ∃ r, a.asssubTexpr o F assign destr alg opts mlzy l dest = some r ∧ r.Ok ℚ ∧ r.intdim = a.intdim ∧ r.realdim = a.realdim ∧
      ∀ x y : ℕ → ℚ, a.Gam ℚ (if assign then x else y) → (∀ b, dest = some b → b.Gam ℚ (if assign then y else x)) →
        Steps S a l x y → r.Gam ℚ (if assign then y else x) := by
  obtain ⟨h1, h2, h3, h4⟩ := prep_spec (o := opts) h.ok
  rw [PkT.asssubTexpr]
  have hdim : (a.prep opts).dim = a.dim := by simp only [PkT.dim, h2, h3]
  simp only [← h4] at hs ⊢
  generalize a.prep opts = a' at h1 h2 h3 hdim hs ⊢
  by_cases hb : a'.rep = .bot
  · rw [if_pos hb]
    refine ⟨_, rfl, trivial, h2, h3, fun x y hx => ?_⟩
    rw [PkT.Gam, hb] at hx
    exact hx.elim
  rw [if_neg hb]
  -- the end
  suffices hmain : ∃ r, (if ((l.all fun p => p.2.isScalar) && l.all fun p => p.2.isIntervalLinear) = true then
        (PkT.asssubLinexpr assign destr alg { opts with lzy := true } mlzy a'
          (l.map fun p => (p.1, Texpr.apIntlinearize Rnd.exact o F (a'.rep.toBox a'.dim alg) a'.intdim p.2 false)) none).bind
            fun po => PkT.meetDest opts po dest
      else some (Generic.asssub (pkMan ℚ alg opts) (PkT.isBottom alg) Generic.mkTcons (PkT.meetTcons o F alg mlzy) assign a' l dest)) = some r ∧
      r.Ok ℚ ∧ r.intdim = a.intdim ∧ r.realdim = a.realdim ∧
      ∀ x y : ℕ → ℚ, a'.Gam ℚ (if assign then x else y) → (∀ b, dest = some b → b.Gam ℚ (if assign then y else x)) →
        Steps S a l x y → r.Gam ℚ (if assign then y else x) by
    obtain ⟨r, e, k1, k2, k3, k4⟩ := hmain
    obtain ⟨g1, g2, g3, g4⟩ := prep_spec (o := opts) k1
    exact ⟨r.prep opts, by rw [e]; rfl, g1, g2.trans k2, g3.trans k3, fun x y hx hd hst => (g4 _).2 (k4 x y hx hd hst)⟩
  have hmax : a'.dim ≤ dimMax := by have := h.max; omega
  by_cases hlin : ((l.all fun p => p.2.isScalar) && l.all fun p => p.2.isIntervalLinear) = true
  · rw [if_pos hlin]
    rw [Bool.and_eq_true, List.all_eq_true, List.all_eq_true] at hlin
    set L := l.map fun p => (p.1, Texpr.apIntlinearize Rnd.exact o F (a'.rep.toBox a'.dim alg) a'.intdim p.2 false) with hL
    have hfst : L.map Prod.fst = l.map Prod.fst := by rw [hL, List.map_map]; rfl
    have hA : ArgsOk a' L none := by
      refine ⟨h1, by simpa [hL] using h.ne, by rw [hfst]; exact h.nodup, ?_, ?_, by simp⟩
      · intro q hq
        obtain ⟨p, hp, rfl⟩ := List.mem_map.1 hq
        obtain ⟨g1, g2, _⟩ := h.good p hp
        rw [hdim]
        exact ⟨g1, (goodLin_apIntlinearize o F (hdim ▸ hmax) _ _ g2).1⟩
      · rw [hL, List.length_map, hdim]; exact h.max
    have hnum : (∀ p ∈ L, p.2.isLinear = true) → ∀ p ∈ L, p.2.Numeric := by
      intro hl q hq
      have := hl q hq
      obtain ⟨p, hp, rfl⟩ := List.mem_map.1 hq
      exact (goodLin_apIntlinearize o F (hdim ▸ hmax) _ _ (h.good p hp).2.1).2 this
    have hsteps : ∀ x y, Steps S a l x y → (∀ d, d < a'.intdim → (∃ n : ℤ, x d = n) ∧ ∃ n : ℤ, y d = n) ∧ (∀ p ∈ L, p.2.Val x (y p.1)) ∧
        ∀ v, v < a'.dim → v ∉ L.map Prod.fst → y v = x v := by
      rintro x y ⟨s1, s2, s3⟩
      refine ⟨by rw [h2]; exact s1, fun q hq => ?_, by rw [hfst, hdim]; exact s3⟩
      obtain ⟨p, hp, rfl⟩ := List.mem_map.1 hq
      exact apIntlinearize_linear o F ho S hF (hdim ▸ hmax) (h.good p hp).2.1 (h.good p hp).2.2 (hlin.2 p hp) (s2 p hp)
    have hr : ∃ r, PkT.asssubLinexpr assign destr alg { opts with lzy := true } mlzy a' L none = some r ∧ r.Ok ℚ ∧ r.intdim = a'.intdim ∧
        r.realdim = a'.realdim ∧ ∀ x y : ℕ → ℚ, a'.Gam ℚ (if assign then x else y) → Steps S a l x y → r.Gam ℚ (if assign then y else x) := by
      cases assign with
      | true =>
        obtain ⟨r, e, k1, k2, k3, k4⟩ := C112_assign_linexpr_sound (destr := destr) (alg := alg) (o := { opts with lzy := true }) (mlzy := mlzy) hA hnum
        refine ⟨r, e, k1, k2, k3, fun x y hx hst => ?_⟩
        obtain ⟨s1, s2, s3⟩ := hsteps x y hst
        exact k4 x y hx (by simp) s1 s2 s3
      | false =>
        obtain ⟨r, e, k1, k2, k3, k4⟩ := C112_substitute_linexpr_sound_partial (destr := destr) (alg := alg) (o := { opts with lzy := true }) (mlzy := mlzy)
          hA hnum (by simp)
        refine ⟨r, e, k1, k2, k3, fun x y hx hst => ?_⟩
        obtain ⟨s1, s2, s3⟩ := hsteps x y hst
        exact k4 x y hx (by simp) s1 s2 s3
    obtain ⟨r, e, k1, k2, k3, k4⟩ := hr
    have hrd : r.dim = a.dim := by simp only [PkT.dim, k2, k3, h2, h3]
    rw [e, Option.bind_some]
    cases dest with
    | none => exact ⟨r, rfl, k1, k2.trans h2, k3.trans h3, fun x y hx _ hst => k4 x y hx hst⟩
    | some b =>
      obtain ⟨b1, b2, b3⟩ := h.dest b rfl
      have hbd : b.dim = r.dim := by rw [hrd]; simp only [PkT.dim, b2, b3]
      obtain ⟨m, hm, hmw, hmγ⟩ := C88_meet_exact (K := ℚ) (n := r.dim) (o := opts) (destr := true) (pa := r.rep) (pb := b.rep) k1 (hbd ▸ b1)
        (fun _ hz C _ => (hs hz b rfl).imp (fun ⟨x, y, s1, s2⟩ => ⟨_, k4 x y s1 s2⟩) id)
      refine ⟨⟨r.intdim, r.realdim, m⟩, by rw [PkT.meetDest, hm]; rfl, hmw, k2.trans h2, k3.trans h3, fun x y hx hd hst => ?_⟩
      exact (hmγ _).2 ⟨k4 x y hx hst, (pkGam_cast hbd _).1 (hd b rfl)⟩
  · rw [if_neg hlin]
    obtain ⟨g1, g2, g3, _⟩ := asssub_aux (dimSpec_of (C111_manager (K := ℚ) alg opts)) (Val := Texpr.Val S)
      (fun n e h _ _ _ hxy hv => tval_congr' h.1 hxy hv)
      (mkTcons_plain S) (pkMeetTcons o F ho S hF alg opts mlzy) assign (PkT.isBottom alg) (fun a ha h x => pk_isBottom_empty ha h x) a' h1 l h.ne h.nodup
      (by rw [show (pkMan ℚ alg opts).dim a' = a.dim from hdim]; exact h.good)
      (by rw [show (pkMan ℚ alg opts).dim a' = a.dim from hdim]; exact h.max) dest
      (fun b hb => ⟨(h.dest b hb).1, (h.dest b hb).2.1.trans h2.symm, (h.dest b hb).2.2.trans h3.symm⟩)
    refine ⟨_, rfl, g1, g2.1.trans h2, g2.2.trans h3, fun x y hx hd ⟨s1, s2, s3⟩ => g3 x y hx hd ?_ ?_ s2 ?_⟩
    · intro d hd; exact (s1 d (h2 ▸ hd)).1
    · intro d hd; exact (s1 d (h2 ▸ hd)).2
    · rw [show (pkMan ℚ alg opts).dim a' = a.dim from hdim]; exact s3

/-- `pk_assign_texpr_array`, in every mode: the result has the same dimensions and contains every point of the destination obtained
from a point of the argument by giving to the targets values of their trees.
PARTIAL: no power in the trees and remainders on integers or reals (`Plain`); `hs` excludes, in the strict mode, a destination met with
an empty result (a null pointer may be dereferenced, see `C104_substitute_null_dereference`). -/
theorem C116_assign_texpr_sound_partial (ho : o.SqrtOK) (S : FltSem ℚ) (hF : FltOK F S) {destr : Bool} {alg : ℤ} {opts : Opts} {mlzy : Bool} {a : PkT}
    {l : List (ℕ × Texpr ℚ)} {dest : Option PkT} (h : TArgsOk a l dest)
    (hs : opts.lzy = false → ∀ b, dest = some b → (∃ x y, a.Gam ℚ x ∧ Steps S a l x y) ∨ b.rep = .bot) :
    ∃ r, a.asssubTexpr o F true destr alg opts mlzy l dest = some r ∧ r.Ok ℚ ∧ r.intdim = a.intdim ∧ r.realdim = a.realdim ∧
      ∀ x y : ℕ → ℚ, a.Gam ℚ x → (∀ b, dest = some b → b.Gam ℚ y) → Steps S a l x y → r.Gam ℚ y :=
  asssubTexpr_spec o F ho S hF h hs

/-- `pk_substitute_texpr_array`, in every mode: the result contains every point of the destination from which a point of the argument
is reached by the assignment.
PARTIAL: as for the assignment. -/
theorem C116_substitute_texpr_sound_partial (ho : o.SqrtOK) (S : FltSem ℚ) (hF : FltOK F S) {destr : Bool} {alg : ℤ} {opts : Opts} {mlzy : Bool} {a : PkT}
    {l : List (ℕ × Texpr ℚ)} {dest : Option PkT} (h : TArgsOk a l dest)
    (hs : opts.lzy = false → ∀ b, dest = some b → (∃ x y, a.Gam ℚ y ∧ Steps S a l x y) ∨ b.rep = .bot) :
    ∃ r, a.asssubTexpr o F false destr alg opts mlzy l dest = some r ∧ r.Ok ℚ ∧ r.intdim = a.intdim ∧ r.realdim = a.realdim ∧
      ∀ x y : ℕ → ℚ, a.Gam ℚ y → (∀ b, dest = some b → b.Gam ℚ x) → Steps S a l x y → r.Gam ℚ x :=
  asssubTexpr_spec o F ho S hF h hs

end

/-! ## Examples and defects -/

/-- the tree `x0 * x0 - x1` -/
def exSquare : Texpr ℚ := .bin .sub .real .rnd (.bin .mul .real .rnd (.dim 0) (.dim 0)) (.dim 1)

/-- `x0 := 3 + x1` with trees, linear -/
def exPlus : Texpr ℚ := .bin .add .real .rnd (.cst (.scalar (fin 3))) (.dim 1)

/-- `[0, 1] * x0` -/
def exScaled : Texpr ℚ := .bin .mul .real .rnd (.cst (.interval (fin 0) (fin 1))) (.dim 0)

/-- the point `x0 = 1` -/
def exPoint : Rep := .cons [[1, 1, 0], [0, -1, 1]]

theorem exPoint_wf : exPoint.Wf ℚ 1 := cons_wf (by decide)

/-- The code violates C113 for equalities with interval coefficients: it answers that `[0,1] * x0 = 0` always holds on `x0 = 1`. -/
theorem C113_sat_tcons_unsound : exPoint.satTcons mpqRoots gridOps 1 0 0 ⟨.eq, exScaled⟩ = true ∧
    ∃ x : Fin 1 → ℚ, exPoint.γ x ∧ ∃ v, exScaled.Val (gridSem false) (ext x) v ∧ v ≠ 0 := by
  refine ⟨by decide +kernel, fun _ => 1, ?_, 1, ?_, one_ne_zero⟩
  · change Sat [[1, 1, 0], [0, -1, 1]] (hom _)
    simp [Sat, dot, Row.at', hom, Fin.sum_univ_succ]
  · exact ⟨1, 1, 1, by constructor <;> decide +kernel, rfl, by norm_num [BinOp.Val], rfl⟩

/-- the hypotheses are satisfied by products -/
example : exSlab.Ok ℚ ∧ exSlab.dim ≤ dimMax ∧ exSquare.InDim exSlab.dim ∧ exSquare.Plain ∧ mpqRoots.SqrtOK ∧ FltOK gridOps (gridSem false) :=
  ⟨exSlab_ok, by simp [exSlab, PkT.dim, dimMax], by simp [exSquare, InDim, exSlab, PkT.dim], by simp [exSquare, Plain], mpq_sqrtOK, gridOK false⟩

example : TArgsOk exSlab [(1, exSquare)] none ∧ ([(1, exSquare)].all fun p => p.2.isIntervalLinear) = false ∧
    TArgsOk exSlab [(0, exPlus)] none ∧ ([(1, exPlus)].all fun p => p.2.isIntervalLinear) = true := by
  refine ⟨⟨exSlab_ok, by simp, by simp, ?_, by simp [exSlab, PkT.dim, dimMax], by simp⟩, by decide,
    ⟨exSlab_ok, by simp, by simp, ?_, by simp [exSlab, PkT.dim, dimMax], by simp⟩, by decide⟩ <;>
  · intro p hp
    simp only [List.mem_singleton] at hp
    subst hp
    simp [exSlab, PkT.dim, exSquare, exPlus, InDim, Plain]

/-- on `x0 ∈ [-2,2]`: `5 - x0 * x0 >= 0` is proved, `3 - x0 * x0 >= 0` is not -/
example : exSlab.rep.satTcons mpqRoots gridOps 2 0 0
      ⟨.supeq, .bin .sub .real .rnd (.cst (.scalar (fin 5))) (.bin .mul .real .rnd (.dim 0) (.dim 0))⟩ = true ∧
    exSlab.rep.satTcons mpqRoots gridOps 2 0 0
      ⟨.supeq, .bin .sub .real .rnd (.cst (.scalar (fin 3))) (.bin .mul .real .rnd (.dim 0) (.dim 0))⟩ = false := by decide +kernel

example : exSlab.rep.boundTexpr mpqRoots gridOps 2 0 0 (.bin .mul .real .rnd (.dim 0) (.dim 0)) = ⟨fin 4, fin 4⟩ := by decide +kernel

/-- `x0 * x0 - x1 >= 0` bounds `x1` by 4 -/
example : (exSlab.meetTcons mpqRoots gridOps 0 true [⟨.supeq, exSquare⟩]).rep.boundDim 2 0 1 = ⟨pinf, fin 4⟩ := by decide +kernel

/-- `x1 := x0 * x0`, and the substitution of `x0` by `3 + x1` -/
example : ((exSlab.asssubTexpr mpqRoots gridOps true false 0 ⟨true, false, 0⟩ true [(1, .bin .mul .real .rnd (.dim 0) (.dim 0))] none).map
      fun r => r.rep.boundDim 2 0 1) = some ⟨fin 4, fin 4⟩ ∧
    ((exSlab.asssubTexpr mpqRoots gridOps false false 0 ⟨true, false, 0⟩ true [(0, exPlus)] none).map
      fun r => r.rep.boundDim 2 0 1) = some ⟨fin 5, fin (-1)⟩ := by decide +kernel

/-- the condition on the equalities of C113 is satisfied by `x0 - x1 = 0` -/
example : ∀ env, (intlin Rnd.exact mpqRoots gridOps env 0 true (.bin .sub .real .rnd (.dim 0) (.dim 1) : Texpr ℚ)).1.isQuasilinear = true := by
  intro env
  rw [isQuasilinear_iff]
  intro t ht
  let p (d : ℕ) : ILinexpr ℚ × Itv ℚ × RType := (⟨Itv.point 0, true, [⟨d, true, Itv.point 1⟩]⟩, env d, .real)
  have e : intlin Rnd.exact mpqRoots gridOps env 0 true (.bin .sub .real .rnd (.dim 0) (.dim 1) : Texpr ℚ) =
    binLin Rnd.exact gridOps env .sub .real .rnd (p 0) (p 1) := rfl
  rw [e, binLin] at ht
  by_cases hb : ((p 0).2.1.isBottom || (p 1).2.1.isBottom) = true
  · rw [if_pos hb] at ht; simp at ht
  · rw [if_neg hb] at ht
    simp only [opLin, finishLin, p] at ht
    rcases terms_reduceLin Rnd.exact env _ _ with h2 | h2
    · rw [h2] at ht; simp at ht
    · rw [h2] at ht
      have ht : t ∈ [⟨0, true, Itv.point 1⟩, ⟨1, true, (Itv.point 1).neg⟩] := ht
      simp only [List.mem_cons, List.not_mem_nil, or_false] at ht
      rcases ht with rfl | rfl <;> rfl

end Apron.Props
