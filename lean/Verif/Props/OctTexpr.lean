import Verif.Props.ApLinearize
import Verif.Props.GenericInst
import Verif.Props.PkTexpr

/-!
# C127: assignment and substitution of tree expressions in octagons
-/

set_option autoImplicit false
set_option linter.unusedSectionVars false
set_option linter.ambiguousOpen false

namespace Apron

/-- `oct_assign_texpr_array` and `oct_substitute_texpr_array`: octagons/oct_transfer.c:1186-1203.  Both call
`ap_generic_asssub_texpr_array` (apron/ap_generic.c:382-530), which calls back the functions of the manager.
`algo` is the option `algorithm` (taken to be the same for all functions called back), `u` the content of fresh
memory. -/
def OctT.asssubTexpr {K : Type*} [LinearOrder K] [Field K] [IsStrictOrderedRing K] [FloorRing K] (o : RootOps K) (F : FltOps K)
    (R : Rnd K) (algo : ℤ) (u : Oct.Mem K) (assign : Bool) (a : OctT K) (l : List (ℕ × Texpr K)) (dest : Option (OctT K)) : OctT K :=
  Generic.asssub (Props.octMan R algo u) (OctT.isBottom R algo) Generic.mkTcons (octMeetTcons o F R algo) assign a l dest

namespace Props
open Bound Texpr Generic

variable {K : Type*} [LinearOrder K] [Field K] [IsStrictOrderedRing K] [FloorRing K]

theorem plain_linSafe' {R : Rnd K} {o : RootOps K} {F : FltOps K} {env : ℕ → Itv K} {intdim : ℕ} {e : Texpr K} (h : e.Plain) :
    e.LinSafe R o F env intdim := by
  induction e with
  | cst c => trivial
  | dim d => trivial
  | un op t r a ih => exact ih h
  | bin op t r a b iha ihb => exact ⟨iha h.1, ihb h.2.1, h.2.2.2, fun e => absurd e h.2.2.1⟩

theorem plain_addDimensions' {e : Texpr K} (pos : List ℕ) (h : e.Plain) : (Texpr.addDimensions pos e).Plain := by
  induction e with
  | cst c => trivial
  | dim d => trivial
  | un op t r a ih => exact ih h
  | bin op t r a b iha ihb => exact ⟨iha h.1, ihb h.2.1, h.2.2⟩

theorem mkTcons_plain' (S : FltSem K) : MkSpec (fun n (e : Texpr K) => e.InDim n ∧ e.Plain) (Texpr.Val S)
    (fun n (c : Tcons K) => n ≤ dimMax ∧ c.expr.InDim n ∧ c.expr.Plain) (Tcons.Holds S) mkTcons := by
  intro n e pos d he hs hle hmax hd hdN
  exact ⟨⟨hmax, ⟨C77_add_dimensions_dims e pos n he.1, hdN⟩, plain_addDimensions' pos he.2, trivial, by simp, by simp⟩,
    fun x => mkTcons_holds S e pos hs d x⟩

section
variable (o : RootOps K) (F : FltOps K)

theorem octMeetTcons_dims (R : Rnd K) (algo : ℤ) (a : OctT K) (l : List (Tcons K)) :
    (octMeetTcons o F R algo a l).dim = a.dim ∧ (octMeetTcons o F R algo a l).intdim = a.intdim := by
  unfold octMeetTcons Generic.meetTcons
  split_ifs
  · exact ⟨rfl, rfl⟩
  · exact C40_meet_lincons_dims R algo a _

theorem octMeetSpec (ho : o.SqrtOK) (S : FltSem K) (hF : FltOK F S) (algo : ℤ) (u : Oct.Mem K) :
    MeetSpec (octMan Rnd.exact algo u) (fun a => a.intdim ≤ a.dim)
      (fun n (c : Tcons K) => n ≤ dimMax ∧ c.expr.InDim n ∧ c.expr.Plain) (Tcons.Holds S)
      (fun v => ∃ n : ℤ, v = n) False (octMeetTcons o F Rnd.exact algo) where
  ok a l ha _ := by
    have ha' : a.intdim ≤ a.dim := ha
    obtain ⟨d1, d2⟩ := octMeetTcons_dims o F Rnd.exact algo a l
    refine ⟨?_, d2, ?_⟩
    · show (octMeetTcons o F Rnd.exact algo a l).intdim ≤ (octMeetTcons o F Rnd.exact algo a l).dim
      omega
    · show (octMeetTcons o F Rnd.exact algo a l).dim - (octMeetTcons o F Rnd.exact algo a l).intdim = a.dim - a.intdim
      rw [d1, d2]
  sound a l x ha hl hx hi hc := by
    have e : (octMan Rnd.exact algo u).dim a = a.dim := by
      have ha' : a.intdim ≤ a.dim := ha
      simp only [Man.dim, octMan]; omega
    rw [e] at hl
    cases l with
    | nil =>
      have e : octMeetTcons o F Rnd.exact algo a [] = a := by simp [octMeetTcons, Generic.meetTcons]
      rw [e]; exact hx
    | cons c l =>
      exact C83_oct_meet_tcons_partial o F ho S hF algo a (hl c (by simp)).1 _ (fun c hc => (hl c hc).2.1)
        (fun c hc => plain_linSafe' (hl c hc).2.2) x hx hi hc
  exact h := h.elim

/-- legal arguments of an assignment: distinct targets and trees within the dimensions of the octagon -/
structure OctTArgs (a : OctT K) (l : List (ℕ × Texpr K)) (dest : Option (OctT K)) : Prop where
  dims : a.intdim ≤ a.dim
  ne : l ≠ []
  nodup : (l.map Prod.fst).Nodup
  good : ∀ p ∈ l, p.1 < a.dim ∧ p.2.InDim a.dim ∧ p.2.Plain
  max : a.dim + l.length ≤ dimMax
  dest : ∀ b, dest = some b → b.dim = a.dim ∧ b.intdim = a.intdim

variable {o F} {a : OctT K} {l : List (ℕ × Texpr K)} {dest : Option (OctT K)}

theorem asssubTexpr_aux (h : OctTArgs a l dest) (R : Rnd K) (algo : ℤ) (u : Oct.Mem K) :
    (∀ p ∈ l, p.1 < (octMan R algo u).dim a ∧ p.2.InDim ((octMan R algo u).dim a) ∧ p.2.Plain) ∧
    (octMan R algo u).dim a + l.length ≤ dimMax ∧
    ∀ b, dest = some b → b.intdim ≤ b.dim ∧ (octMan R algo u).Dims b ((octMan R algo u).intdim a) ((octMan R algo u).realdim a) := by
  have e : (octMan R algo u).dim a = a.dim := by
    have := h.dims
    simp only [Man.dim, octMan]; omega
  rw [e]
  refine ⟨h.good, h.max, fun b hb => ?_⟩
  obtain ⟨h1, h2⟩ := h.dest b hb
  have := h.dims
  refine ⟨by omega, h2, ?_⟩
  show b.dim - b.intdim = a.dim - a.intdim
  rw [h1, h2]

/-- `oct_assign_texpr_array`, exact numbers: the result contains every state reached by giving to each target a
value of its tree in a state of the argument and keeping the other dimensions, if the new state is in the
destination; states are integral on the integer dimensions.
PARTIAL: no power in the trees and remainders on integers or reals (`Plain`); exact numbers. -/
theorem C127_oct_assign_texpr_partial (ho : o.SqrtOK) (S : FltSem K) (hF : FltOK F S) (algo : ℤ) (u : Oct.Mem K)
    (h : OctTArgs a l dest) (x y : ℕ → K) (hx : a.Gam x) (hv : ∀ p ∈ l, p.2.Val S x (y p.1))
    (hk : ∀ v, v < a.dim → v ∉ l.map Prod.fst → y v = x v) (hb : ∀ b, dest = some b → b.Gam y)
    (hi : ∀ d, d < a.intdim → (∃ n : ℤ, x d = n) ∧ ∃ n : ℤ, y d = n) :
    (OctT.asssubTexpr o F Rnd.exact algo u true a l dest).Gam y := by
  obtain ⟨g1, g2, g3⟩ := asssubTexpr_aux h Rnd.exact algo u
  exact (C57_assign_array (dimSpec_of (octSpec Rnd.exact algo u)) (Val := Texpr.Val S)
    (fun n e h => (texprSpec S).congr n e h.1) (mkTcons_plain' S) (octMeetSpec o F ho S hF algo u)
    (OctT.isBottom Rnd.exact algo) (fun a _ => C27_is_bottom_sound Rnd.exact algo a) a h.dims l h.ne h.nodup g1 g2 dest g3).2.2.1
    x y hx hv (fun v hv => hk v (by have := h.dims; simp only [Man.dim, octMan] at hv; omega)) hb hi

/-- `oct_substitute_texpr_array`, exact numbers: the result contains every state of the destination from which a
state of the argument is reached by giving to each target a value of its tree.
PARTIAL: as `C127_oct_assign_texpr_partial`. -/
theorem C127_oct_substitute_texpr_partial (ho : o.SqrtOK) (S : FltSem K) (hF : FltOK F S) (algo : ℤ) (u : Oct.Mem K)
    (h : OctTArgs a l dest) (x y : ℕ → K) (hy : a.Gam y) (hv : ∀ p ∈ l, p.2.Val S x (y p.1))
    (hk : ∀ v, v < a.dim → v ∉ l.map Prod.fst → y v = x v) (hb : ∀ b, dest = some b → b.Gam x)
    (hi : ∀ d, d < a.intdim → (∃ n : ℤ, x d = n) ∧ ∃ n : ℤ, y d = n) :
    (OctT.asssubTexpr o F Rnd.exact algo u false a l dest).Gam x := by
  obtain ⟨g1, g2, g3⟩ := asssubTexpr_aux h Rnd.exact algo u
  exact (C57_substitute_array (dimSpec_of (octSpec Rnd.exact algo u)) (Val := Texpr.Val S)
    (fun n e h => (texprSpec S).congr n e h.1) (mkTcons_plain' S) (octMeetSpec o F ho S hF algo u)
    (OctT.isBottom Rnd.exact algo) (fun a _ => C27_is_bottom_sound Rnd.exact algo a) a h.dims l h.ne h.nodup g1 g2 dest g3).2.2.1
    x y hy hv (fun v hv => hk v (by have := h.dims; simp only [Man.dim, octMan] at hv; omega)) hb hi

/-- Both return an octagon with the dimensions of the argument. -/
theorem C127_oct_asssub_texpr_dims (ho : o.SqrtOK) (S : FltSem K) (hF : FltOK F S) (algo : ℤ) (u : Oct.Mem K)
    (h : OctTArgs a l dest) (assign : Bool) :
    (OctT.asssubTexpr o F Rnd.exact algo u assign a l dest).dim = a.dim ∧
    (OctT.asssubTexpr o F Rnd.exact algo u assign a l dest).intdim = a.intdim := by
  obtain ⟨g1, g2, g3⟩ := asssubTexpr_aux h Rnd.exact algo u
  obtain ⟨k1, k2, _⟩ := asssub_aux (dimSpec_of (octSpec Rnd.exact algo u)) (Val := Texpr.Val S)
    (fun n e h => (texprSpec S).congr n e h.1) (mkTcons_plain' S) (octMeetSpec o F ho S hF algo u) assign
    (OctT.isBottom Rnd.exact algo) (fun a _ => C27_is_bottom_sound Rnd.exact algo a) a h.dims l h.ne h.nodup g1 g2 dest g3
  have k3 : (OctT.asssubTexpr o F Rnd.exact algo u assign a l dest).intdim = a.intdim := k2.1
  have k4 : (OctT.asssubTexpr o F Rnd.exact algo u assign a l dest).dim - (OctT.asssubTexpr o F Rnd.exact algo u assign a l dest).intdim
    = a.dim - a.intdim := k2.2
  have k1 : (OctT.asssubTexpr o F Rnd.exact algo u assign a l dest).intdim ≤ (OctT.asssubTexpr o F Rnd.exact algo u assign a l dest).dim := k1
  have := h.dims
  omega

/-- Both leave an empty octagon empty. -/
theorem C127_oct_asssub_texpr_empty (algo : ℤ) (halgo : 0 ≤ algo) (u : Oct.Mem K) (hw : OctT.Wf a) (he : ∀ x, ¬ a.Gam x)
    (assign : Bool) (x : ℕ → K) : ¬ (OctT.asssubTexpr o F Rnd.exact algo u assign a l dest).Gam x := by
  unfold OctT.asssubTexpr asssub
  rw [if_pos ((C27_is_bottom_exact algo halgo a hw).2 he)]
  exact he x

end

/-- the hypotheses are satisfied by the product `x0 * x1` assigned to `x0` on the square -/
example : OctTArgs exSq [(0, exProd)] none := by
  refine ⟨by decide +kernel, by simp, by simp, ?_, by decide +kernel, by simp⟩
  intro p hp
  simp only [List.mem_singleton] at hp
  subst hp
  refine ⟨by decide +kernel, ⟨(by decide +kernel : 0 < exSq.dim), (by decide +kernel : 1 < exSq.dim)⟩, trivial, trivial, by simp, by simp⟩

example : OctT.boundDimension Rnd.exact 0 (OctT.asssubTexpr mpqRoots gridOps Rnd.exact 0 (fun _ => .pinf) true exSq [(0, exProd)] none) 0
    = ⟨fin (-1), fin 4⟩ := by decide +kernel

end Props
end Apron
