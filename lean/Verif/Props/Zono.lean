import Verif.Zono.Prog
import Mathlib.Data.Rat.Floor

/-!
# Properties of affine forms (taylor1plus)

* C122: the arithmetic on affine forms.
* C123: construction from a box, bounds of a dimension, emptiness test.
* C124: assignment.
* C125: straight-line programs of linear assignments.
* C126: dimensions.
-/

set_option autoImplicit false
set_option linter.unusedSectionVars false
set_option linter.ambiguousOpen false

namespace Apron
namespace Props
open Bound T1p

/-! ## C122: arithmetic -/

section
variable {K : Type*} [LinearOrder K] [Field K] [IsStrictOrderedRing K] [FloorRing K] (R : Rnd K)

/-- C122 (addition): for the same noise values, the form of `a + b` has all sums of values of `a` and `b`. -/
theorem C122_add_sound {ε : ℕ → K} (hε : ∀ k, -1 ≤ ε k ∧ ε k ≤ 1) {a b : Aff K} {x y : K}
    (ha : a.Has ε x) (hb : b.Has ε y) : (Aff.add R NEnv.free a b).Has ε (x + y) :=
  ha.add (fun k => Itv.mem_muu.2 (hε k)) hb

/-- C122 (negation) -/
theorem C122_neg_sound {ε : ℕ → K} {a : Aff K} {x : K} (ha : a.Has ε x) : (Aff.neg a).Has ε (-x) := ha.neg

/-- C122 (product with an interval) -/
theorem C122_scale_sound {ε : ℕ → K} {a : Aff K} {lam : Itv K} {x k : K} (hk : k ∈ lam) (ha : a.Has ε x) :
    (Aff.mulItv R a lam).Has ε (x * k) := ha.mulItv hk

/-- C122 (subtraction): sound if equal centres and equal coefficients of the same symbol are points.  Missing: the case of
equal intervals that are not points, where the code is wrong (`C122_sub_wrong`). -/
theorem C122_sub_sound_partial {ε : ℕ → K} (hε : ∀ k, -1 ≤ ε k ∧ ε k ≤ 1) {a b : Aff K} {x y : K}
    (hc : a.c = b.c → a.c.isPoint = true)
    (hq : ∀ t ∈ a.q, ∀ t' ∈ b.q, t.sym.index = t'.sym.index → t.coef = t'.coef → t.coef.isPoint = true)
    (ha : a.Has ε x) (hb : b.Has ε y) : (Aff.sub R NEnv.free a b).Has ε (x - y) :=
  ha.sub (fun k => Itv.mem_muu.2 (hε k)) ⟨hc, hq⟩ hb

/-- C122 (product): sound if the entries of the product matrix that the code drops are points.  `same` may be true for one
form, or if the form is top.  Missing: dropped entries that are not points, where the code is wrong (`C122_mul_wrong`); noise
symbols with constraints. -/
theorem C122_mul_sound_partial {ε : ℕ → K} (hε : ∀ k, -1 ≤ ε k ∧ ε k ≤ 1) {a b : Aff K} {x y : K} {same : Bool}
    (hsa : a.q.Pairwise fun s t => s.sym.index < t.sym.index) (hsb : b.q.Pairwise fun s t => s.sym.index < t.sym.index)
    (hs : Aff.SkipSafe R a.q b.q) (hsame : same = true → a.isTop = true ∨ a = b ∧ x = y)
    (ha : a.Has ε x) (hb : b.Has ε y) : (Aff.mul R NEnv.free same a b).Has ε (x * y) :=
  ha.mul (fun k => Itv.mem_muu.2 (hε k)) rfl hsa hsb hs hsame hb

/-- C122 (division): sound if moreover the middle of the interval of the divisor is computed exactly. -/
theorem C122_div_sound_partial {ε : ℕ → K} (hε : ∀ k, -1 ≤ ε k ∧ ε k ≤ 1) {a b : Aff K} {x y : K}
    (hsa : a.q.Pairwise fun s t => s.sym.index < t.sym.index) (hsb : b.q.Pairwise fun s t => s.sym.index < t.sym.index)
    (hs : Aff.DivSafe R a b) (ha : a.Has ε x) (hb : b.Has ε y) (hy : y ≠ 0) : (Aff.div R NEnv.free a b).Has ε (x / y) :=
  ha.div (fun k => Itv.mem_muu.2 (hε k)) rfl hsa hsb hs hb hy

/-- C122 (square root): sound if moreover the middle of the interval is computed exactly, and the roots of its lower bound
and of its middle exist. -/
theorem C122_sqrt_sound_partial {o : RootOps K} (ho : o.SqrtOK) {ε : ℕ → K} {a : Aff K} {r : K} (hr : 0 ≤ r)
    (hs : Aff.SqrtSafe R a) (ha : a.Has ε (r * r)) : (Aff.sqrt R o a).Has ε r := ha.sqrt ho hr hs

/-- C122 (reduction): intervals are replaced by their middles and a new symbol, whose number is the number of symbols.  Sound
unless a coefficient has exactly one infinite bound (`C122_reduce_wrong`) or the middles overflow. -/
theorem C122_reduce_sound_partial {eps : K} {ε : ℕ → K} (hε : ∀ k, -1 ≤ ε k ∧ ε k ≤ 1) {k : ℕ} {a : Aff K}
    (hb : ∀ t ∈ a.q, t.sym.index < k) (hs : ReduceSafe R eps a) {x : K} (ha : a.Has ε x) :
    ∃ ε' : ℕ → K, (∀ j, -1 ≤ ε' j ∧ ε' j ≤ 1) ∧ (∀ j < k, ε' j = ε j) ∧ (reduce R eps k a).1.Has ε' x := by
  obtain ⟨ε', h1, h2, h3⟩ := reduce_sound (R := R) (fun k => Itv.mem_muu.2 (hε k)) hb hs ha
  exact ⟨ε', fun j => Itv.mem_muu.1 (h1 j), h2, h3⟩

end

/-- a form with the centre `[0,1]` and no term: the square of a variable in `[-1,1]` -/
def unitF : Aff ℚ := ⟨⟨fin 0, fin 1⟩, [], ⟨fin 0, fin 1⟩⟩

/-- C122: the subtraction of two forms with the same interval as centre gives 0. -/
theorem C122_sub_wrong : ¬ ∀ (a b : Aff ℚ) (ε : ℕ → ℚ) (x y : ℚ), (∀ k, -1 ≤ ε k ∧ ε k ≤ 1) → a.Has ε x → b.Has ε y →
    (Aff.sub Rnd.exact NEnv.free a b).Has ε (x - y) := by
  intro h
  have h1 : (1 : ℚ) ∈ (⟨fin 0, fin 1⟩ : Itv ℚ) := by constructor <;> norm_num
  have h0 : (0 : ℚ) ∈ (⟨fin 0, fin 1⟩ : Itv ℚ) := by constructor <;> norm_num
  have := (h unitF unitF (fun _ => 0) 1 0 (fun _ => by constructor <;> norm_num)
    ⟨⟨1, 0, h1, rfl, by norm_num⟩, h1⟩ ⟨⟨0, 0, h0, rfl, by norm_num⟩, h0⟩).2
  have e : (Aff.sub Rnd.exact NEnv.free unitF unitF).itv = Itv.point 0 := by decide +kernel
  rw [e, Itv.mem_point] at this
  norm_num at this

/-- `[-1,1] * ε₀ + ε₁` -/
def crossF : Aff ℚ := ⟨Itv.point 0, [⟨⟨0, false⟩, ⟨fin 1, fin 1⟩⟩, ⟨⟨1, false⟩, Itv.point 1⟩], ⟨fin 2, fin 2⟩⟩

/-- C122: the product drops the pair of entries `M` and `-M` of the matrix even when they are intervals. -/
theorem C122_mul_wrong : ¬ ∀ (a b : Aff ℚ) (ε : ℕ → ℚ) (x y : ℚ), (∀ k, -1 ≤ ε k ∧ ε k ≤ 1) →
    (a.q.Pairwise fun s t => s.sym.index < t.sym.index) → (b.q.Pairwise fun s t => s.sym.index < t.sym.index) →
    a.Has ε x → b.Has ε y → (Aff.mul Rnd.exact NEnv.free false a b).Has ε (x * y) := by
  intro h
  have hh : crossF.Has (fun _ => 1) 2 := by
    refine ⟨⟨0, 2, (Itv.mem_point _ _).2 rfl, ⟨1, 1, ?_, ⟨1, 0, (Itv.mem_point _ _).2 rfl, rfl, by norm_num⟩, by norm_num⟩, by norm_num⟩, ?_⟩
    · constructor <;> norm_num
    · constructor <;> norm_num [crossF]
  have := (h crossF crossF (fun _ => 1) 2 2 (fun _ => by constructor <;> norm_num) (by simp [crossF]) (by simp [crossF]) hh hh).2
  have e : (Aff.mul Rnd.exact NEnv.free false crossF crossF).itv = ⟨fin 1, fin 2⟩ := by decide +kernel
  rw [e] at this
  have := this.2
  norm_num at this

/-- the centre `[0,2]` and the coefficient `[0,+oo]` -/
def halfF : Aff ℚ := ⟨⟨fin 0, fin 2⟩, [⟨⟨0, false⟩, ⟨fin 0, pinf⟩⟩], Itv.top⟩

/-- C122: at a coefficient with one infinite bound the reduction stops and forgets what it has removed before. -/
theorem C122_reduce_wrong : ¬ ∀ (a : Aff ℚ) (k : ℕ) (ε : ℕ → ℚ) (x : ℚ), (∀ j, -1 ≤ ε j ∧ ε j ≤ 1) → (∀ t ∈ a.q, t.sym.index < k) →
    a.Has ε x → ∃ ε' : ℕ → ℚ, (∀ j, -1 ≤ ε' j ∧ ε' j ≤ 1) ∧ (∀ j < k, ε' j = ε j) ∧ (reduce Rnd.exact (1/1000) k a).1.Has ε' x := by
  intro h
  obtain ⟨ε', _, h2, h3⟩ := h halfF 1 (fun _ => 0) 2 (fun _ => by constructor <;> norm_num) (by simp [halfF])
    ⟨⟨2, 0, by constructor <;> norm_num [halfF], ⟨0, 0, by constructor <;> simp, rfl, by norm_num⟩, by norm_num⟩, Itv.mem_top _⟩
  have e : (reduce Rnd.exact (1/1000) 1 halfF).1 = ⟨Itv.point 1, halfF.q, Itv.top⟩ := by decide +kernel
  rw [e] at h3
  obtain ⟨⟨c, y, hc, ⟨q, z, _, hz, hy⟩, hx⟩, _⟩ := h3
  rw [Itv.mem_point] at hc
  have hz : z = 0 := hz
  have h0 := h2 0 (by norm_num)
  rw [hz] at hy
  dsimp only at hy
  rw [h0, mul_zero, add_zero] at hy
  rw [hc, hy] at hx
  norm_num at hx

/-- `2 + ε₀` and `3 + ε₀ - ε₁`, for the examples -/
def exA : Aff ℚ := ⟨Itv.point 2, [⟨⟨0, false⟩, Itv.point 1⟩], ⟨fin (-1), fin 3⟩⟩
def exB : Aff ℚ := ⟨Itv.point 3, [⟨⟨0, false⟩, Itv.point 1⟩, ⟨⟨1, false⟩, Itv.point (-1)⟩], ⟨fin (-1), fin 5⟩⟩

/-- the difference is `-1 + ε₁`: the common symbol cancels -/
example : Aff.sub Rnd.exact NEnv.free exA exB = ⟨Itv.point (-1), [⟨⟨1, false⟩, Itv.point 1⟩], ⟨fin 2, fin 0⟩⟩ := by decide +kernel

/-- the conditions of the theorems on subtraction and product hold for them; their value for `ε = (1/2, 0)` -/
example : (exA.c = exB.c → exA.c.isPoint = true) ∧ exA.Has (fun k => if k = 0 then 1/2 else 0) (5/2) ∧ Aff.SkipSafe Rnd.exact exA.q exB.q := by
  refine ⟨fun h => by decide +kernel, ⟨⟨2, 1/2, (Itv.mem_point _ _).2 rfl, ⟨1, 0, (Itv.mem_point _ _).2 rfl, rfl, by norm_num⟩, by norm_num⟩, by constructor <;> norm_num [exA]⟩, ?_⟩
  intro s t _
  have hc : ∀ (l : List (Term ℚ)), (∀ t ∈ l, t.coef.isPoint = true) → ∀ k c, Aff.coefOf l k = some c → c.isPoint = true := by
    intro l hl k c h
    simp only [Aff.coefOf, Option.map_eq_some_iff] at h
    obtain ⟨u, hu, rfl⟩ := h
    exact hl u (List.mem_of_find?_eq_some hu)
  unfold Aff.entry
  cases h1 : Aff.coefOf exA.q s with
  | none => exact Itv.isPoint_point 0
  | some c =>
    cases h2 : Aff.coefOf exB.q t with
    | none => exact Itv.isPoint_point 0
    | some d =>
      obtain ⟨p, rfl⟩ := Itv.isPoint_ex (hc _ (by decide +kernel) _ _ h1)
      obtain ⟨q, rfl⟩ := Itv.isPoint_ex (hc _ (by decide +kernel) _ _ h2)
      dsimp only
      rw [Itv.mul_points]; exact Itv.isPoint_point _

/-- the product: centre `6 + [-1,1] + [0,1]`, and the linear terms -/
example : Aff.mul Rnd.exact NEnv.free false exA exB =
    ⟨⟨fin (-5), fin 8⟩, [⟨⟨0, false⟩, Itv.point 5⟩, ⟨⟨1, false⟩, Itv.point (-2)⟩], ⟨fin (-1), fin 15⟩⟩ := by decide +kernel

/-- the reduction of a centre `[0,2]`: 1, and a new symbol with coefficient 1 -/
example : reduce Rnd.exact (1/1000) 3 (⟨⟨fin 0, fin 2⟩, [], ⟨fin 0, fin 2⟩⟩ : Aff ℚ) = (⟨Itv.point 1, [⟨⟨3, true⟩, Itv.point 1⟩], ⟨fin 0, fin 2⟩⟩, 4) ∧
    ReduceSafe Rnd.exact (1/1000) (⟨⟨fin 0, fin 2⟩, [], ⟨fin 0, fin 2⟩⟩ : Aff ℚ) := by
  refine ⟨by decide +kernel, .inr ⟨Itv.midFin_exact _, fun _ _ => Itv.midFin_exact _, ?_⟩⟩
  have : redTerms Rnd.exact (1/1000 : ℚ) [] (red1 Rnd.exact (1/1000) (⟨fin 0, fin 2⟩ : Itv ℚ) (Itv.point 0)).2 = .ok [] (Itv.point 1) := by
    simp only [redTerms]
    congr 1
    decide +kernel
  dsimp only
  rw [this]
  simp [Itv.point]

end Props
end Apron
