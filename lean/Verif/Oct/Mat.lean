import Verif.Num.BoundLemmas

/-!
# Octagon half-matrices: layout

Model of the index functions of `octagons/oct_internal.h` lines 150-170 and of the allocation
functions of `octagons/oct_hmat.c` lines 55-100.

A half-matrix (`bound_t*` with `matsize(dim)` cells) is modelled as a memory `ℕ → Bound K`
(position to value).  Only positions below `matsize dim` are ever meaningful.
-/

set_option autoImplicit false
set_option linter.unusedSectionVars false
set_option linter.ambiguousOpen false

namespace Apron
namespace Oct
open Bound

/-- `matsize`: octagons/oct_internal.h:154-157 -/
def matsize (dim : ℕ) : ℕ := 2 * dim * (dim + 1)

/-- `matpos`: octagons/oct_internal.h:160-163 -/
def matpos (i j : ℕ) : ℕ := j + ((i + 1) * (i + 1)) / 2

/-- `matpos2`: octagons/oct_internal.h:166-170 -/
def matpos2 (i j : ℕ) : ℕ := if j > i then matpos (j ^^^ 1) (i ^^^ 1) else matpos i j

theorem xor1 (i : ℕ) : i ^^^ 1 = if i % 2 = 0 then i + 1 else i - 1 := by
  have h1 : (i ^^^ 1) / 2 = i / 2 := by
    have := Nat.xor_div_two (a := i) (b := 1)
    simpa using this
  have h2 : (i ^^^ 1) % 2 = (i + 1) % 2 := by
    have := Nat.xor_mod_two_eq_one (a := i) (b := 1)
    simp only [Nat.one_mod, iff_true] at this
    omega
  split_ifs <;> omega

theorem or1 (i : ℕ) : i ||| 1 = if i % 2 = 0 then i + 1 else i := by
  have h1 : (i ||| 1) / 2 = i / 2 := by
    have := Nat.or_div_two (a := i) (b := 1)
    simpa using this
  have h2 : (i ||| 1) % 2 = 1 := by
    simp
  split_ifs <;> omega

theorem xor1_even {a : ℕ} : (2 * a) ^^^ 1 = 2 * a + 1 := by rw [xor1]; simp
theorem xor1_odd {a : ℕ} : (2 * a + 1) ^^^ 1 = 2 * a := by rw [xor1]; split_ifs <;> omega
@[simp] theorem xor1_xor1 (i : ℕ) : (i ^^^ 1) ^^^ 1 = i := by simp [Nat.xor_assoc]
theorem xor1_div (i : ℕ) : (i ^^^ 1) / 2 = i / 2 := by rw [xor1]; split_ifs <;> omega
theorem xor1_inj {i j : ℕ} : i ^^^ 1 = j ^^^ 1 ↔ i = j :=
  ⟨fun h => by rw [← xor1_xor1 i, h, xor1_xor1], fun h => by rw [h]⟩
theorem xor1_ne (i : ℕ) : i ^^^ 1 ≠ i := by rw [xor1]; split_ifs <;> omega
theorem xor1_lt {i n : ℕ} (h : i < 2 * n) : i ^^^ 1 < 2 * n := by rw [xor1]; split_ifs <;> omega
theorem xor1_lt_iff {i n : ℕ} : i ^^^ 1 < 2 * n ↔ i < 2 * n :=
  ⟨fun h => by have := xor1_lt h; rwa [xor1_xor1] at this, xor1_lt⟩
theorem le_or1_iff {i j : ℕ} : j ≤ (i ||| 1) ↔ j / 2 ≤ i / 2 := by rw [or1]; split_ifs <;> omega

/-- `(i,j)` is a stored cell: `j/2 <= i/2` (octagons/oct_internal.h:159) -/
def Cell (i j : ℕ) : Prop := j / 2 ≤ i / 2

instance (i j : ℕ) : Decidable (Cell i j) := inferInstanceAs (Decidable (_ ≤ _))

theorem cell_or_mirror (i j : ℕ) : Cell i j ∨ Cell (j ^^^ 1) (i ^^^ 1) := by
  unfold Cell; rw [xor1_div, xor1_div]; omega

theorem cell_mirror_iff (i j : ℕ) : Cell (j ^^^ 1) (i ^^^ 1) ↔ i / 2 ≤ j / 2 := by
  unfold Cell; rw [xor1_div, xor1_div]

/-- `2 * ((i+1)^2 / 2)` -/
theorem sq_half (i : ℕ) : ((i + 1) * (i + 1)) / 2 * 2 = (i + 1) * (i + 1) - (i + 1) % 2 := by
  have : ((i + 1) * (i + 1)) % 2 = (i + 1) % 2 := by
    rw [Nat.mul_mod]; rcases Nat.mod_two_eq_zero_or_one (i + 1) with h | h <;> rw [h]
  omega

/-- start of row `i`, in closed form on pairs of rows -/
theorem row_even (a : ℕ) : ((2 * a + 1) * (2 * a + 1)) / 2 = 2 * a * (a + 1) := by
  have : (2 * a + 1) * (2 * a + 1) = 2 * (2 * a * (a + 1)) + 1 := by ring
  omega
theorem row_odd (a : ℕ) : ((2 * a + 1 + 1) * (2 * a + 1 + 1)) / 2 = 2 * a * (a + 1) + (2 * a + 2) := by
  have : (2 * a + 1 + 1) * (2 * a + 1 + 1) = 2 * (2 * a * (a + 1) + (2 * a + 2)) := by ring
  omega

theorem row_step (i : ℕ) : matpos (i + 1) 0 = matpos i (i ||| 1) + 1 := by
  unfold matpos
  rw [or1]
  rcases Nat.even_or_odd' i with ⟨a, rfl | rfl⟩
  · rw [if_pos (by omega), row_even, row_odd]; omega
  · rw [if_neg (by omega), row_odd]
    have := row_even (a + 1)
    rw [show 2 * (a + 1) + 1 = 2 * a + 1 + 1 + 1 by ring] at this
    rw [this]; ring

theorem row_mono {i i' : ℕ} (h : i ≤ i') : matpos i 0 ≤ matpos i' 0 := by
  unfold matpos
  have : (i + 1) * (i + 1) ≤ (i' + 1) * (i' + 1) := Nat.mul_le_mul (by omega) (by omega)
  have := Nat.div_le_div_right (c := 2) this
  omega

theorem matpos_eq (i j : ℕ) : matpos i j = matpos i 0 + j := by unfold matpos; ring

theorem matpos_lt_next {i j : ℕ} (h : Cell i j) : matpos i j < matpos (i + 1) 0 := by
  rw [row_step, matpos_eq, matpos_eq i (i ||| 1)]
  have : j ≤ i ||| 1 := le_or1_iff.2 h
  omega

theorem matpos_inj {i j i' j' : ℕ} (h : Cell i j) (h' : Cell i' j') (e : matpos i j = matpos i' j') :
    i = i' ∧ j = j' := by
  have key : ∀ {i j i' j' : ℕ}, Cell i j → Cell i' j' → matpos i j = matpos i' j' → ¬ i < i' := by
    intro i j i' j' h h' e hlt
    have h1 := matpos_lt_next h
    have h2 := row_mono (show i + 1 ≤ i' by omega)
    have h3 := matpos_eq i' j'
    omega
  have h1 := key h h' e
  have h2 := key h' h e.symm
  have h3 : i = i' := by omega
  subst h3
  rw [matpos_eq, matpos_eq i j'] at e
  exact ⟨rfl, by omega⟩

theorem matpos_lt {i j dim : ℕ} (hi : i < 2 * dim) (h : Cell i j) : matpos i j < matsize dim := by
  have h1 := matpos_lt_next h
  have h2 := row_mono (show i + 1 ≤ 2 * dim by omega)
  have h3 : matpos (2 * dim) 0 = matsize dim := by
    unfold matpos matsize; rw [row_even]; omega
  omega

theorem matpos2_eq (i j : ℕ) : matpos2 i j = if Cell i j then matpos i j else matpos (j ^^^ 1) (i ^^^ 1) := by
  unfold matpos2
  by_cases h : j > i
  · rw [if_pos h]
    by_cases hc : Cell i j
    · rw [if_pos hc]
      unfold Cell at hc
      have : j = i ^^^ 1 := by rw [xor1]; split_ifs <;> omega
      subst this; simp
    · rw [if_neg hc]
  · rw [if_neg h, if_pos (by unfold Cell; omega)]

theorem matpos2_cell {i j : ℕ} (h : Cell i j) : matpos2 i j = matpos i j := by
  rw [matpos2_eq, if_pos h]

theorem matpos2_mirror {i j : ℕ} (h : i / 2 ≠ j / 2) : matpos2 i j = matpos2 (j ^^^ 1) (i ^^^ 1) := by
  rw [matpos2_eq, matpos2_eq]
  simp only [xor1_xor1]
  by_cases hc : Cell i j
  · have hm : ¬ Cell (j ^^^ 1) (i ^^^ 1) := by
      rw [cell_mirror_iff]; unfold Cell at hc; omega
    rw [if_pos hc, if_neg hm]
  · rw [if_neg hc, if_pos ((cell_or_mirror i j).resolve_left hc)]

theorem matpos2_lt {i j dim : ℕ} (hi : i < 2 * dim) (hj : j < 2 * dim) : matpos2 i j < matsize dim := by
  rw [matpos2_eq]
  split_ifs with h
  · exact matpos_lt hi h
  · exact matpos_lt (xor1_lt hj) ((cell_or_mirror i j).resolve_left h)

/-! ### Memory and meaning -/

variable {K : Type*}

/-- the memory of a half-matrix -/
abbrev Mem (K : Type*) := ℕ → Bound K

/-- `m[p] = v` -/
def Mem.set (m : Mem K) (p : ℕ) (v : Bound K) : Mem K := fun q => if q = p then v else m q

theorem Mem.set_self (m : Mem K) (p : ℕ) (v : Bound K) : m.set p v p = v := by simp [Mem.set]
theorem Mem.set_ne (m : Mem K) {p q : ℕ} (v : Bound K) (h : q ≠ p) : m.set p v q = m q := by
  simp [Mem.set, h]

variable [LinearOrder K] [Field K] [IsStrictOrderedRing K]

/-- `bound_bmin(m[p], v)`: num/bound_def.h:330-333 -/
def Mem.bmin (m : Mem K) (p : ℕ) (v : Bound K) : Mem K := m.set p (Bound.bmin (m p) v)

/-- Specification: `v_{2k} = x_k`, `v_{2k+1} = -x_k` (octagons/oct_hmat.c:24-52) -/
def V (x : ℕ → K) (i : ℕ) : K := if i % 2 = 0 then x (i / 2) else -x (i / 2)

theorem V_xor1 (x : ℕ → K) (i : ℕ) : V x (i ^^^ 1) = -V x i := by
  unfold V
  rw [xor1_div]
  by_cases h : i % 2 = 0
  · have : (i ^^^ 1) % 2 ≠ 0 := by rw [xor1, if_pos h]; omega
    rw [if_neg this, if_pos h]
  · have : (i ^^^ 1) % 2 = 0 := by rw [xor1, if_neg h]; omega
    rw [if_pos this, if_neg h, _root_.neg_neg]

/-- Specification: the point `x` satisfies every constraint of the half-matrix: the cell `(i,j)`
states `v_j - v_i ≤ m[i,j]` (octagons/oct_hmat.c:24-52). -/
def Sat (dim : ℕ) (m : Mem K) (x : ℕ → K) : Prop :=
  ∀ i j, i < 2 * dim → Cell i j → fin (V x j - V x i) ≤ m (matpos i j)

theorem Sat.le2 {dim : ℕ} {m : Mem K} {x : ℕ → K} (h : Sat dim m x) {i j : ℕ} (hi : i < 2 * dim)
    (hj : j < 2 * dim) : fin (V x j - V x i) ≤ m (matpos2 i j) := by
  rw [matpos2_eq]
  split_ifs with hc
  · exact h i j hi hc
  · have := h (j ^^^ 1) (i ^^^ 1) (xor1_lt hj) ((cell_or_mirror i j).resolve_left hc)
    rw [V_xor1, V_xor1] at this
    rwa [show V x j - V x i = -V x i - -V x j by ring]

/-- `hmat_alloc_top`: octagons/oct_hmat.c:82-89 -/
def allocTop (dim : ℕ) : Mem K :=
  (List.range (2 * dim)).foldl (fun m i => m.set (matpos i i) (fin 0)) (fun _ => pinf)

/-- `hmat_alloc_zero`: octagons/oct_hmat.c:73-79 -/
def allocZero : Mem K := fun _ => fin 0

end Oct
end Apron
