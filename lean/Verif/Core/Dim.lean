import Verif.Core.Linexpr
import Mathlib.Data.List.Nodup
import Mathlib.Data.List.Range
import Mathlib.Data.Fintype.Card
import Mathlib.Data.Fintype.EquivFin

/-!
# Dimension changes and permutations

`apron/ap_dimension.c`, and the checks of such arguments made by `apron/ap_abstract0.c` before an
abstract domain is called.

An array of dimensions is a list; a read or a write outside of an array is the outcome `none`.
-/

set_option autoImplicit false
set_option linter.unusedSectionVars false
set_option linter.ambiguousOpen false

namespace Apron
namespace Dim

/-! ## ap_dimension.c -/

/-- the loop of `ap_dimchange_add_invert`, from index `i` -/
def addInvertFrom (i : ℕ) : List ℕ → List ℕ
  | [] => []
  | d :: l => (d + i) :: addInvertFrom (i + 1) l

/-- `ap_dimchange_add_invert`: apron/ap_dimension.c:49-55 -/
def addInvert (dim : List ℕ) : List ℕ := addInvertFrom 0 dim

/-- `ap_dimperm_set_id`: apron/ap_dimension.c:130-134 (the array has `size` elements) -/
def setId (size : ℕ) : List ℕ := List.range size

/-- `ap_dimperm_compose`: apron/ap_dimension.c:137-145 -/
def compose (perm1 perm2 : List ℕ) : Option (List ℕ) := perm1.mapM fun d => perm2[d]?

/-- the loop of `ap_dimperm_invert`: from index `i`, the array `nperm` being filled -/
def invertFrom (i : ℕ) (nperm : List ℕ) : List ℕ → Option (List ℕ)
  | [] => some nperm
  | d :: l => if d < nperm.length then invertFrom (i + 1) (nperm.set d i) l else none

/-- `ap_dimperm_invert`: apron/ap_dimension.c:147-155; `nperm` is the (uninitialised) result
array -/
def invert (nperm perm : List ℕ) : Option (List ℕ) := invertFrom 0 nperm perm

/-! ## ap_abstract0.c -/

/-- the sortedness loop of `ap_abstract0_check_ap_dimchange_add`: apron/ap_abstract0.c:470-478 -/
def sortedAdd (dim : ℕ) : List ℕ → Bool
  | [] => true
  | d :: l => if dim > d then false else sortedAdd d l

/-- `ap_abstract0_check_ap_dimchange_add`: apron/ap_abstract0.c:456-489.  `nint` is
`dimchange->intdim`; the loop starts at index 1 with `dim = 0`. -/
def checkAdd (intdim realdim : ℕ) (dims : List ℕ) (nint : ℕ) : Bool :=
  (dims.take nint).all (fun d => decide (d ≤ intdim)) &&
    (if dims.length > 0 then
      sortedAdd 0 (dims.drop 1) && decide (dims.getD (dims.length - 1) 0 ≤ intdim + realdim)
    else true)

/-- the sortedness loop of `ap_abstract0_check_ap_dimchange_remove`:
apron/ap_abstract0.c:505-513 -/
def sortedRemove (dim : ℕ) : List ℕ → Bool
  | [] => true
  | d :: l => if dim ≥ d then false else sortedRemove d l

/-- `ap_abstract0_check_ap_dimchange_remove`: apron/ap_abstract0.c:491-524 -/
def checkRemove (intdim realdim : ℕ) (dims : List ℕ) (nint : ℕ) : Bool :=
  (dims.take nint).all (fun d => decide (d < intdim)) &&
    (if dims.length > 0 then
      sortedRemove 0 (dims.drop 1) && decide (dims.getD (dims.length - 1) 0 < intdim + realdim)
    else true)

/-- `ap_abstract0_check_dimperm`: apron/ap_abstract0.c:525-545 -/
def checkPerm (intdim realdim : ℕ) (perm : List ℕ) : Bool :=
  decide (intdim + realdim = perm.length) && perm.all (fun d => decide (d < intdim + realdim))

/-- the loop of `ap_abstract0_check_linexpr_check` on a sparse expression, from the last term:
apron/ap_abstract0.c:258-266; `dim` is the value kept from the previous iteration -/
def sparseDim (nbdims : ℕ) {A : Type*} (dim : ℕ) : List (ℕ × A) → ℕ
  | [] => dim
  | p :: l => if p.1 ≠ dimMax then (if p.1 < nbdims then dimMax else p.1)
      else sparseDim nbdims p.1 l

/-- `ap_abstract0_check_linexpr_check`: apron/ap_abstract0.c:238-273; `dimMax` when the expression
is accepted -/
def checkLinexprDim {K : Type*} (intdim realdim : ℕ) (e : Linexpr K) : ℕ :=
  match e.body with
  | .dense l => if l.length > intdim + realdim then l.length - 1 else dimMax
  | .sparse l =>
    let dim := sparseDim (intdim + realdim) 0 l.reverse
    if dim = 0 then dimMax else dim

/-- `ap_abstract0_check_linexpr`: apron/ap_abstract0.c:275-287 -/
def checkLinexpr {K : Type*} (intdim realdim : ℕ) (e : Linexpr K) : Bool :=
  decide (checkLinexprDim intdim realdim e = dimMax)

/-! ## Specification -/

/-- `perm` is a permutation of `0..n-1` given by its values -/
def IsPerm (n : ℕ) (perm : List ℕ) : Prop :=
  perm.length = n ∧ (∀ d ∈ perm, d < n) ∧ perm.Nodup

/-- the legal insertion arrays (apron/ap_dimension.h:44-62): sorted, the first `nint` among or just
after the integer dimensions, the others among or just after the real ones -/
def LegalAdd (intdim realdim : ℕ) (dims : List ℕ) (nint : ℕ) : Prop :=
  dims.Pairwise (· ≤ ·) ∧ (∀ d ∈ dims, d ≤ intdim + realdim) ∧
    (∀ d ∈ dims.take nint, d ≤ intdim) ∧ (∀ d ∈ dims.drop nint, intdim ≤ d)

/-- the legal removal arrays: strictly sorted, the first `nint` are integer dimensions, the others
real ones -/
def LegalRemove (intdim realdim : ℕ) (dims : List ℕ) (nint : ℕ) : Prop :=
  dims.Pairwise (· < ·) ∧ (∀ d ∈ dims, d < intdim + realdim) ∧
    (∀ d ∈ dims.take nint, d < intdim) ∧ (∀ d ∈ dims.drop nint, intdim ≤ d)

/-! ## Lemmas -/

theorem addInvertFrom_length (l : List ℕ) (i : ℕ) : (addInvertFrom i l).length = l.length := by
  induction l generalizing i with
  | nil => rfl
  | cons d l ih => simp [addInvertFrom, ih]

theorem addInvertFrom_getD (l : List ℕ) (i k : ℕ) (hk : k < l.length) :
    (addInvertFrom i l).getD k 0 = l.getD k 0 + (i + k) := by
  induction l generalizing i k with
  | nil => simp at hk
  | cons d l ih =>
    cases k with
    | zero => simp [addInvertFrom]
    | succ k =>
      have := ih (i + 1) k (by simpa using hk)
      simp only [addInvertFrom, List.getD_cons_succ]
      rw [this]; omega

theorem mem_addInvertFrom (l : List ℕ) (i v : ℕ) :
    v ∈ addInvertFrom i l ↔ ∃ k, k < l.length ∧ v = l.getD k 0 + (i + k) := by
  induction l generalizing i with
  | nil => simp [addInvertFrom]
  | cons d l ih =>
    simp only [addInvertFrom, List.mem_cons, ih]
    constructor
    · rintro (h | ⟨k, hk, h⟩)
      · exact ⟨0, by simp, by simpa using h⟩
      · exact ⟨k + 1, by simpa using hk, by simp only [List.getD_cons_succ]; omega⟩
    · rintro ⟨k, hk, h⟩
      cases k with
      | zero => exact Or.inl (by simpa using h)
      | succ k =>
        refine Or.inr ⟨k, by simpa using hk, ?_⟩
        simp only [List.getD_cons_succ] at h; omega

theorem getD_mem' {l : List ℕ} {k : ℕ} (hk : k < l.length) : l.getD k 0 ∈ l := by
  rw [List.getD, List.getElem?_eq_getElem hk]; exact List.getElem_mem hk

theorem addInvertFrom_sorted (l : List ℕ) (i : ℕ) (h : l.Pairwise (· ≤ ·)) :
    (addInvertFrom i l).Pairwise (· < ·) := by
  induction l generalizing i with
  | nil => exact List.Pairwise.nil
  | cons d l ih =>
    rw [List.pairwise_cons] at h
    refine List.pairwise_cons.2 ⟨fun v hv => ?_, ih _ h.2⟩
    obtain ⟨k, hk, rfl⟩ := (mem_addInvertFrom _ _ _).1 hv
    have := h.1 _ (getD_mem' hk); omega

theorem compose_eq {p q : List ℕ} (h : ∀ d ∈ p, d < q.length) :
    compose p q = some (p.map fun d => q.getD d 0) := by
  unfold compose
  induction p with
  | nil => rfl
  | cons d p ih =>
    have hd := h d (by simp)
    rw [List.mapM_cons, ih fun e he => h e (by simp [he]), List.getElem?_eq_getElem hd]
    simp [List.getElem?_eq_getElem hd]

theorem compose_none {p q : List ℕ} {d : ℕ} (hd : d ∈ p) (h : q.length ≤ d) : compose p q = none := by
  unfold compose
  induction p with
  | nil => simp at hd
  | cons e p ih =>
    rw [List.mapM_cons]
    rcases List.mem_cons.1 hd with rfl | hd
    · rw [List.getElem?_eq_none h]; rfl
    · rw [ih hd]; cases q[e]? <;> rfl

theorem IsPerm.getD_lt {n : ℕ} {p : List ℕ} (h : IsPerm n p) {i : ℕ} (hi : i < n) : p.getD i 0 < n :=
  h.2.1 _ (getD_mem' (by rw [h.1]; exact hi))

theorem nodup_getD_inj {p : List ℕ} (h : p.Nodup) {i j : ℕ} (hi : i < p.length) (hj : j < p.length)
    (e : p.getD i 0 = p.getD j 0) : i = j := by
  simp only [List.getD, List.getElem?_eq_getElem hi, List.getElem?_eq_getElem hj,
    Option.getD_some] at e
  exact (List.Nodup.getElem_inj_iff h).1 e

theorem IsPerm.inj {n : ℕ} {p : List ℕ} (h : IsPerm n p) {i j : ℕ} (hi : i < n) (hj : j < n)
    (e : p.getD i 0 = p.getD j 0) : i = j :=
  nodup_getD_inj h.2.2 (by rw [h.1]; exact hi) (by rw [h.1]; exact hj) e

theorem IsPerm.surj {n : ℕ} {p : List ℕ} (h : IsPerm n p) {d : ℕ} (hd : d < n) :
    ∃ i, i < n ∧ p.getD i 0 = d := by
  have hinj : Function.Injective (fun i : Fin n => (⟨p.getD i 0, h.getD_lt i.2⟩ : Fin n)) := by
    intro i j e
    exact Fin.ext (h.inj i.2 j.2 (by simpa using e))
  obtain ⟨i, hi⟩ := (Finite.injective_iff_surjective.1 hinj) ⟨d, hd⟩
  exact ⟨i, i.2, by simpa using congrArg Fin.val hi⟩

theorem isPerm_of {n : ℕ} {p : List ℕ} (hl : p.length = n) (hlt : ∀ i, i < n → p.getD i 0 < n)
    (hinj : ∀ i j, i < n → j < n → p.getD i 0 = p.getD j 0 → i = j) : IsPerm n p := by
  refine ⟨hl, fun d hd => ?_, ?_⟩
  · obtain ⟨i, hi, rfl⟩ := List.getElem_of_mem hd
    have := hlt i (by omega)
    rwa [List.getD, List.getElem?_eq_getElem hi, Option.getD_some] at this
  · rw [List.nodup_iff_injective_getElem]
    intro i j e
    refine Fin.ext (hinj i j (by omega) (by omega) ?_)
    rw [List.getD, List.getElem?_eq_getElem i.2, List.getD, List.getElem?_eq_getElem j.2]
    simpa using e

/-- result of the inversion loop: written cells hold the index of their last writer, the others are
unchanged -/
theorem invertFrom_spec (l : List ℕ) (i : ℕ) (r : List ℕ) (hlt : ∀ d ∈ l, d < r.length)
    (hnd : l.Nodup) :
    ∃ q, invertFrom i r l = some q ∧ q.length = r.length ∧
      (∀ k, k < l.length → q.getD (l.getD k 0) 0 = i + k) ∧
      (∀ d, d ∉ l → q.getD d 0 = r.getD d 0) := by
  induction l generalizing i r with
  | nil => exact ⟨r, rfl, rfl, by simp, fun _ _ => rfl⟩
  | cons d l ih =>
    rw [List.nodup_cons] at hnd
    have hd : d < r.length := hlt d (by simp)
    obtain ⟨q, hq, hl, h1, h2⟩ := ih (i + 1) (r.set d i)
      (fun e he => by rw [List.length_set]; exact hlt e (by simp [he])) hnd.2
    refine ⟨q, by rw [invertFrom, if_pos hd, hq], by rw [hl, List.length_set], ?_, ?_⟩
    · intro k hk
      cases k with
      | zero =>
        simp only [List.getD_cons_zero]
        rw [h2 d hnd.1]
        simp [List.getD, List.getElem?_set, hd]
      | succ k =>
        simp only [List.getD_cons_succ]
        rw [h1 k (by simpa using hk)]; omega
    · intro e he
      simp only [List.mem_cons, not_or] at he
      rw [h2 e he.2]
      simp only [List.getD, List.getElem?_set]
      rw [if_neg (fun h => he.1 h.symm)]

theorem sortedAdd_iff (l : List ℕ) (m : ℕ) :
    sortedAdd m l = true ↔ (∀ d ∈ l, m ≤ d) ∧ l.Pairwise (· ≤ ·) := by
  induction l generalizing m with
  | nil => simp [sortedAdd]
  | cons d l ih =>
    rw [sortedAdd]
    by_cases h : m > d
    · rw [if_pos h]
      simp only [Bool.false_eq_true, false_iff]
      intro h'
      have := h'.1 d (by simp); omega
    · rw [if_neg h, ih, List.pairwise_cons]
      constructor
      · rintro ⟨h1, h2⟩
        refine ⟨fun e he => ?_, h1, h2⟩
        rcases List.mem_cons.1 he with rfl | he
        · omega
        · have := h1 e he; omega
      · rintro ⟨_, h1, h2⟩
        exact ⟨h1, h2⟩

theorem sortedRemove_iff (l : List ℕ) (m : ℕ) :
    sortedRemove m l = true ↔ (∀ d ∈ l, m < d) ∧ l.Pairwise (· < ·) := by
  induction l generalizing m with
  | nil => simp [sortedRemove]
  | cons d l ih =>
    rw [sortedRemove]
    by_cases h : m ≥ d
    · rw [if_pos h]
      simp only [Bool.false_eq_true, false_iff]
      intro h'
      have := h'.1 d (by simp); omega
    · rw [if_neg h, ih, List.pairwise_cons]
      constructor
      · rintro ⟨h1, h2⟩
        refine ⟨fun e he => ?_, h1, h2⟩
        rcases List.mem_cons.1 he with rfl | he
        · omega
        · have := h1 e he; omega
      · rintro ⟨_, h1, h2⟩
        exact ⟨h1, h2⟩

end Dim
end Apron
