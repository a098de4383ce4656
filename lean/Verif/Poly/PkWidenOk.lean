import Verif.Poly.PkWidenTerm
import Verif.Poly.PkRayBox

/-!
# Widening of convex polyhedra: specification
-/

set_option autoImplicit false
set_option linter.unusedSectionVars false

namespace Apron.Poly

variable {K : Type*} [LinearOrder K] [Field K] [IsStrictOrderedRing K] {n : ℕ}

/-- inclusion of the points of a polyhedron given by both representations is inclusion of the cones -/
theorem cone_le {f : Full} (hf : (Rep.both f).Wf K n) {C : List Row} (h : ∀ x : Fin n → K, (Rep.both f).γ x → Sat C (hom x)) :
    ∀ y : Fin (n + 1) → K, Sat f.crows y → Sat C y := by
  intro y hy
  exact (Sat.isCone f.crows).sat hf.2.1 (IsCone.exists_point (Sat.isCone _) hf.2.2) (fun x hx => h x hx) hy

/-- the computation when the first argument is not empty -/
theorem widening_both {pa pb : Rep} (ha : pa.Wf K n) (hb : pb.Wf K n) (hle : ∀ x : Fin n → K, pa.γ x → pb.γ x) (alg : ℤ) {f : Full}
    (hf : pa.chernikova n = .both f) :
    ∃ g, pb.chernikova n = .both g ∧ Rep.widening n alg pa pb = some (.cons (posRow n :: g.crows.filter (f.keeps n alg))) ∧
      (Rep.both f).Wf K n ∧ (Rep.both g).Wf K n ∧ (∀ y : Fin (n + 1) → K, Sat f.crows y → Sat g.crows y) := by
  obtain ⟨wf, cf⟩ := chernikova_both ha hf
  obtain ⟨x0, hx0⟩ := IsCone.exists_point (Sat.isCone f.crows) wf.2.2
  rcases chernikova_shape n pb with e | ⟨g, e⟩
  · exact absurd (hle x0 ((cf _).1 hx0)) ((chernikova_bot_iff hb).1 e x0)
  · obtain ⟨wg, cg⟩ := chernikova_both hb e
    refine ⟨g, e, ?_, wf, wg, ?_⟩
    · rw [Rep.widening, hf, e]; rfl
    · exact cone_le wf fun x hx => (cg _).2 (hle x ((cf _).1 hx))

theorem widening_bot {pa pb : Rep} (alg : ℤ) (hf : pa.chernikova n = .bot) : Rep.widening n alg pa pb = some (pb.chernikova n) := by
  rw [Rep.widening, hf]

theorem sat_keep {f g : Full} {alg : ℤ} {y : Fin (n + 1) → K} (hg : Sat g.crows y) (h0 : 0 ≤ y 0) :
    Sat (posRow n :: g.crows.filter (f.keeps n alg)) y := by
  rw [Sat.cons_iff]
  refine ⟨?_, fun q hq => hg q (List.mem_filter.1 hq).1⟩
  rw [dot_posRow]
  exact ⟨h0, fun h => by rw [posRow_status] at h; omega⟩

/-- the kept rows have the saturation of a row of the first argument -/
theorem keeps_row {f g : Full} (hf : f.Ok K (n + 1)) {alg : ℤ} {c : Row} (hc : c ∈ g.crows.filter (f.keeps n alg)) :
    ∃ i, i < f.C.length ∧ ∀ r ∈ f.frows, (dot (K := K) r (toV K (n + 1) (f.crows.getD i [])) = 0 ↔
      dot (K := K) r (toV K (n + 1) c) = 0) := by
  obtain ⟨-, hk⟩ := List.mem_filter.1 hc
  rw [Full.keeps] at hk
  cases hj : f.findRow n c with
  | none => rw [hj] at hk; cases hk
  | some j =>
    obtain ⟨h1, h2⟩ := findRow_some hj
    exact ⟨j, h1, (satRow_iff hf h1 c).1 h2⟩

/-- a growing sequence whose steps only keep constraints of the previous element or constraints of `T` is ultimately
stationary -/
theorem stationary (T : List (Fin (n + 1) → K)) (x : ℕ → Rep) (hw : ∀ k, (x k).Wf K n)
    (hle : ∀ k, ∀ p : Fin n → K, (x k).γ p → (x (k + 1)).γ p)
    (hstep : ∀ k f, (x k).chernikova n = .both f → ∃ C, x (k + 1) = .cons C ∧
      ∀ c ∈ C, toV K (n + 1) c ∈ T ∨ ∃ i, i < f.C.length ∧ ∀ r ∈ f.frows,
        (dot (K := K) r (toV K (n + 1) (f.crows.getD i [])) = 0 ↔ dot (K := K) r (toV K (n + 1) c) = 0)) :
    ∃ N, ∀ k, N ≤ k → ∀ p : Fin n → K, (x k).γ p ↔ (x N).γ p := by
  have hmono : ∀ a b, a ≤ b → ∀ p : Fin n → K, (x a).γ p → (x b).γ p := by
    intro a b hab
    induction b, hab using Nat.le_induction with
    | base => exact fun _ h => h
    | succ b _ ih => exact fun p h => hle b p (ih p h)
  by_cases hbot : ∀ k, (x k).chernikova n = .bot
  · refine ⟨0, fun k _ p => ⟨fun h => absurd h ((chernikova_bot_iff (hw k)).1 (hbot k) p), fun h =>
      absurd h ((chernikova_bot_iff (hw 0)).1 (hbot 0) p)⟩⟩
  push Not at hbot
  obtain ⟨k0, hk0⟩ := hbot
  have hboth : ∀ i, ∃ f, (x (k0 + i)).chernikova n = .both f := by
    intro i
    rcases chernikova_shape n (x (k0 + i)) with e | h
    · exfalso
      apply hk0
      rw [chernikova_bot_iff (hw _)] at e ⊢
      exact fun p hp => e p (hmono _ _ (Nat.le_add_right _ _) p hp)
    · exact h
  choose f hf using hboth
  have key : ∀ i, (f (i + 1)).meas T ≤ (f i).meas T ∧ ((f (i + 1)).meas T = (f i).meas T →
      ∀ p : Fin n → K, (x (k0 + (i + 1))).γ p → (x (k0 + i)).γ p) := by
    intro i
    obtain ⟨w1, c1⟩ := chernikova_both (hw _) (hf i)
    obtain ⟨w2, c2⟩ := chernikova_both (hw _) (hf (i + 1))
    obtain ⟨C, hC, hrow⟩ := hstep _ _ (hf i)
    have hc2 : ∀ y : Fin (n + 1) → K, Sat (f (i + 1)).crows y ↔ Sat C y := by
      intro y; rw [c2]
      have : x (k0 + (i + 1)) = .cons C := hC
      rw [this]; exact Iff.rfl
    obtain ⟨m1, m2⟩ := meas_step (T := T) w1.1 w2.1 hc2 (cone_le w1 fun p hp => (c2 _).2 (hle (k0 + i) p ((c1 _).1 hp))) hrow
    exact ⟨m1, fun e p hp => (c1 _).1 (m2 e _ ((c2 _).2 hp))⟩
  have hanti : Antitone fun i => (f i).meas T := antitone_nat_of_succ_le fun i => (key i).1
  obtain ⟨m, ⟨i0, rfl⟩, hmin⟩ := WellFounded.has_min (r := (· < ·)) (wellFounded_lt (α := ℕ ×ₗ ℕ ×ₗ ℕ))
    (Set.range fun i => (f i).meas T) ⟨_, 0, rfl⟩
  refine ⟨k0 + i0, fun k hk p => ⟨fun h => ?_, hmono _ _ hk p⟩⟩
  obtain ⟨j, rfl⟩ := Nat.exists_eq_add_of_le hk
  induction j with
  | zero => exact h
  | succ j ih =>
    refine ih (by omega) ?_
    have e1 : ∀ j, (f (i0 + j)).meas T = (f i0).meas T := fun j =>
      le_antisymm (hanti (Nat.le_add_right _ _)) (not_lt.1 (hmin _ ⟨_, rfl⟩))
    have := (key (i0 + j)).2 (by rw [show i0 + j + 1 = i0 + (j + 1) by omega, e1, e1]) p
    rw [show k0 + (i0 + j + 1) = k0 + i0 + (j + 1) by omega, show k0 + (i0 + j) = k0 + i0 + j by omega] at this
    exact this h

/-! ## Thresholds -/

theorem mem_thresholdRows {intdim : ℕ} {F : List Row} {l : List (Lincons ℚ)} {q : Row} :
    q ∈ thresholdRows n intdim F l ↔ ∃ c ∈ l, (c.typ = .supeq ∨ c.typ = .sup) ∧ c.expr.isLinear = true ∧
      q = setLincons n intdim (ILincons.ofAp Rnd.exact c) ∧ genSatVector n F q false = true := by
  rw [thresholdRows, List.mem_filterMap]
  refine exists_congr fun c => and_congr_right fun _ => ?_
  cases hc : c.typ with
  | supeq =>
    simp only [true_or, true_and]
    split_ifs with h1 h2
    · simp only [h1, true_and, Option.some.injEq]
      exact ⟨fun e => ⟨e.symm, e ▸ h2⟩, fun e => e.1.symm⟩
    · simp only [h1, true_and, reduceCtorEq, false_iff]
      rintro ⟨rfl, h⟩; exact h2 h
    · simp [h1]
  | sup =>
    simp only [or_true, true_and]
    split_ifs with h1 h2
    · simp only [h1, true_and, Option.some.injEq]
      exact ⟨fun e => ⟨e.symm, e ▸ h2⟩, fun e => e.1.symm⟩
    · simp only [h1, true_and, reduceCtorEq, false_iff]
      rintro ⟨rfl, h⟩; exact h2 h
    · simp [h1]
  | eq => simp
  | eqmod m => simp
  | diseq => simp

end Apron.Poly
