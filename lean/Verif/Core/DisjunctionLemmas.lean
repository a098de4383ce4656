import Verif.Core.Disjunction
import Mathlib.Data.List.GetD

/-!
# Lemmas on finite disjunctions
-/

set_option autoImplicit false
set_option linter.unusedSectionVars false

namespace Apron
namespace Disj

variable {K A : Type*}

/-! ## Compaction -/

theorem skip_spec (p : List (Option A)) (i : ℕ) (n dec : ℕ) (hn : p.length ≤ i + dec + n) (hi : i + dec ≤ p.length) :
    i + skip p i dec n ≤ p.length ∧ dec ≤ skip p i dec n ∧
    (p.drop (i + dec)).filter Option.isSome = (p.drop (i + skip p i dec n)).filter Option.isSome ∧
    (i + skip p i dec n < p.length → (p.getD (i + skip p i dec n) none).isSome = true) := by
  induction n generalizing dec with
  | zero =>
    refine ⟨hi, le_rfl, rfl, fun h => ?_⟩
    simp only [skip] at h
    omega
  | succ n ih =>
    rw [skip]
    by_cases h : i + dec < p.length ∧ (p.getD (i + dec) none).isNone = true
    · rw [if_pos h]
      obtain ⟨h1, h2, h3, h4⟩ := ih (dec + 1) (by omega) (by omega)
      refine ⟨h1, by omega, ?_, h4⟩
      rw [← h3, List.drop_eq_getElem_cons h.1]
      have hh := h.2
      rw [List.getD_eq_getElem _ _ h.1] at hh
      rw [List.filter_cons_of_neg (by simpa using hh)]
      rfl
    · rw [if_neg h]
      refine ⟨hi, le_rfl, rfl, fun h' => ?_⟩
      by_contra hc
      exact h ⟨h', by simpa using hc⟩

theorem resizeLoop_spec (n : ℕ) (p : List (Option A)) (i dec : ℕ) (hn : p.length ≤ i + dec + n) (hi : i + dec ≤ p.length) :
    (resizeLoop n p i dec).1.take (p.length - (resizeLoop n p i dec).2) =
      p.take i ++ (p.drop (i + dec)).filter Option.isSome := by
  induction n generalizing p i dec with
  | zero =>
    have : i + dec = p.length := by omega
    rw [resizeLoop, this, List.drop_length, List.filter_nil, List.append_nil, show p.length - dec = i by omega]
  | succ n ih =>
    rw [resizeLoop]
    by_cases h : i + dec < p.length
    · rw [if_pos h]
      obtain ⟨h1, h2, h3, h4⟩ := skip_spec p i p.length dec (by omega) hi
      rw [h3]
      set d := skip p i dec p.length with hd
      dsimp only
      by_cases h5 : i + d < p.length
      · have e : (if 0 < d ∧ i + d < p.length then p.set i (p.getD (i + d) none) else p) = p.set i (p.getD (i + d) none) := by
          by_cases h0 : 0 < d
          · rw [if_pos ⟨h0, h5⟩]
          · rw [if_neg (fun hh => h0 hh.1)]
            have d0 : d = 0 := by omega
            rw [d0, Nat.add_zero] at h5 ⊢
            rw [List.getD_eq_getElem _ _ h5, List.set_getElem_self]
        rw [e]
        have := ih (p.set i (p.getD (i + d) none)) (i + 1) d (by rw [List.length_set]; omega) (by rw [List.length_set]; omega)
        rw [List.length_set] at this
        rw [this]
        have hlt : i < p.length := by omega
        have t1 : (p.set i (p.getD (i + d) none)).take (i + 1) = p.take i ++ [p.getD (i + d) none] := by
          rw [List.take_add_one, List.take_set_of_le (le_refl i)]
          congr 1
          rw [List.getElem?_set_self hlt]
          rfl
        have t2 : (p.set i (p.getD (i + d) none)).drop (i + 1 + d) = p.drop (i + d + 1) := by
          rw [List.drop_set_of_lt (by omega), show i + 1 + d = i + d + 1 by omega]
        rw [t1, t2, List.append_assoc, List.drop_eq_getElem_cons h5, List.filter_cons_of_pos]
        · rw [List.getD_eq_getElem _ _ h5]; rfl
        · have := h4 h5
          rwa [List.getD_eq_getElem _ _ h5] at this
      · have e5 : i + d = p.length := by omega
        rw [if_neg (fun hh => h5 hh.2)]
        have hr : resizeLoop n p (i + 1) d = (p, d) := by
          cases n with
          | zero => rfl
          | succ n => rw [resizeLoop, if_neg (by omega)]
        rw [hr, e5, List.drop_length, List.filter_nil, List.append_nil]
        dsimp only
        rw [show p.length - d = i by omega]
    · rw [if_neg h]
      have : i + dec = p.length := by omega
      rw [this, List.drop_length, List.filter_nil, List.append_nil]
      dsimp only
      rw [show p.length - dec = i by omega]

theorem resize_eq (p : List (Option A)) : resize p = p.filter Option.isSome := by
  have := resizeLoop_spec p.length p 0 0 (by omega) (by omega)
  simpa [resize] using this

theorem filterMap_filter_isSome (p : List (Option A)) : (p.filter Option.isSome).filterMap id = p.filterMap id := by
  induction p with
  | nil => rfl
  | cons a p ih =>
    cases a with
    | none => rw [List.filter_cons_of_neg (by simp), ih]; rfl
    | some a => exact (congrArg (a :: ·) ih : a :: _ = a :: _)

theorem values_eq (p : List (Option A)) : values p = p.filterMap id := by
  rw [values, resize_eq, filterMap_filter_isSome]

theorem mem_values {p : List (Option A)} {a : A} : a ∈ values p ↔ some a ∈ p := by
  rw [values_eq, List.mem_filterMap]
  exact ⟨fun ⟨o, ho, e⟩ => by subst e; exact ho, fun h => ⟨_, h, rfl⟩⟩

/-! ## Removal of the redundant disjuncts -/

variable (I : DInt K A)

/-- what the entries of an array denote -/
def AGam (p : List (Option A)) (x : ℕ → K) : Prop := ∃ a, some a ∈ p ∧ I.man.Gam a x

theorem gam_values (p : List (Option A)) (x : ℕ → K) : Gam I (values p) x ↔ AGam I p x :=
  ⟨fun ⟨a, h, hx⟩ => ⟨a, mem_values.1 h, hx⟩, fun ⟨a, h, hx⟩ => ⟨a, mem_values.2 h, hx⟩⟩

theorem agam_map_some (l : List A) (x : ℕ → K) : AGam I (l.map some) x ↔ Gam I l x :=
  ⟨fun ⟨a, h, hx⟩ => ⟨a, by simpa using h, hx⟩, fun ⟨a, h, hx⟩ => ⟨a, by simpa using h, hx⟩⟩

theorem agam_none (l : List (Option A)) (x : ℕ → K) : AGam I (none :: l) x ↔ AGam I l x := by
  unfold AGam
  simp

theorem agam_some (a : A) (l : List (Option A)) (x : ℕ → K) : AGam I (some a :: l) x ↔ I.man.Gam a x ∨ AGam I l x := by
  unfold AGam
  constructor
  · rintro ⟨b, hb, hx⟩
    rcases List.mem_cons.1 hb with h | h
    · obtain rfl := Option.some.inj h
      exact Or.inl hx
    · exact Or.inr ⟨b, h, hx⟩
  · rintro (h | ⟨b, hb, hx⟩)
    · exact ⟨a, by simp, h⟩
    · exact ⟨b, by simp [hb], hx⟩

/-- The loop of `ap_disjunction_null_bottom_top`: the number of entries is kept, entries are only removed, the first empty entry and the
first full one are recorded. -/
theorem nbtLoop_struct (l : List (Option A)) (i : ℕ) (b t : Option ℕ) (nb : Bool) :
    let r := nbtLoop I l i b t nb
    r.p.length = l.length ∧ (∀ a, some a ∈ r.p → some a ∈ l) ∧
    (∀ k, b = some k → r.bottom = some k) ∧ (∀ k, t = some k → r.top = some k) ∧
    (r.notbottom = true ↔ nb = true ∨ ∃ a, some a ∈ l ∧ I.isBottom a = false) ∧
    (b = none → ∀ k, r.bottom = some k → i ≤ k ∧ ∃ a, r.p[k - i]? = some (some a) ∧ I.isBottom a = true) ∧
    (t = none → ∀ k, r.top = some k → i ≤ k ∧ ∃ a, r.p[k - i]? = some (some a) ∧ I.isBottom a = false ∧ I.isTop a = true) := by
  induction l generalizing i b t nb with
  | nil =>
    refine ⟨rfl, fun a h => h, fun k h => h, fun k h => h, ?_, fun hb k h => ?_, fun ht k h => ?_⟩
    · simp [nbtLoop]
    · simp [nbtLoop, hb] at h
    · simp [nbtLoop, ht] at h
  | cons o l ih =>
    have shift : ∀ {q : List (Option A)} {k : ℕ} (e : Option A), i + 1 ≤ k → (e :: q)[k - i]? = q[k - (i + 1)]? := by
      intro q k e hk
      rw [show k - i = k - (i + 1) + 1 by omega, List.getElem?_cons_succ]
    cases o with
    | none =>
      obtain ⟨h1, h2, h3, h4, h5, h6, h7⟩ := ih (i + 1) b t nb
      refine ⟨by simp only [nbtLoop, List.length_cons, h1], fun a ha => ?_, h3, h4, ?_, fun hb k hk => ?_, fun ht k hk => ?_⟩
      · simp only [nbtLoop, List.mem_cons, reduceCtorEq, false_or] at ha ⊢
        exact h2 a ha
      · simpa [nbtLoop] using h5
      · obtain ⟨hk1, a, ha, hb'⟩ := h6 hb k hk
        exact ⟨by omega, a, by simp only [nbtLoop]; rw [shift _ hk1]; exact ha, hb'⟩
      · obtain ⟨hk1, a, ha, hb'⟩ := h7 ht k hk
        exact ⟨by omega, a, by simp only [nbtLoop]; rw [shift _ hk1]; exact ha, hb'⟩
    | some c =>
      rw [nbtLoop]
      by_cases hc : I.isBottom c = true
      · rw [if_pos hc]
        by_cases hb : b.isSome = true
        · rw [if_pos hb]
          obtain ⟨h1, h2, h3, h4, h5, h6, h7⟩ := ih (i + 1) b t nb
          refine ⟨by simp only [List.length_cons, h1], fun a ha => ?_, h3, h4, ?_, fun hb' k hk => ?_, fun ht k hk => ?_⟩
          · simp only [List.mem_cons, reduceCtorEq, false_or] at ha
            exact List.mem_cons_of_mem _ (h2 a ha)
          · rw [h5]
            refine or_congr Iff.rfl ⟨fun ⟨a, ha, h⟩ => ⟨a, List.mem_cons_of_mem _ ha, h⟩, fun ⟨a, ha, h⟩ => ?_⟩
            rcases List.mem_cons.1 ha with h' | h'
            · obtain rfl := Option.some.inj h'
              rw [hc] at h; cases h
            · exact ⟨a, h', h⟩
          · rw [hb'] at hb; cases hb
          · obtain ⟨hk1, a, ha, hb'⟩ := h7 ht k hk
            exact ⟨by omega, a, by rw [shift _ hk1]; exact ha, hb'⟩
        · rw [if_neg hb]
          have hb0 : b = none := by simpa using hb
          obtain ⟨h1, h2, h3, h4, h5, h6, h7⟩ := ih (i + 1) (some i) t nb
          refine ⟨by simp only [List.length_cons, h1], fun a ha => ?_, fun k hk => ?_, h4, ?_, fun hb' k hk => ?_, fun ht k hk => ?_⟩
          · rcases List.mem_cons.1 ha with h' | h'
            · rw [h']; exact List.mem_cons_self
            · exact List.mem_cons_of_mem _ (h2 a h')
          · rw [hb0] at hk; cases hk
          · rw [h5]
            refine or_congr Iff.rfl ⟨fun ⟨a, ha, h⟩ => ⟨a, List.mem_cons_of_mem _ ha, h⟩, fun ⟨a, ha, h⟩ => ?_⟩
            rcases List.mem_cons.1 ha with h' | h'
            · obtain rfl := Option.some.inj h'
              rw [hc] at h; cases h
            · exact ⟨a, h', h⟩
          · have := h3 i rfl
            have hk' : (nbtLoop I l (i + 1) (some i) t nb).bottom = some k := hk
            rw [this] at hk'
            obtain rfl := Option.some.inj hk'
            exact ⟨le_rfl, c, by simp, hc⟩
          · obtain ⟨hk1, a, ha, hb'⟩ := h7 ht k hk
            exact ⟨by omega, a, by rw [shift _ hk1]; exact ha, hb'⟩
      · rw [if_neg hc]
        have hcf : I.isBottom c = false := by simpa using hc
        have nbeq : ∀ {q : List (Option A)} {r : Bool}, (r = true ↔ true = true ∨ ∃ a, some a ∈ q ∧ I.isBottom a = false) →
            (r = true ↔ nb = true ∨ ∃ a, some a ∈ some c :: q ∧ I.isBottom a = false) :=
          fun h => by
            rw [h]
            exact ⟨fun _ => Or.inr ⟨c, List.mem_cons_self, hcf⟩, fun _ => Or.inl rfl⟩
        by_cases ht : I.isTop c = true
        · rw [if_pos ht]
          by_cases hts : t.isSome = true
          · rw [if_pos hts]
            obtain ⟨h1, h2, h3, h4, h5, h6, h7⟩ := ih (i + 1) b t true
            refine ⟨by simp only [List.length_cons, h1], fun a ha => ?_, h3, h4, nbeq h5, fun hb' k hk => ?_, fun ht' k hk => ?_⟩
            · simp only [List.mem_cons, reduceCtorEq, false_or] at ha
              exact List.mem_cons_of_mem _ (h2 a ha)
            · obtain ⟨hk1, a, ha, hb''⟩ := h6 hb' k hk
              exact ⟨by omega, a, by rw [shift _ hk1]; exact ha, hb''⟩
            · rw [ht'] at hts; cases hts
          · rw [if_neg hts]
            have ht0 : t = none := by simpa using hts
            obtain ⟨h1, h2, h3, h4, h5, h6, h7⟩ := ih (i + 1) b (some i) true
            refine ⟨by simp only [List.length_cons, h1], fun a ha => ?_, h3, fun k hk => ?_, nbeq h5, fun hb' k hk => ?_, fun ht' k hk => ?_⟩
            · rcases List.mem_cons.1 ha with h' | h'
              · rw [h']; exact List.mem_cons_self
              · exact List.mem_cons_of_mem _ (h2 a h')
            · rw [ht0] at hk; cases hk
            · obtain ⟨hk1, a, ha, hb''⟩ := h6 hb' k hk
              exact ⟨by omega, a, by rw [shift _ hk1]; exact ha, hb''⟩
            · have := h4 i rfl
              have hk' : (nbtLoop I l (i + 1) b (some i) true).top = some k := hk
              rw [this] at hk'
              obtain rfl := Option.some.inj hk'
              exact ⟨le_rfl, c, by simp, hcf, ht⟩
        · rw [if_neg ht]
          obtain ⟨h1, h2, h3, h4, h5, h6, h7⟩ := ih (i + 1) b t true
          refine ⟨by simp only [List.length_cons, h1], fun a ha => ?_, h3, h4, nbeq h5, fun hb' k hk => ?_, fun ht' k hk => ?_⟩
          · rcases List.mem_cons.1 ha with h' | h'
            · rw [h']; exact List.mem_cons_self
            · exact List.mem_cons_of_mem _ (h2 a h')
          · obtain ⟨hk1, a, ha, hb''⟩ := h6 hb' k hk
            exact ⟨by omega, a, by rw [shift _ hk1]; exact ha, hb''⟩
          · obtain ⟨hk1, a, ha, hb''⟩ := h7 ht' k hk
            exact ⟨by omega, a, by rw [shift _ hk1]; exact ha, hb''⟩

theorem nbtLoop_keep (l : List (Option A)) (i : ℕ) (b t : Option ℕ) (nb : Bool) :
    let r := nbtLoop I l i b t nb
    (∀ a, some a ∈ l → some a ∈ r.p ∨ (I.isBottom a = true ∧ r.bottom.isSome = true) ∨
      (I.isBottom a = false ∧ I.isTop a = true ∧ r.top.isSome = true)) ∧
    (∀ a, some a ∈ r.p → I.isBottom a = true → r.bottom.isSome = true) ∧
    r.p.countP (fun o => o.any I.isBottom) ≤ (if b.isSome then 0 else 1) ∧
    r.p.countP (fun o => o.any fun a => !I.isBottom a && I.isTop a) ≤ (if t.isSome then 0 else 1) := by
  induction l generalizing i b t nb with
  | nil =>
    refine ⟨fun a h => (by cases h), fun a h => (by cases h), ?_, ?_⟩ <;> simp [nbtLoop]
  | cons o l ih =>
    cases o with
    | none =>
      obtain ⟨h1, h0, h2, h3⟩ := ih (i + 1) b t nb
      refine ⟨fun a ha => ?_, fun a ha => ?_, ?_, ?_⟩
      · simp only [nbtLoop, List.mem_cons, reduceCtorEq, false_or] at ha ⊢
        exact h1 a ha
      · simp only [nbtLoop, List.mem_cons, reduceCtorEq, false_or] at ha ⊢
        exact h0 a ha
      · simpa [nbtLoop] using h2
      · simpa [nbtLoop] using h3
    | some c =>
      rw [nbtLoop]
      by_cases hc : I.isBottom c = true
      · rw [if_pos hc]
        by_cases hb : b.isSome = true
        · rw [if_pos hb]
          obtain ⟨h1, h0, h2, h3⟩ := ih (i + 1) b t nb
          refine ⟨fun a ha => ?_, fun a ha => ?_, ?_, ?_⟩
          · rcases List.mem_cons.1 ha with h | h
            · obtain rfl := Option.some.inj h
              refine Or.inr (Or.inl ⟨hc, ?_⟩)
              obtain ⟨k, rfl⟩ := Option.isSome_iff_exists.1 hb
              have := (nbtLoop_struct I l (i + 1) (some k) t nb).2.2.1 k rfl
              dsimp only at this ⊢
              rw [this]; rfl
            · rcases h1 a h with h' | h'
              · exact Or.inl (List.mem_cons_of_mem _ h')
              · exact Or.inr h'
          · simp only [List.mem_cons, reduceCtorEq, false_or] at ha
            exact h0 a ha
          · simpa using h2
          · simpa using h3
        · rw [if_neg hb]
          obtain ⟨h1, h0, h2, h3⟩ := ih (i + 1) (some i) t nb
          have hbs := (nbtLoop_struct I l (i + 1) (some i) t nb).2.2.1 i rfl
          refine ⟨fun a ha => ?_, fun a ha _ => ?_, ?_, ?_⟩
          · rcases List.mem_cons.1 ha with h | h
            · rw [h]; exact Or.inl List.mem_cons_self
            · rcases h1 a h with h' | h'
              · exact Or.inl (List.mem_cons_of_mem _ h')
              · exact Or.inr h'
          · dsimp only at hbs ⊢
            rw [hbs]; rfl
          · rw [if_neg hb]
            dsimp only
            rw [List.countP_cons_of_pos (by simpa using hc)]
            simp only [Option.isSome_some, if_true] at h2
            omega
          · dsimp only
            rw [List.countP_cons_of_neg (by simp [hc])]
            exact h3
      · rw [if_neg hc]
        have hcf : I.isBottom c = false := by simpa using hc
        by_cases ht : I.isTop c = true
        · rw [if_pos ht]
          by_cases hts : t.isSome = true
          · rw [if_pos hts]
            obtain ⟨h1, h0, h2, h3⟩ := ih (i + 1) b t true
            refine ⟨fun a ha => ?_, fun a ha => ?_, ?_, ?_⟩
            · rcases List.mem_cons.1 ha with h | h
              · obtain rfl := Option.some.inj h
                refine Or.inr (Or.inr ⟨hcf, ht, ?_⟩)
                obtain ⟨k, rfl⟩ := Option.isSome_iff_exists.1 hts
                have := (nbtLoop_struct I l (i + 1) b (some k) true).2.2.2.1 k rfl
                dsimp only at this ⊢
                rw [this]; rfl
              · rcases h1 a h with h' | h'
                · exact Or.inl (List.mem_cons_of_mem _ h')
                · exact Or.inr h'
            · simp only [List.mem_cons, reduceCtorEq, false_or] at ha
              exact h0 a ha
            · simpa using h2
            · simpa using h3
          · rw [if_neg hts]
            obtain ⟨h1, h0, h2, h3⟩ := ih (i + 1) b (some i) true
            refine ⟨fun a ha => ?_, fun a ha hab => ?_, ?_, ?_⟩
            · rcases List.mem_cons.1 ha with h | h
              · rw [h]; exact Or.inl List.mem_cons_self
              · rcases h1 a h with h' | h'
                · exact Or.inl (List.mem_cons_of_mem _ h')
                · exact Or.inr h'
            · rcases List.mem_cons.1 ha with h | h
              · obtain rfl := Option.some.inj h
                rw [hcf] at hab; cases hab
              · exact h0 a h hab
            · dsimp only
              rw [List.countP_cons_of_neg (by simpa using hcf)]
              exact h2
            · rw [if_neg hts]
              dsimp only
              rw [List.countP_cons_of_pos (by simp [hcf, ht])]
              simp only [Option.isSome_some, if_true] at h3
              omega
        · rw [if_neg ht]
          obtain ⟨h1, h0, h2, h3⟩ := ih (i + 1) b t true
          refine ⟨fun a ha => ?_, fun a ha hab => ?_, ?_, ?_⟩
          · rcases List.mem_cons.1 ha with h | h
            · rw [h]; exact Or.inl List.mem_cons_self
            · rcases h1 a h with h' | h'
              · exact Or.inl (List.mem_cons_of_mem _ h')
              · exact Or.inr h'
          · rcases List.mem_cons.1 ha with h | h
            · obtain rfl := Option.some.inj h
              rw [hcf] at hab; cases hab
            · exact h0 a h hab
          · dsimp only
            rw [List.countP_cons_of_neg (by simpa using hcf)]
            exact h2
          · dsimp only
            rw [List.countP_cons_of_neg (by simpa [hcf] using ht)]
            exact h3

/-- what `ap_disjunction_null_bottom_top` does -/
theorem nullBottomTop_spec (p : List (Option A)) :
    let r := nullBottomTop I p
    (∀ a, some a ∈ r.p → some a ∈ p) ∧
    (∀ a, some a ∈ p → some a ∈ r.p ∨ I.isBottom a = true ∨ (I.isTop a = true ∧ ∃ c, some c ∈ r.p ∧ I.isBottom c = false ∧ I.isTop c = true)) ∧
    (r.notbottom = true ↔ ∃ a, some a ∈ p ∧ I.isBottom a = false) ∧
    (r.notbottom = true → ∀ a, some a ∈ r.p → I.isBottom a = false) ∧
    (r.notbottom = false → ∀ a, some a ∈ p → ∃ c, some c ∈ r.p) ∧
    r.p.countP (fun o => o.any I.isBottom) ≤ 1 ∧
    r.p.countP (fun o => o.any fun a => !I.isBottom a && I.isTop a) ≤ 1 := by
  obtain ⟨s1, s2, -, -, s5, s6, s7⟩ := nbtLoop_struct I p 0 none none false
  obtain ⟨k1, k0, k2, k3⟩ := nbtLoop_keep I p 0 none none false
  simp only [Option.isSome_none, Bool.false_eq_true, if_false, false_or] at k2 k3 s5
  set q := nbtLoop I p 0 none none false with hq
  have hN : nullBottomTop I p = match q.bottom with
    | some b => if q.notbottom then { q with p := q.p.set b none } else q
    | none => q := rfl
  rw [hN]
  -- the recorded full entry
  have top_ok : q.top.isSome = true → ∃ (k : ℕ) (c : A), q.p[k]? = some (some c) ∧ I.isBottom c = false ∧ I.isTop c = true := by
    intro h
    obtain ⟨k, hk⟩ := Option.isSome_iff_exists.1 h
    obtain ⟨_, c, hc, h1, h2⟩ := s7 rfl k hk
    exact ⟨k - 0, c, hc, h1, h2⟩
  cases hb : q.bottom with
  | none =>
    dsimp only
    have nob : ∀ a, some a ∈ q.p → I.isBottom a = false := fun a ha => by
      by_contra hc
      have := k0 a ha (by simpa using hc)
      rw [hb] at this; cases this
    refine ⟨s2, fun a ha => ?_, s5, fun _ => nob, fun hn a ha => ?_, k2, k3⟩
    · rcases k1 a ha with h | ⟨h, h'⟩ | ⟨h, h1, h2⟩
      · exact Or.inl h
      · exact Or.inr (Or.inl h)
      · obtain ⟨k, c, hc, h3, h4⟩ := top_ok h2
        exact Or.inr (Or.inr ⟨h1, c, List.mem_of_getElem? hc, h3, h4⟩)
    · rcases k1 a ha with h | ⟨h, h'⟩ | ⟨h, h1, h2⟩
      · exact ⟨a, h⟩
      · rw [hb] at h'; cases h'
      · obtain ⟨k, c, hc, h3, h4⟩ := top_ok h2
        exact ⟨c, List.mem_of_getElem? hc⟩
  | some b =>
    dsimp only
    obtain ⟨_, d, hd, hdb⟩ := s6 rfl b hb
    rw [Nat.sub_zero] at hd
    by_cases hn : q.notbottom = true
    · rw [if_pos hn]
      obtain ⟨hlt, hget⟩ := List.getElem?_eq_some_iff.1 hd
      have mem_set : ∀ a, some a ∈ q.p.set b none → some a ∈ q.p := fun a ha => by
        rcases List.mem_or_eq_of_mem_set ha with h | h
        · exact h
        · cases h
      have keep : ∀ a, some a ∈ q.p → I.isBottom a = false → some a ∈ q.p.set b none := by
        intro a ha hab
        obtain ⟨k, hk⟩ := List.mem_iff_getElem?.1 ha
        have hkb : b ≠ k := by
          rintro rfl
          rw [hd] at hk
          obtain rfl := Option.some.inj (Option.some.inj hk)
          rw [hdb] at hab; cases hab
        exact List.mem_iff_getElem?.2 ⟨k, by rw [List.getElem?_set_ne hkb]; exact hk⟩
      have cnt0 : (q.p.set b none).countP (fun o => o.any I.isBottom) = 0 := by
        rw [List.countP_set hlt, hget]
        simp only [Option.any_some, hdb, if_true, Option.any_none]
        simp
        omega
      have nob : ∀ a, some a ∈ q.p.set b none → I.isBottom a = false := fun a ha => by
        have := List.countP_eq_zero.1 cnt0 (some a) ha
        simpa using this
      refine ⟨fun a ha => s2 a (mem_set a ha), fun a ha => ?_, s5, fun _ => nob, fun h => ?_, by rw [cnt0]; omega, ?_⟩
      · rcases k1 a ha with h | ⟨h, h'⟩ | ⟨h, h1, h2⟩
        · by_cases hab : I.isBottom a = true
          · exact Or.inr (Or.inl hab)
          · exact Or.inl (keep a h (by simpa using hab))
        · exact Or.inr (Or.inl h)
        · obtain ⟨k, c, hc, h3, h4⟩ := top_ok h2
          exact Or.inr (Or.inr ⟨h1, c, keep c (List.mem_of_getElem? hc) h3, h3, h4⟩)
      · rw [show ({ q with p := q.p.set b none } : Nbt A).notbottom = q.notbottom from rfl, hn] at h
        cases h
      · dsimp only
        rw [List.countP_set hlt]
        simp only [Option.any_none, Bool.false_eq_true, if_false]
        omega
    · rw [if_neg hn]
      refine ⟨s2, fun a ha => ?_, s5, fun h => absurd h hn, fun _ a ha => ⟨d, List.mem_of_getElem? hd⟩, k2, k3⟩
      rcases k1 a ha with h | ⟨h, h'⟩ | ⟨h, h1, h2⟩
      · exact Or.inl h
      · exact Or.inr (Or.inl h)
      · obtain ⟨k, c, hc, h3, h4⟩ := top_ok h2
        exact Or.inr (Or.inr ⟨h1, c, List.mem_of_getElem? hc, h3, h4⟩)

theorem elimInner_length (a : A) (top : Option ℕ) (j : ℕ) (l : List (Option A)) : (elimInner I a top j l).length = l.length := by
  induction l generalizing j with
  | nil => rfl
  | cons o l ih => cases o <;> simp [elimInner, ih]

theorem elimInner_mem (a : A) (top : Option ℕ) (j : ℕ) (l : List (Option A)) :
    (∀ b, some b ∈ elimInner I a top j l → some b ∈ l) ∧
    (∀ b, some b ∈ l → some b ∈ elimInner I a top j l ∨ I.isEq a b = true) := by
  induction l generalizing j with
  | nil => exact ⟨fun b h => h, fun b h => by cases h⟩
  | cons o l ih =>
    obtain ⟨h1, h2⟩ := ih (j + 1)
    cases o with
    | none =>
      rw [elimInner]
      refine ⟨fun b h => ?_, fun b h => ?_⟩
      · simp only [List.mem_cons, reduceCtorEq, false_or] at h ⊢
        exact h1 b h
      · simp only [List.mem_cons, reduceCtorEq, false_or] at h ⊢
        exact h2 b h
    | some c =>
      rw [elimInner]
      by_cases hc : some j ≠ top ∧ I.isEq a c = true
      · rw [if_pos hc]
        refine ⟨fun b h => ?_, fun b h => ?_⟩
        · simp only [List.mem_cons, reduceCtorEq, false_or] at h
          exact List.mem_cons_of_mem _ (h1 b h)
        · rcases List.mem_cons.1 h with h | h
          · obtain rfl := Option.some.inj h
            exact Or.inr hc.2
          · rcases h2 b h with h' | h'
            · exact Or.inl (List.mem_cons_of_mem _ h')
            · exact Or.inr h'
      · rw [if_neg hc]
        refine ⟨fun b h => ?_, fun b h => ?_⟩
        · rcases List.mem_cons.1 h with h | h
          · rw [h]; exact List.mem_cons_self
          · exact List.mem_cons_of_mem _ (h1 b h)
        · rcases List.mem_cons.1 h with h | h
          · rw [h]; exact Or.inl List.mem_cons_self
          · rcases h2 b h with h' | h'
            · exact Or.inl (List.mem_cons_of_mem _ h')
            · exact Or.inr h'

/-- Entries are only removed, and for each one that is, a kept one that `is_eq` finds equal -/
theorem elimLoop_mem (top : Option ℕ) (n i : ℕ) (l : List (Option A)) :
    (∀ b, some b ∈ elimLoop I top n i l → some b ∈ l) ∧
    (∀ b, some b ∈ l → some b ∈ elimLoop I top n i l ∨ ∃ a, some a ∈ elimLoop I top n i l ∧ I.isEq a b = true) := by
  induction n generalizing i l with
  | zero => exact ⟨fun b h => h, fun b h => Or.inl h⟩
  | succ n ih =>
    rcases l with _ | ⟨_ | a, l⟩
    · exact ⟨fun b h => h, fun b h => by cases h⟩
    · obtain ⟨h1, h2⟩ := ih (i + 1) l
      rw [elimLoop]
      refine ⟨fun b h => ?_, fun b h => ?_⟩
      · simp only [List.mem_cons, reduceCtorEq, false_or] at h ⊢
        exact h1 b h
      · simp only [List.mem_cons, reduceCtorEq, false_or] at h ⊢
        exact h2 b h
    · rw [elimLoop]
      have hin : (∀ b, some b ∈ (if some i ≠ top then elimInner I a top (i + 1) l else l) → some b ∈ l) ∧
          (∀ b, some b ∈ l → some b ∈ (if some i ≠ top then elimInner I a top (i + 1) l else l) ∨ I.isEq a b = true) := by
        by_cases hi : some i ≠ top
        · rw [if_pos hi]; exact elimInner_mem I a top (i + 1) l
        · rw [if_neg hi]; exact ⟨fun b h => h, fun b h => Or.inl h⟩
      obtain ⟨h1, h2⟩ := ih (i + 1) (if some i ≠ top then elimInner I a top (i + 1) l else l)
      refine ⟨fun b h => ?_, fun b h => ?_⟩
      · rcases List.mem_cons.1 h with h | h
        · rw [h]; exact List.mem_cons_self
        · exact List.mem_cons_of_mem _ (hin.1 b (h1 b h))
      · rcases List.mem_cons.1 h with h | h
        · rw [h]; exact Or.inl List.mem_cons_self
        · rcases hin.2 b h with h' | h'
          · rcases h2 b h' with h'' | ⟨c, hc, he⟩
            · exact Or.inl (List.mem_cons_of_mem _ h'')
            · exact Or.inr ⟨c, List.mem_cons_of_mem _ hc, he⟩
          · exact Or.inr ⟨a, List.mem_cons_self, h'⟩

theorem elimInner_get (a : A) (top : Option ℕ) (j : ℕ) (l : List (Option A)) (k : ℕ) (b : A)
    (h : (elimInner I a top j l)[k]? = some (some b)) : l[k]? = some (some b) ∧ (I.isEq a b = false ∨ some (j + k) = top) := by
  induction l generalizing j k with
  | nil => simp [elimInner] at h
  | cons o l ih =>
    cases k with
    | zero =>
      cases o with
      | none => simp [elimInner] at h
      | some c =>
        simp only [elimInner, List.getElem?_cons_zero, Option.some.injEq] at h
        by_cases hc : some j ≠ top ∧ I.isEq a c = true
        · rw [if_pos hc] at h; cases h
        · rw [if_neg hc] at h
          obtain rfl := Option.some.inj h
          refine ⟨rfl, ?_⟩
          by_cases h1 : I.isEq a c = true
          · exact Or.inr (by by_contra h2; exact hc ⟨h2, h1⟩)
          · exact Or.inl (by simpa using h1)
    | succ k =>
      have e : (elimInner I a top j (o :: l))[k + 1]? = (elimInner I a top (j + 1) l)[k]? := by cases o <;> rfl
      rw [e] at h
      obtain ⟨h1, h2⟩ := ih (j + 1) k h
      exact ⟨h1, by rwa [show j + (k + 1) = j + 1 + k by omega]⟩

theorem elimLoop_get (top : Option ℕ) (n i : ℕ) (l : List (Option A)) (k : ℕ) (b : A)
    (h : (elimLoop I top n i l)[k]? = some (some b)) : l[k]? = some (some b) := by
  induction n generalizing i l k with
  | zero => exact h
  | succ n ih =>
    rcases l with _ | ⟨_ | a, l⟩
    · exact h
    · cases k with
      | zero => simp [elimLoop] at h
      | succ k => exact ih (i + 1) l k h
    · cases k with
      | zero => exact h
      | succ k =>
        have := ih (i + 1) _ k h
        by_cases hi : some i ≠ top
        · rw [if_pos hi] at this
          exact (elimInner_get I a top (i + 1) l k b this).1
        · rw [if_neg hi] at this
          exact this

/-- No two entries are left that `is_eq` finds equal, but for the recorded full one. -/
theorem elimLoop_distinct (top : Option ℕ) (n i : ℕ) (l : List (Option A)) (hn : l.length ≤ n) (k m : ℕ) (a b : A) (hkm : k < m)
    (ha : (elimLoop I top n i l)[k]? = some (some a)) (hb : (elimLoop I top n i l)[m]? = some (some b)) :
    I.isEq a b = false ∨ some (i + k) = top ∨ some (i + m) = top := by
  induction n generalizing i l k m with
  | zero =>
    obtain rfl : l = [] := List.length_eq_zero_iff.1 (by omega)
    simp [elimLoop] at ha
  | succ n ih =>
    obtain ⟨m, rfl⟩ : ∃ m', m = m' + 1 := ⟨m - 1, by omega⟩
    rcases l with _ | ⟨_ | c, l⟩
    · simp [elimLoop] at ha
    · cases k with
      | zero => simp [elimLoop] at ha
      | succ k =>
        have := ih (i + 1) l (by simpa using hn) k m (by omega) ha hb
        rwa [show i + 1 + k = i + (k + 1) by omega, show i + 1 + m = i + (m + 1) by omega] at this
    · cases k with
      | zero =>
        obtain rfl : c = a := by simpa [elimLoop] using ha
        have h1 := elimLoop_get I top n (i + 1) _ m b hb
        by_cases hi : some i ≠ top
        · rw [if_pos hi] at h1
          rcases (elimInner_get I c top (i + 1) l m b h1).2 with h | h
          · exact Or.inl h
          · exact Or.inr (Or.inr (by rwa [show i + (m + 1) = i + 1 + m by omega]))
        · exact Or.inr (Or.inl (by simpa using hi))
      | succ k =>
        have hl : (if some i ≠ top then elimInner I c top (i + 1) l else l).length ≤ n := by
          by_cases hi : some i ≠ top
          · rw [if_pos hi, elimInner_length]; simpa using hn
          · rw [if_neg hi]; simpa using hn
        have := ih (i + 1) _ hl k m (by omega) ha hb
        rwa [show i + 1 + k = i + (k + 1) by omega, show i + 1 + m = i + (m + 1) by omega] at this

theorem nullBottomTop_top (p : List (Option A)) (k : ℕ) (h : (nullBottomTop I p).top = some k) (a : A)
    (ha : (nullBottomTop I p).p[k]? = some (some a)) : I.isTop a = true := by
  have s7 := (nbtLoop_struct I p 0 none none false).2.2.2.2.2.2 rfl k
  set q := nbtLoop I p 0 none none false with hq
  have hN : nullBottomTop I p = match q.bottom with
    | some b => if q.notbottom then { q with p := q.p.set b none } else q
    | none => q := rfl
  have key : (nullBottomTop I p).top = q.top ∧ ∀ c, (nullBottomTop I p).p[k]? = some (some c) → q.p[k]? = some (some c) := by
    rw [hN]
    cases q.bottom with
    | none => exact ⟨rfl, fun c h => h⟩
    | some b =>
      dsimp only
      by_cases hn : q.notbottom = true
      · rw [if_pos hn]
        refine ⟨rfl, fun c hc => ?_⟩
        dsimp only at hc
        by_cases hbk : b = k
        · subst hbk
          rw [List.getElem?_set] at hc
          simp only [if_true] at hc
          split_ifs at hc
          exact absurd hc (by simp)
        · rwa [List.getElem?_set_ne hbk] at hc
      · rw [if_neg hn]
        exact ⟨rfl, fun c h => h⟩
  obtain ⟨_, c, hc, _, ht⟩ := s7 (by rw [← key.1]; exact h)
  have := key.2 a ha
  rw [Nat.sub_zero, this] at hc
  obtain rfl := Option.some.inj (Option.some.inj hc)
  exact ht

end Disj
end Apron
