import Verif.Core.Generic

/-!
# Lemmas on the generic functions
-/

set_option autoImplicit false
set_option linter.unusedSectionVars false
set_option linter.ambiguousOpen false

namespace Apron
namespace Generic

variable {K A E C : Type*}

/-! ## The permutation -/

/-- the exchanges made by the loop -/
def pairs (i r ni : ℕ) : List ℕ → ℕ → ℕ → List (ℕ × ℕ)
  | [], _, _ => []
  | t :: ts, ii, ir =>
    if t < i then (t, i + ii) :: pairs i r ni ts (ii + 1) ir
    else (t + ni, i + ni + r + ir) :: pairs i r ni ts ii (ir + 1)

/-- exchanges -/
def swaps : List (ℕ × ℕ) → List ℕ → List ℕ
  | [], p => p
  | (u, v) :: l, p => swaps l ((p.set u v).set v u)

theorem permLoop_eq (i r ni : ℕ) (ts : List ℕ) (ii ir : ℕ) (p : List ℕ) :
    permLoop i r ni ts ii ir p = swaps (pairs i r ni ts ii ir) p := by
  induction ts generalizing ii ir p with
  | nil => rfl
  | cons t ts ih =>
    unfold permLoop pairs
    split_ifs <;> rw [ih] <;> rfl

theorem getD_set_nat (p : List ℕ) (u v w : ℕ) (hu : u < p.length) :
    (p.set u v).getD w 0 = if w = u then v else p.getD w 0 := by
  simp only [List.getD, List.getElem?_set]
  by_cases h : u = w
  · subst h; simp [hu]
  · rw [if_neg h, if_neg (fun e => h e.symm)]

theorem swaps_spec (l : List (ℕ × ℕ)) (p : List ℕ) (hn : (l.map Prod.fst ++ l.map Prod.snd).Nodup)
    (hlt : ∀ q ∈ l, q.1 < p.length ∧ q.2 < p.length) :
    (swaps l p).length = p.length ∧
    (∀ q ∈ l, (swaps l p).getD q.1 0 = q.2 ∧ (swaps l p).getD q.2 0 = q.1) ∧
    ∀ w, w ∉ l.map Prod.fst → w ∉ l.map Prod.snd → (swaps l p).getD w 0 = p.getD w 0 := by
  induction l generalizing p with
  | nil => exact ⟨rfl, by simp, fun _ _ _ => rfl⟩
  | cons a l ih =>
    obtain ⟨u, v⟩ := a
    have hl := hlt (u, v) (by simp)
    simp only at hl
    have hn' : (l.map Prod.fst ++ l.map Prod.snd).Nodup := by
      refine hn.sublist ?_
      simp only [List.map_cons]
      exact (List.sublist_cons_self _ _).append (List.sublist_cons_self _ _)
    rw [List.map_cons, List.map_cons, List.cons_append, List.nodup_cons, List.nodup_append] at hn
    simp only [List.mem_append, List.mem_cons, not_or, List.nodup_cons] at hn
    obtain ⟨⟨hu1, huv, hu2⟩, hn1, ⟨hv2, hn2⟩, hd⟩ := hn
    have hv1 : v ∉ l.map Prod.fst := fun h => hd v h v (Or.inl rfl) rfl
    obtain ⟨h1, h2, h3⟩ := ih ((p.set u v).set v u) hn' (fun q hq => by
      simpa using hlt q (List.mem_cons_of_mem _ hq))
    rw [swaps]
    have e : ∀ w, ((p.set u v).set v u).getD w 0 = if w = v then u else if w = u then v else p.getD w 0 := fun w => by
      rw [getD_set_nat _ _ _ _ (by simpa using hl.2), getD_set_nat _ _ _ _ hl.1]
    refine ⟨by simpa using h1, fun q hq => ?_, fun w hw1 hw2 => ?_⟩
    · rcases List.mem_cons.1 hq with rfl | hq
      · refine ⟨?_, ?_⟩
        · rw [h3 u hu1 hu2, e, if_neg huv, if_pos rfl]
        · rw [h3 v hv1 hv2, e, if_pos rfl]
      · exact h2 q hq
    · simp only [List.map_cons, List.mem_cons, not_or] at hw1 hw2
      rw [h3 w hw1.2 hw2.2, e, if_neg hw2.1, if_neg hw1.1]

/-- `u ↦ v` for `u` in the old space, in the extended space -/
def up (i ni t : ℕ) : ℕ := if t < i then t else t + ni

theorem up_inj {i ni t t' : ℕ} (h : up i ni t = up i ni t') : t = t' := by
  unfold up at h; split_ifs at h <;> omega

theorem pairs_fst (i r ni : ℕ) (ts : List ℕ) (ii ir : ℕ) :
    (pairs i r ni ts ii ir).map Prod.fst = ts.map (up i ni) := by
  induction ts generalizing ii ir with
  | nil => rfl
  | cons t ts ih =>
    unfold pairs
    simp only [up, List.map_cons]
    split_ifs with h
    · rw [List.map_cons, ih]
    · rw [List.map_cons, ih]

/-- the primed copies of integer targets are consecutive from `i + ii`, those of the others from
`i + ni + r + ir` -/
theorem pairs_snd (i r ni : ℕ) (ts : List ℕ) (ii ir : ℕ) (h : ii + numInt i ts ≤ ni) :
    ∀ w, w ∈ (pairs i r ni ts ii ir).map Prod.snd ↔
      (i + ii ≤ w ∧ w < i + ii + numInt i ts) ∨
      (i + ni + r + ir ≤ w ∧ w < i + ni + r + ir + (ts.length - numInt i ts)) := by
  induction ts generalizing ii ir with
  | nil => intro w; simp [pairs, numInt]
  | cons t ts ih =>
    intro w
    have hle : numInt i ts ≤ ts.length := List.countP_le_length
    unfold pairs
    by_cases ht : t < i
    · have hc : numInt i (t :: ts) = numInt i ts + 1 := by simp [numInt, ht]
      rw [hc] at h ⊢
      rw [if_pos ht, List.map_cons, List.mem_cons, ih (ii + 1) ir (by omega), List.length_cons]
      omega
    · have hc : numInt i (t :: ts) = numInt i ts := by simp [numInt, ht]
      rw [hc] at h ⊢
      rw [if_neg ht, List.map_cons, List.mem_cons, ih ii (ir + 1) (by omega), List.length_cons]
      omega

theorem pairs_snd_nodup (i r ni : ℕ) (ts : List ℕ) (ii ir : ℕ) (h : ii + numInt i ts ≤ ni) :
    ((pairs i r ni ts ii ir).map Prod.snd).Nodup := by
  induction ts generalizing ii ir with
  | nil => simp [pairs]
  | cons t ts ih =>
    have hle : numInt i ts ≤ ts.length := List.countP_le_length
    unfold pairs
    by_cases ht : t < i
    · have hc : numInt i (t :: ts) = numInt i ts + 1 := by simp [numInt, ht]
      rw [hc] at h
      rw [if_pos ht, List.map_cons, List.nodup_cons, pairs_snd _ _ _ _ _ _ (by omega)]
      exact ⟨by omega, ih _ _ (by omega)⟩
    · have hc : numInt i (t :: ts) = numInt i ts := by simp [numInt, ht]
      rw [hc] at h
      rw [if_neg ht, List.map_cons, List.nodup_cons, pairs_snd _ _ _ _ _ _ (by omega)]
      exact ⟨by omega, ih _ _ (by omega)⟩

theorem pairs_type (i r ni : ℕ) (ts : List ℕ) (ii ir : ℕ) (h : ii + numInt i ts ≤ ni) :
    ∀ q ∈ pairs i r ni ts ii ir, (q.1 < i ↔ q.2 < i + ni) := by
  induction ts generalizing ii ir with
  | nil => simp [pairs]
  | cons t ts ih =>
    intro q hq
    unfold pairs at hq
    by_cases ht : t < i
    · have hc : numInt i (t :: ts) = numInt i ts + 1 := by simp [numInt, ht]
      rw [hc] at h
      rw [if_pos ht, List.mem_cons] at hq
      rcases hq with rfl | hq
      · simp only; omega
      · exact ih _ _ (by omega) q hq
    · have hc : numInt i (t :: ts) = numInt i ts := by simp [numInt, ht]
      rw [hc] at h
      rw [if_neg ht, List.mem_cons] at hq
      rcases hq with rfl | hq
      · simp only; omega
      · exact ih _ _ (by omega) q hq

/-- what is used of the permutation of the generic assignment -/
structure PermSpec (i r : ℕ) (ts : List ℕ) (q : List ℕ) : Prop where
  isPerm : Dim.IsPerm (i + r + ts.length) q
  invol : ∀ w, w < i + r + ts.length → q.getD (q.getD w 0) 0 = w
  /-- targets are exchanged with new dimensions -/
  target : ∀ t ∈ ts, q.getD (up i (numInt i ts) t) 0 < i + r + ts.length ∧
    ∀ v, v < i + r → q.getD (up i (numInt i ts) t) 0 ≠ up i (numInt i ts) v
  other : ∀ v, v < i + r → v ∉ ts → q.getD (up i (numInt i ts) v) 0 = up i (numInt i ts) v
  /-- new dimensions are copies of targets, of the same type -/
  fresh : ∀ w, w < i + r + ts.length → (∀ v, v < i + r → w ≠ up i (numInt i ts) v) →
    ∃ t ∈ ts, w = q.getD (up i (numInt i ts) t) 0 ∧ (w < i + numInt i ts → t < i)

theorem numInt_le (i : ℕ) (ts : List ℕ) : numInt i ts ≤ ts.length := List.countP_le_length

theorem perm_spec (i r : ℕ) (ts : List ℕ) (hn : ts.Nodup) (hlt : ∀ t ∈ ts, t < i + r) :
    PermSpec i r ts (perm i r ts) := by
  have hle := numInt_le i ts
  unfold perm
  rw [permLoop_eq]
  generalize hni : numInt i ts = ni at hle
  have hii : 0 + numInt i ts ≤ ni := by omega
  generalize hL : pairs i r ni ts 0 0 = L
  have hf : L.map Prod.fst = ts.map (up i ni) := by rw [← hL]; exact pairs_fst i r ni ts 0 0
  have hs : ∀ w, w ∈ L.map Prod.snd ↔ (i + 0 ≤ w ∧ w < i + 0 + ni) ∨
      (i + ni + r + 0 ≤ w ∧ w < i + ni + r + 0 + (ts.length - ni)) := by
    rw [← hL]
    have := pairs_snd i r ni ts 0 0 hii
    rwa [hni] at this
  have hty : ∀ q ∈ L, (q.1 < i ↔ q.2 < i + ni) := by rw [← hL]; exact pairs_type i r ni ts 0 0 hii
  have hup : ∀ v, v < i + r → (up i ni v < i ∨ (i + ni ≤ up i ni v ∧ up i ni v < i + ni + r)) := fun v hv => by
    unfold up; split_ifs <;> omega
  have hnd : (L.map Prod.fst ++ L.map Prod.snd).Nodup := by
    rw [List.nodup_append]
    refine ⟨?_, by rw [← hL]; exact pairs_snd_nodup i r ni ts 0 0 hii, ?_⟩
    · rw [hf]; exact hn.map fun a b => up_inj
    · rintro a ha b hb rfl
      rw [hf] at ha
      obtain ⟨t, ht, rfl⟩ := List.mem_map.1 ha
      have := hup t (hlt t ht)
      have := (hs _).1 hb
      omega
  have hlen : ∀ q ∈ L, q.1 < (List.range (i + r + ts.length)).length ∧
      q.2 < (List.range (i + r + ts.length)).length := fun q hq => by
    have h1 : q.1 ∈ L.map Prod.fst := List.mem_map_of_mem hq
    have h2 : q.2 ∈ L.map Prod.snd := List.mem_map_of_mem hq
    rw [hf] at h1
    obtain ⟨t, ht, e⟩ := List.mem_map.1 h1
    have := hup t (hlt t ht)
    have := (hs _).1 h2
    rw [List.length_range]
    omega
  obtain ⟨h1, h2, h3⟩ := swaps_spec L _ hnd hlen
  rw [List.length_range] at h1 hlen
  generalize swaps L (List.range (i + r + ts.length)) = q at h1 h2 h3
  have h3' : ∀ w, w < i + r + ts.length → w ∉ L.map Prod.fst → w ∉ L.map Prod.snd → q.getD w 0 = w :=
    fun w hw a b => by rw [h3 w a b, List.getD, List.getElem?_range hw]; rfl
  have hcase : ∀ w, w < i + r + ts.length → (q.getD w 0 < i + r + ts.length ∧ q.getD (q.getD w 0) 0 = w) :=
    fun w hw => by
      by_cases ha : w ∈ L.map Prod.fst
      · obtain ⟨p, hp, rfl⟩ := List.mem_map.1 ha
        rw [(h2 p hp).1, (h2 p hp).2]; exact ⟨(hlen p hp).2, rfl⟩
      · by_cases hb : w ∈ L.map Prod.snd
        · obtain ⟨p, hp, rfl⟩ := List.mem_map.1 hb
          rw [(h2 p hp).2, (h2 p hp).1]; exact ⟨(hlen p hp).1, rfl⟩
        · rw [h3' w hw ha hb, h3' w hw ha hb]; exact ⟨hw, rfl⟩
  have htp : ∀ t ∈ ts, ∃ p ∈ L, p.1 = up i ni t := fun t ht => by
    have : up i ni t ∈ L.map Prod.fst := by rw [hf]; exact List.mem_map_of_mem ht
    obtain ⟨p, hp, e⟩ := List.mem_map.1 this
    exact ⟨p, hp, e⟩
  refine ⟨Dim.isPerm_of h1 (fun w hw => (hcase w hw).1) fun a b ha hb e => ?_, fun w hw => (hcase w hw).2, ?_, ?_, ?_⟩
  · rw [← (hcase a ha).2, ← (hcase b hb).2, e]
  · rw [hni]
    intro t ht
    obtain ⟨p, hp, e⟩ := htp t ht
    rw [← e, (h2 p hp).1]
    refine ⟨(hlen p hp).2, fun v hv e' => ?_⟩
    have := hup v hv
    have := (hs p.2).1 (List.mem_map_of_mem hp)
    omega
  · rw [hni]
    intro v hv hvt
    have := hup v hv
    refine h3' _ (by omega) ?_ fun h => ?_
    · rw [hf]
      intro h
      obtain ⟨t, ht, e⟩ := List.mem_map.1 h
      exact hvt (up_inj e ▸ ht)
    · have := (hs _).1 h
      omega
  · rw [hni]
    intro w hw hv
    have hw' : w ∈ L.map Prod.snd := by
      rw [hs]
      by_contra hc
      by_cases h : w < i
      · exact hv w (by omega) (by simp [up, h])
      · exact hv (w - ni) (by omega) (by unfold up; rw [if_neg (by omega)]; omega)
    obtain ⟨p, hp, rfl⟩ := List.mem_map.1 hw'
    have h1 : p.1 ∈ L.map Prod.fst := List.mem_map_of_mem hp
    rw [hf] at h1
    obtain ⟨t, ht, e⟩ := List.mem_map.1 h1
    refine ⟨t, ht, by rw [e, (h2 p hp).1], fun h => ?_⟩
    have := (hty p hp).2 h
    rw [← e] at this
    unfold up at this
    split_ifs at this <;> omega

/-! ## The positions -/

theorem positions_length (i r : ℕ) (ts : List ℕ) : (positions i r ts).length = ts.length := by
  have := numInt_le i ts
  simp [positions]; omega

theorem positions_sorted (i r : ℕ) (ts : List ℕ) : (positions i r ts).Pairwise (· ≤ ·) := by
  unfold positions
  rw [List.pairwise_append]
  refine ⟨?_, ?_, fun a ha b hb => ?_⟩
  · rw [List.pairwise_replicate]; exact Or.inr (le_refl _)
  · rw [List.pairwise_replicate]; exact Or.inr (le_refl _)
  · rw [List.eq_of_mem_replicate ha, List.eq_of_mem_replicate hb]; omega

theorem positions_legal (i r : ℕ) (ts : List ℕ) :
    Dim.LegalAdd i r (positions i r ts) (numInt i ts) := by
  refine ⟨positions_sorted i r ts, fun d hd => ?_, fun d hd => ?_, fun d hd => ?_⟩
  · rcases List.mem_append.1 hd with h | h <;> rw [List.eq_of_mem_replicate h] <;> omega
  · unfold positions at hd
    rw [List.take_left' (by simp)] at hd
    rw [List.eq_of_mem_replicate hd]
  · unfold positions at hd
    rw [List.drop_left' (by simp)] at hd
    rw [List.eq_of_mem_replicate hd]; omega

theorem positions_shift (i r : ℕ) (ts : List ℕ) {v : ℕ} (hv : v < i + r) :
    v + (positions i r ts).countP (fun p => decide (p ≤ v)) = up i (numInt i ts) v := by
  unfold positions up
  rw [List.countP_append, List.countP_replicate, List.countP_replicate]
  have h2 : ¬ (i + r ≤ v) := by omega
  simp only [h2, decide_false, Bool.false_eq_true, if_false]
  by_cases h : v < i
  · have h1 : ¬ (i ≤ v) := by omega
    simp [h1, h]
  · have h1 : i ≤ v := by omega
    simp [h1, h]

theorem positions_shift_ge (i r : ℕ) (ts : List ℕ) {v : ℕ} (hv : i + r ≤ v) :
    v + (positions i r ts).countP (fun p => decide (p ≤ v)) = v + ts.length := by
  unfold positions
  rw [List.countP_append, List.countP_replicate, List.countP_replicate]
  have h1 : i ≤ v := by omega
  have := numInt_le i ts
  simp [hv, h1]; omega

/-! ## The partition -/

theorem partitionLoop_spec [Inhabited C] (sat : C → Bool) (fuel : ℕ) (l : List C) (i k : ℕ) (hik : i ≤ k)
    (hk : k ≤ l.length) (hf : k - i ≤ fuel) (h1 : ∀ m, m < i → sat (l.getD m default) = true)
    (h2 : ∀ m, k ≤ m → m < l.length → sat (l.getD m default) = false) :
    (partitionLoop sat fuel l i k).1.Perm l ∧ (partitionLoop sat fuel l i k).2 ≤ l.length ∧
    (∀ m, m < (partitionLoop sat fuel l i k).2 → sat ((partitionLoop sat fuel l i k).1.getD m default) = true) ∧
    ∀ m, (partitionLoop sat fuel l i k).2 ≤ m → m < l.length →
      sat ((partitionLoop sat fuel l i k).1.getD m default) = false := by
  induction fuel generalizing l i k with
  | zero =>
    have : i = k := by omega
    subst this
    exact ⟨List.Perm.refl _, hk, h1, h2⟩
  | succ fuel ih =>
    unfold partitionLoop
    by_cases hlt : i < k
    · rw [if_pos hlt]
      by_cases hs : sat (l.getD i default) = true
      · rw [if_pos hs]
        refine ih l (i + 1) k hlt hk (by omega) (fun m hm => ?_) h2
        rcases Nat.lt_succ_iff_lt_or_eq.1 hm with h | rfl
        · exact h1 m h
        · exact hs
      · rw [if_neg hs]
        have hp : ((l.set i (l.getD (k - 1) default)).set (k - 1) (l.getD i default)).Perm l := by
          have := List.set_set_perm (as := l) (i := i) (j := k - 1) (by omega) (by omega)
          rw [List.getD, List.getElem?_eq_getElem (by omega), List.getD, List.getElem?_eq_getElem (by omega)]
          exact this
        have hg : ∀ m, m < l.length → ((l.set i (l.getD (k - 1) default)).set (k - 1) (l.getD i default)).getD m default =
            if m = k - 1 then l.getD i default else if m = i then l.getD (k - 1) default else l.getD m default := by
          intro m hm
          by_cases hm1 : m = k - 1
          · subst hm1
            rw [if_pos rfl]
            conv_lhs => rw [List.getD, List.getElem?_set]
            simp [hm]
          · rw [if_neg hm1]
            conv_lhs => rw [List.getD, List.getElem?_set, if_neg (fun h => hm1 h.symm), List.getElem?_set]
            by_cases hm2 : m = i
            · subst hm2; simp [hm]
            · rw [if_neg (fun h => hm2 h.symm), if_neg hm2]; rfl
        have hlen : ((l.set i (l.getD (k - 1) default)).set (k - 1) (l.getD i default)).length = l.length := by simp
        obtain ⟨a1, a2, a3, a4⟩ := ih ((l.set i (l.getD (k - 1) default)).set (k - 1) (l.getD i default)) i (k - 1)
          (by omega) (by omega) (by omega) (fun m hm => by
            rw [hg m (by omega), if_neg (by omega), if_neg (by omega)]; exact h1 m hm)
          (fun m hm hm' => by
            rw [hlen] at hm'
            rw [hg m hm']
            by_cases hm1 : m = k - 1
            · rw [if_pos hm1]; simpa using hs
            · rw [if_neg hm1, if_neg (by omega)]; exact h2 m (by omega) hm')
        rw [hlen] at a2 a4
        exact ⟨a1.trans hp, a2, a3, a4⟩
    · rw [if_neg hlt]
      have : i = k := by omega
      subst this
      exact ⟨List.Perm.refl _, hk, h1, h2⟩

end Generic
end Apron
