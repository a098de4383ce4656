import Verif.Num.Serialize
import Mathlib.Data.Nat.Digits.Lemmas
import Mathlib.Tactic.Linarith

/-!
# Lemmas on serialisation
-/

set_option autoImplicit false
set_option linter.unusedSectionVars false

namespace Apron.Ser

theorem st_same (m : Buf) (p v : ℕ) : st m p v p = v := by simp [st]
theorem st_ne (m : Buf) {p q : ℕ} (v : ℕ) (h : q ≠ p) : st m p v q = m q := by simp [st, h]

theorem dump_out (m : Buf) (p v : ℕ) {q : ℕ} (h : q < p ∨ p + 4 ≤ q) : dumpWord32 m p v q = m q := by
  unfold dumpWord32
  rw [st_ne _ _ (by omega), st_ne _ _ (by omega), st_ne _ _ (by omega), st_ne _ _ (by omega)]

theorem undump_dump (m : Buf) (p v : ℕ) {m2 : Buf} (h : ∀ q, p ≤ q → q < p + 4 → m2 q = dumpWord32 m p v q) :
    undumpWord32 m2 p = v % 2 ^ 32 := by
  unfold undumpWord32
  rw [h p (by omega) (by omega), h (p + 1) (by omega) (by omega), h (p + 2) (by omega) (by omega), h (p + 3) (by omega) (by omega)]
  unfold dumpWord32
  rw [st_ne (q := p) _ _ (by omega), st_ne (q := p) _ _ (by omega), st_ne (q := p) _ _ (by omega), st_same,
    st_ne (q := p + 1) _ _ (by omega), st_ne (q := p + 1) _ _ (by omega), st_same,
    st_ne (q := p + 2) _ _ (by omega), st_same, st_same]
  omega

theorem storeBytes_out (l : List ℕ) : ∀ (m : Buf) (p : ℕ) {q : ℕ}, (q < p ∨ p + l.length ≤ q) → storeBytes m p l q = m q := by
  induction l with
  | nil => intro m p q _; rfl
  | cons b l ih =>
    intro m p q h
    simp only [List.length_cons] at h
    rw [storeBytes, ih _ _ (by omega), st_ne _ _ (by omega)]

theorem load_store (l : List ℕ) : ∀ (m m2 : Buf) (p : ℕ), (∀ q, p ≤ q → q < p + l.length → m2 q = storeBytes m p l q) →
    loadBytes m2 p l.length = l := by
  induction l with
  | nil => intro m m2 p _; rfl
  | cons b l ih =>
    intro m m2 p h
    simp only [List.length_cons] at h
    rw [List.length_cons, loadBytes, ih (st m p b) m2 (p + 1) (fun q h1 h2 => by rw [h q (by omega) (by omega)]; rfl),
      h p (by omega) (by omega), storeBytes, storeBytes_out _ _ _ (by omega), st_same]

theorem loadBytes_length (m : Buf) (p n : ℕ) : (loadBytes m p n).length = n := by
  induction n generalizing p with
  | zero => rfl
  | succ n ih => simp [loadBytes, ih]

theorem loadBytes_congr {m m2 : Buf} {p n : ℕ} (h : ∀ q, p ≤ q → q < p + n → m2 q = m q) : loadBytes m2 p n = loadBytes m p n := by
  induction n generalizing p with
  | zero => rfl
  | succ n ih => rw [loadBytes, loadBytes, h p (by omega) (by omega), ih (fun q h1 h2 => h q (by omega) (by omega))]

/-- number of bytes of an integer -/
def nbytes (z : ℤ) : ℕ := (Nat.digits 256 z.natAbs).length

theorem export_snd (m : Buf) (p : ℕ) (z : ℤ) : (mpzExport m p z).2 = nbytes z := by simp [mpzExport, nbytes]

theorem export_out (m : Buf) (p : ℕ) (z : ℤ) {q : ℕ} (h : q < p ∨ p + nbytes z ≤ q) : (mpzExport m p z).1 q = m q := by
  unfold mpzExport
  exact storeBytes_out _ _ _ (by simpa [nbytes] using h)

theorem import_export (m m2 : Buf) (p : ℕ) (z : ℤ) (h : ∀ q, p ≤ q → q < p + nbytes z → m2 q = (mpzExport m p z).1 q) :
    mpzImport m2 p (nbytes z) = z.natAbs := by
  have hl : nbytes z = (Nat.digits 256 z.natAbs).reverse.length := by simp [nbytes]
  unfold mpzImport
  rw [hl, load_store _ m m2 p (fun q h1 h2 => h q h1 (by rw [hl]; exact h2)), List.reverse_reverse, Nat.ofDigits_digits]

theorem nbytes_le (z : ℤ) : nbytes z ≤ mpzBits z / 8 + 1 := by
  unfold nbytes mpzBits
  split_ifs with h
  · subst h; simp
  · have hz : z.natAbs ≠ 0 := by omega
    have h1 : 256 ^ ((Nat.digits 256 z.natAbs).length - 1) ≤ z.natAbs := by
      rw [Nat.digits_len 256 _ (by norm_num) hz, Nat.add_sub_cancel]
      exact Nat.pow_log_le_self _ hz
    have h2 : z.natAbs < 2 ^ z.natAbs.size := Nat.lt_size_self _
    have h3 : (2 : ℕ) ^ (8 * ((Nat.digits 256 z.natAbs).length - 1)) < 2 ^ z.natAbs.size := by
      rw [pow_mul]; exact lt_of_le_of_lt h1 h2
    have h4 := (Nat.pow_lt_pow_iff_right (by norm_num : 1 < 2)).1 h3
    omega

theorem charNeg_sign (z : ℤ) : charNeg true (byteOf z.sign) = decide (z < 0) := by
  rcases lt_trichotomy z 0 with h | h | h
  · rw [Int.sign_eq_neg_one_of_neg h]; simp [charNeg, byteOf, h]
  · subst h; simp [charNeg, byteOf]
  · rw [Int.sign_eq_one_of_pos h]; simp [charNeg, byteOf, not_lt.2 h.le]

theorem signed_natAbs (z : ℤ) : (if decide (z < 0) then -(z.natAbs : ℤ) else z.natAbs) = z := by
  by_cases h : z < 0
  · simp only [h, decide_true, if_true]; omega
  · simp only [h, decide_false, Bool.false_eq_true, if_false]; omega

/-- A pair of functions that write and read back values in memory: the value is read back from any memory that
agrees on the bytes written, nothing else is written, and the announced size is not exceeded. -/
structure RoundTrip {α : Type*} (ser : Buf → ℕ → α → Option (Buf × ℕ)) (des : Buf → ℕ → Option (α × ℕ)) (size : α → ℕ)
    (Ok : α → Prop) : Prop where
  back : ∀ m p x m' n, Ok x → ser m p x = some (m', n) → ∀ m2 : Buf, (∀ q, p ≤ q → q < p + n → m2 q = m' q) →
    des m2 p = some (x, n)
  frame : ∀ m p x m' n, Ok x → ser m p x = some (m', n) → ∀ q, q < p ∨ p + n ≤ q → m' q = m q
  fits : ∀ m p x m' n, Ok x → ser m p x = some (m', n) → n ≤ size x
  shift : ∀ (m : Buf) (p : ℕ), des m p = des (fun q => m (p + q)) 0

/-- the value is also read back at another address -/
theorem RoundTrip.reloc {α : Type*} {ser : Buf → ℕ → α → Option (Buf × ℕ)} {des : Buf → ℕ → Option (α × ℕ)} {size : α → ℕ}
    {Ok : α → Prop} (H : RoundTrip ser des size Ok) (m : Buf) (p : ℕ) (x : α) (m' : Buf) (n : ℕ) (hx : Ok x)
    (h : ser m p x = some (m', n)) (m2 : Buf) (p2 : ℕ) (hm : ∀ q, q < n → m2 (p2 + q) = m' (p + q)) : des m2 p2 = some (x, n) := by
  have h1 := H.back m p x m' n hx h (fun q => m2 (p2 + (q - p))) (fun q h1 h2 => by
    have := hm (q - p) (by omega)
    rwa [Nat.add_sub_cancel' h1] at this)
  rw [H.shift] at h1
  rw [H.shift]
  simpa using h1

theorem undump_shift (m : Buf) (p k : ℕ) : undumpWord32 m (p + k) = undumpWord32 (fun q => m (p + q)) k := by
  simp [undumpWord32, Nat.add_assoc]

theorem load_shift (m : Buf) (p k n : ℕ) : loadBytes m (p + k) n = loadBytes (fun q => m (p + q)) k n := by
  induction n generalizing k with
  | zero => rfl
  | succ n ih => rw [loadBytes, loadBytes, Nat.add_assoc, ih]

theorem import_shift (m : Buf) (p k n : ℕ) : mpzImport m (p + k) n = mpzImport (fun q => m (p + q)) k n := by
  simp [mpzImport, load_shift]

theorem mpz_roundTrip {limb : ℕ} (hl : 1 ≤ limb) : RoundTrip mpzSer (mpzDes true) (mpzSize limb) (fun _ => True) where
  back m p z m' n _ h m2 hm := by
    simp only [mpzSer, export_snd] at h
    split_ifs at h with hc
    obtain ⟨rfl, rfl⟩ := Prod.mk.inj (Option.some.inj h)
    have hcnt : undumpWord32 m2 (p + 1) = nbytes z := by
      rw [undump_dump _ _ _ (fun q h1 h2 => hm q (by omega) (by omega)), hc]
    have hb : m2 p = byteOf z.sign := by
      rw [hm p (by omega) (by omega), dump_out _ _ _ (by omega), export_out _ _ _ (by omega), st_same]
    have hi : mpzImport m2 (p + 5) (nbytes z) = z.natAbs :=
      import_export (st m p (byteOf z.sign)) m2 (p + 5) z (fun q h1 h2 => by
        rw [hm q (by omega) (by omega), dump_out _ _ _ (by omega)])
    simp only [mpzDes, hcnt, hb, hi, charNeg_sign]
    rw [signed_natAbs]
  frame m p z m' n _ h q hq := by
    simp only [mpzSer, export_snd] at h
    split_ifs at h with hc
    obtain ⟨rfl, rfl⟩ := Prod.mk.inj (Option.some.inj h)
    rw [dump_out _ _ _ (by omega), export_out _ _ _ (by omega), st_ne _ _ (by omega)]
  fits m p z m' n _ h := by
    simp only [mpzSer, export_snd] at h
    split_ifs at h with hc
    obtain ⟨rfl, rfl⟩ := Prod.mk.inj (Option.some.inj h)
    have := nbytes_le z
    unfold mpzSize; omega
  shift m p := by
    simp only [mpzDes, undump_shift, import_shift, Nat.add_zero, Nat.zero_add]

theorem mpz_total (m : Buf) (p : ℕ) (z : ℤ) (h : nbytes z < 2 ^ 32) : ∃ r, mpzSer m p z = some r := by
  simp only [mpzSer, export_snd, Nat.mod_eq_of_lt h, if_true]
  exact ⟨_, rfl⟩

theorem mpq_roundTrip {limb : ℕ} (hl : 1 ≤ limb) : RoundTrip mpqSer (mpqDes true) (mpqSize limb) (fun _ => True) where
  back m p z m' n _ h m2 hm := by
    simp only [mpqSer, export_snd] at h
    split_ifs at h with hc
    obtain ⟨rfl, rfl⟩ := Prod.mk.inj (Option.some.inj h)
    have hc1 : undumpWord32 m2 (p + 1) = nbytes z.num := by
      rw [undump_dump (mpzExport (mpzExport (st m p (byteOf z.num.sign)) (p + 9) z.num).1 (p + nbytes z.num + 9) (z.den : ℤ)).1 _ (nbytes z.num)
        (fun q h1 h2 => by rw [hm q (by omega) (by omega), dump_out _ _ _ (by omega)]), hc.1]
    have hc2 : undumpWord32 m2 (p + 5) = nbytes z.den := by
      rw [undump_dump _ _ _ (fun q h1 h2 => hm q (by omega) (by omega)), hc.2]
    have hb : m2 p = byteOf z.num.sign := by
      rw [hm p (by omega) (by omega), dump_out _ _ _ (by omega), dump_out _ _ _ (by omega), export_out _ _ _ (by omega),
        export_out _ _ _ (by omega), st_same]
    have hi1 : mpzImport m2 (p + 9) (nbytes z.num) = z.num.natAbs :=
      import_export (st m p (byteOf z.num.sign)) m2 (p + 9) z.num (fun q h1 h2 => by
        rw [hm q (by omega) (by omega), dump_out _ _ _ (by omega), dump_out _ _ _ (by omega), export_out _ _ _ (by omega)])
    have hi2 : mpzImport m2 (p + nbytes z.num + 9) (nbytes z.den) = z.den := by
      have := import_export (mpzExport (st m p (byteOf z.num.sign)) (p + 9) z.num).1 m2 (p + nbytes z.num + 9) (z.den : ℤ) (fun q h1 h2 => by
        rw [hm q (by omega) (by omega), dump_out _ _ _ (by omega), dump_out _ _ _ (by omega)])
      simpa using this
    simp only [mpqDes, hc1, hc2, hb, hi1, hi2, charNeg_sign]
    rw [signed_natAbs]
  frame m p z m' n _ h q hq := by
    simp only [mpqSer, export_snd] at h
    split_ifs at h with hc
    obtain ⟨rfl, rfl⟩ := Prod.mk.inj (Option.some.inj h)
    rw [dump_out _ _ _ (by omega), dump_out _ _ _ (by omega), export_out _ _ _ (by omega), export_out _ _ _ (by omega), st_ne _ _ (by omega)]
  fits m p z m' n _ h := by
    simp only [mpqSer, export_snd] at h
    split_ifs at h with hc
    obtain ⟨rfl, rfl⟩ := Prod.mk.inj (Option.some.inj h)
    have := nbytes_le z.num
    have := nbytes_le z.den
    unfold mpqSize; omega
  shift m p := by
    simp only [mpqDes, undump_shift, import_shift, Nat.add_zero, Nat.zero_add, Nat.add_assoc]

theorem nat_roundTrip (big : Bool) (t : ℕ) : RoundTrip (natSer big t) (natDes big t) (natSize t) (fun l => l.length = t) where
  back m p l m' n hl h m2 hm := by
    simp only [natSer] at h
    obtain ⟨rfl, rfl⟩ := Prod.mk.inj (Option.some.inj h)
    have hlen : (storeWords8 big l).length = t := by unfold storeWords8; split_ifs <;> simpa using hl
    have := load_store (storeWords8 big l) m m2 p (fun q h1 h2 => hm q h1 (by omega))
    rw [hlen] at this
    simp only [natDes, this]
    unfold storeWords8; split_ifs <;> simp
  frame m p l m' n hl h q hq := by
    simp only [natSer] at h
    obtain ⟨rfl, rfl⟩ := Prod.mk.inj (Option.some.inj h)
    have hlen : (storeWords8 big l).length = t := by unfold storeWords8; split_ifs <;> simpa using hl
    exact storeBytes_out _ _ _ (by omega)
  fits m p l m' n hl h := by
    simp only [natSer] at h
    obtain ⟨rfl, rfl⟩ := Prod.mk.inj (Option.some.inj h)
    exact le_refl _
  shift m p := by
    have := load_shift m p 0 t
    simp only [Nat.add_zero] at this
    simp only [natDes, this]

section
variable {α β : Type*} {s1 : Buf → ℕ → α → Option (Buf × ℕ)} {s2 : Buf → ℕ → β → Option (Buf × ℕ)}
  {d1 : Buf → ℕ → Option (α × ℕ)} {d2 : Buf → ℕ → Option (β × ℕ)} {z1 : α → ℕ} {z2 : β → ℕ} {O1 : α → Prop} {O2 : β → Prop}

theorem pair_roundTrip (h1 : RoundTrip s1 d1 z1 O1) (h2 : RoundTrip s2 d2 z2 O2) :
    RoundTrip (pairSer s1 s2) (pairDes d1 d2) (pairSize z1 z2) (fun x => O1 x.1 ∧ O2 x.2) := by
  have key : ∀ m p (x : α × β) m' n, pairSer s1 s2 m p x = some (m', n) → ∃ ma na mb nb, s1 m p x.1 = some (ma, na) ∧
      s2 ma (p + na) x.2 = some (mb, nb) ∧ m' = mb ∧ n = na + nb := by
    intro m p x m' n h
    simp only [pairSer, Option.bind_eq_some_iff, Option.map_eq_some_iff] at h
    obtain ⟨⟨ma, na⟩, e1, ⟨mb, nb⟩, e2, e3⟩ := h
    obtain ⟨rfl, rfl⟩ := Prod.mk.inj e3
    exact ⟨ma, na, mb, nb, e1, e2, rfl, rfl⟩
  refine ⟨fun m p x m' n hx h m2 hm => ?_, fun m p x m' n hx h q hq => ?_, fun m p x m' n hx h => ?_, fun m p => ?_⟩
  · obtain ⟨ma, na, mb, nb, e1, e2, rfl, rfl⟩ := key m p x m' n h
    have g1 := h1.back m p x.1 ma na hx.1 e1 m2 (fun q k1 k2 => by
      rw [hm q (by omega) (by omega)]; exact h2.frame _ _ _ _ _ hx.2 e2 q (by omega))
    have g2 := h2.back ma (p + na) x.2 m' nb hx.2 e2 m2 (fun q k1 k2 => hm q (by omega) (by omega))
    simp [pairDes, g1, g2]
  · obtain ⟨ma, na, mb, nb, e1, e2, rfl, rfl⟩ := key m p x m' n h
    rw [h2.frame _ _ _ _ _ hx.2 e2 q (by omega), h1.frame _ _ _ _ _ hx.1 e1 q (by omega)]
  · obtain ⟨ma, na, mb, nb, e1, e2, rfl, rfl⟩ := key m p x m' n h
    have := h1.fits _ _ _ _ _ hx.1 e1
    have := h2.fits _ _ _ _ _ hx.2 e2
    unfold pairSize; omega
  · unfold pairDes
    rw [h1.shift m p]
    congr 1
    funext r
    rw [h2.shift m, h2.shift (fun q => m (p + q))]
    simp only [Nat.zero_add, Nat.add_assoc]

theorem flag_roundTrip (h1 : RoundTrip s1 d1 z1 O1) : RoundTrip (flagSer s1) (flagDes d1) (flagSize z1) (fun x => O1 x.2) := by
  have key : ∀ m p (x : Bool × α) m' n, flagSer s1 m p x = some (m', n) → ∃ na, s1 (st m p (if x.1 then 1 else 0)) (p + 1) x.2 = some (m', na) ∧
      n = na + 1 := by
    intro m p x m' n h
    simp only [flagSer, Option.map_eq_some_iff] at h
    obtain ⟨⟨ma, na⟩, e1, e2⟩ := h
    obtain ⟨rfl, rfl⟩ := Prod.mk.inj e2
    exact ⟨na, e1, rfl⟩
  refine ⟨fun m p x m' n hx h m2 hm => ?_, fun m p x m' n hx h q hq => ?_, fun m p x m' n hx h => ?_, fun m p => ?_⟩
  · obtain ⟨na, e1, rfl⟩ := key m p x m' n h
    have g1 := h1.back _ _ _ _ _ hx e1 m2 (fun q k1 k2 => hm q (by omega) (by omega))
    have g2 : m2 p = if x.1 then 1 else 0 := by
      rw [hm p (by omega) (by omega), h1.frame _ _ _ _ _ hx e1 p (by omega), st_same]
    simp only [flagDes, g1, g2, Option.map_some]
    rcases x with ⟨b, x⟩
    cases b <;> rfl
  · obtain ⟨na, e1, rfl⟩ := key m p x m' n h
    rw [h1.frame _ _ _ _ _ hx e1 q (by omega), st_ne _ _ (by omega)]
  · obtain ⟨na, e1, rfl⟩ := key m p x m' n h
    have := h1.fits _ _ _ _ _ hx e1
    unfold flagSize; omega
  · unfold flagDes
    rw [h1.shift m, h1.shift (fun q => m (p + q))]
    simp only [Nat.zero_add, Nat.add_assoc, Nat.add_zero]

theorem serArray_spec (h1 : RoundTrip s1 d1 z1 O1) (l : List α) (hl : ∀ x ∈ l, O1 x) : ∀ (m : Buf) (p : ℕ) (m' : Buf) (n : ℕ),
    serArray s1 m p l = some (m', n) →
    (∀ m2 : Buf, (∀ q, p ≤ q → q < p + n → m2 q = m' q) → desArray d1 m2 p l.length = some (l, n)) ∧
    (∀ q, q < p ∨ p + n ≤ q → m' q = m q) ∧ n ≤ sizeArray z1 l := by
  induction l with
  | nil =>
    intro m p m' n h
    obtain ⟨rfl, rfl⟩ := Prod.mk.inj (Option.some.inj h)
    exact ⟨fun _ _ => rfl, fun _ _ => rfl, Nat.zero_le _⟩
  | cons x l ih =>
    intro m p m' n h
    simp only [serArray, Option.bind_eq_some_iff, Option.map_eq_some_iff] at h
    obtain ⟨⟨ma, na⟩, e1, ⟨mb, nb⟩, e2, e3⟩ := h
    obtain ⟨rfl, rfl⟩ := Prod.mk.inj e3
    dsimp only at *
    obtain ⟨i1, i2, i3⟩ := ih (fun y hy => hl y (by simp [hy])) _ _ _ _ e2
    have hx := hl x (by simp)
    refine ⟨fun m2 hm => ?_, fun q hq => ?_, ?_⟩
    · have g1 := h1.back _ _ _ _ _ hx e1 m2 (fun q k1 k2 => by
        rw [hm q (by omega) (by omega)]; exact i2 q (by omega))
      have g2 := i1 m2 (fun q k1 k2 => hm q (by omega) (by omega))
      simp [desArray, g1, g2]
    · rw [i2 q (by omega), h1.frame _ _ _ _ _ hx e1 q (by omega)]
    · have := h1.fits _ _ _ _ _ hx e1
      simp only [sizeArray, List.map_cons, List.sum_cons] at i3 ⊢
      omega

theorem desArray_shift (h1 : RoundTrip s1 d1 z1 O1) (n : ℕ) : ∀ (m : Buf) (p k : ℕ),
    desArray d1 m (p + k) n = desArray d1 (fun q => m (p + q)) k n := by
  induction n with
  | zero => intro m p k; rfl
  | succ n ih =>
    intro m p k
    unfold desArray
    rw [h1.shift m (p + k), h1.shift (fun q => m (p + q)) k]
    simp only [Nat.add_assoc, ih]
end

theorem boundOfRaw_raw (b : Bound ℚ) : boundOfRaw (rawOfBound b) = b := by
  cases b with
  | fin q =>
    unfold boundOfRaw
    rw [if_neg (show (rawOfBound (.fin q)).den ≠ 0 from q.den_nz)]
    exact congrArg Bound.fin (Rat.num_div_den q)
  | pinf => rfl
  | ninf => rfl

theorem bq_roundTrip {limb : ℕ} (hl : 1 ≤ limb) : RoundTrip bqSer (bqDes true) (bqSize limb) (fun _ => True) where
  back m p b m' n _ h m2 hm := by
    have := (mpq_roundTrip hl).back m p _ m' n trivial h m2 hm
    simp [bqDes, this, boundOfRaw_raw]
  frame m p b m' n _ h := (mpq_roundTrip hl).frame m p _ m' n trivial h
  fits m p b m' n _ h := (mpq_roundTrip hl).fits m p _ m' n trivial h
  shift m p := by unfold bqDes; rw [(mpq_roundTrip hl).shift]

end Apron.Ser
