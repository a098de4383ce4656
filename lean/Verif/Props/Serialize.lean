import Verif.Num.SerializeLemmas
import Verif.Oct.OctLemmas

/-!
# C128 to C130: serialisation
-/

set_option autoImplicit false
set_option linter.unusedSectionVars false
set_option linter.ambiguousOpen false

namespace Apron.Props
open Apron.Ser

/-! ## C128: numbers -/

/-- GMP integers, when `char` is signed: the integer written by `numint_serialize` is read back by
`numint_deserialize` (with the same number of bytes) from any memory with the same bytes; nothing else is
written; `numint_serialized_size` is large enough. -/
theorem C128_mpz_partial (limb : ℕ) (hl : 1 ≤ limb) (m : Buf) (p : ℕ) (z : ℤ) (m' : Buf) (n : ℕ) (h : mpzSer m p z = some (m', n)) :
    (∀ m2 : Buf, (∀ q, p ≤ q → q < p + n → m2 q = m' q) → mpzDes true m2 p = some (z, n)) ∧
    (∀ q, q < p ∨ p + n ≤ q → m' q = m q) ∧ n ≤ mpzSize limb z :=
  have R := mpz_roundTrip hl
  ⟨R.back m p z m' n trivial h, R.frame m p z m' n trivial h, R.fits m p z m' n trivial h⟩

/-- it fails only on integers of at least `2^32` bytes -/
theorem C128_mpz_total (m : Buf) (p : ℕ) (z : ℤ) (k : ℕ) (hk : k < 2 ^ 32) (h : z.natAbs < 256 ^ k) : ∃ r, mpzSer m p z = some r :=
  mpz_total m p z (by
    unfold nbytes
    have := (Nat.digits_length_le_iff (b := 256) (by norm_num) z.natAbs (k := k)).2 h
    omega)

/-- GMP rationals, and the infinities coded by a null denominator -/
theorem C128_mpq_partial (limb : ℕ) (hl : 1 ≤ limb) (m : Buf) (p : ℕ) (b : Bound ℚ) (m' : Buf) (n : ℕ) (h : bqSer m p b = some (m', n)) :
    (∀ m2 : Buf, (∀ q, p ≤ q → q < p + n → m2 q = m' q) → bqDes true m2 p = some (b, n)) ∧
    (∀ q, q < p ∨ p + n ≤ q → m' q = m q) ∧ n ≤ bqSize limb b :=
  have R := bq_roundTrip hl
  ⟨R.back m p b m' n trivial h, R.frame m p b m' n trivial h, R.fits m p b m' n trivial h⟩

/-- native numbers (integers and floats), on little-endian and big-endian machines -/
theorem C128_native (big : Bool) (t : ℕ) (m : Buf) (p : ℕ) (l : List ℕ) (hl : l.length = t) (m' : Buf) (n : ℕ)
    (h : natSer big t m p l = some (m', n)) :
    (∀ m2 : Buf, (∀ q, p ≤ q → q < p + n → m2 q = m' q) → natDes big t m2 p = some (l, n)) ∧
    (∀ q, q < p ∨ p + n ≤ q → m' q = m q) ∧ n ≤ natSize t l :=
  have R := nat_roundTrip big t
  ⟨R.back m p l m' n hl h, R.frame m p l m' n hl h, R.fits m p l m' n hl h⟩

/-- ... the buffer has the same bytes on all machines: the least significant byte is first -/
theorem C128_native_portable (t : ℕ) (m : Buf) (p : ℕ) (l : List ℕ) : natSer true t m p l.reverse = natSer false t m p l := by
  simp [natSer, storeWords8]

/-- Two values in a row (native rationals), a value with a flag (bounds that are structures), arrays: each is
read back when its components are. -/
theorem C128_compound {α β : Type*} {s1 : Buf → ℕ → α → Option (Buf × ℕ)} {s2 : Buf → ℕ → β → Option (Buf × ℕ)}
    {d1 : Buf → ℕ → Option (α × ℕ)} {d2 : Buf → ℕ → Option (β × ℕ)} {z1 : α → ℕ} {z2 : β → ℕ} {O1 : α → Prop} {O2 : β → Prop}
    (h1 : RoundTrip s1 d1 z1 O1) (h2 : RoundTrip s2 d2 z2 O2) :
    RoundTrip (pairSer s1 s2) (pairDes d1 d2) (pairSize z1 z2) (fun x => O1 x.1 ∧ O2 x.2) ∧
    RoundTrip (flagSer s1) (flagDes d1) (flagSize z1) (fun x => O1 x.2) ∧
    ∀ k, RoundTrip (serArray s1) (fun m p => desArray d1 m p k) (sizeArray z1) (fun l => l.length = k ∧ ∀ x ∈ l, O1 x) :=
  ⟨pair_roundTrip h1 h2, flag_roundTrip h1, fun k =>
    ⟨fun m p l m' n hl h m2 hm => hl.1 ▸ (serArray_spec h1 l hl.2 m p m' n h).1 m2 hm,
     fun m p l m' n hl h => (serArray_spec h1 l hl.2 m p m' n h).2.1,
     fun m p l m' n hl h => (serArray_spec h1 l hl.2 m p m' n h).2.2,
     fun m p => desArray_shift h1 k m p 0⟩⟩

/-- The code violates the property on platforms where `char` is not signed (ARM, PowerPC): the sign is lost. -/
theorem C128_mpz_unsigned_char_wrong : ∃ m' n, mpzSer (fun _ => 0) 0 (-5) = some (m', n) ∧ mpzDes false m' 0 = some (5, n) := by
  obtain ⟨⟨m', n⟩, h⟩ := C128_mpz_total (fun _ => 0) 0 (-5) 1 (by norm_num) (by norm_num)
  refine ⟨m', n, h, ?_⟩
  have hb := (C128_mpz_partial 1 le_rfl _ _ _ _ _ h).1 m' (fun _ _ _ => rfl)
  simp only [mpzDes, Option.some.injEq, Prod.mk.injEq] at hb ⊢
  refine ⟨?_, hb.2⟩
  have h1 := hb.1
  simp only [charNeg, Bool.false_and, Bool.false_eq_true, if_false]
  split_ifs at h1 <;> omega

/-- MPFR numbers: what is read back of `z * 2^e` is `z * 2^count`, where `count` is the number of bytes of `z`:
the exponent is replaced by the size of the mantissa. -/
theorem C128_mpfr_value (m : Buf) (p : ℕ) (z e : ℤ) (m' : Buf) (n : ℕ) (h : mpfrSer m p (.num z e) = some (m', n)) :
    mpfrDes m' p = some (.num z (toInt (n - 9)), n) := by
  simp only [mpfrSer, export_snd] at h
  generalize hf : (if z.sign ≥ 0 then 3 else 4) = f at h
  split_ifs at h with hc
  obtain ⟨rfl, rfl⟩ := Prod.mk.inj (Option.some.inj h)
  rw [Nat.add_sub_cancel]
  have hb : dumpWord32 (dumpWord32 (mpzExport (st m p f) (p + 9) z).1 (p + 1) (nbytes z)) (p + 5) (nbytes z) p = f := by
    rw [dump_out _ _ _ (by omega), dump_out _ _ _ (by omega), export_out _ _ _ (by omega), st_same]
  have h5 : undumpWord32 (dumpWord32 (dumpWord32 (mpzExport (st m p f) (p + 9) z).1 (p + 1) (nbytes z)) (p + 5) (nbytes z)) (p + 5) = nbytes z := by
    rw [undump_dump _ (p + 5) (nbytes z) (fun q h1 h2 => rfl), hc.1]
  have h1 : undumpWord32 (dumpWord32 (dumpWord32 (mpzExport (st m p f) (p + 9) z).1 (p + 1) (nbytes z)) (p + 5) (nbytes z)) (p + 1) = nbytes z := by
    rw [undump_dump (mpzExport (st m p f) (p + 9) z).1 (p + 1) (nbytes z) (fun q h1 h2 => dump_out _ _ _ (by omega)), hc.1]
  have hi : mpzImport (dumpWord32 (dumpWord32 (mpzExport (st m p f) (p + 9) z).1 (p + 1) (nbytes z)) (p + 5) (nbytes z)) (p + 9) (nbytes z)
      = z.natAbs :=
    import_export (st m p f) _ _ z (fun q h1 h2 => by rw [dump_out _ _ _ (by omega), dump_out _ _ _ (by omega)])
  unfold mpfrDes
  rw [hb]
  have hs := Int.sign_nonneg_iff (x := z)
  by_cases hz : z.sign ≥ 0
  · rw [if_pos hz] at hf
    subst hf
    simp only [h1, h5, hi, Option.some.injEq, Prod.mk.injEq, Mpfr.num.injEq, and_true]
    have := hs.1 hz
    omega
  · rw [if_neg hz] at hf
    subst hf
    simp only [h1, h5, hi, Option.some.injEq, Prod.mk.injEq, Mpfr.num.injEq, and_true]
    have : ¬ 0 ≤ z := fun h => hz (hs.2 h)
    omega

/-- infinities and NaN are read back -/
theorem C128_mpfr_special (m : Buf) (p : ℕ) (x : Mpfr) (hx : ∀ z e, x ≠ .num z e) (m' : Buf) (n : ℕ) (h : mpfrSer m p x = some (m', n)) :
    mpfrDes m' p = some (x, n) ∧ n = 1 ∧ ∀ q, q ≠ p → m' q = m q := by
  cases x with
  | nan =>
    obtain ⟨rfl, rfl⟩ := Prod.mk.inj (Option.some.inj h)
    exact ⟨by simp [mpfrDes, st_same], rfl, fun q hq => st_ne _ _ hq⟩
  | inf b =>
    obtain ⟨rfl, rfl⟩ := Prod.mk.inj (Option.some.inj h)
    refine ⟨?_, rfl, fun q hq => st_ne _ _ hq⟩
    cases b <;> simp [mpfrDes, st_same]
  | num z e => exact (hx z e rfl).elim

/-- The code violates the property for MPFR numbers: the number 1 (mantissa `2^52`, exponent `-52`) is read back as `2^59`. -/
theorem C128_mpfr_wrong : ∃ m' n, mpfrSer (fun _ => 0) 0 (.num (2 ^ 52) (-52)) = some (m', n) ∧
    mpfrDes m' 0 = some (.num (2 ^ 52) 7, n) ∧ (2 ^ 52 : ℚ) * (2 : ℚ) ^ (-52 : ℤ) = 1 ∧ (2 ^ 52 : ℚ) * (2 : ℚ) ^ (7 : ℤ) = 2 ^ 59 := by
  have hn : nbytes (2 ^ 52) = 7 := by unfold nbytes; norm_num
  have h : ∃ b, mpfrSer (fun _ => 0) 0 (.num (2 ^ 52) (-52)) = some (b, 16) := by
    simp only [mpfrSer, export_snd, hn]
    rw [if_pos ⟨by norm_num, by decide⟩]
    exact ⟨_, rfl⟩
  obtain ⟨b, h⟩ := h
  refine ⟨b, 16, h, ?_, by norm_num, by norm_num⟩
  have := C128_mpfr_value _ _ _ _ _ _ h
  rw [this]
  rfl

/-! ## C129: octagons -/

section oct
variable {K : Type*} [LinearOrder K] [Field K] [IsStrictOrderedRing K]
  {ser : Buf → ℕ → Bound K → Option (Buf × ℕ)} {des : Buf → ℕ → Option (Bound K × ℕ)} {size : Bound K → ℕ}

theorem cells_length (dim : ℕ) (m : Oct.Mem K) : (cells dim m).length = Oct.matsize dim := by simp [cells]

theorem ofCells_cells (dim : ℕ) (u m : Oct.Mem K) {k : ℕ} (hk : k < Oct.matsize dim) : ofCells u (cells dim m) k = m k := by
  simp [ofCells, cells, List.getD_eq_getElem?_getD, hk]

/-- the octagon read back: the original matrix when there is one, otherwise the closed one, on the cells of the matrices -/
def OctBack (a r : OctT K) : Prop :=
  r.dim = a.dim ∧ r.intdim = a.intdim ∧
  match a.m, a.closed with
  | some m, _ => ∃ m', r.m = some m' ∧ r.closed = none ∧ ∀ k, k < Oct.matsize a.dim → m' k = m k
  | none, some c => ∃ c', r.closed = some c' ∧ r.m = none ∧ ∀ k, k < Oct.matsize a.dim → c' k = c k
  | none, none => r.m = none ∧ r.closed = none

/-- What `oct_serialize_raw` writes is read back by `oct_deserialize_raw` from any buffer with the same bytes, at
any address; the size returned by both functions is the same, and is not more than the size of the buffer
allocated by the first one, out of which nothing is written. -/
theorem C129_oct_round_trip (H : RoundTrip ser des size (fun _ => True)) (id : ℕ) (u : Buf) (u' : Oct.Mem K) (a : OctT K)
    (hd : a.dim < 2 ^ 32) (hi : a.intdim < 2 ^ 32) (b : Buf) (n : ℕ) (h : octSer ser id u a = some (b, n)) :
    (∀ (b2 : Buf) (p : ℕ), (∀ q, q < n → b2 (p + q) = b q) → ∃ r, octDes des id u' b2 p = some (r, n) ∧ OctBack a r) ∧
    n ≤ octAlloc size a ∧ ∀ q, n ≤ q → b q = u q := by
  have head : ∀ (s : ℕ) (q : ℕ), q < 10 → ∀ (b2 : Buf) (p : ℕ),
      (∀ q, q < 10 → b2 (p + q) = st (dumpWord32 (dumpWord32 (st u 0 id) 2 a.dim) 6 a.intdim) 1 s q) →
      b2 p = id ∧ b2 (p + 1) = s ∧ undumpWord32 b2 (p + 2) = a.dim ∧ undumpWord32 b2 (p + 6) = a.intdim := by
    intro s q hq b2 p hb
    refine ⟨?_, ?_, ?_, ?_⟩
    · have := hb 0 (by omega)
      rw [Nat.add_zero] at this
      rw [this, st_ne _ _ (by omega), dump_out _ _ _ (by omega), dump_out _ _ _ (by omega), st_same]
    · rw [hb 1 (by omega), st_same]
    · rw [undump_shift, undump_dump (st u 0 id) 2 a.dim (fun q h1 h2 => ?_), Nat.mod_eq_of_lt hd]
      rw [hb q (by omega), st_ne _ _ (by omega), dump_out _ _ _ (by omega)]
    · rw [undump_shift, undump_dump (dumpWord32 (st u 0 id) 2 a.dim) 6 a.intdim (fun q h1 h2 => ?_), Nat.mod_eq_of_lt hi]
      rw [hb q (by omega), st_ne _ _ (by omega)]
  have out : ∀ (s : ℕ) (q : ℕ), 10 ≤ q → st (dumpWord32 (dumpWord32 (st u 0 id) 2 a.dim) 6 a.intdim) 1 s q = u q := by
    intro s q hq
    rw [st_ne _ _ (by omega), dump_out _ _ _ (by omega), dump_out _ _ _ (by omega), st_ne _ _ (by omega)]
  have arr : ∀ (s : ℕ) (m : Oct.Mem K),
      (serArray ser (st (dumpWord32 (dumpWord32 (st u 0 id) 2 a.dim) 6 a.intdim) 1 s) 10 (cells a.dim m)).map (fun r => (r.1, 10 + r.2)) = some (b, n) →
      (∀ (b2 : Buf) (p : ℕ), (∀ q, q < n → b2 (p + q) = b q) →
        b2 p = id ∧ b2 (p + 1) = s ∧ undumpWord32 b2 (p + 2) = a.dim ∧ undumpWord32 b2 (p + 6) = a.intdim ∧
        ∃ k, n = 10 + k ∧ desArray des b2 (p + 10) (Oct.matsize a.dim) = some (cells a.dim m, k)) ∧
      n ≤ 10 + sizeArray size (cells a.dim m) ∧ ∀ q, n ≤ q → b q = u q := by
    intro s m h
    obtain ⟨⟨b', k⟩, e1, e2⟩ := Option.map_eq_some_iff.1 h
    obtain ⟨rfl, rfl⟩ := Prod.mk.inj e2
    dsimp only at *
    obtain ⟨g1, g2, g3⟩ := serArray_spec H (cells a.dim m) (fun _ _ => trivial) _ _ _ _ e1
    refine ⟨fun b2 p hb => ?_, by omega, fun q hq => by rw [g2 q (by omega), out s q (by omega)]⟩
    obtain ⟨k1, k2, k3, k4⟩ := head s 0 (by omega) b2 p (fun q hq => by rw [hb q (by omega), g2 q (by omega)])
    refine ⟨k1, k2, k3, k4, k, rfl, ?_⟩
    have := g1 (fun q => b2 (p + q)) (fun q h1 h2 => hb q (by omega))
    rw [cells_length] at this
    rw [desArray_shift H, this]
  rcases ha : a.m with _ | m <;> rcases hc : a.closed with _ | c <;> simp only [octSer, ha, hc] at h
  · obtain ⟨rfl, rfl⟩ := Prod.mk.inj (Option.some.inj h)
    refine ⟨fun b2 p hb => ?_, by simp [octAlloc, ha, hc], fun q hq => out 0 q hq⟩
    obtain ⟨k1, k2, k3, k4⟩ := head 0 0 (by omega) b2 p hb
    refine ⟨⟨none, none, a.dim, a.intdim⟩, by simp [octDes, k1, k2, k3, k4], rfl, rfl, ?_⟩
    simp [ha, hc]
  · obtain ⟨g1, g2, g3⟩ := arr 2 c h
    refine ⟨fun b2 p hb => ?_, by simpa [octAlloc, ha, hc] using g2, g3⟩
    obtain ⟨k1, k2, k3, k4, k, rfl, k5⟩ := g1 b2 p hb
    refine ⟨⟨none, some (ofCells u' (cells a.dim c)), a.dim, a.intdim⟩, by simp [octDes, k1, k2, k3, k4, k5], rfl, rfl, ?_⟩
    simp only [ha, hc]
    exact ⟨_, rfl, trivial, fun k hk => ofCells_cells _ _ _ hk⟩
  all_goals
    obtain ⟨g1, g2, g3⟩ := arr 1 m h
    refine ⟨fun b2 p hb => ?_, by simpa [octAlloc, ha, hc] using g2, g3⟩
    obtain ⟨k1, k2, k3, k4, k, rfl, k5⟩ := g1 b2 p hb
    refine ⟨⟨some (ofCells u' (cells a.dim m)), none, a.dim, a.intdim⟩, by simp [octDes, k1, k2, k3, k4, k5], rfl, rfl, ?_⟩
    simp only [ha]
    exact ⟨_, rfl, trivial, fun k hk => ofCells_cells _ _ _ hk⟩

/-- The octagon read back has the same points. -/
theorem C129_oct_same_points (a r : OctT K) (ha : OctT.WfR a) (h : OctBack a r) (x : ℕ → K) : r.Gam x ↔ a.Gam x := by
  have sat : ∀ m m' : Oct.Mem K, (∀ k, k < Oct.matsize a.dim → m' k = m k) → (Oct.Sat a.dim m' x ↔ Oct.Sat a.dim m x) := by
    intro m m' hm
    constructor <;> intro hs i j hi hc
    · rw [← hm _ (Oct.matpos_lt hi hc)]; exact hs i j hi hc
    · rw [hm _ (Oct.matpos_lt hi hc)]; exact hs i j hi hc
  rcases a with ⟨am, ac, dim, intdim⟩
  rcases r with ⟨rm, rc, rdim, rintdim⟩
  obtain ⟨h1, h2, h3⟩ := h
  dsimp only at h1 h2
  subst h1 h2
  rcases am with _ | m <;> rcases ac with _ | c <;> dsimp only at h3
  · obtain ⟨rfl, rfl⟩ := h3; rfl
  · obtain ⟨c', rfl, rfl, h3⟩ := h3; exact sat c c' h3
  · obtain ⟨m', rfl, rfl, h3⟩ := h3; exact sat m m' h3
  · obtain ⟨m', rfl, rfl, h3⟩ := h3; exact (sat m m' h3).trans (ha m c rfl rfl x)

end oct

/-- octagons on rationals, when `char` is signed: the value read back has the same dimensions and the same points -/
theorem C129_oct_mpq_partial (limb : ℕ) (hl : 1 ≤ limb) (id : ℕ) (u : Buf) (u' : Oct.Mem ℚ) (a : OctT ℚ) (ha : OctT.WfR a)
    (hd : a.dim < 2 ^ 32) (hi : a.intdim < 2 ^ 32) (b : Buf) (n : ℕ) (h : octSer bqSer id u a = some (b, n)) :
    (∃ r, octDes (bqDes true) id u' b 0 = some (r, n) ∧ r.dim = a.dim ∧ r.intdim = a.intdim ∧ ∀ x, r.Gam x ↔ a.Gam x) ∧
    n ≤ octAlloc (bqSize limb) a ∧ ∀ q, n ≤ q → b q = u q := by
  obtain ⟨h1, h2, h3⟩ := C129_oct_round_trip (bq_roundTrip hl) id u u' a hd hi b n h
  obtain ⟨r, e, hr⟩ := h1 b 0 (fun q _ => by rw [Nat.zero_add])
  exact ⟨⟨r, e, hr.1, hr.2.1, fun x => C129_oct_same_points a r ha hr x⟩, h2, h3⟩

/-! ## C130: reduced products -/

section prod
variable {A : ℕ → Type*} {ser : ∀ i, A i → Option (Buf × ℕ)} {des : ∀ i, Buf → ℕ → Option (A i × ℕ)} {E : ∀ i, A i → A i → Prop}

theorem prodSerLoop_out (x : ∀ i, A i) (f : ℕ) : ∀ (i : ℕ) (m : Buf) (g : ℕ) (b : Buf) (n : ℕ), prodSerLoop ser x f i m g = some (b, n) →
    g ≤ n ∧ ∀ q, q < g → b q = m q := by
  induction f with
  | zero =>
    intro i m g b n h
    obtain ⟨rfl, rfl⟩ := Prod.mk.inj (Option.some.inj h)
    exact ⟨le_refl _, fun _ _ => rfl⟩
  | succ f ih =>
    intro i m g b n h
    rw [prodSerLoop, Option.bind_eq_some_iff] at h
    obtain ⟨r, _, e2⟩ := h
    obtain ⟨h1, h2⟩ := ih _ _ _ _ _ e2
    exact ⟨by omega, fun q hq => by rw [h2 q (by omega), storeBytes_out _ _ _ (by omega)]⟩

theorem prod_aux (H : ∀ i x b n, ser i x = some (b, n) → ∀ (b2 : Buf) (p : ℕ), (∀ q, q < n → b2 (p + q) = b q) →
      ∃ y, des i b2 p = some (y, n) ∧ E i x y) (x : ∀ i, A i) (f : ℕ) : ∀ (i : ℕ) (m : Buf) (g : ℕ) (b : Buf) (n : ℕ),
    prodSerLoop ser x f i m g = some (b, n) → ∀ (b2 : Buf) (p : ℕ), (∀ q, q < n → b2 (p + q) = b q) → ∀ acc : (∀ i, A i),
    ∃ y, prodDesLoop des b2 p f i g acc = some (y, n) ∧ (∀ j, i ≤ j → j < i + f → E j (x j) (y j)) ∧ ∀ j, j < i → y j = acc j := by
  induction f with
  | zero =>
    intro i m g b n h b2 p hb acc
    obtain ⟨rfl, rfl⟩ := Prod.mk.inj (Option.some.inj h)
    exact ⟨acc, rfl, fun j h1 h2 => by omega, fun _ _ => rfl⟩
  | succ f ih =>
    intro i m g b n h b2 p hb acc
    rw [prodSerLoop, Option.bind_eq_some_iff] at h
    obtain ⟨⟨c, k⟩, e1, e2⟩ := h
    dsimp only at e2
    obtain ⟨o1, o2⟩ := prodSerLoop_out x f _ _ _ _ _ e2
    have hl := loadBytes_length c 0 k
    have hblk : ∀ q, q < k → b2 (p + g + q) = c q := by
      intro q hq
      rw [Nat.add_assoc, hb (g + q) (by omega), o2 (g + q) (by omega)]
      have h1 := load_store (loadBytes c 0 k) m _ g (fun q _ _ => rfl)
      rw [hl] at h1
      have h2 : ∀ (mm : Buf) (s t j : ℕ), j < t → (loadBytes mm s t)[j]? = some (mm (s + j)) := by
        intro mm s t
        induction t generalizing s with
        | zero => intro j hj; omega
        | succ t iht =>
          intro j hj
          cases j with
          | zero => simp [loadBytes]
          | succ j => simp only [loadBytes, List.getElem?_cons_succ]; rw [iht _ _ (by omega)]; congr 2; omega
      have h3 := h2 (storeBytes m g (loadBytes c 0 k)) g k q hq
      rw [h1, h2 c 0 k q hq, Nat.zero_add] at h3
      exact (Option.some.inj h3).symm
    obtain ⟨y, d1, d2⟩ := H i (x i) c k e1 b2 (p + g) hblk
    obtain ⟨z, z1, z2, z3⟩ := ih (i + 1) _ _ _ _ e2 b2 p hb (Function.update acc i y)
    refine ⟨z, by simp [prodDesLoop, d1, z1], fun j h1 h2 => ?_, fun j hj => ?_⟩
    · by_cases hj : j = i
      · subst hj
        rw [z3 j (by omega), Function.update_self]; exact d2
      · exact z2 j (by omega) (by omega)
    · rw [z3 j (by omega), Function.update_of_ne (by omega)]

/-- When the values of every component are read back (up to the relation `E`) from any buffer with the bytes
written, at any address, so are those of the product; the sizes returned by both functions are the same. -/
theorem C130_product_round_trip (H : ∀ i x b n, ser i x = some (b, n) → ∀ (b2 : Buf) (p : ℕ), (∀ q, q < n → b2 (p + q) = b q) →
      ∃ y, des i b2 p = some (y, n) ∧ E i x y) (N : ℕ) (u : Buf) (u' x : ∀ i, A i) (b : Buf) (n : ℕ)
    (h : prodSer ser N u x = some (b, n)) (b2 : Buf) (p : ℕ) (hb : ∀ q, q < n → b2 (p + q) = b q) :
    ∃ y, prodDes des N u' b2 p = some (y, n) ∧ ∀ j, j < N → E j (x j) (y j) := by
  obtain ⟨y, h1, h2, _⟩ := prod_aux H x N 0 u 0 b n h b2 p hb u'
  exact ⟨y, h1, fun j hj => h2 j (by omega) (by omega)⟩

end prod

/-- a product of `N` rational octagons is read back -/
theorem C130_product_oct (limb : ℕ) (hl : 1 ≤ limb) (id : ℕ) (N : ℕ) (u : Buf) (uo : Buf) (um : Oct.Mem ℚ) (u' x : ∀ _ : ℕ, OctT ℚ) (b : Buf) (n : ℕ)
    (h : prodSer (fun _ a => if a.dim < 2 ^ 32 ∧ a.intdim < 2 ^ 32 then octSer bqSer id uo a else none) N u x = some (b, n)) :
    ∃ y, prodDes (fun _ b p => octDes (bqDes true) id um b p) N u' b 0 = some (y, n) ∧ ∀ j, j < N → OctBack (x j) (y j) :=
  C130_product_round_trip (E := fun _ => OctBack) (fun i x b n h b2 p hb => by
    split_ifs at h with hd
    exact (C129_oct_round_trip (bq_roundTrip hl) id uo um x hd.1 hd.2 b n h).1 b2 p hb) N u u' x b n h b 0
    (fun q _ => by rw [Nat.zero_add])

/-! ## Concrete cases -/

/-- the hypotheses are satisfied: `-300` takes 7 bytes -/
example : ∃ m', mpzSer (fun _ => 0) 0 (-300) = some (m', 7) ∧ mpzDes true m' 0 = some (-300, 7) := by
  have hn : nbytes (-300) = 2 := by unfold nbytes; norm_num
  obtain ⟨⟨m', n⟩, h⟩ := C128_mpz_total (fun _ => 0) 0 (-300) 2 (by norm_num) (by norm_num)
  have h' := h
  simp only [mpzSer, export_snd, hn] at h'
  split_ifs at h' with hc
  have : n = 7 := by simpa using (congrArg Prod.snd (Option.some.inj h')).symm
  subst this
  exact ⟨m', h, (C128_mpz_partial 8 (by norm_num) _ _ _ _ _ h).1 m' (fun _ _ _ => rfl)⟩

example : natSer true 4 (fun _ => 0) 0 [1, 2, 3, 4] = natSer false 4 (fun _ => 0) 0 [4, 3, 2, 1] := C128_native_portable 4 _ _ [4, 3, 2, 1]

/-- an empty octagon takes 10 bytes, a non-empty one of dimension 0 as well -/
example : ∃ b, octSer bqSer 0x1f (fun _ => 0) (⟨none, none, 3, 1⟩ : OctT ℚ) = some (b, 10) := ⟨_, rfl⟩
example : ∃ b, octSer bqSer 0x1f (fun _ => 0) (⟨some fun _ => .pinf, none, 0, 0⟩ : OctT ℚ) = some (b, 10) := ⟨_, rfl⟩

/-- the octagon `x0 <= 1/2` of one dimension -/
example : ∃ b n, octSer bqSer 0x1f (fun _ => 0) (⟨some fun k => if k = 2 then .fin 1 else if k = 1 then .pinf else .fin 0, none, 1, 0⟩ : OctT ℚ) = some (b, n) := by
  have key : ∀ q : Bound ℚ, nbytes (rawOfBound q).num < 2 ^ 32 → nbytes ((rawOfBound q).den : ℤ) < 2 ^ 32 → ∀ m p, ∃ r, bqSer m p q = some r := by
    intro q h1 h2 m p
    simp only [bqSer, mpqSer, export_snd]
    rw [if_pos ⟨Nat.mod_eq_of_lt h1, Nat.mod_eq_of_lt h2⟩]
    exact ⟨_, rfl⟩
  have karr : ∀ (l : List (Bound ℚ)), (∀ q ∈ l, nbytes (rawOfBound q).num < 2 ^ 32 ∧ nbytes ((rawOfBound q).den : ℤ) < 2 ^ 32) → ∀ m p, ∃ r, serArray bqSer m p l = some r := by
    intro l
    induction l with
    | nil => intro _ m p; exact ⟨_, rfl⟩
    | cons q l ih =>
      intro h m p
      obtain ⟨r, hr⟩ := key q (h q (by simp)).1 (h q (by simp)).2 m p
      obtain ⟨r', hr'⟩ := ih (fun q hq => h q (by simp [hq])) r.1 (p + r.2)
      exact ⟨_, by simp only [serArray, hr, Option.bind_some, hr', Option.map_some]; rfl⟩
  simp only [octSer]
  obtain ⟨r, hr⟩ := karr (cells 1 fun k => if k = 2 then .fin 1 else if k = 1 then .pinf else .fin 0) (by
    intro q hq
    simp only [cells, List.mem_map] at hq
    obtain ⟨k, _, rfl⟩ := hq
    split_ifs <;> simp [rawOfBound, nbytes]) (st (dumpWord32 (dumpWord32 (st (fun _ => 0) 0 0x1f) 2 1) 6 0) 1 1) 10
  exact ⟨r.1, 10 + r.2, by rw [hr]; rfl⟩

end Apron.Props
