import Verif.Kv.CrcDetect

/-
The code of the checksum (Kv/CrcImpl.lean) computes the remainder (Kv/Crc.lean). Only helper facts; the property
is in Props/C69.lean.
-/
namespace Verif.Kv.Crc

open Polynomial
open SuperblockBytes (packLE unpackLE)

/-! ### Numbers and bits -/

theorem bitsOf_add {a n k m : Nat} (h : a < 2 ^ k) : bitsOf (a + 2 ^ k * n) (k + m) = bitsOf a k ++ bitsOf n m := by
  induction k generalizing a with
  | zero =>
    have : a = 0 := by simpa using h
    rw [this]
    simp [bitsOf]
  | succ k ih =>
    rw [show k + 1 + m = (k + m) + 1 from by omega, bitsOf, bitsOf, List.cons_append]
    have e : 2 ^ (k + 1) * n = 2 * (2 ^ k * n) := by rw [Nat.pow_succ]; ring
    rw [e]
    have h1 : (a + 2 * (2 ^ k * n)) % 2 = a % 2 := by omega
    have h2 : (a + 2 * (2 ^ k * n)) / 2 = a / 2 + 2 ^ k * n := by omega
    rw [h1, h2, ih (by rw [Nat.pow_succ] at h; omega)]

theorem bitsOf_zero (m : Nat) : bitsOf 0 m = zeroes m := by
  induction m with
  | zero => rfl
  | succ m ih => rw [bitsOf, ih]; rfl

theorem bitsOf_extend {a : Nat} (h : a < 2 ^ 32) : bitsOf a 64 = bitsOf a 32 ++ zeroes 32 := by
  have := bitsOf_add (n := 0) (m := 32) h
  rw [Nat.mul_zero, Nat.add_zero, bitsOf_zero] at this
  exact this

theorem unpackLE_lt (l : List UInt8) : unpackLE l < 2 ^ (8 * l.length) := by
  induction l with
  | nil => decide
  | cons b l ih =>
    rw [unpackLE, List.length_cons, show 8 * (l.length + 1) = 8 * l.length + 8 from by omega, Nat.pow_add]
    have := UInt8.toNat_lt b
    omega

theorem bits_unpackLE (l : List UInt8) : bitsOf (unpackLE l) (8 * l.length) = bitsOfBytes l := by
  induction l with
  | nil => rfl
  | cons b l ih =>
    rw [unpackLE, List.length_cons, show 8 * (l.length + 1) = 8 + 8 * l.length from by omega]
    have := bitsOf_add (k := 8) (n := unpackLE l) (m := 8 * l.length) (UInt8.toNat_lt b)
    rw [show (256 : Nat) = 2 ^ 8 from rfl, this, ih]
    rfl

theorem bits_packLE (n t : Nat) : bitsOfBytes (packLE n t) = bitsOf t (8 * n) := by
  induction n generalizing t with
  | zero => rfl
  | succ n ih =>
    rw [packLE, bitsOfBytes, List.flatMap_cons]
    have ih := ih (t / 256)
    rw [bitsOfBytes] at ih
    rw [ih, show 8 * (n + 1) = 8 + 8 * n from by omega]
    have h1 : t % 256 < 2 ^ 8 := Nat.mod_lt _ (by decide)
    have h2 := bitsOf_add (n := t / 256) (m := 8 * n) h1
    have h3 : t % 256 + 2 ^ 8 * (t / 256) = t := Nat.mod_add_div t 256
    rw [h3] at h2
    rw [h2, UInt8.toNat_ofNat', Nat.mod_mod]

theorem bits_xorN (w a b : Nat) : bitsOf (xorN w a b) w = xorBits (bitsOf a w) (bitsOf b w) := by
  have := bitsOf_natOf (xorBits (bitsOf a w) (bitsOf b w))
  rw [xorBits_length, bitsOf_length, bitsOf_length, Nat.min_self] at this
  exact this

theorem xorN_lt (w a b : Nat) : xorN w a b < 2 ^ w := by
  have := natOf_lt (xorBits (bitsOf a w) (bitsOf b w))
  rw [xorBits_length, bitsOf_length, bitsOf_length, Nat.min_self] at this
  exact this

theorem bits_crc8 (acc b : Nat) : bitsOf (crc8 acc b) 32 = advance (bitsOf acc 32) (bitsOf b 8) := by
  have := bitsOf_natOf (advance (bitsOf acc 32) (bitsOf b 8))
  rw [advance_length] at this
  exact this

theorem bits_crc64 (acc b : Nat) : bitsOf (crc64 acc b) 32 = advance (bitsOf acc 32) (bitsOf b 64) := by
  have := bitsOf_natOf (advance (bitsOf acc 32) (bitsOf b 64))
  rw [advance_length] at this
  exact this

theorem crc64_lt (acc b : Nat) : crc64 acc b < 2 ^ 32 := by
  have := natOf_lt (advance (bitsOf acc 32) (bitsOf b 64))
  rw [advance_length] at this
  exact this

/-! ### The table -/

theorem low_eq : bitsOf 0x82F63b78 32 = low := by decide

theorem shift1_lt {p : Nat} (h : p < 2 ^ 32) : shift1 p < 2 ^ 32 := by
  unfold shift1
  split
  · omega
  · exact xorN_lt _ _ _

theorem ev_shift1 {p : Nat} (h : p < 2 ^ 32) : ev (bitsOf (shift1 p) 32) = x * ev (bitsOf p 32) := by
  have h1 : bitsOf (p / 2) 32 = bitsOf (p / 2) 31 ++ [false] := by
    have := bitsOf_add (a := p / 2) (n := 0) (k := 31) (m := 1) (by omega)
    rw [Nat.mul_zero, Nat.add_zero] at this
    exact this
  have h2 : bitsOf p 32 = [decide (p % 2 = 1)] ++ bitsOf (p / 2) 31 := rfl
  have h3 : ev (bitsOf (p / 2) 32) = x * ev (bitsOf (p / 2) 31) := by
    rw [h1, ev_snoc]; simp
  unfold shift1
  rw [h2, ev_append, bitsOf_length, ev_bit]
  split
  · rename_i h0
    rw [h3]
    simp [h0]
  · rename_i h0
    have h0' : p % 2 = 1 := by omega
    rw [bits_xorN, ev_xor (by rw [bitsOf_length, bitsOf_length]), h3, low_eq, ← x32]
    simp only [h0', decide_true, if_true]
    ring

theorem powIter_spec (k : Nat) {p : Nat} (h : p < 2 ^ 32) :
    powIter k p < 2 ^ 32 ∧ ev (bitsOf (powIter k p) 32) = x ^ k * ev (bitsOf p 32) := by
  induction k generalizing p with
  | zero => exact ⟨h, by rw [powIter]; simp⟩
  | succ k ih =>
    rw [powIter]
    obtain ⟨h1, h2⟩ := ih (shift1_lt h)
    refine ⟨h1, ?_⟩
    rw [h2, ev_shift1 h]
    ring

/-- The number `v` is the residue of the power `m` of the unknown. -/
def IsPow (v m : Nat) : Prop := v < 2 ^ 32 ∧ ev (bitsOf v 32) = x ^ m

theorem isPow_iter {v m : Nat} (h : IsPow v m) (k : Nat) : IsPow (powIter k v) (k + m) := by
  obtain ⟨h1, h2⟩ := powIter_spec k h.1
  exact ⟨h1, by rw [h2, h.2, pow_add]⟩

theorem isPow_zero : IsPow 0x80000000 0 := by
  refine ⟨by decide, ?_⟩
  rw [show bitsOf 0x80000000 32 = zeroes 31 ++ [true] from by decide, ev_snoc, ev_zeroes]
  simp

theorem allIter_spec (k : Nat) : ∀ {i : Nat} {r : List Nat}, 1 ≤ i → i + k = 512 → r.length = 512 →
    (∀ j, j < i → IsPow (r.getD j 0) (64 * j + 31)) →
    (allIter k i r).length = 512 ∧ ∀ j, j < 512 → IsPow ((allIter k i r).getD j 0) (64 * j + 31) := by
  induction k with
  | zero => intro i r _ hi hl h; exact ⟨hl, fun j hj => h j (by omega)⟩
  | succ k ih =>
    intro i r h1 hi hl h
    rw [allIter]
    refine ih (by omega) (by omega) (by rw [List.length_set, hl]) fun j hj => ?_
    by_cases e : j = i
    · subst e
      rw [List.getD_eq_getElem?_getD, List.getElem?_set_self (by omega), Option.getD_some]
      have := isPow_iter (h (j - 1) (by omega)) (64 * (j + 1) - 64 * j)
      rw [show 64 * (j + 1) - 64 * j + (64 * (j - 1) + 31) = 64 * j + 31 from by omega] at this
      exact this
    · rw [List.getD_eq_getElem?_getD, List.getElem?_set_ne (by omega), ← List.getD_eq_getElem?_getD]
      exact h j (by omega)

theorem allPow_spec {j : Nat} (h : j < 512) : IsPow (allPow.getD j 0) (64 * j + 31) := by
  refine (allIter_spec 511 (by omega) rfl (by rw [List.length_set, List.length_replicate]) ?_).2 j h
  intro j hj
  have : j = 0 := by omega
  subst this
  rw [List.getD_eq_getElem?_getD, List.getElem?_set_self (by rw [List.length_replicate]; decide), Option.getD_some]
  exact isPow_iter isPow_zero 31

/-- Entry `i` of the table. -/
def IsEntry (v i : Nat) : Prop :=
  ∃ a b, v = combine a b ∧ IsPow a (128 * i + 95) ∧ IsPow b (64 * i + 31)

theorem lutIter_spec (k : Nat) : ∀ {i : Nat} {l : List Nat}, 1 ≤ i → i + k = 257 → l.length = 257 →
    (∀ j, j + 1 < i → IsEntry (l.getD j 0) j) →
    (lutIter allPow k i l).length = 257 ∧ ∀ j, j < 256 → IsEntry ((lutIter allPow k i l).getD j 0) j := by
  induction k with
  | zero => intro i l _ hi hl h; exact ⟨hl, fun j hj => h j (by omega)⟩
  | succ k ih =>
    intro i l h1 hi hl h
    rw [lutIter]
    refine ih (by omega) (by omega) (by rw [List.length_set, hl]) fun j hj => ?_
    by_cases e : j = i - 1
    · rw [e, List.getD_eq_getElem?_getD, List.getElem?_set_self (by omega), Option.getD_some]
      refine ⟨_, _, rfl, ?_, ?_⟩
      · have := allPow_spec (j := 2 * i - 1) (by omega)
        rwa [show 64 * (2 * i - 1) + 31 = 128 * (i - 1) + 95 from by omega] at this
      · exact allPow_spec (by omega)
    · rw [List.getD_eq_getElem?_getD, List.getElem?_set_ne (by omega), ← List.getD_eq_getElem?_getD]
      exact h j (by omega)

theorem lut_spec : lut.length = 257 ∧ ∀ j, j < 256 → IsEntry (lut.getD j 0) j :=
  lutIter_spec 256 (by omega) rfl (by rw [List.length_replicate]) fun j hj => by omega

theorem lut_get {n : Nat} (h1 : 1 ≤ n) (h2 : n ≤ 256) : ∃ lo hi, lut[n - 1]? = some lo ∧ lut[n]? = some hi ∧
    IsEntry lo (n - 1) := by
  have hl := lut_spec.1
  refine ⟨lut[n - 1], lut[n], List.getElem?_eq_getElem _, List.getElem?_eq_getElem _, ?_⟩
  have := lut_spec.2 (n - 1) (by omega)
  rwa [List.getD_eq_getElem _ _ (by omega)] at this

/-! ### The carry-less product -/

theorem mulDigit_coeff (p q : List Bool) (i : Nat) : b2 (mulDigit p q i) = (toPoly p * toPoly q).coeff i := by
  rw [coeff_mul, Finset.Nat.sum_antidiagonal_eq_sum_range_succ_mk]
  have h : ∀ l : List Nat, b2 (l.foldr (fun j acc => (bitAt p j && bitAt q (i - j)) ^^ acc) false) =
      (l.map fun j => (toPoly p).coeff j * (toPoly q).coeff (i - j)).sum := by
    intro l
    induction l with
    | nil => rfl
    | cons j l ih =>
      rw [List.foldr_cons, b2_xor, ih, List.map_cons, List.sum_cons, b2_and, toPoly_coeff, toPoly_coeff]
      rfl
  rw [mulDigit, h]
  rfl

/-- The first `n` bits of a product that has no others. -/
theorem toPoly_mul_take {p q : List Bool} {n : Nat} (hn : n ≤ p.length + q.length)
    (hd : ∀ i, n ≤ i → (toPoly p * toPoly q).coeff i = 0) :
    toPoly ((mulF2 p q).take n) = toPoly p * toPoly q := by
  ext i
  rw [toPoly_coeff]
  by_cases hi : i < n
  · rw [List.getD_eq_getElem _ _ (by rw [List.length_take, mulF2, List.length_map, List.length_range]; omega),
      List.getElem_take]
    simp only [mulF2, List.getElem_map, List.getElem_range]
    exact mulDigit_coeff p q i
  · rw [List.getD_eq_default _ _ (by rw [List.length_take]; omega), hd i (by omega)]
    rfl

theorem toPoly_reverse (l : List Bool) : toPoly l.reverse = reflect (l.length - 1) (toPoly l) := by
  ext i
  rw [coeff_reflect, toPoly_coeff, toPoly_coeff]
  congr 1
  by_cases h : i < l.length
  · rw [revAt_le (by omega), List.getD_eq_getElem _ _ (by simpa using h), List.getElem_reverse,
      List.getD_eq_getElem _ _ (by omega)]
  · rw [List.getD_eq_default _ _ (by rw [List.length_reverse]; omega)]
    by_cases h0 : i ≤ l.length - 1
    · have hl : l = [] := List.eq_nil_of_length_eq_zero (by omega)
      rw [hl]; rfl
    · rw [revAt_eq_self_of_lt (by omega), List.getD_eq_default _ _ (by omega)]

theorem toPoly_natDegree {l : List Bool} {n : Nat} (h : l.length ≤ n + 1) : (toPoly l).natDegree ≤ n := by
  rw [natDegree_le_iff_coeff_eq_zero]
  intro i hi
  rw [toPoly_coeff, List.getD_eq_default _ _ (by omega)]
  rfl

theorem ev_clmul {a K : List Bool} (ha : a.length = 32) (hK : K.length = 32) :
    ev ((mulF2 (a ++ zeroes 32) (K ++ zeroes 32)).take 64) = x * ev a * ev K := by
  have hp : toPoly (a ++ zeroes 32) = toPoly a := by rw [toPoly_append, toPoly_zeroes, mul_zero, add_zero]
  have hq : toPoly (K ++ zeroes 32) = toPoly K := by rw [toPoly_append, toPoly_zeroes, mul_zero, add_zero]
  have da := toPoly_natDegree (l := a) (n := 31) (by omega)
  have dK := toPoly_natDegree (l := K) (n := 31) (by omega)
  have dm : (toPoly a * toPoly K).natDegree ≤ 62 := natDegree_mul_le.trans (by omega)
  have hm : toPoly ((mulF2 (a ++ zeroes 32) (K ++ zeroes 32)).take 64) = toPoly a * toPoly K := by
    rw [toPoly_mul_take, hp, hq]
    · rw [List.length_append, List.length_append, zeroes_length]; omega
    · intro i hi
      rw [hp, hq]
      exact coeff_eq_zero_of_natDegree_lt (by omega)
  have hl : ((mulF2 (a ++ zeroes 32) (K ++ zeroes 32)).take 64).length = 64 := by
    rw [List.length_take, mulF2, List.length_map, List.length_range, List.length_append, List.length_append,
      zeroes_length]
    omega
  generalize (mulF2 (a ++ zeroes 32) (K ++ zeroes 32)).take 64 = m at hm hl
  have h1 : toPoly m.reverse = X * (toPoly a.reverse * toPoly K.reverse) := by
    rw [toPoly_reverse, hl, hm, toPoly_reverse a, toPoly_reverse K, ha, hK, ← reflect_mul _ _ da dK]
    ext i
    rw [coeff_reflect]
    cases i with
    | zero =>
      rw [coeff_X_mul_zero, revAt_le (by omega)]
      exact coeff_eq_zero_of_natDegree_lt (by omega)
    | succ i =>
      rw [coeff_X_mul, coeff_reflect]
      by_cases hi : i ≤ 62
      · rw [revAt_le (by omega), revAt_le (by omega)]
        congr 1
        omega
      · rw [revAt_eq_self_of_lt (by omega), revAt_eq_self_of_lt (by omega),
          coeff_eq_zero_of_natDegree_lt (by omega), coeff_eq_zero_of_natDegree_lt (by omega)]
  rw [ev, h1, map_mul, map_mul]
  unfold ev x
  ring

/-- What the join computes. -/
theorem fold3_spec {n lo hi A B : Nat} (hn : 1 ≤ n) (h : IsEntry lo (n - 1)) (hA : A < 2 ^ 32) (hB : B < 2 ^ 32) :
    x ^ 32 * ev (bitsOf (fold3 lo hi A B) 64) =
      x ^ (128 * n) * ev (bitsOf A 32) + x ^ (64 * n) * ev (bitsOf B 32) := by
  obtain ⟨a, b, rfl, ⟨ha, ea⟩, hb, eb⟩ := h
  have h64 : bitsOf (combine a b) 64 = bitsOf a 32 ++ bitsOf b 32 := by
    have := bitsOf_add (n := b) (m := 32) ha
    rw [combine, show b * 4294967296 + a = a + 2 ^ 32 * b from by omega]
    exact this
  have hv : cvtepu32 (bitsOf (combine a b) 64 ++ bitsOf hi 64) =
      (bitsOf a 32 ++ zeroes 32) ++ (bitsOf b 32 ++ zeroes 32) := by
    rw [h64, cvtepu32, List.append_assoc (bitsOf a 32) (bitsOf b 32), List.take_left' (bitsOf_length _ _),
      List.drop_left' (bitsOf_length _ _), List.take_left' (bitsOf_length _ _),
      List.append_assoc (bitsOf a 32 ++ zeroes 32)]
  have l64 : ∀ v, (bitsOf v 32 ++ zeroes 32).length = 64 := fun v => by
    rw [List.length_append, bitsOf_length, zeroes_length]
  have h0 : clmul0 (cvtsi64 A) ((bitsOf a 32 ++ zeroes 32) ++ (bitsOf b 32 ++ zeroes 32)) =
      mulF2 (bitsOf A 32 ++ zeroes 32) (bitsOf a 32 ++ zeroes 32) := by
    rw [clmul0, cvtsi64, List.take_left' (bitsOf_length _ _), List.take_left' (l64 a), bitsOf_extend hA]
  have h16 : clmul16 (cvtsi64 B) ((bitsOf a 32 ++ zeroes 32) ++ (bitsOf b 32 ++ zeroes 32)) =
      mulF2 (bitsOf B 32 ++ zeroes 32) (bitsOf b 32 ++ zeroes 32) := by
    rw [clmul16, cvtsi64, List.take_left' (bitsOf_length _ _), List.drop_left' (l64 a),
      List.take_of_length_le (by rw [l64]), bitsOf_extend hB]
  have hml : ∀ u v, (mulF2 (bitsOf u 32 ++ zeroes 32) (bitsOf v 32 ++ zeroes 32)).length = 128 := fun u v => by
    rw [mulF2, List.length_map, List.length_range, l64, l64]
  unfold fold3
  simp only [hv, h0, h16]
  have hx : (xorBits (mulF2 (bitsOf A 32 ++ zeroes 32) (bitsOf a 32 ++ zeroes 32))
      (mulF2 (bitsOf B 32 ++ zeroes 32) (bitsOf b 32 ++ zeroes 32))).take 64 =
      xorBits ((mulF2 (bitsOf A 32 ++ zeroes 32) (bitsOf a 32 ++ zeroes 32)).take 64)
        ((mulF2 (bitsOf B 32 ++ zeroes 32) (bitsOf b 32 ++ zeroes 32)).take 64) := by
    unfold xorBits
    rw [List.take_zipWith]
  rw [hx]
  have hb2 := bitsOf_natOf (xorBits ((mulF2 (bitsOf A 32 ++ zeroes 32) (bitsOf a 32 ++ zeroes 32)).take 64)
        ((mulF2 (bitsOf B 32 ++ zeroes 32) (bitsOf b 32 ++ zeroes 32)).take 64))
  rw [xorBits_length, List.length_take, List.length_take, hml, hml] at hb2
  rw [show min (min 64 128) (min 64 128) = 64 from rfl] at hb2
  rw [hb2, ev_xor (by rw [List.length_take, List.length_take, hml, hml]),
    ev_clmul (bitsOf_length _ _) (bitsOf_length _ _), ev_clmul (bitsOf_length _ _) (bitsOf_length _ _), ea, eb]
  have e1 : 128 * n = 32 + (1 + (128 * (n - 1) + 95)) := by omega
  have e2 : 64 * n = 32 + (1 + (64 * (n - 1) + 31)) := by omega
  rw [e1, e2, pow_add x 32, pow_add x 1, pow_add x 32, pow_add x 1, pow_one]
  ring

/-! ### The loops -/

/-- `s[a..b]` -/
def cut (s : List UInt8) (a b : Nat) : List UInt8 := (s.drop a).take (b - a)

theorem cut_self (s : List UInt8) (a : Nat) : cut s a a = [] := by
  rw [cut, Nat.sub_self, List.take_zero]

theorem cut_append (s : List UInt8) {a b c : Nat} (h1 : a ≤ b) (h2 : b ≤ c) :
    cut s a b ++ cut s b c = cut s a c := by
  rw [cut, cut, cut]
  have := List.take_add (l := s.drop a) (i := b - a) (j := c - b)
  rw [List.drop_drop, show a + (b - a) = b from by omega, show b - a + (c - b) = c - a from by omega] at this
  exact this.symm

theorem cut_length {s : List UInt8} {a b : Nat} (h : b ≤ s.length) : (cut s a b).length = b - a := by
  rw [cut, List.length_take, List.length_drop]; omega

theorem cut_one {s : List UInt8} {a : Nat} {b : UInt8} (h : s[a]? = some b) : cut s a (a + 1) = [b] := by
  obtain ⟨h1, h2⟩ := List.getElem?_eq_some_iff.mp h
  rw [cut, List.drop_eq_getElem_cons h1, show a + 1 - a = 1 from by omega, List.take_succ_cons, List.take_zero, h2]

/-- The register `r` has become `r'` over the bytes from `a` to `b`. -/
def Adv (s : List UInt8) (a b r r' : Nat) : Prop :=
  bitsOf r' 32 = advance (bitsOf r 32) (bitsOfBytes (cut s a b))

theorem Adv.refl (s : List UInt8) (a r : Nat) : Adv s a a r r := by
  rw [Adv, cut_self, bitsOfBytes, List.flatMap_nil, advance_nil (bitsOf_length _ _)]

theorem Adv.trans {s : List UInt8} {a b c r1 r2 r3 : Nat} (hab : a ≤ b) (hbc : b ≤ c)
    (h1 : Adv s a b r1 r2) (h2 : Adv s b c r2 r3) : Adv s a c r1 r3 := by
  rw [Adv] at *
  rw [h2, h1, advance_advance (bitsOf_length _ _), ← bitsOfBytes_append, cut_append s hab hbc]

theorem adv_byte {s : List UInt8} {a r : Nat} {b : UInt8} (h : s[a]? = some b) :
    Adv s a (a + 1) r (crc8 r b.toNat) := by
  rw [Adv, bits_crc8, cut_one h]
  rfl

theorem read64_some {s : List UInt8} {a : Nat} (h : a + 8 ≤ s.length) :
    ∃ v, read64 s a = some v ∧ bitsOf v 64 = bitsOfBytes (cut s a (a + 8)) := by
  refine ⟨_, if_pos h, ?_⟩
  have hl : ((s.drop a).take 8).length = 8 := by rw [List.length_take, List.length_drop]; omega
  have := bits_unpackLE ((s.drop a).take 8)
  rw [hl] at this
  rw [show 64 = 8 * 8 from rfl, this, cut, show a + 8 - a = 8 from by omega]

theorem adv_word {s : List UInt8} {a r v : Nat} (h : bitsOf v 64 = bitsOfBytes (cut s a (a + 8))) :
    Adv s a (a + 8) r (crc64 r v) := by
  rw [Adv, bits_crc64, h]

theorem alignLoop_spec (s : List UInt8) (t : Nat) : ∀ {len pA crc : Nat}, pA + len ≤ s.length →
    ∃ len' pA' crc', alignLoop s t len pA crc = some (len', pA', crc') ∧ pA' + len' = pA + len ∧ pA ≤ pA' ∧
      Adv s pA pA' crc crc' := by
  induction t with
  | zero => intro len pA crc _; exact ⟨len, pA, crc, rfl, rfl, Nat.le_refl _, Adv.refl _ _ _⟩
  | succ t ih =>
    intro len pA crc h
    rw [alignLoop]
    by_cases h0 : len = 0
    · rw [if_pos h0]
      exact ⟨len, pA, crc, rfl, rfl, Nat.le_refl _, Adv.refl _ _ _⟩
    · rw [if_neg h0]
      have hb : s[pA]? = some s[pA] := List.getElem?_eq_getElem (by omega)
      rw [hb]
      obtain ⟨l', p', c', e, h1, h2, h3⟩ := ih (len := len - 1) (pA := pA + 1) (crc := crc8 crc s[pA].toNat)
        (by omega)
      exact ⟨l', p', c', e, by omega, by omega, (adv_byte hb).trans (by omega) h2 h3⟩

theorem byteLoop_spec (s : List UInt8) (len : Nat) : ∀ {pA crc : Nat}, pA + len ≤ s.length →
    ∃ crc', byteLoop s len pA crc = some crc' ∧ Adv s pA (pA + len) crc crc' := by
  induction len with
  | zero => intro pA crc _; exact ⟨crc, rfl, Adv.refl _ _ _⟩
  | succ len ih =>
    intro pA crc h
    have hb : s[pA]? = some s[pA] := List.getElem?_eq_getElem (by omega)
    rw [byteLoop, hb]
    obtain ⟨c', e, h1⟩ := ih (pA := pA + 1) (crc := crc8 crc s[pA].toNat) (by omega)
    refine ⟨c', e, ?_⟩
    rw [show pA + (len + 1) = pA + 1 + len from by omega]
    exact (adv_byte hb).trans (by omega) (by omega) h1

theorem wordLoop_spec (s : List UInt8) (len : Nat) : ∀ {pA crc : Nat}, pA + len ≤ s.length →
    ∃ len' pA' crc', wordLoop s len pA crc = some (len', pA', crc') ∧ pA' + len' = pA + len ∧ pA ≤ pA' ∧
      Adv s pA pA' crc crc' := by
  induction len using Nat.strong_induction_on with
  | _ len ih =>
    intro pA crc h
    rw [wordLoop]
    by_cases h8 : 8 ≤ len
    · obtain ⟨v, hv, hb⟩ := read64_some (s := s) (a := pA) (by omega)
      rw [dif_pos h8, hv]
      obtain ⟨l', p', c', e, h1, h2, h3⟩ := ih (len - 8) (by omega) (pA := pA + 8) (crc := crc64 crc v) (by omega)
      exact ⟨l', p', c', e, by omega, by omega, (adv_word hb).trans (by omega) h2 h3⟩
    · rw [dif_neg h8]
      exact ⟨len, pA, crc, rfl, rfl, Nat.le_refl _, Adv.refl _ _ _⟩

theorem three_spec (s : List UInt8) {pA pB pC : Nat} (hA : pA ≤ s.length) (hB : pB ≤ s.length)
    (hC : pC ≤ s.length) (z : Nat) : ∀ {a b c : Nat}, z < 256 → 8 * (z + 1) ≤ pA → 8 * (z + 1) ≤ pB →
    8 * (z + 1) ≤ pC → ∃ a' b' c', three s pA pB pC (z + 1) a b c = some (a', b', c') ∧
      Adv s (pA - 8 * (z + 1)) (pA - 8) a a' ∧ Adv s (pB - 8 * (z + 1)) (pB - 8) b b' ∧
      Adv s (pC - 8 * (z + 1)) (pC - 8) c c' := by
  induction z with
  | zero => intro a b c _ _ _ _; exact ⟨a, b, c, rfl, Adv.refl _ _ _, Adv.refl _ _ _, Adv.refl _ _ _⟩
  | succ z ih =>
    intro a b c hz h1 h2 h3
    rw [three]
    have hu : u32 (8 * (z + 2)) = 8 * (z + 2) := Nat.mod_eq_of_lt (by omega)
    have step : ∀ p, p ≤ s.length → 8 * (z + 2) ≤ p → ∃ v, read64 s (p - 8 * (z + 2)) = some v ∧
        ∀ r, Adv s (p - 8 * (z + 2)) (p - 8 * (z + 1)) r (crc64 r v) := by
      intro p hp hz'
      obtain ⟨v, hv, hb⟩ := read64_some (s := s) (a := p - 8 * (z + 2)) (by omega)
      refine ⟨v, hv, fun r => ?_⟩
      rw [show p - 8 * (z + 1) = p - 8 * (z + 2) + 8 from by omega]
      exact adv_word hb
    obtain ⟨va, ra, sa⟩ := step pA hA h1
    obtain ⟨vb, rb, sb⟩ := step pB hB h2
    obtain ⟨vc, rc, sc⟩ := step pC hC h3
    rw [hu, ra, rb, rc]
    obtain ⟨a', b', c', e, ea, eb, ec⟩ := ih (a := crc64 a va) (b := crc64 b vb) (c := crc64 c vc) (by omega)
      (by omega) (by omega) (by omega)
    exact ⟨a', b', c', e, (sa a).trans (by omega) (by omega) ea, (sb b).trans (by omega) (by omega) eb,
      (sc c).trans (by omega) (by omega) ec⟩

theorem bits_word_length (s : List UInt8) {a b : Nat} (h : b ≤ s.length) :
    (bitsOfBytes (cut s a b)).length = 8 * (b - a) := by
  rw [bitsOfBytes_length, cut_length h]

/-- The body of the second loop takes the register over all its bytes. -/
theorem bulkStep_spec (s : List UInt8) {n p r : Nat} (h1 : 1 ≤ n) (h2 : n ≤ 256) (hp : p + 24 * n ≤ s.length) :
    ∃ r', bulkStep s n p r = some (p + 24 * n, r') ∧ Adv s p (p + 24 * n) r r' := by
  have hu : u32 (8 * n) = 8 * n := Nat.mod_eq_of_lt (by omega)
  obtain ⟨m, rfl⟩ : ∃ m, n = m + 1 := ⟨n - 1, by omega⟩
  obtain ⟨a, b, c, e, ha, hb, hc⟩ := three_spec s (pA := p + 8 * (m + 1)) (pB := p + 8 * (m + 1) + 8 * (m + 1))
    (pC := p + 8 * (m + 1) + 8 * (m + 1) + 8 * (m + 1)) (by omega) (by omega) (by omega) m (a := r) (b := 0) (c := 0)
    (by omega) (by omega) (by omega) (by omega)
  obtain ⟨va, ra, xa⟩ := read64_some (s := s) (a := p + 8 * (m + 1) - 8) (by omega)
  obtain ⟨vb, rb, xb⟩ := read64_some (s := s) (a := p + 8 * (m + 1) + 8 * (m + 1) - 8) (by omega)
  obtain ⟨vc, rc, xc⟩ := read64_some (s := s) (a := p + 8 * (m + 1) + 8 * (m + 1) + 8 * (m + 1) - 8) (by omega)
  obtain ⟨lo, hi, e1, e2, hent⟩ := lut_get h1 h2
  refine ⟨crc64 c (xorN 64 (fold3 lo hi (crc64 a va) (crc64 b vb)) vc), ?_, ?_⟩
  · unfold bulkStep
    simp only [hu, e, ra, rb, rc, e1, e2]
    rw [show p + 8 * (m + 1) + 8 * (m + 1) + 8 * (m + 1) = p + 24 * (m + 1) from by omega]
  · -- the three streams
    have A := Adv.trans (by omega) (by omega) ha (adv_word (r := a) xa)
    have B := Adv.trans (by omega) (by omega) hb (adv_word (r := b) xb)
    rw [show p + 8 * (m + 1) - 8 * (m + 1) = p from by omega,
      show p + 8 * (m + 1) - 8 + 8 = p + 8 * (m + 1) from by omega] at A
    rw [show p + 8 * (m + 1) + 8 * (m + 1) - 8 * (m + 1) = p + 8 * (m + 1) from by omega,
      show p + 8 * (m + 1) + 8 * (m + 1) - 8 + 8 = p + 8 * (m + 1) + 8 * (m + 1) from by omega] at B
    rw [show p + 8 * (m + 1) + 8 * (m + 1) + 8 * (m + 1) - 8 * (m + 1) = p + 8 * (m + 1) + 8 * (m + 1)
      from by omega] at hc
    refine A.trans (by omega) (by omega) ?_
    rw [Adv] at B hc ⊢
    have z0 : ev (bitsOf 0 32) = 0 := by rw [bitsOf_zero, ev_zeroes]
    have hf := fold3_spec (hi := hi) h1 hent (crc64_lt a va) (crc64_lt b vb)
    have hB := congrArg ev B
    rw [ev_advance (bitsOf_length _ _), z0, mul_zero, add_zero] at hB
    have hC := congrArg ev hc
    rw [ev_advance (bitsOf_length _ _), z0, mul_zero, add_zero] at hC
    -- the bytes of the second and third stream
    have s1 := cut_append s (a := p + 8 * (m + 1)) (b := p + 8 * (m + 1) + 8 * (m + 1)) (c := p + 24 * (m + 1))
      (by omega) (by omega)
    have s2 := cut_append s (a := p + 8 * (m + 1) + 8 * (m + 1))
      (b := p + 8 * (m + 1) + 8 * (m + 1) + 8 * (m + 1) - 8) (c := p + 24 * (m + 1)) (by omega) (by omega)
    rw [show p + 8 * (m + 1) + 8 * (m + 1) + 8 * (m + 1) - 8 + 8 = p + 24 * (m + 1) from by omega] at xc
    apply ev_inj (bitsOf_length _ _) (advance_length _ _)
    rw [ev_advance (bitsOf_length _ _), ← s1, ← s2, bitsOfBytes_append, bitsOfBytes_append, ev_append, ev_append,
      List.length_append, List.length_append, List.length_append, bits_word_length s (by omega),
      bits_word_length s (by omega), bits_word_length s (by omega), bits_crc64, ev_advance (bitsOf_length _ _), bits_xorN,
      ev_xor (by rw [bitsOf_length, bitsOf_length]), xorBits_length, bitsOf_length, bitsOf_length, Nat.min_self,
      mul_add, hf, hB, hC, xc]
    rw [show p + 24 * (m + 1) - (p + 8 * (m + 1) + 8 * (m + 1) + 8 * (m + 1) - 8) = 8 from by omega,
      show p + 8 * (m + 1) + 8 * (m + 1) - (p + 8 * (m + 1)) = 8 * (m + 1) from by omega,
      show p + 8 * (m + 1) + 8 * (m + 1) + 8 * (m + 1) - 8 - (p + 8 * (m + 1) + 8 * (m + 1)) = 8 * m from by omega,
      show 8 * (8 * (m + 1)) + (8 * (8 * m) + 8 * 8) = 128 * (m + 1) from by ring,
      show 8 * (8 * m) + 8 * 8 = 64 * (m + 1) from by ring, show 8 * 8 = 64 from rfl]
    ring

theorem bulkLoop_spec (s : List UInt8) (len : Nat) : ∀ {pA crc : Nat}, pA + len ≤ s.length →
    ∃ len' pA' crc', bulkLoop s len pA crc = some (len', pA', crc') ∧ pA' + len' = pA + len ∧ pA ≤ pA' ∧
      Adv s pA pA' crc crc' := by
  induction len using Nat.strong_induction_on with
  | _ len ih =>
    intro pA crc h
    rw [bulkLoop]
    by_cases h8 : 144 ≤ len
    · obtain ⟨c1, c2, c3, c4, c5⟩ := chunk_pos h8
      obtain ⟨r', e, hr⟩ := bulkStep_spec s (n := chunk len) (p := pA) (r := crc) c1 c4 (by omega)
      rw [dif_pos h8, e, c5]
      obtain ⟨l', p', c', e', h1, h2, h3⟩ := ih (len - 24 * chunk len) (by omega) (pA := pA + 24 * chunk len)
        (crc := r') (by omega)
      exact ⟨l', p', c', e', by omega, by omega, hr.trans (by omega) h2 h3⟩
    · rw [dif_neg h8]
      exact ⟨len, pA, crc, rfl, rfl, Nat.le_refl _, Adv.refl _ _ _⟩

theorem computeMain_spec {s : List UInt8} {i len prev : Nat} (h : i + len ≤ s.length) :
    ∃ r, computeMain s i len prev = some r ∧ Adv s i (i + len) prev r := by
  obtain ⟨l1, p1, c1, e1, h1, g1, a1⟩ := alignLoop_spec s (alignment i) (crc := prev) h
  obtain ⟨l2, p2, c2, e2, h2, g2, a2⟩ := bulkLoop_spec s l1 (pA := p1) (crc := c1) (by omega)
  obtain ⟨l3, p3, c3, e3, h3, g3, a3⟩ := wordLoop_spec s l2 (pA := p2) (crc := c2) (by omega)
  obtain ⟨r, e4, a4⟩ := byteLoop_spec s l3 (pA := p3) (crc := c3) (by omega)
  refine ⟨r, ?_, ?_⟩
  · unfold computeMain
    simp only [e1, e2, e3, e4]
  · have e : p3 + l3 = i + len := by omega
    rw [e] at a4
    exact ((a1.trans g1 g2 a2).trans (by omega) g3 a3).trans (by omega) (by omega) a4

theorem computePadded_spec {s : List UInt8} {i len : Nat} (h : i + len ≤ s.length) :
    computePadded s i len = some (padded (cut s i (i + len))) := by
  obtain ⟨r, e, a⟩ := computeMain_spec (prev := 0xffffffff) h
  have hb : bitsOf 0xffffffff 32 = ones 32 := by decide
  rw [Adv, hb] at a
  have key : packLE 4 (xorN 32 r 0xffffffff) = crc32c (cut s i (i + len)) := by
    apply bitsOfBytes_inj
    · rw [SuperblockBytes.packLE_length, crc32c]; rfl
    · rw [bits_packLE, bits_crc32c, crcBits_eq, ← a, show 8 * 4 = 32 from rfl, bits_xorN, hb]
  unfold computePadded
  rw [e]
  simp only [key, padded]

end Verif.Kv.Crc
