import Verif.Kv.CrcPoly
import Verif.Kv.CrcImpl
import Verif.Kv.ByteDisk
import Mathlib.NumberTheory.LucasLehmer
import Mathlib.GroupTheory.OrderOfElement

/-
Which damage to a sector its checksum shows. Only helper facts; the property is in Props/C68.lean.
-/
namespace Verif.Kv.Crc

open Polynomial

/-! ### Bits of numbers -/

theorem natOf_lt (l : List Bool) : natOf l < 2 ^ l.length := by
  induction l with
  | nil => decide
  | cons b l ih => rw [natOf, List.length_cons, Nat.pow_succ]; split <;> omega

theorem bitsOf_natOf (l : List Bool) : bitsOf (natOf l) l.length = l := by
  induction l with
  | nil => rfl
  | cons b l ih =>
    rw [List.length_cons, bitsOf, natOf]
    have h1 : ((if b = true then 1 else 0) + 2 * natOf l) / 2 = natOf l := by split <;> omega
    have h2 : decide (((if b = true then 1 else 0) + 2 * natOf l) % 2 = 1) = b := by
      cases b <;> simp <;> omega
    rw [h1, h2, ih]

theorem natOf_bitsOf (n len : Nat) : natOf (bitsOf n len) = n % 2 ^ len := by
  induction len generalizing n with
  | zero => simp [bitsOf, natOf, Nat.mod_one]
  | succ l ih =>
    rw [bitsOf, natOf, ih, Nat.pow_succ, Nat.mul_comm (2 ^ l) 2, Nat.mod_mul]
    have : (if decide (n % 2 = 1) = true then 1 else 0) = n % 2 := by
      have := Nat.mod_two_eq_zero_or_one n
      rcases this with h | h <;> rw [h] <;> decide
    rw [this]

theorem byteOfBits_natOf (m : List Bool) : byteOfBits m = UInt8.ofNat (natOf m) := by
  rw [byteOfBits]
  congr 1
  induction m with
  | nil => rfl
  | cons b m ih => rw [List.foldr_cons, natOf, ih]

theorem bitsOf_byteOfBits {m : List Bool} (h : m.length = 8) : bitsOf (byteOfBits m).toNat 8 = m := by
  have h1 := natOf_lt m
  rw [byteOfBits_natOf, UInt8.toNat_ofNat', Nat.mod_eq_of_lt (by rw [h] at h1; exact h1)]
  have h2 := bitsOf_natOf m
  rw [h] at h2
  exact h2

theorem bitsOfBytes_append (s t : List UInt8) : bitsOfBytes (s ++ t) = bitsOfBytes s ++ bitsOfBytes t := by
  rw [bitsOfBytes, List.flatMap_append]; rfl

theorem xorBits_append {a b c d : List Bool} (h : a.length = c.length) :
    xorBits (a ++ b) (c ++ d) = xorBits a c ++ xorBits b d := by
  unfold xorBits
  rw [List.zipWith_append h]

theorem xorBits_self (l : List Bool) : xorBits l l = zeroes l.length := by
  induction l with
  | nil => rfl
  | cons b l ih =>
    rw [xorBits] at ih
    rw [xorBits, List.zipWith_cons_cons, ih, List.length_cons, zeroes, zeroes, List.replicate_succ]
    simp

theorem xorBits_zero : ∀ {p q : List Bool}, p.length = q.length → xorBits p q = zeroes p.length → p = q
  | [], [], _, _ => rfl
  | a :: p, b :: q, hl, h => by
    rw [xorBits, List.zipWith_cons_cons, List.length_cons, zeroes, List.replicate_succ] at h
    injection h with h1 h2
    rw [xorBits_zero (by simpa using hl) h2]
    have : a = b := by cases a <;> cases b <;> first | rfl | exact absurd h1 (by decide)
    rw [this]

theorem bitsOf_inj {n m len : Nat} (hn : n < 2 ^ len) (hm : m < 2 ^ len)
    (h : bitsOf n len = bitsOf m len) : n = m := by
  have h1 := natOf_bitsOf n len
  have h2 := natOf_bitsOf m len
  rw [h, Nat.mod_eq_of_lt hn] at h1
  rw [Nat.mod_eq_of_lt hm] at h2
  exact h1.symm.trans h2

theorem bitsOfBytes_inj : ∀ {s t : List UInt8}, s.length = t.length → bitsOfBytes s = bitsOfBytes t → s = t
  | [], [], _, _ => rfl
  | a :: s, b :: t, hl, h => by
    rw [bitsOfBytes, bitsOfBytes, List.flatMap_cons, List.flatMap_cons] at h
    have h1 := List.append_inj h (by rw [bitsOf_length, bitsOf_length])
    rw [bitsOfBytes_inj (s := s) (t := t) (by simpa using hl) h1.2]
    have := bitsOf_inj (UInt8.toNat_lt a) (UInt8.toNat_lt b) h1.1
    rw [UInt8.toNat_inj.mp this]

/-! ### The checksum as a residue -/

theorem crcBits_eq (s : List UInt8) :
    crcBits s = xorBits (advance (ones 32) (bitsOfBytes s)) (ones 32) := by
  rw [crcBits, advance]
  have h1 : (ones 32).reverse = ones 32 := List.reverse_replicate
  have h2 : (zeroes 32 ++ (bitsOfBytes s).reverse).length - 32 = (bitsOfBytes s).length := by
    rw [List.length_append, zeroes_length, List.length_reverse]; omega
  simp only [h2, shift, h1]

theorem crcBits_length (s : List UInt8) : (crcBits s).length = 32 := by
  rw [crcBits_eq, xorBits_length, advance_length, ones_length]; rfl

theorem ev_crcBits (s : List UInt8) :
    ev (crcBits s) = x ^ 32 * ev (bitsOfBytes s) + x ^ (8 * s.length) * ev (ones 32) + ev (ones 32) := by
  rw [crcBits_eq, ev_xor (by rw [advance_length, ones_length]), ev_advance (ones_length _), bitsOfBytes_length]

theorem bits_crc32c (s : List UInt8) : bitsOfBytes (crc32c s) = crcBits s := by
  have hl := crcBits_length s
  rw [crc32c, bitsOfBytes]
  simp only [List.flatMap_cons, List.flatMap_nil, List.append_nil]
  rw [bitsOf_byteOfBits (by rw [List.length_take]; omega),
    bitsOf_byteOfBits (by rw [List.length_take, List.length_drop]; omega),
    bitsOf_byteOfBits (by rw [List.length_take, List.length_drop]; omega),
    bitsOf_byteOfBits (by rw [List.length_take, List.length_drop]; omega)]
  have h3 : (List.drop 24 (crcBits s)).take 8 = List.drop 24 (crcBits s) :=
    List.take_of_length_le (by rw [List.length_drop]; omega)
  have e1 := List.take_append_drop 8 (crcBits s)
  have e2 := List.take_append_drop 8 ((crcBits s).drop 8)
  have e3 := List.take_append_drop 8 ((crcBits s).drop 16)
  rw [List.drop_drop] at e2 e3
  rw [h3, e3, e2, e1]

theorem bits_padded (s : List UInt8) : bitsOfBytes (padded s) = crcBits s ++ zeroes 224 := by
  rw [padded, bitsOfBytes_append, bits_crc32c]
  have h : ∀ n, bitsOfBytes (List.replicate n 0) = zeroes (8 * n) := by
    intro n
    induction n with
    | zero => rfl
    | succ n ih =>
      rw [List.replicate_succ, bitsOfBytes, List.flatMap_cons]
      rw [bitsOfBytes] at ih
      rw [ih, show bitsOf (0 : UInt8).toNat 8 = zeroes 8 from by decide, zeroes, zeroes, zeroes,
        List.replicate_append_replicate]
      congr 1
      omega
  rw [h]

/-- The bits of a sector whose checksum is right. -/
theorem bits_checks {s : List UInt8} (h : ByteDisk.Checks padded s) :
    bitsOfBytes s = crcBits (s.drop 32) ++ zeroes 224 ++ bitsOfBytes (s.drop 32) := by
  conv_lhs => rw [← List.take_append_drop 32 s]
  rw [bitsOfBytes_append, h.2, bits_padded]

theorem two_zero : (2 : Res) = 0 := by
  have h : (2 : (ZMod 2)[X]) = 0 := by
    have h1 : (C (2 : ZMod 2) : (ZMod 2)[X]) = 2 := C_ofNat 2
    rw [← h1, show (2 : ZMod 2) = 0 from by decide, C_0]
  have := congrArg φ h
  rwa [map_ofNat, map_zero] at this

theorem add_self (a : Res) : a + a = 0 := by
  rw [← two_mul, two_zero, zero_mul]

theorem eq_of_add_zero {a b : Res} (h : a + b = 0) : a = b := by
  have : a + b + b = b := by rw [h, zero_add]
  rwa [add_assoc, add_self, add_zero] at this

/-- What two payloads of the same length and right checksums differ in, followed by what their checksums
differ in, is a multiple of the polynomial. -/
theorem diff_zero {s t : List UInt8} (hl : s.length = t.length) :
    ev (xorBits (bitsOfBytes s) (bitsOfBytes t) ++ xorBits (crcBits s) (crcBits t)) = 0 := by
  have h1 : (bitsOfBytes s).length = (bitsOfBytes t).length := by
    rw [bitsOfBytes_length, bitsOfBytes_length, hl]
  have h2 : (crcBits s).length = (crcBits t).length := by rw [crcBits_length, crcBits_length]
  rw [ev_append, ev_xor h1, ev_xor h2, ev_crcBits, ev_crcBits, hl, xorBits_length, crcBits_length, crcBits_length,
    Nat.min_self]
  have e := two_zero
  linear_combination (x ^ 32 * ev (bitsOfBytes s) + x ^ 32 * ev (bitsOfBytes t)
    + x ^ (8 * t.length) * ev (ones 32) + ev (ones 32)) * e

/-! ### The unknown is a unit -/

/-- The inverse of the unknown: the polynomial without its constant term, divided by the unknown. -/
theorem x_unit : ∃ y : Res, y * x = 1 := by
  refine ⟨φ (toPoly poly.tail), ?_⟩
  have h : P = 1 + X * toPoly poly.tail := by
    rw [P, show poly = true :: poly.tail from by decide, toPoly]
    simp [b2]
  have h1 := congrArg φ h
  rw [φ_P, map_add, map_one, map_mul] at h1
  have h2 : (1 : Res) + x * φ (toPoly poly.tail) = 0 := h1.symm
  rw [mul_comm]
  exact (eq_of_add_zero h2).symm

theorem x_pow_cancel {n : Nat} {a : Res} (h : x ^ n * a = 0) : a = 0 := by
  obtain ⟨y, hy⟩ := x_unit
  have h1 : y ^ n * (x ^ n * a) = 0 := by rw [h, mul_zero]
  rwa [← mul_assoc, ← mul_pow, hy, one_pow, one_mul] at h1

theorem ev_zero_of_length {l : List Bool} (hl : l.length ≤ 32) (h : ev l = 0) : l = zeroes l.length := by
  have h1 : zeroes (32 - l.length) ++ l = zeroes 32 := by
    apply ev_inj
    · rw [List.length_append, zeroes_length]; omega
    · exact zeroes_length _
    · rw [ev_append, ev_zeroes, h, ev_zeroes, mul_zero, add_zero]
  have h2 : zeroes 32 = zeroes (32 - l.length) ++ zeroes l.length := by
    rw [zeroes, zeroes, zeroes, List.replicate_append_replicate]
    congr 1
    omega
  rw [h2] at h1
  exact List.append_cancel_left h1

/-- A string of bits that vanishes outside 32 consecutive ones and is a multiple of the polynomial vanishes. -/
theorem burst_zero {l : List Bool} {k : Nat} (h : ev l = 0)
    (hk : ∀ i (hi : i < l.length), l[i] = true → k ≤ i ∧ i < k + 32) : l = zeroes l.length := by
  have h1 : l.take k = zeroes (l.take k).length := by
    refine List.eq_replicate_of_mem fun b hb => ?_
    obtain ⟨i, hi, rfl⟩ := List.mem_iff_getElem.mp hb
    rw [List.getElem_take]
    rw [List.length_take] at hi
    cases e : l[i]
    · rfl
    · have := hk i (by omega) e; omega
  have h2 : l.drop (k + 32) = zeroes (l.drop (k + 32)).length := by
    refine List.eq_replicate_of_mem fun b hb => ?_
    obtain ⟨i, hi, rfl⟩ := List.mem_iff_getElem.mp hb
    rw [List.getElem_drop]
    rw [List.length_drop] at hi
    cases e : l[k + 32 + i]
    · rfl
    · have := hk (k + 32 + i) (by omega) e; omega
  have e1 := List.take_append_drop k l
  have e2 := List.take_append_drop 32 (l.drop k)
  rw [List.drop_drop] at e2
  have h3 : ev ((l.drop k).take 32) = 0 := by
    rw [← e1, ← e2, ev_append, h1, ev_zeroes, mul_zero, add_zero, ev_append, h2, ev_zeroes, zero_add] at h
    exact x_pow_cancel h
  have h4 := ev_zero_of_length (by rw [List.length_take]; omega) h3
  have h5 : l = zeroes (l.take k).length ++ (zeroes ((l.drop k).take 32).length ++ zeroes (l.drop (k + 32)).length) := by
    rw [← h4, ← h2, ← h1, e2, e1]
  conv_lhs => rw [h5]
  rw [zeroes, zeroes, zeroes, zeroes, List.replicate_append_replicate, List.replicate_append_replicate]
  congr 1
  have := congrArg List.length e1
  have h6 := congrArg List.length e2
  rw [List.length_append] at this h6
  omega

/-! ### Parity -/

theorem P_at_one : P.eval 1 = 0 := by
  have h : ∀ l : List Bool, (toPoly l).eval 1 = (l.map b2).sum := by
    intro l
    induction l with
    | nil => simp [toPoly]
    | cons b l ih => rw [toPoly, eval_add, eval_C, eval_mul, eval_X, ih, one_mul, List.map_cons, List.sum_cons]
  rw [P, h]
  decide

/-- The value of a residue at one. -/
noncomputable def atOne : Res →+* ZMod 2 :=
  AdjoinRoot.lift (RingHom.id _) 1 (by rw [eval₂_id]; exact P_at_one)

theorem atOne_x : atOne x = 1 := AdjoinRoot.lift_root _

theorem atOne_ev (l : List Bool) : atOne (ev l) = (l.count true : ZMod 2) := by
  induction l using List.reverseRecOn with
  | nil => rw [ev_nil, map_zero]; rfl
  | append_singleton l b ih =>
    rw [ev_append, map_add, map_mul, map_pow, atOne_x, one_pow, one_mul, ih, List.count_append]
    have : atOne (ev [b]) = (([b] : List Bool).count true : ZMod 2) := by
      rw [ev, List.reverse_singleton, toPoly, toPoly, mul_zero, add_zero]
      cases b
      · rw [b2, if_neg (by decide), C_0, map_zero, map_zero]; decide
      · rw [b2, if_pos rfl, C_1, map_one, map_one]; decide
    rw [this, Nat.cast_add, add_comm]

theorem even_of_ev_zero {l : List Bool} (h : ev l = 0) : l.count true % 2 = 0 := by
  have h1 := atOne_ev l
  rw [h, map_zero] at h1
  have := (ZMod.natCast_eq_zero_iff _ _).mp h1.symm
  omega

/-! ### The order of the unknown -/

/-- The polynomial without its leading term, highest coefficient first. -/
def low : List Bool := (bitsOf 0x1EDC6F41 32).reverse

/-- One more bit, highest first, into a register of 32. -/
def feed1 (acc : List Bool) (b : Bool) : List Bool :=
  match acc with
  | [] => []
  | true :: t => xorBits (t ++ [b]) low
  | false :: t => t ++ [b]

theorem feed1_length {acc : List Bool} (h : acc.length = 32) (b : Bool) : (feed1 acc b).length = 32 := by
  match acc, h with
  | true :: t, h =>
    rw [feed1, xorBits_length, List.length_append]
    have : low.length = 32 := rfl
    rw [this]
    simp at h ⊢
    omega
  | false :: t, h => rw [feed1]; simpa using h

theorem x32 : x ^ 32 = ev low := by
  have h := congrArg φ P_eq
  rw [φ_P, map_add, map_pow] at h
  have h := h.symm
  rw [ev, low, List.reverse_reverse]
  exact eq_of_add_zero h

theorem ev_bit (b : Bool) : ev [b] = if b then 1 else 0 := by
  rw [ev, List.reverse_singleton, toPoly, toPoly, mul_zero, add_zero]
  cases b
  · rw [b2, if_neg (by decide), C_0, map_zero]; rfl
  · rw [b2, if_pos rfl, C_1, map_one]; rfl

theorem ev_snoc (l : List Bool) (b : Bool) : ev (l ++ [b]) = (if b then 1 else 0) + x * ev l := by
  rw [ev_append, ev_bit, List.length_singleton, pow_one]

theorem ev_feed1 {acc : List Bool} (h : acc.length = 32) (b : Bool) :
    ev (feed1 acc b) = (if b then 1 else 0) + x * ev acc := by
  match acc, h with
  | true :: t, h =>
    have ht : t.length = 31 := by simpa using h
    rw [feed1, ev_xor (by rw [List.length_append, ht]; rfl), ev_snoc, ← x32,
      show true :: t = [true] ++ t from rfl, ev_append, ht, ev_bit, if_pos rfl]
    ring
  | false :: t, h =>
    rw [feed1, ev_snoc, show false :: t = [false] ++ t from rfl, ev_append, ev_bit]
    simp

/-- Square of a register of 32 bits. -/
def square (l : List Bool) : List Bool := l.foldl (fun acc b => feed1 (feed1 acc false) b) (zeroes 32)

theorem square_spec (l : List Bool) : (square l).length = 32 ∧ ev (square l) = ev l ^ 2 := by
  unfold square
  induction l using List.reverseRecOn with
  | nil =>
    refine ⟨rfl, ?_⟩
    rw [List.foldl_nil, ev_zeroes, ev_nil]
    ring
  | append_singleton l b ih =>
    rw [List.foldl_append, List.foldl_cons, List.foldl_nil]
    have h1 := feed1_length ih.1 false
    refine ⟨feed1_length h1 b, ?_⟩
    rw [ev_feed1 h1, ev_feed1 ih.1, ih.2, ev_snoc]
    cases b
    · simp only [Bool.false_eq_true, if_false]; ring
    · simp only [Bool.false_eq_true, if_false, if_true]
      linear_combination (-(x * ev l)) * two_zero

/-- `2 ^ n`-th power. -/
def squares : Nat → List Bool → List Bool
  | 0, l => l
  | n + 1, l => squares n (square l)

theorem squares_ev (n : Nat) (l : List Bool) : ev (squares n l) = ev l ^ (2 ^ n) := by
  induction n generalizing l with
  | zero => rw [squares]; simp
  | succ n ih => rw [squares, ih, (square_spec l).2, ← pow_mul, Nat.pow_succ, Nat.mul_comm]

/-- The unknown, highest coefficient first. -/
def theX : List Bool := zeroes 30 ++ [true, false]

theorem ev_theX : ev theX = x := by
  rw [theX, ev_append, ev_zeroes, mul_zero, add_zero, show [true, false] = [true] ++ [false] from rfl, ev_snoc, ev_bit]
  simp

theorem squares_31 : squares 31 theX = theX := by decide +kernel

theorem x_pow_order : x ^ (2 ^ 31 - 1) = 1 := by
  have h := squares_ev 31 theX
  rw [squares_31, ev_theX] at h
  obtain ⟨y, hy⟩ := x_unit
  have h1 : y * x ^ (2 ^ 31) = x ^ (2 ^ 31 - 1) := by
    rw [show (2 : Nat) ^ 31 = (2 ^ 31 - 1) + 1 from rfl, pow_succ, mul_comm (x ^ _) x, ← mul_assoc, hy, one_mul]
    rfl
  rw [← h1, ← h, hy]

theorem mersenne_31 : Nat.Prime (2 ^ 31 - 1) :=
  lucas_lehmer_sufficiency 31 (by decide) (by norm_num)

theorem x_ne_one : x ≠ 1 := by
  intro h
  have h1 : ev theX = ev (zeroes 31 ++ [true]) := by
    rw [ev_theX, h, ev_snoc, ev_zeroes]; simp
  exact absurd (ev_inj (by decide) (by decide) h1) (by decide)

/-- No power of the unknown below `2 ^ 31 - 1` is one. -/
theorem x_pow_ne_one {n : Nat} (h0 : 0 < n) (hn : n < 2 ^ 31 - 1) : x ^ n ≠ 1 := by
  intro h
  have h1 := orderOf_eq_prime (p := 2 ^ 31 - 1) (hp := ⟨mersenne_31⟩) x_pow_order x_ne_one
  have h2 := orderOf_dvd_of_pow_eq_one h
  rw [h1] at h2
  have := Nat.le_of_dvd h0 h2
  omega

/-- A string of bits with exactly two ones, not too far apart, is not a multiple of the polynomial. -/
theorem two_ones {l : List Bool} (hl : l.length < 2 ^ 31) (h : ev l = 0) : l.count true ≠ 2 := by
  intro hc
  have hm : true ∈ l := List.count_pos_iff.mp (by omega)
  obtain ⟨a, b, rfl⟩ := List.append_of_mem hm
  -- the first and the second one
  have split1 : ∀ l : List Bool, true ∈ l → ∃ a b, l = zeroes a ++ true :: b := by
    intro l
    induction l with
    | nil => intro h; cases h
    | cons c l ih =>
      intro h
      cases c with
      | true => exact ⟨0, l, rfl⟩
      | false =>
        obtain ⟨a, b, e⟩ := ih (by simpa using h)
        exact ⟨a + 1, b, by rw [e]; rfl⟩
  obtain ⟨i, r, e⟩ := split1 _ hm
  rw [e] at h hc hl
  have hz : ∀ n, (zeroes n).count true = 0 := fun n => by rw [zeroes, List.count_replicate]; rfl
  rw [List.count_append, hz, List.count_cons_self] at hc
  obtain ⟨j, q, e2⟩ := split1 r (List.count_pos_iff.mp (by omega))
  rw [e2] at h hc hl
  rw [List.count_append, hz, List.count_cons_self] at hc
  have hq : q = zeroes q.length := by
    refine List.eq_replicate_of_mem fun b hb => ?_
    cases b
    · rfl
    · have := List.count_pos_iff.mpr hb; omega
  rw [ev_append, ev_zeroes, mul_zero, add_zero, show true :: (zeroes j ++ true :: q) =
      [true] ++ (zeroes j ++ ([true] ++ q)) from rfl, ev_append, ev_append, ev_append, hq, ev_zeroes, ev_zeroes,
    ev_bit, if_pos rfl] at h
  simp only [List.length_append, zeroes_length, List.length_singleton, mul_zero, add_zero, zero_add,
    mul_one, List.length_cons] at h hl
  have h3 : x ^ q.length * (1 + x ^ (j + 1)) = 0 := by
    rw [mul_add, mul_one, ← pow_add]
    rw [show q.length + (j + 1) = j + (1 + q.length) from by omega]
    exact h
  have h4 := (eq_of_add_zero (x_pow_cancel h3)).symm
  exact x_pow_ne_one (by omega) (by omega) h4

/-! ### Sectors -/

/-- The bits in which two strings of bytes differ. -/
def diff (s t : List UInt8) : List Bool := xorBits (bitsOfBytes s) (bitsOfBytes t)

theorem diff_length {s t : List UInt8} (h : s.length = t.length) : (diff s t).length = 8 * s.length := by
  rw [diff, xorBits_length, bitsOfBytes_length, bitsOfBytes_length, h, Nat.min_self]

theorem eq_of_diff {s t : List UInt8} (hl : s.length = t.length) (h : diff s t = zeroes (8 * s.length)) :
    s = t := by
  apply bitsOfBytes_inj hl
  apply xorBits_zero
  · rw [bitsOfBytes_length, bitsOfBytes_length, hl]
  · rw [bitsOfBytes_length]; exact h

theorem diff_checks {s t : List UInt8} (hl : s.length = t.length) (hs : ByteDisk.Checks padded s)
    (ht : ByteDisk.Checks padded t) : ∃ d dc : List Bool, dc.length = 32 ∧ d.length = 8 * s.length - 256 ∧
      diff s t = dc ++ zeroes 224 ++ d ∧ ev (d ++ dc) = 0 := by
  refine ⟨diff (s.drop 32) (t.drop 32), xorBits (crcBits (s.drop 32)) (crcBits (t.drop 32)), ?_, ?_, ?_, ?_⟩
  · rw [xorBits_length, crcBits_length, crcBits_length]; rfl
  · rw [diff_length (by rw [List.length_drop, List.length_drop, hl]), List.length_drop]; omega
  · rw [diff, bits_checks hs, bits_checks ht, xorBits_append, xorBits_append, xorBits_self, zeroes_length]
    · rfl
    · rw [crcBits_length, crcBits_length]
    · rw [List.length_append, List.length_append, crcBits_length, crcBits_length]
  · exact diff_zero (by rw [List.length_drop, List.length_drop, hl])

theorem zeroes_of_none {l : List Bool} (h : ∀ i (hi : i < l.length), l[i] ≠ true) : l = zeroes l.length := by
  refine List.eq_replicate_of_mem fun b hb => ?_
  obtain ⟨i, hi, rfl⟩ := List.mem_iff_getElem.mp hb
  exact Bool.eq_false_iff.mpr (h i hi)

theorem same_of_burst {s t : List UInt8} (hl : s.length = t.length) (hs : ByteDisk.Checks padded s)
    (ht : ByteDisk.Checks padded t) {k : Nat}
    (hk : ∀ i (hi : i < (diff s t).length), (diff s t)[i] = true → k ≤ i ∧ i < k + 32) : s = t := by
  obtain ⟨d, dc, h1, h2, h3, h4⟩ := diff_checks hl hs ht
  apply eq_of_diff hl
  have h32 : 32 ≤ s.length := hs.1
  rw [← diff_length hl]
  have hd : ∀ j (hj : j < d.length), d[j] = true → k ≤ 256 + j ∧ 256 + j < k + 32 := by
    intro j hj e
    have hlt : 256 + j < (diff s t).length := by rw [diff_length hl]; omega
    refine hk (256 + j) hlt ?_
    simp only [h3]
    rw [List.getElem_append_right (by rw [List.length_append, zeroes_length, h1]; omega)]
    have : 256 + j - (dc ++ zeroes 224).length = j := by rw [List.length_append, zeroes_length, h1]; omega
    simp only [this]
    exact e
  have hdc : ∀ j (hj : j < dc.length), dc[j] = true → k ≤ j ∧ j < k + 32 := by
    intro j hj e
    have hlt : j < (diff s t).length := by rw [diff_length hl]; omega
    refine hk j hlt ?_
    simp only [h3]
    rw [List.getElem_append_left (by rw [List.length_append]; omega), List.getElem_append_left hj]
    exact e
  have hz : d = zeroes d.length ∧ dc = zeroes dc.length := by
    by_cases hc : ∃ j, ∃ hj : j < dc.length, dc[j] = true
    · obtain ⟨j, hj, e⟩ := hc
      have hj' := hdc j hj e
      have h5 : d = zeroes d.length := zeroes_of_none fun i hi ei => by have := hd i hi ei; omega
      refine ⟨h5, ev_zero_of_length (by omega) ?_⟩
      rw [ev_append, h5, ev_zeroes, mul_zero, add_zero] at h4
      exact h4
    · have h5 : dc = zeroes dc.length := zeroes_of_none fun i hi ei => hc ⟨i, hi, ei⟩
      refine ⟨burst_zero (k := k - 256) ?_ fun i hi ei => by have := hd i hi ei; omega, h5⟩
      rw [ev_append, h5, ev_zeroes, zero_add] at h4
      exact x_pow_cancel h4
  rw [h3, hz.1, hz.2, zeroes, zeroes, zeroes, zeroes, List.replicate_append_replicate,
    List.replicate_append_replicate, List.length_replicate]

theorem count_diff {s t : List UInt8} (hl : s.length = t.length) (hs : ByteDisk.Checks padded s)
    (ht : ByteDisk.Checks padded t) : ∃ w : List Bool, w.length = 8 * s.length - 224 ∧
      w.count true = (diff s t).count true ∧ ev w = 0 := by
  obtain ⟨d, dc, h1, h2, h3, h4⟩ := diff_checks hl hs ht
  have h32 : 32 ≤ s.length := hs.1
  refine ⟨d ++ dc, by rw [List.length_append]; omega, ?_, h4⟩
  rw [h3, List.count_append, List.count_append, List.count_append]
  have : (zeroes 224).count true = 0 := by rw [zeroes, List.count_replicate]; rfl
  omega

theorem even_flips {s t : List UInt8} (hl : s.length = t.length) (hs : ByteDisk.Checks padded s)
    (ht : ByteDisk.Checks padded t) : (diff s t).count true % 2 = 0 := by
  obtain ⟨w, _, h1, h2⟩ := count_diff hl hs ht
  rw [← h1]
  exact even_of_ev_zero h2

theorem same_of_few {s t : List UInt8} (hl : s.length = t.length) (hs : ByteDisk.Checks padded s)
    (ht : ByteDisk.Checks padded t) (hlen : s.length ≤ 2 ^ 28) (h : (diff s t).count true ≤ 3) : s = t := by
  have h1 := even_flips hl hs ht
  obtain ⟨w, hw, h2, h3⟩ := count_diff hl hs ht
  have h4 := two_ones (by omega) h3
  have h5 : (diff s t).count true = 0 := by omega
  apply eq_of_diff hl
  rw [← diff_length hl]
  exact zeroes_of_none fun i hi e => by
    have := List.count_pos_iff.mpr (e ▸ List.getElem_mem hi : true ∈ diff s t)
    omega

/-! ### Slices -/

theorem bitsOfBytes_take (s : List UInt8) (j : Nat) : bitsOfBytes (s.take j) = (bitsOfBytes s).take (8 * j) := by
  rcases Nat.le_total j s.length with h | h
  · conv_rhs => rw [← List.take_append_drop j s, bitsOfBytes_append]
    rw [List.take_left']
    rw [bitsOfBytes_length, List.length_take]
    omega
  · rw [List.take_of_length_le h, List.take_of_length_le (by rw [bitsOfBytes_length]; omega)]

theorem bitsOfBytes_drop (s : List UInt8) (j : Nat) : bitsOfBytes (s.drop j) = (bitsOfBytes s).drop (8 * j) := by
  rcases Nat.le_total j s.length with h | h
  · conv_rhs => rw [← List.take_append_drop j s, bitsOfBytes_append]
    rw [List.drop_left']
    rw [bitsOfBytes_length, List.length_take]
    omega
  · rw [List.drop_eq_nil_of_le h, List.drop_eq_nil_of_le (by rw [bitsOfBytes_length]; omega)]
    rfl

theorem diff_slice (s t : List UInt8) (i j : Nat) :
    diff ((s.take j).drop i) ((t.take j).drop i) = ((diff s t).take (8 * j)).drop (8 * i) := by
  rw [diff, diff, bitsOfBytes_drop, bitsOfBytes_drop, bitsOfBytes_take, bitsOfBytes_take]
  unfold xorBits
  rw [List.take_zipWith, List.drop_zipWith]

end Verif.Kv.Crc
