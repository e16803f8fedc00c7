import Verif.Kv.CrcImplProof
import Verif.Props.C68
/-
C69. The checksum is CRC-32C, and the code that computes it three streams at a time computes it.

Specification: CRC-32C as it is defined everywhere else, bit by bit with the reflected polynomial 0x82F63B78,
below.
-/
namespace Verif.C69
open Verif.Kv
open Verif.Kv.Crc (padded computePadded)
open Verif.Kv.SuperblockBytes (packLE)

/-- One bit of the data into the register. -/
def step (r : Nat) (b : Bool) : Nat := if (r.testBit 0 != b) = true then (r / 2) ^^^ 0x82F63B78 else r / 2

/-- The eight bits of a byte, lowest first. -/
def byte (r : Nat) (c : UInt8) : Nat := (List.range 8).foldl (fun r i => step r (c.toNat.testBit i)) r

/-- CRC-32C of a string of bytes. -/
def crc (s : List UInt8) : Nat := s.foldl byte 0xffffffff ^^^ 0xffffffff

/-- The value everybody checks an implementation with: that of the nine digits "123456789". -/
theorem check_value : crc [0x31, 0x32, 0x33, 0x34, 0x35, 0x36, 0x37, 0x38, 0x39] = 0xE3069283 := by
  decide +kernel

theorem bits_xor (a b w : Nat) : Crc.bitsOf (a ^^^ b) w = Crc.xorBits (Crc.bitsOf a w) (Crc.bitsOf b w) := by
  apply List.ext_getElem
  · rw [Crc.xorBits_length, Crc.bitsOf_length, Crc.bitsOf_length, Crc.bitsOf_length, Nat.min_self]
  · intro i h1 h2
    simp only [Crc.xorBits, List.getElem_zipWith, C68.bitsOf_get]
    rw [Nat.testBit_xor]

theorem step_bits {r : Nat} (h : r < 2 ^ 32) (b : Bool) :
    step r b < 2 ^ 32 ∧ Crc.bitsOf (step r b) 32 = Crc.advance (Crc.bitsOf r 32) [b] := by
  constructor
  · unfold step
    split
    · exact Nat.xor_lt_two_pow (by omega) (by decide)
    · omega
  · apply Crc.ev_inj (Crc.bitsOf_length _ _) (Crc.advance_length _ _)
    rw [Crc.ev_advance (Crc.bitsOf_length _ _), List.length_singleton, pow_one, Crc.ev_bit]
    have h1 : Crc.bitsOf (r / 2) 32 = Crc.bitsOf (r / 2) 31 ++ [false] := by
      have := Crc.bitsOf_add (a := r / 2) (n := 0) (k := 31) (m := 1) (by omega)
      rw [Nat.mul_zero, Nat.add_zero] at this
      exact this
    have h2 : Crc.bitsOf r 32 = [decide (r % 2 = 1)] ++ Crc.bitsOf (r / 2) 31 := rfl
    have h3 : Crc.ev (Crc.bitsOf (r / 2) 32) = Crc.x * Crc.ev (Crc.bitsOf (r / 2) 31) := by
      rw [h1, Crc.ev_snoc]; simp
    unfold step
    rw [h2, Crc.ev_append, Crc.bitsOf_length, Crc.ev_bit, Nat.testBit_zero]
    have t := Crc.two_zero
    have hx : Crc.ev (Crc.xorBits (Crc.bitsOf (r / 2) 32) (Crc.bitsOf 0x82F63B78 32)) =
        Crc.ev (Crc.bitsOf (r / 2) 32) + Crc.x ^ 32 := by
      rw [Crc.ev_xor (by rw [Crc.bitsOf_length, Crc.bitsOf_length]), Crc.low_eq, Crc.x32]
    cases e : decide (r % 2 = 1) <;> cases b <;>
      simp only [Bool.false_eq_true, if_false, if_true, bne_self_eq_false, Bool.true_bne, Bool.false_bne,
        Bool.not_false, bits_xor, hx, h3]
    · ring
    · ring
    · ring
    · linear_combination (-Crc.x ^ 32) * t

theorem byte_bits {r : Nat} (h : r < 2 ^ 32) (c : UInt8) :
    byte r c < 2 ^ 32 ∧ Crc.bitsOf (byte r c) 32 = Crc.advance (Crc.bitsOf r 32) (Crc.bitsOf c.toNat 8) := by
  have gen : ∀ (l : List Nat) (r : Nat), r < 2 ^ 32 →
      l.foldl (fun r i => step r (c.toNat.testBit i)) r < 2 ^ 32 ∧
      Crc.bitsOf (l.foldl (fun r i => step r (c.toNat.testBit i)) r) 32 =
        Crc.advance (Crc.bitsOf r 32) (l.map c.toNat.testBit) := by
    intro l
    induction l with
    | nil => intro r h; exact ⟨h, (Crc.advance_nil (Crc.bitsOf_length _ _)).symm⟩
    | cons i l ih =>
      intro r h
      obtain ⟨h1, h2⟩ := step_bits h (c.toNat.testBit i)
      obtain ⟨h3, h4⟩ := ih _ h1
      refine ⟨h3, ?_⟩
      rw [List.foldl_cons, h4, h2, Crc.advance_advance (Crc.bitsOf_length _ _)]
      rfl
  have e : (List.range 8).map c.toNat.testBit = Crc.bitsOf c.toNat 8 := by
    apply List.ext_getElem
    · rw [List.length_map, List.length_range, Crc.bitsOf_length]
    · intro i h1 h2
      rw [List.getElem_map, List.getElem_range, C68.bitsOf_get]
  have := gen (List.range 8) r h
  rw [e] at this
  exact this

theorem fold_bits (s : List UInt8) : ∀ {r : Nat}, r < 2 ^ 32 → s.foldl byte r < 2 ^ 32 ∧
    Crc.bitsOf (s.foldl byte r) 32 = Crc.advance (Crc.bitsOf r 32) (Crc.bitsOfBytes s) := by
  induction s with
  | nil => intro r h; exact ⟨h, (Crc.advance_nil (Crc.bitsOf_length _ _)).symm⟩
  | cons c s ih =>
    intro r h
    obtain ⟨h1, h2⟩ := byte_bits h c
    obtain ⟨h3, h4⟩ := ih h1
    refine ⟨h3, ?_⟩
    rw [List.foldl_cons, h4, h2, Crc.advance_advance (Crc.bitsOf_length _ _)]
    rfl

/-- **The definition is CRC-32C**: the checksum defined by the remainder of polynomials is the four bytes of the
bitwise one, the lowest first, and 28 bytes zero. -/
theorem definition (s : List UInt8) : padded s = packLE 4 (crc s) ++ List.replicate 28 0 := by
  have hb : Crc.bitsOf 0xffffffff 32 = Crc.ones 32 := by decide
  rw [padded]
  congr 1
  apply Crc.bitsOfBytes_inj
  · rw [SuperblockBytes.packLE_length, Crc.crc32c]; rfl
  · rw [Crc.bits_crc32c, Crc.bits_packLE, crc, show 8 * 4 = 32 from rfl, bits_xor,
      (fold_bits s (by decide)).2, Crc.crcBits_eq, hb]

/-- **The code computes it** of any part of an array, wherever it begins and however long it is, and reads
nothing outside. -/
theorem computes (s : List UInt8) (i len : Nat) (h : i + len ≤ s.length) :
    computePadded s i len = some (packLE 4 (crc ((s.drop i).take len)) ++ List.replicate 28 0) := by
  rw [Crc.computePadded_spec h, definition, Crc.cut, show i + len - i = len from by omega]

/-- The same of the definition that the checksum of a sector is compared with. -/
theorem computes_padded (s : List UInt8) : computePadded s 0 s.length = some (padded s) := by
  rw [Crc.computePadded_spec (by omega), Crc.cut, List.drop_zero, Nat.zero_add, Nat.sub_zero, List.take_length]

/-- **The table**: entry `n - 1`, for `n` up to 256, holds the residues of the powers `128 n - 33` and `64 n - 33`
of the unknown, as the join of the streams needs. -/
theorem table {n : Nat} (h1 : 1 ≤ n) (h2 : n ≤ 256) : ∃ a b v, Crc.lut[n - 1]? = some v ∧ v = b * 2 ^ 32 + a ∧
    a < 2 ^ 32 ∧ b < 2 ^ 32 ∧ Crc.ev (Crc.bitsOf a 32) = Crc.x ^ (128 * n - 33) ∧
    Crc.ev (Crc.bitsOf b 32) = Crc.x ^ (64 * n - 33) := by
  obtain ⟨lo, hi, e1, _, a, b, rfl, ⟨ha, ea⟩, hb, eb⟩ := Crc.lut_get h1 h2
  refine ⟨a, b, _, e1, rfl, ha, hb, ?_, ?_⟩
  · rw [ea, show 128 * n - 33 = 128 * (n - 1) + 95 from by omega]
  · rw [eb, show 64 * n - 33 = 64 * (n - 1) + 31 from by omega]

/-- The demonstration: five thousand bytes from the third on, which the code takes in all four loops. -/
theorem demo : computePadded (List.replicate 5003 0x61) 3 5000 =
    some (packLE 4 (crc (List.replicate 5000 0x61)) ++ List.replicate 28 0) ∧
    Crc.alignment 3 = 5 ∧ Crc.chunk 4995 = 208 ∧ (4995 - 24 * 208) = 3 := by
  refine ⟨?_, by decide, by decide, by decide⟩
  rw [computes _ _ _ (by rw [List.length_replicate]), List.drop_replicate, List.take_replicate,
    show min 5000 (5003 - 3) = 5000 from by decide]

end Verif.C69
