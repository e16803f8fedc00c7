/-
`CRC32_C` (lib/Checksums/CRC32C.s.dfy) over `F2_X_s` (lib/Lang/System/F2_X.s.dfy) and `Bits_s`
(lib/Lang/System/Bits.s.dfy): the checksum of every sector and of every block of the journal, as a remainder
of polynomials over the field of two elements. A polynomial is the list of its coefficients, lowest first.
-/
namespace Verif.Kv.Crc

/-- `bits_of_int`, Bits.s.dfy:14-21 -/
def bitsOf : Nat → Nat → List Bool
  | _, 0 => []
  | n, len + 1 => decide (n % 2 = 1) :: bitsOf (n / 2) len

/-- `bits_of_bytes`, CRC32C.s.dfy:24-31 -/
def bitsOfBytes (s : List UInt8) : List Bool := s.flatMap (fun b => bitsOf b.toNat 8)

/-- `zeroes`, Bits.s.dfy:23-28 -/
def zeroes (l : Nat) : List Bool := List.replicate l false

/-- `ones`, Bits.s.dfy:30-35 -/
def ones (l : Nat) : List Bool := List.replicate l true

/-- `xor`, F2_X.s.dfy:28-37 -/
def xorBits (p q : List Bool) : List Bool := List.zipWith (fun a b => a ^^ b) p q

/-- `shift`, F2_X.s.dfy:78-81 -/
def shift (p : List Bool) (t : Nat) : List Bool := zeroes t ++ p

theorem xorBits_length (p q : List Bool) : (xorBits p q).length = min p.length q.length :=
  List.length_zipWith

/-- `mod_F2_X`, F2_X.s.dfy:83-97 -/
def modF2 (p q : List Bool) : List Bool :=
  if p.length + 1 ≤ q.length then p ++ zeroes (q.length - 1 - p.length)
  else if h : p = [] then []
  else if p.getLast h then modF2 (xorBits p (shift q (p.length - q.length))).dropLast q
  else modF2 p.dropLast q
termination_by p.length
decreasing_by
  · have : 0 < p.length := List.length_pos_iff.mpr h
    rw [List.length_dropLast, xorBits_length]
    omega
  · have : 0 < p.length := List.length_pos_iff.mpr h
    rw [List.length_dropLast]
    omega

/-- The polynomial of CRC-32C, CRC32C.s.dfy:52 -/
def poly : List Bool := bitsOf 0x11EDC6F41 33

/-- `byte_of_bits`, CRC32C.s.dfy:33-44 -/
def byteOfBits (m : List Bool) : UInt8 :=
  UInt8.ofNat (m.foldr (fun b n => (if b then 1 else 0) + 2 * n) 0)

/-- `crc32_c`, CRC32C.s.dfy:46-61, the bits before they are cut into bytes -/
def crcBits (s : List UInt8) : List Bool :=
  let stream := zeroes 32 ++ (bitsOfBytes s).reverse
  let stream1 := xorBits stream (zeroes (stream.length - 32) ++ ones 32)
  xorBits (modF2 stream1 poly).reverse (ones 32)

/-- `crc32_c`, CRC32C.s.dfy:46-61 -/
def crc32c (s : List UInt8) : List UInt8 :=
  let m := crcBits s
  [byteOfBits (m.take 8), byteOfBits ((m.drop 8).take 8), byteOfBits ((m.drop 16).take 8),
    byteOfBits ((m.drop 24).take 8)]

/-- `crc32_c_padded`, CRC32C.s.dfy:63-67 -/
def padded (s : List UInt8) : List UInt8 := crc32c s ++ List.replicate 28 0

theorem padded_length (s : List UInt8) : (padded s).length = 32 := by
  rw [padded, List.length_append, List.length_replicate]; rfl

end Verif.Kv.Crc
