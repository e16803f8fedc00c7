import Verif.Kv.Crc
import Verif.Kv.SuperblockBytes

/-
`CRC32_C_Impl` (lib/Checksums/CRC32CImpl.i.dfy) and `CRC32_C_Array_Impl` (CRC32CArrayImpl.i.dfy, the same text
over an array): the code that computes the checksum with the processor's instructions, three streams at a time,
joined by a carry-less product with an entry of a table; and the code that computes that table
(CRC32C_Lut.i.dfy). A register of 8, 32 or 64 bits is a natural number, a register of 128 bits the list of its
bits. A read outside the data, or outside the table, is `none`. Products of 32 bit numbers wrap; sums of 64 bit
addresses do not come near the end of their range and are sums of natural numbers.
-/
namespace Verif.Kv.Crc

open SuperblockBytes (packLE unpackLE)

/-- The number with these bits, lowest first: the inverse of `bits_of_int`, Bits.s.dfy:14-21 -/
def natOf : List Bool → Nat
  | [] => 0
  | b :: l => (if b then 1 else 0) + 2 * natOf l

/-- Arithmetic of `uint32` -/
def u32 (n : Nat) : Nat := n % 4294967296

/-- `mm_crc32_u8` and `mm_crc32_u64`, lib/Lang/System/F2_X.s.dfy:94-103, 151-160; the two differ in the number
of bits of `b` only -/
def mmCrc (acc b : List Bool) : List Bool :=
  (modF2 (xorBits (shift b.reverse 32) (shift acc.reverse b.length)) poly).reverse

/-- `intrinsic_mm_crc32_u8`, F2_X.s.dfy:105-111 -/
def crc8 (acc b : Nat) : Nat := natOf (mmCrc (bitsOf acc 32) (bitsOf b 8))

/-- `intrinsic_mm_crc32_u64`, F2_X.s.dfy:162-170 -/
def crc64 (acc b : Nat) : Nat := natOf (mmCrc (bitsOf acc 32) (bitsOf b 64))

/-- `bits_get`, F2_X.s.dfy:44-47 -/
def bitAt (p : List Bool) (i : Nat) : Bool := p.getD i false

/-- `mul_F2_X_digit`, F2_X.s.dfy:49-65; the recursion over `j` as a fold -/
def mulDigit (p q : List Bool) (i : Nat) : Bool :=
  (List.range (i + 1)).foldr (fun j acc => (bitAt p j && bitAt q (i - j)) ^^ acc) false

/-- `mul_F2_X`, F2_X.s.dfy:67-72 -/
def mulF2 (p q : List Bool) : List Bool := (List.range (p.length + q.length)).map (mulDigit p q)

/-- `bitxor32` and `bitxor64`, F2_X.s.dfy:211-217 -/
def xorN (w a b : Nat) : Nat := natOf (xorBits (bitsOf a w) (bitsOf b w))

/-- `mm_cvtepu32_epi64`, Bits.s.dfy:39-43 -/
def cvtepu32 (a : List Bool) : List Bool :=
  a.take 32 ++ zeroes 32 ++ (a.drop 32).take 32 ++ zeroes 32

/-- `intrinsic_mm_cvtsi64_si128`, Bits.s.dfy:59-62 -/
def cvtsi64 (a : Nat) : List Bool := bitsOf a 64 ++ zeroes 64

/-- `intrinsic_mm_clmulepi64_si128_0`, F2_X.s.dfy:174-188 -/
def clmul0 (a b : List Bool) : List Bool := mulF2 (a.take 64) (b.take 64)

/-- `intrinsic_mm_clmulepi64_si128_16`, F2_X.s.dfy:190-204 -/
def clmul16 (a b : List Bool) : List Bool := mulF2 (a.take 64) ((b.drop 64).take 64)

/-- `shift1`, CRC32C_Lut.i.dfy:26-34 -/
def shift1 (p : Nat) : Nat := if p % 2 = 0 then p / 2 else xorN 32 (p / 2) 0x82F63b78

/-- `compute_pow_mod_crc`, CRC32C_Lut.i.dfy:214-229, of `k` = `n' - n` steps -/
def powIter : Nat → Nat → Nat
  | 0, p => p
  | k + 1, p => powIter k (shift1 p)

/-- `compute_all_pow_mod_crc_iter`, CRC32C_Lut.i.dfy:231-250, of `k` = `512 - i` steps -/
def allIter : Nat → Nat → List Nat → List Nat
  | 0, _, r => r
  | k + 1, i, r => allIter k (i + 1) (r.set i (powIter (64 * (i + 1) - 64 * i) (r.getD (i - 1) 0)))

/-- `compute_all_pow_mod_crc`, CRC32C_Lut.i.dfy:252-261 -/
def allPow : List Nat := allIter 511 1 ((List.replicate 512 0).set 0 (powIter (64 - 33) 0x80000000))

/-- `combine`, CRC32C_Lut.i.dfy:263-268 -/
def combine (a b : Nat) : Nat := b * 4294967296 + a

/-- `compute_lut_iter`, CRC32C_Lut.i.dfy:270-294, of `k` = `257 - i` steps -/
def lutIter (pmc : List Nat) : Nat → Nat → List Nat → List Nat
  | 0, _, l => l
  | k + 1, i, l =>
    lutIter pmc k (i + 1) (l.set (i - 1) (combine (pmc.getD (2 * i - 1) 0) (pmc.getD (i - 1) 0)))

/-- `compute_lut`, `lut`, CRC32C_Lut.i.dfy:296-303 -/
def lut : List Nat := lutIter allPow 256 1 (List.replicate 257 0)

/-- `Unpack_LittleEndian_Uint64`, lib/Lang/System/PackedInts.s.dfy:20-31, 76-83 -/
def read64 (s : List UInt8) (i : Nat) : Option Nat :=
  if i + 8 ≤ s.length then some (unpackLE ((s.drop i).take 8)) else none

/-- `alignment`, CRC32CImpl.i.dfy:34-38 -/
def alignment (idx : Nat) : Nat := if idx % 8 = 0 then 0 else 8 - idx % 8

/-- The first loop of `compute_crc32_main`, CRC32CImpl.i.dfy:116-133: bytes up to an aligned one -/
def alignLoop (s : List UInt8) : (toAlign len pA crc : Nat) → Option (Nat × Nat × Nat)
  | 0, len, pA, crc => some (len, pA, crc)
  | t + 1, len, pA, crc =>
    if len = 0 then some (len, pA, crc)
    else match s[pA]? with
      | none => none
      | some b => alignLoop s t (len - 1) (pA + 1) (crc8 crc b.toNat)

/-- The number of words of each of the three streams, CRC32CImpl.i.dfy:141 -/
def chunk (len : Nat) : Nat := if len < 256 * 24 then u32 (len * 2731) / 65536 else 256

/-- The inner loop, CRC32CImpl.i.dfy:155-179: one word of each stream while `z` is at least two -/
def three (s : List UInt8) (pA pB pC : Nat) : (z crcA crcB crcC : Nat) → Option (Nat × Nat × Nat)
  | z + 2, crcA, crcB, crcC =>
    match read64 s (pA - u32 (8 * (z + 2))), read64 s (pB - u32 (8 * (z + 2))),
      read64 s (pC - u32 (8 * (z + 2))) with
    | some a, some b, some c => three s pA pB pC (z + 1) (crc64 crcA a) (crc64 crcB b) (crc64 crcC c)
    | _, _, _ => none
  | _, crcA, crcB, crcC => some (crcA, crcB, crcC)

/-- The join of the three streams, CRC32CImpl.i.dfy:237-249: `f` of the registers of the first two -/
def fold3 (lo hi crcA crcB : Nat) : Nat :=
  let vK := cvtepu32 (bitsOf lo 64 ++ bitsOf hi 64)
  natOf ((xorBits (clmul0 (cvtsi64 crcA) vK) (clmul16 (cvtsi64 crcB) vK)).take 64)

/-- The body of the second loop, CRC32CImpl.i.dfy:141-334: `n` words of each of three streams. The new address
and register -/
def bulkStep (s : List UInt8) (n pA0 crcA0 : Nat) : Option (Nat × Nat) :=
  let pA := pA0 + u32 (8 * n)
  let pB := pA + u32 (8 * n)
  let pC := pB + u32 (8 * n)
  match three s pA pB pC n crcA0 0 0 with
  | none => none
  | some (crcA, crcB, crcC) =>
    match read64 s (pA - 8), read64 s (pB - 8), read64 s (pC - 8), lut[n - 1]?, lut[n]? with
    | some a, some b, some c, some lo, some hi =>
      some (pC, crc64 crcC (xorN 64 (fold3 lo hi (crc64 crcA a) (crc64 crcB b)) c))
    | _, _, _, _, _ => none

theorem chunk_pos {len : Nat} (h : 144 ≤ len) : 0 < chunk len ∧ 24 * chunk len ≤ len ∧ 2 ≤ chunk len ∧
    chunk len ≤ 256 ∧ u32 (24 * chunk len) = 24 * chunk len := by
  unfold chunk u32
  split
  · have h1 : len * 2731 % 4294967296 = len * 2731 := Nat.mod_eq_of_lt (by omega)
    rw [h1]
    omega
  · omega

/-- The second loop, CRC32CImpl.i.dfy:135-335: while at least 144 bytes are left -/
def bulkLoop (s : List UInt8) (len pA crc : Nat) : Option (Nat × Nat × Nat) :=
  if _h : 144 ≤ len then
    match bulkStep s (chunk len) pA crc with
    | none => none
    | some (pA', crc') => bulkLoop s (len - u32 (24 * chunk len)) pA' crc'
  else some (len, pA, crc)
termination_by len
decreasing_by
  have := chunk_pos _h
  omega

/-- The third loop, CRC32CImpl.i.dfy:337-353: while at least 8 bytes are left -/
def wordLoop (s : List UInt8) (len pA crc : Nat) : Option (Nat × Nat × Nat) :=
  if _h : 8 ≤ len then
    match read64 s pA with
    | none => none
    | some a => wordLoop s (len - 8) (pA + 8) (crc64 crc a)
  else some (len, pA, crc)
termination_by len

/-- The last loop, CRC32CImpl.i.dfy:355-370: the bytes left -/
def byteLoop (s : List UInt8) : (len pA crc : Nat) → Option Nat
  | 0, _, crc => some crc
  | len + 1, pA, crc =>
    match s[pA]? with
    | none => none
    | some b => byteLoop s len (pA + 1) (crc8 crc b.toNat)

/-- `compute_crc32_main`, CRC32CImpl.i.dfy:99-373 -/
def computeMain (s : List UInt8) (idx len prev : Nat) : Option Nat :=
  match alignLoop s (alignment idx) len idx prev with
  | none => none
  | some (len1, pA1, crc1) =>
    match bulkLoop s len1 pA1 crc1 with
    | none => none
    | some (len2, pA2, crc2) =>
      match wordLoop s len2 pA2 crc2 with
      | none => none
      | some (len3, pA3, crc3) => byteLoop s len3 pA3 crc3

/-- `compute_crc32c_padded`, CRC32CArrayImpl.i.dfy:345-370; CRC32CImpl.i.dfy:375-401 is the case of the whole
sequence, `i = 0` and `len = |data|` -/
def computePadded (s : List UInt8) (i len : Nat) : Option (List UInt8) :=
  match computeMain s i len 0xffffffff with
  | none => none
  | some r => some (packLE 4 (xorN 32 r 0xffffffff) ++ List.replicate 28 0)

end Verif.Kv.Crc
