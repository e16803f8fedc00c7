import Verif.Kv.JournalRange
/-
How journal entries become bytes of journal blocks: Impl/JournalistMarshallingModel.i.dfy (the buffer
writer, functional form of Impl/JournalistMarshallingImpl.i.dfy) and
ByteBlockCacheSystem/JournalBytes.i.dfy (what bytes mean as blocks).
Simplifications: `uint64` and `uint32` are natural numbers; the checksum function is a parameter `crc`.
-/
namespace Verif.Kv.JournalBytes

/-- `pack_LittleEndian_Uint32`, lib/Base/PackedIntsLib.i.dfy, the inverse of
`unpack_LittleEndian_Uint32` (lib/Lang/System/PackedInts.s.dfy:11-19) -/
def pack32 (n : Nat) : List UInt8 :=
  [UInt8.ofNat n, UInt8.ofNat (n / 256), UInt8.ofNat (n / 65536), UInt8.ofNat (n / 16777216)]

/-- `cyclicSlice`, JournalistMarshallingModel.i.dfy:20-29 -/
def cyclicSlice {α : Type} (t : List α) (start l : Nat) : List α :=
  if start + l ≤ t.length then (t.drop start).take l
  else t.drop start ++ t.take (start + l - t.length)

/-- `splice`, JournalistMarshallingModel.i.dfy:54-61 -/
def splice (bytes : List UInt8) (start : Nat) (ins : List UInt8) : List UInt8 :=
  bytes.take start ++ ins ++ bytes.drop (start + ins.length)

/-- `writeOnto`, JournalistMarshallingModel.i.dfy:63-86: position `start` of the payload, which leaves
out the 32 bytes of checksum at the head of each block of 4096 bytes. -/
def writeOnto (buf : List UInt8) (start : Nat) (bytes : List UInt8) : List UInt8 :=
  if 0 < bytes.length then
    let block := start / 4064
    let idx := start % 4064
    if idx + bytes.length ≤ 4064 then splice buf (block * 4096 + 32 + idx) bytes
    else splice (splice buf (block * 4096 + 32 + idx) (bytes.take (4064 - idx)))
      ((block + 1) * 4096 + 32) (bytes.drop (4064 - idx))
  else buf

/-- `writeIntOnto`, JournalistMarshallingModel.i.dfy:196-205 -/
def writeInt (buf : List UInt8) (idx val : Nat) : List UInt8 := writeOnto buf idx (pack32 val)

/-- `writeHeader`, JournalistMarshallingModel.i.dfy:332-341 -/
def writeHeader (buf : List UInt8) (numBlocks len : Nat) : List UInt8 :=
  writeInt (writeInt buf 0 len) 4 numBlocks

/-- One entry of `writeJournalEntries`, JournalistMarshallingModel.i.dfy:376-399: length (4096 more for
a clone), first part, length, second part. -/
def writeEntry (buf : List UInt8) (idx : Nat) : Entry → List UInt8
  | .insert k v =>
    let buf := writeInt buf idx k.length
    let buf := writeOnto buf (idx + 4) k
    let buf := writeInt buf (idx + 4 + k.length) v.length
    writeOnto buf (idx + 4 + k.length + 4) v
  | .clone a b =>
    let buf := writeInt buf idx (a.length + 4096)
    let buf := writeOnto buf (idx + 4) a
    let buf := writeInt buf (idx + 4 + a.length) b.length
    writeOnto buf (idx + 4 + a.length + 4) b

/-- The limits on the lengths of keys and values, lib/Base/KeyType.s.dfy:9-10, 16-17, part of their
types in the source. -/
def Ok : Entry → Prop
  | .insert k v => k.length ≤ maxLen ∧ v.length ≤ maxLen
  | .clone a b => a.length ≤ maxLen ∧ b.length ≤ maxLen

instance (e : Entry) : Decidable (Ok e) := by cases e <;> exact inferInstanceAs (Decidable (_ ∧ _))

/-- `WeightJournalEntry`, BlockCacheSystem/JournalRange.i.dfy:308-311 -/
def weight : Entry → Nat
  | .insert k v => 8 + k.length + v.length
  | .clone a b => 8 + a.length + b.length

/-- `SumJournalEntries`, JournalRange.i.dfy:313-320 -/
def sumWeights (es : List Entry) : Nat := (es.map weight).sum

/-- `WeightJournalEntries`, JournalRange.i.dfy:322-330: with 8 bytes for the header -/
def weights (es : List Entry) : Nat := if es.length = 0 then 0 else sumWeights es + 8

/-- `writeJournalEntries`, JournalistMarshallingModel.i.dfy:359-402: `len` entries of the ring
`entries` from `start` on -/
def writeEntries (entries : List Entry) : Nat → Nat → Nat → List UInt8 → List UInt8
  | 0, _, _, buf => buf
  | len + 1, start, idx, buf =>
    let start' := if start + 1 = entries.length then 0 else start + 1
    match entries[start]? with
    | some e => writeEntries entries len start' (idx + weight e) (writeEntry buf idx e)
    | none => buf

/-- `fillInChecksums`, JournalistMarshallingModel.i.dfy:404-417; the first argument counts the blocks
left. -/
def fillChecksums (crc : List UInt8 → List UInt8) : Nat → Nat → List UInt8 → List UInt8
  | 0, _, buf => buf
  | n + 1, i, buf =>
    fillChecksums crc n (i + 1) (splice buf (4096 * i) (crc (cut buf (4096 * i + 32) (4096 * i + 4096))))

/-- `marshallJournalEntries`, JournalistMarshallingModel.i.dfy:939-962 -/
def marshal (crc : List UInt8 → List UInt8) (entries : List Entry) (start len numBlocks : Nat) :
    List UInt8 :=
  let buf := List.replicate (numBlocks * 4096) 0
  let buf := writeHeader buf numBlocks len
  let buf := writeEntries entries len start 8 buf
  fillChecksums crc numBlocks 0 buf

/-- `JournalBlockOfByteSeq`, ByteBlockCacheSystem/JournalBytes.i.dfy:14-21, with `ChecksumChecksOut`
(ByteBlockCacheSystem/AsyncDiskModel.s.dfy:149-152) -/
def blockOfBytes (crc : List UInt8 → List UInt8) (s : List UInt8) : Option Block :=
  if s.length = 4096 ∧ s.take 32 = crc (s.drop 32) then some (s.drop 32) else none

/-- `JournalRangeOfByteSeq`, JournalBytes.i.dfy:23-40 -/
def rangeOfBytes (crc : List UInt8 → List UInt8) (s : List UInt8) : Option (List Block) :=
  if h : s = [] then some []
  else if h' : 4096 ≤ s.length then
    match blockOfBytes crc (s.take 4096), rangeOfBytes crc (s.drop 4096) with
    | some b, some rest => some (b :: rest)
    | _, _ => none
  else none
termination_by s.length
decreasing_by simp only [List.length_drop]; omega

end Verif.Kv.JournalBytes
