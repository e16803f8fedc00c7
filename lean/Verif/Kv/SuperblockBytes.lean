import Verif.Kv.ByteSystem
/-
The bytes of a superblock: `superblockToVal` and the branch for superblocks of `MarshallCheckedSector`
(Impl/MarshallingImpl.i.dfy:678-693, 873-905) write them, `parseCheckedSector`
(ByteBlockCacheSystem/Marshalling.i.dfy:418-437) with `valToSuperblock` (:371-392) reads them.
Simplification: `uint64` is a natural number; the grammar `SectorGrammar` (:93-110) is written out for
this one case, a tag and five words.
-/
namespace Verif.Kv.SuperblockBytes
open JournalCache (WFSb)

/-- `pack_LittleEndian_Uint64`, the inverse of `unpack64`; `n` bytes -/
def packLE : Nat → Nat → List UInt8
  | 0, _ => []
  | n + 1, x => UInt8.ofNat (x % 256) :: packLE n (x / 256)

/-- `unpack_LittleEndian_Uint64`, lib/Lang/System/PackedInts.s.dfy:36-49 -/
def unpackLE : List UInt8 → Nat
  | [] => 0
  | b :: bs => b.toNat + 256 * unpackLE bs

/-- `n` words in a row: `parse_Uint64` (lib/Marshalling/GenericMarshalling.i.dfy:128-136) for each part
of a tuple -/
def words : Nat → List UInt8 → Option (List Nat)
  | 0, _ => some []
  | n + 1, s => if 8 ≤ s.length then (words n (s.drop 8)).map (unpackLE (s.take 8) :: ·) else none

/-- `parseSector` with `valToSuperblock`, Marshalling.i.dfy:371-392, 418-428 -/
def ofPayload (s : List UInt8) : Option Superblock :=
  match words 6 s with
  | some [tag, counter, start, len, addr, n] =>
    if tag = 0 ∧ WFSb ⟨counter, start, len, ⟨addr, n⟩⟩ then some ⟨counter, start, len, ⟨addr, n⟩⟩ else none
  | _ => none

/-- `parseCheckedSector`, Marshalling.i.dfy:430-436 -/
def ofBytes (crc : List UInt8 → List UInt8) (s : List UInt8) : Option Superblock :=
  if ByteDisk.Checks crc s then ofPayload (s.drop 32) else none

/-- `superblockToVal`, MarshallingImpl.i.dfy:678-693, marshalled into what is left of 4096 bytes -/
def payload (sb : Superblock) : List UInt8 :=
  [0, sb.counter, sb.start, sb.len, sb.loc.addr, sb.loc.len].flatMap (packLE 8) ++ List.replicate 4016 0

/-- `MarshallCheckedSector`, MarshallingImpl.i.dfy:873-905 -/
def marshal (crc : List UInt8 → List UInt8) (sb : Superblock) : List UInt8 :=
  crc (payload sb) ++ payload sb

/-- What the type of a superblock asks for (a counter of 64 bits) and `WFSuperblock`. -/
def SbOk (sb : Superblock) : Prop := WFSb sb ∧ sb.counter < 2 ^ 64

/-! ### Written, then read -/

theorem packLE_length (n x : Nat) : (packLE n x).length = n := by
  induction n generalizing x with
  | zero => rfl
  | succ n ih => simp [packLE, ih]

theorem unpack_pack : ∀ (n x : Nat), x < 256 ^ n → unpackLE (packLE n x) = x
  | 0, x, h => by simp at h; subst h; rfl
  | n + 1, x, h => by
    have hx : x / 256 < 256 ^ n := Nat.div_lt_of_lt_mul (by rw [Nat.pow_succ] at h; omega)
    simp only [packLE, unpackLE, unpack_pack n _ hx]
    have : (UInt8.ofNat (x % 256)).toNat = x % 256 := by
      simp
    rw [this]; omega

theorem unpack_lt (s : List UInt8) : unpackLE s < 256 ^ s.length := by
  induction s with
  | nil => simp [unpackLE]
  | cons b bs ih =>
    have := b.toNat_lt
    simp only [unpackLE, List.length_cons, Nat.pow_succ]
    omega

theorem words_pack : ∀ (ws : List Nat) (rest : List UInt8), (∀ w ∈ ws, w < 2 ^ 64) →
    words ws.length (ws.flatMap (packLE 8) ++ rest) = some ws
  | [], _, _ => rfl
  | w :: ws, rest, h => by
    have hl := packLE_length 8 w
    have e : (w :: ws).flatMap (packLE 8) ++ rest = packLE 8 w ++ (ws.flatMap (packLE 8) ++ rest) := by
      simp [List.flatMap_cons]
    rw [e, List.length_cons, words, if_pos (by rw [List.length_append, hl]; omega)]
    have e1 : (packLE 8 w ++ (ws.flatMap (packLE 8) ++ rest)).drop 8 = ws.flatMap (packLE 8) ++ rest := by
      exact List.drop_left' hl
    have e2 : (packLE 8 w ++ (ws.flatMap (packLE 8) ++ rest)).take 8 = packLE 8 w := by
      exact List.take_left' hl
    rw [e1, e2, words_pack ws rest (fun x hx => h x (List.mem_cons_of_mem _ hx)),
      unpack_pack 8 w (h w List.mem_cons_self)]
    rfl

theorem words_lt : ∀ (n : Nat) (s : List UInt8) (ws : List Nat), words n s = some ws → ∀ w ∈ ws, w < 2 ^ 64
  | 0, s, ws, h => by simp [words] at h; subst h; simp
  | n + 1, s, ws, h => by
    rw [words] at h
    by_cases h8 : 8 ≤ s.length
    · rw [if_pos h8] at h
      obtain ⟨ws', h1, rfl⟩ := Option.map_eq_some_iff.mp h
      intro w hw
      rcases List.mem_cons.mp hw with rfl | hw
      · have := unpack_lt (s.take 8)
        rw [List.length_take, Nat.min_eq_left h8] at this
        exact this
      · exact words_lt n _ _ h1 w hw
    · rw [if_neg h8] at h; cases h

theorem payload_length (sb : Superblock) : (payload sb).length = 4064 := by
  rw [payload, List.length_append, List.length_replicate]
  simp only [List.flatMap_cons, List.flatMap_nil, List.length_append, packLE_length, List.length_nil]

theorem marshal_length {crc : List UInt8 → List UInt8} (hcrc : ∀ x, (crc x).length = 32) (sb : Superblock) :
    (marshal crc sb).length = 4096 := by
  rw [marshal, List.length_append, hcrc, payload_length]

theorem WFSb.words {sb : Superblock} (h : SbOk sb) :
    ∀ w ∈ [0, sb.counter, sb.start, sb.len, sb.loc.addr, sb.loc.len], w < 2 ^ 64 := by
  obtain ⟨⟨h1, h2, h3, h4, h5⟩, h0⟩ := h
  have hN : numJournalBlocks = 65536 := rfl
  have hT : tableMaxLength < 2 ^ 64 := by decide
  have hA : table1Addr < 2 ^ 64 ∧ table2Addr < 2 ^ 64 := by decide
  have h3' : sb.loc.addr < 2 ^ 64 := by
    rcases h3 with e | e <;> rw [e]
    · exact hA.1
    · exact hA.2
  intro w hw
  simp only [List.mem_cons, List.not_mem_nil, or_false] at hw
  rcases hw with rfl | rfl | rfl | rfl | rfl | rfl
  · exact Nat.two_pow_pos 64
  · exact h0
  · rw [hN] at h1; exact Nat.lt_of_lt_of_le h1 (by decide)
  · rw [hN] at h2; exact Nat.lt_of_le_of_lt h2 (by decide)
  · exact h3'
  · exact Nat.lt_of_le_of_lt h5 hT

/-- What is written for a superblock reads as that superblock. -/
theorem ofBytes_marshal {crc : List UInt8 → List UInt8} (hcrc : ∀ x, (crc x).length = 32) {sb : Superblock}
    (h : SbOk sb) : ofBytes crc (marshal crc sb) = some sb := by
  have e1 : (marshal crc sb).drop 32 = payload sb := by
    exact List.drop_left' (hcrc _)
  have e2 : (marshal crc sb).take 32 = crc (payload sb) := by
    exact List.take_left' (hcrc _)
  rw [ofBytes, if_pos ⟨by rw [marshal_length hcrc]; omega, by rw [e1, e2]⟩, e1, ofPayload]
  have := words_pack _ (List.replicate 4016 0) (WFSb.words h)
  rw [show [0, sb.counter, sb.start, sb.len, sb.loc.addr, sb.loc.len].length = 6 from rfl] at this
  rw [payload, this]
  exact if_pos ⟨rfl, h.1⟩

/-- Whatever is read as a superblock is a good one. -/
theorem ofBytes_ok {crc : List UInt8 → List UInt8} {s : List UInt8} {sb : Superblock}
    (h : ofBytes crc s = some sb) : SbOk sb := by
  unfold ofBytes at h
  split at h
  · unfold ofPayload at h
    split at h
    · rename_i hw
      split at h
      · rename_i hk
        cases h
        exact ⟨hk.2, words_lt _ _ _ hw _ (by simp)⟩
      · cases h
    · cases h
  · cases h

end Verif.Kv.SuperblockBytes
