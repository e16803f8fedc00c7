import Verif.Kv.JournalBytes
import Verif.Kv.JournalCache
/-
The journalist of VeriBetrKV: Impl/JournalistImpl.i.dfy, the code that keeps the journal in memory. The
entries not yet written lie in a ring that doubles when it is full: first the frozen ones, then the
others. Beside them it counts how many blocks of the journal on disk are in use.
Simplifications: `uint64` is a natural number (that nothing overflows is part of the invariant); methods
that change the object are functions from the old state to the new one.
-/
namespace Verif.Kv.Journalist
open JournalBytes

/-- `MaxPossibleEntries`, JournalistImpl.i.dfy:44 -/
def maxEntries : Nat := 32 * 1048576

/-- `basic_mod`, JournalistImpl.i.dfy:46-50 -/
def basicMod (x len : Nat) : Nat := if len ≤ x then x - len else x

/-- `Journalist`, JournalistImpl.i.dfy:76-94 -/
structure State where
  entries : List Entry
  start : Nat
  len1 : Nat
  len2 : Nat
  replayJournal : List Entry
  replayIdx : Nat
  front : Option (List Block)
  back : Option (List Block)
  written : Nat
  frozenBlocks : Nat
  memWeight : Nat

/-- `Constructor`, JournalistImpl.i.dfy:200-217 -/
def init : State :=
  ⟨List.replicate 4096 (.insert [] []), 0, 0, 0, [], 0, none, none, 0, 0, 0⟩

/-- `InMemoryJournalFrozen`, JournalistImpl.i.dfy:139-143 -/
def State.frozen (s : State) : List Entry := cyclicSlice s.entries s.start s.len1

/-- `InMemoryJournal` with `mid`, JournalistImpl.i.dfy:122-128, 145-149 -/
def State.mem (s : State) : List Entry :=
  cyclicSlice s.entries (basicMod (s.start + s.len1) s.entries.length) s.len2

/-- `ReplayJournal`, JournalistImpl.i.dfy:151-155 -/
def State.replay (s : State) : List Entry := s.replayJournal.drop s.replayIdx

/-- `hasFrozenJournal`, JournalistImpl.i.dfy:219-224 -/
def State.hasFrozen (s : State) : Bool := s.len1 ≠ 0

/-- `hasInMemoryJournal`, JournalistImpl.i.dfy:226-231 -/
def State.hasMem (s : State) : Bool := s.len2 ≠ 0

/-- `packageFrozenJournal`, JournalistImpl.i.dfy:233-261 -/
def State.packageFrozen (crc : List UInt8 → List UInt8) (s : State) : List UInt8 × State :=
  (marshal crc s.entries s.start s.len1 s.frozenBlocks,
    { s with
      start := basicMod (s.start + s.len1) s.entries.length
      len1 := 0
      written := s.written + s.frozenBlocks
      frozenBlocks := 0 })

/-- The number of blocks in `packageInMemoryJournal`, JournalistImpl.i.dfy:280, and `freeze`, :338-339 -/
def State.memBlocks (s : State) : Nat := (s.memWeight + 4064 - 1) / 4064

/-- `packageInMemoryJournal`, JournalistImpl.i.dfy:263-291 -/
def State.packageMem (crc : List UInt8 → List UInt8) (s : State) : List UInt8 × State :=
  (marshal crc s.entries s.start s.len2 s.memBlocks,
    { s with start := 0, len2 := 0, memWeight := 0, written := s.written + s.memBlocks })

/-- `setWrittenJournalLen`, JournalistImpl.i.dfy:301-313 -/
def State.setWritten (s : State) (len : Nat) : State := { s with written := len, frozenBlocks := 0 }

/-- `updateWrittenJournalLen`, JournalistImpl.i.dfy:315-322 -/
def State.updateWritten (s : State) (len : Nat) : State := { s with written := len }

/-- `freeze`, JournalistImpl.i.dfy:324-348 -/
def State.freeze (s : State) : State :=
  { s with
    len1 := s.len1 + s.len2
    len2 := 0
    frozenBlocks := s.frozenBlocks + s.memBlocks
    memWeight := 0 }

/-- `canAppend`, JournalistImpl.i.dfy:350-358 -/
def State.canAppend (s : State) (e : Entry) : Bool :=
  4064 * (s.written + s.frozenBlocks) + s.memWeight + weight e + (if s.len2 = 0 then 8 else 0) ≤
    4064 * numJournalBlocks

/-- `reallocJournalEntries`, JournalistImpl.i.dfy:360-380 -/
def State.realloc (s : State) (e : Entry) (newLen : Nat) : List Entry :=
  s.entries.drop s.start ++ s.entries.take s.start ++ [e] ++
    List.replicate (newLen - s.entries.length - 1) (.insert [] [])

/-- `append`, JournalistImpl.i.dfy:382-424 -/
def State.append (s : State) (e : Entry) : State :=
  let w := s.memWeight + weight e + (if s.len2 = 0 then 8 else 0)
  if s.len1 + s.len2 < s.entries.length then
    { s with
      entries := s.entries.set (basicMod (s.start + s.len1 + s.len2) s.entries.length) e
      memWeight := w
      len2 := s.len2 + 1 }
  else
    { s with
      entries := s.realloc e (s.entries.length * 2)
      start := 0
      memWeight := w
      len2 := s.len2 + 1 }

/-- `replayJournalPop`, JournalistImpl.i.dfy:441-450 -/
def State.replayPop (s : State) : State := { s with replayIdx := s.replayIdx + 1 }

/-- `setFront`, JournalistImpl.i.dfy:452-460 -/
def State.setFront (s : State) (jr : List Block) : State := { s with front := some jr }

/-- `setBack`, JournalistImpl.i.dfy:462-470 -/
def State.setBack (s : State) (jr : List Block) : State := { s with back := some jr }

/-- `parseJournals`, JournalistImpl.i.dfy:472-504; `none` when it does not succeed, and then nothing
changes. The parser `ParseJournalRange` (Impl/JournalistParsingImpl.i.dfy) computes `parseRange`. -/
def State.parse (s : State) : Option State :=
  match parseRange (s.front.getD [] ++ s.back.getD []) with
  | some es => if es.length ≤ maxEntries then
      some { s with front := none, back := none, replayJournal := es, replayIdx := 0 }
    else none
  | none => none

/-- `isReplayEmpty`, JournalistImpl.i.dfy:426-431 -/
def State.replayEmpty (s : State) : Bool := s.replayIdx = s.replayJournal.length

/-- `CorrectJournalBlockSizes`, JournalistImpl.i.dfy:52-56 -/
def Sizes (jr : List Block) : Prop := jr.length ≤ numJournalBlocks ∧ ∀ b ∈ jr, b.length = 4064

/-- `WF` and `Inv`, JournalistImpl.i.dfy:96-120. The last two are not stated there: entries have the
lengths their types ask for, and only frozen entries use frozen blocks. -/
structure State.Inv (s : State) : Prop where
  pos : 1 ≤ s.entries.length
  ring : s.entries.length ≤ 2 * maxEntries
  start : s.start < s.entries.length
  lens : s.len1 + s.len2 ≤ s.entries.length
  idx : s.replayIdx ≤ s.replayJournal.length
  replay : s.replayJournal.length ≤ maxEntries
  front : ∀ jr, s.front = some jr → Sizes jr
  back : ∀ jr, s.back = some jr → Sizes jr
  space : (s.written + s.frozenBlocks) * 4064 + s.memWeight ≤ 4064 * numJournalBlocks
  frozen : weights s.frozen ≤ s.frozenBlocks * 4064
  mem : weights s.mem = s.memWeight
  ok : ∀ e ∈ s.entries, Ok e
  none : s.len1 = 0 → s.frozenBlocks = 0

end Verif.Kv.Journalist
