import Verif.Kv.JournalRange
import Verif.Kv.BlockDisk
/-
`JournalDisk` (BlockCacheSystem/JournalDisk.i.dfy) with the intervals of the ring
(BlockCacheSystem/JournalInterval.i.dfy): the disk as the journal sees it, two superblocks and a ring
of `numJournalBlocks` blocks.
Simplifications: the two superblocks and their requests are functions of a `Bool` (`false` for the
first) instead of pairs of fields; the ring is a function of the position instead of a sequence.
-/
namespace Verif.Kv

/-- `Superblock`, BlockCacheSystem/SectorType.i.dfy:15-19; `uint64` as natural numbers. -/
structure Superblock where
  counter : Nat
  start : Nat
  len : Nat
  loc : Loc
deriving DecidableEq

/-- `JournalInterval`, JournalInterval.i.dfy:22-23 -/
structure Interval where
  start : Nat
  len : Nat

/-- `JournalPosAdd`, DiskLayout.i.dfy:285-291 -/
def posAdd (start span : Nat) : Nat :=
  if numJournalBlocks ≤ start + span then start + span - numJournalBlocks else start + span

/-- `InCyclicRange`, JournalInterval.i.dfy:97-101 -/
def InCyclic (i : Nat) (v : Interval) : Prop :=
  (v.start ≤ i ∧ i < v.start + v.len) ∨
  (v.start ≤ i + numJournalBlocks ∧ i + numJournalBlocks < v.start + v.len)

/-- `CyclicSpliceValue` (JournalInterval.i.dfy:42-59) and `JournalUpdate` (:61-78) -/
def splice (j : Nat → Option Block) (start : Nat) (bs : List Block) : Nat → Option Block := fun i =>
  if start ≤ i ∧ i < start + bs.length then bs[i - start]?
  else if start ≤ i + numJournalBlocks ∧ i + numJournalBlocks < start + bs.length then
    bs[i + numJournalBlocks - start]?
  else j i

/-- `Disk_HasJournalRange`, `Disk_JournalRange` over `CyclicSlice`, `fullRange` and `concatFold`
(JournalInterval.i.dfy:167-191, 231-246): the blocks of an interval, if they are all there.
Simplification: block by block with wrap-around; the code cuts the sequence in two. -/
def blocksAt (j : Nat → Option Block) : Nat → Nat → Option (List Block)
  | _, 0 => some []
  | start, len + 1 =>
    match j start, blocksAt j (posAdd start 1) len with
    | some b, some bs => some (b :: bs)
    | _, _ => none

/-- `Disk_HasJournal`, `Disk_Journal`, JournalInterval.i.dfy:249-264 -/
def journalAt (j : Nat → Option Block) (start len : Nat) : Option (List Entry) :=
  (blocksAt j start len).bind parseRange

/-- Update of one of a pair of fields. -/
def setAt {α : Type} (f : Bool → α) (w : Bool) (a : α) : Bool → α := fun x => if x = w then a else f x

@[simp] theorem setAt_same {α : Type} (f : Bool → α) (w a) : setAt f w a w = a := by simp [setAt]
@[simp] theorem setAt_not {α : Type} (f : Bool → α) (w a) : setAt f w a (!w) = f (!w) := by
  cases w <;> simp [setAt]
@[simp] theorem setAt_not' {α : Type} (f : Bool → α) (w a) : setAt f (!w) a w = f w := by
  cases w <;> simp [setAt]

namespace JournalDisk

/-- `DiskOp`, JournalDisk.i.dfy:27-40 -/
inductive Op
  | reqReadSb (id : ReqId) (w : Bool)
  | reqReadJ (id : ReqId) (v : Interval)
  | reqWriteSb (id : ReqId) (w : Bool) (sb : Superblock)
  | reqWriteJ (id1 : ReqId) (id2 : Option ReqId) (start : Nat) (bs : List Block)
  | respReadSb (id : ReqId) (w : Bool) (sb : Option Superblock)
  | respReadJ (id : ReqId) (bs : Option (List Block))
  | respWriteSb (id : ReqId) (w : Bool)
  | respWriteJ (id : ReqId)
  | none

/-- `Variables`, JournalDisk.i.dfy:42-55 -/
structure State where
  readSb : Bool → ReqId → Prop
  readJ : PMap ReqId Interval
  writeSb : Bool → Option (ReqId × Superblock)
  writeJ : PMap ReqId Interval
  sb : Bool → Option Superblock
  journal : Nat → Option Block

/-- Nothing is in flight. -/
structure Quiet (d : State) : Prop where
  readSb : ∀ w id, ¬ d.readSb w id
  readJ : d.readJ = .empty
  writeSb : ∀ w, d.writeSb w = Option.none
  writeJ : d.writeJ = .empty

/-- `Init`, JournalDisk.i.dfy:57-68 -/
def Init (d : State) : Prop := Quiet d

/-- `Next`, JournalDisk.i.dfy:72-217, one constructor per case -/
inductive Next : State → Op → State → Prop
  /-- `RecvReadSuperblock`, :72-82 -/
  | recvReadSb {d : State} {id w} : (∀ x, ¬ d.readSb x id) →
      Next d (.reqReadSb id w)
        { d with readSb := setAt d.readSb w (fun i => d.readSb w i ∨ i = id) }
  /-- `RecvReadJournal`, :84-90 -/
  | recvReadJ {d : State} {id v} : d.readJ id = Option.none → v.start < numJournalBlocks →
      v.start + v.len ≤ numJournalBlocks →
      Next d (.reqReadJ id v) { d with readJ := d.readJ.insert id v }
  /-- `RecvWriteSuperblock`, :94-106 -/
  | recvWriteSb {d : State} {id w sb} : (∀ x i b, d.writeSb x = some (i, b) → i ≠ id) →
      Next d (.reqWriteSb id w sb) { d with writeSb := setAt d.writeSb w (some (id, sb)) }
  /-- `RecvWriteJournal`, :114-134, no wrap-around -/
  | recvWriteJ1 {d : State} {id start bs} : d.writeJ id = Option.none → start < numJournalBlocks →
      start + bs.length ≤ numJournalBlocks →
      Next d (.reqWriteJ id Option.none start bs)
        { d with writeJ := d.writeJ.insert id ⟨start, bs.length⟩, journal := splice d.journal start bs }
  /-- `RecvWriteJournal`, :114-134, wrap-around: two requests -/
  | recvWriteJ2 {d : State} {id1 id2 start bs} : d.writeJ id1 = Option.none →
      d.writeJ id2 = Option.none → id2 ≠ id1 → start < numJournalBlocks →
      bs.length ≤ numJournalBlocks → numJournalBlocks < start + bs.length →
      Next d (.reqWriteJ id1 (some id2) start bs)
        { d with
          writeJ := (d.writeJ.insert id1 ⟨start, numJournalBlocks - start⟩).insert id2
            ⟨0, bs.length - (numJournalBlocks - start)⟩
          journal := splice d.journal start bs }
  /-- `AckReadSuperblock`, :138-152 -/
  | ackReadSb {d : State} {id w sb} : d.readSb w id → (∀ x, sb = some x → d.sb w = some x) →
      Next d (.respReadSb id w sb)
        { d with readSb := setAt d.readSb w (fun i => d.readSb w i ∧ i ≠ id) }
  /-- `AckReadJournal`, :154-166 -/
  | ackReadJ {d : State} {id v} {bs : Option (List Block)} : d.readJ id = some v →
      (∀ x, bs = some x → blocksAt d.journal v.start v.len = some x) →
      Next d (.respReadJ id bs) { d with readJ := d.readJ.remove id }
  /-- `AckWriteSuperblock`, :170-186 -/
  | ackWriteSb {d : State} {id w sb} : d.writeSb w = some (id, sb) → d.sb w = some sb →
      Next d (.respWriteSb id w) { d with writeSb := setAt d.writeSb w Option.none }
  /-- `AckWriteJournal`, :188-193 -/
  | ackWriteJ {d : State} {id v} : d.writeJ id = some v →
      Next d (.respWriteJ id) { d with writeJ := d.writeJ.remove id }
  /-- `Stutter`, :197-201 -/
  | stutter {d : State} : Next d .none d

/-- `ProcessWriteSuperblock`, JournalDisk.i.dfy:222-233: the disk writes a superblock, atomically. -/
inductive Internal : State → State → Prop
  | process {d : State} {w id sb} : d.writeSb w = some (id, sb) →
      Internal d { d with sb := setAt d.sb w (some sb) }

/-- `Crash`, JournalDisk.i.dfy:247-279: superblocks stay; a journal block may become anything if a
write in flight covers it. -/
structure Crash (d d' : State) : Prop where
  quiet : Quiet d'
  sb : d'.sb = d.sb
  journal : ∀ i, i < numJournalBlocks → (∀ id v, d.writeJ id = some v → ¬ InCyclic i v) →
    d.journal i = d'.journal i

end JournalDisk
end Verif.Kv
