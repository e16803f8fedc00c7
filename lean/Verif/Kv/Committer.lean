import Verif.Kv.SuperblockBytes
import Verif.Kv.Journalist
/-
The committer of VeriBetrKV: Impl/CommitterImpl.i.dfy, the code behind the journal and the superblocks.
It moves bytes to and from the disk, keeps entries in the journalist, and decides when a superblock may
be written. With it the places that call it: `initialization`, `doSync`, `pushSync`, `popSync` and the
user operations of Impl/CoordinationImpl.i.dfy, Impl/HandleReadResponseImpl.i.dfy and
Impl/HandleWriteResponseImpl.i.dfy.
Simplifications: `uint64` is a natural number; `which` and the pairs of fields are as in `JournalCache`;
the hash map of synchronisation requests is a list of pairs, the set of outstanding writes a list;
methods that change the object are functions, and those that use the disk get the request ids the disk
handler will give and return the operation they ask for.
-/
namespace Verif.Kv.Committer
open ByteDisk (Op Data)
open JournalCache (Commit ReadResult incr)

/-- `Status`, CommitterImpl.i.dfy:113-116 -/
inductive Status | superblock | other | ready
deriving DecidableEq

/-- `Committer`, CommitterImpl.i.dfy:118-144 -/
structure State where
  status : Status
  journalist : Journalist.State
  frozenLoc : Option Loc
  isFrozen : Bool
  frozenPos : Nat
  sbWrite : Option ReqId
  writes : List ReqId
  sb : Superblock
  newSb : Option Superblock
  which : Bool
  commit : Commit
  read : Bool → Option ReqId
  sbRead : Bool → Option ReqId
  sbGot : Bool → ReadResult
  syncReqs : List (Nat × SyncStatus)

/-- `Constructor`, CommitterImpl.i.dfy:226-261 -/
def init : State where
  status := .superblock
  journalist := Journalist.init
  frozenLoc := none
  isFrozen := false
  frozenPos := 0
  sbWrite := none
  writes := []
  sb := ⟨0, 0, 0, ⟨0, 0⟩⟩
  newSb := none
  which := false
  commit := .none
  read _ := none
  sbRead _ := none
  sbGot _ := .unfinished
  syncReqs := []

/-- The request ids and what is known of each -/
abbrev Reqs := List (Nat × SyncStatus)

/-- `LinearMutableMap.Get` on the map of requests, CoordinationImpl.i.dfy:320-327 -/
def get (q : Reqs) (id : Nat) : Option SyncStatus := (q.find? (·.1 = id)).map (·.2)

/-- `SyncReqs2to1`, CommitterImpl.i.dfy:35-74 -/
def reqs2to1 (q : Reqs) : Reqs := q.map fun p => (p.1, p.2.to1)

/-- `SyncReqs3to2`, CommitterImpl.i.dfy:76-111 -/
def reqs3to2 (q : Reqs) : Reqs := q.map fun p => (p.1, p.2.to2)

/-- `freeId`, CommitterImpl.i.dfy:799-810, over `LinearMutableMap.MaxKey` -/
def freeId (q : Reqs) : Nat :=
  let m := (q.map (·.1)).foldl max 0
  if m = 2 ^ 64 - 1 then 0 else m + 1

namespace State
variable (s : State)

/-- `journalAppend`, CommitterImpl.i.dfy:263-277 -/
def append (e : Entry) : State := { s with journalist := s.journalist.append e }

/-- `journalReplayOne`, CommitterImpl.i.dfy:279-295 -/
def replayOne : State := { s with journalist := s.journalist.replayPop }

/-- `pageInSuperblockReq`, CommitterImpl.i.dfy:297-347 -/
def pageInSb (w : Bool) (id : ReqId) : Op × State :=
  if s.sbRead w = none then (.reqRead id (sbLoc w), { s with sbRead := setAt s.sbRead w (some id) })
  else (.none, s)

/-- `finishLoadingSuperblockPhase`, CommitterImpl.i.dfy:349-378; the arguments are the two superblocks
read. -/
def finishSb (sb1 sb2 : Superblock) : State :=
  let idx := decide (sb2.counter = incr sb1.counter)
  { s with
    which := idx
    sb := if idx then sb2 else sb1
    status := .other
    read := fun _ => none }

/-- `FinishLoadingOtherPhase`, CommitterImpl.i.dfy:380-441 -/
def finishOther : State :=
  match s.journalist.parse with
  | some j =>
    { s with
      status := .ready
      frozenLoc := none
      isFrozen := false
      frozenPos := 0
      sbWrite := none
      writes := []
      newSb := none
      commit := .none
      journalist := j.setWritten s.sb.len }
  | none => s

/-- `JournalRangeLocation`, DiskLayout.i.dfy -/
def rangeLoc (start len : Nat) : Loc := ⟨journalPoint start, 4096 * len⟩

/-- `PageInJournalReqFront`, CommitterImpl.i.dfy:449-486 -/
def pageInFront (id : ReqId) : Op × State :=
  let len := if numJournalBlocks ≤ s.sb.start + s.sb.len then numJournalBlocks - s.sb.start else s.sb.len
  (.reqRead id (rangeLoc s.sb.start len),
    { s with read := fun x =>
        if x = false then some id else if s.read x = some id then none else s.read x })

/-- `PageInJournalReqBack`, CommitterImpl.i.dfy:488-518 -/
def pageInBack (id : ReqId) : Op × State :=
  let len := s.sb.start + s.sb.len - numJournalBlocks
  (.reqRead id (rangeLoc 0 len),
    { s with read := fun x =>
        if x = true then some id else if s.read x = some id then none else s.read x })

/-- `pageInJournalResp`, CommitterImpl.i.dfy:520-562 -/
def pageInResp (crc : List UInt8 → List UInt8) (id : ReqId) (bytes : List UInt8) : State :=
  match JournalBytes.rangeOfBytes crc bytes with
  | some jr =>
    if s.read false = some id then
      { s with journalist := s.journalist.setFront jr, read := setAt s.read false none }
    else if s.read true = some id then
      { s with journalist := s.journalist.setBack jr, read := setAt s.read true none }
    else s
  | none => s

/-- `tryFinishLoadingOtherPhase`, CommitterImpl.i.dfy:544-573 -/
def tryFinishOther (id : ReqId) : Op × State :=
  let hasFront := s.journalist.front.isSome
  let hasBack := s.journalist.back.isSome
  if 0 < s.sb.len ∧ s.read false = none ∧ hasFront = false then s.pageInFront id
  else if numJournalBlocks < s.sb.start + s.sb.len ∧ s.read true = none ∧ hasBack = false then s.pageInBack id
  else if (0 < s.sb.len → hasFront = true) ∧ (numJournalBlocks < s.sb.start + s.sb.len → hasBack = true) then
    (.none, s.finishOther)
  else (.none, s)

/-- `start_pos_add`, CommitterImpl.i.dfy:575-582 -/
def startPosAdd (a b : Nat) : Nat := if numJournalBlocks ≤ a + b then a + b - numJournalBlocks else a + b

/-- `WriteOutJournal`, CommitterImpl.i.dfy:584-665 -/
def writeOutJournal (crc : List UInt8 → List UInt8) (id1 id2 : ReqId) : Op × State :=
  let doingFrozen := s.journalist.hasFrozen
  let p := if doingFrozen then s.journalist.packageFrozen crc else s.journalist.packageMem crc
  let start := startPosAdd s.sb.start s.journalist.written
  let len := p.1.length / 4096
  let cut := (numJournalBlocks - start) * 4096
  let dop : Op × List ReqId :=
    if start + len ≤ numJournalBlocks then (.reqWrite id1 ⟨journalPoint start, p.1⟩, [id1])
    else (.reqWrite2 id1 id2 ⟨journalPoint start, p.1.take cut⟩ ⟨journalPoint 0, p.1.drop cut⟩, [id1, id2])
  (dop.1,
    { s with
      journalist := p.2
      writes := dop.2 ++ s.writes
      frozenPos := if doingFrozen then p.2.written else s.frozenPos
      syncReqs := if doingFrozen then s.syncReqs else reqs3to2 s.syncReqs })

/-- `writeOutSuperblockAdvanceLog`, CommitterImpl.i.dfy:667-703 -/
def writeOutSbLog (crc : List UInt8 → List UInt8) (id : ReqId) : Op × State :=
  let new : Superblock := ⟨incr s.sb.counter, s.sb.start, s.journalist.written, s.sb.loc⟩
  (.reqWrite id ⟨(sbLoc (!s.which)).addr, SuperblockBytes.marshal crc new⟩,
    { s with newSb := some new, sbWrite := some id, commit := .log })

/-- `writeOutSuperblockAdvanceLocation`, CommitterImpl.i.dfy:705-747; `loc` is `frozenLoc.value` -/
def writeOutSbLoc (crc : List UInt8 → List UInt8) (loc : Loc) (id : ReqId) : Op × State :=
  let new : Superblock :=
    ⟨incr s.sb.counter, startPosAdd s.sb.start s.frozenPos, s.journalist.written - s.frozenPos, loc⟩
  (.reqWrite id ⟨(sbLoc (!s.which)).addr, SuperblockBytes.marshal crc new⟩,
    { s with newSb := some new, sbWrite := some id, commit := .location })

/-- `freeze`, CommitterImpl.i.dfy:749-773 -/
def freeze : State :=
  { s with
    journalist := s.journalist.freeze
    frozenLoc := none
    frozenPos := s.journalist.written
    isFrozen := true
    syncReqs := reqs3to2 s.syncReqs }

/-- `receiveFrozenLoc`, CommitterImpl.i.dfy:775-792 -/
def receiveFrozenLoc (loc : Loc) : State := { s with frozenLoc := some loc }

/-- `pushSync`, CommitterImpl.i.dfy:812-830 -/
def pushSync : Nat × State :=
  let id := freeId s.syncReqs
  if id ≠ 0 ∧ s.syncReqs.length < 2 ^ 61 then (id, { s with syncReqs := (id, .s3) :: s.syncReqs })
  else (0, s)

/-- `popSync`, CommitterImpl.i.dfy:832-848 -/
def popSync (id : Nat) : State := { s with syncReqs := s.syncReqs.filter (·.1 ≠ id) }

/-- `tryAdvanceLog`, CommitterImpl.i.dfy:850-884 -/
def tryAdvanceLog (crc : List UInt8 → List UInt8) (id1 id2 : ReqId) : Op × State :=
  if s.sbWrite = none then
    if s.journalist.hasFrozen ∨ s.journalist.hasMem then s.writeOutJournal crc id1 id2
    else if s.writes = [] then s.writeOutSbLog crc id1
    else (.none, s)
  else (.none, s)

/-- `tryAdvanceLocation`, CommitterImpl.i.dfy:886-921 -/
def tryAdvanceLocation (crc : List UInt8 → List UInt8) (loc : Loc) (id1 id2 : ReqId) : Op × State :=
  if s.sbWrite = none then
    if s.journalist.hasFrozen ∨ s.journalist.hasMem then s.writeOutJournal crc id1 id2
    else if s.writes = [] then s.writeOutSbLoc crc loc id1
    else (.none, s)
  else (.none, s)

/-- `writeBackSuperblockResp`, CommitterImpl.i.dfy:923-978. `newSuperblock.value` of a missing value is
the old superblock here; it never is missing. -/
def writeBackSbResp : State :=
  if s.status = .ready ∧ s.commit = .location then
    { s with
      sbWrite := none
      sb := s.newSb.getD s.sb
      newSb := none
      which := !s.which
      syncReqs := reqs2to1 s.syncReqs
      journalist := s.journalist.updateWritten (s.journalist.written - s.frozenPos)
      frozenPos := 0
      frozenLoc := none
      isFrozen := false
      commit := .none }
  else if s.status = .ready ∧ s.commit = .log then
    { s with
      sbWrite := none
      sb := s.newSb.getD s.sb
      newSb := none
      which := !s.which
      syncReqs := reqs2to1 s.syncReqs
      commit := .none }
  else s

/-- `writeBackJournalResp`, CommitterImpl.i.dfy:980-1008 -/
def writeBackJournalResp (id : ReqId) : State := { s with writes := s.writes.filter (· ≠ id) }

/-- `readSuperblockResp`, CommitterImpl.i.dfy:1010-1051; `sb` is what `ReadSector` makes of the bytes,
if it is a superblock. -/
def readSbResp (w : Bool) (id : ReqId) (sb : Option Superblock) : State :=
  let res := match sb with
    | some x => ReadResult.success x
    | none => .corruption
  if s.sbRead w = some id then
    { s with sbGot := setAt s.sbGot w res, sbRead := setAt s.sbRead w none }
  else s

end State

/-- What the committer does in one call from outside, with the operation on the disk and the label it
shares with the block side. Guards are those of the callers. -/
inductive Next (crc : List UInt8 → List UInt8) : State → Op → VOp → State → Prop
  /-- `initialization`, CoordinationImpl.i.dfy:137-146 -/
  | finishSb {s : State} {sb1 sb2} : s.status = .superblock →
      s.sbGot false = .success sb1 → s.sbGot true = .success sb2 →
      Next crc s .none (.sendPersistentLoc (s.finishSb sb1 sb2).sb.loc) (s.finishSb sb1 sb2)
  /-- `initialization`, CoordinationImpl.i.dfy:147-160. Whether the other superblock was asked for
  first is left open. -/
  | pageSb {s : State} {w id} : s.status = .superblock → s.sbRead w = none → s.sbGot w = .unfinished →
      Next crc s (s.pageInSb w id).1 .journalInternal (s.pageInSb w id).2
  /-- `initialization`, CoordinationImpl.i.dfy:165-171 -/
  | tryFinishOther {s : State} {id} : s.status = .other →
      Next crc s (s.tryFinishOther id).1 .journalInternal (s.tryFinishOther id).2
  /-- `initialization`, CoordinationImpl.i.dfy:180-210: the block side has done the first entry to be
  replayed. -/
  | replay {s : State} {u e} : s.status = .ready → s.journalist.replayEmpty = false →
      s.journalist.replayJournal[s.journalist.replayIdx]? = some e → u.entries = [e] →
      Next crc s .none (.advance u true) s.replayOne
  /-- `jcNoOp`, CoordinationImpl.i.dfy:34-63: the block side works on itself. -/
  | rest {s : State} {vop} : vop = .statesInternal ∨ vop = .journalInternal ∨
        (vop = .advance .noop true ∧ s.status = .ready) → Next crc s .none vop s
  /-- A request of the block side to the disk, CoordinationImpl.i.dfy:172-179 and others; for the
  committer nothing happens. -/
  | away {s : State} {dop l} : (∃ id, dop = .reqRead id l) ∨ (∃ id w, dop = .reqWrite id w ∧ w.loc = l) →
      (ValidNodeLoc l ∨ ValidTableLoc l) → Next crc s dop .statesInternal s
  /-- `query` and `succ`, CoordinationImpl.i.dfy:385-485 (`isInitialized` holds): nothing to write down -/
  | look {s : State} {u} : s.status = .ready → s.journalist.replayEmpty = true → u.entries = [] →
      Next crc s .none (.advance u false) s
  /-- `insert` and `clone`, CoordinationImpl.i.dfy:487-600 -/
  | append {s : State} {u e} : s.status = .ready → s.journalist.replayEmpty = true →
      s.journalist.canAppend e = true → JournalBytes.Ok e → u.entries = [e] →
      Next crc s .none (.advance u false) (s.append e)
  /-- `doSync`, CoordinationImpl.i.dfy:242-252 -/
  | syncLocation {s : State} {loc id1 id2} : s.status = .ready → s.journalist.replayEmpty = true →
      s.isFrozen = true → s.frozenLoc = some loc →
      Next crc s (s.tryAdvanceLocation crc loc id1 id2).1 .journalInternal
        (s.tryAdvanceLocation crc loc id1 id2).2
  /-- `doSync`, CoordinationImpl.i.dfy:276-287: the block side froze. -/
  | freeze {s : State} : s.status = .ready → s.journalist.replayEmpty = true →
      s.isFrozen = false → s.sbWrite = none → Next crc s .none .freeze s.freeze
  /-- `doSync`, CoordinationImpl.i.dfy:307-316 -/
  | syncLog {s : State} {id1 id2} : s.status = .ready → s.journalist.replayEmpty = true →
      s.isFrozen = false → s.sbWrite = none →
      Next crc s (s.tryAdvanceLog crc id1 id2).1 .journalInternal (s.tryAdvanceLog crc id1 id2).2
  /-- `pushSync`, CoordinationImpl.i.dfy:90-114 -/
  | pushSync {s : State} :
      Next crc s .none (if s.pushSync.1 = 0 then .journalInternal else .pushSync s.pushSync.1) s.pushSync.2
  /-- `popSync`, CoordinationImpl.i.dfy:346-372 -/
  | popSync {s : State} {id} : get s.syncReqs id = some .s1 → Next crc s .none (.popSync id) (s.popSync id)
  /-- `readResponse`, HandleReadResponseImpl.i.dfy:36-57, 64-66, 82-84: for the block side, or too late -/
  | readAway {s : State} {id r vop} : ValidNodeLoc r.loc ∨ ValidTableLoc r.loc ∨
        (ValidJournalLoc r.loc ∧ s.status ≠ .other) → vop = .statesInternal ∨ vop = .journalInternal →
      Next crc s (.respRead id r) vop s
  /-- `readResponse`, HandleReadResponseImpl.i.dfy:58-63 -/
  | readJournal {s : State} {id r} : ValidJournalLoc r.loc → s.status = .other →
      Next crc s (.respRead id r) .journalInternal (s.pageInResp crc id r.bytes)
  /-- `readResponse`, HandleReadResponseImpl.i.dfy:70-81 -/
  | readSb {s : State} {id r w} : r.loc = sbLoc w →
      Next crc s (.respRead id r) .journalInternal (s.readSbResp w id (SuperblockBytes.ofBytes crc r.bytes))
  /-- `writeResponse`, HandleWriteResponseImpl.i.dfy:37-46: for the block side -/
  | writtenAway {s : State} {id l vop} : ValidNodeLoc l ∨ ValidTableLoc l →
      vop = .statesInternal ∨ vop = .journalInternal → Next crc s (.respWrite id l) vop s
  /-- `writeResponse`, HandleWriteResponseImpl.i.dfy:46-54: the block side has written its table. -/
  | receiveFrozenLoc {s : State} {id l loc} : ValidTableLoc l →
      Next crc s (.respWrite id l) (.sendFrozenLoc loc) (s.receiveFrozenLoc loc)
  /-- `writeResponse`, HandleWriteResponseImpl.i.dfy:55-63 -/
  | writtenJournal {s : State} {id l} : s.status = .ready → ValidJournalLoc l →
      Next crc s (.respWrite id l) .journalInternal (s.writeBackJournalResp id)
  /-- `writeResponse`, HandleWriteResponseImpl.i.dfy:64-82 -/
  | writtenSb {s : State} {id l w} : l = sbLoc w → s.sbWrite = some id →
      Next crc s (.respWrite id l)
        (if s.status = .ready ∧ s.commit = .location then .cleanUp else .journalInternal) s.writeBackSbResp
  /-- `writeResponse`, HandleWriteResponseImpl.i.dfy:83-96 -/
  | writtenLate {s : State} {id l} : (ValidJournalLoc l ∧ s.status ≠ .ready) ∨
        ((∃ w, l = sbLoc w) ∧ s.sbWrite ≠ some id) →
      Next crc s (.respWrite id l) .journalInternal s

end Verif.Kv.Committer
