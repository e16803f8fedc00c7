import Verif.Impl.System
import Verif.Abs.MsgHistory
/-
The executable program. Models Splinter/src/implementation/Implementation_v.rs: the in-memory
journal, the buffer of sync requests, the superblock writes and the main loop, running against the
same client queues and disk as `Sys`.

Each step of the model is one visible action of the code (one tokenized transition, or one silent
move of the program counter); a handler that performs several is a sequence of steps, between
which the disk may act and the system may crash.
-/
namespace Verif.Impl
open AsyncDisk (Req Resp)

/-- DiskLayout_v.rs 45-48 `Journal`. `seq_start: u64` is a natural number here. -/
structure Journal where
  msgs : List KeyedMessage
  seqStart : LSN

namespace Journal

/-- DiskLayout_v.rs 50-64 `view` -/
def view (j : Journal) : MsgHistory :=
  { msgs := fun k => if j.seqStart ≤ k then j.msgs[k - j.seqStart]? else none
    seqStart := j.seqStart
    seqEnd := j.msgs.length + j.seqStart }

/-- Implementation_v.rs 111-115 `new_empty` -/
def newEmpty : Journal := ⟨[], 0⟩

/-- Implementation_v.rs 117-127 `insert` -/
def insert (j : Journal) (k : Key) (v : Value) : Journal :=
  { j with msgs := j.msgs ++ [⟨k, .define v⟩] }

/-- Implementation_v.rs 106-109 `to_stamped_map` -/
def toStampedMap (j : Journal) : StampedMap := MsgHistory.mapPlusHistory StampedMap.empty j.view

/-- DiskLayout_v.rs 66-81: the view of an `ISuperblock` holding this journal -/
def superblock (j : Journal) : Superblock := ⟨j.toStampedMap.value, j.toStampedMap.seqEnd⟩

/-- Implementation_v.rs 152-157 `view_as_floating_versions`, with
AbstractCrashAwareSystemRefinement_v.rs 227-249 `floating_versions` from the empty map -/
def floatingVersions (j : Journal) : FloatingSeq Version :=
  FloatingSeq.new j.seqStart (j.view.seqEnd + 1) fun lsn =>
    (MsgHistory.mapPlusHistory StampedMap.empty (j.view.discardRecent lsn)).value

end Journal

/-- DiskLayout_v.rs 93-107 `marshall`, `unmarshall` (bodies are `assume(false)` in the source). Their
postconditions are `out == spec_marshall(sb@)` and `out@ == spec_unmarshall(raw_page)`; the first
becomes the model's `c.marshall j.superblock`. The second cannot be met on every page
(`C33.no_executable_unmarshall`), so here it is only required of pages that the program writes,
and that the journal it returns starts at 0 as every journal the program writes does. -/
structure ICodec (c : Codec) where
  unmarshall : RawPage → Journal
  start : ∀ j : Journal, j.seqStart = 0 → (unmarshall (c.marshall j.superblock)).seqStart = 0
  roundTrip : ∀ j : Journal, j.seqStart = 0 →
    (unmarshall (c.marshall j.superblock)).superblock = j.superblock

/-- Two places where the code is unfinished, as parameters: the journal after recovery, from the
journal in memory and the one in the superblock read (Implementation_v.rs 862-877: the assignment is
commented out), and whether queries are answered (370-420: the body is commented out). -/
structure Variant where
  restore : Journal → Journal → Journal
  answersQueries : Bool

/-- The code as written: recovery leaves the empty journal in place, queries get no answer. -/
def asWritten : Variant := ⟨fun own _ => own, false⟩

/-- The code with these two finished. -/
def finished : Variant := ⟨fun _ read => read, true⟩

/-- Where the program is between two visible actions. -/
inductive PC
  /-- in the main loop -/
  | idle
  /-- about to call `maybe_launch_superblock` -/
  | launch
  /-- in the loop of `deliver_inflight_replies`, with the requests still to answer -/
  | delivering (ready : List SyncReqId)

/-- Implementation_v.rs 132-143 `Implementation` (ghost tokens dropped), 57-61 `SyncRequestBuffer`
(requests by their ids), the position in the code, and the surroundings as in `Sys.State`. -/
structure State where
  recovery : Recovery
  pc : PC
  journal : Journal
  satisfied : List SyncReqId
  deferred : List SyncReqId
  disk : AsyncDisk.State
  requests : MSet Request
  replies : MSet Reply
  syncRequests : MSet SyncReqId
  syncReplies : MSet SyncReqId
  idHistory : MSet ReqId

/-- Implementation_v.rs 944-964 `new`, with the surroundings of `Sys.Init`. The formatted disk holds
the empty superblock (DiskLayout_v.rs 118-126 `mkfs`). -/
structure Init (c : Codec) (s : State) : Prop where
  mkfs : s.disk.content sbAddr = some (c.marshall ⟨TotalKMMap.empty, 0⟩)
  noReqs : s.disk.requests = PMap.empty
  noResps : s.disk.responses = PMap.empty
  recovery : s.recovery = .begin
  pc : s.pc = .idle
  journal : s.journal = Journal.newEmpty
  satisfied : s.satisfied = []
  deferred : s.deferred = []
  requests : s.requests = MSet.empty
  replies : s.replies = MSet.empty
  syncRequests : s.syncRequests = MSet.empty
  syncReplies : s.syncReplies = MSet.empty
  idHistory : s.idHistory = MSet.empty

/-- The steps. Labels are those of `Sys`. -/
inductive Next (c : Codec) (ic : ICodec c) (w : Variant) (g : Geometry) :
    State → Sys.Label → State → Prop
  /-- SystemModel_t.rs 92-97 -/
  | acceptRequest {s : State} {req : Request} (hf : ¬ s.idHistory.Has req.id) :
      Next c ic w g s (.acceptRequest req)
        { s with requests := s.requests.insert req, idHistory := s.idHistory.insert req.id }
  /-- SystemModel_t.rs 100-104 -/
  | deliverReply {s : State} {reply} (h : s.replies.Has reply) :
      Next c ic w g s (.deliverReply reply) { s with replies := s.replies.remove reply }
  /-- SystemModel_t.rs 124-129 -/
  | acceptSync {s : State} {id} (hf : ¬ s.idHistory.Has id) :
      Next c ic w g s (.acceptSync id)
        { s with syncRequests := s.syncRequests.insert id, idHistory := s.idHistory.insert id }
  /-- SystemModel_t.rs 150-154 -/
  | deliverSync {s : State} {id} (h : s.syncReplies.Has id) :
      Next c ic w g s (.deliverSync id) { s with syncReplies := s.syncReplies.remove id }
  /-- SystemModel_t.rs 177-181, processing a read -/
  | diskRead {s : State} {id a d d'} (hd : AsyncDisk.Next g s.disk (.didRead id a d) d') :
      Next c ic w g s (.diskRead id a d) { s with disk := d' }
  /-- SystemModel_t.rs 177-181, processing a write -/
  | diskWrite {s : State} {id a d d'} (hd : AsyncDisk.Next g s.disk (.didWrite id a d) d') :
      Next c ic w g s (.diskWrite id a d) { s with disk := d' }
  /-- SystemModel_t.rs 183-193; the program starts again with `new` (Implementation_v.rs 944-964) -/
  | crash {s : State} {d'} (hd : AsyncDisk.Next g s.disk .crash d') :
      Next c ic w g s .crash
        { s with
          recovery := .begin
          pc := .idle
          journal := Journal.newEmpty
          satisfied := []
          deferred := []
          disk := d'
          requests := MSet.empty
          replies := MSet.empty
          syncRequests := MSet.empty }
  /-- Implementation_v.rs 797-846 `recover`, first half: read the superblock -/
  | recoverBegin {s : State} {id d'} (hr : s.recovery = .begin)
      (hd : AsyncDisk.Next g s.disk (.ops (one id (.read sbAddr)) PMap.empty) d') :
      Next c ic w g s (.programDisk (one id (.read sbAddr)) PMap.empty)
        { s with recovery := .awaitingSuperblock, disk := d' }
  /-- Implementation_v.rs 850-923 `recover`, second half -/
  | recoverEnd {s : State} {id raw d'} (hr : s.recovery = .awaitingSuperblock)
      (hd : AsyncDisk.Next g s.disk (.ops PMap.empty (one id (.read raw))) d') :
      Next c ic w g s (.programDisk PMap.empty (one id (.read raw)))
        { s with
          recovery := .complete
          journal := w.restore s.journal (ic.unmarshall raw)
          disk := d' }
  /-- Implementation_v.rs 242-287 `handle_noop` -/
  | noop {s : State} {id} (hr : s.recovery = .complete) (hpc : s.pc = .idle)
      (h : s.requests.Has ⟨.noop, id⟩) :
      Next c ic w g s (.execute ⟨.noop, id⟩ ⟨.noop, id⟩)
        { s with
          requests := s.requests.remove ⟨.noop, id⟩
          replies := s.replies.insert ⟨.noop, id⟩ }
  /-- Implementation_v.rs 289-355 `handle_put` -/
  | put {s : State} {k v id} (hr : s.recovery = .complete) (hpc : s.pc = .idle)
      (h : s.requests.Has ⟨.put k v, id⟩) :
      Next c ic w g s (.execute ⟨.put k v, id⟩ ⟨.put, id⟩)
        { s with
          journal := s.journal.insert k v
          requests := s.requests.remove ⟨.put k v, id⟩
          replies := s.replies.insert ⟨.put, id⟩ }
  /-- Implementation_v.rs 370-420 `handle_query` with its body; the lookup is in the map that the
  journal stands for (the commented-out code looks in a hash map that no longer exists). -/
  | query {s : State} {k v id} (hw : w.answersQueries = true) (hr : s.recovery = .complete)
      (hpc : s.pc = .idle) (h : s.requests.Has ⟨.query k, id⟩)
      (hv : s.journal.toStampedMap.value k = .define v) :
      Next c ic w g s (.execute ⟨.query k, id⟩ ⟨.query v, id⟩)
        { s with
          requests := s.requests.remove ⟨.query k, id⟩
          replies := s.replies.insert ⟨.query v, id⟩ }
  /-- Implementation_v.rs 370-420 `handle_query` as written: the request is taken and dropped. The
  specification cannot drop it, so it stays in the queue here and is never executed. -/
  | queryIgnored {s : State} {k id} (hw : w.answersQueries = false) (hr : s.recovery = .complete)
      (hpc : s.pc = .idle) (h : s.requests.Has ⟨.query k, id⟩) :
      Next c ic w g s .noop s
  /-- Implementation_v.rs 422-467 `handle_sync_request`, up to the call of `maybe_launch_superblock` -/
  | syncRequest {s : State} {id} (hr : s.recovery = .complete) (hpc : s.pc = .idle)
      (h : s.syncRequests.Has id) :
      Next c ic w g s (.programAcceptSync id)
        { s with
          pc := .launch
          deferred := s.deferred ++ [id]
          syncRequests := s.syncRequests.remove id }
  /-- Implementation_v.rs 470-484 `maybe_launch_superblock`, the cases that do nothing -/
  | launchSkip {s : State} (hr : s.recovery = .complete) (hpc : s.pc = .launch)
      (h : s.deferred = [] ∨ s.satisfied ≠ []) :
      Next c ic w g s .noop { s with pc := .idle }
  /-- Implementation_v.rs 470-484 and 486-563 `send_superblock` -/
  | launchWrite {s : State} {id d'} (hr : s.recovery = .complete) (hpc : s.pc = .launch)
      (h1 : s.deferred ≠ []) (h2 : s.satisfied = [])
      (hd : AsyncDisk.Next g s.disk
        (.ops (one id (.write sbAddr (c.marshall s.journal.superblock))) PMap.empty) d') :
      Next c ic w g s (.programDisk (one id (.write sbAddr (c.marshall s.journal.superblock))) PMap.empty)
        { s with
          pc := .idle
          satisfied := s.deferred
          deferred := s.satisfied
          disk := d' }
  /-- Implementation_v.rs 717-778 `handle_disk_response`, up to the call of
  `deliver_inflight_replies`. The kind of response is not looked at. -/
  | diskResponse {s : State} {id resp d'} (hr : s.recovery = .complete) (hpc : s.pc = .idle)
      (hd : AsyncDisk.Next g s.disk (.ops PMap.empty (one id resp)) d') :
      Next c ic w g s (.programDisk PMap.empty (one id resp))
        { s with
          pc := .delivering s.satisfied
          satisfied := []
          disk := d' }
  /-- Implementation_v.rs 565-594 `deliver_inflight_replies`, one round of the loop, with 622-659
  `send_sync_response` -/
  | reply {s : State} {ready id} (hr : s.recovery = .complete) (hpc : s.pc = .delivering (ready ++ [id])) :
      Next c ic w g s (.programDeliverSync id)
        { s with pc := .delivering ready, syncReplies := s.syncReplies.insert id }
  /-- Implementation_v.rs 592, 780-783: the loop ends, `maybe_launch_superblock` follows -/
  | repliesDone {s : State} (hr : s.recovery = .complete) (hpc : s.pc = .delivering []) :
      Next c ic w g s .noop { s with pc := .launch }

def machine (c : Codec) (ic : ICodec c) (w : Variant) (g : Geometry) : Machine State Sys.Label :=
  ⟨Init c, Next c ic w g⟩

end Verif.Impl
