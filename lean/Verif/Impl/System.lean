import Verif.Base.MSet
import Verif.Spec.MapSpec
import Verif.Disk.AsyncDisk
/-
The program model and the system it runs in. Models
Splinter/src/implementation/{DiskLayout_v,AtomicState_v,ConcreteProgramModel_v}.rs and
Splinter/src/trusted/{ProgramModelTrait_t,SystemModel_t}.rs.
-/
namespace Verif
open AsyncDisk (Req Resp)

/-- DiskLayout_v.rs 38-42 `Superblock` -/
structure Superblock where
  store : Version
  version : Nat

/-- DiskLayout_v.rs 82-90 `spec_marshall`, `spec_unmarshall`. Both are `arbitrary()` in the
source; the round trip is `ModelRefinement_v.rs` 23-27 `unmarshall_marshall` (there an
`assume(false)`), here a field. `Codec.exists_codec` (Impl/Codec.lean) shows that such a pair exists. -/
structure Codec where
  marshall : Superblock → RawPage
  unmarshall : RawPage → Superblock
  roundTrip : ∀ sb, unmarshall (marshall sb) = sb

/-- DiskLayout_v.rs 108-110 `spec_superblock_addr` -/
def sbAddr : Address := ⟨0, 0⟩

/-- DiskLayout_v.rs 19-23 `singleton_floating_seq` -/
def singletonSeq (i : Nat) (m : Version) : FloatingSeq Version := FloatingSeq.new i (i + 1) fun _ => m

/-- the map with one entry; `multiset_to_map(Multiset::singleton((id, r)))`
(MultisetMapRelation_v.rs 15-21, 128-136) -/
def one {V : Type} (id : AsyncDisk.ID) (r : V) : PMap AsyncDisk.ID V := PMap.empty.insert id r

/-- AtomicState_v.rs 13-20 -/
inductive Recovery
  | begin
  | awaitingSuperblock
  | complete
  deriving DecidableEq

/-- AtomicState_v.rs 22-25 -/
structure InflightInfo where
  version : Nat
  reqId : AsyncDisk.ID

/-- AtomicState_v.rs 27-41 -/
structure AtomicState where
  recovery : Recovery
  history : FloatingSeq Version
  persistent : Nat
  inFlight : Option InflightInfo
  syncReqs : PMap SyncReqId Nat

namespace AtomicState

/-- AtomicState_v.rs 225-228 -/
def clientReady (s : AtomicState) : Prop := s.recovery = .complete

/-- AtomicState_v.rs 83-93. The fields other than the recovery state are `arbitrary()`, one
unspecified value; here any value. -/
def Init (s : AtomicState) : Prop := s.recovery = .begin

/-- AtomicState_v.rs 95-106, with `valid_request_reply_pair` (50-56) and `to_map_label` (58-68):
equal ids, and input and output of the same kind (which `MapSpec.Next` implies). `mapspec()`
(221-223) is the last version, here required to exist. -/
inductive MapTransition : AtomicState → Request → Reply → AtomicState → Prop
  | mk {s : AtomicState} {req : Request} {reply : Reply} {h' : FloatingSeq Version} {m m'}
      (hr : s.clientReady) (hlo : s.history.len ≤ h'.len) (hhi : h'.len ≤ s.history.len + 1)
      (hp : h'.getPrefix s.history.len = s.history) (hid : req.id = reply.id)
      (hm : s.history.last? = some m) (hm' : h'.last? = some m')
      (hn : MapSpec.Next m req.input reply.output m') :
      MapTransition s req reply { s with history := h' }

/-- AtomicState_v.rs 108-116 -/
inductive AcceptSync : AtomicState → SyncReqId → AtomicState → Prop
  | mk {s : AtomicState} {id} (hr : s.clientReady) :
      AcceptSync s id { s with syncReqs := s.syncReqs.insert id (s.history.len - 1) }

/-- AtomicState_v.rs 118-127 -/
inductive DeliverSync : AtomicState → SyncReqId → AtomicState → Prop
  | mk {s : AtomicState} {id} (hr : s.clientReady)
      (hv : ∀ v, s.syncReqs id = some v → v ≤ s.history.firstActiveIndex) :
      DeliverSync s id { s with syncReqs := s.syncReqs.remove id }

/-- AtomicState_v.rs 192-200 `disk_transition`: the requests issued and responses consumed, as
maps (they are singleton or empty multisets). -/
inductive DiskTransition (c : Codec) :
    AtomicState → PMap AsyncDisk.ID Req → PMap AsyncDisk.ID Resp → AtomicState → Prop
  /-- 129-137 `initiate_recovery` -/
  | initiateRecovery {s : AtomicState} {id} (hr : s.recovery = .begin) :
      DiskTransition c s (one id (.read sbAddr)) PMap.empty
        { s with recovery := .awaitingSuperblock }
  /-- 139-155 `complete_recovery` -/
  | completeRecovery {s : AtomicState} {id raw} (hr : s.recovery = .awaitingSuperblock) :
      DiskTransition c s PMap.empty (one id (.read raw))
        { recovery := .complete
          history := singletonSeq (c.unmarshall raw).version (c.unmarshall raw).store
          persistent := (c.unmarshall raw).version
          inFlight := none
          syncReqs := PMap.empty }
  /-- 157-171 `execute_sync_begin`, with `ephemeral_sb` (238-245): the last version, here
  required to exist -/
  | syncBegin {s : AtomicState} {id m} (hr : s.clientReady) (hf : s.inFlight = none)
      (hm : s.history.last? = some m) :
      DiskTransition c s (one id (.write sbAddr (c.marshall ⟨m, s.history.len - 1⟩))) PMap.empty
        { s with inFlight := some ⟨s.history.len - 1, id⟩ }
  /-- 173-190 `execute_sync_end` -/
  | syncEnd {s : AtomicState} {i : InflightInfo} (hr : s.clientReady) (hf : s.inFlight = some i) :
      DiskTransition c s PMap.empty (one i.reqId .write)
        { s with
          recovery := .complete
          history := s.history.getSuffix i.version
          inFlight := none
          persistent := i.version }

end AtomicState

namespace Sys

/-- SystemModel_t.rs 24-40: the fields. The program is `ConcreteProgramModel`
(ConcreteProgramModel_v.rs 13-15), a wrapper around `AtomicState`. -/
structure State where
  program : AtomicState
  disk : AsyncDisk.State
  requests : MSet Request
  replies : MSet Reply
  syncRequests : MSet SyncReqId
  syncReplies : MSet SyncReqId
  idHistory : MSet ReqId

/-- SystemModel_t.rs 44-69 with ProgramModelTrait_t.rs 22-35 flattened in. `DiskInternal` is split
as in `AsyncDisk.Event`. -/
inductive Label
  | acceptRequest (req : Request)
  | deliverReply (reply : Reply)
  | acceptSync (id : SyncReqId)
  | deliverSync (id : SyncReqId)
  | execute (req : Request) (reply : Reply)
  | programAcceptSync (id : SyncReqId)
  | programDeliverSync (id : SyncReqId)
  | programDisk (reqs : PMap AsyncDisk.ID Req) (resps : PMap AsyncDisk.ID Resp)
  | programInternal
  | diskRead (id : AsyncDisk.ID) (a : Address) (d : RawPage)
  | diskWrite (id : AsyncDisk.ID) (a : Address) (d : RawPage)
  | crash
  | noop

/-- SystemModel_t.rs 70-81 `initialize` with ConcreteProgramModel_v.rs 27-38 and DiskLayout_v.rs
118-126 `mkfs` -/
structure Init (c : Codec) (s : State) : Prop where
  mkfs : s.disk.content sbAddr = some (c.marshall ⟨TotalKMMap.empty, 0⟩)
  noReqs : s.disk.requests = PMap.empty
  noResps : s.disk.responses = PMap.empty
  program : s.program.Init
  requests : s.requests = MSet.empty
  replies : s.replies = MSet.empty
  syncRequests : s.syncRequests = MSet.empty
  syncReplies : s.syncReplies = MSet.empty
  idHistory : s.idHistory = MSet.empty

/-- SystemModel_t.rs 83-89 `fresh_id` -/
def State.freshId (s : State) (id : ReqId) : Prop := ¬ s.idHistory.Has id

/-- SystemModel_t.rs 92-197: the transitions, with ConcreteProgramModel_v.rs 40-66 `next` for the
program part. -/
inductive Next (c : Codec) (g : Geometry) : State → Label → State → Prop
  /-- 92-97 -/
  | acceptRequest {s : State} {req} (hf : s.freshId req.id) :
      Next c g s (.acceptRequest req)
        { s with requests := s.requests.insert req, idHistory := s.idHistory.insert req.id }
  /-- 100-104 -/
  | deliverReply {s : State} {reply} (h : s.replies.Has reply) :
      Next c g s (.deliverReply reply) { s with replies := s.replies.remove reply }
  /-- 106-116 -/
  | execute {s : State} {req reply p'} (h : s.requests.Has req)
      (hp : AtomicState.MapTransition s.program req reply p') :
      Next c g s (.execute req reply)
        { s with
          program := p'
          requests := s.requests.remove req
          replies := s.replies.insert reply }
  /-- 124-129 -/
  | acceptSync {s : State} {id} (hf : s.freshId id) :
      Next c g s (.acceptSync id)
        { s with syncRequests := s.syncRequests.insert id, idHistory := s.idHistory.insert id }
  /-- 131-138 -/
  | programAcceptSync {s : State} {id p'} (hp : AtomicState.AcceptSync s.program id p') :
      Next c g s (.programAcceptSync id)
        { s with program := p', syncRequests := s.syncRequests.remove id }
  /-- 140-147 -/
  | programDeliverSync {s : State} {id p'} (hp : AtomicState.DeliverSync s.program id p') :
      Next c g s (.programDeliverSync id)
        { s with program := p', syncReplies := s.syncReplies.insert id }
  /-- 150-154 -/
  | deliverSync {s : State} {id} (h : s.syncReplies.Has id) :
      Next c g s (.deliverSync id) { s with syncReplies := s.syncReplies.remove id }
  /-- 156-169 -/
  | programDisk {s : State} {rq rs p' d'} (hp : AtomicState.DiskTransition c s.program rq rs p')
      (hd : AsyncDisk.Next g s.disk (.ops rq rs) d') :
      Next c g s (.programDisk rq rs) { s with program := p', disk := d' }
  /-- 171-175, AtomicState_v.rs 215-220 -/
  | programInternal {s : State} (hr : s.program.clientReady) : Next c g s .programInternal s
  /-- 177-181, processing a read -/
  | diskRead {s : State} {id a d d'} (hd : AsyncDisk.Next g s.disk (.didRead id a d) d') :
      Next c g s (.diskRead id a d) { s with disk := d' }
  /-- 177-181, processing a write -/
  | diskWrite {s : State} {id a d d'} (hd : AsyncDisk.Next g s.disk (.didWrite id a d) d') :
      Next c g s (.diskWrite id a d) { s with disk := d' }
  /-- 183-193 (`sync_replies` is not cleared) -/
  | crash {s : State} {p' d'} (hp : p'.Init) (hd : AsyncDisk.Next g s.disk .crash d') :
      Next c g s .crash
        { s with
          program := p'
          disk := d'
          requests := MSet.empty
          replies := MSet.empty
          syncRequests := MSet.empty }
  /-- 195-197 -/
  | noop {s : State} : Next c g s .noop s

/-- The system exactly as written. -/
def machine (c : Codec) (g : Geometry) : Machine State Label := ⟨Init c, Next c g⟩

/-- What the source's sync steps do not require but its clients obey: the program takes a sync
request from those received from the client (KVStoreTokenized_t.rs 96-104 consumes the request
token), and answers one it has accepted and not answered (the executable code only answers
requests in its buffer, Implementation_v.rs 565-594). -/
def Guard (s : State) : Label → Prop
  | .programAcceptSync id => s.syncRequests.Has id
  | .programDeliverSync id => s.program.syncReqs.Has id
  | _ => True

/-- The system under that discipline. -/
def strictMachine (c : Codec) (g : Geometry) : Machine State Label :=
  ⟨Init c, fun s l s' => Next c g s l s' ∧ Guard s l⟩

/-! ### Translation of events to the specification's -/

/-- RefinementObligation_t.rs 34-62 `label_correspondence` and ModelRefinement_v.rs 249-293 `i_lbl`;
a processed write is the only superblock write that can be outstanding, hence a sync. -/
def toSpec : Label → CTAM.Label
  | .acceptRequest req => .operate (.request req)
  | .deliverReply reply => .operate (.reply reply)
  | .execute req reply => .operate (.execute req reply)
  | .programAcceptSync id => .reqSync id
  | .programDeliverSync id => .replySync id
  | .diskWrite _ _ _ => .sync
  | .crash => .crash
  | _ => .noop

end Sys
end Verif
