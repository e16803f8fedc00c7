import Verif.Base.PMap
import Verif.Base.Trace
import Verif.Spec.Messages
import Verif.Spec.FloatingSeq
/-
Model of Splinter/src/spec/MapSpec_t.rs: MapSpec, AsyncMap, CrashTolerantAsyncMap.
-/
namespace Verif

/-- MapSpec_t.rs 27-31 -/
inductive Input where
  | query (key : Key)
  | put (key : Key) (value : Value)
  | noop
  deriving DecidableEq, Repr

/-- MapSpec_t.rs 36-41 -/
inductive Output where
  | query (value : Value)
  | put
  | noop
  deriving DecidableEq, Repr

/-- MapSpec_t.rs 77-125. State is the total map. The label (`Query`/`Put`/`Noop` with input and
output, 80-84) is modelled by the pair of input and output: each transition fixes which
input constructor goes with which label constructor.
In `query` the Rust accessor `kmmap[key]->value` is unspecified on an `Update` message; the
model only allows the query when the stored message is a `Define` (reachable maps hold only
`Define`s, `CTAM.Inv`). -/
inductive MapSpec.Next : TotalKMMap → Input → Output → TotalKMMap → Prop
  /-- 95-104 -/
  | query {m k v} : m k = .define v → Next m (.query k) (.query v) m
  /-- 106-115 -/
  | put {m k v} : Next m (.put k v) .put (m.insert k (.define v))
  /-- 117-124 -/
  | noop {m} : Next m .noop .noop m

/-- MapSpec_t.rs 178 `ID = u64`; ids of client requests -/
abbrev ReqId := UInt64

/-- MapSpec_t.rs 182-185 -/
structure Request where
  input : Input
  id : ReqId
  deriving DecidableEq, Repr

/-- MapSpec_t.rs 188-191 -/
structure Reply where
  output : Output
  id : ReqId
  deriving DecidableEq, Repr

/-- MapSpec_t.rs 205-207 `PersistentState{appv: MapSpec::State}` and 326 `Version`
(wrapper structs dropped) -/
abbrev Version := TotalKMMap

/-- MapSpec_t.rs 230-236 -/
structure EphemeralState where
  requests : PSet Request
  replies : PSet Reply

/-- MapSpec_t.rs 265-267 -/
def EphemeralState.init : EphemeralState := { requests := PSet.empty, replies := PSet.empty }

namespace AsyncMap

/-- MapSpec_t.rs 251-259 -/
inductive Label where
  | request (req : Request)
  | execute (req : Request) (reply : Reply)
  | reply (reply : Reply)
  deriving DecidableEq

/-- MapSpec_t.rs 269-276 -/
structure State where
  persistent : Version
  ephemeral : EphemeralState

/-- MapSpec_t.rs 280-319 -/
inductive Next : State → Label → State → Prop
  /-- 280-288 -/
  | request {s : State} {req} :
      ¬ s.ephemeral.requests req →
      Next s (.request req)
        { s with ephemeral := { s.ephemeral with requests := s.ephemeral.requests.insert req } }
  /-- 292-313 -/
  | execute {s : State} {req : Request} {reply : Reply} {p' : Version} :
      req.id = reply.id →
      s.ephemeral.requests req →
      ¬ s.ephemeral.replies reply →
      MapSpec.Next s.persistent req.input reply.output p' →
      Next s (.execute req reply)
        { persistent := p',
          ephemeral := { requests := s.ephemeral.requests.remove req,
                         replies := s.ephemeral.replies.insert reply } }
  /-- 315-319 -/
  | reply {s : State} {reply} :
      s.ephemeral.replies reply →
      Next s (.reply reply)
        { s with ephemeral := { s.ephemeral with replies := s.ephemeral.replies.remove reply } }

end AsyncMap

/-- MapSpec_t.rs 322 `SyncReqId = u64` -/
abbrev SyncReqId := UInt64

namespace CTAM

/-- MapSpec_t.rs 366-373 -/
inductive Label where
  | operate (op : AsyncMap.Label)
  | crash
  | sync
  | reqSync (id : SyncReqId)
  | replySync (id : SyncReqId)
  | noop
  deriving DecidableEq

/-- MapSpec_t.rs 342-364 -/
structure State where
  versions : FloatingSeq Version
  ephemeral : EphemeralState
  syncRequests : PMap SyncReqId Nat

/-- MapSpec_t.rs 378-380 -/
def State.stableIndex (s : State) : Nat := s.versions.firstActiveIndex

/-- MapSpec_t.rs 383-387 `initialize` -/
def Init (s : State) : Prop :=
  s = { versions := FloatingSeq.new 0 1 fun _ => TotalKMMap.empty
        ephemeral := EphemeralState.init
        syncRequests := PMap.empty }

/-- MapSpec_t.rs 392-399 -/
def OptionallyAppendVersion (v v' : FloatingSeq Version) : Prop :=
  (0 < v'.len ∧ v'.dropLast = v) ∨ v' = v

/-- MapSpec_t.rs 404-499 -/
inductive Next : State → Label → State → Prop
  /-- 404-426 `operate`. `last` of a sequence without active index is unspecified in the code;
  the model requires it to exist (it always does, `the_inv` 503-506). -/
  | operate {s : State} {op : AsyncMap.Label} {versions' eph' p p'} :
      OptionallyAppendVersion s.versions versions' →
      s.versions.last? = some p →
      versions'.last? = some p' →
      AsyncMap.Next { persistent := p, ephemeral := s.ephemeral } op
        { persistent := p', ephemeral := eph' } →
      Next s (.operate op) { s with versions := versions', ephemeral := eph' }
  /-- 431-443 -/
  | crash {s : State} :
      Next s .crash
        { versions := s.versions.getPrefix (s.stableIndex + 1)
          ephemeral := EphemeralState.init
          syncRequests := PMap.empty }
  /-- 446-459 -/
  | sync {s : State} {newStable : Nat} :
      s.stableIndex ≤ newStable → newStable < s.versions.len →
      Next s .sync { s with versions := s.versions.getSuffix newStable }
  /-- 465-474 -/
  | reqSync {s : State} {id} :
      ¬ s.syncRequests.Has id →
      Next s (.reqSync id)
        { s with syncRequests := s.syncRequests.insert id (s.versions.len - 1) }
  /-- 481-491 -/
  | replySync {s : State} {id v} :
      s.syncRequests id = some v →
      v ≤ s.stableIndex →
      Next s (.replySync id) { s with syncRequests := s.syncRequests.remove id }
  /-- 495-499 -/
  | noop {s : State} : Next s .noop s

def machine : Machine State Label := { Init := Init, Step := Next }

end CTAM
end Verif
