import Verif.Spec.MapSpec
import Verif.Abs.Machines
/-
Model of Splinter/src/abstract_system/AbstractCrashAwareSystem_v.rs (CoordinationSystem).
-/
namespace Verif.Coord
open Verif

/-- AbstractCrashAwareSystem_v.rs 38-45 -/
structure Known where
  progress : EphemeralState
  syncReqs : PMap SyncReqId LSN
  mapLsn : LSN

/-- AbstractCrashAwareSystem_v.rs 52-91 -/
structure State where
  journal : CTJournal.State
  mapadt : CTMap.State
  ephemeral : Option Known
  superblockInFlight : Bool

/-- AbstractCrashAwareSystem_v.rs 101-125 -/
def Init (s : State) : Prop :=
  CTJournal.Init s.journal ∧ CTMap.Init s.mapadt ∧ s.ephemeral = none ∧
  s.superblockInFlight = false

/-- All transitions except `commit_start`; labels are the CTAM labels (97-99).
Arguments such as `new_journal` are implicit in the constructors. -/
inductive Base : State → CTAM.Label → State → Prop
  /-- 127-165 -/
  | loadEphemeral {s : State} {j' m' mapLsn} :
      CTJournal.Next s.journal .loadEphemeral j' →
      CTMap.Next s.mapadt (.loadEphemeral mapLsn) m' →
      Base s .noop
        { s with
          journal := j', mapadt := m'
          ephemeral := some { progress := EphemeralState.init, syncReqs := PMap.empty, mapLsn := mapLsn } }
  /-- 167-203 -/
  | recover {s : State} {e j' m'} {records : MsgHistory} :
      s.ephemeral = some e → records.WF →
      CTJournal.Next s.journal (.readForRecovery records) j' →
      CTMap.Next s.mapadt (.putRecords records) m' →
      Base s .noop
        { s with journal := j', mapadt := m', ephemeral := some { e with mapLsn := records.seqEnd } }
  /-- 205-256 -/
  | acceptRequest {s : State} {e req} :
      s.ephemeral = some e → ¬ e.progress.requests req →
      Base s (.operate (.request req))
        { s with ephemeral := some { e with
            progress := { e.progress with requests := e.progress.requests.insert req } } }
  /-- 258-322 -/
  | query {s : State} {e j' m'} {req : Request} {reply : Reply} {key value} :
      s.ephemeral = some e → req.input = .query key → reply.output = .query value →
      e.progress.requests req → req.id = reply.id → ¬ e.progress.replies reply →
      CTJournal.Next s.journal (.queryEndLsn e.mapLsn) j' →
      CTMap.Next s.mapadt (.query e.mapLsn key value) m' →
      Base s (.operate (.execute req reply))
        { s with
          journal := j', mapadt := m'
          ephemeral := some { e with progress :=
            { requests := e.progress.requests.remove req, replies := e.progress.replies.insert reply } } }
  /-- 324-393 -/
  | put {s : State} {e j' m'} {req : Request} {reply : Reply} {key value} :
      s.ephemeral = some e → req.input = .put key value → reply.output = .put →
      e.progress.requests req → req.id = reply.id → ¬ e.progress.replies reply →
      CTJournal.Next s.journal
        (.put (MsgHistory.singletonAt e.mapLsn { key := key, message := .define value })) j' →
      CTMap.Next s.mapadt
        (.putRecords (MsgHistory.singletonAt e.mapLsn { key := key, message := .define value })) m' →
      Base s (.operate (.execute req reply))
        { s with
          journal := j', mapadt := m'
          ephemeral := some { e with
            mapLsn := e.mapLsn + 1
            progress :=
            { requests := e.progress.requests.remove req, replies := e.progress.replies.insert reply } } }
  /-- 395-420 -/
  | deliverReply {s : State} {e reply} :
      s.ephemeral = some e → e.progress.replies reply →
      Base s (.operate (.reply reply))
        { s with ephemeral := some { e with
            progress := { e.progress with replies := e.progress.replies.remove reply } } }
  /-- 422-441 -/
  | journalInternal {s : State} {e j'} :
      s.ephemeral = some e → CTJournal.Next s.journal .internal j' →
      Base s .noop { s with journal := j' }
  /-- 443-462 -/
  | mapInternal {s : State} {e m'} :
      s.ephemeral = some e → CTMap.Next s.mapadt .internal m' →
      Base s .noop { s with mapadt := m' }
  /-- 464-492 -/
  | reqSync {s : State} {e j' id} :
      s.ephemeral = some e → ¬ e.syncReqs.Has id →
      CTJournal.Next s.journal (.queryEndLsn e.mapLsn) j' →
      Base s (.reqSync id)
        { s with journal := j', ephemeral := some { e with syncReqs := e.syncReqs.insert id e.mapLsn } }
  /-- 494-524 -/
  | replySync {s : State} {e j' id lsn} :
      s.ephemeral = some e → e.syncReqs id = some lsn →
      CTJournal.Next s.journal (.queryLsnPersistence lsn) j' →
      Base s (.replySync id)
        { s with journal := j', ephemeral := some { e with syncReqs := e.syncReqs.remove id } }
  /-- 564-573 -/
  | superblockWriteLands {s : State} :
      s.superblockInFlight = true → Base s .sync { s with superblockInFlight := false }
  /-- 575-611 -/
  | commitComplete {s : State} {e j' m'} :
      s.superblockInFlight = false → s.ephemeral = some e →
      CTJournal.Next s.journal (.commitComplete e.mapLsn) j' →
      CTMap.Next s.mapadt .commitComplete m' →
      Base s .noop { s with journal := j', mapadt := m' }
  /-- 613-659 -/
  | crash {s : State} {j' m'} :
      CTJournal.Next s.journal (.crash (s.journal.inFlight.isSome && !s.superblockInFlight)) j' →
      CTMap.Next s.mapadt (.crash (s.journal.inFlight.isSome && !s.superblockInFlight)) m' →
      Base s .crash
        { journal := j', mapadt := m', ephemeral := none, superblockInFlight := false }

/-- AbstractCrashAwareSystem_v.rs 526-558 `commit_start`, exactly as written: the journal has to
make its `CommitStart` step from `pre.journal` *to `pre.journal`* (537-544). -/
inductive CommitStartCode : State → CTAM.Label → State → Prop
  | mk {s : State} {e newBoundary} :
      s.ephemeral = some e →
      CTJournal.Next s.journal (.commitStart newBoundary e.mapLsn) s.journal →
      CTMap.Next s.mapadt (.commitStart newBoundary) s.mapadt →
      CommitStartCode s .noop { s with superblockInFlight := true }

/-- Repaired `commit_start`: the journal steps to a new state, which is stored. This is not the
code in /repo; it is what `CrashTolerantJournal::commit_start` and the refinement's
`inv_commit_started_*` predicates require. -/
inductive CommitStartFixed : State → CTAM.Label → State → Prop
  | mk {s : State} {e newBoundary j'} :
      s.ephemeral = some e →
      CTJournal.Next s.journal (.commitStart newBoundary e.mapLsn) j' →
      CTMap.Next s.mapadt (.commitStart newBoundary) s.mapadt →
      CommitStartFixed s .noop { s with journal := j', superblockInFlight := true }

/-- The machine in the code. -/
def machine : Machine State CTAM.Label :=
  { Init := Init, Step := fun s l s' => Base s l s' ∨ CommitStartCode s l s' }

/-- The machine with `commit_start` repaired. -/
def fixedMachine : Machine State CTAM.Label :=
  { Init := Init, Step := fun s l s' => Base s l s' ∨ CommitStartFixed s l s' }

end Verif.Coord
