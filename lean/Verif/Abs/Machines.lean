import Verif.Base.Trace
import Verif.Abs.MsgHistory
/-
Models of AbstractMap_v.rs, AbstractJournal_v.rs, AbstractCrashAwareJournal_v.rs and
AbstractCrashAwareMap_v.rs (Splinter/src/abstract_system).
-/
namespace Verif

namespace AbstractMap

/-- AbstractMap_v.rs 25-39 -/
inductive Label where
  | query (endLsn : LSN) (key : Key) (value : Value)
  | put (puts : MsgHistory)
  | freezeAs (m : StampedMap)
  | internal

/-- AbstractMap_v.rs 23: the only field is `stamped_map`. Transitions 47-83.
For `query` on a key holding an `Update` the Rust accessor `->value` is unspecified; the model
only allows queries of `Define`s. -/
inductive Next : StampedMap → Label → StampedMap → Prop
  /-- 47-53 -/
  | query {s : StampedMap} {k v} : s.value k = .define v → Next s (.query s.seqEnd k v) s
  /-- 57-64 -/
  | put {s : StampedMap} {puts : MsgHistory} : puts.CanFollow s.seqEnd →
      Next s (.put puts) (MsgHistory.mapPlusHistory s puts)
  /-- 70-75 -/
  | freezeAs {s : StampedMap} : Next s (.freezeAs s) s
  /-- 78-82 -/
  | internal {s : StampedMap} : Next s .internal s

/-- AbstractMap_v.rs 41-45 `initialize(persistent_map)`: any stamped map. -/
def Init (persistent s : StampedMap) : Prop := s = persistent

end AbstractMap

namespace AbstractJournal

/-- AbstractJournal_v.rs 28-36 -/
inductive Label where
  | readForRecovery (messages : MsgHistory)
  | freezeForCommit (frozen : MsgHistory)
  | queryEndLsn (endLsn : LSN)
  | put (messages : MsgHistory)
  | discardOld (startLsn requireEnd : LSN)
  | internal

/-- AbstractJournal_v.rs 42-47 -/
def Init (persistent s : MsgHistory) : Prop := persistent.WF ∧ s = persistent

/-- AbstractJournal_v.rs 53-103; the state is the single field `journal` (18-21). -/
inductive Next : MsgHistory → Label → MsgHistory → Prop
  /-- 53-60 -/
  | readForRecovery {j m : MsgHistory} : j.WF → j.IncludesSubseq m → Next j (.readForRecovery m) j
  /-- 62-69 -/
  | freezeForCommit {j f : MsgHistory} : j.WF → f.WF → j.IncludesSubseq f →
      Next j (.freezeForCommit f) j
  /-- 71-77 `observe_fresh_journal` -/
  | observeFresh {j : MsgHistory} : j.WF → Next j (.queryEndLsn j.seqEnd) j
  /-- 79-86 -/
  | put {j m : MsgHistory} : j.WF → j.seqEnd = m.seqStart → Next j (.put m) (j.concat m)
  /-- 88-96 -/
  | discardOld {j : MsgHistory} {startLsn} : j.WF → j.CanDiscardTo startLsn →
      Next j (.discardOld startLsn j.seqEnd) (j.discardOld startLsn)
  /-- 98-103 -/
  | internal {j : MsgHistory} : j.WF → Next j .internal j

end AbstractJournal

namespace CTJournal

/-- AbstractCrashAwareJournal_v.rs 37-50. `ephemeral` is `Unknown` = `none`, `Known{v}` = `some v`. -/
structure State where
  persistent : MsgHistory
  ephemeral : Option MsgHistory
  inFlight : Option MsgHistory

/-- AbstractCrashAwareJournal_v.rs 58-81 -/
inductive Label where
  | loadEphemeral
  | readForRecovery (records : MsgHistory)
  | queryEndLsn (endLsn : LSN)
  | put (records : MsgHistory)
  | internal
  | queryLsnPersistence (syncLsn : LSN)
  | commitStart (newBoundary maxLsn : LSN)
  | commitComplete (requireEnd : LSN)
  | crash (keepInFlight : Bool)

/-- AbstractCrashAwareJournal_v.rs 52-57 `initialize` -/
def Init (s : State) : Prop :=
  s = { persistent := MsgHistory.emptyAt 0, ephemeral := none, inFlight := none }

/-- AbstractCrashAwareJournal_v.rs 83-214 -/
inductive Next : State → Label → State → Prop
  /-- 83-94 -/
  | loadEphemeral {s : State} {j} : s.ephemeral = none → AbstractJournal.Init s.persistent j →
      Next s .loadEphemeral { s with ephemeral := some j }
  /-- 96-110 -/
  | readForRecovery {s : State} {j r} : s.ephemeral = some j →
      AbstractJournal.Next j (.readForRecovery r) j → Next s (.readForRecovery r) s
  /-- 112-122 -/
  | queryEndLsn {s : State} {j l} : s.ephemeral = some j →
      AbstractJournal.Next j (.queryEndLsn l) j → Next s (.queryEndLsn l) s
  /-- 124-135 -/
  | put {s : State} {j j' r} : s.ephemeral = some j → AbstractJournal.Next j (.put r) j' →
      Next s (.put r) { s with ephemeral := some j' }
  /-- 137-148 -/
  | internal {s : State} {j j'} : s.ephemeral = some j → AbstractJournal.Next j .internal j' →
      Next s .internal { s with ephemeral := some j' }
  /-- 150-155 -/
  | queryLsnPersistence {s : State} {l} : l ≤ s.persistent.seqEnd →
      Next s (.queryLsnPersistence l) s
  /-- 157-183 -/
  | commitStart {s : State} {j frozen newBoundary maxLsn} : s.ephemeral = some j →
      s.inFlight = none → frozen.WF → frozen.seqStart = newBoundary →
      s.persistent.seqEnd ≤ frozen.seqEnd → frozen.seqStart ≤ maxLsn →
      AbstractJournal.Next j (.freezeForCommit frozen) j →
      Next s (.commitStart newBoundary maxLsn) { s with inFlight := some frozen }
  /-- 185-205 -/
  | commitComplete {s : State} {j j' f requireEnd} : s.ephemeral = some j →
      s.inFlight = some f → AbstractJournal.Next j (.discardOld f.seqStart requireEnd) j' →
      Next s (.commitComplete requireEnd) { persistent := f, ephemeral := some j', inFlight := none }
  /-- 207-214 -/
  | crash {s : State} {keep : Bool} :
      Next s (.crash keep)
        { persistent := if keep then s.inFlight.getD s.persistent else s.persistent
          ephemeral := none, inFlight := none }

end CTJournal

namespace CTMap

/-- AbstractCrashAwareMap_v.rs 34-48; `ephemeral` is `Unknown` = `none`, `Known{v}` = `some v`. -/
structure State where
  persistent : StampedMap
  ephemeral : Option StampedMap
  inFlight : Option StampedMap

/-- AbstractCrashAwareMap_v.rs 58-66 -/
inductive Label where
  | loadEphemeral (endLsn : LSN)
  | putRecords (records : MsgHistory)
  | query (endLsn : LSN) (key : Key) (value : Value)
  | internal
  | commitStart (newBoundary : LSN)
  | commitComplete
  | crash (keepInFlight : Bool)

/-- AbstractCrashAwareMap_v.rs 50-56 -/
def Init (s : State) : Prop :=
  s = { persistent := StampedMap.empty, ephemeral := none, inFlight := none }

/-- AbstractCrashAwareMap_v.rs 68-188 -/
inductive Next : State → Label → State → Prop
  /-- 68-94 -/
  | loadEphemeral {s : State} : s.ephemeral = none →
      Next s (.loadEphemeral s.persistent.seqEnd) { s with ephemeral := some s.persistent }
  /-- 96-108 -/
  | putRecords {s : State} {m m' r} : s.ephemeral = some m → AbstractMap.Next m (.put r) m' →
      Next s (.putRecords r) { s with ephemeral := some m' }
  /-- 110-124: the new map state is not stored -/
  | query {s : State} {m m' l k v} : s.ephemeral = some m → AbstractMap.Next m (.query l k v) m' →
      Next s (.query l k v) s
  /-- 126-139 -/
  | freezeMapInternal {s : State} {m m' f} : s.ephemeral = some m → s.inFlight = none →
      AbstractMap.Next m (.freezeAs f) m' →
      Next s .internal { s with ephemeral := some m', inFlight := some f }
  /-- 141-152 -/
  | ephemeralInternal {s : State} {m m'} : s.ephemeral = some m → AbstractMap.Next m .internal m' →
      Next s .internal { s with ephemeral := some m' }
  /-- 154-162 -/
  | commitStart {s : State} {m f} : s.ephemeral = some m → s.inFlight = some f →
      s.persistent.seqEnd ≤ f.seqEnd → Next s (.commitStart f.seqEnd) s
  /-- 164-171 -/
  | commitComplete {s : State} {f} : s.inFlight = some f →
      Next s .commitComplete { s with persistent := f, inFlight := none }
  /-- 173-188. With `keep_in_flight` and nothing in flight the code's `unwrap()` is unspecified:
  the model then allows any persistent map. -/
  | crash {s : State} {keep : Bool} {p} :
      (keep = false → p = s.persistent) → (keep = true → ∀ f, s.inFlight = some f → p = f) →
      Next s (.crash keep) { persistent := p, ephemeral := none, inFlight := none }

end CTMap
end Verif
