import Verif.Kv.JournalRange
import Verif.Base.Trace
/-
`JournalView`, Versions/JournalView.i.dfy: what the journal side of VeriBetrKV promises. Three
journals, one for each of three versions of the state: the one a crash goes back to, the one being
written out, and the current one.
-/
namespace Verif.Kv

/-- `SyncReqStatus`, MapSpec/ThreeStateVersioned.s.dfy:19 -/
inductive SyncStatus | s1 | s2 | s3
deriving DecidableEq

/-- `syncReqs3to2`, JournalCache.i.dfy:122-125 and MapSpec/ThreeStateVersioned.s.dfy -/
def SyncStatus.to2 : SyncStatus → SyncStatus
  | .s3 => .s2
  | x => x
/-- `syncReqs2to1`, JournalCache.i.dfy:127-130 and MapSpec/ThreeStateVersioned.s.dfy -/
def SyncStatus.to1 : SyncStatus → SyncStatus
  | .s2 => .s1
  | x => x

namespace JournalView

/-- `Variables`, Versions/JournalView.i.dfy:35-46 -/
structure State where
  j1 : List Entry
  j2 : List Entry
  j3 : List Entry
  gamma : List Entry
  delta : List Entry
  persistentLoc : Loc
  frozenLoc : Option Loc
  syncReqs : PMap Nat SyncStatus

/-- `Init`, Versions/JournalView.i.dfy:48-60 -/
def Init (loc : Loc) (s : State) : Prop := s = ⟨[], [], [], [], [], loc, none, .empty⟩

/-- `NextStep`, Versions/JournalView.i.dfy:81-250, one constructor per step -/
inductive Next : State → VOp → State → Prop
  /-- `PresentPersistentLoc`, :81-87 -/
  | present {s : State} : Next s (.sendPersistentLoc s.persistentLoc) s
  /-- `ObtainFrozenLoc`, :89-94 -/
  | obtainFrozen {s : State} {l} : Next s (.sendFrozenLoc l) { s with frozenLoc := some l }
  /-- `CleanUp`, :96-101 -/
  | cleanUp {s : State} : s.frozenLoc = some s.persistentLoc →
      Next s .cleanUp { s with frozenLoc := none }
  /-- `Crash`, :103-115 -/
  | crash {s : State} :
      Next s .crash ⟨s.j1, s.j1, s.j1, s.j1, [], s.persistentLoc, none, .empty⟩
  /-- `Move1to2`, :117-130 -/
  | move1to2 {s : State} {l} : s.frozenLoc = some l →
      Next s .journalInternal
        ⟨s.j2, s.j2, s.j3, s.j2, s.delta, l, s.frozenLoc, s.syncReqs.mapVal .to1⟩
  /-- `Move2to3`, :132-145 -/
  | move2to3 {s : State} : s.frozenLoc ≠ some s.persistentLoc →
      Next s .freeze
        ⟨s.j1, s.j3, s.j3, s.gamma ++ s.delta, [], s.persistentLoc, none, s.syncReqs.mapVal .to2⟩
  /-- `ExtendLog1`, :147-159 -/
  | extendLog1 {s : State} :
      Next s .journalInternal { s with j1 := s.gamma, syncReqs := s.syncReqs.mapVal .to1 }
  /-- `ExtendLog2`, :161-173 -/
  | extendLog2 {s : State} :
      Next s .journalInternal { s with
        j2 := s.j2 ++ s.delta, gamma := s.gamma ++ s.delta, delta := []
        syncReqs := s.syncReqs.mapVal .to2 }
  /-- `Move3`, :175-190 -/
  | move3 {s : State} {u} : s.j3 = [] →
      Next s (.advance u false) { s with delta := s.delta ++ u.entries }
  /-- `Replay`, :192-206 -/
  | replay {s : State} {u rest} : s.j3 = u.entries ++ rest →
      Next s (.advance u true) { s with j3 := rest }
  /-- `PushSync`, :208-214 -/
  | pushSync {s : State} {id} : s.syncReqs id = none →
      Next s (.pushSync id) { s with syncReqs := s.syncReqs.insert id .s3 }
  /-- `PopSync`, :216-223 -/
  | popSync {s : State} {id} : s.syncReqs id = some .s1 →
      Next s (.popSync id) { s with syncReqs := s.syncReqs.remove id }
  /-- `Stutter`, :225-229 -/
  | stutterJ {s : State} : Next s .journalInternal s
  | stutterS {s : State} : Next s .statesInternal s

/-- The machine. -/
def machine (loc : Loc) : Machine State VOp := ⟨Init loc, Next⟩

end JournalView
end Verif.Kv
