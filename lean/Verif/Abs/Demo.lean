import Verif.Abs.Coordination
/-
One concrete execution of the repaired CoordinationSystem: put, sync, commit, crash, recovery
from the journal, query. Used as evidence that the hypotheses of the theorems in Props are met.
-/
namespace Verif.Coord
open Verif

def demoPut : Request := { input := .put 5 7, id := 1 }
def demoPutReply : Reply := { output := .put, id := 1 }
def demoQuery : Request := { input := .query 5, id := 2 }
def demoQueryReply : Reply := { output := .query 7, id := 2 }

/-- Events up to and including the crash. -/
def demoTrace1 : List CTAM.Label :=
  [ .noop,                                       -- load
    .noop,                                       -- freeze the (empty) map
    .operate (.request demoPut),
    .operate (.execute demoPut demoPutReply),
    .reqSync 9,
    .noop,                                       -- commit_start
    .sync,                                       -- superblock lands
    .noop,                                       -- commit_complete
    .replySync 9,
    .crash ]

def demoTrace2 : List CTAM.Label :=
  [ .noop,                                       -- load
    .noop,                                       -- recover
    .operate (.request demoQuery),
    .operate (.execute demoQuery demoQueryReply),
    .operate (.reply demoQueryReply) ]

def demoInit : State :=
  { journal := { persistent := MsgHistory.emptyAt 0, ephemeral := none, inFlight := none }
    mapadt := { persistent := StampedMap.empty, ephemeral := none, inFlight := none }
    ephemeral := none, superblockInFlight := false }

/-- The log after the put. -/
def demoLog : MsgHistory := (MsgHistory.emptyAt 0).concat (MsgHistory.singletonAt 0 { key := 5, message := .define 7 })

theorem demoLog_wf : demoLog.WF :=
  MsgHistory.wf_concat (MsgHistory.wf_emptyAt 0) (MsgHistory.wf_singletonAt _ _) rfl

theorem includes_self (h : MsgHistory) : h.IncludesSubseq h :=
  ⟨Nat.le_refl _, Nat.le_refl _, fun _ hk => ⟨hk, rfl⟩⟩

/-- Just after the crash. -/
def demoCrashed : State :=
  { journal := { persistent := demoLog, ephemeral := none, inFlight := none }
    mapadt := { persistent := StampedMap.empty, ephemeral := none, inFlight := none }
    ephemeral := none, superblockInFlight := false }

theorem demo_run1 : fixedMachine.Run demoInit demoTrace1 demoCrashed := by
  unfold demoTrace1
  refine .cons (.inl (.loadEphemeral (.loadEphemeral rfl ⟨MsgHistory.wf_emptyAt 0, rfl⟩)
    (.loadEphemeral rfl))) ?_
  refine .cons (.inl (.mapInternal rfl (.freezeMapInternal rfl rfl .freezeAs))) ?_
  refine .cons (.inl (.acceptRequest rfl (fun h => h))) ?_
  refine .cons (.inl (.put rfl (key := 5) (value := 7) rfl rfl (.inl rfl) rfl (fun h => h)
    (.put rfl (.put (MsgHistory.wf_emptyAt 0) rfl)) (.putRecords rfl (.put rfl)))) ?_
  refine .cons (.inl (.reqSync rfl (by simp [PMap.Has, PMap.empty])
    (.queryEndLsn rfl (.observeFresh demoLog_wf)))) ?_
  refine .cons (.inr (.mk (newBoundary := 0) rfl
    (.commitStart (frozen := demoLog) rfl rfl demoLog_wf rfl (Nat.zero_le _) (Nat.zero_le _)
      (.freezeForCommit demoLog_wf demoLog_wf (includes_self demoLog)))
    (.commitStart (f := StampedMap.empty) rfl rfl (Nat.le_refl _)))) ?_
  refine .cons (.inl (.superblockWriteLands rfl)) ?_
  refine .cons (.inl (.commitComplete rfl rfl (.commitComplete rfl rfl
    (.discardOld demoLog_wf ⟨Nat.le_refl _, Nat.zero_le _⟩)) (.commitComplete rfl))) ?_
  refine .cons (.inl (.replySync (lsn := 1) rfl rfl (.queryLsnPersistence (Nat.le_refl _)))) ?_
  refine .cons (.inl (.crash .crash (.crash (p := StampedMap.empty) (fun _ => rfl) (by simp)))) ?_
  exact .nil _

theorem demo_run2 : ∃ s, fixedMachine.Run demoCrashed demoTrace2 s := by
  unfold demoTrace2
  refine Machine.Run.econs (.inl (.loadEphemeral (.loadEphemeral rfl ⟨demoLog_wf, rfl⟩) (.loadEphemeral rfl))) ?_
  refine Machine.Run.econs (.inl (.recover (records := demoLog) rfl demoLog_wf
    (.readForRecovery rfl (.readForRecovery demoLog_wf (includes_self _)))
    (.putRecords rfl (.put rfl)))) ?_
  refine Machine.Run.econs (.inl (.acceptRequest rfl (fun h => h))) ?_
  refine Machine.Run.econs (.inl (.query rfl (key := 5) (value := 7) rfl rfl (.inl rfl) rfl (fun h => h)
    (.queryEndLsn rfl (.observeFresh demoLog_wf)) (.query rfl (.query rfl)))) ?_
  refine Machine.Run.econs (.inl (.deliverReply rfl (.inl rfl))) ?_
  exact Machine.Run.enil

theorem demo_exec1 : fixedMachine.Exec demoTrace1 demoCrashed :=
  ⟨demoInit, ⟨rfl, rfl, rfl, rfl⟩, demo_run1⟩

theorem demo_exec : ∃ s, fixedMachine.Exec (demoTrace1 ++ demoTrace2) s := by
  obtain ⟨s, hs⟩ := demo_run2
  exact ⟨s, demo_exec1.append hs⟩

end Verif.Coord
