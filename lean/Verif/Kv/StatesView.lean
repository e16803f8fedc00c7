import Verif.Kv.Ops
import Verif.Base.Trace
/-
`StatesView`, Versions/StatesView.i.dfy: what the tree side of VeriBetrKV promises to the journal
side. On disk there is a state per location; a running system has a current state, perhaps a frozen
one, and knows the locations of the images that must survive a crash.
-/
namespace Verif.Kv

/-- `UIStateMachine`, MapSpec/UIStateMachine.s.dfy: a user-level state machine. -/
structure SM (S : Type) where
  Init : S → Prop
  Next : S → UIOp → S → Prop

namespace StatesView
variable {S : Type}

/-- `Variables`, Versions/StatesView.i.dfy:17-23 -/
structure State (S : Type) where
  disk : PMap Loc S
  persistentLoc : Option Loc
  frozenLoc : Option Loc
  frozen : Option S
  ephemeral : Option S

/-- `DiskChangesPreservesPersistentAndFrozen`, Versions/StatesView.i.dfy:74-95 -/
structure DiskKept (s s' : State S) : Prop where
  all : s.persistentLoc = none → ∀ l g, s.disk l = some g → s'.disk l = some g
  persistent : ∀ l, s.persistentLoc = some l → ∃ g, s.disk l = some g ∧ s'.disk l = some g
  frozen : ∀ l, s.frozenLoc = some l → ∃ g, s.disk l = some g ∧ s'.disk l = some g

/-- `Init`, Versions/StatesView.i.dfy:25-33 -/
def Init (M : SM S) (s : State S) (loc : Loc) : Prop :=
  (∃ g, s.disk loc = some g ∧ M.Init g) ∧ s.persistentLoc = none ∧ s.frozenLoc = none ∧
  s.frozen = none ∧ s.ephemeral = none

/-- `NextStep`, Versions/StatesView.i.dfy:45-177, one constructor per step. -/
inductive Next (M : SM S) : State S → VOp → State S → Prop
  /-- `ObtainPersistentLoc`, :45-58 -/
  | obtain_ {s : State S} {l g} :
      s.persistentLoc = none → s.disk l = some g →
      Next M s (.sendPersistentLoc l) { s with persistentLoc := some l, ephemeral := some g }
  /-- `Advance`, :60-72 -/
  | advance {s : State S} {u b g g'} :
      s.ephemeral = some g → M.Next g u g' →
      Next M s (.advance u b) { s with ephemeral := some g' }
  /-- `Crash`, :97-106 -/
  | crash {s : State S} {disk} :
      DiskKept s { s with disk := disk } →
      Next M s .crash ⟨disk, none, none, none, none⟩
  /-- `Freeze`, :108-117 -/
  | freeze {s : State S} :
      Next M s .freeze { s with frozenLoc := none, frozen := s.ephemeral }
  /-- `DiskChange`, :119-128 -/
  | diskChange {s : State S} {disk} :
      DiskKept s { s with disk := disk } →
      Next M s .statesInternal { s with disk := disk }
  /-- `ProvideFrozenLoc`, :130-145 -/
  | provideFrozen {s : State S} {l g} :
      s.frozenLoc = none → s.frozen = some g → s.disk l = some g →
      Next M s (.sendFrozenLoc l) { s with frozenLoc := some l }
  /-- `ForgetOld`, :147-156 -/
  | forgetOld {s : State S} :
      Next M s .cleanUp
        { s with persistentLoc := s.frozenLoc, frozenLoc := none, frozen := none }
  /-- `Stutter`, :158-163 -/
  | stutterJ {s : State S} : Next M s .journalInternal s
  | stutterS {s : State S} : Next M s .statesInternal s
  | stutterPush {s : State S} {id} : Next M s (.pushSync id) s
  | stutterPop {s : State S} {id} : Next M s (.popSync id) s

end StatesView
end Verif.Kv
