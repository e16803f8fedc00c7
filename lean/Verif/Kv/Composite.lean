import Verif.Kv.MapSpec
import Verif.Kv.JournalView
/-
`CompositeView` (Versions/CompositeView.i.dfy): the states side and the journal side together, moving
on the same labels. Simplification: the states side is over any user-level machine; the code has it
over `MapSpec`.
-/
namespace Verif.Kv.Composite
variable {S : Type}

/-- `Variables`, CompositeView.i.dfy:22-24 -/
structure State (S : Type) where
  tsm : StatesView.State S
  jc : JournalView.State

/-- `Init`, CompositeView.i.dfy:28-33: both sides start from the same location. -/
def Init (M : SM S) (loc : Loc) (s : State S) : Prop :=
  StatesView.Init M s.tsm loc ∧ JournalView.Init loc s.jc

/-- `Next`, CompositeView.i.dfy:35-45: both sides move with the same label. -/
def Next (M : SM S) (s : State S) (vop : VOp) (s' : State S) : Prop :=
  StatesView.Next M s.tsm vop s'.tsm ∧ JournalView.Next s.jc vop s'.jc

/-- The machine. -/
def machine (M : SM S) (loc : Loc) : Machine (State S) VOp := ⟨Init M loc, Next M⟩

end Verif.Kv.Composite
