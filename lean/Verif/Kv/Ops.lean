import Verif.Kv.Layout
import Verif.Base.PMap
/-
Labels shared by the state machines of VeriBetrKV: what the user sees (MapSpec/UI.s.dfy) and the
labels that tie the tree side and the journal side together (Versions/VOp.i.dfy).
-/
namespace Verif.Kv

/-- Keys and values are byte strings (lib/Base/KeyType.s.dfy, lib/Base/ValueType.s.dfy).
Simplification: the 1024-byte bound on keys and the bound on values are dropped. -/
abbrev Key := List UInt8
/-- Values, see `Key`. -/
abbrev Value := List UInt8

/-- `RangeStart`, MapSpec/UI.s.dfy:20 -/
inductive RangeStart | incl (k : Key) | excl (k : Key) | negInf
deriving DecidableEq
/-- `RangeEnd`, MapSpec/UI.s.dfy:21 -/
inductive RangeEnd | incl (k : Key) | excl (k : Key) | posInf
deriving DecidableEq

/-- `UI.Op`, MapSpec/UI.s.dfy:26-42. `SyncOp`, `GetBeginOp` and `GetEndOp` label no step of any
machine modelled here and are left out; `SuccResult` is a pair. -/
inductive UIOp
  | noop
  | crash
  | pushSync (id : Nat)
  | popSync (id : Nat)
  | get (k : Key) (v : Value)
  | put (k : Key) (v : Value)
  | clone (src dst : Key)
  | succ (start : RangeStart) (results : List (Key × Value)) (stop : RangeEnd)
deriving DecidableEq

/-- `VOp`, Versions/VOp.i.dfy:26-70 -/
inductive VOp
  | statesInternal
  | journalInternal
  | advance (uiop : UIOp) (replay : Bool)
  | sendPersistentLoc (loc : Loc)
  | freeze
  | sendFrozenLoc (loc : Loc)
  | cleanUp
  | crash
  | pushSync (id : Nat)
  | popSync (id : Nat)
deriving DecidableEq

/-- `VOpAgreesUIOp` (Versions/VOp.i.dfy:72-96) as a function: the user-visible label of a step. -/
def VOp.ui : VOp → UIOp
  | .advance u false => u
  | .advance _ true => .noop
  | .crash => .crash
  | .pushSync id => .pushSync id
  | .popSync id => .popSync id
  | _ => .noop

end Verif.Kv
