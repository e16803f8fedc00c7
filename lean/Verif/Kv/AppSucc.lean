import Verif.Kv.FullImpl
import Verif.Kv.TreeSucc
import Verif.Props.C67
/-
`Application::Succ`, framework/Framework.cpp:722-778, the loop in C++ by which a program gets the next so many keys
from the store, on top of the code of C67.

Simplifications: the vector of results is a list of cells, and writing outside of it is the result `none`; `uint64` is a
natural number (all of it is at most `targetCount`). That a call gives up after 500000 tries (:730-742) is left out: a
call that gives up stops the program. The two checks (`lowerBound` too long, :747; `maxToFind` zero, :726) are left out.
-/
namespace Verif.Kv.AppSucc
open TreeImpl FullImpl
open Pivot (Node)
open BlockImpl (EnvOk)
open ByteSystem (ui)

/-- `all_results[found] = ...; found++;`, Framework.cpp:758-761; `none` is a write outside of the vector. -/
def store (cells : List (Key × Value)) (found : Nat) : List (Key × Value) → Option (List (Key × Value) × Nat)
  | [] => some (cells, found)
  | r :: rs => if found < cells.length then store (cells.set found r) (found + 1) rs else none

/-- Where the next call starts, Framework.cpp:770-774; not after an infinite end. -/
def after : RangeEnd → Option RangeStart
  | .posInf => none
  | .excl k => some (.incl k)
  | .incl k => some (.excl k)

/-- `SuccOnce`, Framework.cpp:722-743: tries that bring nothing, and other events the program does not see; then
`handle_Succ` answers. -/
structure Once (kind : ByteDisk.Kind) (s : State) (start : RangeStart) (max : Nat) (tr : List (Option (BlockSystem.Label Node)))
    (rs : List (Key × Value)) (stop : RangeEnd) (s' : State) : Prop where
  run : (C67.store kind).Run s tr s'
  split : ∃ pre l mid r io replay, tr = pre ++ [l] ∧ (∀ x ∈ pre, ui x = .noop) ∧ ui l = .succ start rs stop ∧
    (C67.store kind).Run s pre mid ∧ mid.b = .ready r ∧ EnvOk io ∧
    (FullImpl.run r io (.succ start max)).vop = .advance (.succ start rs stop) replay

/-- The loop, Framework.cpp:756-776, with what it returns. -/
inductive Loop (kind : ByteDisk.Kind) (target : Nat) : State → RangeStart → List (Key × Value) → Nat →
    List (Option (BlockSystem.Label Node)) → State → Option (List (Key × Value)) → Prop
  | full {s start cells found} : ¬ found < target → Loop kind target s start cells found [] s (some cells)
  | outside {s start cells found tr rs stop s'} : found < target → Once kind s start (target - found) tr rs stop s' →
      store cells found rs = none → Loop kind target s start cells found tr s' none
  /-- :763-765 -/
  | done {s start cells found tr rs stop s' cells' found'} : found < target →
      Once kind s start (target - found) tr rs stop s' → store cells found rs = some (cells', found') → found' = target →
      Loop kind target s start cells found tr s' (some cells')
  /-- :766-769 -/
  | over {s start cells found tr rs stop s' cells' found'} : found < target →
      Once kind s start (target - found) tr rs stop s' → store cells found rs = some (cells', found') → found' ≠ target →
      after stop = none → Loop kind target s start cells found tr s' (some (cells'.take found'))
  | more {s start cells found tr rs stop s1 cells' found' start' tr' s' out} : found < target →
      Once kind s start (target - found) tr rs stop s1 → store cells found rs = some (cells', found') → found' ≠ target →
      after stop = some start' → Loop kind target s1 start' cells' found' tr' s' out →
      Loop kind target s start cells found (tr ++ tr') s' out

/-- `Succ(lowerBound, inclusive, targetCount)`, Framework.cpp:745-777 -/
def Succ (kind : ByteDisk.Kind) (s : State) (lower : Key) (inclusive : Bool) (target : Nat)
    (tr : List (Option (BlockSystem.Label Node))) (s' : State) (out : Option (List (Key × Value))) : Prop :=
  Loop kind target s (if inclusive then .incl lower else .excl lower) (List.replicate target ([], [])) 0 tr s' out

end Verif.Kv.AppSucc
