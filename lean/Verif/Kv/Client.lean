import Verif.Kv.JournalRange
import Verif.Base.Trace
/-
What a user of VeriBetrKV may count on, from outside: a history of changes, a prefix of which is
durable. This file is a specification, it models no code.
-/
namespace Verif.Kv

/-- What a change does to the map. -/
def Entry.apply (m : Key → Value) : Entry → Key → Value
  | .insert k v, x => if x = k then v else m x
  | .clone src dst, x => if dst <+: x then m (src ++ x.drop dst.length) else m x

/-- The map after a history of changes; every key is mapped to the empty value at first. -/
def contents (log : List Entry) : Key → Value := log.foldl Entry.apply (fun _ => [])

/-- The key is in the range, in the lexicographic order of byte strings. -/
def InBounds (start : RangeStart) (k : Key) (stop : RangeEnd) : Prop :=
  (match start with
    | .incl a => a ≤ k
    | .excl a => a < k
    | .negInf => True) ∧
  (match stop with
    | .incl b => k ≤ b
    | .excl b => k < b
    | .posInf => True)

/-- The range does not end before it starts: it goes on from its start. -/
def Ahead : RangeStart → RangeEnd → Prop
  | .incl a, .incl b => a ≤ b
  | .incl a, .excl b => a < b
  | .excl a, .incl b => a < b
  | .excl a, .excl b => a < b
  | _, _ => True

/-- `log` is all changes so far, the first `durable` of them survive a crash. `syncs` has for each open
synchronisation request how many changes there were when it was made. -/
structure Client where
  log : List Entry
  durable : Nat
  syncs : PMap Nat Nat

namespace Client

/-- A new store. -/
def initial : Client := ⟨[], 0, .empty⟩

/-- What may happen. -/
inductive Next : Client → UIOp → Client → Prop
  /-- A query gets the current value. -/
  | get {c : Client} {k v} : v = contents c.log k → Next c (.get k v) c
  /-- A range query gets all keys of the range with a value, in order, with their values; and the range goes on
  from its start. -/
  | succ {c : Client} {start rs stop} : Ahead start stop → (rs.map Prod.fst).Pairwise (· < ·) →
      (∀ k v, (k, v) ∈ rs ↔ InBounds start k stop ∧ v = contents c.log k ∧ v ≠ []) →
      Next c (.succ start rs stop) c
  | put {c : Client} {k v} : Next c (.put k v) { c with log := c.log ++ [.insert k v] }
  | clone {c : Client} {a b} : Next c (.clone a b) { c with log := c.log ++ [.clone a b] }
  /-- More changes, or none, become durable. -/
  | noop {c : Client} {n} : c.durable ≤ n → n ≤ c.log.length → Next c .noop { c with durable := n }
  | pushSync {c : Client} {id} : c.syncs id = none →
      Next c (.pushSync id) { c with syncs := c.syncs.insert id c.log.length }
  /-- All changes from before the request are durable when it is answered. -/
  | popSync {c : Client} {id n} : c.syncs id = some n → n ≤ c.durable →
      Next c (.popSync id) { c with syncs := c.syncs.remove id }
  /-- Changes not yet durable are lost. -/
  | crash {c : Client} : Next c .crash ⟨c.log.take c.durable, c.durable, .empty⟩

/-- The machine. -/
def machine : Machine Client UIOp := ⟨fun c => c = initial, Next⟩

end Client
end Verif.Kv
