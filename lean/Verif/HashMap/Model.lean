import Verif.Base.Trace
import Mathlib.Logic.Function.Basic
/-
The concurrent linear-probing hash table of concurrency/ConcurrentMap: a table of items, each under its own
mutex; threads walk along it from the slot of the hash, one slot at a time.

`query` and `query_loop` are code (LinearImpl.i.dfy:204-357, Impl.i.dfy:115-235), insertion is only the protocol
(ConcurrentLinearHashTable.i.dfy). Where `query_loop` finds the key absent, or the end of the table, the source
says `assume false` or `assume slot + 1 < |ht|`: there the model has no step.

Simplifications: what a thread does to one slot, under the mutex, is one step; the table is a function with a
size `n`; keys are of any type (integers in the source) and `hash` any function (`SlotForKey`, :44, has no body).
-/
namespace Verif.HashMap

variable {Key Val : Type} [DecidableEq Key]

/-- `Item`, ConcurrentLinearHashTable.i.dfy:17 -/
inductive Item (Key Val : Type)
  | empty
  | entry (k : Key) (v : Val)
  | tombstone (k : Key)

/-- The key of an item that is not empty. -/
def Item.key? : Item Key Val → Option Key
  | .empty => none
  | .entry k _ => some k
  | .tombstone k => some k

/-- `ThreadState`, ConcurrentLinearHashTable.i.dfy:24-28 -/
inductive Thread (Key Val : Type)
  | insert (k : Key) (v : Val) (slot : Nat)
  | query (k : Key) (slot : Nat)
  | idle

/-- `Variables`, ConcurrentLinearHashTable.i.dfy:143-146; every number is a thread. -/
structure State (Key Val : Type) where
  table : Nat → Item Key Val
  threads : Nat → Thread Key Val

/-- What is seen: calls and their ends. -/
inductive Label (Key Val : Type)
  | tau
  | startInsert (t : Nat) (k : Key) (v : Val)
  | inserted (t : Nat) (k : Key) (v : Val)
  | startQuery (t : Nat) (k : Key)
  | found (t : Nat) (k : Key) (v : Val)

/-- `s.threads[tid := p]` -/
def State.go (s : State Key Val) (t : Nat) (p : Thread Key Val) : State Key Val :=
  { s with threads := Function.update s.threads t p }

/-- `NextThread`, ConcurrentLinearHashTable.i.dfy:119-133, 165-170 -/
inductive Step (n : Nat) (hash : Key → Nat) : State Key Val → Label Key Val → State Key Val → Prop
  /-- `InsertInit`, :52-59 -/
  | insertInit {s : State Key Val} (t k v) : s.threads t = .idle →
      Step n hash s (.startInsert t k v) (s.go t (.insert k v (hash k)))
  /-- `InsertAdvance`, :61-70 -/
  | insertAdvance {s : State Key Val} {t k v i k'} : s.threads t = .insert k v i → (s.table i).key? = some k' → k' ≠ k →
      i < n - 1 → Step n hash s .tau (s.go t (.insert k v (i + 1)))
  /-- `InsertComplete`, :72-79 -/
  | insertComplete {s : State Key Val} {t k v i} : s.threads t = .insert k v i →
      ((s.table i).key? = none ∨ (s.table i).key? = some k) →
      Step n hash s (.inserted t k v) { s.go t .idle with table := Function.update s.table i (.entry k v) }
  /-- `QueryInit`, :81-88; LinearImpl.i.dfy:225-237 -/
  | queryInit {s : State Key Val} (t k) : s.threads t = .idle →
      Step n hash s (.startQuery t k) (s.go t (.query k (hash k)))
  /-- `QueryAdvance`, :90-99; LinearImpl.i.dfy:332-355 -/
  | queryAdvance {s : State Key Val} {t k i k'} : s.threads t = .query k i → (s.table i).key? = some k' → k' ≠ k →
      i < n - 1 → Step n hash s .tau (s.go t (.query k (i + 1)))
  /-- `QueryComplete`, :102-109; LinearImpl.i.dfy:318-330 -/
  | queryComplete {s : State Key Val} {t k i v} : s.threads t = .query k i → s.table i = .entry k v →
      Step n hash s (.found t k v) (s.go t .idle)

/-- `Init`, ConcurrentLinearHashTable.i.dfy:159-163 -/
structure Init (s : State Key Val) : Prop where
  table : ∀ i, s.table i = .empty
  threads : ∀ t, s.threads t = .idle

/-- The table as a machine. -/
def machine (Key Val : Type) [DecidableEq Key] (n : Nat) (hash : Key → Nat) : Machine (State Key Val) (Label Key Val) :=
  ⟨Init, Step n hash⟩

end Verif.HashMap
