import Verif.Base.Trace
import Mathlib.Algebra.BigOperators.Group.Multiset.Basic
import Mathlib.Data.Multiset.Count
import Mathlib.Algebra.Ring.Int.Defs
/-
The reference counter of concurrency/refcounter and refcounter2 (the files of the protocol are the same): a value that
is given away can be held by one owner, or, through a counter, by any number of readers.

Simplifications: `Init` has no body in the source; here nothing is there at the start. Linear values are plain values.
-/
namespace Verif.Refcounter

variable {V : Type} [DecidableEq V]

/-- `R`, ResourceBuilderSpec.s.dfy:8-11, with `Q` of Refcounter.i.dfy:10. `counter v n` is `Internal(Refcount(v, n))`. -/
inductive R (V : Type)
  | exc (v : V)
  | const (v : V)
  | counter (v : V) (n : Int)
  deriving DecidableEq

/-- `Variables`, ResourceBuilderSpec.s.dfy:13 -/
structure State (V : Type) where
  m : Multiset (R V)
  saved : Multiset V

/-- `transform`, Refcounter.i.dfy:12-42 -/
inductive Transform : Multiset (R V) → Multiset (R V) → Prop
  /-- `from_exc`, :12-16 -/
  | fromExc (v) : Transform {.exc v} {.counter v 0}
  /-- `to_exc`, :18-22 -/
  | toExc (v) : Transform {.counter v 0} {.exc v}
  /-- `to_const`, :24-28 -/
  | toConst (v r) : Transform {.counter v r} {.counter v (r + 1), .const v}
  /-- `from_const`, :30-34 -/
  | fromConst (v r) : Transform {.counter v r, .const v} {.counter v (r - 1)}

/-- A value given away, a value got back, and what is in between. -/
inductive Label (V : Type)
  | give (v : V)
  | back (v : V)
  | tau

/-- `Next`, ResourceBuilderSpec.s.dfy:18-37 -/
inductive Step : State V → Label V → State V → Prop
  /-- `NewExc(s, s')`, :18-23 -/
  | give (m saved v) : Step ⟨m, saved⟩ (.give v) ⟨m + {.exc v}, saved + {v}⟩
  /-- `NewExc(s', s)`, :35 -/
  | back (m saved v) : Step ⟨m + {.exc v}, saved + {v}⟩ (.back v) ⟨m, saved⟩
  /-- `InternalStep`, :25-30 -/
  | internal {a b} (c saved) : Transform a b → Step ⟨a + c, saved⟩ .tau ⟨b + c, saved⟩

/-- The protocol as a machine. -/
def machine (V : Type) : Machine (State V) (Label V) := ⟨fun s => s = ⟨0, 0⟩, Step⟩

end Verif.Refcounter
