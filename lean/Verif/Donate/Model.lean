import Verif.Base.Trace
import Mathlib.Logic.Function.Basic
/-
The hand-over-hand locked array of concurrency/seq-hoh: `donate(victim)` walks along an array of numbers, each
under its own mutex, and adds one to the first that equals `victim`. Threads run it interleaved at their
acquires and releases.

Simplifications: the length, 20 in the source (`len`, StateMachine.i.dfy:22), is a parameter; a mutex is a flag
and the number it guards stays in place, with a copy in the thread that holds it (in the source the number moves to
the thread and back). The ghost objects (`StoneLock`, `ThreadPos`, `Ticket`, `Stub`) are not in the model; `init`
has no body in the source.
-/
namespace Verif.Donate

/-- A thread, `ThreadId`, StateMachine.s.dfy:9. -/
abbrev Tid := Nat

/-- Where a thread is in `donate`, Impl.i.dfy:128-182; `v` is `victim`, `i` and `x` are `i` and `num`. The number `k`
is not in the code: it says that the call was the `k`-th to get the first mutex. -/
inductive Pc
  | idle
  /-- :133, before the acquire of the first mutex -/
  | ready (v : Nat)
  /-- :143, at the head of the loop, with mutex `i` -/
  | hold (k v i x : Nat)
  /-- :158, before the release of mutex `i`, with that of `i + 1`, of which the number is `y` -/
  | both (k v i x y : Nat)
  /-- :182, with the answer -/
  | done (k : Nat) (r : Option Nat)

/-- The array of mutexes (`Object`, Impl.i.dfy:116) and the threads. -/
structure State where
  num : Nat → Nat
  locked : Nat → Bool
  /-- how many calls have had the first mutex; not in the code -/
  entered : Nat
  pc : Tid → Pc

/-- A call, its answer, and in between the moment when it gets the first mutex. -/
inductive Label
  | tau
  | call (t : Tid) (v : Nat)
  | enter (t : Tid) (k v : Nat)
  | ret (t : Tid) (k : Nat) (r : Option Nat)

/-- Thread `t` goes on to `p`. -/
def State.go (s : State) (t : Tid) (p : Pc) : State := { s with pc := Function.update s.pc t p }
/-- `acquire`, Mutex.s.dfy:21-23 -/
def State.lock (s : State) (i : Nat) : State := { s with locked := Function.update s.locked i true }
/-- `release`, Mutex.s.dfy:26-27 -/
def State.unlock (s : State) (i x : Nat) : State :=
  { s with locked := Function.update s.locked i false, num := Function.update s.num i x }

/-- One acquire or release of one thread, with what it does until the next. -/
inductive Step (len : Nat) : State → Label → State → Prop
  | call {s : State} (t v) : s.pc t = .idle → Step len s (.call t v) (s.go t (.ready v))
  /-- Impl.i.dfy:133-139 -/
  | enter {s : State} {t v} : s.pc t = .ready v → s.locked 0 = false →
      Step len s (.enter t s.entered v) { (s.lock 0).go t (.hold s.entered v 0 (s.num 0)) with entered := s.entered + 1 }
  /-- Impl.i.dfy:143-156 -/
  | next {s : State} {t k v i x} : s.pc t = .hold k v i x → i < len - 1 → x ≠ v → s.locked (i + 1) = false →
      Step len s .tau ((s.lock (i + 1)).go t (.both k v i x (s.num (i + 1))))
  /-- Impl.i.dfy:158-162 -/
  | release {s : State} {t k v i x y} : s.pc t = .both k v i x y →
      Step len s .tau ((s.unlock i x).go t (.hold k v (i + 1) y))
  /-- Impl.i.dfy:165-172 -/
  | finish {s : State} {t k v i x} : s.pc t = .hold k v i x → x = v →
      Step len s .tau ((s.unlock i (x + 1)).go t (.done k (some i)))
  /-- Impl.i.dfy:173-180 -/
  | fail {s : State} {t k v i x} : s.pc t = .hold k v i x → ¬ i < len - 1 → x ≠ v →
      Step len s .tau ((s.unlock i x).go t (.done k none))
  | ret {s : State} {t k r} : s.pc t = .done k r → Step len s (.ret t k r) (s.go t .idle)

/-- At the start no mutex is held and no thread runs. -/
structure Init (s : State) : Prop where
  locked : ∀ i, s.locked i = false
  entered : s.entered = 0
  pc : ∀ t, s.pc t = .idle

/-- The array as a machine. -/
def machine (len : Nat) : Machine State Label := ⟨Init, Step len⟩

end Verif.Donate
