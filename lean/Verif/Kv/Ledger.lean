import Verif.Kv.JournalView
/-
An ideal journal: one list of everything ever logged, and positions in it. This file is a
specification, it models no code.
-/
namespace Verif.Kv

/-- `log` is everything logged so far, `durable` how much of it survives a crash. The image at `loc`
reflects the first `start` entries; the image being written out reflects the first `frozen` entries
and is at `frozenLoc`, once that is known. The running state reflects the first `cursor` entries.
`syncs` has, for each synchronisation request, how long the log was when it was made. -/
structure Ledger where
  log : List Entry
  durable : Nat
  start : Nat
  loc : Loc
  frozen : Nat
  frozenLoc : Option Loc
  cursor : Nat
  syncs : PMap Nat Nat

namespace Ledger

/-- Nothing logged yet. -/
def initial (loc : Loc) : Ledger := ⟨[], 0, 0, loc, 0, none, 0, .empty⟩

/-- The moves of the ideal journal. -/
inductive Next : Ledger → VOp → Ledger → Prop
  /-- Replay starts from the image at `loc`. -/
  | tell {c : Ledger} : Next c (.sendPersistentLoc c.loc) c
  /-- The place of the frozen image becomes known. -/
  | learn {c : Ledger} {l} : Next c (.sendFrozenLoc l) { c with frozenLoc := some l }
  /-- The frozen image has become the one to start from; the old one may go. -/
  | cleanUp {c : Ledger} : c.frozenLoc = some c.loc → Next c .cleanUp { c with frozenLoc := none }
  /-- What is not durable is lost, and replay starts over. -/
  | crash {c : Ledger} :
      Next c .crash ⟨c.log.take c.durable, c.durable, c.start, c.loc, c.start, none, c.start, .empty⟩
  /-- The frozen image becomes the one to start from. More may become durable. -/
  | adopt {c : Ledger} {l n} : c.frozenLoc = some l → c.frozen ≤ n → c.durable ≤ n →
      n ≤ c.log.length →
      Next c .journalInternal { c with durable := n, start := c.frozen, loc := l }
  /-- The running state is frozen. -/
  | freeze {c : Ledger} : c.frozenLoc ≠ some c.loc →
      Next c .freeze { c with frozen := c.cursor, frozenLoc := none }
  /-- More, or nothing more, becomes durable. -/
  | harden {c : Ledger} {n} : c.durable ≤ n → n ≤ c.log.length →
      Next c .journalInternal { c with durable := n }
  /-- A user operation is logged. The replay must be over. -/
  | append {c : Ledger} {u} : c.cursor = c.log.length →
      Next c (.advance u false)
        { c with log := c.log ++ u.entries, cursor := c.cursor + u.entries.length }
  /-- The next entries of the log are replayed. -/
  | replay {c : Ledger} {u rest} : c.log.drop c.cursor = u.entries ++ rest →
      Next c (.advance u true) { c with cursor := c.cursor + u.entries.length }
  /-- A synchronisation request. -/
  | push {c : Ledger} {id} : c.syncs id = none →
      Next c (.pushSync id) { c with syncs := c.syncs.insert id c.log.length }
  /-- A synchronisation is reported done: what was logged before the request is durable. -/
  | pop {c : Ledger} {id n} : c.syncs id = some n → n ≤ c.durable →
      Next c (.popSync id) { c with syncs := c.syncs.remove id }
  /-- The other side works. -/
  | idle {c : Ledger} : Next c .statesInternal c

/-- The ideal journal as a machine. -/
def machine (loc : Loc) : Machine Ledger VOp := ⟨fun c => c = initial loc, Next⟩

end Ledger
end Verif.Kv
