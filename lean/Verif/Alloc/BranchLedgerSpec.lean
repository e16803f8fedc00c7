import Verif.Alloc.AllocationBranchBetree
/-
What it means for a branch to be in use and to own pages and units, independent of how the state
machine keeps count: used by C45.
-/
namespace Verif.BranchLedger
open LinkedBetree (Reach)
open ABB

/-- Nodes are reached from the root along child pointers. -/
def NodeReached (s : State) (a : Address) : Prop := Reach s.betree.linked.dv s.betree.linked.root a

/-- A branch (named by its root page) is in use: a reached node lists it, or a running compaction
reads it. -/
def InUse (s : State) (r : Address) : Prop :=
  (∃ a n, NodeReached s a ∧ s.betree.linked.dv a = some n ∧ r ∈ n.buffers) ∨
  ∃ c ∈ s.compactors, r ∈ c.buffers

/-- Pages of a branch: those reached from its root along child pointers, and the summary page. -/
def PageOf (d : BrDisk) (r x : Address) : Prop :=
  LBr.Reach d r x ∨ ∃ ps cs, d r = some (.index ps cs (some x))

/-- Units a branch lists as its own: that of the root if it is a leaf, else those on the summary
page. -/
def Lists (d : BrDisk) (r : Address) (u : Nat) : Prop :=
  (∃ ks ms, d r = some (.leaf ks ms) ∧ u = r.au) ∨
  ∃ ps cs p S, d r = some (.index ps cs (some p)) ∧ d p = some (.auxiliary S) ∧ S u

/-- A unit holds a reached node page. -/
def NodeUnit (s : State) (u : Nat) : Prop := ∃ a : Address, NodeReached s a ∧ a.au = u

/-- A unit belongs to a branch in use. -/
def BranchUnit (s : State) (u : Nat) : Prop := ∃ r, InUse s r ∧ Lists s.betree.linked.bdv r u

/-- A unit belongs to a branch under construction. -/
def WipUnit (s : State) (u : Nat) : Prop := ∃ b ∈ s.wip, b.mini.allocs.Has u

/-- The units of an image: those with node pages, and those listed by branches its nodes list. -/
def ImageUnit (l : BLinked) (u : Nat) : Prop :=
  (∃ a : Address, Reach l.dv l.root a ∧ a.au = u) ∨
  ∃ a n r, Reach l.dv l.root a ∧ l.dv a = some n ∧ r ∈ n.buffers ∧ Lists l.bdv r u

end Verif.BranchLedger
