import Verif.Kv.PivotDemo
import Verif.Props.C56
/-
C58. The betree with pivot nodes is a map.

Specification: the history of changes and what it gives (`contents`, Verif/Kv/Client.lean), and the
client's specification there.
-/
namespace Verif.C58
open Verif.Kv Verif.Kv.Pivot

/-- The tree as a machine: transactions on the graph of pivot nodes, and removal of unused nodes. -/
abbrev tree : Machine (Graph Node) UIOp := PivotDemo.M

/-- **The tree acts as a map.** Every execution of queries, range queries, puts, clones, flushes, growths,
splits, merges, repivots and removals of unused nodes is, from outside, one of the client's specification:
every answer is what the history of puts and clones gives. -/
theorem acts_as_map {tr : List UIOp} {g : Graph Node} (h : tree.Exec tr g) :
    ∃ c, Client.machine.Exec tr c ∧ c.log = tr.flatMap UIOp.entries := by
  obtain ⟨c, h1, h2, _⟩ := PivotDemo.exec_abs h
  exact ⟨c, h1, h2⟩

/-- **No lookup gets stuck or lost.** In every reachable tree and for every key there is a lookup from the
root in which every node covers its key, and it finds the value the history gives. -/
theorem query_enabled {tr : List UIOp} {g : Graph Node} (h : tree.Exec tr g) (k : Key) :
    tree.Step g (.get k (contents (tr.flatMap UIOp.entries) k)) g := by
  obtain ⟨_, _, _, ha⟩ := PivotDemo.exec_abs h
  exact PivotDemo.query_step ha k

/-- **Every lookup is right.** Whatever path of nodes of a reachable tree a lookup for a key takes, if it
ends with a value it is the one the history gives. -/
theorem lookup_right {tr : List UIOp} {g : Graph Node} (h : tree.Exec tr g) {l : List Layer} {k : Key}
    {v : Value} (hl : WFLookup l k) (hr : ∀ x n, (x, n) ∈ lookupReads l → g x = some n)
    (hv : interpretLeaf l = .define v) : v = contents (tr.flatMap UIOp.entries) k := by
  obtain ⟨_, _, _, ha⟩ := PivotDemo.exec_abs h
  obtain ⟨m', h1, _⟩ := step_map ha (.query hl (fun _ => hv)) hr .nil
  cases h1
  assumption

/-- **Every node stays well-formed**: in every reachable tree the pivots of each node are in order, there
is a bucket, an edge and in inner nodes a child for each range, each bucket is sorted, holds only keys of
its range and no empty update, and an edge prefix replaces a prefix that is not empty. -/
theorem nodes_wf {tr : List UIOp} {g : Graph Node} (h : tree.Exec tr g) {r : Ref} {n : Node}
    (hn : g r = some n) : InvNode n := by
  obtain ⟨_, _, _, ha⟩ := PivotDemo.exec_abs h
  exact (ha.good r n hn).inv

/-- **The store with this betree on top is a map that survives crashes.** -/
theorem store_is_durable_map {loc : Loc} {tr : List (BlockSystem.Label Node)}
    {s : KvSystem.State Node} (h : (KvSystem.machine app (fun n => n = emptyNode) loc).Exec tr s) :
    ∃ c, Client.machine.Exec (tr.map (fun l => l.vop.ui)) c :=
  C56.acts_as_durable_map isMap h

/-! ### Concrete case -/

/-- The run of Verif/Kv/PivotDemo.lean: puts, a growth, a flush, removal of the old leaf, a clone of a
prefix, a read through the clone, a put into the clone, a range query in it, a flush through the
translated edge, a repivot, a split, a merge, and reads of original and clone. -/
theorem demo : tree.Exec PivotDemo.trace PivotDemo.g10 ∧
    ∃ c, Client.machine.Exec PivotDemo.trace c ∧ contents c.log [6, 1] = [9] ∧
      contents c.log [5, 1] = [7] ∧ contents c.log [6, 2] = [8] := by
  obtain ⟨c, h1, h2⟩ := acts_as_map PivotDemo.run
  refine ⟨PivotDemo.run, c, h1, ?_, ?_, ?_⟩ <;> (rw [h2]; decide)

end Verif.C58
