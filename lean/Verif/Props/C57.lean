import Verif.Kv.BetreeDemo
import Verif.Props.C56
/-
C57. The betree over a graph of shared nodes is a map.

Specification: the history of changes and what it gives (`contents`, Verif/Kv/Client.lean), and the
client's specification there.
-/
namespace Verif.C57
open Verif.Kv Verif.Kv.Betree

/-- The tree as a machine: transactions on the graph of nodes, and removal of unused nodes. -/
abbrev tree : Machine (Graph Node) UIOp := BetreeDemo.M

/-- **The tree acts as a map.** Every execution of queries, range queries, puts, clones, flushes, growths,
redirections (splits and merges are some) and removals of unused nodes is, from outside, one of the
client's specification: every answer is what the history of puts and clones gives. At any time the value
found for a key by walking down from the root is the one the history gives. -/
theorem acts_as_map {tr : List UIOp} {g : Graph Node} (h : tree.Exec tr g) :
    ∃ c, Client.machine.Exec tr c ∧ c.log = tr.flatMap UIOp.entries ∧
      ∀ k v, Eval g rootRef k v ↔ v = contents c.log k := by
  have key : ∃ c, Client.machine.Exec tr c ∧ c.durable ≤ c.log.length ∧
      c.log = tr.flatMap UIOp.entries ∧ Abs g (contents c.log) := by
    refine Machine.exec_invariant (M := tree)
      (I := fun tr g => ∃ c, Client.machine.Exec tr c ∧ c.durable ≤ c.log.length ∧
        c.log = tr.flatMap UIOp.entries ∧ Abs g (contents c.log)) ?_ ?_ h
    · intro g hg
      exact ⟨Client.initial, ⟨_, rfl, .nil _⟩, Nat.zero_le _, rfl, isMap.init g hg⟩
    · rintro tr g u g' ⟨c, h1, h2, h3, h4⟩ hs
      obtain ⟨m', h5, h6⟩ := isMap.next g _ u g' h4 hs
      have he := Composite.next_contents rfl h5
      refine ⟨_, h1.snoc (Composite.next_client h5 h2), ?_, ?_, he ▸ h6⟩
      · exact Nat.le_trans h2 (by simp)
      · simp [h3]
  obtain ⟨c, h1, _, h3, h4⟩ := key
  refine ⟨c, h1, h3, fun k v => ⟨fun he => he.det (h4.value k), ?_⟩⟩
  rintro rfl
  exact h4.value k

/-- **Every key can be queried.** In every reachable tree and for every key there is a query transaction
whose reads are what the tree holds; by the above its answer is the right one. -/
theorem query_enabled {tr : List UIOp} {g : Graph Node} (h : tree.Exec tr g) (k : Key) :
    tree.Step g (.get k (contents (tr.flatMap UIOp.entries) k)) g := by
  obtain ⟨c, _, h2, h3⟩ := acts_as_map h
  obtain ⟨x, xs, hr, rfl, e1, e2, e3, e4⟩ := eval_lookup ((h3 k _).mpr rfl)
  rw [h2] at e4
  refine .inl ⟨lookupReads (x :: xs), [], .query ⟨⟨x, xs, rfl, hr, rfl⟩, e1, e2⟩ e4, ?_, .nil⟩
  intro y n hy
  obtain ⟨z, hz, e⟩ := List.mem_map.mp hy
  cases e
  exact e3 z hz

/-- **The store with the betree on top is a map that survives crashes**: the betree meets what the whole
system asks of its application. -/
theorem store_is_durable_map {loc : Loc} {tr : List (BlockSystem.Label Node)}
    {s : KvSystem.State Node} (h : (KvSystem.machine app (fun n => n = emptyNode) loc).Exec tr s) :
    ∃ c, Client.machine.Exec (tr.map (fun l => l.vop.ui)) c :=
  C56.acts_as_durable_map isMap h

/-! ### Concrete case -/

/-- The run of Verif/Kv/BetreeDemo.lean: a put, a growth, a clone of a prefix, a read through the clone,
a put that overwrites the clone, a flush that carries both through the translated edge, a redirection,
reads of original and clone, and a range query that finds just the two. -/
theorem demo : tree.Exec BetreeDemo.trace BetreeDemo.g6 ∧
    ∃ c, Client.machine.Exec BetreeDemo.trace c ∧ contents c.log [5] = [9] ∧
      contents c.log [1] = [2] := by
  obtain ⟨c, h1, h2, _⟩ := acts_as_map BetreeDemo.run0
  refine ⟨BetreeDemo.run0, c, h1, ?_, ?_⟩
  · rw [h2]; decide
  · rw [h2]; decide

end Verif.C57
