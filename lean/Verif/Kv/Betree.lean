import Verif.Kv.BlockCache
import Verif.Kv.MapSpec
/-
`BetreeSpec` (Betree/BetreeSpec.i.dfy): the tree-shaped application of VeriBetrKV over a graph of
nodes, with one entry per key in each node. Several parents may share a child, and the edge to it may
stand for another key than the parent's: this is how clones are done.
-/
namespace Verif.Kv.Betree

/-- `Message`, lib/Base/Message.i.dfy:26-28 for `ValueMessage` (:88-101), whose `Delta` has the one
value `NoDelta`. -/
inductive Message
  | define (v : Value)
  | update
deriving DecidableEq

/-- `Merge(newmessage, oldmessage)`, lib/Base/Message.i.dfy:37-43. With `ApplyDelta` of `ValueMessage`
(:101) an update leaves the older message as it is. -/
def Message.merge : Message → Message → Message
  | .define v, _ => .define v
  | .update, m => m

/-- `Edge`, BetreeSpec.i.dfy:31 -/
structure Edge where
  edgeKey : Key
  ref : Ref

/-- `Node`, BetreeSpec.i.dfy:32 -/
structure Node where
  children : PMap Key Edge
  buffer : PMap Key Message

/-- `Successors`, BetreeSpec.i.dfy:34-37 -/
def Succs (n : Node) (r : Ref) : Prop := ∃ k e, n.children k = some e ∧ e.ref = r

/-- `WFNode`, BetreeSpec.i.dfy:67-70 -/
structure WFNode (n : Node) : Prop where
  full : ∀ k, n.buffer k ≠ none
  leaf : ∀ k, n.children k = none → ∃ v, n.buffer k = some (.define v)

/-- `Layer`, BetreeSpec.i.dfy:87 -/
structure Layer where
  ref : Ref
  node : Node
  key : Key

/-- `InterpretLookup`, BetreeSpec.i.dfy:135-143. A missing entry, which `WFNode` rules out, counts as
no change. -/
def interpret (l : List Layer) : Message :=
  l.foldl (fun m x => m.merge ((x.node.buffer x.key).getD .update)) .update

/-- `LookupFollowsChildRefs` and `LookupFollowsEdges`, BetreeSpec.i.dfy:104-122 -/
def Follows (l : List Layer) : Prop :=
  ∀ i (h : i + 1 < l.length),
    l[i].node.children l[i].key = some ⟨l[i + 1].key, l[i + 1].ref⟩

/-- `WFLookupForKey`, BetreeSpec.i.dfy:124-133 -/
structure WFLookup (l : List Layer) (k : Key) : Prop where
  head : ∃ x xs, l = x :: xs ∧ x.ref = rootRef ∧ x.key = k
  follows : Follows l
  wf : ∀ x ∈ l, WFNode x.node

/-- `QueryReads` over `LayersToReadOps`, BetreeSpec.i.dfy:150-164 -/
def lookupReads (l : List Layer) : List (Ref × Node) := l.map (fun x => (x.ref, x.node))

/-- `SamePathWithKeyValue`, BetreeSpec.i.dfy:178-189 -/
structure SamePath (l l' : List Layer) (k : Key) (v : Value) : Prop where
  same : lookupReads l = lookupReads l'
  lookup : WFLookup l' k
  value : interpret l' = .define v

/-- `ValidSuccQuery`, BetreeSpec.i.dfy:191-201 -/
structure ValidSucc (start : RangeStart) (rs : List (Key × Value)) (stop : RangeEnd)
    (l : List Layer) : Prop where
  range : MapSpec.NonEmptyRange start stop
  found : ∀ k v, (k, v) ∈ rs → ∃ l', SamePath l l' k v
  inRange : ∀ i (h : i < rs.length), MapSpec.InRange start rs[i].1 stop
  full : ∀ i (h : i < rs.length), rs[i].2 ≠ []
  sorted : ∀ i j (hi : i < rs.length) (hj : j < rs.length), i < j → MapSpec.lt rs[i].1 rs[j].1
  rest : ∀ k, MapSpec.InRange start k stop → (∀ i (h : i < rs.length), rs[i].1 ≠ k) →
    ∃ l', SamePath l l' k []

/-- `AddMessageToNode`, BetreeSpec.i.dfy:215-226 -/
def addMessage (n : Node) (k : Key) (m : Message) : Node :=
  ⟨n.children, n.buffer.insert k (m.merge ((n.buffer k).getD .update))⟩

/-- `NodeFlush`, BetreeSpec.i.dfy:252-261 -/
structure Flush where
  parentref : Ref
  parent : Node
  newparent : Node
  childref : Ref
  child : Node
  newchildref : Ref
  newchild : Node
  moved : Key → Prop
  flushed : Key → Prop

/-- `ValidFlush`, BetreeSpec.i.dfy:263-297 -/
structure Flush.Valid (f : Flush) : Prop where
  wfParent : WFNode f.parent
  wfChild : WFNode f.child
  wfNewParent : WFNode f.newparent
  wfNewChild : WFNode f.newchild
  sub : ∀ k, f.flushed k → f.moved k
  edge : ∀ k, f.moved k → ∃ x, f.parent.children k = some ⟨x, f.childref⟩
  emptied : ∀ k, f.flushed k → f.newparent.buffer k = some .update
  kept : ∀ k, ¬ f.flushed k → f.newparent.buffer k = f.parent.buffer k
  moved : ∀ k, f.moved k → f.newparent.children k = some ⟨k, f.newchildref⟩
  stays : ∀ k, ¬ f.moved k → f.newparent.children k = f.parent.children k
  merged : ∀ k e mp mc, f.flushed k → f.parent.children k = some e → f.parent.buffer k = some mp →
    f.child.buffer e.edgeKey = some mc → f.newchild.buffer k = some (mp.merge mc)
  carried : ∀ k e, f.moved k → ¬ f.flushed k → f.parent.children k = some e →
    f.newchild.buffer k = f.child.buffer e.edgeKey
  below : ∀ k e, f.moved k → f.parent.children k = some e →
    f.newchild.children k = f.child.children e.edgeKey
  only : ∀ k, ¬ f.moved k → f.newchild.children k = none

/-- The root that `GrowOps` (BetreeSpec.i.dfy:333-343) writes: nothing in it, and one child. -/
def grownRoot (child : Ref) : Node := ⟨fun k => some ⟨k, child⟩, fun _ => some .update⟩

/-- `Redirect`, BetreeSpec.i.dfy:347-358 -/
structure Redirect where
  parentref : Ref
  oldParent : Node
  oldChildrefs : List Ref
  oldChildren : PMap Ref Node
  newParent : Node
  newChildrefs : List Ref
  newChildren : PMap Ref Node
  keys : Key → Prop

/-- `ValidRedirect`, BetreeSpec.i.dfy:360-436: `WFRedirect` (:360-378), `ValidRedirectNewParent`
(:380-388), `ValidRedirectNewChildren` (:390-406), `ValidRedirectNewGrandchildren` (:408-429). -/
structure Redirect.Valid (r : Redirect) : Prop where
  wfOld : WFNode r.oldParent
  wfOlds : ∀ x n, r.oldChildren x = some n → WFNode n
  wfNew : WFNode r.newParent
  wfNews : ∀ x n, r.newChildren x = some n → WFNode n
  dom : ∀ k, r.keys k → r.oldParent.children k ≠ none ∧ r.newParent.children k ≠ none
  oldRefs : ∀ x, (∃ k e, r.keys k ∧ r.oldParent.children k = some e ∧ e.ref = x) ↔ x ∈ r.oldChildrefs
  olds : ∀ x, r.oldChildren x ≠ none ↔ ∃ k e, r.keys k ∧ r.oldParent.children k = some e ∧ e.ref = x
  newRefs : ∀ x, (∃ k e, r.keys k ∧ r.newParent.children k = some e ∧ e.ref = x) → x ∈ r.newChildrefs
  news : ∀ x, r.newChildren x ≠ none ↔ x ∈ r.newChildrefs
  buffer : r.newParent.buffer = r.oldParent.buffer
  edges : ∀ k e, r.keys k → r.newParent.children k = some e → e.edgeKey = k
  stays : ∀ k, ¬ r.keys k → r.newParent.children k = r.oldParent.children k
  same : ∀ k e e' n n', r.keys k → r.oldParent.children k = some e → r.newParent.children k = some e' →
    r.oldChildren e.ref = some n → r.newChildren e'.ref = some n' →
    n'.buffer k = n.buffer e.edgeKey ∧ n'.children k = n.children e.edgeKey
  grand : ∀ x n k e, r.newChildren x = some n → n.children k = some e →
    ∃ key e1 e2, r.newParent.children key = some e1 ∧ e1.ref = x ∧ n.children key = some e2 ∧
      e2.ref = e.ref ∧ r.keys key ∧ r.oldParent.children key ≠ none

/-- `RedirectReads`, BetreeSpec.i.dfy:438-458 -/
def Redirect.reads (r : Redirect) : List (Ref × Node) :=
  (r.parentref, r.oldParent) ::
    r.oldChildrefs.filterMap (fun x => (r.oldChildren x).map (fun n => (x, n)))

/-- `RedirectOps`, BetreeSpec.i.dfy:460-478 -/
def Redirect.ops (r : Redirect) : List (GOp Node) :=
  r.newChildrefs.filterMap (fun x => (r.newChildren x).map (fun n => .alloc x n)) ++
    [.write r.parentref r.newParent]

/-- `ValidClone`, BetreeSpec.i.dfy:488-503 -/
structure ValidClone (old new : Node) (newToOld : Key → Option Key) : Prop where
  wfOld : WFNode old
  wfNew : WFNode new
  empty : ∀ k x, newToOld k = some x → old.buffer x = some .update
  child : ∀ k x, newToOld k = some x → old.children x ≠ none
  newBuffer : ∀ k x, newToOld k = some x → new.buffer k = some .update
  sameBuffer : ∀ k, newToOld k = none → new.buffer k = old.buffer k
  newChild : ∀ k x, newToOld k = some x → new.children k = old.children x
  sameChild : ∀ k, newToOld k = none → new.children k = old.children k

/-- `ValidBetreeStep`, `BetreeStepReads`, `BetreeStepOps` and `BetreeStepUI`, BetreeSpec.i.dfy:520-560,
with the stuttering step of `Betree.Next` (Betree/Betree.i.dfy:54-70). -/
inductive Valid : UIOp → List (Ref × Node) → List (GOp Node) → Prop
  /-- `ValidQuery`, :145-148 -/
  | query {k v l} : WFLookup l k → interpret l = .define v → Valid (.get k v) (lookupReads l) []
  | succ {start rs stop l} : ValidSucc start rs stop l →
      Valid (.succ start rs stop) (lookupReads l) []
  /-- `ValidInsertion`, `InsertionReads`, `InsertionOps`, :228-248 -/
  | insert {k v old} : WFNode old →
      Valid (.put k v) [(rootRef, old)] [.write rootRef (addMessage old k (.define v))]
  /-- `FlushReads`, `FlushOps`, :299-316 -/
  | flush {f : Flush} : f.Valid → Valid .noop [(f.parentref, f.parent), (f.childref, f.child)]
      [.alloc f.newchildref f.newchild, .write f.parentref f.newparent]
  /-- `ValidGrow`, `GrowReads`, `GrowOps`, :318-343 -/
  | grow {old child} : Valid .noop [(rootRef, old)]
      [.alloc child old, .write rootRef (grownRoot child)]
  | redirect {r : Redirect} : r.Valid → Valid .noop r.reads r.ops
  /-- `CloneReads`, `CloneOps`, :505-516 -/
  | clone {src dst old new} : ValidClone old new (MapSpec.cloneMap src dst) →
      Valid (.clone src dst) [(rootRef, old)] [.write rootRef new]
  | stutter {reads} : Valid .noop reads []

/-- The application. -/
def app : App Node := ⟨Succs, WFNode, Valid⟩

/-- `EmptyNode`, Betree/Betree.i.dfy:31-34 -/
def emptyNode : Node := ⟨.empty, fun _ => some (.define [])⟩

end Verif.Kv.Betree
