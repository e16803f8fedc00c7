import Verif.Betree.Buffer
import Verif.Betree.Keys
/-
Model of Splinter/src/betree/PivotBranch_v.rs: B+trees as nested data.
-/
namespace Verif

/-- PivotBranch_v.rs 85-88 -/
inductive BNode where
  | index (pivots : List Key) (children : List BNode)
  | leaf (keys : List Key) (msgs : List Message)

/-- PivotBranch_v.rs 29-32 -/
inductive SplitArg where
  | index (pivot : Key) (pivotIndex : Nat)
  | leaf (pivot : Key)

namespace BNode

/-- `self is Leaf` -/
def IsLeaf : BNode → Prop
  | leaf _ _ => True
  | index _ _ => False

/-- `self is Index` -/
def IsIndex : BNode → Prop
  | leaf _ _ => False
  | index _ _ => True

/-- `self->keys` (none on an index, arbitrary in Rust) -/
def keys : BNode → List Key
  | leaf ks _ => ks
  | index _ _ => []

/-- `self->msgs` (none on an index, arbitrary in Rust) -/
def msgs : BNode → List Message
  | leaf _ ms => ms
  | index _ _ => []

/-- `self->pivots` (none on a leaf, arbitrary in Rust) -/
def pivots : BNode → List Key
  | leaf _ _ => []
  | index ps _ => ps

/-- `self->children` (none on a leaf, arbitrary in Rust) -/
def children : BNode → List BNode
  | leaf _ _ => []
  | index _ cs => cs

/-- PivotBranch_v.rs 428-430 -/
def invalid : BNode := leaf [] []

/-- PivotBranch_v.rs 112-131 -/
def AllKeys : BNode → Key → Prop
  | leaf ks _, k => k ∈ ks
  | index ps cs, k => k ∈ ps ∨ ∃ c, ∃ _h : c ∈ cs, AllKeys c k

/-- PivotBranch_v.rs 156-180, with `all_keys_below_bound` 134-142 and `all_keys_above_bound`
145-153. The code's `pivots.len() == children.len() - 1` is over integers. -/
def WF : BNode → Prop
  | leaf ks ms => 0 < ks.length ∧ ks.length = ms.length ∧ KeyT.StrictlySorted ks
  | index ps cs => ps.length + 1 = cs.length ∧ KeyT.StrictlySorted ps ∧
      (∀ c, (_h : c ∈ cs) → WF c) ∧
      (∀ (i : Nat) c p, cs[i]? = some c → ps[i]? = some p → ∀ k, c.AllKeys k → KeyT.Lt k p) ∧
      (∀ (i : Nat) c p, cs[i + 1]? = some c → ps[i]? = some p → ∀ k, c.AllKeys k → KeyT.Lte p k)

/-- PivotBranch_v.rs 189-198 -/
def route : BNode → Key → Int
  | leaf ks _, k => KeyT.largestLte ks k
  | index ps _, k => KeyT.largestLte ps k

/-- `self->children[self.route(key) + 1]`, as used in 236, 455 -/
def child (t : BNode) (k : Key) : BNode := t.children.getD (t.route k + 1).toNat invalid

/-- PivotBranch_v.rs 223-239 -/
def query : BNode → Key → Message
  | leaf ks ms, k =>
    let r := KeyT.largestLte ks k
    if 0 ≤ r ∧ ks[r.toNat]? = some k then ms.getD r.toNat .nop else .nop
  | index ps cs, k => (cs.attach[(KeyT.largestLte ps k + 1).toNat]?).elim .nop
      fun ⟨c, _⟩ => query c k

/-- PivotBranch_v.rs 242-260 -/
def insertLeaf (t : BNode) (k : Key) (m : Message) : BNode :=
  let r := t.route k
  if 0 ≤ r ∧ t.keys[r.toNat]? = some k then leaf t.keys (t.msgs.set r.toNat m)
  else leaf (t.keys.insertIdx (r + 1).toNat k) (t.msgs.insertIdx (r + 1).toNat m)

/-- PivotBranch_v.rs 277-281 -/
def grow (t : BNode) : BNode := index [] [t]

/-- PivotBranch_v.rs 301-311 -/
def appendLeaf (t : BNode) (ks : List Key) (ms : List Message) : BNode :=
  leaf (t.keys ++ ks) (t.msgs ++ ms)

end BNode

/-- PivotBranch_v.rs 52-59 -/
def SplitArg.pivot : SplitArg → Key
  | .leaf p => p
  | .index p _ => p

/-- PivotBranch_v.rs 35-50 -/
def SplitArg.WF (a : SplitArg) (t : BNode) : Prop :=
  match a with
  | .leaf p => t.IsLeaf ∧ t.keys.length = t.msgs.length ∧
      0 < KeyT.largestLt t.keys p + 1 ∧ KeyT.largestLt t.keys p + 1 < t.keys.length
  | .index p i => t.IsIndex ∧ t.WF ∧ t.pivots[i]? = some p

namespace BNode

/-- PivotBranch_v.rs 316-332 -/
def splitLeaf (t : BNode) (a : SplitArg) : BNode × BNode :=
  let i := (KeyT.largestLt t.keys a.pivot + 1).toNat
  (leaf (t.keys.take i) (t.msgs.take i), leaf (t.keys.drop i) (t.msgs.drop i))

/-- PivotBranch_v.rs 336-343 -/
def subIndex (t : BNode) (from_ to : Nat) : BNode :=
  index ((t.pivots.take (to - 1)).drop from_) ((t.children.take to).drop from_)

/-- PivotBranch_v.rs 358-370, given the pivot index -/
def splitIndex (t : BNode) (i : Nat) : BNode × BNode :=
  (t.subIndex 0 (i + 1), t.subIndex (i + 1) t.children.length)

/-- PivotBranch_v.rs 373-381; a leaf argument on an index node does not occur (`SplitArg.WF`) -/
def splitNode (t : BNode) (a : SplitArg) : BNode × BNode :=
  match t with
  | leaf _ _ => t.splitLeaf a
  | index _ _ => t.splitIndex (match a with | .index _ i => i | .leaf _ => 0)

/-- PivotBranch_v.rs 385-394 -/
def CanSplitChild (t : BNode) (a : SplitArg) : Prop :=
  t.WF ∧ t.IsIndex ∧ a.WF (t.child a.pivot)

/-- PivotBranch_v.rs 400-413 -/
def splitChild (t : BNode) (a : SplitArg) : BNode :=
  let i := (t.route a.pivot + 1).toNat
  let lr := (t.child a.pivot).splitNode a
  index (t.pivots.insertIdx i a.pivot) ((t.children.set i lr.1).insertIdx (i + 1) lr.2)

end BNode

/-- PivotBranch_v.rs 435-443 -/
structure BPath where
  node : BNode
  key : Key
  depth : Nat

namespace BPath

/-- PivotBranch_v.rs 461-467 with `subpath` 446-458 -/
def ValidFrom (t : BNode) (key : Key) : Nat → Prop
  | 0 => t.WF
  | d + 1 => t.WF ∧ t.IsIndex ∧ ValidFrom (t.child key) key d

/-- PivotBranch_v.rs 470-479 -/
def targetFrom (t : BNode) (key : Key) : Nat → BNode
  | 0 => t
  | d + 1 => targetFrom (t.child key) key d

/-- PivotBranch_v.rs 494-504 with `replaced_children` 482-491 -/
def substituteFrom (t : BNode) (key : Key) (repl : BNode) : Nat → BNode
  | 0 => repl
  | d + 1 => .index t.pivots
      (t.children.set (t.route key + 1).toNat (substituteFrom (t.child key) key repl d))

/-- PivotBranch_v.rs 506-512 -/
def EquivFrom (t : BNode) (key other : Key) : Nat → Prop
  | 0 => t.route key = t.route other
  | d + 1 => t.route key = t.route other ∧ EquivFrom (t.child key) key other d

def Valid (p : BPath) : Prop := ValidFrom p.node p.key p.depth
def target (p : BPath) : BNode := targetFrom p.node p.key p.depth
def substitute (p : BPath) (repl : BNode) : BNode := substituteFrom p.node p.key repl p.depth
def Equiv (p : BPath) (other : Key) : Prop := EquivFrom p.node p.key other p.depth

end BPath

namespace BNode

/-- The `recommends` of `insert`, PivotBranch_v.rs 265-270 (`lbl` of `insert_refines`) -/
def CanInsert (t : BNode) (k : Key) (p : BPath) : Prop :=
  t.WF ∧ p.Valid ∧ p.node = t ∧ p.key = k ∧ p.target.IsLeaf

/-- PivotBranch_v.rs 264-274 -/
def insert (_t : BNode) (k : Key) (m : Message) (p : BPath) : BNode :=
  p.substitute (p.target.insertLeaf k m)

/-- The `recommends` of `append`, PivotBranch_v.rs 286-296 -/
def CanAppend (t : BNode) (ks : List Key) (ms : List Message) (p : BPath) : Prop :=
  p.Valid ∧ p.node = t ∧ 0 < ks.length ∧ ks.length = ms.length ∧ KeyT.StrictlySorted ks ∧
  p.target.IsLeaf ∧
  (∀ last first, p.target.keys.getLast? = some last → ks[0]? = some first → KeyT.Lt last first) ∧
  ks[0]? = some p.key ∧ ∀ last, ks.getLast? = some last → p.Equiv last

/-- PivotBranch_v.rs 285-299 -/
def append (_t : BNode) (ks : List Key) (ms : List Message) (p : BPath) : BNode :=
  p.substitute (p.target.appendLeaf ks ms)

/-- The `recommends` of `split`, PivotBranch_v.rs 417-422 -/
def CanSplit (t : BNode) (p : BPath) (a : SplitArg) : Prop :=
  t.WF ∧ p.Valid ∧ p.node = t ∧ p.key = a.pivot ∧ p.target.CanSplitChild a

/-- PivotBranch_v.rs 416-426 -/
def split (_t : BNode) (p : BPath) (a : SplitArg) : BNode :=
  p.substitute (p.target.splitChild a)

end BNode
end Verif
