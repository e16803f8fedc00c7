import Verif.Betree.Branch
import Verif.Base.Disk
/-
Model of Splinter/src/betree/LinkedBranch_v.rs: B+trees whose nodes are pages on a disk view.

The code defines `keys_strictly_sorted_internal`, `all_keys_in_range_internal`, `all_keys` and
`reachable_addrs_using_ranking` by recursion on a ranking. Here the same sets are inductive
(`Reach`, `AllKeys`) and the same conditions quantify over the pages reachable from the root; the
ranking is kept where it matters, in `Acyclic` and in the number of steps `query` may take.
-/
namespace Verif.LBr
open Verif

/-- LinkedBranch_v.rs 24-28 -/
inductive Node (T : Type) where
  | leaf (keys : List Key) (msgs : List Message)
  | index (pivots : List Key) (children : List Address) (aux : Pointer)
  | auxiliary (x : T)

namespace Node
variable {T : Type}

/-- `self is Leaf` -/
def IsLeaf : Node T → Prop
  | leaf _ _ => True
  | _ => False

/-- `self is Index` -/
def IsIndex : Node T → Prop
  | index _ _ _ => True
  | _ => False

/-- `self is Auxiliary` -/
def IsAux : Node T → Prop
  | auxiliary _ => True
  | _ => False

/-- `self->keys` (none on other nodes, arbitrary in Rust) -/
def keys : Node T → List Key
  | leaf ks _ => ks
  | _ => []

/-- `self->msgs` (none on other nodes, arbitrary in Rust) -/
def msgs : Node T → List Message
  | leaf _ ms => ms
  | _ => []

/-- `self->pivots` (none on other nodes, arbitrary in Rust) -/
def pivots : Node T → List Key
  | index ps _ _ => ps
  | _ => []

/-- `self->children` (none on other nodes, arbitrary in Rust) -/
def children : Node T → List Address
  | index _ cs _ => cs
  | _ => []

/-- LinkedBranch_v.rs 31-43; the code's `pivots.len() == children.len() - 1` is over integers -/
def WF : Node T → Prop
  | leaf ks ms => 0 < ks.length ∧ ks.length = ms.length
  | index ps cs _ => ps.length + 1 = cs.length
  | auxiliary _ => True

/-- LinkedBranch_v.rs 45-48 -/
def keysOrPivots : Node T → List Key
  | leaf ks _ => ks
  | index ps _ _ => ps
  | auxiliary _ => []

/-- LinkedBranch_v.rs 61-66 -/
def route (n : Node T) (k : Key) : Int := KeyT.largestLte n.keysOrPivots k

end Node

/-- LinkedBranch_v.rs 72-74 `DiskView` -/
abbrev Disk (T : Type) := PMap Address (Node T)

namespace Disk
variable {T : Type}

/-- LinkedBranch_v.rs 79-108: every page well formed (`entries_wf` 86-89), every child on the disk
and no child an auxiliary page (`node_has_valid_child_address` 97-102) -/
def WF (d : Disk T) : Prop :=
  (∀ a n, d a = some n → n.WF) ∧
  ∀ a n, d a = some n → ∀ c ∈ n.children, ∃ n', d c = some n' ∧ ¬ n'.IsAux

/-- LinkedBranch_v.rs 157-162 with `node_children_respects_rank` 143-154. The ranking is a partial
map, closed under children; it may mention addresses that are not on the disk. -/
def ValidRanking (d : Disk T) (r : PMap Address Nat) : Prop :=
  ∀ a m n, r a = some m → d a = some n → ∀ c ∈ n.children, ∃ m', r c = some m' ∧ m' < m

/-- LinkedBranch_v.rs 164-167, for one address -/
def Fresh (d : Disk T) (a : Address) : Prop := d a = none

/-- LinkedBranch_v.rs 179-182 `modify_disk` -/
def modify (d : Disk T) (a : Address) (n : Node T) : Disk T := d.insert a n

/-- LinkedBranch_v.rs 169-172 `merge_disk` -/
def merge (d e : Disk T) : Disk T := d.unionRight e

end Disk

/-- LinkedBranch_v.rs 238-241 -/
structure Branch (T : Type) where
  root : Address
  disk : Disk T

namespace Branch
variable {T : Type}

/-- LinkedBranch_v.rs 346-350 `root()`; a missing page (arbitrary in Rust) is an empty leaf -/
def node (b : Branch T) : Node T := (b.disk b.root).getD (.leaf [] [])

/-- LinkedBranch_v.rs 340-344 -/
def HasRoot (b : Branch T) : Prop := ∃ n, b.disk b.root = some n ∧ ¬ n.IsAux

/-- LinkedBranch_v.rs 334-338 -/
def WF (b : Branch T) : Prop := b.disk.WF ∧ b.HasRoot

/-- LinkedBranch_v.rs 502-508; out of range (arbitrary in Rust) stays where it is -/
def childAt (b : Branch T) (i : Nat) : Branch T := ⟨b.node.children.getD i b.root, b.disk⟩

/-- `child_at_idx(route(key) + 1)`, as used in 587, 702, 713, 741 -/
def child (b : Branch T) (k : Key) : Branch T := b.childAt (b.node.route k + 1).toNat

/-- LinkedBranch_v.rs 372-377 -/
def ValidRanking (b : Branch T) (r : PMap Address Nat) : Prop := b.disk.ValidRanking r ∧ r.Has b.root

/-- LinkedBranch_v.rs 387-391 -/
def Acyclic (b : Branch T) : Prop := b.WF ∧ ∃ r, b.ValidRanking r

end Branch

/-- LinkedBranch_v.rs 510-556 `representation`: the pages of the tree under `a`. Inductive here. -/
inductive Reach {T : Type} (d : Disk T) : Address → Address → Prop
  | here {a} : Reach d a a
  | down {a n c b} : d a = some n → c ∈ n.children → Reach d c b → Reach d a b

/-- LinkedBranch_v.rs 461-476 `all_keys` with `map_all_keys`, `children_keys` 427-459: the keys and
pivots of the tree under `a`. Inductive here. -/
inductive AllKeys {T : Type} (d : Disk T) : Address → Key → Prop
  | own {a n k} : d a = some n → k ∈ n.keysOrPivots → AllKeys d a k
  | down {a n c k} : d a = some n → c ∈ n.children → AllKeys d c k → AllKeys d a k

namespace Branch
variable {T : Type}

/-- LinkedBranch_v.rs 393-405, over the pages of the tree -/
def KeysSorted (b : Branch T) : Prop :=
  ∀ a n, Reach b.disk b.root a → b.disk a = some n → KeyT.StrictlySorted n.keysOrPivots

/-- LinkedBranch_v.rs 413-425 with `all_keys_below_bound` 478-488 and `all_keys_above_bound`
490-500, over the pages of the tree -/
def KeysInRange (b : Branch T) : Prop :=
  ∀ a ps cs x, Reach b.disk b.root a → b.disk a = some (.index ps cs x) →
    (∀ (i : Nat) c p, cs[i]? = some c → ps[i]? = some p → ∀ k, AllKeys b.disk c k → KeyT.Lt k p) ∧
    (∀ (i : Nat) c p, cs[i + 1]? = some c → ps[i]? = some p →
      ∀ k, AllKeys b.disk c k → KeyT.Lte p k)

/-- LinkedBranch_v.rs 352-364 -/
def Inv (b : Branch T) : Prop := b.Acyclic ∧ b.KeysSorted ∧ b.KeysInRange

/-- LinkedBranch_v.rs 558-561 `tight_disk_view`, of an acyclic branch -/
def Tight (b : Branch T) : Prop := ∀ a, b.disk.Has a ↔ Reach b.disk b.root a

end Branch

/-- LinkedBranch_v.rs 563-591 `query_internal`, recursive on the rank. Out of steps, on an auxiliary
or on a missing page (`arbitrary()` in Rust) it answers `nop`. -/
def queryFrom {T : Type} (d : Disk T) (k : Key) : Nat → Address → Message
  | 0, _ => .nop
  | f + 1, a =>
    let b : Branch T := ⟨a, d⟩
    match b.node with
    | .leaf ks ms =>
      let r := KeyT.largestLte ks k
      if 0 ≤ r ∧ ks[r.toNat]? = some k then ms.getD r.toNat .nop else .nop
    | .index _ _ _ => queryFrom d k f (b.child k).root
    | .auxiliary _ => .nop

/-- LinkedBranch_v.rs 366-370 `get_rank` -/
def getRank (r : PMap Address Nat) (a : Address) : Nat :=
  match r a with
  | some m => m + 1
  | none => 0

open Classical in
/-- LinkedBranch_v.rs 256-264, with `the_ranking` 379-384 -/
noncomputable def Branch.query {T : Type} (b : Branch T) (k : Key) : Message :=
  if h : b.Acyclic then queryFrom b.disk k (getRank (choose h.2) b.root) b.root else .nop

/-- LinkedBranch_v.rs 207-224 `SplitArg::wf` -/
def SplitOk {T : Type} (a : SplitArg) (n : Node T) : Prop :=
  match a with
  | .leaf p => n.IsLeaf ∧ n.keys.length = n.msgs.length ∧
      0 < KeyT.largestLt n.keys p + 1 ∧ KeyT.largestLt n.keys p + 1 < n.keys.length
  | .index p i => n.IsIndex ∧ n.children.length = n.pivots.length + 1 ∧ n.pivots[i]? = some p

namespace Branch
variable {T : Type}

/-- LinkedBranch_v.rs 593-608 -/
def insertLeaf (b : Branch T) (k : Key) (m : Message) : Branch T :=
  let n := b.node
  let r := KeyT.largestLte n.keys k
  let n' : Node T := if 0 ≤ r ∧ n.keys[r.toNat]? = some k then .leaf n.keys (n.msgs.set r.toNat m)
    else .leaf (n.keys.insertIdx (r + 1).toNat k) (n.msgs.insertIdx (r + 1).toNat m)
  ⟨b.root, b.disk.modify b.root n'⟩

/-- LinkedBranch_v.rs 610-622 -/
def appendLeaf (b : Branch T) (ks : List Key) (ms : List Message) : Branch T :=
  ⟨b.root, b.disk.modify b.root (.leaf (b.node.keys ++ ks) (b.node.msgs ++ ms))⟩

/-- LinkedBranch_v.rs 624-646; the disk shared by the two results (their roots are `b.root` and
`right`) -/
def splitLeaf (b : Branch T) (a : SplitArg) (right : Address) : Disk T :=
  let i := (KeyT.largestLt b.node.keys a.pivot + 1).toNat
  (b.disk.modify b.root (.leaf (b.node.keys.take i) (b.node.msgs.take i))).modify right
    (.leaf (b.node.keys.drop i) (b.node.msgs.drop i))

/-- LinkedBranch_v.rs 648-660 -/
def subIndex (b : Branch T) (from_ to : Nat) : Node T :=
  .index ((b.node.pivots.take (to - 1)).drop from_) ((b.node.children.take to).drop from_) none

/-- LinkedBranch_v.rs 662-678, given the pivot index; the disk shared by the two results -/
def splitIndex (b : Branch T) (i : Nat) (right : Address) : Disk T :=
  (b.disk.modify b.root (b.subIndex 0 (i + 1))).modify right
    (b.subIndex (i + 1) b.node.children.length)

/-- LinkedBranch_v.rs 680-691; a leaf argument on an index page does not occur (`SplitOk`) -/
def splitNode (b : Branch T) (a : SplitArg) (right : Address) : Disk T :=
  match b.node with
  | .leaf _ _ => b.splitLeaf a right
  | _ => b.splitIndex (match a with | .index _ i => i | .leaf _ => 0) right

/-- LinkedBranch_v.rs 693-705 -/
def CanSplitChild (b : Branch T) (a : SplitArg) (right : Address) : Prop :=
  b.HasRoot ∧ b.node.IsIndex ∧ b.node.WF ∧ (b.child a.pivot).HasRoot ∧
  SplitOk a (b.child a.pivot).node ∧ b.disk.Fresh right

/-- LinkedBranch_v.rs 707-723 -/
def splitChild (b : Branch T) (a : SplitArg) (right : Address) : Branch T :=
  let i := (b.node.route a.pivot + 1).toNat
  let n' : Node T := .index (b.node.pivots.insertIdx i a.pivot)
    (b.node.children.insertIdx (i + 1) right) none
  ⟨b.root, (b.disk.merge ((b.child a.pivot).splitNode a right)).modify b.root n'⟩

end Branch

/-- LinkedBranch_v.rs 727-731 -/
structure Path (T : Type) where
  branch : Branch T
  key : Key
  depth : Nat

namespace Path
variable {T : Type}

/-- LinkedBranch_v.rs 745-751 with `subpath` 734-743 -/
def ValidFrom (b : Branch T) (key : Key) : Nat → Prop
  | 0 => b.WF
  | d + 1 => b.WF ∧ b.node.IsIndex ∧ ValidFrom (b.child key) key d

/-- LinkedBranch_v.rs 753-762 -/
def targetFrom (b : Branch T) (key : Key) : Nat → Branch T
  | 0 => b
  | d + 1 => targetFrom (b.child key) key d

/-- LinkedBranch_v.rs 770-776 -/
def EquivFrom (b : Branch T) (key other : Key) : Nat → Prop
  | 0 => b.node.route key = b.node.route other
  | d + 1 => b.node.route key = b.node.route other ∧ EquivFrom (b.child key) key other d

def Valid (p : Path T) : Prop := ValidFrom p.branch p.key p.depth
def target (p : Path T) : Branch T := targetFrom p.branch p.key p.depth
def Equiv (p : Path T) (other : Key) : Prop := EquivFrom p.branch p.key other p.depth

/-- LinkedBranch_v.rs 764-768: the root of the path, the disk of the replacement -/
def substitute (p : Path T) (repl : Branch T) : Branch T := ⟨p.branch.root, repl.disk⟩

end Path

namespace Branch
variable {T : Type}

/-- LinkedBranch_v.rs 266-272 -/
def CanInsert (b : Branch T) (k : Key) (p : Path T) : Prop :=
  p.Valid ∧ p.branch = b ∧ p.key = k ∧ p.target.node.IsLeaf

/-- LinkedBranch_v.rs 274-279 -/
def insert (_b : Branch T) (k : Key) (m : Message) (p : Path T) : Branch T :=
  p.substitute (p.target.insertLeaf k m)

/-- LinkedBranch_v.rs 281-285 -/
def CanGrow (b : Branch T) (a : Address) : Prop := b.WF ∧ b.disk.Fresh a

/-- LinkedBranch_v.rs 287-293 -/
def grow (b : Branch T) (a : Address) : Branch T :=
  ⟨a, b.disk.modify a (.index [] [b.root] none)⟩

/-- LinkedBranch_v.rs 295-306 -/
def CanAppend (b : Branch T) (ks : List Key) (ms : List Message) (p : Path T) : Prop :=
  p.Valid ∧ p.branch = b ∧ 0 < ks.length ∧ ks.length = ms.length ∧ KeyT.StrictlySorted ks ∧
  p.target.node.IsLeaf ∧
  (∀ last first, p.target.node.keys.getLast? = some last → ks[0]? = some first →
    KeyT.Lt last first) ∧
  ks[0]? = some p.key ∧ ∀ last, ks.getLast? = some last → p.Equiv last

/-- LinkedBranch_v.rs 308-313 -/
def append (_b : Branch T) (ks : List Key) (ms : List Message) (p : Path T) : Branch T :=
  p.substitute (p.target.appendLeaf ks ms)

/-- LinkedBranch_v.rs 315-322 -/
def CanSplit (b : Branch T) (right : Address) (p : Path T) (a : SplitArg) : Prop :=
  p.Valid ∧ p.branch = b ∧ p.key = a.pivot ∧ p.target.CanSplitChild a right

/-- LinkedBranch_v.rs 324-328 -/
def split (_b : Branch T) (right : Address) (p : Path T) (a : SplitArg) : Branch T :=
  p.substitute (p.target.splitChild a right)

end Branch
end Verif.LBr
