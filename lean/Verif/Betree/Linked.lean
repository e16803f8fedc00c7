import Verif.Base.Disk
import Verif.Betree.Filtered
/-
Model of Splinter/src/betree/LinkedBetree_v.rs, with LinkedSeq_v.rs and BufferDisk_v.rs: nodes and
buffers are pages found through addresses. Rust is generic in the buffer type `T: Buffer`; the
model takes `T = SimpleBuffer` (Buffer_v.rs 28-44), for which `linked_contains`, `linked_query`
and `i` ignore the disk. `LinkedSeq` is a list of addresses (wrapper struct dropped).
-/
namespace Verif

namespace PMap
variable {K V : Type}
/-- vstd `m <= n`: `n` extends `m` -/
def Sub (m n : PMap K V) : Prop := ∀ k v, m k = some v → n k = some v
/-- vstd `m.agrees(n)` -/
def Agrees (m n : PMap K V) : Prop := ∀ k v w, m k = some v → n k = some w → v = w
/-- vstd `m.dom().finite()` -/
def Finite (m : PMap K V) : Prop := ∃ l : List K, ∀ k, m.Has k → k ∈ l
end PMap

namespace LinkedBetree
open Verif Classical

/-- LinkedBetree_v.rs 34-39 -/
structure LNode where
  buffers : List Address
  pivots : PivotTable
  children : List Pointer
  flushed : BufferOffsets

namespace LNode

/-- LinkedBetree_v.rs 57-64 -/
def WF (n : LNode) : Prop :=
  n.pivots.WF ∧ n.children.length = n.pivots.numRanges ∧ n.children.length = n.flushed.length ∧
  BufferOffsets.AllLte n.flushed n.buffers.length

/-- LinkedBetree_v.rs 66-69 -/
def ValidChildIndex (n : LNode) (i : Nat) : Prop := i < n.children.length

/-- `self.children[i]` (`None` out of bounds, arbitrary in Rust) -/
def childAt (n : LNode) (i : Nat) : Pointer := n.children.getD i none

/-- LinkedBetree_v.rs 71-76 -/
def OccupiedChildIndex (n : LNode) (i : Nat) : Prop := n.ValidChildIndex i ∧ n.childAt i ≠ none

/-- LinkedBetree_v.rs 78-85 -/
def myDomain (n : LNode) : Domain := .range (n.pivots.get 0) (n.pivots.get (n.pivots.pivots.length - 1))

/-- LinkedBetree_v.rs 87-94 -/
def childDomain (n : LNode) (i : Nat) : Domain := .range (n.pivots.get i) (n.pivots.get (i + 1))

/-- LinkedBetree_v.rs 96-106; `extend` is LinkedSeq_v.rs 43-46 -/
def extendBufferSeq (n : LNode) (bs : List Address) : LNode := { n with buffers := n.buffers ++ bs }

/-- LinkedBetree_v.rs 117-123 -/
def flushedOfs (n : LNode) (k : Key) : Nat := n.flushed.getD (n.pivots.route k).toNat 0

/-- LinkedBetree_v.rs 125-130 -/
def IsLeaf (n : LNode) : Prop := n.children = [none] ∧ n.flushed = [0]

/-- LinkedBetree_v.rs 132-135 -/
def IsIndex (n : LNode) : Prop := ∀ i, n.ValidChildIndex i → n.childAt i ≠ none

/-- LinkedBetree_v.rs 137-143 -/
def CanSplitLeaf (n : LNode) (k : Key) : Prop :=
  n.WF ∧ n.IsLeaf ∧ n.myDomain.Contains k ∧ n.pivots.get 0 ≠ .ofKey k

/-- LinkedBetree_v.rs 145-165 -/
def splitLeaf (n : LNode) (k : Key) : LNode × LNode :=
  ({ n with pivots := n.pivots.update 1 (.ofKey k) }, { n with pivots := n.pivots.update 0 (.ofKey k) })

/-- LinkedBetree_v.rs 167-172 -/
def CanSplitIndex (n : LNode) (i : Nat) : Prop := n.WF ∧ n.IsIndex ∧ 0 < i ∧ i < n.pivots.numRanges

/-- LinkedBetree_v.rs 174-195 -/
def splitIndex (n : LNode) (i : Nat) : LNode × LNode :=
  ({ buffers := n.buffers, pivots := n.pivots.subrange 0 (i + 1), children := n.children.take i,
     flushed := BufferOffsets.slice n.flushed 0 i },
   { buffers := n.buffers, pivots := n.pivots.subrange i n.pivots.pivots.length,
     children := n.children.drop i, flushed := BufferOffsets.slice n.flushed i n.flushed.length })

/-- LinkedBetree_v.rs 197-206 -/
def emptyRoot (d : Domain) : LNode :=
  { buffers := [], pivots := .ofDomain d, children := [none], flushed := [0] }

/-- LinkedBetree_v.rs 208-212 -/
def KeyInDomain (n : LNode) (k : Key) : Prop := n.WF ∧ n.pivots.BoundedKey k

/-- LinkedBetree_v.rs 214-218 -/
def childPtr (n : LNode) (k : Key) : Pointer := n.childAt (n.pivots.route k).toNat

/-- LinkedBetree_v.rs 220-230 -/
noncomputable def makeOffsetMap (n : LNode) (k : Key) : Nat :=
  if n.KeyInDomain k then n.flushedOfs k else n.buffers.length

end LNode

/-- LinkedBetree_v.rs 233-235 -/
abbrev Disk := PMap Address LNode

namespace Disk

/-- LinkedBetree_v.rs 238-241 -/
def EntriesWF (d : Disk) : Prop := ∀ a n, d a = some n → n.WF

/-- LinkedBetree_v.rs 243-246 -/
def Nondangling (d : Disk) (p : Pointer) : Prop := ∀ a, p = some a → d.Has a

/-- LinkedBetree_v.rs 248-252 -/
def NodeNondangling (d : Disk) (n : LNode) : Prop :=
  ∀ i, n.ValidChildIndex i → d.Nondangling (n.childAt i)

/-- LinkedBetree_v.rs 254-263 -/
def ChildLinked (d : Disk) (n : LNode) (i : Nat) : Prop :=
  ∀ a c, n.childAt i = some a → d a = some c → c.myDomain = n.childDomain i

/-- LinkedBetree_v.rs 265-269 -/
def NodeLinked (d : Disk) (n : LNode) : Prop := ∀ i, n.ValidChildIndex i → d.ChildLinked n i

/-- LinkedBetree_v.rs 271-278 -/
def Healthy (d : Disk) : Prop := ∀ a n, d a = some n → d.NodeNondangling n ∧ d.NodeLinked n

/-- LinkedBetree_v.rs 280-285 -/
def WF (d : Disk) : Prop := d.EntriesWF ∧ d.Healthy ∧ PMap.Finite d

/-- LinkedBetree_v.rs 303-313 and 315-320. `Ranking` is a finite-or-not partial map here
(GenericDisk_v.rs 236 `Map<Address, nat>`): only ranked addresses are constrained. -/
def ValidRanking (d : Disk) (r : PMap Address Nat) : Prop :=
  d.WF ∧ ∀ a n ra, d a = some n → r a = some ra →
    ∀ i c, n.ValidChildIndex i → n.childAt i = some c → ∃ rc, r c = some rc ∧ rc < ra

/-- LinkedBetree_v.rs 322-325 -/
def IsFresh (d : Disk) (as : PSet Address) : Prop := ∀ a, as a → ¬ d.Has a

/-- LinkedBetree_v.rs 327-330 -/
def modify (d : Disk) (a : Address) (n : LNode) : Disk := d.insert a n

end Disk

/-- BufferDisk_v.rs 18-20 -/
abbrev BDisk := PMap Address Buffer

namespace BDisk

/-- BufferDisk_v.rs 60-63 (no message for a missing page, arbitrary in Rust) -/
def query (d : BDisk) (a : Address) (k : Key) : Message :=
  match d a with
  | some b => b.query k
  | none => .nop

/-- BufferDisk_v.rs 65-74, from the first address -/
def queryAll (d : BDisk) : List Address → Key → Message
  | [], _ => .nop
  | a :: as, k => (d.query a k).merge (queryAll d as k)

/-- BufferDisk_v.rs 65-74; the start index is taken by dropping a prefix -/
def queryFrom (d : BDisk) (as : List Address) (k : Key) (start : Nat) : Message :=
  d.queryAll (as.drop start) k

/-- BufferDisk_v.rs 77-81 -/
def QueryableContains (d : BDisk) (a : Address) (k : Key) : Prop := ∃ b, d a = some b ∧ b.Contains k

/-- BufferDisk_v.rs 83-88 and 90-95 -/
def KeyInBufferFiltered (d : BDisk) (as : List Address) (offsets : Key → Nat) (fromIdx : Nat)
    (k : Key) (i : Nat) : Prop :=
  (fromIdx ≤ i ∧ ∃ a, as[i]? = some a ∧ d.QueryableContains a k) ∧ offsets k ≤ i

/-- BufferDisk_v.rs 104-108 -/
def ValidBuffers (d : BDisk) (as : List Address) : Prop := ∀ a ∈ as, d.Has a

/-- LinkedBetree_v.rs 404-412; `slice` is LinkedSeq_v.rs 37-41, `decrement` OffsetMap_v.rs 37-42 -/
def ValidCompactKeyDomain (d : BDisk) (n : LNode) (a b : Nat) (k : Key) : Prop :=
  n.KeyInDomain k ∧ n.flushedOfs k ≤ b ∧
  ∃ i, d.KeyInBufferFiltered ((n.buffers.take b).drop a) (fun k => n.makeOffsetMap k - a) 0 k i

/-- LinkedBetree_v.rs 414-419 -/
def compactKeyValue (d : BDisk) (n : LNode) (a b : Nat) (k : Key) : Message :=
  d.queryFrom ((n.buffers.take b).drop a) k (if n.flushedOfs k ≤ a then 0 else n.flushedOfs k - a)

end BDisk

/-- LinkedBetree_v.rs 360-375 -/
structure TwoAddrs where
  addr1 : Address
  addr2 : Address

/-- LinkedBetree_v.rs 366-369 -/
def TwoAddrs.NoDup (x : TwoAddrs) : Prop := x.addr1 ≠ x.addr2
/-- LinkedBetree_v.rs 371-374 -/
def TwoAddrs.repr (x : TwoAddrs) : PSet Address := fun a => a = x.addr1 ∨ a = x.addr2

/-- LinkedBetree_v.rs 377-395 -/
structure SplitAddrs where
  left : Address
  right : Address
  parent : Address

/-- LinkedBetree_v.rs 384-389 -/
def SplitAddrs.NoDup (x : SplitAddrs) : Prop :=
  x.left ≠ x.right ∧ x.right ≠ x.parent ∧ x.parent ≠ x.left
/-- LinkedBetree_v.rs 391-394 -/
def SplitAddrs.repr (x : SplitAddrs) : PSet Address :=
  fun a => a = x.left ∨ a = x.right ∨ a = x.parent

/-- Addresses of the nodes reached from a pointer. LinkedBetree_v.rs 543-575
`reachable_betree_addrs` computes this set by recursion along a ranking, which exists whenever the
function is used; the model states it inductively, which needs no ranking. -/
inductive Reach (d : Disk) : Pointer → Address → Prop
  | here {a n} : d a = some n → Reach d (some a) a
  | down {a n i b} : d a = some n → n.ValidChildIndex i → Reach d (n.childAt i) b →
      Reach d (some a) b

/-- LinkedBetree_v.rs 434-438 -/
@[ext] structure Linked where
  root : Pointer
  dv : Disk
  bdv : BDisk

/-- SplitRequest_v.rs 15-22 `get_child_idx` -/
def requestIdx : SplitRequest → Nat
  | .leaf i _ => i
  | .index i _ => i

namespace Linked

/-- LinkedBetree_v.rs 441-445 -/
def WF (l : Linked) : Prop := l.dv.WF ∧ l.dv.Nondangling l.root

/-- LinkedBetree_v.rs 447-451 -/
def HasRoot (l : Linked) : Prop := ∃ a, l.root = some a ∧ l.dv.Has a

/-- LinkedBetree_v.rs 453-457 with `get` 287-291 (an empty node if there is none, arbitrary in
Rust) -/
def node (l : Linked) : LNode := (l.root.bind l.dv).getD ⟨[], ⟨[]⟩, [], []⟩

/-- LinkedBetree_v.rs 459-464 -/
def ValidRanking (l : Linked) (r : PMap Address Nat) : Prop :=
  l.WF ∧ l.dv.ValidRanking r ∧ (l.HasRoot → ∀ a, l.root = some a → r.Has a)

/-- LinkedBetree_v.rs 466-470 -/
def Acyclic (l : Linked) : Prop := l.WF ∧ ∃ r, l.ValidRanking r

/-- LinkedBetree_v.rs 494-501 -/
def childAtIdx (l : Linked) (i : Nat) : Linked := { l with root := l.node.childAt i }

/-- LinkedBetree_v.rs 503-509 -/
def childForKey (l : Linked) (k : Key) : Linked := { l with root := l.node.childPtr k }

/-- LinkedBetree_v.rs 578-582 and 597-601 -/
def ReachableBuffer (l : Linked) (b : Address) : Prop :=
  ∃ a n, Reach l.dv l.root a ∧ l.dv a = some n ∧ b ∈ n.buffers

/-- LinkedBetree_v.rs 603-614 -/
def grow (l : Linked) (a : Address) : Linked :=
  { l with
    root := some a
    dv := l.dv.modify a
      { buffers := [], pivots := .ofDomain .total, children := [l.root], flushed := [0] } }

/-- LinkedBetree_v.rs 627-641 -/
def CanSplitParent (l : Linked) (r : SplitRequest) : Prop :=
  l.WF ∧ l.HasRoot ∧ l.node.ValidChildIndex (requestIdx r) ∧
  (l.childAtIdx (requestIdx r)).HasRoot ∧
  match r with
  | .leaf i k => (l.childAtIdx i).node.CanSplitLeaf k
  | .index i j => (l.childAtIdx i).node.CanSplitIndex j

/-- The two halves, the separator and the parent of a split: LinkedBetree_v.rs 648-687, shared by
the two branches of the match. -/
def splitWrite (l : Linked) (i : Nat) (e : Element) (lr : LNode × LNode) (x : SplitAddrs) : Linked :=
  let parent : LNode :=
    { buffers := l.node.buffers
      pivots := l.node.pivots.insert (i + 1) e
      children := (l.node.children.set i (some x.left)).insertIdx (i + 1) (some x.right)
      flushed := BufferOffsets.dup l.node.flushed i }
  { l with
    root := some x.parent
    dv := ((l.dv.modify x.left lr.1).modify x.right lr.2).modify x.parent parent }

/-- LinkedBetree_v.rs 645-688 -/
def splitParent (l : Linked) (r : SplitRequest) (x : SplitAddrs) : Linked :=
  match r with
  | .leaf i k => l.splitWrite i (.ofKey k) ((l.childAtIdx i).node.splitLeaf k) x
  | .index i j =>
    l.splitWrite i ((l.childAtIdx i).node.pivots.get j) ((l.childAtIdx i).node.splitIndex j) x

/-- LinkedBetree_v.rs 690-696 -/
def CanFlush (l : Linked) (i gc : Nat) : Prop :=
  l.WF ∧ l.HasRoot ∧ l.node.OccupiedChildIndex i ∧
  BufferOffsets.AllGte (BufferOffsets.update l.node.flushed i l.node.buffers.length) gc

/-- LinkedBetree_v.rs 698-706 -/
def flushBuffers (l : Linked) (i : Nat) : List Address :=
  (l.node.buffers.take l.node.buffers.length).drop (l.node.flushed.getD i 0)

/-- LinkedBetree_v.rs 708-726 -/
def flush (l : Linked) (i gc : Nat) (x : TwoAddrs) : Linked :=
  let upto := l.node.buffers.length
  let newChild := (l.childAtIdx i).node.extendBufferSeq (l.flushBuffers i)
  let newRoot : LNode :=
    { buffers := (l.node.buffers.take upto).drop gc
      pivots := l.node.pivots
      children := l.node.children.set i (some x.addr2)
      flushed := BufferOffsets.shiftLeft (BufferOffsets.update l.node.flushed i upto) gc }
  { l with
    root := some x.addr1
    dv := (l.dv.modify x.addr1 newRoot).modify x.addr2 newChild }

/-- LinkedBetree_v.rs 728-732; `valid_buffer_dv` 817-821 is the same -/
def NoDanglingBuffer (l : Linked) : Prop := ∀ b, l.ReachableBuffer b → l.bdv.Has b

/-- LinkedBetree_v.rs 734-740 -/
def IsFresh (l : Linked) (as : PSet Address) : Prop :=
  l.dv.IsFresh as ∧ ∀ a, as a → ¬ l.bdv.Has a

/-- LinkedBetree_v.rs 745-753 -/
def ValidView (l other : Linked) : Prop :=
  other.WF ∧ l.root = other.root ∧ PMap.Sub other.dv l.dv ∧ PMap.Agrees other.bdv l.bdv

/-- LinkedBetree_v.rs 755-759 -/
def BuffersPreserved (l other : Linked) : Prop := ∀ b, l.ReachableBuffer b → other.bdv.Has b

/-- LinkedBetree_v.rs 778-795 -/
noncomputable def pushMemtable (l : Linked) (sealed : Buffer) (x : TwoAddrs) : Linked :=
  let newRoot := (if l.HasRoot then l.node else LNode.emptyRoot .total).extendBufferSeq [x.addr2]
  { root := some x.addr1
    dv := l.dv.modify x.addr1 newRoot
    bdv := l.bdv.insert x.addr2 sealed }

/-- LinkedBetree_v.rs 810-815 -/
def Inv (l : Linked) : Prop :=
  l.Acyclic ∧ l.NoDanglingBuffer ∧ (l.HasRoot → l.node.myDomain = .total)

/-- LinkedBetree_v.rs 856-863 with 832-842 and 844-854. `linked_contains` and `linked_query` of a
`SimpleBuffer` do not look at the disk, so the new disk is no argument. -/
def CanCompact (l : Linked) (a b : Nat) (c : Buffer) : Prop :=
  l.WF ∧ l.HasRoot ∧ a < b ∧ b ≤ l.node.buffers.length ∧
  (∀ k, c.Contains k ↔ l.bdv.ValidCompactKeyDomain l.node a b k) ∧
  ∀ k, c.Contains k → c.query k = l.bdv.compactKeyValue l.node a b k

/-- LinkedBetree_v.rs 865-880; `update_subrange` is LinkedSeq_v.rs 48-53 -/
def compact (l : Linked) (a b : Nat) (c : Buffer) (x : TwoAddrs) : Linked :=
  { root := some x.addr1
    dv := l.dv.modify x.addr1
      { l.node with
        buffers := l.node.buffers.take a ++ [x.addr2] ++ l.node.buffers.drop b
        flushed := BufferOffsets.adjustCompact l.node.flushed a b }
    bdv := l.bdv.insert x.addr2 c }

/-- Linked trees as seen by query receipts: LinkedBetree_v.rs 883-975. That every line keeps the
disk and the buffer disk of the first (907-908) is part of `child`; that the first line is
well formed (905) follows from `Acyclic` (946). -/
def shape : Shape Linked where
  IsNode := HasRoot
  WF := Acyclic
  KeyIn l k := l.bdv.ValidBuffers l.node.buffers ∧ l.node.KeyInDomain k
  child := childForKey
  msg l k := l.bdv.queryFrom l.node.buffers k (l.node.flushedOfs k)

end Linked

/-- LinkedBetree_v.rs 979-983 -/
structure Path where
  linked : Linked
  key : Key
  depth : Nat

namespace Path

/-- LinkedBetree_v.rs 995-1003 with `subpath` 986-993 -/
def ValidFrom (l : Linked) (key : Key) : Nat → Prop
  | 0 => l.HasRoot ∧ l.Acyclic ∧ l.node.KeyInDomain key
  | d + 1 => l.HasRoot ∧ l.Acyclic ∧ l.node.KeyInDomain key ∧ l.node.IsIndex ∧
      ValidFrom (l.childForKey key) key d

/-- LinkedBetree_v.rs 1005-1014 -/
def targetFrom (l : Linked) (key : Key) : Nat → Linked
  | 0 => l
  | d + 1 => targetFrom (l.childForKey key) key d

/-- LinkedBetree_v.rs 1039-1053 -/
def substituteFrom (l : Linked) (key : Key) (repl : Linked) : Nat → List Address → Linked
  | 0, _ => repl
  | d + 1, as =>
    let sub := substituteFrom (l.childForKey key) key repl d (as.drop 1)
    let a := as.getD 0 ⟨0, 0⟩
    { root := some a
      dv := sub.dv.modify a
        { l.node with children := l.node.children.set (l.node.pivots.route key).toNat sub.root }
      bdv := repl.bdv }

def Valid (p : Path) : Prop := ValidFrom p.linked p.key p.depth
def target (p : Path) : Linked := targetFrom p.linked p.key p.depth
def substitute (p : Path) (repl : Linked) (as : List Address) : Linked :=
  substituteFrom p.linked p.key repl p.depth as

end Path

/-- LinkedBetree_v.rs 797-805 -/
def ValidPathReplacement (l : Linked) (p : Path) (nodup : Prop) (repr : PSet Address)
    (pa : List Address) : Prop :=
  p.Valid ∧ pa.Nodup ∧ p.depth = pa.length ∧ nodup ∧ (∀ a, repr a → a ∉ pa) ∧ l = p.linked

/-- LinkedBetree_v.rs 1064-1067 -/
structure State where
  memtable : Memtable
  linked : Linked

/-- The `Step` enum that the state machine macro generates from the transitions 1077-1193. -/
inductive Step where
  | query (r : Receipt Linked)
  | put
  | freezeAs
  | flushMemtable (sealed : Buffer) (new : Linked) (x : TwoAddrs)
  | grow (a : Address)
  | split (new : Linked) (p : Path) (r : SplitRequest) (x : SplitAddrs) (pa : List Address)
  | flush (new : Linked) (p : Path) (i gc : Nat) (x : TwoAddrs) (pa : List Address)
  | compact (new : Linked) (p : Path) (a b : Nat) (c : Buffer) (x : TwoAddrs) (pa : List Address)
  | bufferNoop (new : Linked)
  | noop

/-- LinkedBetree_v.rs 1115-1120 -/
def postSplit (p : Path) (r : SplitRequest) (x : SplitAddrs) (pa : List Address) : Linked :=
  p.substitute (p.target.splitParent r x) pa

/-- LinkedBetree_v.rs 1141-1146 -/
def postFlush (p : Path) (i gc : Nat) (x : TwoAddrs) (pa : List Address) : Linked :=
  p.substitute (p.target.flush i gc x) pa

/-- LinkedBetree_v.rs 1160-1165 -/
def postCompact (p : Path) (a b : Nat) (c : Buffer) (x : TwoAddrs) (pa : List Address) : Linked :=
  p.substitute (p.target.compact a b c x) pa

/-- LinkedBetree_v.rs 1195-1203 `initialize`: the memtable is empty at some LSN, here that of the
image. -/
def Init (image : Stamped Linked) (s : State) : Prop :=
  image.value.Acyclic ∧ image.value.NoDanglingBuffer ∧
  (image.value.HasRoot → image.value.node.myDomain = .total) ∧
  s = { memtable := .emptyAt image.seqEnd, linked := image.value }

/-- LinkedBetree_v.rs 1077-1193, `next_by` -/
inductive NextBy : State → BLabel Linked → Step → State → Prop
  /-- 1077-1082 -/
  | query {s : State} {k v} {r : Receipt Linked} : r.ValidFor Linked.shape s.linked k →
      .define v = r.result.merge (s.memtable.query k) →
      NextBy s (.query s.memtable.seqEnd k v) (.query r) s
  /-- 1084-1089 -/
  | put {s : State} {puts : MsgHistory} : puts.WF → puts.seqStart = s.memtable.seqEnd →
      NextBy s (.put puts) .put { s with memtable := s.memtable.applyPuts puts }
  /-- 1091-1096; `i_bdv` 823-830 is the identity on simple buffers -/
  | freezeAs {s : State} : s.memtable.IsEmpty →
      NextBy s (.freezeAs { value := s.linked, seqEnd := s.memtable.seqEnd }) .freezeAs s
  /-- 1098-1108 -/
  | flushMemtable {s : State} {sealed new x} : x.NoDup → sealed = s.memtable.buffer →
      (s.linked.pushMemtable sealed x).ValidView new →
      NextBy s .internal (.flushMemtable sealed new x) { memtable := s.memtable.drain, linked := new }
  /-- 1110-1113 -/
  | grow {s : State} {a} :
      NextBy s .internal (.grow a) { s with linked := s.linked.grow a }
  /-- 1122-1139 -/
  | split {s : State} {new p r} {x : SplitAddrs} {pa} : p.target.CanSplitParent r →
      ValidPathReplacement s.linked p x.NoDup x.repr pa → (postSplit p r x pa).ValidView new →
      NextBy s .internal (.split new p r x pa) { s with linked := new }
  /-- 1148-1158 -/
  | flush {s : State} {new p i gc} {x : TwoAddrs} {pa} : p.target.CanFlush i gc →
      ValidPathReplacement s.linked p x.NoDup x.repr pa → (postFlush p i gc x pa).ValidView new →
      NextBy s .internal (.flush new p i gc x pa) { s with linked := new }
  /-- 1167-1178 -/
  | compact {s : State} {new p a b c} {x : TwoAddrs} {pa} : p.target.CanCompact a b c →
      ValidPathReplacement s.linked p x.NoDup x.repr pa → (postCompact p a b c x pa).ValidView new →
      NextBy s .internal (.compact new p a b c x pa) { s with linked := new }
  /-- 1181-1189 -/
  | bufferNoop {s : State} {new} : s.linked.ValidView new → s.linked.BuffersPreserved new →
      NextBy s .internal (.bufferNoop new) { s with linked := new }
  /-- 1191-1193 -/
  | noop {s : State} : NextBy s .internal .noop s

/-- LinkedBetree_v.rs 1209-1240 `strong_step`: what the layers above add to the transitions. -/
def StrongStep (s : State) : Step → Prop
  | .flushMemtable sealed new x =>
    s.linked.IsFresh x.repr ∧ (s.linked.pushMemtable sealed x).BuffersPreserved new
  | .grow a => s.linked.IsFresh (fun b => b = a)
  | .split new p r x pa => s.linked.IsFresh x.repr ∧ s.linked.IsFresh (fun a => a ∈ pa) ∧
      (postSplit p r x pa).BuffersPreserved new
  | .flush new p i gc x pa => s.linked.IsFresh x.repr ∧ s.linked.IsFresh (fun a => a ∈ pa) ∧
      (postFlush p i gc x pa).BuffersPreserved new
  | .compact new p a b c x pa => s.linked.IsFresh x.repr ∧ s.linked.IsFresh (fun a => a ∈ pa) ∧
      (postCompact p a b c x pa).BuffersPreserved new
  | _ => True

/-- The transitions as written. -/
def WeakNext (s : State) (l : BLabel Linked) (s' : State) : Prop := ∃ st, NextBy s l st s'

/-- The transitions as used: `inv_next_by` (1242-1269) and all layers above add `strong_step`. -/
def Next (s : State) (l : BLabel Linked) (s' : State) : Prop :=
  ∃ st, NextBy s l st s' ∧ StrongStep s st

def machine (image : Stamped Linked) : Machine State (BLabel Linked) := ⟨Init image, Next⟩

end LinkedBetree
end Verif
