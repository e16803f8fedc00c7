import Verif.Alloc.LikesBetree
import Verif.Alloc.AllocationBranch
import Verif.Betree.LinkedBranchProof
/-
Model of Splinter/src/allocation_layer/AllocationBranchBetree_v.rs: the betree whose buffers are
B+tree branches made of pages, with the units taken and given back at every step.

`LinkedBetree<BranchNode>` is the linked betree of Betree/Linked.lean with another buffer type. Its
functions on nodes and paths do not look at buffers, so the model keeps the branch pages beside the
tree: `BLinked.tree` is the linked betree with no buffer pages, paths run through it, and the buffer
disk is carried separately (`BLinked.on`).

Two parameters. `w`: branches may also grow (see Alloc/AllocationBranch.lean; the code has
`w := False`). `cp`: the check of the contents of a compacted branch (the code has `cp := codeCheck`).
-/
namespace Verif.ABB
open Verif LinkedBetree LikesBetree ABr

/-- BufferDisk_v.rs 18-20 at `T = BranchNode`; AllocationBranchBetree_v.rs 40-43 `to_branch_disk`
is the identity here -/
abbrev BrDisk := LBr.Disk Summary

/-- AllocationBranchBetree_v.rs 45-48 -/
def getBranch (d : BrDisk) (a : Address) : LBr.Branch Summary := ⟨a, d⟩

/-! ### Branches as buffers -/

open Classical in
/-- AllocationBranch_v.rs 39-42 `i`: the map a branch stands for. Rust goes through
`LinkedBranch::i` and `PivotBranch::i`; here it is the map of the tree found at the address, empty if
there is none (arbitrary in Rust). -/
noncomputable def iBuf (d : BrDisk) (a : Address) : Buffer :=
  if h : ∃ t, LBr.Shows d a t then (choose h).contents else Buffer.empty

/-- LinkedBetree_v.rs 823-830 `i_bdv`, for the buffer disk (BufferDisk_v.rs `i`) -/
noncomputable def iDisk (d : BrDisk) : BDisk := fun a => (d a).map fun _ => iBuf d a

/-- BufferDisk_v.rs 60-63, with AllocationBranch_v.rs 34-37 `linked_query` -/
noncomputable def query (d : BrDisk) (a : Address) (k : Key) : Message := (getBranch d a).query k

/-- BufferDisk_v.rs 65-74, from the first address -/
noncomputable def queryAll (d : BrDisk) : List Address → Key → Message
  | [], _ => .nop
  | a :: as, k => (query d a k).merge (queryAll d as k)

/-- BufferDisk_v.rs 65-74; the start index is taken by dropping a prefix -/
noncomputable def queryFrom (d : BrDisk) (as : List Address) (k : Key) (start : Nat) : Message :=
  queryAll d (as.drop start) k

/-- what it means that a branch contains a key; the code's is `ABr.LinkedContains` -/
abbrev Contains := LBr.Branch Summary → Key → Prop

/-- BufferDisk_v.rs 77-81 -/
def QueryableContains (ct : Contains) (d : BrDisk) (a : Address) (k : Key) : Prop :=
  d.Has a ∧ ct (getBranch d a) k

/-- BufferDisk_v.rs 83-88 and 90-95 -/
def KeyInBufferFiltered (ct : Contains) (d : BrDisk) (as : List Address) (offsets : Key → Nat)
    (fromIdx : Nat) (k : Key) (i : Nat) : Prop :=
  (fromIdx ≤ i ∧ ∃ a, as[i]? = some a ∧ QueryableContains ct d a k) ∧ offsets k ≤ i

/-- LinkedBetree_v.rs 404-412 -/
def ValidCompactKeyDomain (ct : Contains) (d : BrDisk) (n : LNode) (a b : Nat) (k : Key) : Prop :=
  n.KeyInDomain k ∧ n.flushedOfs k ≤ b ∧
  ∃ i, KeyInBufferFiltered ct d ((n.buffers.take b).drop a) (fun k => n.makeOffsetMap k - a) 0 k i

/-- LinkedBetree_v.rs 414-419 -/
noncomputable def compactKeyValue (d : BrDisk) (n : LNode) (a b : Nat) (k : Key) : Message :=
  queryFrom d ((n.buffers.take b).drop a) k (if n.flushedOfs k ≤ a then 0 else n.flushedOfs k - a)

/-- A check of a compacted branch: old buffer disk, node, start, end, new buffer disk, address of
the new branch. -/
abbrev Check := BrDisk → LNode → Nat → Nat → BrDisk → Address → Prop

/-- LinkedBetree_v.rs 832-854 `compact_buffer_valid_domain` and `compact_buffer_valid_range` -/
def compactCheck (ct : Contains) : Check := fun d n a b d' x =>
  (∀ k, ct (getBranch d' x) k ↔ ValidCompactKeyDomain ct d n a b k) ∧
  ∀ k, ct (getBranch d' x) k → query d' x k = compactKeyValue d n a b k

/-- The check of the code: with `linked_contains` of AllocationBranch_v.rs 29-32, which is the wrong
way round (C44). -/
def codeCheck : Check := compactCheck ABr.LinkedContains

/-- A branch stores an entry for the key: what `linked_contains` is meant to say, and says for
simple buffers (Buffer_v.rs 28-44). Not in the code. -/
def Stored : Contains := fun b k => (iBuf b.disk b.root).Contains k

/-- The repaired check. Not in the code. -/
def storedCheck : Check := compactCheck Stored

/-! ### The linked betree over branches -/

/-- LinkedBetree_v.rs 434-438 at `T = BranchNode` -/
structure BLinked where
  root : Pointer
  dv : Disk
  bdv : BrDisk

namespace BLinked

/-- The nodes without the buffer pages. No code: see the head of this file. -/
def tree (l : BLinked) : Linked := ⟨l.root, l.dv, PMap.empty⟩

/-- The nodes of `t` with the buffer disk `d`. No code: see the head of this file. -/
def on (t : Linked) (d : BrDisk) : BLinked := ⟨t.root, t.dv, d⟩

/-- LinkedBetree_v.rs 745-753 -/
def ValidView (l other : BLinked) : Prop :=
  other.tree.WF ∧ l.root = other.root ∧ PMap.Sub other.dv l.dv ∧ PMap.Agrees other.bdv l.bdv

/-- LinkedBetree_v.rs 778-795 -/
noncomputable def pushMemtable (l : BLinked) (sealed : BranchNode) (x : TwoAddrs) : BLinked :=
  on (l.tree.pushMemtable Buffer.empty x) (l.bdv.insert x.addr2 sealed)

/-- LinkedBetree_v.rs 823-830 -/
noncomputable def iBdv (l : BLinked) : Linked := ⟨l.root, l.dv, iDisk l.bdv⟩

/-- LinkedBetree_v.rs 503-509 -/
def childForKey (l : BLinked) (k : Key) : BLinked := on (l.tree.childForKey k) l.bdv

/-- LinkedBetree_v.rs 883-975, as `Linked.shape` -/
noncomputable def shape : Shape BLinked where
  IsNode l := l.tree.HasRoot
  WF l := l.tree.Acyclic
  KeyIn l k := (∀ a ∈ l.tree.node.buffers, l.bdv.Has a) ∧ l.tree.node.KeyInDomain k
  child := childForKey
  msg l k := queryFrom l.bdv l.tree.node.buffers k (l.tree.node.flushedOfs k)

end BLinked

/-- LinkedBetree_v.rs 1160-1165 `post_compact`; the path runs through `tree`, so the buffer disk of
the result is given apart -/
def postCompactOn (d : BrDisk) (p : Path) (a b : Nat) (c : BranchNode) (x : TwoAddrs)
    (pa : List Address) : BLinked :=
  .on (postCompact p a b Buffer.empty x pa) (d.insert x.addr2 c)

/-- LinkedBetree_v.rs 1064-1067 at `T = BranchNode` -/
structure BState where
  memtable : Memtable
  linked : BLinked

/-- LinkedBetree_v.rs 1077-1096: queries, puts and freezing at `T = BranchNode` -/
inductive ExtNext : BState → BLabel Linked → BState → Prop
  /-- 1077-1082 -/
  | query {s : BState} {k v} {r : Receipt BLinked} : r.ValidFor BLinked.shape s.linked k →
      .define v = r.result.merge (s.memtable.query k) →
      ExtNext s (.query s.memtable.seqEnd k v) s
  /-- 1084-1089 -/
  | put {s : BState} {puts : MsgHistory} : puts.WF → puts.seqStart = s.memtable.seqEnd →
      ExtNext s (.put puts) { s with memtable := s.memtable.applyPuts puts }
  /-- 1091-1096 -/
  | freezeAs {s : BState} : s.memtable.IsEmpty →
      ExtNext s (.freezeAs { value := s.linked.iBdv, seqEnd := s.memtable.seqEnd }) s

/-! ### Units -/

/-- GenericDisk_v.rs 82-85 `to_aus`; `seq_addrs_to_aus` AllocationBranchBetree_v.rs 146-149 for the
members of a list -/
def unitsOf (as : PSet Address) : PSet Nat := fun u => ∃ a, as a ∧ a.au = u

/-- GenericDisk_v.rs 87-91 `set_addrs_disjoint_aus` -/
def UnitsDistinct (as : PSet Address) : Prop := ∀ a b : Address, as a → as b → a ≠ b → a.au ≠ b.au

/-- GenericDisk_v.rs 93-97 `seq_addrs_disjoint_aus` -/
def ListUnitsDistinct (as : List Address) : Prop :=
  ∀ (i j : Nat) (a b : Address), as[i]? = some a → as[j]? = some b → i ≠ j → a.au ≠ b.au

/-- AllocationBranchBetree_v.rs 65-70 -/
def SplitUnitsDistinct (x : SplitAddrs) : Prop :=
  x.left.au ≠ x.right.au ∧ x.left.au ≠ x.parent.au ∧ x.right.au ≠ x.parent.au

/-- AllocationBranchBetree_v.rs 79-82 -/
def TwoUnitsDistinct (x : TwoAddrs) : Prop := x.addr1.au ≠ x.addr2.au

/-- AllocationBranchBetree_v.rs 97-100 -/
def summaryAus (m : PMap Nat Summary) : PSet Nat := fun u => ∃ k s, m k = some s ∧ s u

open Classical in
/-- AllocationBranchBetree_v.rs 56-61; `invert` picks some root for each unit -/
noncomputable def buildSummary (d : BrDisk) (roots : PSet Address) : PMap Nat Summary :=
  let rootToAu : PMap Address Nat := fun a => if roots a then some a.au else none
  rootToAu.invert.mapVal fun a => getSummary (getBranch d a)

/-- AllocationBranchBetree_v.rs 103-106 -/
structure CompactorInput where
  buffers : List Address
  offsets : Key → Nat

/-- AllocationBranchBetree_v.rs 109-113 -/
def inputRoots (cs : List CompactorInput) : PSet Address := fun a => ∃ c ∈ cs, a ∈ c.buffers

/-- AllocationBranchBetree_v.rs 141-144 -/
def readRefAus (cs : List CompactorInput) : PSet Nat := unitsOf (inputRoots cs)

/-- AllocationBranch_v.rs 227-231 -/
def allocAus (bs : List AllocBranch) : PSet Nat := fun u => ∃ b ∈ bs, allAus b.mini u

/-! ### The state machine -/

/-- AllocationBranchBetree_v.rs 152-161 -/
structure State where
  betree : BState
  betreeAus : AULikes
  branchAus : AULikes
  summary : PMap Nat Summary
  compactors : List CompactorInput
  wip : List AllocBranch

/-- AllocationBranchBetree_v.rs 163-167 -/
inductive Label where
  | ext (l : BLabel Linked)
  | internal (allocs deallocs : PSet Nat)

/-- AllocationBranchBetree_v.rs 169-179 -/
def State.IsFresh (s : State) (aus : PSet Nat) : Prop :=
  (∀ u, u ∈ s.betreeAus → ¬ aus u) ∧ (∀ u, summaryAus s.summary u → ¬ aus u) ∧
  ∀ u, allocAus s.wip u → ¬ aus u

/-- AllocationBranchBetree_v.rs 348-362 -/
def ValidCompactorInput (p : Path) (a b : Nat) (c : CompactorInput) : Prop :=
  p.Valid ∧ p.target.HasRoot ∧ a < b ∧ b ≤ p.target.node.buffers.length ∧
  c = ⟨(p.target.node.buffers.take b).drop a, fun k => p.target.node.makeOffsetMap k - a⟩

/-- AllocationBranchBetree_v.rs 181-206, with LinkedBetree_v.rs 1195-1203 -/
def Init (image : Stamped BLinked) (s : State) : Prop :=
  let l := image.value
  let likes := transitiveLikes l.tree
  let roots : PSet Address := fun a => a ∈ likes.2
  let sm := buildSummary l.bdv roots
  l.tree.Acyclic ∧ (∀ b, l.tree.ReachableBuffer b → l.bdv.Has b) ∧
  (l.tree.HasRoot → l.tree.node.myDomain = .total) ∧
  (∀ a, roots a → ValidSealedBranch (getBranch l.bdv a)) ∧
  UnitsDistinct roots ∧
  (∀ u v s t, sm u = some s → sm v = some t → u ≠ v → ∀ x, s x → ¬ t x) ∧
  (∀ a, l.dv.Has a → a.au ∈ toAuLikes likes.1) ∧
  (∀ a, l.bdv.Has a → summaryAus sm a.au) ∧
  (∀ u, u ∈ toAuLikes likes.1 → ¬ summaryAus sm u) ∧
  s = ⟨⟨.emptyAt image.seqEnd, l⟩, toAuLikes likes.1, toAuLikes likes.2, sm, [], []⟩

/-- AllocationBranchBetree_v.rs 208-458. Sequence updates and removals are those of lists
(`push` is appending). Where the code gives the label's sets by an equation the model gives their
members. -/
inductive Next (g : Geometry) (w : Prop) (cp : Check) : State → Label → State → Prop
  /-- 208-213 -/
  | noop {s : State} {l b'} (hl : l ≠ .internal) (h : ExtNext s.betree l b') :
      Next g w cp s (.ext l) { s with betree := b' }
  /-- 215-222 -/
  | branchBegin {s : State} {allocs deallocs} (hf : s.IsFresh allocs) (hd : ∀ u, ¬ deallocs u) :
      Next g w cp s (.internal allocs deallocs) { s with wip := s.wip ++ [AllocBranch.new allocs] }
  /-- 225-232 -/
  | branchBuild {s : State} {allocs deallocs i b b' e} (hf : s.IsFresh allocs)
      (hi : s.wip[i]? = some b) (h : BuildNext g b e allocs deallocs b') :
      Next g w cp s (.internal allocs deallocs) { s with wip := s.wip.set i b' }
  /-- Not in the code: growth of a branch, see Alloc/AllocationBranch.lean -/
  | branchGrow {s : State} {allocs deallocs i b br a} (hw : w) (ha : ∀ u, ¬ allocs u)
      (hd : ∀ u, ¬ deallocs u) (hi : s.wip[i]? = some b) (h : b.CanGrow g br a) :
      Next g w cp s (.internal allocs deallocs) { s with wip := s.wip.set i (b.grow g br a) }
  /-- 235-241 -/
  | branchAbort {s : State} {allocs deallocs i b} (ha : ∀ u, ¬ allocs u)
      (hi : s.wip[i]? = some b) (hd : ∀ u, deallocs u ↔ allAus b.mini u) :
      Next g w cp s (.internal allocs deallocs) { s with wip := s.wip.eraseIdx i }
  /-- 243-273, with LinkedBetree_v.rs 1098-1108 and AllocationBetree_v.rs 66-76 -/
  | flushMemtable {s : State} {allocs deallocs i b br} {new : BLinked} {addr : Address}
      {nt nb : AULikes} (hf : s.IsFresh allocs) (hi : s.wip[i]? = some b)
      (hs : b.isSealed = true) (hbr : b.branch = some br)
      (hx : (TwoAddrs.mk addr br.root).NoDup)
      (hm : iBuf new.bdv br.root = s.betree.memtable.buffer)
      (hv : (s.betree.linked.pushMemtable br.node ⟨addr, br.root⟩).ValidView new)
      (hnt : nt = s.betreeAus - toAuLikes (rootLikes s.betree.linked.tree) +
        toAuLikes (rootLikes new.tree))
      (hnb : nb = br.root.au ::ₘ s.branchAus)
      (ha : ∀ u, allocs u ↔ u = addr.au)
      (hd : ∀ u, deallocs u ↔ u ∈ s.betreeAus ∧ u ∉ nt)
      (hdv : ∀ a, new.dv.Has a ↔
        (s.betree.linked.pushMemtable br.node ⟨addr, br.root⟩).dv.Has a ∧ a.au ∈ nt)
      (hbd : new.bdv = s.betree.linked.bdv.unionRight br.disk) :
      Next g w cp s (.internal allocs deallocs)
        { s with
          betree := ⟨s.betree.memtable.drain, new⟩, betreeAus := nt, branchAus := nb
          summary := s.summary.insert br.root.au (getSummary br)
          wip := s.wip.eraseIdx i }
  /-- 275-285, with LinkedBetree_v.rs 1110-1113 -/
  | grow {s : State} {allocs deallocs} {addr : Address} (hf : s.IsFresh allocs)
      (ha : ∀ u, allocs u ↔ u = addr.au) (hd : ∀ u, ¬ deallocs u) :
      Next g w cp s (.internal allocs deallocs)
        { s with
          betree := { s.betree with
            linked := .on (s.betree.linked.tree.grow addr) s.betree.linked.bdv }
          betreeAus := addr.au ::ₘ s.betreeAus }
  /-- 287-311, with LinkedBetree_v.rs 1122-1139 and AllocationBetree_v.rs 103-114 -/
  | split {s : State} {allocs deallocs} {new : BLinked} {p : Path} {r} {x : SplitAddrs}
      {pa : List Address} {nt nb : AULikes} (hf : s.IsFresh allocs) (hx : SplitUnitsDistinct x)
      (hxp : ∀ u, unitsOf x.repr u → ¬ unitsOf (fun a => a ∈ pa) u)
      (hpa : ListUnitsDistinct pa)
      (hc : p.target.CanSplitParent r)
      (hp : ValidPathReplacement s.betree.linked.tree p x.NoDup x.repr pa)
      (hv : (BLinked.on (postSplit p r x pa) s.betree.linked.bdv).ValidView new)
      (hnt : nt = s.betreeAus - toAuLikes (splitDiscardBetree p r) +
        toAuLikes (addBetreeLikes x.likes pa))
      (hnb : nb = s.branchAus + toAuLikes (splitAddBuffers p r))
      (ha : ∀ u, allocs u ↔ unitsOf x.repr u ∨ unitsOf (fun a => a ∈ pa) u)
      (hd : ∀ u, deallocs u ↔ u ∈ s.betreeAus ∧ u ∉ nt)
      (hdv : ∀ a, new.dv.Has a ↔ (postSplit p r x pa).dv.Has a ∧ a.au ∈ nt)
      (hbd : new.bdv = s.betree.linked.bdv) :
      Next g w cp s (.internal allocs deallocs)
        { s with betree := { s.betree with linked := new }, betreeAus := nt, branchAus := nb }
  /-- 313-346, with LinkedBetree_v.rs 1148-1158 and AllocationBetree_v.rs 133-145 -/
  | flush {s : State} {allocs deallocs} {new : BLinked} {p : Path} {i gc} {x : TwoAddrs}
      {pa : List Address} {nt nb : AULikes} {gone : PSet Nat} {sm : PMap Nat Summary}
      (hf : s.IsFresh allocs) (hx : TwoUnitsDistinct x)
      (hxp : ∀ u, unitsOf x.repr u → ¬ unitsOf (fun a => a ∈ pa) u)
      (hpa : ListUnitsDistinct pa)
      (hc : p.target.CanFlush i gc)
      (hp : ValidPathReplacement s.betree.linked.tree p x.NoDup x.repr pa)
      (hv : (BLinked.on (postFlush p i gc x pa) s.betree.linked.bdv).ValidView new)
      (hnt : nt = s.betreeAus - toAuLikes (flushDiscardBetree p i) +
        toAuLikes (addBetreeLikes x.likes pa))
      (hnb : nb = s.branchAus - toAuLikes (flushDiscardBuffers p gc) +
        toAuLikes (flushAddBuffers p i))
      (hg : ∀ u, gone u ↔ u ∈ s.branchAus ∧ u ∉ nb ∧ ¬ readRefAus s.compactors u)
      (hsm : sm = s.summary.removeKeys gone)
      (ha : ∀ u, allocs u ↔ unitsOf x.repr u ∨ unitsOf (fun a => a ∈ pa) u)
      (hd : ∀ u, deallocs u ↔ u ∈ s.betreeAus ∧ u ∉ nt ∨ summaryAus (s.summary.restrict gone) u)
      (hdv : ∀ a, new.dv.Has a ↔ (postFlush p i gc x pa).dv.Has a ∧ a.au ∈ nt)
      (hbd : ∀ a, new.bdv.Has a ↔ s.betree.linked.bdv.Has a ∧ summaryAus sm a.au) :
      Next g w cp s (.internal allocs deallocs)
        { s with
          betree := { s.betree with linked := new }, betreeAus := nt, branchAus := nb
          summary := sm }
  /-- 364-372 -/
  | compactBegin {s : State} {allocs deallocs} {p : Path} {a b : Nat} {c : CompactorInput}
      (ha : ∀ u, ¬ allocs u) (hd : ∀ u, ¬ deallocs u) (hp : p.linked = s.betree.linked.tree)
      (hc : ValidCompactorInput p a b c) :
      Next g w cp s (.internal allocs deallocs) { s with compactors := s.compactors ++ [c] }
  /-- 374-405 -/
  | compactAbort {s : State} {allocs deallocs} {i : Nat} {cs : List CompactorInput}
      {gone : PSet Nat} {sm : PMap Nat Summary} (hi : i < s.compactors.length)
      (hcs : cs = s.compactors.eraseIdx i)
      (hg : ∀ u, gone u ↔ (readRefAus s.compactors u ∧ ¬ readRefAus cs u) ∧ u ∉ s.branchAus)
      (hsm : sm = s.summary.removeKeys gone)
      (ha : ∀ u, ¬ allocs u) (hd : ∀ u, deallocs u ↔ summaryAus (s.summary.restrict gone) u) :
      Next g w cp s (.internal allocs deallocs)
        { s with
          betree := { s.betree with linked := { s.betree.linked with
            bdv := s.betree.linked.bdv.restrict fun a => summaryAus sm a.au } }
          summary := sm, compactors := cs }
  /-- 408-458, with LinkedBetree_v.rs 1167-1178 (`can_compact` 856-863) and AllocationBetree_v.rs
  165-177 -/
  | compactComplete {s : State} {allocs deallocs} {new : BLinked} {p : Path} {a b : Nat} {i j : Nat}
      {bw br} {addr : Address} {pa : List Address} {c : CompactorInput} {cs : List CompactorInput}
      {nt nb : AULikes} {gone : PSet Nat} {sm : PMap Nat Summary}
      (hf : s.IsFresh allocs) (hxp : ¬ unitsOf (fun a => a ∈ pa) addr.au)
      (hpa : ListUnitsDistinct pa)
      (hi : s.compactors[i]? = some c) (hin : ValidCompactorInput p a b c)
      (hj : s.wip[j]? = some bw) (hs : bw.isSealed = true) (hbr : bw.branch = some br)
      (hc : p.target.WF ∧ p.target.HasRoot ∧ a < b ∧ b ≤ p.target.node.buffers.length ∧
        cp s.betree.linked.bdv p.target.node a b new.bdv br.root)
      (hp : ValidPathReplacement s.betree.linked.tree p (TwoAddrs.mk addr br.root).NoDup
        (TwoAddrs.mk addr br.root).repr pa)
      (hv : (postCompactOn s.betree.linked.bdv p a b br.node ⟨addr, br.root⟩ pa).ValidView new)
      (hcs : cs = s.compactors.eraseIdx i)
      (hnt : nt = s.betreeAus - toAuLikes (compactDiscardBetree p) +
        toAuLikes (compactAddBetree ⟨addr, br.root⟩ pa))
      (hnb : nb = s.branchAus - toAuLikes (compactDiscardBuffers p a b) +
        toAuLikes (compactAddBuffers ⟨addr, br.root⟩))
      (hg : ∀ u, gone u ↔ s.summary.Has u ∧ u ∉ nb ∧ ¬ readRefAus cs u)
      (hsm : sm = (s.summary.insert br.root.au (getSummary br)).removeKeys gone)
      (ha : ∀ u, allocs u ↔ u = addr.au ∨ unitsOf (fun a => a ∈ pa) u)
      (hd : ∀ u, deallocs u ↔ u ∈ s.betreeAus ∧ u ∉ nt ∨ summaryAus (s.summary.restrict gone) u)
      (hdv : ∀ y, new.dv.Has y ↔
        (postCompactOn s.betree.linked.bdv p a b br.node ⟨addr, br.root⟩ pa).dv.Has y ∧ y.au ∈ nt)
      (hbd : new.bdv = (s.betree.linked.bdv.unionRight br.disk).restrict
        fun y => summaryAus sm y.au) :
      Next g w cp s (.internal allocs deallocs)
        { betree := { s.betree with linked := new }, betreeAus := nt, branchAus := nb
          summary := sm, compactors := cs, wip := s.wip.eraseIdx j }

def machine (g : Geometry) (w : Prop) (cp : Check) (image : Stamped BLinked) : Machine State Label :=
  ⟨Init image, Next g w cp⟩

/-- The code as written. -/
def code (g : Geometry) (image : Stamped BLinked) : Machine State Label :=
  machine g False codeCheck image

/-- AllocationBranchBetree_v.rs 475-506 `inv`, with 460-473 for the branches under construction and
LinkedBetree_v.rs 1205-1207 with 810-815 for the tree (the first three parts) -/
def State.Inv (g : Geometry) (s : State) : Prop :=
  let l := s.betree.linked
  let likes := transitiveLikes l.tree
  let roots : PSet Address := fun a => a ∈ likes.2 ∨ inputRoots s.compactors a
  l.tree.Acyclic ∧ (∀ b, l.tree.ReachableBuffer b → l.bdv.Has b) ∧
  (l.tree.HasRoot → l.tree.node.myDomain = .total) ∧
  s.betreeAus = toAuLikes likes.1 ∧ s.branchAus = toAuLikes likes.2 ∧
  (∀ a, roots a → ValidSealedBranch (getBranch l.bdv a)) ∧
  UnitsDistinct roots ∧
  (∀ u v x y, s.summary u = some x → s.summary v = some y → u ≠ v → ∀ a, x a → ¬ y a) ∧
  s.summary = buildSummary l.bdv roots ∧
  (∀ a, l.dv.Has a → a.au ∈ s.betreeAus) ∧ (∀ a, l.bdv.Has a → summaryAus s.summary a.au) ∧
  (∀ u, u ∈ s.betreeAus → ¬ summaryAus s.summary u) ∧
  (∀ u, u ∈ s.betreeAus → ¬ allocAus s.wip u) ∧
  (∀ u, summaryAus s.summary u → ¬ allocAus s.wip u) ∧
  (∀ b ∈ s.wip, b.Inv g) ∧
  ∀ (i j : Nat) b c, s.wip[i]? = some b → s.wip[j]? = some c → i ≠ j →
    ∀ u, allAus b.mini u → ¬ allAus c.mini u

/-! ### Bookkeeping by hand (no code is modelled here) -/

/-- the units held after an action, given those held before -/
def Label.hold (h : PSet Nat) : Label → PSet Nat
  | .ext _ => h
  | .internal allocs deallocs => fun u => (h u ∨ allocs u) ∧ ¬ deallocs u

/-- the units held after a history that began with the units `h` -/
def held (h : PSet Nat) (tr : List Label) : PSet Nat := tr.foldl Label.hold h

/-- the labels a client sees -/
def Label.seen : Label → BLabel Linked
  | .ext l => l
  | .internal _ _ => .internal

end Verif.ABB
