import Mathlib.Data.Multiset.Bind
import Verif.Betree.Linked
/-
Model of Splinter/src/allocation_layer/Likes_v.rs, LikesBetree_v.rs and AllocationBetree_v.rs: the
linked betree with, beside it, recorded reference counts ("likes") of node pages and buffer pages,
and the same counts per allocation unit. vstd's `Multiset` is Mathlib's `Multiset`; `sub` is the
truncated difference in both. The buffer type is `SimpleBuffer`, as in the two state machines.
-/
namespace Verif

open LinkedBetree

/-- Likes_v.rs 11 -/
abbrev Likes := Multiset Address
/-- Likes_v.rs 13 -/
abbrev AULikes := Multiset Nat

/-- Likes_v.rs 25-34: the units of the addresses, with multiplicity. Rust removes arbitrary elements
one by one. -/
def toAuLikes (l : Likes) : AULikes := l.map Address.au

/-- LikesBetree_v.rs 52-62 -/
def LinkedBetree.SplitAddrs.likes (x : SplitAddrs) : Likes := {x.parent} + ({x.left} + {x.right})

/-- LikesBetree_v.rs 64-71 -/
def LinkedBetree.TwoAddrs.likes (x : TwoAddrs) : Likes := {x.addr1} + {x.addr2}

namespace LikesBetree

/-- LikesBetree_v.rs 83-114 `children_likes` and `tree_likes`, which call each other along a
ranking. Here the recursion is bounded by a number, which `treeLikes` takes from the ranking; the
sum over the children from a start index is the sum of the list of children. -/
def treeLikesN (d : Disk) : Nat → Pointer → Likes
  | 0, _ => 0
  | _ + 1, none => 0
  | f + 1, some a =>
    match d a with
    | none => 0
    | some n => {a} + (n.children.map (treeLikesN d f)).sum

open Classical in
/-- LinkedBetree_v.rs 511-519 -/
noncomputable def getRank (l : Linked) (r : PMap Address Nat) : Nat :=
  if l.HasRoot then ((l.root.bind r).map (· + 1)).getD 0 else 0

/-- LikesBetree_v.rs 105-114 -/
noncomputable def treeLikes (l : Linked) (r : PMap Address Nat) : Likes :=
  treeLikesN l.dv (getRank l r) l.root

open Classical in
/-- LikesBetree_v.rs 74-81 -/
noncomputable def rootLikes (l : Linked) : Likes :=
  if l.HasRoot then (l.root.elim 0 fun a => {a}) else 0

/-- The buffers a page refers to: LikesBetree_v.rs 35-38 for a page on the disk (nothing for a
missing page, arbitrary in Rust). -/
def bufs (d : Disk) (a : Address) : Likes := ((d a).elim [] LNode.buffers : List Address)

/-- LikesBetree_v.rs 116-126: the buffers of all listed pages, with multiplicity. Rust removes
arbitrary pages one by one. -/
def bufferLikes (d : Disk) (m : Likes) : Likes := m.bind (bufs d)

open Classical in
/-- LikesBetree_v.rs 128-135 with `the_ranking`, LinkedBetree_v.rs 472-477 (nothing for a cyclic
tree, arbitrary in Rust) -/
noncomputable def transitiveLikes (l : Linked) : Likes × Likes :=
  if h : ∃ r, l.ValidRanking r then
    (treeLikes l (choose h), bufferLikes l.dv (treeLikes l (choose h)))
  else (0, 0)

/-- LinkedBetree_v.rs 1016-1025 -/
def addrsFrom (l : Linked) (key : Key) : Nat → List Address
  | 0 => []
  | d + 1 => l.root.getD ⟨0, 0⟩ :: addrsFrom (l.childForKey key) key d

/-- LinkedBetree_v.rs 1016-1025 -/
def addrsOnPath (p : Path) : List Address := addrsFrom p.linked p.key p.depth

/-- LikesBetree_v.rs 972-975 -/
def addBetreeLikes (new : Likes) (pa : List Address) : Likes := new + (pa : Likes)

/-- LikesBetree_v.rs 977-981 -/
noncomputable def splitDiscardBetree (p : Path) (r : SplitRequest) : Likes :=
  (addrsOnPath p : Likes) + rootLikes p.target + rootLikes (p.target.childAtIdx (requestIdx r))

/-- LikesBetree_v.rs 983-987 -/
noncomputable def splitAddBuffers (p : Path) (r : SplitRequest) : Likes :=
  let old := p.target.childAtIdx (requestIdx r)
  bufferLikes old.dv (rootLikes old)

/-- LikesBetree_v.rs 989-994 -/
noncomputable def flushDiscardBetree (p : Path) (i : Nat) : Likes :=
  (addrsOnPath p : Likes) + rootLikes p.target + rootLikes (p.target.childAtIdx i)

/-- LikesBetree_v.rs 996-1000 -/
def flushDiscardBuffers (p : Path) (gc : Nat) : Likes :=
  (p.target.node.buffers.take gc : List Address)

/-- LikesBetree_v.rs 1002-1006 -/
def flushAddBuffers (p : Path) (i : Nat) : Likes := (p.target.flushBuffers i : List Address)

/-- LikesBetree_v.rs 1008-1011 -/
noncomputable def compactDiscardBetree (p : Path) : Likes :=
  (addrsOnPath p : Likes) + rootLikes p.target

/-- LikesBetree_v.rs 1013-1016 -/
def compactAddBetree (x : TwoAddrs) (pa : List Address) : Likes := x.addr1 ::ₘ (pa : Likes)

/-- LikesBetree_v.rs 1018-1021 -/
def compactDiscardBuffers (p : Path) (a b : Nat) : Likes :=
  ((p.target.node.buffers.take b).drop a : List Address)

/-- LikesBetree_v.rs 1023-1026 -/
def compactAddBuffers (x : TwoAddrs) : Likes := {x.addr2}

/-- LikesBetree_v.rs 1029-1053 -/
structure State where
  betree : LinkedBetree.State
  betreeLikes : Likes
  bufferLikes : Likes

/-- `m.dom() <= d.dom()`: every counted page is on the disk. -/
def Kept {V : Type} (m : Likes) (d : PMap Address V) : Prop := ∀ a ∈ m, d.Has a

/-- LikesBetree_v.rs 1165-1173 `initialize` -/
def Init (image : Stamped Linked) (s : State) : Prop :=
  LinkedBetree.Init image s.betree ∧
  s.betreeLikes = (transitiveLikes s.betree.linked).1 ∧
  s.bufferLikes = (transitiveLikes s.betree.linked).2

/-- LikesBetree_v.rs 1068-1163. The transitions of the linked betree are called without
`strong_step`; freshness and the kept pages are what this layer adds. `is_fresh` 1062-1065 is the
one of the linked betree. -/
inductive Next : State → BLabel Linked → State → Prop
  /-- 1068-1072: queries, puts and freezing -/
  | noop {s : State} {l new} : l ≠ .internal → WeakNext s.betree l new →
      Next s l { s with betree := new }
  /-- 1074-1092 -/
  | flushMemtable {s : State} {new : LinkedBetree.State} {x : TwoAddrs} {nt nb : Likes} :
      NextBy s.betree .internal (.flushMemtable s.betree.memtable.buffer new.linked x) new →
      s.betree.linked.IsFresh x.repr →
      nt = s.betreeLikes - rootLikes s.betree.linked + rootLikes new.linked →
      nb = x.addr2 ::ₘ s.bufferLikes →
      Kept nt new.linked.dv → Kept nb new.linked.bdv →
      Next s .internal ⟨new, nt, nb⟩
  /-- 1094-1100 -/
  | grow {s : State} {new : LinkedBetree.State} {a : Address} :
      NextBy s.betree .internal (.grow a) new →
      s.betree.linked.IsFresh (fun b => b = a) →
      Next s .internal ⟨new, a ::ₘ s.betreeLikes, s.bufferLikes⟩
  /-- 1102-1118 -/
  | split {s : State} {new : LinkedBetree.State} {p r} {x : SplitAddrs} {pa} {nt nb : Likes} :
      NextBy s.betree .internal (.split new.linked p r x pa) new →
      s.betree.linked.IsFresh (fun a => x.repr a ∨ a ∈ pa) →
      nt = s.betreeLikes - splitDiscardBetree p r + addBetreeLikes x.likes pa →
      nb = s.bufferLikes + splitAddBuffers p r →
      Kept nt new.linked.dv → Kept s.bufferLikes new.linked.bdv →
      Next s .internal ⟨new, nt, nb⟩
  /-- 1120-1136 -/
  | flush {s : State} {new : LinkedBetree.State} {p i gc} {x : TwoAddrs} {pa} {nt nb : Likes} :
      NextBy s.betree .internal (.flush new.linked p i gc x pa) new →
      s.betree.linked.IsFresh (fun a => x.repr a ∨ a ∈ pa) →
      nt = s.betreeLikes - flushDiscardBetree p i + addBetreeLikes x.likes pa →
      nb = s.bufferLikes - flushDiscardBuffers p gc + flushAddBuffers p i →
      Kept nt new.linked.dv → Kept nb new.linked.bdv →
      Next s .internal ⟨new, nt, nb⟩
  /-- 1138-1154 -/
  | compact {s : State} {new : LinkedBetree.State} {p a b c} {x : TwoAddrs} {pa} {nt nb : Likes} :
      NextBy s.betree .internal (.compact new.linked p a b c x pa) new →
      s.betree.linked.IsFresh (fun a => x.repr a ∨ a ∈ pa) →
      nt = s.betreeLikes - compactDiscardBetree p + compactAddBetree x pa →
      nb = s.bufferLikes - compactDiscardBuffers p a b + compactAddBuffers x →
      Kept nt new.linked.dv → Kept nb new.linked.bdv →
      Next s .internal ⟨new, nt, nb⟩
  /-- 1156-1159 -/
  | bufferNoop {s : State} {new : LinkedBetree.State} :
      NextBy s.betree .internal (.bufferNoop new.linked) new →
      Next s .internal { s with betree := new }
  /-- 1161-1163 -/
  | internalNoop {s : State} : NextBy s.betree .internal .noop s.betree → Next s .internal s

def machine (image : Stamped Linked) : Machine State (BLabel Linked) := ⟨Init image, Next⟩

end LikesBetree

/-! ### Counts per allocation unit -/

namespace AllocationBetree
open LikesBetree

/-- AllocationBetree_v.rs 34-39 -/
structure State where
  betree : LinkedBetree.State
  betreeAus : AULikes
  bufferAus : AULikes

/-- `restrict_domain_au(m, aus.dom()) <= d.dom()` (Likes_v.rs 125-128): pages of `m` in counted
units are kept in `d`. -/
def Kept {V W : Type} (m : PMap Address V) (aus : AULikes) (d : PMap Address W) : Prop :=
  ∀ a, m.Has a → a.au ∈ aus → d.Has a

/-- AllocationBetree_v.rs 52-58 -/
def Init (image : Stamped Linked) (s : State) : Prop :=
  LinkedBetree.Init image s.betree ∧
  s.betreeAus = toAuLikes (transitiveLikes s.betree.linked).1 ∧
  s.bufferAus = toAuLikes (transitiveLikes s.betree.linked).2

/-- AllocationBetree_v.rs 60-205. `is_fresh` 47-50 is the one of the linked betree. -/
inductive Next : State → BLabel Linked → State → Prop
  /-- 60-64 -/
  | noop {s : State} {l new} : l ≠ .internal → WeakNext s.betree l new →
      Next s l { s with betree := new }
  /-- 78-93 with 66-76 -/
  | flushMemtable {s : State} {new : LinkedBetree.State} {x : TwoAddrs} {nt nb : AULikes} :
      NextBy s.betree .internal (.flushMemtable s.betree.memtable.buffer new.linked x) new →
      s.betree.linked.IsFresh x.repr →
      nt = s.betreeAus - toAuLikes (rootLikes s.betree.linked) + toAuLikes (rootLikes new.linked) →
      nb = x.addr2.au ::ₘ s.bufferAus →
      Kept (s.betree.linked.pushMemtable s.betree.memtable.buffer x).dv nt new.linked.dv →
      Kept (s.betree.linked.pushMemtable s.betree.memtable.buffer x).bdv nb new.linked.bdv →
      Next s .internal ⟨new, nt, nb⟩
  /-- 95-101 -/
  | grow {s : State} {new : LinkedBetree.State} {a : Address} :
      NextBy s.betree .internal (.grow a) new →
      s.betree.linked.IsFresh (fun b => b = a) →
      Next s .internal ⟨new, a.au ::ₘ s.betreeAus, s.bufferAus⟩
  /-- 116-131 with 103-114 -/
  | split {s : State} {new : LinkedBetree.State} {p r} {x : SplitAddrs} {pa} {nt nb : AULikes} :
      NextBy s.betree .internal (.split new.linked p r x pa) new →
      s.betree.linked.IsFresh (fun a => x.repr a ∨ a ∈ pa) →
      nt = s.betreeAus - toAuLikes (splitDiscardBetree p r) +
        toAuLikes (addBetreeLikes x.likes pa) →
      nb = s.bufferAus + toAuLikes (splitAddBuffers p r) →
      Kept (postSplit p r x pa).dv nt new.linked.dv →
      Kept (postSplit p r x pa).bdv nb new.linked.bdv →
      Next s .internal ⟨new, nt, nb⟩
  /-- 147-163 with 133-145 -/
  | flush {s : State} {new : LinkedBetree.State} {p i gc} {x : TwoAddrs} {pa} {nt nb : AULikes} :
      NextBy s.betree .internal (.flush new.linked p i gc x pa) new →
      s.betree.linked.IsFresh (fun a => x.repr a ∨ a ∈ pa) →
      nt = s.betreeAus - toAuLikes (flushDiscardBetree p i) +
        toAuLikes (addBetreeLikes x.likes pa) →
      nb = s.bufferAus - toAuLikes (flushDiscardBuffers p gc) + toAuLikes (flushAddBuffers p i) →
      Kept (postFlush p i gc x pa).dv nt new.linked.dv →
      Kept (postFlush p i gc x pa).bdv nb new.linked.bdv →
      Next s .internal ⟨new, nt, nb⟩
  /-- 179-196 with 165-177 -/
  | compact {s : State} {new : LinkedBetree.State} {p a b c} {x : TwoAddrs} {pa} {nt nb : AULikes} :
      NextBy s.betree .internal (.compact new.linked p a b c x pa) new →
      s.betree.linked.IsFresh (fun a => x.repr a ∨ a ∈ pa) →
      nt = s.betreeAus - toAuLikes (compactDiscardBetree p) +
        toAuLikes (compactAddBetree x pa) →
      nb = s.bufferAus - toAuLikes (compactDiscardBuffers p a b) +
        toAuLikes (compactAddBuffers x) →
      Kept (postCompact p a b c x pa).dv nt new.linked.dv →
      Kept (postCompact p a b c x pa).bdv nb new.linked.bdv →
      Next s .internal ⟨new, nt, nb⟩
  /-- 198-201 -/
  | bufferNoop {s : State} {new : LinkedBetree.State} :
      NextBy s.betree .internal (.bufferNoop new.linked) new →
      Next s .internal { s with betree := new }
  /-- 203-205 -/
  | internalNoop {s : State} : NextBy s.betree .internal .noop s.betree → Next s .internal s

def machine (image : Stamped Linked) : Machine State (BLabel Linked) := ⟨Init image, Next⟩

end AllocationBetree
end Verif
