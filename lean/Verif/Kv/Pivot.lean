import Verif.Kv.KeyOrder
import Verif.Kv.Betree
/-
`PivotBetreeSpec` (PivotBetree/PivotBetreeSpec.i.dfy): the betree with real nodes. A node cuts its part
of the key space into ranges by pivots; each range has a bucket of messages, in an inner node a child,
and possibly an edge prefix that replaces the common prefix of the range on the way to the child.

Simplifications throughout: the bound on the length of keys is dropped, and with it the `assume` of
`changePrefix` (lib/Buckets/TranslationApply.s.dfy:13-19) that no translated key exceeds it; the limits
on the number of children and on the weight of buckets (`BoundedNode`, PivotBetreeSpec.i.dfy:53-57, and
the weight conditions of the steps) are dropped, so more steps are allowed than in the code.
-/
namespace Verif.Kv.Pivot
open Betree (Message)

/-! ### Buckets -/

/-- `Bucket`, lib/Buckets/BucketsLib.i.dfy:46-55, with the sequences of keys and messages zipped. -/
abbrev Bucket := List (Key × Message)

/-- `BucketGet` (lib/Buckets/BucketMap.i.dfy:21-24) of `as_map` (BucketsLib.i.dfy:48-54): the last entry
for the key. -/
def Bucket.get (b : Bucket) (k : Key) : Message :=
  ((b.reverse.find? (fun x => x.1 == k)).map (·.2)).getD .update

/-- `BucketWellMarshalled`, BucketsLib.i.dfy:80-83 -/
def Bucket.Sorted (b : Bucket) : Prop := b.Pairwise (fun x y => Elem.key x.1 < Elem.key y.1)

/-- `BucketInsert`, BucketsLib.i.dfy:217-226; the bucket of a map (`B`, :190-202) is sorted. -/
def Bucket.add (b : Bucket) (k : Key) (m : Message) : Bucket :=
  b.filter (fun x => decide (Elem.key x.1 < Elem.key k)) ++
    (if m.merge (b.get k) = .update then [] else [(k, m.merge (b.get k))]) ++
    b.filter (fun x => decide (Elem.key k < Elem.key x.1))

/-- `SplitBucketLeft`, BucketsLib.i.dfy:272-278. The binary search there finds, in a sorted bucket, the
first key not below the pivot. -/
def Bucket.left (b : Bucket) (p : Key) : Bucket := b.takeWhile (fun x => decide (Elem.key x.1 < .key p))

/-- `SplitBucketRight`, BucketsLib.i.dfy:280-286 -/
def Bucket.right (b : Bucket) (p : Key) : Bucket := b.dropWhile (fun x => decide (Elem.key x.1 < .key p))

/-- `BucketListItemFlush` (lib/Buckets/BucketMap.i.dfy:28-38) on sorted buckets: the entries of both,
those of the upper bucket merged onto those of the lower one. -/
def Bucket.merge : Bucket → Bucket → Bucket
  | [], b => b
  | t, [] => t
  | (k, m) :: t, (k', m') :: b =>
    if Elem.key k < .key k' then (k, m) :: Bucket.merge t ((k', m') :: b)
    else if Elem.key k' < .key k then (k', m') :: Bucket.merge ((k, m) :: t) b
    else if m.merge m' = .update then Bucket.merge t b
    else (k, m.merge m') :: Bucket.merge t b
termination_by t b => t.length + b.length

/-- `TranslateBucket`, lib/Buckets/TranslationLib.i.dfy:886-931: the entries with the prefix, their
prefix changed. -/
def Bucket.translate (b : Bucket) (p q : Key) : Bucket :=
  b.filterMap (fun x => if p.isPrefixOf x.1 then some (q ++ x.1.drop p.length, x.2) else none)

/-! ### Pivots and edges -/

/-- `Route`, lib/Buckets/BoundedPivotsLib.i.dfy:231-239: the last pivot not above the key. -/
def route (pt : List Elem) (k : Key) : Nat := (pt.takeWhile (fun p => decide (p ≤ .key k))).length - 1

/-- `CutoffForLeft`, BoundedPivotsLib.i.dfy:435-443: the last pivot below the key. -/
def cutoffLeft (pt : List Elem) (k : Key) : Nat := (pt.takeWhile (fun p => decide (p < .key k))).length - 1

/-- `BoundedKey`, BoundedPivotsLib.i.dfy:124-129 -/
def Bounded (pt : List Elem) (k : Key) : Prop :=
  ∃ a b, pt.head? = some a ∧ pt.getLast? = some b ∧ a ≤ .key k ∧ .key k < b

/-- `ContainsRange`, BoundedPivotsLib.i.dfy:88-95 -/
def ContainsRange (pt : List Elem) (l r : Elem) : Prop :=
  ∃ a b, pt.head? = some a ∧ pt.getLast? = some b ∧ a ≤ l ∧ r ≤ b

/-- `ContainsAllKeys`, BoundedPivotsLib.i.dfy:61-66, without the part that the pivots are well-formed. -/
def ContainsAll (pt : List Elem) : Prop := pt.head? = some (.key []) ∧ pt.getLast? = some .top

/-- `changePrefix`, lib/Buckets/TranslationApply.s.dfy:13-19 -/
def changePrefix (p q k : Key) : Key := q ++ k.drop p.length

/-- `PrefixSet`, TranslationLib.i.dfy:395 -/
structure PrefixSet where
  pre : Key
  new : Key

/-- `ApplyPrefixSet`, TranslationLib.i.dfy:427-436 -/
def applyPrefix : Option PrefixSet → Key → Key
  | none, k => k
  | some s, k => changePrefix s.pre s.new k

/-- `PivotLcp` of a range. -/
def lcpAt (pt : List Elem) (i : Nat) : Key :=
  match pt[i]?, pt[i + 1]? with
  | some lo, some hi => pivotLcp lo hi
  | _, _ => []

/-- `Translate`, TranslationLib.i.dfy:398-411 -/
def translate (pt : List Elem) (et : List (Option Key)) (k : Key) : Option PrefixSet :=
  match et[route pt k]? with
  | some (some e) => some ⟨lcpAt pt (route pt k), e⟩
  | _ => none

/-- `TranslateKey`, TranslationLib.i.dfy:413-420 -/
def translateKey (pt : List Elem) (et : List (Option Key)) (k : Key) : Key :=
  applyPrefix (translate pt et k) k

/-- `SplitLeftEdges`, TranslationLib.i.dfy:54-95 -/
def leftEdges (et : List (Option Key)) (pt : List Elem) (p : Key) : List (Option Key) :=
  let c := cutoffLeft pt p
  match pt[c]?, et[c]? with
  | some lo, some (some e) =>
    if pt[c + 1]? = some (.key p) then et.take (c + 1)
    else et.take c ++ [some (changePrefix (lcpAt pt c) e (pivotLcp lo (.key p)))]
  | _, _ => et.take (c + 1)

/-- `SplitRightEdges`, TranslationLib.i.dfy:97-137 -/
def rightEdges (et : List (Option Key)) (pt : List Elem) (p : Key) : List (Option Key) :=
  let c := route pt p
  match pt[c + 1]?, et[c]? with
  | some hi, some (some e) =>
    if pt[c]? = some (.key p) then et.drop c
    else some (changePrefix (lcpAt pt c) e (pivotLcp (.key p) hi)) :: et.drop (c + 1)
  | _, _ => et.drop c

/-- `TranslateElement`, TranslationLib.i.dfy:552-560 -/
def translateElem (p q : Key) : Elem → Elem
  | .key k => .key (changePrefix p q k)
  | .top => .top

/-- The right end given by `TranslatePivotPairInternal`, TranslationLib.i.dfy:576-624 -/
def translateEnd (p q : Key) : Elem → Elem
  | .key k => if p.isPrefixOf k then .key (changePrefix p q k) else prefixEnd q
  | .top => prefixEnd q

/-- `TranslatePivots`, TranslationLib.i.dfy:728-753 -/
def translatePivots (pt : List Elem) (p q : Key) (stop : Elem) : List Elem :=
  pt.dropLast.map (translateElem p q) ++ [stop]

/-- `TranslateEdges`, TranslationLib.i.dfy:755-771 -/
def translateEdges (et : List (Option Key)) (pt : List Elem) : List (Option Key) :=
  et.mapIdx (fun i e => some (e.getD (lcpAt pt i)))

/-! ### Nodes -/

/-- `Node`, PivotBetree/PivotBetreeGraph.i.dfy:21-25 -/
structure Node where
  pivots : List Elem
  edges : List (Option Key)
  children : Option (List Ref)
  buckets : List Bucket

/-- `Successors`, PivotBetree/PivotBetreeGraph.i.dfy:27-34 -/
def Succs (n : Node) (r : Ref) : Prop := ∃ cs, n.children = some cs ∧ r ∈ cs

/-- `WFNode`, PivotBetreeSpec.i.dfy:62-70, with `WFPivots` (BoundedPivotsLib.i.dfy:53-59), `WFEdges`
(TranslationLib.i.dfy:36-41) and `WFBucketList` (BucketsLib.i.dfy:163-168). That only the last pivot may
be the maximum follows from the strict order. -/
structure WFNode (n : Node) : Prop where
  sorted : n.pivots.Pairwise (· < ·)
  two : 2 ≤ n.pivots.length
  buckets : n.pivots.length = n.buckets.length + 1
  edges : n.edges.length = n.buckets.length
  children : ∀ cs, n.children = some cs → cs.length = n.buckets.length
  lcps : ∀ i e, n.edges[i]? = some (some e) → lcpAt n.pivots i ≠ []
  msgs : ∀ (i : Nat) (b : Bucket) x, n.buckets[i]? = some b → x ∈ b → x.2 ≠ .update

/-- `InvNode`, PivotBetreeSpec.i.dfy:72-77, with `WFBucketListProper` (BucketsLib.i.dfy:170-174). -/
structure InvNode (n : Node) : Prop where
  wf : WFNode n
  proper : ∀ (i : Nat) (b : Bucket) x, n.buckets[i]? = some b → x ∈ b →
    Bounded n.pivots x.1 ∧ route n.pivots x.1 = i
  sorted : ∀ (i : Nat) (b : Bucket), n.buckets[i]? = some b → b.Sorted

/-- The bucket for a key. -/
def Node.bucketAt (n : Node) (k : Key) : Bucket := n.buckets[route n.pivots k]?.getD []

/-- `AddMessageToNode`, PivotBetreeSpec.i.dfy:79-87, with `BucketListInsert` (BucketsLib.i.dfy:228-234) -/
def Node.add (n : Node) (k : Key) (m : Message) : Node :=
  { n with buckets := n.buckets.set (route n.pivots k) ((n.bucketAt k).add k m) }

/-- `CutoffNodeAndKeepLeft`, PivotBetreeSpec.i.dfy:549-574, with `SplitLeft` (BoundedPivotsLib.i.dfy:456-464)
and `SplitBucketListLeft` (BucketsLib.i.dfy:288-294). -/
def Node.keepLeft (n : Node) (p : Key) : Node :=
  let c := cutoffLeft n.pivots p
  { pivots := n.pivots.take (c + 1) ++ [.key p]
    edges := leftEdges n.edges n.pivots p
    children := n.children.map (·.take (c + 1))
    buckets := n.buckets.take c ++ [Bucket.left (n.buckets[c]?.getD []) p] }

/-- `CutoffNodeAndKeepRight`, PivotBetreeSpec.i.dfy:576-599, with `SplitRight`
(BoundedPivotsLib.i.dfy:498-506) and `SplitBucketListRight` (BucketsLib.i.dfy:296-302). -/
def Node.keepRight (n : Node) (p : Key) : Node :=
  let c := route n.pivots p
  { pivots := .key p :: n.pivots.drop (c + 1)
    edges := rightEdges n.edges n.pivots p
    children := n.children.map (·.drop c)
    buckets := Bucket.right (n.buckets[c]?.getD []) p :: n.buckets.drop (c + 1) }

/-- `CutoffNode`, PivotBetreeSpec.i.dfy:611-633 -/
def Node.cutoff (n : Node) (l : Key) : Elem → Node
  | .top => n.keepRight l
  | .key r => (n.keepLeft r).keepRight l

/-- The change of prefix in a node, as in `RestrictAndTranslateChild` (PivotBetreeSpec.i.dfy:660-679) and
`RestrictAndTranslateNode` (:951-957). -/
def Node.translate (n : Node) (p q : Key) (stop : Elem) : Node :=
  { pivots := translatePivots n.pivots p q stop
    edges := translateEdges n.edges n.pivots
    children := n.children
    buckets := n.buckets.map (fun b => Bucket.translate b p q) }

/-- The range of keys that a range of a node stands for in its child: the range itself, or
`TranslatePivotPair` (TranslationLib.i.dfy:562-574). -/
def Node.childRange (n : Node) (slot : Nat) : Option (Elem × Elem) :=
  match n.pivots[slot]?, n.pivots[slot + 1]?, n.edges[slot]? with
  | some lo, some hi, some none => some (lo, hi)
  | some lo, some hi, some (some e) =>
    some (translateElem (pivotLcp lo hi) e lo, translateEnd (pivotLcp lo hi) e hi)
  | _, _, _ => none

/-- `ParentKeysInChildRange`, TranslationLib.i.dfy:1090-1102 -/
def InChildRange (parent child : Node) (slot : Nat) : Prop :=
  ∃ l r, parent.childRange slot = some (l, r) ∧ ContainsRange child.pivots l r

/-- `RestrictAndTranslateChild`, PivotBetreeSpec.i.dfy:635-680 -/
def restrictChild (parent child : Node) (slot : Nat) : Node :=
  match parent.childRange slot, parent.pivots[slot + 1]?, parent.edges[slot]? with
  | some (.key l, r), some hi, some (some e) =>
    (child.cutoff l r).translate e (lcpAt parent.pivots slot) hi
  | some (.key l, r), _, _ => child.cutoff l r
  | _, _, _ => child

/-! ### Queries -/

/-- `Layer`, PivotBetreeSpec.i.dfy:91 -/
structure Layer where
  ref : Ref
  node : Node
  key : Key

/-- `LookupFollowsChildRefs` and `LookupFollowsChildEdges`, PivotBetreeSpec.i.dfy:132-165 -/
def Follows (l : List Layer) : Prop :=
  ∀ i (h : i + 1 < l.length), (∃ cs, l[i].node.children = some cs ∧
      cs[route l[i].node.pivots l[i].key]? = some l[i + 1].ref) ∧
    translateKey l[i].node.pivots l[i].node.edges l[i].key = l[i + 1].key

/-- `WFLookupForKey`, PivotBetreeSpec.i.dfy:195-204 -/
structure WFLookup (l : List Layer) (k : Key) : Prop where
  head : ∃ x xs, l = x :: xs ∧ x.ref = rootRef ∧ x.key = k
  wf : ∀ x ∈ l, WFNode x.node
  bounded : ∀ x ∈ l, Bounded x.node.pivots x.key
  follows : Follows l

/-- `InterpretLookup` (PivotBetreeSpec.i.dfy:174-182) over `NodeLookup` (:167-172) -/
def interpret (l : List Layer) : Message :=
  l.foldl (fun m x => m.merge ((x.node.bucketAt x.key).get x.key)) .update

/-- `InterpretLookupAccountingForLeaf`, PivotBetreeSpec.i.dfy:184-193 -/
def interpretLeaf (l : List Layer) : Message :=
  match l.getLast? with
  | some x => if x.node.children = none then (interpret l).merge (.define []) else interpret l
  | none => interpret l

/-- `LookupVisitsWellMarshalledBuckets`, PivotBetreeSpec.i.dfy:117-123 -/
def Marshalled (l : List Layer) : Prop := ∀ x ∈ l, (x.node.bucketAt x.key).Sorted

/-- `QueryReads` over `LayersToReadOps`, PivotBetreeSpec.i.dfy:213-226 -/
def lookupReads (l : List Layer) : List (Ref × Node) := l.map (fun x => (x.ref, x.node))

/-- `RevPrefixSet`, TranslationLib.i.dfy:422-425 -/
def revPrefix : Option PrefixSet → Option PrefixSet
  | none => none
  | some s => some ⟨s.new, s.pre⟩

/-- `ComposePrefixSet`, TranslationLib.i.dfy:438-456 -/
def composePrefix : Option PrefixSet → Option PrefixSet → Option PrefixSet
  | none, b => revPrefix b
  | some a, none => some a
  | some a, some b =>
    if a.pre.length ≤ b.pre.length then some ⟨b.new, applyPrefix (some a) b.pre⟩
    else some ⟨applyPrefix (some b) a.pre, a.new⟩

/-- `LookupTranslationTable` (PivotBetreeSpec.i.dfy:253-281) with the entry of the first layer: for each
layer, how its keys become keys of the first layer. -/
def prefixes : Option PrefixSet → List Layer → List (Option PrefixSet)
  | _, [] => []
  | s, x :: xs => s :: prefixes (composePrefix s (translate x.node.pivots x.node.edges x.key)) xs

/-- `LookupUpperBoundAtLayer`, PivotBetreeSpec.i.dfy:283-310 -/
def upperAt (x : Layer) (s : Option PrefixSet) : Elem :=
  let hi := x.node.pivots[route x.node.pivots x.key + 1]?.getD .top
  match s with
  | none => hi
  | some s => translateEnd s.pre s.new hi

/-- `LookupUpperBound`, PivotBetreeSpec.i.dfy:324-341, with `OptionKeyMin` (:312-322) -/
def upper (l : List Layer) : Elem :=
  ((l.zip (prefixes none l)).map (fun x => upperAt x.1 x.2)).foldl min .top

/-- `SuccBucketAtLayer` and `TranslateSuccBuckets`, PivotBetreeSpec.i.dfy:343-369 -/
def succBuckets (l : List Layer) : List Bucket :=
  (l.zip (prefixes none l)).map (fun x => match x.2 with
    | none => x.1.node.bucketAt x.1.key
    | some s => Bucket.translate (x.1.node.bucketAt x.1.key) s.pre s.new)

/-- `BucketGet` of `ComposeSeq`, lib/Buckets/BucketMap.i.dfy:88-99 -/
def composeGet (bs : List Bucket) (k : Key) : Message :=
  bs.foldl (fun m b => m.merge (b.get k)) .update

/-- The key at which `ValidSuccQuery` starts its lookup, PivotBetreeSpec.i.dfy:378 -/
def startKey : RangeStart → Key
  | .incl k => k
  | .excl k => k
  | .negInf => []

/-- `ValidSuccQuery`, PivotBetreeSpec.i.dfy:376-396. `SortedSeqOfKeyValueMap` of `KeyValueMapOfBucket` of
`ClampRange` (lib/Buckets/BucketMap.i.dfy:70-73, 162-177) is given by what it holds and its order. -/
structure ValidSucc (start : RangeStart) (rs : List (Key × Value)) (stop : RangeEnd)
    (l : List Layer) : Prop where
  lookup : WFLookup l (startKey start)
  leaf : ∀ x, l.getLast? = some x → x.node.children = none
  range : Marshalled l → MapSpec.NonEmptyRange start stop
  bound : Marshalled l → ∀ u, upper l = .key u → ¬ MapSpec.UpperBound u stop
  results : Marshalled l → ∀ k v, (k, v) ∈ rs ↔ MapSpec.InRange start k stop ∧ v ≠ [] ∧
    (composeGet (succBuckets l) k).merge (.define []) = .define v
  order : Marshalled l → rs.Pairwise (fun x y => MapSpec.lt x.1 y.1)

/-! ### Changes of the tree -/

/-- `NodeFlush`, PivotBetreeSpec.i.dfy:441-451. `flushed` says which entries of the parent's bucket move. -/
structure Flush where
  parentref : Ref
  parent : Node
  childref : Ref
  child : Node
  newchildref : Ref
  slot : Nat
  flushed : Key → Bool

/-- The child cut to the range of the parent, in the flush. -/
def Flush.cut (f : Flush) : Node := restrictChild f.parent f.child f.slot

/-- The parent's bucket, in the flush. -/
def Flush.bucket (f : Flush) : Bucket := f.parent.buckets[f.slot]?.getD []

/-- The new child of `ValidFlush` (PivotBetreeSpec.i.dfy:470-477). `partialFlush`
(lib/Buckets/BucketFlushModel.i.dfy:1546-1559) moves entries as long as there is room in the child; which
ones it moves is left open here, what happens to those that move and those that stay is
`partialFlushCorrect` (:1561-1585). -/
def Flush.newchild (f : Flush) : Node :=
  { f.cut with buckets := f.cut.buckets.mapIdx (fun i b => Bucket.merge
      (f.bucket.filter (fun x => f.flushed x.1 && route f.cut.pivots x.1 == i)) b) }

/-- The new parent of `ValidFlush`, PivotBetreeSpec.i.dfy:478-483 -/
def Flush.newparent (f : Flush) : Node :=
  { pivots := f.parent.pivots
    edges := f.parent.edges.set f.slot none
    children := f.parent.children.map (·.set f.slot f.newchildref)
    buckets := f.parent.buckets.set f.slot (f.bucket.filter (fun x => !f.flushed x.1)) }

/-- `ValidFlush`, PivotBetreeSpec.i.dfy:453-485 -/
structure Flush.Valid (f : Flush) : Prop where
  wfParent : WFNode f.parent
  wfChild : WFNode f.child
  inSlot : f.slot < f.parent.buckets.length
  isChild : ∃ cs, f.parent.children = some cs ∧ cs[f.slot]? = some f.childref
  range : InChildRange f.parent f.child f.slot

/-- The root written by `GrowOps`, PivotBetreeSpec.i.dfy:520-527 -/
def grownRoot (child : Ref) : Node := ⟨[.key [], .top], [none], some [child], [[]]⟩

/-- `SplitChildLeft`, PivotBetreeSpec.i.dfy:683-695 -/
def Node.splitLeft (n : Node) (num : Nat) : Node :=
  ⟨n.pivots.take (num + 1), n.edges.take num, n.children.map (·.take num), n.buckets.take num⟩

/-- `SplitChildRight`, PivotBetreeSpec.i.dfy:697-709 -/
def Node.splitRight (n : Node) (num : Nat) : Node :=
  ⟨n.pivots.drop num, n.edges.drop num, n.children.map (·.drop num), n.buckets.drop num⟩

/-- `replace1with2`, lib/Base/Sequences.i.dfy:409-418 -/
def replace1with2 {α : Type} (s : List α) (a b : α) (pos : Nat) : List α :=
  s.take pos ++ a :: b :: s.drop (pos + 1)

/-- `replace2with1`, lib/Base/Sequences.i.dfy:428-436 -/
def replace2with1 {α : Type} (s : List α) (a : α) (pos : Nat) : List α :=
  s.take pos ++ a :: s.drop (pos + 2)

/-- `SplitParent`, PivotBetreeSpec.i.dfy:711-724, with `SplitBucketInList` (BucketsLib.i.dfy:304-312) -/
def Node.splitParent (n : Node) (pivot : Key) (slot : Nat) (l r : Ref) : Node :=
  { pivots := n.pivots.take (slot + 1) ++ .key pivot :: n.pivots.drop (slot + 1)
    edges := replace1with2 n.edges none none slot
    children := n.children.map (fun cs => replace1with2 cs l r slot)
    buckets := replace1with2 n.buckets (Bucket.left (n.buckets[slot]?.getD []) pivot)
      (Bucket.right (n.buckets[slot]?.getD []) pivot) slot }

/-- `ValidSplit`, PivotBetreeSpec.i.dfy:749-770; `PivotInsertable` is BoundedPivotsLib.i.dfy:330-338. -/
structure ValidSplit (parent child : Node) (childref : Ref) (slot num : Nat) (pivot : Key) : Prop where
  wfParent : WFNode parent
  wfChild : WFNode child
  inSlot : slot < parent.buckets.length
  insertable : ∃ lo hi, parent.pivots[slot]? = some lo ∧ parent.pivots[slot + 1]? = some hi ∧
    lo < .key pivot ∧ .key pivot < hi
  isChild : ∃ cs, parent.children = some cs ∧ cs[slot]? = some childref
  range : InChildRange parent child slot
  one : 1 ≤ num
  inNum : num < (restrictChild parent child slot).buckets.length
  isPivot : (restrictChild parent child slot).pivots[num]? = some (.key pivot)

/-- `FusedChild`, PivotBetreeSpec.i.dfy:827-838 -/
def fusedChild (l r : Node) (pivot : Key) : Node :=
  { pivots := l.pivots.dropLast ++ .key pivot :: r.pivots.tail
    edges := l.edges ++ r.edges
    children := l.children.map (fun cs => cs ++ r.children.getD [])
    buckets := l.buckets ++ r.buckets }

/-- The fused parent of `ValidMerge` (PivotBetreeSpec.i.dfy:819-824), with `MergeBucketsInList`
(BucketsLib.i.dfy:322-339) -/
def Node.fusedParent (n : Node) (slot : Nat) (c : Ref) : Node :=
  { pivots := n.pivots.take (slot + 1) ++ n.pivots.drop (slot + 2)
    edges := replace2with1 n.edges none slot
    children := n.children.map (fun cs => replace2with1 cs c slot)
    buckets := replace2with1 n.buckets
      (n.buckets[slot]?.getD [] ++ n.buckets[slot + 1]?.getD []) slot }

/-- `ValidMerge`, PivotBetreeSpec.i.dfy:793-825 -/
structure ValidMerge (parent left right : Node) (leftref rightref : Ref) (slot : Nat) (pivot : Key) :
    Prop where
  wfParent : WFNode parent
  wfLeft : WFNode left
  wfRight : WFNode right
  inSlot : slot + 1 < parent.buckets.length
  isPivot : parent.pivots[slot + 1]? = some (.key pivot)
  isChild : ∃ cs, parent.children = some cs ∧ cs[slot]? = some leftref ∧ cs[slot + 1]? = some rightref
  equal : leftref = rightref → left = right
  kind : left.children = none ↔ right.children = none
  rangeLeft : InChildRange parent left slot
  rangeRight : InChildRange parent right (slot + 1)

/-- `ValidRepivot`, PivotBetreeSpec.i.dfy:863-872. The new pivots are well-formed when the pivot is not
the empty key. -/
structure ValidRepivot (leaf : Node) (pivot : Key) : Prop where
  wf : WFNode leaf
  single : leaf.buckets.length = 1
  nonempty : pivot ≠ []
  edge : leaf.edges[0]? = some none
  isLeaf : leaf.children = none

/-- `ApplyRepivot`, PivotBetreeSpec.i.dfy:893-906 -/
def Node.repivot (n : Node) (p : Key) : Node :=
  ⟨[.key [], .key p, .top], [none, none], none,
    [Bucket.left (n.buckets[0]?.getD []) p, Bucket.right (n.buckets[0]?.getD []) p]⟩

/-- `RestrictAndTranslateNode`, PivotBetreeSpec.i.dfy:921-959 -/
def Node.cloned (n : Node) (src dst : Key) : Node :=
  let m := (n.cutoff src (prefixEnd src)).translate src dst (prefixEnd dst)
  { m with buckets := m.buckets.map (fun _ => []) }

/-- `CloneNewRoot`, PivotBetreeSpec.i.dfy:961-1016 -/
def Node.cloneRoot (n : Node) (src dst : Key) : Node :=
  let t := n.cloned src dst
  let l := n.keepLeft dst
  match prefixEnd dst with
  | .top => ⟨l.pivots.dropLast ++ t.pivots, l.edges ++ t.edges,
      some (l.children.getD [] ++ t.children.getD []), l.buckets ++ t.buckets⟩
  | .key e =>
    let r := n.keepRight e
    ⟨l.pivots.dropLast ++ t.pivots ++ r.pivots.tail, l.edges ++ t.edges ++ r.edges,
      some (l.children.getD [] ++ t.children.getD [] ++ r.children.getD []),
      l.buckets ++ t.buckets ++ r.buckets⟩

/-- `ValidCloneBucketList`, PivotBetreeSpec.i.dfy:1018-1029, with `BucketListNoKeyWithPrefix`
(BucketsLib.i.dfy:624-628) -/
def NoKeyWithPrefix (n : Node) (src : Key) : Prop :=
  let start := route n.pivots src
  let stop := match prefixEnd src with
    | .top => n.buckets.length
    | .key e => route n.pivots e + 1
  ∀ i (b : Bucket) x, start ≤ i → i < stop → n.buckets[i]? = some b → x ∈ b → ¬ src <+: x.1

/-- `ValidClone`, PivotBetreeSpec.i.dfy:1031-1044 -/
structure ValidClone (old : Node) (src dst : Key) : Prop where
  wf : WFNode old
  all : ContainsAll old.pivots
  inner : old.children ≠ none
  nonempty : dst ≠ []
  buckets : NoKeyWithPrefix old src

/-- `ValidBetreeStep`, `BetreeStepReads`, `BetreeStepOps` and `BetreeStepUI`,
PivotBetreeSpec.i.dfy:1072-1131, with the stuttering step of `PivotBetree.Next`
(PivotBetree/PivotBetree.i.dfy:68-78). -/
inductive Valid : UIOp → List (Ref × Node) → List (GOp Node) → Prop
  /-- `ValidQuery`, :206-211 -/
  | query {k v l} : WFLookup l k → (Marshalled l → interpretLeaf l = .define v) →
      Valid (.get k v) (lookupReads l) []
  | succ {start rs stop l} : ValidSucc start rs stop l →
      Valid (.succ start rs stop) (lookupReads l) []
  /-- `ValidInsertion`, `InsertionReads`, `InsertionOps`, :409-428 -/
  | insert {k v old} : WFNode old → Bounded old.pivots k →
      Valid (.put k v) [(rootRef, old)] [.write rootRef (old.add k (.define v))]
  /-- `FlushReads`, `FlushOps`, :487-502 -/
  | flush {f : Flush} : f.Valid → Valid .noop [(f.parentref, f.parent), (f.childref, f.child)]
      [.alloc f.newchildref f.newchild, .write f.parentref f.newparent]
  /-- `ValidGrow`, `GrowReads`, `GrowOps`, :508-527 -/
  | grow {old child} : WFNode old → ContainsAll old.pivots → Valid .noop [(rootRef, old)]
      [.alloc child old, .write rootRef (grownRoot child)]
  /-- `SplitReads`, `SplitOps`, :772-789 -/
  | split {parentref parent childref child slot num pivot l r} :
      ValidSplit parent child childref slot num pivot →
      Valid .noop [(parentref, parent), (childref, child)]
        [.alloc l ((restrictChild parent child slot).splitLeft num),
          .alloc r ((restrictChild parent child slot).splitRight num),
          .write parentref (parent.splitParent pivot slot l r)]
  /-- `MergeReads`, `MergeOps`, :840-857 -/
  | merge {parentref parent leftref left rightref right slot pivot c} :
      ValidMerge parent left right leftref rightref slot pivot →
      Valid .noop [(parentref, parent), (leftref, left), (rightref, right)]
        [.alloc c (fusedChild (restrictChild parent left slot) (restrictChild parent right (slot + 1))
            pivot),
          .write parentref (parent.fusedParent slot c)]
  /-- `RepivotReads`, `RepivotOps`, :874-914 -/
  | repivot {ref leaf pivot} : ValidRepivot leaf pivot →
      Valid .noop [(ref, leaf)] [.write ref (leaf.repivot pivot)]
  /-- `CloneReads`, `CloneOps`, :1046-1057 -/
  | clone {src dst old} : ValidClone old src dst →
      Valid (.clone src dst) [(rootRef, old)] [.write rootRef (old.cloneRoot src dst)]
  | stutter {reads} : Valid .noop reads []

/-- The application. -/
def app : App Node := ⟨Succs, WFNode, Valid⟩

/-- `EmptyNode`, PivotBetree/PivotBetree.i.dfy:40-43 -/
def emptyNode : Node := ⟨[.key [], .top], [none], none, [[]]⟩

end Verif.Kv.Pivot
