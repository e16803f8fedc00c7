import Verif.Kv.BlockImpl
import Verif.Kv.SectorBytes
/-
The operations on the tree as they are coded: Impl/QueryImpl.i.dfy, Impl/SuccImpl.i.dfy,
Impl/InsertImpl.i.dfy, Impl/CloneImpl.i.dfy, Impl/FlushPolicyImpl.i.dfy, Impl/FlushImpl.i.dfy,
Impl/GrowImpl.i.dfy, Impl/SplitImpl.i.dfy, Impl/LeafImpl.i.dfy, and the flush of a bucket,
lib/Buckets/BucketFlushModel.i.dfy. All of them act on the block side of Verif/Kv/BlockImpl.lean.
Simplifications: those of BlockImpl.lean; a bucket is its list of entries, not a tree or a packed sequence
(lib/Buckets/BucketImpl.i.dfy); binary searches in sorted sequences are `takeWhile` and `dropWhile`; where
the code relies on an index being in range, the function does nothing outside it.
-/
namespace Verif.Kv.TreeImpl
open Pivot BlockImpl
open Betree (Message)
open SectorBytes (bucketWeight weight messageWeight maxWeight maxChildren maxTable)

/-- The children of a node, `[]` for a leaf. -/
def kids (n : Node) : List Ref := n.children.getD []

/-- The block side with the nodes of the tree. -/
abbrev S := Ready Node

/-! ### Checks -/

/-- `ComputeBoundedKey`, lib/Buckets/BoundedPivotsLib.i.dfy:175-184 -/
def boundedB (pt : List Elem) (k : Key) : Bool :=
  match pt.head?, pt.getLast? with
  | some a, some b => decide (a ≤ .key k) && decide (.key k < b)
  | _, _ => false

/-- `ComputeContainsAllKeys`, BoundedPivotsLib.i.dfy:68-77 -/
def containsAllB (pt : List Elem) : Bool :=
  decide (pt.head? = some (.key [])) && decide (pt.getLast? = some .top)

/-- `ComputeParentKeysInChildRange`, lib/Buckets/TranslationImpl.i.dfy:1000-1019, with
`ComputeContainsRange`, BoundedPivotsLib.i.dfy:97-107 -/
def inRangeB (parent child : Node) (slot : Nat) : Bool :=
  match parent.childRange slot, child.pivots.head?, child.pivots.getLast? with
  | some (l, r), some a, some b => decide (a ≤ l) && decide (r ≤ b)
  | _, _, _ => false

/-- `ComputeTranslateBucketsWillFit`, TranslationImpl.i.dfy:424-443, for a slot with an edge -/
def fits (parent child : Node) (slot : Nat) : Bool :=
  match parent.edges[slot]? with
  | some (some e) => child.buckets.all (fun b =>
      decide ((lcpAt parent.pivots slot).length ≤ e.length) ||
        decide (bucketWeight b + 1024 * b.length < 2 ^ 32))
  | _ => true

/-- `SeqNoKeyWithPrefix` as called in `CloneNewRoot`, Impl/NodeImpl.i.dfy:565-575 -/
def noKeyB (n : Node) (src : Key) : Bool :=
  let start := route n.pivots src
  let stop := match prefixEnd src with
    | .top => n.buckets.length
    | .key e => route n.pivots e + 1
  ((n.buckets.take stop).drop start).all (fun b => b.all (fun x => !src.isPrefixOf x.1))

/-! ### The flush of a bucket -/

/-- `mergeToOneChild`, BucketFlushModel.i.dfy:79-147: the new bucket of the child, what is left of the
upper bucket (nothing if `MergeCompleted`), and the slack that is left. -/
def mergeOne : Bucket → Bucket → Nat → Bucket × Bucket × Nat
  | [], b, slack => (b, [], slack)
  | (k, m) :: t, [], slack =>
    if slack < 4 + k.length + messageWeight m then ([], (k, m) :: t, slack)
    else
      let r := mergeOne t [] (slack - (4 + k.length + messageWeight m))
      ((k, m) :: r.1, r.2)
  | (k, m) :: t, (k', m') :: b, slack =>
    if k = k' then
      if m.merge m' = .update then mergeOne t b (slack + (4 + k.length) + messageWeight m')
      else if slack + messageWeight m' < messageWeight (m.merge m') then
        ((k', m') :: b, (k, m) :: t, slack)
      else
        let r := mergeOne t b (slack + messageWeight m' - messageWeight (m.merge m'))
        ((k, m.merge m') :: r.1, r.2)
    else if Elem.key k < .key k' then
      if slack < 4 + k.length + messageWeight m then ((k', m') :: b, (k, m) :: t, slack)
      else
        let r := mergeOne t ((k', m') :: b) (slack - (4 + k.length + messageWeight m))
        ((k, m) :: r.1, r.2)
    else
      let r := mergeOne ((k, m) :: t) b slack
      ((k', m') :: r.1, r.2)
termination_by t b => t.length + b.length

/-- `mergeToChildrenIter`, BucketFlushModel.i.dfy:946-990. The code finds the indices of all pivots in the
upper bucket first (`pivotIndexes`, :924-936); here the part for the next child is cut off as it is needed.
The result: the new buckets of the children and what is left of the upper bucket. -/
def mergeIter : Bucket → List Elem → List Bucket → Nat → List Bucket × Bucket
  | top, _ :: hi :: ps, b :: bs, slack =>
    let r := mergeOne (top.takeWhile (fun x => decide (Elem.key x.1 < hi))) b slack
    let rest := top.dropWhile (fun x => decide (Elem.key x.1 < hi))
    if r.2.1 = [] then
      let q := mergeIter rest (hi :: ps) bs r.2.2
      (r.1 :: q.1, q.2)
    else (r.1 :: bs, r.2.1 ++ rest)
  | _, _, bs, _ => (bs, [])

/-- `partialFlush` (BucketFlushModel.i.dfy:1546-1559) over `mergeToChildren` (:992-1005) -/
def partialFlush (top : Bucket) (pt : List Elem) (bots : List Bucket) : List Bucket × Bucket :=
  mergeIter (top.dropWhile (fun x => decide (Elem.key x.1 < pt.headD .top))) pt bots
    (maxWeight - weight bots)

/-! ### Changes of the tree -/

/-- A transaction of the tree that the user does not see (`IOModel.betree_next`). -/
def internal (reads : List (Ref × Node)) (ops : List (GOp Node)) (s : S) : Out Node :=
  ⟨.none, .advance .noop true, .transaction reads ops, s⟩

/-- `doGrow`, GrowImpl.i.dfy:31-93 -/
def grow (s : S) : Out Node :=
  match s.cache.get rootRef with
  | some old =>
    if s.frozenEmpty rootRef then s.noop
    else if containsAllB old.pivots then
      match s.freeRef none with
      | some c => internal [(rootRef, old)] [.alloc c old, .write rootRef (grownRoot c)]
          ((s.write kids c old).write kids rootRef (grownRoot c))
      | none => s.noop
    else s.noop
  | none => s.noop

/-- `doFlush`, FlushImpl.i.dfy:36-133 -/
def flush (s : S) (p : Ref) (slot : Nat) : Out Node :=
  match s.cache.get p with
  | some parent => match (kids parent)[slot]? with
    | some c => match s.cache.get c with
      | some child =>
        if s.frozenEmpty p then s.noop
        else if inRangeB parent child slot && fits parent child slot then
          let cut := restrictChild parent child slot
          if weight cut.buckets ≤ maxWeight then
            let f := partialFlush (parent.buckets[slot]?.getD []) cut.pivots cut.buckets
            let newchild := { cut with buckets := f.1 }
            match s.freeRef none with
            | some c' =>
              let newparent : Node := ⟨parent.pivots, parent.edges.set slot none,
                parent.children.map (·.set slot c'), parent.buckets.set slot f.2⟩
              internal [(p, parent), (c, child)] [.alloc c' newchild, .write p newparent]
                ((s.write kids c' newchild).write kids p newparent)
            | none => s.noop
          else s.noop
        else s.noop
      | none => s.noop
    | none => s.noop
  | none => s.noop

/-- `doSplit` (SplitImpl.i.dfy:183-281) with `splitDoChanges` (:126-181) -/
def split (s : S) (p : Ref) (slot : Nat) : Out Node :=
  match s.cache.get p with
  | some parent => match (kids parent)[slot]? with
    | some c => match s.cache.get c with
      | some child =>
        if s.frozenEmpty p then s.noop
        else if inRangeB parent child slot && fits parent child slot then
          let cut := restrictChild parent child slot
          if cut.pivots.length = 2 then s.noop
          else match s.freeRef none with
            | some l => match s.freeRef (some l) with
              | some r =>
                let num := cut.buckets.length / 2
                match cut.pivots[num]?, parent.pivots[slot]?, parent.pivots[slot + 1]? with
                | some (.key pivot), some lo, some hi =>
                  if lo < .key pivot ∧ .key pivot < hi ∧ weight (cut.buckets.take num) ≤ maxWeight ∧
                      weight (cut.buckets.drop num) ≤ maxWeight then
                    let ln := cut.splitLeft num
                    let rn := cut.splitRight num
                    let pn := parent.splitParent pivot slot l r
                    internal [(p, parent), (c, child)] [.alloc l ln, .alloc r rn, .write p pn]
                      (((s.write kids l ln).write kids r rn).write kids p pn)
                  else s.noop
                | _, _, _ => s.noop
              | none => s.noop
            | none => s.noop
        else s.noop
      | none => s.noop
    | none => s.noop
  | none => s.noop

/-- `getMiddleKey`, lib/Buckets/BucketsLib.i.dfy:717-729 -/
def middleKey (b : Bucket) : Key :=
  match b[b.length / 2]? with
  | some x => if x.1 = [] then [0] else x.1
  | none => [0]

/-- `repivotLeafInternal`, LeafImpl.i.dfy:35-88. The caller has seen to it that the node is a leaf with one
bucket. -/
def repivot (s : S) (ref : Ref) : Out Node :=
  match s.cache.get ref with
  | some leaf =>
    if s.frozenEmpty ref then s.noop
    else match leaf.edges[0]? with
      | some none =>
        let n := leaf.repivot (middleKey (leaf.buckets[0]?.getD []))
        internal [(ref, leaf)] [.write ref n] (s.write kids ref n)
      | _ => s.noop
  | none => s.noop

/-! ### The flush policy -/

/-- `Action`, Impl/FlushPolicyModel.i.dfy:31-38 -/
inductive Action
  | pageIn (ref : Ref)
  | split (p : Ref) (slot : Nat)
  | repivot (ref : Ref)
  | flush (p : Ref) (slot : Nat)
  | grow
  | evict
  | fail

/-- `NodeBiggestSlot` (CacheImpl.i.dfy:567-595), the loop: index of the next bucket, best index and its weight. -/
def biggestFrom : Nat → Nat → Nat → List Bucket → Nat
  | _, best, _, [] => best
  | j, best, w, b :: bs =>
    if w < bucketWeight b then biggestFrom (j + 1) j (bucketWeight b) bs
    else biggestFrom (j + 1) best w bs

/-- `NodeBiggestSlot`, CacheImpl.i.dfy:567-595 -/
def biggestSlot : List Bucket → Nat
  | [] => 0
  | b :: bs => biggestFrom 1 0 (bucketWeight b) bs

/-- `getActionToSplit`, FlushPolicyImpl.i.dfy:67-102. The stack and the slots are given from the current
node up: the node, then its parent with the slot it is in, and so on. -/
def toSplit (s : S) : Ref → List (Ref × Nat) → Action
  | _, [] => if s.size ≤ maxCacheSize - 1 then .grow else .evict
  | cur, (p, slot) :: rest => match s.cache.get p, s.cache.get cur with
    | some pn, some n =>
      if (kids pn).length < maxChildren then
        if n.buckets.length = 1 then .repivot cur
        else if s.size ≤ maxCacheSize - 2 then .split p slot else .evict
      else toSplit s p rest
    | _, _ => .fail

/-- `FlushTriggerWeight`, PivotBetree/Bounds.i.dfy:61 -/
def flushTrigger : Nat := maxWeight / 8

/-- `getActionToFlush`, FlushPolicyImpl.i.dfy:104-161; the first argument is how many nodes the stack can
still take. -/
def toFlush : Nat → S → Ref → List (Ref × Nat) → S × Action
  | 0, s, _, _ => (s, .fail)
  | fuel + 1, s, cur, path => match s.cache.get cur with
    | some n => match n.children with
      | none => (s, toSplit s cur path)
      | some cs =>
        if n.buckets.length = maxChildren then (s, toSplit s cur path)
        else
          let slot := biggestSlot n.buckets
          match cs[slot]? with
          | some c => match s.cache.get c with
            | some child =>
              let s1 : S := { s with lru := lruUse s.lru c }
              if weight child.buckets + flushTrigger ≤ maxWeight then
                (s1, if s1.size ≤ maxCacheSize - 1 then .flush cur slot else .evict)
              else toFlush fuel s1 c ((cur, slot) :: path)
            | none => (s, if s.size ≤ maxCacheSize - 1 then .pageIn c else .evict)
          | none => (s, .fail)
    | none => (s, .fail)

/-- `runFlushPolicy`, FlushPolicyImpl.i.dfy:163-218 -/
def runFlushPolicy (s : S) (io : Env Node) : Out Node :=
  let a := toFlush 39 { s with lru := lruUse s.lru rootRef } rootRef []
  match a.2 with
  | .pageIn ref => a.1.pageInReq io ref
  | .split p slot => split a.1 p slot
  | .repivot ref => repivot a.1 ref
  | .flush p slot => flush a.1 p slot
  | .grow => grow a.1
  | .evict => a.1.evictOrDealloc io
  | .fail => a.1.noop

/-! ### Operations of the user -/

/-- `insert` (InsertImpl.i.dfy:78-142) with `insertKeyValue` (:46-74) -/
def insert (s : S) (io : Env Node) (k : Key) (v : Value) (replay : Bool) : Out Node :=
  if s.eph.t.length ≤ maxTable - 3 then
    match s.cache.get rootRef with
    | none => if s.size ≤ maxCacheSize - 1 then s.pageInReq io rootRef else s.noop
    | some old =>
      if boundedB old.pivots k then
        if (4 + k.length) + messageWeight (.define v) + weight old.buckets ≤ maxWeight then
          if s.frozenEmpty rootRef then s.noop
          else ⟨.none, .advance (.put k v) replay,
            .transaction [(rootRef, old)] [.write rootRef (old.add k (.define v))],
            s.writeSame rootRef (old.add k (.define v))⟩
        else runFlushPolicy s io
      else s.noop
  else s.noop

/-- `clone` (CloneImpl.i.dfy:71-111) with `doClone` (:27-69) and the checks of `CloneNewRoot`
(NodeImpl.i.dfy:550-645) -/
def clone (s : S) (io : Env Node) (src dst : Key) (replay : Bool) : Out Node :=
  if s.eph.t.length ≤ maxTable - 3 then
    match s.cache.get rootRef with
    | none => if s.size ≤ maxCacheSize - 1 then s.pageInReq io rootRef else s.noop
    | some old =>
      if s.frozenEmpty rootRef then s.noop
      else if decide (dst ≠ []) && old.children.isSome && containsAllB old.pivots && noKeyB old src &&
          decide ((kids (old.cloneRoot src dst)).length ≤ maxChildren) then
        ⟨.none, .advance (.clone src dst) replay,
          .transaction [(rootRef, old)] [.write rootRef (old.cloneRoot src dst)],
          s.write kids rootRef (old.cloneRoot src dst)⟩
      else s.noop
  else s.noop

/-- `queryIterate`, QueryImpl.i.dfy:46-137; the layers seen so far are kept for the step (the code's ghost
`lookup`). -/
def queryFrom (io : Env Node) (q : Key) : Nat → S → Key → Message → Ref → List Layer → Out Node
  | 0, s, _, _, _, _ => s.noop
  | fuel + 1, s, key, msg, ref, l => match s.cache.get ref with
    | none => s.pageInOrMakeRoom io ref
    | some n =>
      if boundedB n.pivots key then
        let s1 : S := { s with lru := lruUse s.lru ref }
        let m := msg.merge ((n.bucketAt key).get key)
        let l1 := l ++ [⟨ref, n, key⟩]
        match m with
        | .define v => ⟨.none, .advance (.get q v) false, .transaction (lookupReads l1) [], s1⟩
        | .update => match n.children with
          | some cs => match cs[route n.pivots key]? with
            | some c => queryFrom io q fuel s1 (translateKey n.pivots n.edges key) m c l1
            | none => s1.noop
          | none => ⟨.none, .advance (.get q []) false, .transaction (lookupReads l1) [], s1⟩
      else s.noop

/-- `query`, QueryImpl.i.dfy:139-165 -/
def query (s : S) (io : Env Node) (k : Key) : Out Node := queryFrom io k 40 s k .update rootRef []

/-- `IterStart`, `IterFindFirstGte` and `IterFindFirstGt` (Impl/BucketIteratorModel.i.dfy:173-208): the
entries of a bucket from a key on; the start says which of the three. -/
def iterFrom (b : Bucket) (k : Key) : RangeStart → Bucket
  | .incl _ => b.dropWhile (fun x => decide (Elem.key x.1 < .key k))
  | .excl _ => b.dropWhile (fun x => decide (Elem.key x.1 ≤ .key k))
  | .negInf => b

/-- `GenFromBucketWithLowerBound` (Impl/BucketGeneratorModel.i.dfy:167-179). A generator is given
by the list of what it will yield. -/
def genBasic (b : Bucket) (pset : Option PrefixSet) (start : RangeStart) : Bucket :=
  let rest := iterFrom b (applyPrefix (revPrefix pset) (startKey start)) start
  match pset with
  | none => rest
  | some p => Bucket.translate rest p.pre p.new

/-- `GenCompose` and `MergeGenPop`, BucketGeneratorModel.i.dfy:82-115, 133-165 -/
def genMerge : Bucket → Bucket → Bucket
  | [], b => b
  | t, [] => t
  | (k, m) :: t, (k', m') :: b =>
    if k = k' then (k, m.merge m') :: genMerge t b
    else if Elem.key k < .key k' then (k, m) :: genMerge t ((k', m') :: b)
    else (k', m') :: genMerge ((k, m) :: t) b
termination_by t b => t.length + b.length

/-- The generator with one more layer (SuccImpl.i.dfy, `getPathInternal`; the first layer has none yet). -/
def genNext (g : Option Bucket) (b : Bucket) : Bucket := match g with
  | some g => genMerge g b
  | none => b

/-- The end of the range, when the loop has come to the upper bound
(BucketSuccessorLoopModel.i.dfy:22-51). -/
def endOf : Elem → RangeEnd
  | .key u => .excl u
  | .top => .posInf

/-- `ProcessGenerator`, Impl/BucketSuccessorLoopModel.i.dfy:22-51 -/
def process (max : Nat) (upTo : Elem) : List (Key × Value) → Bucket → List (Key × Value) × RangeEnd
  | rs, [] => (rs, endOf upTo)
  | rs, (k, m) :: g =>
    if Elem.key k < upTo then
      match m.merge (.define []) with
      | .define v =>
        if v ≠ [] then
          if (rs ++ [(k, v)]).length < max then process max upTo (rs ++ [(k, v)]) g
          else (rs ++ [(k, v)], .incl k)
        else process max upTo rs g
      | .update => process max upTo rs g
    else (rs, endOf upTo)

/-- `getPath` and `getPathInternal`, SuccImpl.i.dfy:102-302 -/
def succFrom (io : Env Node) (start : RangeStart) (max : Nat) :
    Nat → S → Key → Option PrefixSet → Elem → Option Bucket → Ref → List Layer → Out Node
  | fuel, s, key, pset, upTo, g, ref, l => match s.cache.get ref with
    | none => if s.size ≤ maxCacheSize - 1 then s.pageInReq io ref else s.noop
    | some n =>
      if boundedB n.pivots key then
        let x : Layer := ⟨ref, n, key⟩
        let upTo1 := min upTo (upperAt x pset)
        let g1 := genNext g (genBasic (n.bucketAt key) pset start)
        let o : Out Node := match n.children with
          | some cs => match fuel, cs[route n.pivots key]? with
            | fuel + 1, some c => succFrom io start max fuel s (translateKey n.pivots n.edges key)
                (composePrefix pset (translate n.pivots n.edges key)) upTo1 (some g1) c (l ++ [x])
            | _, _ => s.noop
          | none =>
            let r := process max upTo1 [] g1
            ⟨.none, .advance (.succ start r.1 r.2) false, .transaction (lookupReads (l ++ [x])) [], s⟩
        { o with next := { o.next with lru := lruUse o.next.lru ref } }
      else s.noop

/-- `doSucc`, SuccImpl.i.dfy:304-329 -/
def succ (s : S) (io : Env Node) (start : RangeStart) (max : Nat) : Out Node :=
  succFrom io start max 40 s (startKey start) none .top none rootRef []

end Verif.Kv.TreeImpl
