import Mathlib.Order.Defs.LinearOrder

/-!
The B-tree of VeriBetrKV (lib/DataStructures/MutableBtree.i.dfy, the type of nodes from BtreeModel.i.dfy),
in which the buckets of a node are kept while they are changed; and its conversion from and to sorted
sequences (lib/Buckets/LKMBPKVOps.i.dfy).  Keys are of any total order (in the code byte strings),
values of any type (messages).  Linear memory is left out: a tree is a value.  `none` is an access
outside an array, or a recursion that goes deeper than its fuel; C73 shows that there is none.
-/

namespace Verif.Btree

/-- `Node`, BtreeModel.i.dfy:35-37 -/
inductive Node (K V : Type) where
  | leaf (keys : List K) (values : List V)
  | index (pivots : List K) (children : List (Node K V))

variable {K V : Type} [LinearOrder K]

/-- `MaxKeysPerLeaf` and `MaxChildren`, MutableBtree.i.dfy:35-39; both are 64 in KMBtree.i.dfy:16-17. -/
structure Limits where
  keys : Nat
  children : Nat
  hkeys : 2 < keys
  hchildren : 3 < children

/-- The loop of `ComputeLargestLteShared`, lib/Base/total_order_impl.i.dfy:249-263, with fuel for its
rounds; the answer is `lo`. -/
def searchLoop (run : List K) (needle : K) : Nat → Nat → Nat → Option Nat
  | 0, lo, hi => if lo < hi then none else some lo
  | fuel + 1, lo, hi =>
    if lo < hi then
      let mid := (lo + hi) / 2
      match run[mid]? with
      | none => none
      | some x => if needle < x then searchLoop run needle fuel lo mid else searchLoop run needle fuel (mid + 1) hi
    else some lo

/-- `Route`, MutableBtree.i.dfy:69-77: one more than `ComputeLargestLteShared`,
lib/Base/total_order_impl.i.dfy:242-266; the length of the run is fuel enough. -/
def route (run : List K) (needle : K) : Option Nat := searchLoop run needle run.length 0 run.length

mutual
/-- `Height`, MutableBtree.i.dfy:268-277 -/
def Node.height : Node K V → Nat
  | .leaf _ _ => 0
  | .index _ cs => heights cs + 1
/-- The largest height of the children, `seqMax(IndexHeights(node))`, MutableBtree.i.dfy:260-266 -/
def heights : List (Node K V) → Nat
  | [] => 0
  | c :: cs => max c.height (heights cs)
end

/-- `QueryLeaf`, MutableBtree.i.dfy:79-93 -/
def queryLeaf (keys : List K) (values : List V) (needle : K) : Option (Option V) :=
  match route keys needle with
  | none => none
  | some 0 => some none
  | some (p + 1) =>
    match keys[p]? with
    | none => none
    | some k =>
      if k = needle then
        match values[p]? with
        | none => none
        | some v => some (some v)
      else some none

/-- `Query` and `QueryIndex`, MutableBtree.i.dfy:95-118, with fuel for the depth -/
def queryNode : Nat → Node K V → K → Option (Option V)
  | 0, _, _ => none
  | _ + 1, .leaf keys values, needle => queryLeaf keys values needle
  | fuel + 1, .index pivots children, needle =>
    match route pivots needle with
    | none => none
    | some p =>
      match children[p]? with
      | none => none
      | some c => queryNode fuel c needle

/-- `Query`, MutableBtree.i.dfy:109-118 -/
def query (t : Node K V) (needle : K) : Option (Option V) := queryNode (t.height + 1) t needle

/-- `Empty`, MutableBtree.i.dfy:120-132 -/
def isEmpty : Node K V → Bool
  | .leaf keys _ => keys.length == 0
  | .index _ _ => false

/-- `MinKeyInternal`, MutableBtree.i.dfy:134-151, with fuel for the depth -/
def minKeyNode : Nat → Node K V → Option K
  | 0, _ => none
  | _ + 1, .leaf keys _ => keys[0]?
  | fuel + 1, .index _ children =>
    match children[0]? with
    | none => none
    | some c => minKeyNode fuel c

/-- `MinKey`, MutableBtree.i.dfy:153-164 -/
def minKey (t : Node K V) : Option K := minKeyNode (t.height + 1) t

/-- `MaxKeyInternal`, MutableBtree.i.dfy:166-184, with fuel for the depth -/
def maxKeyNode : Nat → Node K V → Option K
  | 0, _ => none
  | _ + 1, .leaf keys _ => keys[keys.length - 1]?
  | fuel + 1, .index _ children =>
    match children[children.length - 1]? with
    | none => none
    | some c => maxKeyNode fuel c

/-- `MaxKey`, MutableBtree.i.dfy:186-197 -/
def maxKey (t : Node K V) : Option K := maxKeyNode (t.height + 1) t

/-- `EmptyTree`, MutableBtree.i.dfy:199-208 -/
def emptyTree : Node K V := .leaf [] []

/-- `Full`, MutableBtree.i.dfy:210-217 -/
def full (L : Limits) : Node K V → Bool
  | .leaf keys _ => keys.length == L.keys
  | .index _ children => children.length == L.children

/-- `AllocAndCopy` and `AllocAndMoveLseq`, lib/Lang/LinearSequence.i.dfy: the part of a sequence from `a`
to before `b` -/
def slice {A : Type} (s : List A) (a b : Nat) : Option (List A) :=
  if a ≤ b ∧ b ≤ s.length then some ((s.take b).drop a) else none

/-- `InsertSeq` and `InsertLSeq`, lib/Lang/LinearSequence.i.dfy -/
def insertAt {A : Type} (s : List A) (x : A) (i : Nat) : Option (List A) :=
  if i ≤ s.length then some (s.take i ++ x :: s.drop i) else none

/-- `seq_set`, or `lseq_take` followed by `lseq_give`, lib/Lang/LinearSequence.s.dfy -/
def setAt {A : Type} (s : List A) (i : Nat) (x : A) : Option (List A) :=
  if i < s.length then some (s.set i x) else none

/-- `SplitLeaf`, MutableBtree.i.dfy:222-257 -/
def splitLeaf (keys : List K) (values : List V) (nleft : Nat) : Option (Node K V × Node K V) := do
  let nright := keys.length - nleft
  let leftKeys ← slice keys 0 nleft
  let rightKeys ← slice keys nleft (nleft + nright)
  let leftValues ← slice values 0 nleft
  let rightValues ← slice values nleft (nleft + nright)
  return (.leaf leftKeys leftValues, .leaf rightKeys rightValues)

/-- `SplitIndex`, MutableBtree.i.dfy:295-342 -/
def splitIndex (pivots : List K) (children : List (Node K V)) (nleft : Nat) :
    Option (Node K V × Node K V × K) := do
  let nright := children.length - nleft
  let pivot ← pivots[nleft - 1]?
  let leftPivots ← slice pivots 0 (nleft - 1)
  let rightPivots ← slice pivots nleft (nleft + nright - 1)
  let leftChildren ← slice children 0 nleft
  let rightChildren ← slice children nleft (nleft + nright)
  return (.index leftPivots leftChildren, .index rightPivots rightChildren, pivot)

/-- `SplitNode`, MutableBtree.i.dfy:344-368 -/
def splitNode : Node K V → Option (Node K V × Node K V × K)
  | .leaf keys values => do
    let boundary := keys.length / 2
    let pivot ← keys[boundary]?
    let (left, right) ← splitLeaf keys values boundary
    return (left, right, pivot)
  | .index pivots children => splitIndex pivots children (children.length / 2)

/-- `SplitChildOfIndex`, MutableBtree.i.dfy:370-408 -/
def splitChildOfIndex (pivots : List K) (children : List (Node K V)) (childidx : Nat) :
    Option (List K × List (Node K V)) := do
  let origChild ← children[childidx]?
  let (left, right, pivot) ← splitNode origChild
  let pivots ← insertAt pivots pivot childidx
  let children ← setAt children childidx left
  let children ← insertAt children right (childidx + 1)
  return (pivots, children)

/-- `InsertLeaf`, MutableBtree.i.dfy:410-438: the leaf and the value replaced -/
def insertLeaf (keys : List K) (values : List V) (key : K) (value : V) : Option (Node K V × Option V) := do
  let pos1 ← route keys key
  if 0 < pos1 ∧ keys[pos1 - 1]? = some key then
    let old ← values[pos1 - 1]?
    let values ← setAt values (pos1 - 1) value
    return (.leaf keys values, some old)
  else
    let keys ← insertAt keys key pos1
    let values ← insertAt values value pos1
    return (.leaf keys values, none)

/-- The first part of `InsertIndex`, MutableBtree.i.dfy:465-488: the child to go down to, split before if
it is full -/
def prepare (L : Limits) (pivots : List K) (children : List (Node K V)) (key : K) :
    Option (List K × List (Node K V) × Nat) := do
  let childidx ← route pivots key
  let child ← children[childidx]?
  if full L child then
    let (pivots, children) ← splitChildOfIndex pivots children childidx
    let p ← pivots[childidx]?
    if p ≤ key then return (pivots, children, childidx + 1)
    else return (pivots, children, childidx)
  else return (pivots, children, childidx)

/-- `InsertNode` and `InsertIndex`, MutableBtree.i.dfy:452-531, with fuel for the depth -/
def insertNode (L : Limits) : Nat → Node K V → K → V → Option (Node K V × Option V)
  | 0, _, _, _ => none
  | _ + 1, .leaf keys values, key, value => insertLeaf keys values key value
  | fuel + 1, .index pivots children, key, value =>
    match prepare L pivots children key with
    | none => none
    | some (pivots, children, childidx) =>
      match children[childidx]? with
      | none => none
      | some childNode =>
        match insertNode L fuel childNode key value with
        | none => none
        | some (childNode, old) =>
          match setAt children childidx childNode with
          | none => none
          | some children => some (.index pivots children, old)

/-- `Grow`, MutableBtree.i.dfy:533-546 -/
def grow (root : Node K V) : Node K V := .index [] [root]

/-- `Insert`, MutableBtree.i.dfy:560-577 -/
def insert (L : Limits) (root : Node K V) (key : K) (value : V) : Option (Node K V × Option V) :=
  let newroot := if full L root then grow root else root
  insertNode L (newroot.height + 1) newroot key value

mutual
/-- `CountElements`, MutableBtree.i.dfy:617-652 -/
def count : Node K V → Nat
  | .leaf keys _ => keys.length
  | .index _ cs => countAll 0 cs
/-- The loop of `CountElements`, MutableBtree.i.dfy:633-649 -/
def countAll (n : Nat) : List (Node K V) → Nat
  | [] => n
  | c :: cs => countAll (n + count c) cs
end

mutual
/-- `FillDpkv` and `LeafFillDpkv`, LKMBPKVOps.i.dfy:102-153, 331-353: the keys and values are appended -/
def fill (acc : List K × List V) : Node K V → List K × List V
  | .leaf keys values => (acc.1 ++ keys, acc.2 ++ values)
  | .index _ cs => fillAll acc cs
/-- The loop of `IndexFillDpkv`, LKMBPKVOps.i.dfy:249-311 -/
def fillAll (acc : List K × List V) : List (Node K V) → List K × List V
  | [] => acc
  | c :: cs => fillAll (fill acc c) cs
end

/-- `ToPkv`, LKMBPKVOps.i.dfy:466-487, without the choice of the initial capacity: the sorted sequence -/
def toSeq (t : Node K V) : List K × List V := fill ([], []) t

/-- The loop of `FromPkv`, LKMBPKVOps.i.dfy:508-580: the tree and the weight; `wk` and `wm` are the weights
of keys and values (`WeightKeyUint64`, `WeightMessageUint64`) -/
def fromSeqLoop (L : Limits) (wk : K → Nat) (wm : V → Nat) :
    List (K × V) → Node K V → Nat → Option (Node K V × Nat)
  | [], t, w => some (t, w)
  | (k, v) :: rest, t, w =>
    match insert L t k v with
    | none => none
    | some (t, some old) => fromSeqLoop L wk wm rest t (w + wm v - wm old)
    | some (t, none) => fromSeqLoop L wk wm rest t (w + wm v + wk k)

/-- `FromPkv`, LKMBPKVOps.i.dfy:489-585 -/
def fromSeq (L : Limits) (wk : K → Nat) (wm : V → Nat) (l : List (K × V)) : Option (Node K V × Nat) :=
  fromSeqLoop L wk wm l emptyTree 0

end Verif.Btree
