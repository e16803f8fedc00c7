import Verif.Kv.Psa
import Verif.Kv.Btree
/-
`MutBucket` (lib/Buckets/BucketImpl.i.dfy): a bucket that is either a B-tree or a packed sequence of keys and
messages, with its weight and a mark that it is sorted; and the conversions between the two
(lib/Buckets/LKMBPKVOps.i.dfy). `none` is an access outside an array or a weight below zero.
Simplifications: linear memory is left out; weights are natural numbers.
-/
namespace Verif.Kv.MutBucket
open SectorBytes
open Betree (Message)

/-- Keys as the B-tree orders them, `Ord` of lib/DataStructures/KMBtree.i.dfy -/
abbrev OKey := Key

instance : LE OKey := ⟨fun a b => Elem.key a ≤ Elem.key b⟩
instance : LT OKey := ⟨fun a b => Elem.key a < Elem.key b⟩

/-- The order of keys is that of the elements. -/
instance : LinearOrder OKey where
  le_refl a := le_refl (Elem.key a)
  le_trans a b c h h' := le_trans (a := Elem.key a) h h'
  le_antisymm a b h h' := Elem.key.inj (le_antisymm (a := Elem.key a) h h')
  le_total a b := le_total (Elem.key a) (Elem.key b)
  lt_iff_le_not_ge a b := lt_iff_le_not_ge (a := Elem.key a) (b := Elem.key b)
  toDecidableLE := fun a b => inferInstanceAs (Decidable (Elem.key a ≤ Elem.key b))
  toDecidableEq := inferInstanceAs (DecidableEq (List UInt8))
  toDecidableLT := fun a b => inferInstanceAs (Decidable (Elem.key a < Elem.key b))
  toOrd := ⟨fun a b => if Elem.key a < Elem.key b then .lt else if a = b then .eq else .gt⟩
  compare_eq_compareOfLessAndEq _ _ := rfl

/-- `TreeMap`, BucketImpl.i.dfy:43 -/
abbrev Tree := Btree.Node OKey Message

/-- `MaxKeysPerLeaf` and `MaxChildren`, lib/DataStructures/KMBtree.i.dfy:16-17 -/
def limits : Btree.Limits := ⟨64, 64, by decide, by decide⟩

/-- `WeightKeyUint64`, lib/Buckets/BucketWeights.i.dfy -/
def keyWeight (k : OKey) : Nat := 4 + List.length (α := UInt8) k

/-! ### Conversions -/

mutual
/-- `FillDpkv` and `LeafFillDpkv`, LKMBPKVOps.i.dfy:98-138, 351-369 -/
def fillDyn (d : Dyn × Dyn) : Tree → Option (Dyn × Dyn)
  | .leaf keys values => do
    let k ← d.1.appendSeq keys
    let m ← d.2.appendSeq (values.map messageBytes)
    return (k, m)
  | .index _ children => fillDyns d children
/-- The loop of `IndexFillDpkv`, LKMBPKVOps.i.dfy:269-330 -/
def fillDyns (d : Dyn × Dyn) : List Tree → Option (Dyn × Dyn)
  | [] => some d
  | c :: cs => do
    let d ← fillDyn d c
    fillDyns d cs
end

/-- The capacity that `ToPkv` asks for, LKMBPKVOps.i.dfy:481-482 -/
def capacity (n : Nat) : Nat := if n * 1024 ≤ 0xffffffff then n * 1024 else 0xffffffff

/-- `ToPkv`, LKMBPKVOps.i.dfy:469-488, called by `tree_to_pkv`, BucketImpl.i.dfy:56-66 -/
def treeToPkv (t : Tree) : Option Pkv := do
  let n := Btree.count t
  let d ← fillDyn (Dyn.preSized n (capacity n), Dyn.preSized n (capacity n)) t
  let k ← d.1.toPsa
  let m ← d.2.toPsa
  return ⟨k, m⟩

/-- What the loop of `FromPkv` reads, LKMBPKVOps.i.dfy:542-543: from entry `i` on, `left` entries -/
def entriesFrom (p : Pkv) : Nat → Nat → Option (List (OKey × Message))
  | _, 0 => some []
  | i, left + 1 => do
    let k ← p.keys.element i
    let m ← p.messages.element i
    let rest ← entriesFrom p (i + 1) left
    return (k, .define m) :: rest

/-- `FromPkv`, LKMBPKVOps.i.dfy:491-589, called by `pkv_to_tree`, BucketImpl.i.dfy:45-54; here all entries are
read before the first is inserted -/
def pkvToTree (p : Pkv) : Option (Tree × Nat) := do
  let l ← entriesFrom p 0 p.keys.offsets.length
  Btree.fromSeq limits keyWeight messageWeight l

/-! ### Buckets -/

/-- `BucketFormat`, BucketImpl.i.dfy:68-70 -/
inductive Format where
  | tree (t : Tree)
  | pkv (p : Pkv)

/-- `MutBucket`, BucketImpl.i.dfy:84, without its ghost part -/
structure MB where
  format : Format
  weight : Nat
  sorted : Bool

/-- `Alloc`, BucketImpl.i.dfy:104-112 -/
def alloc : MB := ⟨.tree Btree.emptyTree, 0, true⟩

/-- `AllocPkv`, BucketImpl.i.dfy:114-123 -/
def allocPkv (p : Pkv) (isSorted : Bool) : MB := ⟨.pkv p, p.weight, isSorted⟩

/-- `GetPkvSorted`, BucketImpl.i.dfy:198-228 -/
def MB.getPkvSorted (b : MB) (mustBeSorted : Bool) : Option Pkv :=
  match b.format with
  | .tree t => treeToPkv t
  | .pkv p =>
    if !mustBeSorted || b.sorted then some p
    else do
      let (t, _) ← pkvToTree p
      treeToPkv t

/-- `WellMarshalled`, BucketImpl.i.dfy:238-252 -/
def MB.wellMarshalled (b : MB) : Option Bool :=
  match b.format with
  | .tree _ => some true
  | .pkv p => if b.sorted then some true else p.isSorted

/-- `Empty`, BucketImpl.i.dfy:254-265 -/
def MB.isEmpty (b : MB) : Bool :=
  match b.format with
  | .tree t => Btree.isEmpty t
  | .pkv p => decide (p.keys.offsets.length = 0)

/-- `GetFirstKey`, BucketImpl.i.dfy:364-382, with `FirstKey`, PackedKV.i.dfy:198-204 -/
def MB.firstKey (b : MB) : Option Key :=
  match b.format with
  | .tree t => Btree.minKey t
  | .pkv p => p.keys.element 0

/-- `GetLastKey`, BucketImpl.i.dfy:409-427, with `LastKey`, PackedKV.i.dfy:206-212 -/
def MB.lastKey (b : MB) : Option Key :=
  match b.format with
  | .tree t => Btree.maxKey t
  | .pkv p => p.keys.element (p.keys.offsets.length - 1)

/-- `GetMiddleKey`, BucketImpl.i.dfy:384-407 -/
def MB.middleKey (b : MB) : Option Key := do
  let p ← b.getPkvSorted false
  if p.keys.offsets.length = 0 then return [0]
  else
    let k ← p.keys.element (p.keys.offsets.length / 2)
    if k.length = 0 then return [0] else return k

/-- The first part of `Insert`, BucketImpl.i.dfy:474-483: the bucket becomes a tree -/
def MB.asTree (b : MB) : Option (Tree × Nat) :=
  match b.format with
  | .tree t => some (t, b.weight)
  | .pkv p => pkvToTree p

/-- `Insert`, BucketImpl.i.dfy:429-529 -/
def MB.insert (b : MB) (key : Key) (value : Message) : Option MB := do
  let (t, w) ← b.asTree
  match value with
  | .update => return ⟨.tree t, w, b.sorted⟩
  | .define v => do
    let (t, cur) ← Btree.insert limits t key (.define v)
    match cur with
    | some old =>
      if messageWeight old ≤ w then
        return ⟨.tree t, w - messageWeight old + messageWeight (.define v), b.sorted⟩
      else none
    | none => return ⟨.tree t, w + keyWeight key + messageWeight (.define v), b.sorted⟩

/-- `Query`, BucketImpl.i.dfy:531-541 -/
def MB.query (b : MB) (key : Key) : Option (Option Message) :=
  match b.format with
  | .tree t => Btree.query t key
  | .pkv p => p.query key

/-- `SplitLeft`, BucketImpl.i.dfy:543-559 -/
def MB.splitLeft (b : MB) (pivot : Key) : Option MB := do
  let p ← b.getPkvSorted false
  let q ← p.splitLeft pivot
  return allocPkv q b.sorted

/-- `SplitRight`, BucketImpl.i.dfy:561-577 -/
def MB.splitRight (b : MB) (pivot : Key) : Option MB := do
  let p ← b.getPkvSorted false
  let q ← p.splitRight pivot
  return allocPkv q b.sorted

/-- `Clone`, BucketImpl.i.dfy:699-714 -/
def MB.clone (b : MB) : Option MB :=
  match b.format with
  | .pkv p => some (allocPkv p b.sorted)
  | .tree t => do
    let p ← treeToPkv t
    return allocPkv p true

/-- The loop of `NoKeyWithPrefix` on a bucket not known to be sorted, BucketImpl.i.dfy:846-863 -/
def noPrefixFrom (p : Psa) (pre : Key) : Nat → Nat → Option Bool
  | _, 0 => some true
  | i, left + 1 => do
    let k ← p.element i
    if pre.isPrefixOf k then return false else noPrefixFrom p pre (i + 1) left

/-- `NoKeyWithPrefix`, BucketImpl.i.dfy:815-865 -/
def MB.noKeyWithPrefix (b : MB) (pre : Key) : Option Bool := do
  let p ← b.getPkvSorted false
  if b.sorted then
    let i ← p.keys.firstGte pre
    if i = p.keys.offsets.length then return true
    else
      let k ← p.keys.element i
      return !pre.isPrefixOf k
  else noPrefixFrom p.keys pre 0 p.keys.offsets.length

end Verif.Kv.MutBucket
