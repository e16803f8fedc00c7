import Verif.Kv.Marshal
import Verif.Kv.Pivot
import Verif.Kv.Crc
import Verif.Kv.BlockCache
/-
The bytes of a sector: `Marshalling` (ByteBlockCacheSystem/Marshalling.i.dfy) reads superblocks, indirection
tables and nodes; `MarshallingImpl` (Impl/MarshallingImpl.i.dfy) and `IndirectionTableToVal`
(Impl/IndirectionTable.i.dfy) write them; buckets are `PackedKV` (lib/Buckets/PackedKV.i.dfy).
Simplifications: the test in `parseSector` that there are fewer than 2^64 bytes is dropped; a sequence of
values is converted from its front, where the code goes from its back.
-/
namespace Verif.Kv.SectorBytes
open Marshal (G V)
open Pivot (Node Bucket lcpAt)
open Betree (Message)
open BlockCache (GraphClosed)
open JournalCache (WFSb)

/-! ### Bounds -/

/-- `KeyType.MaxLen` and `ValueType.MaxLen`, lib/Base/KeyType.s.dfy:9, 16 -/
def maxLen : Nat := 1024
/-- `MaxNumChildren`, PivotBetree/Bounds.i.dfy:58 -/
def maxChildren : Nat := 8
/-- `MaxTotalBucketWeight`, PivotBetree/Bounds.i.dfy:55 -/
def maxWeight : Nat := 2 * 1024 * 1024 - 65536
/-- `IndirectionTableMaxSize`, PivotBetree/Bounds.i.dfy:65 -/
def maxTable : Nat := 2 ^ 32

/-! ### Grammars -/

/-- `grammar`, lib/Buckets/PackedStringArrayMarshalling.i.dfy:14-21 -/
def psaG : G := .tuple [.u32s, .bytes]
/-- `BucketGrammar` (Marshalling.i.dfy:45-49) is `grammar`, lib/Buckets/PackedKVMarshalling.i.dfy:23-30 -/
def bucketG : G := .tuple [psaG, psaG]
/-- `EdgeGrammar`, Marshalling.i.dfy:57-61 -/
def edgeG : G := .union [.const, .bytes]
/-- `PivotNodeGrammar`, Marshalling.i.dfy:70-79, with `PivotTableGrammar` (:51-55) and `EdgeTableGrammar`
(:63-68) -/
def nodeG : G := .tuple [.array .bytes, .array edgeG, .u64s, .array bucketG]
/-- `IndirectionTableRowGrammar`, Marshalling.i.dfy:81-84 -/
def rowG : G := .tuple [.u64, .u64, .u64, .u64s]
/-- `IndirectionTableGrammar`, Marshalling.i.dfy:86-91 -/
def tableG : G := .array rowG
/-- `SuperblockGrammar`, Marshalling.i.dfy:93-102 -/
def superblockG : G := .tuple [.u64, .u64, .u64, .u64, .u64]
/-- `SectorGrammar`, Marshalling.i.dfy:104-111 -/
def sectorG : G := .union [superblockG, tableG, nodeG]

/-- A function on every element of a sequence, nothing if it fails on one. `keyValSeqToPivots`,
`valSeqToEdgeTable` and `valToBuckets` (Marshalling.i.dfy:167-186, 229-241, 261-278) are of this form. -/
def mapAll {α : Type} (f : V → Option α) : List V → Option (List α)
  | [] => some []
  | v :: vs =>
    match f v, mapAll f vs with
    | some x, some xs => some (x :: xs)
    | _, _ => none

/-! ### Buckets -/

/-- `Psa`, lib/Buckets/PackedStringArray.i.dfy:24: strings one after the other, and where each ends -/
structure Psa where
  offsets : List Nat
  data : List UInt8

/-- `WF`, PackedStringArray.i.dfy:26-33 -/
structure Psa.WF (p : Psa) : Prop where
  offsets : p.offsets.length < 2 ^ 32
  data : p.data.length < 2 ^ 32
  none : p.offsets = [] → p.data = []
  last : ∀ o, p.offsets.getLast? = some o → p.data.length = o
  sorted : p.offsets.Pairwise (· ≤ ·)

/-- `psaSeq` over `psaElement`, PackedStringArray.i.dfy:49-97: the strings, when the one before ended at
`start` -/
def stringsFrom (data : List UInt8) : Nat → List Nat → List (List UInt8)
  | _, [] => []
  | start, o :: os => (data.drop start).take (o - start) :: stringsFrom data o os

/-- `I`, PackedStringArray.i.dfy:99-103 -/
def Psa.strings (p : Psa) : List (List UInt8) := stringsFrom p.data 0 p.offsets

/-- Where each string ends, when the one before ended at `start`. -/
def offsetsFrom : Nat → List (List UInt8) → List Nat
  | _, [] => []
  | start, s :: ss => (start + s.length) :: offsetsFrom (start + s.length) ss

/-- `psaFromSeq`, PackedStringArray.i.dfy:428-434, with `psaAppend` (:329-337) for every string -/
def psaOf (ss : List (List UInt8)) : Psa := ⟨offsetsFrom 0 ss, ss.flatten⟩

/-- `Pkv`, lib/Buckets/PackedKV.i.dfy:27-29 -/
structure Pkv where
  keys : Psa
  messages : Psa

/-- `WF`, PackedKV.i.dfy:82-89. No message is the identity, since a string always is a definition. -/
structure Pkv.WF (p : Pkv) : Prop where
  keys : p.keys.WF
  messages : p.messages.WF
  count : p.keys.offsets.length = p.messages.offsets.length
  keyLens : ∀ s ∈ p.keys.strings, s.length ≤ maxLen
  messageLens : ∀ s ∈ p.messages.strings, s.length ≤ maxLen

/-- `I`, PackedKV.i.dfy:107-113, over `bytestring_to_Message` (lib/Base/Message.i.dfy:105-117) -/
def Pkv.bucket (p : Pkv) : Bucket := p.keys.strings.zip (p.messages.strings.map .define)

/-- `WeightPkv`, PackedKV.i.dfy:191-196 -/
def Pkv.weight (p : Pkv) : Nat :=
  4 * p.keys.offsets.length + p.keys.data.length + 4 * p.messages.offsets.length + p.messages.data.length

/-- `Message_to_bytestring`, lib/Base/Message.i.dfy:128-132. An update, which the code does not convert and
no well-formed bucket holds, is nothing. -/
def messageBytes : Message → List UInt8
  | .define v => v
  | .update => []

/-- `GetPkv`, lib/Buckets/BucketImpl.i.dfy:200-237: the bucket as a `Pkv`. In the code a bucket in that form
is used as it is, and any other is written out key by key, which gives the same. -/
def pkvOf (b : Bucket) : Pkv := ⟨psaOf (b.map (·.1)), psaOf (b.map (fun x => messageBytes x.2))⟩

/-- `WeightMessage`, lib/Buckets/BucketWeights.i.dfy:41-48 -/
def messageWeight : Message → Nat
  | .define v => 4 + v.length
  | .update => 0

/-- `WeightBucket` (BucketWeights.i.dfy:80-84) over `WeightKey` (:35-39): the weight of a multiset is the sum
over its elements -/
def bucketWeight (b : Bucket) : Nat := (b.map (fun x => 4 + x.1.length + messageWeight x.2)).sum

/-- `WeightBucketList`, BucketWeights.i.dfy:86-92 -/
def weight (bs : List Bucket) : Nat := (bs.map bucketWeight).sum

open Classical in
/-- `fromVal`, PackedStringArrayMarshalling.i.dfy:23-36 -/
noncomputable def psaOfVal : V → Option Psa
  | .tuple [.u32s o, .bytes d] => if Psa.WF ⟨o, d⟩ then some ⟨o, d⟩ else none
  | _ => none

open Classical in
/-- `fromVal`, PackedKVMarshalling.i.dfy:32-46 -/
noncomputable def pkvOfVal : V → Option Pkv
  | .tuple [k, m] =>
    match psaOfVal k, psaOfVal m with
    | some k, some m => if Pkv.WF ⟨k, m⟩ then some ⟨k, m⟩ else none
    | _, _ => none
  | _ => none

/-- `valToBucket`, Marshalling.i.dfy:250-259 -/
noncomputable def bucketOfVal (v : V) : Option Bucket :=
  match pkvOfVal v with
  | some p => if p.weight < 2 ^ 32 then some p.bucket else none
  | none => none

/-- `toVal`, PackedStringArrayMarshalling.i.dfy:38-43 -/
def psaVal (p : Psa) : V := .tuple [.u32s p.offsets, .bytes p.data]

/-- `bucketToVal`, MarshallingImpl.i.dfy:558-578, with `toVal` (PackedKVMarshalling.i.dfy:48-53) -/
def bucketVal (b : Bucket) : V := .tuple [psaVal (pkvOf b).keys, psaVal (pkvOf b).messages]

/-! ### Nodes -/

/-- A string no longer than a key. -/
def keyOfVal : V → Option Key
  | .bytes b => if b.length ≤ maxLen then some b else none
  | _ => none

/-- `keyToPivot`, Marshalling.i.dfy:160-165: after the first place the empty string stands for the maximum -/
def keyToPivot (i : Nat) (k : Key) : Elem := if k = [] ∧ 1 ≤ i then .top else .key k

/-- `valToPivots`, Marshalling.i.dfy:203-214, with `keyValSeqToPivots` (:167-186) and
`valToStrictlySortedPivots` (:188-201) -/
def pivotsOfVal : V → Option (List Elem)
  | .array a =>
    match mapAll keyOfVal a with
    | some ks =>
      if 2 ≤ a.length ∧ (ks.mapIdx keyToPivot).Pairwise (· < ·) then some (ks.mapIdx keyToPivot) else none
    | none => none
  | _ => none

/-- `valToEdge`, Marshalling.i.dfy:216-227 -/
def edgeOfVal : V → Option (Option Key)
  | .case c v =>
    if c = 0 then some none
    else match v with
      | .bytes b => if c = 1 ∧ b.length ≤ 1024 then some (some b) else none
      | _ => none
  | _ => none

open Classical in
/-- `valToNode`, Marshalling.i.dfy:286-315 -/
noncomputable def nodeOfVal : V → Option Node
  | .tuple [p, .array e, .u64s c, .array b] =>
    match pivotsOfVal p, mapAll edgeOfVal e, mapAll bucketOfVal b with
    | some p, some e, some b =>
      if 2 ≤ p.length ∧ p.length ≤ maxChildren + 1 ∧ (c = [] ∨ c.length + 1 = p.length) ∧
          e.length = b.length ∧ b.length + 1 = p.length ∧ weight b ≤ maxWeight ∧
          (∀ i x, e[i]? = some (some x) → lcpAt p i ≠ []) then
        some ⟨p, e, if c = [] then none else some c, b⟩
      else none
    | _, _, _ => none
  | _ => none

/-- `pivotToKey`, MarshallingImpl.i.dfy:424-432 -/
def pivotKey : Elem → Key
  | .key k => k
  | .top => []

/-- `edgeTableToVal`, MarshallingImpl.i.dfy:516-556, one edge -/
def edgeVal : Option Key → V
  | none => .case 0 .const
  | some k => .case 1 (.bytes k)

/-- `nodeToVal`, MarshallingImpl.i.dfy:635-675, with `strictlySortedPivotsToVal` (:457-500),
`edgeTableToVal` (:516-556), `childrenToVal` (:412-422) and `bucketsToVal` (:580-622) -/
def nodeVal (n : Node) : V := .tuple [.array (n.pivots.map (fun p => .bytes (pivotKey p))),
  .array (n.edges.map edgeVal), .u64s (n.children.getD []), .array (n.buckets.map bucketVal)]

/-! ### Tables -/

/-- A row of the table: a reference, where its node is, and the references in it. -/
structure Row where
  ref : Ref
  loc : Loc
  succs : List Ref

/-- The row of a value, Marshalling.i.dfy:332-337 -/
def rowOfVal : V → Option Row
  | .tuple [.u64 ref, .u64 addr, .u64 len, .u64s succs] => some ⟨ref, ⟨addr, len⟩, succs⟩
  | _ => none

/-- One row added to the maps, Marshalling.i.dfy:338-342 -/
def addRow (t : Table) (r : Row) : Option Table :=
  if t.graph r.ref ≠ none ∨ ¬ ValidNodeLoc r.loc ∨ maxChildren < r.succs.length then none
  else some ⟨t.locs.insert r.ref r.loc, t.graph.insert r.ref r.succs⟩

/-- `valToIndirectionTableMaps`, Marshalling.i.dfy:317-347 -/
def tableMaps : Table → List V → Option Table
  | t, [] => some t
  | t, v :: vs =>
    match rowOfVal v with
    | some r =>
      match addRow t r with
      | some t' => tableMaps t' vs
      | none => none
    | none => none

open Classical in
/-- `valToIndirectionTable`, Marshalling.i.dfy:349-369 -/
noncomputable def tableOfVal : V → Option Table
  | .array a =>
    if a.length ≤ maxTable then
      match tableMaps ⟨.empty, .empty⟩ a with
      | some t => if t.graph rootRef ≠ none ∧ GraphClosed t.graph then some t else none
      | none => none
    else none
  | _ => none

/-- `IndirectionTableToVal`, Impl/IndirectionTable.i.dfy:1613-1753, one row -/
def rowVal (r : Row) : V := .tuple [.u64 r.ref, .u64 r.loc.addr, .u64 r.loc.len, .u64s r.succs]

/-- `IndirectionTableToVal`, Impl/IndirectionTable.i.dfy:1613-1753. The rows come in the order in which the
hash map of the table is iterated; that order is an argument here. -/
def tableVal (rows : List Row) : V := .array (rows.map rowVal)

/-! ### Sectors -/

/-- `valToSuperblock`, Marshalling.i.dfy:371-392 -/
def superblockOfVal : V → Option Superblock
  | .tuple [.u64 counter, .u64 start, .u64 len, .u64 addr, .u64 n] =>
    if WFSb ⟨counter, start, len, ⟨addr, n⟩⟩ then some ⟨counter, start, len, ⟨addr, n⟩⟩ else none
  | _ => none

/-- `superblockToVal`, MarshallingImpl.i.dfy:677-693 -/
def superblockVal (sb : Superblock) : V :=
  .tuple [.u64 sb.counter, .u64 sb.start, .u64 sb.len, .u64 sb.loc.addr, .u64 sb.loc.len]

/-- `valToSector`, Marshalling.i.dfy:394-415 -/
noncomputable def sectorOfVal : V → Option (Sector Node)
  | .case c v =>
    if c = 0 then (superblockOfVal v).map .superblock
    else if c = 1 then (tableOfVal v).map .table
    else (nodeOfVal v).map .node
  | _ => none

/-- `parseSector`, Marshalling.i.dfy:418-428 -/
noncomputable def parseSector (s : List UInt8) : Option (Sector Node) :=
  match Marshal.parse sectorG s with
  | some (v, _) => sectorOfVal v
  | none => none

/-- How VeriBetrKV reads bytes: `parseCheckedSector` (Marshalling.i.dfy:430-438) is `codec.sector`. -/
noncomputable def codec : Codec Node := ⟨Crc.padded, parseSector⟩

/-- `MarshallIntoFixedSize` and the checksum, MarshallingImpl.i.dfy:768-783, 836-851, 885-919: the value in
the `n` bytes after the checksum -/
def checked (v : V) (n : Nat) : List UInt8 :=
  let p := Marshal.marshal v ++ List.replicate (n - Marshal.size v) 0
  Crc.padded p ++ p

/-- `MarshallCheckedSector` of a superblock, MarshallingImpl.i.dfy:887-899 -/
def superblockBytes (sb : Superblock) : List UInt8 := checked (.case 0 (superblockVal sb)) 4064

/-- `MarshallCheckedSectorIndirectionTable`, MarshallingImpl.i.dfy:810-852: nothing if it does not fit -/
def tableBytes (rows : List Row) : Option (List UInt8) :=
  let v := V.case 1 (tableVal rows)
  if tableMaxLength < Marshal.size v + 32 then none else some (checked v (Marshal.size v))

open Classical in
/-- `MarshallCheckedSector` of a node, MarshallingImpl.i.dfy:902-924: nothing if a bucket is not sorted -/
noncomputable def nodeBytes (n : Node) : Option (List UInt8) :=
  let v := V.case 2 (nodeVal n)
  if ∀ b ∈ n.buckets, b.Sorted then some (checked v (Marshal.size v)) else none

end Verif.Kv.SectorBytes
