import Verif.Kv.MutBucket
/-
The flush of packed buckets: `MergeToOneChild`, `MergeToChildren` and `PartialFlush` of
lib/Buckets/PackedKV.i.dfy (DynamicPkv), and `PartialFlush` of lib/Buckets/BucketImpl.i.dfy, which calls them.
`none` is an access outside an array or a number below zero.
Simplification: an array of results that is filled from the left is a list.
-/
namespace Verif.Kv.MutBucket
open SectorBytes
open Betree (Message)

/-- `DynamicPkv`, PackedKV.i.dfy:632-676: the keys and the messages -/
abbrev DPkv := Dyn × Dyn

/-- `toPkv`, PackedKV.i.dfy:664-669 -/
def dynPkv (d : DPkv) : Option Pkv := do
  let k ← d.1.toPsa
  let m ← d.2.toPsa
  return ⟨k, m⟩

/-- `Append` and `AppendEncodedMessage`, PackedKV.i.dfy:678-729 -/
def dynAppend (d : DPkv) (key : Key) (msg : Message) : Option DPkv := do
  let k ← d.1.append key
  let m ← d.2.append (messageBytes msg)
  return (k, m)

/-- `AppendPkv`, PackedKV.i.dfy:731-793: from entry `i` on, `left` entries -/
def appendPkv (p : Pkv) (d : DPkv) : Nat → Nat → Option DPkv
  | _, 0 => some d
  | i, left + 1 => do
    let k ← p.keys.element i
    let m ← p.messages.element i
    let d ← dynAppend d k (.define m)
    appendPkv p d (i + 1) left

/-- The ends of `MergeToOneChild`, PackedKV.i.dfy:937-938, 977-978, 1012-1013: the rest of the lower bucket
follows, and the result says where the upper bucket was left, if it was -/
def finish (bot : Pkv) (d : DPkv) (botFrom : Nat) (stop : Option Nat) (slack : Nat) :
    Option (Pkv × Option Nat × Nat) := do
  let d ← appendPkv bot d botFrom (bot.keys.offsets.length - botFrom)
  let p ← dynPkv d
  return (p, stop, slack)

/-- The loop of `MergeToOneChild`, PackedKV.i.dfy:901-1062, with fuel for the rounds -/
def mergeLoop (top bot : Pkv) (upto : Nat) : Nat → Nat → Nat → Nat → DPkv → Option (Pkv × Option Nat × Nat)
  | 0, _, _, _, _ => none
  | fuel + 1, start, botFrom, slack, d =>
    if start = upto then finish bot d botFrom none slack
    else do
      let topkey ← top.keys.element start
      let topbytes ← top.messages.element start
      if botFrom < bot.keys.offsets.length then do
        let botkey ← bot.keys.element botFrom
        let botbytes ← bot.messages.element botFrom
        if topkey = botkey then
          if (Message.define topbytes).merge (.define botbytes) = .update then
            mergeLoop top bot upto fuel (start + 1) (botFrom + 1)
              (slack + (4 + topkey.length) + messageWeight (.define botbytes)) d
          else if slack + messageWeight (.define botbytes) <
              messageWeight ((Message.define topbytes).merge (.define botbytes)) then
            finish bot d botFrom (some start) slack
          else do
            let d ← dynAppend d topkey ((Message.define topbytes).merge (.define botbytes))
            mergeLoop top bot upto fuel (start + 1) (botFrom + 1) (slack + messageWeight (.define botbytes) -
              messageWeight ((Message.define topbytes).merge (.define botbytes))) d
        else if Elem.key topkey < .key botkey then
          if slack < 4 + topkey.length + messageWeight (.define topbytes) then finish bot d botFrom (some start) slack
          else do
            let d ← dynAppend d topkey (.define topbytes)
            mergeLoop top bot upto fuel (start + 1) botFrom
              (slack - (4 + topkey.length + messageWeight (.define topbytes))) d
        else do
          let d ← dynAppend d botkey (.define botbytes)
          mergeLoop top bot upto fuel start (botFrom + 1) slack d
      else if slack < 4 + topkey.length + messageWeight (.define topbytes) then finish bot d botFrom (some start) slack
      else do
        let d ← dynAppend d topkey (.define topbytes)
        mergeLoop top bot upto fuel (start + 1) botFrom
          (slack - (4 + topkey.length + messageWeight (.define topbytes))) d

/-- `MergeToOneChild`, PackedKV.i.dfy:852-1065: the new lower bucket, the index at which the slack was
exhausted, if it was, and the slack left -/
def mergePkv (top : Pkv) (start upto : Nat) (bot : Pkv) (slack : Nat) : Option (Pkv × Option Nat × Nat) :=
  mergeLoop top bot upto (upto - start + bot.keys.offsets.length + 1) start 0 slack
    (Dyn.preSized ((upto - start + bot.keys.offsets.length) % 2 ^ 32) ((bot.keys.data.length + slack) % 2 ^ 32),
      Dyn.preSized ((upto - start + bot.keys.offsets.length) % 2 ^ 32) ((bot.messages.data.length + slack) % 2 ^ 32))

/-- `MergeToChildrenIter`, PackedKV.i.dfy:1145-1252, from the child that comes next: its index and the ones
after it, the children that are left, and what the one before it ended with -/
def mergePkvs (top : Pkv) : List Nat → List Pkv → Option Nat → Nat → Option (List Pkv × Pkv)
  | _, [], some stop, _ => do
    let rest ← top.sub stop top.keys.offsets.length
    return ([], rest)
  | _, [], none, _ => some ([], ⟨⟨[], []⟩, ⟨[], []⟩⟩)
  | start :: upto :: idxs, b :: bs, none, slack => do
    let r ← mergePkv top start (if upto < start then start else upto) b slack
    let q ← mergePkvs top (upto :: idxs) bs r.2.1 r.2.2
    return (r.1 :: q.1, q.2)
  | _ :: idxs, b :: bs, some stop, slack => do
    let q ← mergePkvs top idxs bs (some stop) slack
    return (b :: q.1, q.2)
  | _, _, _, _ => none

/-- `BinarySearchIndexOfFirstKeyGtePivot`, PackedStringArray.i.dfy:525-551 -/
def pivotIndex (p : Psa) (pivot : Elem) : Option Nat :=
  p.seek (fun x => decide (Elem.key x < pivot)) (p.offsets.length + 1) 0 (p.offsets.length + 1)

/-- `computePivotIndexes`, PackedKV.i.dfy:1254-1280 -/
def pivotIndexes (p : Psa) : List Elem → Option (List Nat)
  | [] => some []
  | e :: es => do
    let i ← pivotIndex p e
    let is ← pivotIndexes p es
    return i :: is

/-- The loop of `PartialFlush`, PackedKV.i.dfy:1347-1374: the weights of the children are subtracted -/
def slackOf : Nat → List Pkv → Option Nat
  | slack, [] => some slack
  | slack, b :: bs => if b.weight ≤ slack then slackOf (slack - b.weight) bs else none

/-- `PartialFlush` (PackedKV.i.dfy:1326-1381) and `MergeToChildren` (:1282-1308) -/
def flushPkvs (top : Pkv) (pivots : List Elem) (bots : List Pkv) : Option (List Pkv × Pkv) := do
  let slack ← slackOf maxWeight bots
  let idxs ← pivotIndexes top.keys pivots
  mergePkvs top idxs bots none slack

/-- The first loop of `PartialFlush`, BucketImpl.i.dfy:1133-1153 -/
def pkvsOf : List MB → Option (List Pkv)
  | [] => some []
  | b :: bs => do
    let p ← b.getPkvSorted false
    let ps ← pkvsOf bs
    return p :: ps

/-- `PartialFlush`, BucketImpl.i.dfy:1113-1188, with `pkvList2BucketList` (:1086-1111): the new lower buckets
and the new upper one -/
def flush (top : MB) (pivots : List Elem) (bots : List MB) : Option (List MB × MB) := do
  let bs ← pkvsOf bots
  let t ← top.getPkvSorted false
  let r ← flushPkvs t pivots bs
  let sorted := bots.all (·.sorted) && top.sorted
  return (r.1.map (fun p => allocPkv p sorted), allocPkv r.2 sorted)

end Verif.Kv.MutBucket
