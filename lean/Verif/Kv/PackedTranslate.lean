import Verif.Kv.MutBucket
/-
The translation of a bucket in memory, lib/Buckets/TranslationImpl.i.dfy, which happens when a clone of a
range of keys is followed down the tree: the entries whose keys have a prefix, under another prefix.
`none` is an access outside an array.
Simplification: the two arrays that are filled from the left are one list of pairs.
-/
namespace Verif.Kv.MutBucket
open SectorBytes
open Betree (Message)
open Pivot (changePrefix)

/-- The loop of `ComputeTranslateBucket`, TranslationImpl.i.dfy:797-838: from entry `i` on, `left` entries -/
def changeFrom (p : Pkv) (pre new : Key) : Nat → Nat → Option (List (Key × List UInt8))
  | _, 0 => some []
  | i, left + 1 => do
    let k ← p.keys.element i
    let m ← p.messages.element i
    let rest ← changeFrom p pre new (i + 1) left
    if pre.isPrefixOf k then return (changePrefix pre new k, m) :: rest else return rest

/-- `ComputeTranslateBucket`, TranslationImpl.i.dfy:778-872 -/
def MB.translate (b : MB) (pre new : Key) : Option MB := do
  let p ← b.getPkvSorted false
  let l ← changeFrom p pre new 0 p.keys.offsets.length
  let k ← fromStrings (l.map (·.1))
  let m ← fromStrings (l.map (·.2))
  return allocPkv ⟨k, m⟩ b.sorted

/-- `ComputeTranslateBucketWillFit`, TranslationImpl.i.dfy:406-422 -/
def MB.translateFits (b : MB) (pre new : Key) : Option Bool :=
  if new.length ≤ pre.length then some true
  else do
    let p ← b.getPkvSorted false
    let size := p.keys.offsets.length
    return decide (size * 1024 < 2 ^ 32) && decide (b.weight + size * 1024 < 2 ^ 32)

/-- The loop of `ComputeTranslateBucketsWillFit`, TranslationImpl.i.dfy:424-444 -/
def allFit (pre new : Key) : List MB → Option Bool
  | [] => some true
  | b :: bs => do
    let r ← b.translateFits pre new
    if r then allFit pre new bs else return false

end Verif.Kv.MutBucket
