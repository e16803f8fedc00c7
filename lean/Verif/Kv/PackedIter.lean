import Verif.Kv.MutBucket
/-
The iterators of buckets in memory, Impl/BucketIteratorImpl.i.dfy: over all entries or over those whose keys
have a prefix, which are given under another one. `none` is an access outside an array.
Simplification: the ghost parts of an iterator are left out.
-/
namespace Verif.Kv.MutBucket
open SectorBytes
open Betree (Message)
open Pivot (PrefixSet applyPrefix)

/-- `BucketIter` and `Iterator`, BucketIteratorImpl.i.dfy:19-29 -/
structure Iter where
  pset : Option PrefixSet
  i : Nat
  pkv : Pkv

/-- `IterNextWithPrefix`, BucketIteratorImpl.i.dfy:60-91 -/
def nextWithPrefix (p : Pkv) (pre : Key) (idx : Nat) : Option Nat :=
  if idx < p.keys.offsets.length then do
    let key ← p.keys.element idx
    if pre.isPrefixOf key then return idx
    else if Elem.key key < .key pre then do
      let i ← p.keys.firstGteFrom pre (idx + 1)
      if i < p.keys.offsets.length then do
        let key ← p.keys.element i
        if pre.isPrefixOf key then return i else return p.keys.offsets.length
      else return p.keys.offsets.length
    else return p.keys.offsets.length
  else some p.keys.offsets.length

/-- The step that all the methods share, BucketIteratorImpl.i.dfy:104-112, 131-136, 154-159, 172-179 -/
def settle (p : Pkv) (pset : Option PrefixSet) (i : Nat) : Option Iter :=
  match pset with
  | none => some ⟨none, i, p⟩
  | some s => do
    let j ← nextWithPrefix p s.pre i
    return ⟨some s, j, p⟩

/-- `IterStart`, BucketIteratorImpl.i.dfy:93-113 -/
def MB.iterStart (b : MB) (pset : Option PrefixSet) : Option Iter := do
  let p ← b.getPkvSorted false
  settle p pset 0

/-- `IterFindFirstGte`, BucketIteratorImpl.i.dfy:115-137 -/
def MB.iterGte (b : MB) (pset : Option PrefixSet) (key : Key) : Option Iter := do
  let p ← b.getPkvSorted false
  let i ← p.keys.firstGte key
  settle p pset i

/-- `IterFindFirstGt`, BucketIteratorImpl.i.dfy:139-160 -/
def MB.iterGt (b : MB) (pset : Option PrefixSet) (key : Key) : Option Iter := do
  let p ← b.getPkvSorted false
  let i ← p.keys.firstGt key
  settle p pset i

/-- `IterInc`, BucketIteratorImpl.i.dfy:162-180 -/
def Iter.inc (it : Iter) : Option Iter := settle it.pkv it.pset (it.i + 1)

/-- `GetNext`, BucketIteratorImpl.i.dfy:182-195: nothing at the end -/
def Iter.next (it : Iter) : Option (Option (Key × Message)) :=
  if it.i = it.pkv.keys.offsets.length then some none
  else do
    let k ← it.pkv.keys.element it.i
    let m ← it.pkv.messages.element it.i
    return some (applyPrefix it.pset k, .define m)

end Verif.Kv.MutBucket
