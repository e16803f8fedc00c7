import Verif.Kv.SectorBytes
/-
Packed arrays of strings, lib/Buckets/PackedStringArray.i.dfy: how strings are read, searched for and cut
out, and `DynamicPsa`, the array that grows. `none` is an access outside an array. Offsets are of 32 bits:
sums and differences of them are taken modulo 2^32.
Simplifications: an array on the heap is a list; a new array is filled with zeros; numbers of 64 bits are
natural numbers (lengths of arrays and their doubles do not reach 2^64).
-/
namespace Verif.Kv.SectorBytes
open Pivot (Bucket)
open Betree (Message)

/-! ### Reading -/

/-- `psaStart`, PackedStringArray.i.dfy:49-57 -/
def Psa.start (p : Psa) (i : Nat) : Option Nat := if i = 0 then some 0 else p.offsets[i - 1]?

/-- A slice of a sequence, which the code takes as `s[a..b]` -/
def cut {α : Type} (s : List α) (a b : Nat) : Option (List α) :=
  if a ≤ b ∧ b ≤ s.length then some ((s.drop a).take (b - a)) else none

/-- `psaElement`, PackedStringArray.i.dfy:84-89, with `psaEnd` (:60-72) -/
def Psa.element (p : Psa) (i : Nat) : Option (List UInt8) := do
  let e ← p.offsets[i]?
  let a ← p.start i
  cut p.data a e

/-- `SubtractConstant`, PackedStringArray.i.dfy:178-193, on one number -/
def sub32 (x c : Nat) : Nat := (x + 2 ^ 32 - c) % 2 ^ 32

/-- `SubOffsets`, PackedStringArray.i.dfy:207-219 -/
def subOffsets (offsets : List Nat) (a b : Nat) : Option (List Nat) := do
  let sub ← cut offsets a b
  if a = 0 then return sub
  else
    let c ← offsets[a - 1]?
    return sub.map (fun x => sub32 x c)

/-- `PsaSubSeq`, PackedStringArray.i.dfy:267-284 -/
def Psa.subSeq (p : Psa) (a b : Nat) : Option Psa :=
  if a = b then some ⟨[], []⟩
  else do
    let s ← p.start a
    let e ← p.offsets[b - 1]?
    let o ← subOffsets p.offsets a b
    let d ← cut p.data s e
    return ⟨o, d⟩

/-- The loop of `BinarySearchIndexOfFirstKeyGteWithLowerBound` and of `BinarySearchIndexOfFirstKeyGt`,
PackedStringArray.i.dfy:564-592, 594-620, which differ in what they ask (`below`) of the string in the middle;
with fuel for the rounds -/
def Psa.seek (p : Psa) (below : List UInt8 → Bool) : Nat → Nat → Nat → Option Nat
  | 0, lo, hi => if lo + 1 < hi then none else some lo
  | fuel + 1, lo, hi =>
    if lo + 1 < hi then
      match p.element ((lo + hi) / 2 - 1) with
      | none => none
      | some x => if below x then p.seek below fuel ((lo + hi) / 2) hi else p.seek below fuel lo ((lo + hi) / 2)
    else some lo

/-- `BinarySearchIndexOfFirstKeyGteWithLowerBound`, PackedStringArray.i.dfy:564-592 -/
def Psa.firstGteFrom (p : Psa) (key : List UInt8) (l : Nat) : Option Nat :=
  p.seek (fun x => decide (Elem.key x < .key key)) (p.offsets.length + 1) l (p.offsets.length + 1)

/-- `BinarySearchIndexOfFirstKeyGte`, PackedStringArray.i.dfy:553-562 -/
def Psa.firstGte (p : Psa) (key : List UInt8) : Option Nat := p.firstGteFrom key 0

/-- `BinarySearchIndexOfFirstKeyGt`, PackedStringArray.i.dfy:594-620 -/
def Psa.firstGt (p : Psa) (key : List UInt8) : Option Nat :=
  p.seek (fun x => decide (Elem.key x ≤ .key key)) (p.offsets.length + 1) 0 (p.offsets.length + 1)

/-! ### The array that grows -/

/-- `DynamicPsa`, PackedStringArray.i.dfy:732-736: the number of strings and two arrays, of which the first
parts are in use -/
structure Dyn where
  n : Nat
  offsets : List Nat
  data : List UInt8

/-- `PreSized`, PackedStringArray.i.dfy:1029-1040 -/
def Dyn.preSized (strings total : Nat) : Dyn := ⟨0, List.replicate strings 0, List.replicate total 0⟩

/-- `TotalLength`, PackedStringArray.i.dfy:761-770; `append`, `realloc_data` and `realloc_to_accomodate` compute
the same (:808, :843, :866) -/
def Dyn.total (d : Dyn) : Option Nat := if d.n = 0 then some 0 else d.offsets[d.n - 1]?

/-- `toPsa`, PackedStringArray.i.dfy:751-759 -/
def Dyn.toPsa (d : Dyn) : Option Psa :=
  if d.n = 0 then some ⟨[], []⟩
  else do
    let t ← d.total
    let o ← cut d.offsets 0 d.n
    let x ← cut d.data 0 t
    return ⟨o, x⟩

/-- `weight`, PackedStringArray.i.dfy:772-777 -/
def Dyn.weight (d : Dyn) : Option Nat := do
  let t ← d.total
  return 4 * d.n + t

/-- `append`, PackedStringArray.i.dfy:800-813 -/
def Dyn.append1 (d : Dyn) (s : List UInt8) : Option Dyn := do
  let start ← d.total
  if d.n < d.offsets.length ∧ start + s.length ≤ d.data.length then
    return ⟨d.n + 1, d.offsets.set d.n ((start + s.length) % 2 ^ 32),
      d.data.take start ++ s ++ d.data.drop (start + s.length)⟩
  else none

/-- `realloc_offsets`, PackedStringArray.i.dfy:815-830 -/
def Dyn.reallocOffsets (d : Dyn) (len : Nat) : Option Dyn :=
  if d.n ≤ len ∧ d.n ≤ d.offsets.length then
    some { d with offsets := d.offsets.take d.n ++ List.replicate (len - d.n) 0 }
  else none

/-- `realloc_data`, PackedStringArray.i.dfy:832-848 -/
def Dyn.reallocData (d : Dyn) (len : Nat) : Option Dyn := do
  let t ← d.total
  if t ≤ len ∧ t ≤ d.data.length then
    return { d with data := d.data.take t ++ List.replicate (len - t) 0 }
  else none

/-- The first part of `realloc_to_accomodate`, PackedStringArray.i.dfy:859-865: room for one more offset -/
def Dyn.growOffsets (d : Dyn) : Option Dyn :=
  if d.n = d.offsets.length then
    if 0x80000000 ≤ d.n then d.reallocOffsets 0xffffffff else d.reallocOffsets (2 * d.n + 1)
  else some d

/-- `realloc_to_accomodate`, PackedStringArray.i.dfy:850-876 -/
def Dyn.accomodate (d : Dyn) (s : List UInt8) : Option Dyn := do
  let d ← d.growOffsets
  let t ← d.total
  if d.data.length < t + s.length then
    if 0x100000000 ≤ 2 * (t + s.length) then d.reallocData 0xffffffff else d.reallocData (2 * (t + s.length))
  else some d

/-- `Append`, PackedStringArray.i.dfy:878-888 -/
def Dyn.append (d : Dyn) (s : List UInt8) : Option Dyn := do
  let d ← d.accomodate s
  d.append1 s

/-- `appendSeq`, PackedStringArray.i.dfy:890-920: the loop, which `AppendSeq` has too (:994-1006) -/
def Dyn.append1s (d : Dyn) : List (List UInt8) → Option Dyn
  | [] => some d
  | s :: ss => do
    let d ← d.append1 s
    d.append1s ss

/-- The loop of `realloc_to_accomodate_seq`, PackedStringArray.i.dfy:944-955 -/
def totalFrom (t : Nat) : List (List UInt8) → Nat
  | [] => t
  | s :: ss => totalFrom (t + s.length) ss

/-- The first part of `realloc_to_accomodate_seq`, PackedStringArray.i.dfy:940-942: room for more offsets -/
def Dyn.growOffsetsBy (d : Dyn) (k : Nat) : Option Dyn :=
  if d.offsets.length < d.n + k then d.reallocOffsets (d.n + k) else some d

/-- `realloc_to_accomodate_seq`, PackedStringArray.i.dfy:922-960 -/
def Dyn.accomodateSeq (d : Dyn) (ss : List (List UInt8)) : Option Dyn := do
  let d ← d.growOffsetsBy ss.length
  let t ← d.total
  if d.data.length < totalFrom t ss then d.reallocData (totalFrom t ss) else some d

/-- `AppendSeq`, PackedStringArray.i.dfy:962-1009 -/
def Dyn.appendSeq (d : Dyn) (ss : List (List UInt8)) : Option Dyn := do
  let d ← d.accomodateSeq ss
  d.append1s ss

/-- `Prefix`, PackedStringArray.i.dfy:1011-1027; `none` stands for a length beyond the number of strings, which
the code excludes -/
def Dyn.shorten (d : Dyn) (len : Nat) : Option Dyn := if len ≤ d.n then some { d with n := len } else none

/-- `FromSeq`, PackedStringArray.i.dfy:1042-1057, 1060-1067, with `psaSeqTotalLength` (:462-487) -/
def fromStrings (ss : List (List UInt8)) : Option Psa := do
  let d ← (Dyn.preSized ss.length (totalFrom 0 ss)).append1s ss
  d.toPsa

/-! ### Keys and messages -/

/-- `SubPkv`, lib/Buckets/PackedKV.i.dfy:313-321 -/
def Pkv.sub (p : Pkv) (a b : Nat) : Option Pkv := do
  let k ← p.keys.subSeq a b
  let m ← p.messages.subSeq a b
  return ⟨k, m⟩

/-- `SplitLeft`, PackedKV.i.dfy:380-385 -/
def Pkv.splitLeft (p : Pkv) (pivot : Key) : Option Pkv := do
  let i ← p.keys.firstGte pivot
  p.sub 0 i

/-- `SplitRight`, PackedKV.i.dfy:432-438 -/
def Pkv.splitRight (p : Pkv) (pivot : Key) : Option Pkv := do
  let i ← p.keys.firstGte pivot
  p.sub i p.keys.offsets.length

/-- The loop of `BinarySearchQuery`, PackedKV.i.dfy:237-269, with fuel for the rounds -/
def Pkv.find (p : Pkv) (key : Key) : Nat → Nat → Nat → Option (Option Message)
  | 0, lo, hi => if lo < hi then none else some none
  | fuel + 1, lo, hi =>
    if lo < hi then
      match p.keys.element ((lo + hi) / 2) with
      | none => none
      | some x =>
        if key = x then (p.messages.element ((lo + hi) / 2)).map (fun m => some (.define m))
        else if Elem.key key < .key x then p.find key fuel lo ((lo + hi) / 2)
        else p.find key fuel ((lo + hi) / 2 + 1) hi
    else some none

/-- `BinarySearchQuery`, PackedKV.i.dfy:237-269 -/
def Pkv.query (p : Pkv) (key : Key) : Option (Option Message) :=
  p.find key p.keys.offsets.length 0 p.keys.offsets.length

/-- The loop of `ComputeIsSorted`, PackedKV.i.dfy:156-174: from string `i`, `left` more to compare -/
def Psa.sortedFrom (p : Psa) : Nat → Nat → Option Bool
  | _, 0 => some true
  | i, left + 1 => do
    let x ← p.element i
    let y ← p.element (i + 1)
    if Elem.key x < .key y then p.sortedFrom (i + 1) left else return false

/-- `ComputeIsSorted`, PackedKV.i.dfy:146-178 -/
def Pkv.isSorted (p : Pkv) : Option Bool :=
  if p.keys.offsets.length ≤ 1 then some true else p.keys.sortedFrom 0 (p.keys.offsets.length - 1)

end Verif.Kv.SectorBytes
