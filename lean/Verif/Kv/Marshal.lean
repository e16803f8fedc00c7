import Verif.Kv.SuperblockBytes
/-
`GenericMarshalling` (lib/Marshalling/GenericMarshalling.i.dfy): grammars, their values, and the bytes of a
value. Everything VeriBetrKV writes to disk other than the journal goes through this.
Simplifications: `uint32` and `uint64` are natural numbers, their bounds are part of `Valid`; a parser that
fails returns `none` instead of `(None, [])`; the imperative readers and writers, which the repository
proves equal to the functions on sequences, are modelled by those functions.
-/
namespace Verif.Kv.Marshal
open SuperblockBytes (packLE unpackLE packLE_length unpack_pack unpack_lt)

/-- `G`, GenericMarshalling.i.dfy:36-44 -/
inductive G
  | const
  | u32
  | u64
  | array (elt : G)
  | tuple (ts : List G)
  | bytes
  | u32s
  | u64s
  | union (cases : List G)

/-- `V`, GenericMarshalling.i.dfy:46-55 -/
inductive V
  | const
  | u32 (n : Nat)
  | u64 (n : Nat)
  | array (a : List V)
  | tuple (t : List V)
  | bytes (b : List UInt8)
  | u32s (l : List Nat)
  | u64s (l : List Nat)
  | case (c : Nat) (v : V)

/-- `ValInGrammar`, GenericMarshalling.i.dfy:57-71 -/
inductive InG : V → G → Prop
  | const : InG .const .const
  | u32 {n} : InG (.u32 n) .u32
  | u64 {n} : InG (.u64 n) .u64
  | array {a g} : (∀ v ∈ a, InG v g) → InG (.array a) (.array g)
  | tuple {t : List V} {gs : List G} : t.length = gs.length →
      (∀ (i : Nat) (v : V) (g : G), t[i]? = some v → gs[i]? = some g → InG v g) → InG (.tuple t) (.tuple gs)
  | bytes {b} : InG (.bytes b) .bytes
  | u32s {l} : InG (.u32s l) .u32s
  | u64s {l} : InG (.u64s l) .u64s
  | case {c : Nat} {v : V} {gs : List G} {g : G} : gs[c]? = some g → InG v g → InG (.case c v) (.union gs)

/-- `ValidGrammar`, GenericMarshalling.i.dfy:73-86 -/
inductive ValidG : G → Prop
  | const : ValidG .const
  | u32 : ValidG .u32
  | u64 : ValidG .u64
  | array {g} : ValidG g → ValidG (.array g)
  | tuple {gs : List G} : gs.length < 2 ^ 64 → (∀ g ∈ gs, ValidG g) → ValidG (.tuple gs)
  | bytes : ValidG .bytes
  | u32s : ValidG .u32s
  | u64s : ValidG .u64s
  | union {gs : List G} : gs.length < 2 ^ 64 → (∀ g ∈ gs, ValidG g) → ValidG (.union gs)

/-- `ValidVal`, GenericMarshalling.i.dfy:88-101, with the bounds of the types `uint32` and `uint64` -/
inductive Valid : V → Prop
  | const : Valid .const
  | u32 {n} : n < 2 ^ 32 → Valid (.u32 n)
  | u64 {n} : n < 2 ^ 64 → Valid (.u64 n)
  | array {a : List V} : a.length < 2 ^ 64 → (∀ v ∈ a, Valid v) → Valid (.array a)
  | tuple {t : List V} : t.length < 2 ^ 64 → (∀ v ∈ t, Valid v) → Valid (.tuple t)
  | bytes {b : List UInt8} : b.length < 2 ^ 64 → Valid (.bytes b)
  | u32s {l : List Nat} : l.length < 2 ^ 64 → (∀ n ∈ l, n < 2 ^ 32) → Valid (.u32s l)
  | u64s {l : List Nat} : l.length < 2 ^ 64 → (∀ n ∈ l, n < 2 ^ 64) → Valid (.u64s l)
  | case {c v} : c < 2 ^ 64 → Valid v → Valid (.case c v)

mutual
/-- `SizeOfV`, GenericMarshalling.i.dfy:110-123 -/
def size : V → Nat
  | .const => 0
  | .u32 _ => 4
  | .u64 _ => 8
  | .array a => 8 + sizes a
  | .tuple t => sizes t
  | .bytes b => 8 + b.length
  | .u32s l => 8 + 4 * l.length
  | .u64s l => 8 + 8 * l.length
  | .case _ v => 8 + size v
/-- `SeqSum`, GenericMarshalling.i.dfy:103-108 -/
def sizes : List V → Nat
  | [] => 0
  | v :: vs => size v + sizes vs
end

mutual
/-- `MarshallVal` (GenericMarshalling.i.dfy:2298-2323) with the methods for the shapes of a value
(:1486-1542, 1730-1768, 1974-2296): the bytes they put into the array -/
def marshal : V → List UInt8
  | .const => []
  | .u32 n => packLE 4 n
  | .u64 n => packLE 8 n
  | .array a => packLE 8 a.length ++ marshals a
  | .tuple t => marshals t
  | .bytes b => packLE 8 b.length ++ b
  | .u32s l => packLE 8 l.length ++ l.flatMap (packLE 4)
  | .u64s l => packLE 8 l.length ++ l.flatMap (packLE 8)
  | .case c v => packLE 8 c ++ marshal v
/-- `MarshallArrayContents` and `MarshallTupleContents`, GenericMarshalling.i.dfy:1619-1728, 1847-1972 -/
def marshals : List V → List UInt8
  | [] => []
  | v :: vs => marshal v ++ marshals vs
end

/-- The common part of `parse_Uint32` and `parse_Uint64`, GenericMarshalling.i.dfy:125-142 -/
def word (n : Nat) (s : List UInt8) : Option (Nat × List UInt8) :=
  if n ≤ s.length then some (unpackLE (s.take n), s.drop n) else none

/-- `parse_Array_contents`, GenericMarshalling.i.dfy:186-205, over the parser of an element -/
def parseN (p : List UInt8 → Option (V × List UInt8)) : Nat → List UInt8 → Option (List V × List UInt8)
  | 0, s => some ([], s)
  | n + 1, s =>
    match p s with
    | none => none
    | some (v, r) => (parseN p n r).map (fun x => (v :: x.1, x.2))

/-- `parse_Array`, GenericMarshalling.i.dfy:346-366 -/
def parseArray (p : List UInt8 → Option (V × List UInt8)) (s : List UInt8) : Option (V × List UInt8) :=
  match word 8 s with
  | none => none
  | some (n, r) => (parseN p n r).map (fun x => (.array x.1, x.2))

/-- `parse_ByteArray`, GenericMarshalling.i.dfy:598-607 -/
def parseBytes (s : List UInt8) : Option (V × List UInt8) :=
  match word 8 s with
  | none => none
  | some (n, r) => if n ≤ r.length then some (.bytes (r.take n), r.drop n) else none

/-- `unpack_LittleEndian_Uint32_Seq` and `unpack_LittleEndian_Uint64_Seq`,
lib/Lang/System/PackedInts.s.dfy:51-77; words of `k` bytes -/
def unpackSeq (k : Nat) : Nat → List UInt8 → List Nat
  | 0, _ => []
  | n + 1, s => unpackLE (s.take k) :: unpackSeq k n (s.drop k)

/-- The common part of `parse_Uint32Array` and `parse_Uint64Array`, GenericMarshalling.i.dfy:634-646,
677-689 -/
def parseWords (k : Nat) (s : List UInt8) : Option (List Nat × List UInt8) :=
  match word 8 s with
  | none => none
  | some (n, r) => if n ≤ r.length / k then some (unpackSeq k n (r.take (k * n)), r.drop (k * n)) else none

mutual
/-- `parse_Val`, GenericMarshalling.i.dfy:770-787, with `parse_Tuple` (:559-573) and `parse_Case`
(:720-738) -/
def parse : G → List UInt8 → Option (V × List UInt8)
  | .const, s => some (.const, s)
  | .u32, s => (word 4 s).map (fun x => (.u32 x.1, x.2))
  | .u64, s => (word 8 s).map (fun x => (.u64 x.1, x.2))
  | .array g, s => parseArray (parse g) s
  | .tuple gs, s => (parseTuple gs s).map (fun x => (.tuple x.1, x.2))
  | .bytes, s => parseBytes s
  | .u32s, s => (parseWords 4 s).map (fun x => (.u32s x.1, x.2))
  | .u64s, s => (parseWords 8 s).map (fun x => (.u64s x.1, x.2))
  | .union gs, s =>
    match word 8 s with
    | none => none
    | some (c, r) => (parseNth gs c r).map (fun x => (.case c x.1, x.2))
/-- `parse_Tuple_contents`, GenericMarshalling.i.dfy:396-416 -/
def parseTuple : List G → List UInt8 → Option (List V × List UInt8)
  | [], s => some ([], s)
  | g :: gs, s =>
    match parse g s with
    | none => none
    | some (v, r) => (parseTuple gs r).map (fun x => (v :: x.1, x.2))
/-- The parser of the case chosen, `parse_Val(rest1, cases[caseID])` (GenericMarshalling.i.dfy:731-732);
there is none if the number of the case is too large. -/
def parseNth : List G → Nat → List UInt8 → Option (V × List UInt8)
  | [], _, _ => none
  | g :: _, 0, s => parse g s
  | _ :: gs, n + 1, s => parseNth gs n s
end

end Verif.Kv.Marshal
