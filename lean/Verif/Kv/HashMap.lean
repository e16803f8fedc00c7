/-
The hash map of VeriBetrKV (/repo/lib/DataStructures/LinearMutableMapBase.i.dfy and
LinearMutableMap.i.dfy): open addressing over an array of slots, with linear probing and
tombstones, keys of 64 bits.  The indirection table, the LRU queue, the use-once queue and the
list of syncing requests are made of it.
-/

namespace Verif.Hash

/-- LinearMutableMapBase.i.dfy:39-51 `hash64`; `u64add` wraps (Lang/System/Arithmetic.s.dfy:11-18),
`lshift` and `rshift` are those of `bv64`. -/
def hash64 (k : UInt64) : UInt64 :=
  let k0 := ~~~k + (k <<< 21)
  let k1 := k0 ^^^ (k0 >>> 24)
  let k2 := (k1 + (k1 <<< 3)) + (k1 <<< 8)
  let k3 := k2 ^^^ (k2 >>> 14)
  let k4 := (k3 + (k3 <<< 2)) + (k3 <<< 4)
  let k5 := k4 ^^^ (k4 >>> 28)
  k5 + (k5 <<< 31)

/-- LinearMutableMapBase.i.dfy:54 `Item`. -/
inductive Item (V : Type) where
  | empty
  | entry (key : UInt64) (value : V)
  | tombstone (key : UInt64)

/-- LinearMutableMap.i.dfy:46-50 `FixedSizeLinearHashMap`; the ghost field `contents` is left
out. -/
structure Fixed (V : Type) where
  storage : List (Item V)
  count : UInt64

/-- LinearMutableMap.i.dfy:64-72 `Uint64SlotForKey`: the hash modulo the number of slots. -/
def slotForKey (n : Nat) (key : UInt64) : Nat := (hash64 key).toNat % n

/-- LinearMutableMapBase.i.dfy:363-375 `Uint64SlotSuccessorUint64`: the next slot, around the end. -/
def slotSuccessor (n slot : Nat) : Nat := if slot = n - 1 then 0 else slot + 1

/-- LinearMutableMap.i.dfy:184 and 191: the loop of `Probe` ends at this item. -/
def Item.stops {V : Type} (key : UInt64) : Item V → Bool
  | .empty => true
  | .tombstone k => k == key
  | .entry k _ => k == key

/-- LinearMutableMap.i.dfy:167-216, the loop `while true` of `Probe`.  The loop changes nothing
but the slot, so once it has gone through as many slots as there are it would go on for ever:
`none` says so. -/
def probeLoop {V : Type} (storage : List (Item V)) (key : UInt64) : Nat → Nat → Option Nat
  | 0, _ => none
  | fuel + 1, slot =>
    match storage[slot]? with
    | none => none
    | some it =>
      if it.stops key then some slot
      else probeLoop storage key fuel (slotSuccessor storage.length slot)

/-- LinearMutableMap.i.dfy:135-217 `Probe`. -/
def probe {V : Type} (f : Fixed V) (key : UInt64) : Option Nat :=
  probeLoop f.storage key f.storage.length (slotForKey f.storage.length key)

/-- LinearMutableMap.i.dfy:219-291 `FixedSizeInsert`: the new map and the value replaced.  `none`:
the probe did not end. -/
def fixedInsert {V : Type} (f : Fixed V) (key : UInt64) (value : V) :
    Option (Fixed V × Option V) :=
  match probe f key with
  | none => none
  | some slot =>
    let f' : Fixed V := { f with storage := f.storage.set slot (.entry key value) }
    match f.storage[slot]? with
    | some .empty => some ({ f' with count := f'.count + 1 }, none)
    | some (.tombstone _) => some (f', none)
    | some (.entry _ old) => some (f', some old)
    | none => none

/-- LinearMutableMap.i.dfy:352-366 `FixedSizeGet`. -/
def fixedGet {V : Type} (f : Fixed V) (key : UInt64) : Option (Option V) :=
  match probe f key with
  | none => none
  | some slot =>
    match f.storage[slot]? with
    | some (.entry _ v) => some (some v)
    | _ => some none

/-- LinearMutableMap.i.dfy:368-425 `FixedSizeRemove`: a tombstone takes the place of the entry. -/
def fixedRemove {V : Type} (f : Fixed V) (key : UInt64) : Option (Fixed V × Option V) :=
  match probe f key with
  | none => none
  | some slot =>
    match f.storage[slot]? with
    | some (.entry _ v) =>
      some ({ f with storage := f.storage.set slot (.tombstone key) }, some v)
    | _ => some (f, none)

/-- LinearMutableMap.i.dfy:429-433 `LinearHashMap`; the ghost field `contents` is left out. -/
structure Map (V : Type) where
  underlying : Fixed V
  count : UInt64

/-- LinearMutableMap.i.dfy:74-87 `ConstructorFromSize`: every slot empty. -/
def fixedNew {V : Type} (size : UInt64) : Fixed V :=
  { storage := List.replicate size.toNat .empty, count := 0 }

/-- LinearMutableMap.i.dfy:593-600 `Constructor`; its callers give at least 128. -/
def new {V : Type} (size : UInt64) : Map V := { underlying := fixedNew size, count := 0 }

/-- LinearMutableMap.i.dfy:636-706, the loop of `Realloc`: every entry of the old array, in its
order, goes into the new map; tombstones do not. -/
def transfer {V : Type} : List (Item V) → Fixed V → Option (Fixed V)
  | [], g => some g
  | .entry k v :: rest, g =>
    match fixedInsert g k v with
    | none => none
    | some (g', _) => transfer rest g'
  | .empty :: rest, g => transfer rest g
  | .tombstone _ :: rest, g => transfer rest g

/-- LinearMutableMap.i.dfy:623-729 `Realloc`: the new size is `(128 + count) * 4`. -/
def realloc {V : Type} (m : Map V) : Option (Map V) :=
  match transfer m.underlying.storage (fixedNew ((128 + m.count) * 4)) with
  | none => none
  | some g => some { m with underlying := g }

/-- LinearMutableMap.i.dfy:738-740: the map is enlarged when half of its slots are used, be it
by tombstones. -/
def makeRoom {V : Type} (m : Map V) : Option (Map V) :=
  if m.underlying.storage.length / 2 ≤ m.underlying.count.toNat then realloc m else some m

/-- LinearMutableMap.i.dfy:731-757 `InsertAndGetOld` (and 759-768 `Insert`, which drops the old
value). -/
def insert {V : Type} (m : Map V) (key : UInt64) (value : V) : Option (Map V × Option V) :=
  match makeRoom m with
  | none => none
  | some m1 =>
    match fixedInsert m1.underlying key value with
    | none => none
    | some (u, none) => some ({ underlying := u, count := m1.count + 1 }, none)
    | some (u, some old) => some ({ m1 with underlying := u }, some old)

/-- LinearMutableMap.i.dfy:770-800 `RemoveAndGet` (and 802-811 `Remove`). -/
def remove {V : Type} (m : Map V) (key : UInt64) : Option (Map V × Option V) :=
  match fixedRemove m.underlying key with
  | none => none
  | some (u, none) => some ({ m with underlying := u }, none)
  | some (u, some v) => some ({ underlying := u, count := m.count - 1 }, some v)

/-- LinearMutableMap.i.dfy:813-820 `Get`. -/
def get {V : Type} (m : Map V) (key : UInt64) : Option (Option V) := fixedGet m.underlying key

/-- LinearMutableMap.i.dfy:987-1017 `iterToNext` (and 1019-1051 `simpleIterToNext`): the first
entry at or after the slot `i`, and where it is.  `rest` are the slots from `i` on. -/
def iterToNext {V : Type} : List (Item V) → Nat → Nat × Option (UInt64 × V)
  | [], i => (i, none)
  | .entry k v :: _, i => (i, some (k, v))
  | .empty :: rest, i => iterToNext rest (i + 1)
  | .tombstone _ :: rest, i => iterToNext rest (i + 1)

/-- LinearMutableMap.i.dfy:837-849 `Iterator` and `SimpleIterator`, without its ghost fields. -/
structure Iter (V : Type) where
  i : Nat
  next : Option (UInt64 × V)

/-- LinearMutableMap.i.dfy:1053-1063 `IterStart`. -/
def iterStart {V : Type} (m : Map V) : Iter V :=
  let r := iterToNext m.underlying.storage 0
  ⟨r.1, r.2⟩

/-- LinearMutableMap.i.dfy:1080-1100 `IterInc`. -/
def iterInc {V : Type} (m : Map V) (it : Iter V) : Iter V :=
  let r := iterToNext (m.underlying.storage.drop (it.i + 1)) (it.i + 1)
  ⟨r.1, r.2⟩

/-- The loop every user of an iterator writes, e.g. LinearMutableMap.i.dfy:1140-1148: what the
iterator shows, up to the first `Done`.  `fuel` bounds the rounds; `none`: not done by then. -/
def iterLoop {V : Type} (m : Map V) : Nat → Iter V → Option (List (UInt64 × V))
  | 0, _ => none
  | fuel + 1, it =>
    match it.next with
    | none => some []
    | some kv => (iterLoop m fuel (iterInc m it)).map (kv :: ·)

/-- The whole iteration; one round more than there are slots. -/
def iterate {V : Type} (m : Map V) : Option (List (UInt64 × V)) :=
  iterLoop m (m.underlying.storage.length + 1) (iterStart m)

/-- LinearMutableMap.i.dfy:1134-1149 `MaxKey`: the largest key the iteration shows, 0 if none (the
result variable starts as the zero of its type). -/
def maxKey {V : Type} (m : Map V) : Option UInt64 :=
  (iterate m).map (·.foldl (fun mx kv => if mx < kv.1 then kv.1 else mx) 0)

/-- LinearMutableMap.i.dfy:1222-1252 `FindSimpleIter`: the slot of the entry, or the number of
slots when there is none. -/
def findIter {V : Type} (m : Map V) (key : UInt64) : Option Nat :=
  match probe m.underlying key with
  | none => none
  | some slot =>
    match m.underlying.storage[slot]? with
    | some (.entry _ _) => some slot
    | _ => some m.underlying.storage.length

/-- LinearMutableMap.i.dfy:1151-1180 `UpdateByIter` with 293-350 `FixedSizeUpdateBySlot`: the
value at the iterator's slot is replaced, the key stays. -/
def updateByIter {V : Type} (m : Map V) (i : Nat) (value : V) : Map V :=
  match m.underlying.storage[i]? with
  | some (.entry k _) =>
    { m with underlying :=
        { m.underlying with storage := m.underlying.storage.set i (.entry k value) } }
  | _ => m

/-- What users of `FindSimpleIter` and `UpdateByIter` do (Impl/IndirectionTable.i.dfy:317-362):
find the key and, when it is there, write a new value in its place. -/
def update {V : Type} (m : Map V) (key : UInt64) (value : V) : Option (Map V) :=
  (findIter m key).map (fun i => updateByIter m i value)

/-- Impl/CommitterImpl.i.dfy:43-73 and 84-110, the loops of `SyncReqs2to1` and `SyncReqs3to2`:
every value is rewritten through the iterator while the iteration goes on.  `i` is the slot of
the iterator, `fuel` bounds the rounds; `none`: not done by then. -/
def mapLoop {V : Type} (g : V → V) : Nat → Map V → Nat → Option (Map V)
  | 0, _, _ => none
  | fuel + 1, m, i =>
    match m.underlying.storage[i]? with
    | some (.entry _ v) =>
      let m' := updateByIter m i (g v)
      mapLoop g fuel m' (iterToNext (m'.underlying.storage.drop (i + 1)) (i + 1)).1
    | _ => some m

/-- Impl/CommitterImpl.i.dfy:35-74 `SyncReqs2to1` and 76-111 `SyncReqs3to2`, whatever the
rewriting. -/
def mapValues {V : Type} (g : V → V) (m : Map V) : Option (Map V) :=
  mapLoop g (m.underlying.storage.length + 1) m (iterToNext m.underlying.storage 0).1

end Verif.Hash
