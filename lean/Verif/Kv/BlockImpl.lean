import Verif.Kv.IndTable
/-
The block side of VeriBetrKV as it is coded: Impl/StateBCImpl.i.dfy, Impl/BlockAllocatorModel.i.dfy (with
Impl/BlockAllocatorImpl.i.dfy), Impl/IOImpl.i.dfy, Impl/BookkeepingImpl.i.dfy, Impl/DeallocImpl.i.dfy,
Impl/EvictImpl.i.dfy, Impl/SyncImpl.i.dfy, Impl/CacheImpl.i.dfy and lib/DataStructures/LruModel.i.dfy.
The node is a parameter; `kids` is its list of children (`[]` for a leaf).
Simplifications: `uint64` is a natural number; a method that changes the object is a function; a method
that may issue a request returns it as an operation of `BlockDisk`; what `io.write` and `io.read` return
as identifier, and the number of bytes a node or table is marshalled to (`null` if it does not fit), are
given by `Env`. Prints are left out.
-/
namespace Verif.Kv.BlockImpl
open IndTable (Tab Bitmap numBlocks TRow ofRows)
variable {Node : Type}

/-! ### The block allocator -/

/-- `BlockAllocatorModel`, BlockAllocatorModel.i.dfy:16-22 -/
structure Alloc where
  eph : Bitmap
  frozen : Option Bitmap
  persistent : Bitmap
  outstanding : Bitmap
  full : Bitmap

/-- `BitAllocIter`, BitmapModel.i.dfy:67-79; `n` bits are left to look at. -/
def bitAlloc (b : Bitmap) : Nat → Nat → Option Nat
  | _, 0 => none
  | i, n + 1 => if b i = false then some i else bitAlloc b (i + 1) n

namespace Alloc

/-- `Alloc`, BlockAllocatorModel.i.dfy:40-43 -/
def find (a : Alloc) : Option Nat := bitAlloc a.full 0 numBlocks

/-- `InitBlockAllocator`, BlockAllocatorModel.i.dfy:94-98 -/
def init (b : Bitmap) : Alloc := ⟨b, none, b, (fun _ => false), b⟩

/-- `MarkUsedEphemeral`, BlockAllocatorModel.i.dfy:45-59 -/
def useEph (a : Alloc) (i : Nat) : Alloc := { a with eph := a.eph.set i, full := a.full.set i }

/-- `MarkUsedFrozen`, BlockAllocatorModel.i.dfy:61-76 -/
def useFrozen (a : Alloc) (i : Nat) : Alloc :=
  { a with frozen := a.frozen.map (·.set i), full := a.full.set i }

/-- `MarkUsedOutstanding`, BlockAllocatorModel.i.dfy:78-92 -/
def useOutstanding (a : Alloc) (i : Nat) : Alloc :=
  { a with outstanding := a.outstanding.set i, full := a.full.set i }

/-- Whether the frozen bitmap is there and has the bit. -/
def inFrozen (a : Alloc) (i : Nat) : Bool := match a.frozen with
  | some f => f i
  | none => false

/-- `MarkFreeOutstanding`, BlockAllocatorModel.i.dfy:100-119 -/
def freeOutstanding (a : Alloc) (i : Nat) : Alloc :=
  { a with
    outstanding := a.outstanding.unset i
    full := if a.inFrozen i || a.eph i || a.persistent i then a.full else a.full.unset i }

/-- `MarkFreeEphemeral`, BlockAllocatorModel.i.dfy:121-135 -/
def freeEph (a : Alloc) (i : Nat) : Alloc :=
  { a with
    eph := a.eph.unset i
    full := if a.inFrozen i || a.persistent i || a.outstanding i then a.full else a.full.unset i }

/-- `MoveFrozenToPersistent`, BlockAllocatorModel.i.dfy:137-149 -/
def moveFrozen (a : Alloc) : Alloc := match a.frozen with
  | some f => { a with frozen := none, persistent := f, full := fun i => (a.eph i || f i) || a.outstanding i }
  | none => a

/-- `CopyEphemeralToFrozen`, BlockAllocatorModel.i.dfy:151-155 -/
def copyEph (a : Alloc) : Alloc := { a with frozen := some a.eph }

end Alloc

/-! ### The state -/

/-- `Ready`, StateBCImpl.i.dfy:70-83 -/
structure Ready (Node : Type) where
  persistent : Tab
  frozen : Option Tab
  eph : Tab
  persistentLoc : Loc
  frozenLoc : Option Loc
  tableWrite : Option ReqId
  writes : AList ReqId (Ref × Loc)
  reads : AList ReqId Ref
  cache : AList Ref Node
  lru : List Ref
  alloc : Alloc

/-- `Variables`, StateBCImpl.i.dfy:69-87 -/
inductive State (Node : Type)
  | ready (r : Ready Node)
  | loading (loc : Loc) (read : Option ReqId)
  | unready

/-- `MaxCacheSize`, PivotBetree/Bounds.i.dfy -/
def maxCacheSize : Nat := 100

/-- What the outside gives to a handler: the identifier of its request, and how many bytes marshalling
makes of a node or of a table (`MarshallCheckedSector`, MarshallingImpl.i.dfy:907-; `none` is `null`). -/
structure Env (Node : Type) where
  id : ReqId
  nodeLen : Node → Option Nat
  tabLen : Tab → Option Nat

/-- What a handler did: its request, the operation of the view, the step it was, and the new state. -/
structure Out (Node : Type) where
  dop : BlockDisk.Op Node
  vop : VOp
  step : BlockCache.Step Node
  next : Ready Node

/-- `Remove`, LruModel.i.dfy:46-51 -/
def lruRemove (l : List Ref) (r : Ref) : List Ref := l.filter (fun x => decide (x ≠ r))

/-- `Use`, LruModel.i.dfy -/
def lruUse (l : List Ref) (r : Ref) : List Ref := lruRemove l r ++ [r]

namespace Ready

/-- `TotalCacheSize`, StateBCImpl.i.dfy -/
def size (s : Ready Node) : Nat := s.cache.length + s.reads.length

/-- Nothing was done (`IOModel.noop`). -/
def noop (s : Ready Node) : Out Node := ⟨.none, .statesInternal, .noop, s⟩

/-- `OutstandingRead(ref) in outstandingBlockReads.Values` -/
def reading (s : Ready Node) (ref : Ref) : Bool := s.reads.any (fun x => x.2 == ref)

/-- `HasEmptyLoc` of the frozen table, if there is one; every operation on a node asks this first. -/
def frozenEmpty (s : Ready Node) (ref : Ref) : Bool := match s.frozen with
  | some t => t.hasEmptyLoc ref
  | none => false

/-- `if oldLoc.Some? { MarkFreeEphemeral(oldLoc.value.addr / NodeBlockSize) }`, in writeBookkeeping,
writeBookkeepingNoSuccsUpdate and Dealloc -/
def freeOld (a : Alloc) (old : Option Loc) : Alloc := match old with
  | some l => a.freeEph (l.addr / nodeBlockSize)
  | none => a

/-! ### Bookkeeping -/

/-- The loop of `getFreeRef`, BookkeepingImpl.i.dfy:59-78, and of `getFreeRef2`, :107-124 (`avoid`); `n`
references are left to try. -/
def freeRefFrom (s : Ready Node) (avoid : Option Ref) : Nat → Nat → Option Ref
  | _, 0 => none
  | i, n + 1 =>
    if some i ≠ avoid ∧ s.cache.get i = none then some i else freeRefFrom s avoid (i + 1) n

/-- `getFreeRef`, BookkeepingImpl.i.dfy:32-79, and `getFreeRef2`, :81-126 -/
def freeRef (s : Ready Node) (avoid : Option Ref) : Option Ref :=
  s.freeRefFrom avoid (s.eph.upper + 1) (2 ^ 64 - 1 - s.eph.upper)

/-- `writeBookkeeping`, BookkeepingImpl.i.dfy:290-331, followed by the `cache.Insert` or
`cache.UpdateNode` that all callers do; also `allocBookkeeping`, :333-360, for a reference that
`getFreeRef` has given. -/
def write (s : Ready Node) (kids : Node → List Ref) (ref : Ref) (n : Node) : Ready Node :=
  let u := s.eph.update ref (kids n)
  { s with
    eph := u.2
    lru := lruUse s.lru ref
    alloc := freeOld s.alloc u.1
    cache := s.cache.set ref n }

/-- `writeBookkeepingNoSuccsUpdate`, BookkeepingImpl.i.dfy:362-395, followed by the change of the node in
the cache -/
def writeSame (s : Ready Node) (ref : Ref) (n : Node) : Ready Node :=
  let u := s.eph.removeLoc ref
  { s with
    eph := u.2
    lru := lruUse s.lru ref
    alloc := freeOld s.alloc u.1
    cache := s.cache.set ref n }

/-! ### Freeing, writing, evicting, syncing -/

/-- `Dealloc`, DeallocImpl.i.dfy:31-82 -/
def dealloc (s : Ready Node) (ref : Ref) : Out Node :=
  if s.frozenEmpty ref || s.reading ref then s.noop
  else
    let u := s.eph.removeRef ref
    ⟨.none, .advance .noop true, .unalloc ref, { s with
      eph := u.2
      lru := lruRemove s.lru ref
      cache := s.cache.del ref
      alloc := freeOld s.alloc u.1 }⟩

/-- `getFreeLoc`, IOImpl.i.dfy:42-72 -/
def freeLoc (s : Ready Node) (len : Nat) : Option Loc :=
  s.alloc.find.map (fun i => ⟨i * nodeBlockSize, len⟩)

/-- `AssignRefToLocEphemeral`, SyncImpl.i.dfy:100-151 -/
def assignEph (s : Ready Node) (ref : Ref) (loc : Loc) : Ready Node :=
  let u := s.eph.addLoc ref loc
  { s with
    eph := u.2
    alloc := if u.1 then s.alloc.useEph (loc.addr / nodeBlockSize) else s.alloc }

/-- `AssignRefToLocFrozen`, SyncImpl.i.dfy:153-205; does nothing if there is no frozen table (the `if` of
`TryToWriteBlock`). -/
def assignFrozen (s : Ready Node) (ref : Ref) (loc : Loc) : Ready Node := match s.frozen with
  | some t =>
    let u := t.addLoc ref loc
    { s with
      frozen := some u.2
      alloc := if u.1 then s.alloc.useFrozen (loc.addr / nodeBlockSize) else s.alloc }
  | none => s

/-- `AssignIdRefLocOutstanding`, SyncImpl.i.dfy:207-270 -/
def assignOutstanding (s : Ready Node) (id : ReqId) (ref : Ref) (loc : Loc) : Ready Node :=
  let a := match s.writes.get id with
    | some x => if x.2.addr / nodeBlockSize < numBlocks then
        s.alloc.freeOutstanding (x.2.addr / nodeBlockSize) else s.alloc
    | none => s.alloc
  { s with
    writes := s.writes.set id (ref, loc)
    alloc := a.useOutstanding (loc.addr / nodeBlockSize) }

/-- `TryToWriteBlock`, SyncImpl.i.dfy:373-415, with `FindLocationAndRequestWrite`, IOImpl.i.dfy:117-157.
The caller has seen to it that the node is in the cache. -/
def tryToWrite (s : Ready Node) (io : Env Node) (ref : Ref) : Out Node :=
  match s.cache.get ref with
  | some n => match io.nodeLen n with
    | some len => match s.freeLoc len with
      | some loc =>
        ⟨.reqWriteNode io.id loc n, .statesInternal, .writeBackNodeReq ref,
          ((s.assignEph ref loc).assignOutstanding io.id ref loc).assignFrozen ref loc⟩
      | none => s.noop
    | none => s.noop
  | none => s.noop

/-- `NeedToWrite`, EvictImpl.i.dfy:43-66 -/
def needToWrite (s : Ready Node) (ref : Ref) : Bool := s.eph.hasEmptyLoc ref || s.frozenEmpty ref

/-- `CanEvict`, EvictImpl.i.dfy:77-91 -/
def canEvict (s : Ready Node) (ref : Ref) : Bool := match s.eph.t.get ref with
  | some e => match e.loc with
    | some l => !(s.writes.any (fun x => x.2 == (ref, l)))
    | none => false
  | none => true

/-- `EvictOrDealloc`, EvictImpl.i.dfy:93-131 -/
def evictOrDealloc (s : Ready Node) (io : Env Node) : Out Node :=
  match s.eph.findDeallocable with
  | some ref => s.dealloc ref
  | none => match s.lru.head? with
    | some ref =>
      if s.needToWrite ref then
        if s.tableWrite = none then s.tryToWrite io ref else s.noop
      else if s.canEvict ref then
        ⟨.none, .statesInternal, .evict ref,
          { s with lru := lruRemove s.lru ref, cache := s.cache.del ref }⟩
      else s.noop
    | none => s.noop

/-- `PageInNodeReq`, IOImpl.i.dfy:243-274 -/
def pageInReq (s : Ready Node) (io : Env Node) (ref : Ref) : Out Node :=
  if s.reading ref then s.noop
  else match s.eph.view.locs ref with
    | some loc => ⟨.reqReadNode io.id loc, .statesInternal, .pageInNodeReq ref,
        { s with reads := s.reads.set io.id ref }⟩
    | none => s.noop

/-- `PageInNodeReqOrMakeRoom`, EvictImpl.i.dfy:133-158 -/
def pageInOrMakeRoom (s : Ready Node) (io : Env Node) (ref : Ref) : Out Node :=
  if s.size ≤ maxCacheSize - 1 then s.pageInReq io ref
  else if 0 < s.cache.length then s.evictOrDealloc io
  else s.noop

/-- `PageInNodeResp`, IOImpl.i.dfy: the node the disk answered with, `none` if it was not a good one. -/
def pageInResp (s : Ready Node) (kids : Node → List Ref) (id : ReqId)
    (node : Option Node) : Out Node :=
  match s.reads.get id with
  | some ref => match s.eph.t.get ref with
    | some e =>
      if e.loc = none then ⟨.respReadNode id node, .statesInternal, .noop, s⟩
      else if s.cache.get ref ≠ none then ⟨.respReadNode id node, .statesInternal, .noop, s⟩
      else match node with
        | some n =>
          if e.succs = kids n then
            ⟨.respReadNode id node, .statesInternal, .pageInNodeResp, { s with
              lru := lruUse s.lru ref
              cache := s.cache.set ref n
              reads := s.reads.del id }⟩
          else ⟨.respReadNode id node, .statesInternal, .noop, s⟩
        | none => ⟨.respReadNode id node, .statesInternal, .noop, s⟩
    | none => ⟨.respReadNode id node, .statesInternal, .noop, s⟩
  | none => ⟨.respReadNode id node, .statesInternal, .noop, s⟩

/-- `writeNodeResponse`, IOImpl.i.dfy, if the identifier is known (HandleWriteResponseImpl.i.dfy) -/
def writeNodeResp (s : Ready Node) (id : ReqId) : Out Node :=
  match s.writes.get id with
  | some x => ⟨.respWriteNode id, .statesInternal, .writeBackNodeResp, { s with
      alloc := s.alloc.freeOutstanding (x.2.addr / nodeBlockSize)
      writes := s.writes.del id }⟩
  | none => ⟨.respWriteNode id, .statesInternal, .noop, s⟩

/-- `writeIndirectionTableResponse`, IOImpl.i.dfy, if the identifier is the one waited for
(HandleWriteResponseImpl.i.dfy) -/
def writeTableResp (s : Ready Node) (id : ReqId) : Out Node :=
  if s.tableWrite = some id then match s.frozenLoc with
    | some l => ⟨.respWriteTable id, .sendFrozenLoc l, .writeBackTableResp, { s with tableWrite := none }⟩
    | none => ⟨.respWriteTable id, .statesInternal, .noop, s⟩
  else ⟨.respWriteTable id, .statesInternal, .noop, s⟩

/-- `cleanUp`, IOImpl.i.dfy -/
def cleanUp (s : Ready Node) : Out Node :=
  match s.frozen, s.frozenLoc with
  | some t, some l => ⟨.none, .cleanUp, .cleanUp, { s with
      persistent := t
      persistentLoc := l
      frozen := none
      frozenLoc := none
      alloc := s.alloc.moveFrozen }⟩
  | _, _ => s.noop

/-- `maybeFreeze`, SyncImpl.i.dfy:272-371 -/
def maybeFreeze (s : Ready Node) : Out Node :=
  match s.eph.findDeallocable with
  | some ref => s.dealloc ref
  | none => ⟨.none, .freeze, .freeze, { s with
      frozen := some s.eph.clone
      alloc := s.alloc.copyEph }⟩

/-- `syncFoundInFrozen`, SyncImpl.i.dfy:417-443 -/
def syncFound (s : Ready Node) (io : Env Node) (ref : Ref) : Out Node :=
  if s.eph.view.locs ref ≠ none then s.noop else s.tryToWrite io ref

/-- `otherIndirectionTableAddr`, BlockCacheSystem/DiskLayout.i.dfy -/
def otherTableAddr (a : Nat) : Nat := if a = table1Addr then table2Addr else table1Addr

/-- `sync`, SyncImpl.i.dfy:445-520, with `FindIndirectionTableLocationAndRequestWrite`, IOImpl.i.dfy:159-207 -/
def sync (s : Ready Node) (io : Env Node) : Out Node :=
  if s.frozenLoc ≠ none then s.noop
  else match s.frozen with
    | none => s.maybeFreeze
    | some t =>
      let u := t.findNoLoc
      let s1 := { s with frozen := some u.2 }
      match u.1 with
      | some ref => s1.syncFound io ref
      | none =>
        if s1.writes ≠ [] then s1.noop
        else match io.tabLen u.2 with
          | some len =>
            let loc : Loc := ⟨otherTableAddr s.persistentLoc.addr, len⟩
            ⟨.reqWriteTable io.id loc u.2.view, .statesInternal, .writeBackTableReq,
              { s1 with tableWrite := some io.id, frozenLoc := some loc }⟩
          | none => s1.noop

end Ready

/-! ### Starting up -/

/-- `PageInIndirectionTableResp`, IOImpl.i.dfy, when it accepts the table: the state it makes. -/
def opened (loc : Loc) (t : Tab) : Option (Ready Node) :=
  t.initBitmap.map (fun b => ⟨t.clone, none, t, loc, none, none, [], [], [], [], .init b⟩)

end Verif.Kv.BlockImpl
