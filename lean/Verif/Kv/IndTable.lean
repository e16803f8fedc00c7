import Verif.Base.AList
import Verif.Kv.BlockCache
/-
The indirection table of VeriBetrKV as it is kept in memory: Impl/IndirectionTable.i.dfy. For every
reference where its node is stored, which references the node holds, and how many references point to
it; with the queue of references that nothing points to.
Simplifications: `uint64` is a natural number; the hash map (`LinearMutableMap`) is a list of pairs in
the order of iteration, a new key comes at its end; the queue (lib/DataStructures/LinearUSeq.i.dfy) is a
list without duplicates; methods that change the object are functions.
-/
namespace Verif.Kv.IndTable

/-- `Entry`, IndirectionTable.i.dfy:53 -/
structure Entry where
  loc : Option Loc
  succs : List Ref
  preds : Nat
deriving DecidableEq, Repr

/-- `IndirectionTable`, IndirectionTable.i.dfy:137-160, without the ghost fields. The iterator is the
number of entries it has passed. -/
structure Tab where
  t : AList Ref Entry
  queue : Option (List Ref)
  upper : Nat
  iter : Option Nat
deriving DecidableEq, Repr

namespace Tab

/-- `I`, IndirectionTable.i.dfy:161-164, with `Locs` (:64-67) and `Graph` (:75-78) -/
def view (s : Tab) : Table where
  locs r := (s.t.get r).bind (·.loc)
  graph r := (s.t.get r).map (·.succs)

/-- `Clone`, IndirectionTable.i.dfy:260-273 -/
def clone (s : Tab) : Tab := ⟨s.t, none, s.upper, none⟩

/-- `HasEmptyLoc`, IndirectionTable.i.dfy:288-295 -/
def hasEmptyLoc (s : Tab) (ref : Ref) : Bool :=
  match s.t.get ref with
  | some e => e.loc.isNone
  | none => false

/-- `RemoveLoc`, IndirectionTable.i.dfy:310-337. The reference is there. -/
def removeLoc (s : Tab) (ref : Ref) : Option Loc × Tab :=
  match s.t.get ref with
  | some e => (e.loc, { s with t := s.t.set ref { e with loc := none }, iter := none })
  | none => (none, s)

/-- `AddLocIfPresent`, IndirectionTable.i.dfy:339-366 -/
def addLoc (s : Tab) (ref : Ref) (loc : Loc) : Bool × Tab :=
  match s.t.get ref with
  | some e =>
    if e.loc = none then (true, { s with t := s.t.set ref { e with loc := some loc } }) else (false, s)
  | none => (false, s)

/-- `Add` of the queue, lib/DataStructures/LinearUSeq.i.dfy -/
def qAdd (q : List Ref) (r : Ref) : List Ref := if r ∈ q then q else q ++ [r]

/-- `PredInc`, IndirectionTable.i.dfy:574-599; `Remove` of the queue is `List.erase`. -/
def predInc (s : Tab) (ref : Ref) : Tab :=
  match s.t.get ref with
  | some e => { s with
      t := s.t.set ref { e with preds := e.preds + 1 }
      queue := if e.preds = 0 then s.queue.map (·.erase ref) else s.queue }
  | none => s

/-- `PredDec`, IndirectionTable.i.dfy:601-629 -/
def predDec (s : Tab) (ref : Ref) : Tab :=
  match s.t.get ref with
  | some e => { s with
      t := s.t.set ref { e with preds := e.preds - 1 }
      queue := if e.preds = 1 then s.queue.map (qAdd · ref) else s.queue }
  | none => s

/-- `UpdatePredCounts`, IndirectionTable.i.dfy:762-903 -/
def updatePreds (s : Tab) (new old : List Ref) : Tab := old.foldl predDec (new.foldl predInc s)

/-- `RemoveRef`, IndirectionTable.i.dfy:479-568 -/
def removeRef (s : Tab) (ref : Ref) : Option Loc × Tab :=
  match s.t.get ref with
  | some e =>
    (e.loc, { updatePreds { s with t := s.t.del ref, queue := s.queue.map (·.erase ref) } [] e.succs with
      iter := none })
  | none => (none, s)

/-- `UpdateAndRemoveLoc`, IndirectionTable.i.dfy:926-1032 -/
def update (s : Tab) (ref : Ref) (succs : List Ref) : Option Loc × Tab :=
  let old := s.t.get ref
  let s1 : Tab := { s with
    t := s.t.set ref ⟨none, succs, (old.map (·.preds)).getD 0⟩
    queue := if old.isNone then s.queue.map (qAdd · ref) else s.queue }
  let s2 := s1.updatePreds succs ((old.map (·.succs)).getD [])
  (old.bind (·.loc), { s2 with upper := if s2.upper < ref then ref else s2.upper, iter := none })

/-- `FindDeallocable`, IndirectionTable.i.dfy:2027-2059 -/
def findDeallocable (s : Tab) : Option Ref := s.queue.bind (·.head?)

/-- `FindRefWithNoLoc`, IndirectionTable.i.dfy:2070-2110. The iterator goes on from where it was left. -/
def findNoLoc (s : Tab) : Option Ref × Tab :=
  let i := s.iter.getD 0
  let j := i + ((s.t.drop i).takeWhile (fun x => x.2.loc.isSome)).length
  (s.t[j]?.map (·.1), { s with iter := some j })

end Tab

/-- One step of `ComputeRefCountsInnerLoop`, IndirectionTable.i.dfy:1310-1380 -/
def bump (t : AList Ref Entry) (ref : Ref) : Option (AList Ref Entry) :=
  match t.get ref with
  | some e => some (t.set ref { e with preds := e.preds + 1 })
  | none => none

/-- `ComputeRefCounts`, IndirectionTable.i.dfy:1382-1463 -/
def computeRefCounts (tbl : AList Ref Entry) : Option (AList Ref Entry) :=
  match tbl.get rootRef with
  | some e => tbl.foldlM (fun t1 x => x.2.succs.foldlM bump t1) (tbl.set rootRef { e with preds := 1 })
  | none => none

/-- A row of a table as it is stored: reference, location and successors. -/
abbrev TRow := Ref × Loc × List Ref

/-- `ValToIndirectionTable`, IndirectionTable.i.dfy:1517-1564, with `ValToHashMap`, `MakeGarbageQueue`
(:1465-1494) and `ComputeRefUpperBound` (:1496-1515), of rows that have been read. Rows with the same
reference twice do not get here (Verif/Kv/SectorBytes.lean). -/
def ofRows (rows : List TRow) : Option Tab :=
  match computeRefCounts (rows.map (fun x => (x.1, ⟨some x.2.1, x.2.2, 0⟩))) with
  | some t => some ⟨t, some ((t.filter (fun x => x.2.preds == 0)).map (·.1)),
      (t.map (·.1)).foldl max 0, none⟩
  | none => none

/-- `NumBlocksUint64`, PivotBetree/Bounds.i.dfy:63 -/
def numBlocks : Nat := 0x100000

/-- A bitmap of `numBlocks` bits (lib/DataStructures/BitmapModel.i.dfy); only these are looked at. -/
abbrev Bitmap := Nat → Bool

/-- `BitSet`, lib/DataStructures/BitmapModel.i.dfy -/
def Bitmap.set (b : Bitmap) (i : Nat) : Bitmap := fun j => if j = i then true else b j

/-- `BitUnset`, lib/DataStructures/BitmapModel.i.dfy -/
def Bitmap.unset (b : Bitmap) (i : Nat) : Bitmap := fun j => if j = i then false else b j

/-- One step of the loop of `InitLocBitmap`, IndirectionTable.i.dfy:1880-2014 -/
def markLoc (b : Bitmap) (x : Ref × Entry) : Option Bitmap :=
  match x.2.loc with
  | some l =>
    if l.addr / nodeBlockSize < numBlocks ∧ b (l.addr / nodeBlockSize) = false then
      some (b.set (l.addr / nodeBlockSize)) else none
  | none => none

/-- `InitLocBitmap`, IndirectionTable.i.dfy:1818-2017 -/
def Tab.initBitmap (s : Tab) : Option Bitmap :=
  s.t.foldlM markLoc (fun i => decide (i < minNodeBlockIndex))

end Verif.Kv.IndTable
