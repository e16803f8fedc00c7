import Verif.Kv.Ops
import Verif.Base.Trace
/-
`BlockDisk` (BlockCacheSystem/BlockDisk.i.dfy): the disk as the block cache sees it, one block per
location. A write takes effect when it is issued and scrambles every location it overlaps; a crash
scrambles every location overlapped by a write in flight.
-/
namespace Verif.Kv

/-- `Reference` (Betree/Graph.i.dfy:18); `uint64` as a natural number. -/
abbrev Ref := Nat
/-- `Root`, Betree/Graph.i.dfy:19 -/
def rootRef : Ref := 0
/-- `ReqId`, BlockDisk.i.dfy:24; `uint64` as a natural number. -/
abbrev ReqId := Nat

/-- `IndirectionTable`, BlockCacheSystem/SectorType.i.dfy -/
structure Table where
  locs : PMap Ref Loc
  graph : PMap Ref (List Ref)

namespace BlockDisk
variable {Node : Type}

/-- `DiskOp`, BlockDisk.i.dfy:29-42 -/
inductive Op (Node : Type)
  | reqReadTable (id : ReqId) (loc : Loc)
  | reqReadNode (id : ReqId) (loc : Loc)
  | reqWriteTable (id : ReqId) (loc : Loc) (t : Table)
  | reqWriteNode (id : ReqId) (loc : Loc) (n : Node)
  | respReadTable (id : ReqId) (t : Option Table)
  | respReadNode (id : ReqId) (n : Option Node)
  | respWriteTable (id : ReqId)
  | respWriteNode (id : ReqId)
  | none

/-- `Variables`, BlockDisk.i.dfy:44-54 -/
structure State (Node : Type) where
  readT : PMap ReqId Loc
  readN : PMap ReqId Loc
  writeT : PMap ReqId Loc
  writeN : PMap ReqId Loc
  tables : PMap Loc Table
  nodes : PMap Loc Node

/-- `Init`, BlockDisk.i.dfy:56-63 -/
def Init (d : State Node) : Prop :=
  d.readT = .empty ∧ d.readN = .empty ∧ d.writeT = .empty ∧ d.writeN = .empty

/-- `DiskMapUpdate`, BlockDisk.i.dfy:83-88 -/
def MapUpdate {T : Type} (m m' : PMap Loc T) (loc : Loc) (t : T) : Prop :=
  m' loc = some t ∧ ∀ l x, m l = some x → ¬ overlap l loc → m' l = some x

/-- `Next`, BlockDisk.i.dfy:65-168, one constructor per case. -/
inductive Next : State Node → Op Node → State Node → Prop
  /-- `RecvReadIndirectionTable`, :67-72 -/
  | recvReadTable {d : State Node} {id loc} : d.readT id = Option.none →
      Next d (.reqReadTable id loc) { d with readT := d.readT.insert id loc }
  /-- `RecvReadNode`, :74-79 -/
  | recvReadNode {d : State Node} {id loc} : d.readN id = Option.none →
      Next d (.reqReadNode id loc) { d with readN := d.readN.insert id loc }
  /-- `RecvWriteIndirectionTable`, :90-97 -/
  | recvWriteTable {d : State Node} {id loc t ts} : d.writeT id = Option.none →
      MapUpdate d.tables ts loc t →
      Next d (.reqWriteTable id loc t) { d with writeT := d.writeT.insert id loc, tables := ts }
  /-- `RecvWriteNode`, :99-106 -/
  | recvWriteNode {d : State Node} {id loc n ns} : d.writeN id = Option.none →
      MapUpdate d.nodes ns loc n →
      Next d (.reqWriteNode id loc n) { d with writeN := d.writeN.insert id loc, nodes := ns }
  /-- `AckReadIndirectionTable`, :110-118. `none` is a read that failed its checksum. -/
  | ackReadTable {d : State Node} {id loc} {t : Option Table} : d.readT id = some loc →
      (∀ x, t = some x → d.tables loc = some x) →
      Next d (.respReadTable id t) { d with readT := d.readT.remove id }
  /-- `AckReadNode`, :120-128 -/
  | ackReadNode {d : State Node} {id loc} {n : Option Node} : d.readN id = some loc →
      (∀ x, n = some x → d.nodes loc = some x) →
      Next d (.respReadNode id n) { d with readN := d.readN.remove id }
  /-- `AckWriteIndirectionTable`, :132-137 -/
  | ackWriteTable {d : State Node} {id loc} : d.writeT id = some loc →
      Next d (.respWriteTable id) { d with writeT := d.writeT.remove id }
  /-- `AckWriteNode`, :139-144 -/
  | ackWriteNode {d : State Node} {id loc} : d.writeN id = some loc →
      Next d (.respWriteNode id) { d with writeN := d.writeN.remove id }
  /-- `Stutter`, :148-152 -/
  | stutter {d : State Node} : Next d .none d

/-- `havocMap`, BlockDisk.i.dfy:170-183 -/
def Havoc {T : Type} (m m' : PMap Loc T) (reqs : PMap ReqId Loc) : Prop :=
  ∀ l x, m l = some x → (∀ id l', reqs id = some l' → ¬ overlap l l') → m' l = some x

/-- `Crash`, BlockDisk.i.dfy:185-195 -/
structure Crash (d d' : State Node) : Prop where
  readT : d'.readT = .empty
  readN : d'.readN = .empty
  writeT : d'.writeT = .empty
  writeN : d'.writeN = .empty
  tables : Havoc d.tables d'.tables d.writeT
  nodes : Havoc d.nodes d'.nodes d.writeN

end BlockDisk
end Verif.Kv
