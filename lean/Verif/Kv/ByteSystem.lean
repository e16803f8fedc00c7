import Verif.Kv.System
import Verif.Kv.ByteDisk
import Verif.Kv.JournalBytes
/-
`ByteCache` (ByteBlockCacheSystem/ByteCache.i.dfy) and `ByteSystem`
(ByteBlockCacheSystem/ByteSystem.i.dfy): the caches of the system, which talk of nodes, tables,
superblocks and journal blocks, attached to a disk of bytes through the reading of bytes in
ByteBlockCacheSystem/InterpretationDiskOps.i.dfy.
-/
namespace Verif.Kv

instance (l : Loc) : Decidable (ValidNodeLoc l) := inferInstanceAs (Decidable ((_ ∧ _) ∧ _))
instance (l : Loc) : Decidable (ValidJournalLoc l) := inferInstanceAs (Decidable (_ ∧ _ ∧ _ ∧ _ ∧ _))

/-- `Sector`, BlockCacheSystem/SectorType.i.dfy:48-51 -/
inductive Sector (Node : Type)
  | superblock (sb : Superblock)
  | table (t : Table)
  | node (n : Node)

/-- How bytes are read. `crc` is `crc32_c_padded` (lib/Checksums/CRC32C.s.dfy), `parse` is
`parseSector` (ByteBlockCacheSystem/Marshalling.i.dfy). Both are parameters here. -/
structure Codec (Node : Type) where
  crc : List UInt8 → List UInt8
  parse : List UInt8 → Option (Sector Node)

namespace Codec
open ByteDisk (Checks)
variable {Node : Type}

/-- `ValidBytes` and `SectorOfBytes`, InterpretationDiskOps.i.dfy:31-49, as one partial function -/
def sector (c : Codec Node) (s : List UInt8) : Option (Sector Node) :=
  if Checks c.crc s then c.parse (s.drop 32) else none

/-- `SuperblockOptOfBytes`, InterpretationDiskOps.i.dfy:92-98 -/
def superblock (c : Codec Node) (s : List UInt8) : Option Superblock :=
  match c.sector s with
  | some (.superblock sb) => some sb
  | _ => none

/-- `IndirectionTableOptOfBytes`, InterpretationDiskOps.i.dfy:100-106 -/
def table (c : Codec Node) (s : List UInt8) : Option Table :=
  match c.sector s with
  | some (.table t) => some t
  | _ => none

/-- `NodeOptOfBytes`, InterpretationDiskOps.i.dfy:108-114 -/
def node (c : Codec Node) (s : List UInt8) : Option Node :=
  match c.sector s with
  | some (.node n) => some n
  | _ => none

/-- `JournalRangeOfByteSeq`, JournalBytes.i.dfy:23-40 -/
def range (c : Codec Node) (s : List UInt8) : Option (List Block) := JournalBytes.rangeOfBytes c.crc s

end Codec

/-- The location of a superblock. -/
def sbLoc (w : Bool) : Loc := if w then superblock2Loc else superblock1Loc

/-- `JournalIntervalOfLocation`, JournalInterval.i.dfy:479-489 -/
def intervalOf (l : Loc) : Interval := ⟨(l.addr - journalStartAddr) / 4096, l.len / 4096⟩

namespace ByteSystem
open ByteDisk (Op Data)
open BlockSystem (Label)
variable {Node : Type}

/-- `ValidReqWrite`, InterpretationDiskOps.i.dfy:147-156 -/
structure ValidWrite (c : Codec Node) (w : Data) : Prop where
  loc : ValidLoc w.loc
  superblock : ∀ x, w.loc = sbLoc x → c.superblock w.bytes ≠ none
  journal : ValidJournalLoc w.loc → c.range w.bytes ≠ none
  table : ValidTableLoc w.loc → c.table w.bytes ≠ none
  node : ValidNodeLoc w.loc → c.node w.bytes ≠ none

/-- `ValidReqWrite2`, InterpretationDiskOps.i.dfy:160-172 -/
structure ValidWrite2 (c : Codec Node) (w1 w2 : Data) : Prop where
  one : ValidWrite c w1
  two : ValidWrite c w2
  journal1 : ValidJournalLoc w1.loc
  journal2 : ValidJournalLoc w2.loc
  stop : (intervalOf w1.loc).start + (intervalOf w1.loc).len = numJournalBlocks
  start : (intervalOf w2.loc).start = 0
  pos : 0 < (intervalOf w2.loc).len
  room : (intervalOf w1.loc).len + (intervalOf w2.loc).len ≤ numJournalBlocks

/-- `ValidDiskOp`, InterpretationDiskOps.i.dfy:187-194, with `ValidReqRead` (:142-145), `ValidRespRead`
(:174-180) and `ValidRespWrite` (:182-185) -/
def ValidOp (c : Codec Node) : Op → Prop
  | .reqRead _ l => ValidLoc l
  | .reqWrite _ w => ValidWrite c w
  | .reqWrite2 _ _ w1 w2 => ValidWrite2 c w1 w2
  | .respRead _ r => ValidLoc r.loc
  | .respWrite _ l => ValidLoc l
  | .none => True

/-- What a request to read means to the block disk (`BlockDiskOp_of_ReqRead`,
InterpretationDiskOps.i.dfy:199-208), and so on for the others (:235-248, :296-303, :309-320, :351-360);
together the block half of `IDiskOp` (:384-395). -/
def blockOp (c : Codec Node) : Op → BlockDisk.Op Node
  | .reqRead id l =>
    if ValidNodeLoc l then .reqReadNode id l
    else if ValidTableLoc l then .reqReadTable id l
    else .none
  | .reqWrite id w =>
    if ValidNodeLoc w.loc then
      match c.node w.bytes with
      | some n => .reqWriteNode id w.loc n
      | none => .none
    else if ValidTableLoc w.loc then
      match c.table w.bytes with
      | some t => .reqWriteTable id w.loc t
      | none => .none
    else .none
  | .reqWrite2 _ _ _ _ => .none
  | .respRead id r =>
    if ValidNodeLoc r.loc then .respReadNode id (c.node r.bytes)
    else if ValidTableLoc r.loc then .respReadTable id (c.table r.bytes)
    else .none
  | .respWrite id l =>
    if ValidNodeLoc l then .respWriteNode id
    else if ValidTableLoc l then .respWriteTable id
    else .none
  | .none => .none

/-- The journal half of `IDiskOp`, InterpretationDiskOps.i.dfy:384-395 (`JournalDiskOp_of_…`, :210-221,
:250-269, :282-294, :322-337, :362-373). -/
def journalOp (c : Codec Node) : Op → JournalDisk.Op
  | .reqRead id l =>
    if l = superblock1Loc then .reqReadSb id false
    else if l = superblock2Loc then .reqReadSb id true
    else if ValidJournalLoc l then .reqReadJ id (intervalOf l)
    else .none
  | .reqWrite id w =>
    if w.loc = superblock1Loc then
      match c.superblock w.bytes with
      | some sb => .reqWriteSb id false sb
      | none => .none
    else if w.loc = superblock2Loc then
      match c.superblock w.bytes with
      | some sb => .reqWriteSb id true sb
      | none => .none
    else if ValidJournalLoc w.loc then
      match c.range w.bytes with
      | some bs => .reqWriteJ id none (intervalOf w.loc).start bs
      | none => .none
    else .none
  | .reqWrite2 id1 id2 w1 w2 =>
    match c.range w1.bytes, c.range w2.bytes with
    | some b1, some b2 => .reqWriteJ id1 (some id2) (intervalOf w1.loc).start (b1 ++ b2)
    | _, _ => .none
  | .respRead id r =>
    if r.loc = superblock1Loc then .respReadSb id false (c.superblock r.bytes)
    else if r.loc = superblock2Loc then .respReadSb id true (c.superblock r.bytes)
    else if ValidJournalLoc r.loc then .respReadJ id (c.range r.bytes)
    else .none
  | .respWrite id l =>
    if l = superblock1Loc then .respWriteSb id false
    else if l = superblock2Loc then .respWriteSb id true
    else if ValidJournalLoc l then .respWriteJ id
    else .none
  | .none => .none

/-- A request, as opposed to an answer. -/
def IsReq : Op → Prop
  | .reqRead _ _ => True
  | .reqWrite _ _ => True
  | .reqWrite2 _ _ _ _ => True
  | _ => False

/-- The machine and its disk: `AsyncDiskModelVariables<BJC.Variables, D.Variables>`,
ByteSystem.i.dfy:9-10, BlockJournalCache.i.dfy:15-17. -/
structure State (Node : Type) where
  b : BlockCache.State Node
  j : JournalCache.State
  d : ByteDisk.State

/-- `Next` of ByteCache, ByteCache.i.dfy:34-42, over `NextStep` of BlockJournalCache
(BlockJournalCache.i.dfy:25-30). An answer that makes no sense is dropped, whatever the label. -/
inductive CacheNext (A : App Node) (c : Codec Node) :
    BlockCache.State Node → JournalCache.State → Op → VOp → BlockCache.Step Node →
    BlockCache.State Node → JournalCache.State → Prop
  | valid {b j dop vop step b' j'} : ValidOp c dop →
      BlockCache.Next A b (blockOp c dop) vop step b' → JournalCache.Next j (journalOp c dop) vop j' →
      CacheNext A c b j dop vop step b' j'
  | invalid {b j dop vop step} : ¬ IsReq dop → ¬ ValidOp c dop → CacheNext A c b j dop vop step b j

/-- The bytes at a location, zeros beyond the end (`withWrites` with no writes pending,
InterpretationDiskContents.i.dfy:58-92). -/
def bytesAt (E : Nat → UInt8) (l : Loc) : List UInt8 := (List.range l.len).map fun i => E (l.addr + i)

/-- The bytes of a disk, zeros beyond the end. -/
def byteOf (contents : List UInt8) (i : Nat) : UInt8 := contents[i]?.getD 0

/-- `IBlockDisk`, InterpretationDisk.i.dfy:445-455, of a disk with nothing in flight -/
def blockDisk (c : Codec Node) (E : Nat → UInt8) : BlockDisk.State Node where
  readT := .empty
  readN := .empty
  writeT := .empty
  writeN := .empty
  tables l := if ValidTableLoc l then c.table (bytesAt E l) else none
  nodes l := if ValidNodeLoc l then c.node (bytesAt E l) else none

/-- `DiskSuperblockAtLoc`, InterpretationDisk.i.dfy:424-431 -/
def superblockAt (c : Codec Node) (contents : List UInt8) (w : Bool) : Option Superblock :=
  if (sbLoc w).addr + (sbLoc w).len ≤ contents.length then
    c.superblock (ByteDisk.read contents (sbLoc w)) else none

/-- `JournalBlockAt`, InterpretationDisk.i.dfy:397-407 -/
def journalBlockAt (c : Codec Node) (E : Nat → UInt8) (i : Nat) : Option Block :=
  JournalBytes.blockOfBytes c.crc (bytesAt E ⟨journalPoint i, 4096⟩)

/-- `IJournalDisk`, InterpretationDisk.i.dfy:457-471, of a disk with nothing in flight -/
def journalDisk (c : Codec Node) (contents : List UInt8) : JournalDisk.State where
  readSb _ _ := False
  readJ := .empty
  writeSb _ := none
  writeJ := .empty
  sb := superblockAt c contents
  journal := journalBlockAt c (byteOf contents)

/-- `Init`, ByteSystem.i.dfy:42-46, with `InitWithLoc` of BetreeJournalSystem -/
def Init (A : App Node) (c : Codec Node) (ok : Node → Prop) (loc : Loc) (s : State Node) : Prop :=
  ByteDisk.Init s.d ∧ KvSystem.Init A ok loc
    ⟨⟨s.b, blockDisk c (byteOf s.d.contents)⟩, ⟨s.j, journalDisk c s.d.contents⟩⟩

/-- `Next` of AsyncDiskModel (AsyncDiskModel.s.dfy:292-328) on ByteCache. The label of a step the disk
takes by itself is `none`. -/
inductive Next (A : App Node) (c : Codec Node) (kind : ByteDisk.Kind) :
    State Node → Option (Label Node) → State Node → Prop
  /-- `Machine`, :297-301 -/
  | machine {s : State Node} {dop vop step b' j' d'} :
      CacheNext A c s.b s.j dop vop step b' j' → ByteDisk.Next kind s.d dop d' →
      Next A c kind s (some ⟨vop, some step⟩) ⟨b', j', d'⟩
  /-- `DiskInternal`, :303-308 -/
  | disk {s : State Node} {d'} : ByteDisk.Internal c.crc kind s.d d' →
      Next A c kind s none ⟨s.b, s.j, d'⟩
  /-- `Crash`, :310-315 -/
  | crash {s : State Node} :
      Next A c kind s (some ⟨.crash, none⟩) ⟨.unready, JournalCache.start, ByteDisk.crash s.d⟩

/-- The machine, started from bytes that hold an image at `loc` and an empty journal. `kind` says which
disk: `⟨false, false⟩` is the one written in the repository. -/
def machine (A : App Node) (c : Codec Node) (ok : Node → Prop) (loc : Loc) (kind : ByteDisk.Kind) :
    Machine (State Node) (Option (Label Node)) := ⟨Init A c ok loc, Next A c kind⟩

/-- What the user sees of a step. -/
def ui : Option (Label Node) → UIOp
  | some l => l.vop.ui
  | none => .noop

end ByteSystem
end Verif.Kv
