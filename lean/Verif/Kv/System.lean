import Verif.Kv.BlockSystem
import Verif.Kv.JournalCache
/-
The whole of VeriBetrKV above the disk: `BlockJournalCache` (BlockCacheSystem/BlockJournalCache.i.dfy)
on `BlockJournalDisk` (BlockCacheSystem/BlockJournalDisk.i.dfy), which is `BetreeJournalSystem`
(BlockCacheSystem/BetreeJournalSystem.i.dfy).
-/
namespace Verif.Kv.KvSystem
open BlockSystem (Label)
variable {Node : Type}

/-- `Variables`, BetreeJournalSystem.i.dfy:22; machine and disk of each side
(BlockJournalCache.i.dfy:15-17, BlockJournalDisk.i.dfy:11-13). -/
structure State (Node : Type) where
  b : BlockSystem.State Node
  j : JournalSystem.State

/-- `InitWithLoc`, BetreeJournalSystem.i.dfy:34-43 -/
def Init (A : App Node) (ok : Node → Prop) (loc : Loc) (s : State Node) : Prop :=
  BlockSystem.Init A ok loc s.b ∧ JournalSystem.Init loc s.j

/-- `Next`, BetreeJournalSystem.i.dfy:50-56. The machine is `NextStep` of BlockJournalCache
(BlockJournalCache.i.dfy:25-30) on `Next` of BlockJournalDisk (BlockJournalDisk.i.dfy:19-23). Unlike
`BetreeSystem.Machine` it does not ask that a location sent for loading holds an image. -/
inductive Next (A : App Node) : State Node → Label Node → State Node → Prop
  /-- Both caches move on the same label, each with its disk. -/
  | machine {s : State Node} {bdop jdop vop step bm bd jm jd} :
      BlockCache.Next A s.b.m bdop vop step bm → BlockDisk.Next s.b.d bdop bd →
      JournalCache.Next s.j.m jdop vop jm → JournalDisk.Next s.j.d jdop jd →
      Next A s ⟨vop, some step⟩ ⟨⟨bm, bd⟩, ⟨jm, jd⟩⟩
  /-- The disk writes a superblock. -/
  | disk {s : State Node} {jd} : JournalDisk.Internal s.j.d jd →
      Next A s ⟨.journalInternal, none⟩ ⟨s.b, ⟨s.j.m, jd⟩⟩
  /-- Everything crashes. -/
  | crash {s : State Node} {bd jd} : BlockDisk.Crash s.b.d bd → JournalDisk.Crash s.j.d jd →
      Next A s ⟨.crash, none⟩ ⟨⟨.unready, bd⟩, ⟨JournalCache.start, jd⟩⟩

/-- The machine, started from a disk with an image at `loc` and an empty journal. -/
def machine (A : App Node) (ok : Node → Prop) (loc : Loc) :
    Machine (State Node) (Label Node) := ⟨Init A ok loc, Next A⟩

end Verif.Kv.KvSystem
