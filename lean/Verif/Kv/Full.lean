import Verif.Kv.Committer
import Verif.Kv.ByteSystem
/-
`Full` (Impl/FullImpl.i.dfy): the block side and the committer together, on a disk of bytes. The committer
is the code (Verif/Kv/Committer.lean); the block side is its specification, `BlockCache`.
-/
namespace Verif.Kv.Full
open ByteDisk (Op)
open BlockSystem (Label)
open ByteSystem (ValidOp ValidWrite blockOp journalOp IsReq)
variable {Node : Type}

/-- `Full`, FullImpl.i.dfy:15-18, with the disk -/
structure State (Node : Type) where
  b : BlockCache.State Node
  s : Committer.State
  d : ByteDisk.State

/-- One handler of MainHandlers.i.dfy: the two sides do their parts of it, or an answer for a place that is
nobody's is dropped (HandleReadResponseImpl.i.dfy:85-96, HandleWriteResponseImpl.i.dfy:83-96). `writes` is
left to the block side: what it writes is a node or a table. -/
inductive CacheNext (A : App Node) (c : Codec Node) :
    BlockCache.State Node → Committer.State → Op → VOp → BlockCache.Step Node →
    BlockCache.State Node → Committer.State → Prop
  | valid {b s dop vop step b' s'} :
      (∀ id w, dop = .reqWrite id w → ValidNodeLoc w.loc ∨ ValidTableLoc w.loc → ValidWrite c w) →
      BlockCache.Next A b (blockOp c dop) vop step b' → Committer.Next c.crc s dop vop s' →
      CacheNext A c b s dop vop step b' s'
  | invalid {b s dop vop step} : ¬ IsReq dop → ¬ ValidOp c dop → CacheNext A c b s dop vop step b s

/-- The disk as made by mkfs, and a store just constructed (`InitState`, MainHandlers.i.dfy:74-83) -/
def Init (A : App Node) (c : Codec Node) (ok : Node → Prop) (loc : Loc) (s : State Node) : Prop :=
  s.s = Committer.init ∧ ByteSystem.Init A c ok loc ⟨s.b, JournalCache.start, s.d⟩

/-- `Next` of AsyncDiskModel (AsyncDiskModel.s.dfy:292-328) on `Full` -/
inductive Next (A : App Node) (c : Codec Node) (kind : ByteDisk.Kind) :
    State Node → Option (Label Node) → State Node → Prop
  /-- `Machine`, :297-301 -/
  | machine {s : State Node} {dop vop step b' s' d'} :
      CacheNext A c s.b s.s dop vop step b' s' → ByteDisk.Next kind s.d dop d' →
      Next A c kind s (some ⟨vop, some step⟩) ⟨b', s', d'⟩
  /-- `DiskInternal`, :303-308 -/
  | disk {s : State Node} {d'} : ByteDisk.Internal c.crc kind s.d d' → Next A c kind s none ⟨s.b, s.s, d'⟩
  /-- `Crash`, :310-315 -/
  | crash {s : State Node} :
      Next A c kind s (some ⟨.crash, none⟩) ⟨.unready, Committer.init, ByteDisk.crash s.d⟩

/-- The machine. -/
def machine (A : App Node) (c : Codec Node) (ok : Node → Prop) (loc : Loc) (kind : ByteDisk.Kind) :
    Machine (State Node) (Option (Label Node)) := ⟨Init A c ok loc, Next A c kind⟩

end Verif.Kv.Full
