import Verif.Kv.TreeSucc
import Verif.Kv.Full
/-
The whole of VeriBetrKV as it is coded: `Full` (Impl/FullImpl.i.dfy) with the code of the block side
(Verif/Kv/BlockImpl.lean), of the tree (Verif/Kv/TreeImpl.lean) and of the committer
(Verif/Kv/Committer.lean), on a disk of bytes. What a handler asks of the disk is its request on bytes: a
write holds bytes that read back as the node or table to be written (that there are such bytes is C63).
-/
namespace Verif.Kv.FullImpl
open BlockImpl (Env EnvOk Out Ready)
open IndTable (TRow ofRows rowsView)
open BlockSystem (Label)
open ByteDisk (Op)
open ByteSystem (ValidOp ValidWrite blockOp IsReq)
open Pivot (Node)
open TreeImpl (S kids)

/-- The calls to a block side that is ready: `query`, `succ`, `insert`, `clone` and `sync` of
CoordinationImpl.i.dfy (also when entries are replayed, :180-210), and the answers of the disk
(HandleReadResponseImpl.i.dfy:36-57, HandleWriteResponseImpl.i.dfy:37-54, 64-82). -/
inductive Call
  | query (k : Key)
  | succ (start : RangeStart) (max : Nat)
  | insert (k : Key) (v : Value) (replay : Bool)
  | clone (src dst : Key) (replay : Bool)
  | sync
  | readNode (id : ReqId) (node : Option Node)
  | wroteNode (id : ReqId)
  | wroteTable (id : ReqId)
  | cleanUp

/-- The code of each call. -/
def run (s : S) (io : Env Node) : Call → Out Node
  | .query k => TreeImpl.query s io k
  | .succ start max => TreeImpl.succ s io start max
  | .insert k v replay => TreeImpl.insert s io k v replay
  | .clone src dst replay => TreeImpl.clone s io src dst replay
  | .sync => s.sync io
  | .readNode id node => s.pageInResp kids id node
  | .wroteNode id => s.writeNodeResp id
  | .wroteTable id => s.writeTableResp id
  | .cleanUp => s.cleanUp

/-- What the block side does in a handler. -/
inductive BlockNext : BlockImpl.State Node → BlockDisk.Op Node → VOp → BlockCache.Step Node →
    BlockImpl.State Node → Prop
  /-- `initialization`, CoordinationImpl.i.dfy:137-146: it is told where its table is. -/
  | receiveLoc {loc} : ValidTableLoc loc →
      BlockNext .unready .none (.sendPersistentLoc loc) .receiveLoc (.loading loc none)
  /-- `PageInIndirectionTableReq`, IOImpl.i.dfy:221-245, called from CoordinationImpl.i.dfy:172-179 -/
  | pageInTable {loc id} : BlockNext (.loading loc none) (.reqReadTable id loc) .statesInternal
      .pageInTableReq (.loading loc (some id))
  /-- `PageInIndirectionTableResp`, IOImpl.i.dfy:332-407: the table read is taken. -/
  | opened {loc id rows tab s} : (rows.map (·.1)).Nodup → (∀ x ∈ rows, ValidNodeLoc x.2.1) →
      ofRows rows = some tab → BlockImpl.opened loc tab = some s →
      BlockNext (.loading loc (some id)) (.respReadTable id (some (rowsView rows))) .statesInternal
        .pageInTableResp (.ready s)
  /-- `PageInIndirectionTableResp`, IOImpl.i.dfy:332-407: the table read is not taken; or it was not asked
  for, or another state (HandleReadResponseImpl.i.dfy:47-56). -/
  | refused {st id t} : (∀ loc, st = .loading loc (some id) → t = none ∨
        ∃ rows tab, t = some (rowsView rows) ∧ (rows.map (·.1)).Nodup ∧ ofRows rows = some tab ∧
          (BlockImpl.opened loc tab : Option S) = none) →
      BlockNext st (.respReadTable id t) .statesInternal .noop st
  /-- A call. -/
  | call {s : S} {io} (call : Call) : EnvOk io →
      BlockNext (.ready s) (run s io call).dop (run s io call).vop (run s io call).step
        (.ready (run s io call).next)
  /-- An answer about a node or a write when the block side is not ready
  (HandleReadResponseImpl.i.dfy:43-46, HandleWriteResponseImpl.i.dfy:37-46) -/
  | early {st dop} : (∀ r, st ≠ .ready r) → ((∃ id n, dop = .respReadNode id n) ∨
        (∃ id, dop = .respWriteNode id) ∨ (∃ id, dop = .respWriteTable id)) →
      BlockNext st dop .statesInternal .noop st
  /-- The handler has nothing to do with the block side. -/
  | rest {st vop} : (vop = .statesInternal ∨ vop = .journalInternal ∨ (∃ i, vop = .pushSync i) ∨
        (∃ i, vop = .popSync i)) → BlockNext st .none vop .noop st

/-- `Full`, FullImpl.i.dfy:15-18, with the disk -/
structure State where
  b : BlockImpl.State Node
  s : Committer.State
  d : ByteDisk.State

/-- One handler of MainHandlers.i.dfy: the two sides do their parts of it, or an answer for a place that is
nobody's is dropped (HandleReadResponseImpl.i.dfy:85-96, HandleWriteResponseImpl.i.dfy:83-96). -/
inductive CacheNext (c : Codec Node) : BlockImpl.State Node → Committer.State → Op → VOp →
    BlockCache.Step Node → BlockImpl.State Node → Committer.State → Prop
  | valid {b s dop vop step b' s'} :
      (∀ id w, dop = .reqWrite id w → ValidNodeLoc w.loc ∨ ValidTableLoc w.loc → ValidWrite c w) →
      BlockNext b (blockOp c dop) vop step b' → Committer.Next c.crc s dop vop s' →
      CacheNext c b s dop vop step b' s'
  | invalid {b s dop vop step} : ¬ IsReq dop → ¬ ValidOp c dop → CacheNext c b s dop vop step b s

/-- The disk as made by mkfs, and a store just constructed (`InitState`, MainHandlers.i.dfy:74-83) -/
def Init (c : Codec Node) (loc : Loc) (s : State) : Prop :=
  s.b = .unready ∧ Full.Init Pivot.app c (fun n => n = Pivot.emptyNode) loc ⟨.unready, s.s, s.d⟩

/-- `Next` of AsyncDiskModel (AsyncDiskModel.s.dfy:292-328) on the code -/
inductive Next (c : Codec Node) (kind : ByteDisk.Kind) : State → Option (Label Node) → State → Prop
  /-- `Machine`, :297-301 -/
  | machine {s : State} {dop vop step b' s' d'} :
      CacheNext c s.b s.s dop vop step b' s' → ByteDisk.Next kind s.d dop d' →
      Next c kind s (some ⟨vop, some step⟩) ⟨b', s', d'⟩
  /-- `DiskInternal`, :303-308 -/
  | disk {s : State} {d'} : ByteDisk.Internal c.crc kind s.d d' → Next c kind s none ⟨s.b, s.s, d'⟩
  /-- `Crash`, :310-315 -/
  | crash {s : State} :
      Next c kind s (some ⟨.crash, none⟩) ⟨.unready, Committer.init, ByteDisk.crash s.d⟩

/-- The machine. -/
def machine (c : Codec Node) (loc : Loc) (kind : ByteDisk.Kind) : Machine State (Option (Label Node)) :=
  ⟨Init c loc, Next c kind⟩

end Verif.Kv.FullImpl
