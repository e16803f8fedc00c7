import Verif.Kv.FullImplDemo
import Verif.Kv.FullImplProof
import Verif.Props.C63
import Verif.Props.C64
/-
C67. The whole of VeriBetrKV, as it is coded, is a map that survives crashes, in bounded memory.

Specification: the client's view in Verif/Kv/Client.lean and the disk of bytes in Verif/Kv/ByteDisk.lean. The
program is the code of every part: the tree and its flushes (Verif/Kv/TreeImpl.lean), the cache, the allocator
and the indirection table (Verif/Kv/BlockImpl.lean), the committer and its journal, the format and checksum of
every sector, on a file that mkfs wrote.
-/
namespace Verif.C67
open Verif.Kv Verif.Kv.FullImpl
open Verif.Kv.BlockSystem (Label)
open Verif.Kv.ByteSystem (ui still)
open Verif.Kv.Pivot (Node)
open Verif.Kv.Mkfs (mkfs WrittenIn tableLoc)
open Verif.Kv.SectorBytes (codec)

/-- The program, with its format. -/
noncomputable abbrev store (kind : ByteDisk.Kind) := machine codec tableLoc kind

theorem node_wf (b : List UInt8) (n : Node) (h : codec.node b = some n) : Pivot.WFNode n := by
  unfold Codec.node at h
  split at h
  · rename_i m hs
    cases h
    exact ((C63.reads_well_formed hs).2.2 _ rfl).wf
  · cases h

/-- A run of the code is one of the program of C64. -/
theorem to_spec {contents : List UInt8} (h : WrittenIn mkfs contents) {kind : ByteDisk.Kind}
    {tr : List (Option (Label Node))} {s : State}
    (hr : (store kind).Run ⟨.unready, Committer.init, still contents⟩ tr s) :
    (C64.store kind).Exec tr (view s) ∧ BInv s.b :=
  exec_refines SectorBytes.codec_crc SectorBytes.codec_superblock node_wf
    ⟨⟨.unready, Committer.init, still contents⟩, ⟨rfl, Mkfs.init h kind⟩, hr⟩

/-- **The code acts as a map that survives crashes**, at first empty: every run is from outside one of the
client's specification. -/
theorem acts_as_durable_map {contents : List UInt8} (h : WrittenIn mkfs contents) {kind : ByteDisk.Kind}
    {tr : List (Option (Label Node))} {s : State}
    (hr : (store kind).Run ⟨.unready, Committer.init, still contents⟩ tr s) :
    ∃ cl, Client.machine.Exec (tr.map ui) cl :=
  C62.acts_as_durable_map Pivot.isMap SectorBytes.codec_crc SectorBytes.codec_superblock (to_spec h hr).1

/-- **Synchronised changes stay.** -/
theorem synced_is_kept {contents : List UInt8} (h : WrittenIn mkfs contents) {kind : ByteDisk.Kind}
    {pre mid post : List (Option (Label Node))} {s : State} {id : Nat} {l1 l2 : Option (Label Node)}
    (h1 : ui l1 = .pushSync id) (h2 : ui l2 = .popSync id) (hm : ∀ l ∈ mid, ui l ≠ .crash)
    (hr : (store kind).Run ⟨.unready, Committer.init, still contents⟩ (pre ++ (l1 :: mid ++ l2 :: post)) s) :
    ∃ cl cl', Client.machine.Exec (pre.map ui) cl ∧
      Client.machine.Exec ((pre ++ (l1 :: mid ++ l2 :: post)).map ui) cl' ∧ cl.log <+: cl'.log :=
  C62.synced_is_kept Pivot.isMap SectorBytes.codec_crc SectorBytes.codec_superblock h1 h2 hm (to_spec h hr).1

/-- **The parts of the disk stay apart**: no two requests meet where one of them writes. -/
theorem no_conflict {contents : List UInt8} (h : WrittenIn mkfs contents) {kind : ByteDisk.Kind}
    {tr : List (Option (Label Node))} {s : State}
    (hr : (store kind).Run ⟨.unready, Committer.init, still contents⟩ tr s) :
    (∀ i j w w', s.d.reqWrites i = some w → s.d.reqWrites j = some w' → i ≠ j →
      ∀ a, ¬ (w.addr ≤ a ∧ a < w.addr + w.bytes.length ∧ w'.addr ≤ a ∧ a < w'.addr + w'.bytes.length)) ∧
    (∀ i j w l, s.d.reqWrites i = some w → s.d.reqReads j = some l →
      ∀ a, ¬ (w.addr ≤ a ∧ a < w.addr + w.bytes.length ∧ l.addr ≤ a ∧ a < l.addr + l.len)) :=
  C62.no_conflict Pivot.isMap SectorBytes.codec_crc SectorBytes.codec_superblock (to_spec h hr).1

/-- **Memory is bounded**: the nodes in the cache and those being read are never more than 100, and the cache
holds each node once. -/
theorem cache_bounded {contents : List UInt8} (h : WrittenIn mkfs contents) {kind : ByteDisk.Kind}
    {tr : List (Option (Label Node))} {s : State} {r : BlockImpl.Ready Node}
    (hr : (store kind).Run ⟨.unready, Committer.init, still contents⟩ tr s) (hs : s.b = .ready r) :
    r.cache.length + r.reads.length ≤ 100 ∧ (r.cache.map (·.1)).Nodup := by
  have := (to_spec h hr).2
  rw [hs] at this
  exact ⟨this.size, this.cNodup⟩

/-- **Every answer is handled**: whatever bytes come back when the table is read, the program takes the table
or stays as it is; it never stops on it. -/
theorem answers_handled (loc : Loc) (id : ReqId) (bytes : List UInt8) :
    (∃ s, BlockNext (.loading loc (some id)) (.respReadTable id (codec.table bytes)) .statesInternal
      .pageInTableResp (.ready s)) ∨
    BlockNext (.loading loc (some id)) (.respReadTable id (codec.table bytes)) .statesInternal .noop
      (.loading loc (some id)) := by
  cases ht : codec.table bytes with
  | none => exact .inr (.refused fun _ _ => .inl rfl)
  | some t =>
    obtain ⟨rows, tab, h1, h2, h3, h4⟩ := FullImplDemo.table_rows ht
    subst h3
    cases ho : BlockImpl.opened (Node := Node) loc tab with
    | some s => exact .inl ⟨s, .opened h1 h2 h4 ho⟩
    | none =>
      refine .inr (.refused fun loc' e => .inr ⟨rows, tab, rfl, h1, h4, ?_⟩)
      cases e
      exact ho

/-! ### Concrete cases -/

/-- On a fresh file the code opens the store. A put is tried, for which the root is read; tried again, it is
made, and the client sees it. -/
theorem demo : ∃ tr s r cl, (store true).Run ⟨.unready, Committer.init, still Mkfs.image⟩ tr s ∧
    s.b = .ready r ∧ Client.machine.Exec (tr.map ui) cl ∧ UIOp.put [1] [2] ∈ tr.map ui := by
  obtain ⟨tr, s, s', _, h⟩ := FullImplDemo.run Mkfs.image_written
  obtain ⟨cl, hc⟩ := acts_as_durable_map Mkfs.image_written h
  refine ⟨_, _, s, cl, h, rfl, hc, ?_⟩
  rw [List.map_append]
  exact List.mem_append_right _ (List.mem_singleton.mpr rfl)

end Verif.C67
