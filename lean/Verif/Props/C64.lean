import Verif.Kv.MkfsDemo
import Verif.Props.C62
/-
C64. A store opened on a fresh file is an empty map that survives crashes.

Specification: the client's view in Verif/Kv/Client.lean and the disk of bytes in Verif/Kv/ByteDisk.lean. The
file holds what `Mkfs.mkfs` says, with anything elsewhere. Everything down to the bytes is that of the code:
the pivot betree, the committer with its journal, and the format and checksum of every sector. The block side
is its specification.
-/
namespace Verif.C64
open Verif.Kv Verif.Kv.Full
open Verif.Kv.BlockSystem (Label)
open Verif.Kv.ByteSystem (ui still)
open Verif.Kv.Pivot (Node emptyNode)
open Verif.Kv.Mkfs (mkfs WrittenIn tableLoc)

/-- The store, with its application and its format. -/
noncomputable abbrev store (kind : ByteDisk.Kind) := machine Pivot.app SectorBytes.codec (fun n => n = emptyNode) tableLoc kind

/-- **mkfs makes an empty store.** What mkfs writes are blocks that do not meet, and a store opened on a file
with them is in its initial state. -/
theorem fresh_file {contents : List UInt8} (h : WrittenIn mkfs contents) (kind : ByteDisk.Kind) :
    Mkfs.Apart mkfs ∧ (store kind).Init ⟨.unready, Committer.init, still contents⟩ :=
  ⟨Mkfs.mkfs_apart, Mkfs.init h kind⟩

/-- **From then on it acts as a map that survives crashes**, at first empty: every run is from outside one of
the client's specification. -/
theorem acts_as_durable_map {contents : List UInt8} (h : WrittenIn mkfs contents) {kind : ByteDisk.Kind}
    {tr : List (Option (Label Node))} {s : State Node}
    (hr : (store kind).Run ⟨.unready, Committer.init, still contents⟩ tr s) :
    ∃ cl, Client.machine.Exec (tr.map ui) cl :=
  C62.acts_as_durable_map Pivot.isMap SectorBytes.codec_crc SectorBytes.codec_superblock
    ⟨_, Mkfs.init h kind, hr⟩

/-- **Synchronised changes stay.** -/
theorem synced_is_kept {contents : List UInt8} (h : WrittenIn mkfs contents) {kind : ByteDisk.Kind}
    {pre mid post : List (Option (Label Node))} {s : State Node} {id : Nat} {l1 l2 : Option (Label Node)}
    (h1 : ui l1 = .pushSync id) (h2 : ui l2 = .popSync id) (hm : ∀ l ∈ mid, ui l ≠ .crash)
    (hr : (store kind).Run ⟨.unready, Committer.init, still contents⟩ (pre ++ (l1 :: mid ++ l2 :: post)) s) :
    ∃ cl cl', Client.machine.Exec (pre.map ui) cl ∧
      Client.machine.Exec ((pre ++ (l1 :: mid ++ l2 :: post)).map ui) cl' ∧ cl.log <+: cl'.log :=
  C62.synced_is_kept Pivot.isMap SectorBytes.codec_crc SectorBytes.codec_superblock h1 h2 hm
    ⟨_, Mkfs.init h kind, hr⟩

/-- **The parts of the disk stay apart**: no two requests meet where one of them writes. -/
theorem no_conflict {contents : List UInt8} (h : WrittenIn mkfs contents) {kind : ByteDisk.Kind}
    {tr : List (Option (Label Node))} {s : State Node}
    (hr : (store kind).Run ⟨.unready, Committer.init, still contents⟩ tr s) :
    (∀ i j w w', s.d.reqWrites i = some w → s.d.reqWrites j = some w' → i ≠ j →
      ∀ a, ¬ (w.addr ≤ a ∧ a < w.addr + w.bytes.length ∧ w'.addr ≤ a ∧ a < w'.addr + w'.bytes.length)) ∧
    (∀ i j w l, s.d.reqWrites i = some w → s.d.reqReads j = some l →
      ∀ a, ¬ (w.addr ≤ a ∧ a < w.addr + w.bytes.length ∧ l.addr ≤ a ∧ a < l.addr + l.len)) :=
  C62.no_conflict Pivot.isMap SectorBytes.codec_crc SectorBytes.codec_superblock ⟨_, Mkfs.init h kind, hr⟩

/-! ### Concrete cases -/

/-- There is such a file. -/
theorem demo_file : WrittenIn mkfs Mkfs.image := Mkfs.image_written

/-- On it, the store opens and takes a put, which the client then sees. -/
theorem demo : ∃ tr s cl, (store true).Run ⟨.unready, Committer.init, still Mkfs.image⟩ tr s ∧
    Client.machine.Exec (tr.map ui) cl ∧ UIOp.put [1] [2] ∈ tr.map ui := by
  obtain ⟨tr, s, _, h⟩ := MkfsDemo.run Mkfs.image_written
  obtain ⟨cl, hc⟩ := acts_as_durable_map Mkfs.image_written h
  refine ⟨_, _, cl, h, hc, ?_⟩
  rw [List.map_append]
  exact List.mem_append_right _ (List.mem_singleton.mpr rfl)

end Verif.C64
