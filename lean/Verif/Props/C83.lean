import Verif.Kv.Waits
import Verif.Kv.DrivenDemo
import Verif.Props.C81
import Verif.Props.C82
/-
C83. `Sync` waits only for a write that is on its way, so that its `waitForOne` does not end the program.

Specification: `WaitForOne h none` (Verif/Kv/DiskHandler.lean) is `waitForOne` ending the program with "waitForOne
called with no tasks"; `popSyncWaits` (Verif/Kv/Waits.lean) is what `handle_PopSync` answers for `wait`.
-/
namespace Verif.C83
open Verif.Kv Verif.Kv.Driven
open Verif.Kv.BlockImpl (Env)
open Verif.Kv.Pivot (Node)
open Verif.Kv.Mkfs (mkfs WrittenIn tableLoc)
open Verif.Kv.SectorBytes (codec)
open Verif.Kv.DiskHandler (maxFile opened WaitForOne)

/-- The program on its driver. -/
noncomputable abbrev store := Driven.machine codec (WrittenIn mkfs)

/-- **What `Sync` is told to wait for is there**: whenever `handle_PopSync` says to wait, the driver has a write that
is not answered. -/
theorem waits_for_a_write {s : State} (h : store.Reachable s) {id : Nat} {graphSync : Bool}
    (hw : popSyncWaits s.b s.s id graphSync = true) : s.h.writes ≠ [] := by
  obtain ⟨tr, s0, ⟨file, hf, hl, rfl⟩, hr⟩ := h
  obtain ⟨_, d, tr', k1, k2, _, _⟩ := run_sim tableLoc hr (.opened hl) (.opened file)
  obtain ⟨i, hi⟩ := FullImpl.waits_out SectorBytes.codec_crc SectorBytes.codec_superblock C67.node_wf
    (loc := tableLoc)
    ⟨⟨.unready, Committer.init, ByteSystem.still (DiskHandler.fill file maxFile)⟩,
      ⟨rfl, Mkfs.init (C81.written_fill hf) ⟨true, true⟩⟩, k1⟩ hw
  exact rel_writes k2 hi

/-- **`Sync` is not ended by its waiting.** (`Application::Sync`, Framework.cpp:510-529.) -/
theorem sync_wait_ok {s : State} (h : store.Reachable s) {id : Nat} {graphSync : Bool}
    (hw : popSyncWaits s.b s.s id graphSync = true) : ¬ WaitForOne s.h none :=
  C82.wait_ok (handler_reachable h) (waits_for_a_write h hw)

/-- When it says to wait, the block side asks the disk for nothing. -/
theorem syncWaits_asks {r : BlockImpl.Ready Node} (h : r.syncWaits = true) (io : Env Node) :
    (r.sync io).dop = .none := by
  unfold BlockImpl.Ready.syncWaits at h
  unfold BlockImpl.Ready.sync
  split at h
  · rw [if_pos ‹_›]; rfl
  · rw [if_neg ‹_›]
    split at h
    · cases h
    · rename_i e
      simp only [e]
      split at h
      · cases h
      · rename_i e2
        split at h
        · simp only [e2]
          rw [if_pos ‹_›]; rfl
        · cases h

/-- When it says to wait, the committer does nothing. -/
theorem advanceWaits_asks {s : Committer.State} (h : s.advanceWaits = true) (crc : List UInt8 → List UInt8) (loc : Loc)
    (id1 id2 : ReqId) : s.tryAdvanceLog crc id1 id2 = (.none, s) ∧ s.tryAdvanceLocation crc loc id1 id2 = (.none, s) := by
  unfold Committer.State.advanceWaits at h
  unfold Committer.State.tryAdvanceLog Committer.State.tryAdvanceLocation
  split at h
  · split at h
    · cases h
    · split at h
      · cases h
      · simp only [if_neg ‹¬ (_ ∨ _)›, if_neg ‹¬ _ = []›, ite_self]
        exact ⟨trivial, trivial⟩
  · simp only [if_neg ‹_›]
    exact ⟨trivial, trivial⟩

/-! ### A concrete case -/

theorem demo_on {file : List UInt8} (hw : WrittenIn mkfs file) (hl : file.length ≤ maxFile) :
    ∃ s, store.Reachable s ∧ popSyncWaits s.b s.s 1 false = true ∧ s.h.writes.length = 1 ∧ ¬ WaitForOne s.h none ∧
      ∃ h', WaitForOne s.h (some h') := by
  obtain ⟨tr, bm, s, _, ho, h1⟩ := DrivenDemo.run_ready hw
  obtain ⟨s', w, h2, k1, k2, k3, k4, k5, k6, k7, k8⟩ := DrivenDemo.first_write (cs := file) ho
    (b := .ready ((FullImplDemo.s2 bm).writeSame 0 MkfsDemo.n1))
  have hr : store.Reachable ⟨_, s', ⟨5, [(4, ⟨w, [], true, false, false⟩)], [], 1, 0, file⟩⟩ :=
    ⟨_, _, ⟨file, hw, hl, rfl⟩, h1.append ((DrivenDemo.push_run ho).append h2)⟩
  have hp : popSyncWaits (.ready ((FullImplDemo.s2 bm).writeSame 0 MkfsDemo.n1)) s' 1 false = true := by
    unfold popSyncWaits
    rw [k8, if_neg (by decide)]
    dsimp only
    rw [if_pos ⟨k1, k2⟩]
    unfold doSyncWaits
    rw [if_neg (by rw [k3]; decide), if_neg (by rw [k4]; simp), if_neg (by decide)]
    unfold Committer.State.advanceWaits
    rw [if_pos k4, if_neg (by rw [k5, k6]; simp), if_neg (by rw [k7]; simp)]
  refine ⟨_, hr, hp, rfl, sync_wait_ok hr hp, _, .waits ?_ ?_ .nil⟩
  · intro x hx
    rw [List.mem_singleton.mp hx]
  · exact fun e => nomatch e

/-- On a fresh file a put is made and `Sync` called: the journal is being written, and `handle_PopSync` says to
wait; `waitForOne` waits, and comes back. -/
theorem demo : ∃ s, store.Reachable s ∧ popSyncWaits s.b s.s 1 false = true ∧ s.h.writes.length = 1 ∧
    ¬ WaitForOne s.h none ∧ ∃ h', WaitForOne s.h (some h') :=
  demo_on Mkfs.image_written C81.image_fits

end Verif.C83
