import Verif.Kv.JournalRecover
import Verif.Kv.StoreDemo
/-
A concrete run of the journal: load an empty journal, log an operation, synchronise, log another
one and crash while it is being written. No code is modelled here.
-/
namespace Verif.Kv.JournalDemo
open JournalSystem JournalCache
open StoreDemo (T1 vT1)

/-- One block: a put of the empty value for the empty key. -/
def blk1 : Block := [1,0,0,0, 1,0,0,0, 0,0,0,0, 0,0,0,0]
/-- One block: a put of the value `[2]` for the key `[1]`. -/
def blk2 : Block := [1,0,0,0, 1,0,0,0, 1,0,0,0, 1, 1,0,0,0, 2]

theorem parse1 : parseRange [blk1] = some [.insert [] []] := by
  rw [parseRange]; simp [blk1, le32, parse_nil, parseEntries, cut, maxLen]
theorem parse2 : parseRange [blk2] = some [.insert [1] [2]] := by
  rw [parseRange]; simp [blk2, le32, parse_nil, parseEntries, cut, maxLen]

/-- The two superblocks at first. -/
def f0 : Bool → Superblock
  | false => ⟨0, 0, 0, T1⟩
  | true => ⟨1, 0, 0, T1⟩

theorem sel0 : select f0 = true := by simp [select, f0, incr]

/-- The disk at first: no block can be read. -/
def d0 : JournalDisk.State :=
  ⟨fun _ _ => False, .empty, fun _ => none, .empty, fun w => some (f0 w), fun _ => none⟩

theorem wf0 (w : Bool) : WFSb (f0 w) := by
  cases w <;> exact ⟨by simp [f0, numJournalBlocks], by simp [f0], vT1⟩

/-- The labels of the run. -/
def trace : List VOp :=
  [.journalInternal, .journalInternal, .journalInternal, .journalInternal,
   .sendPersistentLoc T1, .journalInternal,
   .advance (.put [] []) false, .pushSync 7,
   .journalInternal, .journalInternal, .journalInternal, .journalInternal, .journalInternal,
   .popSync 7, .advance (.put [1] [2]) false, .journalInternal, .crash]

theorem init0 : (machine T1).Init ⟨start, d0⟩ := by
  refine ⟨rfl, ⟨fun _ _ h => h, rfl, fun _ => rfl, rfl⟩, f0, fun w => ⟨rfl, wf0 w⟩, ?_⟩
  rw [sel0]; exact ⟨rfl, rfl, rfl⟩

theorem finish0 {l : Loading} {d : JournalDisk.State} (h : ∀ w, l.got w = .success (f0 w)) :
    JournalSystem.Next ⟨.loading l, d⟩ (.sendPersistentLoc T1)
      ⟨.other ⟨f0 true, true, fun _ => none, fun _ => none, l.syncReqs⟩, d⟩ := by
  have := JournalSystem.Next.machine (s := ⟨.loading l, d⟩) (JournalCache.Next.finishSb (f := f0) h)
    JournalDisk.Next.stutter
  rw [sel0] at this
  exact this

theorem run0 : ∃ s, (machine T1).Exec trace s ∧ s.m = start ∧
    s.d.sb = setAt (fun w => some (f0 w)) false (some ⟨2, 0, 1, T1⟩) ∧
    s.d.journal 0 = some blk1 ∧ s.d.journal 1 = some [255] := by
  have r : (machine T1).Run ⟨start, d0⟩ trace ⟨start, {
      readSb := fun _ _ => False
      readJ := .empty
      writeSb := fun _ => none
      writeJ := .empty
      sb := setAt (fun w => some (f0 w)) false (some ⟨2, 0, 1, T1⟩)
      journal := fun i => if i = 0 then some blk1 else if i = 1 then some [255] else none }⟩ := by
    unfold trace
    refine .cons (.machine (dop := .reqReadSb 0 false) (.pageSb rfl rfl)
      (.recvReadSb (fun x h => h))) ?_
    refine .cons (.machine (dop := .respReadSb 0 false (some (f0 false)))
      (.pageSbOk (by simp [setAt]) (wf0 _))
      (.ackReadSb (by simp [setAt]) (by intro x hx; cases hx; rfl))) ?_
    refine .cons (.machine (dop := .reqReadSb 0 true) (.pageSb rfl rfl)
      (.recvReadSb (by intro x; cases x <;> simp [setAt, d0]))) ?_
    refine .cons (.machine (dop := .respReadSb 0 true (some (f0 true)))
      (.pageSbOk (by simp [setAt]) (wf0 _))
      (.ackReadSb (by simp [setAt]) (by intro x hx; cases hx; rfl))) ?_
    refine .cons (finish0 (by intro w; cases w <;> rfl)) ?_
    refine .cons (.machine (.finishOther (p := 0) (replay := []) (by simp [f0, numJournalBlocks])
      (by simp [f0]) (by intro w; cases w <;> simp [part, f0])
      (by simp [fullRange, part, f0, parse_nil])) .stutter) ?_
    refine .cons (.machine (.advance rfl) .stutter) ?_
    refine .cons (.machine (.pushSync (by simp [State.syncReqs, PMap.empty])) .stutter) ?_
    refine .cons (.machine (dop := .reqWriteJ 1 none 0 [blk1])
      (.writeJournal (jr := [blk1]) rfl parse1 (by simp [f0, numJournalBlocks]) (by simp) rfl
        (by simp [f0, numJournalBlocks]) (by simp [f0]))
      (.recvWriteJ1 rfl (by simp [numJournalBlocks]) (by simp [numJournalBlocks]))) ?_
    refine .cons (.machine (dop := .respWriteJ 1) (.writeJournalResp (by simp [ids]))
      (.ackWriteJ (by simp; rfl))) ?_
    refine .cons (.machine (dop := .reqWriteSb 2 false ⟨2, 0, 1, T1⟩)
      (.advanceLog rfl (by simp [ids]) rfl (by simp [f0, numJournalBlocks]) (by simp [f0, incr]))
      (.recvWriteSb (by intro x i b h; cases h))) ?_
    refine .cons (.disk (.process (w := false) (id := 2) (sb := ⟨2, 0, 1, T1⟩) rfl)) ?_
    refine .cons (.machine (dop := .respWriteSb 2 false) (.logResp rfl rfl rfl)
      (.ackWriteSb (sb := ⟨2, 0, 1, T1⟩) rfl rfl)) ?_
    refine .cons (.machine (.popSync rfl) .stutter) ?_
    refine .cons (.machine (.advance rfl) .stutter) ?_
    refine .cons (.machine (dop := .reqWriteJ 3 none 1 [blk2])
      (.writeJournal (jr := [blk2]) rfl parse2 (by simp [f0, numJournalBlocks]) (by simp) rfl
        (by simp [numJournalBlocks]) (by simp [f0, numJournalBlocks]))
      (.recvWriteJ1 rfl (by simp [numJournalBlocks]) (by simp [numJournalBlocks]))) ?_
    refine .cons (JournalSystem.Next.crash ?_) (.nil _)
    refine ⟨⟨fun _ _ h => h, rfl, fun _ => rfl, rfl⟩, rfl, ?_⟩
    intro i hi hw
    have := hw 3 ⟨1, 1⟩ rfl
    have hi1 : i ≠ 1 := by rintro rfl; exact this (.inl (by simp))
    by_cases h0 : i = 0
    · subst h0; rfl
    · have : splice (splice (fun _ => none) 0 [blk1]) 1 [blk2] i = none := by
        have hn : numJournalBlocks > 2 := by decide
        have h2 : ¬ InCyclic i ⟨1, [blk2].length⟩ := by
          simp only [InCyclic, List.length_singleton]; omega
        have h1 : ¬ InCyclic i ⟨0, [blk1].length⟩ := by
          simp only [InCyclic, List.length_singleton]; omega
        rw [splice_other h2, splice_other h1]
      simpa [h0, hi1, d0] using this
  exact ⟨_, ⟨_, init0, r⟩, rfl, rfl, rfl, rfl⟩

end Verif.Kv.JournalDemo
