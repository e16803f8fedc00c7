import Verif.Impl.ImplementationRefine
import Verif.Impl.SystemDemo
/-
Concrete executions of the executable program: witnesses for C33 and C41. No code is modelled here.
-/
namespace Verif.Impl
open AsyncDisk (Req Resp)
open Verif.Sys (one_inj one_self union_one union_empty take_empty take_one remove_one insert_remove)

variable {c : Codec} {ic : ICodec c} {w : Variant} {g : Geometry}

open Classical in
/-- The part of `unmarshall`'s contract that can be met, can be met. -/
theorem exists_icodec (c : Codec) : Nonempty (ICodec c) := by
  let P (p : RawPage) (j : Journal) : Prop := j.seqStart = 0 ∧ c.marshall j.superblock = p
  let un (p : RawPage) : Journal := if h : ∃ j, P p j then Classical.choose h else Journal.newEmpty
  have key : ∀ j : Journal, j.seqStart = 0 → P (c.marshall j.superblock) (un (c.marshall j.superblock)) := by
    intro j hj
    have h : ∃ j', P (c.marshall j.superblock) j' := ⟨j, hj, rfl⟩
    simp only [un, dif_pos h]
    exact Classical.choose_spec h
  refine ⟨⟨un, fun j hj => (key j hj).1, fun j hj => ?_⟩⟩
  have := congrArg c.unmarshall (key j hj).2
  rwa [c.roundTrip, c.roundTrip] at this

theorem unmarshall_journal (ic : ICodec c) {j : Journal} (hj : j.seqStart = 0) :
    (mapAfter (ic.unmarshall (c.marshall j.superblock)).msgs).value = (mapAfter j.msgs).value ∧
      (ic.unmarshall (c.marshall j.superblock)).msgs.length = j.msgs.length := by
  have h1 := ic.start j hj
  have h2 := ic.roundTrip j hj
  rw [superblock_eq h1, superblock_eq hj] at h2
  injection h2 with h2 h3
  rw [superblock_eq hj]
  exact ⟨h2, h3⟩

theorem unmarshall_mkfs (ic : ICodec c) :
    ic.unmarshall (c.marshall ⟨TotalKMMap.empty, 0⟩) = Journal.newEmpty := by
  have e : Journal.newEmpty.superblock = ⟨TotalKMMap.empty, 0⟩ := by rw [superblock_eq rfl]; rfl
  have h1 := ic.start Journal.newEmpty rfl
  have h2 := (unmarshall_journal ic (j := Journal.newEmpty) rfl).2
  rw [e] at h1 h2
  cases hj : ic.unmarshall (c.marshall ⟨TotalKMMap.empty, 0⟩) with
  | mk m st =>
    rw [hj] at h1 h2
    have : m = [] := List.length_eq_zero_iff.mp h2
    simp only at h1
    subst this; subst h1; rfl

/-! ### Disk steps -/

theorem disk_issue (g : Geometry) (id : AsyncDisk.ID) (r : Req) (ct : PMap Address RawPage) :
    AsyncDisk.Next g ⟨PMap.empty, PMap.empty, ct⟩ (.ops (one id r) PMap.empty) ⟨one id r, PMap.empty, ct⟩ := by
  have := AsyncDisk.Next.ops (g := g) (s := ⟨PMap.empty, PMap.empty, ct⟩)
    (rq := one id r) (rs := PMap.empty) (by simp [PMap.Has]) (by simp [PMap.Has]) (by simp)
  simpa only [union_one, take_empty] using this

theorem disk_take (g : Geometry) (id : AsyncDisk.ID) (r : Resp) (ct : PMap Address RawPage) :
    AsyncDisk.Next g ⟨PMap.empty, one id r, ct⟩ (.ops PMap.empty (one id r)) ⟨PMap.empty, PMap.empty, ct⟩ := by
  have := AsyncDisk.Next.ops (g := g) (s := ⟨PMap.empty, one id r, ct⟩)
    (rq := PMap.empty) (rs := one id r) (by simp [PMap.Has]) (by simp [PMap.Has]) (fun _ _ h => h)
  simpa only [union_empty, take_one] using this

theorem disk_read (hg : sbAddr.wf g) (id : AsyncDisk.ID) {ct : PMap Address RawPage} {page}
    (hc : ct sbAddr = some page) :
    AsyncDisk.Next g ⟨one id (.read sbAddr), PMap.empty, ct⟩ (.didRead id sbAddr page)
      ⟨PMap.empty, one id (.read page), ct⟩ := by
  have := AsyncDisk.Next.read (g := g) (s := ⟨one id (.read sbAddr), PMap.empty, ct⟩)
    (id := id) (a := sbAddr) (d := page) (by simp) hg
    (by simp only; intro x hx; rw [hc] at hx; cases hx; rfl)
  simp only [remove_one] at this; exact this

theorem disk_write (hg : sbAddr.wf g) (id : AsyncDisk.ID) (ct : PMap Address RawPage) (page : RawPage) :
    AsyncDisk.Next g ⟨one id (.write sbAddr page), PMap.empty, ct⟩ (.didWrite id sbAddr page)
      ⟨PMap.empty, one id .write, ct.insert sbAddr page⟩ := by
  have := AsyncDisk.Next.write (g := g) (s := ⟨one id (.write sbAddr page), PMap.empty, ct⟩)
    (id := id) (a := sbAddr) (d := page) (by simp) hg
  simp only [remove_one] at this; exact this

/-! ### The program from power-on -/

def fresh (c : Codec) : State :=
  { recovery := .begin
    pc := .idle
    journal := Journal.newEmpty
    satisfied := []
    deferred := []
    disk := ⟨PMap.empty, PMap.empty, PMap.empty.insert sbAddr (c.marshall ⟨TotalKMMap.empty, 0⟩)⟩
    requests := MSet.empty
    replies := MSet.empty
    syncRequests := MSet.empty
    syncReplies := MSet.empty
    idHistory := MSet.empty }

theorem fresh_init (c : Codec) : Init c (fresh c) :=
  ⟨by simp [fresh], rfl, rfl, rfl, rfl, rfl, rfl, rfl, rfl, rfl, rfl, rfl, rfl⟩

theorem run_recover (hg : sbAddr.wf g) {s : State} {page} (id : AsyncDisk.ID)
    (hp : s.recovery = .begin) (hq : s.disk.requests = PMap.empty)
    (hr : s.disk.responses = PMap.empty) (hc : s.disk.content sbAddr = some page) :
    (machine c ic w g).Run s (Sys.recoverTrace id page)
      { s with recovery := .complete, journal := w.restore s.journal (ic.unmarshall page) } := by
  obtain ⟨r, pc, j, sa, de, ⟨q, rs, ct⟩, rest⟩ := s
  simp only at hp hq hr hc; subst hp; subst hq; subst hr
  refine .cons (.recoverBegin rfl (disk_issue g id (.read sbAddr) ct)) ?_
  refine .cons (.diskRead (disk_read hg id hc)) ?_
  exact .single (.recoverEnd rfl (disk_take g id (.read page) ct))

/-- From the main loop: a put arrives and is executed. -/
theorem run_put {s : State} (k : Key) (v : Value) (id : ReqId) (hp : s.recovery = .complete)
    (hpc : s.pc = .idle) (hid : ¬ s.idHistory.Has id) :
    (machine c ic w g).Run s
      [.acceptRequest ⟨.put k v, id⟩, .execute ⟨.put k v, id⟩ ⟨.put, id⟩, .deliverReply ⟨.put, id⟩]
      { s with journal := s.journal.insert k v, idHistory := s.idHistory.insert id } := by
  obtain ⟨r, pc, j, sa, de, d, rq, rp, sq, sp, ih⟩ := s
  refine .cons (.acceptRequest hid) ?_
  refine .cons (.put hp hpc (MSet.has_insert.mpr (.inl rfl))) ?_
  have h := Next.deliverReply (c := c) (ic := ic) (w := w) (g := g) (s := ⟨r, pc, j.insert k v, sa, de, d, rq,
    rp.insert ⟨.put, id⟩, sq, sp, ih.insert id⟩) (reply := ⟨.put, id⟩) (MSet.has_insert.mpr (.inl rfl))
  simp only [insert_remove] at h ⊢
  exact .single h

/-- From the main loop with nothing pending: a sync arrives, the superblock write starts. -/
theorem run_sync_start {s : State} (id : SyncReqId) (rid : AsyncDisk.ID) (hp : s.recovery = .complete)
    (hpc : s.pc = .idle) (hid : ¬ s.idHistory.Has id) (h1 : s.satisfied = []) (h2 : s.deferred = [])
    (hq : s.disk.requests = PMap.empty) (hr : s.disk.responses = PMap.empty) :
    (machine c ic w g).Run s
      [.acceptSync id, .programAcceptSync id,
       .programDisk (one rid (.write sbAddr (c.marshall s.journal.superblock))) PMap.empty]
      { s with
        satisfied := [id]
        idHistory := s.idHistory.insert id
        disk := { s.disk with requests := one rid (.write sbAddr (c.marshall s.journal.superblock)) } } := by
  obtain ⟨r, pc, j, sa, de, ⟨q, rs, ct⟩, rq, rp, sq, sp, ih⟩ := s
  simp only at hp hpc h1 h2 hq hr; subst hp; subst hpc; subst h1; subst h2; subst hq; subst hr
  refine .cons (.acceptSync hid) ?_
  have h := Next.syncRequest (c := c) (ic := ic) (w := w) (g := g)
    (s := ⟨.complete, .idle, j, [], [], ⟨PMap.empty, PMap.empty, ct⟩, rq, rp, sq.insert id, sp, ih.insert id⟩)
    (id := id) rfl rfl (MSet.has_insert.mpr (.inl rfl))
  simp only [insert_remove] at h
  refine .cons h ?_
  exact .single (.launchWrite rfl rfl (by simp) rfl
    (disk_issue g rid (.write sbAddr (c.marshall j.superblock)) ct))

/-- While a write is under way: another sync arrives and is deferred. -/
theorem run_sync_defer {s : State} (id : SyncReqId) (hp : s.recovery = .complete)
    (hpc : s.pc = .idle) (hid : ¬ s.idHistory.Has id) (h1 : s.satisfied ≠ []) :
    (machine c ic w g).Run s [.acceptSync id, .programAcceptSync id, .noop]
      { s with deferred := s.deferred ++ [id], idHistory := s.idHistory.insert id } := by
  obtain ⟨r, pc, j, sa, de, d, rq, rp, sq, sp, ih⟩ := s
  simp only at hp hpc; subst hp; subst hpc
  refine .cons (.acceptSync hid) ?_
  have h := Next.syncRequest (c := c) (ic := ic) (w := w) (g := g)
    (s := ⟨.complete, .idle, j, sa, de, d, rq, rp, sq.insert id, sp, ih.insert id⟩)
    (id := id) rfl rfl (MSet.has_insert.mpr (.inl rfl))
  simp only [insert_remove] at h
  refine .cons h ?_
  exact .single (.launchSkip rfl rfl (.inr h1))

/-- The write completes; the one request it covers is answered; the program turns to the deferred
requests. -/
theorem run_sync_end (hg : sbAddr.wf g) {s : State} {id : SyncReqId} {rid : AsyncDisk.ID} {page}
    (hp : s.recovery = .complete) (hpc : s.pc = .idle) (h1 : s.satisfied = [id])
    (hq : s.disk.requests = one rid (.write sbAddr page)) (hr : s.disk.responses = PMap.empty) :
    (machine c ic w g).Run s
      [.diskWrite rid sbAddr page, .programDisk PMap.empty (one rid .write), .programDeliverSync id, .noop]
      { s with
        pc := .launch
        satisfied := []
        syncReplies := s.syncReplies.insert id
        disk := ⟨PMap.empty, PMap.empty, s.disk.content.insert sbAddr page⟩ } := by
  obtain ⟨r, pc, j, sa, de, ⟨q, rs, ct⟩, rq, rp, sq, sp, ih⟩ := s
  simp only at hp hpc h1 hq hr; subst hp; subst hpc; subst h1; subst hq; subst hr
  refine .cons (.diskWrite (disk_write hg rid ct page)) ?_
  refine .cons (.diskResponse rfl rfl (disk_take g rid .write _)) ?_
  refine .cons (.reply (ready := []) rfl rfl) ?_
  exact .single (.repliesDone rfl rfl)

/-- The journal of the demonstrations after the first and after the second put. -/
def demoJ1 : Journal := Journal.newEmpty.insert 1 7
def demoJ2 : Journal := demoJ1.insert 2 8

/-- Power-on, recovery, a put, a sync; while its superblock is being written another put and another
sync; both writes complete. -/
def demoTrace (c : Codec) : List Sys.Label :=
  Sys.recoverTrace 0 (c.marshall ⟨TotalKMMap.empty, 0⟩) ++
  [.acceptRequest ⟨.put 1 7, 10⟩, .execute ⟨.put 1 7, 10⟩ ⟨.put, 10⟩, .deliverReply ⟨.put, 10⟩] ++
  [.acceptSync 11, .programAcceptSync 11,
   .programDisk (one 1 (.write sbAddr (c.marshall demoJ1.superblock))) PMap.empty] ++
  [.acceptRequest ⟨.put 2 8, 12⟩, .execute ⟨.put 2 8, 12⟩ ⟨.put, 12⟩, .deliverReply ⟨.put, 12⟩] ++
  [.acceptSync 13, .programAcceptSync 13, .noop] ++
  [.diskWrite 1 sbAddr (c.marshall demoJ1.superblock), .programDisk PMap.empty (one 1 .write),
   .programDeliverSync 11, .noop] ++
  [.programDisk (one 2 (.write sbAddr (c.marshall demoJ2.superblock))) PMap.empty] ++
  [.diskWrite 2 sbAddr (c.marshall demoJ2.superblock), .programDisk PMap.empty (one 2 .write),
   .programDeliverSync 13, .noop] ++
  [.noop]

/-- the state at its end -/
def demoEnd (c : Codec) : State :=
  { fresh c with
    recovery := .complete
    journal := demoJ2
    disk := ⟨PMap.empty, PMap.empty, ((PMap.empty.insert sbAddr (c.marshall ⟨TotalKMMap.empty, 0⟩)).insert
      sbAddr (c.marshall demoJ1.superblock)).insert sbAddr (c.marshall demoJ2.superblock)⟩
    syncReplies := (MSet.empty.insert 11).insert 13
    idHistory := (((MSet.empty.insert 10).insert 11).insert 12).insert 13 }

theorem demo_exec (c : Codec) (ic : ICodec c) (w : Variant) (g : Geometry) (hg : sbAddr.wf g)
    (hw : w.restore Journal.newEmpty Journal.newEmpty = Journal.newEmpty) :
    (machine c ic w g).Exec (demoTrace c) (demoEnd c) := by
  refine ⟨fresh c, fresh_init c, ?_⟩
  have h1 := run_recover (c := c) (ic := ic) (w := w) hg (s := fresh c)
    (page := c.marshall ⟨TotalKMMap.empty, 0⟩) 0 rfl rfl rfl (by simp [fresh])
  rw [unmarshall_mkfs, show (fresh c).journal = Journal.newEmpty from rfl, hw] at h1
  have h2 := h1.append (run_put (c := c) (ic := ic) (w := w) (g := g) 1 7 10 rfl rfl (by simp [fresh]))
  have h3 := h2.append (run_sync_start (c := c) (ic := ic) (w := w) (g := g) 11 1 rfl rfl
    (by simp only [MSet.has_insert, fresh]; simp) rfl rfl rfl rfl)
  have h4 := h3.append (run_put (c := c) (ic := ic) (w := w) (g := g) 2 8 12 rfl rfl
    (by simp only [MSet.has_insert, fresh]; simp))
  have h5 := h4.append (run_sync_defer (c := c) (ic := ic) (w := w) (g := g) 13 rfl rfl
    (by simp only [MSet.has_insert, fresh]; simp) (by simp))
  have h6 := h5.append (run_sync_end (c := c) (ic := ic) (w := w) hg (id := 11) (rid := 1) rfl rfl rfl rfl rfl)
  have h7 := h6.snoc (.launchWrite (id := 2) rfl rfl (by simp [fresh]) rfl (disk_issue g 2 _ _))
  have h8 := h7.append (run_sync_end (c := c) (ic := ic) (w := w) hg (id := 13) (rid := 2) rfl rfl rfl rfl rfl)
  have h9 := h8.snoc (.launchSkip rfl rfl (.inl rfl))
  exact h9

/-- A query arrives and is executed and answered. -/
theorem run_query {s : State} (k : Key) (v : Value) (id : ReqId) (hw : w.answersQueries = true)
    (hp : s.recovery = .complete) (hpc : s.pc = .idle) (hid : ¬ s.idHistory.Has id)
    (hv : s.journal.toStampedMap.value k = .define v) :
    (machine c ic w g).Run s
      [.acceptRequest ⟨.query k, id⟩, .execute ⟨.query k, id⟩ ⟨.query v, id⟩, .deliverReply ⟨.query v, id⟩]
      { s with idHistory := s.idHistory.insert id } := by
  obtain ⟨r, pc, j, sa, de, d, rq, rp, sq, sp, ih⟩ := s
  refine .cons (.acceptRequest hid) ?_
  refine .cons (.query hw hp hpc (MSet.has_insert.mpr (.inl rfl)) hv) ?_
  have h := Next.deliverReply (c := c) (ic := ic) (w := w) (g := g) (s := ⟨r, pc, j, sa, de, d, rq,
    rp.insert ⟨.query v, id⟩, sq, sp, ih.insert id⟩) (reply := ⟨.query v, id⟩) (MSet.has_insert.mpr (.inl rfl))
  simp only [insert_remove] at h ⊢
  exact .single h

/-- The state after `demoTrace`, a crash and recovery. -/
def demoBack (c : Codec) (ic : ICodec c) (w : Variant) : State :=
  { demoEnd c with
    journal := w.restore Journal.newEmpty (ic.unmarshall (c.marshall demoJ2.superblock)) }

theorem demo_back (c : Codec) (ic : ICodec c) (w : Variant) (g : Geometry) (hg : sbAddr.wf g)
    (hw : w.restore Journal.newEmpty Journal.newEmpty = Journal.newEmpty) :
    (machine c ic w g).Exec (demoTrace c ++ [.crash] ++ Sys.recoverTrace 3 (c.marshall demoJ2.superblock))
      (demoBack c ic w) := by
  have h1 := (demo_exec c ic w g hg hw).snoc (.crash .crash)
  exact h1.append (run_recover hg 3 rfl rfl rfl (by simp [demoEnd]))

/-- ... and a query of key 1 answered with `v`. -/
def demoQueryTrace (c : Codec) (v : Value) : List Sys.Label :=
  demoTrace c ++ [.crash] ++ Sys.recoverTrace 3 (c.marshall demoJ2.superblock) ++
    [.acceptRequest ⟨.query 1, 20⟩, .execute ⟨.query 1, 20⟩ ⟨.query v, 20⟩, .deliverReply ⟨.query v, 20⟩]

/-- The finished program answers 7. -/
theorem demo_query_finished (c : Codec) (ic : ICodec c) (g : Geometry) (hg : sbAddr.wf g) :
    ∃ s, (machine c ic finished g).Exec (demoQueryTrace c 7) s := by
  refine ⟨_, (demo_back c ic finished g hg rfl).append (run_query 1 7 20 rfl rfl rfl ?_ ?_)⟩
  · simp only [MSet.has_insert, demoBack, demoEnd, fresh]; simp
  · have h1 := unmarshall_journal ic (j := demoJ2) rfl
    show (ic.unmarshall (c.marshall demoJ2.superblock)).toStampedMap.value 1 = _
    rw [toStampedMap_eq (ic.start demoJ2 rfl), h1.1]
    decide

/-- A program that answers queries but, like the code, does not restore the journal answers 0. -/
theorem demo_query_unrestored (c : Codec) (ic : ICodec c) (g : Geometry) (hg : sbAddr.wf g) :
    ∃ s, (machine c ic ⟨asWritten.restore, true⟩ g).Exec (demoQueryTrace c 0) s := by
  refine ⟨_, (demo_back c ic ⟨asWritten.restore, true⟩ g hg rfl).append (run_query 1 0 20 rfl rfl rfl ?_ ?_)⟩
  · simp only [MSet.has_insert, demoBack, demoEnd, fresh]; simp
  · show Journal.newEmpty.toStampedMap.value 1 = _
    rw [toStampedMap_eq rfl]
    decide

/-- The code as written: after the crash, the next sync writes the empty map. -/
theorem demo_overwrite (c : Codec) (ic : ICodec c) (g : Geometry) (hg : sbAddr.wf g) :
    ∃ s, (machine c ic asWritten g).Exec
      (demoTrace c ++ [.crash] ++ Sys.recoverTrace 3 (c.marshall demoJ2.superblock) ++
        [.acceptSync 21, .programAcceptSync 21,
          .programDisk (one 4 (.write sbAddr (c.marshall Journal.newEmpty.superblock))) PMap.empty] ++
        [.diskWrite 4 sbAddr (c.marshall Journal.newEmpty.superblock), .programDisk PMap.empty (one 4 .write),
          .programDeliverSync 21, .noop]) s ∧
      s.recovery = .complete ∧ s.disk.requests = PMap.empty ∧
      s.disk.content sbAddr = some (c.marshall ⟨TotalKMMap.empty, 0⟩) := by
  have h1 := (demo_back c ic asWritten g hg rfl).append (run_sync_start (c := c) (ic := ic) (w := asWritten)
    (g := g) 21 4 rfl rfl
    (by simp only [MSet.has_insert, demoBack, demoEnd, fresh]; simp) rfl rfl rfl rfl)
  have h2 := h1.append (run_sync_end (c := c) (ic := ic) (w := asWritten) hg (id := 21) (rid := 4) rfl rfl rfl rfl rfl)
  refine ⟨_, h2, rfl, rfl, ?_⟩
  have e : Journal.newEmpty.superblock = ⟨TotalKMMap.empty, 0⟩ := by rw [superblock_eq rfl]; rfl
  simp only [PMap.insert_same]
  show some (c.marshall Journal.newEmpty.superblock) = _
  rw [e]

end Verif.Impl
