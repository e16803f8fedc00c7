import Verif.Kv.Driven
import Verif.Kv.FullImplDemo
/-
A run of the whole code on its disk driver and a fresh file: the store is opened, a put is made and
synchronised, and the machine stops. No code is modelled here.
-/
namespace Verif.Kv.DrivenDemo
open ByteDisk BlockSystem Mkfs
open BlockImpl (Env EnvOk Out Ready)
open IndTable (TRow Tab ofRows rowsView rawRows)
open FullImpl (BlockNext run)
open ByteSystem (byteOf bytesAt superblockAt ValidWrite blockOp journalOp Invisible)
open SectorBytes (codec codec_superblock)
open Pivot (emptyNode Node)
open TreeImpl (S kids)
open FullImplDemo (row tab tab_of view_of opens s0 s2 append_replayEmpty)

/-- The machine. -/
noncomputable abbrev M := Driven.machine codec (WrittenIn mkfs)

/-- The driver with nothing out, after some requests. -/
def idle (n : Nat) (cs : List UInt8) : DiskHandler.State := { DiskHandler.opened cs with curId := n }

/-- A step of the program that leaves the driver alone. -/
theorem step_run {n : Nat} {cs : List UInt8} {b b1 : BlockImpl.State Node} {s s1 : Committer.State} {v : VOp}
    {x : BlockCache.Step Node} (h1 : BlockNext b (blockOp codec .none) v x b1)
    (k1 : Committer.Next codec.crc s .none v s1) :
    M.Run ⟨b, s, idle n cs⟩ [some ⟨v, some x⟩] ⟨b1, s1, idle n cs⟩ := by
  have st : Driven.Next codec ⟨b, s, idle n cs⟩ (some ⟨v, some x⟩) ⟨b1, s1, idle n cs⟩ :=
    .machine (.valid (dop := .none) (MkfsDemo.no_write fun _ _ e => nomatch e) h1 k1) .none
  exact .cons st (.nil _)

/-- A read: a request, and an answer. -/
theorem read_run {id : Nat} {cs : List UInt8} {b b1 b2 : BlockImpl.State Node}
    {s s1 s2 : Committer.State} {l : Loc} {v1 v2 : VOp} {x1 x2 : BlockCache.Step Node}
    (hlen : l.addr + l.len ≤ cs.length)
    (h1 : BlockNext b (blockOp codec (.reqRead id l)) v1 x1 b1)
    (k1 : Committer.Next codec.crc s (.reqRead id l) v1 s1)
    (h2 : BlockNext b1 (blockOp codec (.respRead id ⟨l.addr, bytesAt (byteOf cs) l⟩)) v2 x2 b2)
    (k2 : Committer.Next codec.crc s1 (.respRead id ⟨l.addr, bytesAt (byteOf cs) l⟩) v2 s2) :
    M.Run ⟨b, s, idle id cs⟩ [some ⟨v1, some x1⟩, some ⟨v2, some x2⟩] ⟨b2, s2, idle (id + 1) cs⟩ := by
  have e : ByteDisk.read cs l = bytesAt (byteOf cs) l := read_eq hlen
  have st : Driven.Next codec ⟨b, s, idle id cs⟩ (some ⟨v1, some x1⟩)
      ⟨b1, s1, { idle (id + 1) cs with reads := [(id, ⟨l.addr, bytesAt (byteOf cs) l⟩)] }⟩ :=
    .machine (.valid (dop := .reqRead id l) (MkfsDemo.no_write fun _ _ e => nomatch e) h1 k1)
      (.read (s := idle id cs) hlen (.inl e.symm))
  have st3 : Driven.Next codec ⟨b1, s1, { idle (id + 1) cs with reads := [(id, ⟨l.addr, bytesAt (byteOf cs) l⟩)] }⟩
      (some ⟨v2, some x2⟩) ⟨b2, s2, idle (id + 1) cs⟩ :=
    .machine (.valid (dop := .respRead id ⟨l.addr, bytesAt (byteOf cs) l⟩)
      (MkfsDemo.no_write fun _ _ e => nomatch e) h2 k2)
      (.readResponse (s := { idle (id + 1) cs with reads := [(id, ⟨l.addr, bytesAt (byteOf cs) l⟩)] }) rfl)
  exact .cons st (.cons st3 (.nil _))

theorem invisible_two {v1 v2 : VOp} {s1 s2 : BlockCache.Step Node} (h1 : v1.ui = .noop)
    (h2 : v2.ui = .noop) : Invisible [some ⟨v1, some s1⟩, some ⟨v2, some s2⟩] := by
  intro l hl
  simp only [List.mem_cons, List.not_mem_nil, or_false] at hl
  rcases hl with rfl | rfl
  · exact h1
  · exact h2

theorem read_sb {n : Nat} {cs : List UInt8} {s : Committer.State} (w : Bool) (hs : s.status = .superblock)
    (h1 : s.sbRead w = none) (h2 : s.sbGot w = .unfinished)
    (h3 : superblockAt codec cs w = some superblock) :
    M.Run ⟨.unready, s, idle n cs⟩
      [some ⟨.journalInternal, some .noop⟩, some ⟨.journalInternal, some .noop⟩]
      ⟨.unready, { s with sbGot := setAt s.sbGot w (.success superblock) }, idle (n + 1) cs⟩ := by
  obtain ⟨k1, k2⟩ := ByteSystem.superblockAt_some (c := codec) (contents := cs) (w := w) (by rw [h3]; simp)
  rw [h3] at k2
  obtain ⟨q1, _⟩ := ByteSystem.op_reqSb codec n w
  obtain ⟨q3, _⟩ := ByteSystem.op_respSb codec n w (r := ⟨(sbLoc w).addr, bytesAt (byteOf cs) (sbLoc w)⟩)
    ByteSystem.loc_of_bytes
  have p1 := Committer.Next.pageSb (crc := codec.crc) (id := n) hs h1 h2
  have e1 : s.pageInSb w n = (.reqRead n (sbLoc w), { s with sbRead := setAt s.sbRead w (some n) }) := by
    unfold Committer.State.pageInSb; rw [if_pos h1]
  rw [e1] at p1
  have p2 := Committer.Next.readSb (crc := codec.crc) (s := { s with sbRead := setAt s.sbRead w (some n) })
    (id := n) (w := w) (r := ⟨(sbLoc w).addr, bytesAt (byteOf cs) (sbLoc w)⟩) ByteSystem.loc_of_bytes
  dsimp only at p2
  rw [← codec_superblock, ← k2] at p2
  have e2 : Committer.State.readSbResp { s with sbRead := setAt s.sbRead w (some n) } w n (some superblock) =
      { s with sbGot := setAt s.sbGot w (.success superblock) } := by
    unfold Committer.State.readSbResp
    rw [if_pos (by simp)]
    dsimp only
    rw [ByteSystem.setAt_back s.sbRead w _ h1]
  rw [e2] at p2
  exact read_run (l := sbLoc w) (id := n) k1 (by rw [q1]; exact .rest (.inr (.inl rfl))) p1
    (by rw [q3]; exact .rest (.inr (.inl rfl))) p2

/-- With the root asked for. -/
def s1 (b : IndTable.Bitmap) : S := { s0 b with reads := [(3, 0)] }

/-- Nothing is written in this run. -/
def io : Env Node := ⟨3, fun _ => none, fun _ => none⟩
theorem io_ok : EnvOk io := ⟨(fun _ _ h => nomatch h), fun _ _ h => nomatch h⟩

theorem put_out (b : IndTable.Bitmap) : run (s2 b) io (.insert [1] [2] false) =
    ⟨.none, .advance (.put [1] [2]) false, .transaction [(0, emptyNode)] [.write 0 MkfsDemo.n1],
      (s2 b).writeSame 0 MkfsDemo.n1⟩ := rfl

theorem ask_out (b : IndTable.Bitmap) : run (s0 b) io (.insert [1] [2] false) =
    ⟨.reqReadNode 3 nodeLoc, .statesInternal, .pageInNodeReq 0, s1 b⟩ := rfl

theorem got_out (b : IndTable.Bitmap) : run (s1 b) io (.readNode 3 (some emptyNode)) =
    ⟨.respReadNode 3 (some emptyNode), .statesInternal, .pageInNodeResp, s2 b⟩ := rfl

/-- An opened committer, on an empty journal. -/
structure Opened (s : Committer.State) : Prop where
  status : s.status = .ready
  journalist : s.journalist = Journalist.init
  sb : s.sb = superblock
  which : s.which = false
  sbWrite : s.sbWrite = none
  writes : s.writes = []
  frozen : s.isFrozen = false
  reqs : s.syncReqs = []

/-- **A run**: the store is opened on a fresh file; a put is tried until it is done. -/
theorem run_ready {cs : List UInt8} (h : WrittenIn mkfs cs) : ∃ tr bm s', Invisible tr ∧ Opened s' ∧ M.Run ⟨.unready, Committer.init, idle 0 cs⟩
      (tr ++ [some ⟨.advance (.put [1] [2]) false, some (.transaction [(0, emptyNode)] [.write 0 MkfsDemo.n1])⟩])
      ⟨.ready ((s2 bm).writeSame 0 MkfsDemo.n1), s'.append MkfsDemo.e1, idle 4 cs⟩ := by
  obtain ⟨hS, hT, hN⟩ := reads h
  obtain ⟨bm, hb⟩ := opens
  have hlT : tableLoc.addr + tableLoc.len ≤ cs.length := (h (table1Addr, tablePart) (.tail _ (.tail _ (.head _)))).1
  have hlN : nodeLoc.addr + nodeLoc.len ≤ cs.length := by
    have e : nodeLoc.len = nodePart.length := by unfold nodeLoc; rfl
    have := (h (nodeLoc.addr, nodePart) (by unfold mkfs; exact .tail _ (.tail _ (.tail _ (.head _))))).1
    dsimp only at this
    rw [e]
    exact this
  have a1 := read_sb (n := 0) (s := Committer.init) false rfl rfl rfl (hS false)
  have a2 := read_sb (n := 1) (s := { Committer.init with
    sbGot := setAt Committer.init.sbGot false (.success superblock) }) true rfl rfl rfl (hS true)
  obtain ⟨s2', hs2⟩ : ∃ s2 : Committer.State, s2 = { Committer.init with
    sbGot := setAt (setAt Committer.init.sbGot false (.success superblock)) true (.success superblock) } :=
    ⟨_, rfl⟩
  have g1 : s2'.status = .superblock := by rw [hs2]; rfl
  have g2 : s2'.sbGot false = .success superblock := by rw [hs2]; rfl
  have g3 : s2'.sbGot true = .success superblock := by rw [hs2]; rfl
  have g4 : s2'.journalist = Journalist.init := by rw [hs2]; rfl
  have a3 : M.Run ⟨.unready, s2', idle 2 cs⟩ [some ⟨.sendPersistentLoc tableLoc, some .receiveLoc⟩]
      ⟨.loading tableLoc none, s2'.finishSb superblock superblock, idle 2 cs⟩ := by
    have := Committer.Next.finishSb (crc := codec.crc) g1 g2 g3
    exact step_run (.receiveLoc tableLoc_valid) this
  obtain ⟨s3, hs3⟩ : ∃ s3 : Committer.State, s3 = s2'.finishSb superblock superblock := ⟨_, rfl⟩
  have i1 : s3.status = .other := by rw [hs3]; rfl
  have i2 : s3.sb = superblock := by
    rw [hs3]; unfold Committer.State.finishSb; dsimp only; split <;> rfl
  have i4 : s3.journalist = Journalist.init := by rw [hs3, ← g4]; rfl
  have a4 : M.Run ⟨.loading tableLoc none, s3, idle 2 cs⟩ [some ⟨.journalInternal, some .noop⟩]
      ⟨.loading tableLoc none, s3.finishOther, idle 2 cs⟩ := by
    have := Committer.Next.tryFinishOther (crc := codec.crc) (id := 0) i1
    have e : s3.tryFinishOther 0 = (.none, s3.finishOther) := by
      unfold Committer.State.tryFinishOther
      have h0 : s3.sb.len = 0 := by rw [i2]; rfl
      have h1 : s3.sb.start = 0 := by rw [i2]; rfl
      dsimp only
      rw [h0, h1, if_neg (by simp), if_neg (by simp), if_pos (by simp)]
    rw [e] at this
    exact step_run (.rest (.inr (.inl rfl))) this
  have i3 : s3.which = false := by rw [hs3]; rfl
  have i5 : s3.syncReqs = [] := by rw [hs3, hs2]; rfl
  have ho : Opened s3.finishOther := by
    have e : s3.journalist.parse = some Journalist.init := by rw [i4]; exact FullDemo.init_parse
    unfold Committer.State.finishOther
    rw [e]
    exact ⟨rfl, by dsimp only; rw [i2]; rfl, i2, i3, rfl, rfl, rfl, i5⟩
  obtain ⟨s4, hs4⟩ : ∃ s4 : Committer.State, s4 = s3.finishOther := ⟨_, rfl⟩
  rw [← hs4] at a4 ho
  have hloc : (⟨tableLoc.addr, bytesAt (byteOf cs) tableLoc⟩ : Data).loc = tableLoc := ByteSystem.loc_of_bytes
  obtain ⟨q1, _⟩ := ByteSystem.op_reqT codec 2 tableLoc_valid
  obtain ⟨q3, _⟩ := ByteSystem.op_respT codec 2 (r := ⟨tableLoc.addr, bytesAt (byteOf cs) tableLoc⟩)
    (by rw [hloc]; exact tableLoc_valid)
  have hopen : BlockImpl.opened (Node := Node) tableLoc tab = some (s0 bm) := by
    unfold BlockImpl.opened; rw [hb]; rfl
  have a5 := read_run (l := tableLoc) (id := 2) (b := .loading tableLoc none) (b1 := .loading tableLoc (some 2))
    (b2 := .ready (s0 bm)) (s := s4) (s1 := s4) (s2 := s4)
    (v1 := .statesInternal) (v2 := .statesInternal) (x1 := .pageInTableReq) (x2 := .pageInTableResp) hlT
    (by rw [q1]; exact .pageInTable) (.away (.inl ⟨2, rfl⟩) (.inr tableLoc_valid))
    (by
      rw [q3]; dsimp only; rw [hT, ← view_of]
      exact .opened (by simp) (by intro x hx; rw [List.mem_singleton.mp hx]; exact nodeLoc_valid) tab_of hopen)
    (.readAway (.inr (.inl (by rw [hloc]; exact tableLoc_valid))) (.inl rfl))
  have hlocN : (⟨nodeLoc.addr, bytesAt (byteOf cs) nodeLoc⟩ : Data).loc = nodeLoc := ByteSystem.loc_of_bytes
  obtain ⟨q5, _⟩ := ByteSystem.op_reqN codec 3 nodeLoc_valid
  obtain ⟨q7, _⟩ := ByteSystem.op_respN codec 3 (r := ⟨nodeLoc.addr, bytesAt (byteOf cs) nodeLoc⟩)
    (by rw [hlocN]; exact nodeLoc_valid)
  have a6 := read_run (l := nodeLoc) (id := 3) (b := .ready (s0 bm)) (b1 := .ready (s1 bm))
    (b2 := .ready (s2 bm)) (s := s4) (s1 := s4) (s2 := s4) (v1 := .statesInternal) (v2 := .statesInternal)
    (x1 := .pageInNodeReq 0) (x2 := .pageInNodeResp) hlN
    (by
      rw [q5]
      have := BlockNext.call (s := s0 bm) (.insert [1] [2] false) io_ok
      rw [ask_out] at this
      exact this)
    (.away (.inl ⟨3, rfl⟩) (.inl nodeLoc_valid))
    (by
      rw [q7]; dsimp only; rw [hN]
      have := BlockNext.call (s := s1 bm) (.readNode 3 (some emptyNode)) io_ok
      rw [got_out] at this
      exact this)
    (.readAway (.inl (by rw [hlocN]; exact nodeLoc_valid)) (.inl rfl))
  have hre : s4.journalist.replayEmpty = true := by rw [ho.journalist]; rfl
  have hca : s4.journalist.canAppend MkfsDemo.e1 = true := by rw [ho.journalist]; exact MkfsDemo.can1
  have a7 := step_run (n := 4) (cs := cs) (b := .ready (s2 bm)) (b1 := .ready ((s2 bm).writeSame 0 MkfsDemo.n1))
    (s := s4) (s1 := s4.append MkfsDemo.e1)
    (v := .advance (.put [1] [2]) false) (x := .transaction [(0, emptyNode)] [.write 0 MkfsDemo.n1])
    (by
      have := BlockNext.call (s := s2 bm) (.insert [1] [2] false) io_ok
      rw [put_out] at this
      exact this)
    (.append ho.status hre hca (by simp [MkfsDemo.e1, JournalBytes.Ok, maxLen]) rfl)
  subst hs2 hs3
  have one : ∀ {v : VOp} {s : Option (BlockCache.Step Node)}, v.ui = .noop → Invisible [some ⟨v, s⟩] := by
    intro v s h l hl
    rw [List.mem_singleton.mp hl]; exact h
  exact ⟨_, bm, s4, (((invisible_two rfl rfl).append (invisible_two rfl rfl)).append
    (one rfl)).append (((one rfl).append (invisible_two rfl rfl)).append
      (invisible_two rfl rfl)), ho, (((a1.append a2).append a3).append ((a4.append a5).append a6)).append a7⟩


/-- A write of the committer in whole sectors: a request, the operating system, an answer. -/
theorem write_own {id : Nat} {cs : List UInt8} {b : BlockImpl.State Node}
    {s s1 s2 : Committer.State} {w : Data} (hlen : w.addr + w.bytes.length ≤ DiskHandler.maxFile)
    (hpad : padLen w.bytes.length = 0) (hv : ¬ (ValidNodeLoc w.loc ∨ ValidTableLoc w.loc))
    (k1 : Committer.Next codec.crc s (.reqWrite id w) .journalInternal s1)
    (k2 : Committer.Next codec.crc s1 (.respWrite id w.loc) .journalInternal s2) :
    M.Run ⟨b, s, idle id cs⟩ [some ⟨.journalInternal, some .noop⟩, none, some ⟨.journalInternal, some .noop⟩]
      ⟨b, s2, idle (id + 1) (DiskHandler.pwrite cs w.addr w.bytes)⟩ := by
  have q1 : blockOp codec (.reqWrite id w) = .none := by
    simp only [blockOp, if_neg fun k => hv (.inl k), if_neg fun k => hv (.inr k)]
  have q2 : blockOp codec (.respWrite id w.loc) = .none := by
    simp only [blockOp, if_neg fun k => hv (.inl k), if_neg fun k => hv (.inr k)]
  have st1 : Driven.Next codec ⟨b, s, idle id cs⟩ (some ⟨.journalInternal, some .noop⟩)
      ⟨b, s1, ⟨id + 1, [(id, ⟨w, [], true, false, false⟩)], [], 1, 0, cs⟩⟩ :=
    .machine (.valid (dop := .reqWrite id w) (fun _ _ e k => by cases e; exact absurd k hv)
      (by rw [q1]; exact .rest (.inr (.inl rfl))) k1) (.write (s := idle id cs) (p := []) hpad.symm)
  have e : (⟨w, [], true, false, false⟩ : DiskHandler.Task).full.bytes = w.bytes := List.append_nil _
  have st2 : Driven.Next codec ⟨b, s1, ⟨id + 1, [(id, ⟨w, [], true, false, false⟩)], [], 1, 0, cs⟩⟩ none
      ⟨b, s1, ⟨id + 1, [(id, ⟨w, [], true, false, true⟩)], [], 1, 0, DiskHandler.pwrite cs w.addr w.bytes⟩⟩ := by
    have := DiskHandler.Os.finish (s := ⟨id + 1, [(id, ⟨w, [], true, false, false⟩)], [], 1, 0, cs⟩) (l1 := [])
      (l2 := []) (id := id) (t := ⟨w, [], true, false, false⟩) rfl rfl rfl (by rw [e]; exact hlen)
    rw [e] at this
    exact .os this
  have st3 : Driven.Next codec
      ⟨b, s1, ⟨id + 1, [(id, ⟨w, [], true, false, true⟩)], [], 1, 0, DiskHandler.pwrite cs w.addr w.bytes⟩⟩
      (some ⟨.journalInternal, some .noop⟩) ⟨b, s2, idle (id + 1) (DiskHandler.pwrite cs w.addr w.bytes)⟩ :=
    .machine (.valid (dop := .respWrite id w.loc) (MkfsDemo.no_write fun _ _ e => nomatch e)
      (by rw [q2]; exact .rest (.inr (.inl rfl))) k2) (.writeResponse rfl)
  exact .cons st1 (.cons st2 (.cons st3 (.nil _)))

theorem append_parts : (Journalist.init.append MkfsDemo.e1).written = 0 ∧
    (Journalist.init.append MkfsDemo.e1).replayEmpty = true := by
  unfold Journalist.State.append
  dsimp only
  split <;> exact ⟨rfl, rfl⟩

theorem pack_replay (crc : List UInt8 → List UInt8) (j : Journalist.State) (h : j.replayEmpty = true) :
    (j.packageMem crc).2.replayEmpty = true := h

/-- Synchronisation is asked for. -/
theorem push_run {n : Nat} {cs : List UInt8} {s : Committer.State} (h : Opened s) {b : BlockImpl.State Node} :
    M.Run ⟨b, s.append MkfsDemo.e1, idle n cs⟩ [some ⟨.pushSync 1, some .noop⟩]
      ⟨b, { s with journalist := Journalist.init.append MkfsDemo.e1, syncReqs := [(1, .s3)] }, idle n cs⟩ := by
  have hp : (s.append MkfsDemo.e1).pushSync =
      (1, { s with journalist := Journalist.init.append MkfsDemo.e1, syncReqs := [(1, .s3)] }) := by
    have hq : (s.append MkfsDemo.e1).syncReqs = [] := h.reqs
    unfold Committer.State.pushSync
    rw [hq, show Committer.freeId [] = 1 by decide]
    dsimp only
    rw [if_pos (by simp)]
    unfold Committer.State.append
    rw [h.journalist]
  have := Committer.Next.pushSync (crc := codec.crc) (s := s.append MkfsDemo.e1)
  rw [hp] at this
  exact step_run (.rest (.inr (.inr (.inl ⟨_, rfl⟩)))) this

/-- The journal is written out, then the superblock. -/
theorem sync_run {cs : List UInt8} {s : Committer.State} (h : Opened s) {b : BlockImpl.State Node} :
    ∃ s' cs', M.Run ⟨b, { s with journalist := Journalist.init.append MkfsDemo.e1, syncReqs := [(1, .s3)] }, idle 4 cs⟩
      [some ⟨.journalInternal, some .noop⟩, none, some ⟨.journalInternal, some .noop⟩,
       some ⟨.journalInternal, some .noop⟩, none, some ⟨.journalInternal, some .noop⟩]
      ⟨b, s', idle 6 cs'⟩ ∧ Committer.get s'.syncReqs 1 = some .s1 := by
  obtain ⟨m1, m2, m3⟩ := Journalist.append_spec Journalist.init_inv (e := MkfsDemo.e1)
    (by simp [MkfsDemo.e1, JournalBytes.Ok, maxLen]) MkfsDemo.can1
  rw [Journalist.init_parts.2.1, List.nil_append] at m2
  rw [Journalist.init_parts.1] at m3
  obtain ⟨w0, hre⟩ := append_parts
  obtain ⟨n1, n2, n3, n4, bs, n5, n6, n7, n8, n9⟩ := Journalist.packageMem_spec SectorBytes.codec_crc m1 m3 (by rw [m2]; simp)
  rw [w0, Nat.zero_add] at n9
  have hf : (Journalist.init.append MkfsDemo.e1).hasFrozen = false := by
    rw [Bool.eq_false_iff]; intro k; exact (Journalist.hasFrozen_iff m1).mp k m3
  have hm : (Journalist.init.append MkfsDemo.e1).hasMem = true := (Journalist.hasMem_iff m1).mpr (by rw [m2]; simp)
  have hpre : ((Journalist.init.append MkfsDemo.e1).packageMem codec.crc).2.replayEmpty = true := by
    exact pack_replay _ _ hre
  generalize Journalist.init.append MkfsDemo.e1 = j at *
  have hf2 : (j.packageMem codec.crc).2.hasFrozen = false := by
    rw [Bool.eq_false_iff]; intro k; exact (Journalist.hasFrozen_iff n1).mp k n2
  have hm2 : (j.packageMem codec.crc).2.hasMem = false := by
    rw [Bool.eq_false_iff]; intro k; exact (Journalist.hasMem_iff n1).mp k n3
  have hk : bs.length ≤ numJournalBlocks := by rw [← n9]; exact n4
  have hsb1 : s.sb.start = 0 := by rw [h.sb]; rfl
  -- the journal
  have k1 := Committer.Next.syncLog (crc := codec.crc) (s := { s with journalist := j, syncReqs := [(1, .s3)] })
    (id1 := 4) (id2 := 5) h.status hre h.frozen h.sbWrite
  have e1 : Committer.State.tryAdvanceLog { s with journalist := j, syncReqs := [(1, .s3)] } codec.crc 4 5 =
      (.reqWrite 4 ⟨journalPoint 0, (j.packageMem codec.crc).1⟩, { s with
        journalist := (j.packageMem codec.crc).2, syncReqs := [(1, .s2)], writes := [4] }) := by
    unfold Committer.State.tryAdvanceLog Committer.State.writeOutJournal
    dsimp only
    rw [if_pos h.sbWrite, if_pos (.inr hm), hf, hsb1, w0, h.writes]
    simp only [Bool.false_eq_true, if_false]
    rw [show Committer.State.startPosAdd 0 0 = 0 from rfl, n7, Nat.mul_div_cancel_left _ (by omega), Nat.zero_add,
      if_pos hk]
    rfl
  rw [e1] at k1
  have hloc : (⟨journalPoint 0, (j.packageMem codec.crc).1⟩ : Data).loc = ⟨journalPoint 0, 4096 * bs.length⟩ :=
    Committer.loc_at n7
  have hvj : ValidJournalLoc (⟨journalPoint 0, (j.packageMem codec.crc).1⟩ : Data).loc := by
    rw [hloc]
    exact (ByteSystem.interval_loc (v := ⟨0, bs.length⟩) (by unfold numJournalBlocks; dsimp only; omega)
      (by dsimp only; rw [Nat.zero_add]; exact hk)).1
  have k2 := Committer.Next.writtenJournal (crc := codec.crc) (s := { s with
        journalist := (j.packageMem codec.crc).2, syncReqs := [(1, .s2)], writes := [4] }) (id := 4) h.status hvj
  have e2 : Committer.State.writeBackJournalResp { s with
        journalist := (j.packageMem codec.crc).2, syncReqs := [(1, .s2)], writes := [4] } 4 =
      { s with journalist := (j.packageMem codec.crc).2, syncReqs := [(1, .s2)], writes := [] } := by
    unfold Committer.State.writeBackJournalResp
    simp
  rw [e2] at k2
  have hb := journal_bounds hvj
  have hle : journalPoint 0 + (j.packageMem codec.crc).1.length ≤ DiskHandler.maxFile :=
    Nat.le_trans hb.2 (by decide)
  have hpad : padLen (j.packageMem codec.crc).1.length = 0 := by
    rw [n7]; unfold padLen; rw [Nat.mul_mod_right]
  have p1 := write_own (cs := cs) (b := b) (w := ⟨journalPoint 0, (j.packageMem codec.crc).1⟩) (id := 4) hle hpad
    (fun k => k.elim (fun k => node_not_journal k hvj) (fun k => table_not_journal k hvj)) k1 k2
  dsimp only at p1
  generalize DiskHandler.pwrite cs (journalPoint 0) (j.packageMem codec.crc).1 = cs1 at *
  generalize (j.packageMem codec.crc).2 = j2 at *
  -- the superblock
  have k3 := Committer.Next.syncLog (crc := codec.crc)
    (s := { s with journalist := j2, syncReqs := [(1, .s2)], writes := [] })
    (id1 := 5) (id2 := 6) h.status hpre h.frozen h.sbWrite
  have e3 : Committer.State.tryAdvanceLog
      { s with journalist := j2, syncReqs := [(1, .s2)], writes := [] } codec.crc 5 6 =
      (.reqWrite 5 ⟨(sbLoc true).addr, SuperblockBytes.marshal codec.crc ⟨JournalCache.incr s.sb.counter, s.sb.start,
          j2.written, s.sb.loc⟩⟩, { s with
        journalist := j2, syncReqs := [(1, .s2)], writes := []
        newSb := some ⟨JournalCache.incr s.sb.counter, s.sb.start, j2.written, s.sb.loc⟩
        sbWrite := some 5, commit := .log }) := by
    unfold Committer.State.tryAdvanceLog Committer.State.writeOutSbLog
    dsimp only
    rw [if_pos h.sbWrite, if_neg (by rw [hf2, hm2]; simp), if_pos rfl, h.which]
    rfl
  rw [e3] at k3
  have hml := SuperblockBytes.marshal_length SectorBytes.codec_crc ⟨JournalCache.incr s.sb.counter, s.sb.start, j2.written, s.sb.loc⟩
  generalize hsbn : (⟨JournalCache.incr s.sb.counter, s.sb.start, j2.written, s.sb.loc⟩ : Superblock) = sb at *
  have hloc2 : (⟨(sbLoc true).addr, SuperblockBytes.marshal codec.crc sb⟩ : Data).loc = sbLoc true := by
    unfold Data.loc; dsimp only; rw [hml]; rfl
  have k4 := Committer.Next.writtenSb (crc := codec.crc) (s := { s with
        journalist := j2, syncReqs := [(1, .s2)], writes := []
        newSb := some sb, sbWrite := some 5, commit := .log }) (id := 5) (w := true) hloc2 rfl
  dsimp only at k4
  rw [if_neg (by rintro ⟨_, k⟩; cases k)] at k4
  have hns := sb_not hloc2
  have p2 := write_own (cs := cs1) (b := b) (w := ⟨(sbLoc true).addr, SuperblockBytes.marshal codec.crc sb⟩) (id := 5)
    (by dsimp only; rw [hml]; decide)
    (by dsimp only; rw [hml]; rfl)
    (fun k => k.elim hns.2.2 hns.2.1) k3 k4
  refine ⟨_, _, p1.append p2, ?_⟩
  unfold Committer.State.writeBackSbResp
  dsimp only
  rw [if_neg (by rintro ⟨_, k⟩; cases k), if_pos ⟨h.status, rfl⟩]
  rfl

/-- The journal is being written out. -/
theorem first_write {cs : List UInt8} {s : Committer.State} (h : Opened s) {b : BlockImpl.State Node} :
    ∃ s' w, M.Run ⟨b, { s with journalist := Journalist.init.append MkfsDemo.e1, syncReqs := [(1, .s3)] }, idle 4 cs⟩
      [some ⟨.journalInternal, some .noop⟩] ⟨b, s', ⟨5, [(4, ⟨w, [], true, false, false⟩)], [], 1, 0, cs⟩⟩ ∧
      s'.status = .ready ∧ s'.journalist.replayEmpty = true ∧ s'.isFrozen = false ∧ s'.sbWrite = none ∧
      s'.journalist.hasFrozen = false ∧ s'.journalist.hasMem = false ∧ s'.writes = [4] ∧ s'.syncReqs = [(1, .s2)] := by
  obtain ⟨m1, m2, m3⟩ := Journalist.append_spec Journalist.init_inv (e := MkfsDemo.e1)
    (by simp [MkfsDemo.e1, JournalBytes.Ok, maxLen]) MkfsDemo.can1
  rw [Journalist.init_parts.2.1, List.nil_append] at m2
  rw [Journalist.init_parts.1] at m3
  obtain ⟨w0, hre⟩ := append_parts
  obtain ⟨n1, n2, n3, n4, bs, n5, n6, n7, n8, n9⟩ := Journalist.packageMem_spec SectorBytes.codec_crc m1 m3 (by rw [m2]; simp)
  rw [w0, Nat.zero_add] at n9
  have hf : (Journalist.init.append MkfsDemo.e1).hasFrozen = false := by
    rw [Bool.eq_false_iff]; intro k; exact (Journalist.hasFrozen_iff m1).mp k m3
  have hm : (Journalist.init.append MkfsDemo.e1).hasMem = true := (Journalist.hasMem_iff m1).mpr (by rw [m2]; simp)
  have hpre : ((Journalist.init.append MkfsDemo.e1).packageMem codec.crc).2.replayEmpty = true := by
    exact pack_replay _ _ hre
  generalize Journalist.init.append MkfsDemo.e1 = j at *
  have hf2 : (j.packageMem codec.crc).2.hasFrozen = false := by
    rw [Bool.eq_false_iff]; intro k; exact (Journalist.hasFrozen_iff n1).mp k n2
  have hm2 : (j.packageMem codec.crc).2.hasMem = false := by
    rw [Bool.eq_false_iff]; intro k; exact (Journalist.hasMem_iff n1).mp k n3
  have hk : bs.length ≤ numJournalBlocks := by rw [← n9]; exact n4
  have hsb1 : s.sb.start = 0 := by rw [h.sb]; rfl
  -- the journal
  have k1 := Committer.Next.syncLog (crc := codec.crc) (s := { s with journalist := j, syncReqs := [(1, .s3)] })
    (id1 := 4) (id2 := 5) h.status hre h.frozen h.sbWrite
  have e1 : Committer.State.tryAdvanceLog { s with journalist := j, syncReqs := [(1, .s3)] } codec.crc 4 5 =
      (.reqWrite 4 ⟨journalPoint 0, (j.packageMem codec.crc).1⟩, { s with
        journalist := (j.packageMem codec.crc).2, syncReqs := [(1, .s2)], writes := [4] }) := by
    unfold Committer.State.tryAdvanceLog Committer.State.writeOutJournal
    dsimp only
    rw [if_pos h.sbWrite, if_pos (.inr hm), hf, hsb1, w0, h.writes]
    simp only [Bool.false_eq_true, if_false]
    rw [show Committer.State.startPosAdd 0 0 = 0 from rfl, n7, Nat.mul_div_cancel_left _ (by omega), Nat.zero_add,
      if_pos hk]
    rfl
  rw [e1] at k1
  have hloc : (⟨journalPoint 0, (j.packageMem codec.crc).1⟩ : Data).loc = ⟨journalPoint 0, 4096 * bs.length⟩ :=
    Committer.loc_at n7
  have hvj : ValidJournalLoc (⟨journalPoint 0, (j.packageMem codec.crc).1⟩ : Data).loc := by
    rw [hloc]
    exact (ByteSystem.interval_loc (v := ⟨0, bs.length⟩) (by unfold numJournalBlocks; dsimp only; omega)
      (by dsimp only; rw [Nat.zero_add]; exact hk)).1
  have hv : ¬ (ValidNodeLoc (⟨journalPoint 0, (j.packageMem codec.crc).1⟩ : Data).loc ∨
      ValidTableLoc (⟨journalPoint 0, (j.packageMem codec.crc).1⟩ : Data).loc) :=
    fun k => k.elim (fun k => node_not_journal k hvj) (fun k => table_not_journal k hvj)
  have hpad : padLen (⟨journalPoint 0, (j.packageMem codec.crc).1⟩ : Data).bytes.length = 0 := by
    show padLen (j.packageMem codec.crc).1.length = 0
    rw [n7]; unfold padLen; rw [Nat.mul_mod_right]
  generalize (⟨journalPoint 0, (j.packageMem codec.crc).1⟩ : Data) = w at *
  have q1 : blockOp codec (.reqWrite 4 w) = .none := by
    simp only [blockOp, if_neg fun k => hv (.inl k), if_neg fun k => hv (.inr k)]
  exact ⟨_, w, .cons (.machine (.valid (dop := .reqWrite 4 w) (fun _ _ e k => by cases e; exact absurd k hv)
      (by rw [q1]; exact .rest (.inr (.inl rfl))) k1) (.write (s := idle 4 cs) (p := []) hpad.symm)) (.nil _),
    h.status, hpre, h.frozen, h.sbWrite, hf2, hm2, rfl, rfl⟩

theorem mid_silent : Invisible (Node := Node) [some ⟨.journalInternal, some .noop⟩, none, some ⟨.journalInternal, some .noop⟩,
    some ⟨.journalInternal, some .noop⟩, none, some ⟨.journalInternal, some .noop⟩] := by
  intro l hl
  simp only [List.mem_cons, List.not_mem_nil, or_false] at hl
  rcases hl with rfl | rfl | rfl | rfl | rfl | rfl <;> rfl

/-- The put is made and synchronised, and the machine stops. -/
theorem run_sync {cs : List UInt8} (h : WrittenIn mkfs cs) : ∃ tr s mid, Invisible mid ∧
    UIOp.put [1] [2] ∈ tr.map ByteSystem.ui ∧
    M.Run ⟨.unready, Committer.init, DiskHandler.opened cs⟩ (tr ++ (some ⟨.pushSync 1, some .noop⟩ :: mid ++
      some ⟨.popSync 1, some .noop⟩ :: [some ⟨.crash, none⟩])) s := by
  obtain ⟨tr, bm, s, _, ho, h1⟩ := run_ready h
  obtain ⟨s', cs', h3, hg⟩ := sync_run (cs := cs) ho (b := .ready ((s2 bm).writeSame 0 MkfsDemo.n1))
  have h4 := step_run (n := 6) (cs := cs') (b := .ready ((s2 bm).writeSame 0 MkfsDemo.n1)) (s := s')
    (v := .popSync 1) (x := .noop) (.rest (.inr (.inr (.inr ⟨_, rfl⟩)))) (.popSync hg)
  refine ⟨_, _, _, ?_, ?_, h1.append (((push_run ho).append h3).append (h4.append (.cons .crash (.nil _))))⟩
  · exact mid_silent
  · rw [List.map_append]
    exact List.mem_append_right _ (List.mem_singleton.mpr rfl)

end Verif.Kv.DrivenDemo
