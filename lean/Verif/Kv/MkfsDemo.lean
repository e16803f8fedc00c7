import Verif.Kv.Mkfs
import Verif.Kv.FullDemo
import Verif.Kv.PivotDemo
/-
A run of the whole program on a fresh file, with the pivot betree and the real bytes of every sector: the
store is opened and a put is made. No code is modelled here.
-/
namespace Verif.Kv.MkfsDemo
open ByteDisk BlockSystem BlockCache Mkfs
open ByteSystem (still byteOf bytesAt superblockAt ValidWrite blockOp journalOp Invisible)
open SectorBytes (codec codec_superblock)
open Pivot (emptyNode Node)

/-- The machine; reads may succeed. -/
noncomputable abbrev M := Full.machine Pivot.app codec (fun n => n = emptyNode) tableLoc true

theorem no_write {dop : Op} (h : ∀ id w, dop ≠ .reqWrite id w) :
    ∀ id w, dop = .reqWrite id w → ValidNodeLoc w.loc ∨ ValidTableLoc w.loc → ValidWrite codec w :=
  fun id w e => absurd e (h id w)

/-- A step of the machine that leaves the disk alone. -/
theorem step_run {cs : List UInt8} {b b1 : BlockCache.State Node} {s s1 : Committer.State} {v : VOp}
    {x : BlockCache.Step Node} (h1 : BlockCache.Next Pivot.app b (blockOp codec .none) v x b1)
    (k1 : Committer.Next codec.crc s .none v s1) :
    M.Run ⟨b, s, still cs⟩ [some ⟨v, some x⟩] ⟨b1, s1, still cs⟩ := by
  have st : Full.Next Pivot.app codec true ⟨b, s, still cs⟩ (some ⟨v, some x⟩) ⟨b1, s1, still cs⟩ :=
    .machine (.valid (dop := .none) (no_write fun _ _ e => nomatch e) h1 k1) .stutter
  exact .cons st (.nil _)

/-- A read that succeeds: a request, the disk, an answer. -/
theorem read_run {cs : List UInt8} {b b1 b2 : BlockCache.State Node}
    {s s1 s2 : Committer.State} {l : Loc} {id : ReqId} {v1 v2 : VOp} {x1 x2 : BlockCache.Step Node}
    (hlen : l.addr + l.len ≤ cs.length)
    (h1 : BlockCache.Next Pivot.app b (blockOp codec (.reqRead id l)) v1 x1 b1)
    (k1 : Committer.Next codec.crc s (.reqRead id l) v1 s1)
    (h2 : BlockCache.Next Pivot.app b1 (blockOp codec (.respRead id ⟨l.addr, bytesAt (byteOf cs) l⟩)) v2 x2 b2)
    (k2 : Committer.Next codec.crc s1 (.respRead id ⟨l.addr, bytesAt (byteOf cs) l⟩) v2 s2) :
    M.Run ⟨b, s, still cs⟩ [some ⟨v1, some x1⟩, none, some ⟨v2, some x2⟩] ⟨b2, s2, still cs⟩ := by
  have e : ByteDisk.read cs l = bytesAt (byteOf cs) l := read_eq hlen
  have c1 : (PMap.insert .empty id l).remove id = (.empty : PMap ReqId Loc) := by
    funext x; simp [PMap.insert, PMap.remove, PMap.empty]
  have c2 : ∀ r : Data, (PMap.insert .empty id r).remove id = (.empty : PMap ReqId Data) := by
    intro r; funext x; simp [PMap.insert, PMap.remove, PMap.empty]
  have st : Full.Next Pivot.app codec true ⟨b, s, still cs⟩ (some ⟨v1, some x1⟩)
      ⟨b1, s1, ⟨PMap.insert .empty id l, .empty, .empty, .empty, cs, ByteDisk.noPads⟩⟩ :=
    .machine (.valid (dop := .reqRead id l) (no_write fun _ _ e => nomatch e) h1 k1)
      (ByteDisk.Next.recvRead (d := still cs) rfl rfl)
  have st2 : Full.Next Pivot.app codec true ⟨b1, s1, ⟨PMap.insert .empty id l, .empty, .empty, .empty, cs, ByteDisk.noPads⟩⟩ none
      ⟨b1, s1, ⟨.empty, .empty, PMap.insert .empty id ⟨l.addr, bytesAt (byteOf cs) l⟩, .empty, cs, ByteDisk.noPads⟩⟩ := by
    have := ByteDisk.Internal.processRead (crc := codec.crc) (kind := true)
      (d := ⟨PMap.insert .empty id l, .empty, .empty, .empty, cs, ByteDisk.noPads⟩) rfl (PMap.insert_same _ _ _) hlen
    dsimp only at this
    rw [e, c1] at this
    exact .disk this
  have st3 : Full.Next Pivot.app codec true ⟨b1, s1, ⟨.empty, .empty,
      PMap.insert .empty id ⟨l.addr, bytesAt (byteOf cs) l⟩, .empty, cs, ByteDisk.noPads⟩⟩ (some ⟨v2, some x2⟩)
      ⟨b2, s2, still cs⟩ := by
    have := ByteDisk.Next.ackRead (kind := true) (id := id) (r := ⟨l.addr, bytesAt (byteOf cs) l⟩)
      (d := ⟨.empty, .empty, PMap.insert .empty id ⟨l.addr, bytesAt (byteOf cs) l⟩, .empty, cs, ByteDisk.noPads⟩)
      (PMap.insert_same _ _ _)
    dsimp only at this
    rw [c2] at this
    exact .machine (.valid (dop := .respRead id ⟨l.addr, bytesAt (byteOf cs) l⟩)
      (no_write fun _ _ e => nomatch e) h2 k2) this
  exact .cons st (.cons st2 (.cons st3 (.nil _)))

theorem read_sb {cs : List UInt8} {s : Committer.State} (w : Bool) (hs : s.status = .superblock)
    (h1 : s.sbRead w = none) (h2 : s.sbGot w = .unfinished)
    (h3 : superblockAt codec cs w = some superblock) :
    M.Run ⟨.unready, s, still cs⟩
      [some ⟨.journalInternal, some .noop⟩, none, some ⟨.journalInternal, some .noop⟩]
      ⟨.unready, { s with sbGot := setAt s.sbGot w (.success superblock) }, still cs⟩ := by
  obtain ⟨k1, k2⟩ := ByteSystem.superblockAt_some (c := codec) (contents := cs) (w := w) (by rw [h3]; simp)
  rw [h3] at k2
  obtain ⟨q1, _⟩ := ByteSystem.op_reqSb codec 0 w
  obtain ⟨q3, _⟩ := ByteSystem.op_respSb codec 0 w (r := ⟨(sbLoc w).addr, bytesAt (byteOf cs) (sbLoc w)⟩)
    ByteSystem.loc_of_bytes
  have p1 := Committer.Next.pageSb (crc := codec.crc) (id := 0) hs h1 h2
  have e1 : s.pageInSb w 0 = (.reqRead 0 (sbLoc w), { s with sbRead := setAt s.sbRead w (some 0) }) := by
    unfold Committer.State.pageInSb; rw [if_pos h1]
  rw [e1] at p1
  have p2 := Committer.Next.readSb (crc := codec.crc) (s := { s with sbRead := setAt s.sbRead w (some 0) })
    (id := 0) (w := w) (r := ⟨(sbLoc w).addr, bytesAt (byteOf cs) (sbLoc w)⟩) ByteSystem.loc_of_bytes
  dsimp only at p2
  rw [← codec_superblock, ← k2] at p2
  have e2 : Committer.State.readSbResp { s with sbRead := setAt s.sbRead w (some 0) } w 0 (some superblock) =
      { s with sbGot := setAt s.sbGot w (.success superblock) } := by
    unfold Committer.State.readSbResp
    rw [if_pos (by simp)]
    dsimp only
    rw [ByteSystem.setAt_back s.sbRead w _ h1]
  rw [e2] at p2
  exact read_run (l := sbLoc w) (id := 0) k1 (by rw [q1]; exact .noop (.inr (.inl rfl)) (.inl rfl)) p1
    (by rw [q3]; exact .noop (.inr (.inl rfl)) (.inl rfl)) p2

/-- In memory after the table was loaded. -/
def r0 : Ready Node := ⟨table, none, table, tableLoc, none, none, .empty, .empty, .empty⟩
/-- With the root in the cache. -/
def r1 : Ready Node := { r0 with cache := PMap.insert .empty 0 emptyNode }
/-- The root after the put. -/
def n1 : Node := emptyNode.add [1] (.define [2])
/-- After the put. -/
def r2 : Ready Node := { r0 with
  cache := r1.cache.insert 0 n1
  eph := ⟨table.locs.remove 0, table.graph.insert 0 []⟩ }

theorem dirty1 : OpStep Pivot.app r1 (.write 0 n1) r2 :=
  .dirty (by simp [r1]) (by simp [r1, r0, table, rootRef]) (fun _ h => (by
    obtain ⟨cs, h1, _⟩ := h; cases h1)) (by intro t ht; cases ht)
    (fun x => ⟨fun h => (by cases h), fun ⟨cs, h, _⟩ => (by cases h)⟩)

/-- What the user sees of the run. -/
def e1 : Entry := .insert [1] [2]

theorem can1 : Journalist.init.canAppend e1 = true := by
  unfold Journalist.State.canAppend
  have : Journalist.init.written = 0 ∧ Journalist.init.frozenBlocks = 0 ∧ Journalist.init.memWeight = 0 ∧
    Journalist.init.len2 = 0 := ⟨rfl, rfl, rfl, rfl⟩
  simp [this.1, this.2.1, this.2.2.1, this.2.2.2, JournalBytes.weight, e1, numJournalBlocks]

/-- The store is opened on the file of mkfs, its root is read, and a put is made. -/
theorem run {cs : List UInt8} (h : WrittenIn mkfs cs) : ∃ tr s, Invisible tr ∧
    M.Run ⟨.unready, Committer.init, still cs⟩
      (tr ++ [some ⟨.advance (.put [1] [2]) false, some (.transaction [(0, emptyNode)] [.write 0 n1])⟩])
      ⟨.ready r2, s, still cs⟩ := by
  obtain ⟨hS, hT, hN⟩ := reads h
  have hlT : tableLoc.addr + tableLoc.len ≤ cs.length := (h (table1Addr, tablePart) (.tail _ (.tail _ (.head _)))).1
  have hlN : nodeLoc.addr + nodeLoc.len ≤ cs.length := by
    have e : nodeLoc.len = nodePart.length := by unfold nodeLoc; rfl
    have := (h (nodeLoc.addr, nodePart) (by unfold mkfs; exact .tail _ (.tail _ (.tail _ (.head _))))).1
    dsimp only at this
    rw [e]
    exact this
  have a1 := read_sb (s := Committer.init) false rfl rfl rfl (hS false)
  have a2 := read_sb (s := { Committer.init with
    sbGot := setAt Committer.init.sbGot false (.success superblock) }) true rfl rfl rfl (hS true)
  obtain ⟨s2, hs2⟩ : ∃ s2 : Committer.State, s2 = { Committer.init with
    sbGot := setAt (setAt Committer.init.sbGot false (.success superblock)) true (.success superblock) } :=
    ⟨_, rfl⟩
  have g1 : s2.status = .superblock := by rw [hs2]; rfl
  have g2 : s2.sbGot false = .success superblock := by rw [hs2]; rfl
  have g3 : s2.sbGot true = .success superblock := by rw [hs2]; rfl
  have g4 : s2.journalist = Journalist.init := by rw [hs2]; rfl
  have a3 : M.Run ⟨.unready, s2, still cs⟩ [some ⟨.sendPersistentLoc tableLoc, some .receiveLoc⟩]
      ⟨.loading tableLoc none, s2.finishSb superblock superblock, still cs⟩ := by
    have := Committer.Next.finishSb (crc := codec.crc) g1 g2 g3
    exact step_run (.receiveLoc tableLoc_valid) this
  obtain ⟨s3, hs3⟩ : ∃ s3 : Committer.State, s3 = s2.finishSb superblock superblock := ⟨_, rfl⟩
  have i1 : s3.status = .other := by rw [hs3]; rfl
  have i2 : s3.sb = superblock := by
    rw [hs3]; unfold Committer.State.finishSb; dsimp only; split <;> rfl
  have i4 : s3.journalist = Journalist.init := by rw [hs3, ← g4]; rfl
  have a4 : M.Run ⟨.loading tableLoc none, s3, still cs⟩ [some ⟨.journalInternal, some .noop⟩]
      ⟨.loading tableLoc none, s3.finishOther, still cs⟩ := by
    have := Committer.Next.tryFinishOther (crc := codec.crc) (id := 0) i1
    have e : s3.tryFinishOther 0 = (.none, s3.finishOther) := by
      unfold Committer.State.tryFinishOther
      have h0 : s3.sb.len = 0 := by rw [i2]; rfl
      have h1 : s3.sb.start = 0 := by rw [i2]; rfl
      dsimp only
      rw [h0, h1, if_neg (by simp), if_neg (by simp), if_pos (by simp)]
    rw [e] at this
    exact step_run (.noop (.inr (.inl rfl)) (.inl rfl)) this
  have ho : s3.finishOther.status = .ready ∧ s3.finishOther.journalist = Journalist.init := by
    have e : s3.journalist.parse = some Journalist.init := by rw [i4]; exact FullDemo.init_parse
    unfold Committer.State.finishOther
    rw [e]
    exact ⟨rfl, by dsimp only; rw [i2]; rfl⟩
  obtain ⟨s4, hs4⟩ : ∃ s4 : Committer.State, s4 = s3.finishOther := ⟨_, rfl⟩
  rw [← hs4] at a4 ho
  have hloc : (⟨tableLoc.addr, bytesAt (byteOf cs) tableLoc⟩ : Data).loc = tableLoc := ByteSystem.loc_of_bytes
  obtain ⟨q1, _⟩ := ByteSystem.op_reqT codec 0 tableLoc_valid
  obtain ⟨q3, _⟩ := ByteSystem.op_respT codec 0 (r := ⟨tableLoc.addr, bytesAt (byteOf cs) tableLoc⟩)
    (by rw [hloc]; exact tableLoc_valid)
  have a5 := read_run (l := tableLoc) (id := 0) (b := .loading tableLoc none) (b1 := .loading tableLoc (some 0))
    (b2 := .ready r0) (s := s4) (s1 := s4) (s2 := s4)
    (v1 := .statesInternal) (v2 := .statesInternal) (x1 := .pageInTableReq) (x2 := .pageInTableResp) hlT
    (by rw [q1]; exact .pageInTableReq) (.away (.inl ⟨0, rfl⟩) (.inr tableLoc_valid))
    (by rw [q3]; dsimp only; rw [hT]; exact .pageInTableResp table_wf table_distinct)
    (.readAway (.inr (.inl (by rw [hloc]; exact tableLoc_valid))) (.inl rfl))
  have hlocN : (⟨nodeLoc.addr, bytesAt (byteOf cs) nodeLoc⟩ : Data).loc = nodeLoc := ByteSystem.loc_of_bytes
  obtain ⟨q5, _⟩ := ByteSystem.op_reqN codec 0 nodeLoc_valid
  obtain ⟨q7, _⟩ := ByteSystem.op_respN codec 0 (r := ⟨nodeLoc.addr, bytesAt (byteOf cs) nodeLoc⟩)
    (by rw [hlocN]; exact nodeLoc_valid)
  have a6 := read_run (l := nodeLoc) (id := 0) (b := .ready r0)
    (b1 := .ready { r0 with reads := PMap.insert .empty 0 0 })
    (b2 := .ready r1) (s := s4) (s1 := s4) (s2 := s4) (v1 := .statesInternal) (v2 := .statesInternal)
    (x1 := .pageInNodeReq 0) (x2 := .pageInNodeResp) hlN
    (by rw [q5]; exact .pageInNodeReq (by simp [r0, table, rootRef]) rfl rfl (by intro i x hx; cases hx))
    (.away (.inl ⟨0, rfl⟩) (.inl nodeLoc_valid))
    (by
      rw [q7]; dsimp only; rw [hN]
      have := BlockCache.Next.pageInNodeResp (A := Pivot.app) (r := { r0 with reads := PMap.insert .empty 0 0 })
        (id := 0) (ref := 0) (ss := []) (n := emptyNode) rfl rfl rfl
        (fun x => ⟨fun h => (by cases h), fun ⟨cs, h, _⟩ => (by cases h)⟩) emptyOk.wf
      simp only [StoreDemo.clear] at this
      exact this)
    (.readAway (.inl (by rw [hlocN]; exact nodeLoc_valid)) (.inl rfl))
  have hre : s4.journalist.replayEmpty = true := by rw [ho.2]; rfl
  have hca : s4.journalist.canAppend e1 = true := by rw [ho.2]; exact can1
  have a7 := step_run (cs := cs) (b := .ready r1) (b1 := .ready r2) (s := s4) (s1 := s4.append e1)
    (v := .advance (.put [1] [2]) false) (x := .transaction [(0, emptyNode)] [.write 0 n1])
    (.transaction (r := r1) (r' := r2)
      (.insert emptyOk.wf (PivotDemo.bounded_all ⟨rfl, rfl⟩ _)) (by
        intro x n hx
        obtain ⟨rfl, rfl⟩ := Prod.mk.inj (List.mem_singleton.mp hx)
        exact ⟨by simp [r1, r0, table, rootRef], by simp [r1]⟩) (.cons dirty1 .nil))
    (.append ho.1 hre hca (by simp [e1, JournalBytes.Ok, maxLen]) rfl)
  subst hs2 hs3
  have one : ∀ {v : VOp} {s : Option (BlockCache.Step Node)}, v.ui = .noop → Invisible [some ⟨v, s⟩] := by
    intro v s h l hl
    rw [List.mem_singleton.mp hl]; exact h
  exact ⟨_, _, (((ByteSystem.invisible_three rfl rfl).append (ByteSystem.invisible_three rfl rfl)).append
    (one rfl)).append (((one rfl).append (ByteSystem.invisible_three rfl rfl)).append
      (ByteSystem.invisible_three rfl rfl)), (((a1.append a2).append a3).append ((a4.append a5).append a6)).append a7⟩

end Verif.Kv.MkfsDemo
