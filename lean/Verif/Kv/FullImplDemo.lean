import Verif.Kv.FullImplProof
import Verif.Kv.MkfsDemo
/-
Every table that is read can be given to the code that opens the store, and a run of the whole code on a
fresh file: the store is opened and a put is made. No code is modelled here.
-/
namespace Verif.Kv.FullImplDemo
open ByteDisk BlockSystem Mkfs
open BlockImpl (Env EnvOk Out Ready)
open IndTable (TRow Tab ofRows rowsView rawRows)
open FullImpl (BlockNext run)
open ByteSystem (still byteOf bytesAt superblockAt ValidWrite blockOp journalOp Invisible)
open SectorBytes (codec codec_superblock)
open Pivot (emptyNode Node)
open TreeImpl (S kids)

/-! ### Tables -/

theorem rowsView_cons (r : TRow) (rows : List TRow) : rowsView (r :: rows) =
    ⟨(rowsView rows).locs.insert r.1 r.2.1, (rowsView rows).graph.insert r.1 r.2.2⟩ := by
  unfold rowsView Tab.view rawRows
  dsimp only
  rw [List.map_cons]
  congr 1 <;> funext x
  · rw [AList.get_cons]; unfold PMap.insert; split <;> rfl
  · rw [AList.get_cons]; unfold PMap.insert; split <;> rfl

theorem tableMaps_rows (vs : List Marshal.V) : ∀ (acc : List TRow) (t : Table), (acc.map (·.1)).Nodup →
    (∀ x ∈ acc, ValidNodeLoc x.2.1) → SectorBytes.tableMaps (rowsView acc) vs = some t →
    ∃ rows : List TRow, (rows.map (·.1)).Nodup ∧ (∀ x ∈ rows, ValidNodeLoc x.2.1) ∧ rowsView rows = t := by
  induction vs with
  | nil => intro acc t h1 h2 h; rw [SectorBytes.tableMaps] at h; cases h; exact ⟨acc, h1, h2, rfl⟩
  | cons v vs ih =>
    intro acc t h1 h2 h
    rw [SectorBytes.tableMaps] at h
    cases hr : SectorBytes.rowOfVal v with
    | none => rw [hr] at h; cases h
    | some r =>
      rw [hr] at h
      dsimp only at h
      unfold SectorBytes.addRow at h
      split at h
      · next hx =>
        split at hx
        · cases hx
        · rename_i hc
          obtain ⟨c1, c2, _⟩ : (rowsView acc).graph r.ref = none ∧ ValidNodeLoc r.loc ∧ _ := by
            refine ⟨?_, ?_, trivial⟩
            · exact Classical.byContradiction fun k => hc (.inl k)
            · exact Classical.byContradiction fun k => hc (.inr (.inl k))
          cases hx
          have e := rowsView_cons (r.ref, r.loc, r.succs) acc
          dsimp only at e
          rw [← e] at h
          refine ih _ t ?_ ?_ h
          · rw [List.map_cons, List.nodup_cons]
            refine ⟨fun hm => ?_, h1⟩
            have k : (rawRows acc).get r.ref ≠ none := by
              rw [AList.get_keys]
              unfold rawRows AList.keys
              rw [List.map_map]
              exact hm
            exact k (IndTable.Tab.graph_none.mp c1)
          · intro x hx
            rcases List.mem_cons.mp hx with rfl | hx
            · exact c2
            · exact h2 x hx
      · cases h

/-- Every table the format accepts is one the code can build. -/
theorem table_rows {b : List UInt8} {t : Table} (h : codec.table b = some t) :
    ∃ (rows : List TRow) (tab : Tab), (rows.map (·.1)).Nodup ∧ (∀ x ∈ rows, ValidNodeLoc x.2.1) ∧
      rowsView rows = t ∧ ofRows rows = some tab := by
  unfold Codec.table at h
  split at h
  · rename_i t' hs
    cases h
    unfold Codec.sector at hs
    split at hs
    · change SectorBytes.parseSector _ = _ at hs
      unfold SectorBytes.parseSector at hs
      split at hs
      · rename_i v _ _
        have key : ∃ a : List Marshal.V, SectorBytes.tableMaps ⟨.empty, .empty⟩ a = some t ∧
            t.graph rootRef ≠ none ∧ BlockCache.GraphClosed t.graph := by
          unfold SectorBytes.sectorOfVal at hs
          split at hs
          · split at hs
            · cases h0 : SectorBytes.superblockOfVal _ <;> rw [h0] at hs <;> cases hs
            · split at hs
              · cases h0 : SectorBytes.tableOfVal _ with
                | none => rw [h0] at hs; cases hs
                | some t1 =>
                  rw [h0] at hs
                  cases hs
                  unfold SectorBytes.tableOfVal at h0
                  split at h0
                  · split at h0
                    · split at h0
                      · split at h0
                        · cases h0; rename_i hm hg; exact ⟨_, hm, hg⟩
                        · cases h0
                      · cases h0
                    · cases h0
                  · cases h0
              · cases h0 : SectorBytes.nodeOfVal _ <;> rw [h0] at hs <;> cases hs
          · cases hs
        obtain ⟨a, k1, k2, k3⟩ := key
        obtain ⟨rows, r1, r2, r3⟩ := tableMaps_rows a [] t List.nodup_nil (fun _ h => nomatch h) k1
        subst r3
        obtain ⟨tab, ht⟩ := IndTable.ofRows_some r1 k2 k3
        exact ⟨rows, tab, r1, r2, rfl, ht⟩
      · cases hs
    · cases hs
  · cases h

/-! ### A run -/

/-- The machine; reads may succeed. -/
noncomputable abbrev M := FullImpl.machine codec tableLoc true

/-- A step of the machine that leaves the disk alone. -/
theorem step_run {cs : List UInt8} {b b1 : BlockImpl.State Node} {s s1 : Committer.State} {v : VOp}
    {x : BlockCache.Step Node} (h1 : BlockNext b (blockOp codec .none) v x b1)
    (k1 : Committer.Next codec.crc s .none v s1) :
    M.Run ⟨b, s, still cs⟩ [some ⟨v, some x⟩] ⟨b1, s1, still cs⟩ := by
  have st : FullImpl.Next codec true ⟨b, s, still cs⟩ (some ⟨v, some x⟩) ⟨b1, s1, still cs⟩ :=
    .machine (.valid (dop := .none) (MkfsDemo.no_write fun _ _ e => nomatch e) h1 k1) .stutter
  exact .cons st (.nil _)

/-- A read that succeeds: a request, the disk, an answer. -/
theorem read_run {cs : List UInt8} {b b1 b2 : BlockImpl.State Node}
    {s s1 s2 : Committer.State} {l : Loc} {id : ReqId} {v1 v2 : VOp} {x1 x2 : BlockCache.Step Node}
    (hlen : l.addr + l.len ≤ cs.length)
    (h1 : BlockNext b (blockOp codec (.reqRead id l)) v1 x1 b1)
    (k1 : Committer.Next codec.crc s (.reqRead id l) v1 s1)
    (h2 : BlockNext b1 (blockOp codec (.respRead id ⟨l.addr, bytesAt (byteOf cs) l⟩)) v2 x2 b2)
    (k2 : Committer.Next codec.crc s1 (.respRead id ⟨l.addr, bytesAt (byteOf cs) l⟩) v2 s2) :
    M.Run ⟨b, s, still cs⟩ [some ⟨v1, some x1⟩, none, some ⟨v2, some x2⟩] ⟨b2, s2, still cs⟩ := by
  have e : ByteDisk.read cs l = bytesAt (byteOf cs) l := read_eq hlen
  have c1 : (PMap.insert .empty id l).remove id = (.empty : PMap ReqId Loc) := by
    funext x; simp [PMap.insert, PMap.remove, PMap.empty]
  have c2 : ∀ r : Data, (PMap.insert .empty id r).remove id = (.empty : PMap ReqId Data) := by
    intro r; funext x; simp [PMap.insert, PMap.remove, PMap.empty]
  have st : FullImpl.Next codec true ⟨b, s, still cs⟩ (some ⟨v1, some x1⟩)
      ⟨b1, s1, ⟨PMap.insert .empty id l, .empty, .empty, .empty, cs, ByteDisk.noPads⟩⟩ :=
    .machine (.valid (dop := .reqRead id l) (MkfsDemo.no_write fun _ _ e => nomatch e) h1 k1)
      (ByteDisk.Next.recvRead (d := still cs) rfl rfl)
  have st2 : FullImpl.Next codec true ⟨b1, s1, ⟨PMap.insert .empty id l, .empty, .empty, .empty, cs, ByteDisk.noPads⟩⟩ none
      ⟨b1, s1, ⟨.empty, .empty, PMap.insert .empty id ⟨l.addr, bytesAt (byteOf cs) l⟩, .empty, cs, ByteDisk.noPads⟩⟩ := by
    have := ByteDisk.Internal.processRead (crc := codec.crc) (kind := true)
      (d := ⟨PMap.insert .empty id l, .empty, .empty, .empty, cs, ByteDisk.noPads⟩) rfl (PMap.insert_same _ _ _) hlen
    dsimp only at this
    rw [e, c1] at this
    exact .disk this
  have st3 : FullImpl.Next codec true ⟨b1, s1, ⟨.empty, .empty,
      PMap.insert .empty id ⟨l.addr, bytesAt (byteOf cs) l⟩, .empty, cs, ByteDisk.noPads⟩⟩ (some ⟨v2, some x2⟩)
      ⟨b2, s2, still cs⟩ := by
    have := ByteDisk.Next.ackRead (kind := true) (id := id) (r := ⟨l.addr, bytesAt (byteOf cs) l⟩)
      (d := ⟨.empty, .empty, PMap.insert .empty id ⟨l.addr, bytesAt (byteOf cs) l⟩, .empty, cs, ByteDisk.noPads⟩)
      (PMap.insert_same _ _ _)
    dsimp only at this
    rw [c2] at this
    exact .machine (.valid (dop := .respRead id ⟨l.addr, bytesAt (byteOf cs) l⟩)
      (MkfsDemo.no_write fun _ _ e => nomatch e) h2 k2) this
  exact .cons st (.cons st2 (.cons st3 (.nil _)))

theorem read_sb {cs : List UInt8} {s : Committer.State} (w : Bool) (hs : s.status = .superblock)
    (h1 : s.sbRead w = none) (h2 : s.sbGot w = .unfinished)
    (h3 : superblockAt codec cs w = some superblock) :
    M.Run ⟨.unready, s, still cs⟩
      [some ⟨.journalInternal, some .noop⟩, none, some ⟨.journalInternal, some .noop⟩]
      ⟨.unready, { s with sbGot := setAt s.sbGot w (.success superblock) }, still cs⟩ := by
  obtain ⟨k1, k2⟩ := ByteSystem.superblockAt_some (c := codec) (contents := cs) (w := w) (by rw [h3]; simp)
  rw [h3] at k2
  obtain ⟨q1, _⟩ := ByteSystem.op_reqSb codec 0 w
  obtain ⟨q3, _⟩ := ByteSystem.op_respSb codec 0 w (r := ⟨(sbLoc w).addr, bytesAt (byteOf cs) (sbLoc w)⟩)
    ByteSystem.loc_of_bytes
  have p1 := Committer.Next.pageSb (crc := codec.crc) (id := 0) hs h1 h2
  have e1 : s.pageInSb w 0 = (.reqRead 0 (sbLoc w), { s with sbRead := setAt s.sbRead w (some 0) }) := by
    unfold Committer.State.pageInSb; rw [if_pos h1]
  rw [e1] at p1
  have p2 := Committer.Next.readSb (crc := codec.crc) (s := { s with sbRead := setAt s.sbRead w (some 0) })
    (id := 0) (w := w) (r := ⟨(sbLoc w).addr, bytesAt (byteOf cs) (sbLoc w)⟩) ByteSystem.loc_of_bytes
  dsimp only at p2
  rw [← codec_superblock, ← k2] at p2
  have e2 : Committer.State.readSbResp { s with sbRead := setAt s.sbRead w (some 0) } w 0 (some superblock) =
      { s with sbGot := setAt s.sbGot w (.success superblock) } := by
    unfold Committer.State.readSbResp
    rw [if_pos (by simp)]
    dsimp only
    rw [ByteSystem.setAt_back s.sbRead w _ h1]
  rw [e2] at p2
  exact read_run (l := sbLoc w) (id := 0) k1 (by rw [q1]; exact .rest (.inr (.inl rfl))) p1
    (by rw [q3]; exact .rest (.inr (.inl rfl))) p2

/-- The row of a fresh file. -/
def row : TRow := (0, nodeLoc, [])
/-- Its table, as the code builds it. -/
def tab : Tab := ⟨[(0, ⟨some nodeLoc, [], 1⟩)], some [], 0, none⟩
/-- The blocks in use. -/
def bits : IndTable.Bitmap := fun i => i == nodeLoc.addr / nodeBlockSize || decide (i < minNodeBlockIndex)

theorem tab_of : ofRows [row] = some tab := rfl

theorem view_of : rowsView [row] = table := by
  rw [rowsView_cons]
  rfl

theorem opens : ∃ b, tab.initBitmap = some b := by
  have e : nodeLoc.addr / nodeBlockSize = minNodeBlockIndex :=
    Nat.mul_div_cancel_left _ (by simp [nodeBlockSize])
  refine ⟨IndTable.Bitmap.set (fun i => decide (i < minNodeBlockIndex)) minNodeBlockIndex, ?_⟩
  show (IndTable.markLoc (fun i => decide (i < minNodeBlockIndex)) (0, ⟨some nodeLoc, [], 1⟩) >>= fun b => some b) = _
  unfold IndTable.markLoc
  dsimp only
  rw [e, if_pos ⟨by simp [minNodeBlockIndex, IndTable.numBlocks, superblockSize, numJournalBlocks, journalBlockSize,
    tableMaxLength, nodeBlockSize], by simp⟩]
  rfl

/-- The state after opening. -/
def s0 (b : IndTable.Bitmap) : S := ⟨tab.clone, none, tab, tableLoc, none, none, [], [], [], [], .init b⟩
/-- With the root asked for. -/
def s1 (b : IndTable.Bitmap) : S := { s0 b with reads := [(0, 0)] }
/-- With the root in the cache. -/
def s2 (b : IndTable.Bitmap) : S := { s0 b with lru := [0], cache := [(0, emptyNode)] }

/-- Nothing is written in this run. -/
def io : Env Node := ⟨0, fun _ => none, fun _ => none⟩
theorem io_ok : EnvOk io := ⟨(fun _ _ h => nomatch h), fun _ _ h => nomatch h⟩

/-- The put of the run, by a block side that has the root. -/
theorem put_out (b : IndTable.Bitmap) : run (s2 b) io (.insert [1] [2] false) =
    ⟨.none, .advance (.put [1] [2]) false, .transaction [(0, emptyNode)] [.write 0 MkfsDemo.n1],
      (s2 b).writeSame 0 MkfsDemo.n1⟩ := rfl

/-- The same put when the root is not there: it is asked for. -/
theorem ask_out (b : IndTable.Bitmap) : run (s0 b) io (.insert [1] [2] false) =
    ⟨.reqReadNode 0 nodeLoc, .statesInternal, .pageInNodeReq 0, s1 b⟩ := rfl

/-- The root arrives. -/
theorem got_out (b : IndTable.Bitmap) : run (s1 b) io (.readNode 0 (some emptyNode)) =
    ⟨.respReadNode 0 (some emptyNode), .statesInternal, .pageInNodeResp, s2 b⟩ := rfl

theorem append_replayEmpty (s : Committer.State) (e : Entry) :
    (s.append e).journalist.replayEmpty = s.journalist.replayEmpty := by
  unfold Committer.State.append Journalist.State.append Journalist.State.replayEmpty
  dsimp only
  split <;> rfl

/-- **A run**: the store is opened on a fresh file; a put is tried until it is done. -/
theorem run_ready {cs : List UInt8} (h : WrittenIn mkfs cs) : ∃ tr bm s', Invisible tr ∧
    (s'.status = .ready ∧ s'.journalist.replayEmpty = true) ∧ M.Run ⟨.unready, Committer.init, still cs⟩
      (tr ++ [some ⟨.advance (.put [1] [2]) false, some (.transaction [(0, emptyNode)] [.write 0 MkfsDemo.n1])⟩])
      ⟨.ready ((s2 bm).writeSame 0 MkfsDemo.n1), s', still cs⟩ := by
  obtain ⟨hS, hT, hN⟩ := reads h
  obtain ⟨bm, hb⟩ := opens
  have hlT : tableLoc.addr + tableLoc.len ≤ cs.length := (h (table1Addr, tablePart) (.tail _ (.tail _ (.head _)))).1
  have hlN : nodeLoc.addr + nodeLoc.len ≤ cs.length := by
    have e : nodeLoc.len = nodePart.length := by unfold nodeLoc; rfl
    have := (h (nodeLoc.addr, nodePart) (by unfold mkfs; exact .tail _ (.tail _ (.tail _ (.head _))))).1
    dsimp only at this
    rw [e]
    exact this
  have a1 := read_sb (s := Committer.init) false rfl rfl rfl (hS false)
  have a2 := read_sb (s := { Committer.init with
    sbGot := setAt Committer.init.sbGot false (.success superblock) }) true rfl rfl rfl (hS true)
  obtain ⟨s2', hs2⟩ : ∃ s2 : Committer.State, s2 = { Committer.init with
    sbGot := setAt (setAt Committer.init.sbGot false (.success superblock)) true (.success superblock) } :=
    ⟨_, rfl⟩
  have g1 : s2'.status = .superblock := by rw [hs2]; rfl
  have g2 : s2'.sbGot false = .success superblock := by rw [hs2]; rfl
  have g3 : s2'.sbGot true = .success superblock := by rw [hs2]; rfl
  have g4 : s2'.journalist = Journalist.init := by rw [hs2]; rfl
  have a3 : M.Run ⟨.unready, s2', still cs⟩ [some ⟨.sendPersistentLoc tableLoc, some .receiveLoc⟩]
      ⟨.loading tableLoc none, s2'.finishSb superblock superblock, still cs⟩ := by
    have := Committer.Next.finishSb (crc := codec.crc) g1 g2 g3
    exact step_run (.receiveLoc tableLoc_valid) this
  obtain ⟨s3, hs3⟩ : ∃ s3 : Committer.State, s3 = s2'.finishSb superblock superblock := ⟨_, rfl⟩
  have i1 : s3.status = .other := by rw [hs3]; rfl
  have i2 : s3.sb = superblock := by
    rw [hs3]; unfold Committer.State.finishSb; dsimp only; split <;> rfl
  have i4 : s3.journalist = Journalist.init := by rw [hs3, ← g4]; rfl
  have a4 : M.Run ⟨.loading tableLoc none, s3, still cs⟩ [some ⟨.journalInternal, some .noop⟩]
      ⟨.loading tableLoc none, s3.finishOther, still cs⟩ := by
    have := Committer.Next.tryFinishOther (crc := codec.crc) (id := 0) i1
    have e : s3.tryFinishOther 0 = (.none, s3.finishOther) := by
      unfold Committer.State.tryFinishOther
      have h0 : s3.sb.len = 0 := by rw [i2]; rfl
      have h1 : s3.sb.start = 0 := by rw [i2]; rfl
      dsimp only
      rw [h0, h1, if_neg (by simp), if_neg (by simp), if_pos (by simp)]
    rw [e] at this
    exact step_run (.rest (.inr (.inl rfl))) this
  have ho : s3.finishOther.status = .ready ∧ s3.finishOther.journalist = Journalist.init := by
    have e : s3.journalist.parse = some Journalist.init := by rw [i4]; exact FullDemo.init_parse
    unfold Committer.State.finishOther
    rw [e]
    exact ⟨rfl, by dsimp only; rw [i2]; rfl⟩
  obtain ⟨s4, hs4⟩ : ∃ s4 : Committer.State, s4 = s3.finishOther := ⟨_, rfl⟩
  rw [← hs4] at a4 ho
  have hloc : (⟨tableLoc.addr, bytesAt (byteOf cs) tableLoc⟩ : Data).loc = tableLoc := ByteSystem.loc_of_bytes
  obtain ⟨q1, _⟩ := ByteSystem.op_reqT codec 0 tableLoc_valid
  obtain ⟨q3, _⟩ := ByteSystem.op_respT codec 0 (r := ⟨tableLoc.addr, bytesAt (byteOf cs) tableLoc⟩)
    (by rw [hloc]; exact tableLoc_valid)
  have hopen : BlockImpl.opened (Node := Node) tableLoc tab = some (s0 bm) := by
    unfold BlockImpl.opened; rw [hb]; rfl
  have a5 := read_run (l := tableLoc) (id := 0) (b := .loading tableLoc none) (b1 := .loading tableLoc (some 0))
    (b2 := .ready (s0 bm)) (s := s4) (s1 := s4) (s2 := s4)
    (v1 := .statesInternal) (v2 := .statesInternal) (x1 := .pageInTableReq) (x2 := .pageInTableResp) hlT
    (by rw [q1]; exact .pageInTable) (.away (.inl ⟨0, rfl⟩) (.inr tableLoc_valid))
    (by
      rw [q3]; dsimp only; rw [hT, ← view_of]
      exact .opened (by simp) (by intro x hx; rw [List.mem_singleton.mp hx]; exact nodeLoc_valid) tab_of hopen)
    (.readAway (.inr (.inl (by rw [hloc]; exact tableLoc_valid))) (.inl rfl))
  have hlocN : (⟨nodeLoc.addr, bytesAt (byteOf cs) nodeLoc⟩ : Data).loc = nodeLoc := ByteSystem.loc_of_bytes
  obtain ⟨q5, _⟩ := ByteSystem.op_reqN codec 0 nodeLoc_valid
  obtain ⟨q7, _⟩ := ByteSystem.op_respN codec 0 (r := ⟨nodeLoc.addr, bytesAt (byteOf cs) nodeLoc⟩)
    (by rw [hlocN]; exact nodeLoc_valid)
  have a6 := read_run (l := nodeLoc) (id := 0) (b := .ready (s0 bm)) (b1 := .ready (s1 bm))
    (b2 := .ready (s2 bm)) (s := s4) (s1 := s4) (s2 := s4) (v1 := .statesInternal) (v2 := .statesInternal)
    (x1 := .pageInNodeReq 0) (x2 := .pageInNodeResp) hlN
    (by
      rw [q5]
      have := BlockNext.call (s := s0 bm) (.insert [1] [2] false) io_ok
      rw [ask_out] at this
      exact this)
    (.away (.inl ⟨0, rfl⟩) (.inl nodeLoc_valid))
    (by
      rw [q7]; dsimp only; rw [hN]
      have := BlockNext.call (s := s1 bm) (.readNode 0 (some emptyNode)) io_ok
      rw [got_out] at this
      exact this)
    (.readAway (.inl (by rw [hlocN]; exact nodeLoc_valid)) (.inl rfl))
  have hre : s4.journalist.replayEmpty = true := by rw [ho.2]; rfl
  have hca : s4.journalist.canAppend MkfsDemo.e1 = true := by rw [ho.2]; exact MkfsDemo.can1
  have a7 := step_run (cs := cs) (b := .ready (s2 bm)) (b1 := .ready ((s2 bm).writeSame 0 MkfsDemo.n1))
    (s := s4) (s1 := s4.append MkfsDemo.e1)
    (v := .advance (.put [1] [2]) false) (x := .transaction [(0, emptyNode)] [.write 0 MkfsDemo.n1])
    (by
      have := BlockNext.call (s := s2 bm) (.insert [1] [2] false) io_ok
      rw [put_out] at this
      exact this)
    (.append ho.1 hre hca (by simp [MkfsDemo.e1, JournalBytes.Ok, maxLen]) rfl)
  subst hs2 hs3
  have one : ∀ {v : VOp} {s : Option (BlockCache.Step Node)}, v.ui = .noop → Invisible [some ⟨v, s⟩] := by
    intro v s h l hl
    rw [List.mem_singleton.mp hl]; exact h
  exact ⟨_, bm, s4.append MkfsDemo.e1, (((ByteSystem.invisible_three rfl rfl).append (ByteSystem.invisible_three rfl rfl)).append
    (one rfl)).append (((one rfl).append (ByteSystem.invisible_three rfl rfl)).append
      (ByteSystem.invisible_three rfl rfl)), ⟨ho.1, (append_replayEmpty _ _).trans hre⟩, (((a1.append a2).append a3).append ((a4.append a5).append a6)).append a7⟩

theorem run_to {cs : List UInt8} (h : WrittenIn mkfs cs) : ∃ tr bm s', Invisible tr ∧
    M.Run ⟨.unready, Committer.init, still cs⟩
      (tr ++ [some ⟨.advance (.put [1] [2]) false, some (.transaction [(0, emptyNode)] [.write 0 MkfsDemo.n1])⟩])
      ⟨.ready ((s2 bm).writeSame 0 MkfsDemo.n1), s', still cs⟩ := by
  obtain ⟨tr, bm, s', h1, -, h2⟩ := run_ready h
  exact ⟨tr, bm, s', h1, h2⟩

theorem run {cs : List UInt8} (h : WrittenIn mkfs cs) : ∃ tr s s', Invisible tr ∧
    M.Run ⟨.unready, Committer.init, still cs⟩
      (tr ++ [some ⟨.advance (.put [1] [2]) false, some (.transaction [(0, emptyNode)] [.write 0 MkfsDemo.n1])⟩])
      ⟨.ready s, s', still cs⟩ := by
  obtain ⟨tr, bm, s', h1, h2⟩ := run_to h
  exact ⟨tr, _, s', h1, h2⟩

end Verif.Kv.FullImplDemo
