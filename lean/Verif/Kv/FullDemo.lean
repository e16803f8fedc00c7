import Verif.Kv.FullProof
import Verif.Kv.ByteDemo
/-
A run of the whole program on a disk of bytes, the superblocks in their real format: the store is opened,
a put is made and synchronised, and the system crashes. No code is modelled here.
-/
namespace Verif.Kv.FullDemo
open ByteDisk BlockSystem BlockCache
open ByteSystem (still byteOf bytesAt superblockAt ValidWrite blockOp journalOp Invisible)
open StoreDemo (T1 T2 N0 vT1 vT2 vN0 t0 t0_wf t0_dist ins0)
open SystemDemo (flat e1 r0 r1 r2 dirty1)
open JournalDemo (f0 wf0 sel0)
open JournalCache (WFSb)

/-- What is after the checksum: a superblock in its format, or a tag, 1 for the one table and 2 for an
empty node. -/
def parse (s : List UInt8) : Option (Sector (List Entry)) :=
  match SuperblockBytes.ofPayload s with
  | some sb => some (.superblock sb)
  | none =>
    if s[0]? = some 1 then some (.table t0)
    else if s[0]? = some 2 then some (.node [])
    else none

/-- A codec. The checksum is 32 zeros. -/
def c : Codec (List Entry) := ⟨fun _ => List.replicate 32 0, parse⟩

theorem hcrc (x : List UInt8) : (c.crc x).length = 32 := List.length_replicate

theorem hsb (x : List UInt8) : c.superblock x = SuperblockBytes.ofBytes c.crc x := by
  unfold Codec.superblock Codec.sector SuperblockBytes.ofBytes
  by_cases h : Checks c.crc x
  · rw [if_pos h, if_pos h]
    rw [show c.parse (x.drop 32) = parse (x.drop 32) from rfl]
    unfold parse
    cases SuperblockBytes.ofPayload (x.drop 32) with
    | some sb => rfl
    | none =>
      dsimp only
      by_cases h1 : (x.drop 32)[0]? = some 1
      · rw [if_pos h1]
      · rw [if_neg h1]
        by_cases h2 : (x.drop 32)[0]? = some 2
        · rw [if_pos h2]
        · rw [if_neg h2]
  · rw [if_neg h, if_neg h]

/-- The bytes at first: two superblocks, a table and a node. -/
def bt (i : Nat) : UInt8 :=
  if i < 4096 then (SuperblockBytes.marshal c.crc (f0 false))[i]?.getD 0
  else if i < 8192 then (SuperblockBytes.marshal c.crc (f0 true))[i - 4096]?.getD 0
  else if i = T1.addr + 32 then 1 else if i = N0.addr + 32 then 2 else 0

/-- The disk at first. -/
def cs0 : List UInt8 := (List.range (N0.addr + 4096)).map bt

open ByteDemo (t1_lt n0_gt t2_gt t1_n0)

theorem byteOf0 : byteOf cs0 = bt := by
  funext i
  unfold byteOf cs0
  rw [List.getElem?_map]
  by_cases h : i < N0.addr + 4096
  · rw [List.getElem?_range h]; rfl
  · rw [List.getElem?_eq_none (by rw [List.length_range]; omega)]
    have := t1_n0
    have := t1_lt
    unfold bt
    rw [if_neg (by omega), if_neg (by omega), if_neg (by omega), if_neg (by omega)]
    rfl

theorem length0 : cs0.length = N0.addr + 4096 := by simp [cs0]

attribute [irreducible] cs0

/-- A sector that is no superblock. -/
theorem sector_at {E : Nat → UInt8} {l : Loc} (hl : 35 ≤ l.len) (h : ∀ i, i < 32 → E (l.addr + i) = 0)
    (h0 : E (l.addr + 32) ≠ 0) :
    c.sector (bytesAt E l) = if E (l.addr + 32) = 1 then some (.table t0)
      else if E (l.addr + 32) = 2 then some (.node []) else none := by
  have hk : Checks c.crc (bytesAt E l) := by
    refine ⟨by rw [bytesAt_length]; omega, List.ext_getElem? fun i => ?_⟩
    show ((bytesAt E l).take 32)[i]? = (List.replicate 32 0)[i]?
    rw [List.getElem?_take, List.getElem?_replicate]
    by_cases hi : i < 32
    · rw [if_pos hi, if_pos hi, bytesAt_get?, if_pos (by omega), h i hi]
    · rw [if_neg hi, if_neg hi]
  have hg : ((bytesAt E l).drop 32)[0]? = some (E (l.addr + 32)) := by
    rw [List.getElem?_drop, bytesAt_get?, if_pos (by omega)]
  unfold Codec.sector
  rw [if_pos hk]
  show parse _ = _
  have hn : SuperblockBytes.ofPayload ((bytesAt E l).drop 32) = none := by
    generalize (bytesAt E l).drop 32 = x at hg
    match x, hg with
    | b :: x, hg =>
      have hb : b = E (l.addr + 32) := Option.some.inj hg
      unfold SuperblockBytes.ofPayload
      cases hw : SuperblockBytes.words 6 (b :: x) with
      | none => rfl
      | some ws =>
        rw [SuperblockBytes.words] at hw
        split at hw
        · obtain ⟨ws', _, rfl⟩ := Option.map_eq_some_iff.mp hw
          have hne : SuperblockBytes.unpackLE ((b :: x).take 8) ≠ 0 := by
            rw [List.take_succ_cons, SuperblockBytes.unpackLE]
            intro e
            have : b.toNat = 0 := by omega
            apply h0
            rw [← hb]
            exact UInt8.toNat_inj.mp this
          generalize SuperblockBytes.unpackLE ((b :: x).take 8) = k at hne
          match ws' with
          | [_, _, _, _, _] => exact if_neg fun k => hne k.1
          | [] | [_] | [_, _] | [_, _, _] | [_, _, _, _] | _ :: _ :: _ :: _ :: _ :: _ :: _ => rfl
        · cases hw
  unfold parse
  rw [hn, hg]
  simp only [Option.some.injEq]

theorem bt_ge {i : Nat} (h : 8192 ≤ i) : bt i = if i = T1.addr + 32 then 1 else if i = N0.addr + 32 then 2 else 0 := by
  unfold bt; rw [if_neg (by omega), if_neg (by omega)]

theorem table0 : c.table (bytesAt bt T1) = some t0 := by
  have := t1_lt
  have := t1_n0
  have h1 : bt (T1.addr + 32) = 1 := by rw [bt_ge (by omega), if_pos rfl]
  unfold Codec.table
  rw [sector_at (by simp [T1]) (fun i hi => by
    rw [bt_ge (by omega), if_neg (by omega), if_neg (by omega)]) (by rw [h1]; decide), h1]
  rfl

theorem node0 : c.node (bytesAt bt N0) = some [] := by
  have := t1_lt
  have := t1_n0
  have h1 : bt (N0.addr + 32) = 2 := by rw [bt_ge (by omega), if_neg (by omega), if_pos rfl]
  unfold Codec.node
  rw [sector_at (by simp [N0]) (fun i hi => by
    rw [bt_ge (by omega), if_neg (by omega), if_neg (by omega)]) (by rw [h1]; decide), h1]
  rfl

theorem ok0 (w : Bool) : SuperblockBytes.SbOk (f0 w) := ⟨wf0 w, by cases w <;> simp [f0]⟩

theorem bytes_sb (w : Bool) : bytesAt bt (sbLoc w) = SuperblockBytes.marshal c.crc (f0 w) := by
  have hl := SuperblockBytes.marshal_length hcrc (f0 w)
  have hb := sb_bounds w
  refine List.ext_getElem? fun i => ?_
  rw [bytesAt_get?, hb.1]
  by_cases hi : i < 4096
  · rw [if_pos hi, List.getElem?_eq_getElem (by rw [hl]; exact hi), hb.2.2]
    congr 1
    unfold bt
    cases w
    · simp only [Bool.false_eq_true, if_false, Nat.zero_add]
      rw [if_pos hi, List.getElem?_eq_getElem (by rw [hl]; exact hi)]; rfl
    · simp only [if_true]
      rw [if_neg (by omega), if_pos (by omega), Nat.add_sub_cancel_left,
        List.getElem?_eq_getElem (by rw [hl]; exact hi)]; rfl
  · rw [if_neg hi, List.getElem?_eq_none (by rw [hl]; omega)]

theorem superblock0 (w : Bool) : superblockAt c cs0 w = some (f0 w) := by
  have := t1_lt
  have := t1_n0
  have hb := sb_bounds w
  unfold superblockAt
  have hl : (sbLoc w).addr + (sbLoc w).len ≤ cs0.length := by rw [length0]; omega
  rw [if_pos hl, read_eq hl, byteOf0, bytes_sb, hsb]
  exact SuperblockBytes.ofBytes_marshal hcrc (ok0 w)

/-- The machine; reads may succeed. -/
abbrev M := Full.machine flat c (fun n => n = []) T1 true

theorem init0 : M.Init ⟨.unready, Committer.init, still cs0⟩ :=
  ⟨rfl, ByteDemo.init_of (by rw [byteOf0]; exact table0) (by rw [byteOf0]; exact node0) superblock0⟩

/-! ### Reads and writes -/

theorem can0 : Journalist.init.canAppend e1 = true := by
  unfold Journalist.State.canAppend
  have : Journalist.init.written = 0 ∧ Journalist.init.frozenBlocks = 0 ∧ Journalist.init.memWeight = 0 ∧
    Journalist.init.len2 = 0 := ⟨rfl, rfl, rfl, rfl⟩
  simp [this.1, this.2.1, this.2.2.1, this.2.2.2, JournalBytes.weight, e1, numJournalBlocks]

theorem pack_replay (j : Journalist.State) (h : j.replayEmpty = true) :
    (j.packageMem c.crc).2.replayEmpty = true := h

theorem append_parts : (Journalist.init.append e1).written = 0 ∧
    (Journalist.init.append e1).replayEmpty = true := by
  unfold Journalist.State.append
  dsimp only
  split <;> exact ⟨rfl, rfl⟩

theorem no_write {dop : Op} (h : ∀ id w, dop ≠ .reqWrite id w) :
    ∀ id w, dop = .reqWrite id w → ValidNodeLoc w.loc ∨ ValidTableLoc w.loc → ValidWrite c w :=
  fun id w e => absurd e (h id w)

/-- A step of the machine that leaves the disk alone. -/
theorem step_run {cs : List UInt8} {b b1 : BlockCache.State (List Entry)} {s s1 : Committer.State} {v : VOp}
    {x : BlockCache.Step (List Entry)} (h1 : BlockCache.Next flat b (blockOp c .none) v x b1)
    (k1 : Committer.Next c.crc s .none v s1) :
    M.Run ⟨b, s, still cs⟩ [some ⟨v, some x⟩] ⟨b1, s1, still cs⟩ := by
  have st : Full.Next flat c true ⟨b, s, still cs⟩ (some ⟨v, some x⟩) ⟨b1, s1, still cs⟩ :=
    .machine (.valid (dop := .none) (no_write fun _ _ e => nomatch e) h1 k1) .stutter
  exact .cons st (.nil _)

/-- A read that succeeds: a request, the disk, an answer. -/
theorem read_run {cs : List UInt8} {b b1 b2 : BlockCache.State (List Entry)}
    {s s1 s2 : Committer.State} {l : Loc} {id : ReqId} {v1 v2 : VOp} {x1 x2 : BlockCache.Step (List Entry)}
    (hlen : l.addr + l.len ≤ cs.length)
    (h1 : BlockCache.Next flat b (blockOp c (.reqRead id l)) v1 x1 b1)
    (k1 : Committer.Next c.crc s (.reqRead id l) v1 s1)
    (h2 : BlockCache.Next flat b1 (blockOp c (.respRead id ⟨l.addr, bytesAt (byteOf cs) l⟩)) v2 x2 b2)
    (k2 : Committer.Next c.crc s1 (.respRead id ⟨l.addr, bytesAt (byteOf cs) l⟩) v2 s2) :
    M.Run ⟨b, s, still cs⟩ [some ⟨v1, some x1⟩, none, some ⟨v2, some x2⟩] ⟨b2, s2, still cs⟩ := by
  have e : ByteDisk.read cs l = bytesAt (byteOf cs) l := read_eq hlen
  have c1 : (PMap.insert .empty id l).remove id = (.empty : PMap ReqId Loc) := by
    funext x; simp [PMap.insert, PMap.remove, PMap.empty]
  have c2 : ∀ r : Data, (PMap.insert .empty id r).remove id = (.empty : PMap ReqId Data) := by
    intro r; funext x; simp [PMap.insert, PMap.remove, PMap.empty]
  have st : Full.Next flat c true ⟨b, s, still cs⟩ (some ⟨v1, some x1⟩)
      ⟨b1, s1, ⟨PMap.insert .empty id l, .empty, .empty, .empty, cs, ByteDisk.noPads⟩⟩ :=
    .machine (.valid (dop := .reqRead id l) (no_write fun _ _ e => nomatch e) h1 k1)
      (ByteDisk.Next.recvRead (d := still cs) rfl rfl)
  have st2 : Full.Next flat c true ⟨b1, s1, ⟨PMap.insert .empty id l, .empty, .empty, .empty, cs, ByteDisk.noPads⟩⟩ none
      ⟨b1, s1, ⟨.empty, .empty, PMap.insert .empty id ⟨l.addr, bytesAt (byteOf cs) l⟩, .empty, cs, ByteDisk.noPads⟩⟩ := by
    have := ByteDisk.Internal.processRead (crc := c.crc) (kind := true)
      (d := ⟨PMap.insert .empty id l, .empty, .empty, .empty, cs, ByteDisk.noPads⟩) rfl (PMap.insert_same _ _ _) hlen
    dsimp only at this
    rw [e, c1] at this
    exact .disk this
  have st3 : Full.Next flat c true ⟨b1, s1, ⟨.empty, .empty,
      PMap.insert .empty id ⟨l.addr, bytesAt (byteOf cs) l⟩, .empty, cs, ByteDisk.noPads⟩⟩ (some ⟨v2, some x2⟩)
      ⟨b2, s2, still cs⟩ := by
    have := ByteDisk.Next.ackRead (kind := true) (id := id) (r := ⟨l.addr, bytesAt (byteOf cs) l⟩)
      (d := ⟨.empty, .empty, PMap.insert .empty id ⟨l.addr, bytesAt (byteOf cs) l⟩, .empty, cs, ByteDisk.noPads⟩)
      (PMap.insert_same _ _ _)
    dsimp only at this
    rw [c2] at this
    exact .machine (.valid (dop := .respRead id ⟨l.addr, bytesAt (byteOf cs) l⟩) (no_write fun _ _ e => nomatch e) h2 k2) this
  exact .cons st (.cons st2 (.cons st3 (.nil _)))

/-- A write: a request, the disk, an answer. -/
theorem write_run {cs : List UInt8} {b b1 b2 : BlockCache.State (List Entry)}
    {s s1 s2 : Committer.State} {w : Data} {id : ReqId} {v1 v2 : VOp} {x1 x2 : BlockCache.Step (List Entry)}
    (hlen : w.addr + w.bytes.length ≤ cs.length)
    (hv : ValidNodeLoc w.loc ∨ ValidTableLoc w.loc → ValidWrite c w)
    (h1 : BlockCache.Next flat b (blockOp c (.reqWrite id w)) v1 x1 b1)
    (k1 : Committer.Next c.crc s (.reqWrite id w) v1 s1)
    (h2 : BlockCache.Next flat b1 (blockOp c (.respWrite id w.loc)) v2 x2 b2)
    (k2 : Committer.Next c.crc s1 (.respWrite id w.loc) v2 s2) :
    M.Run ⟨b, s, still cs⟩ [some ⟨v1, some x1⟩, none, some ⟨v2, some x2⟩]
      ⟨b2, s2, still (ByteDisk.splice cs w.addr w.bytes)⟩ := by
  have c1 : (PMap.insert .empty id w).remove id = (.empty : PMap ReqId Data) := by
    funext x; simp [PMap.insert, PMap.remove, PMap.empty]
  have c2 : (PMap.insert .empty id w.loc).remove id = (.empty : PMap ReqId Loc) := by
    funext x; simp [PMap.insert, PMap.remove, PMap.empty]
  have st1 : Full.Next flat c true ⟨b, s, still cs⟩ (some ⟨v1, some x1⟩)
      ⟨b1, s1, ⟨.empty, PMap.insert .empty id w, .empty, .empty, cs, ByteDisk.noPads⟩⟩ :=
    .machine (.valid (dop := .reqWrite id w) (fun _ _ e k => by cases e; exact hv k) h1 k1)
      (ByteDisk.plainWrite rfl rfl)
  have st2 : Full.Next flat c true ⟨b1, s1, ⟨.empty, PMap.insert .empty id w, .empty, .empty, cs, ByteDisk.noPads⟩⟩
      none ⟨b1, s1, ⟨.empty, .empty, .empty, PMap.insert .empty id w.loc,
        ByteDisk.splice cs w.addr w.bytes, ByteDisk.noPads⟩⟩ := by
    have := ByteDisk.plainProcess (crc := c.crc) (kind := true) (id := id) (w := w)
      (r1 := .empty) (w1 := PMap.insert .empty id w) (r2 := .empty) (w2 := .empty) (PMap.insert_same _ _ _) hlen
    rw [c1] at this
    exact .disk this
  have st3 : Full.Next flat c true ⟨b1, s1, ⟨.empty, .empty, .empty, PMap.insert .empty id w.loc,
        ByteDisk.splice cs w.addr w.bytes, ByteDisk.noPads⟩⟩ (some ⟨v2, some x2⟩)
        ⟨b2, s2, still (ByteDisk.splice cs w.addr w.bytes)⟩ := by
    have := ByteDisk.Next.ackWrite (kind := true) (id := id) (l := w.loc)
      (d := ⟨.empty, .empty, .empty, PMap.insert .empty id w.loc, ByteDisk.splice cs w.addr w.bytes,
        ByteDisk.noPads⟩)
      (PMap.insert_same _ _ _)
    dsimp only at this
    rw [c2] at this
    exact .machine (.valid (dop := .respWrite id w.loc) (no_write fun _ _ e => nomatch e) h2 k2) this
  exact .cons st1 (.cons st2 (.cons st3 (.nil _)))

/-- A write of the committer. -/
theorem write_own {cs : List UInt8} {b : BlockCache.State (List Entry)}
    {s s1 s2 : Committer.State} {w : Data} {id : ReqId} (hlen : w.addr + w.bytes.length ≤ cs.length)
    (hv : ¬ (ValidNodeLoc w.loc ∨ ValidTableLoc w.loc))
    (k1 : Committer.Next c.crc s (.reqWrite id w) .journalInternal s1)
    (k2 : Committer.Next c.crc s1 (.respWrite id w.loc) .journalInternal s2) :
    M.Run ⟨b, s, still cs⟩ [some ⟨.journalInternal, some .noop⟩, none, some ⟨.journalInternal, some .noop⟩]
      ⟨b, s2, still (ByteDisk.splice cs w.addr w.bytes)⟩ := by
  have q1 : blockOp c (.reqWrite id w) = .none := by
    simp only [blockOp, if_neg fun k => hv (.inl k), if_neg fun k => hv (.inr k)]
  have q2 : blockOp c (.respWrite id w.loc) = .none := by
    simp only [blockOp, if_neg fun k => hv (.inl k), if_neg fun k => hv (.inr k)]
  exact write_run hlen (fun k => absurd k hv) (by rw [q1]; exact .noop (.inr (.inl rfl)) (.inl rfl)) k1
    (by rw [q2]; exact .noop (.inr (.inl rfl)) (.inl rfl)) k2

/-! ### The run -/

/-- An opened committer, on an empty journal. -/
structure Opened (s : Committer.State) : Prop where
  status : s.status = .ready
  journalist : s.journalist = Journalist.init
  sb : s.sb = f0 true
  which : s.which = true
  sbWrite : s.sbWrite = none
  writes : s.writes = []
  frozen : s.isFrozen = false
  reqs : s.syncReqs = []

theorem read_sb {cs : List UInt8} {s : Committer.State} (w : Bool) (hs : s.status = .superblock)
    (h1 : s.sbRead w = none) (h2 : s.sbGot w = .unfinished) (h3 : superblockAt c cs w = some (f0 w)) :
    M.Run ⟨.unready, s, still cs⟩
      [some ⟨.journalInternal, some .noop⟩, none, some ⟨.journalInternal, some .noop⟩]
      ⟨.unready, { s with sbGot := setAt s.sbGot w (.success (f0 w)) }, still cs⟩ := by
  obtain ⟨k1, k2⟩ := ByteSystem.superblockAt_some (c := c) (contents := cs) (w := w) (by rw [h3]; simp)
  rw [h3] at k2
  obtain ⟨q1, _⟩ := ByteSystem.op_reqSb c 0 w
  obtain ⟨q3, _⟩ := ByteSystem.op_respSb c 0 w (r := ⟨(sbLoc w).addr, bytesAt (byteOf cs) (sbLoc w)⟩)
    ByteSystem.loc_of_bytes
  have p1 := Committer.Next.pageSb (crc := c.crc) (id := 0) hs h1 h2
  have e1 : s.pageInSb w 0 = (.reqRead 0 (sbLoc w), { s with sbRead := setAt s.sbRead w (some 0) }) := by
    unfold Committer.State.pageInSb; rw [if_pos h1]
  rw [e1] at p1
  have p2 := Committer.Next.readSb (crc := c.crc) (s := { s with sbRead := setAt s.sbRead w (some 0) })
    (id := 0) (w := w) (r := ⟨(sbLoc w).addr, bytesAt (byteOf cs) (sbLoc w)⟩) ByteSystem.loc_of_bytes
  dsimp only at p2
  rw [← hsb, ← k2] at p2
  have e2 : Committer.State.readSbResp { s with sbRead := setAt s.sbRead w (some 0) } w 0 (some (f0 w)) =
      { s with sbGot := setAt s.sbGot w (.success (f0 w)) } := by
    unfold Committer.State.readSbResp
    rw [if_pos (by simp)]
    dsimp only
    rw [ByteSystem.setAt_back s.sbRead w _ h1]
  rw [e2] at p2
  exact read_run (l := sbLoc w) (id := 0) k1 (by rw [q1]; exact .noop (.inr (.inl rfl)) (.inl rfl)) p1
    (by rw [q3]; exact .noop (.inr (.inl rfl)) (.inl rfl)) p2

theorem init_parse : Journalist.init.parse = some Journalist.init := by
  unfold Journalist.State.parse
  rw [show Journalist.init.front.getD [] ++ Journalist.init.back.getD [] = [] from rfl, parse_nil]
  rfl

/-- The store is opened. -/
theorem open0 {cs : List UInt8} (hl : T1.addr + T1.len ≤ cs.length) (hS : ∀ w, superblockAt c cs w = some (f0 w))
    (hT : c.table (bytesAt (byteOf cs) T1) = some t0) :
    ∃ tr s, M.Run ⟨.unready, Committer.init, still cs⟩ tr ⟨.ready r0, s, still cs⟩ ∧ Invisible tr ∧ Opened s := by
  have a1 := read_sb (s := Committer.init) false rfl rfl rfl (hS false)
  have a2 := read_sb (s := { Committer.init with
    sbGot := setAt Committer.init.sbGot false (.success (f0 false)) }) true rfl rfl rfl (hS true)
  obtain ⟨s2, hs2⟩ : ∃ s2 : Committer.State, s2 = { Committer.init with
    sbGot := setAt (setAt Committer.init.sbGot false (.success (f0 false))) true (.success (f0 true)) } := ⟨_, rfl⟩
  have g1 : s2.status = .superblock := by rw [hs2]; rfl
  have g2 : s2.sbGot false = .success (f0 false) := by rw [hs2]; rfl
  have g3 : s2.sbGot true = .success (f0 true) := by rw [hs2]; rfl
  have g4 : s2.journalist = Journalist.init := by rw [hs2]; rfl
  have g5 : s2.syncReqs = [] := by rw [hs2]; rfl
  have a3 : M.Run ⟨.unready, s2, still cs⟩ [some ⟨.sendPersistentLoc T1, some .receiveLoc⟩]
      ⟨.loading T1 none, s2.finishSb (f0 false) (f0 true), still cs⟩ := by
    have := Committer.Next.finishSb (crc := c.crc) g1 g2 g3
    exact step_run (.receiveLoc vT1) this
  obtain ⟨s3, hs3⟩ : ∃ s3 : Committer.State, s3 = s2.finishSb (f0 false) (f0 true) := ⟨_, rfl⟩
  have i1 : s3.status = .other := by rw [hs3]; rfl
  have i2 : s3.sb = f0 true := by rw [hs3]; rfl
  have i3 : s3.which = true := by rw [hs3]; rfl
  have i4 : s3.journalist = Journalist.init := by rw [hs3, ← g4]; rfl
  have i5 : s3.syncReqs = [] := by rw [hs3, ← g5]; rfl
  have a4 : M.Run ⟨.loading T1 none, s3, still cs⟩ [some ⟨.journalInternal, some .noop⟩]
      ⟨.loading T1 none, s3.finishOther, still cs⟩ := by
    have := Committer.Next.tryFinishOther (crc := c.crc) (id := 0) i1
    have e : s3.tryFinishOther 0 = (.none, s3.finishOther) := by
      unfold Committer.State.tryFinishOther
      have h0 : s3.sb.len = 0 := by rw [i2]; rfl
      have h1 : s3.sb.start = 0 := by rw [i2]; rfl
      dsimp only
      rw [h0, h1, if_neg (by simp), if_neg (by simp), if_pos (by simp)]
    rw [e] at this
    exact step_run (.noop (.inr (.inl rfl)) (.inl rfl)) this
  have ho : Opened s3.finishOther := by
    have e : s3.journalist.parse = some Journalist.init := by rw [i4]; exact init_parse
    unfold Committer.State.finishOther
    rw [e]
    exact ⟨rfl, by dsimp only; rw [i2]; rfl, i2, i3, rfl, rfl, rfl, i5⟩
  obtain ⟨q1, _⟩ := ByteSystem.op_reqT c 0 vT1
  have hloc : (⟨T1.addr, bytesAt (byteOf cs) T1⟩ : Data).loc = T1 := ByteSystem.loc_of_bytes
  obtain ⟨q3, _⟩ := ByteSystem.op_respT c 0 (r := ⟨T1.addr, bytesAt (byteOf cs) T1⟩) (by rw [hloc]; exact vT1)
  have a5 := read_run (l := T1) (id := 0) (b := .loading T1 none) (b1 := .loading T1 (some 0))
    (b2 := .ready r0) (s := s3.finishOther) (s1 := s3.finishOther) (s2 := s3.finishOther)
    (v1 := .statesInternal) (v2 := .statesInternal) (x1 := .pageInTableReq) (x2 := .pageInTableResp) hl
    (by rw [q1]; exact .pageInTableReq) (.away (.inl ⟨0, rfl⟩) (.inr vT1))
    (by rw [q3]; dsimp only; rw [hT]; exact .pageInTableResp t0_wf t0_dist)
    (.readAway (.inr (.inl (by rw [hloc]; exact vT1))) (.inl rfl))
  subst hs2 hs3
  refine ⟨_, _, ((a1.append a2).append a3).append (a4.append a5), ?_, ho⟩
  have one : ∀ {v : VOp} {s : Option (BlockCache.Step (List Entry))}, v.ui = .noop →
      Invisible [some ⟨v, s⟩] := by
    intro v s h l hl
    rw [List.mem_singleton.mp hl]; exact h
  exact (((ByteSystem.invisible_three rfl rfl).append (ByteSystem.invisible_three rfl rfl)).append
    (one rfl)).append ((one rfl).append (ByteSystem.invisible_three rfl rfl))

/-- The root is read, a put is made and its synchronisation asked for. -/
theorem put0 {cs : List UInt8} {s : Committer.State} (h : Opened s) (hlen : N0.addr + N0.len ≤ cs.length)
    (hN : c.node (bytesAt (byteOf cs) N0) = some []) :
    M.Run ⟨.ready r0, s, still cs⟩
    [some ⟨.statesInternal, some (.pageInNodeReq 0)⟩, none, some ⟨.statesInternal, some .pageInNodeResp⟩,
      some ⟨.advance (.put [] []) false, some (.transaction [(0, [])] [.write 0 ([] ++ [e1])])⟩,
      some ⟨.pushSync 1, some .noop⟩]
    ⟨.ready r2, { s with journalist := Journalist.init.append e1, syncReqs := [(1, .s3)] }, still cs⟩ := by
  obtain ⟨q1, _⟩ := ByteSystem.op_reqN c 0 vN0
  have hloc : (⟨N0.addr, bytesAt (byteOf cs) N0⟩ : Data).loc = N0 := ByteSystem.loc_of_bytes
  obtain ⟨q3, _⟩ := ByteSystem.op_respN c 0 (r := ⟨N0.addr, bytesAt (byteOf cs) N0⟩) (by rw [hloc]; exact vN0)
  have a1 := read_run (l := N0) (id := 0) (b := .ready r0) (b1 := .ready { r0 with reads := PMap.insert .empty 0 0 })
    (b2 := .ready r1) (s := s) (s1 := s) (s2 := s) (v1 := .statesInternal) (v2 := .statesInternal)
    (x1 := .pageInNodeReq 0) (x2 := .pageInNodeResp) hlen
    (by rw [q1]; exact .pageInNodeReq (by simp [r0, t0]) rfl rfl (by intro i x hx; cases hx))
    (.away (.inl ⟨0, rfl⟩) (.inl vN0))
    (by
      rw [q3]; dsimp only; rw [hN]
      have := BlockCache.Next.pageInNodeResp (A := flat) (r := { r0 with reads := PMap.insert .empty 0 0 })
        (id := 0) (ref := 0) (ss := []) (n := []) rfl rfl rfl (by intro x; simp [flat]) trivial
      simp only [StoreDemo.clear] at this
      exact this)
    (.readAway (.inl (by rw [hloc]; exact vN0)) (.inl rfl))
  have hre : s.journalist.replayEmpty = true := by rw [h.journalist]; rfl
  have hca : s.journalist.canAppend e1 = true := by rw [h.journalist]; exact can0
  have a2 := step_run (cs := cs) (b := .ready r1) (b1 := .ready r2) (s := s) (s1 := s.append e1)
    (v := .advance (.put [] []) false) (x := .transaction [(0, [])] [.write 0 ([] ++ [e1])])
    (.transaction (r := r1) (r' := r2) .put (by
        intro x n hx
        obtain ⟨rfl, rfl⟩ := Prod.mk.inj (List.mem_singleton.mp hx)
        exact ⟨by simp [r1, r0, t0], by simp [r1]⟩) (.cons dirty1 .nil))
    (.append h.status hre hca (by simp [e1, JournalBytes.Ok, maxLen]) rfl)
  have a3 : M.Run ⟨.ready r2, s.append e1, still cs⟩ [some ⟨.pushSync 1, some .noop⟩]
      ⟨.ready r2, { s with journalist := Journalist.init.append e1, syncReqs := [(1, .s3)] }, still cs⟩ := by
    have hp : (s.append e1).pushSync =
        (1, { s with journalist := Journalist.init.append e1, syncReqs := [(1, .s3)] }) := by
      have hq : (s.append e1).syncReqs = [] := h.reqs
      unfold Committer.State.pushSync
      rw [hq, show Committer.freeId [] = 1 by decide]
      dsimp only
      rw [if_pos (by simp)]
      unfold Committer.State.append
      rw [h.journalist]
    have := Committer.Next.pushSync (crc := c.crc) (s := s.append e1)
    rw [hp] at this
    exact step_run (.noop (.inr (.inr (.inl ⟨_, rfl⟩))) (.inl rfl)) this
  exact a1.append (a2.append a3)

/-- The journal is written out, then the superblock. -/
theorem sync0 {cs : List UInt8} {s : Committer.State} (h : Opened s) {b : BlockCache.State (List Entry)}
    (hlen : T1.addr ≤ cs.length) :
    ∃ s' cs', M.Run ⟨b, { s with journalist := Journalist.init.append e1, syncReqs := [(1, .s3)] }, still cs⟩
      [some ⟨.journalInternal, some .noop⟩, none, some ⟨.journalInternal, some .noop⟩,
       some ⟨.journalInternal, some .noop⟩, none, some ⟨.journalInternal, some .noop⟩]
      ⟨b, s', still cs'⟩ ∧ Committer.get s'.syncReqs 1 = some .s1 := by
  obtain ⟨m1, m2, m3⟩ := Journalist.append_spec Journalist.init_inv (e := e1)
    (by simp [e1, JournalBytes.Ok, maxLen]) can0
  rw [Journalist.init_parts.2.1, List.nil_append] at m2
  rw [Journalist.init_parts.1] at m3
  obtain ⟨w0, hre⟩ := append_parts
  obtain ⟨n1, n2, n3, n4, bs, n5, n6, n7, n8, n9⟩ := Journalist.packageMem_spec hcrc m1 m3 (by rw [m2]; simp)
  rw [w0, Nat.zero_add] at n9
  have hf : (Journalist.init.append e1).hasFrozen = false := by
    rw [Bool.eq_false_iff]; intro k; exact (Journalist.hasFrozen_iff m1).mp k m3
  have hm : (Journalist.init.append e1).hasMem = true := (Journalist.hasMem_iff m1).mpr (by rw [m2]; simp)
  have hpre : ((Journalist.init.append e1).packageMem c.crc).2.replayEmpty = true := by
    exact pack_replay _ hre
  generalize Journalist.init.append e1 = j at *
  have hf2 : (j.packageMem c.crc).2.hasFrozen = false := by
    rw [Bool.eq_false_iff]; intro k; exact (Journalist.hasFrozen_iff n1).mp k n2
  have hm2 : (j.packageMem c.crc).2.hasMem = false := by
    rw [Bool.eq_false_iff]; intro k; exact (Journalist.hasMem_iff n1).mp k n3
  have hk : bs.length ≤ numJournalBlocks := by rw [← n9]; exact n4
  have hsb1 : s.sb.start = 0 := by rw [h.sb]; rfl
  -- the journal
  have k1 := Committer.Next.syncLog (crc := c.crc) (s := { s with journalist := j, syncReqs := [(1, .s3)] })
    (id1 := 1) (id2 := 2) h.status hre h.frozen h.sbWrite
  have e1 : Committer.State.tryAdvanceLog { s with journalist := j, syncReqs := [(1, .s3)] } c.crc 1 2 =
      (.reqWrite 1 ⟨journalPoint 0, (j.packageMem c.crc).1⟩, { s with
        journalist := (j.packageMem c.crc).2, syncReqs := [(1, .s2)], writes := [1] }) := by
    unfold Committer.State.tryAdvanceLog Committer.State.writeOutJournal
    dsimp only
    rw [if_pos h.sbWrite, if_pos (.inr hm), hf, hsb1, w0, h.writes]
    simp only [Bool.false_eq_true, if_false]
    rw [show Committer.State.startPosAdd 0 0 = 0 from rfl, n7, Nat.mul_div_cancel_left _ (by omega), Nat.zero_add,
      if_pos hk]
    rfl
  rw [e1] at k1
  have hloc : (⟨journalPoint 0, (j.packageMem c.crc).1⟩ : Data).loc = ⟨journalPoint 0, 4096 * bs.length⟩ :=
    Committer.loc_at n7
  have hvj : ValidJournalLoc (⟨journalPoint 0, (j.packageMem c.crc).1⟩ : Data).loc := by
    rw [hloc]
    exact (ByteSystem.interval_loc (v := ⟨0, bs.length⟩) (by unfold numJournalBlocks; dsimp only; omega)
      (by dsimp only; rw [Nat.zero_add]; exact hk)).1
  have k2 := Committer.Next.writtenJournal (crc := c.crc) (s := { s with
        journalist := (j.packageMem c.crc).2, syncReqs := [(1, .s2)], writes := [1] }) (id := 1) h.status hvj
  have e2 : Committer.State.writeBackJournalResp { s with
        journalist := (j.packageMem c.crc).2, syncReqs := [(1, .s2)], writes := [1] } 1 =
      { s with journalist := (j.packageMem c.crc).2, syncReqs := [(1, .s2)], writes := [] } := by
    unfold Committer.State.writeBackJournalResp
    simp
  rw [e2] at k2
  have hb := journal_bounds hvj
  have hle : journalPoint 0 + (j.packageMem c.crc).1.length ≤ cs.length :=
    Nat.le_trans hb.2 (by simpa [T1] using hlen)
  have p1 := write_own (cs := cs) (b := b) (w := ⟨journalPoint 0, (j.packageMem c.crc).1⟩) (id := 1) hle
    (fun k => k.elim (fun k => node_not_journal k hvj) (fun k => table_not_journal k hvj)) k1 k2
  have hl1 : (ByteDisk.splice cs (journalPoint 0) (j.packageMem c.crc).1).length = cs.length :=
    splice_length (w := ⟨journalPoint 0, (j.packageMem c.crc).1⟩) hle
  dsimp only at p1
  generalize ByteDisk.splice cs (journalPoint 0) (j.packageMem c.crc).1 = cs1 at *
  generalize (j.packageMem c.crc).2 = j2 at *
  -- the superblock
  have k3 := Committer.Next.syncLog (crc := c.crc)
    (s := { s with journalist := j2, syncReqs := [(1, .s2)], writes := [] })
    (id1 := 2) (id2 := 3) h.status hpre h.frozen h.sbWrite
  have e3 : Committer.State.tryAdvanceLog
      { s with journalist := j2, syncReqs := [(1, .s2)], writes := [] } c.crc 2 3 =
      (.reqWrite 2 ⟨(sbLoc false).addr, SuperblockBytes.marshal c.crc ⟨JournalCache.incr s.sb.counter, s.sb.start,
          j2.written, s.sb.loc⟩⟩, { s with
        journalist := j2, syncReqs := [(1, .s2)], writes := []
        newSb := some ⟨JournalCache.incr s.sb.counter, s.sb.start, j2.written, s.sb.loc⟩
        sbWrite := some 2, commit := .log }) := by
    unfold Committer.State.tryAdvanceLog Committer.State.writeOutSbLog
    dsimp only
    rw [if_pos h.sbWrite, if_neg (by rw [hf2, hm2]; simp), if_pos rfl, h.which]
    rfl
  rw [e3] at k3
  have hml := SuperblockBytes.marshal_length hcrc ⟨JournalCache.incr s.sb.counter, s.sb.start, j2.written, s.sb.loc⟩
  generalize hsbn : (⟨JournalCache.incr s.sb.counter, s.sb.start, j2.written, s.sb.loc⟩ : Superblock) = sb at *
  have hloc2 : (⟨(sbLoc false).addr, SuperblockBytes.marshal c.crc sb⟩ : Data).loc = sbLoc false := by
    unfold Data.loc; dsimp only; rw [hml]; rfl
  have k4 := Committer.Next.writtenSb (crc := c.crc) (s := { s with
        journalist := j2, syncReqs := [(1, .s2)], writes := []
        newSb := some sb, sbWrite := some 2, commit := .log }) (id := 2) (w := false) hloc2 rfl
  dsimp only at k4
  rw [if_neg (by rintro ⟨_, k⟩; cases k)] at k4
  have hns := sb_not hloc2
  have p2 := write_own (cs := cs1) (b := b) (w := ⟨(sbLoc false).addr, SuperblockBytes.marshal c.crc sb⟩) (id := 2)
    (by
      dsimp only
      have := t1_lt
      have e : (sbLoc false).addr = 0 := rfl
      rw [e, hml, hl1]
      omega)
    (fun k => k.elim hns.2.2 hns.2.1) k3 k4
  refine ⟨_, _, p1.append p2, ?_⟩
  unfold Committer.State.writeBackSbResp
  dsimp only
  rw [if_neg (by rintro ⟨_, k⟩; cases k), if_pos ⟨h.status, rfl⟩]
  rfl

/-- The trace of the run, after the opening. -/
def trace : List (Option (Label (List Entry))) :=
  [some ⟨.statesInternal, some (.pageInNodeReq 0)⟩, none, some ⟨.statesInternal, some .pageInNodeResp⟩,
   some ⟨.advance (.put [] []) false, some (.transaction [(0, [])] [.write 0 ([] ++ [e1])])⟩,
   some ⟨.pushSync 1, some .noop⟩,
   some ⟨.journalInternal, some .noop⟩, none, some ⟨.journalInternal, some .noop⟩,
   some ⟨.journalInternal, some .noop⟩, none, some ⟨.journalInternal, some .noop⟩,
   some ⟨.popSync 1, some .noop⟩, some ⟨.crash, none⟩]

/-- The store is opened, a put is made and synchronised, and the system crashes. -/
theorem run0 : ∃ t0 s, Invisible t0 ∧ M.Exec (t0 ++ trace) s := by
  have hl0 := length0
  have hS := superblock0
  have hT := table0
  have hN := node0
  have hi := init0
  rw [← byteOf0] at hT hN
  have := t1_n0
  generalize cs0 = cs at *
  obtain ⟨t, s, ho, hinv, hop⟩ := open0 (cs := cs) (by rw [hl0]; exact Nat.le_trans t1_n0 (Nat.le_add_right _ _)) hS hT
  have hp := put0 (cs := cs) hop (by rw [hl0]; exact Nat.le_refl _) hN
  obtain ⟨s', cs', hs, hg⟩ := sync0 (cs := cs) hop (b := .ready r2)
    (by rw [hl0]; exact Nat.le_trans (Nat.le_add_right _ 4096) (Nat.le_trans t1_n0 (Nat.le_add_right _ _)))
  have h1 := step_run (cs := cs') (b := .ready r2) (b1 := .ready r2) (s := s') (s1 := s'.popSync 1)
    (v := .popSync 1) (x := .noop) (.noop (.inr (.inr (.inr ⟨_, rfl⟩))) (.inl rfl)) (.popSync hg)
  have h2 : M.Run ⟨.ready r2, s'.popSync 1, still cs'⟩ [some ⟨.crash, none⟩]
      ⟨.unready, Committer.init, ByteDisk.crash (still cs')⟩ := .cons .crash (.nil _)
  exact ⟨t, _, hinv, _, hi, ho.append ((hp.append hs).append (h1.append h2))⟩

/-! ### A new table -/

/-- The bytes of the table at its new place. -/
def bt2 (i : Nat) : UInt8 := if i = T2.addr + 32 then 1 else 0

/-- The store is opened, and a table is written at another place; the superblock that tells of it is on its
way. -/
theorem run1 : ∃ tr s r, M.Exec tr s ∧ s.b = .ready r ∧ r.persistentLoc = T1 ∧ r.frozenLoc = some T2 ∧
    s.s.status = .ready ∧ s.s.commit = .location := by
  have hl0 := length0
  have hS := superblock0
  have hT := table0
  have hi := init0
  rw [← byteOf0] at hT
  have hb2 : ∀ i, i < 32 → bt2 (T2.addr + i) = 0 := fun i h => by
    unfold bt2; rw [if_neg (by generalize T2.addr = a; omega)]
  have hb3 : bt2 (T2.addr + 32) = 1 := by unfold bt2; rw [if_pos rfl]
  have hTn : c.table (bytesAt bt2 T2) = some t0 := by
    unfold Codec.table
    rw [sector_at (by simp [T2]) hb2 (by rw [hb3]; decide), hb3]
    rfl
  have hloc : (⟨T2.addr, bytesAt bt2 T2⟩ : Data).loc = T2 := ByteSystem.loc_of_bytes
  have hlb : (bytesAt bt2 T2).length = T2.len := bytesAt_length _ _
  have hlT : T2.addr + T2.len ≤ N0.addr + 4096 :=
    Nat.le_trans (table_bounds vT2).2 (Nat.le_trans n0_gt (Nat.le_add_right _ _))
  have hd : ¬ overlap T2 T1 := by unfold overlap T1 T2 table2Addr tableMaxLength; dsimp only; omega
  have hlT1 : T1.addr + T1.len ≤ N0.addr + 4096 := Nat.le_trans t1_n0 (Nat.le_add_right _ _)
  generalize bytesAt bt2 T2 = tb at *
  generalize cs0 = cs at *
  obtain ⟨t, s, ho, _, hop⟩ := open0 (cs := cs) (by rw [hl0]; exact hlT1) hS hT
  have hre : s.journalist.replayEmpty = true := by rw [hop.journalist]; rfl
  have p1 := step_run (cs := cs) (b := .ready r0) (b1 := .ready { r0 with frozen := some t0, frozenLoc := none })
    (s := s) (s1 := s.freeze) (v := .freeze) (x := .freeze) (.freeze rfl) (.freeze hop.status hre hop.frozen hop.sbWrite)
  have q1 : blockOp c (.reqWrite 1 ⟨T2.addr, tb⟩) = .reqWriteTable 1 T2 t0 := by
    simp only [blockOp]
    rw [hloc, if_neg fun k => node_not_table k vT2, if_pos vT2, hTn]
  have q2 : blockOp c (.respWrite 1 (⟨T2.addr, tb⟩ : Data).loc) = .respWriteTable 1 := by
    rw [hloc]
    simp only [blockOp]
    rw [if_neg fun k => node_not_table k vT2, if_pos vT2]
  have hvw : ValidWrite c ⟨T2.addr, tb⟩ :=
    ⟨by rw [hloc]; exact ValidLoc.table vT2, fun x e => absurd vT2 (by rw [hloc] at e; exact (sb_not e).2.1),
      (fun k => absurd (by rw [hloc] at k; exact k) (table_not_journal vT2)), fun _ => by rw [hTn]; simp,
      fun k => absurd vT2 (node_not_table (by rw [hloc] at k; exact k))⟩
  have p2 := write_run (cs := cs) (w := ⟨T2.addr, tb⟩) (id := 1)
    (b := .ready { r0 with frozen := some t0, frozenLoc := none })
    (b1 := .ready { r0 with frozen := some t0, frozenLoc := some T2, tableWrite := some 1 })
    (b2 := .ready { r0 with frozen := some t0, frozenLoc := some T2, tableWrite := none })
    (s := s.freeze) (s1 := s.freeze) (s2 := s.freeze.receiveFrozenLoc T2)
    (v1 := .statesInternal) (v2 := .sendFrozenLoc T2) (x1 := .writeBackTableReq) (x2 := .writeBackTableResp)
    (by show T2.addr + tb.length ≤ _; rw [hl0, hlb]; exact hlT) (fun _ => hvw)
    (by
      rw [q1]
      exact .writeBackTableReq (r := { r0 with frozen := some t0, frozenLoc := none }) rfl vT2
        (fun x hx => by
          intro hn
          by_cases e : x = 0
          · subst e; simp [t0] at hn
          · simp [t0, PMap.insert, e] at hx) rfl rfl hd)
    (.away (.inr ⟨1, _, rfl, hloc⟩) (.inr vT2))
    (by rw [q2]; exact .writeBackTableResp (r := { r0 with
      frozen := some t0, frozenLoc := some T2, tableWrite := some 1 }) rfl rfl)
    (.receiveFrozenLoc (by rw [hloc]; exact vT2))
  generalize ByteDisk.splice cs _ _ = cs1 at p2
  have hj : (s.freeze.receiveFrozenLoc T2).journalist = Journalist.init.freeze := by
    rw [← hop.journalist]; rfl
  have hff : Journalist.init.freeze.hasFrozen = false := by decide
  have hmm : Journalist.init.freeze.hasMem = false := by decide
  have k3 := Committer.Next.syncLocation (crc := c.crc) (s := s.freeze.receiveFrozenLoc T2) (loc := T2)
    (id1 := 2) (id2 := 3) hop.status (by rw [hj]; rfl) rfl rfl
  have e3 : (s.freeze.receiveFrozenLoc T2).tryAdvanceLocation c.crc T2 2 3 =
      (s.freeze.receiveFrozenLoc T2).writeOutSbLoc c.crc T2 2 := by
    unfold Committer.State.tryAdvanceLocation
    rw [if_pos (show (s.freeze.receiveFrozenLoc T2).sbWrite = none from hop.sbWrite), hj, hff, hmm,
      if_neg (by simp), if_pos (show (s.freeze.receiveFrozenLoc T2).writes = [] from hop.writes)]
  rw [e3] at k3
  have hml := SuperblockBytes.marshal_length hcrc
  unfold Committer.State.writeOutSbLoc at k3
  dsimp only at k3
  have hw : (s.freeze.receiveFrozenLoc T2).which = true := hop.which
  rw [hw] at k3
  obtain ⟨sb, hsb⟩ : ∃ sb, (⟨JournalCache.incr (s.freeze.receiveFrozenLoc T2).sb.counter,
    Committer.State.startPosAdd (s.freeze.receiveFrozenLoc T2).sb.start (s.freeze.receiveFrozenLoc T2).frozenPos,
    (s.freeze.receiveFrozenLoc T2).journalist.written - (s.freeze.receiveFrozenLoc T2).frozenPos, T2⟩ :
      Superblock) = sb := ⟨_, rfl⟩
  rw [hsb] at k3
  have hloc2 : (⟨(sbLoc (!true)).addr, SuperblockBytes.marshal c.crc sb⟩ : Data).loc = sbLoc false := by
    unfold Data.loc; dsimp only; rw [hml]; rfl
  have hns := sb_not hloc2
  have q3 : blockOp c (.reqWrite 2 ⟨(sbLoc (!true)).addr, SuperblockBytes.marshal c.crc sb⟩) = .none := by
    simp only [blockOp, if_neg hns.2.1, if_neg hns.2.2]
  have st : Full.Next flat c true
      ⟨.ready { r0 with frozen := some t0, frozenLoc := some T2, tableWrite := none },
        s.freeze.receiveFrozenLoc T2, still cs1⟩ (some ⟨.journalInternal, some .noop⟩) ⟨_, _, _⟩ :=
    .machine (.valid (fun _ _ e k => by cases e; exact absurd k (fun k => k.elim hns.2.2 hns.2.1))
      (by rw [q3]; exact .noop (.inr (.inl rfl)) (.inl rfl)) k3)
      (ByteDisk.plainWrite rfl rfl)
  exact ⟨_, _, _, ⟨_, hi, ho.append (p1.append (p2.append (.cons st (.nil _))))⟩, rfl, rfl, rfl, hop.status, rfl⟩

end Verif.Kv.FullDemo
