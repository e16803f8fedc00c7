import Verif.Kv.ByteRecover
import Verif.Kv.SystemDemo
import Verif.Kv.JournalBytesProof
/-
A run on a disk of bytes: the store is opened, a put is made and synchronised, and the system crashes;
then the store is opened again. No code is modelled here.
-/
namespace Verif.Kv.ByteDemo
open ByteSystem ByteDisk BlockSystem BlockCache
open StoreDemo (T1 N0 vT1 vN0 t0 t0_wf t0_dist ins0)
open SystemDemo (flat e1)
open JournalCache (select WFSb)

/-- What is after the checksum: a tag, 0 for a superblock followed by its counter and the length of the
journal, 1 for the one table and 2 for an empty node. -/
def parse (s : List UInt8) : Option (Sector (List Entry)) :=
  if s[0]? = some 0 then some (.superblock ⟨(s[1]?.getD 0).toNat, 0, (s[2]?.getD 0).toNat, T1⟩)
  else if s[0]? = some 1 then some (.table t0)
  else if s[0]? = some 2 then some (.node [])
  else none

/-- A codec. The checksum is 32 zeros. -/
def c : Codec (List Entry) := ⟨fun _ => List.replicate 32 0, parse⟩

/-- The bytes at first: two superblocks, a table and a node. -/
def bt (i : Nat) : UInt8 :=
  if i = 4096 + 33 then 1 else if i = T1.addr + 32 then 1 else if i = N0.addr + 32 then 2 else 0

/-- The disk at first. -/
def cs0 : List UInt8 := (List.range (N0.addr + 4096)).map bt

theorem t1_lt : 8192 ≤ T1.addr := by unfold T1 table1Addr; dsimp only; omega

theorem n0_gt : table2Addr + tableMaxLength ≤ N0.addr := node_bounds vN0

theorem t2_gt : T1.addr + 4096 ≤ table2Addr := by
  unfold T1 table2Addr tableMaxLength; dsimp only; omega

theorem t1_n0 : T1.addr + 4096 ≤ N0.addr :=
  Nat.le_trans t2_gt (Nat.le_trans (Nat.le_add_right _ _) n0_gt)

theorem byteOf0 : byteOf cs0 = bt := by
  funext i
  unfold byteOf cs0
  rw [List.getElem?_map]
  by_cases h : i < N0.addr + 4096
  · rw [List.getElem?_range h]; rfl
  · rw [List.getElem?_eq_none (by rw [List.length_range]; omega)]
    have := t1_n0
    have := t1_lt
    unfold bt
    rw [if_neg (by omega), if_neg (by omega), if_neg (by omega)]
    rfl

theorem length0 : cs0.length = N0.addr + 4096 := by simp [cs0]

attribute [irreducible] cs0

/-- What is at a location. -/
theorem sector_at {E : Nat → UInt8} {l : Loc} (hl : 35 ≤ l.len) (h : ∀ i, i < 32 → E (l.addr + i) = 0) :
    c.sector (bytesAt E l) = parse [E (l.addr + 32), E (l.addr + 33), E (l.addr + 34)] := by
  have hk : Checks c.crc (bytesAt E l) := by
    refine ⟨by rw [bytesAt_length]; omega, List.ext_getElem? fun i => ?_⟩
    show ((bytesAt E l).take 32)[i]? = (List.replicate 32 0)[i]?
    rw [List.getElem?_take, List.getElem?_replicate]
    by_cases hi : i < 32
    · rw [if_pos hi, if_pos hi, bytesAt_get?, if_pos (by omega), h i hi]
    · rw [if_neg hi, if_neg hi]
  have hg : ∀ k, k < 3 → ((bytesAt E l).drop 32)[k]? = some (E (l.addr + (32 + k))) := by
    intro k hk
    rw [List.getElem?_drop, bytesAt_get?, if_pos (by omega)]
  unfold Codec.sector
  rw [if_pos hk]
  show parse _ = _
  unfold parse
  rw [hg 0 (by omega), hg 1 (by omega), hg 2 (by omega)]
  rfl

theorem superblock_at {E : Nat → UInt8} (w : Bool) (h : ∀ i, i ≤ 32 → E ((sbLoc w).addr + i) = 0) :
    c.superblock (bytesAt E (sbLoc w)) =
      some ⟨(E ((sbLoc w).addr + 33)).toNat, 0, (E ((sbLoc w).addr + 34)).toNat, T1⟩ := by
  unfold Codec.superblock
  rw [sector_at (by rw [(sb_bounds w).1]; omega) (fun i hi => h i (by omega)), h 32 (by omega)]
  simp [parse]

theorem table_at {E : Nat → UInt8} (h : ∀ i, i < 32 → E (T1.addr + i) = 0) (h1 : E (T1.addr + 32) = 1) :
    c.table (bytesAt E T1) = some t0 := by
  unfold Codec.table
  rw [sector_at (by simp [T1]) h, h1]
  simp [parse]

theorem node_at {E : Nat → UInt8} (h : ∀ i, i < 32 → E (N0.addr + i) = 0) (h1 : E (N0.addr + 32) = 2) :
    c.node (bytesAt E N0) = some [] := by
  unfold Codec.node
  rw [sector_at (by simp [N0]) h, h1]
  simp [parse]

theorem bt_zero {i : Nat} (h1 : i ≠ 4096 + 33) (h2 : i ≠ T1.addr + 32) (h3 : i ≠ N0.addr + 32) : bt i = 0 := by
  unfold bt; rw [if_neg h1, if_neg h2, if_neg h3]

theorem bt_t1 : bt (T1.addr + 32) = 1 := by
  have := t1_lt
  unfold bt; rw [if_neg (by omega), if_pos rfl]

theorem bt_n0 : bt (N0.addr + 32) = 2 := by
  have := t1_lt
  have := t1_n0
  unfold bt; rw [if_neg (by omega), if_neg (by omega), if_pos rfl]

theorem table0 : c.table (bytesAt bt T1) = some t0 :=
  table_at (fun i hi => by
    have := t1_lt
    have := t1_n0
    exact bt_zero (by omega) (by omega) (by omega)) bt_t1

theorem node0 : c.node (bytesAt bt N0) = some [] :=
  node_at (fun i hi => by
    have := t1_lt
    have := t1_n0
    exact bt_zero (by omega) (by omega) (by omega)) bt_n0

open JournalDemo (f0 wf0 sel0)

theorem superblock0 (w : Bool) : superblockAt c cs0 w = some (f0 w) := by
  have := t1_lt
  have := t1_n0
  have hb := sb_bounds w
  unfold superblockAt
  have hl : (sbLoc w).addr + (sbLoc w).len ≤ cs0.length := by rw [length0]; omega
  rw [if_pos hl, read_eq hl, byteOf0]
  have ha : (sbLoc w).addr = if w then 4096 else 0 := hb.2.2
  have hz : ∀ i, i ≤ 32 → bt ((sbLoc w).addr + i) = 0 := by
    intro i hi
    rw [ha]
    cases w
    · simp only [Bool.false_eq_true, if_false]
      exact bt_zero (by omega) (by omega) (by omega)
    · simp only [if_true]
      exact bt_zero (by omega) (by omega) (by omega)
  rw [superblock_at w hz, ha]
  cases w
  · simp only [Bool.false_eq_true, if_false]
    rw [bt_zero (by omega) (by omega) (by omega), bt_zero (by omega) (by omega) (by omega)]
    rfl
  · simp only [if_true]
    rw [bt_zero (i := 4096 + 34) (by omega) (by omega) (by omega)]
    rfl

/-- The machine; reads may succeed. -/
abbrev M := machine flat c (fun n => n = []) T1 true

theorem init_of {c : Codec (List Entry)} {cs : List UInt8} (hT : c.table (bytesAt (byteOf cs) T1) = some t0)
    (hN : c.node (bytesAt (byteOf cs) N0) = some []) (hS : ∀ w, superblockAt c cs w = some (f0 w)) :
    (machine flat c (fun n => n = []) T1 true).Init ⟨.unready, JournalCache.start, still cs⟩ := by
  have htab : (blockDisk c (byteOf cs)).tables T1 = some t0 := by
    unfold blockDisk; dsimp only; rw [if_pos vT1, hT]
  have hnod : (blockDisk c (byteOf cs)).nodes N0 = some [] := by
    unfold blockDisk; dsimp only; rw [if_pos vN0, hN]
  have him : Image flat (blockDisk c (byteOf cs)) T1 (PMap.insert .empty rootRef []) := by
    generalize blockDisk c (byteOf cs) = bd at *
    refine ⟨vT1, t0, htab, t0_wf, t0_dist, ?_, ?_⟩
    · funext x
      by_cases h : x = 0
      · subst h; simp [dcGraph, t0, rootRef]; exact hnod.symm
      · simp [dcGraph, t0, PMap.insert, rootRef, h]
    · constructor
      · intro r
        by_cases h : r = 0
        · subst h; simp [t0, rootRef]
        · simp [t0, PMap.insert, rootRef, h]
      · intro r ss n h1 h2 x
        obtain ⟨_, rfl⟩ := ins0 h1
        simp [flat]
  have hb : BlockSystem.Init flat (fun n => n = []) T1 ⟨.unready, blockDisk c (byteOf cs)⟩ :=
    ⟨rfl, ⟨rfl, rfl, rfl, rfl⟩, [], him, rfl, fun _ h => h⟩
  have hj : JournalSystem.Init T1 ⟨JournalCache.start, journalDisk c cs⟩ := by
    refine ⟨rfl, ⟨fun _ _ h => h, rfl, fun _ => rfl, rfl⟩, f0, fun w => ⟨hS w, wf0 w⟩, ?_⟩
    rw [sel0]; exact ⟨rfl, rfl, rfl⟩
  refine ⟨⟨rfl, rfl, rfl, rfl⟩, ?_⟩
  dsimp only [ByteSystem.still]
  exact ⟨hb, hj⟩

theorem init0 : M.Init ⟨.unready, JournalCache.start, still cs0⟩ :=
  init_of (by rw [byteOf0]; exact table0) (by rw [byteOf0]; exact node0) superblock0

/-! ### Writes -/

theorem op_writeSb (id : ReqId) {w : Data} {x : Bool} {sb : Superblock} (h : w.loc = sbLoc x)
    (hs : c.superblock w.bytes = some sb) :
    blockOp c (.reqWrite id w) = .none ∧ journalOp c (.reqWrite id w) = .reqWriteSb id x sb ∧
      blockOp c (.respWrite id w.loc) = .none ∧ journalOp c (.respWrite id w.loc) = .respWriteSb id x := by
  obtain ⟨_, h2, h3⟩ := sb_not h
  refine ⟨by simp only [blockOp, if_neg h2, if_neg h3], ?_, by simp only [blockOp, if_neg h2, if_neg h3],
    ?_⟩
  · cases x
    · simp only [journalOp]; rw [if_pos (show w.loc = superblock1Loc from h), hs]
    · simp only [journalOp]
      rw [if_neg (by rw [h]; exact sbLoc_two), if_pos (show w.loc = superblock2Loc from h), hs]
  · cases x
    · simp only [journalOp]; rw [if_pos (show w.loc = superblock1Loc from h)]
    · simp only [journalOp]
      rw [if_neg (by rw [h]; exact sbLoc_two), if_pos (show w.loc = superblock2Loc from h)]

theorem op_writeJ (id : ReqId) {w : Data} {bs : List Block} (h : ValidJournalLoc w.loc)
    (hs : c.range w.bytes = some bs) :
    blockOp c (.reqWrite id w) = .none ∧
      journalOp c (.reqWrite id w) = .reqWriteJ id none (intervalOf w.loc).start bs ∧
      blockOp c (.respWrite id w.loc) = .none ∧ journalOp c (.respWrite id w.loc) = .respWriteJ id := by
  have h1 := sb_first fun w e => (sb_not e).1 h
  have h2 : ¬ ValidNodeLoc w.loc := fun k => node_not_journal k h
  have h3 : ¬ ValidTableLoc w.loc := fun k => table_not_journal k h
  refine ⟨by simp only [blockOp, if_neg h2, if_neg h3], ?_, by simp only [blockOp, if_neg h2, if_neg h3],
    ?_⟩
  · simp only [journalOp, if_neg h1.1, if_neg h1.2, if_pos h, hs]
  · simp only [journalOp, if_neg h1.1, if_neg h1.2, if_pos h]

/-- A write: a request, the disk, an answer. -/
theorem write_run {cs : List UInt8} {b b1 b2 : BlockCache.State (List Entry)}
    {j j1 j2 : JournalCache.State} {w : Data} {id : ReqId} {v1 v2 : VOp}
    {s1 s2 : BlockCache.Step (List Entry)}
    (hw : ValidWrite c w) (hlen : w.addr + w.bytes.length ≤ cs.length)
    (h1 : BlockCache.Next flat b (blockOp c (.reqWrite id w)) v1 s1 b1)
    (k1 : JournalCache.Next j (journalOp c (.reqWrite id w)) v1 j1)
    (h2 : BlockCache.Next flat b1 (blockOp c (.respWrite id w.loc)) v2 s2 b2)
    (k2 : JournalCache.Next j1 (journalOp c (.respWrite id w.loc)) v2 j2) :
    M.Run ⟨b, j, still cs⟩ [some ⟨v1, some s1⟩, none, some ⟨v2, some s2⟩]
      ⟨b2, j2, still (ByteDisk.splice cs w.addr w.bytes)⟩ := by
  have c1 : (PMap.insert .empty id w).remove id = (.empty : PMap ReqId Data) := by
    funext x; simp [PMap.insert, PMap.remove, PMap.empty]
  have c2 : (PMap.insert .empty id w.loc).remove id = (.empty : PMap ReqId Loc) := by
    funext x; simp [PMap.insert, PMap.remove, PMap.empty]
  have st1 : ByteSystem.Next flat c true ⟨b, j, still cs⟩ (some ⟨v1, some s1⟩)
      ⟨b1, j1, ⟨.empty, PMap.insert .empty id w, .empty, .empty, cs, ByteDisk.noPads⟩⟩ :=
    .machine (.valid (dop := .reqWrite id w) hw h1 k1) (ByteDisk.plainWrite rfl rfl)
  have st2 : ByteSystem.Next flat c true ⟨b1, j1, ⟨.empty, PMap.insert .empty id w, .empty, .empty, cs, ByteDisk.noPads⟩⟩
      none ⟨b1, j1, ⟨.empty, .empty, .empty, PMap.insert .empty id w.loc,
        ByteDisk.splice cs w.addr w.bytes, ByteDisk.noPads⟩⟩ := by
    have := ByteDisk.plainProcess (crc := c.crc) (kind := true) (id := id) (w := w)
      (r1 := .empty) (w1 := PMap.insert .empty id w) (r2 := .empty) (w2 := .empty) (PMap.insert_same _ _ _) hlen
    rw [c1] at this
    exact .disk this
  have st3 : ByteSystem.Next flat c true ⟨b1, j1, ⟨.empty, .empty, .empty, PMap.insert .empty id w.loc,
        ByteDisk.splice cs w.addr w.bytes, ByteDisk.noPads⟩⟩ (some ⟨v2, some s2⟩)
        ⟨b2, j2, still (ByteDisk.splice cs w.addr w.bytes)⟩ := by
    have := ByteDisk.Next.ackWrite (kind := true) (id := id) (l := w.loc)
      (d := ⟨.empty, .empty, .empty, PMap.insert .empty id w.loc, ByteDisk.splice cs w.addr w.bytes,
        ByteDisk.noPads⟩)
      (PMap.insert_same _ _ _)
    dsimp only at this
    rw [c2] at this
    exact .machine (.valid (dop := .respWrite id w.loc) hw.loc h2 k2) this
  exact .cons st1 (.cons st2 (.cons st3 (.nil _)))

/-- The journal block of the put. -/
def w1 : Data := ⟨journalPoint 0, JournalBytes.marshal c.crc [e1] 0 1 1⟩
/-- The superblock of a journal of one block. -/
def w2 : Data := ⟨0, List.replicate 33 0 ++ [2, 1] ++ List.replicate 4061 0⟩

theorem marshal1 : w1.bytes.length = 4096 ∧ ∃ b, c.range w1.bytes = some [b] ∧ parseRange [b] = some [e1] := by
  obtain ⟨h1, bs, h2, h3, _, h4⟩ := JournalBytes.marshal_spec (crc := c.crc) (fun s => by simp [c])
    (entries := [e1]) (start := 0) (len := 1) (n := 1) (by simp) (by simp) (by omega) (by omega) (by omega)
    (by simp [JournalBytes.cyclicSlice, e1, JournalBytes.Ok, maxLen])
    (by simp [JournalBytes.cyclicSlice, e1, JournalBytes.sumWeights, JournalBytes.weight])
  match bs, h3 with
  | [b], _ => exact ⟨h1, b, h2, h4⟩

theorem w1_loc : w1.loc = ⟨journalPoint 0, 4096⟩ := by
  unfold Data.loc; rw [marshal1.1]; rfl

theorem w1_valid : ValidWrite c w1 := by
  obtain ⟨_, b, hb, _⟩ := marshal1
  have hj : ValidJournalLoc w1.loc := by rw [w1_loc]; exact point_valid (by unfold numJournalBlocks; omega)
  exact ⟨.journal hj, fun x e => absurd hj (sb_not e).1, fun _ => by rw [hb]; simp,
    fun k => absurd hj (table_not_journal k), fun k => absurd hj (node_not_journal k)⟩

theorem w2_length : w2.bytes.length = 4096 := by
  simp only [w2, List.length_append, List.length_replicate, List.length_cons, List.length_nil]

theorem w2_loc : w2.loc = sbLoc false := by unfold Data.loc; rw [w2_length]; rfl

/-- The bytes of a write by themselves. -/
theorem put_bytes (E : Nat → UInt8) (w : Data) : bytesAt (put E w) w.loc = w.bytes := put_same E w

theorem w2_superblock : c.superblock w2.bytes = some ⟨2, 0, 1, T1⟩ := by
  have hp := put_bytes (fun _ => 0) w2
  have hget : ∀ i, i < 4096 → put (fun _ => 0) w2 i = (w2.bytes[i]?).getD 0 := by
    intro i hi
    have : (bytesAt (put (fun _ => 0) w2) w2.loc)[i]? = w2.bytes[i]? := by rw [hp]
    rw [bytesAt_get?, if_pos (by rw [w2_loc, (sb_bounds false).1]; exact hi)] at this
    have e : w2.loc.addr + i = i := by rw [w2_loc]; show 0 + i = i; omega
    rw [e] at this
    rw [← this, Option.getD_some]
  have ha : (sbLoc false).addr = 0 := rfl
  generalize put (fun _ => 0) w2 = E at *
  rw [← hp, w2_loc, superblock_at false]
  · rw [ha, Nat.zero_add, Nat.zero_add, hget 33 (by omega),
      hget 34 (by omega)]
    unfold w2
    dsimp only
    rw [List.getElem?_append_left (by simp), List.getElem?_append_right (by simp),
      List.getElem?_append_left (by simp), List.getElem?_append_right (by simp)]
    simp only [List.length_replicate]
    rfl
  · intro i hi
    rw [ha, Nat.zero_add, hget i (by omega)]
    unfold w2
    dsimp only
    rw [List.getElem?_append_left (by simp; omega), List.getElem?_append_left (by simp; omega),
      List.getElem?_replicate, if_pos (by omega)]
    rfl

theorem w2_valid : ValidWrite c w2 := by
  obtain ⟨k1, k2, k3⟩ := sb_not w2_loc
  exact ⟨by rw [w2_loc]; exact .sb false, fun x _ => by rw [w2_superblock]; simp, fun k => absurd k k1,
    fun k => absurd k k2, fun k => absurd k k3⟩

/-! ### The run -/

/-- The disk with the journal block. -/
def cs1 : List UInt8 := ByteDisk.splice cs0 w1.addr w1.bytes
/-- The disk with the superblock too. -/
def cs2 : List UInt8 := ByteDisk.splice cs1 w2.addr w2.bytes

theorem cs1_eq : cs1 = ByteDisk.splice cs0 w1.addr w1.bytes := by unfold cs1; exact Eq.refl _
theorem cs2_eq : cs2 = ByteDisk.splice cs1 w2.addr w2.bytes := by unfold cs2; exact Eq.refl _

theorem w1_le : w1.addr + w1.bytes.length ≤ cs0.length := by
  rw [length0, marshal1.1]
  have := t1_lt
  have := t1_n0
  show journalPoint 0 + 4096 ≤ _
  rw [show journalPoint 0 = 8192 from rfl]
  omega

theorem length1 : cs1.length = N0.addr + 4096 := by
  rw [← length0, cs1_eq]; exact splice_length w1_le

attribute [irreducible] cs1 cs2

theorem w2_le : w2.addr + w2.bytes.length ≤ cs1.length := by
  rw [length1, w2_length]
  show 0 + 4096 ≤ _
  omega

open SystemDemo (r0 r1 r2 dirty1)

/-- The journal's side, opened on an empty journal. -/
def j0 : JournalCache.Ready := {
  frozenLoc := none, isFrozen := false, frozenPos := 0, sbWrite := none, memFrozen := []
  mem := [], writes := fun _ => False, written := 0, replay := [], sb := f0 true, which := true
  commit := .none, newSb := none, syncReqs := .empty }

theorem open0 : ∃ tr, M.Run ⟨.unready, JournalCache.start, still cs0⟩ tr
    ⟨.ready r0, .ready j0, still cs0⟩ ∧ Invisible tr := by
  have := open_run (A := flat) (c := c) (ok := fun n => n = []) (loc := T1) (cs := cs0) (f := f0) (tb := t0)
    (z := []) (replay := []) (by rw [length0]; exact Nat.le_trans n0_gt (Nat.le_add_right _ _))
    superblock0 wf0 (by rw [sel0]; rfl) parse_nil
    (by rw [sel0, byteOf0]; exact table0) t0_wf t0_dist
  rw [sel0] at this
  exact this

theorem page0 {cs : List UInt8} (hlen : N0.addr + N0.len ≤ cs.length)
    (hN : c.node (bytesAt (byteOf cs) N0) = some []) : M.Run ⟨.ready r0, .ready j0, still cs⟩
    [some ⟨.statesInternal, some (.pageInNodeReq 0)⟩, none, some ⟨.statesInternal, some .pageInNodeResp⟩]
    ⟨.ready r1, .ready j0, still cs⟩ := by
  obtain ⟨q1, q2⟩ := op_reqN c 0 vN0
  obtain ⟨q3, q4⟩ := op_respN c 0 (r := ⟨N0.addr, bytesAt (byteOf cs) N0⟩) (by rw [loc_of_bytes]; exact vN0)
  refine read_run (id := 0) (b1 := .ready { r0 with reads := PMap.insert .empty 0 0 }) (j1 := .ready j0) (.node vN0)
    hlen ?_ ?_ ?_ ?_
  · rw [q1]; exact .pageInNodeReq (by simp [r0, t0]) rfl rfl (by intro i x hx; cases hx)
  · rw [q2]; exact .noop (.inr rfl) (.inl rfl)
  · rw [q3]; dsimp only; rw [hN]
    have := BlockCache.Next.pageInNodeResp (A := flat) (r := { r0 with reads := PMap.insert .empty 0 0 })
      (id := 0) (ref := 0) (ss := []) (n := []) rfl rfl rfl (by intro x; simp [flat]) trivial
    simp only [StoreDemo.clear] at this
    exact this
  · rw [q4]; exact .noop (.inr rfl) (.inl rfl)

theorem put0 {cs : List UInt8} : M.Run ⟨.ready r1, .ready j0, still cs⟩
    [some ⟨.advance (.put [] []) false, some (.transaction [(0, [])] [.write 0 ([] ++ [e1])])⟩,
      some ⟨.pushSync 7, some .noop⟩]
    ⟨.ready r2, .ready { j0 with mem := [e1], syncReqs := PMap.insert .empty 7 .s3 }, still cs⟩ := by
  have st1 : ByteSystem.Next flat c true ⟨.ready r1, .ready j0, still cs⟩
      (some ⟨.advance (.put [] []) false, some (.transaction [(0, [])] [.write 0 ([] ++ [e1])])⟩)
      ⟨.ready r2, .ready { j0 with mem := [e1] }, still cs⟩ :=
    .machine (.valid (dop := .none) trivial (.transaction (r := r1) (r' := r2) .put (by
        intro x n hx
        obtain ⟨rfl, rfl⟩ := Prod.mk.inj (List.mem_singleton.mp hx)
        exact ⟨by simp [r1, r0, t0], by simp [r1]⟩) (.cons dirty1 .nil))
      (.advance (r := j0) rfl)) .stutter
  have st2 : ByteSystem.Next flat c true ⟨.ready r2, .ready { j0 with mem := [e1] }, still cs⟩
      (some ⟨.pushSync 7, some .noop⟩)
      ⟨.ready r2, .ready { j0 with mem := [e1], syncReqs := PMap.insert .empty 7 .s3 }, still cs⟩ :=
    .machine (.valid (dop := .none) trivial (.noop (.inr (.inr (.inl ⟨_, rfl⟩))) (.inl rfl))
      (.pushSync (s := .ready { j0 with mem := [e1] }) rfl)) .stutter
  exact .cons st1 (.cons st2 (.nil _))

theorem journal0 {cs : List UInt8} {w : Data} {b : Block} (hw : ValidWrite c w)
    (hle : w.addr + w.bytes.length ≤ cs.length) (hj : ValidJournalLoc w.loc)
    (hi : (intervalOf w.loc).start = 0) (hb : c.range w.bytes = some [b]) (hp : parseRange [b] = some [e1]) :
    M.Run
    ⟨.ready r2, .ready { j0 with mem := [e1], syncReqs := PMap.insert .empty 7 .s3 }, still cs⟩
    [some ⟨.journalInternal, some .noop⟩, none, some ⟨.journalInternal, some .noop⟩]
    ⟨.ready r2, .ready { j0 with written := 1, syncReqs := PMap.insert .empty 7 .s2 }, still (ByteDisk.splice cs w.addr w.bytes)⟩ := by
  obtain ⟨q1, q2, q3, q4⟩ := op_writeJ 1 hj hb
  refine write_run (id := 1) (b1 := .ready r2)
    (j1 := .ready { j0 with
      writes := fun i => j0.writes i ∨ JournalCache.ids 1 none i
      written := 1, syncReqs := PMap.insert .empty 7 .s2 }) hw ?_ ?_ ?_ ?_ ?_
  · exact hle
  · rw [q1]; exact .noop (.inr (.inl rfl)) (.inl rfl)
  · rw [q2, hi]
    have := JournalCache.Next.writeJournal
      (r := { j0 with mem := [e1], syncReqs := PMap.insert .empty 7 .s3 }) (id1 := 1) (id2 := none)
      (jr := [b]) rfl hp (by simp [j0, numJournalBlocks]) (by simp) rfl (by simp [j0, f0, numJournalBlocks])
      (by simp [j0])
    have e : PMap.mapVal SyncStatus.to2 (PMap.insert .empty 7 SyncStatus.s3) = PMap.insert .empty 7 SyncStatus.s2 := by
      funext x; by_cases h : x = 7 <;> simp [PMap.mapVal, PMap.insert, PMap.empty, h, SyncStatus.to2]
    rw [e] at this
    exact this
  · rw [q3]; exact .noop (.inr (.inl rfl)) (.inl rfl)
  · rw [q4]
    have := JournalCache.Next.writeJournalResp
      (r := { j0 with
        writes := fun i => j0.writes i ∨ JournalCache.ids 1 none i
        written := 1, syncReqs := PMap.insert .empty 7 .s2 }) (id := 1) (by simp [JournalCache.ids])
    have e : (fun i => (j0.writes i ∨ JournalCache.ids 1 none i) ∧ i ≠ 1) = fun _ => False := by
      funext i; simp [JournalCache.ids, j0]
    dsimp only at this
    rw [e] at this
    exact this

/-- The journal's side after the superblock was written. -/
def j2 : JournalCache.Ready := { j0 with
  written := 1, syncReqs := PMap.insert .empty 7 .s1, sb := ⟨2, 0, 1, T1⟩, which := false }

theorem super0 {cs : List UInt8} {w : Data} (hw : ValidWrite c w)
    (hle : w.addr + w.bytes.length ≤ cs.length) (hl : w.loc = sbLoc false)
    (hs : c.superblock w.bytes = some ⟨2, 0, 1, T1⟩) :
    M.Run
    ⟨.ready r2, .ready { j0 with written := 1, syncReqs := PMap.insert .empty 7 .s2 }, still cs⟩
    [some ⟨.journalInternal, some .noop⟩, none, some ⟨.journalInternal, some .noop⟩]
    ⟨.ready r2, .ready j2, still (ByteDisk.splice cs w.addr w.bytes)⟩ := by
  obtain ⟨q1, q2, q3, q4⟩ := op_writeSb 2 hl hs
  refine write_run (id := 2) (b1 := .ready r2)
    (j1 := .ready { j0 with
      written := 1, syncReqs := PMap.insert .empty 7 .s2
      newSb := some ⟨2, 0, 1, T1⟩, sbWrite := some 2, commit := .log }) hw ?_ ?_ ?_ ?_ ?_
  · exact hle
  · rw [q1]; exact .noop (.inr (.inl rfl)) (.inl rfl)
  · rw [q2]
    exact .advanceLog (r := { j0 with written := 1, syncReqs := PMap.insert .empty 7 .s2 }) rfl
      (by simp [j0]) rfl (by simp [numJournalBlocks]) (by simp [j0, f0, JournalCache.incr])
  · rw [q3]; exact .noop (.inr (.inl rfl)) (.inl rfl)
  · rw [q4]
    have := JournalCache.Next.logResp (w := false) (r := { j0 with
      written := 1, syncReqs := PMap.insert .empty 7 .s2
      newSb := some ⟨2, 0, 1, T1⟩, sbWrite := some 2, commit := .log }) rfl rfl rfl
    have e : PMap.mapVal SyncStatus.to1 (PMap.insert .empty 7 SyncStatus.s2) = PMap.insert .empty 7 SyncStatus.s1 := by
      funext x; by_cases h : x = 7 <;> simp [PMap.mapVal, PMap.insert, PMap.empty, h, SyncStatus.to1]
    dsimp only at this
    rw [e] at this
    exact this

theorem end0 {cs : List UInt8} : M.Run ⟨.ready r2, .ready j2, still cs⟩
    [some ⟨.popSync 7, some .noop⟩, some ⟨.crash, none⟩]
    ⟨.unready, JournalCache.start, still cs⟩ := by
  have st1 : ByteSystem.Next flat c true ⟨.ready r2, .ready j2, still cs⟩ (some ⟨.popSync 7, some .noop⟩)
      ⟨.ready r2, .ready { j2 with syncReqs := j2.syncReqs.remove 7 }, still cs⟩ :=
    .machine (.valid (dop := .none) trivial (.noop (.inr (.inr (.inr ⟨_, rfl⟩))) (.inl rfl))
      (.popSync (s := .ready j2) rfl)) .stutter
  exact .cons st1 (.cons .crash (.nil _))

/-- The trace of the run, after the opening. -/
def trace : List (Option (Label (List Entry))) :=
  [some ⟨.statesInternal, some (.pageInNodeReq 0)⟩, none, some ⟨.statesInternal, some .pageInNodeResp⟩,
   some ⟨.advance (.put [] []) false, some (.transaction [(0, [])] [.write 0 ([] ++ [e1])])⟩,
   some ⟨.pushSync 7, some .noop⟩,
   some ⟨.journalInternal, some .noop⟩, none, some ⟨.journalInternal, some .noop⟩,
   some ⟨.journalInternal, some .noop⟩, none, some ⟨.journalInternal, some .noop⟩,
   some ⟨.popSync 7, some .noop⟩, some ⟨.crash, none⟩]

/-- The store is opened, a put is made and synchronised, and the system crashes. -/
theorem run0 : ∃ t0, Invisible t0 ∧ M.Exec (t0 ++ trace) ⟨.unready, JournalCache.start, still cs2⟩ := by
  obtain ⟨t, h, hi⟩ := open0
  obtain ⟨_, b, hb, hp⟩ := marshal1
  have hj : ValidJournalLoc w1.loc := by rw [w1_loc]; exact point_valid (by unfold numJournalBlocks; omega)
  have hs : (intervalOf w1.loc).start = 0 := by rw [w1_loc]; decide
  have p1 := page0 (cs := cs0) (by rw [length0]; exact Nat.le_refl _) (by rw [byteOf0]; exact node0)
  have p2 := journal0 (cs := cs0) w1_valid w1_le hj hs hb hp
  have p3 := super0 (cs := cs1) w2_valid w2_le w2_loc w2_superblock
  rw [← cs1_eq] at p2
  rw [← cs2_eq] at p3
  exact ⟨t, hi, _, init0, h.append (((p1.append put0).append (p2.append p3)).append end0)⟩

theorem length2 : table2Addr + tableMaxLength ≤ cs2.length := by
  have : cs2.length = N0.addr + 4096 := by
    rw [← length1, cs2_eq]; exact splice_length w2_le
  rw [this]
  exact Nat.le_trans n0_gt (Nat.le_add_right _ _)

/-! ### Opening it again -/

/-- The superblocks after the run. -/
def f2 : Bool → Superblock := setAt f0 false ⟨2, 0, 1, T1⟩

theorem sel2 : select f2 = false := by simp [select, f2, setAt, f0, JournalCache.incr]

theorem superblock2 (w : Bool) : superblockAt c cs2 w = some (f2 w) := by
  rw [cs2_eq]
  cases w with
  | false => rw [superblockAt_same w2_le w2_loc, w2_superblock]; rfl
  | true =>
    rw [superblockAt_other_plain w2_valid.loc w2_le (by rw [w2_loc]; decide), cs1_eq,
      superblockAt_other_plain w1_valid.loc w1_le (by rw [w1_loc]; decide), superblock0]
    rfl

theorem byteOf2 : byteOf cs2 = put (put bt w1) w2 := by
  rw [cs2_eq, byteOf_splice w2_le, cs1_eq, byteOf_splice w1_le, byteOf0]

theorem not_overlap {a n : Nat} (h : 12288 ≤ a) : ¬ overlap ⟨a, n⟩ w1.loc ∧ ¬ overlap ⟨a, n⟩ w2.loc := by
  rw [w1_loc, w2_loc]
  unfold overlap
  have e1 : journalPoint 0 = 8192 := rfl
  have e2 : sbLoc false = ⟨0, 4096⟩ := rfl
  rw [e1, e2]
  dsimp only
  omega

theorem table2 : c.table (bytesAt (byteOf cs2) T1) = some t0 := by
  have h : 12288 ≤ T1.addr := by unfold T1 table1Addr numJournalBlocks; dsimp only; omega
  have := not_overlap (a := T1.addr) (n := T1.len) h
  rw [byteOf2, put_other this.2, put_other this.1, table0]

/-- What the store is when it is open again: the put is there to be replayed. -/
theorem reopen2 : ∃ tr rb rj, M.Run ⟨.unready, JournalCache.start, still cs2⟩ tr
    ⟨.ready rb, .ready rj, still cs2⟩ ∧ Invisible tr ∧ rj.replay = [e1] := by
  obtain ⟨hlen, b, hb, hp⟩ := marshal1
  have hz : blocksAt (journalDisk c cs2).journal (f2 (select f2)).start (f2 (select f2)).len = some [b] := by
    rw [sel2, journalDisk_journal]
    show blocksAt _ 0 1 = _
    rw [blocks_range c _ 1 0 (by unfold numJournalBlocks; omega), byteOf2]
    have ho : ¬ overlap w1.loc w2.loc := by
      rw [w1_loc, w2_loc]
      have e1 : journalPoint 0 = 8192 := rfl
      have e2 : sbLoc false = ⟨0, 4096⟩ := rfl
      rw [e1, e2]
      unfold overlap
      dsimp only
      omega
    have e : (⟨journalPoint 0, 4096 * 1⟩ : Loc) = w1.loc := by rw [w1_loc]
    rw [e, put_other ho, put_bytes, hb]
  obtain ⟨tr, hr, hi⟩ := open_run (A := flat) (c := c) (ok := fun n => n = []) (loc := T1) (cs := cs2) (f := f2)
    (tb := t0) (z := [b]) (replay := [e1]) length2 superblock2
    (by
      intro w
      cases w
      · exact ⟨by simp [f2, setAt, numJournalBlocks], by simp [f2, setAt, numJournalBlocks], vT1⟩
      · exact wf0 true)
    hz hp (by rw [sel2]; exact table2) t0_wf t0_dist
  exact ⟨tr, _, _, hr, hi, rfl⟩

/-! ### A disk whose reads cannot succeed -/

/-- The machine on the disk as it is in the repository. -/
abbrev M' := machine flat c (fun n => n = []) T1 false

/-- A superblock is asked for, the disk answers with other bytes, and a synchronisation is asked for. -/
theorem run1 : ∃ s, M'.Exec [some ⟨.journalInternal, some .noop⟩, none, some ⟨.journalInternal, some .noop⟩,
      some ⟨.pushSync 7, some .noop⟩] s ∧
    ∃ l, s.j = .loading l ∧ l.got false = .corruption ∧ l.syncReqs 7 = some .s3 := by
  have hin : M'.Init ⟨.unready, JournalCache.start, still cs0⟩ := init0
  have hl0 : (sbLoc false).addr + (sbLoc false).len ≤ cs0.length := by
    rw [length0]; show 0 + 4096 ≤ _; omega
  have hsb : c.superblock (ByteDisk.read cs0 (sbLoc false)) ≠ none := by
    have := superblock0 false
    unfold superblockAt at this
    rw [if_pos hl0] at this
    rw [this]; simp
  generalize cs0 = cs at hin hl0 hsb
  obtain ⟨q1, q2⟩ := op_reqSb c 0 false
  have hfl : (⟨0, List.replicate 4096 1⟩ : Data).loc = sbLoc false := by
    unfold Data.loc; dsimp only; rw [List.length_replicate]; rfl
  obtain ⟨q3, q4⟩ := op_respSb c 0 false hfl
  have c1 : (PMap.insert .empty 0 (sbLoc false)).remove 0 = (.empty : PMap ReqId Loc) := by
    funext x; simp [PMap.insert, PMap.remove, PMap.empty]
  have c2 : ∀ r : Data, (PMap.insert .empty 0 r).remove 0 = (.empty : PMap ReqId Data) := by
    intro r; funext x; simp [PMap.insert, PMap.remove, PMap.empty]
  have hnc : ∀ i j, ¬ Checks c.crc (((List.replicate 4096 (1 : UInt8)).take j).drop i) := by
    rintro i j ⟨h1, h2⟩
    rw [List.take_replicate, List.drop_replicate, List.take_replicate] at h2
    rw [List.take_replicate, List.drop_replicate, List.length_replicate] at h1
    have h3 := congrArg (fun l : List UInt8 => l[0]?) h2
    change (List.replicate _ (1 : UInt8))[0]? = (List.replicate 32 (0 : UInt8))[0]? at h3
    rw [List.getElem?_replicate, if_pos (by omega), List.getElem?_replicate, if_pos (by omega)] at h3
    cases h3
  have hn : c.superblock (List.replicate 4096 1) = none := by
    have := hnc 0 4096
    rw [List.take_replicate, List.drop_replicate, Nat.min_self, Nat.sub_zero] at this
    unfold Codec.superblock Codec.sector
    rw [if_neg this]
  have hrl := read_length hl0
  have hne : List.replicate 4096 (1 : UInt8) ≠ ByteDisk.read cs (sbLoc false) := fun e => by
    rw [← e] at hsb; exact hsb hn
  have st1 : ByteSystem.Next flat c false ⟨.unready, JournalCache.start, still cs⟩
      (some ⟨.journalInternal, some .noop⟩)
      ⟨.unready, .loading ⟨setAt (fun _ => none) false (some 0), fun _ => .unfinished, .empty⟩,
        ⟨PMap.insert .empty 0 (sbLoc false), .empty, .empty, .empty, cs, ByteDisk.noPads⟩⟩ :=
    .machine (.valid (dop := .reqRead 0 (sbLoc false)) (.sb false)
      (by rw [q1]; exact .noop (.inr (.inl rfl)) (.inl rfl))
      (by rw [q2]; exact .pageSb rfl rfl)) (ByteDisk.Next.recvRead (d := still cs) rfl rfl)
  have st2 : ByteSystem.Next flat c false
      ⟨.unready, .loading ⟨setAt (fun _ => none) false (some 0), fun _ => .unfinished, .empty⟩,
        ⟨PMap.insert .empty 0 (sbLoc false), .empty, .empty, .empty, cs, ByteDisk.noPads⟩⟩ none
      ⟨.unready, .loading ⟨setAt (fun _ => none) false (some 0), fun _ => .unfinished, .empty⟩,
        ⟨.empty, .empty, PMap.insert .empty 0 ⟨0, List.replicate 4096 1⟩, .empty, cs, ByteDisk.noPads⟩⟩ := by
    have := ByteDisk.Internal.processReadFailure (crc := c.crc) (kind := false) (id := 0)
      (fake := List.replicate 4096 1)
      (d := ⟨PMap.insert .empty 0 (sbLoc false), .empty, .empty, .empty, cs, ByteDisk.noPads⟩)
      (by dsimp only; exact PMap.insert_same _ _ _) hl0 (by rw [hrl, List.length_replicate]; rfl) hne
      (fun i j _ _ _ hf => absurd hf (hnc i j))
    dsimp only at this
    rw [c1] at this
    exact .disk this
  have st3 : ByteSystem.Next flat c false
      ⟨.unready, .loading ⟨setAt (fun _ => none) false (some 0), fun _ => .unfinished, .empty⟩,
        ⟨.empty, .empty, PMap.insert .empty 0 ⟨0, List.replicate 4096 1⟩, .empty, cs, ByteDisk.noPads⟩⟩
      (some ⟨.journalInternal, some .noop⟩)
      ⟨.unready, .loading ⟨setAt (setAt (fun _ => none) false (some 0)) false none,
        setAt (fun _ => .unfinished) false .corruption, .empty⟩, still cs⟩ := by
    have := ByteDisk.Next.ackRead (kind := false) (id := 0) (r := ⟨0, List.replicate 4096 1⟩)
      (d := ⟨.empty, .empty, PMap.insert .empty 0 ⟨0, List.replicate 4096 1⟩, .empty, cs, ByteDisk.noPads⟩)
      (by dsimp only; exact PMap.insert_same _ _ _)
    dsimp only at this
    rw [c2] at this
    refine .machine (.valid (dop := .respRead 0 ⟨0, List.replicate 4096 1⟩)
      (by show ValidLoc _; rw [hfl]; exact .sb false)
      (by rw [q3]; exact .noop (.inr (.inl rfl)) (.inl rfl)) ?_) this
    rw [q4]
    dsimp only
    rw [hn]
    exact .pageSbBad rfl (by intro x hx; cases hx)
  have st4 : ByteSystem.Next flat c false
      ⟨.unready, .loading ⟨setAt (setAt (fun _ => none) false (some 0)) false none,
        setAt (fun _ => .unfinished) false .corruption, .empty⟩, still cs⟩
      (some ⟨.pushSync 7, some .noop⟩)
      ⟨.unready, .loading ⟨setAt (setAt (fun _ => none) false (some 0)) false none,
        setAt (fun _ => .unfinished) false .corruption, PMap.insert .empty 7 .s3⟩, still cs⟩ :=
    .machine (.valid (dop := .none) trivial (.noop (.inr (.inr (.inl ⟨_, rfl⟩))) (.inl rfl))
      (.pushSync (s := .loading ⟨setAt (setAt (fun _ => none) false (some 0)) false none,
        setAt (fun _ => .unfinished) false .corruption, .empty⟩) rfl)) .stutter
  exact ⟨_, ⟨_, hin, .cons st1 (.cons st2 (.cons st3 (.cons st4 (.nil _))))⟩, _, rfl, rfl, rfl⟩

end Verif.Kv.ByteDemo
