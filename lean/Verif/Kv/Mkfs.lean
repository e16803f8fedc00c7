import Verif.Kv.SectorProof
import Verif.Kv.PivotMap
import Verif.Kv.FullProof
/-
A fresh file: `Mkfs` (Impl/Mkfs.i.dfy:36-104) and that a store opened on it is in its initial state
(`InitialStateSatisfiesSystemInit`, Impl/MkfsModel.i.dfy:66-).
-/
namespace Verif.Kv.Mkfs
open SectorBytes Pivot BlockSystem BlockCache
open ByteSystem (still byteOf bytesAt superblockAt blockDisk journalDisk)
open Marshal (InG Valid V G)

/-- `bNode`, Mkfs.i.dfy:44-55 -/
def nodePart : List UInt8 :=
  checked (.case 2 (nodeVal emptyNode)) (Marshal.size (.case 2 (nodeVal emptyNode)))

/-- `nodeLoc`, Mkfs.i.dfy:42, 57 -/
def nodeLoc : Loc := ⟨nodeBlockSize * minNodeBlockIndex, nodePart.length⟩

/-- The one row of `IndirectionTable.Alloc` (Impl/IndirectionTable.i.dfy:200-222) -/
def rows : List Row := [⟨rootRef, nodeLoc, []⟩]

/-- `bIndirectionTable`, Mkfs.i.dfy:62-77 -/
def tablePart : List UInt8 := checked (.case 1 (tableVal rows)) (Marshal.size (.case 1 (tableVal rows)))

/-- `indirectionTableLoc`, Mkfs.i.dfy:41, 79 -/
def tableLoc : Loc := ⟨table1Addr, tablePart.length⟩

/-- The superblock, Mkfs.i.dfy:82 -/
def superblock : Superblock := ⟨0, 0, 0, tableLoc⟩

/-- `Mkfs`, Mkfs.i.dfy:36-104: what goes where -/
def mkfs : List (Nat × List UInt8) :=
  [(superblock1Loc.addr, superblockBytes superblock), (superblock2Loc.addr, superblockBytes superblock),
    (table1Addr, tablePart), (nodeLoc.addr, nodePart)]

/-- `BlocksWrittenInByteSeq`, ByteBlockCacheSystem/AsyncDiskModel.s.dfy:342-350 -/
def WrittenIn (bs : List (Nat × List UInt8)) (contents : List UInt8) : Prop :=
  ∀ x ∈ bs, x.1 + x.2.length ≤ contents.length ∧ (contents.drop x.1).take x.2.length = x.2

/-! ### The parts -/

theorem emptyOk : NodeOk emptyNode where
  wf := by
    refine { sorted := empty_good.sorted, two := empty_good.two, buckets := empty_good.buckets,
             edges := empty_good.edges, children := empty_good.children, lcps := ?_, msgs := ?_ }
    · intro i e h
      have := List.mem_of_getElem? h
      simp [emptyNode] at this
    · intro i b x h hx
      have := List.mem_of_getElem? h
      simp only [emptyNode, List.mem_cons, List.not_mem_nil, or_false] at this
      subst this; cases hx
  many := by simp [emptyNode, maxChildren]
  weight := by simp [emptyNode, SectorBytes.weight, bucketWeight]
  pivots := by
    intro k hk
    simp only [emptyNode, List.mem_cons, Elem.key.injEq, reduceCtorEq, List.not_mem_nil, or_false] at hk
    subst hk; exact Nat.zero_le _
  edges := by intro k hk; simp [emptyNode] at hk
  keys := by
    intro b hb x hx
    simp only [emptyNode, List.mem_cons, List.not_mem_nil, or_false] at hb
    subst hb; cases hx
  values := by
    intro b hb x hx
    simp only [emptyNode, List.mem_cons, List.not_mem_nil, or_false] at hb
    subst hb; cases hx
  refs := by intro cs h; simp [emptyNode] at h

theorem nodeBytes_empty : nodeBytes emptyNode = some nodePart := by
  unfold nodeBytes
  exact if_pos (fun b hb => by
    simp only [emptyNode, List.mem_cons, List.not_mem_nil, or_false] at hb
    subst hb; exact List.Pairwise.nil)

theorem inG_case {c : Nat} {v : V} {g : G} (h : [superblockG, tableG, nodeG][c]? = some g) (hv : InG v g) :
    InG (.case c v) sectorG := .case h hv

theorem node_sector : codec.sector nodePart = some (.node emptyNode) := by
  unfold nodePart
  rw [checked_back (inG_case (g := nodeG) rfl (nodeVal_inG _)) (.case (by decide) (nodeVal_valid emptyOk))]
  unfold sectorOfVal
  dsimp only
  rw [if_neg (by decide), if_neg (by decide), node_back emptyOk]
  rfl

theorem nodeLoc_valid : ValidNodeLoc nodeLoc := by
  refine ⟨⟨Nat.mul_mod_right _ _, Nat.le_refl _⟩, ?_⟩
  show nodePart.length ≤ nodeBlockSize
  unfold nodePart
  rw [checked_length (Nat.le_refl _)]
  exact nodeVal_size emptyOk

/-- The table of a fresh file. -/
def table : Table := ⟨PMap.insert .empty rootRef nodeLoc, PMap.insert .empty rootRef []⟩

theorem ins_root {V : Type} {v w : V} {r : Ref} (h : (PMap.insert PMap.empty rootRef v) r = some w) :
    r = rootRef ∧ w = v := by
  by_cases e : r = rootRef
  · subst e; rw [PMap.insert_same] at h; cases h; exact ⟨rfl, rfl⟩
  · rw [PMap.insert_other _ _ e] at h; cases h

theorem table_wf : WFComplete table where
  valid r l h := by obtain ⟨_, rfl⟩ := ins_root h; exact nodeLoc_valid
  sub r l h := by obtain ⟨rfl, _⟩ := ins_root h; simp [table, PMap.insert_same]
  root := by simp [table, PMap.insert_same]
  closed r ss h x hx := by obtain ⟨_, rfl⟩ := ins_root h; cases hx
  complete r h := by
    by_cases e : r = rootRef
    · subst e; simp [table, PMap.insert_same]
    · exact absurd (PMap.insert_other _ _ e) h

theorem table_distinct : Distinct table := by
  intro r r' l l' h h' _
  rw [(ins_root h).1, (ins_root h').1]

theorem describes : Describes rows table where
  distinct := by simp [rows]
  row x hx := by
    simp only [rows, List.mem_cons, List.not_mem_nil, or_false] at hx
    subst hx
    exact ⟨PMap.insert_same .empty rootRef nodeLoc, PMap.insert_same .empty rootRef []⟩
  locs r h := ⟨_, List.mem_cons_self, by
    cases e : table.locs r with
    | none => exact absurd e h
    | some l => exact (ins_root e).1.symm⟩
  graph r h := ⟨_, List.mem_cons_self, by
    cases e : table.graph r with
    | none => exact absurd e h
    | some l => exact (ins_root e).1.symm⟩

theorem rowsOk : ∀ x ∈ rows, RowOk x := by
  intro x hx
  simp only [rows, List.mem_cons, List.not_mem_nil, or_false] at hx
  subst hx
  exact ⟨by decide, by show nodeBlockSize * minNodeBlockIndex < 2 ^ 64; decide, Nat.zero_le _,
    fun r hr => by cases hr⟩

theorem table_sector : codec.sector tablePart = some (.table table) := by
  unfold tablePart
  rw [checked_back (inG_case (g := tableG) rfl (tableVal_inG _)) (.case (by decide) (tableVal_valid rowsOk
    (fun x hx => table_wf.valid _ _ (describes.row x hx).1) (by show 1 ≤ maxTable; decide)))]
  unfold sectorOfVal
  dsimp only
  rw [if_neg (by decide), if_pos rfl, table_back describes table_wf rowsOk (by show 1 ≤ maxTable; decide)]
  rfl

theorem tablePart_length : tablePart.length = 80 := by
  unfold tablePart
  rw [checked_length (Nat.le_refl _)]
  simp [tableVal, rows, rowVal, Marshal.size, Marshal.sizes]

theorem tableBytes_rows : tableBytes rows = some tablePart := by
  have h : Marshal.size (.case 1 (tableVal rows)) = 48 := by
    simp [tableVal, rows, rowVal, Marshal.size, Marshal.sizes]
  unfold tableBytes
  dsimp only
  rw [if_neg (by rw [h]; decide)]
  rfl

theorem tableLoc_valid : ValidTableLoc tableLoc := by
  have h : tableLoc.len = 80 := tablePart_length
  refine ⟨.inl rfl, ?_, ?_⟩ <;> rw [h] <;> decide

theorem sbOk : SuperblockBytes.SbOk superblock :=
  ⟨⟨by show 0 < numJournalBlocks; decide, Nat.zero_le _, tableLoc_valid⟩, by show 0 < 2 ^ 64; decide⟩

theorem superblock_sector : codec.sector (superblockBytes superblock) = some (.superblock superblock) := by
  unfold superblockBytes
  rw [checked_back (inG_case (g := superblockG) rfl (superblockVal_inG _))
    (.case (by decide) (superblockVal_valid sbOk))]
  unfold sectorOfVal
  dsimp only
  rw [if_pos rfl, superblock_back sbOk.1]
  rfl

theorem superblockBytes_length (sb : Superblock) : (superblockBytes sb).length = 4096 := by
  unfold superblockBytes
  rw [checked_length]
  show 48 ≤ 4064
  decide

/-! ### The fresh file -/

theorem bytes_of {contents b : List UInt8} {a : Nat} (h : a + b.length ≤ contents.length)
    (e : (contents.drop a).take b.length = b) : bytesAt (byteOf contents) ⟨a, b.length⟩ = b := by
  rw [← read_eq (l := ⟨a, b.length⟩) h]
  exact e

/-- What is read of a fresh file. -/
theorem reads {contents : List UInt8} (h : WrittenIn mkfs contents) :
    (∀ w, superblockAt codec contents w = some superblock) ∧
      codec.table (bytesAt (byteOf contents) tableLoc) = some table ∧
      codec.node (bytesAt (byteOf contents) nodeLoc) = some emptyNode := by
  have hS1 := h _ (List.mem_cons_self ..)
  have hS2 := h _ (List.mem_cons_of_mem _ (List.mem_cons_self ..))
  have hT := h _ (List.mem_cons_of_mem _ (List.mem_cons_of_mem _ (List.mem_cons_self ..)))
  have hN := h _ (List.mem_cons_of_mem _ (List.mem_cons_of_mem _ (List.mem_cons_of_mem _ (List.mem_cons_self ..))))
  dsimp only at hS1 hS2 hT hN
  refine ⟨fun w => ?_, ?_, ?_⟩
  · have hw := sb_bounds w
    have hl : (superblockBytes superblock).length = 4096 := superblockBytes_length _
    rw [hl] at hS1 hS2
    unfold superblockAt
    cases w
    · rw [if_pos (show (sbLoc false).addr + (sbLoc false).len ≤ contents.length from hS1.1)]
      show codec.superblock ((contents.drop superblock1Loc.addr).take 4096) = _
      rw [hS1.2, Codec.superblock, superblock_sector]
    · rw [if_pos (show (sbLoc true).addr + (sbLoc true).len ≤ contents.length from hS2.1)]
      show codec.superblock ((contents.drop superblock2Loc.addr).take 4096) = _
      rw [hS2.2, Codec.superblock, superblock_sector]
  · rw [show tableLoc = ⟨table1Addr, tablePart.length⟩ from rfl, bytes_of hT.1 hT.2,
      Codec.table, table_sector]
  · rw [show nodeLoc = ⟨nodeLoc.addr, nodePart.length⟩ from rfl, bytes_of hN.1 hN.2,
      Codec.node, node_sector]

/-- **A store opened on a fresh file is in its initial state**, whatever else the file holds. -/
theorem init {contents : List UInt8} (h : WrittenIn mkfs contents) (kind : ByteDisk.Kind) :
    (Full.machine Pivot.app codec (fun n => n = emptyNode) tableLoc kind).Init
      ⟨.unready, Committer.init, still contents⟩ := by
  obtain ⟨hsb, hT, hN⟩ := reads h
  have htab : (blockDisk codec (byteOf contents)).tables tableLoc = some table := by
    unfold blockDisk
    dsimp only
    rw [if_pos tableLoc_valid, hT]
  have hnod : (blockDisk codec (byteOf contents)).nodes nodeLoc = some emptyNode := by
    unfold blockDisk
    dsimp only
    rw [if_pos nodeLoc_valid, hN]
  have hg : PMap.insert .empty rootRef emptyNode =
      dcGraph table (blockDisk codec (byteOf contents)).nodes .empty := by
    funext x
    by_cases e : x = rootRef
    · subst e
      unfold dcGraph
      rw [show table.graph rootRef = some [] from PMap.insert_same .empty rootRef [],
        show table.locs rootRef = some nodeLoc from PMap.insert_same .empty rootRef nodeLoc, PMap.insert_same]
      exact hnod.symm
    · unfold dcGraph
      rw [show table.graph x = none from PMap.insert_other _ _ e, PMap.insert_other _ _ e]
      rfl
  have him : Image Pivot.app (blockDisk codec (byteOf contents)) tableLoc
      (PMap.insert .empty rootRef emptyNode) := by
    refine ⟨tableLoc_valid, table, htab, table_wf, table_distinct, hg, ?_, ?_⟩
    · intro r
      by_cases e : r = rootRef
      · subst e
        rw [show table.graph rootRef = some [] from PMap.insert_same .empty rootRef [], PMap.insert_same]
        simp
      · rw [show table.graph r = none from PMap.insert_other _ _ e, PMap.insert_other _ _ e]
        exact ⟨fun _ => rfl, fun _ => rfl⟩
    · intro r ss n h1 h2 x
      obtain ⟨_, rfl⟩ := ins_root h1
      obtain ⟨_, rfl⟩ := ins_root h2
      exact ⟨fun h => (by cases h), fun ⟨cs, h, _⟩ => (by cases h)⟩
  refine ⟨rfl, ⟨rfl, rfl, rfl, rfl⟩, ⟨rfl, ⟨rfl, rfl, rfl, rfl⟩, emptyNode, him, rfl, ?_⟩, ?_⟩
  · rintro x ⟨cs, h, _⟩
    cases h
  · exact ⟨rfl, ⟨fun _ _ h => h, rfl, fun _ => rfl, rfl⟩, fun _ => superblock,
      fun w => ⟨hsb w, sbOk.1⟩, rfl, rfl, rfl⟩

/-- A file with nothing but what mkfs writes. -/
def image : List UInt8 := (List.range (nodeLoc.addr + nodePart.length)).map fun i =>
  if i < 4096 then (superblockBytes superblock)[i]?.getD 0
  else if i < 8192 then (superblockBytes superblock)[i - 4096]?.getD 0
  else if i < table1Addr + tablePart.length then tablePart[i - table1Addr]?.getD 0
  else nodePart[i - nodeLoc.addr]?.getD 0

theorem image_part {f : Nat → UInt8} {n a : Nat} {b : List UInt8} (hn : a + b.length ≤ n)
    (h : ∀ i, i < b.length → f (a + i) = b[i]?.getD 0) :
    (((List.range n).map f).drop a).take b.length = b := by
  refine List.ext_getElem? fun i => ?_
  rw [List.getElem?_take, List.getElem?_drop, List.getElem?_map]
  by_cases hi : i < b.length
  · rw [if_pos hi, List.getElem?_range (by omega), List.getElem?_eq_getElem hi]
    show some (f (a + i)) = _
    rw [h i hi, List.getElem?_eq_getElem hi]; rfl
  · rw [if_neg hi, List.getElem?_eq_none (by omega)]

theorem addrs : 8192 ≤ table1Addr ∧ table1Addr + 80 ≤ nodeLoc.addr := by
  show 8192 ≤ table1Addr ∧ table1Addr + 80 ≤ nodeBlockSize * minNodeBlockIndex
  decide

/-- `BlocksDontIntersect`, AsyncDiskModel.s.dfy:352-356 -/
def Apart (bs : List (Nat × List UInt8)) : Prop :=
  bs.Pairwise fun x y => x.1 + x.2.length ≤ y.1 ∨ y.1 + y.2.length ≤ x.1

theorem mkfs_apart : Apart mkfs := by
  obtain ⟨h1, h2⟩ := addrs
  have hl : (superblockBytes superblock).length = 4096 := superblockBytes_length _
  have ht := tablePart_length
  have hS1 : superblock1Loc.addr = 0 := rfl
  have hS2 : superblock2Loc.addr = 4096 := rfl
  unfold Apart mkfs
  simp only [List.pairwise_cons, List.mem_cons, List.not_mem_nil, or_false, forall_eq_or_imp, forall_eq,
    List.Pairwise.nil, and_true, IsEmpty.forall_iff, implies_true, false_implies, hl, ht, hS1, hS2]
  omega

theorem image_written : WrittenIn mkfs image := by
  obtain ⟨h1, h2⟩ := addrs
  have hl : (superblockBytes superblock).length = 4096 := superblockBytes_length _
  have ht := tablePart_length
  have hlen : image.length = nodeLoc.addr + nodePart.length := by simp [image]
  intro x hx
  rw [hlen]
  simp only [mkfs, List.mem_cons, List.not_mem_nil, or_false] at hx
  generalize hA : nodeLoc.addr = A at *
  have hS1 : superblock1Loc.addr = 0 := rfl
  have hS2 : superblock2Loc.addr = 4096 := rfl
  rcases hx with rfl | rfl | rfl | rfl <;> dsimp only
  · refine ⟨by omega, ?_⟩
    unfold image
    refine image_part (by omega) fun i hi => ?_
    rw [if_pos (by omega), hS1, Nat.zero_add]
  · refine ⟨by omega, ?_⟩
    unfold image
    refine image_part (by omega) fun i hi => ?_
    rw [if_neg (by omega), if_pos (by omega), hS2, Nat.add_sub_cancel_left]
  · refine ⟨by omega, ?_⟩
    unfold image
    refine image_part (by omega) fun i hi => ?_
    rw [if_neg (by omega), if_neg (by omega), if_pos (by omega), Nat.add_sub_cancel_left]
  · refine ⟨Nat.le_refl _, ?_⟩
    unfold image
    refine image_part (by omega) fun i hi => ?_
    rw [if_neg (by omega), if_neg (by omega), if_neg (by omega), hA, Nat.add_sub_cancel_left]

end Verif.Kv.Mkfs
